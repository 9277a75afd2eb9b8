import Verif.Proofs.CompositeObj2
import Verif.Proofs.CompositeFlags
import Verif.Proofs.CompositeUnits
import Verif.Proofs.Described
/-
C76: whole descriptions.
-/
namespace Wjson
open Spec

theorem value_cases {c : Cfg} {s p : Bytes} {e : EPtr} (hr : parseValue c s .fresh = .ok (p, e)) :
    (e = .fresh ∧ PassesValue c s p) ∨ ∃ x, e = .obj x ∧ x.code ≠ .ValidJSON ∧ RawFault c s x := by
  rcases parseValue_safe c s .fresh with ⟨h, _⟩ | ⟨p1, e1, h, _, h2⟩
  · rw [h] at hr; cases hr
  · rw [h] at hr
    cases hr
    rcases h2.clean EPtr.fresh_clean with rfl | hf
    · exact .inl ⟨rfl, h⟩
    · cases e with
      | null => cases hf
      | obj x =>
        have hc : x.code ≠ .ValidJSON := by simpa [EPtr.failed, JError.status] using hf
        exact .inr ⟨x, rfl, hc, hc, p, h⟩

theorem raw_diagnosed (c : Cfg) (v0 : Bytes) : Diagnosed (deRaw c) v0 (RawFault c) := by
  refine diagnosed_mk (fun s v p e hr => ?_) (fun s x hx v p e hr => ?_)
  · simp only [deRaw] at hr
    cases hm : parseValue c s .fresh with
    | ub => rw [hm] at hr; cases hr
    | fuel => rw [hm] at hr; cases hr
    | ok y =>
      rw [hm, Out.bind_ok] at hr
      cases hr
      rcases value_cases hm with ⟨rfl, _⟩ | ⟨x, rfl, _, h⟩
      · exact .inl rfl
      · exact .inr ⟨x, rfl, h⟩
  · obtain ⟨hcd, q, hq⟩ := hx
    simp only [deRaw, hq, Out.bind_ok] at hr
    cases hr
    exact ⟨rfl, hcd⟩

theorem rawQuoted_diagnosed (c : Cfg) (req : Bool) (v0 : Bytes) : Diagnosed (deRawQuoted c req) v0 (RawQuotedFault c req) := by
  refine diagnosed_mk (fun s v p e hr => ?_) (fun s x hx v p e hr => ?_)
  · cases s with
    | nil => cases hr; exact .inr ⟨_, rfl, .none⟩
    | cons b t =>
      cases req with
      | false =>
        simp only [deRawQuoted, Bool.false_and, Bool.false_eq_true, if_false] at hr
        cases hm : parseValue c (b :: t) .fresh with
        | ub => rw [hm] at hr; cases hr
        | fuel => rw [hm] at hr; cases hr
        | ok y =>
          obtain ⟨q, e1⟩ := y
          rw [hm, Out.bind_ok] at hr
          rcases value_cases hm with ⟨rfl, _⟩ | ⟨x, rfl, hcd, h⟩
          · rw [if_neg (show ¬ EPtr.fresh.failed = true by decide)] at hr
            cases hr
            exact .inl rfl
          · simp only [obj_failed hcd, if_true] at hr
            cases hr
            exact .inr ⟨x, rfl, .plain rfl h⟩
      | true =>
        by_cases hb : b = c%'"'
        · subst hb
          simp only [deRawQuoted, Bool.true_and, ne_eq, not_true, decide_false, Bool.false_eq_true, if_false, if_true] at hr
          cases hm : parseValue c t .fresh with
          | ub => rw [hm] at hr; cases hr
          | fuel => rw [hm] at hr; cases hr
          | ok y =>
            obtain ⟨q, e1⟩ := y
            rw [hm, Out.bind_ok] at hr
            rcases value_cases hm with ⟨rfl, hp⟩ | ⟨x, rfl, hcd, h⟩
            · rw [if_neg (show ¬ EPtr.fresh.failed = true by decide)] at hr
              cases q with
              | nil => cases hr; exact .inr ⟨_, rfl, .cut rfl hp⟩
              | cons d q =>
                simp only at hr
                split at hr
                · cases hr; exact .inl rfl
                · next hd => cases hr; exact .inr ⟨_, rfl, .close rfl hp hd⟩
            · simp only [obj_failed hcd, if_true] at hr
              cases hr
              exact .inr ⟨x, rfl, .value rfl h⟩
        · simp only [deRawQuoted, Bool.true_and, ne_eq, hb, not_false_eq_true, decide_true, if_true] at hr
          cases hr
          exact .inr ⟨_, rfl, .quote rfl hb⟩
  · cases hx with
    | none => cases hr; exact ⟨rfl, by simp [endErr]⟩
    | quote hq hb =>
      subst hq
      simp only [deRawQuoted, Bool.true_and, ne_eq, hb, not_false_eq_true, decide_true, if_true] at hr
      cases hr
      exact ⟨rfl, by simp [expectAt]⟩
    | value hq h =>
      subst hq
      obtain ⟨hcd, q, hq⟩ := h
      simp only [deRawQuoted, Bool.true_and, ne_eq, not_true, decide_false, Bool.false_eq_true, if_false, if_true, hq, Out.bind_ok,
        obj_failed hcd] at hr
      cases hr
      exact ⟨rfl, hcd⟩
    | plain hq h =>
      subst hq
      obtain ⟨hcd, q, hq⟩ := h
      simp only [deRawQuoted, Bool.false_and, Bool.false_eq_true, if_false, hq, Out.bind_ok, obj_failed hcd, if_true] at hr
      cases hr
      exact ⟨rfl, hcd⟩
    | cut hq h =>
      subst hq
      rw [PassesValue] at h
      simp only [deRawQuoted, Bool.true_and, ne_eq, not_true, decide_false, Bool.false_eq_true, if_false, if_true, h, Out.bind_ok] at hr
      rw [if_neg (show ¬ EPtr.fresh.failed = true by decide)] at hr
      cases hr
      exact ⟨rfl, by simp [endErr]⟩
    | close hq h hb =>
      subst hq
      rw [PassesValue] at h
      simp only [deRawQuoted, Bool.true_and, ne_eq, not_true, decide_false, Bool.false_eq_true, if_false, if_true, h, Out.bind_ok, hb] at hr
      rw [if_neg (show ¬ EPtr.fresh.failed = true by decide)] at hr
      cases hr
      exact ⟨rfl, by simp [expectAt]⟩

theorem tabled_safeU {c : Cfg} {U : Prop} (hw : c.wrapv = false → U) (hc : c.past = none ∨ c.past = some c%']' → U)
    (hu : units = true → U) {α : Type} {S : Ser α} {F : α → Bytes → JError → Prop} (h : Tabled c units S F) : Safe U S.de := by
  have hF : False → U := fun h => h.elim
  induction h with
  | int ty => exact (deInt_safe c ty).mono hw
  | bool => exact deBool_safe.mono hF
  | float T R => exact (deFloat_safe T R).mono hF
  | str => exact deStr_safe.mono hF
  | chars N => exact (deCharArray_safe N).mono hF
  | enum strict dflt L => exact deEnum_safe c strict dflt L
  | flags G _ _ _ => exact (deFlags_safe c G).mono fun h => hc (.inl h)
  | time ty fr h => exact fun v s e => SafeOut.mono (fun _ => hu h) (List.suffix_refl _) (.refl _ _) (deTime_safe c ty fr v s e)
  | size ty m h => exact fun v s e => SafeOut.mono (fun _ => hu h) (List.suffix_refl _) (.refl _ _) (deSize_safe c ty m v s e)
  | raw => exact (deRaw_safe c).mono fun h => hc (.inl h)
  | rawQuoted _ r => exact (deRawQuoted_safe c r).mono fun h => hc (.inl h)
  | quoted _ r _ ih => exact deQuoted_safe ih r
  | pointer _ ih => exact dePointer_safe ih
  | memberValue d g s _ ih => exact memberValue_safe ih d g s
  | array K _ ih => exact deSeq_safe ih
  | dict K _ _ ih1 ih2 => exact deSeq_safe (S := fieldSer _ _) (deField_safe ih1 ih2)
  | field _ _ ih1 ih2 => exact deField_safe ih1 ih2
  | fixed k N _ ih => exact deFix_safe ih
  | objectArray d _ _ _ ih ihl ihr =>
    refine deObjectArray_safe fun m hm => ?_
    obtain ⟨x, hx, rfl⟩ := List.mem_map.mp hm
    cases x with
    | one en F => exact Entry.asafe (ih en F hx)
    | alt l r i RU Fl Fr => exact amemberIf_safe (ihl l r i RU Fl Fr hx) (ihr l r i RU Fl Fr hx) i RU
  | object strict d _ _ _ _ _ ih ihl ihr =>
    refine deObject_safe hc fun m hm => ?_
    obtain ⟨x, hx, rfl⟩ := List.mem_map.mp hm
    cases x with
    | one en F => exact Entry.safe (ih en F hx)
    | alt l r i RU Fl Fr => exact memberIf_safe (ihl l r i RU Fl Fr hx) (ihr l r i RU Fl Fr hx) i RU

theorem tabled_safe {c : Cfg} {α : Type} {S : Ser α} {F : α → Bytes → JError → Prop} (h : Tabled c units S F) : Safe True S.de :=
  tabled_safeU (fun _ => trivial) (fun _ => trivial) (fun _ => trivial) h

theorem tabled_diagnosed {c : Cfg} {α : Type} {S : Ser α} {F : α → Bytes → JError → Prop} (h : Tabled c units S F) (v : α) :
    Diagnosed S.de v (F v) := by
  induction h with
  | int ty => exact diagnosed_of (deInt_safe c ty) (fun _ _ h => (int_sound c ty v h).tells) (int_dich c ty v)
  | bool => exact diagnosed_of deBool_safe (fun _ _ h => (bool_sound v h).tells) (bool_dich v)
  | float T R => exact diagnosed_of (deFloat_safe T R) (fun _ _ h => (float_sound T R v h).tells) (float_dich T R v)
  | str => exact str_diagnosed v
  | chars N => exact diagnosed_of (deCharArray_safe N) (fun _ _ => chars_sound N v) (chars_dich N v)
  | enum strict dflt L =>
    rw [show lowByte c.charSigned = leSpace c from funext fun b => by simp [lowByte, leSpace]]
    exact diagnosed_of (deEnum_safe (U := True) c strict dflt L) (fun _ _ h => (enum_sound c strict dflt L v h).tells)
      (enum_dich c strict dflt L v)
  | flags G h1 h2 h3 => exact flags_diagnosed h1 h2 h3 v
  | time ty fr _ => exact time_diagnosed c ty fr v
  | size ty m _ => exact size_diagnosed c ty m v
  | raw => exact raw_diagnosed c v
  | rawQuoted _ r => exact rawQuoted_diagnosed c r v
  | quoted _ r _ ih => exact quoted_diagnosed r ih v
  | pointer _ ih => exact pointer_diagnosed (ih _) v
  | memberValue d g s _ ih => exact memberValue_diagnosed ih v
  | array K h ih => exact seq_diagnosed (by decide) (by decide) (tabled_safe h) (ih _) v
  | dict K h1 h2 ih1 ih2 =>
    exact seq_diagnosed (by decide) (by decide) (S := fieldSer _ _) (deField_safe (tabled_safe h1) (tabled_safe h2))
      (field_diagnosed (tabled_safe h2) (ih1 _) (ih2 _)) v
  | field h1 h2 ih1 ih2 => exact field_diagnosed (tabled_safe h2) (ih1 _) (ih2 _)
  | fixed k N h ih => exact fix_diagnosed (tabled_safe h) ih v
  | objectArray d h hl hr ih ihl ihr =>
    refine positional_diagnosed (U := True) (fun x hx => ?_) v
    cases x with
    | one en F => exact one_told (tabled_safe (h en F hx)) (ih en F hx)
    | alt l r i RU Fl Fr =>
      exact alt_told (tabled_safe (hl l r i RU Fl Fr hx)) (tabled_safe (hr l r i RU Fl Fr hx)) (ihl l r i RU Fl Fr hx) (ihr l r i RU Fl Fr hx) i RU
  | object strict d hnd hn h hl hr ih ihl ihr =>
    refine object_diagnosed (U := True) (fun x hx => ?_) hnd (fun _ => trivial) v
    cases x with
    | one en F => exact one_named (tabled_safe (h en F hx)) (ih en F hx) (hn _ hx).1
    | alt l r i RU Fl Fr =>
      exact alt_named (tabled_safe (hl l r i RU Fl Fr hx)) (tabled_safe (hr l r i RU Fl Fr hx)) (ihl l r i RU Fl Fr hx) (ihr l r i RU Fl Fr hx) i RU
        (hn _ hx).1 (hn _ hx).2

end Wjson
