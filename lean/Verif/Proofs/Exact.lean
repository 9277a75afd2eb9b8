import Verif.Spec.Denotes
import Verif.Proofs.Described
import Verif.Proofs.ObjectRead
import Verif.Proofs.Containers
/-
The readers accept exactly the texts of the denotation: scalars and containers.
-/
namespace Wjson
open Spec

/-- First bytes that no value has. -/
def Headed (t : Bytes) : Prop :=
  ∃ b u, t = b :: u ∧ b ≠ c%']' ∧ b ≠ c%'}' ∧ b ≠ c%',' ∧ b ≠ c%':' ∧ b ≠ c%'*'

/-- What the reader accepts is a text of `D`; unless `f`, as long as something
follows. -/
structure Sounds (f : Bool) {α : Type} (S : Ser α) (D : Den α) : Prop where
  safe : Safe True S.de
  sound : ∀ {v0 v s p e}, e.Clean → s.length ≤ intMax → Delim p → (f = true ∨ p ≠ []) → S.de v0 s e = .ok (v, p, e) →
    ∃ t, s = t ++ p ∧ D v0 v t
  head : ∀ {v0 v t}, D v0 v t → Headed t

/-- The same; `null` is read if it is a text of `D`, and of a text that starts
with `null` just that is read. -/
structure SoundsNull (f : Bool) {α : Type} (S : Ser α) (D : Den α) : Prop extends Sounds f S D where
  null : ∀ {v0 v r p e}, e.Clean → (b!"null" ++ r).length ≤ intMax → Delim r → S.de v0 (b!"null" ++ r) e = .ok (v, p, e) →
    p = r ∧ D v0 v b!"null"
  reads : ∀ {v0 v}, D v0 v b!"null" → ReadsAt S.de v0 b!"null" v

/-- The reader accepts exactly the texts of `D`, as long as something follows. -/
structure Accepts {α : Type} (S : Ser α) (D : Den α) : Prop where
  safe : Safe True S.de
  sound : ∀ {v0 v s p e}, e.Clean → s.length ≤ intMax → Delim p → p ≠ [] → S.de v0 s e = .ok (v, p, e) →
    ∃ t, s = t ++ p ∧ D v0 v t
  complete : ∀ {v0 v t}, D v0 v t → t.length ≤ intMax → ReadsAt S.de v0 t v
  head : ∀ {v0 v t}, D v0 v t → Headed t

/-- The same; of a text that starts with `null` just that is read. -/
structure Inner {α : Type} (S : Ser α) (D : Den α) : Prop extends Accepts S D where
  null : ∀ {v0 v r p e}, e.Clean → (b!"null" ++ r).length ≤ intMax → Delim r → S.de v0 (b!"null" ++ r) e = .ok (v, p, e) →
    p = r ∧ D v0 v b!"null"

/-- The reader accepts exactly the texts of `D`, also if nothing follows; a text
that starts with an `n` is read as `null` or not at all. -/
structure Exact {α : Type} (S : Ser α) (D : Den α) : Prop where
  safe : Safe True S.de
  sound : ∀ {v0 v s p e}, e.Clean → s.length ≤ intMax → Delim p → S.de v0 s e = .ok (v, p, e) → ∃ t, s = t ++ p ∧ D v0 v t
  complete : ∀ {v0 v t}, D v0 v t → t.length ≤ intMax → ReadsAt S.de v0 t v
  head : ∀ {v0 v t}, D v0 v t → Headed t
  null : ∀ {v0 v s p e}, e.Clean → s.head? = some c%'n' → S.de v0 s e = .ok (v, p, e) → s = b!"null" ++ p

/-- A description that knows where its texts end, whatever follows. -/
structure Closed {α : Type} (S : Ser α) (D : Den α) : Prop where
  safe : Safe True S.de
  sound : ∀ {v0 v s p e}, e.Clean → s.length ≤ intMax → S.de v0 s e = .ok (v, p, e) → ∃ t, s = t ++ p ∧ D v0 v t
  complete : ∀ {v0 v t}, D v0 v t → t.length ≤ intMax → ∀ rest e, e.failed = false → S.de v0 (t ++ rest) e = .ok (v, rest, e)

theorem Accepts.sounds {α : Type} {S : Ser α} {D : Den α} (h : Accepts S D) : Sounds false S D where
  safe := h.safe
  sound he hs hd hp hr := h.sound he hs hd (hp.resolve_left (by decide)) hr
  head := h.head

theorem Inner.sounds {α : Type} {S : Ser α} {D : Den α} (h : Inner S D) : SoundsNull false S D where
  toSounds := h.toAccepts.sounds
  null := h.null
  reads hd := h.complete hd (by decide)

theorem Exact.inner {α : Type} {S : Ser α} {D : Den α} (h : Exact S D) : Inner S D where
  safe := h.safe
  sound he hs hd _ hr := h.sound he hs hd hr
  complete := h.complete
  head := h.head
  null := by
    intro v0 v r p e he hl hd hr
    have hp := List.append_cancel_left (h.null he rfl hr)
    subst hp
    obtain ⟨t, h1, h2⟩ := h.sound he hl hd hr
    have : b!"null" = t := List.append_cancel_right h1
    subst this
    exact ⟨rfl, h2⟩

theorem Safe.any {α : Type} {U : Prop} {de : De α} (h : Safe U de) : Safe True de := h.mono fun _ => trivial

theorem headed_of_byte {b : Byte} {u : Bytes}
    (h : b = c%'n' ∨ b = c%'t' ∨ b = c%'f' ∨ b = c%'-' ∨ Digit b ∨ b = c%'"' ∨ b = c%'[' ∨ b = c%'{') : Headed (b :: u) := by
  refine ⟨b, u, rfl, ?_⟩
  revert h; revert b; unfold Digit; apply forall_byte; decide +kernel

theorem noDigit_of_delim {p : Bytes} (h : Delim p) : NoDigitNext p := fun b hb => (h b hb).1

/-! ### Scalars -/

theorem rint_head {i : Bytes} (h : RInt i) : ∃ d u, i = d :: u ∧ Digit d := by
  rcases h with rfl | ⟨d, ds, rfl, hd, _⟩
  · exact ⟨_, _, rfl, by decide⟩
  · exact ⟨d, ds, rfl, ⟨by have := hd.1; revert this; revert d; apply forall_byte; decide +kernel, hd.2⟩⟩

theorem intLit_head {t : Bytes} {x : Int} (h : IntLit t x) : ∃ b u, t = b :: u ∧ (b = c%'-' ∨ Digit b) := by
  obtain ⟨m, i, rfl, hm, hi, _⟩ := h
  obtain ⟨d, u, rfl, hd⟩ := rint_head hi
  rcases hm with rfl | rfl
  · exact ⟨d, u, rfl, .inr hd⟩
  · exact ⟨_, _, rfl, .inl rfl⟩

theorem not_n_of_num {b : Byte} (h : b = c%'-' ∨ Digit b) : b ≠ c%'n' := by
  revert h; revert b; unfold Digit; apply forall_byte; decide +kernel

/-- The digits at the start of a text. -/
theorem digits_split (s : Bytes) : ∃ ds r, s = ds ++ r ∧ (∀ b ∈ ds, Digit b) ∧ NoDigitNext r := by
  induction s with
  | nil => exact ⟨[], [], rfl, by simp, by simp [NoDigitNext]⟩
  | cons b s ih =>
    by_cases hb : Digit b
    · obtain ⟨ds, r, rfl, h1, h2⟩ := ih
      exact ⟨b :: ds, r, rfl, by simpa [hb] using h1, h2⟩
    · exact ⟨[], b :: s, rfl, by simp, by simpa [NoDigitNext] using hb⟩

theorem isDigit_digit {b : Byte} : isDigit b = true ↔ Digit b := by
  have : ∀ b : Byte, isDigit b = true ↔ Digit b := by unfold isDigit Digit; apply forall_byte; decide +kernel
  exact this b

theorem accInt_pos {c : Cfg} {ty : IntTy} {ds q : Bytes} (hd : ∀ b ∈ ds, Digit b) (hq : NoDigitNext q) {v x : Int} {p : Bytes}
    (h : accInt c ty v (ds ++ q) = .ok (x, p)) : p = q := by
  induction ds generalizing v with
  | nil =>
    rw [List.nil_append, accInt_stop c ty v hq] at h
    simp at h
    exact h.2.symm
  | cons d ds ih =>
    simp only [List.cons_append, accInt, isDigit_digit.mpr (hd d (by simp)), if_true] at h
    cases h1 : ty.arith c (v * 10) with
    | ub => rw [h1] at h; cases h
    | fuel => rw [h1] at h; cases h
    | ok y =>
      rw [h1, Out.bind_ok] at h
      cases h2 : ty.arith c (y + (d.toNat - 48 : Int)) with
      | ub => rw [h2] at h; cases h
      | fuel => rw [h2] at h; cases h
      | ok z =>
        rw [h2, Out.bind_ok] at h
        exact ih (fun b hb => hd b (by simp [hb])) h

/-- An error would show. -/
theorem EPtr.Clean.no_error {e : EPtr} (he : e.Clean) {code : Code} {m : Option Bytes} {t : Int} (hc : code ≠ .ValidJSON)
    (h : createError code e m t = e) : False := by
  have := he.create hc m t
  rw [h, he.not_failed] at this
  cases this

/-- What an integer is read from. -/
theorem deInt_inv {c : Cfg} {ty : IntTy} {v0 v : Int} {s p : Bytes} {e : EPtr} (he : e.Clean)
    (h : deInt c ty v0 s e = .ok (v, p, e)) :
    (s = b!"null" ++ p ∧ v = 0) ∨
      ∃ m i, s = m ++ i ++ p ∧ RMinus m ∧ RInt i ∧ (i = b!"0" ∧ v = 0 ∨ NoDigitNext p) := by
  unfold deInt at h
  split at h
  · rename_i hn
    simp only [Out.ok.injEq, Prod.mk.injEq] at h
    obtain ⟨rfl, h2, h3⟩ := h
    left
    refine ⟨?_, rfl⟩
    have := Acc.of_clean (parseNull_scan s) he (e' := e) (p := p) (Prod.ext h2 h3) he.not_failed
    exact parseNull_acc_iff.mp this
  · right
    unfold unserializeInteger at h
    cases s with
    | nil =>
      simp only [Out.ok.injEq, Prod.mk.injEq] at h
      exact (he.no_error (by decide) h.2.2).elim
    | cons b t =>
      have hm : ∃ m s', RMinus m ∧ b :: t = m ++ s' ∧ (if b = c%'-' then t else b :: t) = s' := by
        by_cases hb : b = c%'-'
        · exact ⟨b!"-", t, .inr rfl, by rw [hb]; rfl, if_pos hb⟩
        · exact ⟨[], b :: t, .inl rfl, rfl, if_neg hb⟩
      obtain ⟨m, s', hm1, hm2, hm3⟩ := hm
      simp only [hm3] at h
      rw [hm2]
      clear hm2 hm3
      cases s' with
      | nil =>
        simp only [Out.ok.injEq, Prod.mk.injEq] at h
        exact (he.no_error (by decide) h.2.2).elim
      | cons d r =>
        simp only at h
        by_cases hd : isDigit d = true
        · simp only [hd, Bool.not_true, Bool.false_eq_true, if_false] at h
          by_cases h0 : d = c%'0'
          · rw [if_pos h0] at h
            simp only [Out.ok.injEq, Prod.mk.injEq] at h
            obtain ⟨rfl, rfl, _⟩ := h
            exact ⟨m, b!"0", by simp [h0], hm1, .inl rfl, .inl ⟨rfl, rfl⟩⟩
          · rw [if_neg h0] at h
            obtain ⟨ds, q, rfl, hds, hq⟩ := digits_split r
            have h19 : ∀ d : Byte, Digit d → d ≠ c%'0' → Digit19 d := by
              unfold Digit Digit19; apply forall_byte; decide +kernel
            have hi : RInt (d :: ds) := .inr ⟨d, ds, rfl, h19 d (isDigit_digit.mp hd) h0, hds⟩
            cases h1 : accInt c ty 0 (d :: (ds ++ q)) with
            | ub => rw [h1] at h; cases h
            | fuel => rw [h1] at h; cases h
            | ok x =>
              obtain ⟨x, p'⟩ := x
              have hp := accInt_pos (ds := d :: ds) (by simpa using ⟨isDigit_digit.mp hd, hds⟩) hq h1
              subst hp
              rw [h1, Out.bind_ok] at h
              have : p = p' := by
                simp only at h
                cases h2 : (if b = c%'-' then ty.arith c (-x) else Out.ok x) with
                | ub => rw [h2] at h; cases h
                | fuel => rw [h2] at h; cases h
                | ok y =>
                  rw [h2, Out.bind_ok] at h
                  simp at h
                  exact h.2.symm
              subst this
              exact ⟨m, d :: ds, by simp, hm1, hi, .inr hq⟩
        · simp only [hd, Bool.not_false, if_true, Out.ok.injEq, Prod.mk.injEq] at h
          exact (he.no_error (by decide) h.2.2).elim

theorem deInt_zero {c : Cfg} {ty : IntTy} (hs : ty.Std) {m i : Bytes} (hm : RMinus m) (hi : RInt i)
    (h0 : m ++ i = b!"0" ∨ m ++ i = b!"-0") {v : Int}
    (h : (ty.InRange (if m = [] then (decVal i : Int) else -(decVal i : Int)) ∧
        ty.InRange (if m = [] then (decVal i : Int) else -(decVal i : Int)).natAbs ∧
        v = (if m = [] then (decVal i : Int) else -(decVal i : Int))) ∨
      ((ty.bits < 32 ∨ ty.signed = false ∨ c.wrapv = true) ∧ ty.InRange v ∧
        (v - (if m = [] then (decVal i : Int) else -(decVal i : Int))) % 2 ^ ty.bits = 0)) (v0 : Int) (rest : Bytes) (e : EPtr) :
    deInt c ty v0 (m ++ i ++ rest) e = .ok (v, rest, e) := by
  have hi0 : i = b!"0" := by
    rcases hm with rfl | rfl
    · rcases h0 with h0 | h0
      · exact h0
      · simp only [List.nil_append] at h0
        subst h0
        obtain ⟨d, u, h1, hd⟩ := rint_head hi
        cases h1
        exact absurd hd (by decide)
    · rcases h0 with h0 | h0
      · cases h0
      · simpa using h0
  subst hi0
  have hv : v = 0 := by
    have hz := Std.zero_inRange hs
    rw [decVal_b0] at h
    simp only [Int.ofNat_zero, Int.natCast_zero, Int.neg_zero, ite_self] at h
    rcases h with ⟨_, _, h⟩ | ⟨_, h1, h2⟩
    · exact h
    · obtain ⟨bits, sg⟩ := ty
      simp only [IntTy.Std] at hs
      simp only [IntTy.InRange, IntTy.min, IntTy.max] at h1
      rcases hs with rfl | rfl | rfl | rfl <;> cases sg <;> simp at h1 h2 <;> omega
  subst hv
  rcases hm with rfl | rfl <;> simp [deInt, unserializeInteger, isNull, isDigit]

/-- Which integers are read from which texts. -/
theorem deInt_sound {c : Cfg} {ty : IntTy} (hs : ty.Std) {v0 v : Int} {s p : Bytes} {e : EPtr} (he : e.Clean)
    (h : deInt c ty v0 s e = .ok (v, p, e)) :
    ∃ t, s = t ++ p ∧ IntDen c ty v0 v t ∧ (NoDigitNext p ∨ t = b!"0" ∨ t = b!"-0" ∨ t = b!"null") := by
  rcases deInt_inv he h with ⟨rfl, rfl⟩ | ⟨m, i, rfl, hm, hi, h0⟩
  · exact ⟨_, rfl, .inl ⟨rfl, rfl⟩, .inr (.inr (.inr rfl))⟩
  · refine ⟨_, rfl, .inr ⟨_, ⟨m, i, rfl, hm, hi, rfl⟩, ?_⟩, ?_⟩
    rotate_left
    · rcases h0 with ⟨rfl, _⟩ | hr
      · rcases hm with rfl | rfl
        · exact .inr (.inl rfl)
        · exact .inr (.inr (.inl rfl))
      · exact .inl hr
    rcases h0 with ⟨rfl, rfl⟩ | hr
    · left
      have hz := Std.zero_inRange hs
      rw [decVal_b0]
      by_cases hm0 : m = [] <;> simp [hm0, hz]
    · by_cases hmod : ty.Modular c
      · right
        have := deInt_modular hs (c := c) hmod hm hi hr v0 e
        rw [this] at h
        simp only [Out.ok.injEq, Prod.mk.injEq] at h
        obtain ⟨rfl, _⟩ := h
        refine ⟨hmod, IntTy.wrap_inRange hs _, ?_⟩
        generalize (if m = [] then (decVal i : Int) else -(decVal i : Int)) = x
        obtain ⟨bits, sg⟩ := ty
        simp only [IntTy.Std] at hs
        rcases hs with rfl | rfl | rfl | rfl <;> cases sg <;> simp [IntTy.wrap] <;> omega
      · left
        by_cases hin : ty.InRange (decVal i)
        · have habs : (((if m = [] then (decVal i : Int) else -(decVal i : Int)).natAbs : Nat) : Int) = decVal i := by
            split <;> omega
          have hneg : m ≠ [] → ty.InRange (-(decVal i : Int)) := by
            intro _
            obtain ⟨bits, sg⟩ := ty
            simp only [IntTy.Std] at hs
            have hsg : sg = true := by
              cases sg
              · exact absurd (.inr (.inl rfl)) hmod
              · rfl
            subst hsg
            simp only [IntTy.InRange, IntTy.min, IntTy.max] at hin ⊢
            rcases hs with rfl | rfl | rfl | rfl <;> simp at hin ⊢ <;> omega
          have := deInt_exact c hs hm hi hr hin hneg v0 e
          rw [this] at h
          simp only [Out.ok.injEq, Prod.mk.injEq] at h
          refine ⟨?_, by rwa [habs], h.1.symm⟩
          split
          · exact hin
          · next hm0 => exact hneg hm0
        · rw [deInt_overflow hs hmod hm hi hr hin v0 e] at h
          cases h

theorem deInt_complete {c : Cfg} {ty : IntTy} (hs : ty.Std) {v0 v : Int} {t rest : Bytes} (h : IntDen c ty v0 v t)
    (hr : NoDigitNext rest ∨ t = b!"0" ∨ t = b!"-0" ∨ t = b!"null") (e : EPtr) :
    deInt c ty v0 (t ++ rest) e = .ok (v, rest, e) := by
  rcases h with ⟨rfl, rfl⟩ | ⟨x, ⟨m, i, rfl, hm, hi, rfl⟩, h⟩
  · have := parseNull_ok rest e
    simp only [deInt]
    have hn : isNull (b!"null" ++ rest) = true := rfl
    rw [if_pos hn, this]
  · rcases hr with hr' | hr0 | hr0 | hr0
    rotate_left
    · exact deInt_zero hs hm hi (.inl hr0) h v0 rest e
    · exact deInt_zero hs hm hi (.inr hr0) h v0 rest e
    · obtain ⟨b, u, h1, hb⟩ := intLit_head (t := m ++ i) ⟨m, i, rfl, hm, hi, rfl⟩
      rw [h1] at hr0
      cases hr0
      exact absurd rfl (not_n_of_num hb)
    have habs : (((if m = [] then (decVal i : Int) else -(decVal i : Int)).natAbs : Nat) : Int) = decVal i := by
      split <;> omega
    rcases h with ⟨h1, h2, rfl⟩ | ⟨hmod, h1, h2⟩
    · rw [habs] at h2
      refine deInt_exact c hs hm hi hr' h2 (fun hm0 => ?_) v0 e
      rwa [if_neg hm0] at h1
    · rw [deInt_modular hs (c := c) hmod hm hi hr' v0 e]
      generalize (if m = [] then (decVal i : Int) else -(decVal i : Int)) = x at h2 ⊢
      have h3 := IntTy.wrap_inRange hs x
      have h4 : (ty.wrap x - x) % 2 ^ ty.bits = 0 := by
        obtain ⟨bits, sg⟩ := ty
        simp only [IntTy.Std] at hs
        rcases hs with rfl | rfl | rfl | rfl <;> cases sg <;> simp [IntTy.wrap] <;> omega
      have : ty.wrap x = v := by
        obtain ⟨bits, sg⟩ := ty
        simp only [IntTy.Std] at hs
        simp only [IntTy.InRange, IntTy.min, IntTy.max] at h1 h3
        rcases hs with rfl | rfl | rfl | rfl <;> cases sg <;> simp at h1 h2 h3 h4 <;> omega
      rw [this]

theorem intSer_exact (c : Cfg) {ty : IntTy} (hs : ty.Std) : Exact (intSer c ty) (IntDen c ty) where
  safe := (deInt_safe c ty).any
  sound := by
    intro v0 v s p e he _ _ h
    obtain ⟨t, h1, h2, _⟩ := deInt_sound hs he h
    exact ⟨t, h1, h2⟩
  complete := by
    intro v0 v t h _ rest e he hr
    exact deInt_complete hs h (.inl (noDigit_of_delim hr)) e
  head := by
    rintro v0 v t (⟨rfl, _⟩ | ⟨x, hx, _⟩)
    · exact headed_of_byte (.inl rfl)
    · obtain ⟨b, u, rfl, hb⟩ := intLit_head hx
      exact headed_of_byte (hb.elim (fun h => .inr (.inr (.inr (.inl h)))) fun h => .inr (.inr (.inr (.inr (.inl h)))))
  null := by
    intro v0 v s p e he hn h
    simp only [intSer] at h
    rcases deInt_inv he h with ⟨rfl, _⟩ | ⟨m, i, rfl, hm, hi, _⟩
    · rfl
    · obtain ⟨b, u, h1, hb⟩ := intLit_head (t := m ++ i) ⟨m, i, rfl, hm, hi, rfl⟩
      rw [h1] at hn
      simp at hn
      exact absurd hn (not_n_of_num hb)

theorem boolSer_closed : Closed boolSer BoolDen where
  safe := deBool_safe.any
  sound := by
    intro v0 v s p e he _ h
    rcases (deBool_inv he h he.not_failed).2 with ⟨rfl, hv⟩ | ⟨rfl, hv⟩ | ⟨rfl, hv⟩
    · exact ⟨_, rfl, .inl ⟨rfl, hv⟩⟩
    · exact ⟨_, rfl, .inr (.inl ⟨rfl, hv⟩)⟩
    · exact ⟨_, rfl, .inr (.inr ⟨rfl, hv⟩)⟩
  complete := by
    rintro v0 v t (⟨rfl, rfl⟩ | ⟨rfl, rfl⟩ | ⟨rfl, rfl⟩) _ rest e _
    · exact deBool_true v0 rest e
    · exact deBool_false v0 rest e
    · exact deBool_null v0 rest e

theorem boolSer_exact : Exact boolSer BoolDen where
  safe := boolSer_closed.safe
  sound he hs _ h := boolSer_closed.sound he hs h
  complete h ht rest e he _ := boolSer_closed.complete h ht rest e he
  head := by
    rintro v0 v t (⟨rfl, _⟩ | ⟨rfl, _⟩ | ⟨rfl, _⟩) <;> exact headed_of_byte (by decide)
  null := by
    intro v0 v s p e he hn h
    rcases (deBool_inv he h he.not_failed).2 with ⟨rfl, hv⟩ | ⟨rfl, hv⟩ | ⟨rfl, hv⟩
    · simp at hn
    · simp at hn
    · rfl

theorem decodes_length {u v : Bytes} (h : Decodes u v) : v.length ≤ u.length + 1 := by
  have key := strDec_ok (u ++ [c%'"']) (v.length) .fresh
  rw [strDec_decodes h (Nat.le_refl _)] at key
  have := key.2.2.2
  simp only [List.length_append, List.length_cons, List.length_nil] at this
  omega

theorem strSer_closed : Closed strSer StrDen where
  safe := deStr_safe.any
  sound := by
    intro v0 v s p e he hs h
    rcases deStr_inv (v0 := v0) he hs h he.not_failed with ⟨rfl, rfl, _⟩ | ⟨u, rfl, h2, _⟩
    · exact ⟨_, rfl, .inl ⟨rfl, rfl⟩⟩
    · exact ⟨quoted u, by simp [quoted], .inr ⟨u, rfl, h2⟩⟩
  complete := by
    rintro v0 v t (⟨rfl, rfl⟩ | ⟨u, rfl, hu⟩) ht rest e _
    · have := parseNull_ok rest e
      simp only [strSer, deStr]
      have hn : isNull (b!"null" ++ rest) = true := rfl
      rw [if_pos hn, this]
    · have := deStr_decodes hu (by have := decodes_length hu; simp [quoted] at ht; omega) v0 rest e
      simpa [quoted, strSer] using this

theorem strSer_exact : Exact strSer StrDen where
  safe := strSer_closed.safe
  sound he hs _ h := strSer_closed.sound he hs h
  complete h ht rest e he _ := strSer_closed.complete h ht rest e he
  head := by
    rintro v0 v t (⟨rfl, _⟩ | ⟨u, rfl, _⟩) <;> exact headed_of_byte (by decide)
  null := by
    intro v0 v s p e he hn h
    have hn' : isNull s = true := by simp [isNull, hn]
    simp only [strSer, deStr] at h
    rw [if_pos hn'] at h
    simp only [Out.ok.injEq, Prod.mk.injEq] at h
    exact parseNull_acc_iff.mp (Acc.of_clean (parseNull_scan s) he (e' := e) (p := p) (Prod.ext h.2.1 h.2.2) he.not_failed)

theorem takeWhile_prefix_delim {p : Bytes → Bytes} {rest : Bytes} (hd : Delim rest) (hp : p rest <+: rest) : Delim (p rest) := by
  intro b hb
  obtain ⟨r, hr⟩ := hp
  refine hd b ?_
  rw [← hr]
  cases h : p rest with
  | nil => rw [h] at hb; cases hb
  | cons x y => rw [h] at hb; simpa using hb

theorem rnumber_no_nul {t : Bytes} (h : RNumber t) : ∀ b ∈ t, b ≠ 0 := by
  have hd : ∀ b : Byte, Digit b → b ≠ 0 := by unfold Digit; apply forall_byte; decide +kernel
  obtain ⟨m, i, f, x, rfl, hm, hi, hf, hx⟩ := h
  intro b hb
  simp only [List.mem_append] at hb
  rcases hb with ((hb | hb) | hb) | hb
  · rcases hm with rfl | rfl
    · cases hb
    · simp at hb; subst hb; decide
  · exact hd b (rint_digits hi b hb)
  · rcases hf with rfl | ⟨ds, rfl, hds⟩
    · cases hb
    · rcases List.mem_cons.mp hb with rfl | hb
      · decide
      · exact hd b (hds.2 b hb)
  · rcases hx with rfl | ⟨y, sg, ds, rfl, hy, hsg, hds⟩
    · cases hb
    · rcases List.mem_cons.mp hb with rfl | hb
      · rcases hy with rfl | rfl <;> decide
      · rcases List.mem_append.mp hb with hb | hb
        · rcases hsg with rfl | rfl | rfl
          · cases hb
          · simp at hb; subst hb; decide
          · simp at hb; subst hb; decide
        · exact hd b (hds.2 b hb)

/-- What the conversion sees depends on the number only. -/
theorem float_conv {α : Type} {F : FloatTy α} (hF : F.Local) {t rest : Bytes} (ht : RNumber t) (hr : Delim rest) (n : Nat) (v : α) :
    F.conv (((t ++ rest).take n).takeWhile (· ≠ 0)) v = F.conv (t.take n) v := by
  have h0 := rnumber_no_nul ht
  rw [List.take_append]
  by_cases hn : n ≤ t.length
  · rw [Nat.sub_eq_zero_of_le hn, List.take_zero, List.append_nil]
    rw [← List.append_nil (t.take n), List.takeWhile_append_of_pos]
    · simp
    · intro b hb
      simpa using h0 b (List.mem_of_mem_take hb)
  · rw [List.take_of_length_le (by omega : t.length ≤ n), List.takeWhile_append_of_pos (by intro b hb; simpa using h0 b hb)]
    exact hF t _ v ht (takeWhile_prefix_delim (p := fun r => (r.take (n - t.length)).takeWhile (· ≠ 0)) hr
      ((List.takeWhile_prefix _).trans (List.take_prefix _ _)))

theorem numFollow_of_delim {t p : Bytes} (h : Delim p) : NumFollow t p := by
  intro b hb
  have := h b hb
  exact ⟨fun h => absurd h this.1, fun h => absurd h this.2.1, fun h => by rcases h with h | h; exact absurd h this.2.2.1; exact absurd h this.2.2.2⟩

theorem deFloat_inv {α : Type} {F : FloatTy α} {R : Int} {v0 v : α} {s p : Bytes} {e : EPtr} (he : e.Clean)
    (h : deFloat F R v0 s e = .ok (v, p, e)) :
    (s = b!"null" ++ p ∧ v = F.dflt) ∨
      ∃ t, s = t ++ p ∧ RNumber t ∧ NumFollow t p ∧ v = F.conv ((s.take (floatBuf R)).takeWhile (· ≠ 0)) v0 := by
  unfold deFloat at h
  cases s with
  | nil =>
    simp only [Out.ok.injEq, Prod.mk.injEq] at h
    exact (he.no_error (by decide) h.2.2).elim
  | cons b t =>
    simp only at h
    split at h
    · simp only [Out.ok.injEq, Prod.mk.injEq] at h
      have := Acc.of_clean (parseNull_scan (b :: t)) he (e' := e) (p := p) (Prod.ext h.2.1 h.2.2) he.not_failed
      exact .inl ⟨parseNull_acc_iff.mp this, h.1.symm⟩
    · split at h
      · simp only [Out.ok.injEq, Prod.mk.injEq] at h
        exact (he.no_error (by decide) h.2.2).elim
      · simp only [Out.ok.injEq, Prod.mk.injEq] at h
        have := Acc.of_clean (parseNumber_scan (b :: t)) he (e' := e) (p := p) (Prod.ext h.2.1 h.2.2) he.not_failed
        obtain ⟨u, h1, h2, h3⟩ := parseNumber_acc_iff.mp this
        exact .inr ⟨u, h1, h2, h3, h.1.symm⟩

theorem floatSer_exact {α : Type} {F : FloatTy α} (hF : F.Local) (R : Int) : Exact (floatSer F R) (FloatDen F R) where
  safe := (deFloat_safe F R).any
  sound := by
    intro v0 v s p e he _ hd h
    rcases deFloat_inv he h with ⟨rfl, rfl⟩ | ⟨t, rfl, ht, _, rfl⟩
    · exact ⟨_, rfl, .inl ⟨rfl, rfl⟩⟩
    · exact ⟨t, rfl, .inr ⟨ht, float_conv hF ht hd _ _⟩⟩
  complete := by
    rintro v0 v t (⟨rfl, rfl⟩ | ⟨ht, rfl⟩) _ rest e _ hr
    · have := parseNull_ok rest e
      simp only [List.cons_append, List.nil_append] at this
      simp [floatSer, deFloat, isNull, this]
    · have := deFloat_number F R ht (numFollow_of_delim hr) v0 e
      rw [float_conv hF ht hr] at this
      exact this
  head := by
    rintro v0 v t (⟨rfl, _⟩ | ⟨ht, _⟩)
    · exact headed_of_byte (by decide)
    · obtain ⟨b, u, rfl, hb⟩ := rnumber_head ht
      exact headed_of_byte (hb.elim (fun h => .inr (.inr (.inr (.inl h)))) fun h => .inr (.inr (.inr (.inr (.inl h)))))
  null := by
    intro v0 v s p e he hn h
    rcases deFloat_inv he h with ⟨rfl, _⟩ | ⟨t, rfl, ht, _, _⟩
    · rfl
    · obtain ⟨b, u, rfl, hb⟩ := rnumber_head ht
      simp at hn
      exact absurd hn (not_n_of_num hb)

theorem skipLow_split (c : Cfg) (s : Bytes) : ∃ g, s = g ++ skipLow c s ∧ ∀ b ∈ g, b ≤ 32 ∨ (c.charSigned = true ∧ 128 ≤ b) := by
  induction s with
  | nil => exact ⟨[], rfl, by simp⟩
  | cons b s ih =>
    simp only [skipLow]
    split
    · rename_i hb
      obtain ⟨g, h1, h2⟩ := ih
      refine ⟨b :: g, by rw [List.cons_append, ← h1], ?_⟩
      simp only [leSpace, Bool.or_eq_true, decide_eq_true_eq, Bool.and_eq_true] at hb
      intro x hx
      rcases List.mem_cons.mp hx with rfl | hx
      · exact hb
      · exact h2 x hx
    · exact ⟨[], rfl, by simp⟩

theorem skipLow_low {c : Cfg} {g : Bytes} (hg : ∀ b ∈ g, b ≤ 32 ∨ (c.charSigned = true ∧ 128 ≤ b)) (rest : Bytes) :
    skipLow c (g ++ c%'"' :: rest) = c%'"' :: rest := by
  induction g with
  | nil => simp [skipLow, leSpace]
  | cons b g ih =>
    have : leSpace c b = true := by
      simp only [leSpace, Bool.or_eq_true, decide_eq_true_eq, Bool.and_eq_true]
      exact hg b (by simp)
    simp only [List.cons_append, skipLow, this, if_true]
    exact ih fun x hx => hg x (by simp [hx])

theorem toQuote_split (s : Bytes) : s = (toQuote s).1 ++ (toQuote s).2 ∧ c%'"' ∉ (toQuote s).1 ∧
    ((toQuote s).2 = [] ∨ ∃ r, (toQuote s).2 = c%'"' :: r) := by
  induction s with
  | nil => simp [toQuote]
  | cons b s ih =>
    simp only [toQuote]
    split
    · rename_i hb
      subst hb
      simp
    · rename_i hb
      refine ⟨?_, ?_, ih.2.2⟩
      · simp only [List.cons_append, List.cons.injEq, true_and]; exact ih.1
      · simp only [List.mem_cons, not_or]
        exact ⟨fun h => hb h.symm, ih.2.1⟩

theorem enumFind_some {α : Type} {L : List (Bytes × α)} {k : Bytes} {v : α} (h : enumFind L k = some v) : (k, v) ∈ L := by
  induction L with
  | nil => cases h
  | cons x L ih =>
    simp only [enumFind] at h
    split at h
    · rename_i hx
      have := matchName_iff.mp hx
      simp at h this
      subst h this
      exact List.mem_cons_self
    · exact List.mem_cons_of_mem _ (ih h)

theorem enumFind_not {α : Type} {L : List (Bytes × α)} {k : Bytes} (h : enumFind L k = none) : k ∉ L.map Prod.fst := by
  induction L with
  | nil => simp
  | cons x L ih =>
    simp only [enumFind] at h
    split at h
    · cases h
    · rename_i hx
      simp only [List.map_cons, List.mem_cons, not_or]
      refine ⟨?_, ih h⟩
      rintro rfl
      exact hx (by simpa using matchName_self x.1 [])

theorem deEnum_low {α : Type} (c : Cfg) (strict : Bool) (dflt : α) (L : List (Bytes × α)) {g k : Bytes}
    (hg : ∀ b ∈ g, b ≤ 32 ∨ (c.charSigned = true ∧ 128 ≤ b)) (hk : c%'"' ∉ k) (v0 : α) (rest : Bytes) (e : EPtr) :
    deEnum c strict dflt L v0 (g ++ quoted k ++ rest) e = deEnum c strict dflt L v0 (quoted k ++ rest) e := by
  have h1 : g ++ quoted k ++ rest = g ++ c%'"' :: (k ++ c%'"' :: rest) := by simp [quoted]
  have h2 : quoted k ++ rest = [] ++ c%'"' :: (k ++ c%'"' :: rest) := by simp [quoted]
  unfold deEnum
  rw [h1, h2, skipLow_low hg, skipLow_low (by simp)]

theorem enumSer_closed {α : Type} [DecidableEq α] (c : Cfg) (strict : Bool) (dflt : α) {L : List (Bytes × α)}
    (hn : (L.map Prod.fst).Nodup) : Closed (enumSer c strict dflt L) (EnumDen c strict dflt L) where
  safe := deEnum_safe c strict dflt L
  sound := by
    intro v0 v s p e he _ h
    simp only [enumSer] at h
    obtain ⟨g, hs, hg⟩ := skipLow_split c s
    unfold deEnum at h
    generalize skipLow c s = s' at hs h
    cases s' with
    | nil =>
      simp only [Out.ok.injEq, Prod.mk.injEq] at h
      exact (he.no_error (by decide) h.2.2).elim
    | cons b t =>
      simp only at h
      split at h
      · simp only [Out.ok.injEq, Prod.mk.injEq] at h
        exact (he.no_error (by decide) h.2.2).elim
      · rename_i hb
        have hb : b = c%'"' := Classical.not_not.mp hb
        cases t with
        | nil =>
          simp only [Out.ok.injEq, Prod.mk.injEq] at h
          exact (he.no_error (by decide) h.2.2).elim
        | cons d t =>
          simp only at h
          obtain ⟨h1, h2, h3⟩ := toQuote_split (d :: t)
          generalize toQuote (d :: t) = q at h h1 h2 h3
          obtain ⟨k, q⟩ := q
          simp only at h h1 h2 h3
          rcases h3 with rfl | ⟨r, rfl⟩
          · simp only [Out.ok.injEq, Prod.mk.injEq] at h
            exact (he.no_error (by decide) h.2.2).elim
          · simp only at h
            have hsq : s = (g ++ quoted k) ++ r := by rw [hs, hb, h1]; simp [quoted]
            cases hf : enumFind L k with
            | some x =>
              rw [hf] at h
              simp only [Out.ok.injEq, Prod.mk.injEq] at h
              obtain ⟨rfl, rfl, _⟩ := h
              exact ⟨_, hsq, g, k, rfl, h2, hg, .inl (enumFind_some hf)⟩
            | none =>
              rw [hf] at h
              cases strict with
              | true =>
                simp only [if_true, Out.ok.injEq, Prod.mk.injEq] at h
                exact (he.no_error (by decide) h.2.2).elim
              | false =>
                simp only [Bool.false_eq_true, if_false, Out.ok.injEq, Prod.mk.injEq] at h
                obtain ⟨rfl, rfl, _⟩ := h
                exact ⟨_, hsq, g, k, rfl, h2, hg, .inr ⟨rfl, enumFind_not hf, rfl⟩⟩
  complete := by
    rintro v0 v t ⟨g, k, rfl, hk, hg, h⟩ _ rest e _
    simp only [enumSer]
    rw [deEnum_low c strict dflt L hg hk]
    have := deEnum_quoted c strict dflt L (g := []) (by simp) hk v0 rest e
    rw [List.nil_append] at this
    rw [this]
    rcases h with h | ⟨rfl, h, rfl⟩
    · rw [enumFind_of_mem hn h]
    · rw [enumFind_none h]
      rfl

theorem enumSer_exact {α : Type} [DecidableEq α] (c : Cfg) (strict : Bool) (dflt : α) {L : List (Bytes × α)}
    (hn : (L.map Prod.fst).Nodup) : Exact (enumSer c strict dflt L) (EnumDen c strict dflt L) where
  safe := (enumSer_closed c strict dflt hn).safe
  sound he hs _ h := (enumSer_closed c strict dflt hn).sound he hs h
  complete h ht rest e he _ := (enumSer_closed c strict dflt hn).complete h ht rest e he
  head := by
    rintro v0 v t ⟨g, k, rfl, _, hg, _⟩
    cases g with
    | nil => exact headed_of_byte (by decide)
    | cons b g =>
      refine ⟨b, _, rfl, ?_⟩
      have key : ∀ b : Byte, (b ≤ 32 ∨ 128 ≤ b) → b ≠ c%']' ∧ b ≠ c%'}' ∧ b ≠ c%',' ∧ b ≠ c%':' ∧ b ≠ c%'*' := by
        apply forall_byte; decide +kernel
      exact key b ((hg b (by simp)).imp id And.right)
  null := by
    intro v0 v s p e he hn h
    cases s with
    | nil => cases hn
    | cons b t =>
      simp at hn
      subst hn
      have h1 : leSpace c c%'n' = false := by simp [leSpace]
      simp only [enumSer, deEnum, skipLow, h1, Bool.false_eq_true, if_false] at h
      rw [if_pos (by decide)] at h
      simp only [Out.ok.injEq, Prod.mk.injEq] at h
      exact (he.no_error (by decide) h.2.2).elim

theorem rawSer_exact (c : Cfg) : Exact (rawSer c) RawDen where
  safe := (deRaw_safe c).any
  sound := by
    intro v0 v s p e he _ _ h
    simp only [rawSer, deRaw] at h
    cases hp : parseValue c s e with
    | ub => rw [hp] at h; cases h
    | fuel => rw [hp] at h; cases h
    | ok r =>
      rw [hp, Out.bind_ok] at h
      simp only [Out.ok.injEq, Prod.mk.injEq] at h
      obtain ⟨hv, hr⟩ := h
      subst hr
      have hacc := AccO.of_clean (parseValue_scan c s) he hp he.not_failed
      obtain ⟨t, rfl, hx, _⟩ := parseValue_acc_iff.mp hacc
      exact ⟨t, rfl, hx, by rw [← hv]; exact consumed_append t p⟩
  complete := by
    rintro v0 v t ⟨hx, rfl⟩ _ rest e _ hr
    have := parseValue_acc_iff (c := c).mpr ⟨v, rfl, hx, fun _ => numFollow_of_delim hr⟩ e
    simp only [rawSer, deRaw, this, Out.bind_ok, consumed_append]
  head := by
    rintro v0 v t ⟨hx, _⟩
    obtain ⟨b, u, ht, hb⟩ := xvalue_head hx
    refine ⟨b, u, ht, ?_⟩
    clear hx ht
    revert hb; revert b; unfold Digit; apply forall_byte; decide +kernel
  null := by
    intro v0 v s p e he hn h
    simp only [rawSer, deRaw] at h
    obtain ⟨r, hp, h⟩ := Out.bind_eq_ok.mp h
    simp only [Out.ok.injEq, Prod.mk.injEq] at h
    obtain ⟨_, hr⟩ := h
    subst hr
    obtain ⟨t, rfl, hx, _⟩ := parseValue_acc_iff.mp (AccO.of_clean (parseValue_scan c s) he hp he.not_failed)
    cases hx with
    | null => rfl
    | num h =>
      obtain ⟨b, u, rfl, hb⟩ := rnumber_head h
      simp at hn
      exact absurd hn (not_n_of_num hb)
    | str h => obtain ⟨u, _, rfl⟩ := h; simp at hn
    | _ => simp at hn

theorem memberValue_exact {τ α : Type} (dflt : τ) (get : τ → α) (set : α → τ → τ) {S : Ser α} {D : Den α} (h : Exact S D) :
    Exact (memberValueSer dflt get set S) (PartDen get set D) where
  safe := memberValue_safe h.safe dflt get set
  sound := by
    intro v0 v s p e he hs hd hr
    simp only [memberValueSer] at hr
    cases hp : S.de (get v0) s e with
    | ub => rw [hp] at hr; cases hr
    | fuel => rw [hp] at hr; cases hr
    | ok r =>
      rw [hp, Out.bind_ok] at hr
      obtain ⟨x, p', e'⟩ := r
      simp only [Out.ok.injEq, Prod.mk.injEq] at hr
      obtain ⟨rfl, rfl, rfl⟩ := hr
      obtain ⟨t, h1, h2⟩ := h.sound he hs hd hp
      exact ⟨t, h1, x, h2, rfl⟩
  complete := by
    rintro v0 v t ⟨x, h1, rfl⟩ ht rest e he hr
    simp only [memberValueSer, h.complete h1 ht rest e he hr, Out.bind_ok]
  head := by
    rintro v0 v t ⟨x, h1, rfl⟩
    exact h.head h1
  null := by
    intro v0 v s p e he hn hr
    simp only [memberValueSer] at hr
    obtain ⟨x, hp, hr⟩ := Out.bind_eq_ok.mp hr
    obtain ⟨x1, x2, x3⟩ := x
    simp only [Out.ok.injEq, Prod.mk.injEq] at hr
    obtain ⟨_, rfl, rfl⟩ := hr
    exact h.null he hn (v0 := get v0) (v := x1) hp

theorem memberValue_inner {τ α : Type} (dflt : τ) (get : τ → α) (set : α → τ → τ) {S : Ser α} {D : Den α} (h : Inner S D) :
    Inner (memberValueSer dflt get set S) (PartDen get set D) where
  safe := memberValue_safe h.safe dflt get set
  sound := by
    intro v0 v s p e he hs hd hne hr
    simp only [memberValueSer] at hr
    obtain ⟨⟨x, p', e'⟩, hp, hr⟩ := Out.bind_eq_ok.mp hr
    simp only [Out.ok.injEq, Prod.mk.injEq] at hr
    obtain ⟨rfl, rfl, rfl⟩ := hr
    obtain ⟨t, h1, h2⟩ := h.sound he hs hd hne hp
    exact ⟨t, h1, x, h2, rfl⟩
  complete := by
    rintro v0 v t ⟨x, h1, rfl⟩ ht rest e he hr
    simp only [memberValueSer, h.complete h1 ht rest e he hr, Out.bind_ok]
  head := by
    rintro v0 v t ⟨x, h1, rfl⟩
    exact h.head h1
  null := by
    intro v0 v r p e he hl hd hr
    simp only [memberValueSer] at hr
    obtain ⟨⟨x1, x2, x3⟩, hp, hr⟩ := Out.bind_eq_ok.mp hr
    simp only [Out.ok.injEq, Prod.mk.injEq] at hr
    obtain ⟨rfl, rfl, rfl⟩ := hr
    obtain ⟨h1, h2⟩ := h.null he hl hd hp
    exact ⟨h1, x1, h2, rfl⟩

/-! ### Containers -/

/-- Some step of the error argument. -/
def Steps (e e' : EPtr) : Prop := ∃ n, EStep n e e'

theorem Steps.refl (e : EPtr) : Steps e e := ⟨0, .refl 0 e⟩

theorem Steps.trans {e e1 e2 : EPtr} (h1 : Steps e e1) (h2 : Steps e1 e2) : Steps e e2 := by
  obtain ⟨n, h1⟩ := h1
  obtain ⟨m, h2⟩ := h2
  exact ⟨n + m, (h1.mono (Nat.le_add_right n m)).trans (h2.mono (Nat.le_add_left m n))⟩

theorem Steps.space {s p : Bytes} {e e' : EPtr} (h : parseSpace s e = (p, e')) : Steps e e' := by
  have := EStep.of_scan (parseSpace_scan s) e
  rw [h] at this
  exact ⟨_, this⟩

theorem SafeOut.step {α : Type} {U : Prop} {s : Bytes} {e : EPtr} {r : Out (α × Bytes × EPtr)} (h : SafeOut U s e r)
    {v : α} {p : Bytes} {e' : EPtr} (hr : r = .ok (v, p, e')) : p <:+ s ∧ Steps e e' := by
  rcases h with ⟨h, _⟩ | ⟨_, _, _, h, h1, h2⟩
  · rw [h] at hr; cases hr
  · rw [h] at hr; cases hr; exact ⟨h1, _, h2⟩

theorem EPtr.Clean.back {e e1 : EPtr} (he : e.Clean) (h1 : Steps e e1) (h2 : Steps e1 e) : e1 = e := by
  obtain ⟨_, h1⟩ := h1
  obtain ⟨_, h2⟩ := h2
  rcases h1.clean he with h | h
  · exact h
  · have := h2.failed_mono h
    rw [he.not_failed] at this
    cases this

theorem EPtr.Clean.absurd {e e1 : EPtr} (he : e.Clean) (h1 : Steps e e1) {code : Code} {m : Option Bytes} {t : Int}
    (hc : code ≠ .ValidJSON) (h : createError code e1 m t = e) : False := by
  obtain ⟨_, h1⟩ := h1
  rcases h1.clean he with rfl | hf
  · exact he.no_error hc h
  · have h2 : createError code e1 m t = e1 := by
      cases e1 with
      | null => rfl
      | obj x => simp only [EPtr.failed] at hf; simp [createError, hf]
    rw [← h, h2] at he
    have := he.not_failed
    rw [hf] at this
    cases this

/-- White space that has been skipped without an error. -/
theorem space_inv {s p : Bytes} {e : EPtr} (he : e.Clean) (h : parseSpace s e = (p, e)) : ∃ g, s = g ++ p ∧ Gap g ∧ SpaceStop p := by
  obtain ⟨g, h1, h2, h3, _⟩ := parseSpace_acc_iff.mp (Acc.of_clean (parseSpace_scan s) he h he.not_failed)
  exact ⟨g, h1, h2, h3⟩

theorem Safe.step {α : Type} {U : Prop} {de : De α} (h : Safe U de) {v0 v : α} {s p : Bytes} {e e1 : EPtr}
    (hr : de v0 s e = .ok (v, p, e1)) : p <:+ s ∧ Steps e e1 := SafeOut.step (h v0 s e) hr

theorem start_of_headed {t rest : Bytes} (h : Headed t) (hs : SpaceStop (t ++ rest)) : Start t := by
  obtain ⟨b, u, rfl, h1⟩ := h
  have := hs b rfl
  exact ⟨b, u, rfl, this.1, this.2, h1⟩

section
variable {α C : Type} {K : Coll α C} {S : Ser α} {R : Byte} {D : Den α}

theorem seqLoopF_inv (hR : R = c%']' ∨ R = c%'}') (hS : Sounds false S D) (n : Nat) (t t' : C) (s p : Bytes) {e : EPtr} (he : e.Clean)
    (hn : s.length < n) (hs : s.length ≤ intMax) (h : seqLoopF K S R n t s e = .ok (t', p, e)) :
    ∃ vs r, s = r ++ p ∧ ItemsText (D S.dflt) R vs r ∧ t' = vs.foldl K.insert t := by
  induction n generalizing t s with
  | zero => omega
  | succ n ih =>
    cases s with
    | nil =>
      simp only [seqLoopF, Out.ok.injEq, Prod.mk.injEq] at h
      exact (he.no_error (by decide) h.2.2).elim
    | cons b0 s =>
    simp only [seqLoopF] at h
    generalize b0 :: s = s at h hn hs
    cases hp1 : parseSpace s e with
    | mk p1 e1 =>
    have s1 := Steps.space hp1
    rw [hp1] at h
    cases p1 with
    | nil =>
      simp only [Out.ok.injEq, Prod.mk.injEq] at h
      exact (he.absurd s1 (by decide) h.2.2).elim
    | cons b q =>
      simp only at h
      split at h
      · rename_i hb
        simp only [Out.ok.injEq, Prod.mk.injEq] at h
        obtain ⟨rfl, rfl, rfl⟩ := h
        obtain ⟨g, h1, h2, _⟩ := space_inv he hp1
        exact ⟨[], g ++ [R], by rw [h1, hb]; simp, .close h2, rfl⟩
      · rename_i hb
        obtain ⟨⟨v, p2, e2⟩, hd, h⟩ := Out.bind_eq_ok.mp h
        obtain ⟨suf2, s2⟩ := hS.safe.step hd
        simp only at h
        cases hp3 : parseSpace p2 e2 with
        | mk p3 e3 =>
        have s3 := Steps.space hp3
        rw [hp3] at h
        cases p3 with
        | nil =>
          simp only [Out.ok.injEq, Prod.mk.injEq] at h
          exact (he.absurd (s1.trans (s2.trans s3)) (by decide) h.2.2).elim
        | cons b3 q3 =>
          have suf3 : q3.length < p2.length := by
            have := ((parseSpace_scan p2).suffix e2).length_le
            rw [hp3] at this
            simp only [List.length_cons] at this
            omega
          have suf1 : (b :: q).length ≤ s.length := by
            have := ((parseSpace_scan s).suffix e).length_le
            rwa [hp1] at this
          have suf2 := suf2.length_le
          -- the item, once the errors are known to be unchanged
          have item : Steps e3 e → (b3 = R ∨ b3 = c%',') → ∃ g1 t1 g2, s = g1 ++ t1 ++ g2 ++ b3 :: q3 ∧ Gap g1 ∧ Start t1 ∧
              D S.dflt v t1 ∧ Gap g2 := by
            intro s4 hb3
            have h3 := he.back (s1.trans (s2.trans s3)) s4
            subst h3
            have h2 := he.back (s1.trans s2) s3
            subst h2
            have h1 := he.back s1 s2
            subst h1
            obtain ⟨g1, k1, k2, k3⟩ := space_inv he hp1
            obtain ⟨g2, k4, k5, _⟩ := space_inv he hp3
            have hdl : Delim p2 := by
              rw [k4]
              refine delim_gap k5 ?_ _
              rcases hb3 with rfl | rfl
              · exact close_byte hR
              · exact .inl rfl
            obtain ⟨t1, k6, k7⟩ := hS.sound he (by omega) hdl (.inr (by rw [k4]; simp)) hd
            rw [k6] at k3
            refine ⟨g1, t1, g2, ?_, k2, start_of_headed (hS.head k7) k3, k7, k5⟩
            rw [k1, k6, k4]
            simp
          simp only at h
          split at h
          · rename_i hb3
            simp only [Out.ok.injEq, Prod.mk.injEq] at h
            obtain ⟨rfl, rfl, rfl⟩ := h
            obtain ⟨g1, t1, g2, k1, k2, k3, k4, k5⟩ := item (.refl _) (.inl hb3)
            exact ⟨[v], g1 ++ t1 ++ g2 ++ [R], by rw [k1, hb3]; simp, .last k2 k3 k4 k5, rfl⟩
          · split at h
            · simp only [Out.ok.injEq, Prod.mk.injEq] at h
              exact (he.absurd (s1.trans (s2.trans s3)) (by decide) h.2.2).elim
            · rename_i hb3
              have hb3 : b3 = c%',' := Classical.not_not.mp hb3
              have s4 := (SafeOut.step (seqLoopF_safe hS.safe n _ q3 e3 (by omega)) h).2
              have h3 := he.back (s1.trans (s2.trans s3)) s4
              obtain ⟨g1, t1, g2, k1, k2, k3, k4, k5⟩ := item s4 (.inr hb3)
              subst h3
              obtain ⟨vs, r, h4, h5, h6⟩ := ih _ q3 (by omega) (by omega) h
              exact ⟨v :: vs, g1 ++ t1 ++ g2 ++ c%',' :: r, by rw [k1, hb3, h4]; simp, .more k2 k3 k4 k5 h5, h6⟩

theorem itemsText_imp {P Q : α → Bytes → Prop} {vs : List α} {r : Bytes} (h : ItemsText P R vs r) (n : Nat) (hn : r.length ≤ n)
    (hpq : ∀ v t, P v t → t.length ≤ n → Q v t) : ItemsText Q R vs r := by
  induction h with
  | close h => exact .close h
  | last h1 h2 h3 h4 =>
    simp only [List.length_append] at hn
    exact .last h1 h2 (hpq _ _ h3 (by omega)) h4
  | more h1 h2 h3 h4 _ ih =>
    simp only [List.length_append, List.length_cons] at hn
    exact .more h1 h2 (hpq _ _ h3 (by omega)) h4 (ih (by omega))

theorem deSeq_null {L : Byte} {v0 v : C} {s p : Bytes} {e : EPtr} (he : e.Clean) (hn : s.head? = some c%'n')
    (h : deSeq K S L R v0 s e = .ok (v, p, e)) : s = b!"null" ++ p ∧ v = K.clear := by
  unfold deSeq at h
  rw [if_pos (by simp [isNull, hn])] at h
  simp only [Out.ok.injEq, Prod.mk.injEq] at h
  exact ⟨parseNull_acc_iff.mp (Acc.of_clean (parseNull_scan s) he (e' := e) (p := p) (Prod.ext h.2.1 h.2.2) he.not_failed), h.1.symm⟩

theorem deSeq_inv (hR : R = c%']' ∨ R = c%'}') {L : Byte} (hS : Sounds false S D) {v0 v : C} {s p : Bytes} {e : EPtr} (he : e.Clean)
    (hs : s.length ≤ intMax) (h : deSeq K S L R v0 s e = .ok (v, p, e)) :
    ∃ t, s = t ++ p ∧ SeqDen K.clear K.insert S.dflt L R D v0 v t := by
  by_cases hn : s.head? = some c%'n'
  · obtain ⟨rfl, rfl⟩ := deSeq_null he hn h
    exact ⟨_, rfl, .inl ⟨rfl, rfl⟩⟩
  · unfold deSeq at h
    rw [if_neg (by simpa [isNull] using hn)] at h
    cases s with
    | nil =>
      simp only [Out.ok.injEq, Prod.mk.injEq] at h
      exact (he.no_error (by decide) h.2.2).elim
    | cons b t =>
      simp only at h
      split at h
      · simp only [Out.ok.injEq, Prod.mk.injEq] at h
        exact (he.no_error (by decide) h.2.2).elim
      · rename_i hb
        have hb : b = L := Classical.not_not.mp hb
        simp only [List.length_cons] at hs
        obtain ⟨vs, r, h1, h2, h3⟩ := seqLoopF_inv hR hS _ _ _ _ _ he (Nat.lt_succ_self _) (by omega) h
        exact ⟨L :: r, by rw [hb, h1]; simp, .inr ⟨vs, r, rfl, h2, h3⟩⟩

theorem seqSer_complete (hR : R = c%']' ∨ R = c%'}') {L : Byte} (hL : L = c%'[' ∨ L = c%'{') (hS : Accepts S D) {v0 v : C} {t : Bytes}
    (h : SeqDen K.clear K.insert S.dflt L R D v0 v t) (ht : t.length ≤ intMax) (rest : Bytes) (e : EPtr) (he : e.failed = false) :
    (seqSer K S L R).de v0 (t ++ rest) e = .ok (v, rest, e) := by
  rcases h with ⟨rfl, rfl⟩ | ⟨vs, r, rfl, h, rfl⟩
  · have := parseNull_ok rest e
    simp only [List.cons_append, List.nil_append] at this
    simp [seqSer, deSeq, isNull, this]
  · refine deSeq_items hR (by rcases hL with rfl | rfl <;> decide) (itemsText_imp h intMax ?_ ?_) v0 rest he
    · simp only [List.length_cons] at ht; omega
    · exact fun v t h1 h2 => hS.complete h1 h2

theorem seqSer_exact (hR : R = c%']' ∨ R = c%'}') {L : Byte} (hL : L = c%'[' ∨ L = c%'{') (hS : Accepts S D) :
    Exact (seqSer K S L R) (SeqDen K.clear K.insert S.dflt L R D) where
  safe := deSeq_safe hS.safe
  sound he hs _ h := deSeq_inv hR hS.sounds he hs h
  complete := fun h ht rest e he _ => seqSer_complete hR hL hS h ht rest e he
  head := by
    rintro v0 v t (⟨rfl, rfl⟩ | ⟨vs, r, rfl, h, rfl⟩)
    · exact headed_of_byte (by decide)
    · exact headed_of_byte (by rcases hL with rfl | rfl <;> simp)
  null := by
    intro v0 v s p e he hn h
    exact (deSeq_null (v0 := v0) he hn h).1

end

/-! ### Dictionary entries -/

theorem deField_inv {κ ν : Type} {SK : Ser κ} {SV : Ser ν} {DK : Den κ} {DV : Den ν} (hK : Sounds false SK DK) (hV : Sounds false SV DV)
    {v0 v : κ × ν} {s p : Bytes} {e : EPtr} (he : e.Clean) (hs : s.length ≤ intMax) (hd : Delim p) (hne : p ≠ [])
    (h : deField SK SV v0 s e = .ok (v, p, e)) : ∃ t, s = t ++ p ∧ FieldDen DK DV v0 v t := by
  unfold deField at h
  obtain ⟨⟨k, p1, e1⟩, h1, h⟩ := Out.bind_eq_ok.mp h
  obtain ⟨suf1, s1⟩ := hK.safe.step h1
  simp only at h
  cases hp2 : parseSpace p1 e1 with
  | mk p2 e2 =>
  have s2 := Steps.space hp2
  have suf2 := ((parseSpace_scan p1).suffix e1).trans suf1
  rw [hp2] at h suf2
  cases p2 with
  | nil =>
    simp only [Out.ok.injEq, Prod.mk.injEq] at h
    exact (he.absurd (s1.trans s2) (by decide) h.2.2).elim
  | cons b q =>
  simp only at h
  split at h
  · simp only [Out.ok.injEq, Prod.mk.injEq] at h
    exact (he.absurd (s1.trans s2) (by decide) h.2.2).elim
  · rename_i hb
    have hb : b = c%':' := Classical.not_not.mp hb
    cases hp3 : parseSpace q e2 with
    | mk p3 e3 =>
    have s3 := Steps.space hp3
    have suf3 := ((parseSpace_scan q).suffix e2).trans (suffix_of_cons suf2)
    rw [hp3] at h suf3
    cases p3 with
    | nil =>
      simp only [Out.ok.injEq, Prod.mk.injEq] at h
      exact (he.absurd (s1.trans (s2.trans s3)) (by decide) h.2.2).elim
    | cons b3 q3 =>
      simp only at h
      obtain ⟨⟨x, p4, e4⟩, h4, h⟩ := Out.bind_eq_ok.mp h
      obtain ⟨suf4, s4⟩ := hV.safe.step h4
      simp only [Out.ok.injEq, Prod.mk.injEq] at h
      obtain ⟨rfl, rfl, rfl⟩ := h
      have i3 := he.back (s1.trans (s2.trans s3)) s4
      subst i3
      have i2 := he.back (s1.trans s2) s3
      subst i2
      have i1 := he.back s1 s2
      subst i1
      obtain ⟨g1, k1, k2, _⟩ := space_inv he hp2
      obtain ⟨g2, k3, k4, k5⟩ := space_inv he hp3
      have hdl : Delim p1 := by rw [k1, hb]; exact delim_gap k2 (by decide) _
      obtain ⟨tk, k6, k7⟩ := hK.sound he hs hdl (.inr (by rw [k1]; simp)) h1
      obtain ⟨tv, k8, k9⟩ := hV.sound he (by have := suf3.length_le; simp only at this; omega) hd (.inr hne) h4
      rw [k8] at k5
      refine ⟨tk ++ (g1 ++ c%':' :: (g2 ++ tv)), ?_, tk, g1, g2, tv, rfl, k2, k4, start_of_headed (hV.head k9) k5, k7, k9⟩
      rw [k6, k1, hb, k3, k8]
      simp

theorem fieldSer_accepts {κ ν : Type} {SK : Ser κ} {SV : Ser ν} {DK : Den κ} {DV : Den ν} (hK : Accepts SK DK)
    (hV : Accepts SV DV) : Accepts (fieldSer SK SV) (FieldDen DK DV) where
  safe := deField_safe hK.safe hV.safe
  sound he hs hd hne h := deField_inv hK.sounds hV.sounds he hs hd hne h
  complete := by
    rintro v0 v t ⟨tk, g1, g2, tv, rfl, h1, h2, h3, h4, h5⟩ ht
    simp only [List.length_append, List.length_cons] at ht
    have := deField_reads (t0 := v0) (kv := v) (hK.complete h4 (by omega)) h1 h2 h3 (hV.complete h5 (by omega))
    simpa [fieldSer] using this
  head := by
    rintro v0 v t ⟨tk, g1, g2, tv, rfl, _, _, _, h4, _⟩
    obtain ⟨b, u, rfl, h⟩ := hK.head h4
    exact ⟨b, _, rfl, h⟩

/-! ### Fixed-size arrays -/

theorem fixClose_inv {α : Type} {R : Byte} {t t' : List α} {s p : Bytes} {e1 e : EPtr} (he : e.Clean) (hs : Steps e e1)
    (h : fixClose R t s e1 = .ok (t', p, e)) : s = R :: p ∧ t' = t ∧ e1 = e := by
  cases s with
  | nil =>
    simp only [fixClose, Out.ok.injEq, Prod.mk.injEq] at h
    exact (he.absurd hs (by decide) h.2.2).elim
  | cons b q =>
    simp only [fixClose] at h
    split at h
    · simp only [Out.ok.injEq, Prod.mk.injEq] at h
      exact (he.absurd hs (by decide) h.2.2).elim
    · rename_i hb
      simp only [Out.ok.injEq, Prod.mk.injEq] at h
      obtain ⟨rfl, rfl, rfl⟩ := h
      exact ⟨by rw [Classical.not_not.mp hb], rfl, rfl⟩

theorem fixLoop_inv {α : Type} {S : Ser α} {D : Den α} {k : FixKind} (hS : Sounds false S D) (vs vs' : List α) (s p : Bytes) {e : EPtr}
    (he : e.Clean) (hs : s.length ≤ intMax) (h : fixLoop k S c%']' vs s e = .ok (vs', p, e)) :
    ∃ r, s = r ++ p ∧ FixDen (k.start S) D vs vs' r := by
  induction vs generalizing vs' s with
  | nil =>
    obtain ⟨rfl, rfl, _⟩ := fixClose_inv he (.refl _) h
    exact ⟨b!"]", rfl, .full⟩
  | cons v0 vs ih =>
    cases s with
    | nil =>
      simp only [fixLoop] at h
      have h := (fixClose_inv he (.refl _) h).1
      cases h
    | cons b0 s =>
    simp only [fixLoop] at h
    generalize b0 :: s = s at h hs
    cases hp1 : parseSpace s e with
    | mk p1 e1 =>
    have s1 := Steps.space hp1
    rw [hp1] at h
    cases p1 with
    | nil =>
      simp only [Out.ok.injEq, Prod.mk.injEq] at h
      exact (he.absurd s1 (by decide) h.2.2).elim
    | cons b q =>
      simp only at h
      split at h
      · rename_i hb
        obtain ⟨h1, rfl, rfl⟩ := fixClose_inv he s1 h
        obtain ⟨g, h2, h3, _⟩ := space_inv he hp1
        exact ⟨g ++ b!"]", by rw [h2, h1]; simp, .close h3⟩
      · rename_i hb
        obtain ⟨⟨v, p2, e2⟩, hd, h⟩ := Out.bind_eq_ok.mp h
        obtain ⟨suf2, s2⟩ := hS.safe.step hd
        simp only at h
        cases hp3 : parseSpace p2 e2 with
        | mk p3 e3 =>
        have s3 := Steps.space hp3
        rw [hp3] at h
        cases p3 with
        | nil =>
          simp only [Out.ok.injEq, Prod.mk.injEq] at h
          exact (he.absurd (s1.trans (s2.trans s3)) (by decide) h.2.2).elim
        | cons b3 q3 =>
          have suf3 : q3.length < p2.length := by
            have := ((parseSpace_scan p2).suffix e2).length_le
            rw [hp3] at this
            simp only [List.length_cons] at this
            omega
          have suf1 : (b :: q).length ≤ s.length := by
            have := ((parseSpace_scan s).suffix e).length_le
            rwa [hp1] at this
          have suf2 := suf2.length_le
          have item : Steps e3 e → (b3 = c%']' ∨ b3 = c%',') → ∃ g1 t1 g2, s = g1 ++ t1 ++ g2 ++ b3 :: q3 ∧ Gap g1 ∧ Start t1 ∧
              D (k.start S v0) v t1 ∧ Gap g2 := by
            intro s4 hb3
            have h3 := he.back (s1.trans (s2.trans s3)) s4
            subst h3
            have h2 := he.back (s1.trans s2) s3
            subst h2
            have h1 := he.back s1 s2
            subst h1
            obtain ⟨g1, k1, k2, k3⟩ := space_inv he hp1
            obtain ⟨g2, k4, k5, _⟩ := space_inv he hp3
            have hdl : Delim p2 := by
              rw [k4]
              refine delim_gap k5 ?_ _
              rcases hb3 with rfl | rfl <;> simp
            obtain ⟨t1, k6, k7⟩ := hS.sound he (by omega) hdl (.inr (by rw [k4]; simp)) hd
            rw [k6] at k3
            refine ⟨g1, t1, g2, ?_, k2, start_of_headed (hS.head k7) k3, k7, k5⟩
            rw [k1, k6, k4]
            simp
          simp only at h
          split at h
          · rename_i hb3
            obtain ⟨h1, rfl, h2⟩ := fixClose_inv he (s1.trans (s2.trans s3)) h
            simp only [List.cons.injEq] at h1
            obtain ⟨g1, t1, g2, k1, k2, k3, k4, k5⟩ := item (by rw [h2]; exact .refl _) (.inl hb3)
            exact ⟨g1 ++ t1 ++ g2 ++ b!"]", by rw [k1, hb3, h1.2]; simp, .last k2 k3 k4 k5⟩
          · split at h
            · simp only [Out.ok.injEq, Prod.mk.injEq] at h
              exact (he.absurd (s1.trans (s2.trans s3)) (by decide) h.2.2).elim
            · rename_i hb3
              have hb3 : b3 = c%',' := Classical.not_not.mp hb3
              obtain ⟨⟨ws, p4, e4⟩, h0, h4⟩ := Out.bind_eq_ok.mp h
              simp only [Out.ok.injEq, Prod.mk.injEq] at h4
              obtain ⟨rfl, rfl, rfl⟩ := h4
              have s4 := (SafeOut.step (fixLoop_safe hS.safe vs q3 e3) h0).2
              have h3 := he.back (s1.trans (s2.trans s3)) s4
              obtain ⟨g1, t1, g2, k1, k2, k3, k4, k5⟩ := item s4 (.inr hb3)
              subst h3
              obtain ⟨r, h4, h5⟩ := ih _ q3 (by omega) h0
              exact ⟨g1 ++ t1 ++ g2 ++ c%',' :: r, by rw [k1, hb3, h4]; simp, .more k2 k3 k4 k5 h5⟩

theorem fixLoop_complete {α : Type} {S : Ser α} {D : Den α} {k : FixKind} (hS : Accepts S D) {vs vs' : List α} {r : Bytes}
    (h : FixDen (k.start S) D vs vs' r) (hr : r.length ≤ intMax) (rest : Bytes) {e : EPtr} (he : e.failed = false) :
    fixLoop k S c%']' vs (r ++ rest) e = .ok (vs', rest, e) := by
  induction h with
  | full => simp [fixLoop, fixClose]
  | @close v vs g hg =>
    have := fixLoop_close (k := k) (S := S) (.inl rfl) (old := v :: vs) hg (by simp) rest e
    simpa using this
  | @last v v' vs g1 t g2 h1 h2 h3 h4 =>
    simp only [List.length_append] at hr
    have := fixLoop_item (R := c%']') (.inl rfl) (vs := vs) h1 h2 (hS.complete h3 (by omega)) h4 rest he (.inl rfl)
    simpa using this
  | @more v v' vs vs' g1 t g2 r h1 h2 h3 h4 _ ih =>
    simp only [List.length_append, List.length_cons] at hr
    have := fixLoop_item (R := c%']') (.inl rfl) (vs := vs) h1 h2 (hS.complete h3 (by omega)) h4 (r ++ rest) he (.inr rfl)
    rw [ih (by omega)] at this
    simpa using this

theorem fixNull_inv {α : Type} {S : Ser α} {D : Den α} {f : Bool} (hS : SoundsNull f S D) {p : Bytes} (hd : Delim p)
    (hl : (b!"null" ++ p).length ≤ intMax) (vs vs' : List α) {e : EPtr} (he : e.Clean)
    (h : fixNull S (b!"null" ++ p) vs e = .ok (vs', e)) : All2 (fun v v' => D v v' b!"null") vs vs' := by
  induction vs generalizing vs' with
  | nil =>
    simp only [fixNull, Out.ok.injEq, Prod.mk.injEq] at h
    obtain ⟨rfl, _⟩ := h
    exact .nil
  | cons v vs ih =>
    simp only [fixNull] at h
    obtain ⟨⟨x, p1, e1⟩, h1, h⟩ := Out.bind_eq_ok.mp h
    obtain ⟨⟨ws, e2⟩, h2, h⟩ := Out.bind_eq_ok.mp h
    simp only [Out.ok.injEq, Prod.mk.injEq] at h
    obtain ⟨rfl, rfl⟩ := h
    have s1 := (hS.safe.step h1).2
    have s2 : Steps e1 e2 := by
      rcases fixNull_safe hS.safe (b!"null" ++ p) vs e1 with ⟨h, _⟩ | ⟨_, _, h, h', _⟩
      · rw [h] at h2; cases h2
      · rw [h] at h2; cases h2; exact ⟨_, h'⟩
    have := he.back s1 s2
    subst this
    exact .cons (hS.null he hl hd h1).2 (ih _ h2)

theorem fixNull_complete {α : Type} {S : Ser α} {D : Den α} {f : Bool} (hS : SoundsNull f S D) {p : Bytes} (hd : Delim p) {vs vs' : List α} {e : EPtr}
    (he : e.failed = false) (h : All2 (fun v v' => D v v' b!"null") vs vs') :
    fixNull S (b!"null" ++ p) vs e = .ok (vs', e) := by
  induction h with
  | nil => rfl
  | cons h1 _ ih =>
    have := hS.reads h1 p e he hd
    simp only [fixNull, this, Out.bind_ok, ih]

theorem SoundsNull.false {α : Type} {S : Ser α} {D : Den α} {f : Bool} (h : SoundsNull f S D) : SoundsNull false S D where
  safe := h.safe
  sound he hs hd hp hr := h.sound he hs hd (.inr (hp.resolve_left (by decide))) hr
  head := h.head
  null := h.null
  reads := h.reads

theorem deFix_inv {α : Type} {S : Ser α} {D : Den α} {f : Bool} {k : FixKind} (hS : SoundsNull f S D) {v0 v : List α} {s p : Bytes} {e : EPtr}
    (he : e.Clean) (hs : s.length ≤ intMax) (hd : Delim p) (h : deFix k S c%'[' c%']' v0 s e = .ok (v, p, e)) :
    ∃ t, s = t ++ p ∧ FixArrDen (k.start S) D v0 v t := by
  unfold deFix at h
  split at h
  · rename_i hn
    obtain ⟨⟨ws, e1⟩, h1, h⟩ := Out.bind_eq_ok.mp h
    simp only [Out.ok.injEq, Prod.mk.injEq] at h
    obtain ⟨rfl, h2, h3⟩ := h
    have s1 : Steps e e1 := by
      rcases fixNull_safe hS.safe s v0 e with ⟨h, _⟩ | ⟨_, _, h, h', _⟩
      · rw [h] at h1; cases h1
      · rw [h] at h1; cases h1; exact ⟨_, h'⟩
    have s2 : Steps e1 e := by
      have := EStep.of_scan (parseNull_scan s) e1
      rw [h3] at this
      exact ⟨_, this⟩
    have := he.back s1 s2
    subst this
    have hp := parseNull_acc_iff.mp (Acc.of_clean (parseNull_scan s) he (e' := e1) (p := p) (Prod.ext h2 h3) he.not_failed)
    subst hp
    exact ⟨_, rfl, .inl ⟨rfl, fixNull_inv hS hd hs _ _ he h1⟩⟩
  · cases s with
    | nil =>
      simp only [Out.ok.injEq, Prod.mk.injEq] at h
      exact (he.no_error (by decide) h.2.2).elim
    | cons b t =>
      simp only at h
      split at h
      · simp only [Out.ok.injEq, Prod.mk.injEq] at h
        exact (he.no_error (by decide) h.2.2).elim
      · rename_i hb
        have hb : b = c%'[' := Classical.not_not.mp hb
        simp only [List.length_cons] at hs
        obtain ⟨r, h1, h2⟩ := fixLoop_inv hS.false.toSounds _ _ _ _ he (by omega) h
        exact ⟨c%'[' :: r, by rw [hb, h1]; simp, .inr ⟨r, rfl, h2⟩⟩

theorem deFix_null {α : Type} {S : Ser α} {k : FixKind} (hS : Safe True S.de) {v0 v : List α} {s p : Bytes} {e : EPtr} (he : e.Clean)
    (hn : s.head? = some c%'n') (h : deFix k S c%'[' c%']' v0 s e = .ok (v, p, e)) : s = b!"null" ++ p := by
  unfold deFix at h
  rw [if_pos (by simp [isNull, hn])] at h
  obtain ⟨⟨ws, e1⟩, h1, h⟩ := Out.bind_eq_ok.mp h
  simp only [Out.ok.injEq, Prod.mk.injEq] at h
  have s1 : Steps e e1 := by
    rcases fixNull_safe hS s v0 e with ⟨h, _⟩ | ⟨_, _, h, h', _⟩
    · rw [h] at h1; cases h1
    · rw [h] at h1; cases h1; exact ⟨_, h'⟩
  have s2 : Steps e1 e := by
    have := EStep.of_scan (parseNull_scan s) e1
    rw [h.2.2] at this
    exact ⟨_, this⟩
  have := he.back s1 s2
  subst this
  exact parseNull_acc_iff.mp (Acc.of_clean (parseNull_scan s) he (e' := e1) (p := p) (Prod.ext h.2.1 h.2.2) he.not_failed)

theorem fixSer_exact {α : Type} {S : Ser α} {D : Den α} (k : FixKind) {N : Nat} (hS : Inner S D) :
    Exact (fixSer k N S) (FixArrDen (k.start S) D) where
  safe := deFix_safe hS.safe
  sound he hs hd h := deFix_inv hS.sounds he hs hd h
  complete := by
    rintro v0 v t (⟨rfl, h⟩ | ⟨r, rfl, h⟩) ht rest e he hd
    · have hn : isNull (b!"null" ++ rest) = true := rfl
      simp only [fixSer, deFix]
      rw [if_pos hn, fixNull_complete hS.sounds hd he h, Out.bind_ok]
      have := parseNull_ok rest e
      simp only [this]
    · simp only [List.length_cons] at ht
      simp only [fixSer, List.cons_append]
      rw [deFix_open (by decide)]
      exact fixLoop_complete hS.toAccepts h (by omega) rest he
  head := by
    rintro v0 v t (⟨rfl, _⟩ | ⟨r, rfl, _⟩) <;> exact headed_of_byte (by decide)
  null he hn h := deFix_null hS.safe he hn h

end Wjson
