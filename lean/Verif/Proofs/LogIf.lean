import Verif.Spec.LogIf
import Verif.Proofs.Log
import Verif.Proofs.AlternativesJson
import Verif.Proofs.Api
/-
Lemmas for C89 with alternatives.
-/
namespace Wjson
open Spec

/-- A reader that knows where its texts end, and these are JSON values but no numbers. -/
structure ClosedJson {α : Type} (S : Ser α) : Prop where
  safe : Safe True S.de
  value : ∀ {v0 v s p e}, e.Clean → s.length ≤ intMax → PlainText s → NoWs s → S.de v0 s e = .ok (v, p, e) →
    ∃ t, s = t ++ p ∧ XValue t ∧ ¬ RNumber t

theorem not_rnumber {b : Byte} {u : Bytes} (h : b = c%'n' ∨ b = c%'[' ∨ b = c%'{') : ¬ RNumber (b :: u) := by
  intro hr
  obtain ⟨b', u', h1, h2⟩ := rnumber_head hr
  cases h1
  rcases h with rfl | rfl | rfl <;> rcases h2 with h2 | h2 <;> revert h2 <;> (try unfold Digit) <;> decide

theorem ClosedJson.of {c : Cfg} {raw : Bool} {α : Type} {S : Ser α} {D : Den α} (hj : AltJson c raw S D)
    (hs : ∀ {v0 v s p e}, e.Clean → s.length ≤ intMax → S.de v0 s e = .ok (v, p, e) → ∃ t, s = t ++ p ∧ D v0 v t)
    (hn : ∀ {v0 v t}, D v0 v t → ¬ RNumber t) : ClosedJson S where
  safe := hj.means.sounds.safe
  value := by
    intro v0 v s p e he hl hp hw hr
    obtain ⟨t, rfl, hd⟩ := hs he hl hr
    refine ⟨t, rfl, hj.value hd (hp.sub (List.prefix_append _ _).isInfix) ?_, hn hd⟩
    obtain ⟨b, u, rfl, _⟩ := hj.means.sounds.head hd
    intro b' hb
    exact hw b' (by cases hb; rfl)

theorem Spec.AltEnclosed.closed {c : Cfg} {raw : Bool} {α : Type} {S : Ser α} (h : AltEnclosed c raw S) : ClosedJson S := by
  cases h with
  | array h =>
    refine .of (.array h) (fun he hs hr => deSeq_inv (by decide) h.means.sounds.false.toSounds he hs hr) ?_
    rintro v0 v t (⟨rfl, rfl⟩ | ⟨vs, r, rfl, h, rfl⟩) <;> exact not_rnumber (by decide)
  | dict hk h =>
    refine .of (.dict hk h) (fun he hs hr => deSeq_inv (by decide)
      (fieldSer_sounds (AltMeaning.base hk.means).sounds.false.toSounds h.means.sounds.false.toSounds) he hs hr) ?_
    rintro v0 v t (⟨rfl, rfl⟩ | ⟨vs, r, rfl, h, rfl⟩) <;> exact not_rnumber (by decide)
  | @object τ strict dflt L hn h1 h2 =>
    have hj : AltJson c raw (objectSer c strict dflt (L.map fun d => d.slot.toMember)) (SlotObjDen strict dflt L) :=
      .object hn h1 (fun _ _ _ _ _ _ _ hd => (h2 _ _ _ _ _ _ _ hd).2.1) (fun _ _ _ _ _ _ _ hd => (h2 _ _ _ _ _ _ _ hd).2.2)
        (fun _ _ _ _ _ hd => absurd (h2 _ _ _ _ _ _ _ hd).1 (by decide)) (fun _ _ _ _ _ hd => absurd (h2 _ _ _ _ _ _ _ hd).1 (by decide))
    refine .of hj (fun he hs hr => deSlotObject_inv (c := c) (fun d hd => slot_behaves (c := c) (f := true) (g := true)
      ⟨(hn d hd).1.1, (hn d hd).2⟩ ?_ ?_ ?_ ?_ ?_) he hs hr) ?_
    · rintro x rfl; exact (h1 _ hd).means.sounds
    · rintro l r i RU Dl Dr ex rfl; exact (h2 _ _ _ _ _ _ _ hd).2.1.means.sounds
    · rintro l r i RU Dl Dr ex rfl; exact (h2 _ _ _ _ _ _ _ hd).2.2.means.sounds
    · rintro l r i Dl Dr rfl; exact absurd (h2 _ _ _ _ _ _ _ hd).1 (by decide)
    · rintro l r i Dl Dr rfl; exact absurd (h2 _ _ _ _ _ _ _ hd).1 (by decide)
    · rintro v0 v t (⟨rfl, _⟩ | ⟨g, rfl, _⟩ | ⟨items, o, k1, k2⟩ | ⟨items, k1, k2⟩)
      · exact not_rnumber (by decide)
      · exact not_rnumber (by decide)
      · cases k1 <;> exact not_rnumber (by decide)
      · cases k1 with
        | @mk r g hobj hne hg =>
          cases r with
          | nil => cases hobj
          | cons b r =>
            have hb : b = c%'{' := by
              generalize hw : b :: r ++ b!"}" = w at hobj
              cases hobj <;> simp only [List.cons_append, List.cons.injEq] at hw <;> exact hw.1
            rw [hb]
            exact not_rnumber (by decide)
  | @objectArray τ dflt L h1 h2 =>
    have hj : AltJson c raw (objectArraySer dflt (L.map fun d => d.slot.toAMember)) (SlotArrDen dflt L) :=
      .objectArray h1 (fun _ _ _ _ _ _ _ hd => (h2 _ _ _ _ _ _ _ hd).2.1) (fun _ _ _ _ _ _ _ hd => (h2 _ _ _ _ _ _ _ hd).2.2)
        (fun _ _ _ _ _ hd => absurd (h2 _ _ _ _ _ _ _ hd).1 (by decide)) (fun _ _ _ _ _ hd => absurd (h2 _ _ _ _ _ _ _ hd).1 (by decide))
    refine .of hj (fun he hs hr => deSlotArray_inv (fun d hd => slot_abehaves (c := c) (f := true) (g := true) ?_ ?_ ?_ ?_ ?_) he hs hr) ?_
    · rintro x rfl; exact (h1 _ hd).means.sounds
    · rintro l r i RU Dl Dr ex rfl; exact (h2 _ _ _ _ _ _ _ hd).2.1.means.sounds
    · rintro l r i RU Dl Dr ex rfl; exact (h2 _ _ _ _ _ _ _ hd).2.2.means.sounds
    · rintro l r i Dl Dr rfl; exact absurd (h2 _ _ _ _ _ _ _ hd).1 (by decide)
    · rintro l r i Dl Dr rfl; exact absurd (h2 _ _ _ _ _ _ _ hd).1 (by decide)
    · rintro v0 v t (⟨rfl, _⟩ | ⟨g, rfl, _⟩ | ⟨L1, L2, ts, r, _, rfl, _⟩ | ⟨ts, r, g, rfl, _⟩) <;> exact not_rnumber (by decide)

section
variable {c : Cfg} {α : Type} {S : Ser α}

theorem recoverValues_text_delim {v : α} {t : Bytes} (h : TextOf c S v t) (n : Nat) {y : Bytes} (hy : Delim y) {e : EPtr} (he : e.failed = false) :
    recoverValues S (n + 1) (t ++ y) e = recoverValues S n y e >>= fun x => .ok (v :: x.1, x.2) := by
  have h1 := parseSpace_start (rest := y) .nil h.rtb.start e
  have h2 := h.rtb.reads S.dflt y e he hy
  obtain ⟨b, u, hb, _⟩ := h.rtb.start
  subst hb
  rw [List.nil_append, List.cons_append] at h1
  rw [List.cons_append] at h2
  rw [List.cons_append, recoverValues, h1]
  dsimp only
  rw [h2, Out.bind_ok]
  dsimp only
  rw [he]
  rfl

theorem delim_newline (y : Bytes) : Delim (b!"\n" ++ y) := by
  intro b hb
  cases hb
  decide

theorem recoverValues_lines {vs : List α} {s : Bytes} (h : LogLines c S vs s) {e : EPtr} (he : e.failed = false) {y : Bytes} (hy : Delim y) (n : Nat) :
    recoverValues S (vs.length + n) (s ++ y) e = recoverValues S n y e >>= fun x => .ok (vs ++ x.1, x.2) := by
  induction h generalizing y n with
  | nil =>
    rw [List.length_nil, Nat.zero_add, List.nil_append]
    cases recoverValues S n y e <;> rfl
  | @record vs s v t _ ht _ ih =>
    rw [List.append_assoc, List.append_assoc, List.length_append, List.length_singleton, Nat.add_assoc, ih (delim_newline _),
      recoverValues_newline, Nat.add_comm 1 n, recoverValues_text_delim ht n hy he]
    cases recoverValues S n y e <;> simp
  | newline _ ih => rw [List.append_assoc, ih (delim_newline _), recoverValues_newline]

theorem Spec.LogLines.length_le {vs : List α} {s : Bytes} (h : LogLines c S vs s) : vs.length ≤ s.length := by
  induction h with
  | nil => simp
  | record _ ht _ ih =>
    simp only [List.length_append, List.length_cons, List.length_nil]
    omega
  | newline _ ih => simp only [List.length_append]; omega

/-- Reading the log as a whole. -/
theorem recoverValues_all_lines {vs : List α} {s : Bytes} (h : LogLines c S vs s) {e : EPtr} (he : e.failed = false) {n : Nat}
    (hn : s.length < n) : recoverValues S n s e = .ok (vs, [], e) := by
  have hl := h.length_le
  obtain ⟨m, rfl⟩ : ∃ m, n = vs.length + (m + 1) := ⟨n - vs.length - 1, by omega⟩
  have := recoverValues_lines h he (y := []) (by intro b hb; cases hb) (m + 1)
  rw [List.append_nil, recoverValues_nil, Out.bind_ok] at this
  rw [this, List.append_nil]

/-- A torn text. -/
theorem recoverValues_piece {v : α} {x y : Bytes} (h : TextOf c S v (x ++ y)) (hpl : PlainText (x ++ y)) (hx : x ≠ []) (hy : y ≠ [])
    (hD : ClosedJson S) {e : EPtr} (he : e.Clean) (n : Nat) :
    (recoverValues S (n + 1) x e = .ub ∧ S.de S.dflt x e = .ub) ∨ ∃ e', e'.failed = true ∧ recoverValues S (n + 1) x e = .ok ([], x, e') := by
  obtain ⟨b, u, hb, h1, h2, h3⟩ := h.rtb.start
  obtain ⟨b', u', rfl⟩ := List.exists_cons_of_ne_nil hx
  have hbb : b' = b := by
    rw [List.cons_append] at hb
    exact (List.cons.inj hb).1
  subst hbb
  have hst : Start (b' :: u') := ⟨b', u', rfl, h1, h2, h3⟩
  have hsp := parseSpace_start (rest := []) .nil hst e
  rw [List.nil_append, List.append_nil] at hsp
  rw [recoverValues, hsp]
  dsimp only
  rcases hD.safe S.dflt (b' :: u') e with ⟨hub, _⟩ | ⟨w, p, e', hok, _, hstep⟩
  · rw [hub]; exact .inl ⟨rfl, rfl⟩
  · rw [hok, Out.bind_ok]
    dsimp only
    rcases hstep.clean he with rfl | hf
    · exfalso
      have hw : ∀ z, NoWs (b' :: z) := by
        intro z b'' hb''
        cases hb''
        exact h1
      obtain ⟨t', k1, k2, k2'⟩ := hD.value he (by have := h.short; rw [List.length_append] at this; omega)
        (hpl.sub (List.prefix_append _ _).isInfix) (hw _) hok
      have k3 := h.rtb.reads S.dflt [] e' he.not_failed (by intro b hb; cases hb)
      rw [List.append_nil] at k3
      obtain ⟨t'', k4, k5, k5'⟩ := hD.value he h.short hpl (hw _) k3
      have k6 : AccO (parse c (b' :: u' ++ y)) [] := parse_accept_iff.mpr ⟨t'', k4, k5, fun hr => absurd hr k5'⟩
      have k7 : AccO (parse c (b' :: u' ++ y)) (p ++ y) := parse_accept_iff.mpr ⟨t', by rw [k1, List.append_assoc], k2, fun hr => absurd hr k2'⟩
      have := k6.unique k7
      simp [hy] at this
    · rw [hf]
      exact .inr ⟨e', hf, rfl⟩

theorem recoverValues_torn_line {vs : List α} {s : Bytes} (hl : LogLines c S vs s) {v : α} {x y : Bytes} (h : TextOf c S v (x ++ y))
    (hpl : PlainText (x ++ y)) (hx : x ≠ []) (hy : y ≠ []) (hD : ClosedJson S) {e : EPtr} (he : e.Clean) {n : Nat}
    (hn : (s ++ (b!"\n" ++ x)).length < n) :
    (recoverValues S n (s ++ (b!"\n" ++ x)) e = .ub ∧ S.de S.dflt x e = .ub) ∨
      ∃ e', e'.failed = true ∧ recoverValues S n (s ++ (b!"\n" ++ x)) e = .ok (vs, x, e') := by
  have hle := hl.length_le
  simp only [List.length_append, List.length_cons, List.length_nil] at hn
  obtain ⟨m, rfl⟩ : ∃ m, n = vs.length + (m + 1) := ⟨n - vs.length - 1, by omega⟩
  rw [recoverValues_lines hl he.not_failed (delim_newline _), recoverValues_newline]
  rcases recoverValues_piece h hpl hx hy hD he m with ⟨h1, h2⟩ | ⟨e', h1, h2⟩
  · rw [h1]; exact .inl ⟨rfl, h2⟩
  · rw [h2, Out.bind_ok, List.append_nil]; exact .inr ⟨e', h1, rfl⟩

/-- The beginnings of a record with its line feed in front. -/
theorem prefix_line {x t : Bytes} (h : x <+: b!"\n" ++ t) :
    x = [] ∨ x = b!"\n" ∨ x = b!"\n" ++ t ∨ ∃ z y, x = b!"\n" ++ z ∧ z ≠ [] ∧ y ≠ [] ∧ t = z ++ y := by
  obtain ⟨y, h⟩ := h
  cases x with
  | nil => exact .inl rfl
  | cons b z =>
    rw [List.cons_append, List.cons_append, List.nil_append] at h
    obtain ⟨rfl, h'⟩ := List.cons.inj h
    clear h
    by_cases hz : z = []
    · subst hz; exact .inr (.inl rfl)
    · by_cases hy : y = []
      · subst hy; rw [List.append_nil] at h'; subst h'; exact .inr (.inr (.inl rfl))
      · exact .inr (.inr (.inr ⟨z, y, rfl, hz, hy, h'.symm⟩))

end

end Wjson
