import Verif.Spec.Log
import Verif.Proofs.Meaning
import Verif.Proofs.Stream
import Verif.Props.Nested
/-
Lemmas for C89.
-/
namespace Wjson
open Spec

theorem Closed.memberValue {τ α : Type} (dflt : τ) (get : τ → α) (set : α → τ → τ) {S : Ser α} {D : Den α} (h : Closed S D) :
    Closed (memberValueSer dflt get set S) (PartDen get set D) where
  safe := memberValue_safe h.safe dflt get set
  sound := by
    intro v0 v s p e he hs hr
    simp only [memberValueSer] at hr
    obtain ⟨⟨x, p', e'⟩, hp, hr⟩ := Out.bind_eq_ok.mp hr
    simp only [Out.ok.injEq, Prod.mk.injEq] at hr
    obtain ⟨rfl, rfl, rfl⟩ := hr
    obtain ⟨t, h1, h2⟩ := h.sound he hs hp
    exact ⟨t, h1, x, h2, rfl⟩
  complete := by
    rintro v0 v t ⟨x, h1, rfl⟩ ht rest e he
    simp only [memberValueSer, h.complete h1 ht rest e he, Out.bind_ok]

theorem Spec.Enclosed.closed {c : Cfg} {α : Type} {S : Ser α} (h : Enclosed c S) : ∃ D, Closed S D := by
  induction h with
  | array h =>
    have ha := h.inner.toAccepts
    exact ⟨_, deSeq_safe ha.safe, fun he hs h => deSeq_inv (by decide) ha.sounds he hs h, seqSer_complete (by decide) (by decide) ha⟩
  | dict hk hv =>
    have ha := fieldSer_accepts hk.inner.toAccepts hv.inner.toAccepts
    exact ⟨_, deSeq_safe ha.safe, fun he hs h => deSeq_inv (by decide) ha.sounds he hs h, seqSer_complete (by decide) (by decide) ha⟩
  | @object τ f strict dflt L hg h =>
    have hS : ∀ d ∈ L, Accepts d.entry.ref.ser d.den := fun d hd => (h d hd).inner.toAccepts
    have hnames : names (L.map DEntry.entry) = L.map DEntry.name := by simp [names, DEntry.name]
    have hpl : ∀ d ∈ L, PlainName d.name := fun d hd => hg.plain d.name (by rw [hnames]; exact List.mem_map_of_mem hd)
    exact ⟨_, (objectSer_exact hg hS).safe, fun he hs h => deObject_inv hS (fun d hd => (hpl d hd).1) he hs h, objectSer_complete hg hS⟩
  | @objectArray τ f dflt L h =>
    have hS : ∀ d ∈ L, Accepts d.entry.ref.ser d.den := fun d hd => (h d hd).inner.toAccepts
    exact ⟨_, (objectArraySer_exact hS).safe, fun he hs h => deObjectArray_inv hS he hs h, objectArraySer_complete hS⟩
  | str => exact ⟨_, strSer_closed⟩
  | chars => exact ⟨_, charArraySer_closed _⟩
  | bool => exact ⟨_, boolSer_closed⟩
  | enum h => exact ⟨_, enumSer_closed c _ _ h⟩
  | flags h1 h2 h3 h4 => exact ⟨_, flagsSer_closed h1 h2 h3 h4⟩
  | memberValue _ ih =>
    obtain ⟨D, h⟩ := ih
    exact ⟨_, h.memberValue _ _ _⟩

section
variable {c : Cfg} {α : Type} {S : Ser α} {D : Den α}

theorem Spec.TextOf.rtb {v : α} {t : Bytes} (h : TextOf c S v t) : RTB S v t := by
  obtain ⟨t', h'⟩ := h.good.rtb
  have := h'.writes []
  rw [h.written] at this
  simp only [List.nil_append, Out.ok.injEq, Sink.mk.injEq, and_true] at this
  exact this ▸ h'

theorem Spec.TextOf.den {v : α} {t : Bytes} (h : TextOf c S v t) (hD : Closed S D) : D S.dflt v t := by
  have h1 := h.rtb.reads S.dflt [] .fresh rfl (by intro b hb; cases hb)
  rw [List.append_nil] at h1
  obtain ⟨t', h2, h3⟩ := hD.sound EPtr.fresh_clean h.short h1
  rw [List.append_nil] at h2
  exact h2 ▸ h3

theorem Spec.TextOf.reads {v : α} {t : Bytes} (h : TextOf c S v t) (hD : Closed S D) (rest : Bytes) {e : EPtr} (he : e.failed = false) :
    S.de S.dflt (t ++ rest) e = .ok (v, rest, e) := hD.complete (h.den hD) h.short rest e he

theorem recoverValues_nil (n : Nat) (e : EPtr) : recoverValues S (n + 1) [] e = .ok ([], [], e) := rfl

theorem recoverValues_newline (n : Nat) (y : Bytes) (e : EPtr) : recoverValues S n (b!"\n" ++ y) e = recoverValues S n y e := by
  cases n with
  | zero => rfl
  | succ n =>
    have : parseSpace (b!"\n" ++ y) e = parseSpace y e := rfl
    rw [recoverValues, recoverValues, this]

theorem recoverValues_text {v : α} {t : Bytes} (h : TextOf c S v t) (hD : Closed S D) (n : Nat) (y : Bytes) {e : EPtr} (he : e.failed = false) :
    recoverValues S (n + 1) (t ++ y) e = recoverValues S n y e >>= fun x => .ok (v :: x.1, x.2) := by
  have h1 := parseSpace_start (rest := y) .nil h.rtb.start e
  have h2 := h.reads hD y he
  obtain ⟨b, u, hb, _⟩ := h.rtb.start
  subst hb
  rw [List.nil_append, List.cons_append] at h1
  rw [List.cons_append] at h2
  rw [List.cons_append, recoverValues, h1]
  dsimp only
  rw [h2, Out.bind_ok]
  dsimp only
  rw [he]
  rfl

theorem recoverValues_log {vs : List α} {s : Bytes} (h : LogText c S vs s) (hD : Closed S D) {e : EPtr} (he : e.failed = false) (y : Bytes) (n : Nat) :
    recoverValues S (vs.length + n) (s ++ y) e = recoverValues S n y e >>= fun x => .ok (vs ++ x.1, x.2) := by
  induction h generalizing y n with
  | nil =>
    rw [List.length_nil, Nat.zero_add, List.nil_append]
    cases recoverValues S n y e <;> rfl
  | @record vs s v t _ ht ih =>
    rw [List.append_assoc, List.length_append, List.length_singleton, Nat.add_assoc, ih, Nat.add_comm 1 n, recoverValues_text ht hD n y he]
    cases recoverValues S n y e <;> simp [Out.bind]
  | newline _ ih => rw [List.append_assoc, ih, recoverValues_newline]

theorem Spec.LogText.length_le {vs : List α} {s : Bytes} (h : LogText c S vs s) : vs.length ≤ s.length := by
  induction h with
  | nil => simp
  | record _ ht ih =>
    obtain ⟨b, u, rfl, _⟩ := ht.rtb.start
    simp only [List.length_append, List.length_cons, List.length_nil]
    omega
  | newline _ ih => simp only [List.length_append]; omega

/-- Reading the log as a whole. -/
theorem recoverValues_whole {vs : List α} {s : Bytes} (h : LogText c S vs s) (hD : Closed S D) {e : EPtr} (he : e.failed = false) {n : Nat}
    (hn : s.length < n) : recoverValues S n s e = .ok (vs, [], e) := by
  have hl := h.length_le
  obtain ⟨m, rfl⟩ : ∃ m, n = vs.length + (m + 1) := ⟨n - vs.length - 1, by omega⟩
  have := recoverValues_log h hD he [] (m + 1)
  rw [List.append_nil, recoverValues_nil, Out.bind_ok] at this
  rw [this, List.append_nil]

/-- A torn text. -/
theorem recoverValues_part {v : α} {x y : Bytes} (h : TextOf c S v (x ++ y)) (hx : x ≠ []) (hy : y ≠ []) (hD : Closed S D) {e : EPtr}
    (he : e.Clean) (n : Nat) :
    (recoverValues S (n + 1) x e = .ub ∧ S.de S.dflt x e = .ub) ∨ ∃ e', e'.failed = true ∧ recoverValues S (n + 1) x e = .ok ([], x, e') := by
  obtain ⟨b, u, hb, h1, h2, h3⟩ := h.rtb.start
  obtain ⟨b', u', rfl⟩ := List.exists_cons_of_ne_nil hx
  have hbb : b' = b := by
    rw [List.cons_append] at hb
    exact (List.cons.inj hb).1
  subst hbb
  have hst : Start (b' :: u') := ⟨b', u', rfl, h1, h2, h3⟩
  have hsp := parseSpace_start (rest := []) .nil hst e
  rw [List.nil_append, List.append_nil] at hsp
  rw [recoverValues, hsp]
  dsimp only
  rcases hD.safe S.dflt (b' :: u') e with ⟨hub, _⟩ | ⟨w, p, e', hok, _, hstep⟩
  · rw [hub]; exact .inl ⟨rfl, rfl⟩
  · rw [hok, Out.bind_ok]
    dsimp only
    rcases hstep.clean he with rfl | hf
    · exfalso
      obtain ⟨t', k1, k2⟩ := hD.sound he (by have := h.short; rw [List.length_append] at this; omega) hok
      have k3 := h.reads hD [] he.not_failed
      rw [List.append_nil, k1, List.append_assoc] at k3
      have k4 := hD.complete k2 (by have := h.short; rw [k1] at this; simp only [List.length_append] at this; omega) (p ++ y) e' he.not_failed
      rw [k3] at k4
      simp only [Out.ok.injEq, Prod.mk.injEq] at k4
      have := k4.2.1
      simp [hy] at this
    · rw [hf]
      exact .inr ⟨e', hf, rfl⟩

theorem recoverValues_torn {vs : List α} {s : Bytes} (hl : LogText c S vs s) {v : α} {x y : Bytes} (h : TextOf c S v (x ++ y)) (hx : x ≠ []) (hy : y ≠ [])
    (hD : Closed S D) {e : EPtr} (he : e.Clean) {n : Nat} (hn : (s ++ x).length < n) :
    (recoverValues S n (s ++ x) e = .ub ∧ S.de S.dflt x e = .ub) ∨ ∃ e', e'.failed = true ∧ recoverValues S n (s ++ x) e = .ok (vs, x, e') := by
  have hle := hl.length_le
  rw [List.length_append] at hn
  obtain ⟨m, rfl⟩ : ∃ m, n = vs.length + (m + 1) := ⟨n - vs.length - 1, by omega⟩
  rw [recoverValues_log hl hD he.not_failed]
  rcases recoverValues_part h hx hy hD he m with ⟨h1, h2⟩ | ⟨e', h1, h2⟩
  · rw [h1]; exact .inl ⟨rfl, h2⟩
  · rw [h2, Out.bind_ok, List.append_nil]; exact .inr ⟨e', h1, rfl⟩

/-- The beginnings of a record with its line feed. -/
theorem prefix_record {x t : Bytes} (h : x <+: t ++ b!"\n") : x = [] ∨ x = t ∨ x = t ++ b!"\n" ∨ ∃ y, x ≠ [] ∧ y ≠ [] ∧ t = x ++ y := by
  obtain ⟨y, h⟩ := h
  rcases List.eq_nil_or_concat y with rfl | ⟨y', b, rfl⟩
  · rw [List.append_nil] at h; exact .inr (.inr (.inl h))
  · rw [List.concat_eq_append, ← List.append_assoc] at h
    have h1 := List.append_inj_left' h rfl
    by_cases hx : x = []
    · exact .inl hx
    · by_cases hy : y' = []
      · subst hy; rw [List.append_nil] at h1; exact .inr (.inl h1)
      · exact .inr (.inr (.inr ⟨y', hx, hy, h1.symm⟩))

end

end Wjson
