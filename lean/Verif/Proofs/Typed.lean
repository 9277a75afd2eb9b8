import Verif.Model.Sink
import Verif.Proofs.Sink
import Verif.Spec.Serial
import Verif.Proofs.Api
/-
Common predicates for typed serializers.
-/
namespace Wjson
open Spec

/-- The error argument changed from `e` to `e'` by at most one `create_error`
with a position inside a text of `n` bytes. -/
def EStep (n : Nat) (e e' : EPtr) : Prop :=
  ∃ ev, e' = applyErr e ev ∧ ∀ x, ev = some x → x.code ≠ .ValidJSON ∧ 0 ≤ x.tailOf ∧ x.tailOf ≤ (n : Int)

theorem EStep.refl (n : Nat) (e : EPtr) : EStep n e e := ⟨none, rfl, by simp⟩

theorem EStep.mono {n m : Nat} {e e' : EPtr} (h : EStep n e e') (hnm : n ≤ m) : EStep m e e' := by
  obtain ⟨ev, h1, h2⟩ := h
  refine ⟨ev, h1, fun x hx => ?_⟩
  have := h2 x hx
  exact ⟨this.1, this.2.1, by omega⟩

theorem EStep.trans {n : Nat} {e e' e'' : EPtr} (h : EStep n e e') (h' : EStep n e' e'') : EStep n e e'' := by
  obtain ⟨ev, rfl, h2⟩ := h
  obtain ⟨ev', rfl, h2'⟩ := h'
  cases ev with
  | none => exact ⟨ev', rfl, h2'⟩
  | some x => exact ⟨some x, applyErr_applyErr e x (h2 x rfl).1 ev', h2⟩

theorem EStep.create {n : Nat} {c : Code} (hc : c ≠ .ValidJSON) (e : EPtr) (m : Option Bytes) {t : Int} (h0 : 0 ≤ t)
    (h1 : t ≤ (n : Int)) : EStep n e (createError c e m t) :=
  ⟨some ⟨c, m, t⟩, rfl, by intro x hx; cases hx; exact ⟨hc, h0, h1⟩⟩

theorem EStep.of_scan {s : Bytes} {g : EPtr → Bytes × EPtr} (h : ScanAt s g) (e : EPtr) : EStep s.length e (g e).2 := by
  obtain ⟨p, ev, h1, h2⟩ := h
  exact ⟨ev, by rw [h1 e], fun x hx => ⟨(h2.err x hx).1, (h2.err x hx).2.2⟩⟩

theorem EStep.of_failed {n : Nat} {e e' : EPtr} (h : EStep n e e') (hf : e.failed = true) : e' = e := by
  obtain ⟨ev, rfl, _⟩ := h
  exact applyErr_of_failed hf ev

theorem EStep.failed_mono {n : Nat} {e e' : EPtr} (h : EStep n e e') (hf : e.failed = true) : e'.failed = true := by
  rw [h.of_failed hf]; exact hf

theorem EStep.null {n : Nat} {e' : EPtr} (h : EStep n .null e') : e' = .null := by
  obtain ⟨ev, rfl, _⟩ := h
  cases ev <;> rfl

/-- A clean error object either stays the same or reports an error. -/
theorem EStep.clean {n : Nat} {e e' : EPtr} (h : EStep n e e') (hc : e.Clean) : e' = e ∨ e'.failed = true := by
  obtain ⟨ev, rfl, h2⟩ := h
  cases ev with
  | none => exact .inl rfl
  | some x => exact .inr (hc.applyErr_failed (h2 x rfl).1)

/-- The outcome of a read of the text `s`: undefined only under `U`, otherwise
a position inside the text and one error step. -/
def SafeOut {α : Type} (U : Prop) (s : Bytes) (e : EPtr) (r : Out (α × Bytes × EPtr)) : Prop :=
  (r = .ub ∧ U) ∨ ∃ v p e', r = .ok (v, p, e') ∧ p <:+ s ∧ EStep s.length e e'

/-- A read operator that behaves: see `SafeOut`. -/
def Safe {α : Type} (U : Prop) (de : De α) : Prop := ∀ v s e, SafeOut U s e (de v s e)

theorem SafeOut.ok {α : Type} {U : Prop} {s : Bytes} {e : EPtr} {v : α} {p : Bytes} {e' : EPtr} (h1 : p <:+ s)
    (h2 : EStep s.length e e') : SafeOut U s e (.ok (v, p, e')) := .inr ⟨v, p, e', rfl, h1, h2⟩

theorem SafeOut.err {α : Type} {U : Prop} {s : Bytes} {e : EPtr} {v : α} {c : Code} {m : Option Bytes} {t : Int}
    (hc : c ≠ .ValidJSON) (h0 : 0 ≤ t) (h1 : t ≤ (s.length : Int)) :
    SafeOut U s e (.ok (v, [], createError c e m t)) := .ok List.nil_suffix (.create hc e m h0 h1)

theorem SafeOut.mono {α : Type} {U U' : Prop} {s s' : Bytes} {e e' : EPtr} {r : Out (α × Bytes × EPtr)}
    (hU : U → U') (hs : s' <:+ s) (he : EStep s.length e e') (h : SafeOut U s' e' r) : SafeOut U' s e r := by
  rcases h with ⟨h, hu⟩ | ⟨v, p, e'', h, h1, h2⟩
  · exact .inl ⟨h, hU hu⟩
  · exact .inr ⟨v, p, e'', h, h1.trans hs, he.trans (h2.mono hs.length_le)⟩

theorem SafeOut.bind {α β : Type} {U : Prop} {s : Bytes} {e : EPtr} {r : Out (α × Bytes × EPtr)}
    {f : α × Bytes × EPtr → Out (β × Bytes × EPtr)} (h : SafeOut U s e r)
    (hf : ∀ v p e', r = .ok (v, p, e') → p <:+ s → EStep s.length e e' → SafeOut U s e (f (v, p, e'))) :
    SafeOut U s e (r >>= f) := by
  rcases h with ⟨h, hu⟩ | ⟨v, p, e'', h, h1, h2⟩
  · subst h; exact .inl ⟨rfl, hu⟩
  · subst h; exact hf v p e'' rfl h1 h2

theorem SafeOut.ite {α : Type} {U : Prop} {s : Bytes} {e : EPtr} {P : Prop} [Decidable P]
    {r1 r2 : Out (α × Bytes × EPtr)} (h1 : P → SafeOut U s e r1) (h2 : ¬ P → SafeOut U s e r2) :
    SafeOut U s e (if P then r1 else r2) := by
  by_cases h : P
  · rw [if_pos h]; exact h1 h
  · rw [if_neg h]; exact h2 h

theorem SafeOut.scan {α : Type} {U : Prop} {s : Bytes} {e : EPtr} {g : EPtr → Bytes × EPtr} (h : ScanAt s g) (v : α) :
    SafeOut U s e (.ok (v, (g e).1, (g e).2)) := .ok (h.suffix e) (.of_scan h e)

end Wjson
