import Verif.Proofs.ObjectStrict
import Verif.Props.Objects
/-
Property C30, for values that the members' types cannot read as well.
`Stalls` is defined in Spec/Strict.lean.
-/
namespace Wjson
open Spec

/-- C30. A strict object rejects every JSON object that has an unknown key,
wherever it stands, also if there are values in it that the types of the members
cannot read. -/
theorem C30_strict_unknown_any {τ : Type} (c : Cfg) (dflt : τ) {L : List (Entry τ)} (hg : GoodNames L)
    {items : List (Bytes × Bytes)} (hj : ∀ x ∈ items, Skippable x)
    (hv : ∀ x ∈ items, ∀ en ∈ L, en.ref.name = x.1 → (∃ y, Reads en.ref.ser.de x.2 y) ∨ Stalls en.ref.ser.de x.2)
    (hu : ∃ x ∈ items, x.1 ∉ names L) {s : Bytes} (hs : ObjText items s) (v0 : τ) (rest : Bytes) {e : EPtr} (he : e.Clean) :
    ∃ v' p e', (objectSer c true dflt (L.map Entry.toMember)).de v0 (s ++ rest) e = .ok (v', p, e') ∧ e'.failed = true :=
  (deObject_items (c := c) hs (chain_strict hg (items_start hs) hj hv hu L (fun _ h => h) v0) rest he.not_failed).2 rfl he

/-! Values that an integer cannot read, and a text with them and an unknown key. -/

example (c : Cfg) (ty : IntTy) : Stalls (intSer c ty).de b!"\"x\"" := by
  intro v0 rest x hx hd
  exact ⟨0, [], _, rfl, .inl ⟨rfl, EPtr.Clean.create ⟨x, rfl, hx⟩ (c := .InvalidNumber) (by decide) none _⟩⟩

example (c : Cfg) (ty : IntTy) : Stalls (intSer c ty).de b!"0.5" := by
  intro v0 rest x hx hd
  refine ⟨0, b!".5" ++ rest, .obj x, rfl, .inr ⟨rfl, ?_, by simp, by simp⟩⟩
  intro b hb
  simp at hb
  subst hb
  exact ⟨by unfold WsByte; decide, by decide⟩

example : ObjText [(b!"a", b!"0.5"), (b!"zz", b!"[]")] b!"{\"a\":0.5,\"zz\":[]}" :=
  .items (g := []) .nil (.more (g1 := []) (g2 := []) (g3 := []) (g4 := []) .nil .nil ⟨_, _, rfl, by decide⟩ .nil .nil
    (.one (g1 := []) (g2 := []) (g3 := []) .nil .nil ⟨_, _, rfl, by decide⟩ .nil))

example : ∃ v p e, (demoSer true).de ⟨1, false, b!"old", 7⟩ b!"{\"a\":0.5,\"zz\":[]}" .fresh = .ok (v, p, e) ∧ e.failed = true :=
  ⟨_, _, _, rfl, by decide +kernel⟩

end Wjson
