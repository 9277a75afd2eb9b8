import Verif.Proofs.ExactObject
import Verif.Proofs.ExactUnits
import Verif.Proofs.ExactFlags
/-
The readers accept exactly the texts of the denotation: every description.
-/
namespace Wjson
open Spec

theorem Meaning.both {c : Cfg} {f : Bool} {α : Type} {S : Ser α} {D : Den α} (h : Meaning c f S D) :
    Inner S D ∧ (f = true → Exact S D) := by
  have key : ∀ {α : Type} {S : Ser α} {D : Den α}, Exact S D → Inner S D ∧ (true = true → Exact S D) :=
    fun h => ⟨h.inner, fun _ => h⟩
  induction h with
  | int h => exact key (intSer_exact c h)
  | bool => exact key boolSer_exact
  | str => exact key strSer_exact
  | float h => exact key (floatSer_exact h _)
  | enum h => exact key (enumSer_exact c _ _ h)
  | flags h1 h2 h3 h4 => exact key (flagsSer_exact h1 h2 h3 h4)
  | chars => exact key (charArraySer_exact _)
  | time h => exact ⟨timeSer_inner c h _, nofun⟩
  | size h h1 h2 => exact key (sizeSer_exact c h h1 h2)
  | rawQuoted => exact key (rawQuotedSer_exact c _ _)
  | quoted _ ih => exact ⟨quotedSer_inner ih.1 _ _, fun hf => quotedSer_exact (ih.2 hf) _ _⟩
  | pointer _ ih => exact ⟨pointerSer_inner ih.1, nofun⟩
  | raw => exact key (rawSer_exact c)
  | memberValue _ ih => exact ⟨memberValue_inner _ _ _ ih.1, fun hf => memberValue_exact _ _ _ (ih.2 hf)⟩
  | array _ ih => exact key (seqSer_exact (by decide) (by decide) ih.1.toAccepts)
  | stdArray _ _ ih => exact key (fixSer_exact .stdArray ih.1)
  | cArray _ _ ih => exact key (fixSer_exact .cArray ih.1)
  | dict _ _ ih1 ih2 => exact key (seqSer_exact (by decide) (by decide) (fieldSer_accepts ih1.1.toAccepts ih2.1.toAccepts))
  | object hg _ ih => exact key (objectSer_exact hg fun d hd => (ih d hd).1.toAccepts)
  | objectArray _ ih => exact key (objectArraySer_exact fun d hd => (ih d hd).1.toAccepts)

theorem Meaning.inner {c : Cfg} {f : Bool} {α : Type} {S : Ser α} {D : Den α} (h : Meaning c f S D) : Inner S D := h.both.1

theorem Meaning.exact {c : Cfg} {α : Type} {S : Ser α} {D : Den α} (h : Means c S D) : Exact S D := h.both.2 rfl

/-- Structures whose members have whatever flag. -/
theorem Meaning.object' {c : Cfg} {τ : Type} {strict : Bool} {dflt : τ} {L : List (DEntry τ)} (hg : GoodNames (L.map DEntry.entry))
    (h : ∀ d ∈ L, ∃ f, Meaning c f d.entry.ref.ser d.den) :
    Meaning c true (objectSer c strict dflt (L.map fun d => d.entry.toMember)) (ObjDen strict dflt L) := by
  classical
  refine .object (f := fun d => if hd : d ∈ L then (h d hd).choose else true) hg fun d hd => ?_
  simp only [dif_pos hd]
  exact (h d hd).choose_spec

end Wjson
