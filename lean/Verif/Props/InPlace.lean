import Verif.Proofs.InPlace
import Verif.Props.Parser
/-
C70: `despace` may write over its own input.
-/
namespace Wjson
open Spec

/-- C70. Input and output in one memory: if the output does not start after the
text, `despace` returns the same position and the same error as with a separate
output, the bytes written are the same, and every byte before and after them is
as it was. The result is defined for every text and every error argument. -/
theorem C70_in_place {m : Bytes} {beg fin d : Nat} {e : EPtr} (hd : d ≤ beg) (hb : beg ≤ fin) (hf : fin ≤ m.length) :
    ∃ o e', despace ((m.take fin).drop beg) e = .ok ([], e', o) ∧ d + o.length ≤ fin ∧
      despaceIn m beg fin d e = .ok (m.take d ++ o ++ m.drop (d + o.length), fin, d + o.length, e') := by
  obtain ⟨ev, _, h2⟩ := despace_shape ((m.take fin).drop beg)
  obtain ⟨o, h3, _⟩ := h2 e
  refine ⟨o, _, h3, ?_⟩
  have hl : ((m.take fin).drop beg).length = fin - beg := by simp; omega
  have h4 : despaceF (fin - beg + 1) ((m.take fin).drop beg) e = .ok ([], applyErr e ev, o) := by
    rw [← hl]; exact h3
  have h5 := despaceInF_eq fin _ m beg d e hd hb hf h4
  exact ⟨by have := h5.1; omega, h5.2⟩

/-- C70. The usual case: a buffer that holds an accepted document and the white
space around it. Afterwards it begins with the reduced document, which is
accepted, too, and `despace` returns no error. -/
theorem C70_document {c : Cfg} {g1 v g2 : Bytes} {e : EPtr} (h1 : Gap g1) (h2 : Gap g2) (he : e.Clean)
    (hv : parse c v e = .ok ([], e)) :
    ∃ o, despaceIn (g1 ++ v ++ g2) 0 (g1 ++ v ++ g2).length 0 e =
        .ok (o ++ (g1 ++ v ++ g2).drop o.length, (g1 ++ v ++ g2).length, o.length, e) ∧
      parse c o e = .ok ([], e) ∧ despace o e = .ok ([], e, o) := by
  obtain ⟨o, h3, _, h4, h5⟩ := C14_despace_keeps_documents (c := c) h1 h2 he hv
  obtain ⟨o', e', h6, _, h7⟩ := C70_in_place (m := g1 ++ v ++ g2) (beg := 0) (fin := (g1 ++ v ++ g2).length) (d := 0) (e := e)
    (Nat.le_refl _) (Nat.zero_le _) (Nat.le_refl _)
  rw [List.take_length, List.drop_zero, h3] at h6
  cases h6
  exact ⟨o, by simpa using h7, h4, h5⟩

example : despaceIn b!" [ 1 , /* one */ 2 ] " 0 21 0 .fresh = .ok (b!"[1,2], /* one */ 2 ] ", 21, 5, .fresh) := by decide +kernel

example : Gap b!" " ∧ parse .strict b!"[ 1 , 2 ]" .fresh = .ok ([], .fresh) := ⟨.ws (by decide) .nil, by decide +kernel⟩

/-- C70. The condition is needed: with the output starting one byte after the
text the bytes still to be read are overwritten. -/
theorem C70_not_ahead : despace b!"[1,2]" .fresh = .ok ([], .fresh, b!"[1,2]") ∧
    despaceIn b!"[1,2]    " 0 5 1 .fresh = .ok (b!"[[[[[[   ", 5, 6, .fresh) := by decide +kernel

end Wjson
