import Verif.Proofs.LogIf
import Verif.Props.Log
import Verif.Props.Stable
/-
C89 for descriptions with alternatives.
-/
namespace Wjson
open Spec

section
variable {c : Cfg} {α : Type} {S : Ser α}

/-- C89, a line feed before each record. A file with whole records is read as the values that were written. This holds for
every description, numbers and pointers included. -/
theorem C89_lines_whole {vs : List α} {s : Bytes} (h : LogLines c S vs s) {e : EPtr} (he : e.Clean) :
    recoverValues S (s.length + 1) s e = .ok (vs, [], e) := recoverValues_all_lines h he.not_failed (Nat.lt_succ_self _)

/-- C89, a line feed before each record, with alternatives inside. The program is stopped at any byte while it appends the
record of `v`: if not more than the line feed got into the file it is read as the values before, if the whole record did as
these and `v`, and otherwise an error is reported, the values are those before, and the loop stops where the torn text begins. -/
theorem C89_lines_torn {raw : Bool} (hS : AltEnclosed c raw S) {vs : List α} {s : Bytes} (h : LogLines c S vs s) {v : α} {t x : Bytes}
    (ht : TextOf c S v t) (hpl : PlainText t) (hx : x <+: b!"\n" ++ t) {e : EPtr} (he : e.Clean) :
    (x.length ≤ 1 ∧ recoverValues S ((s ++ x).length + 1) (s ++ x) e = .ok (vs, [], e)) ∨
    (x = b!"\n" ++ t ∧ recoverValues S ((s ++ x).length + 1) (s ++ x) e = .ok (vs ++ [v], [], e)) ∨
    (∃ z, x = b!"\n" ++ z ∧ z ≠ [] ∧ z.length < t.length ∧
      (recoverValues S ((s ++ x).length + 1) (s ++ x) e = .ub ∨
        ∃ e', e'.failed = true ∧ recoverValues S ((s ++ x).length + 1) (s ++ x) e = .ok (vs, z, e'))) := by
  rcases prefix_line hx with rfl | rfl | rfl | ⟨z, y, rfl, h1, h2, rfl⟩
  · rw [List.append_nil]
    exact .inl ⟨Nat.zero_le _, C89_lines_whole h he⟩
  · exact .inl ⟨Nat.le_refl _, C89_lines_whole h.newline he⟩
  · exact .inr (.inl ⟨rfl, C89_lines_whole (h.record ht hpl) he⟩)
  · refine .inr (.inr ⟨z, rfl, h1, ?_, ?_⟩)
    · have := List.length_pos_iff.mpr h2
      rw [List.length_append]
      omega
    · rcases recoverValues_torn_line h ht hpl h1 h2 hS.closed he (Nat.lt_succ_self _) with ⟨h3, _⟩ | h3
      · exact .inl h3
      · exact .inr h3

/-- C89, a line feed before each record, with alternatives inside. After any history of appends, stops and recoveries the
file is read as exactly the values the program goes on with. -/
theorem C89_lines_history {raw : Bool} (hS : AltEnclosed c raw S) {vs : List α} {s : Bytes} (h : LineFile c S vs s) :
    LogLines c S vs s ∧ recoverValues S (s.length + 1) s .fresh = .ok (vs, [], .fresh) := by
  have key : LogLines c S vs s := by
    induction h with
    | new => exact .nil
    | append _ ht hpl ih => exact ih.record ht hpl
    | @stopped vs vs' s x s' rest v t e _ ht hpl hx hr hcut ih =>
      rcases C89_lines_torn hS ih ht hpl hx EPtr.fresh_clean with ⟨h0, h1⟩ | ⟨rfl, h1⟩ | ⟨z, rfl, _, _, h2 | ⟨e', _, h2⟩⟩
      · rw [h1] at hr
        cases hr
        rw [List.append_nil] at hcut
        subst hcut
        rcases prefix_line hx with rfl | rfl | rfl | ⟨z, y, rfl, h3, _, _⟩
        · rw [List.append_nil]; exact ih
        · exact ih.newline
        · obtain ⟨b, u, rfl, _⟩ := ht.rtb.start
          simp at h0
        · have := List.length_pos_iff.mpr h3
          simp only [List.length_append, List.length_cons, List.length_nil] at h0
          omega
      · rw [h1] at hr
        cases hr
        rw [List.append_nil] at hcut
        exact hcut ▸ ih.record ht hpl
      · rw [h2] at hr; cases hr
      · rw [h2] at hr
        cases hr
        rw [← List.append_assoc] at hcut
        rw [← List.append_cancel_right hcut]
        exact ih.newline
  exact ⟨key, C89_lines_whole key EPtr.fresh_clean⟩

end

/-! A log of peers, each with a name or a number for its port (the structure of the examples of C66). -/

def demoPeerSlots : List (DSlot DemoPeer) :=
  [.alt ⟨b!"port", (·.name), fun x t => { t with name := x }, strSer⟩
    ⟨b!"port", (·.port), fun x t => { t with port := x }, demoPort .strict⟩ (fun x : Bytes => x.isEmpty) false StrDen (IntDen .strict .ushort) false,
   .one ⟨.mem ⟨b!"tls", (·.tls), fun x t => { t with tls := x }, boolSer⟩, BoolDen⟩]

theorem demoPeer_enclosed : AltEnclosed .strict false (demoPeerSer .strict) := by
  refine .object (L := demoPeerSlots) ?_ ?_ ?_
  · intro d hd
    simp only [demoPeerSlots, List.mem_cons, List.not_mem_nil, or_false] at hd
    rcases hd with rfl | rfl
    · exact ⟨by show PlainName b!"port"; unfold PlainName; decide, rfl⟩
    · exact ⟨by show PlainName b!"tls"; unfold PlainName; decide, trivial⟩
  · intro d hd
    simp only [demoPeerSlots, List.mem_cons, List.not_mem_nil, or_false, DSlot.one.injEq, reduceCtorEq, false_or] at hd
    subst hd
    exact .base .bool
  · intro l r i RU Dl Dr ex hd
    simp only [demoPeerSlots, List.mem_cons, List.not_mem_nil, or_false, reduceCtorEq] at hd
    cases hd
    exact ⟨rfl, .base (.key .str), .base (.int (by unfold IntTy.Std; decide))⟩

theorem demoPeer_text : TextOf .strict (demoPeerSer .strict) ⟨[], 8080, true⟩ b!"{\"port\":8080,\"tls\":true}" := by
  refine ⟨?_, by decide +kernel, by decide⟩
  exact (C66_stays_good (demoPeer_stable .strict) (s := b!"{\"port\":8080,\"tls\":true}") (e := .fresh) (e' := .fresh) (p := [])
    (fun _ => by unfold CalmText; decide +kernel) (demoPeer_stable .strict).kept.dflt (by decide +kernel)).2

theorem demoPeer_plain : PlainText b!"{\"port\":8080,\"tls\":true}" := by
  refine ⟨by unfold WsByte; decide, by decide, fun g _ h => ?_⟩
  rw [List.append_assoc] at h
  exact absurd ((List.prefix_append _ _).isInfix.trans h) (by decide)

/-- A file with one peer, and the program stopped inside the number of a second one, which could be read as a number. -/
example : LineFile .strict (demoPeerSer .strict) [⟨[], 8080, true⟩] b!"\n{\"port\":8080,\"tls\":true}\n" :=
  .stopped (vs := [⟨[], 8080, true⟩]) (s := b!"\n{\"port\":8080,\"tls\":true}") (x := b!"\n{\"port\":80") (rest := b!"{\"port\":80")
    (e := .obj ⟨.UnexpectedEndFragment, none, 0⟩) (LineFile.append .new demoPeer_text demoPeer_plain) demoPeer_text demoPeer_plain (by decide) (by decide +kernel) rfl

end Wjson
