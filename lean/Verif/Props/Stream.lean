import Verif.Props.Dialect
import Verif.Proofs.Stream
/-
C55: a truncated document is noticed. C56: documents that follow one another in
one text are told apart.
-/
namespace Wjson
open Spec

/-! ### C55 -/

/-- C55. A text cut anywhere inside an accepted value that is not a number is not
accepted: whatever is recorded in the error object, it is an error, and the
iterator is `end`. (`s` may go on after the value; the cut text `u` ends inside
it.) -/
theorem C55_truncated {c c' : Cfg} {t u w p q : Bytes} {e e1 e' : EPtr} (ht : parse c (t ++ p) e = .ok (p, e)) (hc : e.Clean)
    (hn : ¬ RNumber t) (hcut : t = u ++ w) (hw : w ≠ []) (he1 : e1.Clean) (h : parse c' u e1 = .ok (q, e')) :
    e'.failed = true ∧ q = [] := by
  cases hf : e'.failed with
  | true => exact ⟨rfl, C04_error_returns_end (c := c') (by simp [parserFns]) he1 h hf⟩
  | false =>
    exfalso
    obtain ⟨t', rfl, hx, _⟩ := parse_accept_iff.mp (parse_of_ok he1 h hf)
    obtain ⟨t2, h2, hx2, _⟩ := (C01_accepted_iff hc).mp ht
    obtain rfl := List.append_cancel_right h2
    have := xvalue_prefix hx2 hn hx (w := q ++ w) (by simpa using hcut)
    simp at this
    exact hw this.2

/-- C55. With a null error pointer the same holds for the iterator alone. -/
theorem C55_truncated_end {c c' : Cfg} {t u w p q : Bytes} {e e' : EPtr} (ht : parse c (t ++ p) e = .ok (p, e)) (hc : e.Clean)
    (hn : ¬ RNumber t) (hcut : t = u ++ w) (hw : w ≠ []) (h : parse c' u .null = .ok (q, e')) : q = [] := by
  rcases parserFns_uniform (c := c') (f := parse c') (by simp [parserFns]) u with ⟨q1, ev, h1, _⟩ | h1
  · have h2 := h1 .null
    rw [h] at h2
    cases h2
    exact (C55_truncated ht hc hn hcut hw EPtr.fresh_clean (h1 .fresh)).2
  · rw [h1] at h; cases h

/-- C55, why numbers are excepted: a shorter number is a number. A cut behind the
point, the sign or the exponent letter is noticed. -/
theorem C55_numbers :
    parse .strict b!"12.5" .fresh = .ok ([], .fresh) ∧ parse .strict b!"12" .fresh = .ok ([], .fresh) ∧
    parse .strict b!"12." .fresh = .ok ([], .obj ⟨.UnexpectedEndFragment, none, 0⟩) ∧
    parse .strict b!"-" .fresh = .ok ([], .obj ⟨.UnexpectedEndFragment, none, 0⟩) ∧
    parse .strict b!"1e" .fresh = .ok ([], .obj ⟨.UnexpectedEndFragment, none, 0⟩) := by decide +kernel

/-- C55 for typed readers: a plain text that was read as a whole and is not a
number is never read from a part of it. -/
theorem C55_typed {c : Cfg} {α : Type} {S : Ser α} {D : Den α} {raw : Bool} (hm : JsonMeans c raw S D) {v0 v v1 v2 : α} {s u w : Bytes} {e e1 : EPtr}
    (he : e.Clean) (he1 : e1.Clean) (hs : s.length ≤ intMax) (hplain : PlainText s) (hws : ∀ b, s.head? = some b → ¬ WsByte b)
    (hn : ¬ RNumber s) (hr : S.de v0 s e = .ok (v, [], e)) (hcut : s = u ++ w) (hw : w ≠ []) :
    S.de v1 u e1 ≠ .ok (v2, [], e1) := by
  intro h
  have hd : Delim [] := by intro b hb; cases hb
  have hx := C54_parse hm he hs hd hplain hws hr .strict .fresh
  subst hcut
  have hu := C54_parse hm he1 (by simp at hs; omega) hd (hplain.sub (List.prefix_append _ _).isInfix) (fun b hb => hws b (by
    cases u with
    | nil => cases hb
    | cons x u => simpa using hb)) h .strict .fresh
  have := C55_truncated (p := []) (by simpa using hx) EPtr.fresh_clean hn rfl hw EPtr.fresh_clean hu
  simp [EPtr.failed, EPtr.fresh] at this
  revert this; decide

example : parse .strict (b!"{\"a\":[1,2]} x") .fresh = .ok (b!" x", .fresh) ∧
    parse .strict b!"{\"a\":[1,2]" .fresh = .ok ([], .obj ⟨.ExpectedOf, some b!"}", 0⟩) := by decide +kernel
example : ¬ RNumber b!"{\"a\":[1,2]}" := by
  intro h
  obtain ⟨b, u, h1, h2⟩ := rnumber_head h
  simp at h1
  obtain ⟨rfl, _⟩ := h1
  revert h2; decide

/-! ### C56 -/

/-- C56. The loop finds the documents of the text, no matter what else the text
could be taken for: it succeeds with `ds` exactly if the text consists of the
documents `ds`. -/
theorem C56_documents {c : Cfg} {s : Bytes} {ds : List Bytes} {e : EPtr} (he : e.Clean) :
    readDocs c (s.length + 1) s e = .ok (ds, e) ↔ Stream ds s :=
  ⟨fun h => readDocs_sound he h he.not_failed, fun h => readDocs_complete h (Nat.le_refl _) e⟩

/-- C56. So a text can be divided in one way only. -/
theorem C56_one_division {s : Bytes} {ds ds' : List Bytes} (h : Stream ds s) (h' : Stream ds' s) : ds = ds' := by
  have a := (C56_documents (c := .strict) EPtr.fresh_clean).mpr h
  rw [(C56_documents EPtr.fresh_clean).mpr h'] at a
  cases a
  rfl

/-- C56. A text that is not a series of documents is reported (unless the parser
reads past the end, C08), and documents before the fault do not hide it. -/
theorem C56_fault {c : Cfg} {s : Bytes} {e : EPtr} (he : e.Clean) (h : ∀ ds, ¬ Stream ds s) :
    readDocs c (s.length + 1) s e = .ub ∨ ∃ ds e', readDocs c (s.length + 1) s e = .ok (ds, e') ∧ e'.failed = true := by
  rcases readDocs_defined c (Nat.le_refl _) e with h1 | ⟨⟨ds, e'⟩, h1⟩
  · exact .inl h1
  · refine .inr ⟨ds, e', h1, ?_⟩
    cases hf : e'.failed with
    | true => rfl
    | false => exact absurd (readDocs_sound he h1 hf) (h ds)

/-- C56. Values written one per line are read back one by one. -/
theorem C56_lines {α : Type} {S : Ser α} {l : List (α × Bytes)} (h : ∀ x ∈ l, RT S x.1 x.2) {e : EPtr} (he : e.Clean) :
    readValues S (l.length + 1) (l.flatMap fun x => x.2 ++ b!"\n") e = .ok (l.map Prod.fst, e) :=
  readValues_lines h he.not_failed .nil

example : Stream [b!"{\"a\":1}", b!"[]", b!"12", b!"\"x\""] b!" {\"a\":1}[] 12\"x\"\n" :=
  (C56_documents (c := .strict) EPtr.fresh_clean).mp (by decide +kernel)
example : ∀ ds, ¬ Stream ds b!"[1] [" := by
  intro ds h
  have h2 := (C56_documents (c := .strict) EPtr.fresh_clean).mpr h
  have : ∀ r, readDocs .strict 6 b!"[1] [" .fresh = .ok r → r.2.failed = true := by
    have h3 : readDocs .strict 6 b!"[1] [" .fresh = .ok ([b!"[1]", b!"["], .obj ⟨.ExpectedOf, some b!"]", 0⟩) := by
      decide +kernel
    intro r hr
    rw [h3] at hr
    cases hr
    decide
  exact Bool.noConfusion (this _ h2)
example : ∀ x ∈ [(true, b!"true"), (false, b!"false")], RT boolSer x.1 x.2 := by
  intro x hx
  simp at hx
  rcases hx with rfl | rfl <;> exact boolSer_rt _

end Wjson
