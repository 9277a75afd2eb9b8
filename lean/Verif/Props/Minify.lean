import Verif.Proofs.Minify
import Verif.Props.Dialect
import Verif.Props.Nested
/-
C59: white space and comments between the tokens do not change what is read.
-/
namespace Wjson
open Spec

/-- C59. A plain text that a description reads, with any white space and comments
around it, is reduced by `despace` without an error; the same description reads
the result as a whole and stores the same value. -/
theorem C59_minified {c : Cfg} {α : Type} {S : Ser α} {D : Den α} (h : JsonMeans c false S D) {v0 v : α} {s : Bytes} {e : EPtr}
    (he : e.Clean) (hs : s.length ≤ intMax) (hplain : PlainText s) (hws : ∀ b, s.head? = some b → ¬ WsByte b)
    (hr : S.de v0 s e = .ok (v, [], e)) {g1 g2 : Bytes} (h1 : Gap g1) (h2 : Gap g2) {e' : EPtr} (he' : e'.Clean) :
    ∃ o, despace (g1 ++ s ++ g2) e' = .ok ([], e', o) ∧ S.de v0 o e = .ok (v, [], e) := by
  have hd := (C53_whole h.means he hs).mp hr
  obtain ⟨o, hm, ho⟩ := h.gapFree v0 v s hd hplain hws
  have hx := h.value hd hplain hws
  have h3 : Eats (g1 ++ (s ++ g2)) ([] ++ o) := (eats_gap h1).seq (hm.1.gap_right h2) (fun t _ => by
    rw [List.append_assoc]; exact (start_of_xvalue hx).star _)
  have h4 := h3.dacc e' he'.not_failed
  rw [← List.append_assoc, List.nil_append] at h4
  have h5 := (hm.1.dacc e' he'.not_failed)
  refine ⟨o, h4, (C53_whole h.means he ?_).mpr ho⟩
  have := C13_despace_output_bounded h5
  omega

/-- C59. So reading a text and reading what `despace` makes of it never give two
different values. -/
theorem C59_agree {c : Cfg} {α : Type} {S : Ser α} {D : Den α} (h : JsonMeans c false S D) {v0 v v' : α} {s o r p : Bytes}
    {e e1 e2 e3 : EPtr} (he : e.Clean) (he1 : e1.Clean) (hs : s.length ≤ intMax) (hplain : PlainText s)
    (hws : ∀ b, s.head? = some b → ¬ WsByte b) (hr : S.de v0 s e = .ok (v, [], e)) (hd : despace s e1 = .ok (r, e2, o))
    (ho : S.de v0 o e = .ok (v', p, e3)) : v' = v ∧ p = [] ∧ e3 = e ∧ e2 = e1 := by
  obtain ⟨o', h1, h2⟩ := C59_minified h he hs hplain hws hr .nil .nil he1
  rw [List.append_nil, List.nil_append] at h1
  rw [hd] at h1
  cases h1
  rw [ho] at h2
  cases h2
  exact ⟨rfl, rfl, rfl, rfl⟩

/-- C59, the other direction fails: after the comma that follows the last element
of a fixed-size array no white space is allowed, so `despace` turns a text that is
refused into one that is read. -/
theorem C59_converse_fails :
    (fixSer .stdArray 2 (intSer .strict .int)).de [0, 0] b!"[1,2, ]" .fresh = .ok ([1, 2], [], .obj ⟨.ExpectedOf, some b!"]", 2⟩) ∧
    despace b!"[1,2, ]" .fresh = .ok ([], .fresh, b!"[1,2,]") ∧
    (fixSer .stdArray 2 (intSer .strict .int)).de [0, 0] b!"[1,2,]" .fresh = .ok ([1, 2], [], .fresh) := by
  refine ⟨?_, ?_, ?_⟩ <;> decide +kernel

/-- C59, the conditions: a raw value keeps the white space; a string with an
escape `\x` and a null pointer in a sloppy spelling are read, but `despace` refuses
them. -/
theorem C59_conditions_needed :
    (rawSer .strict).de [] b!"[1, 2]" .fresh = .ok (b!"[1, 2]", [], .fresh) ∧
    despace b!"[1, 2]" .fresh = .ok ([], .fresh, b!"[1,2]") ∧
    (rawSer .strict).de [] b!"[1,2]" .fresh = .ok (b!"[1,2]", [], .fresh) ∧
    strSer.de [] b!"\"\\x41\"" .fresh = .ok (b!"A", [], .fresh) ∧
    despace b!"\"\\x41\"" .fresh = .ok ([], .obj ⟨.InvalidString, none, 4⟩, []) ∧
    (pointerSer boolSer).de none b!"n  l" .fresh = .ok (none, [], .fresh) ∧
    despace b!"n  l" .fresh = .ok ([], .obj ⟨.ExpectedOf, some b!"null", 1⟩, []) := by
  refine ⟨?_, ?_, ?_, ?_, ?_, ?_, ?_⟩ <;> decide +kernel

/-! The text of the examples of C54. -/

example : despace demoPlain .fresh =
    .ok ([], .fresh, b!"{\"c\":{\"k\\n\":\"\\u0041\"},\"zz\":{\"q\":[1,]},\"b\":[[true,false,],[],]}") := by decide +kernel
example : (demoRecSer .strict).de ⟨5, [], []⟩ b!"{\"c\":{\"k\\n\":\"\\u0041\"},\"zz\":{\"q\":[1,]},\"b\":[[true,false,],[],]}" .fresh =
    .ok (⟨5, [[true, false], []], [(b!"k\n", b!"A")]⟩, [], .fresh) := by decide +kernel
example (c : Cfg) : JsonMeans c false (demoRecSer c) (ObjDen false ⟨0, [], []⟩ (demoRec c)) := demoRec_json c

/-! ### C60 -/

/-- C60. A value whose raw parts contain no white space is written as an RFC 8259
value without any white space between the tokens. -/
theorem C60_compact {c : Cfg} {α : Type} {S : Ser α} {v : α} (h : CompactValue c S v) :
    ∃ t, (∀ m, S.emit v ⟨m, .back⟩ = .ok ⟨m ++ t, .back⟩) ∧ CR .value t :=
  JsonValueOf.json jsonLike_compact h

/-- C60. So `despace` leaves serialized text as it is. -/
theorem C60_despace_identity {c : Cfg} {α : Type} {S : Ser α} {v : α} {t : Bytes} (h : CompactValue c S v)
    (ht : S.emit v ⟨[], .back⟩ = .ok ⟨t, .back⟩) {e : EPtr} (he : e.Clean) : despace t e = .ok ([], e, t) := by
  obtain ⟨u, h1, h2⟩ := C60_compact h
  have h1 := h1 []
  rw [ht] at h1
  cases h1
  simpa using (eats_cg (CR.c h2)).dacc e he.not_failed

/-- C60, the condition: raw values are written as they are. -/
theorem C60_condition_needed :
    (rawSer .strict).emit b!"[1, 2]" ⟨[], .back⟩ = .ok ⟨b!"[1, 2]", .back⟩ ∧
    despace b!"[1, 2]" .fresh = .ok ([], .fresh, b!"[1,2]") := by
  refine ⟨?_, ?_⟩ <;> decide +kernel

/-- A list of dictionaries of arrays, C49. -/
example : CompactValue .strict (demoNested .strict) [[(b!"a\n", [1, -2]), (b!" b ", [])], []] := by
  have hi : ∀ z : Int, z = 1 ∨ z = -2 → CompactValue .strict (intSer .strict .int) z := by
    intro z hz
    refine .int (by unfold IntTy.Std; decide) ?_
    rcases hz with rfl | rfl <;> (unfold IntTy.InRange; decide)
  refine .array ?_
  rintro x (_ | ⟨_, (_ | ⟨_, ⟨⟩⟩)⟩)
  · refine .dict ?_ ?_
    · rintro y (_ | ⟨_, (_ | ⟨_, ⟨⟩⟩)⟩)
      · exact .str (utf8_of_ascii (by decide))
      · exact .str (utf8_of_ascii (by decide))
    · rintro y (_ | ⟨_, (_ | ⟨_, ⟨⟩⟩)⟩)
      · exact .array fun z hz => hi z (by simpa [seqColl] using hz)
      · exact .array fun z hz => by cases hz
  · exact .dict (fun y hy => by cases hy) fun y hy => by cases hy

example : (demoNested .strict).emit [[(b!"a\n", [1, -2]), (b!" b ", [])], []] ⟨[], .back⟩ =
    .ok ⟨b!"[{\"a\\n\":[1,-2],\" b \":[]},{}]", .back⟩ := by decide +kernel

end Wjson
