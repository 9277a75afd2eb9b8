import Verif.Proofs.Dialect
import Verif.Props.Exact
/-
C54: typed readers accept nothing but JSON of the dialect.
-/
namespace Wjson
open Spec

/-- C54. What a description with string keys reads from a plain text is a value
of the dialect. -/
theorem C54_dialect {c : Cfg} {α : Type} {S : Ser α} {D : Den α} {raw : Bool} (h : JsonMeans c raw S D) {v0 v : α} {s p : Bytes} {e : EPtr}
    (he : e.Clean) (hs : s.length ≤ intMax) (hp : Delim p) (hplain : PlainText s) (hws : ∀ b, s.head? = some b → ¬ WsByte b)
    (hr : S.de v0 s e = .ok (v, p, e)) : ∃ t, s = t ++ p ∧ XValue t := by
  obtain ⟨t, rfl, hd⟩ := (C53_exact h.means he hs hp (.inl rfl)).mp hr
  refine ⟨t, rfl, h.value hd (hplain.sub (List.prefix_append _ _).isInfix) ?_⟩
  obtain ⟨b, u, rfl, _⟩ := h.means.exact.head hd
  intro b' hb
  exact hws b' (by cases hb; rfl)

/-- C54. `parse` accepts the same text and stops at the same place, on every
platform and whatever the error argument. -/
theorem C54_parse {c : Cfg} {α : Type} {S : Ser α} {D : Den α} {raw : Bool} (h : JsonMeans c raw S D) {v0 v : α} {s p : Bytes} {e : EPtr}
    (he : e.Clean) (hs : s.length ≤ intMax) (hp : Delim p) (hplain : PlainText s) (hws : ∀ b, s.head? = some b → ¬ WsByte b)
    (hr : S.de v0 s e = .ok (v, p, e)) (c' : Cfg) (e' : EPtr) : parse c' s e' = .ok (p, e') := by
  obtain ⟨t, rfl, ht⟩ := C54_dialect h he hs hp hplain hws hr
  exact parse_accept_iff.mpr ⟨t, rfl, ht, fun _ => hp.numFollow _⟩ e'

/-- C54. So a plain text that `parse` refuses is refused by every description:
an error is reported, or something is left over. -/
theorem C54_refused {c : Cfg} {α : Type} {S : Ser α} {D : Den α} {raw : Bool} (h : JsonMeans c raw S D) {v0 : α} {s : Bytes} {e : EPtr}
    (he : e.Clean) (hs : s.length ≤ intMax) (hplain : PlainText s) (hws : ∀ b, s.head? = some b → ¬ WsByte b)
    {c' : Cfg} {e' : EPtr} (hr : parse c' s e' ≠ .ok ([], e')) (v : α) : S.de v0 s e ≠ .ok (v, [], e) :=
  fun hd => hr (C54_parse h he hs (by intro b hb; cases hb) hplain hws hd c' e')

/-- C54, the conditions: each of these texts is read without error by a typed
reader and refused by `parse`: an escape `\x`, a byte from 128 on (here the first
byte of a character takes the closing quote as its second byte), `null` as a key,
a number as a key, a control character before a name, a backslash in an unknown
name. -/
theorem C54_conditions_needed :
    strSer.de [] b!"\"\\x41\"" .fresh = .ok (b!"A", [], .fresh) ∧
    parse .strict b!"\"\\x41\"" .fresh = .ok ([], .obj ⟨.InvalidString, none, 4⟩) ∧
    strSer.de [] [c%'"', 0xC3, c%'"', c%'"'] .fresh = .ok ([0xC3, c%'"'], [], .fresh) ∧
    parse .strict [c%'"', 0xC3, c%'"', c%'"'] .fresh = .ok ([], .obj ⟨.InvalidString, none, 2⟩) ∧
    (dictSer (seqColl (Bytes × Bool)) strSer boolSer).de [] b!"{null:true}" .fresh = .ok ([([], true)], [], .fresh) ∧
    parse .strict b!"{null:true}" .fresh = .ok ([], .obj ⟨.InvalidMember, none, 10⟩) ∧
    (dictSer (seqColl (Int × Bool)) (intSer .strict .int) boolSer).de [] b!"{1:true}" .fresh = .ok ([(1, true)], [], .fresh) ∧
    parse .strict b!"{1:true}" .fresh = .ok ([], .obj ⟨.InvalidMember, none, 7⟩) ∧
    (enumSer .strict true (0 : Int) [(b!"a", 1)]).de 0 (1 :: b!"\"a\"") .fresh = .ok (1, [], .fresh) ∧
    parse .strict (1 :: b!"\"a\"") .fresh = .ok ([], .obj ⟨.InvalidJSON, none, 4⟩) ∧
    (enumSer .strict false (0 : Int) [(b!"a", 1)]).de 7 b!"\"b\\\"" .fresh = .ok (0, [], .fresh) ∧
    parse .strict b!"\"b\\\"" .fresh = .ok ([], .obj ⟨.UnexpectedEndFragment, none, 0⟩) := by
  refine ⟨?_, ?_, ?_, ?_, ?_, ?_, ?_, ?_, ?_, ?_, ?_, ?_⟩ <;> decide +kernel

/-! The structure of the examples of C53. -/

theorem demoRec_json (c : Cfg) : JsonMeans c false (demoRecSer c) (ObjDen false ⟨0, [], []⟩ (demoRec c)) := by
  refine .object ⟨?_, ?_⟩ ?_
  · show [b!"a", b!"b", b!"c"].Nodup
    decide
  · show ∀ n ∈ [b!"a", b!"b", b!"c"], PlainName n
    unfold PlainName
    decide
  intro d hd
  simp only [demoRec, List.mem_cons, List.not_mem_nil, or_false] at hd
  rcases hd with rfl | rfl | rfl
  · exact .int (by unfold IntTy.Std; decide)
  · exact .array (K := seqColl (List Bool)) (.array (K := seqColl Bool) .bool)
  · exact .dict (K := seqColl (Bytes × Bytes)) .str (.key .str)

/-- A text with comments, trailing commas, an unknown member and two members. -/
def demoPlain : Bytes := b!"{\"c\" :{\"k\\n\":\"\\u0041\"}, /*x*/ \"zz\":{\"q\":[1,]},\n\"b\":[[true ,false,],[ ],]}"

example : PlainText demoPlain := by
  refine ⟨by decide, by decide +kernel, fun g _ h => ?_⟩
  have : b!"null" <:+: demoPlain := List.IsInfix.trans ⟨[], g ++ b!":", by simp⟩ h
  revert this
  decide +kernel

example : (demoRecSer .strict).de ⟨5, [], []⟩ demoPlain .fresh = .ok (⟨5, [[true, false], []], [(b!"k\n", b!"A")]⟩, [], .fresh) := by
  decide +kernel

end Wjson
