import Verif.Proofs.Valid
import Verif.Props.Parser
import Verif.Props.Typed
/-
Descriptions nested to any depth: what is written is JSON (C49) and is read back
(C50).
-/
namespace Wjson
open Spec

/-! ### C49 -/

/-- C49. A value built from integers, Booleans, well-formed strings, names and
containers of these, nested to any depth, is written as an RFC 8259 value. -/
theorem C49_written_json {c : Cfg} {α : Type} {S : Ser α} {v : α} (h : JsonValue c S v) :
    ∃ t, (∀ m, S.emit v ⟨m, .back⟩ = .ok ⟨m ++ t, .back⟩) ∧ RValue t :=
  JsonValueOf.json jsonLike_rfc h

/-- C49. The text is accepted by `parse` and consumed entirely, whatever the
platform reading it and whatever the error argument. -/
theorem C49_accepted {c : Cfg} {α : Type} {S : Ser α} {v : α} {t : Bytes} (h : JsonValue c S v)
    (ht : S.emit v ⟨[], .back⟩ = .ok ⟨t, .back⟩) (c' : Cfg) (e : EPtr) : parse c' t e = .ok ([], e) := by
  obtain ⟨u, h1, h2⟩ := JsonValueOf.json jsonLike_rfc h
  have h1 := h1 []
  rw [ht] at h1
  cases h1
  simpa using C02_rfc_value_accepted_delim c' e h2 (rest := []) (by intro b hb; cases hb)

/-- C49. The same for what precedes a delimiter in a longer text, and for the
text written through a raw pointer when the description writes portably. -/
theorem C49_accepted_in_buffer {c : Cfg} {α : Type} {S : Ser α} {v : α} (h : JsonValue c S v) (hd : Described c .portable S) :
    ∃ t, ∀ pre old rest : Bytes, old.length = t.length → Delim rest →
      S.emit v ⟨pre ++ old ++ rest, .ptr pre.length⟩ = .ok ⟨pre ++ t ++ rest, .ptr (pre.length + t.length)⟩ ∧
      ∀ c' e, parse c' (t ++ rest) e = .ok (rest, e) := by
  obtain ⟨t, h1, h2⟩ := JsonValueOf.json jsonLike_rfc h
  exact ⟨t, fun pre old rest ho hr => ⟨(C46_pointer_like_inserter hd v (h1 [])).1 pre old rest ho,
    fun c' e => C02_rfc_value_accepted_delim c' e h2 hr⟩⟩

/-- C49. Keys, and everything described as a string, are written as RFC 8259
strings. -/
theorem C49_keys {c : Cfg} {α : Type} {S : Ser α} {v : α} (h : JsonKey c S v) :
    ∃ t, (∀ m, S.emit v ⟨m, .back⟩ = .ok ⟨m ++ t, .back⟩) ∧ RString t :=
  JsonKeyOf.string jsonLike_rfc h

/-- C49 fails for keys that are not strings, for names that need escapes, and for
strings that are not UTF-8 (C20): the first is refused by `parse`, the second is
consumed only in part, the third is written with an escape that `parse` refuses. -/
theorem C49_conditions_needed :
    (dictSer (seqColl (Int × Bool)) (intSer .strict .int) boolSer).emit [(1, true)] ⟨[], .back⟩ = .ok ⟨b!"{1:true}", .back⟩ ∧
    parse .strict b!"{1:true}" .fresh = .ok ([], .obj ⟨.InvalidMember, none, 7⟩) ∧
    (enumSer .strict true (0 : Int) [(b!"a\"b", 0)]).emit 0 ⟨[], .back⟩ = .ok ⟨b!"\"a\"b\"", .back⟩ ∧
    parse .strict b!"\"a\"b\"" .fresh = .ok (b!"b\"", .fresh) ∧
    strSer.emit [c%'a', 0xFF] ⟨[], .back⟩ = .ok ⟨b!"\"a\\xff\"", .back⟩ ∧
    parse .strict b!"\"a\\xff\"" .fresh = .ok ([], .obj ⟨.InvalidString, none, 4⟩) := by decide +kernel

/-! A list of dictionaries of arrays. -/

/-- The type used in the examples: `vector<map<string, vector<int>>>`. -/
def demoNested (c : Cfg) : Ser (List (List (Bytes × List Int))) :=
  arraySer (seqColl _) (dictSer (seqColl (Bytes × List Int)) strSer (arraySer (seqColl Int) (intSer c .int)))

example : JsonValue .strict (demoNested .strict) [[(b!"a\n", [1, -2]), (b!"", [])], []] := by
  have hi : ∀ z : Int, z = 1 ∨ z = -2 → JsonValue .strict (intSer .strict .int) z := by
    intro z hz
    refine .int (by unfold IntTy.Std; decide) ?_
    rcases hz with rfl | rfl <;> (unfold IntTy.InRange; decide)
  refine .array ?_
  rintro x (_ | ⟨_, (_ | ⟨_, ⟨⟩⟩)⟩)
  · refine .dict ?_ ?_
    · rintro y (_ | ⟨_, (_ | ⟨_, ⟨⟩⟩)⟩)
      · exact .str (.ascii (by decide) (.ascii (by decide) .nil))
      · exact .str .nil
    · rintro y (_ | ⟨_, (_ | ⟨_, ⟨⟩⟩)⟩)
      · exact .array fun z hz => hi z (by simpa [seqColl] using hz)
      · exact .array fun z hz => by cases hz
  · exact .dict (fun y hy => by cases hy) fun y hy => by cases hy

example : (demoNested .strict).emit [[(b!"a\n", [1, -2]), (b!"", [])], []] ⟨[], .back⟩ =
    .ok ⟨b!"[{\"a\\n\":[1,-2],\"\":[]},{}]", .back⟩ := by decide +kernel

/-! ### C50 -/

/-- C50. Every good value of every description, nested to any depth, is written
to a text that is read back, into any variable, as the same value, with no error
and nothing left over. -/
theorem C50_round_trip {c : Cfg} {α : Type} {S : Ser α} {v : α} (h : GoodValue c S v) :
    ∃ t, S.emit v ⟨[], .back⟩ = .ok ⟨t, .back⟩ ∧ ∀ v0, S.de v0 t .fresh = .ok (v, [], .fresh) := by
  obtain ⟨t, h⟩ := h.rtb
  exact ⟨t, by simpa using h.writes [], fun v0 => by simpa using h.reads v0 [] .fresh rfl (by intro b hb; cases hb)⟩

/-- C50 in the middle of a text: what was appended to `m` is read back from there
up to its end, whatever delimiter follows, with any error object that is not
already an error, or with a null error pointer. -/
theorem C50_round_trip_in_text {c : Cfg} {α : Type} {S : Ser α} {v : α} (h : GoodValue c S v) :
    ∃ t, (∀ m, S.emit v ⟨m, .back⟩ = .ok ⟨m ++ t, .back⟩) ∧
      ∀ v0 rest e, e.failed = false → Delim rest → S.de v0 (t ++ rest) e = .ok (v, rest, e) := by
  obtain ⟨t, h⟩ := h.rtb
  exact ⟨t, h.writes, h.reads⟩

/-- C50 through a raw pointer into a buffer. -/
theorem C50_round_trip_in_buffer {c : Cfg} {α : Type} {S : Ser α} {v : α} (h : GoodValue c S v) (hd : Described c .portable S) :
    ∃ t, ∀ pre old rest : Bytes, old.length = t.length → Delim rest →
      S.emit v ⟨pre ++ old ++ rest, .ptr pre.length⟩ = .ok ⟨pre ++ t ++ rest, .ptr (pre.length + t.length)⟩ ∧
      ∀ v0, S.de v0 (t ++ rest) .fresh = .ok (v, rest, .fresh) := by
  obtain ⟨t, h1, h2⟩ := C50_round_trip_in_text h
  exact ⟨t, fun pre old rest ho hr => ⟨(C46_pointer_like_inserter hd v (h1 [])).1 pre old rest ho,
    fun v0 => h2 v0 rest .fresh rfl hr⟩⟩

/-- C50. No two good values of a description are written alike. -/
theorem C50_injective {c : Cfg} {α : Type} {S : Ser α} {v w : α} (hv : GoodValue c S v) (hw : GoodValue c S w)
    (h : S.emit v ⟨[], .back⟩ = S.emit w ⟨[], .back⟩) : v = w := by
  obtain ⟨t, h1, h2⟩ := C50_round_trip hv
  obtain ⟨u, h3, h4⟩ := C50_round_trip hw
  rw [h1, h3] at h
  cases h
  have := (h2 v).symm.trans (h4 v)
  exact (Prod.mk.inj (Out.ok.inj this)).1

/-- Integers below `n` levels of lists. -/
def NestTy : Nat → Type
  | 0 => Int
  | n + 1 => List (NestTy n)

/-- Its description, `value<vector<...>>` of depth `n`. -/
def nestSer (c : Cfg) : (n : Nat) → Ser (NestTy n)
  | 0 => intSer c .int
  | n + 1 => arraySer (seqColl (NestTy n)) (nestSer c n)

/-- `[[...[7,7]...,[7,7]]]`, a value of depth `n`. -/
def nestVal : (n : Nat) → NestTy n
  | 0 => (7 : Int)
  | n + 1 => [nestVal n, nestVal n]

/-- The hypotheses of C49 and C50 are met at every depth. -/
theorem nestVal_good (c : Cfg) : ∀ n, GoodValue c (nestSer c n) (nestVal n) ∧ JsonValue c (nestSer c n) (nestVal n)
  | 0 => ⟨.int (v := 7) (by unfold IntTy.Std; decide) (by unfold IntTy.InRange; decide) (.inl (by decide)),
      .int (v := 7) (by unfold IntTy.Std; decide) (by unfold IntTy.InRange; decide)⟩
  | n + 1 => by
    have ih := nestVal_good c n
    have key : ∀ v, v ∈ [nestVal n, nestVal n] → v = nestVal n := by
      intro v hv
      simpa using hv
    exact ⟨.seq (vs := [nestVal n, nestVal n]) fun v hv => by rw [key v hv]; exact ih.1,
      .array (K := seqColl (NestTy n)) (v := [nestVal n, nestVal n]) fun v hv => by rw [key v hv]; exact ih.2⟩

example : (nestSer .strict 3).emit (nestVal 3) ⟨[], .back⟩ = .ok ⟨b!"[[[7,7],[7,7]],[[7,7],[7,7]]]", .back⟩ := by decide +kernel

end Wjson
