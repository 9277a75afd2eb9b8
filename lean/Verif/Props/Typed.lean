import Verif.Proofs.Described
import Verif.Proofs.Portable
import Verif.Props.Objects
/-
Properties of every description, whatever templates it is built from and however
deeply it is nested: C05 and C09 (typed part), C46, C48.
-/
namespace Wjson
open Spec

/-! ### A description that uses most templates, for the examples -/

/-- A description with a name, flags, an optional list of dictionaries, and a
positional pair in quotes. -/
def demoTyped (c : Cfg) : Ser (Demo × (Option (List (List (Bytes × Int))) × (Int × Bool))) :=
  fieldSer (objectSer c false ⟨0, false, [], 0⟩ [member demoA, memberP demoB, member demoS])
    (fieldSer (pointerSer (arraySer (seqColl (List (Bytes × Int))) (dictSer (seqColl (Bytes × Int)) strSer (intSer c .int))))
      (quotedSer (fieldSer (intSer c .int) boolSer) true false))

local instance : DecidableEq (Option (List (List (Bytes × Int)))) := inferInstance

theorem demoTyped_described {f : Features} (hf : f.pointers = true) (hq : f.quotes = true) : Described .strict f (demoTyped .strict) := by
  refine .field (.object _ _ _ ?_) (.field (.pointer hf (.array _ (.dict _ .str (.int _)))) (.quoted _ _ hq (.field (.int _) .bool)))
  intro m hm
  simp only [List.mem_cons, List.not_mem_nil, or_false] at hm
  rcases hm with rfl | rfl | rfl
  · exact .member _ (.int _)
  · exact .memberP _ .bool
  · exact .member _ .str

/-! ### C48 -/

/-- C48. Every deserializer terminates. Either it runs into one of the listed
undefined behaviours (C08, C15, C37, C39) or it returns a position inside the
text: the rest is a suffix of the text it was given. -/
theorem C48_terminates_inside {c : Cfg} {α : Type} {S : Ser α} (h : Described c .all S) (v : α) (s : Bytes) (e : EPtr) :
    S.de v s e = .ub ∨ ∃ v' p e', S.de v s e = .ok (v', p, e') ∧ ∃ a, s = a ++ p := by
  rcases h.safe v s e with ⟨h, _⟩ | ⟨v', p, e', h, h1, _⟩
  · exact .inl h
  · obtain ⟨a, ha⟩ := h1
    exact .inr ⟨v', p, e', h, a, ha.symm⟩

/-- C48. Without `time_interval` and `size_value`, nothing undefined happens if
the byte at `*end` is readable and is not a `]` (as in a `std::string`) and
signed overflow wraps. -/
theorem C48_defined {c : Cfg} {α : Type} {S : Ser α} (h : Described c ⟨false, true, true, true⟩ S) {z : Byte}
    (hz : c.past = some z) (hz' : z ≠ c%']') (hw : c.wrapv = true) (v : α) (s : Bytes) (e : EPtr) :
    ∃ v' p e', S.de v s e = .ok (v', p, e') ∧ ∃ a, s = a ++ p := by
  rcases h.safe v s e with ⟨_, h⟩ | ⟨v', p, e', h, ⟨a, ha⟩, _⟩
  · rcases h with h | h | h | h
    · rw [hz] at h; cases h
    · rw [hz] at h; exact absurd (Option.some.inj h) hz'
    · rw [hw] at h; cases h
    · cases h
  · exact ⟨v', p, e', h, a, ha.symm⟩

/-- C48. A new error object is either still new after the read or holds a genuine
error whose position lies inside the text. -/
theorem C48_error_object {c : Cfg} {α : Type} {S : Ser α} (h : Described c .all S) {v v' : α} {s p : Bytes} {e' : EPtr}
    (hr : S.de v s .fresh = .ok (v', p, e')) :
    e' = .fresh ∨ ∃ x, e' = .obj x ∧ x.status = true ∧ 0 ≤ x.tailOf ∧ x.tailOf ≤ (s.length : Int) := by
  rcases h.safe v s .fresh with ⟨h, _⟩ | ⟨v2, p2, e2, h, _, ev, h2, h3⟩
  · rw [h] at hr; cases hr
  · rw [h] at hr
    cases hr
    cases ev with
    | none => exact .inl h2
    | some y =>
      rw [EPtr.fresh, applyErr_clean rfl] at h2
      have := h3 y rfl
      exact .inr ⟨y, h2, by simp [JError.status, this.1], this.2⟩

/-- C48. Nothing is read or written through a null error pointer. -/
theorem C48_null_error {c : Cfg} {α : Type} {S : Ser α} (h : Described c .all S) {v v' : α} {s p : Bytes} {e' : EPtr}
    (hr : S.de v s .null = .ok (v', p, e')) : e' = .null := by
  rcases h.safe v s .null with ⟨h, _⟩ | ⟨v2, p2, e2, h, _, h2⟩
  · rw [h] at hr; cases hr
  · rw [h] at hr
    cases hr
    exact h2.null

example : Described .strict .all (demoTyped .strict) := demoTyped_described rfl rfl
example : (demoTyped .strict).de ⟨⟨0, false, [], 0⟩, none, 0, false⟩
    b!"{\"s\":\"x\",\"a\":3}:[{\"k\":1,\"l\":2},{}]:\"7:true\",rest" .fresh =
    .ok (⟨⟨3, false, b!"x", 0⟩, some [[(b!"k", 1), (b!"l", 2)], []], 7, true⟩, b!",rest", .fresh) := by decide +kernel
example : (demoTyped .strict).de ⟨⟨0, false, [], 0⟩, none, 0, false⟩ b!"{\"s\":\"x\"}:[{\"k\":z}]" .fresh =
    .ok (⟨⟨0, false, b!"x", 0⟩, some [[(b!"k", 0)]], 0, false⟩, [], .obj ⟨.InvalidNumber, none, 3⟩) := by decide +kernel

/-! ### C05, C09 for typed deserializers -/

/-- C05. No deserializer changes an error that is already there. -/
theorem C05_typed {c : Cfg} {α : Type} {S : Ser α} (h : Described c .all S) {v v' : α} {s p : Bytes} {e e' : EPtr}
    (he : e.failed = true) (hr : S.de v s e = .ok (v', p, e')) : e' = e := by
  rcases h.safe v s e with ⟨h, _⟩ | ⟨v2, p2, e2, h, _, h2⟩
  · rw [h] at hr; cases hr
  · rw [h] at hr
    cases hr
    exact h2.of_failed he

example : (demoTyped .strict).de ⟨⟨0, false, [], 0⟩, none, 0, false⟩ b!"{\"s\":\"x\"}:[{\"k\":z}]"
    (.obj ⟨.InvalidBool, none, 99⟩) =
    .ok (⟨⟨0, false, b!"x", 0⟩, some [[(b!"k", 0)]], 0, false⟩, [], .obj ⟨.InvalidBool, none, 99⟩) := by decide +kernel

/-- C09. The error recorded by a deserializer has a position inside the text. -/
theorem C09_typed {c : Cfg} {α : Type} {S : Ser α} (h : Described c .all S) {v v' : α} {s p : Bytes} {x : JError}
    (hr : S.de v s .fresh = .ok (v', p, .obj x)) : 0 ≤ x.tailOf ∧ x.tailOf ≤ (s.length : Int) := by
  rcases C48_error_object h hr with h1 | ⟨y, h1, _, h2⟩
  · cases h1
    exact ⟨by decide, by show (0 : Int) ≤ _; omega⟩
  · cases h1
    exact h2

/-! ### C46 -/

/-- C46. Whatever the description (without `time_interval`, `size_value`,
`pointer` and `raw_quoted`): if writing `v` through `std::back_inserter` appends
the text `t`, then writing `v` through a raw pointer replaces the next `t.length`
bytes of the buffer by `t`, leaves the other bytes alone and returns the position
after them. If the rest of the buffer is shorter than `t` the behaviour is
undefined. -/
theorem C46_pointer_like_inserter {c : Cfg} {α : Type} {S : Ser α} (h : Described c .portable S) (v : α) {m t : Bytes}
    (hb : S.emit v ⟨m, .back⟩ = .ok ⟨m ++ t, .back⟩) :
    (∀ pre old post : Bytes, old.length = t.length →
      S.emit v ⟨pre ++ old ++ post, .ptr pre.length⟩ = .ok ⟨pre ++ t ++ post, .ptr (pre.length + t.length)⟩) ∧
    (∀ buf : Bytes, ∀ i ≤ buf.length, buf.length < i + t.length → S.emit v ⟨buf, .ptr i⟩ = .ub) := by
  rcases h.port v with ⟨u, hu⟩ | hu
  · rw [hu, Sink.puts_back] at hb
    cases List.append_cancel_left (Sink.mk.inj (Out.ok.inj hb)).1
    refine ⟨fun pre old post ho => ?_, fun buf i hi hl => ?_⟩
    · rw [hu]; exact Sink.puts_ptr _ _ _ _ ho
    · rw [hu]; exact Sink.puts_ptr_full _ _ _ hi hl
  · rw [hu] at hb; cases hb

/-- C46. A back inserter only ever appends, and what it appends does not depend
on what the container holds. -/
theorem C46_inserter_appends {c : Cfg} {α : Type} {S : Ser α} (h : Described c .portable S) (v : α) {m : Bytes} {k : Sink}
    (hb : S.emit v ⟨m, .back⟩ = .ok k) : ∃ t, ∀ m', S.emit v ⟨m', .back⟩ = .ok ⟨m' ++ t, .back⟩ := by
  rcases h.port v with ⟨u, hu⟩ | hu
  · exact ⟨u, fun m' => by rw [hu, Sink.puts_back]⟩
  · rw [hu] at hb; cases hb

/-- C46. Conversely, if the write through the back inserter is undefined, so is
every write through a pointer. -/
theorem C46_undefined_alike {c : Cfg} {α : Type} {S : Ser α} (h : Described c .portable S) (v : α) {m : Bytes}
    (hb : S.emit v ⟨m, .back⟩ = .ub) (k : Sink) : S.emit v k = .ub := by
  rcases h.port v with ⟨u, hu⟩ | hu
  · rw [hu, Sink.puts_back] at hb; cases hb
  · exact hu k

/-- C46 is false for the excluded templates: they write through a pointer as if
it had not moved (or, for the null pointer, as if it had moved once too often). -/
theorem C46_not_for_others :
    (timeSer .strict .int 1).emit 3672 ⟨[], .back⟩ = .ok ⟨b!"\"1h1m12s\"", .back⟩ ∧
    (timeSer .strict .int 1).emit 3672 ⟨b!"..........", .ptr 0⟩ = .ok ⟨b!"\"hms\".....", .ptr 5⟩ ∧
    (sizeSer .strict .int 1).emit 3072 ⟨[], .back⟩ = .ok ⟨b!"\"3KiB\"", .back⟩ ∧
    (sizeSer .strict .int 1).emit 3072 ⟨b!"..........", .ptr 0⟩ = .ok ⟨b!"\"KiB\".....", .ptr 5⟩ ∧
    (rawQuotedSer .strict true true).emit b!"[1]" ⟨[], .back⟩ = .ok ⟨b!"\"[1]\"", .back⟩ ∧
    (rawQuotedSer .strict true true).emit b!"[1]" ⟨b!"......", .ptr 0⟩ = .ok ⟨b!"\"\"1]..", .ptr 2⟩ ∧
    (pointerSer boolSer).emit none ⟨[], .back⟩ = .ok ⟨b!"null", .back⟩ ∧
    (pointerSer boolSer).emit none ⟨b!"......", .ptr 0⟩ = .ok ⟨b!".null.", .ptr 4⟩ := by decide +kernel

/-- A description to which `C46_pointer_like_inserter` applies. -/
example : Described .strict .portable (demoSer true) := by
  refine .object _ _ _ ?_
  intro m hm
  simp only [demoList, List.map_cons, List.map_nil, Entry.toMember, List.mem_cons, List.not_mem_nil, or_false] at hm
  rcases hm with rfl | rfl | rfl
  · exact .member _ (.int _)
  · exact .memberP _ .bool
  · exact .member _ .str
example : (demoSer true).emit ⟨-5, true, b!"x", 9⟩ ⟨b!"#....#....#....#....#....#...", .ptr 2⟩ =
    .ok ⟨b!"#.{\"a\":-5,\"b\":true,\"s\":\"x\"}..", .ptr 27⟩ := by decide +kernel

end Wjson
