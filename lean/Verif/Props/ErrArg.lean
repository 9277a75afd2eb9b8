import Verif.Props.Typed
import Verif.Proofs.ErrArgInst
/-
C62. Typed readers and the error argument.
-/
namespace Wjson

local instance : DecidableEq (Option (List (List (Bytes × Int)))) := inferInstance

/-! ### C62 -/

/-- C62. Reading without `quoted`, `raw_quoted`, `time_interval` and `size_value`:
value and position are the same whatever is passed for the error: a null pointer,
a new error object, one that already holds an error. A null pointer stays null
and an error that is already there stays; and either every object without an
error is left as it is, or all of them receive the same error. (If the read is
undefined it is undefined for every error argument.) -/
theorem C62_uniform {c : Cfg} {α : Type} {S : Ser α} (h : Described c ⟨false, true, false, false⟩ S) (v : α) (s : Bytes) :
    (∀ e, S.de v s e = .ub) ∨
    ∃ v' p, S.de v s .null = .ok (v', p, .null) ∧
      (∀ x : JError, x.status = true → S.de v s (.obj x) = .ok (v', p, .obj x)) ∧
      ((∀ x : JError, x.status = false → S.de v s (.obj x) = .ok (v', p, .obj x)) ∨
       ∃ y : JError, y.status = true ∧ ∀ x : JError, x.status = false → S.de v s (.obj x) = .ok (v', p, .obj y)) := by
  rcases Described.ep UF.ep (UF.more c) h v s with h' | h' | ⟨v', p, E, ⟨ev, h1, h2⟩, h'⟩
  · exact .inl h'
  · rcases h.safe v s .null with ⟨h1, _⟩ | ⟨_, _, _, h1, _⟩ <;> simp only [h'] at h1 <;> cases h1
  · simp only [h2] at h'
    refine .inr ⟨v', p, ?_, fun x hx => ?_, ?_⟩
    · rw [h']; cases ev <;> rfl
    · rw [h', applyErr_of_failed (by exact hx)]
    · cases ev with
      | none => exact .inl fun x _ => h' _
      | some y => exact .inr ⟨y, by simp [JError.status, h1 y rfl], fun x hx => by rw [h', applyErr_clean hx]⟩

/-- A list of structures with flags, an enumeration and a positional pair. -/
def demoUniform (c : Cfg) : Ser (List (Demo × Option (Int × Bool))) :=
  arraySer (seqColl (Demo × Option (Int × Bool))) (fieldSer (objectSer c true ⟨0, false, [], 0⟩ [member demoA, memberP demoB, member demoS])
    (pointerSer (fieldSer (intSer c .int) boolSer)))

example : Described .strict ⟨false, true, false, false⟩ (demoUniform .strict) := by
  refine .array _ (.field (.object _ _ _ ?_) (.pointer rfl (.field (.int _) .bool)))
  intro m hm
  simp only [List.mem_cons, List.not_mem_nil, or_false] at hm
  rcases hm with rfl | rfl | rfl
  · exact .member _ (.int _)
  · exact .memberP _ .bool
  · exact .member _ .str
example : (demoUniform .strict).de [] b!"[{\"s\":\"x\",\"a\":3}:7:true,{}:null,{\"a\":x}:4:true]rest" .null =
    .ok ([(⟨3, false, b!"x", 0⟩, some (7, true)), (⟨0, false, [], 0⟩, none), (⟨0, false, [], 0⟩, none)], [], .null) := by decide +kernel
example : (demoUniform .strict).de [] b!"[{\"s\":\"x\",\"a\":3}:7:true,{}:null,{\"a\":x}:4:true]rest" .fresh =
    .ok ([(⟨3, false, b!"x", 0⟩, some (7, true)), (⟨0, false, [], 0⟩, none), (⟨0, false, [], 0⟩, none)], [],
      .obj ⟨.InvalidNumber, none, 14⟩) := by decide +kernel

/-- C62. For every description: a read that succeeds with an error object gives
the same value and position without one, and leaves the object as it was. So the
error argument may be dropped by a caller who knows the text is right. -/
theorem C62_success {c : Cfg} {α : Type} {S : Ser α} (h : Described c .all S) {v v' : α} {s p : Bytes} {x y : JError}
    (hx : x.status = false) (hr : S.de v s (.obj x) = .ok (v', p, .obj y)) (hy : y.status = false) :
    y = x ∧ S.de v s .null = .ok (v', p, .null) ∧
      ∀ z : JError, z.status = false → S.de v s (.obj z) = .ok (v', p, .obj z) := by
  have H := Described.ep TR.ep (TR.more c .all) h v s
  have hc : (EPtr.obj x).Clean := ⟨x, rfl, hx⟩
  refine ⟨EPtr.obj.inj (H.same hc hr hy), H.2 _ _ _ _ hc hr hy .null rfl, fun z hz => H.2 _ _ _ _ hc hr hy (.obj z) hz⟩

example : Described .strict .all (demoTyped .strict) := demoTyped_described rfl rfl
example : (demoTyped .strict).de ⟨⟨0, false, [], 0⟩, none, 0, false⟩
    b!"{\"s\":\"x\",\"a\":3}:[{\"k\":1,\"l\":2},{}]:\"7:true\",rest" .null =
    .ok (⟨⟨3, false, b!"x", 0⟩, some [[(b!"k", 1), (b!"l", 2)], []], 7, true⟩, b!",rest", .null) := by decide +kernel

/-- C62. Without an error object `quoted` does not notice that the text inside
the quotes is wrong: it returns the position after the string, where with an
error object it reports the error and returns the end. -/
theorem C62_quoted_without_error_object :
    (quotedSer (intSer .strict .int) true true).de 5 b!"\"x\",1" .fresh = .ok (0, [], .obj ⟨.InvalidNumber, none, 4⟩) ∧
    (quotedSer (intSer .strict .int) true true).de 5 b!"\"x\",1" .null = .ok (0, b!",1", .null) := by decide +kernel

/-- C62. `time_interval` and `quoted` look at the error argument: with one that
already holds an error they stop early, where the other templates read on. -/
theorem C62_failed_stops :
    (timeSer .strict .int 1).de 5 b!"\"1m2s\",1" .null = .ok (62, b!",1", .null) ∧
    (timeSer .strict .int 1).de 5 b!"\"1m2s\",1" (.obj ⟨.InvalidBool, none, 9⟩) = .ok (0, b!"m2s\",1", .obj ⟨.InvalidBool, none, 9⟩) ∧
    (quotedSer (intSer .strict .int) true true).de 5 b!"\"7\",1" (.obj ⟨.InvalidBool, none, 9⟩) =
      .ok (5, [], .obj ⟨.InvalidBool, none, 9⟩) ∧
    (intSer .strict .int).de 5 b!"7,1" (.obj ⟨.InvalidBool, none, 9⟩) = .ok (7, b!",1", .obj ⟨.InvalidBool, none, 9⟩) := by
  decide +kernel

end Wjson
