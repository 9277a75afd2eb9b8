import Verif.Proofs.Platform
/-
What is defined does not depend on the platform (C64).
-/
namespace Wjson

/-! ### C64 -/

/-- C64. A read that is defined on one platform gives the same value, position and
error on every platform that leaves less open. -/
theorem C64_read {en : Bool} {α : Type} {S : Cfg → Ser α} (h : Template en S) {c c' : Cfg} (hc : c.Below en c')
    {v : α} {s : Bytes} {e : EPtr} {r : α × Bytes × EPtr} (hr : (S c).de v s e = .ok r) : (S c').de v s e = .ok r := by
  rcases (h.monotone hc).de v s e with hu | hu
  · rw [hu] at hr; cases hr
  · rw [← hu, hr]

/-- C64 for writing. -/
theorem C64_write {en : Bool} {α : Type} {S : Cfg → Ser α} (h : Template en S) {c c' : Cfg} (hc : c.Below en c')
    {v : α} {k k' : Sink} (hr : (S c).emit v k = .ok k') : (S c').emit v k = .ok k' := by
  rcases (h.monotone hc).emit v k with hu | hu
  · rw [hu] at hr; cases hr
  · rw [← hu, hr]

/-- C64. In particular: a read without undefined behaviour in the sense of the
standard gives the same result whatever is stored after the text and whatever
signed overflow does. -/
theorem C64_standard_read {α : Type} {S : Cfg → Ser α} (h : Template true S)
    {v : α} {s : Bytes} {e : EPtr} {r : α × Bytes × EPtr} {sg : Bool}
    (hr : (S { past := none, wrapv := false, charSigned := sg }).de v s e = .ok r) (past : Option Byte) (wrapv : Bool) :
    (S { past := past, wrapv := wrapv, charSigned := sg }).de v s e = .ok r :=
  C64_read (c := { past := none, wrapv := false, charSigned := sg }) (c' := { past := past, wrapv := wrapv, charSigned := sg }) h ⟨.inl rfl, .inl rfl, fun _ => rfl⟩ hr

/-- C64. Without `enumerator` the sign of `char` does not matter either: the
result is the same on every platform. -/
theorem C64_everywhere {α : Type} {S : Cfg → Ser α} (h : Template false S)
    {v : α} {s : Bytes} {e : EPtr} {r : α × Bytes × EPtr} (hr : (S .strict).de v s e = .ok r) (c : Cfg) :
    (S c).de v s e = .ok r :=
  C64_read h ⟨.inl rfl, .inl rfl, by simp⟩ hr

/-- C64. Writing is the same on every platform if it is defined by the standard. -/
theorem C64_written_everywhere {α : Type} {S : Cfg → Ser α} (h : Template false S)
    {v : α} {k k' : Sink} (hr : (S .strict).emit v k = .ok k') (c : Cfg) : (S c).emit v k = .ok k' :=
  C64_write h ⟨.inl rfl, .inl rfl, by simp⟩ hr

/-- C64 for `parser::parse`. -/
theorem C64_parse {s : Bytes} {e : EPtr} {r : Bytes × EPtr} (hr : parse .strict s e = .ok r) (c : Cfg) : parse c s e = .ok r := by
  rcases parseValue_below (en := false) (c := .strict) (c' := c) ⟨.inl rfl, .inl rfl, by simp⟩ s e with hu | hu
  · rw [parse, hu] at hr; cases hr
  · rw [parse, ← hu]; exact hr

/-- C64 for `multi_deserializer`: the same description is chosen and the same
variables are set. -/
theorem C64_multi {τ : Type} (L : List (Cfg → MultiArg τ))
    (h : ∀ a ∈ L, ∃ (α : Type) (get : τ → α) (set : α → τ → τ) (S : Cfg → Ser α), Template false S ∧ a = fun c => ⟨get, set, S c⟩)
    {t : τ} {s : Bytes} {e : EPtr} {r : Nat × τ × EPtr} (hr : multiDe .strict (L.map fun a => a .strict) t s e = .ok r) (c : Cfg) :
    multiDe c (L.map fun a => a c) t s e = .ok r := by
  have hc : Cfg.Below false .strict c := ⟨.inl rfl, .inl rfl, by simp⟩
  rcases multiDe_below hc L h t s e with hu | hu
  · rw [hu] at hr; cases hr
  · rw [← hu, hr]

/-- The families of C64 are descriptions in the sense of the other properties. -/
theorem C64_templates_are_descriptions {en : Bool} {α : Type} {S : Cfg → Ser α} (h : Template en S) (c : Cfg) :
    Described c .all (S c) := h.described c

/-- C64, the conditions: where the standard leaves a read undefined, platforms
differ, in the value or in the error. -/
theorem C64_undefined_differs :
    (intSer .strict .int).de 0 b!"2147483648" .fresh = .ub ∧
    (intSer { wrapv := true } .int).de 0 b!"2147483648" .fresh = .ok (-2147483648, [], .fresh) ∧
    parse .strict b!"[ " .fresh = .ub ∧
    parse { past := some 0 } b!"[ " .fresh ≠ parse { past := some c%']' } b!"[ " .fresh ∧
    (objectSer .strict false () []).de () b!"[" .fresh = .ub ∧
    (objectSer .nul false () []).de () b!"[" .fresh = .ok ((), [], .obj ⟨.ExpectedOf, some b!"]", 0⟩) := by
  refine ⟨?_, ?_, ?_, ?_, ?_, ?_⟩ <;> decide +kernel

/-- C64, the sign of `char`: a byte from 128 on before the name of an enumerator is
skipped where `char` is signed and is an error where it is not. -/
theorem C64_enum_sign :
    (enumSer { charSigned := true } true (0 : Int) [(b!"a", 1)]).de 0 (0xC3 :: b!"\"a\"") .fresh = .ok (1, [], .fresh) ∧
    (enumSer { charSigned := false } true (0 : Int) [(b!"a", 1)]).de 0 (0xC3 :: b!"\"a\"") .fresh =
      .ok (0, [], .obj ⟨.ExpectedOf, some b!"\"", 4⟩) := by
  refine ⟨?_, ?_⟩ <;> decide +kernel

/-! A structure with an enumerator, a list of time intervals, an optional number and
text copied raw. -/

def demoPlatform (c : Cfg) : Ser (Int × List Int × Option Int × Bytes) :=
  objectSer c false (0, [], none, []) ([
    (fun c => member ⟨b!"e", fun t => t.1, fun x t => (x, t.2), enumSer c true (0 : Int) [(b!"one", 1), (b!"two", 2)]⟩),
    (fun c => member ⟨b!"t", fun t => t.2.1, fun x t => (t.1, x, t.2.2), arraySer (seqColl Int) (timeSer c .long 1000)⟩),
    (fun c => memberP ⟨b!"p", fun t => t.2.2.1, fun x t => (t.1, t.2.1, x, t.2.2.2), pointerSer (intSer c .int)⟩),
    (fun c => member ⟨b!"r", fun t => t.2.2.2, fun x t => (t.1, t.2.1, t.2.2.1, x), rawSer c⟩)].map fun m => m c)

theorem demoPlatform_template : Template true demoPlatform := by
  refine .object false _ _ fun m hm => ?_
  simp only [List.mem_cons, List.not_mem_nil, or_false] at hm
  rcases hm with rfl | rfl | rfl | rfl
  · exact .member _ _ _ (.enum _ _ _ rfl)
  · exact .member _ _ _ (.array _ (.time _ _))
  · exact .memberP _ _ _ (.pointer (.int _))
  · exact .member _ _ _ .raw

example (past : Option Byte) (wrapv : Bool) :
    (demoPlatform { past := past, wrapv := wrapv, charSigned := true }).de (0, [], none, [])
      b!"{\"t\":[\"1m30s\", \"5s\"], \"e\" : \"two\", \"r\":[ {}, x" .fresh =
    .ok ((2, [90000, 5000], none, b!"[ {}, x"), [], .obj ⟨.InvalidJSON, none, 1⟩) :=
  C64_standard_read demoPlatform_template (sg := true) (by decide +kernel) past wrapv

example (c : Cfg) : (arraySer (seqColl Int) (timeSer c .long 1000)).emit [90000, 5] ⟨[], .back⟩ = .ok ⟨b!"[\"1m30s\",\"5ms\"]", .back⟩ :=
  C64_written_everywhere (S := fun c => arraySer (seqColl Int) (timeSer c .long 1000)) (.array _ (.time _ _)) (by decide +kernel) c

end Wjson
