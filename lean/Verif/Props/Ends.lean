import Verif.Props.ErrArg
import Verif.Proofs.Ends
/-
C65. An error means the returned position is `end`.
-/
namespace Wjson
open Spec

/-! ### C65 -/

/-- C65. A reader called with no error set, that reports one, returns `end`. The
one exception is a wrong hexadecimal digit in an escape of a string, which has
its own report. So in a text without such an escape a caller may look at the
position only: any other position than `end` means success. -/
theorem C65_error_returns_end {c : Cfg} {α : Type} {S : Ser α} (h : Ending c S) {v v' : α} {s p : Bytes} {e e' : EPtr}
    (he : e.failed = false) (hr : S.de v s e = .ok (v', p, e')) (hf : e'.failed = true) :
    p = [] ∨ (BadEscape s ∧ e' = .obj badEscapeError) := (h.ends s v s e (.start he) _ _ _ hr).err hf

/-- C65. The same for a text in which every `\u` and `\x` is followed by
hexadecimal digits. -/
theorem C65_position_tells {c : Cfg} {α : Type} {S : Ser α} (h : Ending c S) {v v' : α} {s p : Bytes} {e e' : EPtr}
    (hs : ¬ BadEscape s) (he : e.failed = false) (hr : S.de v s e = .ok (v', p, e')) (hp : p ≠ []) : e'.failed = false := by
  cases hf : e'.failed with
  | false => rfl
  | true =>
    rcases C65_error_returns_end h he hr hf with h | h
    · exact absurd h hp
    · exact absurd h.1 hs

/-- C65. Without an error object (and without the templates that look at it, C62)
a position other than `end` tells the caller that the read was successful: with
an error object no error would have been reported. -/
theorem C65_null_argument {c : Cfg} {α : Type} {S : Ser α} (h : Ending c S) (hd : Described c ⟨false, true, false, false⟩ S)
    {v v' : α} {s p : Bytes} (hs : ¬ BadEscape s) (hr : S.de v s .null = .ok (v', p, .null)) (hp : p ≠ []) {x : JError}
    (hx : x.status = false) : S.de v s (.obj x) = .ok (v', p, .obj x) := by
  rcases C62_uniform hd v s with h1 | ⟨w, q, h1, _, h2⟩
  · rw [h1] at hr; cases hr
  · rw [h1] at hr
    cases hr
    rcases h2 with h2 | ⟨y, hy, h2⟩
    · exact h2 x hx
    · have := C65_position_tells h hs (e := .obj x) hx (h2 x hx) hp
      rw [show (EPtr.obj y).failed = y.status from rfl, hy] at this
      cases this

theorem demoUniform_ending : Ending .strict (demoUniform .strict) := by
  refine .array _ (.field (.object _ _ _ ?_) (.pointer (.field (.int _) .bool)))
  intro m hm
  simp only [List.mem_cons, List.not_mem_nil, or_false] at hm
  rcases hm with rfl | rfl | rfl
  · exact .member _ (.int _)
  · exact .memberP _ .bool
  · exact .member _ .str

/-- A quoted list of structures, flags and a fixed-size array of optional intervals. -/
example : Ending .strict (fieldSer (quotedSer (demoUniform .strict) true false) (fieldSer (flagsSer .strict (w := 8) ⟨[(b!"a", 1), (b!"b", 2)], c%'|', true⟩)
    (fixSer .cArray 3 (pointerSer (timeSer .strict .int 1))))) :=
  .field (.quoted _ _ demoUniform_ending) (.field (.flags _) (.fixed _ _ (fun _ _ _ => ⟨none, rfl⟩) (.pointer (.time _ _))))
example : ¬ BadEscape b!"[{\"s\":\"x\",\"a\":3}:7:true]rest" := not_badEscape (by decide)
example : BadEscape b!"\"\\u00zz\",1" := ⟨b!"00zz\",1", .inl ⟨by decide, c%'z', by decide, by decide⟩⟩
example : (demoUniform .strict).de [] b!"[{\"s\":\"x\",\"a\":3}:7:true]rest" .null =
    .ok ([(⟨3, false, b!"x", 0⟩, some (7, true))], b!"rest", .null) := by decide +kernel
example : (demoUniform .strict).de [] b!"[{\"s\":\"x\",\"a\":3}:7:yes]rest" .fresh =
    .ok ([(⟨3, false, b!"x", 0⟩, some (7, false))], [], .obj ⟨.InvalidBool, none, 8⟩) := by decide +kernel

/-- C65. What can be the element of a fixed-size array: what can be read from `null`. -/
theorem C65_takes_null (c : Cfg) :
    (∀ ty, TakesNull (intSer c ty)) ∧ TakesNull boolSer ∧ TakesNull strSer ∧ (∀ N, TakesNull (charArraySer N)) ∧
    (∀ {α : Type} (F : FloatTy α) R, TakesNull (floatSer F R)) ∧ (∀ ty fr, TakesNull (timeSer c ty fr)) ∧
    TakesNull (rawSer c) ∧ (∀ {α : Type} (S : Ser α), TakesNull (pointerSer S)) ∧
    (∀ {α C : Type} (K : Coll α C) (S : Ser α), TakesNull (arraySer K S)) ∧
    (∀ {κ ν C : Type} (K : Coll (κ × ν) C) (SK : Ser κ) (SV : Ser ν), TakesNull (dictSer K SK SV)) ∧
    (∀ {τ : Type} strict (dflt : τ) L, TakesNull (objectSer c strict dflt L)) ∧
    (∀ {τ : Type} (dflt : τ) L, TakesNull (objectArraySer dflt L)) ∧
    (∀ {α : Type} k N {S : Ser α}, TakesNull S → TakesNull (fixSer k N S)) ∧
    (∀ {τ α : Type} (d : τ) (get : τ → α) set {S : Ser α}, TakesNull S → TakesNull (memberValueSer d get set S)) := by
  refine ⟨?_, ?_, ?_, ?_, ?_, ?_, ?_, ?_, ?_, ?_, ?_, ?_, ?_, ?_⟩
  · exact fun ty v rest e => ⟨0, rfl⟩
  · exact fun v rest e => ⟨false, rfl⟩
  · exact fun v rest e => ⟨[], rfl⟩
  · exact fun N v rest e => ⟨_, rfl⟩
  · exact fun F R v rest e => ⟨F.dflt, rfl⟩
  · exact fun ty fr v rest e => ⟨0, rfl⟩
  · intro v rest e
    have : parseValue c (b!"null" ++ rest) e = .ok (rest, e) := by rfl
    exact ⟨_, by simp only [rawSer, deRaw, this, Out.bind_ok]; rfl⟩
  · exact fun S v rest e => ⟨none, rfl⟩
  · exact fun K S v rest e => ⟨K.clear, rfl⟩
  · exact fun K SK SV v rest e => ⟨K.clear, rfl⟩
  · exact fun strict dflt L v rest e => ⟨dflt, rfl⟩
  · exact fun dflt L v rest e => ⟨dflt, rfl⟩
  · intro α k N S hN v rest e
    obtain ⟨vs', hv⟩ := fixNull_takes hN rest v e
    refine ⟨vs', ?_⟩
    show (fixNull S (b!"null" ++ rest) v e >>= fun x => _) = _
    rw [hv]
    rfl
  · intro τ α d get set S hN v rest e
    obtain ⟨v', hv⟩ := hN (get v) rest e
    exact ⟨set v' v, by simp only [memberValueSer, hv, Out.bind_ok]⟩

/-- C65. Where the claim fails. A wrong hexadecimal digit is reported, but the
string is read to its end; `size_value` with a wrong number returns the position
after the string; a fixed-size array of a type that refuses `null` returns the
position after it. -/
theorem C65_deviations :
    strSer.de [] b!"\"\\u00zz\",1" .fresh = .ok (b!"\\u00zz", b!",1", .obj badEscapeError) ∧
    (sizeSer .strict .int 1).de 5 b!"\"x\",1" .fresh = .ok (0, b!",1", .obj ⟨.InvalidNumber, none, 1⟩) ∧
    (fixSer .stdArray 2 (enumSer .strict true (0 : Nat) [(b!"one", 1)])).de [1, 1] b!"null,1" .fresh =
      .ok ([0, 0], b!",1", .obj ⟨.ExpectedOf, some b!"\"", 6⟩) := by
  decide +kernel

end Wjson
