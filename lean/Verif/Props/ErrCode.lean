import Verif.Props.ErrPos
import Verif.Spec.Diagnosis
/-
C73: what the error code of the validating parser and its `expected_of` mean.
-/
namespace Wjson
open Spec

/-- C73. The validator reports nothing but these codes. (`UnexpectedEndFragment` is
explained by `C61_end`.) -/
theorem C73_codes {c : Cfg} {s p : Bytes} {e : EPtr} {x : JError} (he : e.Clean)
    (h : parse c s e = .ok (p, .obj x)) (hx : x.status = true) :
    x.code ∈ [.InvalidJSON, .InvalidMember, .InvalidNumber, .InvalidString, .ExpectedOf, .UnexpectedEndFragment] := by
  obtain ⟨u, r, rfl, ⟨_, h2⟩, _⟩ := parse_told he h hx
  cases h2 <;> simp_all

/-- C73, `InvalidJSON`: at the place where the text goes wrong, any value could stand. -/
theorem C73_value {c : Cfg} {s p : Bytes} {e : EPtr} {x : JError} (he : e.Clean)
    (h : parse c s e = .ok (p, .obj x)) (hc : x.code = .InvalidJSON) :
    ∃ u r, s = u ++ r ∧ Breaks u r ∧ TakesValue u := by
  obtain ⟨u, r, h1, ⟨_, h2⟩, h3⟩ := parse_told he h (by simp [JError.status, hc])
  refine ⟨u, r, h1, h3, ?_⟩
  cases h2 with
  | value _ h4 => exact h4
  | _ => simp_all

/-- C73, `InvalidMember`: any string could stand there, as the name of a member. -/
theorem C73_member {c : Cfg} {s p : Bytes} {e : EPtr} {x : JError} (he : e.Clean)
    (h : parse c s e = .ok (p, .obj x)) (hc : x.code = .InvalidMember) :
    ∃ u r, s = u ++ r ∧ Breaks u r ∧ TakesString u := by
  obtain ⟨u, r, h1, ⟨_, h2⟩, h3⟩ := parse_told he h (by simp [JError.status, hc])
  refine ⟨u, r, h1, h3, ?_⟩
  cases h2 with
  | member _ h4 => exact h4
  | _ => simp_all

/-- C73, `InvalidNumber`: the text goes wrong inside a number (at a place for a
value) where a digit is missing. -/
theorem C73_number {c : Cfg} {s p : Bytes} {e : EPtr} {x : JError} (he : e.Clean)
    (h : parse c s e = .ok (p, .obj x)) (hc : x.code = .InvalidNumber) :
    ∃ a n r, s = a ++ n ++ r ∧ Breaks (a ++ n) r ∧ TakesValue a ∧ DigitMissing n := by
  obtain ⟨u, r, h1, ⟨_, h2⟩, h3⟩ := parse_told he h (by simp [JError.status, hc])
  cases h2 with
  | number _ h4 h5 => exact ⟨_, _, r, h1, h3, h5, h4⟩
  | _ => simp_all

/-- C73, `InvalidString`: the text goes wrong inside a string, at a place where
any string could stand. -/
theorem C73_string {c : Cfg} {s p : Bytes} {e : EPtr} {x : JError} (he : e.Clean)
    (h : parse c s e = .ok (p, .obj x)) (hc : x.code = .InvalidString) :
    ∃ a n r, s = a ++ n ++ r ∧ Breaks (a ++ n) r ∧ TakesString a ∧ InString n := by
  obtain ⟨u, r, h1, ⟨_, h2⟩, h3⟩ := parse_told he h (by simp [JError.status, hc])
  cases h2 with
  | string _ h4 h5 => exact ⟨_, _, r, h1, h3, h5, h4⟩
  | _ => simp_all

/-- C73, `ExpectedOf`: there is an expected token. It is a colon, a bracket or a
brace that could stand where the text goes wrong, or the word inside which it goes
wrong, at a place for a value. -/
theorem C73_expected {c : Cfg} {s p : Bytes} {e : EPtr} {x : JError} (he : e.Clean)
    (h : parse c s e = .ok (p, .obj x)) (hc : x.code = .ExpectedOf) :
    ∃ m, x.expectedOf = some m ∧
      ((m ∈ [b!":", b!"]", b!"}"] ∧ ∃ u r, s = u ++ r ∧ Breaks u r ∧ Viable (u ++ m)) ∨
       (m ∈ [b!"null", b!"true", b!"false"] ∧
          ∃ a n r, s = a ++ n ++ r ∧ Breaks (a ++ n) r ∧ TakesValue a ∧ InWord m n)) := by
  obtain ⟨u, r, h1, ⟨_, h2⟩, h3⟩ := parse_told he h (by simp [JError.status, hc])
  cases h2 with
  | token _ h4 h5 h6 => exact ⟨_, h4, .inl ⟨by simpa using h5, u, r, h1, h3, h6⟩⟩
  | word _ h4 h5 h6 h7 => exact ⟨_, h4, .inr ⟨by simpa using h5, _, _, r, h1, h3, h7, h6⟩⟩
  | _ => simp_all

/-! ### The hypotheses are met -/

example : parse .strict b!"{\"a\":[1,?]}" .fresh = .ok ([], .obj ⟨.InvalidJSON, none, 3⟩) := by decide +kernel
example : parse .strict b!"{\"a\":[1],b:2}" .fresh = .ok ([], .obj ⟨.InvalidMember, none, 4⟩) := by decide +kernel
example : parse .strict b!"[1,-,2]" .fresh = .ok ([], .obj ⟨.InvalidNumber, none, 0⟩) := by decide +kernel
example : parse .strict b!"[\"a\\q\"]" .fresh = .ok ([], .obj ⟨.InvalidString, none, 3⟩) := by decide +kernel
example : parse .strict b!"{\"a\" 1}" .fresh = .ok ([], .obj ⟨.ExpectedOf, some b!":", 1⟩) := by decide +kernel
example : parse .strict b!"[[1,2] 3]" .fresh = .ok ([], .obj ⟨.ExpectedOf, some b!"]", 2⟩) := by decide +kernel
example : parse .strict b!"[nil]" .fresh = .ok ([], .obj ⟨.ExpectedOf, some b!"null", 1⟩) := by decide +kernel
example : parse .strict b!"[1,\"a" .fresh = .ok ([], .obj ⟨.UnexpectedEndFragment, none, 0⟩) := by decide +kernel

/-- `[1,-,2]`: the number is `-`, it stands behind `[1,` and a digit is missing. -/
example : ∃ a n r, b!"[1,-,2]" = a ++ n ++ r ∧ Breaks (a ++ n) r ∧ TakesValue a ∧ DigitMissing n :=
  C73_number (c := .strict) (p := []) (x := ⟨.InvalidNumber, none, 0⟩) EPtr.fresh_clean (by decide +kernel) rfl

end Wjson
