/-
Basic vocabulary of the model: bytes, outcomes, platform configuration.
Nothing here models a particular function of /repo; see DESIGN.md section 1.
-/
namespace Wjson

/-- A C++ `char` seen as its bit pattern. -/
abbrev Byte := UInt8

/-- A text, or the range `[beg,end)` of a pair of iterators. -/
abbrev Bytes := List UInt8

open Lean in
/-- `c%'x'` is the byte of the ASCII character `'x'`, as a numeral. -/
macro:max "c%" s:char : term => `(($(quote s.getChar.toNat) : UInt8))

open Lean in
/-- `b!"text"` is the list of the (UTF-8) bytes of the text, as numerals. -/
macro:max "b!" s:str : term => do
  let elems : Array (TSyntax `term) ←
    s.getString.toUTF8.toList.toArray.mapM fun (b : UInt8) => `(($(quote b.toNat) : UInt8))
  `(([$elems,*] : List UInt8))

/-- Outcome of a model function.
`ub`: the C++ program has undefined behaviour at this point.
`fuel`: the recursion budget of the model was too small (no C++ counterpart;
the theorems of C03 show that the API functions never return it). -/
inductive Out (α : Type) where
  | ok (a : α)
  | ub
  | fuel
  deriving Repr, DecidableEq

namespace Out

@[inline] def bind {α β : Type} (x : Out α) (f : α → Out β) : Out β :=
  match x with
  | ok a => f a
  | ub => ub
  | fuel => fuel

instance : Monad Out where
  pure := ok
  bind := bind

@[simp] theorem pure_eq {α : Type} (a : α) : (pure a : Out α) = ok a := rfl
@[simp] theorem bind_ok {α β : Type} (a : α) (f : α → Out β) : (ok a >>= f) = f a := rfl
@[simp] theorem bind_ub {α β : Type} (f : α → Out β) : ((ub : Out α) >>= f) = ub := rfl
@[simp] theorem bind_fuel {α β : Type} (f : α → Out β) : ((fuel : Out α) >>= f) = fuel := rfl

@[simp] theorem map_eq {α β : Type} (f : α → β) (x : Out α) :
    (f <$> x) = (x >>= fun a => ok (f a)) := rfl

theorem bind_eq_ok {α β : Type} {x : Out α} {f : α → Out β} {b : β} :
    (x >>= f) = ok b ↔ ∃ a, x = ok a ∧ f a = ok b := by
  cases x <;> simp

theorem bind_assoc {α β γ : Type} (x : Out α) (f : α → Out β) (g : β → Out γ) :
    ((x >>= f) >>= g) = (x >>= fun a => f a >>= g) := by
  cases x <;> rfl

/-- `x` is not undefined behaviour. -/
def NoUB {α : Type} (x : Out α) : Prop := x ≠ ub

end Out

/-- What the C++ standard (or the platform) leaves open. -/
structure Cfg where
  /-- The byte stored at `*end`: `none` if it must not be read, `some z` if the
  memory there is readable and holds `z` (for instance the NUL of a
  `std::string` or of a string literal). -/
  past : Option Byte := none
  /-- Signed overflow wraps (`-fwrapv`) instead of being undefined. -/
  wrapv : Bool := false
  /-- Plain `char` is signed. -/
  charSigned : Bool := true
  deriving Repr, DecidableEq

/-- Strict reading of the standard. -/
def Cfg.strict : Cfg := {}

/-- `std::string` on a typical build: NUL after the text. -/
def Cfg.nul : Cfg := { past := some 0 }

/-- `*beg` where `beg` may equal `end`. -/
def deref (c : Cfg) (s : Bytes) : Out Byte :=
  match s with
  | b :: _ => .ok b
  | [] =>
    match c.past with
    | some z => .ok z
    | none => .ub

@[simp] theorem deref_cons (c : Cfg) (b : Byte) (s : Bytes) : deref c (b :: s) = .ok b := rfl

/-- A property of bytes that holds for all 256 values holds for every byte. -/
theorem forall_byte {P : UInt8 → Prop} (h : ∀ i : Fin 256, P (UInt8.ofFin i)) (b : UInt8) : P b := by
  have := h b.toFin
  simpa using this

end Wjson
