import Verif.Model.ObjectArray
import Verif.Spec.Fields
import Verif.Spec.Serial
/-
Member lists with alternatives: every place of the list is a `member`, a
`member_p` or a `member_if`.
-/
namespace Wjson
open Spec

/-- A place of a member list. -/
inductive Slot (τ : Type) where
  | one (en : Entry τ)
  /-- `member_if<l,r,RU>`; `isDflt` is the comparison with the default value -/
  | alt (l r : MRef τ) (isDflt : l.α → Bool) (RU : Bool)

namespace Slot
variable {τ : Type}

/-- The members of a place. -/
def refs : Slot τ → List (MRef τ)
  | .one en => [en.ref]
  | .alt l r _ _ => [l, r]

/-- The member that is written for the structure `v`. -/
def live (v : τ) : Slot τ → MRef τ
  | .one en => en.ref
  | .alt l r d _ => if d (l.get v) then r else l

/-- The alternative that is not written. -/
def idle (v : τ) : Slot τ → Option (MRef τ)
  | .one _ => none
  | .alt l r d _ => some (if d (l.get v) then l else r)

/-- Reading tries the alternative first that is not written. -/
def idleFirst (v : τ) : Slot τ → Prop
  | .one _ => False
  | .alt l _ d RU => RU ≠ d (l.get v)

/-- The place in the list of an `object`. -/
def toMember : Slot τ → Member τ
  | .one en => en.toMember
  | .alt l r d RU => memberIf l r d RU

/-- The place in the list of an `object_array`. -/
def toAMember : Slot τ → AMember τ
  | .one en => en.toAMember
  | .alt l r d RU => amemberIf l r d RU

end Slot

/-- For the place `x` of the structure `v` the text `t` is written, and reading it gives the place the
values it has in `v'`: the member written has there what is read from `t`, the other alternative what is
read from `null`. The alternative that is tried first must report an error for `t` if it is not the one
that was written. -/
structure SlotText {τ : Type} (v v' : τ) (x : Slot τ) (t : Bytes) : Prop where
  rt : RTU (x.live v).ser ((x.live v).get v) ((x.live v).get v') t
  null : ∀ o, x.idle v = some o → Reads o.ser.de b!"null" (o.get v')
  first : ∀ o, x.idle v = some o → x.idleFirst v → Rejects o.ser.de t

/-- In an object both alternatives have the same name. -/
def SameNames {τ : Type} : Slot τ → Prop
  | .one _ => True
  | .alt l r _ _ => l.name = r.name

end Wjson
