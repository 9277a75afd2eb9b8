import Verif.Model.TypedWork
import Verif.Model.Recursive
import Verif.Spec.Slots
/-
The work of `member_if` in the list of an `object`, the places of a member list with their counted readers, and the work of
descriptions that mention themselves. The work is counted as in Verif/Model/TypedWork.lean; that the results are those of the
readers is proved in Verif/Props/WorkIf.lean.
-/
namespace Wjson

/-- `unserialize_member` for `member_if` in the list of `object`, wjson/serializer/object.hpp:308-337; `a` is tried first. -/
def deMemberIfW {τ : Type} (a b : MRef τ) (Wa : DeW a.α) (Wb : DeW b.α) : MemberW τ := fun t s e u =>
  deMemberW a a.get Wa t s .fresh u >>= fun d =>
  if !d.1.2.2.1.failed then readNullW b Wb d.1.1 >>= fun x => .ok ((x.1, d.1.2.1, e, d.1.2.2.2), d.2 + x.2 + 1)
  else
    readNullW a Wa d.1.1 >>= fun x =>
    deMemberW b b.get Wb x.1 s e d.1.2.2.2 >>= fun r => .ok (r.1, d.2 + x.2 + r.2 + 1)

/-- A place of a member list (`Slot`) and the counted readers of its parts. -/
inductive WSlot (τ : Type) where
  | one (x : WEntry τ)
  /-- `member_if<l,r,RU>` -/
  | alt (l r : MRef τ) (isDflt : l.α → Bool) (RU : Bool) (Wl : DeW l.α) (Wr : DeW r.α)

namespace WSlot
variable {τ : Type}

/-- The place without the counted readers. -/
def slot : WSlot τ → Slot τ
  | .one x => .one x.entry
  | .alt l r d RU _ _ => .alt l r d RU

/-- The part, if the place is a `member` or a `member_p`. -/
def ones : WSlot τ → List (WEntry τ)
  | .one x => [x]
  | .alt _ _ _ _ _ _ => []

/-- The alternatives, if the place is a `member_if`. -/
def alts : WSlot τ → List (WEntry τ)
  | .one _ => []
  | .alt l r _ _ Wl Wr => [⟨.mem l, Wl⟩, ⟨.mem r, Wr⟩]

/-- A place of the list of `object`, wjson/serializer/object.hpp:285-337 (`RU`: 310-311). -/
def de : WSlot τ → MemberW τ
  | .one x => x.de
  | .alt l r _ RU Wl Wr => if RU then deMemberIfW r l Wr Wl else deMemberIfW l r Wl Wr

/-- A place of the list of `object_array`, wjson/serializer/object_array.hpp:171-227. -/
def deA : WSlot τ → DeW τ
  | .one x => x.deA
  | .alt l r _ RU Wl Wr => if RU then deAMemberIfW r l Wr Wl else deAMemberIfW l r Wl Wr

end WSlot

/-- As `levels` (Verif/Model/Recursive.lean) with the count: `FW` is the counted reader of the description with a place for
itself, given what is in that place. `W` is below the last level. -/
def levelsW {α : Type} (F : Ser α → Ser α) (FW : Ser α → DeW α → DeW α) (S : Ser α) (W : DeW α) : Nat → DeW α
  | 0 => W
  | n + 1 => FW (levels F S n) (levelsW F FW S W n)

/-- The recursive reader (`recDe`) with the count, wjson/serializer/pointer.hpp:41,58 with the description itself as `J`. -/
def recDeW {α : Type} (F : Ser α → Ser α) (FW : Ser α → DeW α → DeW α) (d : α) : DeW α := fun v s e =>
  levelsW F FW (unfinished d) (fun _ _ _ => .fuel) (s.length + 1) v s e

end Wjson
