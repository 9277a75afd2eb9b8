import Verif.Spec.Described
import Verif.Proofs.Misc
import Verif.Proofs.Object
import Verif.Proofs.ObjectArray
import Verif.Proofs.Flags
import Verif.Proofs.Enum
import Verif.Proofs.Float
import Verif.Proofs.IntSafe
import Verif.Proofs.StrRead
import Verif.Proofs.Size
import Verif.Proofs.Time
import Verif.Proofs.Array
/-
Every described serializer is safe.
-/
namespace Wjson
open Spec

/-- When a reader may be undefined. -/
def Hazard (c : Cfg) (f : Features) : Prop :=
  c.past = none ∨ c.past = some c%']' ∨ c.wrapv = false ∨ f.units = true

theorem Safe.mono {α : Type} {U U' : Prop} {de : De α} (h : Safe U de) (hu : U → U') : Safe U' de :=
  fun v s e => (h v s e).mono hu (List.suffix_refl _) (.refl _ _)

mutual

theorem Described.safe {c : Cfg} {f : Features} : ∀ {α : Type} {S : Ser α}, Described c f S → Safe (Hazard c f) S.de
  | _, _, .int ty => (deInt_safe c ty).mono fun h => .inr (.inr (.inl h))
  | _, _, .bool => deBool_safe.mono False.elim
  | _, _, .str => deStr_safe.mono False.elim
  | _, _, .chars N => (deCharArray_safe N).mono False.elim
  | _, _, .float F R => (deFloat_safe F R).mono False.elim
  | _, _, @Described.enum _ _ _ _ strict dflt L => deEnum_safe c strict dflt L
  | _, _, .flags F => (deFlags_safe c F).mono .inl
  | _, _, .raw => (deRaw_safe c).mono .inl
  | _, _, .rawQuoted _ reqQ _ => (deRawQuoted_safe c reqQ).mono .inl
  | _, _, .quoted _ reqQ _ h => deQuoted_safe h.safe reqQ
  | _, _, .pointer _ h => dePointer_safe h.safe
  | _, _, .memberValue d g s h => memberValue_safe h.safe d g s
  | _, _, .array K h => deSeq_safe h.safe
  | _, _, .fixed k N _ h => deFix_safe h.safe
  | _, _, .field h h' => deField_safe h.safe h'.safe
  | _, _, .dict K h h' => deSeq_safe (S := fieldSer _ _) (deField_safe h.safe h'.safe)
  | _, _, .object strict dflt L h =>
    deObject_safe (fun hc => hc.elim .inl fun hc => .inr (.inl hc)) fun m hm => (h m hm).safe
  | _, _, .objectArray dflt L h => deObjectArray_safe fun m hm => (h m hm).safe
  | _, _, .time ty fr h => fun v s e => (deTime_safe c ty fr v s e).mono (fun _ => .inr (.inr (.inr h))) (List.suffix_refl _) (.refl _ _)
  | _, _, .size ty m h => fun v s e => (deSize_safe c ty m v s e).mono (fun _ => .inr (.inr (.inr h))) (List.suffix_refl _) (.refl _ _)

theorem DescribedM.safe {c : Cfg} {f : Features} : ∀ {τ : Type} {m : Member τ}, DescribedM c f m → MSafe (Hazard c f) m
  | _, _, .member m h => deMember_safe h.safe
  | _, _, .memberP m h => deMemberP_safe h.safe
  | _, _, .memberIf l r i RU h h' => memberIf_safe h.safe h'.safe i RU

theorem DescribedA.safe {c : Cfg} {f : Features} : ∀ {τ : Type} {m : AMember τ}, DescribedA c f m → Safe (Hazard c f) m.de
  | _, _, .member m h => amember_safe h.safe
  | _, _, .memberP m h => amemberP_safe h.safe
  | _, _, .memberIf l r i RU h h' => amemberIf_safe h.safe h'.safe i RU

end

end Wjson
