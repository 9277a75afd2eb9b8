import Verif.Props.Units
import Verif.Proofs.RoomUnits
/-
C67 for time intervals and sizes, written through an inserter. (Through a raw
pointer they are not written as they should be, C46.)
-/
namespace Wjson
open Spec

/-- C67. The text of a time interval has at most 32 bytes, quotes included, for the types and values of C36. -/
theorem C67_interval (c : Cfg) {ty : IntTy} (hs : ty.Std) {fr : Int}
    (hok : fr = 1 ∨ (fr = 1000 ∧ ty = .long) ∨ (fr = 1000000 ∧ 32 ≤ ty.bits)) {v : Int} (hv : ty.InRange v)
    (hw : 0 ≤ v ∨ v % fr = 0) :
    ∃ t : Bytes, t.length ≤ 32 ∧ ∀ m, (timeSer c ty fr).emit v ⟨m, .back⟩ = .ok ⟨m ++ t, .back⟩ :=
  timeSer_room c hs hok hv hw

/-- C67. The text of a size has at most 22 bytes, quotes included, if the number of bytes fits into 64 bits. -/
theorem C67_size (c : Cfg) {ty : IntTy} (hs : ty.Std) {metric v : Int} (hm : 1 ≤ metric) (hm' : IntTy.long.InRange metric) (hv : ty.InRange v)
    (hb : IntTy.long.InRange (v * metric)) : ∃ t : Bytes, t.length ≤ 22 ∧ ∀ m, (sizeSer c ty metric).emit v ⟨m, .back⟩ = .ok ⟨m ++ t, .back⟩ :=
  sizeSer_room c hs hm hm' hv hb

/-- C67. Both bounds are reached. -/
theorem C67_units_tight :
    (timeSer .strict .long 1000000).emit 8640000086399999999 ⟨[], .back⟩ = .ok ⟨b!"\"100000000d23h59m59s999ms999mks\"", .back⟩ ∧
    b!"\"100000000d23h59m59s999ms999mks\"".length = 32 ∧
    (sizeSer .strict .long 1).emit (-9223372036854774784) ⟨[], .back⟩ = .ok ⟨b!"\"-9007199254740991KiB\"", .back⟩ ∧
    b!"\"-9007199254740991KiB\"".length = 22 := by decide +kernel

/-- The hypotheses are met by these values. -/
example : IntTy.long.InRange 8640000086399999999 ∧ IntTy.long.Std ∧ IntTy.long.InRange (-9223372036854774784 * 1) := by
  unfold IntTy.InRange IntTy.Std; decide

end Wjson
