import Verif.Model.Float
import Verif.Proofs.Containers
/-
Reading floating point numbers.
-/
namespace Wjson
open Spec

theorem isNumber_iff (b : Byte) (t : Bytes) : isNumber (b :: t) = true ↔ b = c%'-' ∨ Digit b := by
  have key : ∀ b : Byte, ((b == c%'-') || isDigit b) = true ↔ b = c%'-' ∨ Digit b := by
    unfold isDigit Digit; apply forall_byte; decide +kernel
  exact key b

theorem notNull_of_num {b : Byte} (h : b = c%'-' ∨ Digit b) (t : Bytes) : isNull (b :: t) = false := by
  have key : ∀ b : Byte, b = c%'-' ∨ Digit b → b ≠ c%'n' := by unfold Digit; apply forall_byte; decide +kernel
  simp [isNull, key b h]

theorem deFloat_number {α : Type} (F : FloatTy α) (R : Int) {t rest : Bytes} (ht : RNumber t) (hf : NumFollow t rest)
    (v0 : α) (e : EPtr) :
    deFloat F R v0 (t ++ rest) e = .ok (F.conv (((t ++ rest).take (floatBuf R)).takeWhile (· ≠ 0)) v0, rest, e) := by
  have hp := parseNumber_acc_iff.mpr ⟨t, rfl, ht, hf⟩ e
  obtain ⟨b, u, rfl, hb⟩ := rnumber_head ht
  simp only [List.cons_append] at hp ⊢
  have h1 := notNull_of_num hb (u ++ rest)
  have h2 := (isNumber_iff b (u ++ rest)).mpr hb
  simp only [deFloat, h1, h2, hp, Bool.false_eq_true, if_false, Bool.not_true]

theorem deFloat_safe {α : Type} (F : FloatTy α) (R : Int) : Safe False (deFloat F R) := by
  intro v s e
  unfold deFloat
  cases s with
  | nil => exact .err (by decide) (by omega) (by omega)
  | cons b t =>
    simp only
    refine .ite (fun _ => SafeOut.scan (parseNull_scan _) _) (fun _ => ?_)
    refine .ite (fun _ => .err (by decide) (by omega) (by omega)) (fun _ => ?_)
    exact SafeOut.scan (parseNumber_scan _) _

end Wjson
