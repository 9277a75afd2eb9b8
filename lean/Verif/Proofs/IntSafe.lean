import Verif.Proofs.Integer
import Verif.Proofs.Typed
/-
Safety of reading integers.
-/
namespace Wjson
open Spec

theorem accInt_safe (c : Cfg) (ty : IntTy) (v : Int) (s : Bytes) :
    (accInt c ty v s = .ub ∧ c.wrapv = false) ∨ ∃ v' p, accInt c ty v s = .ok (v', p) ∧ p <:+ s := by
  induction s generalizing v with
  | nil => exact .inr ⟨v, [], rfl, List.suffix_refl _⟩
  | cons b t ih =>
    have har : ∀ x, (ty.arith c x = .ub ∧ c.wrapv = false) ∨ ∃ y, ty.arith c x = .ok y := by
      intro x
      unfold IntTy.arith
      split
      · exact .inr ⟨_, rfl⟩
      · split
        · exact .inr ⟨_, rfl⟩
        · split
          · exact .inr ⟨_, rfl⟩
          · next h => exact .inl ⟨rfl, by simpa using h⟩
    simp only [accInt]
    split
    · rcases har (v * 10) with ⟨h, hw⟩ | ⟨y, h⟩
      · exact .inl ⟨by rw [h]; rfl, hw⟩
      · rw [h, Out.bind_ok]
        rcases har (y + (b.toNat - 48 : Int)) with ⟨h, hw⟩ | ⟨y', h⟩
        · exact .inl ⟨by rw [h]; rfl, hw⟩
        · rw [h, Out.bind_ok]
          rcases ih y' with h | ⟨v', p, h1, h2⟩
          · exact .inl h
          · exact .inr ⟨v', p, h1, h2.trans (suffix_cons b t)⟩
    · exact .inr ⟨v, b :: t, rfl, List.suffix_refl _⟩

theorem unserializeInteger_safe (c : Cfg) (ty : IntTy) : Safe (c.wrapv = false) (unserializeInteger c ty) := by
  intro v s e
  unfold unserializeInteger
  cases s with
  | nil => exact .err (by decide) (by omega) (by omega)
  | cons b t =>
    simp only
    have hsub : (if b = c%'-' then t else b :: t) <:+ b :: t := by
      split
      · exact suffix_cons b t
      · exact List.suffix_refl _
    generalize hq : (if b = c%'-' then t else b :: t) = q at hsub
    cases q with
    | nil => exact .err (by decide) (by omega) (by omega)
    | cons d u =>
      simp only
      have hle := hsub.length_le
      refine .ite (fun _ => .err (by decide) (by omega) (by omega)) (fun _ => ?_)
      refine .ite (fun _ => .ok (suffix_of_cons hsub) (.refl _ e)) (fun _ => ?_)
      rcases accInt_safe c ty 0 (d :: u) with ⟨h, hw⟩ | ⟨v', p, h, hp⟩
      · rw [h]; exact .inl ⟨rfl, hw⟩
      · rw [h, Out.bind_ok]
        split
        · unfold IntTy.arith
          repeat' split
          · exact .ok (hp.trans hsub) (.refl _ e)
          · exact .ok (hp.trans hsub) (.refl _ e)
          · exact .ok (hp.trans hsub) (.refl _ e)
          · next hw => exact .inl ⟨rfl, by simpa using hw⟩
        · exact .ok (hp.trans hsub) (.refl _ e)

theorem deInt_safe (c : Cfg) (ty : IntTy) : Safe (c.wrapv = false) (deInt c ty) := by
  intro v s e
  unfold deInt
  split
  · exact SafeOut.scan (parseNull_scan s) 0
  · exact unserializeInteger_safe c ty v s e

end Wjson
