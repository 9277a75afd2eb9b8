import Verif.Model.Schema
/-
Lemmas about wjson/schema.hpp.
-/
namespace Wjson

theorem nodup_eraseDups (l : List Bytes) : l.eraseDups.Nodup := by
  generalize hn : l.length = n
  induction n using Nat.strongRecOn generalizing l with
  | _ n ih =>
    cases l with
    | nil => simp
    | cons a l =>
      rw [List.eraseDups_cons, List.nodup_cons]
      refine ⟨by simp [List.mem_eraseDups], ih _ ?_ _ rfl⟩
      have := List.length_filter_le (fun b => !b == a) l
      simp at hn
      omega

theorem schema_fold (l v : List Bytes) (f : Bool) :
    l.foldl schemaStep (v, f) =
      (v ++ (l.filter (fun n => decide (n ∉ v))).eraseDups, f || decide (∃ n ∈ l, n ∉ v)) := by
  induction l generalizing v f with
  | nil => simp
  | cons n l ih =>
    rw [List.foldl_cons]
    by_cases hn : n ∈ v
    · have : schemaStep (v, f) n = (v, f) := by simp [schemaStep, hn]
      rw [this, ih]
      simp [hn]
    · have : schemaStep (v, f) n = (v ++ [n], true) := by
        simp only [schemaStep]
        rw [if_neg]
        simpa using hn
      rw [this, ih, List.filter_cons_of_pos (by simpa using hn), List.eraseDups_cons, List.filter_filter]
      simp only [Prod.mk.injEq]
      constructor
      · rw [List.append_assoc]
        congr 1
        rw [List.singleton_append]
        congr 2
        apply List.filter_congr
        intro x _
        by_cases h1 : x ∈ v <;> by_cases h2 : x = n <;> simp [h1, h2]
      · have : ∃ m ∈ n :: l, m ∉ v := ⟨n, by simp, hn⟩
        rw [decide_eq_true this]
        simp

theorem firstListed_some {l a b : List Bytes} {n : Bytes} (ha : ∀ x ∈ a, x ∉ l) (hn : n ∈ l) :
    firstListed l (a ++ n :: b) = some n := by
  induction a with
  | nil =>
    simp only [List.nil_append, firstListed]
    rw [if_pos]
    simpa using hn
  | cons x a ih =>
    simp only [List.cons_append, firstListed]
    rw [if_neg, ih fun y hy => ha y (by simp [hy])]
    simpa using ha x (by simp)

theorem firstListed_none {l a : List Bytes} (ha : ∀ x ∈ a, x ∉ l) : firstListed l a = none := by
  induction a with
  | nil => rfl
  | cons x a ih =>
    simp only [firstListed]
    rw [if_neg, ih fun y hy => ha y (by simp [hy])]
    simpa using ha x (by simp)

end Wjson
