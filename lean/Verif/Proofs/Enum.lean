import Verif.Model.Enum
import Verif.Spec.Object
import Verif.Proofs.Object
/-
Enumerators: safety, reading, writing.
-/
namespace Wjson
open Spec

theorem matchName_iff {n s r : Bytes} : matchName n s = ([], r) ↔ s = n ++ r := by
  induction n generalizing s with
  | nil => cases s <;> simp [matchName] <;> exact eq_comm
  | cons a n ih =>
    cases s with
    | nil => simp [matchName]
    | cons b s =>
      simp only [matchName]
      by_cases h : a = b
      · subst h; simp [ih]
      · rw [if_neg h]
        constructor
        · intro h1; simp at h1
        · intro h1
          simp only [List.cons_append, List.cons.injEq] at h1
          exact absurd h1.1.symm h

theorem matchName_self (n r : Bytes) : matchName n (n ++ r) = ([], r) := matchName_iff.mpr rfl

theorem toQuote_eq {k : Bytes} (h : c%'"' ∉ k) (rest : Bytes) : toQuote (k ++ c%'"' :: rest) = (k, c%'"' :: rest) := by
  induction k with
  | nil => simp [toQuote]
  | cons b k ih =>
    have h1 : b ≠ c%'"' := fun hb => h (by simp [hb])
    have h2 : c%'"' ∉ k := fun hb => h (by simp [hb])
    simp [toQuote, h1, ih h2]

theorem toQuote_suffix (s : Bytes) : (toQuote s).2 <:+ s := by
  induction s with
  | nil => exact List.suffix_refl _
  | cons b s ih =>
    simp only [toQuote]
    split
    · exact List.suffix_refl _
    · exact ih.trans (List.suffix_cons _ _)

theorem skipLow_suffix (c : Cfg) (s : Bytes) : skipLow c s <:+ s := by
  induction s with
  | nil => exact List.suffix_refl _
  | cons b s ih =>
    simp only [skipLow]
    split
    · exact ih.trans (List.suffix_cons _ _)
    · exact List.suffix_refl _

theorem skipLow_quote (c : Cfg) {g : Bytes} (h : ∀ b ∈ g, b ≤ 32) (rest : Bytes) :
    skipLow c (g ++ c%'"' :: rest) = c%'"' :: rest := by
  induction g with
  | nil => simp [skipLow, leSpace]
  | cons b g ih =>
    have : leSpace c b = true := by simp [leSpace, h b (by simp)]
    simp [skipLow, this, ih fun b hb => h b (by simp [hb])]

section
variable {α : Type}

theorem enumFind_of_mem {L : List (Bytes × α)} (hn : (L.map Prod.fst).Nodup) {n : Bytes} {v : α} (h : (n, v) ∈ L) :
    enumFind L n = some v := by
  induction L with
  | nil => cases h
  | cons x L ih =>
    simp only [enumFind]
    rw [List.map_cons, List.nodup_cons] at hn
    rcases List.mem_cons.mp h with rfl | h
    · rw [if_pos (by rw [matchName_iff]; simp)]
    · have : n ≠ x.1 := fun he => hn.1 (List.mem_map.mpr ⟨_, h, he⟩)
      rw [if_neg (by rw [matchName_iff]; simpa using this), ih hn.2 h]

theorem enumFind_none {L : List (Bytes × α)} {n : Bytes} (h : n ∉ L.map Prod.fst) : enumFind L n = none := by
  induction L with
  | nil => rfl
  | cons x L ih =>
    simp only [List.map_cons, List.mem_cons, not_or] at h
    simp only [enumFind]
    rw [if_neg (by rw [matchName_iff]; simpa using h.1), ih h.2]

theorem enumName_mem [DecidableEq α] {L : List (Bytes × α)} {v : α} (h : v ∈ L.map Prod.snd) : (enumName L v, v) ∈ L := by
  induction L with
  | nil => cases h
  | cons x L ih =>
    simp only [enumName]
    by_cases hx : x.2 = v
    · rw [if_pos hx]; subst hx; simp
    · rw [if_neg hx]
      refine List.mem_cons_of_mem _ (ih ?_)
      simp only [List.map_cons, List.mem_cons] at h
      rcases h with h | h
      · exact absurd h.symm hx
      · exact h

theorem enumName_none [DecidableEq α] {L : List (Bytes × α)} {v : α} (h : v ∉ L.map Prod.snd) : enumName L v = [] := by
  induction L with
  | nil => rfl
  | cons x L ih =>
    simp only [List.map_cons, List.mem_cons, not_or] at h
    simp only [enumName]
    rw [if_neg (fun hx => h.1 hx.symm), ih h.2]

theorem emitEnum_writes [DecidableEq α] (L : List (Bytes × α)) (v : α) : Writes (emitEnum L) v (quoted (enumName L v)) := by
  intro k
  unfold emitEnum quoted
  simp only [List.cons_append]
  rw [Sink.puts_cons]
  congr 1
  funext k1
  rw [Sink.puts_append]
  congr 1
  funext k2
  exact Sink.put_eq k2 _

/-- Reading a quoted text. -/
theorem deEnum_quoted (c : Cfg) (strict : Bool) (dflt : α) (L : List (Bytes × α)) {g k : Bytes} (hg : ∀ b ∈ g, b ≤ 32)
    (hk : c%'"' ∉ k) (v0 : α) (rest : Bytes) (e : EPtr) :
    deEnum c strict dflt L v0 (g ++ quoted k ++ rest) e =
      match enumFind L k with
      | some v => .ok (v, rest, e)
      | none =>
        if strict then .ok (dflt, [], createError .InvalidEnum e none ((k.length + 1 + rest.length : Nat) : Int))
        else .ok (dflt, rest, e) := by
  have hs : g ++ quoted k ++ rest = g ++ c%'"' :: (k ++ c%'"' :: rest) := by simp [quoted]
  unfold deEnum
  rw [hs, skipLow_quote c hg]
  simp only [ne_eq, not_true, if_false]
  have hq := toQuote_eq hk rest
  obtain ⟨b, p, hbp⟩ : ∃ b p, k ++ c%'"' :: rest = b :: p := by
    cases k with
    | nil => exact ⟨_, _, rfl⟩
    | cons b k => exact ⟨_, _, rfl⟩
  rw [hbp] at hq
  have hl : (b :: p).length = k.length + 1 + rest.length := by
    rw [← hbp]; simp; omega
  rw [hbp]
  simp only [hq, hl]
  cases enumFind L k <;> rfl

theorem deEnum_safe {U : Prop} (c : Cfg) (strict : Bool) (dflt : α) (L : List (Bytes × α)) : Safe U (deEnum c strict dflt L) := by
  intro v0 s e
  unfold deEnum
  have h1 := skipLow_suffix c s
  generalize skipLow c s = p at h1 ⊢
  cases p with
  | nil => exact .err (by decide) (by omega) (by simp)
  | cons b p =>
    simp only
    refine .ite (fun _ => .err (by decide) (by omega) (by have := h1.length_le; omega)) (fun _ => ?_)
    have h2 := suffix_of_cons h1
    cases p with
    | nil => exact .err (by decide) (by omega) (by simp)
    | cons b p =>
      simp only
      have h3 := (toQuote_suffix (b :: p)).trans h2
      generalize toQuote (b :: p) = r at h3 ⊢
      obtain ⟨r1, r2⟩ := r
      simp only at h3 ⊢
      cases r2 with
      | nil => exact .err (by decide) (by omega) (by simp)
      | cons _ q =>
        simp only
        have h4 := suffix_of_cons h3
        cases enumFind L r1 with
        | some v => exact .ok h4 (.refl _ e)
        | none =>
          simp only
          refine .ite (fun _ => .err (by decide) (by omega) (by have := h2.length_le; omega)) (fun _ => .ok h4 (.refl _ e))

end

end Wjson
