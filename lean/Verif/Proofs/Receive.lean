import Verif.Model.Receive
import Verif.Spec.Receive
import Verif.Proofs.Log
/-
Lemmas for C90.
-/
namespace Wjson
open Spec

section
variable {c : Cfg} {α : Type} {S : Ser α} {D : Den α}

theorem Spec.LogText.append {us vs : List α} {s t : Bytes} (h : LogText c S us s) (h' : LogText c S vs t) : LogText c S (us ++ vs) (s ++ t) := by
  induction h' with
  | nil => simpa using h
  | record _ ht ih => rw [← List.append_assoc, ← List.append_assoc]; exact ih.record ht
  | newline _ ih => rw [← List.append_assoc]; exact ih.newline

theorem Spec.Begun.more {ws ws' : List α} {x : Bytes} (h : Begun c S ws x) : Begun c S (ws ++ ws') x := by
  rcases h with rfl | ⟨v, l, y, rfl, h⟩
  · exact .inl rfl
  · exact .inr ⟨v, l ++ ws', y, rfl, h⟩

theorem prefix_of_append {p s t : Bytes} (h : p <+: s ++ t) : p <+: s ∨ ∃ x, p = s ++ x ∧ x <+: t := by
  obtain ⟨r, h⟩ := h
  rcases List.append_eq_append_iff.mp h with ⟨a, h1, _⟩ | ⟨a, h1, h2⟩
  · exact .inl ⟨a, h1.symm⟩
  · exact .inr ⟨a, h1, r, h2.symm⟩

/-- The beginning of a stream. -/
theorem Spec.LogText.split {vs : List α} {s p : Bytes} (h : LogText c S vs s) (hp : p <+: s) :
    ∃ us ws s1 s2 x, vs = us ++ ws ∧ s = s1 ++ s2 ∧ LogText c S us s1 ∧ LogText c S ws s2 ∧ p = s1 ++ x ∧ Begun c S ws x := by
  induction h with
  | nil =>
    rw [List.prefix_nil] at hp
    exact ⟨[], [], [], [], [], rfl, rfl, .nil, .nil, hp, .inl rfl⟩
  | @record vs s v t h ht ih =>
    rcases prefix_of_append hp with hp | ⟨x, rfl, hx⟩
    · obtain ⟨us, ws, s1, s2, x, rfl, rfl, h1, h2, rfl, h3⟩ := ih hp
      exact ⟨us, ws ++ [v], s1, s2 ++ t, x, by simp, by simp, h1, h2.record ht, rfl, h3.more⟩
    · have hv : LogText c S [v] t := LogText.record (vs := []) (s := []) .nil ht
      obtain ⟨y, rfl⟩ := hx
      by_cases hy : y = []
      · subst hy
        rw [List.append_nil] at ht
        exact ⟨vs ++ [v], [], s ++ x, [], [], by simp, by simp, h.record ht, .nil, by simp, .inl rfl⟩
      · by_cases hx : x = []
        · subst hx
          exact ⟨vs, [v], s, _, [], rfl, rfl, h, hv, rfl, .inl rfl⟩
        · exact ⟨vs, [v], s, _, x, rfl, rfl, h, hv, rfl, .inr ⟨v, [], y, rfl, ht, hx, hy⟩⟩
  | @newline vs s h ih =>
    rcases prefix_of_append hp with hp | ⟨x, rfl, hx⟩
    · obtain ⟨us, ws, s1, s2, x, rfl, rfl, h1, h2, rfl, h3⟩ := ih hp
      exact ⟨us, ws, s1, s2 ++ b!"\n", x, rfl, by simp, h1, h2.newline, rfl, h3⟩
    · have hn : LogText c S [] (b!"\n") := LogText.newline (vs := []) (s := []) .nil
      rcases prefix_record (t := []) hx with rfl | rfl | rfl | ⟨y, h1, h2, h3⟩
      · exact ⟨vs, [], s, _, [], by simp, rfl, h, hn, rfl, .inl rfl⟩
      · exact ⟨vs, [], s, _, [], by simp, rfl, h, hn, rfl, .inl rfl⟩
      · exact ⟨vs, [], s ++ b!"\n", [], [], by simp, by simp, h.newline, .nil, by simp, .inl rfl⟩
      · have := congrArg List.length h3
        have h1 := List.length_pos_iff.mpr h1
        rw [List.length_append, List.length_nil] at this
        omega

theorem sendAll_text {vs : List α} (hg : ∀ v ∈ vs, GoodValue c S v) :
    ∃ s, (s.length ≤ intMax → LogText c S vs s) ∧ ∀ m, sendAll S vs ⟨m, .back⟩ = .ok ⟨m ++ s, .back⟩ := by
  induction vs with
  | nil => exact ⟨[], fun _ => .nil, fun m => by simp [sendAll]⟩
  | cons v vs ih =>
    obtain ⟨s, h1, h2⟩ := ih fun w hw => hg w (List.mem_cons_of_mem _ hw)
    obtain ⟨t, h3, _⟩ := C50_round_trip_in_text (hg v List.mem_cons_self)
    have h4 : S.emit v ⟨[], .back⟩ = .ok ⟨t, .back⟩ := by simpa using h3 []
    refine ⟨t ++ s, fun hl => ?_, fun m => by simp only [sendAll, h3, Out.bind_ok, h2, List.append_assoc]⟩
    rw [List.length_append] at hl
    exact (LogText.record (vs := []) (s := []) .nil ⟨hg v List.mem_cons_self, h4, by omega⟩).append (h1 (by omega))

/-- What the loop makes of it. -/
theorem recoverValues_begun (hD : Closed S D) {us ws : List α} {s x : Bytes} (h : LogText c S us s) (hx : Begun c S ws x) {e : EPtr} (he : e.Clean) :
    (recoverValues S ((s ++ x).length + 1) (s ++ x) e = .ub ∧ S.de S.dflt x e = .ub) ∨
      ∃ e', (e'.failed = true ↔ x ≠ []) ∧ recoverValues S ((s ++ x).length + 1) (s ++ x) e = .ok (us, x, e') := by
  rcases hx with rfl | ⟨v, ws', y, rfl, ht, h1, h2⟩
  · refine .inr ⟨e, by simp [he.not_failed], ?_⟩
    rw [List.append_nil]
    exact recoverValues_whole h hD he.not_failed (Nat.lt_succ_self _)
  · rcases recoverValues_torn h ht h1 h2 hD he (Nat.lt_succ_self _) with h3 | ⟨e', h3, h4⟩
    · exact .inl h3
    · exact .inr ⟨e', by simp [h3, h1], h4⟩

theorem receive_split (hD : Closed S D) (pieces : List Bytes) : ∀ {ws : List α} {s2 x : Bytes}, LogText c S ws s2 → Begun c S ws x →
    x ++ pieces.flatten <+: s2 →
    (receive S x pieces = .ub ∧ ∃ y, S.de S.dflt y .fresh = .ub) ∨ ∃ us ws' s1 s2' x', ws = us ++ ws' ∧ s2 = s1 ++ s2' ∧ LogText c S us s1 ∧ LogText c S ws' s2' ∧
      x ++ pieces.flatten = s1 ++ x' ∧ Begun c S ws' x' ∧ receive S x pieces = .ok (us, x') := by
  induction pieces with
  | nil =>
    intro ws s2 x h hx _
    exact .inr ⟨[], ws, [], s2, x, rfl, rfl, .nil, h, by simp, hx, rfl⟩
  | cons a as ih =>
    intro ws s2 x h hx hp
    rw [List.flatten_cons, ← List.append_assoc] at hp
    obtain ⟨us, ws1, s1, s3, x1, rfl, rfl, h1, h2, h3, h4⟩ := h.split ((List.prefix_append _ _).trans hp)
    rcases recoverValues_begun hD h1 h4 EPtr.fresh_clean with ⟨h5, h6⟩ | ⟨e', _, h5⟩
    · rw [← h3] at h5
      exact .inl ⟨by rw [receive, h5]; rfl, _, h6⟩
    · rw [← h3] at h5
      rw [h3, List.append_assoc] at hp
      rcases ih h2 h4 (List.prefix_append_right_inj _ |>.mp hp) with ⟨h6, h7⟩ | ⟨us', ws2, s4, s5, x2, rfl, rfl, g1, g2, g3, g4, g5⟩
      · exact .inl ⟨by rw [receive, h5, Out.bind_ok, h6]; rfl, h7⟩
      · refine .inr ⟨us ++ us', ws2, s1 ++ s4, s5, x2, by simp, by simp, h1.append g1, g2, ?_, g4, ?_⟩
        · rw [List.flatten_cons, ← List.append_assoc, h3, List.append_assoc, g3, List.append_assoc]
        · rw [receive, h5, Out.bind_ok, g5, Out.bind_ok]

theorem Spec.Begun.whole (hD : Closed S D) {ws : List α} {x : Bytes} (h : LogText c S ws x) (hx : Begun c S ws x) : ws = [] ∧ x = [] := by
  rcases hx with rfl | ⟨v, ws', y, rfl, ht, h1, h2⟩
  · have := h.length_le
    exact ⟨List.length_eq_zero_iff.mp (by simpa using this), rfl⟩
  · have h3 := recoverValues_whole h hD (e := .fresh) rfl (Nat.lt_succ_self _)
    rcases recoverValues_part ht h1 h2 hD EPtr.fresh_clean x.length with ⟨h4, _⟩ | ⟨e', h4, h5⟩
    · rw [h3] at h4; cases h4
    · rw [h3] at h5; cases h5

end

end Wjson
