import Verif.Model.Lines
import Verif.Spec.Lines
import Verif.Proofs.Receive
import Verif.Props.Nested
/-
Lemmas for C91.
-/
namespace Wjson
open Spec

/-- A text without control bytes. -/
def NoCtl (t : Bytes) : Prop := ∀ b ∈ t, 32 ≤ b

theorem NoCtl.append {s t : Bytes} (hs : NoCtl s) (ht : NoCtl t) : NoCtl (s ++ t) := by
  intro b hb
  rcases List.mem_append.mp hb with hb | hb
  · exact hs b hb
  · exact ht b hb

theorem NoCtl.cons {b : Byte} {t : Bytes} (hb : 32 ≤ b) (ht : NoCtl t) : NoCtl (b :: t) := by
  intro a ha
  rcases List.mem_cons.mp ha with rfl | ha
  · exact hb
  · exact ht a ha

theorem NoCtl.nil : NoCtl [] := nofun

theorem noCtl_of {t : Bytes} {P : Byte → Prop} (hP : ∀ b, P b → 32 ≤ b) (h : ∀ b ∈ t, P b) : NoCtl t := fun b hb => hP b (h b hb)

theorem noCtl_lit {t : Bytes} (h : t.all (fun b => decide (32 ≤ b)) = true) : NoCtl t := by
  intro b hb
  simpa using List.all_eq_true.mp h b hb

theorem le_of_ge {a b : Byte} (ha : 32 ≤ a) (h : a ≤ b) : (32 : Byte) ≤ b := UInt8.le_trans ha h

theorem digit_noCtl {b : Byte} (h : Digit b) : 32 ≤ b := le_of_ge (by decide) h.1

theorem Spec.RNumber.noCtl {t : Bytes} (h : RNumber t) : NoCtl t := by
  obtain ⟨m, i, f, x, rfl, hm, hi, hf, hx⟩ := h
  refine ((NoCtl.append ?_ ?_).append ?_).append ?_
  · rcases hm with rfl | rfl <;> exact noCtl_lit (by decide)
  · rcases hi with rfl | ⟨d, ds, rfl, h1, h2⟩
    · exact noCtl_lit (by decide)
    · exact .cons (le_of_ge (by decide) h1.1) (noCtl_of (fun _ => digit_noCtl) h2)
  · rcases hf with rfl | ⟨ds, rfl, h⟩
    · exact .nil
    · exact .cons (by decide) (noCtl_of (fun _ => digit_noCtl) h.2)
  · rcases hx with rfl | ⟨e, sg, ds, rfl, h1, h2, h3⟩
    · exact .nil
    · refine .cons (by rcases h1 with rfl | rfl <;> decide) (.append ?_ (noCtl_of (fun _ => digit_noCtl) h3.2))
      rcases h2 with rfl | rfl | rfl <;> exact noCtl_lit (by decide)

theorem hex_noCtl {b : Byte} (h : HexDigit b) : 32 ≤ b := by
  rcases h with h | h | h <;> exact le_of_ge (by decide) h.1

theorem cont_noCtl {b : Byte} (h : Cont b) : 32 ≤ b := le_of_ge (by decide) h.1

theorem Spec.RChar.noCtl {t : Bytes} (h : RChar t) : NoCtl t := by
  cases h with
  | ascii h => exact .cons h .nil
  | multi h =>
    cases h with
    | two h1 _ h => exact .cons (le_of_ge (by decide) h1) (.cons (cont_noCtl h) .nil)
    | threeE0 h1 _ h => exact .cons (by decide) (.cons (le_of_ge (by decide) h1) (.cons (cont_noCtl h) .nil))
    | three h1 h2 h3 =>
      refine .cons ?_ (.cons (cont_noCtl h2) (.cons (cont_noCtl h3) .nil))
      rcases h1 with h1 | h1 <;> exact le_of_ge (by decide) h1.1
    | threeED h1 _ h => exact .cons (by decide) (.cons (le_of_ge (by decide) h1) (.cons (cont_noCtl h) .nil))
    | fourF0 h1 _ h2 h3 => exact .cons (by decide) (.cons (le_of_ge (by decide) h1) (.cons (cont_noCtl h2) (.cons (cont_noCtl h3) .nil)))
    | four h1 _ h2 h3 h4 => exact .cons (le_of_ge (by decide) h1) (.cons (cont_noCtl h2) (.cons (cont_noCtl h3) (.cons (cont_noCtl h4) .nil)))
    | fourF4 h1 _ h2 h3 => exact .cons (by decide) (.cons (le_of_ge (by decide) h1) (.cons (cont_noCtl h2) (.cons (cont_noCtl h3) .nil)))
  | short h => rcases h with rfl | rfl | rfl | rfl | rfl | rfl | rfl | rfl <;> exact noCtl_lit (by decide)
  | uni h1 h2 h3 h4 =>
    exact .cons (by decide) (.cons (by decide) (.cons (hex_noCtl h1) (.cons (hex_noCtl h2) (.cons (hex_noCtl h3) (.cons (hex_noCtl h4) .nil)))))

theorem Spec.RString.noCtl {t : Bytes} (h : RString t) : NoCtl t := by
  obtain ⟨u, hu, rfl⟩ := h
  refine .append (.cons (by decide) ?_) (noCtl_lit (by decide))
  induction hu with
  | nil => exact .nil
  | cons h _ ih => exact h.noCtl.append ih

theorem Spec.CR.noCtl {k : Kind} {t : Bytes} (h : CR k t) : NoCtl t := by
  induction h with
  | null => exact noCtl_lit (by decide)
  | true => exact noCtl_lit (by decide)
  | false => exact noCtl_lit (by decide)
  | num h => exact h.noCtl
  | str h => exact h.noCtl
  | arr0 => exact noCtl_lit (by decide)
  | arr _ ih => exact .append (.cons (by decide) ih) (noCtl_lit (by decide))
  | obj0 => exact noCtl_lit (by decide)
  | obj _ ih => exact .append (.cons (by decide) ih) (noCtl_lit (by decide))
  | elem _ ih => exact ih
  | elemMore _ _ i1 i2 => exact i1.append (.cons (by decide) i2)
  | memb h _ ih => exact h.noCtl.append (.cons (by decide) ih)
  | membMore h _ _ i1 i2 => exact h.noCtl.append (.cons (by decide) (i1.append (.cons (by decide) i2)))

theorem cutLine_line {t r : Bytes} (h : c%'\n' ∉ t) : cutLine (t ++ b!"\n" ++ r) = some (t, r) := by
  induction t with
  | nil => rfl
  | cons b t ih =>
    simp only [List.mem_cons, not_or] at h
    have := ih h.2
    simp only [List.append_assoc, List.cons_append, List.nil_append] at this ⊢
    rw [cutLine, if_neg (fun hb => h.1 hb.symm), this]
    rfl

theorem cutLine_none {t : Bytes} (h : c%'\n' ∉ t) : cutLine t = none := by
  induction t with
  | nil => rfl
  | cons b t ih =>
    simp only [List.mem_cons, not_or] at h
    rw [cutLine, if_neg (fun hb => h.1 hb.symm), ih h.2]
    rfl

section
variable {c : Cfg} {α : Type} {S : Ser α}

theorem takeLines_lines {us : List α} {s x : Bytes} (h : Lines c S us s) (hx : c%'\n' ∉ x) : ∀ n, s.length < n →
    takeLines S n (s ++ x) = .ok (us, x) := by
  induction h with
  | nil =>
    intro n hn
    obtain ⟨m, rfl⟩ : ∃ m, n = m + 1 := ⟨n - 1, by simp at hn; omega⟩
    rw [List.nil_append, takeLines, cutLine_none hx]
  | @line v vs t s hg hw ht _ ih =>
    intro n hn
    obtain ⟨m, rfl⟩ : ∃ m, n = m + 1 := ⟨n - 1, by simp at hn; omega⟩
    obtain ⟨t', h1, h2⟩ := C50_round_trip hg
    rw [hw] at h1
    cases h1
    rw [List.append_assoc, takeLines, cutLine_line ht]
    dsimp only
    rw [h2, Out.bind_ok, ih m (by simp only [List.length_append, List.length_cons, List.length_nil] at hn; omega), Out.bind_ok]
    rfl
  | @wrong vs t s hw ht _ ih =>
    intro n hn
    obtain ⟨m, rfl⟩ : ∃ m, n = m + 1 := ⟨n - 1, by simp at hn; omega⟩
    obtain ⟨v, p, e, h1, h2⟩ := hw
    rw [List.append_assoc, takeLines, cutLine_line ht]
    dsimp only
    rw [h1, Out.bind_ok, ih m (by simp only [List.length_append, List.length_cons, List.length_nil] at hn; omega), Out.bind_ok]
    simp only [h2, if_true]

theorem Spec.Lines.append {us vs : List α} {s t : Bytes} (h : Lines c S us s) (h' : Lines c S vs t) : Lines c S (us ++ vs) (s ++ t) := by
  induction h with
  | nil => exact h'
  | line h1 h2 h3 _ ih => rw [List.append_assoc, List.cons_append]; exact .line h1 h2 h3 ih
  | wrong h1 h2 _ ih => rw [List.append_assoc]; exact .wrong h1 h2 ih

theorem Spec.Lines.split {vs : List α} {s : Bytes} (h : Lines c S vs s) : ∀ {p : Bytes}, p <+: s →
    ∃ us ws s1 s2 x, vs = us ++ ws ∧ s = s1 ++ s2 ∧ Lines c S us s1 ∧ Lines c S ws s2 ∧ p = s1 ++ x ∧ c%'\n' ∉ x := by
  induction h with
  | nil =>
    intro p hp
    rw [List.prefix_nil] at hp
    exact ⟨[], [], [], [], [], rfl, rfl, .nil, .nil, hp, by simp⟩
  | @line v vs t s h1 h2 h3 h4 ih =>
    intro p hp
    have start : ∀ x : Bytes, c%'\n' ∉ x → ∃ us ws s1 s2 x', v :: vs = us ++ ws ∧ t ++ b!"\n" ++ s = s1 ++ s2 ∧ Lines c S us s1 ∧ Lines c S ws s2 ∧
        x = s1 ++ x' ∧ c%'\n' ∉ x' := fun x hx => ⟨[], _, [], _, x, rfl, rfl, .nil, .line h1 h2 h3 h4, rfl, hx⟩
    rcases prefix_of_append hp with hp | ⟨x, rfl, hx⟩
    · rcases prefix_record hp with rfl | rfl | rfl | ⟨y, _, _, rfl⟩
      · exact start _ (by simp)
      · exact start _ h3
      · exact ⟨[v], vs, _, s, [], rfl, rfl, by simpa using Lines.line h1 h2 h3 .nil, h4, by simp, by simp⟩
      · exact start _ fun hm => h3 (List.mem_append_left _ hm)
    · obtain ⟨us, ws, s1, s2, x', rfl, rfl, g1, g2, rfl, g3⟩ := ih hx
      exact ⟨v :: us, ws, t ++ b!"\n" ++ s1, s2, x', rfl, by simp, .line h1 h2 h3 g1, g2, by simp, g3⟩
  | @wrong vs t s h1 h3 h4 ih =>
    intro p hp
    have start : ∀ x : Bytes, c%'\n' ∉ x → ∃ us ws s1 s2 x', vs = us ++ ws ∧ t ++ b!"\n" ++ s = s1 ++ s2 ∧ Lines c S us s1 ∧ Lines c S ws s2 ∧
        x = s1 ++ x' ∧ c%'\n' ∉ x' := fun x hx => ⟨[], _, [], _, x, rfl, rfl, .nil, .wrong h1 h3 h4, rfl, hx⟩
    rcases prefix_of_append hp with hp | ⟨x, rfl, hx⟩
    · rcases prefix_record hp with rfl | rfl | rfl | ⟨y, _, _, rfl⟩
      · exact start _ (by simp)
      · exact start _ h3
      · exact ⟨[], vs, _, s, [], rfl, rfl, by simpa using Lines.wrong h1 h3 .nil, h4, by simp, by simp⟩
      · exact start _ fun hm => h3 (List.mem_append_left _ hm)
    · obtain ⟨us, ws, s1, s2, x', rfl, rfl, g1, g2, rfl, g3⟩ := ih hx
      exact ⟨us, ws, t ++ b!"\n" ++ s1, s2, x', rfl, by simp, .wrong h1 h3 g1, g2, by simp, g3⟩

theorem receiveLines_split (pieces : List Bytes) : ∀ {ws : List α} {s2 x : Bytes}, Lines c S ws s2 → c%'\n' ∉ x → x ++ pieces.flatten <+: s2 →
    ∃ us ws' s1 s2' x', ws = us ++ ws' ∧ s2 = s1 ++ s2' ∧ Lines c S us s1 ∧ Lines c S ws' s2' ∧
      x ++ pieces.flatten = s1 ++ x' ∧ c%'\n' ∉ x' ∧ receiveLines S x pieces = .ok (us, x') := by
  induction pieces with
  | nil =>
    intro ws s2 x h hx _
    exact ⟨[], ws, [], s2, x, rfl, rfl, .nil, h, by simp, hx, rfl⟩
  | cons a as ih =>
    intro ws s2 x h hx hp
    rw [List.flatten_cons, ← List.append_assoc] at hp
    obtain ⟨us, ws1, s1, s3, x1, rfl, rfl, h1, h2, h3, h4⟩ := h.split ((List.prefix_append _ _).trans hp)
    have h5 := takeLines_lines h1 h4 ((s1 ++ x1).length + 1) (by rw [List.length_append]; omega)
    rw [← h3] at h5
    rw [h3, List.append_assoc] at hp
    obtain ⟨us', ws2, s4, s5, x2, rfl, rfl, g1, g2, g3, g4, g5⟩ := ih h2 h4 (List.prefix_append_right_inj _ |>.mp hp)
    refine ⟨us ++ us', ws2, s1 ++ s4, s5, x2, by simp, by simp, h1.append g1, g2, ?_, g4, ?_⟩
    · rw [List.flatten_cons, ← List.append_assoc, h3, List.append_assoc, g3, List.append_assoc]
    · rw [receiveLines, h5, Out.bind_ok, g5, Out.bind_ok]

end

end Wjson
