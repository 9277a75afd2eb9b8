import Verif.Spec.Faults
import Verif.Proofs.ErrPos
import Verif.Proofs.Mismatch
/-
Helper lemmas for C75.
-/
namespace Wjson
open Spec

theorem clean_obj {y : JError} (h : y.code = .ValidJSON) : (EPtr.obj y).Clean := ⟨y, rfl, by simp [JError.status, h]⟩

section
variable {α : Type} {f : De α} {v0 : α} {s : Bytes}

theorem Spec.Reports.tells {x : JError} (h : Reports f v0 s x) : Tells f v0 s x := fun y hy =>
  (h y hy).elim fun v h => ⟨v, [], h⟩

theorem Spec.Tells.unique {x x' : JError} (h : Tells f v0 s x) (h' : Tells f v0 s x') : x = x' := by
  obtain ⟨v, p, h1⟩ := h {} rfl
  obtain ⟨v', p', h2⟩ := h' {} rfl
  rw [h1] at h2
  simp at h2
  exact h2.2.2

theorem Spec.Tells.not_quiet {x : JError} (h : Tells f v0 s x) : ¬ Quiet f v0 s := by
  intro hq
  obtain ⟨v, p, h1⟩ := h {} rfl
  obtain ⟨v', p', h2⟩ := h { tailOf := 1 } rfl
  have a := hq _ rfl _ _ _ h1
  have b := hq _ rfl _ _ _ h2
  rw [a] at b
  simp at b

theorem tells_iff {F : JError → Prop} (h1 : ∀ x, F x → Tells f v0 s x) (h2 : (∃ x, F x) ∨ Quiet f v0 s) {x : JError} :
    Tells f v0 s x ↔ F x := by
  refine ⟨fun h => ?_, h1 x⟩
  rcases h2 with ⟨x', h2⟩ | h2
  · rw [h.unique (h1 x' h2)]; exact h2
  · exact absurd h2 h.not_quiet

theorem reports_iff {F : JError → Prop} (h1 : ∀ x, F x → Reports f v0 s x) (h2 : (∃ x, F x) ∨ Quiet f v0 s) {x : JError} :
    Reports f v0 s x ↔ F x :=
  ⟨fun h => (tells_iff (fun x hx => (h1 x hx).tells) h2).mp h.tells, h1 x⟩

theorem quiet_iff {F : JError → Prop} (h1 : ∀ x, F x → Tells f v0 s x) (h2 : (∃ x, F x) ∨ Quiet f v0 s) :
    Quiet f v0 s ↔ ∀ x, ¬ F x := by
  refine ⟨fun h x hx => (h1 x hx).not_quiet h, fun h => ?_⟩
  rcases h2 with ⟨x, h2⟩ | h2
  · exact absurd h2 (h x)
  · exact h2

end

theorem Err.set {g : EPtr → Bytes × EPtr} {x : JError} (h : Err g x) {e : EPtr} (he : e.Clean) : g e = ([], .obj x) := by
  rw [h.2 e]
  simp only [applyErr, he.set]

/-! ### Words -/

theorem litRest_append (lit a w : Bytes) (k : Nat) (r : Bytes) (e : EPtr) :
    litRest lit (a ++ w) k (a ++ r) e = litRest lit w (k + a.length) r e := by
  induction a generalizing k with
  | nil => rfl
  | cons b a ih => simp only [List.cons_append, litRest, if_true, ih, List.length_cons]; congr 1; omega

theorem word_sound {z : Byte} {xs s : Bytes} {x : JError} (h : WordFault (z :: xs) s x) :
    ∃ t, s = z :: t ∧ Err (litRest (z :: xs) xs 1 t) x := by
  cases h with
  | @cut a w h1 h2 h3 =>
    cases s with
    | nil => exact absurd rfl h2
    | cons b a =>
      simp at h1
      obtain ⟨rfl, rfl⟩ := h1
      refine ⟨a, rfl, by decide, fun e => ?_⟩
      have := litRest_append (z :: (a ++ w)) a w 1 [] e
      rw [List.append_nil] at this
      rw [this]
      cases w with
      | nil => exact absurd rfl h3
      | cons => rfl
  | @letter a d w b r h1 h2 h3 =>
    cases a with
    | nil => exact absurd rfl h2
    | cons y a =>
      simp at h1
      obtain ⟨rfl, rfl⟩ := h1
      refine ⟨a ++ b :: r, rfl, by simp, fun e => ?_⟩
      rw [litRest_append, litRest, if_neg h3]
      simp only [List.length_cons, applyErr]
      rw [Nat.add_comm]

theorem lit_dich {lit pre xs : Bytes} (h : lit = pre ++ xs) (hp : pre ≠ []) (t : Bytes) :
    (∃ p, t = xs ++ p) ∨ ∃ x, WordFault lit (pre ++ t) x := by
  induction xs generalizing pre t with
  | nil => exact .inl ⟨t, rfl⟩
  | cons d w ih =>
    cases t with
    | nil => exact .inr ⟨_, by rw [List.append_nil]; exact .cut h hp (by simp)⟩
    | cons b r =>
      by_cases hb : b = d
      · subst hb
        rcases ih (pre := pre ++ [b]) (by simpa using h) (by simp) r with ⟨p, rfl⟩ | ⟨x, hx⟩
        · exact .inl ⟨p, rfl⟩
        · exact .inr ⟨x, by simpa using hx⟩
      · exact .inr ⟨_, .letter h hp hb⟩

theorem word_dich (z : Byte) (xs t : Bytes) :
    (∃ p, Acc (litRest (z :: xs) xs 1 t) p) ∨ ∃ x, WordFault (z :: xs) (z :: t) x := by
  rcases lit_dich (lit := z :: xs) (pre := [z]) (xs := xs) rfl (by simp) t with ⟨p, hp⟩ | h
  · exact .inl ⟨p, litRest_acc_iff.mpr hp⟩
  · exact .inr h

theorem null_sound {s : Bytes} {x : JError} (h : WordFault b!"null" s x) : ∃ t, s = c%'n' :: t ∧ Err (parseNull s) x := by
  obtain ⟨t, rfl, h'⟩ := word_sound h
  exact ⟨t, rfl, h'⟩

theorem null_dich (t : Bytes) : (∃ p, Acc (parseNull (c%'n' :: t)) p) ∨ ∃ x, WordFault b!"null" (c%'n' :: t) x :=
  word_dich c%'n' b!"ull" t

/-! ### Integers -/

theorem int_sound (c : Cfg) (ty : IntTy) (v0 : Int) {s : Bytes} {x : JError} (h : IntFault s x) :
    Reports (intSer c ty).de v0 s x := by
  intro y hy
  have hc := clean_obj hy
  cases h with
  | none => exact ⟨v0, by simp only [intSer, deInt, isNull, unserializeInteger, hc.set]; rfl⟩
  | null h =>
    obtain ⟨t, rfl, h'⟩ := null_sound h
    exact ⟨0, by simp only [intSer, deInt, isNull, List.head?_cons, BEq.rfl, if_true, h'.set hc]⟩
  | @minus t h =>
    refine ⟨0, ?_⟩
    simp only [intSer, deInt]
    rw [if_neg (by simp [isNull])]
    simp only [unserializeInteger]
    rw [if_pos trivial]
    cases t with
    | nil => simp only [hc.set]; rfl
    | cons d t =>
      simp only
      rw [if_pos (by simpa [← isDigit_iff] using h d rfl), hc.set]
      rfl
  | @kind b t h1 h2 h3 =>
    refine ⟨0, ?_⟩
    simp only [intSer, deInt]
    rw [if_neg (by simpa [isNull] using h1)]
    simp only [unserializeInteger]
    rw [if_neg h2]
    simp only
    rw [if_pos (by simpa [← isDigit_iff] using h3), hc.set]
    rfl

theorem int_dich (c : Cfg) (ty : IntTy) (v0 : Int) (s : Bytes) :
    (∃ x, IntFault s x) ∨ Quiet (intSer c ty).de v0 s := by
  cases s with
  | nil => exact .inl ⟨_, .none⟩
  | cons b t =>
    by_cases h1 : b = c%'n'
    · subst h1
      rcases null_dich t with ⟨p, hp⟩ | ⟨x, hx⟩
      · right
        intro y _ v p' e h
        simp only [intSer, deInt, isNull, List.head?_cons, BEq.rfl, if_true, hp _] at h
        simp at h
        exact h.2.2.symm
      · exact .inl ⟨x, .null hx⟩
    · have core : ∀ (neg : Prop) [Decidable neg] (d : Byte) (t : Bytes), Digit d → ∀ y v p e,
          (if d = c%'0' then .ok (0, t, .obj y) else accInt c ty 0 (d :: t) >>= fun r =>
            (if neg then ty.arith c (-r.1) else .ok r.1) >>= fun v => .ok (v, r.2, .obj y) : Out (Int × Bytes × EPtr)) = .ok (v, p, e) →
            e = .obj y := by
        intro neg _ d t _ y v p e h
        split at h
        · simp at h; exact h.2.2.symm
        · generalize accInt c ty 0 (d :: t) = o at h
          cases o with
          | ok r =>
            change ((if neg then ty.arith c (-r.1) else .ok r.1) >>= fun v => .ok (v, r.2, .obj y) : Out (Int × Bytes × EPtr)) = .ok (v, p, e) at h
            generalize (if neg then ty.arith c (-r.1) else .ok r.1) = o at h
            cases o with
            | ok q =>
              change (.ok (q, r.2, .obj y) : Out (Int × Bytes × EPtr)) = .ok (v, p, e) at h
              simp at h; exact h.2.2.symm
            | ub => cases h
            | fuel => cases h
          | ub => cases h
          | fuel => cases h
      by_cases h2 : b = c%'-'
      · subst h2
        cases t with
        | nil => exact .inl ⟨_, .minus (by simp)⟩
        | cons d t =>
          by_cases h3 : Digit d
          · right
            intro y _ v p e h
            simp only [intSer, deInt] at h
            rw [if_neg (by simp [isNull])] at h
            simp only [unserializeInteger] at h
            rw [if_pos trivial] at h
            simp only at h
            rw [if_neg (by simpa [← isDigit_iff] using h3)] at h
            exact core _ d t h3 y v p e h
          · exact .inl ⟨_, .minus (by intro b hb; simp at hb; subst hb; exact h3)⟩
      · by_cases h3 : Digit b
        · right
          intro y _ v p e h
          simp only [intSer, deInt] at h
          rw [if_neg (by simpa [isNull] using h1)] at h
          simp only [unserializeInteger] at h
          rw [if_neg h2] at h
          simp only at h
          rw [if_neg (by simpa [← isDigit_iff] using h3)] at h
          exact core _ b t h3 y v p e h
        · exact .inl ⟨_, .kind h1 h2 h3⟩

/-! ### bool -/

theorem bool_sound (v0 : Bool) {s : Bytes} {x : JError} (h : BoolFault s x) : Reports boolSer.de v0 s x := by
  intro y hy
  have hc := clean_obj hy
  cases h with
  | none => exact ⟨v0, by simp only [boolSer, deBool, hc.set]; rfl⟩
  | null h =>
    obtain ⟨t, rfl, h'⟩ := null_sound h
    exact ⟨false, by simp only [boolSer, deBool, isNull, List.head?_cons, BEq.rfl, if_true, h'.set hc]⟩
  | true h =>
    obtain ⟨t, rfl, h1⟩ := word_sound h
    have h' : Err (parseBool (c%'t' :: t)) x := h1
    exact ⟨true, by simp [boolSer, deBool, isNull, h'.set hc]⟩
  | false h =>
    obtain ⟨t, rfl, h1⟩ := word_sound h
    have h' : Err (parseBool (c%'f' :: t)) x := h1
    exact ⟨false, by simp [boolSer, deBool, isNull, h'.set hc]⟩
  | @kind b t h1 h2 h3 =>
    refine ⟨b == c%'t', ?_⟩
    simp only [boolSer, deBool]
    rw [if_neg (by simpa [isNull] using h1), if_neg (by simpa using h2), if_neg h3, hc.set]
    rfl

theorem bool_dich (v0 : Bool) (s : Bytes) : (∃ x, BoolFault s x) ∨ Quiet boolSer.de v0 s := by
  cases s with
  | nil => exact .inl ⟨_, .none⟩
  | cons b t =>
    by_cases h1 : b = c%'n'
    · subst h1
      rcases null_dich t with ⟨p, hp⟩ | ⟨x, hx⟩
      · right
        intro y _ v p' e h
        simp only [boolSer, deBool, isNull, List.head?_cons, BEq.rfl, if_true, hp _] at h
        simp at h
        exact h.2.2.symm
      · exact .inl ⟨x, .null hx⟩
    · by_cases h2 : b = c%'t'
      · subst h2
        rcases word_dich c%'t' b!"rue" t with ⟨p, hp⟩ | ⟨x, hx⟩
        · right
          have hp' : Acc (parseBool (c%'t' :: t)) p := hp
          intro y _ v p' e h
          simp [boolSer, deBool, isNull, hp' _] at h
          exact h.2.2.symm
        · exact .inl ⟨x, .true hx⟩
      · by_cases h3 : b = c%'f'
        · subst h3
          rcases word_dich c%'f' b!"alse" t with ⟨p, hp⟩ | ⟨x, hx⟩
          · right
            have hp' : Acc (parseBool (c%'f' :: t)) p := hp
            intro y _ v p' e h
            simp [boolSer, deBool, isNull, hp' _] at h
            exact h.2.2.symm
          · exact .inl ⟨x, .false hx⟩
        · exact .inl ⟨_, .kind h1 h2 h3⟩

/-! ### Floating point numbers -/

theorem digits_snoc {ds n : Bytes} {z : Byte} (hd : ∀ b ∈ ds, Digit b) {u : Bytes} (h : n ++ [z] = u ++ ds) (hne : ds ≠ [])
    (hn : ∀ d, n.getLast? = some d → ¬ Digit d) : n = u := by
  obtain ⟨ds', d, rfl⟩ : ∃ a b, ds = a ++ [b] := ⟨_, _, (List.dropLast_concat_getLast hne).symm⟩
  rw [← List.append_assoc] at h
  have h := (List.append_inj' h rfl).1
  cases hq : ds'.getLast? with
  | none =>
    rw [List.getLast?_eq_none_iff] at hq
    rw [h, hq, List.append_nil]
  | some d' =>
    have : n.getLast? = some d' := by rw [h, List.getLast?_append, hq]; rfl
    exact absurd (hd d' (by have := List.mem_of_getLast? hq; simp [this])) (hn d' this)

/-- The shapes of a number that lacks a digit. -/
theorem digitMissing_shape {n : Bytes} (h : DigitMissing n) :
    n = b!"-" ∨
    (∃ m i, RMinus m ∧ RInt i ∧ n = m ++ i ++ b!".") ∨
    (∃ m i f x, RMinus m ∧ RInt i ∧ RFrac f ∧ (x = c%'e' ∨ x = c%'E') ∧ n = m ++ i ++ f ++ [x]) ∨
    (∃ m i f x y, RMinus m ∧ RInt i ∧ RFrac f ∧ (x = c%'e' ∨ x = c%'E') ∧ (y = c%'+' ∨ y = c%'-') ∧ n = m ++ i ++ f ++ [x, y]) := by
  obtain ⟨⟨z, hz, hz'⟩, h⟩ := h
  have hn : ∀ d, n.getLast? = some d → ¬ Digit d := by
    intro d hd
    rw [hz] at hd
    cases hd
    simp at hz'
    rcases hz' with rfl | rfl | rfl | rfl | rfl <;> decide
  obtain ⟨m, i, f, x, h0, hm, hi, hf, hx⟩ := h c%'0' (by decide)
  rcases hx with rfl | ⟨x, sg, ds, rfl, hx, hsg, hds⟩
  · rw [List.append_nil] at h0
    rcases hf with rfl | ⟨ds, rfl, hds⟩
    · rw [List.append_nil] at h0
      have h1 := digits_snoc (rint_mem hi) h0 (rint_ne hi) hn
      subst h1
      rcases hm with rfl | rfl
      · simp at hz
      · exact .inl rfl
    · have h1 := digits_snoc (u := m ++ i ++ b!".") hds.2 (by simpa using h0) hds.1 hn
      exact .inr (.inl ⟨m, i, hm, hi, h1⟩)
  · have h1 := digits_snoc (u := m ++ i ++ f ++ x :: sg) hds.2 (by simpa using h0) hds.1 hn
    rcases hsg with rfl | rfl | rfl
    · exact .inr (.inr (.inl ⟨m, i, f, x, hm, hi, hf, hx, h1⟩))
    · exact .inr (.inr (.inr ⟨m, i, f, x, _, hm, hi, hf, hx, .inl rfl, h1⟩))
    · exact .inr (.inr (.inr ⟨m, i, f, x, _, hm, hi, hf, hx, .inr rfl, h1⟩))

theorem digitMissing_sign {m i f : Bytes} {x y : Byte} (hm : RMinus m) (hi : RInt i) (hf : RFrac f)
    (hx : x = c%'e' ∨ x = c%'E') (hy : y = c%'+' ∨ y = c%'-') : DigitMissing (m ++ i ++ f ++ [x] ++ [y]) := by
  refine ⟨⟨y, by simp, by rcases hy with rfl | rfl <;> decide⟩, fun d hd => ?_⟩
  refine ⟨m, i, f, [x, y, d], by simp, hm, hi, hf, .inr ⟨x, [y], [d], rfl, hx, ?_, digits_one hd⟩⟩
  rcases hy with rfl | rfl
  · exact .inr (.inl rfl)
  · exact .inr (.inr rfl)

/-- What the validating reader of numbers reports behind a number that lacks a digit. -/
theorem parseNumber_missing {n r : Bytes} (h : DigitMissing n)
    (hr : ∀ b, r.head? = some b → ¬ Digit b ∧ ¬ DigitMissing (n ++ [b])) :
    Err (parseNumber (n ++ r)) (if r = [] then endErr else ⟨.InvalidNumber, none, 0⟩) := by
  have hnd : ∀ b, r.head? = some b → isDigit b = false := fun b hb => by
    have := (hr b hb).1
    rw [← isDigit_iff] at this
    simpa using this
  have fin : ∀ {s : Bytes}, (∀ e, parseNumber s e = ([], createError (if r = [] then .UnexpectedEndFragment else .InvalidNumber) e)) →
      Err (parseNumber s) (if r = [] then endErr else ⟨.InvalidNumber, none, 0⟩) := by
    intro s hs
    by_cases h : r = []
    · simp only [h, if_true] at hs ⊢
      exact ⟨by decide, hs⟩
    · simp only [h, if_false] at hs ⊢
      exact ⟨by decide, hs⟩
  have fracE : ∀ {m i q : Bytes}, RMinus m → RInt i → NoDigit q → ∀ e, parseNumber (m ++ i ++ q) e = fracExp q e := by
    intro m i q hm hi hq e
    have : Acc (parseInteger (m ++ i ++ q)) q := parseInteger_acc_iff.mpr ⟨m, i, rfl, hm, hi, .inr hq⟩
    rw [parseNumber_eq, this e]
  have expE : ∀ {m i f q : Bytes} {x : Byte}, RMinus m → RInt i → RFrac f → (x = c%'e' ∨ x = c%'E') → ∀ e,
      parseNumber (m ++ i ++ f ++ x :: q) e = parseExp (x :: q) e := by
    intro m i f q x hm hi hf hx e
    rw [List.append_assoc, fracE hm hi ?_]
    · rcases hf with rfl | ⟨ds, rfl, hds⟩
      · have : x ≠ c%'.' := by rcases hx with rfl | rfl <;> decide
        simp [fracExp, parseFrac, this]
      · have hp : parseDigit (ds ++ x :: q) = x :: q := parseDigit_append hds.2 (by
          intro b hb; simp at hb; subst hb; rcases hx with rfl | rfl <;> decide)
        cases ds with
        | nil => exact absurd rfl hds.1
        | cons d ds =>
          have hd : isDigit d = true := isDigit_iff.mpr (hds.2 d (by simp))
          simp only [List.cons_append] at hp ⊢
          simp [fracExp, parseFrac, hd, hp]
    · intro b hb
      rcases hf with rfl | ⟨ds, rfl, hds⟩
      · simp at hb; subst hb; rcases hx with rfl | rfl <;> decide
      · simp at hb; subst hb; decide
  rcases digitMissing_shape h with rfl | ⟨m, i, hm, hi, rfl⟩ | ⟨m, i, f, x, hm, hi, hf, hx, rfl⟩ | ⟨m, i, f, x, y, hm, hi, hf, hx, hy, rfl⟩
  · apply fin
    intro e
    cases r with
    | nil => rfl
    | cons b r =>
      have hb := hnd b rfl
      have h0 : b ≠ c%'0' := by rintro rfl; cases hb
      have key : ∀ b : Byte, isDigit b = false → isDigit19 b = false := by apply forall_byte; decide +kernel
      have h19 := key b hb
      simp [parseNumber, parseInteger, parseIntegerAbs, h0, h19, parseFrac, parseExp]
  · apply fin
    intro e
    rw [List.append_assoc, fracE hm hi (by intro b hb; simp at hb; subst hb; decide)]
    cases r with
    | nil => simp [fracExp, parseFrac]
    | cons b r => simp [fracExp, parseFrac, hnd b rfl]
  · apply fin
    intro e
    rw [List.append_assoc, List.cons_append, List.nil_append, expE hm hi hf hx]
    rw [parseExp.eq_def]
    simp only
    rw [if_pos hx]
    cases r with
    | nil => simp
    | cons b r =>
      have hs : ¬ (b = c%'-' ∨ b = c%'+') := fun hs =>
        (hr b rfl).2 (digitMissing_sign hm hi hf hx hs.symm)
      simp only
      rw [if_neg hs, parseExpDigits, if_neg (by simp [hnd b rfl])]
      simp
  · apply fin
    intro e
    rw [List.append_assoc, List.cons_append, List.cons_append, List.nil_append, expE hm hi hf hx]
    rw [parseExp.eq_def]
    simp only
    rw [if_pos hx, if_pos hy.symm]
    cases r with
    | nil => simp [parseExpDigits]
    | cons b r => rw [parseExpDigits, if_neg (by simp [hnd b rfl])]; simp

theorem digitMissing_head {n : Bytes} (h : DigitMissing n) : ∃ b t, n = b :: t ∧ b ≠ c%'n' ∧ isNumber (b :: t) = true := by
  have hint : ∀ {m i w : Bytes}, RMinus m → RInt i → ∃ b t, m ++ i ++ w = b :: t ∧ b ≠ c%'n' ∧ isNumber (b :: t) = true := by
    intro m i w hm hi
    rcases hm with rfl | rfl
    · cases i with
      | nil => exact absurd rfl (rint_ne hi)
      | cons b i =>
        have hb := rint_mem hi b (by simp)
        refine ⟨b, i ++ w, by simp, ?_, by simp [isNumber, isDigit_iff.mpr hb]⟩
        rintro rfl
        exact absurd hb (by decide)
    · exact ⟨c%'-', i ++ w, by simp, by decide, by simp [isNumber]⟩
  rcases digitMissing_shape h with rfl | ⟨m, i, hm, hi, rfl⟩ | ⟨m, i, f, x, hm, hi, hf, hx, rfl⟩ | ⟨m, i, f, x, y, hm, hi, hf, hx, hy, rfl⟩
  · exact ⟨_, _, rfl, by decide, by decide⟩
  · exact hint hm hi
  · rw [List.append_assoc]; exact hint hm hi
  · rw [List.append_assoc]; exact hint hm hi

theorem float_number {α : Type} (F : FloatTy α) (R : Int) (v0 : α) {n r : Bytes} {x : JError} (h : DigitMissing n)
    (hx : Err (parseNumber (n ++ r)) x) : Reports (floatSer F R).de v0 (n ++ r) x := by
  intro y hy
  obtain ⟨b, t, rfl, h1, h2⟩ := digitMissing_head h
  simp only [floatSer, deFloat, List.cons_append]
  rw [if_neg (by simpa [isNull] using h1)]
  have : isNumber (b :: (t ++ r)) = true := by simpa [isNumber] using h2
  rw [if_neg (by simp [this])]
  have h3 := hx.set (clean_obj hy)
  rw [List.cons_append] at h3
  simp only [h3]
  exact ⟨_, rfl⟩

theorem float_sound {α : Type} (F : FloatTy α) (R : Int) (v0 : α) {s : Bytes} {x : JError} (h : FloatFault s x) :
    Reports (floatSer F R).de v0 s x := by
  cases h with
  | none => exact fun y hy => ⟨v0, by simp only [floatSer, deFloat, (clean_obj hy).set]; rfl⟩
  | null h =>
    obtain ⟨t, rfl, h'⟩ := null_sound h
    exact fun y hy => ⟨F.dflt, by simp only [floatSer, deFloat, isNull, List.head?_cons, BEq.rfl, if_true, h'.set (clean_obj hy)]⟩
  | @kind b t h1 h2 h3 =>
    intro y hy
    refine ⟨v0, ?_⟩
    simp only [floatSer, deFloat]
    rw [if_neg (by simpa [isNull] using h1), if_pos (by simpa [isNumber, h2, ← isDigit_iff] using h3), (clean_obj hy).set]
    rfl
  | cut h =>
    have := parseNumber_missing (r := []) h (by simp)
    rw [if_pos rfl] at this
    have := float_number F R v0 h this
    rwa [List.append_nil] at this
  | @digit n b r h h1 h2 =>
    have := parseNumber_missing (r := b :: r) h (by intro b' hb; simp at hb; subst hb; exact ⟨h1, h2⟩)
    rw [if_neg (by simp)] at this
    exact float_number F R v0 h this

theorem float_dich {α : Type} (F : FloatTy α) (R : Int) (v0 : α) (s : Bytes) :
    (∃ x, FloatFault s x) ∨ Quiet (floatSer F R).de v0 s := by
  cases s with
  | nil => exact .inl ⟨_, .none⟩
  | cons b t =>
    by_cases h1 : b = c%'n'
    · subst h1
      rcases null_dich t with ⟨p, hp⟩ | ⟨x, hx⟩
      · right
        intro y _ v p' e h
        simp only [floatSer, deFloat, isNull, List.head?_cons, BEq.rfl, if_true, hp _] at h
        simp at h
        exact h.2.2.symm
      · exact .inl ⟨x, .null hx⟩
    · by_cases h2 : isNumber (b :: t) = true
      · rcases (parseNumber_scan (b :: t)).cases with ⟨p, hp, _⟩ | ⟨x, hx⟩
        · right
          intro y _ v p' e h
          simp only [floatSer, deFloat] at h
          rw [if_neg (by simpa [isNull] using h1), if_neg (by simp [h2]), hp _] at h
          simp at h
          exact h.2.2.symm
        · left
          obtain ⟨u, r, hs, hx', hl, hd, hb⟩ := parseNumber_blame hx
          by_cases hu : u = []
          · subst hu
            exfalso
            simp only [List.nil_append] at hs
            have hd' : b = c%'-' ∨ Digit b := by simpa [isNumber, isDigit_iff] using h2
            rcases hd' with rfl | hd'
            · exact hb _ _ hs.symm b!"0" [] (by simpa using parseNumber_viable (t := b!"-0") (y := []) ⟨b!"-", b!"0", [], [], rfl, .inr rfl, .inl rfl, .inl rfl, .inl rfl⟩ (by simp [Delim]))
            · exact hb _ _ hs.symm [] [] (by simpa using parseNumber_viable (t := [b]) (y := []) (hd b hd') (by simp [Delim]))
          · have hm : DigitMissing u := ⟨hl hu, hd⟩
            cases r with
            | nil => rw [List.append_nil] at hs; rw [hs]; exact ⟨_, .cut hm⟩
            | cons d r =>
              rw [hs]
              refine ⟨_, .digit hm ?_ ?_⟩
              · intro hdd
                exact hb d r rfl [] [] (by simpa using parseNumber_viable (y := []) (hd d hdd) (by simp [Delim]))
              · intro hdd
                exact hb d r rfl b!"0" [] (by simpa using parseNumber_viable (y := []) (hdd.2 c%'0' (by decide)) (by simp [Delim]))
      · exact .inl ⟨_, .kind h1 (by rintro rfl; simp [isNumber] at h2) (by
          intro hd; exact h2 (by simp [isNumber, isDigit_iff.mpr hd]))⟩

end Wjson
