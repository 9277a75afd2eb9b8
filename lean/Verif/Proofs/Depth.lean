import Verif.Model.Depth
import Verif.Spec.Depth
import Verif.Proofs.Value
/-
The validator on a bounded stack.
-/
namespace Wjson
open Spec

variable {c : Cfg} {cl : Byte}

abbrev PV := Bytes → EPtr → Out (Bytes × EPtr)

theorem itemLoopD_succ (item : PV) (n : Nat) (s : Bytes) (e : EPtr) :
    itemLoopD c cl item (n + 1) s e =
      if s = [] ∨ s.head? = some cl then .ok (closeWith cl s e)
      else loopC c cl item (itemLoopD c cl item n) (parseSpace s e).1 (parseSpace s e).2 := by
  rw [itemLoopD]
  refine ite_congr rfl (fun _ => rfl) fun _ => ?_
  refine Out.bind_congr fun x _ => ?_
  refine ite_congr rfl (fun _ => rfl) fun _ => ?_
  refine Out.bind_congr fun r _ => ?_
  simp only [loopB]
  generalize parseSpace r.1 r.2 = p
  obtain ⟨p, e2⟩ := p
  cases p <;> rfl

/-! ### A bounded stack changes nothing but the overflow -/

theorem loopA_le {L L' : PV} (h : ∀ s e, FLe (L s e) (L' s e)) (s : Bytes) (e : EPtr) : FLe (loopA cl L s e) (loopA cl L' s e) := by
  cases s with
  | nil => exact FLe.refl _
  | cons b t =>
    rw [loopA, loopA]
    exact FLe.ite (fun _ => FLe.refl _) fun _ => FLe.ite (fun _ => h _ _) fun _ => h _ _

theorem itemLoopD_le {item item' L : PV} (hL : ∀ s e, L s e =
    if s = [] ∨ s.head? = some cl then .ok (closeWith cl s e)
    else loopC c cl item' L (parseSpace s e).1 (parseSpace s e).2)
    (hi : ∀ s e, FLe (item s e) (item' s e)) (n : Nat) (s : Bytes) (e : EPtr) : FLe (itemLoopD c cl item n s e) (L s e) := by
  induction n generalizing s e with
  | zero => intro h; exact absurd rfl h
  | succ n ih =>
    rw [itemLoopD_succ, hL]
    refine FLe.ite (fun _ => FLe.refl _) fun _ => ?_
    refine FLe.bind (FLe.refl _) fun x => ?_
    refine FLe.ite (fun _ => FLe.refl _) fun _ => ?_
    exact FLe.bind (hi _ _) fun r => loopA_le ih _ _

theorem memberD_le {pv pv' : PV} (h : ∀ s e, FLe (pv s e) (pv' s e)) (s : Bytes) (e : EPtr) :
    FLe (memberD pv s e) (memberD pv' s e) := by
  rw [memberD, memberD]
  refine FLe.ite (fun _ => FLe.refl _) fun _ => ?_
  simp only
  split
  · exact FLe.refl _
  · split
    · exact FLe.refl _
    · refine FLe.ite (fun _ => FLe.refl _) fun _ => ?_
      split
      · exact FLe.refl _
      · split
        · exact FLe.refl _
        · exact h _ _

theorem memberD_parseValue (s : Bytes) (e : EPtr) : memberD (parseValue c) s e = parseMember c s e := by
  rw [parseMember_eq, memberD]
  rfl

theorem valueD_le (k : Nat) (s : Bytes) (e : EPtr) : FLe (valueD c k s e) (parseValue c s e) := by
  induction k generalizing s e with
  | zero => intro h; exact absurd rfl h
  | succ k ih =>
    rw [valueD, parseValue_eq]
    refine FLe.ite (fun _ => FLe.refl _) fun _ => ?_
    refine FLe.ite (fun _ => FLe.refl _) fun _ => ?_
    refine FLe.ite (fun _ => FLe.refl _) fun _ => ?_
    refine FLe.ite (fun _ => FLe.refl _) fun _ => ?_
    refine FLe.ite (fun _ => ?_) fun _ => ?_
    · rw [objectD, parseObject_eq]
      refine FLe.ite (fun _ => FLe.refl _) fun _ => ?_
      refine FLe.ite (fun _ => FLe.refl _) fun _ => ?_
      refine itemLoopD_le objectLoop_isLoop.eqn (fun s e => ?_) _ _ _
      rw [← memberD_parseValue]
      exact memberD_le ih s e
    · refine FLe.ite (fun _ => ?_) fun _ => FLe.refl _
      rw [arrayD, parseArray_eq]
      refine FLe.ite (fun _ => FLe.refl _) fun _ => ?_
      exact itemLoopD_le arrayLoop_isLoop.eqn ih _ _ _

/-! ### As many frames as opening brackets are enough -/

theorem opens_suffix {s p : Bytes} (h : p <:+ s) : opens p ≤ opens s := h.sublist.countP_le

theorem suffix_of_ok {g : EPtr → Out (Bytes × EPtr)} {s : Bytes} (h : ScanO c s g) {e : EPtr} {r : Bytes × EPtr}
    (hr : g e = .ok r) : r.1 <:+ s := by
  rcases h with ⟨p, ev, h1, h2⟩ | ⟨h1, _⟩
  · rw [h1] at hr; cases hr; exact h2.suffix
  · rw [h1] at hr; cases hr

theorem parseSpace_suffix (s : Bytes) (e : EPtr) : (parseSpace s e).1 <:+ s := by
  obtain ⟨p, ev, h1, h2⟩ := parseSpace_scan s
  rw [h1]; exact h2.suffix

theorem itemLoopD_enough {item item' : PV} (hi : ∀ s e, FLe (item s e) (item' s e)) (hs : ∀ s, ScanO c s (item' s))
    (hsh : ∀ s e r, item' s e = .ok r → Shrinks s r.1) {K : Nat} (hk : ∀ s e, opens s ≤ K → item s e ≠ .fuel)
    (n : Nat) (s : Bytes) (e : EPtr) (hn : s.length < n) (ho : opens s ≤ K) : itemLoopD c cl item n s e ≠ .fuel := by
  induction n generalizing s e with
  | zero => omega
  | succ n ih =>
    rw [itemLoopD_succ]
    split
    · simp
    · have h1 := parseSpace_suffix s e
      have h1' := h1.length_le
      unfold loopC
      cases hd : deref c (parseSpace s e).1 with
      | ub => simp
      | fuel => cases hq : (parseSpace s e).1 with
        | nil => simp [hq, deref] at hd; split at hd <;> cases hd
        | cons b t => simp [hq, deref] at hd
      | ok x =>
        simp only [Out.bind_ok]
        split
        · simp
        · have hq := hk (parseSpace s e).1 (parseSpace s e).2 (Nat.le_trans (opens_suffix h1) ho)
          have hle := hi (parseSpace s e).1 (parseSpace s e).2 hq
          cases hr : item (parseSpace s e).1 (parseSpace s e).2 with
          | ub => simp
          | fuel => exact absurd hr hq
          | ok r =>
            rw [hr] at hle
            have h2 := suffix_of_ok (hs _) hle
            have h3 := hsh _ _ _ hle
            have h4 := parseSpace_suffix r.1 r.2
            have h5 := h3.of_le h4.length_le
            simp only [Out.bind_ok, loopB]
            cases hp : (parseSpace r.1 r.2).1 with
            | nil => simp [loopA]
            | cons b t =>
              rw [hp] at h4 h5
              have h6 := h5.cons
              have h7 : opens (b :: t) ≤ K := Nat.le_trans (opens_suffix (h4.trans (h2.trans h1))) ho
              have h8 : opens t ≤ K := Nat.le_trans (opens_suffix (List.suffix_cons b t)) h7
              simp only [List.length_cons] at h6
              rw [loopA]
              split
              · simp
              · split
                · exact ih _ _ (by omega) h8
                · exact ih _ _ (by simp only [List.length_cons]; omega) h7

theorem memberD_enough {pv : PV} {K : Nat} (hk : ∀ s e, opens s ≤ K → pv s e ≠ .fuel) (s : Bytes) (e : EPtr) (ho : opens s ≤ K) :
    memberD pv s e ≠ .fuel := by
  rw [memberD]
  split
  · simp
  · have h0 : (parseString s e).1 <:+ s := by
      obtain ⟨p, ev, h1, h2⟩ := parseString_scan s
      have := h1 e
      simp only at this
      rw [this]; exact h2.suffix
    simp only
    split
    · simp
    · next b t h1 =>
      rw [h1] at h0
      have h2 := parseSpace_suffix (b :: t) (parseString s e).2
      split
      · simp
      · next b1 t1 h3 =>
        rw [h3] at h2
        split
        · simp
        · cases t1 with
          | nil => simp
          | cons b2 t2 =>
            simp only
            have h4 := parseSpace_suffix (b2 :: t2) (parseSpace (b :: t) (parseString s e).2).2
            split
            · simp
            · next b3 t3 h5 =>
              rw [h5] at h4
              exact hk _ _ (Nat.le_trans (opens_suffix (h4.trans ((List.suffix_cons b1 _).trans (h2.trans h0)))) ho)

theorem valueD_enough (k : Nat) (s : Bytes) (e : EPtr) (h : opens s < k) : valueD c k s e ≠ .fuel := by
  induction k generalizing s e with
  | zero => omega
  | succ k ih =>
    rw [valueD]
    split; · simp
    split; · simp
    split; · simp
    split; · simp
    split
    · next ho =>
      rw [objectD]
      split; · simp
      simp only
      split; · simp
      cases s with
      | nil => simp [isObject] at ho
      | cons b t =>
        have hb : b = c%'[' ∨ b = c%'{' := by
          simp only [isObject] at ho
          split at ho
          · next h => exact .inr h
          · split at ho
            · cases ho
            · next h => exact .inl (by simpa using h)
        have h1 : opens (b :: t) = opens t + 1 := by
          unfold opens
          rw [List.countP_cons_of_pos (by simpa using hb)]
        have h2 := opens_suffix (parseSpace_suffix t e)
        have h0 : 0 < k := by omega
        obtain ⟨k', rfl⟩ : ∃ k', k = k' + 1 := ⟨k - 1, by omega⟩
        refine itemLoopD_enough (K := k') (item' := parseMember c) (fun s e => ?_) (parseMember_scan c) (fun s e r => parseMember_shrinks)
          (fun s e hs => memberD_enough (K := k') (fun s e hs => ih s e (by omega)) s e hs) _ _ _ (by omega) ?_
        · rw [← memberD_parseValue]
          exact memberD_le (valueD_le _) s e
        · simp only [List.tail_cons]; omega
    · split
      · next ho =>
        rw [arrayD]
        split; · simp
        cases s with
        | nil => simp [isArray] at ho
        | cons b t =>
          have h1 : opens (b :: t) = opens t + 1 := by
            unfold opens
            rw [List.countP_cons_of_pos]
            simp only [isArray, List.head?_cons, beq_iff_eq, Option.some.injEq] at ho
            simp [ho]
          obtain ⟨k', rfl⟩ : ∃ k', k = k' + 1 := ⟨k - 1, by omega⟩
          exact itemLoopD_enough (K := k') (valueD_le _) (parseValue_scan c) (fun s e r => parseValue_shrinks)
            (fun s e hs => ih s e (by omega)) _ _ _ (by simp) (by simp only [List.tail_cons]; omega)
      · simp

/-! ### Exactly the nesting of the text -/

theorem Spec.Nested.x {k : Kind} {t : Bytes} {d : Nat} (h : Nested k t d) : XG k t := by
  induction h with
  | null => exact .null
  | true => exact .true
  | false => exact .false
  | num h => exact .num h
  | str h => exact .str h
  | arr0 h => exact .arr0 h
  | arr _ ih => exact .arr ih
  | obj0 h => exact .obj0 h
  | objBracket h => exact .objBracket h
  | obj _ ih => exact .obj ih
  | elem h1 _ h2 ih => exact .elem h1 ih h2
  | elemTrail h1 _ h2 h3 ih => exact .elemTrail h1 ih h2 h3
  | elemMore h1 _ h2 _ ih ih2 => exact .elemMore h1 ih h2 ih2
  | memb h0 hk h1 h2 _ h3 ih => exact .memb h0 hk h1 h2 ih h3
  | membTrail h0 hk h1 h2 _ h3 h4 ih => exact .membTrail h0 hk h1 h2 ih h3 h4
  | membMore h0 hk h1 h2 _ h3 _ ih ih2 => exact .membMore h0 hk h1 h2 ih h3 ih2

theorem XG.nested {k : Kind} {t : Bytes} (h : XG k t) : ∃ d, Nested k t d := by
  induction h with
  | null => exact ⟨_, .null⟩
  | true => exact ⟨_, .true⟩
  | false => exact ⟨_, .false⟩
  | num h => exact ⟨_, .num h⟩
  | str h => exact ⟨_, .str h⟩
  | arr0 h => exact ⟨_, .arr0 h⟩
  | arr _ ih => obtain ⟨d, ih⟩ := ih; exact ⟨_, .arr ih⟩
  | obj0 h => exact ⟨_, .obj0 h⟩
  | objBracket h => exact ⟨_, .objBracket h⟩
  | obj _ ih => obtain ⟨d, ih⟩ := ih; exact ⟨_, .obj ih⟩
  | elem h1 _ h2 ih => obtain ⟨d, ih⟩ := ih; exact ⟨_, .elem h1 ih h2⟩
  | elemTrail h1 _ h2 h3 ih => obtain ⟨d, ih⟩ := ih; exact ⟨_, .elemTrail h1 ih h2 h3⟩
  | elemMore h1 _ h2 _ ih ih2 => obtain ⟨d, ih⟩ := ih; obtain ⟨d', ih2⟩ := ih2; exact ⟨_, .elemMore h1 ih h2 ih2⟩
  | memb h0 hk h1 h2 _ h3 ih => obtain ⟨d, ih⟩ := ih; exact ⟨_, .memb h0 hk h1 h2 ih h3⟩
  | membTrail h0 hk h1 h2 _ h3 h4 ih => obtain ⟨d, ih⟩ := ih; exact ⟨_, .membTrail h0 hk h1 h2 ih h3 h4⟩
  | membMore h0 hk h1 h2 _ h3 _ ih ih2 =>
    obtain ⟨d, ih⟩ := ih; obtain ⟨d', ih2⟩ := ih2; exact ⟨_, .membMore h0 hk h1 h2 ih h3 ih2⟩

/-- The result of an accepted text that needs more than `d` frames. -/
def upto (d k : Nat) (p : Bytes) (e : EPtr) : Out (Bytes × EPtr) := if d < k then .ok (p, e) else .fuel

/-- The byte that closes a list. -/
abbrev Closes (cl : Byte) : Prop := (¬ WsByte cl ∧ cl ≠ c%'/') ∧ cl ≠ c%'*' ∧ cl ≠ c%','

theorem itemLoopD_close {item : PV} {n : Nat} {p : Bytes} {e : EPtr} : itemLoopD c cl item (n + 1) (cl :: p) e = .ok (p, e) := by
  rw [itemLoopD_succ]; simp [closeWith]

theorem not_head {g u : Bytes} {b : Byte} (hcl : Closes cl) (hg : Gap g) (hb : b ≠ cl ∨ g ≠ []) :
    ¬ (g ++ b :: u = [] ∨ (g ++ b :: u).head? = some cl) := by
  cases g with
  | nil => simpa using hb
  | cons x g =>
    simp
    rintro rfl
    rcases gap_head hg rfl with h1 | h1
    · exact hcl.1.1 h1
    · exact hcl.1.2 h1

theorem itemLoopD_gap {item : PV} (hcl : Closes cl) {n : Nat} {g p : Bytes} {e : EPtr} (hg : Gap g) :
    itemLoopD c cl item (n + 1) (g ++ cl :: p) e = .ok (p, e) := by
  by_cases h0 : g = []
  · subst h0; exact itemLoopD_close
  · rw [itemLoopD_succ, if_neg (not_head hcl hg (.inr h0)), parseSpace_of_gap hg hcl.1 hcl.2.1 e, loopC_cons_cl]

/-- A pass of the loop in which an item stands. -/
theorem itemLoopD_item {item : PV} (hcl : Closes cl) {g1 g2 t m : Bytes} {b x : Byte} {d k n : Nat}
    {e : EPtr} (h1 : Gap g1) (hb : ¬ WsByte b ∧ b ≠ c%'/') (hb2 : b ≠ c%'*') (hbc : b ≠ cl) (h2 : Gap g2)
    (hx : x = c%',' ∨ x = cl) (hi : item (b :: t) e = upto d k (g2 ++ x :: m) e) :
    itemLoopD c cl item (n + 1) (g1 ++ b :: t) e =
      if d < k then (if x = c%',' then itemLoopD c cl item n m e else itemLoopD c cl item n (x :: m) e) else .fuel := by
  have hx' : (¬ WsByte x ∧ x ≠ c%'/') ∧ x ≠ c%'*' := by
    rcases hx with rfl | rfl
    · decide
    · exact ⟨hcl.1, hcl.2.1⟩
  rw [itemLoopD_succ, if_neg (not_head hcl h1 (.inl hbc)), parseSpace_of_gap h1 hb hb2 e, loopC_cons hbc]
  simp only [hi, upto]
  split
  · simp only [Out.bind_ok, loopB]
    rw [parseSpace_of_gap h2 hx'.1 hx'.2 e, loopA, if_neg (by rcases hx with rfl | rfl <;> simp)]
  · rfl

theorem memberD_text {pv : PV} {k g1 g2 t : Bytes} {b : Byte} {e : EPtr} (hk : XString k) (h1 : Gap g1) (h2 : Gap g2)
    (hb : ¬ WsByte b ∧ b ≠ c%'/') (hb2 : b ≠ c%'*') :
    memberD pv (k ++ (g1 ++ c%':' :: (g2 ++ b :: t))) e = pv (b :: t) e := by
  have hs : isString (k ++ (g1 ++ c%':' :: (g2 ++ b :: t))) = true := by
    obtain ⟨u, _, rfl⟩ := hk
    simp [isString]
  have hA : Acc (parseString (k ++ (g1 ++ c%':' :: (g2 ++ b :: t)))) (g1 ++ c%':' :: (g2 ++ b :: t)) :=
    parseString_acc_iff.mpr ⟨k, rfl, hk⟩
  have hB : Acc (parseSpace (g1 ++ c%':' :: (g2 ++ b :: t))) (c%':' :: (g2 ++ b :: t)) :=
    parseSpace_of_gap h1 (by decide) (by decide)
  have hC : Acc (parseSpace (g2 ++ b :: t)) (b :: t) := parseSpace_of_gap h2 hb hb2
  obtain ⟨x, y, hxy⟩ : ∃ x y, g1 ++ c%':' :: (g2 ++ b :: t) = x :: y := by cases g1 <;> exact ⟨_, _, rfl⟩
  obtain ⟨x', y', hxy'⟩ : ∃ x y, g2 ++ b :: t = x :: y := by cases g2 <;> exact ⟨_, _, rfl⟩
  rw [memberD, hs]
  simp only [Bool.not_true, Bool.false_eq_true, if_false, hA e]
  rw [hxy] at hB ⊢
  simp only [hB e, ne_eq, not_true_eq_false, if_false]
  rw [hxy'] at hC ⊢
  simp only [hC e]

/-- What the exact statement says about the categories of texts. -/
def Frames (c : Cfg) : Kind → Bytes → Nat → Prop
  | .value, t, d => ∀ k p e, (RNumber t → NumFollow t p) → valueD c k (t ++ p) e = upto d k p e
  | .elems, t, d => ∀ k n p e, (t ++ c%']' :: p).length < n → itemLoopD c c%']' (valueD c k) n (t ++ c%']' :: p) e = upto d k p e
  | .members, t, d => ∃ g u, t = g ++ c%'"' :: u ∧ Gap g ∧ ∀ k n p e, (c%'"' :: u ++ c%'}' :: p).length < n →
      itemLoopD c c%'}' (memberD (valueD c k)) n (t ++ c%'}' :: p) e = upto d k p e

/-- A scalar needs one frame. -/
theorem frames_scalar {t : Bytes} (hx : XValue t) (hs : ∀ p k e, valueD c (k + 1) (t ++ p) e ≠ .fuel) : Frames c .value t 0 := by
  intro k p e hf
  cases k with
  | zero => rfl
  | succ k =>
    have := valueD_le (c := c) (k + 1) (t ++ p) e (hs p k e)
    rw [← this, value_complete c hx p hf e]
    simp [upto]

private theorem delim_close' {b : Byte} {t : Bytes} (h : b = c%']' ∨ b = c%'}' ∨ b = c%',') : Delim (b :: t) :=
  Delim.of_head rfl (by revert h; revert b; apply forall_byte; decide +kernel)

/-- An element or member at the head of a list, followed by more. -/
theorem frames_more {item : PV} (hcl : Closes cl) {g1 g2 t m p : Bytes} {b : Byte} {d d' k n : Nat}
    {e : EPtr} (h1 : Gap g1) (hb : ¬ WsByte b ∧ b ≠ c%'/') (hb2 : b ≠ c%'*') (hbc : b ≠ cl) (h2 : Gap g2)
    (hi : item (b :: t) e = upto d k (g2 ++ c%',' :: m) e) (hn : (b :: t).length < n)
    (hm : d < k → ∀ n, (b :: t).length ≤ n → itemLoopD c cl item n m e = upto d' k p e) :
    itemLoopD c cl item n (g1 ++ b :: t) e = upto (max d d') k p e := by
  obtain ⟨n, rfl⟩ : ∃ n', n = n' + 1 := ⟨n - 1, by omega⟩
  rw [itemLoopD_item hcl h1 hb hb2 hbc h2 (.inl rfl) hi, if_pos rfl]
  by_cases h : d < k
  · rw [if_pos h, hm h n (by omega)]
    unfold upto
    by_cases h' : d' < k
    · rw [if_pos h', if_pos (by omega)]
    · rw [if_neg h', if_neg (by omega)]
  · rw [if_neg h, upto, if_neg (by omega)]

/-- The last element or member of a list. -/
theorem frames_last {item : PV} (hcl : Closes cl) {g1 g2 t p : Bytes} {b : Byte} {d k n : Nat}
    {e : EPtr} (h1 : Gap g1) (hb : ¬ WsByte b ∧ b ≠ c%'/') (hb2 : b ≠ c%'*') (hbc : b ≠ cl) (h2 : Gap g2)
    (hi : item (b :: t) e = upto d k (g2 ++ cl :: p) e) (hn : (b :: t).length < n) :
    itemLoopD c cl item n (g1 ++ b :: t) e = upto d k p e := by
  obtain ⟨n, rfl⟩ : ∃ n', n = n' + 1 := ⟨n - 1, by omega⟩
  obtain ⟨n, rfl⟩ : ∃ n', n = n' + 1 := ⟨n - 1, by simp at hn; omega⟩
  rw [itemLoopD_item hcl h1 hb hb2 hbc h2 (.inr rfl) hi, if_neg hcl.2.2, itemLoopD_close]
  rfl

theorem closes_bracket : Closes c%']' := by decide
theorem closes_brace : Closes c%'}' := by decide

theorem valueD_brace {k : Nat} {t : Bytes} {e : EPtr} : valueD c (k + 1) (c%'{' :: t) e = objectD c (valueD c k) (c%'{' :: t) e := by
  rw [valueD]; simp [isNull, isBool, isNumber, isDigit, isString, isObject]

theorem valueD_bracket {k : Nat} {t : Bytes} {e : EPtr} : valueD c (k + 1) (c%'[' :: t) e =
    if isObject (c%'[' :: t) then objectD c (valueD c k) (c%'[' :: t) e else arrayD c (valueD c k) (c%'[' :: t) e := by
  rw [valueD]
  simp only [isNull, isBool, isNumber, isDigit, isString, isArray, List.head?_cons]
  cases isObject (c%'[' :: t) <;> simp

theorem isObject_elems {t p : Bytes} (ht : XG .elems t) : isObject (c%'[' :: (t ++ c%']' :: p)) = false := by
  cases ho : isObject (c%'[' :: (t ++ c%']' :: p)) with
  | false => rfl
  | true =>
    exfalso
    obtain ⟨g', p', hg', he⟩ := isObject_bracket.mp ho
    obtain ⟨g, b, u, rfl, hg, hb⟩ := elems_head ht
    obtain ⟨hs1, hs2, hs3, _⟩ := valueStart_stop hb
    have h1 : Acc (parseSpace (g' ++ c%']' :: p')) (c%']' :: p') := parseSpace_of_gap hg' (by decide) (by decide)
    have h2 : Acc (parseSpace (g ++ b :: (u ++ c%']' :: p))) (b :: (u ++ c%']' :: p)) :=
      parseSpace_of_gap hg hs1 hs2
    rw [← he] at h1
    simp only [List.append_assoc, List.cons_append] at h1
    have := h1.unique h2
    simp at this
    exact hs3 this.1.symm

theorem frames_elem {g1 v g2 m p : Bytes} {d k n : Nat} {e : EPtr} (h1 : Gap g1) (hx : Nested .value v d) (hv : Frames c .value v d) (h2 : Gap g2)
    (hn : (g1 ++ v ++ g2 ++ m).length < n) (hm : m = c%']' :: p) :
    itemLoopD c c%']' (valueD c k) n (g1 ++ v ++ g2 ++ m) e = upto d k p e := by
  subst hm
  obtain ⟨b, u, rfl, hb⟩ := xvalue_head hx.x
  obtain ⟨hs1, hs2, hs3, _⟩ := valueStart_stop hb
  have := hv k (g2 ++ c%']' :: p) e fun _ => (gap_delim h2 (delim_close' (by simp))).numFollow _
  have h := frames_last (c := c) (item := valueD c k) (n := n) closes_bracket h1 hs1 hs2 hs3 h2 this (by simp at hn ⊢; omega)
  simpa using h

theorem frames_elemMore {g1 v g2 r p : Bytes} {d d' k n : Nat} {e : EPtr} (h1 : Gap g1) (hx : Nested .value v d) (hv : Frames c .value v d) (h2 : Gap g2)
    (hn : (g1 ++ v ++ g2 ++ c%',' :: r).length < n)
    (hm : d < k → ∀ n, r.length < n → itemLoopD c c%']' (valueD c k) n r e = upto d' k p e) :
    itemLoopD c c%']' (valueD c k) n (g1 ++ v ++ g2 ++ c%',' :: r) e = upto (max d d') k p e := by
  obtain ⟨b, u, rfl, hb⟩ := xvalue_head hx.x
  obtain ⟨hs1, hs2, hs3, _⟩ := valueStart_stop hb
  have := hv k (g2 ++ c%',' :: r) e fun _ => (gap_delim h2 (delim_close' (by simp))).numFollow _
  have h := frames_more (c := c) (item := valueD c k) (n := n) closes_bracket h1 hs1 hs2 hs3 h2 this (by simp at hn ⊢; omega)
    (fun hd n hn => hm hd n (by simp at hn; omega))
  simpa using h

theorem frames_memb {g0 k g1 g2 v g3 p : Bytes} {d K n : Nat} {e : EPtr} (h0 : Gap g0) (hk : XString k) (h1 : Gap g1) (h2 : Gap g2)
    (hx : Nested .value v d) (hv : Frames c .value v d) (h3 : Gap g3)
    (hn : (k ++ g1 ++ c%':' :: (g2 ++ v ++ g3 ++ c%'}' :: p)).length < n) :
    itemLoopD c c%'}' (memberD (valueD c K)) n (g0 ++ k ++ g1 ++ c%':' :: (g2 ++ v ++ g3 ++ c%'}' :: p)) e = upto d K p e := by
  obtain ⟨b, u, rfl, hb⟩ := xvalue_head hx.x
  obtain ⟨hs1, hs2, hs3, _⟩ := valueStart_stop hb
  have := hv K (g3 ++ c%'}' :: p) e fun _ => (gap_delim h3 (delim_close' (by simp))).numFollow _
  rw [List.cons_append, ← memberD_text (pv := valueD c K) hk h1 h2 hs1 hs2] at this
  obtain ⟨ku, _, rfl⟩ := hk
  have h := frames_last (c := c) (n := n) closes_brace h0 (by decide) (by decide) (by decide) h3 this (by simpa using hn)
  simpa using h

theorem frames_membMore {g0 k g1 g2 v g3 r p : Bytes} {d d' K n : Nat} {e : EPtr} (h0 : Gap g0) (hk : XString k) (h1 : Gap g1) (h2 : Gap g2)
    (hx : Nested .value v d) (hv : Frames c .value v d) (h3 : Gap g3)
    (hn : (k ++ g1 ++ c%':' :: (g2 ++ v ++ g3 ++ c%',' :: r)).length < n)
    (hm : d < K → ∀ n, r.length < n → itemLoopD c c%'}' (memberD (valueD c K)) n r e = upto d' K p e) :
    itemLoopD c c%'}' (memberD (valueD c K)) n (g0 ++ k ++ g1 ++ c%':' :: (g2 ++ v ++ g3 ++ c%',' :: r)) e = upto (max d d') K p e := by
  obtain ⟨b, u, rfl, hb⟩ := xvalue_head hx.x
  obtain ⟨hs1, hs2, hs3, _⟩ := valueStart_stop hb
  have := hv K (g3 ++ c%',' :: r) e fun _ => (gap_delim h3 (delim_close' (by simp))).numFollow _
  rw [List.cons_append, ← memberD_text (pv := valueD c K) hk h1 h2 hs1 hs2] at this
  obtain ⟨ku, _, rfl⟩ := hk
  have h := frames_more (c := c) (n := n) closes_brace h0 (by decide) (by decide) (by decide) h3 this (by simpa using hn)
    (fun hd n hn => hm hd n (by simp at hn; omega))
  simpa using h

theorem frames_gap {item : PV} (hcl : Closes cl) {g p : Bytes} {n : Nat} {e : EPtr} (hg : Gap g) (hn : 0 < n) :
    itemLoopD c cl item n (g ++ cl :: p) e = .ok (p, e) := by
  obtain ⟨n, rfl⟩ : ∃ n', n = n' + 1 := ⟨n - 1, by omega⟩
  exact itemLoopD_gap hcl hg

theorem itemLoopD_skip {item : PV} (hcl : Closes cl) {g u : Bytes} {b : Byte} {n : Nat} {e : EPtr} (hg : Gap g)
    (hb : ¬ WsByte b ∧ b ≠ c%'/') (hb2 : b ≠ c%'*') (hbc : b ≠ cl) :
    itemLoopD c cl item n (g ++ b :: u) e = itemLoopD c cl item n (b :: u) e := by
  cases n with
  | zero => rfl
  | succ n =>
    rw [itemLoopD_succ, itemLoopD_succ, if_neg (not_head hcl hg (.inl hbc)), if_neg (show ¬ (b :: u = [] ∨ (b :: u).head? = some cl) by simpa using hbc),
      parseSpace_of_gap hg hb hb2 e]
    have := parseSpace_of_gap (t := u) Gap.nil hb hb2 e
    rw [List.nil_append] at this
    rw [this]

theorem nested_frames {k : Kind} {t : Bytes} {d : Nat} (h : Nested k t d) : Frames c k t d := by
  induction h with
  | null => exact frames_scalar .null fun p k e => by simp [valueD, isNull]
  | true => exact frames_scalar .true fun p k e => by simp [valueD, isNull, isBool]
  | false => exact frames_scalar .false fun p k e => by simp [valueD, isNull, isBool]
  | num h =>
    refine frames_scalar (.num h) fun p k e => ?_
    obtain ⟨b, u, rfl, hb⟩ := rnumber_head h
    obtain ⟨h1, h2, h3⟩ := digit_ne hb
    have : isNumber (b :: (u ++ p)) = Bool.true := by
      rcases hb with rfl | h
      · rfl
      · simp [isNumber, isDigit_iff.mpr h]
    simp [valueD, isNull, isBool, h1, h2, h3, this]
  | str h =>
    refine frames_scalar (.str h) fun p k e => ?_
    obtain ⟨u, _, rfl⟩ := h
    simp [valueD, isNull, isBool, isNumber, isDigit, isString]
  | @arr0 g hg =>
    refine frames_scalar (.arr0 hg) fun p k e => ?_
    have h1 : c%'[' :: g ++ b!"]" ++ p = c%'[' :: (g ++ c%']' :: p) := by simp
    have ho : isObject (c%'[' :: (g ++ c%']' :: p)) = Bool.true := isObject_bracket.mpr ⟨g, p, hg, rfl⟩
    rw [h1, valueD_bracket, ho, if_pos rfl, objectD, ho]
    have h2 := parseSpace_of_gap (t := p) hg (b := c%']') (by decide) (by decide) e
    simp [h2]
  | @obj0 g hg =>
    refine frames_scalar (.obj0 hg) fun p k e => ?_
    have h1 : c%'{' :: g ++ b!"}" ++ p = c%'{' :: (g ++ c%'}' :: p) := by simp
    rw [h1, valueD_brace, objectD, isObject_brace]
    have h2 := parseSpace_of_gap (t := p) hg (b := c%'}') (by decide) (by decide) e
    simp [h2, itemLoopD_close]
  | @objBracket g hg =>
    refine frames_scalar (.objBracket hg) fun p k e => ?_
    have h1 : c%'{' :: g ++ b!"]" ++ p = c%'{' :: (g ++ c%']' :: p) := by simp
    rw [h1, valueD_brace, objectD, isObject_brace]
    have h2 := parseSpace_of_gap (t := p) hg (b := c%']') (by decide) (by decide) e
    simp [h2]
  | @arr t d ht ih =>
    intro k p e _
    cases k with
    | zero => rfl
    | succ k =>
      have h1 : c%'[' :: t ++ b!"]" ++ p = c%'[' :: (t ++ c%']' :: p) := by simp
      rw [h1, valueD_bracket, isObject_elems ht.x]
      simp only [Bool.false_eq_true, if_false, arrayD, isArray, List.head?_cons, beq_self_eq_true, Bool.not_true, List.tail_cons]
      rw [ih k _ p e (by omega)]
      simp [upto]
  | @obj t d ht ih =>
    intro k p e _
    cases k with
    | zero => rfl
    | succ k =>
      obtain ⟨g, u, rfl, hg, ih⟩ := ih
      have h1 : c%'{' :: (g ++ c%'"' :: u) ++ b!"}" ++ p = c%'{' :: (g ++ c%'"' :: (u ++ c%'}' :: p)) := by simp
      have h2 := parseSpace_of_gap (t := u ++ c%'}' :: p) hg (b := c%'"') (by decide) (by decide) e
      rw [h1, valueD_brace, objectD, isObject_brace]
      have h3 := ih k ((c%'"' :: (u ++ c%'}' :: p)).length + 1) p e (by simp)
      rw [List.append_assoc, List.cons_append, itemLoopD_skip closes_brace hg (by decide) (by decide) (by decide)] at h3
      simp only [Bool.not_true, Bool.false_eq_true, if_false, List.tail_cons, h2, List.head?_cons]
      rw [if_neg (by decide), h3]
      simp [upto]
  | elem h1 hx h2 ih =>
    intro k n p e hn
    exact frames_elem h1 hx ih h2 hn rfl
  | @elemTrail g1 v g2 g3 d h1 hx h2 h3 ih =>
    intro k n p e hn
    have := frames_elemMore (d' := 0) (p := p) (k := k) (n := n) (e := e) (r := g3 ++ c%']' :: p) h1 hx ih h2 (by simpa using hn)
      fun hd n hn => by rw [frames_gap closes_bracket h3 (by omega), upto, if_pos (by omega)]
    simpa using this
  | elemMore h1 hx h2 hr ih ihr =>
    intro k n p e hn
    have := frames_elemMore (k := k) (n := n) (e := e) h1 hx ih h2 (by simpa using hn) fun _ n hn => ihr k n p e hn
    simpa using this
  | @memb g0 k g1 g2 v g3 d h0 hk h1 h2 hx h3 ih =>
    have hk' := hk
    obtain ⟨ku, _, rfl⟩ := hk'
    refine ⟨g0, ku ++ b!"\"" ++ g1 ++ c%':' :: (g2 ++ v ++ g3), by simp, h0, fun K n p e hn => ?_⟩
    have := frames_memb (p := p) (K := K) (n := n) (e := e) h0 hk h1 h2 hx ih h3 (by simpa using hn)
    simpa using this
  | @membTrail g0 k g1 g2 v g3 g4 d h0 hk h1 h2 hx h3 h4 ih =>
    have hk' := hk
    obtain ⟨ku, _, rfl⟩ := hk'
    refine ⟨g0, ku ++ b!"\"" ++ g1 ++ c%':' :: (g2 ++ v ++ g3 ++ c%',' :: g4), by simp, h0, fun K n p e hn => ?_⟩
    have := frames_membMore (d' := 0) (p := p) (K := K) (n := n) (e := e) (r := g4 ++ c%'}' :: p) h0 hk h1 h2 hx ih h3 (by simpa using hn)
      fun hd n hn => by rw [frames_gap closes_brace h4 (by omega), upto, if_pos (by omega)]
    simpa using this
  | @membMore g0 k g1 g2 v g3 r d d' h0 hk h1 h2 hx h3 hr ih ihr =>
    have hk' := hk
    obtain ⟨ku, _, rfl⟩ := hk'
    refine ⟨g0, ku ++ b!"\"" ++ g1 ++ c%':' :: (g2 ++ v ++ g3 ++ c%',' :: r), by simp, h0, fun K n p e hn => ?_⟩
    obtain ⟨g, u, rfl, hg, ihr⟩ := ihr
    have := frames_membMore (p := p) (K := K) (n := n) (e := e) (r := g ++ c%'"' :: u ++ c%'}' :: p) h0 hk h1 h2 hx ih h3 (by simpa using hn)
      fun _ n hn => ihr K n p e (by simp at hn ⊢; omega)
    simpa using this

/-! ### The nested brackets -/

theorem brackets_succ (n : Nat) : brackets (n + 1) = c%'[' :: brackets n ++ b!"]" := by
  unfold brackets
  rw [List.replicate_succ, List.replicate_succ']
  simp

theorem brackets_rfc (n : Nat) : RValue (brackets (n + 1)) ∧ Nested .value (brackets (n + 1)) n := by
  have ws : Ws [] := by intro b hb; cases hb
  induction n with
  | zero => exact ⟨.arr0 (w := []) ws, .arr0 (g := []) .nil⟩
  | succ n ih =>
    rw [brackets_succ]
    refine ⟨.arr ?_, .arr ?_⟩
    · simpa using RG.elem ws ih.1 ws
    · simpa using Nested.elem .nil ih.2 .nil

end Wjson
