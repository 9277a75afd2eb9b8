import Verif.Model.Work
import Verif.Proofs.Fuel
/-
Lemmas for C72: the counted functions give the same results, and the count is
bounded by the number of bytes consumed.
-/
namespace Wjson

theorem spaceLoopW_eq (st : Bool) (s : Bytes) (e : EPtr) :
    (spaceLoopW st s e).1 = spaceLoop st s e ∧ (spaceLoopW st s e).2 + (spaceLoop st s e).1.length = s.length + 1 := by
  induction s generalizing st with
  | nil => cases st <;> simp [spaceLoopW, spaceLoop]
  | cons b t ih =>
    cases st with
    | true =>
      simp only [spaceLoopW, spaceLoop]
      split
      · split
        · exact ⟨(ih false).1, by have := (ih false).2; simp only [List.length_cons]; omega⟩
        · exact ⟨(ih true).1, by have := (ih true).2; simp only [List.length_cons]; omega⟩
      · exact ⟨(ih true).1, by have := (ih true).2; simp only [List.length_cons]; omega⟩
    | false =>
      simp only [spaceLoopW, spaceLoop]
      split
      · exact ⟨(ih false).1, by have := (ih false).2; simp only [List.length_cons]; omega⟩
      · split
        · split
          · exact ⟨(ih true).1, by have := (ih true).2; simp only [List.length_cons]; omega⟩
          · exact ⟨(ih false).1, by have := (ih false).2; simp only [List.length_cons]; omega⟩
        · simp; omega

theorem parseSpaceW_eq (s : Bytes) (e : EPtr) :
    ∃ k, parseSpaceW s e = (parseSpace s e, k) ∧ k + (parseSpace s e).1.length = s.length + 2 := by
  have h := spaceLoopW_eq false s e
  refine ⟨(parseSpaceW s e).2, ?_, ?_⟩
  · exact Prod.ext h.1 rfl
  · have := h.2
    simp only [parseSpaceW, parseSpace]
    omega

theorem litRestW_eq (lit xs : Bytes) (p : Nat) (s : Bytes) (e : EPtr) :
    (litRestW lit xs p s e).1 = litRest lit xs p s e ∧
      (litRestW lit xs p s e).2 + (litRest lit xs p s e).1.length ≤ s.length + 1 := by
  induction xs generalizing p s with
  | nil => simp [litRestW, litRest]; omega
  | cons x xs ih =>
    cases s with
    | nil => simp [litRestW, litRest]
    | cons b t =>
      simp only [litRestW, litRest]
      split
      · exact ⟨(ih _ t).1, by have := (ih (p + 1) t).2; simp only [List.length_cons]; omega⟩
      · simp

theorem parseNullW_eq (s : Bytes) (e : EPtr) :
    ∃ k, parseNullW s e = (parseNull s e, k) ∧ k + (parseNull s e).1.length ≤ s.length + 1 := by
  cases s with
  | nil => exact ⟨1, rfl, by simp [parseNull]⟩
  | cons b t =>
    simp only [parseNullW, parseNull]
    split
    · have h := litRestW_eq b!"null" b!"ull" 1 t e
      exact ⟨_, Prod.ext h.1 rfl, by have := h.2; simp only [List.length_cons]; omega⟩
    · exact ⟨1, rfl, by simp⟩

theorem parseBoolW_eq (s : Bytes) (e : EPtr) :
    ∃ k, parseBoolW s e = (parseBool s e, k) ∧ k + (parseBool s e).1.length ≤ s.length + 1 := by
  cases s with
  | nil => exact ⟨1, rfl, by simp [parseBool]⟩
  | cons b t =>
    simp only [parseBoolW, parseBool]
    split
    · have h := litRestW_eq b!"true" b!"rue" 1 t e
      exact ⟨_, Prod.ext h.1 rfl, by have := h.2; simp only [List.length_cons]; omega⟩
    · split
      · have h := litRestW_eq b!"false" b!"alse" 1 t e
        exact ⟨_, Prod.ext h.1 rfl, by have := h.2; simp only [List.length_cons]; omega⟩
      · exact ⟨1, rfl, by simp⟩

theorem parseDigitW_eq (s : Bytes) :
    (parseDigitW s).1 = parseDigit s ∧ (parseDigitW s).2 + (parseDigit s).length = s.length + 1 := by
  induction s with
  | nil => simp [parseDigitW, parseDigit]
  | cons b t ih =>
    simp only [parseDigitW, parseDigit]
    split
    · exact ⟨ih.1, by have := ih.2; simp only [List.length_cons]; omega⟩
    · simp; omega

theorem parseIntegerAbsW_eq (s : Bytes) (e : EPtr) :
    (parseIntegerAbsW s e).1 = parseIntegerAbs s e ∧
      (parseIntegerAbsW s e).2 + (parseIntegerAbs s e).1.length ≤ s.length + 2 := by
  cases s with
  | nil => simp [parseIntegerAbsW, parseIntegerAbs]
  | cons b t =>
    simp only [parseIntegerAbsW, parseIntegerAbs]
    split
    · simp; omega
    · split
      · have h := parseDigitW_eq (b :: t)
        exact ⟨by rw [h.1], by have := h.2; simp only; omega⟩
      · simp

theorem parseIntegerW_eq (s : Bytes) (e : EPtr) :
    (parseIntegerW s e).1 = parseInteger s e ∧ (parseIntegerW s e).2 + (parseInteger s e).1.length ≤ s.length + 3 := by
  cases s with
  | nil => simp [parseIntegerW, parseInteger]
  | cons b t =>
    simp only [parseIntegerW, parseInteger]
    split
    · have h := parseIntegerAbsW_eq t e
      exact ⟨h.1, by have := h.2; simp only [List.length_cons]; omega⟩
    · have h := parseIntegerAbsW_eq (b :: t) e
      exact ⟨h.1, by have := h.2; simp only [List.length_cons] at this ⊢; omega⟩

theorem parseFracW_eq (s : Bytes) (e : EPtr) :
    (parseFracW s e).1 = parseFrac s e ∧ (parseFracW s e).2 + (parseFrac s e).1.length ≤ s.length + 2 := by
  cases s with
  | nil => simp [parseFracW, parseFrac]
  | cons b t =>
    simp only [parseFracW, parseFrac]
    split
    · cases t with
      | nil => simp
      | cons d t =>
        simp only
        split
        · have h := parseDigitW_eq (d :: t)
          exact ⟨by rw [h.1], by have := h.2; simp only [List.length_cons] at this ⊢; omega⟩
        · simp
    · simp

theorem parseExpDigitsW_eq (s : Bytes) (e : EPtr) :
    (parseExpDigitsW s e).1 = parseExpDigits s e ∧ (parseExpDigitsW s e).2 + (parseExpDigits s e).1.length ≤ s.length + 2 := by
  cases s with
  | nil => simp [parseExpDigitsW, parseExpDigits]
  | cons d t =>
    simp only [parseExpDigitsW, parseExpDigits]
    split
    · have h := parseDigitW_eq (d :: t)
      exact ⟨by rw [h.1], by have := h.2; simp only; omega⟩
    · simp

theorem parseExpW_eq (s : Bytes) (e : EPtr) :
    (parseExpW s e).1 = parseExp s e ∧ (parseExpW s e).2 + (parseExp s e).1.length ≤ s.length + 2 := by
  cases s with
  | nil => simp [parseExpW, parseExp]
  | cons b t =>
    simp only [parseExpW, parseExp]
    split
    · cases t with
      | nil => simp
      | cons x t =>
        simp only
        split
        · have h := parseExpDigitsW_eq t e
          exact ⟨h.1, by have := h.2; simp only [List.length_cons]; omega⟩
        · have h := parseExpDigitsW_eq (x :: t) e
          exact ⟨h.1, by have := h.2; simp only [List.length_cons] at this ⊢; omega⟩
    · simp

theorem parseNumberW_eq (s : Bytes) (e : EPtr) :
    ∃ k, parseNumberW s e = (parseNumber s e, k) ∧ k + (parseNumber s e).1.length ≤ s.length + 8 := by
  have h1 := parseIntegerW_eq s e
  have h2 := parseFracW_eq (parseInteger s e).1 (parseInteger s e).2
  have h3 := parseExpW_eq (parseFrac (parseInteger s e).1 (parseInteger s e).2).1 (parseFrac (parseInteger s e).1 (parseInteger s e).2).2.1
  simp only [parseNumberW, parseNumber, h1.1, h2.1]
  split
  · exact ⟨_, Prod.ext h3.1 rfl, by have := h1.2; have := h2.2; have := h3.2; omega⟩
  · exact ⟨_, rfl, by have := h1.2; have := h2.2; simp only; omega⟩

theorem parseHexNW_eq (n : Nat) (s : Bytes) (e : EPtr) :
    (parseHexNW n s e).1 = parseHexN n s e ∧ (parseHexNW n s e).2 + (parseHexN n s e).1.length ≤ s.length + 1 := by
  induction n generalizing s with
  | zero => simp [parseHexNW, parseHexN]; omega
  | succ n ih =>
    cases s with
    | nil => simp [parseHexNW, parseHexN]
    | cons b t =>
      simp only [parseHexNW, parseHexN]
      split
      · exact ⟨(ih t).1, by have := (ih t).2; simp only [List.length_cons]; omega⟩
      · simp

theorem parseUtf8PartW_eq (n : Nat) (s : Bytes) (e : EPtr) :
    (parseUtf8PartW n s e).1 = parseUtf8Part n s e ∧ (parseUtf8PartW n s e).2 + (parseUtf8Part n s e).1.length ≤ s.length + 1 := by
  induction n generalizing s with
  | zero => simp [parseUtf8PartW, parseUtf8Part]; omega
  | succ n ih =>
    cases s with
    | nil => simp [parseUtf8PartW, parseUtf8Part]
    | cons b t =>
      simp only [parseUtf8PartW, parseUtf8Part]
      split
      · simp
      · exact ⟨(ih t).1, by have := (ih t).2; simp only [List.length_cons]; omega⟩

theorem parseUtf8NeW_eq (b : Byte) (t : Bytes) (e : EPtr) :
    (parseUtf8NeW b t e).1 = parseUtf8Ne b t e ∧ (parseUtf8NeW b t e).2 + (parseUtf8Ne b t e).1.length ≤ t.length + 2 := by
  unfold parseUtf8NeW parseUtf8Ne
  cases utf8Lead b with
  | some n =>
    have h := parseUtf8PartW_eq n t e
    exact ⟨h.1, by have := h.2; simp only; omega⟩
  | none => simp

theorem strLoopW_eq (n : Nat) : ∀ (s : Bytes) (e : EPtr), s.length < n →
    (strLoopW s e).1 = strLoop s e ∧ (strLoopW s e).2 + 3 * (strLoop s e).1.length ≤ 3 * s.length + 1 := by
  induction n with
  | zero => intro s e h; omega
  | succ n ih =>
    intro s e h
    unfold strLoopW strLoop
    cases s with
    | nil => simp
    | cons b t =>
      simp only [List.length_cons] at h ⊢
      split
      · exact ⟨rfl, by simp only; omega⟩
      · split
        · cases t with
          | nil => simp
          | cons x t =>
            simp only [List.length_cons] at h ⊢
            split
            · exact ⟨rfl, by simp⟩
            · split
              · have h1 := parseHexNW_eq 4 t e
                have e1 : (parseHexW t e).1 = parseHex t e := h1.1
                have e2 : (parseHexW t e).2 + (parseHex t e).1.length ≤ t.length + 2 := by
                  have := h1.2
                  simp only [parseHexW, parseHex]
                  omega
                have hl : (parseHex t e).1.length ≤ t.length := parseHexN_length 4 t e
                rw [e1]
                have h2 := ih (parseHex t e).1 (parseHex t e).2 (by omega)
                exact ⟨h2.1, by have := h2.2; simp only; omega⟩
              · have h2 := ih t e (by omega)
                exact ⟨h2.1, by have := h2.2; simp only; omega⟩
        · have h1 := parseUtf8NeW_eq b t e
          have hl : (parseUtf8Ne b t e).1.length ≤ t.length := parseUtf8Ne_length b t e
          rw [h1.1]
          have h2 := ih (parseUtf8Ne b t e).1 (parseUtf8Ne b t e).2 (by omega)
          exact ⟨h2.1, by have := h2.2; have := h1.2; simp only; omega⟩

theorem parseStringW_eq (s : Bytes) (e : EPtr) :
    ∃ k, parseStringW s e = (parseString s e, k) ∧ k + 3 * (parseString s e).1.length ≤ 3 * s.length + 1 := by
  cases s with
  | nil => exact ⟨1, rfl, by simp [parseString]⟩
  | cons b t =>
    simp only [parseStringW, parseString]
    split
    · exact ⟨1, rfl, by simp⟩
    · have h := strLoopW_eq (t.length + 1) t e (by omega)
      exact ⟨_, Prod.ext h.1 rfl, by have := h.2; simp only [List.length_cons]; omega⟩

theorem parseSpace_bytes (s : Bytes) (e e' : EPtr) : (parseSpace s e).1 = (parseSpace s e').1 := by
  obtain ⟨p, x, h1, _⟩ := parseSpace_scan s
  rw [h1 e, h1 e']

theorem isObjectW_eq (s : Bytes) :
    ∃ k, isObjectW s = (isObject s, k) ∧
      k ≤ 1 + (if s.head? = some c%'[' then 2 + s.tail.length - (parseSpace s.tail .null).1.length else 0) := by
  cases s with
  | nil => exact ⟨1, rfl, by simp⟩
  | cons b t =>
    simp only [isObjectW, isObject]
    split
    · exact ⟨1, rfl, by omega⟩
    · split
      · exact ⟨1, rfl, by omega⟩
      · next hb =>
        obtain ⟨k, h1, h2⟩ := parseSpaceW_eq t .null
        have hb : b = c%'[' := by simpa using hb
        rw [h1]
        refine ⟨k + 1, rfl, ?_⟩
        simp only [hb, List.head?_cons, if_true, List.tail_cons]
        omega

/-- The counted outcome is the outcome with a count that `B` allows. -/
inductive Sim (B : Bytes → Nat → Prop) : Out ((Bytes × EPtr) × Nat) → Out (Bytes × EPtr) → Prop
  | ok {r k} : B r.1 k → Sim B (.ok (r, k)) (.ok r)
  | ub : Sim B .ub .ub
  | fuel : Sim B .fuel .fuel

theorem Sim.bind {B B' : Bytes → Nat → Prop} {w : Out ((Bytes × EPtr) × Nat)} {o : Out (Bytes × EPtr)} (h : Sim B w o)
    {f : (Bytes × EPtr) × Nat → Out ((Bytes × EPtr) × Nat)} {g : Bytes × EPtr → Out (Bytes × EPtr)}
    (hf : ∀ r k, B r.1 k → Sim B' (f (r, k)) (g r)) : Sim B' (w >>= f) (o >>= g) := by
  cases h with
  | ok hb => exact hf _ _ hb
  | ub => exact .ub
  | fuel => exact .fuel

theorem Sim.count {B B' : Bytes → Nat → Prop} {w : Out ((Bytes × EPtr) × Nat)} {o : Out (Bytes × EPtr)} (h : Sim B w o)
    {f : Nat → Nat} (hf : ∀ p k, B p k → B' p (f k)) : Sim B' (w >>= fun r => .ok (r.1, f r.2)) o := by
  cases h with
  | ok hb => exact .ok (hf _ _ hb)
  | ub => exact .ub
  | fuel => exact .fuel

/-- The count of `parse_value` and `parse_member`. -/
def Paid (s p : Bytes) (k : Nat) : Prop :=
  (s.length = 0 → p.length = 0 ∧ k ≤ 8) ∧ (0 < s.length → k + 20 * p.length + 5 ≤ 20 * s.length)

/-- The count of the loops, with the white space at the start counted once
more. -/
def LoopPaid (s p : Bytes) (k : Nat) : Prop :=
  k + s.length + 20 * p.length ≤ 20 * s.length + (parseSpace s .null).1.length + 1

theorem closeWith_paid {s : Bytes} {e : EPtr} (cl : Byte) :
    (closeWith cl s e).1.length + 1 ≤ s.length ∨ (s = [] ∧ (closeWith cl s e).1 = []) := by
  have := closeWith_length cl s e
  rcases this with h | h
  · exact .inl h
  · exact .inr h

/-- The loops of `parse_object` and `parse_array`, once their items are paid. -/
theorem loop_paid {c : Cfg} {cl : Byte} (hcl : isWs cl = false) (hcs : cl ≠ c%'/')
    {item : Bytes → EPtr → Out (Bytes × EPtr)} {itemW : Bytes → EPtr → Out ((Bytes × EPtr) × Nat)}
    {next : Bytes → EPtr → Out (Bytes × EPtr)} {nextW : Bytes → EPtr → Out ((Bytes × EPtr) × Nat)}
    (hi : ∀ s e, Sim (Paid s) (itemW s e) (item s e)) (hn : ∀ s e, Sim (LoopPaid s) (nextW s e) (next s e)) (s : Bytes) (e : EPtr) :
    Sim (LoopPaid s)
      (if s = [] ∨ s.head? = some cl then .ok (closeWith cl s e, 1)
      else
        let r := parseSpaceW s e
        deref c r.1.1 >>= fun x =>
        if x = cl then .ok (closeWith cl r.1.1 r.1.2, r.2 + 1)
        else
          itemW r.1.1 r.1.2 >>= fun m =>
          let r2 := parseSpaceW m.1.1 m.1.2
          match r2.1.1 with
          | [] => .ok (([], createError .ExpectedOf r2.1.2 (some [cl]) 0), r.2 + m.2 + r2.2 + 1)
          | b :: t =>
            if b ≠ c%',' ∧ b ≠ cl then
              .ok (([], createError .ExpectedOf r2.1.2 (some [cl]) ((b :: t).length : Nat)), r.2 + m.2 + r2.2 + 1)
            else if b = c%',' then nextW t r2.1.2 >>= fun l => .ok (l.1, r.2 + m.2 + r2.2 + l.2 + 1)
            else nextW (b :: t) r2.1.2 >>= fun l => .ok (l.1, r.2 + m.2 + r2.2 + l.2 + 1))
      (if s = [] ∨ s.head? = some cl then .ok (closeWith cl s e)
      else
        let r := parseSpace s e
        deref c r.1 >>= fun x =>
        if x = cl then .ok (closeWith cl r.1 r.2)
        else
          item r.1 r.2 >>= fun r =>
          let r := parseSpace r.1 r.2
          match r.1 with
          | [] => .ok ([], createError .ExpectedOf r.2 (some [cl]) 0)
          | b :: t =>
            if b ≠ c%',' ∧ b ≠ cl then
              .ok ([], createError .ExpectedOf r.2 (some [cl]) ((b :: t).length : Nat))
            else if b = c%',' then next t r.2
            else next (b :: t) r.2) := by
  have hb1 := parseSpace_bytes s e .null
  have hl1 := parseSpace_length s .null
  split
  · next h =>
    refine .ok ?_
    unfold LoopPaid
    have hc := closeWith_paid (s := s) (e := e) cl
    rcases h with rfl | h
    · simp [closeWith]
    · have hsp : (parseSpace s .null).1 = s := by
        cases s with
        | nil => rfl
        | cons b t =>
          have : b = cl := by simpa using h
          subst this
          simp [parseSpace, spaceLoop, hcl, hcs]
      rw [hsp]
      rcases hc with hc | ⟨rfl, _⟩
      · omega
      · simp at h
  · next h =>
    have hpos : 0 < s.length := by
      cases s with
      | nil => simp at h
      | cons b t => simp
    obtain ⟨k1, h1, h2⟩ := parseSpaceW_eq s e
    simp only [h1]
    rw [hb1] at h2
    generalize hr : parseSpace s e = r at *
    obtain ⟨s1, e1⟩ := r
    simp only at hb1 ⊢
    rw [← hb1] at h2 hl1
    cases hd : deref c s1 with
    | ub => exact .ub
    | fuel => exact .fuel
    | ok x =>
      simp only [Out.bind_ok]
      split
      · refine .ok ?_
        unfold LoopPaid
        rw [← hb1]
        rcases closeWith_paid (s := s1) (e := e1) cl with hc | ⟨rfl, hc⟩
        · omega
        · rw [hc]; simp at *; omega
      · refine (hi s1 e1).bind ?_
        rintro ⟨s2, e2⟩ k2 hp
        simp only at hp ⊢
        obtain ⟨k3, h3, h4⟩ := parseSpaceW_eq s2 e2
        simp only [h3]
        have hl3 := parseSpace_length s2 e2
        generalize parseSpace s2 e2 = r3 at *
        obtain ⟨s3, e3⟩ := r3
        simp only at h4 hl3 ⊢
        unfold Paid at hp
        have hp1 : 0 < s1.length ∨ s1.length = 0 := by omega
        cases s3 with
        | nil =>
          refine .ok ?_
          unfold LoopPaid
          rw [← hb1]
          simp only [List.length_nil] at *
          rcases hp1 with h5 | h5
          · have := hp.2 h5; omega
          · have := hp.1 h5; omega
        | cons b t =>
          simp only [List.length_cons] at h4 hl3
          have h5 : 0 < s1.length := by
            rcases hp1 with h5 | h5
            · exact h5
            · have := hp.1 h5; omega
          have hp2 := hp.2 h5
          simp only
          split
          · refine .ok ?_
            unfold LoopPaid
            rw [← hb1]
            simp only [List.length_nil]
            omega
          · split
            · refine (hn t e3).count (f := fun x => k1 + k2 + k3 + x + 1) ?_
              intro p k hk
              unfold LoopPaid at hk ⊢
              rw [← hb1]
              have := parseSpace_length t .null
              omega
            · refine (hn (b :: t) e3).count (f := fun x => k1 + k2 + k3 + x + 1) ?_
              intro p k hk
              unfold LoopPaid at hk ⊢
              rw [← hb1]
              have := parseSpace_length (b :: t) .null
              simp only [List.length_cons] at hk this
              omega

theorem rec_paid (c : Cfg) (n : Nat) :
    (∀ s e, Sim (Paid s) (parseValueW c n s e) (parseValueF c n s e)) ∧
    (∀ s e, Sim (Paid s) (parseMemberW c n s e) (parseMemberF c n s e)) ∧
    (∀ s e, s ≠ [] → Sim (fun p k => k + (isObjectW s).2 + 20 * p.length + 10 ≤ 20 * s.length)
      (parseObjectW c n s e) (parseObjectF c n s e)) ∧
    (∀ s e, Sim (LoopPaid s) (objectLoopW c n s e) (objectLoopF c n s e)) ∧
    (∀ s e, s ≠ [] → Sim (fun p k => k + (isObjectW s).2 + 20 * p.length + 11 ≤ 20 * s.length)
      (parseArrayW c n s e) (parseArrayF c n s e)) ∧
    (∀ s e, Sim (LoopPaid s) (arrayLoopW c n s e) (arrayLoopF c n s e)) := by
  induction n with
  | zero =>
    refine ⟨?_, ?_, ?_, ?_, ?_, ?_⟩ <;> intros <;>
      simp only [parseValueW, parseValueF, parseMemberW, parseMemberF, parseObjectW, parseObjectF, objectLoopW, objectLoopF,
        parseArrayW, parseArrayF, arrayLoopW, arrayLoopF] <;> exact .fuel
  | succ n ih =>
    obtain ⟨ihv, ihm, iho, ihol, iha, ihal⟩ := ih
    refine ⟨?_, ?_, ?_, ?_, ?_, ?_⟩
    · intro s e
      cases s with
      | nil =>
        simp only [parseValueW, parseValueF, isNull, isBool, isNumber, isString, isObject, isObjectW, isArray]
        exact .ok ⟨fun _ => by simp, fun h => by simp at h⟩
      | cons b t =>
        have hlen : (b :: t).length = t.length + 1 := rfl
        have paid : ∀ {p : Bytes} {k : Nat}, k + 20 * p.length + 5 ≤ 20 * (b :: t).length → Paid (b :: t) p k :=
          fun h => ⟨fun h0 => by simp at h0, fun _ => h⟩
        simp only [parseValueW, parseValueF]
        split
        · obtain ⟨k, h1, h2⟩ := parseNullW_eq (b :: t) e
          have := parseNull_length_lt (s := b :: t) (by simp) e
          rw [h1]
          exact .ok (paid (by simp only; omega))
        · split
          · obtain ⟨k, h1, h2⟩ := parseBoolW_eq (b :: t) e
            have := parseBool_length_lt (s := b :: t) (by simp) e
            rw [h1]
            exact .ok (paid (by simp only; omega))
          · split
            · obtain ⟨k, h1, h2⟩ := parseNumberW_eq (b :: t) e
              have := parseNumber_length_lt (s := b :: t) (by simp) e
              rw [h1]
              exact .ok (paid (by simp only; omega))
            · split
              · obtain ⟨k, h1, h2⟩ := parseStringW_eq (b :: t) e
                have := parseString_length_lt (s := b :: t) (by simp) e
                rw [h1]
                exact .ok (paid (by simp only; omega))
              · have ho := iho (b :: t) e (by simp)
                have ha := iha (b :: t) e (by simp)
                obtain ⟨k, h1, h2⟩ := isObjectW_eq (b :: t)
                simp only [h1] at ho ha ⊢
                split
                · exact ho.count (f := fun x => x + k + 5) fun p k h => paid (by omega)
                · split
                  · exact ha.count (f := fun x => x + k + 6) fun p k h => paid (by omega)
                  · have := parseSpace_length t .null
                    refine .ok (paid ?_)
                    simp only [List.length_nil]
                    split at h2
                    · simp only [List.tail_cons] at h2
                      omega
                    · omega
    · intro s e
      simp only [parseMemberW, parseMemberF]
      split
      · exact .ok ⟨fun _ => by simp, fun h => by simp; omega⟩
      · next hs =>
        have hne : s ≠ [] := by intro h0; simp [h0, isString] at hs
        have hpos : 0 < s.length := List.length_pos_iff.mpr hne
        have paid : ∀ {p : Bytes} {k : Nat}, k + 20 * p.length + 5 ≤ 20 * s.length → Paid s p k :=
          fun h => ⟨fun h0 => by omega, fun _ => h⟩
        obtain ⟨k1, h1, h2⟩ := parseStringW_eq s e
        have hl := parseString_length_lt hne e
        simp only [h1]
        generalize parseString s e = r1 at *
        obtain ⟨s1, e1⟩ := r1
        simp only at h2 hl ⊢
        cases s1 with
        | nil => exact .ok (paid (by simp only [List.length_nil] at *; omega))
        | cons b t =>
          simp only
          obtain ⟨k2, h3, h4⟩ := parseSpaceW_eq (b :: t) e1
          have hl2 := parseSpace_length (b :: t) e1
          simp only [h3]
          generalize parseSpace (b :: t) e1 = r2 at *
          obtain ⟨s2, e2⟩ := r2
          simp only at h4 hl2 ⊢
          cases s2 with
          | nil => exact .ok (paid (by simp only [List.length_nil] at *; omega))
          | cons b2 t2 =>
            simp only
            split
            · exact .ok (paid (by simp only [List.length_nil, List.length_cons] at *; omega))
            · cases t2 with
              | nil => exact .ok (paid (by simp only [List.length_nil, List.length_cons] at *; omega))
              | cons b3 t3 =>
                simp only
                obtain ⟨k3, h5, h6⟩ := parseSpaceW_eq (b3 :: t3) e2
                have hl3 := parseSpace_length (b3 :: t3) e2
                simp only [h5]
                generalize parseSpace (b3 :: t3) e2 = r3 at *
                obtain ⟨s3, e3⟩ := r3
                simp only at h6 hl3 ⊢
                cases s3 with
                | nil => exact .ok (paid (by simp only [List.length_nil, List.length_cons] at *; omega))
                | cons b4 t4 =>
                  simp only
                  refine (ihv (b4 :: t4) e3).count (f := fun x => k1 + k2 + k3 + x + 2) fun p k h => paid ?_
                  have := h.2 (by simp)
                  simp only [List.length_cons] at *
                  omega
    · intro s e hne
      have hpos : 0 < s.length := List.length_pos_iff.mpr hne
      obtain ⟨k, h1, h2⟩ := isObjectW_eq s
      obtain ⟨k1, h3, h4⟩ := parseSpaceW_eq s.tail e
      have hb := parseSpace_bytes s.tail e .null
      have hl := parseSpace_length s.tail e
      have ht : s.tail.length + 1 = s.length := by rw [List.length_tail]; omega
      have hk : k ≤ 3 + s.tail.length - (parseSpace s.tail e).1.length := by
        rw [hb]
        rw [hb] at hl
        split at h2 <;> omega
      simp only [parseObjectW, parseObjectF, h1, h3]
      split
      · refine .ok ?_
        simp only [List.length_nil]
        omega
      · have hol := ihol (parseSpace s.tail e).1 (parseSpace s.tail e).2
        generalize parseSpace s.tail e = r at *
        obtain ⟨s1, e1⟩ := r
        simp only at h4 hl hk hol ⊢
        split
        · refine .ok ?_
          simp only [List.length_tail]
          omega
        · refine hol.count (f := fun x => k + k1 + x + 1) fun p k h => ?_
          unfold LoopPaid at h
          have := parseSpace_length s1 .null
          omega
    · intro s e
      simp only [objectLoopW, objectLoopF]
      exact loop_paid (cl := c%'}') (by decide) (by decide) ihm ihol s e
    · intro s e hne
      have hpos : 0 < s.length := List.length_pos_iff.mpr hne
      obtain ⟨k, h1, h2⟩ := isObjectW_eq s
      have ht : s.tail.length + 1 = s.length := by rw [List.length_tail]; omega
      have hl := parseSpace_length s.tail .null
      simp only [parseArrayW, parseArrayF, h1]
      split
      · refine .ok ?_
        simp only [List.length_nil]
        split at h2 <;> omega
      · refine (ihal s.tail e).count (f := fun x => x + 2) fun p x h => ?_
        unfold LoopPaid at h
        split at h2 <;> omega
    · intro s e
      simp only [arrayLoopW, arrayLoopF]
      exact loop_paid (cl := c%']') (by decide) (by decide) ihv ihal s e

theorem despaceTokW_eq {s : Bytes} (hs : s ≠ []) (e : EPtr) :
    ∃ k, despaceTokW s e = (despaceTok s e, k) ∧ (despaceTok s e).1.length < s.length ∧
      k + 3 * (despaceTok s e).1.length ≤ 3 * s.length + 8 := by
  have hpos : 0 < s.length := List.length_pos_iff.mpr hs
  simp only [despaceTokW, despaceTok]
  split
  · obtain ⟨k, h1, h2⟩ := parseStringW_eq s e
    rw [h1]
    exact ⟨_, rfl, parseString_length_lt hs e, by simp only; omega⟩
  · split
    · obtain ⟨k, h1, h2⟩ := parseNumberW_eq s e
      have hl := parseNumber_length_lt hs e
      rw [h1]
      exact ⟨_, rfl, hl, by simp only; omega⟩
    · split
      · obtain ⟨k, h1, h2⟩ := parseBoolW_eq s e
        have hl := parseBool_length_lt hs e
        rw [h1]
        exact ⟨_, rfl, hl, by simp only; omega⟩
      · split
        · obtain ⟨k, h1, h2⟩ := parseNullW_eq s e
          have hl := parseNull_length_lt hs e
          rw [h1]
          exact ⟨_, rfl, hl, by simp only; omega⟩
        · exact ⟨_, rfl, by simp only [List.length_tail]; omega, by simp only [List.length_tail]; omega⟩

theorem despaceW_eq (n : Nat) (s : Bytes) (e : EPtr) :
    (despaceF n s e = .fuel ∧ despaceW n s e = .fuel) ∨
    ∃ r k, despaceF n s e = .ok r ∧ despaceW n s e = .ok (r, k) ∧ k ≤ 20 * s.length + 1 := by
  induction n generalizing s e with
  | zero => exact .inl ⟨rfl, rfl⟩
  | succ n ih =>
    simp only [despaceF, despaceW]
    split
    · exact .inr ⟨_, _, rfl, rfl, by omega⟩
    · next hs =>
      have hpos : 0 < s.length := List.length_pos_iff.mpr hs
      obtain ⟨k1, h1, h2⟩ := parseSpaceW_eq s e
      have hl := parseSpace_length s e
      simp only [h1]
      generalize parseSpace s e = r1 at *
      obtain ⟨s1, e1⟩ := r1
      simp only at h2 hl ⊢
      split
      · exact .inr ⟨_, _, rfl, rfl, by omega⟩
      · next hs1 =>
        obtain ⟨k2, h3, h4, h5⟩ := despaceTokW_eq hs1 e1
        simp only [h3]
        generalize despaceTok s1 e1 = r2 at *
        obtain ⟨s2, e2⟩ := r2
        simp only at h4 h5 ⊢
        have hw : (if e2.failed = true then [] else s1.take (s1.length - s2.length)).length ≤ s1.length - s2.length := by
          split
          · simp
          · simp only [List.length_take]; omega
        rcases ih s2 e2 with ⟨h6, h7⟩ | ⟨r, k, h6, h7, h8⟩
        · rw [h6, h7]
          exact .inl ⟨rfl, rfl⟩
        · rw [h6, h7]
          refine .inr ⟨_, _, rfl, rfl, ?_⟩
          simp only
          omega

end Wjson
