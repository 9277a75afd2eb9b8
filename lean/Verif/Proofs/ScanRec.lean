import Verif.Proofs.Scan
/-
The recursive parser functions: the budget of the API functions is always
sufficient, the result does not depend on it, and the common shape `ScanAt`
holds (up to undefined behaviour when `*end` is not readable).
-/
namespace Wjson

/-- `ScanAt` for functions with an `Out` result. -/
def ScanO (c : Cfg) (s : Bytes) (g : EPtr → Out (Bytes × EPtr)) : Prop :=
  (∃ p ev, (∀ e, g e = .ok (p, applyErr e ev)) ∧ Good s p ev) ∨ ((∀ e, g e = .ub) ∧ c.past = none)

theorem ScanAt.toO {c : Cfg} {s : Bytes} {g : EPtr → Bytes × EPtr} (h : ScanAt s g) :
    ScanO c s (fun e => .ok (g e)) := by
  obtain ⟨p, ev, h1, h2⟩ := h
  exact .inl ⟨p, ev, fun e => by simp only [h1], h2⟩

theorem ScanO.mono {c : Cfg} {s p : Bytes} {g : EPtr → Out (Bytes × EPtr)} (h : p <:+ s)
    (hg : ScanO c p g) : ScanO c s g := by
  rcases hg with ⟨q, ev, h1, h2⟩ | hg
  · exact .inl ⟨q, ev, h1, h2.trans h⟩
  · exact .inr hg

theorem ScanO.ite {c : Cfg} {s : Bytes} {P : Prop} [Decidable P] {g1 g2 : EPtr → Out (Bytes × EPtr)}
    (h1 : P → ScanO c s g1) (h2 : ¬P → ScanO c s g2) : ScanO c s (fun e => if P then g1 e else g2 e) := by
  by_cases h : P
  · simpa [h] using h1 h
  · simpa [h] using h2 h

theorem ScanAt.bindO {c : Cfg} {s : Bytes} {g : EPtr → Bytes × EPtr} {k : Bytes → EPtr → Out (Bytes × EPtr)}
    (hg : ScanAt s g) (hk : ∀ e, ScanO c (g e).1 (k (g e).1)) :
    ScanO c s (fun e => k (g e).1 (g e).2) := by
  obtain ⟨p, ev, h1, h2⟩ := hg
  have hk' := hk .null
  rw [h1] at hk'
  simp only at hk'
  rcases hk' with ⟨q, ev', h3, h4⟩ | ⟨h3, h4⟩
  · left
    cases ev with
    | none => exact ⟨q, ev', fun e => by simp [h1, h3], h4.trans h2.suffix⟩
    | some x =>
      have hx := h2.err x rfl
      have hp : p = [] := hx.2.1
      subst hp
      have hq : q = [] := by simpa using h4.suffix
      subst hq
      refine ⟨[], some x, fun e => ?_, h2⟩
      simp only [h1, h3]
      rw [applyErr_applyErr _ _ hx.1]
  · right
    exact ⟨fun e => by simp [h1, h3], h4⟩

theorem ScanO.bind {c : Cfg} {s : Bytes} {g : EPtr → Out (Bytes × EPtr)} {k : Bytes → EPtr → Out (Bytes × EPtr)}
    (hg : ScanO c s g) (hk : ∀ e r, g e = .ok r → ScanO c r.1 (k r.1)) :
    ScanO c s (fun e => g e >>= fun r => k r.1 r.2) := by
  rcases hg with ⟨p, ev, h1, h2⟩ | ⟨h1, h2⟩
  · have := ScanAt.bindO (c := c) (g := fun e => (p, applyErr e ev)) (k := k) ⟨p, ev, fun _ => rfl, h2⟩
      (fun e => hk e _ (h1 e))
    simpa [h1] using this
  · right
    exact ⟨fun e => by simp [h1], h2⟩

/-- Reading `*beg` at a position that may be `end`. -/
theorem ScanO.deref {c : Cfg} {s p : Bytes} {k : Byte → EPtr → Out (Bytes × EPtr)}
    (hk : ∀ x, ScanO c s (k x)) : ScanO c s (fun e => Wjson.deref c p >>= fun x => k x e) := by
  cases p with
  | cons b t => simpa using hk b
  | nil =>
    unfold Wjson.deref
    cases h : c.past with
    | none => right; exact ⟨fun e => by simp, h⟩
    | some z => simpa using hk z

/-! ### Progress of the scanners: a successful scan consumes something -/

theorem fresh_not_failed : EPtr.fresh.failed = false := rfl

theorem isObject_ne_nil {s : Bytes} (h : isObject s = true) : s ≠ [] := by
  cases s <;> simp [isObject] at h ⊢

theorem isArray_ne_nil {s : Bytes} (h : isArray s = true) : s ≠ [] := by
  cases s <;> simp [isArray] at h ⊢

theorem parseString_length_lt {s : Bytes} (h : s ≠ []) (e : EPtr) : (parseString s e).1.length < s.length := by
  cases s with
  | nil => exact absurd rfl h
  | cons b t =>
    simp only [parseString]
    split
    · simp
    · have := ((strLoop_scan t).suffix e).length_le
      simp only [List.length_cons]
      omega

theorem litRest_length (lit xs : Bytes) (p : Nat) (s : Bytes) (e : EPtr) :
    (litRest lit xs p s e).1.length ≤ s.length := by
  have := ((litRest_scan lit xs p (List.replicate p 0 ++ s) s (by simp; omega)
    (List.suffix_append _ _)).suffix e).length_le
  induction xs generalizing p s with
  | nil => simp [litRest]
  | cons x xs ih =>
    cases s with
    | nil => simp [litRest]
    | cons b t =>
      simp only [litRest] at this ⊢
      split
      · have h2 := ((litRest_scan lit xs (p+1) (List.replicate (p+1) 0 ++ t) t (by simp; omega)
          (List.suffix_append _ _)).suffix e).length_le
        have := ih (p+1) t h2
        simp; omega
      · simp

theorem parseNull_length_lt {s : Bytes} (h : s ≠ []) (e : EPtr) : (parseNull s e).1.length < s.length := by
  cases s with
  | nil => exact absurd rfl h
  | cons b t =>
    simp only [parseNull]
    split
    · have := litRest_length b!"null" b!"ull" 1 t e
      simp only [List.length_cons]; omega
    · simp

theorem parseBool_length_lt {s : Bytes} (h : s ≠ []) (e : EPtr) : (parseBool s e).1.length < s.length := by
  cases s with
  | nil => exact absurd rfl h
  | cons b t =>
    simp only [parseBool]
    split
    · have := litRest_length b!"true" b!"rue" 1 t e
      simp only [List.length_cons]; omega
    · split
      · have := litRest_length b!"false" b!"alse" 1 t e
        simp only [List.length_cons]; omega
      · simp

theorem isDigit_of_isDigit19 {b : Byte} (h : isDigit19 b = true) : isDigit b = true := by
  revert h; revert b
  apply forall_byte
  decide +kernel

theorem parseDigit_length_lt {b : Byte} (h : isDigit b = true) (t : Bytes) :
    (parseDigit (b :: t)).length < (b :: t).length := by
  simp only [parseDigit, h, ite_true, List.length_cons]
  have := (parseDigit_suffix t).length_le
  omega

theorem parseIntegerAbs_length_lt {s : Bytes} (h : s ≠ []) (e : EPtr) :
    (parseIntegerAbs s e).1.length < s.length := by
  cases s with
  | nil => exact absurd rfl h
  | cons b t =>
    simp only [parseIntegerAbs]
    split
    · simp
    · split
      · next h => exact parseDigit_length_lt (isDigit_of_isDigit19 h) t
      · simp

theorem parseInteger_length_lt {s : Bytes} (h : s ≠ []) (e : EPtr) :
    (parseInteger s e).1.length < s.length := by
  cases s with
  | nil => exact absurd rfl h
  | cons b t =>
    simp only [parseInteger]
    split
    · have := ((parseIntegerAbs_scan t).suffix e).length_le
      simp only [List.length_cons] at *
      omega
    · exact parseIntegerAbs_length_lt (by simp) e

theorem parseNumber_length_lt {s : Bytes} (h : s ≠ []) (e : EPtr) :
    (parseNumber s e).1.length < s.length := by
  have h1 := parseInteger_length_lt h e
  have h2 := ((parseFracExp_scan (parseInteger s e).1).suffix (parseInteger s e).2).length_le
  simp only [parseNumber] at *
  omega

/-- Either the result is strictly shorter or both are empty. -/
def Shrinks (s p : Bytes) : Prop := p.length < s.length ∨ (s = [] ∧ p = [])

theorem Shrinks.nil (s : Bytes) : Shrinks s [] := by
  cases s with
  | nil => exact .inr ⟨rfl, rfl⟩
  | cons b t => exact .inl (by simp)

theorem Shrinks.of_lt {s p : Bytes} (h : p.length < s.length) : Shrinks s p := .inl h

theorem Shrinks.le {s p : Bytes} (h : Shrinks s p) : p.length ≤ s.length := by
  rcases h with h | ⟨h1, h2⟩
  · omega
  · simp [h1, h2]

theorem Shrinks.of_le {s p q : Bytes} (h : Shrinks s p) (hq : q.length ≤ p.length) : Shrinks s q := by
  rcases h with h | ⟨h1, h2⟩
  · exact .inl (by omega)
  · subst h1 h2
    exact .inr ⟨rfl, by simpa using hq⟩

theorem Shrinks.le_of {s p q : Bytes} (hq : p.length ≤ s.length) (h : Shrinks p q) : Shrinks s q := by
  rcases h with h | ⟨h1, h2⟩
  · exact .inl (by omega)
  · subst h2; exact Shrinks.nil s

theorem Shrinks.cons {s : Bytes} {b : Byte} {t : Bytes} (h : Shrinks s (b :: t)) :
    (b :: t).length < s.length := by
  rcases h with h | ⟨_, h⟩
  · exact h
  · simp at h

theorem parseSpace_length (s : Bytes) (e : EPtr) : (parseSpace s e).1.length ≤ s.length :=
  ((parseSpace_scan s).suffix e).length_le

theorem closeWith_length (cl : Byte) (s : Bytes) (e : EPtr) : Shrinks s (closeWith cl s e).1 := by
  cases s with
  | nil => exact Shrinks.nil _
  | cons b t =>
    simp only [closeWith]
    split
    · exact Shrinks.nil _
    · exact .inl (by simp)

theorem rec_shrinks (c : Cfg) (n : Nat) :
    (∀ s e r, parseValueF c n s e = .ok r → Shrinks s r.1) ∧
    (∀ s e r, parseMemberF c n s e = .ok r → Shrinks s r.1) ∧
    (∀ s e r, parseObjectF c n s e = .ok r → Shrinks s r.1) ∧
    (∀ s e r, objectLoopF c n s e = .ok r → r.1.length ≤ s.length) ∧
    (∀ s e r, parseArrayF c n s e = .ok r → Shrinks s r.1) ∧
    (∀ s e r, arrayLoopF c n s e = .ok r → r.1.length ≤ s.length) := by
  induction n with
  | zero => simp [parseValueF, parseMemberF, parseObjectF, objectLoopF, parseArrayF, arrayLoopF]
  | succ n ih =>
    obtain ⟨ihv, ihm, iho, ihol, iha, ihal⟩ := ih
    refine ⟨?_, ?_, ?_, ?_, ?_, ?_⟩
    · intro s e r h
      cases s with
      | nil => simp [parseValueF, isNull, isBool, isNumber, isString, isObject, isArray] at h; subst h
               exact Shrinks.nil _
      | cons b t =>
        simp only [parseValueF] at h
        split at h
        · cases h; exact .inl (parseNull_length_lt (by simp) e)
        · split at h
          · cases h; exact .inl (parseBool_length_lt (by simp) e)
          · split at h
            · cases h; exact .inl (parseNumber_length_lt (by simp) e)
            · split at h
              · cases h; exact .inl (parseString_length_lt (by simp) e)
              · split at h
                · exact iho _ _ _ h
                · split at h
                  · exact iha _ _ _ h
                  · cases h; exact Shrinks.nil _
    · intro s e r h
      simp only [parseMemberF] at h
      split at h
      · cases h; exact Shrinks.nil _
      · next hs =>
        have hne : s ≠ [] := by intro h0; simp [h0, isString] at hs
        have h1 := parseString_length_lt hne e
        split at h
        · cases h; exact Shrinks.nil _
        · next b t heq =>
          rw [heq] at h1
          have h2 := parseSpace_length (b :: t) (parseString s e).2
          split at h
          · cases h; exact Shrinks.nil _
          · next b' t' heq' =>
            rw [heq'] at h2
            split at h
            · cases h; exact Shrinks.nil _
            · cases t' with
              | nil => simp at h; cases h; exact Shrinks.nil _
              | cons b2 t2 =>
                simp only at h
                have h3 := parseSpace_length (b2 :: t2) (parseSpace (b :: t) (parseString s e).2).2
                split at h
                · cases h; exact Shrinks.nil _
                · next b3 t3 heq3 =>
                  rw [heq3] at h3
                  have := (ihv _ _ _ h).le
                  refine .inl ?_
                  simp only [List.length_cons] at *
                  omega
    · intro s e r h
      simp only [parseObjectF] at h
      split at h
      · cases h; exact Shrinks.nil _
      · next hs =>
        cases s with
        | nil => simp [isObject] at hs
        | cons b t =>
          have h1 := parseSpace_length (b :: t).tail e
          rw [List.length_tail, List.length_cons] at h1
          split at h
          · cases h
            refine .inl ?_
            rw [List.length_tail, List.length_cons]; omega
          · have := ihol _ _ _ h
            refine .inl ?_
            simp only [List.length_cons]; omega
    · intro s e r h
      simp only [objectLoopF] at h
      split at h
      · cases h; exact (closeWith_length _ _ _).le
      · have h1 := parseSpace_length s e
        rw [Out.bind_eq_ok] at h
        obtain ⟨x, hx, h⟩ := h
        split at h
        · cases h; exact Nat.le_trans (closeWith_length _ _ _).le h1
        · rw [Out.bind_eq_ok] at h
          obtain ⟨r1, hr1, h⟩ := h
          have h2 := (ihm _ _ _ hr1).of_le (parseSpace_length r1.1 r1.2)
          have h3 := h2.le
          split at h
          · cases h; simp
          · next b t heq =>
            rw [heq] at h2 h3
            split at h
            · cases h; simp
            · split at h
              · have := ihol _ _ _ h
                simp only [List.length_cons] at *; omega
              · have := ihol _ _ _ h
                omega
    · intro s e r h
      simp only [parseArrayF] at h
      split at h
      · cases h; exact Shrinks.nil _
      · next hs =>
        cases s with
        | nil => simp [isArray] at hs
        | cons b t =>
          have := ihal _ _ _ h
          refine .inl ?_
          simp only [List.length_cons, List.tail_cons] at *; omega
    · intro s e r h
      simp only [arrayLoopF] at h
      split at h
      · cases h; exact (closeWith_length _ _ _).le
      · have h1 := parseSpace_length s e
        rw [Out.bind_eq_ok] at h
        obtain ⟨x, hx, h⟩ := h
        split at h
        · cases h; exact Nat.le_trans (closeWith_length _ _ _).le h1
        · rw [Out.bind_eq_ok] at h
          obtain ⟨r1, hr1, h⟩ := h
          have h2 := (ihv _ _ _ hr1).of_le (parseSpace_length r1.1 r1.2)
          have h3 := h2.le
          split at h
          · cases h; simp
          · next b t heq =>
            rw [heq] at h2 h3
            split at h
            · cases h; simp
            · split at h
              · have := ihal _ _ _ h
                simp only [List.length_cons] at *; omega
              · have := ihal _ _ _ h
                omega

/-- Constant error result. -/
theorem ScanO.err (c : Cfg) (s : Bytes) (code : Code) (m : Option Bytes) (t : Int) (hc : code ≠ .ValidJSON)
    (h0 : 0 ≤ t) (h1 : t ≤ (s.length : Int)) : ScanO c s (fun e => .ok ([], createError code e m t)) :=
  (ScanAt.err s code m t hc h0 h1).toO

/-- Budget bounds per function. -/
theorem rec_scan (c : Cfg) (n : Nat) :
    (∀ s, 3 * s.length + 2 ≤ n → ScanO c s (fun e => parseValueF c n s e)) ∧
    (∀ s, 3 * s.length + 2 ≤ n → ScanO c s (fun e => parseMemberF c n s e)) ∧
    (∀ s, 3 * s.length + 1 ≤ n → ScanO c s (fun e => parseObjectF c n s e)) ∧
    (∀ s, 3 * s.length + 3 ≤ n → ScanO c s (fun e => objectLoopF c n s e)) ∧
    (∀ s, 3 * s.length + 1 ≤ n → ScanO c s (fun e => parseArrayF c n s e)) ∧
    (∀ s, 3 * s.length + 3 ≤ n → ScanO c s (fun e => arrayLoopF c n s e)) := by
  induction n with
  | zero => refine ⟨?_, ?_, ?_, ?_, ?_, ?_⟩ <;> intro s h <;> omega
  | succ n ih =>
    obtain ⟨ihv, ihm, iho, ihol, iha, ihal⟩ := ih
    refine ⟨?_, ?_, ?_, ?_, ?_, ?_⟩
    · intro s hn
      simp only [parseValueF]
      refine ScanO.ite (fun _ => (parseNull_scan s).toO) fun _ => ?_
      refine ScanO.ite (fun _ => (parseBool_scan s).toO) fun _ => ?_
      refine ScanO.ite (fun _ => (parseNumber_scan s).toO) fun _ => ?_
      refine ScanO.ite (fun _ => (parseString_scan s).toO) fun _ => ?_
      refine ScanO.ite (fun _ => iho s (by omega)) fun _ => ?_
      refine ScanO.ite (fun _ => iha s (by omega)) fun _ => ?_
      exact ScanO.err _ _ _ _ _ (by decide) (by omega) (by omega)
    · intro s hn
      simp only [parseMemberF]
      refine ScanO.ite (fun _ => ScanO.err _ _ _ _ _ (by decide) (by omega) (by omega)) fun hs => ?_
      have hne : s ≠ [] := by intro h0; simp [h0, isString] at hs
      refine ScanAt.bindO (g := parseString s) (k := fun p e => match p with
        | [] => .ok ([], createError .UnexpectedEndFragment e)
        | b :: t =>
          match (parseSpace (b :: t) e).1 with
          | [] => .ok ([], createError .UnexpectedEndFragment (parseSpace (b :: t) e).2)
          | b' :: t' =>
            if b' ≠ c%':' then
              .ok ([], createError .ExpectedOf (parseSpace (b :: t) e).2 (some b!":") (t'.length : Nat))
            else
              match t' with
              | [] => .ok ([], createError .UnexpectedEndFragment (parseSpace (b :: t) e).2)
              | b2 :: t2 =>
                match (parseSpace (b2 :: t2) (parseSpace (b :: t) e).2).1 with
                | [] => .ok ([], createError .UnexpectedEndFragment
                          (parseSpace (b2 :: t2) (parseSpace (b :: t) e).2).2)
                | b3 :: t3 => parseValueF c n (b3 :: t3) (parseSpace (b2 :: t2) (parseSpace (b :: t) e).2).2)
        (parseString_scan s) ?_
      intro e
      have h1 := parseString_length_lt hne e
      generalize (parseString s e).1 = p at *
      cases p with
      | nil => exact ScanO.err _ _ _ _ _ (by decide) (by omega) (by omega)
      | cons b t =>
        simp only
        refine ScanAt.bindO (g := parseSpace (b :: t)) (k := fun p e => match p with
          | [] => .ok ([], createError .UnexpectedEndFragment e)
          | b' :: t' =>
            if b' ≠ c%':' then
              .ok ([], createError .ExpectedOf e (some b!":") (t'.length : Nat))
            else
              match t' with
              | [] => .ok ([], createError .UnexpectedEndFragment e)
              | b2 :: t2 =>
                match (parseSpace (b2 :: t2) e).1 with
                | [] => .ok ([], createError .UnexpectedEndFragment
                          (parseSpace (b2 :: t2) e).2)
                | b3 :: t3 => parseValueF c n (b3 :: t3) (parseSpace (b2 :: t2) e).2)
          (parseSpace_scan _) ?_
        intro e
        have h2 := parseSpace_length (b :: t) e
        generalize (parseSpace (b :: t) e).1 = p at *
        cases p with
        | nil => exact ScanO.err _ _ _ _ _ (by decide) (by omega) (by omega)
        | cons b' t' =>
          simp only
          refine ScanO.ite (fun _ => ScanO.err _ _ _ _ _ (by decide) (by omega) (by simp; omega)) fun _ => ?_
          cases t' with
          | nil => exact ScanO.err _ _ _ _ _ (by decide) (by omega) (by omega)
          | cons b2 t2 =>
            simp only
            refine ScanO.mono (suffix_cons b' _) ?_
            refine ScanAt.bindO (g := parseSpace (b2 :: t2)) (k := fun p e => match p with
              | [] => .ok ([], createError .UnexpectedEndFragment e)
              | b3 :: t3 => parseValueF c n (b3 :: t3) e) (parseSpace_scan _) ?_
            intro e
            have h3 := parseSpace_length (b2 :: t2) e
            generalize (parseSpace (b2 :: t2) e).1 = p at *
            cases p with
            | nil => exact ScanO.err _ _ _ _ _ (by decide) (by omega) (by omega)
            | cons b3 t3 =>
              simp only
              refine ihv _ ?_
              simp only [List.length_cons] at *; omega
    · intro s hn
      simp only [parseObjectF]
      refine ScanO.ite (fun _ => ScanO.err _ _ _ _ _ (by decide) (by omega) (by omega)) fun hs => ?_
      cases s with
      | nil => simp [isObject] at hs
      | cons b t =>
        simp only [List.tail_cons]
        refine ScanO.mono (suffix_cons b t) ?_
        refine ScanAt.bindO (g := parseSpace t) (k := fun p e =>
          if p.head? = some c%']' then .ok (p.tail, e) else objectLoopF c n p e) (parseSpace_scan _) ?_
        intro e
        have h1 := parseSpace_length t e
        refine ScanO.ite (fun _ => (ScanAt.ok _ _ (List.tail_suffix _)).toO) fun _ => ?_
        refine ihol _ ?_
        simp only [List.length_cons] at *; omega
    · intro s hn
      simp only [objectLoopF]
      refine ScanO.ite (fun _ => (closeWith_scan _ _).toO) fun hs => ?_
      refine ScanAt.bindO (g := parseSpace s) (k := fun p e =>
        deref c p >>= fun x =>
        if x = c%'}' then .ok (closeWith c%'}' p e)
        else
          parseMemberF c n p e >>= fun r =>
          match (parseSpace r.1 r.2).1 with
          | [] => .ok ([], createError .ExpectedOf (parseSpace r.1 r.2).2 (some b!"}") 0)
          | b :: t =>
            if b ≠ c%',' ∧ b ≠ c%'}' then
              .ok ([], createError .ExpectedOf (parseSpace r.1 r.2).2 (some b!"}") ((b :: t).length : Nat))
            else if b = c%',' then objectLoopF c n t (parseSpace r.1 r.2).2
            else objectLoopF c n (b :: t) (parseSpace r.1 r.2).2) (parseSpace_scan s) ?_
      intro e
      have h1 := parseSpace_length s e
      generalize (parseSpace s e).1 = p at *
      refine ScanO.deref (k := fun x e => if x = c%'}' then .ok (closeWith c%'}' p e)
        else
          parseMemberF c n p e >>= fun r =>
          match (parseSpace r.1 r.2).1 with
          | [] => .ok ([], createError .ExpectedOf (parseSpace r.1 r.2).2 (some b!"}") 0)
          | b :: t =>
            if b ≠ c%',' ∧ b ≠ c%'}' then
              .ok ([], createError .ExpectedOf (parseSpace r.1 r.2).2 (some b!"}") ((b :: t).length : Nat))
            else if b = c%',' then objectLoopF c n t (parseSpace r.1 r.2).2
            else objectLoopF c n (b :: t) (parseSpace r.1 r.2).2) ?_
      intro x
      refine ScanO.ite (fun _ => (closeWith_scan _ _).toO) fun _ => ?_
      refine ScanO.bind (g := fun e => parseMemberF c n p e) (k := fun q e =>
          match (parseSpace q e).1 with
          | [] => .ok ([], createError .ExpectedOf (parseSpace q e).2 (some b!"}") 0)
          | b :: t =>
            if b ≠ c%',' ∧ b ≠ c%'}' then
              .ok ([], createError .ExpectedOf (parseSpace q e).2 (some b!"}") ((b :: t).length : Nat))
            else if b = c%',' then objectLoopF c n t (parseSpace q e).2
            else objectLoopF c n (b :: t) (parseSpace q e).2) (ihm p (by omega)) ?_
      intro e r hr
      have h2 := (rec_shrinks c n).2.1 _ _ _ hr
      refine ScanAt.bindO (g := parseSpace r.1) (k := fun q e =>
          match q with
          | [] => .ok ([], createError .ExpectedOf e (some b!"}") 0)
          | b :: t =>
            if b ≠ c%',' ∧ b ≠ c%'}' then
              .ok ([], createError .ExpectedOf e (some b!"}") ((b :: t).length : Nat))
            else if b = c%',' then objectLoopF c n t e
            else objectLoopF c n (b :: t) e) (parseSpace_scan _) ?_
      intro e
      have h3 := h2.of_le (parseSpace_length r.1 e)
      generalize (parseSpace r.1 e).1 = q at *
      cases q with
      | nil => exact ScanO.err _ _ _ _ _ (by decide) (by omega) (by omega)
      | cons b t =>
        have h4 := h3.cons
        simp only
        refine ScanO.ite (fun _ => ScanO.err _ _ _ _ _ (by decide) (by omega) (by omega)) fun _ => ?_
        refine ScanO.ite (fun _ => ScanO.mono (suffix_cons b t) (ihol _ ?_)) fun _ => ihol _ ?_
        · simp only [List.length_cons] at *; omega
        · omega
    · intro s hn
      simp only [parseArrayF]
      refine ScanO.ite (fun _ => ScanO.err _ _ _ _ _ (by decide) (by omega) (by omega)) fun hs => ?_
      cases s with
      | nil => simp [isArray] at hs
      | cons b t =>
        simp only [List.tail_cons]
        refine ScanO.mono (suffix_cons b t) (ihal _ ?_)
        simp only [List.length_cons] at *; omega
    · intro s hn
      simp only [arrayLoopF]
      refine ScanO.ite (fun _ => (closeWith_scan _ _).toO) fun hs => ?_
      refine ScanAt.bindO (g := parseSpace s) (k := fun p e =>
        deref c p >>= fun x =>
        if x = c%']' then .ok (closeWith c%']' p e)
        else
          parseValueF c n p e >>= fun r =>
          match (parseSpace r.1 r.2).1 with
          | [] => .ok ([], createError .ExpectedOf (parseSpace r.1 r.2).2 (some b!"]") 0)
          | b :: t =>
            if b ≠ c%',' ∧ b ≠ c%']' then
              .ok ([], createError .ExpectedOf (parseSpace r.1 r.2).2 (some b!"]") ((b :: t).length : Nat))
            else if b = c%',' then arrayLoopF c n t (parseSpace r.1 r.2).2
            else arrayLoopF c n (b :: t) (parseSpace r.1 r.2).2) (parseSpace_scan s) ?_
      intro e
      have h1 := parseSpace_length s e
      generalize (parseSpace s e).1 = p at *
      refine ScanO.deref (k := fun x e => if x = c%']' then .ok (closeWith c%']' p e)
        else
          parseValueF c n p e >>= fun r =>
          match (parseSpace r.1 r.2).1 with
          | [] => .ok ([], createError .ExpectedOf (parseSpace r.1 r.2).2 (some b!"]") 0)
          | b :: t =>
            if b ≠ c%',' ∧ b ≠ c%']' then
              .ok ([], createError .ExpectedOf (parseSpace r.1 r.2).2 (some b!"]") ((b :: t).length : Nat))
            else if b = c%',' then arrayLoopF c n t (parseSpace r.1 r.2).2
            else arrayLoopF c n (b :: t) (parseSpace r.1 r.2).2) ?_
      intro x
      refine ScanO.ite (fun _ => (closeWith_scan _ _).toO) fun _ => ?_
      refine ScanO.bind (g := fun e => parseValueF c n p e) (k := fun q e =>
          match (parseSpace q e).1 with
          | [] => .ok ([], createError .ExpectedOf (parseSpace q e).2 (some b!"]") 0)
          | b :: t =>
            if b ≠ c%',' ∧ b ≠ c%']' then
              .ok ([], createError .ExpectedOf (parseSpace q e).2 (some b!"]") ((b :: t).length : Nat))
            else if b = c%',' then arrayLoopF c n t (parseSpace q e).2
            else arrayLoopF c n (b :: t) (parseSpace q e).2) (ihv p (by omega)) ?_
      intro e r hr
      have h2 := (rec_shrinks c n).1 _ _ _ hr
      refine ScanAt.bindO (g := parseSpace r.1) (k := fun q e =>
          match q with
          | [] => .ok ([], createError .ExpectedOf e (some b!"]") 0)
          | b :: t =>
            if b ≠ c%',' ∧ b ≠ c%']' then
              .ok ([], createError .ExpectedOf e (some b!"]") ((b :: t).length : Nat))
            else if b = c%',' then arrayLoopF c n t e
            else arrayLoopF c n (b :: t) e) (parseSpace_scan _) ?_
      intro e
      have h3 := h2.of_le (parseSpace_length r.1 e)
      generalize (parseSpace r.1 e).1 = q at *
      cases q with
      | nil => exact ScanO.err _ _ _ _ _ (by decide) (by omega) (by omega)
      | cons b t =>
        have h4 := h3.cons
        simp only
        refine ScanO.ite (fun _ => ScanO.err _ _ _ _ _ (by decide) (by omega) (by omega)) fun _ => ?_
        refine ScanO.ite (fun _ => ScanO.mono (suffix_cons b t) (ihal _ ?_)) fun _ => ihal _ ?_
        · simp only [List.length_cons] at *; omega
        · omega

end Wjson
