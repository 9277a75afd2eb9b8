import Verif.Proofs.ScanRec
/-
The recursion budget never matters: more budget gives the same result, and the
API functions satisfy the recursion equations of the C++ functions.
-/
namespace Wjson

/-- `x'` agrees with `x` unless `x` ran out of budget. -/
def FLe {α : Type} (x x' : Out α) : Prop := x ≠ .fuel → x' = x

theorem FLe.refl {α : Type} (x : Out α) : FLe x x := fun _ => rfl

theorem FLe.ite {α : Type} {P : Prop} [Decidable P] {x y x' y' : Out α} (h1 : P → FLe x x') (h2 : ¬P → FLe y y') :
    FLe (if P then x else y) (if P then x' else y') := by
  by_cases h : P
  · simpa [h] using h1 h
  · simpa [h] using h2 h

theorem FLe.bind {α β : Type} {x x' : Out α} {f f' : α → Out β} (h1 : FLe x x') (h2 : ∀ a, FLe (f a) (f' a)) :
    FLe (x >>= f) (x' >>= f') := by
  intro h
  cases x with
  | ok a => rw [h1 (by simp)]; exact h2 a h
  | ub => rw [h1 (by simp)]; rfl
  | fuel => exact absurd rfl h

theorem Out.bind_congr {α β : Type} {x : Out α} {f g : α → Out β} (h : ∀ a, x = .ok a → f a = g a) :
    (x >>= f) = (x >>= g) := by
  cases x with
  | ok a => exact h a rfl
  | ub => rfl
  | fuel => rfl

theorem rec_mono (c : Cfg) (n : Nat) :
    (∀ s e, FLe (parseValueF c n s e) (parseValueF c (n+1) s e)) ∧
    (∀ s e, FLe (parseMemberF c n s e) (parseMemberF c (n+1) s e)) ∧
    (∀ s e, FLe (parseObjectF c n s e) (parseObjectF c (n+1) s e)) ∧
    (∀ s e, FLe (objectLoopF c n s e) (objectLoopF c (n+1) s e)) ∧
    (∀ s e, FLe (parseArrayF c n s e) (parseArrayF c (n+1) s e)) ∧
    (∀ s e, FLe (arrayLoopF c n s e) (arrayLoopF c (n+1) s e)) := by
  induction n with
  | zero => simp [FLe, parseValueF, parseMemberF, parseObjectF, objectLoopF, parseArrayF, arrayLoopF]
  | succ n ih =>
    obtain ⟨ihv, ihm, iho, ihol, iha, ihal⟩ := ih
    refine ⟨?_, ?_, ?_, ?_, ?_, ?_⟩ <;> intro s e
    · rw [parseValueF, parseValueF]
      refine FLe.ite (fun _ => FLe.refl _) fun _ => ?_
      refine FLe.ite (fun _ => FLe.refl _) fun _ => ?_
      refine FLe.ite (fun _ => FLe.refl _) fun _ => ?_
      refine FLe.ite (fun _ => FLe.refl _) fun _ => ?_
      refine FLe.ite (fun _ => iho _ _) fun _ => ?_
      refine FLe.ite (fun _ => iha _ _) fun _ => ?_
      exact FLe.refl _
    · rw [parseMemberF, parseMemberF]
      refine FLe.ite (fun _ => FLe.refl _) fun _ => ?_
      simp only
      split
      · exact FLe.refl _
      · split
        · exact FLe.refl _
        · refine FLe.ite (fun _ => FLe.refl _) fun _ => ?_
          split
          · exact FLe.refl _
          · split
            · exact FLe.refl _
            · exact ihv _ _
    · rw [parseObjectF, parseObjectF]
      refine FLe.ite (fun _ => FLe.refl _) fun _ => ?_
      exact FLe.ite (fun _ => FLe.refl _) fun _ => ihol _ _
    · rw [objectLoopF]
      conv => rhs; rw [objectLoopF]
      refine FLe.ite (fun _ => FLe.refl _) fun _ => ?_
      refine FLe.bind (FLe.refl _) fun x => ?_
      refine FLe.ite (fun _ => FLe.refl _) fun _ => ?_
      refine FLe.bind (ihm _ _) fun r => ?_
      simp only
      split
      · exact FLe.refl _
      · refine FLe.ite (fun _ => FLe.refl _) fun _ => ?_
        exact FLe.ite (fun _ => ihol _ _) fun _ => ihol _ _
    · rw [parseArrayF, parseArrayF]
      refine FLe.ite (fun _ => FLe.refl _) fun _ => ?_
      exact ihal _ _
    · rw [arrayLoopF]
      conv => rhs; rw [arrayLoopF]
      refine FLe.ite (fun _ => FLe.refl _) fun _ => ?_
      refine FLe.bind (FLe.refl _) fun x => ?_
      refine FLe.ite (fun _ => FLe.refl _) fun _ => ?_
      refine FLe.bind (ihv _ _) fun r => ?_
      simp only
      split
      · exact FLe.refl _
      · refine FLe.ite (fun _ => FLe.refl _) fun _ => ?_
        exact FLe.ite (fun _ => ihal _ _) fun _ => ihal _ _

theorem ScanO.ne_fuel {c : Cfg} {s : Bytes} {g : EPtr → Out (Bytes × EPtr)} (h : ScanO c s g) (e : EPtr) :
    g e ≠ .fuel := by
  rcases h with ⟨p, ev, h, _⟩ | ⟨h, _⟩ <;> simp [h]

private theorem stable {α : Type} {f : Nat → Out α} (hm : ∀ n, FLe (f n) (f (n+1))) {k : Nat} (hk : f k ≠ .fuel)
    {n : Nat} (h : k ≤ n) : f n = f k := by
  induction n with
  | zero => simp at h; subst h; rfl
  | succ n ih =>
    by_cases hkn : k = n + 1
    · subst hkn; rfl
    · have := ih (by omega)
      rw [hm n (by rw [this]; exact hk), this]

theorem parseValueF_eq (c : Cfg) (s : Bytes) (e : EPtr) {n : Nat} (h : 3 * s.length + 2 ≤ n) :
    parseValueF c n s e = parseValue c s e := by
  have h0 := ((rec_scan c (3 * s.length + 2)).1 s (Nat.le_refl _)).ne_fuel e
  have hm := fun n => (rec_mono c n).1 s e
  rw [parseValue, stable hm h0 h, stable hm h0 (n := fuelFor s) (by unfold fuelFor; omega)]

theorem parseMemberF_eq (c : Cfg) (s : Bytes) (e : EPtr) {n : Nat} (h : 3 * s.length + 2 ≤ n) :
    parseMemberF c n s e = parseMember c s e := by
  have h0 := ((rec_scan c (3 * s.length + 2)).2.1 s (Nat.le_refl _)).ne_fuel e
  have hm := fun n => (rec_mono c n).2.1 s e
  rw [parseMember, stable hm h0 h, stable hm h0 (n := fuelFor s) (by unfold fuelFor; omega)]

theorem parseObjectF_eq (c : Cfg) (s : Bytes) (e : EPtr) {n : Nat} (h : 3 * s.length + 1 ≤ n) :
    parseObjectF c n s e = parseObject c s e := by
  have h0 := ((rec_scan c (3 * s.length + 1)).2.2.1 s (Nat.le_refl _)).ne_fuel e
  have hm := fun n => (rec_mono c n).2.2.1 s e
  rw [parseObject, stable hm h0 h, stable hm h0 (n := fuelFor s) (by unfold fuelFor; omega)]

theorem parseArrayF_eq (c : Cfg) (s : Bytes) (e : EPtr) {n : Nat} (h : 3 * s.length + 1 ≤ n) :
    parseArrayF c n s e = parseArray c s e := by
  have h0 := ((rec_scan c (3 * s.length + 1)).2.2.2.2.1 s (Nat.le_refl _)).ne_fuel e
  have hm := fun n => (rec_mono c n).2.2.2.2.1 s e
  rw [parseArray, stable hm h0 h, stable hm h0 (n := fuelFor s) (by unfold fuelFor; omega)]

/-- The loop of `parse_object` with sufficient budget. -/
def objectLoop (c : Cfg) (s : Bytes) (e : EPtr) : Out (Bytes × EPtr) := objectLoopF c (fuelFor s) s e

/-- The loop of `parse_array` with sufficient budget. -/
def arrayLoop (c : Cfg) (s : Bytes) (e : EPtr) : Out (Bytes × EPtr) := arrayLoopF c (fuelFor s) s e

theorem objectLoopF_eq (c : Cfg) (s : Bytes) (e : EPtr) {n : Nat} (h : 3 * s.length + 3 ≤ n) :
    objectLoopF c n s e = objectLoop c s e := by
  have h0 := ((rec_scan c (3 * s.length + 3)).2.2.2.1 s (Nat.le_refl _)).ne_fuel e
  have hm := fun n => (rec_mono c n).2.2.2.1 s e
  rw [objectLoop, stable hm h0 h, stable hm h0 (n := fuelFor s) (by unfold fuelFor; omega)]

theorem arrayLoopF_eq (c : Cfg) (s : Bytes) (e : EPtr) {n : Nat} (h : 3 * s.length + 3 ≤ n) :
    arrayLoopF c n s e = arrayLoop c s e := by
  have h0 := ((rec_scan c (3 * s.length + 3)).2.2.2.2.2 s (Nat.le_refl _)).ne_fuel e
  have hm := fun n => (rec_mono c n).2.2.2.2.2 s e
  rw [arrayLoop, stable hm h0 h, stable hm h0 (n := fuelFor s) (by unfold fuelFor; omega)]

/-! ### Budget-free recursion equations -/

theorem parseValue_eq (c : Cfg) (s : Bytes) (e : EPtr) :
    parseValue c s e =
      if isNull s then .ok (parseNull s e)
      else if isBool s then .ok (parseBool s e)
      else if isNumber s then .ok (parseNumber s e)
      else if isString s then .ok (parseString s e)
      else if isObject s then parseObject c s e
      else if isArray s then parseArray c s e
      else .ok ([], createError .InvalidJSON e none (s.length : Nat)) := by
  rw [← parseObjectF_eq c s e (n := 3 * s.length + 3) (by omega),
    ← parseArrayF_eq c s e (n := 3 * s.length + 3) (by omega)]
  rfl

theorem parseMember_eq (c : Cfg) (s : Bytes) (e : EPtr) :
    parseMember c s e =
      if !isString s then .ok ([], createError .InvalidMember e none (s.length : Nat))
      else
        match (parseString s e).1 with
        | [] => .ok ([], createError .UnexpectedEndFragment (parseString s e).2)
        | b :: t =>
          match (parseSpace (b :: t) (parseString s e).2).1 with
          | [] => .ok ([], createError .UnexpectedEndFragment (parseSpace (b :: t) (parseString s e).2).2)
          | b' :: t' =>
            if b' ≠ c%':' then
              .ok ([], createError .ExpectedOf (parseSpace (b :: t) (parseString s e).2).2 (some b!":")
                (t'.length : Nat))
            else
              match t' with
              | [] => .ok ([], createError .UnexpectedEndFragment (parseSpace (b :: t) (parseString s e).2).2)
              | b2 :: t2 =>
                match (parseSpace (b2 :: t2) (parseSpace (b :: t) (parseString s e).2).2).1 with
                | [] => .ok ([], createError .UnexpectedEndFragment
                    (parseSpace (b2 :: t2) (parseSpace (b :: t) (parseString s e).2).2).2)
                | b3 :: t3 =>
                  parseValue c (b3 :: t3) (parseSpace (b2 :: t2) (parseSpace (b :: t) (parseString s e).2).2).2 := by
  by_cases hs : isString s = true
  · have hne : s ≠ [] := by intro h0; simp [h0, isString] at hs
    have hl := parseString_length_lt hne e
    rw [← parseMemberF_eq c s e (n := 3 * s.length + 4) (by omega), parseMemberF]
    simp only [hs, Bool.not_true, Bool.false_eq_true, if_false]
    generalize parseString s e = p at *
    obtain ⟨p, e1⟩ := p
    cases p with
    | nil => rfl
    | cons b t =>
      simp only at *
      have h2 := parseSpace_length (b :: t) e1
      generalize parseSpace (b :: t) e1 = p at *
      obtain ⟨p, e2⟩ := p
      cases p with
      | nil => rfl
      | cons b' t' =>
        refine ite_congr rfl (fun _ => rfl) fun _ => ?_
        cases t' with
        | nil => rfl
        | cons b2 t2 =>
          simp only at *
          have h3 := parseSpace_length (b2 :: t2) e2
          generalize parseSpace (b2 :: t2) e2 = p at *
          obtain ⟨p, e3⟩ := p
          cases p with
          | nil => rfl
          | cons b3 t3 =>
            refine parseValueF_eq _ _ _ ?_
            simp only [List.length_cons] at *
            omega
  · rw [parseMember, fuelFor, parseMemberF]
    simp [hs]

theorem parseObject_eq (c : Cfg) (s : Bytes) (e : EPtr) :
    parseObject c s e =
      if !isObject s then .ok ([], createError .ExpectedOf e (some b!"{") (s.length : Nat))
      else if (parseSpace s.tail e).1.head? = some c%']' then
        .ok ((parseSpace s.tail e).1.tail, (parseSpace s.tail e).2)
      else objectLoop c (parseSpace s.tail e).1 (parseSpace s.tail e).2 := by
  have h1 := parseSpace_length s.tail e
  rw [List.length_tail] at h1
  rw [← objectLoopF_eq c _ _ (n := 3 * s.length + 3) (by omega)]
  rfl

theorem objectLoop_eq (c : Cfg) (s : Bytes) (e : EPtr) :
    objectLoop c s e =
      if s = [] ∨ s.head? = some c%'}' then .ok (closeWith c%'}' s e)
      else
        deref c (parseSpace s e).1 >>= fun x =>
        if x = c%'}' then .ok (closeWith c%'}' (parseSpace s e).1 (parseSpace s e).2)
        else
          parseMember c (parseSpace s e).1 (parseSpace s e).2 >>= fun r =>
          match (parseSpace r.1 r.2).1 with
          | [] => .ok ([], createError .ExpectedOf (parseSpace r.1 r.2).2 (some b!"}") 0)
          | b :: t =>
            if b ≠ c%',' ∧ b ≠ c%'}' then
              .ok ([], createError .ExpectedOf (parseSpace r.1 r.2).2 (some b!"}") ((b :: t).length : Nat))
            else if b = c%',' then objectLoop c t (parseSpace r.1 r.2).2
            else objectLoop c (b :: t) (parseSpace r.1 r.2).2 := by
  rw [objectLoop, fuelFor, objectLoopF]
  have h1 := parseSpace_length s e
  refine ite_congr rfl (fun _ => rfl) fun _ => ?_
  refine Out.bind_congr fun x _ => ?_
  refine ite_congr rfl (fun _ => rfl) fun _ => ?_
  rw [parseMemberF_eq _ _ _ (by omega)]
  refine Out.bind_congr fun r hr => ?_
  have h2 := ((rec_shrinks c _).2.1 _ _ _ hr).of_le (parseSpace_length r.1 r.2)
  simp only
  generalize parseSpace r.1 r.2 = p at *
  obtain ⟨p, e2⟩ := p
  cases p with
  | nil => rfl
  | cons b t =>
      have := h2.cons
      simp only [List.length_cons] at this
      refine ite_congr rfl (fun _ => rfl) fun _ => ?_
      refine ite_congr rfl (fun _ => ?_) fun _ => ?_ <;> refine objectLoopF_eq _ _ _ ?_
      · omega
      · simp only [List.length_cons]; omega

theorem parseArray_eq (c : Cfg) (s : Bytes) (e : EPtr) :
    parseArray c s e =
      if !isArray s then .ok ([], createError .ExpectedOf e (some b!"[") (s.length : Nat))
      else arrayLoop c s.tail e := by
  by_cases hs : isArray s = true
  · have hne := isArray_ne_nil hs
    cases s with
    | nil => exact absurd rfl hne
    | cons b t =>
      rw [← arrayLoopF_eq c _ _ (n := 3 * (b :: t).length + 3) (by simp; omega)]
      rfl
  · rw [parseArray, fuelFor, parseArrayF]
    simp [hs]

theorem arrayLoop_eq (c : Cfg) (s : Bytes) (e : EPtr) :
    arrayLoop c s e =
      if s = [] ∨ s.head? = some c%']' then .ok (closeWith c%']' s e)
      else
        deref c (parseSpace s e).1 >>= fun x =>
        if x = c%']' then .ok (closeWith c%']' (parseSpace s e).1 (parseSpace s e).2)
        else
          parseValue c (parseSpace s e).1 (parseSpace s e).2 >>= fun r =>
          match (parseSpace r.1 r.2).1 with
          | [] => .ok ([], createError .ExpectedOf (parseSpace r.1 r.2).2 (some b!"]") 0)
          | b :: t =>
            if b ≠ c%',' ∧ b ≠ c%']' then
              .ok ([], createError .ExpectedOf (parseSpace r.1 r.2).2 (some b!"]") ((b :: t).length : Nat))
            else if b = c%',' then arrayLoop c t (parseSpace r.1 r.2).2
            else arrayLoop c (b :: t) (parseSpace r.1 r.2).2 := by
  rw [arrayLoop, fuelFor, arrayLoopF]
  have h1 := parseSpace_length s e
  refine ite_congr rfl (fun _ => rfl) fun _ => ?_
  refine Out.bind_congr fun x _ => ?_
  refine ite_congr rfl (fun _ => rfl) fun _ => ?_
  rw [parseValueF_eq _ _ _ (by omega)]
  refine Out.bind_congr fun r hr => ?_
  have h2 := ((rec_shrinks c _).1 _ _ _ hr).of_le (parseSpace_length r.1 r.2)
  simp only
  generalize parseSpace r.1 r.2 = p at *
  obtain ⟨p, e2⟩ := p
  cases p with
  | nil => rfl
  | cons b t =>
      have := h2.cons
      simp only [List.length_cons] at this
      refine ite_congr rfl (fun _ => rfl) fun _ => ?_
      refine ite_congr rfl (fun _ => ?_) fun _ => ?_ <;> refine arrayLoopF_eq _ _ _ ?_
      · omega
      · simp only [List.length_cons]; omega

/-! ### Shape and progress of the API functions -/

theorem parseValue_scan (c : Cfg) (s : Bytes) : ScanO c s (fun e => parseValue c s e) :=
  (rec_scan c _).1 s (by unfold fuelFor; omega)

theorem parseMember_scan (c : Cfg) (s : Bytes) : ScanO c s (fun e => parseMember c s e) :=
  (rec_scan c _).2.1 s (by unfold fuelFor; omega)

theorem parseObject_scan (c : Cfg) (s : Bytes) : ScanO c s (fun e => parseObject c s e) :=
  (rec_scan c _).2.2.1 s (by unfold fuelFor; omega)

theorem objectLoop_scan (c : Cfg) (s : Bytes) : ScanO c s (fun e => objectLoop c s e) :=
  (rec_scan c _).2.2.2.1 s (by unfold fuelFor; omega)

theorem parseArray_scan (c : Cfg) (s : Bytes) : ScanO c s (fun e => parseArray c s e) :=
  (rec_scan c _).2.2.2.2.1 s (by unfold fuelFor; omega)

theorem arrayLoop_scan (c : Cfg) (s : Bytes) : ScanO c s (fun e => arrayLoop c s e) :=
  (rec_scan c _).2.2.2.2.2 s (by unfold fuelFor; omega)

theorem parseValue_shrinks {c : Cfg} {s : Bytes} {e : EPtr} {r : Bytes × EPtr} (h : parseValue c s e = .ok r) :
    Shrinks s r.1 := (rec_shrinks c _).1 _ _ _ h

theorem parseMember_shrinks {c : Cfg} {s : Bytes} {e : EPtr} {r : Bytes × EPtr} (h : parseMember c s e = .ok r) :
    Shrinks s r.1 := (rec_shrinks c _).2.1 _ _ _ h

end Wjson
