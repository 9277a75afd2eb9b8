import Verif.Spec.Frames
import Verif.Proofs.Depth
import Verif.Proofs.Calls
import Verif.Proofs.Described
import Verif.Proofs.Memory
import Verif.Proofs.Exact
/-
Lemmas for C81.
-/
namespace Wjson
open Spec

/-- Equal, or (if `B` holds) the left one is a stack overflow. -/
def FLeB {α : Type} (B : Prop) (x x' : Out α) : Prop := (B ∧ x = .fuel) ∨ x = x'

theorem FLeB.refl {α : Type} {B : Prop} (x : Out α) : FLeB B x x := .inr rfl

theorem FLeB.bind {α β : Type} {B : Prop} {x x' : Out α} {f f' : α → Out β} (h1 : FLeB B x x')
    (h2 : ∀ a, x' = .ok a → FLeB B (f a) (f' a)) : FLeB B (x >>= f) (x' >>= f') := by
  rcases h1 with ⟨hb, rfl⟩ | rfl
  · exact .inl ⟨hb, rfl⟩
  · cases x with
    | ok a => exact h2 a rfl
    | ub => exact .inr rfl
    | fuel => exact .inr rfl

theorem FLeB.ite {α : Type} {B P : Prop} [Decidable P] {x y x' y' : Out α} (h1 : P → FLeB B x x') (h2 : ¬P → FLeB B y y') :
    FLeB B (if P then x else y) (if P then x' else y') := by
  by_cases h : P
  · simpa [h] using h1 h
  · simpa [h] using h2 h

theorem FLeB.of_le {α : Type} {B : Prop} {x x' : Out α} (h : FLe x x') (hb : ¬B → x ≠ .fuel) : FLeB B x x' := by
  by_cases hx : x = .fuel
  · exact .inl ⟨Classical.not_not.mp fun h => hb h hx, hx⟩
  · exact .inr (h hx).symm

/-- The reader `D` on texts of at most `n` bytes. -/
def Near {α : Type} (B : Prop) (n : Nat) (D D' : De α) : Prop := ∀ v s e, s.length ≤ n → FLeB B (D v s e) (D' v s e)

theorem Near.less {α : Type} {B : Prop} {n m : Nat} {D D' : De α} (h : Near B n D D') (hm : m ≤ n) : Near B m D D' :=
  fun v s e hs => h v s e (Nat.le_trans hs hm)

/-- The same for the functions of the validator. -/
def NearV (B : Prop) (n : Nat) (p p' : Bytes → EPtr → Out (Bytes × EPtr)) : Prop := ∀ s e, s.length ≤ n → FLeB B (p s e) (p' s e)

section
variable {c : Cfg} {α C : Type} {B : Prop} {n : Nat}

theorem valueD_near {k : Nat} (h : B ∨ n < k) : NearV B n (valueD c k) (parseValue c) := by
  intro s e hs
  refine .of_le (valueD_le k s e) fun hb => valueD_enough k s e ?_
  have h : n < k := h.resolve_left hb
  have : opens s ≤ s.length := List.countP_le_length
  omega

theorem memberD_near {k : Nat} (h : B ∨ n < k) : NearV B n (memberD (valueD c k)) (parseMember c) := by
  intro s e hs
  rw [← memberD_parseValue]
  refine .of_le (memberD_le (fun s e => valueD_le k s e) s e) fun hb => ?_
  have h : n < k := h.resolve_left hb
  have : opens s ≤ s.length := List.countP_le_length
  exact memberD_enough (K := opens s) (fun s' e' h' => valueD_enough k s' e' (by omega)) s e (Nat.le_refl _)

theorem seqLoopF_near {S : Ser α} {K : Coll α C} {R : Byte} {D : De α} (hS : Safe True S.de) (h : Near B n D S.de) (m : Nat) :
    ∀ (t : C) (s : Bytes) (e : EPtr), s.length ≤ n →
      FLeB B (seqLoopF K (S.withReader D) R m t s e) (seqLoopF K S R m t s e) := by
  induction m with
  | zero => intro t s e _; exact .refl _
  | succ m ih =>
    intro t s e hs
    cases s with
    | nil => exact .refl _
    | cons b0 s0 =>
      unfold seqLoopF
      cases hp1 : parseSpace (b0 :: s0) e with
      | mk p1 e1 =>
      have l1 := ((parseSpace_scan (b0 :: s0)).suffix e).length_le
      rw [hp1] at l1
      cases p1 with
      | nil => exact .refl _
      | cons b q =>
        refine .ite (fun _ => .refl _) fun _ => ?_
        refine .bind (h _ _ _ (Nat.le_trans l1 hs)) ?_
        rintro ⟨x, p2, e2⟩ hd
        have l2 := (hS.step hd).1.length_le
        have l3 := ((parseSpace_scan p2).suffix e2).length_le
        simp only
        cases hp3 : parseSpace p2 e2 with
        | mk p3 e3 =>
        rw [hp3] at l3
        cases p3 with
        | nil => exact .refl _
        | cons b3 q3 =>
          refine .ite (fun _ => .refl _) fun _ => .ite (fun _ => .refl _) fun _ => ?_
          refine ih _ _ _ ?_
          simp only [List.length_cons] at l1 l2 l3 hs
          omega

theorem deSeq_near {S : Ser α} {K : Coll α C} {L R : Byte} {D : De α} (hS : Safe True S.de) (h : Near B n D S.de) :
    Near B n (deSeq K (S.withReader D) L R) (deSeq K S L R) := by
  intro v s e hs
  unfold deSeq
  refine .ite (fun _ => .refl _) fun _ => ?_
  cases s with
  | nil => exact .refl _
  | cons b t =>
    refine .ite (fun _ => .refl _) fun _ => ?_
    exact seqLoopF_near hS h _ _ _ _ (by simp only [List.length_cons] at hs; omega)

theorem fixNull_near {S : Ser α} {D : De α} (h : Near B n D S.de) {s : Bytes} (hs : s.length ≤ n) (t : List α) :
    ∀ e, FLeB B (fixNull (S.withReader D) s t e) (fixNull S s t e) := by
  induction t with
  | nil => intro e; exact .refl _
  | cons v vs ih =>
    intro e
    refine .bind (h v s e hs) fun d _ => ?_
    exact .bind (ih _) fun r _ => .refl _

theorem fixLoop_near {S : Ser α} {kind : FixKind} {R : Byte} {D : De α} (hS : Safe True S.de) (h : Near B n D S.de) (t : List α) :
    ∀ (s : Bytes) (e : EPtr), s.length ≤ n → FLeB B (fixLoop kind (S.withReader D) R t s e) (fixLoop kind S R t s e) := by
  induction t with
  | nil => intro s e _; exact .refl _
  | cons v vs ih =>
    intro s e hs
    cases s with
    | nil => exact .refl _
    | cons b0 s0 =>
      unfold fixLoop
      cases hp1 : parseSpace (b0 :: s0) e with
      | mk p1 e1 =>
      have l1 := ((parseSpace_scan (b0 :: s0)).suffix e).length_le
      rw [hp1] at l1
      cases p1 with
      | nil => exact .refl _
      | cons b q =>
        refine .ite (fun _ => .refl _) fun _ => ?_
        refine .bind (x' := S.de (kind.start S v) (b :: q) e1) ?_ ?_
        · have : kind.start (S.withReader D) v = kind.start S v := by cases kind <;> rfl
          rw [this]
          exact h _ _ _ (Nat.le_trans l1 hs)
        rintro ⟨x, p2, e2⟩ hd
        have l2 := (hS.step hd).1.length_le
        have l3 := ((parseSpace_scan p2).suffix e2).length_le
        simp only
        cases hp3 : parseSpace p2 e2 with
        | mk p3 e3 =>
        rw [hp3] at l3
        cases p3 with
        | nil => exact .refl _
        | cons b3 q3 =>
          refine .ite (fun _ => .refl _) fun _ => .ite (fun _ => .refl _) fun _ => ?_
          refine .bind (ih _ _ ?_) fun _ _ => .refl _
          simp only [List.length_cons] at l1 l2 l3 hs
          omega

theorem deFix_near {S : Ser α} {kind : FixKind} {L R : Byte} {D : De α} (hS : Safe True S.de) (h : Near B n D S.de) :
    Near B n (deFix kind (S.withReader D) L R) (deFix kind S L R) := by
  intro v s e hs
  unfold deFix
  refine .ite (fun _ => .bind (fixNull_near h hs v e) fun _ _ => .refl _) fun _ => ?_
  cases s with
  | nil => exact .refl _
  | cons b t =>
    refine .ite (fun _ => .refl _) fun _ => ?_
    exact fixLoop_near hS h _ _ _ (by simp only [List.length_cons] at hs; omega)

theorem deField_near {κ ν : Type} {SK : Ser κ} {SV : Ser ν} {DK : De κ} {DV : De ν} (hS : Safe True SK.de) (hK : Near B n DK SK.de)
    (hV : Near B n DV SV.de) : Near B n (deField (SK.withReader DK) (SV.withReader DV)) (deField SK SV) := by
  intro v s e hs
  unfold deField
  refine .bind (hK _ _ _ hs) ?_
  rintro ⟨x, p, e1⟩ hd
  have l1 := (hS.step hd).1.length_le
  have l2 := ((parseSpace_scan p).suffix e1).length_le
  simp only
  cases hp2 : parseSpace p e1 with
  | mk p2 e2 =>
  rw [hp2] at l2
  cases p2 with
  | nil => exact .refl _
  | cons b q =>
    refine .ite (fun _ => .refl _) fun _ => ?_
    have l3 := ((parseSpace_scan q).suffix e2).length_le
    simp only
    cases hp3 : parseSpace q e2 with
    | mk p3 e3 =>
    rw [hp3] at l3
    cases p3 with
    | nil => exact .refl _
    | cons b3 q3 =>
      refine .bind (hV _ _ _ ?_) fun _ _ => .refl _
      simp only [List.length_cons] at l1 l2 l3 hs ⊢
      omega

theorem dePointer_near {S : Ser α} {D : De α} (h : Near B n D S.de) : Near B n (dePointer (S.withReader D)) (dePointer S) := by
  intro v s e hs
  cases s with
  | nil => exact .refl _
  | cons b t => exact .ite (fun _ => .bind (h _ _ _ hs) fun _ _ => .refl _) fun _ => .refl _

theorem deQuotedStr_near {S : Ser α} {D : De α} (h : Near B n D S.de) : Near B n (deQuotedStr (S.withReader D)) (deQuotedStr S) := by
  intro v s e hs
  unfold deQuotedStr
  refine .bind (.refl _) fun r hr => ?_
  refine .ite (fun _ => .refl _) fun _ => ?_
  have := deStr_size (v := []) hr
  exact .bind (h _ _ _ (by omega)) fun _ _ => .refl _

theorem deQuoted_near {S : Ser α} {D : De α} (h : Near B n D S.de) (reqQ : Bool) :
    Near B n (deQuoted (S.withReader D) reqQ) (deQuoted S reqQ) := by
  intro v s e hs
  unfold deQuoted
  exact .ite (fun _ => deQuotedStr_near h v s e hs) fun _ => .ite (fun _ => deQuotedStr_near h v s e hs) fun _ => h v s e hs

theorem memberValue_near {τ : Type} {S : Ser α} {D : De α} (h : Near B n D S.de) (dflt : τ) (get : τ → α) (set : α → τ → τ) :
    Near B n (memberValueSer dflt get set (S.withReader D)).de (memberValueSer dflt get set S).de :=
  fun _ s e hs => .bind (h _ s e hs) fun _ _ => .refl _

theorem deRaw_near {pv : Bytes → EPtr → Out (Bytes × EPtr)} (h : NearV B n pv (parseValue c)) : Near B n (deRawT pv) (rawSer c).de :=
  fun _ s e hs => .bind (h s e hs) fun _ _ => .refl _

theorem deRawQuoted_near {pv : Bytes → EPtr → Out (Bytes × EPtr)} (h : NearV B n pv (parseValue c)) (serQ reqQ : Bool) :
    Near B n (deRawQuotedT pv reqQ) (rawQuotedSer c serQ reqQ).de := by
  intro v s e hs
  cases s with
  | nil => exact .refl _
  | cons b t =>
    refine .ite (fun _ => .refl _) fun _ => .bind (h _ _ ?_) fun _ _ => .refl _
    simp only [List.length_cons] at hs
    cases reqQ
    · simpa using hs
    · simp only [if_true]; omega

end

/-! ### Members -/

section
variable {c : Cfg} {τ : Type} {B : Prop} {n : Nat}

/-- The same for a member of an object. -/
def MNear (B : Prop) (n : Nat) (m m' : Member τ) : Prop := ∀ t s e u, s.length ≤ n → FLeB B (m.de t s e u) (m'.de t s e u)

theorem deMember_near {m : MRef τ} {D : De m.α} (h : Near B n D m.ser.de) : MNear B n (member (m.withReader D)) (member m) := by
  intro t s e u hs
  refine FLeB.ite (fun _ => .refl _) fun _ => ?_
  exact .bind (h _ _ _ (Nat.le_trans (memberName_length _ _ _ _) hs)) fun _ _ => .refl _

theorem deMemberP_near {m : MRef τ} {D : De m.α} (h : Near B n D m.ser.de) : MNear B n (memberP (m.withReader D)) (memberP m) := by
  intro t s e u hs
  refine FLeB.ite (fun _ => .refl _) fun _ => ?_
  exact .bind (h _ _ _ (Nat.le_trans (memberName_length _ _ _ _) hs)) fun _ _ => .refl _

theorem readNull_near {m : MRef τ} {D : De m.α} (h : Near B n D m.ser.de) (hn : 4 ≤ n) (t : τ) :
    FLeB B (readNull (m.withReader D) t) (readNull m t) :=
  .bind (h _ _ _ hn) fun _ _ => .refl _

theorem deMemberIf_near {a b : MRef τ} {Da : De a.α} {Db : De b.α} (ha : Near B n Da a.ser.de) (hb : Near B n Db b.ser.de) (hn : 4 ≤ n)
    (t : τ) (s : Bytes) (e : EPtr) (u : Bool) (hs : s.length ≤ n) :
    FLeB B (deMemberIf (a.withReader Da) (b.withReader Db) t s e u) (deMemberIf a b t s e u) := by
  refine .bind (deMember_near ha t s .fresh u hs) fun d _ => ?_
  refine .ite (fun _ => .bind (readNull_near hb hn _) fun _ _ => .refl _) fun _ => ?_
  exact .bind (readNull_near ha hn _) fun t _ => deMember_near hb t s e _ hs

theorem memberIf_near {l r : MRef τ} {Dl : De l.α} {Dr : De r.α} (hl : Near B n Dl l.ser.de) (hr : Near B n Dr r.ser.de) (hn : 4 ≤ n)
    (isDflt : l.α → Bool) (RU : Bool) : MNear B n (memberIf (l.withReader Dl) (r.withReader Dr) isDflt RU) (memberIf l r isDflt RU) := by
  intro t s e u hs
  cases RU with
  | true => exact deMemberIf_near hr hl hn t s e u hs
  | false => exact deMemberIf_near hl hr hn t s e u hs

theorem searchMembers_near {ι : Type} {is : List ι} {F F' : ι → Member τ} {pm : Bytes → EPtr → Out (Bytes × EPtr)} {strict : Bool}
    (hs : ∀ i ∈ is, MSafe True (F i)) (h : ∀ i ∈ is, MNear B n (F' i) (F i)) (hp : NearV B n pm (parseMember c)) (t : τ) (s : Bytes)
    (e : EPtr) (hn : s.length ≤ n) : FLeB B (searchMembersT pm strict (is.map F') t s e) (searchMembers c strict (is.map F) t s e) := by
  induction is generalizing t s e with
  | nil =>
    simp only [List.map_nil, searchMembersT, searchMembers]
    exact .ite (fun _ => .bind (hp s e hn) fun _ _ => .refl _) fun _ => .refl _
  | cons i is ih =>
    refine .bind (h i (by simp) t s e false hn) ?_
    rintro ⟨t', p, e', u'⟩ hd
    have l1 : p.length ≤ s.length := by
      rcases hs i (by simp) t s e false with ⟨h1, _⟩ | ⟨t1, p1, e1, u1, h1, h2, _⟩
      · rw [h1] at hd; cases hd
      · rw [h1] at hd; cases hd; exact h2.length_le
    refine .ite (fun _ => .refl _) fun _ => ?_
    exact ih (fun j hj => hs j (by simp [hj])) (fun j hj => h j (by simp [hj])) _ _ _ (by simp only; omega)

theorem skipLoop_near {pm : Bytes → EPtr → Out (Bytes × EPtr)} {strict : Bool} (hp : NearV B n pm (parseMember c)) (m : Nat) :
    ∀ (s : Bytes) (e : EPtr), s.length ≤ n → FLeB B (skipLoopT pm strict m s e) (skipLoopF c strict m s e) := by
  induction m with
  | zero => intro s e _; exact .refl _
  | succ m ih =>
    intro s e hs
    refine .bind (hp s e hs) ?_
    rintro ⟨p, e1⟩ hd
    have l1 : p.length ≤ s.length := by
      rcases parseMember_safe (c := c) s e with ⟨h1, _⟩ | ⟨p1, e2, h1, h2, _⟩
      · rw [h1] at hd; cases hd
      · rw [h1] at hd; cases hd; exact h2.length_le
    have l2 := ((parseSpace_scan p).suffix e1).length_le
    simp only
    cases hp2 : parseSpace p e1 with
    | mk p2 e2 =>
    rw [hp2] at l2
    cases p2 with
    | nil => exact .refl _
    | cons b q =>
      refine .ite (fun _ => .refl _) fun _ => .ite (fun _ => .refl _) fun _ => ?_
      have l3 := ((parseSpace_scan q).suffix e2).length_le
      refine ih _ _ ?_
      simp only [List.length_cons] at l2 ⊢
      omega

theorem skipMembers_near {pm : Bytes → EPtr → Out (Bytes × EPtr)} {strict : Bool} (hp : NearV B n pm (parseMember c)) (s : Bytes)
    (e : EPtr) (hs : s.length ≤ n) : FLeB B (skipMembersT pm strict s e) (skipMembers c strict s e) := by
  unfold skipMembersT skipMembers
  have l1 := ((parseSpace_scan s).suffix e).length_le
  simp only
  cases hp1 : parseSpace s e with
  | mk p e1 =>
  rw [hp1] at l1
  cases p with
  | nil => exact .refl _
  | cons b q => exact .ite (fun _ => .refl _) fun _ => skipLoop_near hp _ _ _ (Nat.le_trans l1 hs)

theorem membersT_near {ι : Type} {is : List ι} {F : ι → Member τ} {M : ι → Nat → Member τ} {strict : Bool} {h : Nat}
    (hs : ∀ i ∈ is, MSafe True (F i)) (hM : ∀ i ∈ is, ∀ k n, B ∨ h + n < k → MNear B n (M i k) (F i)) (k : Nat) :
    ∀ (j : Nat) (t : τ) (s : Bytes) (e : EPtr) (m : Nat), (k ≤ m ∨ s.length < m) → (B ∨ h + 1 + s.length < k) →
      FLeB B (membersT c strict (fun k => is.map fun i => M i k) k j t s e)
        (membersF c strict (is.map F) m ((is.map F).drop j) t s e) := by
  induction k with
  | zero =>
    intro j t s e m _ hk
    exact .inl ⟨hk.resolve_right (by omega), rfl⟩
  | succ k ih =>
    intro j t s e m hm hk
    cases m with
    | zero => omega
    | succ m =>
    have hk' : B ∨ h + s.length < k := hk.imp id fun h => by omega
    have hp : NearV B s.length (memberD (valueD c k)) (parseMember c) := memberD_near (hk'.imp id fun h => by omega)
    rw [membersT]
    rw [← List.map_drop, ← List.map_drop]
    cases hd : is.drop j with
    | nil =>
      simp only [List.map_nil]
      rw [membersF]
      exact .bind (skipMembers_near hp s e (Nat.le_refl _)) fun _ _ => .refl _
    | cons i l =>
      have hi : i ∈ is := List.mem_of_mem_drop (by rw [hd]; simp)
      simp only [List.map_cons]
      rw [membersF]
      refine .bind (hM i hi k _ hk' t s e false (Nat.le_refl _)) ?_
      rintro ⟨t1, p1, e1, u1⟩ h1
      have l1 : p1.length ≤ s.length := by
        rcases hs i hi t s e false with ⟨g, _⟩ | ⟨_, _, _, _, g, g2, _⟩
        · rw [g] at h1; cases h1
        · rw [g] at h1; cases h1; exact g2.length_le
      simp only
      refine FLeB.bind (B := B) (FLeB.ite (fun _ => .refl _) fun _ => searchMembers_near hs (fun i hi => hM i hi k s.length hk') hp _ _ _ l1) ?_
      rintro ⟨t2, p2, e2⟩ h2
      have l2 : p2.length ≤ p1.length := by
        by_cases hu : u1 = true
        · rw [if_pos hu] at h2; cases h2; exact Nat.le_refl _
        · rw [if_neg hu] at h2
          exact (SafeOut.step (searchMembers_safe (U := True) (fun _ => trivial) (by
            intro m hm
            obtain ⟨i, hi, rfl⟩ := List.mem_map.mp hm
            exact hs i hi) _ _ _) h2).1.length_le
      have l3 := ((parseSpace_scan p2).suffix e2).length_le
      simp only
      cases hp3 : parseSpace p2 e2 with
      | mk p3 e3 =>
      rw [hp3] at l3
      cases p3 with
      | nil => exact .refl _
      | cons b q =>
        refine .ite (fun _ => ?_) fun _ => .refl _
        have l4 := ((parseSpace_scan q).suffix e3).length_le
        simp only [List.length_cons] at l3
        have hrec := ih (if u1 = true then j + 1 else j) t2 (parseSpace q e3).1 (parseSpace q e3).2 m (by omega)
          (hk'.imp id fun h => by omega)
        have hl : (is.map F).drop (if u1 = true then j + 1 else j) = if u1 = true then l.map F else F i :: l.map F := by
          split
          · rw [← List.map_drop, ← List.drop_drop, hd]; simp
          · rw [← List.map_drop, hd]; simp
        rw [hl] at hrec
        exact .bind hrec fun _ _ => .refl _

theorem deObject_near {ι : Type} {is : List ι} {F : ι → Member τ} {M : ι → Nat → Member τ} {strict : Bool} {h k : Nat} (dflt : τ)
    (hs : ∀ i ∈ is, MSafe True (F i)) (hM : ∀ i ∈ is, ∀ k n, B ∨ h + n < k → MNear B n (M i k) (F i)) (hk : B ∨ h + 1 + n < k) :
    Near B n (deObjectT c strict dflt (fun k => is.map fun i => M i k) k) (deObject c strict dflt (is.map F)) := by
  intro t s e hn
  unfold deObjectT deObject
  refine .ite (fun _ => .refl _) fun _ => ?_
  cases s with
  | nil => exact .refl _
  | cons b p =>
    refine .ite (fun _ => .refl _) fun _ => ?_
    unfold objectBodyT objectBody
    have l1 := ((parseSpace_scan p).suffix e).length_le
    simp only
    cases hp1 : parseSpace p e with
    | mk p1 e1 =>
    rw [hp1] at l1
    cases p1 with
    | nil => exact .refl _
    | cons b1 q =>
      refine .ite (fun _ => ?_) fun _ => .refl _
      simp only [List.length_cons] at l1 hn
      have := membersT_near (c := c) (strict := strict) hs hM k 0 t (b1 :: q) e1 (q.length + 2) (.inr (by simp))
        (hk.imp id fun h => by simp only [List.length_cons]; omega)
      rw [List.drop_zero] at this
      exact .bind this fun _ _ => .refl _

/-- The calls of `unserialize_members` alone already need as much. -/
theorem deObjectT_calls {ι : Type} {is : List ι} {F : ι → Member τ} {M : ι → Nat → Member τ} {strict : Bool} (dflt : τ)
    (hs : ∀ i ∈ is, MSafe True (F i)) (hM : ∀ i ∈ is, ∀ k n, MNear True n (M i k) (F i)) (k : Nat) (t : τ) (s : Bytes) (e : EPtr) :
    FLeB True (deObjectT c strict dflt (fun k => is.map fun i => M i k) k t s e) (deObjectD c k strict dflt (is.map F) t s e) := by
  unfold deObjectT deObjectD
  refine .ite (fun _ => .refl _) fun _ => ?_
  cases s with
  | nil => exact .refl _
  | cons b p =>
    refine .ite (fun _ => .refl _) fun _ => ?_
    unfold objectBodyT objectBodyD
    simp only
    cases hp1 : parseSpace p e with
    | mk p1 e1 =>
    cases p1 with
    | nil => exact .refl _
    | cons b1 q =>
      refine .ite (fun _ => ?_) fun _ => .refl _
      have := membersT_near (c := c) (strict := strict) (h := 0) hs (fun i hi k n _ => hM i hi k n) k 0 t (b1 :: q) e1 k
        (.inl (Nat.le_refl _)) (.inl trivial)
      rw [List.drop_zero] at this
      exact .bind this fun _ _ => .refl _

/-! ### Structures written as arrays -/

theorem amember_near {m : MRef τ} {D : De m.α} (h : Near B n D m.ser.de) : Near B n (amember (m.withReader D)).de (amember m).de :=
  fun _ s e hs => .bind (h _ s e hs) fun _ _ => .refl _

theorem amemberP_near {m : MRef τ} {D : De m.α} (h : Near B n D m.ser.de) : Near B n (amemberP (m.withReader D)).de (amemberP m).de :=
  fun _ s e hs => .bind (h _ s e hs) fun _ _ => .refl _

theorem deAMemberIf_near {a b : MRef τ} {Da : De a.α} {Db : De b.α} (ha : Near B n Da a.ser.de) (hb : Near B n Db b.ser.de) (hn : 4 ≤ n) :
    Near B n (deAMemberIf (a.withReader Da) (b.withReader Db)) (deAMemberIf a b) := by
  intro t s e hs
  refine .bind (amember_near ha t s .fresh hs) fun d _ => ?_
  refine .ite (fun _ => .bind (readNull_near hb hn _) fun _ _ => .refl _) fun _ => ?_
  exact .bind (readNull_near ha hn _) fun t _ => amember_near hb t s e hs

theorem amemberIf_near {l r : MRef τ} {Dl : De l.α} {Dr : De r.α} (hl : Near B n Dl l.ser.de) (hr : Near B n Dr r.ser.de) (hn : 4 ≤ n)
    (isDflt : l.α → Bool) (RU : Bool) :
    Near B n (amemberIf (l.withReader Dl) (r.withReader Dr) isDflt RU).de (amemberIf l r isDflt RU).de := by
  cases RU with
  | true => exact deAMemberIf_near hr hl hn
  | false => exact deAMemberIf_near hl hr hn

theorem deAMembers_near {ι : Type} {is : List ι} {F F' : ι → AMember τ} (hs : ∀ i ∈ is, Safe True (F i).de)
    (h : ∀ i ∈ is, Near B n (F' i).de (F i).de) : Near B n (deAMembers (is.map F')) (deAMembers (is.map F)) := by
  induction is with
  | nil => intro t s e _; exact .refl _
  | cons i is ih =>
    intro t s e hn
    refine .bind (h i (by simp) t s e hn) ?_
    rintro ⟨t1, p1, e1⟩ h1
    have l1 := ((hs i (by simp)).step h1).1.length_le
    have l2 := ((parseSpace_scan p1).suffix e1).length_le
    simp only
    cases hp2 : parseSpace p1 e1 with
    | mk p2 e2 =>
    rw [hp2] at l2
    cases p2 with
    | nil => exact .refl _
    | cons b q =>
      refine .ite (fun _ => ?_) fun _ => .refl _
      have l3 := ((parseSpace_scan q).suffix e2).length_le
      simp only [List.length_cons] at l2
      refine .bind (ih (fun j hj => hs j (by simp [hj])) (fun j hj => h j (by simp [hj])) _ _ _ ?_) fun _ _ => .refl _
      simp only
      omega

theorem deObjectArray_near {ι : Type} {is : List ι} {F F' : ι → AMember τ} (dflt : τ) (hs : ∀ i ∈ is, Safe True (F i).de)
    (h : ∀ i ∈ is, Near B n (F' i).de (F i).de) : Near B n (deObjectArray dflt (is.map F')) (deObjectArray dflt (is.map F)) := by
  intro t s e hn
  unfold deObjectArray
  refine .ite (fun _ => .refl _) fun _ => ?_
  cases s with
  | nil => exact .refl _
  | cons b p =>
    refine .ite (fun _ => .refl _) fun _ => ?_
    unfold objectArrayBody
    have l1 := ((parseSpace_scan p).suffix e).length_le
    simp only
    cases hp1 : parseSpace p e with
    | mk p1 e1 =>
    rw [hp1] at l1
    cases p1 with
    | nil => exact .refl _
    | cons b1 q =>
      refine .ite (fun _ => ?_) fun _ => .refl _
      simp only [List.length_cons] at hn
      refine .bind (deAMembers_near hs h _ _ _ ?_) fun _ _ => .refl _
      simp only at l1 ⊢
      omega

end
/-! ### All descriptions -/

theorem Spec.Scalar.described {c : Cfg} {α : Type} {S : Ser α} (h : Scalar c S) : Described c .all S := by
  cases h with
  | int => exact .int _
  | bool => exact .bool
  | str => exact .str
  | chars => exact .chars _
  | float => exact .float _ _
  | enum => exact .enum _ _ _
  | flags => exact .flags _
  | time => exact .time _ _ rfl
  | size => exact .size _ _ rfl

mutual

theorem Spec.Framed.safe {c : Cfg} : ∀ {α : Type} {S : Ser α} {D : Nat → De α} {h a : Nat}, Framed c S D h a → Safe True S.de
  | _, _, _, _, _, .scalar h => h.described.safe.mono fun _ => trivial
  | _, _, _, _, _, .raw => (deRaw_safe c).mono fun _ => trivial
  | _, _, _, _, _, .rawQuoted _ reqQ => (deRawQuoted_safe c reqQ).mono fun _ => trivial
  | _, _, _, _, _, .quoted _ reqQ h => deQuoted_safe h.safe reqQ
  | _, _, _, _, _, .pointer h => dePointer_safe h.safe
  | _, _, _, _, _, .memberValue d g s h => memberValue_safe h.safe d g s
  | _, _, _, _, _, .array K h => deSeq_safe h.safe
  | _, _, _, _, _, .fixed k N _ h => deFix_safe h.safe
  | _, _, _, _, _, .field h h' => deField_safe h.safe h'.safe
  | _, _, _, _, _, .dict K h => deSeq_safe h.safe
  | _, _, _, _, _, .object strict dflt is F M h => deObject_safe (fun _ => trivial) (List.forall_mem_map.mpr fun i hi => (h i hi).safe)
  | _, _, _, _, _, .objectArray dflt is F M h => deObjectArray_safe (List.forall_mem_map.mpr fun i hi => (h i hi).safe)
  | _, _, _, _, _, .mono h _ _ => h.safe

theorem Spec.FramedM.safe {c : Cfg} : ∀ {τ : Type} {m : Member τ} {M : Nat → Member τ} {h a : Nat}, FramedM c m M h a → MSafe True m
  | _, _, _, _, _, .member m h => deMember_safe h.safe
  | _, _, _, _, _, .memberP m h => deMemberP_safe h.safe
  | _, _, _, _, _, .memberIf l r i RU h h' => memberIf_safe h.safe h'.safe i RU
  | _, _, _, _, _, .mono h _ _ => h.safe

theorem Spec.FramedA.safe {c : Cfg} : ∀ {τ : Type} {m : AMember τ} {M : Nat → AMember τ} {h a : Nat}, FramedA c m M h a → Safe True m.de
  | _, _, _, _, _, .member m h => amember_safe h.safe
  | _, _, _, _, _, .memberP m h => amemberP_safe h.safe
  | _, _, _, _, _, .memberIf l r i RU h h' => amemberIf_safe h.safe h'.safe i RU
  | _, _, _, _, _, .mono h _ _ => h.safe

end

theorem nextFrame_near {α : Type} {B : Prop} {n k h a : Nat} {F : Nat → De α} {D : De α} (hk : B ∨ h + 1 + a * n < k)
    (hF : ∀ k, B ∨ h + a * n < k → Near B n (F k) D) : Near B n (nextFrame F k) D := by
  cases k with
  | zero => exact fun v s e _ => .inl ⟨hk.resolve_right (by omega), rfl⟩
  | succ k => exact hF k (hk.imp id fun h => by omega)

theorem enough_null {B : Prop} {h a n k : Nat} (hk : B ∨ h + 4 * a + a * n < k) : B ∨ h + a * max n 4 < k := by
  refine hk.imp id fun hk => ?_
  have : a * max n 4 ≤ a * n + a * 4 := by
    rw [← Nat.mul_add]
    exact Nat.mul_le_mul_left _ (by omega)
  omega

theorem enough_mono {B : Prop} {h a h' a' n k : Nat} (hk : B ∨ h' + a' * n < k) (hh : h ≤ h') (ha : a ≤ a') : B ∨ h + a * n < k := by
  refine hk.imp id fun hk => ?_
  have : a * n ≤ a' * n := Nat.mul_le_mul_right _ ha
  omega

mutual

theorem Spec.Framed.near {c : Cfg} {B : Prop} : ∀ {α : Type} {S : Ser α} {D : Nat → De α} {h a : Nat}, Framed c S D h a →
    ∀ k n, B ∨ h + a * n < k → Near B n (D k) S.de
  | _, _, _, _, _, .scalar h => fun k n hk => by
    cases k with
    | zero => exact fun v s e _ => .inl ⟨hk.resolve_right (by omega), rfl⟩
    | succ k => exact fun v s e _ => .refl _
  | _, _, _, _, _, .raw => fun k n hk => nextFrame_near (h := 0) (a := 1) (by simpa using hk) fun k hk => deRaw_near (valueD_near (by simpa using hk))
  | _, _, _, _, _, .rawQuoted serQ reqQ => fun k n hk =>
    nextFrame_near (h := 0) (a := 1) (by simpa using hk) fun k hk => deRawQuoted_near (valueD_near (by simpa using hk)) serQ reqQ
  | _, _, _, _, _, .quoted _ reqQ h => fun k n hk => nextFrame_near hk fun k hk => deQuoted_near (h.near k n hk) reqQ
  | _, _, _, _, _, .pointer h => fun k n hk => nextFrame_near hk fun k hk => dePointer_near (h.near k n hk)
  | _, _, _, _, _, .memberValue d g s h => fun k n hk => nextFrame_near hk fun k hk => memberValue_near (h.near k n hk) d g s
  | _, _, _, _, _, .array K h => fun k n hk => nextFrame_near hk fun k hk => deSeq_near h.safe (h.near k n hk)
  | _, _, _, _, _, .fixed _ N _ h => fun k n hk => nextFrame_near hk fun k hk => deFix_near h.safe (h.near k n hk)
  | _, _, _, _, _, .field h h' => fun k n hk => nextFrame_near hk fun k hk => deField_near h.safe (h.near k n hk) (h'.near k n hk)
  | _, _, _, _, _, .dict K h => fun k n hk => nextFrame_near hk fun k hk => deSeq_near h.safe (h.near k n hk)
  | _, _, _, _, _, .object (h := h) strict dflt is F M hM => fun k n hk =>
    nextFrame_near (h := h + 1) (a := 1) hk fun k hk =>
      deObject_near (h := h) dflt (fun i hi => (hM i hi).safe)
        (fun i hi k n hk => (hM i hi).near k n (by simpa using hk)) (by simpa using hk)
  | _, _, _, _, _, .objectArray dflt is F M hM => fun k n hk => nextFrame_near hk fun k hk =>
      deObjectArray_near dflt (fun i hi => (hM i hi).safe) (fun i hi => (hM i hi).near k n hk)
  | _, _, _, _, _, .mono h hh ha => fun k n hk => h.near k n (enough_mono hk hh ha)

theorem Spec.FramedM.near {c : Cfg} {B : Prop} : ∀ {τ : Type} {m : Member τ} {M : Nat → Member τ} {h a : Nat}, FramedM c m M h a →
    ∀ k n, B ∨ h + a * n < k → MNear B n (M k) m
  | _, _, _, _, _, .member m h => fun k n hk => deMember_near (h.near k n hk)
  | _, _, _, _, _, .memberP m h => fun k n hk => deMemberP_near (h.near k n hk)
  | _, _, _, _, _, .memberIf l r i RU h h' => fun k n hk t s e u hs =>
    memberIf_near (h.near k _ (enough_null hk)) (h'.near k _ (enough_null hk)) (Nat.le_max_right _ _) i RU t s e u
      (Nat.le_trans hs (Nat.le_max_left _ _))
  | _, _, _, _, _, .mono h hh ha => fun k n hk => h.near k n (enough_mono hk hh ha)

theorem Spec.FramedA.near {c : Cfg} {B : Prop} : ∀ {τ : Type} {m : AMember τ} {M : Nat → AMember τ} {h a : Nat}, FramedA c m M h a →
    ∀ k n, B ∨ h + a * n < k → Near B n (M k).de m.de
  | _, _, _, _, _, .member m h => fun k n hk => amember_near (h.near k n hk)
  | _, _, _, _, _, .memberP m h => fun k n hk => amemberP_near (h.near k n hk)
  | _, _, _, _, _, .memberIf l r i RU h h' => fun k n hk =>
    (amemberIf_near (h.near k _ (enough_null hk)) (h'.near k _ (enough_null hk)) (Nat.le_max_right _ _) i RU).less (Nat.le_max_left _ _)
  | _, _, _, _, _, .mono h hh ha => fun k n hk => h.near k n (enough_mono hk hh ha)

end

/-! ### Every description has a reader on a bounded stack -/

theorem list_frames {β γ : Type} {P : β → (Nat → γ) → Nat → Prop} (mono : ∀ m M h h', P m M h → h ≤ h' → P m M h') (b : Nat → γ) :
    ∀ (L : List β), (∀ m ∈ L, ∃ M h, P m M h) → ∃ (M : β → Nat → γ) (h : Nat), ∀ m ∈ L, P m (M m) h := by
  intro L hL
  have hx : ∀ m, ∃ x : (Nat → γ) × Nat, m ∈ L → P m x.1 x.2 := by
    intro m
    by_cases hm : m ∈ L
    · obtain ⟨M, h, hp⟩ := hL m hm
      exact ⟨(M, h), fun _ => hp⟩
    · exact ⟨(b, 0), fun h => absurd h hm⟩
  have hmax : ∀ (l : List β) (f : β → Nat), ∃ h, ∀ m ∈ l, f m ≤ h := by
    intro l f
    induction l with
    | nil => exact ⟨0, fun m hm => by cases hm⟩
    | cons a l ih =>
      obtain ⟨h, hh⟩ := ih
      refine ⟨max (f a) h, fun m hm => ?_⟩
      rcases List.mem_cons.mp hm with rfl | hm
      · exact Nat.le_max_left _ _
      · exact Nat.le_trans (hh m hm) (Nat.le_max_right _ _)
  obtain ⟨h, hh⟩ := hmax L fun m => (Classical.choose (hx m)).2
  exact ⟨fun m => (Classical.choose (hx m)).1, h, fun m hm => mono _ _ _ _ (Classical.choose_spec (hx m) hm) (hh m hm)⟩

mutual

theorem Described.framed {c : Cfg} {f : Features} : ∀ {α : Type} {S : Ser α}, Described c f S → ∃ D h, Framed c S D h 1
  | _, _, .int ty => ⟨_, _, .mono (.scalar (.int ty)) (Nat.le_refl _) (by decide)⟩
  | _, _, .bool => ⟨_, _, .mono (.scalar .bool) (Nat.le_refl _) (by decide)⟩
  | _, _, .str => ⟨_, _, .mono (.scalar .str) (Nat.le_refl _) (by decide)⟩
  | _, _, .chars N => ⟨_, _, .mono (.scalar (.chars N)) (Nat.le_refl _) (by decide)⟩
  | _, _, .float F R => ⟨_, _, .mono (.scalar (.float F R)) (Nat.le_refl _) (by decide)⟩
  | _, _, @Described.enum _ _ _ _ strict dflt L => ⟨_, _, .mono (.scalar (.enum strict dflt L)) (Nat.le_refl _) (by decide)⟩
  | _, _, .flags F => ⟨_, _, .mono (.scalar (.flags F)) (Nat.le_refl _) (by decide)⟩
  | _, _, .raw => ⟨_, _, .raw⟩
  | _, _, .rawQuoted serQ reqQ _ => ⟨_, _, .rawQuoted serQ reqQ⟩
  | _, _, .quoted serQ reqQ _ h => let ⟨_, _, g⟩ := h.framed; ⟨_, _, .quoted serQ reqQ g⟩
  | _, _, .pointer _ h => let ⟨_, _, g⟩ := h.framed; ⟨_, _, .pointer g⟩
  | _, _, .memberValue d gt s h => let ⟨_, _, g⟩ := h.framed; ⟨_, _, .memberValue d gt s g⟩
  | _, _, .array K h => let ⟨_, _, g⟩ := h.framed; ⟨_, _, .array K g⟩
  | _, _, .fixed k N hN h => let ⟨_, _, g⟩ := h.framed; ⟨_, _, .fixed k N hN g⟩
  | _, _, .field h h' =>
    let ⟨_, _, g⟩ := h.framed
    let ⟨_, _, g'⟩ := h'.framed
    ⟨_, _, .field (g.mono (Nat.le_max_left _ _) (Nat.le_refl _)) (g'.mono (Nat.le_max_right _ _) (Nat.le_refl _))⟩
  | _, _, .dict K h h' =>
    let ⟨_, _, g⟩ := h.framed
    let ⟨_, _, g'⟩ := h'.framed
    ⟨_, _, .dict K (.field (g.mono (Nat.le_max_left _ _) (Nat.le_refl _)) (g'.mono (Nat.le_max_right _ _) (Nat.le_refl _)))⟩
  | _, _, .object strict dflt L h => by
    obtain ⟨M, n, hM⟩ := list_frames (P := fun m M h => FramedM c m M h 1) (fun _ _ _ _ p q => p.mono q (Nat.le_refl _))
      (fun _ => ⟨fun _ _ => .ub, fun _ _ _ _ => .ub⟩) L (fun m hm => (h m hm).framed)
    have := Framed.object (c := c) strict dflt L id M hM
    rw [List.map_id] at this
    exact ⟨_, _, this⟩
  | _, _, .objectArray dflt L h => by
    obtain ⟨M, n, hM⟩ := list_frames (P := fun m M h => FramedA c m M h 1) (fun _ _ _ _ p q => p.mono q (Nat.le_refl _))
      (fun _ => ⟨fun _ _ => .ub, fun _ _ _ => .ub⟩) L (fun m hm => (h m hm).framed)
    have := Framed.objectArray (c := c) dflt L id M hM
    rw [List.map_id] at this
    exact ⟨_, _, this⟩
  | _, _, .time ty fr _ => ⟨_, _, .mono (.scalar (.time ty fr)) (Nat.le_refl _) (by decide)⟩
  | _, _, .size ty m _ => ⟨_, _, .mono (.scalar (.size ty m)) (Nat.le_refl _) (by decide)⟩

theorem DescribedM.framed {c : Cfg} {f : Features} : ∀ {τ : Type} {m : Member τ}, DescribedM c f m → ∃ M h, FramedM c m M h 1
  | _, _, .member m h => let ⟨_, _, g⟩ := h.framed; ⟨_, _, .member m g⟩
  | _, _, .memberP m h => let ⟨_, _, g⟩ := h.framed; ⟨_, _, .memberP m g⟩
  | _, _, .memberIf l r i RU h h' =>
    let ⟨_, _, g⟩ := h.framed
    let ⟨_, _, g'⟩ := h'.framed
    ⟨_, _, .memberIf l r i RU (g.mono (Nat.le_max_left _ _) (Nat.le_refl _)) (g'.mono (Nat.le_max_right _ _) (Nat.le_refl _))⟩

theorem DescribedA.framed {c : Cfg} {f : Features} : ∀ {τ : Type} {m : AMember τ}, DescribedA c f m → ∃ M h, FramedA c m M h 1
  | _, _, .member m h => let ⟨_, _, g⟩ := h.framed; ⟨_, _, .member m g⟩
  | _, _, .memberP m h => let ⟨_, _, g⟩ := h.framed; ⟨_, _, .memberP m g⟩
  | _, _, .memberIf l r i RU h h' =>
    let ⟨_, _, g⟩ := h.framed
    let ⟨_, _, g'⟩ := h'.framed
    ⟨_, _, .memberIf l r i RU (g.mono (Nat.le_max_left _ _) (Nat.le_refl _)) (g'.mono (Nat.le_max_right _ _) (Nat.le_refl _))⟩

end

end Wjson
