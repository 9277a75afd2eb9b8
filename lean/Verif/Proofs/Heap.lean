import Verif.Spec.Heap
import Verif.Proofs.Fuel
/-
Lemmas for C85: reading over a heap follows reading of trees.
-/
namespace Wjson
open Spec

/-! ### Two computations side by side -/

/-- Both end in the same way; the results differ only in the variables, which correspond, and the first variable has changed from
`x0` in a permitted way. -/
inductive HSim {σ β ρ : Type} (Rel : σ → β → Prop) (Ext : σ → σ → Prop) (x0 : σ) : Out (σ × ρ) → Out (β × ρ) → Prop
  | ok {x w r} : Rel x w → Ext x0 x → HSim Rel Ext x0 (.ok (x, r)) (.ok (w, r))
  | ub : HSim Rel Ext x0 .ub .ub
  | fuel : HSim Rel Ext x0 .fuel .fuel

def Tracks {σ β ρ : Type} (Rel : σ → β → Prop) (Ext : σ → σ → Prop) (g : σ → Out (σ × ρ)) (p : β → Out (β × ρ)) : Prop :=
  ∀ x w, Rel x w → HSim Rel Ext x (g x) (p w)

/-- A preorder. -/
structure Order {σ : Type} (Ext : σ → σ → Prop) : Prop where
  refl : ∀ x, Ext x x
  trans : ∀ {x y z}, Ext x y → Ext y z → Ext x z

section
variable {σ β ρ κ : Type} {Rel : σ → β → Prop} {Ext : σ → σ → Prop}

theorem Tracks.ok (hE : Order Ext) (r : ρ) : Tracks Rel Ext (fun x => .ok (x, r)) (fun w => .ok (w, r)) :=
  fun x _ h => .ok h (hE.refl x)

theorem HSim.bind (hE : Order Ext) {x0 : σ} {g : Out (σ × ρ)} {p : Out (β × ρ)} {h : σ × ρ → Out (σ × κ)} {q : β × ρ → Out (β × κ)}
    (hg : HSim Rel Ext x0 g p) (hh : ∀ x w r, Rel x w → HSim Rel Ext x (h (x, r)) (q (w, r))) : HSim Rel Ext x0 (g >>= h) (p >>= q) := by
  cases hg with
  | ub => exact .ub
  | fuel => exact .fuel
  | @ok x w r h1 h2 =>
    show HSim Rel Ext x0 (h (x, r)) (q (w, r))
    have := hh x w r h1
    revert this
    generalize h (x, r) = A
    generalize q (w, r) = B
    intro this
    cases this with
    | ub => exact .ub
    | fuel => exact .fuel
    | ok h3 h4 => exact .ok h3 (hE.trans h2 h4)

theorem Tracks.bind (hE : Order Ext) {g : σ → Out (σ × ρ)} {p : β → Out (β × ρ)} {h : σ × ρ → Out (σ × κ)} {q : β × ρ → Out (β × κ)}
    (hg : Tracks Rel Ext g p) (hh : ∀ r, Tracks Rel Ext (fun x => h (x, r)) fun w => q (w, r)) :
    Tracks Rel Ext (fun x => g x >>= h) fun w => p w >>= q :=
  fun x w hx => (hg x w hx).bind hE fun x w r hx => hh r x w hx

/-- A computation that does not involve the variables comes first. -/
theorem Tracks.after {y : Out ρ} {h : ρ → σ → Out (σ × κ)} {q : ρ → β → Out (β × κ)} (hh : ∀ r, Tracks Rel Ext (h r) (q r)) :
    Tracks Rel Ext (fun x => y >>= fun r => h r x) fun w => y >>= fun r => q r w := by
  intro x w hx
  cases y with
  | ub => exact .ub
  | fuel => exact .fuel
  | ok r => exact hh r x w hx

/-! ### Members -/

/-- Member lists side by side. -/
inductive MembersTrack (Rel : σ → β → Prop) (Ext : σ → σ → Prop) : List (Member σ) → List (Member β) → Prop
  | nil : MembersTrack Rel Ext [] []
  | cons {m m' L L'} : (∀ s e u, Tracks Rel Ext (fun x => m.de x s e u) fun w => m'.de w s e u) → MembersTrack Rel Ext L L' →
      MembersTrack Rel Ext (m :: L) (m' :: L')

theorem searchMembers_track (hE : Order Ext) (c : Cfg) (strict : Bool) {L : List (Member σ)} {L' : List (Member β)} (h : MembersTrack Rel Ext L L')
    (s : Bytes) (e : EPtr) : Tracks Rel Ext (fun x => searchMembers c strict L x s e) fun w => searchMembers c strict L' w s e := by
  induction h generalizing s e with
  | nil =>
    unfold searchMembers
    cases strict
    · exact Tracks.after (h := fun (r : Bytes × EPtr) t => let r := parseSpace r.1 r.2; .ok (t, r.1, r.2))
        (q := fun (r : Bytes × EPtr) t => let r := parseSpace r.1 r.2; .ok (t, r.1, r.2)) fun r => .ok hE _
    · cases s with
      | nil => exact .ok hE _
      | cons b p =>
        by_cases hb : b = c%'}'
        · simp only [if_pos hb]; exact .ok hE _
        · simp only [if_neg hb]; exact .ok hE _
  | cons h1 _ ih =>
    unfold searchMembers
    refine Tracks.bind hE (h1 s e false) fun r => ?_
    obtain ⟨p, e1, u⟩ := r
    cases u
    · exact ih p e1
    · exact Tracks.ok hE (p, e1)

theorem membersEnd_track (hE : Order Ext) (s : Bytes) (e : EPtr) : Tracks Rel Ext (fun x => membersEnd x s e) fun w => membersEnd w s e := by
  unfold membersEnd
  cases s with
  | nil => exact .ok hE _
  | cons b p =>
    by_cases hb : b ≠ c%'}'
    · simp only [if_pos hb]; exact .ok hE _
    · simp only [if_neg hb]; exact .ok hE _

theorem objectEnd_track (hE : Order Ext) (s : Bytes) (e : EPtr) : Tracks Rel Ext (fun x => objectEnd x s e) fun w => objectEnd w s e := by
  unfold objectEnd
  cases s with
  | nil => exact .ok hE _
  | cons b p =>
    by_cases hb : b ≠ c%'}'
    · simp only [if_pos hb]; exact .ok hE _
    · simp only [if_neg hb]; exact .ok hE _

theorem membersF_track (hE : Order Ext) (c : Cfg) (strict : Bool) {L : List (Member σ)} {L' : List (Member β)} (h : MembersTrack Rel Ext L L') :
    ∀ (n : Nat) (l : List (Member σ)) (l' : List (Member β)), MembersTrack Rel Ext l l' → ∀ (s : Bytes) (e : EPtr),
      Tracks Rel Ext (fun x => membersF c strict L n l x s e) fun w => membersF c strict L' n l' w s e
  | 0, _, _, _, _, _ => fun _ _ _ => by simp only [membersF]; exact .fuel
  | n + 1, _, _, .nil, s, e => by
    unfold membersF
    exact Tracks.after (h := fun (r : Bytes × EPtr) t => .ok (t, r.1, r.2)) (q := fun (r : Bytes × EPtr) t => .ok (t, r.1, r.2)) fun r => .ok hE _
  | n + 1, m :: l, m' :: l', .cons h1 h2, s, e => by
    have rest : ∀ k k', MembersTrack Rel Ext k k' → ∀ q e2, Tracks Rel Ext (fun t =>
        match (parseSpace q e2).1 with
        | [] => .ok (t, [], createError .UnexpectedEndFragment (parseSpace q e2).2)
        | b :: p =>
          if b = c%',' then
            let r := parseSpace p (parseSpace q e2).2
            membersF c strict L n k t r.1 r.2 >>= fun y =>
            membersEnd y.1 y.2.1 y.2.2
          else membersEnd t (b :: p) (parseSpace q e2).2) (fun t =>
        match (parseSpace q e2).1 with
        | [] => .ok (t, [], createError .UnexpectedEndFragment (parseSpace q e2).2)
        | b :: p =>
          if b = c%',' then
            let r := parseSpace p (parseSpace q e2).2
            membersF c strict L' n k' t r.1 r.2 >>= fun y =>
            membersEnd y.1 y.2.1 y.2.2
          else membersEnd t (b :: p) (parseSpace q e2).2) := by
      intro k k' hk q e2
      cases (parseSpace q e2).1 with
      | nil => exact .ok hE _
      | cons b p =>
        by_cases hb : b = c%','
        · simp only [if_pos hb]
          exact Tracks.bind hE (membersF_track hE c strict h n k k' hk _ _) fun r => membersEnd_track hE r.1 r.2
        · simp only [if_neg hb]; exact membersEnd_track hE _ _
    unfold membersF
    refine Tracks.bind hE (h1 s e false) fun r => ?_
    obtain ⟨p, e1, u⟩ := r
    cases u
    · simp only [Bool.false_eq_true, if_false]
      refine Tracks.bind hE (searchMembers_track hE c strict h p e1) ?_
      exact fun r => rest _ _ (.cons h1 h2) r.1 r.2
    · exact rest _ _ h2 p e1

theorem objectBody_track (hE : Order Ext) (c : Cfg) (strict : Bool) {L : List (Member σ)} {L' : List (Member β)} (h : MembersTrack Rel Ext L L')
    (s : Bytes) (e : EPtr) : Tracks Rel Ext (fun x => objectBody c strict L x s e) fun w => objectBody c strict L' w s e := by
  unfold objectBody
  simp only
  cases (parseSpace s e).1 with
  | nil => exact .ok hE _
  | cons b q =>
    by_cases hb : b ≠ c%'}'
    · simp only [if_pos hb]
      refine Tracks.bind hE (membersF_track hE c strict h _ L L' h _ _) fun r => ?_
      obtain ⟨p, e1⟩ := r
      cases p with
      | nil => exact Tracks.ok hE ([], createError .UnexpectedEndFragment e1)
      | cons b p =>
        simp only
        cases (parseSpace (b :: p) e1).1 with
        | nil => exact .ok hE _
        | cons b q => exact objectEnd_track hE _ _
    · simp only [if_neg hb]; exact objectEnd_track hE _ _

/-- `null` gives the default values `d x` and `d'`. -/
theorem deObject_track (hE : Order Ext) (c : Cfg) (strict : Bool) {d : σ → σ} {d' : β} (hd : ∀ x w, Rel x w → Rel (d x) d' ∧ Ext x (d x))
    {L : List (Member σ)} {L' : List (Member β)} (h : MembersTrack Rel Ext L L')
    (s : Bytes) (e : EPtr) : Tracks Rel Ext (fun x => deObject c strict (d x) L x s e) fun w => deObject c strict d' L' w s e := by
  unfold deObject
  by_cases hn : isNull s = true
  · simp only [if_pos hn]
    exact fun x w hx => .ok (hd x w hx).1 (hd x w hx).2
  · simp only [if_neg hn]
    cases s with
    | nil => exact .ok hE _
    | cons b p =>
      by_cases hb : b ≠ c%'{'
      · simp only [if_pos hb]
        by_cases hb2 : b = c%'['
        · simp only [if_pos hb2]
          have key : ∀ y : Byte, Tracks Rel Ext
              (fun t => if y ≠ c%']' then .ok (t, [], createError .ExpectedOf (parseSpace p e).2 (some b!"]") ((parseSpace p e).1.length : Nat))
                else match (parseSpace p e).1 with
                | [] => .ub
                | _ :: q => .ok (t, q, (parseSpace p e).2))
              (fun t => if y ≠ c%']' then .ok (t, [], createError .ExpectedOf (parseSpace p e).2 (some b!"]") ((parseSpace p e).1.length : Nat))
                else match (parseSpace p e).1 with
                | [] => .ub
                | _ :: q => .ok (t, q, (parseSpace p e).2)) := by
            intro y
            by_cases hy : y ≠ c%']'
            · simp only [if_pos hy]; exact .ok hE _
            · simp only [if_neg hy]
              cases (parseSpace p e).1 with
              | nil => exact fun _ _ _ => .ub
              | cons _ q => exact .ok hE _
          exact Tracks.after key
        · simp only [if_neg hb2]; exact .ok hE _
      · simp only [if_neg hb]; exact objectBody_track hE c strict h p e

inductive AMembersTrack (Rel : σ → β → Prop) (Ext : σ → σ → Prop) : List (AMember σ) → List (AMember β) → Prop
  | nil : AMembersTrack Rel Ext [] []
  | cons {m m' L L'} : (∀ s e, Tracks Rel Ext (fun x => m.de x s e) fun w => m'.de w s e) → AMembersTrack Rel Ext L L' →
      AMembersTrack Rel Ext (m :: L) (m' :: L')

theorem deAMembers_track (hE : Order Ext) {L : List (AMember σ)} {L' : List (AMember β)} (h : AMembersTrack Rel Ext L L') (s : Bytes) (e : EPtr) :
    Tracks Rel Ext (fun x => deAMembers L x s e) fun w => deAMembers L' w s e := by
  have fin : ∀ s e, Tracks Rel Ext (fun x => amembersEnd x s e) fun w => amembersEnd w s e := by
    intro s e
    unfold amembersEnd
    cases s with
    | nil => exact .ok hE _
    | cons b p =>
      by_cases hb : b ≠ c%']'
      · simp only [if_pos hb]; exact .ok hE _
      · simp only [if_neg hb]; exact .ok hE _
  induction h generalizing s e with
  | nil => exact .ok hE _
  | cons h1 _ ih =>
    unfold deAMembers
    refine Tracks.bind hE (h1 s e) fun r => ?_
    obtain ⟨p, e1⟩ := r
    simp only
    cases (parseSpace p e1).1 with
    | nil => exact .ok hE _
    | cons b q =>
      by_cases hb : b = c%','
      · simp only [if_pos hb]
        exact Tracks.bind hE (ih _ _) fun r => fin r.1 r.2
      · simp only [if_neg hb]; exact fin _ _

theorem deObjectArray_track (hE : Order Ext) {d : σ → σ} {d' : β} (hd : ∀ x w, Rel x w → Rel (d x) d' ∧ Ext x (d x))
    {L : List (AMember σ)} {L' : List (AMember β)} (h : AMembersTrack Rel Ext L L') (s : Bytes) (e : EPtr) :
    Tracks Rel Ext (fun x => deObjectArray (d x) L x s e) fun w => deObjectArray d' L' w s e := by
  have fin : ∀ s e, Tracks Rel Ext (fun x => objectArrayEnd x s e) fun w => objectArrayEnd w s e := by
    intro s e
    unfold objectArrayEnd
    cases s with
    | nil => exact .ok hE _
    | cons b p =>
      by_cases hb : b ≠ c%']'
      · simp only [if_pos hb]; exact .ok hE _
      · simp only [if_neg hb]; exact .ok hE _
  unfold deObjectArray
  by_cases hn : isNull s = true
  · simp only [if_pos hn]
    exact fun x w hx => .ok (hd x w hx).1 (hd x w hx).2
  · simp only [if_neg hn]
    cases s with
    | nil => exact .ok hE _
    | cons b p =>
      by_cases hb : b ≠ c%'['
      · simp only [if_pos hb]; exact .ok hE _
      · simp only [if_neg hb]
        unfold objectArrayBody
        simp only
        cases (parseSpace p e).1 with
        | nil => exact .ok hE _
        | cons b q =>
          by_cases hb : b ≠ c%']'
          · simp only [if_pos hb]
            refine Tracks.bind hE (deAMembers_track hE h _ _) fun r => ?_
            obtain ⟨p, e1⟩ := r
            cases p with
            | nil => exact Tracks.ok hE ([], createError .UnexpectedEndFragment e1)
            | cons b p =>
              simp only
              cases (parseSpace (b :: p) e1).1 with
              | nil => exact .ok hE _
              | cons b q => exact fin _ _
          · simp only [if_neg hb]; exact fin _ _

end

/-! ### Heaps -/

section
variable {C : Type}

/-- What `x` and the cells of the heap from `n` on hold of the address `a`. -/
def held {α β : Type} (own : C → List Nat) (T : HTy C α β) (n : Nat) (x : OnHeap C α) (a : Nat) : Nat :=
  (T.refs x.1).count a + ((x.2.drop n).flatMap own).count a

/-- The heap has grown, the cells that were there are as they were, and the target and the new cells hold the pointers that the target
held before at most as often, and each new address at most once more. -/
structure Grown {α β : Type} (own : C → List Nat) (T : HTy C α β) (x y : OnHeap C α) : Prop where
  heap : x.2 <+: y.2
  held : ∀ a, held own T x.2.length y a ≤ (T.refs x.1).count a + if x.2.length ≤ a ∧ a < y.2.length then 1 else 0

theorem drop_flatMap_count {own : C → List Nat} {H1 H2 : List C} (h : H1 <+: H2) {n : Nat} (hn : n ≤ H1.length) (a : Nat) :
    ((H2.drop n).flatMap own).count a = ((H1.drop n).flatMap own).count a + ((H2.drop H1.length).flatMap own).count a := by
  obtain ⟨t, rfl⟩ := h
  rw [List.drop_append_of_le_length hn, List.flatMap_append, List.count_append, List.drop_left]

theorem Grown.order {α β : Type} (own : C → List Nat) (T : HTy C α β) : Order (Grown own T) where
  refl x := ⟨List.prefix_refl _, fun a => by simp [Wjson.held]⟩
  trans {x y z} h1 h2 := by
    have l1 := h1.heap.length_le
    have l2 := h2.heap.length_le
    refine ⟨h1.heap.trans h2.heap, fun a => ?_⟩
    have k1 := h1.held a
    have k2 := h2.held a
    simp only [Wjson.held] at k1 k2 ⊢
    rw [drop_flatMap_count h2.heap l1]
    split at k1 <;> split at k2 <;> split <;> omega

/-- The target stands for the tree, with addresses in `A`, in which all new addresses are. -/
def Stands {α β : Type} (T : HTy C α β) (A : Nat → Prop) (x : OnHeap C α) (w : β) : Prop :=
  (∀ a, x.2.length ≤ a → A a) ∧ T.den x.2 A x.1 w

theorem prefix_get {H H' : List C} (h : H <+: H') {a : Nat} {cell : C} (ha : H[a]? = some cell) : H'[a]? = some cell := by
  obtain ⟨t, rfl⟩ := h
  rw [List.getElem?_append_left]
  · exact ha
  · exact (List.getElem?_eq_some_iff.mp ha).1

theorem Lawful.later {α β : Type} {T : HTy C α β} (hT : T.Lawful) {H H' : List C} (h : H <+: H') {A : Nat → Prop} {x : α} {w : β}
    (hx : T.den H A x w) : T.den H' A x w := hT.cells (fun _ _ _ ha => prefix_get h ha) hx

/-- What is shown of every description. -/
structure Sound {α β : Type} (own : C → List Nat) (HS : Ser (OnHeap C α)) (S : Ser β) (T : HTy C α β) : Prop where
  lawful : T.Lawful
  blank : BlankTarget T HS.dflt.1 S.dflt
  emit : ∀ H A x w k, T.den H A x w → HS.emit (x, H) k = S.emit w k
  de : ∀ A s e, Tracks (Stands T A) (Grown own T) (fun x => HS.de x s e) fun w => S.de w s e

variable {own : C → List Nat}

theorem Sound.blankAt {α β : Type} {HS : Ser (OnHeap C α)} {S : Ser β} {T : HTy C α β} (h : Sound own HS S T) (H : List C) (A : Nat → Prop) :
    T.den H A HS.dflt.1 S.dflt := h.lawful.wider (fun _ h => h.elim) (h.blank.1 H)

theorem leaf_sound {α : Type} {S : Ser α} : Sound own (heapLeaf S) S (leafTy C α) where
  lawful := ⟨fun _ h => h, fun _ h => h⟩
  blank := ⟨fun _ => rfl, rfl⟩
  emit := by rintro H A x w k rfl; rfl
  de := by
    rintro A s e x w ⟨h1, rfl⟩
    show HSim _ _ x (S.de x.1 s e >>= _) (S.de x.1 s e)
    cases S.de x.1 s e with
    | ub => exact .ub
    | fuel => exact .fuel
    | ok d => exact .ok ⟨h1, rfl⟩ ⟨List.prefix_refl _, fun a => by simp [Wjson.held, leafTy]⟩

/-! ### Pointers -/

theorem ptrTy_lawful {α β : Type} {unbox : C → Option α} {T : HTy C α β} (hT : T.Lawful) : (ptrTy unbox T).Lawful where
  wider := by
    intro H A A' x w hA h
    cases x <;> cases w <;> simp only [ptrTy] at h ⊢
    obtain ⟨h1, v, h2, h3⟩ := h
    exact ⟨hA _ h1, v, h2, hT.wider hA h3⟩
  cells := by
    intro H H' A x w hH h
    cases x <;> cases w <;> simp only [ptrTy] at h ⊢
    obtain ⟨h1, v, h2, h3⟩ := h
    refine ⟨h1, v, ?_, hT.cells hH h3⟩
    obtain ⟨cell, h4, h5⟩ := Option.bind_eq_some_iff.mp h2
    rw [hH _ _ h1 h4]
    exact h5

theorem pointer_sound {α β : Type} {box : α → C} {unbox : C → Option α} {HS : Ser (OnHeap C α)} {S : Ser β} {T : HTy C α β}
    (h : Sound own HS S T) (hb : ∀ x, unbox (box x) = some x) (ho : ∀ x, own (box x) = T.refs x) :
    Sound own (heapPointer box unbox HS) (pointerSer S) (ptrTy unbox T) where
  lawful := ptrTy_lawful h.lawful
  blank := ⟨fun _ => trivial, rfl⟩
  emit := by
    intro H A x w k hx
    cases x <;> cases w <;> simp only [ptrTy] at hx
    · rfl
    · obtain ⟨_, v, h2, h3⟩ := hx
      simp only [heapPointer, emitHPointer, h2, pointerSer, emitPointer]
      exact h.emit H A v _ k h3
  de := by
    have null : ∀ (A : Nat → Prop) (x : OnHeap C (Option Nat)) (w : Option β) (r : Bytes × EPtr), Stands (ptrTy unbox T) A x w →
        HSim (Stands (ptrTy unbox T) A) (Grown own (ptrTy unbox T)) x (.ok ((none, x.2), r)) (.ok (none, r)) := by
      intro A x w r hx
      exact .ok ⟨hx.1, trivial⟩ ⟨List.prefix_refl _, fun a => by simp [Wjson.held, ptrTy]⟩
    intro A s e x w hx
    show HSim _ _ x (deHPointer box HS x s e) (dePointer S w s e)
    cases s with
    | nil => exact null A x w _ hx
    | cons b t =>
      unfold deHPointer dePointer
      by_cases hn : b ≠ c%'n'
      · simp only [if_pos hn]
        have h1 : Stands T (fun a => x.2.length < a) (HS.dflt.1, x.2 ++ [box HS.dflt.1]) S.dflt :=
          ⟨fun a ha => by simp at ha; omega, h.blankAt _ _⟩
        have h2 := h.de (fun a => x.2.length < a) (b :: t) e _ _ h1
        simp only at h2
        revert h2
        generalize HS.de (HS.dflt.1, x.2 ++ [box HS.dflt.1]) (b :: t) e = G
        generalize S.de S.dflt (b :: t) e = P
        intro h2
        cases h2 with
        | ub => exact .ub
        | fuel => exact .fuel
        | @ok y v r h3 h4 =>
          have hl := h4.heap.length_le
          simp only [List.length_append, List.length_cons, List.length_nil, Nat.zero_add] at hl
          obtain ⟨t2, ht2⟩ := h4.heap
          simp only at ht2
          have hset : y.2.set x.2.length (box y.1) = x.2 ++ box y.1 :: t2 := by
            rw [← ht2, List.append_assoc, List.set_append_right _ _ (Nat.le_refl _)]
            simp
          refine .ok ⟨?_, ?_⟩ ⟨?_, ?_⟩
          · intro a ha
            simp only [List.length_set] at ha
            exact hx.1 a (by omega)
          · refine ⟨hx.1 _ (Nat.le_refl _), y.1, ?_, ?_⟩
            · simp only [hset]
              rw [List.getElem?_append_right (Nat.le_refl _)]
              simp [hb]
            · refine h.lawful.wider (A := fun a => x.2.length < a) (fun a ha => hx.1 a (by omega)) ?_
              refine h.lawful.cells (H := y.2) ?_ h3.2
              intro a cell ha hc
              rw [List.getElem?_set_ne (by omega)]
              exact hc
          · simp only [hset]
            exact List.prefix_append ..
          · intro a
            have k := h4.held a
            simp only [Wjson.held, h.blank.2, List.count_nil, Nat.zero_add, List.length_append, List.length_cons, List.length_nil] at k
            simp only [Wjson.held, List.length_set]
            have e1 : y.2.drop (x.2.length + 1) = t2 := by
              rw [← ht2, List.drop_append_of_le_length (by simp)]
              simp
            rw [e1] at k
            rw [hset, List.drop_left, List.flatMap_cons, List.count_append, ho]
            have e2 : ((ptrTy unbox T).refs (some x.2.length)).count a = if x.2.length = a then 1 else 0 := by
              simp only [ptrTy, Option.toList, List.count_singleton, beq_iff_eq]
            rw [e2]
            split at k <;> split <;> split <;> omega
      · simp only [if_neg hn]
        exact null A x w _ hx

/-! ### Quoted values -/

theorem quoted_heap_sound {α β : Type} {HS : Ser (OnHeap C α)} {S : Ser β} {T : HTy C α β} {serQ reqQ : Bool} (h : Sound own HS S T) :
    Sound own (quotedSer HS serQ reqQ) (quotedSer S serQ reqQ) T where
  lawful := h.lawful
  blank := h.blank
  emit := by
    intro H A x w k hx
    show emitQuoted HS serQ (x, H) k = emitQuoted S serQ w k
    unfold emitQuoted
    rw [h.emit H A x w k hx, h.emit H A x w _ hx]
  de := by
    have hE := Grown.order own T
    intro A s e
    have str : Tracks (Stands T A) (Grown own T) (fun v => deQuotedStr HS v s e) fun v => deQuotedStr S v s e := by
      unfold deQuotedStr
      refine Tracks.after (y := strSer.de [] s e) (h := fun (r : Bytes × Bytes × EPtr) v => if r.2.2.failed then .ok (v, [], r.2.2) else HS.de v r.1 .fresh >>= fun r2 =>
        match r2.2.2 with
        | .null => .ok (r2.1, r.2)
        | .obj x =>
          if x.status && r.2.2 ≠ .null then
            .ok (r2.1, [], r.2.2.assign ⟨x.code, none, (r.2.1.length : Int) + x.tailOf + 1⟩)
          else .ok (r2.1, r.2)) (q := fun (r : Bytes × Bytes × EPtr) v => if r.2.2.failed then .ok (v, [], r.2.2) else S.de v r.1 .fresh >>= fun r2 =>
        match r2.2.2 with
        | .null => .ok (r2.1, r.2)
        | .obj x =>
          if x.status && r.2.2 ≠ .null then
            .ok (r2.1, [], r.2.2.assign ⟨x.code, none, (r.2.1.length : Int) + x.tailOf + 1⟩)
          else .ok (r2.1, r.2)) fun r => ?_
      by_cases hf : r.2.2.failed = true
      · simp only [hf, if_true]; exact .ok hE _
      · simp only [hf]
        refine Tracks.bind hE (h.de A r.1 .fresh) fun x => ?_
        obtain ⟨q, e2⟩ := x
        cases e2 with
        | null => exact .ok hE _
        | obj y =>
          by_cases h3 : (y.status && decide (r.2.2 ≠ .null)) = true
          · simp only [h3, if_true]; exact .ok hE _
          · simp only [h3]; exact .ok hE _
    simp only [quotedSer, deQuoted]
    cases reqQ
    · cases hs : isString s
      · exact h.de A s e
      · exact str
    · exact str

/-! ### Containers -/

theorem All2.imp {α β : Type} {P Q : α → β → Prop} (h : ∀ x y, P x y → Q x y) {l : List α} {l' : List β} (hl : All2 P l l') : All2 Q l l' := by
  induction hl with
  | nil => exact .nil
  | cons h1 _ ih => exact .cons (h _ _ h1) ih

theorem collTy_lawful {α β D F : Type} {K : Coll α D} {K' : Coll β F} {T : HTy C α β} (hT : T.Lawful) : (collTy K K' T).Lawful where
  wider hA h := All2.imp (fun _ _ h => hT.wider hA h) h
  cells hH h := All2.imp (fun _ _ h => hT.cells hH h) h

/-- Growth of a part is growth of the whole. -/
theorem Grown.absorb {α β γ δ : Type} {T : HTy C α β} {U : HTy C γ δ} {v : α} {H : List C} {y : OnHeap C α} {t t' : γ}
    (hg : Grown own T (v, H) y) (hc : ∀ a, (U.refs t').count a + (T.refs v).count a ≤ (U.refs t).count a + (T.refs y.1).count a) :
    Grown own U (t, H) (t', y.2) := by
  refine ⟨hg.heap, fun a => ?_⟩
  have k := hg.held a
  have := hc a
  simp only [Wjson.held] at k ⊢
  omega

theorem Sound.fresh {α β : Type} {HS : Ser (OnHeap C α)} {S : Ser β} {T : HTy C α β} (h : Sound own HS S T) {A : Nat → Prop} {H : List C}
    (hA : ∀ a, H.length ≤ a → A a) (s : Bytes) (e : EPtr) :
    HSim (Stands T A) (Grown own T) (HS.dflt.1, H) (HS.de (HS.dflt.1, H) s e) (S.de S.dflt s e) :=
  h.de A s e _ _ ⟨hA, h.blankAt _ _⟩

theorem hseqLoop_track {α β D F : Type} {K : Coll α D} {K' : Coll β F} {HS : Ser (OnHeap C α)} {S : Ser β} {T : HTy C α β}
    (h : Sound own HS S T) (hK : ∀ H A, CollTwins K K' (T.den H A)) (A : Nat → Prop) (R : Byte) :
    ∀ (n : Nat) (s : Bytes) (e : EPtr), Tracks (Stands (collTy K K' T) A) (Grown own (collTy K K' T)) (fun x => hseqLoopF K HS R n x s e)
      fun w => seqLoopF K' S R n w s e
  | 0, _, _ => fun _ _ _ => .fuel
  | n + 1, s, e => by
    have hE := Grown.order own (collTy K K' T)
    unfold hseqLoopF seqLoopF
    cases s with
    | nil => exact .ok hE _
    | cons a s =>
      simp only
      cases (parseSpace (a :: s) e).1 with
      | nil => exact .ok hE _
      | cons b p =>
        by_cases hb : b = R
        · simp only [if_pos hb]; exact .ok hE _
        · simp only [if_neg hb]
          intro x w hx
          have h1 := h.fresh hx.1 (b :: p) (parseSpace (a :: s) e).2
          revert h1
          dsimp only
          generalize HS.de (HS.dflt.1, x.2) (b :: p) (parseSpace (a :: s) e).2 = G
          generalize S.de S.dflt (b :: p) (parseSpace (a :: s) e).2 = P
          intro h1
          cases h1 with
          | ub => exact .ub
          | fuel => exact .fuel
          | @ok y v r h3 h4 =>
            obtain ⟨p1, e1⟩ := r
            have st : Stands (collTy K K' T) A (K.insert x.1 y.1, y.2) (K'.insert w v) :=
              ⟨h3.1, (hK y.2 A).insert _ _ _ _ ((collTy_lawful (K := K) (K' := K') h.lawful |> Lawful.later) h4.heap hx.2) h3.2⟩
            have gr : Grown own (collTy K K' T) x (K.insert x.1 y.1, y.2) := by
              refine Grown.absorb h4 fun a => ?_
              have := (hK y.2 A).only (fun v => (T.refs v).count a) x.1 y.1
              simp only [collTy, h.blank.2, List.count_nil, Nat.add_zero, List.count_flatMap, Function.comp_def] at this ⊢
              exact this
            have after : ∀ {ρ : Type} {g : OnHeap C D → Out (OnHeap C D × ρ)} {q : F → Out (F × ρ)},
                Tracks (Stands (collTy K K' T) A) (Grown own (collTy K K' T)) g q →
                HSim (Stands (collTy K K' T) A) (Grown own (collTy K K' T)) x (g (K.insert x.1 y.1, y.2)) (q (K'.insert w v)) := by
              intro ρ g q hg
              exact HSim.bind hE (g := .ok ((K.insert x.1 y.1, y.2), ())) (p := .ok (K'.insert w v, ())) (h := fun z => g z.1) (q := fun z => q z.1)
                (.ok st gr) fun x w _ hx => hg x w hx
            simp only [Out.bind_ok]
            cases (parseSpace p1 e1).1 with
            | nil => exact after (.ok hE _)
            | cons b q =>
              by_cases h2 : b = R
              · simp only [if_pos h2]; exact after (.ok hE _)
              · by_cases h3 : b ≠ c%','
                · simp only [if_neg h2, if_pos h3]; exact after (.ok hE _)
                · simp only [if_neg h2, if_neg h3]
                  exact after (hseqLoop_track h hK A R n q _)

theorem emitElems_both {α β : Type} {HS : Ser (OnHeap C α)} {S : Ser β} {T : HTy C α β} {H : List C} {A : Nat → Prop}
    (h : ∀ x w k, T.den H A x w → HS.emit (x, H) k = S.emit w k) {l : List α} {l' : List β} (hl : All2 (T.den H A) l l') (k : Sink) :
    emitElems HS (l.map fun v => (v, H)) k = emitElems S l' k := by
  induction hl generalizing k with
  | nil => rfl
  | @cons x y l l' h1 h2 ih =>
    cases h2 with
    | nil => exact h _ _ k h1
    | cons h3 h4 =>
      simp only [List.map_cons, emitElems] at ih ⊢
      rw [h _ _ k h1]
      cases S.emit y k with
      | ub => rfl
      | fuel => rfl
      | ok k =>
        simp only [Out.bind_ok]
        cases k.put c%',' with
        | ub => rfl
        | fuel => rfl
        | ok k => exact ih k

theorem seq_sound {α β D F : Type} {K : Coll α D} {K' : Coll β F} {HS : Ser (OnHeap C α)} {S : Ser β} {T : HTy C α β} {L R : Byte}
    (h : Sound own HS S T) (hK : ∀ H A, CollTwins K K' (T.den H A)) : Sound own (heapSeq K HS L R) (seqSer K' S L R) (collTy K K' T) where
  lawful := collTy_lawful h.lawful
  blank := by
    refine ⟨fun H => ?_, ?_⟩
    · show All2 _ (K.elems K.clear) (K'.elems K'.clear)
      rw [(hK H fun _ => False).clear.1, (hK H fun _ => False).clear.2]
      exact .nil
    · show (K.elems K.clear).flatMap _ = []
      rw [(hK [] fun _ => False).clear.1]
      rfl
  emit := by
    intro H A x w k hx
    show (k.put L >>= fun k => emitElems HS ((K.elems x).map fun v => (v, H)) k >>= fun k => k.put R) = emitSeq K' S L R w k
    unfold emitSeq
    have := fun k => emitElems_both (HS := HS) (S := S) (fun x w k hx => h.emit H A x w k hx) hx k
    simp only [this]
  de := by
    intro A s e
    have clr : ∀ (x : OnHeap C D) (w : F) (r : Bytes × EPtr), Stands (collTy K K' T) A x w →
        HSim (Stands (collTy K K' T) A) (Grown own (collTy K K' T)) x (.ok ((K.clear, x.2), r)) (.ok (K'.clear, r)) := by
      intro x w r hx
      refine .ok ⟨hx.1, ?_⟩ ⟨List.prefix_refl _, fun a => ?_⟩
      · show All2 _ (K.elems K.clear) (K'.elems K'.clear)
        rw [(hK x.2 A).clear.1, (hK x.2 A).clear.2]
        exact .nil
      · simp [Wjson.held, collTy, (hK x.2 A).clear.1]
    intro x w hx
    show HSim _ _ x (deHSeq K HS L R x s e) (deSeq K' S L R w s e)
    unfold deHSeq deSeq
    by_cases hn : isNull s = true
    · simp only [if_pos hn]; exact clr x w _ hx
    · simp only [if_neg hn]
      cases s with
      | nil => exact clr x w _ hx
      | cons b t =>
        by_cases hb : b ≠ L
        · simp only [if_pos hb]; exact clr x w _ hx
        · simp only [if_neg hb]
          exact HSim.bind (Grown.order ..) (h := fun z => hseqLoopF K HS R (t.length + 1) z.1 t e) (q := fun z => seqLoopF K' S R (t.length + 1) z.1 t e)
            (clr x w ([], e) hx) fun x w _ hx => hseqLoop_track h hK A R _ _ _ x w hx

/-! ### Fixed-size arrays -/

section
variable {α β : Type} {HS : Ser (OnHeap C α)} {S : Ser β} {T : HTy C α β}

/-- Arrays. -/
abbrev listTy (T : HTy C α β) : HTy C (List α) (List β) := collTy (seqColl α) (seqColl β) T

theorem listTy_cons (T : HTy C α β) (v : α) (vs : List α) (a : Nat) : ((listTy T).refs (v :: vs)).count a = (T.refs v).count a + ((listTy T).refs vs).count a := by
  show ((v :: vs).flatMap T.refs).count a = (T.refs v).count a + (vs.flatMap T.refs).count a
  rw [List.flatMap_cons, List.count_append]

/-- The first element, and then the others. -/
theorem cons_sim {ρ κ : Type} {A : Nat → Prop} {v0 v : α} {vs : List α} {ws : List β} {H : List C}
    (hT : T.Lawful) (h0 : T.refs v0 = [] ∨ v0 = v) (hvs : All2 (T.den H A) vs ws) {g : Out (OnHeap C α × ρ)} {p : Out (β × ρ)}
    (hg : HSim (Stands T A) (Grown own T) (v0, H) g p)
    {h : ρ → List C → Out (OnHeap C (List α) × κ)} {q : ρ → Out (List β × κ)}
    (hh : ∀ r H', (∀ a, H'.length ≤ a → A a) → All2 (T.den H' A) vs ws → HSim (Stands (listTy T) A) (Grown own (listTy T)) (vs, H') (h r H') (q r)) :
    HSim (Stands (listTy T) A) (Grown own (listTy T)) (v :: vs, H) (g >>= fun d => h d.2 d.1.2 >>= fun x => .ok ((d.1.1 :: x.1.1, x.1.2), x.2))
      (p >>= fun d => q d.2 >>= fun x => .ok (d.1 :: x.1, x.2)) := by
  have hE := Grown.order own (listTy T)
  cases hg with
  | ub => exact .ub
  | fuel => exact .fuel
  | @ok y w r h1 h2 =>
    have h3 := hh r y.2 h1.1 (All2.imp (fun _ _ => Lawful.later hT h2.heap) hvs)
    show HSim _ _ _ (h r y.2 >>= _) (q r >>= _)
    revert h3
    generalize h r y.2 = A1
    generalize q r = B1
    intro h3
    cases h3 with
    | ub => exact .ub
    | fuel => exact .fuel
    | @ok z u r' h4 h5 =>
      refine .ok ⟨h4.1, .cons (Lawful.later hT h5.heap h1.2) h4.2⟩ (hE.trans (y := (y.1 :: vs, y.2)) (Grown.absorb h2 fun a => ?_) (Grown.absorb h5 fun a => ?_))
      · rw [listTy_cons, listTy_cons]
        rcases h0 with h0 | h0
        · rw [h0, List.count_nil]; omega
        · rw [h0]; omega
      · rw [listTy_cons, listTy_cons]; simp only; omega

theorem hfixNull_sim (h : Sound own HS S T) (A : Nat → Prop) (s : Bytes) : ∀ (vs : List α) (ws : List β) (H : List C) (e : EPtr), (∀ a, H.length ≤ a → A a) →
    All2 (T.den H A) vs ws → HSim (Stands (listTy T) A) (Grown own (listTy T)) (vs, H) (hfixNull HS s vs H e) (fixNull S s ws e)
  | _, _, H, e, hA, .nil => .ok ⟨hA, .nil⟩ ((Grown.order own (listTy T)).refl _)
  | v :: vs, w :: ws, H, e, hA, .cons h1 h2 => by
    unfold hfixNull fixNull
    exact cons_sim (h := fun (r : Bytes × EPtr) H' => hfixNull HS s vs H' r.2) (q := fun (r : Bytes × EPtr) => fixNull S s ws r.2) h.lawful (.inr rfl) h2
      (h.de A s e (v, H) w ⟨hA, h1⟩) fun r H' hA' h2' => hfixNull_sim h A s vs ws H' r.2 hA' h2'

theorem fixClose_sim {A : Nat → Prop} (R : Byte) (vs : List α) (ws : List β) (H : List C) (s : Bytes) (e : EPtr) (hA : ∀ a, H.length ≤ a → A a)
    (hvs : All2 (T.den H A) vs ws) : HSim (Stands (listTy T) A) (Grown own (listTy T)) (vs, H)
      (fixClose R vs s e >>= fun x => .ok ((x.1, H), x.2)) (fixClose R ws s e) := by
  have ok : ∀ r : Bytes × EPtr, HSim (Stands (listTy T) A) (Grown own (listTy T)) (vs, H) (.ok ((vs, H), r)) (.ok (ws, r)) :=
    fun r => .ok ⟨hA, hvs⟩ ((Grown.order own (listTy T)).refl _)
  cases s with
  | nil => exact ok _
  | cons b p =>
    unfold fixClose
    by_cases hb : b ≠ R
    · simp only [if_pos hb]; exact ok _
    · simp only [if_neg hb]; exact ok _

theorem hfixLoop_sim (h : Sound own HS S T) (A : Nat → Prop) (k : FixKind) (R : Byte) : ∀ (vs : List α) (ws : List β) (H : List C) (s : Bytes) (e : EPtr),
    (∀ a, H.length ≤ a → A a) → All2 (T.den H A) vs ws →
    HSim (Stands (listTy T) A) (Grown own (listTy T)) (vs, H) (hfixLoop k HS R vs H s e) (fixLoop k S R ws s e)
  | _, _, H, s, e, hA, .nil => by
    unfold hfixLoop fixLoop
    exact fixClose_sim R [] [] H s e hA .nil
  | v :: vs, w :: ws, H, s, e, hA, .cons h1 h2 => by
    have ok : ∀ r : Bytes × EPtr, HSim (Stands (listTy T) A) (Grown own (listTy T)) (v :: vs, H) (.ok ((v :: vs, H), r)) (.ok (w :: ws, r)) :=
      fun r => .ok ⟨hA, .cons h1 h2⟩ ((Grown.order own (listTy T)).refl _)
    unfold hfixLoop fixLoop
    cases s with
    | nil => exact fixClose_sim R _ _ H _ _ hA (.cons h1 h2)
    | cons a s =>
      simp only
      cases (parseSpace (a :: s) e).1 with
      | nil => exact ok _
      | cons b p =>
        by_cases hb : b = R
        · simp only [if_pos hb]; exact fixClose_sim R _ _ H _ _ hA (.cons h1 h2)
        · simp only [if_neg hb]
          have h0 : T.refs (k.hstart HS v) = [] ∨ k.hstart HS v = v := by
            cases k
            · exact .inl h.blank.2
            · exact .inr rfl
          have hs : HSim (Stands T A) (Grown own T) (k.hstart HS v, H) (HS.de (k.hstart HS v, H) (b :: p) (parseSpace (a :: s) e).2)
              (S.de (k.start S w) (b :: p) (parseSpace (a :: s) e).2) := by
            cases k
            · exact h.fresh hA _ _
            · exact h.de A _ _ _ _ ⟨hA, h1⟩
          have := cons_sim (v := v) (h := fun (d : Bytes × EPtr) H' =>
            let r := parseSpace d.1 d.2
            match r.1 with
            | [] => .ok ((vs, H'), [], createError .UnexpectedEndFragment r.2)
            | b :: q =>
              if b = R then fixClose R vs (b :: q) r.2 >>= fun x => .ok ((x.1, H'), x.2)
              else if b ≠ c%',' then
                .ok ((vs, H'), [], createError .ExpectedOf r.2 (some k.commaMsg) ((b :: q).length : Nat))
              else hfixLoop k HS R vs H' q r.2) (q := fun (d : Bytes × EPtr) =>
            let r := parseSpace d.1 d.2
            match r.1 with
            | [] => .ok (ws, [], createError .UnexpectedEndFragment r.2)
            | b :: q =>
              if b = R then fixClose R ws (b :: q) r.2
              else if b ≠ c%',' then
                .ok (ws, [], createError .ExpectedOf r.2 (some k.commaMsg) ((b :: q).length : Nat))
              else fixLoop k S R ws q r.2) h.lawful h0 h2 hs (fun d H' hA' h2' => by
            have ok : ∀ r : Bytes × EPtr, HSim (Stands (listTy T) A) (Grown own (listTy T)) (vs, H') (.ok ((vs, H'), r)) (.ok (ws, r)) :=
              fun r => .ok ⟨hA', h2'⟩ ((Grown.order own (listTy T)).refl _)
            simp only
            cases (parseSpace d.1 d.2).1 with
            | nil => exact ok _
            | cons b q =>
              by_cases h3 : b = R
              · simp only [if_pos h3]; exact fixClose_sim R _ _ H' _ _ hA' h2'
              · by_cases h4 : b ≠ c%','
                · simp only [if_neg h3, if_pos h4]; exact ok _
                · simp only [if_neg h3, if_neg h4]; exact hfixLoop_sim h A k R vs ws H' q _ hA' h2')
          have close : ∀ {γ : Type} (l : List γ) (s : Bytes) (e : EPtr), ∃ r, ∀ l : List γ, fixClose R l s e = .ok (l, r) := by
            intro γ l s e
            cases s with
            | nil => exact ⟨_, fun _ => rfl⟩
            | cons b p =>
              by_cases hb : b ≠ R
              · exact ⟨_, fun _ => by simp only [fixClose, if_pos hb]; rfl⟩
              · exact ⟨_, fun _ => by simp only [fixClose, if_neg hb]; rfl⟩
          refine cast ?_ this
          congr 1
          · congr 1
            funext d
            simp only
            cases (parseSpace d.2.1 d.2.2).1 with
            | nil => rfl
            | cons b q =>
              by_cases h3 : b = R
              · simp only [if_pos h3]
                obtain ⟨r, hr⟩ := close vs (b :: q) (parseSpace d.2.1 d.2.2).2
                rw [hr, hr]; rfl
              · by_cases h4 : b ≠ c%','
                · simp only [if_neg h3, if_pos h4]; rfl
                · simp only [if_neg h3, if_neg h4]
          · congr 1
            funext d
            simp only
            cases (parseSpace d.2.1 d.2.2).1 with
            | nil => rfl
            | cons b q =>
              by_cases h3 : b = R
              · simp only [if_pos h3]
                obtain ⟨r, hr⟩ := close ws (b :: q) (parseSpace d.2.1 d.2.2).2
                rw [hr, hr]; rfl
              · by_cases h4 : b ≠ c%','
                · simp only [if_neg h3, if_pos h4]; rfl
                · simp only [if_neg h3, if_neg h4]

theorem fixed_sound {k : FixKind} {N : Nat} (h : Sound own HS S T) : Sound own (heapFix k N HS) (fixSer k N S) (listTy T) where
  lawful := collTy_lawful h.lawful
  blank := by
    refine ⟨fun H => ?_, ?_⟩
    · show All2 _ (List.replicate N HS.dflt.1) (List.replicate N S.dflt)
      induction N with
      | zero => exact .nil
      | succ N ih => exact .cons (h.blank.1 H) ih
    · show (List.replicate N HS.dflt.1).flatMap T.refs = []
      induction N with
      | zero => rfl
      | succ N ih => rw [List.replicate_succ, List.flatMap_cons, h.blank.2, ih]; rfl
  emit := by
    intro H A x w k hx
    show emitFix HS c%'[' c%']' (x.map fun v => (v, H)) k = emitFix S c%'[' c%']' w k
    unfold emitFix
    have : ∀ k, emitElems HS (x.map fun v => (v, H)) k = emitElems S w k :=
      fun k => emitElems_both (fun x w k hx => h.emit H A x w k hx) hx k
    simp only [this]
  de := by
    intro A s e x w hx
    have hE := Grown.order own (listTy T)
    show HSim _ _ x (deHFix k HS c%'[' c%']' x s e) (deFix k S c%'[' c%']' w s e)
    unfold deHFix deFix
    by_cases hn : isNull s = true
    · simp only [if_pos hn]
      exact HSim.bind hE (hfixNull_sim h A s x.1 w x.2 e hx.1 hx.2) fun x w r hx => .ok hx (hE.refl _)
    · simp only [if_neg hn]
      cases s with
      | nil => exact .ok hx (hE.refl _)
      | cons b p =>
        by_cases hb : b ≠ c%'['
        · simp only [if_pos hb]; exact .ok hx (hE.refl _)
        · simp only [if_neg hb]; exact hfixLoop_sim h A k _ x.1 w x.2 p e hx.1 hx.2

end

/-! ### Structures -/

section
variable {τ υ : Type} {T : HTy C τ υ} {L : List (Twin C τ υ)}

theorem Spec.PartsOf.lawful (h : PartsOf T L) (hL : ∀ m ∈ L, m.ty.Lawful) : T.Lawful := by
  obtain ⟨rest, h1, -⟩ := h.den
  refine ⟨fun hA hd => ?_, fun hH hd => ?_⟩
  · rw [h1] at hd ⊢
    exact ⟨hd.1, fun m hm => (hL m hm).wider hA (hd.2 m hm)⟩
  · rw [h1] at hd ⊢
    exact ⟨hd.1, fun m hm => (hL m hm).cells hH (hd.2 m hm)⟩

theorem Spec.PartsOf.other (h : PartsOf T L) {a b : Twin C τ υ} (ha : a ∈ L) (hb : b ∈ L) (hab : a ≠ b) :
    (∀ x t, a.get (b.set x t) = a.get t) ∧ ∀ y w, a.get' (b.set' y w) = a.get' w := by
  have hap := h.apart
  clear h
  induction L with
  | nil => cases ha
  | cons c L ih =>
    rw [List.pairwise_cons] at hap
    rcases List.mem_cons.mp ha with rfl | ha' <;> rcases List.mem_cons.mp hb with rfl | hb'
    · exact absurd rfl hab
    · have := hap.1 b hb'; exact ⟨this.1, this.2.2.1⟩
    · have := hap.1 a ha'; exact ⟨this.2.1, this.2.2.2⟩
    · exact ih ha' hb' hap.2

theorem Spec.PartsOf.store (h : PartsOf T L) (hL : ∀ m ∈ L, m.ty.Lawful) {m : Twin C τ υ} (hm : m ∈ L) {H H' : List C} {A : Nat → Prop} {t : τ} {w : υ}
    (hd : T.den H A t w) (hH : H <+: H') {x : m.α} {y : m.β} (hx : m.ty.den H' A x y) : T.den H' A (m.set x t) (m.set' y w) := by
  obtain ⟨rest, h1, h2⟩ := h.den
  rw [h1] at hd ⊢
  refine ⟨h2 m hm x y t w hd.1, fun m' hm' => ?_⟩
  by_cases he : m' = m
  · subst he
    rw [(h.get_set m' hm).1, (h.get_set m' hm).2]
    exact hx
  · rw [(h.other hm' hm he).1, (h.other hm' hm he).2]
    exact Lawful.later (hL m' hm') hH (hd.2 m' hm')

theorem Spec.PartsOf.part (h : PartsOf T L) {m : Twin C τ υ} (hm : m ∈ L) {H : List C} {A : Nat → Prop} {t : τ} {w : υ} (hd : T.den H A t w) :
    m.ty.den H A (m.get t) (m.get' w) := by
  obtain ⟨rest, h1, -⟩ := h.den
  rw [h1] at hd
  exact hd.2 m hm

theorem Spec.PartsOf.count (h : PartsOf T L) {m : Twin C τ υ} (hm : m ∈ L) (x : m.α) (t : τ) (a : Nat) :
    (T.refs (m.set x t)).count a + (m.ty.refs (m.get t)).count a ≤ (T.refs t).count a + (m.ty.refs x).count a := by
  rw [h.refs, h.refs]
  have hg := (h.get_set m hm).1 x t
  have hap := h.apart
  clear h
  have same : ∀ l : List (Twin C τ υ), (∀ b ∈ l, b.get (m.set x t) = b.get t) →
      (l.flatMap fun b => b.ty.refs (b.get (m.set x t))) = l.flatMap fun b => b.ty.refs (b.get t) := by
    intro l hl
    induction l with
    | nil => rfl
    | cons b l ih => rw [List.flatMap_cons, List.flatMap_cons, hl b (List.mem_cons_self ..), ih fun b hb => hl b (List.mem_cons_of_mem _ hb)]
  induction L with
  | nil => cases hm
  | cons b L ih =>
    rw [List.pairwise_cons] at hap
    rw [List.flatMap_cons, List.flatMap_cons, List.count_append, List.count_append]
    rcases List.mem_cons.mp hm with rfl | hm'
    · rw [hg, same L fun b hb => (hap.1 b hb).2.1 x t]
      omega
    · rw [(hap.1 m hm').1]
      have := ih hm' hap.2
      omega

/-- What is known of the parts. -/
structure PartsSound (own : C → List Nat) (T : HTy C τ υ) (L : List (Twin C τ υ)) : Prop where
  parts : PartsOf T L
  sound : ∀ m ∈ L, Sound own m.hser m.ser m.ty

theorem PartsSound.lawfuls (h : PartsSound own T L) : ∀ m ∈ L, m.ty.Lawful := fun m hm => (h.sound m hm).lawful

/-- The result of reading a part is stored. -/
theorem PartsSound.store (h : PartsSound own T L) {m : Twin C τ υ} (hm : m ∈ L) {A : Nat → Prop} {ρ κ : Type} (k : ρ → κ) {x : OnHeap C τ} {w : υ}
    (hx : Stands T A x w) {v0 : m.α} (h0 : m.ty.refs v0 = [] ∨ v0 = m.get x.1) {g : Out (OnHeap C m.α × ρ)} {p : Out (m.β × ρ)}
    (hg : HSim (Stands m.ty A) (Grown own m.ty) (v0, x.2) g p) :
    HSim (Stands T A) (Grown own T) x (g >>= fun d => .ok ((m.set d.1.1 x.1, d.1.2), k d.2)) (p >>= fun d => .ok (m.set' d.1 w, k d.2)) := by
  cases hg with
  | ub => exact .ub
  | fuel => exact .fuel
  | @ok y v r h1 h2 =>
    refine .ok ⟨h1.1, h.parts.store h.lawfuls hm hx.2 h2.heap h1.2⟩ (Grown.absorb h2 fun a => ?_)
    have := h.parts.count hm y.1 x.1 a
    simp only
    rcases h0 with h0 | h0
    · rw [h0, List.count_nil]; omega
    · rw [h0]; omega

theorem PartsSound.inPlace (h : PartsSound own T L) {m : Twin C τ υ} (hm : m ∈ L) (A : Nat → Prop) {κ : Type} (k : Bytes × EPtr → κ) (s : Bytes) (e : EPtr) :
    Tracks (Stands T A) (Grown own T) (fun x => m.hser.de (m.get x.1, x.2) s e >>= fun d => .ok ((m.set d.1.1 x.1, d.1.2), k d.2))
      fun w => m.ser.de (m.get' w) s e >>= fun d => .ok (m.set' d.1 w, k d.2) :=
  fun x _ hx => h.store hm k hx (.inr rfl) ((h.sound m hm).de A s e (m.get x.1, x.2) _ ⟨hx.1, h.parts.part hm hx.2⟩)

theorem PartsSound.fresh (h : PartsSound own T L) {m : Twin C τ υ} (hm : m ∈ L) (A : Nat → Prop) {κ : Type} (k : Bytes × EPtr → κ) (s : Bytes) (e : EPtr) :
    Tracks (Stands T A) (Grown own T) (fun x => m.hser.de (m.hser.dflt.1, x.2) s e >>= fun d => .ok ((m.set d.1.1 x.1, d.1.2), k d.2))
      fun w => m.ser.de m.ser.dflt s e >>= fun d => .ok (m.set' d.1 w, k d.2) :=
  fun _ _ hx => h.store hm k hx (.inl (h.sound m hm).blank.2) ((h.sound m hm).fresh hx.1 s e)

theorem PartsSound.member (h : PartsSound own T L) {m : Twin C τ υ} (hm : m ∈ L) (A : Nat → Prop) (s : Bytes) (e : EPtr) (u : Bool) :
    Tracks (Stands T A) (Grown own T) (fun x => deMember m.heap x s e u) fun w => deMember m.tree w s e u := by
  unfold deMember
  show Tracks _ _ (fun x => if (!(memberName m.name s e u).2.2) = true then _ else _) fun w => if (!(memberName m.name s e u).2.2) = true then _ else _
  by_cases hr : (!(memberName m.name s e u).2.2) = true
  · simp only [if_pos hr]; exact .ok (Grown.order ..) _
  · simp only [if_neg hr]
    exact h.inPlace hm A (fun d => (d.1, d.2, true)) _ _

theorem PartsSound.memberP (h : PartsSound own T L) {m : Twin C τ υ} (hm : m ∈ L) (A : Nat → Prop) (s : Bytes) (e : EPtr) (u : Bool) :
    Tracks (Stands T A) (Grown own T) (fun x => deHMemberP m.name m.set m.hser x s e u) fun w => deMemberP m.tree w s e u := by
  unfold deHMemberP deMemberP
  show Tracks _ _ (fun x => if (!(memberName m.name s e u).2.2) = true then _ else _) fun w => if (!(memberName m.name s e u).2.2) = true then _ else _
  by_cases hr : (!(memberName m.name s e u).2.2) = true
  · simp only [if_pos hr]; exact .ok (Grown.order ..) _
  · simp only [if_neg hr]
    exact h.fresh hm A (fun d => (d.1, d.2, true)) _ _

theorem PartsSound.null (h : PartsSound own T L) {m : Twin C τ υ} (hm : m ∈ L) (A : Nat → Prop) {κ : Type} {k : OnHeap C τ → Out (OnHeap C τ × κ)}
    {k' : υ → Out (υ × κ)} (hk : Tracks (Stands T A) (Grown own T) k k') :
    Tracks (Stands T A) (Grown own T) (fun x => readNull m.heap x >>= k) fun w => readNull m.tree w >>= k' := by
  have e1 : (fun x => readNull m.heap x >>= k) = fun x => (m.hser.de (m.get x.1, x.2) b!"null" .null >>= fun d => .ok ((m.set d.1.1 x.1, d.1.2), ())) >>= fun y => k y.1 := by
    funext x
    show ((m.hser.de (m.get x.1, x.2) b!"null" .null >>= fun d => .ok (m.set d.1.1 x.1, d.1.2)) >>= k) = _
    cases m.hser.de (m.get x.1, x.2) b!"null" .null <;> rfl
  have e2 : (fun w => readNull m.tree w >>= k') = fun w => (m.ser.de (m.get' w) b!"null" .null >>= fun d => .ok (m.set' d.1 w, ())) >>= fun y => k' y.1 := by
    funext w
    show ((m.ser.de (m.get' w) b!"null" .null >>= fun d => .ok (m.set' d.1 w)) >>= k') = _
    cases m.ser.de (m.get' w) b!"null" .null <;> rfl
  rw [e1, e2]
  exact Tracks.bind (Grown.order ..) (h.inPlace hm A (fun _ => ()) _ _) fun _ => hk

theorem PartsSound.memberIf (h : PartsSound own T L) {a b : Twin C τ υ} (ha : a ∈ L) (hb : b ∈ L) (A : Nat → Prop) (s : Bytes) (e : EPtr) (u : Bool) :
    Tracks (Stands T A) (Grown own T) (fun x => deMemberIf a.heap b.heap x s e u) fun w => deMemberIf a.tree b.tree w s e u := by
  unfold deMemberIf
  refine Tracks.bind (Grown.order ..) (h.member ha A s .fresh u) fun r => ?_
  obtain ⟨p, e1, u1⟩ := r
  by_cases hr : (!e1.failed) = true
  · simp only [if_pos hr]
    exact h.null hb A (.ok (Grown.order ..) _)
  · simp only [if_neg hr]
    exact h.null ha A (h.member hb A s e u1)

theorem PartsSound.place (h : PartsSound own T L) {x : Place C τ υ} (hx : ∀ m ∈ x.twins, m ∈ L) (A : Nat → Prop) (s : Bytes) (e : EPtr) (u : Bool) :
    Tracks (Stands T A) (Grown own T) (fun y => x.toHeap.de y s e u) fun w => x.toTree.toMember.de w s e u := by
  cases x with
  | mem m => exact h.member (hx m (by simp [Place.twins])) A s e u
  | prop m => exact h.memberP (hx m (by simp [Place.twins])) A s e u
  | alt l r d d' RU =>
    have h1 := hx l (by simp [Place.twins])
    have h2 := hx r (by simp [Place.twins])
    cases RU
    · exact h.memberIf h1 h2 A s e u
    · exact h.memberIf h2 h1 A s e u

theorem PartsSound.aplace (h : PartsSound own T L) {x : Place C τ υ} (hx : ∀ m ∈ x.twins, m ∈ L) (A : Nat → Prop) (s : Bytes) (e : EPtr) :
    Tracks (Stands T A) (Grown own T) (fun y => x.toAHeap.de y s e) fun w => x.toTree.toAMember.de w s e := by
  have alt : ∀ {a b : Twin C τ υ}, a ∈ L → b ∈ L → Tracks (Stands T A) (Grown own T) (fun x => deAMemberIf a.heap b.heap x s e) fun w => deAMemberIf a.tree b.tree w s e := by
    intro a b ha hb
    unfold deAMemberIf
    refine Tracks.bind (Grown.order ..) (h.inPlace ha A id s .fresh) fun r => ?_
    obtain ⟨p, e1⟩ := r
    by_cases hr : (!e1.failed) = true
    · simp only [if_pos hr]
      exact h.null hb A (.ok (Grown.order ..) _)
    · simp only [if_neg hr]
      exact h.null ha A (h.inPlace hb A id s e)
  cases x with
  | mem m => exact h.inPlace (hx m (by simp [Place.twins])) A id s e
  | prop m => exact h.fresh (hx m (by simp [Place.twins])) A id s e
  | alt l r d d' RU =>
    have h1 := hx l (by simp [Place.twins])
    have h2 := hx r (by simp [Place.twins])
    cases RU
    · exact alt h1 h2
    · exact alt h2 h1

theorem PartsSound.emitMember (h : PartsSound own T L) {m : Twin C τ υ} (hm : m ∈ L) {H : List C} {A : Nat → Prop} {t : τ} {w : υ} (hd : T.den H A t w) (k : Sink) :
    Wjson.emitMember m.heap (t, H) k = Wjson.emitMember m.tree w k := by
  unfold Wjson.emitMember
  have := fun k => (h.sound m hm).emit H A _ _ k (h.parts.part hm hd)
  show (emitName m.name k >>= fun k => m.hser.emit (m.get t, H) k) = (emitName m.name k >>= fun k => m.ser.emit (m.get' w) k)
  simp only [this]

theorem PartsSound.emitPlace (h : PartsSound own T L) {x : Place C τ υ} (hx : ∀ m ∈ x.twins, m ∈ L) (ha : x.Agree) {H : List C} {A : Nat → Prop} {t : τ} {w : υ}
    (hd : T.den H A t w) (k : Sink) : x.toHeap.emit (t, H) k = x.toTree.toMember.emit w k := by
  cases x with
  | mem m => exact h.emitMember (hx m (by simp [Place.twins])) hd k
  | prop m => exact h.emitMember (hx m (by simp [Place.twins])) hd k
  | alt l r d d' RU =>
    have h1 := hx l (by simp [Place.twins])
    have h2 := hx r (by simp [Place.twins])
    have h3 : d (l.get t) = d' (l.get' w) := ha H A _ _ (h.parts.part h1 hd)
    show (if !d (l.get t) then Wjson.emitMember l.heap (t, H) k else Wjson.emitMember r.heap (t, H) k) =
      (if !d' (l.get' w) then Wjson.emitMember l.tree w k else Wjson.emitMember r.tree w k)
    rw [h3, h.emitMember h1 hd, h.emitMember h2 hd]

theorem PartsSound.emitAPlace (h : PartsSound own T L) {x : Place C τ υ} (hx : ∀ m ∈ x.twins, m ∈ L) (ha : x.Agree) {H : List C} {A : Nat → Prop} {t : τ} {w : υ}
    (hd : T.den H A t w) (k : Sink) : x.toAHeap.emit (t, H) k = x.toTree.toAMember.emit w k := by
  have one : ∀ m ∈ L, m.hser.emit (m.get t, H) k = m.ser.emit (m.get' w) k := fun m hm => (h.sound m hm).emit H A _ _ k (h.parts.part hm hd)
  cases x with
  | mem m => exact one m (hx m (by simp [Place.twins]))
  | prop m => exact one m (hx m (by simp [Place.twins]))
  | alt l r d d' RU =>
    have h1 := hx l (by simp [Place.twins])
    have h2 := hx r (by simp [Place.twins])
    have h3 : d (l.get t) = d' (l.get' w) := ha H A _ _ (h.parts.part h1 hd)
    show (if !d (l.get t) then l.hser.emit (l.get t, H) k else r.hser.emit (r.get t, H) k) =
      (if !d' (l.get' w) then l.ser.emit (l.get' w) k else r.ser.emit (r.get' w) k)
    rw [h3, one l h1, one r h2]

theorem emitMembers_both {σ β : Type} {γ : Type _} {f : γ → Member σ} {g : γ → Member β} {x : σ} {w : β} : ∀ {P : List γ}, (∀ y ∈ P, ∀ k, (f y).emit x k = (g y).emit w k) →
    ∀ k, emitMembers (P.map f) x k = emitMembers (P.map g) w k
  | [], _, _ => rfl
  | [y], h, k => h y (List.mem_cons_self ..) k
  | y :: z :: P, h, k => by
    have ih := emitMembers_both (P := z :: P) fun y hy => h y (List.mem_cons_of_mem _ hy)
    simp only [List.map_cons, emitMembers] at ih ⊢
    rw [h y (List.mem_cons_self ..) k]
    simp only [ih]

theorem emitAMembers_both {σ β : Type} {γ : Type _} {f : γ → AMember σ} {g : γ → AMember β} {x : σ} {w : β} : ∀ {P : List γ}, (∀ y ∈ P, ∀ k, (f y).emit x k = (g y).emit w k) →
    ∀ k, emitAMembers (P.map f) x k = emitAMembers (P.map g) w k
  | [], _, _ => rfl
  | [y], h, k => h y (List.mem_cons_self ..) k
  | y :: z :: P, h, k => by
    have ih := emitAMembers_both (P := z :: P) fun y hy => h y (List.mem_cons_of_mem _ hy)
    simp only [List.map_cons, emitAMembers] at ih ⊢
    rw [h y (List.mem_cons_self ..) k]
    simp only [ih]

/-- A default structure. -/
theorem blank_grown {d : τ} {d' : υ} (hT : T.Lawful) (hb : BlankTarget T d d') (A : Nat → Prop) (x : OnHeap C τ) (w : υ) (hx : Stands T A x w) :
    Stands T A (d, x.2) d' ∧ Grown own T x (d, x.2) :=
  ⟨⟨hx.1, hT.wider (fun _ h => h.elim) (hb.1 x.2)⟩, ⟨List.prefix_refl _, fun a => by simp [Wjson.held, hb.2]⟩⟩

theorem object_sound {c : Cfg} {strict : Bool} {d : τ} {d' : υ} {P : List (Place C τ υ)} (h : PartsSound own T (P.flatMap Place.twins))
    (ha : ∀ x ∈ P, x.Agree) (hb : BlankTarget T d d') :
    Sound own (heapObject c strict d (P.map Place.toHeap)) (objectSer c strict d' (P.map fun x => x.toTree.toMember)) T where
  lawful := h.parts.lawful h.lawfuls
  blank := hb
  emit := by
    intro H A x w k hd
    show emitObject _ (x, H) k = emitObject _ w k
    unfold emitObject
    have : ∀ k, emitMembers (P.map Place.toHeap) (x, H) k = emitMembers (P.map fun y => y.toTree.toMember) w k :=
      emitMembers_both fun y hy k => h.emitPlace (x := y) (fun m hm => List.mem_flatMap.mpr ⟨y, hy, hm⟩) (ha y hy) hd k
    simp only [this]
  de := by
    intro A s e
    refine deObject_track (Grown.order ..) c strict (d := fun x => (d, x.2)) (blank_grown (h.parts.lawful h.lawfuls) hb A) ?_ s e
    have : ∀ y ∈ P, ∀ m ∈ y.twins, m ∈ P.flatMap Place.twins := fun y hy m hm => List.mem_flatMap.mpr ⟨y, hy, hm⟩
    revert this
    generalize P.flatMap Place.twins = L at h
    intro this
    clear ha
    induction P with
    | nil => exact .nil
    | cons y P ih =>
      exact .cons (fun s e u => h.place (this y (List.mem_cons_self ..)) A s e u) (ih fun y hy => this y (List.mem_cons_of_mem _ hy))

theorem objectArray_sound {d : τ} {d' : υ} {P : List (Place C τ υ)} (h : PartsSound own T (P.flatMap Place.twins))
    (ha : ∀ x ∈ P, x.Agree) (hb : BlankTarget T d d') :
    Sound own (heapObjectArray d (P.map Place.toAHeap)) (objectArraySer d' (P.map fun x => x.toTree.toAMember)) T where
  lawful := h.parts.lawful h.lawfuls
  blank := hb
  emit := by
    intro H A x w k hd
    show emitObjectArray _ (x, H) k = emitObjectArray _ w k
    unfold emitObjectArray
    have : ∀ k, emitAMembers (P.map Place.toAHeap) (x, H) k = emitAMembers (P.map fun y => y.toTree.toAMember) w k :=
      emitAMembers_both fun y hy k => h.emitAPlace (x := y) (fun m hm => List.mem_flatMap.mpr ⟨y, hy, hm⟩) (ha y hy) hd k
    simp only [this]
  de := by
    intro A s e
    refine deObjectArray_track (Grown.order ..) (d := fun x => (d, x.2)) (blank_grown (h.parts.lawful h.lawfuls) hb A) ?_ s e
    have : ∀ y ∈ P, ∀ m ∈ y.twins, m ∈ P.flatMap Place.twins := fun y hy m hm => List.mem_flatMap.mpr ⟨y, hy, hm⟩
    revert this
    generalize P.flatMap Place.twins = L at h
    intro this
    clear ha
    induction P with
    | nil => exact .nil
    | cons y P ih =>
      exact .cons (fun s e => h.aplace (this y (List.mem_cons_self ..)) A s e) (ih fun y hy => this y (List.mem_cons_of_mem _ hy))

theorem memberValue_sound {d : τ} {d' : υ} {m : Twin C τ υ} (h : PartsSound own T [m]) (hb : BlankTarget T d d') :
    Sound own (heapMemberValue d m.get m.set m.hser) (memberValueSer d' m.get' m.set' m.ser) T where
  lawful := h.parts.lawful h.lawfuls
  blank := hb
  emit := fun H A _ _ k hd => (h.sound m (List.mem_cons_self ..)).emit H A _ _ k (h.parts.part (List.mem_cons_self ..) hd)
  de := fun A s e => h.inPlace (List.mem_cons_self ..) A id s e

end

/-! ### Entries of dictionaries -/

section
variable {κ ν κ' ν' : Type} {HK : Ser (OnHeap C κ)} {HV : Ser (OnHeap C ν)} {SK : Ser κ'} {SV : Ser ν'} {T : HTy C κ κ'} {U : HTy C ν ν'}

theorem field_sound (h : Sound own HK SK T) (h' : Sound own HV SV U) : Sound own (heapField HK HV) (fieldSer SK SV) (pairTy T U) := by
  let a : Twin C (κ × ν) (κ' × ν') := ⟨[], fun t => t.1, fun x t => (x, t.2), fun t => t.1, fun x t => (x, t.2), HK, SK, T⟩
  let b : Twin C (κ × ν) (κ' × ν') := ⟨[], fun t => t.2, fun x t => (t.1, x), fun t => t.2, fun x t => (t.1, x), HV, SV, U⟩
  have hp : PartsSound own (pairTy T U) [a, b] := by
    refine ⟨⟨⟨fun _ _ => True, fun H A t w => ?_, fun _ _ _ _ _ _ _ => trivial⟩, fun t => ?_, ?_, ?_⟩, ?_⟩
    · simp only [List.mem_cons, List.not_mem_nil, or_false, forall_eq_or_imp, forall_eq, true_and]
      exact Iff.rfl
    · simp [pairTy, a, b]
    · simp only [List.mem_cons, List.not_mem_nil, or_false, forall_eq_or_imp, forall_eq]
      exact ⟨⟨fun _ _ => rfl, fun _ _ => rfl⟩, ⟨fun _ _ => rfl, fun _ _ => rfl⟩⟩
    · refine .cons ?_ (.cons nofun .nil)
      simp only [List.mem_cons, List.not_mem_nil, or_false, forall_eq]
      exact ⟨fun _ _ => rfl, fun _ _ => rfl, fun _ _ => rfl, fun _ _ => rfl⟩
    · simp only [List.mem_cons, List.not_mem_nil, or_false, forall_eq_or_imp, forall_eq]
      exact ⟨h, h'⟩
  have hE := Grown.order own (pairTy T U)
  refine ⟨hp.parts.lawful hp.lawfuls, ⟨fun H => ⟨h.blank.1 H, h'.blank.1 H⟩, ?_⟩, fun H A x w k hd => ?_, fun A s e => ?_⟩
  · show T.refs HK.dflt.1 ++ U.refs HV.dflt.1 = []
    rw [h.blank.2, h'.blank.2]; rfl
  · show (HK.emit (x.1, H) k >>= fun k => k.put c%':' >>= fun k => HV.emit (x.2, H) k) = emitField SK SV w k
    unfold emitField
    have := fun k => h'.emit H A _ _ k hd.2
    rw [h.emit H A _ _ k hd.1]
    simp only [this]
  · have e1 : (fun x : OnHeap C (κ × ν) => (heapField HK HV).de x s e) = fun x => (HK.de (x.1.1, x.2) s e >>= fun d => .ok (((d.1.1, x.1.2), d.1.2), d.2)) >>= fun d =>
        match (parseSpace d.2.1 d.2.2).1 with
        | [] => .ok (d.1, [], createError .UnexpectedEndFragment (parseSpace d.2.1 d.2.2).2)
        | b :: p =>
          if b ≠ c%':' then
            .ok (d.1, [], createError .ExpectedOf (parseSpace d.2.1 d.2.2).2 (some b!":") ((b :: p).length : Nat))
          else
            match (parseSpace p (parseSpace d.2.1 d.2.2).2).1 with
            | [] => .ok (d.1, [], createError .UnexpectedEndFragment (parseSpace p (parseSpace d.2.1 d.2.2).2).2)
            | b :: p' => HV.de (d.1.1.2, d.1.2) (b :: p') (parseSpace p (parseSpace d.2.1 d.2.2).2).2 >>= fun z => .ok (((d.1.1.1, z.1.1), z.1.2), z.2) := by
      funext x
      simp only [heapField]
      cases HK.de (x.1.1, x.2) s e <;> rfl
    have e2 : (fun t : κ' × ν' => (fieldSer SK SV).de t s e) = fun t => (SK.de t.1 s e >>= fun d => .ok ((d.1, t.2), d.2)) >>= fun d =>
        match (parseSpace d.2.1 d.2.2).1 with
        | [] => .ok (d.1, [], createError .UnexpectedEndFragment (parseSpace d.2.1 d.2.2).2)
        | b :: p =>
          if b ≠ c%':' then
            .ok (d.1, [], createError .ExpectedOf (parseSpace d.2.1 d.2.2).2 (some b!":") ((b :: p).length : Nat))
          else
            match (parseSpace p (parseSpace d.2.1 d.2.2).2).1 with
            | [] => .ok (d.1, [], createError .UnexpectedEndFragment (parseSpace p (parseSpace d.2.1 d.2.2).2).2)
            | b :: p' => SV.de d.1.2 (b :: p') (parseSpace p (parseSpace d.2.1 d.2.2).2).2 >>= fun z => .ok ((d.1.1, z.1), z.2) := by
      funext t
      show deField SK SV t s e = _
      unfold deField
      cases SK.de t.1 s e <;> rfl
    rw [e1, e2]
    refine Tracks.bind hE (hp.inPlace (m := a) (by simp) A id s e) fun r => ?_
    obtain ⟨p, e1⟩ := r
    simp only
    cases (parseSpace p e1).1 with
    | nil => exact .ok hE _
    | cons b' q =>
      by_cases hb : b' ≠ c%':'
      · simp only [if_pos hb]; exact .ok hE _
      · simp only [if_neg hb]
        cases (parseSpace q (parseSpace p e1).2).1 with
        | nil => exact .ok hE _
        | cons b'' q' => exact hp.inPlace (m := b) (by simp) A id _ _

end

theorem Spec.Heaped.sound {c : Cfg} {α β : Type} {HS : Ser (OnHeap C α)} {S : Ser β} {T : HTy C α β} (h : Heaped own c HS S T) : Sound own HS S T := by
  induction h with
  | leaf => exact leaf_sound
  | pointer _ hb ho ih => exact pointer_sound ih hb ho
  | quoted _ ih => exact quoted_heap_sound ih
  | seq _ hK ih => exact seq_sound ih hK
  | field _ _ ih ih' => exact field_sound ih ih'
  | fixed _ ih => exact fixed_sound ih
  | memberValue _ hp hb ih =>
    refine memberValue_sound ⟨hp, fun m hm => ?_⟩ hb
    rw [List.mem_singleton.mp hm]
    exact ih
  | object _ ha hp hb ih => exact object_sound ⟨hp, ih⟩ ha hb
  | objectArray _ ha hp hb ih => exact objectArray_sound ⟨hp, ih⟩ ha hb
  | unfinished hT hb => exact ⟨hT, hb, fun _ _ _ _ _ _ => rfl, fun _ _ _ _ _ _ => .fuel⟩

end

end Wjson
