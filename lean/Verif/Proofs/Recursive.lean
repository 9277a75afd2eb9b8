import Verif.Spec.Recursive
import Verif.Proofs.Described
import Verif.Proofs.Memory
import Verif.Proofs.Exact
import Verif.Proofs.Nested
import Verif.Proofs.Back
/-
Lemmas for C83: what a description reads of a text depends on what is in its place only through shorter texts.
-/
namespace Wjson
open Spec

/-- The empty text and texts that start with `n`. -/
def Idle (s : Bytes) : Prop := s = [] ∨ ∃ t, s = c%'n' :: t

/-- Two descriptions that read texts of fewer than `n` bytes alike, and (if `k`) also the empty text and those that start with `n`. -/
structure Alike {α : Type} (n : Nat) (k : Bool) (S S' : Ser α) : Prop where
  dflt : S.dflt = S'.dflt
  de : ∀ v s e, s.length < n ∨ (k = true ∧ Idle s) → S.de v s e = S'.de v s e

theorem Alike.short {α : Type} {n : Nat} {k : Bool} {S S' : Ser α} (h : Alike n k S S') {v : α} {s : Bytes} {e : EPtr} (hs : s.length < n) :
    S.de v s e = S'.de v s e := h.de v s e (.inl hs)

theorem Alike.less {α : Type} {n m : Nat} {k l : Bool} {S S' : Ser α} (h : Alike n k S S') (hm : m ≤ n) (hl : l = true → k = true) :
    Alike m l S S' := ⟨h.dflt, fun v s e hs => h.de v s e (hs.imp (fun h => by omega) fun h => ⟨hl h.1, h.2⟩)⟩

theorem bind_congr' {α β : Type} {x x' : Out α} {f f' : α → Out β} (h1 : x = x') (h2 : ∀ a, x = .ok a → f a = f' a) :
    (x >>= f) = (x' >>= f') := by
  subst h1
  cases x with
  | ok a => exact h2 a rfl
  | ub => rfl
  | fuel => rfl

theorem ite_congr' {α : Type} {P : Prop} [Decidable P] {x y x' y' : α} (h1 : P → x = x') (h2 : ¬P → y = y') :
    (if P then x else y) = (if P then x' else y') := by
  by_cases h : P
  · simpa [h] using h1 h
  · simpa [h] using h2 h

theorem idle_not {b : Byte} {t : Bytes} (hi : Idle (b :: t)) : b = c%'n' := by
  rcases hi with h | ⟨_, h⟩
  · cases h
  · cases h; rfl

section
variable {c : Cfg} {α C : Type} {n : Nat} {k : Bool}

theorem seqLoopF_alike {S S' : Ser α} {K : Coll α C} {R : Byte} (hS : Safe True S.de) (h : Alike n k S S') (m : Nat) :
    ∀ (t : C) (s : Bytes) (e : EPtr), s.length < n → seqLoopF K S R m t s e = seqLoopF K S' R m t s e := by
  induction m with
  | zero => intro t s e _; rfl
  | succ m ih =>
    intro t s e hs
    cases s with
    | nil => rfl
    | cons b0 s0 =>
      unfold seqLoopF
      cases hp1 : parseSpace (b0 :: s0) e with
      | mk p1 e1 =>
      have l1 := ((parseSpace_scan (b0 :: s0)).suffix e).length_le
      rw [hp1] at l1
      cases p1 with
      | nil => rfl
      | cons b q =>
        refine ite_congr' (fun _ => rfl) fun _ => ?_
        refine bind_congr' (by rw [h.dflt]; exact h.short (Nat.lt_of_le_of_lt l1 hs)) ?_
        rintro ⟨x, p2, e2⟩ hd
        have l2 := (hS.step hd).1.length_le
        have l3 := ((parseSpace_scan p2).suffix e2).length_le
        simp only
        cases hp3 : parseSpace p2 e2 with
        | mk p3 e3 =>
        rw [hp3] at l3
        cases p3 with
        | nil => rfl
        | cons b3 q3 =>
          refine ite_congr' (fun _ => rfl) fun _ => ite_congr' (fun _ => rfl) fun _ => ?_
          refine ih _ _ _ ?_
          simp only [List.length_cons] at l1 l2 l3 hs
          omega

theorem deSeq_alike {S S' : Ser α} {K : Coll α C} {L R : Byte} (hn : L ≠ c%'n') (hS : Safe True S.de) (h : Alike n k S S') (v : C) (s : Bytes) (e : EPtr)
    (hs : s.length < n + 1 ∨ Idle s) : deSeq K S L R v s e = deSeq K S' L R v s e := by
  unfold deSeq
  refine ite_congr' (fun _ => rfl) fun _ => ?_
  cases s with
  | nil => rfl
  | cons b t =>
    refine ite_congr' (fun _ => rfl) fun hb => ?_
    refine seqLoopF_alike hS h _ _ _ _ ?_
    rcases hs with hs | hs
    · simp only [List.length_cons] at hs; omega
    · exact absurd ((Classical.not_not.mp hb).symm.trans (idle_not hs)) hn

theorem seqSer_alike {S S' : Ser α} (K : Coll α C) {L R : Byte} (hn : L ≠ c%'n') (hS : Safe True S.de) (h : Alike n k S S') :
    Alike (n + 1) true (seqSer K S L R) (seqSer K S' L R) :=
  ⟨rfl, fun v s e hs => deSeq_alike hn hS h v s e (hs.imp id And.right)⟩

theorem fixNull_alike {S S' : Ser α} (h : Alike n k S S') {s : Bytes} (hs : s.length < n ∨ (k = true ∧ Idle s)) (t : List α) :
    ∀ e, fixNull S s t e = fixNull S' s t e := by
  induction t with
  | nil => intro e; rfl
  | cons v vs ih => intro e; exact bind_congr' (h.de v s e hs) fun d _ => bind_congr' (ih _) fun r _ => rfl

theorem fixLoop_alike {S S' : Ser α} {kind : FixKind} {R : Byte} (hS : Safe True S.de) (h : Alike n k S S') (t : List α) :
    ∀ (s : Bytes) (e : EPtr), s.length < n → fixLoop kind S R t s e = fixLoop kind S' R t s e := by
  induction t with
  | nil => intro s e _; rfl
  | cons v vs ih =>
    intro s e hs
    cases s with
    | nil => rfl
    | cons b0 s0 =>
      unfold fixLoop
      cases hp1 : parseSpace (b0 :: s0) e with
      | mk p1 e1 =>
      have l1 := ((parseSpace_scan (b0 :: s0)).suffix e).length_le
      rw [hp1] at l1
      cases p1 with
      | nil => rfl
      | cons b q =>
        refine ite_congr' (fun _ => rfl) fun _ => ?_
        refine bind_congr' ?_ ?_
        · have : kind.start S v = kind.start S' v := by cases kind; exact h.dflt; rfl
          rw [this]
          exact h.short (Nat.lt_of_le_of_lt l1 hs)
        rintro ⟨x, p2, e2⟩ hd
        have l2 := (hS.step hd).1.length_le
        have l3 := ((parseSpace_scan p2).suffix e2).length_le
        simp only
        cases hp3 : parseSpace p2 e2 with
        | mk p3 e3 =>
        rw [hp3] at l3
        cases p3 with
        | nil => rfl
        | cons b3 q3 =>
          refine ite_congr' (fun _ => rfl) fun _ => ite_congr' (fun _ => rfl) fun _ => ?_
          refine bind_congr' (ih _ _ ?_) fun _ _ => rfl
          simp only [List.length_cons] at l1 l2 l3 hs
          omega

theorem isNull_idle {s : Bytes} (h : isNull s = true) : Idle s := by
  cases s with
  | nil => exact .inl rfl
  | cons b t =>
    simp only [isNull] at h
    exact .inr ⟨t, by simpa using h⟩

theorem fixSer_alike {S S' : Ser α} (kind : FixKind) (N : Nat) (hS : Safe True S.de) (h : Alike n true S S') :
    Alike (n + 1) true (fixSer kind N S) (fixSer kind N S') := by
  refine ⟨by simp [fixSer, h.dflt], fun v s e hs => ?_⟩
  show deFix _ _ _ _ _ _ _ = deFix _ _ _ _ _ _ _
  unfold deFix
  refine ite_congr' (fun hn => bind_congr' (fixNull_alike h (.inr ⟨rfl, isNull_idle hn⟩) v e) fun _ _ => rfl) fun _ => ?_
  cases s with
  | nil => rfl
  | cons b t =>
    refine ite_congr' (fun _ => rfl) fun hb => fixLoop_alike hS h _ _ _ ?_
    rcases hs with hs | ⟨_, hs⟩
    · simp only [List.length_cons] at hs; omega
    · exact absurd ((Classical.not_not.mp hb).symm.trans (idle_not hs)) (by decide)

theorem fieldSer_alike {κ ν : Type} {SK SK' : Ser κ} {SV SV' : Ser ν} (hS : Safe True SK.de) (hK : Alike n k SK SK') (hV : Alike n k SV SV') :
    Alike n false (fieldSer SK SV) (fieldSer SK' SV') := by
  refine ⟨by simp [fieldSer, hK.dflt, hV.dflt], fun v s e hs => ?_⟩
  have hs : s.length < n := hs.resolve_right fun h => by cases h.1
  show deField _ _ _ _ _ = deField _ _ _ _ _
  unfold deField
  refine bind_congr' (hK.short hs) ?_
  rintro ⟨x, p, e1⟩ hd
  have l1 := (hS.step hd).1.length_le
  have l2 := ((parseSpace_scan p).suffix e1).length_le
  simp only
  cases hp2 : parseSpace p e1 with
  | mk p2 e2 =>
  rw [hp2] at l2
  cases p2 with
  | nil => rfl
  | cons b q =>
    refine ite_congr' (fun _ => rfl) fun _ => ?_
    have l3 := ((parseSpace_scan q).suffix e2).length_le
    simp only
    cases hp3 : parseSpace q e2 with
    | mk p3 e3 =>
    rw [hp3] at l3
    cases p3 with
    | nil => rfl
    | cons b3 q3 =>
      refine bind_congr' (hV.short ?_) fun _ _ => rfl
      simp only [List.length_cons] at l1 l2 l3 hs ⊢
      omega

theorem pointerSer_alike {S S' : Ser α} (h : Alike n k S S') : Alike n true (pointerSer S) (pointerSer S') := by
  refine ⟨rfl, fun v s e hs => ?_⟩
  cases s with
  | nil => rfl
  | cons b t =>
    refine ite_congr' (fun hb => bind_congr' ?_ fun _ _ => rfl) fun _ => rfl
    rw [h.dflt]
    exact h.short (hs.resolve_right fun hi => hb (idle_not hi.2))

theorem deQuotedStr_alike {S S' : Ser α} (h : Alike n k S S') (v : α) (s : Bytes) (e : EPtr) (hs : s.length < n ∨ (k = true ∧ Idle s)) :
    deQuotedStr S v s e = deQuotedStr S' v s e := by
  unfold deQuotedStr
  refine bind_congr' rfl fun r hr => ?_
  refine ite_congr' (fun _ => rfl) fun hf => ?_
  have hz := deStr_size (v := []) hr
  refine bind_congr' (h.de _ _ _ ?_) fun _ _ => rfl
  rcases hs with hs | ⟨hk, hi⟩
  · exact .inl (by omega)
  · refine .inr ⟨hk, .inl ?_⟩
    rcases hi with rfl | ⟨t, rfl⟩
    · exact List.length_eq_zero_iff.mp (by simp only [List.length_nil] at hz; omega)
    · have hr : deStr [] (c%'n' :: t) e = .ok r := hr
      unfold deStr at hr
      split at hr
      · cases hr; rfl
      · rename_i hn
        exact absurd (by simp [isNull]) hn

theorem quotedSer_alike {S S' : Ser α} (h : Alike n k S S') (serQ reqQ : Bool) : Alike n k (quotedSer S serQ reqQ) (quotedSer S' serQ reqQ) := by
  refine ⟨h.dflt, fun v s e hs => ?_⟩
  exact ite_congr' (fun _ => deQuotedStr_alike h v s e hs) fun _ => ite_congr' (fun _ => deQuotedStr_alike h v s e hs) fun _ => h.de v s e hs

theorem memberValueSer_alike {τ : Type} {S S' : Ser α} (h : Alike n k S S') (dflt : τ) (get : τ → α) (set : α → τ → τ) :
    Alike n k (memberValueSer dflt get set S) (memberValueSer dflt get set S') :=
  ⟨rfl, fun _ s e hs => bind_congr' (h.de _ s e hs) fun _ _ => rfl⟩

end

/-! ### Members -/

section
variable {c : Cfg} {τ : Type} {n : Nat} {k : Bool}

/-- The same for a member of an object. -/
def MAlike (n : Nat) (m m' : Member τ) : Prop := ∀ t s e u, s.length < n → m.de t s e u = m'.de t s e u

theorem member_alike {β : Type} {S S' : Ser β} (h : Alike n k S S') (name : Bytes) (get : τ → β) (set : β → τ → τ) :
    MAlike n (member ⟨name, get, set, S⟩) (member ⟨name, get, set, S'⟩) := by
  intro t s e u hs
  refine ite_congr' (fun _ => rfl) fun _ => ?_
  exact bind_congr' (h.short (Nat.lt_of_le_of_lt (memberName_length _ _ _ _) hs)) fun _ _ => rfl

theorem memberP_alike {β : Type} {S S' : Ser β} (h : Alike n k S S') (name : Bytes) (get : τ → β) (set : β → τ → τ) :
    MAlike n (memberP ⟨name, get, set, S⟩) (memberP ⟨name, get, set, S'⟩) := by
  intro t s e u hs
  refine ite_congr' (fun _ => rfl) fun _ => ?_
  simp only
  rw [h.dflt]
  exact bind_congr' (h.short (Nat.lt_of_le_of_lt (memberName_length _ _ _ _) hs)) fun _ _ => rfl

theorem readNull_alike {β : Type} {S S' : Ser β} (h : Alike n true S S') (name : Bytes) (get : τ → β) (set : β → τ → τ) (t : τ) :
    readNull ⟨name, get, set, S⟩ t = readNull ⟨name, get, set, S'⟩ t :=
  bind_congr' (h.de _ _ _ (.inr ⟨rfl, .inr ⟨b!"ull", rfl⟩⟩)) fun _ _ => rfl

theorem deMemberIf_alike {β γ : Type} {S S' : Ser β} {T T' : Ser γ} (h : Alike n true S S') (h' : Alike n true T T') (nl nr : Bytes) (gl : τ → β)
    (gr : τ → γ) (sl : β → τ → τ) (sr : γ → τ → τ) (t : τ) (s : Bytes) (e : EPtr) (u : Bool) (hs : s.length < n) :
    deMemberIf ⟨nl, gl, sl, S⟩ ⟨nr, gr, sr, T⟩ t s e u = deMemberIf ⟨nl, gl, sl, S'⟩ ⟨nr, gr, sr, T'⟩ t s e u := by
  refine bind_congr' (member_alike h nl gl sl t s .fresh u hs) fun d _ => ?_
  refine ite_congr' (fun _ => bind_congr' (readNull_alike h' ..) fun _ _ => rfl) fun _ => ?_
  exact bind_congr' (readNull_alike h ..) fun t _ => member_alike h' nr gr sr t s e _ hs

theorem memberIf_alike {β γ : Type} {S S' : Ser β} {T T' : Ser γ} (h : Alike n true S S') (h' : Alike n true T T') (nl nr : Bytes) (gl : τ → β)
    (gr : τ → γ) (sl : β → τ → τ) (sr : γ → τ → τ) (isDflt : β → Bool) (RU : Bool) :
    MAlike n (memberIf ⟨nl, gl, sl, S⟩ ⟨nr, gr, sr, T⟩ isDflt RU) (memberIf ⟨nl, gl, sl, S'⟩ ⟨nr, gr, sr, T'⟩ isDflt RU) := by
  intro t s e u hs
  cases RU with
  | true => exact deMemberIf_alike h' h _ _ _ _ _ _ t s e u hs
  | false => exact deMemberIf_alike h h' _ _ _ _ _ _ t s e u hs

theorem msafe_length {m : Member τ} (h : MSafe True m) {t t' : τ} {s p : Bytes} {e e' : EPtr} {u u' : Bool} (hd : m.de t s e u = .ok (t', p, e', u')) :
    p.length ≤ s.length := by
  rcases h t s e u with ⟨h1, _⟩ | ⟨t1, p1, e1, u1, h1, h2, _⟩
  · rw [h1] at hd; cases hd
  · rw [h1] at hd; cases hd; exact h2.length_le

theorem searchMembers_alike {ι : Type} {is : List ι} {F F' : ι → Member τ} {strict : Bool}
    (hs : ∀ i ∈ is, MSafe True (F i)) (h : ∀ i ∈ is, MAlike n (F i) (F' i)) (t : τ) (s : Bytes)
    (e : EPtr) (hn : s.length < n) : searchMembers c strict (is.map F) t s e = searchMembers c strict (is.map F') t s e := by
  induction is generalizing t s e with
  | nil => rfl
  | cons i is ih =>
    refine bind_congr' (h i (by simp) t s e false hn) ?_
    rintro ⟨t', p, e', u'⟩ hd
    have l1 := msafe_length (hs i (by simp)) hd
    refine ite_congr' (fun _ => rfl) fun _ => ?_
    exact ih (fun j hj => hs j (by simp [hj])) (fun j hj => h j (by simp [hj])) _ _ _ (by simp only; omega)

theorem membersF_alike {ι : Type} {is : List ι} {F F' : ι → Member τ} {strict : Bool} (hs : ∀ i ∈ is, MSafe True (F i))
    (h : ∀ i ∈ is, MAlike n (F i) (F' i)) (m : Nat) :
    ∀ (js : List ι) (t : τ) (s : Bytes) (e : EPtr), (∀ i ∈ js, i ∈ is) → s.length < n →
      membersF c strict (is.map F) m (js.map F) t s e = membersF c strict (is.map F') m (js.map F') t s e := by
  induction m with
  | zero => intro js t s e _ _; rfl
  | succ m ih =>
    intro js t s e hj hn
    cases js with
    | nil => rfl
    | cons j js =>
      have hji := hj j (by simp)
      simp only [List.map_cons]
      rw [membersF, membersF]
      refine bind_congr' (h j hji t s e false hn) ?_
      rintro ⟨t1, p1, e1, u1⟩ h1
      have l1 := msafe_length (hs j hji) h1
      simp only
      refine bind_congr' (ite_congr' (fun _ => rfl) fun _ => searchMembers_alike hs h _ _ _ (by omega)) ?_
      rintro ⟨t2, p2, e2⟩ h2
      have l2 : p2.length ≤ p1.length := by
        by_cases hu : u1 = true
        · rw [if_pos hu] at h2; cases h2; exact Nat.le_refl _
        · rw [if_neg hu] at h2
          exact (SafeOut.step (searchMembers_safe (U := True) (fun _ => trivial) (by
            intro m hm
            obtain ⟨i, hi, rfl⟩ := List.mem_map.mp hm
            exact hs i hi) _ _ _) h2).1.length_le
      have l3 := ((parseSpace_scan p2).suffix e2).length_le
      simp only
      cases hp3 : parseSpace p2 e2 with
      | mk p3 e3 =>
      rw [hp3] at l3
      cases p3 with
      | nil => rfl
      | cons b q =>
        refine ite_congr' (fun _ => ?_) fun _ => rfl
        have l4 := ((parseSpace_scan q).suffix e3).length_le
        simp only [List.length_cons] at l3
        refine bind_congr' ?_ fun _ _ => rfl
        cases u1 with
        | true => exact ih js t2 _ _ (fun i hi => hj i (by simp [hi])) (by simp only; omega)
        | false => exact ih (j :: js) t2 _ _ hj (by simp only; omega)

theorem objectSer_alike {ι : Type} {is : List ι} {F F' : ι → Member τ} (strict : Bool) (dflt : τ) (hs : ∀ i ∈ is, MSafe True (F i))
    (h : ∀ i ∈ is, MAlike n (F i) (F' i)) :
    Alike (n + 1) true (objectSer c strict dflt (is.map F)) (objectSer c strict dflt (is.map F')) := by
  refine ⟨rfl, fun t s e hn => ?_⟩
  show deObject _ _ _ _ _ _ _ = deObject _ _ _ _ _ _ _
  unfold deObject
  refine ite_congr' (fun _ => rfl) fun _ => ?_
  cases s with
  | nil => rfl
  | cons b p =>
    refine ite_congr' (fun _ => rfl) fun hb => ?_
    have hn : p.length < n := by
      rcases hn with hn | ⟨_, hn⟩
      · simp only [List.length_cons] at hn; omega
      · exact absurd ((Classical.not_not.mp hb).symm.trans (idle_not hn)) (by decide)
    unfold objectBody
    have l1 := ((parseSpace_scan p).suffix e).length_le
    simp only
    cases hp1 : parseSpace p e with
    | mk p1 e1 =>
    rw [hp1] at l1
    cases p1 with
    | nil => rfl
    | cons b1 q =>
      refine ite_congr' (fun _ => ?_) fun _ => rfl
      exact bind_congr' (membersF_alike hs h _ is t _ e1 (fun _ h => h) (Nat.lt_of_le_of_lt l1 hn)) fun _ _ => rfl

/-! ### Structures written as arrays -/

/-- The same for a member of an `object_array`. -/
def AAlike (n : Nat) (m m' : AMember τ) : Prop := ∀ t s e, s.length < n → m.de t s e = m'.de t s e

theorem amember_alike {β : Type} {S S' : Ser β} (h : Alike n k S S') (name : Bytes) (get : τ → β) (set : β → τ → τ) :
    AAlike n (amember ⟨name, get, set, S⟩) (amember ⟨name, get, set, S'⟩) :=
  fun _ _ _ hs => bind_congr' (h.short hs) fun _ _ => rfl

theorem amemberP_alike {β : Type} {S S' : Ser β} (h : Alike n k S S') (name : Bytes) (get : τ → β) (set : β → τ → τ) :
    AAlike n (amemberP ⟨name, get, set, S⟩) (amemberP ⟨name, get, set, S'⟩) := by
  intro t s e hs
  show (S.de S.dflt s e >>= _) = (S'.de S'.dflt s e >>= _)
  rw [h.dflt]
  exact bind_congr' (h.short hs) fun _ _ => rfl

theorem deAMemberIf_alike {β γ : Type} {S S' : Ser β} {T T' : Ser γ} (h : Alike n true S S') (h' : Alike n true T T') (nl nr : Bytes) (gl : τ → β)
    (gr : τ → γ) (sl : β → τ → τ) (sr : γ → τ → τ) (t : τ) (s : Bytes) (e : EPtr) (hs : s.length < n) :
    deAMemberIf ⟨nl, gl, sl, S⟩ ⟨nr, gr, sr, T⟩ t s e = deAMemberIf ⟨nl, gl, sl, S'⟩ ⟨nr, gr, sr, T'⟩ t s e := by
  refine bind_congr' (amember_alike h nl gl sl t s .fresh hs) fun d _ => ?_
  refine ite_congr' (fun _ => bind_congr' (readNull_alike h' ..) fun _ _ => rfl) fun _ => ?_
  exact bind_congr' (readNull_alike h ..) fun t _ => amember_alike h' nr gr sr t s e hs

theorem amemberIf_alike {β γ : Type} {S S' : Ser β} {T T' : Ser γ} (h : Alike n true S S') (h' : Alike n true T T') (nl nr : Bytes) (gl : τ → β)
    (gr : τ → γ) (sl : β → τ → τ) (sr : γ → τ → τ) (isDflt : β → Bool) (RU : Bool) :
    AAlike n (amemberIf ⟨nl, gl, sl, S⟩ ⟨nr, gr, sr, T⟩ isDflt RU) (amemberIf ⟨nl, gl, sl, S'⟩ ⟨nr, gr, sr, T'⟩ isDflt RU) := by
  intro t s e hs
  cases RU with
  | true => exact deAMemberIf_alike h' h _ _ _ _ _ _ t s e hs
  | false => exact deAMemberIf_alike h h' _ _ _ _ _ _ t s e hs

theorem deAMembers_alike {ι : Type} {is : List ι} {F F' : ι → AMember τ} (hs : ∀ i ∈ is, Safe True (F i).de)
    (h : ∀ i ∈ is, AAlike n (F i) (F' i)) (t : τ) (s : Bytes) (e : EPtr) (hn : s.length < n) :
    deAMembers (is.map F) t s e = deAMembers (is.map F') t s e := by
  induction is generalizing t s e with
  | nil => rfl
  | cons i is ih =>
    refine bind_congr' (h i (by simp) t s e hn) ?_
    rintro ⟨t1, p1, e1⟩ h1
    have l1 := ((hs i (by simp)).step h1).1.length_le
    have l2 := ((parseSpace_scan p1).suffix e1).length_le
    simp only
    cases hp2 : parseSpace p1 e1 with
    | mk p2 e2 =>
    rw [hp2] at l2
    cases p2 with
    | nil => rfl
    | cons b q =>
      refine ite_congr' (fun _ => ?_) fun _ => rfl
      have l3 := ((parseSpace_scan q).suffix e2).length_le
      simp only [List.length_cons] at l2
      exact bind_congr' (ih (fun j hj => hs j (by simp [hj])) (fun j hj => h j (by simp [hj])) _ _ _ (by simp only; omega)) fun _ _ => rfl

theorem objectArraySer_alike {ι : Type} {is : List ι} {F F' : ι → AMember τ} (dflt : τ) (hs : ∀ i ∈ is, Safe True (F i).de)
    (h : ∀ i ∈ is, AAlike n (F i) (F' i)) : Alike (n + 1) true (objectArraySer dflt (is.map F)) (objectArraySer dflt (is.map F')) := by
  refine ⟨rfl, fun t s e hn => ?_⟩
  show deObjectArray _ _ _ _ _ = deObjectArray _ _ _ _ _
  unfold deObjectArray
  refine ite_congr' (fun _ => rfl) fun _ => ?_
  cases s with
  | nil => rfl
  | cons b p =>
    refine ite_congr' (fun _ => rfl) fun hb => ?_
    have hn : p.length < n := by
      rcases hn with hn | ⟨_, hn⟩
      · simp only [List.length_cons] at hn; omega
      · exact absurd ((Classical.not_not.mp hb).symm.trans (idle_not hn)) (by decide)
    unfold objectArrayBody
    have l1 := ((parseSpace_scan p).suffix e).length_le
    simp only
    cases hp1 : parseSpace p e with
    | mk p1 e1 =>
    rw [hp1] at l1
    cases p1 with
    | nil => rfl
    | cons b1 q =>
      refine ite_congr' (fun _ => ?_) fun _ => rfl
      exact bind_congr' (deAMembers_alike hs h _ _ _ (Nat.lt_of_le_of_lt l1 hn)) fun _ _ => rfl

end

/-! ### All schemes -/

mutual

theorem Spec.Scheme.described {c : Cfg} {f : Features} {α : Type} {S : Ser α} (hS : Described c f S) :
    ∀ {β : Type} {i k : Bool} {F : Ser α → Ser β}, Scheme c f α i k F → Described c f (F S)
  | _, _, _, _, .here => hS
  | _, _, _, _, .other h => h
  | _, _, _, _, .weaken h _ _ => h.described hS
  | _, _, _, _, .pointer hf h => .pointer hf (h.described hS)
  | _, _, _, _, .quoted serQ reqQ hf h => .quoted serQ reqQ hf (h.described hS)
  | _, _, _, _, .memberValue d g s h => .memberValue d g s (h.described hS)
  | _, _, _, _, .array K h => .array K (h.described hS)
  | _, _, _, _, .fixed k N hN h => .fixed k N hN (h.described hS)
  | _, _, _, _, .field h h' => .field (h.described hS) (h'.described hS)
  | _, _, _, _, .dict K h h' => .dict K (h.described hS) (h'.described hS)
  | _, _, _, _, .object strict d L h => .object strict d _ (by
      intro m hm
      obtain ⟨M, hM, rfl⟩ := List.mem_map.mp hm
      exact (h M hM).described hS)
  | _, _, _, _, .objectArray d L h => .objectArray d _ (by
      intro m hm
      obtain ⟨M, hM, rfl⟩ := List.mem_map.mp hm
      exact (h M hM).described hS)

theorem Spec.SchemeM.described {c : Cfg} {f : Features} {α : Type} {S : Ser α} (hS : Described c f S) :
    ∀ {τ : Type} {M : Ser α → Member τ}, SchemeM c f α M → DescribedM c f (M S)
  | _, _, .member n g s h => .member ⟨n, g, s, _⟩ (h.described hS)
  | _, _, .memberP n g s h => .memberP ⟨n, g, s, _⟩ (h.described hS)
  | _, _, .memberIf nl nr gl gr sl sr d RU h h' => .memberIf ⟨nl, gl, sl, _⟩ ⟨nr, gr, sr, _⟩ d RU (h.described hS) (h'.described hS)

theorem Spec.SchemeA.described {c : Cfg} {f : Features} {α : Type} {S : Ser α} (hS : Described c f S) :
    ∀ {τ : Type} {M : Ser α → AMember τ}, SchemeA c f α M → DescribedA c f (M S)
  | _, _, .member n g s h => .member ⟨n, g, s, _⟩ (h.described hS)
  | _, _, .memberP n g s h => .memberP ⟨n, g, s, _⟩ (h.described hS)
  | _, _, .memberIf nl nr gl gr sl sr d RU h h' => .memberIf ⟨nl, gl, sl, _⟩ ⟨nr, gr, sr, _⟩ d RU (h.described hS) (h'.described hS)

end

theorem Described.safeTrue {c : Cfg} {f : Features} {α : Type} {S : Ser α} (h : Described c f S) : Safe True S.de := h.safe.mono fun _ => trivial

theorem DescribedM.safeTrue {c : Cfg} {f : Features} {τ : Type} {m : Member τ} (h : DescribedM c f m) : MSafe True m := by
  intro t s e u
  rcases h.safe t s e u with ⟨h1, _⟩ | h1
  · exact .inl ⟨h1, trivial⟩
  · exact .inr h1

theorem DescribedA.safeTrue {c : Cfg} {f : Features} {τ : Type} {m : AMember τ} (h : DescribedA c f m) : Safe True m.de := h.safe.mono fun _ => trivial

mutual

theorem Spec.Scheme.alike {c : Cfg} {f : Features} {α : Type} {S S' : Ser α} {n : Nat} (hS : Described c f S) (hA : Alike n false S S') :
    ∀ {β : Type} {i k : Bool} {F : Ser α → Ser β}, Scheme c f α i k F → Alike (n + i.toNat) k (F S) (F S')
  | _, _, _, _, .here => hA
  | _, _, _, _, .other _ => ⟨rfl, fun _ _ _ _ => rfl⟩
  | _, _, _, _, .weaken (inside := i') (i := i) h hi hk => (h.alike hS hA).less (by cases i <;> cases i' <;> simp_all) hk
  | _, _, _, _, .pointer _ h => pointerSer_alike (h.alike hS hA)
  | _, _, _, _, .quoted serQ reqQ _ h => quotedSer_alike (h.alike hS hA) serQ reqQ
  | _, _, _, _, .memberValue d g s h => memberValueSer_alike (h.alike hS hA) d g s
  | _, _, _, _, .array K h => seqSer_alike K (by decide) (h.described hS).safeTrue (h.alike hS hA)
  | _, _, _, _, .fixed k N _ h => fixSer_alike k N (h.described hS).safeTrue (h.alike hS hA)
  | _, _, _, _, .field h h' => fieldSer_alike (h.described hS).safeTrue (h.alike hS hA) (h'.alike hS hA)
  | _, _, _, _, .dict K h h' => seqSer_alike K (by decide) (Described.field (h.described hS) (h'.described hS)).safeTrue
      (fieldSer_alike (h.described hS).safeTrue (h.alike hS hA) (h'.alike hS hA))
  | _, _, _, _, .object strict d L h => objectSer_alike strict d (fun M hM => ((h M hM).described hS).safeTrue) fun M hM => (h M hM).alike hS hA
  | _, _, _, _, .objectArray d L h => objectArraySer_alike d (fun M hM => ((h M hM).described hS).safeTrue) fun M hM => (h M hM).alike hS hA

theorem Spec.SchemeM.alike {c : Cfg} {f : Features} {α : Type} {S S' : Ser α} {n : Nat} (hS : Described c f S) (hA : Alike n false S S') :
    ∀ {τ : Type} {M : Ser α → Member τ}, SchemeM c f α M → MAlike n (M S) (M S')
  | _, _, .member nm g s h => member_alike (h.alike hS hA) nm g s
  | _, _, .memberP nm g s h => memberP_alike (h.alike hS hA) nm g s
  | _, _, .memberIf nl nr gl gr sl sr d RU h h' => memberIf_alike (h.alike hS hA) (h'.alike hS hA) nl nr gl gr sl sr d RU

theorem Spec.SchemeA.alike {c : Cfg} {f : Features} {α : Type} {S S' : Ser α} {n : Nat} (hS : Described c f S) (hA : Alike n false S S') :
    ∀ {τ : Type} {M : Ser α → AMember τ}, SchemeA c f α M → AAlike n (M S) (M S')
  | _, _, .member nm g s h => amember_alike (h.alike hS hA) nm g s
  | _, _, .memberP nm g s h => amemberP_alike (h.alike hS hA) nm g s
  | _, _, .memberIf nl nr gl gr sl sr d RU h h' => amemberIf_alike (h.alike hS hA) (h'.alike hS hA) nl nr gl gr sl sr d RU

end

/-! ### Levels -/

section
variable {c : Cfg} {f : Features} {α : Type} {F : Ser α → Ser α} {d : α}

/-- Some description of every type. -/
def plainSer (d : α) : Ser α := memberValueSer d (fun _ => true) (fun _ v => v) boolSer

theorem plainSer_described (d : α) : Described c f (plainSer d) := .memberValue _ _ _ .bool

theorem levels_add (F : Ser α → Ser α) (S : Ser α) (n m : Nat) : levels F S (n + m) = levels F (levels F S m) n := by
  induction n with
  | zero => rw [Nat.zero_add]; rfl
  | succ n ih => rw [Nat.succ_add]; show F _ = F _; rw [ih]

theorem levels_dflt (h : Recursive c f F d) {S : Ser α} (hS : S.dflt = d) (n : Nat) : (levels F S n).dflt = d := by
  cases n with
  | zero => exact hS
  | succ n =>
    induction n with
    | zero => exact h.dflt S hS
    | succ n ih => exact h.dflt _ ih

theorem levels_described (h : Recursive c f F d) {S : Ser α} (hS : Described c f S) (n : Nat) : Described c f (levels F S n) := by
  induction n with
  | zero => exact hS
  | succ n ih => exact h.scheme.described ih

theorem levels_alike (h : Recursive c f F d) {S S' : Ser α} (hd : Described c f S) (hS : S.dflt = d) (hS' : S'.dflt = d) (n : Nat) :
    Alike n false (levels F S n) (levels F S' n) := by
  induction n with
  | zero => exact ⟨hS.trans hS'.symm, fun v s e hs => by simp at hs⟩
  | succ n ih => exact (h.scheme.alike (levels_described h hd n) ih).less (Nat.le_refl _) (by simp)

/-- More levels than bytes make no difference. -/
theorem levels_settle (h : Recursive c f F d) {S : Ser α} (hS : S.dflt = d) {n : Nat} {s : Bytes} (hn : s.length < n) (v : α) (e : EPtr) :
    (levels F S n).de v s e = (levels F (plainSer d) (s.length + 1)).de v s e := by
  have h1 := (levels_alike (n := s.length + 1) h (plainSer_described d) rfl (levels_dflt h hS (n - (s.length + 1)))).short (v := v) (e := e)
    (Nat.lt_succ_self s.length)
  rw [h1, ← levels_add, show s.length + 1 + (n - (s.length + 1)) = n by omega]

end

/-! ### Writing -/

/-- `x` has not returned, or is the same as `y`. -/
def Ahead {β : Type} (x y : Out β) : Prop := x = .fuel ∨ x = y

theorem Ahead.refl {β : Type} (x : Out β) : Ahead x x := .inr rfl

theorem Ahead.bind {β γ : Type} {x y : Out β} {f g : β → Out γ} (h : Ahead x y) (h' : ∀ a, Ahead (f a) (g a)) : Ahead (x >>= f) (y >>= g) := by
  rcases h with rfl | rfl
  · exact .inl rfl
  · cases x with
    | ok a => exact h' a
    | ub => exact .refl _
    | fuel => exact .inl rfl

theorem Ahead.ite {β : Type} {P : Prop} [Decidable P] {x y x' y' : Out β} (h : Ahead x x') (h' : Ahead y y') :
    Ahead (if P then x else y) (if P then x' else y') := by
  by_cases hp : P
  · simpa [hp] using h
  · simpa [hp] using h'

/-- The writer of `S'` is ahead of that of `S`. -/
def EAhead {β : Type} (S S' : Ser β) : Prop := ∀ v k, Ahead (S.emit v k) (S'.emit v k)

theorem emitElems_ahead {β : Type} {S S' : Ser β} (h : EAhead S S') : ∀ (l : List β) (k : Sink), Ahead (emitElems S l k) (emitElems S' l k)
  | [], _ => .refl _
  | [v], k => h v k
  | v :: w :: l, k => (h v k).bind fun _ => (Ahead.refl _).bind fun k => emitElems_ahead h (w :: l) k

theorem emitSeq_ahead {β C : Type} {S S' : Ser β} (h : EAhead S S') (K : Coll β C) (L R : Byte) : EAhead (seqSer K S L R) (seqSer K S' L R) :=
  fun _ _ => (Ahead.refl _).bind fun _ => (emitElems_ahead h _ _).bind fun _ => .refl _

theorem emitField_ahead {κ ν : Type} {SK SK' : Ser κ} {SV SV' : Ser ν} (h : EAhead SK SK') (h' : EAhead SV SV') :
    EAhead (fieldSer SK SV) (fieldSer SK' SV') :=
  fun _ _ => (h _ _).bind fun _ => (Ahead.refl _).bind fun _ => h' _ _

theorem emitMember_ahead {τ β : Type} {S S' : Ser β} (h : EAhead S S') (n : Bytes) (g : τ → β) (s : β → τ → τ) (t : τ) (k : Sink) :
    Ahead (emitMember ⟨n, g, s, S⟩ t k) (emitMember ⟨n, g, s, S'⟩ t k) :=
  (Ahead.refl _).bind fun _ => h _ _

theorem emitMembers_ahead {ι τ : Type} {F F' : ι → Member τ} : ∀ (is : List ι), (∀ i ∈ is, ∀ t k, Ahead ((F i).emit t k) ((F' i).emit t k)) →
    ∀ (t : τ) (k : Sink), Ahead (emitMembers (is.map F) t k) (emitMembers (is.map F') t k)
  | [], _, _, _ => .refl _
  | [i], h, t, k => h i (by simp) t k
  | i :: j :: l, h, t, k => (h i (by simp) t k).bind fun _ => (Ahead.refl _).bind fun k =>
      emitMembers_ahead (j :: l) (fun m hm => h m (List.mem_cons_of_mem _ hm)) t k

theorem emitAMembers_ahead {ι τ : Type} {F F' : ι → AMember τ} : ∀ (is : List ι), (∀ i ∈ is, ∀ t k, Ahead ((F i).emit t k) ((F' i).emit t k)) →
    ∀ (t : τ) (k : Sink), Ahead (emitAMembers (is.map F) t k) (emitAMembers (is.map F') t k)
  | [], _, _, _ => .refl _
  | [i], h, t, k => h i (by simp) t k
  | i :: j :: l, h, t, k => (h i (by simp) t k).bind fun _ => (Ahead.refl _).bind fun k =>
      emitAMembers_ahead (j :: l) (fun m hm => h m (List.mem_cons_of_mem _ hm)) t k

mutual

theorem Spec.Scheme.ahead {c : Cfg} {f : Features} {α : Type} {S S' : Ser α} (hA : EAhead S S') :
    ∀ {β : Type} {i k : Bool} {F : Ser α → Ser β}, Scheme c f α i k F → EAhead (F S) (F S')
  | _, _, _, _, .here => hA
  | _, _, _, _, .other _ => fun _ _ => .refl _
  | _, _, _, _, .weaken h _ _ => h.ahead hA
  | _, _, _, _, .pointer _ h => fun v k => match v with
      | none => .refl _
      | some v => h.ahead hA v k
  | _, _, _, _, .quoted _ _ _ h => fun v k => ((h.ahead hA v _).bind fun _ => .refl _).ite (h.ahead hA v k)
  | _, _, _, _, .memberValue _ _ _ h => fun _ _ => h.ahead hA _ _
  | _, _, _, _, .array K h => emitSeq_ahead (h.ahead hA) K _ _
  | _, _, _, _, .fixed _ _ _ h => fun _ _ => (Ahead.refl _).bind fun _ => (emitElems_ahead (h.ahead hA) _ _).bind fun _ => .refl _
  | _, _, _, _, .field h h' => emitField_ahead (h.ahead hA) (h'.ahead hA)
  | _, _, _, _, .dict K h h' => emitSeq_ahead (emitField_ahead (h.ahead hA) (h'.ahead hA)) K _ _
  | _, _, _, _, .object _ _ L h => fun t _ => (Ahead.refl _).bind fun k =>
      (emitMembers_ahead L (fun M hM => (h M hM).ahead hA) t k).bind fun _ => .refl _
  | _, _, _, _, .objectArray _ L h => fun t _ => (Ahead.refl _).bind fun k =>
      (emitAMembers_ahead L (fun M hM => (h M hM).ahead hA) t k).bind fun _ => .refl _

theorem Spec.SchemeM.ahead {c : Cfg} {f : Features} {α : Type} {S S' : Ser α} (hA : EAhead S S') :
    ∀ {τ : Type} {M : Ser α → Member τ}, SchemeM c f α M → ∀ t k, Ahead ((M S).emit t k) ((M S').emit t k)
  | _, _, .member n g s h => emitMember_ahead (h.ahead hA) n g s
  | _, _, .memberP n g s h => emitMember_ahead (h.ahead hA) n g s
  | _, _, .memberIf nl nr gl gr sl sr _ _ h h' => fun t k =>
      (emitMember_ahead (h.ahead hA) nl gl sl t k).ite (emitMember_ahead (h'.ahead hA) nr gr sr t k)

theorem Spec.SchemeA.ahead {c : Cfg} {f : Features} {α : Type} {S S' : Ser α} (hA : EAhead S S') :
    ∀ {τ : Type} {M : Ser α → AMember τ}, SchemeA c f α M → ∀ t k, Ahead ((M S).emit t k) ((M S').emit t k)
  | _, _, .member _ g _ h => fun t k => h.ahead hA (g t) k
  | _, _, .memberP _ g _ h => fun t k => h.ahead hA (g t) k
  | _, _, .memberIf _ _ gl gr _ _ _ _ h h' => fun t k => (h.ahead hA (gl t) k).ite (h'.ahead hA (gr t) k)

end

theorem levels_ahead {c : Cfg} {f : Features} {α : Type} {F : Ser α → Ser α} {d : α} (h : Recursive c f F d) (S : Ser α) (n m : Nat) (hm : n ≤ m) :
    EAhead (levels F (unfinished d) n) (levels F S m) := by
  rw [show m = n + (m - n) by omega, levels_add]
  generalize levels F S (m - n) = S
  induction n with
  | zero => exact fun _ _ => .inl rfl
  | succ n ih => exact h.scheme.ahead (ih (by omega))

/-- What is written for a structure starts with a brace. -/
theorem object_brace {c : Cfg} {τ : Type} {strict : Bool} {dflt : τ} {L : List (Entry τ)} {v : τ}
    (h : ∀ en ∈ L, GoodValue c en.ref.ser (en.ref.get v)) {t : Bytes}
    (ht : (objectSer c strict dflt (L.map Entry.toMember)).emit v ⟨[], .back⟩ = .ok ⟨t, .back⟩) : t.head? = some c%'{' := by
  have : ∃ ts, All2 (fun (m : Member τ) s => WritesBack m.emit v s) (L.map Entry.toMember) ts := by
    clear ht
    induction L with
    | nil => exact ⟨[], .nil⟩
    | cons en L ih =>
      obtain ⟨ts, hts⟩ := ih fun e he => h e (by simp [he])
      obtain ⟨t, ht⟩ := (h en (by simp)).rtb
      refine ⟨(c%'"' :: en.ref.name ++ b!"\":" ++ t) :: ts, .cons ?_ hts⟩
      intro m
      have key : emitMember en.ref v ⟨m, .back⟩ = .ok ⟨m ++ (c%'"' :: en.ref.name ++ b!"\":" ++ t), .back⟩ := by
        unfold emitMember emitName
        simp only [Sink.put_back, Sink.puts_back, Out.bind_ok]
        refine (ht.writes _).trans ?_
        simp
      cases en <;> exact key
  obtain ⟨ts, hts⟩ := this
  have h1 := emitObject_back hts []
  have h2 : emitObject (L.map Entry.toMember) v ⟨[], .back⟩ = .ok ⟨t, .back⟩ := ht
  rw [h1] at h2
  cases h2
  rfl

end Wjson
