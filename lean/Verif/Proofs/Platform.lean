import Verif.Spec.Platform
/-
What is defined under one configuration is the same under every configuration
that leaves less open.
-/
namespace Wjson

namespace Out.Below

theorem refl {α : Type} (a : Out α) : a.Below a := .inr rfl

theorem ub {α : Type} (a : Out α) : Out.Below .ub a := .inl rfl

theorem bind {α β : Type} {a b : Out α} {f g : α → Out β} (h : a.Below b) (hf : ∀ x, (f x).Below (g x)) :
    (a >>= f).Below (b >>= g) := by
  rcases h with rfl | rfl
  · exact .inl rfl
  · cases a with
    | ok x => exact hf x
    | ub => exact .inl rfl
    | fuel => exact .inr rfl

theorem ite {α : Type} {Q : Prop} [Decidable Q] {a b a' b' : Out α} (h1 : Q → a.Below a') (h2 : ¬ Q → b.Below b') :
    (if Q then a else b).Below (if Q then a' else b') := by
  by_cases h : Q
  · simpa only [if_pos h] using h1 h
  · simpa only [if_neg h] using h2 h

end Out.Below

/-- Walks through two copies of the same program. -/
syntax "mono" "[" term,* "]" : tactic
macro_rules
  | `(tactic| mono [$hs,*]) => do
    let hs := hs.getElems
    `(tactic| repeat' first
      | with_reducible exact Out.Below.refl _
      | with_reducible exact Out.Below.ub _
      | (first $[| apply $hs]*)
      | (refine Out.Below.bind ?_ fun _ => ?_)
      | (refine Out.Below.ite (fun _ => ?_) (fun _ => ?_))
      | split
      | dsimp only)

section
variable {en : Bool} {c c' : Cfg} (h : c.Below en c')
include h

theorem deref_below (s : Bytes) : (deref c s).Below (deref c' s) := by
  unfold deref
  cases s with
  | cons b t => exact .refl _
  | nil =>
    rcases h.past with h | h
    · simp only [h]; exact .ub _
    · simp only [h]; exact .refl _

theorem arith_below (ty : IntTy) (v : Int) : (ty.arith c v).Below (ty.arith c' v) := by
  unfold IntTy.arith
  refine .ite (fun _ => .refl _) fun _ => .ite (fun _ => .refl _) fun _ => ?_
  rcases h.wrapv with h | h
  · simp only [h]; exact .ub _
  · simp only [h]; exact .refl _

/-! ### The parser -/

theorem parserF_below (n : Nat) :
    (∀ s e, (parseValueF c n s e).Below (parseValueF c' n s e)) ∧ (∀ s e, (parseMemberF c n s e).Below (parseMemberF c' n s e)) ∧
    (∀ s e, (parseObjectF c n s e).Below (parseObjectF c' n s e)) ∧ (∀ s e, (objectLoopF c n s e).Below (objectLoopF c' n s e)) ∧
    (∀ s e, (parseArrayF c n s e).Below (parseArrayF c' n s e)) ∧ ∀ s e, (arrayLoopF c n s e).Below (arrayLoopF c' n s e) := by
  induction n with
  | zero => exact ⟨fun _ _ => .refl _, fun _ _ => .refl _, fun _ _ => .refl _, fun _ _ => .refl _, fun _ _ => .refl _, fun _ _ => .refl _⟩
  | succ n ih =>
    obtain ⟨h1, h2, h3, h4, h5, h6⟩ := ih
    refine ⟨fun s e => ?_, fun s e => ?_, fun s e => ?_, fun s e => ?_, fun s e => ?_, fun s e => ?_⟩
    · unfold parseValueF
      mono [h3, h5]
    · unfold parseMemberF
      mono [h1]
    · unfold parseObjectF
      mono [h4]
    · unfold objectLoopF
      mono [deref_below h, h2, h4]
    · unfold parseArrayF
      mono [h6]
    · unfold arrayLoopF
      mono [deref_below h, h1, h6]

theorem parseValue_below (s : Bytes) (e : EPtr) : (parseValue c s e).Below (parseValue c' s e) := (parserF_below h _).1 s e

theorem parseMember_below (s : Bytes) (e : EPtr) : (parseMember c s e).Below (parseMember c' s e) := (parserF_below h _).2.1 s e

/-! ### Scalars -/

theorem accInt_below (ty : IntTy) (v : Int) (s : Bytes) : (accInt c ty v s).Below (accInt c' ty v s) := by
  induction s generalizing v with
  | nil => exact .refl _
  | cons b t ih =>
    unfold accInt
    mono [arith_below h, ih]

theorem deInt_below (ty : IntTy) (v : Int) (s : Bytes) (e : EPtr) : (deInt c ty v s e).Below (deInt c' ty v s e) := by
  unfold deInt unserializeInteger
  mono [accInt_below h, arith_below h]

theorem skipLow_same (hen : en = true) (s : Bytes) : skipLow c s = skipLow c' s := by
  induction s with
  | nil => rfl
  | cons b s ih => simp only [skipLow, leSpace, h.charSigned hen, ih]; rfl

theorem deEnum_below (hen : en = true) {α : Type} (strict : Bool) (dflt : α) (L : List (Bytes × α)) (v : α) (s : Bytes) (e : EPtr) :
    (deEnum c strict dflt L v s e).Below (deEnum c' strict dflt L v s e) := by
  unfold deEnum
  rw [skipLow_same h hen]
  exact .refl _

theorem flagOneArr_below {w : Nat} (strict : Bool) (L : List (Bytes × BitVec w)) (v : BitVec w) (s : Bytes) (e : EPtr) (ready : Bool) :
    (flagOneArr c strict L v s e ready).Below (flagOneArr c' strict L v s e ready) := by
  induction L generalizing v s e ready with
  | nil =>
    unfold flagOneArr
    mono [deref_below h]
  | cons x L ih =>
    unfold flagOneArr
    mono [ih]

theorem flagLoopF_below {w : Nat} (F : Flags w) (arr : Bool) (n : Nat) (v : BitVec w) (s : Bytes) (e : EPtr) :
    (flagLoopF c F arr n v s e).Below (flagLoopF c' F arr n v s e) := by
  induction n generalizing v s e with
  | zero => exact .refl _
  | succ n ih =>
    unfold flagLoopF flagOne
    cases s with
    | nil => exact .refl _
    | cons b p =>
      dsimp only
      mono [flagOneArr_below h, ih]

theorem deFlags_below {w : Nat} (F : Flags w) (v : BitVec w) (s : Bytes) (e : EPtr) : (deFlags c F v s e).Below (deFlags c' F v s e) := by
  unfold deFlags
  mono [flagLoopF_below h]

theorem deRaw_below (v s : Bytes) (e : EPtr) : (deRaw c v s e).Below (deRaw c' v s e) := by
  unfold deRaw
  mono [parseValue_below h]

theorem deRawQuoted_below (reqQ : Bool) (v s : Bytes) (e : EPtr) : (deRawQuoted c reqQ v s e).Below (deRawQuoted c' reqQ v s e) := by
  unfold deRawQuoted
  mono [parseValue_below h]

/-! ### Units -/

theorem cop_below (ty : IntTy) (x : Int) : (cop c ty x).Below (cop c' ty x) := arith_below h _ x

theorem cdiv_below (ty : IntTy) (a b : Int) : (cdiv c ty a b).Below (cdiv c' ty a b) := by
  unfold cdiv
  mono [cop_below h]

theorem cmod_below (ty : IntTy) (a b : Int) : (cmod c ty a b).Below (cmod c' ty a b) := by
  unfold cmod
  mono [cdiv_below h]

theorem emitTime_below (ty : IntTy) (fr v : Int) (k : Sink) : (emitTime c ty fr v k).Below (emitTime c' ty fr v k) := by
  unfold emitTime timeTail
  mono [cdiv_below h, cop_below h, cmod_below h]

theorem timeAdd_below (ty : IntTy) (fr v cur m : Int) : (timeAdd c ty fr v cur m).Below (timeAdd c' ty fr v cur m) := by
  unfold timeAdd
  mono [cop_below h]

theorem timeAddSub_below (ty : IntTy) (fr v cur m : Int) : (timeAddSub c ty fr v cur m).Below (timeAddSub c' ty fr v cur m) := by
  unfold timeAddSub
  mono [cop_below h, cdiv_below h]

theorem timeLoopF_below (ty : IntTy) (fr : Int) (n : Nat) (v : Int) (s : Bytes) (e : EPtr) :
    (timeLoopF c ty fr n v s e).Below (timeLoopF c' ty fr n v s e) := by
  induction n generalizing v s e with
  | zero => cases s <;> exact .refl _
  | succ n ih =>
    cases s with
    | nil => exact .refl _
    | cons b t =>
      unfold timeLoopF
      mono [deInt_below h, timeAdd_below h, timeAddSub_below h, ih]

theorem deTime_below (ty : IntTy) (fr v : Int) (s : Bytes) (e : EPtr) : (deTime c ty fr v s e).Below (deTime c' ty fr v s e) := by
  unfold deTime
  mono [deInt_below h, timeLoopF_below h]

theorem emitSize_below (ty : IntTy) (metric v : Int) (k : Sink) : (emitSize c ty metric v k).Below (emitSize c' ty metric v k) := by
  unfold emitSize
  mono [arith_below h]

theorem sizeApply_below (ty : IntTy) (metric : Int) (beg : Bytes) (q : Int × Bytes × EPtr) :
    (sizeApply c ty metric beg q).Below (sizeApply c' ty metric beg q) := by
  unfold sizeApply
  mono [arith_below h]

theorem deSize_below (ty : IntTy) (metric v : Int) (s : Bytes) (e : EPtr) : (deSize c ty metric v s e).Below (deSize c' ty metric v s e) := by
  unfold deSize
  mono [deInt_below h, sizeApply_below h]

end

/-- What is claimed of the two serializers. -/
structure SerBelow {α : Type} (S S' : Ser α) : Prop where
  dflt : S.dflt = S'.dflt
  emit : ∀ v k, (S.emit v k).Below (S'.emit v k)
  de : ∀ v s e, (S.de v s e).Below (S'.de v s e)

/-- The same of two entries of member lists. -/
structure MemBelow {τ : Type} (m m' : Member τ) : Prop where
  emit : ∀ v k, (m.emit v k).Below (m'.emit v k)
  de : ∀ v s e u, (m.de v s e u).Below (m'.de v s e u)

structure AMemBelow {τ : Type} (m m' : AMember τ) : Prop where
  emit : ∀ v k, (m.emit v k).Below (m'.emit v k)
  de : ∀ v s e, (m.de v s e).Below (m'.de v s e)

section
variable {α κ ν C τ : Type} {S S' : Ser α}

theorem emitElems_below (h : SerBelow S S') (l : List α) (k : Sink) : (emitElems S l k).Below (emitElems S' l k) := by
  induction l generalizing k with
  | nil => exact .refl _
  | cons v l ih =>
    cases l with
    | nil => exact h.emit v k
    | cons w l =>
      unfold emitElems
      mono [h.emit, ih]

theorem seqLoopF_below (h : SerBelow S S') (K : Coll α C) (R : Byte) (n : Nat) (t : C) (s : Bytes) (e : EPtr) :
    (seqLoopF K S R n t s e).Below (seqLoopF K S' R n t s e) := by
  induction n generalizing t s e with
  | zero => exact .refl _
  | succ n ih =>
    unfold seqLoopF
    rw [h.dflt]
    mono [h.de, ih]

theorem seqSer_below (h : SerBelow S S') (K : Coll α C) (L R : Byte) : SerBelow (seqSer K S L R) (seqSer K S' L R) where
  dflt := rfl
  emit v k := by
    show (emitSeq K S L R v k).Below (emitSeq K S' L R v k)
    unfold emitSeq
    mono [emitElems_below h]
  de v s e := by
    show (deSeq K S L R v s e).Below (deSeq K S' L R v s e)
    unfold deSeq
    mono [seqLoopF_below h]

theorem fixNull_below (h : SerBelow S S') (s : Bytes) (l : List α) (e : EPtr) : (fixNull S s l e).Below (fixNull S' s l e) := by
  induction l generalizing e with
  | nil => exact .refl _
  | cons v l ih =>
    unfold fixNull
    mono [h.de, ih]

theorem fixLoop_below (h : SerBelow S S') (k : FixKind) (R : Byte) (l : List α) (s : Bytes) (e : EPtr) :
    (fixLoop k S R l s e).Below (fixLoop k S' R l s e) := by
  have hs : ∀ v, k.start S v = k.start S' v := by intro v; cases k <;> simp [FixKind.start, h.dflt]
  induction l generalizing s e with
  | nil => unfold fixLoop; exact .refl _
  | cons v l ih =>
    unfold fixLoop
    rw [hs]
    mono [h.de, ih]

theorem fixSer_below (h : SerBelow S S') (k : FixKind) (N : Nat) : SerBelow (fixSer k N S) (fixSer k N S') where
  dflt := by simp [fixSer, h.dflt]
  emit v s := by
    show (emitFix S _ _ v s).Below (emitFix S' _ _ v s)
    unfold emitFix
    mono [emitElems_below h]
  de v s e := by
    show (deFix k S _ _ v s e).Below (deFix k S' _ _ v s e)
    unfold deFix
    mono [fixNull_below h, fixLoop_below h]

theorem fieldSer_below {SK SK' : Ser κ} {SV SV' : Ser ν} (h : SerBelow SK SK') (h' : SerBelow SV SV') :
    SerBelow (fieldSer SK SV) (fieldSer SK' SV') where
  dflt := by simp [fieldSer, h.dflt, h'.dflt]
  emit v s := by
    show (emitField SK SV v s).Below (emitField SK' SV' v s)
    unfold emitField
    mono [h.emit, h'.emit]
  de v s e := by
    show (deField SK SV v s e).Below (deField SK' SV' v s e)
    unfold deField
    mono [h.de, h'.de]

theorem pointerSer_below (h : SerBelow S S') : SerBelow (pointerSer S) (pointerSer S') where
  dflt := rfl
  emit v s := by
    show (emitPointer S v s).Below (emitPointer S' v s)
    unfold emitPointer
    mono [h.emit]
  de v s e := by
    show (dePointer S v s e).Below (dePointer S' v s e)
    unfold dePointer
    rw [h.dflt]
    mono [h.de]

theorem deQuotedStr_below (h : SerBelow S S') (v : α) (s : Bytes) (e : EPtr) : (deQuotedStr S v s e).Below (deQuotedStr S' v s e) := by
  unfold deQuotedStr
  mono [h.de]

theorem quotedSer_below (h : SerBelow S S') (serQ reqQ : Bool) : SerBelow (quotedSer S serQ reqQ) (quotedSer S' serQ reqQ) where
  dflt := h.dflt
  emit v s := by
    show (emitQuoted S serQ v s).Below (emitQuoted S' serQ v s)
    unfold emitQuoted
    mono [h.emit]
  de v s e := by
    show (deQuoted S reqQ v s e).Below (deQuoted S' reqQ v s e)
    unfold deQuoted
    mono [deQuotedStr_below h, h.de]

theorem memberValueSer_below (h : SerBelow S S') (dflt : τ) (get : τ → α) (set : α → τ → τ) :
    SerBelow (memberValueSer dflt get set S) (memberValueSer dflt get set S') where
  dflt := rfl
  emit v s := h.emit _ _
  de v s e := .bind (h.de _ _ _) fun _ => .refl _

/-! ### Members -/

theorem emitMember_below (h : SerBelow S S') (n : Bytes) (get : τ → α) (set : α → τ → τ) (t : τ) (k : Sink) :
    (emitMember ⟨n, get, set, S⟩ t k).Below (emitMember ⟨n, get, set, S'⟩ t k) := .bind (.refl _) fun _ => h.emit _ _

theorem deMember_below (h : SerBelow S S') (n : Bytes) (get : τ → α) (set : α → τ → τ) (t : τ) (s : Bytes) (e : EPtr) (u : Bool) :
    (deMember ⟨n, get, set, S⟩ t s e u).Below (deMember ⟨n, get, set, S'⟩ t s e u) := by
  unfold deMember
  mono [h.de]

theorem deMemberP_below (h : SerBelow S S') (n : Bytes) (get : τ → α) (set : α → τ → τ) (t : τ) (s : Bytes) (e : EPtr) (u : Bool) :
    (deMemberP ⟨n, get, set, S⟩ t s e u).Below (deMemberP ⟨n, get, set, S'⟩ t s e u) := by
  unfold deMemberP
  dsimp only
  rw [h.dflt]
  mono [h.de]

theorem readNull_below (h : SerBelow S S') (n : Bytes) (get : τ → α) (set : α → τ → τ) (t : τ) :
    (readNull ⟨n, get, set, S⟩ t).Below (readNull ⟨n, get, set, S'⟩ t) := .bind (h.de _ _ _) fun _ => .refl _

section
variable {β : Type} {Q Q' : Ser β}

theorem deMemberIf_below (h : SerBelow S S') (h' : SerBelow Q Q') (nl nr : Bytes) (getl : τ → α) (setl : α → τ → τ)
    (getr : τ → β) (setr : β → τ → τ) (t : τ) (s : Bytes) (e : EPtr) (u : Bool) :
    (deMemberIf ⟨nl, getl, setl, S⟩ ⟨nr, getr, setr, Q⟩ t s e u).Below (deMemberIf ⟨nl, getl, setl, S'⟩ ⟨nr, getr, setr, Q'⟩ t s e u) := by
  unfold deMemberIf
  mono [deMember_below h, deMember_below h', readNull_below h, readNull_below h']

theorem deAMemberIf_below (h : SerBelow S S') (h' : SerBelow Q Q') (nl nr : Bytes) (getl : τ → α) (setl : α → τ → τ)
    (getr : τ → β) (setr : β → τ → τ) (t : τ) (s : Bytes) (e : EPtr) :
    (deAMemberIf ⟨nl, getl, setl, S⟩ ⟨nr, getr, setr, Q⟩ t s e).Below (deAMemberIf ⟨nl, getl, setl, S'⟩ ⟨nr, getr, setr, Q'⟩ t s e) := by
  unfold deAMemberIf amember
  mono [h.de, h'.de, readNull_below h, readNull_below h']

end

/-- Entry by entry. -/
inductive AllBelow {β : Type} (P : β → β → Prop) : List β → List β → Prop
  | nil : AllBelow P [] []
  | cons {a b l l'} : P a b → AllBelow P l l' → AllBelow P (a :: l) (b :: l')

theorem AllBelow.of_map {β : Type} {P : β → β → Prop} {c c' : Cfg} {L : List (Cfg → β)} (h : ∀ m ∈ L, P (m c) (m c')) :
    AllBelow P (L.map fun m => m c) (L.map fun m => m c') := by
  induction L with
  | nil => exact .nil
  | cons m L ih => exact .cons (h m (by simp)) (ih fun m hm => h m (by simp [hm]))

theorem emitMembers_below {L L' : List (Member τ)} (h : AllBelow MemBelow L L') (t : τ) (k : Sink) :
    (emitMembers L t k).Below (emitMembers L' t k) := by
  induction h generalizing k with
  | nil => exact .refl _
  | cons h1 h2 ih =>
    cases h2 with
    | nil => exact h1.emit t k
    | cons h3 h4 =>
      unfold emitMembers
      mono [h1.emit, ih]

theorem searchMembers_below {en : Bool} {c c' : Cfg} (hc : c.Below en c') (strict : Bool) {L L' : List (Member τ)} (h : AllBelow MemBelow L L')
    (t : τ) (s : Bytes) (e : EPtr) : (searchMembers c strict L t s e).Below (searchMembers c' strict L' t s e) := by
  induction h generalizing t s e with
  | nil =>
    unfold searchMembers
    mono [parseMember_below hc]
  | cons h1 h2 ih =>
    unfold searchMembers
    mono [h1.de, ih]

theorem skipMembers_below {en : Bool} {c c' : Cfg} (hc : c.Below en c') (strict : Bool) (s : Bytes) (e : EPtr) :
    (skipMembers c strict s e).Below (skipMembers c' strict s e) := by
  have : ∀ n s e, (skipLoopF c strict n s e).Below (skipLoopF c' strict n s e) := by
    intro n
    induction n with
    | zero => exact fun _ _ => .refl _
    | succ n ih =>
      intro s e
      unfold skipLoopF
      mono [parseMember_below hc, ih]
  unfold skipMembers
  mono [this]

theorem membersF_below {en : Bool} {c c' : Cfg} (hc : c.Below en c') (strict : Bool) {L L' : List (Member τ)} (h : AllBelow MemBelow L L')
    (n : Nat) {l l' : List (Member τ)} (hl : AllBelow MemBelow l l') (t : τ) (s : Bytes) (e : EPtr) :
    (membersF c strict L n l t s e).Below (membersF c' strict L' n l' t s e) := by
  induction n generalizing l l' t s e with
  | zero => exact .refl _
  | succ n ih =>
    cases hl with
    | nil =>
      unfold membersF
      mono [skipMembers_below hc]
    | @cons a b m m' h1 h2 =>
      unfold membersF
      refine .bind (h1.de _ _ _ _) fun d => .bind ?_ fun x => ?_
      · mono [searchMembers_below hc strict h]
      · dsimp only
        split
        · exact .refl _
        · refine .ite (fun _ => .bind ?_ fun _ => .refl _) fun _ => .refl _
          cases d.2.2.2
          · exact ih (.cons h1 h2) _ _ _
          · exact ih h2 _ _ _

theorem objectSer_below {en : Bool} {c c' : Cfg} (hc : c.Below en c') (strict : Bool) (dflt : τ) {L L' : List (Member τ)} (h : AllBelow MemBelow L L') :
    SerBelow (objectSer c strict dflt L) (objectSer c' strict dflt L') where
  dflt := rfl
  emit v s := by
    show (emitObject L v s).Below (emitObject L' v s)
    unfold emitObject
    mono [emitMembers_below h]
  de v s e := by
    show (deObject c strict dflt L v s e).Below (deObject c' strict dflt L' v s e)
    unfold deObject objectBody
    mono [deref_below hc, membersF_below hc strict h _ h]

theorem emitAMembers_below {L L' : List (AMember τ)} (h : AllBelow AMemBelow L L') (t : τ) (k : Sink) :
    (emitAMembers L t k).Below (emitAMembers L' t k) := by
  induction h generalizing k with
  | nil => exact .refl _
  | cons h1 h2 ih =>
    cases h2 with
    | nil => exact h1.emit t k
    | cons h3 h4 =>
      unfold emitAMembers
      mono [h1.emit, ih]

theorem deAMembers_below {L L' : List (AMember τ)} (h : AllBelow AMemBelow L L') (t : τ) (s : Bytes) (e : EPtr) :
    (deAMembers L t s e).Below (deAMembers L' t s e) := by
  induction h generalizing t s e with
  | nil => exact .refl _
  | cons h1 h2 ih =>
    unfold deAMembers
    mono [h1.de, ih]

theorem objectArraySer_below (dflt : τ) {L L' : List (AMember τ)} (h : AllBelow AMemBelow L L') :
    SerBelow (objectArraySer dflt L) (objectArraySer dflt L') where
  dflt := rfl
  emit v s := by
    show (emitObjectArray L v s).Below (emitObjectArray L' v s)
    unfold emitObjectArray
    mono [emitAMembers_below h]
  de v s e := by
    show (deObjectArray dflt L v s e).Below (deObjectArray dflt L' v s e)
    unfold deObjectArray objectArrayBody
    mono [deAMembers_below h]

end

theorem serBelow_refl {α : Type} (S : Ser α) : SerBelow S S := ⟨rfl, fun _ _ => .refl _, fun _ _ _ => .refl _⟩

theorem serBelow_de {α : Type} {d : α} {em : Emit α} {de de' : De α} (h : ∀ v s e, (de v s e).Below (de' v s e)) :
    SerBelow ⟨d, em, de⟩ ⟨d, em, de'⟩ := ⟨rfl, fun _ _ => .refl _, h⟩

theorem serBelow_mk {α : Type} {d : α} {em em' : Emit α} {de de' : De α} (h : ∀ v k, (em v k).Below (em' v k))
    (h' : ∀ v s e, (de v s e).Below (de' v s e)) : SerBelow ⟨d, em, de⟩ ⟨d, em', de'⟩ := ⟨rfl, h, h'⟩

theorem member_below {τ α : Type} {S S' : Ser α} (h : SerBelow S S') (n : Bytes) (get : τ → α) (set : α → τ → τ) :
    MemBelow (member ⟨n, get, set, S⟩) (member ⟨n, get, set, S'⟩) := ⟨emitMember_below h n get set, deMember_below h n get set⟩

theorem memberP_below {τ α : Type} {S S' : Ser α} (h : SerBelow S S') (n : Bytes) (get : τ → α) (set : α → τ → τ) :
    MemBelow (memberP ⟨n, get, set, S⟩) (memberP ⟨n, get, set, S'⟩) := ⟨emitMember_below h n get set, deMemberP_below h n get set⟩

theorem memberIf_below {τ α β : Type} {S S' : Ser α} {Q Q' : Ser β} (h : SerBelow S S') (h' : SerBelow Q Q') (nl nr : Bytes) (getl : τ → α) (setl : α → τ → τ)
    (getr : τ → β) (setr : β → τ → τ) (isDflt : α → Bool) (RU : Bool) :
    MemBelow (memberIf ⟨nl, getl, setl, S⟩ ⟨nr, getr, setr, Q⟩ isDflt RU) (memberIf ⟨nl, getl, setl, S'⟩ ⟨nr, getr, setr, Q'⟩ isDflt RU) where
  emit t k := by
    unfold memberIf
    dsimp only
    exact .ite (fun _ => emitMember_below h nl getl setl _ _) fun _ => emitMember_below h' nr getr setr _ _
  de v s e u := by
    unfold memberIf
    dsimp only
    cases RU
    · exact deMemberIf_below h h' nl nr getl setl getr setr v s e u
    · exact deMemberIf_below h' h nr nl getr setr getl setl v s e u

theorem amember_below {τ α : Type} {S S' : Ser α} (h : SerBelow S S') (n : Bytes) (get : τ → α) (set : α → τ → τ) :
    AMemBelow (amember ⟨n, get, set, S⟩) (amember ⟨n, get, set, S'⟩) where
  emit t k := by unfold amember; exact h.emit _ _
  de t s e := by unfold amember; exact .bind (h.de _ _ _) fun _ => .refl _

theorem amemberP_below {τ α : Type} {S S' : Ser α} (h : SerBelow S S') (n : Bytes) (get : τ → α) (set : α → τ → τ) :
    AMemBelow (amemberP ⟨n, get, set, S⟩) (amemberP ⟨n, get, set, S'⟩) where
  emit t k := by unfold amemberP; exact h.emit _ _
  de t s e := by
    unfold amemberP
    dsimp only
    rw [h.dflt]
    exact .bind (h.de _ _ _) fun _ => .refl _

theorem amemberIf_below {τ α β : Type} {S S' : Ser α} {Q Q' : Ser β} (h : SerBelow S S') (h' : SerBelow Q Q') (nl nr : Bytes) (getl : τ → α) (setl : α → τ → τ)
    (getr : τ → β) (setr : β → τ → τ) (isDflt : α → Bool) (RU : Bool) :
    AMemBelow (amemberIf ⟨nl, getl, setl, S⟩ ⟨nr, getr, setr, Q⟩ isDflt RU) (amemberIf ⟨nl, getl, setl, S'⟩ ⟨nr, getr, setr, Q'⟩ isDflt RU) where
  emit t k := by
    unfold amemberIf
    dsimp only
    exact .ite (fun _ => h.emit _ _) fun _ => h'.emit _ _
  de v s e := by
    unfold amemberIf
    dsimp only
    cases RU
    · exact deAMemberIf_below h h' nl nr getl setl getr setr v s e
    · exact deAMemberIf_below h' h nr nl getr setr getl setl v s e

theorem Template.monotone {en : Bool} {c c' : Cfg} (hc : c.Below en c') {α : Type} {S : Cfg → Ser α} (h : Template en S) : SerBelow (S c) (S c') := by
  refine Template.rec (motive_1 := fun S _ => SerBelow (S c) (S c')) (motive_2 := fun m _ => MemBelow (m c) (m c'))
    (motive_3 := fun m _ => AMemBelow (m c) (m c')) ?_ ?_ ?_ ?_ ?_ ?_ ?_ ?_ ?_ ?_ ?_ ?_ ?_ ?_ ?_ ?_ ?_ ?_ ?_ ?_ ?_ ?_ ?_ ?_ ?_ ?_ h
  · exact fun ty => serBelow_de (deInt_below hc ty)
  · exact serBelow_refl _
  · exact serBelow_refl _
  · exact fun _ => serBelow_refl _
  · exact fun _ _ => serBelow_refl _
  · exact fun strict dflt L hen => serBelow_de (deEnum_below hc hen strict dflt L)
  · exact fun F => serBelow_de (deFlags_below hc F)
  · exact serBelow_de (deRaw_below hc)
  · exact fun _ reqQ => serBelow_de (deRawQuoted_below hc reqQ)
  · exact fun serQ reqQ _ h => quotedSer_below h serQ reqQ
  · exact fun _ h => pointerSer_below h
  · exact fun dflt get set _ _ h => memberValueSer_below h dflt get set
  · exact fun K _ _ h => seqSer_below h K _ _
  · exact fun k N _ _ _ h => fixSer_below h k N
  · exact fun _ _ h h' => fieldSer_below h h'
  · exact fun K _ _ _ _ h h' => seqSer_below (fieldSer_below h h') K _ _
  · exact fun strict dflt _ _ h => objectSer_below hc strict dflt (.of_map h)
  · exact fun dflt _ _ h => objectArraySer_below dflt (.of_map h)
  · exact fun ty fr => serBelow_mk (emitTime_below hc ty fr) (deTime_below hc ty fr)
  · exact fun ty metric => serBelow_mk (emitSize_below hc ty metric) (deSize_below hc ty metric)
  · exact fun n get set _ _ h => member_below h n get set
  · exact fun n get set _ _ h => memberP_below h n get set
  · exact fun nl nr getl setl getr setr _ _ isDflt RU _ _ h h' => memberIf_below h h' nl nr getl setl getr setr isDflt RU
  · exact fun n get set _ _ h => amember_below h n get set
  · exact fun n get set _ _ h => amemberP_below h n get set
  · exact fun nl nr getl setl getr setr _ _ isDflt RU _ _ h h' => amemberIf_below h h' nl nr getl setl getr setr isDflt RU

theorem multiDe_below {en : Bool} {c c' : Cfg} (hc : c.Below en c') {τ : Type} (L : List (Cfg → MultiArg τ))
    (h : ∀ a ∈ L, ∃ (α : Type) (get : τ → α) (set : α → τ → τ) (S : Cfg → Ser α), Template en S ∧ a = fun c => ⟨get, set, S c⟩)
    (t : τ) (s : Bytes) (e : EPtr) : (multiDe c (L.map fun a => a c) t s e).Below (multiDe c' (L.map fun a => a c') t s e) := by
  induction L generalizing t with
  | nil =>
    simp only [List.map_nil, multiDe]
    mono [parseValue_below hc]
  | cons a L ih =>
    obtain ⟨α, get, set, S, hS, rfl⟩ := h a (by simp)
    have ih := ih fun a ha => h a (by simp [ha])
    simp only [List.map_cons, multiDe]
    mono [(hS.monotone hc).de, ih]

/-- A template is a description on every platform. -/
theorem Template.described {en : Bool} {α : Type} {S : Cfg → Ser α} (h : Template en S) (c : Cfg) : Described c .all (S c) := by
  refine Template.rec (motive_1 := fun S _ => Described c .all (S c)) (motive_2 := fun m _ => DescribedM c .all (m c))
    (motive_3 := fun m _ => DescribedA c .all (m c)) ?_ ?_ ?_ ?_ ?_ ?_ ?_ ?_ ?_ ?_ ?_ ?_ ?_ ?_ ?_ ?_ ?_ ?_ ?_ ?_ ?_ ?_ ?_ ?_ ?_ ?_ h
  · exact fun ty => .int ty
  · exact .bool
  · exact .str
  · exact fun N => .chars N
  · exact fun F R => .float F R
  · exact fun strict dflt L _ => .enum strict dflt L
  · exact fun F => .flags F
  · exact .raw
  · exact fun _ _ => .rawQuoted _ _ rfl
  · exact fun _ _ _ h => .quoted _ _ rfl h
  · exact fun _ h => .pointer rfl h
  · exact fun _ _ _ _ _ h => .memberValue _ _ _ h
  · exact fun K _ _ h => .array K h
  · exact fun k N _ hN _ h => .fixed k N hN h
  · exact fun _ _ h h' => .field h h'
  · exact fun K _ _ _ _ h h' => .dict K h h'
  · intro _ strict dflt L _ h
    refine .object strict dflt _ fun m hm => ?_
    obtain ⟨m, hmL, rfl⟩ := List.mem_map.mp hm
    exact h m hmL
  · intro _ dflt L _ h
    refine .objectArray dflt _ fun m hm => ?_
    obtain ⟨m, hmL, rfl⟩ := List.mem_map.mp hm
    exact h m hmL
  · exact fun ty fr => .time ty fr rfl
  · exact fun ty metric => .size ty metric rfl
  · exact fun _ _ _ _ _ h => .member _ h
  · exact fun _ _ _ _ _ h => .memberP _ h
  · exact fun _ _ _ _ _ _ _ _ _ _ _ _ h h' => .memberIf _ _ _ _ h h'
  · exact fun _ _ _ _ _ h => .member _ h
  · exact fun _ _ _ _ _ h => .memberP _ h
  · exact fun _ _ _ _ _ _ _ _ _ _ _ _ h h' => .memberIf _ _ _ _ h h'

end Wjson
