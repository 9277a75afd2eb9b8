import Verif.Proofs.ErrArg
/-
Strings, flags and structures: how the readers depend on the error argument.
-/
namespace Wjson

/-! ### Strings -/

theorem hexVal_step1 (b : Byte) {E : EPtr → EPtr} (hE : Step1 E) : ∃ n F, Step1 F ∧ ∀ e, hexVal b (E e) = (n, F e) := by
  unfold hexVal
  split
  · exact ⟨_, _, hE, fun _ => rfl⟩
  · split
    · exact ⟨_, _, hE, fun _ => rfl⟩
    · split
      · exact ⟨_, _, hE, fun _ => rfl⟩
      · exact ⟨_, _, hE.create (by decide) _ _, fun _ => rfl⟩

theorem hexN_step1 (k acc : Nat) (s : Bytes) {E : EPtr → EPtr} (hE : Step1 E) : ∃ o F, Step1 F ∧ ∀ e, hexN k acc s (E e) = (o, F e) := by
  induction k generalizing acc s E with
  | zero => exact ⟨_, _, hE, fun _ => rfl⟩
  | succ k ih =>
    cases s with
    | nil => exact ⟨_, _, hE.create (by decide) _ _, fun _ => rfl⟩
    | cons b t =>
      obtain ⟨n, F, hF, h⟩ := hexVal_step1 b hE
      simp only [hexN, h]
      exact ih _ _ hF

theorem utf8Copy_step1 (i : Nat) (s : Bytes) (n : Nat) {E : EPtr → EPtr} (hE : Step1 E) :
    ∃ w p m F, Step1 F ∧ ∀ e, utf8Copy i s n (E e) = (w, p, m, F e) := by
  induction i generalizing s n with
  | zero => exact ⟨_, _, _, _, hE, fun _ => rfl⟩
  | succ i ih =>
    cases n with
    | zero => exact ⟨_, _, _, _, hE, fun _ => rfl⟩
    | succ n =>
      cases s with
      | nil => exact ⟨_, _, _, _, hE.create (by decide) _ _, fun _ => rfl⟩
      | cons b t =>
        obtain ⟨w, p, m, F, hF, h⟩ := ih t n
        exact ⟨b :: w, p, m, F, hF, fun e => by simp only [utf8Copy, h]⟩

theorem utf8Step_step1 (b : Byte) (t : Bytes) (n : Nat) {E : EPtr → EPtr} (hE : Step1 E) :
    ∃ w p m F, Step1 F ∧ ∀ e, utf8Step b t n (E e) = (w, p, m, F e) := by
  unfold utf8Step
  split
  · exact ⟨_, _, _, _, hE, fun _ => rfl⟩
  · split
    · exact utf8Copy_step1 _ _ _ hE
    · split
      · exact utf8Copy_step1 _ _ _ hE
      · split
        · exact utf8Copy_step1 _ _ _ hE
        · exact ⟨_, _, _, _, hE.create (by decide) _ _, fun _ => rfl⟩

theorem uhexStep_step1 (s : Bytes) (n : Nat) {E : EPtr → EPtr} (hE : Step1 E) :
    ∃ w p m F, Step1 F ∧ ∀ e, uhexStep s n (E e) = (w, p, m, F e) := by
  unfold uhexStep
  split
  · exact ⟨_, _, _, _, hE, fun _ => rfl⟩
  · obtain ⟨o, F, hF, h⟩ := hexN_step1 4 0 s hE
    simp only [h]
    cases o with
    | none => exact ⟨_, _, _, _, hF, fun _ => rfl⟩
    | some o =>
      obtain ⟨hex, p⟩ := o
      simp only
      repeat' split
      all_goals first
        | exact ⟨_, _, _, _, hF, fun _ => rfl⟩
        | exact ⟨_, _, _, _, hF.create (by decide) _ _, fun _ => rfl⟩

theorem xhexStep_step1 (s : Bytes) (n : Nat) {E : EPtr → EPtr} (hE : Step1 E) :
    ∃ w p m F, Step1 F ∧ ∀ e, xhexStep s n (E e) = (w, p, m, F e) := by
  unfold xhexStep
  obtain ⟨o, F, hF, h⟩ := hexN_step1 2 0 s hE
  simp only [h]
  cases o with
  | none => exact ⟨_, _, _, _, hF, fun _ => rfl⟩
  | some o => exact ⟨_, _, _, _, hF, fun _ => rfl⟩

theorem strStep_step1 (b : Byte) (t : Bytes) (n : Nat) {E : EPtr → EPtr} (hE : Step1 E) :
    ∃ w p m F, Step1 F ∧ ∀ e, strStep b t n (E e) = (w, p, m, F e) := by
  unfold strStep
  split
  · cases t with
    | nil => exact ⟨_, _, _, _, hE.create (by decide) _ _, fun _ => rfl⟩
    | cons x t =>
      simp only
      cases simpleEsc x with
      | some y => exact ⟨_, _, _, _, hE, fun _ => rfl⟩
      | none =>
        simp only
        split
        · exact uhexStep_step1 _ _ hE
        · split
          · exact xhexStep_step1 _ _ hE
          · exact ⟨_, _, _, _, hE.create (by decide) _ _, fun _ => rfl⟩
  · exact utf8Step_step1 _ _ _ hE

theorem strDec_step1 (s : Bytes) (n : Nat) {E : EPtr → EPtr} (hE : Step1 E) :
    ∃ w p F, Step1 F ∧ ∀ e, strDec s n (E e) = (w, p, F e) := by
  induction hl : s.length using Nat.strongRecOn generalizing s n E with
  | ind l ih =>
    cases s with
    | nil => exact ⟨[], [], _, hE.create (c := .UnexpectedEndFragment) (by decide) none 0, fun _ => by unfold strDec; rfl⟩
    | cons b t =>
      by_cases hb : b = c%'"'
      · exact ⟨[], t, _, hE, fun _ => by unfold strDec; rw [if_pos hb]⟩
      · by_cases hn : n = 0
        · exact ⟨[], [], _, hE.create (c := .ExpectedOf) (by decide) (some b!"\"") ((b :: t).length : Nat),
            fun _ => by unfold strDec; rw [if_neg hb, dif_pos hn]⟩
        · obtain ⟨w, p, m, F, hF, h⟩ := strStep_step1 b t n hE
          have hlt := strStep_length b t (E .null) hn
          rw [h] at hlt
          simp only at hlt
          obtain ⟨w2, p2, F2, hF2, h2⟩ := ih p.length (by omega) p m hF rfl
          exact ⟨w ++ w2, p2, F2, hF2, fun e => by rw [strDec, if_neg hb, dif_neg hn]; simp only [h, h2]⟩

namespace EP
variable {P : (α : Type) → ERead α → Prop} (H : EP P)
include H

theorem unserializeStr {α : Type} (s : Bytes) (k : Sink) (n : Nat) (f : Sink → α) :
    P α fun e => Wjson.unserializeStr s k n e >>= fun r => .ok (f r.1, r.2) := by
  cases s with
  | nil => exact H.err .id (f k) [] (by decide) _ _
  | cons b t =>
    simp only [Wjson.unserializeStr]
    split
    · exact H.err .id (f k) [] (by decide) _ _
    · obtain ⟨w, p, F, hF, h⟩ := strDec_step1 t n Step1.id
      simp only [h, Out.bind_assoc, Out.bind_ok]
      exact H.const _ fun k _ => H.ok hF _ _

theorem deStr (v s : Bytes) : P Bytes fun e => Wjson.deStr v s e := by
  unfold Wjson.deStr
  exact EP.ite (fun _ => H.scan (parseNull_scan s) .id _) (fun _ => H.unserializeStr s _ _ _)

theorem deCharArray (N : Nat) (v s : Bytes) : P Bytes fun e => Wjson.deCharArray N v s e := by
  unfold Wjson.deCharArray
  exact EP.ite (fun _ => H.scan (parseNull_scan s) .id _) (fun _ => H.unserializeStr s _ _ _)

end EP

/-! ### Flags -/

theorem flagOneStr_step1 {w : Nat} (sep : Byte) (strict : Bool) (L : List (Bytes × BitVec w)) (v : BitVec w) (s : Bytes) (ready : Bool)
    {E : EPtr → EPtr} (hE : Step1 E) : ∃ v' p F, Step1 F ∧ ∀ e, flagOneStr sep strict L v s (E e) ready = (v', p, F e) := by
  induction L generalizing v s ready E with
  | nil =>
    simp only [flagOneStr]
    split
    · exact ⟨_, _, _, hE, fun _ => rfl⟩
    · obtain ⟨p, F, hF, _, h⟩ := (parseSpace_scan s).step hE
      simp only [h]
      obtain ⟨q, F, hF, _, h⟩ := (parseSpace_scan (toSep sep p)).step hF
      simp only [h]
      cases q with
      | nil => exact ⟨_, _, _, hF, fun _ => rfl⟩
      | cons b q =>
        simp only
        obtain ⟨q, F, hF, _, h⟩ := (parseSpace_scan (if b = sep then q else b :: q)).step hF
        exact ⟨_, _, _, hF, fun e => by rw [h]⟩
  | cons x L ih =>
    simp only [flagOneStr]
    split
    · exact ⟨_, _, _, hE, fun _ => rfl⟩
    · have hsp : ∀ (t : Bytes) {E : EPtr → EPtr}, Step1 E → ∃ p F, Step1 F ∧
          ∀ e, (if sep ≠ c%' ' then parseSpace t (E e) else (t, E e)) = (p, F e) := by
        intro t E hE
        by_cases hs : sep ≠ c%' '
        · obtain ⟨p, F, hF, _, h⟩ := (parseSpace_scan t).step hE
          exact ⟨p, F, hF, fun e => by rw [if_pos hs, h]⟩
        · exact ⟨t, E, hE, fun e => by rw [if_neg hs]⟩
      obtain ⟨p, F, hF, h⟩ := hsp s hE
      simp only [h]
      cases p with
      | nil => exact ⟨_, _, _, hF, fun _ => rfl⟩
      | cons b p =>
        simp only
        split
        · exact ⟨_, _, _, hF, fun _ => rfl⟩
        · split
          · next d q _ =>
            split
            · obtain ⟨p2, F2, hF2, h2⟩ := hsp (d :: q) hF
              simp only [h2]
              cases p2 with
              | nil => exact ⟨_, _, _, hF2, fun _ => rfl⟩
              | cons d q =>
                simp only
                split
                · exact ⟨_, _, _, hF2, fun _ => rfl⟩
                · exact ih _ _ _ hF2
            · exact ih _ _ _ hF
          · exact ih _ _ _ hF

namespace EP
variable {P : (α : Type) → ERead α → Prop} (H : EP P)
include H

theorem flagOneArr {w : Nat} (c : Cfg) (strict : Bool) (L : List (Bytes × BitVec w)) (v : BitVec w) (s : Bytes) (ready : Bool) :
    P _ fun e => Wjson.flagOneArr c strict L v s e ready := by
  induction L generalizing v s ready with
  | nil =>
    simp only [Wjson.flagOneArr]
    refine EP.ite (fun _ => H.ok .id _ _) (fun _ => ?_)
    obtain ⟨p, F, hF, _, h⟩ := (parseSpace_scan s).step .id
    simp only [h]
    refine H.const _ fun b _ => EP.ite (fun _ => H.ok hF _ _) (fun _ => ?_)
    obtain ⟨q, F, hF, _, h⟩ := (parseString_scan p).step hF
    simp only [h]
    obtain ⟨q, F, hF, _, h⟩ := (parseSpace_scan q).step hF
    simp only [h]
    cases q with
    | nil => exact H.ok hF _ _
    | cons b q => exact H.scan (parseSpace_scan _) hF _
  | cons x L ih =>
    simp only [Wjson.flagOneArr]
    obtain ⟨p, F, hF, _, h⟩ := (parseSpace_scan s).step .id
    simp only [h]
    cases p with
    | nil => exact H.ok hF _ _
    | cons b p =>
      simp only
      refine EP.ite (fun _ => H.ok hF _ _) (fun _ => EP.ite (fun _ => H.err hF _ _ (by decide) _ _) (fun _ => ?_))
      split
      · next d q _ =>
        refine EP.ite (fun _ => ?_) (fun _ => (H.pre hF (ih v (b :: p) ready) :))
        obtain ⟨p2, F, hF, _, h⟩ := (parseSpace_scan q).step hF
        simp only [h]
        cases p2 with
        | nil => exact H.ok hF _ _
        | cons d q =>
          refine EP.ite (fun _ => H.ok hF _ _) (fun _ => ?_)
          obtain ⟨p2, F, hF, _, h⟩ := (parseSpace_scan q).step hF
          simp only [h]
          exact (H.pre hF (ih (v ||| x.2) p2 true) :)
      · exact (H.pre hF (ih v (b :: p) ready) :)

theorem flagOne {w : Nat} (c : Cfg) (F : Flags w) (arr : Bool) (v : BitVec w) (s : Bytes) : P _ fun e => Wjson.flagOne c F arr v s e := by
  unfold Wjson.flagOne
  refine EP.ite (fun _ => H.flagOneArr _ _ _ _ _ _) (fun _ => ?_)
  obtain ⟨v', p, G, hG, h⟩ := flagOneStr_step1 F.sep F.strict F.list v s false Step1.id
  simp only [h]
  exact H.ok hG _ _

theorem flagLoopF {w : Nat} (c : Cfg) (F : Flags w) (arr : Bool) (n : Nat) (v : BitVec w) (s : Bytes) :
    P _ fun e => Wjson.flagLoopF c F arr n v s e := by
  induction n generalizing v s with
  | zero => exact H.fuel
  | succ n ih =>
    cases s with
    | nil => exact H.ok .id _ _
    | cons b p =>
      simp only [Wjson.flagLoopF]
      refine EP.ite (fun _ => H.ok .id _ _) (fun _ => H.bind (H.flagOne c F arr v (b :: p)) fun v' q => ?_)
      simp only
      refine EP.ite (fun _ => H.err .id _ _ (by decide) _ _) (fun _ => EP.ite (fun _ => H.err .id _ _ (by decide) _ _) (fun _ => ih _ _))

theorem deFlags {w : Nat} (c : Cfg) (F : Flags w) (v : BitVec w) (s : Bytes) : P _ fun e => Wjson.deFlags c F v s e := by
  cases s with
  | nil => exact H.err .id _ _ (by decide) _ _
  | cons b p =>
    simp only [Wjson.deFlags]
    refine EP.ite (fun _ => H.err .id _ _ (by decide) _ _) (fun _ => H.bind (H.flagLoopF c F _ _ 0 p) fun v' q => ?_)
    cases q with
    | nil => exact H.err .id _ _ (by decide) _ _
    | cons d q => exact EP.ite (fun _ => H.err .id _ _ (by decide) _ _) (fun _ => H.ok .id _ _)

/-! ### Structures -/

theorem deMember {τ : Type} {m : MRef τ} (hm : ∀ v s, P m.α fun e => m.ser.de v s e) (start : τ → m.α) (t : τ) (s : Bytes) (u : Bool) :
    P (τ × Bool) fun e =>
      (let r := memberName m.name s e u
       if !r.2.2 then .ok (t, r)
       else m.ser.de (start t) r.1 r.2.1 >>= fun d => (.ok (m.set d.1 t, d.2.1, d.2.2, true) : Out (τ × Bytes × EPtr × Bool))) >>=
      fun d => .ok ((d.1, d.2.2.2), d.2.1, d.2.2.1) := by
  have hn : ∃ p u' F, Step1 F ∧ ∀ e, memberName m.name s e u = (p, F e, u') := by
    unfold memberName
    cases s with
    | nil => exact ⟨_, _, _, .err (by decide) _ _, fun _ => rfl⟩
    | cons b t =>
      simp only
      split
      · exact ⟨_, _, _, .err (by decide) _ _, fun _ => rfl⟩
      · split
        · exact ⟨_, _, _, .err (by decide) _ _, fun _ => rfl⟩
        · next b' p _ =>
          split
          · exact ⟨_, _, _, .id, fun _ => rfl⟩
          · obtain ⟨p, F, hF, _, h⟩ := (parseSpace_scan p).step .id
            simp only [h]
            cases p with
            | nil => exact ⟨_, _, _, hF.create (by decide) _ _, fun _ => rfl⟩
            | cons b p =>
              simp only
              split
              · exact ⟨_, _, _, hF.create (by decide) _ _, fun _ => rfl⟩
              · obtain ⟨p, F, hF, _, h⟩ := (parseSpace_scan p).step hF
                simp only [h]
                cases p with
                | nil => exact ⟨_, _, _, hF.create (by decide) _ _, fun _ => rfl⟩
                | cons b p => exact ⟨_, _, _, hF, fun _ => rfl⟩
  obtain ⟨p, u', F, hF, h⟩ := hn
  simp only [h]
  cases u' with
  | false => exact H.ok hF (t, false) p
  | true =>
    simp only [Bool.not_true, Bool.false_eq_true, if_false, Out.bind_assoc, Out.bind_ok]
    exact H.bind (H.pre hF (hm (start t) p) :) fun v q => H.ok .id (m.set v t, true) q

omit H in
/-- A member reader. -/
def M (P : (α : Type) → ERead α → Prop) {τ : Type} (de : τ → Bytes → EPtr → Bool → Out (τ × Bytes × EPtr × Bool)) : Prop :=
  ∀ t s u, P (τ × Bool) fun e => de t s e u >>= fun d => .ok ((d.1, d.2.2.2), d.2.1, d.2.2.1)

theorem M.bind {τ β : Type} {de : τ → Bytes → EPtr → Bool → Out (τ × Bytes × EPtr × Bool)} (h : M P de) (t : τ) (s : Bytes) (u : Bool)
    {f : τ × Bytes × EPtr × Bool → Out (β × Bytes × EPtr)} (hf : ∀ t p u, P β fun e => f (t, p, e, u)) : P β fun e => de t s e u >>= f := by
  have := H.bind (f := fun x => f (x.1.1, x.2.1, x.2.2, x.1.2)) (h t s u) fun v p => hf v.1 p v.2
  simpa only [Out.bind_assoc, Out.bind_ok] using this

theorem member {τ : Type} {m : MRef τ} (hm : ∀ v s, P m.α fun e => m.ser.de v s e) : M P (Wjson.member m).de :=
  fun t s u => H.deMember hm m.get t s u

theorem memberP {τ : Type} {m : MRef τ} (hm : ∀ v s, P m.α fun e => m.ser.de v s e) : M P (Wjson.memberP m).de :=
  fun t s u => H.deMember hm (fun _ => m.ser.dflt) t s u

theorem deMemberIf {τ : Type} {a b : MRef τ} (hb : ∀ v s, P b.α fun e => b.ser.de v s e) : M P (Wjson.deMemberIf a b) := by
  intro t s u
  unfold Wjson.deMemberIf
  simp only [Out.bind_assoc]
  refine H.const _ fun d _ => ?_
  cases d.2.2.1.failed with
  | false =>
    simp only [Bool.not_false, if_true, Out.bind_assoc, Out.bind_ok]
    exact H.const _ fun t _ => H.ok .id (t, d.2.2.2) d.2.1
  | true =>
    simp only [Bool.not_true, Bool.false_eq_true, if_false, Out.bind_assoc]
    exact H.const _ fun t _ => H.member hb t s d.2.2.2

theorem memberIf {τ : Type} {l r : MRef τ} (hl : ∀ v s, P l.α fun e => l.ser.de v s e) (hr : ∀ v s, P r.α fun e => r.ser.de v s e)
    (isDflt : l.α → Bool) (RU : Bool) : M P (Wjson.memberIf l r isDflt RU).de := by
  cases RU with
  | true => exact H.deMemberIf hl
  | false => exact H.deMemberIf hr

theorem searchMembers {τ : Type} {c : Cfg} {strict : Bool} {l : List (Member τ)} (hl : ∀ m ∈ l, M P m.de) (t : τ) (s : Bytes) :
    P τ fun e => Wjson.searchMembers c strict l t s e := by
  induction l generalizing t s with
  | nil =>
    simp only [Wjson.searchMembers]
    refine EP.ite (fun _ => H.scanO (parseMember_scan c s) .id fun p => H.scan (parseSpace_scan p) .id t) (fun _ => ?_)
    cases s with
    | nil => exact H.err .id _ _ (by decide) _ _
    | cons b p => exact EP.ite (fun _ => H.ok .id _ _) (fun _ => H.err .id _ _ (by decide) _ _)
  | cons m l ih =>
    simp only [Wjson.searchMembers]
    refine M.bind H (hl m (by simp)) t s false fun t p u => ?_
    exact EP.ite (Q := u = true) (fun _ => H.ok .id _ _) (fun _ => ih (fun m hm => hl m (by simp [hm])) _ _)

theorem skipLoopF {τ : Type} (c : Cfg) (strict : Bool) (n : Nat) (s : Bytes) (t : τ) :
    P τ fun e => Wjson.skipLoopF c strict n s e >>= fun r => .ok (t, r.1, r.2) := by
  induction n generalizing s with
  | zero => exact H.fuel
  | succ n ih =>
    simp only [Wjson.skipLoopF, Out.bind_assoc]
    refine H.scanO (parseMember_scan c s) .id fun p => ?_
    obtain ⟨p, F, hF, _, h⟩ := (parseSpace_scan p).step .id
    simp only [h]
    cases p with
    | nil => exact H.err hF t [] (by decide) _ _
    | cons b p =>
      simp only
      split
      · split
        · exact H.ok hF t (b :: p)
        · exact H.err hF t [] (by decide) _ _
      · split
        · exact H.err hF t [] (by decide) _ _
        · obtain ⟨p, F, hF, _, h⟩ := (parseSpace_scan p).step hF
          simp only [h]
          exact (H.pre hF (ih p) :)

theorem skipMembers {τ : Type} (c : Cfg) (strict : Bool) (s : Bytes) (t : τ) :
    P τ fun e => Wjson.skipMembers c strict s e >>= fun r => .ok (t, r.1, r.2) := by
  unfold Wjson.skipMembers
  obtain ⟨p, F, hF, _, h⟩ := (parseSpace_scan s).step .id
  simp only [h]
  cases p with
  | nil => exact H.err hF t [] (by decide) _ _
  | cons b p =>
    simp only
    split
    · exact H.ok hF t (b :: p)
    · exact (H.pre hF (H.skipLoopF c strict (p.length + 2) (b :: p) t) :)

theorem membersEnd {τ : Type} (t : τ) (s : Bytes) : P τ fun e => Wjson.membersEnd t s e := by
  cases s with
  | nil => exact H.err .id _ _ (by decide) _ _
  | cons b p => exact EP.ite (fun _ => H.err .id _ _ (by decide) _ _) (fun _ => H.ok .id _ _)

theorem objectEnd {τ : Type} (t : τ) (s : Bytes) : P τ fun e => Wjson.objectEnd t s e := by
  cases s with
  | nil => exact H.err .id _ _ (by decide) _ _
  | cons b p => exact EP.ite (fun _ => H.err .id _ _ (by decide) _ _) (fun _ => H.ok .id _ _)

theorem membersF {τ : Type} {c : Cfg} {strict : Bool} {L : List (Member τ)} (hL : ∀ m ∈ L, M P m.de) (n : Nat) {l : List (Member τ)}
    (hl : ∀ m ∈ l, M P m.de) (t : τ) (s : Bytes) : P τ fun e => Wjson.membersF c strict L n l t s e := by
  induction n generalizing l t s with
  | zero => exact H.fuel
  | succ n ih =>
    cases l with
    | nil => exact H.skipMembers c strict s t
    | cons m l =>
      simp only [Wjson.membersF]
      refine M.bind H (hl m (by simp)) t s false fun t p u => ?_
      simp only
      have hu : ∀ m' ∈ (if u = true then l else m :: l), M P m'.de := by
        intro x hx
        split at hx
        · exact hl x (by simp [hx])
        · exact hl x hx
      obtain ⟨f, hf, hk⟩ : ∃ f : τ × Bytes × EPtr → Out (τ × Bytes × EPtr), (f = fun x =>
            match (parseSpace x.2.1 x.2.2).1 with
            | [] => Out.ok (x.1, [], createError .UnexpectedEndFragment (parseSpace x.2.1 x.2.2).2)
            | b :: q =>
              if b = c%',' then
                Wjson.membersF c strict L n (if u = true then l else m :: l) x.1 (parseSpace q (parseSpace x.2.1 x.2.2).2).1
                  (parseSpace q (parseSpace x.2.1 x.2.2).2).2 >>= fun y => Wjson.membersEnd y.1 y.2.1 y.2.2
              else Wjson.membersEnd x.1 (b :: q) (parseSpace x.2.1 x.2.2).2) ∧ ∀ t p, P τ fun e => f (t, p, e) := by
        refine ⟨_, rfl, fun t p => ?_⟩
        obtain ⟨p, F, hF, _, h⟩ := (parseSpace_scan p).step .id
        simp only [h]
        cases p with
        | nil => exact H.err hF _ _ (by decide) _ _
        | cons b p =>
          simp only
          refine EP.ite (fun _ => ?_) (fun _ => (H.pre hF (H.membersEnd t (b :: p)) :))
          obtain ⟨p, F, hF, _, h⟩ := (parseSpace_scan p).step hF
          simp only [h]
          exact H.bind (H.pre hF (ih hu t p) :) fun t p => H.membersEnd t p
      cases u with
      | true => have h := hk t p; rw [hf] at h; exact h
      | false => have h := H.bind (f := f) (H.searchMembers (c := c) (strict := strict) hL t p) hk; rw [hf] at h; exact h

theorem objectBody {τ : Type} {c : Cfg} {strict : Bool} {L : List (Member τ)} (hL : ∀ m ∈ L, M P m.de) (t : τ) (s : Bytes) :
    P τ fun e => Wjson.objectBody c strict L t s e := by
  unfold Wjson.objectBody
  obtain ⟨p, F, hF, _, h⟩ := (parseSpace_scan s).step .id
  simp only [h]
  cases p with
  | nil => exact H.err hF _ _ (by decide) _ _
  | cons b p =>
    refine EP.ite (fun _ => H.bind (H.pre hF (H.membersF hL _ hL t (b :: p)) :) fun t p => ?_) (fun _ => (H.pre hF (H.objectEnd t (b :: p)) :))
    cases p with
    | nil => exact H.err .id _ _ (by decide) _ _
    | cons b p =>
      obtain ⟨q, F, hF, _, h⟩ := (parseSpace_scan (b :: p)).step .id
      simp only [h]
      cases q with
      | nil => exact H.err hF _ _ (by decide) _ _
      | cons b q => exact (H.pre hF (H.objectEnd t (b :: q)) :)

theorem deObject {τ : Type} {c : Cfg} {strict : Bool} {dflt : τ} {L : List (Member τ)} (hL : ∀ m ∈ L, M P m.de) (t : τ) (s : Bytes) :
    P τ fun e => Wjson.deObject c strict dflt L t s e := by
  unfold Wjson.deObject
  refine EP.ite (fun _ => H.scan (parseNull_scan s) .id _) (fun _ => ?_)
  cases s with
  | nil => exact H.err .id _ _ (by decide) _ _
  | cons b p =>
    refine EP.ite (fun _ => EP.ite (fun _ => ?_) (fun _ => H.err .id _ _ (by decide) _ _)) (fun _ => H.objectBody hL _ _)
    obtain ⟨p, F, hF, _, h⟩ := (parseSpace_scan p).step .id
    simp only [h]
    refine H.const _ fun x _ => EP.ite (fun _ => H.err hF _ _ (by decide) _ _) (fun _ => ?_)
    cases p with
    | nil => exact H.ub
    | cons b p => exact H.ok hF _ _

/-! ### Positional structures -/

theorem amember {τ : Type} {m : MRef τ} (hm : ∀ v s, P m.α fun e => m.ser.de v s e) (t : τ) (s : Bytes) :
    P τ fun e => (Wjson.amember m).de t s e :=
  H.bind (hm _ _) fun v p => H.ok .id (m.set v t) p

theorem amemberP {τ : Type} {m : MRef τ} (hm : ∀ v s, P m.α fun e => m.ser.de v s e) (t : τ) (s : Bytes) :
    P τ fun e => (Wjson.amemberP m).de t s e :=
  H.bind (hm _ _) fun v p => H.ok .id (m.set v t) p

theorem deAMemberIf {τ : Type} {a b : MRef τ} (hb : ∀ v s, P b.α fun e => b.ser.de v s e) (t : τ) (s : Bytes) :
    P τ fun e => Wjson.deAMemberIf a b t s e := by
  unfold Wjson.deAMemberIf
  refine H.const _ fun d _ => ?_
  exact EP.ite (fun _ => H.const _ fun t _ => H.ok .id t d.2.1) (fun _ => H.const _ fun t _ => H.amember hb t s)

theorem amemberIf {τ : Type} {l r : MRef τ} (hl : ∀ v s, P l.α fun e => l.ser.de v s e) (hr : ∀ v s, P r.α fun e => r.ser.de v s e)
    (isDflt : l.α → Bool) (RU : Bool) (t : τ) (s : Bytes) : P τ fun e => (Wjson.amemberIf l r isDflt RU).de t s e := by
  cases RU with
  | true => exact H.deAMemberIf hl t s
  | false => exact H.deAMemberIf hr t s

theorem amembersEnd {τ : Type} (t : τ) (s : Bytes) : P τ fun e => Wjson.amembersEnd t s e := by
  cases s with
  | nil => exact H.err .id _ _ (by decide) _ _
  | cons b p => exact EP.ite (fun _ => H.err .id _ _ (by decide) _ _) (fun _ => H.ok .id _ _)

theorem objectArrayEnd {τ : Type} (t : τ) (s : Bytes) : P τ fun e => Wjson.objectArrayEnd t s e := by
  cases s with
  | nil => exact H.err .id _ _ (by decide) _ _
  | cons b p => exact EP.ite (fun _ => H.err .id _ _ (by decide) _ _) (fun _ => H.ok .id _ _)

theorem deAMembers {τ : Type} {L : List (AMember τ)} (hL : ∀ m ∈ L, ∀ t s, P τ fun e => m.de t s e) (t : τ) (s : Bytes) :
    P τ fun e => Wjson.deAMembers L t s e := by
  induction L generalizing t s with
  | nil => exact H.ok .id _ _
  | cons m L ih =>
    simp only [Wjson.deAMembers]
    refine H.bind (hL m (by simp) t s) fun t p => ?_
    obtain ⟨p, F, hF, _, h⟩ := (parseSpace_scan p).step .id
    simp only [h]
    cases p with
    | nil => exact H.err hF _ _ (by decide) _ _
    | cons b p =>
      refine EP.ite (fun _ => ?_) (fun _ => (H.pre hF (H.amembersEnd t (b :: p)) :))
      obtain ⟨p, F, hF, _, h⟩ := (parseSpace_scan p).step hF
      simp only [h]
      exact H.bind (H.pre hF (ih (fun m hm => hL m (by simp [hm])) t p) :) fun t p => H.amembersEnd t p

theorem deObjectArray {τ : Type} {dflt : τ} {L : List (AMember τ)} (hL : ∀ m ∈ L, ∀ t s, P τ fun e => m.de t s e) (t : τ) (s : Bytes) :
    P τ fun e => Wjson.deObjectArray dflt L t s e := by
  unfold Wjson.deObjectArray
  refine EP.ite (fun _ => H.scan (parseNull_scan s) .id _) (fun _ => ?_)
  cases s with
  | nil => exact H.err .id _ _ (by decide) _ _
  | cons b p =>
    refine EP.ite (fun _ => H.err .id _ _ (by decide) _ _) (fun _ => ?_)
    unfold objectArrayBody
    obtain ⟨p, F, hF, _, h⟩ := (parseSpace_scan p).step .id
    simp only [h]
    cases p with
    | nil => exact H.err hF _ _ (by decide) _ _
    | cons b p =>
      refine EP.ite (fun _ => H.bind (H.pre hF (H.deAMembers hL t (b :: p)) :) fun t p => ?_)
        (fun _ => (H.pre hF (H.objectArrayEnd t (b :: p)) :))
      cases p with
      | nil => exact H.err .id _ _ (by decide) _ _
      | cons b p =>
        obtain ⟨q, F, hF, _, h⟩ := (parseSpace_scan (b :: p)).step .id
        simp only [h]
        cases q with
        | nil => exact H.err hF _ _ (by decide) _ _
        | cons b q => exact (H.pre hF (H.objectArrayEnd t (b :: q)) :)

end EP

end Wjson
