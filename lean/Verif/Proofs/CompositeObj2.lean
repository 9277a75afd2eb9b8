import Verif.Proofs.CompositeObj
/-
C76: structures written as objects, all members.
-/
namespace Wjson
open Spec

section
variable {τ : Type} {U : Prop} {c : Cfg} {strict : Bool} {L : List (TSlot τ)}

/-! ### Members that are not expected -/

theorem parseMember_kept {e : EPtr} (he : e.failed = true) {s p : Bytes} {e' : EPtr} (hr : parseMember c s e = .ok (p, e')) : e' = e := by
  rcases parseMember_safe (c := c) s e with ⟨h, _⟩ | ⟨p1, e1, h, _, h2⟩
  · rw [h] at hr; cases hr
  · rw [h] at hr; cases hr; exact h2.of_failed he

theorem skipTail_kept {n : Nat} (ih : ∀ s p e' (e : EPtr), e.failed = true → skipLoopF c strict n s e = .ok (p, e') → e' = e) {e : EPtr}
    (he : e.failed = true) (s0 q : Bytes) {p : Bytes} {e' : EPtr}
    (hr : (match (parseSpace q e).1 with
      | [] => .ok ([], createError .UnexpectedEndFragment (parseSpace q e).2)
      | b :: p =>
        if b = c%'}' then
          if !strict then .ok (b :: p, (parseSpace q e).2)
          else .ok ([], createError .InvalidMember (parseSpace q e).2 none (s0.length : Nat))
        else if b ≠ c%',' then
          .ok ([], createError .ExpectedOf (parseSpace q e).2 (some b!",") ((b :: p).length : Nat))
        else skipLoopF c strict n (parseSpace p (parseSpace q e).2).1 (parseSpace p (parseSpace q e).2).2) = Out.ok (p, e')) : e' = e := by
  obtain ⟨r, hq⟩ := space_kept he q
  rw [hq] at hr
  cases r with
  | nil => simp only [createError_failed he] at hr; cases hr; rfl
  | cons b r =>
    simp only [createError_failed he] at hr
    split at hr
    · split at hr <;> (cases hr; rfl)
    · split at hr
      · cases hr; rfl
      · obtain ⟨r', hq'⟩ := space_kept he r
        rw [hq'] at hr
        exact ih _ _ _ _ he hr

theorem skipLoopF_kept {n : Nat} {s p : Bytes} {e e' : EPtr} (he : e.failed = true) (hr : skipLoopF c strict n s e = .ok (p, e')) : e' = e := by
  induction n generalizing s p e e' with
  | zero => cases hr
  | succ n ih =>
    simp only [skipLoopF] at hr
    cases hm : parseMember c s e with
    | ub => rw [hm] at hr; cases hr
    | fuel => rw [hm] at hr; cases hr
    | ok y =>
      obtain ⟨q, e1⟩ := y
      have := parseMember_kept he hm
      subst this
      rw [hm, Out.bind_ok] at hr
      exact skipTail_kept (fun s p e' e he h => ih he h) he s q hr

theorem skipLoop_complete {n : Nat} {s p : Bytes} {e : EPtr} (hr : skipLoopF c strict n s .fresh = .ok (p, e)) :
    (e = .fresh ∧ p.head? = some c%'}') ∨ ∃ x, e = .obj x ∧ x.code ≠ .ValidJSON ∧ SurplusFault c strict s x := by
  induction n generalizing s p e with
  | zero => cases hr
  | succ n ih =>
    simp only [skipLoopF] at hr
    cases hm : parseMember c s .fresh with
    | ub => rw [hm] at hr; cases hr
    | fuel => rw [hm] at hr; cases hr
    | ok y =>
      obtain ⟨q, e1⟩ := y
      rw [hm, Out.bind_ok] at hr
      rcases pass_cases hm with ⟨rfl, h⟩ | ⟨x, rfl, hcd, h⟩
      · rcases next_cases q with ⟨b, r, h1, h2⟩ | ⟨e1, x, h1, h2, h3⟩
        · simp only [h2] at hr
          split at hr
          · next hb =>
            subst hb
            cases hs : strict with
            | true =>
              subst hs
              cases hr
              exact .inr ⟨_, rfl, by simp [errAt], .strict rfl h h1⟩
            | false =>
              subst hs
              cases hr
              exact .inl ⟨rfl, rfl⟩
          · next hb =>
            split at hr
            · next hb' =>
              cases hr
              exact .inr ⟨_, rfl, by simp [expectAt], .comma h h1 hb hb'⟩
            · next hb' =>
              have hb' := Decidable.not_not.mp hb'
              subst hb'
              rcases space_cases r with ⟨s', h3⟩ | h3
              · simp only [h3.run] at hr
                rcases ih hr with h4 | ⟨x, h4, h5, h6⟩
                · exact .inl h4
                · exact .inr ⟨x, h4, h5, .more h h1 h3 h6⟩
              · simp only [h3.run] at hr
                have := skipLoopF_kept (e := createError .UnexpectedEndFragment .fresh (some b!"Unterminated comment")) rfl hr
                exact .inr ⟨_, this, by simp [commentErr], .comment h h1 h3⟩
        · simp only [h1] at hr
          cases hr
          exact .inr ⟨x, h3, h2.code, .after h h2⟩
      · exact .inr ⟨x, skipTail_kept (fun s p e' e he h => skipLoopF_kept he h) (obj_failed hcd) s q hr, hcd, .member h⟩

theorem skipLoop_sound {n : Nat} {s p : Bytes} {e : EPtr} {x : JError} (hx : SurplusFault c strict s x)
    (hr : skipLoopF c strict n s .fresh = .ok (p, e)) : e = .obj x ∧ x.code ≠ .ValidJSON := by
  induction hx generalizing n p e with
  | @member s x h =>
    obtain ⟨hcd, q, h⟩ := h
    cases n with
    | zero => cases hr
    | succ n =>
      simp only [skipLoopF, h, Out.bind_ok] at hr
      exact ⟨skipTail_kept (fun s p e' e he h => skipLoopF_kept he h) (obj_failed hcd) s q hr, hcd⟩
  | after h h1 =>
    cases n with
    | zero => cases hr
    | succ n =>
      rw [Passes] at h
      obtain ⟨e1, h2, h3⟩ := h1.run
      simp only [skipLoopF, h, Out.bind_ok, h2] at hr
      cases hr
      exact ⟨h3, h1.code⟩
  | comma h h1 h2 h3 =>
    cases n with
    | zero => cases hr
    | succ n =>
      rw [Passes] at h
      simp only [skipLoopF, h, Out.bind_ok, h1.run, if_neg h2, if_pos h3] at hr
      cases hr
      exact ⟨rfl, by simp [expectAt]⟩
  | strict hs h h1 =>
    subst hs
    cases n with
    | zero => cases hr
    | succ n =>
      rw [Passes] at h
      simp only [skipLoopF, h, Out.bind_ok, h1.run, if_true] at hr
      cases hr
      exact ⟨rfl, by simp [errAt]⟩
  | comment h h1 h2 =>
    cases n with
    | zero => cases hr
    | succ n =>
      rw [Passes] at h
      simp only [skipLoopF, h, Out.bind_ok, h1.run, h2.run] at hr
      rw [if_neg (by decide)] at hr
      simp only [ne_eq, not_true, if_false] at hr
      exact ⟨skipLoopF_kept (e := createError .UnexpectedEndFragment .fresh (some b!"Unterminated comment")) rfl hr, by simp [commentErr]⟩
  | more h h1 h2 _ ih =>
    cases n with
    | zero => cases hr
    | succ n =>
      rw [Passes] at h
      simp only [skipLoopF, h, Out.bind_ok, h1.run, h2.run] at hr
      rw [if_neg (by decide)] at hr
      simp only [ne_eq, not_true, if_false] at hr
      exact ih hr

theorem skipMembers_kept {s p : Bytes} {e e' : EPtr} (he : e.failed = true) (hr : skipMembers c strict s e = .ok (p, e')) : e' = e := by
  rcases skipMembers_safe (c := c) (strict := strict) s e with ⟨h, _⟩ | ⟨p1, e1, h, _, h2⟩
  · rw [h] at hr; cases hr
  · rw [h] at hr; cases hr; exact h2.of_failed he

/-! ### All members -/

theorem membersEnd_kept {e : EPtr} (he : e.failed = true) (t : τ) (s : Bytes) : KeptNew e (membersEnd t s e) := by
  cases s with
  | nil => exact .err he
  | cons b p =>
    simp only [membersEnd]
    split
    · exact .err he
    · exact .ok

theorem membersEnd_cases (t : τ) (s : Bytes) :
    (∃ p, s = c%'}' :: p ∧ membersEnd t s .fresh = .ok (t, s, .fresh)) ∨
    (s = [] ∧ membersEnd t s .fresh = .ok (t, [], .obj endErr)) ∨
    ∃ b p, s = b :: p ∧ b ≠ c%'}' ∧ membersEnd t s .fresh = .ok (t, [], .obj (expectAt b!"}" (b :: p))) := by
  cases s with
  | nil => exact .inr (.inl ⟨rfl, rfl⟩)
  | cons b p =>
    by_cases h : b = c%'}'
    · subst h; exact .inl ⟨p, rfl, rfl⟩
    · refine .inr (.inr ⟨b, p, rfl, h, ?_⟩)
      simp only [membersEnd, ne_eq, h, not_false_eq_true, if_true]
      rfl

/-- What `membersF` does behind one member. -/
def afterOne (c : Cfg) (strict : Bool) (L : List (Member τ)) (n : Nat) (cur : List (Member τ)) (t : τ) (r : Bytes × EPtr) :
    Out (τ × Bytes × EPtr) :=
  match r.1 with
  | [] => .ok (t, [], createError .UnexpectedEndFragment r.2)
  | b :: p =>
    if b = c%',' then
      membersF c strict L n cur t (parseSpace p r.2).1 (parseSpace p r.2).2 >>= fun y => membersEnd y.1 y.2.1 y.2.2
    else membersEnd t (b :: p) r.2

theorem membersF_one (LM : List (Member τ)) (n : Nat) (m : Member τ) (l : List (Member τ)) (t : τ) (s : Bytes) (e : EPtr) :
    membersF c strict LM (n + 1) (m :: l) t s e = oneRun c strict LM m t s e >>= fun y =>
      afterOne c strict LM n (if y.1 then l else m :: l) y.2.1 (parseSpace y.2.2.1 y.2.2.2) := by
  simp only [membersF, oneRun, Out.bind_assoc, Out.bind_ok]
  rfl

theorem membersF_kept (hc : c.past = none → U) {LM : List (Member τ)} (hL : ∀ m ∈ LM, MSafe U m) {e : EPtr} (he : e.failed = true) (n : Nat)
    {l : List (Member τ)} (hl : ∀ m ∈ l, m ∈ LM) (t : τ) (s : Bytes) : KeptNew e (membersF c strict LM n l t s e) := by
  induction n generalizing l t s with
  | zero => intro v p e' h; simp [membersF] at h
  | succ n ih =>
    cases l with
    | nil =>
      intro v p e' h
      simp only [membersF] at h
      cases hs : skipMembers c strict s e with
      | ub => rw [hs] at h; cases h
      | fuel => rw [hs] at h; cases h
      | ok y =>
        obtain ⟨y1, y2⟩ := y
        rw [hs, Out.bind_ok] at h
        cases h
        exact skipMembers_kept he hs
    | cons m l =>
      rw [membersF_one]
      intro v p e' h
      cases ho : oneRun c strict LM m t s e with
      | ub => rw [ho] at h; cases h
      | fuel => rw [ho] at h; cases h
      | ok y =>
        obtain ⟨fl, t', q, e1⟩ := y
        have := one_kept hc hL (hL m (hl m (by simp))) he ho
        subst this
        rw [ho, Out.bind_ok] at h
        obtain ⟨r, hr⟩ := space_kept he q
        simp only [hr, afterOne] at h
        cases r with
        | nil => exact KeptNew.err he _ _ _ h
        | cons b r =>
          simp only at h
          split at h
          · obtain ⟨r', hr'⟩ := space_kept he r
            rw [hr'] at h
            refine ((ih ?_ _ _).bind (k := fun y => membersEnd y.1 y.2.1 y.2.2) fun _ _ => membersEnd_kept he _ _) _ _ _ h
            intro m' hm'
            split at hm'
            · exact hl m' (by simp [hm'])
            · exact hl m' hm'
          · exact membersEnd_kept he _ _ _ _ _ h

theorem afterOne_kept (hc : c.past = none → U) {LM : List (Member τ)} (hL : ∀ m ∈ LM, MSafe U m) {e : EPtr} (he : e.failed = true) (n : Nat)
    {cur : List (Member τ)} (hl : ∀ m ∈ cur, m ∈ LM) (t : τ) (q : Bytes) : KeptNew e (afterOne c strict LM n cur t (parseSpace q e)) := by
  obtain ⟨r, hr⟩ := space_kept he q
  rw [hr]
  cases r with
  | nil => exact .err he
  | cons b r =>
    simp only [afterOne]
    split
    · obtain ⟨r', hr'⟩ := space_kept he r
      rw [hr']
      exact (membersF_kept hc hL he n hl _ _).bind fun _ _ => membersEnd_kept he _ _
    · exact membersEnd_kept he _ _

section
variable (hT : ∀ x ∈ L, NamedTold U x) (hnd : (L.map TSlot.name).Nodup) (hc : c.past = none → U)
include hT hnd hc

omit hnd hc in
theorem members_msafe : ∀ m ∈ L.map (fun x => x.slot.toMember), MSafe U m := by
  intro m hm
  obtain ⟨d, hd, rfl⟩ := List.mem_map.mp hm
  exact (hT d hd).msafe

theorem members_complete {n : Nat} {cur : List (TSlot τ)} (hcur : ∀ en ∈ cur, en ∈ L) {t t' : τ} {s p : Bytes} {e : EPtr}
    (hr : membersF c strict (L.map fun x => x.slot.toMember) n (cur.map fun x => x.slot.toMember) t s .fresh = .ok (t', p, e)) :
    (e = .fresh ∧ p.head? = some c%'}') ∨ ∃ x, e = .obj x ∧ x.code ≠ .ValidJSON ∧ MembersFault c strict L cur t s x := by
  have hLM := members_msafe hT
  induction n generalizing cur t t' s p e with
  | zero => simp [membersF] at hr
  | succ n ih =>
    cases cur with
    | nil =>
      simp only [List.map_nil, membersF] at hr
      cases hs : skipMembers c strict s .fresh with
      | ub => rw [hs] at hr; cases hr
      | fuel => rw [hs] at hr; cases hr
      | ok y =>
        obtain ⟨y1, y2⟩ := y
        rw [hs, Out.bind_ok] at hr
        cases hr
        simp only [skipMembers] at hs
        rcases next_cases s with ⟨b, q, h1, h2⟩ | ⟨e1, x, h1, h2, h3⟩
        · simp only [h2] at hs
          split at hs
          · next hb => subst hb; cases hs; exact .inl ⟨rfl, rfl⟩
          · next hb =>
            rcases skipLoop_complete hs with h | ⟨x, h3, h4, h5⟩
            · exact .inl h
            · exact .inr ⟨x, h3, h4, .surplus h1 hb h5⟩
        · simp only [h1] at hs
          cases hs
          exact .inr ⟨x, h3, h2.code, .cut h2⟩
    | cons en l =>
      have hen := hcur en (by simp)
      rw [List.map_cons, membersF_one] at hr
      cases ho : oneRun c strict (L.map fun x => x.slot.toMember) en.slot.toMember t s .fresh with
      | ub => rw [ho] at hr; cases hr
      | fuel => rw [ho] at hr; cases hr
      | ok y =>
        obtain ⟨fl, t1, q, e1⟩ := y
        rw [ho, Out.bind_ok] at hr
        rcases one_cases (l := l) hT hnd hc hen ho with ⟨cur', p', hst⟩ | ⟨x, rfl, hcd, hx⟩
        · obtain ⟨fl', q', e1', ho', hc1, hc2, hc3⟩ := one_step hT hnd hen hst
          rw [ho] at ho'
          cases ho'
          simp only [hc1, hc2] at hr
          have hcur' : ∀ d ∈ cur', d ∈ L := fun d hd => (hc3 d hd).elim (· ▸ hen) fun h => hcur d (by simp [h])
          rcases next_cases p' with ⟨b, r, h1, h2⟩ | ⟨e1, x, h1, h2, h3⟩
          · simp only [afterOne, h2] at hr
            split at hr
            · next hb =>
              subst hb
              rcases space_cases r with ⟨s', h3⟩ | h3
              · simp only [h3.run] at hr
                cases hm : membersF c strict (L.map fun x => x.slot.toMember) n (cur'.map fun x => x.slot.toMember) t1 s' .fresh with
                | ub => rw [hm] at hr; cases hr
                | fuel => rw [hm] at hr; cases hr
                | ok y =>
                  obtain ⟨t2, q2, e2⟩ := y
                  rw [hm, Out.bind_ok] at hr
                  rcases ih hcur' hm with ⟨rfl, h⟩ | ⟨x, rfl, hcd, hx⟩
                  · rcases membersEnd_cases t2 q2 with ⟨_, h4, h5⟩ | ⟨h4, h5⟩ | ⟨b', q', h4, h5, h6⟩
                    · rw [h5] at hr; cases hr; subst h4; exact .inl ⟨rfl, rfl⟩
                    · subst h4; simp at h
                    · subst h4; simp at h; exact absurd h h5
                  · exact .inr ⟨x, membersEnd_kept (obj_failed hcd) _ _ _ _ _ hr, hcd, .more hst h1 h3 hx⟩
              · simp only [h3.run] at hr
                have hk := (membersF_kept hc hLM (strict := strict)
                  (e := createError .UnexpectedEndFragment .fresh (some b!"Unterminated comment")) rfl n
                  (l := cur'.map fun x => x.slot.toMember) (fun m hm => by
                    obtain ⟨d, hd, rfl⟩ := List.mem_map.mp hm
                    exact List.mem_map.mpr ⟨d, hcur' d hd, rfl⟩) t1 []).bind (k := fun y => membersEnd y.1 y.2.1 y.2.2)
                  (fun v p => membersEnd_kept rfl _ _)
                exact .inr ⟨_, hk _ _ _ hr, by simp [commentErr], .comment hst h1 h3⟩
            · next hb =>
              rcases membersEnd_cases t1 (b :: r) with ⟨_, h3, h4⟩ | ⟨h3, _⟩ | ⟨b', q', h3, h4, h5⟩
              · rw [h4] at hr; cases hr; cases h3; exact .inl ⟨rfl, rfl⟩
              · cases h3
              · rw [h5] at hr; cases hr; cases h3; exact .inr ⟨_, rfl, by simp [expectAt], .close hst h1 hb h4⟩
          · simp only [afterOne, h1] at hr
            cases hr
            exact .inr ⟨x, h3, h2.code, .after hst h2⟩
        · refine .inr ⟨x, afterOne_kept hc hLM (obj_failed hcd) n ?_ _ _ _ _ _ hr, hcd, .here hx⟩
          intro m hm
          split at hm
          · obtain ⟨d, hd, rfl⟩ := List.mem_map.mp hm
            exact List.mem_map.mpr ⟨d, hcur d (by simp [hd]), rfl⟩
          · rcases List.mem_cons.mp hm with rfl | hm
            · exact List.mem_map.mpr ⟨en, hen, rfl⟩
            · obtain ⟨d, hd, rfl⟩ := List.mem_map.mp hm
              exact List.mem_map.mpr ⟨d, hcur d (by simp [hd]), rfl⟩

theorem members_sound {n : Nat} {cur : List (TSlot τ)} (hcur : ∀ en ∈ cur, en ∈ L) {t t' : τ} {s p : Bytes} {e : EPtr} {x : JError}
    (hx : MembersFault c strict L cur t s x)
    (hr : membersF c strict (L.map fun x => x.slot.toMember) n (cur.map fun x => x.slot.toMember) t s .fresh = .ok (t', p, e)) :
    e = .obj x ∧ x.code ≠ .ValidJSON := by
  have hLM := members_msafe hT
  have hstep : ∀ {cur t s cur' t' p'}, Step c strict L cur t s cur' t' p' → ∃ en l, cur = en :: l := by
    intro cur t s cur' t' p' h
    cases h <;> exact ⟨_, _, rfl⟩
  induction hx generalizing n t' p e with
  | cut h =>
    cases n with
    | zero => simp [membersF] at hr
    | succ n =>
      obtain ⟨e1, h1, h2⟩ := h.run
      simp only [List.map_nil, membersF, skipMembers, h1, Out.bind_ok] at hr
      cases hr
      exact ⟨h2, h.code⟩
  | @surplus t s b q x h1 h2 h3 =>
    cases n with
    | zero => simp [membersF] at hr
    | succ n =>
      simp only [List.map_nil, membersF, skipMembers, h1.run, if_neg h2] at hr
      cases hs : skipLoopF c strict (q.length + 2) (b :: q) .fresh with
      | ub => rw [hs] at hr; cases hr
      | fuel => rw [hs] at hr; cases hr
      | ok y =>
        rw [hs, Out.bind_ok] at hr
        cases hr
        exact skipLoop_sound h3 hs
  | @here en l t s x h =>
    have hen := hcur en (by simp)
    cases n with
    | zero => simp [membersF] at hr
    | succ n =>
      rw [List.map_cons, membersF_one] at hr
      cases ho : oneRun c strict (L.map fun x => x.slot.toMember) en.slot.toMember t s .fresh with
      | ub => rw [ho] at hr; cases hr
      | fuel => rw [ho] at hr; cases hr
      | ok y =>
        obtain ⟨fl, t1, q, e1⟩ := y
        rw [ho, Out.bind_ok] at hr
        obtain ⟨rfl, hcd⟩ := one_here hT hnd hc hen h ho
        refine ⟨afterOne_kept hc hLM (obj_failed hcd) n ?_ _ _ _ _ _ hr, hcd⟩
        intro m hm
        split at hm
        · obtain ⟨d, hd, rfl⟩ := List.mem_map.mp hm
          exact List.mem_map.mpr ⟨d, hcur d (by simp [hd]), rfl⟩
        · rcases List.mem_cons.mp hm with rfl | hm
          · exact List.mem_map.mpr ⟨en, hen, rfl⟩
          · obtain ⟨d, hd, rfl⟩ := List.mem_map.mp hm
            exact List.mem_map.mpr ⟨d, hcur d (by simp [hd]), rfl⟩
  | after hst h =>
    obtain ⟨en, l, rfl⟩ := hstep hst
    cases n with
    | zero => simp [membersF] at hr
    | succ n =>
      obtain ⟨fl, q, e1, ho, hc1, hc2, _⟩ := one_step hT hnd (hcur en (by simp)) hst
      obtain ⟨e1, h1, h2⟩ := h.run
      simp only [List.map_cons, membersF_one, ho, Out.bind_ok, hc1, hc2, afterOne, h1] at hr
      cases hr
      exact ⟨h2, h.code⟩
  | close hst h1 h2 h3 =>
    obtain ⟨en, l, rfl⟩ := hstep hst
    cases n with
    | zero => simp [membersF] at hr
    | succ n =>
      obtain ⟨fl, q, e1, ho, hc1, hc2, _⟩ := one_step hT hnd (hcur en (by simp)) hst
      simp only [List.map_cons, membersF_one, ho, Out.bind_ok, hc1, hc2, afterOne, h1.run, if_neg h2, membersEnd, if_pos h3] at hr
      cases hr
      exact ⟨rfl, by simp [expectAt]⟩
  | @comment cur t s cur' t1 p0 q0 hst h1 h2 =>
    obtain ⟨en, l, rfl⟩ := hstep hst
    cases n with
    | zero => simp [membersF] at hr
    | succ n =>
      obtain ⟨fl, q, e1, ho, hc1, hc2, hc3⟩ := one_step hT hnd (hcur en (by simp)) hst
      simp only [List.map_cons, membersF_one, ho, Out.bind_ok, hc1, hc2, afterOne, h1.run, if_true, h2.run] at hr
      have hk := (membersF_kept hc hLM (strict := strict)
        (e := createError .UnexpectedEndFragment .fresh (some b!"Unterminated comment")) rfl n
        (l := cur'.map fun x => x.slot.toMember) (fun m hm => by
          obtain ⟨d, hd, rfl⟩ := List.mem_map.mp hm
          exact List.mem_map.mpr ⟨d, hcur d (by simpa using hc3 d hd), rfl⟩) t1 []).bind (k := fun y => membersEnd y.1 y.2.1 y.2.2)
        (fun v p => membersEnd_kept rfl _ _)
      exact ⟨hk _ _ _ hr, by simp [commentErr]⟩
  | @more cur t s cur' t1 p0 q0 s' x hst h1 h2 _ ih =>
    obtain ⟨en, l, rfl⟩ := hstep hst
    cases n with
    | zero => simp [membersF] at hr
    | succ n =>
      obtain ⟨fl, q, e1, ho, hc1, hc2, hc3⟩ := one_step hT hnd (hcur en (by simp)) hst
      simp only [List.map_cons, membersF_one, ho, Out.bind_ok, hc1, hc2, afterOne, h1.run, if_true, h2.run] at hr
      cases hm : membersF c strict (L.map fun x => x.slot.toMember) n (cur'.map fun x => x.slot.toMember) t1 s' .fresh with
      | ub => rw [hm] at hr; cases hr
      | fuel => rw [hm] at hr; cases hr
      | ok y =>
        obtain ⟨t2, q2, e2⟩ := y
        rw [hm, Out.bind_ok] at hr
        obtain ⟨rfl, hcd⟩ := ih (fun d hd => hcur d (by simpa using hc3 d hd)) hm
        exact ⟨membersEnd_kept (obj_failed hcd) _ _ _ _ _ hr, hcd⟩

omit hT hnd hc in
theorem objectEnd_kept {e : EPtr} (he : e.failed = true) (t : τ) (s : Bytes) : KeptNew e (objectEnd t s e) := by
  cases s with
  | nil => exact .err he
  | cons b p =>
    simp only [objectEnd]
    split
    · exact .err he
    · exact .ok

/-- What `objectBody` does behind the members. -/
def bodyEnd (t : τ) (s : Bytes) (e : EPtr) : Out (τ × Bytes × EPtr) :=
  match s with
  | [] => .ok (t, [], createError .UnexpectedEndFragment e)
  | b :: q =>
    let r := parseSpace (b :: q) e
    match r.1 with
    | [] => .ok (t, [], createError .UnexpectedEndFragment r.2)
    | b :: q => objectEnd t (b :: q) r.2

omit hT hnd hc in
theorem bodyEnd_kept {e : EPtr} (he : e.failed = true) (t : τ) (s : Bytes) : KeptNew e (bodyEnd t s e) := by
  cases s with
  | nil => exact .err he
  | cons b q =>
    simp only [bodyEnd]
    obtain ⟨r, hr⟩ := space_kept he (b :: q)
    rw [hr]
    cases r with
    | nil => exact .err he
    | cons b r => exact objectEnd_kept he _ _

omit hT hnd hc in
theorem objectBody_eq (LM : List (Member τ)) (t : τ) (s : Bytes) {b : Byte} {q : Bytes} (h : Skips s (b :: q)) (hb : b ≠ c%'}') :
    objectBody c strict LM t s .fresh = membersF c strict LM (q.length + 2) LM t (b :: q) .fresh >>= fun x => bodyEnd x.1 x.2.1 x.2.2 := by
  simp only [objectBody, h.run, if_pos hb]
  rfl

theorem object_diagnosed {dflt : τ} (t : τ) : Diagnosed (deObject c strict dflt (L.map fun x => x.slot.toMember)) t (ObjectFault c strict L t) := by
  refine diagnosed_mk (fun s v p e hr => ?_) (fun s x hx v p e hr => ?_)
  · cases s with
    | nil => cases hr; exact .inr ⟨_, rfl, .none⟩
    | cons b u =>
      simp only [deObject, isNull_cons] at hr
      split at hr
      · next hb =>
        subst hb
        rcases null_told u with ⟨q, hq⟩ | ⟨x, hx⟩
        · rw [hq] at hr; cases hr; exact .inl rfl
        · rw [(null_read hx).2.1] at hr
          cases hr
          exact .inr ⟨x, rfl, .null hx⟩
      · next hb =>
        split at hr
        · next h =>
          split at hr
          · next h' =>
            subst h'
            rcases space_cases u with ⟨s', h3⟩ | h3
            · simp only [h3.run] at hr
              cases s' with
              | nil =>
                cases hd : deref c [] with
                | ub => rw [hd] at hr; cases hr
                | fuel => rw [hd] at hr; cases hr
                | ok y =>
                  rw [hd, Out.bind_ok] at hr
                  split at hr
                  · cases hr; exact .inr ⟨_, rfl, .bracket h3 (by simp)⟩
                  · cases hr
              | cons d r =>
                simp only [deref, Out.bind_ok] at hr
                split at hr
                · next hd => cases hr; exact .inr ⟨_, rfl, .bracket h3 (by simpa using hd)⟩
                · cases hr; exact .inl rfl
            · simp only [h3.run] at hr
              cases hd : deref c [] with
              | ub => rw [hd] at hr; cases hr
              | fuel => rw [hd] at hr; cases hr
              | ok y =>
                rw [hd, Out.bind_ok] at hr
                split at hr
                · cases hr; exact .inr ⟨_, rfl, .bracketComment h3⟩
                · cases hr
          · next h' => cases hr; exact .inr ⟨_, rfl, .kind hb h h'⟩
        · next h =>
          have h := Decidable.not_not.mp h
          subst h
          rcases next_cases u with ⟨b, q, h1, h2⟩ | ⟨e1, x, h1, h2, h3⟩
          · by_cases hcl : b = c%'}'
            · subst hcl
              simp only [objectBody, h2, ne_eq, not_true, if_false, objectEnd] at hr
              cases hr
              exact .inl rfl
            · rw [objectBody_eq _ _ _ h1 hcl] at hr
              cases hd : membersF c strict (L.map fun x => x.slot.toMember) (q.length + 2) (L.map fun x => x.slot.toMember) t (b :: q) .fresh with
              | ub => rw [hd] at hr; cases hr
              | fuel => rw [hd] at hr; cases hr
              | ok d =>
                obtain ⟨w, q', e1⟩ := d
                rw [hd, Out.bind_ok] at hr
                rcases members_complete hT hnd hc (fun _ h => h) hd with ⟨rfl, h⟩ | ⟨x, rfl, hcd, hx⟩
                · cases q' with
                  | nil => simp at h
                  | cons d q' =>
                    simp at h
                    subst h
                    have hg : NoGap (c%'}' :: q') := by intro b hb; simp at hb; subst hb; decide
                    simp only [bodyEnd, (noGap_skips hg).run, objectEnd, ne_eq, not_true, if_false] at hr
                    cases hr
                    exact .inl rfl
                · exact .inr ⟨x, bodyEnd_kept (obj_failed hcd) _ _ _ _ _ hr, .members h1 hcl hx⟩
          · simp only [objectBody, h1] at hr
            cases hr
            exact .inr ⟨x, h3, .cut h2⟩
  · cases hx with
    | none => cases hr; exact ⟨rfl, by simp [endErr]⟩
    | null hx =>
      obtain ⟨h1, h2, h3⟩ := null_read hx
      simp only [deObject, h1, if_true, h2] at hr
      cases hr
      exact ⟨rfl, h3⟩
    | kind h1 h2 h3 =>
      simp only [deObject, isNull_cons, if_neg h1, if_pos h2, if_neg h3] at hr
      cases hr
      exact ⟨rfl, by simp [expectAt]⟩
    | @bracket s s' h1 h2 =>
      simp only [deObject, isNull_cons] at hr
      rw [if_neg (by decide), if_pos (by decide), if_pos trivial] at hr
      simp only [h1.run] at hr
      refine ⟨?_, by simp [expectAt]⟩
      cases s' with
      | nil =>
        cases hd : deref c [] with
        | ub => rw [hd] at hr; cases hr
        | fuel => rw [hd] at hr; cases hr
        | ok y =>
          rw [hd, Out.bind_ok] at hr
          split at hr
          · cases hr; rfl
          · cases hr
      | cons d r =>
        have hd : d ≠ c%']' := by simpa using h2
        simp only [deref, Out.bind_ok, if_pos hd] at hr
        cases hr
        rfl
    | @bracketComment s h1 =>
      simp only [deObject, isNull_cons] at hr
      rw [if_neg (by decide), if_pos (by decide), if_pos trivial] at hr
      simp only [h1.run] at hr
      refine ⟨?_, by simp [commentErr]⟩
      cases hd : deref c [] with
      | ub => rw [hd] at hr; cases hr
      | fuel => rw [hd] at hr; cases hr
      | ok y =>
        rw [hd, Out.bind_ok] at hr
        split at hr
        · cases hr; rfl
        · cases hr
    | cut hx =>
      simp only [deObject, isNull_cons] at hr
      rw [if_neg (by decide)] at hr
      obtain ⟨e1, h1, h2⟩ := hx.run
      simp only [ne_eq, not_true, if_false, objectBody, h1] at hr
      cases hr
      exact ⟨h2, hx.code⟩
    | @members s b q x h1 hcl hx =>
      simp only [deObject, isNull_cons] at hr
      rw [if_neg (by decide)] at hr
      simp only [ne_eq, not_true, if_false] at hr
      rw [objectBody_eq _ _ _ h1 hcl] at hr
      cases hd : membersF c strict (L.map fun x => x.slot.toMember) (q.length + 2) (L.map fun x => x.slot.toMember) t (b :: q) .fresh with
      | ub => rw [hd] at hr; cases hr
      | fuel => rw [hd] at hr; cases hr
      | ok d =>
        obtain ⟨w, q', e1⟩ := d
        rw [hd, Out.bind_ok] at hr
        obtain ⟨rfl, hcd⟩ := members_sound hT hnd hc (fun _ h => h) hx hd
        exact ⟨bodyEnd_kept (obj_failed hcd) _ _ _ _ _ hr, hcd⟩

end

end

end Wjson
