import Verif.Proofs.CompositeSeq
import Verif.Proofs.ObjectArray
/-
C76: structures written as arrays, pointers, quoted values.
-/
namespace Wjson
open Spec

section
variable {τ : Type} {U : Prop}

theorem toAMember_de (en : Entry τ) (t : τ) (s : Bytes) (e : EPtr) :
    en.toAMember.de t s e = en.ref.ser.de (en.start t) s e >>= fun d => .ok (en.ref.set d.1 t, d.2) := by
  cases en <;> rfl

theorem readNull_ok {m : MRef τ} {t t' : τ} : readNull m t = .ok t' ↔ NullInto m t t' := by
  simp only [readNull, NullInto, Out.bind_eq_ok]
  constructor
  · rintro ⟨⟨v, p, e⟩, h1, h2⟩; cases h2; exact ⟨v, p, e, h1, rfl⟩
  · rintro ⟨v, p, e, h1, rfl⟩; exact ⟨⟨v, p, e⟩, h1, rfl⟩

/-- What is known about a place: its text is read safely, and its errors are told. -/
structure PlaceTold (U : Prop) (x : TSlot τ) : Prop where
  safe : Safe U x.slot.toAMember.de
  diag : ∀ t, Diagnosed x.slot.toAMember.de t (x.fault t)
  takes : ∀ {t s t' p}, x.takes t s t' p ↔ Takes x.slot.toAMember.de t s t' p

theorem amember_de_ok {m : MRef τ} {t t' : τ} {s p : Bytes} {e e' : EPtr} :
    (amember m).de t s e = .ok (t', p, e') ↔ ∃ v, m.ser.de (m.get t) s e = .ok (v, p, e') ∧ t' = m.set v t := by
  simp only [amember, Out.bind_eq_ok]
  constructor
  · rintro ⟨⟨v, q, e1⟩, h1, h2⟩; cases h2; exact ⟨v, h1, rfl⟩
  · rintro ⟨v, h1, rfl⟩; exact ⟨⟨v, p, e'⟩, h1, rfl⟩

theorem one_told {en : Entry τ} {F : en.ref.α → Bytes → JError → Prop} (hS : Safe U en.ref.ser.de) (hD : ∀ v, Diagnosed en.ref.ser.de v (F v)) :
    PlaceTold U (.one en F) where
  safe := Entry.asafe hS
  diag := by
    intro t s v p e hr
    change en.toAMember.de t s .fresh = _ at hr
    rw [toAMember_de] at hr
    obtain ⟨⟨w, q, e1⟩, h1, h2⟩ := Out.bind_eq_ok.mp hr
    cases h2
    exact hD _ _ _ _ _ h1
  takes := by
    intro t s t' p
    change MemberTakes en t s t' p ↔ en.toAMember.de t s .fresh = _
    rw [toAMember_de]
    constructor
    · rintro ⟨v, h1, rfl⟩
      rw [Takes] at h1
      rw [h1]
      rfl
    · intro h
      obtain ⟨⟨w, q, e1⟩, h1, h2⟩ := Out.bind_eq_ok.mp h
      cases h2
      exact ⟨w, h1, rfl⟩

theorem alt_run {a b : MRef τ} {Fa : a.α → Bytes → JError → Prop} (hA : ∀ v, Diagnosed a.ser.de v (Fa v)) {t t' : τ} {s p : Bytes}
    {e : EPtr} : deAMemberIf a b t s .fresh = .ok (t', p, e) ↔
      (e = .fresh ∧ ∃ v, Takes a.ser.de (a.get t) s v p ∧ NullInto b (a.set v t) t') ∨
      ∃ t1, GivenUp a Fa t s t1 ∧ (amember b).de t1 s .fresh = .ok (t', p, e) := by
  constructor
  · intro h
    obtain ⟨⟨t1, q, e1⟩, h1, h2⟩ := Out.bind_eq_ok.mp h
    obtain ⟨v, h0, rfl⟩ := amember_de_ok.mp h1
    clear h1
    simp only at h2
    rcases (hA _).cases h0 with ⟨rfl, hT⟩ | ⟨x, hx, rfl, hf⟩
    · rw [if_pos (show (!EPtr.fresh.failed) = true by decide)] at h2
      obtain ⟨t2, h3, h4⟩ := Out.bind_eq_ok.mp h2
      cases h4
      exact .inl ⟨rfl, v, hT, readNull_ok.mp h3⟩
    · rw [hf] at h2
      simp only [Bool.not_true, Bool.false_eq_true, if_false] at h2
      obtain ⟨t2, h3, h4⟩ := Out.bind_eq_ok.mp h2
      exact .inr ⟨t2, ⟨⟨x, hx⟩, v, q, _, h0, readNull_ok.mp h3⟩, h4⟩
  · rintro (⟨rfl, v, hT, hN⟩ | ⟨t1, ⟨⟨x, hx⟩, v, q, e1, h1, hN⟩, h2⟩)
    · refine Out.bind_eq_ok.mpr ⟨_, amember_de_ok.mpr ⟨v, hT, rfl⟩, ?_⟩
      rw [if_pos (show (!EPtr.fresh.failed) = true by decide), readNull_ok.mpr hN]
      rfl
    · refine Out.bind_eq_ok.mpr ⟨_, amember_de_ok.mpr ⟨v, h1, rfl⟩, ?_⟩
      obtain ⟨rfl, hc⟩ := (hA _).sound h1 hx
      simp only [obj_failed hc, Bool.not_true, Bool.false_eq_true, if_false, readNull_ok.mpr hN, Out.bind_ok, h2]

theorem givenUp_unique {a : MRef τ} {Fa : a.α → Bytes → JError → Prop} {t t1 t2 : τ} {s : Bytes} (h1 : GivenUp a Fa t s t1)
    (h2 : GivenUp a Fa t s t2) : t1 = t2 := by
  obtain ⟨_, v, p, e, h3, w, q, e1, h4, rfl⟩ := h1
  obtain ⟨_, v', p', e2, h5, w', q', e3, h6, rfl⟩ := h2
  rw [h3] at h5
  cases h5
  rw [h4] at h6
  cases h6
  rfl

theorem alt_diagnosed {a b : MRef τ} {Fa : a.α → Bytes → JError → Prop} {Fb : b.α → Bytes → JError → Prop}
    (hA : ∀ v, Diagnosed a.ser.de v (Fa v)) (hB : ∀ v, Diagnosed b.ser.de v (Fb v)) (t : τ) :
    Diagnosed (deAMemberIf a b) t (AltFault a b Fa Fb t) := by
  intro s t' p e hr
  rcases (alt_run hA).mp hr with ⟨rfl, v, hT, _⟩ | ⟨t1, hg, h1⟩
  · refine .inl ⟨rfl, ?_⟩
    rintro x ⟨t1, ⟨⟨y, hy⟩, _⟩, _⟩
    obtain ⟨h1, h2⟩ := (hA _).sound hT hy
    cases h1
    exact h2 rfl
  · obtain ⟨v, h1, _⟩ := amember_de_ok.mp h1
    have hiff : ∀ x, AltFault a b Fa Fb t s x ↔ Fb (b.get t1) s x := fun x =>
      ⟨fun ⟨t2, h2, h3⟩ => by rw [givenUp_unique hg h2]; exact h3, fun h => ⟨t1, hg, h⟩⟩
    simp only [hiff]
    exact hB _ _ _ _ _ h1

theorem alt_takes {a b : MRef τ} {Fa : a.α → Bytes → JError → Prop} (hA : ∀ v, Diagnosed a.ser.de v (Fa v)) {t t' : τ} {s p : Bytes} :
    AltTakes a b Fa t s t' p ↔ Takes (deAMemberIf a b) t s t' p := by
  rw [Takes, alt_run hA]
  simp only [amember_de_ok, true_and, AltTakes, Takes]
  constructor
  · rintro (h | ⟨t1, v, h1, h2, h3⟩)
    · exact .inl h
    · exact .inr ⟨t1, h1, v, h2, h3⟩
  · rintro (h | ⟨t1, h1, v, h2, h3⟩)
    · exact .inl h
    · exact .inr ⟨t1, v, h1, h2, h3⟩

theorem alt_told {l r : MRef τ} {Fl : l.α → Bytes → JError → Prop} {Fr : r.α → Bytes → JError → Prop} (hl : Safe U l.ser.de)
    (hr : Safe U r.ser.de) (hDl : ∀ v, Diagnosed l.ser.de v (Fl v)) (hDr : ∀ v, Diagnosed r.ser.de v (Fr v)) (i : l.α → Bool) (RU : Bool) :
    PlaceTold U (.alt l r i RU Fl Fr) where
  safe := amemberIf_safe hl hr i RU
  diag := by
    intro t
    cases RU with
    | false => exact alt_diagnosed hDl hDr t
    | true => exact alt_diagnosed hDr hDl t
  takes := by
    intro t s t' p
    cases RU with
    | false => exact alt_takes hDl
    | true => exact alt_takes hDr

theorem amembersEnd_kept {e : EPtr} (he : e.failed = true) (t : τ) (s : Bytes) : KeptNew e (amembersEnd t s e) := by
  cases s with
  | nil => exact .err he
  | cons b p =>
    simp only [amembersEnd]
    split
    · exact .err he
    · exact .ok

theorem objectArrayEnd_kept {e : EPtr} (he : e.failed = true) (t : τ) (s : Bytes) : KeptNew e (objectArrayEnd t s e) := by
  cases s with
  | nil => exact .err he
  | cons b p =>
    simp only [objectArrayEnd]
    split
    · exact .err he
    · exact .ok

theorem deAMembers_kept {L : List (AMember τ)} (hL : ∀ m ∈ L, Safe U m.de) {e : EPtr} (he : e.failed = true) (t : τ) (s : Bytes) :
    KeptNew e (deAMembers L t s e) := by
  intro v p e' hr
  rcases deAMembers_safe hL t s e with ⟨h, _⟩ | ⟨v', p', e1, h, _, h2⟩
  · rw [h] at hr; cases hr
  · rw [h] at hr; cases hr; exact h2.of_failed he

/-- The end of reading: the same with and without the checks in between. -/
def posEnd (t : τ) (s : Bytes) (e : EPtr) : Out (τ × Bytes × EPtr) :=
  match s with
  | [] => .ok (t, [], createError .UnexpectedEndFragment e)
  | b :: q =>
    let r := parseSpace (b :: q) e
    match r.1 with
    | [] => .ok (t, [], createError .UnexpectedEndFragment r.2)
    | b :: q => objectArrayEnd t (b :: q) r.2

theorem posEnd_kept {e : EPtr} (he : e.failed = true) (t : τ) (s : Bytes) : KeptNew e (posEnd t s e) := by
  cases s with
  | nil => exact .err he
  | cons b q =>
    simp only [posEnd]
    obtain ⟨r, hr⟩ := space_kept he (b :: q)
    rw [hr]
    cases r with
    | nil => exact .err he
    | cons b r => exact objectArrayEnd_kept he _ _

/-- Behind the members there is the bracket, if there is no error. -/
theorem amembersEnd_cases (t : τ) (s : Bytes) :
    (∃ p, s = c%']' :: p ∧ amembersEnd t s .fresh = .ok (t, s, .fresh)) ∨
    (s = [] ∧ amembersEnd t s .fresh = .ok (t, [], .obj endErr)) ∨
    ∃ b p, s = b :: p ∧ b ≠ c%']' ∧ amembersEnd t s .fresh = .ok (t, [], .obj (expectAt b!"]" (b :: p))) := by
  cases s with
  | nil => exact .inr (.inl ⟨rfl, rfl⟩)
  | cons b p =>
    by_cases h : b = c%']'
    · subst h; exact .inl ⟨p, rfl, rfl⟩
    · refine .inr (.inr ⟨b, p, rfl, h, ?_⟩)
      simp only [amembersEnd, ne_eq, h, not_false_eq_true, if_true]
      rfl

theorem posTail_kept {l : List (AMember τ)} (hL : ∀ m ∈ l, Safe U m.de) {e : EPtr} (he : e.failed = true) (t : τ) (q : Bytes) :
    KeptNew e (match (parseSpace q e).1 with
      | [] => .ok (t, [], createError .UnexpectedEndFragment (parseSpace q e).2)
      | b :: p =>
        if b = c%',' then
          deAMembers l t (parseSpace p (parseSpace q e).2).1 (parseSpace p (parseSpace q e).2).2 >>= fun y =>
            amembersEnd y.1 y.2.1 y.2.2
        else amembersEnd t (b :: p) (parseSpace q e).2) := by
  obtain ⟨q', hq⟩ := space_kept he q
  rw [hq]
  cases q' with
  | nil => exact .err he
  | cons b q' =>
    simp only
    split
    · obtain ⟨r, hr⟩ := space_kept he q'
      rw [hr]
      exact (deAMembers_kept hL he _ _).bind fun _ _ => amembersEnd_kept he _ _
    · exact amembersEnd_kept he _ _

/-- Reading the members and the check behind them. -/
def posRun (l : List (TSlot τ)) (t : τ) (s : Bytes) (e : EPtr) : Out (τ × Bytes × EPtr) :=
  deAMembers (l.map fun x => x.slot.toAMember) t s e >>= fun y => amembersEnd y.1 y.2.1 y.2.2

theorem tslots_asafe {l : List (TSlot τ)} (hS : ∀ x ∈ l, PlaceTold U x) : ∀ m ∈ l.map fun x => x.slot.toAMember, Safe U m.de := by
  intro m hm
  obtain ⟨en, hen, rfl⟩ := List.mem_map.mp hm
  exact (hS en hen).safe

theorem pos_step {en : TSlot τ} {l : List (TSlot τ)} (hl : ∀ x ∈ l, PlaceTold U x)
    (hD : PlaceTold U en)
    (ih : ∀ {t s v p e}, posRun l t s .fresh = .ok (v, p, e) → (e = .fresh ∧ p.head? = some c%']') ∨ ∃ x, e = .obj x ∧ x.code ≠ .ValidJSON ∧ PosFault l t s x)
    {t : τ} {s : Bytes} {v : τ} {p : Bytes} {e : EPtr}
    (hr : deAMembers ((en :: l).map fun x => x.slot.toAMember) t s .fresh = .ok (v, p, e)) :
    (e = .fresh ∧ p.head? = some c%']') ∨ ∃ x, e = .obj x ∧ x.code ≠ .ValidJSON ∧ PosFault (en :: l) t s x := by
  simp only [List.map_cons, deAMembers] at hr
  cases hd : en.slot.toAMember.de t s .fresh with
  | ub => rw [hd] at hr; cases hr
  | fuel => rw [hd] at hr; cases hr
  | ok d =>
    obtain ⟨w, q, e1⟩ := d
    rw [hd, Out.bind_ok] at hr
    rcases (hD.diag t).cases hd with ⟨rfl, hT⟩ | ⟨x, hx, rfl, hf⟩
    · have hM : en.takes t s w q := hD.takes.mpr hT
      rcases next_cases q with ⟨b, r, h1, h2⟩ | ⟨e1, x, h1, h2, h3⟩
      · simp only [h2] at hr
        split at hr
        · next hb =>
          subst hb
          rcases space_cases r with ⟨s', h3⟩ | h3
          · simp only [h3.run] at hr
            rcases ih hr with h | ⟨x, h, hc, hx⟩
            · exact .inl h
            · exact .inr ⟨x, h, hc, .more hM h1 h3 hx⟩
          · simp only [h3.run] at hr
            have hk := (deAMembers_kept (tslots_asafe hl) (e := createError .UnexpectedEndFragment .fresh (some b!"Unterminated comment")) rfl
              w []).bind (k := fun y => amembersEnd y.1 y.2.1 y.2.2) (fun v p => amembersEnd_kept rfl _ _)
            exact .inr ⟨_, hk _ _ _ hr, by simp [commentErr], .comment hM h1 h3⟩
        · next hb =>
          rcases amembersEnd_cases w (b :: r) with ⟨_, h3, h4⟩ | ⟨h3, _⟩ | ⟨b', p', h3, h4, h5⟩
          · rw [h4] at hr; cases hr; cases h3; exact .inl ⟨rfl, rfl⟩
          · cases h3
          · rw [h5] at hr; cases hr; cases h3; exact .inr ⟨_, rfl, by simp [expectAt], .close hM h1 hb h4⟩
      · simp only [h1] at hr
        cases hr
        exact .inr ⟨x, h3, h2.code, .after hM h2⟩
    · exact .inr ⟨x, posTail_kept (tslots_asafe hl) hf _ _ _ _ _ hr, ((hD.diag t).sound hd hx).2, .value hx⟩

theorem pos_complete {l : List (TSlot τ)} (hl : ∀ x ∈ l, PlaceTold U x) {t : τ} {s : Bytes} {v : τ} {p : Bytes} {e : EPtr}
    (hr : posRun l t s .fresh = .ok (v, p, e)) : (e = .fresh ∧ p.head? = some c%']') ∨ ∃ x, e = .obj x ∧ x.code ≠ .ValidJSON ∧ PosFault l t s x := by
  induction l generalizing t s v p e with
  | nil =>
    change amembersEnd t s .fresh = _ at hr
    rcases amembersEnd_cases t s with ⟨_, h3, h4⟩ | ⟨h3, h4⟩ | ⟨b', p', h3, h4, h5⟩
    · rw [h4] at hr; cases hr; subst h3; exact .inl ⟨rfl, rfl⟩
    · rw [h4] at hr; cases hr; subst h3; exact .inr ⟨_, rfl, by simp [endErr], .fullEnd⟩
    · rw [h5] at hr; cases hr; subst h3; exact .inr ⟨_, rfl, by simp [expectAt], .full h4⟩
  | cons en l ih =>
    have ih' := @ih (fun en h => hl en (by simp [h]))
    simp only [posRun] at hr
    cases hd : deAMembers ((en :: l).map fun x => x.slot.toAMember) t s .fresh with
    | ub => rw [hd] at hr; cases hr
    | fuel => rw [hd] at hr; cases hr
    | ok d =>
      obtain ⟨w, q, e1⟩ := d
      rw [hd, Out.bind_ok] at hr
      rcases pos_step (fun en h => hl en (by simp [h])) (hl en (by simp)) (fun h => ih' h) hd with ⟨rfl, h⟩ | ⟨x, rfl, hc, hx⟩
      · rcases amembersEnd_cases w q with ⟨_, h3, h4⟩ | ⟨h3, h4⟩ | ⟨b', p', h3, h4, h5⟩
        · rw [h4] at hr; cases hr; subst h3; exact .inl ⟨rfl, rfl⟩
        · subst h3; simp at h
        · subst h3; simp at h; exact absurd h h4
      · exact .inr ⟨x, amembersEnd_kept (obj_failed hc) _ _ _ _ _ hr, hc, hx⟩

theorem pos_sound {l : List (TSlot τ)} (hl : ∀ x ∈ l, PlaceTold U x) {t : τ} {s : Bytes} {x : JError} (h : PosFault l t s x)
    {v : τ} {p : Bytes} {e : EPtr} (hr : deAMembers (l.map fun x => x.slot.toAMember) t s .fresh = .ok (v, p, e)) (hne : l ≠ []) :
    e = .obj x ∧ x.code ≠ .ValidJSON := by
  induction h generalizing v p e with
  | fullEnd => exact absurd rfl hne
  | full => exact absurd rfl hne
  | @value en l t s x hx =>
    simp only [List.map_cons, deAMembers] at hr
    cases hd : en.slot.toAMember.de t s .fresh with
    | ub => rw [hd] at hr; cases hr
    | fuel => rw [hd] at hr; cases hr
    | ok d =>
      obtain ⟨w, q, e1⟩ := d
      rw [hd, Out.bind_ok] at hr
      obtain ⟨rfl, hc⟩ := ((hl en (by simp)).diag t).sound hd hx
      exact ⟨posTail_kept (tslots_asafe fun en h => hl en (by simp [h])) (obj_failed hc) _ _ _ _ _ hr, hc⟩
  | after hM hx =>
    have hT := (hl _ (by simp)).takes.mp hM
    rw [Takes] at hT
    obtain ⟨e1, h1, h2⟩ := hx.run
    simp only [List.map_cons, deAMembers, hT, Out.bind_ok, h1] at hr
    cases hr
    exact ⟨h2, hx.code⟩
  | close hM h1 h2 h3 =>
    have hT := (hl _ (by simp)).takes.mp hM
    rw [Takes] at hT
    simp only [List.map_cons, deAMembers, hT, Out.bind_ok, h1.run, if_neg h2, amembersEnd, if_pos h3] at hr
    cases hr
    exact ⟨rfl, by simp [expectAt]⟩
  | @comment en l t s t' p0 q0 hM h1 h2 =>
    have hT := (hl _ (by simp)).takes.mp hM
    rw [Takes] at hT
    simp only [List.map_cons, deAMembers, hT, Out.bind_ok, h1.run, if_true, h2.run] at hr
    have hk := (deAMembers_kept (tslots_asafe (l := l) fun en h => hl en (by simp [h]))
      (e := createError .UnexpectedEndFragment .fresh (some b!"Unterminated comment")) rfl
      t' []).bind (k := fun y => amembersEnd y.1 y.2.1 y.2.2) (fun v p => amembersEnd_kept rfl _ _)
    exact ⟨hk _ _ _ hr, by simp [commentErr]⟩
  | @more en l t s t' p0 q s' x hM h1 h2 h3 ih =>
    have hT := (hl _ (by simp)).takes.mp hM
    rw [Takes] at hT
    simp only [List.map_cons, deAMembers, hT, Out.bind_ok, h1.run, if_true, h2.run] at hr
    cases l with
    | nil =>
      simp only [List.map_nil, deAMembers, Out.bind_ok] at hr
      cases h3 with
      | fullEnd => cases hr; exact ⟨rfl, by simp [endErr]⟩
      | full hb => simp only [amembersEnd, if_pos hb] at hr; cases hr; exact ⟨rfl, by simp [expectAt]⟩
    | cons en' l =>
      cases hd : deAMembers ((en' :: l).map fun x => x.slot.toAMember) t' s' .fresh with
      | ub => rw [hd] at hr; cases hr
      | fuel => rw [hd] at hr; cases hr
      | ok d =>
        obtain ⟨w', q', e1⟩ := d
        rw [hd, Out.bind_ok] at hr
        obtain ⟨rfl, hc⟩ := ih (fun en h => hl en (by simp at h; simp [h])) hd (by simp)
        exact ⟨amembersEnd_kept (obj_failed hc) _ _ _ _ _ hr, hc⟩

theorem objectArrayBody_eq (L : List (AMember τ)) (t : τ) (s : Bytes) {b : Byte} {q : Bytes} (h : Skips s (b :: q)) (hb : b ≠ c%']') :
    objectArrayBody L t s .fresh = deAMembers L t (b :: q) .fresh >>= fun x => posEnd x.1 x.2.1 x.2.2 := by
  simp only [objectArrayBody, h.run, if_pos hb]
  rfl

theorem Spec.Skips.noGap {s s' : Bytes} (h : Skips s s') : NoGap s' := by
  obtain ⟨_, _, _, h⟩ := h
  exact h

theorem noGap_skips {s : Bytes} (h : NoGap s) : Skips s s := ⟨[], rfl, ⟨.nil, by simp⟩, h⟩

theorem noGap_close (p : Bytes) : NoGap (c%']' :: p) := by
  intro b hb
  simp at hb
  subst hb
  decide

theorem positional_diagnosed {L : List (TSlot τ)} {dflt : τ} (hL : ∀ x ∈ L, PlaceTold U x) (t : τ) :
    Diagnosed (deObjectArray dflt (L.map fun x => x.slot.toAMember)) t (ObjectArrayFault L t) := by
  refine diagnosed_mk (fun s v p e hr => ?_) (fun s x hx v p e hr => ?_)
  · cases s with
    | nil => cases hr; exact .inr ⟨_, rfl, .none⟩
    | cons b u =>
      simp only [deObjectArray, isNull_cons] at hr
      split at hr
      · next hb =>
        subst hb
        rcases null_told u with ⟨q, hq⟩ | ⟨x, hx⟩
        · rw [hq] at hr; cases hr; exact .inl rfl
        · rw [(null_read hx).2.1] at hr
          cases hr
          exact .inr ⟨x, rfl, .null hx⟩
      · next hb =>
        split at hr
        · next h => cases hr; exact .inr ⟨_, rfl, .kind hb h⟩
        · next h =>
          have h := Decidable.not_not.mp h
          subst h
          rcases next_cases u with ⟨b, q, h1, h2⟩ | ⟨e1, x, h1, h2, h3⟩
          · by_cases hc : b = c%']'
            · subst hc
              simp only [objectArrayBody, h2, ne_eq, not_true, if_false, objectArrayEnd] at hr
              cases hr
              exact .inl rfl
            · rw [objectArrayBody_eq _ _ _ h1 hc] at hr
              cases hd : deAMembers (L.map fun x => x.slot.toAMember) t (b :: q) .fresh with
              | ub => rw [hd] at hr; cases hr
              | fuel => rw [hd] at hr; cases hr
              | ok d =>
                obtain ⟨w, q', e1⟩ := d
                rw [hd, Out.bind_ok] at hr
                cases L with
                | nil =>
                  cases hd
                  have hg : Skips (b :: q) (b :: q) := noGap_skips h1.noGap
                  simp only [posEnd, hg.run, objectArrayEnd, if_pos hc] at hr
                  cases hr
                  exact .inr ⟨_, rfl, .members h1 hc (.full hc)⟩
                | cons en l =>
                  rcases pos_step (fun en h => hL en (by simp [h])) (hL en (by simp))
                    (fun h => pos_complete (fun en h => hL en (by simp [h])) h) hd with ⟨rfl, h⟩ | ⟨x, rfl, hc', hx⟩
                  · cases q' with
                    | nil => simp at h
                    | cons d q' =>
                      simp at h
                      subst h
                      simp only [posEnd, (noGap_skips (noGap_close q')).run, objectArrayEnd, ne_eq, not_true, if_false] at hr
                      cases hr
                      exact .inl rfl
                  · exact .inr ⟨x, posEnd_kept (obj_failed hc') _ _ _ _ _ hr, .members h1 hc hx⟩
          · simp only [objectArrayBody, h1] at hr
            cases hr
            exact .inr ⟨x, h3, .cut h2⟩
  · cases hx with
    | none => cases hr; exact ⟨rfl, by simp [endErr]⟩
    | null hx =>
      obtain ⟨h1, h2, h3⟩ := null_read hx
      simp only [deObjectArray, h1, if_true, h2] at hr
      cases hr
      exact ⟨rfl, h3⟩
    | kind h1 h2 =>
      simp only [deObjectArray, isNull_cons, if_neg h1, if_pos h2] at hr
      cases hr
      exact ⟨rfl, by simp [expectAt]⟩
    | cut hx =>
      simp only [deObjectArray, isNull_cons] at hr
      rw [if_neg (by decide)] at hr
      obtain ⟨e1, h1, h2⟩ := hx.run
      simp only [ne_eq, not_true, if_false, objectArrayBody, h1] at hr
      cases hr
      exact ⟨h2, hx.code⟩
    | @members s b q x h1 hc hx =>
      simp only [deObjectArray, isNull_cons] at hr
      rw [if_neg (by decide)] at hr
      simp only [ne_eq, not_true, if_false] at hr
      rw [objectArrayBody_eq _ _ _ h1 hc] at hr
      cases hd : deAMembers (L.map fun x => x.slot.toAMember) t (b :: q) .fresh with
      | ub => rw [hd] at hr; cases hr
      | fuel => rw [hd] at hr; cases hr
      | ok d =>
        obtain ⟨w, q', e1⟩ := d
        rw [hd, Out.bind_ok] at hr
        cases L with
        | nil =>
          cases hd
          have hg : Skips (b :: q) (b :: q) := noGap_skips h1.noGap
          simp only [posEnd, hg.run, objectArrayEnd, if_pos hc] at hr
          cases hr
          cases hx with
          | full _ => exact ⟨rfl, by simp [expectAt]⟩
        | cons en l =>
          obtain ⟨rfl, hc'⟩ := pos_sound hL hx hd (by simp)
          exact ⟨posEnd_kept (obj_failed hc') _ _ _ _ _ hr, hc'⟩

end

/-! ### Pointers, quoted values, parts of structures -/

section
variable {α : Type} {S : Ser α} {U : Prop}

theorem pointer_diagnosed {F : Bytes → JError → Prop} (hD : Diagnosed S.de S.dflt F) (v0 : Option α) :
    Diagnosed (dePointer S) v0 (PointerFault F) := by
  refine diagnosed_mk (fun s v p e hr => ?_) (fun s x hx v p e hr => ?_)
  · cases s with
    | nil => cases hr; exact .inl rfl
    | cons b t =>
      simp only [dePointer] at hr
      split at hr
      · next hb =>
        cases hd : S.de S.dflt (b :: t) .fresh with
        | ub => rw [hd] at hr; cases hr
        | fuel => rw [hd] at hr; cases hr
        | ok d =>
          obtain ⟨w, q, e1⟩ := d
          rw [hd, Out.bind_ok] at hr
          cases hr
          rcases hD.cases hd with ⟨rfl, _⟩ | ⟨x, hx, rfl, _⟩
          · exact .inl rfl
          · exact .inr ⟨x, rfl, .value hb hx⟩
      · cases hr; exact .inl rfl
  · cases hx with
    | @value b t x hb hx =>
      simp only [dePointer, if_pos hb] at hr
      cases hd : S.de S.dflt (b :: t) .fresh with
      | ub => rw [hd] at hr; cases hr
      | fuel => rw [hd] at hr; cases hr
      | ok d =>
        obtain ⟨w, q, e1⟩ := d
        rw [hd, Out.bind_ok] at hr
        cases hr
        exact hD.sound hd hx

theorem memberValue_diagnosed {τ : Type} {F : α → Bytes → JError → Prop} {dflt : τ} {get : τ → α} {set : α → τ → τ}
    (hD : ∀ v, Diagnosed S.de v (F v)) (t : τ) : Diagnosed (memberValueSer dflt get set S).de t (F (get t)) := by
  intro s v p e hr
  simp only [memberValueSer] at hr
  cases hd : S.de (get t) s .fresh with
  | ub => rw [hd] at hr; cases hr
  | fuel => rw [hd] at hr; cases hr
  | ok d =>
    obtain ⟨w, q, e1⟩ := d
    rw [hd, Out.bind_ok] at hr
    cases hr
    exact hD _ _ _ _ _ hd

/-- From the tables of C75. -/
theorem diagnosed_of {f : De α} {v0 : α} {F : Bytes → JError → Prop} (hf : Safe U f) (h1 : ∀ s x, F s x → Tells f v0 s x)
    (h2 : ∀ s, (∃ x, F s x) ∨ Quiet f v0 s) : Diagnosed f v0 F := by
  refine diagnosed_mk (fun s v p e hr => ?_) (fun s x hx v p e hr => ?_)
  · rcases h2 s with ⟨x, hx⟩ | h
    · obtain ⟨v', p', h'⟩ := h1 s x hx {} rfl
      rw [show EPtr.fresh = .obj {} from rfl, h'] at hr
      cases hr
      exact .inr ⟨x, rfl, hx⟩
    · exact .inl (h {} rfl _ _ _ hr)
  · obtain ⟨v', p', h'⟩ := h1 s x hx {} rfl
    rw [show EPtr.fresh = .obj {} from rfl, h'] at hr
    cases hr
    refine ⟨rfl, fun hc => ?_⟩
    have hne : x ≠ ⟨x.code, x.expectedOf, x.tailOf + 1⟩ := by
      intro h
      have := congrArg JError.tailOf h
      simp only at this
      omega
    obtain ⟨v2, p2, h2⟩ := h1 s x hx ⟨x.code, x.expectedOf, x.tailOf + 1⟩ hc
    obtain ⟨_, n, h3⟩ := (hf _ _ _).step h2
    rcases h3.clean (clean_obj hc) with h | h
    · injection h with h
      exact hne h
    · simp [EPtr.failed, JError.status, hc] at h

theorem str_diagnosed (v0 : Bytes) : Diagnosed strSer.de v0 (StrFault 2147483647) :=
  diagnosed_of deStr_safe (fun _ _ => str_sound v0) (str_dich v0)

theorem quotedStr_cases {F : α → Bytes → JError → Prop} (hD : ∀ v, Diagnosed S.de v (F v)) {v0 : α} {s : Bytes} {v : α} {p : Bytes}
    {e : EPtr} (hr : deQuotedStr S v0 s .fresh = .ok (v, p, e)) :
    e = .fresh ∨ (∃ x, e = .obj x ∧ StrFault 2147483647 s x) ∨
    ∃ w p y, Takes strSer.de [] s w p ∧ F v0 w y ∧ e = .obj ⟨y.code, none, (p.length : Int) + y.tailOf + 1⟩ := by
  simp only [deQuotedStr] at hr
  cases hd : strSer.de [] s .fresh with
  | ub => rw [hd] at hr; cases hr
  | fuel => rw [hd] at hr; cases hr
  | ok d =>
    obtain ⟨w, q, e1⟩ := d
    rw [hd, Out.bind_ok] at hr
    rcases (str_diagnosed []).cases hd with ⟨rfl, hT⟩ | ⟨x, hx, rfl, hf⟩
    · rw [if_neg (show ¬ EPtr.fresh.failed = true by decide)] at hr
      cases hi : S.de v0 w .fresh with
      | ub => rw [hi] at hr; cases hr
      | fuel => rw [hi] at hr; cases hr
      | ok d =>
        obtain ⟨w', q', e2⟩ := d
        rw [hi, Out.bind_ok] at hr
        rcases (hD v0).cases hi with ⟨rfl, _⟩ | ⟨y, hy, rfl, hf⟩
        · cases hr
          exact .inl rfl
        · have hs : y.status = true := hf
          simp only [hs] at hr
          cases hr
          exact .inr (.inr ⟨w, q, y, hT, hy, rfl⟩)
    · simp only [hf, if_true] at hr
      cases hr
      exact .inr (.inl ⟨x, rfl, hx⟩)

theorem quotedStr_string {v0 : α} {s : Bytes} {x : JError} (hx : StrFault 2147483647 s x) {v : α} {p : Bytes}
    {e : EPtr} (hr : deQuotedStr S v0 s .fresh = .ok (v, p, e)) : e = .obj x ∧ x.code ≠ .ValidJSON := by
  simp only [deQuotedStr] at hr
  cases hd : strSer.de [] s .fresh with
  | ub => rw [hd] at hr; cases hr
  | fuel => rw [hd] at hr; cases hr
  | ok d =>
    obtain ⟨w, q, e1⟩ := d
    rw [hd, Out.bind_ok] at hr
    obtain ⟨rfl, hc⟩ := (str_diagnosed []).sound hd hx
    simp only [obj_failed hc, if_true] at hr
    cases hr
    exact ⟨rfl, hc⟩

theorem quotedStr_inner {F : α → Bytes → JError → Prop} (hD : ∀ v, Diagnosed S.de v (F v)) {v0 : α} {s w q : Bytes} {y : JError}
    (hT : Takes strSer.de [] s w q) (hy : F v0 w y) {v : α} {p : Bytes} {e : EPtr} (hr : deQuotedStr S v0 s .fresh = .ok (v, p, e)) :
    e = .obj ⟨y.code, none, (q.length : Int) + y.tailOf + 1⟩ ∧ y.code ≠ .ValidJSON := by
  rw [Takes] at hT
  simp only [deQuotedStr, hT, Out.bind_ok] at hr
  rw [if_neg (show ¬ EPtr.fresh.failed = true by decide)] at hr
  cases hi : S.de v0 w .fresh with
  | ub => rw [hi] at hr; cases hr
  | fuel => rw [hi] at hr; cases hr
  | ok d =>
    obtain ⟨w', q', e2⟩ := d
    rw [hi, Out.bind_ok] at hr
    obtain ⟨rfl, hc⟩ := (hD v0).sound hi hy
    have hs : y.status = true := obj_failed hc
    simp only [hs] at hr
    cases hr
    exact ⟨rfl, hc⟩

theorem quoted_diagnosed {F : α → Bytes → JError → Prop} (req : Bool) (hD : ∀ v, Diagnosed S.de v (F v)) (v0 : α) :
    Diagnosed (deQuoted S req) v0 (QuotedFault req (F v0)) := by
  have hq : ∀ s, (req = true ∨ s.head? = some c%'"') → deQuoted S req v0 s .fresh = deQuotedStr S v0 s .fresh := by
    intro s h
    rcases h with rfl | h
    · rfl
    · simp [deQuoted, isString, h]
  refine diagnosed_mk (fun s v p e hr => ?_) (fun s x hx v p e hr => ?_)
  · by_cases h : req = true ∨ s.head? = some c%'"'
    · rw [hq s h] at hr
      rcases quotedStr_cases hD hr with h' | ⟨x, h', hx⟩ | ⟨w, q, y, hT, hy, h'⟩
      · exact .inl h'
      · exact .inr ⟨x, h', .string h hx⟩
      · exact .inr ⟨_, h', .inner h hT hy⟩
    · rw [not_or] at h
      have h1 : req = false := by simpa using h.1
      subst h1
      have hi : isString s = false := by simpa [isString] using h.2
      simp only [deQuoted, hi, Bool.false_eq_true, if_false] at hr
      rcases (hD v0).cases hr with ⟨rfl, _⟩ | ⟨x, hx, rfl, _⟩
      · exact .inl rfl
      · exact .inr ⟨x, rfl, .plain rfl h.2 hx⟩
  · cases hx with
    | string h hx =>
      rw [hq s h] at hr
      exact quotedStr_string hx hr
    | inner h hT hy =>
      rw [hq s h] at hr
      exact quotedStr_inner hD hT hy hr
    | plain h1 h2 hx =>
      subst h1
      have hi : isString s = false := by simpa [isString] using h2
      simp only [deQuoted, hi, Bool.false_eq_true, if_false] at hr
      exact (hD v0).sound hr hx

end

end Wjson
