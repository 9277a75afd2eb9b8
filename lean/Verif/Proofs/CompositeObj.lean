import Verif.Proofs.CompositePos
import Verif.Proofs.Object
/-
C76: structures written as objects.
-/
namespace Wjson
open Spec

theorem nameLoop_cases {n : Bytes} (hn : c%'"' ∉ n) (t : Bytes) :
    (t <+: n ∧ (nameLoop n t).2 = []) ∨ (∃ p, t = n ++ c%'"' :: p ∧ nameLoop n t = ([], c%'"' :: p)) ∨
    (¬ t <+: n ∧ ¬ (n ++ [c%'"']) <+: t ∧ ∃ ns b p, nameLoop n t = (ns, b :: p) ∧ (b ≠ c%'"' ∨ ns ≠ [])) := by
  induction n generalizing t with
  | nil =>
    cases t with
    | nil => exact .inl ⟨List.prefix_refl _, rfl⟩
    | cons b p =>
      by_cases hb : b = c%'"'
      · subst hb; exact .inr (.inl ⟨p, rfl, rfl⟩)
      · refine .inr (.inr ⟨by simp, ?_, [], b, p, rfl, .inl hb⟩)
        rintro ⟨r, hr⟩
        simp at hr
        exact hb hr.1.symm
  | cons a n ih =>
    simp only [List.mem_cons, not_or] at hn
    cases t with
    | nil => exact .inl ⟨List.nil_prefix, rfl⟩
    | cons b t =>
      by_cases hb : b = a
      · subst hb
        have hl : nameLoop (b :: n) (b :: t) = nameLoop n t := by
          simp only [nameLoop]
          rw [if_pos ⟨trivial, Ne.symm hn.1⟩]
        rcases ih hn.2 t with ⟨h1, h2⟩ | ⟨p, rfl, h2⟩ | ⟨h1, h2, h3⟩
        · exact .inl ⟨by simpa using h1, by rw [hl]; exact h2⟩
        · exact .inr (.inl ⟨p, rfl, by rw [hl]; exact h2⟩)
        · exact .inr (.inr ⟨by simpa using h1, by simpa using h2, by rw [hl]; exact h3⟩)
      · refine .inr (.inr ⟨?_, ?_, a :: n, b, t, ?_, .inr (by simp)⟩)
        · rintro ⟨r, hr⟩; simp at hr; exact hb hr.1
        · rintro ⟨r, hr⟩; simp at hr; exact hb hr.1.symm
        · simp only [nameLoop]
          rw [if_neg (fun h => hb h.1)]

/-- What `memberName` does behind a name. -/
def nameTail (p : Bytes) (e : EPtr) : Bytes × EPtr × Bool :=
  let r := parseSpace p e
  match r.1 with
  | [] => ([], createError .UnexpectedEndFragment r.2, true)
  | b' :: p =>
    if b' ≠ c%':' then ([], createError .ExpectedOf r.2 (some b!":") ((b' :: p).length : Nat), true)
    else
      let r := parseSpace p r.2
      match r.1 with
      | [] => ([], createError .UnexpectedEndFragment r.2, true)
      | b' :: p => (b' :: p, r.2, true)

theorem memberName_quote {n s : Bytes} (h : s.head? ≠ some c%'"') (u : Bool) :
    memberName n s .fresh u = ([], .obj (expectAt b!"\"" s), u) := by
  cases s with
  | nil => rfl
  | cons b t =>
    have hb : b ≠ c%'"' := by simpa using h
    simp only [memberName, if_pos hb]
    rfl

theorem memberName_known {n : Bytes} (hn : c%'"' ∉ n) (p : Bytes) (u : Bool) :
    memberName n (c%'"' :: (n ++ c%'"' :: p)) .fresh u = nameTail p .fresh := by
  have hl := nameLoop_match hn p
  simp only [memberName, ne_eq, not_true, if_false, hl, or_self]
  rfl

theorem memberName_cut {n w : Bytes} (hn : c%'"' ∉ n) (h : w <+: n) (u : Bool) :
    memberName n (c%'"' :: w) .fresh u = ([], .obj endErr, true) := by
  have hl : (nameLoop n w).2 = [] := by
    rcases nameLoop_cases hn w with ⟨_, h2⟩ | ⟨p, rfl, _⟩ | ⟨h2, _⟩
    · exact h2
    · obtain ⟨r, hr⟩ := h
      exact absurd (by rw [← hr]; simp) hn
    · exact absurd h h2
  simp only [memberName, ne_eq, not_true, if_false, hl]
  rfl

theorem memberName_unknown {n w : Bytes} (hn : c%'"' ∉ n) (h1 : ¬ (n ++ [c%'"']) <+: w) (h2 : ¬ w <+: n) (u : Bool) (e : EPtr) :
    memberName n (c%'"' :: w) e u = (c%'"' :: w, e, false) := by
  rcases nameLoop_cases hn w with ⟨h, _⟩ | ⟨p, rfl, _⟩ | ⟨_, _, ns, b, p, hl, hb⟩
  · exact absurd h h2
  · exact absurd ⟨p, by simp⟩ h1
  · simp only [memberName, ne_eq, not_true, if_false, hl]
    rw [if_pos hb]

theorem name_split {n w : Bytes} (hn : c%'"' ∉ n) :
    (∃ p, w = n ++ c%'"' :: p) ∨ w <+: n ∨ (¬ (n ++ [c%'"']) <+: w ∧ ¬ w <+: n) := by
  rcases nameLoop_cases hn w with ⟨h, _⟩ | ⟨p, h, _⟩ | ⟨h1, h2, _⟩
  · exact .inr (.inl h)
  · exact .inl ⟨p, h⟩
  · exact .inr (.inr ⟨h2, h1⟩)

section
variable {τ : Type} {U : Prop} {c : Cfg} {strict : Bool}

theorem toMember_de (en : Entry τ) (t : τ) (s : Bytes) (e : EPtr) (u : Bool) :
    en.toMember.de t s e u = if !(memberName en.ref.name s e u).2.2 then .ok (t, memberName en.ref.name s e u)
      else en.toAMember.de t (memberName en.ref.name s e u).1 (memberName en.ref.name s e u).2.1 >>= fun d =>
        .ok (d.1, d.2.1, d.2.2, true) := by
  rw [toAMember_de]
  simp only [Out.bind_assoc, Out.bind_ok]
  cases en <;> rfl

theorem nameTail_flag (w : Bytes) (e : EPtr) : (nameTail w e).2.2 = true := by
  simp only [nameTail]
  split
  · rfl
  · split
    · rfl
    · split <;> rfl

theorem entry_known {en : Entry τ} (hn : c%'"' ∉ en.ref.name) (t : τ) (w : Bytes) (u : Bool) :
    en.toMember.de t (c%'"' :: (en.ref.name ++ c%'"' :: w)) .fresh u =
      en.toAMember.de t (nameTail w .fresh).1 (nameTail w .fresh).2.1 >>= fun d => .ok (d.1, d.2.1, d.2.2, true) := by
  rw [toMember_de, memberName_known hn, nameTail_flag]
  simp only [Bool.not_true, Bool.false_eq_true, if_false]

theorem entry_unknown {en : Entry τ} (hn : c%'"' ∉ en.ref.name) {w : Bytes} (h1 : ¬ (en.ref.name ++ [c%'"']) <+: w) (h2 : ¬ w <+: en.ref.name)
    (t : τ) (e : EPtr) (u : Bool) : en.toMember.de t (c%'"' :: w) e u = .ok (t, c%'"' :: w, e, false) := by
  rw [toMember_de, memberName_unknown hn h1 h2]
  rfl

/-- A name that has an error behind it: the error is kept. -/
theorem entry_name_bad {en : Entry τ} (hS : Safe U en.ref.ser.de) {s q : Bytes} {y : JError} (hc : y.code ≠ .ValidJSON) {u : Bool}
    (hm : memberName en.ref.name s .fresh u = (q, .obj y, true)) {t t' : τ} {u' : Bool} {p : Bytes} {e : EPtr}
    (hr : en.toMember.de t s .fresh u = .ok (t', p, e, u')) : e = .obj y ∧ u' = true := by
  rw [toMember_de, hm] at hr
  simp only [Bool.not_true, Bool.false_eq_true, if_false] at hr
  obtain ⟨⟨v, q', e1⟩, h1, h2⟩ := Out.bind_eq_ok.mp hr
  cases h2
  exact ⟨(Entry.asafe hS).kept (obj_failed hc) _ _ _ _ _ h1, rfl⟩

theorem entry_quote {en : Entry τ} {s : Bytes} (h : s.head? ≠ some c%'"') (t : τ) :
    en.toMember.de t s .fresh false = .ok (t, [], .obj (expectAt b!"\"" s), false) := by
  rw [toMember_de, memberName_quote h]
  rfl

/-- What is known about a place of an object. -/
structure NamedTold (U : Prop) (x : TSlot τ) : Prop extends PlaceTold U x where
  msafe : MSafe U x.slot.toMember
  nq : c%'"' ∉ x.name
  known : ∀ {w b r}, nameTail w .fresh = (b :: r, .fresh, true) → ∀ t, x.slot.toMember.de t (c%'"' :: (x.name ++ c%'"' :: w)) .fresh false =
    x.slot.toAMember.de t (b :: r) .fresh >>= fun d => .ok (d.1, d.2.1, d.2.2, true)
  bad : ∀ {w y}, nameTail w .fresh = ([], .obj y, true) → y.code ≠ .ValidJSON → ∀ {t t' p e u'},
    x.slot.toMember.de t (c%'"' :: (x.name ++ c%'"' :: w)) .fresh false = .ok (t', p, e, u') → e = .obj y ∧ u' = true
  cut : ∀ {w}, w <+: x.name → ∀ {t t' p e u'}, x.slot.toMember.de t (c%'"' :: w) .fresh false = .ok (t', p, e, u') →
    e = .obj endErr ∧ u' = true
  unknown : ∀ {w}, ¬ (x.name ++ [c%'"']) <+: w → ¬ w <+: x.name → ∀ {t d},
    x.slot.toMember.de t (c%'"' :: w) .fresh false = .ok d ↔ ∃ t', x.passed t t' ∧ d = (t', c%'"' :: w, .fresh, false)
  quote : ∀ {s : Bytes}, s.head? ≠ some c%'"' → ∀ {t t' p e u'}, x.slot.toMember.de t s .fresh false = .ok (t', p, e, u') →
    e = .obj (expectAt b!"\"" s) ∧ u' = false

theorem one_named {en : Entry τ} {F : en.ref.α → Bytes → JError → Prop} (hS : Safe U en.ref.ser.de) (hD : ∀ v, Diagnosed en.ref.ser.de v (F v))
    (hn : c%'"' ∉ en.ref.name) : NamedTold U (.one en F) where
  toPlaceTold := one_told hS hD
  msafe := Entry.safe hS
  nq := hn
  known := by
    intro w b r h t
    change en.toMember.de t (c%'"' :: (en.ref.name ++ c%'"' :: w)) .fresh false = _
    rw [entry_known hn, h]
    rfl
  bad := fun h hc _ _ _ _ _ hr => entry_name_bad hS hc ((memberName_known hn _ _).trans h) hr
  cut := fun h _ _ _ _ _ hr => entry_name_bad hS (by simp [endErr]) (memberName_cut hn h _) hr
  unknown := by
    intro w h1 h2 t d
    change en.toMember.de t (c%'"' :: w) .fresh false = _ ↔ _
    rw [entry_unknown hn h1 h2]
    constructor
    · intro h; cases h; exact ⟨t, rfl, rfl⟩
    · rintro ⟨_, rfl, rfl⟩; rfl
  quote := by
    intro s h t t' p e u' hr
    change en.toMember.de t s .fresh false = _ at hr
    rw [entry_quote h] at hr
    cases hr
    exact ⟨rfl, rfl⟩

section
variable {a b : MRef τ} (hab : b.name = a.name) (hn : c%'"' ∉ a.name)
include hn

include hab in
theorem if_known {w r : Bytes} {d : Byte} (h : nameTail w .fresh = (d :: r, .fresh, true)) (t : τ) :
    deMemberIf a b t (c%'"' :: (a.name ++ c%'"' :: w)) .fresh false =
      deAMemberIf a b t (d :: r) .fresh >>= fun d => .ok (d.1, d.2.1, d.2.2, true) := by
  have h1 : ∀ t u, deMember a t (c%'"' :: (a.name ++ c%'"' :: w)) .fresh u =
      (amember a).de t (d :: r) .fresh >>= fun d => .ok (d.1, d.2.1, d.2.2, true) := by
    intro t u
    have := entry_known (en := .mem a) hn t w u
    rw [h] at this
    exact this
  have h2 : ∀ t u, deMember b t (c%'"' :: (a.name ++ c%'"' :: w)) .fresh u =
      (amember b).de t (d :: r) .fresh >>= fun d => .ok (d.1, d.2.1, d.2.2, true) := by
    intro t u
    have := entry_known (en := .mem b) (by rw [← hab] at hn; exact hn) t w u
    rw [h] at this
    rw [← hab]
    exact this
  simp only [deMemberIf, deAMemberIf, h1, h2, Out.bind_assoc, Out.bind_ok]
  cases (amember a).de t (d :: r) .fresh with
  | ub => rfl
  | fuel => rfl
  | ok y =>
    simp only [Out.bind_ok]
    split
    · simp only [Out.bind_assoc, Out.bind_ok]
    · simp only [Out.bind_assoc]

omit hn in
/-- The same error for both alternatives. -/
theorem if_bad {s : Bytes} {y : JError} {fl : Bool}
    (ha : ∀ {t t' p e u'}, deMember a t s .fresh false = .ok (t', p, e, u') → e = .obj y ∧ u' = fl)
    (hb : ∀ {t t' p e u'}, deMember b t s .fresh fl = .ok (t', p, e, u') → e = .obj y ∧ u' = fl)
    (hc : y.code ≠ .ValidJSON) {t t' : τ} {p : Bytes} {e : EPtr} {u' : Bool} (hr : deMemberIf a b t s .fresh false = .ok (t', p, e, u')) :
    e = .obj y ∧ u' = fl := by
  obtain ⟨⟨t1, p1, e1, u1⟩, h1, h2⟩ := Out.bind_eq_ok.mp hr
  obtain ⟨rfl, rfl⟩ := ha h1
  simp only [obj_failed hc, Bool.not_true, Bool.false_eq_true, if_false] at h2
  obtain ⟨t2, _, h3⟩ := Out.bind_eq_ok.mp h2
  exact hb h3

theorem if_unknown {w : Bytes} (h1 : ¬ (a.name ++ [c%'"']) <+: w) (h2 : ¬ w <+: a.name) {t : τ} {d : τ × Bytes × EPtr × Bool} :
    deMemberIf a b t (c%'"' :: w) .fresh false = .ok d ↔ ∃ t', NullInto b t t' ∧ d = (t', c%'"' :: w, .fresh, false) := by
  have := entry_unknown (en := .mem a) hn h1 h2 t .fresh false
  have h3 : deMember a t (c%'"' :: w) .fresh false = .ok (t, c%'"' :: w, .fresh, false) := this
  simp only [deMemberIf, h3, Out.bind_ok]
  rw [if_pos (by decide)]
  simp only [Out.bind_eq_ok, readNull_ok]
  constructor
  · rintro ⟨t', h, h'⟩; cases h'; exact ⟨t', h, rfl⟩
  · rintro ⟨t', h, rfl⟩; exact ⟨t', h, rfl⟩

end

/-- The part of `NamedTold` that is the same for both orders. -/
theorem if_named {x : TSlot τ} {a b : MRef τ} (hT : PlaceTold U x) (hM : MSafe U x.slot.toMember) (hA : Safe U a.ser.de) (hB : Safe U b.ser.de)
    (hab : b.name = a.name) (hn : c%'"' ∉ a.name) (hx : x.name = a.name) (hm : x.slot.toMember.de = deMemberIf a b)
    (ham : x.slot.toAMember.de = deAMemberIf a b) (hp : x.passed = NullInto b) : NamedTold U x where
  toPlaceTold := hT
  msafe := hM
  nq := by rw [hx]; exact hn
  known := by
    intro w b r h t
    rw [hm, ham, hx]
    exact if_known hab hn h t
  bad := by
    intro w y h hc t t' p e u' hr
    rw [hm, hx] at hr
    refine if_bad (fun hr => ?_) (fun hr => ?_) hc hr
    · exact entry_name_bad (en := .mem a) hA hc ((memberName_known hn _ _).trans h) hr
    · exact entry_name_bad (en := .mem b) hB hc (by rw [← hab]; exact (memberName_known (by rw [← hab] at hn; exact hn) _ _).trans h) hr
  cut := by
    intro w h t t' p e u' hr
    rw [hm] at hr
    rw [hx] at h
    refine if_bad (fun hr => ?_) (fun hr => ?_) (by simp [endErr]) hr
    · exact entry_name_bad (en := .mem a) hA (by simp [endErr]) (memberName_cut hn h _) hr
    · exact entry_name_bad (en := .mem b) hB (by simp [endErr]) (memberName_cut (n := b.name) (by rw [hab]; exact hn) (by rw [hab]; exact h) _) hr
  unknown := by
    intro w h1 h2 t d
    rw [hx] at h1 h2
    rw [hm, hp]
    exact if_unknown hn h1 h2
  quote := by
    intro s h t t' p e u' hr
    rw [hm] at hr
    refine if_bad (fun {t _ _ _ _} hr => ?_) (fun {t _ _ _ _} hr => ?_) (by simp [expectAt]) hr
    · have := entry_quote (en := .mem a) h t
      have h3 : deMember a t s .fresh false = _ := this
      rw [h3] at hr
      cases hr
      exact ⟨rfl, rfl⟩
    · have := entry_quote (en := .mem b) h t
      have h3 : deMember b t s .fresh false = _ := this
      rw [h3] at hr
      cases hr
      exact ⟨rfl, rfl⟩

theorem alt_named {l r : MRef τ} {Fl : l.α → Bytes → JError → Prop} {Fr : r.α → Bytes → JError → Prop} (hl : Safe U l.ser.de)
    (hr : Safe U r.ser.de) (hDl : ∀ v, Diagnosed l.ser.de v (Fl v)) (hDr : ∀ v, Diagnosed r.ser.de v (Fr v)) (i : l.α → Bool) (RU : Bool)
    (hn : c%'"' ∉ l.name) (hlr : l.name = r.name) : NamedTold U (.alt l r i RU Fl Fr) := by
  cases RU with
  | false =>
    exact if_named (a := l) (b := r) (alt_told hl hr hDl hDr i _) (memberIf_safe hl hr i _) hl hr hlr.symm hn rfl rfl rfl rfl
  | true =>
    exact if_named (a := r) (b := l) (alt_told hl hr hDl hDr i _) (memberIf_safe hl hr i _) hr hl hlr (by rw [← hlr]; exact hn) hlr rfl rfl rfl

/-- A known member, from the text behind its name. -/
def namedRun (x : TSlot τ) (t : τ) (w : Bytes) : Out (τ × Bytes × EPtr) :=
  x.slot.toMember.de t (c%'"' :: (x.name ++ c%'"' :: w)) .fresh false >>= fun d => .ok (d.1, d.2.1, d.2.2.1)

/-- The three ways the text behind a name can go. -/
theorem tail_cases (w : Bytes) :
    (∃ q b r, Skips w (c%':' :: q) ∧ Skips q (b :: r) ∧ nameTail w .fresh = (b :: r, .fresh, true)) ∨
    ∃ x, nameTail w .fresh = ([], .obj x, true) ∧ x.code ≠ .ValidJSON ∧ ∀ F, NamedFault F w x := by
  rcases next_cases w with ⟨b, q, h1, h2⟩ | ⟨e1, x, h1, h2, h3⟩
  · by_cases hb : b = c%':'
    · subst hb
      rcases next_cases q with ⟨b, r, h3, h4⟩ | ⟨e1, x, h3, h4, h5⟩
      · exact .inl ⟨q, b, r, h1, h3, by simp only [nameTail, h2, ne_eq, not_true, if_false, h4]⟩
      · exact .inr ⟨x, by simp only [nameTail, h2, ne_eq, not_true, if_false, h3, h5], h4.code, fun F => .cutValue h1 h4⟩
    · exact .inr ⟨expectAt b!":" (b :: q), by simp only [nameTail, h2]; rw [if_pos hb]; rfl, by simp [expectAt], fun F => .colon h1 hb⟩
  · exact .inr ⟨x, by simp only [nameTail, h1, h3], h2.code, fun F => .cut h2⟩

theorem named_flag {x : TSlot τ} (hT : NamedTold U x) {t : τ} {w : Bytes} {d : τ × Bytes × EPtr × Bool}
    (h : x.slot.toMember.de t (c%'"' :: (x.name ++ c%'"' :: w)) .fresh false = .ok d) : d.2.2.2 = true := by
  obtain ⟨t', p, e, u'⟩ := d
  rcases tail_cases w with ⟨q, b, r, _, _, h1⟩ | ⟨y, h1, hc, _⟩
  · rw [hT.known h1] at h
    obtain ⟨_, _, h2⟩ := Out.bind_eq_ok.mp h
    cases h2
    rfl
  · exact (hT.bad h1 hc h).2

theorem place_known {x : TSlot τ} (hT : NamedTold U x) (t : τ) (w : Bytes) :
    x.slot.toMember.de t (c%'"' :: (x.name ++ c%'"' :: w)) .fresh false = namedRun x t w >>= fun d => .ok (d.1, d.2.1, d.2.2, true) := by
  simp only [namedRun, Out.bind_assoc, Out.bind_ok]
  cases h : x.slot.toMember.de t (c%'"' :: (x.name ++ c%'"' :: w)) .fresh false with
  | ub => rfl
  | fuel => rfl
  | ok d =>
    have := named_flag hT h
    obtain ⟨t', p, e, u'⟩ := d
    simp only at this
    subst this
    rfl

theorem named_ok {x : TSlot τ} (hT : NamedTold U x) {t : τ} {w : Bytes} {q r : Bytes} {b : Byte} (h1 : Skips w (c%':' :: q))
    (h2 : Skips q (b :: r)) : namedRun x t w = x.slot.toAMember.de t (b :: r) .fresh := by
  have ht : nameTail w .fresh = (b :: r, .fresh, true) := by simp only [nameTail, h1.run, ne_eq, not_true, if_false, h2.run]
  simp only [namedRun, hT.known ht, Out.bind_assoc, Out.bind_ok]
  cases x.slot.toAMember.de t (b :: r) .fresh <;> rfl

theorem named_bad {x : TSlot τ} (hT : NamedTold U x) {t t' : τ} {w p : Bytes} {e : EPtr} {y : JError}
    (h : nameTail w .fresh = ([], .obj y, true)) (hc : y.code ≠ .ValidJSON) (hr : namedRun x t w = .ok (t', p, e)) : e = .obj y := by
  obtain ⟨⟨t1, p1, e1, u1⟩, h1, h2⟩ := Out.bind_eq_ok.mp hr
  cases h2
  exact (hT.bad h hc h1).1

theorem named_cases {x : TSlot τ} (hT : NamedTold U x) {t t' : τ}
    {w p : Bytes} {e : EPtr} (hr : namedRun x t w = .ok (t', p, e)) :
    (e = .fresh ∧ NamedTakes x t w t' p) ∨ ∃ y, e = .obj y ∧ y.code ≠ .ValidJSON ∧ NamedFault (x.fault t) w y := by
  rcases tail_cases w with ⟨q, b, r, h1, h2, _⟩ | ⟨y, h1, hc, hf⟩
  · rw [named_ok hT h1 h2] at hr
    rcases (hT.diag t).cases hr with ⟨rfl, hTk⟩ | ⟨y, hy, rfl, _⟩
    · exact .inl ⟨rfl, q, b, r, h1, h2, hT.takes.mpr hTk⟩
    · exact .inr ⟨y, rfl, ((hT.diag t).sound hr hy).2, .value h1 h2 hy⟩
  · exact .inr ⟨y, named_bad hT h1 hc hr, hc, hf _⟩

theorem named_takes {x : TSlot τ} (hT : NamedTold U x) {t t' : τ} {w p : Bytes} (h : NamedTakes x t w t' p) :
    namedRun x t w = .ok (t', p, .fresh) := by
  obtain ⟨q, b, r, h1, h2, h3⟩ := h
  rw [named_ok hT h1 h2]
  exact hT.takes.mp h3

theorem named_sound {x : TSlot τ} (hT : NamedTold U x) {t t' : τ}
    {w p : Bytes} {e : EPtr} {y : JError} (hx : NamedFault (x.fault t) w y) (hr : namedRun x t w = .ok (t', p, e)) :
    e = .obj y ∧ y.code ≠ .ValidJSON := by
  cases hx with
  | cut h =>
    obtain ⟨e1, h1, h2⟩ := h.run
    exact ⟨named_bad hT (by simp only [nameTail, h1, h2]) h.code hr, h.code⟩
  | colon h1 h2 =>
    exact ⟨named_bad hT (by simp only [nameTail, h1.run]; rw [if_pos h2]; rfl) (by simp [expectAt]) hr, by simp [expectAt]⟩
  | cutValue h1 h =>
    obtain ⟨e1, h2, h3⟩ := h.run
    exact ⟨named_bad hT (by simp only [nameTail, h1.run, ne_eq, not_true, if_false, h2, h3]) h.code hr, h.code⟩
  | value h1 h2 hx =>
    rw [named_ok hT h1 h2] at hr
    exact (hT.diag t).sound hr hx

/-! ### One member of the text -/

theorem MSafe.kept {m : Member τ} (h : MSafe U m) {e : EPtr} (he : e.failed = true) {t t' : τ} {s p : Bytes} {u u' : Bool} {e' : EPtr}
    (hr : m.de t s e u = .ok (t', p, e', u')) : e' = e := by
  rcases h t s e u with ⟨h1, _⟩ | ⟨t1, p1, e1, u1, h1, _, h2⟩
  · rw [h1] at hr; cases hr
  · rw [h1] at hr; cases hr; exact h2.of_failed he

theorem search_kept (hc : c.past = none → U) {l : List (Member τ)} (hl : ∀ m ∈ l, MSafe U m) {e : EPtr} (he : e.failed = true) (t : τ)
    (s : Bytes) : KeptNew e (searchMembers c strict l t s e) := by
  intro v p e' hr
  rcases searchMembers_safe (strict := strict) hc hl t s e with ⟨h, _⟩ | ⟨v', p', e1, h, _, h2⟩
  · rw [h] at hr; cases hr
  · rw [h] at hr; cases hr; exact h2.of_failed he

theorem first_quote {n m p q : Bytes} (hn : c%'"' ∉ n) (hm : c%'"' ∉ m) (h : n ++ c%'"' :: p = m ++ c%'"' :: q) : n = m ∧ p = q := by
  induction n generalizing m with
  | nil =>
    cases m with
    | nil => simp at h; exact ⟨rfl, h⟩
    | cons a m => simp at h; exact absurd (by simp [← h.1]) hm
  | cons a n ih =>
    cases m with
    | nil => simp at h; exact absurd (by simp [h.1]) hn
    | cons b m =>
      simp at h hn hm
      obtain ⟨h1, h2⟩ := ih hn.2 hm.2 h.2
      exact ⟨by rw [h.1, h1], h2⟩

theorem tslot_eq_of_name {L : List (TSlot τ)} (h : (L.map TSlot.name).Nodup) {d x : TSlot τ} (hd : d ∈ L) (hx : x ∈ L)
    (he : d.name = x.name) : d = x := by
  induction L with
  | nil => cases hd
  | cons a L ih =>
    simp only [List.map_cons, List.nodup_cons] at h
    rcases List.mem_cons.mp hd with rfl | hd' <;> rcases List.mem_cons.mp hx with rfl | hx'
    · rfl
    · exact absurd (List.mem_map.mpr ⟨x, hx', he.symm⟩) h.1
    · exact absurd (List.mem_map.mpr ⟨d, hd', he⟩) h.1
    · exact ih h.2 hd' hx'

theorem unknown_of_ne {n m p : Bytes} (hn : c%'"' ∉ n) (hm : c%'"' ∉ m) (h : m ≠ n) :
    ¬ (m ++ [c%'"']) <+: (n ++ c%'"' :: p) ∧ ¬ (n ++ c%'"' :: p) <+: m := by
  constructor
  · rintro ⟨r, hr⟩
    exact h (first_quote hm hn (q := p) (p := r) (by rw [← hr]; simp)).1
  · rintro ⟨r, hr⟩
    exact hm (by rw [← hr]; simp)

variable {L : List (TSlot τ)}

theorem place_unknown {x : TSlot τ} (hT : NamedTold U x) {w : Bytes} (h : ¬ (x.name ++ [c%'"']) <+: w ∧ ¬ w <+: x.name) {t t' : τ}
    (hp : x.passed t t') : x.slot.toMember.de t (c%'"' :: w) .fresh false = .ok (t', c%'"' :: w, .fresh, false) :=
  (hT.unknown h.1 h.2).mpr ⟨t', hp, rfl⟩

/-- Passing the places `l1` of a list. -/
theorem search_passed {l1 : List (TSlot τ)} (hT : ∀ x ∈ l1, NamedTold U x) {w : Bytes} (h : UnknownName l1 w) {t t' : τ}
    (hp : SlotsPassed l1 t t') (l2 : List (Member τ)) :
    searchMembers c strict ((l1.map fun x => x.slot.toMember) ++ l2) t (c%'"' :: w) .fresh = searchMembers c strict l2 t' (c%'"' :: w) .fresh := by
  induction hp with
  | nil => rfl
  | @cons d l t t1 t2 h1 _ ih =>
    simp only [List.map_cons, List.cons_append]
    conv => lhs; rw [searchMembers]
    rw [place_unknown (hT d (by simp)) (h d (by simp)) h1, Out.bind_ok]
    exact ih (fun x h => hT x (by simp [h])) (fun x h' => h x (by simp [h']))

/-- If the search ends, the places that have another name have been passed. -/
theorem search_ends {l1 : List (TSlot τ)} (hT : ∀ x ∈ l1, NamedTold U x) {w : Bytes} (h : UnknownName l1 w) {t : τ} {l2 : List (Member τ)}
    {d : τ × Bytes × EPtr} (hr : searchMembers c strict ((l1.map fun x => x.slot.toMember) ++ l2) t (c%'"' :: w) .fresh = .ok d) :
    ∃ t', SlotsPassed l1 t t' ∧ searchMembers c strict l2 t' (c%'"' :: w) .fresh = .ok d := by
  induction l1 generalizing t with
  | nil => exact ⟨t, .nil, hr⟩
  | cons x l ih =>
    simp only [List.map_cons, List.cons_append] at hr
    rw [searchMembers] at hr
    obtain ⟨y, h1, h2⟩ := Out.bind_eq_ok.mp hr
    obtain ⟨t1, h3, rfl⟩ := ((hT x (by simp)).unknown (h x (by simp)).1 (h x (by simp)).2).mp h1
    simp only [Bool.false_eq_true, if_false] at h2
    obtain ⟨t2, h4, h5⟩ := ih (fun x h => hT x (by simp [h])) (fun x h' => h x (by simp [h'])) h2
    exact ⟨t2, .cons h3 h4, h5⟩

theorem search_found {x : TSlot τ} (hT : NamedTold U x) (l : List (Member τ)) (w : Bytes) (t : τ) :
    searchMembers c strict (x.slot.toMember :: l) t (c%'"' :: (x.name ++ c%'"' :: w)) .fresh = namedRun x t w := by
  rw [searchMembers, place_known hT]
  simp only [Out.bind_assoc, Out.bind_ok, if_true]
  cases namedRun x t w <;> rfl

theorem search_cut {l : List (TSlot τ)} (hT : ∀ x ∈ l, NamedTold U x) {x : TSlot τ} (hx : x ∈ l)
    {w : Bytes} (h : w <+: x.name) {t t' : τ} {p : Bytes} {e : EPtr}
    (hr : searchMembers c strict (l.map fun x => x.slot.toMember) t (c%'"' :: w) .fresh = .ok (t', p, e)) : e = .obj endErr := by
  have hw : c%'"' ∉ w := fun hm => (hT x hx).nq (h.subset hm)
  induction l generalizing t with
  | nil => cases hx
  | cons d l ih =>
    simp only [List.map_cons] at hr
    rw [searchMembers] at hr
    obtain ⟨⟨v, q, e1, u1⟩, h1, h2⟩ := Out.bind_eq_ok.mp hr
    by_cases hd : w <+: d.name
    · obtain ⟨rfl, rfl⟩ := (hT d (by simp)).cut hd h1
      simp only [if_true] at h2
      cases h2
      rfl
    · obtain ⟨t1, _, h4⟩ := ((hT d (by simp)).unknown (fun h => hw (h.subset (by simp))) hd).mp h1
      cases h4
      simp only [Bool.false_eq_true, if_false] at h2
      rcases List.mem_cons.mp hx with rfl | hx'
      · exact absurd h hd
      · exact ih (fun x h => hT x (by simp [h])) hx' h2

theorem pass_cases {s p : Bytes} {e : EPtr} (hr : parseMember c s .fresh = .ok (p, e)) :
    (e = .fresh ∧ Passes c s p) ∨ ∃ x, e = .obj x ∧ x.code ≠ .ValidJSON ∧ PassFault c s x := by
  rcases parseMember_safe (c := c) s .fresh with ⟨h, _⟩ | ⟨p1, e1, h, _, h2⟩
  · rw [h] at hr; cases hr
  · rw [h] at hr
    cases hr
    rcases h2.clean EPtr.fresh_clean with rfl | hf
    · exact .inl ⟨rfl, h⟩
    · cases e with
      | null => cases hf
      | obj x =>
        have hc : x.code ≠ .ValidJSON := by simpa [EPtr.failed, JError.status] using hf
        exact .inr ⟨x, rfl, hc, hc, p, h⟩

theorem space_twice (p : Bytes) (e : EPtr) : parseSpace (parseSpace p e).1 (parseSpace p e).2 = parseSpace p e := by
  rcases space_cases p with ⟨s', h⟩ | h
  · rw [h.run]
    exact (noGap_skips h.noGap).run e
  · rw [h.run, parseSpace_empty]

/-- One member: whether it was the expected one, and what comes of it. -/
def oneRun (c : Cfg) (strict : Bool) (L : List (Member τ)) (m : Member τ) (t : τ) (s : Bytes) (e : EPtr) : Out (Bool × τ × Bytes × EPtr) :=
  m.de t s e false >>= fun d =>
    (if d.2.2.2 then .ok (d.1, d.2.1, d.2.2.1) else searchMembers c strict L d.1 d.2.1 d.2.2.1) >>= fun x => .ok (d.2.2.2, x)

theorem one_kept (hc : c.past = none → U) {L : List (Member τ)} (hL : ∀ m ∈ L, MSafe U m) {m : Member τ} (hm : MSafe U m) {e : EPtr}
    (he : e.failed = true) {t t' : τ} {s p : Bytes} {e' : EPtr} {fl : Bool} (hr : oneRun c strict L m t s e = .ok (fl, t', p, e')) : e' = e := by
  simp only [oneRun] at hr
  cases hx : m.de t s e false with
  | ub => rw [hx] at hr; cases hr
  | fuel => rw [hx] at hr; cases hr
  | ok x =>
    obtain ⟨v, q, e1, u1⟩ := x
    have := hm.kept he hx
    subst this
    rw [hx, Out.bind_ok] at hr
    simp only at hr
    split at hr
    · cases hr; rfl
    · cases hs : searchMembers c strict L v q e1 with
      | ub => rw [hs] at hr; cases hr
      | fuel => rw [hs] at hr; cases hr
      | ok y =>
        obtain ⟨y1, y2, y3⟩ := y
        rw [hs, Out.bind_ok] at hr
        cases hr
        exact search_kept hc hL he _ _ _ _ _ hs

section
variable (hT : ∀ x ∈ L, NamedTold U x) (hnd : (L.map TSlot.name).Nodup) (hc : c.past = none → U)
include hT hnd

omit hnd in
theorem passed_unknown {L1 L2 : List (TSlot τ)} {d : TSlot τ} (hL : L = L1 ++ d :: L2) (hnd : (L.map TSlot.name).Nodup) (u : Bytes) :
    UnknownName L1 (d.name ++ c%'"' :: u) := by
  intro y hy
  subst hL
  refine unknown_of_ne (hT d (by simp)).nq (hT y (by simp [hy])).nq fun h => ?_
  simp only [List.map_append, List.map_cons, List.nodup_append] at hnd
  exact hnd.2.2 y.name (List.mem_map.mpr ⟨y, hy, rfl⟩) d.name (by simp) h

theorem one_step {en : TSlot τ} {l : List (TSlot τ)} (hen : en ∈ L) {t t' : τ} {s p' : Bytes} {cur' : List (TSlot τ)}
    (h : Step c strict L (en :: l) t s cur' t' p') :
    ∃ fl p e, oneRun c strict (L.map fun x => x.slot.toMember) en.slot.toMember t s .fresh = .ok (fl, t', p, e) ∧
      (if fl then l.map (fun x => x.slot.toMember) else en.slot.toMember :: l.map fun x => x.slot.toMember) = cur'.map (fun x => x.slot.toMember) ∧
      parseSpace p e = parseSpace p' .fresh ∧ (∀ d ∈ cur', d = en ∨ d ∈ l) := by
  cases h with
  | next h =>
    refine ⟨true, p', .fresh, ?_, rfl, rfl, fun d hd => .inr hd⟩
    simp only [oneRun, place_known (hT en hen), named_takes (hT en hen) h, Out.bind_ok, if_true]
  | @other _ _ d L1 L2 _ t0 t1 u _ _ hL hne hp hps h =>
    refine ⟨false, p', .fresh, ?_, rfl, rfl, fun d hd => by simpa using hd⟩
    have hd : d ∈ L := by rw [hL]; simp
    have hu := unknown_of_ne (hT d hd).nq (hT en hen).nq (Ne.symm hne) (p := u)
    have hs : searchMembers c strict (L.map fun x => x.slot.toMember) t0 (c%'"' :: (d.name ++ c%'"' :: u)) .fresh = .ok (t', p', .fresh) := by
      have h1 : L.map (fun x => x.slot.toMember) = L1.map (fun x => x.slot.toMember) ++ (d.slot.toMember :: L2.map fun x => x.slot.toMember) := by
        rw [hL]; simp
      rw [h1, search_passed (fun x h => hT x (by rw [hL]; simp [h])) (passed_unknown hT hL hnd u) hps, search_found (hT d hd),
        named_takes (hT d hd) h]
    simp only [oneRun, place_unknown (hT en hen) hu hp, Out.bind_ok, hs]
    rfl
  | @skip _ _ _ t0 _ u _ hs hu hp hps h =>
    refine ⟨false, (parseSpace p' .fresh).1, (parseSpace p' .fresh).2, ?_, rfl, space_twice _ _, fun d hd => by simpa using hd⟩
    rw [Passes] at h
    subst hs
    have h1 := search_passed (c := c) (strict := false) hT hu hps []
    rw [List.append_nil] at h1
    simp only [oneRun, place_unknown (hT en hen) (hu en hen) hp, Out.bind_ok, h1, searchMembers, h]
    rfl

include hc

theorem one_here {en : TSlot τ} (hen : en ∈ L) {t t' : τ} {s p : Bytes}
    {x : JError} {fl : Bool} {e : EPtr} (hx : HereFault c strict L en t s x)
    (hr : oneRun c strict (L.map fun x => x.slot.toMember) en.slot.toMember t s .fresh = .ok (fl, t', p, e)) : e = .obj x ∧ x.code ≠ .ValidJSON := by
  have hLs : ∀ m ∈ L.map (fun x => x.slot.toMember), MSafe U m := by
    intro m hm
    obtain ⟨d, hd, rfl⟩ := List.mem_map.mp hm
    exact (hT d hd).msafe
  simp only [oneRun] at hr
  obtain ⟨⟨t1, p1, e1, u1⟩, hr1, hr2⟩ := Out.bind_eq_ok.mp hr
  simp only at hr2
  clear hr
  cases hx with
  | quote hq =>
    obtain ⟨rfl, rfl⟩ := (hT en hen).quote hq hr1
    rw [if_neg (by decide)] at hr2
    have hf : (EPtr.obj (expectAt b!"\"" s)).failed = true := obj_failed (by simp [expectAt])
    obtain ⟨⟨y1, y2, y3⟩, h1, h2⟩ := Out.bind_eq_ok.mp hr2
    cases h2
    exact ⟨search_kept hc hLs hf _ _ _ _ _ h1, by simp [expectAt]⟩
  | @cut d u hd hu =>
    refine ⟨?_, by simp [endErr]⟩
    have hw : c%'"' ∉ u := fun hm => (hT d hd).nq (hu.subset hm)
    by_cases h1 : u <+: en.name
    · obtain ⟨rfl, rfl⟩ := (hT en hen).cut h1 hr1
      cases hr2
      rfl
    · obtain ⟨t2, _, h4⟩ := ((hT en hen).unknown (fun h => hw (h.subset (by simp))) h1).mp hr1
      cases h4
      obtain ⟨⟨y1, y2, y3⟩, h1, h2⟩ := Out.bind_eq_ok.mp hr2
      cases h2
      exact search_cut hT hd hu h1
  | @expected u x hx =>
    rw [place_known (hT en hen)] at hr1
    obtain ⟨⟨y1, y2, y3⟩, h1, h2⟩ := Out.bind_eq_ok.mp hr1
    cases h2
    cases hr2
    exact named_sound (hT en hen) hx h1
  | @other d L1 L2 t0 t2 u x hL hne hp hps hx =>
    have hd : d ∈ L := by rw [hL]; simp
    have hu := unknown_of_ne (hT d hd).nq (hT en hen).nq (Ne.symm hne) (p := u)
    rw [place_unknown (hT en hen) hu hp] at hr1
    cases hr1
    obtain ⟨⟨y1, y2, y3⟩, h1, h2⟩ := Out.bind_eq_ok.mp hr2
    cases h2
    rw [if_neg (by decide)] at h1
    have h3 : L.map (fun x => x.slot.toMember) = L1.map (fun x => x.slot.toMember) ++ (d.slot.toMember :: L2.map fun x => x.slot.toMember) := by
      rw [hL]; simp
    rw [h3, search_passed (fun x h => hT x (by rw [hL]; simp [h])) (passed_unknown hT hL hnd u) hps, search_found (hT d hd)] at h1
    exact named_sound (hT d hd) hx h1
  | @unknown u hs hu =>
    obtain ⟨t2, _, h4⟩ := ((hT en hen).unknown (hu en hen).1 (hu en hen).2).mp hr1
    cases h4
    obtain ⟨⟨y1, y2, y3⟩, h1, h2⟩ := Out.bind_eq_ok.mp hr2
    cases h2
    rw [if_neg (by decide)] at h1
    rw [← List.append_nil (L.map _)] at h1
    obtain ⟨t3, _, h5⟩ := search_ends hT hu h1
    simp only [searchMembers, hs] at h5
    cases h5
    exact ⟨rfl, by simp [errAt]⟩
  | @skip u x hs hu h =>
    obtain ⟨t2, _, h4⟩ := ((hT en hen).unknown (hu en hen).1 (hu en hen).2).mp hr1
    cases h4
    obtain ⟨⟨y1, y2, y3⟩, h1, h2⟩ := Out.bind_eq_ok.mp hr2
    cases h2
    rw [if_neg (by decide)] at h1
    rw [← List.append_nil (L.map _)] at h1
    obtain ⟨t3, _, h5⟩ := search_ends hT hu h1
    obtain ⟨hcd, q, hq⟩ := h
    simp only [searchMembers, hs, hq] at h5
    obtain ⟨r, hr'⟩ := space_kept (obj_failed hcd) q
    simp only [Out.bind_ok, hr'] at h5
    cases h5
    exact ⟨rfl, hcd⟩

theorem one_cases {en : TSlot τ} {l : List (TSlot τ)} (hen : en ∈ L)
    {t t' : τ} {s p : Bytes} {fl : Bool} {e : EPtr}
    (hr : oneRun c strict (L.map fun x => x.slot.toMember) en.slot.toMember t s .fresh = .ok (fl, t', p, e)) :
    (∃ cur' p', Step c strict L (en :: l) t s cur' t' p') ∨ ∃ x, e = .obj x ∧ x.code ≠ .ValidJSON ∧ HereFault c strict L en t s x := by
  have fin : ∀ {x}, HereFault c strict L en t s x → ∃ x, e = .obj x ∧ x.code ≠ .ValidJSON ∧ HereFault c strict L en t s x := by
    intro x hx
    obtain ⟨h1, h2⟩ := one_here hT hnd hc hen hx hr
    exact ⟨x, h1, h2, hx⟩
  by_cases hq : s.head? = some c%'"'
  · cases s with
    | nil => cases hq
    | cons b w =>
      simp at hq
      subst hq
      have hr0 := hr
      simp only [oneRun] at hr
      obtain ⟨⟨t1, p1, e1, u1⟩, hr1, hr2⟩ := Out.bind_eq_ok.mp hr
      simp only at hr2
      by_cases hk : ∃ d ∈ L, ∃ u, w = d.name ++ c%'"' :: u
      · obtain ⟨d, hd, u, rfl⟩ := hk
        by_cases hde : d.name = en.name
        · have : d = en := tslot_eq_of_name hnd hd hen hde
          subst this
          rw [place_known (hT d hd)] at hr1
          obtain ⟨⟨y1, y2, y3⟩, h1, h2⟩ := Out.bind_eq_ok.mp hr1
          cases h2
          cases hr2
          rcases named_cases (hT d hd) h1 with ⟨rfl, h2⟩ | ⟨x, rfl, _, h3⟩
          · exact .inl ⟨_, _, .next h2⟩
          · exact .inr (fin (.expected h3))
        · have hu := unknown_of_ne (hT d hd).nq (hT en hen).nq (Ne.symm hde) (p := u)
          obtain ⟨t2, hp, h4⟩ := ((hT en hen).unknown hu.1 hu.2).mp hr1
          cases h4
          obtain ⟨⟨y1, y2, y3⟩, h1, h2⟩ := Out.bind_eq_ok.mp hr2
          cases h2
          rw [if_neg (by decide)] at h1
          obtain ⟨L1, L2, hL⟩ := List.append_of_mem hd
          have h3 : L.map (fun x => x.slot.toMember) = L1.map (fun x => x.slot.toMember) ++ (d.slot.toMember :: L2.map fun x => x.slot.toMember) := by
            rw [hL]; simp
          rw [h3] at h1
          obtain ⟨t3, hps, h5⟩ := search_ends (fun x h => hT x (by rw [hL]; simp [h])) (passed_unknown hT hL hnd u) h1
          rw [search_found (hT d hd)] at h5
          rcases named_cases (hT d hd) h5 with ⟨rfl, h2⟩ | ⟨x, rfl, _, h3⟩
          · exact .inl ⟨_, _, .other hL hde hp hps h2⟩
          · exact .inr (fin (.other hL hde hp hps h3))
      · by_cases hp : ∃ d ∈ L, w <+: d.name
        · obtain ⟨d, hd, hp⟩ := hp
          exact .inr (fin (.cut hd hp))
        · have hu : UnknownName L w := by
            intro d hd
            rcases name_split (w := w) (hT d hd).nq with ⟨u, h⟩ | h | h
            · exact absurd ⟨d, hd, u, h⟩ hk
            · exact absurd ⟨d, hd, h⟩ hp
            · exact h
          cases hs : strict with
          | true => subst hs; exact .inr (fin (.unknown rfl hu))
          | false =>
            subst hs
            obtain ⟨t2, hps0, h4⟩ := ((hT en hen).unknown (hu en hen).1 (hu en hen).2).mp hr1
            cases h4
            obtain ⟨⟨y1, y2, y3⟩, h1, h2⟩ := Out.bind_eq_ok.mp hr2
            cases h2
            rw [if_neg (by decide)] at h1
            rw [← List.append_nil (L.map _)] at h1
            obtain ⟨t3, hps, h5⟩ := search_ends hT hu h1
            simp only [searchMembers] at h5
            cases hm : parseMember c (c%'"' :: w) .fresh with
            | ub => simp [hm] at h5
            | fuel => simp [hm] at h5
            | ok y =>
              obtain ⟨q, e1⟩ := y
              rcases pass_cases hm with ⟨rfl, h⟩ | ⟨x, rfl, hcd, h⟩
              · simp [hm, Out.bind_ok] at h5
                obtain ⟨rfl, _⟩ := h5
                exact .inl ⟨_, _, .skip rfl hu hps0 hps h⟩
              · exact .inr (fin (.skip rfl hu h))
  · exact .inr (fin (.quote hq))

end

end

end Wjson
