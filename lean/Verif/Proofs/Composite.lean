import Verif.Spec.Composite
import Verif.Proofs.FaultsStr
import Verif.Proofs.ExactObject
/-
Helper lemmas for C76: containers.
-/
namespace Wjson
open Spec

/-! ### Between the tokens -/

theorem Spec.Skips.run {s s' : Bytes} (h : Skips s s') (e : EPtr) : parseSpace s e = (s', e) := by
  obtain ⟨g, rfl, h1, h2⟩ := h
  exact parseSpace_before h1 h2 e

theorem last_slash (b : Byte) (body t : Bytes) : (b :: (body ++ c%'/' :: t)).getLast? = (c%'/' :: t).getLast? := by
  rw [← List.cons_append, List.getLast?_append, List.getLast?_cons (a := c%'/')]
  rfl

theorem Spec.OpenComment.run {s : Bytes} (h : OpenComment s) (e : EPtr) :
    parseSpace s e = ([], createError .UnexpectedEndFragment e (some b!"Unterminated comment")) := by
  obtain ⟨g, u, rfl, hg, hl, hu, hn⟩ := h
  show spaceLoop false (g ++ u) e = _
  induction hg with
  | nil => simp at hl
  | @ws b t hb ht ih =>
    cases t with
    | nil => simp at hl; subst hl; simp [WsByte] at hb
    | cons a t =>
      rw [List.cons_append, spaceLoop, if_pos (isWs_iff.mpr hb)]
      exact ih (by simpa [List.getLast?_cons] using hl)
  | @slash t hs ht ih =>
    cases t with
    | nil =>
      rw [List.cons_append, List.nil_append, spaceLoop_slash, if_pos hu]
      exact spaceLoop_true_open hn e
    | cons a t =>
      rw [List.cons_append, spaceLoop_slash, if_neg (by simpa using hs)]
      exact ih (by simpa [List.getLast?_cons] using hl)
  | @comment body t h1 h2 h3 h4 ih =>
    have hb : body ≠ [] := by rintro rfl; simp at h1
    obtain ⟨a, body', rfl⟩ := List.exists_cons_of_ne_nil hb
    rw [List.cons_append, spaceLoop_slash, if_pos (by simpa using h1)]
    have := spaceLoop_true_append (a :: body') (t ++ u) e h2 h3
    rw [List.append_assoc, List.cons_append]
    refine Eq.trans this ?_
    exact ih (by rwa [last_slash] at hl)

theorem first_close {u : Bytes} (h : b!"*/" <:+: u) :
    ∃ body t, u = body ++ c%'/' :: t ∧ body.getLast? = some c%'*' ∧ ¬ b!"*/" <:+: body := by
  induction u with
  | nil => exact absurd h (by decide)
  | cons b u ih =>
    by_cases hc : b = c%'*' ∧ u.head? = some c%'/'
    · obtain ⟨rfl, hu⟩ := hc
      cases u with
      | nil => simp at hu
      | cons x t =>
        simp only [List.head?_cons, Option.some.injEq] at hu
        subst hu
        exact ⟨b!"*", t, rfl, rfl, by decide⟩
    · have h' : b!"*/" <:+: u := by
        rcases List.infix_cons_iff.mp h with hpre | hinf
        · exfalso
          cases u with
          | nil => simp [List.cons_prefix_cons] at hpre
          | cons x y =>
            simp only [List.cons_prefix_cons] at hpre
            exact hc ⟨hpre.1.symm, by simp [hpre.2.1]⟩
        · exact hinf
      obtain ⟨body, t, h1, h2, h3⟩ := ih h'
      refine ⟨b :: body, t, by simp [h1], ?_, ?_⟩
      · cases body with
        | nil => simp at h2
        | cons x y => simpa [List.getLast?_cons_cons] using h2
      · intro hi
        rcases List.infix_cons_iff.mp hi with hpre | hinf
        · cases body with
          | nil => simp at h2
          | cons x y =>
            simp only [List.cons_prefix_cons] at hpre
            exact hc ⟨hpre.1.symm, by simp [h1, hpre.2.1]⟩
        · exact h3 hinf

theorem space_cases (s : Bytes) : (∃ s', Skips s s') ∨ OpenComment s := by
  generalize hn : s.length = n
  induction n using Nat.strongRecOn generalizing s with
  | _ n ih =>
  subst hn
  cases s with
  | nil => exact .inl ⟨[], [], rfl, ⟨.nil, by simp⟩, by intro b hb; simp at hb⟩
  | cons b t =>
    by_cases hw : WsByte b
    · rcases ih _ (by simp) t rfl with ⟨s', g, h1, h2, h3⟩ | ⟨g, u, h1, h2, h3, h4⟩
      · refine .inl ⟨s', b :: g, by rw [h1]; rfl, ⟨.ws hw h2.1, fun hl => ?_⟩, h3⟩
        cases g with
        | nil => simp at hl; subst hl; simp [WsByte] at hw
        | cons a g => exact h2.2 (by simpa [List.getLast?_cons_cons] using hl)
      · refine .inr ⟨b :: g, u, by rw [h1]; rfl, .ws hw h2, ?_, h4⟩
        cases g with
        | nil => simp at h3
        | cons a g => simpa [List.getLast?_cons_cons] using h3
    · by_cases hs : b = c%'/'
      · subst hs
        by_cases ht : t.head? = some c%'*'
        · by_cases hc : b!"*/" <:+: t
          · obtain ⟨body, t2, rfl, h5, h6⟩ := first_close hc
            have hbh : body.head? = some c%'*' := by
              cases body with
              | nil => simp at h5
              | cons a body => simpa using ht
            rcases ih _ (by simp; cases body <;> simp at h5 ⊢; omega) (c%'/' :: t2) rfl with ⟨s', g, h1, h2, h3⟩ | ⟨g, u, h1, h2, h3, h4⟩
            · cases g with
              | nil =>
                simp at h1
                subst h1
                exact absurd rfl (h3 _ rfl).2
              | cons a g =>
                simp at h1
                obtain ⟨rfl, rfl⟩ := h1
                refine .inl ⟨s', c%'/' :: (body ++ c%'/' :: g), by simp, ⟨.comment hbh h5 h6 h2.1, fun hl => h2.2 ?_⟩, h3⟩
                rwa [last_slash] at hl
            · cases g with
              | nil => simp at h3
              | cons a g =>
                simp at h1
                obtain ⟨rfl, rfl⟩ := h1
                refine .inr ⟨c%'/' :: (body ++ c%'/' :: g), u, by simp, .comment hbh h5 h6 h2, ?_, h4⟩
                rwa [last_slash]
          · exact .inr ⟨b!"/", t, rfl, .slash (by simp) .nil, rfl, ht, hc⟩
        · rcases ih _ (by simp) t rfl with ⟨s', g, h1, h2, h3⟩ | ⟨g, u, h1, h2, h3, h4⟩
          · have hg : g.head? ≠ some c%'*' := by
              cases g with
              | nil => simp
              | cons a g => rw [h1] at ht; simpa using ht
            refine .inl ⟨s', c%'/' :: g, by rw [h1]; rfl, ⟨.slash hg h2.1, fun hl => ?_⟩, h3⟩
            cases g with
            | nil => simp at h1; rw [← h1]; exact ht
            | cons a g => exact h2.2 (by simpa [List.getLast?_cons_cons] using hl)
          · cases g with
            | nil => simp at h3
            | cons a g =>
              exact .inr ⟨c%'/' :: a :: g, u, by rw [h1]; rfl, .slash (by rw [h1] at ht; simpa using ht) h2,
                by simpa [List.getLast?_cons_cons] using h3, h4⟩
      · refine .inl ⟨b :: t, [], rfl, ⟨.nil, by simp⟩, ?_⟩
        intro x hx
        simp at hx
        subst hx
        exact ⟨hw, hs⟩

theorem Spec.Cut.run {s : Bytes} {x : JError} (h : Cut s x) :
    ∃ e, parseSpace s .fresh = ([], e) ∧ createError .UnexpectedEndFragment e = .obj x := by
  cases h with
  | fin h => exact ⟨_, h.run _, rfl⟩
  | comment h => exact ⟨_, h.run _, rfl⟩

theorem Spec.Cut.code {s : Bytes} {x : JError} (h : Cut s x) : x.code ≠ .ValidJSON := by cases h <;> simp [endErr, commentErr]

/-- What comes next, from a fresh error object. -/
theorem next_cases (s : Bytes) :
    (∃ b p, Skips s (b :: p) ∧ parseSpace s .fresh = (b :: p, .fresh)) ∨
    ∃ e x, parseSpace s .fresh = ([], e) ∧ Cut s x ∧ createError .UnexpectedEndFragment e = .obj x := by
  rcases space_cases s with ⟨s', h⟩ | h
  · cases s' with
    | nil => exact .inr ⟨_, _, h.run _, .fin h, rfl⟩
    | cons b p => exact .inl ⟨b, p, h, h.run _⟩
  · exact .inr ⟨_, _, h.run _, .comment h, rfl⟩

theorem space_kept {e : EPtr} (he : e.failed = true) (s : Bytes) : ∃ p, parseSpace s e = (p, e) :=
  ⟨(parseSpace s e).1, by
    have := (EStep.of_scan (parseSpace_scan s) e).of_failed he
    exact Prod.ext rfl this⟩

/-! ### Errors that stay -/

/-- Whatever is read, the error is `e` afterwards. -/
def KeptNew {α : Type} (e : EPtr) (o : Out (α × Bytes × EPtr)) : Prop := ∀ v p e', o = .ok (v, p, e') → e' = e

theorem KeptNew.ok {α : Type} {e : EPtr} {v : α} {p : Bytes} : KeptNew e (.ok (v, p, e)) := by intro v p e' h; cases h; rfl

theorem KeptNew.err {α : Type} {e : EPtr} (he : e.failed = true) {v : α} {p : Bytes} {code : Code} {m : Option Bytes} {t : Int} :
    KeptNew e (.ok (v, p, createError code e m t)) := by
  rw [createError_failed he]; exact .ok

theorem KeptNew.bind {α β : Type} {e : EPtr} {o : Out (α × Bytes × EPtr)} {k : α × Bytes × EPtr → Out (β × Bytes × EPtr)}
    (h : KeptNew e o) (hk : ∀ v p, KeptNew e (k (v, p, e))) : KeptNew e (o >>= k) := by
  cases o with
  | ok x =>
    obtain ⟨v, p, e'⟩ := x
    rw [Out.bind_ok, h v p e' rfl]
    exact hk v p
  | ub => intro v p e' h; cases h
  | fuel => intro v p e' h; cases h

theorem Safe.kept {α : Type} {U : Prop} {f : De α} (h : Safe U f) {e : EPtr} (he : e.failed = true) (v : α) (s : Bytes) :
    KeptNew e (f v s e) := by
  intro v' p e' hr
  obtain ⟨_, n, h2⟩ := (h v s e).step hr
  exact h2.of_failed he

/-! ### Tables -/

section
variable {α : Type} {f : De α} {v0 : α} {F : Bytes → JError → Prop}

theorem diagnosed_mk (hA : ∀ s v p e, f v0 s .fresh = .ok (v, p, e) → e = .fresh ∨ ∃ x, e = .obj x ∧ F s x)
    (hB : ∀ s x, F s x → ∀ v p e, f v0 s .fresh = .ok (v, p, e) → e = .obj x ∧ x.code ≠ .ValidJSON) : Diagnosed f v0 F := by
  intro s v p e h
  rcases hA s v p e h with rfl | ⟨x, rfl, hx⟩
  · refine .inl ⟨rfl, fun x hx => ?_⟩
    obtain ⟨h1, h2⟩ := hB s x hx _ _ _ h
    cases h1
    exact h2 rfl
  · refine .inr ⟨x, (hB s x hx _ _ _ h).2, rfl, fun x' => ⟨fun h' => ?_, fun h' => h' ▸ hx⟩⟩
    have := (hB s x' h' _ _ _ h).1
    cases this
    rfl

theorem Spec.Diagnosed.cases (h : Diagnosed f v0 F) {s : Bytes} {v : α} {p : Bytes} {e : EPtr} (hr : f v0 s .fresh = .ok (v, p, e)) :
    (e = .fresh ∧ Takes f v0 s v p) ∨ ∃ x, F s x ∧ e = .obj x ∧ e.failed = true := by
  rcases h s v p e hr with ⟨rfl, _⟩ | ⟨x, h1, rfl, h2⟩
  · exact .inl ⟨rfl, hr⟩
  · exact .inr ⟨x, (h2 x).mpr rfl, rfl, obj_failed h1⟩

theorem Spec.Diagnosed.sound (h : Diagnosed f v0 F) {s : Bytes} {v : α} {p : Bytes} {e : EPtr} (hr : f v0 s .fresh = .ok (v, p, e))
    {x : JError} (hx : F s x) : e = .obj x ∧ x.code ≠ .ValidJSON := by
  rcases h s v p e hr with ⟨_, h1⟩ | ⟨x', h1, rfl, h2⟩
  · exact absurd hx (h1 x)
  · rw [(h2 x).mp hx]
    exact ⟨rfl, h1⟩

end

/-! ### Containers -/

theorem null_read {t : Bytes} {x : JError} (h : WordFault b!"null" t x) : isNull t = true ∧ parseNull t .fresh = ([], .obj x) ∧ x.code ≠ .ValidJSON := by
  obtain ⟨u, rfl, h'⟩ := null_sound h
  exact ⟨rfl, h'.set EPtr.fresh_clean, h'.1⟩

theorem null_told (t : Bytes) : (∃ p, parseNull (c%'n' :: t) .fresh = (p, .fresh)) ∨ ∃ x, WordFault b!"null" (c%'n' :: t) x := by
  rcases null_dich t with ⟨p, hp⟩ | h
  · exact .inl ⟨p, hp _⟩
  · exact .inr h

section
variable {α C : Type} {K : Coll α C} {S : Ser α} {L R : Byte} {U : Prop} {F : Bytes → JError → Prop}

theorem seqLoopF_kept (hS : Safe U S.de) {e : EPtr} (he : e.failed = true) (n : Nat) (t : C) (s : Bytes) :
    KeptNew e (seqLoopF K S R n t s e) := by
  induction n generalizing t s with
  | zero => intro v p e' h; cases h
  | succ n ih =>
    cases s with
    | nil => exact .err he
    | cons b s =>
      simp only [seqLoopF]
      obtain ⟨p, hp⟩ := space_kept he (b :: s)
      rw [hp]
      cases p with
      | nil => exact .err he
      | cons d p =>
        simp only
        split
        · exact .ok
        · refine (hS.kept he _ _).bind fun v q => ?_
          obtain ⟨q', hq⟩ := space_kept he q
          simp only [hq]
          cases q' with
          | nil => exact .err he
          | cons d q' =>
            simp only
            split
            · exact .ok
            · split
              · exact .err he
              · exact ih _ _

theorem seqTail_kept (hS : Safe U S.de) {e : EPtr} (he : e.failed = true) (n : Nat) (t : C) (q : Bytes) :
    KeptNew e (match (parseSpace q e).1 with
          | [] => .ok (t, [], createError .UnexpectedEndFragment (parseSpace q e).2)
          | b :: q' =>
            if b = R then .ok (t, q', (parseSpace q e).2)
            else if b ≠ c%',' then
              .ok (t, [], createError .ExpectedOf (parseSpace q e).2 (some b!",") ((b :: q').length : Nat))
            else seqLoopF K S R n t q' (parseSpace q e).2) := by
  obtain ⟨q', hq⟩ := space_kept he q
  rw [hq]
  cases q' with
  | nil => exact .err he
  | cons d q' =>
    simp only
    split
    · exact .ok
    · split
      · exact .err he
      · exact seqLoopF_kept hS he _ _ _

theorem items_complete (hS : Safe U S.de) (hD : Diagnosed S.de S.dflt F) (n : Nat) (t : C) (s : Bytes) {v : C} {p : Bytes} {e : EPtr}
    (hr : seqLoopF K S R n t s .fresh = .ok (v, p, e)) : e = .fresh ∨ ∃ x, e = .obj x ∧ ItemsFault S F R s x := by
  induction n generalizing t s with
  | zero => cases hr
  | succ n ih =>
    cases s with
    | nil =>
      cases hr
      exact .inr ⟨endErr, rfl, .cut (.fin ⟨[], rfl, ⟨.nil, by simp⟩, by intro b hb; simp at hb⟩)⟩
    | cons b0 s0 =>
      simp only [seqLoopF] at hr
      rcases next_cases (b0 :: s0) with ⟨b, q, h1, h2⟩ | ⟨e1, x, h1, h2, h3⟩
      · rw [h2] at hr
        simp only at hr
        split at hr
        · cases hr; exact .inl rfl
        · next hb =>
          cases hd : S.de S.dflt (b :: q) .fresh with
          | ub => rw [hd] at hr; cases hr
          | fuel => rw [hd] at hr; cases hr
          | ok d =>
            obtain ⟨w, u, e1⟩ := d
            rw [hd, Out.bind_ok] at hr
            rcases hD.cases hd with ⟨rfl, hT⟩ | ⟨x, hx, rfl, hf⟩
            · rcases next_cases u with ⟨d, r, h3, h4⟩ | ⟨e1, x, h3, h4, h5⟩
              · simp only [h4] at hr
                split at hr
                · cases hr; exact .inl rfl
                · next hd' =>
                  split at hr
                  · next hc =>
                    cases hr
                    exact .inr ⟨_, rfl, .comma h1 hb hT h3 hd' hc⟩
                  · next hc =>
                    have hc : d = c%',' := Decidable.not_not.mp hc
                    subst hc
                    rcases ih _ _ hr with h | ⟨x, h, hx⟩
                    · exact .inl h
                    · exact .inr ⟨x, h, .more h1 hb hT h3 hx⟩
              · simp only [h3] at hr
                cases hr
                exact .inr ⟨x, h5, .after h1 hb hT h4⟩
            · have := seqTail_kept (K := K) (R := R) hS hf n (K.insert t w) u _ _ _ hr
              exact .inr ⟨x, this, .item h1 hb hx⟩
      · rw [h1] at hr
        simp only at hr
        cases hr
        exact .inr ⟨x, h3, .cut h2⟩

theorem items_sound (hR : R ≠ c%',') (hS : Safe U S.de) (hD : Diagnosed S.de S.dflt F) {s : Bytes} {x : JError} (h : ItemsFault S F R s x) (n : Nat) (t : C)
    {v : C} {p : Bytes} {e : EPtr} (hr : seqLoopF K S R n t s .fresh = .ok (v, p, e)) : e = .obj x ∧ x.code ≠ .ValidJSON := by
  induction h generalizing n t with
  | @cut s x h =>
    cases n with
    | zero => cases hr
    | succ n =>
      obtain ⟨e1, h1, h2⟩ := h.run
      cases s with
      | nil => cases h1; cases hr; exact ⟨h2, h.code⟩
      | cons b s =>
        simp only [seqLoopF, h1] at hr
        cases hr
        exact ⟨h2, h.code⟩
  | @item s b p x h1 h2 h3 =>
    cases n with
    | zero => cases hr
    | succ n =>
      cases s with
      | nil => have := h1.run .fresh; rw [parseSpace_empty] at this; cases this
      | cons b0 s0 =>
        simp only [seqLoopF, h1.run, if_neg h2] at hr
        cases hd : S.de S.dflt (b :: p) .fresh with
        | ub => rw [hd] at hr; cases hr
        | fuel => rw [hd] at hr; cases hr
        | ok d =>
          obtain ⟨w, u, e1⟩ := d
          rw [hd, Out.bind_ok] at hr
          obtain ⟨rfl, hc⟩ := hD.sound hd h3
          exact ⟨seqTail_kept (K := K) (R := R) hS (obj_failed hc) n (K.insert t w) u _ _ _ hr, hc⟩
  | @after s b p w q x h1 h2 h3 h4 =>
    cases n with
    | zero => cases hr
    | succ n =>
      cases s with
      | nil => have := h1.run .fresh; rw [parseSpace_empty] at this; cases this
      | cons b0 s0 =>
        obtain ⟨e1, h5, h6⟩ := h4.run
        rw [Takes] at h3
        simp only [seqLoopF, h1.run, if_neg h2, h3, Out.bind_ok, h5] at hr
        cases hr
        exact ⟨h6, h4.code⟩
  | @comma s b p w q d r h1 h2 h3 h4 h5 h6 =>
    cases n with
    | zero => cases hr
    | succ n =>
      cases s with
      | nil => have := h1.run .fresh; rw [parseSpace_empty] at this; cases this
      | cons b0 s0 =>
        rw [Takes] at h3
        simp only [seqLoopF, h1.run, if_neg h2, h3, Out.bind_ok, h4.run, if_neg h5, if_pos h6] at hr
        cases hr
        exact ⟨rfl, by simp [expectAt]⟩
  | @more s b p w q r x h1 h2 h3 h4 h5 ih =>
    cases n with
    | zero => cases hr
    | succ n =>
      cases s with
      | nil => have := h1.run .fresh; rw [parseSpace_empty] at this; cases this
      | cons b0 s0 =>
        rw [Takes] at h3
        simp only [seqLoopF, h1.run, if_neg h2, h3, Out.bind_ok, h4.run] at hr
        rw [if_neg (Ne.symm hR)] at hr
        simp only [ne_eq, not_true, if_false] at hr
        exact ih _ _ hr

end

end Wjson
