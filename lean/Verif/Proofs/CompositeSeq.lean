import Verif.Proofs.Composite
/-
C76: containers, dictionaries, fixed-size arrays, pointers.
-/
namespace Wjson
open Spec

theorem null_kept {e : EPtr} (he : e.failed = true) (s : Bytes) : ∃ p, parseNull s e = (p, e) :=
  ⟨(parseNull s e).1, Prod.ext rfl ((EStep.of_scan (parseNull_scan s) e).of_failed he)⟩

theorem isNull_cons {b : Byte} {t : Bytes} : isNull (b :: t) = true ↔ b = c%'n' := by
  simp [isNull]

section
variable {α C : Type} {K : Coll α C} {S : Ser α} {L R : Byte} {U : Prop} {F : Bytes → JError → Prop}

theorem seq_diagnosed (hn : L ≠ c%'n') (hR : R ≠ c%',') (hS : Safe U S.de) (hD : Diagnosed S.de S.dflt F) (k0 : C) :
    Diagnosed (deSeq K S L R) k0 (SeqFault S F L R) := by
  refine diagnosed_mk (fun s v p e hr => ?_) (fun s x hx v p e hr => ?_)
  · cases s with
    | nil => cases hr; exact .inr ⟨_, rfl, .none⟩
    | cons b t =>
      simp only [deSeq, isNull_cons] at hr
      split at hr
      · next hb =>
        subst hb
        rcases null_told t with ⟨q, hq⟩ | ⟨x, hx⟩
        · rw [hq] at hr; cases hr; exact .inl rfl
        · rw [(null_read hx).2.1] at hr
          cases hr
          exact .inr ⟨x, rfl, .null hx⟩
      · next hb =>
        split at hr
        · next hL => cases hr; exact .inr ⟨_, rfl, .kind hb hL⟩
        · next hL =>
          have hL := Decidable.not_not.mp hL
          subst hL
          rcases items_complete hS hD _ _ _ hr with h | ⟨x, h, hx⟩
          · exact .inl h
          · exact .inr ⟨x, h, .items hx⟩
  · cases hx with
    | none => cases hr; exact ⟨rfl, by simp [endErr]⟩
    | null hx =>
      obtain ⟨h1, h2, h3⟩ := null_read hx
      simp only [deSeq, h1, if_true, h2] at hr
      cases hr
      exact ⟨rfl, h3⟩
    | @kind b t h1 h2 =>
      simp only [deSeq, isNull_cons, if_neg h1, if_pos h2] at hr
      cases hr
      exact ⟨rfl, by simp [expectAt]⟩
    | @items s x hx =>
      simp only [deSeq, isNull_cons, if_neg hn, ne_eq, not_true, if_false] at hr
      exact items_sound hR hS hD hx _ _ hr

end

section
variable {κ ν : Type} {SK : Ser κ} {SV : Ser ν} {U V : Prop} {FK FV : Bytes → JError → Prop}

theorem fieldTail_kept (hV : Safe V SV.de) {e : EPtr} (he : e.failed = true) (k : κ) (w : ν) (p : Bytes) :
    KeptNew e (match (parseSpace p e).1 with
        | [] => .ok ((k, w), [], createError .UnexpectedEndFragment (parseSpace p e).2)
        | b :: p' =>
          if b ≠ c%':' then
            .ok ((k, w), [], createError .ExpectedOf (parseSpace p e).2 (some b!":") ((b :: p').length : Nat))
          else
            match (parseSpace p' (parseSpace p e).2).1 with
            | [] => .ok ((k, w), [], createError .UnexpectedEndFragment (parseSpace p' (parseSpace p e).2).2)
            | b :: q => SV.de w (b :: q) (parseSpace p' (parseSpace p e).2).2 >>= fun x => .ok ((k, x.1), x.2)) := by
  obtain ⟨q, hq⟩ := space_kept he p
  rw [hq]
  cases q with
  | nil => exact .err he
  | cons b q =>
    simp only
    split
    · exact .err he
    · obtain ⟨r, hr⟩ := space_kept he q
      rw [hr]
      cases r with
      | nil => exact .err he
      | cons b r => exact (hV.kept he _ _).bind fun _ _ => .ok

theorem field_diagnosed (hV : Safe V SV.de) {k0 : κ} {w0 : ν} (hK : Diagnosed SK.de k0 FK) (hD : Diagnosed SV.de w0 FV) :
    Diagnosed (fieldSer SK SV).de (k0, w0) (EntryFault SK k0 FK FV) := by
  refine diagnosed_mk (fun s v p e hr => ?_) (fun s x hx v p e hr => ?_)
  · simp only [fieldSer, deField] at hr
    cases hk : SK.de k0 s .fresh with
    | ub => rw [hk] at hr; cases hr
    | fuel => rw [hk] at hr; cases hr
    | ok d =>
      obtain ⟨k, q, e1⟩ := d
      rw [hk, Out.bind_ok] at hr
      rcases hK.cases hk with ⟨rfl, hT⟩ | ⟨x, hx, rfl, hf⟩
      · rcases next_cases q with ⟨b, q', h1, h2⟩ | ⟨e1, x, h1, h2, h3⟩
        · simp only [h2] at hr
          split at hr
          · next hb => cases hr; exact .inr ⟨_, rfl, .colon hT h1 hb⟩
          · next hb =>
            have hb := Decidable.not_not.mp hb
            subst hb
            rcases next_cases q' with ⟨b, r, h3, h4⟩ | ⟨e1, x, h3, h4, h5⟩
            · simp only [h4] at hr
              cases hv : SV.de w0 (b :: r) .fresh with
              | ub => rw [hv] at hr; cases hr
              | fuel => rw [hv] at hr; cases hr
              | ok d =>
                obtain ⟨w, q, e1⟩ := d
                rw [hv, Out.bind_ok] at hr
                cases hr
                rcases hD.cases hv with ⟨rfl, _⟩ | ⟨x, hx, rfl, hf⟩
                · exact .inl rfl
                · exact .inr ⟨x, rfl, .value hT h1 h3 hx⟩
            · simp only [h3] at hr
              cases hr
              exact .inr ⟨x, h5, .cutValue hT h1 h4⟩
        · simp only [h1] at hr
          cases hr
          exact .inr ⟨x, h3, .cut hT h2⟩
      · exact .inr ⟨x, fieldTail_kept hV hf k w0 q _ _ _ hr, .key hx⟩
  · simp only [fieldSer, deField] at hr
    cases hx with
    | key hx =>
      cases hk : SK.de k0 s .fresh with
      | ub => rw [hk] at hr; cases hr
      | fuel => rw [hk] at hr; cases hr
      | ok d =>
        obtain ⟨k, q, e1⟩ := d
        rw [hk, Out.bind_ok] at hr
        obtain ⟨rfl, hc⟩ := hK.sound hk hx
        exact ⟨fieldTail_kept hV (obj_failed hc) k w0 q _ _ _ hr, hc⟩
    | cut hT h =>
      rw [Takes] at hT
      obtain ⟨e1, h1, h2⟩ := h.run
      simp only [hT, Out.bind_ok, h1] at hr
      cases hr
      exact ⟨h2, h.code⟩
    | colon hT h1 h2 =>
      rw [Takes] at hT
      simp only [hT, Out.bind_ok, h1.run, if_pos h2] at hr
      cases hr
      exact ⟨rfl, by simp [expectAt]⟩
    | cutValue hT h1 h =>
      rw [Takes] at hT
      obtain ⟨e1, h2, h3⟩ := h.run
      simp only [hT, Out.bind_ok, h1.run, ne_eq, not_true, if_false, h2] at hr
      cases hr
      exact ⟨h3, h.code⟩
    | @value k p0 q0 b r _ hT h1 h2 hx =>
      rw [Takes] at hT
      simp only [hT, Out.bind_ok, h1.run, ne_eq, not_true, if_false, h2.run] at hr
      cases hv : SV.de w0 (b :: r) .fresh with
      | ub => rw [hv] at hr; cases hr
      | fuel => rw [hv] at hr; cases hr
      | ok d =>
        obtain ⟨w, q, e1⟩ := d
        rw [hv, Out.bind_ok] at hr
        cases hr
        exact hD.sound hv hx

end

section
variable {α : Type} {S : Ser α} {U : Prop} {F : α → Bytes → JError → Prop} {k : FixKind}

theorem fixClose_kept {e : EPtr} (he : e.failed = true) (R : Byte) (t : List α) (s : Bytes) : KeptNew e (fixClose R t s e) := by
  cases s with
  | nil => exact .err he
  | cons b p =>
    simp only [fixClose]
    split
    · exact .err he
    · exact .ok

theorem fixLoop_kept (hS : Safe U S.de) {e : EPtr} (he : e.failed = true) (vs : List α) (s : Bytes) :
    KeptNew e (fixLoop k S c%']' vs s e) :=  by
  intro v p e' hr
  rcases fixLoop_safe hS vs s e with ⟨h, _⟩ | ⟨v', p', e1, h, _, h2⟩
  · rw [h] at hr; cases hr
  · rw [h] at hr; cases hr; exact h2.of_failed he

theorem fixTail_kept (hS : Safe U S.de) {e : EPtr} (he : e.failed = true) (w : α) (vs : List α) (q : Bytes) :
    KeptNew e (match (parseSpace q e).1 with
          | [] => .ok (w :: vs, [], createError .UnexpectedEndFragment (parseSpace q e).2)
          | b :: q' =>
            if b = c%']' then fixClose c%']' (w :: vs) (b :: q') (parseSpace q e).2
            else if b ≠ c%',' then
              .ok (w :: vs, [], createError .ExpectedOf (parseSpace q e).2 (some k.commaMsg) ((b :: q').length : Nat))
            else fixLoop k S c%']' vs q' (parseSpace q e).2 >>= fun x => .ok (w :: x.1, x.2)) := by
  obtain ⟨q', hq⟩ := space_kept he q
  rw [hq]
  cases q' with
  | nil => exact .err he
  | cons b q' =>
    simp only
    split
    · exact fixClose_kept he _ _ _
    · split
      · exact .err he
      · exact (fixLoop_kept hS he _ _).bind fun _ _ => .ok

theorem fixItems_complete (hS : Safe U S.de) (hD : ∀ v, Diagnosed S.de v (F v)) (vs : List α) (s : Bytes) {v : List α} {p : Bytes}
    {e : EPtr} (hr : fixLoop k S c%']' vs s .fresh = .ok (v, p, e)) :
    e = .fresh ∨ ∃ x, e = .obj x ∧ FixItemsFault S (k.start S) F k.commaMsg vs s x := by
  induction vs generalizing s v p e with
  | nil =>
    cases s with
    | nil => cases hr; exact .inr ⟨_, rfl, .fullEnd⟩
    | cons b t =>
      simp only [fixLoop, fixClose] at hr
      split at hr
      · next hb => cases hr; exact .inr ⟨_, rfl, .full hb⟩
      · cases hr; exact .inl rfl
  | cons w vs ih =>
    cases s with
    | nil =>
      cases hr
      exact .inr ⟨endErr, rfl, .cut (.fin ⟨[], rfl, ⟨.nil, by simp⟩, by intro b hb; simp at hb⟩)⟩
    | cons b0 s0 =>
      simp only [fixLoop] at hr
      rcases next_cases (b0 :: s0) with ⟨b, q, h1, h2⟩ | ⟨e1, x, h1, h2, h3⟩
      · rw [h2] at hr
        simp only at hr
        split at hr
        · next hb => subst hb; simp only [fixClose, ne_eq, not_true, if_false] at hr; cases hr; exact .inl rfl
        · next hb =>
          cases hd : S.de (k.start S w) (b :: q) .fresh with
          | ub => rw [hd] at hr; cases hr
          | fuel => rw [hd] at hr; cases hr
          | ok d =>
            obtain ⟨w', u, e1⟩ := d
            rw [hd, Out.bind_ok] at hr
            rcases (hD _).cases hd with ⟨rfl, hT⟩ | ⟨x, hx, rfl, hf⟩
            · rcases next_cases u with ⟨d, r, h3, h4⟩ | ⟨e1, x, h3, h4, h5⟩
              · simp only [h4] at hr
                split at hr
                · next hd' => subst hd'; simp only [fixClose, ne_eq, not_true, if_false] at hr; cases hr; exact .inl rfl
                · next hd' =>
                  split at hr
                  · next hc =>
                    cases hr
                    exact .inr ⟨_, rfl, .comma h1 hb hT h3 hd' hc⟩
                  · next hc =>
                    have hc : d = c%',' := Decidable.not_not.mp hc
                    subst hc
                    cases hl : fixLoop k S c%']' vs r .fresh with
                    | ub => rw [hl] at hr; cases hr
                    | fuel => rw [hl] at hr; cases hr
                    | ok y =>
                      obtain ⟨y1, y2, y3⟩ := y
                      rw [hl, Out.bind_ok] at hr
                      cases hr
                      rcases ih _ hl with h | ⟨x, h, hx⟩
                      · exact .inl h
                      · exact .inr ⟨x, h, .more h1 hb hT h3 hx⟩
              · simp only [h3] at hr
                cases hr
                exact .inr ⟨x, h5, .after h1 hb hT h4⟩
            · exact .inr ⟨x, fixTail_kept hS hf w' vs u _ _ _ hr, .item h1 hb hx⟩
      · rw [h1] at hr
        simp only at hr
        cases hr
        exact .inr ⟨x, h3, .cut h2⟩

theorem fixItems_sound (hS : Safe U S.de) (hD : ∀ v, Diagnosed S.de v (F v)) {vs : List α} {s : Bytes} {x : JError}
    (h : FixItemsFault S (k.start S) F k.commaMsg vs s x) {v : List α} {p : Bytes} {e : EPtr}
    (hr : fixLoop k S c%']' vs s .fresh = .ok (v, p, e)) : e = .obj x ∧ x.code ≠ .ValidJSON := by
  induction h generalizing v p e with
  | fullEnd => cases hr; exact ⟨rfl, by simp [endErr]⟩
  | full hb =>
    simp only [fixLoop, fixClose, if_pos hb] at hr
    cases hr
    exact ⟨rfl, by simp [expectAt]⟩
  | @cut w vs s x h =>
    obtain ⟨e1, h1, h2⟩ := h.run
    cases s with
    | nil => cases h1; cases hr; exact ⟨h2, h.code⟩
    | cons b s =>
      simp only [fixLoop, h1] at hr
      cases hr
      exact ⟨h2, h.code⟩
  | @item w vs s b p0 x h1 h2 h3 =>
    cases s with
    | nil => have := h1.run .fresh; rw [parseSpace_empty] at this; cases this
    | cons b0 s0 =>
      simp only [fixLoop, h1.run, if_neg h2] at hr
      cases hd : S.de (k.start S w) (b :: p0) .fresh with
      | ub => rw [hd] at hr; cases hr
      | fuel => rw [hd] at hr; cases hr
      | ok d =>
        obtain ⟨w', u, e1⟩ := d
        rw [hd, Out.bind_ok] at hr
        obtain ⟨rfl, hc⟩ := (hD _).sound hd h3
        exact ⟨fixTail_kept hS (obj_failed hc) w' vs u _ _ _ hr, hc⟩
  | @after w vs s b p w' q x h1 h2 h3 h4 =>
    cases s with
    | nil => have := h1.run .fresh; rw [parseSpace_empty] at this; cases this
    | cons b0 s0 =>
      obtain ⟨e1, h5, h6⟩ := h4.run
      rw [Takes] at h3
      simp only [fixLoop, h1.run, if_neg h2, h3, Out.bind_ok, h5] at hr
      cases hr
      exact ⟨h6, h4.code⟩
  | @comma w vs s b p w' q d r h1 h2 h3 h4 h5 h6 =>
    cases s with
    | nil => have := h1.run .fresh; rw [parseSpace_empty] at this; cases this
    | cons b0 s0 =>
      rw [Takes] at h3
      simp only [fixLoop, h1.run, if_neg h2, h3, Out.bind_ok, h4.run, if_neg h5, if_pos h6] at hr
      cases hr
      exact ⟨rfl, by simp [expectAt]⟩
  | @more w vs s b p w' q r x h1 h2 h3 h4 h5 ih =>
    cases s with
    | nil => have := h1.run .fresh; rw [parseSpace_empty] at this; cases this
    | cons b0 s0 =>
      rw [Takes] at h3
      simp only [fixLoop, h1.run, if_neg h2, h3, Out.bind_ok, h4.run] at hr
      rw [if_neg (by decide)] at hr
      simp only [ne_eq, not_true, if_false] at hr
      cases hl : fixLoop k S c%']' vs r .fresh with
      | ub => rw [hl] at hr; cases hr
      | fuel => rw [hl] at hr; cases hr
      | ok y =>
        obtain ⟨y1, y2, y3⟩ := y
        rw [hl, Out.bind_ok] at hr
        cases hr
        exact ih hl

theorem fixNull_kept (hS : Safe U S.de) {e : EPtr} (he : e.failed = true) (s : Bytes) (vs : List α) {v : List α} {e' : EPtr}
    (hr : fixNull S s vs e = .ok (v, e')) : e' = e := by
  induction vs generalizing v e' with
  | nil => cases hr; rfl
  | cons w vs ih =>
    simp only [fixNull] at hr
    cases hd : S.de w s e with
    | ub => rw [hd] at hr; cases hr
    | fuel => rw [hd] at hr; cases hr
    | ok d =>
      obtain ⟨w', u, e1⟩ := d
      have := hS.kept he _ _ _ _ _ hd
      subst this
      rw [hd, Out.bind_ok] at hr
      cases hl : fixNull S s vs e1 with
      | ub => rw [hl] at hr; cases hr
      | fuel => rw [hl] at hr; cases hr
      | ok y =>
        rw [hl, Out.bind_ok] at hr
        cases hr
        exact ih hl

theorem fixNull_cases (hS : Safe U S.de) (hD : ∀ v, Diagnosed S.de v (F v)) (s : Bytes) (vs : List α) {v : List α} {e : EPtr}
    (hr : fixNull S s vs .fresh = .ok (v, e)) :
    (e = .fresh ∧ ∀ a ∈ vs, ∃ w q, Takes S.de a s w q) ∨
    ∃ as a bs x, vs = as ++ a :: bs ∧ (∀ a ∈ as, ∃ w q, Takes S.de a s w q) ∧ F a s x ∧ e = .obj x ∧ e.failed = true := by
  induction vs generalizing v e with
  | nil => cases hr; exact .inl ⟨rfl, by simp⟩
  | cons w vs ih =>
    simp only [fixNull] at hr
    cases hd : S.de w s .fresh with
    | ub => rw [hd] at hr; cases hr
    | fuel => rw [hd] at hr; cases hr
    | ok d =>
      obtain ⟨w', u, e1⟩ := d
      rw [hd, Out.bind_ok] at hr
      cases hl : fixNull S s vs e1 with
      | ub => rw [hl] at hr; cases hr
      | fuel => rw [hl] at hr; cases hr
      | ok y =>
        obtain ⟨y1, y2⟩ := y
        rw [hl, Out.bind_ok] at hr
        cases hr
        rcases (hD _).cases hd with ⟨rfl, hT⟩ | ⟨x, hx, rfl, hf⟩
        · rcases ih hl with ⟨rfl, h⟩ | ⟨as, a, bs, x, rfl, h1, h2, h3⟩
          · exact .inl ⟨rfl, by simpa using ⟨⟨_, _, hT⟩, h⟩⟩
          · exact .inr ⟨w :: as, a, bs, x, rfl, by simpa using ⟨⟨_, _, hT⟩, h1⟩, h2, h3⟩
        · have := fixNull_kept hS hf _ _ hl
          subst this
          exact .inr ⟨[], w, vs, x, rfl, by simp, hx, rfl, hf⟩

theorem fixNull_taken {s : Bytes} {as : List α} (h : ∀ a ∈ as, ∃ w q, Takes S.de a s w q) (bs : List α) {v : List α} {e : EPtr}
    (hr : fixNull S s (as ++ bs) .fresh = .ok (v, e)) : ∃ v', fixNull S s bs .fresh = .ok (v', e) := by
  induction as generalizing v with
  | nil => exact ⟨_, hr⟩
  | cons a as ih =>
    obtain ⟨w, q, hT⟩ := h a (by simp)
    rw [Takes] at hT
    simp only [List.cons_append, fixNull, hT, Out.bind_ok] at hr
    cases hl : fixNull S s (as ++ bs) .fresh with
    | ub => rw [hl] at hr; cases hr
    | fuel => rw [hl] at hr; cases hr
    | ok y =>
      rw [hl, Out.bind_ok] at hr
      cases hr
      exact ih (fun a ha => h a (by simp [ha])) hl

theorem fix_diagnosed (hS : Safe U S.de) (hD : ∀ v, Diagnosed S.de v (F v)) (vs : List α) :
    Diagnosed (deFix k S c%'[' c%']') vs (FixFault S (k.start S) F k.commaMsg vs) := by
  refine diagnosed_mk (fun s v p e hr => ?_) (fun s x hx v p e hr => ?_)
  · cases s with
    | nil => cases hr; exact .inr ⟨_, rfl, .none⟩
    | cons b t =>
      simp only [deFix, isNull_cons] at hr
      split at hr
      · next hb =>
        subst hb
        cases hl : fixNull S (c%'n' :: t) vs .fresh with
        | ub => rw [hl] at hr; cases hr
        | fuel => rw [hl] at hr; cases hr
        | ok y =>
          obtain ⟨y1, y2⟩ := y
          rw [hl, Out.bind_ok] at hr
          rcases fixNull_cases hS hD _ _ hl with ⟨rfl, h⟩ | ⟨as, a, bs, x, h1, h2, h3, rfl, h4⟩
          · rcases null_told t with ⟨q, hq⟩ | ⟨x, hx⟩
            · rw [hq] at hr; cases hr; exact .inl rfl
            · rw [(null_read hx).2.1] at hr
              cases hr
              exact .inr ⟨x, rfl, .null h hx⟩
          · obtain ⟨q, hq⟩ := null_kept h4 (c%'n' :: t)
            simp only [hq] at hr
            cases hr
            exact .inr ⟨x, rfl, .nullItem h1 h2 h3⟩
      · next hb =>
        split at hr
        · next hL => cases hr; exact .inr ⟨_, rfl, .kind hb hL⟩
        · next hL =>
          have hL := Decidable.not_not.mp hL
          subst hL
          rcases fixItems_complete hS hD _ _ hr with h | ⟨x, h, hx⟩
          · exact .inl h
          · exact .inr ⟨x, h, .items hx⟩
  · cases hx with
    | none => cases hr; exact ⟨rfl, by simp [endErr]⟩
    | @nullItem t as w bs x h1 h2 h3 =>
      subst h1
      simp only [deFix, isNull_cons, if_true] at hr
      cases hl : fixNull S (c%'n' :: t) (as ++ w :: bs) .fresh with
      | ub => rw [hl] at hr; cases hr
      | fuel => rw [hl] at hr; cases hr
      | ok y =>
        obtain ⟨y1, y2⟩ := y
        rw [hl, Out.bind_ok] at hr
        obtain ⟨v', h'⟩ := fixNull_taken h2 _ hl
        simp only [fixNull] at h'
        cases hd : S.de w (c%'n' :: t) .fresh with
        | ub => rw [hd] at h'; cases h'
        | fuel => rw [hd] at h'; cases h'
        | ok d =>
          obtain ⟨w', u, e1⟩ := d
          rw [hd, Out.bind_ok] at h'
          obtain ⟨rfl, hc⟩ := (hD _).sound hd h3
          cases hm : fixNull S (c%'n' :: t) bs (.obj x) with
          | ub => rw [hm] at h'; cases h'
          | fuel => rw [hm] at h'; cases h'
          | ok z =>
            obtain ⟨z1, z2⟩ := z
            rw [hm, Out.bind_ok] at h'
            have := fixNull_kept hS (obj_failed hc) _ _ hm
            cases h'
            subst this
            obtain ⟨q, hq⟩ := null_kept (obj_failed hc) (c%'n' :: t)
            simp only [hq] at hr
            cases hr
            exact ⟨rfl, hc⟩
    | @null t x h hx =>
      obtain ⟨_, h2, h3⟩ := null_read hx
      simp only [deFix, isNull_cons, if_true] at hr
      cases hl : fixNull S (c%'n' :: t) vs .fresh with
      | ub => rw [hl] at hr; cases hr
      | fuel => rw [hl] at hr; cases hr
      | ok y =>
        obtain ⟨y1, y2⟩ := y
        rw [hl, Out.bind_ok] at hr
        obtain ⟨v', h'⟩ := fixNull_taken (bs := []) h (by rw [List.append_nil]; exact hl)
        cases h'
        simp only [h2] at hr
        cases hr
        exact ⟨rfl, h3⟩
    | @kind b t h1 h2 =>
      simp only [deFix, isNull_cons, if_neg h1, if_pos h2] at hr
      cases hr
      exact ⟨rfl, by simp [expectAt]⟩
    | @items s x hx =>
      simp only [deFix, isNull_cons] at hr
      rw [if_neg (by decide)] at hr
      simp only [ne_eq, not_true, if_false] at hr
      exact fixItems_sound hS hD hx hr

end

end Wjson
