import Verif.Proofs.ExactMore
/-
The readers accept exactly the texts of the denotation: time intervals and sizes.
-/
namespace Wjson
open Spec

/-! ### Arithmetic -/

theorem wrap_iff {ty : IntTy} (hs : ty.Std) {x v : Int} : ty.wrap x = v ↔ ty.Reduces x v := by
  constructor
  · rintro rfl
    refine ⟨IntTy.wrap_inRange hs x, ?_⟩
    obtain ⟨bits, sg⟩ := ty
    simp only [IntTy.Std] at hs
    rcases hs with rfl | rfl | rfl | rfl <;> cases sg <;> simp [IntTy.wrap] <;> omega
  · rintro ⟨h1, h2⟩
    have h3 := IntTy.wrap_inRange hs x
    have h4 : (ty.wrap x - x) % 2 ^ ty.bits = 0 := by
      obtain ⟨bits, sg⟩ := ty
      simp only [IntTy.Std] at hs
      rcases hs with rfl | rfl | rfl | rfl <;> cases sg <;> simp [IntTy.wrap] <;> omega
    obtain ⟨bits, sg⟩ := ty
    simp only [IntTy.Std] at hs
    simp only [IntTy.InRange, IntTy.min, IntTy.max] at h1 h3
    rcases hs with rfl | rfl | rfl | rfl <;> cases sg <;> simp at h1 h2 h3 h4 <;> omega

theorem computes_self {c : Cfg} {ty : IntTy} (hs : ty.Std) {x y : Int} (h : ty.InRange x) : ty.Computes c x y ↔ y = x := by
  constructor
  · rintro (⟨_, h1⟩ | ⟨_, h1⟩)
    · exact h1
    · rw [← wrap_iff hs, IntTy.wrap_of_inRange hs h] at h1
      exact h1.symm
  · rintro rfl; exact .inl ⟨h, rfl⟩

theorem computes_inRange {c : Cfg} {ty : IntTy} {x y : Int} (h : ty.Computes c x y) : ty.InRange y := by
  rcases h with ⟨h, rfl⟩ | ⟨_, h, _⟩ <;> exact h

theorem arith_iff {c : Cfg} {ty : IntTy} (hs : ty.Std) {x y : Int} : ty.arith c x = .ok y ↔ ty.Computes c x y := by
  by_cases hm : ty.Modular c
  · rw [IntTy.arith_modular hs hm]
    simp only [Out.ok.injEq]
    by_cases hx : ty.InRange x
    · rw [computes_self hs hx, IntTy.wrap_of_inRange hs hx]; exact eq_comm
    · rw [wrap_iff hs]
      exact ⟨fun h => .inr ⟨hm, h⟩, fun h => h.elim (fun h => absurd h.1 hx) fun h => h.2⟩
  · by_cases hx : ty.InRange x
    · rw [computes_self hs hx, IntTy.arith_inRange hs c hx]
      simp only [Out.ok.injEq]; exact eq_comm
    · constructor
      · intro h
        unfold IntTy.arith at h
        rw [if_neg (fun h => hm (h.elim .inl fun h => .inr (.inl h))), if_neg hx] at h
        split at h
        · next hw => exact absurd (.inr (.inr hw)) hm
        · cases h
      · rintro (⟨h, _⟩ | ⟨h, _⟩)
        · exact absurd h hx
        · exact absurd h hm

theorem intDen_inRange {c : Cfg} {ty : IntTy} (hs : ty.Std) {v0 v : Int} {t : Bytes} (h : IntDen c ty v0 v t) : ty.InRange v := by
  rcases h with ⟨_, rfl⟩ | ⟨x, _, ⟨h, _, rfl⟩ | ⟨_, h, _⟩⟩
  · exact Std.zero_inRange hs
  · exact h
  · exact h

/-! ### Time intervals -/

theorem timeAdd_iff {c : Cfg} {ty : IntTy} (hs : ty.Std) {fr v x v' : Int} {u : TimeUnit} (hu : u.perSecond = 1) :
    timeAdd c ty fr v x u.scale = .ok v' ↔ TimeSum c ty fr v x u v' := by
  have hp := hs.promo
  unfold timeAdd cop TimeSum
  constructor
  · intro h
    obtain ⟨a, h1, h⟩ := Out.bind_eq_ok.mp h
    obtain ⟨b, h2, h⟩ := Out.bind_eq_ok.mp h
    obtain ⟨s, h3, h⟩ := Out.bind_eq_ok.mp h
    rw [arith_iff hp] at h1 h2 h3
    simp only [Out.ok.injEq] at h
    refine ⟨a, b, b, s, h1, h2, ?_, h3, (wrap_iff hs).mp h⟩
    rw [hu, Int.tdiv_one]
    exact (computes_self hp (computes_inRange h2)).mpr rfl
  · rintro ⟨a, b, q, s, h1, h2, h3, h4, h5⟩
    rw [hu, Int.tdiv_one] at h3
    have := (computes_self hp (computes_inRange h2)).mp h3
    subst this
    rw [← arith_iff hp] at h1 h2 h4
    rw [h1, Out.bind_ok, h2, Out.bind_ok, h4, Out.bind_ok, (wrap_iff hs).mpr h5]

theorem timeAddSub_iff {c : Cfg} {ty : IntTy} (hs : ty.Std) {fr v x v' : Int} {u : TimeUnit} (hu : u.scale = 1)
    (hx : ty.InRange x) : timeAddSub c ty fr v x u.perSecond = .ok v' ↔ TimeSum c ty fr v x u v' := by
  have hp := hs.promo
  have hx' := IntTy.promo_inRange hs hx
  have hne : u.perSecond ≠ 0 := by cases u <;> decide
  unfold timeAddSub cdiv cop TimeSum
  rw [hu, Int.mul_one]
  constructor
  · intro h
    obtain ⟨b, h1, h⟩ := Out.bind_eq_ok.mp h
    rw [if_neg hne] at h
    obtain ⟨q, h2, h⟩ := Out.bind_eq_ok.mp h
    obtain ⟨s, h3, h⟩ := Out.bind_eq_ok.mp h
    rw [arith_iff hp] at h1 h2 h3
    simp only [Out.ok.injEq] at h
    exact ⟨x, b, q, s, (computes_self hp hx').mpr rfl, h1, h2, h3, (wrap_iff hs).mp h⟩
  · rintro ⟨a, b, q, s, h1, h2, h3, h4, h5⟩
    have := (computes_self hp hx').mp h1
    subst this
    rw [← arith_iff hp] at h2 h3 h4
    rw [h2, Out.bind_ok, if_neg hne, h3, Out.bind_ok, h4, Out.bind_ok, (wrap_iff hs).mpr h5]

theorem timeRun_ne {c : Cfg} {ty : IntTy} {fr v v' : Int} {t : Bytes} (h : TimeRun c ty fr v v' t) : t ≠ [] := by
  cases h with
  | close => simp
  | @unit v v1 v2 x t u w r _ hw _ _ => cases hw <;> simp
  | skip => simp

theorem head_append {r : Bytes} (h : r ≠ []) (p : Bytes) : (r ++ p).head? = r.head? := by
  cases r with
  | nil => exact absurd rfl h
  | cons b r => rfl

theorem timeLoop_sound {c : Cfg} {ty : IntTy} (hs : ty.Std) {fr : Int} {p : Bytes} (hp : p ≠ []) {e : EPtr} (he : e.Clean) :
    ∀ {n : Nat} {v v' : Int} {s : Bytes}, timeLoopF c ty fr n v s e = .ok (v', p, e) →
      ∃ t, s = t ++ p ∧ TimeRun c ty fr v v' t := by
  intro n
  induction n with
  | zero => intro v v' s h; simp [timeLoopF] at h
  | succ n ih =>
    intro v v' s h
    cases s with
    | nil =>
      simp only [timeLoopF, Out.ok.injEq, Prod.mk.injEq] at h
      exact (he.no_error (by decide) h.2.2).elim
    | cons b s =>
      simp only [timeLoopF] at h
      by_cases hb : b = c%'"'
      · rw [if_pos hb] at h
        simp only [Out.ok.injEq, Prod.mk.injEq] at h
        obtain ⟨rfl, rfl, _⟩ := h
        exact ⟨b!"\"", by rw [hb]; rfl, .close⟩
      · rw [if_neg hb] at h
        obtain ⟨⟨x, q, e'⟩, h1, h⟩ := Out.bind_eq_ok.mp h
        simp only at h
        by_cases hf : e'.failed = true
        · rw [if_pos hf] at h
          simp only [Out.ok.injEq, Prod.mk.injEq] at h
          rw [h.2.2, he.not_failed] at hf; cases hf
        · rw [if_neg hf] at h
          have hee : e' = e := by
            rcases deInt_safe c ty 0 (b :: s) e with ⟨g, _⟩ | ⟨_, _, _, g, _, g2⟩
            · rw [g] at h1; cases h1
            · rw [g] at h1
              cases h1
              rcases g2.clean he with g3 | g3
              · exact g3
              · exact absurd g3 hf
          subst hee
          obtain ⟨tn, h2, h3, h4⟩ := deInt_sound hs he h1
          have hx := intDen_inRange hs h3
          rw [h2]
          clear h2 h1
          cases q with
          | nil =>
            simp only [Out.ok.injEq, Prod.mk.injEq] at h
            exact absurd h.2.1.symm hp
          | cons u t =>
            simp only at h
            have fin : ∀ {k : TimeUnit} {w r : Bytes} {v1 : Int}, (∀ t', r = t' ++ p → t' ≠ [] → TimeUnitText k w t') →
                TimeSum c ty fr v x k v1 → timeLoopF c ty fr n v1 r e' = .ok (v', p, e') →
                ∃ t, tn ++ (w ++ r) = t ++ p ∧ TimeRun c ty fr v v' t := by
              intro k w r v1 k1 k2 k3
              obtain ⟨t', g1, g2⟩ := ih k3
              exact ⟨tn ++ w ++ t', by rw [g1]; simp, .unit h3 (k1 t' g1 (timeRun_ne g2)) k2 g2⟩
            by_cases hd : u = c%'d'
            · rw [if_pos hd] at h
              obtain ⟨v1, g1, h⟩ := Out.bind_eq_ok.mp h
              rw [hd]
              exact fin (w := b!"d") (fun _ _ _ => .d) ((timeAdd_iff hs (u := .d) rfl).mp g1) h
            · rw [if_neg hd] at h
              by_cases hh : u = c%'h'
              · rw [if_pos hh] at h
                obtain ⟨v1, g1, h⟩ := Out.bind_eq_ok.mp h
                rw [hh]
                exact fin (w := b!"h") (fun _ _ _ => .h) ((timeAdd_iff hs (u := .h) rfl).mp g1) h
              · rw [if_neg hh] at h
                by_cases hm : u = c%'m'
                · rw [if_pos hm] at h
                  rw [hm]
                  cases t with
                  | nil =>
                    obtain ⟨v1, g1, h⟩ := Out.bind_eq_ok.mp h
                    exact fin (w := b!"m") (fun t' q1 q2 => absurd (List.append_eq_nil_iff.mp q1.symm).1 q2)
                      ((timeAdd_iff hs (u := .m) rfl).mp g1) h
                  | cons y t =>
                    simp only at h
                    by_cases hy : y = c%'s'
                    · rw [if_pos hy] at h
                      obtain ⟨v1, g1, h⟩ := Out.bind_eq_ok.mp h
                      rw [hy]
                      exact fin (w := b!"ms") (fun _ _ _ => .ms) ((timeAddSub_iff hs (u := .ms) rfl hx).mp g1) h
                    · rw [if_neg hy] at h
                      by_cases hk : y = c%'k'
                      · rw [if_pos hk] at h
                        obtain ⟨v1, g1, h⟩ := Out.bind_eq_ok.mp h
                        cases t with
                        | nil => cases h
                        | cons z t =>
                          rw [hk]
                          exact fin (w := [c%'m', c%'k', z]) (fun _ _ _ => .mks) ((timeAddSub_iff hs (u := .mks) rfl hx).mp g1) h
                      · rw [if_neg hk] at h
                        obtain ⟨v1, g1, h⟩ := Out.bind_eq_ok.mp h
                        refine fin (w := b!"m") (fun t' q1 q2 => ?_) ((timeAdd_iff hs (u := .m) rfl).mp g1) h
                        have : t'.head? = some y := by rw [← head_append q2 p, ← q1]; rfl
                        exact .m (by rw [this]; simpa using hy) (by rw [this]; simpa using hk)
                · rw [if_neg hm] at h
                  by_cases hss : u = c%'s'
                  · rw [if_pos hss] at h
                    obtain ⟨v1, g1, h⟩ := Out.bind_eq_ok.mp h
                    rw [hss]
                    exact fin (w := b!"s") (fun _ _ _ => .s) ((timeAddSub_iff hs (u := .s) rfl hx).mp g1) h
                  · rw [if_neg hss] at h
                    obtain ⟨t', g1, g2⟩ := ih h
                    refine ⟨tn ++ u :: t', by rw [g1]; simp, .skip h3 hd hh hm hss ?_ g2⟩
                    intro hdig
                    rcases h4 with h4 | h4
                    · exact absurd hdig (h4 u rfl)
                    · exact h4

theorem timeLoop_complete {c : Cfg} {ty : IntTy} (hs : ty.Std) {fr : Int} (p : Bytes) {e : EPtr} (he : e.failed = false)
    {v v' : Int} {t : Bytes} (h : TimeRun c ty fr v v' t) :
    ∀ {n : Nat}, (t ++ p).length < n → timeLoopF c ty fr n v (t ++ p) e = .ok (v', p, e) := by
  induction h with
  | close =>
    intro n hn
    cases n with
    | zero => omega
    | succ n => simp [timeLoopF]
  | @unit v v1 v2 x tn k w r h1 h2 h3 h4 ih =>
    intro n hn
    cases n with
    | zero => omega
    | succ n =>
      obtain ⟨b, u, hu, hb⟩ : ∃ b u, tn = b :: u ∧ b ≠ c%'"' := by
        obtain ⟨b, u, hu, _⟩ := (intSer_exact c hs).head h1
        refine ⟨b, u, hu, ?_⟩
        rintro rfl
        rcases h1 with ⟨h1, _⟩ | ⟨x, hx, _⟩
        · rw [h1] at hu; cases hu
        · obtain ⟨b, u', h1, hb⟩ := intLit_head hx
          rw [h1] at hu; cases hu
          revert hb; unfold Digit; decide
      have hw : NoDigitNext (w ++ r ++ p) := by
        intro b hb
        cases h2 <;> simp at hb <;> subst hb <;> unfold Digit <;> decide
      have hint := deInt_complete hs h1 (.inl hw) e
      have hlen : (r ++ p).length < n := by
        subst hu
        simp only [List.length_append, List.length_cons] at hn ⊢
        omega
      have hs1 : tn ++ w ++ r ++ p = b :: (u ++ w ++ r ++ p) := by rw [hu]; rfl
      have hs2 : tn ++ (w ++ r ++ p) = b :: (u ++ w ++ r ++ p) := by rw [hu]; simp
      rw [hs2] at hint
      rw [hs1]
      simp only [timeLoopF]
      rw [if_neg hb, hint, Out.bind_ok]
      simp only
      rw [if_neg (by simp [he])]
      have hx := intDen_inRange hs h1
      have ih' := ih hlen
      cases h2 with
      | d =>
        have := (timeAdd_iff hs (u := .d) rfl).mpr h3
        simp only [TimeUnit.scale] at this
        simp only [List.cons_append, List.nil_append, if_true, this, Out.bind_ok, ih']
      | h =>
        have := (timeAdd_iff hs (u := .h) rfl).mpr h3
        simp only [TimeUnit.scale] at this
        simp only [List.cons_append, List.nil_append]
        rw [if_neg (by decide), if_pos trivial, this, Out.bind_ok, ih']
      | s =>
        have := (timeAddSub_iff hs (u := .s) rfl hx).mpr h3
        simp only [TimeUnit.perSecond] at this
        simp only [List.cons_append, List.nil_append]
        rw [if_neg (by decide), if_neg (by decide), if_neg (by decide), if_pos trivial, this, Out.bind_ok, ih']
      | ms =>
        have := (timeAddSub_iff hs (u := .ms) rfl hx).mpr h3
        simp only [TimeUnit.perSecond] at this
        simp only [List.cons_append, List.nil_append]
        rw [if_neg (by decide), if_neg (by decide), if_pos trivial, if_pos trivial, this, Out.bind_ok, ih']
      | mks =>
        have := (timeAddSub_iff hs (u := .mks) rfl hx).mpr h3
        simp only [TimeUnit.perSecond] at this
        simp only [List.cons_append, List.nil_append]
        rw [if_neg (by decide), if_neg (by decide), if_pos trivial, if_neg (by decide), if_pos trivial, this, Out.bind_ok, ih']
      | m q1 q2 =>
        have := (timeAdd_iff hs (u := .m) rfl).mpr h3
        simp only [TimeUnit.scale] at this
        simp only [List.cons_append, List.nil_append]
        rw [if_neg (by decide), if_neg (by decide), if_pos trivial]
        have hne := timeRun_ne h4
        cases r with
        | nil => exact absurd rfl hne
        | cons y r =>
          simp only [List.head?_cons, ne_eq, Option.some.injEq] at q1 q2
          simp only [List.cons_append] at ih' ⊢
          rw [if_neg q1, if_neg q2, this, Out.bind_ok, ih']
  | @skip v v2 x tn d r h1 hd hh hm hss h0 h4 ih =>
    intro n hn
    cases n with
    | zero => omega
    | succ n =>
      obtain ⟨b, u, hu, hb⟩ : ∃ b u, tn = b :: u ∧ b ≠ c%'"' := by
        obtain ⟨b, u, hu, _⟩ := (intSer_exact c hs).head h1
        refine ⟨b, u, hu, ?_⟩
        rintro rfl
        rcases h1 with ⟨h1, _⟩ | ⟨x, hx, _⟩
        · rw [h1] at hu; cases hu
        · obtain ⟨b, u', h1, hb⟩ := intLit_head hx
          rw [h1] at hu; cases hu
          revert hb; unfold Digit; decide
      have hw : NoDigitNext (d :: (r ++ p)) ∨ tn = b!"0" ∨ tn = b!"-0" ∨ tn = b!"null" := by
        by_cases hdig : Digit d
        · exact .inr (h0 hdig)
        · refine .inl fun b hb => ?_
          simp at hb
          rwa [← hb]
      have hint := deInt_complete hs h1 hw e
      have hlen : (r ++ p).length < n := by
        subst hu
        simp only [List.length_append, List.length_cons] at hn ⊢
        omega
      have hs1 : tn ++ d :: r ++ p = b :: (u ++ d :: r ++ p) := by rw [hu]; rfl
      have hs2 : tn ++ d :: (r ++ p) = b :: (u ++ d :: r ++ p) := by rw [hu]; simp
      rw [hs2] at hint
      rw [hs1]
      simp only [timeLoopF]
      rw [if_neg hb, hint, Out.bind_ok]
      simp only
      rw [if_neg (by simp [he]), if_neg hd, if_neg hh, if_neg hm, if_neg hss]
      exact ih hlen

theorem isNumber_head {b : Byte} {t : Bytes} : isNumber (b :: t) = true ↔ (b = c%'-' ∨ Digit b) := by
  have : ∀ b : Byte, isNumber [b] = true ↔ (b = c%'-' ∨ Digit b) := by
    unfold Digit; apply forall_byte; decide +kernel
  have h2 : isNumber (b :: t) = isNumber [b] := rfl
  rw [h2, this b]

/-- The first byte of what an integer is read from. -/
theorem intDen_head {c : Cfg} {ty : IntTy} {v0 v : Int} {t : Bytes} (h : IntDen c ty v0 v t) :
    (t = b!"null" ∧ v = 0) ∨ ∃ b u, t = b :: u ∧ (b = c%'-' ∨ Digit b) := by
  rcases h with h | ⟨x, hx, _⟩
  · exact .inl h
  · exact .inr (intLit_head hx)

theorem num_not_null {b : Byte} {t : Bytes} (h : b = c%'-' ∨ Digit b) : isNull (b :: t) = false := by
  have := not_n_of_num h
  simpa [isNull] using this

theorem timeSer_inner (c : Cfg) {ty : IntTy} (hs : ty.Std) (fr : Int) : Inner (timeSer c ty fr) (TimeDen c ty fr) where
  safe := fun v s e => (deTime_safe c ty fr v s e).mono (fun _ => trivial) (List.suffix_refl _) (.refl _ _)
  sound := by
    intro v0 v s p e he _ _ hp h
    simp only [timeSer] at h
    cases s with
    | nil =>
      simp only [deTime, Out.ok.injEq, Prod.mk.injEq] at h
      exact (he.no_error (by decide) h.2.2).elim
    | cons b t =>
      simp only [deTime] at h
      by_cases hn : isNull (b :: t) = true
      · rw [if_pos hn] at h
        simp only [Out.ok.injEq, Prod.mk.injEq] at h
        have := parseNull_acc_iff.mp (Acc.of_clean (parseNull_scan _) he (e' := e) (p := p) (Prod.ext h.2.1 h.2.2) he.not_failed)
        exact ⟨_, this, .inl (.inl ⟨rfl, h.1.symm⟩)⟩
      · rw [if_neg hn] at h
        by_cases hk : isNumber (b :: t) = true
        · rw [if_pos hk] at h
          obtain ⟨t', h1, h2, _⟩ := deInt_sound hs he h
          exact ⟨t', h1, .inl h2⟩
        · rw [if_neg hk] at h
          by_cases hq : isString (b :: t) = true
          · rw [if_neg (by simp [hq])] at h
            obtain ⟨t', h1, h2⟩ := timeLoop_sound hs hp he h
            refine ⟨c%'"' :: t', ?_, .inr ⟨t', rfl, h2⟩⟩
            have hb : b = c%'"' := by simpa [isString] using hq
            rw [hb, h1]; rfl
          · rw [if_pos (by simp [hq])] at h
            simp only [Out.ok.injEq, Prod.mk.injEq] at h
            exact (he.no_error (by decide) h.2.2).elim
  complete := by
    intro v0 v t h _ rest e he hr
    simp only [timeSer]
    rcases h with h | ⟨r, rfl, h⟩
    · rcases intDen_head h with ⟨rfl, rfl⟩ | ⟨b, u, hu, hb⟩
      · have := parseNull_ok rest e
        simp only [List.cons_append, List.nil_append] at this ⊢
        simp only [deTime]
        rw [if_pos (by simp [isNull]), this]
      · have := deInt_complete hs h (.inl (noDigit_of_delim hr)) e
        rw [hu, List.cons_append] at this ⊢
        simp only [deTime]
        rw [if_neg (by simp [num_not_null hb]), if_pos (isNumber_head.mpr hb)]
        exact this
    · rw [List.cons_append]
      simp only [deTime]
      rw [if_neg (by simp [isNull]), if_neg (by rw [isNumber_head]; unfold Digit; decide), if_neg (by simp [isString])]
      exact timeLoop_complete hs rest he h (by omega)
  head := by
    rintro v0 v t (h | ⟨r, rfl, h⟩)
    · exact (intSer_exact c hs).head h
    · exact headed_of_byte (by decide)
  null := by
    intro v0 v r p e he _ _ h
    simp only [timeSer, List.cons_append, List.nil_append, deTime] at h
    rw [if_pos (by simp [isNull])] at h
    have := parseNull_ok r e
    simp only [List.cons_append, List.nil_append] at this
    rw [this] at h
    simp only [Out.ok.injEq, Prod.mk.injEq] at h
    exact ⟨h.2.1.symm, .inl (.inl ⟨rfl, h.1.symm⟩)⟩

/-! ### Sizes -/

theorem sizeMult_iff {ch : Byte} {u : Bytes} {m : Int} :
    sizeMult ch (u.headD 0) = some m ↔ ∃ k : SizeUnit, k.Begins (ch :: u) ∧ k.bytes = m := by
  have hi : u.headD 0 = c%'i' ↔ u.head? = some c%'i' := by
    cases u with
    | nil => simp
    | cons b u => simp
  constructor
  · intro h
    unfold sizeMult at h
    by_cases hu : u.head? = some c%'i'
    · obtain ⟨u', rfl⟩ : ∃ u', u = c%'i' :: u' := by
        cases u with
        | nil => simp at hu
        | cons b u => simp at hu; exact ⟨u, by rw [hu]⟩
      simp only [List.headD_cons, if_true] at h
      split at h
      · next hc => subst hc; exact ⟨⟨true, 4⟩, .binary .t, by simpa [SizeUnit.bytes] using h⟩
      split at h
      · next hc => subst hc; exact ⟨⟨true, 3⟩, .binary .g, by simpa [SizeUnit.bytes] using h⟩
      split at h
      · next hc => subst hc; exact ⟨⟨true, 2⟩, .binary .m, by simpa [SizeUnit.bytes] using h⟩
      split at h
      · next hc => subst hc; exact ⟨⟨true, 1⟩, .binary .k, by simpa [SizeUnit.bytes] using h⟩
      split at h
      · next hc => subst hc; exact ⟨⟨false, 0⟩, .bytes, by simpa [SizeUnit.bytes] using h⟩
      · cases h
    · have hu' : ¬ (u.headD 0 = c%'i') := fun x => hu (hi.mp x)
      simp only [hu', if_false] at h
      split at h
      · next hc => subst hc; exact ⟨⟨false, 4⟩, .decimal .t hu, by simpa [SizeUnit.bytes] using h⟩
      split at h
      · next hc => subst hc; exact ⟨⟨false, 3⟩, .decimal .g hu, by simpa [SizeUnit.bytes] using h⟩
      split at h
      · next hc => subst hc; exact ⟨⟨false, 2⟩, .decimal .m hu, by simpa [SizeUnit.bytes] using h⟩
      split at h
      · next hc => subst hc; exact ⟨⟨false, 1⟩, .decimal .k hu, by simpa [SizeUnit.bytes] using h⟩
      split at h
      · next hc => subst hc; exact ⟨⟨false, 0⟩, .bytes, by simpa [SizeUnit.bytes] using h⟩
      · cases h
  · rintro ⟨k, hk, rfl⟩
    cases hk with
    | bytes => simp [sizeMult, SizeUnit.bytes]
    | decimal hl hh =>
      have hu' : ¬ (u.headD 0 = c%'i') := fun x => hh (hi.mp x)
      cases hl <;> simp only [sizeMult, hu', if_false] <;> simp [SizeUnit.bytes]
    | binary hl => cases hl <;> simp [sizeMult, SizeUnit.bytes]

theorem begins_head {k : SizeUnit} {r : Bytes} (h : k.Begins r) : NoDigitNext r ∧ r ≠ [] := by
  refine ⟨fun b hb => ?_, ?_⟩
  · cases h with
    | bytes => simp at hb; subst hb; unfold Digit; decide
    | decimal hl _ => cases hl <;> simp at hb <;> subst hb <;> unfold Digit <;> decide
    | binary hl => cases hl <;> simp at hb <;> subst hb <;> unfold Digit <;> decide
  · cases h <;> simp

theorem padded_zero {w : Bytes} {n : Nat} (hw : w.length ≤ n) :
    (0 : Byte) ∈ w ++ List.replicate (n - w.length) 0 ↔ (w.length < n ∨ 0 ∈ w) := by
  simp only [List.mem_append, List.mem_replicate, ne_eq]
  constructor
  · rintro (h | ⟨h, _⟩)
    · exact .inr h
    · exact .inl (by omega)
  · rintro (h | h)
    · exact .inr ⟨by omega, trivial⟩
    · exact .inl h

theorem padded_takeWhile (w : Bytes) (n : Nat) :
    (w ++ List.replicate n (0 : Byte)).takeWhile (· ≠ 0) = w.takeWhile (· ≠ 0) := by
  induction w with
  | nil => cases n <;> simp [List.replicate_succ]
  | cons b w ih =>
    simp only [List.cons_append, List.takeWhile_cons]
    rw [ih]

theorem sizeSer_exact (c : Cfg) {ty : IntTy} (hs : ty.Std) {metric : Int} (hm : IntTy.long.InRange metric) (hm0 : metric ≠ 0) :
    Exact (sizeSer c ty metric) (SizeDen c ty metric) where
  safe := fun v s e => (deSize_safe c ty metric v s e).mono (fun _ => trivial) (List.suffix_refl _) (.refl _ _)
  sound := by
    intro v0 v s p e he hl hd h
    have hlong : IntTy.long.Std := .inr (.inr (.inr rfl))
    simp only [sizeSer] at h
    cases s with
    | nil =>
      simp only [deSize, Out.ok.injEq, Prod.mk.injEq] at h
      exact (he.no_error (by decide) h.2.2).elim
    | cons b t =>
      simp only [deSize] at h
      by_cases hn : isNull (b :: t) = true
      · rw [if_pos hn] at h
        simp only [Out.ok.injEq, Prod.mk.injEq] at h
        have := parseNull_acc_iff.mp (Acc.of_clean (parseNull_scan _) he (e' := e) (p := p) (Prod.ext h.2.1 h.2.2) he.not_failed)
        exact ⟨_, this, .inl (.inl ⟨rfl, h.1.symm⟩)⟩
      · rw [if_neg hn] at h
        by_cases hk : isNumber (b :: t) = true
        · rw [if_pos hk] at h
          obtain ⟨t', h1, h2, _⟩ := deInt_sound hs he h
          exact ⟨t', h1, .inl h2⟩
        · rw [if_neg hk] at h
          by_cases hq : isString (b :: t) = true
          · rw [if_neg (by simp [hq])] at h
            have hb : b = c%'"' := by simpa [isString] using hq
            subst hb
            obtain ⟨⟨w, p', e'⟩, h1, h⟩ := Out.bind_eq_ok.mp h
            simp only at h
            by_cases hf : e'.failed = true
            · rw [if_pos hf] at h
              simp only [Out.ok.injEq, Prod.mk.injEq] at h
              rw [h.2.2, he.not_failed] at hf; cases hf
            · rw [if_neg hf] at h
              have hee : e' = e := by
                rcases deCharArray_safe 32 (List.replicate 32 0) (c%'"' :: t) e with ⟨g, _⟩ | ⟨_, _, _, g, _, g2⟩
                · have h1' : deCharArray 32 (List.replicate 32 0) (c%'"' :: t) e = _ := h1
                  rw [g] at h1'; cases h1'
                · have h1' : deCharArray 32 (List.replicate 32 0) (c%'"' :: t) e = _ := h1
                  rw [g] at h1'
                  cases h1'
                  rcases g2.clean he with g3 | g3
                  · exact g3
                  · exact absurd g3 hf
              subst hee
              obtain ⟨buf, h2, h⟩ := Out.bind_eq_ok.mp h
              obtain ⟨⟨x, r, e2⟩, h3, h⟩ := Out.bind_eq_ok.mp h
              simp only [sizeApply] at h
              by_cases hf2 : e2.failed = true
              · rw [if_pos hf2] at h
                simp only [Out.ok.injEq, Prod.mk.injEq] at h
                rw [h.2.2, he.not_failed] at hf2; cases hf2
              · rw [if_neg hf2] at h
                have hee : e2 = e' := by
                  rcases deInt_safe c .long 0 buf e' with ⟨g, _⟩ | ⟨_, _, _, g, _, g2⟩
                  · rw [g] at h3; cases h3
                  · rw [g] at h3
                    cases h3
                    rcases g2.clean he with g3 | g3
                    · exact g3
                    · exact absurd g3 hf2
                subst hee
                obtain ⟨tn, g1, g2, _⟩ := deInt_sound hlong he h3
                have hpp : p' = p ∧ ((r = [] ∧ ty.Reduces x v) ∨ ∃ (k : SizeUnit) (a b : Int), k.Begins r ∧ IntTy.long.Computes c (x * k.bytes) a ∧
                    IntTy.long.Computes c (a.tdiv metric) b ∧ ty.Reduces b v) := by
                  cases r with
                  | nil =>
                    simp only [Out.ok.injEq, Prod.mk.injEq] at h
                    exact ⟨h.2.1, .inl ⟨rfl, (wrap_iff hs).mp h.1⟩⟩
                  | cons ch u =>
                    simp only at h
                    cases hmu : sizeMult ch (u.headD 0) with
                    | none =>
                      rw [hmu] at h
                      simp only [Out.ok.injEq, Prod.mk.injEq] at h
                      exact (he.no_error (by decide) h.2.2).elim
                    | some mu =>
                      rw [hmu] at h
                      simp only at h
                      obtain ⟨k, k1, k2⟩ := sizeMult_iff.mp hmu
                      obtain ⟨a, k3, h⟩ := Out.bind_eq_ok.mp h
                      rw [IntTy.wrap_of_inRange hlong hm, if_neg hm0] at h
                      obtain ⟨b, k4, h⟩ := Out.bind_eq_ok.mp h
                      simp only [Out.ok.injEq, Prod.mk.injEq] at h
                      rw [arith_iff hlong] at k3 k4
                      rw [← k2] at k3
                      exact ⟨h.2.1, .inr ⟨k, a, b, k1, k3, k4, (wrap_iff hs).mp h.1⟩⟩
                obtain ⟨rfl, hcase⟩ := hpp
                obtain ⟨t', q1, q2⟩ := (charArraySer_exact 32).sound he hl hd h1
                rcases q2 with ⟨q2, _⟩ | ⟨u, w', q2, q3, q4⟩
                · rw [q2] at q1; cases q1
                · have hw' : w'.length ≤ 32 := by
                    rcases q3 with q3 | ⟨_, _, _, _, _, _, _, _, q3⟩
                    · exact q3.2
                    · omega
                  subst q4
                  rw [cstr_eq] at h2
                  by_cases hz : (0 : Byte) ∈ w' ++ List.replicate (32 - w'.length) 0
                  · rw [if_pos hz] at h2
                    simp only [Out.ok.injEq] at h2
                    rw [padded_takeWhile] at h2
                    refine ⟨t', q1, .inr ⟨u, w', tn, x, r, q2, q3, (padded_zero hw').mp hz, ?_, g2, hcase⟩⟩
                    rw [h2, g1]
                  · rw [if_neg hz] at h2; cases h2
          · rw [if_pos (by simp [hq])] at h
            simp only [Out.ok.injEq, Prod.mk.injEq] at h
            exact (he.no_error (by decide) h.2.2).elim
  complete := by
    intro v0 v t h hl rest e he hr
    have hlong : IntTy.long.Std := .inr (.inr (.inr rfl))
    simp only [sizeSer]
    rcases h with h | ⟨u, w, n, x, r, rfl, h1, h2, h3, h4, h5⟩
    · rcases intDen_head h with ⟨rfl, rfl⟩ | ⟨b, u, hu, hb⟩
      · have := parseNull_ok rest e
        simp only [List.cons_append, List.nil_append] at this ⊢
        simp only [deSize]
        rw [if_pos (by simp [isNull]), this]
      · have := deInt_complete hs h (.inl (noDigit_of_delim hr)) e
        rw [hu, List.cons_append] at this ⊢
        simp only [deSize]
        rw [if_neg (by simp [num_not_null hb]), if_pos (isNumber_head.mpr hb)]
        exact this
    · have hw' : w.length ≤ 32 := by
        rcases h1 with q3 | ⟨_, _, _, _, _, _, _, _, q3⟩
        · exact q3.2
        · omega
      have hc := (charArraySer_exact 32).complete (v0 := List.replicate 32 0) (.inr ⟨u, w, rfl, h1, rfl⟩) hl rest e he hr
      have hq : quoted u ++ rest = c%'"' :: (u ++ c%'"' :: rest) := by simp [quoted]
      rw [hq] at hc ⊢
      simp only [deSize]
      rw [if_neg (by simp [isNull]), if_neg (by rw [isNumber_head]; unfold Digit; decide), if_neg (by simp [isString]), hc, Out.bind_ok]
      simp only
      rw [if_neg (by simp [he]), cstr_eq, if_pos ((padded_zero hw').mpr h2), Out.bind_ok, padded_takeWhile, h3]
      have hnd : NoDigitNext r := by
        rcases h5 with ⟨rfl, _⟩ | ⟨k, _, _, hk, _⟩
        · intro b hb; cases hb
        · exact (begins_head hk).1
      rw [deInt_complete hlong h4 (.inl hnd) e, Out.bind_ok]
      simp only [sizeApply, he, Bool.false_eq_true, if_false]
      rcases h5 with ⟨rfl, h5⟩ | ⟨k, a, b, hk, k3, k4, h5⟩
      · simp only [(wrap_iff hs).mpr h5]
      · cases r with
        | nil => exact absurd rfl (begins_head hk).2
        | cons ch r =>
          rw [← arith_iff hlong] at k3 k4
          simp only [sizeMult_iff.mpr ⟨k, hk, rfl⟩, k3, Out.bind_ok, IntTy.wrap_of_inRange hlong hm]
          rw [if_neg hm0, k4, Out.bind_ok, (wrap_iff hs).mpr h5]
  head := by
    rintro v0 v t (h | ⟨u, w, n, x, r, rfl, h⟩)
    · exact (intSer_exact c hs).head h
    · exact headed_of_byte (by decide)
  null := by
    intro v0 v s p e he hn h
    simp only [sizeSer] at h
    cases s with
    | nil => simp at hn
    | cons b t =>
      have hn' : isNull (b :: t) = true := by simpa [isNull] using hn
      simp only [deSize] at h
      rw [if_pos hn'] at h
      simp only [Out.ok.injEq, Prod.mk.injEq] at h
      exact parseNull_acc_iff.mp (Acc.of_clean (parseNull_scan _) he (e' := e) (p := p) (Prod.ext h.2.1 h.2.2) he.not_failed)

end Wjson
