import Verif.Model.Units
import Verif.Spec.Units
import Verif.Proofs.Containers
/-
Reading and writing of time intervals.
-/
namespace Wjson
open Spec

theorem IntTy.Std.promo {ty : IntTy} (hs : ty.Std) : ty.promo.Std := by
  unfold IntTy.promo
  split
  · exact .inr (.inr (.inl rfl))
  · exact hs

theorem IntTy.promo_inRange {ty : IntTy} (hs : ty.Std) {x : Int} (h : ty.InRange x) : ty.promo.InRange x := by
  obtain ⟨bits, sg⟩ := ty
  simp only [IntTy.Std] at hs
  simp only [IntTy.InRange, IntTy.min, IntTy.max, IntTy.promo] at h ⊢
  rcases hs with rfl | rfl | rfl | rfl <;> cases sg <;> simp [IntTy.int] at h ⊢ <;> omega

theorem cop_ok (c : Cfg) {ty : IntTy} (hs : ty.Std) {x : Int} (h : ty.InRange x) : cop c ty x = .ok x :=
  IntTy.arith_inRange hs.promo c (IntTy.promo_inRange hs h)

theorem cop_promo (c : Cfg) {ty : IntTy} (hs : ty.Std) {x : Int} (h : ty.promo.InRange x) : cop c ty x = .ok x :=
  IntTy.arith_inRange hs.promo c h

/-- Between zero and a value of the type. -/
theorem IntTy.inRange_between {ty : IntTy} (hs : ty.Std) {x v : Int} (hv : ty.InRange v)
    (h : (0 ≤ x ∧ x ≤ v) ∨ (v ≤ x ∧ x ≤ 0)) : ty.InRange x := by
  have h0 := Std.zero_inRange hs
  simp only [IntTy.InRange] at hv h0 ⊢
  omega

/-! ### Reading -/

/-- All that is computed while the parts `l` are added to `v` fits the type. -/
def TimeFits (ty : IntTy) (fr : Int) : Int → List (Int × TimeUnit) → Prop
  | _, [] => True
  | v, (n, u) :: l => ty.InRange n ∧ -ty.max ≤ n ∧ ty.InRange (n * u.scale * fr) ∧ ty.InRange (v + u.ticks fr n) ∧
      TimeFits ty fr (v + u.ticks fr n) l

theorem tdiv_between (x : Int) {d : Int} (hd : 0 < d) :
    (0 ≤ x.tdiv d ∧ x.tdiv d ≤ x) ∨ (x ≤ x.tdiv d ∧ x.tdiv d ≤ 0) := by
  rcases Int.le_total 0 x with h | h
  · left
    exact ⟨Int.tdiv_nonneg h (Int.le_of_lt hd), Int.tdiv_le_self _ h⟩
  · right
    obtain ⟨y, rfl⟩ : ∃ y, x = -y := ⟨-x, by omega⟩
    rw [Int.neg_tdiv]
    have h1 := Int.tdiv_nonneg (a := y) (b := d) (by omega) (Int.le_of_lt hd)
    have h2 := Int.tdiv_le_self (a := y) d (by omega)
    omega

theorem mul_between (x : Int) {d : Int} (hd : 1 ≤ d) :
    (0 ≤ x ∧ x ≤ x * d) ∨ (x * d ≤ x ∧ x ≤ 0) := by
  rcases Int.le_total 0 x with h | h
  · left; refine ⟨h, ?_⟩
    have := Int.mul_le_mul_of_nonneg_left hd h
    omega
  · right; refine ⟨?_, h⟩
    have := Int.mul_le_mul_of_nonpos_left h hd
    omega

theorem timeAdd_ok (c : Cfg) {ty : IntTy} (hs : ty.Std) {fr v n m : Int} (hf : 1 ≤ fr)
    (h1 : ty.InRange (n * m * fr)) (h2 : ty.InRange (v + n * m * fr)) :
    timeAdd c ty fr v n m = .ok (v + n * m * fr) := by
  unfold timeAdd
  rw [cop_ok c hs (IntTy.inRange_between hs h1 (mul_between _ hf)), Out.bind_ok, cop_ok c hs h1, Out.bind_ok,
    cop_ok c hs h2, Out.bind_ok, IntTy.wrap_of_inRange hs h2]

theorem timeAddSub_ok (c : Cfg) {ty : IntTy} (hs : ty.Std) {fr v n d : Int} (hd : 0 < d)
    (h1 : ty.InRange (n * fr)) (h2 : ty.InRange (v + (n * fr).tdiv d)) :
    timeAddSub c ty fr v n d = .ok (v + (n * fr).tdiv d) := by
  unfold timeAddSub cdiv
  rw [cop_ok c hs h1, Out.bind_ok, if_neg (by omega),
    cop_ok c hs (IntTy.inRange_between hs h1 (tdiv_between _ hd)), Out.bind_ok,
    cop_ok c hs h2, Out.bind_ok, IntTy.wrap_of_inRange hs h2]

theorem TimeText.head {l : List (Int × TimeUnit)} {t : Bytes} (h : TimeText l t) :
    t = [] ∨ ∃ b u, t = b :: u ∧ (Digit b ∨ b = c%'-') := by
  cases h with
  | nil => exact .inl rfl
  | @cons n u l t r hn _ =>
    right
    obtain ⟨i, hi, hn⟩ := hn
    have hi' : ∃ b u, i = b :: u ∧ Digit b := by
      rcases hi with rfl | ⟨d, ds, rfl, hd, _⟩
      · exact ⟨_, _, rfl, by unfold Digit; decide⟩
      · exact ⟨_, _, rfl, digit_of_19 hd⟩
    rcases hn with ⟨_, rfl, _⟩ | ⟨_, rfl, _⟩
    · obtain ⟨b, w, rfl, hb⟩ := hi'
      exact ⟨b, w ++ (u.text ++ r), by simp, .inl hb⟩
    · exact ⟨_, i ++ (u.text ++ r), by simp, .inr rfl⟩

theorem TimeUnit.text_noDigit (u : TimeUnit) (r : Bytes) : NoDigitNext (u.text ++ r) := by
  intro b hb
  unfold Digit
  cases u <;> simp [TimeUnit.text] at hb <;> subst hb <;> decide

theorem timeLoopF_reads (c : Cfg) {ty : IntTy} (hs : ty.Std) {fr : Int} (hf : 1 ≤ fr) (rest : Bytes) {e : EPtr}
    (he : e.failed = false) :
    ∀ {l : List (Int × TimeUnit)} {t : Bytes}, TimeText l t → ∀ (n : Nat) (v : Int), t.length < n → TimeFits ty fr v l →
      timeLoopF c ty fr n v (t ++ c%'"' :: rest) e = .ok (v + timeTotal fr l, rest, e) := by
  intro l t h
  induction h with
  | nil =>
    intro n v hn _
    obtain ⟨n, rfl⟩ : ∃ m, n = m + 1 := ⟨n - 1, by omega⟩
    simp [timeLoopF, timeTotal]
  | @cons k u l t r hk hr ih =>
    intro n v hn hfit
    obtain ⟨n, rfl⟩ : ∃ m, n = m + 1 := ⟨n - 1, by omega⟩
    obtain ⟨f1, f2, f3, f4, f5⟩ := hfit
    have hhead := TimeText.head (TimeText.cons (u := u) hk hr)
    have hne : ∃ b w, t ++ u.text ++ r = b :: w ∧ b ≠ c%'"' := by
      rcases hhead with h | ⟨b, w, h, hb⟩
      · cases u <;> simp [TimeUnit.text] at h
      · refine ⟨b, w, h, ?_⟩
        rintro rfl
        rcases hb with hb | hb
        · unfold Digit at hb; revert hb; decide
        · revert hb; decide
    obtain ⟨b, w, hbw, hbq⟩ := hne
    have hint := deInt_decimal c hs f1 (by
        by_cases hsg : ty.signed = true
        · left
          intro hc
          subst hc
          simp only [IntTy.min, IntTy.max, hsg, if_true] at f2
          omega
        · right; exact .inr (.inl (by simpa using hsg))) hk (TimeUnit.text_noDigit u (r ++ c%'"' :: rest)) 0 e
    have hlen : r.length < n := by
      simp only [List.length_append] at hn
      have : 1 ≤ u.text.length := by cases u <;> simp [TimeUnit.text]
      omega
    have ih := ih n (v + u.ticks fr k) hlen f5
    have hsum : v + timeTotal fr ((k, u) :: l) = v + u.ticks fr k + timeTotal fr l := by
      simp only [timeTotal]; omega
    rw [hsum]
    rw [show t ++ u.text ++ r ++ c%'"' :: rest = b :: (w ++ c%'"' :: rest) by rw [hbw]; rfl]
    simp only [timeLoopF, if_neg hbq]
    rw [show b :: (w ++ c%'"' :: rest) = t ++ (u.text ++ (r ++ c%'"' :: rest)) by
      rw [← List.cons_append, ← hbw]; simp]
    rw [hint]
    simp only [Out.bind_ok, he]
    cases u with
    | d =>
      have := timeAdd_ok c hs (v := v) (n := k) (m := 86400) hf (by simpa [TimeUnit.scale] using f3)
        (by simpa [TimeUnit.ticks, TimeUnit.scale, TimeUnit.perSecond] using f4)
      simp [TimeUnit.text, TimeUnit.ticks, TimeUnit.scale, TimeUnit.perSecond] at this ih ⊢
      rw [this, Out.bind_ok]; exact ih
    | h =>
      have := timeAdd_ok c hs (v := v) (n := k) (m := 3600) hf (by simpa [TimeUnit.scale] using f3)
        (by simpa [TimeUnit.ticks, TimeUnit.scale, TimeUnit.perSecond] using f4)
      simp [TimeUnit.text, TimeUnit.ticks, TimeUnit.scale, TimeUnit.perSecond] at this ih ⊢
      rw [this, Out.bind_ok]; exact ih
    | m =>
      have := timeAdd_ok c hs (v := v) (n := k) (m := 60) hf (by simpa [TimeUnit.scale] using f3)
        (by simpa [TimeUnit.ticks, TimeUnit.scale, TimeUnit.perSecond] using f4)
      have hnext : ∃ x y, r ++ c%'"' :: rest = x :: y ∧ x ≠ c%'s' ∧ x ≠ c%'k' := by
        rcases TimeText.head hr with h | ⟨x, y, h, hx⟩
        · subst h; exact ⟨_, _, rfl, by decide, by decide⟩
        · subst h
          refine ⟨x, _, rfl, ?_⟩
          rcases hx with hx | hx
          · constructor <;> rintro rfl <;> unfold Digit at hx <;> revert hx <;> decide
          · subst hx; decide
      obtain ⟨x, y, hxy, hx1, hx2⟩ := hnext
      simp [TimeUnit.text, TimeUnit.ticks, TimeUnit.scale, TimeUnit.perSecond] at this ih ⊢
      rw [hxy] at ih ⊢
      simp only [if_neg hx1, if_neg hx2]
      rw [this, Out.bind_ok]; exact ih
    | s =>
      have := timeAddSub_ok c hs (v := v) (n := k) (d := 1) (by decide) (by simpa [TimeUnit.scale] using f3)
        (by simpa [TimeUnit.ticks, TimeUnit.scale, TimeUnit.perSecond] using f4)
      simp [TimeUnit.text, TimeUnit.ticks, TimeUnit.scale, TimeUnit.perSecond] at this ih ⊢
      rw [this, Out.bind_ok]; exact ih
    | ms =>
      have := timeAddSub_ok c hs (v := v) (n := k) (d := 1000) (by decide) (by simpa [TimeUnit.scale] using f3)
        (by simpa [TimeUnit.ticks, TimeUnit.scale, TimeUnit.perSecond] using f4)
      simp [TimeUnit.text, TimeUnit.ticks, TimeUnit.scale, TimeUnit.perSecond] at this ih ⊢
      rw [this, Out.bind_ok]; exact ih
    | mks =>
      have := timeAddSub_ok c hs (v := v) (n := k) (d := 1000000) (by decide) (by simpa [TimeUnit.scale] using f3)
        (by simpa [TimeUnit.ticks, TimeUnit.scale, TimeUnit.perSecond] using f4)
      simp [TimeUnit.text, TimeUnit.ticks, TimeUnit.scale, TimeUnit.perSecond] at this ih ⊢
      rw [this, Out.bind_ok]; exact ih

theorem deTime_reads (c : Cfg) {ty : IntTy} (hs : ty.Std) {fr : Int} (hf : 1 ≤ fr)
    {l : List (Int × TimeUnit)} {t : Bytes} (h : TimeText l t) (hfit : TimeFits ty fr 0 l) :
    Reads (deTime c ty fr) (c%'"' :: t ++ b!"\"") (timeTotal fr l) := by
  intro v0 rest e he _
  have := timeLoopF_reads c hs hf rest he h ((t ++ c%'"' :: rest).length + 1) 0 (by simp; omega) hfit
  simp only [Int.zero_add] at this
  unfold deTime
  simpa [isNull, isNumber, isString, show isDigit c%'"' = false by decide] using this

theorem timeFits_nonneg {ty : IntTy} (hs : ty.Std) {fr : Int} (hf : 1 ≤ fr) : ∀ {l : List (Int × TimeUnit)} {v : Int}, 0 ≤ v →
    (∀ p ∈ l, 0 ≤ p.1 ∧ p.1 * p.2.scale * fr ≤ ty.max) → v + timeTotal fr l ≤ ty.max → TimeFits ty fr v l
  | [], _, _, _, _ => trivial
  | (n, u) :: l, v, hv, hl, ht => by
    have hu : 1 ≤ u.scale := by cases u <;> decide
    have hp : 0 < u.perSecond := by cases u <;> decide
    have hm : ty.min ≤ 0 := (Std.zero_inRange hs).1
    have hM : 0 ≤ ty.max := (Std.zero_inRange hs).2
    obtain ⟨h1, h2⟩ := hl (n, u) (by simp)
    simp only at h1 h2
    have h3 : n ≤ n * u.scale * fr := by
      have a := mul_between n hu
      have b := mul_between (n * u.scale) hf
      have d := Int.mul_nonneg h1 (Int.le_trans (by decide) hu)
      have := Int.mul_nonneg d (Int.le_trans (by decide) hf)
      omega
    have h4 : 0 ≤ u.ticks fr n := Int.tdiv_nonneg (by omega) (Int.le_of_lt hp)
    have h5 : 0 ≤ timeTotal fr l := by
      have key : ∀ l : List (Int × TimeUnit), (∀ p ∈ l, 0 ≤ p.1) → 0 ≤ timeTotal fr l := by
        intro l
        induction l with
        | nil => intro _; exact Int.le_refl _
        | cons p l ih =>
          intro h
          obtain ⟨n, u⟩ := p
          have a := ih fun p hp => h p (by simp [hp])
          have b : 0 ≤ u.ticks fr n := by
            refine Int.tdiv_nonneg (Int.mul_nonneg (Int.mul_nonneg (h (n, u) (by simp)) ?_) (by omega)) ?_
            · cases u <;> decide
            · cases u <;> decide
          simp only [timeTotal]
          omega
      exact key l fun p hp => (hl p (by simp [hp])).1
    simp only [timeTotal] at ht
    refine ⟨⟨by omega, by omega⟩, by omega, ⟨by omega, h2⟩, ⟨by omega, by omega⟩, ?_⟩
    exact timeFits_nonneg hs hf (by omega) (fun p hp => hl p (by simp [hp])) (by omega)

/-! ### Writing through a back inserter -/

/-- A part as it is written: nothing for zero. -/
def timePiece (n : Int) (u : Bytes) : Bytes := if n = 0 then [] else intText n ++ u

theorem timeWriteIf_back {ty : IntTy} (hs : ty.Std) {n : Int} (hn : ty.InRange n) (ch : Byte) (m : Bytes) :
    timeWriteIf ty n ch ⟨m, .back⟩ = .ok ⟨m ++ timePiece n [ch], .back⟩ := by
  unfold timeWriteIf timePiece
  by_cases h : n = 0
  · simp [h]
  · rw [if_pos h, if_neg h, emitInt_writes hs hn, Sink.puts_back, Out.bind_ok]
    simp [Sink.put]

theorem tdiv_sign {σ a b : Int} (hσ : σ = 1 ∨ σ = -1) (ha : 0 ≤ a) : (σ * a).tdiv b = σ * (a / b) := by
  rcases hσ with rfl | rfl
  · simp [Int.tdiv_eq_ediv_of_nonneg ha]
  · rw [Int.neg_mul, Int.one_mul, Int.neg_tdiv, Int.tdiv_eq_ediv_of_nonneg ha]; omega

theorem tmod_sign {σ a b : Int} (hσ : σ = 1 ∨ σ = -1) (ha : 0 ≤ a) : (σ * a).tmod b = σ * (a % b) := by
  rcases hσ with rfl | rfl
  · simp [Int.tmod_eq_emod_of_nonneg ha]
  · rw [Int.neg_mul, Int.one_mul, Int.neg_tmod, Int.tmod_eq_emod_of_nonneg ha]; omega

/-- The fractions and types for which intervals are written correctly. -/
def TimeOk (ty : IntTy) (fr : Int) : Prop :=
  fr = 1 ∨ (fr = 1000 ∧ ty = .long) ∨ (fr = 1000000 ∧ 32 ≤ ty.bits)

/-- The parts before they are filtered. -/
def timeAll (fr w : Int) : List (Int × TimeUnit) :=
  [(w / fr / 86400, .d), (w / fr / 3600 % 24, .h), (w / fr / 60 % 60, .m), (w / fr % 60, .s),
    (w % fr * 1000 / fr, .ms), (w % fr * 1000000 / fr % 1000, .mks)]

theorem emod_le_self {w f : Int} (hw : 0 ≤ w) (hf : 1 ≤ f) : w % f ≤ w := by
  have h1 := Int.emod_add_mul_ediv w f
  have h2 := Int.mul_nonneg (Int.le_trans (by decide) hf) (Int.ediv_nonneg hw (Int.le_trans (by decide) hf))
  omega

theorem ediv_le_self {w f : Int} (hw : 0 ≤ w) : w / f ≤ w := Int.ediv_le_self _ hw

theorem timeTail_zero (c : Cfg) {ty : IntTy} (hs : ty.Std) {fr σ w : Int} (hσ : σ = 1 ∨ σ = -1) (hw : 0 ≤ w)
    (hv : ty.InRange (σ * w)) (hf : 1 ≤ fr) (hd : w % fr = 0) (k : Sink) :
    timeTail c ty fr (σ * w) k = .ok k := by
  have hb : ty.InRange ((σ * w).tdiv fr) := IntTy.inRange_between hs hv (tdiv_between _ (by omega))
  unfold timeTail cmod cdiv
  rw [if_neg (by omega), cop_ok c hs hb]
  simp [tmod_sign hσ hw, hd]

theorem timeTail_back (c : Cfg) {ty : IntTy} (hs : ty.Std) {fr w : Int} (hok : TimeOk ty fr) (hw : 0 ≤ w)
    (hv : ty.InRange w) (m : Bytes) :
    timeTail c ty fr w ⟨m, .back⟩ =
      .ok ⟨m ++ timePiece (w % fr * 1000 / fr) b!"ms" ++ timePiece (w % fr * 1000000 / fr % 1000) b!"mks", .back⟩ := by
  have hf : 1 ≤ fr := by rcases hok with rfl | ⟨rfl, _⟩ | ⟨rfl, _⟩ <;> decide
  by_cases hd : w % fr = 0
  · have := timeTail_zero c hs (σ := 1) (.inl rfl) hw (by simpa using hv) hf hd ⟨m, .back⟩
    simp only [Int.one_mul] at this
    rw [this, hd]
    simp [timePiece]
  · have hR : ty.InRange (w % fr) :=
      IntTy.inRange_between hs hv (.inl ⟨Int.emod_nonneg _ (by omega), emod_le_self hw hf⟩)
    have hb : ty.InRange (w.tdiv fr) := IntTy.inRange_between hs hv (tdiv_between _ (by omega))
    unfold timeTail cmod
    simp only [cdiv]
    rw [if_neg (by omega), cop_ok c hs hb]
    simp only [Out.bind_ok, Int.tmod_eq_emod_of_nonneg hw, if_pos hd, IntTy.wrap_of_inRange hs hR]
    have h1 : 0 ≤ w % fr := Int.emod_nonneg _ (by omega)
    have h2 : w % fr < fr := Int.emod_lt_of_pos _ (by omega)
    generalize w % fr = R at *
    rcases hok with rfl | ⟨rfl, rfl⟩ | ⟨rfl, hbits⟩
    · omega
    · have e1 : IntTy.long.InRange R := by simp [IntTy.InRange, IntTy.min, IntTy.max, IntTy.long]; omega
      rw [cop_ok c hs (show IntTy.long.InRange (R * 1000) by simp [IntTy.InRange, IntTy.min, IntTy.max, IntTy.long]; omega)]
      simp only [Out.bind_ok, if_neg (show ¬ (1000 : Int) = 0 by decide)]
      rw [show (R * 1000).tdiv 1000 = R by rw [Int.tdiv_eq_ediv_of_nonneg (by omega)]; omega, cop_ok c hs e1]
      simp only [Out.bind_ok, IntTy.wrap_of_inRange hs e1]
      have e2 : IntTy.long.InRange (R - R * 1000) := by simp [IntTy.InRange, IntTy.min, IntTy.max, IntTy.long]; omega
      have e3 : IntTy.long.InRange ((R - R * 1000) * 1000000) := by
        simp [IntTy.InRange, IntTy.min, IntTy.max, IntTy.long]; omega
      rw [cop_ok c hs (show IntTy.long.InRange (R * 1000) by simp [IntTy.InRange, IntTy.min, IntTy.max, IntTy.long]; omega)]
      simp only [Out.bind_ok]
      rw [cop_ok c hs e2]
      simp only [Out.bind_ok, IntTy.wrap_of_inRange hs e2]
      rw [cop_ok c hs e3]
      have e4 : ((R - R * 1000) * 1000000).tdiv 1000 ≤ 0 := by
        rw [show (R - R * 1000) * 1000000 = -((R * 1000 - R) * 1000000) by omega, Int.neg_tdiv]
        have := Int.tdiv_nonneg (a := (R * 1000 - R) * 1000000) (b := 1000) (by omega) (by decide)
        omega
      have e5 := IntTy.inRange_between hs e3 (tdiv_between _ (d := 1000) (by decide))
      simp only [Out.bind_ok]
      rw [cop_ok c hs e5]
      simp only [Out.bind_ok, IntTy.wrap_of_inRange hs e5]
      rw [if_pos (by omega), timeWriteIf_back hs e1]
      simp only [Out.bind_ok, Sink.put, if_neg (show ¬ ((R - R * 1000) * 1000000).tdiv 1000 > 0 by omega)]
      rw [show R * 1000 / 1000 = R by omega, show R * 1000000 / 1000 % 1000 = 0 by omega]
      simp [timePiece, hd]
    · have hb31 : ∀ x : Int, 0 ≤ x → x ≤ 2147483647 → ty.promo.InRange x := by
        intro x hx0 hx1
        obtain ⟨bits, sg⟩ := ty
        simp only [IntTy.Std] at hs
        simp only at hbits
        simp only [IntTy.InRange, IntTy.min, IntTy.max, IntTy.promo]
        rcases hs with rfl | rfl | rfl | rfl <;> cases sg <;> simp at hbits ⊢ <;> omega
      have hbt : ∀ x : Int, 0 ≤ x → x ≤ 2147483647 → ty.InRange x := by
        intro x hx0 hx1
        obtain ⟨bits, sg⟩ := ty
        simp only [IntTy.Std] at hs
        simp only at hbits
        simp only [IntTy.InRange, IntTy.min, IntTy.max]
        rcases hs with rfl | rfl | rfl | rfl <;> cases sg <;> simp at hbits ⊢ <;> omega
      have c1 : ∀ x : Int, 0 ≤ x → x ≤ 2147483647 → cop c ty x = .ok x := fun x h0 h1 => cop_promo c hs (hb31 x h0 h1)
      have w1 : ∀ x : Int, 0 ≤ x → x ≤ 2147483647 → ty.wrap x = x := fun x h0 h1 => IntTy.wrap_of_inRange hs (hbt x h0 h1)
      rw [c1 (R * 1000) (by omega) (by omega)]
      simp only [Out.bind_ok, if_neg (show ¬ (1000000 : Int) = 0 by decide)]
      rw [show (R * 1000).tdiv 1000000 = R / 1000 by rw [Int.tdiv_eq_ediv_of_nonneg (by omega)]; omega,
        c1 (R / 1000) (by omega) (by omega)]
      simp only [Out.bind_ok, w1 (R / 1000) (by omega) (by omega)]
      rw [c1 (R / 1000 * 1000) (by omega) (by omega)]
      simp only [Out.bind_ok]
      rw [show R - R / 1000 * 1000 = R % 1000 by omega, c1 (R % 1000) (by omega) (by omega)]
      simp only [Out.bind_ok, w1 (R % 1000) (by omega) (by omega)]
      rw [c1 (R % 1000 * 1000000) (by omega) (by omega)]
      simp only [Out.bind_ok]
      rw [show (R % 1000 * 1000000).tdiv 1000000 = R % 1000 by
            rw [Int.tdiv_eq_ediv_of_nonneg (by omega)]; omega, c1 (R % 1000) (by omega) (by omega)]
      simp only [Out.bind_ok, w1 (R % 1000) (by omega) (by omega)]
      rw [show R * 1000 / 1000000 = R / 1000 by omega, show R * 1000000 / 1000000 % 1000 = R % 1000 by omega]
      have k1 : (if R / 1000 > 0 then timeWriteIf ty (R / 1000) c%'m' ⟨m, .back⟩ >>= fun k => k.put c%'s'
          else .ok ⟨m, .back⟩) = .ok ⟨m ++ timePiece (R / 1000) b!"ms", .back⟩ := by
        by_cases h : R / 1000 > 0
        · rw [if_pos h, timeWriteIf_back hs (hbt _ (by omega) (by omega))]
          simp [Sink.put, timePiece, show ¬ R / 1000 = 0 by omega]
        · rw [if_neg h]; simp [timePiece, show R / 1000 = 0 by omega]
      rw [k1, Out.bind_ok]
      by_cases h : R % 1000 > 0
      · rw [if_pos h, timeWriteIf_back hs (hbt _ (by omega) (by omega))]
        simp [Sink.put, timePiece, show ¬ R % 1000 = 0 by omega]
      · rw [if_neg h]; simp [timePiece, show R % 1000 = 0 by omega]

/-- What is written for `σ * w`. -/
def timeBody (fr σ w : Int) : Bytes :=
  timePiece (σ * (w / fr / 86400)) b!"d" ++ timePiece (σ * (w / fr / 3600 % 24)) b!"h" ++
  timePiece (σ * (w / fr / 60 % 60)) b!"m" ++ timePiece (σ * (w / fr % 60)) b!"s" ++
  timePiece (σ * (w % fr * 1000 / fr)) b!"ms" ++ timePiece (σ * (w % fr * 1000000 / fr % 1000)) b!"mks"

theorem emitTime_back (c : Cfg) {ty : IntTy} (hs : ty.Std) {fr σ w : Int} (hok : TimeOk ty fr)
    (hσ : σ = 1 ∨ (σ = -1 ∧ w % fr = 0)) (hw : 0 ≤ w) (hv : ty.InRange (σ * w)) (m : Bytes) :
    emitTime c ty fr (σ * w) ⟨m, .back⟩ = .ok ⟨m ++ c%'"' :: timeBody fr σ w ++ b!"\"", .back⟩ := by
  have hf : 1 ≤ fr := by rcases hok with rfl | ⟨rfl, _⟩ | ⟨rfl, _⟩ <;> decide
  have hσ' : σ = 1 ∨ σ = -1 := by rcases hσ with h | ⟨h, _⟩ <;> simp [h]
  have key : ∀ x : Int, 0 ≤ x → x ≤ w → ty.InRange (σ * x) := by
    intro x h0 h1
    refine IntTy.inRange_between hs hv ?_
    rcases hσ' with rfl | rfl <;> omega
  have c1 : ∀ x : Int, 0 ≤ x → x ≤ w → cop c ty (σ * x) = .ok (σ * x) := fun x h0 h1 => cop_ok c hs (key x h0 h1)
  have w1 : ∀ x : Int, 0 ≤ x → x ≤ w → ty.wrap (σ * x) = σ * x := fun x h0 h1 => IntTy.wrap_of_inRange hs (key x h0 h1)
  have hS0 : 0 ≤ w / fr := Int.ediv_nonneg hw (by omega)
  have hS1 : w / fr ≤ w := Int.ediv_le_self _ hw
  unfold emitTime
  simp only [cdiv, cmod, if_neg (show ¬ fr = 0 by omega), tdiv_sign hσ' hw]
  rw [c1 _ hS0 hS1]
  simp only [Out.bind_ok, w1 _ hS0 hS1, Sink.put]
  generalize hS : w / fr = S at *
  simp only [if_neg (show ¬ (86400 : Int) = 0 by decide), if_neg (show ¬ (3600 : Int) = 0 by decide),
    if_neg (show ¬ (60 : Int) = 0 by decide), tdiv_sign hσ' hS0, tmod_sign hσ' hS0]
  rw [c1 (S / 86400) (by omega) (by omega)]
  simp only [Out.bind_ok, w1 (S / 86400) (by omega) (by omega)]
  rw [timeWriteIf_back hs (key (S / 86400) (by omega) (by omega))]
  simp only [Out.bind_ok, Int.mul_assoc]
  rw [c1 (S / 86400 * 86400) (by omega) (by omega)]
  simp only [Out.bind_ok, ← Int.mul_sub]
  rw [c1 (S - S / 86400 * 86400) (by omega) (by omega)]
  simp only [Out.bind_ok, tdiv_sign hσ' (show 0 ≤ S - S / 86400 * 86400 by omega)]
  rw [show (S - S / 86400 * 86400) / 3600 = S / 3600 % 24 by omega]
  rw [c1 (S / 3600 % 24) (by omega) (by omega)]
  simp only [Out.bind_ok, w1 (S / 3600 % 24) (by omega) (by omega)]
  rw [timeWriteIf_back hs (key (S / 3600 % 24) (by omega) (by omega))]
  simp only [Out.bind_ok, Int.mul_assoc]
  rw [c1 (S / 3600 % 24 * 3600) (by omega) (by omega)]
  simp only [Out.bind_ok, ← Int.mul_sub]
  rw [c1 (S - S / 3600 % 24 * 3600) (by omega) (by omega)]
  simp only [Out.bind_ok, ← Int.mul_sub]
  rw [c1 (S - S / 3600 % 24 * 3600 - S / 86400 * 86400) (by omega) (by omega)]
  simp only [Out.bind_ok, tdiv_sign hσ' (show 0 ≤ S - S / 3600 % 24 * 3600 - S / 86400 * 86400 by omega)]
  rw [show (S - S / 3600 % 24 * 3600 - S / 86400 * 86400) / 60 = S / 60 % 60 by omega]
  rw [c1 (S / 60 % 60) (by omega) (by omega)]
  simp only [Out.bind_ok, w1 (S / 60 % 60) (by omega) (by omega)]
  rw [timeWriteIf_back hs (key (S / 60 % 60) (by omega) (by omega))]
  simp only [Out.bind_ok]
  rw [c1 (S / 60) (by omega) (by omega)]
  simp only [Out.bind_ok, w1 (S % 60) (by omega) (by omega)]
  rw [timeWriteIf_back hs (key (S % 60) (by omega) (by omega))]
  simp only [Out.bind_ok]
  rcases hσ with rfl | ⟨rfl, hd⟩
  · rw [Int.one_mul] at hv ⊢
    rw [timeTail_back c hs hok hw hv]
    simp [timeBody, hS]
  · rw [timeTail_zero c hs (.inr rfl) hw hv hf hd]
    simp [timeBody, hS, hd, timePiece]

theorem timeText_filter : ∀ l : List (Int × TimeUnit),
    TimeText (l.filter fun p => p.1 ≠ 0) (l.flatMap fun p => timePiece p.1 p.2.text)
  | [] => .nil
  | (n, u) :: l => by
    have ih := timeText_filter l
    by_cases h : n = 0
    · simpa [h, timePiece] using ih
    · have := TimeText.cons (u := u) (intText_decimal n) ih
      simpa [h, timePiece] using this


theorem TimeFits.filter {ty : IntTy} {fr : Int} : ∀ {l : List (Int × TimeUnit)} {v : Int}, TimeFits ty fr v l →
    TimeFits ty fr v (l.filter fun p => p.1 ≠ 0)
  | [], _, _ => trivial
  | (n, u) :: l, v, ⟨h1, h2, h3, h4, h5⟩ => by
    have ih := TimeFits.filter h5
    by_cases h : n = 0
    · subst h
      have h0 : v + u.ticks fr 0 = v := by simp [TimeUnit.ticks]
      rw [h0] at ih
      simpa using ih
    · rw [List.filter_cons_of_pos (by simpa using h)]
      exact ⟨h1, h2, h3, h4, ih⟩

theorem timeTotal_filter (fr : Int) : ∀ l : List (Int × TimeUnit),
    timeTotal fr (l.filter fun p => p.1 ≠ 0) = timeTotal fr l
  | [] => rfl
  | (n, u) :: l => by
    have ih := timeTotal_filter fr l
    by_cases h : n = 0
    · subst h
      have h0 : u.ticks fr 0 = 0 := by simp [TimeUnit.ticks]
      simpa [timeTotal, h0] using ih
    · rw [List.filter_cons_of_pos (by simpa using h)]
      simp only [timeTotal, ih]

theorem IntTy.Std.bounds {ty : IntTy} (hs : ty.Std) : (ty.min = -ty.max - 1 ∨ ty.min = 0) ∧ 127 ≤ ty.max := by
  obtain ⟨bits, sg⟩ := ty
  simp only [IntTy.Std] at hs
  simp only [IntTy.min, IntTy.max]
  rcases hs with rfl | rfl | rfl | rfl <;> cases sg <;> simp

theorem timeFits_all {ty : IntTy} (hs : ty.Std) {fr σ w : Int} (hok : TimeOk ty fr)
    (hσ : σ = 1 ∨ (σ = -1 ∧ w % fr = 0)) (hw : 0 ≤ w) (hv : ty.InRange (σ * w)) :
    TimeFits ty fr 0 ((timeAll fr w).map fun p => (σ * p.1, p.2)) ∧
    timeTotal fr ((timeAll fr w).map fun p => (σ * p.1, p.2)) = σ * w := by
  have key : ∀ x : Int, (0 ≤ x ∧ x ≤ w) → ty.InRange (σ * x) := by
    intro x h
    refine IntTy.inRange_between hs hv ?_
    rcases hσ with rfl | ⟨rfl, _⟩ <;> omega
  have keymin : ∀ x : Int, (0 ≤ x ∧ x ≤ w) → (x ≤ 127 ∨ x < w ∨ σ = 1) → -ty.max ≤ σ * x := by
    intro x h h'
    have hb := hs.bounds
    simp only [IntTy.InRange] at hv
    rcases hσ with rfl | ⟨rfl, _⟩ <;> omega
  have tick : ∀ (u : TimeUnit) (x y : Int), 0 ≤ x * u.scale * fr → y = x * u.scale * fr / u.perSecond →
      u.ticks fr (σ * x) = σ * y := by
    intro u x y h0 hy
    unfold TimeUnit.ticks
    rw [show σ * x * u.scale * fr = σ * (x * u.scale * fr) by simp only [Int.mul_assoc],
      tdiv_sign (by rcases hσ with h | ⟨h, _⟩ <;> simp [h]) h0, hy]
  have big : ∀ (u : TimeUnit) (x : Int), ty.InRange (σ * (x * u.scale * fr)) → ty.InRange (σ * x * u.scale * fr) := by
    intro u x h
    rwa [show σ * x * u.scale * fr = σ * (x * u.scale * fr) by simp only [Int.mul_assoc]]
  have hsub : 32 ≤ ty.bits → ∀ x : Int, 0 ≤ x → x ≤ 2147483647 → ty.InRange x := by
    intro hbits x hx0 hx1
    obtain ⟨bits, sg⟩ := ty
    simp only [IntTy.Std] at hs
    simp only at hbits
    simp only [IntTy.InRange, IntTy.min, IntTy.max]
    rcases hs with rfl | rfl | rfl | rfl <;> cases sg <;> simp at hbits ⊢ <;> omega
  simp only [timeAll, List.map_cons, List.map_nil, TimeFits, timeTotal]
  rcases hok with rfl | ⟨rfl, rfl⟩ | ⟨rfl, hbits⟩
  · have t1 := tick .d (w / 86400) (w / 86400 * 86400) (by simp [TimeUnit.scale]; omega)
      (by simp [TimeUnit.scale, TimeUnit.perSecond])
    have t2 := tick .h (w / 3600 % 24) (w / 3600 % 24 * 3600) (by simp [TimeUnit.scale]; omega)
      (by simp [TimeUnit.scale, TimeUnit.perSecond])
    have t3 := tick .m (w / 60 % 60) (w / 60 % 60 * 60) (by simp [TimeUnit.scale]; omega)
      (by simp [TimeUnit.scale, TimeUnit.perSecond])
    have t4 := tick .s (w % 60) (w % 60) (by simp [TimeUnit.scale]; omega)
      (by simp [TimeUnit.scale, TimeUnit.perSecond])
    have t5 := tick .ms 0 0 (by simp) (by simp)
    have t6 := tick .mks 0 0 (by simp) (by simp)
    simp only [Int.ediv_one, Int.emod_one, Int.zero_mul, Int.zero_emod, t1, t2, t3, t4, t5, t6, Int.zero_add,
      Int.add_zero, ← Int.mul_add]
    refine ⟨⟨key _ ⟨by omega, by omega⟩, keymin _ ⟨by omega, by omega⟩ (by omega), big _ _ (key _ ?_), key _ ?_,
      key _ ⟨by omega, by omega⟩, keymin _ ⟨by omega, by omega⟩ (by omega), big _ _ (key _ ?_), key _ ?_,
      key _ ⟨by omega, by omega⟩, keymin _ ⟨by omega, by omega⟩ (by omega), big _ _ (key _ ?_), key _ ?_,
      key _ ⟨by omega, by omega⟩, keymin _ ⟨by omega, by omega⟩ (by omega), big _ _ (key _ ?_), key _ ?_,
      key _ ⟨by omega, by omega⟩, keymin _ ⟨by omega, by omega⟩ (by omega), big _ _ (key _ ?_), key _ ?_,
      key _ ⟨by omega, by omega⟩, keymin _ ⟨by omega, by omega⟩ (by omega), big _ _ (key _ ?_), key _ ?_,
      trivial⟩, ?_⟩
    all_goals try simp only [TimeUnit.scale]
    all_goals try constructor
    all_goals try omega
    congr 1
    omega
  · have hsmall : ∀ x : Int, 0 ≤ x → x ≤ 2147483647 → (w % 1000 = 0 → x = 0) → IntTy.long.InRange (σ * x) := by
      intro x h0 h1 h2
      rcases hσ with rfl | ⟨rfl, hd⟩
      · rw [Int.one_mul]; exact hsub (by decide) x h0 h1
      · rw [h2 hd]; exact Std.zero_inRange hs
    have q5 : w % 1000 * 1000 / 1000 = w % 1000 := by omega
    have q6 : w % 1000 * 1000000 / 1000 % 1000 = 0 := by omega
    have t1 := tick .d (w / 1000 / 86400) (w / 1000 / 86400 * (86400 * 1000)) (by simp [TimeUnit.scale]; omega)
      (by simp [TimeUnit.scale, TimeUnit.perSecond]; omega)
    have t2 := tick .h (w / 1000 / 3600 % 24) (w / 1000 / 3600 % 24 * (3600 * 1000)) (by simp [TimeUnit.scale]; omega)
      (by simp [TimeUnit.scale, TimeUnit.perSecond]; omega)
    have t3 := tick .m (w / 1000 / 60 % 60) (w / 1000 / 60 % 60 * (60 * 1000)) (by simp [TimeUnit.scale]; omega)
      (by simp [TimeUnit.scale, TimeUnit.perSecond]; omega)
    have t4 := tick .s (w / 1000 % 60) (w / 1000 % 60 * 1000) (by simp [TimeUnit.scale]; omega)
      (by simp [TimeUnit.scale, TimeUnit.perSecond])
    have t5 := tick .ms (w % 1000) (w % 1000) (by simp [TimeUnit.scale]; omega) (by simp [TimeUnit.scale, TimeUnit.perSecond])
    have t6 := tick .mks (0) (0) (by simp [TimeUnit.scale] <;> omega) (by simp [TimeUnit.scale, TimeUnit.perSecond])
    rw [q5, q6]
    simp only [t1, t2, t3, t4, t5, t6, Int.zero_add, Int.add_zero, ← Int.mul_add]
    refine ⟨⟨key _ ⟨by omega, by omega⟩, keymin _ ⟨by omega, by omega⟩ (by omega), big _ _ (key _ ?_), key _ ?_,
      key _ ⟨by omega, by omega⟩, keymin _ ⟨by omega, by omega⟩ (by omega), big _ _ (key _ ?_), key _ ?_,
      key _ ⟨by omega, by omega⟩, keymin _ ⟨by omega, by omega⟩ (by omega), big _ _ (key _ ?_), key _ ?_,
      key _ ⟨by omega, by omega⟩, keymin _ ⟨by omega, by omega⟩ (by omega), big _ _ (key _ ?_), key _ ?_,
      key _ ⟨by omega, by omega⟩, keymin _ ⟨by omega, by omega⟩ (by omega), big _ _ (hsmall _ ?_ ?_ ?_), key _ ?_,
      key _ ⟨by omega, by omega⟩, keymin _ ⟨by omega, by omega⟩ (by omega), big _ _ (hsmall _ ?_ ?_ ?_), key _ ?_,
      trivial⟩, ?_⟩
    all_goals try simp only [TimeUnit.scale]
    all_goals try constructor
    all_goals try omega
    congr 1
    omega
  · have hsmall : ∀ x : Int, 0 ≤ x → x ≤ 2147483647 → (w % 1000000 = 0 → x = 0) → ty.InRange (σ * x) := by
      intro x h0 h1 h2
      rcases hσ with rfl | ⟨rfl, hd⟩
      · rw [Int.one_mul]; exact hsub (by exact hbits) x h0 h1
      · rw [h2 hd]; exact Std.zero_inRange hs
    have q5 : w % 1000000 * 1000 / 1000000 = w % 1000000 / 1000 := by omega
    have q6 : w % 1000000 * 1000000 / 1000000 % 1000 = w % 1000 := by omega
    have t1 := tick .d (w / 1000000 / 86400) (w / 1000000 / 86400 * (86400 * 1000000)) (by simp [TimeUnit.scale]; omega)
      (by simp [TimeUnit.scale, TimeUnit.perSecond]; omega)
    have t2 := tick .h (w / 1000000 / 3600 % 24) (w / 1000000 / 3600 % 24 * (3600 * 1000000)) (by simp [TimeUnit.scale]; omega)
      (by simp [TimeUnit.scale, TimeUnit.perSecond]; omega)
    have t3 := tick .m (w / 1000000 / 60 % 60) (w / 1000000 / 60 % 60 * (60 * 1000000)) (by simp [TimeUnit.scale]; omega)
      (by simp [TimeUnit.scale, TimeUnit.perSecond]; omega)
    have t4 := tick .s (w / 1000000 % 60) (w / 1000000 % 60 * 1000000) (by simp [TimeUnit.scale]; omega)
      (by simp [TimeUnit.scale, TimeUnit.perSecond])
    have t5 := tick .ms (w % 1000000 / 1000) (w % 1000000 / 1000 * 1000) (by simp [TimeUnit.scale]; omega) (by simp [TimeUnit.scale, TimeUnit.perSecond]; omega)
    have t6 := tick .mks (w % 1000) (w % 1000) (by simp [TimeUnit.scale] <;> omega) (by simp [TimeUnit.scale, TimeUnit.perSecond])
    rw [q5, q6]
    simp only [t1, t2, t3, t4, t5, t6, Int.zero_add, Int.add_zero, ← Int.mul_add]
    refine ⟨⟨key _ ⟨by omega, by omega⟩, keymin _ ⟨by omega, by omega⟩ (by omega), big _ _ (key _ ?_), key _ ?_,
      key _ ⟨by omega, by omega⟩, keymin _ ⟨by omega, by omega⟩ (by omega), big _ _ (key _ ?_), key _ ?_,
      key _ ⟨by omega, by omega⟩, keymin _ ⟨by omega, by omega⟩ (by omega), big _ _ (key _ ?_), key _ ?_,
      key _ ⟨by omega, by omega⟩, keymin _ ⟨by omega, by omega⟩ (by omega), big _ _ (key _ ?_), key _ ?_,
      key _ ⟨by omega, by omega⟩, keymin _ ⟨by omega, by omega⟩ (by omega), big _ _ (hsmall _ ?_ ?_ ?_), key _ ?_,
      key _ ⟨by omega, by omega⟩, keymin _ ⟨by omega, by omega⟩ (by omega), big _ _ (hsmall _ ?_ ?_ ?_), key _ ?_,
      trivial⟩, ?_⟩
    all_goals try simp only [TimeUnit.scale]
    all_goals try constructor
    all_goals try omega
    congr 1
    omega

/-- Writing `σ * w` and what the text says. -/
theorem emitTime_text (c : Cfg) {ty : IntTy} (hs : ty.Std) {fr σ w : Int} (hok : TimeOk ty fr)
    (hσ : σ = 1 ∨ (σ = -1 ∧ w % fr = 0)) (hw : 0 ≤ w) (hv : ty.InRange (σ * w)) :
    ∃ t, (∀ m, emitTime c ty fr (σ * w) ⟨m, .back⟩ = .ok ⟨m ++ c%'"' :: t ++ b!"\"", .back⟩) ∧
      TimeText ((timeParts fr w).map fun p => (σ * p.1, p.2)) t ∧
      Reads (deTime c ty fr) (c%'"' :: t ++ b!"\"") (σ * w) := by
  have hf : 1 ≤ fr := by rcases hok with rfl | ⟨rfl, _⟩ | ⟨rfl, _⟩ <;> decide
  have hparts : ((timeParts fr w).map fun p => (σ * p.1, p.2)) =
      ((timeAll fr w).map fun p => (σ * p.1, p.2)).filter fun p => p.1 ≠ 0 := by
    rw [List.filter_map]
    unfold timeParts timeAll
    congr 1
    apply List.filter_congr
    rintro ⟨a, u⟩ _
    rcases hσ with rfl | ⟨rfl, _⟩ <;> simp
  have hbody : timeBody fr σ w = ((timeAll fr w).map fun p => (σ * p.1, p.2)).flatMap fun p => timePiece p.1 p.2.text := by
    simp [timeBody, timeAll, TimeUnit.text]
  have htext : TimeText ((timeParts fr w).map fun p => (σ * p.1, p.2)) (timeBody fr σ w) := by
    rw [hparts, hbody]; exact timeText_filter _
  obtain ⟨h1, h2⟩ := timeFits_all hs hok hσ hw hv
  refine ⟨timeBody fr σ w, fun m => by simpa using emitTime_back c hs hok hσ hw hv m, htext, ?_⟩
  have := deTime_reads c hs hf htext (by rw [hparts]; exact h1.filter)
  rwa [hparts, timeTotal_filter, h2] at this

/-! ### Safety -/

theorem arith_wrapv {c : Cfg} (hw : c.wrapv = true) (ty : IntTy) (x : Int) : ∃ y, ty.arith c x = .ok y := by
  unfold IntTy.arith
  split
  · exact ⟨_, rfl⟩
  · split
    · exact ⟨_, rfl⟩
    · simp

theorem timeAdd_cases (c : Cfg) (ty : IntTy) (fr v n m : Int) :
    (∃ x, timeAdd c ty fr v n m = .ok x) ∨ (timeAdd c ty fr v n m = .ub ∧ c.wrapv = false) := by
  cases hw : c.wrapv with
  | true =>
    left
    unfold timeAdd cop
    obtain ⟨a, ha⟩ := arith_wrapv hw ty.promo (n * m)
    rw [ha, Out.bind_ok]
    obtain ⟨a, ha⟩ := arith_wrapv hw ty.promo (a * fr)
    rw [ha, Out.bind_ok]
    obtain ⟨a, ha⟩ := arith_wrapv hw ty.promo (v + a)
    rw [ha]; exact ⟨_, rfl⟩
  | false =>
    unfold timeAdd cop
    have key : ∀ x, ty.promo.arith c x = .ub ∨ ∃ y, ty.promo.arith c x = .ok y := by
      intro x
      unfold IntTy.arith
      repeat' split
      all_goals simp
    rcases key (n * m) with h | ⟨a, h⟩ <;> rw [h]
    · simp
    · rw [Out.bind_ok]
      rcases key (a * fr) with h | ⟨a, h⟩ <;> rw [h]
      · simp
      · rw [Out.bind_ok]
        rcases key (v + a) with h | ⟨a, h⟩ <;> rw [h] <;> simp

theorem timeAddSub_cases (c : Cfg) (ty : IntTy) (fr v n : Int) {d : Int} (hd : d ≠ 0) :
    (∃ x, timeAddSub c ty fr v n d = .ok x) ∨ (timeAddSub c ty fr v n d = .ub ∧ c.wrapv = false) := by
  unfold timeAddSub cop cdiv
  simp only [if_neg hd]
  cases hw : c.wrapv with
  | true =>
    left
    obtain ⟨a, ha⟩ := arith_wrapv hw ty.promo (n * fr)
    rw [ha, Out.bind_ok]
    unfold cop
    obtain ⟨a, ha⟩ := arith_wrapv hw ty.promo (a.tdiv d)
    rw [ha, Out.bind_ok]
    obtain ⟨a, ha⟩ := arith_wrapv hw ty.promo (v + a)
    rw [ha]; exact ⟨_, rfl⟩
  | false =>
    have key : ∀ x, ty.promo.arith c x = .ub ∨ ∃ y, ty.promo.arith c x = .ok y := by
      intro x
      unfold IntTy.arith
      repeat' split
      all_goals simp
    rcases key (n * fr) with h | ⟨a, h⟩ <;> rw [h]
    · simp
    · rw [Out.bind_ok]
      unfold cop
      rcases key (a.tdiv d) with h | ⟨a, h⟩ <;> rw [h]
      · simp
      · rw [Out.bind_ok]
        rcases key (v + a) with h | ⟨a, h⟩ <;> rw [h] <;> simp

/-- The loop is undefined only by signed overflow or when the text ends in `mk`. -/
theorem timeLoopF_safe (c : Cfg) (ty : IntTy) (fr : Int) : ∀ (n : Nat) (v : Int) (s : Bytes) (e : EPtr), s.length < n →
    SafeOut (c.wrapv = false ∨ b!"mk" <:+ s) s e (timeLoopF c ty fr n v s e) := by
  intro n
  induction n with
  | zero => intro v s e h; omega
  | succ n ih =>
    intro v s e hlen
    cases s with
    | nil => exact .err (by decide) (by omega) (by omega)
    | cons b t =>
      simp only [timeLoopF]
      refine .ite (fun _ => .ok (suffix_cons b t) (.refl _ e)) (fun _ => ?_)
      have step : ∀ (x : Out Int) (t' : Bytes) (e' : EPtr), t' <:+ b :: t → t'.length < (b :: t).length →
          EStep (b :: t).length e e' → ((∃ y, x = .ok y) ∨ (x = .ub ∧ c.wrapv = false)) →
          SafeOut (c.wrapv = false ∨ b!"mk" <:+ b :: t) (b :: t) e (x >>= fun v => timeLoopF c ty fr n v t' e') := by
        intro x t' e' h1 h2 h3 hx
        rcases hx with ⟨y, rfl⟩ | ⟨rfl, hw⟩
        · rw [Out.bind_ok]
          exact (ih y t' e' (by simp at hlen h2 ⊢; omega)).mono (fun h => h.imp id (fun h => h.trans h1)) h1 h3
        · exact .inl ⟨rfl, .inl hw⟩
      have hint := deInt_safe c ty 0 (b :: t) e
      rcases hint with ⟨h, hw⟩ | ⟨cur, p, e', h, hp, he⟩
      · rw [h]; exact .inl ⟨rfl, .inl hw⟩
      · rw [h, Out.bind_ok]
        simp only
        refine .ite (fun _ => .ok hp he) (fun _ => ?_)
        cases p with
        | nil => exact .ok hp he
        | cons u q =>
          simp only
          have hq : q <:+ b :: t := suffix_of_cons hp
          have hql : q.length < (b :: t).length := by have := hp.length_le; simp at this ⊢; omega
          refine .ite (fun _ => step _ _ _ hq hql he (timeAdd_cases ..)) (fun _ => ?_)
          refine .ite (fun _ => step _ _ _ hq hql he (timeAdd_cases ..)) (fun _ => ?_)
          refine .ite (fun hm => ?_) (fun _ => ?_)
          · subst hm
            cases q with
            | nil => exact step _ _ _ hq hql he (timeAdd_cases ..)
            | cons w q =>
              simp only
              have hq' : q <:+ b :: t := suffix_of_cons hq
              have hql' : q.length < (b :: t).length := by have := hq.length_le; simp at this ⊢; omega
              refine .ite (fun _ => step _ _ _ hq' hql' he (timeAddSub_cases _ _ _ _ _ (by decide))) (fun _ => ?_)
              refine .ite (fun hk => ?_) (fun _ => step _ _ _ hq hql he (timeAdd_cases ..))
              subst hk
              rcases timeAddSub_cases c ty fr v cur (d := 1000000) (by decide) with ⟨y, hy⟩ | ⟨hy, hw⟩
              · rw [hy, Out.bind_ok]
                cases q with
                | nil => exact .inl ⟨rfl, .inr hp⟩
                | cons z q =>
                  simp only
                  have hq'' : q <:+ b :: t := suffix_of_cons hq'
                  have hql'' : q.length < (b :: t).length := by have := hq'.length_le; simp at this ⊢; omega
                  exact step (.ok y) _ _ hq'' hql'' he (.inl ⟨y, rfl⟩)
              · rw [hy]; exact .inl ⟨rfl, .inl hw⟩
          · refine .ite (fun _ => step _ _ _ hq hql he (timeAddSub_cases _ _ _ _ _ (by decide))) (fun _ => ?_)
            exact step (.ok v) _ _ hq hql he (.inl ⟨v, rfl⟩)

theorem deTime_safe (c : Cfg) (ty : IntTy) (fr : Int) (v : Int) (s : Bytes) (e : EPtr) :
    SafeOut (c.wrapv = false ∨ b!"mk" <:+ s) s e (deTime c ty fr v s e) := by
  unfold deTime
  cases s with
  | nil => exact .err (by decide) (by omega) (by omega)
  | cons b t =>
    simp only
    refine .ite (fun _ => SafeOut.scan (parseNull_scan _) 0) (fun _ => ?_)
    refine .ite (fun _ => ?_) (fun _ => ?_)
    · exact (deInt_safe c ty 0 (b :: t) e).mono .inl (List.suffix_refl _) (.refl _ e)
    · refine .ite (fun _ => .err (by decide) (by omega) (by omega)) (fun _ => ?_)
      exact (timeLoopF_safe c ty fr (t.length + 1) 0 t e (by omega)).mono
        (fun h => h.imp id (fun h => h.trans (suffix_cons b t))) (suffix_cons b t) (.refl _ e)

/-- A text that ends in `mk` right after a number makes the reader leave the range. -/
theorem timeLoopF_overrun (c : Cfg) {ty : IntTy} (hs : ty.Std) (fr : Int) {k : Int} {t : Bytes} (hk : Decimal k t)
    (hv : ty.InRange k) (hmin : k ≠ ty.min ∨ ty.Modular c) {e : EPtr} (he : e.failed = false) (n : Nat) (v : Int) :
    timeLoopF c ty fr (n + 1) v (t ++ b!"mk") e = .ub := by
  have hne : ∃ b w, t = b :: w ∧ b ≠ c%'"' := by
    rcases TimeText.head (TimeText.cons (u := .s) hk .nil) with h | ⟨b, w, h, hb⟩
    · simp [TimeUnit.text] at h
    · cases t with
      | nil =>
        obtain ⟨i, hi, h⟩ := hk
        rcases h with ⟨_, rfl, _⟩ | ⟨_, h, _⟩
        · rcases hi with h | ⟨_, _, h, _⟩ <;> simp at h
        · simp at h
      | cons x y =>
        simp at h
        refine ⟨x, y, rfl, ?_⟩
        rw [h.1]
        rintro rfl
        rcases hb with hb | hb
        · unfold Digit at hb; revert hb; decide
        · revert hb; decide
  obtain ⟨b, w, rfl, hb⟩ := hne
  have hint := deInt_decimal c hs hv hmin hk (rest := b!"mk") (by intro b hb; simp at hb; subst hb; unfold Digit; decide) 0 e
  simp only [List.cons_append] at hint ⊢
  simp only [timeLoopF, if_neg hb, hint, Out.bind_ok, he]
  simp
  rcases timeAddSub_cases c ty fr v k (d := 1000000) (by decide) with ⟨y, hy⟩ | ⟨hy, hw⟩
  · rw [hy, Out.bind_ok]
  · rw [hy]; rfl

end Wjson
