import Verif.Spec.Stable
import Verif.Proofs.Ends
import Verif.Proofs.Nested
import Verif.Proofs.Containers
import Verif.Proofs.ExactUnits
/-
The invariant behind C66: reading keeps the values of a description good.
-/
namespace Wjson
open Spec

theorem CalmText.sub {s p : Bytes} (h : CalmText s) (hp : p <:+ s) : CalmText p :=
  ⟨fun b hb => h.1 b (hp.subset hb), fun hx => h.2 (hx.trans hp.isInfix)⟩

/-- Any text. -/
abbrev AnyText : Bytes → Prop := fun _ => True

/-- The rest of a text of the kind `pl`. -/
def TextOk (pl : Bytes → Prop) (s : Bytes) : Prop := s = [] ∨ ∃ u, s <:+ u ∧ pl u

theorem TextOk.sub {pl : Bytes → Prop} {s p : Bytes} (h : TextOk pl s) (hp : p <:+ s) : TextOk pl p := by
  rcases h with rfl | ⟨u, hu, h⟩
  · exact .inl (List.suffix_nil.mp hp)
  · exact .inr ⟨u, hp.trans hu, h⟩

theorem TextOk.nil (pl : Bytes → Prop) : TextOk pl [] := .inl rfl

theorem TextOk.of {pl : Bytes → Prop} {s : Bytes} (h : pl s) : TextOk pl s := .inr ⟨s, List.suffix_refl s, h⟩

theorem TextOk.calm {s : Bytes} (h : TextOk CalmText s) : CalmText s := by
  rcases h with rfl | ⟨u, hu, h⟩
  · exact ⟨by simp, by simp⟩
  · exact h.sub hu

theorem TextOk.tail {pl : Bytes → Prop} {b : Byte} {p : Bytes} (h : TextOk pl (b :: p)) : TextOk pl p := h.sub (suffix_cons b p)

theorem TextOk.scan {pl : Bytes → Prop} {s : Bytes} {e : EPtr} {g : EPtr → Bytes × EPtr} (h : TextOk pl s) (hg : ScanAt s g) :
    TextOk pl (g e).1 := h.sub (hg.suffix e)

theorem TextOk.space {pl : Bytes → Prop} {s : Bytes} {e : EPtr} (h : TextOk pl s) : TextOk pl (parseSpace s e).1 :=
  h.scan (parseSpace_scan s)

/-- Every defined outcome has a value in `P` and a text of the kind. -/
def OutK {α : Type} (pl : Bytes → Prop) (P : α → Prop) (o : Out (α × Bytes × EPtr)) : Prop :=
  ∀ v p e, o = .ok (v, p, e) → TextOk pl p ∧ P v

/-- Reading into a value in `P` leaves a value in `P`. -/
def Keeps {α : Type} (pl : Bytes → Prop) (P : α → Prop) (de : De α) : Prop :=
  ∀ v s e, TextOk pl s → P v → OutK pl P (de v s e)

section
variable {α β : Type} {pl : Bytes → Prop} {P : α → Prop} {Q : β → Prop}

theorem OutK.ok {v : α} {p : Bytes} {e : EPtr} (h : TextOk pl p) (hv : P v) : OutK pl P (.ok (v, p, e)) := by
  intro v' p' e' h'; cases h'; exact ⟨h, hv⟩

theorem OutK.nil {v : α} {e : EPtr} (hv : P v) : OutK pl P (.ok (v, [], e)) := .ok (.nil pl) hv

theorem OutK.ub : OutK pl P .ub := by intro v p e h; cases h

theorem OutK.fuel : OutK pl P .fuel := by intro v p e h; cases h

theorem OutK.bind {o : Out (α × Bytes × EPtr)} {f : α × Bytes × EPtr → Out (β × Bytes × EPtr)} (h : OutK pl P o)
    (hf : ∀ v p e, TextOk pl p → P v → OutK pl Q (f (v, p, e))) : OutK pl Q (o >>= f) := by
  cases o with
  | ok x => obtain ⟨v, p, e⟩ := x; exact hf v p e (h v p e rfl).1 (h v p e rfl).2
  | ub => exact .ub
  | fuel => exact .fuel

theorem OutK.skip {γ : Type} {o : Out γ} {f : γ → Out (α × Bytes × EPtr)} (hf : ∀ v, o = .ok v → OutK pl P (f v)) :
    OutK pl P (o >>= f) := by
  cases o with
  | ok x => exact hf x rfl
  | ub => exact .ub
  | fuel => exact .fuel

theorem OutK.ite {q : Prop} [Decidable q] {a b : Out (α × Bytes × EPtr)} (ha : q → OutK pl P a) (hb : ¬ q → OutK pl P b) :
    OutK pl P (if q then a else b) := by
  split
  · next h => exact ha h
  · next h => exact hb h

theorem OutK.null {s : Bytes} {e : EPtr} {v : α} (h : TextOk pl s) (hv : P v) :
    OutK pl P (.ok (v, (parseNull s e).1, (parseNull s e).2)) := .ok (h.scan (parseNull_scan s)) hv

theorem OutK.safe {U : Prop} {s : Bytes} {e : EPtr} {o : Out (α × Bytes × EPtr)} (h : TextOk pl s) (hs : SafeOut U s e o)
    (hv : ∀ v p e', o = .ok (v, p, e') → P v) : OutK pl P o := by
  intro v p e' ho
  refine ⟨?_, hv v p e' ho⟩
  rcases hs with ⟨h1, _⟩ | ⟨v1, p1, e1, h1, h2, _⟩
  · rw [h1] at ho; cases ho
  · rw [h1] at ho; cases ho; exact h.sub h2

theorem OutK.scanO {c : Cfg} {s : Bytes} {e : EPtr} {g : EPtr → Out (Bytes × EPtr)} {f : Bytes × EPtr → Out (α × Bytes × EPtr)}
    (h : TextOk pl s) (hg : ScanO c s g) (hf : ∀ p e', TextOk pl p → OutK pl P (f (p, e'))) : OutK pl P (g e >>= f) := by
  rcases hg with ⟨p, ev, h1, h2⟩ | ⟨h1, _⟩
  · rw [h1 e]; exact hf p _ (h.sub h2.suffix)
  · rw [h1 e]; exact .ub

theorem OutK.imp {P' : α → Prop} {o : Out (α × Bytes × EPtr)} (h : OutK pl P o) (hi : ∀ v, P v → P' v) : OutK pl P' o :=
  fun v p e ho => ⟨(h v p e ho).1, hi v (h v p e ho).2⟩

end

/-! ### Integers, Booleans, floating point numbers -/

theorem arith_inRange {c : Cfg} {ty : IntTy} (hs : ty.Std) {x y : Int} (h : ty.arith c x = .ok y) : ty.InRange y := by
  rcases (arith_iff hs).mp h with ⟨h1, rfl⟩ | ⟨_, h1⟩
  · exact h1
  · exact h1.1

theorem zero_inRange {ty : IntTy} (hs : ty.Std) : ty.InRange 0 := by
  obtain ⟨b, sg⟩ := ty
  rcases hs with h | h | h | h <;> simp only at h <;> subst h <;> cases sg <;> decide

theorem zero_ne_min {c : Cfg} {ty : IntTy} (hs : ty.Std) : (0 : Int) ≠ ty.min ∨ ty.Modular c := by
  obtain ⟨b, sg⟩ := ty
  cases sg with
  | false => exact .inr (.inr (.inl rfl))
  | true =>
    left
    rcases hs with h | h | h | h <;> simp only at h <;> subst h <;> decide

theorem accInt_nonneg {c : Cfg} {ty : IntTy} (hs : ty.Std) (hm : ¬ ty.Modular c) (v : Int) (s : Bytes) (r : Int × Bytes)
    (hv : 0 ≤ v ∧ v ≤ ty.max) (h : accInt c ty v s = .ok r) : 0 ≤ r.1 ∧ r.1 ≤ ty.max := by
  induction s generalizing v with
  | nil => simp only [accInt, Out.ok.injEq] at h; subst h; exact hv
  | cons b t ih =>
    simp only [accInt] at h
    split at h
    · next hd =>
      cases h1 : ty.arith c (v * 10) with
      | ok x =>
        rw [h1] at h
        simp only [Out.bind_ok] at h
        cases h2 : ty.arith c (x + (b.toNat - 48 : Int)) with
        | ok y =>
          rw [h2] at h
          simp only [Out.bind_ok] at h
          refine ih y ?_ h
          have hx : x = v * 10 := by
            rcases (arith_iff hs).mp h1 with ⟨_, h3⟩ | ⟨h3, _⟩
            · exact h3
            · exact absurd h3 hm
          have hy : ty.InRange y ∧ y = x + (b.toNat - 48 : Int) := by
            rcases (arith_iff hs).mp h2 with ⟨h4, h3⟩ | ⟨h3, _⟩
            · exact ⟨h3 ▸ h4, h3⟩
            · exact absurd h3 hm
          have hb : 48 ≤ b.toNat := by
            clear h2 hy h
            simp only [isDigit, Bool.and_eq_true, decide_eq_true_eq] at hd
            exact UInt8.le_iff_toNat_le.mp hd.1
          refine ⟨?_, hy.1.2⟩
          have := hv.1
          omega
        | ub => rw [h2] at h; cases h
        | fuel => rw [h2] at h; cases h
      | ub => rw [h1] at h; cases h
      | fuel => rw [h1] at h; cases h
    · simp only [Out.ok.injEq] at h; subst h; exact hv

theorem accInt_inRange {c : Cfg} {ty : IntTy} (hs : ty.Std) (v : Int) (s : Bytes) (r : Int × Bytes)
    (hv : ty.InRange v) (h : accInt c ty v s = .ok r) : ty.InRange r.1 := by
  induction s generalizing v with
  | nil => simp only [accInt, Out.ok.injEq] at h; subst h; exact hv
  | cons b t ih =>
    simp only [accInt] at h
    split at h
    · cases h1 : ty.arith c (v * 10) with
      | ok x =>
        rw [h1] at h
        simp only [Out.bind_ok] at h
        cases h2 : ty.arith c (x + (b.toNat - 48 : Int)) with
        | ok y => rw [h2] at h; exact ih y (arith_inRange hs h2) h
        | ub => rw [h2] at h; cases h
        | fuel => rw [h2] at h; cases h
      | ub => rw [h1] at h; cases h
      | fuel => rw [h1] at h; cases h
    · simp only [Out.ok.injEq] at h; subst h; exact hv

/-- The values of an integer type that come back. -/
abbrev IntKept (c : Cfg) (ty : IntTy) (v : Int) : Prop := ty.InRange v ∧ (v ≠ ty.min ∨ ty.Modular c)

theorem zero_kept {c : Cfg} {ty : IntTy} (hs : ty.Std) : IntKept c ty 0 := ⟨zero_inRange hs, zero_ne_min hs⟩

theorem deInt_keeps {c : Cfg} {ty : IntTy} (hs : ty.Std) (pl : Bytes → Prop) : Keeps pl (IntKept c ty) (deInt c ty) := by
  intro v s e ht hv
  refine .safe ht (deInt_safe c ty v s e) ?_
  intro v' p e' h
  unfold deInt at h
  split at h
  · cases h; exact zero_kept hs
  · unfold unserializeInteger at h
    cases s with
    | nil => cases h; exact hv
    | cons b t =>
      simp only at h
      generalize (if b = c%'-' then t else b :: t) = s at h
      cases s with
      | nil => cases h; exact zero_kept hs
      | cons b' t' =>
        simp only at h
        split at h
        · cases h; exact zero_kept hs
        · split at h
          · cases h; exact zero_kept hs
          · cases h1 : accInt c ty 0 (b' :: t') with
            | ok r =>
              rw [h1] at h
              simp only [Out.bind_ok] at h
              have hr := accInt_inRange hs 0 _ r (zero_inRange hs) h1
              by_cases hm : ty.Modular c
              · refine ⟨?_, .inr hm⟩
                split at h
                · cases h2 : ty.arith c (-r.1) with
                  | ok y => rw [h2] at h; cases h; exact arith_inRange hs h2
                  | ub => rw [h2] at h; cases h
                  | fuel => rw [h2] at h; cases h
                · cases h; exact hr
              · have h0 := accInt_nonneg hs hm 0 _ r ⟨Int.le_refl 0, (zero_inRange hs).2⟩ h1
                have hmin : ty.min = - ty.max - 1 ∧ 0 ≤ ty.max := by
                  have hsg : ty.signed = true := by
                    cases hq : ty.signed with
                    | true => rfl
                    | false => exact absurd (.inr (.inl hq)) hm
                  refine ⟨?_, (zero_inRange hs).2⟩
                  simp only [IntTy.min, IntTy.max, hsg, if_true]
                  omega
                split at h
                · cases h2 : ty.arith c (-r.1) with
                  | ok y =>
                    rw [h2] at h; cases h
                    refine ⟨arith_inRange hs h2, .inl ?_⟩
                    rcases (arith_iff hs).mp h2 with ⟨_, h3⟩ | ⟨h3, _⟩
                    · omega
                    · exact absurd h3 hm
                  | ub => rw [h2] at h; cases h
                  | fuel => rw [h2] at h; cases h
                · cases h
                  exact ⟨hr, .inl (by omega)⟩
            | ub => rw [h1] at h; cases h
            | fuel => rw [h1] at h; cases h

theorem keeps_true {α : Type} {U : Prop} {de : De α} (h : Safe U de) (pl : Bytes → Prop) : Keeps pl (fun _ => True) de :=
  fun v s e ht _ => .safe ht (h v s e) fun _ _ _ _ => trivial

/-! ### Strings -/

theorem plain_ok {v : Bytes} (h : ∀ b ∈ v, CalmByte b) (hlen : v.length ≤ 2147483647) : StrOk v := by
  refine ⟨?_, ?_, hlen⟩
  · rintro ⟨u, hu, ⟨b, n, ts, rfl, hl, hn, _⟩, h5⟩
    simp only [List.length_cons] at h5
    apply (h b (hu.subset (by simp))).2
    have h6 : n = 4 ∨ n = 5 := by rcases hl with h | h | h | h | h | h <;> omega
    rcases hl with h' | h' | h' | h' | h' | h'
    · omega
    · omega
    · omega
    · omega
    · have := h'.1; have := h'.2.1
      clear h hu hn h' h5 h6
      revert this; revert b; apply forall_byte; decide +kernel
    · have := h'.1; have := h'.2.1
      clear h hu hn h' h5 h6
      revert this; revert b; apply forall_byte; decide +kernel
  · induction v with
    | nil => rfl
    | cons b v ih =>
      have hb := (h b (by simp)).1
      rw [expand_cons, ih (fun b hb => h b (by simp [hb])) (by simp only [List.length_cons] at hlen; omega)]
      have : expandByte b = [b] := by
        unfold expandByte
        rw [if_neg]
        rintro ⟨h1, h2⟩
        rcases hb with hb | hb
        · clear h ih hlen h2
          revert h1 hb; revert b; apply forall_byte; decide +kernel
        · exact h2 hb
      rw [this]; rfl

theorem plain_ne_zero {b : Byte} (h : CalmByte b) : b ≠ 0 := by rintro rfl; revert h; decide

theorem plain_simple {x y : Byte} (hx : CalmByte x) (h : simpleEsc x = some y) : CalmByte y := by
  unfold simpleEsc at h
  repeat' split at h
  all_goals first | (cases h; assumption) | (cases h; decide) | cases h

theorem hexN_lt {k acc : Nat} {s : Bytes} {e : EPtr} {h : Nat} {p : Bytes} {e' : EPtr} {m : Nat} (ha : acc < 16 ^ m)
    (hh : hexN k acc s e = (some (h, p), e')) : h < 16 ^ (m + k) := by
  induction k generalizing acc s e m with
  | zero => simp only [hexN, Prod.mk.injEq, Option.some.injEq] at hh; simpa [← hh.1.1] using ha
  | succ k ih =>
    cases s with
    | nil => simp [hexN] at hh
    | cons b t =>
      simp only [hexN] at hh
      have := hexVal_lt b e
      have h1 : acc * 16 + (hexVal b e).1 < 16 ^ (m + 1) := by rw [Nat.pow_succ]; omega
      have := ih h1 hh
      rwa [show m + 1 + k = m + (k + 1) by omega] at this

theorem plain_two (hex : Nat) : CalmByte ((192 : UInt8) ||| UInt8.ofNat (hex >>> 6)) ∨ 0x7FF < hex := by
  by_cases h : 0x7FF < hex
  · exact .inr h
  · left
    have h1 : hex >>> 6 < 32 := by rw [Nat.shiftRight_eq_div_pow]; omega
    generalize hex >>> 6 = x at h1
    have : ∀ x : Nat, x < 32 → CalmByte ((192 : UInt8) ||| UInt8.ofNat x) := by decide +kernel
    exact this x h1

theorem plain_three {hex : Nat} (h : hex < 65536) : CalmByte ((224 : UInt8) ||| UInt8.ofNat (hex >>> 12)) := by
  have h1 : hex >>> 12 < 16 := by rw [Nat.shiftRight_eq_div_pow]; omega
  generalize hex >>> 12 = x at h1
  have : ∀ x : Nat, x < 16 → CalmByte ((224 : UInt8) ||| UInt8.ofNat x) := by decide +kernel
  exact this x h1

theorem plain_cont (x : UInt8) : CalmByte ((128 : UInt8) ||| (x &&& (63 : UInt8))) := by
  revert x; apply forall_byte; decide +kernel

theorem uhexStep_plain {s : Bytes} (n : Nat) (e : EPtr) (h : ∀ b ∈ s, CalmByte b) : ∀ y ∈ (uhexStep s n e).1, CalmByte y := by
  unfold uhexStep
  split
  · simp
  · split
    · simp
    · next hex p e' hh =>
      have hlt : hex < 65536 := by simpa using hexN_lt (m := 0) (by decide) hh
      simp only
      split
      · split
        · next hs => rcases hs with rfl | rfl | rfl | rfl | rfl <;>
            (intro y hy; simp only [List.mem_singleton] at hy; subst hy; decide)
        · intro y hy
          simp only at hy
          have := List.mem_of_mem_take hy
          simp only [List.mem_cons] at this
          rcases this with rfl | rfl | hy
          · decide
          · decide
          · exact h y (List.mem_of_mem_take hy)
      · split
        · next h32 h7f =>
          intro y hy
          simp only [List.mem_singleton] at hy
          subst hy
          have : ∀ x : Nat, x < 128 → ¬ x < 32 → CalmByte (UInt8.ofNat x) := by decide +kernel
          exact this hex (by omega) h32
        · split
          · next h7ff =>
            have h1 : CalmByte ((192 : UInt8) ||| UInt8.ofNat (hex >>> 6)) := (plain_two hex).resolve_right (by omega)
            split
            · intro y hy
              simp only [List.mem_singleton] at hy
              subst hy; exact h1
            · intro y hy
              simp only [List.mem_cons, List.not_mem_nil, or_false] at hy
              rcases hy with rfl | rfl
              · exact h1
              · exact plain_cont _
          · have h1 := plain_three hlt
            split
            · intro y hy
              simp only [List.mem_singleton] at hy
              subst hy; exact h1
            · split
              · intro y hy
                simp only [List.mem_cons, List.not_mem_nil, or_false] at hy
                rcases hy with rfl | rfl
                · exact h1
                · exact plain_cont _
              · intro y hy
                simp only [List.mem_cons, List.not_mem_nil, or_false] at hy
                rcases hy with rfl | rfl | rfl
                · exact h1
                · exact plain_cont _
                · exact plain_cont _

theorem utf8Copy_plain (i : Nat) {s : Bytes} (n : Nat) (e : EPtr) (h : ∀ b ∈ s, CalmByte b) :
    ∀ y ∈ (utf8Copy i s n e).1, CalmByte y := by
  induction i generalizing s n with
  | zero => simp [utf8Copy]
  | succ i ih =>
    cases n with
    | zero => simp [utf8Copy]
    | succ n =>
      cases s with
      | nil => simp [utf8Copy]
      | cons b t =>
        intro y hy
        simp only [utf8Copy, List.mem_cons] at hy
        rcases hy with rfl | hy
        · exact h _ (by simp)
        · exact ih n (fun b hb => h b (by simp [hb])) y hy

theorem strStep_plain {b : Byte} {t : Bytes} (n : Nat) (e : EPtr) (h : CalmText (b :: t)) :
    ∀ y ∈ (strStep b t n e).1, CalmByte y := by
  unfold strStep
  split
  · next hb =>
    subst hb
    cases t with
    | nil => simp
    | cons x t' =>
      simp only
      split
      · next y hy =>
        intro z hz
        simp only [List.mem_singleton] at hz
        subst hz
        exact plain_simple (h.1 x (by simp)) hy
      · split
        · exact uhexStep_plain n e fun b hb => h.1 b (by simp [hb])
        · split
          · next hx => subst hx; exact absurd ⟨[], t', rfl⟩ h.2
          · simp
  · unfold utf8Step
    repeat' split
    · intro y hy
      simp only [List.mem_singleton] at hy
      subst hy; exact h.1 _ (by simp)
    · exact utf8Copy_plain _ _ _ h.1
    · exact utf8Copy_plain _ _ _ h.1
    · exact utf8Copy_plain _ _ _ h.1
    · simp

theorem strDec_plain (s : Bytes) (n : Nat) (e : EPtr) (h : CalmText s) : ∀ y ∈ (strDec s n e).1, CalmByte y := by
  induction hl : s.length using Nat.strongRecOn generalizing s n e with
  | ind m ih =>
    subst hl
    rw [strDec.eq_def]
    cases s with
    | nil => simp
    | cons b t =>
      simp only
      split
      · simp
      · split
        · simp
        · next hn =>
          intro y hy
          simp only [List.mem_append] at hy
          rcases hy with hy | hy
          · exact strStep_plain n e h y hy
          · exact ih _ (strStep_length b t e hn) _ _ _ (h.sub (strStep_ok b t hn e).suffix) rfl y hy

theorem deStr_keeps : Keeps CalmText StrOk deStr := by
  intro v s e ht hv
  refine .safe ht (deStr_safe v s e) ?_
  intro v' p e' h
  have hp := ht.calm
  unfold deStr at h
  have h0 : StrOk [] := plain_ok (by simp) (by simp)
  split at h
  · cases h; exact h0
  · unfold unserializeStr at h
    cases s with
    | nil => cases h; exact h0
    | cons b t =>
      simp only at h
      split at h
      · cases h; exact h0
      · rw [Sink.puts_back] at h
        simp only [Out.bind_ok, Out.ok.injEq, Prod.mk.injEq] at h
        obtain ⟨rfl, _⟩ := h
        exact plain_ok (strDec_plain _ _ _ (hp.sub (suffix_cons b t))) (strDec_ok t intMax e).2.1

theorem deCharArray_keeps {N : Nat} (hN : N ≤ 2147483647) : Keeps CalmText (fun v =>
    ∃ w, v = w ++ List.replicate (N - w.length) 0 ∧ w.length ≤ N ∧ (∀ b ∈ w, b ≠ 0) ∧ StrOk w) (deCharArray N) := by
  intro v s e ht hv
  refine .safe ht (deCharArray_safe N v s e) ?_
  intro v' p e' h
  have hp := ht.calm
  have h0 : ∃ w, List.replicate N (0 : Byte) = w ++ List.replicate (N - w.length) 0 ∧ w.length ≤ N ∧ (∀ b ∈ w, b ≠ 0) ∧ StrOk w :=
    ⟨[], by simp, by simp, by simp, plain_ok (by simp) (by simp)⟩
  unfold deCharArray at h
  simp only at h
  split at h
  · cases h; exact h0
  · unfold unserializeStr at h
    cases s with
    | nil => cases h; exact h0
    | cons b t =>
      simp only at h
      split at h
      · cases h; exact h0
      · have hd := strDec_ok t N e
        have hsp : List.replicate N (0 : UInt8) =
            [] ++ List.replicate (strDec t N e).1.length 0 ++ List.replicate (N - (strDec t N e).1.length) 0 := by
          rw [List.nil_append, List.replicate_append_replicate]
          congr 1
          have := hd.2.1
          omega
        have hq := Sink.puts_ptr [] (List.replicate (strDec t N e).1.length 0)
          (List.replicate (N - (strDec t N e).1.length) 0) (strDec t N e).1 (by simp)
        rw [← hsp] at hq
        simp only [List.length_nil, List.nil_append] at hq
        rw [hq] at h
        simp only [Out.bind_ok, Out.ok.injEq, Prod.mk.injEq] at h
        obtain ⟨rfl, _⟩ := h
        have hpl := strDec_plain t N e (hp.sub (suffix_cons b t))
        exact ⟨_, rfl, hd.2.1, fun b hb => plain_ne_zero (hpl b hb), plain_ok hpl (Nat.le_trans hd.2.1 hN)⟩

/-! ### Enumerations, flags, time intervals, sizes -/

theorem TextOk.any (s : Bytes) : TextOk AnyText s := .of trivial

/-- The position can be left out of account where it is known otherwise. -/
theorem OutK.val {α : Type} {P : α → Prop} {U : Prop} {pl : Bytes → Prop} {s : Bytes} {e : EPtr} {o : Out (α × Bytes × EPtr)}
    (h : TextOk pl s) (hs : SafeOut U s e o) (hv : OutK AnyText P o) : OutK pl P o :=
  .safe h hs fun v p e' ho => (hv v p e' ho).2

theorem OutK.some {α : Type} {P : α → Prop} {v : α} {p : Bytes} {e : EPtr} (hv : P v) : OutK AnyText P (.ok (v, p, e)) :=
  .ok (.any _) hv

theorem enumFind_mem {α : Type} {L : List (Bytes × α)} {s : Bytes} {v : α} (h : enumFind L s = some v) : v ∈ L.map Prod.snd := by
  induction L with
  | nil => cases h
  | cons x L ih =>
    simp only [enumFind] at h
    split at h
    · cases h; simp
    · simp [ih h]

theorem deEnum_keeps {α : Type} {c : Cfg} {strict : Bool} {dflt : α} {L : List (Bytes × α)} (hd : dflt ∈ L.map Prod.snd) (pl : Bytes → Prop) :
    Keeps pl (fun v => v ∈ L.map Prod.snd) (deEnum c strict dflt L) := by
  intro v s e ht _
  refine .val ht (deEnum_safe (U := False) c strict dflt L v s e) ?_
  unfold deEnum
  cases skipLow c s with
  | nil => exact .some hd
  | cons b p =>
    refine .ite (fun _ => .some hd) fun _ => ?_
    cases p with
    | nil => exact .some hd
    | cons b p =>
      simp only
      cases (toQuote (b :: p)).2 with
      | nil => exact .some hd
      | cons d q =>
        simp only
        cases h : enumFind L (toQuote (b :: p)).1 with
        | some v => exact .some (enumFind_mem h)
        | none => exact .ite (fun _ => .some hd) fun _ => .some hd

/-- Unions of listed flags. -/
abbrev Union {w : Nat} (M : List (Bytes × BitVec w)) (v : BitVec w) : Prop :=
  ∃ us, (∀ u ∈ us, u ∈ M.map Prod.snd) ∧ v = orAll us

theorem Union.zero {w : Nat} (M : List (Bytes × BitVec w)) : Union M 0 := ⟨[], by simp, rfl⟩

theorem Union.or {w : Nat} {M : List (Bytes × BitVec w)} {v : BitVec w} {x : Bytes × BitVec w} (h : Union M v) (hx : x ∈ M) :
    Union M (v ||| x.2) := by
  obtain ⟨us, h1, rfl⟩ := h
  refine ⟨us ++ [x.2], ?_, by rw [orAll_append]; simp [orAll]⟩
  intro u hu
  simp only [List.mem_append, List.mem_singleton] at hu
  rcases hu with hu | rfl
  · exact h1 u hu
  · exact List.mem_map.mpr ⟨x, hx, rfl⟩

theorem flagOneStr_union {w : Nat} {M : List (Bytes × BitVec w)} (sep : Byte) (strict : Bool) (L : List (Bytes × BitVec w))
    (hL : ∀ x ∈ L, x ∈ M) (v : BitVec w) (s : Bytes) (e : EPtr) (ready : Bool) (h : Union M v) :
    Union M (flagOneStr sep strict L v s e ready).1 := by
  induction L generalizing v s e ready with
  | nil =>
    unfold flagOneStr
    split
    · exact h
    · simp only
      split <;> exact h
  | cons x L ih =>
    have hx := hL x (by simp)
    have ih' := ih (fun x hx => hL x (by simp [hx]))
    unfold flagOneStr
    split
    · exact h
    · simp only
      split
      · exact h
      · split
        · exact h
        · split
          · split
            · split
              · exact h.or hx
              · split
                · exact h.or hx
                · exact ih' _ _ _ _ (h.or hx)
            · exact ih' _ _ _ _ h
          · exact ih' _ _ _ _ h

theorem flagOneArr_union {w : Nat} {M : List (Bytes × BitVec w)} (c : Cfg) (strict : Bool) (L : List (Bytes × BitVec w))
    (hL : ∀ x ∈ L, x ∈ M) (v : BitVec w) (s : Bytes) (e : EPtr) (ready : Bool) (h : Union M v) :
    OutK AnyText (Union M) (flagOneArr c strict L v s e ready) := by
  induction L generalizing v s e ready with
  | nil =>
    unfold flagOneArr
    refine .ite (fun _ => .some h) fun _ => .skip fun b _ => .ite (fun _ => .some h) fun _ => ?_
    simp only
    split <;> exact .some h
  | cons x L ih =>
    have hx := hL x (by simp)
    have ih' := ih (fun x hx => hL x (by simp [hx]))
    unfold flagOneArr
    simp only
    split
    · exact .some h
    · refine .ite (fun _ => .some h) fun _ => .ite (fun _ => .some h) fun _ => ?_
      split
      · refine .ite (fun _ => ?_) fun _ => ih' _ _ _ _ h
        split
        · exact .some (h.or hx)
        · exact .ite (fun _ => .some (h.or hx)) fun _ => ih' _ _ _ _ (h.or hx)
      · exact ih' _ _ _ _ h

theorem flagLoopF_union {w : Nat} (c : Cfg) (F : Flags w) (arr : Bool) (n : Nat) (v : BitVec w) (s : Bytes) (e : EPtr)
    (h : Union F.list v) : OutK AnyText (Union F.list) (flagLoopF c F arr n v s e) := by
  induction n generalizing v s e with
  | zero => exact .fuel
  | succ n ih =>
    unfold flagLoopF
    cases s with
    | nil => exact .some h
    | cons b p =>
      refine .ite (fun _ => .some h) fun _ => .bind (P := Union F.list) ?_ fun v p e _ h => ?_
      · unfold flagOne
        exact .ite (fun _ => flagOneArr_union c _ _ (fun _ h => h) _ _ _ _ h) fun _ =>
          .some (flagOneStr_union _ _ _ (fun _ h => h) _ _ _ _ h)
      · exact .ite (fun _ => .some h) fun _ => .ite (fun _ => .some h) fun _ => ih _ _ _ h

theorem deFlags_keeps {w : Nat} (c : Cfg) (F : Flags w) (pl : Bytes → Prop) : Keeps pl (Union F.list) (deFlags c F) := by
  intro v s e ht _
  refine .val ht (deFlags_safe c F v s e) ?_
  unfold deFlags
  cases s with
  | nil => exact .some (.zero _)
  | cons b p =>
    refine .ite (fun _ => .some (.zero _)) fun _ => .bind (flagLoopF_union c F _ _ _ _ _ (.zero _)) fun v p e _ h => ?_
    unfold flagsEnd
    cases p with
    | nil => exact .some h
    | cons b p => exact .ite (fun _ => .some h) fun _ => .some h

theorem timeAdd_inRange {c : Cfg} {ty : IntTy} (hs : ty.Std) {fr v cur m x : Int} (h : timeAdd c ty fr v cur m = .ok x) :
    ty.InRange x := by
  unfold timeAdd at h
  cases h1 : cop c ty (cur * m) with
  | ok y =>
    rw [h1, Out.bind_ok] at h
    cases h2 : cop c ty (y * fr) with
    | ok z =>
      rw [h2, Out.bind_ok] at h
      cases h3 : cop c ty (v + z) with
      | ok a => rw [h3, Out.bind_ok] at h; cases h; exact IntTy.wrap_inRange hs _
      | ub => rw [h3] at h; cases h
      | fuel => rw [h3] at h; cases h
    | ub => rw [h2] at h; cases h
    | fuel => rw [h2] at h; cases h
  | ub => rw [h1] at h; cases h
  | fuel => rw [h1] at h; cases h

theorem timeAddSub_inRange {c : Cfg} {ty : IntTy} (hs : ty.Std) {fr v cur m x : Int} (h : timeAddSub c ty fr v cur m = .ok x) :
    ty.InRange x := by
  unfold timeAddSub at h
  cases h1 : cop c ty (cur * fr) with
  | ok y =>
    rw [h1, Out.bind_ok] at h
    cases h2 : cdiv c ty y m with
    | ok z =>
      rw [h2, Out.bind_ok] at h
      cases h3 : cop c ty (v + z) with
      | ok a => rw [h3, Out.bind_ok] at h; cases h; exact IntTy.wrap_inRange hs _
      | ub => rw [h3] at h; cases h
      | fuel => rw [h3] at h; cases h
    | ub => rw [h2] at h; cases h
    | fuel => rw [h2] at h; cases h
  | ub => rw [h1] at h; cases h
  | fuel => rw [h1] at h; cases h

theorem timeLoopF_inRange {c : Cfg} {ty : IntTy} (hs : ty.Std) (fr : Int) (n : Nat) (v : Int) (s : Bytes) (e : EPtr)
    (h : ty.InRange v) : OutK AnyText ty.InRange (timeLoopF c ty fr n v s e) := by
  induction n generalizing v s e with
  | zero => exact .fuel
  | succ n ih =>
    have add : ∀ {w cur m : Int} {s : Bytes} {e : EPtr}, OutK AnyText ty.InRange (timeAdd c ty fr w cur m >>= fun v => timeLoopF c ty fr n v s e) :=
      .skip fun v hv => ih v _ _ (timeAdd_inRange hs hv)
    have sub : ∀ {w cur m : Int} {s : Bytes} {e : EPtr}, OutK AnyText ty.InRange (timeAddSub c ty fr w cur m >>= fun v => timeLoopF c ty fr n v s e) :=
      .skip fun v hv => ih v _ _ (timeAddSub_inRange hs hv)
    cases s with
    | nil => exact .some h
    | cons b t =>
      unfold timeLoopF
      refine .ite (fun _ => .some h) fun _ => .skip fun r _ => ?_
      simp only
      refine .ite (fun _ => .some h) fun _ => ?_
      cases r.2.1 with
      | nil => exact .some h
      | cons u t =>
        simp only
        refine .ite (fun _ => add) fun _ => .ite (fun _ => add)
          fun _ => .ite (fun _ => ?_) fun _ => .ite (fun _ => sub) fun _ => ih _ _ _ h
        cases t with
        | nil => exact add
        | cons w t =>
          refine .ite (fun _ => sub) fun _ => .ite (fun _ => .skip fun v hv => ?_) fun _ => add
          cases t with
          | nil => exact .ub
          | cons x t => exact ih v _ _ (timeAddSub_inRange hs hv)

theorem deTime_keeps {c : Cfg} {ty : IntTy} (hs : ty.Std) (fr : Int) (pl : Bytes → Prop) : Keeps pl ty.InRange (deTime c ty fr) := by
  intro v s e ht hv
  refine .val ht (deTime_safe c ty fr v s e) ?_
  unfold deTime
  cases s with
  | nil => exact .some hv
  | cons b t =>
    exact .ite (fun _ => .some (zero_inRange hs)) fun _ =>
      .ite (fun _ => (deInt_keeps hs AnyText 0 _ e (.any _) (zero_kept hs)).imp fun _ h => h.1) fun _ =>
      .ite (fun _ => .some (zero_inRange hs)) fun _ => timeLoopF_inRange hs fr _ _ _ _ (zero_inRange hs)

theorem deSize_keeps {c : Cfg} {ty : IntTy} (hs : ty.Std) (metric : Int) (pl : Bytes → Prop) : Keeps pl ty.InRange (deSize c ty metric) := by
  intro v s e ht hv
  refine .val ht (deSize_safe c ty metric v s e) ?_
  have h0 := zero_inRange hs
  unfold deSize
  cases s with
  | nil => exact .some hv
  | cons b t =>
    refine .ite (fun _ => .some h0) fun _ =>
      .ite (fun _ => (deInt_keeps hs AnyText 0 _ e (.any _) (zero_kept hs)).imp fun _ h => h.1) fun _ =>
      .ite (fun _ => .some h0) fun _ => .skip fun r _ => .ite (fun _ => .some h0) fun _ => .skip fun buf _ => .skip fun q _ => ?_
    unfold sizeApply
    simp only
    refine .ite (fun _ => .some h0) fun _ => ?_
    split
    · exact .some (IntTy.wrap_inRange hs _)
    · split
      · exact .some h0
      · exact .skip fun _ _ => .skip fun _ _ => .some (IntTy.wrap_inRange hs _)

/-! ### Wrappers -/

theorem dePointer_keeps {α : Type} {S : Ser α} {P : α → Prop} {pl : Bytes → Prop} (hd : P S.dflt) (hS : Keeps pl P S.de) :
    Keeps pl (fun o => ∀ v, o = some v → P v) (dePointer S) := by
  intro v s e ht _
  unfold dePointer
  cases s with
  | nil => exact .nil (by simp)
  | cons b t =>
    exact .ite (fun _ => .bind (hS _ _ _ ht hd) fun v _ _ ht hv => .ok ht (by rintro _ ⟨⟩; exact hv))
      fun _ => .ok (ht.sub (List.drop_suffix _ _)) (by simp)

theorem deQuotedStr_keeps {α : Type} {S : Ser α} {P : α → Prop} {pl : Bytes → Prop} (hS : Keeps AnyText P S.de) : Keeps pl P (deQuotedStr S) := by
  intro v s e ht hv
  unfold deQuotedStr
  refine .bind (P := fun _ => True) (keeps_true deStr_safe pl [] s e ht trivial) fun w p e ht _ => .ite (fun _ => .nil hv) fun _ => .skip fun r hr => ?_
  obtain ⟨v', p', e'⟩ := r
  have hv' := (hS v w .fresh (.any _) hv v' p' e' hr).2
  cases e' with
  | null => exact .ok ht hv'
  | obj x => exact .ite (fun _ => .nil hv') fun _ => .ok ht hv'

theorem deQuoted_keeps {α : Type} {S : Ser α} {P : α → Prop} {pl : Bytes → Prop} {U : Prop} (reqQ : Bool) (hu : Safe U S.de)
    (hS : Keeps AnyText P S.de) : Keeps pl P (deQuoted S reqQ) := by
  intro v s e ht hv
  unfold deQuoted
  exact .ite (fun _ => deQuotedStr_keeps hS _ _ _ ht hv) fun _ => .ite (fun _ => deQuotedStr_keeps hS _ _ _ ht hv) fun _ =>
    .val ht (hu v s e) (hS v s e (.any _) hv)

/-! ### Sequences -/

theorem seqLoopF_keeps {α C : Type} {K : Coll α C} {S : Ser α} {P : α → Prop} {Q : C → Prop} {pl : Bytes → Prop} (R : Byte) (hd : P S.dflt)
    (hS : Keeps pl P S.de) (hi : ∀ t x, Q t → P x → Q (K.insert t x)) (n : Nat) (t : C) (s : Bytes) (e : EPtr)
    (ht : TextOk pl s) (hq : Q t) : OutK pl Q (seqLoopF K S R n t s e) := by
  induction n generalizing t s e with
  | zero => exact .fuel
  | succ n ih =>
    unfold seqLoopF
    cases s with
    | nil => exact .nil hq
    | cons b p =>
      simp only
      have h1 := ht.space (e := e)
      generalize parseSpace (b :: p) e = r at h1 ⊢
      obtain ⟨p, e1⟩ := r
      simp only at h1 ⊢
      cases p with
      | nil => exact .nil hq
      | cons b p =>
        refine .ite (fun _ => .ok h1.tail hq) fun _ => .bind (hS _ _ _ h1 hd) fun v p e h hv => ?_
        simp only
        have h1 := h.space (e := e)
        generalize parseSpace p e = r at h1 ⊢
        obtain ⟨p, e1⟩ := r
        simp only at h1 ⊢
        have hq' := hi t v hq hv
        cases p with
        | nil => exact .nil hq'
        | cons b p => exact .ite (fun _ => .ok h1.tail hq') fun _ => .ite (fun _ => .nil hq') fun _ => ih _ _ _ h1.tail hq'

theorem deSeq_keeps {α C : Type} {K : Coll α C} {S : Ser α} {P : α → Prop} {Q : C → Prop} {pl : Bytes → Prop} (L R : Byte) (hd : P S.dflt)
    (hS : Keeps pl P S.de) (hi : ∀ t x, Q t → P x → Q (K.insert t x)) (h0 : Q K.clear) : Keeps pl Q (deSeq K S L R) := by
  intro v s e ht _
  unfold deSeq
  refine .ite (fun _ => .null ht h0) fun _ => ?_
  cases s with
  | nil => exact .nil h0
  | cons b t => exact .ite (fun _ => .nil h0) fun _ => seqLoopF_keeps R hd hS hi _ _ _ _ ht.tail h0

theorem deField_keeps {κ ν : Type} {SK : Ser κ} {SV : Ser ν} {P : κ → Prop} {Q : ν → Prop} {pl : Bytes → Prop} (hK : Keeps pl P SK.de)
    (hV : Keeps pl Q SV.de) : Keeps pl (fun x => P x.1 ∧ Q x.2) (deField SK SV) := by
  intro v s e ht hv
  unfold deField
  refine .bind (hK _ _ _ ht hv.1) fun w p e h hw => ?_
  simp only
  have h1 := h.space (e := e)
  generalize parseSpace p e = r at h1 ⊢
  obtain ⟨p, e1⟩ := r
  simp only at h1 ⊢
  cases p with
  | nil => exact .nil ⟨hw, hv.2⟩
  | cons b p =>
    refine .ite (fun _ => .nil ⟨hw, hv.2⟩) fun _ => ?_
    have h2 := h1.tail.space (e := e1)
    generalize parseSpace p e1 = r at h2 ⊢
    obtain ⟨p, e2⟩ := r
    simp only at h2 ⊢
    cases p with
    | nil => exact .nil ⟨hw, hv.2⟩
    | cons b p => exact .bind (hV _ _ _ h2 hv.2) fun _ _ _ h hx => .ok h ⟨hw, hx⟩

/-! ### Fixed-size arrays -/

theorem fixNull_keeps {α : Type} {S : Ser α} {P : α → Prop} {pl : Bytes → Prop} (hS : Keeps pl P S.de) {s : Bytes} (ht : TextOk pl s)
    (vs : List α) (e : EPtr) (hv : ∀ v ∈ vs, P v) {r : List α × EPtr} (h : fixNull S s vs e = .ok r) : ∀ v ∈ r.1, P v := by
  induction vs generalizing e r with
  | nil => cases h; exact hv
  | cons v vs ih =>
    simp only [fixNull] at h
    cases h1 : S.de v s e with
    | ok d =>
      rw [h1, Out.bind_ok] at h
      cases h2 : fixNull S s vs d.2.2 with
      | ok x =>
        rw [h2, Out.bind_ok] at h
        cases h
        intro y hy
        simp only [List.mem_cons] at hy
        rcases hy with rfl | hy
        · exact (hS v s e ht (hv v (by simp)) _ _ _ h1).2
        · exact ih d.2.2 (fun v h => hv v (by simp [h])) h2 y hy
      | ub => rw [h2] at h; cases h
      | fuel => rw [h2] at h; cases h
    | ub => rw [h1] at h; cases h
    | fuel => rw [h1] at h; cases h

theorem fixClose_keeps {α : Type} {P : List α → Prop} {pl : Bytes → Prop} (R : Byte) {t : List α} {s : Bytes} (e : EPtr) (ht : TextOk pl s)
    (hv : P t) : OutK pl P (fixClose R t s e) := by
  unfold fixClose
  cases s with
  | nil => exact .nil hv
  | cons b p => exact .ite (fun _ => .nil hv) fun _ => .ok ht.tail hv

theorem fixLoop_keeps {α : Type} (k : FixKind) {S : Ser α} {P : α → Prop} {pl : Bytes → Prop} (R : Byte) (hd : P S.dflt) (hS : Keeps pl P S.de)
    (vs : List α) (s : Bytes) (e : EPtr) (ht : TextOk pl s) (hv : ∀ v ∈ vs, P v) :
    OutK pl (fun vs => ∀ v ∈ vs, P v) (fixLoop k S R vs s e) := by
  induction vs generalizing s e with
  | nil => exact fixClose_keeps R e ht hv
  | cons v vs ih =>
    have hvs : ∀ v ∈ vs, P v := fun v h => hv v (by simp [h])
    unfold fixLoop
    cases s with
    | nil => exact fixClose_keeps R e ht hv
    | cons b p =>
      simp only
      have h1 := ht.space (e := e)
      generalize parseSpace (b :: p) e = r at h1 ⊢
      obtain ⟨p, e1⟩ := r
      simp only at h1 ⊢
      cases p with
      | nil => exact .nil hv
      | cons b p =>
        have hst : P (k.start S v) := by
          cases k
          · exact hd
          · exact hv v (by simp)
        refine .ite (fun _ => fixClose_keeps R _ h1 hv) fun _ => .bind (hS _ _ _ h1 hst) fun w p e h hw => ?_
        simp only
        have h1 := h.space (e := e)
        generalize parseSpace p e = r at h1 ⊢
        obtain ⟨p, e1⟩ := r
        simp only at h1 ⊢
        have hc : ∀ {vs : List α}, (∀ v ∈ vs, P v) → ∀ v ∈ w :: vs, P v := by
          intro vs hvs y hy
          rcases List.mem_cons.mp hy with rfl | hy
          · exact hw
          · exact hvs y hy
        cases p with
        | nil => exact .nil (hc hvs)
        | cons b p =>
          exact .ite (fun _ => fixClose_keeps R _ h1 (hc hvs)) fun _ => .ite (fun _ => .nil (hc hvs)) fun _ =>
            .bind (ih _ _ h1.tail hvs) fun _ _ _ h hx => .ok h (hc hx)

theorem deFix_keeps {α : Type} (k : FixKind) {S : Ser α} {P : α → Prop} {pl : Bytes → Prop} (L R : Byte) (hd : P S.dflt) (hS : Keeps pl P S.de) :
    Keeps pl (fun vs => ∀ v ∈ vs, P v) (deFix k S L R) := by
  intro v s e ht hv
  unfold deFix
  refine .ite (fun _ => .skip fun x hx => .null ht (fixNull_keeps hS ht v e hv hx)) fun _ => ?_
  cases s with
  | nil => exact .nil hv
  | cons b t => exact .ite (fun _ => .nil hv) fun _ => fixLoop_keeps k R hd hS _ _ _ ht.tail hv

theorem deFixVec_keeps {α : Type} {N : Nat} (k : FixKind) {S : Ser α} {P : α → Prop} {pl : Bytes → Prop} (hd : P S.dflt) (hS : Keeps pl P S.de) :
    Keeps pl (fun vs : Vector α N => ∀ v ∈ vs.toList, P v) (deFixVec k S) := by
  intro v s e ht hv w p e' h
  rcases deFixVec_eq k S v s e with ⟨w', p', e1, h1, h2⟩ | ⟨_, h2⟩ | ⟨_, h2⟩
  · rw [h2] at h
    cases h
    exact deFix_keeps k _ _ hd hS v.toList s e ht hv _ _ _ h1
  · rw [h2] at h; cases h
  · rw [h2] at h; cases h

/-! ### Objects -/

/-- Like `Keeps` for an entry of the member list. -/
def MKeeps {τ : Type} (pl : Bytes → Prop) (Q : τ → Prop) (m : Member τ) : Prop :=
  ∀ t s e u, TextOk pl s → Q t → ∀ t' p e' u', m.de t s e u = .ok (t', p, e', u') → TextOk pl p ∧ Q t'

theorem memberName_text {pl : Bytes → Prop} (name s : Bytes) (e : EPtr) (u : Bool) (h : TextOk pl s) :
    TextOk pl (memberName name s e u).1 := by
  exact h.sub (memberName_safe name s e u).1

theorem member_keeps {τ α : Type} {name : Bytes} {t : τ} {v : α} {set : α → τ} {S : Ser α} {P : α → Prop} {Q : τ → Prop} {pl : Bytes → Prop}
    (hS : Keeps pl P S.de) (hv : P v) (ht : Q t) (hset : ∀ x, P x → Q (set x)) {s : Bytes} {e : EPtr} {u : Bool}
    (h : TextOk pl s) {t' : τ} {p : Bytes} {e' : EPtr} {u' : Bool}
    (hr : (if !(memberName name s e u).2.2 then Out.ok (t, memberName name s e u)
      else S.de v (memberName name s e u).1 (memberName name s e u).2.1 >>= fun d => .ok (set d.1, d.2.1, d.2.2, true)) =
      .ok (t', p, e', u')) : TextOk pl p ∧ Q t' := by
  have h1 := memberName_text name s e u h
  generalize memberName name s e u = r at h1 hr
  obtain ⟨p1, e1, u1⟩ := r
  simp only at h1 hr
  split at hr
  · cases hr; exact ⟨h1, ht⟩
  · have h2 := hS v p1 e1 h1 hv
    cases hd : S.de v p1 e1 with
    | ok x =>
      obtain ⟨w, q, e2⟩ := x
      rw [hd] at hr
      simp only [Out.bind_ok, Out.ok.injEq, Prod.mk.injEq] at hr
      obtain ⟨rfl, rfl, rfl, _⟩ := hr
      exact ⟨(h2 _ _ _ hd).1, hset _ (h2 _ _ _ hd).2⟩
    | ub => rw [hd] at hr; cases hr
    | fuel => rw [hd] at hr; cases hr

theorem MKeeps.bind {τ β : Type} {m : Member τ} {pl : Bytes → Prop} {Q : τ → Prop} {Q' : β → Prop} (hm : MKeeps pl Q m) {s : Bytes} {e : EPtr}
    {t : τ} {u : Bool} {f : τ × Bytes × EPtr × Bool → Out (β × Bytes × EPtr)} (h : TextOk pl s) (ht : Q t)
    (hf : ∀ t p e u, TextOk pl p → Q t → OutK pl Q' (f (t, p, e, u))) : OutK pl Q' (m.de t s e u >>= f) := by
  cases hd : m.de t s e u with
  | ok x =>
    obtain ⟨w, q, e2, u2⟩ := x
    have := hm _ _ _ _ h ht _ _ _ _ hd
    exact hf _ _ _ _ this.1 this.2
  | ub => exact .ub
  | fuel => exact .fuel

section
variable {τ : Type} {pl : Bytes → Prop} {Q : τ → Prop}

theorem searchMembers_keeps (c : Cfg) (strict : Bool) (l : List (Member τ)) (hl : ∀ m ∈ l, MKeeps pl Q m) (t : τ)
    (s : Bytes) (e : EPtr) (h : TextOk pl s) (ht : Q t) : OutK pl Q (searchMembers c strict l t s e) := by
  induction l generalizing t s e with
  | nil =>
    unfold searchMembers
    refine .ite (fun _ => .scanO h (parseMember_scan c s) fun p e' h => .ok h.space ht) fun _ => ?_
    cases s with
    | nil => exact .nil ht
    | cons b p => exact .ite (fun _ => .ok h ht) fun _ => .nil ht
  | cons m l ih =>
    unfold searchMembers
    exact MKeeps.bind (hl m (by simp)) h ht fun t p e u h ht => .ite (fun _ => .ok h ht) fun _ => ih (fun m hm => hl m (by simp [hm])) _ _ _ h ht

theorem skipLoopF_keeps (c : Cfg) (strict : Bool) (n : Nat) (t : τ) (s : Bytes) (e : EPtr) (h : TextOk pl s) (ht : Q t) :
    OutK pl Q (skipLoopF c strict n s e >>= fun r => .ok (t, r.1, r.2)) := by
  induction n generalizing s e with
  | zero => exact .fuel
  | succ n ih =>
    unfold skipLoopF
    rw [Out.bind_assoc]
    refine .scanO h (parseMember_scan c s) fun p e' h => ?_
    simp only
    have h1 := h.space (e := e')
    generalize parseSpace p e' = r at h1 ⊢
    obtain ⟨p, e1⟩ := r
    simp only at h1 ⊢
    cases p with
    | nil => exact .nil ht
    | cons b p =>
      simp only
      split
      · split
        · exact .ok h1 ht
        · exact .nil ht
      · split
        · exact .nil ht
        · exact ih _ _ h1.tail.space

theorem skipMembers_keeps (c : Cfg) (strict : Bool) (t : τ) (s : Bytes) (e : EPtr) (h : TextOk pl s) (ht : Q t) :
    OutK pl Q (skipMembers c strict s e >>= fun r => .ok (t, r.1, r.2)) := by
  unfold skipMembers
  simp only
  have h1 := h.space (e := e)
  generalize parseSpace s e = r at h1 ⊢
  obtain ⟨p, e1⟩ := r
  simp only at h1 ⊢
  cases p with
  | nil => exact .nil ht
  | cons b p =>
    simp only
    split
    · exact .ok h1 ht
    · exact skipLoopF_keeps c strict _ _ _ _ h1 ht

theorem membersEnd_keeps {t : τ} {s : Bytes} (e : EPtr) (h : TextOk pl s) (ht : Q t) : OutK pl Q (membersEnd t s e) := by
  unfold membersEnd
  cases s with
  | nil => exact .nil ht
  | cons b p => exact .ite (fun _ => .nil ht) fun _ => .ok h ht

theorem objectEnd_keeps {t : τ} {s : Bytes} (e : EPtr) (h : TextOk pl s) (ht : Q t) : OutK pl Q (objectEnd t s e) := by
  unfold objectEnd
  cases s with
  | nil => exact .nil ht
  | cons b p => exact .ite (fun _ => .nil ht) fun _ => .ok h.tail ht

theorem membersF_keeps (c : Cfg) (strict : Bool) {L : List (Member τ)} (hL : ∀ m ∈ L, MKeeps pl Q m) (n : Nat)
    (l : List (Member τ)) (hl : ∀ m ∈ l, MKeeps pl Q m) (t : τ) (s : Bytes) (e : EPtr) (h : TextOk pl s) (ht : Q t) :
    OutK pl Q (membersF c strict L n l t s e) := by
  induction n generalizing l t s e with
  | zero => exact .fuel
  | succ n ih =>
    cases l with
    | nil => exact skipMembers_keeps c strict t s e h ht
    | cons m l =>
      unfold membersF
      refine MKeeps.bind (hl m (by simp)) h ht fun t p e u h ht => .bind (P := Q) ?_ fun v p e h hv => ?_
      · exact .ite (fun _ => .ok h ht) fun _ => searchMembers_keeps c strict L hL _ _ _ h ht
      · simp only
        have h1 := h.space (e := e)
        generalize parseSpace p e = r at h1 ⊢
        obtain ⟨p, e1⟩ := r
        simp only at h1 ⊢
        cases p with
        | nil => exact .nil hv
        | cons b p =>
          refine .ite (fun _ => .bind (ih _ ?_ _ _ _ h1.tail.space hv) fun _ _ _ h hv => membersEnd_keeps _ h hv)
            fun _ => membersEnd_keeps _ h1 hv
          intro m' hm'
          split at hm'
          · exact hl m' (by simp [hm'])
          · exact hl m' hm'

theorem deObject_keeps (c : Cfg) (strict : Bool) {dflt : τ} {L : List (Member τ)} (hd : Q dflt) (hL : ∀ m ∈ L, MKeeps pl Q m) :
    Keeps pl Q (deObject c strict dflt L) := by
  intro v s e h hv
  unfold deObject
  refine .ite (fun _ => .null h hd) fun _ => ?_
  cases s with
  | nil => exact .nil hv
  | cons b p =>
    refine .ite (fun _ => .ite (fun _ => .skip fun x _ => .ite (fun _ => .nil hv) fun _ => ?_) fun _ => .nil hv) fun _ => ?_
    · have h1 := h.tail.space (e := e)
      generalize parseSpace p e = r at h1 ⊢
      obtain ⟨p, e1⟩ := r
      simp only at h1 ⊢
      cases p with
      | nil => exact .ub
      | cons b p => exact .ok h1.tail hv
    · unfold objectBody
      simp only
      have h1 := h.tail.space (e := e)
      generalize parseSpace p e = r at h1 ⊢
      obtain ⟨p, e1⟩ := r
      simp only at h1 ⊢
      cases p with
      | nil => exact .nil hv
      | cons b q =>
        refine .ite (fun _ => .bind (membersF_keeps c strict hL _ _ hL _ _ _ h1 hv) fun v p e h hv => ?_) fun _ => objectEnd_keeps _ h1 hv
        simp only
        cases p with
        | nil => exact .nil hv
        | cons b q =>
          simp only
          have h1 := h.space (e := e)
          generalize parseSpace (b :: q) e = r at h1 ⊢
          obtain ⟨p, e1⟩ := r
          simp only at h1 ⊢
          cases p with
          | nil => exact .nil hv
          | cons b q => exact objectEnd_keeps _ h1 hv

theorem amembersEnd_keeps {t : τ} {s : Bytes} (e : EPtr) (h : TextOk pl s) (ht : Q t) : OutK pl Q (amembersEnd t s e) := by
  unfold amembersEnd
  cases s with
  | nil => exact .nil ht
  | cons b p => exact .ite (fun _ => .nil ht) fun _ => .ok h ht

theorem objectArrayEnd_keeps {t : τ} {s : Bytes} (e : EPtr) (h : TextOk pl s) (ht : Q t) : OutK pl Q (objectArrayEnd t s e) := by
  unfold objectArrayEnd
  cases s with
  | nil => exact .nil ht
  | cons b p => exact .ite (fun _ => .nil ht) fun _ => .ok h.tail ht

theorem deAMembers_keeps (L : List (AMember τ)) (hL : ∀ m ∈ L, Keeps pl Q m.de) : Keeps pl Q (deAMembers L) := by
  induction L with
  | nil => exact fun _ _ _ h hv => .ok h hv
  | cons m l ih =>
    intro t s e h ht
    unfold deAMembers
    refine .bind (hL m (by simp) _ _ _ h ht) fun v p e h hv => ?_
    simp only
    have h1 := h.space (e := e)
    generalize parseSpace p e = r at h1 ⊢
    obtain ⟨p, e1⟩ := r
    simp only at h1 ⊢
    cases p with
    | nil => exact .nil hv
    | cons b p =>
      exact .ite (fun _ => .bind (ih (fun m hm => hL m (by simp [hm])) _ _ _ h1.tail.space hv) fun _ _ _ h hv => amembersEnd_keeps _ h hv)
        fun _ => amembersEnd_keeps _ h1 hv

theorem deObjectArray_keeps {dflt : τ} {L : List (AMember τ)} (hd : Q dflt) (hL : ∀ m ∈ L, Keeps pl Q m.de) :
    Keeps pl Q (deObjectArray dflt L) := by
  intro v s e h hv
  unfold deObjectArray
  refine .ite (fun _ => .null h hd) fun _ => ?_
  cases s with
  | nil => exact .nil hv
  | cons b p =>
    refine .ite (fun _ => .nil hv) fun _ => ?_
    unfold objectArrayBody
    simp only
    have h1 := h.tail.space (e := e)
    generalize parseSpace p e = r at h1 ⊢
    obtain ⟨p, e1⟩ := r
    simp only at h1 ⊢
    cases p with
    | nil => exact .nil hv
    | cons b q =>
      refine .ite (fun _ => .bind (deAMembers_keeps L hL _ _ _ h1 hv) fun v p e h hv => ?_) fun _ => objectArrayEnd_keeps _ h1 hv
      simp only
      cases p with
      | nil => exact .nil hv
      | cons b q =>
        simp only
        have h1 := h.space (e := e)
        generalize parseSpace (b :: q) e = r at h1 ⊢
        obtain ⟨p, e1⟩ := r
        simp only at h1 ⊢
        cases p with
        | nil => exact .nil hv
        | cons b q => exact objectArrayEnd_keeps _ h1 hv

end

/-- Different members are apart. -/
theorem Fields.apart_of_ne {ι : Type _} {τ : Type} {f : ι → MRef τ} {L : List ι} (h : Fields (L.map f)) {a b : ι} (ha : a ∈ L) (hb : b ∈ L)
    (hne : a ≠ b) : ∀ x t, (f a).get ((f b).set x t) = (f a).get t := by
  obtain ⟨pre, post, rfl⟩ := List.append_of_mem ha
  have := h.other (pre := pre.map f) (post := post.map f) (a := f a) (by simp) (b := f b) (by
    rcases List.mem_append.mp hb with hb | hb
    · exact .inl (List.mem_map.mpr ⟨b, hb, rfl⟩)
    · rcases List.mem_cons.mp hb with hb | hb
      · exact absurd hb.symm hne
      · exact .inr (List.mem_map.mpr ⟨b, hb, rfl⟩))
  exact this.1

section
variable {τ : Type} {L : List (PEntry τ)} (hf : Fields (L.map fun m => m.entry.ref))
include hf

/-- Storing a good value in a member keeps all members good. -/
theorem Fields.keeps {m : PEntry τ} (hm : m ∈ L) {t : τ} (ht : ∀ m ∈ L, m.P (m.entry.ref.get t)) {x : m.entry.ref.α} (hx : m.P x) :
    ∀ m' ∈ L, m'.P (m'.entry.ref.get (m.entry.ref.set x t)) := by
  intro m' hm'
  by_cases h : m' = m
  · subst h
    rw [hf.get_set _ (List.mem_map.mpr ⟨m', hm, rfl⟩)]
    exact hx
  · rw [hf.apart_of_ne (f := fun m : PEntry τ => m.entry.ref) hm' hm h]
    exact ht m' hm'

theorem entry_keeps {pl : Bytes → Prop} {m : PEntry τ} (hm : m ∈ L) (hd : m.P m.entry.ref.ser.dflt)
    (hS : Keeps pl m.P m.entry.ref.ser.de) : MKeeps pl (fun t => ∀ m ∈ L, m.P (m.entry.ref.get t)) m.entry.toMember := by
  intro t s e u hs ht t' p e' u' hr
  have hset := fun x (hx : m.P x) => hf.keeps hm ht hx
  have h3 := ht m hm
  obtain ⟨en, P⟩ := m
  cases en with
  | mem r =>
    exact member_keeps (Q := fun t => ∀ m ∈ L, m.P (m.entry.ref.get t)) (set := fun a => r.set a t) hS h3 ht hset hs hr
  | prop r =>
    exact member_keeps (Q := fun t => ∀ m ∈ L, m.P (m.entry.ref.get t)) (set := fun a => r.set a t) hS hd ht hset hs hr

theorem aentry_keeps {pl : Bytes → Prop} {m : PEntry τ} (hm : m ∈ L) (hd : m.P m.entry.ref.ser.dflt)
    (hS : Keeps pl m.P m.entry.ref.ser.de) : Keeps pl (fun t => ∀ m ∈ L, m.P (m.entry.ref.get t)) m.entry.toAMember.de := by
  intro t s e hs ht
  have hset := fun x (hx : m.P x) => hf.keeps hm ht hx
  have h3 := ht m hm
  obtain ⟨en, P⟩ := m
  cases en with
  | mem r => exact .bind (hS _ _ _ hs h3) fun _ _ _ h hx => .ok h (hset _ hx)
  | prop r => exact .bind (hS _ _ _ hs hd) fun _ _ _ h hx => .ok h (hset _ hx)

end

/-! ### Alternatives -/

section
variable {τ : Type} {L : List (KSlot τ)} (hf : Fields ((L.map KSlot.slot).flatMap Slot.refs))

theorem Spec.KSlot.refs_eq (x : KSlot τ) : x.slot.refs = x.parts.map fun m => m.entry.ref := by cases x <;> rfl

theorem kslot_part {x : KSlot τ} (hx : x ∈ L) {m : PEntry τ} (hm : m ∈ x.parts) :
    m.entry.ref ∈ (L.map KSlot.slot).flatMap Slot.refs := by
  refine List.mem_flatMap.mpr ⟨_, List.mem_map.mpr ⟨x, hx, rfl⟩, ?_⟩
  rw [Spec.KSlot.refs_eq]
  exact List.mem_map.mpr ⟨m, hm, rfl⟩

include hf

/-- Parts of different places are apart. -/
theorem kslot_apart {x y : KSlot τ} (hx : x ∈ L) (hy : y ∈ L) (hne : x ≠ y) {m n : PEntry τ} (hm : m ∈ x.parts) (hn : n ∈ y.parts) :
    ∀ v t, m.entry.ref.get (n.entry.ref.set v t) = m.entry.ref.get t := by
  obtain ⟨pre, post, rfl⟩ := List.append_of_mem hx
  obtain ⟨p1, p2, h12⟩ := List.append_of_mem hm
  refine (hf.other (pre := (pre.map KSlot.slot).flatMap Slot.refs ++ p1.map fun m => m.entry.ref)
    (post := (p2.map fun m => m.entry.ref) ++ (post.map KSlot.slot).flatMap Slot.refs) (a := m.entry.ref) ?_ (b := n.entry.ref) ?_).1
  · simp [Spec.KSlot.refs_eq, h12]
  · rcases List.mem_append.mp hy with h | h
    · exact .inl (List.mem_append_left _ (kslot_part h hn))
    · rcases List.mem_cons.mp h with h | h
      · exact absurd h.symm hne
      · exact .inr (List.mem_append_right _ (kslot_part h hn))

theorem kslot_get_set {x : KSlot τ} (hx : x ∈ L) {m : PEntry τ} (hm : m ∈ x.parts) : ∀ v t, m.entry.ref.get (m.entry.ref.set v t) = v :=
  hf.get_set _ (kslot_part hx hm)

/-- The alternatives are apart. -/
theorem kslot_alt {l r : PEntry τ} {dl dr i RU} (hx : KSlot.alt l r dl dr i RU ∈ L) :
    (∀ v t, l.entry.ref.get (r.entry.ref.set v t) = l.entry.ref.get t) ∧ ∀ v t, r.entry.ref.get (l.entry.ref.set v t) = r.entry.ref.get t := by
  obtain ⟨pre, post, rfl⟩ := List.append_of_mem hx
  have := hf.other (pre := (pre.map KSlot.slot).flatMap Slot.refs)
    (post := r.entry.ref :: (post.map KSlot.slot).flatMap Slot.refs) (a := l.entry.ref) (by simp [KSlot.slot, Slot.refs]) (b := r.entry.ref) (by simp)
  exact ⟨this.1, this.2.1⟩

/-- Storing in a part of a place leaves the other places as they are. -/
theorem kslot_others {x : KSlot τ} (hx : x ∈ L) {m : PEntry τ} (hm : m ∈ x.parts) {t : τ} (ht : ∀ y ∈ L, y ≠ x → y.Holds t) (v : m.entry.ref.α) :
    ∀ y ∈ L, y ≠ x → y.Holds (m.entry.ref.set v t) := by
  intro y hy hne
  have h := ht y hy hne
  have hap := fun {n : PEntry τ} (hn : n ∈ y.parts) => kslot_apart hf hy hx hne hn hm v t
  cases y with
  | one z =>
    simp only [KSlot.Holds] at h ⊢
    rw [hap (by simp [KSlot.parts])]
    exact h
  | alt l r dl dr i RU =>
    simp only [KSlot.Holds] at h ⊢
    rw [hap (n := l) (by simp [KSlot.parts]), hap (n := r) (by simp [KSlot.parts])]
    exact h

end

section
variable {τ : Type} {Q W : τ → Prop} {pl : Bytes → Prop} {a b : PEntry τ} {da : a.entry.ref.α} {db : b.entry.ref.α}

theorem readNull_is {m : PEntry τ} {d : m.entry.ref.α} (h : Reads m.entry.ref.ser.de b!"null" d) (t : τ) :
    readNull m.entry.ref t = .ok (m.entry.ref.set d t) := by
  unfold readNull
  have := h (m.entry.ref.get t) [] .null rfl (by intro b hb; cases hb)
  rw [List.append_nil] at this
  rw [this]
  rfl

/-- `member_if`: `W` is what holds while it is at work, `Q` before and after. -/
theorem deMemberIf_holds (ha : Keeps pl a.P a.entry.ref.ser.de) (hb : Keeps pl b.P b.entry.ref.ser.de)
    (hda : Reads a.entry.ref.ser.de b!"null" da) (hdb : Reads b.entry.ref.ser.de b!"null" db) (hQ : ∀ t, Q t → W t)
    (wa : ∀ t, W t → a.P (a.entry.ref.get t)) (wb : ∀ t, W t → b.P (b.entry.ref.get t))
    (sa : ∀ t, W t → ∀ x, a.P x → W (a.entry.ref.set x t)) (na : ∀ t, W t → Q (a.entry.ref.set da t))
    (nb : ∀ t, W t → Q (b.entry.ref.set db t)) (nab : ∀ t, W t → ∀ x, b.P x → Q (b.entry.ref.set x (a.entry.ref.set da t)))
    {t : τ} {s : Bytes} {e : EPtr} {u : Bool} (hs : TextOk pl s) (ht : Q t) {t' : τ} {p : Bytes} {e' : EPtr} {u' : Bool}
    (hr : deMemberIf a.entry.ref b.entry.ref t s e u = .ok (t', p, e', u')) : TextOk pl p ∧ Q t' := by
  obtain ⟨⟨t1, p1, e1, u1⟩, h1, h2⟩ := Out.bind_eq_ok.mp hr
  obtain ⟨h3, h4⟩ := member_keeps (Q := W) (set := fun x => a.entry.ref.set x t) ha (wa t (hQ t ht)) (hQ t ht) (sa t (hQ t ht)) hs h1
  simp only at h2
  rw [readNull_is hda, readNull_is hdb] at h2
  split at h2
  · cases h2; exact ⟨h3, nb _ h4⟩
  · exact member_keeps (Q := Q) (set := fun x => b.entry.ref.set x (a.entry.ref.set da t1)) hb (wb _ (hQ _ (na _ h4))) (na _ h4) (nab _ h4) hs h2

theorem deAMemberIf_holds (ha : Keeps pl a.P a.entry.ref.ser.de) (hb : Keeps pl b.P b.entry.ref.ser.de)
    (hda : Reads a.entry.ref.ser.de b!"null" da) (hdb : Reads b.entry.ref.ser.de b!"null" db) (hQ : ∀ t, Q t → W t)
    (wa : ∀ t, W t → a.P (a.entry.ref.get t)) (wb : ∀ t, W t → b.P (b.entry.ref.get t))
    (sa : ∀ t, W t → ∀ x, a.P x → W (a.entry.ref.set x t)) (na : ∀ t, W t → Q (a.entry.ref.set da t))
    (nb : ∀ t, W t → Q (b.entry.ref.set db t)) (nab : ∀ t, W t → ∀ x, b.P x → Q (b.entry.ref.set x (a.entry.ref.set da t))) :
    Keeps pl Q (deAMemberIf a.entry.ref b.entry.ref) := by
  intro t s e hs ht
  refine .bind (P := W) (.bind (ha _ _ _ hs (wa t (hQ t ht))) fun _ _ _ h hx => .ok h (sa t (hQ t ht) _ hx)) fun t1 p1 e1 h2 h3 => ?_
  simp only
  rw [readNull_is hda, readNull_is hdb]
  refine .ite (fun _ => ?_) fun _ => ?_
  · exact .ok h2 (nb _ h3)
  · exact .bind (hb _ _ _ hs (wb _ (hQ _ (na _ h3)))) fun _ _ _ h hx => .ok h (nab _ h3 _ hx)

end

section
variable {τ : Type} {L : List (KSlot τ)} (hf : Fields ((L.map KSlot.slot).flatMap Slot.refs)) {pl : Bytes → Prop}
include hf

theorem kslot_one_set {m : PEntry τ} (hx : KSlot.one m ∈ L) {t : τ} (ht : ∀ y ∈ L, y.Holds t) {v : m.entry.ref.α} (hv : m.P v) :
    ∀ y ∈ L, y.Holds (m.entry.ref.set v t) := by
  intro y hy
  by_cases h : y = .one m
  · subst h
    show m.P _
    rw [kslot_get_set hf hx (by simp [KSlot.parts])]
    exact hv
  · exact kslot_others hf hx (by simp [KSlot.parts]) (fun y hy _ => ht y hy) v y hy h

/-- While a `member_if` is at work. -/
def AtWork (L : List (KSlot τ)) (x : KSlot τ) (l r : PEntry τ) (t : τ) : Prop :=
  (∀ y ∈ L, y ≠ x → y.Holds t) ∧ l.P (l.entry.ref.get t) ∧ r.P (r.entry.ref.get t)

variable {l r : PEntry τ} {dl : l.entry.ref.α} {dr : r.entry.ref.α} {i : l.entry.ref.α → Bool} {RU : Bool} (hx : KSlot.alt l r dl dr i RU ∈ L)

include hx in
theorem atWork_set_l {t : τ} (h : AtWork L (.alt l r dl dr i RU) l r t) {v : l.entry.ref.α} (hv : l.P v) :
    AtWork L (.alt l r dl dr i RU) l r (l.entry.ref.set v t) := by
  refine ⟨kslot_others hf hx (m := l) (by simp [KSlot.parts]) h.1 v, ?_, ?_⟩
  · rw [kslot_get_set hf hx (m := l) (by simp [KSlot.parts])]; exact hv
  · rw [(kslot_alt hf hx).2]; exact h.2.2

include hx in
theorem atWork_set_r {t : τ} (h : AtWork L (.alt l r dl dr i RU) l r t) {v : r.entry.ref.α} (hv : r.P v) :
    AtWork L (.alt l r dl dr i RU) l r (r.entry.ref.set v t) := by
  refine ⟨kslot_others hf hx (m := r) (by simp [KSlot.parts]) h.1 v, ?_, ?_⟩
  · rw [(kslot_alt hf hx).1]; exact h.2.1
  · rw [kslot_get_set hf hx (m := r) (by simp [KSlot.parts])]; exact hv

omit hf in
theorem atWork_done {t : τ} (h : AtWork L (.alt l r dl dr i RU) l r t) (hd : l.entry.ref.get t = dl ∨ r.entry.ref.get t = dr) :
    ∀ y ∈ L, y.Holds t := by
  intro y hy
  by_cases hne : y = .alt l r dl dr i RU
  · subst hne; exact ⟨h.2.1, h.2.2, hd⟩
  · exact h.1 y hy hne

/-- Whatever a place of the list does, all places hold what they can hold. -/
theorem kslot_keeps {x : KSlot τ} (hx : x ∈ L) (ha : x.Apart) (hd : ∀ m ∈ x.parts, m.P m.entry.ref.ser.dflt)
    (hS : ∀ m ∈ x.parts, Keeps pl m.P m.entry.ref.ser.de) : MKeeps pl (fun t => ∀ y ∈ L, y.Holds t) x.slot.toMember := by
  intro t s e u hs ht t' p e' u' hr
  cases x with
  | one m =>
    have hset := fun v (hv : m.P v) => kslot_one_set hf hx ht hv
    have h3 := ht _ hx
    have hd := hd m (by simp [KSlot.parts])
    have hS := hS m (by simp [KSlot.parts])
    clear hx
    obtain ⟨en, P⟩ := m
    cases en with
    | mem r =>
      exact member_keeps (Q := fun t => ∀ y ∈ L, y.Holds t) (set := fun a => r.set a t) hS h3 ht hset hs hr
    | prop r =>
      exact member_keeps (Q := fun t => ∀ y ∈ L, y.Holds t) (set := fun a => r.set a t) hS hd ht hset hs hr
  | alt l r dl dr i RU =>
    obtain ⟨h1, h2, h3, h4, -⟩ := ha
    have hl := hS l (by simp [KSlot.parts])
    have hr' := hS r (by simp [KSlot.parts])
    have gl := kslot_get_set hf hx (m := l) (by simp [KSlot.parts])
    have gr := kslot_get_set hf hx (m := r) (by simp [KSlot.parts])
    have hQ : ∀ t, (∀ y ∈ L, y.Holds t) → AtWork L (.alt l r dl dr i RU) l r t := fun t h =>
      ⟨fun y hy _ => h y hy, (h _ hx).1, (h _ hx).2.1⟩
    cases RU with
    | false =>
      exact deMemberIf_holds (a := l) (b := r) hl hr' h1 h2 hQ (fun _ h => h.2.1) (fun _ h => h.2.2) (fun _ h _ hv => atWork_set_l hf hx h hv)
        (fun t h => atWork_done (atWork_set_l hf hx h h3) (.inl (gl _ _))) (fun t h => atWork_done (atWork_set_r hf hx h h4) (.inr (gr _ _)))
        (fun t h v hv => atWork_done (atWork_set_r hf hx (atWork_set_l hf hx h h3) hv) (.inl (by rw [(kslot_alt hf hx).1, gl]))) hs ht hr
    | true =>
      exact deMemberIf_holds (a := r) (b := l) hr' hl h2 h1 hQ (fun _ h => h.2.2) (fun _ h => h.2.1) (fun _ h _ hv => atWork_set_r hf hx h hv)
        (fun t h => atWork_done (atWork_set_r hf hx h h4) (.inr (gr _ _))) (fun t h => atWork_done (atWork_set_l hf hx h h3) (.inl (gl _ _)))
        (fun t h v hv => atWork_done (atWork_set_l hf hx (atWork_set_r hf hx h h4) hv) (.inr (by rw [(kslot_alt hf hx).2, gr]))) hs ht hr

theorem kslot_akeeps {x : KSlot τ} (hx : x ∈ L) (ha : x.Apart) (hd : ∀ m ∈ x.parts, m.P m.entry.ref.ser.dflt)
    (hS : ∀ m ∈ x.parts, Keeps pl m.P m.entry.ref.ser.de) : Keeps pl (fun t => ∀ y ∈ L, y.Holds t) x.slot.toAMember.de := by
  cases x with
  | one m =>
    intro t s e hs ht
    have hset := fun v (hv : m.P v) => kslot_one_set hf hx ht hv
    have h3 := ht _ hx
    have hd := hd m (by simp [KSlot.parts])
    have hS := hS m (by simp [KSlot.parts])
    clear hx
    obtain ⟨en, P⟩ := m
    cases en with
    | mem r => exact .bind (hS _ _ _ hs h3) fun _ _ _ h hx => .ok h (hset _ hx)
    | prop r => exact .bind (hS _ _ _ hs hd) fun _ _ _ h hx => .ok h (hset _ hx)
  | alt l r dl dr i RU =>
    obtain ⟨h1, h2, h3, h4, -⟩ := ha
    have hl := hS l (by simp [KSlot.parts])
    have hr' := hS r (by simp [KSlot.parts])
    have gl := kslot_get_set hf hx (m := l) (by simp [KSlot.parts])
    have gr := kslot_get_set hf hx (m := r) (by simp [KSlot.parts])
    have hQ : ∀ t, (∀ y ∈ L, y.Holds t) → AtWork L (.alt l r dl dr i RU) l r t := fun t h =>
      ⟨fun y hy _ => h y hy, (h _ hx).1, (h _ hx).2.1⟩
    cases RU with
    | false =>
      exact deAMemberIf_holds (a := l) (b := r) hl hr' h1 h2 hQ (fun _ h => h.2.1) (fun _ h => h.2.2) (fun _ h _ hv => atWork_set_l hf hx h hv)
        (fun t h => atWork_done (atWork_set_l hf hx h h3) (.inl (gl _ _))) (fun t h => atWork_done (atWork_set_r hf hx h h4) (.inr (gr _ _)))
        (fun t h v hv => atWork_done (atWork_set_r hf hx (atWork_set_l hf hx h h3) hv) (.inl (by rw [(kslot_alt hf hx).1, gl])))
    | true =>
      exact deAMemberIf_holds (a := r) (b := l) hr' hl h2 h1 hQ (fun _ h => h.2.2) (fun _ h => h.2.1) (fun _ h _ hv => atWork_set_r hf hx h hv)
        (fun t h => atWork_done (atWork_set_r hf hx h h4) (.inr (gr _ _))) (fun t h => atWork_done (atWork_set_l hf hx h h3) (.inl (gl _ _)))
        (fun t h v hv => atWork_done (atWork_set_l hf hx (atWork_set_r hf hx h h4) hv) (.inr (by rw [(kslot_alt hf hx).2, gr])))

end

/-- What a place holds can be written and read back. -/
theorem kslot_good {τ : Type} {c : Cfg} {v : τ} {x : KSlot τ} (ha : x.Apart) (hv : x.Holds v)
    (hg : ∀ m ∈ x.parts, ∀ y, m.P y → GoodValue c m.entry.ref.ser y) :
    GoodValue c (x.slot.live v).ser ((x.slot.live v).get v) ∧
    (∀ o, x.slot.idle v = some o → Reads o.ser.de b!"null" (o.get v)) ∧
    ∀ o, x.slot.idle v = some o → x.slot.idleFirst v → ∀ t, (x.slot.live v).ser.emit ((x.slot.live v).get v) ⟨[], .back⟩ = .ok ⟨t, .back⟩ →
      Rejects o.ser.de t := by
  cases x with
  | one m => exact ⟨hg m (by simp [KSlot.parts]) _ hv, nofun, nofun⟩
  | alt l r dl dr i RU =>
    obtain ⟨h1, h2, h3, h4, h5, h6, h7⟩ := ha
    obtain ⟨v1, v2, v3⟩ := hv
    have hl := hg l (by simp [KSlot.parts])
    have hr := hg r (by simp [KSlot.parts])
    by_cases h : l.entry.ref.get v = dl
    · have hi := (h5 _ v1).mpr h
      have e1 : (KSlot.alt l r dl dr i RU).slot.live v = r.entry.ref := if_pos hi
      have e2 : (KSlot.alt l r dl dr i RU).slot.idle v = some l.entry.ref := congrArg some (if_pos hi)
      have e3 : (KSlot.alt l r dl dr i RU).slot.idleFirst v ↔ RU ≠ true := by simp only [KSlot.slot, Slot.idleFirst, hi]
      rw [e1, e2, e3]
      simp only [Option.some.injEq]
      refine ⟨hr _ v2, ?_, ?_⟩
      · rintro o rfl; rw [h]; exact h1
      · rintro o rfl hne t ht
        refine h6 ?_ _ t v2 ht
        cases RU with
        | false => rfl
        | true => exact absurd rfl hne
    · have hi : i (l.entry.ref.get v) = false := by
        cases hi : i (l.entry.ref.get v) with
        | false => rfl
        | true => exact absurd ((h5 _ v1).mp hi) h
      have hi' : ¬ i (l.entry.ref.get v) = true := by simp [hi]
      have e1 : (KSlot.alt l r dl dr i RU).slot.live v = l.entry.ref := if_neg hi'
      have e2 : (KSlot.alt l r dl dr i RU).slot.idle v = some r.entry.ref := congrArg some (if_neg hi')
      have e3 : (KSlot.alt l r dl dr i RU).slot.idleFirst v ↔ RU ≠ false := by simp only [KSlot.slot, Slot.idleFirst, hi]
      rw [e1, e2, e3]
      simp only [Option.some.injEq]
      refine ⟨hl _ v1, ?_, ?_⟩
      · rintro o rfl
        rcases v3 with v3 | v3
        · exact absurd v3 h
        · rw [v3]; exact h2
      · rintro o rfl hne t ht
        refine h7 ?_ _ t v1 h ht
        cases RU with
        | true => rfl
        | false => exact absurd rfl hne

/-! ### All descriptions -/

theorem deFixVec_safe {α : Type} {N : Nat} {U : Prop} (k : FixKind) {S : Ser α} (hS : Safe U S.de) :
    Safe U (deFixVec k S : De (Vector α N)) := by
  intro v s e
  have h := deFix_safe (k := k) (L := c%'[') (R := c%']') hS v.toList s e
  rcases deFixVec_eq k S v s e with ⟨w', p', e1, h1, h2⟩ | ⟨h1, h2⟩ | ⟨h1, h2⟩
  · rw [h1] at h
    rcases h with ⟨h, _⟩ | ⟨_, _, _, h, h3, h4⟩
    · cases h
    · cases h; rw [h2]; exact .ok h3 h4
  · rw [h1] at h
    rcases h with ⟨_, h⟩ | ⟨_, _, _, h, h3, h4⟩
    · exact .inl ⟨h2, h⟩
    · cases h
  · rw [h1] at h
    rcases h with ⟨h, _⟩ | ⟨_, _, _, h, h3, h4⟩ <;> cases h

/-- Plain, if it has to be. -/
def plainIf : Bool → Bytes → Prop
  | true => CalmText
  | false => AnyText

theorem TextOk.plainIf {pl : Bool} {s : Bytes} (h : pl = true → CalmText s) : TextOk (plainIf pl) s := by
  cases pl with
  | true => exact .of (h rfl)
  | false => exact .any s

/-- What is shown of every description at once. -/
structure Kept (c : Cfg) (pl : Bool) {α : Type} (S : Ser α) (P : α → Prop) : Prop where
  dflt : P S.dflt
  good : ∀ v, P v → GoodValue c S v
  keeps : Keeps (plainIf pl) P S.de
  safe : Safe True S.de

theorem strOk_nil : StrOk [] := plain_ok (by simp) (by simp)

theorem size_fits {ty : IntTy} (hs : ty.Std) (hu : ty ≠ .ulong) {v : Int} (h : ty.InRange v) : IntTy.long.InRange (v * 1) := by
  rw [Int.mul_one]
  obtain ⟨b, sg⟩ := ty
  simp only [IntTy.Std] at hs
  unfold IntTy.InRange at h ⊢
  rcases hs with rfl | rfl | rfl | rfl <;> cases sg <;>
    first
    | exact absurd rfl hu
    | (simp only [IntTy.min, IntTy.max, IntTy.long] at h ⊢
       simp at h ⊢
       omega)

theorem Stable.kept {c : Cfg} : ∀ {pl : Bool} {α : Type} {S : Ser α} {P : α → Prop}, Stable c pl S P → Kept c pl S P
  | pl, _, _, _, .int hs => ⟨zero_kept hs, fun _ h => .int hs h.1 h.2, deInt_keeps hs _, (deInt_safe c _).any⟩
  | pl, _, _, _, .bool => ⟨trivial, fun v _ => .bool v, keeps_true deBool_safe _, deBool_safe.any⟩
  | _, _, _, _, .str => ⟨strOk_nil, fun _ h => .str h, deStr_keeps, deStr_safe.any⟩
  | _, _, _, _, .chars (N := N) hN => ⟨⟨[], by simp [charArraySer], by simp, by simp, strOk_nil⟩,
      fun _ h => by obtain ⟨w, rfl, h1, h2, h3⟩ := h; exact .chars h1 h2 h3, deCharArray_keeps hN, (deCharArray_safe N).any⟩
  | pl, _, _, _, .float (F := F) (R := R) h1 h2 h3 =>
      ⟨trivial, fun v _ => .float (h1 v) (h2 v) (h3 v), keeps_true (deFloat_safe F R) _, (deFloat_safe F R).any⟩
  | pl, _, _, _, @Stable.enum _ _ _ _ strict dflt L h1 h2 h3 =>
      ⟨h3, fun v hv => .enum h1 h2 hv, deEnum_keeps h3 _, deEnum_safe c strict dflt L⟩
  | pl, _, _, _, .flags (F := F) h1 h2 h3 =>
      ⟨Union.zero _, fun v hv => by obtain ⟨us, hu, rfl⟩ := hv; exact .flags h1 h2 h3 hu, deFlags_keeps c F _, (deFlags_safe c F).any⟩
  | pl, _, _, _, .flagsSep (F := F) h1 h2 h3 h4 =>
      ⟨Union.zero _, fun v hv => by obtain ⟨us, hu, rfl⟩ := hv; exact .flagsSep h1 h2 h3 h4 hu, deFlags_keeps c F _, (deFlags_safe c F).any⟩
  | _, _, _, _, .quoted (reqQ := reqQ) h hq =>
      ⟨h.kept.dflt, fun v hv => .quoted (h.kept.good v hv) fun t => hq v t hv, deQuoted_keeps reqQ h.kept.safe h.kept.keeps,
        deQuoted_safe h.kept.safe reqQ⟩
  | _, _, _, _, .unquoted h hq =>
      ⟨h.kept.dflt, fun v hv => .unquoted (h.kept.good v hv) fun t => hq v t hv, deQuoted_keeps false h.kept.safe h.kept.keeps,
        deQuoted_safe h.kept.safe false⟩
  | _, _, _, _, .pointer (S := S) h hq =>
      ⟨by simp [pointerSer], fun o ho => by
        cases o with
        | none => exact .null S
        | some v => exact .pointer (h.kept.good v (ho v rfl)) fun t => hq v t (ho v rfl),
        dePointer_keeps h.kept.dflt h.kept.keeps, dePointer_safe h.kept.safe⟩
  | _, _, _, _, .memberValue (dflt := d) (get := g) (set := s) (P := P) h hgs hsg hd =>
      ⟨hd, fun v hv => .memberValue (h.kept.good _ hv) (hsg v),
        fun t x e ht hv => .bind (h.kept.keeps (g t) x e ht hv) fun v p e' hp hv => .ok (v := s v t) hp (by rw [hgs]; exact hv),
        memberValue_safe h.kept.safe d g s⟩
  | _, _, _, _, .seq h =>
      ⟨by simp [arraySer, seqSer, seqColl], fun vs hv => .seq fun v hm => h.kept.good v (hv v hm),
        deSeq_keeps (K := seqColl _) _ _ h.kept.dflt h.kept.keeps (by
          intro t x ht hx v hv
          simp only [seqColl, List.mem_append, List.mem_singleton] at hv
          rcases hv with hv | rfl
          · exact ht v hv
          · exact hx) (by simp [seqColl]), deSeq_safe h.kept.safe⟩
  | _, _, _, _, .set (lt := lt) ho h =>
      ⟨⟨.nil, by simp [arraySer, seqSer, setColl]⟩, fun vs hv => .set ho hv.1 fun v hm => h.kept.good v (hv.2 v hm),
        deSeq_keeps (K := setColl _ lt) _ _ h.kept.dflt h.kept.keeps (by
          intro t x ht hx
          refine ⟨setInsert_increasing (lt := lt) (fun _ _ _ h1 h2 => ho.trans h1 h2) ht.1, fun v hv => ?_⟩
          rcases setInsert_mem hv with hv | rfl
          · exact ht.2 v hv
          · exact hx) ⟨.nil, by simp [setColl]⟩, deSeq_safe h.kept.safe⟩
  | _, _, _, _, .multiset (lt := lt) ho h =>
      ⟨⟨.nil, by simp [arraySer, seqSer, multisetColl]⟩, fun vs hv => .multiset hv.1 fun v hm => h.kept.good v (hv.2 v hm),
        deSeq_keeps (K := multisetColl _ lt) _ _ h.kept.dflt h.kept.keeps (by
          intro t x ht hx
          refine ⟨multisetInsert_sorted ho ht.1, fun v hv => ?_⟩
          rcases List.mem_cons.mp ((multisetInsert_perm t x).mem_iff.mp hv) with rfl | hv
          · exact hx
          · exact ht.2 v hv) ⟨.nil, by simp [multisetColl]⟩, deSeq_safe h.kept.safe⟩
  | _, _, _, _, .fixed (k := k) hN h =>
      ⟨by
        intro v hv
        simp only [fixVecSer, Vector.toList_replicate] at hv
        exact List.eq_of_mem_replicate hv ▸ h.kept.dflt,
        fun vs hv => .fixed hN fun v hm => h.kept.good v (hv v hm),
        deFixVec_keeps k h.kept.dflt h.kept.keeps, deFixVec_safe k h.kept.safe⟩
  | _, _, _, _, .dict (SK := SK) (SV := SV) h h' =>
      ⟨by simp [dictSer, seqSer, seqColl], fun vs hv => .dict (fun x hx => h.kept.good _ (hv x hx).1) fun x hx => h'.kept.good _ (hv x hx).2,
        deSeq_keeps (K := seqColl _) (S := fieldSer SK SV) _ _ ⟨h.kept.dflt, h'.kept.dflt⟩ (deField_keeps h.kept.keeps h'.kept.keeps) (by
          intro t x ht hx v hv
          simp only [seqColl, List.mem_append, List.mem_singleton] at hv
          rcases hv with hv | rfl
          · exact ht v hv
          · exact hx) (by simp [seqColl]), deSeq_safe (S := fieldSer SK SV) (deField_safe h.kept.safe h'.kept.safe)⟩
  | _, _, _, _, .map (SK := SK) (SV := SV) (lt := lt) ho h h' =>
      ⟨⟨.nil, by simp [dictSer, seqSer, mapColl]⟩,
        fun vs hv => .map ho hv.1 (fun x hx => h.kept.good _ (hv.2 x hx).1) fun x hx => h'.kept.good _ (hv.2 x hx).2,
        deSeq_keeps (K := mapColl _ _ lt) (S := fieldSer SK SV) _ _ ⟨h.kept.dflt, h'.kept.dflt⟩ (deField_keeps h.kept.keeps h'.kept.keeps) (by
          intro t x ht hx
          refine ⟨setInsert_increasing (lt := fun a b : _ × _ => lt a.1 b.1) (fun _ _ _ h1 h2 => ho.trans h1 h2) ht.1, fun v hv => ?_⟩
          rcases setInsert_mem hv with hv | rfl
          · exact ht.2 v hv
          · exact hx) ⟨.nil, by simp [mapColl]⟩, deSeq_safe (S := fieldSer SK SV) (deField_safe h.kept.safe h'.kept.safe)⟩
  | pl, _, _, _, .object (τ := τ) (strict := strict) (dflt := dflt) (L := L) hf hn he h hd => by
      refine ⟨hd, fun v hv => ?_, deObject_keeps c strict (dflt := dflt) (Q := fun t => ∀ m ∈ L, m.P (m.entry.ref.get t)) hd fun m hm => ?_,
        deObject_safe (fun _ => trivial) fun m hm => ?_⟩
      · have := GoodValue.object (c := c) (strict := strict) (dflt := dflt) (L := L.map PEntry.entry) (v := v) (by simpa [Function.comp_def] using hf)
          (by simpa [names] using hn) (by simpa using he) (by
            intro en hen
            obtain ⟨m, hm, rfl⟩ := List.mem_map.mp hen
            exact (h m hm).kept.good _ (hv m hm))
        simpa [Function.comp_def] using this
      · obtain ⟨m, hmL, rfl⟩ := List.mem_map.mp hm
        exact entry_keeps hf hmL (h m hmL).kept.dflt (h m hmL).kept.keeps
      · obtain ⟨m, hmL, rfl⟩ := List.mem_map.mp hm
        have := (h m hmL).kept.safe
        obtain ⟨en, P⟩ := m
        cases en with
        | mem r => exact deMember_safe this
        | prop r => exact deMemberP_safe this
  | pl, _, _, _, .objectArray (τ := τ) (dflt := dflt) (L := L) hf he h hd => by
      refine ⟨hd, fun v hv => ?_, deObjectArray_keeps (dflt := dflt) (Q := fun t => ∀ m ∈ L, m.P (m.entry.ref.get t)) hd fun m hm => ?_,
        deObjectArray_safe fun m hm => ?_⟩
      · have := GoodValue.objectArray (c := c) (dflt := dflt) (L := L.map PEntry.entry) (v := v) (by simpa [Function.comp_def] using hf)
          (by simpa using he) (by
            intro en hen
            obtain ⟨m, hm, rfl⟩ := List.mem_map.mp hen
            exact (h m hm).kept.good _ (hv m hm))
        simpa [Function.comp_def] using this
      · obtain ⟨m, hmL, rfl⟩ := List.mem_map.mp hm
        exact aentry_keeps hf hmL (h m hmL).kept.dflt (h m hmL).kept.keeps
      · obtain ⟨m, hmL, rfl⟩ := List.mem_map.mp hm
        have := (h m hmL).kept.safe
        obtain ⟨en, P⟩ := m
        cases en with
        | mem r => exact amember_safe this
        | prop r => exact amemberP_safe this
  | pl, _, _, _, .objectIf (τ := τ) (strict := strict) (dflt := dflt) (L := L) hf hsn hn he h ha hd => by
      have hk := fun {x : KSlot τ} (hx : x ∈ L) {m : PEntry τ} (hm : m ∈ x.parts) => (h m (List.mem_flatMap.mpr ⟨x, hx, hm⟩)).kept
      refine ⟨hd, fun v hv => ?_, deObject_keeps c strict (dflt := dflt) (Q := fun t => ∀ x ∈ L, x.Holds t) hd fun m hm => ?_,
        deObject_safe (fun _ => trivial) fun m hm => ?_⟩
      · have hg := fun {x : KSlot τ} (hx : x ∈ L) => kslot_good (c := c) (ha x hx) (hv x hx) fun m hm => (hk hx hm).good
        refine .objectIf hf ?_ ?_ he ?_ ?_ ?_
        · intro y hy; obtain ⟨x, hx, rfl⟩ := List.mem_map.mp hy; exact hsn x hx
        · intro x hx
          refine hn _ (List.mem_flatMap.mpr ⟨x, hx, ?_⟩)
          cases x with
          | one en => simp [Slot.live, Slot.refs]
          | alt l r i RU => simp only [Slot.live, Slot.refs]; split <;> simp
        · intro y hy; obtain ⟨x, hx, rfl⟩ := List.mem_map.mp hy; exact (hg hx).1
        · intro y hy; obtain ⟨x, hx, rfl⟩ := List.mem_map.mp hy; exact (hg hx).2.1
        · intro y hy; obtain ⟨x, hx, rfl⟩ := List.mem_map.mp hy; exact (hg hx).2.2
      · obtain ⟨y, hy, rfl⟩ := List.mem_map.mp hm
        obtain ⟨x, hx, rfl⟩ := List.mem_map.mp hy
        exact kslot_keeps hf hx (ha x hx) (fun m hm => (hk hx hm).dflt) fun m hm => (hk hx hm).keeps
      · obtain ⟨y, hy, rfl⟩ := List.mem_map.mp hm
        obtain ⟨x, hx, rfl⟩ := List.mem_map.mp hy
        have hs := fun {m : PEntry τ} (hm : m ∈ x.parts) => (hk hx hm).safe
        cases x with
        | one m =>
          have := hs (m := m) (by simp [KSlot.parts])
          obtain ⟨en, P⟩ := m
          cases en with
          | mem r => exact deMember_safe this
          | prop r => exact deMemberP_safe this
        | alt l r dl dr i RU => exact memberIf_safe (hs (m := l) (by simp [KSlot.parts])) (hs (m := r) (by simp [KSlot.parts])) i RU
  | pl, _, _, _, .objectArrayIf (τ := τ) (dflt := dflt) (L := L) hf he h ha hd => by
      have hk := fun {x : KSlot τ} (hx : x ∈ L) {m : PEntry τ} (hm : m ∈ x.parts) => (h m (List.mem_flatMap.mpr ⟨x, hx, hm⟩)).kept
      refine ⟨hd, fun v hv => ?_, deObjectArray_keeps (dflt := dflt) (Q := fun t => ∀ x ∈ L, x.Holds t) hd fun m hm => ?_,
        deObjectArray_safe fun m hm => ?_⟩
      · have hg := fun {x : KSlot τ} (hx : x ∈ L) => kslot_good (c := c) (ha x hx) (hv x hx) fun m hm => (hk hx hm).good
        refine .objectArrayIf hf he ?_ ?_ ?_
        · intro y hy; obtain ⟨x, hx, rfl⟩ := List.mem_map.mp hy; exact (hg hx).1
        · intro y hy; obtain ⟨x, hx, rfl⟩ := List.mem_map.mp hy; exact (hg hx).2.1
        · intro y hy; obtain ⟨x, hx, rfl⟩ := List.mem_map.mp hy; exact (hg hx).2.2
      · obtain ⟨y, hy, rfl⟩ := List.mem_map.mp hm
        obtain ⟨x, hx, rfl⟩ := List.mem_map.mp hy
        exact kslot_akeeps hf hx (ha x hx) (fun m hm => (hk hx hm).dflt) fun m hm => (hk hx hm).keeps
      · obtain ⟨y, hy, rfl⟩ := List.mem_map.mp hm
        obtain ⟨x, hx, rfl⟩ := List.mem_map.mp hy
        have hs := fun {m : PEntry τ} (hm : m ∈ x.parts) => (hk hx hm).safe
        cases x with
        | one m =>
          have := hs (m := m) (by simp [KSlot.parts])
          obtain ⟨en, P⟩ := m
          cases en with
          | mem r => exact amember_safe this
          | prop r => exact amemberP_safe this
        | alt l r dl dr i RU => exact amemberIf_safe (hs (m := l) (by simp [KSlot.parts])) (hs (m := r) (by simp [KSlot.parts])) i RU
  | pl, _, _, _, .time hs => ⟨zero_inRange hs, fun v hv => .time hs (.inl rfl) hv (.inr (Int.emod_one v)), deTime_keeps hs 1 _,
      fun v s e => (deTime_safe c _ 1 v s e).mono (fun _ => trivial) (List.suffix_refl _) (.refl _ _)⟩
  | pl, _, _, _, .size hs hu hm => ⟨zero_inRange hs, fun v hv => .size hs (by decide) (by decide) hv (size_fits hs hu hv) (.inr hm),
      deSize_keeps hs 1 _, fun v s e => (deSize_safe c _ 1 v s e).mono (fun _ => trivial) (List.suffix_refl _) (.refl _ _)⟩

end Wjson
