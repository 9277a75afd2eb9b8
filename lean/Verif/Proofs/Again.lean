import Verif.Spec.Again
import Verif.Proofs.Nested
import Verif.Proofs.Slots
import Verif.Props.Reuse
/-
Lemmas for C84: what reading a text does to a variable.
-/
namespace Wjson
open Spec

/-- Whatever the variable held, the computation has undefined behaviour, or
has one effect of `E` on the variable and gives one result. -/
def Uni {τ ρ : Type} (E : (τ → τ) → Prop) (g : τ → Out (τ × ρ)) : Prop :=
  (∀ t, g t = .ub) ∨ (∀ t, g t = .fuel) ∨ ∃ f r, E f ∧ ∀ t, g t = .ok (f t, r)

/-- A set of effects closed under composition in which of several only the last
occurrence of each matters. -/
structure Band {τ : Type} (E : (τ → τ) → Prop) : Prop where
  one : E id
  comp : ∀ {f g}, E f → E g → E (f ∘ g)
  last : ∀ {f g}, E f → E g → ∀ t, f (g (f t)) = f (g t)

theorem Uni.ok {τ ρ : Type} {E : (τ → τ) → Prop} (f : τ → τ) (r : ρ) (h : E f) : Uni E fun t => .ok (f t, r) :=
  .inr (.inr ⟨f, r, h, fun _ => rfl⟩)

theorem Uni.bind {τ ρ σ : Type} {E : (τ → τ) → Prop} (hE : Band E) {g : τ → Out (τ × ρ)} {h : τ × ρ → Out (τ × σ)}
    (hg : Uni E g) (hh : ∀ r, Uni E fun t => h (t, r)) : Uni E fun t => g t >>= h := by
  rcases hg with hg | hg | ⟨f, r, hf, hg⟩
  · exact .inl fun t => by show (_ >>= _) = _; rw [hg]; rfl
  · exact .inr (.inl fun t => by show (_ >>= _) = _; rw [hg]; rfl)
  · rcases hh r with h' | h' | ⟨f', r', hf', h'⟩
    · exact .inl fun t => by show (_ >>= _) = _; rw [hg]; exact h' _
    · exact .inr (.inl fun t => by show (_ >>= _) = _; rw [hg]; exact h' _)
    · exact .inr (.inr ⟨f' ∘ f, r', hE.comp hf' hf, fun t => by show (_ >>= _) = _; rw [hg]; exact h' _⟩)

/-- A computation that does not involve the variable comes first. -/
theorem Uni.after {τ ρ σ : Type} {E : (τ → τ) → Prop} {x : Out ρ} {h : ρ → τ → Out (τ × σ)} (hh : ∀ r, Uni E (h r)) :
    Uni E fun t => x >>= fun r => h r t := by
  cases x with
  | ok r => exact hh r
  | ub => exact .inl fun _ => rfl
  | fuel => exact .inr (.inl fun _ => rfl)

theorem Uni.mono {τ ρ : Type} {E E' : (τ → τ) → Prop} {g : τ → Out (τ × ρ)} (h : Uni E g) (hE : ∀ f, E f → E' f) : Uni E' g := by
  rcases h with h | h | ⟨f, r, hf, h⟩
  · exact .inl h
  · exact .inr (.inl h)
  · exact .inr (.inr ⟨f, r, hE f hf, h⟩)

/-- The effect on the whole of a computation on a part. -/
theorem Uni.part {τ α ρ σ : Type} {E : (α → α) → Prop} {E' : (τ → τ) → Prop} {g : α → Out (α × ρ)} (h : Uni E g)
    (get : τ → α) (put : α → τ → τ) (k : ρ → σ) (hE : ∀ f, E f → E' fun t => put (f (get t)) t) :
    Uni E' fun t => g (get t) >>= fun d => .ok (put d.1 t, k d.2) := by
  rcases h with h | h | ⟨f, r, hf, h⟩
  · exact .inl fun t => by show (_ >>= _) = _; rw [h]; rfl
  · exact .inr (.inl fun t => by show (_ >>= _) = _; rw [h]; rfl)
  · exact .inr (.inr ⟨_, k r, hE f hf, fun t => by show (_ >>= _) = _; rw [h]; rfl⟩)

/-- Reads have effects of a band. -/
def Stamps {α : Type} (D : De α) : Prop := ∃ E : (α → α) → Prop, Band E ∧ ∀ s e, Uni E fun v => D v s e

/-- The effects of a band and those that store one value. -/
def OrConst {τ : Type} (E : (τ → τ) → Prop) (f : τ → τ) : Prop := E f ∨ ∃ x, f = fun _ => x

theorem Band.orConst {τ : Type} {E : (τ → τ) → Prop} (h : Band E) : Band (OrConst E) where
  one := .inl h.one
  comp := by
    rintro f g (hf | ⟨x, rfl⟩) (hg | ⟨y, rfl⟩)
    · exact .inl (h.comp hf hg)
    · exact .inr ⟨f y, rfl⟩
    · exact .inr ⟨x, rfl⟩
    · exact .inr ⟨x, rfl⟩
  last := by
    rintro f g (hf | ⟨x, rfl⟩) (hg | ⟨y, rfl⟩) t
    · exact h.last hf hg t
    · rfl
    · rfl
    · rfl

/-- Nothing happens. -/
def Still {τ : Type} (f : τ → τ) : Prop := f = id

theorem Band.still {τ : Type} : Band (Still (τ := τ)) where
  one := rfl
  comp := by rintro f g rfl rfl; rfl
  last := by rintro f g rfl rfl t; rfl

theorem Uni.const {τ ρ : Type} {E : (τ → τ) → Prop} (x : Out (τ × ρ)) : Uni (OrConst E) fun _ => x := by
  cases x with
  | ok r => exact .inr (.inr ⟨_, r.2, .inr ⟨r.1, rfl⟩, fun _ => rfl⟩)
  | ub => exact .inl fun _ => rfl
  | fuel => exact .inr (.inl fun _ => rfl)

/-! ### Values -/

theorem Overwrites.stamps {c : Cfg} {α : Type} {S : Ser α} (h : Overwrites c S) : Stamps S.de := by
  refine ⟨OrConst Still, Band.still.orConst, fun s e => ?_⟩
  cases s with
  | cons b t =>
    have : (fun v => S.de v (b :: t) e) = fun _ => S.de S.dflt (b :: t) e := funext fun v => C57_any_text h _ _ (by simp) e
    rw [this]
    exact .const _
  | nil =>
    cases h
    case int => exact .ok id _ (.inl rfl)
    case bool => exact .ok id _ (.inl rfl)
    case time => exact .ok id _ (.inl rfl)
    case size => exact .ok id _ (.inl rfl)
    all_goals exact .const _

theorem float_stamps {α : Type} {F : FloatTy α} {R : Int} (h : ∀ t, (∃ x, ∀ v, F.conv t v = x) ∨ ∀ v, F.conv t v = v) :
    Stamps (floatSer F R).de := by
  refine ⟨OrConst Still, Band.still.orConst, fun s e => ?_⟩
  cases s with
  | nil => exact .ok id _ (.inl rfl)
  | cons b t =>
    simp only [floatSer, deFloat]
    by_cases h1 : isNull (b :: t) = true
    · simp only [h1, if_true]; exact .const _
    · simp only [h1]
      by_cases h2 : (!isNumber (b :: t)) = true
      · simp only [h2, if_true]; exact .ok id _ (.inl rfl)
      · simp only [h2]
        rcases h (((b :: t).take (floatBuf R)).takeWhile (· ≠ 0)) with ⟨x, hx⟩ | hx
        · simp only [hx]; exact .const _
        · simp only [hx]; exact .ok id _ (.inl rfl)

theorem rawQuoted_stamps {c : Cfg} {serQ reqQ : Bool} : Stamps (rawQuotedSer c serQ reqQ).de := by
  refine ⟨OrConst Still, Band.still.orConst, fun s e => ?_⟩
  cases s with
  | nil => exact .ok id _ (.inl rfl)
  | cons b t =>
    simp only [rawQuotedSer, deRawQuoted]
    by_cases h1 : (reqQ && decide (b ≠ c%'"')) = true
    · rw [funext fun v => if_pos h1]; exact .ok id _ (.inl rfl)
    · rw [funext fun v => if_neg h1]; exact .const _

/-! ### Quoted values, parts and pairs -/

theorem quoted_stamps {α : Type} {S : Ser α} {serQ reqQ : Bool} (h : Stamps S.de) : Stamps (quotedSer S serQ reqQ).de := by
  obtain ⟨E, hE, h⟩ := h
  refine ⟨E, hE, fun s e => ?_⟩
  have str : Uni E fun v => deQuotedStr S v s e := by
    refine Uni.after (h := fun (r : Bytes × Bytes × EPtr) v => if r.2.2.failed then .ok (v, [], r.2.2) else S.de v r.1 .fresh >>= fun r2 =>
      match r2.2.2 with
      | .null => .ok (r2.1, r.2)
      | .obj x =>
        if x.status && r.2.2 ≠ .null then
          .ok (r2.1, [], r.2.2.assign ⟨x.code, none, (r.2.1.length : Int) + x.tailOf + 1⟩)
        else .ok (r2.1, r.2)) fun r => ?_
    by_cases hf : r.2.2.failed = true
    · simp only [hf, if_true]; exact .ok id _ hE.one
    · simp only [hf]
      refine Uni.bind hE (h r.1 .fresh) fun x => ?_
      obtain ⟨q, e2⟩ := x
      cases e2 with
      | null => exact .ok id _ hE.one
      | obj y =>
        by_cases h3 : (y.status && decide (r.2.2 ≠ .null)) = true
        · simp only [h3, if_true]; exact .ok id _ hE.one
        · simp only [h3]; exact .ok id _ hE.one
  simp only [quotedSer, deQuoted]
  cases reqQ
  · cases hs : isString s
    · exact h s e
    · exact str
  · exact str

theorem memberValue_stamps {τ α : Type} {dflt : τ} {get : τ → α} {set : α → τ → τ} {S : Ser α} (h1 : ∀ x t, get (set x t) = x)
    (h2 : ∀ x y t, set x (set y t) = set x t) (h3 : ∀ t, set (get t) t = t) (h : Stamps S.de) :
    Stamps (memberValueSer dflt get set S).de := by
  obtain ⟨E, hE, h⟩ := h
  refine ⟨fun f => ∃ g, E g ∧ f = fun t => set (g (get t)) t, ⟨⟨id, hE.one, ?_⟩, ?_, ?_⟩, fun s e => ?_⟩
  · funext t; exact (h3 t).symm
  · rintro f f' ⟨g, hg, rfl⟩ ⟨g', hg', rfl⟩
    exact ⟨g ∘ g', hE.comp hg hg', funext fun t => by simp [h1, h2]⟩
  · rintro f f' ⟨g, hg, rfl⟩ ⟨g', hg', rfl⟩ t
    simp only [h1, h2, hE.last hg hg']
  · exact (h s e).part get set id fun f hf => ⟨f, hf, rfl⟩

theorem field_stamps {κ ν : Type} {SK : Ser κ} {SV : Ser ν} (h : Stamps SK.de) (h' : Stamps SV.de) : Stamps (fieldSer SK SV).de := by
  obtain ⟨E, hE, h⟩ := h
  obtain ⟨E', hE', h'⟩ := h'
  have hB : Band (fun f : κ × ν → κ × ν => ∃ g g', E g ∧ E' g' ∧ f = fun t => (g t.1, g' t.2)) := by
    refine ⟨⟨id, id, hE.one, hE'.one, rfl⟩, ?_, ?_⟩
    · rintro f k ⟨g, g', hg, hg', rfl⟩ ⟨l, l', hl, hl', rfl⟩
      exact ⟨g ∘ l, g' ∘ l', hE.comp hg hl, hE'.comp hg' hl', rfl⟩
    · rintro f k ⟨g, g', hg, hg', rfl⟩ ⟨l, l', hl, hl', rfl⟩ t
      simp only [hE.last hg hl, hE'.last hg' hl']
  refine ⟨_, hB, fun s e => ?_⟩
  have e1 : (fun t => (fieldSer SK SV).de t s e) = fun t => (SK.de t.1 s e >>= fun d => .ok ((d.1, t.2), d.2)) >>= fun d =>
      let r := parseSpace d.2.1 d.2.2
      match r.1 with
      | [] => .ok (d.1, [], createError .UnexpectedEndFragment r.2)
      | b :: p =>
        if b ≠ c%':' then
          .ok (d.1, [], createError .ExpectedOf r.2 (some b!":") ((b :: p).length : Nat))
        else
          let r := parseSpace p r.2
          match r.1 with
          | [] => .ok (d.1, [], createError .UnexpectedEndFragment r.2)
          | b :: p => SV.de d.1.2 (b :: p) r.2 >>= fun x => .ok ((d.1.1, x.1), x.2) := by
    funext t
    show deField SK SV t s e = _
    unfold deField
    cases SK.de t.1 s e <;> rfl
  rw [e1]
  refine Uni.bind hB ((h s e).part (fun t : κ × ν => t.1) (fun x t => (x, t.2)) id fun f hf => ⟨f, id, hf, hE'.one, rfl⟩) fun r => ?_
  obtain ⟨p, e1⟩ := r
  simp only
  cases (parseSpace p e1).1 with
  | nil => exact .ok id _ hB.one
  | cons b q =>
    by_cases hb : b ≠ c%':'
    · simp only [if_pos hb]; exact .ok id _ hB.one
    · simp only [if_neg hb]
      cases (parseSpace q (parseSpace p e1).2).1 with
      | nil => exact .ok id _ hB.one
      | cons b' q' =>
        exact (h' _ _).part (fun t : κ × ν => t.2) (fun x t => (t.1, x)) id fun f hf => ⟨id, f, hE.one, hf, rfl⟩

/-! ### Fixed-size arrays -/

/-- The elements are changed one by one. -/
def EachBy {α : Type} : List (α → α) → List α → List α
  | f :: fs, v :: vs => f v :: EachBy fs vs
  | _, _ => []

theorem EachBy.length {α : Type} : ∀ {fs : List (α → α)} {vs : List α}, vs.length = fs.length → (EachBy fs vs).length = fs.length
  | [], [], _ => rfl
  | f :: fs, v :: vs, h => by simp [EachBy, EachBy.length (fs := fs) (vs := vs) (by simpa using h)]

theorem EachBy.ids {α : Type} : ∀ (vs : List α), EachBy (List.replicate vs.length id) vs = vs
  | [] => rfl
  | v :: vs => by simp [List.replicate_succ, EachBy, EachBy.ids vs]

/-- `Uni` for the lists of `N` elements. -/
def UniL {α ρ : Type} (E : (α → α) → Prop) (N : Nat) (g : List α → Out (List α × ρ)) : Prop :=
  (∀ t, t.length = N → g t = .ub) ∨ (∀ t, t.length = N → g t = .fuel) ∨
    ∃ fs r, fs.length = N ∧ (∀ f ∈ fs, E f) ∧ ∀ t, t.length = N → g t = .ok (EachBy fs t, r)

theorem UniL.still {α ρ : Type} {E : (α → α) → Prop} (hE : Band E) (N : Nat) (r : ρ) : UniL E N fun t => .ok (t, r) :=
  .inr (.inr ⟨List.replicate N id, r, by simp, fun f hf => by rw [(List.mem_replicate.mp hf).2]; exact hE.one,
    fun t ht => by subst ht; rw [EachBy.ids]⟩)

/-- One element and the rest. -/
theorem UniL.cons {α ρ σ : Type} {E : (α → α) → Prop} {N : Nat} {g : α → Out (α × ρ)} (hg : Uni E g)
    {h : ρ → List α → Out (List α × σ)} (hh : ∀ r, UniL E N (h r)) {k : List α → Out (List α × σ)}
    (hk : ∀ v vs, k (v :: vs) = g v >>= fun d => h d.2 vs >>= fun x => .ok (d.1 :: x.1, x.2)) : UniL E (N + 1) k := by
  have cut : ∀ t : List α, t.length = N + 1 → ∃ v vs, t = v :: vs ∧ vs.length = N := by
    intro t ht
    cases t with
    | nil => simp at ht
    | cons v vs => exact ⟨v, vs, rfl, by simpa using ht⟩
  rcases hg with hg | hg | ⟨f, r, hf, hg⟩
  · exact .inl fun t ht => by obtain ⟨v, vs, rfl, hv⟩ := cut t ht; rw [hk, hg]; rfl
  · exact .inr (.inl fun t ht => by obtain ⟨v, vs, rfl, hv⟩ := cut t ht; rw [hk, hg]; rfl)
  · rcases hh r with h' | h' | ⟨fs, r', hl, hfs, h'⟩
    · exact .inl fun t ht => by
        obtain ⟨v, vs, rfl, hv⟩ := cut t ht
        rw [hk, hg]
        show (h r vs >>= _) = _
        rw [h' vs hv]; rfl
    · exact .inr (.inl fun t ht => by
        obtain ⟨v, vs, rfl, hv⟩ := cut t ht
        rw [hk, hg]
        show (h r vs >>= _) = _
        rw [h' vs hv]; rfl)
    · refine .inr (.inr ⟨f :: fs, r', by simp [hl], ?_, fun t ht => ?_⟩)
      · intro x hx
        rcases List.mem_cons.mp hx with rfl | hx
        · exact hf
        · exact hfs x hx
      · obtain ⟨v, vs, rfl, hv⟩ := cut t ht
        rw [hk, hg]
        show (h r vs >>= _) = _
        rw [h' vs hv]; rfl

theorem fixNull_uni {α : Type} {S : Ser α} {E : (α → α) → Prop} (hE : Band E) (h : ∀ s e, Uni E fun v => S.de v s e) (s : Bytes) :
    ∀ (N : Nat) (e : EPtr), UniL E N fun t => fixNull S s t e
  | 0, e => .inr (.inr ⟨[], e, rfl, by simp, fun t ht => by rw [List.length_eq_zero_iff.mp ht]; rfl⟩)
  | N + 1, e => UniL.cons (h s e) (h := fun r vs => fixNull S s vs r.2) (fun r => fixNull_uni hE h s N r.2) fun _ _ => rfl

theorem fixClose_uni {α : Type} {E : (α → α) → Prop} (hE : Band E) (R : Byte) (N : Nat) (s : Bytes) (e : EPtr) :
    UniL E N fun t => fixClose R t s e := by
  cases s with
  | nil => exact UniL.still hE N _
  | cons b p =>
    simp only [fixClose]
    by_cases hb : b ≠ R
    · simp only [if_pos hb]; exact UniL.still hE N _
    · simp only [if_neg hb]; exact UniL.still hE N _

theorem fixClose_eq {α : Type} (R : Byte) (s : Bytes) (e : EPtr) :
    ∃ r, ∀ t : List α, fixClose R t s e = .ok (t, r) := by
  cases s with
  | nil => exact ⟨_, fun _ => rfl⟩
  | cons b p =>
    by_cases hb : b ≠ R
    · exact ⟨_, fun _ => by simp only [fixClose, if_pos hb]; rfl⟩
    · exact ⟨_, fun _ => by simp only [fixClose, if_neg hb]; rfl⟩

theorem start_uni {α : Type} {S : Ser α} {E : (α → α) → Prop} (k : FixKind) (h : ∀ s e, Uni E fun v => S.de v s e) (s : Bytes) (e : EPtr) :
    Uni (OrConst E) fun v => S.de (k.start S v) s e := by
  cases k with
  | stdArray => exact Uni.const (S.de S.dflt s e)
  | cArray => exact (h s e).mono fun f hf => .inl hf

theorem fixLoop_uni {α : Type} {S : Ser α} {E : (α → α) → Prop} (hE : Band E) (k : FixKind) (R : Byte)
    (h : ∀ s e, Uni E fun v => S.de v s e) : ∀ (N : Nat) (s : Bytes) (e : EPtr), UniL (OrConst E) N fun t => fixLoop k S R t s e
  | 0, s, e => by
    obtain ⟨r, hr⟩ := fixClose_eq (α := α) R s e
    exact .inr (.inr ⟨[], r, rfl, by simp, fun t ht => by rw [List.length_eq_zero_iff.mp ht]; exact hr _⟩)
  | N + 1, s, e => by
    have hB := hE.orConst
    have cut : ∀ {ρ : Type} {r : ρ} {g : List α → Out (List α × ρ)}, (∀ v vs, g (v :: vs) = .ok (v :: vs, r)) → UniL (OrConst E) (N + 1) g := by
      intro ρ r g hg
      refine .inr (.inr ⟨List.replicate (N + 1) id, r, by simp, fun f hf => by rw [(List.mem_replicate.mp hf).2]; exact hB.one, fun t ht => ?_⟩)
      cases t with
      | nil => simp at ht
      | cons v vs => rw [← ht, EachBy.ids, hg]
    cases s with
    | nil =>
      obtain ⟨r, hr⟩ := fixClose_eq (α := α) R [] e
      exact cut (r := r) fun v vs => by rw [fixLoop]; exact hr _
    | cons a s =>
      cases h1 : (parseSpace (a :: s) e).1 with
      | nil => exact cut fun v vs => by rw [fixLoop]; simp only [h1]; rfl
      | cons b p =>
        by_cases hb : b = R
        · obtain ⟨r, hr⟩ := fixClose_eq (α := α) R (b :: p) (parseSpace (a :: s) e).2
          exact cut (r := r) fun v vs => by rw [fixLoop]; simp only [h1, if_pos hb]; exact hr _
        · refine UniL.cons (start_uni k h (b :: p) (parseSpace (a :: s) e).2) (h := fun d vs =>
            let r := parseSpace d.1 d.2
            match r.1 with
            | [] => .ok (vs, [], createError .UnexpectedEndFragment r.2)
            | b :: q =>
              if b = R then fixClose R vs (b :: q) r.2
              else if b ≠ c%',' then
                .ok (vs, [], createError .ExpectedOf r.2 (some k.commaMsg) ((b :: q).length : Nat))
              else fixLoop k S R vs q r.2) (fun d => ?_) fun v vs => ?_
          · simp only
            cases (parseSpace d.1 d.2).1 with
            | nil => exact UniL.still hB N _
            | cons b q =>
              by_cases h2 : b = R
              · simp only [if_pos h2]; exact fixClose_uni hB R N _ _
              · by_cases h3 : b ≠ c%','
                · simp only [if_neg h2, if_pos h3]; exact UniL.still hB N _
                · simp only [if_neg h2, if_neg h3]; exact fixLoop_uni hE k R h N _ _
          · rw [fixLoop]
            simp only [h1, if_neg hb]
            cases S.de (k.start S v) (b :: p) (parseSpace (a :: s) e).2 with
            | ub => rfl
            | fuel => rfl
            | ok d =>
              simp only [Out.bind_ok]
              cases (parseSpace d.2.1 d.2.2).1 with
              | nil => rfl
              | cons b q =>
                by_cases h2 : b = R
                · simp only [if_pos h2]
                  obtain ⟨r, hr⟩ := fixClose_eq (α := α) R (b :: q) (parseSpace d.2.1 d.2.2).2
                  rw [hr, hr]; rfl
                · by_cases h3 : b ≠ c%','
                  · simp only [if_neg h2, if_pos h3]; rfl
                  · simp only [if_neg h2, if_neg h3]

theorem UniL.mono {α ρ : Type} {E E' : (α → α) → Prop} {N : Nat} {g : List α → Out (List α × ρ)} (h : UniL E N g)
    (hE : ∀ f, E f → E' f) : UniL E' N g := by
  rcases h with h | h | ⟨f, r, hl, hf, h⟩
  · exact .inl h
  · exact .inr (.inl h)
  · exact .inr (.inr ⟨f, r, hl, fun x hx => hE x (hf x hx), h⟩)

theorem deFix_uni {α : Type} {S : Ser α} {E : (α → α) → Prop} (hE : Band E) (k : FixKind)
    (h : ∀ s e, Uni E fun v => S.de v s e) (N : Nat) (s : Bytes) (e : EPtr) :
    UniL (OrConst E) N fun t => deFix k S c%'[' c%']' t s e := by
  have hB := hE.orConst
  simp only [deFix]
  by_cases hn : isNull s = true
  · simp only [if_pos hn]
    rcases fixNull_uni hE h s N e with h' | h' | ⟨fs, r, hl, hf, h'⟩
    · exact .inl fun t ht => by show (fixNull S s t e >>= _) = _; rw [show fixNull S s t e = _ from h' t ht]; rfl
    · exact .inr (.inl fun t ht => by show (fixNull S s t e >>= _) = _; rw [show fixNull S s t e = _ from h' t ht]; rfl)
    · exact .inr (.inr ⟨fs, parseNull s r, hl, fun f hf' => .inl (hf f hf'), fun t ht => by show (fixNull S s t e >>= _) = _; rw [show fixNull S s t e = _ from h' t ht]; rfl⟩)
  · simp only [if_neg hn]
    cases s with
    | nil => exact UniL.still hB N _
    | cons b p =>
      by_cases hb : b ≠ c%'['
      · simp only [if_pos hb]; exact UniL.still hB N _
      · simp only [if_neg hb]; exact fixLoop_uni hE k _ h N p e

/-- The effects on an array, element by element. -/
def EachV {α : Type} {N : Nat} (E : (α → α) → Prop) (f : Vector α N → Vector α N) : Prop :=
  ∃ fs : List (α → α), fs.length = N ∧ (∀ g ∈ fs, E g) ∧ ∀ t, (f t).toList = EachBy fs t.toList

theorem EachBy.comp {α : Type} {E : (α → α) → Prop} (hE : Band E) : ∀ {fs gs : List (α → α)} {vs : List α}, vs.length = fs.length →
    gs.length = fs.length → (∀ f ∈ fs, E f) → (∀ g ∈ gs, E g) → ∃ hs : List (α → α), hs = List.zipWith (· ∘ ·) fs gs ∧
      (∀ h ∈ hs, E h) ∧ EachBy fs (EachBy gs vs) = EachBy hs vs ∧ EachBy fs (EachBy gs (EachBy fs vs)) = EachBy fs (EachBy gs vs)
  | [], [], [], _, _, _, _ => ⟨[], rfl, by simp, rfl, rfl⟩
  | f :: fs, g :: gs, v :: vs, h1, h2, h3, h4 => by
    obtain ⟨hs, rfl, h5, h6, h7⟩ := EachBy.comp hE (fs := fs) (gs := gs) (vs := vs) (by simpa using h1) (by simpa using h2)
      (fun x hx => h3 x (List.mem_cons_of_mem _ hx)) fun x hx => h4 x (List.mem_cons_of_mem _ hx)
    have hf := h3 f (List.mem_cons_self ..)
    have hg := h4 g (List.mem_cons_self ..)
    refine ⟨_, rfl, ?_, ?_, ?_⟩
    · intro x hx
      simp only [List.zipWith_cons_cons, List.mem_cons] at hx
      rcases hx with rfl | hx
      · exact hE.comp hf hg
      · exact h5 x hx
    · simp only [EachBy, List.zipWith_cons_cons, h6, Function.comp]
    · simp only [EachBy, h7, hE.last hf hg]

theorem EachV.band {α : Type} {N : Nat} {E : (α → α) → Prop} (hE : Band E) : Band (EachV (N := N) E) where
  one := ⟨List.replicate N id, by simp, fun g hg => by rw [(List.mem_replicate.mp hg).2]; exact hE.one, fun t => by
    have := EachBy.ids t.toList
    rw [Vector.length_toList] at this
    exact this.symm⟩
  comp := by
    rintro f g ⟨fs, hl, hf, h⟩ ⟨gs, hl', hg, h'⟩
    refine ⟨List.zipWith (· ∘ ·) fs gs, by simp [hl, hl'], ?_, fun t => ?_⟩
    · intro x hx
      rw [List.mem_iff_getElem] at hx
      obtain ⟨i, hi, rfl⟩ := hx
      rw [List.getElem_zipWith]
      exact hE.comp (hf _ (List.getElem_mem _)) (hg _ (List.getElem_mem _))
    · obtain ⟨hs, rfl, _, h6, _⟩ := EachBy.comp hE (fs := fs) (gs := gs) (vs := t.toList) (by simp [hl]) (by simp [hl, hl']) hf hg
      rw [Function.comp, h, h', h6]
  last := by
    rintro f g ⟨fs, hl, hf, h⟩ ⟨gs, hl', hg, h'⟩ t
    obtain ⟨hs, _, _, _, h7⟩ := EachBy.comp hE (fs := fs) (gs := gs) (vs := t.toList) (by simp [hl]) (by simp [hl, hl']) hf hg
    apply Vector.toList_inj.mp
    rw [h, h', h, h, h', h7]

theorem fixed_stamps {α : Type} {k : FixKind} {N : Nat} {S : Ser α} (h : Stamps S.de) : Stamps (fixVecSer k N S).de := by
  obtain ⟨E, hE, h⟩ := h
  refine ⟨_, EachV.band hE.orConst, fun s e => ?_⟩
  show Uni _ fun v : Vector α N => deFixVec k S v s e
  rcases deFix_uni hE k h N s e with h' | h' | ⟨fs, r, hl, hf, h'⟩
  · exact .inl fun t => by
      show (deFix k S c%'[' c%']' t.toList s e >>= _) = _
      rw [show deFix k S c%'[' c%']' t.toList s e = _ from h' _ (by simp)]; rfl
  · exact .inr (.inl fun t => by
      show (deFix k S c%'[' c%']' t.toList s e >>= _) = _
      rw [show deFix k S c%'[' c%']' t.toList s e = _ from h' _ (by simp)]; rfl)
  · have hlen : ∀ t : Vector α N, (EachBy fs t.toList).length = N := fun t => by rw [EachBy.length (by simp [hl]), hl]
    refine .inr (.inr ⟨fun t => ⟨(EachBy fs t.toList).toArray, by simpa using hlen t⟩, r, ⟨fs, hl, hf, fun t => rfl⟩, fun t => ?_⟩)
    show (deFix k S c%'[' c%']' t.toList s e >>= _) = _
    rw [show deFix k S c%'[' c%']' t.toList s e = _ from h' _ (by simp)]
    show (if h : (EachBy fs t.toList).length = N then _ else _) = _
    rw [dif_pos (hlen t)]

/-! ### Structures -/

section
variable {τ : Type}

theorem setRefs_mem {l : List (MRef τ)} (hf : Fields l) {m : MRef τ} (hm : m ∈ l) (v' : τ) (x : m.α) (t : τ) :
    setRefs v' l (m.set x t) = setRefs v' l t := by
  induction l generalizing t with
  | nil => cases hm
  | cons a l ih =>
    have hap := hf.apart
    rw [List.pairwise_cons] at hap
    have hf' : Fields l := ⟨fun m hm => hf.get_set m (List.mem_cons_of_mem _ hm), fun m hm => hf.set_set m (List.mem_cons_of_mem _ hm), hap.2⟩
    show setRefs v' l (a.set (a.get v') (m.set x t)) = setRefs v' l (a.set (a.get v') t)
    rcases List.mem_cons.mp hm with rfl | hm
    · rw [hf.set_set m (List.mem_cons_self ..)]
    · rw [(hap.1 m hm).2.2, ih hf' hm]

theorem setRefs_twice {l l' : List (MRef τ)} (hf : Fields l) (hl : ∀ m ∈ l', m ∈ l) (v v' t : τ) :
    setRefs v l (setRefs v' l' t) = setRefs v l t := by
  induction l' generalizing t with
  | nil => rfl
  | cons a l' ih =>
    show setRefs v l (setRefs v' l' (a.set (a.get v') t)) = setRefs v l t
    rw [ih fun m hm => hl m (List.mem_cons_of_mem _ hm), setRefs_mem hf (hl a (List.mem_cons_self ..))]

theorem setRefs_self {l : List (MRef τ)} (hp : ∀ m ∈ l, ∀ t, m.set (m.get t) t = t) (t : τ) : setRefs t l t = t := by
  induction l with
  | nil => rfl
  | cons a l ih =>
    show setRefs t l (a.set (a.get t) t) = t
    rw [hp a (List.mem_cons_self ..), ih fun m hm => hp m (List.mem_cons_of_mem _ hm)]

theorem setRefs_congr {l : List (MRef τ)} {v v' : τ} (h : ∀ m ∈ l, m.get v = m.get v') (t : τ) : setRefs v l t = setRefs v' l t := by
  induction l generalizing t with
  | nil => rfl
  | cons a l ih =>
    show setRefs v l (a.set (a.get v) t) = setRefs v' l (a.set (a.get v') t)
    rw [h a (List.mem_cons_self ..), ih fun m hm => h m (List.mem_cons_of_mem _ hm)]

/-- The effects on a structure: each part changes by an effect of its own, and nothing else changes. -/
structure PartWise (l : List (MRef τ)) (E : ∀ m : MRef τ, (m.α → m.α) → Prop) (f : τ → τ) : Prop where
  part : ∀ m ∈ l, ∃ g, OrConst (E m) g ∧ ∀ t, m.get (f t) = g (m.get t)
  rest : ∀ t, setRefs (f t) l t = f t

variable {l : List (MRef τ)} {E : ∀ m : MRef τ, (m.α → m.α) → Prop}

theorem PartWise.band (hf : Fields l) (hp : ∀ m ∈ l, ∀ t, m.set (m.get t) t = t) (hE : ∀ m ∈ l, Band (E m)) : Band (PartWise l E) := by
  have cmp : ∀ {f g}, PartWise l E f → PartWise l E g → PartWise l E (f ∘ g) := by
    intro f g h h'
    refine ⟨fun m hm => ?_, fun t => ?_⟩
    · obtain ⟨x, hx, h1⟩ := h.part m hm
      obtain ⟨y, hy, h2⟩ := h'.part m hm
      exact ⟨x ∘ y, (hE m hm).orConst.comp hx hy, fun t => by simp [h1, h2]⟩
    · have := h.rest (g t)
      rw [← h'.rest t, setRefs_twice hf (fun _ h => h), h'.rest t] at this
      exact this
  refine ⟨⟨fun m hm => ⟨id, .inl (hE m hm).one, fun _ => rfl⟩, fun t => setRefs_self hp t⟩, cmp, ?_⟩
  intro f g h h' t
  have h1 := (cmp h (cmp h' h)).rest t
  have h2 := (cmp h h').rest t
  simp only [Function.comp] at h1 h2
  rw [← h1, ← h2]
  apply setRefs_congr
  intro m hm
  obtain ⟨x, hx, h3⟩ := h.part m hm
  obtain ⟨y, hy, h4⟩ := h'.part m hm
  simp only [h3, h4]
  exact (hE m hm).orConst.last hx hy _

/-- Changing one part. -/
theorem PartWise.lift (hf : Fields l) (hp : ∀ m ∈ l, ∀ t, m.set (m.get t) t = t) (hE : ∀ m ∈ l, Band (E m)) {m : MRef τ} (hm : m ∈ l)
    {g : m.α → m.α} (hg : OrConst (E m) g) : PartWise l E fun t => m.set (g (m.get t)) t where
  part m' hm' := by
    by_cases he : m' = m
    · subst he
      exact ⟨g, hg, fun t => hf.get_set _ hm _ _⟩
    · have hs : ∀ a b : MRef τ, a ∈ l → b ∈ l → a ≠ b → ∀ x t, a.get (b.set x t) = a.get t := by
        have hap := hf.apart
        clear hE hp hg hm hm' he
        induction l with
        | nil => intro a b ha; cases ha
        | cons c l ih =>
          rw [List.pairwise_cons] at hap
          have hf' : Fields l := ⟨fun m hm => hf.get_set m (List.mem_cons_of_mem _ hm), fun m hm => hf.set_set m (List.mem_cons_of_mem _ hm), hap.2⟩
          intro a b ha hb hab
          rcases List.mem_cons.mp ha with rfl | ha' <;> rcases List.mem_cons.mp hb with rfl | hb'
          · exact absurd rfl hab
          · exact (hap.1 b hb').1
          · exact (hap.1 a ha').2.1
          · exact ih hf' hap.2 a b ha' hb' hab
      exact ⟨id, .inl (hE m' hm').one, fun t => hs m' m hm' hm he _ _⟩
  rest t := by
    rw [← setRefs_mem hf hm _ (g (m.get t)) t]
    exact setRefs_self hp _

/-- What the readers of the parts are known to do. -/
structure PartsOk (l : List (MRef τ)) (E : ∀ m : MRef τ, (m.α → m.α) → Prop) : Prop where
  fields : Fields l
  put : ∀ m ∈ l, ∀ t, m.set (m.get t) t = t
  band : ∀ m ∈ l, Band (E m)
  reads : ∀ m ∈ l, ∀ s e, Uni (E m) fun v => m.ser.de v s e

theorem PartsOk.all (h : PartsOk l E) : Band (PartWise l E) := PartWise.band h.fields h.put h.band

theorem PartsOk.inPlace (h : PartsOk l E) {m : MRef τ} (hm : m ∈ l) (s : Bytes) (e : EPtr) {σ : Type} (k : Bytes × EPtr → σ) :
    Uni (PartWise l E) fun t => m.ser.de (m.get t) s e >>= fun d => .ok (m.set d.1 t, k d.2) :=
  (h.reads m hm s e).part m.get m.set k fun _ hf => .lift h.fields h.put h.band hm (.inl hf)

theorem PartsOk.fresh (h : PartsOk l E) {m : MRef τ} (hm : m ∈ l) (s : Bytes) (e : EPtr) {σ : Type} (k : Bytes × EPtr → σ) :
    Uni (PartWise l E) fun t => m.ser.de m.ser.dflt s e >>= fun d => .ok (m.set d.1 t, k d.2) :=
  Uni.after (h := fun (d : m.α × Bytes × EPtr) t => .ok (m.set d.1 t, k d.2)) fun d =>
    .ok _ _ (PartWise.lift (g := fun _ => d.1) h.fields h.put h.band hm (.inr ⟨d.1, rfl⟩))

theorem PartsOk.member (h : PartsOk l E) {m : MRef τ} (hm : m ∈ l) (s : Bytes) (e : EPtr) (u : Bool) :
    Uni (PartWise l E) fun t => deMember m t s e u := by
  unfold deMember
  by_cases hr : (!(memberName m.name s e u).2.2) = true
  · simp only [if_pos hr]; exact .ok id _ h.all.one
  · simp only [if_neg hr]; exact h.inPlace hm _ _ fun d => (d.1, d.2, true)

theorem PartsOk.memberP (h : PartsOk l E) {m : MRef τ} (hm : m ∈ l) (s : Bytes) (e : EPtr) (u : Bool) :
    Uni (PartWise l E) fun t => deMemberP m t s e u := by
  unfold deMemberP
  by_cases hr : (!(memberName m.name s e u).2.2) = true
  · simp only [if_pos hr]; exact .ok id _ h.all.one
  · simp only [if_neg hr]; exact h.fresh hm _ _ fun d => (d.1, d.2, true)

/-- `readNull`, with something after it. -/
theorem PartsOk.null (h : PartsOk l E) {m : MRef τ} (hm : m ∈ l) {σ : Type} {k : τ → Out (τ × σ)} (hk : Uni (PartWise l E) k) :
    Uni (PartWise l E) fun t => readNull m t >>= k := by
  have e1 : (fun t => readNull m t >>= k) = fun t => (m.ser.de (m.get t) b!"null" .null >>= fun d => .ok (m.set d.1 t, ())) >>= fun x => k x.1 := by
    funext t
    unfold readNull
    cases m.ser.de (m.get t) b!"null" .null <;> rfl
  rw [e1]
  exact Uni.bind h.all (h.inPlace hm _ _ fun _ => ()) fun _ => hk

theorem PartsOk.memberIf (h : PartsOk l E) {a b : MRef τ} (ha : a ∈ l) (hb : b ∈ l) (s : Bytes) (e : EPtr) (u : Bool) :
    Uni (PartWise l E) fun t => deMemberIf a b t s e u := by
  unfold deMemberIf
  refine Uni.bind h.all (h.member ha s .fresh u) fun r => ?_
  obtain ⟨p, e1, u1⟩ := r
  by_cases hr : (!e1.failed) = true
  · simp only [if_pos hr]
    exact h.null hb (.ok id _ h.all.one)
  · simp only [if_neg hr]
    exact h.null ha (h.member hb s e u1)

theorem PartsOk.slot (h : PartsOk l E) {x : Slot τ} (hx : ∀ m ∈ x.refs, m ∈ l) (s : Bytes) (e : EPtr) (u : Bool) :
    Uni (PartWise l E) fun t => x.toMember.de t s e u := by
  cases x with
  | one en =>
    have := hx en.ref (by simp [Slot.refs])
    cases en with
    | mem m => exact h.member this s e u
    | prop m => exact h.memberP this s e u
  | alt a b d RU =>
    have h1 := hx a (by simp [Slot.refs])
    have h2 := hx b (by simp [Slot.refs])
    cases RU
    · exact h.memberIf h1 h2 s e u
    · exact h.memberIf h2 h1 s e u

theorem PartsOk.aslot (h : PartsOk l E) {x : Slot τ} (hx : ∀ m ∈ x.refs, m ∈ l) (s : Bytes) (e : EPtr) :
    Uni (PartWise l E) fun t => x.toAMember.de t s e := by
  have alt : ∀ {a b : MRef τ}, a ∈ l → b ∈ l → Uni (PartWise l E) fun t => deAMemberIf a b t s e := by
    intro a b ha hb
    unfold deAMemberIf
    refine Uni.bind h.all (h.inPlace ha s .fresh id) fun r => ?_
    obtain ⟨p, e1⟩ := r
    by_cases hr : (!e1.failed) = true
    · simp only [if_pos hr]
      exact h.null hb (.ok id _ h.all.one)
    · simp only [if_neg hr]
      exact h.null ha (h.inPlace hb s e id)
  cases x with
  | one en =>
    have := hx en.ref (by simp [Slot.refs])
    cases en with
    | mem m => exact h.inPlace this s e id
    | prop m => exact h.fresh this s e id
  | alt a b d RU =>
    have h1 := hx a (by simp [Slot.refs])
    have h2 := hx b (by simp [Slot.refs])
    cases RU
    · exact alt h1 h2
    · exact alt h2 h1

/-- Readers of members with effects of one band. -/
def MembersOk (F : (τ → τ) → Prop) (L : List (Member τ)) : Prop := ∀ m ∈ L, ∀ s e u, Uni F fun t => m.de t s e u

variable {F : (τ → τ) → Prop}

theorem searchMembers_uni (hF : Band F) (c : Cfg) (strict : Bool) {L : List (Member τ)} (h : MembersOk F L) (s : Bytes) (e : EPtr) :
    Uni F fun t => searchMembers c strict L t s e := by
  induction L generalizing s e with
  | nil =>
    unfold searchMembers
    cases strict
    · exact Uni.after (h := fun (r : Bytes × EPtr) t => let r := parseSpace r.1 r.2; .ok (t, r.1, r.2)) fun r => .ok id _ hF.one
    · cases s with
      | nil => exact .ok id _ hF.one
      | cons b p =>
        by_cases hb : b = c%'}'
        · simp only [if_pos hb]; exact .ok id _ hF.one
        · simp only [if_neg hb]; exact .ok id _ hF.one
  | cons m L ih =>
    unfold searchMembers
    refine Uni.bind hF (h m (List.mem_cons_self ..) s e false) fun r => ?_
    obtain ⟨p, e1, u⟩ := r
    cases u
    · exact ih (fun m hm => h m (List.mem_cons_of_mem _ hm)) p e1
    · exact Uni.ok id (p, e1) hF.one

theorem membersEnd_uni (hF : Band F) (s : Bytes) (e : EPtr) : Uni F fun t : τ => membersEnd t s e := by
  unfold membersEnd
  cases s with
  | nil => exact .ok id _ hF.one
  | cons b p =>
    by_cases hb : b ≠ c%'}'
    · simp only [if_pos hb]; exact .ok id _ hF.one
    · simp only [if_neg hb]; exact .ok id _ hF.one

theorem objectEnd_uni (hF : Band F) (s : Bytes) (e : EPtr) : Uni F fun t : τ => objectEnd t s e := by
  unfold objectEnd
  cases s with
  | nil => exact .ok id _ hF.one
  | cons b p =>
    by_cases hb : b ≠ c%'}'
    · simp only [if_pos hb]; exact .ok id _ hF.one
    · simp only [if_neg hb]; exact .ok id _ hF.one

theorem membersF_uni (hF : Band F) (c : Cfg) (strict : Bool) {L : List (Member τ)} (h : MembersOk F L) :
    ∀ (n : Nat) (l : List (Member τ)), MembersOk F l → ∀ (s : Bytes) (e : EPtr), Uni F fun t => membersF c strict L n l t s e
  | 0, _, _, _, _ => .inr (.inl fun _ => by simp [membersF])
  | n + 1, [], _, s, e => by
    unfold membersF
    exact Uni.after (h := fun (r : Bytes × EPtr) t => .ok (t, r.1, r.2)) fun r => .ok id _ hF.one
  | n + 1, m :: l, hl, s, e => by
    have rest : ∀ l', MembersOk F l' → ∀ q e2, Uni F fun t =>
        match (parseSpace q e2).1 with
        | [] => .ok (t, [], createError .UnexpectedEndFragment (parseSpace q e2).2)
        | b :: p =>
          if b = c%',' then
            let r := parseSpace p (parseSpace q e2).2
            membersF c strict L n l' t r.1 r.2 >>= fun y =>
            membersEnd y.1 y.2.1 y.2.2
          else membersEnd t (b :: p) (parseSpace q e2).2 := by
      intro l' hl' q e2
      cases (parseSpace q e2).1 with
      | nil => exact .ok id _ hF.one
      | cons b p =>
        by_cases hb : b = c%','
        · simp only [if_pos hb]
          exact Uni.bind hF (membersF_uni hF c strict h n l' hl' _ _) fun r => membersEnd_uni hF r.1 r.2
        · simp only [if_neg hb]; exact membersEnd_uni hF _ _
    unfold membersF
    refine Uni.bind hF (hl m (List.mem_cons_self ..) s e false) fun r => ?_
    obtain ⟨p, e1, u⟩ := r
    cases u
    · simp only [Bool.false_eq_true, if_false]
      refine Uni.bind hF (searchMembers_uni hF c strict h p e1) ?_
      exact fun r => rest _ hl r.1 r.2
    · exact rest _ (fun m hm => hl m (List.mem_cons_of_mem _ hm)) p e1

theorem objectBody_uni (hF : Band F) (c : Cfg) (strict : Bool) {L : List (Member τ)} (h : MembersOk F L) (s : Bytes) (e : EPtr) :
    Uni F fun t => objectBody c strict L t s e := by
  unfold objectBody
  simp only
  cases (parseSpace s e).1 with
  | nil => exact .ok id _ hF.one
  | cons b q =>
    by_cases hb : b ≠ c%'}'
    · simp only [if_pos hb]
      refine Uni.bind hF (membersF_uni hF c strict h _ L h _ _) fun r => ?_
      obtain ⟨p, e1⟩ := r
      cases p with
      | nil => exact Uni.ok id ([], createError .UnexpectedEndFragment e1) hF.one
      | cons b p =>
        simp only
        cases (parseSpace (b :: p) e1).1 with
        | nil => exact .ok id _ hF.one
        | cons b q => exact objectEnd_uni hF _ _
    · simp only [if_neg hb]; exact objectEnd_uni hF _ _

theorem deObject_uni (hF : Band F) (c : Cfg) (strict : Bool) (dflt : τ) {L : List (Member τ)} (h : MembersOk F L) (s : Bytes) (e : EPtr) :
    Uni (OrConst F) fun t => deObject c strict dflt L t s e := by
  have up : ∀ {ρ : Type} {g : τ → Out (τ × ρ)}, Uni F g → Uni (OrConst F) g := fun hg => hg.mono fun _ hf => .inl hf
  unfold deObject
  by_cases hn : isNull s = true
  · simp only [if_pos hn]; exact .const _
  · simp only [if_neg hn]
    cases s with
    | nil => exact .ok id _ (.inl hF.one)
    | cons b p =>
      by_cases hb : b ≠ c%'{'
      · simp only [if_pos hb]
        by_cases hb2 : b = c%'['
        · simp only [if_pos hb2]
          refine Uni.after (h := fun x t => if x ≠ c%']' then .ok (t, [], createError .ExpectedOf (parseSpace p e).2 (some b!"]") ((parseSpace p e).1.length : Nat))
            else
              match (parseSpace p e).1 with
              | [] => .ub
              | _ :: q => .ok (t, q, (parseSpace p e).2)) fun x => ?_
          by_cases hx : x ≠ c%']'
          · simp only [if_pos hx]; exact .ok id _ (.inl hF.one)
          · simp only [if_neg hx]
            cases (parseSpace p e).1 with
            | nil => exact .inl fun _ => rfl
            | cons _ q => exact .ok id _ (.inl hF.one)
        · simp only [if_neg hb2]; exact .ok id _ (.inl hF.one)
      · simp only [if_neg hb]; exact up (objectBody_uni hF c strict h p e)

theorem deAMembers_uni (hF : Band F) {L : List (AMember τ)} (h : ∀ m ∈ L, ∀ s e, Uni F fun t => m.de t s e) (s : Bytes) (e : EPtr) :
    Uni F fun t => deAMembers L t s e := by
  have fin : ∀ s e, Uni F fun t : τ => amembersEnd t s e := by
    intro s e
    unfold amembersEnd
    cases s with
    | nil => exact .ok id _ hF.one
    | cons b p =>
      by_cases hb : b ≠ c%']'
      · simp only [if_pos hb]; exact .ok id _ hF.one
      · simp only [if_neg hb]; exact .ok id _ hF.one
  induction L generalizing s e with
  | nil => exact .ok id _ hF.one
  | cons m L ih =>
    unfold deAMembers
    refine Uni.bind hF (h m (List.mem_cons_self ..) s e) fun r => ?_
    obtain ⟨p, e1⟩ := r
    simp only
    cases (parseSpace p e1).1 with
    | nil => exact .ok id _ hF.one
    | cons b q =>
      by_cases hb : b = c%','
      · simp only [if_pos hb]
        exact Uni.bind hF (ih (fun m hm => h m (List.mem_cons_of_mem _ hm)) _ _) fun r => fin r.1 r.2
      · simp only [if_neg hb]; exact fin _ _

theorem deObjectArray_uni (hF : Band F) (dflt : τ) {L : List (AMember τ)} (h : ∀ m ∈ L, ∀ s e, Uni F fun t => m.de t s e) (s : Bytes) (e : EPtr) :
    Uni (OrConst F) fun t => deObjectArray dflt L t s e := by
  have fin : ∀ s e, Uni F fun t : τ => objectArrayEnd t s e := by
    intro s e
    unfold objectArrayEnd
    cases s with
    | nil => exact .ok id _ hF.one
    | cons b p =>
      by_cases hb : b ≠ c%']'
      · simp only [if_pos hb]; exact .ok id _ hF.one
      · simp only [if_neg hb]; exact .ok id _ hF.one
  unfold deObjectArray
  by_cases hn : isNull s = true
  · simp only [if_pos hn]; exact .const _
  · simp only [if_neg hn]
    cases s with
    | nil => exact .ok id _ (.inl hF.one)
    | cons b p =>
      by_cases hb : b ≠ c%'['
      · simp only [if_pos hb]; exact .ok id _ (.inl hF.one)
      · simp only [if_neg hb]
        refine Uni.mono ?_ fun _ hf => .inl hf
        unfold objectArrayBody
        simp only
        cases (parseSpace p e).1 with
        | nil => exact .ok id _ hF.one
        | cons b q =>
          by_cases hb : b ≠ c%']'
          · simp only [if_pos hb]
            refine Uni.bind hF (deAMembers_uni hF h _ _) fun r => ?_
            obtain ⟨p, e1⟩ := r
            cases p with
            | nil => exact Uni.ok id ([], createError .UnexpectedEndFragment e1) hF.one
            | cons b p =>
              simp only
              cases (parseSpace (b :: p) e1).1 with
              | nil => exact .ok id _ hF.one
              | cons b q => exact fin _ _
          · simp only [if_neg hb]; exact fin _ _

theorem PartsOk.choose {l : List (MRef τ)} (hf : Fields l) (hp : ∀ m ∈ l, ∀ t, m.set (m.get t) t = t)
    (h : ∀ m ∈ l, Stamps m.ser.de) : ∃ E : ∀ m : MRef τ, (m.α → m.α) → Prop, PartsOk l E := by
  classical
  refine ⟨fun m => if hm : m ∈ l then (h m hm).choose else Still, hf, hp, fun m hm => ?_, fun m hm s e => ?_⟩
  · rw [dif_pos hm]; exact (h m hm).choose_spec.1
  · rw [dif_pos hm]; exact (h m hm).choose_spec.2 s e

end

theorem Spec.Parts.stamps {c : Cfg} {α : Type} {S : Ser α} (h : Parts c S) : Stamps S.de := by
  induction h with
  | base h => exact h.stamps
  | float h => exact float_stamps h
  | rawQuoted => exact rawQuoted_stamps
  | quoted _ ih => exact quoted_stamps ih
  | memberValue h1 h2 h3 _ ih => exact memberValue_stamps h1 h2 h3 ih
  | fixed _ ih => exact fixed_stamps ih
  | field _ _ ih ih' => exact field_stamps ih ih'
  | @object τ strict dflt L hf hp _ ih =>
    obtain ⟨E, hE⟩ := PartsOk.choose hf hp ih
    refine ⟨_, hE.all.orConst, fun s e => deObject_uni hE.all c strict dflt ?_ s e⟩
    intro m hm s e u
    obtain ⟨x, hx, rfl⟩ := List.mem_map.mp hm
    exact hE.slot (fun m hm => List.mem_flatMap.mpr ⟨x, hx, hm⟩) s e u
  | @objectArray τ dflt L hf hp _ ih =>
    obtain ⟨E, hE⟩ := PartsOk.choose hf hp ih
    refine ⟨_, hE.all.orConst, fun s e => deObjectArray_uni hE.all dflt ?_ s e⟩
    intro m hm s e
    obtain ⟨x, hx, rfl⟩ := List.mem_map.mp hm
    exact hE.aslot (fun m hm => List.mem_flatMap.mpr ⟨x, hx, hm⟩) s e

end Wjson
