import Verif.Spec.Described
import Verif.Proofs.Described
/-
How a reader depends on the error argument. `EP P` are the closure properties
of a predicate `P` on reads as functions of the error argument; the readers of
the templates satisfy every such `P`.
-/
namespace Wjson

/-- A read as a function of the error argument. -/
abbrev ERead (α : Type) := EPtr → Out (α × Bytes × EPtr)

/-- `E` is the identity or one fixed `create_error`. -/
def Step1 (E : EPtr → EPtr) : Prop := ∃ ev, (∀ x, ev = some x → x.code ≠ .ValidJSON) ∧ ∀ e, E e = applyErr e ev

theorem Step1.id : Step1 fun e => e := ⟨none, by simp, fun _ => rfl⟩

theorem Step1.err {c : Code} (hc : c ≠ .ValidJSON) (m : Option Bytes) (t : Int) : Step1 fun e => createError c e m t :=
  ⟨some ⟨c, m, t⟩, by intro x hx; cases hx; exact hc, fun _ => rfl⟩

theorem Step1.comp {E F : EPtr → EPtr} (hE : Step1 E) (hF : Step1 F) : Step1 fun e => F (E e) := by
  obtain ⟨ev, h1, h2⟩ := hE
  obtain ⟨fv, h3, h4⟩ := hF
  cases ev with
  | none => exact ⟨fv, h3, fun e => by simp [h2, h4]⟩
  | some x => exact ⟨some x, h1, fun e => by show F (E e) = _; rw [h2, h4, applyErr_applyErr e x (h1 x rfl) fv]⟩

theorem Step1.create {E : EPtr → EPtr} (hE : Step1 E) {c : Code} (hc : c ≠ .ValidJSON) (m : Option Bytes) (t : Int) :
    Step1 fun e => createError c (E e) m t := hE.comp (.err hc m t)

theorem ScanAt.step {s : Bytes} {g : EPtr → Bytes × EPtr} (h : ScanAt s g) {E : EPtr → EPtr} (hE : Step1 E) :
    ∃ p F, Step1 F ∧ p <:+ s ∧ ∀ e, g (E e) = (p, F e) := by
  obtain ⟨p, ev, h1, h2⟩ := h
  exact ⟨p, _, hE.comp ⟨ev, fun x hx => (h2.err x hx).1, fun _ => rfl⟩, h2.suffix, fun e => h1 _⟩

/-- The closure properties. -/
structure EP (P : (α : Type) → ERead α → Prop) : Prop where
  ok : ∀ {α : Type} {E : EPtr → EPtr}, Step1 E → ∀ (v : α) (p : Bytes), P α fun e => .ok (v, p, E e)
  bind : ∀ {α β : Type} {g : ERead α} {f : α × Bytes × EPtr → Out (β × Bytes × EPtr)}, P α g →
    (∀ v p, P β fun e => f (v, p, e)) → P β fun e => g e >>= f
  ub : ∀ {α : Type}, P α fun _ => .ub
  fuel : ∀ {α : Type}, P α fun _ => .fuel

namespace EP
variable {P : (α : Type) → ERead α → Prop} (H : EP P)
include H

theorem pre {α : Type} {E : EPtr → EPtr} (hE : Step1 E) {k : ERead α} (hk : P α k) : P α fun e => k (E e) :=
  H.bind (g := fun e => .ok ((), ([] : Bytes), E e)) (f := fun x => k x.2.2) (H.ok hE () []) (fun _ _ => hk)

theorem err {α : Type} {E : EPtr → EPtr} (hE : Step1 E) (v : α) (p : Bytes) {c : Code} (hc : c ≠ .ValidJSON) (m : Option Bytes) (t : Int) :
    P α fun e => .ok (v, p, createError c (E e) m t) := H.ok (hE.create hc m t) v p

/-- A first part that does not see the error argument. -/
theorem const {α β : Type} (o : Out β) {f : β → ERead α} (hf : ∀ x, o = .ok x → P α (f x)) : P α fun e => o >>= fun x => f x e := by
  cases o with
  | ok x => exact hf x rfl
  | ub => exact H.ub
  | fuel => exact H.fuel

omit H in
theorem ite {α : Type} {Q : Prop} [Decidable Q] {f g : ERead α} (h1 : Q → P α f) (h2 : ¬ Q → P α g) : P α fun e => if Q then f e else g e := by
  by_cases h : Q
  · simpa only [if_pos h] using h1 h
  · simpa only [if_neg h] using h2 h

theorem scan {α : Type} {s : Bytes} {g : EPtr → Bytes × EPtr} (h : ScanAt s g) {E : EPtr → EPtr} (hE : Step1 E) (v : α) :
    P α fun e => .ok (v, (g (E e)).1, (g (E e)).2) := by
  obtain ⟨p, F, hF, _, h1⟩ := h.step hE
  simp only [h1]
  exact H.ok hF _ _

theorem scanO {α : Type} {c : Cfg} {s : Bytes} {g : EPtr → Out (Bytes × EPtr)} (h : ScanO c s g) {E : EPtr → EPtr} (hE : Step1 E)
    {f : Bytes × EPtr → Out (α × Bytes × EPtr)} (hf : ∀ p, P α fun e => f (p, e)) : P α fun e => g (E e) >>= f := by
  rcases h with ⟨p, ev, h1, h2⟩ | ⟨h1, _⟩
  · simp only [h1, Out.bind_ok]
    exact (H.pre (hE.comp ⟨ev, fun x hx => (h2.err x hx).1, fun _ => rfl⟩) (hf p) :)
  · simp only [h1, Out.bind_ub]
    exact H.ub

/-! ### Scalars -/

theorem unserializeInteger (c : Cfg) (ty : IntTy) (v : Int) (s : Bytes) : P Int fun e => Wjson.unserializeInteger c ty v s e := by
  cases s with
  | nil => exact H.err .id _ _ (by decide) _ _
  | cons b t =>
    simp only [Wjson.unserializeInteger]
    split
    · exact H.err .id _ _ (by decide) _ _
    · refine EP.ite (fun _ => H.err .id _ _ (by decide) _ _) (fun _ => EP.ite (fun _ => H.ok .id _ _) (fun _ => ?_))
      exact H.const _ fun x _ => H.const _ fun y _ => H.ok .id _ _

theorem deInt (c : Cfg) (ty : IntTy) (v : Int) (s : Bytes) : P Int fun e => Wjson.deInt c ty v s e := by
  unfold Wjson.deInt
  exact EP.ite (fun _ => H.scan (parseNull_scan s) .id _) (fun _ => H.unserializeInteger c ty v s)

theorem deBool (v : Bool) (s : Bytes) : P Bool fun e => Wjson.deBool v s e := by
  cases s with
  | nil => exact H.err .id _ _ (by decide) _ _
  | cons b t =>
    simp only [Wjson.deBool]
    refine EP.ite (fun _ => H.scan (parseNull_scan _) .id _) (fun _ => EP.ite (fun _ => H.scan (parseBool_scan _) .id _) (fun _ => ?_))
    exact EP.ite (fun _ => H.scan (parseBool_scan _) .id _) (fun _ => H.err .id _ _ (by decide) _ _)

theorem deFloat {α : Type} (F : FloatTy α) (R : Int) (v : α) (s : Bytes) : P α fun e => Wjson.deFloat F R v s e := by
  cases s with
  | nil => exact H.err .id _ _ (by decide) _ _
  | cons b t =>
    simp only [Wjson.deFloat]
    refine EP.ite (fun _ => H.scan (parseNull_scan _) .id _) (fun _ => EP.ite (fun _ => H.err .id _ _ (by decide) _ _) (fun _ => ?_))
    exact H.scan (parseNumber_scan _) .id _

theorem deEnum {α : Type} (c : Cfg) (strict : Bool) (dflt : α) (L : List (Bytes × α)) (v : α) (s : Bytes) :
    P α fun e => Wjson.deEnum c strict dflt L v s e := by
  unfold Wjson.deEnum
  split
  · exact H.err .id _ _ (by decide) _ _
  · refine EP.ite (fun _ => H.err .id _ _ (by decide) _ _) (fun _ => ?_)
    split
    · exact H.err .id _ _ (by decide) _ _
    · simp only
      split
      · exact H.err .id _ _ (by decide) _ _
      · split
        · exact H.ok .id _ _
        · exact EP.ite (fun _ => H.err .id _ _ (by decide) _ _) (fun _ => H.ok .id _ _)

theorem deRaw (c : Cfg) (v s : Bytes) : P Bytes fun e => Wjson.deRaw c v s e := by
  unfold Wjson.deRaw
  exact H.scanO (parseValue_scan c s) .id fun p => H.ok .id (consumed s p) p

/-! ### Combinators -/

theorem dePointer {α : Type} {S : Ser α} (hS : ∀ v s, P α fun e => S.de v s e) (v : Option α) (s : Bytes) :
    P _ fun e => Wjson.dePointer S v s e := by
  cases s with
  | nil => exact H.ok .id _ _
  | cons b t =>
    simp only [Wjson.dePointer]
    exact EP.ite (fun _ => H.bind (hS _ _) fun v p => H.ok .id (some v) p) (fun _ => H.ok .id _ _)

theorem memberValue {τ α : Type} {S : Ser α} (hS : ∀ v s, P α fun e => S.de v s e) (dflt : τ) (get : τ → α) (set : α → τ → τ) (v : τ) (s : Bytes) :
    P _ fun e => (memberValueSer dflt get set S).de v s e :=
  H.bind (hS _ _) fun x p => H.ok .id (set x v) p

theorem seqLoopF {α C : Type} {K : Coll α C} {S : Ser α} {R : Byte} (hS : ∀ v s, P α fun e => S.de v s e) (n : Nat) (t : C) (s : Bytes) :
    P C fun e => Wjson.seqLoopF K S R n t s e := by
  induction n generalizing t s with
  | zero => exact H.fuel
  | succ n ih =>
    cases s with
    | nil => exact H.err .id _ _ (by decide) _ _
    | cons b0 s0 =>
      simp only [Wjson.seqLoopF]
      obtain ⟨p, F, hF, _, h⟩ := (parseSpace_scan (b0 :: s0)).step .id
      simp only [h]
      cases p with
      | nil => exact H.err hF _ _ (by decide) _ _
      | cons b p =>
        refine EP.ite (fun _ => H.ok hF _ _) (fun _ => H.bind (H.pre hF (hS S.dflt (b :: p)) :) fun v q => ?_)
        obtain ⟨q, F, hF, _, h⟩ := (parseSpace_scan q).step .id
        simp only [h]
        cases q with
        | nil => exact H.err hF _ _ (by decide) _ _
        | cons b q =>
          refine EP.ite (fun _ => H.ok hF _ _) (fun _ => EP.ite (fun _ => H.err hF _ _ (by decide) _ _) (fun _ => ?_))
          exact (H.pre hF (ih (K.insert t v) q) :)

theorem deSeq {α C : Type} {K : Coll α C} {S : Ser α} {L R : Byte} (hS : ∀ v s, P α fun e => S.de v s e) (t : C) (s : Bytes) :
    P C fun e => Wjson.deSeq K S L R t s e := by
  unfold Wjson.deSeq
  refine EP.ite (fun _ => H.scan (parseNull_scan _) .id _) (fun _ => ?_)
  cases s with
  | nil => exact H.err .id _ _ (by decide) _ _
  | cons b t => exact EP.ite (fun _ => H.err .id _ _ (by decide) _ _) (fun _ => H.seqLoopF hS _ _ _)

theorem deField {κ ν : Type} {SK : Ser κ} {SV : Ser ν} (hK : ∀ v s, P κ fun e => SK.de v s e) (hV : ∀ v s, P ν fun e => SV.de v s e)
    (t : κ × ν) (s : Bytes) : P _ fun e => Wjson.deField SK SV t s e := by
  unfold Wjson.deField
  refine H.bind (hK _ _) fun v p => ?_
  obtain ⟨p, F, hF, _, h⟩ := (parseSpace_scan p).step .id
  simp only [h]
  cases p with
  | nil => exact H.err hF _ _ (by decide) _ _
  | cons b p =>
    refine EP.ite (fun _ => H.err hF _ _ (by decide) _ _) (fun _ => ?_)
    obtain ⟨p, F, hF, _, h⟩ := (parseSpace_scan p).step hF
    simp only [h]
    cases p with
    | nil => exact H.err hF _ _ (by decide) _ _
    | cons b p => exact H.bind (H.pre hF (hV t.2 (b :: p)) :) fun x p => H.ok .id (v, x) p

theorem fixNull {α : Type} {S : Ser α} (hS : ∀ v s, P α fun e => S.de v s e) (s : Bytes) (vs : List α) (p : Bytes) :
    P (List α) fun e => Wjson.fixNull S s vs e >>= fun x => .ok (x.1, p, x.2) := by
  induction vs with
  | nil => exact H.ok .id _ _
  | cons v vs ih =>
    simp only [Wjson.fixNull, Out.bind_assoc, Out.bind_ok]
    refine H.bind (hS v s) fun d q => ?_
    have := H.bind (f := fun x => .ok (d :: x.1, x.2)) ih fun v p => H.ok .id (d :: v) p
    simpa only [Out.bind_assoc, Out.bind_ok] using this

theorem fixClose {α : Type} (R : Byte) (t : List α) (s : Bytes) : P _ fun e => Wjson.fixClose R t s e := by
  cases s with
  | nil => exact H.err .id _ _ (by decide) _ _
  | cons b p => exact EP.ite (fun _ => H.err .id _ _ (by decide) _ _) (fun _ => H.ok .id _ _)

theorem fixLoop {α : Type} {k : FixKind} {S : Ser α} {R : Byte} (hS : ∀ v s, P α fun e => S.de v s e) (t : List α) (s : Bytes) :
    P (List α) fun e => Wjson.fixLoop k S R t s e := by
  induction t generalizing s with
  | nil => simp only [Wjson.fixLoop]; exact H.fixClose R [] s
  | cons v vs ih =>
    cases s with
    | nil => exact H.fixClose R (v :: vs) []
    | cons b0 s0 =>
      simp only [Wjson.fixLoop]
      obtain ⟨p, F, hF, _, h⟩ := (parseSpace_scan (b0 :: s0)).step .id
      simp only [h]
      cases p with
      | nil => exact H.err hF _ _ (by decide) _ _
      | cons b p =>
        refine EP.ite (fun _ => (H.pre hF (H.fixClose R (v :: vs) (b :: p)) :)) (fun _ =>
          H.bind (H.pre hF (hS (k.start S v) (b :: p)) :) fun v q => ?_)
        obtain ⟨q, F, hF, _, h⟩ := (parseSpace_scan q).step .id
        simp only [h]
        cases q with
        | nil => exact H.err hF _ _ (by decide) _ _
        | cons b q =>
          refine EP.ite (fun _ => (H.pre hF (H.fixClose R (v :: vs) (b :: q)) :)) (fun _ => EP.ite (fun _ => H.err hF _ _ (by decide) _ _) (fun _ => ?_))
          exact H.bind (H.pre hF (ih q) :) fun x p => H.ok .id (v :: x) p

theorem deFix {α : Type} {k : FixKind} {S : Ser α} {L R : Byte} (hS : ∀ v s, P α fun e => S.de v s e) (t : List α) (s : Bytes) :
    P (List α) fun e => Wjson.deFix k S L R t s e := by
  unfold Wjson.deFix
  refine EP.ite (fun _ => ?_) (fun _ => ?_)
  · have := H.bind (f := fun x => .ok (x.1, (parseNull s x.2.2).1, (parseNull s x.2.2).2)) (H.fixNull hS s t [])
      fun v _ => H.scan (parseNull_scan s) .id v
    simpa only [Out.bind_assoc, Out.bind_ok] using this
  · cases s with
    | nil => exact H.err .id _ _ (by decide) _ _
    | cons b t => exact EP.ite (fun _ => H.err .id _ _ (by decide) _ _) (fun _ => H.fixLoop hS _ _)

end EP

end Wjson
