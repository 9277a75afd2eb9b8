import Verif.Proofs.ErrArgMore
import Verif.Proofs.Api
/-
Two facts about every description: a read does not depend on the error argument
(without `quoted`, `raw_quoted`, `time_interval`, `size_value`), and a read that
succeeds with an error object succeeds without one (all templates).
-/
namespace Wjson

/-- What the templates outside `EP` have to provide. -/
structure EPMore (P : (α : Type) → ERead α → Prop) (c : Cfg) (f : Features) : Prop where
  quoted : f.quotes = true → ∀ {α : Type} {S : Ser α}, (∀ v s, P α fun e => S.de v s e) → ∀ reqQ v s, P α fun e => deQuoted S reqQ v s e
  rawQuoted : f.rawQuoted = true → ∀ reqQ v s, P Bytes fun e => deRawQuoted c reqQ v s e
  time : f.units = true → ∀ ty fr v s, P Int fun e => deTime c ty fr v s e
  size : f.units = true → ∀ ty m v s, P Int fun e => deSize c ty m v s e

section
variable {P : (α : Type) → ERead α → Prop} (H : EP P)
include H

mutual

theorem Described.ep {c : Cfg} {f : Features} (X : EPMore P c f) :
    ∀ {α : Type} {S : Ser α}, Described c f S → ∀ v s, P α fun e => S.de v s e
  | _, _, .int ty => H.deInt c ty
  | _, _, .bool => H.deBool
  | _, _, .str => H.deStr
  | _, _, .chars N => H.deCharArray N
  | _, _, .float F R => H.deFloat F R
  | _, _, @Described.enum _ _ _ _ strict dflt L => H.deEnum c strict dflt L
  | _, _, .flags F => H.deFlags c F
  | _, _, .raw => H.deRaw c
  | _, _, .rawQuoted _ reqQ h => X.rawQuoted h reqQ
  | _, _, .quoted _ reqQ h h' => X.quoted h (Described.ep X h') reqQ
  | _, _, .pointer _ h => H.dePointer (Described.ep X h)
  | _, _, .memberValue d g s h => H.memberValue (Described.ep X h) d g s
  | _, _, .array K h => H.deSeq (Described.ep X h)
  | _, _, .fixed k N _ h => H.deFix (Described.ep X h)
  | _, _, .field h h' => H.deField (Described.ep X h) (Described.ep X h')
  | _, _, .dict K h h' => H.deSeq (S := fieldSer _ _) (H.deField (Described.ep X h) (Described.ep X h'))
  | _, _, .object strict dflt L h => H.deObject fun m hm => DescribedM.ep X (h m hm)
  | _, _, .objectArray dflt L h => H.deObjectArray fun m hm => DescribedA.ep X (h m hm)
  | _, _, .time ty fr h => X.time h ty fr
  | _, _, .size ty m h => X.size h ty m

theorem DescribedM.ep {c : Cfg} {f : Features} (X : EPMore P c f) : ∀ {τ : Type} {m : Member τ}, DescribedM c f m → EP.M P m.de
  | _, _, .member m h => H.member (Described.ep X h)
  | _, _, .memberP m h => H.memberP (Described.ep X h)
  | _, _, .memberIf l r i RU h h' => H.memberIf (Described.ep X h) (Described.ep X h') i RU

theorem DescribedA.ep {c : Cfg} {f : Features} (X : EPMore P c f) : ∀ {τ : Type} {m : AMember τ}, DescribedA c f m → ∀ t s, P τ fun e => m.de t s e
  | _, _, .member m h => H.amember (Described.ep X h)
  | _, _, .memberP m h => H.amemberP (Described.ep X h)
  | _, _, .memberIf l r i RU h h' => H.amemberIf (Described.ep X h) (Described.ep X h') i RU

end
end

/-! ### Uniform reads -/

/-- The read is the same for every error argument. -/
def UF (α : Type) (g : ERead α) : Prop :=
  (∀ e, g e = .ub) ∨ (∀ e, g e = .fuel) ∨ ∃ v p E, Step1 E ∧ ∀ e, g e = .ok (v, p, E e)

theorem UF.ep : EP UF where
  ok hE v p := .inr (.inr ⟨v, p, _, hE, fun _ => rfl⟩)
  bind {α β g f} hg hf := by
    rcases hg with h | h | ⟨v, p, E, hE, h⟩
    · exact .inl fun e => by show g e >>= f = _; rw [h]; rfl
    · exact .inr (.inl fun e => by show g e >>= f = _; rw [h]; rfl)
    · rcases hf v p with h' | h' | ⟨v', p', F, hF, h'⟩
      · exact .inl fun e => by show g e >>= f = _; rw [h, Out.bind_ok]; exact h' _
      · exact .inr (.inl fun e => by show g e >>= f = _; rw [h, Out.bind_ok]; exact h' _)
      · exact .inr (.inr ⟨v', p', _, hE.comp hF, fun e => by show g e >>= f = _; rw [h, Out.bind_ok]; exact h' _⟩)
  ub := .inl fun _ => rfl
  fuel := .inr (.inl fun _ => rfl)

theorem UF.more (c : Cfg) : EPMore UF c ⟨false, true, false, false⟩ := ⟨nofun, nofun, nofun, nofun⟩

/-! ### Success does not depend on the error argument -/

theorem Step1.failed {E : EPtr → EPtr} (hE : Step1 E) {e : EPtr} (h : e.failed = true) : E e = e := by
  obtain ⟨ev, _, h2⟩ := hE
  rw [h2, applyErr_of_failed h]

theorem Step1.clean {E : EPtr → EPtr} (hE : Step1 E) {e : EPtr} (h : e.Clean) (h' : (E e).failed = false) : ∀ e, E e = e := by
  obtain ⟨ev, h1, h2⟩ := hE
  cases ev with
  | none => exact h2
  | some x =>
    rw [h2, h.applyErr_failed (h1 x rfl)] at h'
    cases h'

/-- A failed error object stays failed; a read that leaves a clean one clean is
the same read for every error argument that is not failed. -/
def TR (α : Type) (g : ERead α) : Prop :=
  (∀ e v p e', e.failed = true → g e = .ok (v, p, e') → e'.failed = true) ∧
  ∀ e v p e', e.Clean → g e = .ok (v, p, e') → e'.failed = false → ∀ e2, e2.failed = false → g e2 = .ok (v, p, e2)

theorem TR.same {α : Type} {g : ERead α} (h : TR α g) {e : EPtr} {v : α} {p : Bytes} {e' : EPtr} (he : e.Clean) (hg : g e = .ok (v, p, e'))
    (h' : e'.failed = false) : e' = e := by
  have := h.2 e v p e' he hg h' e he.not_failed
  rw [hg] at this
  injection this with this
  injection this with _ this
  injection this

theorem TR.ep : EP TR where
  ok hE v p := by
    refine ⟨fun e v' p' e' h1 h2 => ?_, fun e v' p' e' h1 h2 h3 e2 h4 => ?_⟩
    · cases h2; rw [hE.failed h1]; exact h1
    · cases h2; show Out.ok (_, _, _) = _; rw [hE.clean h1 h3]
  bind {α β g f} hg hf := by
    refine ⟨fun e v' p' e' h1 h2 => ?_, fun e v' p' e' h1 h2 h3 e2 h4 => ?_⟩
    · rw [Out.bind_eq_ok] at h2
      obtain ⟨⟨v1, p1, e1⟩, h2, h5⟩ := h2
      exact (hf v1 p1).1 e1 _ _ _ (hg.1 e _ _ _ h1 h2) h5
    · rw [Out.bind_eq_ok] at h2
      obtain ⟨⟨v1, p1, e1⟩, h2, h5⟩ := h2
      have h6 : e1.failed = false := by
        cases hc : e1.failed with
        | false => rfl
        | true => rw [(hf v1 p1).1 e1 _ _ _ hc h5] at h3; cases h3
      have h7 := hg.same h1 h2 h6
      subst h7
      show g e2 >>= f = _
      rw [hg.2 e1 _ _ _ h1 h2 h6 e2 h4, Out.bind_ok]
      exact (hf v1 p1).2 e1 _ _ _ h1 h5 h3 e2 h4
  ub := ⟨fun _ _ _ _ _ h => (nomatch h), fun _ _ _ _ _ h => (nomatch h)⟩
  fuel := ⟨fun _ _ _ _ _ h => (nomatch h), fun _ _ _ _ _ h => (nomatch h)⟩

/-- A stop when an error has been recorded. -/
theorem TR.stop {α : Type} {g k : ERead α} (hg : TR α g) (hk : ∀ e v p e', e.failed = true → k e = .ok (v, p, e') → e'.failed = true) :
    TR α fun e => if e.failed = true then k e else g e := by
  refine ⟨fun e v p e' h1 h2 => ?_, fun e v p e' h1 h2 h3 e2 h4 => ?_⟩
  · simp only [h1, if_true] at h2
    exact hk e _ _ _ h1 h2
  · simp only [h1.not_failed, h4, Bool.false_eq_true, if_false] at h2 ⊢
    exact hg.2 e _ _ _ h1 h2 h3 e2 h4

theorem TR.stop_ok {α : Type} {g : ERead α} (hg : TR α g) (v : α) (p : Bytes) :
    TR α fun e => if e.failed = true then .ok (v, p, e) else g e :=
  TR.stop hg fun e v p e' h1 h2 => by cases h2; exact h1

theorem TR.quotedStr {α : Type} {S : Ser α} (v : α) (s : Bytes) : TR α fun e => deQuotedStr S v s e := by
  unfold deQuotedStr
  refine TR.ep.bind (TR.ep.deStr [] s) fun w p => ?_
  refine TR.stop ?_ fun e v p e' h1 h2 => by cases h2; exact h1
  simp only
  refine TR.ep.const _ fun r hr => ?_
  cases hx : r.2.2 with
  | null => exact TR.ep.ok .id _ _
  | obj x =>
    simp only
    cases hst : x.status with
    | false => simp only [Bool.false_and, Bool.false_eq_true, if_false]; exact TR.ep.ok .id _ _
    | true =>
      simp only [Bool.true_and, decide_eq_true_eq]
      refine ⟨fun e v p e' h1 h2 => ?_, fun e v p e' h1 h2 h3 e2 h4 => ?_⟩
      · cases e with
        | null => cases h1
        | obj y =>
          simp at h2
          obtain ⟨_, _, rfl⟩ := h2
          simpa [EPtr.assign, EPtr.failed, JError.status] using hst
      · obtain ⟨y, rfl, hy⟩ := h1
        simp at h2
        obtain ⟨_, _, rfl⟩ := h2
        simp [EPtr.assign, EPtr.failed, JError.status] at h3 hst
        exact absurd h3 hst

theorem TR.timeLoopF (c : Cfg) (ty : IntTy) (fr : Int) (n : Nat) (v : Int) (s : Bytes) : TR Int fun e => Wjson.timeLoopF c ty fr n v s e := by
  induction n generalizing v s with
  | zero => exact TR.ep.fuel
  | succ n ih =>
    cases s with
    | nil => exact TR.ep.err .id _ _ (by decide) _ _
    | cons b t =>
      simp only [Wjson.timeLoopF]
      refine EP.ite (fun _ => TR.ep.ok .id _ _) (fun _ => TR.ep.bind (TR.ep.deInt c ty 0 (b :: t)) fun cur p => ?_)
      refine TR.stop_ok ?_ _ _
      cases p with
      | nil => exact TR.ep.ok .id _ _
      | cons u t =>
        simp only
        refine EP.ite (fun _ => TR.ep.const _ fun v _ => ih _ _) (fun _ => EP.ite (fun _ => TR.ep.const _ fun v _ => ih _ _) (fun _ => ?_))
        refine EP.ite (fun _ => ?_) (fun _ => EP.ite (fun _ => TR.ep.const _ fun v _ => ih _ _) (fun _ => ih _ _))
        cases t with
        | nil => exact TR.ep.const _ fun v _ => ih _ _
        | cons w t =>
          simp only
          refine EP.ite (fun _ => TR.ep.const _ fun v _ => ih _ _) (fun _ => EP.ite (fun _ => TR.ep.const _ fun v _ => ?_)
            (fun _ => TR.ep.const _ fun v _ => ih _ _))
          cases t with
          | nil => exact TR.ep.ub
          | cons x t => exact ih _ _

theorem TR.sizeApply (c : Cfg) (ty : IntTy) (m : Int) (beg : Bytes) (v : Int) (p : Bytes) : TR Int fun e => Wjson.sizeApply c ty m beg (v, p, e) := by
  unfold Wjson.sizeApply
  refine TR.stop_ok ?_ _ _
  cases p with
  | nil => exact TR.ep.ok .id (ty.wrap v) beg
  | cons ch u =>
    simp only
    cases sizeMult ch (u.headD 0) with
    | none => exact TR.ep.err .id _ _ (by decide) _ _
    | some mult => exact TR.ep.const _ fun x _ => TR.ep.const _ fun y _ => TR.ep.ok .id _ _

theorem TR.more (c : Cfg) (f : Features) : EPMore TR c f where
  quoted _ := by
    intro α S h reqQ v s
    unfold deQuoted
    exact EP.ite (fun _ => TR.quotedStr v s) (fun _ => EP.ite (fun _ => TR.quotedStr v s) (fun _ => h v s))
  rawQuoted _ := by
    intro reqQ v s
    unfold deRawQuoted
    cases s with
    | nil => exact TR.ep.err .id _ _ (by decide) _ _
    | cons b t =>
      simp only
      refine EP.ite (fun _ => TR.ep.err .id _ _ (by decide) _ _) (fun _ => ?_)
      refine TR.ep.scanO (parseValue_scan c _) .id fun p => ?_
      refine TR.stop_ok ?_ _ p
      cases reqQ with
      | false => exact TR.ep.ok .id (consumed (b :: t) p) p
      | true =>
      simp only [if_true]
      cases p with
      | nil => exact TR.ep.err .id _ _ (by decide) _ _
      | cons d q => exact EP.ite (fun _ => TR.ep.ok .id _ _) (fun _ => TR.ep.err .id _ _ (by decide) _ _)
  time _ := by
    intro ty fr v s
    unfold deTime
    cases s with
    | nil => exact TR.ep.err .id _ _ (by decide) _ _
    | cons b t =>
      refine EP.ite (fun _ => TR.ep.scan (parseNull_scan _) .id _) (fun _ => EP.ite (fun _ => TR.ep.deInt _ _ _ _) (fun _ => ?_))
      exact EP.ite (fun _ => TR.ep.err .id _ _ (by decide) _ _) (fun _ => TR.timeLoopF _ _ _ _ _ _)
  size _ := by
    intro ty m v s
    unfold deSize
    cases s with
    | nil => exact TR.ep.err .id _ _ (by decide) _ _
    | cons b t =>
      refine EP.ite (fun _ => TR.ep.scan (parseNull_scan _) .id _) (fun _ => EP.ite (fun _ => TR.ep.deInt _ _ _ _) (fun _ => ?_))
      refine EP.ite (fun _ => TR.ep.err .id _ _ (by decide) _ _) (fun _ => ?_)
      refine TR.ep.bind (TR.ep.deCharArray 32 (List.replicate 32 0) (b :: t)) fun w p => ?_
      refine TR.stop_ok ?_ _ _
      exact TR.ep.const (cstr w) fun buf _ => TR.ep.bind (TR.ep.deInt c .long 0 buf) fun v q => TR.sizeApply c ty m p v q

end Wjson
