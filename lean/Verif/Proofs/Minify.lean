import Verif.Proofs.Dialect
import Verif.Proofs.Despace
/-
Removing the gaps of a text does not change what it stands for.
-/
namespace Wjson
open Spec

/-! ### `despace` on the parts of a text -/

/-- Brackets, comma and colon. -/
def Punct (b : Byte) : Prop := b ∈ [c%'[', c%']', c%'{', c%'}', c%',', c%':']

theorem Punct.delim {b : Byte} (hb : Punct b) (t : Bytes) : Delim (b :: t) :=
  Delim.of_head rfl (by revert hb; unfold Punct; revert b; apply forall_byte; decide +kernel)

theorem Punct.head {b : Byte} (hb : Punct b) (t : Bytes) : (b :: t).head? ≠ some c%'*' := by
  have : b ≠ c%'*' := by revert hb; unfold Punct; revert b; apply forall_byte; decide +kernel
  simpa using this

theorem Start.star {t : Bytes} (h : Start t) (s : Bytes) : (t ++ s).head? ≠ some c%'*' := by
  obtain ⟨b, u, rfl, _, _, _, _, _, _, h⟩ := h
  simpa using h

theorem Start.congr {t o : Bytes} (h : Start t) (ho : o.head? = t.head?) : Start o := by
  obtain ⟨b, u, rfl, h⟩ := h
  cases o with
  | nil => cases ho
  | cons x o => cases ho; exact ⟨_, _, rfl, h⟩

theorem gap_star {g x : Bytes} (hg : Gap g) (hx : x.head? ≠ some c%'*') : (g ++ x).head? ≠ some c%'*' :=
  head_ok (gap_head_star hg) x hx

theorem eats_pre {b : Byte} (hb : Punct b) {r r' : Bytes} (h : Eats' r r') (hr : r.head? ≠ some c%'*') : Eats' (b :: r) (b :: r') :=
  (eats_punct hb).seq' h (head_ok hr)

theorem eats_close {R : Byte} (hR : Punct R) {g : Bytes} (hg : Gap g) : Eats' (g ++ [R]) [R] :=
  (eats_gap hg).seq' (eats_punct hR) (fun s _ => hR.head s)

/-- A value with the gaps around it, before a bracket, comma or colon. -/
theorem eats_item {b : Byte} (hb : Punct b) {g1 t o g2 x x' : Bytes} (h1 : Gap g1) (hs : Start t) (h : Eats t o) (h2 : Gap g2)
    (hx : Eats' (b :: x) x') : Eats' (g1 ++ t ++ g2 ++ b :: x) (o ++ x') := by
  have h3 := (h.gap_right h2).seqp hx (fun s => hb.delim _) (fun s => hb.head _)
  have h4 := (eats_gap h1).seq' h3 (fun s _ => by rw [List.append_assoc, List.append_assoc]; exact hs.star _)
  simpa using h4

theorem item_star {g1 t x : Bytes} (h1 : Gap g1) (hs : Start t) : (g1 ++ t ++ x).head? ≠ some c%'*' := by
  rw [List.append_assoc]
  exact gap_star h1 (hs.star x)

/-- `despace` turns `t` into `o`, which starts with the same byte. -/
def Min (t o : Bytes) : Prop := Eats t o ∧ o.head? = t.head?

theorem Min.start {t o : Bytes} (h : Min t o) (hs : Start t) : Start o := hs.congr h.2

/-! ### Lists -/

section
variable {R : Byte}

theorem items_min (hR : Punct R) {α : Type} {item : α → Bytes → Prop} {vs : List α} {r : Bytes} (h : ItemsText item R vs r)
    (hi : ∀ v t, item v t → Start t → t <:+: r → ∃ o, Min t o ∧ item v o) :
    ∃ r', ItemsText item R vs r' ∧ Eats' r r' ∧ r.head? ≠ some c%'*' := by
  induction h with
  | close hg => exact ⟨[R], .close (g := []) .nil, eats_close hR hg, gap_star hg (hR.head [])⟩
  | @last g1 v t g2 h1 h2 h3 h4 =>
    obtain ⟨o, hm, ho⟩ := hi v t h3 h2 ⟨g1, g2 ++ [R], by simp⟩
    refine ⟨o ++ [R], by simpa using ItemsText.last (R := R) .nil (hm.start h2) ho .nil, eats_item hR h1 h2 hm.1 h4 (eats_punct hR), ?_⟩
    rw [List.append_assoc]
    exact item_star h1 h2
  | @more g1 v t g2 vs r h1 h2 h3 h4 h5 ih =>
    obtain ⟨o, hm, ho⟩ := hi v t h3 h2 ⟨g1, g2 ++ c%',' :: r, by simp⟩
    obtain ⟨r', i1, i2, i3⟩ := ih fun v' t' a b c => hi v' t' a b (c.trans ⟨g1 ++ t ++ g2 ++ [c%','], [], by simp⟩)
    refine ⟨o ++ c%',' :: r', by simpa using ItemsText.more .nil (hm.start h2) ho .nil i1,
      eats_item (by simp [Punct]) h1 h2 hm.1 h4 (eats_pre (by simp [Punct]) i2 i3), ?_⟩
    rw [List.append_assoc]
    exact item_star h1 h2

theorem fix_min {α : Type} {fresh : α → α} {D : Den α} {vs vs' : List α} {r : Bytes} (h : FixDen fresh D vs vs' r)
    (hi : ∀ v v' t, D v v' t → Start t → t <:+: r → ∃ o, Min t o ∧ D v v' o) :
    ∃ r', FixDen fresh D vs vs' r' ∧ Eats' r r' ∧ r.head? ≠ some c%'*' := by
  have hR : Punct c%']' := by simp [Punct]
  induction h with
  | full => exact ⟨_, .full, eats_punct hR, hR.head []⟩
  | close hg => exact ⟨b!"]", .close (g := []) .nil, eats_close hR hg, gap_star hg (hR.head [])⟩
  | @last v v' vs g1 t g2 h1 h2 h3 h4 =>
    obtain ⟨o, hm, ho⟩ := hi _ _ t h3 h2 ⟨g1, g2 ++ b!"]", by simp⟩
    refine ⟨o ++ b!"]", by simpa using FixDen.last (vs := vs) .nil (hm.start h2) ho .nil, eats_item hR h1 h2 hm.1 h4 (eats_punct hR), ?_⟩
    rw [List.append_assoc]
    exact item_star h1 h2
  | @more v v' vs vs' g1 t g2 r h1 h2 h3 h4 h5 ih =>
    obtain ⟨o, hm, ho⟩ := hi _ _ t h3 h2 ⟨g1, g2 ++ c%',' :: r, by simp⟩
    obtain ⟨r', i1, i2, i3⟩ := ih fun w w' t' a b c => hi w w' t' a b (c.trans ⟨g1 ++ t ++ g2 ++ [c%','], [], by simp⟩)
    refine ⟨o ++ c%',' :: r', by simpa using FixDen.more .nil (hm.start h2) ho .nil i1,
      eats_item (by simp [Punct]) h1 h2 hm.1 h4 (eats_pre (by simp [Punct]) i2 i3), ?_⟩
    rw [List.append_assoc]
    exact item_star h1 h2

/-- `despace` turns `t` into a text that starts like a value. -/
def MinS (t o : Bytes) : Prop := Eats t o ∧ Start o

theorem items1_min (hR : Punct R) {ts os : List Bytes} {r : Bytes} (h : Items1 (fun v t => v = t) R ts r) (ho : All2 MinS ts os) :
    ∃ r', Items1 (fun v t => v = t) R os r' ∧ Eats' r r' ∧ r.head? ≠ some c%'*' := by
  induction h generalizing os with
  | @last g1 v t g2 h1 h2 h3 h4 =>
    subst h3
    cases ho with
    | @cons _ o _ _ hm hn =>
      cases hn
      refine ⟨o ++ [R], by simpa using Items1.last (item := fun v t => v = t) (R := R) .nil hm.2 rfl .nil,
        eats_item hR h1 h2 hm.1 h4 (eats_punct hR), ?_⟩
      rw [List.append_assoc]
      exact item_star h1 h2
  | @more g1 v t g2 vs r h1 h2 h3 h4 h5 ih =>
    subst h3
    cases ho with
    | @cons _ o _ os hm hn =>
      obtain ⟨r', i1, i2, i3⟩ := ih hn
      refine ⟨o ++ c%',' :: r', by simpa using Items1.more (item := fun v t => v = t) .nil hm.2 rfl .nil i1,
        eats_item (by simp [Punct]) h1 h2 hm.1 h4 (eats_pre (by simp [Punct]) i2 i3), ?_⟩
      rw [List.append_assoc]
      exact item_star h1 h2

theorem comma_min {ts os : List Bytes} {r x x' : Bytes} (h : ItemsComma (fun v t => v = t) ts r) (ho : All2 MinS ts os)
    (hx : Eats' x x') (hs : x.head? ≠ some c%'*') :
    ∃ r', ItemsComma (fun v t => v = t) os r' ∧ Eats' (r ++ x) (r' ++ x') ∧ (r ++ x).head? ≠ some c%'*' := by
  induction h generalizing os with
  | nil => cases ho; exact ⟨[], .nil, hx, hs⟩
  | @cons g1 v t g2 vs r h1 h2 h3 h4 h5 ih =>
    subst h3
    cases ho with
    | @cons _ o _ os hm hn =>
      obtain ⟨r', i1, i2, i3⟩ := ih hn
      refine ⟨o ++ c%',' :: r', by simpa using ItemsComma.cons (item := fun v t => v = t) .nil hm.2 rfl .nil i1, ?_, ?_⟩
      · have := eats_item (b := c%',') (by simp [Punct]) h1 h2 hm.1 h4 (eats_pre (by simp [Punct]) i2 i3)
        simpa using this
      · rw [List.append_assoc, List.append_assoc]
        exact item_star h1 h2

end

/-- A member of an object, before a bracket or comma. -/
theorem eats_member {b : Byte} (hb : Punct b) {k g1 g2 v o g3 x x' : Bytes} (hk : XString k) (h1 : Gap g1) (h2 : Gap g2) (hs : Start v)
    (h : Eats v o) (h3 : Gap g3) (hx : Eats' (b :: x) x') :
    Eats' (k ++ (g1 ++ c%':' :: (g2 ++ (v ++ (g3 ++ b :: x))))) (k ++ c%':' :: (o ++ x')) := by
  have hc : Punct c%':' := by simp [Punct]
  have h4 := eats_item hb h2 hs h h3 hx
  have h5 := eats_pre hc h4 (by rw [List.append_assoc]; exact item_star h2 hs)
  have h6 := (eats_gap h1).seq' h5 (fun s _ => hc.head _)
  have h7 := (eats_string hk).seq' h6 (fun s _ => by rw [List.append_assoc]; exact gap_star h1 (hc.head _))
  simpa using h7

theorem then_star {x s : Bytes} {items : List (Bytes × Bytes)} (h : ItemsThen x items s) : s.head? ≠ some c%'*' := by
  cases h <;> simp [quoted]

theorem then_min {b : Byte} (hb : Punct b) {x x' : Bytes} (hx : Eats' (b :: x) x') {items items' : List (Bytes × Bytes)} {s : Bytes}
    (h : ItemsThen (b :: x) items s) (hk : ∀ y ∈ items, XChars y.1)
    (ho : All2 (fun y y' => y.1 = y'.1 ∧ MinS y.2 y'.2) items items') :
    ∃ s', ItemsThen x' items' s' ∧ Eats' s s' := by
  have key : ∀ {k : Bytes}, XChars k → XString (quoted k) := fun h => ⟨_, h, by simp [quoted]⟩
  have hc : Punct c%',' := by simp [Punct]
  induction h generalizing items' with
  | @one k g1 g2 v g3 h1 h2 h3 h4 =>
    cases ho with
    | @cons _ y _ _ hm hn =>
      cases hn
      obtain ⟨k', o⟩ := y
      obtain ⟨rfl, hm⟩ := hm
      exact ⟨_, by simpa using ItemsThen.one (tail := x') (k := k) .nil .nil hm.2 .nil,
        eats_member hb (key (hk (k, v) (by simp))) h1 h2 h3 hm.1 h4 hx⟩
  | @more k g1 g2 v g3 g4 items r h1 h2 h3 h4 h5 h6 ih =>
    cases ho with
    | @cons _ y _ items' hm hn =>
      obtain ⟨k', o⟩ := y
      obtain ⟨rfl, hm⟩ := hm
      obtain ⟨s', i1, i2⟩ := ih (fun y hy => hk y (by simp [hy])) hn
      have hq : r.head? ≠ some c%'*' := then_star h6
      have h7 := eats_pre hc ((eats_gap h5).seq' i2 (head_ok hq)) (gap_star h5 hq)
      refine ⟨quoted k ++ c%':' :: (o ++ c%',' :: s'), by simpa using ItemsThen.more (k := k) .nil .nil hm.2 .nil .nil i1, ?_⟩
      exact eats_member hc (key (hk (k, v) (by simp))) h1 h2 h3 hm.1 h4 h7

theorem from_parts {items : List (Bytes × Bytes)} {r : Bytes} (h : ItemsFrom items r) :
    ∀ x ∈ items, Start x.2 ∧ x.1 <:+: r ∧ x.2 <:+: r := by
  induction h with
  | @one k g1 g2 v g3 h1 h2 h3 h4 =>
    intro x hx
    simp only [List.mem_singleton] at hx
    subst hx
    exact ⟨h3, ⟨[c%'"'], c%'"' :: (g1 ++ c%':' :: (g2 ++ (v ++ (g3 ++ b!"}")))), by simp [quoted]⟩,
      ⟨quoted k ++ (g1 ++ c%':' :: g2), g3 ++ b!"}", by simp⟩⟩
  | @more k g1 g2 v g3 g4 items r h1 h2 h3 h4 h5 h6 ih =>
    intro x hx
    have hsub : r <:+: quoted k ++ (g1 ++ c%':' :: (g2 ++ (v ++ (g3 ++ c%',' :: (g4 ++ r))))) :=
      ⟨quoted k ++ (g1 ++ c%':' :: (g2 ++ (v ++ (g3 ++ c%',' :: g4)))), [], by simp⟩
    rcases List.mem_cons.mp hx with rfl | hx
    · exact ⟨h3, ⟨[c%'"'], c%'"' :: (g1 ++ c%':' :: (g2 ++ (v ++ (g3 ++ c%',' :: (g4 ++ r))))), by simp [quoted]⟩,
        ⟨quoted k ++ (g1 ++ c%':' :: g2), g3 ++ c%',' :: (g4 ++ r), by simp⟩⟩
    · obtain ⟨a, b, c⟩ := ih x hx
      exact ⟨a, b.trans hsub, c.trans hsub⟩

theorem items1_parts {R : Byte} {ts : List Bytes} {r : Bytes} (h : Items1 (fun v t => v = t) R ts r) :
    ∀ x ∈ ts, Start x ∧ x <:+: r := by
  induction h with
  | @last g1 v t g2 h1 h2 h3 h4 =>
    subst h3
    intro x hx
    simp only [List.mem_singleton] at hx
    subst hx
    exact ⟨h2, g1, g2 ++ [R], by simp⟩
  | @more g1 v t g2 vs r h1 h2 h3 h4 h5 ih =>
    subst h3
    intro x hx
    rcases List.mem_cons.mp hx with rfl | hx
    · exact ⟨h2, g1, g2 ++ c%',' :: r, by simp⟩
    · obtain ⟨a, b⟩ := ih x hx
      exact ⟨a, b.trans ⟨g1 ++ v ++ g2 ++ [c%','], [], by simp⟩⟩

theorem comma_parts {ts : List Bytes} {r : Bytes} (h : ItemsComma (fun v t => v = t) ts r) : ∀ x ∈ ts, Start x ∧ x <:+: r := by
  induction h with
  | nil => intro x hx; cases hx
  | @cons g1 v t g2 vs r h1 h2 h3 h4 h5 ih =>
    subst h3
    intro x hx
    rcases List.mem_cons.mp hx with rfl | hx
    · exact ⟨h2, g1, g2 ++ c%',' :: r, by simp⟩
    · obtain ⟨a, b⟩ := ih x hx
      exact ⟨a, b.trans ⟨g1 ++ v ++ g2 ++ [c%','], [], by simp⟩⟩

/-! ### Structures -/

/-- A denotation that does not see gaps. -/
def GapFree {α : Type} (D : Den α) : Prop :=
  ∀ v0 v t, D v0 v t → PlainText t → NoWs t → ∃ o, Min t o ∧ D v0 v o

theorem GapFree.stores {τ : Type} {d : DEntry τ} (h : GapFree d.den) {t t1 : τ} {s : Bytes} (hd : d.stores t t1 s)
    (hp : PlainText s) (hs : Start s) : ∃ o, MinS s o ∧ d.stores t t1 o := by
  obtain ⟨x, h1, h2⟩ := hd
  obtain ⟨o, h3, h4⟩ := h _ _ _ h1 hp hs.noWs
  exact ⟨o, ⟨h3.1, h3.start hs⟩, x, h4, h2⟩

theorem skippable_min {x : Bytes × Bytes} (h : Skippable x) : ∃ y, (x.1 = y.1 ∧ MinS x.2 y.2) ∧ Skippable y := by
  obtain ⟨o, h1, h2⟩ := eats_xg h.2
  exact ⟨(x.1, o), ⟨rfl, h2, start_of_xvalue (CG.x h1)⟩, h.1, CG.x h1⟩

theorem skippables_min {items : List (Bytes × Bytes)} (h : ∀ x ∈ items, Skippable x) :
    ∃ items', All2 (fun y y' => y.1 = y'.1 ∧ MinS y.2 y'.2) items items' ∧ ∀ x ∈ items', Skippable x := by
  induction items with
  | nil => exact ⟨[], .nil, by simp⟩
  | cons x items ih =>
    obtain ⟨y, h1, h2⟩ := skippable_min (h x (by simp))
    obtain ⟨l, h3, h4⟩ := ih fun x hx => h x (by simp [hx])
    refine ⟨y :: l, .cons h1 h3, ?_⟩
    intro z hz
    rcases List.mem_cons.mp hz with rfl | hz
    · exact h2
    · exact h4 z hz

theorem run_min {τ : Type} {strict : Bool} {L l : List (DEntry τ)} {items : List (Bytes × Bytes)} {t t' : τ}
    {o : Option (List (DEntry τ))} (h : Run strict L l items t t' o) (hD : ∀ d ∈ L, GapFree d.den) (hl : ∀ d ∈ l, d ∈ L)
    (hp : ∀ x ∈ items, PlainText x.2 ∧ Start x.2) :
    ∃ items', All2 (fun y y' => y.1 = y'.1 ∧ MinS y.2 y'.2) items items' ∧ Run strict L l items' t t' o := by
  induction h with
  | done => exact ⟨[], .nil, .done⟩
  | @next d cur s items t t1 t2 r h1 h2 ih =>
    obtain ⟨a, b⟩ := hp _ (List.mem_cons_self ..)
    obtain ⟨o, h3, h4⟩ := (hD d (hl d (by simp))).stores h1 a b
    obtain ⟨l', h5, h6⟩ := ih (fun d hd => hl d (by simp [hd])) fun x hx => hp x (by simp [hx])
    exact ⟨(d.name, o) :: l', .cons ⟨rfl, h3⟩ h5, .next h4 h6⟩
  | @other d d' cur s items t t1 t2 r h0 h1 h2 h3 ih =>
    obtain ⟨a, b⟩ := hp _ (List.mem_cons_self ..)
    obtain ⟨o, h4, h5⟩ := (hD d' h0).stores h2 a b
    obtain ⟨l', h6, h7⟩ := ih hl fun x hx => hp x (by simp [hx])
    exact ⟨(d'.name, o) :: l', .cons ⟨rfl, h4⟩ h6, .other h0 h1 h5 h7⟩
  | @unknown d cur k s items t t2 r h0 h1 h2 h3 ih =>
    obtain ⟨⟨k', y⟩, ⟨hk, h4⟩, h5⟩ := skippable_min h2
    cases hk
    obtain ⟨l', h6, h7⟩ := ih hl fun x hx => hp x (by simp [hx])
    exact ⟨(k, y) :: l', .cons ⟨rfl, h4⟩ h6, .unknown h0 h1 h5 h7⟩
  | @rest x items t h0 h1 =>
    obtain ⟨l', h2, h3⟩ := skippables_min h1
    cases h2 with
    | cons h4 h5 => exact ⟨_, .cons h4 h5, .rest h0 h3⟩

theorem positional_min {τ : Type} {L : List (DEntry τ)} {ts : List Bytes} {t t' : τ} (h : Positional L ts t t')
    (hD : ∀ d ∈ L, GapFree d.den) (hp : ∀ x ∈ ts, PlainText x ∧ Start x) :
    ∃ os, All2 MinS ts os ∧ Positional L os t t' := by
  induction h with
  | nil => exact ⟨[], .nil, .nil⟩
  | @cons d L s ss t t1 t2 h1 h2 ih =>
    obtain ⟨a, b⟩ := hp s (by simp)
    obtain ⟨o, h3, h4⟩ := (hD d (by simp)).stores h1 a b
    obtain ⟨l', h5, h6⟩ := ih (fun d hd => hD d (by simp [hd])) fun x hx => hp x (by simp [hx])
    exact ⟨o :: l', .cons h3 h5, .cons h4 h6⟩

/-! ### All descriptions -/

theorem Min.string {t : Bytes} (h : XString t) : Min t t := ⟨(eats_string h).eats, rfl⟩
theorem Min.lit {t : Bytes} (h : t = b!"null" ∨ t = b!"true" ∨ t = b!"false") : Min t t := ⟨(eats_lit h).eats, rfl⟩
theorem Min.number {t : Bytes} (h : RNumber t) : Min t t := ⟨eats_number h, rfl⟩

theorem min_bracket {b : Byte} (hb : Punct b) {r r' : Bytes} (h : Eats' r r') (hr : r.head? ≠ some c%'*') : Min (b :: r) (b :: r') :=
  ⟨(eats_pre hb h hr).eats, rfl⟩

/-- Tokens are not changed. -/
theorem min_token {t : Bytes} (h : XString t ∨ RNumber t ∨ t = b!"null" ∨ t = b!"true" ∨ t = b!"false") : Min t t := by
  rcases h with h | h | h
  · exact .string h
  · exact .number h
  · exact .lit h

theorem JsonMeans.gapFree {c : Cfg} {α : Type} {S : Ser α} {D : Den α} (h : JsonMeans c false S D) : GapFree D := by
  have pL : Punct c%'[' := by simp [Punct]
  have pR : Punct c%']' := by simp [Punct]
  have pl : Punct c%'{' := by simp [Punct]
  have pr : Punct c%'}' := by simp [Punct]
  have pc : Punct c%',' := by simp [Punct]
  have pd : Punct c%':' := by simp [Punct]
  have tail : ∀ {x : Byte} {t r : Bytes}, t <:+: r → t <:+: x :: r := fun h => h.trans (List.suffix_cons _ _).isInfix
  have empty : ∀ {a b : Byte}, Punct a → Punct b → ∀ {g : Bytes}, Gap g → Min (a :: (g ++ [b])) [a, b] := fun ha hb _ hg =>
    min_bracket ha (eats_close hb hg) (gap_star hg (hb.head []))
  induction h with
  | int h =>
    intro v0 v t hd hp hw
    refine ⟨t, min_token ?_, hd⟩
    rcases intDen_value hd with h | h
    · exact .inr (.inr (.inl h))
    · exact .inr (.inl h)
  | bool =>
    intro v0 v t hd hp hw
    refine ⟨t, min_token ?_, hd⟩
    rcases hd with ⟨rfl, _⟩ | ⟨rfl, _⟩ | ⟨rfl, _⟩ <;> simp
  | float h =>
    intro v0 v t hd hp hw
    refine ⟨t, min_token ?_, hd⟩
    rcases hd with ⟨rfl, _⟩ | ⟨h, _⟩
    · simp
    · exact .inr (.inl h)
  | key h =>
    intro v0 v t hd hp hw
    refine ⟨t, min_token ?_, hd⟩
    rcases h.string hd hp hw with h | rfl
    · exact .inl h
    · simp
  | raw h => cases h
  | rawUnquoted h => cases h
  | size =>
    intro v0 v t hd hp hw
    refine ⟨t, min_token ?_, hd⟩
    rcases hd with hd | ⟨u, w, n, x, r, rfl, hd, _⟩
    · rcases intDen_value hd with h | h
      · exact .inr (.inr (.inl h))
      · exact .inr (.inl h)
    · obtain ⟨h1, h2⟩ := hp.body
      exact .inl ⟨u, xchars_decodesIn hd h1 h2, by simp [Wjson.quoted]⟩
  | quoted _ ih =>
    intro v0 v t hd hp hw
    have hd' := hd
    rcases hd with ⟨w, r, ⟨u, rfl, hd⟩ | ⟨_, rfl, _⟩, _⟩ | ⟨h1, h2, h3⟩
    · obtain ⟨h1, h2⟩ := hp.body
      exact ⟨_, .string ⟨u, xchars_decodes hd h1 h2, by simp [Wjson.quoted]⟩, hd'⟩
    · exact ⟨_, .lit (by simp), hd'⟩
    · obtain ⟨o, h4, h5⟩ := ih v0 v t h3 hp hw
      exact ⟨o, h4, .inr ⟨h1, by rw [h4.2]; exact h2, h5⟩⟩
  | memberValue _ ih =>
    intro v0 v t hd hp hw
    obtain ⟨x, h1, h2⟩ := hd
    obtain ⟨o, h3, h4⟩ := ih _ _ _ h1 hp hw
    exact ⟨o, h3, x, h4, h2⟩
  | array _ ih =>
    intro v0 v t hd hp hw
    have hd' := hd
    rcases hd with ⟨rfl, _⟩ | ⟨vs, r, rfl, h, h'⟩
    · exact ⟨_, .lit (by simp), hd'⟩
    · obtain ⟨r', h1, h2, h3⟩ := items_min pR h fun v t hi hs ht => ih _ _ _ hi (hp.sub (tail ht)) hs.noWs
      exact ⟨_, min_bracket pL h2 h3, .inr ⟨vs, r', rfl, h1, h'⟩⟩
  | stdArray _ _ ih =>
    intro v0 v t hd hp hw
    have hd' := hd
    rcases hd with ⟨rfl, _⟩ | ⟨r, rfl, h⟩
    · exact ⟨_, .lit (by simp), hd'⟩
    · obtain ⟨r', h1, h2, h3⟩ := fix_min h fun v v' t hi hs ht => ih _ _ _ hi (hp.sub (tail ht)) hs.noWs
      exact ⟨_, min_bracket pL h2 h3, .inr ⟨r', rfl, h1⟩⟩
  | cArray _ _ ih =>
    intro v0 v t hd hp hw
    have hd' := hd
    rcases hd with ⟨rfl, _⟩ | ⟨r, rfl, h⟩
    · exact ⟨_, .lit (by simp), hd'⟩
    · obtain ⟨r', h1, h2, h3⟩ := fix_min h fun v v' t hi hs ht => ih _ _ _ hi (hp.sub (tail ht)) hs.noWs
      exact ⟨_, min_bracket pL h2 h3, .inr ⟨r', rfl, h1⟩⟩
  | dict hk hv ih =>
    intro v0 v t hd hp hw
    have hd' := hd
    rcases hd with ⟨rfl, _⟩ | ⟨vs, r, rfl, h, h'⟩
    · exact ⟨_, .lit (by simp), hd'⟩
    · obtain ⟨r', h1, h2, h3⟩ := items_min pr h (by
        intro v t hi hs ht
        obtain ⟨tk, ga, gb, tv, rfl, ha, hb, hsv, h6, h7⟩ := hi
        have hp' := hp.sub (tail (x := c%'{') ht)
        have hne : tk ≠ [] := by
          intro h0
          obtain ⟨b, _, hb, _⟩ := hk.means.exact.head h6
          rw [h0] at hb
          cases hb
        have hwk : NoWs tk := by
          cases tk with
          | nil => exact absurd rfl hne
          | cons b tk =>
            intro b' hb'
            cases hb'
            exact hs.noWs b rfl
        have hkx : XString tk := by
          rcases hk.string h6 (hp'.sub ⟨[], ga ++ c%':' :: (gb ++ tv), by simp⟩) hwk with h | rfl
          · exact h
          · exact absurd ⟨[], gb ++ tv, by simp⟩ (hp'.nonull ga ha)
        obtain ⟨o, h8, h9⟩ := ih _ _ _ h7 (hp'.sub ⟨tk ++ ga ++ c%':' :: gb, [], by simp⟩) hsv.noWs
        refine ⟨tk ++ c%':' :: o, ⟨?_, ?_⟩, tk, [], [], o, rfl, .nil, .nil, h8.start hsv, h6, h9⟩
        · have a1 : Eats (gb ++ tv) o := (eats_gap hb).seq h8.1 (fun s _ => hsv.star s)
          have a2 : Eats (c%':' :: (gb ++ tv)) (c%':' :: o) := (eats_punct pd).seq a1 (fun s _ => by
            show (gb ++ tv ++ s).head? ≠ _
            rw [List.append_assoc]; exact gap_star hb (hsv.star s))
          have a3 := (eats_gap ha).seq a2 (fun s _ => pd.head _)
          exact (eats_string hkx).seq a3 (fun s _ => by rw [List.append_assoc]; exact gap_star ha (pd.head _))
        · cases tk with
          | nil => exact absurd rfl hne
          | cons b tk => rfl)
      exact ⟨_, min_bracket pl h2 h3, .inr ⟨vs, r', rfl, h1, h'⟩⟩
  | @object τ strict dflt L hg hS ih =>
    intro v0 v t hd hp hw
    have hd' := hd
    have hnames : names (L.map DEntry.entry) = L.map DEntry.name := by simp [names, DEntry.name]
    have hpl : ∀ d ∈ L, PlainName d.name := fun d hd => hg.plain d.name (by rw [hnames]; exact List.mem_map_of_mem hd)
    have hkey : ∀ {items : List (Bytes × Bytes)} {t t' o}, Run strict L L items t t' o → (∀ x ∈ items, PlainText x.1) →
        ∀ x ∈ items, XChars x.1 := by
      intro items t t' o hrun hp x hx
      rcases run_items hrun (fun _ h => h) x hx with ⟨d, hd, he, _⟩ | h
      · have := hp x hx
        rw [he] at this ⊢
        exact xchars_plain (hpl d hd) fun b hb => (this.ascii b hb).1
      · exact h.1
    rcases hd with ⟨rfl, _⟩ | ⟨g, rfl, hgap, h'⟩ | ⟨items, o, h1, h2⟩ | ⟨items, h1, h2⟩
    · exact ⟨_, .lit (by simp), hd'⟩
    · exact ⟨_, empty pL pR hgap, .inr (.inl ⟨[], rfl, .nil, h'⟩)⟩
    · cases h1 with
      | empty h => exact ⟨_, empty pl pr h, .inr (.inr (.inl ⟨[], o, .empty (g := []) .nil, h2⟩))⟩
      | @items g _ r hgap hi =>
        have hpr : PlainText r := hp.sub ⟨c%'{' :: g, [], by simp⟩
        have parts := from_parts hi
        obtain ⟨items', h3, h4⟩ := run_min h2 (fun d hd => ih d hd) (fun _ h => h)
          fun x hx => ⟨hpr.sub (parts x hx).2.2, (parts x hx).1⟩
        obtain ⟨r0, rfl, h5⟩ := itemsThen_of_from hi
        obtain ⟨s', h6, h7⟩ := then_min pr (eats_punct pr) (h5 b!"}") (hkey h2 fun x hx => hpr.sub (parts x hx).2.1) h3
        obtain ⟨r1, rfl, h8⟩ := itemsThen_back h6
        have hq : (r0 ++ b!"}").head? ≠ some c%'*' := then_star (h5 _)
        refine ⟨c%'{' :: (r1 ++ b!"}"), min_bracket pl ?_ (gap_star hgap hq), .inr (.inr (.inl ⟨items', o, .items (g := []) .nil h8, h4⟩))⟩
        exact (eats_gap hgap).seq' h7 (head_ok hq)
    · cases h1 with
      | @mk r g hobj hne hgap =>
        generalize hwr : r ++ b!"}" = w at hobj
        cases hobj with
        | empty => exact absurd rfl hne
        | @items g1 _ r1 hg1 hi =>
          have parts := from_parts hi
          obtain ⟨r0, rfl, h5⟩ := itemsThen_of_from hi
          have hr : r = c%'{' :: (g1 ++ r0) := by
            refine List.append_cancel_right (bs := b!"}") ?_
            rw [hwr]
            simp
          subst hr
          have hpr : PlainText (r0 ++ b!"}") := by
            have : PlainText r0 := hp.sub ⟨c%'{' :: g1, c%',' :: (g ++ b!"}"), by simp⟩
            exact this.snoc
          obtain ⟨items', h3, h4⟩ := run_min h2 (fun d hd => ih d hd) (fun _ h => h)
            fun x hx => ⟨hpr.sub (parts x hx).2.2, (parts x hx).1⟩
          have hx : Eats' (c%',' :: (g ++ b!"}")) b!",}" := eats_pre pc (eats_close pr hgap) (gap_star hgap (pr.head []))
          have h5' := h5 (c%',' :: (g ++ b!"}"))
          obtain ⟨s', h6, h7⟩ := then_min pc hx h5' (hkey h2 fun x hx => hpr.sub (parts x hx).2.1) h3
          obtain ⟨r2, rfl, h8⟩ := itemsThen_back h6
          have hq : (r0 ++ c%',' :: (g ++ b!"}")).head? ≠ some c%'*' := then_star h5'
          refine ⟨c%'{' :: r2 ++ c%',' :: ([] ++ b!"}"), ?_, .inr (.inr (.inr ⟨items', .mk (.items (g := []) .nil h8) ?_ .nil, h4⟩))⟩
          · have := min_bracket pl ((eats_gap hg1).seq' h7 (head_ok hq)) (gap_star hg1 hq)
            simpa using this
          · cases h3 with
            | nil => exact absurd rfl hne
            | cons => simp
  | @objectArray τ dflt L hS ih =>
    intro v0 v t hd hp hw
    have hd' := hd
    rcases hd with ⟨rfl, _⟩ | ⟨g, rfl, hgap, h'⟩ | ⟨L1, L2, ts, r, rfl, rfl, h1, h2⟩ | ⟨ts, r, g, rfl, hne, h1, h2, h3⟩
    · exact ⟨_, .lit (by simp), hd'⟩
    · exact ⟨_, empty pL pR hgap, .inr (.inl ⟨[], rfl, .nil, h'⟩)⟩
    · have parts := items1_parts h1
      obtain ⟨os, h3, h4⟩ := positional_min h2 (fun d hd => ih d (by simp [hd]))
        fun x hx => ⟨hp.sub (tail (parts x hx).2), (parts x hx).1⟩
      obtain ⟨r', h5, h6, h7⟩ := items1_min pR h1 h3
      exact ⟨_, min_bracket pL h6 h7, .inr (.inr (.inl ⟨L1, L2, os, r', rfl, rfl, h5, h4⟩))⟩
    · have parts := comma_parts h1
      obtain ⟨os, h4, h5⟩ := positional_min h3 (fun d hd => ih d hd)
        fun x hx => ⟨hp.sub ((parts x hx).2.trans ⟨[c%'['], g ++ b!"]", by simp⟩), (parts x hx).1⟩
      obtain ⟨r', h6, h7, h8⟩ := comma_min h1 h4 (eats_close pR h2) (gap_star h2 (pR.head []))
      refine ⟨_, by simpa using min_bracket pL h7 h8, .inr (.inr (.inr ⟨os, r', [], by simp, ?_, h6, .nil, h5⟩))⟩
      cases h4 with
      | nil => exact absurd rfl hne
      | cons => simp

/-! ### Serialized text -/

theorem CR.c {k : Kind} {t : Bytes} (h : CR k t) : CG k t := by
  induction h with
  | null => exact .null
  | true => exact .true
  | false => exact .false
  | num h => exact .num h
  | str h => exact .str (RString.x h)
  | arr0 => exact .arr0
  | arr _ ih => exact .arr ih
  | obj0 => exact .obj0
  | obj _ ih => exact .obj ih
  | elem _ ih => exact .elem ih
  | elemMore _ _ ih ih2 => exact .elemMore ih ih2
  | memb hk _ ih => exact .memb (RString.x hk) ih
  | membMore hk _ _ ih ih2 => exact .membMore (RString.x hk) ih ih2

end Wjson
