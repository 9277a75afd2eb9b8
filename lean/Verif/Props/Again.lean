import Verif.Proofs.Again
/-
C84: several documents read into one variable.
-/
namespace Wjson
open Spec

/-! ### C84 -/

/-- C84. Where reading ends and which error it reports does not depend on what
the variable held before. -/
theorem C84_history {c : Cfg} {α : Type} {S : Ser α} (h : Parts c S) {v x : α} {s p : Bytes} {e e' : EPtr}
    (hr : S.de v s e = .ok (x, p, e')) (u : α) : ∃ y, S.de u s e = .ok (y, p, e') := by
  obtain ⟨E, -, hE⟩ := h.stamps
  rcases hE s e with h1 | h1 | ⟨f, r, -, h1⟩
  · rw [show S.de v s e = _ from h1 v] at hr; cases hr
  · rw [show S.de v s e = _ from h1 v] at hr; cases hr
  · rw [show S.de v s e = _ from h1 v] at hr
    cases hr
    exact ⟨f u, h1 u⟩

/-- C84. Neither does undefined behaviour. -/
theorem C84_defined {c : Cfg} {α : Type} {S : Ser α} (h : Parts c S) {v : α} {s : Bytes} {e : EPtr} (hr : S.de v s e = .ub) (u : α) :
    S.de u s e = .ub := by
  obtain ⟨E, -, hE⟩ := h.stamps
  rcases hE s e with h1 | h1 | ⟨f, r, -, h1⟩
  · exact h1 u
  · rw [show S.de v s e = _ from h1 v] at hr; cases hr
  · rw [show S.de v s e = _ from h1 v] at hr; cases hr

/-- C84. Reading the same text a second time changes nothing, also if the text
has an error. -/
theorem C84_again {c : Cfg} {α : Type} {S : Ser α} (h : Parts c S) {v x : α} {s p : Bytes} {e e' : EPtr}
    (hr : S.de v s e = .ok (x, p, e')) : S.de x s e = .ok (x, p, e') := by
  obtain ⟨E, hB, hE⟩ := h.stamps
  rcases hE s e with h1 | h1 | ⟨f, r, hf, h1⟩
  · rw [show S.de v s e = _ from h1 v] at hr; cases hr
  · rw [show S.de v s e = _ from h1 v] at hr; cases hr
  · rw [show S.de v s e = _ from h1 v] at hr
    cases hr
    rw [show S.de (f v) s e = _ from h1 (f v), show f (f v) = f v from hB.last hf hB.one v]

/-- The effect of reading several texts, where none has undefined behaviour. -/
theorem InTurn.effect {α : Type} {S : Ser α} {e : EPtr} {E : (α → α) → Prop} (hB : Band E) (hE : ∀ s e, Uni E fun v => S.de v s e) {l : List Bytes} {v w : α}
    (h : InTurn S e l v w) : ∃ F, E F ∧ ∀ u x, InTurn S e l u x ↔ x = F u := by
  induction h with
  | nil => exact ⟨id, hB.one, fun u x => ⟨fun h => by cases h; rfl, fun h => by rw [h]; exact .nil⟩⟩
  | @cons s l v v' w p e' hr _ ih =>
    obtain ⟨F, hF, h2⟩ := ih
    rcases hE s e with h1 | h1 | ⟨f, r, hf, h1⟩
    · rw [show S.de v s e = _ from h1 v] at hr; cases hr
    · rw [show S.de v s e = _ from h1 v] at hr; cases hr
    · refine ⟨F ∘ f, hB.comp hF hf, fun u x => ⟨fun h => ?_, fun h => ?_⟩⟩
      · cases h with
        | cons h3 h4 =>
          rw [show S.de u s e = _ from h1 u] at h3
          cases h3
          exact (h2 _ _).mp h4
      · exact .cons (h1 u) ((h2 _ _).mpr h)

theorem InTurn.append {α : Type} {S : Ser α} {e : EPtr} {l l' : List Bytes} {v w : α} :
    InTurn S e (l ++ l') v w ↔ ∃ u, InTurn S e l v u ∧ InTurn S e l' u w := by
  induction l generalizing v with
  | nil => exact ⟨fun h => ⟨v, .nil, h⟩, fun ⟨u, h, h'⟩ => by cases h; exact h'⟩
  | cons s l ih =>
    constructor
    · intro h
      cases h with
      | cons h1 h2 =>
        obtain ⟨u, h3, h4⟩ := ih.mp h2
        exact ⟨u, .cons h1 h3, h4⟩
    · rintro ⟨u, h, h'⟩
      cases h with
      | cons h1 h2 => exact .cons h1 (ih.mpr ⟨u, h2, h'⟩)

/-- C84. If several texts are read one after the other into one variable, a text
that comes again later need not be read the first time. -/
theorem C84_earlier {c : Cfg} {α : Type} {S : Ser α} (h : Parts c S) {e : EPtr} {s : Bytes} {l l' : List Bytes} (hs : s ∈ l') {v w : α} :
    InTurn S e (l ++ s :: l') v w ↔ InTurn S e (l ++ l') v w := by
  obtain ⟨E, hB, hE⟩ := h.stamps
  obtain ⟨a, b, rfl⟩ := List.append_of_mem hs
  rw [InTurn.append, InTurn.append]
  refine exists_congr fun u => and_congr_right fun _ => ?_
  have hfs : ∀ {x y : α}, InTurn S e (a ++ s :: b) x y → (InTurn S e (s :: (a ++ s :: b)) u w ↔ InTurn S e (a ++ s :: b) u w) := by
    intro x y hxy
    obtain ⟨x1, ha, hsb⟩ := InTurn.append.mp hxy
    cases hsb with
    | @cons _ _ _ x2 _ p e' hr hb =>
    obtain ⟨A, hA, h1⟩ := InTurn.effect hB hE ha
    obtain ⟨B, hB', h2⟩ := InTurn.effect hB hE hb
    rcases hE s e with h3 | h3 | ⟨f, r, hf, h3⟩
    · rw [show S.de x1 s e = _ from h3 x1] at hr; cases hr
    · rw [show S.de x1 s e = _ from h3 x1] at hr; cases hr
    · have all : ∀ u w, InTurn S e (a ++ s :: b) u w ↔ w = B (f (A u)) := by
        intro u w
        rw [InTurn.append]
        constructor
        · rintro ⟨z, hz, hw⟩
          rw [h1] at hz
          cases hw with
          | cons hr' hw =>
            rw [show S.de z s e = _ from h3 z] at hr'
            cases hr'
            rw [h2] at hw
            rw [hw, hz]
        · intro hw
          exact ⟨A u, (h1 _ _).mpr rfl, .cons (h3 _) ((h2 _ _).mpr hw)⟩
      rw [all]
      constructor
      · intro h
        cases h with
        | cons hr' hw =>
          rw [show S.de u s e = _ from h3 u] at hr'
          cases hr'
          rw [all, hB.last hf hA] at hw
          exact hw
      · intro hw
        refine .cons (h3 u) ((all _ _).mpr ?_)
        rw [hB.last hf hA]
        exact hw
  constructor
  · intro hw
    cases hw with
    | cons h1 h2 => exact (hfs h2).mp (.cons h1 h2)
  · intro hw
    exact (hfs hw).mpr hw

/-! #### A structure with a number and an array -/

/-- `struct { int n; int a[2]; }` -/
abbrev NumArr := Int × Vector Int 2

def numRef : MRef NumArr := ⟨b!"n", fun t => t.1, fun x t => (x, t.2), intSer .strict .int⟩

def arrRef : MRef NumArr := ⟨b!"a", fun t => t.2, fun x t => (t.1, x), fixVecSer .cArray 2 (intSer .strict .int)⟩

def numArrSer : Ser NumArr :=
  objectSer .strict false (0, #v[0, 0]) ([.one (.mem numRef), .one (.mem arrRef)].map Slot.toMember)

theorem numArr_fields : Fields [numRef, arrRef] where
  get_set := by
    intro m hm x t
    simp only [List.mem_cons, List.not_mem_nil, or_false] at hm
    rcases hm with rfl | rfl <;> rfl
  set_set := by
    intro m hm x y t
    simp only [List.mem_cons, List.not_mem_nil, or_false] at hm
    rcases hm with rfl | rfl <;> rfl
  apart := by
    simp only [List.pairwise_cons, List.mem_cons, List.not_mem_nil, or_false, forall_eq]
    exact ⟨⟨fun _ _ => rfl, fun _ _ => rfl, fun _ _ _ => rfl⟩, nofun, .nil⟩

theorem numArr_parts : Parts .strict numArrSer := by
  refine .object numArr_fields ?_ ?_
  · intro m hm t
    simp only [List.flatMap_cons, List.flatMap_nil, Slot.refs, Entry.ref, List.append_nil, List.cons_append, List.nil_append, List.mem_cons,
      List.not_mem_nil, or_false] at hm
    rcases hm with rfl | rfl <;> rfl
  · intro m hm
    simp only [List.flatMap_cons, List.flatMap_nil, Slot.refs, Entry.ref, List.append_nil, List.cons_append, List.nil_append, List.mem_cons,
      List.not_mem_nil, or_false] at hm
    rcases hm with rfl | rfl
    · exact .base .int
    · exact .fixed (.base .int)

/-- The first text sets `n` and the first element, the second one `n` and both
elements, and the third one is damaged behind the first element. -/
example : InTurn numArrSer .fresh [b!"{\"n\":1,\"a\":[5]}", b!"{\"a\":[7,8],\"n\":2}", b!"{\"a\":[9", b!"{\"n\":1,\"a\":[5]}"] (0, #v[0, 0]) (1, #v[5, 8]) :=
  .cons (v' := (1, #v[5, 0])) rfl (.cons (v' := (2, #v[7, 8])) rfl (.cons (v' := (2, #v[9, 8])) rfl (.cons rfl .nil)))

example : InTurn numArrSer .fresh [b!"{\"a\":[7,8],\"n\":2}", b!"{\"a\":[9", b!"{\"n\":1,\"a\":[5]}"] (0, #v[0, 0]) (1, #v[5, 8]) :=
  (C84_earlier (l := []) (s := b!"{\"n\":1,\"a\":[5]}") numArr_parts (by decide)).mp
    (.cons (v' := (1, #v[5, 0])) rfl (.cons (v' := (2, #v[7, 8])) rfl (.cons (v' := (2, #v[9, 8])) rfl (.cons rfl .nil))))

/-- Only a text that comes again may be left out: the order of the others matters. -/
theorem C84_order_matters : InTurn numArrSer .fresh [b!"{\"n\":1}", b!"{\"n\":2}"] (0, #v[0, 0]) (2, #v[0, 0]) ∧
    InTurn numArrSer .fresh [b!"{\"n\":2}", b!"{\"n\":1}"] (0, #v[0, 0]) (1, #v[0, 0]) :=
  ⟨.cons (v' := (1, #v[0, 0])) rfl (.cons rfl .nil), .cons (v' := (2, #v[0, 0])) rfl (.cons rfl .nil)⟩

/-! #### Where it fails -/

/-- A property whose setter adds is no separate variable: reading the text again
adds again. -/
theorem C84_adding_setter : ∃ m : MRef Int,
    (objectSer .strict false 0 [memberP m]).de 0 b!"{\"n\":1}" .fresh = .ok (1, [], .fresh) ∧
    (objectSer .strict false 0 [memberP m]).de 1 b!"{\"n\":1}" .fresh = .ok (2, [], .fresh) :=
  ⟨⟨b!"n", id, fun x t => t + x, intSer .strict .int⟩, rfl, rfl⟩

end Wjson
