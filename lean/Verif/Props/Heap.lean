import Verif.Spec.Heap
import Verif.Model.Integer
import Verif.Proofs.Heap
/-
C85: objects behind pointers.
-/
namespace Wjson
open Spec

section
variable {C : Type} {own : C → List Nat} {c : Cfg} {α β : Type} {HS : Ser (OnHeap C α)} {S : Ser β} {T : HTy C α β}

/-- C85. Trees are enough: reading into a target with pointers, in a heap of any contents, ends as reading into the tree it stands for, at the
same position and with the same error, and the new target stands for the new tree. Its pointers lead to new objects and to those that the
pointers of the old target led to (`A`). -/
theorem C85_same_as_trees (h : Heaped own c HS S T) {H : List C} {A : Nat → Prop} {x : α} {w : β} (hx : T.den H A x w) (s : Bytes) (e : EPtr) :
    (HS.de (x, H) s e = .ub ∧ S.de w s e = .ub) ∨ (HS.de (x, H) s e = .fuel ∧ S.de w s e = .fuel) ∨
    ∃ x' H' w' p e', HS.de (x, H) s e = .ok ((x', H'), p, e') ∧ S.de w s e = .ok (w', p, e') ∧ T.den H' (fun a => A a ∨ H.length ≤ a) x' w' := by
  have := h.sound.de (fun a => A a ∨ H.length ≤ a) s e (x, H) w ⟨fun a ha => .inr ha, h.sound.lawful.wider (fun _ ha => .inl ha) hx⟩
  simp only at this
  revert this
  generalize HS.de (x, H) s e = g
  generalize S.de w s e = p
  intro this
  cases this with
  | ub => exact .inl ⟨rfl, rfl⟩
  | fuel => exact .inr (.inl ⟨rfl, rfl⟩)
  | @ok y w' r h1 h2 => exact .inr (.inr ⟨y.1, y.2, w', r.1, r.2, rfl, rfl, h1.2⟩)

theorem de_grown (h : Heaped own c HS S T) {H : List C} {A : Nat → Prop} {x : α} {w : β} (hx : T.den H A x w) {s : Bytes} {e : EPtr}
    {y : OnHeap C α} {r : Bytes × EPtr} (hr : HS.de (x, H) s e = .ok (y, r)) : Grown own T (x, H) y := by
  have := h.sound.de (fun a => A a ∨ H.length ≤ a) s e (x, H) w ⟨fun a ha => .inr ha, h.sound.lawful.wider (fun _ ha => .inl ha) hx⟩
  simp only [hr] at this
  revert this
  generalize S.de w s e = p
  intro this
  cases this with
  | ok h1 h2 => exact h2

/-- C85. Objects that exist are not touched by reading, whether a pointer in the target leads to them or not: other owners
see what they saw before. -/
theorem C85_others_untouched (h : Heaped own c HS S T) {H : List C} {A : Nat → Prop} {x : α} {w : β} (hx : T.den H A x w) {s : Bytes} {e : EPtr}
    {x' : α} {H' : List C} {r : Bytes × EPtr} (hr : HS.de (x, H) s e = .ok ((x', H'), r)) {a : Nat} {cell : C} (ha : H[a]? = some cell) :
    H'[a]? = some cell := prefix_get (de_grown h hx hr).heap ha

/-- C85. Another target, with pointers into the same heap, stands for the same tree before and after. -/
theorem C85_others_unchanged (h : Heaped own c HS S T) {H : List C} {A : Nat → Prop} {x : α} {w : β} (hx : T.den H A x w) {s : Bytes} {e : EPtr}
    {x' : α} {H' : List C} {r : Bytes × EPtr} (hr : HS.de (x, H) s e = .ok ((x', H'), r))
    {γ δ : Type} {HU : Ser (OnHeap C γ)} {U : Ser δ} {V : HTy C γ δ} (hU : Heaped own c HU U V) {B : Nat → Prop} {y : γ} {z : δ} (hy : V.den H B y z) :
    V.den H' B y z := Lawful.later hU.sound.lawful (de_grown h hx hr).heap hy

/-- C85. Every object that reading creates has at most one owner. The pointers in the target and in the new objects are all different, if
those in the target were before; each of them is the address of a new object or was in the target before. -/
theorem C85_one_owner (h : Heaped own c HS S T) {H : List C} {A : Nat → Prop} {x : α} {w : β} (hx : T.den H A x w) {s : Bytes} {e : EPtr}
    {x' : α} {H' : List C} {r : Bytes × EPtr} (hr : HS.de (x, H) s e = .ok ((x', H'), r))
    (hd : (T.refs x).Nodup) (hi : ∀ a ∈ T.refs x, a < H.length) :
    (T.refs x' ++ (H'.drop H.length).flatMap own).Nodup ∧
    ∀ a ∈ T.refs x' ++ (H'.drop H.length).flatMap own, a ∈ T.refs x ∨ (H.length ≤ a ∧ a < H'.length) := by
  have hg := (de_grown h hx hr).held
  simp only [held] at hg
  refine ⟨List.nodup_iff_count.mpr fun a => ?_, fun a ha => ?_⟩
  · rw [List.count_append]
    have h1 := hg a
    have h2 := List.nodup_iff_count.mp hd a
    by_cases hm : a ∈ T.refs x
    · have := hi a hm
      rw [if_neg (by omega)] at h1
      omega
    · rw [List.count_eq_zero_of_not_mem hm] at h1
      split at h1 <;> omega
  · have h1 := hg a
    have h2 : 0 < (T.refs x' ++ (H'.drop H.length).flatMap own).count a := List.count_pos_iff.mpr ha
    rw [List.count_append] at h2
    by_cases hm : a ∈ T.refs x
    · exact .inl hm
    · rw [List.count_eq_zero_of_not_mem hm] at h1
      split at h1
      · exact .inr (by assumption)
      · omega

/-- C85. Writing: the text is that of the tree the target stands for; where the objects are does not matter. -/
theorem C85_written (h : Heaped own c HS S T) {H : List C} {A : Nat → Prop} {x : α} {w : β} (hx : T.den H A x w) (k : Sink) :
    HS.emit (x, H) k = S.emit w k := h.sound.emit H A x w k hx

/-- C85. Two targets that stand for one tree are not told apart by the writer. -/
theorem C85_sharing_unseen (h : Heaped own c HS S T) {H H' : List C} {A A' : Nat → Prop} {x x' : α} {w : β} (hx : T.den H A x w)
    (hx' : T.den H' A' x' w) (k : Sink) : HS.emit (x, H) k = HS.emit (x', H') k :=
  (C85_written h hx k).trans (C85_written h hx' k).symm

end

/-! ### `std::vector<std::shared_ptr<int>>` -/

/-- Cells with an `int` hold no pointers. -/
def noRefs : Int → List Nat := fun _ => []

def sharedIntsTy : HTy Int (List (Option Nat)) (List (Option Int)) := collTy (seqColl _) (seqColl _) (ptrTy some (leafTy Int Int))

def sharedInts (c : Cfg) : Ser (OnHeap Int (List (Option Nat))) := heapSeq (seqColl _) (heapPointer id some (heapLeaf (intSer c .int))) c%'[' c%']'

theorem All2.append {α β : Type} {P : α → β → Prop} {a c : List α} {b d : List β} (h : All2 P a b) (h' : All2 P c d) : All2 P (a ++ c) (b ++ d) := by
  induction h with
  | nil => exact h'
  | cons h1 _ ih => exact .cons h1 ih

/-- `push_back` is as `CollTwins` says. -/
theorem seqColl_twins {α β : Type} (P : α → β → Prop) : CollTwins (seqColl α) (seqColl β) P where
  clear := ⟨rfl, rfl⟩
  insert _ _ _ _ h h' := All2.append h (.cons h' .nil)
  only f t x := by
    show ((t ++ [x]).map f).sum ≤ _
    rw [List.map_append, List.sum_append]
    simp [seqColl]

theorem sharedInts_heaped (c : Cfg) : Heaped noRefs c (sharedInts c) (seqSer (seqColl _) (pointerSer (intSer c .int)) c%'[' c%']') sharedIntsTy :=
  .seq (.pointer .leaf (fun _ => rfl) fun _ => rfl) fun _ _ => seqColl_twins _

/-- Two pointers to one object: the target stands for a tree with the object twice. -/
example : sharedIntsTy.den [7] (fun _ => True) [some 0, none, some 0] [some 7, none, some 7] :=
  .cons ⟨trivial, _, rfl, rfl⟩ (.cons trivial (.cons ⟨trivial, _, rfl, rfl⟩ .nil))

/-- The objects 7 and 8 of the old vector are left as they are. -/
example : (sharedInts .strict).de ([some 0, some 1], [7, 8]) b!"[5,null,6]" .fresh = .ok (([some 2, none, some 3], [7, 8, 5, 6]), [], .fresh) := rfl

/-- C85. Deviation: two pointers to one object are written as two objects and read back as two pointers to two
objects, although nothing failed. -/
theorem C85_sharing_lost : (sharedInts .strict).emit ([some 0, some 0], [7]) ⟨[], .back⟩ = .ok ⟨b!"[7,7]", .back⟩ ∧
    (sharedInts .strict).de ([], []) b!"[7,7]" .fresh = .ok (([some 0, some 1], [7, 7]), [], .fresh) := ⟨by decide +kernel, rfl⟩

/-! ### `struct node { int value; std::shared_ptr<node> next; };` -/

/-- The structure, and the trees: lists that are not empty. -/
abbrev Node := Int × Option Nat

inductive Linked where
  | last (v : Int)
  | more (v : Int) (next : Linked)

namespace Linked

def value : Linked → Int
  | last v => v
  | more v _ => v

def next : Linked → Option Linked
  | last _ => none
  | more _ n => some n

def setValue (x : Int) : Linked → Linked
  | last _ => last x
  | more _ n => more x n

def setNext (x : Option Linked) (t : Linked) : Linked :=
  match x with
  | none => last t.value
  | some n => more t.value n

end Linked

/-- The values along the pointers. -/
def linkedDen (H : List Node) (A : Nat → Prop) (x : Node) : Linked → Prop
  | .last v => x.1 = v ∧ x.2 = none
  | .more v n => x.1 = v ∧ ∃ a y, x.2 = some a ∧ A a ∧ H[a]? = some y ∧ linkedDen H A y n

def linkedTy : HTy Node Node Linked := ⟨linkedDen, fun x => x.2.toList⟩

def nodeOwn : Node → List Nat := fun x => x.2.toList

def valueTwin (c : Cfg) : Twin Node Node Linked :=
  ⟨b!"value", fun t => t.1, fun x t => (x, t.2), Linked.value, Linked.setValue, heapLeaf (intSer c .int), intSer c .int, leafTy Node Int⟩

def nextTwin (HS : Ser (OnHeap Node Node)) (S : Ser Linked) : Twin Node Node Linked :=
  ⟨b!"next", fun t => t.2, fun x t => (t.1, x), Linked.next, Linked.setNext, heapPointer id some HS, pointerSer S, ptrTy some linkedTy⟩

/-- The description with a place for itself. -/
def nodeF (c : Cfg) (HS : Ser (OnHeap Node Node)) : Ser (OnHeap Node Node) :=
  heapObject c false (0, none) ([Place.mem (valueTwin c), .mem (nextTwin HS (unfinished (.last 0)))].map Place.toHeap)

def linkedF (c : Cfg) (S : Ser Linked) : Ser Linked :=
  objectSer c false (.last 0) [member ⟨b!"value", Linked.value, Linked.setValue, intSer c .int⟩, member ⟨b!"next", Linked.next, Linked.setNext, pointerSer S⟩]

theorem linkedDen_iff (H : List Node) (A : Nat → Prop) (t : Node) (w : Linked) :
    linkedDen H A t w ↔ t.1 = w.value ∧ (ptrTy some linkedTy).den H A t.2 w.next := by
  obtain ⟨v, p⟩ := t
  cases w with
  | last u => cases p <;> simp [linkedDen, Linked.value, Linked.next, ptrTy]
  | more u n => cases p <;> simp [linkedDen, Linked.value, Linked.next, ptrTy, linkedTy]

theorem chain_parts (c : Cfg) (HS : Ser (OnHeap Node Node)) (S : Ser Linked) : PartsOf linkedTy [valueTwin c, nextTwin HS S] where
  den := by
    refine ⟨fun _ _ => True, fun H A t w => ?_, fun _ _ _ _ _ _ _ => trivial⟩
    simp only [List.mem_cons, List.not_mem_nil, or_false, forall_eq_or_imp, forall_eq, true_and]
    exact linkedDen_iff H A t w
  refs t := by simp [linkedTy, valueTwin, nextTwin, leafTy, ptrTy]
  get_set := by
    simp only [List.mem_cons, List.not_mem_nil, or_false, forall_eq_or_imp, forall_eq]
    refine ⟨⟨fun _ _ => rfl, fun y w => ?_⟩, ⟨fun _ _ => rfl, fun y w => ?_⟩⟩
    · cases w <;> rfl
    · cases y <;> rfl
  apart := by
    refine .cons ?_ (.cons nofun .nil)
    simp only [List.mem_cons, List.not_mem_nil, or_false, forall_eq]
    refine ⟨fun _ _ => rfl, fun _ _ => rfl, fun y w => ?_, fun y w => ?_⟩
    · cases y <;> rfl
    · cases w <;> rfl

theorem chain_blank : BlankTarget linkedTy (0, none) (.last 0) := ⟨fun _ => ⟨rfl, rfl⟩, rfl⟩

theorem nodeF_heaped {c : Cfg} {HS : Ser (OnHeap Node Node)} {S : Ser Linked} (h : Heaped nodeOwn c HS S linkedTy) :
    Heaped nodeOwn c (nodeF c HS) (linkedF c S) linkedTy := by
  refine Heaped.object (L := [Place.mem (valueTwin c), .mem (nextTwin HS S)]) ?_ ?_ (chain_parts c HS S) chain_blank
  · simp only [List.flatMap_cons, List.flatMap_nil, Place.twins, List.append_nil, List.cons_append, List.nil_append, List.mem_cons, List.not_mem_nil,
      or_false, forall_eq_or_imp, forall_eq]
    exact ⟨.leaf, .pointer h (fun _ => rfl) fun _ => rfl⟩
  · simp only [List.mem_cons, List.not_mem_nil, or_false, forall_eq_or_imp, forall_eq]
    exact ⟨trivial, trivial⟩

theorem chain_lawful : linkedTy.Lawful where
  wider {H A A' x w} hA h := by
    show linkedDen H A' x w
    have h' : linkedDen H A x w := h
    clear h
    induction w generalizing x with
    | last v => exact h'
    | more v n ih =>
      obtain ⟨h1, a, y, h2, h3, h4, h5⟩ := h'
      exact ⟨h1, a, y, h2, hA a h3, h4, ih h5⟩
  cells {H H' A x w} hH h := by
    show linkedDen H' A x w
    have h' : linkedDen H A x w := h
    clear h
    induction w generalizing x with
    | last v => exact h'
    | more v n ih =>
      obtain ⟨h1, a, y, h2, h3, h4, h5⟩ := h'
      exact ⟨h1, a, y, h2, h3, hH a y h3 h4, ih h5⟩

theorem nodes_heaped (c : Cfg) (n : Nat) :
    Heaped nodeOwn c (levels (nodeF c) (unfinished ((0, none), [])) n) (levels (linkedF c) (unfinished (.last 0)) n) linkedTy := by
  induction n with
  | zero => exact .unfinished chain_lawful chain_blank
  | succ n ih => exact nodeF_heaped ih

/-- C85. Linked lists of any length: reading a text into a node (with the recursive reader of C83) makes a list of
new nodes, each with one pointer to it, and leaves all nodes there were as they were. -/
theorem C85_list {c : Cfg} {H : List Node} {A : Nat → Prop} {x : Node} {w : Linked} (hx : linkedDen H A x w) (s : Bytes) (e : EPtr) :
    (recDe (nodeF c) ((0, none), []) (x, H) s e = .ub ∧ recDe (linkedF c) (.last 0) w s e = .ub) ∨
    (recDe (nodeF c) ((0, none), []) (x, H) s e = .fuel ∧ recDe (linkedF c) (.last 0) w s e = .fuel) ∨
    ∃ x' H' w' p e', recDe (nodeF c) ((0, none), []) (x, H) s e = .ok ((x', H ++ H'), p, e') ∧
      recDe (linkedF c) (.last 0) w s e = .ok (w', p, e') ∧ linkedDen (H ++ H') (fun a => A a ∨ H.length ≤ a) x' w' ∧
      ((∀ a, x.2 = some a → a < H.length) → (x'.2.toList ++ H'.flatMap fun y => y.2.toList).Nodup) := by
  have hh := nodes_heaped c (s.length + 1)
  rcases C85_same_as_trees hh (T := linkedTy) hx s e with h | h | ⟨x', H', w', p, e', h1, h2, h3⟩
  · exact .inl h
  · exact .inr (.inl h)
  · obtain ⟨t, ht⟩ := (de_grown hh (T := linkedTy) hx h1).heap
    simp only at ht
    subst ht
    refine .inr (.inr ⟨x', t, w', p, e', h1, h2, h3, fun hi => ?_⟩)
    have := (C85_one_owner hh (T := linkedTy) hx h1 (by obtain ⟨v, p⟩ := x; cases p <;> simp [linkedTy]) (by
      intro a ha
      exact hi a (by simpa [linkedTy] using ha))).1
    rw [List.drop_left] at this
    exact this

/-- A list of two nodes and a stranger. -/
example : linkedDen [(9, none), (2, none)] (fun a => a = 1) (1, some 1) (.more 1 (.last 2)) :=
  ⟨rfl, 1, (2, none), rfl, rfl, rfl, rfl, rfl⟩

example : recDe (nodeF .strict) ((0, none), []) ((1, some 1), [(9, none), (2, none)]) b!"{\"next\":{\"value\":5,\"next\":{\"value\":6}}}" .fresh =
    .ok (((1, some 2), [(9, none), (2, none), (5, some 3), (6, none)]), [], .fresh) := rfl

example : recDe (linkedF .strict) (.last 0) (.more 1 (.last 2)) b!"{\"next\":{\"value\":5,\"next\":{\"value\":6}}}" .fresh =
    .ok (.more 1 (.more 5 (.last 6)), [], .fresh) := rfl

/-- C85. Deviation: a node whose pointer leads back to itself stands for no tree, and the writer does not come to an end with
any number of levels of calls. -/
theorem C85_cycle_never_written (c : Cfg) : (∀ A w, ¬ linkedDen [(0, some 0)] A (0, some 0) w) ∧
    ∀ n m, (levels (nodeF c) (unfinished ((0, none), [])) n).emit ((0, some 0), [(0, some 0)]) ⟨m, .back⟩ = .fuel := by
  constructor
  · intro A w h
    induction w with
    | last v => exact absurd h.2 (by simp)
    | more v n ih =>
      obtain ⟨_, a, y, h2, _, h4, h5⟩ := h
      cases h2
      cases h4
      exact ih h5
  · intro n
    induction n with
    | zero => intro m; rfl
    | succ n ih =>
      intro m
      have : ∀ S : Ser (OnHeap Node Node), ∃ m', (nodeF c S).emit ((0, some 0), [(0, some 0)]) ⟨m, .back⟩ =
          (S.emit ((0, some 0), [(0, some 0)]) ⟨m', .back⟩ >>= fun k => k.put c%'}') := fun S => ⟨_, rfl⟩
      obtain ⟨m', hm⟩ := this (levels (nodeF c) (unfinished ((0, none), [])) n)
      show (nodeF c _).emit _ _ = _
      rw [hm, ih]
      rfl

end Wjson
