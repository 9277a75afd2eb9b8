import Verif.Proofs.UpTo
import Verif.Props.Nested
/-
Containers whose order is left open (C63).
-/
namespace Wjson
open Spec

/-! ### C63 -/

/-- C63. A value with unordered containers anywhere in it is written to a text
that is read back, into any variable, with no error and nothing left over, as a
value that differs at most in the order of those containers. -/
theorem C63_round_trip {c : Cfg} {α : Type} {S : Ser α} {v : α} {R : α → α → Prop} (h : GoodUpTo c S v R) :
    ∃ t v', S.emit v ⟨[], .back⟩ = .ok ⟨t, .back⟩ ∧ R v v' ∧ ∀ v0, S.de v0 t .fresh = .ok (v', [], .fresh) := by
  obtain ⟨t, v', h, hr⟩ := h.rtu
  exact ⟨t, v', by simpa using h.writes [], hr, fun v0 => by
    simpa using h.reads v0 [] .fresh rfl (by intro b hb; cases hb)⟩

/-- C63 in the middle of a text, with any error argument that holds no error. -/
theorem C63_round_trip_in_text {c : Cfg} {α : Type} {S : Ser α} {v : α} {R : α → α → Prop} (h : GoodUpTo c S v R) :
    ∃ t v', (∀ m, S.emit v ⟨m, .back⟩ = .ok ⟨m ++ t, .back⟩) ∧ R v v' ∧
      ∀ v0 rest e, e.failed = false → Delim rest → S.de v0 (t ++ rest) e = .ok (v', rest, e) := by
  obtain ⟨t, v', h, hr⟩ := h.rtu
  exact ⟨t, v', h.writes, hr, h.reads⟩

/-- C63. A container that keeps all elements holds, after reading any array of
items `vs` in any layout, exactly `vs` up to order. -/
theorem C63_reads_all {α C : Type} {K : Coll α C} (hK : BagColl K) {S : Ser α} {vs : List α} {t : Bytes}
    (h : ItemsText (fun v t => ReadsAt S.de S.dflt t v) c%']' vs t) (c0 : C) (rest : Bytes) {e : EPtr} (he : e.failed = false) :
    ∃ w, (arraySer K S).de c0 (c%'[' :: t ++ rest) e = .ok (w, rest, e) ∧ (K.elems w).Perm vs := by
  refine ⟨_, deSeq_items (K := K) (.inl rfl) (L := c%'[') (by decide) h c0 rest he, ?_⟩
  have := hK.fold .empty vs
  rwa [hK.clear, List.append_nil] at this

/-- C63. A container with one element for each key holds, after reading any array
of items `vs`, elements with distinct keys, and these are the first of `vs` for
each key. -/
theorem C63_reads_first {α C κ : Type} {key : α → κ} {K : Coll α C} (hK : UniqueColl key K) {S : Ser α} {vs : List α} {t : Bytes}
    (h : ItemsText (fun v t => ReadsAt S.de S.dflt t v) c%']' vs t) (c0 : C) (rest : Bytes) {e : EPtr} (he : e.failed = false) :
    ∃ w, (arraySer K S).de c0 (c%'[' :: t ++ rest) e = .ok (w, rest, e) ∧ ((K.elems w).map key).Nodup ∧
      ∀ x, x ∈ K.elems w ↔ ∃ l1 l2, vs = l1 ++ x :: l2 ∧ ∀ y ∈ l1, key y ≠ key x := by
  refine ⟨_, deSeq_items (K := K) (.inl rfl) (L := c%'[') (by decide) h c0 rest he, ?_⟩
  obtain ⟨h1, h2⟩ := hK.fold_all .empty (by rw [hK.clear]; exact .nil) vs
  refine ⟨h1, fun x => (h2 x).trans ?_⟩
  rw [hK.clear]
  simp

/-- C63. The same for dictionaries: of several members with the same key the
first is kept. -/
theorem C63_reads_first_member {κ ν C : Type} {K : Coll (κ × ν) C} (hK : UniqueColl Prod.fst K) {SK : Ser κ} {SV : Ser ν}
    {vs : List (κ × ν)} {t : Bytes}
    (h : ItemsText (fun v t => ReadsAt (fieldSer SK SV).de (fieldSer SK SV).dflt t v) c%'}' vs t) (c0 : C) (rest : Bytes)
    {e : EPtr} (he : e.failed = false) :
    ∃ w, (dictSer K SK SV).de c0 (c%'{' :: t ++ rest) e = .ok (w, rest, e) ∧ ((K.elems w).map Prod.fst).Nodup ∧
      ∀ x, x ∈ K.elems w ↔ ∃ l1 l2, vs = l1 ++ x :: l2 ∧ ∀ y ∈ l1, y.1 ≠ x.1 := by
  refine ⟨_, deSeq_items (K := K) (.inr rfl) (L := c%'{') (by decide) h c0 rest he, ?_⟩
  obtain ⟨h1, h2⟩ := hK.fold_all .empty (by rw [hK.clear]; exact .nil) vs
  refine ⟨h1, fun x => (h2 x).trans ?_⟩
  rw [hK.clear]
  simp

/-- C63. The ordered containers of the model are such containers: multisets and
multimaps for every comparison, sets and maps for a strict total order of keys. -/
theorem C63_ordered_containers {α κ : Type} (key : α → κ) {lt : κ → κ → Bool} (ho : StrictTotal lt) :
    BagColl (multisetColl α fun a b => lt (key a) (key b)) ∧ UniqueColl key (setColl α fun a b => lt (key a) (key b)) :=
  ⟨multisetColl_bag _, setColl_unique ho⟩

/-! A container that iterates in the reverse order of insertion stands for a hash
table. -/

/-- `std::unordered_multiset` with one bucket. -/
def revBag (α : Type) : Coll α (List α) := ⟨[], fun l x => x :: l, id⟩

/-- `std::unordered_set` or `std::unordered_map` with one bucket. -/
def revUnique {α κ : Type} [DecidableEq κ] (key : α → κ) : Coll α (List α) :=
  ⟨[], fun l x => if (l.map key).contains (key x) then l else x :: l, id⟩

theorem revBag_bag (α : Type) : BagColl (revBag α) := ⟨rfl, fun _ _ _ => .refl _⟩

theorem revUnique_unique {α κ : Type} [DecidableEq κ] (key : α → κ) : UniqueColl key (revUnique key) where
  clear := rfl
  insert_new := by
    intro c x _ h
    have : (c.map key).contains (key x) = false := by
      rw [Bool.eq_false_iff]
      intro hc
      obtain ⟨y, hy, h1⟩ := List.mem_map.mp (List.contains_iff_mem.mp hc)
      exact h y hy h1
    show (if (c.map key).contains (key x) then c else x :: c).Perm (x :: c)
    rw [this]
    exact .refl _
  insert_old := by
    intro c x y _ hy h
    have : (c.map key).contains (key x) = true := List.contains_iff_mem.mpr (List.mem_map.mpr ⟨y, hy, h⟩)
    show (if (c.map key).contains (key x) then c else x :: c).Perm c
    rw [this]
    exact .refl _

/-- `unordered_map<string, unordered_multiset<int>>`. -/
def demoUnordered (c : Cfg) : Ser (List (Bytes × List Int)) :=
  dictSer (revUnique Prod.fst) strSer (arraySer (revBag Int) (intSer c .int))

/-- The hypothesis of C63 is met by nested unordered containers. -/
example : GoodUpTo .strict (demoUnordered .strict) [(b!"b", [2, 1]), (b!"a", [3, 3, 4])]
    (UpToOrder (revUnique Prod.fst) (PairRel Eq (UpToOrder (revBag Int) Eq))) := by
  have hi : ∀ z : Int, 0 ≤ z → z ≤ 4 → GoodUpTo .strict (intSer .strict .int) z Eq := by
    intro z h1 h2
    refine .exact (.int (by unfold IntTy.Std; decide) ?_ (.inl ?_))
    · unfold IntTy.InRange
      have h3 : IntTy.int.min ≤ 0 := by decide
      have h4 : (4 : Int) ≤ IntTy.int.max := by decide
      omega
    · have h3 : IntTy.int.min < 0 := by decide
      omega
  refine .uniqueDict (revUnique_unique _) (by decide) ?_ ?_
  · intro x hx
    refine .exact (.str ?_)
    simp only [revUnique, id, List.mem_cons, List.not_mem_nil, or_false] at hx
    rcases hx with rfl | rfl <;>
    · refine ⟨?_, by decide, by decide⟩
      rintro ⟨u, hu, _, h5⟩
      have := hu.length_le
      simp only [List.length_cons, List.length_nil] at this
      omega
  · intro x hx
    refine .bag (revBag_bag _) fun z hz => ?_
    simp only [revUnique, id, List.mem_cons, List.not_mem_nil, or_false] at hx
    rcases hx with rfl | rfl <;>
      (simp only [revBag, id, List.mem_cons, List.not_mem_nil, or_false] at hz; exact hi z (by omega) (by omega))

/-- Numbers of people in no order, or their group as a text: one of both is written. -/
def demoGuests : List (Slot (List Int × Bytes)) :=
  [.alt ⟨b!"guests", (·.1), fun x t => (x, t.2), arraySer (revBag Int) (intSer .strict .int)⟩
    ⟨b!"guests", (·.2), fun x t => (t.1, x), strSer⟩ (fun x => x.isEmpty) false]

open Classical in
/-- The hypothesis of C63 is met by a `member_if` over an unordered container. -/
example : GoodUpTo .strict (objectSer .strict false ([], []) (demoGuests.map Slot.toMember)) ([7, 3], [])
    (SlotsRel (fun m => if h : m = ⟨b!"guests", (·.1), fun x t => (x, t.2), arraySer (revBag Int) (intSer .strict .int)⟩
      then h ▸ UpToOrder (revBag Int) Eq else Eq) demoGuests) := by
  refine .objectIf _ ⟨?_, ?_, ?_⟩ ?_ ?_ ?_ ?_ ?_ ?_
  · intro m hm x t
    simp only [demoGuests, Slot.refs, List.flatMap_cons, List.flatMap_nil, List.append_nil, List.mem_cons, List.not_mem_nil, or_false] at hm
    rcases hm with rfl | rfl <;> rfl
  · intro m hm x y t
    simp only [demoGuests, Slot.refs, List.flatMap_cons, List.flatMap_nil, List.append_nil, List.mem_cons, List.not_mem_nil, or_false] at hm
    rcases hm with rfl | rfl <;> rfl
  · simp [demoGuests, Slot.refs]
  · intro x hx
    cases List.mem_singleton.mp hx
    rfl
  · intro x hx
    cases List.mem_singleton.mp hx
    show c%'"' ∉ b!"guests"
    decide
  · intro a b h
    exact Prod.ext (h _ (List.mem_cons_self ..)) (h _ (List.mem_cons_of_mem _ (List.mem_cons_self ..)))
  · intro x hx
    cases List.mem_singleton.mp hx
    refine Eq.mpr (congrArg (GoodUpTo .strict (arraySer (revBag Int) (intSer .strict .int)) [7, 3]) (dif_pos rfl)) ?_
    refine .bag (revBag_bag _) fun z hz => ?_
    simp only [revBag, id, List.mem_cons, List.not_mem_nil, or_false] at hz
    rcases hz with rfl | rfl <;> exact .exact (.int (by unfold IntTy.Std; decide) (by decide) (.inl (by decide)))
  · intro x hx o ho
    cases List.mem_singleton.mp hx
    cases ho
    exact C32_null_string
  · intro x hx o _ hi
    cases List.mem_singleton.mp hx
    exact absurd rfl hi

example : (objectSer .strict false ([], []) (demoGuests.map Slot.toMember)).emit ([7, 3], []) ⟨[], .back⟩ =
      .ok ⟨b!"{\"guests\":[7,3]}", .back⟩ ∧
    (objectSer .strict false ([], []) (demoGuests.map Slot.toMember)).de ([], b!"x") b!"{\"guests\":[7,3]}" .fresh =
      .ok (([3, 7], []), [], .fresh) := by decide +kernel

/-- The order does change: the dictionary and the arrays come back reversed. -/
example : (demoUnordered .strict).emit [(b!"b", [2, 1]), (b!"a", [3, 3, 4])] ⟨[], .back⟩ =
      .ok ⟨b!"{\"b\":[2,1],\"a\":[3,3,4]}", .back⟩ ∧
    (demoUnordered .strict).de [] b!"{\"b\":[2,1],\"a\":[3,3,4]}" .fresh =
      .ok ([(b!"a", [4, 3, 3]), (b!"b", [1, 2])], [], .fresh) := by decide +kernel

/-- A repeated key: the first member is kept. -/
example : (dictSer (revUnique Prod.fst) strSer (intSer .strict .int)).de [] b!"{\"a\":1, \"b\":2, \"a\":3}" .fresh =
    .ok ([(b!"b", 2), (b!"a", 1)], [], .fresh) := by decide +kernel

end Wjson
