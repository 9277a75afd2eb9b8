import Verif.Spec.Recursive
import Verif.Spec.Nested
import Verif.Proofs.Recursive
import Verif.Props.Nested
/-
C83: descriptions that mention themselves.
-/
namespace Wjson
open Spec

section
variable {c : Cfg} {f : Features} {α : Type} {F : Ser α → Ser α} {d : α}

/-- C83. Reading with a recursive description comes to an end: as many levels of calls as the text has bytes, and one more, are
enough. More levels change nothing, and what is below the last level plays no part. -/
theorem C83_settles (h : Recursive c f F d) {S : Ser α} (hS : S.dflt = d) {n : Nat} (v : α) {s : Bytes} (e : EPtr) (hn : s.length < n) :
    (levels F S n).de v s e = recDe F d v s e :=
  (levels_settle h hS hn v e).trans (levels_settle h rfl (Nat.lt_succ_self _) v e).symm

/-- C83. It does what the code says: the recursive reader is the description applied to itself. -/
theorem C83_equation (h : Recursive c f F d) (em : Emit α) (v : α) (s : Bytes) (e : EPtr) :
    recDe F d v s e = (F ⟨d, em, recDe F d⟩).de v s e := by
  have hA : Alike (s.length + 1) false (levels F (plainSer d) (s.length + 1)) ⟨d, em, recDe F d⟩ :=
    ⟨levels_dflt h rfl _, fun v t e ht => C83_settles h rfl v e (ht.resolve_right (by simp))⟩
  have h1 := (h.scheme.alike (levels_described h (plainSer_described d) _) hA).short (v := v) (e := e) (s := s) (by simp only [Bool.toNat_true]; omega)
  rw [← h1]
  exact (C83_settles (n := s.length + 2) h rfl v e (by omega)).symm

/-- C83. It is the only reader of which this is true. -/
theorem C83_unique (h : Recursive c f F d) {R : De α} {em : Emit α} (hR : ∀ v s e, R v s e = (F ⟨d, em, R⟩).de v s e) (v : α) (s : Bytes) (e : EPtr) :
    R v s e = recDe F d v s e := by
  have key : ∀ n, Alike n false (levels F (plainSer d) n) ⟨d, em, R⟩ := by
    intro n
    induction n with
    | zero => exact ⟨rfl, fun v s e hs => by simp at hs⟩
    | succ n ih =>
      have h1 := h.scheme.alike (levels_described h (plainSer_described d) n) ih
      refine ⟨levels_dflt h rfl _, fun v s e hs => ?_⟩
      exact (h1.short (hs.resolve_right (by simp))).trans (hR v s e).symm
  refine ((key (s.length + 1)).short (Nat.lt_succ_self _)).symm.trans ?_
  exact C83_settles h rfl v e (Nat.lt_succ_self _)

/-- C83. A read returns, with a position inside the text (or meets undefined behaviour). -/
theorem C83_terminates_inside (h : Recursive c .all F d) (v : α) (s : Bytes) (e : EPtr) :
    recDe F d v s e = .ub ∨ ∃ v' p e', recDe F d v s e = .ok (v', p, e') ∧ ∃ a, s = a ++ p := by
  rw [← C83_settles h (S := plainSer d) rfl v e (Nat.lt_succ_self s.length)]
  rcases (levels_described h (plainSer_described d) (s.length + 1)).safe v s e with ⟨h, _⟩ | ⟨v', p, e', h, ⟨a, ha⟩, _⟩
  · exact .inl h
  · exact .inr ⟨v', p, e', h, a, ha.symm⟩

/-- C83. Nothing undefined happens under the conditions of C48. -/
theorem C83_defined (h : Recursive c ⟨false, true, true, true⟩ F d) {z : Byte} (hz : c.past = some z) (hz' : z ≠ c%']') (hw : c.wrapv = true)
    (v : α) (s : Bytes) (e : EPtr) : ∃ v' p e', recDe F d v s e = .ok (v', p, e') ∧ ∃ a, s = a ++ p := by
  rw [← C83_settles h (S := plainSer d) rfl v e (Nat.lt_succ_self s.length)]
  rcases (levels_described h (plainSer_described d) (s.length + 1)).safe v s e with ⟨_, h⟩ | ⟨v', p, e', h, ⟨a, ha⟩, _⟩
  · rcases h with h | h | h | h
    · rw [hz] at h; cases h
    · rw [hz] at h; exact absurd (Option.some.inj h) hz'
    · rw [hw] at h; cases h
    · cases h
  · exact ⟨v', p, e', h, a, ha.symm⟩

/-- C83. Writing: once a value is written in some number of levels, more levels write the same, and what is below the last level
plays no part. -/
theorem C83_written (h : Recursive c f F d) {n m : Nat} (hm : n ≤ m) (S : Ser α) {v : α} {k r : Sink}
    (hr : (levels F (unfinished d) n).emit v k = .ok r) : (levels F S m).emit v k = .ok r := by
  rcases levels_ahead h S n m hm v k with h1 | h1
  · rw [hr] at h1; cases h1
  · rw [← h1, hr]

/-- C83. There is only one text for a value. -/
theorem C83_written_unique (h : Recursive c f F d) {v : α} {k r r' : Sink} (hr : RecEmit F d v k r) (hr' : RecEmit F d v k r') : r = r' := by
  obtain ⟨n, hn⟩ := hr
  obtain ⟨m, hm⟩ := hr'
  have h1 := C83_written h (Nat.le_max_left n m) (unfinished d) hn
  have h2 := C83_written h (Nat.le_max_right n m) (unfinished d) hm
  rw [h1] at h2
  exact Out.ok.inj h2

/-- C83. Values that are good (C50) for some number of levels are read back as they were written, also in the middle of a text. -/
theorem C83_round_trip (h : Recursive c f F d) {n : Nat} {v : α} (hv : ∀ S, S.dflt = d → GoodValue c (levels F S n) v) :
    ∃ t, (∀ m, RecEmit F d v ⟨m, .back⟩ ⟨m ++ t, .back⟩) ∧
      ∀ v0 rest e, e.failed = false → Delim rest → recDe F d v0 (t ++ rest) e = .ok (v, rest, e) := by
  obtain ⟨t, h1, _⟩ := C50_round_trip_in_text (hv (unfinished d) rfl)
  refine ⟨t, fun m => ⟨n, h1 m⟩, fun v0 rest e he hd => ?_⟩
  have hb := levels_dflt h (S := unfinished d) rfl ((t ++ rest).length + 1)
  obtain ⟨u, h3, h4⟩ := C50_round_trip_in_text (hv _ hb)
  have h5 := C83_written h (Nat.le_refl n) (levels F (unfinished d) ((t ++ rest).length + 1)) (h1 [])
  rw [h3 []] at h5
  have hu : u = t := by simpa using h5
  subst hu
  rw [← h4 v0 rest e he hd, ← levels_add]
  exact (C83_settles h rfl v0 e (by omega)).symm

/-- C83. What is written for values that C49 covers is JSON. -/
theorem C83_written_json (h : Recursive c f F d) {n : Nat} {v : α} (hv : JsonValue c (levels F (unfinished d) n) v) {t : Bytes}
    (ht : RecEmit F d v ⟨[], .back⟩ ⟨t, .back⟩) : RValue t := by
  obtain ⟨u, h1, h2⟩ := C49_written_json hv
  have := C83_written_unique h ⟨n, h1 []⟩ ht
  simp only [List.nil_append, Sink.mk.injEq, and_true] at this
  exact this ▸ h2

end

/-! ### Trees: `struct node { T value; std::vector<std::unique_ptr<node>> kids; };` -/

inductive Tree (β : Type) where
  | node (value : β) (kids : List (Option (Tree β)))

namespace Tree
variable {β : Type}

def value : Tree β → β | node v _ => v
def kids : Tree β → List (Option (Tree β)) | node _ ks => ks

/-- All values in the tree satisfy `P`. -/
inductive All (P : β → Prop) : Tree β → Prop
  | node {v : β} {ks : List (Option (Tree β))} : P v → (∀ x ∈ ks, ∀ t, x = some t → All P t) → All P (node v ks)

end Tree

section
variable {β : Type}

/-- The members `"value"` and `"kids"`, with `vector<pointer<unique_ptr<node>, node_json>>` for the latter; `S` is in the place of `node_json`. -/
def treeEntries (SB : Ser β) (S : Ser (Tree β)) : List (Entry (Tree β)) :=
  [.mem ⟨b!"value", Tree.value, fun v t => .node v t.kids, SB⟩,
   .mem ⟨b!"kids", Tree.kids, fun ks t => .node t.value ks, arraySer (seqColl _) (pointerSer S)⟩]

def treeF (c : Cfg) (SB : Ser β) (S : Ser (Tree β)) : Ser (Tree β) :=
  objectSer c false (.node SB.dflt []) ((treeEntries SB S).map Entry.toMember)

theorem treeF_recursive (c : Cfg) {f : Features} (hf : f.pointers = true) {SB : Ser β} (h : Described c f SB) :
    Recursive c f (treeF c SB) (.node SB.dflt []) := by
  refine ⟨?_, fun _ _ => rfl⟩
  refine Scheme.object false _ [fun S => member ⟨b!"value", Tree.value, fun v t => .node v t.kids, SB⟩,
    fun S => member ⟨b!"kids", Tree.kids, fun ks t => .node t.value ks, arraySer (seqColl _) (pointerSer S)⟩] ?_
  intro m hm
  simp only [List.mem_cons, List.not_mem_nil, or_false] at hm
  rcases hm with rfl | rfl
  · exact .member _ _ _ (.weaken (.other h) (fun _ => rfl) fun _ => rfl)
  · exact .member _ _ _ (.weaken (.array _ (.weaken (.pointer hf .here) (fun h => h) (by simp))) (fun _ => rfl) fun _ => rfl)

theorem treeF_good {c : Cfg} {SB : Ser β} {S : Ser (Tree β)} {t : Tree β} (hv : GoodValue c SB t.value)
    (hk : ∀ x ∈ t.kids, ∀ u, x = some u → GoodValue c S u ∧ ∀ w, S.emit u ⟨[], .back⟩ = .ok ⟨w, .back⟩ → w.head? ≠ some c%'n') :
    GoodValue c (treeF c SB S) t ∧ ∀ w, (treeF c SB S).emit t ⟨[], .back⟩ = .ok ⟨w, .back⟩ → w.head? ≠ some c%'n' := by
  have hm : ∀ en ∈ treeEntries SB S, GoodValue c en.ref.ser (en.ref.get t) := by
    intro en hen
    simp only [treeEntries, List.mem_cons, List.not_mem_nil, or_false] at hen
    rcases hen with rfl | rfl
    · exact hv
    · refine .seq fun x hx => ?_
      cases x with
      | none => exact .null _
      | some u => exact .pointer (hk _ hx u rfl).1 (hk _ hx u rfl).2
  refine ⟨.object ?_ ?_ ?_ hm, fun w hw => by rw [object_brace hm hw]; decide⟩
  · refine ⟨?_, ?_, ?_⟩
    · intro m hm x t
      simp only [treeEntries, List.map_cons, List.map_nil, List.mem_cons, List.not_mem_nil, or_false, Entry.ref] at hm
      rcases hm with rfl | rfl <;> rfl
    · intro m hm x y t
      simp only [treeEntries, List.map_cons, List.map_nil, List.mem_cons, List.not_mem_nil, or_false, Entry.ref] at hm
      rcases hm with rfl | rfl <;> rfl
    · simp [treeEntries, Entry.ref, Tree.value, Tree.kids]
  · intro n hn
    simp only [names, treeEntries, List.map_cons, List.map_nil, List.mem_cons, List.not_mem_nil, or_false, Entry.ref] at hn
    rcases hn with rfl | rfl <;> decide
  · intro a b hab
    have h1 : a.value = b.value := hab (.mem ⟨b!"value", Tree.value, fun v t => .node v t.kids, SB⟩) (by simp [treeEntries])
    have h2 : a.kids = b.kids := hab (.mem ⟨b!"kids", Tree.kids, fun ks t => .node t.value ks, arraySer (seqColl _) (pointerSer S)⟩) (by simp [treeEntries])
    cases a; cases b
    simp only [Tree.value, Tree.kids] at h1 h2
    rw [h1, h2]

theorem tree_good {c : Cfg} {SB : Ser β} {t : Tree β} (h : Tree.All (GoodValue c SB) t) :
    ∃ n, ∀ S, GoodValue c (levels (treeF c SB) S n) t ∧
      ∀ w, (levels (treeF c SB) S n).emit t ⟨[], .back⟩ = .ok ⟨w, .back⟩ → w.head? ≠ some c%'n' := by
  induction h with
  | @node v ks hv hks ih =>
    have : ∃ n, ∀ x ∈ ks, ∀ t, x = some t → ∀ S, GoodValue c (levels (treeF c SB) S n) t ∧
        ∀ w, (levels (treeF c SB) S n).emit t ⟨[], .back⟩ = .ok ⟨w, .back⟩ → w.head? ≠ some c%'n' := by
      clear hv
      induction ks with
      | nil => exact ⟨0, by simp⟩
      | cons y ks ihk =>
        obtain ⟨n, hn⟩ := ihk (fun x hx => hks x (by simp [hx])) fun x hx => ih x (by simp [hx])
        cases y with
        | none => exact ⟨n, fun x hx t ht => hn x (by simpa [ht] using hx) t ht⟩
        | some u =>
          obtain ⟨k, hk⟩ := ih _ (by simp) u rfl
          refine ⟨max n k, fun x hx t ht S => ?_⟩
          rcases List.mem_cons.mp hx with rfl | hx
          · cases ht
            rw [show max n k = k + (max n k - k) by omega, levels_add]
            exact hk _
          · rw [show max n k = n + (max n k - n) by omega, levels_add]
            exact hn x hx t ht _
    obtain ⟨n, hn⟩ := this
    exact ⟨n + 1, fun S => treeF_good hv fun x hx u hu => hn x hx u hu S⟩

/-- C83. Every tree of good values, of any depth and width, is read back as it was written. -/
theorem C83_tree {c : Cfg} {f : Features} (hf : f.pointers = true) {SB : Ser β} (hB : Described c f SB) {t : Tree β} (h : Tree.All (GoodValue c SB) t) :
    ∃ w, (∀ m, RecEmit (treeF c SB) (.node SB.dflt []) t ⟨m, .back⟩ ⟨m ++ w, .back⟩) ∧
      ∀ v0 rest e, e.failed = false → Delim rest → recDe (treeF c SB) (.node SB.dflt []) v0 (w ++ rest) e = .ok (t, rest, e) := by
  obtain ⟨n, hn⟩ := tree_good h
  exact C83_round_trip (treeF_recursive c hf hB) fun S _ => (hn S).1

end

example : Recursive .strict .all (treeF .strict boolSer) (.node false []) := treeF_recursive _ rfl .bool
example (c : Cfg) : Recursive c ⟨false, true, true, true⟩ (treeF c boolSer) (.node false []) := treeF_recursive _ rfl .bool

/-! A tree with three nodes. -/
example (c : Cfg) : Tree.All (GoodValue c boolSer) (.node true [none, some (.node false [some (.node true [])])]) := by
  refine .node (.bool _) ?_
  simp only [List.mem_cons, List.not_mem_nil, or_false, forall_eq_or_imp, forall_eq, reduceCtorEq, false_imp_iff, implies_true, Option.some.injEq, forall_eq', true_and]
  refine .node (.bool _) ?_
  simp only [List.mem_cons, List.not_mem_nil, or_false, forall_eq, Option.some.injEq, forall_eq']
  exact .node (.bool _) (by simp)

example : recDe (treeF .strict boolSer) (.node false []) (.node false []) b!"{\"value\":true,\"kids\":[null,{\"value\":true}, {\"kids\":[{}]}]} x" .fresh =
    .ok (.node true [none, some (.node true []), some (.node false [some (.node false [])])], b!" x", .fresh) := by rfl

example : RecEmit (treeF .strict boolSer) (.node false []) (.node true [none, some (.node false [])]) ⟨[], .back⟩
    ⟨b!"{\"value\":true,\"kids\":[null,{\"value\":false,\"kids\":[]}]}", .back⟩ := ⟨2, by rfl⟩

/-- The text `{"kids":[{"kids":[…]}]}`. -/
def deepText : Nat → Bytes
  | 0 => b!"{}"
  | n + 1 => b!"{\"kids\":[" ++ deepText n ++ b!"]}"

theorem deepText_cons (n : Nat) : ∃ u, deepText n = c%'{' :: u := by cases n <;> exact ⟨_, rfl⟩

theorem treeF_pending {c : Cfg} {S : Ser (Tree Bool)} {w : Bytes} (h : ∀ v e, S.de v (c%'{' :: w) e = .fuel) (v : Tree Bool) (e : EPtr) :
    (treeF c boolSer S).de v (b!"{\"kids\":[" ++ c%'{' :: w) e = .fuel := by
  have h1 : ∀ x e, (arraySer (seqColl _) (pointerSer S)).de x (c%'[' :: c%'{' :: w) e = .fuel := by
    intro x e
    have h2 : (pointerSer S).de none (c%'{' :: w) e = .fuel := by
      show (S.de S.dflt (c%'{' :: w) e >>= _) = _
      rw [h]; rfl
    show ((pointerSer S).de none (c%'{' :: w) e >>= _) = _
    rw [h2]; rfl
  have h3 : ∀ t e, (member ⟨b!"kids", Tree.kids, fun ks t => .node t.value ks, arraySer (seqColl _) (pointerSer S)⟩).de t
      (b!"\"kids\":[" ++ c%'{' :: w) e false = .fuel := by
    intro t e
    show ((arraySer (seqColl _) (pointerSer S)).de t.kids (c%'[' :: c%'{' :: w) e >>= _) = _
    rw [h1]; rfl
  have h4 : ∀ t e, searchMembers c false ((treeEntries boolSer S).map Entry.toMember) t (b!"\"kids\":[" ++ c%'{' :: w) e = .fuel := by
    intro t e
    show ((member ⟨b!"kids", Tree.kids, fun ks t => .node t.value ks, arraySer (seqColl _) (pointerSer S)⟩).de t
      (b!"\"kids\":[" ++ c%'{' :: w) e false >>= _) = _
    rw [h3]; rfl
  have h5 : ∀ n t e, membersF c false ((treeEntries boolSer S).map Entry.toMember) (n + 1) ((treeEntries boolSer S).map Entry.toMember) t
      (b!"\"kids\":[" ++ c%'{' :: w) e = .fuel := by
    intro n t e
    show (searchMembers c false ((treeEntries boolSer S).map Entry.toMember) t (b!"\"kids\":[" ++ c%'{' :: w) e >>= _) = _
    rw [h4]; rfl
  show (membersF c false ((treeEntries boolSer S).map Entry.toMember) (_ + 1) ((treeEntries boolSer S).map Entry.toMember) v
      (b!"\"kids\":[" ++ c%'{' :: w) e >>= _) = _
  rw [h5]; rfl

theorem deepText_json (n : Nat) : RValue (deepText n) := by
  have hw : Ws [] := by intro b hb; cases hb
  induction n with
  | zero => exact .obj0 hw
  | succ n ih =>
    have hk : RString b!"\"kids\"" := by
      refine ⟨b!"kids", ?_, rfl⟩
      exact .cons (c := b!"k") (.ascii (by decide) (by decide) (by decide) (by decide)) <|
        .cons (c := b!"i") (.ascii (by decide) (by decide) (by decide) (by decide)) <|
        .cons (c := b!"d") (.ascii (by decide) (by decide) (by decide) (by decide)) <|
        .cons (c := b!"s") (.ascii (by decide) (by decide) (by decide) (by decide)) .nil
    have := RG.obj (RG.memb hw hk hw hw (RG.arr (RG.elem hw ih hw)) hw)
    simpa [deepText] using this

/-- C83. Deviation: no number of levels is enough for all texts. For every `n` there is a JSON text for which `n` nested calls
have not come to an end: the depth of the calls grows with the text, and nothing limits it. -/
theorem C83_unlimited_depth (c : Cfg) (n : Nat) : ∃ s, RValue s ∧ ∀ v e,
    (levels (treeF c boolSer) (unfinished (.node false [])) n).de v s e = .fuel := by
  refine ⟨deepText n, deepText_json n, ?_⟩
  have key : ∀ n r v e, (levels (treeF c boolSer) (unfinished (.node false [])) n).de v (deepText n ++ r) e = .fuel := by
    intro n
    induction n with
    | zero => intro r v e; rfl
    | succ n ih =>
      intro r v e
      obtain ⟨u, hu⟩ := deepText_cons n
      have := treeF_pending (c := c) (w := u ++ b!"]}" ++ r) (S := levels (treeF c boolSer) (unfinished (.node false [])) n)
        (fun v e => by have := ih (b!"]}" ++ r) v e; rw [hu] at this; simpa using this) v e
      rw [show deepText (n + 1) ++ r = b!"{\"kids\":[" ++ c%'{' :: (u ++ b!"]}" ++ r) by rw [deepText, hu]; simp]
      exact this
  intro v e
  simpa using key n [] v e

/-! ### Without brackets: `struct node { std::shared_ptr<node> next; };` described by `member_value` of its member. -/

inductive Bare where
  | mk (next : Option Bare)

def Bare.next : Bare → Option Bare | mk n => n

def bareF (S : Ser Bare) : Ser Bare := memberValueSer (.mk none) Bare.next (fun v _ => .mk v) (pointerSer S)

/-- C83. Deviation: the brackets are needed. A description that mentions itself behind a pointer but not between brackets compiles, and
reads `null`; on every other text the calls never come to an end. -/
theorem C83_brackets_needed : (∀ c f, f.pointers = true → Scheme c f Bare false true bareF) ∧
    (∀ n v q e, (levels bareF (unfinished (.mk none)) (n + 1)).de v (b!"null" ++ q) e = .ok (.mk none, q, e)) ∧
    ∀ n v b t e, b ≠ c%'n' → (levels bareF (unfinished (.mk none)) n).de v (b :: t) e = .fuel := by
  refine ⟨fun c f hf => .memberValue _ _ _ (.pointer hf .here), fun n v q e => rfl, fun n => ?_⟩
  induction n with
  | zero => intro v b t e _; rfl
  | succ n ih =>
    intro v b t e hb
    show ((dePointer (levels bareF (unfinished (.mk none)) n)) (Bare.next v) (b :: t) e >>= _) = _
    simp only [dePointer, ne_eq, hb, not_false_eq_true, if_true, ih _ b t e hb]
    rfl

end Wjson
