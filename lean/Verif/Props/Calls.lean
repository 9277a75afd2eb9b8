import Verif.Proofs.Calls
import Verif.Props.Objects
import Verif.Proofs.Depth
import Verif.Proofs.ExactObject
/-
Property C77: the stack the reader of an object needs.
Specification: Verif/Spec/Calls.lean (`openCalls`, `commas`, `sameMembers`),
Verif/Spec/Object.lean (`ObjText`, `runItems`), Verif/Spec/Fields.lean (`Effect`).
`deObjectD c k` (Verif/Model/Calls.lean) is the reader of an object when at most
`k` calls of its member routine can be open at the same time; it answers `.fuel`
when the stack overflows. `objectSer` is the object on an unbounded stack.
-/
namespace Wjson
open Spec

variable {τ : Type}

/-- C77. A bounded stack makes no difference but for the overflow, whatever the
description of the members and the text. -/
theorem C77_same_result {c : Cfg} {L : List (Member τ)} (hL : ∀ m ∈ L, DescribedM c .all m) (strict : Bool) (dflt : τ) (k : Nat)
    (v : τ) (s : Bytes) (e : EPtr) :
    deObjectD c k strict dflt L v s e = .fuel ∨ deObjectD c k strict dflt L v s e = (objectSer c strict dflt L).de v s e := by
  exact deObjectD_or ((Described.object (f := .all) strict dflt L hL).safe v s e).not_fuel k

/-- C77. For a JSON object that is read without error the number of open calls is
exactly `openCalls`: with fewer the stack overflows, with as many the object is
read. -/
theorem C77_exact (c : Cfg) (strict : Bool) (dflt : τ) {L : List (Entry τ)} (hg : GoodNames L) {items : List (Bytes × Bytes)}
    {fs : List (τ → τ)} (h : All2 (Effect L) items fs) (hj : ∀ x ∈ items, Skippable x) {s : Bytes} (hs : ObjText items s) {v v' : τ}
    (hr : runItems strict (names L) (names L) ((items.map Prod.fst).zip fs) v = some v') (k : Nat) (rest : Bytes) {e : EPtr}
    (he : e.failed = false) :
    (openCalls (names L) (items.map Prod.fst) ≤ k →
      deObjectD c k strict dflt (L.map Entry.toMember) v (s ++ rest) e = .ok (v', rest, e)) ∧
    (k < openCalls (names L) (items.map Prod.fst) →
      deObjectD c k strict dflt (L.map Entry.toMember) v (s ++ rest) e = .fuel) := by
  have hch := chain_run (strict := strict) hg h (items_start hs) hj L (fun _ h => h) v
  have hok := (deObject_items (c := c) (dflt := dflt) hs hch rest he).1 v' hr
  have hf := deObjectD_calls (c := c) hg hs h hj dflt v (by rw [hr]; simp) rest he k
  refine ⟨fun hk => ?_, hf.mpr⟩
  rcases deObjectD_or (k := k) (show deObject c strict dflt (L.map Entry.toMember) v (s ++ rest) e ≠ .fuel by rw [hok]; simp) with h1 | h1
  · exact absurd (hf.mp h1) (by omega)
  · rw [h1, hok]

/-- C77. Whatever the text, valid or not, one call more than it has commas is
enough. -/
theorem C77_any_text {c : Cfg} {L : List (Member τ)} (hL : ∀ m ∈ L, DescribedM c .all m) (strict : Bool) (dflt : τ) (v : τ) (s : Bytes)
    (e : EPtr) {k : Nat} (hk : commas s < k) :
    deObjectD c k strict dflt L v s e = (objectSer c strict dflt L).de v s e := by
  have hm : ∀ m ∈ L, MSafe (Hazard c .all) m := fun m h => (hL m h).safe
  have hc : c.past = none → Hazard c .all := .inl
  refine deObjectD_eq fun b q e' hq => ?_
  have h1 := membersF_commas (strict := strict) hc hm k hm v (b :: q) e' (by have := commas_suffix hq; omega)
  have h2 := (membersF_safe (strict := strict) hc hm (q.length + 2) hm v (b :: q) e' (by simp)).not_fuel
  rcases Nat.le_total k (q.length + 2) with h | h
  · exact (membersF_more L k _ h L v _ _ h1).symm
  · exact membersF_more L _ k h L v _ _ h2

/-- C77. If the text begins with the declared members in their order, one call
more than there are declared members is enough, however many members follow. -/
theorem C77_in_order (c : Cfg) (strict : Bool) (dflt : τ) {L : List (Entry τ)} (hg : GoodNames L) {items : List (Bytes × Bytes)}
    {fs : List (τ → τ)} (h : All2 (Effect L) items fs) (hj : ∀ x ∈ items, Skippable x) {s : Bytes} (hs : ObjText items s) {v v' : τ}
    (hr : runItems strict (names L) (names L) ((items.map Prod.fst).zip fs) v = some v') {later : List Bytes}
    (hk : items.map Prod.fst = names L ++ later) (rest : Bytes) {e : EPtr} (he : e.failed = false) :
    deObjectD c (L.length + 1) strict dflt (L.map Entry.toMember) v (s ++ rest) e = .ok (v', rest, e) := by
  refine (C77_exact c strict dflt hg h hj hs hr _ rest he).1 ?_
  rw [hk]
  have := openCalls_in_order (names L) later
  simpa [names] using this

/-- Any number of members with the same key, which is not the first declared name
but is accepted: one call each. -/
theorem C77_repeated (c : Cfg) (strict : Bool) (dflt : τ) {a : Entry τ} {L : List (Entry τ)} (hg : GoodNames (a :: L)) {x w : Bytes}
    {f : τ → τ} (hf : Effect (a :: L) (x, w) f) (hw : Skippable (x, w)) (hs : Start w) (hx : x ≠ a.ref.name)
    (hk : x ∈ names (a :: L) ∨ strict = false) (k : Nat) (v : τ) (rest : Bytes) {e : EPtr} (he : e.failed = false) :
    (∃ v', (objectSer c strict dflt ((a :: L).map Entry.toMember)).de v (c%'{' :: sameMembers x w k ++ rest) e = .ok (v', rest, e)) ∧
    deObjectD c k strict dflt ((a :: L).map Entry.toMember) v (c%'{' :: sameMembers x w k ++ rest) e = .fuel := by
  have hi : ObjText (List.replicate (k + 1) (x, w)) (c%'{' :: sameMembers x w k) :=
    .items (g := []) .nil (sameMembers_items x hs k)
  have hall := all2_replicate (R := Effect (a :: L)) hf (k + 1)
  have hj : ∀ y ∈ List.replicate (k + 1) (x, w), Skippable y := fun y hy => by rw [List.eq_of_mem_replicate hy]; exact hw
  have hkeys : (List.replicate (k + 1) (x, w)).map Prod.fst = List.replicate (k + 1) x := by simp
  have hne : runItems strict (names (a :: L)) (names (a :: L))
      (((List.replicate (k + 1) (x, w)).map Prod.fst).zip (List.replicate (k + 1) f)) v ≠ none := by
    have hmem : ∀ y ∈ ((List.replicate (k + 1) (x, w)).map Prod.fst).zip (List.replicate (k + 1) f), y.1 = x := by
      intro y hy
      have := (List.of_mem_zip hy).1
      rw [hkeys] at this
      exact List.eq_of_mem_replicate this
    exact runItems_stuck (fun y hy => by rw [hmem y hy]; exact hx) (fun y hy => by rw [hmem y hy]; exact hk) v
  obtain ⟨v', hv'⟩ := Option.ne_none_iff_exists'.mp hne
  have h1 := C77_exact c strict dflt hg hall hj hi hv' k rest he
  have hch := chain_run (strict := strict) hg hall (items_start hi) hj (a :: L) (fun _ h => h) v
  refine ⟨⟨v', (deObject_items (c := c) (dflt := dflt) hi hch rest he).1 v' hv'⟩, h1.2 ?_⟩
  rw [hkeys, names, List.map_cons, openCalls_stuck _ (by
    intro h; exact hx (List.eq_of_mem_replicate h).symm)]
  simp

/-- C77, exception: there is no limit on the number of calls, so no stack is large
enough for a description that is not strict: for every stack there is a flat RFC
8259 text (one object of numbers), about as many bytes long as a member has times
the number of frames, that is read without error and overflows it. The key `x` is
any one that is not declared. -/
theorem C77_no_stack_is_enough (c : Cfg) (dflt : τ) {L : List (Entry τ)} (hg : GoodNames L) (hne : L ≠ []) {x : Bytes} (hx : x ∉ names L)
    (hc : RChars x) (k : Nat) (v : τ) {e : EPtr} (he : e.failed = false) :
    ∃ t, RValue t ∧ Nested .value t 1 ∧ t.length = (k + 1) * (x.length + 5) + 1 ∧
      (∃ v', (objectSer c false dflt (L.map Entry.toMember)).de v t e = .ok (v', [], e)) ∧
      deObjectD c k false dflt (L.map Entry.toMember) v t e = .fuel := by
  cases L with
  | nil => exact absurd rfl hne
  | cons a L =>
    have hnum : RNumber b!"0" := ⟨[], b!"0", [], [], rfl, .inl rfl, .inl rfl, .inl rfl, .inl rfl⟩
    have hstr : RString (quoted x) := ⟨x, hc, rfl⟩
    have hstrx : XString (quoted x) := RString.x hstr
    have hxc : XChars x := by
      obtain ⟨u, hu, h⟩ := hstrx
      simp only [quoted, List.cons_append, List.cons.injEq, true_and, List.append_cancel_right_eq] at h
      exact h ▸ hu
    have hm : ∀ n, ∃ u, sameMembers x b!"0" n = u ++ b!"}" ∧ RG .members u ∧ Nested .members u 0 := by
      intro n
      induction n with
      | zero =>
        refine ⟨quoted x ++ c%':' :: b!"0", by simp [sameMembers], ?_, ?_⟩
        · simpa using RG.memb (w0 := []) (w1 := []) (w2 := []) (w3 := []) (by simp [Ws]) hstr (by simp [Ws]) (by simp [Ws]) (.num hnum) (by simp [Ws])
        · simpa using Nested.memb (g0 := []) (g1 := []) (g2 := []) (g3 := []) .nil hstrx .nil .nil (.num hnum) .nil
      | succ n ih =>
        obtain ⟨u, h1, h2, h3⟩ := ih
        refine ⟨quoted x ++ c%':' :: (b!"0" ++ c%',' :: u), by simp [sameMembers, h1], ?_, ?_⟩
        · simpa using RG.membMore (w0 := []) (w1 := []) (w2 := []) (w3 := []) (by simp [Ws]) hstr (by simp [Ws]) (by simp [Ws]) (.num hnum) (by simp [Ws]) h2
        · simpa using Nested.membMore (g0 := []) (g1 := []) (g2 := []) (g3 := []) .nil hstrx .nil .nil (.num hnum) .nil h3
    obtain ⟨u, h1, h2, h3⟩ := hm k
    have hr := C77_repeated c false dflt hg (x := x) (w := b!"0") (f := id)
      (.unknown (fun en hen h => hx (h ▸ names_mem hen)) hxc (.num hnum)) ⟨hxc, .num hnum⟩ ⟨c%'0', [], rfl, by decide⟩
      (fun h => hx (h ▸ names_mem (by simp))) (.inr rfl) k v [] he
    rw [List.append_nil] at hr
    refine ⟨c%'{' :: sameMembers x b!"0" k, ?_, ?_, ?_, hr.1, hr.2⟩
    · rw [h1]; exact .obj h2
    · rw [h1]; exact .obj h3
    · simp [sameMembers_length]

/-- C77, exception: the strict mode is no protection as soon as two members are
declared: the second one can be repeated. -/
theorem C77_strict_no_stack_is_enough (c : Cfg) (strict : Bool) (dflt : τ) {a b : Entry τ} {L : List (Entry τ)} (hg : GoodNames (a :: b :: L))
    {w : Bytes} {x : b.ref.α} (hr : Reads b.ref.ser.de w x) (hw : XValue w) (hb : XChars b.ref.name) (k : Nat) (v : τ) {e : EPtr}
    (he : e.failed = false) :
    (∃ v', (objectSer c strict dflt ((a :: b :: L).map Entry.toMember)).de v (c%'{' :: sameMembers b.ref.name w k) e = .ok (v', [], e)) ∧
    deObjectD c k strict dflt ((a :: b :: L).map Entry.toMember) v (c%'{' :: sameMembers b.ref.name w k) e = .fuel := by
  have hne : b.ref.name ≠ a.ref.name := by
    intro h
    have := hg.nodup
    simp [names, h] at this
  have := C77_repeated c strict dflt hg (x := b.ref.name) (w := w) (.known (by simp) hr) ⟨hb, hw⟩
    (start_of_xvalue hw) hne (.inl (by simp [names])) k v [] he
  simpa using this

/-! ### The hypotheses are met -/

example : GoodNames demoList := ⟨by decide, by
  intro n hn
  simp [names, demoList, Entry.ref, demoA, demoB, demoS] at hn
  rcases hn with rfl | rfl | rfl <;> exact ⟨by decide, by decide⟩⟩
/-- The members `a`, `b` and `s` are declared. In this order they need one call each,
in any other order too, and repeated ones need more. -/
example : openCalls (names demoList) [b!"a", b!"b", b!"s"] = 3 ∧ openCalls (names demoList) [b!"s", b!"b", b!"a"] = 3 ∧
    openCalls (names demoList) [b!"b", b!"b", b!"b", b!"b", b!"b"] = 5 ∧
    openCalls (names demoList) [b!"a", b!"b", b!"s", b!"x", b!"x", b!"x"] = 4 := by decide
example : deObjectD .strict 2 false ⟨0, false, [], 0⟩ (demoList.map Entry.toMember) ⟨1, false, [], 7⟩
      b!"{\"a\":-5,\"b\":true,\"s\":\"x\"}" .fresh = .fuel ∧
    deObjectD .strict 3 false ⟨0, false, [], 0⟩ (demoList.map Entry.toMember) ⟨1, false, [], 7⟩
      b!"{\"a\":-5,\"b\":true,\"s\":\"x\"}" .fresh = .ok (⟨-5, true, b!"x", 7⟩, [], .fresh) := by decide +kernel
/-- Strict: the second member four times. -/
example : c%'{' :: sameMembers b!"b" b!"true" 3 = b!"{\"b\":true,\"b\":true,\"b\":true,\"b\":true}" ∧
    deObjectD .strict 3 true ⟨0, false, [], 0⟩ (demoList.map Entry.toMember) ⟨1, false, [], 7⟩
      (c%'{' :: sameMembers b!"b" b!"true" 3) .fresh = .fuel ∧
    deObjectD .strict 4 true ⟨0, false, [], 0⟩ (demoList.map Entry.toMember) ⟨1, false, [], 7⟩
      (c%'{' :: sameMembers b!"b" b!"true" 3) .fresh = .ok (⟨1, true, [], 7⟩, [], .fresh) := by decide +kernel
/-- Behind the last declared member the number does not matter. -/
example : deObjectD .strict 4 false ⟨0, false, [], 0⟩ (demoList.map Entry.toMember) ⟨1, false, [], 7⟩
    b!"{\"a\":-5,\"b\":true,\"s\":\"x\",\"y\":1,\"y\":2,\"y\":3,\"y\":4}" .fresh = .ok (⟨-5, true, b!"x", 7⟩, [], .fresh) := by
  decide +kernel
example : b!"y" ∉ names demoList ∧ RChars b!"y" :=
  ⟨by decide, .cons (c := b!"y") (.ascii (by decide) (by decide) (by decide) (by decide)) .nil⟩
example : ∀ m ∈ demoList.map Entry.toMember, DescribedM .strict .all m := by
  intro m hm
  simp only [demoList, List.map_cons, List.map_nil, List.mem_cons, List.not_mem_nil, or_false] at hm
  rcases hm with rfl | rfl | rfl
  · exact .member demoA (.int _)
  · exact .memberP demoB .bool
  · exact .member demoS .str

end Wjson
