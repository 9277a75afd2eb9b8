import Verif.Proofs.View
import Verif.Props.Recursive
/-
C88. What is read into a part of a variable depends on nothing else the variable held.
-/
namespace Wjson
open Spec

/-- C88. Whatever the variable held before, a call reads the same part of the text, reports the same error or none, and
is defined or not alike: nothing but the value can depend on the earlier contents. -/
theorem C88_course {c : Cfg} {α : Type} {S : Ser α} (h : Desc c S) (v0 v1 : α) (s : Bytes) (e : EPtr) :
    (∀ v p e', S.de v0 s e = .ok (v, p, e') → ∃ v', S.de v1 s e = .ok (v', p, e')) ∧ (S.de v0 s e = .ub → S.de v1 s e = .ub) := by
  have := h.resp v0 v1 trivial s e
  revert this
  generalize S.de v0 s e = a
  generalize S.de v1 s e = b
  intro this
  cases this with
  | @ok x y h =>
    refine ⟨fun v p e' hr => ?_, nofun⟩
    cases hr
    exact ⟨y.1, congrArg Out.ok (Prod.ext rfl h.2.symm)⟩
  | ub => exact ⟨nofun, fun _ => rfl⟩
  | fuel => exact ⟨nofun, nofun⟩

/-- C88. What a part of the variable holds after a call, with an error or without, depends on the text, on the error
argument and on what the same part held before, and on no other part. -/
theorem C88_part {c : Cfg} {α β : Type} {S : Ser α} {π : α → β} (h : View c S π) {v0 v1 : α} (h01 : π v0 = π v1) {s p : Bytes} {e e' : EPtr}
    {v : α} (hr : S.de v0 s e = .ok (v, p, e')) : ∃ v', S.de v1 s e = .ok (v', p, e') ∧ π v' = π v := by
  have := h.resp v0 v1 h01 s e
  rw [hr] at this
  revert this
  generalize S.de v1 s e = b
  intro this
  cases this with
  | @ok _ y h => exact ⟨y.1, congrArg Out.ok (Prod.ext rfl h.2.symm), h.1.symm⟩

/-- C88. The same for any number of texts read one after the other. -/
theorem C88_many {c : Cfg} {α β : Type} {S : Ser α} {π : α → β} (h : View c S π) {v0 v1 v : α} (h01 : π v0 = π v1)
    {ss ps : List (Bytes × EPtr)} (hr : ReadOn S v0 ss v ps) : ∃ v', ReadOn S v1 ss v' ps ∧ π v' = π v := by
  induction hr generalizing v1 with
  | nil w => exact ⟨v1, .nil v1, h01.symm⟩
  | cons h1 _ ih =>
    obtain ⟨w', h2, h3⟩ := C88_part h h01 h1
    obtain ⟨v', h4, h5⟩ := ih h3.symm
    exact ⟨v', .cons h2 h4, h5⟩

/-- C88. Which description `multi_deserializer` picks, and what it reports, does not depend on the variables. -/
theorem C88_choice {τ : Type} (c : Cfg) {l : List (MultiArg τ)} (h : ∀ a ∈ l, Desc c a.ser) (t0 t1 : τ) (s : Bytes) (e : EPtr) :
    ∀ i t e', multiDe c l t0 s e = .ok (i, t, e') → ∃ t', multiDe c l t1 s e = .ok (i, t', e') := by
  induction l generalizing t0 t1 with
  | nil =>
    intro i t e' hr
    obtain ⟨r, h1, h2⟩ := Out.bind_eq_ok.mp hr
    cases h2
    exact ⟨t1, Out.bind_eq_ok.mpr ⟨r, h1, rfl⟩⟩
  | cons a l ih =>
    intro i t e' hr
    obtain ⟨⟨x, p, e1⟩, h1, h2⟩ := Out.bind_eq_ok.mp hr
    obtain ⟨x', h3⟩ := (C88_course (h a (by simp)) _ (a.get t1) s .fresh).1 x p e1 h1
    unfold multiDe
    rw [h3, Out.bind_ok]
    dsimp only at h2 ⊢
    by_cases hf : e1.failed = true
    · rw [if_pos hf] at h2 ⊢
      obtain ⟨q, h4, h5⟩ := Out.bind_eq_ok.mp h2
      obtain ⟨j, t', e2⟩ := q
      obtain ⟨u, hu⟩ := ih (fun b hb => h b (by simp [hb])) (a.set x t0) (a.set x' t1) j t' e2 h4
      simp only [Out.ok.injEq, Prod.mk.injEq] at h5
      obtain ⟨rfl, rfl, rfl⟩ := h5
      exact ⟨u, by rw [hu]; rfl⟩
    · rw [if_neg hf] at h2 ⊢
      cases h2
      exact ⟨_, rfl⟩

/-- C88. Descriptions that mention themselves: what a part of the outermost object holds after a call depends on the text,
the error argument and what this part held before. -/
theorem C88_recursive {c : Cfg} {α β : Type} {F : Ser α → Ser α} {π : α → β} (h : ∀ S, View c (F S) π) (d : α) {v0 v1 : α}
    (h01 : π v0 = π v1) {s p : Bytes} {e e' : EPtr} {v : α} (hr : recDe F d v0 s e = .ok (v, p, e')) :
    ∃ v', recDe F d v1 s e = .ok (v', p, e') ∧ π v' = π v :=
  C88_part (h (levels F (unfinished d) s.length)) h01 hr

/-- The children of a tree: the text replaces them, or they stay, whatever the value of the node is. -/
theorem treeF_view (c : Cfg) {β : Type} {SB : Ser β} (hB : Desc c SB) (S : Ser (Tree β)) : View c (treeF c SB S) Tree.kids := by
  let L : List (Slot (Tree β)) := (treeEntries SB S).map Slot.one
  have hrefs : L.flatMap Slot.refs = (treeEntries SB S).map Entry.ref := rfl
  have hL : L.map Slot.toMember = (treeEntries SB S).map Entry.toMember := rfl
  unfold treeF
  rw [← hL]
  refine View.member (m := ⟨b!"kids", Tree.kids, fun ks t => .node t.value ks, arraySer (seqColl _) (pointerSer S)⟩) (π := fun v => v)
    ?_ ?_ ?_ .whole
  · rw [hrefs]
    refine ⟨?_, ?_, ?_⟩
    · intro m hm x t
      simp only [treeEntries, List.map_cons, List.map_nil, List.mem_cons, List.not_mem_nil, or_false, Entry.ref] at hm
      rcases hm with rfl | rfl <;> rfl
    · intro m hm x y t
      simp only [treeEntries, List.map_cons, List.map_nil, List.mem_cons, List.not_mem_nil, or_false, Entry.ref] at hm
      rcases hm with rfl | rfl <;> rfl
    · simp [treeEntries, Entry.ref, Tree.value, Tree.kids]
  · rw [hrefs]
    intro m hm
    simp only [treeEntries, List.map_cons, List.map_nil, List.mem_cons, List.not_mem_nil, or_false, Entry.ref] at hm
    rcases hm with rfl | rfl
    · exact hB
    · exact .base .array
  · rw [hrefs]
    simp [treeEntries, Entry.ref]

example {v0 v1 v : Tree Bytes} (h01 : v0.kids = v1.kids) {s p : Bytes} {e e' : EPtr}
    (hr : recDe (treeF .strict strSer) (.node [] []) v0 s e = .ok (v, p, e')) :
    ∃ v', recDe (treeF .strict strSer) (.node [] []) v1 s e = .ok (v', p, e') ∧ v'.kids = v.kids :=
  C88_recursive (treeF_view .strict (.base .str)) _ h01 hr

/-! A server: a name, two limits in a C array, and a port given by its number or its name. -/

structure DemoServer where
  name : Bytes
  limits : Vector Int 2
  num : Int
  word : Bytes
  deriving DecidableEq

def demoServerName : MRef DemoServer := ⟨b!"name", (·.name), fun x t => { t with name := x }, strSer⟩
def demoServerLimits (c : Cfg) : MRef DemoServer :=
  ⟨b!"limits", (·.limits), fun x t => { t with limits := x }, fixVecSer .cArray 2 (intSer c .int)⟩
def demoServerNum (c : Cfg) : MRef DemoServer := ⟨b!"port", (·.num), fun x t => { t with num := x }, intSer c .ushort⟩
def demoServerWord : MRef DemoServer := ⟨b!"port", (·.word), fun x t => { t with word := x }, strSer⟩

def demoServer (c : Cfg) : List (Slot DemoServer) :=
  [.one (.mem demoServerName), .one (.mem (demoServerLimits c)), .alt (demoServerNum c) demoServerWord (fun x : Int => x == 0) false]

def demoServerSer (c : Cfg) : Ser DemoServer := objectSer c false ⟨[], ⟨#[0, 0], rfl⟩, 0, []⟩ ((demoServer c).map Slot.toMember)

theorem demoServer_view (c : Cfg) : View c (demoServerSer c) (fun t => t.limits[(1 : Fin 2)]) := by
  have hrefs : (demoServer c).flatMap Slot.refs = [demoServerName, demoServerLimits c, demoServerNum c, demoServerWord] := rfl
  refine View.member (m := demoServerLimits c) (π := fun v : Vector Int 2 => v[(1 : Fin 2)]) ?_ ?_ ?_ (.element 1 (.base .int) .whole)
  · rw [hrefs]
    refine ⟨?_, ?_, ?_⟩
    · intro m hm x t
      simp only [List.mem_cons, List.not_mem_nil, or_false] at hm
      rcases hm with rfl | rfl | rfl | rfl <;> rfl
    · intro m hm x y t
      simp only [List.mem_cons, List.not_mem_nil, or_false] at hm
      rcases hm with rfl | rfl | rfl | rfl <;> rfl
    · simp [demoServerName, demoServerLimits, demoServerNum, demoServerWord]
  · rw [hrefs]
    intro m hm
    simp only [List.mem_cons, List.not_mem_nil, or_false] at hm
    rcases hm with rfl | rfl | rfl | rfl
    · exact .base .str
    · exact .fixed (.base .int)
    · exact .base .int
    · exact .base .str
  · rw [hrefs]; simp

/-- Two servers with the same second limit, after the same wrong text. -/
example :
    (demoServerSer .strict).de ⟨b!"a", ⟨#[1, 2], rfl⟩, 80, []⟩ b!"{\"limits\":[7],\"port\":\"http\",\"name\":5}" .fresh =
      .ok (⟨[], ⟨#[7, 2], rfl⟩, 0, b!"http"⟩, [], .obj ⟨.ExpectedOf, some b!"\"", 2⟩) ∧
    (demoServerSer .strict).de ⟨b!"bc", ⟨#[3, 2], rfl⟩, 0, b!"smtp"⟩ b!"{\"limits\":[7],\"port\":\"http\",\"name\":5}" .fresh =
      .ok (⟨[], ⟨#[7, 2], rfl⟩, 0, b!"http"⟩, [], .obj ⟨.ExpectedOf, some b!"\"", 2⟩) := by
  decide +kernel

/-- The hypothesis is needed: the second limit is kept. -/
theorem C88_kept :
    (demoServerSer .strict).de ⟨[], ⟨#[1, 2], rfl⟩, 0, []⟩ b!"{\"limits\":[7]}" .fresh = .ok (⟨[], ⟨#[7, 2], rfl⟩, 0, []⟩, [], .fresh) ∧
    (demoServerSer .strict).de ⟨[], ⟨#[1, 9], rfl⟩, 0, []⟩ b!"{\"limits\":[7]}" .fresh = .ok (⟨[], ⟨#[7, 9], rfl⟩, 0, []⟩, [], .fresh) := by
  decide +kernel

example (c : Cfg) : Desc c (demoServerSer c) :=
  .object fun m hm => by
    simp only [demoServer, List.map_cons, List.map_nil, List.mem_cons, List.not_mem_nil, or_false] at hm
    rcases hm with rfl | rfl | rfl
    · exact .member (m := demoServerName) (.base .str)
    · exact .member (m := demoServerLimits c) (.fixed (.base .int))
    · exact DescM.memberIf (isDflt := fun x : Int => x == 0) (RU := false) (l := demoServerNum c) (r := demoServerWord) (.base .int) (.base .str)

end Wjson
