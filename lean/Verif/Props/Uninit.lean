import Verif.Proofs.Uninit
import Verif.Proofs.UpTo
import Verif.Proofs.Nested
/-
C80: what lies in the memory of the element variables of containers.
-/
namespace Wjson
open Spec

/-! ### C80 -/

/-- C80. For every text, valid or not, the value, the position and the error are the same whatever lies in the
memory of the element variables of the containers and `std::array`s of the description, at every depth, provided
the elements are values, strings, containers, dictionaries or pointers. -/
theorem C80_any_text {c : Cfg} {α : Type} {S S' : Ser α} (h : AnyStart c S S') (v : α) (s : Bytes) (e : EPtr) :
    S'.de v s e = S.de v s e := by rw [h.eq]

/-- C80. In particular for a container of such elements. -/
theorem C80_container {c : Cfg} {α C : Type} (K : Coll α C) {S : Ser α} (h : Overwrites c S) (u : Bytes → α) (v : C) (s : Bytes)
    (e : EPtr) : (arraySer K (S.startingFrom u)).de v s e = (arraySer K S).de v s e := by
  rw [arraySer_start u fun v0 v1 s e hs => C57_any_text h v0 v1 hs e]

/-- a vector of vectors of integers inside a structure, with other memory for each level -/
example (u1 : Bytes → List Int) (u2 : Bytes → Int) :
    AnyStart .strict
      (objectSer .strict false (([] : List (List Int)), (0 : Int))
        ([0].map fun _ => member ⟨b!"a", Prod.fst, fun x t => (x, t.2), arraySer (seqColl _) (arraySer (seqColl Int) (intSer .strict .int))⟩))
      (objectSer .strict false (([] : List (List Int)), (0 : Int))
        ([0].map fun _ => member ⟨b!"a", Prod.fst, fun x t => (x, t.2),
          arraySer (seqColl _) ((arraySer (seqColl Int) ((intSer .strict .int).startingFrom u2)).startingFrom u1)⟩)) :=
  .object [0] _ _ fun _ _ => .member ⟨b!"a", Prod.fst, fun x t => (x, t.2), arraySer (seqColl _) (arraySer (seqColl Int) (intSer .strict .int))⟩
    (.array u1 .array (.array u2 .int (.same _)))

/-- what a text that breaks off in an element gives, with any memory -/
example (u : Bytes → Int) : ∃ e, (arraySer (seqColl Int) ((intSer .strict .int).startingFrom u)).de [] b!"[1,-" .fresh = .ok ([1, 0], [], e) ∧
    e.failed = true := by
  rw [C80_container (c := .strict) _ .int]
  exact ⟨_, rfl, rfl⟩

/-- C80. A text that is read without an error gives the same value whatever lies in the memory of the element
variables, also if the elements are floating point numbers or quoted values; and whether it is read without an
error does not depend on that memory either. -/
theorem C80_success {c : Cfg} {f : Features} {α : Type} {S S' : Ser α} (h : FullStart c f S S') {e : EPtr} (he : e.Clean) (v0 v1 v : α)
    (s p : Bytes) : S'.de v0 s e = .ok (v, p, e) ↔ S.de v1 s e = .ok (v, p, e) :=
  ⟨fun hr => h.both.2.2.2 he hr v1, fun hr => h.both.2.2.1 he hr v0⟩

/-- a map of strings to vectors of quoted integers -/
example (u : Bytes → Int) : FullStart .strict .all
    (dictSer (mapColl Bytes (List Int) fun a b => decide (a < b)) strSer (arraySer (seqColl Int) (quotedSer (intSer .strict .int) true true)))
    (dictSer (mapColl Bytes (List Int) fun a b => decide (a < b)) strSer
      (arraySer (seqColl Int) ((quotedSer (intSer .strict .int) true true).startingFrom u))) :=
  .dict (.same (.base .str) .str) (.array u (.same (.quoted (.base .int)) (.quoted _ _ rfl (.int _))))

/-- C80. What was written for a container of good values of any description (C28), structures included, is read
back as that container whatever lies in the memory of the element variable. -/
theorem C80_written {c : Cfg} {α : Type} {S : Ser α} {vs : List α} (h : ∀ v ∈ vs, GoodValue c S v) :
    ∃ t, WritesBack (arraySer (seqColl α) S).emit vs t ∧ ∀ u, Reads (arraySer (seqColl α) (S.startingFrom u)).de t vs := by
  have key : ∀ u, ∃ t, WritesBack (arraySer (seqColl α) S).emit vs t ∧ Reads (arraySer (seqColl α) (S.startingFrom u)).de t vs := by
    intro u
    obtain ⟨t, ws, h1, h2⟩ := seqSer_rtu (K := seqColl α) (S := S.startingFrom u) (R := Eq) (Rb := c%']') (.inl rfl) (L := c%'[')
      (.inl rfl) (c := vs) (fun v hv => by
        obtain ⟨t, ht⟩ := (h v hv).rtb
        exact ⟨t, v, ⟨ht.writes, ht.start, fun _ rest e he hd => ht.reads _ rest e he hd⟩, rfl⟩)
    have hw : ws = vs := by
      have : ∀ {as bs : List α}, All2 Eq as bs → bs = as := by
        intro as bs h
        induction h with
        | nil => rfl
        | cons h _ ih => rw [h, ih]
      exact this h1
    have hf : ∀ (l a : List α), l.foldl (seqColl α).insert a = a ++ l := by
      intro l
      induction l with
      | nil => intro a; simp
      | cons x l ih => intro a; rw [List.foldl_cons, ih]; simp [seqColl]
    refine ⟨t, fun m => ?_, ?_⟩
    · have := h2.writes m
      simp only [seqSer, emitSeq, emitElems_start] at this
      exact this
    · have := h2.reads
      rw [hw, hf] at this
      exact this
  obtain ⟨t, ht, _⟩ := key fun _ => S.dflt
  refine ⟨t, ht, fun u => ?_⟩
  obtain ⟨t', ht', hr⟩ := key u
  rw [writesBack_unique ht ht']
  exact hr

/-- values that may be quoted; the element variable is an integer -/
example : ∀ v ∈ [(3 : Int), -4], GoodValue .strict (quotedSer (intSer .strict .int) false false) v := by
  intro v hv
  have h : v = 3 ∨ v = -4 := by simpa using hv
  refine .unquoted (.int (by unfold IntTy.Std; decide) ?_ (.inl ?_)) ?_
  · rcases h with rfl | rfl <;> (unfold IntTy.InRange; decide)
  · rcases h with rfl | rfl <;> decide
  · intro t ht
    rcases h with rfl | rfl
    · have : (intSer .strict .int).emit 3 ⟨[], .back⟩ = .ok ⟨b!"3", .back⟩ := by decide +kernel
      rw [this] at ht; cases ht; decide
    · have : (intSer .strict .int).emit (-4) ⟨[], .back⟩ = .ok ⟨b!"-4", .back⟩ := by decide +kernel
      rw [this] at ht; cases ht; decide

/-! #### Where it fails -/

/-- Reading `[x` into a vector of floating point numbers reports an error, and the vector holds the contents of
a variable that was never given a value. -/
theorem C80_float_leaks {α : Type} (F : FloatTy α) (R : Int) (x : α) :
    ∃ e, (arraySer (seqColl α) ((floatSer F R).startingFrom fun _ => x)).de [] b!"[x" .fresh = .ok ([x], [], e) ∧ e.failed = true :=
  ⟨_, rfl, rfl⟩

/-- So does reading `[1]` into a vector of integers that must be quoted. -/
theorem C80_quoted_leaks (x : Int) : ∃ e, (arraySer (seqColl Int) ((quotedSer (intSer .strict .int) true true).startingFrom fun _ => x)).de
    [] b!"[1]" .fresh = .ok ([x], [], e) ∧ e.failed = true :=
  ⟨_, rfl, rfl⟩

/-- A vector of structures: `[{}]` is read without an error, and an element consists of the contents of a variable
that was given no value if the structure has no constructor. -/
theorem C80_object_leaks {τ : Type} (c : Cfg) (strict : Bool) (dflt x : τ) (L : List (Member τ)) :
    (arraySer (seqColl τ) ((objectSer c strict dflt L).startingFrom fun _ => x)).de [] b!"[{}]" .fresh = .ok ([x], [], .fresh) := by
  cases c
  rfl

/-- A vector of `std::array<int,3>`: `[[1]]` is read without an error, and two of the three integers were given no
value. -/
theorem C80_fixed_leaks (x y z : Int) :
    (arraySer (seqColl (List Int)) ((fixSer .stdArray 3 (intSer .strict .int)).startingFrom fun _ => [x, y, z])).de [] b!"[[1]]" .fresh =
      .ok ([[1, y, z]], [], .fresh) := by
  rfl

/-- In all these cases the result depends on that memory. -/
theorem C80_depends : ∃ (S : Ser Int) (u u' : Bytes → Int) (s : Bytes), Replaces .strict S ∧
    (arraySer (seqColl Int) (S.startingFrom u)).de [] s .fresh ≠ (arraySer (seqColl Int) (S.startingFrom u')).de [] s .fresh :=
  ⟨quotedSer (intSer .strict .int) true true, fun _ => 0, fun _ => 1, b!"[1]", .quoted (.base .int), by decide +kernel⟩

end Wjson
