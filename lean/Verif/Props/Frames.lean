import Verif.Proofs.Frames
import Verif.Props.Calls
import Verif.Props.Depth
/-
Property C81: the stack the readers of nested descriptions need.
Specification: Verif/Spec/Frames.lean (`Framed`: every description with its reader on a
bounded stack, `D k` is the reader when `k` frames are free). A frame is an open call of a
reader, of the member routine of an object or of `parse_value` (Verif/Model/Frames.lean);
`.fuel` is a stack overflow.
-/
namespace Wjson
open Spec

/-- C81. Every description has a reader on a bounded stack. -/
theorem C81_every {c : Cfg} {f : Features} {α : Type} {S : Ser α} (h : Described c f S) : ∃ D n, Framed c S D n 1 := h.framed

/-- C81. A bounded stack makes no difference but for the overflow, whatever the
description, the text and the size of the stack. -/
theorem C81_same_result {c : Cfg} {α : Type} {S : Ser α} {D : Nat → De α} {h a : Nat} (hS : Framed c S D h a) (k : Nat) (v : α)
    (s : Bytes) (e : EPtr) : D k v s e = .fuel ∨ D k v s e = S.de v s e :=
  (hS.near (B := True) k s.length (.inl trivial) v s e (Nat.le_refl _)).imp And.right id

/-- C81. The frames for the nesting of the description and the bytes of the text are added, not multiplied: with one
frame for every level of the description and one for every byte of the text there is no overflow. -/
theorem C81_enough {c : Cfg} {α : Type} {S : Ser α} {D : Nat → De α} {h a : Nat} (hS : Framed c S D h a) {k : Nat} (v : α) (s : Bytes)
    (e : EPtr) (hk : h + a * s.length < k) : D k v s e = S.de v s e :=
  (hS.near (B := False) k s.length (.inr hk) v s e (Nat.le_refl _)).resolve_left fun h => h.1

/-- C81. A description without objects and raw values needs a fixed number of
frames, whatever the text. -/
theorem C81_constant {c : Cfg} {α : Type} {S : Ser α} {D : Nat → De α} {h : Nat} (hS : Framed c S D h 0) (v : α) (s : Bytes) (e : EPtr) :
    D (h + 1) v s e = S.de v s e :=
  C81_enough hS v s e (by omega)

/-- C81, exception: an object that is not strict has no such number. For every number of frames there is a flat JSON
text that is read without error on a larger stack and overflows this one. -/
theorem C81_object_no_stack_is_enough {c : Cfg} {τ : Type} (dflt : τ) {L : List (Entry τ)} (hg : GoodNames L) (hne : L ≠ []) {h : Nat}
    {M : Member τ → Nat → Member τ} (hM : ∀ m ∈ L.map Entry.toMember, FramedM c m (M m) h 1) {x : Bytes} (hx : x ∉ names L)
    (hc : RChars x) (k : Nat) (v : τ) {e : EPtr} (he : e.failed = false) :
    ∃ t, RValue t ∧ Nested .value t 1 ∧ t.length = (k + 1) * (x.length + 5) + 1 ∧
      (∃ v', (objectSer c false dflt (L.map Entry.toMember)).de v t e = .ok (v', [], e)) ∧
      nextFrame (fun k => deObjectT c false dflt (fun k => (L.map Entry.toMember).map fun m => M m k) k) (k + 1) v t e = .fuel := by
  obtain ⟨t, h1, h2, h3, h4, h5⟩ := C77_no_stack_is_enough c dflt hg hne hx hc k v he
  refine ⟨t, h1, h2, h3, h4, ?_⟩
  have := deObjectT_calls (c := c) (strict := false) (F := id) dflt (fun m hm => (hM m hm).safe)
    (fun m hm k n => (hM m hm).near (B := True) k n (.inl trivial)) k v t e
  rw [List.map_id, h5] at this
  exact this.elim And.right id

/-- C81, exception: neither has a raw value: for every number of frames there is a
short JSON text that overflows it. -/
theorem C81_raw_no_stack_is_enough (c : Cfg) (k : Nat) (v : Bytes) (e : EPtr) :
    ∃ t, RValue t ∧ t.length = 2 * k + 2 ∧ (rawSer c).de v t e = .ok (t, [], e) ∧
      nextFrame (fun k => deRawT (valueD c k)) (k + 1) v t e = .fuel := by
  obtain ⟨t, h1, h2, h3, h4⟩ := C69_no_stack_is_enough c k e
  refine ⟨t, h1, h2, ?_, ?_⟩
  · show parseValue c t e >>= _ = _
    have h3 : parseValue c t e = .ok ([], e) := h3
    rw [h3]
    simp [consumed]
  · show valueD c k t e >>= _ = _
    rw [h4]; rfl

/-! Non-vacuity: a vector of vectors of integers needs three frames, whatever the text; two overflow. -/

section
def gridSer : Ser (List (List Int)) := arraySer (seqColl _) (arraySer (seqColl _) (intSer .strict .int))
def gridT : Nat → De (List (List Int)) :=
  nextFrame fun k => (arraySer (seqColl _) ((arraySer (seqColl _) (intSer .strict .int)).withReader
    (nextFrame (fun k => (arraySer (seqColl _) ((intSer .strict .int).withReader (nextFrame (fun _ => (intSer .strict .int).de) k))).de) k))).de
example : Framed .strict gridSer gridT 2 0 := .array _ (.array _ (.scalar (.int _)))
example : gridT 2 [] b!"[[1,2],[3]]" .fresh = .fuel ∧
    gridT 3 [] b!"[[1,2],[3]]" .fresh = .ok ([[1, 2], [3]], [], .fresh) ∧
    gridT 2 [] b!"[[],[]]" .fresh = .ok ([[], []], [], .fresh) := by decide +kernel

/-- A vector of objects with a member that is a raw value: the frames of the outer and of the inner readers are added. -/
structure Rec where
  a : Int
  w : Bytes
  deriving DecidableEq
def recA : MRef Rec := { α := Int, name := b!"a", get := Rec.a, set := fun x t => { t with a := x }, ser := intSer .strict .int }
def recW : MRef Rec := { α := Bytes, name := b!"w", get := Rec.w, set := fun x t => { t with w := x }, ser := rawSer .strict }
def recMembers (k : Nat) : List (Member Rec) :=
  [member (recA.withReader (nextFrame (fun _ => recA.ser.de) k)),
    member (recW.withReader (nextFrame (fun k => deRawT (valueD .strict k)) k))]
def recsSer : Ser (List Rec) := arraySer (seqColl _) (objectSer .strict false ⟨0, []⟩ [member recA, member recW])
def recsT : Nat → De (List Rec) :=
  nextFrame fun k => (arraySer (seqColl _) ((objectSer .strict false ⟨0, []⟩ [member recA, member recW]).withReader
    (nextFrame (fun k => deObjectT .strict false ⟨0, []⟩ recMembers k) k))).de
example : Framed .strict recsSer recsT 4 1 := by
  have h : ∀ b ∈ [true, false], FramedM .strict (bif b then member recA else member recW)
      ((fun (b : Bool) (k : Nat) => bif b then member (recA.withReader (nextFrame (fun _ => recA.ser.de) k))
        else member (recW.withReader (nextFrame (fun k => deRawT (valueD .strict k)) k))) b) 1 1 := by
    intro b _
    cases b
    · exact .member recW .raw
    · exact .mono (.member recA (.scalar (.int _))) (by decide) (by decide)
  exact .array (seqColl _) (.object false ⟨0, []⟩ [true, false] _ _ h)
/-- Array, object, two calls for members, raw value, three levels of `parse_value`: eight frames. -/
example : recsT 7 [] b!"[{\"a\":1,\"w\":[[1]]}]" .fresh = .fuel ∧
    recsT 8 [] b!"[{\"a\":1,\"w\":[[1]]}]" .fresh = .ok ([⟨1, b!"[[1]]"⟩], [], .fresh) := by decide +kernel
/-- Repeated members need more, although the text is flat. -/
example : recsT 6 [] b!"[{\"w\":1,\"w\":1,\"w\":1}]" .fresh = .fuel ∧
    recsT 7 [] b!"[{\"w\":1,\"w\":1,\"w\":1}]" .fresh = .ok ([⟨0, b!"1"⟩], [], .fresh) := by decide +kernel
end

example : ∃ M : Member Demo → Nat → Member Demo, ∃ h, ∀ m ∈ demoList.map Entry.toMember, FramedM .strict m (M m) h 1 := by
  refine list_frames (P := fun m M h => FramedM .strict m M h 1) (fun _ _ _ _ p q => p.mono q (Nat.le_refl _))
    (fun _ => member demoA) _ fun m hm => ?_
  simp only [demoList, List.map_cons, List.map_nil, List.mem_cons, List.not_mem_nil, or_false] at hm
  rcases hm with rfl | rfl | rfl
  · exact (DescribedM.member (f := .all) demoA (.int _)).framed
  · exact (DescribedM.memberP (f := .all) demoB .bool).framed
  · exact (DescribedM.member (f := .all) demoS .str).framed
example : b!"y" ∉ names demoList ∧ RChars b!"y" :=
  ⟨by decide, .cons (c := b!"y") (.ascii (by decide) (by decide) (by decide) (by decide)) .nil⟩

end Wjson
