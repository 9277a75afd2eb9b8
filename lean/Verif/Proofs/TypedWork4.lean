import Verif.Proofs.TypedWork3
import Verif.Proofs.Api
/-
Lemmas for C78: alternatives. `multi_deserializer` reads the text once for every
description; `member_if` reads the rest of the document again.
-/
namespace Wjson
open Spec

/-! ### The text on which the work of `member_if` is not linear -/

theorem pathsTail_length (n : Nat) : (pathsTail n).length = 7 * (n + 1) := by
  induction n with
  | zero => rfl
  | succ n ih => rw [pathsTail, List.length_append, ih]; simp; omega

theorem pathsTail_open (n : Nat) (e : EPtr) :
    spaceLoop true (pathsTail n) e = ([], createError .UnexpectedEndFragment e (some b!"Unterminated comment")) := by
  induction n with
  | zero => rfl
  | succ n ih => rw [pathsTail]; exact ih

/-- What follows an element. -/
def pathsRest : Nat → Bytes
  | 0 => b!"]"
  | n + 1 => c%',' :: pathsTail n

theorem pathsTail_eq (n : Nat) : pathsTail n = b!"[\"/*\"]" ++ pathsRest n := by cases n <;> rfl

theorem pathsRest_open (n : Nat) (e : EPtr) :
    spaceLoop true (pathsRest n) e = ([], createError .UnexpectedEndFragment e (some b!"Unterminated comment")) := by
  cases n with
  | zero => rfl
  | succ n => exact pathsTail_open n e

theorem pathsStr_dec (q : Bytes) (e : EPtr) : (strDecW (47 :: 42 :: 34 :: q) intMax e).1 = ([47, 42], q, e) := by
  rw [strDecW]
  have h1 : strStep 47 (42 :: 34 :: q) intMax e = ([47], 42 :: 34 :: q, 2147483646, e) := rfl
  simp only [h1]
  rw [strDecW]
  have h2 : strStep 42 (34 :: q) 2147483646 e = ([42], 34 :: q, 2147483645, e) := rfl
  simp only [h2]
  rw [strDecW]
  rfl

theorem pathsStr_read (t q : Bytes) (e : EPtr) : ∃ k, deStrW t (34 :: 47 :: 42 :: 34 :: q) e = .ok (([47, 42], q, e), k) := by
  refine ⟨(strDecW (47 :: 42 :: 34 :: q) intMax e).2 + 3, ?_⟩
  have h := pathsStr_dec q e
  show (Sink.puts ⟨[], .back⟩ (strDecW (47 :: 42 :: 34 :: q) intMax e).1.1 >>= _) >>= _ = _
  rw [h]
  rfl

/-- The flags see a comment that does not end. -/
theorem pathsFlags_read (v : BitVec 8) (n : Nat) : ∃ x k, deFlagsW .strict ⟨[(b!"a", 1)], c%'|', true⟩ v
      (34 :: 47 :: 42 :: 34 :: 93 :: pathsRest n) .fresh = .ok ((0, [], .obj x), k) ∧ x.status = true ∧ (pathsRest n).length ≤ k := by
  have h := spaceLoopW_eq true (42 :: 34 :: 93 :: pathsRest n) .fresh
  have ho : spaceLoop true (42 :: 34 :: 93 :: pathsRest n) .fresh = spaceLoop true (pathsRest n) .fresh := rfl
  rw [ho, pathsRest_open] at h
  refine ⟨⟨.UnexpectedEndFragment, some b!"Unterminated comment", 0⟩, (spaceLoopW true (42 :: 34 :: 93 :: pathsRest n) .fresh).2 + 6, ?_, rfl, ?_⟩
  · have hp : parseSpaceW (47 :: 42 :: 34 :: 93 :: pathsRest n) .fresh = ((spaceLoopW true (42 :: 34 :: 93 :: pathsRest n) .fresh).1,
        (spaceLoopW true (42 :: 34 :: 93 :: pathsRest n) .fresh).2 + 2) := rfl
    generalize spaceLoopW true (42 :: 34 :: 93 :: pathsRest n) .fresh = w at h hp
    obtain ⟨w1, w2⟩ := w
    obtain rfl : w1 = _ := h.1
    have hf : flagOneW (w := 8) .strict ⟨[(b!"a", 1)], c%'|', true⟩ false 0 (47 :: 42 :: 34 :: 93 :: pathsRest n) .fresh =
        .ok ((0, [], .obj ⟨.UnexpectedEndFragment, some b!"Unterminated comment", 0⟩), w2 + 3) := by
      simp only [flagOneW, flagOneStrW]
      rw [show (if (c%'|' : Byte) ≠ c%' ' then parseSpaceW (47 :: 42 :: 34 :: 93 :: pathsRest n) .fresh else _) = _ from hp]
      rfl
    have hl : flagLoopW (w := 8) .strict ⟨[(b!"a", 1)], c%'|', true⟩ false ((47 :: 42 :: 34 :: 93 :: pathsRest n).length + 1) 0
        (47 :: 42 :: 34 :: 93 :: pathsRest n) .fresh =
        .ok ((0, [], .obj ⟨.UnexpectedEndFragment, some b!"Unterminated comment", 0⟩), w2 + 4) := by
      rw [flagLoopW]
      rw [if_neg (by decide), hf]
      simp [Out.bind_ok]
      rfl
    show flagLoopW (w := 8) .strict ⟨[(b!"a", 1)], c%'|', true⟩ false ((47 :: 42 :: 34 :: 93 :: pathsRest n).length + 1) 0
        (47 :: 42 :: 34 :: 93 :: pathsRest n) .fresh >>= _ = _
    rw [hl]
    rfl
  · have := h.2
    simp at this
    omega

/-- One element: all that follows is scanned. -/
theorem pathsW_elem (n : Nat) : ∃ k, pathsW (0, []) (pathsTail n) .fresh = .ok (((0, b!"/*"), pathsRest n, .fresh), k) ∧
    (pathsRest n).length ≤ k := by
  rw [pathsTail_eq]
  obtain ⟨x, k1, h1, hx, hk⟩ := pathsFlags_read 0 n
  obtain ⟨k2, h2⟩ := pathsStr_read [] (93 :: pathsRest n) .fresh
  have hm : deAMemberIfW pathsFlags pathsStr (deFlagsW .strict ⟨[(b!"a", 1)], c%'|', true⟩) deStrW (0, [])
      (34 :: 47 :: 42 :: 34 :: 93 :: pathsRest n) .fresh = .ok (((0, b!"/*"), 93 :: pathsRest n, .fresh), k1 + 2 + k2 + 2) := by
    show ((deFlagsW .strict ⟨[(b!"a", 1)], c%'|', true⟩ (0 : BitVec 8) (34 :: 47 :: 42 :: 34 :: 93 :: pathsRest n) .fresh >>= fun d =>
      Out.ok (((d.1.1, ([] : Bytes)), d.1.2), d.2 + 1)) >>= _) = _
    rw [h1]
    simp only [Out.bind_ok, EPtr.failed, hx]
    show ((deStrW [] (34 :: 47 :: 42 :: 34 :: 93 :: pathsRest n) .fresh >>= _) >>= _) = _
    rw [h2]
    rfl
  refine ⟨2 + (k1 + 2 + k2 + 2 + 2 + 1) + 2 + 2, ?_, by omega⟩
  show deAMembersW [deAMemberIfW pathsFlags pathsStr (deFlagsW .strict ⟨[(b!"a", 1)], c%'|', true⟩) deStrW] (0, [])
      (34 :: 47 :: 42 :: 34 :: 93 :: pathsRest n) .fresh >>= _ >>= _ = _
  rw [deAMembersW, hm]
  rfl

/-- The loop over the elements. -/
theorem pathsLoop (n : Nat) : ∀ m acc, n < m → ∃ k, seqLoopW (seqColl (BitVec 8 × Bytes)) pathsSer pathsW c%']' m acc (pathsTail n) .fresh =
      .ok ((acc ++ List.replicate (n + 1) (0, b!"/*"), [], .fresh), k) ∧ 7 * (n * (n + 1)) ≤ 2 * k := by
  induction n with
  | zero =>
    intro m acc hm
    obtain ⟨m, rfl⟩ := Nat.exists_eq_add_of_le' hm
    obtain ⟨k, h, _⟩ := pathsW_elem 0
    refine ⟨2 + k + 2 + 2, ?_, by omega⟩
    show (pathsW (0, []) (pathsTail 0) .fresh >>= _) = _
    rw [h]
    rfl
  | succ n ih =>
    intro m acc hm
    obtain ⟨m, rfl⟩ := Nat.exists_eq_add_of_le' (Nat.lt_of_le_of_lt (Nat.zero_le _) hm)
    obtain ⟨k, h, hk⟩ := pathsW_elem (n + 1)
    obtain ⟨k', h', hk'⟩ := ih m (acc ++ [(0, b!"/*")]) (by omega)
    refine ⟨k' + 2 + k + 2 + 2, ?_, ?_⟩
    · show (pathsW (0, []) (pathsTail (n + 1)) .fresh >>= _) = _
      rw [h]
      show (seqLoopW (seqColl (BitVec 8 × Bytes)) pathsSer pathsW c%']' m (acc ++ [(0, b!"/*")]) (pathsTail n) .fresh >>= _) = _
      rw [h', List.append_assoc]
      rfl
    · have := pathsTail_length n
      have hr : (pathsRest (n + 1)).length = 7 * (n + 1) + 1 := by simp [pathsRest, this]
      have : (n + 1) * (n + 1 + 1) = n * (n + 1) + 2 * (n + 1) := by
        rw [Nat.mul_comm, ← Nat.add_mul]
      omega

theorem Lin.result {α : Type} {A B : Nat} {W : DeW α} {D : De α} (h : Lin A B W D) {v : α} {s : Bytes} {e : EPtr} {r : α × Bytes × EPtr}
    {k : Nat} (hw : W v s e = .ok (r, k)) : D v s e = .ok r := by
  have := h v s e
  rw [hw] at this
  generalize D v s e = o at this
  cases this
  rfl

/-- One element, without counting. -/
theorem pathsSer_elem (n : Nat) : pathsSer.de (0, []) (pathsTail n) .fresh = .ok ((0, b!"/*"), pathsRest n, .fresh) := by
  rw [pathsTail_eq]
  obtain ⟨x, k1, h1, hx, hk⟩ := pathsFlags_read 0 n
  obtain ⟨k2, h2⟩ := pathsStr_read [] (93 :: pathsRest n) .fresh
  replace h1 := (deFlagsW_lin .strict _).result h1
  replace h2 := deStrW_lin.result h2
  have hm : deAMemberIf pathsFlags pathsStr (0, []) (34 :: 47 :: 42 :: 34 :: 93 :: pathsRest n) .fresh =
      .ok ((0, b!"/*"), 93 :: pathsRest n, .fresh) := by
    show ((deFlags .strict ⟨[(b!"a", 1)], c%'|', true⟩ (0 : BitVec 8) (34 :: 47 :: 42 :: 34 :: 93 :: pathsRest n) .fresh >>= fun d =>
      Out.ok ((d.1, ([] : Bytes)), d.2)) >>= _) = _
    rw [h1]
    simp only [Out.bind_ok, EPtr.failed, hx]
    show ((deStr [] (34 :: 47 :: 42 :: 34 :: 93 :: pathsRest n) .fresh >>= _)) = _
    rw [h2]
    rfl
  show deAMembers [amemberIf pathsFlags pathsStr (fun v : BitVec 8 => v == 0) false] (0, [])
      (34 :: 47 :: 42 :: 34 :: 93 :: pathsRest n) .fresh >>= _ = _
  rw [deAMembers]
  show (deAMemberIf pathsFlags pathsStr (0, []) (34 :: 47 :: 42 :: 34 :: 93 :: pathsRest n) .fresh >>= _) >>= _ = _
  rw [hm]
  rfl

theorem pathsSer_loop (n : Nat) : ∀ m acc, n < m → seqLoopF (seqColl (BitVec 8 × Bytes)) pathsSer c%']' m acc (pathsTail n) .fresh =
      .ok (acc ++ List.replicate (n + 1) (0, b!"/*"), [], .fresh) := by
  induction n with
  | zero =>
    intro m acc hm
    obtain ⟨m, rfl⟩ := Nat.exists_eq_add_of_le' hm
    show (pathsSer.de (0, []) (pathsTail 0) .fresh >>= _) = _
    rw [pathsSer_elem 0]
    rfl
  | succ n ih =>
    intro m acc hm
    obtain ⟨m, rfl⟩ := Nat.exists_eq_add_of_le' (Nat.lt_of_le_of_lt (Nat.zero_le _) hm)
    show (pathsSer.de (0, []) (pathsTail (n + 1)) .fresh >>= _) = _
    rw [pathsSer_elem (n + 1)]
    show seqLoopF (seqColl (BitVec 8 × Bytes)) pathsSer c%']' m (acc ++ [(0, b!"/*")]) (pathsTail n) .fresh = _
    rw [ih m _ (by omega), List.append_assoc]
    rfl

/-! ### Results -/

theorem deAMemberIfW_cost {τ : Type} (a b : MRef τ) {Wa : DeW a.α} {Wb : DeW b.α} {A B A' B' : Nat} (ha : Lin A B Wa a.ser.de)
    (hb : Lin A' B' Wb b.ser.de) (t : τ) (s : Bytes) (e : EPtr) :
    Cost (fun _ _ => True) (deAMemberIfW a b Wa Wb t s e) (deAMemberIf a b t s e) := by
  have hn : ∀ (m : MRef τ) {W : DeW m.α} {A B : Nat} (_ : Lin A B W m.ser.de) (t : τ),
      Cost (fun _ _ => True) (readNullW m W t) (readNull m t) := fun m W A B h t =>
    (h _ _ _).bind fun r k _ => .ok trivial
  have hm : ∀ (m : MRef τ) {W : DeW m.α} {A B : Nat} (_ : Lin A B W m.ser.de) (t : τ) (e : EPtr),
      Cost (fun _ _ => True) (deAMemberW m m.get W t s e) ((amember m).de t s e) := fun m W A B h t e =>
    (h _ _ _).bind fun r k _ => .ok trivial
  unfold deAMemberIfW deAMemberIf
  refine (hm a ha t .fresh).bind fun d k _ => ?_
  simp only
  split
  · exact (hn b hb d.1).bind fun x k' _ => .ok trivial
  · exact (hn a ha d.1).bind fun x k' _ => (hm b hb x e).count (f := (k + k' + · + 1)) fun _ _ _ => trivial

/-! ### `multi_deserializer` -/

theorem multiDeW_cost (c : Cfg) {τ : Type} {L : List (WArg τ)} (hL : ∀ x ∈ L, ∃ A B, Lin A B x.work x.arg.ser.de) :
    ∃ A B, ∀ t s e, Cost (fun _ k => k ≤ A * s.length + B) (multiDeW c L t s e) (multiDe c (L.map (·.arg)) t s e) := by
  induction L with
  | nil =>
    refine ⟨20, 9, fun t s e => ?_⟩
    have := (rec_paid c (fuelFor s)).1 s e
    simp only [multiDeW, List.map_nil, multiDe, parseValue]
    generalize parseValueW c (fuelFor s) s e = w at this ⊢
    generalize parseValueF c (fuelFor s) s e = o at this ⊢
    cases this with
    | ok hb =>
      refine .ok ?_
      simp only [Paid] at hb
      omega
    | ub => exact .ub
    | fuel => exact .fuel
  | cons a l ih =>
    obtain ⟨A, B, h⟩ := ih fun x hx => hL x (List.mem_cons_of_mem _ hx)
    obtain ⟨A', B', h'⟩ := hL a (List.mem_cons_self ..)
    refine ⟨A + A', B + B' + 1, fun t s e => ?_⟩
    simp only [multiDeW, List.map_cons, multiDe]
    refine (h' _ s .fresh).bind fun r k hk => ?_
    simp only
    split
    · refine (h _ s e).bind fun q k' hk' => .ok ?_
      have := hk.1.2
      simp only [Nat.add_mul] at hk' ⊢
      omega
    · refine .ok ?_
      have := hk.1.2
      simp only [Nat.add_mul] at this ⊢
      omega

end Wjson
