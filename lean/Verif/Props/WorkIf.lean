import Verif.Proofs.WorkIf3
import Verif.Proofs.WorkIf4
import Verif.Props.Recursive
import Verif.Props.TypedWork
/-
Property C86: the work of reading with alternatives (`member_if`) and with descriptions that mention themselves.

The work is counted as for C78.
-/
namespace Wjson
open Spec

/-- C86. Counting changes nothing: the results are those of the reader, for every description. -/
theorem C86_same_result (c : Cfg) {m : Nat} {α : Type} {S : Ser α} {W : DeW α} (h : CountedIf c m S W) (v : α) (s : Bytes) (e : EPtr) :
    (W v s e >>= fun r => .ok r.1) = S.de v s e := by
  obtain ⟨K, h⟩ := countedIf_poly c h
  have := h (s.length + 4) (by omega) v s e (by omega)
  generalize W v s e = w at this ⊢
  generalize S.de v s e = o at this ⊢
  cases this <;> rfl

/-- C86. With at most `m` `member_if` inside each other the work on a text, good or bad, is at most a polynomial of degree `m + 1` in the
length of the text. -/
theorem C86_polynomial (c : Cfg) {m : Nat} {α : Type} {S : Ser α} {W : DeW α} (h : CountedIf c m S W) :
    ∃ C, ∀ v s e r k, W v s e = .ok (r, k) → k ≤ C * (s.length + 1) ^ (m + 1) := by
  obtain ⟨K, h⟩ := countedIf_poly c h
  refine ⟨K * 4 ^ (m + 1), fun v s e r k hk => ?_⟩
  have h1 := h (s.length + 4) (by omega) v s e (by omega)
  rw [hk] at h1
  generalize S.de v s e = o at h1
  cases h1 with
  | ok h =>
    have h2 := h.1.2
    have h3 : (s.length + 4) ^ m ≤ (4 * (s.length + 1)) ^ m := Nat.pow_le_pow_left (by omega) m
    have h4 : K * (s.length + 4) ^ m * (s.length + 1) ≤ K * (4 * (s.length + 1)) ^ m * (s.length + 1) :=
      Nat.mul_le_mul_right _ (Nat.mul_le_mul_left _ h3)
    have h5 : K * (4 * (s.length + 1)) ^ m * (s.length + 1) ≤ K * 4 ^ (m + 1) * (s.length + 1) ^ (m + 1) := by
      rw [Nat.mul_pow, Nat.pow_succ, Nat.pow_succ]
      have : K * (4 ^ m * 4) * ((s.length + 1) ^ m * (s.length + 1)) = 4 * (K * (4 ^ m * (s.length + 1) ^ m) * (s.length + 1)) := by ac_rfl
      rw [this]
      omega
    rw [Nat.mul_add, Nat.mul_one] at h4
    omega

/-! ### Examples: the alternatives of C78, and one inside the other. -/

theorem paths_countedIf : CountedIf .strict 1 pathsSer pathsW :=
  .objectArray (n := 0) (L := [.alt pathsFlags pathsStr (fun v : BitVec 8 => v == 0) false (deFlagsW .strict ⟨[(b!"a", 1)], c%'|', true⟩) deStrW]) _
    (by intro x hx y hy; simp only [List.mem_cons, List.not_mem_nil, or_false] at hx; subst hx; simp [WSlot.ones] at hy)
    (by intro _ _ _ _; omega)
    (by
      intro x hx y hy
      simp only [List.mem_cons, List.not_mem_nil, or_false] at hx
      subst hx
      simp only [WSlot.alts, List.mem_cons, List.not_mem_nil, or_false] at hy
      rcases hy with rfl | rfl
      · exact .plain _ (.flags _)
      · exact .plain _ .str)

/-- A vector of the alternatives, or a number. -/
def pathsOrInt : WSlot (List (BitVec 8 × Bytes) × Int) :=
  .alt ⟨b!"v", (·.1), fun v t => (v, t.2), arraySer (seqColl _) pathsSer⟩ ⟨b!"v", (·.2), fun v t => (t.1, v), intSer .strict .int⟩
    (fun v : List (BitVec 8 × Bytes) => v.isEmpty) true (deSeqW (seqColl _) pathsSer pathsW c%'[' c%']') (deIntW .strict .int)

theorem pathsOrInt_counted (strict : Bool) : CountedIf .strict 2 (objectSer .strict strict ([], 0) [pathsOrInt.slot.toMember])
    (deObjectW .strict strict ([], 0) [pathsOrInt.de]) :=
  .object (n := 1) (L := [pathsOrInt]) strict _
    (by intro x hx y hy; simp only [List.mem_cons, List.not_mem_nil, or_false] at hx; subst hx; simp [WSlot.ones, pathsOrInt] at hy)
    (by intro _ _ _ _; omega)
    (by
      intro x hx y hy
      simp only [List.mem_cons, List.not_mem_nil, or_false] at hx
      subst hx
      simp only [pathsOrInt, WSlot.alts, List.mem_cons, List.not_mem_nil, or_false] at hy
      rcases hy with rfl | rfl
      · exact .array _ paths_countedIf
      · exact .plain _ (.int _))

example : ∃ C, ∀ v s e r k, deObjectW .strict false ([], 0) [pathsOrInt.de] v s e = .ok (r, k) → k ≤ C * (s.length + 1) ^ 3 :=
  C86_polynomial _ (pathsOrInt_counted false)

example : (deObjectW .strict false ([], 0) [pathsOrInt.de] ([], 5) b!"{\"v\":7}" .fresh >>= fun r => .ok r.1) =
    .ok (([], 7), [], .fresh) := by decide +kernel

example : (deObjectW .strict false ([], 0) [pathsOrInt.de] ([], 5) b!"{\"v\":[[\"a\"]]}" .fresh >>= fun r => .ok r.1) =
    .ok (([(1, [])], 0), [], .fresh) := by decide +kernel

/-! ### Descriptions that mention themselves. -/

section
variable {c : Cfg} {α : Type} {F : Ser α → Ser α} {FW : Ser α → DeW α → DeW α}

/-- C86. Counting changes nothing for a description that mentions itself. -/
theorem C86_recursive_same_result (h : CountedRec c α true F FW) (d v : α) (s : Bytes) (e : EPtr) :
    (recDeW F FW d v s e >>= fun r => .ok r.1) = recDe F d v s e := by
  obtain ⟨A, B, h⟩ := levelsW_within h
  have := h d (s.length + 1) s.length v s e (Nat.le_refl _)
  unfold recDeW recDe
  generalize levelsW F FW (unfinished d) (fun _ _ _ => .fuel) (s.length + 1) v s e = w at this ⊢
  generalize (levels F (unfinished d) (s.length + 1)).de v s e = o at this ⊢
  cases this <;> rfl

/-- C86. Without `member_if` the work of a description that mentions itself is linear in the length of the text, whatever the depth. -/
theorem C86_recursive_linear (h : CountedRec c α true F FW) :
    ∃ A B, ∀ d v s e v' p e' k, recDeW F FW d v s e = .ok ((v', p, e'), k) → k + A * p.length ≤ A * s.length + B := by
  obtain ⟨A, B, h⟩ := levelsW_within h
  refine ⟨A, B, fun d v s e v' p e' k hk => ?_⟩
  have := h d (s.length + 1) s.length v s e (Nat.le_refl _)
  unfold recDeW at hk
  rw [hk] at this
  generalize (levels F (unfinished d) (s.length + 1)).de v s e = o at this
  cases this with
  | ok h => exact h.2

end

/-! Trees: `treeF` of C83. -/
section
variable {β : Type}

/-- The members of a tree with their counted readers. -/
def treeWork (SB : Ser β) (WB : DeW β) : List (RecEntry (Tree β) (Tree β)) :=
  [⟨false, b!"value", Tree.value, fun v t => .node v t.kids, fun _ => SB, fun _ _ => WB⟩,
   ⟨false, b!"kids", Tree.kids, fun ks t => .node t.value ks, fun S => arraySer (seqColl _) (pointerSer S),
     fun S W => deSeqW (seqColl _) (pointerSer S) (dePointerW S W) c%'[' c%']'⟩]

/-- The counted reader of a tree. -/
def treeFW (c : Cfg) (SB : Ser β) (WB : DeW β) (S : Ser (Tree β)) (W : DeW (Tree β)) : DeW (Tree β) :=
  deObjectW c false (.node SB.dflt []) ((treeWork SB WB).map fun x => (x.wentry S W).de)

theorem tree_counted (c : Cfg) {SB : Ser β} {WB : DeW β} (h : Counted c SB WB) : CountedRec c (Tree β) true (treeF c SB) (treeFW c SB WB) :=
  .object (L := treeWork SB WB) false _ (by
    intro x hx
    simp only [treeWork, List.mem_cons, List.not_mem_nil, or_false] at hx
    rcases hx with rfl | rfl
    · exact .weaken (.other h)
    · exact .weaken (.array _ (.pointer .here)))

/-- C86. Trees are read in linear time. -/
theorem C86_tree (c : Cfg) {SB : Ser β} {WB : DeW β} (h : Counted c SB WB) :
    ∃ A B, ∀ v s e v' p e' k, recDeW (treeF c SB) (treeFW c SB WB) (.node SB.dflt []) v s e = .ok ((v', p, e'), k) →
      k + A * p.length ≤ A * s.length + B := by
  obtain ⟨A, B, h⟩ := C86_recursive_linear (tree_counted c h)
  exact ⟨A, B, fun v s e v' p e' k hk => h _ v s e v' p e' k hk⟩

end

example : ∃ A B, ∀ v s e v' p e' k, recDeW (treeF .strict boolSer) (treeFW .strict boolSer deBoolW) (.node false []) v s e = .ok ((v', p, e'), k) →
    k + A * p.length ≤ A * s.length + B := C86_tree .strict .bool

example : (recDeW (treeF .strict boolSer) (treeFW .strict boolSer deBoolW) (.node false []) (.node false [])
    b!"{\"value\":true,\"kids\":[null,{\"value\":false,\"kids\":[]}]}" .fresh >>= fun r => .ok (r.1.1.value, r.1.1.kids.length, r.1.2.1, r.1.2.2)) =
    .ok (true, 2, [], .fresh) := by decide +kernel

/-! ### A description that mentions itself in both alternatives of a `member_if`. -/

/-- It is one of the descriptions of C83. -/
theorem twiceF_recursive {f : Features} (hf : f.pointers = true) : Recursive .strict f twiceF .zero := by
  refine ⟨?_, fun _ _ => rfl⟩
  refine Scheme.objectArray _ [fun S => amemberIf (twiceOnly S) (twicePair S) (fun v : Option Twice => v.isNone) false] ?_
  intro m hm
  simp only [List.mem_cons, List.not_mem_nil, or_false] at hm
  subst hm
  refine SchemeA.memberIf b!"only" b!"pair" _ _ _ _ _ _ (.pointer hf .here) ?_
  refine .weaken (Scheme.objectArray (none, 0) [fun S => amember (twiceLeft S), fun _ => amember twiceTag] ?_) (fun _ => rfl) fun _ => rfl
  intro m hm
  simp only [List.mem_cons, List.not_mem_nil, or_false] at hm
  rcases hm with rfl | rfl
  · exact .member _ _ _ (.weaken (.pointer hf .here) (fun h => h) fun _ => rfl)
  · exact .member _ _ _ (.weaken (.other (.int _)) (fun _ => rfl) fun _ => rfl)

/-- C86. Counting changes nothing for this description either. -/
theorem C86_twice_same_result (v : Twice) (s : Bytes) (e : EPtr) :
    (recDeW twiceF twiceW .zero v s e >>= fun r => .ok r.1) = recDe twiceF .zero v s e := by
  obtain ⟨A, B, h⟩ := twiceLevel_same .zero (s.length + 4) (by omega) (s.length + 1)
  have := h v s e (by omega)
  unfold twiceLevel at this
  unfold recDeW recDe
  generalize levelsW twiceF twiceW (unfinished .zero) (fun _ _ _ => .fuel) (s.length + 1) v s e = w at this ⊢
  generalize (levels twiceF (unfinished .zero) (s.length + 1)).de v s e = o at this ⊢
  cases this <;> rfl

/-- C86. With `member_if` there is no such bound: a chain of `n + 1` nodes is written in `6n + 10` bytes, this text is read back as the chain
without an error, and reading it takes at least `2ⁿ` steps. -/
theorem C86_exponential (n : Nat) : ∃ t, t.length = 6 * n + 10 ∧ RecEmit twiceF .zero (twiceChain n) ⟨[], .back⟩ ⟨t, .back⟩ ∧
    ∀ v, recDe twiceF .zero v t .fresh = .ok (twiceChain n, [], .fresh) ∧
      ∃ k, recDeW twiceF twiceW .zero v t .fresh = .ok ((twiceChain n, [], .fresh), k) ∧ 2 ^ n ≤ k := by
  refine ⟨twiceText n, twiceText_length n, ⟨n + 1, by simpa using twice_written .zero n []⟩, fun v => ?_⟩
  obtain ⟨k, hk, h⟩ := twiceLevel_reads .zero n ((twiceText n).length + 1) (by rw [twiceText_length]; omega) v [] .fresh
  rw [List.append_nil] at h
  have h' : recDeW twiceF twiceW .zero v (twiceText n) .fresh = .ok ((twiceChain n, [], .fresh), k) := h
  refine ⟨?_, k, h', hk⟩
  rw [← C86_twice_same_result, h']
  rfl

theorem pow_outgrows (C m : Nat) : ∃ n, C * (6 * n + 10) ^ m < 2 ^ n := by
  have hb : ∃ a, C + m * (a + 4) ≤ 2 ^ a := by
    refine ⟨2 * (C + 2 * m + 4), ?_⟩
    generalize hb : C + 2 * m + 4 = b
    have h1 : b < 2 ^ b := Nat.lt_two_pow_self
    have h2 : (b + 1) * b ≤ 2 ^ b * 2 ^ b := Nat.mul_le_mul h1 (Nat.le_of_lt h1)
    rw [show 2 * b = b + b by omega, Nat.pow_add]
    refine Nat.le_trans ?_ h2
    have h3 : m * (b + b + 4) = 2 * m * b + 4 * m := by rw [Nat.mul_add, Nat.mul_add, Nat.mul_assoc, Nat.two_mul]; omega
    have h4 : (b + 1) * b = C * b + 2 * m * b + 4 * b + b := by
      rw [Nat.succ_mul]
      conv => lhs; lhs; lhs; rw [← hb]
      rw [Nat.add_mul, Nat.add_mul]
    rw [h3, h4]
    omega
  obtain ⟨a, ha⟩ := hb
  refine ⟨2 ^ a, ?_⟩
  have h1 : 6 * 2 ^ a + 10 ≤ 2 ^ (a + 4) := by
    rw [Nat.pow_add]
    have : 1 ≤ 2 ^ a := Nat.one_le_two_pow
    omega
  have h2 : (6 * 2 ^ a + 10) ^ m ≤ 2 ^ (m * (a + 4)) := by
    rw [Nat.mul_comm m, Nat.pow_mul]
    exact Nat.pow_le_pow_left h1 m
  have h3 : C < 2 ^ C := Nat.lt_two_pow_self
  calc C * (6 * 2 ^ a + 10) ^ m ≤ C * 2 ^ (m * (a + 4)) := Nat.mul_le_mul_left _ h2
    _ < 2 ^ C * 2 ^ (m * (a + 4)) := Nat.mul_lt_mul_of_pos_right h3 (Nat.pow_pos (by omega))
    _ = 2 ^ (C + m * (a + 4)) := (Nat.pow_add ..).symm
    _ ≤ 2 ^ 2 ^ a := Nat.pow_le_pow_right (by omega) ha

/-- C86. No polynomial in the length of the text bounds the work. -/
theorem C86_exponential_not_polynomial (C m : Nat) : ∃ t v k,
    recDeW twiceF twiceW .zero v t .fresh = .ok ((v, [], .fresh), k) ∧ C * t.length ^ m < k := by
  obtain ⟨n, hn⟩ := pow_outgrows C m
  obtain ⟨t, ht, _, h⟩ := C86_exponential n
  obtain ⟨_, k, hk, hle⟩ := h (twiceChain n)
  exact ⟨t, _, k, hk, by rw [ht]; omega⟩

example : RecEmit twiceF .zero (twiceChain 1) ⟨[], .back⟩ ⟨b!"[[[[null,0]],0]]", .back⟩ := ⟨2, (twice_written .zero 1 []).trans (by rfl)⟩
example : Recursive .strict .all twiceF .zero := twiceF_recursive rfl

end Wjson
