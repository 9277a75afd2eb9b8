import Verif.Proofs.WorkIf3
import Verif.Spec.Recursive
/-
Lemmas for C86: the description that mentions itself in both alternatives.
-/
namespace Wjson
open Spec

/-- The pointer reads `U` as `u`, and it takes at least `K`. -/
def PtrReads (S : Ser Twice) (W : DeW Twice) (U : Bytes) (u : Option Twice) (K : Nat) : Prop :=
  (∃ b U', U = b :: U' ∧ (b = 91 ∨ b = 110)) ∧
  ∀ v q e, ∃ k, K ≤ k ∧ dePointerW S W v (U ++ q) e = .ok ((u, q, e), k)

/-- The counted alternatives. -/
def twiceAlt (S : Ser Twice) (W : DeW Twice) : DeW Twice := deAMemberIfW (twiceOnly S) (twicePair S) (dePointerW S W) (twicePairW S W)

/-- `null` for the pair. -/
theorem twicePair_null (S : Ser Twice) (W : DeW Twice) (t : Twice) :
    ∃ k, readNullW (twicePair S) (twicePairW S W) t = .ok (.node t.only none 0, k) := ⟨_, rfl⟩

/-- `null` for the pointer. -/
theorem twiceOnly_null (S : Ser Twice) (W : DeW Twice) (t : Twice) :
    ∃ k, readNullW (twiceOnly S) (dePointerW S W) t = .ok (.node none t.pair.1 t.pair.2, k) := ⟨_, rfl⟩

/-- The first alternative succeeds. -/
theorem twiceAlt_only {S : Ser Twice} {W : DeW Twice} {v : Twice} {s q : Bytes} {u : Option Twice} {k : Nat} (e : EPtr)
    (h : dePointerW S W v.only s .fresh = .ok ((u, q, .fresh), k)) : ∃ j, k ≤ j ∧ twiceAlt S W v s e = .ok ((.node u none 0, q, e), j) := by
  obtain ⟨j, hj⟩ := twicePair_null S W (.node u v.pair.1 v.pair.2)
  have h1 : deAMemberW (twiceOnly S) (twiceOnly S).get (dePointerW S W) v s .fresh = .ok ((.node u v.pair.1 v.pair.2, q, .fresh), k + 1) := by
    show (dePointerW S W v.only s .fresh >>= _) = _
    rw [h]
    rfl
  refine ⟨k + 1 + j + 1, by omega, ?_⟩
  show (deAMemberW (twiceOnly S) (twiceOnly S).get (dePointerW S W) v s .fresh >>= _) = _
  rw [h1]
  simp only [Out.bind_ok]
  rw [if_pos (by rfl), hj]
  rfl

/-- The first alternative fails, the second succeeds. -/
theorem twiceAlt_pair {S : Ser Twice} {W : DeW Twice} {v : Twice} {s q : Bytes} {u : Option Twice} {x : JError} {p : Option Twice × Int} {k k' : Nat}
    {e : EPtr} (h : dePointerW S W v.only s .fresh = .ok ((u, [], .obj x), k)) (hx : x.status = true)
    (h' : twicePairW S W v.pair s e = .ok ((p, q, e), k')) :
    ∃ j, k + k' ≤ j ∧ twiceAlt S W v s e = .ok ((.node none p.1 p.2, q, e), j) := by
  obtain ⟨j, hj⟩ := twiceOnly_null S W (.node u v.pair.1 v.pair.2)
  have h1 : deAMemberW (twiceOnly S) (twiceOnly S).get (dePointerW S W) v s .fresh = .ok ((.node u v.pair.1 v.pair.2, [], .obj x), k + 1) := by
    show (dePointerW S W v.only s .fresh >>= _) = _
    rw [h]
    rfl
  have h2 : deAMemberW (twicePair S) (twicePair S).get (twicePairW S W) (.node none v.pair.1 v.pair.2) s e = .ok ((.node none p.1 p.2, q, e), k' + 1) := by
    show (twicePairW S W v.pair s e >>= _) = _
    rw [h']
    rfl
  refine ⟨k + 1 + j + (k' + 1) + 1, by omega, ?_⟩
  show (deAMemberW (twiceOnly S) (twiceOnly S).get (dePointerW S W) v s .fresh >>= _) = _
  rw [h1]
  simp only [Out.bind_ok, EPtr.failed, hx]
  rw [if_neg (by simp), hj]
  simp only [Out.bind_ok]
  show (deAMemberW (twicePair S) (twicePair S).get (twicePairW S W) (.node none v.pair.1 v.pair.2) s e >>= _) = _
  rw [h2]
  rfl

/-- A structure that is closed. -/
theorem objectArrayW_closed {τ : Type} {d : τ} {L : List (DeW τ)} {v t : τ} {b : Byte} {r q : Bytes} {e e' : EPtr} {k : Nat} (hb : b = 91 ∨ b = 110)
    (h : deAMembersW L v (b :: r) e = .ok ((t, 93 :: q, e'), k)) : ∃ j, k ≤ j ∧ deObjectArrayW d L v (91 :: b :: r) e = .ok ((t, q, e'), j) := by
  have h1 : ∃ j, k ≤ j ∧ objectArrayBodyW L v (b :: r) e = .ok ((t, q, e'), j) := by
    rcases hb with rfl | rfl
    all_goals
      refine ⟨2 + k + 2, by omega, ?_⟩
      show (deAMembersW L v _ e >>= _) = _
      rw [h]
      rfl
  obtain ⟨j, hj, h1⟩ := h1
  refine ⟨j + 2, by omega, ?_⟩
  show (objectArrayBodyW L v (b :: r) e >>= _) = _
  rw [h1]
  rfl

/-- A structure that is not closed where it should be. -/
theorem objectArrayW_open {τ : Type} {d : τ} {L : List (DeW τ)} {v t : τ} {b : Byte} {r : Bytes} {e e' : EPtr} {k : Nat} (hb : b = 91 ∨ b = 110)
    (h : deAMembersW L v (b :: r) e = .ok ((t, [], e'), k)) :
    ∃ j, k ≤ j ∧ deObjectArrayW d L v (91 :: b :: r) e = .ok ((t, [], createError .UnexpectedEndFragment e'), j) := by
  have h1 : ∃ j, k ≤ j ∧ objectArrayBodyW L v (b :: r) e = .ok ((t, [], createError .UnexpectedEndFragment e'), j) := by
    rcases hb with rfl | rfl
    all_goals
      refine ⟨2 + k, by omega, ?_⟩
      show (deAMembersW L v _ e >>= _) = _
      rw [h]
      rfl
  obtain ⟨j, hj, h1⟩ := h1
  refine ⟨j + 2, by omega, ?_⟩
  show (objectArrayBodyW L v (b :: r) e >>= _) = _
  rw [h1]
  rfl

/-- The last entry of a list. -/
theorem amembersW_last {τ : Type} {m : DeW τ} {v t : τ} {s q : Bytes} {e e' : EPtr} {k : Nat} (h : m v s e = .ok ((t, 93 :: q, e'), k)) :
    ∃ j, k ≤ j ∧ deAMembersW [m] v s e = .ok ((t, 93 :: q, e'), j) := by
  refine ⟨k + 2 + 1, by omega, ?_⟩
  rw [deAMembersW, h]
  rfl

/-- Something after the last entry of a list. -/
theorem amembersW_more {τ : Type} {m : DeW τ} {v t : τ} {s q : Bytes} {e e' : EPtr} {k : Nat} (h : m v s e = .ok ((t, 44 :: 48 :: q, e'), k)) :
    ∃ j, k ≤ j ∧ deAMembersW [m] v s e = .ok ((t, [], createError .ExpectedOf e' (some b!"]") ((48 :: q).length : Nat)), j) := by
  refine ⟨k + 2 + 2 + 1 + 1, by omega, ?_⟩
  rw [deAMembersW, h]
  rfl

/-- An entry that is followed by a zero. -/
theorem amembersW_next {τ : Type} {m m' : DeW τ} {v t t' : τ} {s q : Bytes} {e : EPtr} {k k' : Nat} (h : m v s e = .ok ((t, 44 :: 48 :: 93 :: q, e), k))
    (h' : m' t (48 :: 93 :: q) e = .ok ((t', 93 :: q, e), k')) : ∃ j, k ≤ j ∧ deAMembersW [m, m'] v s e = .ok ((t', 93 :: q, e), j) := by
  obtain ⟨j, _, h'⟩ := amembersW_last h'
  refine ⟨k + 2 + 2 + j + 1, by omega, ?_⟩
  rw [deAMembersW, h]
  show (deAMembersW [m'] t (48 :: 93 :: q) e >>= _) = _
  rw [h']
  rfl

/-- `[U,0]` is not a node. -/
theorem twiceW_wrong {S : Ser Twice} {W : DeW Twice} {U : Bytes} {u : Option Twice} {K : Nat} (h : PtrReads S W U u K) (v : Twice) (q : Bytes) :
    ∃ v' x k, twiceW S W v (91 :: (U ++ 44 :: 48 :: 93 :: q)) .fresh = .ok ((v', [], .obj x), k) ∧ x.status = true ∧ K ≤ k := by
  obtain ⟨⟨b, U', rfl, hb⟩, h⟩ := h
  obtain ⟨k, hk, hr⟩ := h v.only (44 :: 48 :: 93 :: q) .fresh
  obtain ⟨j, hj, hm⟩ := twiceAlt_only .fresh hr
  obtain ⟨i, hi, ha⟩ := amembersW_more hm
  obtain ⟨l, hl, ho⟩ := objectArrayW_open (d := Twice.zero) hb ha
  exact ⟨_, _, l, ho, rfl, by omega⟩

/-- `[U,0]` is a pair. -/
theorem twicePairW_right {S : Ser Twice} {W : DeW Twice} {U : Bytes} {u : Option Twice} {K : Nat} (h : PtrReads S W U u K) (p : Option Twice × Int)
    (q : Bytes) (e : EPtr) : ∃ k, K ≤ k ∧ twicePairW S W p (91 :: (U ++ 44 :: 48 :: 93 :: q)) e = .ok (((u, 0), q, e), k) := by
  obtain ⟨⟨b, U', rfl, hb⟩, h⟩ := h
  obtain ⟨k, hk, hr⟩ := h p.1 (44 :: 48 :: 93 :: q) e
  have h1 : deAMemberW (twiceLeft S) (twiceLeft S).get (dePointerW S W) p (b :: U' ++ 44 :: 48 :: 93 :: q) e = .ok (((u, p.2), 44 :: 48 :: 93 :: q, e), k + 1) := by
    show (dePointerW S W p.1 (b :: U' ++ 44 :: 48 :: 93 :: q) e >>= _) = _
    rw [hr]
    rfl
  have h2 : ∃ j, deAMemberW twiceTag twiceTag.get (deIntW .strict .int) (u, p.2) (48 :: 93 :: q) e = .ok (((u, 0), 93 :: q, e), j) := ⟨_, rfl⟩
  obtain ⟨j, h2⟩ := h2
  obtain ⟨i, hi, ha⟩ := amembersW_next h1 h2
  obtain ⟨l, hl, ho⟩ := objectArrayW_closed (d := ((none, 0) : Option Twice × Int)) hb ha
  exact ⟨l, by omega, ho⟩

/-- `[[U,0]]` is read twice: once to find that `[U,0]` is not a node, and again as a pair. -/
theorem twiceW_node {S S' : Ser Twice} {W : DeW Twice} {U : Bytes} {u : Option Twice} {K K' : Nat} (h : PtrReads S W U u K)
    (h' : PtrReads S' (twiceW S W) U u K') (v : Twice) (q : Bytes) (e : EPtr) :
    ∃ k, K + K' ≤ k ∧ twiceW S' (twiceW S W) v (91 :: 91 :: (U ++ 44 :: 48 :: 93 :: 93 :: q)) e = .ok ((.node none u 0, q, e), k) := by
  obtain ⟨v', x, k1, h1, hx, hk1⟩ := twiceW_wrong h S'.dflt (93 :: q)
  have h2 : dePointerW S' (twiceW S W) v.only (91 :: (U ++ 44 :: 48 :: 93 :: 93 :: q)) .fresh = .ok ((some v', [], .obj x), k1 + 1) := by
    show (twiceW S W S'.dflt (91 :: (U ++ 44 :: 48 :: 93 :: 93 :: q)) .fresh >>= _) = _
    rw [h1]
    rfl
  obtain ⟨k3, hk3, h3⟩ := twicePairW_right h' v.pair (93 :: q) e
  obtain ⟨j, hj, hm⟩ := twiceAlt_pair h2 hx h3
  obtain ⟨i, hi, ha⟩ := amembersW_last hm
  obtain ⟨l, hl, ho⟩ := objectArrayW_closed (d := Twice.zero) (.inl rfl) ha
  exact ⟨l, by omega, ho⟩

/-- `null` is read by the pointer. -/
theorem ptrReads_null (S : Ser Twice) (W : DeW Twice) : PtrReads S W b!"null" none 1 := by
  refine ⟨⟨_, _, rfl, .inr rfl⟩, fun v q e => ⟨5, by omega, rfl⟩⟩

theorem twiceText_head (n : Nat) : ∃ U', twiceText n = 91 :: U' := by
  cases n with
  | zero => exact ⟨_, rfl⟩
  | succ n => exact ⟨_, rfl⟩

/-- Level `j` with its counted reader. -/
def twiceLevel (d : Twice) (j : Nat) : DeW Twice := levelsW twiceF twiceW (unfinished d) (fun _ _ _ => .fuel) j

theorem twiceLevel_reads (d : Twice) (n : Nat) : ∀ j, 2 * n + 2 ≤ j → ∀ v q e, ∃ k, 2 ^ n ≤ k ∧
    twiceLevel d j v (twiceText n ++ q) e = .ok ((twiceChain n, q, e), k) := by
  induction n with
  | zero =>
    intro j hj v q e
    obtain ⟨j, rfl⟩ := Nat.exists_eq_add_of_le' hj
    obtain ⟨k, hk, h⟩ := twiceW_node (ptrReads_null (levels twiceF (unfinished d) j) (twiceLevel d j))
      (ptrReads_null (levels twiceF (unfinished d) (j + 1)) _) v q e
    exact ⟨k, by simp only [Nat.pow_zero]; omega, h⟩
  | succ n ih =>
    intro j hj v q e
    obtain ⟨j, rfl⟩ := Nat.exists_eq_add_of_le' (Nat.le_trans (show 2 ≤ 2 * (n + 1) + 2 by omega) hj)
    have key : ∀ i, 2 * n + 2 ≤ i → PtrReads (levels twiceF (unfinished d) i) (twiceLevel d i) (twiceText n) (some (twiceChain n)) (2 ^ n) := by
      intro i hi
      obtain ⟨U', hU⟩ := twiceText_head n
      refine ⟨⟨_, _, hU, .inl rfl⟩, fun v q e => ?_⟩
      obtain ⟨k, hk, h⟩ := ih i hi (levels twiceF (unfinished d) i).dflt q e
      refine ⟨k + 1, by omega, ?_⟩
      rw [hU] at h ⊢
      show (twiceLevel d i (levels twiceF (unfinished d) i).dflt (91 :: U' ++ q) e >>= _) = _
      rw [h]
      rfl
    obtain ⟨k, hk, h⟩ := twiceW_node (key j (by omega)) (key (j + 1) (by omega)) v q e
    refine ⟨k, by rw [Nat.pow_succ]; omega, ?_⟩
    have ht : twiceText (n + 1) ++ q = 91 :: 91 :: (twiceText n ++ 44 :: 48 :: 93 :: 93 :: q) := by
      simp [twiceText]
    rw [ht]
    exact h

theorem twiceText_length (n : Nat) : (twiceText n).length = 6 * n + 10 := by
  induction n with
  | zero => rfl
  | succ n ih => simp only [twiceText, List.length_append, ih]; simp; omega

/-- Counting changes nothing at any level. -/
theorem twiceLevel_same (d : Twice) (N : Nat) (hN : 4 ≤ N) (j : Nat) :
    ∃ A B, Within N A B (twiceLevel d j) (levels twiceF (unfinished d) j).de := by
  induction j with
  | zero => exact ⟨0, 0, fun _ _ _ _ => .fuel⟩
  | succ j ih =>
    obtain ⟨A, B, h⟩ := ih
    generalize hS : levels twiceF (unfinished d) j = S at h
    have hp : Within N (A + 3 * (B + 20)) (B + 5) (dePointerW S (twiceLevel d j)) (pointerSer S).de :=
      (dePointerW_within h).mono (by omega) (Nat.le_refl _)
    have hi : Within N (A + 3 * (B + 20)) 4 (deIntW .strict .int) (intSer .strict .int).de := ((deIntW_lin .strict .int).within N).mono (by omega) (by omega)
    have hpair : Within N (A + 3 * (B + 20)) (B + 5) (twicePairW S (twiceLevel d j)) (twicePair S).ser.de := by
      have := deObjectArrayW_within (N := N) (A := A + 3 * (B + 20)) (B := B + 6) (f := fun x : WEntry (Option Twice × Int) => x.deA)
        (g := fun x => x.entry.toAMember) ((none, 0) : Option Twice × Int)
        [⟨.mem (twiceLeft S), dePointerW S (twiceLevel d j)⟩, ⟨.mem twiceTag, deIntW .strict .int⟩]
        (by
          intro x hx
          simp only [List.mem_cons, List.not_mem_nil, or_false] at hx
          rcases hx with rfl | rfl
          · exact aentry_within hp
          · exact (aentry_within (x := ⟨.mem twiceTag, deIntW .strict .int⟩) hi).mono (Nat.le_refl _) (by omega))
        (by simp only [List.length_cons, List.length_nil]; omega)
      exact this.mono (Nat.le_refl _) (by omega)
    have halt := deAMemberIfW_within (twiceOnly S) (twicePair S) hN hp hpair
    generalize altFee N (A + 3 * (B + 20)) (B + 5) 0 = X at halt
    refine ⟨A + 3 * (B + 20) + X + 20, 3, ?_⟩
    have := deObjectArrayW_within (N := N) (A := A + 3 * (B + 20) + X + 20) (B := X) (f := fun _ : Unit => twiceAlt S (twiceLevel d j))
      (g := fun _ => amemberIf (twiceOnly S) (twicePair S) (fun v : Option Twice => v.isNone) false) Twice.zero [()]
      (fun _ _ => halt.mono (by omega) (Nat.le_refl _)) (by simp only [List.length_cons, List.length_nil]; omega)
    show Within N _ 3 (twiceW (levels twiceF (unfinished d) j) (twiceLevel d j)) (twiceF (levels twiceF (unfinished d) j)).de
    rw [hS]
    exact this

theorem twice_emit {S : Ser Twice} {u : Option Twice} {U : Bytes} (h : ∀ m, (pointerSer S).emit u ⟨m, .back⟩ = .ok ⟨m ++ U, .back⟩) (m : Bytes) :
    (twiceF S).emit (.node none u 0) ⟨m, .back⟩ = .ok ⟨m ++ (b!"[[" ++ U ++ b!",0]]"), .back⟩ := by
  have hi : ∀ m : Bytes, (intSer .strict .int).emit 0 ⟨m, .back⟩ = .ok ⟨m ++ b!"0", .back⟩ := fun m => by rfl
  have hp : ∀ (m : Bytes) (b : Byte), (⟨m, .back⟩ : Sink).put b = .ok ⟨m ++ [b], .back⟩ := fun m b => rfl
  simp only [twiceF, objectArraySer, emitObjectArray, emitAMembers, amemberIf, amember, twiceOnly, twicePair, twiceLeft, twiceTag, Twice.only,
    Twice.pair, Option.isNone_none, Bool.not_true, Bool.false_eq_true, if_false, hp, Out.bind_ok, h, hi]
  simp

theorem twice_written (d : Twice) (n : Nat) : ∀ m, (levels twiceF (unfinished d) (n + 1)).emit (twiceChain n) ⟨m, .back⟩ = .ok ⟨m ++ twiceText n, .back⟩ := by
  induction n with
  | zero =>
    intro m
    refine twice_emit (S := unfinished d) (u := none) (U := b!"null") (fun m => ?_) m
    show Out.ok (⟨m ++ b!"n" ++ b!"u" ++ b!"l" ++ b!"l", .back⟩ : Sink) = _
    simp
  | succ n ih => exact twice_emit (S := levels twiceF (unfinished d) (n + 1)) (u := some (twiceChain n)) ih

end Wjson
