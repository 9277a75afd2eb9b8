import Verif.Spec.Room
import Verif.Proofs.Room
import Verif.Props.Stable
/-
C67: how much room the text of a value needs.
-/
namespace Wjson
open Spec

section
variable {c : Cfg} {α : Type} {S : Ser α} {v : α} {n : Nat}

/-- C67. The text of the value takes at most `n` bytes. -/
theorem C67_bound {ins : Bool} (h : Room c ins S v n) (m : Bytes) : ∃ t : Bytes, t.length ≤ n ∧ S.emit v ⟨m, .back⟩ = .ok ⟨m ++ t, .back⟩ := by
  obtain ⟨t, h1, h2⟩ := h.puts
  exact ⟨t, h1, by rw [h2 _ fun _ => rfl, Sink.puts_back]⟩

/-- C67. Writing through a raw pointer into a buffer with `n` free bytes is defined:
the text is written there, the bytes before and behind it are left alone, and the
position right behind the text is returned. -/
theorem C67_buffer (h : Room c false S v n) (used free : Bytes) (hn : n ≤ free.length) :
    ∃ t : Bytes, t.length ≤ n ∧ S.emit v ⟨[], .back⟩ = .ok ⟨t, .back⟩ ∧
      S.emit v ⟨used ++ free, .ptr used.length⟩ = .ok ⟨used ++ t ++ free.drop t.length, .ptr (used.length + t.length)⟩ := by
  obtain ⟨t, h1, h2⟩ := h.puts
  refine ⟨t, h1, by rw [h2 _ nofun, Sink.puts_back]; rfl, ?_⟩
  have := Sink.puts_ptr used (free.take t.length) (free.drop t.length) t (by rw [List.length_take]; omega)
  rw [List.append_assoc, List.take_append_drop] at this
  rw [h2 _ nofun, this]

/-- C67. A buffer shorter than the text is written beyond its end. -/
theorem C67_too_short (h : Room c false S v n) {t : Bytes} (ht : S.emit v ⟨[], .back⟩ = .ok ⟨t, .back⟩) (used free : Bytes)
    (hl : free.length < t.length) : S.emit v ⟨used ++ free, .ptr used.length⟩ = .ub := by
  obtain ⟨u, _, h2⟩ := h.puts
  rw [h2 _ nofun, Sink.puts_back] at ht
  have e : u = t := by simpa using ht
  subst e
  rw [h2 _ nofun]
  exact Sink.puts_ptr_full _ _ _ (by simp) (by simp; omega)

end

/-- C67. The bound for strings is reached at every length: a buffer of one byte less
is too short. -/
theorem C67_tight_str (n : Nat) : ∃ v t : Bytes, v.length = n ∧ t.length = 6 * n + 2 ∧ strSer.emit v ⟨[], .back⟩ = .ok ⟨t, .back⟩ := by
  have len : ∀ n, (strBody false (List.replicate n 1)).length = 6 * n := by
    intro n
    induction n with
    | zero => simp [strBody]
    | succ n ih =>
      rw [List.replicate_succ, strBody]
      simp only [Bool.false_and, Bool.false_eq_true, if_false]
      rw [if_pos (.inl (by decide)), List.length_append, ih, show (escByte 1).length = 6 from by decide]
      omega
  refine ⟨List.replicate n 1, c%'"' :: strBody false (List.replicate n 1) ++ b!"\"", by simp, by simp [len], ?_⟩
  show Sink.puts _ _ = _
  rw [Sink.puts_back]
  rfl

/-- C67. So is the one for the integer types: the smallest value of a signed type, the
largest of an unsigned one. -/
theorem C67_tight_int (c : Cfg) {ty : IntTy} (hs : ty.Std) :
    ∃ v t, ty.InRange v ∧ t.length = ty.textMax ∧ (intSer c ty).emit v ⟨[], .back⟩ = .ok ⟨t, .back⟩ := by
  have key : ∀ v, ty.InRange v → (intText v).length = ty.textMax →
      ∃ v t, ty.InRange v ∧ t.length = ty.textMax ∧ (intSer c ty).emit v ⟨[], .back⟩ = .ok ⟨t, .back⟩ := fun v hv hl =>
    ⟨v, intText v, hv, hl, by show emitInt ty v _ = _; rw [emitInt_writes hs hv, Sink.puts_back]; rfl⟩
  cases hsg : ty.signed with
  | false =>
    refine key ty.max ?_ ?_ <;> obtain ⟨b, sg⟩ := ty <;> subst hsg <;> rcases hs with h | h | h | h <;> cases h <;>
      (try unfold IntTy.InRange) <;> decide +kernel
  | true =>
    refine key ty.min ?_ ?_ <;> obtain ⟨b, sg⟩ := ty <;> subst hsg <;> rcases hs with h | h | h | h <;> cases h <;>
      (try unfold IntTy.InRange) <;> decide +kernel

/-- C67. The empty pointer is the exception: its text takes four bytes, and four are
not enough. -/
theorem C67_null_deviates {α : Type} (S : Ser α) (used free : Bytes) (h : free.length = 4) :
    (pointerSer S).emit none ⟨[], .back⟩ = .ok ⟨b!"null", .back⟩ ∧
    (pointerSer S).emit none ⟨used ++ free, .ptr used.length⟩ = .ub := by
  refine ⟨(C42_null S).1 [], C42_null_raw_pointer_short S _ _ (by simp; omega)⟩

/-! ### Examples -/

/-- Any settings with a name of at most 20 bytes and at most three sets of at most
five numbers, under keys of at most 8 bytes, fit into 1 KiB. -/
example (c : Cfg) (t : DemoSettings) (h1 : t.name.length ≤ 20) (h2 : IntTy.ushort.InRange t.port) (h3 : t.sets.length ≤ 3)
    (h4 : ∀ x ∈ t.sets, x.1.length ≤ 8 ∧ x.2.length ≤ 5 ∧ ∀ v ∈ x.2, IntTy.int.InRange v) : Room c false (demoSettingsSer c) t 1024 := by
  have std : IntTy.ushort.Std ∧ IntTy.int.Std := by unfold IntTy.Std; decide
  have sets : Room c false (demoSets c) t.sets (2 + 3 * (50 + 1 + 62 + 1)) := by
    refine .more (.dict (f := fun _ => 50) (g := fun _ => 62) ?_ ?_) ?_
    · intro x hx
      exact .more (.str _) (by have := (h4 x hx).1; omega)
    · intro x hx
      exact .more (.array (f := fun _ => 11) fun v hv => .int std.2 ((h4 x hx).2.2 v hv))
        (enclosed_le (N := 5) (k := 11) x.2 _ (fun _ _ => Nat.le_refl _) (h4 x hx).2.1)
    · exact enclosed_le t.sets _ (fun _ _ => Nat.le_refl _) h3
  have e : (demoSettings c).map (fun m => m.entry.toMember) =
      ([(member ⟨b!"name", (·.name), fun x t => { t with name := x }, strSer⟩, 4 + 3 + 122),
        (member ⟨b!"port", (·.port), fun x t => { t with port := x }, demoPort c⟩, 4 + 3 + 5),
        (memberP ⟨b!"sets", (·.sets), fun x t => { t with sets := x }, demoSets c⟩, 4 + 3 + 344)] : List (Member DemoSettings × Nat)).map
        Prod.fst := rfl
  unfold demoSettingsSer
  rw [e]
  refine .more (.object ?_) (by simp [enclosed])
  intro m hm
  simp only [List.mem_cons, List.not_mem_nil, or_false] at hm
  rcases hm with rfl | rfl | rfl
  · exact .member (.more (.str _) (by show 6 * t.name.length + 2 ≤ 122; omega))
  · exact .member (.int std.1 h2)
  · exact .memberP sets

example : (intSer .strict .schar).emit (-128) ⟨[0, 0, 0, 0], .ptr 0⟩ = .ok ⟨b!"-128", .ptr 4⟩ := by decide +kernel
example : (intSer .strict .schar).emit (-128) ⟨[0, 0, 0], .ptr 0⟩ = .ub := by decide +kernel
example : strSer.emit [1] ⟨[7, 0, 0, 0, 0, 0, 0, 0, 0, 9], .ptr 1⟩ = .ok ⟨7 :: b!"\"\\u0001\"" ++ [9], .ptr 9⟩ := by decide +kernel
example : strSer.emit [1] ⟨[7, 0, 0, 0, 0, 0, 0, 0], .ptr 1⟩ = .ub := by decide +kernel
example : (arraySer (seqColl Bool) boolSer).emit [false, false] ⟨List.replicate 13 0, .ptr 0⟩ = .ok ⟨b!"[false,false]", .ptr 13⟩ := by
  decide +kernel
example : Room .strict false (arraySer (seqColl Bool) boolSer) [false, false] 13 :=
  .array (f := fun _ => 5) fun _ _ => .bool _

/-- Intervals, sizes and empty pointers inside: a list of sizes, and a dictionary of pointers to intervals. -/
example (c : Cfg) (vs : List Int) (h : ∀ v ∈ vs, IntTy.long.InRange v) (hn : vs.length ≤ 10) :
    Room c true (arraySer (seqColl Int) (sizeSer c .long 1)) vs 232 :=
  .more (.array (f := fun _ => 22) fun v hv => .size rfl (by unfold IntTy.Std; decide) (by decide) (by unfold IntTy.InRange; decide) (h v hv)
    (by rw [Int.mul_one]; exact h v hv)) (enclosed_le (N := 10) (k := 22) vs _ (fun _ _ => Nat.le_refl _) hn)

example : Room .strict true (dictSer (seqColl (Bytes × Option Int)) strSer (pointerSer (timeSer .strict .int 1))) [(b!"a", some 90), (b!"b", none)] 78 := by
  refine .more (.dict (f := fun _ => 8) (g := fun x => if x.isSome then 32 else 4) ?_ ?_) (by decide)
  · intro x hx
    have hx : x = (b!"a", some 90) ∨ x = (b!"b", none) := by simpa [seqColl] using hx
    rcases hx with rfl | rfl <;> exact .str _
  · intro x hx
    have hx : x = (b!"a", some 90) ∨ x = (b!"b", none) := by simpa [seqColl] using hx
    rcases hx with rfl | rfl
    · exact .pointer (.time rfl (by unfold IntTy.Std; decide) (.inl rfl) (by unfold IntTy.InRange; decide) (.inl (by decide)))
    · exact .null rfl

end Wjson
