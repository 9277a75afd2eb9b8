import Verif.Spec.Serial
/-
Facts about output iterators.
-/
namespace Wjson

@[simp] theorem Sink.puts_nil (k : Sink) : k.puts [] = .ok k := rfl

theorem Sink.puts_append (k : Sink) (a b : Bytes) : k.puts (a ++ b) = (k.puts a >>= fun k => k.puts b) := by
  induction a generalizing k with
  | nil => rfl
  | cons x a ih =>
    simp only [List.cons_append, Sink.puts, Out.bind_assoc]
    congr 1
    funext k
    exact ih k

theorem Sink.puts_cons (k : Sink) (b : Byte) (t : Bytes) : k.puts (b :: t) = (k.put b >>= fun k => k.puts t) := rfl

theorem Sink.put_eq (k : Sink) (b : Byte) : k.put b = k.puts [b] := by
  simp only [Sink.puts]
  cases k.put b <;> rfl

theorem Sink.puts_bind (k : Sink) (a : Bytes) (f : Sink → Out Sink) (b : Bytes) (h : ∀ k, f k = k.puts b) :
    (k.puts a >>= f) = k.puts (a ++ b) := by
  rw [Sink.puts_append]
  congr 1
  funext k
  exact h k

theorem Sink.put_bind (k : Sink) (a : Byte) (f : Sink → Out Sink) (b : Bytes) (h : ∀ k, f k = k.puts b) :
    (k.put a >>= f) = k.puts (a :: b) := by
  rw [Sink.put_eq]
  exact Sink.puts_bind k [a] f b h

/-- A back inserter appends. -/
theorem Sink.puts_back (m t : Bytes) : (Sink.mk m .back).puts t = .ok ⟨m ++ t, .back⟩ := by
  induction t generalizing m with
  | nil => simp
  | cons b t ih => simp [Sink.puts, Sink.put, ih]

/-- A raw pointer overwrites the bytes from its position on. -/
theorem Sink.puts_ptr (m0 m1 m2 t : Bytes) (h : m1.length = t.length) :
    (Sink.mk (m0 ++ m1 ++ m2) (.ptr m0.length)).puts t = .ok ⟨m0 ++ t ++ m2, .ptr (m0.length + t.length)⟩ := by
  induction t generalizing m0 m1 with
  | nil =>
    have : m1 = [] := by simpa using h
    simp [this]
  | cons b t ih =>
    cases m1 with
    | nil => simp at h
    | cons x m1 =>
      have hl : m0.length < (m0 ++ x :: m1 ++ m2).length := by simp
      have hs : (m0 ++ x :: m1 ++ m2).set m0.length b = (m0 ++ [b]) ++ m1 ++ m2 := by simp
      simp only [Sink.puts, Sink.put, hl, if_true, Out.bind_ok, hs]
      have := ih (m0 ++ [b]) m1 (by simpa using h)
      simp only [List.length_append, List.length_cons, List.length_nil] at this
      rw [this]
      simp [Nat.add_comm, Nat.add_left_comm]

/-- Without room a raw pointer write is undefined. -/
theorem Sink.puts_ptr_full (m t : Bytes) (i : Nat) (hi : i ≤ m.length) (h : m.length < i + t.length) :
    (Sink.mk m (.ptr i)).puts t = .ub := by
  induction t generalizing m i with
  | nil => simp at h; omega
  | cons b t ih =>
    simp only [Sink.puts, Sink.put]
    by_cases hl : i < m.length
    · rw [if_pos hl, Out.bind_ok]
      exact ih _ _ (by simpa using Nat.succ_le_of_lt hl) (by simp at h ⊢; omega)
    · rw [if_neg hl]; rfl


theorem Writes.unique {α : Type} {em : Emit α} {v : α} {t t' : Bytes} (h : Writes em v t) (h' : Writes em v t') :
    t = t' := by
  have := (h ⟨[], .back⟩).symm.trans (h' ⟨[], .back⟩)
  simpa [Sink.puts_back] using this

end Wjson
