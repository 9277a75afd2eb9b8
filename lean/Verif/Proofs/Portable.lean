import Verif.Proofs.Described
/-
Writing through a raw pointer and through a back inserter.
-/
namespace Wjson
open Spec

/-- A write operation that does not depend on the kind of the output iterator:
it puts a fixed text, or is undefined. -/
def Port (f : Sink → Out Sink) : Prop := (∃ t, ∀ k, f k = k.puts t) ∨ ∀ k, f k = .ub

theorem Sink.puts_ub_or_ok (k : Sink) (t : Bytes) : k.puts t = .ub ∨ ∃ k', k.puts t = .ok k' := by
  induction t generalizing k with
  | nil => exact .inr ⟨k, rfl⟩
  | cons b t ih =>
    simp only [Sink.puts, Sink.put]
    cases k.it with
    | back => exact ih _
    | ptr i =>
      simp only
      split
      · exact ih _
      · exact .inl rfl

theorem Port.puts (t : Bytes) : Port fun k => k.puts t := .inl ⟨t, fun _ => rfl⟩

theorem Port.put (b : Byte) : Port fun k => k.put b := .inl ⟨[b], fun k => Sink.put_eq k b⟩

theorem Port.nop : Port fun k => .ok k := .inl ⟨[], fun _ => rfl⟩

theorem Port.ub : Port fun _ => .ub := .inr fun _ => rfl

theorem Port.bind {f g : Sink → Out Sink} (hf : Port f) (hg : Port g) : Port fun k => f k >>= g := by
  rcases hf with ⟨t, hf⟩ | hf
  · rcases hg with ⟨u, hg⟩ | hg
    · exact .inl ⟨t ++ u, fun k => by show (f k >>= g) = _; rw [hf, Sink.puts_bind _ _ _ u hg]⟩
    · refine .inr fun k => ?_
      show (f k >>= g) = _
      rw [hf]
      rcases Sink.puts_ub_or_ok k t with h | ⟨k', h⟩ <;> rw [h]
      · rfl
      · exact hg k'
  · exact .inr fun k => by show (f k >>= g) = _; rw [hf]; rfl

theorem Port.bindVal {α : Type} (x : Out α) (hx : x ≠ .fuel) {g : α → Sink → Out Sink} (hg : ∀ a, Port (g a)) :
    Port fun k => x >>= fun a => g a k := by
  cases x with
  | ok a => exact hg a
  | ub => exact .ub
  | fuel => exact absurd rfl hx

theorem Port.ite {P : Prop} [Decidable P] {f g : Sink → Out Sink} (hf : Port f) (hg : Port g) :
    Port fun k => if P then f k else g k := by
  by_cases h : P
  · simpa [h] using hf
  · simpa [h] using hg

theorem intDigits_no_fuel (cap : Nat) (neg : Bool) (v : Int) (buf : Bytes) : intDigits cap neg v buf ≠ .fuel := by
  fun_induction intDigits cap neg v buf with
  | case1 => simp
  | case2 => assumption
  | case3 => simp

theorem emitInt_port (ty : IntTy) (v : Int) : Port (emitInt ty v) := by
  refine Port.bindVal _ ?_ fun buf => .puts _
  split
  · simp
  · split
    · have := intDigits_no_fuel (intBufSize ty) true v []
      cases h : intDigits (intBufSize ty) true v [] with
      | ok b =>
        simp only [Out.bind_ok]
        split <;> simp
      | ub => simp
      | fuel => exact absurd h this
    · exact intDigits_no_fuel _ _ _ _

section
variable {α : Type} {S : Ser α}

theorem emitElems_port (h : ∀ v, Port (S.emit v)) (vs : List α) : Port (emitElems S vs) := by
  induction vs with
  | nil => exact .nop
  | cons v vs ih =>
    cases vs with
    | nil => exact h v
    | cons w l => exact .bind (h v) (.bind (.put _) ih)

theorem emitSeq_port {C : Type} (K : Coll α C) (L R : Byte) (h : ∀ v, Port (S.emit v)) (v : C) : Port (emitSeq K S L R v) :=
  .bind (.put _) (.bind (emitElems_port h _) (.put _))

theorem emitFix_port (L R : Byte) (h : ∀ v, Port (S.emit v)) (v : List α) : Port (emitFix S L R v) :=
  .bind (.put _) (.bind (emitElems_port h _) (.put _))

theorem emitField_port {κ ν : Type} {SK : Ser κ} {SV : Ser ν} (hk : ∀ v, Port (SK.emit v)) (hv : ∀ v, Port (SV.emit v))
    (v : κ × ν) : Port (emitField SK SV v) :=
  .bind (hk _) (.bind (.put _) (hv _))

theorem emitQuoted_port (serQ : Bool) (h : ∀ v, Port (S.emit v)) (v : α) : Port (emitQuoted S serQ v) := by
  cases serQ with
  | false => exact h v
  | true =>
    refine Port.bindVal _ ?_ fun b => .puts _
    rcases h v with ⟨t, ht⟩ | h
    · rw [ht, Sink.puts_back]; simp
    · rw [h]; simp

end

section
variable {τ : Type}

theorem emitMember_port (m : MRef τ) (h : ∀ v, Port (m.ser.emit v)) (t : τ) : Port (emitMember m t) :=
  .bind (.bind (.put _) (.bind (.puts _) (.bind (.put _) (.put _)))) (h _)

theorem emitMembers_port (L : List (Member τ)) (h : ∀ m ∈ L, ∀ t, Port (m.emit t)) (t : τ) : Port (emitMembers L t) := by
  induction L with
  | nil => exact .nop
  | cons m L ih =>
    cases L with
    | nil => exact h m (by simp) t
    | cons m' L => exact .bind (h m (by simp) t) (.bind (.put _) (ih fun x hx => h x (by simp [hx])))

theorem emitObject_port (L : List (Member τ)) (h : ∀ m ∈ L, ∀ t, Port (m.emit t)) (t : τ) : Port (emitObject L t) :=
  .bind (.put _) (.bind (emitMembers_port L h t) (.put _))

theorem emitAMembers_port (L : List (AMember τ)) (h : ∀ m ∈ L, ∀ t, Port (m.emit t)) (t : τ) : Port (emitAMembers L t) := by
  induction L with
  | nil => exact .nop
  | cons m L ih =>
    cases L with
    | nil => exact h m (by simp) t
    | cons m' L => exact .bind (h m (by simp) t) (.bind (.put _) (ih fun x hx => h x (by simp [hx])))

theorem emitObjectArray_port (L : List (AMember τ)) (h : ∀ m ∈ L, ∀ t, Port (m.emit t)) (t : τ) : Port (emitObjectArray L t) :=
  .bind (.put _) (.bind (emitAMembers_port L h t) (.put _))

end

/-- Only the building blocks that keep the iterator they advance. -/
def Features.portable : Features := ⟨false, false, false, true⟩

mutual

theorem Described.port {c : Cfg} : ∀ {α : Type} {S : Ser α}, Described c .portable S → ∀ v, Port (S.emit v)
  | _, _, .int ty, v => emitInt_port ty v
  | _, _, .bool, v => .ite (.puts _) (.puts _)
  | _, _, .str, v => .puts _
  | _, _, .chars N, v => .puts _
  | _, _, .float F R, v => .puts _
  | _, _, @Described.enum _ _ _ _ strict dflt L, v => .inl ⟨_, emitEnum_writes L v⟩
  | _, _, .flags F, v => .inl ⟨_, emitFlags_writes F v⟩
  | _, _, .raw, v => .ite (.puts _) (.puts _)
  | _, _, .rawQuoted _ _ h, _ => by cases h
  | _, _, .quoted serQ _ _ h, v => emitQuoted_port serQ h.port v
  | _, _, .pointer h _, _ => by cases h
  | _, _, .memberValue d g s h, v => h.port _
  | _, _, .array K h, v => emitSeq_port K _ _ h.port v
  | _, _, .fixed k N _ h, v => emitFix_port _ _ h.port v
  | _, _, .field h h', v => emitField_port h.port h'.port v
  | _, _, .dict K h h', v => emitSeq_port K (S := fieldSer _ _) _ _ (emitField_port h.port h'.port) v
  | _, _, .object strict dflt L h, v => emitObject_port L (fun m hm => (h m hm).port) v
  | _, _, .objectArray dflt L h, v => emitObjectArray_port L (fun m hm => (h m hm).port) v
  | _, _, .time ty fr h, _ => by cases h
  | _, _, .size ty m h, _ => by cases h

theorem DescribedM.port {c : Cfg} : ∀ {τ : Type} {m : Member τ}, DescribedM c .portable m → ∀ t, Port (m.emit t)
  | _, _, .member m h, t => emitMember_port m h.port t
  | _, _, .memberP m h, t => emitMember_port m h.port t
  | _, _, .memberIf l r i RU h h', t => .ite (emitMember_port l h.port t) (emitMember_port r h'.port t)

theorem DescribedA.port {c : Cfg} : ∀ {τ : Type} {m : AMember τ}, DescribedA c .portable m → ∀ t, Port (m.emit t)
  | _, _, .member m h, t => h.port _
  | _, _, .memberP m h, t => h.port _
  | _, _, .memberIf l r i RU h h', t => .ite (h.port _) (h'.port _)

end

end Wjson
