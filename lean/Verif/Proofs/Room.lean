import Verif.Spec.Room
import Verif.Proofs.Portable
import Verif.Proofs.Integer
import Verif.Proofs.RoomUnits
import Verif.Props.Misc
/-
Bounds for the length of what is written.
-/
namespace Wjson
open Spec

/-- Puts a text of at most `n` bytes, whatever the output; with `ins`, if it is an inserter. -/
def Puts (ins : Bool) (n : Nat) (f : Sink → Out Sink) : Prop := ∃ t, t.length ≤ n ∧ ∀ k, (ins = true → k.it = .back) → f k = k.puts t

section
variable {ins : Bool}

theorem Puts.puts (t : Bytes) : Puts ins t.length fun k => k.puts t := ⟨t, Nat.le_refl _, fun _ _ => rfl⟩

theorem Puts.put (b : Byte) : Puts ins 1 fun k => k.put b := ⟨[b], Nat.le_refl _, fun k _ => Sink.put_eq k b⟩

theorem Puts.nop : Puts ins 0 fun k => .ok k := ⟨[], Nat.le_refl _, fun _ _ => rfl⟩

theorem Puts.mono {m n : Nat} {f : Sink → Out Sink} (h : Puts ins m f) (hn : m ≤ n) : Puts ins n f :=
  h.imp fun _ h => ⟨Nat.le_trans h.1 hn, h.2⟩

theorem Puts.bind {m n : Nat} {f g : Sink → Out Sink} (hf : Puts ins m f) (hg : Puts ins n g) : Puts ins (m + n) fun k => f k >>= g := by
  obtain ⟨t, h1, hf⟩ := hf
  obtain ⟨u, h2, hg⟩ := hg
  refine ⟨t ++ u, by simp; omega, fun k hk => ?_⟩
  show (f k >>= g) = _
  rw [hf k hk]
  cases ins with
  | false => exact Sink.puts_bind _ _ _ u fun k => hg k nofun
  | true =>
    obtain ⟨m, it⟩ := k
    obtain rfl : it = .back := hk rfl
    rw [Sink.puts_back, Sink.puts_back, Out.bind_ok, hg _ fun _ => rfl, Sink.puts_back, List.append_assoc]

theorem Puts.of_back {n : Nat} {f : Sink → Out Sink} (hi : ins = true)
    (h : ∃ t : Bytes, t.length ≤ n ∧ ∀ m, f ⟨m, .back⟩ = .ok ⟨m ++ t, .back⟩) : Puts ins n f := by
  obtain ⟨t, h1, h2⟩ := h
  refine ⟨t, h1, fun k hk => ?_⟩
  obtain ⟨m, it⟩ := k
  obtain rfl : it = .back := hk hi
  rw [h2, Sink.puts_back]

theorem emitInt_puts {ty : IntTy} (hs : ty.Std) {v : Int} (hv : ty.InRange v) : Puts ins ty.textMax (emitInt ty v) := by
  refine ⟨intText v, ?_, fun k _ => emitInt_writes hs hv k⟩
  obtain ⟨b, sg⟩ := ty
  simp only [IntTy.Std] at hs
  unfold IntTy.InRange at hv
  unfold intText
  have len : ∀ k, v.natAbs < 10 ^ k → (revDigits v.natAbs).length ≤ k := fun k h => revDigits_length h
  split
  · unfold IntTy.textMax
    simp only
    repeat' split
    all_goals decide
  · rcases hs with rfl | rfl | rfl | rfl <;> cases sg <;>
      simp only [IntTy.min, IntTy.max] at hv <;> simp at hv <;> split <;>
      simp only [List.length_cons, List.length_reverse, IntTy.textMax] <;> simp <;>
      first
      | omega
      | exact len _ (by omega)

theorem hexEsc_length (b : Byte) : (hexEsc b).length ≤ 6 := by unfold hexEsc; split <;> simp

theorem escByte_length (b : Byte) : (escByte b).length ≤ 6 := by
  unfold escByte
  repeat' split
  all_goals first | exact hexEsc_length b | simp

theorem strBody_length (nt : Bool) (s : Bytes) : (strBody nt s).length ≤ 6 * s.length := by
  fun_induction strBody nt s with
  | case1 => simp
  | case2 => simp
  | case3 b t _ _ ih => have := escByte_length b; simp; omega
  | case4 b t _ _ _ ih => simp; omega
  | case5 b t _ _ _ _ r _ ih => have := hexEsc_length b; simp; omega
  | case6 b t _ _ _ _ r _ ih =>
    have := parseUtf8Ne_length b t .fresh
    have hr : r.1.length ≤ t.length := this
    simp only [List.length_append, List.length_take, List.length_cons] at ih ⊢
    omega
  | case7 b t _ _ _ _ ih => have := hexEsc_length b; simp; omega

theorem emitStr_puts (nt : Bool) (v : Bytes) : Puts ins (6 * v.length + 2) (emitStr nt v) :=
  ⟨_, by have := strBody_length nt v; simp; omega, fun _ _ => rfl⟩

theorem enumName_length {α : Type} [DecidableEq α] {L : List (Bytes × α)} {n : Nat} (v : α) (h : ∀ x ∈ L, x.1.length ≤ n) :
    (enumName L v).length ≤ n := by
  induction L with
  | nil => simp [enumName]
  | cons x L ih =>
    unfold enumName
    split
    · exact h x (by simp)
    · exact ih fun x hx => h x (by simp [hx])

/-- Parts without the brackets. -/
def listed (ns : List Nat) : Nat := ns.sum + (ns.length - 1)

theorem listed_cons (n : Nat) (ns : List Nat) (h : ns ≠ []) : listed (n :: ns) = n + (1 + listed ns) := by
  cases ns with
  | nil => exact absurd rfl h
  | cons m ns => simp [listed]; omega

theorem emitFlagList_puts {w : Nat} (sep : Byte) (v : BitVec w) (L : List (Bytes × BitVec w)) (first : Bool) {q : Nat}
    (hq : q = if sep = c%',' then 2 else 0) :
    Puts ins ((L.map fun x => x.1.length + q).sum + (if first then L.length - 1 else L.length)) (emitFlagList sep v L first) := by
  have quote : Puts ins (q / 2) fun k => if sep = c%',' then k.put c%'"' else .ok k := by
    by_cases h : sep = c%','
    · simp only [h, if_true] at hq ⊢; subst hq; exact .put _
    · simp only [h, if_false] at hq ⊢; subst hq; exact .nop
  have hq2 : q / 2 + q / 2 = q := by subst hq; split <;> rfl
  induction L generalizing first with
  | nil => exact Puts.mono (f := fun k => .ok k) .nop (Nat.zero_le _)
  | cons x L ih =>
    by_cases hon : flagOn x.2 v = true
    · have e : emitFlagList sep v (x :: L) first = fun k =>
          (if !first then k.put sep else .ok k) >>= fun k => (if sep = c%',' then k.put c%'"' else .ok k) >>= fun k =>
          k.puts x.1 >>= fun k => (if sep = c%',' then k.put c%'"' else .ok k) >>= fun k => emitFlagList sep v L false k := by
        funext k; simp [emitFlagList, hon]
      rw [e]
      cases first with
      | true =>
        refine Puts.mono (m := 0 + (q / 2 + (x.1.length + (q / 2 + _)))) (.bind .nop (.bind quote (.bind (.puts _) (.bind quote (ih false))))) ?_
        simp; omega
      | false =>
        refine Puts.mono (m := 1 + (q / 2 + (x.1.length + (q / 2 + _)))) (.bind (.put _) (.bind quote (.bind (.puts _) (.bind quote (ih false))))) ?_
        simp; omega
    · have e : emitFlagList sep v (x :: L) first = emitFlagList sep v L first := by funext k; simp [emitFlagList, hon]
      rw [e]
      refine Puts.mono (ih first) ?_
      cases first <;> simp <;> omega

theorem emitFlags_puts {w : Nat} (F : Flags w) (v : BitVec w) {q : Nat} (hq : q = if F.sep = c%',' then 2 else 0) :
    Puts ins (enclosed (F.list.map fun x => x.1.length + q)) (emitFlags F v) :=
  Puts.mono (.bind (.put _) (.bind (emitFlagList_puts F.sep v F.list true hq) (.put _))) (by simp [enclosed]; omega)

section
variable {α : Type} {S : Ser α}

theorem emitElems_puts (f : α → Nat) (vs : List α) (h : ∀ v ∈ vs, Puts ins (f v) (S.emit v)) : Puts ins (listed (vs.map f)) (emitElems S vs) := by
  induction vs with
  | nil => exact .nop
  | cons v vs ih =>
    cases vs with
    | nil => exact Puts.mono (f := S.emit v) (h v (by simp)) (by simp [listed])
    | cons w l =>
      rw [List.map_cons, listed_cons _ _ (by simp)]
      exact .bind (h v (by simp)) (.bind (.put _) (ih fun x hx => h x (by simp [hx])))

theorem enclosed_eq (ns : List Nat) : enclosed ns = 1 + (listed ns + 1) := by unfold enclosed listed; omega

/-- Parts of at most `k` bytes. -/
theorem enclosed_le {β : Type} (l : List β) (f : β → Nat) {N k : Nat} (hf : ∀ x ∈ l, f x ≤ k) (hl : l.length ≤ N) :
    enclosed (l.map f) ≤ 2 + N * (k + 1) := by
  have h : (l.map f).sum ≤ l.length * k := by
    clear hl
    induction l with
    | nil => simp
    | cons x l ih =>
      have h1 := hf x (by simp)
      have h2 := ih fun y hy => hf y (by simp [hy])
      simp only [List.map_cons, List.sum_cons, List.length_cons, Nat.succ_mul]
      omega
  have h2 : l.length * (k + 1) ≤ N * (k + 1) := Nat.mul_le_mul_right _ hl
  rw [Nat.mul_succ] at h2
  simp only [enclosed, List.length_map]
  omega

theorem emitFix_puts (L R : Byte) (f : α → Nat) (vs : List α) (h : ∀ v ∈ vs, Puts ins (f v) (S.emit v)) :
    Puts ins (enclosed (vs.map f)) (emitFix S L R vs) := by
  rw [enclosed_eq]
  exact .bind (.put _) (.bind (emitElems_puts f vs h) (.put _))

theorem emitQuoted_puts {v : α} {n : Nat} (h : Puts ins n (S.emit v)) : Puts ins (6 * n + 2) (emitQuoted S true v) := by
  obtain ⟨t, h1, h2⟩ := h
  have : emitQuoted S true v = emitStr false t := by
    funext k
    simp [emitQuoted, h2 ⟨[], .back⟩ (fun _ => rfl), Sink.puts_back, strSer]
  rw [this]
  exact (emitStr_puts false t).mono (by omega)

end

section
variable {τ : Type}

theorem emitMember_puts (m : MRef τ) (t : τ) {n : Nat} (h : Puts ins n (m.ser.emit (m.get t))) :
    Puts ins (m.name.length + 3 + n) (emitMember m t) :=
  Puts.mono (.bind (.bind (.put _) (.bind (.puts _) (.bind (.put _) (.put _)))) h) (by omega)

theorem emitMembers_puts (L : List (Member τ × Nat)) (t : τ) (h : ∀ m ∈ L, Puts ins m.2 (m.1.emit t)) :
    Puts ins (listed (L.map Prod.snd)) (emitMembers (L.map Prod.fst) t) := by
  induction L with
  | nil => exact .nop
  | cons m L ih =>
    cases L with
    | nil => exact Puts.mono (f := m.1.emit t) (h m (by simp)) (by simp [listed])
    | cons m' L =>
      rw [List.map_cons, listed_cons _ _ (by simp)]
      exact .bind (h m (by simp)) (.bind (.put _) (ih fun x hx => h x (by simp [hx])))

theorem emitAMembers_puts (L : List (AMember τ × Nat)) (t : τ) (h : ∀ m ∈ L, Puts ins m.2 (m.1.emit t)) :
    Puts ins (listed (L.map Prod.snd)) (emitAMembers (L.map Prod.fst) t) := by
  induction L with
  | nil => exact .nop
  | cons m L ih =>
    cases L with
    | nil => exact Puts.mono (f := m.1.emit t) (h m (by simp)) (by simp [listed])
    | cons m' L =>
      rw [List.map_cons, listed_cons _ _ (by simp)]
      exact .bind (h m (by simp)) (.bind (.put _) (ih fun x hx => h x (by simp [hx])))

end

end

mutual

theorem Room.puts {c : Cfg} {ins : Bool} : ∀ {α : Type} {S : Ser α} {v : α} {n : Nat}, Room c ins S v n → Puts ins n (S.emit v)
  | _, _, _, _, .int h1 h2 => emitInt_puts h1 h2
  | _, _, _, _, .bool v => by cases v <;> exact ⟨_, by decide, fun _ _ => rfl⟩
  | _, _, _, _, .str v => emitStr_puts false v
  | _, _, _, _, .chars v h => (emitStr_puts true v).mono (by omega)
  | _, _, _, _, .float F R v => ⟨_, Nat.le_trans (List.takeWhile_prefix _).length_le (by rw [List.length_take]; exact Nat.min_le_left _ _), fun _ _ => rfl⟩
  | _, _, _, _, @Room.enum _ _ _ _ _ _ L n v h =>
    Puts.mono (.bind (.put _) (.bind (.puts _) (.put _))) (by have := enumName_length v h; omega)
  | _, _, _, _, .flags (F := F) v h => emitFlags_puts F v (q := 2) (by rw [if_pos h])
  | _, _, _, _, .flagsSep (F := F) v h => emitFlags_puts F v (q := 0) (by rw [if_neg h])
  | _, _, _, _, .raw v => by
    show Puts ins _ (emitRaw v)
    by_cases h : v = []
    · subst h; exact ⟨_, by decide, fun _ _ => rfl⟩
    · refine ⟨v, Nat.le_max_left _ _, fun k _ => by simp [emitRaw, h]⟩
  | _, _, _, _, .quoted h => emitQuoted_puts h.puts
  | _, _, _, _, .unquoted h => h.puts
  | _, _, _, _, .pointer h => h.puts
  | _, _, _, _, .memberValue h => h.puts
  | _, _, _, _, .array (K := K) (v := v) (f := f) h => emitFix_puts _ _ f (K.elems v) fun x hx => (h x hx).puts
  | _, _, _, _, .fixed (vs := vs) (f := f) h => emitFix_puts _ _ f vs fun x hx => (h x hx).puts
  | _, _, _, _, .fixedVec (vs := vs) (f := f) h => emitFix_puts _ _ f vs.toList fun x hx => (h x hx).puts
  | _, _, _, _, .field h h' => Puts.mono (.bind h.puts (.bind (.put _) h'.puts)) (by omega)
  | _, _, _, _, .dict (K := K) (SK := SK) (SV := SV) (v := v) (f := f) (g := g) h h' =>
    emitFix_puts (S := fieldSer SK SV) _ _ (fun x => f x.1 + 1 + g x.2) (K.elems v) fun x hx =>
      Puts.mono (.bind (h x hx).puts (.bind (.put _) (h' x hx).puts)) (by omega)
  | _, _, _, _, .object (L := L) (t := t) h => by
    rw [enclosed_eq]
    exact .bind (.put _) (.bind (emitMembers_puts L t fun m hm => (h m hm).puts) (.put _))
  | _, _, _, _, .objectArray (L := L) (t := t) h => by
    rw [enclosed_eq]
    exact .bind (.put _) (.bind (emitAMembers_puts L t fun m hm => (h m hm).puts) (.put _))
  | _, _, _, _, .null hi => .of_back hi ⟨b!"null", by decide, (C42_null _).1⟩
  | _, _, _, _, .time hi h1 h2 h3 h4 => .of_back hi (timeSer_room c h1 h2 h3 h4)
  | _, _, _, _, .size hi h1 h2 h3 h4 h5 => .of_back hi (sizeSer_room c h1 h2 h3 h4 h5)
  | _, _, _, _, .more h hn => h.puts.mono hn

theorem RoomM.puts {c : Cfg} {ins : Bool} : ∀ {τ : Type} {m : Member τ} {t : τ} {n : Nat}, RoomM c ins m t n → Puts ins n (m.emit t)
  | _, _, _, _, .member h => emitMember_puts _ _ h.puts
  | _, _, _, _, .memberP h => emitMember_puts _ _ h.puts
  | _, _, _, _, .memberIf (l := l) (isDflt := i) (t := t) h h' => by
    cases hd : i (l.get t) with
    | true => simpa [memberIf, hd] using (emitMember_puts _ _ h'.puts).mono (Nat.le_max_right _ _)
    | false => simpa [memberIf, hd] using (emitMember_puts _ _ h.puts).mono (Nat.le_max_left _ _)

theorem RoomA.puts {c : Cfg} {ins : Bool} : ∀ {τ : Type} {m : AMember τ} {t : τ} {n : Nat}, RoomA c ins m t n → Puts ins n (m.emit t)
  | _, _, _, _, .member h => h.puts
  | _, _, _, _, .memberP h => h.puts
  | _, _, _, _, .memberIf (l := l) (isDflt := i) (t := t) h h' => by
    cases hd : i (l.get t) with
    | true => simpa [amemberIf, hd] using h'.puts.mono (Nat.le_max_right _ _)
    | false => simpa [amemberIf, hd] using h.puts.mono (Nat.le_max_left _ _)

end

end Wjson
