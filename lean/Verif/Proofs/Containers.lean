import Verif.Proofs.Array
import Verif.Proofs.IntSafe
import Verif.Proofs.StrRead
/-
Round trips of the scalar serializers in the form `RT`; ordered containers.
-/
namespace Wjson
open Spec

theorem Delim.noDigitNext {rest : Bytes} (h : Delim rest) : NoDigitNext rest := fun b hb => (h b hb).1

theorem start_decimal {v : Int} {t : Bytes} (h : Decimal v t) : Start t := by
  have hd : ∀ b : Byte, Digit b → ¬ WsByte b ∧ b ≠ c%'/' ∧ b ≠ c%']' ∧ b ≠ c%'}' ∧ b ≠ c%',' ∧ b ≠ c%':' ∧ b ≠ c%'*' := by
    unfold Digit WsByte; apply forall_byte; decide +kernel
  obtain ⟨i, hi, h⟩ := h
  have hi' : ∃ b u, i = b :: u ∧ Digit b := by
    rcases hi with rfl | ⟨d, ds, rfl, hd, _⟩
    · exact ⟨_, _, rfl, by unfold Digit; decide⟩
    · exact ⟨_, _, rfl, digit_of_19 hd⟩
  rcases h with ⟨_, rfl, _⟩ | ⟨_, rfl, _⟩
  · obtain ⟨b, u, rfl, hb⟩ := hi'
    exact ⟨b, u, rfl, hd b hb⟩
  · exact ⟨_, _, rfl, by unfold WsByte; decide⟩

/-- Exact reading of the canonical text of an integer. -/
theorem deInt_decimal (c : Cfg) {ty : IntTy} (hs : ty.Std) {v : Int} (hv : ty.InRange v)
    (hmin : v ≠ ty.min ∨ ty.Modular c) {t : Bytes} (h : Decimal v t) {rest : Bytes} (hr : NoDigitNext rest)
    (v0 : Int) (e : EPtr) : deInt c ty v0 (t ++ rest) e = .ok (v, rest, e) := by
  obtain ⟨i, hi, h⟩ := h
  have hmod : ty.Modular c → deInt c ty v0 (t ++ rest) e = .ok (v, rest, e) := by
    intro hm
    have hw := IntTy.wrap_of_inRange hs hv
    rcases h with ⟨h0, rfl, h2⟩ | ⟨h0, rfl, h2⟩
    · have := deInt_modular hs (c := c) hm (m := []) (.inl rfl) hi hr v0 e
      simpa [← h2, hw] using this
    · have := deInt_modular hs (c := c) hm (m := b!"-") (.inr rfl) hi hr v0 e
      simpa [← h2, hw] using this
  rcases hmin with hne | hm
  · by_cases hmod' : ty.Modular c
    · exact hmod hmod'
    · have hsg : ty.signed = true := by
        cases hh : ty.signed with
        | true => rfl
        | false => exact absurd (.inr (.inl hh)) hmod'
      rcases h with ⟨h0, rfl, h2⟩ | ⟨h0, rfl, h2⟩
      · have := deInt_exact c hs (m := []) (.inl rfl) hi hr (by rwa [← h2]) (by simp) v0 e
        simpa [← h2] using this
      · have hpos : ty.InRange (decVal i : Int) := by
          obtain ⟨bits, sg⟩ := ty
          simp only at hsg
          subst hsg
          simp only [IntTy.InRange, IntTy.min, IntTy.max, if_true] at hv hne ⊢
          omega
        have := deInt_exact c hs (m := b!"-") (.inr rfl) hi hr hpos (by intro _; rwa [← h2]) v0 e
        simpa [← h2] using this
  · exact hmod hm

theorem intSer_rt (c : Cfg) {ty : IntTy} (hs : ty.Std) {v : Int} (hv : ty.InRange v)
    (hmin : v ≠ ty.min ∨ ty.Modular c) : RT (intSer c ty) v (intText v) where
  writes := emitInt_writes hs hv
  start := start_decimal (intText_decimal v)
  reads := fun v0 _ e _ hd => deInt_decimal c hs hv hmin (intText_decimal v) (Delim.noDigitNext hd) v0 e

theorem boolSer_rt (v : Bool) : RT boolSer v (if v then b!"true" else b!"false") := by
  cases v with
  | true =>
    exact ⟨fun k => rfl, ⟨_, _, rfl, by unfold WsByte; decide⟩, fun v0 rest e _ _ => deBool_true v0 rest e⟩
  | false =>
    exact ⟨fun k => rfl, ⟨_, _, rfl, by unfold WsByte; decide⟩, fun v0 rest e _ _ => deBool_false v0 rest e⟩

theorem strSer_rt {v : Bytes} (h : StrOk v) : RT strSer v (c%'"' :: strBody false v ++ b!"\"") where
  writes := fun k => rfl
  start := ⟨_, _, rfl, by unfold WsByte; decide⟩
  reads := by
    intro v0 rest e _ _
    have := deStr_decodes (strBody_decodes v h.1) (by rw [h.2.1]; exact h.2.2) v0 rest e
    rw [h.2.1] at this
    simpa [strSer] using this

/-! ### Ordered containers -/

section
variable {α κ : Type} {lt : α → α → Bool}

theorem setInsert_mem {l : List α} {x y : α} (h : y ∈ setInsert lt l x) : y ∈ l ∨ y = x := by
  induction l with
  | nil => simp only [setInsert, List.mem_singleton] at h; exact .inr h
  | cons z l ih => simp only [setInsert] at h; grind

theorem setInsert_last (hasym : ∀ a b, lt a b = true → lt b a = false) {l : List α} {x : α}
    (h : ∀ y ∈ l, lt y x = true) : setInsert lt l x = l ++ [x] := by
  induction l with
  | nil => rfl
  | cons y l ih =>
    have hy := h y (by simp)
    simp only [setInsert, hasym _ _ hy, hy, Bool.false_eq_true, if_false, if_true]
    rw [ih fun z hz => h z (by simp [hz])]
    rfl

theorem setFold_id (hasym : ∀ a b, lt a b = true → lt b a = false) (acc l : List α) (h : Increasing lt (acc ++ l)) :
    l.foldl (setInsert lt) acc = acc ++ l := by
  induction l generalizing acc with
  | nil => simp
  | cons x l ih =>
    have hx : ∀ y ∈ acc, lt y x = true := fun y hy =>
      (List.pairwise_append.mp h).2.2 y hy x (by simp)
    simp only [List.foldl_cons]
    rw [setInsert_last hasym hx, ih (acc ++ [x]) (by simpa [Increasing] using h)]
    simp

theorem setInsert_increasing (htr : ∀ a b c, lt a b = true → lt b c = true → lt a c = true) {l : List α} {x : α}
    (h : Increasing lt l) : Increasing lt (setInsert lt l x) := by
  unfold Increasing at h ⊢
  induction l with
  | nil => simp [setInsert]
  | cons y l ih =>
    have h' := List.pairwise_cons.mp h
    simp only [setInsert]
    split
    · rename_i hxy
      refine List.pairwise_cons.mpr ⟨?_, h⟩
      intro z hz
      rcases List.mem_cons.mp hz with rfl | hz
      · exact hxy
      · exact htr _ _ _ hxy (h'.1 z hz)
    · split
      · rename_i hyx
        refine List.pairwise_cons.mpr ⟨?_, ih h'.2⟩
        intro z hz
        rcases setInsert_mem hz with hz | rfl
        · exact h'.1 z hz
        · exact hyx
      · exact h

theorem setFold_increasing (htr : ∀ a b c, lt a b = true → lt b c = true → lt a c = true) (acc l : List α)
    (h : Increasing lt acc) : Increasing lt (l.foldl (setInsert lt) acc) := by
  induction l generalizing acc with
  | nil => exact h
  | cons x l ih => exact ih _ (setInsert_increasing htr h)

theorem setInsert_mem_iff (ho : StrictTotal lt) {l : List α} {x y : α} : y ∈ setInsert lt l x ↔ y ∈ l ∨ y = x := by
  refine ⟨setInsert_mem, ?_⟩
  induction l with
  | nil => simp [setInsert]
  | cons z l ih =>
    intro h
    simp only [setInsert]
    have := ho.total x z
    grind

theorem setFold_mem (ho : StrictTotal lt) (acc l : List α) (x : α) :
    x ∈ l.foldl (setInsert lt) acc ↔ x ∈ acc ∨ x ∈ l := by
  induction l generalizing acc with
  | nil => simp
  | cons y l ih =>
    simp only [List.foldl_cons]
    rw [ih, setInsert_mem_iff ho]
    simp only [List.mem_cons, or_assoc]

theorem multisetInsert_perm (l : List α) (x : α) : (multisetInsert lt l x).Perm (x :: l) := by
  induction l with
  | nil => exact .refl _
  | cons y l ih =>
    simp only [multisetInsert]
    split
    · exact .refl _
    · exact (ih.cons y).trans (.swap x y l)

theorem multisetFold_perm (acc l : List α) : (l.foldl (multisetInsert lt) acc).Perm (acc ++ l) := by
  induction l generalizing acc with
  | nil => simp
  | cons x l ih =>
    simp only [List.foldl_cons]
    refine (ih _).trans (((multisetInsert_perm acc x).append_right l).trans ?_)
    simpa using (List.perm_middle (a := x) (l₁ := acc) (l₂ := l)).symm

theorem multisetInsert_sorted (ho : StrictTotal lt) {l : List α} {x : α} (h : Sorted lt l) :
    Sorted lt (multisetInsert lt l x) := by
  unfold Sorted at h ⊢
  induction l with
  | nil => simp [multisetInsert]
  | cons y l ih =>
    have h' := List.pairwise_cons.mp h
    simp only [multisetInsert]
    split
    · rename_i hxy
      have hyx : lt y x = false := by
        cases hh : lt y x with
        | false => rfl
        | true => have := ho.trans hxy hh; rw [ho.irrefl] at this; exact absurd this (by decide)
      refine List.pairwise_cons.mpr ⟨?_, h⟩
      intro z hz
      rcases List.mem_cons.mp hz with rfl | hz
      · exact hyx
      · have hzy := h'.1 z hz
        cases hzx : lt z x with
        | false => rfl
        | true => have := ho.trans hzx hxy; rw [hzy] at this; exact absurd this (by decide)
    · rename_i hxy
      refine List.pairwise_cons.mpr ⟨?_, ih h'.2⟩
      intro z hz
      rcases List.mem_cons.mp ((multisetInsert_perm l x).mem_iff.mp hz) with rfl | hz
      · simpa using hxy
      · exact h'.1 z hz

theorem multisetFold_sorted (ho : StrictTotal lt) (acc l : List α) (h : Sorted lt acc) :
    Sorted lt (l.foldl (multisetInsert lt) acc) := by
  induction l generalizing acc with
  | nil => exact h
  | cons x l ih => exact ih _ (multisetInsert_sorted ho h)

theorem multisetInsert_last {l : List α} {x : α} (h : ∀ y ∈ l, lt x y = false) :
    multisetInsert lt l x = l ++ [x] := by
  induction l with
  | nil => rfl
  | cons y l ih =>
    simp only [multisetInsert, h y (by simp), Bool.false_eq_true, if_false]
    rw [ih fun z hz => h z (by simp [hz])]
    rfl

theorem multisetFold_id (acc l : List α) (h : Sorted lt (acc ++ l)) :
    l.foldl (multisetInsert lt) acc = acc ++ l := by
  induction l generalizing acc with
  | nil => simp
  | cons x l ih =>
    have hx : ∀ y ∈ acc, lt x y = false := fun y hy => (List.pairwise_append.mp h).2.2 y hy x (by simp)
    simp only [List.foldl_cons]
    rw [multisetInsert_last hx, ih (acc ++ [x]) (by simpa [Sorted] using h)]
    simp

end

section
variable {κ ν : Type} {lt : κ → κ → Bool} [DecidableEq κ]

/-- The entry for the key `q`. -/
theorem mapInsert_find (ho : StrictTotal lt) {l : List (κ × ν)} (x : κ × ν) (q : κ)
    (h : Increasing (fun a b : κ × ν => lt a.1 b.1) l) :
    (mapInsert lt l x).find? (fun y => y.1 = q) =
      (l.find? (fun y => y.1 = q)).or (if x.1 = q then some x else none) := by
  unfold Increasing at h
  unfold mapInsert
  induction l with
  | nil => simp only [setInsert, List.find?_cons, List.find?_nil, Option.none_or]; grind
  | cons y l ih =>
    have h' := List.pairwise_cons.mp h
    simp only [setInsert]
    split
    · rename_i hxy
      by_cases hq : x.1 = q
      · have hnone : (y :: l).find? (fun y => y.1 = q) = none := by
          rw [List.find?_eq_none]
          intro z hz hzq
          have hzq : z.1 = q := by simpa using hzq
          have hlt : lt x.1 z.1 = true := by
            rcases List.mem_cons.mp hz with rfl | hz
            · exact hxy
            · exact ho.trans hxy (h'.1 z hz)
          rw [hq, hzq, ho.irrefl] at hlt
          exact absurd hlt (by decide)
        rw [hnone, List.find?_cons]
        simp [hq]
      · rw [List.find?_cons]
        simp [hq]
    · split
      · rw [List.find?_cons, List.find?_cons]
        split
        · rfl
        · exact ih h'.2
      · rename_i h1 h2
        have hxy : x.1 = y.1 := ho.total _ _ (by simpa using h1) (by simpa using h2)
        by_cases hq : y.1 = q
        · simp [hq]
        · simp [hxy, hq]

theorem mapFold_find (ho : StrictTotal lt) (acc l : List (κ × ν)) (q : κ)
    (h : Increasing (fun a b : κ × ν => lt a.1 b.1) acc) :
    (l.foldl (mapInsert lt) acc).find? (fun y => y.1 = q) =
      (acc.find? (fun y => y.1 = q)).or (l.find? (fun y => y.1 = q)) := by
  induction l generalizing acc with
  | nil => simp
  | cons x l ih =>
    simp only [List.foldl_cons]
    rw [ih (mapInsert lt acc x) (setInsert_increasing (lt := fun a b : κ × ν => lt a.1 b.1) (fun _ _ _ h1 h2 => ho.trans h1 h2) h), mapInsert_find ho x q h, List.find?_cons,
      Option.or_assoc]
    congr 1
    by_cases hq : x.1 = q <;> simp [hq]

end

theorem seqFold {α : Type} (vs : List α) : vs.foldl (seqColl α).insert (seqColl α).clear = vs := by
  have : ∀ (acc l : List α), l.foldl (seqColl α).insert acc = acc ++ l := by
    intro acc l
    induction l generalizing acc with
    | nil => simp
    | cons x l ih => rw [List.foldl_cons, ih]; simp [seqColl]
  have h := this [] vs
  simp only [List.nil_append] at h
  exact h

theorem StrictTotal.asymm {α : Type} {lt : α → α → Bool} (ho : StrictTotal lt) (a b : α) (hab : lt a b = true) :
    lt b a = false := by
  cases hba : lt b a with
  | false => rfl
  | true => have := ho.trans hab hba; rw [ho.irrefl] at this; exact absurd this (by decide)

end Wjson
