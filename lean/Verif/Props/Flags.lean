import Verif.Proofs.Flags
/-
Property C35: flags. A value is a bit pattern of `w` bits, a list of pairs stands
for the `enum_value`s, and `Flags.sep` is the separator; with the separator ','
the value is written as a JSON array of names, otherwise as one JSON string.
Both forms are read whatever the separator is.
-/
namespace Wjson
open Spec

section
variable {w : Nat}

/-- The names written for `v`: those whose bits are all set in `v`; a name for no
bits only if `v` is zero. -/
def flagNames (L : List (Bytes × BitVec w)) (v : BitVec w) : List Bytes :=
  (L.filter fun x => (x.2 ≠ 0 ∧ x.2 &&& v = x.2) ∨ v = x.2).map Prod.fst

/-- C35. Array form, reading: listed names in any order, with repetitions and
any gaps (and, in nonstrict mode, other strings in between), give the union of
the bits. -/
theorem C35_array_reads (c : Cfg) {F : Flags w} (hne : F.list ≠ []) (hnd : (F.list.map Prod.fst).Nodup)
    (hpl : ∀ y ∈ F.list, PlainName y.1) {xs : List (Bytes × BitVec w)} (hx : ∀ x ∈ xs, FlagItem F.list F.strict x)
    {r : Bytes} (h : ItemsText (fun n t => t = quoted n) c%']' (xs.map Prod.fst) r) :
    Reads (flagsSer c F).de (c%'[' :: r) (orAll (xs.map Prod.snd)) := by
  intro v0 rest e _ _
  simp only [flagsSer]
  exact deFlags_array hne hnd hpl hx h v0 rest e

/-- C35. Separator form, reading: the same. -/
theorem C35_separator_reads (c : Cfg) {F : Flags w} (hne : F.list ≠ []) (hsep : GoodSep F.sep)
    (hnd : (F.list.map Prod.fst).Nodup) (hw : ∀ y ∈ F.list, FlagWord F.sep y.1) {xs : List (Bytes × BitVec w)}
    (hx : ∀ x ∈ xs, FlagToken F.list F.strict F.sep x) {r : Bytes} (h : SepText F.sep (xs.map Prod.fst) r) :
    Reads (flagsSer c F).de (c%'"' :: r) (orAll (xs.map Prod.snd)) := by
  intro v0 rest e _ _
  simp only [flagsSer]
  exact deFlags_sep hne hsep hnd hw hx h v0 rest e

theorem flagNames_eq (L : List (Bytes × BitVec w)) (v : BitVec w) :
    flagNames L v = (L.filter fun x => flagOn x.2 v).map Prod.fst := rfl

/-- C35. Array form: a union of listed flags is written as the array of the
names it contains and read back. -/
theorem C35_array_round_trip (c : Cfg) {F : Flags w} (hs : F.sep = c%',') (hnd : (F.list.map Prod.fst).Nodup)
    (hpl : ∀ y ∈ F.list, PlainName y.1) {us : List (BitVec w)} (hu : ∀ u ∈ us, u ∈ F.list.map Prod.snd) :
    RT (flagsSer c F) (orAll us) (c%'[' :: joinComma ((flagNames F.list (orAll us)).map quoted) ++ b!"]") where
  writes := by
    have := emitFlags_writes F (orAll us)
    rw [flagNames_eq]
    simp only [hs, if_true, joinSep_comma, flagText] at this
    simpa [flagsSer, Function.comp_def] using this
  start := ⟨_, _, rfl, by unfold WsByte; decide⟩
  reads := by
    by_cases hne : F.list = []
    · have : us = [] := by
        cases us with
        | nil => rfl
        | cons u us => have := hu u (by simp); rw [hne] at this; simp at this
      subst this
      intro v0 rest e _ _
      rw [hne]
      simp [flagsSer, deFlags, flagNames, joinComma, flagLoopF, flagsEnd, orAll]
    · have h := C35_array_reads c hne hnd hpl (xs := F.list.filter fun x => flagOn x.2 (orAll us))
        (fun x hx => .listed ((List.mem_filter.mp hx).1))
        (items_of_join (item := fun n t => t = quoted n) (R := c%']') (ts := (flagNames F.list (orAll us)).map quoted) (by
          rw [flagNames_eq]
          generalize (F.list.filter fun x => flagOn x.2 (orAll us)).map Prod.fst = l
          induction l with
          | nil => exact .nil
          | cons n l ih => exact .cons ⟨⟨_, _, rfl, by unfold WsByte; decide⟩, rfl⟩ ih))
      rw [orAll_written hu] at h
      exact h

/-- C35. Separator form: a union of listed flags is written as one string of the
names it contains and read back. -/
theorem C35_separator_round_trip (c : Cfg) {F : Flags w} (hs : F.sep ≠ c%',') (hsep : GoodSep F.sep)
    (hnd : (F.list.map Prod.fst).Nodup) (hw : ∀ y ∈ F.list, FlagWord F.sep y.1) {us : List (BitVec w)}
    (hu : ∀ u ∈ us, u ∈ F.list.map Prod.snd) :
    RT (flagsSer c F) (orAll us) (quoted (joinSep F.sep (flagNames F.list (orAll us)))) where
  writes := by
    have := emitFlags_writes F (orAll us)
    rw [flagNames_eq]
    simp only [hs, if_false, flagText] at this
    simpa [flagsSer, quoted] using this
  start := ⟨_, _, rfl, by unfold WsByte; decide⟩
  reads := by
    by_cases hne : F.list = []
    · have : us = [] := by
        cases us with
        | nil => rfl
        | cons u us => have := hu u (by simp); rw [hne] at this; simp at this
      subst this
      intro v0 rest e _ _
      rw [hne]
      simp [flagsSer, deFlags, flagNames, joinSep, flagLoopF, flagsEnd, orAll, quoted]
    · have h := C35_separator_reads c hne hsep hnd hw (xs := F.list.filter fun x => flagOn x.2 (orAll us))
        (fun x hx => by
          have := FlagToken.listed (strict := F.strict) (sep := F.sep) (g := []) ((List.mem_filter.mp hx).1) ⟨by simp [Ws], fun _ => rfl⟩
          simpa using this)
        (sepText_join F.sep _)
      rw [orAll_written hu] at h
      exact h

/-- C35. Strict mode, array form: the first string that is not a listed name is
the error InvalidEnum at that string. -/
theorem C35_array_strict (c : Cfg) {F : Flags w} (hs : F.strict = true) (hne : F.list ≠ []) (hnd : (F.list.map Prod.fst).Nodup)
    (hpl : ∀ y ∈ F.list, PlainName y.1) {xs : List (Bytes × BitVec w)} (hx : ∀ x ∈ xs, x ∈ F.list) {r : Bytes}
    (h : ItemsComma (fun n t => t = quoted n) (xs.map Prod.fst) r) {g : Bytes} (hg : Gap g) {k : Bytes} (hk : XChars k)
    (hkn : k ∉ F.list.map Prod.fst) (v0 : BitVec w) (rest : Bytes) :
    (flagsSer c F).de v0 (c%'[' :: (r ++ g ++ quoted k ++ rest)) .fresh =
      .ok (orAll (xs.map Prod.snd), [], .obj ⟨.InvalidEnum, none, ((quoted k ++ rest).length : Nat)⟩) := by
  have := deFlags_array_strict (c := c) hs hne hnd hpl hx h hg hk hkn v0 rest .fresh
  simp only [List.append_assoc, flagsSer, this]
  rfl

/-- C35. Strict mode, separator form: the same. -/
theorem C35_separator_strict (c : Cfg) {F : Flags w} (hs : F.strict = true) (hne : F.list ≠ []) (hsep : GoodSep F.sep)
    (hnd : (F.list.map Prod.fst).Nodup) (hw : ∀ y ∈ F.list, FlagWord F.sep y.1) {xs : List (Bytes × BitVec w)}
    (hx : ∀ x ∈ xs, FlagToken F.list F.strict F.sep x) {r : Bytes} (h : SepComma F.sep (xs.map Prod.fst) r) {g : Bytes}
    (hg : SepGap F.sep g) {k : Bytes} (hk : FlagWord F.sep k) (hkn : k ∉ F.list.map Prod.fst) {d : Byte}
    (hd : d = F.sep ∨ d = c%'"') (v0 : BitVec w) (rest : Bytes) :
    (flagsSer c F).de v0 (c%'"' :: (r ++ g ++ k ++ d :: rest)) .fresh =
      .ok (orAll (xs.map Prod.snd), [], .obj ⟨.InvalidEnum, none, ((k ++ d :: rest).length : Nat)⟩) := by
  have := deFlags_sep_strict (c := c) hs hne hsep hnd hw hx h hg hk hkn hd v0 rest .fresh
  simp only [List.append_assoc, flagsSer, this]
  rfl

end

/-! ### Concrete cases -/

def demoFlags (sep : Byte) (strict : Bool) : Flags 8 :=
  ⟨[(b!"none", 0), (b!"read", 1), (b!"readwrite", 3), (b!"exec", 4)], sep, strict⟩

example : ((demoFlags c%',' true).list.map Prod.fst).Nodup ∧ (∀ y ∈ (demoFlags c%',' true).list, PlainName y.1) := by
  refine ⟨by decide, ?_⟩
  simp only [demoFlags, PlainName]
  decide
example : GoodSep c%'|' ∧ (∀ y ∈ (demoFlags c%'|' true).list, FlagWord c%'|' y.1) := by
  refine ⟨.inr (by unfold WsByte; decide), ?_⟩
  intro y hy
  simp only [demoFlags, List.mem_cons, List.not_mem_nil, or_false] at hy
  rcases hy with rfl | rfl | rfl | rfl <;> exact ⟨by decide, by unfold WsByte; decide, by decide⟩
example : (flagsSer .strict (demoFlags c%',' true)).emit 7 ⟨[], .back⟩ =
    .ok ⟨b!"[\"read\",\"readwrite\",\"exec\"]", .back⟩ := by decide +kernel
example : (flagsSer .strict (demoFlags c%'|' true)).emit 5 ⟨[], .back⟩ = .ok ⟨b!"\"read|exec\"", .back⟩ := by decide +kernel
example : (flagsSer .strict (demoFlags c%'|' true)).emit 0 ⟨[], .back⟩ = .ok ⟨b!"\"none\"", .back⟩ := by decide +kernel
example : (flagsSer .strict (demoFlags c%'|' true)).de 0 b!"\"exec| read |exec\"," .fresh = .ok (5, b!",", .fresh) := by
  decide +kernel
example : (flagsSer .strict (demoFlags c%'|' false)).de 0 b!"\"exec|write|read|\"," .fresh = .ok (5, b!",", .fresh) := by
  decide +kernel
example : (flagsSer .strict (demoFlags c%'|' true)).de 0 b!"\"exec|write|read|\"," .fresh =
    .ok (4, [], .obj ⟨.InvalidEnum, none, 13⟩) := by decide +kernel
example : (flagsSer .strict (demoFlags c%' ' true)).de 0 b!"\"exec read\"," .fresh = .ok (5, b!",", .fresh) := by
  decide +kernel

/-- Array form: the comma after a listed name may be missing. -/
theorem C35_missing_comma :
    (flagsSer .strict (demoFlags c%',' true)).de 0 b!"[\"exec\" \"read\"]" .fresh = .ok (5, [], .fresh) := by decide +kernel

/-- A value with bits outside every listed flag loses them. -/
theorem C35_unlisted_bits_lost :
    (flagsSer .strict (demoFlags c%',' true)).emit 12 ⟨[], .back⟩ = .ok ⟨b!"[\"exec\"]", .back⟩ ∧
    (flagsSer .strict (demoFlags c%',' true)).de 0 b!"[\"exec\"]" .fresh = .ok (4, [], .fresh) := by decide +kernel

end Wjson
