import Verif.Proofs.Containers
/-
Properties C25-C27: sequences, fixed-size arrays, dictionaries.

`RT S v t` (Spec/Serial.lean): the serializer `S` writes `v` as the text `t`
through every output iterator and reads `t` back as `v` from any position,
whatever the target held before, without an error.
-/
namespace Wjson
open Spec

/-! ### C25: sequences -/

/-- C25. A vector, deque or list round-trips if its elements do. The text is the
comma separated list of the texts of the elements in brackets. -/
theorem C25_sequence_round_trip {α : Type} {S : Ser α} {vs : List α} {ts : List Bytes}
    (h : All2 (fun v t => RT S v t) vs ts) :
    RT (arraySer (seqColl α) S) vs (c%'[' :: joinComma ts ++ b!"]") := by
  exact seqSer_rt (K := seqColl α) (.inl rfl) (.inl rfl) h (seqFold vs)

/-- C25 for every sequence of an element type all of whose values round-trip. -/
theorem C25_every_sequence {α : Type} {S : Ser α} (h : ∀ v, ∃ t, RT S v t) (vs : List α) :
    ∃ t, RT (arraySer (seqColl α) S) vs t := by
  have : ∃ ts, All2 (fun v t => RT S v t) vs ts := by
    induction vs with
    | nil => exact ⟨[], .nil⟩
    | cons v vs ih =>
      obtain ⟨ts, hts⟩ := ih
      obtain ⟨t, ht⟩ := h v
      exact ⟨t :: ts, .cons ht hts⟩
  obtain ⟨ts, hts⟩ := this
  exact ⟨_, C25_sequence_round_trip hts⟩

/-- C25. A `std::set` (a strictly increasing sequence) round-trips. -/
theorem C25_set_round_trip {α : Type} {S : Ser α} {lt : α → α → Bool} (ho : StrictTotal lt) {vs : List α}
    {ts : List Bytes} (hs : Increasing lt vs) (h : All2 (fun v t => RT S v t) vs ts) :
    RT (arraySer (setColl α lt) S) vs (c%'[' :: joinComma ts ++ b!"]") := by
  exact seqSer_rt (K := setColl α lt) (.inl rfl) (.inl rfl) h (setFold_id ho.asymm [] vs hs)

/-- C25. A `std::multiset` (a weakly increasing sequence) round-trips. -/
theorem C25_multiset_round_trip {α : Type} {S : Ser α} {lt : α → α → Bool} {vs : List α}
    {ts : List Bytes} (hs : Sorted lt vs) (h : All2 (fun v t => RT S v t) vs ts) :
    RT (arraySer (multisetColl α lt) S) vs (c%'[' :: joinComma ts ++ b!"]") := by
  exact seqSer_rt (K := multisetColl α lt) (.inl rfl) (.inl rfl) h (multisetFold_id (lt := lt) [] vs hs)

/-- C25. Any layout of an array is read: gaps between the tokens and one
trailing comma do not matter. Reading replaces the old contents. -/
theorem C25_sequence_any_layout {α : Type} {S : Ser α} {vs : List α} {t : Bytes}
    (h : ItemsText (fun v t => ReadsAt S.de S.dflt t v) c%']' vs t) :
    Reads (arraySer (seqColl α) S).de (c%'[' :: t) vs := by
  intro v0 rest e he _
  have := deSeq_items (K := seqColl α) (.inl rfl) (L := c%'[') (by decide) h v0 rest he
  rw [seqFold] at this
  simpa [arraySer, seqSer] using this

/-- C25. Whatever order and repetitions the text has, the set read from it is
strictly increasing and holds exactly the elements of the text. -/
theorem C25_set_any_order {α : Type} {S : Ser α} {lt : α → α → Bool} (ho : StrictTotal lt) {vs : List α} {t : Bytes}
    (h : ItemsText (fun v t => ReadsAt S.de S.dflt t v) c%']' vs t) :
    ∃ r, Reads (arraySer (setColl α lt) S).de (c%'[' :: t) r ∧ Increasing lt r ∧ ∀ x, x ∈ r ↔ x ∈ vs := by
  refine ⟨vs.foldl (setInsert lt) [], ?_, setFold_increasing (lt := lt) (fun _ _ _ => ho.trans) [] vs .nil, fun x => ?_⟩
  · intro v0 rest e he _
    have := deSeq_items (K := setColl α lt) (.inl rfl) (L := c%'[') (by decide) h v0 rest he
    simpa [arraySer, seqSer, setColl] using this
  · simpa using setFold_mem ho [] vs x

/-- C25. The multiset read from a text is weakly increasing and a permutation of
the elements of the text. -/
theorem C25_multiset_any_order {α : Type} {S : Ser α} {lt : α → α → Bool} (ho : StrictTotal lt) {vs : List α} {t : Bytes}
    (h : ItemsText (fun v t => ReadsAt S.de S.dflt t v) c%']' vs t) :
    ∃ r, Reads (arraySer (multisetColl α lt) S).de (c%'[' :: t) r ∧ Sorted lt r ∧ r.Perm vs := by
  refine ⟨vs.foldl (multisetInsert lt) [], ?_, multisetFold_sorted ho [] vs .nil, ?_⟩
  · intro v0 rest e he _
    have := deSeq_items (K := multisetColl α lt) (.inl rfl) (L := c%'[') (by decide) h v0 rest he
    simpa [arraySer, seqSer, multisetColl] using this
  · simpa using multisetFold_perm (lt := lt) [] vs

/-- `<` on integers, as used by `std::set<int>`. -/
def intLt (a b : Int) : Bool := decide (a < b)

theorem intLt_total : StrictTotal intLt where
  irrefl := by simp [intLt]
  trans := by simp only [intLt, decide_eq_true_eq]; omega
  total := by simp only [intLt, decide_eq_false_iff_not]; omega

/-- The hypotheses are met by vectors of `int`: -/
example : All2 (fun v t => RT (intSer .strict .int) v t) [1, -20, 3] [b!"1", b!"-20", b!"3"] := by
  have h1 := intSer_rt .strict (ty := .int) (by simp [IntTy.Std, IntTy.int]) (v := 1) (by decide) (.inl (by decide))
  have h2 := intSer_rt .strict (ty := .int) (by simp [IntTy.Std, IntTy.int]) (v := -20) (by decide) (.inl (by decide))
  have h3 := intSer_rt .strict (ty := .int) (by simp [IntTy.Std, IntTy.int]) (v := 3) (by decide) (.inl (by decide))
  rw [show intText 1 = b!"1" by decide +kernel] at h1
  rw [show intText (-20) = b!"-20" by decide +kernel] at h2
  rw [show intText 3 = b!"3" by decide +kernel] at h3
  exact .cons h1 (.cons h2 (.cons h3 .nil))

example : (arraySer (seqColl Int) (intSer .strict .int)).emit [1, -20, 3] ⟨[], .back⟩ = .ok ⟨b!"[1,-20,3]", .back⟩ := by
  decide +kernel
example : (arraySer (seqColl Int) (intSer .strict .int)).de [7] b!"[ 1 ,-20/**/,3 , ]x" .fresh =
    .ok ([1, -20, 3], b!"x", .fresh) := by decide +kernel
example : (arraySer (setColl Int intLt) (intSer .strict .int)).de [7] b!"[3,1,2,1]" .fresh =
    .ok ([1, 2, 3], [], .fresh) := by decide +kernel
example : (arraySer (multisetColl Int intLt) (intSer .strict .int)).de [7] b!"[3,1,2,1]" .fresh =
    .ok ([1, 1, 2, 3], [], .fresh) := by decide +kernel
/-- Nested arrays of booleans: every value round-trips. -/
example (vs : List (List Bool)) : ∃ t, RT (arraySer (seqColl (List Bool)) (arraySer (seqColl Bool) boolSer)) vs t :=
  C25_every_sequence (C25_every_sequence fun v => ⟨_, boolSer_rt v⟩) vs

/-! ### C26: fixed-size arrays -/

/-- C26. Whatever the input, no element outside the array is written: an array of
`N` elements stays an array of `N` elements. -/
theorem C26_size_kept {α : Type} (k : FixKind) (N : Nat) (S : Ser α) {t t' : List α} {s p : Bytes} {e e' : EPtr}
    (h : (fixSer k N S).de t s e = .ok (t', p, e')) (ht : t.length = N) : t'.length = N :=
  (deFix_length h).trans ht

/-- C26. A text with at most `N` items sets the first elements and leaves the
others as they were. -/
theorem C26_fewer_elements {α : Type} (k : FixKind) {N : Nat} {S : Ser α} {vs old : List α} {t : Bytes}
    (h : Items1 (fun v t => Reads S.de t v) c%']' vs t) (ho : old.length = N) (hN : vs.length ≤ N) (rest : Bytes) {e : EPtr}
    (he : e.failed = false) :
    (fixSer k N S).de old (c%'[' :: t ++ rest) e = .ok (vs ++ old.drop vs.length, rest, e) := by
  simp only [fixSer, List.cons_append]
  rw [deFix_open (by decide)]
  exact fixLoop_items (.inl rfl) h (by omega) rest he

/-- C26. An empty JSON array leaves the whole array as it was. -/
theorem C26_empty_text {α : Type} (k : FixKind) {N : Nat} {S : Ser α} {old : List α} {g : Bytes} (hg : Gap g)
    (ho : old.length = N) (hN : 1 ≤ N) (rest : Bytes) (e : EPtr) :
    (fixSer k N S).de old (c%'[' :: (g ++ c%']' :: rest)) e = .ok (old, rest, e) := by
  simp only [fixSer]
  rw [deFix_open (by decide)]
  exact fixLoop_close (.inl rfl) hg (by intro h; subst h; simp at ho; omega) rest e

/-- C26. A text that goes on after `N` items and a comma is an error (unless the
bracket follows the comma at once). All `N` elements have been set. -/
theorem C26_too_many {α : Type} (k : FixKind) {N : Nat} {S : Ser α} {vs old : List α} {t : Bytes}
    (h : ItemsComma (fun v t => Reads S.de t v) vs t) (ho : old.length = N) (hN : vs.length = N) {rest : Bytes}
    (hr : rest.head? ≠ some c%']') {e : EPtr} (he : e.Clean) :
    ∃ p e', (fixSer k N S).de old (c%'[' :: t ++ rest) e = .ok (vs, p, e') ∧ e'.failed = true := by
  simp only [fixSer, List.cons_append]
  rw [deFix_open (by decide)]
  exact fixLoop_too_many (.inl rfl) h (by omega) hr he

/-- C26. A full array is written as a JSON array and read back into any array of
the same size. -/
theorem C26_round_trip {α : Type} (k : FixKind) {N : Nat} (hN : 1 ≤ N) {S : Ser α} {vs : List α} {ts : List Bytes}
    (hl : vs.length = N) (h : All2 (fun v t => RT S v t) vs ts) :
    Writes (fixSer k N S).emit vs (c%'[' :: joinComma ts ++ b!"]") ∧
      ∀ old : List α, old.length = N → ReadsAt (fixSer k N S).de old (c%'[' :: joinComma ts ++ b!"]") vs := by
  refine ⟨emitFix_writes (all2_imp (fun _ _ h => h.writes) h), ?_⟩
  intro old ho rest e he _
  have hi : Items1 (fun v t => Reads S.de t v) c%']' vs (joinComma ts ++ [c%']']) :=
    items1_of_join (by intro h; subst h; simp at hl; omega) (all2_imp (fun _ _ h => ⟨h.start, h.reads⟩) h)
  have := C26_fewer_elements k hi ho (by omega) rest he
  have hd : old.drop vs.length = [] := List.drop_eq_nil_of_le (by omega)
  rw [hd] at this
  simpa using this

/-- A row of a table: at most `N` items in brackets; missing ones are the default. -/
def RowText {α : Type} (S : Ser α) (N : Nat) (row : List α) (t : Bytes) : Prop :=
  ∃ vs t', t = c%'[' :: t' ∧ Items1 (fun v t => Reads S.de t v) c%']' vs t' ∧ vs.length ≤ N ∧
    row = vs ++ List.replicate (N - vs.length) S.dflt

/-- C26. A sequence of fixed-size arrays: every row is read into a new array of
`N` default elements, so that a short row is filled up with defaults and nothing
of an earlier row or of the old contents is seen. -/
theorem C26_rows {α : Type} (k : FixKind) {N : Nat} {S : Ser α} {rows : List (List α)} {t : Bytes}
    (h : ItemsText (RowText S N) c%']' rows t) : Reads (arraySer (seqColl (List α)) (fixSer k N S)).de (c%'[' :: t) rows := by
  refine C25_sequence_any_layout (h.weaken ?_)
  rintro row _ ⟨vs, t', rfl, hi, hl, rfl⟩ rest e he _
  have := C26_fewer_elements k hi (old := (fixSer k N S).dflt) (by simp [fixSer]) hl rest he
  rw [this]
  simp [fixSer]

example : (arraySer (seqColl (List Int)) (fixSer .stdArray 3 (intSer .strict .int))).de [[7, 8, 9]] b!"[[1, 2],[ 3,4,5 ],[6]]x" .fresh =
    .ok ([[1, 2, 0], [3, 4, 5], [6, 0, 0]], b!"x", .fresh) := by decide +kernel

example : (fixSer .stdArray 3 (intSer .strict .int)).de [7, 8, 9] b!"[1, 2]" .fresh = .ok ([1, 2, 9], [], .fresh) := by
  decide +kernel
example : (fixSer .cArray 2 (intSer .strict .int)).de [7, 8] b!"[1,2,3]" .fresh =
    .ok ([1, 2], [], .obj ⟨.ExpectedOf, some b!"]", 2⟩) := by decide +kernel
/-- The exception of `C26_too_many`: a trailing comma directly before the bracket. -/
example : (fixSer .cArray 2 (intSer .strict .int)).de [7, 8] b!"[1,2,]" .fresh = .ok ([1, 2], [], .fresh) ∧
    ((fixSer .cArray 2 (intSer .strict .int)).de [7, 8] b!"[1,2, ]" .fresh).bind (fun r => .ok r.2.2.failed) = .ok true := by
  decide +kernel
example : Items1 (fun v t => Reads boolSer.de t v) c%']' [true, false] b!" true, false ]" := by
  refine .more (g1 := b!" ") (t := b!"true") (g2 := []) (r := b!" false ]") (.ws (by simp [WsByte]) .nil) (boolSer_rt true).start (boolSer_rt true).reads
    .nil ?_
  exact .last (g1 := b!" ") (t := b!"false") (g2 := b!" ") (.ws (by simp [WsByte]) .nil) (boolSer_rt false).start
    (boolSer_rt false).reads (.ws (by simp [WsByte]) .nil)

/-! ### C27: dictionaries -/

/-- The text of a dictionary entry: key, colon, value. -/
def entryText (x : Bytes × Bytes) : Bytes := x.1 ++ c%':' :: x.2

theorem all2_entries {κ ν : Type} {SK : Ser κ} {SV : Ser ν} {vs : List (κ × ν)} {ts : List (Bytes × Bytes)}
    (h : All2 (fun v t => RT SK v.1 t.1 ∧ RT SV v.2 t.2) vs ts) :
    All2 (fun v t => RT (fieldSer SK SV) v t) vs (ts.map entryText) := by
  induction h with
  | nil => exact .nil
  | cons h _ ih => exact .cons (fieldSer_rt h.1 h.2) ih

/-- C27. A dictionary over a vector, deque or list of fields is written as a JSON
object and read back with the same order and the same duplicates. -/
theorem C27_sequence_dict_round_trip {κ ν : Type} {SK : Ser κ} {SV : Ser ν} {vs : List (κ × ν)}
    {ts : List (Bytes × Bytes)} (h : All2 (fun v t => RT SK v.1 t.1 ∧ RT SV v.2 t.2) vs ts) :
    RT (dictSer (seqColl (κ × ν)) SK SV) vs (c%'{' :: joinComma (ts.map entryText) ++ b!"}") := by
  exact seqSer_rt (K := seqColl (κ × ν)) (.inr rfl) (.inr rfl) (all2_entries h) (seqFold vs)

/-- C27. A dictionary over `std::map` (strictly increasing keys) round-trips. -/
theorem C27_map_round_trip {κ ν : Type} {SK : Ser κ} {SV : Ser ν} {lt : κ → κ → Bool} (ho : StrictTotal lt)
    {vs : List (κ × ν)} {ts : List (Bytes × Bytes)} (hs : Increasing (fun a b => lt a.1 b.1) vs)
    (h : All2 (fun v t => RT SK v.1 t.1 ∧ RT SV v.2 t.2) vs ts) :
    RT (dictSer (mapColl κ ν lt) SK SV) vs (c%'{' :: joinComma (ts.map entryText) ++ b!"}") := by
  exact seqSer_rt (K := mapColl κ ν lt) (.inr rfl) (.inr rfl) (all2_entries h)
    (setFold_id (lt := fun a b : κ × ν => lt a.1 b.1) (fun a b => ho.asymm a.1 b.1) [] vs hs)

/-- An entry of a JSON object as text: the key, a colon between any gaps, the
value. -/
def EntryText {κ ν : Type} (SK : Ser κ) (SV : Ser ν) (kv : κ × ν) (t : Bytes) : Prop :=
  ∃ kt g1 g2 vt, t = kt ++ g1 ++ c%':' :: (g2 ++ vt) ∧ Gap g1 ∧ Gap g2 ∧ Start vt ∧
    ReadsAt SK.de SK.dflt kt kv.1 ∧ ReadsAt SV.de SV.dflt vt kv.2

theorem items_imp {α : Type} {P Q : α → Bytes → Prop} {R : Byte} (hpq : ∀ v t, P v t → Q v t) {vs : List α} {t : Bytes}
    (h : ItemsText P R vs t) : ItemsText Q R vs t := by
  induction h with
  | close h => exact .close h
  | last h1 h2 h3 h4 => exact .last h1 h2 (hpq _ _ h3) h4
  | more h1 h2 h3 h4 _ ih => exact .more h1 h2 (hpq _ _ h3) h4 ih

/-- C27. Any layout of a JSON object is read into a dictionary; over a sequence
of fields the order and the duplicates are kept. -/
theorem C27_sequence_dict_any_layout {κ ν : Type} {SK : Ser κ} {SV : Ser ν} {vs : List (κ × ν)} {t : Bytes}
    (h : ItemsText (EntryText SK SV) c%'}' vs t) :
    Reads (dictSer (seqColl (κ × ν)) SK SV).de (c%'{' :: t) vs := by
  intro v0 rest e he _
  have h' : ItemsText (fun v t => ReadsAt (fieldSer SK SV).de (fieldSer SK SV).dflt t v) c%'}' vs t := by
    refine items_imp ?_ h
    rintro v t ⟨kt, g1, g2, vt, rfl, h1, h2, h3, h4, h5⟩
    exact deField_reads h4 h1 h2 h3 h5
  have := deSeq_items (K := seqColl (κ × ν)) (.inr rfl) (L := c%'{') (by decide) h' v0 rest he
  rw [seqFold] at this
  simpa [dictSer, seqSer] using this

/-- C27. A `std::map` read from any JSON object has strictly increasing keys, and
the entry of each key is its first occurrence in the text (none if it does not
occur). -/
theorem C27_map_first_occurrence {κ ν : Type} [DecidableEq κ] {SK : Ser κ} {SV : Ser ν} {lt : κ → κ → Bool}
    (ho : StrictTotal lt) {vs : List (κ × ν)} {t : Bytes} (h : ItemsText (EntryText SK SV) c%'}' vs t) :
    ∃ r, Reads (dictSer (mapColl κ ν lt) SK SV).de (c%'{' :: t) r ∧ Increasing (fun a b => lt a.1 b.1) r ∧
      ∀ q, r.find? (fun y => y.1 = q) = vs.find? (fun y => y.1 = q) := by
  refine ⟨vs.foldl (mapInsert lt) [], ?_, setFold_increasing (lt := fun a b : κ × ν => lt a.1 b.1) (fun _ _ _ h1 h2 => ho.trans h1 h2) [] vs .nil, fun q => ?_⟩
  · intro v0 rest e he _
    have h' : ItemsText (fun v t => ReadsAt (fieldSer SK SV).de (fieldSer SK SV).dflt t v) c%'}' vs t := by
      refine items_imp ?_ h
      rintro v t ⟨kt, g1, g2, vt, rfl, h1, h2, h3, h4, h5⟩
      exact deField_reads h4 h1 h2 h3 h5
    have := deSeq_items (K := mapColl κ ν lt) (.inr rfl) (L := c%'{') (by decide) h' v0 rest he
    simpa [dictSer, seqSer, mapColl] using this
  · simpa using mapFold_find ho [] vs q .nil

/-- A dictionary from strings to integers: the hypotheses are met. -/
example : RT strSer b!"a" b!"\"a\"" ∧ RT boolSer true b!"true" := by
  refine ⟨?_, boolSer_rt true⟩
  have h : StrOk b!"a" := by
    refine ⟨?_, by decide, by decide⟩
    rintro ⟨u, hu, _, h5⟩
    have := hu.length_le
    simp only [List.length_cons, List.length_nil] at this
    omega
  have := strSer_rt h
  rwa [show (c%'"' :: strBody false b!"a" ++ b!"\"") = b!"\"a\"" by decide +kernel] at this

/-- Byte strings compared as `std::string` compares them. -/
def strLt (a b : Bytes) : Bool := decide (a < b)

example : (dictSer (seqColl (Bytes × Int)) strSer (intSer .strict .int)).de [] b!"{\"a\" : 1,\"b\":2, \"a\":3}" .fresh =
    .ok ([(b!"a", 1), (b!"b", 2), (b!"a", 3)], [], .fresh) := by decide +kernel
example : (dictSer (mapColl Int Int intLt) (intSer .strict .int) (intSer .strict .int)).de [] b!"{5:1,3:2,5:3}" .fresh =
    .ok ([(3, 2), (5, 1)], [], .fresh) := by decide +kernel
example : (dictSer (mapColl Bytes Int strLt) strSer (intSer .strict .int)).de [] b!"{\"b\" : 1,\"a\":2, \"b\":3}" .fresh =
    .ok ([(b!"a", 2), (b!"b", 1)], [], .fresh) := by decide +kernel

end Wjson
