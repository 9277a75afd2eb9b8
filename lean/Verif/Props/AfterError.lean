import Verif.Proofs.AfterError
import Verif.Props.Parser
import Verif.Props.Exact
/-
C58: what the variable holds after an error has been reported.
-/
namespace Wjson
open Spec

/-! ### C58 -/

/-- C58. An integer is zero after an error (unless the text is empty). -/
theorem C58_int {c : Cfg} {ty : IntTy} {v0 v : Int} {s p : Bytes} {e e' : EPtr} (he : e.Clean) (hs : s ≠ [])
    (h : (intSer c ty).de v0 s e = .ok (v, p, e')) (hf : e'.failed = true) : v = 0 := by
  simp only [intSer, deInt] at h
  split at h
  · cases h; rfl
  · cases s with
    | nil => exact absurd rfl hs
    | cons b t =>
      simp only [unserializeInteger] at h
      split at h
      · cases h; rfl
      · split at h
        · cases h; rfl
        · split at h
          · cases h; rfl
          · obtain ⟨r, _, h⟩ := Out.bind_eq_ok.mp h
            obtain ⟨x, _, h⟩ := Out.bind_eq_ok.mp h
            cases h
            rw [he.not_failed] at hf
            cases hf

/-- C58. A Boolean is true after an error exactly if the text starts with a `t`. -/
theorem C58_bool {v0 v : Bool} {s p : Bytes} {e e' : EPtr} (hs : s ≠ [])
    (h : boolSer.de v0 s e = .ok (v, p, e')) : v = true ↔ s.head? = some c%'t' := by
  cases s with
  | nil => exact absurd rfl hs
  | cons b t =>
    simp only [boolSer, deBool] at h
    split at h
    · next hn =>
      cases h
      simp only [isNull, beq_iff_eq, decide_eq_true_eq] at hn
      simp [hn]
    · split at h
      · next h1 => cases h; simpa using h1
      · next h1 =>
        have hb : b ≠ c%'t' := by simpa using h1
        split at h <;> (cases h; simp [hb])

/-- C58. An enumeration has its default value after an error. -/
theorem C58_enum {c : Cfg} {α : Type} [DecidableEq α] {strict : Bool} {dflt : α} {L : List (Bytes × α)} {v0 v : α} {s p : Bytes}
    {e e' : EPtr} (he : e.Clean) (h : (enumSer c strict dflt L).de v0 s e = .ok (v, p, e')) (hf : e'.failed = true) : v = dflt := by
  simp only [enumSer, deEnum] at h
  split at h
  · cases h; rfl
  · split at h
    · cases h; rfl
    · split at h
      · cases h; rfl
      · split at h
        · cases h; rfl
        · split at h
          · cases h
            rw [he.not_failed] at hf
            cases hf
          · split at h <;> (cases h; rfl)

/-- C58. A size is zero after an error (unless the text is empty). -/
theorem C58_size {c : Cfg} {ty : IntTy} {metric v0 v : Int} {s p : Bytes} {e e' : EPtr} (he : e.Clean) (hs : s ≠ [])
    (h : (sizeSer c ty metric).de v0 s e = .ok (v, p, e')) (hf : e'.failed = true) : v = 0 := by
  cases s with
  | nil => exact absurd rfl hs
  | cons b t =>
    simp only [sizeSer, deSize] at h
    split at h
    · cases h; rfl
    · split at h
      · exact C58_int he (by simp) (v0 := 0) h hf
      · split at h
        · cases h; rfl
        · obtain ⟨r, _, h⟩ := Out.bind_eq_ok.mp h
          split at h
          · cases h; rfl
          · next hr =>
            obtain ⟨buf, _, h⟩ := Out.bind_eq_ok.mp h
            obtain ⟨q, _, h⟩ := Out.bind_eq_ok.mp h
            simp only [sizeApply] at h
            split at h
            · cases h; rfl
            · next hq =>
              split at h
              · cases h
                rw [hf] at hq
                exact absurd rfl hq
              · split at h
                · cases h; rfl
                · obtain ⟨x, _, h⟩ := Out.bind_eq_ok.mp h
                  obtain ⟨y, _, h⟩ := Out.bind_eq_ok.mp h
                  cases h
                  rw [hf] at hq
                  exact absurd rfl hq

/-- C58. A raw value is the rest of the text after an error. -/
theorem C58_raw {c : Cfg} {v0 v s p : Bytes} {e e' : EPtr} (he : e.Clean) (h : (rawSer c).de v0 s e = .ok (v, p, e'))
    (hf : e'.failed = true) : v = s := by
  simp only [rawSer, deRaw] at h
  obtain ⟨⟨q, e1⟩, h1, h⟩ := Out.bind_eq_ok.mp h
  cases h
  have : p = [] := C04_error_returns_end (c := c) (f := parseValue c) (by simp [parserFns]) he h1 hf
  subst this
  simp [consumed]

/-- C58. A raw value that has to be in quotes: after an error it is empty, or the
value of the text if only the closing quote is missing, or what it was before if
there is no opening quote. -/
theorem C58_raw_quoted {c : Cfg} {serQ : Bool} {v0 v s p : Bytes} {e e' : EPtr} (he : e.Clean)
    (h : (rawQuotedSer c serQ true).de v0 s e = .ok (v, p, e')) (hf : e'.failed = true) :
    (s.head? ≠ some c%'"' ∧ v = v0) ∨
    ∃ t, s = c%'"' :: t ∧
      ((v = [] ∧ ∀ x q, t = x ++ q → XValue x → ¬ (RNumber x → NumFollow x q)) ∨
       ∃ q, t = v ++ q ∧ XValue v ∧ q.head? ≠ some c%'"') := by
  cases s with
  | nil => cases h; exact .inl ⟨by simp, rfl⟩
  | cons b t =>
    simp only [rawQuotedSer, deRawQuoted, Bool.true_and, decide_eq_true_eq, if_true] at h
    by_cases hb : b = c%'"'
    · rw [if_neg (by simp [hb])] at h
      subst hb
      refine .inr ⟨t, rfl, ?_⟩
      obtain ⟨⟨q, e1⟩, h1, h⟩ := Out.bind_eq_ok.mp h
      by_cases h1f : e1.failed = true
      · rw [if_pos h1f] at h
        cases h
        refine .inl ⟨rfl, ?_⟩
        intro x q' hx hv hn
        have := parseValue_acc_iff (c := c).mpr ⟨x, hx, hv, hn⟩ e
        rw [h1] at this
        cases this
        rw [he.not_failed] at h1f
        cases h1f
      · rw [if_neg h1f] at h
        obtain ⟨x, h2, hx, _⟩ := parseValue_acc_iff.mp (AccO.of_clean (parseValue_scan c _) he h1 (by simpa using h1f))
        have hc : consumed t q = x := by rw [h2, consumed_append]
        cases q with
        | nil =>
          cases h
          exact .inr ⟨[], by rw [hc, h2], hc ▸ hx, by simp⟩
        | cons d q =>
          simp only at h
          split at h
          · cases h
            exact absurd hf h1f
          · next hd =>
            cases h
            exact .inr ⟨d :: q, by rw [hc, h2], hc ▸ hx, by simpa using hd⟩
    · rw [if_pos (by simpa using hb)] at h
      cases h
      exact .inl ⟨by simpa using hb, rfl⟩

/-! #### Sequences -/

section
variable {α C : Type} {K : Coll α C} {S : Ser α} {R : Byte}

/-- C58. When an element of a sequence cannot be read, the sequence holds the
elements before it and, last, what was read of the offending element. -/
theorem C58_element {vs : List α} {t : Bytes} (h : ItemsComma (fun v t => ReadsAt S.de S.dflt t v) vs t) {g bad : Bytes} (hg : Gap g)
    (hb : Start bad) {x : α} {e e' : EPtr} (he : e.Clean) (hbad : S.de S.dflt bad e = .ok (x, [], e')) (hf : e'.failed = true)
    (k0 : C) : (arraySer K S).de k0 (c%'[' :: (t ++ g ++ bad)) e = .ok (K.insert (vs.foldl K.insert K.clear) x, [], e') :=
  deSeq_element (K := K) (L := c%'[') (.inl rfl) (by decide) h hg hb he hbad hf k0

/-- C58. When the text ends, the sequence holds the elements before the end. -/
theorem C58_end {vs : List α} {t : Bytes} (h : ItemsComma (fun v t => ReadsAt S.de S.dflt t v) vs t) {e : EPtr} (he : e.Clean)
    (k0 : C) : (arraySer K S).de k0 (c%'[' :: t) e = .ok (vs.foldl K.insert K.clear, [], .obj ⟨.UnexpectedEndFragment, none, 0⟩) :=
  deSeq_end (K := K) (L := c%'[') (.inl rfl) (by decide) h he k0

/-- C58. A text that does not start with a bracket leaves the sequence empty. -/
theorem C58_bracket {k0 k : C} {s p : Bytes} {e e' : EPtr} (hs : s.head? ≠ some c%'[')
    (h : (arraySer K S).de k0 s e = .ok (k, p, e')) : k = K.clear := by
  replace h : deSeq K S c%'[' c%']' k0 s e = .ok (k, p, e') := h
  simp only [deSeq] at h
  split at h
  · cases h; rfl
  · cases s with
    | nil => cases h; rfl
    | cons b t =>
      simp only at h
      rw [if_pos (by simpa using hs)] at h
      cases h; rfl

/-- C58. A text that starts neither with a bracket nor with `n` leaves a
fixed-size array as it was. -/
theorem C58_fixed_bracket {N : Nat} {kind : FixKind} {v0 v : List α} {s p : Bytes} {e e' : EPtr} (hs : s.head? ≠ some c%'[')
    (hn : s.head? ≠ some c%'n') (h : (fixSer kind N S).de v0 s e = .ok (v, p, e')) : v = v0 := by
  replace h : deFix kind S c%'[' c%']' v0 s e = .ok (v, p, e') := h
  simp only [deFix] at h
  rw [if_neg (by cases s <;> simp_all [isNull])] at h
  cases s with
  | nil => cases h; rfl
  | cons b t =>
    simp only at h
    rw [if_pos (by simpa using hs)] at h
    cases h; rfl

end

section
variable {κ ν C : Type} {K : Coll (κ × ν) C} {SK : Ser κ} {SV : Ser ν}

/-- C58. When the value of an entry of a dictionary cannot be read, the dictionary
holds the entries before it and, last, the key with what was read of the value. -/
theorem C58_entry {xs : List (κ × ν)} {t : Bytes} (h : ItemsComma (EntryReads SK SV) xs t) {g tk g1 g2 bad : Bytes} (hg : Gap g)
    (hk : Start tk) (h1 : Gap g1) (h2 : Gap g2) (hb : Start bad) {k : κ} (hkr : ReadsAt SK.de SK.dflt tk k) {x : ν} {e e' : EPtr}
    (he : e.Clean) (hbad : SV.de SV.dflt bad e = .ok (x, [], e')) (hf : e'.failed = true) (k0 : C) :
    (dictSer K SK SV).de k0 (c%'{' :: (t ++ g ++ (tk ++ (g1 ++ c%':' :: (g2 ++ bad))))) e =
      .ok (K.insert (xs.foldl K.insert K.clear) (k, x), [], e') := by
  refine deSeq_element (K := K) (S := fieldSer SK SV) (L := c%'{') (.inr rfl) (by decide) ?_ hg ?_ he ?_ hf k0
  · clear hbad
    induction h with
    | nil => exact .nil
    | cons a b c d _ ih => exact .cons a b c.reads d ih
  · obtain ⟨b, u, rfl, hk⟩ := hk
    exact ⟨b, _, rfl, hk⟩
  · have hc : Delim (g1 ++ c%':' :: (g2 ++ bad)) := gap_delim h1 (Delim.of_head rfl (by decide))
    have hs1 : parseSpace (g1 ++ c%':' :: (g2 ++ bad)) e = (c%':' :: (g2 ++ bad), e) :=
      parseSpace_before (.mk' h1 (by simp)) (by intro y hy; simp at hy; subst hy; decide) e
    obtain ⟨b, u, rfl, a1, a2, _, _, _, _, a7⟩ := hb
    have hs2 : parseSpace (g2 ++ b :: u) e = (b :: u, e) :=
      parseSpace_before (.mk' h2 (by simpa using a7)) (by intro y hy; simp at hy; subst hy; exact ⟨a1, a2⟩) e
    show deField SK SV (SK.dflt, SV.dflt) _ e = _
    simp only [deField]
    rw [hkr _ e he.not_failed hc, Out.bind_ok]
    simp only [hs1]
    rw [if_neg (by simp)]
    simp only [hs2]
    rw [hbad, Out.bind_ok]

/-- C58. A text that does not start with a brace leaves the dictionary empty. -/
theorem C58_dict_bracket {k0 k : C} {s p : Bytes} {e e' : EPtr} (hs : s.head? ≠ some c%'{')
    (h : (dictSer K SK SV).de k0 s e = .ok (k, p, e')) : k = K.clear := by
  replace h : deSeq K (fieldSer SK SV) c%'{' c%'}' k0 s e = .ok (k, p, e') := h
  simp only [deSeq] at h
  split at h
  · cases h; rfl
  · cases s with
    | nil => cases h; rfl
    | cons b t =>
      simp only at h
      rw [if_pos (by simpa using hs)] at h
      cases h; rfl

end

/-! #### Structures -/

section
variable {τ : Type} {c : Cfg} {strict : Bool}

/-- C58. When the value of a member cannot be read, the members before it have
their values, the member holds what was read of the value, and the other parts of
the structure are as before. -/
theorem C58_member {dflt : τ} {L : List (DEntry τ)} (hM : ∀ d ∈ L, ∃ f, Meaning c f d.entry.ref.ser d.den)
    (hn : ∀ d ∈ L, PlainName d.name) (hnd : (L.map DEntry.name).Nodup) {items : List (Bytes × Bytes)} {s0 : Bytes}
    (h : Opened items s0) {t t' : τ} {cur : List (DEntry τ)} (hrun : Run strict L L items t t' (some cur)) (hcur : cur ≠ [])
    {d : DEntry τ} (hd : d ∈ L) {g1 g2 bad : Bytes} (h1 : Gap g1) (h2 : Gap g2) (hb : Start bad) {x : d.entry.ref.α}
    {e e' : EPtr} (he : e.Clean) (hbad : d.entry.ref.ser.de (d.entry.start t') bad e = .ok (x, [], e')) (hf : e'.failed = true)
    (hmax : (s0 ++ (quoted d.name ++ (g1 ++ c%':' :: (g2 ++ bad)))).length ≤ intMax) :
    (objectSer c strict dflt (L.map fun d => d.entry.toMember)).de t (s0 ++ (quoted d.name ++ (g1 ++ c%':' :: (g2 ++ bad)))) e =
      .ok (d.entry.ref.set x t', [], e') := by
  have hs2 : parseSpace [] e' = ([], e') := parseSpace_stop (p := []) (by intro y hy; simp at hy) e'
  refine deObject_before (fun d hd => (hM d hd).choose_spec.inner.toAccepts) hn hnd h hrun he.not_failed hmax hf (by simp [quoted]) (by simp [quoted])
    (fun g hg => gap_then_quote hg _ _ e) ?_
  intro m hm
  cases m with
  | zero => omega
  | succ m =>
  cases cur with
  | nil => exact absurd rfl hcur
  | cons d1 cur =>
  simp only [List.map_cons, membersF]
  by_cases hdn : d.name = d1.name
  · have hd1 : d1 ∈ L := hrun.cursor (fun _ h => h) d1 (by simp)
    have : d = d1 := nodup_inj hnd hd hd1 hdn
    subst this
    rw [entry_bad (hn d hd).1 hb h1 h2 hbad]
    simp only [Out.bind_ok, if_true, hs2, createError_failed hf]
  · rw [Entry.skips (en := d1.entry) (keyDiffers_names (hn d hd).1 hdn)]
    simp only [Out.bind_ok, Bool.false_eq_true, if_false]
    rw [search_bad (fun d hd => (hn d hd).1) hnd hd hb h1 h2 hbad]
    simp only [Out.bind_ok, hs2, createError_failed hf]

/-- C58. When a member with an unknown key is refused, the members before it have
their values and the other parts of the structure are as before. -/
theorem C58_unknown {dflt : τ} {L : List (DEntry τ)} (hM : ∀ d ∈ L, ∃ f, Meaning c f d.entry.ref.ser d.den)
    (hn : ∀ d ∈ L, PlainName d.name) (hnd : (L.map DEntry.name).Nodup) {items : List (Bytes × Bytes)} {s0 : Bytes}
    (h : Opened items s0) {t t' : τ} {cur : List (DEntry τ)} (hrun : Run strict L L items t t' (some cur)) (hcur : cur ≠ [])
    {k u : Bytes} (hk : c%'"' ∉ k) (hkn : k ∉ L.map DEntry.name) {e : EPtr} (he : e.Clean)
    (hbad : strict = false → ∃ p e1, parseMember c (quoted k ++ u) e = .ok (p, e1) ∧ e1.failed = true)
    (hmax : (s0 ++ (quoted k ++ u)).length ≤ intMax) :
    ∃ e', (objectSer c strict dflt (L.map fun d => d.entry.toMember)).de t (s0 ++ (quoted k ++ u)) e = .ok (t', [], e') ∧
      e'.failed = true ∧ (strict = true → e' = .obj ⟨.InvalidMember, none, ((quoted k ++ u).length : Nat)⟩) ∧
      (strict = false → ∃ p, parseMember c (quoted k ++ u) e = .ok (p, e')) := by
  have hall : ∀ m ∈ L.map (fun d : DEntry τ => d.entry.toMember), MSkips m k := by
    intro m hm
    obtain ⟨d', hd', rfl⟩ := List.mem_map.mp hm
    refine Entry.skips (keyDiffers_names hk ?_)
    rintro rfl
    exact hkn (List.mem_map_of_mem hd')
  have hlast : ∃ e', searchMembers c strict [] t' (quoted k ++ u) e = .ok (t', [], e') ∧ e'.failed = true ∧
      (strict = true → e' = .obj ⟨.InvalidMember, none, ((quoted k ++ u).length : Nat)⟩) ∧
      (strict = false → ∃ p, parseMember c (quoted k ++ u) e = .ok (p, e')) := by
    cases strict with
    | true => exact ⟨_, rfl, he.create (c := .InvalidMember) (by decide) none _, fun _ => he.set .InvalidMember none _, nofun⟩
    | false =>
      obtain ⟨p, e1, hp, hf⟩ := hbad rfl
      have : p = [] := C04_error_returns_end (c := c) (f := parseMember c) (by simp [parserFns]) he hp hf
      subst this
      have hs2 : parseSpace [] e1 = ([], e1) := parseSpace_stop (p := []) (by intro y hy; simp at hy) e1
      refine ⟨e1, ?_, hf, nofun, fun _ => ⟨_, hp⟩⟩
      simp only [searchMembers, Bool.not_false, if_true, hp, Out.bind_ok, hs2]
  obtain ⟨e', hlast, hf, hex⟩ := hlast
  have hs2 : parseSpace [] e' = ([], e') := parseSpace_stop (p := []) (by intro y hy; simp at hy) e'
  refine ⟨e', ?_, hf, hex⟩
  refine deObject_before (fun d hd => (hM d hd).choose_spec.inner.toAccepts) hn hnd h hrun he.not_failed hmax hf (by simp [quoted]) (by simp [quoted])
    (fun g hg => gap_then_quote hg _ _ e) ?_
  intro m hm
  cases m with
  | zero => omega
  | succ m =>
  cases cur with
  | nil => exact absurd rfl hcur
  | cons d1 cur =>
  have hd1 : d1 ∈ L := hrun.cursor (fun _ h => h) d1 (by simp)
  simp only [List.map_cons, membersF]
  rw [hall _ (List.mem_map_of_mem (f := fun d : DEntry τ => d.entry.toMember) hd1) t' _ e false]
  simp only [Out.bind_ok, Bool.false_eq_true, if_false]
  rw [searchMembers_missing hall, hlast]
  simp only [Out.bind_ok, hs2, createError_failed hf]

/-- C58. A text that starts with none of `{`, `[`, `n` leaves the structure as it
was. -/
theorem C58_object_bracket {dflt : τ} {L : List (Member τ)} {t t' : τ} {s p : Bytes} {e e' : EPtr} (h1 : s.head? ≠ some c%'{')
    (h2 : s.head? ≠ some c%'[') (h3 : s.head? ≠ some c%'n') (h : (objectSer c strict dflt L).de t s e = .ok (t', p, e')) : t' = t := by
  replace h : deObject c strict dflt L t s e = .ok (t', p, e') := h
  simp only [deObject] at h
  rw [if_neg (by cases s <;> simp_all [isNull])] at h
  cases s with
  | nil => cases h; rfl
  | cons b q =>
    simp only at h
    rw [if_pos (by simpa using h1), if_neg (by simpa using h2)] at h
    cases h; rfl

end

/-! #### Cases -/

example : ∃ e, (intSer .strict .int).de 7 b!"-x" .fresh = .ok (0, [], e) ∧ e.failed = true := ⟨_, rfl, rfl⟩
example : ∃ e, boolSer.de false b!"tree" .fresh = .ok (true, [], e) ∧ e.failed = true := ⟨_, rfl, rfl⟩
example : ∃ e, (rawSer .strict).de [] b!"x,1" .fresh = .ok (b!"x,1", [], e) ∧ e.failed = true := ⟨_, rfl, rfl⟩
example : ∃ e, (arraySer (seqColl Int) (intSer .strict .int)).de [7] b!"[1,2,x]" .fresh = .ok ([1, 2, 0], [], e) ∧ e.failed = true :=
  ⟨_, rfl, rfl⟩
example : ∃ e, (arraySer (seqColl Int) (intSer .strict .int)).de [7] b!"1,2" .fresh = .ok ([], [], e) ∧ e.failed = true := ⟨_, rfl, rfl⟩
example : ∃ e, (fixSer .stdArray 2 (intSer .strict .int)).de [7, 8] b!"1,2" .fresh = .ok ([7, 8], [], e) ∧ e.failed = true :=
  ⟨_, rfl, rfl⟩
example : ∃ e, (dictSer (seqColl (Bytes × Int)) strSer (intSer .strict .int)).de [] b!"{\"a\":1, \"b\" :x}" .fresh =
    .ok ([(b!"a", 1), (b!"b", 0)], [], e) ∧ e.failed = true := by
  refine ⟨.obj ⟨.InvalidNumber, none, 2⟩, ?_, rfl⟩
  decide +kernel

/-- The second member cannot be read: the first one is stored, the second one holds
the element before the error and what was read of the bad one, the third one is
as before. -/
example : ∃ e, (demoRecSer .strict).de ⟨5, [[true]], [(b!"x", b!"y")]⟩ b!"{\"a\":7, \"b\" :[[false],[true,x]],\"c\":{}}" .fresh =
    .ok (⟨7, [[false], [true, false]], [(b!"x", b!"y")]⟩, [], e) ∧ e.failed = true := by
  have hbad : ∃ e, (arraySer (seqColl _) (arraySer (seqColl _) boolSer)).de [] b!"[[false],[true,x]],\"c\":{}}" .fresh =
      .ok ([[false], [true, false]], [], e) ∧ e.failed = true := ⟨_, rfl, rfl⟩
  obtain ⟨e, hbad, hf⟩ := hbad
  have d1 : IntDen .strict .int 5 7 b!"7" := .inr ⟨7, ⟨[], b!"7", rfl, .inl rfl, .inr ⟨_, _, rfl, by decide, by decide⟩, by decide⟩,
    .inl ⟨by unfold IntTy.InRange; decide, by unfold IntTy.InRange; decide, rfl⟩⟩
  have ho : Opened [(b!"a", b!"7")] b!"{\"a\":7, " :=
    .next (r := b!"{\"a\":7") (g := b!" ")
      (.items (g := []) .nil (.one (k := b!"a") (g1 := []) (g2 := []) (g3 := []) .nil .nil ⟨_, _, rfl, by decide⟩ .nil))
      (by simp) (.ws (by decide) .nil)
  have hr : Run false (demoRec .strict) (demoRec .strict) [(b!"a", b!"7")] ⟨5, [[true]], [(b!"x", b!"y")]⟩
      ⟨7, [[true]], [(b!"x", b!"y")]⟩ (some (demoRec .strict).tail) := .next ⟨_, d1, rfl⟩ .done
  have hm : ∀ d ∈ demoRec .strict, ∃ f, Meaning .strict f d.entry.ref.ser d.den := by
    intro d hd
    simp only [demoRec, List.mem_cons, List.not_mem_nil, or_false] at hd
    rcases hd with rfl | rfl | rfl
    · exact ⟨_, .int (by unfold IntTy.Std; decide)⟩
    · exact ⟨_, .array (K := seqColl (List Bool)) (.array (K := seqColl Bool) .bool)⟩
    · exact ⟨_, .dict (K := seqColl (Bytes × Bytes)) .str .str⟩
  have hn : ∀ n ∈ (demoRec .strict).map DEntry.name, PlainName n := by
    show ∀ n ∈ [b!"a", b!"b", b!"c"], PlainName n
    unfold PlainName
    decide
  refine ⟨e, ?_, hf⟩
  exact C58_member (c := .strict) (strict := false) (dflt := ⟨0, [], []⟩) hm (fun d hd => hn _ (List.mem_map_of_mem hd)) (by decide) ho hr (by simp [demoRec])
    (d := (demoRec .strict)[1]) (List.getElem_mem _) (g1 := b!" ") (g2 := []) (.ws (by decide) .nil) .nil ⟨_, _, rfl, by decide⟩
    EPtr.fresh_clean hbad hf (by decide)

/-- A strict description and an unknown key. -/
example : ∃ e, (objectSer .strict true ⟨0, [], []⟩ ((demoRec .strict).map fun d => d.entry.toMember)).de ⟨5, [[true]], []⟩
    b!"{\"a\":7,\"z\":1}" .fresh = .ok (⟨7, [[true]], []⟩, [], e) ∧ e.failed = true := ⟨_, rfl, rfl⟩

/-- A text that ends within a key: the member the cursor is at is read from the
empty text, which empties a container. -/
example : ∃ e, (objectSer .strict true ⟨0, [], []⟩ ((demoRec .strict).map fun d => d.entry.toMember)).de ⟨5, [], [(b!"x", b!"y")]⟩
    b!"{\"a\":7,\"b\":[],\"c" .fresh = .ok (⟨7, [], []⟩, [], e) ∧ e.failed = true := ⟨_, rfl, rfl⟩

end Wjson
