import Verif.Proofs.AfterError2
import Verif.Props.AfterError
import Verif.Props.Flags
/-
C58, continued: a missing comma, fixed-size arrays, structures as arrays, time
intervals and flags.
-/
namespace Wjson
open Spec

/-! #### Sequences -/

section
variable {α C : Type} {K : Coll α C} {S : Ser α}

/-- C58. When the comma after an element is missing, the sequence holds the
elements up to this one. -/
theorem C58_missing_comma {vs : List α} {t : Bytes} (h : ItemsComma (fun v t => ReadsAt S.de S.dflt t v) vs t) {g tv g2 stop : Bytes}
    {v : α} (hg : Gap g) (hv : Start tv) (hr : ReadsAt S.de S.dflt tv v) (h2 : Gap g2) (hs : Astray c%']' stop) {e : EPtr}
    (he : e.Clean) (k0 : C) :
    (arraySer K S).de k0 (c%'[' :: (t ++ g ++ tv ++ g2 ++ stop)) e =
      .ok (K.insert (vs.foldl K.insert K.clear) v, [], .obj (missing b!"," stop)) :=
  deSeq_astray (K := K) (L := c%'[') (.inl rfl) (by decide) h hg hv hr h2 hs he k0

variable {N : Nat} {kind : FixKind}

/-- C58. When an element of a fixed-size array cannot be read, the elements before
it have their values, it holds what was read, the elements after it are as
before. `xs` are the elements before it: the old value and the new one. -/
theorem C58_fixed_element {xs : List (α × α)} {t : Bytes} (h : ItemsComma (fun x t => ReadsAt S.de (kind.start S x.1) t x.2) xs t)
    {g bad : Bytes} (hg : Gap g) (hb : Start bad) {old x : α} {e e' : EPtr} (he : e.Clean)
    (hbad : S.de (kind.start S old) bad e = .ok (x, [], e')) (hf : e'.failed = true) (rest : List α) :
    (fixSer kind N S).de (xs.map Prod.fst ++ old :: rest) (c%'[' :: (t ++ (g ++ bad))) e =
      .ok (xs.map Prod.snd ++ x :: rest, [], e') :=
  deFix_before (L := c%'[') (by decide) (.inl rfl) h he.not_failed (fixLoop_bad (.inl rfl) hg hb hbad hf rest)

/-- C58. When the text ends after a comma, the elements before it have their
values, the others are as before. -/
theorem C58_fixed_end {xs : List (α × α)} {t : Bytes} (h : ItemsComma (fun x t => ReadsAt S.de (kind.start S x.1) t x.2) xs t)
    {old : α} {e : EPtr} (he : e.Clean) (rest : List α) :
    (fixSer kind N S).de (xs.map Prod.fst ++ old :: rest) (c%'[' :: t) e =
      .ok (xs.map Prod.snd ++ old :: rest, [], .obj ⟨.UnexpectedEndFragment, none, 0⟩) := by
  have h1 := fixLoop_end (k := kind) (S := S) (R := c%']') old rest he
  have := deFix_before (L := c%'[') (by decide) (.inl rfl) h he.not_failed h1
  rwa [List.append_nil] at this

/-- C58. When the comma after an element is missing, the elements up to this one
have their values, the others are as before. -/
theorem C58_fixed_missing_comma {xs : List (α × α)} {t : Bytes}
    (h : ItemsComma (fun x t => ReadsAt S.de (kind.start S x.1) t x.2) xs t) {g tv g2 stop : Bytes} {old v : α} (hg : Gap g)
    (hv : Start tv) (hr : ReadsAt S.de (kind.start S old) tv v) (h2 : Gap g2) (hs : Astray c%']' stop) {e : EPtr} (he : e.Clean)
    (rest : List α) :
    (fixSer kind N S).de (xs.map Prod.fst ++ old :: rest) (c%'[' :: (t ++ (g ++ (tv ++ (g2 ++ stop))))) e =
      .ok (xs.map Prod.snd ++ v :: rest, [], .obj (missing (if kind = .stdArray then [] else b!",") stop)) := by
  have h1 := fixLoop_astray (k := kind) (S := S) (R := c%']') (.inl rfl) hg hv hr h2 hs he rest
  have := deFix_before (L := c%'[') (by decide) (.inl rfl) h he.not_failed h1
  cases kind <;> exact this

end

section
variable {κ ν C : Type} {K : Coll (κ × ν) C} {SK : Ser κ} {SV : Ser ν}

theorem itemsComma_entries {xs : List (κ × ν)} {t : Bytes} (h : ItemsComma (EntryReads SK SV) xs t) :
    ItemsComma (fun v t => ReadsAt (fieldSer SK SV).de (fieldSer SK SV).dflt t v) xs t := by
  induction h with
  | nil => exact .nil
  | cons a b c d _ ih => exact .cons a b c.reads d ih

/-- C58. When the comma after an entry is missing, the dictionary holds the entries
up to this one. -/
theorem C58_dict_missing_comma {xs : List (κ × ν)} {t : Bytes} (h : ItemsComma (EntryReads SK SV) xs t) {g tv g2 stop : Bytes}
    {x : κ × ν} (hg : Gap g) (hv : Start tv) (hr : EntryReads SK SV x tv) (h2 : Gap g2) (hs : Astray c%'}' stop) {e : EPtr}
    (he : e.Clean) (k0 : C) :
    (dictSer K SK SV).de k0 (c%'{' :: (t ++ g ++ tv ++ g2 ++ stop)) e =
      .ok (K.insert (xs.foldl K.insert K.clear) x, [], .obj (missing b!"," stop)) :=
  deSeq_astray (K := K) (S := fieldSer SK SV) (L := c%'{') (.inr rfl) (by decide) (itemsComma_entries h) hg hv hr.reads h2 hs he k0

/-- C58. When the text ends after a comma, the dictionary holds the entries before
it. -/
theorem C58_dict_end {xs : List (κ × ν)} {t : Bytes} (h : ItemsComma (EntryReads SK SV) xs t) {e : EPtr} (he : e.Clean) (k0 : C) :
    (dictSer K SK SV).de k0 (c%'{' :: t) e = .ok (xs.foldl K.insert K.clear, [], .obj ⟨.UnexpectedEndFragment, none, 0⟩) :=
  deSeq_end (K := K) (S := fieldSer SK SV) (L := c%'{') (.inr rfl) (by decide) (itemsComma_entries h) he k0

end

/-! #### Structures -/

section
variable {τ : Type} {c : Cfg} {strict : Bool}

/-- C58. When the comma after a member is missing, the members up to this one have
their values and the other parts of the structure are as before. -/
theorem C58_member_missing_comma {dflt : τ} {L : List (DEntry τ)} (hM : ∀ d ∈ L, ∃ f, Meaning c f d.entry.ref.ser d.den)
    (hn : ∀ d ∈ L, PlainName d.name) (hnd : (L.map DEntry.name).Nodup) {items : List (Bytes × Bytes)} {s0 : Bytes}
    (h : Opened items s0) {t t' t'' : τ} {cur : List (DEntry τ)} (hrun : Run strict L L items t t' (some cur)) (hcur : cur ≠ [])
    {d : DEntry τ} (hd : d ∈ L) {g1 g2 tv g3 stop : Bytes} (h1 : Gap g1) (h2 : Gap g2) (hv : Start tv) (hst : d.stores t' t'' tv)
    (h3 : Gap g3) (hs : Astray c%'}' stop) {e : EPtr} (he : e.Clean)
    (hmax : (s0 ++ (quoted d.name ++ (g1 ++ c%':' :: (g2 ++ (tv ++ (g3 ++ stop)))))).length ≤ intMax) :
    (objectSer c strict dflt (L.map fun d => d.entry.toMember)).de t
      (s0 ++ (quoted d.name ++ (g1 ++ c%':' :: (g2 ++ (tv ++ (g3 ++ stop)))))) e = .ok (t'', [], .obj (missing b!"}" stop)) := by
  have hS : ∀ d ∈ L, Accepts d.entry.ref.ser d.den := fun d hd => (hM d hd).choose_spec.inner.toAccepts
  have hdl : Delim (g3 ++ stop) := gap_delim h3 hs.delim
  have hl : tv.length ≤ intMax := by simp only [List.length_append, List.length_cons] at hmax; omega
  have hq : ∀ d ∈ L, c%'"' ∉ d.name := fun d hd => (hn d hd).1
  have hend : (match stop with
      | [] => Out.ok (t'', ([] : Bytes), createError .UnexpectedEndFragment e)
      | b :: p => if b = c%',' then .ub else membersEnd t'' (b :: p) e) = .ok (t'', [], .obj (missing b!"}" stop)) := by
    cases stop with
    | nil => simp only [he.set, missing]
    | cons b q =>
      simp only
      rw [if_neg (by simpa using hs.comma)]
      simp only [membersEnd]
      rw [if_pos (by simpa using hs.close), he.set]
      rfl
  have hf : (EPtr.obj (missing b!"}" stop)).failed = true := by cases stop <;> rfl
  refine deObject_before hS hn hnd h hrun he.not_failed hmax hf (by simp [quoted]) (by simp [quoted])
    (fun g hg => gap_then_quote hg _ _ e) ?_
  intro m hm
  cases m with
  | zero => omega
  | succ m =>
  cases cur with
  | nil => exact absurd rfl hcur
  | cons d1 cur =>
  simp only [List.map_cons, membersF]
  by_cases hdn : d.name = d1.name
  · have hd1 : d1 ∈ L := hrun.cursor (fun _ h => h) d1 (by simp)
    have : d = d1 := nodup_inj hnd hd hd1 hdn
    subst this
    rw [entry_complete (hS d hd) (hq d hd) hst hv hl h1 h2 hdl he.not_failed]
    simp only [Out.bind_ok, if_true, parseSpace_astray h3 hs]
    cases stop with
    | nil => exact hend
    | cons b q =>
      simp only at hend ⊢
      rw [if_neg (by simpa using hs.comma)] at hend ⊢
      exact hend
  · rw [Entry.skips (en := d1.entry) (keyDiffers_names (hq d hd) hdn)]
    simp only [Out.bind_ok, Bool.false_eq_true, if_false]
    rw [search_complete hS hq hnd hd hst hv hl h1 h2 hdl he.not_failed]
    simp only [Out.bind_ok, parseSpace_astray h3 hs]
    cases stop with
    | nil => exact hend
    | cons b q =>
      simp only at hend ⊢
      rw [if_neg (by simpa using hs.comma)] at hend ⊢
      exact hend

/-- C58. A structure is as before after a text that starts with `[`, whatever
follows. -/
theorem C58_object_array_text {dflt : τ} {L : List (Member τ)} {t t' : τ} {s p : Bytes} {e e' : EPtr}
    (h : (objectSer c strict dflt L).de t (c%'[' :: s) e = .ok (t', p, e')) : t' = t := by
  replace h : deObject c strict dflt L t (c%'[' :: s) e = .ok (t', p, e') := h
  simp only [deObject] at h
  rw [if_neg (by simp [isNull])] at h
  rw [if_pos (by decide), if_pos trivial] at h
  obtain ⟨x, _, h⟩ := Out.bind_eq_ok.mp h
  split at h
  · cases h; rfl
  · split at h
    · cases h
    · cases h; rfl

/-- C58. A text that starts neither with a bracket nor with `n` leaves a structure
written as an array as it was. -/
theorem C58_positional_bracket {dflt : τ} {L : List (AMember τ)} {t t' : τ} {s p : Bytes} {e e' : EPtr} (h1 : s.head? ≠ some c%'[')
    (h2 : s.head? ≠ some c%'n') (h : (objectArraySer dflt L).de t s e = .ok (t', p, e')) : t' = t := by
  replace h : deObjectArray dflt L t s e = .ok (t', p, e') := h
  simp only [deObjectArray] at h
  rw [if_neg (by cases s <;> simp_all [isNull])] at h
  cases s with
  | nil => cases h; rfl
  | cons b q =>
    simp only at h
    rw [if_pos (by simpa using h1)] at h
    cases h; rfl

/-- C58. When an element of a structure written as an array cannot be read, the
members before it have their values, its member holds what was read, the others
are as before. -/
theorem C58_positional_element {dflt : τ} {L1 L2 : List (DEntry τ)} {d : DEntry τ}
    (hM : ∀ d ∈ L1, ∃ f, Meaning c f d.entry.ref.ser d.den) {ts : List Bytes} {r : Bytes} (h : ItemsComma (fun v t => v = t) ts r)
    {t t' : τ} (hp : Positional L1 ts t t') {g bad : Bytes} (hg : Gap g) (hb : Start bad) {x : d.entry.ref.α} {e e' : EPtr}
    (he : e.Clean) (hbad : d.entry.ref.ser.de (d.entry.start t') bad e = .ok (x, [], e')) (hf : e'.failed = true)
    (hmax : r.length ≤ intMax) :
    (objectArraySer dflt ((L1 ++ d :: L2).map fun d => d.entry.toAMember)).de t (c%'[' :: (r ++ (g ++ bad))) e =
      .ok (d.entry.ref.set x t', [], e') := by
  refine deObjectArray_before (dflt := dflt) (fun d hd => (hM d hd).choose_spec.inner.toAccepts) h hp hmax he.not_failed hg hb hf ?_
  simp only [List.map_cons, deAMembers]
  rw [aentry_bad hbad, Out.bind_ok]
  simp only [parseSpace_empty, createError_failed hf]

/-- C58. When the comma after an element is missing, the members up to this one
have their values, the others are as before. -/
theorem C58_positional_missing_comma {dflt : τ} {L1 L2 : List (DEntry τ)} {d : DEntry τ}
    (hM : ∀ d' ∈ d :: L1, ∃ f, Meaning c f d'.entry.ref.ser d'.den) {ts : List Bytes} {r : Bytes}
    (h : ItemsComma (fun v t => v = t) ts r) {t t' t'' : τ} (hp : Positional L1 ts t t') {g tv g2 stop : Bytes} (hg : Gap g)
    (hv : Start tv) (hst : d.stores t' t'' tv) (h2 : Gap g2) (hs : Astray c%']' stop) {e : EPtr} (he : e.Clean)
    (hmax : (r ++ tv).length ≤ intMax) :
    (objectArraySer dflt ((L1 ++ d :: L2).map fun d => d.entry.toAMember)).de t (c%'[' :: (r ++ (g ++ (tv ++ (g2 ++ stop))))) e =
      .ok (t'', [], .obj (missing b!"]" stop)) := by
  have hS : ∀ d' ∈ d :: L1, Accepts d'.entry.ref.ser d'.den := fun d hd => (hM d hd).choose_spec.inner.toAccepts
  rw [List.length_append] at hmax
  have hf : (EPtr.obj (missing b!"]" stop)).failed = true := by cases stop <;> rfl
  have hend : deAMembers ((d :: L2).map fun d => d.entry.toAMember) t' (tv ++ (g2 ++ stop)) e =
      .ok (t'', [], .obj (missing b!"]" stop)) := by
    simp only [List.map_cons, deAMembers]
    rw [aentry_complete (hS d (by simp)) hst (by omega) (gap_delim h2 hs.delim) he.not_failed]
    simp only [Out.bind_ok, parseSpace_astray h2 hs]
    cases stop with
    | nil => simp only [he.set, missing]
    | cons b q =>
      simp only [amembersEnd]
      rw [if_neg (by simpa using hs.comma), if_pos (by simpa using hs.close), he.set]
      rfl
  refine deObjectArray_before (dflt := dflt) (fun d hd => hS d (by simp [hd])) h hp (by omega) he.not_failed hg ?_ hf hend
  obtain ⟨b, u, rfl, hv⟩ := hv
  exact ⟨b, _, rfl, hv⟩

end

/-! #### Time intervals and flags -/

/-- C58. A time string whose next part cannot be read as a number, or that ends
before the closing quote, gives the sum of the parts before. -/
theorem C58_time {c : Cfg} {ty : IntTy} (hs : ty.Std) {fr v : Int} {s bad : Bytes} (h : TimeRun c ty fr 0 v (s ++ b!"\""))
    (hq : bad.head? ≠ some c%'"') (hbs : bad.head? ≠ some c%'s') (hbk : bad.head? ≠ some c%'k') {e e' : EPtr} (he : e.Clean) {x : Int}
    (hbad : (intSer c ty).de 0 bad e = .ok (x, [], e')) (hf : e'.failed = true) (v0 : Int) :
    (timeSer c ty fr).de v0 (c%'"' :: (s ++ bad)) e = .ok (v, [], e') := by
  simp only [timeSer, deTime]
  rw [if_neg (by simp [isNull]), if_neg (by rw [isNumber_head]; unfold Digit; decide), if_neg (by simp [isString])]
  refine timeLoop_before hs he.not_failed h rfl hbs hbk ?_ (Nat.lt_succ_self _)
  intro n hn
  replace hbad : deInt c ty 0 bad e = .ok (x, [], e') := hbad
  cases n with
  | zero => omega
  | succ n =>
    cases bad with
    | nil =>
      simp only [deInt] at hbad
      rw [if_neg (by simp [isNull])] at hbad
      simp only [unserializeInteger, Out.ok.injEq, Prod.mk.injEq] at hbad
      rw [← hbad.2.2]
      rfl
    | cons b u =>
      simp only [timeLoopF]
      rw [if_neg (by simpa using hq), hbad, Out.bind_ok]
      simp only
      rw [if_pos hf]

/-- C58. A time interval is zero after a text that is neither a number nor a
string nor `null`. -/
theorem C58_time_text {c : Cfg} {ty : IntTy} {fr v0 v : Int} {b : Byte} {s p : Bytes} {e e' : EPtr} (h1 : b ≠ c%'-')
    (h2 : ¬ Digit b) (h3 : b ≠ c%'"') (h : (timeSer c ty fr).de v0 (b :: s) e = .ok (v, p, e')) : v = 0 := by
  replace h : deTime c ty fr v0 (b :: s) e = .ok (v, p, e') := h
  simp only [deTime] at h
  split at h
  · cases h; rfl
  · rw [if_neg (by rw [isNumber_head]; simp [h1, h2]), if_pos (by simpa [isString] using h3)] at h
    cases h; rfl

/-- C58. In the array form of flags that have to be listed, the bits of the names
before an unknown one are set and no others. -/
theorem C58_flags_unknown {w : Nat} {c : Cfg} {F : Flags w} (hst : F.strict = true) (hne : F.list ≠ [])
    (hnd : (F.list.map Prod.fst).Nodup) (hpl : ∀ y ∈ F.list, PlainName y.1) {v : BitVec w} {s : Bytes}
    (h : FlagArr F.list F.strict v (s ++ b!"]")) {n u : Bytes} (hn : c%'"' ∉ n) (hl : n ∉ F.list.map Prod.fst) {e : EPtr} (he : e.Clean)
    (v0 : BitVec w) :
    (flagsSer c F).de v0 (c%'[' :: (s ++ (quoted n ++ u))) e =
      .ok (v, [], .obj ⟨.InvalidEnum, none, ((quoted n ++ u).length : Nat)⟩) := by
  obtain ⟨g, x, xs, h1, h2, h3, hx, rfl⟩ := h.farr
  obtain ⟨x0, rfl, hz⟩ := farr_tail h3
  have hs : s = g ++ x0 := by
    rw [← List.append_assoc] at h1
    exact List.append_cancel_right h1
  subst hs
  have hskip : ∀ M, (∀ y ∈ M, y ∈ F.list) → ∀ v e ready, flagOneArr c F.strict M v (quoted n ++ u) e ready = .ok (v, quoted n ++ u, e) := by
    intro M hM
    induction M with
    | nil => intro v e ready; simp [flagOneArr, hst]
    | cons y M ih =>
      intro v e ready
      have hy := hM y (by simp)
      rw [flagOneArr_skip (hpl y hy).1 (keyDiffers_names hn fun hh => hl (hh ▸ List.mem_map_of_mem hy))]
      exact ih (fun y hy => hM y (by simp [hy])) v e ready
  have hf : (createError .InvalidEnum e none ((quoted n ++ u).length : Nat)).failed = true := he.create (by decide) _ _
  rw [← he.set]
  have := flagLoopF_arr_gap (c := c) (e := e) (R := fun v => .ok (v, [], createError .InvalidEnum e none ((quoted n ++ u).length : Nat)))
    hne hnd hpl (z := quoted n ++ u) (.inr (by simp [quoted])) hskip
    (fun v m hm => by
      cases m with
      | zero => omega
      | succ m =>
        have := hskip F.list (fun _ h => h) v e false
        have hc : quoted n ++ u = c%'"' :: (n ++ c%'"' :: u) := by simp [quoted]
        rw [hc] at this ⊢
        simp only [flagLoopF, flagOne, if_true]
        rw [if_neg (by decide), this, Out.bind_ok]
        simp) hx h2 (hz _) 0 ((g ++ (x0 ++ (quoted n ++ u))).length + 1) (by omega)
  simp only [flagsSer, deFlags]
  rw [if_neg (by simp)]
  simp only [decide_true]
  rw [List.append_assoc, this, Out.bind_ok]
  simp only [flagsEnd, createError_failed hf]
  simp

/-- C58. Flags are empty after a text that starts neither with a bracket nor with
a quote. -/
theorem C58_flags_text {w : Nat} {c : Cfg} {F : Flags w} {v0 v : BitVec w} {s p : Bytes} {e e' : EPtr} (h1 : s.head? ≠ some c%'[')
    (h2 : s.head? ≠ some c%'"') (h : (flagsSer c F).de v0 s e = .ok (v, p, e')) : v = 0 := by
  replace h : deFlags c F v0 s e = .ok (v, p, e') := h
  cases s with
  | nil => cases h; rfl
  | cons b q =>
    simp only [deFlags] at h
    rw [if_pos ⟨by simpa using h1, by simpa using h2⟩] at h
    cases h; rfl

/-! #### Cases -/

theorem demoInt (v0 : Int) : ReadsAt (intSer .strict .int).de v0 b!"7" 7 := by
  have d1 : IntDen .strict .int v0 7 b!"7" := .inr ⟨7, ⟨[], b!"7", rfl, .inl rfl, .inr ⟨_, _, rfl, by decide, by decide⟩, by decide⟩,
    .inl ⟨by unfold IntTy.InRange; decide, by unfold IntTy.InRange; decide, rfl⟩⟩
  exact (intSer_exact .strict (ty := .int) (by unfold IntTy.Std; decide)).complete d1 (by decide)

theorem demoStart (u : Bytes) : Start (c%'7' :: u) := ⟨_, _, rfl, by decide⟩

theorem demoAstray : Astray c%']' b!"x]" where
  noGap := by intro b hb; simp at hb; subst hb; decide
  star := by decide
  comma := by decide
  close := by decide
  delim := Delim.of_head rfl (by decide)

theorem demoItems (n : Nat) : ItemsComma (fun (v : Int) t => ReadsAt (intSer .strict .int).de 0 t v) (List.replicate n 7)
    (List.replicate n b!"7,").flatten := by
  induction n with
  | zero => exact .nil
  | succ n ih => exact .cons (g1 := []) (g2 := []) .nil (demoStart []) (demoInt 0) .nil ih

/-- Any number of elements and then two with no comma between them. -/
example (n : Nat) : ∃ e, (arraySer (seqColl Int) (intSer .strict .int)).de [5]
    (c%'[' :: ((List.replicate n b!"7,").flatten ++ b!" " ++ b!"7" ++ b!" " ++ b!"x]")) .fresh =
      .ok (((List.replicate n 7).foldl (fun c v => c ++ [v]) [] ++ [7] : List Int), [], e) ∧ e.failed = true :=
  ⟨_, C58_missing_comma (K := seqColl Int) (demoItems n) (.ws (by decide) .nil) (demoStart []) (demoInt 0) (.ws (by decide) .nil) demoAstray
    EPtr.fresh_clean [5], rfl⟩

example : ∃ e, (arraySer (seqColl Int) (intSer .strict .int)).de [5] b!"[7, 7 x]" .fresh = .ok ([7, 7], [], e) ∧ e.failed = true :=
  ⟨_, rfl, rfl⟩
example : ∃ e, (fixSer .stdArray 3 (intSer .strict .int)).de [1, 2, 3] b!"[7,x" .fresh = .ok ([7, 0, 3], [], e) ∧ e.failed = true := by
  obtain ⟨e, hbad, hf⟩ : ∃ e, (intSer .strict .int).de 0 b!"x" .fresh = .ok (0, [], e) ∧ e.failed = true := ⟨_, rfl, rfl⟩
  exact ⟨e, C58_fixed_element (N := 3) (kind := .stdArray) (S := intSer .strict .int) (xs := [(1, 7)]) (t := b!"7,") (g := []) (old := 2)
    (.cons (g1 := []) (g2 := []) .nil (demoStart []) (demoInt 0) .nil .nil) .nil ⟨_, _, rfl, by decide⟩ EPtr.fresh_clean hbad hf [3], hf⟩
example : ∃ e, (fixSer .stdArray 3 (intSer .strict .int)).de [1, 2, 3] b!"[7," .fresh = .ok ([7, 2, 3], [], e) ∧ e.failed = true :=
  ⟨_, C58_fixed_end (N := 3) (kind := .stdArray) (S := intSer .strict .int) (xs := [(1, 7)]) (t := b!"7,") (old := 2)
    (.cons (g1 := []) (g2 := []) .nil (demoStart []) (demoInt 0) .nil .nil) EPtr.fresh_clean [3], rfl⟩
example : ∃ e, (fixSer .cArray 3 (intSer .strict .int)).de [1, 2, 3] b!"[7,7x]" .fresh = .ok ([7, 7, 3], [], e) ∧ e.failed = true :=
  ⟨_, C58_fixed_missing_comma (N := 3) (kind := .cArray) (S := intSer .strict .int) (xs := [(1, 7)]) (t := b!"7,") (g := []) (g2 := []) (old := 2)
    (.cons (g1 := []) (g2 := []) .nil (demoStart []) (demoInt 1) .nil .nil) .nil (demoStart []) (demoInt 2) .nil demoAstray
    EPtr.fresh_clean [3], rfl⟩

example : ∃ e, (dictSer (seqColl (Bytes × Int)) strSer (intSer .strict .int)).de [] b!"{\"a\":1, \"b\" :2 \"c\":3}" .fresh =
    .ok ([(b!"a", 1), (b!"b", 2)], [], e) ∧ e.failed = true := by
  refine ⟨.obj ⟨.ExpectedOf, some b!",", 6⟩, ?_, rfl⟩
  decide +kernel
example : ∃ e, (dictSer (seqColl (Bytes × Int)) strSer (intSer .strict .int)).de [] b!"{\"a\":1," .fresh =
    .ok ([(b!"a", 1)], [], e) ∧ e.failed = true := by
  refine ⟨.obj ⟨.UnexpectedEndFragment, none, 0⟩, ?_, rfl⟩
  decide +kernel

theorem demoSeven (v0 : Int) : IntDen .strict .int v0 7 b!"7" :=
  .inr ⟨7, ⟨[], b!"7", rfl, .inl rfl, .inr ⟨_, _, rfl, by decide, by decide⟩, by decide⟩,
    .inl ⟨by unfold IntTy.InRange; decide, by unfold IntTy.InRange; decide, rfl⟩⟩

theorem demoRec_meaning : ∀ d ∈ demoRec .strict, ∃ f, Meaning .strict f d.entry.ref.ser d.den := by
  intro d hd
  simp only [demoRec, List.mem_cons, List.not_mem_nil, or_false] at hd
  rcases hd with rfl | rfl | rfl
  · exact ⟨_, .int (by unfold IntTy.Std; decide)⟩
  · exact ⟨_, .array (K := seqColl (List Bool)) (.array (K := seqColl Bool) .bool)⟩
  · exact ⟨_, .dict (K := seqColl (Bytes × Bytes)) .str .str⟩

theorem demoAstrayBrace : Astray c%'}' b!"\"b\":[]}" where
  noGap := by intro b hb; simp at hb; subst hb; decide
  star := by decide
  comma := by decide
  close := by decide
  delim := Delim.of_head rfl (by decide)

/-- The comma after the first member is missing: it is stored, the others are as
before. -/
example : ∃ e, (demoRecSer .strict).de ⟨5, [[true]], [(b!"x", b!"y")]⟩ b!"{\"a\":7 \"b\":[]}" .fresh =
    .ok (⟨7, [[true]], [(b!"x", b!"y")]⟩, [], e) ∧ e.failed = true := by
  have hn : ∀ n ∈ (demoRec .strict).map DEntry.name, PlainName n := by
    show ∀ n ∈ [b!"a", b!"b", b!"c"], PlainName n
    unfold PlainName
    decide
  exact ⟨_, C58_member_missing_comma (c := .strict) (strict := false) (dflt := ⟨0, [], []⟩) demoRec_meaning
    (fun d hd => hn _ (List.mem_map_of_mem hd)) (by decide) (items := []) (s0 := b!"{") (.first (g := []) .nil) .done (by simp [demoRec])
    (d := (demoRec .strict)[0]) (List.getElem_mem _) (g1 := []) (g2 := []) (tv := b!"7") (g3 := b!" ") .nil .nil (demoStart [])
    ⟨_, demoSeven 5, rfl⟩ (.ws (by decide) .nil) demoAstrayBrace EPtr.fresh_clean (by decide), rfl⟩

example : ∃ e, (demoRecSer .strict).de ⟨5, [[true]], []⟩ b!"[1" .fresh = .ok (⟨5, [[true]], []⟩, [], e) ∧ e.failed = true := ⟨_, rfl, rfl⟩

def demoRecArr : Ser DemoRec := objectArraySer ⟨0, [], []⟩ ((demoRec .strict).map fun d => d.entry.toAMember)

example : ∃ e, demoRecArr.de ⟨5, [[true]], [(b!"x", b!"y")]⟩ b!"[7,[[false],x],{}]" .fresh =
    .ok (⟨7, [[false], []], [(b!"x", b!"y")]⟩, [], e) ∧ e.failed = true := by
  obtain ⟨e, hbad, hf⟩ : ∃ e, (arraySer (seqColl _) (arraySer (seqColl _) boolSer)).de [] b!"[[false],x],{}]" .fresh =
      .ok ([[false], []], [], e) ∧ e.failed = true := ⟨_, rfl, rfl⟩
  exact ⟨e, C58_positional_element (c := .strict) (dflt := ⟨0, [], []⟩) (L1 := [(demoRec .strict)[0]]) (L2 := [(demoRec .strict)[2]])
    (d := (demoRec .strict)[1]) (ts := [b!"7"]) (r := b!"7,") (t := ⟨5, [[true]], [(b!"x", b!"y")]⟩) (g := [])
    (fun d hd => demoRec_meaning d (by simp at hd; subst hd; exact List.getElem_mem _))
    (.cons (g1 := []) (g2 := []) .nil (demoStart []) rfl .nil .nil) (.cons ⟨_, demoSeven 5, rfl⟩ .nil) .nil ⟨_, _, rfl, by decide⟩
    EPtr.fresh_clean hbad hf (by decide), hf⟩

example : ∃ e, demoRecArr.de ⟨5, [[true]], [(b!"x", b!"y")]⟩ b!"[7 x]" .fresh = .ok (⟨7, [[true]], [(b!"x", b!"y")]⟩, [], e) ∧
    e.failed = true :=
  ⟨_, C58_positional_missing_comma (c := .strict) (dflt := ⟨0, [], []⟩) (L1 := []) (L2 := [(demoRec .strict)[1], (demoRec .strict)[2]])
    (d := (demoRec .strict)[0]) (ts := []) (r := []) (g := []) (g2 := b!" ") (tv := b!"7")
    (fun d hd => demoRec_meaning d (by simp at hd; subst hd; exact List.getElem_mem _)) .nil .nil .nil (demoStart [])
    ⟨_, demoSeven 5, rfl⟩ (.ws (by decide) .nil) demoAstray EPtr.fresh_clean (by decide), rfl⟩

/-- Seven hours are kept when the minutes are missing. -/
example : ∃ e, (timeSer .strict .int 1).de 5 b!"\"7hx" .fresh = .ok (25200, [], e) ∧ e.failed = true := by
  obtain ⟨e, hbad, hf⟩ : ∃ e, (intSer .strict .int).de 0 b!"x" .fresh = .ok (0, [], e) ∧ e.failed = true := ⟨_, rfl, rfl⟩
  have hsum : TimeSum .strict .int 1 0 7 .h 25200 :=
    ⟨25200, 25200, 25200, 25200, .inl ⟨by unfold IntTy.InRange; decide, rfl⟩, .inl ⟨by unfold IntTy.InRange; decide, rfl⟩,
      .inl ⟨by unfold IntTy.InRange; decide, rfl⟩, .inl ⟨by unfold IntTy.InRange; decide, rfl⟩, by unfold IntTy.Reduces IntTy.InRange; decide⟩
  have hrun : TimeRun .strict .int 1 0 25200 (b!"7h" ++ b!"\"") := .unit (demoSeven 0) .h hsum .close
  exact ⟨e, C58_time (by unfold IntTy.Std; decide) hrun (by decide) (by decide) (by decide) EPtr.fresh_clean hbad hf 5, hf⟩

example : ∃ e, (timeSer .strict .int 1).de 5 b!"[7]" .fresh = .ok (0, [], e) ∧ e.failed = true := ⟨_, rfl, rfl⟩

/-- `read` is kept when an unknown name follows. -/
example : ∃ e, (flagsSer .strict (demoFlags c%',' true)).de 4 b!"[\"read\",\"fly\"]" .fresh = .ok (1, [], e) ∧ e.failed = true := by
  have hpl : ∀ y ∈ (demoFlags c%',' true).list, PlainName y.1 := by
    simp only [demoFlags, PlainName]
    decide
  have harr : FlagArr (demoFlags c%',' true).list true (1 ||| 0) (b!"\"read\"," ++ b!"]") :=
    .item (g := []) (n := b!"read") (g' := []) (k := b!",") (r := b!"]") .nil (.listed (by decide)) .nil (.inr rfl) (.close (g := []) .nil)
  exact ⟨_, C58_flags_unknown (F := demoFlags c%',' true) rfl (by simp [demoFlags]) (by decide) hpl harr (n := b!"fly") (u := b!"]") (by decide) (by decide)
    EPtr.fresh_clean 4, rfl⟩

example : ∃ e, (flagsSer .strict (demoFlags c%',' true)).de 4 b!"7" .fresh = .ok (0, [], e) ∧ e.failed = true := ⟨_, rfl, rfl⟩

end Wjson
