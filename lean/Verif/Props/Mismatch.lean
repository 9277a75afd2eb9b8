import Verif.Proofs.Mismatch
import Verif.Props.AfterError2
import Verif.Model.Strerror
/-
C74: what typed readers report: code, expected token and position.
-/
namespace Wjson
open Spec

theorem clean_of_code {y : JError} (h : y.code = .ValidJSON) : (EPtr.obj y).Clean := ⟨y, rfl, by simp [JError.status, h]⟩

/-- C74. The place of an error is counted from the end of the text: if the rest of
the text from there is `s`, then `strerror::where` is the number of bytes before. -/
theorem C74_where {code : Code} (hc : code ≠ .ValidJSON) (m : Option Bytes) (u s : Bytes) :
    whereIs ⟨code, m, (s.length : Nat)⟩ (u ++ s) = u.length := by
  simp only [whereIs, JError.status]
  rw [if_neg (by simp [hc]), List.length_append, if_neg (by omega)]
  omega

/-! ### A value of another kind -/

section
variable {b : Byte} {t : Bytes}

/-- C74. A number is missing. -/
theorem C74_int (c : Cfg) (ty : IntTy) (h1 : b ≠ c%'n') (h2 : b ≠ c%'-') (h3 : ¬ Digit b) (v0 : Int) :
    Reports (intSer c ty).de v0 (b :: t) (errAt .InvalidNumber (b :: t)) := by
  intro y hy
  refine ⟨0, ?_⟩
  simp only [intSer, deInt]
  rw [if_neg (by simpa [isNull] using h1)]
  simp only [unserializeInteger]
  rw [if_neg h2]
  simp only
  rw [if_pos (by simpa [← isDigit_iff] using h3), (clean_of_code hy).set]
  rfl

/-- C74. A minus that no digit follows: the place is behind the minus. -/
theorem C74_minus (c : Cfg) (ty : IntTy) (h : ∀ b, t.head? = some b → ¬ Digit b) (v0 : Int) :
    Reports (intSer c ty).de v0 (c%'-' :: t) (errAt .InvalidNumber t) := by
  intro y hy
  refine ⟨0, ?_⟩
  simp only [intSer, deInt]
  rw [if_neg (by simp [isNull])]
  simp only [unserializeInteger]
  rw [if_pos trivial]
  cases t with
  | nil => simp only [(clean_of_code hy).set]; rfl
  | cons d t =>
    simp only
    rw [if_pos (by simpa [← isDigit_iff] using h d rfl), (clean_of_code hy).set]
    rfl

theorem C74_float {α : Type} (F : FloatTy α) (R : Int) (h1 : b ≠ c%'n') (h2 : b ≠ c%'-') (h3 : ¬ Digit b) (v0 : α) :
    Reports (floatSer F R).de v0 (b :: t) (errAt .InvalidNumber (b :: t)) := by
  intro y hy
  refine ⟨v0, ?_⟩
  simp only [floatSer, deFloat]
  rw [if_neg (by simpa [isNull] using h1), if_pos (by simpa [isNumber, h2, ← isDigit_iff] using h3), (clean_of_code hy).set]
  rfl

/-- C74. `true` or `false` is missing. -/
theorem C74_bool (h1 : b ≠ c%'n') (h2 : b ≠ c%'t') (h3 : b ≠ c%'f') (v0 : Bool) :
    Reports boolSer.de v0 (b :: t) (errAt .InvalidBool (b :: t)) := by
  intro y hy
  refine ⟨b == c%'t', ?_⟩
  simp only [boolSer, deBool]
  rw [if_neg (by simpa [isNull] using h1), if_neg (by simpa using h2), if_neg h3, (clean_of_code hy).set]
  rfl

/-- C74. A string is missing: strings, `char[N]`, enumerators, flags, and quoted
values that have to be in quotes. -/
theorem C74_string (h1 : b ≠ c%'n') (h2 : b ≠ c%'"') (v0 : Bytes) :
    Reports strSer.de v0 (b :: t) (expectAt b!"\"" (b :: t)) := by
  intro y hy
  refine ⟨[], ?_⟩
  simp only [strSer, deStr]
  rw [if_neg (by simpa [isNull] using h1)]
  simp only [unserializeStr]
  rw [if_pos h2, (clean_of_code hy).set]
  rfl

theorem C74_chars (N : Nat) (h1 : b ≠ c%'n') (h2 : b ≠ c%'"') (v0 : Bytes) :
    Reports (charArraySer N).de v0 (b :: t) (expectAt b!"\"" (b :: t)) := by
  intro y hy
  refine ⟨List.replicate N 0, ?_⟩
  simp only [charArraySer, deCharArray]
  rw [if_neg (by simpa [isNull] using h1)]
  simp only [unserializeStr]
  rw [if_pos h2, (clean_of_code hy).set]
  rfl

/-- (Bytes up to the space are skipped before an enumerator; where `char` is signed
the bytes from 128 on are skipped as well.) -/
theorem C74_enum (c : Cfg) {α : Type} [DecidableEq α] (strict : Bool) (dflt : α) (L : List (Bytes × α)) {g : Bytes}
    (hg : ∀ x ∈ g, leSpace c x = true) (h1 : leSpace c b = false) (h2 : b ≠ c%'"') (v0 : α) :
    Reports (enumSer c strict dflt L).de v0 (g ++ b :: t) (expectAt b!"\"" (b :: t)) := by
  intro y hy
  refine ⟨dflt, ?_⟩
  have : skipLow c (g ++ b :: t) = b :: t := by
    induction g with
    | nil => simp [skipLow, h1]
    | cons x g ih =>
      simp only [List.cons_append, skipLow]
      rw [if_pos (hg x (by simp))]
      exact ih fun x hx => hg x (by simp [hx])
  simp only [enumSer, deEnum]
  rw [this]
  simp only
  rw [if_pos h2, (clean_of_code hy).set]
  rfl

theorem C74_flags (c : Cfg) {w : Nat} (F : Flags w) (h1 : b ≠ c%'[') (h2 : b ≠ c%'"') (v0 : BitVec w) :
    Reports (flagsSer c F).de v0 (b :: t) (expectAt b!"\"" (b :: t)) := by
  intro y hy
  refine ⟨0, ?_⟩
  simp only [flagsSer, deFlags]
  rw [if_pos ⟨h1, h2⟩, (clean_of_code hy).set]
  rfl

theorem C74_quoted {α : Type} (S : Ser α) (serQ : Bool) (h1 : b ≠ c%'n') (h2 : b ≠ c%'"') (v0 : α) :
    Reports (quotedSer S serQ true).de v0 (b :: t) (expectAt b!"\"" (b :: t)) := by
  intro y hy
  obtain ⟨v, hv⟩ := C74_string (t := t) h1 h2 [] y hy
  refine ⟨v0, ?_⟩
  simp only [quotedSer, deQuoted, if_true, deQuotedStr]
  rw [hv, Out.bind_ok]
  rfl

theorem C74_raw_quoted (c : Cfg) (serQ : Bool) (h2 : b ≠ c%'"') (v0 : Bytes) :
    Reports (rawQuotedSer c serQ true).de v0 (b :: t) (expectAt b!"\"" (b :: t)) := by
  intro y hy
  refine ⟨v0, ?_⟩
  simp only [rawQuotedSer, deRawQuoted]
  rw [if_pos (by simpa using h2), (clean_of_code hy).set]
  rfl

/-- C74. An array is missing. -/
theorem C74_array {α C : Type} (K : Coll α C) (S : Ser α) (h1 : b ≠ c%'n') (h2 : b ≠ c%'[') (v0 : C) :
    Reports (arraySer K S).de v0 (b :: t) (expectAt b!"[" (b :: t)) := by
  intro y hy
  refine ⟨K.clear, ?_⟩
  simp only [arraySer, seqSer, deSeq]
  rw [if_neg (by simpa [isNull] using h1), if_pos h2, (clean_of_code hy).set]
  rfl

theorem C74_fixed {α : Type} (kind : FixKind) (N : Nat) (S : Ser α) (h1 : b ≠ c%'n') (h2 : b ≠ c%'[') (v0 : List α) :
    Reports (fixSer kind N S).de v0 (b :: t) (expectAt b!"[" (b :: t)) := by
  intro y hy
  refine ⟨v0, ?_⟩
  simp only [fixSer, deFix]
  rw [if_neg (by simpa [isNull] using h1), if_pos h2, (clean_of_code hy).set]
  rfl

theorem C74_positional {τ : Type} (dflt : τ) (L : List (AMember τ)) (h1 : b ≠ c%'n') (h2 : b ≠ c%'[') (v0 : τ) :
    Reports (objectArraySer dflt L).de v0 (b :: t) (expectAt b!"[" (b :: t)) := by
  intro y hy
  refine ⟨v0, ?_⟩
  simp only [objectArraySer, deObjectArray]
  rw [if_neg (by simpa [isNull] using h1), if_pos h2, (clean_of_code hy).set]
  rfl

/-- C74. An object is missing. -/
theorem C74_dict {κ ν C : Type} (K : Coll (κ × ν) C) (SK : Ser κ) (SV : Ser ν) (h1 : b ≠ c%'n') (h2 : b ≠ c%'{') (v0 : C) :
    Reports (dictSer K SK SV).de v0 (b :: t) (expectAt b!"{" (b :: t)) := by
  intro y hy
  refine ⟨K.clear, ?_⟩
  simp only [dictSer, seqSer, deSeq]
  rw [if_neg (by simpa [isNull] using h1), if_pos h2, (clean_of_code hy).set]
  rfl

theorem C74_object (c : Cfg) {τ : Type} (strict : Bool) (dflt : τ) (L : List (Member τ)) (h1 : b ≠ c%'n') (h2 : b ≠ c%'{')
    (h3 : b ≠ c%'[') (v0 : τ) : Reports (objectSer c strict dflt L).de v0 (b :: t) (expectAt b!"{" (b :: t)) := by
  intro y hy
  refine ⟨v0, ?_⟩
  simp only [objectSer, deObject]
  rw [if_neg (by simpa [isNull] using h1), if_pos h2, if_neg h3, (clean_of_code hy).set]
  rfl

/-- C74. Of an array only the empty one is taken for an object: what is missing is
its end. -/
theorem C74_object_array_text (c : Cfg) {τ : Type} (strict : Bool) (dflt : τ) (L : List (Member τ)) {g : Bytes} (hg : Gap g)
    (hs : NoGap (b :: t)) (h1 : b ≠ c%'*') (h2 : b ≠ c%']') (v0 : τ) :
    Reports (objectSer c strict dflt L).de v0 (c%'[' :: (g ++ b :: t)) (expectAt b!"]" (b :: t)) := by
  intro y hy
  refine ⟨v0, ?_⟩
  simp only [objectSer, deObject]
  have hsp : parseSpace (g ++ b :: t) (.obj y) = (b :: t, .obj y) :=
    parseSpace_before (.mk' hg (by simpa using h1)) (fun x hx => hs x hx) _
  rw [if_neg (by simp [isNull]), if_pos (by decide), if_pos trivial, hsp]
  simp only [deref, Out.bind_ok]
  rw [if_pos h2, (clean_of_code hy).set]
  rfl

/-- C74, deviation: a time interval or a size that is neither a number nor a string
is reported as a bad string at the end of the text, wherever it stands. -/
theorem C74_time (c : Cfg) (ty : IntTy) (fr : Int) (h1 : b ≠ c%'n') (h2 : b ≠ c%'-') (h3 : ¬ Digit b) (h4 : b ≠ c%'"') (v0 : Int) :
    Reports (timeSer c ty fr).de v0 (b :: t) (errAt .InvalidString []) := by
  intro y hy
  refine ⟨0, ?_⟩
  simp only [timeSer, deTime]
  rw [if_neg (by simpa [isNull] using h1), if_neg (by simp only [isNumber_head]; simp [h2, h3]), if_pos (by simpa [isString] using h4),
    (clean_of_code hy).set]
  rfl

theorem C74_size (c : Cfg) (ty : IntTy) (metric : Int) (h1 : b ≠ c%'n') (h2 : b ≠ c%'-') (h3 : ¬ Digit b) (h4 : b ≠ c%'"') (v0 : Int) :
    Reports (sizeSer c ty metric).de v0 (b :: t) (errAt .InvalidString []) := by
  intro y hy
  refine ⟨0, ?_⟩
  simp only [sizeSer, deSize]
  rw [if_neg (by simpa [isNull] using h1), if_neg (by simp only [isNumber_head]; simp [h2, h3]), if_pos (by simpa [isString] using h4),
    (clean_of_code hy).set]
  rfl

/-- C74. A pointer reports what its value reports. -/
theorem C74_pointer {α : Type} {S : Ser α} {x : JError} (h : b ≠ c%'n') (hr : Reports S.de S.dflt (b :: t) x) (v0 : Option α) :
    Reports (pointerSer S).de v0 (b :: t) x := by
  intro y hy
  obtain ⟨v, hv⟩ := hr y hy
  refine ⟨some v, ?_⟩
  simp only [pointerSer, dePointer]
  rw [if_pos h, hv, Out.bind_ok]

end

/-! ### A name that is not listed -/

/-- C74. An enumerator that is not listed, where that is not allowed. -/
theorem C74_enum_unknown (c : Cfg) {α : Type} [DecidableEq α] (dflt : α) (L : List (Bytes × α)) {n t : Bytes} (hn : c%'"' ∉ n)
    (hl : n ∉ L.map Prod.fst) (v0 : α) :
    Reports (enumSer c true dflt L).de v0 (quoted n ++ t) (errAt .InvalidEnum (n ++ c%'"' :: t)) := by
  intro y hy
  refine ⟨dflt, ?_⟩
  have hq : quoted n ++ t = c%'"' :: (n ++ c%'"' :: t) := by simp [quoted]
  have hsk : skipLow c (quoted n ++ t) = c%'"' :: (n ++ c%'"' :: t) := by
    rw [hq]
    simp only [skipLow]
    rw [if_neg (by simp [leSpace])]
  have htq : ∀ n : Bytes, c%'"' ∉ n → toQuote (n ++ c%'"' :: t) = (n, c%'"' :: t) := by
    intro n
    induction n with
    | nil => intro _; simp [toQuote]
    | cons x n ih =>
      intro hn
      simp only [List.mem_cons, not_or] at hn
      simp only [List.cons_append, toQuote]
      rw [if_neg (fun h => hn.1 h.symm), ih hn.2]
  have hf : enumFind L n = none := enumFind_none hl
  simp only [enumSer, deEnum]
  rw [hsk]
  simp only [ne_eq, not_true, if_false]
  obtain ⟨d, q, hd⟩ : ∃ d q, n ++ c%'"' :: t = d :: q := by
    cases n with
    | nil => exact ⟨_, _, rfl⟩
    | cons d n => exact ⟨d, _, rfl⟩
  have h1 := htq n hn
  rw [hd] at h1 ⊢
  simp only [h1, hf, if_true, (clean_of_code hy).set]
  rfl

/-- C74. A flag in an array that is not listed, where that is not allowed. -/
theorem C74_flags_unknown {w : Nat} {c : Cfg} {F : Flags w} (hst : F.strict = true) (hne : F.list ≠ [])
    (hnd : (F.list.map Prod.fst).Nodup) (hpl : ∀ y ∈ F.list, PlainName y.1) {v : BitVec w} {s : Bytes}
    (h : FlagArr F.list F.strict v (s ++ b!"]")) {n u : Bytes} (hn : c%'"' ∉ n) (hl : n ∉ F.list.map Prod.fst) (v0 : BitVec w) :
    Reports (flagsSer c F).de v0 (c%'[' :: (s ++ (quoted n ++ u))) (errAt .InvalidEnum (quoted n ++ u)) :=
  fun _ hy => ⟨_, C58_flags_unknown hst hne hnd hpl h hn hl (clean_of_code hy) v0⟩

/-! ### Inside containers and structures: the error of the part is the error of the whole -/

theorem Spec.Reports.to {α β : Type} {f : De α} {v0 : α} {s s' : Bytes} {x : JError} {g : De β} {w0 : β} (h : Reports f v0 s x)
    (hx : x.code ≠ .ValidJSON)
    (hg : ∀ (e : EPtr) (v : α), e.Clean → f v0 s e = .ok (v, [], .obj x) → (EPtr.obj x).failed = true → ∃ w, g w0 s' e = .ok (w, [], .obj x)) :
    Reports g w0 s' x := by
  intro y hy
  obtain ⟨v, hv⟩ := h y hy
  exact hg _ v (clean_of_code hy) hv (by simpa [EPtr.failed, JError.status] using hx)

section
variable {α C : Type} {K : Coll α C} {S : Ser α} {x : JError}

/-- C74. An element of a sequence. -/
theorem C74_element (hx : x.code ≠ .ValidJSON) {vs : List α} {t : Bytes} (h : ItemsComma (fun v t => ReadsAt S.de S.dflt t v) vs t)
    {g bad : Bytes} (hg : Gap g) (hb : Start bad) (hr : Reports S.de S.dflt bad x) (k0 : C) :
    Reports (arraySer K S).de k0 (c%'[' :: (t ++ g ++ bad)) x :=
  hr.to hx fun _ _ he hv hf => ⟨_, C58_element h hg hb he hv hf k0⟩

/-- C74. An element of a fixed-size array. -/
theorem C74_fixed_element (hx : x.code ≠ .ValidJSON) {kind : FixKind} {N : Nat} {xs : List (α × α)} {t : Bytes}
    (h : ItemsComma (fun x t => ReadsAt S.de (kind.start S x.1) t x.2) xs t) {g bad : Bytes} (hg : Gap g) (hb : Start bad) {old : α}
    (hr : Reports S.de (kind.start S old) bad x) (rest : List α) :
    Reports (fixSer kind N S).de (xs.map Prod.fst ++ old :: rest) (c%'[' :: (t ++ (g ++ bad))) x :=
  hr.to hx fun _ _ he hv hf => ⟨_, C58_fixed_element h hg hb he hv hf rest⟩

/-- C74. The comma between two elements is missing. -/
theorem C74_comma {vs : List α} {t : Bytes} (h : ItemsComma (fun v t => ReadsAt S.de S.dflt t v) vs t) {g tv g2 stop : Bytes}
    {v : α} (hg : Gap g) (hv : Start tv) (hr : ReadsAt S.de S.dflt tv v) (h2 : Gap g2) (hs : Astray c%']' stop) (k0 : C) :
    Reports (arraySer K S).de k0 (c%'[' :: (t ++ g ++ tv ++ g2 ++ stop)) (missing b!"," stop) :=
  fun _ hy => ⟨_, C58_missing_comma h hg hv hr h2 hs (clean_of_code hy) k0⟩

/-- C74. The same for fixed-size arrays; the expected token of `std::array` is
empty. -/
theorem C74_fixed_comma {kind : FixKind} {N : Nat} {xs : List (α × α)} {t : Bytes}
    (h : ItemsComma (fun x t => ReadsAt S.de (kind.start S x.1) t x.2) xs t) {g tv g2 stop : Bytes} {old v : α} (hg : Gap g)
    (hv : Start tv) (hr : ReadsAt S.de (kind.start S old) tv v) (h2 : Gap g2) (hs : Astray c%']' stop) (rest : List α) :
    Reports (fixSer kind N S).de (xs.map Prod.fst ++ old :: rest) (c%'[' :: (t ++ (g ++ (tv ++ (g2 ++ stop)))))
      (missing (if kind = .stdArray then [] else b!",") stop) :=
  fun _ hy => ⟨_, C58_fixed_missing_comma h hg hv hr h2 hs (clean_of_code hy) rest⟩

/-- C74. More elements than a fixed-size array has: its end is missing. -/
theorem C74_too_many {kind : FixKind} {N : Nat} {xs : List (α × α)} {t : Bytes}
    (h : ItemsComma (fun x t => ReadsAt S.de (kind.start S x.1) t x.2) xs t) {stop : Bytes} (hs : stop.head? ≠ some c%']') :
    Reports (fixSer kind N S).de (xs.map Prod.fst) (c%'[' :: (t ++ stop)) (missing b!"]" stop) := by
  intro y hy
  refine ⟨xs.map Prod.snd ++ [], ?_⟩
  have := deFix_before (k := kind) (S := S) (vs := []) (vs' := []) (rest := stop) (L := c%'[') (R := c%']')
    (e' := .obj (missing b!"]" stop)) (by decide) (.inl rfl) h (clean_of_code hy).not_failed (by
      simp only [fixLoop]
      cases stop with
      | nil => simp only [fixClose, missing, (clean_of_code hy).set]
      | cons b q =>
        simp only [fixClose, missing]
        rw [if_pos (by simpa using hs), (clean_of_code hy).set])
  rwa [List.append_nil] at this

end

section
variable {κ ν C : Type} {K : Coll (κ × ν) C} {SK : Ser κ} {SV : Ser ν} {x : JError}

/-- C74. The value of an entry of a dictionary. -/
theorem C74_entry (hx : x.code ≠ .ValidJSON) {xs : List (κ × ν)} {t : Bytes} (h : ItemsComma (EntryReads SK SV) xs t)
    {g tk g1 g2 bad : Bytes} (hg : Gap g) (hk : Start tk) (h1 : Gap g1) (h2 : Gap g2) (hb : Start bad) {k : κ}
    (hkr : ReadsAt SK.de SK.dflt tk k) (hr : Reports SV.de SV.dflt bad x) (k0 : C) :
    Reports (dictSer K SK SV).de k0 (c%'{' :: (t ++ g ++ (tk ++ (g1 ++ c%':' :: (g2 ++ bad))))) x :=
  hr.to hx fun _ _ he hv hf => ⟨_, C58_entry h hg hk h1 h2 hb hkr he hv hf k0⟩

/-- C74. The key of an entry of a dictionary. -/
theorem C74_entry_key (hx : x.code ≠ .ValidJSON) {xs : List (κ × ν)} {t : Bytes} (h : ItemsComma (EntryReads SK SV) xs t) {g bad : Bytes}
    (hg : Gap g) (hb : Start bad) (hr : Reports SK.de SK.dflt bad x) (k0 : C) :
    Reports (dictSer K SK SV).de k0 (c%'{' :: (t ++ g ++ bad)) x :=
  hr.to hx fun e v he hv hf => by
    refine ⟨_, deSeq_element (K := K) (S := fieldSer SK SV) (L := c%'{') (x := (v, SV.dflt)) (.inr rfl) (by decide)
      (itemsComma_entries h) hg hb he ?_ hf k0⟩
    simp only [fieldSer, deField]
    rw [hv, Out.bind_ok]
    simp only [parseSpace_empty, createError_failed hf]

/-- C74. The colon of an entry of a dictionary is missing. -/
theorem C74_entry_colon {xs : List (κ × ν)} {t : Bytes} (h : ItemsComma (EntryReads SK SV) xs t)
    {g tk g1 stop : Bytes} (hg : Gap g) (hk : Start tk) (h1 : Gap g1) {k : κ} (hkr : ReadsAt SK.de SK.dflt tk k)
    (hs : Astray c%':' stop) (k0 : C) :
    Reports (dictSer K SK SV).de k0 (c%'{' :: (t ++ g ++ (tk ++ (g1 ++ stop)))) (missing b!":" stop) := by
  intro y hy
  have he := clean_of_code hy
  have hf : (EPtr.obj (missing b!":" stop)).failed = true := by cases stop <;> rfl
  refine ⟨_, deSeq_element (K := K) (S := fieldSer SK SV) (L := c%'{') (x := (k, SV.dflt)) (.inr rfl) (by decide)
      (itemsComma_entries h) hg ?_ he ?_ hf k0⟩
  · obtain ⟨b, u, rfl, hk⟩ := hk
    exact ⟨b, _, rfl, hk⟩
  · have := hkr (g1 ++ stop) (.obj y) he.not_failed (gap_delim h1 hs.delim)
    simp only [fieldSer, deField]
    rw [this, Out.bind_ok]
    simp only [parseSpace_astray h1 hs]
    cases stop with
    | nil => simp only [he.set, missing]
    | cons b q =>
      simp only [missing]
      rw [if_pos (by simpa using hs.close), he.set]

/-- C74. The comma between two entries is missing. -/
theorem C74_entry_comma {xs : List (κ × ν)} {t : Bytes} (h : ItemsComma (EntryReads SK SV) xs t) {g tv g2 stop : Bytes}
    {kv : κ × ν} (hg : Gap g) (hv : Start tv) (hr : EntryReads SK SV kv tv) (h2 : Gap g2) (hs : Astray c%'}' stop) (k0 : C) :
    Reports (dictSer K SK SV).de k0 (c%'{' :: (t ++ g ++ tv ++ g2 ++ stop)) (missing b!"," stop) :=
  fun _ hy => ⟨_, C58_dict_missing_comma h hg hv hr h2 hs (clean_of_code hy) k0⟩

end

section
variable {τ : Type} {c : Cfg} {strict : Bool} {dflt : τ} {x : JError}

/-- C74. The value of a member of a structure, in whatever order the members come. -/
theorem C74_member (hx : x.code ≠ .ValidJSON) {L : List (DEntry τ)} (hM : ∀ d ∈ L, ∃ f, Meaning c f d.entry.ref.ser d.den)
    (hn : ∀ d ∈ L, PlainName d.name) (hnd : (L.map DEntry.name).Nodup) {items : List (Bytes × Bytes)} {s0 : Bytes}
    (h : Opened items s0) {t t' : τ} {cur : List (DEntry τ)} (hrun : Run strict L L items t t' (some cur)) (hcur : cur ≠ [])
    {d : DEntry τ} (hd : d ∈ L) {g1 g2 bad : Bytes} (h1 : Gap g1) (h2 : Gap g2) (hb : Start bad)
    (hr : Reports d.entry.ref.ser.de (d.entry.start t') bad x)
    (hmax : (s0 ++ (quoted d.name ++ (g1 ++ c%':' :: (g2 ++ bad)))).length ≤ intMax) :
    Reports (objectSer c strict dflt (L.map fun d => d.entry.toMember)).de t (s0 ++ (quoted d.name ++ (g1 ++ c%':' :: (g2 ++ bad)))) x :=
  hr.to hx fun _ _ he hv hf => ⟨_, C58_member hM hn hnd h hrun hcur hd h1 h2 hb he hv hf hmax⟩

/-- C74. A member that is not listed, where that is not allowed. -/
theorem C74_member_unknown {L : List (DEntry τ)} (hM : ∀ d ∈ L, ∃ f, Meaning c f d.entry.ref.ser d.den)
    (hn : ∀ d ∈ L, PlainName d.name) (hnd : (L.map DEntry.name).Nodup) {items : List (Bytes × Bytes)} {s0 : Bytes}
    (h : Opened items s0) {t t' : τ} {cur : List (DEntry τ)} (hrun : Run true L L items t t' (some cur)) (hcur : cur ≠ [])
    {k u : Bytes} (hk : c%'"' ∉ k) (hkn : k ∉ L.map DEntry.name) (hmax : (s0 ++ (quoted k ++ u)).length ≤ intMax) :
    Reports (objectSer c true dflt (L.map fun d => d.entry.toMember)).de t (s0 ++ (quoted k ++ u)) (errAt .InvalidMember (quoted k ++ u)) := by
  intro y hy
  obtain ⟨e', h1, _, h2, _⟩ := C58_unknown (dflt := dflt) hM hn hnd h hrun hcur hk hkn (clean_of_code hy) nofun hmax
  rw [h2 rfl] at h1
  exact ⟨_, h1⟩

/-- C74. The comma after a member is missing. (What the reader expects is the end
of the object.) -/
theorem C74_member_comma {L : List (DEntry τ)} (hM : ∀ d ∈ L, ∃ f, Meaning c f d.entry.ref.ser d.den)
    (hn : ∀ d ∈ L, PlainName d.name) (hnd : (L.map DEntry.name).Nodup) {items : List (Bytes × Bytes)} {s0 : Bytes}
    (h : Opened items s0) {t t' t'' : τ} {cur : List (DEntry τ)} (hrun : Run strict L L items t t' (some cur)) (hcur : cur ≠ [])
    {d : DEntry τ} (hd : d ∈ L) {g1 g2 tv g3 stop : Bytes} (h1 : Gap g1) (h2 : Gap g2) (hv : Start tv) (hst : d.stores t' t'' tv)
    (h3 : Gap g3) (hs : Astray c%'}' stop)
    (hmax : (s0 ++ (quoted d.name ++ (g1 ++ c%':' :: (g2 ++ (tv ++ (g3 ++ stop)))))).length ≤ intMax) :
    Reports (objectSer c strict dflt (L.map fun d => d.entry.toMember)).de t
      (s0 ++ (quoted d.name ++ (g1 ++ c%':' :: (g2 ++ (tv ++ (g3 ++ stop)))))) (missing b!"}" stop) :=
  fun _ hy => ⟨_, C58_member_missing_comma hM hn hnd h hrun hcur hd h1 h2 hv hst h3 hs (clean_of_code hy) hmax⟩

/-- C74. The colon after the name of a member is missing. -/
theorem C74_member_colon {L : List (DEntry τ)} (hM : ∀ d ∈ L, ∃ f, Meaning c f d.entry.ref.ser d.den)
    (hn : ∀ d ∈ L, PlainName d.name) (hnd : (L.map DEntry.name).Nodup) {items : List (Bytes × Bytes)} {s0 : Bytes}
    (h : Opened items s0) {t t' : τ} {cur : List (DEntry τ)} (hrun : Run strict L L items t t' (some cur)) (hcur : cur ≠ [])
    {d : DEntry τ} (hd : d ∈ L) {g stop : Bytes} (hg : Gap g) (hs : Astray c%':' stop)
    (hmax : (s0 ++ (quoted d.name ++ (g ++ stop))).length ≤ intMax) :
    Reports (objectSer c strict dflt (L.map fun d => d.entry.toMember)).de t (s0 ++ (quoted d.name ++ (g ++ stop))) (missing b!":" stop) := by
  intro y hy
  have he := clean_of_code hy
  have hf : (EPtr.obj (missing b!":" stop)).failed = true := by cases stop <;> rfl
  have hq : ∀ d ∈ L, c%'"' ∉ d.name := fun d hd => (hn d hd).1
  obtain ⟨w, hw⟩ : ∃ w, d.entry.toMember.de t' (quoted d.name ++ (g ++ stop)) (.obj y) false = .ok (w, [], .obj (missing b!":" stop), true) :=
    entry_at (hM d hd).choose_spec (fun u => memberName_colon (hq d hd) hg hs.noGap hs.star hs.close he u) hf false
  have hsearch : ∀ l : List (DEntry τ), (∀ d ∈ l, d ∈ L) → d ∈ l →
      searchMembers c strict (l.map fun d => d.entry.toMember) t' (quoted d.name ++ (g ++ stop)) (.obj y) =
        .ok (w, [], .obj (missing b!":" stop)) := by
    intro l
    induction l with
    | nil => intro _ h; cases h
    | cons d' l ih =>
      intro hl hm
      simp only [List.map_cons, searchMembers]
      by_cases hdn : d.name = d'.name
      · have : d = d' := nodup_inj hnd hd (hl d' (by simp)) hdn
        subst this
        rw [hw, Out.bind_ok]
        rfl
      · rw [Entry.skips (en := d'.entry) (keyDiffers_names (hq d hd) hdn), Out.bind_ok]
        simp only [Bool.false_eq_true, if_false]
        refine ih (fun x hx => hl x (by simp [hx])) ?_
        rcases List.mem_cons.mp hm with rfl | hm
        · exact absurd rfl hdn
        · exact hm
  refine ⟨w, ?_⟩
  refine deObject_before (fun d hd => (hM d hd).choose_spec.inner.toAccepts) hn hnd h hrun he.not_failed hmax hf (by simp [quoted])
    (by simp [quoted]) (fun g hg => gap_then_quote hg _ _ _) ?_
  intro m hm
  cases m with
  | zero => omega
  | succ m =>
  cases cur with
  | nil => exact absurd rfl hcur
  | cons d1 cur =>
  simp only [List.map_cons, membersF]
  by_cases hdn : d.name = d1.name
  · have : d = d1 := nodup_inj hnd hd (hrun.cursor (fun _ h => h) d1 (by simp)) hdn
    subst this
    rw [hw]
    simp only [Out.bind_ok, if_true, parseSpace_empty, createError_failed hf]
  · rw [Entry.skips (en := d1.entry) (keyDiffers_names (hq d hd) hdn)]
    simp only [Out.bind_ok, Bool.false_eq_true, if_false]
    rw [hsearch L (fun _ h => h) hd]
    simp only [Out.bind_ok, parseSpace_empty, createError_failed hf]

/-- C74. The name of a member is not a string. -/
theorem C74_member_name {L : List (DEntry τ)} (hM : ∀ d ∈ L, ∃ f, Meaning c f d.entry.ref.ser d.den)
    (hn : ∀ d ∈ L, PlainName d.name) (hnd : (L.map DEntry.name).Nodup) {items : List (Bytes × Bytes)} {s0 : Bytes}
    (h : Opened items s0) {t t' : τ} {cur : List (DEntry τ)} (hrun : Run strict L L items t t' (some cur)) (hcur : cur ≠ [])
    {b : Byte} {u : Bytes} (hs : NoGap (b :: u)) (h1 : b ≠ c%'"') (h2 : b ≠ c%'}') (h3 : b ≠ c%'*')
    (hmax : (s0 ++ b :: u).length ≤ intMax) :
    Reports (objectSer c strict dflt (L.map fun d => d.entry.toMember)).de t (s0 ++ b :: u) (expectAt b!"\"" (b :: u)) := by
  intro y hy
  have he := clean_of_code hy
  refine ⟨t', ?_⟩
  refine deObject_before (r := b :: u) (fun d hd => (hM d hd).choose_spec.inner.toAccepts) hn hnd h hrun he.not_failed hmax
    (e' := .obj (expectAt b!"\"" (b :: u))) rfl (by simp) (by simpa using h2)
    (fun g hg => parseSpace_before (.mk' hg (by simpa using h3)) (fun x hx => hs x hx) _) ?_
  intro m hm
  cases m with
  | zero => omega
  | succ m =>
  cases cur with
  | nil => exact absurd rfl hcur
  | cons d1 cur =>
  simp only [List.map_cons, membersF]
  rw [entry_key (e' := .obj (expectAt b!"\"" (b :: u))) (by
    simp only [memberName]
    rw [if_pos h1, he.set]
    rfl)]
  simp only [Out.bind_ok, Bool.false_eq_true, if_false]
  rw [search_key rfl]
  simp only [Out.bind_ok, parseSpace_empty]
  rfl

/-- C74. An element of a structure written as an array. -/
theorem C74_positional_element (hx : x.code ≠ .ValidJSON) {L1 L2 : List (DEntry τ)} {d : DEntry τ}
    (hM : ∀ d ∈ L1, ∃ f, Meaning c f d.entry.ref.ser d.den) {ts : List Bytes} {r : Bytes} (h : ItemsComma (fun v t => v = t) ts r)
    {t t' : τ} (hp : Positional L1 ts t t') {g bad : Bytes} (hg : Gap g) (hb : Start bad)
    (hr : Reports d.entry.ref.ser.de (d.entry.start t') bad x) (hmax : r.length ≤ intMax) :
    Reports (objectArraySer dflt ((L1 ++ d :: L2).map fun d => d.entry.toAMember)).de t (c%'[' :: (r ++ (g ++ bad))) x :=
  hr.to hx fun _ _ he hv hf => ⟨_, C58_positional_element hM h hp hg hb he hv hf hmax⟩

/-- C74. The comma after an element of a structure written as an array is missing. -/
theorem C74_positional_comma {L1 L2 : List (DEntry τ)} {d : DEntry τ}
    (hM : ∀ d' ∈ d :: L1, ∃ f, Meaning c f d'.entry.ref.ser d'.den) {ts : List Bytes} {r : Bytes}
    (h : ItemsComma (fun v t => v = t) ts r) {t t' t'' : τ} (hp : Positional L1 ts t t') {g tv g2 stop : Bytes} (hg : Gap g)
    (hv : Start tv) (hst : d.stores t' t'' tv) (h2 : Gap g2) (hs : Astray c%']' stop) (hmax : (r ++ tv).length ≤ intMax) :
    Reports (objectArraySer dflt ((L1 ++ d :: L2).map fun d => d.entry.toAMember)).de t (c%'[' :: (r ++ (g ++ (tv ++ (g2 ++ stop)))))
      (missing b!"]" stop) :=
  fun _ hy => ⟨_, C58_positional_missing_comma hM h hp hg hv hst h2 hs (clean_of_code hy) hmax⟩

end

/-- C74, deviation: what is wrong inside the string of a size is looked for in a
copy of the string. The place that is reported is a place of that copy: in
`["x",1]` the third byte is wrong and the last one is reported. -/
theorem C74_size_position :
    (arraySer (seqColl Int) (sizeSer .strict .int 1)).de [] b!"[\"x\",1]" .fresh = .ok ([0, 1], [], .obj ⟨.InvalidNumber, none, 1⟩) ∧
    whereIs ⟨.InvalidNumber, none, 1⟩ b!"[\"x\",1]" = 6 := by decide +kernel

/-! ### The hypotheses are met -/

/-- Any number of elements, then a string where a number should be. -/
example (n : Nat) : Reports (arraySer (seqColl Int) (intSer .strict .int)).de [5]
    (c%'[' :: ((List.replicate n b!"7,").flatten ++ b!" " ++ b!"\"x\"]")) ⟨.InvalidNumber, none, 4⟩ :=
  C74_element (K := seqColl Int) (by decide) (demoItems n) (.ws (by decide) .nil) ⟨_, _, rfl, by decide⟩
    (C74_int .strict .int (by decide) (by decide) (by unfold Digit; decide) 0) [5]

/-- Three levels: a list of structures with a list of lists of Booleans. -/
example : Reports (arraySer (seqColl _) (demoRecSer .strict)).de []
    b!"[{\"a\":7}, {\"b\":[[true],[ 1]]}]" (errAt .InvalidBool b!"1]]}]") := by
  intro y hy
  obtain ⟨code, m, n⟩ := y
  cases hy
  exact ⟨_, rfl⟩

example : whereIs (errAt .InvalidBool b!"1]]}]") (b!"[{\"a\":7}, {\"b\":[[true],[ " ++ b!"1]]}]") = 25 :=
  C74_where (code := .InvalidBool) (by decide) none _ _

/-- The third member has the wrong kind. -/
example : Reports (demoRecSer .strict).de ⟨5, [], []⟩ b!"{\"a\":7,\"c\" : [1]}" (expectAt b!"{" b!"[1]}") := by
  have hn : ∀ n ∈ (demoRec .strict).map DEntry.name, PlainName n := by
    show ∀ n ∈ [b!"a", b!"b", b!"c"], PlainName n
    unfold PlainName
    decide
  have ho : Opened [(b!"a", b!"7")] b!"{\"a\":7," :=
    .next (r := b!"{\"a\":7") (g := [])
      (.items (g := []) .nil (.one (k := b!"a") (g1 := []) (g2 := []) (g3 := []) .nil .nil ⟨_, _, rfl, by decide⟩ .nil))
      (by simp) .nil
  have hr : Run false (demoRec .strict) (demoRec .strict) [(b!"a", b!"7")] ⟨5, [], []⟩ ⟨7, [], []⟩ (some (demoRec .strict).tail) :=
    .next ⟨_, demoSeven 5, rfl⟩ .done
  exact C74_member (c := .strict) (strict := false) (dflt := ⟨0, [], []⟩) (by decide) demoRec_meaning
    (fun d hd => hn _ (List.mem_map_of_mem hd)) (by decide) ho hr (by simp [demoRec])
    (d := (demoRec .strict)[2]) (List.getElem_mem _) (g1 := b!" ") (g2 := b!" ") (bad := b!"[1]}") (.ws (by decide) .nil) (.ws (by decide) .nil)
    ⟨_, _, rfl, by decide⟩ (C74_dict (seqColl (Bytes × Bytes)) strSer strSer (by decide) (by decide) []) (by decide)

example : (demoRecSer .strict).de ⟨5, [], []⟩ b!"{\"a\":7,\"c\" 1}" .fresh = .ok (⟨7, [], []⟩, [], .obj ⟨.ExpectedOf, some b!":", 2⟩) := by
  decide +kernel
example : (demoRecSer .strict).de ⟨5, [], []⟩ b!"{\"a\":7,c:1}" .fresh = .ok (⟨7, [], []⟩, [], .obj ⟨.ExpectedOf, some b!"\"", 4⟩) := by
  decide +kernel
example : (fixSer .stdArray 2 (intSer .strict .int)).de [1, 2] b!"[7,7,7]" .fresh = .ok ([7, 7], [], .obj ⟨.ExpectedOf, some b!"]", 2⟩) := by
  decide +kernel
example : Reports (fixSer .stdArray 2 (intSer .strict .int)).de [1, 2] b!"[7,7,7]" (expectAt b!"]" b!"7]") :=
  C74_too_many (N := 2) (kind := .stdArray) (S := intSer .strict .int) (xs := [(1, 7), (2, 7)]) (t := b!"7,7,") (stop := b!"7]")
    (.cons (g1 := []) (g2 := []) .nil (demoStart []) (demoInt 0) .nil (.cons (g1 := []) (g2 := []) .nil (demoStart []) (demoInt 0) .nil .nil))
    (by decide)
example : Reports (enumSer .strict true (0 : Nat) [(b!"one", 1)]).de 5 (quoted b!"two" ++ b!"]") ⟨.InvalidEnum, none, 5⟩ :=
  C74_enum_unknown .strict 0 _ (by decide) (by decide) 5

end Wjson
