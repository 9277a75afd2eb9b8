import Verif.Proofs.Meaning
import Verif.Props.Parser
/-
C53: what a description reads. For a description nested to any depth the reader
accepts exactly the texts its denotation (`Spec/Denotes.lean`) contains, with
exactly the values the denotation gives them.
-/
namespace Wjson
open Spec

/-! ### C53 -/

/-- C53. The reader stores `v`, reports no error and stops before `p`, exactly if
what it has consumed is a text that stands for `v`. What follows must not be able
to continue a number (`Delim`): a comma, a bracket, white space or the end.
Pointers and time intervals that are not part of a container or structure
(`full = false`) accept some truncated texts at the end of the input. -/
theorem C53_exact {c : Cfg} {full : Bool} {α : Type} {S : Ser α} {D : Den α} (h : Meaning c full S D) {v0 v : α} {s p : Bytes}
    {e : EPtr} (he : e.Clean) (hs : s.length ≤ intMax) (hp : Delim p) (hfull : full = true ∨ p ≠ []) :
    S.de v0 s e = .ok (v, p, e) ↔ ∃ t, s = t ++ p ∧ D v0 v t := by
  constructor
  · rcases hfull with rfl | hne
    · exact h.exact.sound he hs hp
    · exact h.inner.sound he hs hp hne
  · rintro ⟨t, rfl, ht⟩
    refine h.inner.complete ht ?_ p e he.not_failed hp
    simp only [List.length_append] at hs
    omega

/-- C53. The whole text. -/
theorem C53_whole {c : Cfg} {α : Type} {S : Ser α} {D : Den α} (h : Means c S D) {v0 v : α} {s : Bytes} {e : EPtr} (he : e.Clean)
    (hs : s.length ≤ intMax) : S.de v0 s e = .ok (v, [], e) ↔ D v0 v s := by
  rw [C53_exact h he hs (by intro b hb; cases hb) (.inl rfl)]
  constructor
  · rintro ⟨t, rfl, ht⟩; simpa using ht
  · intro ht; exact ⟨s, by simp, ht⟩

/-- C53. A text that stands for no value is not read silently: unless the
behaviour is undefined (an integer literal that overflows), an error is reported
or a part of the text is left. -/
theorem C53_rejected {c : Cfg} {α : Type} {S : Ser α} {D : Den α} (h : Means c S D) {v0 : α} {s : Bytes} {e : EPtr} (he : e.Clean)
    (hs : s.length ≤ intMax) (hd : ∀ v, ¬ D v0 v s) :
    S.de v0 s e = .ub ∨ ∃ v p e', S.de v0 s e = .ok (v, p, e') ∧ p <:+ s ∧ (e'.failed = true ∨ p ≠ []) := by
  rcases h.exact.safe v0 s e with ⟨h1, _⟩ | ⟨v, p, e', h1, h2, h3⟩
  · exact .inl h1
  · refine .inr ⟨v, p, e', h1, h2, ?_⟩
    cases hf : e'.failed with
    | true => exact .inl rfl
    | false =>
      refine .inr ?_
      rintro rfl
      rcases h3.clean he with he' | he'
      · subst he'
        exact hd v ((C53_whole h he hs).mp h1)
      · rw [hf] at he'
        cases he'

/-- C53. A text stands for at most one value. -/
theorem C53_one_value {c : Cfg} {full : Bool} {α : Type} {S : Ser α} {D : Den α} (h : Meaning c full S D) {v0 v v' : α} {t : Bytes}
    (ht : t.length ≤ intMax) (h1 : D v0 v t) (h2 : D v0 v' t) : v = v' := by
  have a := h.inner.complete h1 ht [] .fresh rfl (by intro b hb; cases hb)
  have b := h.inner.complete h2 ht [] .fresh rfl (by intro b hb; cases hb)
  rw [a] at b
  cases b
  rfl

/-- C53. At most one beginning of a text stands for a value. -/
theorem C53_one_prefix {c : Cfg} {full : Bool} {α : Type} {S : Ser α} {D : Den α} (h : Meaning c full S D) {v0 v v' : α}
    {t t' p p' : Bytes} (hs : (t ++ p).length ≤ intMax) (heq : t ++ p = t' ++ p') (hp : Delim p) (hp' : Delim p')
    (h1 : D v0 v t) (h2 : D v0 v' t') : t = t' ∧ v = v' := by
  have hl := hs
  have hl' := hs
  rw [List.length_append] at hl
  rw [heq, List.length_append] at hl'
  have a := h.inner.complete h1 (by omega) p .fresh rfl hp
  have b := h.inner.complete h2 (by omega) p' .fresh rfl hp'
  rw [← heq, a] at b
  cases b
  exact ⟨List.append_cancel_right heq, rfl⟩

/-- C53. The result does not depend on the error argument when nothing is
reported. -/
theorem C53_without_error {c : Cfg} {full : Bool} {α : Type} {S : Ser α} {D : Den α} (h : Meaning c full S D) {v0 v : α}
    {t p : Bytes} {e : EPtr} (he : e.failed = false) (hs : t.length ≤ intMax) (hp : Delim p) (ht : D v0 v t) :
    S.de v0 (t ++ p) e = .ok (v, p, e) :=
  h.inner.complete ht hs p e he hp

/-! ### What the denotations allow beyond JSON -/

/-- Nothing at all and any beginning of `null` are read as the null pointer. -/
theorem C53_pointer_truncated : (pointerSer (intSer .strict .int)).de (some 7) [] .fresh = .ok (none, [], .fresh) ∧
    (pointerSer (intSer .strict .int)).de (some 7) b!"nu" .fresh = .ok (none, [], .fresh) := by decide +kernel

/-- So are any four bytes that start with an `n`. -/
theorem C53_pointer_any_n : PtrDen 0 (IntDen .strict .int) (some 7) none b!"nope" :=
  .inl ⟨_, _, _, rfl, rfl⟩

/-- A time string that ends after a number is read without an error; the number
is not added. -/
theorem C53_time_truncated : (timeSer .strict .long 1).de 0 b!"\"1m5" .fresh = .ok (60, [], .fresh) := by decide +kernel

/-- In a time string a quote right after a number is skipped like an unknown
unit. -/
theorem C53_time_quote_skipped : TimeDen .strict .long 1 0 3 b!"\"5\"3s\"" := by
  have d5 : IntDen .strict .long 0 5 b!"5" := .inr ⟨5, ⟨[], b!"5", rfl, .inl rfl, .inr ⟨_, _, rfl, by decide, by decide⟩, by decide⟩,
    .inl ⟨by unfold IntTy.InRange; decide, by unfold IntTy.InRange; decide, rfl⟩⟩
  have d3 : IntDen .strict .long 0 3 b!"3" := .inr ⟨3, ⟨[], b!"3", rfl, .inl rfl, .inr ⟨_, _, rfl, by decide, by decide⟩, by decide⟩,
    .inl ⟨by unfold IntTy.InRange; decide, by unfold IntTy.InRange; decide, rfl⟩⟩
  have sum : TimeSum .strict .long 1 0 3 .s 3 :=
    ⟨3, 3, 3, 3, .inl ⟨by unfold IntTy.InRange; decide, by decide⟩, .inl ⟨by unfold IntTy.InRange; decide, by decide⟩,
      .inl ⟨by unfold IntTy.InRange; decide, by decide⟩, .inl ⟨by unfold IntTy.InRange; decide, by decide⟩,
      ⟨by unfold IntTy.InRange; decide, by decide⟩⟩
  exact .inr ⟨b!"5\"3s\"", rfl, .skip d5 (by decide) (by decide) (by decide) (by decide) (fun h => absurd h (by decide))
    (.unit (w := b!"s") (u := .s) d3 .s sum .close)⟩

/-- A multi-byte character is cut when the buffer is full and a quote follows. -/
theorem C53_chars_cut : CharsDen 1 [0] [0xC3] (c%'"' :: 0xC3 :: b!"\"") :=
  .inr ⟨[0xC3], [0xC3], rfl, .inr ⟨[], [], [0xC3], [0xC3], rfl, rfl, .nil,
    .multi (n := 1) (by unfold LeadLen; decide) (by decide) (by decide) (by decide), rfl⟩, rfl⟩

/-- What follows the description inside a quoted string is ignored. -/
theorem C53_quoted_tail : QuotedDen (intSer .strict .int).de true (IntDen .strict .int) 0 12 b!"\"12abc\"" :=
  .inl ⟨b!"12abc", b!"abc", .inl ⟨b!"12abc", rfl, decodes_ascii (by decide)⟩, by decide +kernel⟩

/-- The flags of the examples. -/
def demoBits (sep : Byte) (strict : Bool) : Flags 8 := ⟨[(b!"a", 1), (b!"b", 2)], sep, strict⟩

theorem demoBits_means (c : Cfg) {sep : Byte} (h : sep = c%' ' ∨ sep = c%'|') (strict : Bool) :
    Means c (flagsSer c (demoBits sep strict)) (FlagsDen [(b!"a", 1), (b!"b", 2)] sep strict) := by
  have hp : ∀ b : Byte, b = c%'a' ∨ b = c%'b' → PlainName [b] ∧ FlagWord sep [b] := by
    have w : ∀ b : Byte, b = c%'a' ∨ b = c%'b' → ¬ WsByte b ∧ b ≠ c%'/' ∧ b ≠ c%'"' ∧ b ≠ c%' ' ∧ b ≠ c%'|' ∧ b ≠ c%'*' := by
      rintro b (rfl | rfl) <;> (unfold WsByte; decide)
    intro b hb
    refine ⟨by rcases hb with rfl | rfl <;> (unfold PlainName; decide), by simp, ?_, ?_⟩
    · intro x hx
      simp only [List.mem_singleton] at hx
      subst hx
      have := w x hb
      refine ⟨this.1, this.2.1, this.2.2.1, ?_⟩
      rcases h with rfl | rfl
      · exact this.2.2.2.1
      · exact this.2.2.2.2.1
    · simpa using (w b hb).2.2.2.2.2
  refine .flags (F := demoBits sep strict) (by simp [demoBits]) (by simp only [demoBits]; decide) ?_ ?_
  · rcases h with rfl | rfl
    · exact .inl rfl
    · show GoodSep c%'|'
      exact .inr ⟨by unfold WsByte; decide, by decide, by decide, by decide⟩
  · exact List.forall_mem_cons.mpr ⟨hp _ (.inl rfl), List.forall_mem_cons.mpr ⟨hp _ (.inr rfl), by simp⟩⟩

/-- Where the space separates flags, in nonstrict mode a second space loses the
word after it, and with it a listed flag. -/
theorem C53_flags_second_space : FlagsDen (w := 8) [(b!"a", 1), (b!"b", 2)] c%' ' false 0 1 b!"\"a  b\"" := by
  refine .inr ⟨b!"a  b\"", rfl, ?_⟩
  rw [if_pos rfl]
  refine .more (n := b!"a") (u := 1) (v := 0) (r := b!" b\"") (by simp) ?_
  refine .other (g := b!" ") (s := b!"b") (g' := []) (r := b!"\"") rfl (by simp) ⟨.ws (by unfold WsByte; decide) .nil, by decide⟩ ?_ (by decide) (.inr rfl)
    ⟨.nil, by simp⟩ ?_ ?_ .close
  · intro b hb
    simp at hb
    subst hb
    exact ⟨by unfold WsByte; decide, by decide⟩
  · intro b hb
    simp at hb
    subst hb
    exact ⟨by unfold WsByte; decide, by decide⟩
  · intro n hn z hz
    simp only [List.map_cons, List.map_nil, List.mem_cons, List.not_mem_nil, or_false] at hn
    rcases hn with rfl | rfl <;> simp at hz

/-- In strict mode the same text is refused. -/
example : ∃ v p e, (flagsSer .strict (demoBits c%' ' true)).de 0 b!"\"a  b\"" .fresh = .ok (v, p, e) ∧ e.failed = true := ⟨_, _, _, rfl, rfl⟩

/-- White space between two listed flags is as good as another separator. -/
theorem C53_flags_space_separates : FlagsDen (w := 8) [(b!"a", 1), (b!"b", 2)] c%'|' true 0 3 b!"\"a b\"" := by
  refine .inr ⟨b!"a b\"", rfl, ?_⟩
  rw [if_neg (by decide)]
  have none : Gap [] := .nil
  have space : Gap b!" " := .ws (by unfold WsByte; decide) .nil
  have h1 : FlagStr (w := 8) [(b!"a", 1), (b!"b", 2)] true c%'|' (2 ||| 0) ([] ++ b!"b" ++ [] ++ [] ++ b!"\"") :=
    .listed none (by simp) (.inl rfl) ⟨none, by simp⟩ (.inl rfl) (.close (g := []) none)
  exact .listed (g := []) (n := b!"a") (u := 1) (g' := b!" ") (k := []) none (by simp)
    (.inr (.inr ⟨by decide, .inl ⟨_, rfl, by unfold WsByte; decide⟩⟩)) ⟨space, by decide⟩ (.inl rfl) h1

example : (flagsSer .strict (demoBits c%'|' true)).de 0 b!"\"a b\"" .fresh = .ok (3, [], .fresh) :=
  (C53_whole (demoBits_means _ (.inr rfl) _) EPtr.fresh_clean (by decide +kernel)).mpr C53_flags_space_separates

example : (flagsSer .strict (demoBits c%' ' false)).de 0 b!"\"a  b\"" .fresh = .ok (1, [], .fresh) :=
  (C53_whole (demoBits_means _ (.inl rfl) _) EPtr.fresh_clean (by decide +kernel)).mpr C53_flags_second_space

/-! A structure with a pointer, a time interval, a size, a quoted number and a
text of at most four bytes. -/

/-- The structure of the examples. -/
structure DemoUnits where
  p : Option Int
  t : Int
  z : Int
  q : Int
  s : Bytes
  deriving DecidableEq

def demoUnits (c : Cfg) : List (DEntry DemoUnits) :=
  [ ⟨.mem ⟨b!"p", fun t => t.p, fun x t => { t with p := x }, pointerSer (intSer c .int)⟩, PtrDen 0 (IntDen c .int)⟩,
    ⟨.mem ⟨b!"t", fun t => t.t, fun x t => { t with t := x }, timeSer c .long 1000⟩, TimeDen c .long 1000⟩,
    ⟨.mem ⟨b!"z", fun t => t.z, fun x t => { t with z := x }, sizeSer c .long 1⟩, SizeDen c .long 1⟩,
    ⟨.mem ⟨b!"q", fun t => t.q, fun x t => { t with q := x }, quotedSer (intSer c .int) true false⟩,
      QuotedDen (intSer c .int).de false (IntDen c .int)⟩,
    ⟨.mem ⟨b!"s", fun t => t.s, fun x t => { t with s := x }, charArraySer 4⟩, CharsDen 4⟩ ]

def demoUnitsSer (c : Cfg) : Ser DemoUnits :=
  objectSer c true ⟨none, 0, 0, 0, []⟩ ((demoUnits c).map fun d => d.entry.toMember)

theorem demoUnits_means (c : Cfg) : Means c (demoUnitsSer c) (ObjDen true ⟨none, 0, 0, 0, []⟩ (demoUnits c)) := by
  have hex : ∀ d ∈ demoUnits c, ∃ f, Meaning c f d.entry.ref.ser d.den := by
    intro d hd
    simp only [demoUnits, List.mem_cons, List.not_mem_nil, or_false] at hd
    rcases hd with rfl | rfl | rfl | rfl | rfl
    · exact ⟨_, .pointer (.int (by unfold IntTy.Std; decide))⟩
    · exact ⟨_, .time (by unfold IntTy.Std; decide)⟩
    · exact ⟨_, .size (by unfold IntTy.Std; decide) (by unfold IntTy.InRange; decide) (by decide)⟩
    · exact ⟨_, .quoted (.int (by unfold IntTy.Std; decide))⟩
    · exact ⟨_, .chars⟩
  exact .object' ⟨by show [b!"p", b!"t", b!"z", b!"q", b!"s"].Nodup; decide,
    by show ∀ n ∈ [b!"p", b!"t", b!"z", b!"q", b!"s"], PlainName n; unfold PlainName; decide⟩ hex

example : ObjDen true ⟨none, 0, 0, 0, []⟩ (demoUnits .strict) ⟨none, 5, 5, 5, []⟩
    ⟨some 7, 90250, 3072, -4, [97, 98, 0, 0]⟩
    b!"{\"t\":\"1m30s250ms\",\"p\":7,\"z\":\"3KiB\", \"q\":\"-4\",\"s\":\"ab\"}" :=
  (C53_whole (demoUnits_means .strict) EPtr.fresh_clean (by decide +kernel)).mp (by decide +kernel)

/-! A structure with a number, a list of lists and a dictionary. -/

/-- The structure of the examples. -/
structure DemoRec where
  a : Int
  b : List (List Bool)
  c : List (Bytes × Bytes)
  deriving DecidableEq

/-- `object<T, member_list< member<a, …, int>, member_p<b, …, vector<vector<bool>>>, member<c, …, map<string,string>> > >`. -/
def demoRec (c : Cfg) : List (DEntry DemoRec) :=
  [ ⟨.mem ⟨b!"a", fun t => t.a, fun x t => { t with a := x }, intSer c .int⟩, IntDen c .int⟩,
    ⟨.prop ⟨b!"b", fun t => t.b, fun x t => { t with b := x }, arraySer (seqColl _) (arraySer (seqColl _) boolSer)⟩,
      SeqDen (C := List (List Bool)) [] (fun c v => c ++ [v]) [] c%'[' c%']'
        (SeqDen (C := List Bool) [] (fun c v => c ++ [v]) false c%'[' c%']' BoolDen)⟩,
    ⟨.mem ⟨b!"c", fun t => t.c, fun x t => { t with c := x }, dictSer (seqColl _) strSer strSer⟩,
      SeqDen (C := List (Bytes × Bytes)) [] (fun c v => c ++ [v]) ([], []) c%'{' c%'}' (FieldDen StrDen StrDen)⟩ ]

def demoRecSer (c : Cfg) : Ser DemoRec :=
  objectSer c false ⟨0, [], []⟩ ((demoRec c).map fun d => d.entry.toMember)

theorem demoRec_means (c : Cfg) : Means c (demoRecSer c) (ObjDen false ⟨0, [], []⟩ (demoRec c)) := by
  refine .object (f := fun _ => true) ⟨?_, ?_⟩ ?_
  · show [b!"a", b!"b", b!"c"].Nodup
    decide
  · show ∀ n ∈ [b!"a", b!"b", b!"c"], PlainName n
    unfold PlainName
    decide
  intro d hd
  simp only [demoRec, List.mem_cons, List.not_mem_nil, or_false] at hd
  rcases hd with rfl | rfl | rfl
  · exact .int (by unfold IntTy.Std; decide)
  · exact .array (K := seqColl (List Bool)) (.array (K := seqColl Bool) .bool)
  · exact .dict (K := seqColl (Bytes × Bytes)) .str .str

/-- Another order, an unknown key, comments, a trailing comma in a list. -/
def demoRecText : Bytes :=
  b!"{\"b\" : [[true ,false],[ ],], /*x*/ \"zz\":{\"q\":[null]},\n\"a\":-7,\"c\":{\"k\\n\":\"\u0041\"}}"

example : ObjDen false ⟨0, [], []⟩ (demoRec .strict) ⟨5, [[true]], [(b!"x", b!"y")]⟩
    ⟨-7, [[true, false], []], [(b!"k\n", b!"A")]⟩ demoRecText :=
  (C53_whole (demoRec_means .strict) EPtr.fresh_clean (by decide +kernel)).mp (by decide +kernel)

/-- The denotation holds without looking at the reader. -/
example : SeqDen [] (fun (c : List Int) v => c ++ [v]) 0 c%'[' c%']' (IntDen .strict .int) [9] [1, -20] b!"[1 ,\n-20,]" := by
  have d1 : IntDen .strict .int 0 1 b!"1" := .inr ⟨1, ⟨[], b!"1", rfl, .inl rfl, .inr ⟨_, _, rfl, by decide, by decide⟩, by decide⟩,
    .inl ⟨by unfold IntTy.InRange; decide, by unfold IntTy.InRange; decide, rfl⟩⟩
  have d2 : IntDen .strict .int 0 (-20) b!"-20" := .inr ⟨-20, ⟨b!"-", b!"20", rfl, .inr rfl, .inr ⟨_, _, rfl, by decide, by decide⟩, by decide⟩,
    .inl ⟨by unfold IntTy.InRange; decide, by unfold IntTy.InRange; decide, rfl⟩⟩
  refine .inr ⟨[1, -20], b!"1 ,\n-20,]", rfl, ?_, rfl⟩
  have hend : ItemsText (IntDen .strict .int 0) c%']' ([] : List Int) b!"]" := .close .nil
  have h2 := ItemsText.more (g1 := b!"\n") (g2 := []) (.ws (by decide) .nil) ⟨_, _, rfl, by decide⟩ d2 .nil hend
  exact ItemsText.more (g1 := []) (g2 := b!" ") .nil ⟨_, _, rfl, by decide⟩ d1 (.ws (by decide) .nil) h2

/-- Nothing stands for this text: the key is not closed. -/
example : ∀ v, ¬ ObjDen false ⟨0, [], []⟩ (demoRec .strict) ⟨5, [], []⟩ v b!"{\"a:7}" := by
  intro v hv
  have := (C53_whole (demoRec_means .strict) EPtr.fresh_clean (by decide +kernel)).mpr hv
  have hr : ∀ v, (demoRecSer .strict).de ⟨5, [], []⟩ b!"{\"a:7}" .fresh ≠ .ok (v, [], .fresh) := by
    intro v h
    have hr : (match (demoRecSer .strict).de ⟨5, [], []⟩ b!"{\"a:7}" .fresh with
      | .ok x => x.2.2 | _ => .null) ≠ EPtr.fresh := by decide +kernel
    rw [h] at hr
    exact hr rfl
  exact hr v this

end Wjson
