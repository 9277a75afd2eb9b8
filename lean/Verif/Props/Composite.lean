import Verif.Proofs.CompositeAll
/-
C76: the errors of containers and structures, exactly.
-/
namespace Wjson
open Spec

/-- C76. For every description the table of its errors is exact: a read with a fresh
error object that ends leaves the error `x` if and only if the table has `x` for the
text, and leaves the error object as it was if and only if the table has nothing. -/
theorem C76_error {c : Cfg} {units : Bool} {α : Type} {S : Ser α} {F : α → Bytes → JError → Prop} (h : Tabled c units S F) {v v' : α} {s p : Bytes}
    {e : EPtr} (hr : S.de v s (.obj {}) = .ok (v', p, e)) (x : JError) :
    (e = .obj x ∧ x.code ≠ .ValidJSON) ↔ F v s x := by
  rcases tabled_diagnosed h v s v' p e hr with ⟨rfl, hq⟩ | ⟨y, hy, rfl, hF⟩
  · refine ⟨fun ⟨h1, h2⟩ => ?_, fun h => absurd h (hq x)⟩
    cases h1
    exact absurd rfl h2
  · rw [hF]
    exact ⟨fun ⟨h1, _⟩ => by cases h1; rfl, fun h => by rw [h]; exact ⟨rfl, hy⟩⟩

theorem C76_silent {c : Cfg} {units : Bool} {α : Type} {S : Ser α} {F : α → Bytes → JError → Prop} (h : Tabled c units S F) {v v' : α} {s p : Bytes}
    {e : EPtr} (hr : S.de v s (.obj {}) = .ok (v', p, e)) :
    e = .obj {} ↔ ∀ x, ¬ F v s x := by
  rcases tabled_diagnosed h v s v' p e hr with ⟨rfl, hq⟩ | ⟨y, hy, rfl, hF⟩
  · exact ⟨fun _ => hq, fun _ => rfl⟩
  · refine ⟨fun h => ?_, fun h => absurd ((hF y).mpr rfl) (h y)⟩
    cases h
    exact absurd rfl hy

/-- C76. Every text is read to an end, if there are no time intervals and sizes, the range may be looked at behind its end (but
does not go on with a `]`) and numbers wrap. -/
theorem C76_ends {c : Cfg} (hw : c.wrapv = true) (hp : c.past ≠ none) (hb : c.past ≠ some c%']') {α : Type} {S : Ser α}
    {F : α → Bytes → JError → Prop} (h : Tabled c false S F) (v : α) (s : Bytes) :
    ∃ v' p e, S.de v s (.obj {}) = .ok (v', p, e) := by
  rcases tabled_safeU (U := False) (by simp [hw]) (by simp [hp, hb]) (by simp) h v s (.obj {}) with ⟨_, h⟩ | ⟨v', p, e, h, _⟩
  · exact h.elim
  · exact ⟨v', p, e, h⟩

/-- C76. A text has at most one error in the table. -/
theorem C76_one {c : Cfg} (hw : c.wrapv = true) (hp : c.past ≠ none) (hb : c.past ≠ some c%']') {α : Type} {S : Ser α}
    {F : α → Bytes → JError → Prop} (h : Tabled c false S F) {v : α} {s : Bytes} {x y : JError} (hx : F v s x) (hy : F v s y) : x = y := by
  obtain ⟨v', p, e, hr⟩ := C76_ends hw hp hb h v s
  have h1 := ((C76_error h hr x).mpr hx).1
  have h2 := ((C76_error h hr y).mpr hy).1
  rw [h1] at h2
  cases h2
  rfl

/-! ### Deviations -/

/-- C76. Deviation: where a comma is missing in a `std::array` the name of the expected
token is the empty string (in an array of the language it is the comma). -/
theorem C76_nameless_comma : ∃ s v p, ∀ c, (fixSer .stdArray 2 (intSer c IntTy.int)).de [0, 0] s (.obj {}) =
      .ok (v, p, .obj ⟨.ExpectedOf, some [], 2⟩) ∧
    (fixSer .cArray 2 (intSer c IntTy.int)).de [0, 0] s (.obj {}) = .ok (v, p, .obj ⟨.ExpectedOf, some b!",", 2⟩) :=
  ⟨b!"[1 2]", [1, 0], [], fun ⟨q, w, g⟩ => by cases w <;> cases g <;> exact ⟨by rfl, by rfl⟩⟩

/-- C76. Deviation: a pointer reports no error for any text that begins with `n`. -/
theorem C76_pointer_n {c : Cfg} {units : Bool} {α : Type} {S : Ser α} {F : α → Bytes → JError → Prop} (h : Tabled c units S F) {v v' : Option α} {t p : Bytes}
    {e : EPtr} (hr : (pointerSer S).de v (c%'n' :: t) (.obj {}) = .ok (v', p, e)) : e = .obj {} :=
  (C76_silent (.pointer h) hr).mpr fun x hx => by cases hx with | value hb _ => exact hb rfl

/-- Members `a` and `b` of a pair of numbers. -/
def demoPair (c : Cfg) : List (Entry (Int × Int)) :=
  [.mem ⟨b!"a", Prod.fst, fun v t => (v, t.2), intSer c .int⟩, .mem ⟨b!"b", Prod.snd, fun v t => (t.1, v), intSer c .int⟩]

/-- The same with the errors of their values. -/
def demoPairT (c : Cfg) : List (TSlot (Int × Int)) := (demoPair c).map fun en => .one en fun _ => IntFault

theorem demoPair_tabled (c : Cfg) (units : Bool) (strict : Bool) :
    Tabled c units (objectSer c strict (0, 0) ((demoPair c).map Entry.toMember)) (ObjectFault c strict (demoPairT c)) := by
  refine .object (L := demoPairT c) strict (0, 0) ?_ ?_ ?_ ?_ ?_
  · show [b!"a", b!"b"].Nodup
    decide
  · intro x hx
    simp only [demoPairT, demoPair, List.map_cons, List.map_nil, List.mem_cons, List.not_mem_nil, or_false] at hx
    rcases hx with rfl | rfl <;> exact ⟨by simp [TSlot.name, Entry.ref], trivial⟩
  · intro en F hx
    simp only [demoPairT, demoPair, List.map_cons, List.map_nil, List.mem_cons, List.not_mem_nil, or_false] at hx
    rcases hx with hx | hx <;> cases hx <;> exact .int _
  all_goals
    intro l r i RU Fl Fr hx
    simp [demoPairT, demoPair] at hx

/-- C76. Deviation: of several members behind the last known one the strict mode reports
the last, not the first. -/
theorem C76_surplus_position : ∃ s v p, (objectSer Cfg.strict true (0, 0) ((demoPair .strict).map Entry.toMember)).de (0, 0) s (.obj {}) =
      .ok (v, p, .obj (errAt .InvalidMember b!"\"d\":4}")) ∧ b!"\"c\":3,\"d\":4}" <:+ s :=
  ⟨b!"{\"a\":1,\"b\":2,\"c\":3,\"d\":4}", (1, 2), [], by decide +kernel, by decide⟩

/-- C76. Deviation: between two members of a structure a missing comma is reported as a
missing brace; between two entries of a dictionary as a missing comma. -/
theorem C76_brace_for_comma : ∃ s, (∃ v p, (objectSer Cfg.strict true (0, 0) ((demoPair .strict).map Entry.toMember)).de (0, 0) s (.obj {}) =
      .ok (v, p, .obj (expectAt b!"}" b!"\"b\":2}"))) :=
  ⟨b!"{\"a\":1 \"b\":2}", (1, 0), [], by rfl⟩

/-- C76. Deviation: the place of an error in the kind or in the unit of a time interval
or a size is never reported: the error tells that it is at the end of the text. -/
theorem C76_unit_place {c : Cfg} {b : Byte} {t : Bytes} (hb : UnitKind b) {ty : IntTy} {m v v' : Int} {p : Bytes} {e : EPtr} :
    ((timeSer c ty m).de v (b :: t) (.obj {}) = .ok (v', p, e) → e = .obj ⟨.InvalidString, none, 0⟩) ∧
      ((sizeSer c ty m).de v (b :: t) (.obj {}) = .ok (v', p, e) → e = .obj ⟨.InvalidString, none, 0⟩) :=
  ⟨fun h => ((C76_error (.time (units := true) ty m rfl) h _).mpr (.kind hb)).1,
    fun h => ((C76_error (.size (units := true) ty m rfl) h _).mpr (.kind hb)).1⟩

/-- C76. Deviation: a time interval that is cut behind a number leaves no error. -/
theorem C76_time_cut : ∃ s, b!"\"1h5" = s ∧ ∀ x, ¬ TimeFault .strict .long s x :=
  ⟨_, rfl, (C76_silent (.time (units := true) .long 1 rfl) (v := 0) (v' := 3600) (p := []) (e := .obj {}) (by decide +kernel)).mp rfl⟩

/-- Flags `a` and `b` in the strict mode. -/
def demoBar : Flags 8 := ⟨[(b!"a", 1), (b!"b", 2)], c%'|', true⟩

theorem demoBar_tabled (c : Cfg) (units : Bool) : Tabled c units (flagsSer c demoBar) fun _ => FlagsFault demoBar := by
  refine .flags demoBar (by simp [demoBar]) (by simp [demoBar, GoodSep, WsByte]) ?_
  intro y hy
  simp only [demoBar, List.mem_cons, List.not_mem_nil, or_false] at hy
  rcases hy with rfl | rfl <;> exact ⟨by simp, by simp [demoBar, WsByte], by simp⟩

/-- C76. Deviation: in the array form of flags the commas are not needed. -/
theorem C76_flags_no_comma : ∀ x, ¬ FlagsFault demoBar b!"[\"a\" \"b\"]" x :=
  (C76_silent (demoBar_tabled .strict false)
    (v := 0) (v' := 3) (p := []) (e := .obj {}) (by decide +kernel)).mp rfl

/-- A list of numbers or one number, under the name `v`; the list is tried first. -/
def demoEither (c : Cfg) : List (TSlot (List Int × Int)) :=
  [.alt ⟨b!"v", Prod.fst, fun v t => (v, t.2), arraySer (seqColl _) (intSer c .int)⟩ ⟨b!"v", Prod.snd, fun v t => (t.1, v), intSer c .int⟩
    (fun l => l.isEmpty) false (fun _ => SeqFault (intSer c .int) IntFault c%'[' c%']') (fun _ => IntFault)]

theorem demoEither_tabled (c : Cfg) (strict : Bool) :
    Tabled c false (objectSer c strict ([], 0) ((demoEither c).map fun x => x.slot.toMember)) (ObjectFault c strict (demoEither c)) := by
  refine .object (L := demoEither c) strict ([], 0) ?_ ?_ ?_ ?_ ?_
  · show [b!"v"].Nodup
    decide
  · intro x hx
    simp only [demoEither, List.mem_cons, List.not_mem_nil, or_false] at hx
    subst hx
    exact ⟨by simp [TSlot.name], rfl⟩
  · intro en F hx
    simp [demoEither] at hx
  · intro l r i RU Fl Fr hx
    simp only [demoEither, List.mem_cons, List.not_mem_nil, or_false] at hx
    cases hx
    exact .array _ (.int _)
  · intro l r i RU Fl Fr hx
    simp only [demoEither, List.mem_cons, List.not_mem_nil, or_false] at hx
    cases hx
    exact .int _

/-- C76. Deviation: of a `member_if` the error of the alternative that is tried last is
reported, even if the text is one of the other with an error deep inside. -/
theorem C76_last_alternative : ∃ s, s = b!"{\"v\":[1,2,x]}" ∧
    (arraySer (seqColl _) (intSer .strict .int)).de [] b!"[1,2,x]}" (.obj {}) = .ok ([1, 2, 0], [], .obj (errAt .InvalidNumber b!"x]}")) ∧
    (objectSer .strict false ([], 0) ((demoEither .strict).map fun x => x.slot.toMember)).de ([], 0) s (.obj {}) =
      .ok (([], 0), [], .obj (errAt .InvalidNumber b!"[1,2,x]}")) :=
  ⟨_, rfl, by decide +kernel, by decide +kernel⟩

/-! ### Cases -/

/-- Alternatives, both wrong: from the table. -/
example : ObjectFault .strict false (demoEither .strict) ([], 0) b!"{\"v\":[1,2,x]}" (errAt .InvalidNumber b!"[1,2,x]}") := by
  obtain ⟨_, rfl, _, h⟩ := C76_last_alternative
  exact (C76_error (demoEither_tabled .strict false) h _).mp ⟨rfl, by decide⟩

/-- Alternatives in a structure written as an array. -/
theorem demoEitherArray_tabled (c : Cfg) :
    Tabled c false (objectArraySer ([], 0) ((demoEither c).map fun x => x.slot.toAMember)) (ObjectArrayFault (demoEither c)) := by
  refine .objectArray (L := demoEither c) ([], 0) ?_ ?_ ?_
  · intro en F hx
    simp [demoEither] at hx
  · intro l r i RU Fl Fr hx
    simp only [demoEither, List.mem_cons, List.not_mem_nil, or_false] at hx
    cases hx
    exact .array _ (.int _)
  · intro l r i RU Fl Fr hx
    simp only [demoEither, List.mem_cons, List.not_mem_nil, or_false] at hx
    cases hx
    exact .int _

example : ∀ x, ¬ ObjectArrayFault (demoEither .strict) ([], 0) b!"[[1,2]]" x :=
  (C76_silent (demoEitherArray_tabled .strict) (v' := ([1, 2], 0)) (p := []) (e := .obj {}) (by decide +kernel)).mp rfl

example : ObjectArrayFault (demoEither .strict) ([], 0) b!"[tr]" (errAt .InvalidNumber b!"tr]") :=
  (C76_error (demoEitherArray_tabled .strict) (v' := ([], 0)) (p := []) (e := .obj (errAt .InvalidNumber b!"tr]")) (by decide +kernel) _).mp
    ⟨rfl, by decide⟩

example : UnitKind c%'[' := by simp [UnitKind, Digit]

/-- An array of time intervals: the second one has no number. -/
example : SeqFault (timeSer .strict .int 1) (TimeFault .strict .int) c%'[' c%']' b!"[\"1m\",\"xm\"]" (errAt .InvalidNumber b!"xm\"]") :=
  (C76_error (.array (units := true) (seqColl _) (.time .int 1 rfl)) (v := []) (v' := [60, 0]) (p := [])
    (e := .obj (errAt .InvalidNumber b!"xm\"]")) (by decide +kernel) _).mp ⟨rfl, by decide⟩

/-- A size with a unit that is none. -/
example : SizeFault .strict b!"\"5x\"" ⟨.InvalidNumber, none, 0⟩ :=
  (C76_error (.size (units := true) .long 1024 rfl) (v := 0) (v' := 0) (p := []) (e := .obj ⟨.InvalidNumber, none, 0⟩)
    (by decide +kernel) _).mp ⟨rfl, by decide⟩

/-- A size without a number: the place is that inside the string. -/
example : SizeFault .strict b!"\"xyz\",1,2,3" (errAt .InvalidNumber b!"xyz") :=
  (C76_error (.size (units := true) .long 1024 rfl) (v := 0) (v' := 0) (p := b!",1,2,3") (e := .obj (errAt .InvalidNumber b!"xyz"))
    (by decide +kernel) _).mp ⟨rfl, by decide⟩

/-- A word of flags that is not listed. -/
example : FlagsFault demoBar b!"\"a|x\"" (errAt .InvalidEnum b!"x\"") :=
  (C76_error (demoBar_tabled .strict false)
    (v := 0) (v' := 1) (p := []) (e := .obj (errAt .InvalidEnum b!"x\"")) (by decide +kernel) _).mp ⟨rfl, by decide⟩

/-- An array of pairs, in a pointer. -/
def demoPairs (c : Cfg) : Ser (Option (List (Int × Int))) :=
  pointerSer (arraySer (seqColl _) (objectSer c false (0, 0) ((demoPair c).map Entry.toMember)))

theorem demoPairs_tabled (c : Cfg) : Tabled c false (demoPairs c) fun _ => PointerFault
    (SeqFault (objectSer c false (0, 0) ((demoPair c).map Entry.toMember)) (ObjectFault c false (demoPairT c) (0, 0))
      c%'[' c%']') :=
  .pointer (.array _ (demoPair_tabled c false false))

example : PointerFault (SeqFault (objectSer .strict false (0, 0) ((demoPair .strict).map Entry.toMember))
      (ObjectFault .strict false (demoPairT .strict) (0, 0)) c%'[' c%']')
    b!"[{\"a\":1,\"b\":2},{\"b\":-}]" (errAt .InvalidNumber b!"}]") := by
  refine (C76_error (demoPairs_tabled .strict) (v := none) (v' := some [(1, 2), (0, 0)]) (p := [])
    (e := .obj (errAt .InvalidNumber b!"}]")) (by rfl) _).mp ⟨rfl, by decide⟩

/-- Directly from the table: the second comma is missing. -/
example (c : Cfg) : SeqFault (intSer c IntTy.int) IntFault c%'[' c%']' b!"[1,2 3]" (expectAt b!"," b!"3]") := by
  have h0 : ∀ {s : Bytes}, NoGap s → Skips s s := fun h => ⟨[], rfl, ⟨.nil, by simp⟩, h⟩
  refine .items (.more (b := c%'1') (p := b!",2 3]") (v := 1) (q := b!",2 3]") (r := b!"2 3]") (h0 ?_) (by decide) ?_ (h0 ?_)
    (.comma (b := c%'2') (p := b!" 3]") (v := 2) (q := b!" 3]") (h0 ?_) (by decide) ?_
      ⟨b!" ", rfl, ⟨.ws (by simp [WsByte]) .nil, by decide⟩, ?_⟩ (by decide) (by decide)))
  all_goals first
    | (intro b hb; simp at hb; subst hb; exact ⟨by simp [WsByte], by decide⟩)
    | (obtain ⟨q, w, g⟩ := c; cases w <;> cases g <;> rfl)

end Wjson
