import Verif.Props.Nested
import Verif.Props.Parser
import Verif.Props.Stable
import Verif.Proofs.Utf8
/-
C71. From UTF-8 texts to UTF-8 texts.
-/
namespace Wjson
open Spec

/-! ### C71 -/

/-- C71. Reading a UTF-8 text, right, wrong or torn off between two characters,
into a variable whose strings are UTF-8 leaves a variable whose strings are UTF-8.
(Descriptions without strings may be given any text.) -/
theorem C71_stays_utf8 {c : Cfg} {key st : Bool} {α : Type} {S : Ser α} {P : α → Prop} (h : Utf8Safe c key st S P) {v0 v : α}
    {s p : Bytes} {e e' : EPtr} (hs : st = true → Utf8Source s) (h0 : P v0) (hr : S.de v0 s e = .ok (v, p, e')) : P v :=
  (h.kept.keeps v0 s e (.utf8If hs) h0 v p e' hr).2

/-- C71. A program that reads any number of UTF-8 texts into a variable, with
errors or without, can write it at any time, and writes an RFC 8259 value in UTF-8,
which is accepted by the validator. -/
theorem C71_written {c : Cfg} {key st : Bool} {α : Type} {S : Ser α} {P : α → Prop} (h : Utf8Safe c key st S P) {ss : List Bytes} {v : α}
    (hs : st = true → ∀ s ∈ ss, Utf8Source s) (hr : History S S.dflt ss v) :
    ∃ t, S.emit v ⟨[], .back⟩ = .ok ⟨t, .back⟩ ∧ RValue t ∧ Utf8Text t ∧ ∀ c' e, parse c' t e = .ok ([], e) := by
  have go : ∀ {v0 : α}, P v0 → History S v0 ss v → P v := by
    clear hr
    intro v0 h0 hr
    induction hr with
    | nil => exact h0
    | cons h1 _ ih =>
      exact ih (fun hst s hm => hs hst s (by simp [hm])) (C71_stays_utf8 h (fun hst => hs hst _ (by simp)) h0 h1)
  have hj := h.kept.json _ (go h.kept.dflt hr)
  obtain ⟨t, h1, h2⟩ := C49_written_json hj
  have h1 := h1 []
  exact ⟨t, h1, h2, h2.utf8, fun c' e => C49_accepted hj h1 c' e⟩

/-- C71. Where strings are keys, the variable is written as a JSON string. -/
theorem C71_key {c : Cfg} {st : Bool} {α : Type} {S : Ser α} {P : α → Prop} (h : Utf8Safe c true st S P) {v : α} (hv : P v) :
    ∃ t, S.emit v ⟨[], .back⟩ = .ok ⟨t, .back⟩ ∧ RString t := by
  obtain ⟨t, h1, h2⟩ := JsonKeyOf.string jsonLike_rfc (h.kept.isKey rfl v hv)
  exact ⟨t, by simpa using h1 [], h2⟩

/-- C71. `despace` of a UTF-8 text is a UTF-8 text, if it reports no error. -/
theorem C71_despace {s o r : Bytes} {e e' : EPtr} (he : e.Clean) (hs : Utf8Text s) (h : despace s e = .ok (r, e', o))
    (hok : e'.failed = false) : Utf8Text o :=
  despaced_utf8 (C13_despace_only_deletes_gaps he h hok).2 [] hs

/-- C71. Where it fails: an escaped UTF-16 pair, as JSON writes characters beyond
U+FFFF, is turned into two three-byte sequences, which are not UTF-8, and written
like this; so are the byte from `\xc3`, which is not JSON, the half of a letter left
by a text torn off inside it, and the half of a letter that fits a `char` array. -/
theorem C71_deviations :
    (strSer.de [] b!"\"\\ud83d\\ude00\"" .fresh = .ok ([0xED, 0xA0, 0xBD, 0xED, 0xB8, 0x80], [], .fresh) ∧
      strSer.emit [0xED, 0xA0, 0xBD, 0xED, 0xB8, 0x80] ⟨[], .back⟩ = .ok ⟨[c%'"', 0xED, 0xA0, 0xBD, 0xED, 0xB8, 0x80, c%'"'], .back⟩ ∧
      ¬ Utf8Text [c%'"', 0xED, 0xA0, 0xBD, 0xED, 0xB8, 0x80, c%'"']) ∧
    (strSer.de [] b!"\"\\xc3\"" .fresh = .ok ([0xC3], [], .fresh) ∧ ¬ Utf8Text [0xC3]) ∧
    (strSer.de [] [c%'"', 0xC3] .fresh = .ok ([0xC3], [], .obj ⟨.UnexpectedEndFragment, none, 0⟩)) ∧
    ((charArraySer 1).de [] [c%'"', 0xC3, 0xA9, c%'"'] .fresh = .ok ([0xC3], [], .obj ⟨.ExpectedOf, some b!"\"", 2⟩) ∧
      Utf8Text [c%'"', 0xC3, 0xA9, c%'"']) := by
  refine ⟨⟨by decide +kernel, by decide +kernel, ?_⟩, ⟨by decide +kernel, ?_⟩, by decide +kernel, by decide +kernel, ?_⟩
  · intro h
    have h := utf8Text_tail (by decide) h
    rcases utf8Text_cons_inv h with ⟨h, _⟩ | ⟨u, r, h1, h2, _⟩
    · exact absurd h (by decide)
    · cases h2 with
      | two a b => simp at h1; exact absurd (h1.1 ▸ b) (by decide)
      | threeE0 => simp at h1
      | three a => simp at h1; exact absurd (h1.1 ▸ a) (by decide)
      | threeED a b => simp at h1; exact absurd (h1.1 ▸ b) (by decide)
      | fourF0 => simp at h1
      | four a => simp at h1; exact absurd (h1.1 ▸ a) (by decide)
      | fourF4 => simp at h1
  · intro h
    rcases utf8Text_cons_inv h with ⟨h, _⟩ | ⟨u, r, h1, h2, _⟩
    · exact absurd h (by decide)
    · cases h2 <;> simp at h1
  · exact .ascii (by decide) (.multi (c := [0xC3, 0xA9]) (.two (by decide) (by decide) (by unfold Cont; decide)) (.ascii (by decide) .nil))

/-! A guest book: a list of entries with a name and a note, and the visits per day. -/

structure DemoGuest where
  name : Bytes
  note : Option Bytes
  days : List (Bytes × Int)
  deriving DecidableEq

def demoGuestDays (c : Cfg) : Ser (List (Bytes × Int)) := dictSer (mapColl Bytes Int fun a b => decide (a < b)) strSer (intSer c .int)

def demoGuest (c : Cfg) : List (PEntry DemoGuest) :=
  [⟨.mem ⟨b!"name", (·.name), fun x t => { t with name := x }, strSer⟩, Utf8Text⟩,
   ⟨.mem ⟨b!"note", (·.note), fun x t => { t with note := x }, pointerSer strSer⟩, fun o => ∀ v, o = some v → Utf8Text v⟩,
   ⟨.mem ⟨b!"days", (·.days), fun x t => { t with days := x }, demoGuestDays c⟩,
     fun (vs : List (Bytes × Int)) => ∀ x ∈ vs, Utf8Text x.1 ∧ IntTy.int.InRange x.2⟩]

def demoGuestSer (c : Cfg) : Ser DemoGuest := objectSer c false ⟨[], none, []⟩ ((demoGuest c).map fun m => m.entry.toMember)

def demoBookSer (c : Cfg) : Ser (List DemoGuest) := arraySer (seqColl DemoGuest) (demoGuestSer c)

theorem demoGuest_safe (c : Cfg) : Utf8Safe c false true (demoGuestSer c) fun t => ∀ m ∈ demoGuest c, m.P (m.entry.ref.get t) := by
  refine .object (fun m => m.entry.ref.name == b!"name") ⟨?_, ?_, ?_⟩ ?_ ?_ ?_
  · intro m hm x t
    simp only [demoGuest, List.map_cons, List.map_nil, List.mem_cons, List.not_mem_nil, or_false] at hm
    rcases hm with rfl | rfl | rfl <;> rfl
  · intro m hm x y t
    simp only [demoGuest, List.map_cons, List.map_nil, List.mem_cons, List.not_mem_nil, or_false] at hm
    rcases hm with rfl | rfl | rfl <;> rfl
  · simp [demoGuest, Entry.ref]
  · intro m hm
    simp only [demoGuest, List.mem_cons, List.not_mem_nil, or_false] at hm
    rcases hm with rfl | rfl | rfl <;> (simp only [Entry.ref]; exact rchars_of_plain (by unfold PlainAscii; decide))
  · intro m hm
    simp only [demoGuest, List.mem_cons, List.not_mem_nil, or_false] at hm
    rcases hm with rfl | rfl | rfl
    · exact .str
    · exact .pointer .str
    · refine .dict .str (.int (by unfold IntTy.Std; decide)) rfl ?_
      intro t x y hy
      exact setInsert_mem hy
  · intro m hm
    simp only [demoGuest, List.mem_cons, List.not_mem_nil, or_false] at hm
    rcases hm with rfl | rfl | rfl
    · exact .nil
    · simp [Entry.ref]
    · simp [Entry.ref]

theorem demoBook_safe (c : Cfg) :
    Utf8Safe c false true (demoBookSer c) fun vs => ∀ v ∈ vs, ∀ m ∈ demoGuest c, m.P (m.entry.ref.get v) :=
  .array (K := seqColl DemoGuest) (demoGuest_safe c) rfl fun t x y hy => by
    simpa [seqColl] using hy

/-- `[{"name":"Zoë","days":{"é":2` with an escape and the raw letter, torn off. -/
def demoBookText : Bytes := b!"[{\"name\":\"Zo\\u00eb\",\"days\":{\"" ++ [0xC3, 0xA9] ++ b!"\":2"

example : Utf8Source demoBookText := by
  refine ⟨?_, by decide, by decide +kernel, ?_⟩
  · refine .append (.append (utf8_of_ascii (by decide)) ?_) (utf8_of_ascii (by decide))
    exact .multi (c := [0xC3, 0xA9]) (t := []) (.two (by decide) (by decide) (by unfold Cont; decide)) .nil
  · intro r hr
    obtain ⟨p, hp⟩ := hr
    have key : ∀ k ≤ demoBookText.length, (demoBookText.drop k).take 2 = b!"\\u" → k = 12 := by decide +kernel
    have hk := key p.length (by rw [← hp]; simp) (by rw [← hp]; simp)
    have h2 : demoBookText.drop 14 = r := by rw [← hp, show 14 = p.length + 2 by omega, ← List.drop_drop]; simp
    refine .inr ⟨c%'0', c%'0', c%'e', c%'b', demoBookText.drop 18, ?_, ?_, ?_, ?_, ?_, ?_⟩
    · rw [← h2]; decide +kernel
    all_goals first | (unfold HexDigit; decide) | (unfold Surrogate; decide +kernel)

example : History (demoBookSer .strict) [] [demoBookText] [⟨[c%'Z', c%'o', 0xC3, 0xAB], none, [([0xC3, 0xA9], 2)]⟩] :=
  .cons (p := []) (e := .fresh) (e' := .obj ⟨.UnexpectedEndFragment, none, 0⟩) (by decide +kernel) (.nil _)

example : (demoBookSer .strict).emit [⟨[c%'Z', c%'o', 0xC3, 0xAB], none, [([0xC3, 0xA9], 2)]⟩] ⟨[], .back⟩ =
    .ok ⟨b!"[{\"name\":\"Zo" ++ [0xC3, 0xAB] ++ b!"\",\"note\":null,\"days\":{\"" ++ [0xC3, 0xA9] ++ b!"\":2}}]", .back⟩ := by decide +kernel

/-! A person, given by a name or by a number. -/

def demoWho (c : Cfg) : List (PSlot (Bytes × Int)) :=
  [.alt ⟨.mem ⟨b!"who", (·.1), fun x t => (x, t.2), strSer⟩, Utf8Text⟩ ⟨.mem ⟨b!"who", (·.2), fun x t => (t.1, x), intSer c .int⟩, IntTy.int.InRange⟩
    (fun x : Bytes => x.isEmpty) false]

theorem demoWho_safe (c : Cfg) : Utf8Safe c false true (objectSer c true ([], 0) ((demoWho c).map PSlot.toMember)) fun t =>
    ∀ m ∈ (demoWho c).flatMap PSlot.parts, m.P (m.entry.ref.get t) := by
  refine .objectIf (fun _ => false) ⟨?_, ?_, ?_⟩ ?_ ?_ ?_
  · intro m hm x t
    simp only [demoWho, PSlot.parts, List.flatMap_cons, List.flatMap_nil, List.append_nil, List.map_cons, List.map_nil, List.mem_cons, List.not_mem_nil, or_false] at hm
    rcases hm with rfl | rfl <;> rfl
  · intro m hm x y t
    simp only [demoWho, PSlot.parts, List.flatMap_cons, List.flatMap_nil, List.append_nil, List.map_cons, List.map_nil, List.mem_cons, List.not_mem_nil, or_false] at hm
    rcases hm with rfl | rfl <;> rfl
  · simp [demoWho, PSlot.parts, Entry.ref]
  · intro m hm
    simp only [demoWho, PSlot.parts, List.flatMap_cons, List.flatMap_nil, List.append_nil, List.mem_cons, List.not_mem_nil, or_false] at hm
    rcases hm with rfl | rfl <;> (simp only [Entry.ref]; exact rchars_of_plain (by unfold PlainAscii; decide))
  · intro m hm
    simp only [demoWho, PSlot.parts, List.flatMap_cons, List.flatMap_nil, List.append_nil, List.mem_cons, List.not_mem_nil, or_false] at hm
    rcases hm with rfl | rfl
    · exact .value .str
    · exact .int (by unfold IntTy.Std; decide)
  · intro m hm
    simp only [demoWho, PSlot.parts, List.flatMap_cons, List.flatMap_nil, List.append_nil, List.mem_cons, List.not_mem_nil, or_false] at hm
    rcases hm with rfl | rfl
    · exact .nil
    · show IntTy.int.InRange 0
      decide

example : (objectSer .strict true ([], 0) ((demoWho .strict).map PSlot.toMember)).de ([c%'x'], 5) b!"{\"who\":7}" .fresh = .ok (([], 7), [], .fresh) := by
  decide +kernel

end Wjson
