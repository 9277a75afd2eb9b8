import Verif.Proofs.Log
import Verif.Props.Typed
/-
C89. A log that was torn off anywhere is read up to the last complete value.
-/
namespace Wjson
open Spec

section
variable {c : Cfg} {α : Type} {S : Ser α}

/-- C89. A file with whole records is read as the values that were written, up to its end and without an error. -/
theorem C89_whole (hS : Enclosed c S) {vs : List α} {s : Bytes} (h : LogText c S vs s) {e : EPtr} (he : e.Clean) :
    recoverValues S (s.length + 1) s e = .ok (vs, [], e) := by
  obtain ⟨D, hD⟩ := hS.closed
  exact recoverValues_whole h hD he.not_failed (Nat.lt_succ_self _)

/-- C89. The program is stopped at any byte while it appends one more record and a line feed. The file is read as the
values before, if nothing of the record is there; as these and the new one, if its text is there; and otherwise an error
is reported, the values are those before, and the loop stops where the torn record begins (or the behaviour is undefined,
see `C89_defined`). -/
theorem C89_torn (hS : Enclosed c S) {vs : List α} {s : Bytes} (h : LogText c S vs s) {v : α} {t x : Bytes} (ht : TextOf c S v t)
    (hx : x <+: t ++ b!"\n") {e : EPtr} (he : e.Clean) :
    (x = [] ∧ recoverValues S ((s ++ x).length + 1) (s ++ x) e = .ok (vs, [], e)) ∨
    (t <+: x ∧ recoverValues S ((s ++ x).length + 1) (s ++ x) e = .ok (vs ++ [v], [], e)) ∨
    (x ≠ [] ∧ x.length < t.length ∧
      (recoverValues S ((s ++ x).length + 1) (s ++ x) e = .ub ∨
        ∃ e', e'.failed = true ∧ recoverValues S ((s ++ x).length + 1) (s ++ x) e = .ok (vs, x, e'))) := by
  obtain ⟨D, hD⟩ := hS.closed
  rcases prefix_record hx with rfl | rfl | rfl | ⟨y, h1, h2, rfl⟩
  · rw [List.append_nil]
    exact .inl ⟨rfl, C89_whole hS h he⟩
  · exact .inr (.inl ⟨List.prefix_refl _, C89_whole hS (h.record ht) he⟩)
  · refine .inr (.inl ⟨List.prefix_append _ _, ?_⟩)
    rw [← List.append_assoc]
    exact C89_whole hS (h.record ht).newline he
  · refine .inr (.inr ⟨h1, ?_, ?_⟩)
    · have := List.length_pos_iff.mpr h2
      rw [List.length_append]
      omega
    · rcases recoverValues_torn h ht h1 h2 hD he (Nat.lt_succ_self _) with ⟨h3, _⟩ | h3
      · exact .inl h3
      · exact .inr h3

/-- C89. If the byte at `*end` is readable and not a `]`, as in a `std::string`, and signed integers wrap around, then nothing
is undefined for descriptions without `time_interval` and `size_value` (C48). -/
theorem C89_defined (hS : Enclosed c S) (hd : Described c ⟨false, true, true, true⟩ S) {z : Byte} (hz : c.past = some z) (hz' : z ≠ c%']')
    (hw : c.wrapv = true) {vs : List α} {s : Bytes} (h : LogText c S vs s) {v : α} {t x : Bytes} (ht : TextOf c S v t)
    (hx : x <+: t ++ b!"\n") {e : EPtr} (he : e.Clean) :
    ∃ vs' rest e', recoverValues S ((s ++ x).length + 1) (s ++ x) e = .ok (vs', rest, e') := by
  obtain ⟨D, hD⟩ := hS.closed
  rcases C89_torn hS h ht hx he with ⟨_, h1⟩ | ⟨_, h1⟩ | ⟨h1, hlt, h2 | ⟨e', _, h2⟩⟩
  · exact ⟨_, _, _, h1⟩
  · exact ⟨_, _, _, h1⟩
  · exfalso
    rcases prefix_record hx with rfl | rfl | rfl | ⟨y, _, h3, rfl⟩
    · exact h1 rfl
    · omega
    · rw [List.length_append] at hlt; omega
    · rcases recoverValues_torn h ht h1 h3 hD he (Nat.lt_succ_self _) with ⟨_, h4⟩ | ⟨e', _, h4⟩
      · obtain ⟨v', p, e', h5, _⟩ := C48_defined hd hz hz' hw S.dflt x e
        rw [h4] at h5
        cases h5
      · rw [h2] at h4; cases h4
  · exact ⟨_, _, _, h2⟩

/-- C89. Whatever has happened to the log, however often the program was stopped and at whatever byte, the file holds the
values the program goes on with, and nothing else: reading it gives them, up to its end and without an error. -/
theorem C89_history (hS : Enclosed c S) {vs : List α} {s : Bytes} (h : LogFile c S vs s) :
    LogText c S vs s ∧ recoverValues S (s.length + 1) s .fresh = .ok (vs, [], .fresh) := by
  have key : LogText c S vs s := by
    induction h with
    | new => exact .nil
    | append _ ht ih => rw [← List.append_assoc]; exact (ih.record ht).newline
    | @stopped vs vs' s x s' rest v t e _ ht hx hr hcut ih =>
      rcases C89_torn hS ih ht hx EPtr.fresh_clean with ⟨rfl, h1⟩ | ⟨h0, h1⟩ | ⟨_, _, h2 | ⟨e', _, h2⟩⟩
      · rw [h1] at hr
        cases hr
        rw [List.append_nil, List.append_nil] at hcut
        exact hcut ▸ ih
      · rw [h1] at hr
        cases hr
        rw [List.append_nil] at hcut
        subst hcut
        rcases prefix_record hx with rfl | rfl | rfl | ⟨y, _, h3, rfl⟩
        · rw [List.prefix_nil] at h0
          subst h0
          exact ih.record ht
        · exact ih.record ht
        · rw [← List.append_assoc]; exact (ih.record ht).newline
        · have := h0.length_le
          have h4 := List.length_pos_iff.mpr h3
          rw [List.length_append] at this
          omega
      · rw [h2] at hr; cases hr
      · rw [h2] at hr
        cases hr
        rw [List.append_cancel_right hcut] at ih
        exact ih
  exact ⟨key, C89_whole hS key EPtr.fresh_clean⟩

/-- C89. A stop loses at most the value that was being appended: the values before are still there, and the new one is if
its text got into the file as a whole. Nothing else turns up. -/
theorem C89_nothing_lost (hS : Enclosed c S) {vs vs' : List α} {s x rest : Bytes} {v : α} {t : Bytes} {e : EPtr} (h : LogFile c S vs s)
    (ht : TextOf c S v t) (hx : x <+: t ++ b!"\n") (hr : recoverValues S ((s ++ x).length + 1) (s ++ x) .fresh = .ok (vs', rest, e)) :
    (vs' = vs ∧ rest = x ∧ x.length < t.length ∧ (e.failed = true ↔ x ≠ [])) ∨ (vs' = vs ++ [v] ∧ rest = [] ∧ t <+: x ∧ e = .fresh) := by
  have hpos : 0 < t.length := by
    obtain ⟨b, u, rfl, _⟩ := ht.rtb.start
    simp
  rcases C89_torn hS (C89_history hS h).1 ht hx EPtr.fresh_clean with ⟨rfl, h1⟩ | ⟨h0, h1⟩ | ⟨hne, hlt, h2 | ⟨e', hf, h2⟩⟩
  · rw [h1] at hr
    cases hr
    exact .inl ⟨rfl, rfl, hpos, by simp [EPtr.failed, EPtr.fresh]; decide⟩
  · rw [h1] at hr
    cases hr
    exact .inr ⟨rfl, rfl, h0, rfl⟩
  · rw [h2] at hr; cases hr
  · rw [h2] at hr
    cases hr
    exact .inl ⟨rfl, rfl, hlt, by simp [hf, hne]⟩

end

/-- C89. Why not numbers: the beginning of a number is a number, and is taken for one. -/
theorem C89_numbers : recoverValues (intSer .strict .int) 6 b!"12\n3" .fresh = .ok ([12, 3], [], .fresh) ∧
    (intSer .strict .int).emit 34 ⟨[], .back⟩ = .ok ⟨b!"34", .back⟩ := by decide +kernel

/-- C89. Nor pointers and time intervals that are not part of something else. -/
theorem C89_pointers : recoverValues (pointerSer (intSer .strict .int)) 7 b!"nul" .fresh = .ok ([none], [], .fresh) ∧
    recoverValues (timeSer .strict .long 1) 7 b!"\"1m5" .fresh = .ok ([60], [], .fresh) := by decide +kernel

/-- C89. A torn array inside a raw value makes the reader look at `*end`: without a byte there the behaviour is undefined. -/
theorem C89_undefined : recoverValues (arraySer (seqColl Bytes) (rawSer .strict)) 10 b!"[[1]]\n[[ " .fresh = .ub ∧
    recoverValues (arraySer (seqColl Bytes) (rawSer .nul)) 10 b!"[[1]]\n[[ " .fresh =
      .ok ([[b!"[1]"]], b!"[[ ", .obj ⟨.InvalidJSON, none, 0⟩) := by decide +kernel

/-! A log of events. -/

structure DemoEvent where
  id : Int
  text : Bytes
  deriving DecidableEq

def demoEvent (c : Cfg) : List (DEntry DemoEvent) :=
  [⟨.mem ⟨b!"id", (·.id), fun x t => { t with id := x }, intSer c .int⟩, IntDen c .int⟩,
   ⟨.mem ⟨b!"text", (·.text), fun x t => { t with text := x }, strSer⟩, StrDen⟩]

def demoEventSer (c : Cfg) : Ser DemoEvent := objectSer c true ⟨0, []⟩ ((demoEvent c).map fun d => d.entry.toMember)

theorem demoEvent_enclosed (c : Cfg) : Enclosed c (demoEventSer c) := by
  refine .object (f := fun _ => true) (L := demoEvent c) ?_ ?_
  · refine ⟨?_, ?_⟩
    · show (names ((demoEvent c).map DEntry.entry)).Nodup
      simp [demoEvent, names, Entry.ref]
    · intro n hn
      simp only [names, demoEvent, List.map_cons, List.map_nil, List.mem_cons, List.not_mem_nil, or_false, Entry.ref] at hn
      rcases hn with rfl | rfl <;> (unfold PlainName; decide)
  · intro d hd
    simp only [demoEvent, List.mem_cons, List.not_mem_nil, or_false] at hd
    rcases hd with rfl | rfl
    · exact .int (by unfold IntTy.Std; decide)
    · exact .str

theorem demoEvent_good (c : Cfg) : GoodValue c (demoEventSer c) ⟨7, b!"a}"⟩ := by
  have : (demoEventSer c) = objectSer c true ⟨0, []⟩ (((demoEvent c).map DEntry.entry).map Entry.toMember) := by
    simp only [demoEventSer, List.map_map]; rfl
  rw [this]
  refine .object ?_ ?_ ?_ ?_
  · refine ⟨?_, ?_, ?_⟩
    · intro m hm x t
      simp only [demoEvent, List.map_cons, List.map_nil, List.mem_cons, List.not_mem_nil, or_false, Entry.ref] at hm
      rcases hm with rfl | rfl <;> rfl
    · intro m hm x y t
      simp only [demoEvent, List.map_cons, List.map_nil, List.mem_cons, List.not_mem_nil, or_false, Entry.ref] at hm
      rcases hm with rfl | rfl <;> rfl
    · simp [demoEvent, Entry.ref]
  · intro n hn
    simp only [names, demoEvent, List.map_cons, List.map_nil, List.mem_cons, List.not_mem_nil, or_false, Entry.ref] at hn
    rcases hn with rfl | rfl <;> decide
  · intro a b hab
    have h1 : a.id = b.id := hab (.mem ⟨b!"id", (·.id), fun x t => { t with id := x }, intSer c .int⟩) (by simp [demoEvent])
    have h2 : a.text = b.text := hab (.mem ⟨b!"text", (·.text), fun x t => { t with text := x }, strSer⟩) (by simp [demoEvent])
    cases a; cases b
    simp only at h1 h2
    rw [h1, h2]
  · intro en hen
    simp only [demoEvent, List.map_cons, List.map_nil, List.mem_cons, List.not_mem_nil, or_false] at hen
    rcases hen with rfl | rfl
    · exact GoodValue.int (v := 7) (by unfold IntTy.Std; decide) (by unfold IntTy.InRange; decide) (.inl (by decide))
    · refine GoodValue.str (v := b!"a}") ⟨?_, by decide, by decide⟩
      rintro ⟨u, hu, _, h5⟩
      have := hu.length_le
      simp only [List.length_cons, List.length_nil] at this
      omega

def demoEventText : Bytes := b!"{\"id\":7,\"text\":\"a}\"}"

theorem demoEvent_text : TextOf .strict (demoEventSer .strict) ⟨7, b!"a}"⟩ demoEventText :=
  ⟨demoEvent_good _, by decide +kernel, by decide⟩

/-- A file with one event, and the program stopped behind the brace inside the string of a second one. -/
example : LogFile .strict (demoEventSer .strict) [⟨7, b!"a}"⟩] (demoEventText ++ b!"\n") :=
  .stopped (vs := [⟨7, b!"a}"⟩]) (x := b!"{\"id\":7,\"text\":\"a}") (rest := b!"{\"id\":7,\"text\":\"a}")
    (e := .obj ⟨.UnexpectedEndFragment, none, 0⟩) (LogFile.append .new demoEvent_text) demoEvent_text (by decide) (by decide +kernel) rfl

/-- A log of strings, and the program stopped behind an escaped quotation mark. -/
theorem demoLine_text (c : Cfg) : TextOf c strSer b!"a\"b" b!"\"a\\\"b\"" := by
  refine ⟨GoodValue.str (v := b!"a\"b") ⟨?_, by decide, by decide⟩, by decide +kernel, by decide⟩
  rintro ⟨u, hu, _, h5⟩
  have := hu.length_le
  simp only [List.length_cons, List.length_nil] at this
  omega

example : LogFile .strict strSer [b!"a\"b"] b!"\"a\\\"b\"\n" :=
  .stopped (vs := [b!"a\"b"]) (x := b!"\"a\\\"") (rest := b!"\"a\\\"") (e := .obj ⟨.UnexpectedEndFragment, none, 0⟩)
    (LogFile.append .new (demoLine_text _)) (demoLine_text _) (by decide) (by decide +kernel) rfl

example : recoverValues boolSer 16 b!"true\nfalse\nfal" .fresh = .ok ([true, false], b!"fal", .obj ⟨.UnexpectedEndFragment, none, 0⟩) := by
  decide +kernel

end Wjson
