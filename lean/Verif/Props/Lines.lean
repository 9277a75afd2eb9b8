import Verif.Proofs.Lines
import Verif.Props.Minify
/-
C91. One value per line.
-/
namespace Wjson
open Spec

section
variable {c : Cfg} {α : Type} {S : Ser α}

/-- C91. The text of a value whose raw parts contain no white space (C60) is one line: it contains no byte below 32, so no
line feed and no carriage return, whatever the strings in it contain. -/
theorem C91_one_line {v : α} {t : Bytes} (h : CompactValue c S v) (ht : S.emit v ⟨[], .back⟩ = .ok ⟨t, .back⟩) :
    (∀ b ∈ t, 32 ≤ b) ∧ c%'\n' ∉ t := by
  obtain ⟨u, h1, h2⟩ := C60_compact h
  have h1 := h1 []
  rw [ht] at h1
  cases h1
  have : NoCtl u := h2.noCtl
  rw [List.nil_append] at *
  exact ⟨this, fun hm => absurd (this _ hm) (by decide)⟩

/-- C91. What is written for a list of values, each followed by a line feed, is such a stream. -/
theorem C91_sent {vs : List α} (hg : ∀ v ∈ vs, GoodValue c S v) (hc : ∀ v ∈ vs, CompactValue c S v) :
    ∃ s, Lines c S vs s ∧ ∀ m, sendLines S vs ⟨m, .back⟩ = .ok ⟨m ++ s, .back⟩ := by
  induction vs with
  | nil => exact ⟨[], .nil, fun m => by simp [sendLines]⟩
  | cons v vs ih =>
    obtain ⟨s, h1, h2⟩ := ih (fun w hw => hg w (List.mem_cons_of_mem _ hw)) (fun w hw => hc w (List.mem_cons_of_mem _ hw))
    obtain ⟨t, h3, _⟩ := C50_round_trip_in_text (hg v List.mem_cons_self)
    have h4 : S.emit v ⟨[], .back⟩ = .ok ⟨t, .back⟩ := by simpa using h3 []
    refine ⟨t ++ b!"\n" ++ s, .line (hg v List.mem_cons_self) h4 (C91_one_line (hc v List.mem_cons_self) h4).2 h1, fun m => ?_⟩
    simp only [sendLines, h3, Out.bind_ok, Sink.put, h2]
    simp

/-- C91. Some pieces of a stream of lines have arrived, however it was cut. The receiver has got exactly the values whose
line has ended, in order, and keeps exactly what has arrived of the line after these. Wrong lines between them do no harm
(compare `C90_stuck`). -/
theorem C91_pieces {vs : List α} {s : Bytes} (h : Lines c S vs s) {pieces : List Bytes} (hp : pieces.flatten <+: s) :
    ∃ us ws s1 x, vs = us ++ ws ∧ Lines c S us s1 ∧ pieces.flatten = s1 ++ x ∧ c%'\n' ∉ x ∧ receiveLines S [] pieces = .ok (us, x) := by
  obtain ⟨us, ws, s1, s2, x, rfl, rfl, h1, _, h3, h4, h5⟩ := receiveLines_split pieces h (x := []) (by simp) hp
  exact ⟨us, ws, s1, x, rfl, h1, h3, h4, h5⟩

/-- C91. When the whole stream has arrived, the receiver has got all the values, and nothing is left. -/
theorem C91_all {vs : List α} {pieces : List Bytes} (h : Lines c S vs pieces.flatten) : receiveLines S [] pieces = .ok (vs, []) := by
  obtain ⟨us, ws, s1, s2, x, rfl, h0, _, h2, h3, h4, h5⟩ := receiveLines_split pieces h (x := []) (by simp) (List.prefix_refl _)
  rw [List.nil_append, h0] at h3
  have := List.append_cancel_left h3
  subst this
  cases h2 with
  | nil => rw [h5, List.append_nil]
  | line => exact absurd h4 (by simp)
  | wrong => exact absurd h4 (by simp)

/-- C91. From one end to the other: whatever values one program writes, one per line, another one receives, however the
text is cut on the way. -/
theorem C91_end_to_end {vs : List α} (hg : ∀ v ∈ vs, GoodValue c S v) (hc : ∀ v ∈ vs, CompactValue c S v) {pieces : List Bytes}
    (h : sendLines S vs ⟨[], .back⟩ = .ok ⟨pieces.flatten, .back⟩) : receiveLines S [] pieces = .ok (vs, []) := by
  obtain ⟨s, h1, h2⟩ := C91_sent hg hc
  have h2 := h2 []
  rw [h, List.nil_append] at h2
  simp only [Out.ok.injEq, Sink.mk.injEq, and_true] at h2
  exact C91_all (h2 ▸ h1)

/-- C91. How the stream was cut does not matter. -/
theorem C91_one_piece {vs us : List α} {s x : Bytes} (h : Lines c S vs s) {pieces : List Bytes} (hp : pieces.flatten <+: s)
    (hr : receiveLines S [] pieces = .ok (us, x)) : receiveLines S [] [pieces.flatten] = .ok (us, x) := by
  obtain ⟨us', ws, s1, x', _, h1, h2, h3, h4⟩ := C91_pieces h hp
  rw [hr] at h4
  cases h4
  have := takeLines_lines h1 h3 ((s1 ++ x).length + 1) (by rw [List.length_append]; omega)
  rw [h2]
  simp only [receiveLines, List.nil_append]
  rw [this]
  simp [Out.bind_ok]

end

/-- C91. The condition on raw parts: a raw value with a line feed in it is written in two lines, and something else is received. -/
theorem C91_raw : (rawSer .strict).emit b!"[1,\n2]" ⟨[], .back⟩ = .ok ⟨b!"[1,\n2]", .back⟩ ∧
    receiveLines (rawSer .nul) [] [b!"[1,\n2]\n"] = .ok ([b!"2"], []) := by decide +kernel

/-- Three numbers, one of which arrives in two pieces (compare `C90_numbers`). -/
theorem demoNumbers_lines : Lines .strict (intSer .strict .int) [12, -3, 405] b!"12\n-3\n405\n" := by
  have g : ∀ v : Int, IntTy.int.InRange v → v ≠ IntTy.int.min → GoodValue .strict (intSer .strict .int) v := fun v h h' =>
    .int (by unfold IntTy.Std; decide) h (.inl h')
  refine .line (t := b!"12") (g 12 (by unfold IntTy.InRange; decide) (by decide)) (by decide +kernel) (by decide) ?_
  refine .line (t := b!"-3") (g (-3) (by unfold IntTy.InRange; decide) (by decide)) (by decide +kernel) (by decide) ?_
  exact .line (t := b!"405") (g 405 (by unfold IntTy.InRange; decide) (by decide)) (by decide +kernel) (by decide) .nil

example : [b!"1", b!"2\n-3", b!"", b!"\n40"].flatten <+: b!"12\n-3\n405\n" := by decide
example : receiveLines (intSer .strict .int) [] [b!"1", b!"2\n-3", b!"", b!"\n40"] = .ok ([12, -3], b!"40") := by decide +kernel
example : CompactValue .strict (intSer .strict .int) 405 := .int (by unfold IntTy.Std; decide) (by unfold IntTy.InRange; decide)
example : sendLines (intSer .strict .int) [12, -3, 405] ⟨[], .back⟩ = .ok ⟨[b!"1", b!"2\n-3", b!"\n405\n"].flatten, .back⟩ := by decide +kernel
/-- a wrong line and an empty one, for flags that are `true` or `false` -/
example : Lines .strict boolSer [true, false] b!"true\ntru3\n\nfalse\n" := by
  refine .line (t := b!"true") (.bool _) (by decide +kernel) (by decide) ?_
  refine .wrong (t := b!"tru3") ⟨_, _, _, rfl, rfl⟩ (by decide) ?_
  refine .wrong (t := []) ⟨_, _, _, rfl, rfl⟩ (by decide) ?_
  exact .line (t := b!"false") (.bool _) (by decide +kernel) (by decide) .nil
example : receiveLines boolSer [] [b!"true\ntru", b!"3\n\nfal", b!"se\n"] = .ok ([true, false], []) := by decide +kernel
/-- a string of two lines is written in one -/
example : strSer.emit b!"a\nb" ⟨[], .back⟩ = .ok ⟨b!"\"a\\nb\"", .back⟩ := by decide +kernel

end Wjson
