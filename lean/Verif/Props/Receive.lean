import Verif.Proofs.Receive
import Verif.Props.Log
/-
C90. A stream of values that arrives in pieces.
-/
namespace Wjson
open Spec

section
variable {c : Cfg} {α : Type} {S : Ser α}

/-- C90. Some pieces of a stream of the values `vs` have arrived, however it was cut. The receiver has got exactly the
values whose text has arrived as a whole, in order, and keeps exactly what has arrived of the next one. (Or the behaviour is
undefined, see `C90_defined`.) -/
theorem C90_pieces (hS : Enclosed c S) {vs : List α} {s : Bytes} (h : LogText c S vs s) {pieces : List Bytes} (hp : pieces.flatten <+: s) :
    receive S [] pieces = .ub ∨ ∃ us x, Arrived c S vs pieces.flatten us x ∧ receive S [] pieces = .ok (us, x) := by
  obtain ⟨D, hD⟩ := hS.closed
  rcases receive_split hD pieces h (.inl rfl) hp with ⟨h1, _⟩ | ⟨us, ws, s1, s2, x, rfl, rfl, h1, _, h3, h4, h5⟩
  · exact .inl h1
  · exact .inr ⟨us, x, ⟨ws, s1, rfl, h1, h3, h4⟩, h5⟩

/-- C90. When the whole stream has arrived, the receiver has got all the values, and nothing is left. -/
theorem C90_all (hS : Enclosed c S) {vs : List α} {pieces : List Bytes} (h : LogText c S vs pieces.flatten) :
    receive S [] pieces = .ub ∨ receive S [] pieces = .ok (vs, []) := by
  obtain ⟨D, hD⟩ := hS.closed
  rcases receive_split hD pieces h (.inl rfl) (List.prefix_refl _) with ⟨h1, _⟩ | ⟨us, ws, s1, s2, x, rfl, h0, _, h2, h3, h4, h5⟩
  · exact .inl h1
  · rw [List.nil_append, h0] at h3
    have := List.append_cancel_left h3
    subst this
    obtain ⟨rfl, rfl⟩ := h4.whole hD h2
    rw [h5, List.append_nil]
    exact .inr rfl

/-- C90. From one end to the other: whatever values one program writes, without anything between them, another one receives,
however the text is cut on the way. -/
theorem C90_end_to_end (hS : Enclosed c S) {vs : List α} (hg : ∀ v ∈ vs, GoodValue c S v) {pieces : List Bytes}
    (h : sendAll S vs ⟨[], .back⟩ = .ok ⟨pieces.flatten, .back⟩) (hl : pieces.flatten.length ≤ intMax) :
    receive S [] pieces = .ub ∨ receive S [] pieces = .ok (vs, []) := by
  obtain ⟨s, h1, h2⟩ := sendAll_text hg
  have h2 := h2 []
  rw [h, List.nil_append] at h2
  simp only [Out.ok.injEq, Sink.mk.injEq, and_true] at h2
  rw [← h2] at h1
  exact C90_all hS (h1 hl)

/-- C90. Under the conditions of C89 nothing is undefined. -/
theorem C90_defined (hS : Enclosed c S) (hd : Described c ⟨false, true, true, true⟩ S) {z : Byte} (hz : c.past = some z) (hz' : z ≠ c%']')
    (hw : c.wrapv = true) {vs : List α} {s : Bytes} (h : LogText c S vs s) {pieces : List Bytes} (hp : pieces.flatten <+: s) :
    receive S [] pieces ≠ .ub := by
  obtain ⟨D, hD⟩ := hS.closed
  rcases receive_split hD pieces h (.inl rfl) hp with ⟨_, y, hy⟩ | ⟨_, _, _, _, _, _, _, _, _, _, _, h5⟩
  · obtain ⟨v', p, e', h5, _⟩ := C48_defined hd hz hz' hw S.dflt y .fresh
    rw [hy] at h5
    cases h5
  · rw [h5]; exact nofun

/-- C90. There is one way only to see the bytes `p` as whole texts and a proper beginning: the receiver's. -/
theorem C90_exact (hS : Enclosed c S) {vs us : List α} {p x : Bytes} (h : Arrived c S vs p us x) :
    receive S [] [p] = .ub ∨ receive S [] [p] = .ok (us, x) := by
  obtain ⟨D, hD⟩ := hS.closed
  obtain ⟨ws, s1, _, h1, rfl, h3⟩ := h
  rcases recoverValues_begun hD h1 h3 EPtr.fresh_clean with ⟨h5, _⟩ | ⟨e', _, h5⟩
  · exact .inl (by simp only [receive, List.nil_append]; rw [h5]; rfl)
  · exact .inr (by simp only [receive, List.nil_append]; rw [h5]; simp [Out.bind_ok])

/-- C90. How the stream was cut does not matter: the receiver has what it had if all that arrived had come in one piece. -/
theorem C90_one_piece (hS : Enclosed c S) {vs us : List α} {s x : Bytes} (h : LogText c S vs s) {pieces : List Bytes} (hp : pieces.flatten <+: s)
    (hr : receive S [] pieces = .ok (us, x)) : receive S [] [pieces.flatten] = .ub ∨ receive S [] [pieces.flatten] = .ok (us, x) := by
  rcases C90_pieces hS h hp with h1 | ⟨us', x', h1, h2⟩
  · rw [h1] at hr; cases hr
  · rw [hr] at h2
    cases h2
    exact C90_exact hS h1

end

/-- C90. Numbers need something behind them: a number that arrives in two pieces is taken for two. -/
theorem C90_numbers : receive (intSer .strict .int) [] [b!"1", b!"2\n"] = .ok ([1, 2], []) ∧
    receive (intSer .strict .int) [] [b!"12\n"] = .ok ([12], []) := by decide +kernel

/-- C90. The code of the error does not say whether more has to come. A torn text may report another code than
`UnexpectedEndFragment`, here `[-` of `[-1]`; and a complete text that is wrong may report this one, here `[""]` for a list of
numbers in quotes. -/
theorem C90_code : recoverValues (arraySer (seqColl Int) (intSer .strict .int)) 3 b!"[-" .fresh = .ok ([], b!"[-", .obj ⟨.InvalidNumber, none, 0⟩) ∧
    recoverValues (arraySer (seqColl Int) (quotedSer (intSer .strict .int) true true)) 5 b!"[\"\"]" .fresh =
      .ok ([], b!"[\"\"]", .obj ⟨.UnexpectedEndFragment, none, 2⟩) := by
  decide +kernel

/-- C90. A wrong text stops the stream for ever: if the deserializer reports an error for `t` whatever comes behind it, the
receiver with `t` in its buffer gets no value any more, and its buffer only grows. -/
theorem C90_stuck {α : Type} {S : Ser α} {t : Bytes} (ht : Start t)
    (hf : ∀ rest, ∃ v p e, S.de S.dflt (t ++ rest) .fresh = .ok (v, p, e) ∧ e.failed = true) (pieces : List Bytes) :
    receive S t pieces = .ok ([], t ++ pieces.flatten) := by
  suffices H : ∀ r, receive S (t ++ r) pieces = .ok ([], t ++ r ++ pieces.flatten) by simpa using H []
  induction pieces with
  | nil => intro r; simp [receive]
  | cons p ps ih =>
    intro r
    obtain ⟨v, q, e, h1, h2⟩ := hf (r ++ p)
    obtain ⟨b, u, hu, _⟩ := id ht
    have h3 : parseSpace (t ++ (r ++ p)) .fresh = (t ++ (r ++ p), .fresh) := parseSpace_start (g := []) .nil ht .fresh
    have h4 : recoverValues S ((t ++ r ++ p).length + 1) (t ++ r ++ p) .fresh = .ok ([], t ++ (r ++ p), e) := by
      rw [List.append_assoc]
      simp only [recoverValues, h3]
      rw [hu, List.cons_append] at h1 ⊢
      simp only [h1, Out.bind_ok, h2, if_true]
    simp only [receive, h4, Out.bind_ok, ih (r ++ p)]
    simp

example (pieces : List Bytes) : receive boolSer b!"x" pieces = .ok ([], b!"x" ++ pieces.flatten) :=
  C90_stuck ⟨_, _, rfl, by decide⟩ (fun _ => ⟨_, _, _, rfl, rfl⟩) pieces
example : receive boolSer [] [b!"true", b!"tru3", b!" true", b!"false"] = .ok ([true], b!"tru3 truefalse") := by decide +kernel

/-! The events of C89, cut in a name, in front of a brace in a string, and behind it. -/

def demoPieces : List Bytes := [b!"{\"i", b!"d\":7,\"text\":\"a", b!"", b!"}", b!"\"}{\"id\":7,\"text\":\"a}\"}\n{\"id\""]

theorem demoPieces_stream : LogText .strict (demoEventSer .strict) [⟨7, b!"a}"⟩, ⟨7, b!"a}"⟩, ⟨7, b!"a}"⟩]
    (demoEventText ++ demoEventText ++ b!"\n" ++ demoEventText) := by
  have h : LogText .strict (demoEventSer .strict) [⟨7, b!"a}"⟩] demoEventText := LogText.record (vs := []) (s := []) .nil demoEvent_text
  exact ((h.append h).newline).append h

example : demoPieces.flatten <+: demoEventText ++ demoEventText ++ b!"\n" ++ demoEventText := by decide
example : receive (demoEventSer .strict) [] demoPieces = .ok ([⟨7, b!"a}"⟩, ⟨7, b!"a}"⟩], b!"{\"id\"") := by decide +kernel
example : sendAll strSer [b!"a\"b", b!"c"] ⟨[], .back⟩ = .ok ⟨[b!"\"a\\", b!"\"b\"\"", b!"c\""].flatten, .back⟩ := by decide +kernel
example : receive strSer [] [b!"\"a\\", b!"\"b\"\"", b!"c\""] = .ok ([b!"a\"b", b!"c"], []) := by decide +kernel

end Wjson
