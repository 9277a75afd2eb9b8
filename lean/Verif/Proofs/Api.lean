import Verif.Proofs.Despace
import Verif.Model.Strerror
/-
Uniform facts about all parser functions, used by Verif/Props/Parser.lean.
-/
namespace Wjson
open Spec

/-- All functions of class `wjson::parser` with the signature
`P f(P beg, P end, json_error* e)` (wjson/parser.hpp:24-76), and `despace`
without its output (wjson/parser.hpp:128-156). -/
def parserFns (c : Cfg) : List (Bytes → EPtr → Out (Bytes × EPtr)) :=
  [ parse c, parseValue c, parseMember c, parseObject c, parseArray c,
    fun s e => .ok (parseSpace s e),
    fun s e => .ok (parseNull s e),
    fun s e => .ok (parseBool s e),
    fun s e => .ok (parseNumber s e),
    fun s e => .ok (parseInteger s e),
    fun s e => .ok (parseString s e),
    fun s e => .ok (parseHex s e),
    parseUtf8,
    fun s e => despace s e >>= fun q => .ok (q.1, q.2.1) ]

/-- One answer for all error arguments, or undefined for all of them. -/
def Uniform (s : Bytes) (f : Bytes → EPtr → Out (Bytes × EPtr)) : Prop :=
  (∃ p ev, (∀ e, f s e = .ok (p, applyErr e ev)) ∧ Good s p ev) ∨ ∀ e, f s e = .ub

theorem ScanO.uniform {c : Cfg} {s : Bytes} {f : Bytes → EPtr → Out (Bytes × EPtr)} (h : ScanO c s (f s)) :
    Uniform s f := by
  rcases h with h | h
  · exact .inl h
  · exact .inr h.1

theorem ScanAt.uniform {s : Bytes} {f : Bytes → EPtr → Bytes × EPtr} (h : ScanAt s (f s)) :
    Uniform s (fun s e => .ok (f s e)) := by
  obtain ⟨p, ev, h1, h2⟩ := h
  exact .inl ⟨p, ev, fun e => by simp only [h1], h2⟩

theorem despace_uniform (s : Bytes) : Uniform s (fun s e => despace s e >>= fun q => .ok (q.1, q.2.1)) := by
  obtain ⟨ev, h1, h2⟩ := despace_shape s
  refine .inl ⟨[], ev, fun e => ?_, List.nil_suffix, fun x hx => ?_⟩
  · obtain ⟨o, h3, _⟩ := h2 e
    simp only [h3, Out.bind_ok]
  · have := h1 x hx
    exact ⟨this.1, rfl, this.2⟩

theorem parserFns_uniform {c : Cfg} {f : Bytes → EPtr → Out (Bytes × EPtr)} (hf : f ∈ parserFns c) (s : Bytes) :
    Uniform s f := by
  simp only [parserFns, List.mem_cons, List.not_mem_nil, or_false] at hf
  rcases hf with rfl | rfl | rfl | rfl | rfl | rfl | rfl | rfl | rfl | rfl | rfl | rfl | rfl | rfl
  · exact (parseValue_scan c s).uniform
  · exact (parseValue_scan c s).uniform
  · exact (parseMember_scan c s).uniform
  · exact (parseObject_scan c s).uniform
  · exact (parseArray_scan c s).uniform
  · exact (parseSpace_scan s).uniform
  · exact (parseNull_scan s).uniform
  · exact (parseBool_scan s).uniform
  · exact (parseNumber_scan s).uniform
  · exact (parseInteger_scan s).uniform
  · exact (parseString_scan s).uniform
  · exact (parseHex_scan s).uniform
  · cases s with
    | nil => exact .inr fun e => rfl
    | cons b t =>
      obtain ⟨p, ev, h1, h2⟩ := parseUtf8Ne_scan b t
      exact .inl ⟨p, ev, fun e => by simp only [parseUtf8, h1], h2⟩
  · exact despace_uniform s

theorem applyErr_of_failed {e : EPtr} (h : e.failed = true) (ev : Option JError) : applyErr e ev = e := by
  cases ev with
  | none => rfl
  | some x => exact createError_of_failed h

theorem applyErr_clean {x : JError} (hx : x.status = false) (y : JError) : applyErr (.obj x) (some y) = .obj y := by
  simp [applyErr, createError, hx]

/-- Verdicts of the validator, for any configuration. -/
theorem parse_accept_iff {c : Cfg} {s p : Bytes} :
    AccO (parse c s) p ↔ ∃ t, s = t ++ p ∧ XValue t ∧ (RNumber t → NumFollow t p) := parseValue_acc_iff

theorem parse_of_ok {c : Cfg} {s p : Bytes} {e e' : EPtr} (he : e.Clean) (h : parse c s e = .ok (p, e'))
    (hok : e'.failed = false) : AccO (parse c s) p := AccO.of_clean (parseValue_scan c s) he h hok

theorem spaceLoop_true_open {u : Bytes} (h : ¬ b!"*/" <:+: u) (e : EPtr) :
    spaceLoop true u e = ([], createError .UnexpectedEndFragment e (some b!"Unterminated comment")) := by
  induction u with
  | nil => rfl
  | cons b t ih =>
    have ht : ¬ b!"*/" <:+: t := fun hi => h (hi.trans (List.suffix_cons b t).isInfix)
    rw [spaceLoop]
    split
    · rename_i hb
      rw [if_neg, ih ht]
      intro hh
      cases t with
      | nil => simp at hh
      | cons x y =>
        simp at hh
        subst hh hb
        exact h ⟨[], y, rfl⟩
    · exact ih ht

theorem parseSpace_gap_stop {g p : Bytes} (hg : Gap g) (hp : SpaceStop p) (hs : p.head? ≠ some c%'*') (e : EPtr) :
    parseSpace (g ++ p) e = (p, e) :=
  (spaceLoop_gap hg p hs e).trans (spaceLoop_false_stop hp e)

end Wjson
