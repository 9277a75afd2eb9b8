import Verif.Spec.Mismatch
import Verif.Proofs.AfterError2
/-
Helper lemmas for C74.
-/
namespace Wjson
open Spec

theorem parseValue_end {c : Cfg} {e : EPtr} (he : e.failed = true) : parseValue c [] e = .ok ([], e) := by
  have h : parseValue c [] e = .ok ([], createError .InvalidJSON e) ∨ parseValue c [] e = .ok ([], createError .UnexpectedEndFragment e) := by
    first | exact .inl rfl | exact .inr rfl
  rcases h with h | h <;> rw [h, createError_failed he]

theorem parseMember_end {c : Cfg} {e : EPtr} (he : e.failed = true) : parseMember c [] e = .ok ([], e) := by
  have h : parseMember c [] e = .ok ([], createError .InvalidMember e) ∨ parseMember c [] e = .ok ([], createError .UnexpectedEndFragment e) := by
    first | exact .inl rfl | exact .inr rfl
  rcases h with h | h <;> rw [h, createError_failed he]

/-- At the end of the text a reader leaves an error that is there already. -/
theorem Meaning.at_end {c : Cfg} {e : EPtr} (he : e.failed = true) {f : Bool} {α : Type} {S : Ser α} {D : Den α} (h : Meaning c f S D) (v : α) :
    ∃ x, S.de v [] e = .ok (x, [], e) := by
  have hu : createError .UnexpectedEndFragment e = e := createError_failed he _ _ _
  induction h with
  | int => exact ⟨v, by simp [intSer, deInt, isNull, unserializeInteger, hu]⟩
  | bool => exact ⟨v, by simp [boolSer, deBool, hu]⟩
  | str => exact ⟨[], by simp [strSer, deStr, isNull, unserializeStr, hu]⟩
  | float => exact ⟨v, by simp [floatSer, deFloat, hu]⟩
  | enum => exact ⟨_, by simp only [enumSer, deEnum, skipLow, hu]; rfl⟩
  | flags => exact ⟨0, by simp [flagsSer, deFlags, hu]⟩
  | chars => exact ⟨_, by simp only [charArraySer, deCharArray, isNull, unserializeStr, hu]; rfl⟩
  | time => exact ⟨v, by simp [timeSer, deTime, hu]⟩
  | size => exact ⟨v, by simp [sizeSer, deSize, hu]⟩
  | rawQuoted => exact ⟨v, by simp [rawQuotedSer, deRawQuoted, hu]⟩
  | @quoted _ _ reqQ _ S _ _ ih =>
    cases reqQ
    · obtain ⟨x, hx⟩ := ih v
      exact ⟨x, by simpa [quotedSer, deQuoted, isString] using hx⟩
    · exact ⟨v, by simp [quotedSer, deQuoted, deQuotedStr, strSer, deStr, isNull, unserializeStr, hu, he]⟩
  | pointer => exact ⟨none, by simp [pointerSer, dePointer]⟩
  | raw => exact ⟨[], by simp [rawSer, deRaw, parseValue_end he, consumed]⟩
  | @memberValue _ _ _ _ get set _ _ _ ih =>
    obtain ⟨x, hx⟩ := ih (get v)
    exact ⟨set x v, by simp [memberValueSer, hx]⟩
  | array => exact ⟨_, by simp only [arraySer, seqSer, deSeq, isNull, hu]; rfl⟩
  | stdArray => exact ⟨v, by simp [fixSer, deFix, isNull, hu]⟩
  | cArray => exact ⟨v, by simp [fixSer, deFix, isNull, hu]⟩
  | dict => exact ⟨_, by simp only [dictSer, seqSer, deSeq, isNull, hu]; rfl⟩
  | object => exact ⟨v, by simp [objectSer, deObject, isNull, hu]⟩
  | objectArray => exact ⟨v, by simp [objectArraySer, deObjectArray, isNull, hu]⟩

section
variable {τ : Type} {c : Cfg} {strict : Bool}

/-- A name with no colon after it. -/
theorem memberName_colon {n g stop : Bytes} (hn : c%'"' ∉ n) (hg : Gap g) (hs : NoGap stop) (hst : stop.head? ≠ some c%'*')
    (hc : stop.head? ≠ some c%':') {e : EPtr} (he : e.Clean) (u : Bool) :
    memberName n (quoted n ++ (g ++ stop)) e u = ([], .obj (missing b!":" stop), true) := by
  unfold memberName quoted
  simp only [List.cons_append, List.append_assoc, List.nil_append, ne_eq, not_true, if_false]
  rw [nameLoop_match hn]
  simp only [not_true, or_self, if_false]
  have : parseSpace (g ++ stop) e = (stop, e) := by
    refine parseSpace_before (.mk' hg hst) ?_ e
    intro b hb
    exact hs b hb
  rw [this]
  cases stop with
  | nil => simp [missing, he.set]
  | cons b q =>
    simp only [missing]
    rw [if_pos (by simpa using hc), he.set]

theorem entry_at {d : DEntry τ} {f : Bool} (hM : Meaning c f d.entry.ref.ser d.den) {t : τ} {s : Bytes} {e e' : EPtr}
    (hm : ∀ u, memberName d.name s e u = ([], e', true)) (hf : e'.failed = true) (u : Bool) :
    ∃ x, d.entry.toMember.de t s e u = .ok (x, [], e', true) := by
  obtain ⟨x, hx⟩ := hM.at_end hf (d.entry.start t)
  obtain ⟨en, den⟩ := d
  cases en with
  | mem m =>
    simp only [Entry.toMember, member, Entry.ref, deMember, Entry.start, DEntry.name] at hm hx ⊢
    rw [hm]
    simp only [Bool.not_true, Bool.false_eq_true, if_false]
    rw [hx]
    exact ⟨_, rfl⟩
  | prop m =>
    simp only [Entry.toMember, memberP, Entry.ref, deMemberP, Entry.start, DEntry.name] at hm hx ⊢
    rw [hm]
    simp only [Bool.not_true, Bool.false_eq_true, if_false]
    rw [hx]
    exact ⟨_, rfl⟩

/-- A member whose name is not a string. -/
theorem entry_key {d : DEntry τ} {t : τ} {s : Bytes} {e e' : EPtr} (hm : memberName d.name s e false = ([], e', false)) :
    d.entry.toMember.de t s e false = .ok (t, [], e', false) := by
  obtain ⟨en, den⟩ := d
  cases en with
  | mem m =>
    simp only [Entry.toMember, member, Entry.ref, deMember, DEntry.name] at hm ⊢
    rw [hm]; rfl
  | prop m =>
    simp only [Entry.toMember, memberP, Entry.ref, deMemberP, DEntry.name] at hm ⊢
    rw [hm]; rfl

theorem search_key {L : List (DEntry τ)} {t : τ} {e : EPtr} (hf : e.failed = true) :
    searchMembers c strict (L.map fun d => d.entry.toMember) t [] e = .ok (t, [], e) := by
  induction L with
  | nil =>
    cases strict with
    | true => simp [searchMembers, createError_failed hf]
    | false => simp [searchMembers, parseMember_end hf, parseSpace_empty]
  | cons d L ih =>
    simp only [List.map_cons, searchMembers]
    rw [entry_key (e' := e) (by simp [memberName, createError_failed hf]), Out.bind_ok]
    exact ih

end

end Wjson
