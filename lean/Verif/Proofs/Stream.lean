import Verif.Props.Parser
import Verif.Model.Client
import Verif.Spec.Stream
import Verif.Spec.Serial
/-
Lemmas for Verif/Props/Stream.lean.
-/
namespace Wjson
open Spec

theorem xvalue_number {t : Bytes} (h : XValue t) {b : Byte} {u : Bytes} (ht : t = b :: u) (hb : b = c%'-' ∨ Digit b) :
    RNumber t := by
  have hne : b ≠ c%'n' ∧ b ≠ c%'t' ∧ b ≠ c%'f' ∧ b ≠ c%'"' ∧ b ≠ c%'[' ∧ b ≠ c%'{' := by
    clear ht h; revert hb; revert b; apply forall_byte; decide +kernel
  obtain ⟨h1, h2, h3, h4, h5, h6⟩ := hne
  cases h with
  | num hr => exact hr
  | str hs => obtain ⟨w, _, rfl⟩ := hs; simp at ht; exact absurd ht.1.symm h4
  | _ => simp at ht; first
    | exact absurd ht.1.symm h1 | exact absurd ht.1.symm h2 | exact absurd ht.1.symm h3
    | exact absurd ht.1.symm h5 | exact absurd ht.1.symm h6

/-- No value other than a number begins with another value. -/
theorem xvalue_prefix {t t' w : Bytes} (h : XValue t) (hn : ¬ RNumber t) (h' : XValue t') (he : t = t' ++ w) : w = [] := by
  have hn' : ¬ RNumber t' := by
    intro hr
    obtain ⟨b, u, rfl, hb⟩ := rnumber_head hr
    exact hn (xvalue_number h he hb)
  have a := parse_accept_iff (c := .strict).mpr ⟨t, (List.append_nil t).symm, h, fun hr => absurd hr hn⟩ .null
  have b := parse_accept_iff (c := .strict).mpr ⟨t', he, h', fun hr => absurd hr hn'⟩ .null
  rw [a] at b
  cases b
  rfl

theorem readDocs_failed {c : Cfg} {n : Nat} {s : Bytes} {e e' : EPtr} {ds : List Bytes} (he : e.failed = true)
    (h : readDocs c n s e = .ok (ds, e')) : e' = e := by
  induction n generalizing s ds with
  | zero => cases h
  | succ n ih =>
    rw [readDocs] at h
    obtain ⟨p, ev, h1, _⟩ := parseSpace_scan s
    rw [h1 e, applyErr_of_failed he] at h
    cases p with
    | nil => cases h; rfl
    | cons b t =>
      simp only at h
      obtain ⟨r, hr, h⟩ := Out.bind_eq_ok.mp h
      have h3 := C05_first_error_kept (c := c) (f := parse c) (by simp [parserFns]) he hr
      rw [h3] at h
      obtain ⟨x, hx, h⟩ := Out.bind_eq_ok.mp h
      cases h
      exact ih hx

theorem readDocs_sound {c : Cfg} {n : Nat} {s : Bytes} {ds : List Bytes} {e e' : EPtr} (he : e.Clean)
    (h : readDocs c n s e = .ok (ds, e')) (hok : e'.failed = false) : Stream ds s := by
  induction n generalizing s ds with
  | zero => cases h
  | succ n ih =>
    rw [readDocs] at h
    cases hsp : parseSpace s e with
    | mk p e1 =>
    rw [hsp] at h
    cases hf1 : e1.failed with
    | true =>
      exfalso
      cases p with
      | nil => cases h; rw [hok] at hf1; cases hf1
      | cons b t =>
        have := C04_error_returns_end (c := c) (f := fun s e => .ok (parseSpace s e)) (by simp [parserFns]) he
          (congrArg Out.ok hsp) hf1
        cases this
    | false =>
      have hacc := Acc.of_clean (parseSpace_scan s) he hsp hf1
      obtain rfl : e1 = e := by
        have := hacc e
        rw [hsp] at this
        cases this
        rfl
      obtain ⟨g, rfl, hg, _⟩ := parseSpace_acc_iff.mp hacc
      cases p with
      | nil => cases h; rw [List.append_nil]; exact .done hg
      | cons b t =>
        simp only at h
        obtain ⟨⟨q, e2⟩, hr, h⟩ := Out.bind_eq_ok.mp h
        obtain ⟨⟨xs, e3⟩, hx, h⟩ := Out.bind_eq_ok.mp h
        cases h
        cases hf2 : e2.failed with
        | true =>
          have := readDocs_failed hf2 hx
          subst this
          rw [hok] at hf2
          cases hf2
        | false =>
          have ha := parse_of_ok he hr hf2
          have h2 := ha e1
          rw [hr] at h2
          cases h2
          obtain ⟨d, hd, hxv, hnf⟩ := parse_accept_iff.mp ha
          have hl : t.length + 1 - q.length = d.length := by
            have := congrArg List.length hd
            simp at this
            omega
          simp only at hx ⊢
          rw [hl, hd, List.take_left, ← List.append_assoc]
          exact .doc hg hxv hnf (ih hx)

theorem readDocs_defined (c : Cfg) {n : Nat} {s : Bytes} (hn : s.length + 1 ≤ n) (e : EPtr) :
    readDocs c n s e = .ub ∨ ∃ r, readDocs c n s e = .ok r := by
  induction n generalizing s e with
  | zero => omega
  | succ n ih =>
    rw [readDocs]
    obtain ⟨p, ev, h1, h2⟩ := parseSpace_scan s
    rw [h1 e]
    cases p with
    | nil => exact .inr ⟨_, rfl⟩
    | cons b t =>
      simp only
      rcases parserFns_uniform (c := c) (f := parse c) (by simp [parserFns]) (b :: t) with ⟨q, ev2, h3, h4⟩ | h3
      · rw [h3, Out.bind_ok]
        have hlt : q.length ≤ t.length := by
          cases ev2 with
          | some x => rw [(h4.err x rfl).2.1]; simp
          | none =>
            obtain ⟨d, hd, hxv, _⟩ := parse_accept_iff.mp (fun e => h3 e)
            obtain ⟨_, u, rfl, _⟩ := xvalue_head hxv
            have := congrArg List.length hd
            simp at this
            omega
        have hle := h2.suffix.length_le
        simp at hle
        rcases ih (s := q) (by omega) (applyErr (applyErr e ev) ev2) with h5 | ⟨r, h5⟩
        · left; simp only [h5]; rfl
        · right; simp only [h5, Out.bind_ok]; exact ⟨_, rfl⟩
      · rw [h3]; exact .inl rfl

theorem readDocs_complete {c : Cfg} {s : Bytes} {ds : List Bytes} (h : Stream ds s) {n : Nat} (hn : s.length + 1 ≤ n) (e : EPtr) :
    readDocs c n s e = .ok (ds, e) := by
  induction h generalizing n with
  | done hg =>
    cases n with
    | zero => omega
    | succ n =>
      have := parseSpace_gap_stop (p := []) hg (by intro b hb; cases hb) (by simp) e
      rw [List.append_nil] at this
      rw [readDocs, this]
  | @doc g d ds r hg hx hf _ ih =>
    cases n with
    | zero => omega
    | succ n =>
      obtain ⟨b, u, rfl, hb⟩ := xvalue_head hx
      have h1 := parseSpace_gap_stop (p := b :: (u ++ r)) hg (.cons (valueStart_stop hb).1) (by simpa using (valueStart_stop hb).2.1) e
      have h2 := parse_accept_iff (c := c).mpr ⟨b :: u, rfl, hx, hf⟩ e
      rw [readDocs, List.append_assoc, List.cons_append, h1]
      simp only
      rw [← List.cons_append, h2, Out.bind_ok, ih (by simp at hn; omega), Out.bind_ok]
      have : (u ++ r).length + 1 - r.length = (b :: u).length := by simp; omega
      rw [this, List.take_left]

theorem readValues_lines {α : Type} {S : Ser α} {l : List (α × Bytes)} (h : ∀ x ∈ l, RT S x.1 x.2) {e : EPtr} (he : e.failed = false)
    {g : Bytes} (hg : Gap g) :
    readValues S (l.length + 1) (g ++ l.flatMap fun x => x.2 ++ b!"\n") e = .ok (l.map Prod.fst, e) := by
  induction l generalizing g with
  | nil =>
    have := parseSpace_gap_stop (p := []) hg (by intro b hb; cases hb) (by simp) e
    simp only [List.length_nil, List.flatMap_nil]
    rw [readValues, this]
    rfl
  | cons x l ih =>
    obtain ⟨b, u, hb, hws, hsl, _, _, _, _, hst⟩ := (h x (by simp)).start
    have hd : Delim (b!"\n" ++ l.flatMap fun x => x.2 ++ b!"\n") := by
      intro b hb
      cases hb
      decide
    have h1 := (h x (by simp)).reads S.dflt (b!"\n" ++ l.flatMap fun x => x.2 ++ b!"\n") e he hd
    have h0 := parseSpace_gap_stop (p := b :: (u ++ (b!"\n" ++ l.flatMap fun x => x.2 ++ b!"\n"))) hg (.cons ⟨hws, hsl⟩)
      (by simpa using hst) e
    have h2 := ih (fun y hy => h y (List.mem_cons_of_mem _ hy)) (g := b!"\n") (.ws (by decide) .nil)
    rw [hb] at h1
    rw [List.flatMap_cons, hb, List.length_cons, readValues, List.append_assoc, List.cons_append, h0]
    simp only
    rw [← List.cons_append, h1, Out.bind_ok]
    simp only
    rw [h2]
    rfl

end Wjson
