import Verif.Proofs.AfterError
import Verif.Spec.AfterError
/-
Helper lemmas for C58: what is stored when a comma is missing, and in fixed-size
arrays, positional structures, time intervals and flags.
-/
namespace Wjson
open Spec

theorem parseSpace_astray {R : Byte} {g s : Bytes} (hg : Gap g) (hs : Astray R s) (e : EPtr) : parseSpace (g ++ s) e = (s, e) :=
  parseSpace_before (.mk' hg hs.star) hs.noGap e

theorem parseSpace_empty (e : EPtr) : parseSpace [] e = ([], e) := parseSpace_stop (p := []) (by intro y hy; simp at hy) e

theorem parseSpace_text {g s : Bytes} (hg : Gap g) (hs : Start s) (e : EPtr) : parseSpace (g ++ s) e = (s, e) := by
  simpa using parseSpace_start (rest := []) hg hs e

theorem append_ne_nil_of {g s : Bytes} (hs : Start s) (rest : Bytes) : ∃ y z, g ++ (s ++ rest) = y :: z := by
  obtain ⟨b, u, rfl, _⟩ := hs
  cases g <;> simp

section
variable {α C : Type} {K : Coll α C} {S : Ser α} {R : Byte}

theorem deSeq_astray {L : Byte} (hR : R = c%']' ∨ R = c%'}') (hL : L ≠ c%'n') {vs : List α} {t : Bytes}
    (h : ItemsComma (fun v t => ReadsAt S.de S.dflt t v) vs t) {g tv g2 stop : Bytes} {v : α} (hg : Gap g) (hv : Start tv)
    (hr : ReadsAt S.de S.dflt tv v) (h2 : Gap g2) (hs : Astray R stop) {e : EPtr} (he : e.Clean) (k0 : C) :
    deSeq K S L R k0 (L :: (t ++ g ++ tv ++ g2 ++ stop)) e =
      .ok (K.insert (vs.foldl K.insert K.clear) v, [], .obj (missing b!"," stop)) := by
  have hs1 : t ++ g ++ tv ++ g2 ++ stop = t ++ (g ++ (tv ++ (g2 ++ stop))) := by simp
  rw [hs1]
  simp only [deSeq]
  rw [if_neg (by simpa [isNull] using hL)]
  simp only [ne_eq, not_true, if_false]
  obtain ⟨m, hm, hl⟩ := seqLoopF_comma (K := K) (R := R) hR h ((t ++ (g ++ (tv ++ (g2 ++ stop)))).length + 1) K.clear
    (g ++ (tv ++ (g2 ++ stop))) he.not_failed (Nat.lt_succ_self _)
  rw [hl]
  cases m with
  | zero => omega
  | succ m =>
    have hsp := parseSpace_start (rest := g2 ++ stop) hg hv e
    obtain ⟨b0, u0, h0, hne⟩ := start_ne hR (rest := g2 ++ stop) hv
    obtain ⟨y, z, hyz⟩ := append_ne_nil_of (g := g) hv (g2 ++ stop)
    have hde := hr (g2 ++ stop) e he.not_failed (gap_delim h2 hs.delim)
    rw [hyz] at hsp ⊢
    rw [h0] at hsp hde
    simp only [seqLoopF, hsp]
    rw [if_neg hne, hde, Out.bind_ok]
    simp only [parseSpace_astray h2 hs]
    cases stop with
    | nil => simp only [he.set, missing]
    | cons b q =>
      simp only [missing]
      rw [if_neg (by simpa using hs.close), if_pos (by simpa using hs.comma), he.set]

end

/-! ### Fixed-size arrays -/

section
variable {α : Type} {k : FixKind} {S : Ser α} {R : Byte}

theorem fixLoop_before (hR : R = c%']' ∨ R = c%'}') {xs : List (α × α)} {t : Bytes}
    (h : ItemsComma (fun x t => ReadsAt S.de (k.start S x.1) t x.2) xs t) (vs : List α) (rest : Bytes) {e : EPtr} (he : e.failed = false) :
    fixLoop k S R (xs.map Prod.fst ++ vs) (t ++ rest) e =
      (fixLoop k S R vs rest e >>= fun y => .ok (xs.map Prod.snd ++ y.1, y.2)) := by
  induction h with
  | nil =>
    simp only [List.map_nil, List.nil_append]
    cases fixLoop k S R vs rest e <;> rfl
  | @cons g1 v t g2 xs r h1 h2 h3 h4 _ ih =>
    have := fixLoop_item (k := k) (v0 := v.1) (vs := xs.map Prod.fst ++ vs) hR h1 h2 h3 h4 (b := c%',') (r ++ rest) he (.inr rfl)
    rw [if_neg (by rcases hR with rfl | rfl <;> decide), ih] at this
    simp only [List.append_assoc, List.cons_append, List.map_cons] at this ⊢
    rw [this]
    cases fixLoop k S R vs rest e <;> rfl

theorem deFix_before {L : Byte} (hL : L ≠ c%'n') (hR : R = c%']' ∨ R = c%'}') {xs : List (α × α)} {t : Bytes}
    (h : ItemsComma (fun x t => ReadsAt S.de (k.start S x.1) t x.2) xs t) {vs vs' : List α} {rest : Bytes} {e e' : EPtr} (he : e.failed = false)
    (hb : fixLoop k S R vs rest e = .ok (vs', [], e')) :
    deFix k S L R (xs.map Prod.fst ++ vs) (L :: (t ++ rest)) e = .ok (xs.map Prod.snd ++ vs', [], e') := by
  simp only [deFix]
  rw [if_neg (by simpa [isNull] using hL)]
  simp only [ne_eq, not_true, if_false]
  rw [fixLoop_before hR h vs rest he, hb, Out.bind_ok]

theorem fixLoop_bad (hR : R = c%']' ∨ R = c%'}') {g bad : Bytes} (hg : Gap g) (hb : Start bad) {v0 x : α} {e e' : EPtr}
    (hbad : S.de (k.start S v0) bad e = .ok (x, [], e')) (hf : e'.failed = true) (vs : List α) :
    fixLoop k S R (v0 :: vs) (g ++ bad) e = .ok (x :: vs, [], e') := by
  have hsp := parseSpace_text hg hb e
  obtain ⟨b0, u0, h0, hne⟩ := start_ne hR (rest := []) hb
  obtain ⟨y, z, hyz⟩ := append_ne_nil_of (g := g) hb []
  rw [List.append_nil] at hyz h0
  rw [hyz] at hsp ⊢
  rw [h0] at hsp hbad
  simp only [fixLoop, hsp]
  rw [if_neg hne, hbad, Out.bind_ok]
  simp only [parseSpace_empty, createError_failed hf]

theorem fixLoop_end (v0 : α) (vs : List α) {e : EPtr} (he : e.Clean) :
    fixLoop k S R (v0 :: vs) [] e = .ok (v0 :: vs, [], .obj ⟨.UnexpectedEndFragment, none, 0⟩) := by
  simp only [fixLoop, fixClose, he.set]

theorem fixLoop_astray (hR : R = c%']' ∨ R = c%'}') {g tv g2 stop : Bytes} {v0 v : α} (hg : Gap g) (hv : Start tv)
    (hr : ReadsAt S.de (k.start S v0) tv v) (h2 : Gap g2) (hs : Astray R stop) {e : EPtr} (he : e.Clean) (vs : List α) :
    fixLoop k S R (v0 :: vs) (g ++ (tv ++ (g2 ++ stop))) e = .ok (v :: vs, [], .obj (missing k.commaMsg stop)) := by
  have hsp := parseSpace_start (rest := g2 ++ stop) hg hv e
  obtain ⟨b0, u0, h0, hne⟩ := start_ne hR (rest := g2 ++ stop) hv
  obtain ⟨y, z, hyz⟩ := append_ne_nil_of (g := g) hv (g2 ++ stop)
  have hde := hr (g2 ++ stop) e he.not_failed (gap_delim h2 hs.delim)
  rw [hyz] at hsp ⊢
  rw [h0] at hsp hde
  simp only [fixLoop, hsp]
  rw [if_neg hne, hde, Out.bind_ok]
  simp only [parseSpace_astray h2 hs]
  cases stop with
  | nil => simp only [he.set, missing]
  | cons b q =>
    simp only [missing]
    rw [if_neg (by simpa using hs.close), if_pos (by simpa using hs.comma), he.set]

end

/-! ### Structures as arrays -/

section
variable {τ : Type}

theorem amembersEnd_failed {t : τ} {e : EPtr} (hf : e.failed = true) : amembersEnd t [] e = .ok (t, [], e) := by
  simp only [amembersEnd, createError_failed hf]

/-- The elements before have been stored; what follows is read by the other members. -/
theorem amembers_before {L1 L2 : List (DEntry τ)} (hS : ∀ d ∈ L1, Accepts d.entry.ref.ser d.den) {ts : List Bytes} {r : Bytes}
    (h : ItemsComma (fun v t => v = t) ts r) {t t' : τ} (hp : Positional L1 ts t t') (hmax : r.length ≤ intMax) {e e' : EPtr}
    (he : e.failed = false) {g w : Bytes} (hg : Gap g) (hw : Start w) {x : τ} (hf : e'.failed = true)
    (hfin : deAMembers (L2.map fun d => d.entry.toAMember) t' w e = .ok (x, [], e')) :
    ∃ g0 w0, r ++ (g ++ w) = g0 ++ w0 ∧ Gap g0 ∧ Start w0 ∧
      deAMembers ((L1 ++ L2).map fun d => d.entry.toAMember) t w0 e = .ok (x, [], e') := by
  induction h generalizing L1 t with
  | nil => cases hp; exact ⟨g, w, rfl, hg, hw, hfin⟩
  | @cons g1 v t1 g2 vs r h1 h2 h3 h4 h5 ih =>
    cases hp with
    | @cons d L1 _ _ _ t2 _ hst hp =>
    subst h3
    simp only [List.length_append, List.length_cons] at hmax
    obtain ⟨g0, w0, k1, k2, k3, k4⟩ := ih (L1 := L1) (fun d hd => hS d (by simp [hd])) hp (by omega)
    refine ⟨g1, v ++ (g2 ++ c%',' :: (r ++ (g ++ w))), by simp, h1, ?_, ?_⟩
    · obtain ⟨b, u, rfl, h⟩ := h2
      exact ⟨b, _, rfl, h⟩
    simp only [List.cons_append, List.map_cons, deAMembers]
    rw [aentry_complete (hS d (by simp)) hst (by omega) (delim_gap h4 (by decide) _) he]
    simp only [Out.bind_ok]
    rw [parseSpace_byte h4 (by decide)]
    simp only
    rw [if_pos trivial, k1, parseSpace_text k2 k3]
    simp only
    rw [k4, Out.bind_ok]
    exact amembersEnd_failed hf

theorem deObjectArray_before {dflt : τ} {L1 L2 : List (DEntry τ)} (hS : ∀ d ∈ L1, Accepts d.entry.ref.ser d.den) {ts : List Bytes} {r : Bytes}
    (h : ItemsComma (fun v t => v = t) ts r) {t t' : τ} (hp : Positional L1 ts t t') (hmax : r.length ≤ intMax) {e e' : EPtr}
    (he : e.failed = false) {g w : Bytes} (hg : Gap g) (hw : Start w) {x : τ} (hf : e'.failed = true)
    (hfin : deAMembers (L2.map fun d => d.entry.toAMember) t' w e = .ok (x, [], e')) :
    deObjectArray dflt ((L1 ++ L2).map fun d => d.entry.toAMember) t (c%'[' :: (r ++ (g ++ w))) e = .ok (x, [], e') := by
  obtain ⟨g0, w0, h1, h2, h3, h4⟩ := amembers_before hS h hp hmax he hg hw hf hfin
  simp only [deObjectArray]
  rw [if_neg (by simp [isNull])]
  simp only [ne_eq, not_true, if_false]
  rw [h1]
  unfold objectArrayBody
  rw [parseSpace_text h2 h3]
  obtain ⟨b, u, rfl, _, _, hb, _⟩ := h3
  simp only
  rw [if_pos hb, h4, Out.bind_ok]
  simp only [createError_failed hf]

theorem aentry_bad {d : DEntry τ} {t : τ} {x : d.entry.ref.α} {bad : Bytes} {e e' : EPtr}
    (hbad : d.entry.ref.ser.de (d.entry.start t) bad e = .ok (x, [], e')) :
    d.entry.toAMember.de t bad e = .ok (d.entry.ref.set x t, [], e') := by
  obtain ⟨en, den⟩ := d
  cases en with
  | mem m =>
    simp only [Entry.toAMember, amember, Entry.ref, Entry.start] at hbad ⊢
    rw [hbad]
    rfl
  | prop m =>
    simp only [Entry.toAMember, amemberP, Entry.ref, Entry.start] at hbad ⊢
    rw [hbad]
    rfl

end

/-! ### Time intervals -/

theorem timeRun_quote {c : Cfg} {ty : IntTy} {fr : Int} {v v' : Int} {t : Bytes} (h : TimeRun c ty fr v v' t) : ∃ r, t = r ++ b!"\"" := by
  induction h with
  | close => exact ⟨[], rfl⟩
  | @unit v v1 v2 x tn k w r h1 h2 h3 h4 ih =>
    obtain ⟨r, rfl⟩ := ih
    exact ⟨tn ++ w ++ r, by simp⟩
  | @skip v v2 x tn d r h1 hd hh hm hss h0 h4 ih =>
    obtain ⟨r, rfl⟩ := ih
    exact ⟨tn ++ d :: r, by simp⟩

/-- The units before have been added; the rest of the text is read from there. -/
theorem timeLoop_before {c : Cfg} {ty : IntTy} (hs : ty.Std) {fr : Int} {e : EPtr} (he : e.failed = false)
    {v v' : Int} {t s bad : Bytes} (h : TimeRun c ty fr v v' t) (ht : t = s ++ b!"\"")
    {x : Bytes} {e' : EPtr} (hb2 : bad.head? ≠ some c%'s') (hb3 : bad.head? ≠ some c%'k')
    (hfin : ∀ n, bad.length < n → timeLoopF c ty fr n v' bad e = .ok (v', x, e')) :
    ∀ {n : Nat}, (s ++ bad).length < n → timeLoopF c ty fr n v (s ++ bad) e = .ok (v', x, e') := by
  induction h generalizing s with
  | close =>
    intro n hn
    have : s = [] := by
      have := congrArg List.length ht
      simp at this
      exact this
    subst this
    exact hfin n hn
  | @unit v v1 v2 x tn k w r h1 h2 h3 h4 ih =>
    intro n hn
    obtain ⟨r', rfl⟩ := timeRun_quote h4
    have hsr : s = tn ++ w ++ r' := by
      rw [← List.append_assoc] at ht
      exact (List.append_cancel_right ht).symm
    subst hsr
    cases n with
    | zero => omega
    | succ n =>
      obtain ⟨b, u, hu, hb⟩ : ∃ b u, tn = b :: u ∧ b ≠ c%'"' := by
        obtain ⟨b, u, hu, _⟩ := (intSer_exact c hs).head h1
        refine ⟨b, u, hu, ?_⟩
        rintro rfl
        rcases h1 with ⟨h1, _⟩ | ⟨x, hx, _⟩
        · rw [h1] at hu; cases hu
        · obtain ⟨b, u', h1, hb⟩ := intLit_head hx
          rw [h1] at hu; cases hu
          revert hb; unfold Digit; decide
      have hw : NoDigitNext (w ++ r' ++ bad) := by
        intro b hb
        cases h2 <;> simp at hb <;> subst hb <;> unfold Digit <;> decide
      have hint := deInt_complete hs h1 (.inl hw) e
      have hlen : (r' ++ bad).length < n := by
        subst hu
        simp only [List.length_append, List.length_cons] at hn ⊢
        omega
      have hs1 : tn ++ w ++ r' ++ bad = b :: (u ++ w ++ r' ++ bad) := by rw [hu]; rfl
      have hs2 : tn ++ (w ++ r' ++ bad) = b :: (u ++ w ++ r' ++ bad) := by rw [hu]; simp
      rw [hs2] at hint
      rw [hs1]
      simp only [timeLoopF]
      rw [if_neg hb, hint, Out.bind_ok]
      simp only
      rw [if_neg (by simp [he])]
      have hx := intDen_inRange hs h1
      have ih' := ih rfl hfin hlen
      cases h2 with
      | d =>
        have := (timeAdd_iff hs (u := .d) rfl).mpr h3
        simp only [TimeUnit.scale] at this
        simp only [List.cons_append, List.nil_append, if_true, this, Out.bind_ok, ih']
      | h =>
        have := (timeAdd_iff hs (u := .h) rfl).mpr h3
        simp only [TimeUnit.scale] at this
        simp only [List.cons_append, List.nil_append]
        rw [if_neg (by decide), if_pos trivial, this, Out.bind_ok, ih']
      | s =>
        have := (timeAddSub_iff hs (u := .s) rfl hx).mpr h3
        simp only [TimeUnit.perSecond] at this
        simp only [List.cons_append, List.nil_append]
        rw [if_neg (by decide), if_neg (by decide), if_neg (by decide), if_pos trivial, this, Out.bind_ok, ih']
      | ms =>
        have := (timeAddSub_iff hs (u := .ms) rfl hx).mpr h3
        simp only [TimeUnit.perSecond] at this
        simp only [List.cons_append, List.nil_append]
        rw [if_neg (by decide), if_neg (by decide), if_pos trivial, if_pos trivial, this, Out.bind_ok, ih']
      | mks =>
        have := (timeAddSub_iff hs (u := .mks) rfl hx).mpr h3
        simp only [TimeUnit.perSecond] at this
        simp only [List.cons_append, List.nil_append]
        rw [if_neg (by decide), if_neg (by decide), if_pos trivial, if_neg (by decide), if_pos trivial, this, Out.bind_ok, ih']
      | m q1 q2 =>
        have := (timeAdd_iff hs (u := .m) rfl).mpr h3
        simp only [TimeUnit.scale] at this
        simp only [List.cons_append, List.nil_append]
        rw [if_neg (by decide), if_neg (by decide), if_pos trivial]
        have q1' : (r' ++ bad).head? ≠ some c%'s' := by
          cases r' with
          | nil => exact hb2
          | cons y r' => simpa using q1
        have q2' : (r' ++ bad).head? ≠ some c%'k' := by
          cases r' with
          | nil => exact hb3
          | cons y r' => simpa using q2
        generalize r' ++ bad = w at q1' q2' ih' ⊢
        cases w with
        | nil => simp only [this, Out.bind_ok, ih']
        | cons y w =>
          simp only [List.head?_cons, ne_eq, Option.some.injEq] at q1' q2'
          simp only
          rw [if_neg q1', if_neg q2', this, Out.bind_ok, ih']
  | @skip v v2 x tn d r h1 hd hh hm hss h0 h4 ih =>
    intro n hn
    obtain ⟨r', rfl⟩ := timeRun_quote h4
    have hsr : s = tn ++ d :: r' := by
      have : tn ++ d :: (r' ++ b!"\"") = (tn ++ d :: r') ++ b!"\"" := by simp
      rw [this] at ht
      exact (List.append_cancel_right ht).symm
    subst hsr
    cases n with
    | zero => omega
    | succ n =>
      obtain ⟨b, u, hu, hb⟩ : ∃ b u, tn = b :: u ∧ b ≠ c%'"' := by
        obtain ⟨b, u, hu, _⟩ := (intSer_exact c hs).head h1
        refine ⟨b, u, hu, ?_⟩
        rintro rfl
        rcases h1 with ⟨h1, _⟩ | ⟨x, hx, _⟩
        · rw [h1] at hu; cases hu
        · obtain ⟨b, u', h1, hb⟩ := intLit_head hx
          rw [h1] at hu; cases hu
          revert hb; unfold Digit; decide
      have hw : NoDigitNext (d :: (r' ++ bad)) ∨ tn = b!"0" ∨ tn = b!"-0" ∨ tn = b!"null" := by
        by_cases hdig : Digit d
        · exact .inr (h0 hdig)
        · refine .inl fun b hb => ?_
          simp at hb
          rwa [← hb]
      have hint := deInt_complete hs h1 hw e
      have hlen : (r' ++ bad).length < n := by
        subst hu
        simp only [List.length_append, List.length_cons] at hn ⊢
        omega
      have hs1 : tn ++ d :: r' ++ bad = b :: (u ++ d :: r' ++ bad) := by rw [hu]; rfl
      have hs2 : tn ++ d :: (r' ++ bad) = b :: (u ++ d :: r' ++ bad) := by rw [hu]; simp
      rw [hs2] at hint
      rw [hs1]
      simp only [timeLoopF]
      rw [if_neg hb, hint, Out.bind_ok]
      simp only
      rw [if_neg (by simp [he]), if_neg hd, if_neg hh, if_neg hm, if_neg hss]
      exact ih rfl hfin hlen

/-! ### Flags -/

theorem farr_tail {z : Bytes} {ns : List Bytes} {x : Bytes} (h : FArr z ns x) : ∃ x0, x = x0 ++ z ∧ ∀ z', FArr z' ns (x0 ++ z') := by
  induction h with
  | stop => exact ⟨[], rfl, fun _ => .stop⟩
  | @tight n g ns x hg _ ih =>
    obtain ⟨x0, rfl, h⟩ := ih
    refine ⟨quoted n ++ g ++ x0, by simp, fun z' => ?_⟩
    have := FArr.tight (n := n) hg (h z')
    simpa only [List.append_assoc] using this
  | @comma n g g' ns x hg hg' _ ih =>
    obtain ⟨x0, rfl, h⟩ := ih
    refine ⟨quoted n ++ g ++ c%',' :: (g' ++ x0), by simp, fun z' => ?_⟩
    have := FArr.comma (n := n) hg hg' (h z')
    simpa only [List.append_assoc, List.cons_append] using this

end Wjson
