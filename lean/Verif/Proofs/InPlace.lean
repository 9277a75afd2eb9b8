import Verif.Model.InPlace
import Verif.Proofs.Despace
namespace Wjson

/-- The memory after `o` has been written at position `d`. -/
theorem copyIn_eq (n : Nat) : ∀ (m : Bytes) (st d : Nat), d ≤ st → st + n ≤ m.length →
    copyIn n m st d = .ok (m.take d ++ (m.drop st).take n ++ m.drop (d + n), d + n) := by
  induction n with
  | zero => intro m st d _ _; simp [copyIn]
  | succ n ih =>
    intro m st d h1 h2
    have hst : st < m.length := by omega
    have hd : d < m.length := by omega
    simp only [copyIn, List.getElem?_eq_getElem hst, if_pos hd]
    rw [ih _ _ _ (by omega) (by rw [List.length_set]; omega)]
    rw [show d + 1 + n = d + (n + 1) by omega]
    congr 2
    have e1 : (m.set d m[st]).take (d + 1) = m.take d ++ [m[st]] := by
      rw [List.take_set, List.take_add_one, List.getElem?_eq_getElem hd, List.set_append]
      simp [Nat.min_eq_left (Nat.le_of_lt hd)]
    have e2 : (m.set d m[st]).drop (st + 1) = m.drop (st + 1) := List.drop_set_of_lt (by omega)
    have e3 : (m.set d m[st]).drop (d + (n + 1)) = m.drop (d + (n + 1)) := List.drop_set_of_lt (by omega)
    have e4 : (m.drop st).take (n + 1) = m[st] :: (m.drop (st + 1)).take n := by
      rw [List.drop_eq_getElem_cons hst, List.take_succ_cons]
    rw [e1, e2, e3, e4]
    simp

/-- Bytes after what has been written are as before. -/
theorem written_drop {m w : Bytes} {d j : Nat} (hd : d + w.length ≤ j) (hm : d ≤ m.length) :
    (m.take d ++ w ++ m.drop (d + w.length)).drop j = m.drop j := by
  rw [List.drop_append, List.drop_eq_nil_of_le (by simp; omega), List.nil_append, List.drop_drop]
  congr 1
  simp
  omega

theorem suffix_drop {a s : Bytes} (h : a <:+ s) : a = s.drop (s.length - a.length) := by
  obtain ⟨t, rfl⟩ := h
  simp

theorem despaceTok_suffix (s : Bytes) (e : EPtr) : (despaceTok s e).1 <:+ s := by
  unfold despaceTok
  split
  · exact (parseString_scan s).suffix e
  split
  · exact (parseNumber_scan s).suffix e
  split
  · exact (parseBool_scan s).suffix e
  split
  · exact (parseNull_scan s).suffix e
  · exact List.tail_suffix s

theorem despaceInF_eq (fin : Nat) (n : Nat) : ∀ (m : Bytes) (beg d : Nat) (e : EPtr), d ≤ beg → beg ≤ fin → fin ≤ m.length →
    ∀ {r : Bytes} {e' : EPtr} {o : Bytes}, despaceF n ((m.take fin).drop beg) e = .ok (r, e', o) →
      o.length ≤ fin - beg ∧
      despaceInF fin n m beg d e = .ok (m.take d ++ o ++ m.drop (d + o.length), fin, d + o.length, e') := by
  induction n with
  | zero => intro m beg d e _ _ _ r e' o h; simp [despaceF] at h
  | succ n ih =>
    intro m beg d e h1 h2 h3 r e' o h
    have hl : ((m.take fin).drop beg).length = fin - beg := by simp; omega
    simp only [despaceF] at h
    simp only [despaceInF]
    by_cases hb : beg = fin
    · have : (m.take fin).drop beg = [] := List.eq_nil_of_length_eq_zero (by omega)
      rw [if_pos this] at h
      cases h
      simp [hb]
    · have hne : (m.take fin).drop beg ≠ [] := by
        intro hx; rw [hx] at hl; simp at hl; omega
      rw [if_neg hne] at h
      rw [if_neg hb]
      generalize hr : parseSpace ((m.take fin).drop beg) e = q at h ⊢
      by_cases hq : q.1 = []
      · rw [if_pos hq] at h
        rw [if_pos hq]
        cases h
        simp
      · rw [if_neg hq] at h
        rw [if_neg hq]
        have hqs : q.1 <:+ (m.take fin).drop beg := hr ▸ (parseSpace_scan _).suffix e
        have hks : (despaceTok q.1 q.2).1 <:+ q.1 := despaceTok_suffix _ _
        generalize hk : despaceTok q.1 q.2 = k at h hks ⊢
        have lq := hqs.length_le
        rw [hl] at lq
        have lk := hks.length_le
        have hq' : q.1 = (m.take fin).drop (fin - q.1.length) := by
          have := suffix_drop hqs
          rw [List.drop_drop, hl] at this
          rwa [show beg + (fin - beg - q.1.length) = fin - q.1.length by omega] at this
        have hk' : k.1 = (m.take fin).drop (fin - k.1.length) := by
          have := suffix_drop (hks.trans hqs)
          rw [List.drop_drop, hl] at this
          rwa [show beg + (fin - beg - k.1.length) = fin - k.1.length by omega] at this
        have hlt : ∀ {x : Out (Bytes × EPtr × Bytes)} {f : Bytes × EPtr × Bytes → Out (Bytes × EPtr × Bytes)} {y}, (x >>= f) = .ok y → ∃ z, x = .ok z ∧ f z = .ok y := by
          intro x f y hxy
          cases x with
          | ok z => exact ⟨z, rfl, hxy⟩
          | ub => cases hxy
          | fuel => cases hxy
        obtain ⟨z, hz, hy⟩ := hlt h
        cases hy
        by_cases hf : k.2.failed = true
        · rw [if_pos hf, if_pos hf]
          rw [hk'] at hz
          have := ih m (fin - k.1.length) d k.2 (by omega) (by omega) h3 hz
          have h9 : z.2.2.length ≤ fin - (fin - k.1.length) := this.1
          refine ⟨by simp; omega, ?_⟩
          simpa using this.2
        · rw [if_neg hf, if_neg hf]
          rw [copyIn_eq _ _ _ _ (by omega) (by omega)]
          have hw : (m.drop (fin - q.1.length)).take (fin - k.1.length - (fin - q.1.length)) = q.1.take (q.1.length - k.1.length) := by
            rw [congrArg (List.take (q.1.length - k.1.length)) hq', List.drop_take, List.take_take]
            congr 1
            omega
          rw [hw]
          generalize hwv : q.1.take (q.1.length - k.1.length) = w
          have hwl : w.length = q.1.length - k.1.length := by rw [← hwv]; simp
          have e5 : fin - k.1.length - (fin - q.1.length) = w.length := by omega
          rw [e5]
          have hm' : (m.take d ++ w ++ m.drop (d + w.length)).length = m.length := by simp; omega
          have hz' : despaceF n (((m.take d ++ w ++ m.drop (d + w.length)).take fin).drop (fin - k.1.length)) k.2 = .ok z := by
            rw [List.drop_take, written_drop (by omega) (by omega), ← List.drop_take, ← hk']
            exact hz
          have := ih (m.take d ++ w ++ m.drop (d + w.length)) (fin - k.1.length) (d + w.length) k.2 (by omega) (by omega) (by omega) hz'
          have h9 : z.2.2.length ≤ fin - (fin - k.1.length) := this.1
          refine ⟨by rw [List.length_append, hwl]; omega, ?_⟩
          show despaceInF fin n _ _ _ _ = _
          rw [this.2]
          have e6 : (m.take d ++ w ++ m.drop (d + w.length)).take (d + w.length) = m.take d ++ w := by
            rw [List.take_append_of_le_length (by simp; omega), List.take_of_length_le (by simp; omega)]
          rw [e6, List.length_append, ← Nat.add_assoc, written_drop (by omega) (by omega)]
          simp

end Wjson
