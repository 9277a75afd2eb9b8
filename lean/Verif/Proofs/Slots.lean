import Verif.Spec.Slots
import Verif.Proofs.Back
import Verif.Props.Objects
import Verif.Props.ObjectArrays
/-
Lemmas for C43 and C50: member lists with alternatives.
-/
namespace Wjson
open Spec

section
variable {τ : Type}

/-- All members of the list get the values they have in `v'`. -/
def setRefs (v' : τ) (l : List (MRef τ)) : τ → τ := applyAll (l.map fun m => m.set (m.get v'))

theorem setRefs_append (v' : τ) (l l' : List (MRef τ)) (t : τ) : setRefs v' (l ++ l') t = setRefs v' l' (setRefs v' l t) := by
  unfold setRefs
  rw [List.map_append, applyAll_append]

theorem setRefs_other {v' : τ} {β : Type} {g : τ → β} {l : List (MRef τ)} (h : ∀ m ∈ l, ∀ x t, g (m.set x t) = g t) (t : τ) :
    g (setRefs v' l t) = g t := by
  induction l generalizing t with
  | nil => rfl
  | cons m l ih =>
    show g (setRefs v' l (m.set (m.get v') t)) = g t
    rw [ih fun m hm => h m (List.mem_cons_of_mem _ hm), h m (List.mem_cons_self ..)]

theorem setRefs_get {v' : τ} {l : List (MRef τ)} (hf : Fields l) (t : τ) : ∀ m ∈ l, m.get (setRefs v' l t) = m.get v' := by
  induction l generalizing t with
  | nil => intro m hm; cases hm
  | cons a l ih =>
    have hap := hf.apart
    rw [List.pairwise_cons] at hap
    have hf' : Fields l := ⟨fun m hm => hf.get_set m (List.mem_cons_of_mem _ hm), fun m hm => hf.set_set m (List.mem_cons_of_mem _ hm), hap.2⟩
    intro m hm
    show m.get (setRefs v' l (a.set (a.get v') t)) = m.get v'
    rcases List.mem_cons.mp hm with rfl | hm
    · rw [setRefs_other (g := m.get) fun b hb x t => (hap.1 b hb).1 x t, hf.get_set _ (List.mem_cons_self ..)]
    · exact ih hf' _ m hm

/-- The name of the member written. -/
theorem Slot.name_eq {x : Slot τ} (hs : SameNames x) (v : τ) : ∀ m ∈ x.refs, m.name = (x.live v).name := by
  cases x with
  | one en => simp [Slot.refs, Slot.live]
  | alt l r d RU =>
    have hs : l.name = r.name := hs
    simp only [Slot.refs, Slot.live, List.mem_cons, List.not_mem_nil, or_false]
    rintro m (rfl | rfl) <;> split <;> simp [hs]

theorem Slot.emit_member {v v' : τ} {x : Slot τ} {t : Bytes} (h : SlotText v v' x t) :
    WritesBack x.toMember.emit v (quoted (x.live v).name ++ c%':' :: t) := by
  have := h.rt.writes
  cases x with
  | one en =>
    cases en with
    | mem m => exact emitMember_back this
    | prop m => exact emitMember_back this
  | alt l r d RU =>
    intro m
    simp only [Slot.toMember, memberIf]
    cases hd : d (l.get v)
    · have hl : (Slot.alt l r d RU).live v = l := by simp [Slot.live, hd]
      rw [hl] at this ⊢
      simpa using emitMember_back this m
    · have hl : (Slot.alt l r d RU).live v = r := by simp [Slot.live, hd]
      rw [hl] at this ⊢
      simpa using emitMember_back this m

theorem Slot.emit_amember {v v' : τ} {x : Slot τ} {t : Bytes} (h : SlotText v v' x t) : WritesBack x.toAMember.emit v t := by
  have := h.rt.writes
  cases x with
  | one en =>
    cases en with
    | mem m => exact this
    | prop m => exact this
  | alt l r d RU =>
    intro m
    simp only [Slot.toAMember, amemberIf]
    cases hd : d (l.get v)
    · have hl : (Slot.alt l r d RU).live v = l := by simp [Slot.live, hd]
      rw [hl] at this
      simpa using this m
    · have hl : (Slot.alt l r d RU).live v = r := by simp [Slot.live, hd]
      rw [hl] at this
      simpa using this m

theorem Slot.reads_member {v v' : τ} {x : Slot τ} {t : Bytes} (hf : Fields x.refs) (hs : SameNames x) (hn : c%'"' ∉ (x.live v).name)
    (h : SlotText v v' x t) : MReads x.toMember (x.live v).name t (setRefs v' x.refs) := by
  obtain ⟨hrt, hnull, hfirst⟩ := h
  cases x with
  | one en => exact Entry.reads hn hrt.start hrt.reads
  | alt l r d RU =>
    have hs : l.name = r.name := hs
    have hap := hf.other (pre := []) (a := l) (post := [r]) rfl (b := r) (by simp)
    have hset : ∀ s, setRefs v' (Slot.alt l r d RU).refs s = r.set (r.get v') (l.set (l.get v') s) := fun _ => rfl
    have hfun : (fun s => l.set (l.get v') (r.set (r.get v') s)) = setRefs v' (Slot.alt l r d RU).refs := funext fun s => hap.2.2 _ _ s
    simp only [Slot.toMember, memberIf]
    cases hd : d (l.get v)
    · have hl : (Slot.alt l r d RU).live v = l := by simp [Slot.live, hd]
      have hi : (Slot.alt l r d RU).idle v = some r := by simp [Slot.idle, hd]
      have hif : (Slot.alt l r d RU).idleFirst v = (RU ≠ false) := by simp [Slot.idleFirst, hd]
      rw [hl] at hrt hn ⊢
      rw [hi] at hnull hfirst
      rw [hif] at hfirst
      cases RU with
      | false => exact deMemberIf_first hn hrt.start hrt.reads (hnull r rfl) _
      | true =>
        have := deMemberIf_second hs.symm (hs ▸ hn) hrt.start (hfirst r rfl (by simp)) hrt.reads (hnull r rfl) (hf.set_set r (by simp [Slot.refs]))
          (memberIf l r d true).emit
        rw [hfun] at this
        exact this
    · have hl : (Slot.alt l r d RU).live v = r := by simp [Slot.live, hd]
      have hi : (Slot.alt l r d RU).idle v = some l := by simp [Slot.idle, hd]
      have hif : (Slot.alt l r d RU).idleFirst v = (RU ≠ true) := by simp [Slot.idleFirst, hd]
      rw [hl] at hrt hn ⊢
      rw [hi] at hnull hfirst
      rw [hif] at hfirst
      cases RU with
      | false => exact deMemberIf_second hs (hs ▸ hn) hrt.start (hfirst l rfl (by simp)) hrt.reads (hnull l rfl) (hf.set_set l (by simp [Slot.refs])) _
      | true =>
        have := deMemberIf_first hn hrt.start hrt.reads (hnull l rfl) (memberIf l r d true).emit
        rw [hfun] at this
        exact this

theorem Slot.reads_amember {v v' : τ} {x : Slot τ} {t : Bytes} (hf : Fields x.refs)
    (h : SlotText v v' x t) : AReads x.toAMember (t, setRefs v' x.refs) := by
  obtain ⟨hrt, hnull, hfirst⟩ := h
  cases x with
  | one en => exact Entry.areads hrt.reads
  | alt l r d RU =>
    have hap := hf.other (pre := []) (a := l) (post := [r]) rfl (b := r) (by simp)
    have hfun : (fun s => l.set (l.get v') (r.set (r.get v') s)) = setRefs v' (Slot.alt l r d RU).refs := funext fun s => hap.2.2 _ _ s
    simp only [Slot.toAMember, amemberIf]
    cases hd : d (l.get v)
    · have hl : (Slot.alt l r d RU).live v = l := by simp [Slot.live, hd]
      have hi : (Slot.alt l r d RU).idle v = some r := by simp [Slot.idle, hd]
      have hif : (Slot.alt l r d RU).idleFirst v = (RU ≠ false) := by simp [Slot.idleFirst, hd]
      rw [hl] at hrt
      rw [hi] at hnull hfirst
      rw [hif] at hfirst
      cases RU with
      | false => exact deAMemberIf_first hrt.reads (hnull r rfl) _
      | true =>
        have := deAMemberIf_second (hfirst r rfl (by simp)) hrt.reads (hnull r rfl) (hf.set_set r (by simp [Slot.refs]))
          (amemberIf l r d true).emit
        rw [hfun] at this
        exact this
    · have hl : (Slot.alt l r d RU).live v = r := by simp [Slot.live, hd]
      have hi : (Slot.alt l r d RU).idle v = some l := by simp [Slot.idle, hd]
      have hif : (Slot.alt l r d RU).idleFirst v = (RU ≠ true) := by simp [Slot.idleFirst, hd]
      rw [hl] at hrt
      rw [hi] at hnull hfirst
      rw [hif] at hfirst
      cases RU with
      | false => exact deAMemberIf_second (hfirst l rfl (by simp)) hrt.reads (hnull l rfl) (hf.set_set l (by simp [Slot.refs])) _
      | true =>
        have := deAMemberIf_first hrt.reads (hnull l rfl) (amemberIf l r d true).emit
        rw [hfun] at this
        exact this

theorem Fields.append {l l' : List (MRef τ)} (h : Fields (l ++ l')) : Fields l ∧ Fields l' := by
  have hap := List.pairwise_append.mp h.apart
  exact ⟨⟨fun m hm => h.get_set m (List.mem_append_left _ hm), fun m hm => h.set_set m (List.mem_append_left _ hm), hap.1⟩,
    ⟨fun m hm => h.get_set m (List.mem_append_right _ hm), fun m hm => h.set_set m (List.mem_append_right _ hm), hap.2.1⟩⟩

theorem slots_start {v v' : τ} {L : List (Slot τ)} {ts : List Bytes} (h : All2 (SlotText v v') L ts) : ∀ t ∈ ts, Start t := by
  induction h with
  | nil => simp
  | cons h1 _ ih =>
    intro t ht
    rcases List.mem_cons.mp ht with rfl | ht
    · exact h1.rt.start
    · exact ih t ht

/-- What is read: the texts with the effects. -/
theorem slots_effects {v v' : τ} {L : List (Slot τ)} {ts : List Bytes} (h : All2 (SlotText v v') L ts) (hf : Fields (L.flatMap Slot.refs))
    (hs : ∀ x ∈ L, SameNames x) (hn : ∀ x ∈ L, c%'"' ∉ (x.live v).name) :
    ∃ xs : List ((Bytes × Bytes) × (τ → τ)), All2 (fun m x => MReads m x.1.1 x.1.2 x.2) (L.map Slot.toMember) xs ∧
      xs.map Prod.fst = (L.map fun x => (x.live v).name).zip ts ∧ ∀ t, applyAll (xs.map Prod.snd) t = setRefs v' (L.flatMap Slot.refs) t := by
  induction h with
  | nil => exact ⟨[], .nil, rfl, fun _ => rfl⟩
  | @cons x t L ts h1 _ ih =>
    rw [List.flatMap_cons] at hf
    obtain ⟨xs, h2, h3, h4⟩ := ih hf.append.2 (fun y hy => hs y (List.mem_cons_of_mem _ hy)) (fun y hy => hn y (List.mem_cons_of_mem _ hy))
    refine ⟨(((x.live v).name, t), setRefs v' x.refs) :: xs,
      .cons (Slot.reads_member hf.append.1 (hs x (List.mem_cons_self ..)) (hn x (List.mem_cons_self ..)) h1) h2, by simp [h3], fun t => ?_⟩
    rw [List.map_cons, applyAll_cons, h4, List.flatMap_cons, setRefs_append]

theorem slots_aeffects {v v' : τ} {L : List (Slot τ)} {ts : List Bytes} (h : All2 (SlotText v v') L ts) (hf : Fields (L.flatMap Slot.refs)) :
    ∃ xs : List (Bytes × (τ → τ)), All2 AReads (L.map Slot.toAMember) xs ∧
      xs.map Prod.fst = ts ∧ ∀ t, applyAll (xs.map Prod.snd) t = setRefs v' (L.flatMap Slot.refs) t := by
  induction h with
  | nil => exact ⟨[], .nil, rfl, fun _ => rfl⟩
  | @cons x t L ts h1 _ ih =>
    rw [List.flatMap_cons] at hf
    obtain ⟨xs, h2, h3, h4⟩ := ih hf.append.2
    refine ⟨(t, setRefs v' x.refs) :: xs, .cons (Slot.reads_amember hf.append.1 h1) h2, by simp [h3], fun t => ?_⟩
    rw [List.map_cons, applyAll_cons, h4, List.flatMap_cons, setRefs_append]

theorem slots_write {v v' : τ} {L : List (Slot τ)} {ts : List Bytes} (h : All2 (SlotText v v') L ts) :
    All2 (fun m s => WritesBack m.emit v s) (L.map Slot.toMember)
      (((L.map fun x => (x.live v).name).zip ts).map fun x => quoted x.1 ++ c%':' :: x.2) := by
  induction h with
  | nil => exact .nil
  | cons h1 _ ih => exact .cons (Slot.emit_member h1) ih

theorem slots_awrite {v v' : τ} {L : List (Slot τ)} {ts : List Bytes} (h : All2 (SlotText v v') L ts) :
    All2 (fun m s => WritesBack m.emit v s) (L.map Slot.toAMember) ts := by
  induction h with
  | nil => exact .nil
  | cons h1 _ ih => exact .cons (Slot.emit_amember h1) ih

theorem object_slots (c : Cfg) (strict : Bool) (dflt : τ) {L : List (Slot τ)} (hf : Fields (L.flatMap Slot.refs))
    (hs : ∀ x ∈ L, SameNames x) (v v' : τ) (hn : ∀ x ∈ L, c%'"' ∉ (x.live v).name) {ts : List Bytes} (h : All2 (SlotText v v') L ts) :
    WritesBack (objectSer c strict dflt (L.map Slot.toMember)).emit v (objectText (L.map fun x => (x.live v).name) ts) ∧
    ∀ v0, ReadsAt (objectSer c strict dflt (L.map Slot.toMember)).de v0 (objectText (L.map fun x => (x.live v).name) ts)
      (setRefs v' (L.flatMap Slot.refs) v0) := by
  refine ⟨emitObject_back (slots_write h), fun v0 => ?_⟩
  obtain ⟨xs, h1, h2, h3⟩ := slots_effects h hf hs hn
  rw [← h3]
  exact deObject_cursor h1 (by rw [h2]; exact objText_of_join fun x hx => slots_start h _ (List.of_mem_zip hx).2) dflt v0

theorem objectArray_slots (dflt : τ) {L : List (Slot τ)} (hf : Fields (L.flatMap Slot.refs))
    (v v' : τ) {ts : List Bytes} (h : All2 (SlotText v v') L ts) :
    WritesBack (objectArraySer dflt (L.map Slot.toAMember)).emit v (arrayText ts) ∧
    ∀ v0, ReadsAt (objectArraySer dflt (L.map Slot.toAMember)).de v0 (arrayText ts) (setRefs v' (L.flatMap Slot.refs) v0) := by
  refine ⟨emitObjectArray_back (slots_awrite h), fun v0 => ?_⟩
  obtain ⟨xs, h1, h2, h3⟩ := slots_aeffects h hf
  rw [← h3]
  cases hL : L with
  | nil =>
    subst hL
    cases h
    cases h1
    exact deObjectArray_empty dflt v0 (g := []) .nil
  | cons a l =>
    have hi : Items1 (fun v t => v = t) c%']' (xs.map Prod.fst) (joinComma ts ++ [c%']']) := by
      rw [h2]
      refine items1_of_join (by intro hc; have := all2_length h; simp [hL, hc] at this) ?_
      have := slots_start h
      clear h h1 h2 h3 xs
      induction ts with
      | nil => exact .nil
      | cons t ts ih => exact .cons ⟨this t (by simp), rfl⟩ (ih fun u hu => this u (by simp [hu]))
    have := deObjectArray_items h1 hi [] dflt v0
    rw [List.append_nil, hL] at this
    exact this

end

end Wjson
