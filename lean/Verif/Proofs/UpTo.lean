import Verif.Spec.UpTo
import Verif.Proofs.Nested
/-
Round trips up to the order of containers.
-/
namespace Wjson
open Spec

section
variable {α C κ : Type} {S : Ser α} {K : Coll α C} {R : α → α → Prop}

theorem BagColl.fold (h : BagColl K) {c : C} (hr : Filled K c) (l : List α) :
    (K.elems (l.foldl K.insert c)).Perm (l ++ K.elems c) := by
  induction l generalizing c with
  | nil => exact .refl _
  | cons x l ih =>
    refine (ih (hr.insert x)).trans (((h.insert c x hr).append_left l).trans ?_)
    exact List.perm_middle

/-- The first element of each key, in order. -/
theorem UniqueColl.fold {key : α → κ} (h : UniqueColl key K) {c : C} (hr : Filled K c) (l : List α) (hl : (l.map key).Nodup)
    (hc : ∀ x ∈ l, ∀ y ∈ K.elems c, key y ≠ key x) : (K.elems (l.foldl K.insert c)).Perm (l ++ K.elems c) := by
  induction l generalizing c with
  | nil => exact .refl _
  | cons x l ih =>
    rw [List.map_cons, List.nodup_cons] at hl
    have hp := h.insert_new c x hr (hc x (by simp))
    refine (ih (hr.insert x) hl.2 ?_).trans ((hp.append_left l).trans List.perm_middle)
    intro y hy z hz
    rcases List.mem_cons.mp (hp.mem_iff.mp hz) with rfl | hz
    · exact fun heq => hl.1 (by rw [heq]; exact List.mem_map.mpr ⟨y, hy, rfl⟩)
    · exact hc y (by simp [hy]) z hz

/-- Keys stay distinct, and membership is: earlier elements, and the first
element of each new key. -/
theorem UniqueColl.fold_all {key : α → κ} (h : UniqueColl key K) {c : C} (hr : Filled K c) (hn : ((K.elems c).map key).Nodup)
    (l : List α) : ((K.elems (l.foldl K.insert c)).map key).Nodup ∧
      ∀ x, x ∈ K.elems (l.foldl K.insert c) ↔ x ∈ K.elems c ∨ ((∀ y ∈ K.elems c, key y ≠ key x) ∧
        ∃ l1 l2, l = l1 ++ x :: l2 ∧ ∀ y ∈ l1, key y ≠ key x) := by
  induction l generalizing c with
  | nil =>
    refine ⟨hn, fun x => ⟨.inl, ?_⟩⟩
    rintro (h | ⟨_, l1, l2, h, _⟩)
    · exact h
    · cases l1 <;> cases h
  | cons z l ih =>
    rw [List.foldl_cons]
    rcases Classical.em (∃ y ∈ K.elems c, key y = key z) with ⟨y, hy, hyz⟩ | hnew
    · have hp := h.insert_old c z y hr hy hyz
      obtain ⟨h1, h2⟩ := ih (hr.insert z) ((hp.map key).nodup_iff.mpr hn)
      refine ⟨h1, fun x => (h2 x).trans ?_⟩
      simp only [hp.mem_iff]
      refine or_congr .rfl (and_congr_right fun hx => ⟨?_, ?_⟩)
      · rintro ⟨l1, l2, rfl, h3⟩
        refine ⟨z :: l1, l2, rfl, fun w hw => ?_⟩
        rcases List.mem_cons.mp hw with rfl | hw
        · rw [← hyz]; exact hx y hy
        · exact h3 w hw
      · rintro ⟨_ | ⟨w, l1⟩, l2, heq, h3⟩
        · cases heq; exact absurd hyz (hx y hy)
        · cases heq; exact ⟨l1, l2, rfl, fun w hw => h3 w (by simp [hw])⟩
    · have hnew : ∀ y ∈ K.elems c, key y ≠ key z := fun y hy heq => hnew ⟨y, hy, heq⟩
      have hp := h.insert_new c z hr hnew
      obtain ⟨h1, h2⟩ := ih (hr.insert z) ((hp.map key).nodup_iff.mpr (by
        rw [List.map_cons, List.nodup_cons]
        refine ⟨fun hm => ?_, hn⟩
        obtain ⟨y, hy, h3⟩ := List.mem_map.mp hm
        exact hnew y hy h3))
      refine ⟨h1, fun x => (h2 x).trans ?_⟩
      simp only [hp.mem_iff, List.mem_cons]
      constructor
      · rintro ((rfl | hx) | ⟨hx, l1, l2, rfl, h3⟩)
        · exact .inr ⟨hnew, [], l, rfl, fun _ h => by cases h⟩
        · exact .inl hx
        · refine .inr ⟨fun y hy => hx y (.inr hy), z :: l1, l2, rfl, fun w hw => ?_⟩
          rcases List.mem_cons.mp hw with rfl | hw
          · exact hx w (.inl rfl)
          · exact h3 w hw
      · rintro (hx | ⟨hx, _ | ⟨w, l1⟩, l2, heq, h3⟩)
        · exact .inl (.inr hx)
        · cases heq; exact .inl (.inl rfl)
        · cases heq
          refine .inr ⟨?_, l1, l2, rfl, fun w hw => h3 w (by simp [hw])⟩
          rintro y (rfl | hy)
          · exact h3 _ (by simp)
          · exact hx y hy

theorem choose_items {vs : List α} (h : ∀ v ∈ vs, ∃ t w, RTU S v w t ∧ R v w) :
    ∃ ts ws, All2 (fun v t => WritesBack S.emit v t) vs ts ∧ All2 R vs ws ∧ All2 (fun w t => Start t ∧ Reads S.de t w) ws ts := by
  induction vs with
  | nil => exact ⟨[], [], .nil, .nil, .nil⟩
  | cons v vs ih =>
    obtain ⟨t, w, h1, h2⟩ := h v (by simp)
    obtain ⟨ts, ws, h3, h4, h5⟩ := ih fun x hx => h x (by simp [hx])
    exact ⟨t :: ts, w :: ws, .cons h1.writes h3, .cons h2 h4, .cons ⟨h1.start, h1.reads⟩ h5⟩

theorem seqSer_rtu {Rb : Byte} (hR : Rb = c%']' ∨ Rb = c%'}') {L : Byte} (hL : L = c%'[' ∨ L = c%'{') {c : C}
    (h : ∀ v ∈ K.elems c, ∃ t w, RTU S v w t ∧ R v w) :
    ∃ t ws, All2 R (K.elems c) ws ∧ RTU (seqSer K S L Rb) c (ws.foldl K.insert K.clear) t := by
  obtain ⟨ts, ws, h1, h2, h3⟩ := choose_items h
  refine ⟨L :: joinComma ts ++ [Rb], ws, h2, emitSeq_back h1, Start.of_byte (by rcases hL with rfl | rfl <;> simp), ?_⟩
  intro c0 rest e he _
  have hi : ItemsText (fun v t => ReadsAt S.de S.dflt t v) Rb ws (joinComma ts ++ [Rb]) :=
    items_of_join (all2_imp (fun _ _ h => ⟨h.1, h.2 _⟩) h3)
  have := deSeq_items (K := K) hR (L := L) (by rcases hL with rfl | rfl <;> decide) hi c0 rest he
  simpa [seqSer] using this

theorem bag_rtu (hK : BagColl K) {Rb : Byte} (hR : Rb = c%']' ∨ Rb = c%'}') {L : Byte} (hL : L = c%'[' ∨ L = c%'{') {c : C}
    (h : ∀ v ∈ K.elems c, ∃ t w, RTU S v w t ∧ R v w) : ∃ t w, RTU (seqSer K S L Rb) c w t ∧ UpToOrder K R c w := by
  obtain ⟨t, ws, h1, h2⟩ := seqSer_rtu hR hL h
  refine ⟨t, _, h2, ws, h1, ?_⟩
  have := hK.fold .empty ws
  rw [hK.clear, List.append_nil] at this
  exact this.symm

theorem all2_map_key {key : α → κ} (hk : ∀ a b, R a b → key a = key b) {as bs : List α} (h : All2 R as bs) :
    as.map key = bs.map key := by
  induction h with
  | nil => rfl
  | cons h _ ih => simp [hk _ _ h, ih]

theorem unique_rtu {key : α → κ} (hK : UniqueColl key K) {Rb : Byte} (hR : Rb = c%']' ∨ Rb = c%'}') {L : Byte}
    (hL : L = c%'[' ∨ L = c%'{') {c : C} (hn : ((K.elems c).map key).Nodup) (hk : ∀ a b, R a b → key a = key b)
    (h : ∀ v ∈ K.elems c, ∃ t w, RTU S v w t ∧ R v w) : ∃ t w, RTU (seqSer K S L Rb) c w t ∧ UpToOrder K R c w := by
  obtain ⟨t, ws, h1, h2⟩ := seqSer_rtu hR hL h
  refine ⟨t, _, h2, ws, h1, ?_⟩
  have := hK.fold .empty ws (by rw [← all2_map_key hk h1]; exact hn) (by rw [hK.clear]; intro _ _ _ h; cases h)
  rw [hK.clear, List.append_nil] at this
  exact this.symm

end

theorem fieldSer_rtu {κ ν : Type} {SK : Ser κ} {SV : Ser ν} {x y : κ × ν} {kt vt : Bytes} (hk : RTU SK x.1 y.1 kt)
    (hv : RTU SV x.2 y.2 vt) : RTU (fieldSer SK SV) x y (kt ++ c%':' :: vt) where
  writes := emitField_back hk.writes hv.writes
  start := by
    obtain ⟨b, u, rfl, h⟩ := hk.start
    exact ⟨b, _, rfl, h⟩
  reads := by
    intro t0
    have := deField_reads (kv := y) (t0 := t0) (hk.reads _) .nil .nil hv.start (hv.reads _)
    simpa [fieldSer] using this

theorem field_choose {κ ν : Type} {SK : Ser κ} {SV : Ser ν} {R : κ → κ → Prop} {Q : ν → ν → Prop} {x : κ × ν}
    (hk : ∃ t w, RTU SK x.1 w t ∧ R x.1 w) (hv : ∃ t w, RTU SV x.2 w t ∧ Q x.2 w) :
    ∃ t w, RTU (fieldSer SK SV) x w t ∧ PairRel R Q x w := by
  obtain ⟨kt, k, h1, h2⟩ := hk
  obtain ⟨vt, v, h3, h4⟩ := hv
  exact ⟨_, (k, v), fieldSer_rtu h1 h3, h2, h4⟩

theorem fixVec_rtu {α : Type} {N : Nat} (k : FixKind) (hN : 1 ≤ N) {S : Ser α} {R : α → α → Prop} {vs : Vector α N}
    (h : ∀ v ∈ vs.toList, ∃ t w, RTU S v w t ∧ R v w) :
    ∃ t ws, RTU (fixVecSer k N S) vs ws t ∧ All2 R vs.toList ws.toList := by
  obtain ⟨ts, ws, h1, h2, h3⟩ := choose_items h
  have hlen : ws.length = N := by rw [← all2_length h2]; simp
  obtain ⟨wv, rfl⟩ : ∃ wv : Vector α N, wv.toList = ws := ⟨⟨ws.toArray, by simpa using hlen⟩, by simp [Vector.toList]⟩
  refine ⟨c%'[' :: joinComma ts ++ b!"]", wv, ⟨emitFix_back h1, ⟨_, _, rfl, by unfold WsByte; decide⟩, ?_⟩, h2⟩
  intro old rest e he _
  have hi : Items1 (fun v t => Reads S.de t v) c%']' wv.toList (joinComma ts ++ [c%']']) :=
    items1_of_join (by intro h; rw [h] at hlen; simp at hlen; omega) h3
  have := C26_fewer_elements k hi (N := N) (old := old.toList) (by simp) (by simp) rest he
  have hd : old.toList.drop wv.toList.length = [] := List.drop_eq_nil_of_le (by simp)
  rw [hd, List.append_nil] at this
  simp only [fixSer] at this
  have hx : c%'[' :: joinComma ts ++ b!"]" ++ rest = c%'[' :: (joinComma ts ++ [c%']']) ++ rest := by simp
  rw [hx]
  simp only [fixVecSer]
  rcases deFixVec_eq k S old (c%'[' :: (joinComma ts ++ [c%']']) ++ rest) e with ⟨w, p, e', h1, h2⟩ | ⟨h1, _⟩ | ⟨h1, _⟩
  · rw [this] at h1
    simp only [Out.ok.injEq, Prod.mk.injEq] at h1
    rw [h2, ← h1.2.1, ← h1.2.2, Vector.toList_inj.mp h1.1]
  · rw [this] at h1; cases h1
  · rw [this] at h1; cases h1

theorem quoted_rtu {α : Type} {S : Ser α} {v w : α} {t : Bytes} (h : RTU S v w t) (ht : StrOk t) (reqQ : Bool) :
    RTU (quotedSer S true reqQ) v w (c%'"' :: strBody false t ++ b!"\"") where
  writes := by
    intro m
    have h1 := h.writes []
    simp only [List.nil_append] at h1
    simp [quotedSer, emitQuoted, h1, strSer, emitStr, Sink.puts_back]
  start := ⟨_, _, rfl, by unfold WsByte; decide⟩
  reads := by
    have hs := strSer_rt ht
    intro v0 rest e he hdel
    have h1 := hs.reads [] rest e he hdel
    have h2 := h.reads v0 [] .fresh rfl (by intro b hb; cases hb)
    simp only [List.append_nil] at h2
    have hq : deQuotedStr S v0 (c%'"' :: strBody false t ++ b!"\"" ++ rest) e = .ok (w, rest, e) := by
      simp only [deQuotedStr, h1, Out.bind_ok, he, h2]
      simp [EPtr.fresh, JError.status]
    simp only [quotedSer, deQuoted]
    rw [hq]
    cases reqQ
    · simp [isString]
    · rfl

theorem pointer_rtu {α : Type} {S : Ser α} {v w : α} {t : Bytes} (h : RTU S v w t) (hn : t.head? ≠ some c%'n') :
    RTU (pointerSer S) (some v) (some w) t where
  writes := h.writes
  start := h.start
  reads := by
    intro v0 rest e he hd
    have hr := h.reads S.dflt rest e he hd
    obtain ⟨b, u, rfl, _⟩ := h.start
    simp only [List.cons_append] at hr ⊢
    have hb : b ≠ c%'n' := by simpa using hn
    simp [pointerSer, dePointer, hb, hr]

/-- Values for all members at once. -/
theorem stored {τ : Type} (f : ∀ en : Entry τ, en.ref.α) : ∀ {L : List (Entry τ)}, Fields (L.map Entry.ref) → ∀ v0 : τ,
    ∃ v', ∀ en ∈ L, en.ref.get v' = f en := by
  intro L hf v0
  refine ⟨applyAll (L.map fun en => en.ref.set (f en)) v0, ?_⟩
  have hkeep : ∀ (l : List (Entry τ)) (a : Entry τ), (∀ b ∈ l, ∀ x t, a.ref.get (b.ref.set x t) = a.ref.get t) → ∀ t,
      a.ref.get (applyAll (l.map fun en => en.ref.set (f en)) t) = a.ref.get t := by
    intro l a
    induction l with
    | nil => intro _ t; rfl
    | cons b l ih =>
      intro hb t
      rw [List.map_cons, applyAll_cons, ih fun b' hb' => hb b' (by simp [hb']), hb b (by simp)]
  induction L generalizing v0 with
  | nil => intro en h; cases h
  | cons a l ih =>
    intro en hen
    have hf' : Fields (l.map Entry.ref) :=
      ⟨fun m hm => hf.get_set m (by simp only [List.map_cons]; exact List.mem_cons_of_mem _ hm),
        fun m hm => hf.set_set m (by simp only [List.map_cons]; exact List.mem_cons_of_mem _ hm),
        by have := hf.apart; rw [List.map_cons, List.pairwise_cons] at this; exact this.2⟩
    rw [List.map_cons, applyAll_cons]
    rcases List.mem_cons.mp hen with rfl | hen
    · rw [hkeep, hf.get_set _ (by simp)]
      intro b hb x t
      have := hf.apart
      rw [List.map_cons, List.pairwise_cons] at this
      exact (this.1 b.ref (List.mem_map.mpr ⟨b, hb, rfl⟩)).1 x t
    · exact ih hf' _ en hen

theorem members_choose {τ : Type} {L : List (Entry τ)} (hf : Fields (L.map Entry.ref)) {v : τ}
    {R : ∀ en : Entry τ, en.ref.α → en.ref.α → Prop}
    (h : ∀ en ∈ L, ∃ t w, RTU en.ref.ser (en.ref.get v) w t ∧ R en (en.ref.get v) w) :
    ∃ v', (∀ en ∈ L, ∃ t, RTU en.ref.ser (en.ref.get v) (en.ref.get v') t) ∧ ∀ en ∈ L, R en (en.ref.get v) (en.ref.get v') := by
  have : ∀ en : Entry τ, ∃ w : en.ref.α, en ∈ L → (∃ t, RTU en.ref.ser (en.ref.get v) w t) ∧ R en (en.ref.get v) w := by
    intro en
    rcases Classical.em (en ∈ L) with hen | hen
    · obtain ⟨t, w, h1, h2⟩ := h en hen
      exact ⟨w, fun _ => ⟨⟨t, h1⟩, h2⟩⟩
    · exact ⟨en.ref.get v, fun h => absurd h hen⟩
  obtain ⟨f, hff⟩ := Classical.axiomOfChoice this
  obtain ⟨v', hv'⟩ := stored f hf v
  refine ⟨v', fun en hen => ?_, fun en hen => ?_⟩
  · rw [hv' en hen]; exact (hff en hen).1
  · rw [hv' en hen]; exact (hff en hen).2

/-- New values for all written members at once; the idle alternatives stay. -/
theorem slots_stored {τ : Type} {v : τ} (f : ∀ x : Slot τ, (x.live v).α) : ∀ {L : List (Slot τ)}, Fields (L.flatMap Slot.refs) →
    ∀ v0 : τ, ∃ v', (∀ x ∈ L, (x.live v).get v' = f x) ∧ (∀ x ∈ L, ∀ o, x.idle v = some o → o.get v' = o.get v0) ∧
      ∀ {β : Type} (g : τ → β), (∀ m ∈ L.flatMap Slot.refs, ∀ y t, g (m.set y t) = g t) → g v' = g v0 := by
  intro L
  induction L with
  | nil => exact fun _ v0 => ⟨v0, nofun, nofun, fun _ _ => rfl⟩
  | cons x l ih =>
    intro hf v0
    rw [List.flatMap_cons] at hf
    have hap := (List.pairwise_append.mp hf.apart).2.2
    have hlive : x.live v ∈ x.refs := by
      cases x with
      | one en => simp [Slot.live, Slot.refs]
      | alt p q d RU => simp only [Slot.live, Slot.refs]; split <;> simp
    have hidle : ∀ o, x.idle v = some o → o ∈ x.refs ∧ ∀ y t, o.get ((x.live v).set y t) = o.get t := by
      intro o ho
      cases x with
      | one en => cases ho
      | alt p q d RU =>
        have h2 := hf.append.1.other (pre := []) (a := p) (post := [q]) rfl (b := q) (by simp)
        cases hd : d (p.get v)
        · have h3 : (Slot.alt p q d RU).live v = p := by simp [Slot.live, hd]
          have h4 : (Slot.alt p q d RU).idle v = some q := by simp [Slot.idle, hd]
          cases h4.symm.trans ho
          rw [h3]
          exact ⟨by simp [Slot.refs], h2.2.1⟩
        · have h3 : (Slot.alt p q d RU).live v = q := by simp [Slot.live, hd]
          have h4 : (Slot.alt p q d RU).idle v = some p := by simp [Slot.idle, hd]
          cases h4.symm.trans ho
          rw [h3]
          exact ⟨by simp [Slot.refs], h2.1⟩
    obtain ⟨v', h1, h2, h3⟩ := ih hf.append.2 ((x.live v).set (f x) v0)
    refine ⟨v', ?_, ?_, ?_⟩
    · intro y hy
      rcases List.mem_cons.mp hy with rfl | hy
      · rw [h3 _ fun m hm => (hap _ hlive m hm).1]
        exact hf.get_set _ (List.mem_append_left _ hlive) _ _
      · exact h1 y hy
    · intro y hy o ho
      rcases List.mem_cons.mp hy with rfl | hy
      · rw [h3 _ fun m hm => (hap _ (hidle o ho).1 m hm).1]
        exact (hidle o ho).2 _ _
      · rw [h2 y hy o ho]
        have hom : o ∈ l.flatMap Slot.refs := by
          refine List.mem_flatMap.mpr ⟨y, hy, ?_⟩
          cases y with
          | one en => cases ho
          | alt p q d RU =>
            simp only [Slot.idle, Option.some.injEq] at ho
            subst ho
            simp only [Slot.refs]
            split <;> simp
        exact (hap _ hlive o hom).2.1 _ _
    · intro β g hg
      rw [h3 g fun m hm => hg m (by rw [List.flatMap_cons]; exact List.mem_append_right _ hm)]
      exact hg _ (by rw [List.flatMap_cons]; exact List.mem_append_left _ hlive) _ _

theorem slots_choose {τ : Type} {L : List (Slot τ)} (hf : Fields (L.flatMap Slot.refs)) {v : τ} {R : ∀ m : MRef τ, m.α → m.α → Prop}
    (h : ∀ x ∈ L, ∃ t w, RTU (x.live v).ser ((x.live v).get v) w t ∧ R (x.live v) ((x.live v).get v) w)
    (hnull : ∀ x ∈ L, ∀ o, x.idle v = some o → Reads o.ser.de b!"null" (o.get v))
    (hfirst : ∀ x ∈ L, ∀ o, x.idle v = some o → x.idleFirst v → ∀ t,
      (x.live v).ser.emit ((x.live v).get v) ⟨[], .back⟩ = .ok ⟨t, .back⟩ → Rejects o.ser.de t) :
    ∃ v' ts, All2 (SlotText v v') L ts ∧ SlotsRel R L v v' := by
  have : ∀ x : Slot τ, ∃ w : (x.live v).α, x ∈ L → (∃ t, RTU (x.live v).ser ((x.live v).get v) w t) ∧ R (x.live v) ((x.live v).get v) w := by
    intro x
    rcases Classical.em (x ∈ L) with hx | hx
    · obtain ⟨t, w, h1, h2⟩ := h x hx
      exact ⟨w, fun _ => ⟨⟨t, h1⟩, h2⟩⟩
    · exact ⟨(x.live v).get v, fun h => absurd h hx⟩
  obtain ⟨f, hff⟩ := Classical.axiomOfChoice this
  obtain ⟨v', h1, h2, _⟩ := slots_stored f hf v
  obtain ⟨ts, hts⟩ : ∃ ts, All2 (SlotText v v') L ts := all2_choose' fun x hx => by
    obtain ⟨⟨t, ht⟩, -⟩ := hff x hx
    rw [← h1 x hx] at ht
    exact ⟨t, ht, fun o ho => by rw [h2 x hx o ho]; exact hnull x hx o ho, fun o ho hi => hfirst x hx o ho hi t ht.writes.at_nil⟩
  refine ⟨v', ts, hts, fun x hx => ⟨?_, h2 x hx⟩⟩
  rw [h1 x hx]
  exact (hff x hx).2

theorem objectIf_rtu {τ : Type} {L : List (Slot τ)} {v v' : τ} (c : Cfg) (strict : Bool) (dflt : τ) (hf : Fields (L.flatMap Slot.refs))
    (hs : ∀ x ∈ L, SameNames x) (hn : ∀ x ∈ L, c%'"' ∉ (x.live v).name)
    (hall : ∀ a b, (∀ m ∈ L.flatMap Slot.refs, m.get a = m.get b) → a = b) {ts : List Bytes} (h : All2 (SlotText v v') L ts) :
    ∃ t, RTU (objectSer c strict dflt (L.map Slot.toMember)) v v' t := by
  obtain ⟨h1, h2⟩ := object_slots c strict dflt hf hs v v' hn h
  refine ⟨_, h1, ⟨c%'{', _, rfl, by decide⟩, fun v0 => ?_⟩
  have := h2 v0
  rwa [hall _ v' (setRefs_get hf v0)] at this

theorem objectArrayIf_rtu {τ : Type} {L : List (Slot τ)} {v v' : τ} (dflt : τ) (hf : Fields (L.flatMap Slot.refs))
    (hall : ∀ a b, (∀ m ∈ L.flatMap Slot.refs, m.get a = m.get b) → a = b) {ts : List Bytes} (h : All2 (SlotText v v') L ts) :
    ∃ t, RTU (objectArraySer dflt (L.map Slot.toAMember)) v v' t := by
  obtain ⟨h1, h2⟩ := objectArray_slots dflt hf v v' h
  refine ⟨_, h1, ⟨c%'[', _, rfl, by decide⟩, fun v0 => ?_⟩
  have := h2 v0
  rwa [hall _ v' (setRefs_get hf v0)] at this

theorem increasing_keys {κ ν : Type} {lt : κ → κ → Bool} {as bs : List (κ × ν)} (h : as.map Prod.fst = bs.map Prod.fst)
    (hi : Increasing (fun a b : κ × ν => lt a.1 b.1) as) : Increasing (fun a b : κ × ν => lt a.1 b.1) bs := by
  have h1 : ∀ l : List (κ × ν), Increasing (fun a b : κ × ν => lt a.1 b.1) l ↔ Increasing lt (l.map Prod.fst) := by
    intro l
    unfold Increasing
    rw [List.pairwise_map]
  rw [h1] at hi ⊢
  rwa [← h]

theorem GoodUpTo.rtu {c : Cfg} : ∀ {α : Type} {S : Ser α} {v : α} {R : α → α → Prop}, GoodUpTo c S v R →
    ∃ t v', RTU S v v' t ∧ R v v'
  | _, _, v, _, .exact h => have ⟨t, h⟩ := h.rtb; ⟨t, v, h.u, rfl⟩
  | _, _, _, _, .bag hK h => bag_rtu hK (.inl rfl) (.inl rfl) fun x hx => (h x hx).rtu
  | _, _, _, _, .unique hK hn hk h => unique_rtu hK (.inl rfl) (.inl rfl) hn hk fun x hx => (h x hx).rtu
  | _, _, vs, _, .seq (R := R) h =>
    have ⟨t, ws, h1, h2⟩ := seqSer_rtu (K := seqColl _) (R := R) (c := vs) (.inl rfl) (.inl rfl) fun x hx => (h x hx).rtu
    ⟨t, ws, by rwa [seqFold ws] at h2, h1⟩
  | _, _, _, _, .fixed (k := k) hN h => fixVec_rtu k hN fun v hv => (h v hv).rtu
  | _, _, _, _, .bagDict hK h h' =>
    bag_rtu hK (.inr rfl) (.inr rfl) fun x hx => field_choose (h x hx).rtu (h' x hx).rtu
  | _, _, _, _, .uniqueDict hK hn h h' =>
    unique_rtu hK (.inr rfl) (.inr rfl) hn (fun _ _ h => h.1) fun x hx => field_choose (h x hx).rtu (h' x hx).rtu
  | _, _, vs, _, .dict (R := R) (Q := Q) h h' =>
    have ⟨t, ws, h1, h2⟩ := seqSer_rtu (K := seqColl _) (R := PairRel R Q) (c := vs) (.inr rfl) (.inr rfl)
      fun x hx => field_choose (h x hx).rtu (h' x hx).rtu
    ⟨t, ws, by rwa [seqFold ws] at h2, h1⟩
  | _, _, _, _, .map (κ := κ) (ν := ν) (lt := lt) (Q := Q) (vs := vs) ho hi h h' =>
    have ⟨t, ws, h1, h2⟩ := seqSer_rtu (K := mapColl κ ν lt) (R := PairRel Eq Q) (c := vs) (.inr rfl) (.inr rfl)
      fun x hx => field_choose (h x hx).rtu (h' x hx).rtu
    have hw := setFold_id (lt := fun a b : κ × ν => lt a.1 b.1) (fun a b => ho.asymm a.1 b.1) [] ws
      (increasing_keys (all2_map_key (fun _ _ h => h.1) h1) hi)
    ⟨t, ws, by
      have : ws.foldl (mapColl κ ν lt).insert (mapColl κ ν lt).clear = ws := hw
      rwa [this] at h2, h1⟩
  | _, _, _, _, .null => ⟨_, none, ⟨(C42_null _).1, ⟨_, _, rfl, by unfold WsByte; decide⟩, (C42_null _).2⟩, .null⟩
  | _, _, _, _, .pointer h h' =>
    have ⟨_, _, h1, h2⟩ := h.rtu
    ⟨_, _, pointer_rtu h1 (h' _ h1.writes.at_nil), .both h2⟩
  | _, _, _, _, .quoted (reqQ := reqQ) h h' =>
    have ⟨_, _, h1, h2⟩ := h.rtu
    ⟨_, _, quoted_rtu h1 (h' _ h1.writes.at_nil) reqQ, h2⟩
  | _, _, v, _, .object (strict := strict) (dflt := dflt) R h1 h2 h3 h =>
    have ⟨v', h4, h5⟩ := members_choose h1 (R := R) fun en hen => (h en hen).rtu
    have ⟨t, h6⟩ := object_rtu c strict dflt h1 h2 h3 v v' h4
    ⟨t, v', h6, h5⟩
  | _, _, v, _, .objectArray (dflt := dflt) R h1 h3 h =>
    have ⟨v', h4, h5⟩ := members_choose h1 (R := R) fun en hen => (h en hen).rtu
    have ⟨t, h6⟩ := objectArray_rtu dflt h1 h3 v v' h4
    ⟨t, v', h6, h5⟩
  | _, _, _, _, .objectIf (strict := strict) (dflt := dflt) R h1 h2 h3 h4 h h5 h6 =>
    have ⟨v', _, h7, h8⟩ := slots_choose h1 (R := R) (fun x hx => (h x hx).rtu) h5 h6
    have ⟨t, h9⟩ := objectIf_rtu c strict dflt h1 h2 h3 h4 h7
    ⟨t, v', h9, h8⟩
  | _, _, _, _, .objectArrayIf (dflt := dflt) R h1 h4 h h5 h6 =>
    have ⟨v', _, h7, h8⟩ := slots_choose h1 (R := R) (fun x hx => (h x hx).rtu) h5 h6
    have ⟨t, h9⟩ := objectArrayIf_rtu dflt h1 h4 h7
    ⟨t, v', h9, h8⟩

/-! ### The containers of the model -/

theorem multisetColl_bag {α : Type} (lt : α → α → Bool) : BagColl (multisetColl α lt) where
  clear := rfl
  insert := by
    intro c x hc
    clear hc
    show (multisetInsert lt c x).Perm (x :: c)
    induction c with
    | nil => exact .refl _
    | cons y l ih =>
      unfold multisetInsert
      split
      · exact .refl _
      · exact (ih.cons y).trans (.swap x y l)

theorem seqColl_bag {α : Type} : BagColl (seqColl α) where
  clear := rfl
  insert := fun c x _ => by
    show (c ++ [x]).Perm (x :: c)
    exact List.perm_append_comm.trans (by simp)

/-- What `Filled` means for an ordered set: the elements increase. -/
theorem setFilled {α κ : Type} {key : α → κ} {lt : κ → κ → Bool} (ho : StrictTotal lt) {c : List α}
    (h : Filled (setColl α fun a b => lt (key a) (key b)) c) : Increasing (fun a b => lt (key a) (key b)) c := by
  induction h with
  | empty => exact .nil
  | @insert c x _ ih =>
    show Increasing _ (setInsert _ c x)
    have : ∀ c : List α, Increasing (fun a b => lt (key a) (key b)) c →
        Increasing (fun a b => lt (key a) (key b)) (setInsert (fun a b => lt (key a) (key b)) c x) ∧
        ∀ y ∈ setInsert (fun a b => lt (key a) (key b)) c x, y = x ∨ y ∈ c := by
      intro c
      induction c with
      | nil => intro _; exact ⟨by simp [setInsert, Increasing], by simp [setInsert]⟩
      | cons y l ihl =>
        intro hi
        have hi' := List.pairwise_cons.mp hi
        obtain ⟨h1, h2⟩ := ihl hi'.2
        unfold setInsert
        split
        · rename_i hxy
          refine ⟨List.pairwise_cons.mpr ⟨fun z hz => ?_, hi⟩, fun z hz => by simpa using hz⟩
          rcases List.mem_cons.mp hz with rfl | hz
          · exact hxy
          · exact ho.trans hxy (hi'.1 z hz)
        · split
          · rename_i _ hyx
            refine ⟨List.pairwise_cons.mpr ⟨fun z hz => ?_, h1⟩, fun z hz => ?_⟩
            · rcases h2 z hz with rfl | hz
              · exact hyx
              · exact hi'.1 z hz
            · rcases List.mem_cons.mp hz with rfl | hz
              · simp
              · rcases h2 z hz with rfl | hz
                · simp
                · simp [hz]
          · exact ⟨hi, fun z hz => .inr hz⟩
    exact (this c ih).1

/-- Ordered sets and maps keep the first element of each key. -/
theorem setColl_unique {α κ : Type} {key : α → κ} {lt : κ → κ → Bool} (ho : StrictTotal lt) :
    UniqueColl key (setColl α fun a b => lt (key a) (key b)) where
  clear := rfl
  insert_new := by
    intro c x hc hx
    clear hc
    show (setInsert _ c x).Perm (x :: c)
    change ∀ y ∈ c, key y ≠ key x at hx
    induction c with
    | nil => exact .refl _
    | cons y l ih =>
      unfold setInsert
      split
      · exact .refl _
      · split
        · exact ((ih fun z hz => hx z (by simp [hz])).cons y).trans (.swap x y l)
        · rename_i h1 h2
          exact absurd (ho.total _ _ (by simpa using h2) (by simpa using h1)) (hx y (by simp))
  insert_old := by
    intro c x y hc hy hk
    show (setInsert _ c x).Perm c
    have hi := setFilled ho hc
    change y ∈ c at hy
    have : setInsert (fun a b => lt (key a) (key b)) c x = c := by
      clear hc
      induction c with
      | nil => cases hy
      | cons z l ih =>
        have hi' := List.pairwise_cons.mp hi
        unfold setInsert
        rcases List.mem_cons.mp hy with rfl | hy
        · simp [hk, ho.irrefl]
        · have hz : lt (key z) (key y) = true := hi'.1 y hy
          rw [hk] at hz
          have hz' : lt (key x) (key z) = false := ho.asymm _ _ hz
          simp [hz, hz', ih hi'.2 hy]
    rw [this]

end Wjson
