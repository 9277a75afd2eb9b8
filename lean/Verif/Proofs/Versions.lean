import Verif.Spec.Versions
import Verif.Proofs.Valid
/-
Reading with another version of the description.
-/
namespace Wjson
open Spec

/-- Written as `t`, and `t` is read into `v0` as `v'`. -/
structure Carries {α β : Type} (SW : Ser α) (SR : Ser β) (v : α) (v0 v' : β) (t : Bytes) : Prop where
  writes : WritesBack SW.emit v t
  start : Start t
  reads : ReadsAt SR.de v0 t v'

theorem writes_unique {α : Type} {em : Emit α} {v : α} {t u : Bytes} (h : WritesBack em v t) (hu : em v ⟨[], .back⟩ = .ok ⟨u, .back⟩) :
    t = u := by
  have := h.at_nil.symm.trans hu
  simpa using this

section
variable {σ τ : Type} {c : Cfg} {strict : Bool}

theorem Entry.readsAt {en : Entry τ} (hn : c%'"' ∉ en.ref.name) {v : Bytes} (hs : Start v) {x : en.ref.α} {t : τ}
    (hr : ReadsAt en.ref.ser.de (en.start t) v x) : MReadsAt en.toMember en.ref.name v t (en.ref.set x t) := by
  intro g1 g2 rest e u h1 h2 he hd
  cases en with
  | mem m =>
    simp only [Entry.toMember, member, Entry.ref, deMember, Entry.start] at hr hn ⊢
    rw [memberName_match hn h1 h2 hs]
    simp only [Bool.not_true, Bool.false_eq_true, if_false]
    rw [hr rest e he hd]
    rfl
  | prop m =>
    simp only [Entry.toMember, memberP, Entry.ref, deMemberP, Entry.start] at hr hn ⊢
    rw [memberName_match hn h1 h2 hs]
    simp only [Bool.not_true, Bool.false_eq_true, if_false]
    rw [hr rest e he hd]
    rfl

theorem Entry.areadsAt {en : Entry τ} {v : Bytes} {x : en.ref.α} {t : τ} (hr : ReadsAt en.ref.ser.de (en.start t) v x) :
    ReadsAt en.toAMember.de t v (en.ref.set x t) := by
  intro rest e he hd
  cases en with
  | mem m =>
    have := hr rest e he hd
    simp only [Entry.ref, Entry.start] at this
    simp only [Entry.toAMember, amember, this, Out.bind_ok]
    rfl
  | prop m =>
    have := hr rest e he hd
    simp only [Entry.ref, Entry.start] at this
    simp only [Entry.toAMember, amemberP, this, Out.bind_ok]
    rfl

theorem Entry.start_congr {en : Entry τ} {a b : τ} (h : en.ref.get a = en.ref.get b) : en.start a = en.start b := by
  cases en with
  | mem m => exact h
  | prop m => rfl

/-- What an item of the text is for the members `L`. -/
inductive Brought (L : List (Entry τ)) (v0 : τ) (val : (en : Entry τ) → en.ref.α) : Bytes × Bytes → Prop
  | known {en : Entry τ} {v : Bytes} : en ∈ L → ReadsAt en.ref.ser.de (en.start v0) v (val en) → Brought L v0 val (en.ref.name, v)
  | unknown {k v : Bytes} : k ∉ names L → XChars k → XValue v → Brought L v0 val (k, v)

/-- Distinct keys; the known ones are read, the unknown ones are skipped. -/
theorem chain_items {L : List (Entry τ)} (hg : GoodNames L) (hf : Fields (L.map Entry.ref)) (v0 : τ)
    (val : (en : Entry τ) → en.ref.α) : ∀ {items : List (Bytes × Bytes)}, (∀ y ∈ items, Brought L v0 val y) → (∀ x ∈ items, x.1 ∉ names L → strict = false) →
    (∀ x ∈ items, Start x.2) → (items.map Prod.fst).Nodup → ∀ (done l : List (Entry τ)),
    L = done ++ l → (∀ en ∈ done, en.ref.name ∉ items.map Prod.fst) → ∀ t,
    (∀ en ∈ L, en.ref.name ∈ items.map Prod.fst → en.ref.get t = en.ref.get v0) →
    ∃ t', Chain strict (L.map Entry.toMember) (l.map Entry.toMember) items t (some t') ∧
      (∀ en ∈ L, en.ref.name ∈ items.map Prod.fst → en.ref.get t' = val en) ∧
      (∀ en ∈ L, en.ref.name ∉ items.map Prod.fst → en.ref.get t' = en.ref.get t) ∧
      ∀ {β : Type} (g : τ → β), (∀ en ∈ L, ∀ y t, g (en.ref.set y t) = g t) → g t' = g t := by
  intro items
  induction items with
  | nil => intro _ _ _ _ done l _ _ t _; exact ⟨t, .done, by simp, by simp, fun _ _ => rfl⟩
  | cons y items ih =>
    intro h hst hs hnd done l hL hdone t ht
    obtain ⟨k, v⟩ := y
    simp only [List.map_cons, List.nodup_cons] at hnd
    have h' : ∀ y ∈ items, Brought L v0 val y := fun y hy => h y (by simp [hy])
    have hst' : ∀ x ∈ items, x.1 ∉ names L → strict = false := fun x hx => hst x (by simp [hx])
    have hs' : ∀ x ∈ items, Start x.2 := fun x hx => hs x (by simp [hx])
    have hdone' : ∀ en ∈ done, en.ref.name ∉ items.map Prod.fst := fun en hen hm => hdone en hen (by
      simp only [List.map_cons]; exact List.mem_cons_of_mem _ hm)
    have hsk0 : Start v := hs (k, v) (by simp)
    cases l with
    | nil =>
      have hunk : ∀ y ∈ (k, v) :: items, y.1 ∉ names L := by
        intro y hy hm
        obtain ⟨en, hen, heq⟩ := List.mem_map.mp hm
        rw [hL, List.append_nil] at hen
        exact hdone en hen (heq ▸ List.mem_map.mpr ⟨y, hy, rfl⟩)
      refine ⟨t, .past (hst _ (List.mem_cons_self ..) (hunk _ (List.mem_cons_self ..))) (by simp) ?_, ?_, fun _ _ _ => rfl, fun _ _ => rfl⟩
      · intro y hy
        obtain ⟨a, b⟩ := y
        have hn := hunk _ hy
        cases h _ hy with
        | known hen _ => exact absurd (names_mem hen) hn
        | unknown _ h1 h2 => exact ⟨h1, h2⟩
      · intro en hen hm
        obtain ⟨y, hy, heq⟩ := List.mem_map.mp hm
        exact absurd (heq ▸ names_mem hen) (hunk y hy)
    | cons en l =>
      have hen : en ∈ L := by rw [hL]; simp
      have hx := h (k, v) (by simp)
      cases hx with
      | @known en' _ hen' hr =>
        have hplain := (hg.plain _ (names_mem hen')).1
        have hget : en'.ref.get t = en'.ref.get v0 := ht en' hen' (by simp)
        have hreads : MReadsAt en'.toMember en'.ref.name v t (en'.ref.set (val en') t) :=
          Entry.readsAt hplain hsk0 (by rw [Entry.start_congr hget]; exact hr)
        have hskips : ∀ {a : Entry τ}, a ∈ L → a.ref.name ≠ en'.ref.name → MSkips a.toMember en'.ref.name := fun _ hne =>
          Entry.skips (keyDiffers_of_noquote hplain fun h => hne h.symm)
        have hother : ∀ a ∈ L, a.ref.name ≠ en'.ref.name → a.ref.get (en'.ref.set (val en') t) = a.ref.get t :=
          fun a ha hne => (hf.of_ne ha hen' fun h => hne (h ▸ rfl)).1 _ _
        have ht' : ∀ a ∈ L, a.ref.name ∈ items.map Prod.fst → a.ref.get (en'.ref.set (val en') t) = a.ref.get v0 := by
          intro a ha hm
          rw [hother a ha fun heq => hnd.1 (heq ▸ hm), ht a ha (by simp only [List.map_cons]; exact List.mem_cons_of_mem _ hm)]
        have hfin : ∀ t', (∀ a ∈ L, a.ref.name ∈ items.map Prod.fst → a.ref.get t' = val a) →
            (∀ a ∈ L, a.ref.name ∉ items.map Prod.fst → a.ref.get t' = a.ref.get (en'.ref.set (val en') t)) →
            (∀ {β : Type} (g : τ → β), (∀ en ∈ L, ∀ y t, g (en.ref.set y t) = g t) → g t' = g (en'.ref.set (val en') t)) →
            (∀ a ∈ L, a.ref.name ∈ ((en'.ref.name, v) :: items).map Prod.fst → a.ref.get t' = val a) ∧
            (∀ a ∈ L, a.ref.name ∉ ((en'.ref.name, v) :: items).map Prod.fst → a.ref.get t' = a.ref.get t) ∧
            (∀ {β : Type} (g : τ → β), (∀ en ∈ L, ∀ y t, g (en.ref.set y t) = g t) → g t' = g t) := by
          intro t' h1 h2 h3
          refine ⟨fun a ha hm => ?_, fun a ha hm => ?_, fun g hg => by rw [h3 g hg, hg _ hen']⟩
          · simp only [List.map_cons, List.mem_cons] at hm
            rcases hm with hm | hm
            · have := name_unique hg ha hen' hm
              subst this
              rw [h2 _ ha hnd.1, hf.get_set _ (List.mem_map.mpr ⟨_, ha, rfl⟩)]
            · exact h1 a ha hm
          · simp only [List.map_cons, List.mem_cons, not_or] at hm
            rw [h2 a ha hm.2, hother a ha hm.1]
        by_cases hk : en.ref.name = en'.ref.name
        · have := name_unique hg hen hen' hk
          subst this
          obtain ⟨t', h1, h2, h3, h4⟩ := ih h' hst' hs' hnd.2 (done ++ [en]) l (by rw [hL]; simp) (by
            intro a ha
            rcases List.mem_append.mp ha with ha | ha
            · exact hdone' a ha
            · simp only [List.mem_cons, List.not_mem_nil, or_false] at ha
              subst ha
              exact hnd.1) _ ht'
          exact ⟨t', .cur hreads h1, hfin t' h2 h3 h4⟩
        · obtain ⟨t', h1, h2, h3, h4⟩ := ih h' hst' hs' hnd.2 done (en :: l) hL hdone' _ ht'
          obtain ⟨pre, post, hL2, hpre⟩ := split_at hg hen'
          refine ⟨t', .search (pre := pre.map Entry.toMember) (m' := en'.toMember) (post := post.map Entry.toMember)
            (hskips hen hk) (by rw [hL2]; simp) ?_ hreads h1, hfin t' h2 h3 h4⟩
          intro y hy
          obtain ⟨a, ha, rfl⟩ := List.mem_map.mp hy
          exact hskips (by rw [hL2]; simp [ha]) (hpre a ha)
      | unknown hk hx1 hx2 =>
        have hall : ∀ a ∈ L, MSkips a.toMember k := fun a ha =>
          Entry.skips (keyDiffers_of_plain (hg.plain _ (names_mem ha)) hx1 fun h => hk (h ▸ names_mem ha))
        obtain ⟨t', h1, h2, h3, h4⟩ := ih h' hst' hs' hnd.2 done (en :: l) hL hdone' t
          (fun a ha hm => ht a ha (by simp only [List.map_cons]; exact List.mem_cons_of_mem _ hm))
        refine ⟨t', .unknown (hst _ (List.mem_cons_self ..) hk) (hall en hen) ?_ ⟨hx1, hx2⟩ h1, ?_, ?_, h4⟩
        · intro y hy
          obtain ⟨a, ha, rfl⟩ := List.mem_map.mp hy
          exact hall a ha
        · intro a ha hm
          simp only [List.map_cons, List.mem_cons] at hm
          rcases hm with hm | hm
          · exact absurd (hm ▸ names_mem ha) hk
          · exact h2 a ha hm
        · intro a ha hm
          simp only [List.map_cons, List.mem_cons, not_or] at hm
          exact h3 a ha hm.2

/-- The items of the writer. -/
theorem items_choose {LW : List (Entry σ)} {LR : List (Entry τ)} {v : σ} {v0 : τ} {val : (en : Entry τ) → en.ref.α}
    (hsh : ∀ w ∈ LW, ∀ r ∈ LR, w.ref.name = r.ref.name →
      ∃ t, Carries w.ref.ser r.ref.ser (w.ref.get v) (r.start v0) (val r) t)
    (hwo : ∀ w ∈ LW, w.ref.name ∉ names LR → RChars w.ref.name ∧ ∃ t, WritesBack w.ref.ser.emit (w.ref.get v) t ∧ XValue t) :
    ∃ ts, All2 (fun (w : Entry σ) t => WritesBack w.ref.ser.emit (w.ref.get v) t ∧ Start t ∧ Brought LR v0 val (w.ref.name, t)) LW ts := by
  refine all2_choose' fun w hw => ?_
  by_cases h : w.ref.name ∈ names LR
  · obtain ⟨r, hr, heq⟩ := List.mem_map.mp h
    obtain ⟨t, h1, h2, h3⟩ := hsh w hw r hr heq.symm
    exact ⟨t, h1, h2, heq ▸ .known hr h3⟩
  · obtain ⟨h1, t, h2, h3⟩ := hwo w hw h
    obtain ⟨b, u, rfl, hb⟩ := xvalue_head h3
    exact ⟨_, h2, Start.of_byte hb, .unknown h (RChars.x h1) h3⟩

theorem items_facts {LW : List (Entry σ)} {P : Bytes × Bytes → Prop} {v : σ} {ts : List Bytes}
    (h : All2 (fun (w : Entry σ) t => WritesBack w.ref.ser.emit (w.ref.get v) t ∧ Start t ∧ P (w.ref.name, t)) LW ts) :
    All2 (fun m s => WritesBack m.emit v s) (LW.map Entry.toMember) (((names LW).zip ts).map fun x => quoted x.1 ++ c%':' :: x.2) ∧
    (∀ x ∈ (names LW).zip ts, Start x.2) ∧ (∀ x ∈ (names LW).zip ts, P x) ∧ ((names LW).zip ts).map Prod.fst = names LW := by
  induction h with
  | nil => exact ⟨.nil, by simp [names], by simp [names], rfl⟩
  | @cons w t LW ts h1 _ ih =>
    obtain ⟨i1, i2, i3, i4⟩ := ih
    refine ⟨.cons ?_ i1, ?_, ?_, ?_⟩
    · cases w with
      | mem m => exact emitMember_back h1.1
      | prop m => exact emitMember_back h1.1
    · intro x hx
      rcases List.mem_cons.mp hx with rfl | hx
      · exact h1.2.1
      · exact i2 x hx
    · intro x hx
      rcases List.mem_cons.mp hx with rfl | hx
      · exact h1.2.2
      · exact i3 x hx
    · show _ :: ((names LW).zip ts).map Prod.fst = _ :: names LW
      rw [i4]

theorem object_members (c : Cfg) (sw sr : Bool) (d : σ) (d' : τ) {LW : List (Entry σ)} {LR : List (Entry τ)} {v : σ} {v0 : τ}
    {val : (en : Entry τ) → en.ref.α} (hnd : (names LW).Nodup) (hg : GoodNames LR) (hf : Fields (LR.map Entry.ref))
    (hsh : ∀ w ∈ LW, ∀ r ∈ LR, w.ref.name = r.ref.name →
      ∃ t, Carries w.ref.ser r.ref.ser (w.ref.get v) (r.start v0) (val r) t)
    (hwo : ∀ w ∈ LW, w.ref.name ∉ names LR →
      sr = false ∧ RChars w.ref.name ∧ ∃ t, WritesBack w.ref.ser.emit (w.ref.get v) t ∧ XValue t) :
    ∃ t v', Carries (objectSer c sw d (LW.map Entry.toMember)) (objectSer c sr d' (LR.map Entry.toMember)) v v0 v' t ∧
      (∀ r ∈ LR, r.ref.name ∈ names LW → r.ref.get v' = val r) ∧ (∀ r ∈ LR, r.ref.name ∉ names LW → r.ref.get v' = r.ref.get v0) ∧
      ∀ {β : Type} (g : τ → β), (∀ r ∈ LR, ∀ y t, g (r.ref.set y t) = g t) → g v' = g v0 := by
  obtain ⟨ts, h⟩ := items_choose (val := val) hsh fun w hw hn => (hwo w hw hn).2
  obtain ⟨h1, h2, h3, h4⟩ := items_facts h
  have hk : ∀ x ∈ (names LW).zip ts, x.1 ∉ names LR → sr = false := by
    intro x hx hn
    obtain ⟨w, hw, heq⟩ := List.mem_map.mp (List.of_mem_zip hx).1
    exact (hwo w hw (heq ▸ hn)).1
  obtain ⟨t', hc, hr1, hr2, hr3⟩ := chain_items (strict := sr) hg hf v0 val h3 hk h2 (by rw [h4]; exact hnd) [] LR rfl (by simp) v0
    (fun _ _ _ => rfl)
  rw [h4] at hr1 hr2
  refine ⟨_, t', ⟨emitObject_back h1, ⟨c%'{', _, rfl, by decide⟩, fun rest e he _ => ?_⟩, hr1, hr2, hr3⟩
  exact (deObject_items (c := c) (dflt := d') (objText_of_join h2) hc rest he).1 _ rfl

theorem object_carries (c : Cfg) (sw sr : Bool) (d : σ) (d' : τ) {LW : List (Entry σ)} {LR : List (Entry τ)} {v : σ} {v0 v' : τ}
    (hnd : (names LW).Nodup) (hg : GoodNames LR) (hf : Fields (LR.map Entry.ref))
    (hall : ∀ a b, (∀ r ∈ LR, r.ref.get a = r.ref.get b) → a = b)
    (hsh : ∀ w ∈ LW, ∀ r ∈ LR, w.ref.name = r.ref.name →
      ∃ t, Carries w.ref.ser r.ref.ser (w.ref.get v) (r.start v0) (r.ref.get v') t)
    (hro : ∀ r ∈ LR, r.ref.name ∉ names LW → r.ref.get v' = r.ref.get v0)
    (hwo : ∀ w ∈ LW, w.ref.name ∉ names LR →
      sr = false ∧ RChars w.ref.name ∧ ∃ t, WritesBack w.ref.ser.emit (w.ref.get v) t ∧ XValue t) :
    ∃ t, Carries (objectSer c sw d (LW.map Entry.toMember)) (objectSer c sr d' (LR.map Entry.toMember)) v v0 v' t := by
  obtain ⟨t, t', h1, h2, h3, _⟩ := object_members c sw sr d d' (val := fun r => r.ref.get v') hnd hg hf hsh hwo
  have ht' : t' = v' := by
    refine hall _ _ fun r hr => ?_
    by_cases hn : r.ref.name ∈ names LW
    · exact h2 r hr hn
    · rw [h3 r hr hn, hro r hr hn]
  subst ht'
  exact ⟨t, h1⟩

/-- The same keys, but the reader is strict and does not know one of them. -/
theorem chain_items_strict {L : List (Entry τ)} (hg : GoodNames L) (hf : Fields (L.map Entry.ref)) (v0 : τ)
    (val : (en : Entry τ) → en.ref.α) : ∀ {items : List (Bytes × Bytes)}, (∀ y ∈ items, Brought L v0 val y) →
    (∃ x ∈ items, x.1 ∉ names L) → (∀ x ∈ items, Skippable x) → (∀ x ∈ items, Start x.2) → (items.map Prod.fst).Nodup →
    ∀ (l : List (Entry τ)), (∀ en ∈ l, en ∈ L) → ∀ t,
    (∀ en ∈ L, en.ref.name ∈ items.map Prod.fst → en.ref.get t = en.ref.get v0) →
    Chain true (L.map Entry.toMember) (l.map Entry.toMember) items t none := by
  intro items
  induction items with
  | nil => rintro _ ⟨x, hx, _⟩; cases hx
  | cons y items ih =>
    intro h hu hsk hs hnd l hl t ht
    obtain ⟨k, v⟩ := y
    simp only [List.map_cons, List.nodup_cons] at hnd
    cases l with
    | nil => exact .pastStrict rfl (by simp) hsk
    | cons en l =>
      have hen : en ∈ L := hl en (by simp)
      have hx := h (k, v) (by simp)
      cases hx with
      | @known en' _ hen' hr =>
        have hplain := (hg.plain _ (names_mem hen')).1
        have hget : en'.ref.get t = en'.ref.get v0 := ht en' hen' (by simp)
        have hreads : MReadsAt en'.toMember en'.ref.name v t (en'.ref.set (val en') t) :=
          Entry.readsAt hplain (hs (_, v) (List.mem_cons_self ..)) (by rw [Entry.start_congr hget]; exact hr)
        have hskips : ∀ {a : Entry τ}, a ∈ L → a.ref.name ≠ en'.ref.name → MSkips a.toMember en'.ref.name := fun _ hne =>
          Entry.skips (keyDiffers_of_noquote hplain fun h => hne h.symm)
        have hother : ∀ a ∈ L, a.ref.name ≠ en'.ref.name → a.ref.get (en'.ref.set (val en') t) = a.ref.get t :=
          fun a ha hne => (hf.of_ne ha hen' fun h => hne (h ▸ rfl)).1 _ _
        have ht' : ∀ a ∈ L, a.ref.name ∈ items.map Prod.fst → a.ref.get (en'.ref.set (val en') t) = a.ref.get v0 := by
          intro a ha hm
          rw [hother a ha fun heq => hnd.1 (heq ▸ hm), ht a ha (by simp only [List.map_cons]; exact List.mem_cons_of_mem _ hm)]
        have hu' : ∃ x ∈ items, x.1 ∉ names L := by
          obtain ⟨x, hx, hn⟩ := hu
          rcases List.mem_cons.mp hx with rfl | hx
          · exact absurd (names_mem hen') hn
          · exact ⟨x, hx, hn⟩
        have ih' := fun l' hl' => ih (fun y hy => h y (by simp [hy])) hu' (fun y hy => hsk y (by simp [hy]))
          (fun y hy => hs y (by simp [hy])) hnd.2 l' hl' _ ht'
        by_cases hk : en.ref.name = en'.ref.name
        · have := name_unique hg hen hen' hk
          subst this
          exact .cur hreads (ih' l fun a ha => hl a (by simp [ha]))
        · obtain ⟨pre, post, hL2, hpre⟩ := split_at hg hen'
          refine .search (pre := pre.map Entry.toMember) (m' := en'.toMember) (post := post.map Entry.toMember)
            (hskips hen hk) (by rw [hL2]; simp) ?_ hreads (ih' (en :: l) hl)
          intro y hy
          obtain ⟨a, ha, rfl⟩ := List.mem_map.mp hy
          exact hskips (by rw [hL2]; simp [ha]) (hpre a ha)
      | unknown hk hx1 hx2 =>
        have hall : ∀ a ∈ L, MSkips a.toMember k := fun a ha =>
          Entry.skips (keyDiffers_of_plain (hg.plain _ (names_mem ha)) hx1 fun h => hk (h ▸ names_mem ha))
        refine .unknownStrict rfl (hall en hen) ?_
        intro y hy
        obtain ⟨a, ha, rfl⟩ := List.mem_map.mp hy
        exact hall a ha

theorem object_rejects (c : Cfg) (sw : Bool) (d : σ) (d' : τ) {LW : List (Entry σ)} {LR : List (Entry τ)} {v : σ} {v0 : τ}
    {val : (en : Entry τ) → en.ref.α} (hnd : (names LW).Nodup) (hg : GoodNames LR) (hf : Fields (LR.map Entry.ref))
    (hsh : ∀ w ∈ LW, ∀ r ∈ LR, w.ref.name = r.ref.name →
      ∃ t, Carries w.ref.ser r.ref.ser (w.ref.get v) (r.start v0) (val r) t)
    (hj : ∀ w ∈ LW, RChars w.ref.name ∧ ∃ t, WritesBack w.ref.ser.emit (w.ref.get v) t ∧ XValue t)
    (hu : ∃ w ∈ LW, w.ref.name ∉ names LR) :
    ∃ t, WritesBack (objectSer c sw d (LW.map Entry.toMember)).emit v t ∧ ∀ rest e, e.Clean → ∃ v' p e',
      (objectSer c true d' (LR.map Entry.toMember)).de v0 (t ++ rest) e = .ok (v', p, e') ∧ e'.failed = true := by
  obtain ⟨ts, h⟩ := items_choose (val := val) hsh fun w hw _ => hj w hw
  have h' : All2 (fun (w : Entry σ) t => WritesBack w.ref.ser.emit (w.ref.get v) t ∧ Start t ∧
      (Brought LR v0 val (w.ref.name, t) ∧ Skippable (w.ref.name, t))) LW ts := by
    have : ∀ {L : List (Entry σ)} {ts : List Bytes}, (∀ w ∈ L, w ∈ LW) →
        All2 (fun (w : Entry σ) t => WritesBack w.ref.ser.emit (w.ref.get v) t ∧ Start t ∧ Brought LR v0 val (w.ref.name, t)) L ts →
        All2 (fun (w : Entry σ) t => WritesBack w.ref.ser.emit (w.ref.get v) t ∧ Start t ∧
          (Brought LR v0 val (w.ref.name, t) ∧ Skippable (w.ref.name, t))) L ts := by
      intro L ts hL h
      induction h with
      | nil => exact .nil
      | @cons w t L ts h1 _ ih =>
        refine .cons ⟨h1.1, h1.2.1, h1.2.2, ?_⟩ (ih fun w hw => hL w (by simp [hw]))
        obtain ⟨h2, t', h3, h4⟩ := hj w (hL w (by simp))
        have := writes_unique h3 h1.1.at_nil
        subst this
        exact ⟨RChars.x h2, h4⟩
    exact this (fun _ h => h) h
  obtain ⟨h1, h2, h3, h4⟩ := items_facts (P := fun x => Brought LR v0 val x ∧ Skippable x) h'
  refine ⟨_, emitObject_back h1, fun rest e he => ?_⟩
  have hu' : ∃ x ∈ (names LW).zip ts, x.1 ∉ names LR := by
    obtain ⟨w, hw, hn⟩ := hu
    have : w.ref.name ∈ ((names LW).zip ts).map Prod.fst := by rw [h4]; exact names_mem hw
    obtain ⟨x, hx, heq⟩ := List.mem_map.mp this
    exact ⟨x, hx, heq ▸ hn⟩
  have hc := chain_items_strict hg hf v0 val (fun x hx => (h3 x hx).1) hu' (fun x hx => (h3 x hx).2) h2 (by rw [h4]; exact hnd) LR
    (fun _ h => h) v0 (fun _ _ _ => rfl)
  exact (deObject_items (c := c) (dflt := d') (objText_of_join h2) hc rest he.not_failed).2 rfl he

theorem items1_ids {ts : List Bytes} (hne : ts ≠ []) (hst : ∀ t ∈ ts, Start t) :
    Items1 (fun v t => v = t) c%']' ts (joinComma ts ++ b!"]") := by
  induction ts with
  | nil => exact absurd rfl hne
  | cons t ts ih =>
    cases ts with
    | nil =>
      have := Items1.last (item := fun v t => v = t) (R := c%']') (g1 := []) (g2 := []) .nil (hst t (by simp)) rfl .nil
      simpa [joinComma] using this
    | cons u ts =>
      have := Items1.more (item := fun v t => v = t) (R := c%']') (g1 := []) (g2 := []) .nil (hst t (by simp)) rfl .nil
        (ih (by simp) fun x hx => hst x (by simp [hx]))
      simpa [joinComma] using this

theorem Fields.tail {a : Entry τ} {l : List (Entry τ)} (hf : Fields ((a :: l).map Entry.ref)) : Fields (l.map Entry.ref) :=
  ⟨fun m hm => hf.get_set m (by simp only [List.map_cons]; exact List.mem_cons_of_mem _ hm),
    fun m hm => hf.set_set m (by simp only [List.map_cons]; exact List.mem_cons_of_mem _ hm),
    by have := hf.apart; rw [List.map_cons, List.pairwise_cons] at this; exact this.2⟩

theorem Fields.head_apart {a : Entry τ} {l : List (Entry τ)} (hf : Fields ((a :: l).map Entry.ref)) {b : Entry τ} (hb : b ∈ l) :
    (∀ x t, a.ref.get (b.ref.set x t) = a.ref.get t) ∧ (∀ x t, b.ref.get (a.ref.set x t) = b.ref.get t) := by
  have := hf.apart
  rw [List.map_cons, List.pairwise_cons] at this
  have := this.1 _ (List.mem_map.mpr ⟨b, hb, rfl⟩)
  exact ⟨this.1, this.2.1⟩

/-- Texts of the writer's members, and what the leading members of the reader make of them. -/
theorem achain_items {v : σ} {v0 v' : τ} : ∀ {LW : List (Entry σ)} {LR : List (Entry τ)}, Fields (LR.map Entry.ref) →
    (hl : LW.length ≤ LR.length) →
    (∀ i, (h : i < LW.length) → ∃ t, Carries LW[i].ref.ser (LR[i]'(Nat.lt_of_lt_of_le h hl)).ref.ser (LW[i].ref.get v)
      ((LR[i]'(Nat.lt_of_lt_of_le h hl)).start v0) ((LR[i]'(Nat.lt_of_lt_of_le h hl)).ref.get v') t) →
    ∃ ts, All2 (fun m s => WritesBack m.emit v s) (LW.map Entry.toAMember) ts ∧ (∀ t ∈ ts, Start t) ∧
      ∀ x, (∀ r ∈ LR, r.ref.get x = r.ref.get v0) → ∃ x',
        AChain ((LR.take LW.length).map Entry.toAMember) ts x x' ∧ (∀ r ∈ LR.take LW.length, r.ref.get x' = r.ref.get v') ∧
        (∀ r ∈ LR.drop LW.length, r.ref.get x' = r.ref.get x) ∧
        ∀ {β : Type} (g : τ → β), (∀ r ∈ LR, ∀ y t, g (r.ref.set y t) = g t) → g x' = g x := by
  intro LW
  induction LW with
  | nil =>
    intro LR _ _ _
    exact ⟨[], .nil, by simp, fun x _ => ⟨x, .nil, by simp, fun _ _ => rfl, fun _ _ => rfl⟩⟩
  | cons w LW ih =>
    intro LR hf hl h
    cases LR with
    | nil => simp at hl
    | cons r LR =>
      obtain ⟨t, h1, h2, h3⟩ := h 0 (by simp)
      simp only [List.getElem_cons_zero] at h1 h3
      have hl' : LW.length ≤ LR.length := by simpa using hl
      obtain ⟨ts, i1, i2, i3⟩ := ih (Fields.tail hf) hl' (fun i hi => by
        have := h (i + 1) (by simpa using hi)
        simpa using this)
      refine ⟨t :: ts, .cons ?_ i1, ?_, ?_⟩
      · cases w with
        | mem m => exact h1
        | prop m => exact h1
      · intro x hx
        rcases List.mem_cons.mp hx with rfl | hx
        · exact h2
        · exact i2 x hx
      · intro x hx
        have hap := fun b hb => Fields.head_apart hf (b := b) hb
        obtain ⟨x', j1, j2, j3, j4⟩ := i3 (r.ref.set (r.ref.get v') x) fun b hb => by
          rw [(hap b hb).2, hx b (by simp [hb])]
        refine ⟨x', .cons (Entry.areadsAt (by rw [Entry.start_congr (hx r (by simp))]; exact h3)) j1, ?_, ?_, ?_⟩
        · intro b hb
          rcases List.mem_cons.mp hb with rfl | hb
          · rw [j4 b.ref.get fun a ha => (hap a ha).1, hf.get_set _ (by simp)]
          · exact j2 b hb
        · intro b hb
          have hb' : b ∈ LR.drop LW.length := by simpa using hb
          rw [j3 b hb', (hap b (List.mem_of_mem_drop hb')).2]
        · intro β g hg
          rw [j4 g fun a ha => hg a (by simp [ha]), hg r (by simp)]

theorem objectArray_carries (d : σ) (d' : τ) {LW : List (Entry σ)} {LR : List (Entry τ)} {v : σ} {v0 v' : τ}
    (hf : Fields (LR.map Entry.ref)) (hall : ∀ a b, (∀ r ∈ LR, r.ref.get a = r.ref.get b) → a = b) (hl : LW.length ≤ LR.length)
    (h : ∀ i, (h : i < LW.length) → ∃ t, Carries LW[i].ref.ser (LR[i]'(Nat.lt_of_lt_of_le h hl)).ref.ser (LW[i].ref.get v)
      ((LR[i]'(Nat.lt_of_lt_of_le h hl)).start v0) ((LR[i]'(Nat.lt_of_lt_of_le h hl)).ref.get v') t)
    (hro : ∀ r ∈ LR.drop LW.length, r.ref.get v' = r.ref.get v0) :
    ∃ t, Carries (objectArraySer d (LW.map Entry.toAMember)) (objectArraySer d' (LR.map Entry.toAMember)) v v0 v' t := by
  obtain ⟨ts, h1, h2, h3⟩ := achain_items hf hl h
  obtain ⟨x', h4, h5, h6, _⟩ := h3 v0 fun _ _ => rfl
  have hx : x' = v' := by
    refine hall _ _ fun r hr => ?_
    rw [← List.take_append_drop LW.length LR] at hr
    rcases List.mem_append.mp hr with hr | hr
    · exact h5 r hr
    · rw [h6 r hr, hro r hr]
  subst hx
  refine ⟨_, emitObjectArray_back h1, ⟨c%'[', _, rfl, by decide⟩, ?_⟩
  by_cases hne : ts = []
  · subst hne
    have hv : x' = v0 := by
      generalize hq : (LR.take LW.length).map Entry.toAMember = q at h4
      cases h4
      rfl
    rw [hv]
    exact deObjectArray_empty d' v0 (g := []) .nil
  · have := deObjectArray_chain h4 (items1_ids hne h2) ((LR.drop LW.length).map Entry.toAMember) d'
    rw [← List.map_append, List.take_append_drop] at this
    exact this

/-! ### Alternatives -/

theorem deMember_readsAt {m : MRef τ} {k : Bytes} (hk : m.name = k) (hn : c%'"' ∉ k) {v : Bytes} (hs : Start v) {x : m.α} {t : τ}
    (hr : ReadsAt m.ser.de (m.get t) v x) {g1 g2 rest : Bytes} {e : EPtr} (u : Bool) (h1 : Gap g1) (h2 : Gap g2)
    (he : e.failed = false) (hd : Delim rest) :
    deMember m t (quoted k ++ (g1 ++ c%':' :: (g2 ++ (v ++ rest)))) e u = .ok (m.set x t, rest, e, true) := by
  subst hk
  exact Entry.readsAt (en := .mem m) hn hs hr g1 g2 rest e u h1 h2 he hd

theorem deMemberIf_firstAt {a b : MRef τ} {k : Bytes} (hk : a.name = k) (hn : c%'"' ∉ k) {v : Bytes} (hs : Start v) {x : a.α} {t : τ}
    (hr : ReadsAt a.ser.de (a.get t) v x) {d : b.α} (hd : Reads b.ser.de b!"null" d) (em : τ → Sink → Out Sink) :
    MReadsAt ⟨em, deMemberIf a b⟩ k v t (b.set d (a.set x t)) := by
  intro g1 g2 rest e u h1 h2 he hdel
  simp only [deMemberIf]
  rw [deMember_readsAt hk hn hs hr u h1 h2 rfl hdel, Out.bind_ok]
  have : EPtr.fresh.failed = false := rfl
  simp only [this, Bool.not_false, if_true, readNull_eq hd, Out.bind_ok]

theorem deMemberIf_secondAt {a b : MRef τ} {k : Bytes} (ha : a.name = k) (hb : b.name = k) (hn : c%'"' ∉ k) {v : Bytes} (hs : Start v)
    {x : b.α} {t : τ} (hrej : Rejects a.ser.de v) (hr : ReadsAt b.ser.de (b.get t) v x) {d : a.α} (hd : Reads a.ser.de b!"null" d)
    (hss : ∀ x y t, a.set x (a.set y t) = a.set x t) (hgs : ∀ x t, b.get (a.set x t) = b.get t) (em : τ → Sink → Out Sink) :
    MReadsAt ⟨em, deMemberIf a b⟩ k v t (b.set x (a.set d t)) := by
  intro g1 g2 rest e u h1 h2 he hdel
  simp only [deMemberIf]
  obtain ⟨v1, p, e', h3, h4⟩ := hrej (a.get t) rest hdel
  have hfirst : deMember a t (quoted k ++ (g1 ++ c%':' :: (g2 ++ (v ++ rest)))) .fresh u = .ok (a.set v1 t, p, e', true) := by
    rw [← ha]
    unfold deMember
    rw [memberName_match (ha ▸ hn) h1 h2 hs]
    simp only [Bool.not_true, Bool.false_eq_true, if_false]
    rw [h3]
    rfl
  rw [hfirst, Out.bind_ok]
  simp only [h4, Bool.not_true, Bool.false_eq_true, if_false, readNull_eq hd, Out.bind_ok, hss]
  exact deMember_readsAt hb hn hs (by rw [hgs]; exact hr) true h1 h2 he hdel

theorem deAMemberIf_firstAt {a b : MRef τ} {v : Bytes} {x : a.α} {t : τ} (hr : ReadsAt a.ser.de (a.get t) v x) {d : b.α}
    (hd : Reads b.ser.de b!"null" d) : ReadsAt (deAMemberIf a b) t v (b.set d (a.set x t)) := by
  intro rest e he hdel
  have h1 := Entry.areadsAt (en := .mem a) hr rest .fresh rfl hdel
  simp only [Entry.toAMember] at h1
  simp only [deAMemberIf]
  rw [h1, Out.bind_ok]
  have : EPtr.fresh.failed = false := rfl
  simp only [this, Bool.not_false, if_true, readNull_eq hd, Out.bind_ok]
  rfl

theorem deAMemberIf_secondAt {a b : MRef τ} {v : Bytes} {x : b.α} {t : τ} (hrej : Rejects a.ser.de v)
    (hr : ReadsAt b.ser.de (b.get t) v x) {d : a.α} (hd : Reads a.ser.de b!"null" d)
    (hss : ∀ x y t, a.set x (a.set y t) = a.set x t) (hgs : ∀ x t, b.get (a.set x t) = b.get t) :
    ReadsAt (deAMemberIf a b) t v (b.set x (a.set d t)) := by
  intro rest e he hdel
  obtain ⟨v1, p, e', h3, h4⟩ := hrej (a.get t) rest hdel
  have hfirst : (amember a).de t (v ++ rest) .fresh = .ok (a.set v1 t, p, e') := by
    simp only [amember, h3, Out.bind_ok]
  simp only [deAMemberIf]
  rw [hfirst, Out.bind_ok]
  simp only [h4, Bool.not_true, Bool.false_eq_true, if_false, readNull_eq hd, Out.bind_ok, hss]
  refine Entry.areadsAt (en := .mem b) ?_ rest e he hdel
  show ReadsAt b.ser.de (b.get (a.set d t)) v x
  rw [hgs]
  exact hr

/-- The text `t` of a place of the writer, and what it is for the place `x` of the reader. -/
structure SlotCarries (v : σ) (v0 v' : τ) (w : Slot σ) (x : Slot τ × Bool) (t : Bytes) : Prop where
  writes : WritesBack (w.live v).ser.emit ((w.live v).get v) t
  start : Start t
  reads : ReadsAt (x.1.part x.2).ser.de (x.1.start x.2 v0) t ((x.1.part x.2).get v')
  other : ∀ o, x.1.other x.2 = some o → Reads o.ser.de b!"null" (o.get v') ∧ (x.1.otherFirst x.2 → Rejects o.ser.de t)

theorem Slot.start_congr {x : Slot τ} {b : Bool} {s t : τ} (h : ∀ m ∈ x.refs, m.get s = m.get t) : x.start b s = x.start b t := by
  cases x with
  | one en => exact Entry.start_congr (h _ (List.mem_singleton.mpr rfl))
  | alt l r d RU => cases b <;> exact h _ (by simp [Slot.refs, Slot.part])

theorem Slot.readsAt {x : Slot τ} {b : Bool} {s k : Bytes} {t v' : τ} (hf : Fields x.refs) (hk : ∀ m ∈ x.refs, m.name = k)
    (hn : c%'"' ∉ k) (hs : Start s) (hr : ReadsAt (x.part b).ser.de (x.start b t) s ((x.part b).get v'))
    (ho : ∀ o, x.other b = some o → Reads o.ser.de b!"null" (o.get v') ∧ (x.otherFirst b → Rejects o.ser.de s)) :
    MReadsAt x.toMember k s t (setRefs v' x.refs t) := by
  cases x with
  | one en =>
    have hk := hk _ (List.mem_singleton.mpr rfl)
    subst hk
    exact Entry.readsAt hn hs hr
  | alt l r d RU =>
    have hl : l.name = k := hk l (by simp [Slot.refs])
    have hr' : r.name = k := hk r (by simp [Slot.refs])
    have hap := hf.other (pre := []) (a := l) (post := [r]) rfl (b := r) (by simp)
    have hcomm : l.set (l.get v') (r.set (r.get v') t) = setRefs v' (Slot.alt l r d RU).refs t := hap.2.2 _ _ t
    cases b with
    | false =>
      have ho := ho r rfl
      cases RU with
      | false => exact deMemberIf_firstAt hl hn hs hr ho.1 _
      | true =>
        rw [← hcomm]
        exact deMemberIf_secondAt hr' hl hn hs (ho.2 (by simp [Slot.otherFirst])) hr ho.1 (hf.set_set r (by simp [Slot.refs])) hap.1 _
    | true =>
      have ho := ho l rfl
      cases RU with
      | false =>
        exact deMemberIf_secondAt hl hr' hn hs (ho.2 (by simp [Slot.otherFirst])) hr ho.1 (hf.set_set l (by simp [Slot.refs])) hap.2.1 _
      | true =>
        rw [← hcomm]
        exact deMemberIf_firstAt hr' hn hs hr ho.1 _

theorem Slot.areadsAt {x : Slot τ} {b : Bool} {s : Bytes} {t v' : τ} (hf : Fields x.refs)
    (hr : ReadsAt (x.part b).ser.de (x.start b t) s ((x.part b).get v'))
    (ho : ∀ o, x.other b = some o → Reads o.ser.de b!"null" (o.get v') ∧ (x.otherFirst b → Rejects o.ser.de s)) :
    ReadsAt x.toAMember.de t s (setRefs v' x.refs t) := by
  cases x with
  | one en => exact Entry.areadsAt hr
  | alt l r d RU =>
    have hap := hf.other (pre := []) (a := l) (post := [r]) rfl (b := r) (by simp)
    have hcomm : l.set (l.get v') (r.set (r.get v') t) = setRefs v' (Slot.alt l r d RU).refs t := hap.2.2 _ _ t
    cases b with
    | false =>
      have ho := ho r rfl
      cases RU with
      | false => exact deAMemberIf_firstAt hr ho.1
      | true =>
        rw [← hcomm]
        exact deAMemberIf_secondAt (ho.2 (by simp [Slot.otherFirst])) hr ho.1 (hf.set_set r (by simp [Slot.refs])) hap.1
    | true =>
      have ho := ho l rfl
      cases RU with
      | false =>
        exact deAMemberIf_secondAt (ho.2 (by simp [Slot.otherFirst])) hr ho.1 (hf.set_set l (by simp [Slot.refs])) hap.2.1
      | true =>
        rw [← hcomm]
        exact deAMemberIf_firstAt hr ho.1

theorem Slot.member_back {v : σ} {w : Slot σ} {t : Bytes} (h : WritesBack (w.live v).ser.emit ((w.live v).get v) t) :
    WritesBack w.toMember.emit v (quoted (w.live v).name ++ c%':' :: t) := by
  cases w with
  | one en =>
    cases en with
    | mem m => exact emitMember_back h
    | prop m => exact emitMember_back h
  | alt l r d RU =>
    intro m
    simp only [Slot.toMember, memberIf]
    cases hd : d (l.get v)
    · have hl : (Slot.alt l r d RU).live v = l := by simp [Slot.live, hd]
      rw [hl] at h ⊢
      simpa using emitMember_back h m
    · have hl : (Slot.alt l r d RU).live v = r := by simp [Slot.live, hd]
      rw [hl] at h ⊢
      simpa using emitMember_back h m

theorem Slot.amember_back {v : σ} {w : Slot σ} {t : Bytes} (h : WritesBack (w.live v).ser.emit ((w.live v).get v) t) :
    WritesBack w.toAMember.emit v t := by
  cases w with
  | one en =>
    cases en with
    | mem m => exact h
    | prop m => exact h
  | alt l r d RU =>
    intro m
    simp only [Slot.toAMember, amemberIf]
    cases hd : d (l.get v)
    · have hl : (Slot.alt l r d RU).live v = l := by simp [Slot.live, hd]
      rw [hl] at h
      simpa using h m
    · have hl : (Slot.alt l r d RU).live v = r := by simp [Slot.live, hd]
      rw [hl] at h
      simpa using h m

/-- The members of the places of a reader. -/
abbrev slotRefs (L : List (Slot τ × Bool)) : List (MRef τ) := L.flatMap fun x => x.1.refs

theorem slot_items {v : σ} {v0 v' : τ} : ∀ {LW : List (Slot σ)} {LR : List (Slot τ × Bool)}, Fields (slotRefs LR) →
    (hl : LW.length ≤ LR.length) →
    (∀ i, (h : i < LW.length) → ∃ t, SlotCarries v v0 v' LW[i] (LR[i]'(Nat.lt_of_lt_of_le h hl)) t) →
    ∃ ts, All2 (fun w t => WritesBack (w.live v).ser.emit ((w.live v).get v) t) LW ts ∧ (∀ t ∈ ts, Start t) ∧
      ∀ x, (∀ m ∈ slotRefs LR, m.get x = m.get v0) →
        AChain ((LR.take LW.length).map fun x => x.1.toAMember) ts x (setRefs v' (slotRefs (LR.take LW.length)) x) ∧
        ((∀ w ∈ LW, c%'"' ∉ (w.live v).name) →
          (∀ i, (h : i < LW.length) → ∀ m ∈ (LR[i]'(Nat.lt_of_lt_of_le h hl)).1.refs, m.name = (LW[i].live v).name) →
          ∀ L, Chain strict L (LR.map fun x => x.1.toMember) ((LW.map fun w => (w.live v).name).zip ts) x
            (some (setRefs v' (slotRefs (LR.take LW.length)) x))) := by
  intro LW
  induction LW with
  | nil =>
    intro LR _ _ _
    exact ⟨[], .nil, by simp, fun x _ => ⟨.nil, fun _ _ L => .done⟩⟩
  | cons w LW ih =>
    intro LR hf hl h
    cases LR with
    | nil => simp at hl
    | cons r LR =>
      obtain ⟨t, h1, h2, h3, h4⟩ := h 0 (by simp)
      simp only [List.getElem_cons_zero] at h1 h3 h4
      have hl' : LW.length ≤ LR.length := by simpa using hl
      unfold slotRefs at hf
      rw [List.flatMap_cons] at hf
      obtain ⟨ts, i1, i2, i3⟩ := ih hf.append.2 hl' (fun i hi => by
        have := h (i + 1) (by simpa using hi)
        simpa using this)
      refine ⟨t :: ts, .cons h1 i1, ?_, ?_⟩
      · intro x hx
        rcases List.mem_cons.mp hx with rfl | hx
        · exact h2
        · exact i2 x hx
      · intro x hx
        have hx1 : ∀ m ∈ r.1.refs, m.get x = m.get v0 := fun m hm => hx m (by simp [slotRefs, hm])
        have h3' : ReadsAt (r.1.part r.2).ser.de (r.1.start r.2 x) t ((r.1.part r.2).get v') := by
          rw [Slot.start_congr hx1]; exact h3
        have hap := List.pairwise_append.mp hf.apart
        have hx2 : ∀ m ∈ slotRefs LR, m.get (setRefs v' r.1.refs x) = m.get v0 := by
          intro m hm
          rw [setRefs_other (g := m.get) fun b hb y s => (hap.2.2 b hb m hm).2.1 y s]
          exact hx m (by simp only [slotRefs, List.flatMap_cons]; exact List.mem_append_right _ hm)
        have heq : setRefs v' (slotRefs ((r :: LR).take (w :: LW).length)) x =
            setRefs v' (slotRefs (LR.take LW.length)) (setRefs v' r.1.refs x) := by
          rw [← setRefs_append]
          simp [slotRefs]
        rw [heq]
        obtain ⟨j1, j2⟩ := i3 _ hx2
        refine ⟨.cons (Slot.areadsAt hf.append.1 h3' h4) j1, fun hq hnm L => ?_⟩
        refine .cur (Slot.readsAt hf.append.1 ?_ (hq w (by simp)) h2 h3' h4) (j2 (fun w hw => hq w (by simp [hw])) (fun i hi => ?_) L)
        · exact hnm 0 (by simp)
        · have := hnm (i + 1) (by simpa using hi)
          simpa using this

theorem slots_determined {v0 v' : τ} {n : Nat} {LR : List (Slot τ × Bool)} (hf : Fields (slotRefs LR))
    (hall : ∀ a b, (∀ m ∈ slotRefs LR, m.get a = m.get b) → a = b)
    (hro : ∀ x ∈ LR.drop n, ∀ m ∈ x.1.refs, m.get v' = m.get v0) : setRefs v' (slotRefs (LR.take n)) v0 = v' := by
  refine hall _ _ fun m hm => ?_
  have hsp : slotRefs LR = slotRefs (LR.take n) ++ slotRefs (LR.drop n) := by
    unfold slotRefs
    rw [← List.flatMap_append, List.take_append_drop]
  rw [hsp] at hf hm
  rcases List.mem_append.mp hm with hm | hm
  · exact setRefs_get hf.append.1 _ m hm
  · have hap := List.pairwise_append.mp hf.apart
    rw [setRefs_other (g := m.get) fun b hb y s => (hap.2.2 b hb m hm).2.1 y s]
    obtain ⟨x, hx, hm⟩ := List.mem_flatMap.mp hm
    exact (hro x hx m hm).symm

theorem zip_fst_texts {v : σ} {LW : List (Slot σ)} {ts : List Bytes}
    (h : All2 (fun w t => WritesBack (w.live v).ser.emit ((w.live v).get v) t) LW ts) :
    All2 (fun m s => WritesBack m.emit v s) (LW.map Slot.toMember)
      (((LW.map fun w => (w.live v).name).zip ts).map fun x => quoted x.1 ++ c%':' :: x.2) := by
  induction h with
  | nil => exact .nil
  | cons h1 _ ih => exact .cons (Slot.member_back h1) ih

theorem objectIf_carries (c : Cfg) (sw sr : Bool) (d : σ) (d' : τ) {LW : List (Slot σ)} {LR : List (Slot τ × Bool)} {v : σ} {v0 v' : τ}
    (hf : Fields (slotRefs LR)) (hall : ∀ a b, (∀ m ∈ slotRefs LR, m.get a = m.get b) → a = b) (hl : LW.length ≤ LR.length)
    (hq : ∀ w ∈ LW, c%'"' ∉ (w.live v).name)
    (hnm : ∀ i, (h : i < LW.length) → ∀ m ∈ (LR[i]'(Nat.lt_of_lt_of_le h hl)).1.refs, m.name = (LW[i].live v).name)
    (h : ∀ i, (h : i < LW.length) → ∃ t, SlotCarries v v0 v' LW[i] (LR[i]'(Nat.lt_of_lt_of_le h hl)) t)
    (hro : ∀ x ∈ LR.drop LW.length, ∀ m ∈ x.1.refs, m.get v' = m.get v0) :
    ∃ t, Carries (objectSer c sw d (LW.map Slot.toMember)) (objectSer c sr d' (LR.map fun x => x.1.toMember)) v v0 v' t := by
  obtain ⟨ts, h1, h2, h3⟩ := slot_items (strict := sr) hf hl h
  have hc := (h3 v0 fun _ _ => rfl).2 hq hnm (LR.map fun x => x.1.toMember)
  rw [slots_determined hf hall hro] at hc
  refine ⟨_, emitObject_back (zip_fst_texts h1), ⟨c%'{', _, rfl, by decide⟩, fun rest e he _ => ?_⟩
  exact (deObject_items (c := c) (dflt := d') (objText_of_join fun x hx => h2 _ (List.of_mem_zip hx).2) hc rest he).1 _ rfl

theorem objectArrayIf_carries (d : σ) (d' : τ) {LW : List (Slot σ)} {LR : List (Slot τ × Bool)} {v : σ} {v0 v' : τ}
    (hf : Fields (slotRefs LR)) (hall : ∀ a b, (∀ m ∈ slotRefs LR, m.get a = m.get b) → a = b) (hl : LW.length ≤ LR.length)
    (h : ∀ i, (h : i < LW.length) → ∃ t, SlotCarries v v0 v' LW[i] (LR[i]'(Nat.lt_of_lt_of_le h hl)) t)
    (hro : ∀ x ∈ LR.drop LW.length, ∀ m ∈ x.1.refs, m.get v' = m.get v0) :
    ∃ t, Carries (objectArraySer d (LW.map Slot.toAMember)) (objectArraySer d' (LR.map fun x => x.1.toAMember)) v v0 v' t := by
  obtain ⟨ts, h1, h2, h3⟩ := slot_items (strict := false) hf hl h
  have hc := (h3 v0 fun _ _ => rfl).1
  rw [slots_determined hf hall hro] at hc
  have hw : ∀ {L : List (Slot σ)} {ts : List Bytes}, All2 (fun w t => WritesBack (w.live v).ser.emit ((w.live v).get v) t) L ts →
      All2 (fun m s => WritesBack m.emit v s) (L.map Slot.toAMember) ts := by
    intro L ts h
    induction h with
    | nil => exact .nil
    | cons h1 _ ih => exact .cons (Slot.amember_back h1) ih
  refine ⟨_, emitObjectArray_back (hw h1), ⟨c%'[', _, rfl, by decide⟩, ?_⟩
  by_cases hne : ts = []
  · subst hne
    have hv : v' = v0 := by
      generalize hq : (LR.take LW.length).map (fun x => x.1.toAMember) = q at hc
      cases hc
      rfl
    rw [hv]
    exact deObjectArray_empty d' v0 (g := []) .nil
  · have := deObjectArray_chain hc (items1_ids hne h2) ((LR.drop LW.length).map fun x => x.1.toAMember) d'
    rw [← List.map_append, List.take_append_drop] at this
    exact this

end

theorem seq_carries {α β C D : Type} {K : Coll α C} {K' : Coll β D} {S : Ser α} {S' : Ser β} {L R : Byte}
    (hR : R = c%']' ∨ R = c%'}') (hL : L = c%'[' ∨ L = c%'{') {v : C} (v0 : D) (f : α → β)
    (h : ∀ x ∈ K.elems v, ∃ t, Carries S S' x S'.dflt (f x) t) :
    ∃ t, Carries (seqSer K S L R) (seqSer K' S' L R) v v0 (((K.elems v).map f).foldl K'.insert K'.clear) t := by
  obtain ⟨ts, h⟩ := all2_choose h
  refine ⟨L :: joinComma ts ++ [R], emitSeq_back (all2_imp (fun _ _ h => h.writes) h),
    Start.of_byte (by rcases hL with rfl | rfl <;> simp), ?_⟩
  intro rest e he _
  have hm : ∀ {vs : List α} {ts : List Bytes}, All2 (fun x t => Carries S S' x S'.dflt (f x) t) vs ts →
      All2 (fun w t => Start t ∧ ReadsAt S'.de S'.dflt t w) (vs.map f) ts := by
    intro vs ts h
    induction h with
    | nil => exact .nil
    | cons h _ ih => exact .cons ⟨h.start, h.reads⟩ ih
  have hi : ItemsText (fun v t => ReadsAt S'.de S'.dflt t v) R ((K.elems v).map f) (joinComma ts ++ [R]) := items_of_join (hm h)
  have := deSeq_items (K := K') hR (L := L) (by rcases hL with rfl | rfl <;> decide) hi v0 rest he
  simpa [seqSer] using this

theorem fixed_carries {α β D : Type} {N : Nat} (k : FixKind) {K' : Coll β D} {S : Ser α} {S' : Ser β} {v : Vector α N} (v0 : D)
    (f : α → β) (h : ∀ x ∈ v.toList, ∃ t, Carries S S' x S'.dflt (f x) t) :
    ∃ t, Carries (fixVecSer k N S) (arraySer K' S') v v0 ((v.toList.map f).foldl K'.insert K'.clear) t := by
  obtain ⟨t, h1, h2, h3⟩ := seq_carries (K := seqColl α) (K' := K') (.inl rfl) (.inl rfl) (v := v.toList) v0 f h
  obtain ⟨ts, h4⟩ := all2_choose fun x hx => (h x hx).imp fun _ h => h.writes
  have h5 := emitFix_back (L := c%'[') (R := c%']') h4
  have h6 := emitSeq_back (K := seqColl α) (L := c%'[') (R := c%']') h4
  have heq : t = c%'[' :: joinComma ts ++ [c%']'] := by
    have := (h1 []).symm.trans (h6 [])
    simpa using this
  subst heq
  exact ⟨_, h5, h2, h3⟩

theorem fix_items {α β : Type} (k : FixKind) {S : Ser α} {S' : Ser β} : ∀ {xs : List α} {old new : List β},
    (hn : new.length = old.length) → (hl : xs.length ≤ old.length) →
    (∀ i, (h : i < xs.length) → ∃ t, Carries S S' xs[i] (k.start S' (old[i]'(by omega))) (new[i]'(by omega)) t) →
    (∀ i, xs.length ≤ i → (h : i < old.length) → new[i]'(by omega) = old[i]) →
    ∃ ts, All2 (WritesBack S.emit) xs ts ∧ (old ≠ [] → ∀ rest e, e.failed = false →
      fixLoop k S' c%']' old (joinComma ts ++ c%']' :: rest) e = .ok (new, rest, e)) := by
  intro xs
  induction xs with
  | nil =>
    intro old new hn _ _ hk
    have : new = old := List.ext_getElem hn fun i h1 h2 => hk i (by simp) h2
    subst this
    exact ⟨[], .nil, fun hne rest e _ => fixLoop_close (.inl rfl) (g := []) .nil hne rest e⟩
  | cons x xs ih =>
    intro old new hn hl h hk
    cases old with
    | nil => simp at hl
    | cons o old =>
    cases new with
    | nil => simp at hn
    | cons w new =>
      obtain ⟨t, h1, h2, h3⟩ := h 0 (by simp)
      simp only [List.getElem_cons_zero] at h1 h3
      obtain ⟨ts, i1, i2⟩ := ih (old := old) (new := new) (by simpa using hn) (by simpa using hl)
        (fun i hi => by have := h (i + 1) (by simpa using hi); simpa using this)
        (fun i hi hi' => by have := hk (i + 1) (by simpa using hi) (by simpa using hi'); simpa using this)
      refine ⟨t :: ts, .cons h1 i1, fun _ rest e he => ?_⟩
      cases i1 with
      | nil =>
        have := fixLoop_item (k := k) (v0 := o) (vs := old) (R := c%']') (.inl rfl) (g1 := []) .nil h2 h3 (g2 := []) .nil (b := c%']') rest he (.inl rfl)
        have hno : new = old := by
          refine List.ext_getElem (by simpa using hn) fun i h1 h2 => ?_
          have := hk (i + 1) (by simp) (by simpa using h2)
          simpa using this
        subst hno
        simpa [joinComma] using this
      | @cons y u ys us _ _ =>
        have hne : old ≠ [] := by intro hc; subst hc; simp at hl
        have := fixLoop_item (k := k) (v0 := o) (vs := old) (R := c%']') (.inl rfl) (g1 := []) .nil h2 h3 (g2 := []) .nil (b := c%',')
          (joinComma (u :: us) ++ c%']' :: rest) he (.inr rfl)
        rw [if_neg (by decide), i2 hne rest e he] at this
        simpa [joinComma] using this

theorem fixVec_carries {α β : Type} {N : Nat} (k : FixKind) {S : Ser α} {S' : Ser β} {xs : List α} {v0 v' : Vector β N}
    (hN : 1 ≤ N) (hl : xs.length ≤ N)
    (h : ∀ i, (h : i < xs.length) → ∃ t, Carries S S' xs[i] (k.start S' (v0[i]'(Nat.lt_of_lt_of_le h hl))) (v'[i]'(Nat.lt_of_lt_of_le h hl)) t)
    (hk : ∀ i, xs.length ≤ i → (h : i < N) → v'[i] = v0[i]) :
    ∃ ts, All2 (WritesBack S.emit) xs ts ∧ ReadsAt (fixVecSer k N S').de v0 (c%'[' :: joinComma ts ++ [c%']']) v' := by
  obtain ⟨ts, h1, h2⟩ := fix_items k (S := S) (S' := S') (xs := xs) (old := v0.toList) (new := v'.toList) (by simp) (by simpa using hl)
    (fun i hi => by simpa using h i hi) (fun i hi hi' => by have := hk i hi (by simpa using hi'); simpa using this)
  refine ⟨ts, h1, fun rest e he _ => ?_⟩
  have h3 := h2 (by intro hc; have := congrArg List.length hc; simp at this; omega) rest e he
  have h4 : deFix k S' c%'[' c%']' v0.toList (c%'[' :: joinComma ts ++ [c%']'] ++ rest) e = .ok (v'.toList, rest, e) := by
    have := deFix_open (k := k) (S := S') (R := c%']') (L := c%'[') (by decide) v0.toList (joinComma ts ++ c%']' :: rest) e
    rw [h3] at this
    simpa using this
  rcases deFixVec_eq k S' v0 (c%'[' :: joinComma ts ++ [c%']'] ++ rest) e with ⟨w, p, e', h5, h6⟩ | ⟨h5, _⟩ | ⟨h5, _⟩
  · rw [h4] at h5
    simp only [Out.ok.injEq, Prod.mk.injEq] at h5
    obtain ⟨h7, rfl, rfl⟩ := h5
    have : v' = w := Vector.toList_inj.mp h7
    subst this
    exact h6
  · rw [h4] at h5; cases h5
  · rw [h4] at h5; cases h5

theorem field_carries {κ ν κ' ν' : Type} {SK : Ser κ} {SV : Ser ν} {SK' : Ser κ'} {SV' : Ser ν'} {x : κ × ν} {y : κ' × ν'}
    {kt vt : Bytes} (hk : Carries SK SK' x.1 SK'.dflt y.1 kt) (hv : Carries SV SV' x.2 SV'.dflt y.2 vt) :
    Carries (fieldSer SK SV) (fieldSer SK' SV') x (fieldSer SK' SV').dflt y (kt ++ c%':' :: vt) where
  writes := emitField_back hk.writes hv.writes
  start := by
    obtain ⟨b, u, rfl, h⟩ := hk.start
    exact ⟨b, _, rfl, h⟩
  reads := by
    have := deField_reads (kv := y) (t0 := (SK'.dflt, SV'.dflt)) hk.reads .nil .nil hv.start hv.reads
    simpa [fieldSer] using this

theorem Carried.carries {c : Cfg} : ∀ {α β : Type} {SW : Ser α} {SR : Ser β} {v : α} {v0 v' : β}, Carried c SW SR v v0 v' →
    ∃ t, Carries SW SR v v0 v' t
  | _, _, _, _, _, _, _, .same h =>
    have ⟨t, h⟩ := h.rtb
    ⟨t, h.writes, h.start, h.reads _⟩
  | _, _, _, _, v, v0, _, .int h1 h2 h3 h4 h5 =>
    ⟨_, Writes.back (emitInt_writes h1 h3), (intSer_rt c h2 h4 h5).start, (intSer_rt c h2 h4 h5).reads v0⟩
  | _, _, _, _, v, v0, _, .interval (fr := fr) h1 h2 h3 h4 h5 =>
    ⟨_, Writes.back (emitInt_writes h1 h3), start_decimal (intText_decimal v), C36_number c h2 fr h4 h5 (intText_decimal v) v0⟩
  | _, _, _, _, v, v0, w, @Carried.enum _ _ _ _ _ _ st' _ d' L _ _ _ _ h1 h2 h3 h4 =>
    ⟨_, Writes.back (emitEnum_writes L v), ⟨_, _, rfl, by unfold WsByte; decide⟩,
      C34_reads c st' d' h3 h4 (h2 _ (enumName_mem h1)) (g := []) (by simp) v0⟩
  | _, _, _, _, v, v0, _, @Carried.enumNew _ _ _ _ _ _ _ d' L L' _ _ h1 h2 =>
    have h := h2 _ (enumName_mem h1)
    ⟨_, Writes.back (emitEnum_writes L v), ⟨_, _, rfl, by unfold WsByte; decide⟩, fun rest e _ _ => by
      have := deEnum_quoted c false d' L' (g := []) (by simp) h.1 v0 rest e
      rw [enumFind_none h.2] at this
      simpa [enumSer] using this⟩
  | _, _, _, _, _, v0, _, .toRaw h1 h2 => by
    obtain ⟨t, h3, h4⟩ := h1.json jsonLike_rfc
    have := writes_unique h3 h2
    subst this
    have h5 := C41_round_trip c (RG.x h4)
    exact ⟨t, h3, h5.start, h5.reads v0⟩
  | _, _, _, _, _, v0, _, .fromRaw h1 h2 => by
    obtain ⟨t, h3⟩ := h1.rtb
    have := writes_unique h3.writes h2
    subst this
    refine ⟨t, ?_, h3.start, h3.reads v0⟩
    have := (C41_writes c t).back
    rwa [if_neg] at this
    rintro rfl
    obtain ⟨b, u, h, _⟩ := h3.start
    cases h
  | _, _, _, _, _, v0, _, .optional h1 h2 => by
    obtain ⟨t, h3⟩ := h1.carries
    have hn := h2 _ h3.writes.at_nil
    refine ⟨t, h3.writes, h3.start, fun rest e he hd => ?_⟩
    have hr := h3.reads rest e he hd
    obtain ⟨b, u, rfl, _⟩ := h3.start
    simp only [List.cons_append] at hr ⊢
    have hb : b ≠ c%'n' := by simpa using hn
    simp [pointerSer, dePointer, hb, hr]
  | _, _, _, _, _, v0, _, .required h1 => by
    obtain ⟨t, h3⟩ := h1.carries
    exact ⟨t, h3.writes, h3.start, h3.reads⟩
  | _, _, _, _, _, v0, _, .null (S := S) (S' := S') => ⟨_, (C42_null S).1, ⟨_, _, rfl, by unfold WsByte; decide⟩, (C42_null S').2 v0⟩
  | _, _, _, _, _, v0, _, .nullInt (S := S) (ty := ty) =>
    ⟨_, (C42_null S).1, ⟨_, _, rfl, by unfold WsByte; decide⟩, C32_null_integer c ty v0⟩
  | _, _, _, _, _, v0, _, .nullBool (S := S) => ⟨_, (C42_null S).1, ⟨_, _, rfl, by unfold WsByte; decide⟩, C32_null_bool v0⟩
  | _, _, _, _, _, v0, _, .nullStr (S := S) => ⟨_, (C42_null S).1, ⟨_, _, rfl, by unfold WsByte; decide⟩, C32_null_string v0⟩
  | _, _, _, _, _, v0, _, .nullSeq (S := S) (K := K) (S' := S') (l := l) (r := r) =>
    ⟨_, (C42_null S).1, ⟨_, _, rfl, by unfold WsByte; decide⟩, C32_null_container K S' l r v0⟩
  | _, _, _, _, _, v0, _, .nullObject (S := S) (strict := strict) (d := d) (L := L) =>
    ⟨_, (C42_null S).1, ⟨_, _, rfl, by unfold WsByte; decide⟩, C32_null_object c strict d L v0⟩
  | _, _, _, _, _, _, _, .wrap h1 h2 => by
    obtain ⟨t, h3⟩ := h1.carries
    exact ⟨t, h3.writes, h3.start, fun rest e he hd => by simp [memberValueSer, h3.reads rest e he hd, h2]⟩
  | _, _, _, _, _, v0, _, .unwrap h1 => by
    obtain ⟨t, h3⟩ := h1.carries
    exact ⟨t, fun m => h3.writes m, h3.start, h3.reads⟩
  | _, _, _, _, _, v0, _, .seq f h => seq_carries (.inl rfl) (.inl rfl) v0 f fun x hx => (h x hx).carries
  | _, _, _, _, _, v0, _, .fixed (k := k) f h => fixed_carries k v0 f fun x hx => (h x hx).carries
  | _, _, _, _, _, _, _, .toFixed (k := k) h1 h2 h3 h4 =>
    have ⟨_, h5, h6⟩ := fixVec_carries k h1 h2 (fun i hi => (h3 i hi).carries) h4
    ⟨_, emitSeq_back h5, Start.of_byte (by simp), h6⟩
  | _, _, _, _, v, _, _, .longer (k := k) h1 h2 h3 h4 =>
    have ⟨_, h5, h6⟩ := fixVec_carries k (xs := v.toList) h1 (by simpa using h2)
      (fun i hi => by have := (h3 i (by simpa using hi)).carries; simpa using this) (fun i hi hi' => h4 i (by simpa using hi) hi')
    ⟨_, emitFix_back h5, Start.of_byte (by simp), h6⟩
  | _, _, _, _, _, v0, _, .dict f g h h' =>
    seq_carries (.inr rfl) (.inr rfl) v0 (fun x => (f x.1, g x.2)) fun x hx =>
      have ⟨_, h1⟩ := (h x hx).carries
      have ⟨_, h2⟩ := (h' x hx).carries
      ⟨_, field_carries h1 h2⟩
  | _, _, _, _, _, _, _, .object (sw := sw) (sr := sr) (d := d) (d' := d') h1 h2 h3 h4 h5 h6 h7 =>
    object_carries c sw sr d d' h1 h2 h3 h4 (fun w hw r hr hn => (h5 w hw r hr hn).carries) h6 fun w hw hn =>
      have h := h7 w hw hn
      have ⟨t, h8, h9⟩ := h.2.2.json jsonLike_rfc
      ⟨h.1, h.2.1, t, h8, RG.x h9⟩
  | _, _, _, _, _, _, _, .objectArray (d := d) (d' := d') h1 h2 h3 h4 h5 =>
    objectArray_carries d d' h1 h2 h3 (fun i hi => (h4 i hi).carries) h5
  | _, _, _, _, v, _, _, .objectIf (sw := sw) (sr := sr) (d := d) (d' := d') h1 h2 h3 h4 h5 h6 h7 h8 =>
    objectIf_carries c sw sr d d' h1 h2 h3 h4 h5 (fun i hi =>
      have ⟨t, h⟩ := (h6 i hi).carries
      ⟨t, h.writes, h.start, h.reads, fun o ho => ⟨(h7 i hi o ho).1, fun hf => (h7 i hi o ho).2 hf t h.writes.at_nil⟩⟩) h8
  | _, _, _, _, v, _, _, .objectArrayIf (d := d) (d' := d') h1 h2 h3 h6 h7 h8 =>
    objectArrayIf_carries d d' h1 h2 h3 (fun i hi =>
      have ⟨t, h⟩ := (h6 i hi).carries
      ⟨t, h.writes, h.start, h.reads, fun o ho => ⟨(h7 i hi o ho).1, fun hf => (h7 i hi o ho).2 hf t h.writes.at_nil⟩⟩) h8

/-- A string is never read from the text of a number. -/
theorem strSer_rejects {v : Int} {t : Bytes} (h : Decimal v t) : Rejects strSer.de t := by
  intro v0 rest _
  have hd : ∀ b : Byte, Digit b → b ≠ c%'n' ∧ b ≠ c%'"' := by
    unfold Digit; apply forall_byte; decide +kernel
  have : ∃ b u, t = b :: u ∧ b ≠ c%'n' ∧ b ≠ c%'"' := by
    obtain ⟨i, hi, h⟩ := h
    have hi' : ∃ b u, i = b :: u ∧ Digit b := by
      rcases hi with rfl | ⟨d, ds, rfl, hd, _⟩
      · exact ⟨_, _, rfl, by unfold Digit; decide⟩
      · exact ⟨_, _, rfl, digit_of_19 hd⟩
    rcases h with ⟨_, rfl, _⟩ | ⟨_, rfl, _⟩
    · obtain ⟨b, u, rfl, hb⟩ := hi'
      exact ⟨b, u, rfl, hd b hb⟩
    · exact ⟨_, _, rfl, by decide, by decide⟩
  obtain ⟨b, u, rfl, h1, h2⟩ := this
  refine ⟨[], [], createError .ExpectedOf .fresh (some b!"\"") ((b :: (u ++ rest)).length : Nat), ?_, rfl⟩
  have hn : isNull (b :: u ++ rest) = false := by simpa [isNull] using h1
  show deStr v0 (b :: u ++ rest) .fresh = _
  unfold deStr unserializeStr
  rw [hn]
  simp [h2]

end Wjson
