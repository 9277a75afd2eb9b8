import Verif.Proofs.Object
/-
Reading and writing objects described by member lists.
-/
namespace Wjson
open Spec

section
variable {τ : Type} {c : Cfg} {strict : Bool}

/-! ### Layout -/

theorem objText_of_join {xs : List (Bytes × Bytes)} (h : ∀ x ∈ xs, Start x.2) :
    ObjText xs (c%'{' :: joinComma (xs.map fun x => quoted x.1 ++ c%':' :: x.2) ++ b!"}") := by
  have : ∀ xs : List (Bytes × Bytes), xs ≠ [] → (∀ x ∈ xs, Start x.2) →
      ItemsFrom xs (joinComma (xs.map fun x => quoted x.1 ++ c%':' :: x.2) ++ b!"}") := by
    intro xs
    induction xs with
    | nil => intro h; exact absurd rfl h
    | cons x xs ih =>
      intro _ hs
      cases xs with
      | nil =>
        have := ItemsFrom.one (k := x.1) .nil .nil (hs x (by simp)) .nil
        simpa [joinComma] using this
      | cons y ys =>
        have := ItemsFrom.more (k := x.1) .nil .nil (hs x (by simp)) .nil .nil
          (ih (by simp) fun z hz => hs z (by simp [hz]))
        simpa [joinComma] using this
  cases xs with
  | nil => simpa [joinComma] using ObjText.empty .nil
  | cons x xs =>
    have := ObjText.items .nil (this (x :: xs) (by simp) h)
    simpa using this

/-! ### Members in the order of the list -/

theorem chain_cursor {L l : List (Member τ)} {xs : List ((Bytes × Bytes) × (τ → τ))}
    (h : All2 (fun m x => MReads m x.1.1 x.1.2 x.2) l xs) (t : τ) :
    Chain strict L l (xs.map Prod.fst) t (some (applyAll (xs.map Prod.snd) t)) := by
  induction h generalizing t with
  | nil => exact .done
  | cons hm _ ih => exact .cur (hm _) (ih _)

theorem deObject_cursor {L : List (Member τ)} {xs : List ((Bytes × Bytes) × (τ → τ))}
    (h : All2 (fun m x => MReads m x.1.1 x.1.2 x.2) L xs) {s : Bytes} (hs : ObjText (xs.map Prod.fst) s) (dflt t : τ) :
    ReadsAt (objectSer c strict dflt L).de t s (applyAll (xs.map Prod.snd) t) := by
  intro rest e he _
  exact (deObject_items (c := c) hs (chain_cursor (strict := strict) h t) rest he).1 _ rfl

/-! ### Members in any order -/

theorem split_at {L : List (Entry τ)} (hg : GoodNames L) {en : Entry τ} (h : en ∈ L) :
    ∃ pre post, L = pre ++ en :: post ∧ ∀ x ∈ pre, x.ref.name ≠ en.ref.name := by
  obtain ⟨pre, post, rfl⟩ := List.append_of_mem h
  refine ⟨pre, post, rfl, fun x hx heq => ?_⟩
  have := hg.nodup
  unfold names at this
  rw [List.map_append, List.nodup_append] at this
  exact this.2.2 _ (List.mem_map.mpr ⟨x, hx, rfl⟩) _ (List.mem_map.mpr ⟨en, by simp, rfl⟩) heq

theorem names_mem {L : List (Entry τ)} {en : Entry τ} (h : en ∈ L) : en.ref.name ∈ names L := List.mem_map.mpr ⟨en, h, rfl⟩

theorem name_unique {L : List (Entry τ)} (hg : GoodNames L) {a b : Entry τ} (ha : a ∈ L) (hb : b ∈ L)
    (h : a.ref.name = b.ref.name) : a = b := by
  obtain ⟨pre, post, rfl, hpre⟩ := split_at hg ha
  have hnd := hg.nodup
  unfold names at hnd
  rw [List.map_append, List.nodup_append, List.map_cons, List.nodup_cons] at hnd
  rcases List.mem_append.mp hb with hb | hb
  · exact absurd h.symm (hpre b hb)
  · rcases List.mem_cons.mp hb with hb | hb
    · exact hb.symm
    · exact absurd (List.mem_map.mpr ⟨b, hb, h.symm⟩) hnd.2.1.1

/-- A known key is skipped by every member of another name, an unknown one by
every member. -/
theorem effect_skips {L : List (Entry τ)} (hg : GoodNames L) {k v : Bytes} {f : τ → τ} (h : Effect L (k, v) f)
    {en : Entry τ} (hen : en ∈ L) (hne : en.ref.name ≠ k) : MSkips en.toMember k := by
  refine Entry.skips ?_
  cases h with
  | known hen' _ => exact keyDiffers_of_noquote (hg.plain _ (names_mem hen')).1 (fun h => hne h.symm)
  | unknown hk hc _ => exact keyDiffers_of_plain (hg.plain _ (names_mem hen)) hc (fun h => hne h.symm)

theorem effect_reads {L : List (Entry τ)} (hg : GoodNames L) {en : Entry τ} (hen : en ∈ L) {v : Bytes} {f : τ → τ}
    (h : Effect L (en.ref.name, v) f) (hs : Start v) : MReads en.toMember en.ref.name v f := by
  generalize hk : en.ref.name = k at h
  cases h with
  | @known en' _ x hen' hr =>
    have : en = en' := name_unique hg hen hen' hk
    subst this
    exact Entry.reads (hg.plain _ (names_mem hen)).1 hs hr
  | unknown hu _ _ => exact absurd hk (hu en hen)

theorem all2_mem_left.{u, v} {α : Type u} {β : Type v} {P : α → β → Prop} {as : List α} {bs : List β} (h : All2 P as bs) {a : α} (ha : a ∈ as) :
    ∃ b ∈ bs, P a b := by
  induction h with
  | nil => cases ha
  | cons hp _ ih =>
    rcases List.mem_cons.mp ha with rfl | ha
    · exact ⟨_, by simp, hp⟩
    · obtain ⟨b, hb, hpb⟩ := ih ha
      exact ⟨b, by simp [hb], hpb⟩

theorem all2_length.{u, v} {α : Type u} {β : Type v} {P : α → β → Prop} {as : List α} {bs : List β} (h : All2 P as bs) :
    as.length = bs.length := by
  induction h with
  | nil => rfl
  | cons _ _ ih => simp [ih]

/-- One item while the cursor is not exhausted. -/
theorem chain_step {L : List (Entry τ)} (hg : GoodNames L) {en : Entry τ} {l : List (Entry τ)} (hen : en ∈ L)
    {k v : Bytes} {f : τ → τ} (h : Effect L (k, v) f) (hs : Start v) {items : List (Bytes × Bytes)} {t : τ} {r : Option τ} :
    (k = en.ref.name → Chain strict (L.map Entry.toMember) (l.map Entry.toMember) items (f t) r →
      Chain strict (L.map Entry.toMember) ((en :: l).map Entry.toMember) ((k, v) :: items) t r) ∧
    (k ≠ en.ref.name → k ∈ names L → Chain strict (L.map Entry.toMember) ((en :: l).map Entry.toMember) items (f t) r →
      Chain strict (L.map Entry.toMember) ((en :: l).map Entry.toMember) ((k, v) :: items) t r) ∧
    (k ∉ names L → strict = false → Chain strict (L.map Entry.toMember) ((en :: l).map Entry.toMember) items t r →
      Chain strict (L.map Entry.toMember) ((en :: l).map Entry.toMember) ((k, v) :: items) t r) ∧
    (k ∉ names L → strict = true → Chain strict (L.map Entry.toMember) ((en :: l).map Entry.toMember) ((k, v) :: items) t none) := by
  have hall : k ∉ names L → ∀ x ∈ L.map Entry.toMember, MSkips x k := by
    intro hk x hx
    obtain ⟨y, hy, rfl⟩ := List.mem_map.mp hx
    exact effect_skips hg h hy fun heq => hk (heq ▸ names_mem hy)
  refine ⟨?_, ?_, ?_, ?_⟩
  · rintro rfl hc
    exact .cur (effect_reads hg hen h hs _) hc
  · intro hne hk hc
    obtain ⟨en', hen', rfl⟩ := List.mem_map.mp hk
    obtain ⟨pre, post, hL, hpre⟩ := split_at hg hen'
    refine .search (pre := pre.map Entry.toMember) (m' := en'.toMember) (post := post.map Entry.toMember)
      (effect_skips hg h hen fun heq => hne heq.symm) (by rw [hL]; simp) ?_ (effect_reads hg hen' h hs t) hc
    intro x hx
    obtain ⟨y, hy, rfl⟩ := List.mem_map.mp hx
    exact effect_skips hg h (by rw [hL]; simp [hy]) (hpre y hy)
  · intro hk hst hc
    refine .unknown hst (effect_skips hg h hen fun heq => hk (heq ▸ names_mem hen)) (hall hk) ?_ hc
    cases h with
    | known hen' _ => exact absurd (names_mem hen') hk
    | unknown _ h1 h2 => exact ⟨h1, h2⟩
  · intro hk hst
    exact .unknownStrict hst (effect_skips hg h hen fun heq => hk (heq ▸ names_mem hen)) (hall hk)

theorem effect_unknown {L : List (Entry τ)} {k v : Bytes} {f : τ → τ} (h : Effect L (k, v) f) (hk : k ∉ names L) :
    f = id ∧ Skippable (k, v) := by
  cases h with
  | known hen' _ => exact absurd (names_mem hen') hk
  | unknown _ h1 h2 => exact ⟨rfl, h1, h2⟩

/-- Distinct keys, nonstrict: every member has its effect. -/
theorem chain_distinct {L : List (Entry τ)} (hg : GoodNames L) {items : List (Bytes × Bytes)} {fs : List (τ → τ)}
    (h : All2 (Effect L) items fs) (hs : ∀ x ∈ items, Start x.2) (hnd : (items.map Prod.fst).Nodup) (done l : List (Entry τ))
    (hL : L = done ++ l) (hdone : ∀ en ∈ done, en.ref.name ∉ items.map Prod.fst) (t : τ) :
    Chain false (L.map Entry.toMember) (l.map Entry.toMember) items t (some (applyAll fs t)) := by
  induction h generalizing done l t with
  | nil => exact .done
  | @cons x f items fs hx hrest ih =>
    obtain ⟨k, v⟩ := x
    simp only [List.map_cons, List.nodup_cons] at hnd
    have hs' : ∀ x ∈ items, Start x.2 := fun x hx => hs x (by simp [hx])
    have hdone' : ∀ en ∈ done, en.ref.name ∉ items.map Prod.fst := fun en hen hm => hdone en hen (by
      simp only [List.map_cons]; exact List.mem_cons_of_mem _ hm)
    cases l with
    | nil =>
      have hunk : ∀ y ∈ (k, v) :: items, y.1 ∉ names L := by
        intro y hy hm
        obtain ⟨en, hen, heq⟩ := List.mem_map.mp hm
        rw [hL, List.append_nil] at hen
        exact hdone en hen (heq ▸ List.mem_map.mpr ⟨y, hy, rfl⟩)
      have hid : ∀ {its : List (Bytes × Bytes)} {gs : List (τ → τ)}, All2 (Effect L) its gs → (∀ y ∈ its, y.1 ∉ names L) →
          ∀ t, applyAll gs t = t := by
        intro its gs hh
        induction hh with
        | nil => intro _ t; rfl
        | @cons y g its gs hy _ ih2 =>
          intro hu t
          have := (effect_unknown hy (hu y (by simp))).1
          subst this
          exact ih2 (fun z hz => hu z (by simp [hz])) t
      have hsome := hid (All2.cons hx hrest) hunk t
      rw [hsome]
      refine .past rfl (by simp) ?_
      intro y hy
      obtain ⟨g, _, hg'⟩ := all2_mem_left (All2.cons hx hrest) hy
      exact (effect_unknown hg' (hunk y hy)).2
    | cons en l =>
      have hen : en ∈ L := by rw [hL]; simp
      have hstep := fun {r} {t'} => chain_step (strict := false) hg (l := l) hen hx (hs (k, v) (by simp)) (items := items) (t := t') (r := r)
      show Chain _ _ _ _ _ (some (applyAll fs (f t)))
      by_cases hk : k = en.ref.name
      · refine hstep.1 hk (ih hs' hnd.2 (done ++ [en]) l (by rw [hL]; simp) ?_ (f t))
        intro en' hen'
        rcases List.mem_append.mp hen' with h1 | h1
        · exact hdone' en' h1
        · simp only [List.mem_cons, List.not_mem_nil, or_false] at h1
          subst h1
          rw [← hk]
          exact hnd.1
      · by_cases hkn : k ∈ names L
        · exact hstep.2.1 hk hkn (ih hs' hnd.2 done (en :: l) hL hdone' (f t))
        · rw [(effect_unknown hx hkn).1]
          exact hstep.2.2.1 hkn rfl (ih hs' hnd.2 done (en :: l) hL hdone' t)

/-- Any keys: the effect is that of `runItems`. -/
theorem chain_run {L : List (Entry τ)} (hg : GoodNames L) {items : List (Bytes × Bytes)} {fs : List (τ → τ)}
    (h : All2 (Effect L) items fs) (hs : ∀ x ∈ items, Start x.2) (hsk : ∀ x ∈ items, Skippable x)
    (l : List (Entry τ)) (hl : ∀ en ∈ l, en ∈ L) (t : τ) :
    Chain strict (L.map Entry.toMember) (l.map Entry.toMember) items t
      (runItems strict (names L) (names l) ((items.map Prod.fst).zip fs) t) := by
  induction h generalizing l t with
  | nil => unfold runItems; exact .done
  | @cons x f items fs hx hrest ih =>
    obtain ⟨k, v⟩ := x
    have hs' : ∀ x ∈ items, Start x.2 := fun x hx => hs x (by simp [hx])
    have hsk' : ∀ x ∈ items, Skippable x := fun x hx => hsk x (by simp [hx])
    cases l with
    | nil =>
      simp only [List.map_cons, List.zip_cons_cons, names, List.map_nil, runItems]
      cases strict with
      | false => exact .past rfl (by simp) hsk
      | true => exact .pastStrict rfl (by simp) hsk
    | cons en l =>
      have hen : en ∈ L := hl en (by simp)
      have hstep := fun {r} {t'} => chain_step (strict := strict) hg (l := l) hen hx (hs (k, v) (by simp)) (items := items) (t := t') (r := r)
      simp only [List.map_cons, List.zip_cons_cons, names, runItems]
      split
      · rename_i hk
        exact hstep.1 hk (ih hs' hsk' l (fun en hen => hl en (by simp [hen])) (f t))
      · rename_i hk
        split
        · rename_i hkn
          exact hstep.2.1 hk hkn (ih hs' hsk' (en :: l) hl (f t))
        · rename_i hkn
          split
          · rename_i hst
            exact (hstep (r := none)).2.2.2 hkn hst
          · rename_i hst
            exact hstep.2.2.1 hkn (by simpa using hst) (ih hs' hsk' (en :: l) hl t)

theorem items_start {items : List (Bytes × Bytes)} {s : Bytes} (h : ObjText items s) : ∀ x ∈ items, Start x.2 := by
  have : ∀ {items : List (Bytes × Bytes)} {r : Bytes}, ItemsFrom items r → ∀ x ∈ items, Start x.2 := by
    intro items r h
    induction h with
    | one _ _ h _ => intro x hx; simp only [List.mem_cons, List.not_mem_nil, or_false] at hx; subst hx; exact h
    | more _ _ h _ _ _ ih =>
      intro x hx
      rcases List.mem_cons.mp hx with hx | hx
      · subst hx; exact h
      · exact ih x hx
  cases h with
  | empty _ => simp
  | items _ h => exact this h

/-! ### Laws of independent parts -/

theorem applyAll_cons (f : τ → τ) (fs : List (τ → τ)) (t : τ) : applyAll (f :: fs) t = applyAll fs (f t) := rfl

theorem applyAll_append (fs gs : List (τ → τ)) (t : τ) : applyAll (fs ++ gs) t = applyAll gs (applyAll fs t) := by
  unfold applyAll; rw [List.foldl_append]

theorem Fields.other {L : List (MRef τ)} (h : Fields L) {pre post : List (MRef τ)} {a : MRef τ} (hL : L = pre ++ a :: post)
    {b : MRef τ} (hb : b ∈ pre ∨ b ∈ post) :
    (∀ x t, a.get (b.set x t) = a.get t) ∧ (∀ x t, b.get (a.set x t) = b.get t) ∧
      ∀ x y t, a.set x (b.set y t) = b.set y (a.set x t) := by
  have := h.apart
  rw [hL, List.pairwise_append, List.pairwise_cons] at this
  rcases hb with hb | hb
  · have := this.2.2 b hb a (by simp)
    exact ⟨this.2.1, this.1, fun x y t => (this.2.2 y x t).symm⟩
  · have := this.2.1.1 b hb
    exact ⟨this.1, this.2.1, this.2.2⟩

/-- In a list of distinct names, members with different names are apart. -/
theorem Fields.of_ne {L : List (Entry τ)} (h : Fields (L.map Entry.ref)) {a b : Entry τ} (ha : a ∈ L) (hb : b ∈ L)
    (hne : a ≠ b) : (∀ x t, a.ref.get (b.ref.set x t) = a.ref.get t) ∧
      ∀ x y t, a.ref.set x (b.ref.set y t) = b.ref.set y (a.ref.set x t) := by
  obtain ⟨pre, post, rfl⟩ := List.append_of_mem ha
  have := h.other (pre := pre.map Entry.ref) (post := post.map Entry.ref) (a := a.ref) (by simp) (b := b.ref) (by
    rcases List.mem_append.mp hb with hb | hb
    · exact .inl (List.mem_map.mpr ⟨b, hb, rfl⟩)
    · rcases List.mem_cons.mp hb with hb | hb
      · exact absurd hb.symm hne
      · exact .inr (List.mem_map.mpr ⟨b, hb, rfl⟩))
  exact ⟨this.1, this.2.2⟩

/-- A member whose name is not among the keys keeps its value. -/
theorem applyAll_absent {L : List (Entry τ)} (hf : Fields (L.map Entry.ref)) {items : List (Bytes × Bytes)}
    {fs : List (τ → τ)} (h : All2 (Effect L) items fs) {en : Entry τ} (hen : en ∈ L)
    (hk : en.ref.name ∉ items.map Prod.fst) (t : τ) : en.ref.get (applyAll fs t) = en.ref.get t := by
  induction h generalizing t with
  | nil => rfl
  | @cons x f items fs hx hrest ih =>
    simp only [List.map_cons, List.mem_cons, not_or] at hk
    rw [applyAll_cons, ih hk.2]
    cases hx with
    | @known en' _ x hen' _ =>
      exact (hf.of_ne hen hen' (fun heq => hk.1 (by rw [heq]))).1 x t
    | unknown _ _ _ => rfl

theorem all2_append {α β : Type} {P : α → β → Prop} {as as' : List α} {bs : List β} (h : All2 P (as ++ as') bs) :
    ∃ bs1 bs2, bs = bs1 ++ bs2 ∧ All2 P as bs1 ∧ All2 P as' bs2 := by
  induction as generalizing bs with
  | nil => exact ⟨[], bs, rfl, .nil, h⟩
  | cons a as ih =>
    cases h with
    | cons h1 h2 =>
      obtain ⟨bs1, bs2, rfl, h3, h4⟩ := ih h2
      exact ⟨_ :: bs1, bs2, rfl, .cons h1 h3, h4⟩

/-- The last value of a key stays. -/
theorem applyAll_last {L : List (Entry τ)} (hf : Fields (L.map Entry.ref)) (hg : GoodNames L)
    {pre post : List (Bytes × Bytes)} {fs : List (τ → τ)} {en : Entry τ} (hen : en ∈ L) {v : Bytes}
    (h : All2 (Effect L) (pre ++ (en.ref.name, v) :: post) fs)
    (hk : en.ref.name ∉ post.map Prod.fst) {x : en.ref.α} (hx : Reads en.ref.ser.de v x) (t : τ) :
    en.ref.get (applyAll fs t) = x := by
  obtain ⟨fs1, fs2, rfl, h1, h2⟩ := all2_append h
  rw [applyAll_append]
  cases h2 with
  | @cons _ f _ fs2 hf2 h2 =>
    rw [applyAll_cons, applyAll_absent hf h2 hen hk]
    generalize hn : en.ref.name = n at hf2
    cases hf2 with
    | @known en' _ y hen' hr =>
      have := name_unique hg hen hen' hn
      subst this
      rw [hf.get_set _ (List.mem_map.mpr ⟨en, hen, rfl⟩)]
      have a1 := hx en.ref.ser.dflt [] .null rfl (by simp [Delim])
      have a2 := hr en.ref.ser.dflt [] .null rfl (by simp [Delim])
      rw [a1] at a2
      cases a2
      rfl
    | unknown hu _ _ => exact absurd hn (hu en hen)

/-- Two permutations of the known members give the same structure. -/
theorem applyAll_perm {L : List (Entry τ)} (hf : Fields (L.map Entry.ref)) {xs ys : List ((Bytes × Bytes) × (τ → τ))}
    (hx : ∀ x ∈ xs, Effect L x.1 x.2) (hnd : (xs.map fun x => x.1.1).Nodup) (h : xs.Perm ys) (t : τ) :
    applyAll (xs.map Prod.snd) t = applyAll (ys.map Prod.snd) t := by
  unfold applyAll
  rw [List.foldl_map, List.foldl_map]
  have hcomm : ∀ x ∈ xs, ∀ y ∈ xs, ∀ z : τ, y.2 (x.2 z) = x.2 (y.2 z) := by
    intro x hxm y hym z
    have h1 := hx x hxm
    have h2 := hx y hym
    by_cases hk : x.1.1 = y.1.1
    · obtain ⟨i, hi, hix⟩ := List.getElem_of_mem hxm
      obtain ⟨j, hj, hjy⟩ := List.getElem_of_mem hym
      have : i = j := by
        have := List.getElem_inj (h₀ := by simpa using hi) (h₁ := by simpa using hj) hnd
        rw [← this]
        simp [hix, hjy, hk]
      subst this
      rw [hix] at hjy
      rw [hjy]
    · obtain ⟨⟨k1, v1⟩, f⟩ := x
      obtain ⟨⟨k2, v2⟩, g⟩ := y
      simp only at h1 h2 hk ⊢
      cases h1 with
      | unknown _ _ _ => rfl
      | @known en1 _ a1 hen1 _ =>
        cases h2 with
        | unknown _ _ _ => rfl
        | @known en2 _ a2 hen2 _ =>
          exact (hf.of_ne hen2 hen1 fun heq => hk (by rw [heq])).2 _ _ _
  exact h.foldl_eq' hcomm t

/-- Unknown members can be left out. -/
theorem applyAll_filter {L : List (Entry τ)} {xs : List ((Bytes × Bytes) × (τ → τ))} (hx : ∀ x ∈ xs, Effect L x.1 x.2) (t : τ) :
    applyAll (xs.map Prod.snd) t = applyAll ((xs.filter fun x => decide (x.1.1 ∈ names L)).map Prod.snd) t := by
  induction xs generalizing t with
  | nil => rfl
  | cons x xs ih =>
    have ih := fun t => ih (fun y hy => hx y (by simp [hy])) t
    rw [List.filter_cons]
    split
    · simp only [List.map_cons, applyAll_cons]
      exact ih _
    · rename_i hn
      have := (effect_unknown (k := x.1.1) (v := x.1.2) (hx x (by simp)) (by simpa using hn)).1
      simp only [List.map_cons, applyAll_cons, this, id_eq]
      exact ih _

/-- Writing all members in order and reading them. -/
theorem restored {L : List (Entry τ)} (hf : Fields (L.map Entry.ref)) (v v0 : τ) :
    ∀ en ∈ L, en.ref.get (applyAll (L.map fun en => en.ref.set (en.ref.get v)) v0) = en.ref.get v := by
  have hkeep : ∀ (l : List (Entry τ)) (a : Entry τ), (∀ b ∈ l, ∀ x t, a.ref.get (b.ref.set x t) = a.ref.get t) → ∀ t,
      a.ref.get (applyAll (l.map fun en => en.ref.set (en.ref.get v)) t) = a.ref.get t := by
    intro l a
    induction l with
    | nil => intro _ t; rfl
    | cons b l ih =>
      intro hb t
      rw [List.map_cons, applyAll_cons, ih fun b' hb' => hb b' (by simp [hb']), hb b (by simp)]
  have : ∀ (l : List (Entry τ)), Fields (l.map Entry.ref) → ∀ v0, ∀ en ∈ l,
      en.ref.get (applyAll (l.map fun en => en.ref.set (en.ref.get v)) v0) = en.ref.get v := by
    intro l
    induction l with
    | nil => intro _ _ en h; cases h
    | cons a l ih =>
      intro hf v0 en hen
      have hf' : Fields (l.map Entry.ref) :=
        ⟨fun m hm => hf.get_set m (by simp only [List.map_cons]; exact List.mem_cons_of_mem _ hm),
          fun m hm => hf.set_set m (by simp only [List.map_cons]; exact List.mem_cons_of_mem _ hm),
          by have := hf.apart; rw [List.map_cons, List.pairwise_cons] at this; exact this.2⟩
      rw [List.map_cons, applyAll_cons]
      rcases List.mem_cons.mp hen with rfl | hen
      · rw [hkeep, hf.get_set _ (by simp)]
        intro b hb x t
        have := hf.apart
        rw [List.map_cons, List.pairwise_cons] at this
        exact (this.1 b.ref (List.mem_map.mpr ⟨b, hb, rfl⟩)).1 x t
      · exact ih hf' _ en hen
  exact this L hf v0

/-! ### Effects are determined by the text -/

theorem effect_unique {L : List (Entry τ)} (hg : GoodNames L) {x : Bytes × Bytes} {f g : τ → τ} (h1 : Effect L x f)
    (h2 : Effect L x g) : f = g := by
  obtain ⟨k, v⟩ := x
  by_cases hk : k ∈ names L
  · generalize hkk : k = k2 at h2
    cases h1 with
    | @known en _ a hen hr =>
      cases h2 with
      | @known en' _ b hen' hr' =>
        have := name_unique hg hen hen' hkk
        subst this
        have a1 := hr en.ref.ser.dflt [] .null rfl (by simp [Delim])
        have a2 := hr' en.ref.ser.dflt [] .null rfl (by simp [Delim])
        rw [a1] at a2
        cases a2
        rfl
      | unknown hu _ _ => exact absurd hkk (hu en hen)
    | unknown hu _ _ =>
      obtain ⟨en, hen, heq⟩ := List.mem_map.mp hk
      exact absurd heq (hu en hen)
  · rw [(effect_unknown h1 hk).1, (effect_unknown h2 hk).1]

theorem effects_fn {L : List (Entry τ)} (hg : GoodNames L) : ∃ F : Bytes × Bytes → (τ → τ), ∀ x f, Effect L x f → F x = f := by
  classical
  refine ⟨fun x => if h : ∃ f, Effect L x f then h.choose else id, fun x f h => ?_⟩
  have hex : ∃ f, Effect L x f := ⟨f, h⟩
  simp only [hex, dif_pos]
  exact effect_unique hg hex.choose_spec h

theorem all2_map {α β : Type} {P : α → β → Prop} {as : List α} {bs : List β} (h : All2 P as bs) (F : α → β)
    (hF : ∀ a b, P a b → F a = b) : bs = as.map F := by
  induction h with
  | nil => rfl
  | cons hp _ ih => rw [List.map_cons, hF _ _ hp, ← ih]

/-- Two texts with the same known members have the same effect. -/
theorem applyAll_same {L : List (Entry τ)} (hf : Fields (L.map Entry.ref)) (hg : GoodNames L)
    {is1 is2 : List (Bytes × Bytes)} {fs1 fs2 : List (τ → τ)} (h1 : All2 (Effect L) is1 fs1) (h2 : All2 (Effect L) is2 fs2)
    (hnd : (is1.map Prod.fst).Nodup)
    (h : (is1.filter fun x => decide (x.1 ∈ names L)).Perm (is2.filter fun x => decide (x.1 ∈ names L))) (t : τ) :
    applyAll fs1 t = applyAll fs2 t := by
  obtain ⟨F, hF⟩ := effects_fn hg
  have key : ∀ {is : List (Bytes × Bytes)} {fs : List (τ → τ)}, All2 (Effect L) is fs →
      applyAll fs t = applyAll (((is.filter fun x => decide (x.1 ∈ names L)).map fun x => (x, F x)).map Prod.snd) t := by
    intro is fs hh
    have e1 := all2_map hh F hF
    have hx : ∀ x ∈ is.map fun x => (x, F x), Effect L x.1 x.2 := by
      intro x hx
      obtain ⟨y, hy, rfl⟩ := List.mem_map.mp hx
      obtain ⟨f, _, hf⟩ := all2_mem_left hh hy
      simpa [hF y f hf] using hf
    have := applyAll_filter hx t
    rw [List.map_map] at this
    rw [e1]
    refine Eq.trans this ?_
    rw [List.filter_map]
    rfl
  rw [key h1, key h2]
  refine applyAll_perm hf ?_ ?_ (h.map _) t
  · intro x hx
    obtain ⟨y, hy, rfl⟩ := List.mem_map.mp hx
    obtain ⟨f, _, hf⟩ := all2_mem_left h1 (List.mem_filter.mp hy).1
    simpa [hF y f hf] using hf
  · rw [List.map_map]
    have hsub : (is1.filter fun x => decide (x.1 ∈ names L)).Sublist is1 := List.filter_sublist
    have := (hsub.map Prod.fst).nodup hnd
    exact this

/-! ### runItems -/

theorem runItems_not_exhausted {names cur : List Bytes} {items : List (Bytes × (τ → τ))} (hc : ∃ n ∈ cur, n ∉ items.map Prod.fst)
    (hu : ∀ x ∈ items, x.1 ∉ names → x.2 = id) (hsub : ∀ n ∈ cur, n ∈ names) (t : τ) :
    runItems false names cur items t = some (applyAll (items.map Prod.snd) t) := by
  induction items generalizing cur t with
  | nil => cases cur <;> rfl
  | cons x items ih =>
    obtain ⟨k, f⟩ := x
    obtain ⟨n, hn, hnk⟩ := hc
    simp only [List.map_cons, List.mem_cons, not_or] at hnk
    have hu' : ∀ x ∈ items, x.1 ∉ names → x.2 = id := fun x hx => hu x (by simp [hx])
    cases cur with
    | nil => cases hn
    | cons m cur =>
      simp only [runItems, List.map_cons, applyAll_cons, Bool.false_eq_true, if_false]
      split
      · rename_i hk
        refine ih ⟨n, ?_, hnk.2⟩ hu' (fun n hn => hsub n (by simp [hn])) (f t)
        rcases List.mem_cons.mp hn with h | h
        · exact absurd (h.trans hk.symm) hnk.1
        · exact h
      · split
        · exact ih ⟨n, hn, hnk.2⟩ hu' hsub (f t)
        · rename_i hk
          have : f = id := hu (k, f) (by simp) hk
          rw [this]
          exact ih ⟨n, hn, hnk.2⟩ hu' hsub t

theorem runItems_in_order {names cur : List Bytes} {first later : List (Bytes × (τ → τ))} (h : first.map Prod.fst = cur) (t : τ) :
    runItems strict names cur (first ++ later) t =
      runItems strict names [] later (applyAll (first.map Prod.snd) t) := by
  induction first generalizing cur t with
  | nil => subst h; rfl
  | cons x first ih =>
    obtain ⟨k, f⟩ := x
    subst h
    simp only [List.cons_append, List.map_cons, runItems, if_true, applyAll_cons]
    exact ih rfl (f t)

theorem runItems_strict_unknown {names cur : List Bytes} {items : List (Bytes × (τ → τ))} (h : ∃ x ∈ items, x.1 ∉ names)
    (hsub : ∀ n ∈ cur, n ∈ names) (t : τ) :
    runItems true names cur items t = none := by
  induction items generalizing cur t with
  | nil => obtain ⟨x, hx, _⟩ := h; cases hx
  | cons x items ih =>
    obtain ⟨k, f⟩ := x
    cases cur with
    | nil => rfl
    | cons m cur =>
      obtain ⟨y, hy, hyn⟩ := h
      have hy' : y = (k, f) ∨ y ∈ items := by simpa using hy
      simp only [runItems, if_true]
      split
      · rename_i hk
        refine ih ⟨y, ?_, hyn⟩ (fun n hn => hsub n (by simp [hn])) (f t)
        rcases hy' with rfl | h
        · exact absurd (hk ▸ hsub m (by simp)) hyn
        · exact h
      · split
        · rename_i hk
          refine ih ⟨y, ?_, hyn⟩ hsub (f t)
          rcases hy' with rfl | h
          · exact absurd hk hyn
          · exact h
        · rfl

/-! ### member_if -/

theorem deMember_reads {m : MRef τ} (hn : c%'"' ∉ m.name) {v : Bytes} (hs : Start v) {x : m.α} (hr : Reads m.ser.de v x)
    (t : τ) {g1 g2 rest : Bytes} {e : EPtr} (u : Bool) (h1 : Gap g1) (h2 : Gap g2) (he : e.failed = false) (hd : Delim rest) :
    deMember m t (quoted m.name ++ (g1 ++ c%':' :: (g2 ++ (v ++ rest)))) e u = .ok (m.set x t, rest, e, true) :=
  Entry.reads (en := .mem m) hn hs hr t g1 g2 rest e u h1 h2 he hd

theorem readNull_eq {m : MRef τ} {d : m.α} (h : Reads m.ser.de b!"null" d) (t : τ) : readNull m t = .ok (m.set d t) := by
  unfold readNull
  have := h (m.get t) [] .null rfl (by simp [Delim])
  rw [List.append_nil] at this
  rw [this]
  rfl

theorem deMemberIf_first {a b : MRef τ} (hn : c%'"' ∉ a.name) {v : Bytes} (hs : Start v) {x : a.α}
    (hr : Reads a.ser.de v x) {d : b.α} (hd : Reads b.ser.de b!"null" d) (em : τ → Sink → Out Sink) :
    MReads ⟨em, deMemberIf a b⟩ a.name v (fun t => b.set d (a.set x t)) := by
  intro t g1 g2 rest e u h1 h2 he hdel
  simp only [deMemberIf]
  rw [deMember_reads hn hs hr t u h1 h2 rfl hdel, Out.bind_ok]
  have : EPtr.fresh.failed = false := rfl
  simp only [this, Bool.not_false, if_true, readNull_eq hd, Out.bind_ok]

theorem deMemberIf_second {a b : MRef τ} (hname : a.name = b.name) (hn : c%'"' ∉ a.name) {v : Bytes} (hs : Start v) {x : b.α}
    (hrej : Rejects a.ser.de v) (hr : Reads b.ser.de v x) {d : a.α} (hd : Reads a.ser.de b!"null" d)
    (hss : ∀ x y t, a.set x (a.set y t) = a.set x t) (em : τ → Sink → Out Sink) :
    MReads ⟨em, deMemberIf a b⟩ b.name v (fun t => b.set x (a.set d t)) := by
  intro t g1 g2 rest e u h1 h2 he hdel
  simp only [deMemberIf]
  obtain ⟨v1, p, e', h3, h4⟩ := hrej (a.get t) rest hdel
  have hfirst : deMember a t (quoted b.name ++ (g1 ++ c%':' :: (g2 ++ (v ++ rest)))) .fresh u = .ok (a.set v1 t, p, e', true) := by
    rw [← hname]
    unfold deMember
    rw [memberName_match hn h1 h2 hs]
    simp only [Bool.not_true, Bool.false_eq_true, if_false]
    rw [h3]
    rfl
  rw [hfirst, Out.bind_ok]
  simp only [h4, Bool.not_true, Bool.false_eq_true, if_false, readNull_eq hd, Out.bind_ok, hss]
  exact deMember_reads (hname ▸ hn) hs hr _ true h1 h2 he hdel

end

end Wjson
