import Verif.Model.Calls
import Verif.Spec.Calls
import Verif.Proofs.Described
import Verif.Proofs.ObjectRead
/-
Lemmas for C77.
-/
namespace Wjson
open Spec

variable {τ : Type} {c : Cfg} {strict : Bool}

theorem bind_not_fuel {α β : Type} {x : Out α} {f : α → Out β} (h : x >>= f ≠ .fuel) : x ≠ .fuel := by
  rintro rfl; exact h rfl

/-- More stack does not change a result. -/
theorem membersF_more (L : List (Member τ)) (n m : Nat) (hnm : n ≤ m) (l : List (Member τ)) (t : τ) (s : Bytes) (e : EPtr)
    (h : membersF c strict L n l t s e ≠ .fuel) : membersF c strict L m l t s e = membersF c strict L n l t s e := by
  induction n generalizing m l t s e with
  | zero => exact absurd rfl h
  | succ n ih =>
    cases m with
    | zero => omega
    | succ m =>
      cases l with
      | nil => rfl
      | cons a l =>
        simp only [membersF] at h ⊢
        cases hd : a.de t s e false with
        | ub => rfl
        | fuel => rfl
        | ok d =>
          simp only [hd, Out.bind_ok] at h ⊢
          generalize hx : (if d.2.2.2 = true then Out.ok (d.1, d.2.1, d.2.2.1) else searchMembers c strict L d.1 d.2.1 d.2.2.1) = x at h ⊢
          cases x with
          | ub => rfl
          | fuel => rfl
          | ok x =>
            simp only [Out.bind_ok] at h ⊢
            generalize parseSpace x.2.1 x.2.2 = r at h ⊢
            obtain ⟨p, e1⟩ := r
            cases p with
            | nil => rfl
            | cons b p =>
              simp only at h ⊢
              split at h
              · rename_i hb
                rw [if_pos hb, if_pos hb, ih m (by omega) _ _ _ _ (bind_not_fuel h)]
              · rename_i hb
                rw [if_neg hb, if_neg hb]

theorem commas_suffix {p s : Bytes} (h : p <:+ s) : commas p ≤ commas s := by
  obtain ⟨a, rfl⟩ := h
  simp [commas]

theorem SafeOut.not_fuel {α : Type} {U : Prop} {s : Bytes} {e : EPtr} {o : Out (α × Bytes × EPtr)} (h : SafeOut U s e o) : o ≠ .fuel := by
  rcases h with ⟨h, _⟩ | ⟨_, _, _, h, _⟩ <;> rw [h] <;> simp

/-- One call more than there are commas is enough. -/
theorem membersF_commas {U : Prop} (hc : c.past = none → U) {L : List (Member τ)} (hL : ∀ m ∈ L, MSafe U m) (n : Nat)
    {l : List (Member τ)} (hl : ∀ m ∈ l, MSafe U m) (t : τ) (s : Bytes) (e : EPtr) (hn : commas s < n) :
    membersF c strict L n l t s e ≠ .fuel := by
  induction n generalizing l t s e with
  | zero => omega
  | succ n ih =>
    cases l with
    | nil =>
      simp only [membersF]
      rcases skipMembers_safe (c := c) (strict := strict) s e with ⟨h1, hu⟩ | ⟨p, e', h1, h2, h3⟩ <;> rw [h1] <;> simp
    | cons m l =>
      simp only [membersF]
      rcases hl m (by simp) t s e false with ⟨h1, hu⟩ | ⟨t1, p, e1, u1, h1, h2, h3⟩
      · rw [h1]; simp
      · rw [h1, Out.bind_ok]
        simp only
        have hx : SafeOut U s e (if u1 = true then .ok (t1, p, e1) else searchMembers c strict L t1 p e1) :=
          .ite (fun _ => .ok h2 h3) (fun _ => SafeOut.mono id h2 h3 (searchMembers_safe hc hL t1 p e1))
        rcases hx with ⟨h4, _⟩ | ⟨t2, p2, e2, h4, hp2, _⟩
        · rw [h4]; simp
        · rw [h4, Out.bind_ok]
          simp only
          have hp3 := ((parseSpace_scan p2).suffix e2).trans hp2
          generalize parseSpace p2 e2 = r3 at hp3 ⊢
          obtain ⟨p3, e3⟩ := r3
          simp only at hp3 ⊢
          cases p3 with
          | nil => simp
          | cons b p3 =>
            simp only
            split
            · rename_i hb
              have h5 := commas_suffix hp3
              have h6 := commas_suffix ((parseSpace_scan p3).suffix e3)
              have h7 : commas (b :: p3) = commas p3 + 1 := by simp [commas, hb]
              have := ih (l := if u1 = true then l else m :: l) (by
                intro m' hm'
                cases u1 with
                | true => exact hl m' (by simp only [if_true] at hm'; simp [hm'])
                | false => exact hl m' (by simpa using hm')) t2 (parseSpace p3 e3).1 (parseSpace p3 e3).2 (by omega)
              generalize membersF c strict L n _ t2 _ _ = o at this ⊢
              cases o with
              | ub => simp
              | fuel => exact absurd rfl this
              | ok y => exact (membersEnd_safe (U := False) _ _ _).not_fuel
            · exact (membersEnd_safe (U := False) _ _ _).not_fuel

/-- With any bound that is large enough for `membersF` the results agree. -/
theorem deObjectD_eq {L : List (Member τ)} {dflt t : τ} {s : Bytes} {e : EPtr} {k : Nat}
    (h : ∀ b q e', (b :: q) <:+ s → membersF c strict L k L t (b :: q) e' = membersF c strict L (q.length + 2) L t (b :: q) e') :
    deObjectD c k strict dflt L t s e = deObject c strict dflt L t s e := by
  unfold deObjectD deObject
  split
  · rfl
  · cases s with
    | nil => rfl
    | cons b p =>
      simp only
      split
      · rfl
      · unfold objectBodyD objectBody
        have hp := ((parseSpace_scan p).suffix e).trans (suffix_cons b p)
        generalize parseSpace p e = r at hp ⊢
        obtain ⟨q, e1⟩ := r
        cases q with
        | nil => rfl
        | cons b q =>
          simp only at hp ⊢
          rw [h b q e1 hp]
          rfl

/-- A bounded stack overflows or makes no difference. -/
theorem deObjectD_or {L : List (Member τ)} {dflt t : τ} {s : Bytes} {e : EPtr} (h : deObject c strict dflt L t s e ≠ .fuel) (k : Nat) :
    deObjectD c k strict dflt L t s e = .fuel ∨ deObjectD c k strict dflt L t s e = deObject c strict dflt L t s e := by
  unfold deObjectD
  unfold deObject at h ⊢
  split
  · exact .inr rfl
  · rename_i hnull
    rw [if_neg hnull] at h
    cases s with
    | nil => exact .inr rfl
    | cons b p =>
      simp only at h ⊢
      split
      · exact .inr rfl
      · rename_i hb
        rw [if_neg hb] at h
        unfold objectBodyD
        unfold objectBody at h ⊢
        generalize parseSpace p e = r at h ⊢
        obtain ⟨q, e1⟩ := r
        cases q with
        | nil => exact .inr rfl
        | cons b q =>
          simp only at h ⊢
          split
          · rename_i hb
            rw [if_pos hb] at h
            have hs := bind_not_fuel h
            by_cases hf : membersF c strict L k L t (b :: q) e1 = .fuel
            · rw [hf]; exact .inl rfl
            · right
              rcases Nat.le_total k (q.length + 2) with h1 | h1
              · rw [membersF_more L k _ h1 L t _ _ hf]
                rfl
              · rw [membersF_more L _ k h1 L t _ _ hs]
                rfl
          · exact .inr rfl

/-- One member of a text: what the entry at the cursor or the search does. -/
theorem membersF_step {L l : List (Entry τ)} (hg : GoodNames L) {en : Entry τ} (hen : en ∈ L) {k v : Bytes} {f : τ → τ}
    (hx : Effect L (k, v) f) (hs : Start v) (hok : k ∈ names L ∨ strict = false) {g1 g2 rest : Bytes} (h1 : Gap g1) (h2 : Gap g2)
    (hd : Delim rest) (t : τ) {e : EPtr} (he : e.failed = false) (n : Nat) (hsp : parseSpace rest e = parseSpace (parseSpace rest e).1 (parseSpace rest e).2) :
    membersF c strict (L.map Entry.toMember) (n + 1) ((en :: l).map Entry.toMember) t
        (quoted k ++ (g1 ++ c%':' :: (g2 ++ (v ++ rest)))) e =
      match (parseSpace rest e).1 with
      | [] => .ok (f t, [], createError .UnexpectedEndFragment (parseSpace rest e).2)
      | b :: p =>
        if b = c%',' then
          membersF c strict (L.map Entry.toMember) n ((if k = en.ref.name then l else en :: l).map Entry.toMember) (f t)
            (parseSpace p (parseSpace rest e).2).1 (parseSpace p (parseSpace rest e).2).2 >>= fun y => membersEnd y.1 y.2.1 y.2.2
        else membersEnd (f t) (b :: p) (parseSpace rest e).2 := by
  by_cases hk : k = en.ref.name
  · have hr := effect_reads hg hen (by rw [← hk]; exact hx) hs t
    rw [← hk] at hr
    simp only [List.map_cons, membersF]
    rw [hr g1 g2 rest e false h1 h2 he hd]
    simp only [Out.bind_ok, if_true, hk]
    rfl
  · have hsk := effect_skips hg hx hen fun h => hk h.symm
    simp only [List.map_cons, membersF]
    rw [hsk t _ e false]
    simp only [Out.bind_ok, Bool.false_eq_true, if_false, hk]
    by_cases hkn : k ∈ names L
    · obtain ⟨en', hen', hn'⟩ := List.mem_map.mp hkn
      subst hn'
      obtain ⟨pre, post, hL, hpre⟩ := split_at hg hen'
      have hm := effect_reads hg hen' hx hs t
      have hpre' : ∀ x ∈ pre.map Entry.toMember, MSkips x en'.ref.name := by
        intro x hx'
        obtain ⟨y, hy, rfl⟩ := List.mem_map.mp hx'
        exact effect_skips hg hx (by rw [hL]; simp [hy]) (hpre y hy)
      have hfound := searchMembers_found (c := c) (strict := strict) (post := post.map Entry.toMember) hpre' hm h1 h2 he hd
      have hLm : L.map Entry.toMember = pre.map Entry.toMember ++ en'.toMember :: post.map Entry.toMember := by rw [hL]; simp
      rw [← hLm] at hfound
      rw [hfound]
      rfl
    · have hst : strict = false := by rcases hok with h | h; exact absurd h hkn; exact h
      obtain ⟨rfl, hskip⟩ := effect_unknown hx hkn
      have hall : ∀ x ∈ L.map Entry.toMember, MSkips x k := by
        intro x hx'
        obtain ⟨y, hy, rfl⟩ := List.mem_map.mp hx'
        exact effect_skips hg hx hy fun heq => hkn (heq ▸ names_mem hy)
      rw [searchMembers_missing hall]
      simp only [searchMembers, hst, Bool.not_false, if_true]
      rw [parseMember_skip hskip h1 h2 hd]
      simp only [Out.bind_ok]
      rw [← hsp]
      rfl

/-- The calls that are open at the same time are `openCalls`. -/
theorem membersF_calls {L : List (Entry τ)} (hg : GoodNames L) {items : List (Bytes × Bytes)} {r : Bytes} (h : ItemsFrom items r)
    {fs : List (τ → τ)} (hx : All2 (Effect L) items fs) (hj : ∀ x ∈ items, Skippable x) (l : List (Entry τ))
    (hl : ∀ en ∈ l, en ∈ L) (t : τ) (hok : runItems strict (names L) (names l) ((items.map Prod.fst).zip fs) t ≠ none)
    (rest : Bytes) {e : EPtr} (he : e.failed = false) (n : Nat) :
    membersF c strict (L.map Entry.toMember) n (l.map Entry.toMember) t (r ++ rest) e = .fuel ↔
      n < openCalls (names l) (items.map Prod.fst) := by
  induction h generalizing fs l t n with
  | @one k g1 g2 v g3 h1 h2 hv h3 =>
    cases hx with
    | @cons _ f _ fs hx hnil =>
    cases hnil
    cases n with
    | zero => cases l <;> simp [membersF, names, openCalls]
    | succ n =>
      cases l with
      | nil =>
        simp only [List.map_nil, membersF, names, List.map_cons, openCalls]
        rcases skipMembers_safe (c := c) (strict := strict) (quoted k ++ (g1 ++ c%':' :: (g2 ++ (v ++ (g3 ++ b!"}")))) ++ rest) e with
          ⟨h5, _⟩ | ⟨p, e', h5, _⟩ <;> rw [h5] <;> simp
      | cons en l =>
        have heq : quoted k ++ (g1 ++ c%':' :: (g2 ++ (v ++ (g3 ++ b!"}")))) ++ rest =
            quoted k ++ (g1 ++ c%':' :: (g2 ++ (v ++ (g3 ++ c%'}' :: rest)))) := by simp
        have hd : Delim (g3 ++ c%'}' :: rest) := delim_gap h3 (by decide) rest
        have hsp := parseSpace_close (rest := rest) h3 e
        have hk : k ∈ names L ∨ strict = false := by
          by_cases hkn : k ∈ names L
          · exact .inl hkn
          · right
            simp only [List.map_cons, List.map_nil, List.zip_cons_cons, List.zip_nil_left, names, runItems] at hok
            by_cases hke : k = en.ref.name
            · exact absurd (hke ▸ names_mem (hl en (by simp))) hkn
            · rw [if_neg hke] at hok
              change (if k ∈ names L then _ else _) ≠ none at hok
              rw [if_neg hkn] at hok
              cases strict with
              | false => rfl
              | true => exact absurd rfl hok
        rw [heq, membersF_step hg (hl en (by simp)) hx hv hk h1 h2 hd t he n (by
          rw [hsp]; simpa using (parseSpace_close (rest := rest) .nil e).symm), hsp]
        simp [membersEnd, names, openCalls]
  | @more k g1 g2 v g3 g4 items r h1 h2 hv h3 h4 hi ih =>
    cases hx with
    | @cons _ f _ fs hx hrest =>
    cases n with
    | zero => cases l <;> simp [membersF, names, openCalls]
    | succ n =>
      cases l with
      | nil =>
        simp only [List.map_nil, membersF, names, List.map_cons, openCalls]
        rcases skipMembers_safe (c := c) (strict := strict)
          (quoted k ++ (g1 ++ c%':' :: (g2 ++ (v ++ (g3 ++ c%',' :: (g4 ++ r))))) ++ rest) e with
          ⟨h5, _⟩ | ⟨p, e', h5, _⟩ <;> rw [h5] <;> simp
      | cons en l =>
        have heq : quoted k ++ (g1 ++ c%':' :: (g2 ++ (v ++ (g3 ++ c%',' :: (g4 ++ r))))) ++ rest =
            quoted k ++ (g1 ++ c%':' :: (g2 ++ (v ++ (g3 ++ c%',' :: (g4 ++ (r ++ rest)))))) := by simp
        have hd : Delim (g3 ++ c%',' :: (g4 ++ (r ++ rest))) := delim_gap h3 (by decide) _
        have hsp := parseSpace_comma (rest := g4 ++ (r ++ rest)) h3 e
        have hen := hl en (by simp)
        simp only [List.map_cons, List.zip_cons_cons, names, runItems] at hok
        have hk : k ∈ names L ∨ strict = false := by
          by_cases hkn : k ∈ names L
          · exact .inl hkn
          · right
            by_cases hke : k = en.ref.name
            · exact absurd (hke ▸ names_mem hen) hkn
            · rw [if_neg hke] at hok
              change (if k ∈ names L then _ else _) ≠ none at hok
              rw [if_neg hkn] at hok
              cases strict with
              | false => rfl
              | true => exact absurd rfl hok
        rw [heq, membersF_step hg hen hx hv hk h1 h2 hd t he n (by
          rw [hsp]; simpa using (parseSpace_comma (rest := g4 ++ (r ++ rest)) .nil e).symm), hsp]
        simp only [if_true]
        rw [parseSpace_items h4 hi]
        simp only
        have hlast : ∀ o : Out (τ × Bytes × EPtr), (o >>= fun y => membersEnd y.1 y.2.1 y.2.2) = .fuel ↔ o = .fuel := by
          intro o
          cases o with
          | ub => simp
          | fuel => simp
          | ok y => simp [(membersEnd_safe (U := False) y.1 y.2.1 y.2.2).not_fuel]
        rw [hlast]
        have hl' : ∀ en' ∈ (if k = en.ref.name then l else en :: l), en' ∈ L := by
          intro en' h
          split at h
          · exact hl en' (by simp [h])
          · exact hl en' h
        rw [ih hrest (fun x hx => hj x (by simp [hx])) (if k = en.ref.name then l else en :: l) hl' (f t) ?_ n]
        · simp only [names, List.map_cons, openCalls]
          by_cases hke : k = en.ref.name
          · simp only [hke, if_true]; omega
          · simp only [hke, if_false, List.map_cons]; omega
        · by_cases hke : k = en.ref.name
          · rw [if_pos hke] at hok ⊢
            exact hok
          · rw [if_neg hke] at hok ⊢
            change (if k ∈ names L then _ else _) ≠ none at hok
            by_cases hkn : k ∈ names L
            · rw [if_pos hkn] at hok
              exact hok
            · rw [if_neg hkn] at hok
              rw [(effect_unknown hx hkn).1]
              cases strict with
              | true => exact absurd rfl hok
              | false => exact hok

/-- The same for the object. -/
theorem deObjectD_calls {L : List (Entry τ)} (hg : GoodNames L) {items : List (Bytes × Bytes)} {s : Bytes} (h : ObjText items s)
    {fs : List (τ → τ)} (hx : All2 (Effect L) items fs) (hj : ∀ x ∈ items, Skippable x) (dflt t : τ)
    (hok : runItems strict (names L) (names L) ((items.map Prod.fst).zip fs) t ≠ none)
    (rest : Bytes) {e : EPtr} (he : e.failed = false) (n : Nat) :
    deObjectD c n strict dflt (L.map Entry.toMember) t (s ++ rest) e = .fuel ↔ n < openCalls (names L) (items.map Prod.fst) := by
  have hnull : ∀ x, isNull (c%'{' :: x) = false := fun x => rfl
  have hopen : ∀ x, deObjectD c n strict dflt (L.map Entry.toMember) t (c%'{' :: x) e =
      objectBodyD c n strict (L.map Entry.toMember) t x e := by
    intro x; unfold deObjectD; rw [hnull]; simp
  cases h with
  | @empty g hg =>
    have heq : c%'{' :: (g ++ b!"}") ++ rest = c%'{' :: (g ++ c%'}' :: rest) := by simp
    rw [heq, hopen]
    unfold objectBodyD
    rw [parseSpace_close hg]
    simp [objectEnd, openCalls]
  | @items g _ r hgap hi =>
    have heq : c%'{' :: (g ++ r) ++ rest = c%'{' :: (g ++ (r ++ rest)) := by simp
    rw [heq, hopen]
    unfold objectBodyD
    rw [parseSpace_items hgap hi]
    have hm := membersF_calls (c := c) hg hi hx hj L (fun _ h => h) t hok rest he n
    obtain ⟨u, hu⟩ := items_head hi
    subst hu
    have hq : (c%'"' : Byte) ≠ c%'}' := by decide
    simp only [List.cons_append] at hm ⊢
    rw [if_pos hq, ← hm]
    generalize membersF c strict (L.map Entry.toMember) n (L.map Entry.toMember) t (c%'"' :: (u ++ rest)) e = o
    cases o with
    | ub => simp
    | fuel => simp
    | ok x =>
      simp only [Out.bind_ok, iff_false, reduceCtorEq]
      obtain ⟨t', p, e'⟩ := x
      cases p with
      | nil => simp
      | cons b p =>
        simp only
        cases (parseSpace (b :: p) e').1 with
        | nil => simp
        | cons b q => exact (objectEnd_safe (U := False) _ _ _).not_fuel

theorem openCalls_le (ns ks : List Bytes) : openCalls ns ks ≤ ks.length := by
  induction ks generalizing ns with
  | nil => simp [openCalls]
  | cons k ks ih =>
    cases ns with
    | nil => simp [openCalls]
    | cons n ns => simp only [openCalls, List.length_cons]; have := ih (if k = n then ns else n :: ns); omega

theorem openCalls_in_order (ns later : List Bytes) : openCalls ns (ns ++ later) ≤ ns.length + 1 := by
  induction ns with
  | nil => cases later <;> simp [openCalls]
  | cons n ns ih => simp only [List.cons_append, openCalls, if_true, List.length_cons]; omega

/-- As long as the key at the cursor does not come, every member costs a call. -/
theorem openCalls_stuck {n : Bytes} (ns : List Bytes) {ks : List Bytes} (h : n ∉ ks) : openCalls (n :: ns) ks = ks.length := by
  induction ks with
  | nil => rfl
  | cons k ks ih =>
    simp only [List.mem_cons, not_or] at h
    simp only [openCalls, if_neg (Ne.symm h.1), List.length_cons, ih h.2]

theorem sameMembers_items (k : Bytes) {v : Bytes} (hv : Start v) (n : Nat) : ItemsFrom (List.replicate (n + 1) (k, v)) (sameMembers k v n) := by
  induction n with
  | zero => exact .one (g1 := []) (g2 := []) (g3 := []) .nil .nil hv .nil
  | succ n ih => exact .more (g1 := []) (g2 := []) (g3 := []) (g4 := []) .nil .nil hv .nil .nil ih

theorem sameMembers_length (k v : Bytes) (n : Nat) : (sameMembers k v n).length = (n + 1) * (k.length + v.length + 4) := by
  induction n with
  | zero => simp [sameMembers, quoted]; omega
  | succ n ih =>
    rw [sameMembers, Nat.succ_mul (n + 1), ← ih]
    simp [quoted]; omega

theorem all2_replicate {α β : Type} {R : α → β → Prop} {x : α} {y : β} (h : R x y) (n : Nat) :
    All2 R (List.replicate n x) (List.replicate n y) := by
  induction n with
  | zero => exact .nil
  | succ n ih => exact .cons h ih

/-- Keys that are known, or a reader that is not strict: as long as the key at
the cursor does not come, nothing is rejected. -/
theorem runItems_stuck {names : List Bytes} {n : Bytes} {cur : List Bytes} {items : List (Bytes × (τ → τ))}
    (hn : ∀ x ∈ items, x.1 ≠ n) (hk : ∀ x ∈ items, x.1 ∈ names ∨ strict = false) (t : τ) :
    runItems strict names (n :: cur) items t ≠ none := by
  induction items generalizing t with
  | nil => simp [runItems]
  | cons x items ih =>
    obtain ⟨k, f⟩ := x
    have h1 : k ≠ n := hn (k, f) (by simp)
    have h2 := hk (k, f) (by simp)
    have ih' := fun t => ih (fun x hx => hn x (by simp [hx])) (fun x hx => hk x (by simp [hx])) t
    rw [runItems, if_neg h1]
    split
    · exact ih' _
    · rename_i h3
      have : strict = false := by rcases h2 with h | h; exact absurd h h3; exact h
      simp only [this, Bool.false_eq_true, if_false]
      subst this
      exact ih' _

end Wjson
