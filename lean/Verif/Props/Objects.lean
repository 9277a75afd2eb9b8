import Verif.Proofs.ObjectRead
import Verif.Proofs.Containers
/-
Properties C28-C32 and C43: objects.

The definitions used in the statements are in Spec/Object.lean (texts of JSON
objects, `runItems`), Spec/Fields.lean (`Fields`: the members are separate parts
of the structure; `Effect`: what one JSON member does) and Spec/Serial.lean.
-/
namespace Wjson
open Spec

section
variable {τ : Type}

/-- The text written for members with the given names and value texts. -/
def objectText (ns : List Bytes) (ts : List Bytes) : Bytes :=
  c%'{' :: joinComma ((ns.zip ts).map fun x => quoted x.1 ++ c%':' :: x.2) ++ b!"}"

/-! ### C28: round trip -/

/-- C28. An object is written as a JSON object with its members in order. Reading
that text into any object restores every member, reports no error, stops after
the text, and changes nothing but the members: whatever no member can change
(`g`) stays as it was. Names must be free of quotes. -/
theorem C28_round_trip (c : Cfg) (strict : Bool) (dflt : τ) {L : List (Entry τ)} (hf : Fields (L.map Entry.ref))
    (hn : ∀ n ∈ names L, c%'"' ∉ n) (v : τ) {ts : List Bytes}
    (h : All2 (fun en t => RT en.ref.ser (en.ref.get v) t) L ts) :
    Writes (objectSer c strict dflt (L.map Entry.toMember)).emit v (objectText (names L) ts) ∧
    ∀ v0, ∃ v', ReadsAt (objectSer c strict dflt (L.map Entry.toMember)).de v0 (objectText (names L) ts) v' ∧
      (∀ en ∈ L, en.ref.get v' = en.ref.get v) ∧
      ∀ {β : Type} (g : τ → β), (∀ en ∈ L, ∀ x t, g (en.ref.set x t) = g t) → g v' = g v0 := by
  have hw : ∀ {L : List (Entry τ)} {ts : List Bytes}, All2 (fun en t => RT en.ref.ser (en.ref.get v) t) L ts →
      All2 (fun m s => ∀ k, m.emit v k = k.puts s) (L.map Entry.toMember)
        (((names L).zip ts).map fun x => quoted x.1 ++ c%':' :: x.2) := by
    intro L ts h
    induction h with
    | nil => exact .nil
    | @cons en t L ts h1 _ ih =>
      refine .cons ?_ ih
      intro k
      cases en with
      | mem m => exact emitMember_writes h1.writes k
      | prop m => exact emitMember_writes h1.writes k
  have hr : ∀ {L : List (Entry τ)} {ts : List Bytes}, All2 (fun en t => RT en.ref.ser (en.ref.get v) t) L ts →
      (∀ n ∈ names L, c%'"' ∉ n) →
      All2 (fun m x => MReads m x.1.1 x.1.2 x.2) (L.map Entry.toMember)
        (((names L).zip ts).zip (L.map fun en => en.ref.set (en.ref.get v))) := by
    intro L ts h
    induction h with
    | nil => intro _; exact .nil
    | @cons en t L ts h1 _ ih =>
      intro hn
      refine .cons ?_ (ih fun n hm => hn n (List.mem_cons_of_mem _ hm))
      exact Entry.reads (hn _ (List.mem_cons_self ..)) h1.start h1.reads
  have hfst : ((((names L).zip ts).zip (L.map fun en => en.ref.set (en.ref.get v)))).map Prod.fst = (names L).zip ts := by
    rw [List.map_fst_zip]
    simp [names]
    omega
  have hsnd : ((((names L).zip ts).zip (L.map fun en => en.ref.set (en.ref.get v)))).map Prod.snd =
      L.map fun en => en.ref.set (en.ref.get v) := by
    rw [List.map_snd_zip]
    have := all2_length h
    simp [names]
    omega
  refine ⟨emitObject_writes (hw h), fun v0 => ⟨applyAll (L.map fun en => en.ref.set (en.ref.get v)) v0, ?_, restored hf v v0, ?_⟩⟩
  · have hs : ∀ x ∈ (names L).zip ts, Start x.2 := by
      have : ∀ {L : List (Entry τ)} {ts : List Bytes}, All2 (fun en t => RT en.ref.ser (en.ref.get v) t) L ts →
          ∀ t ∈ ts, Start t := by
        intro L ts h
        induction h with
        | nil => simp
        | cons h1 _ ih =>
          intro t ht
          rcases List.mem_cons.mp ht with rfl | ht
          · exact h1.start
          · exact ih t ht
      intro x hx
      exact this h _ (List.of_mem_zip hx).2
    have := deObject_cursor (c := c) (strict := strict) (hr h hn) (s := objectText (names L) ts)
      (by rw [hfst]; exact objText_of_join hs) dflt v0
    rwa [hsnd] at this
  · intro β g hg
    have : ∀ (l : List (Entry τ)), (∀ en ∈ l, en ∈ L) → ∀ t, g (applyAll (l.map fun en => en.ref.set (en.ref.get v)) t) = g t := by
      intro l
      induction l with
      | nil => intro _ t; rfl
      | cons a l ih =>
        intro hl t
        rw [List.map_cons, applyAll_cons, ih fun en hen => hl en (by simp [hen]), hg a (hl a (by simp))]
    exact this L (fun _ h => h) v0

/-- C28. If the members make up the whole structure, the object round-trips. -/
theorem C28_whole_round_trip (c : Cfg) (strict : Bool) (dflt : τ) {L : List (Entry τ)} (hf : Fields (L.map Entry.ref))
    (hn : ∀ n ∈ names L, c%'"' ∉ n) (hall : ∀ a b, (∀ en ∈ L, en.ref.get a = en.ref.get b) → a = b) (v : τ) {ts : List Bytes}
    (h : All2 (fun en t => RT en.ref.ser (en.ref.get v) t) L ts) :
    RT (objectSer c strict dflt (L.map Entry.toMember)) v (objectText (names L) ts) where
  writes := (C28_round_trip c strict dflt hf hn v h).1
  start := ⟨c%'{', _, rfl, by decide⟩
  reads := by
    intro v0
    obtain ⟨v', h1, h2, _⟩ := (C28_round_trip c strict dflt hf hn v h).2 v0
    rwa [hall v' v h2] at h1

/-! ### C29: order and unknown members -/

/-- C29. Nonstrict, distinct keys: reading a JSON object in any layout has
exactly the effects of its members; unknown members have none. -/
theorem C29_effects (c : Cfg) (dflt : τ) {L : List (Entry τ)} (hg : GoodNames L) {items : List (Bytes × Bytes)}
    {fs : List (τ → τ)} (h : All2 (Effect L) items fs) (hnd : (items.map Prod.fst).Nodup) {s : Bytes} (hs : ObjText items s)
    (v0 : τ) : ReadsAt (objectSer c false dflt (L.map Entry.toMember)).de v0 s (applyAll fs v0) := by
  intro rest e he _
  exact (deObject_items (c := c) hs (chain_distinct hg h (items_start hs) hnd [] L rfl (by simp) v0) rest he).1 _ rfl

/-- C29. Hence each member present gets the value its type reads from the text,
and each absent one keeps its value. -/
theorem C29_members (c : Cfg) (dflt : τ) {L : List (Entry τ)} (hf : Fields (L.map Entry.ref)) (hg : GoodNames L)
    {items : List (Bytes × Bytes)} {fs : List (τ → τ)} (h : All2 (Effect L) items fs) (hnd : (items.map Prod.fst).Nodup)
    {s : Bytes} (hs : ObjText items s) (v0 : τ) :
    ∃ v', ReadsAt (objectSer c false dflt (L.map Entry.toMember)).de v0 s v' ∧
      ∀ en ∈ L, (∀ t x, (en.ref.name, t) ∈ items → Reads en.ref.ser.de t x → en.ref.get v' = x) ∧
        (en.ref.name ∉ items.map Prod.fst → en.ref.get v' = en.ref.get v0) := by
  refine ⟨_, C29_effects c dflt hg h hnd hs v0, fun en hen => ⟨fun t x ht hx => ?_, fun hk => applyAll_absent hf h hen hk v0⟩⟩
  obtain ⟨pre, post, rfl⟩ := List.append_of_mem ht
  refine applyAll_last hf hg hen h ?_ hx v0
  rw [List.map_append, List.nodup_append, List.map_cons, List.nodup_cons] at hnd
  exact hnd.2.1.1

/-- C29. Two texts with the same known members in different orders, with
different unknown members and different layouts, give the same object. -/
theorem C29_order_irrelevant (c : Cfg) (dflt : τ) {L : List (Entry τ)} (hf : Fields (L.map Entry.ref)) (hg : GoodNames L)
    {items1 items2 : List (Bytes × Bytes)} {fs1 fs2 : List (τ → τ)} (h1 : All2 (Effect L) items1 fs1)
    (h2 : All2 (Effect L) items2 fs2) (hnd1 : (items1.map Prod.fst).Nodup) (hnd2 : (items2.map Prod.fst).Nodup)
    (hsame : (items1.filter fun x => decide (x.1 ∈ names L)).Perm (items2.filter fun x => decide (x.1 ∈ names L)))
    {s1 s2 : Bytes} (hs1 : ObjText items1 s1) (hs2 : ObjText items2 s2) (v0 : τ) :
    ∃ v', ReadsAt (objectSer c false dflt (L.map Entry.toMember)).de v0 s1 v' ∧
      ReadsAt (objectSer c false dflt (L.map Entry.toMember)).de v0 s2 v' := by
  refine ⟨_, C29_effects c dflt hg h1 hnd1 hs1 v0, ?_⟩
  rw [applyAll_same hf hg h1 h2 hnd1 hsame v0]
  exact C29_effects c dflt hg h2 hnd2 hs2 v0

/-! ### C30: strict objects -/

/-- C30. A strict object rejects every JSON object that has an unknown key,
wherever it stands; keys need not be distinct. -/
theorem C30_strict_unknown (c : Cfg) (dflt : τ) {L : List (Entry τ)} (hg : GoodNames L) {items : List (Bytes × Bytes)}
    {fs : List (τ → τ)} (h : All2 (Effect L) items fs) (hj : ∀ x ∈ items, Skippable x)
    (hu : ∃ x ∈ items, x.1 ∉ names L) {s : Bytes} (hs : ObjText items s) (v0 : τ) (rest : Bytes) {e : EPtr} (he : e.Clean) :
    ∃ v' p e', (objectSer c true dflt (L.map Entry.toMember)).de v0 (s ++ rest) e = .ok (v', p, e') ∧ e'.failed = true := by
  have hch := chain_run (strict := true) hg h (items_start hs) hj L (fun _ h => h) v0
  refine (deObject_items (c := c) hs hch rest he.not_failed).2 (runItems_strict_unknown ?_ (fun _ h => h) v0) he
  obtain ⟨x, hx, hxn⟩ := hu
  have : x.1 ∈ ((items.map Prod.fst).zip fs).map Prod.fst := by
    rw [List.map_fst_zip]
    · exact List.mem_map.mpr ⟨x, hx, rfl⟩
    · rw [List.length_map, all2_length h]
      exact Nat.le_refl _
  obtain ⟨y, hy, hyx⟩ := List.mem_map.mp this
  exact ⟨y, hy, by rw [hyx]; exact hxn⟩

/-- C30. A strict object accepts an object text with distinct known keys in the
order of the list. -/
theorem C30_strict_known (c : Cfg) (dflt : τ) {L : List (Entry τ)} (hg : GoodNames L) {items : List (Bytes × Bytes)}
    {fs : List (τ → τ)} (h : All2 (Effect L) items fs) (hj : ∀ x ∈ items, Skippable x)
    (hk : items.map Prod.fst = names L) {s : Bytes} (hs : ObjText items s) (v0 : τ) :
    ReadsAt (objectSer c true dflt (L.map Entry.toMember)).de v0 s (applyAll fs v0) := by
  intro rest e he _
  have hch := chain_run (strict := true) hg h (items_start hs) hj L (fun _ h => h) v0
  refine (deObject_items (c := c) hs hch rest he).1 _ ?_
  have hl : (items.map Prod.fst).length = fs.length := by rw [List.length_map, all2_length h]
  have := runItems_in_order (strict := true) (names := names L) (cur := names L) (first := (items.map Prod.fst).zip fs) (later := [])
    (by rw [List.map_fst_zip (by omega), hk]) v0
  rw [List.append_nil, List.map_snd_zip (by omega)] at this
  rw [this]
  rfl

/-! ### C31: duplicate keys -/

/-- C31. The exact result for any keys, with duplicates: that of the cursor
machine `runItems`. -/
theorem C31_exact (c : Cfg) (strict : Bool) (dflt : τ) {L : List (Entry τ)} (hg : GoodNames L) {items : List (Bytes × Bytes)}
    {fs : List (τ → τ)} (h : All2 (Effect L) items fs) (hj : ∀ x ∈ items, Skippable x) {s : Bytes} (hs : ObjText items s) (v0 : τ) :
    match runItems strict (names L) (names L) ((items.map Prod.fst).zip fs) v0 with
    | some v' => ReadsAt (objectSer c strict dflt (L.map Entry.toMember)).de v0 s v'
    | none => ∀ rest e, e.Clean → ∃ v' p e',
        (objectSer c strict dflt (L.map Entry.toMember)).de v0 (s ++ rest) e = .ok (v', p, e') ∧ e'.failed = true := by
  have hch := chain_run (strict := strict) hg h (items_start hs) hj L (fun _ h => h) v0
  generalize hres : runItems strict (names L) (names L) ((items.map Prod.fst).zip fs) v0 = res at hch
  cases res with
  | some v' =>
    intro rest e he _
    exact (deObject_items (c := c) hs hch rest he).1 _ rfl
  | none =>
    intro rest e he
    exact (deObject_items (c := c) hs hch rest he.not_failed).2 rfl he

/-- C31. If some declared name does not occur in the text, the last value of
each key stays. -/
theorem C31_last_wins (c : Cfg) (dflt : τ) {L : List (Entry τ)} (hf : Fields (L.map Entry.ref)) (hg : GoodNames L)
    {items : List (Bytes × Bytes)} {fs : List (τ → τ)} (h : All2 (Effect L) items fs) (hj : ∀ x ∈ items, Skippable x)
    (hmiss : ∃ n ∈ names L, n ∉ items.map Prod.fst) {s : Bytes} (hs : ObjText items s) (v0 : τ) :
    ∃ v', ReadsAt (objectSer c false dflt (L.map Entry.toMember)).de v0 s v' ∧
      ∀ en ∈ L, ∀ pre t post x, items = pre ++ (en.ref.name, t) :: post → en.ref.name ∉ post.map Prod.fst →
        Reads en.ref.ser.de t x → en.ref.get v' = x := by
  refine ⟨applyAll fs v0, ?_, ?_⟩
  · have hl : (items.map Prod.fst).length = fs.length := by rw [List.length_map, all2_length h]
    have := C31_exact c false dflt hg h hj hs v0
    rw [runItems_not_exhausted] at this
    · rwa [List.map_snd_zip (by omega)] at this
    · rwa [List.map_fst_zip (by omega)]
    · have : ∀ {items : List (Bytes × Bytes)} {fs : List (τ → τ)}, All2 (Effect L) items fs →
          ∀ x ∈ (items.map Prod.fst).zip fs, x.1 ∉ names L → x.2 = id := by
        intro items fs h
        induction h with
        | nil => simp
        | @cons y f _ _ hy _ ih =>
          intro x hx
          rw [List.map_cons, List.zip_cons_cons] at hx
          rcases List.mem_cons.mp hx with rfl | hx
          · exact fun hn => (effect_unknown hy hn).1
          · exact ih x hx
      exact this h
    · exact fun _ h => h
  · rintro en hen pre t post x rfl hk hx
    exact applyAll_last hf hg hen h hk hx v0

/-- C31. After all declared members have been read in order, the rest of the
text has no effect (nonstrict) or is an error (strict) - duplicates included. -/
theorem C31_after_all_members (c : Cfg) (strict : Bool) (dflt : τ) {L : List (Entry τ)} (hg : GoodNames L)
    {first later : List (Bytes × Bytes)} {fs gs : List (τ → τ)} (h1 : All2 (Effect L) first fs) (h2 : All2 (Effect L) later gs)
    (hj : ∀ x ∈ first ++ later, Skippable x) (hk : first.map Prod.fst = names L) {s : Bytes} (hs : ObjText (first ++ later) s)
    (v0 : τ) :
    (strict = false → ReadsAt (objectSer c strict dflt (L.map Entry.toMember)).de v0 s (applyAll fs v0)) ∧
    (strict = true → later ≠ [] → ∀ rest e, e.Clean → ∃ v' p e',
        (objectSer c strict dflt (L.map Entry.toMember)).de v0 (s ++ rest) e = .ok (v', p, e') ∧ e'.failed = true) := by
  have hboth : All2 (Effect L) (first ++ later) (fs ++ gs) := by
    clear hs hj hk
    induction h1 with
    | nil => exact h2
    | cons hx _ ih => exact .cons hx ih
  have hl : (first.map Prod.fst).length = fs.length := by rw [List.length_map, all2_length h1]
  have hex := C31_exact c strict dflt hg hboth hj hs v0
  rw [List.map_append, List.zip_append hl, runItems_in_order (by rw [List.map_fst_zip (by omega), hk]),
    List.map_snd_zip (by omega)] at hex
  cases h2 with
  | nil => exact ⟨fun _ => hex, fun _ h => absurd rfl h⟩
  | cons _ _ =>
    simp only [List.map_cons, List.zip_cons_cons, runItems] at hex
    constructor
    · rintro rfl; exact hex
    · rintro rfl _; exact hex

/-! ### C32: null and empty -/

/-- C32. `null` is read as zero by the integer types. -/
theorem C32_null_integer (c : Cfg) (ty : IntTy) : Reads (intSer c ty).de b!"null" 0 := by
  intro v0 rest e _ _
  have := parseNull_ok rest e
  simp only [List.cons_append, List.nil_append] at this
  simp [intSer, deInt, isNull, this]

/-- C32. `null` is read as `false`. -/
theorem C32_null_bool : Reads boolSer.de b!"null" false := by
  intro v0 rest e _ _
  have := parseNull_ok rest e
  simp only [List.cons_append, List.nil_append] at this
  simp [boolSer, deBool, isNull, this]

/-- C32. `null` is read as the empty string. -/
theorem C32_null_string : Reads strSer.de b!"null" [] := by
  intro v0 rest e _ _
  have := parseNull_ok rest e
  simp only [List.cons_append, List.nil_append] at this
  simp [strSer, deStr, isNull, this]

/-- C32. `null` empties a sequence, set or dictionary. -/
theorem C32_null_container {α C : Type} (K : Coll α C) (S : Ser α) (l r : Byte) : Reads (seqSer K S l r).de b!"null" K.clear := by
  intro v0 rest e _ _
  have := parseNull_ok rest e
  simp only [List.cons_append, List.nil_append] at this
  simp [seqSer, deSeq, isNull, this]

/-- C32. `null` resets an object. -/
theorem C32_null_object (c : Cfg) (strict : Bool) (dflt : τ) (L : List (Member τ)) :
    Reads (objectSer c strict dflt L).de b!"null" dflt := by
  intro v0 rest e _ _
  have := parseNull_ok rest e
  simp only [List.cons_append, List.nil_append] at this
  simp [objectSer, deObject, isNull, this]

/-- C32. `{}` and `[]` leave an object as it was, whatever its members are. -/
theorem C32_empty_object (c : Cfg) (strict : Bool) (dflt : τ) (L : List (Member τ)) {g : Bytes} (hg : Gap g) (v0 : τ) :
    ReadsAt (objectSer c strict dflt L).de v0 (c%'{' :: (g ++ b!"}")) v0 ∧
    ReadsAt (objectSer c strict dflt L).de v0 (c%'[' :: (g ++ b!"]")) v0 := by
  constructor
  · intro rest e he _
    exact (deObject_items (c := c) (dflt := dflt) (.empty hg) (.done (strict := strict) (L := L)) rest he).1 _ rfl
  · intro rest e he _
    have heq : c%'[' :: (g ++ b!"]") ++ rest = c%'[' :: (g ++ c%']' :: rest) := by simp
    have hsp := parseSpace_byte (b := c%']') hg (by decide) rest e
    have hnull : isNull (c%'[' :: (g ++ c%']' :: rest)) = false := rfl
    have hb : (c%'[' : Byte) ≠ c%'{' := by decide
    simp only [objectSer]
    rw [heq]
    unfold deObject
    rw [hnull]
    simp [hsp, deref_cons]

/-! ### C43: member_if -/

/-- C43. `member_if` writes its first alternative when that differs from its
default, and the second otherwise. -/
theorem C43_writes (l r : MRef τ) (isDflt : l.α → Bool) (RU : Bool) (v : τ) (t : Bytes) (k : Sink) :
    (isDflt (l.get v) = false → Writes l.ser.emit (l.get v) t →
      (memberIf l r isDflt RU).emit v k = k.puts (quoted l.name ++ c%':' :: t)) ∧
    (isDflt (l.get v) = true → Writes r.ser.emit (r.get v) t →
      (memberIf l r isDflt RU).emit v k = k.puts (quoted r.name ++ c%':' :: t)) := by
  refine ⟨fun hd hw => ?_, fun hd hw => ?_⟩
  · simp only [memberIf, hd, Bool.not_false, if_true]
    exact emitMember_writes hw k
  · simp only [memberIf, hd, Bool.not_true, Bool.false_eq_true, if_false]
    exact emitMember_writes hw k

/-- C43. An object with one `member_if` (two alternatives under one name)
round-trips: the written alternative is restored, the other one is reset to
what `null` gives (`dl`, `dr`). The alternative tried first must reject the
text if it belongs to the other one. `w` tells which alternative is written. -/
theorem C43_round_trip (c : Cfg) (strict : Bool) (dflt : τ) {l r : MRef τ} (hf : Fields [l, r]) (hname : l.name = r.name)
    (hn : c%'"' ∉ l.name) (isDflt : l.α → Bool) (RU : Bool) {dl : l.α} {dr : r.α} (hdl : Reads l.ser.de b!"null" dl)
    (hdr : Reads r.ser.de b!"null" dr) (v : τ) {t : Bytes} :
    (isDflt (l.get v) = false → RT l.ser (l.get v) t → (RU = true → Rejects r.ser.de t) →
      Writes (objectSer c strict dflt [memberIf l r isDflt RU]).emit v (objectText [l.name] [t]) ∧
      ∀ v0, ∃ v', ReadsAt (objectSer c strict dflt [memberIf l r isDflt RU]).de v0 (objectText [l.name] [t]) v' ∧
        l.get v' = l.get v ∧ r.get v' = dr) ∧
    (isDflt (l.get v) = true → RT r.ser (r.get v) t → (RU = false → Rejects l.ser.de t) →
      Writes (objectSer c strict dflt [memberIf l r isDflt RU]).emit v (objectText [l.name] [t]) ∧
      ∀ v0, ∃ v', ReadsAt (objectSer c strict dflt [memberIf l r isDflt RU]).de v0 (objectText [l.name] [t]) v' ∧
        r.get v' = r.get v ∧ l.get v' = dl) := by
  have hl := hf.get_set l (by simp)
  have hr := hf.get_set r (by simp)
  have hap := hf.other (pre := []) (a := l) (post := [r]) rfl (b := r) (by simp)
  have hw : ∀ s, (∀ k, (memberIf l r isDflt RU).emit v k = k.puts (quoted l.name ++ c%':' :: s)) →
      Writes (objectSer c strict dflt [memberIf l r isDflt RU]).emit v (objectText [l.name] [s]) := by
    intro s hs
    exact emitObject_writes (.cons hs .nil)
  have hread : ∀ (f : τ → τ), MReads (memberIf l r isDflt RU) l.name t f → Start t → ∀ v0,
      ReadsAt (objectSer c strict dflt [memberIf l r isDflt RU]).de v0 (objectText [l.name] [t]) (f v0) := by
    intro f hm hs v0
    exact deObject_cursor (xs := [((l.name, t), f)]) (.cons hm .nil) (objText_of_join (xs := [(l.name, t)]) (by simpa using hs)) dflt v0
  refine ⟨fun hd ht hrej => ⟨hw t fun k => ?_, fun v0 => ?_⟩, fun hd ht hrej => ⟨hw t fun k => ?_, fun v0 => ?_⟩⟩
  · exact (C43_writes l r isDflt RU v t k).1 hd ht.writes
  · cases RU with
    | true =>
      have := deMemberIf_second hname.symm (hname ▸ hn) ht.start (hrej rfl) ht.reads hdr (hf.set_set r (by simp))
        (memberIf l r isDflt true).emit
      exact ⟨_, hread _ this ht.start v0, by rw [hl], by rw [hap.2.1, hr]⟩
    | false =>
      have := deMemberIf_first hn ht.start ht.reads hdr (memberIf l r isDflt false).emit
      exact ⟨_, hread _ this ht.start v0, by rw [hap.1, hl], by rw [hr]⟩
  · rw [hname]; exact (C43_writes l r isDflt RU v t k).2 hd ht.writes
  · cases RU with
    | true =>
      have := deMemberIf_first (hname ▸ hn) ht.start ht.reads hdl (memberIf l r isDflt true).emit
      rw [← hname] at this
      exact ⟨_, hread _ this ht.start v0, by rw [hap.2.1, hr], by rw [hl]⟩
    | false =>
      have := deMemberIf_second hname hn ht.start (hrej rfl) ht.reads hdl (hf.set_set l (by simp))
        (memberIf l r isDflt false).emit
      rw [← hname] at this
      exact ⟨_, hread _ this ht.start v0, by rw [hr], by rw [hap.1, hl]⟩

end

/-! ### A structure with three members -/

/-- `struct { int a; bool b; std::string s; int other; }` with members `a`, `b`, `s`. -/
structure Demo where
  a : Int
  b : Bool
  s : Bytes
  other : Int
deriving DecidableEq

def demoA : MRef Demo := ⟨b!"a", (·.a), fun x t => { t with a := x }, intSer .strict .int⟩
def demoB : MRef Demo := ⟨b!"b", (·.b), fun x t => { t with b := x }, boolSer⟩
def demoS : MRef Demo := ⟨b!"s", (·.s), fun x t => { t with s := x }, strSer⟩
def demoList : List (Entry Demo) := [.mem demoA, .prop demoB, .mem demoS]
def demoSer (strict : Bool) : Ser Demo := objectSer .strict strict ⟨0, false, [], 0⟩ (demoList.map Entry.toMember)

/-- The hypotheses of the theorems are met by it: -/
example : Fields (demoList.map Entry.ref) := by
  constructor
  · intro m hm
    simp [demoList, Entry.ref] at hm
    rcases hm with rfl | rfl | rfl <;> intros <;> rfl
  · intro m hm
    simp [demoList, Entry.ref] at hm
    rcases hm with rfl | rfl | rfl <;> intros <;> rfl
  · simp [demoList, Entry.ref, demoA, demoB, demoS]
example : GoodNames demoList := ⟨by decide, by
  intro n hn
  simp [names, demoList, Entry.ref, demoA, demoB, demoS] at hn
  rcases hn with rfl | rfl | rfl <;> exact ⟨by decide, by decide⟩⟩
example : Effect demoList (b!"b", b!"true") (demoB.set true) :=
  .known (en := .prop demoB) (by simp [demoList]) (boolSer_rt true).reads
example : Effect demoList (b!"zz", b!"[]") id :=
  .unknown (by simp [demoList, Entry.ref, demoA, demoB, demoS])
    (.cons (c := b!"z") (.raw ⟨c%'z', 0, [], rfl, .inl ⟨by decide, rfl⟩, rfl, by simp⟩ (by decide) (by decide))
      (.cons (c := b!"z") (.raw ⟨c%'z', 0, [], rfl, .inl ⟨by decide, rfl⟩, rfl, by simp⟩ (by decide) (by decide)) .nil))
    (.arr0 .nil)
example : ObjText [(b!"b", b!"true"), (b!"zz", b!"[]")] b!"{ \"b\":true,\"zz\" : [] }" :=
  .items (g := b!" ") (.ws (by simp [WsByte]) .nil)
    (.more (g1 := []) (g2 := []) (g3 := []) (g4 := []) .nil .nil (boolSer_rt true).start .nil .nil
      (.one (g1 := b!" ") (g2 := b!" ") (g3 := b!" ") (.ws (by simp [WsByte]) .nil) (.ws (by simp [WsByte]) .nil)
        ⟨c%'[', _, rfl, by decide⟩ (.ws (by simp [WsByte]) .nil)))

/-- Round trip, any order, unknown members, strict mode: -/
example : (demoSer false).emit ⟨-5, true, b!"x", 9⟩ ⟨[], .back⟩ = .ok ⟨b!"{\"a\":-5,\"b\":true,\"s\":\"x\"}", .back⟩ := by
  decide +kernel
example : (demoSer true).de ⟨1, false, b!"old", 7⟩ b!"{\"a\":-5,\"b\":true,\"s\":\"x\"}" .fresh =
    .ok (⟨-5, true, b!"x", 7⟩, [], .fresh) := by decide +kernel
example : (demoSer false).de ⟨1, false, b!"old", 7⟩ b!"{\"s\":\"x\", \"zz\":[1,{}], \"a\": -5}" .fresh =
    .ok (⟨-5, false, b!"x", 7⟩, [], .fresh) := by decide +kernel
example : (demoSer true).de ⟨1, false, b!"old", 7⟩ b!"{\"s\":\"x\", \"zz\":[1,{}], \"a\": -5}" .fresh =
    .ok (⟨1, false, b!"x", 7⟩, [], .obj ⟨.InvalidMember, none, 21⟩) := by decide +kernel

/-- C31, "last one wins" is not a law: with the three members above the second
`a` wins after `a` alone, but not after all members have been read in order. -/
theorem C31_not_last_wins :
    (demoSer false).de ⟨0, false, [], 0⟩ b!"{\"a\":1,\"a\":2}" .fresh = .ok (⟨2, false, [], 0⟩, [], .fresh) ∧
    (demoSer false).de ⟨0, false, [], 0⟩ b!"{\"a\":1,\"b\":true,\"s\":\"\",\"a\":2}" .fresh =
      .ok (⟨1, true, [], 0⟩, [], .fresh) := by decide +kernel

/-- C43. A structure where one name stands for an integer or a boolean. -/
def demoIf (RU : Bool) : Member Demo :=
  memberIf ⟨b!"v", (·.a), fun x t => { t with a := x }, intSer .strict .int⟩
    ⟨b!"v", (·.b), fun x t => { t with b := x }, boolSer⟩ (fun x => decide (x = 0)) RU
def demoIfSer (RU : Bool) : Ser Demo := objectSer .strict false ⟨0, false, [], 0⟩ [demoIf RU, member demoS]

example : Rejects boolSer.de b!"12" := fun _ _ _ =>
  ⟨false, [], .obj ⟨.InvalidBool, none, _⟩, rfl, rfl⟩
example (RU : Bool) : (demoIfSer RU).emit ⟨12, true, b!"x", 0⟩ ⟨[], .back⟩ = .ok ⟨b!"{\"v\":12,\"s\":\"x\"}", .back⟩ ∧
    (demoIfSer RU).de ⟨3, true, [], 0⟩ b!"{\"v\":12,\"s\":\"x\"}" .fresh = .ok (⟨12, false, b!"x", 0⟩, [], .fresh) ∧
    (demoIfSer RU).de ⟨3, false, [], 0⟩ b!"{\"v\":true,\"s\":\"x\"}" .fresh = .ok (⟨0, true, b!"x", 0⟩, [], .fresh) := by
  cases RU <;> decide +kernel

/-- The members `s`, the one that is an integer or a boolean, and `o`. -/
def demoIf3 : Ser Demo := objectSer .strict false ⟨0, false, [], 0⟩
  [member demoS, demoIf false, member ⟨b!"o", (·.other), fun x t => { t with other := x }, intSer .strict .int⟩]

/-- C43. Order independence (C29) fails for `member_if`: when another key is
looked for out of order, the alternative tried last is reset, even if it has
been read from the same text. -/
theorem C43_order_matters :
    demoIf3.de ⟨0, false, [], 0⟩ b!"{\"s\":\"\",\"v\":true,\"o\":1}" .fresh = .ok (⟨0, true, [], 1⟩, [], .fresh) ∧
    demoIf3.de ⟨0, false, [], 0⟩ b!"{\"v\":true,\"o\":1,\"s\":\"\"}" .fresh = .ok (⟨0, false, [], 1⟩, [], .fresh) := by
  decide +kernel

end Wjson
