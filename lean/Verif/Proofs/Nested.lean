import Verif.Spec.Nested
import Verif.Proofs.Back
import Verif.Proofs.Slots
import Verif.Props.Scalars
import Verif.Props.Containers
import Verif.Props.Objects
import Verif.Props.ObjectArrays
import Verif.Props.Enums
import Verif.Props.Flags
import Verif.Props.Misc
import Verif.Props.Units
import Verif.Props.Float
/-
Round trips of nested descriptions.
-/
namespace Wjson
open Spec

theorem all2_choose {α : Type} {P : α → Bytes → Prop} {vs : List α} (h : ∀ v ∈ vs, ∃ t, P v t) : ∃ ts, All2 P vs ts := by
  induction vs with
  | nil => exact ⟨[], .nil⟩
  | cons v vs ih =>
    obtain ⟨t, ht⟩ := h v (by simp)
    obtain ⟨ts, hts⟩ := ih fun x hx => h x (by simp [hx])
    exact ⟨t :: ts, .cons ht hts⟩

theorem all2_choose' {α : Type 1} {P : α → Bytes → Prop} {vs : List α} (h : ∀ v ∈ vs, ∃ t, P v t) : ∃ ts, All2 P vs ts := by
  induction vs with
  | nil => exact ⟨[], .nil⟩
  | cons v vs ih =>
    obtain ⟨t, ht⟩ := h v (by simp)
    obtain ⟨ts, hts⟩ := ih fun x hx => h x (by simp [hx])
    exact ⟨t :: ts, .cons ht hts⟩

theorem RTB.u {α : Type} {S : Ser α} {v : α} {t : Bytes} (h : RTB S v t) : RTU S v v t := ⟨h.writes, h.start, h.reads⟩

theorem RTU.b {α : Type} {S : Ser α} {v : α} {t : Bytes} (h : RTU S v v t) : RTB S v t := ⟨h.writes, h.start, h.reads⟩

section
variable {α C : Type} {S : Ser α} {K : Coll α C} {R : Byte}

theorem seqSer_rtb (hR : R = c%']' ∨ R = c%'}') {L : Byte} (hL : L = c%'[' ∨ L = c%'{') {c : C}
    (h : ∀ v ∈ K.elems c, ∃ t, RTB S v t) (hc : (K.elems c).foldl K.insert K.clear = c) :
    ∃ t, RTB (seqSer K S L R) c t := by
  obtain ⟨ts, h⟩ := all2_choose h
  refine ⟨L :: joinComma ts ++ [R], emitSeq_back (all2_imp (fun _ _ h => h.writes) h),
    Start.of_byte (by rcases hL with rfl | rfl <;> simp), ?_⟩
  intro c0 rest e he _
  have hi : ItemsText (fun v t => ReadsAt S.de S.dflt t v) R (K.elems c) (joinComma ts ++ [R]) :=
    items_of_join (all2_imp (fun _ _ h => ⟨h.start, h.reads _⟩) h)
  have := deSeq_items (K := K) hR (L := L) (by rcases hL with rfl | rfl <;> decide) hi c0 rest he
  rw [hc] at this
  simpa [seqSer] using this

end

theorem fieldSer_rtb {κ ν : Type} {SK : Ser κ} {SV : Ser ν} {x : κ × ν} {kt vt : Bytes} (hk : RTB SK x.1 kt) (hv : RTB SV x.2 vt) :
    RTB (fieldSer SK SV) x (kt ++ c%':' :: vt) where
  writes := emitField_back hk.writes hv.writes
  start := by
    obtain ⟨b, u, rfl, h⟩ := hk.start
    exact ⟨b, _, rfl, h⟩
  reads := by
    intro t0
    have := deField_reads (kv := x) (t0 := t0) (hk.reads _) .nil .nil hv.start (hv.reads _)
    simpa [fieldSer] using this

/-- The branch of `deFixVec` for another number of elements is not taken. -/
theorem deFixVec_eq {α : Type} {N : Nat} (k : FixKind) (S : Ser α) (t : Vector α N) (s : Bytes) (e : EPtr) :
    (∃ (w : Vector α N) (p : Bytes) (e' : EPtr), deFix k S c%'[' c%']' t.toList s e = .ok (w.toList, p, e') ∧ deFixVec k S t s e = .ok (w, p, e')) ∨
    (deFix k S c%'[' c%']' t.toList s e = .ub ∧ deFixVec k S t s e = .ub) ∨
    (deFix k S c%'[' c%']' t.toList s e = .fuel ∧ deFixVec k S t s e = .fuel) := by
  unfold deFixVec
  cases h : deFix k S c%'[' c%']' t.toList s e with
  | ok r =>
    obtain ⟨ws, p, e'⟩ := r
    have hl : ws.length = N := by rw [deFix_length h]; simp
    refine .inl ⟨⟨ws.toArray, by simpa using hl⟩, p, e', rfl, ?_⟩
    simp [hl]
  | ub => exact .inr (.inl ⟨rfl, rfl⟩)
  | fuel => exact .inr (.inr ⟨rfl, rfl⟩)

theorem fixVec_rtb {α : Type} {N : Nat} (k : FixKind) (hN : 1 ≤ N) {S : Ser α} {vs : Vector α N}
    (h : ∀ v ∈ vs.toList, ∃ t, RTB S v t) : ∃ t, RTB (fixVecSer k N S) vs t := by
  obtain ⟨ts, h⟩ := all2_choose h
  refine ⟨c%'[' :: joinComma ts ++ b!"]", emitFix_back (all2_imp (fun _ _ h => h.writes) h), ⟨_, _, rfl, by unfold WsByte; decide⟩, ?_⟩
  intro old rest e he _
  have hlen : vs.toList.length = N := by simp
  have hi : Items1 (fun v t => Reads S.de t v) c%']' vs.toList (joinComma ts ++ [c%']']) :=
    items1_of_join (by intro h; rw [h] at hlen; simp at hlen; omega) (all2_imp (fun _ _ h => ⟨h.start, h.reads⟩) h)
  have := C26_fewer_elements k hi (N := N) (old := old.toList) (by simp) (by simp) rest he
  have hd : old.toList.drop vs.toList.length = [] := List.drop_eq_nil_of_le (by simp)
  rw [hd, List.append_nil] at this
  simp only [fixSer] at this
  have hx : c%'[' :: joinComma ts ++ b!"]" ++ rest = c%'[' :: (joinComma ts ++ [c%']']) ++ rest := by simp
  rw [hx]
  simp only [fixVecSer]
  rcases deFixVec_eq k S old (c%'[' :: (joinComma ts ++ [c%']']) ++ rest) e with ⟨w, p, e', h1, h2⟩ | ⟨h1, _⟩ | ⟨h1, _⟩
  · rw [this] at h1
    simp only [Out.ok.injEq, Prod.mk.injEq] at h1
    rw [h2, ← h1.2.1, ← h1.2.2, Vector.toList_inj.mp h1.1]
  · rw [this] at h1; cases h1
  · rw [this] at h1; cases h1

section
variable {τ : Type}

theorem object_rtu (c : Cfg) (strict : Bool) (dflt : τ) {L : List (Entry τ)} (hf : Fields (L.map Entry.ref))
    (hn : ∀ n ∈ names L, c%'"' ∉ n) (hall : ∀ a b, (∀ en ∈ L, en.ref.get a = en.ref.get b) → a = b) (v v' : τ)
    (h : ∀ en ∈ L, ∃ t, RTU en.ref.ser (en.ref.get v) (en.ref.get v') t) :
    ∃ t, RTU (objectSer c strict dflt (L.map Entry.toMember)) v v' t := by
  obtain ⟨ts, h⟩ := all2_choose' h
  have hw : ∀ {L : List (Entry τ)} {ts : List Bytes}, All2 (fun en t => RTU en.ref.ser (en.ref.get v) (en.ref.get v') t) L ts →
      All2 (fun m s => WritesBack m.emit v s) (L.map Entry.toMember)
        (((names L).zip ts).map fun x => quoted x.1 ++ c%':' :: x.2) := by
    intro L ts h
    induction h with
    | nil => exact .nil
    | @cons en t L ts h1 _ ih =>
      refine .cons ?_ ih
      cases en with
      | mem m => exact emitMember_back h1.writes
      | prop m => exact emitMember_back h1.writes
  have hr : ∀ {L : List (Entry τ)} {ts : List Bytes}, All2 (fun en t => RTU en.ref.ser (en.ref.get v) (en.ref.get v') t) L ts →
      (∀ n ∈ names L, c%'"' ∉ n) →
      All2 (fun m x => MReads m x.1.1 x.1.2 x.2) (L.map Entry.toMember)
        (((names L).zip ts).zip (L.map fun en => en.ref.set (en.ref.get v'))) := by
    intro L ts h
    induction h with
    | nil => intro _; exact .nil
    | @cons en t L ts h1 _ ih =>
      intro hn
      refine .cons ?_ (ih fun n hm => hn n (List.mem_cons_of_mem _ hm))
      exact Entry.reads (hn _ (List.mem_cons_self ..)) h1.start h1.reads
  have hfst : ((((names L).zip ts).zip (L.map fun en => en.ref.set (en.ref.get v')))).map Prod.fst = (names L).zip ts := by
    rw [List.map_fst_zip]
    simp [names]
    omega
  have hsnd : ((((names L).zip ts).zip (L.map fun en => en.ref.set (en.ref.get v')))).map Prod.snd =
      L.map fun en => en.ref.set (en.ref.get v') := by
    rw [List.map_snd_zip]
    have := all2_length h
    simp [names]
    omega
  refine ⟨objectText (names L) ts, emitObject_back (hw h), ⟨c%'{', _, rfl, by decide⟩, fun v0 => ?_⟩
  have hs : ∀ x ∈ (names L).zip ts, Start x.2 := by
    have : ∀ {L : List (Entry τ)} {ts : List Bytes}, All2 (fun en t => RTU en.ref.ser (en.ref.get v) (en.ref.get v') t) L ts →
        ∀ t ∈ ts, Start t := by
      intro L ts h
      induction h with
      | nil => simp
      | cons h1 _ ih =>
        intro t ht
        rcases List.mem_cons.mp ht with rfl | ht
        · exact h1.start
        · exact ih t ht
    intro x hx
    exact this h _ (List.of_mem_zip hx).2
  have := deObject_cursor (c := c) (strict := strict) (hr h hn) (s := objectText (names L) ts)
    (by rw [hfst]; exact objText_of_join hs) dflt v0
  rw [hsnd, hall _ v' (restored hf v' v0)] at this
  exact this

theorem object_rtb (c : Cfg) (strict : Bool) (dflt : τ) {L : List (Entry τ)} (hf : Fields (L.map Entry.ref))
    (hn : ∀ n ∈ names L, c%'"' ∉ n) (hall : ∀ a b, (∀ en ∈ L, en.ref.get a = en.ref.get b) → a = b) (v : τ)
    (h : ∀ en ∈ L, ∃ t, RTB en.ref.ser (en.ref.get v) t) :
    ∃ t, RTB (objectSer c strict dflt (L.map Entry.toMember)) v t := by
  obtain ⟨t, h⟩ := object_rtu c strict dflt hf hn hall v v fun en hen => (h en hen).imp fun _ h => h.u
  exact ⟨t, h.b⟩

theorem objectArray_rtu (dflt : τ) {L : List (Entry τ)} (hf : Fields (L.map Entry.ref))
    (hall : ∀ a b, (∀ en ∈ L, en.ref.get a = en.ref.get b) → a = b) (v v' : τ)
    (h : ∀ en ∈ L, ∃ t, RTU en.ref.ser (en.ref.get v) (en.ref.get v') t) :
    ∃ t, RTU (objectArraySer dflt (L.map Entry.toAMember)) v v' t := by
  obtain ⟨ts, h⟩ := all2_choose' h
  have hw : ∀ {L : List (Entry τ)} {ts : List Bytes}, All2 (fun en t => RTU en.ref.ser (en.ref.get v) (en.ref.get v') t) L ts →
      All2 (fun m s => WritesBack m.emit v s) (L.map Entry.toAMember) ts := by
    intro L ts h
    induction h with
    | nil => exact .nil
    | @cons en t L ts h1 _ ih =>
      refine .cons ?_ ih
      cases en with
      | mem m => exact h1.writes
      | prop m => exact h1.writes
  have hst : ∀ {L : List (Entry τ)} {ts : List Bytes}, All2 (fun en t => RTU en.ref.ser (en.ref.get v) (en.ref.get v') t) L ts → ∀ v0,
      Stores L ts v0 (applyAll (L.map fun en => en.ref.set (en.ref.get v')) v0) := by
    intro L ts h
    induction h with
    | nil => exact fun _ => .nil
    | cons h1 _ ih => exact fun v0 => .cons h1.reads (ih _)
  refine ⟨arrayText ts, emitObjectArray_back (hw h), ⟨c%'[', _, rfl, by decide⟩, fun v0 => ?_⟩
  have heq := hall _ v' (restored hf v' v0)
  obtain ⟨xs, h3, h4, h5⟩ := (hst h v0).all
  rw [heq] at h5
  cases h with
  | nil =>
    rw [show v' = v0 by simpa [applyAll] using heq.symm]
    exact deObjectArray_empty dflt v0 (g := []) .nil
  | @cons en t L ts h1 h2 =>
    rw [← h5]
    have hst : ∀ x ∈ t :: ts, Start x := by
      have : ∀ {L : List (Entry τ)} {ts : List Bytes}, All2 (fun en t => RTU en.ref.ser (en.ref.get v) (en.ref.get v') t) L ts →
          ∀ t ∈ ts, Start t := by
        intro L ts h
        induction h with
        | nil => simp
        | cons h1 _ ih =>
          intro t ht
          rcases List.mem_cons.mp ht with rfl | ht
          · exact h1.start
          · exact ih t ht
      exact this (.cons h1 h2)
    have hi : Items1 (fun v t => v = t) c%']' (xs.map Prod.fst) (joinComma (t :: ts) ++ b!"]") := by
      rw [h4]
      clear h1 h2 h3 h4 h5 hf heq hall
      induction ts generalizing t with
      | nil =>
        have := Items1.last (item := fun v t => v = t) (R := c%']') (g1 := []) (g2 := []) .nil (hst t (by simp)) rfl .nil
        simpa [joinComma] using this
      | cons u ts ih =>
        have := Items1.more (item := fun v t => v = t) (R := c%']') (g1 := []) (g2 := []) .nil (hst t (by simp)) rfl .nil
          (ih (t := u) (fun x hx => hst x (by simp [hx])))
        simpa [joinComma] using this
    have := deObjectArray_items h3 hi [] dflt v0
    rwa [List.append_nil] at this

theorem objectArray_rtb (dflt : τ) {L : List (Entry τ)} (hf : Fields (L.map Entry.ref))
    (hall : ∀ a b, (∀ en ∈ L, en.ref.get a = en.ref.get b) → a = b) (v : τ)
    (h : ∀ en ∈ L, ∃ t, RTB en.ref.ser (en.ref.get v) t) :
    ∃ t, RTB (objectArraySer dflt (L.map Entry.toAMember)) v t := by
  obtain ⟨t, h⟩ := objectArray_rtu dflt hf hall v v fun en hen => (h en hen).imp fun _ h => h.u
  exact ⟨t, h.b⟩

end

section
variable {τ : Type} {L : List (Slot τ)} {v : τ}

theorem slots_rtu (h : ∀ x ∈ L, ∃ t, RTB (x.live v).ser ((x.live v).get v) t)
    (hnull : ∀ x ∈ L, ∀ o, x.idle v = some o → Reads o.ser.de b!"null" (o.get v))
    (hfirst : ∀ x ∈ L, ∀ o, x.idle v = some o → x.idleFirst v → ∀ t,
      (x.live v).ser.emit ((x.live v).get v) ⟨[], .back⟩ = .ok ⟨t, .back⟩ → Rejects o.ser.de t) :
    ∃ ts, All2 (SlotText v v) L ts :=
  all2_choose' fun x hx =>
    have ⟨t, ht⟩ := h x hx
    ⟨t, ht.u, hnull x hx, fun o ho hi => hfirst x hx o ho hi t ht.writes.at_nil⟩

theorem objectIf_rtb (c : Cfg) (strict : Bool) (dflt : τ) (hf : Fields (L.flatMap Slot.refs))
    (hs : ∀ x ∈ L, SameNames x) (hn : ∀ x ∈ L, c%'"' ∉ (x.live v).name)
    (hall : ∀ a b, (∀ m ∈ L.flatMap Slot.refs, m.get a = m.get b) → a = b) (h : ∃ ts, All2 (SlotText v v) L ts) :
    ∃ t, RTB (objectSer c strict dflt (L.map Slot.toMember)) v t := by
  obtain ⟨ts, h⟩ := h
  obtain ⟨h1, h2⟩ := object_slots c strict dflt hf hs v v hn h
  refine ⟨_, h1, ⟨c%'{', _, rfl, by decide⟩, fun v0 => ?_⟩
  have := h2 v0
  rwa [hall _ v (setRefs_get hf v0)] at this

theorem objectArrayIf_rtb (dflt : τ) (hf : Fields (L.flatMap Slot.refs))
    (hall : ∀ a b, (∀ m ∈ L.flatMap Slot.refs, m.get a = m.get b) → a = b) (h : ∃ ts, All2 (SlotText v v) L ts) :
    ∃ t, RTB (objectArraySer dflt (L.map Slot.toAMember)) v t := by
  obtain ⟨ts, h⟩ := h
  obtain ⟨h1, h2⟩ := objectArray_slots dflt hf v v h
  refine ⟨_, h1, ⟨c%'[', _, rfl, by decide⟩, fun v0 => ?_⟩
  have := h2 v0
  rwa [hall _ v (setRefs_get hf v0)] at this

end

theorem quoted_rtb {α : Type} {S : Ser α} {v : α} {t : Bytes} (h : RTB S v t) (ht : StrOk t) (reqQ : Bool) :
    RTB (quotedSer S true reqQ) v (c%'"' :: strBody false t ++ b!"\"") where
  writes := by
    intro m
    have h1 := h.writes []
    simp only [List.nil_append] at h1
    simp [quotedSer, emitQuoted, h1, strSer, emitStr, Sink.puts_back]
  start := ⟨_, _, rfl, by unfold WsByte; decide⟩
  reads := by
    have hs := strSer_rt ht
    intro v0 rest e he hdel
    have h1 := hs.reads [] rest e he hdel
    have h2 := h.reads v0 [] .fresh rfl (by intro b hb; cases hb)
    simp only [List.append_nil] at h2
    have hq : deQuotedStr S v0 (c%'"' :: strBody false t ++ b!"\"" ++ rest) e = .ok (v, rest, e) := by
      simp only [deQuotedStr, h1, Out.bind_ok, he, h2]
      simp [EPtr.fresh, JError.status]
    simp only [quotedSer, deQuoted]
    rw [hq]
    cases reqQ
    · simp [isString]
    · rfl

theorem unquoted_rtb {α : Type} {S : Ser α} {v : α} {t : Bytes} (h : RTB S v t) (hq : t.head? ≠ some c%'"') :
    RTB (quotedSer S false false) v t where
  writes := h.writes
  start := h.start
  reads := by
    intro v0 rest e he hd
    have h1 := h.reads v0 rest e he hd
    obtain ⟨b, u, rfl, _⟩ := h.start
    have : isString (b :: u ++ rest) = false := by
      simp only [List.head?_cons, ne_eq, Option.some.injEq] at hq
      simp [isString, hq]
    simp only [quotedSer, deQuoted, this]
    exact h1

theorem pointer_rtb {α : Type} {S : Ser α} {v : α} {t : Bytes} (h : RTB S v t) (hn : t.head? ≠ some c%'n') :
    RTB (pointerSer S) (some v) t where
  writes := h.writes
  start := h.start
  reads := by
    intro v0 rest e he hd
    have hr := h.reads S.dflt rest e he hd
    obtain ⟨b, u, rfl, _⟩ := h.start
    simp only [List.cons_append] at hr ⊢
    have hb : b ≠ c%'n' := by simpa using hn
    simp [pointerSer, dePointer, hb, hr]

theorem rnumber_start {t : Bytes} (h : RNumber t) : Start t := by
  obtain ⟨b, u, rfl, hb⟩ := xvalue_head (RG.x (.num h))
  exact .of_byte hb

theorem rnumber_no_nul {t : Bytes} (h : RNumber t) : ∀ b ∈ t, b ≠ 0 := by
  have hd : ∀ b : Byte, Digit b → b ≠ 0 := by unfold Digit; apply forall_byte; decide +kernel
  have hd' : ∀ b : Byte, Digit19 b → b ≠ 0 := by unfold Digit19; apply forall_byte; decide +kernel
  obtain ⟨m, i, f, x, rfl, hm, hi, hf, hx⟩ := h
  intro b hb
  simp only [List.mem_append] at hb
  rcases hb with ((hb | hb) | hb) | hb
  · rcases hm with rfl | rfl
    · cases hb
    · simp at hb; subst hb; decide
  · rcases hi with rfl | ⟨d, ds, rfl, h1, h2⟩
    · simp at hb; subst hb; decide
    · rcases List.mem_cons.mp hb with rfl | hb
      · exact hd' _ h1
      · exact hd _ (h2 _ hb)
  · rcases hf with rfl | ⟨ds, rfl, h2⟩
    · cases hb
    · rcases List.mem_cons.mp hb with rfl | hb
      · decide
      · exact hd _ (h2.2 _ hb)
  · rcases hx with rfl | ⟨y, sg, ds, rfl, h1, h2, h3⟩
    · cases hb
    · simp only [List.mem_cons, List.mem_append] at hb
      rcases hb with rfl | hb | hb
      · rcases h1 with rfl | rfl <;> decide
      · rcases h2 with rfl | rfl | rfl
        · cases hb
        · simp at hb; subst hb; decide
        · simp at hb; subst hb; decide
      · exact hd _ (h3.2 _ hb)

theorem chars_rtb {N : Nat} {v : Bytes} (hN : v.length ≤ N) (h0 : ∀ b ∈ v, b ≠ 0) (hv : StrOk v) :
    ∃ t, RTB (charArraySer N) (v ++ List.replicate (N - v.length) 0) t := by
  have htw : (v ++ List.replicate (N - v.length) 0).takeWhile (fun x : Byte => decide (x ≠ 0)) = v := by
    rw [List.takeWhile_append_of_pos (by simpa using h0)]
    cases N - v.length <;> simp [List.replicate_succ]
  refine ⟨c%'"' :: strBody true (v ++ List.replicate (N - v.length) 0) ++ b!"\"", Writes.back fun k => rfl, ⟨_, _, rfl, by unfold WsByte; decide⟩, ?_⟩
  intro v0 rest e _ _
  rw [strBody_nt, htw]
  have hd := strBody_decodes v hv.1
  rw [hv.2.1] at hd
  have := C22_char_array_fits hd hN v0 rest e
  simpa using this

theorem time_rtb (c : Cfg) {ty : IntTy} (hs : ty.Std) {fr : Int}
    (hok : fr = 1 ∨ (fr = 1000 ∧ ty = .long) ∨ (fr = 1000000 ∧ 32 ≤ ty.bits)) {v : Int} (hv : ty.InRange v)
    (hneg : 0 ≤ v ∨ v % fr = 0) : ∃ t, RTB (timeSer c ty fr) v t := by
  have key : ∃ t, (∀ m, (timeSer c ty fr).emit v ⟨m, .back⟩ = .ok ⟨m ++ (c%'"' :: t), .back⟩) ∧
      Reads (timeSer c ty fr).de (c%'"' :: t) v := by
    rcases Int.le_total 0 v with h | h
    · obtain ⟨t, h1, _, h3⟩ := emitTime_text c hs (σ := 1) hok (.inl rfl) h (by simpa using hv)
      simp only [Int.one_mul] at h1 h3
      exact ⟨t ++ b!"\"", fun m => by simpa [timeSer] using h1 m, h3⟩
    · have hd : -v % fr = 0 := by
        rcases hneg with h' | h'
        · rw [show v = 0 by omega]; simp
        · exact Int.emod_eq_zero_of_dvd (Int.dvd_neg.mpr (Int.dvd_of_emod_eq_zero h'))
      obtain ⟨t, h1, _, h3⟩ := emitTime_text c hs (σ := -1) (w := -v) hok (.inr ⟨rfl, hd⟩) (by omega) (by simpa using hv)
      rw [show (-1 : Int) * -v = v by omega] at h1 h3
      exact ⟨t ++ b!"\"", fun m => by simpa [timeSer] using h1 m, h3⟩
  obtain ⟨t, h1, h2⟩ := key
  exact ⟨_, h1, ⟨_, _, rfl, by unfold WsByte; decide⟩, h2⟩

theorem size_rtb (c : Cfg) {ty : IntTy} (hs : ty.Std) {metric v : Int} (hm : 1 ≤ metric) (hm' : IntTy.long.InRange metric)
    (hv : ty.InRange v) (hb : IntTy.long.InRange (v * metric)) (hmin : v ≠ ty.min ∨ ty.Modular c) :
    ∃ t, RTB (sizeSer c ty metric) v t := by
  obtain ⟨t, h1, h2⟩ := emitSize_reads c hs hm hm' hv hb hmin
  refine ⟨t, h1, ?_, h2⟩
  rcases emitSize_text c hs hm hm' hv hb with ⟨h, _⟩ | ⟨n, u, s, _, _, _, _, h⟩
  · rw [WritesBack.unique h1 h]
    exact start_decimal (intText_decimal v)
  · rw [WritesBack.unique h1 h]
    exact ⟨_, _, rfl, by unfold WsByte; decide⟩

theorem GoodValue.rtb {c : Cfg} : ∀ {α : Type} {S : Ser α} {v : α}, GoodValue c S v → ∃ t, RTB S v t
  | _, _, _, .int h1 h2 h3 => ⟨_, (intSer_rt c h1 h2 h3).back⟩
  | _, _, _, .bool v => ⟨_, (boolSer_rt v).back⟩
  | _, _, _, .str h => ⟨_, (strSer_rt h).back⟩
  | _, _, _, .chars h1 h2 h3 => chars_rtb h1 h2 h3
  | _, _, _, .float (F := F) (R := R) h1 h2 h3 =>
    ⟨_, Writes.back (C24_round_trip F R h1 (rnumber_no_nul h1) h2 h3).1, rnumber_start h1,
      (C24_round_trip F R h1 (rnumber_no_nul h1) h2 h3).2⟩
  | _, _, _, @GoodValue.enum _ _ _ strict dflt _ _ h1 h2 h3 =>
    have ⟨_, _, h⟩ := C34_round_trip c strict dflt h1 h2 h3
    ⟨_, h.back⟩
  | _, _, _, .flags h1 h2 h3 h4 => ⟨_, (C35_array_round_trip c h1 h2 h3 h4).back⟩
  | _, _, _, .flagsSep h1 h2 h3 h4 h5 => ⟨_, (C35_separator_round_trip c h1 h2 h3 h4 h5).back⟩
  | _, _, _, .raw h => ⟨_, (C41_round_trip c h).back⟩
  | _, _, _, .rawQuoted h => ⟨_, (C40_raw_quoted c h).1, ⟨_, _, rfl, by unfold WsByte; decide⟩, (C40_raw_quoted c h).2⟩
  | _, _, _, .quoted (reqQ := reqQ) h h' =>
    have ⟨_, h⟩ := h.rtb
    ⟨_, quoted_rtb h (h' _ h.writes.at_nil) reqQ⟩
  | _, _, _, .unquoted h h' =>
    have ⟨_, h⟩ := h.rtb
    ⟨_, unquoted_rtb h (h' _ h.writes.at_nil)⟩
  | _, _, _, .null S => ⟨_, (C42_null S).1, ⟨_, _, rfl, by unfold WsByte; decide⟩, (C42_null S).2⟩
  | _, _, _, .pointer h h' =>
    have ⟨_, h⟩ := h.rtb
    ⟨_, pointer_rtb h (h' _ h.writes.at_nil)⟩
  | _, _, _, .memberValue (get := get) h h' =>
    have ⟨_, h⟩ := h.rtb
    ⟨_, fun m => h.writes m, h.start, fun t0 rest e he hd => by
      simp [memberValueSer, h.reads (get t0) rest e he hd, h']⟩
  | _, _, _, .seq (vs := vs) h => seqSer_rtb (.inl rfl) (.inl rfl) (fun v hv => (h v hv).rtb) (seqFold vs)
  | _, _, _, .set (lt := lt) (vs := vs) ho hi h =>
    seqSer_rtb (.inl rfl) (.inl rfl) (fun v hv => (h v hv).rtb) (setFold_id (lt := lt) ho.asymm [] vs hi)
  | _, _, _, .multiset (lt := lt) (vs := vs) hi h =>
    seqSer_rtb (.inl rfl) (.inl rfl) (fun v hv => (h v hv).rtb) (multisetFold_id (lt := lt) [] vs hi)
  | _, _, _, .fixed (k := k) hN h => fixVec_rtb k hN fun v hv => (h v hv).rtb
  | _, _, _, .field h h' =>
    have ⟨_, h⟩ := h.rtb
    have ⟨_, h'⟩ := h'.rtb
    ⟨_, fieldSer_rtb h h'⟩
  | _, _, _, .dict (vs := vs) h h' =>
    seqSer_rtb (.inr rfl) (.inr rfl)
      (fun v hv => have ⟨_, h⟩ := (h v hv).rtb; have ⟨_, h'⟩ := (h' v hv).rtb; ⟨_, fieldSer_rtb h h'⟩) (seqFold vs)
  | _, _, _, .map (κ := κ) (ν := ν) (lt := lt) (vs := vs) ho hi h h' =>
    seqSer_rtb (.inr rfl) (.inr rfl)
      (fun v hv => have ⟨_, h⟩ := (h v hv).rtb; have ⟨_, h'⟩ := (h' v hv).rtb; ⟨_, fieldSer_rtb h h'⟩)
      (setFold_id (lt := fun a b : κ × ν => lt a.1 b.1) (fun a b => ho.asymm a.1 b.1) [] vs hi)
  | _, _, v, .object (strict := strict) (dflt := dflt) h1 h2 h3 h => object_rtb c strict dflt h1 h2 h3 v fun en hen => (h en hen).rtb
  | _, _, v, .objectArray (dflt := dflt) h1 h2 h => objectArray_rtb dflt h1 h2 v fun en hen => (h en hen).rtb
  | _, _, _, .objectIf (strict := strict) (dflt := dflt) h1 h2 h3 h4 h h5 h6 =>
    objectIf_rtb c strict dflt h1 h2 h3 h4 (slots_rtu (fun x hx => (h x hx).rtb) h5 h6)
  | _, _, _, .objectArrayIf (dflt := dflt) h1 h2 h h5 h6 =>
    objectArrayIf_rtb dflt h1 h2 (slots_rtu (fun x hx => (h x hx).rtb) h5 h6)
  | _, _, _, .time h1 h2 h3 h4 => time_rtb c h1 h2 h3 h4
  | _, _, _, .size h1 h2 h3 h4 h5 h6 => size_rtb c h1 h2 h3 h4 h5 h6

end Wjson
