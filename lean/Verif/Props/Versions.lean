import Verif.Proofs.Versions
/-
C68: data written with one version of a description and read with another one.
-/
namespace Wjson
open Spec

/-- C68. A value written with one description and read with another one, into
any variable, becomes what the rules of `Carried` say; no error is reported and
the read stops right after the text. -/
theorem C68_carried {c : Cfg} {α β : Type} {SW : Ser α} {SR : Ser β} {v : α} {v0 v' : β} (h : Carried c SW SR v v0 v') :
    ∃ t, WritesBack SW.emit v t ∧ ReadsAt SR.de v0 t v' := by
  obtain ⟨t, h⟩ := h.carries
  exact ⟨t, h.writes, h.reads⟩

/-- C68 for a text on its own. -/
theorem C68_whole {c : Cfg} {α β : Type} {SW : Ser α} {SR : Ser β} {v : α} {v0 v' : β} (h : Carried c SW SR v v0 v') :
    ∃ t, SW.emit v ⟨[], .back⟩ = .ok ⟨t, .back⟩ ∧ SR.de v0 t .fresh = .ok (v', [], .fresh) := by
  obtain ⟨t, h1, h2⟩ := C68_carried h
  exact ⟨t, by simpa using h1 [], by simpa using h2 [] .fresh rfl (by intro b hb; cases hb)⟩

section
variable {σ τ : Type}

/-- C68 for objects that need not consist of their members. `val r` is what the
member `r` of the reader becomes if the writer has a member of that name. Those
members become that, the other members and everything else keep what they held. -/
theorem C68_object (c : Cfg) (sw sr : Bool) (d : σ) (d' : τ) {LW : List (Entry σ)} {LR : List (Entry τ)} (v : σ) (v0 : τ)
    (val : (r : Entry τ) → r.ref.α) (hnd : (names LW).Nodup) (hg : GoodNames LR) (hf : Fields (LR.map Entry.ref))
    (hsh : ∀ w ∈ LW, ∀ r ∈ LR, w.ref.name = r.ref.name → Carried c w.ref.ser r.ref.ser (w.ref.get v) (r.start v0) (val r))
    (hwo : ∀ w ∈ LW, w.ref.name ∉ names LR → sr = false ∧ RChars w.ref.name ∧ JsonValue c w.ref.ser (w.ref.get v)) :
    ∃ t v', WritesBack (objectSer c sw d (LW.map Entry.toMember)).emit v t ∧
      ReadsAt (objectSer c sr d' (LR.map Entry.toMember)).de v0 t v' ∧
      (∀ r ∈ LR, r.ref.name ∈ names LW → r.ref.get v' = val r) ∧ (∀ r ∈ LR, r.ref.name ∉ names LW → r.ref.get v' = r.ref.get v0) ∧
      ∀ {β : Type} (g : τ → β), (∀ r ∈ LR, ∀ y t, g (r.ref.set y t) = g t) → g v' = g v0 := by
  obtain ⟨t, v', h1, h2⟩ := object_members c sw sr d d' (val := val) hnd hg hf (fun w hw r hr hn => (hsh w hw r hr hn).carries)
    fun w hw hn =>
      have h := hwo w hw hn
      have ⟨t, h8, h9⟩ := h.2.2.json jsonLike_rfc
      ⟨h.1, h.2.1, t, h8, RG.x h9⟩
  exact ⟨t, v', h1.writes, h1.reads, h2⟩

/-- C68. Data of the old version, a program with new members `N`: the old members
come from the data, the new ones and everything else keep what the variable held.
This holds for strict readers, too. -/
theorem C68_old_data (c : Cfg) (sw sr : Bool) (d d' : τ) {L N : List (Entry τ)} (hg : GoodNames (L ++ N))
    (hf : Fields ((L ++ N).map Entry.ref)) (v : τ) (hv : ∀ m ∈ L, GoodValue c m.ref.ser (m.ref.get v)) :
    ∃ t, WritesBack (objectSer c sw d (L.map Entry.toMember)).emit v t ∧ ∀ v0, ∃ v',
      ReadsAt (objectSer c sr d' ((L ++ N).map Entry.toMember)).de v0 t v' ∧
      (∀ m ∈ L, m.ref.get v' = m.ref.get v) ∧ (∀ m ∈ N, m.ref.get v' = m.ref.get v0) ∧
      ∀ {β : Type} (g : τ → β), (∀ m ∈ L ++ N, ∀ y t, g (m.ref.set y t) = g t) → g v' = g v0 := by
  have hnd := hg.nodup
  unfold names at hnd
  rw [List.map_append, List.nodup_append] at hnd
  have h := fun v0 => C68_object c sw sr d d' (LW := L) (LR := L ++ N) v v0 (fun m => m.ref.get v) hnd.1 hg hf
    (fun w hw r hr hn => by
      have := name_unique hg (List.mem_append_left N hw) hr hn
      subst this
      exact .same (hv w hw))
    (fun w hw hn => absurd (names_mem (List.mem_append_left N hw)) hn)
  obtain ⟨t, _, h1, _⟩ := h v
  refine ⟨t, h1, fun v0 => ?_⟩
  obtain ⟨t', v', k1, k2, k3, k4, k5⟩ := h v0
  have := writes_unique k1 h1.at_nil
  subst this
  refine ⟨v', k2, fun m hm => k3 m (by simp [hm]) (names_mem hm), fun m hm => k4 m (by simp [hm]) fun hn => ?_, k5⟩
  exact hnd.2.2 _ hn _ (List.mem_map.mpr ⟨m, hm, rfl⟩) rfl

/-- C68. Data with members `N` that the program does not know: the known members
come from the data, everything else keeps what the variable held, provided the
reader is not strict. -/
theorem C68_new_data (c : Cfg) (sw : Bool) (d d' : τ) {L N : List (Entry τ)} (hg : GoodNames (L ++ N))
    (hf : Fields (L.map Entry.ref)) (v : τ) (hv : ∀ m ∈ L, GoodValue c m.ref.ser (m.ref.get v))
    (hN : ∀ m ∈ N, RChars m.ref.name ∧ JsonValue c m.ref.ser (m.ref.get v)) :
    ∃ t, WritesBack (objectSer c sw d ((L ++ N).map Entry.toMember)).emit v t ∧ ∀ v0, ∃ v',
      ReadsAt (objectSer c false d' (L.map Entry.toMember)).de v0 t v' ∧ (∀ m ∈ L, m.ref.get v' = m.ref.get v) ∧
      ∀ {β : Type} (g : τ → β), (∀ m ∈ L, ∀ y t, g (m.ref.set y t) = g t) → g v' = g v0 := by
  have hgL : GoodNames L := by
    refine ⟨?_, fun n hn => hg.plain n (by unfold names at hn ⊢; rw [List.map_append]; exact List.mem_append_left _ hn)⟩
    have hnd := hg.nodup
    unfold names at hnd ⊢
    rw [List.map_append, List.nodup_append] at hnd
    exact hnd.1
  have h := fun v0 => C68_object c sw false d d' (LW := L ++ N) (LR := L) v v0 (fun m => m.ref.get v) hg.nodup hgL hf
    (fun w hw r hr hn => by
      have := name_unique hg hw (List.mem_append_left N hr) hn
      subst this
      exact .same (hv w hr))
    (fun w hw hn => by
      rcases List.mem_append.mp hw with hw | hw
      · exact absurd (names_mem hw) hn
      · exact ⟨rfl, hN w hw⟩)
  obtain ⟨t, _, h1, _⟩ := h v
  refine ⟨t, h1, fun v0 => ?_⟩
  obtain ⟨t', v', k1, k2, k3, _, k5⟩ := h v0
  have := writes_unique k1 h1.at_nil
  subst this
  exact ⟨v', k2, fun m hm => k3 m hm (names_mem (List.mem_append_left N hm)), k5⟩

/-- C68. The order of the members may change. -/
theorem C68_reordered (c : Cfg) (sw sr : Bool) (d d' : τ) {L L' : List (Entry τ)} (hp : L.Perm L') (hg : GoodNames L')
    (hf : Fields (L'.map Entry.ref)) (hall : ∀ a b, (∀ m ∈ L', m.ref.get a = m.ref.get b) → a = b) (v v0 : τ)
    (hv : ∀ m ∈ L, GoodValue c m.ref.ser (m.ref.get v)) :
    ∃ t, WritesBack (objectSer c sw d (L.map Entry.toMember)).emit v t ∧
      ReadsAt (objectSer c sr d' (L'.map Entry.toMember)).de v0 t v := by
  refine C68_carried (.object (c := c) ?_ hg hf hall ?_ ?_ ?_)
  · exact (hp.map fun m : Entry τ => m.ref.name).nodup_iff.mpr hg.nodup
  · intro w hw r hr hn
    have := name_unique hg (hp.subset hw) hr hn
    subst this
    exact .same (hv w hw)
  · exact fun r hr hn => absurd (names_mem (hp.symm.subset hr)) hn
  · exact fun w hw hn => absurd (names_mem (hp.subset hw)) hn

/-- C68. A strict reader reports an error for data with a member that it does not
know, whatever follows and whatever the variable holds. -/
theorem C68_strict_rejects (c : Cfg) (sw : Bool) (d : σ) (d' : τ) {LW : List (Entry σ)} {LR : List (Entry τ)} (v : σ) (v0 : τ)
    (val : (r : Entry τ) → r.ref.α) (hnd : (names LW).Nodup) (hg : GoodNames LR) (hf : Fields (LR.map Entry.ref))
    (hsh : ∀ w ∈ LW, ∀ r ∈ LR, w.ref.name = r.ref.name → Carried c w.ref.ser r.ref.ser (w.ref.get v) (r.start v0) (val r))
    (hj : ∀ w ∈ LW, RChars w.ref.name ∧ JsonValue c w.ref.ser (w.ref.get v)) (hu : ∃ w ∈ LW, w.ref.name ∉ names LR) :
    ∃ t, WritesBack (objectSer c sw d (LW.map Entry.toMember)).emit v t ∧ ∀ rest e, e.Clean → ∃ v' p e',
      (objectSer c true d' (LR.map Entry.toMember)).de v0 (t ++ rest) e = .ok (v', p, e') ∧ e'.failed = true :=
  object_rejects c sw d d' (val := val) hnd hg hf (fun w hw r hr hn => (hsh w hw r hr hn).carries)
    (fun w hw => have h := hj w hw; have ⟨t, h8, h9⟩ := h.2.json jsonLike_rfc; ⟨h.1, t, h8, RG.x h9⟩) hu

end

/-! ### Two versions of a program -/

/-- Version 1: `{"id":..,"level":"on","tags":[..],"legacy":..}`. -/
structure Conf1 where
  id : Int
  level : Int
  tags : List Bytes
  legacy : Bool
deriving DecidableEq

/-- Version 2: the identifier is 64 bits wide, the levels have other numbers and
there is a third one, the tags are a set, there is an optional limit, and
`legacy` is gone. -/
structure Conf2 where
  tags : List Bytes
  level : Int
  id : Int
  limit : Option Int
deriving DecidableEq

def conf1 (c : Cfg) : List (Entry Conf1) :=
  [.mem ⟨b!"id", (·.id), fun x t => { t with id := x }, intSer c .int⟩,
   .mem ⟨b!"level", (·.level), fun x t => { t with level := x }, enumSer c false 0 [(b!"off", 0), (b!"on", 1)]⟩,
   .mem ⟨b!"tags", (·.tags), fun x t => { t with tags := x }, arraySer (seqColl Bytes) strSer⟩,
   .mem ⟨b!"legacy", (·.legacy), fun x t => { t with legacy := x }, boolSer⟩]

def conf2 (c : Cfg) : List (Entry Conf2) :=
  [.mem ⟨b!"tags", (·.tags), fun x t => { t with tags := x }, arraySer (setColl Bytes strLt) strSer⟩,
   .mem ⟨b!"level", (·.level), fun x t => { t with level := x }, enumSer c false (-1) [(b!"off", 10), (b!"on", 20), (b!"auto", 30)]⟩,
   .prop ⟨b!"id", (·.id), fun x t => { t with id := x }, intSer c .long⟩,
   .mem ⟨b!"limit", (·.limit), fun x t => { t with limit := x }, pointerSer (intSer c .int)⟩]

def conf1Ser (c : Cfg) : Ser Conf1 := objectSer c false ⟨0, 0, [], false⟩ ((conf1 c).map Entry.toMember)
def conf2Ser (c : Cfg) : Ser Conf2 := objectSer c false ⟨[], -1, 0, none⟩ ((conf2 c).map Entry.toMember)

theorem conf2_names (c : Cfg) : GoodNames (conf2 c) := ⟨by simp [names, conf2, Entry.ref], by
  intro n hn
  simp [names, conf2, Entry.ref] at hn
  rcases hn with rfl | rfl | rfl | rfl <;> exact ⟨by decide, by decide⟩⟩

theorem conf2_fields (c : Cfg) : Fields ((conf2 c).map Entry.ref) := by
  constructor
  · intro m hm
    simp [conf2, Entry.ref] at hm
    rcases hm with rfl | rfl | rfl | rfl <;> intros <;> rfl
  · intro m hm
    simp [conf2, Entry.ref] at hm
    rcases hm with rfl | rfl | rfl | rfl <;> intros <;> rfl
  · simp [conf2, Entry.ref]

/-- Whatever the old program wrote, in any configuration: the new one gets the
identifier, the level of the same name, the set of the tags, and keeps the limit
that its variable held. -/
theorem C68_conf (c : Cfg) (v : Conf1) (v0 : Conf2) (h1 : IntTy.int.InRange v.id) (h2 : v.level = 0 ∨ v.level = 1)
    (h3 : ∀ t ∈ v.tags, StrOk t) :
    Carried c (conf1Ser c) (conf2Ser c) v v0
      ⟨v.tags.foldl (setInsert strLt) [], if v.level = 0 then 10 else 20, v.id, v0.limit⟩ := by
  refine .object (by simp [names, conf1, Entry.ref]) (conf2_names c) (conf2_fields c) ?_ ?_ ?_ ?_
  · rintro ⟨_, _, _, _⟩ ⟨_, _, _, _⟩ h
    simpa [conf2, Entry.ref] using h
  · intro w hw r hr hn
    simp only [conf1, List.mem_cons, List.not_mem_nil, or_false] at hw
    simp only [conf2, List.mem_cons, List.not_mem_nil, or_false] at hr
    rcases hw with rfl | rfl | rfl | rfl <;> rcases hr with rfl | rfl | rfl | rfl <;> try (simp [Entry.ref] at hn; done)
    · have hl : IntTy.long.InRange v.id ∧ v.id ≠ IntTy.long.min := by
        simp [IntTy.InRange, IntTy.min, IntTy.max, IntTy.int, IntTy.long] at h1 ⊢
        omega
      exact .int (by simp [IntTy.Std, IntTy.int]) (by simp [IntTy.Std, IntTy.long]) h1 hl.1 (.inl hl.2)
    · have he : Carried c (enumSer c false (0 : Int) [(b!"off", 0), (b!"on", 1)])
          (enumSer c false (-1 : Int) [(b!"off", 10), (b!"on", 20), (b!"auto", 30)]) v.level v0.level (if v.level = 0 then 10 else 20) := by
        rcases h2 with h | h <;> rw [h]
        · exact .enum (by decide) (by simp) (by decide) (by decide)
        · exact .enum (by decide) (by simp) (by decide) (by decide)
      exact he
    · have := Carried.seq (c := c) (K := seqColl Bytes) (K' := setColl Bytes strLt) (S := strSer) (S' := strSer) (v := v.tags)
        (v0 := v0.tags) id fun x hx => .same (.str (h3 x hx))
      rw [List.map_id] at this
      exact this
  · intro r hr hn
    simp only [conf2, List.mem_cons, List.not_mem_nil, or_false] at hr
    rcases hr with rfl | rfl | rfl | rfl <;> first | rfl | (simp [names, conf1, Entry.ref] at hn; done)
  · intro w hw hn
    simp only [conf1, List.mem_cons, List.not_mem_nil, or_false] at hw
    rcases hw with rfl | rfl | rfl | rfl <;> try (simp [names, conf2, Entry.ref] at hn; done)
    exact ⟨rfl, rchars_of_plain (t := b!"legacy") (by unfold PlainAscii; decide), .bool _⟩

def confText1 : Bytes := b!"{\"id\":7,\"level\":\"on\",\"tags\":[\"b\",\"a\",\"b\"],\"legacy\":true}"

example : (conf1Ser .strict).emit ⟨7, 1, [b!"b", b!"a", b!"b"], true⟩ ⟨[], .back⟩ = .ok ⟨confText1, .back⟩ := by decide +kernel
example : (conf2Ser .strict).de ⟨[], 0, 0, some 5⟩ confText1 .fresh = .ok (⟨[b!"a", b!"b"], 20, 7, some 5⟩, [], .fresh) := by
  decide +kernel

/-- The other direction: the old program does not know the level `auto` and the
limit; the level becomes its default. -/
def confText2 : Bytes := b!"{\"tags\":[\"a\",\"b\"],\"level\":\"auto\",\"id\":7,\"limit\":5}"

example : (conf2Ser .strict).emit ⟨[b!"a", b!"b"], 30, 7, some 5⟩ ⟨[], .back⟩ = .ok ⟨confText2, .back⟩ := by decide +kernel
example : (conf1Ser .strict).de ⟨1, 1, [b!"x"], true⟩ confText2 .fresh = .ok (⟨7, 0, [b!"a", b!"b"], true⟩, [], .fresh) := by
  decide +kernel
example : Carried .strict (enumSer .strict false (-1) [(b!"off", (10 : Int)), (b!"on", 20), (b!"auto", 30)])
    (enumSer .strict false 0 [(b!"off", (0 : Int)), (b!"on", 1)]) 30 1 0 :=
  .enumNew (by decide) (by simp)

/-- C68. What an old program reads, it does not write again: members that it does
not know are lost when a file passes through it (limit 5 becomes none). -/
theorem C68_lost :
    ∃ v, (conf1Ser .strict).de ⟨0, 0, [], false⟩ confText2 .fresh = .ok (v, [], .fresh) ∧
    ∃ t, (conf1Ser .strict).emit v ⟨[], .back⟩ = .ok ⟨t, .back⟩ ∧
    (conf2Ser .strict).de ⟨[], 0, 0, none⟩ t .fresh = .ok (⟨[b!"a", b!"b"], 10, 7, none⟩, [], .fresh) :=
  ⟨⟨7, 0, [b!"a", b!"b"], false⟩, by decide +kernel, b!"{\"id\":7,\"level\":\"off\",\"tags\":[\"a\",\"b\"],\"legacy\":false}",
    by decide +kernel, by decide +kernel⟩

/-- A strict reader refuses it. -/
example : (match (objectSer .strict true ⟨0, 0, [], false⟩ ((conf1 .strict).map Entry.toMember)).de ⟨0, 0, [], false⟩ confText2 .fresh with
    | .ok (_, _, e) => e.failed
    | _ => false) = true := by decide +kernel

/-! The hypotheses of the corollaries are met by the structure `Demo` of C29: the
old version has the members `a` and `b`, the new one also `s`. -/

theorem demo_names : GoodNames ([.mem demoA, .prop demoB] ++ [.mem demoS]) := ⟨by decide, by
  intro n hn
  simp [names, Entry.ref, demoA, demoB, demoS] at hn
  rcases hn with rfl | rfl | rfl <;> exact ⟨by decide, by decide⟩⟩

theorem demo_fields : Fields (([.mem demoA, .prop demoB] ++ [.mem demoS] : List (Entry Demo)).map Entry.ref) := by
  constructor
  · intro m hm
    simp [Entry.ref] at hm
    rcases hm with rfl | rfl | rfl <;> intros <;> rfl
  · intro m hm
    simp [Entry.ref] at hm
    rcases hm with rfl | rfl | rfl <;> intros <;> rfl
  · simp [Entry.ref, demoA, demoB, demoS]

theorem demo_good {v : Demo} (h : IntTy.int.InRange v.a) (h' : v.a ≠ IntTy.int.min) :
    ∀ m ∈ [Entry.mem demoA, .prop demoB], GoodValue .strict m.ref.ser (m.ref.get v) := by
  intro m hm
  simp only [List.mem_cons, List.not_mem_nil, or_false] at hm
  rcases hm with rfl | rfl
  · exact .int (by unfold IntTy.Std; decide) h (.inl h')
  · exact .bool _

example := C68_old_data .strict false true (⟨0, false, [], 0⟩ : Demo) ⟨0, false, [], 0⟩ demo_names demo_fields ⟨-5, true, b!"old", 7⟩
  (demo_good (by unfold IntTy.InRange; decide) (by decide))

example := C68_new_data .strict false (⟨0, false, [], 0⟩ : Demo) ⟨0, false, [], 0⟩ demo_names
  ⟨fun m hm => demo_fields.get_set m (by simp at hm ⊢; rcases hm with rfl | rfl <;> simp),
    fun m hm => demo_fields.set_set m (by simp at hm ⊢; rcases hm with rfl | rfl <;> simp), by simp [Entry.ref, demoA, demoB]⟩
  ⟨-5, true, b!"x", 7⟩ (demo_good (by unfold IntTy.InRange; decide) (by decide)) (by
    intro m hm
    simp only [List.mem_cons, List.not_mem_nil, or_false] at hm
    subst hm
    exact ⟨rchars_of_plain (t := b!"s") (by unfold PlainAscii; decide), .key (.str (v := b!"x") (.ascii (by decide) .nil))⟩)

example : (objectSer .strict true (⟨0, false, [], 0⟩ : Demo) ([Entry.mem demoA, .prop demoB, .mem demoS].map Entry.toMember)).de
    ⟨1, false, b!"kept", 9⟩ b!"{\"a\":-5,\"b\":true}" .fresh = .ok (⟨-5, true, b!"kept", 9⟩, [], .fresh) := by decide +kernel
example : (objectSer .strict false (⟨0, false, [], 0⟩ : Demo) ([Entry.mem demoA, .prop demoB].map Entry.toMember)).de
    ⟨1, false, b!"kept", 9⟩ b!"{\"a\":-5,\"b\":true,\"s\":\"x\"}" .fresh = .ok (⟨-5, true, b!"kept", 9⟩, [], .fresh) := by
  decide +kernel

/-- Positional objects: a member added at the end. -/
example (c : Cfg) (x : Int) (v0 : Int × Int) (h : IntTy.int.InRange x) (h' : x ≠ IntTy.int.min) :
    Carried c (objectArraySer (0 : Int) ([Entry.mem ⟨b!"x", id, fun a _ => a, intSer c .int⟩].map Entry.toAMember))
      (objectArraySer ((0 : Int), (0 : Int)) ([Entry.mem ⟨b!"x", (·.1), fun a t => (a, t.2), intSer c .int⟩,
        .mem ⟨b!"y", (·.2), fun a t => (t.1, a), intSer c .int⟩].map Entry.toAMember)) x v0 (x, v0.2) := by
  refine .objectArray ⟨?_, ?_, ?_⟩ ?_ (by simp) ?_ ?_
  · intro m hm
    simp [Entry.ref] at hm
    rcases hm with rfl | rfl <;> intros <;> rfl
  · intro m hm
    simp [Entry.ref] at hm
    rcases hm with rfl | rfl <;> intros <;> rfl
  · simp [Entry.ref]
  · rintro ⟨_, _⟩ ⟨_, _⟩ hab
    simpa [Entry.ref] using hab
  · intro i hi
    have : i = 0 := by simpa using hi
    subst this
    exact .same (.int (by unfold IntTy.Std; decide) h (.inl h'))
  · intro r hr
    simp at hr
    subst hr
    rfl

/-! ### Alternatives -/

/-- Version 1: `{"port":80}`. -/
def port1 : List (Slot Int) := [.one (.mem ⟨b!"port", id, fun x _ => x, intSer .strict .int⟩)]

/-- Version 2: the port may be the name of a service, and there is a flag. -/
structure Port2 where
  name : Bytes
  port : Int
  tls : Bool
deriving DecidableEq

def port2 (RU : Bool) : List (Slot Port2 × Bool) :=
  [(.alt ⟨b!"port", (·.name), fun x t => { t with name := x }, strSer⟩
    ⟨b!"port", (·.port), fun x t => { t with port := x }, intSer .strict .long⟩ (fun x => x.isEmpty) RU, true),
   (.one (.mem ⟨b!"tls", (·.tls), fun x t => { t with tls := x }, boolSer⟩), false)]

/-- Whatever number the old program wrote: in the new one it is the number, the
name is empty and the flag keeps what it held; whichever alternative is tried first. -/
theorem C68_alternative (sw sr RU : Bool) (v : Int) (v0 d' : Port2) (h : IntTy.int.InRange v) :
    Carried .strict (objectSer .strict sw 0 (port1.map Slot.toMember))
      (objectSer .strict sr d' ((port2 RU).map fun x => x.1.toMember)) v v0 ⟨[], v, v0.tls⟩ := by
  refine .objectIf ⟨?_, ?_, ?_⟩ ?_ (by simp [port1, port2]) ?_ ?_ ?_ ?_ ?_
  · intro m hm
    simp [port2, Slot.refs, Entry.ref] at hm
    rcases hm with rfl | rfl | rfl <;> intros <;> rfl
  · intro m hm
    simp [port2, Slot.refs, Entry.ref] at hm
    rcases hm with rfl | rfl | rfl <;> intros <;> rfl
  · simp [port2, Slot.refs, Entry.ref]
  · rintro ⟨_, _, _⟩ ⟨_, _, _⟩ hab
    simpa [port2, Slot.refs, Entry.ref] using hab
  · intro x hx
    cases List.mem_singleton.mp hx
    show c%'"' ∉ b!"port"
    decide
  · intro i hi m hm
    have : i = 0 := by simpa [port1] using hi
    subst this
    simp [port2, Slot.refs] at hm
    rcases hm with rfl | rfl <;> rfl
  · intro i hi
    have : i = 0 := by simpa [port1] using hi
    subst this
    have hl : IntTy.long.InRange v ∧ v ≠ IntTy.long.min := by
      simp [IntTy.InRange, IntTy.min, IntTy.max, IntTy.int, IntTy.long] at h ⊢
      omega
    exact Carried.int (c := .strict) (v0 := v0.port) (by simp [IntTy.Std, IntTy.int]) (by simp [IntTy.Std, IntTy.long]) h hl.1 (.inl hl.2)
  · intro i hi o ho
    have : i = 0 := by simpa [port1] using hi
    subst this
    cases ho
    refine ⟨C32_null_string, fun _ t ht => ?_⟩
    have := writes_unique (emitInt_writes (by simp [IntTy.Std, IntTy.int]) h).back ht
    subst this
    exact strSer_rejects (intText_decimal v)
  · intro x hx
    cases List.mem_singleton.mp hx
    intro m hm
    cases List.mem_singleton.mp hm
    rfl

example : (objectSer .strict false 0 (port1.map Slot.toMember)).emit 80 ⟨[], .back⟩ = .ok ⟨b!"{\"port\":80}", .back⟩ := by decide +kernel
example : (objectSer .strict false ⟨[], 0, false⟩ ((port2 false).map fun x => x.1.toMember)).de ⟨b!"http", 1, true⟩ b!"{\"port\":80}" .fresh =
    .ok (⟨[], 80, true⟩, [], .fresh) := by decide +kernel

/-- The same for a positional object. -/
example (RU : Bool) (v : Int) (v0 d' : Port2) (h : IntTy.int.InRange v) :
    Carried .strict (objectArraySer 0 (port1.map Slot.toAMember))
      (objectArraySer d' ((port2 RU).map fun x => x.1.toAMember)) v v0 ⟨[], v, v0.tls⟩ := by
  refine .objectArrayIf ⟨?_, ?_, ?_⟩ ?_ (by simp [port1, port2]) ?_ ?_ ?_
  · intro m hm
    simp [port2, Slot.refs, Entry.ref] at hm
    rcases hm with rfl | rfl | rfl <;> intros <;> rfl
  · intro m hm
    simp [port2, Slot.refs, Entry.ref] at hm
    rcases hm with rfl | rfl | rfl <;> intros <;> rfl
  · simp [port2, Slot.refs, Entry.ref]
  · rintro ⟨_, _, _⟩ ⟨_, _, _⟩ hab
    simpa [port2, Slot.refs, Entry.ref] using hab
  · intro i hi
    have : i = 0 := by simpa [port1] using hi
    subst this
    have hl : IntTy.long.InRange v ∧ v ≠ IntTy.long.min := by
      simp [IntTy.InRange, IntTy.min, IntTy.max, IntTy.int, IntTy.long] at h ⊢
      omega
    exact Carried.int (c := .strict) (v0 := v0.port) (by simp [IntTy.Std, IntTy.int]) (by simp [IntTy.Std, IntTy.long]) h hl.1 (.inl hl.2)
  · intro i hi o ho
    have : i = 0 := by simpa [port1] using hi
    subst this
    cases ho
    refine ⟨C32_null_string, fun _ t ht => ?_⟩
    have := writes_unique (emitInt_writes (by simp [IntTy.Std, IntTy.int]) h).back ht
    subst this
    exact strSer_rejects (intText_decimal v)
  · intro x hx
    cases List.mem_singleton.mp hx
    intro m hm
    cases List.mem_singleton.mp hm
    rfl

/-- A list of at most three numbers becomes an array of three: the other elements
keep what they held. -/
example (c : Cfg) (k : FixKind) (x y : Int) (v0 : Vector Int 3) (hx : IntTy.int.InRange x) (hy : IntTy.int.InRange y)
    (hx' : x ≠ IntTy.int.min) (hy' : y ≠ IntTy.int.min) :
    Carried c (arraySer (seqColl Int) (intSer c .int)) (fixVecSer k 3 (intSer c .int)) [x, y] v0 #v[x, y, v0[2]] := by
  refine .toFixed (by omega) (by simp [seqColl]) ?_ ?_
  · intro i hi
    have : i = 0 ∨ i = 1 := by simp [seqColl] at hi; omega
    rcases this with rfl | rfl
    · exact .same (.int (by unfold IntTy.Std; decide) hx (.inl hx'))
    · exact .same (.int (by unfold IntTy.Std; decide) hy (.inl hy'))
  · intro i hi hi'
    have : i = 2 := by simp [seqColl] at hi; omega
    subst this
    rfl

example : (fixVecSer .cArray 3 (intSer .strict .int)).de #v[7, 8, 9] b!"[1,2]" .fresh = .ok (#v[1, 2, 9], [], .fresh) := by decide +kernel

end Wjson
