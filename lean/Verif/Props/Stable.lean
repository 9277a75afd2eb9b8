import Verif.Props.Nested
import Verif.Proofs.Stable
import Verif.Proofs.Versions
import Verif.Props.Objects
/-
C66. What has been read can be saved and read again.
-/
namespace Wjson
open Spec

/-! ### C66 -/

/-- C66. A new variable holds a good value. -/
theorem C66_default_good {c : Cfg} {pl : Bool} {α : Type} {S : Ser α} {P : α → Prop} (h : Stable c pl S P) :
    P S.dflt ∧ GoodValue c S S.dflt := ⟨h.kept.dflt, h.kept.good _ h.kept.dflt⟩

/-- C66. Reading any plain text into a variable with a good value leaves a good
value in it, whether the text is right, wrong or torn off at any byte, and
whatever the error argument. (Descriptions without strings need no plain text.) -/
theorem C66_stays_good {c : Cfg} {pl : Bool} {α : Type} {S : Ser α} {P : α → Prop} (h : Stable c pl S P) {v0 v : α} {s p : Bytes}
    {e e' : EPtr} (hs : pl = true → CalmText s) (h0 : P v0) (hr : S.de v0 s e = .ok (v, p, e')) : P v ∧ GoodValue c S v :=
  have hv := (h.kept.keeps v0 s e (.plainIf hs) h0 v p e' hr).2
  ⟨hv, h.kept.good _ hv⟩

/-- C66. So whatever has been read, one text after the other and with errors or
without, can be written, and the text is read back as that value, without error,
into any variable. -/
theorem C66_reload {c : Cfg} {pl : Bool} {α : Type} {S : Ser α} {P : α → Prop} (h : Stable c pl S P) {ss : List Bytes} {v : α}
    (hs : pl = true → ∀ s ∈ ss, CalmText s) (hr : History S S.dflt ss v) :
    ∃ t, S.emit v ⟨[], .back⟩ = .ok ⟨t, .back⟩ ∧ ∀ v0, S.de v0 t .fresh = .ok (v, [], .fresh) := by
  have key : ∀ {v0 : α}, P v0 → History S v0 ss v → P v := by
    clear hr
    intro v0 h0 hr
    induction hr with
    | nil => exact h0
    | cons h1 _ ih =>
      exact ih (fun hpl s hm => hs hpl s (by simp [hm])) (C66_stays_good h (fun hpl => hs hpl _ (by simp)) h0 h1).1
  exact C50_round_trip (h.kept.good _ (key h.kept.dflt hr))

/-- C66. Two programs that have read different values save different texts. -/
theorem C66_saved_texts_differ {c : Cfg} {pl : Bool} {α : Type} {S : Ser α} {P : α → Prop} (h : Stable c pl S P)
    {v0 v w0 w : α} {s s' p p' : Bytes} {e e' f f' : EPtr} (hs : pl = true → CalmText s) (hs' : pl = true → CalmText s')
    (h0 : P v0) (h0' : P w0) (hr : S.de v0 s e = .ok (v, p, e')) (hr' : S.de w0 s' f = .ok (w, p', f'))
    (heq : S.emit v ⟨[], .back⟩ = S.emit w ⟨[], .back⟩) : v = w :=
  C50_injective (C66_stays_good h hs h0 hr).2 (C66_stays_good h hs' h0' hr').2 heq

/-- C66. Where the claim fails, so that these are no `Stable` descriptions or no
plain texts: a string can be read from `"\x01"`, but is written as `\u0001`, which
reads back as these six characters; `raw_value` keeps what is left of a wrong text;
`time_interval` in milliseconds reads `-5ms`, and writes 4995000 microseconds. -/
theorem C66_deviations :
    (strSer.de [] b!"\"\\x01\"" .fresh = .ok ([1], [], .fresh) ∧ strSer.emit [1] ⟨[], .back⟩ = .ok ⟨b!"\"\\u0001\"", .back⟩ ∧
      strSer.de [] b!"\"\\u0001\"" .fresh = .ok (b!"\\u0001", [], .fresh)) ∧
    ((rawSer .strict).de [] b!"[1" .fresh = .ok (b!"[1", [], .obj ⟨.ExpectedOf, some b!"]", 0⟩) ∧
      (rawSer .strict).emit b!"[1" ⟨[], .back⟩ = .ok ⟨b!"[1", .back⟩) ∧
    ((timeSer .strict .long 1000).de 0 b!"\"-5ms\"" .fresh = .ok (-5, [], .fresh) ∧
      (timeSer .strict .long 1000).emit (-5) ⟨[], .back⟩ = .ok ⟨b!"\"4995000mks\"", .back⟩ ∧
      (timeSer .strict .long 1000).de 0 b!"\"4995000mks\"" .fresh = .ok (4995, [], .fresh)) := by
  decide +kernel

/-! Settings of a program: a name, a port, and a map of lists. -/

structure DemoSettings where
  name : Bytes
  port : Int
  sets : List (Bytes × List Int)
  deriving DecidableEq

def demoPort (c : Cfg) : Ser Int := intSer c .ushort
def demoSets (c : Cfg) : Ser (List (Bytes × List Int)) := dictSer (seqColl (Bytes × List Int)) strSer (arraySer (seqColl Int) (intSer c .int))

def demoSettings (c : Cfg) : List (PEntry DemoSettings) :=
  [⟨.mem ⟨b!"name", (·.name), fun x t => { t with name := x }, strSer⟩, StrOk⟩,
   ⟨.mem ⟨b!"port", (·.port), fun x t => { t with port := x }, demoPort c⟩,
     fun v => IntTy.ushort.InRange v ∧ (v ≠ IntTy.ushort.min ∨ IntTy.ushort.Modular c)⟩,
   ⟨.prop ⟨b!"sets", (·.sets), fun x t => { t with sets := x }, demoSets c⟩,
     fun (vs : List (Bytes × List Int)) => ∀ x ∈ vs, StrOk x.1 ∧ ∀ v ∈ x.2, IntTy.int.InRange v ∧ (v ≠ IntTy.int.min ∨ IntTy.int.Modular c)⟩]

def demoSettingsSer (c : Cfg) : Ser DemoSettings :=
  objectSer c false ⟨[], 80, []⟩ ((demoSettings c).map fun m => m.entry.toMember)

theorem demoSettings_stable (c : Cfg) : Stable c true (demoSettingsSer c) fun t => ∀ m ∈ demoSettings c, m.P (m.entry.ref.get t) := by
  refine .object ⟨?_, ?_, ?_⟩ ?_ ?_ ?_ ?_
  · intro m hm x t
    simp only [demoSettings, List.map_cons, List.map_nil, List.mem_cons, List.not_mem_nil, or_false] at hm
    rcases hm with rfl | rfl | rfl <;> rfl
  · intro m hm x y t
    simp only [demoSettings, List.map_cons, List.map_nil, List.mem_cons, List.not_mem_nil, or_false] at hm
    rcases hm with rfl | rfl | rfl <;> rfl
  · simp [demoSettings, Entry.ref]
  · intro m hm
    simp only [demoSettings, List.mem_cons, List.not_mem_nil, or_false] at hm
    rcases hm with rfl | rfl | rfl <;> (simp only [Entry.ref]; decide)
  · intro a b h
    obtain ⟨_, _, _⟩ := a
    obtain ⟨_, _, _⟩ := b
    simpa [demoSettings, Entry.ref] using h
  · intro m hm
    simp only [demoSettings, List.mem_cons, List.not_mem_nil, or_false] at hm
    rcases hm with rfl | rfl | rfl
    · exact .str
    · exact .int (by unfold IntTy.Std; decide)
    · exact .dict .str (.seq (.int (by unfold IntTy.Std; decide)))
  · intro m hm
    simp only [demoSettings, List.mem_cons, List.not_mem_nil, or_false] at hm
    rcases hm with rfl | rfl | rfl
    · exact strOk_nil
    · have : IntTy.ushort.InRange 80 ∧ (80 : Int) ≠ IntTy.ushort.min := by unfold IntTy.InRange; decide
      exact ⟨this.1, .inl this.2⟩
    · simp [Entry.ref]

/-- A text torn off in the middle, read over another one. -/
def demoTorn : List Bytes :=
  [b!"{\"name\":\"\\u00e9\\n\",\"sets\":{\"a\":[1,-2],\"b\":[]}}", b!"{\"port\":65536000, \"name\":\"new\",\"sets\":{\"c\":[3,4"]

example : ∀ s ∈ demoTorn, CalmText s := by
  unfold CalmText demoTorn
  decide +kernel

example : History (demoSettingsSer .strict) (demoSettingsSer .strict).dflt demoTorn ⟨b!"new", 0, [(b!"c", [3, 4])]⟩ :=
  .cons (w := ⟨[0xC3, 0xA9, c%'\n'], 80, [(b!"a", [1, -2]), (b!"b", [])]⟩) (p := []) (e := .fresh) (e' := .fresh) (by decide +kernel)
    (.cons (p := []) (e := .fresh) (e' := .obj ⟨.UnexpectedEndFragment, none, 0⟩) (by decide +kernel) (.nil _))

example : (demoSettingsSer .strict).emit ⟨b!"new", 0, [(b!"c", [3, 4])]⟩ ⟨[], .back⟩ =
    .ok ⟨b!"{\"name\":\"new\",\"port\":0,\"sets\":{\"c\":[3,4]}}", .back⟩ := by decide +kernel

/-! A peer with the name or the number of its port. -/

structure DemoPeer where
  name : Bytes
  port : Int
  tls : Bool
  deriving DecidableEq

def demoPeerName : PEntry DemoPeer := ⟨.mem ⟨b!"port", (·.name), fun x t => { t with name := x }, strSer⟩, StrOk⟩
def demoPeerPort (c : Cfg) : PEntry DemoPeer :=
  ⟨.mem ⟨b!"port", (·.port), fun x t => { t with port := x }, demoPort c⟩, fun v => IntTy.ushort.InRange v ∧ (v ≠ IntTy.ushort.min ∨ IntTy.ushort.Modular c)⟩
def demoPeerTls : PEntry DemoPeer := ⟨.mem ⟨b!"tls", (·.tls), fun x t => { t with tls := x }, boolSer⟩, fun _ => True⟩

def demoPeer (c : Cfg) : List (KSlot DemoPeer) :=
  [.alt demoPeerName (demoPeerPort c) ([] : Bytes) (0 : Int) (fun x : Bytes => x.isEmpty) false, .one demoPeerTls]

def demoPeerSer (c : Cfg) : Ser DemoPeer := objectSer c false ⟨[], 0, false⟩ (((demoPeer c).map KSlot.slot).map Slot.toMember)

theorem demoPeer_stable (c : Cfg) : Stable c true (demoPeerSer c) fun t => ∀ x ∈ demoPeer c, x.Holds t := by
  have h0 : IntTy.ushort.InRange 0 ∧ ((0 : Int) ≠ IntTy.ushort.min ∨ IntTy.ushort.Modular c) :=
    ⟨by unfold IntTy.InRange; decide, zero_ne_min (by unfold IntTy.Std; decide)⟩
  have hrefs : ((demoPeer c).map KSlot.slot).flatMap Slot.refs = [demoPeerName.entry.ref, (demoPeerPort c).entry.ref, demoPeerTls.entry.ref] := rfl
  have hparts : (demoPeer c).flatMap KSlot.parts = [demoPeerName, demoPeerPort c, demoPeerTls] := rfl
  refine .objectIf ?_ ?_ ?_ ?_ ?_ ?_ ?_
  · rw [hrefs]
    refine ⟨?_, ?_, ?_⟩
    · intro m hm x t
      simp only [List.mem_cons, List.not_mem_nil, or_false] at hm
      rcases hm with rfl | rfl | rfl <;> rfl
    · intro m hm x y t
      simp only [List.mem_cons, List.not_mem_nil, or_false] at hm
      rcases hm with rfl | rfl | rfl <;> rfl
    · simp [demoPeerName, demoPeerPort, demoPeerTls, Entry.ref]
  · intro x hx
    simp only [demoPeer, List.mem_cons, List.not_mem_nil, or_false] at hx
    rcases hx with rfl | rfl
    · rfl
    · trivial
  · rw [hrefs]
    intro m hm
    simp only [List.mem_cons, List.not_mem_nil, or_false] at hm
    rcases hm with rfl | rfl | rfl <;> (simp only [demoPeerName, demoPeerPort, demoPeerTls, Entry.ref]; decide)
  · rw [hrefs]
    intro a b h
    obtain ⟨_, _, _⟩ := a
    obtain ⟨_, _, _⟩ := b
    simpa [demoPeerName, demoPeerPort, demoPeerTls, Entry.ref] using h
  · rw [hparts]
    intro m hm
    simp only [List.mem_cons, List.not_mem_nil, or_false] at hm
    rcases hm with rfl | rfl | rfl
    · exact .str
    · exact .int (by unfold IntTy.Std; decide)
    · exact .bool
  · intro x hx
    simp only [demoPeer, List.mem_cons, List.not_mem_nil, or_false] at hx
    rcases hx with rfl | rfl
    · refine ⟨C32_null_string, C32_null_integer c .ushort, strOk_nil, h0, fun x _ => ?_, fun _ y t hy ht => ?_, nofun⟩
      · exact List.isEmpty_iff
      · have := writes_unique (emitInt_writes (by unfold IntTy.Std; decide) hy.1).back ht
        subst this
        exact strSer_rejects (intText_decimal y)
    · trivial
  · intro x hx
    simp only [demoPeer, List.mem_cons, List.not_mem_nil, or_false] at hx
    rcases hx with rfl | rfl
    · exact ⟨strOk_nil, h0, .inl rfl⟩
    · trivial

/-- The name, then a number, then a text torn off inside a name: each alternative takes the place of the other one. -/
example : History (demoPeerSer .strict) (demoPeerSer .strict).dflt
    [b!"{\"tls\":true,\"port\":\"http\"}", b!"{\"port\":8080}", b!"{\"port\":\"imap"] ⟨[], 0, true⟩ :=
  .cons (w := ⟨b!"http", 0, true⟩) (p := []) (e := .fresh) (e' := .fresh) (by decide +kernel)
    (.cons (w := ⟨[], 8080, true⟩) (p := []) (e := .fresh) (e' := .fresh) (by decide +kernel)
      (.cons (p := []) (e := .fresh) (e' := .obj ⟨.InvalidNumber, none, 5⟩) (by decide +kernel) (.nil _)))

example : (demoPeerSer .strict).emit ⟨[], 8080, true⟩ ⟨[], .back⟩ = .ok ⟨b!"{\"port\":8080,\"tls\":true}", .back⟩ := by decide +kernel

/-- C66. Alternatives that cannot be told apart: the second one, a string, is tried after an enumeration. A text torn off
in the middle of a name leaves it in the string; what is written then is read back as the enumeration. -/
theorem C66_alternatives :
    let S : Ser (Nat × Bytes) := objectSer .strict false (0, []) [memberIf ⟨b!"v", Prod.fst, fun x t => (x, t.2),
      enumSer .strict true (0 : Nat) [(b!"none", 0), (b!"one", 1)]⟩ ⟨b!"v", Prod.snd, fun x t => (t.1, x), strSer⟩ (· == 0) false]
    S.de (0, []) b!"{\"v\":\"one" .fresh = .ok ((0, b!"one"), [], .obj ⟨.UnexpectedEndFragment, none, 0⟩) ∧
    S.emit (0, b!"one") ⟨[], .back⟩ = .ok ⟨b!"{\"v\":\"one\"}", .back⟩ ∧
    S.de (0, []) b!"{\"v\":\"one\"}" .fresh = .ok ((1, []), [], .fresh) := by
  decide +kernel

end Wjson
