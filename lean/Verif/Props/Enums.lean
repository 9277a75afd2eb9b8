import Verif.Proofs.Enum
/-
Property C34: enumerators. A list of pairs stands for the `enum_value`s: name
and value.
-/
namespace Wjson
open Spec

section
variable {α : Type}

/-- C34. Every name of the list, in quotes, is read as its value; bytes up to the
space before the quote are skipped. -/
theorem C34_reads (c : Cfg) (strict : Bool) (dflt : α) {L : List (Bytes × α)} (hn : (L.map Prod.fst).Nodup)
    (hq : ∀ x ∈ L, c%'"' ∉ x.1) {n : Bytes} {v : α} (h : (n, v) ∈ L) {g : Bytes} (hg : ∀ b ∈ g, b ≤ 32) :
    Reads (deEnum c strict dflt L) (g ++ quoted n) v := by
  intro v0 rest e _ _
  rw [deEnum_quoted c strict dflt L hg (hq _ h), enumFind_of_mem hn h]

/-- C34. Every listed value is written as one of its names and round-trips. -/
theorem C34_round_trip [DecidableEq α] (c : Cfg) (strict : Bool) (dflt : α) {L : List (Bytes × α)}
    (hn : (L.map Prod.fst).Nodup) (hq : ∀ x ∈ L, c%'"' ∉ x.1) {v : α} (h : v ∈ L.map Prod.snd) :
    ∃ n, (n, v) ∈ L ∧ RT (enumSer c strict dflt L) v (quoted n) := by
  refine ⟨enumName L v, enumName_mem h, emitEnum_writes L v, ⟨_, _, rfl, by unfold WsByte; decide⟩, ?_⟩
  exact C34_reads c strict dflt hn hq (enumName_mem h) (g := []) (by simp)

/-- C34. A value that is not listed is written as the empty string. -/
theorem C34_unlisted_value [DecidableEq α] (c : Cfg) (strict : Bool) (dflt : α) {L : List (Bytes × α)} {v : α}
    (h : v ∉ L.map Prod.snd) : Writes (enumSer c strict dflt L).emit v b!"\"\"" := by
  have := emitEnum_writes L v
  rwa [enumName_none h] at this

/-- C34. A name that is not listed, strict mode: the error InvalidEnum at the
first byte of the name, and the default value. -/
theorem C34_unlisted_strict [DecidableEq α] (c : Cfg) (dflt : α) {L : List (Bytes × α)} {k : Bytes} (hk : c%'"' ∉ k)
    (h : k ∉ L.map Prod.fst) (v0 : α) (rest : Bytes) :
    (enumSer c true dflt L).de v0 (quoted k ++ rest) .fresh =
      .ok (dflt, [], .obj ⟨.InvalidEnum, none, ((k ++ b!"\"" ++ rest).length : Nat)⟩) := by
  have := deEnum_quoted c true dflt L (g := []) (by simp) hk v0 rest .fresh
  rw [enumFind_none h] at this
  simp only [List.nil_append, if_true] at this
  simp only [enumSer, this]
  rw [List.length_append, List.length_append]
  rfl

/-- C34. A name that is not listed, nonstrict mode: the default value, no error. -/
theorem C34_unlisted_nonstrict [DecidableEq α] (c : Cfg) (dflt : α) {L : List (Bytes × α)} {k : Bytes} (hk : c%'"' ∉ k)
    (h : k ∉ L.map Prod.fst) : Reads (enumSer c false dflt L).de (quoted k) dflt := by
  intro v0 rest e _ _
  have := deEnum_quoted c false dflt L (g := []) (by simp) hk v0 rest e
  rw [enumFind_none h] at this
  simpa [enumSer] using this

end

/-! ### Concrete cases -/

def demoEnum : List (Bytes × Int) := [(b!"one", 1), (b!"two", 2), (b!"twofold", 2), (b!"on", 4)]

example : (demoEnum.map Prod.fst).Nodup ∧ (∀ x ∈ demoEnum, c%'"' ∉ x.1) ∧ (2 : Int) ∈ demoEnum.map Prod.snd ∧
    b!"tw" ∉ demoEnum.map Prod.fst := by decide
example : (enumSer .strict true 0 demoEnum).emit 2 ⟨[], .back⟩ = .ok ⟨b!"\"two\"", .back⟩ := by decide +kernel
example : (enumSer .strict true 0 demoEnum).de 7 b!" \"on\"," .fresh = .ok (4, b!",", .fresh) := by decide +kernel
example : (enumSer .strict true 0 demoEnum).de 7 b!"\"tw\"," .fresh = .ok (0, [], .obj ⟨.InvalidEnum, none, 4⟩) := by
  decide +kernel
example : (enumSer .strict false 0 demoEnum).de 7 b!"\"tw\"," .fresh = .ok (0, b!",", .fresh) := by decide +kernel

/-- Where `char` is signed, any byte above 127 in front of the quote is skipped
as if it were white space; elsewhere it is an error. -/
theorem C34_high_byte_skipped :
    deEnum { charSigned := true } true 0 demoEnum 7 ([200, 201] ++ b!"\"on\"") .fresh = .ok (4, [], .fresh) ∧
    deEnum { charSigned := false } true 0 demoEnum 7 ([200, 201] ++ b!"\"on\"") .fresh =
      .ok (0, [], .obj ⟨.ExpectedOf, some b!"\"", 6⟩) := by decide +kernel

end Wjson
