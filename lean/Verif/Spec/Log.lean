import Verif.Spec.Denotes
import Verif.Spec.Nested
import Verif.Model.Client
/-
Specification for C89: a log of values in a file, and what may happen to it.
-/
namespace Wjson.Spec
open Wjson

/-- Descriptions whose texts stand in brackets, braces or quotes: structures, containers and dictionaries, with anything inside
that has a `Meaning` (C53), strings, enumerations and flags; `bool`, of whose words none is the beginning of another; and `member_value` of these. -/
inductive Enclosed (c : Cfg) : ∀ {α : Type}, Ser α → Prop
  | array {f : Bool} {α C : Type} {K : Coll α C} {S : Ser α} {D : Den α} : Meaning c f S D → Enclosed c (arraySer K S)
  | dict {f f' : Bool} {κ ν C : Type} {K : Coll (κ × ν) C} {SK : Ser κ} {SV : Ser ν} {DK : Den κ} {DV : Den ν} : Meaning c f SK DK →
      Meaning c f' SV DV → Enclosed c (dictSer K SK SV)
  | object {τ : Type} {f : DEntry τ → Bool} {strict : Bool} {dflt : τ} {L : List (DEntry τ)} : GoodNames (L.map DEntry.entry) →
      (∀ d ∈ L, Meaning c (f d) d.entry.ref.ser d.den) → Enclosed c (objectSer c strict dflt (L.map fun d => d.entry.toMember))
  | objectArray {τ : Type} {f : DEntry τ → Bool} {dflt : τ} {L : List (DEntry τ)} : (∀ d ∈ L, Meaning c (f d) d.entry.ref.ser d.den) →
      Enclosed c (objectArraySer dflt (L.map fun d => d.entry.toAMember))
  | str : Enclosed c strSer
  | chars {N : Nat} : Enclosed c (charArraySer N)
  | bool : Enclosed c boolSer
  | enum {α : Type} [DecidableEq α] {strict : Bool} {dflt : α} {L : List (Bytes × α)} : (L.map Prod.fst).Nodup →
      Enclosed c (enumSer c strict dflt L)
  | flags {w : Nat} {F : Flags w} : F.list ≠ [] → (F.list.map Prod.fst).Nodup → GoodSep F.sep →
      (∀ y ∈ F.list, PlainName y.1 ∧ FlagWord F.sep y.1) → Enclosed c (flagsSer c F)
  | memberValue {τ α : Type} {dflt : τ} {get : τ → α} {set : α → τ → τ} {S : Ser α} : Enclosed c S → Enclosed c (memberValueSer dflt get set S)

/-- `t` is what is written for `v`, a value that can be read back (C50), and not longer than `INT_MAX` bytes. -/
structure TextOf (c : Cfg) {α : Type} (S : Ser α) (v : α) (t : Bytes) : Prop where
  good : GoodValue c S v
  written : S.emit v ⟨[], .back⟩ = .ok ⟨t, .back⟩
  short : t.length ≤ intMax

/-- A file with the texts of the values `vs`, one after the other, and with line feeds between them or not. -/
inductive LogText (c : Cfg) {α : Type} (S : Ser α) : List α → Bytes → Prop
  | nil : LogText c S [] []
  | record {vs : List α} {s : Bytes} {v : α} {t : Bytes} : LogText c S vs s → TextOf c S v t → LogText c S (vs ++ [v]) (s ++ t)
  | newline {vs : List α} {s : Bytes} : LogText c S vs s → LogText c S vs (s ++ b!"\n")

/-- What a program makes of its log. It starts with an empty file; it appends values, each followed by a line feed; and it
may be stopped in the middle of that, so that only the beginning `x` of what it was about to append gets into the file.
It then reads the file with the loop `recoverValues`, cuts it off at the position where the loop stopped, and goes on with
the values it has got. `LogFile c S vs s`: it can get into a state with the file `s` and the values `vs`. -/
inductive LogFile (c : Cfg) {α : Type} (S : Ser α) : List α → Bytes → Prop
  | new : LogFile c S [] []
  | append {vs : List α} {s : Bytes} {v : α} {t : Bytes} : LogFile c S vs s → TextOf c S v t → LogFile c S (vs ++ [v]) (s ++ (t ++ b!"\n"))
  | stopped {vs vs' : List α} {s x s' rest : Bytes} {v : α} {t : Bytes} {e : EPtr} : LogFile c S vs s → TextOf c S v t → x <+: t ++ b!"\n" →
      recoverValues S ((s ++ x).length + 1) (s ++ x) .fresh = .ok (vs', rest, e) → s ++ x = s' ++ rest → LogFile c S vs' s'

end Wjson.Spec
