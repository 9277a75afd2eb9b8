import Verif.Spec.Log
import Verif.Spec.Alternatives
/-
Specification for C89 with alternatives: a log whose records stand behind a line
feed each.
-/
namespace Wjson.Spec
open Wjson

/-- Descriptions whose texts stand in brackets or braces, with anything inside that accepts nothing but JSON, `member_if`
among it (`AltJson`, C87; what the texts mean does not matter here, so the `exact` of C87 is not asked for). -/
inductive AltEnclosed (c : Cfg) (raw : Bool) : ∀ {α : Type}, Ser α → Prop
  | array {α C : Type} {K : Coll α C} {S : Ser α} {D : Den α} : AltJson c raw S D → AltEnclosed c raw (arraySer K S)
  | dict {κ ν C : Type} {K : Coll (κ × ν) C} {SK : Ser κ} {SV : Ser ν} {DK : Den κ} {DV : Den ν} : KeyMeans c SK DK → AltJson c raw SV DV →
      AltEnclosed c raw (dictSer K SK SV)
  | object {τ : Type} {strict : Bool} {dflt : τ} {L : List (DSlot τ)} :
      (∀ d ∈ L, PlainName d.name ∧ SameNames d.slot) →
      (∀ d, .one d ∈ L → AltJson c raw d.entry.ref.ser d.den) →
      (∀ l r i RU Dl Dr ex, .alt l r i RU Dl Dr ex ∈ L → ex = false ∧ AltJson c raw l.ser Dl ∧ AltJson c raw r.ser Dr) →
      AltEnclosed c raw (objectSer c strict dflt (L.map fun d => d.slot.toMember))
  | objectArray {τ : Type} {dflt : τ} {L : List (DSlot τ)} :
      (∀ d, .one d ∈ L → AltJson c raw d.entry.ref.ser d.den) →
      (∀ l r i RU Dl Dr ex, .alt l r i RU Dl Dr ex ∈ L → ex = false ∧ AltJson c raw l.ser Dl ∧ AltJson c raw r.ser Dr) →
      AltEnclosed c raw (objectArraySer dflt (L.map fun d => d.slot.toAMember))

/-- A file with the texts of the values `vs`, at least one line feed before each. -/
inductive LogLines (c : Cfg) {α : Type} (S : Ser α) : List α → Bytes → Prop
  | nil : LogLines c S [] []
  | record {vs : List α} {s : Bytes} {v : α} {t : Bytes} : LogLines c S vs s → TextOf c S v t → PlainText t →
      LogLines c S (vs ++ [v]) (s ++ (b!"\n" ++ t))
  | newline {vs : List α} {s : Bytes} : LogLines c S vs s → LogLines c S vs (s ++ b!"\n")

/-- `LogFile` for a program that writes the line feed in front of a record. -/
inductive LineFile (c : Cfg) {α : Type} (S : Ser α) : List α → Bytes → Prop
  | new : LineFile c S [] []
  | append {vs : List α} {s : Bytes} {v : α} {t : Bytes} : LineFile c S vs s → TextOf c S v t → PlainText t →
      LineFile c S (vs ++ [v]) (s ++ (b!"\n" ++ t))
  | stopped {vs vs' : List α} {s x s' rest : Bytes} {v : α} {t : Bytes} {e : EPtr} : LineFile c S vs s → TextOf c S v t → PlainText t →
      x <+: b!"\n" ++ t → recoverValues S ((s ++ x).length + 1) (s ++ x) .fresh = .ok (vs', rest, e) → s ++ x = s' ++ rest →
      LineFile c S vs' s'

end Wjson.Spec
