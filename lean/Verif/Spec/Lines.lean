import Verif.Spec.Nested
/-
Specification for C91: one value per line.
-/
namespace Wjson.Spec
open Wjson

/-- A stream of the values `vs`, which can all be written and read back (C50): the text of each without a line feed in it
(see `C91_one_line` for why), and a line feed. There may be other lines between them, for which the deserializer reports an
error. -/
inductive Lines (c : Cfg) {α : Type} (S : Ser α) : List α → Bytes → Prop
  | nil : Lines c S [] []
  | line {v : α} {vs : List α} {t s : Bytes} : GoodValue c S v → S.emit v ⟨[], .back⟩ = .ok ⟨t, .back⟩ → c%'\n' ∉ t → Lines c S vs s →
      Lines c S (v :: vs) (t ++ b!"\n" ++ s)
  | wrong {vs : List α} {t s : Bytes} : (∃ v p e, S.de S.dflt t .fresh = .ok (v, p, e) ∧ e.failed = true) → c%'\n' ∉ t → Lines c S vs s →
      Lines c S vs (t ++ b!"\n" ++ s)

end Wjson.Spec
