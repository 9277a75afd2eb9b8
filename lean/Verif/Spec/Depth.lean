import Verif.Spec.Grammar
/-
Specification: how deeply a JSON text is nested. Nothing in this file refers to
the model.
-/
namespace Wjson.Spec
open Wjson

/-- `Nested k t d`: `t` is a text of the wjson dialect (`XG k t`) in which the
deepest value stands inside `d` pairs of brackets or braces. A scalar and an
empty array or object have `d = 0`; `d` of a list of elements or members is the
greatest `d` of its values. -/
inductive Nested : Kind → Bytes → Nat → Prop
  | null : Nested .value b!"null" 0
  | true : Nested .value b!"true" 0
  | false : Nested .value b!"false" 0
  | num {t} : RNumber t → Nested .value t 0
  | str {t} : XString t → Nested .value t 0
  | arr0 {g} : Gap g → Nested .value (c%'[' :: g ++ b!"]") 0
  | arr {t d} : Nested .elems t d → Nested .value (c%'[' :: t ++ b!"]") (d + 1)
  | obj0 {g} : Gap g → Nested .value (c%'{' :: g ++ b!"}") 0
  | objBracket {g} : Gap g → Nested .value (c%'{' :: g ++ b!"]") 0
  | obj {t d} : Nested .members t d → Nested .value (c%'{' :: t ++ b!"}") (d + 1)
  | elem {g1 v g2 d} : Gap g1 → Nested .value v d → Gap g2 → Nested .elems (g1 ++ v ++ g2) d
  | elemTrail {g1 v g2 g3 d} : Gap g1 → Nested .value v d → Gap g2 → Gap g3 →
      Nested .elems (g1 ++ v ++ g2 ++ c%',' :: g3) d
  | elemMore {g1 v g2 r d d'} : Gap g1 → Nested .value v d → Gap g2 → Nested .elems r d' →
      Nested .elems (g1 ++ v ++ g2 ++ c%',' :: r) (max d d')
  | memb {g0 k g1 g2 v g3 d} : Gap g0 → XString k → Gap g1 → Gap g2 → Nested .value v d → Gap g3 →
      Nested .members (g0 ++ k ++ g1 ++ c%':' :: (g2 ++ v ++ g3)) d
  | membTrail {g0 k g1 g2 v g3 g4 d} : Gap g0 → XString k → Gap g1 → Gap g2 → Nested .value v d → Gap g3 → Gap g4 →
      Nested .members (g0 ++ k ++ g1 ++ c%':' :: (g2 ++ v ++ g3 ++ c%',' :: g4)) d
  | membMore {g0 k g1 g2 v g3 r d d'} : Gap g0 → XString k → Gap g1 → Gap g2 → Nested .value v d → Gap g3 →
      Nested .members r d' → Nested .members (g0 ++ k ++ g1 ++ c%':' :: (g2 ++ v ++ g3 ++ c%',' :: r)) (max d d')

/-- The number of opening brackets and braces in a text. -/
def opens (s : Bytes) : Nat := s.countP fun b => b = c%'[' ∨ b = c%'{'

/-- `n` opening brackets followed by `n` closing ones. -/
def brackets (n : Nat) : Bytes := List.replicate n c%'[' ++ List.replicate n c%']'

end Wjson.Spec
