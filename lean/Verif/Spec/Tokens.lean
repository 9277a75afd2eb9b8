import Verif.Spec.Grammar
/-
Specification: tokens, removal of white space, documents without white space.
Nothing in this file refers to the model.
-/
namespace Wjson.Spec
open Wjson

/-- One token: a string, a number, a literal, or any other single byte that is
neither white space nor a slash and does not start one of the former. -/
inductive Tok : Bytes → Prop
  | str {t} : XString t → Tok t
  | num {t} : RNumber t → Tok t
  | null : Tok b!"null"
  | true : Tok b!"true"
  | false : Tok b!"false"
  | punct {b} : ¬ WsByte b → ¬ Digit b →
      b ∉ [c%'/', c%'"', c%'-', c%'n', c%'t', c%'f'] → Tok [b]

/-- `Despaced s o`: `o` is `s` with the gaps between tokens deleted. -/
inductive Despaced : Bytes → Bytes → Prop
  | done {g} : Gap g → Despaced g []
  | tok {g t s o} : Gap g → Tok t → Despaced s o → Despaced (g ++ t ++ s) (t ++ o)

/-- Values of the dialect without white space or comments between tokens. -/
inductive CG : Kind → Bytes → Prop
  | null : CG .value b!"null"
  | true : CG .value b!"true"
  | false : CG .value b!"false"
  | num {t} : RNumber t → CG .value t
  | str {t} : XString t → CG .value t
  | arr0 : CG .value b!"[]"
  | arr {t} : CG .elems t → CG .value (c%'[' :: t ++ b!"]")
  | obj0 : CG .value b!"{}"
  | objBracket : CG .value b!"{]"
  | obj {t} : CG .members t → CG .value (c%'{' :: t ++ b!"}")
  | elem {v} : CG .value v → CG .elems v
  | elemTrail {v} : CG .value v → CG .elems (v ++ b!",")
  | elemMore {v r} : CG .value v → CG .elems r → CG .elems (v ++ c%',' :: r)
  | memb {k v} : XString k → CG .value v → CG .members (k ++ c%':' :: v)
  | membTrail {k v} : XString k → CG .value v → CG .members (k ++ c%':' :: (v ++ b!","))
  | membMore {k v r} : XString k → CG .value v → CG .members r →
      CG .members (k ++ c%':' :: (v ++ c%',' :: r))

/-- RFC 8259 values without any white space between tokens. -/
inductive CR : Kind → Bytes → Prop
  | null : CR .value b!"null"
  | true : CR .value b!"true"
  | false : CR .value b!"false"
  | num {t} : RNumber t → CR .value t
  | str {t} : RString t → CR .value t
  | arr0 : CR .value b!"[]"
  | arr {t} : CR .elems t → CR .value (c%'[' :: t ++ b!"]")
  | obj0 : CR .value b!"{}"
  | obj {t} : CR .members t → CR .value (c%'{' :: t ++ b!"}")
  | elem {v} : CR .value v → CR .elems v
  | elemMore {v r} : CR .value v → CR .elems r → CR .elems (v ++ c%',' :: r)
  | memb {k v} : RString k → CR .value v → CR .members (k ++ c%':' :: v)
  | membMore {k v r} : RString k → CR .value v → CR .members r →
      CR .members (k ++ c%':' :: (v ++ c%',' :: r))

/-- White space and comments as a user thinks of them: a comment is
`/*`, a body without `*/`, and `*/`. The body must not start with a slash
(wjson takes `/*/` for a complete comment). -/
inductive Blank : Bytes → Prop
  | nil : Blank []
  | ws {b t} : WsByte b → Blank t → Blank (b :: t)
  | comment {body t} : body.head? ≠ some c%'/' → ¬ (b!"*/" <:+: body) → Blank t →
      Blank (b!"/*" ++ body ++ b!"*/" ++ t)

end Wjson.Spec
