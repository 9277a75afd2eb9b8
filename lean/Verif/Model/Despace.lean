import Verif.Model.Parser
/-
Model of `parser::despace`, wjson/parser.hpp:128-156.
-/
namespace Wjson

/-- One token of `despace`, wjson/parser.hpp:138-147. -/
def despaceTok (s : Bytes) (e : EPtr) : Bytes × EPtr :=
  if isString s then parseString s e
  else if isNumber s then parseNumber s e
  else if isBool s then parseBool s e
  else if isNull s then parseNull s e
  else (s.tail, e)

/-- The loop of `despace`, wjson/parser.hpp:131-155, with a budget of loop
iterations. The third component is what has been written through `out`. -/
def despaceF : Nat → Bytes → EPtr → Out (Bytes × EPtr × Bytes)
  | 0, _, _ => .fuel
  | n + 1, s, e =>
    if s = [] then .ok ([], e, [])
    else
      let r := parseSpace s e
      if r.1 = [] then .ok ([], r.2, [])
      else
        let k := despaceTok r.1 r.2
        let w := if k.2.failed then [] else r.1.take (r.1.length - k.1.length)
        despaceF n k.1 k.2 >>= fun q => .ok (q.1, q.2.1, w ++ q.2.2)

/-- `parser::despace`, wjson/parser.hpp:128-156. -/
def despace (s : Bytes) (e : EPtr) : Out (Bytes × EPtr × Bytes) := despaceF (s.length + 1) s e

end Wjson
