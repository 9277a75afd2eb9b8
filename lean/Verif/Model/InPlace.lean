import Verif.Model.Despace
/-
`parser::despace`, wjson/parser.hpp:128-156, with its output in the memory that
also holds the input. Model/Despace.lean has input and output apart; here they
are positions in one memory and every assignment through `out` can change what is
read later.
-/
namespace Wjson

/-- `for (;start!=beg;++start) *(out++)=*start;`, wjson/parser.hpp:151-152: `n`
bytes, one after the other, from position `st` to position `o` of the memory `m`.
Access outside of the memory is undefined. -/
def copyIn : Nat → Bytes → Nat → Nat → Out (Bytes × Nat)
  | 0, m, _, o => .ok (m, o)
  | n + 1, m, st, o =>
    match m[st]? with
    | none => .ub
    | some b => if o < m.length then copyIn n (m.set o b) (st + 1) (o + 1) else .ub

/-- The loop of `despace`, wjson/parser.hpp:131-155, with a budget of loop
iterations: the text lies in the memory `m` from position `beg` to position
`fin`, the output starts at position `o`. The result is the memory, the
positions of `beg` and of `out`, and the error. -/
def despaceInF (fin : Nat) : Nat → Bytes → Nat → Nat → EPtr → Out (Bytes × Nat × Nat × EPtr)
  | 0, _, _, _, _ => .fuel
  | n + 1, m, beg, o, e =>
    if beg = fin then .ok (m, beg, o, e)
    else
      let r := parseSpace ((m.take fin).drop beg) e
      if r.1 = [] then .ok (m, fin, o, r.2)
      else
        let start := fin - r.1.length
        let k := despaceTok r.1 r.2
        let beg := fin - k.1.length
        if k.2.failed then despaceInF fin n m beg o k.2
        else copyIn (beg - start) m start o >>= fun q => despaceInF fin n q.1 beg q.2 k.2

/-- `parser::despace(p + beg, p + fin, p + o, e)` for a memory `m` at `p`,
wjson/parser.hpp:128-156. -/
def despaceIn (m : Bytes) (beg fin o : Nat) (e : EPtr) : Out (Bytes × Nat × Nat × EPtr) :=
  despaceInF fin (fin - beg + 1) m beg o e

end Wjson
