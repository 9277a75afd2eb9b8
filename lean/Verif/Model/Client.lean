import Verif.Model.Parser
import Verif.Model.Sink
/-
Loops of user code around `parser::parse_space` (wjson/parser.hpp:159-164),
`parser::parse` (wjson/parser.hpp:122-126) and typed readers. They are not part
of /repo; C56 and C89 are stated about them.
-/
namespace Wjson

/-- The loop a user writes to read all documents of a text:
`beg = parse_space(beg,end,&e); while(beg!=end) { P doc = beg; beg = parse(beg,end,&e); docs.push_back(string(doc,beg)); beg = parse_space(beg,end,&e); }`
with a budget for the number of documents. -/
def readDocs (c : Cfg) : Nat → Bytes → EPtr → Out (List Bytes × EPtr)
  | 0, _, _ => .fuel
  | n + 1, s, e =>
    match parseSpace s e with
    | ([], e) => .ok ([], e)
    | (b :: t, e) =>
      parse c (b :: t) e >>= fun r =>
      readDocs c n r.1 r.2 >>= fun x => .ok ((b :: t).take (t.length + 1 - r.1.length) :: x.1, x.2)

/-- The loop with a typed reader:
`while(beg!=end) { T v; beg = J::serializer()(v,beg,end,&e); vs.push_back(v); beg = parse_space(beg,end,&e); }`. -/
def readValues {α : Type} (S : Ser α) : Nat → Bytes → EPtr → Out (List α × EPtr)
  | 0, _, _ => .fuel
  | n + 1, s, e =>
    match parseSpace s e with
    | ([], e) => .ok ([], e)
    | (b :: t, e) =>
      S.de S.dflt (b :: t) e >>= fun r =>
      readValues S n r.2.1 r.2.2 >>= fun x => .ok (r.1 :: x.1, x.2)

/-- The loop of a program that reads its log again after it was stopped:
`beg = parse_space(beg,end,&e); while(beg!=end) { T v; P next = J::serializer()(v,beg,end,&e); if (e) break; vs.push_back(v); beg = parse_space(next,end,&e); }`.
It returns the values, the position `beg` where it stopped, and the error. -/
def recoverValues {α : Type} (S : Ser α) : Nat → Bytes → EPtr → Out (List α × Bytes × EPtr)
  | 0, _, _ => .fuel
  | n + 1, s, e =>
    match parseSpace s e with
    | ([], e) => .ok ([], [], e)
    | (b :: t, e) =>
      S.de S.dflt (b :: t) e >>= fun r =>
      if r.2.2.failed then .ok ([], b :: t, r.2.2)
      else recoverValues S n r.2.1 r.2.2 >>= fun x => .ok (r.1 :: x.1, x.2)

end Wjson
