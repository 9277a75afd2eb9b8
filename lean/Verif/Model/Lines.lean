import Verif.Model.Parser
import Verif.Model.Sink
/-
A program that receives one value per line. Like Model/Client.lean this is not code of
/repo but code a user of it writes.
-/
namespace Wjson

/-- The other side: `for(const T& v : vs) { J::serializer()(v, std::back_inserter(out)); out += '\n'; }`. -/
def sendLines {α : Type} (S : Ser α) : List α → Sink → Out Sink
  | [], k => .ok k
  | v :: vs, k => S.emit v k >>= fun k => k.put c%'\n' >>= fun k => sendLines S vs k

/-- `n = buf.find('\n')`: what is in front of the first line feed and what is behind it. -/
def cutLine : Bytes → Option (Bytes × Bytes)
  | [] => none
  | b :: t => if b = c%'\n' then some ([], t) else (cutLine t).map fun x => (b :: x.1, x.2)

/-- `while((n = buf.find('\n')) != npos) { line = buf.substr(0,n); buf.erase(0,n+1); T v; json_error e; J::serializer()(v,line.begin(),line.end(),&e); if (!e) vs.push_back(v); }`:
the values and what is left of `buf`. The function of /repo in it is the deserializer of the description. -/
def takeLines {α : Type} (S : Ser α) : Nat → Bytes → Out (List α × Bytes)
  | 0, _ => .fuel
  | n + 1, s =>
    match cutLine s with
    | none => .ok ([], s)
    | some (l, r) =>
      S.de S.dflt l .fresh >>= fun x =>
      takeLines S n r >>= fun y => .ok (if x.2.2.failed then y.1 else x.1 :: y.1, y.2)

/-- The same after each piece that arrives: `buf += piece;` and the loop. -/
def receiveLines {α : Type} (S : Ser α) : Bytes → List Bytes → Out (List α × Bytes)
  | buf, [] => .ok ([], buf)
  | buf, piece :: pieces =>
    takeLines S ((buf ++ piece).length + 1) (buf ++ piece) >>= fun r =>
    receiveLines S r.2 pieces >>= fun x => .ok (r.1 ++ x.1, x.2)

end Wjson
