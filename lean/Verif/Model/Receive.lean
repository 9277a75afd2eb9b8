import Verif.Model.Client
/-
A program that receives values in pieces. Like Model/Client.lean this is not code of
/repo but code a user of it writes.
-/
namespace Wjson

/-- The other side: `for(const T& v : vs) J::serializer()(v, std::back_inserter(out));`. -/
def sendAll {α : Type} (S : Ser α) : List α → Sink → Out Sink
  | [], k => .ok k
  | v :: vs, k => S.emit v k >>= fun k => sendAll S vs k

/-- A program that gets a stream of values in pieces, as from a socket. It keeps a `std::string buf` with what it could not
read yet. For each piece it does
`buf += piece; json_error e; beg = buf.begin(); end = buf.end(); /* the loop of recoverValues */; buf.erase(buf.begin(), beg);`
and goes on with the values of the loop. An error of the loop means to it that more has to come. The functions of /repo in it
are `parse_space` (wjson/parser.hpp) and the deserializer of the description. It returns all the values and `buf`. -/
def receive {α : Type} (S : Ser α) : Bytes → List Bytes → Out (List α × Bytes)
  | buf, [] => .ok ([], buf)
  | buf, piece :: pieces =>
    recoverValues S ((buf ++ piece).length + 1) (buf ++ piece) .fresh >>= fun r =>
    receive S r.2.1 pieces >>= fun x => .ok (r.1 ++ x.1, x.2)

end Wjson
