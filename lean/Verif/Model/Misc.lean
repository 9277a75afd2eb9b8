import Verif.Model.Str
/-
Model of wjson/serializer/raw_value.hpp, iterator_pair.hpp, pointer.hpp,
quoted.hpp, member_value.hpp, of wjson/utility/multi_deserializer.hpp and
wjson/_json.hpp.
-/
namespace Wjson

/-- The bytes of `s` before the rest `p`: the range `[start, beg)`. -/
def consumed (s p : Bytes) : Bytes := s.take (s.length - p.length)

/-- `raw_value` (writing), wjson/serializer/raw_value.hpp:20-33, and
`iterator_pair` (writing), wjson/serializer/iterator_pair.hpp:20-31. -/
def emitRaw : Emit Bytes := fun v k => if v ≠ [] then k.puts v else k.puts b!"\"\""

/-- `raw_value` (reading), wjson/serializer/raw_value.hpp:35-43, and
`iterator_pair` (reading), wjson/serializer/iterator_pair.hpp:33-40. A pair of
iterators is modelled by the bytes between them. -/
def deRaw (c : Cfg) : De Bytes := fun _ s e =>
  parseValue c s e >>= fun r => .ok (consumed s r.1, r)

/-- `raw_value<T,R>::serializer`, wjson/serializer/raw_value.hpp:16-44, and
`iterator_pair<T>::serializer`, wjson/serializer/iterator_pair.hpp:16-41. -/
def rawSer (c : Cfg) : Ser Bytes := ⟨[], emitRaw, deRaw c⟩

/-- `*(++itr) = b`. Incrementing a back inserter does nothing; a raw pointer is
moved before the write (moving it past the end is undefined as well). -/
def Sink.preput (k : Sink) (b : Byte) : Out Sink :=
  match k.it with
  | .back => .ok ⟨k.mem ++ [b], .back⟩
  | .ptr i => if i + 1 < k.mem.length then .ok ⟨k.mem.set (i + 1) b, .ptr (i + 1)⟩ else .ub

/-- `pointer` (writing), wjson/serializer/pointer.hpp:19-31. -/
def emitPointer {α : Type} (S : Ser α) : Emit (Option α) := fun v k =>
  match v with
  | some x => S.emit x k
  | none =>
    k.preput c%'n' >>= fun k => k.preput c%'u' >>= fun k => k.preput c%'l' >>= fun k => k.preput c%'l'

/-- `pointer` (reading), wjson/serializer/pointer.hpp:35-50 (`unique_ptr`) and
52-67 (`shared_ptr`). `none` is the null pointer. A pointer holds its object here;
Model/Heap.lean has addresses, and C85 shows that they behave as these. -/
def dePointer {α : Type} (S : Ser α) : De (Option α) := fun _ s e =>
  match s with
  | [] => .ok (none, [], e)
  | b :: t =>
    if b ≠ c%'n' then S.de S.dflt (b :: t) e >>= fun r => .ok (some r.1, r.2)
    else .ok (none, (b :: t).drop 4, e)

/-- `pointer<T,J>::serializer`, wjson/serializer/pointer.hpp:15-70. -/
def pointerSer {α : Type} (S : Ser α) : Ser (Option α) := ⟨none, emitPointer S, dePointer S⟩

/-- `serializerRQ` (writing), wjson/serializer/quoted.hpp:21-28. The iterator
returned by `std::copy` is dropped. -/
def emitRawQuoted (serQ : Bool) : Emit Bytes := fun v k =>
  (if serQ then k.put c%'"' else .ok k) >>= fun k =>
  (k.puts v >>= fun k' => .ok ⟨k'.mem, k.it⟩) >>= fun k =>
  if serQ then k.put c%'"' else .ok k

/-- `serializerRQ` (reading), wjson/serializer/quoted.hpp:30-58. -/
def deRawQuoted (c : Cfg) (reqQ : Bool) : De Bytes := fun v s e =>
  match s with
  | [] => .ok (v, [], createError .UnexpectedEndFragment e)
  | b :: t =>
    if reqQ && b ≠ c%'"' then .ok (v, [], createError .ExpectedOf e (some b!"\"") ((b :: t).length : Nat))
    else
      let s := if reqQ then t else b :: t
      parseValue c s e >>= fun r =>
      if r.2.failed then .ok ([], r)
      else if reqQ then
        match r.1 with
        | [] => .ok (consumed s [], [], createError .UnexpectedEndFragment r.2)
        | d :: q =>
          if d = c%'"' then .ok (consumed s r.1, q, r.2)
          else .ok (consumed s r.1, [], createError .ExpectedOf r.2 (some b!"\"") ((d :: q).length : Nat))
      else .ok (consumed s r.1, r)

/-- `raw_quoted<V,SerQ,ReqQ,R>::serializer`, wjson/serializer/quoted.hpp:16-59,
wjson/specialization/quoted.hpp:15-20. -/
def rawQuotedSer (c : Cfg) (serQ reqQ : Bool) : Ser Bytes := ⟨[], emitRawQuoted serQ, deRawQuoted c reqQ⟩

/-- `serializerQ::serialize`, wjson/serializer/quoted.hpp:82-95. -/
def emitQuoted {α : Type} (S : Ser α) (serQ : Bool) : Emit α := fun v k =>
  if serQ then S.emit v ⟨[], .back⟩ >>= fun b => strSer.emit b.mem k
  else S.emit v k

/-- `*e = json_error(code, tail)`, assignment through the pointer. -/
def EPtr.assign (x : JError) : EPtr → EPtr
  | .null => .null
  | .obj _ => .obj x

/-- `serializerQ::deserialize(…, fas::true_)`, wjson/serializer/quoted.hpp:97-113.
The inner description reads from a `std::string`; the model uses the same
configuration (what lies at `*end`) for that buffer and for the outer text. -/
def deQuotedStr {α : Type} (S : Ser α) : De α := fun v s e =>
  strSer.de [] s e >>= fun r =>
  if r.2.2.failed then .ok (v, [], r.2.2)
  else
    S.de v r.1 .fresh >>= fun r2 =>
    match r2.2.2 with
    | .null => .ok (r2.1, r.2)
    | .obj x =>
      if x.status && r.2.2 ≠ .null then
        .ok (r2.1, [], r.2.2.assign ⟨x.code, none, (r.2.1.length : Int) + x.tailOf + 1⟩)
      else .ok (r2.1, r.2)

/-- `serializerQ::deserialize`, wjson/serializer/quoted.hpp:97-121. -/
def deQuoted {α : Type} (S : Ser α) (reqQ : Bool) : De α := fun v s e =>
  if reqQ then deQuotedStr S v s e
  else if isString s then deQuotedStr S v s e
  else S.de v s e

/-- `quoted<J,SerQ,ReqQ,R>::serializer`, wjson/serializer/quoted.hpp:61-122,
wjson/specialization/quoted.hpp:22-27. -/
def quotedSer {α : Type} (S : Ser α) (serQ reqQ : Bool) : Ser α := ⟨S.dflt, emitQuoted S serQ, deQuoted S reqQ⟩

/-- `member_value<T,V,M,m,W>::serializer`, wjson/serializer/member_value.hpp:11-26.
`get`/`set` stand for the pointer to member `m`. -/
def memberValueSer {τ α : Type} (dflt : τ) (get : τ → α) (set : α → τ → τ) (S : Ser α) : Ser τ :=
  ⟨dflt, fun t k => S.emit (get t) k, fun t s e => S.de (get t) s e >>= fun r => .ok (set r.1 t, r.2)⟩

/-- One description of `multi_deserializer` with the variable it reads into;
`τ` is the state of all variables of the caller. -/
structure MultiArg (τ : Type) where
  {α : Type}
  get : τ → α
  set : α → τ → τ
  ser : Ser α

/-- `multi_deserializer`, wjson/utility/multi_deserializer.hpp:13-27: the
returned index, the variables, the error argument. -/
def multiDe {τ : Type} (c : Cfg) : List (MultiArg τ) → τ → Bytes → EPtr → Out (Nat × τ × EPtr)
  | [], t, s, e => parseValue c s e >>= fun r => .ok (0, t, r.2)
  | a :: l, t, s, e =>
    a.ser.de (a.get t) s .fresh >>= fun r =>
    if r.2.2.failed then
      multiDe c l (a.set r.1 t) s e >>= fun q => .ok (q.1 + 1, q.2)
    else .ok (0, a.set r.1 t, e)

/-- `operator ""_json`, wjson/_json.hpp:13-18 (`std::replace`). -/
def jsonLit (s : Bytes) : Bytes := s.map fun b => if b = c%'\'' then c%'"' else b

end Wjson
