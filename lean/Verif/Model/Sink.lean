import Verif.Model.Error
/-
Output iterators and the shape of a serializer. Every serializer of wjson is a
class with two call operators: `P operator()(const T& v, P end)` writes, and
`P operator()(T& v, P beg, P end, json_error* e)` reads.
-/
namespace Wjson

/-- The value of an output iterator: a `std::back_insert_iterator`, or a raw
pointer given by its index in the buffer it points into. -/
inductive It where
  | back
  | ptr (i : Nat)
  deriving Repr, DecidableEq

/-- An output iterator together with the memory behind it: the container of a
back inserter or the buffer of a raw pointer. -/
structure Sink where
  mem : Bytes
  it : It
  deriving Repr, DecidableEq

/-- `*(itr++) = b`. Writing outside the buffer of a raw pointer is undefined. -/
def Sink.put (k : Sink) (b : Byte) : Out Sink :=
  match k.it with
  | .back => .ok ⟨k.mem ++ [b], .back⟩
  | .ptr i => if i < k.mem.length then .ok ⟨k.mem.set i b, .ptr (i + 1)⟩ else .ub

/-- A sequence of `*(itr++) = b`. -/
def Sink.puts (k : Sink) : Bytes → Out Sink
  | [] => .ok k
  | b :: t => k.put b >>= fun k => k.puts t

/-- A write operator of the library. -/
abbrev Emit (α : Type) := α → Sink → Out Sink

/-- A read operator of the library: old value, text, error pointer; new value,
rest of the text, error pointer. -/
abbrev De (α : Type) := α → Bytes → EPtr → Out (α × Bytes × EPtr)

/-- A serializer class (`J::serializer`) for the target type `α`.
`dflt` is `T()`. Where the library writes `target tg;` the model starts from
`dflt` too; for class types this is the same, for integers the C++ value is
indeterminate (the properties of reading are proved for every start value). -/
structure Ser (α : Type) where
  dflt : α
  emit : Emit α
  de : De α

end Wjson
