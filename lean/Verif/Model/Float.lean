import Verif.Model.Sink
import Verif.Model.Parser
/-
Model of wjson/serializer/float.hpp. The formatting and the conversion of
floating point numbers by `std::stringstream` are not modelled: they are
arbitrary functions.
-/
namespace Wjson

/-- A floating point type `α` with what the standard library does for it:
`fmt v` is the text `ss << v` produces, `conv t v` the value of the variable `v`
after `ss >> v` on a stream with the text `t`. -/
structure FloatTy (α : Type) where
  dflt : α
  fmt : α → Bytes
  conv : Bytes → α → α

/-- `serializerF::bufsize`, wjson/serializer/float.hpp:22; `R` is -1 or a number
of digits. -/
def floatBuf (R : Int) : Nat := (if R = -1 then 20 else 20 + R).toNat

/-- `serializerF` writing, wjson/serializer/float.hpp:24-54, the branch
`__GLIBCXX__`: the stream buffer is set to an array of `bufsize` bytes and only
that array is copied out, up to a NUL. (With libstdc++ a longer text overflows
into memory of the stream; the array keeps the first `bufsize` bytes.) -/
def emitFloat {α : Type} (F : FloatTy α) (R : Int) : Emit α := fun v k =>
  k.puts (((F.fmt v).take (floatBuf R)).takeWhile (· ≠ 0))

/-- `serializerF` reading, wjson/serializer/float.hpp:56-80: the first `bufsize`
bytes are copied to a zeroed array, which becomes the text of the stream as a C
string. -/
def deFloat {α : Type} (F : FloatTy α) (R : Int) : De α := fun v s e =>
  match s with
  | [] => .ok (v, [], createError .UnexpectedEndFragment e)
  | b :: t =>
    if isNull (b :: t) then
      let r := parseNull (b :: t) e
      .ok (F.dflt, r.1, r.2)
    else if !isNumber (b :: t) then .ok (v, [], createError .InvalidNumber e none ((b :: t).length : Nat))
    else
      let r := parseNumber (b :: t) e
      .ok (F.conv (((b :: t).take (floatBuf R)).takeWhile (· ≠ 0)) v, r.1, r.2)

/-- `value<float, R>::serializer` and its siblings, wjson/serializer/float.hpp:84-100. -/
def floatSer {α : Type} (F : FloatTy α) (R : Int) : Ser α := ⟨F.dflt, emitFloat F R, deFloat F R⟩

end Wjson
