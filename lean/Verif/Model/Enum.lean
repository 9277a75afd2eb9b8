import Verif.Model.Sink
import Verif.Model.Parser
/-
Model of wjson/serializer/enumerator.hpp and wjson/serializer/flags.hpp.

The list of `enum_value<N,T,v>` (wjson/specialization/enum_value.hpp:11-17) is a
list of pairs of a name and a value. Names are C strings: the theorems never
use a name with a NUL byte.
-/
namespace Wjson

/-- The matching loop `cur!=end && *pstr!='\0' && *pstr==*cur`:
wjson/serializer/enumerator.hpp:88, wjson/serializer/flags.hpp:120, 164.
The first argument is the rest of the name, the second the rest of the text. -/
def matchName : Bytes → Bytes → Bytes × Bytes
  | a :: n, b :: s => if a = b then matchName n s else (a :: n, b :: s)
  | n, s => (n, s)

/-- `serialize` over the list, wjson/serializer/enumerator.hpp:60-80: the name of
the first entry with this value. -/
def enumName {α : Type} [DecidableEq α] : List (Bytes × α) → α → Bytes
  | [], _ => []
  | x :: L, v => if x.2 = v then x.1 else enumName L v

/-- Writing, wjson/serializer/enumerator.hpp:22-29. -/
def emitEnum {α : Type} [DecidableEq α] (L : List (Bytes × α)) : Emit α := fun v k =>
  k.put c%'"' >>= fun k => k.puts (enumName L v) >>= fun k => k.put c%'"'

/-- The test `*beg<=' '` of wjson/serializer/enumerator.hpp:35. Where `char` is
signed, the bytes 128-255 are negative and pass it. -/
def leSpace (c : Cfg) (b : Byte) : Bool := b ≤ 32 || (c.charSigned && 128 ≤ b)

/-- `for ( ; beg!=end && *beg<=' '; ++beg)`, wjson/serializer/enumerator.hpp:35. -/
def skipLow (c : Cfg) : Bytes → Bytes
  | [] => []
  | b :: s => if leSpace c b then skipLow c s else b :: s

/-- `deserialize` over the list, wjson/serializer/enumerator.hpp:83-101. The text
is what is between the quotes; the result is the value of the first entry with
this name. -/
def enumFind {α : Type} : List (Bytes × α) → Bytes → Option α
  | [], _ => none
  | x :: L, s => if matchName x.1 s = ([], []) then some x.2 else enumFind L s

/-- `for ( ; beg!=end && *beg!='"'; ++beg)`, wjson/serializer/enumerator.hpp:46:
the bytes passed over and the rest. -/
def toQuote : Bytes → Bytes × Bytes
  | [] => ([], [])
  | b :: s => if b = c%'"' then ([], b :: s) else (b :: (toQuote s).1, (toQuote s).2)

/-- Reading, wjson/serializer/enumerator.hpp:31-56. Lines 49-50 are dead: the
loop of line 46 ends at `end` or at a quote. -/
def deEnum {α : Type} (c : Cfg) (strict : Bool) (dflt : α) (L : List (Bytes × α)) : De α := fun _ s e =>
  match skipLow c s with
  | [] => .ok (dflt, [], createError .UnexpectedEndFragment e)
  | b :: p =>
    if b ≠ c%'"' then .ok (dflt, [], createError .ExpectedOf e (some b!"\"") ((b :: p).length : Nat))
    else
      match p with
      | [] => .ok (dflt, [], createError .UnexpectedEndFragment e)
      | b :: p =>
        let first := b :: p
        match (toQuote first).2 with
        | [] => .ok (dflt, [], createError .UnexpectedEndFragment e)
        | _ :: q =>
          match enumFind L (toQuote first).1 with
          | some v => .ok (v, q, e)
          | none =>
            if strict then .ok (dflt, [], createError .InvalidEnum e none (first.length : Nat))
            else .ok (dflt, q, e)

/-- `enumerator<T,L,Mode>::serializer`, wjson/serializer/enumerator.hpp:15-102. -/
def enumSer {α : Type} [DecidableEq α] (c : Cfg) (strict : Bool) (dflt : α) (L : List (Bytes × α)) : Ser α :=
  ⟨dflt, emitEnum L, deEnum c strict dflt L⟩

/-! ### Flags -/

/-- A description `flags<T,L,Sep,Mode>`. A value of the integer or enumeration
type `T` is its bit pattern of `w` bits (`|`, `&` and `==` on integers, also
after promotion, are those of the bit patterns). -/
structure Flags (w : Nat) where
  list : List (Bytes × BitVec w)
  sep : Byte
  strict : Bool

/-- The test of wjson/serializer/flags.hpp:68. -/
def flagOn {w : Nat} (u v : BitVec w) : Bool := (u ≠ 0 ∧ u &&& v = u) ∨ v = u

/-- `serialize`, wjson/serializer/flags.hpp:65-96. -/
def emitFlagList {w : Nat} (sep : Byte) (v : BitVec w) : List (Bytes × BitVec w) → Bool → Sink → Out Sink
  | [], _, k => .ok k
  | x :: L, isFirst, k =>
    if flagOn x.2 v then
      (if !isFirst then k.put sep else .ok k) >>= fun k =>
      (if sep = c%',' then k.put c%'"' else .ok k) >>= fun k =>
      k.puts x.1 >>= fun k =>
      (if sep = c%',' then k.put c%'"' else .ok k) >>= fun k =>
      emitFlagList sep v L false k
    else emitFlagList sep v L isFirst k

/-- Writing, wjson/serializer/flags.hpp:21-28. -/
def emitFlags {w : Nat} (F : Flags w) : Emit (BitVec w) := fun v k =>
  k.put (if F.sep = c%',' then c%'[' else c%'"') >>= fun k =>
  emitFlagList F.sep v F.list true k >>= fun k =>
  k.put (if F.sep = c%',' then c%']' else c%'"')

/-- `for ( ; beg!=end && *beg!=Sep && *beg!='"'; ++beg)`, wjson/serializer/flags.hpp:209. -/
def toSep (sep : Byte) : Bytes → Bytes
  | [] => []
  | b :: s => if b ≠ sep ∧ b ≠ c%'"' then toSep sep s else b :: s

/-- `deserialize_one` in a string with separators, wjson/serializer/flags.hpp:99-146
(nonempty list) and 202-214 (empty list). -/
def flagOneStr {w : Nat} (sep : Byte) (strict : Bool) :
    List (Bytes × BitVec w) → BitVec w → Bytes → EPtr → Bool → BitVec w × Bytes × EPtr
  | [], v, s, e, ready =>
    if ready || strict then (v, s, e)
    else
      let r := parseSpace s e
      let r := parseSpace (toSep sep r.1) r.2
      match r.1 with
      | [] => (v, [], r.2)
      | b :: p => (v, parseSpace (if b = sep then p else b :: p) r.2)
  | x :: L, v, s, e, ready =>
    if s = [] then (v, s, e)
    else
      let r := if sep ≠ c%' ' then parseSpace s e else (s, e)
      match r.1 with
      | [] => (v, [], r.2)
      | b :: p =>
        if b = c%'"' then (v, b :: p, r.2)
        else
          match matchName x.1 (b :: p) with
          | ([], d :: q) =>
            if (sep ≠ c%' ' ∧ isSpace (d :: q)) ∨ d = sep ∨ d = c%'"' then
              let v := v ||| x.2
              let r := if sep ≠ c%' ' then parseSpace (d :: q) r.2 else (d :: q, r.2)
              match r.1 with
              | [] => (v, [], r.2)
              | d :: q =>
                if d = c%'"' then (v, d :: q, r.2)
                else flagOneStr sep strict L v (if d = sep then q else d :: q) r.2 true
            else flagOneStr sep strict L v (b :: p) r.2 ready
          | _ => flagOneStr sep strict L v (b :: p) r.2 ready

/-- `deserialize_one` in a JSON array, wjson/serializer/flags.hpp:148-184
(nonempty list) and 186-200 (empty list; line 194 reads `*beg` without comparing
with `end`). -/
def flagOneArr {w : Nat} (c : Cfg) (strict : Bool) :
    List (Bytes × BitVec w) → BitVec w → Bytes → EPtr → Bool → Out (BitVec w × Bytes × EPtr)
  | [], v, s, e, ready =>
    if ready || strict then .ok (v, s, e)
    else
      let r := parseSpace s e
      deref c r.1 >>= fun b =>
      if b = c%']' then .ok (v, r)
      else
        let r := parseString r.1 r.2
        let r := parseSpace r.1 r.2
        match r.1 with
        | [] => .ok (v, [], r.2)
        | b :: p => .ok (v, parseSpace (if b = c%',' then p else b :: p) r.2)
  | x :: L, v, s, e, ready =>
    let r := parseSpace s e
    match r.1 with
    | [] => .ok (v, [], r.2)
    | b :: p =>
      if b = c%']' then .ok (v, b :: p, r.2)
      else if b ≠ c%'"' then .ok (v, [], createError .ExpectedOf r.2 (some b!"\"") ((b :: p).length : Nat))
      else
        match matchName x.1 p with
        | ([], d :: q) =>
          if d = c%'"' then
            let v := v ||| x.2
            let r := parseSpace q r.2
            match r.1 with
            | [] => .ok (v, [], r.2)
            | d :: q =>
              if d ≠ c%',' then .ok (v, d :: q, r.2)
              else
                let r := parseSpace q r.2
                flagOneArr c strict L v r.1 r.2 true
          else flagOneArr c strict L v (b :: p) r.2 ready
        | _ => flagOneArr c strict L v (b :: p) r.2 ready

/-- `deserialize_one` in either form. -/
def flagOne {w : Nat} (c : Cfg) (F : Flags w) (arr : Bool) (v : BitVec w) (s : Bytes) (e : EPtr) : Out (BitVec w × Bytes × EPtr) :=
  if arr then flagOneArr c F.strict F.list v s e false else .ok (flagOneStr F.sep F.strict F.list v s e false)

/-- `deserialize`, wjson/serializer/flags.hpp:217-233. `cur == beg` compares
positions; here both are suffixes of the same text. -/
def flagLoopF {w : Nat} (c : Cfg) (F : Flags w) (arr : Bool) : Nat → BitVec w → Bytes → EPtr → Out (BitVec w × Bytes × EPtr)
  | 0, _, _, _ => .fuel
  | n + 1, v, s, e =>
    match s with
    | [] => .ok (v, [], e)
    | b :: p =>
      if b = (if arr then c%']' else c%'"') then .ok (v, b :: p, e)
      else
        flagOne c F arr v (b :: p) e >>= fun r =>
        if r.2.1.length = (b :: p).length then .ok (r.1, [], createError .InvalidEnum r.2.2 none (r.2.1.length : Nat))
        else if r.2.1 = [] then .ok (r.1, [], createError .UnexpectedEndFragment r.2.2)
        else flagLoopF c F arr n r.1 r.2.1 r.2.2

/-- The end of the read operator, wjson/serializer/flags.hpp:53-60. -/
def flagsEnd {w : Nat} (v : BitVec w) (s : Bytes) (e : EPtr) : Out (BitVec w × Bytes × EPtr) :=
  match s with
  | [] => .ok (v, [], createError .UnexpectedEndFragment e)
  | b :: p =>
    if b ≠ c%']' ∧ b ≠ c%'"' then .ok (v, [], createError .ExpectedOf e (some b!"]") ((b :: p).length : Nat))
    else .ok (v, p, e)

/-- Reading, wjson/serializer/flags.hpp:30-61. -/
def deFlags {w : Nat} (c : Cfg) (F : Flags w) : De (BitVec w) := fun _ s e =>
  match s with
  | [] => .ok (0, [], createError .UnexpectedEndFragment e)
  | b :: p =>
    if b ≠ c%'[' ∧ b ≠ c%'"' then .ok (0, [], createError .ExpectedOf e (some b!"\"") ((b :: p).length : Nat))
    else
      flagLoopF c F (b = c%'[') (p.length + 1) 0 p e >>= fun r => flagsEnd r.1 r.2.1 r.2.2

/-- `flags<T,L,Sep,Mode>::serializer`, wjson/serializer/flags.hpp:15-234. -/
def flagsSer {w : Nat} (c : Cfg) (F : Flags w) : Ser (BitVec w) := ⟨0, emitFlags F, deFlags c F⟩

end Wjson
