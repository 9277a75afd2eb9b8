import Verif.Spec.Described
import Verif.Spec.Fields
import Verif.Spec.Flags
import Verif.Spec.IntTypes
import Verif.Spec.Slots
import Verif.Spec.Strings
import Verif.Spec.Tokens
/-
Values of descriptions nested to any depth: which of them are read back as they
were written (`GoodValue`), and which of them are written as JSON (`JsonValue`).
Both are defined by the structure of the description; only the conditions on the
scalars at the leaves are of interest.
-/
namespace Wjson
open Spec

/-- Values that every description reads back as it wrote them. The conditions
are those of C15-C42 for each template. -/
inductive GoodValue (c : Cfg) : ∀ {α : Type}, Ser α → α → Prop
  /-- integers that fit the type (the most negative one only if overflow wraps) -/
  | int {ty : IntTy} {v : Int} : ty.Std → ty.InRange v → v ≠ ty.min ∨ ty.Modular c → GoodValue c (intSer c ty) v
  | bool (v : Bool) : GoodValue c boolSer v
  | str {v : Bytes} : StrOk v → GoodValue c strSer v
  /-- `char[N]`: a string without NUL, padded with NUL -/
  | chars {N : Nat} {v : Bytes} : v.length ≤ N → (∀ b ∈ v, b ≠ 0) → StrOk v →
      GoodValue c (charArraySer N) (v ++ List.replicate (N - v.length) 0)
  /-- floating point numbers whose text is a JSON number, fits the buffer, and is
  converted back by the standard library -/
  | float {α : Type} {F : FloatTy α} {R : Int} {v : α} : RNumber (F.fmt v) →
      (F.fmt v).length ≤ (if R = -1 then 20 else 20 + R).toNat →
      (∀ rest v0, Delim rest → F.conv (F.fmt v ++ rest) v0 = v) → GoodValue c (floatSer F R) v
  /-- listed enumerators -/
  | enum {α : Type} [DecidableEq α] {strict : Bool} {dflt : α} {L : List (Bytes × α)} {v : α} :
      (L.map Prod.fst).Nodup → (∀ x ∈ L, c%'"' ∉ x.1) → v ∈ L.map Prod.snd → GoodValue c (enumSer c strict dflt L) v
  /-- unions of listed flags, array form -/
  | flags {w : Nat} {F : Flags w} {us : List (BitVec w)} : F.sep = c%',' → (F.list.map Prod.fst).Nodup →
      (∀ y ∈ F.list, PlainName y.1) → (∀ u ∈ us, u ∈ F.list.map Prod.snd) → GoodValue c (flagsSer c F) (orAll us)
  /-- unions of listed flags, separator form -/
  | flagsSep {w : Nat} {F : Flags w} {us : List (BitVec w)} : F.sep ≠ c%',' → GoodSep F.sep →
      (F.list.map Prod.fst).Nodup → (∀ y ∈ F.list, FlagWord F.sep y.1) → (∀ u ∈ us, u ∈ F.list.map Prod.snd) →
      GoodValue c (flagsSer c F) (orAll us)
  /-- raw values that are JSON -/
  | raw {v : Bytes} : XValue v → GoodValue c (rawSer c) v
  | rawQuoted {v : Bytes} : XValue v → GoodValue c (rawQuotedSer c true true) v
  /-- quoted values whose text is a good string -/
  | quoted {α : Type} {S : Ser α} {v : α} {reqQ : Bool} : GoodValue c S v →
      (∀ t, S.emit v ⟨[], .back⟩ = .ok ⟨t, .back⟩ → StrOk t) → GoodValue c (quotedSer S true reqQ) v
  /-- unquoted values whose text does not start with a quote -/
  | unquoted {α : Type} {S : Ser α} {v : α} : GoodValue c S v →
      (∀ t, S.emit v ⟨[], .back⟩ = .ok ⟨t, .back⟩ → t.head? ≠ some c%'"') → GoodValue c (quotedSer S false false) v
  | null {α : Type} (S : Ser α) : GoodValue c (pointerSer S) none
  /-- pointers to values whose text does not start with `n` -/
  | pointer {α : Type} {S : Ser α} {v : α} : GoodValue c S v →
      (∀ t, S.emit v ⟨[], .back⟩ = .ok ⟨t, .back⟩ → t.head? ≠ some c%'n') → GoodValue c (pointerSer S) (some v)
  /-- `member_value` of a structure that consists of the member -/
  | memberValue {τ α : Type} {dflt : τ} {get : τ → α} {set : α → τ → τ} {S : Ser α} {t : τ} : GoodValue c S (get t) →
      (∀ t0, set (get t) t0 = t) → GoodValue c (memberValueSer dflt get set S) t
  /-- vectors, deques, lists -/
  | seq {α : Type} {S : Ser α} {vs : List α} : (∀ v ∈ vs, GoodValue c S v) → GoodValue c (arraySer (seqColl α) S) vs
  /-- sets, given as increasing lists -/
  | set {α : Type} {S : Ser α} {lt : α → α → Bool} {vs : List α} : StrictTotal lt → Increasing lt vs →
      (∀ v ∈ vs, GoodValue c S v) → GoodValue c (arraySer (setColl α lt) S) vs
  /-- multisets, given as weakly increasing lists -/
  | multiset {α : Type} {S : Ser α} {lt : α → α → Bool} {vs : List α} : Sorted lt vs →
      (∀ v ∈ vs, GoodValue c S v) → GoodValue c (arraySer (multisetColl α lt) S) vs
  /-- `std::array` and C arrays -/
  | fixed {α : Type} {N : Nat} {k : FixKind} {S : Ser α} {vs : Vector α N} : 1 ≤ N →
      (∀ v ∈ vs.toList, GoodValue c S v) → GoodValue c (fixVecSer k N S) vs
  | field {κ ν : Type} {SK : Ser κ} {SV : Ser ν} {x : κ × ν} : GoodValue c SK x.1 → GoodValue c SV x.2 →
      GoodValue c (fieldSer SK SV) x
  /-- dictionaries over sequences of fields -/
  | dict {κ ν : Type} {SK : Ser κ} {SV : Ser ν} {vs : List (κ × ν)} : (∀ x ∈ vs, GoodValue c SK x.1) →
      (∀ x ∈ vs, GoodValue c SV x.2) → GoodValue c (dictSer (seqColl (κ × ν)) SK SV) vs
  /-- dictionaries over `std::map`, given as lists with increasing keys -/
  | map {κ ν : Type} {SK : Ser κ} {SV : Ser ν} {lt : κ → κ → Bool} {vs : List (κ × ν)} : StrictTotal lt →
      Increasing (fun a b => lt a.1 b.1) vs → (∀ x ∈ vs, GoodValue c SK x.1) → (∀ x ∈ vs, GoodValue c SV x.2) →
      GoodValue c (dictSer (mapColl κ ν lt) SK SV) vs
  /-- structures that consist of their members -/
  | object {τ : Type} {strict : Bool} {dflt : τ} {L : List (Entry τ)} {v : τ} : Fields (L.map Entry.ref) →
      (∀ n ∈ names L, c%'"' ∉ n) → (∀ a b, (∀ en ∈ L, en.ref.get a = en.ref.get b) → a = b) →
      (∀ en ∈ L, GoodValue c en.ref.ser (en.ref.get v)) → GoodValue c (objectSer c strict dflt (L.map Entry.toMember)) v
  /-- the same as positional arrays -/
  | objectArray {τ : Type} {dflt : τ} {L : List (Entry τ)} {v : τ} : Fields (L.map Entry.ref) →
      (∀ a b, (∀ en ∈ L, en.ref.get a = en.ref.get b) → a = b) →
      (∀ en ∈ L, GoodValue c en.ref.ser (en.ref.get v)) → GoodValue c (objectArraySer dflt (L.map Entry.toAMember)) v
  /-- structures with alternatives as in C43: of a `member_if` the alternative that is written is a good value,
  the other one has the value that is read from `null`, and if it is tried first it reports an error for what
  is written -/
  | objectIf {τ : Type} {strict : Bool} {dflt : τ} {L : List (Slot τ)} {v : τ} : Fields (L.flatMap Slot.refs) →
      (∀ x ∈ L, SameNames x) → (∀ x ∈ L, c%'"' ∉ (x.live v).name) →
      (∀ a b, (∀ m ∈ L.flatMap Slot.refs, m.get a = m.get b) → a = b) →
      (∀ x ∈ L, GoodValue c (x.live v).ser ((x.live v).get v)) →
      (∀ x ∈ L, ∀ o, x.idle v = some o → Reads o.ser.de b!"null" (o.get v)) →
      (∀ x ∈ L, ∀ o, x.idle v = some o → x.idleFirst v → ∀ t, (x.live v).ser.emit ((x.live v).get v) ⟨[], .back⟩ = .ok ⟨t, .back⟩ →
        Rejects o.ser.de t) →
      GoodValue c (objectSer c strict dflt (L.map Slot.toMember)) v
  /-- the same as positional arrays, where the names do not matter -/
  | objectArrayIf {τ : Type} {dflt : τ} {L : List (Slot τ)} {v : τ} : Fields (L.flatMap Slot.refs) →
      (∀ a b, (∀ m ∈ L.flatMap Slot.refs, m.get a = m.get b) → a = b) →
      (∀ x ∈ L, GoodValue c (x.live v).ser ((x.live v).get v)) →
      (∀ x ∈ L, ∀ o, x.idle v = some o → Reads o.ser.de b!"null" (o.get v)) →
      (∀ x ∈ L, ∀ o, x.idle v = some o → x.idleFirst v → ∀ t, (x.live v).ser.emit ((x.live v).get v) ⟨[], .back⟩ = .ok ⟨t, .back⟩ →
        Rejects o.ser.de t) →
      GoodValue c (objectArraySer dflt (L.map Slot.toAMember)) v
  /-- time intervals as in C36 -/
  | time {ty : IntTy} {fr v : Int} : ty.Std → fr = 1 ∨ (fr = 1000 ∧ ty = .long) ∨ (fr = 1000000 ∧ 32 ≤ ty.bits) →
      ty.InRange v → 0 ≤ v ∨ v % fr = 0 → GoodValue c (timeSer c ty fr) v
  /-- sizes as in C38 -/
  | size {ty : IntTy} {metric v : Int} : ty.Std → 1 ≤ metric → IntTy.long.InRange metric → ty.InRange v →
      IntTy.long.InRange (v * metric) → v ≠ ty.min ∨ ty.Modular c → GoodValue c (sizeSer c ty metric) v

mutual

/-- Values whose text is JSON (RFC 8259), for any configuration: integers of the
type, Booleans, strings in UTF-8, names that need no escapes, and anything built
from these. `P` is what is required of raw values. -/
inductive JsonValueOf (P : Bytes → Prop) (c : Cfg) : ∀ {α : Type}, Ser α → α → Prop
  | int {ty : IntTy} {v : Int} : ty.Std → ty.InRange v → JsonValueOf P c (intSer c ty) v
  | bool (v : Bool) : JsonValueOf P c boolSer v
  /-- floating point numbers whose text is a JSON number and fits the buffer -/
  | float {α : Type} {F : FloatTy α} {R : Int} {v : α} : RNumber (F.fmt v) →
      (F.fmt v).length ≤ (if R = -1 then 20 else 20 + R).toNat → JsonValueOf P c (floatSer F R) v
  /-- whatever is usable as a key: strings -/
  | key {α : Type} {S : Ser α} {v : α} : JsonKeyOf P c S v → JsonValueOf P c S v
  /-- any combination of flags, listed or not -/
  | flags {w : Nat} {F : Flags w} (v : BitVec w) : F.sep = c%',' → (∀ x ∈ F.list, RChars x.1) → JsonValueOf P c (flagsSer c F) v
  /-- raw values: empty or texts of the required form -/
  | raw {v : Bytes} : v = [] ∨ P v → JsonValueOf P c (rawSer c) v
  | rawUnquoted {v : Bytes} {reqQ : Bool} : P v → JsonValueOf P c (rawQuotedSer c false reqQ) v
  | unquoted {α : Type} {S : Ser α} {v : α} {reqQ : Bool} : JsonValueOf P c S v → JsonValueOf P c (quotedSer S false reqQ) v
  | null {α : Type} (S : Ser α) : JsonValueOf P c (pointerSer S) none
  | pointer {α : Type} {S : Ser α} {v : α} : JsonValueOf P c S v → JsonValueOf P c (pointerSer S) (some v)
  | memberValue {τ α : Type} {dflt : τ} {get : τ → α} {set : α → τ → τ} {S : Ser α} {t : τ} : JsonValueOf P c S (get t) →
      JsonValueOf P c (memberValueSer dflt get set S) t
  /-- containers of any kind -/
  | array {α C : Type} {K : Coll α C} {S : Ser α} {v : C} : (∀ x ∈ K.elems v, JsonValueOf P c S x) → JsonValueOf P c (arraySer K S) v
  | fixed {α : Type} {N : Nat} {k : FixKind} {S : Ser α} {vs : List α} : (∀ x ∈ vs, JsonValueOf P c S x) →
      JsonValueOf P c (fixSer k N S) vs
  | fixedVec {α : Type} {N : Nat} {k : FixKind} {S : Ser α} {vs : Vector α N} : (∀ x ∈ vs.toList, JsonValueOf P c S x) →
      JsonValueOf P c (fixVecSer k N S) vs
  | dict {κ ν C : Type} {K : Coll (κ × ν) C} {SK : Ser κ} {SV : Ser ν} {v : C} : (∀ x ∈ K.elems v, JsonKeyOf P c SK x.1) →
      (∀ x ∈ K.elems v, JsonValueOf P c SV x.2) → JsonValueOf P c (dictSer K SK SV) v
  | object {τ : Type} {strict : Bool} {dflt : τ} {L : List (Member τ)} {v : τ} : (∀ m ∈ L, JsonMemberOf P c m v) →
      JsonValueOf P c (objectSer c strict dflt L) v
  | objectArray {τ : Type} {dflt : τ} {L : List (AMember τ)} {v : τ} : (∀ m ∈ L, JsonAMemberOf P c m v) →
      JsonValueOf P c (objectArraySer dflt L) v
  | size {ty : IntTy} {metric v : Int} : ty.Std → 1 ≤ metric → IntTy.long.InRange metric → ty.InRange v →
      IntTy.long.InRange (v * metric) → JsonValueOf P c (sizeSer c ty metric) v

/-- Values whose text is a JSON string, usable as keys of a dictionary. -/
inductive JsonKeyOf (P : Bytes → Prop) (c : Cfg) : ∀ {α : Type}, Ser α → α → Prop
  | str {v : Bytes} : Utf8Text v → JsonKeyOf P c strSer v
  | chars {N : Nat} {v : Bytes} : Utf8Text (v.takeWhile (· ≠ 0)) → JsonKeyOf P c (charArraySer N) v
  /-- any value, listed or not -/
  | enum {α : Type} [DecidableEq α] {strict : Bool} {dflt : α} {L : List (Bytes × α)} (v : α) : (∀ x ∈ L, RChars x.1) →
      JsonKeyOf P c (enumSer c strict dflt L) v
  | flags {w : Nat} {F : Flags w} (v : BitVec w) : F.sep ≠ c%',' → RChars [F.sep] → (∀ x ∈ F.list, RChars x.1) →
      JsonKeyOf P c (flagsSer c F) v
  | rawQuoted {v : Bytes} {reqQ : Bool} : RChars v → JsonKeyOf P c (rawQuotedSer c true reqQ) v
  | quoted {α : Type} {S : Ser α} {v : α} {reqQ : Bool} : JsonValueOf P c S v → JsonKeyOf P c (quotedSer S true reqQ) v
  | time {ty : IntTy} {fr v : Int} : ty.Std → fr = 1 ∨ (fr = 1000 ∧ ty = .long) ∨ (fr = 1000000 ∧ 32 ≤ ty.bits) →
      ty.InRange v → 0 ≤ v ∨ v % fr = 0 → JsonKeyOf P c (timeSer c ty fr) v

/-- Members of an object; of a `member_if` only the alternative that is written
counts. -/
inductive JsonMemberOf (P : Bytes → Prop) (c : Cfg) : ∀ {τ : Type}, Member τ → τ → Prop
  | member {τ : Type} {m : MRef τ} {t : τ} : RChars m.name → JsonValueOf P c m.ser (m.get t) → JsonMemberOf P c (member m) t
  | memberP {τ : Type} {m : MRef τ} {t : τ} : RChars m.name → JsonValueOf P c m.ser (m.get t) → JsonMemberOf P c (memberP m) t
  | memberL {τ : Type} {l r : MRef τ} {isDflt : l.α → Bool} {RU : Bool} {t : τ} : isDflt (l.get t) = false → RChars l.name →
      JsonValueOf P c l.ser (l.get t) → JsonMemberOf P c (memberIf l r isDflt RU) t
  | memberR {τ : Type} {l r : MRef τ} {isDflt : l.α → Bool} {RU : Bool} {t : τ} : isDflt (l.get t) = true → RChars r.name →
      JsonValueOf P c r.ser (r.get t) → JsonMemberOf P c (memberIf l r isDflt RU) t

/-- Members of an `object_array`. -/
inductive JsonAMemberOf (P : Bytes → Prop) (c : Cfg) : ∀ {τ : Type}, AMember τ → τ → Prop
  | member {τ : Type} {m : MRef τ} {t : τ} : JsonValueOf P c m.ser (m.get t) → JsonAMemberOf P c (amember m) t
  | memberP {τ : Type} {m : MRef τ} {t : τ} : JsonValueOf P c m.ser (m.get t) → JsonAMemberOf P c (amemberP m) t
  | memberL {τ : Type} {l r : MRef τ} {isDflt : l.α → Bool} {RU : Bool} {t : τ} : isDflt (l.get t) = false →
      JsonValueOf P c l.ser (l.get t) → JsonAMemberOf P c (amemberIf l r isDflt RU) t
  | memberR {τ : Type} {l r : MRef τ} {isDflt : l.α → Bool} {RU : Bool} {t : τ} : isDflt (l.get t) = true →
      JsonValueOf P c r.ser (r.get t) → JsonAMemberOf P c (amemberIf l r isDflt RU) t

end

/-- Raw values have to be JSON. -/
abbrev JsonValue (c : Cfg) {α : Type} (S : Ser α) (v : α) : Prop := JsonValueOf RValue c S v
abbrev JsonKey (c : Cfg) {α : Type} (S : Ser α) (v : α) : Prop := JsonKeyOf RValue c S v

/-- Raw values have to be JSON without white space. -/
abbrev CompactValue (c : Cfg) {α : Type} (S : Ser α) (v : α) : Prop := JsonValueOf (CR .value) c S v

end Wjson
