import Verif.Spec.Denotes
/-
When a typed reader accepts nothing but JSON of the dialect (C54): conditions on
the text and on the description.
-/
namespace Wjson
open Spec

/-- Texts without the extensions of the typed readers: ASCII, no control
characters but white space, no backslash before an `x`, no `null` before a
colon. -/
structure PlainText (t : Bytes) : Prop where
  ascii : ∀ b ∈ t, b < 0x80 ∧ (0x20 ≤ b ∨ WsByte b)
  nohex : ¬ b!"\\x" <:+: t
  nonull : ∀ g, Gap g → ¬ (b!"null" ++ g ++ b!":") <:+: t

/-- Descriptions whose texts are strings: strings, names, quoted values. -/
inductive KeyMeans (c : Cfg) : ∀ {α : Type}, Ser α → Den α → Prop
  | str : KeyMeans c strSer StrDen
  | chars {N : Nat} : KeyMeans c (charArraySer N) (CharsDen N)
  | quoted {serQ : Bool} {α : Type} {S : Ser α} {D : Den α} : Means c S D →
      KeyMeans c (quotedSer S serQ true) (QuotedDen S.de true D)
  | enum {α : Type} [DecidableEq α] {dflt : α} {L : List (Bytes × α)} : (L.map Prod.fst).Nodup →
      (∀ n ∈ L.map Prod.fst, PlainName n) → KeyMeans c (enumSer c true dflt L) (EnumDen c true dflt L)

/-- The descriptions of `Means` with keys that are strings or names and with
strict enumerations of plain names. Raw values, which keep a text with its white
space, are part of it if `raw`. -/
inductive JsonMeans (c : Cfg) (raw : Bool) : ∀ {α : Type}, Ser α → Den α → Prop
  | int {ty : IntTy} : ty.Std → JsonMeans c raw (intSer c ty) (IntDen c ty)
  | bool : JsonMeans c raw boolSer BoolDen
  | float {α : Type} {F : FloatTy α} {R : Int} : F.Local → JsonMeans c raw (floatSer F R) (FloatDen F R)
  | key {α : Type} {S : Ser α} {D : Den α} : KeyMeans c S D → JsonMeans c raw S D
  | raw : raw = true → JsonMeans c raw (rawSer c) RawDen
  | rawUnquoted {serQ : Bool} : raw = true → JsonMeans c raw (rawQuotedSer c serQ false) (RawQuotedDen false)
  | size {ty : IntTy} {metric : Int} : ty.Std → IntTy.long.InRange metric → metric ≠ 0 →
      JsonMeans c raw (sizeSer c ty metric) (SizeDen c ty metric)
  | quoted {serQ reqQ : Bool} {α : Type} {S : Ser α} {D : Den α} : JsonMeans c raw S D →
      JsonMeans c raw (quotedSer S serQ reqQ) (QuotedDen S.de reqQ D)
  | memberValue {τ α : Type} {dflt : τ} {get : τ → α} {set : α → τ → τ} {S : Ser α} {D : Den α} : JsonMeans c raw S D →
      JsonMeans c raw (memberValueSer dflt get set S) (PartDen get set D)
  | array {α C : Type} {K : Coll α C} {S : Ser α} {D : Den α} : JsonMeans c raw S D →
      JsonMeans c raw (arraySer K S) (SeqDen K.clear K.insert S.dflt c%'[' c%']' D)
  | stdArray {α : Type} {N : Nat} {S : Ser α} {D : Den α} : 1 ≤ N → JsonMeans c raw S D →
      JsonMeans c raw (fixSer .stdArray N S) (FixArrDen (fun _ => S.dflt) D)
  | cArray {α : Type} {N : Nat} {S : Ser α} {D : Den α} : 1 ≤ N → JsonMeans c raw S D →
      JsonMeans c raw (fixSer .cArray N S) (FixArrDen id D)
  | dict {κ ν C : Type} {K : Coll (κ × ν) C} {SK : Ser κ} {SV : Ser ν} {DK : Den κ} {DV : Den ν} : KeyMeans c SK DK →
      JsonMeans c raw SV DV →
      JsonMeans c raw (dictSer K SK SV) (SeqDen K.clear K.insert (SK.dflt, SV.dflt) c%'{' c%'}' (FieldDen DK DV))
  | object {τ : Type} {strict : Bool} {dflt : τ} {L : List (DEntry τ)} : GoodNames (L.map DEntry.entry) →
      (∀ d ∈ L, JsonMeans c raw d.entry.ref.ser d.den) →
      JsonMeans c raw (objectSer c strict dflt (L.map fun d => d.entry.toMember)) (ObjDen strict dflt L)
  | objectArray {τ : Type} {dflt : τ} {L : List (DEntry τ)} : (∀ d ∈ L, JsonMeans c raw d.entry.ref.ser d.den) →
      JsonMeans c raw (objectArraySer dflt (L.map fun d => d.entry.toAMember)) (ObjArrDen dflt L)

end Wjson
