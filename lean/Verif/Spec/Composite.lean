import Verif.Spec.Faults
import Verif.Spec.Denotes
import Verif.Spec.Slots
/-
Specification for C76: the errors of containers and structures, given those of
their parts.
-/
namespace Wjson.Spec

/-- From the text `s` the value `v` is read without an error, and `p` is left. -/
def Takes {α : Type} (f : De α) (v0 : α) (s : Bytes) (v : α) (p : Bytes) : Prop := f v0 s .fresh = .ok (v, p, .fresh)

/-- The table `F` tells the errors of the reader `f` exactly: reading with a fresh
error object ends (if it ends at all) without an error, and the table has none for
this text, or with an error, which is the only one the table has for this text. -/
def Diagnosed {α : Type} (f : De α) (v0 : α) (F : Bytes → JError → Prop) : Prop :=
  ∀ s v p e, f v0 s .fresh = .ok (v, p, e) →
    (e = .fresh ∧ ∀ x, ¬ F s x) ∨ ∃ x : JError, x.code ≠ .ValidJSON ∧ e = .obj x ∧ ∀ x', F s x' ↔ x' = x

/-! ### Between the tokens -/

/-- White space and comments, then `s'`, which begins with something else or is the
end of the text. -/
def Skips (s s' : Bytes) : Prop := ∃ g, s = g ++ s' ∧ GapBefore g s' ∧ NoGap s'

/-- A comment that is not closed: from the slash to the end of the text. -/
def OpenComment (s : Bytes) : Prop :=
  ∃ g u, s = g ++ u ∧ Gap g ∧ g.getLast? = some c%'/' ∧ u.head? = some c%'*' ∧ ¬ (b!"*/" <:+: u)

def commentErr : JError := ⟨.UnexpectedEndFragment, some b!"Unterminated comment", 0⟩

/-- The text ends where a token should come. -/
inductive Cut : Bytes → JError → Prop
  | fin {s} : Skips s [] → Cut s endErr
  | comment {s} : OpenComment s → Cut s commentErr

/-! ### Containers -/

/-- Behind the opening bracket of a container or a comma: `F` are the errors of an
element, `R` the closing bracket. -/
inductive ItemsFault {α : Type} (S : Ser α) (F : Bytes → JError → Prop) (R : Byte) : Bytes → JError → Prop
  | cut {s x} : Cut s x → ItemsFault S F R s x
  | item {s b p x} : Skips s (b :: p) → b ≠ R → F (b :: p) x → ItemsFault S F R s x
  | after {s b p v q x} : Skips s (b :: p) → b ≠ R → Takes S.de S.dflt (b :: p) v q → Cut q x → ItemsFault S F R s x
  | comma {s b p v q d r} : Skips s (b :: p) → b ≠ R → Takes S.de S.dflt (b :: p) v q → Skips q (d :: r) → d ≠ R →
      d ≠ c%',' → ItemsFault S F R s (expectAt b!"," (d :: r))
  | more {s b p v q r x} : Skips s (b :: p) → b ≠ R → Takes S.de S.dflt (b :: p) v q → Skips q (c%',' :: r) →
      ItemsFault S F R r x → ItemsFault S F R s x

/-- A container between the brackets `L` and `R`. -/
inductive SeqFault {α : Type} (S : Ser α) (F : Bytes → JError → Prop) (L R : Byte) : Bytes → JError → Prop
  | none : SeqFault S F L R [] endErr
  | null {s x} : WordFault b!"null" s x → SeqFault S F L R s x
  | kind {b t} : b ≠ c%'n' → b ≠ L → SeqFault S F L R (b :: t) (expectAt [L] (b :: t))
  | items {s x} : ItemsFault S F R s x → SeqFault S F L R (L :: s) x

/-- An entry of a dictionary: `FK` are the errors of the key, `FV` those of the value;
`k0` is what the key holds before. -/
inductive EntryFault {κ : Type} (SK : Ser κ) (k0 : κ) (FK FV : Bytes → JError → Prop) : Bytes → JError → Prop
  | key {s x} : FK s x → EntryFault SK k0 FK FV s x
  | cut {s k p x} : Takes SK.de k0 s k p → Cut p x → EntryFault SK k0 FK FV s x
  | colon {s k p b q} : Takes SK.de k0 s k p → Skips p (b :: q) → b ≠ c%':' →
      EntryFault SK k0 FK FV s (expectAt b!":" (b :: q))
  | cutValue {s k p q x} : Takes SK.de k0 s k p → Skips p (c%':' :: q) → Cut q x → EntryFault SK k0 FK FV s x
  | value {s k p q b r x} : Takes SK.de k0 s k p → Skips p (c%':' :: q) → Skips q (b :: r) → FV (b :: r) x →
      EntryFault SK k0 FK FV s x

/-- Behind the opening bracket of a fixed-size array or a comma: `vs` are the elements
that have not been read, with their old values. The expected token of a missing comma
is `m`. Behind the last element there may be no white space before the bracket if a
comma has been read. -/
inductive FixItemsFault {α : Type} (S : Ser α) (start : α → α) (F : α → Bytes → JError → Prop) (m : Bytes) :
    List α → Bytes → JError → Prop
  | fullEnd : FixItemsFault S start F m [] [] endErr
  | full {b t} : b ≠ c%']' → FixItemsFault S start F m [] (b :: t) (expectAt b!"]" (b :: t))
  | cut {v vs s x} : Cut s x → FixItemsFault S start F m (v :: vs) s x
  | item {v vs s b p x} : Skips s (b :: p) → b ≠ c%']' → F (start v) (b :: p) x → FixItemsFault S start F m (v :: vs) s x
  | after {v vs s b p w q x} : Skips s (b :: p) → b ≠ c%']' → Takes S.de (start v) (b :: p) w q → Cut q x →
      FixItemsFault S start F m (v :: vs) s x
  | comma {v vs s b p w q d r} : Skips s (b :: p) → b ≠ c%']' → Takes S.de (start v) (b :: p) w q → Skips q (d :: r) →
      d ≠ c%']' → d ≠ c%',' → FixItemsFault S start F m (v :: vs) s (expectAt m (d :: r))
  | more {v vs s b p w q r x} : Skips s (b :: p) → b ≠ c%']' → Takes S.de (start v) (b :: p) w q → Skips q (c%',' :: r) →
      FixItemsFault S start F m vs r x → FixItemsFault S start F m (v :: vs) s x

/-- A fixed-size array that holds `vs`. A `null` is read into every element. -/
inductive FixFault {α : Type} (S : Ser α) (start : α → α) (F : α → Bytes → JError → Prop) (m : Bytes) (vs : List α) :
    Bytes → JError → Prop
  | none : FixFault S start F m vs [] endErr
  | nullItem {t as v bs x} : vs = as ++ v :: bs → (∀ a ∈ as, ∃ w q, Takes S.de a (c%'n' :: t) w q) → F v (c%'n' :: t) x →
      FixFault S start F m vs (c%'n' :: t) x
  | null {t x} : (∀ a ∈ vs, ∃ w q, Takes S.de a (c%'n' :: t) w q) → WordFault b!"null" (c%'n' :: t) x →
      FixFault S start F m vs (c%'n' :: t) x
  | kind {b t} : b ≠ c%'n' → b ≠ c%'[' → FixFault S start F m vs (b :: t) (expectAt b!"[" (b :: t))
  | items {s x} : FixItemsFault S start F m vs s x → FixFault S start F m vs (c%'[' :: s) x

/-! ### Structures -/

/-- Reading a member of the structure `t`: the new structure and the rest. -/
def MemberTakes {τ : Type} (en : Entry τ) (t : τ) (s : Bytes) (t' : τ) (p : Bytes) : Prop :=
  ∃ v, Takes en.ref.ser.de (en.start t) s v p ∧ t' = en.ref.set v t

/-- A place of a member list, with the errors of the values of its members. -/
inductive TSlot (τ : Type) where
  /-- `member` and `member_p` -/
  | one (en : Entry τ) (F : en.ref.α → Bytes → JError → Prop)
  /-- `member_if<l,r,RU>`: if `RU`, then `r` is tried first -/
  | alt (l r : MRef τ) (isDflt : l.α → Bool) (RU : Bool) (Fl : l.α → Bytes → JError → Prop) (Fr : r.α → Bytes → JError → Prop)

/-- The place without the errors. -/
def TSlot.slot {τ : Type} : TSlot τ → Slot τ
  | .one en _ => .one en
  | .alt l r d RU _ _ => .alt l r d RU

/-- The name; in an object both alternatives have the same. -/
def TSlot.name {τ : Type} : TSlot τ → Bytes
  | .one en _ => en.ref.name
  | .alt l _ _ _ _ _ => l.name

/-- The member `m` is reset: `null` is read into it, whatever comes of it. -/
def NullInto {τ : Type} (m : MRef τ) (t t' : τ) : Prop :=
  ∃ v p e, m.ser.de (m.get t) b!"null" .null = .ok (v, p, e) ∧ t' = m.set v t

/-- The alternative `a` is tried and has an error; what it has read is reset. -/
def GivenUp {τ : Type} (a : MRef τ) (Fa : a.α → Bytes → JError → Prop) (t : τ) (s : Bytes) (t' : τ) : Prop :=
  (∃ y, Fa (a.get t) s y) ∧ ∃ v p e, a.ser.de (a.get t) s .fresh = .ok (v, p, e) ∧ NullInto a (a.set v t) t'

/-- Alternatives, `a` tried first: reading a value. -/
def AltTakes {τ : Type} (a b : MRef τ) (Fa : a.α → Bytes → JError → Prop) (t : τ) (s : Bytes) (t' : τ) (p : Bytes) : Prop :=
  (∃ v, Takes a.ser.de (a.get t) s v p ∧ NullInto b (a.set v t) t') ∨
  ∃ t1 v, GivenUp a Fa t s t1 ∧ Takes b.ser.de (b.get t1) s v p ∧ t' = b.set v t1

/-- Alternatives, `a` tried first: both have an error, and that of `b` is reported. -/
def AltFault {τ : Type} (a b : MRef τ) (Fa : a.α → Bytes → JError → Prop) (Fb : b.α → Bytes → JError → Prop) (t : τ) (s : Bytes)
    (x : JError) : Prop :=
  ∃ t1, GivenUp a Fa t s t1 ∧ Fb (b.get t1) s x

/-- Reading the value of a place of the structure `t`: the new structure and the rest. -/
def TSlot.takes {τ : Type} : TSlot τ → τ → Bytes → τ → Bytes → Prop
  | .one en _ => MemberTakes en
  | .alt l r _ RU Fl Fr => if RU then AltTakes r l Fr else AltTakes l r Fl

/-- The errors of the value of a place of the structure `t`. -/
def TSlot.fault {τ : Type} : TSlot τ → τ → Bytes → JError → Prop
  | .one en F => fun t => F (en.start t)
  | .alt l r _ RU Fl Fr => if RU then AltFault r l Fr Fl else AltFault l r Fl Fr

/-- What comparing another name with that of the place does: the alternative that
would be tried last is reset. -/
def TSlot.passed {τ : Type} : TSlot τ → τ → τ → Prop
  | .one _ _ => fun t t' => t' = t
  | .alt l r _ RU _ _ => if RU then NullInto l else NullInto r

/-- The same for several places. -/
inductive SlotsPassed {τ : Type} : List (TSlot τ) → τ → τ → Prop
  | nil {t} : SlotsPassed [] t t
  | cons {x l t t1 t2} : x.passed t t1 → SlotsPassed l t1 t2 → SlotsPassed (x :: l) t t2

/-- The members of a structure written as an array, at the first place of
the list. -/
inductive PosFault {τ : Type} : List (TSlot τ) → τ → Bytes → JError → Prop
  | fullEnd {t} : PosFault [] t [] endErr
  | full {t b s} : b ≠ c%']' → PosFault [] t (b :: s) (expectAt b!"]" (b :: s))
  | value {en l t s x} : en.fault t s x → PosFault (en :: l) t s x
  | after {en l t s t' p x} : en.takes t s t' p → Cut p x → PosFault (en :: l) t s x
  | close {en l t s t' p b q} : en.takes t s t' p → Skips p (b :: q) → b ≠ c%',' → b ≠ c%']' →
      PosFault (en :: l) t s (expectAt b!"]" (b :: q))
  | comment {en l t s t' p q} : en.takes t s t' p → Skips p (c%',' :: q) → OpenComment q →
      PosFault (en :: l) t s commentErr
  | more {en l t s t' p q s' x} : en.takes t s t' p → Skips p (c%',' :: q) → Skips q s' → PosFault l t' s' x →
      PosFault (en :: l) t s x

/-- A structure written as an array. -/
inductive ObjectArrayFault {τ : Type} (L : List (TSlot τ)) (t : τ) : Bytes → JError → Prop
  | none : ObjectArrayFault L t [] endErr
  | null {s x} : WordFault b!"null" s x → ObjectArrayFault L t s x
  | kind {b s} : b ≠ c%'n' → b ≠ c%'[' → ObjectArrayFault L t (b :: s) (expectAt b!"[" (b :: s))
  | cut {s x} : Cut s x → ObjectArrayFault L t (c%'[' :: s) x
  | members {s b p x} : Skips s (b :: p) → b ≠ c%']' → PosFault L t (b :: p) x → ObjectArrayFault L t (c%'[' :: s) x

/-- Behind the name of a member: `F` are the errors of the value. -/
inductive NamedFault (F : Bytes → JError → Prop) : Bytes → JError → Prop
  | cut {u x} : Cut u x → NamedFault F u x
  | colon {u b q} : Skips u (b :: q) → b ≠ c%':' → NamedFault F u (expectAt b!":" (b :: q))
  | cutValue {u q x} : Skips u (c%':' :: q) → Cut q x → NamedFault F u x
  | value {u q b r x} : Skips u (c%':' :: q) → Skips q (b :: r) → F (b :: r) x → NamedFault F u x

/-- Behind the name of the member `en`: colon and value. -/
def NamedTakes {τ : Type} (en : TSlot τ) (t : τ) (u : Bytes) (t' : τ) (p : Bytes) : Prop :=
  ∃ q b r, Skips u (c%':' :: q) ∧ Skips q (b :: r) ∧ en.takes t (b :: r) t' p

/-- The text `u` behind a quote neither begins with one of the names and a quote nor is
the beginning of one of the names. -/
def UnknownName {τ : Type} (L : List (TSlot τ)) (u : Bytes) : Prop :=
  ∀ en ∈ L, ¬ (en.name ++ [c%'"']) <+: u ∧ ¬ u <+: en.name

/-- `parser::parse_member` passes a member; `p` is what is left. -/
def Passes (c : Cfg) (s p : Bytes) : Prop := parseMember c s .fresh = .ok (p, .fresh)

/-- `parser::parse_member` reports `x`. -/
def PassFault (c : Cfg) (s : Bytes) (x : JError) : Prop := x.code ≠ .ValidJSON ∧ ∃ p, parseMember c s .fresh = .ok (p, .obj x)

/-- One member of the text is right: `Step cur t s cur' t' p`, where `cur` are the
members of the structure that are expected from here on (not empty), `t` the structure
and `s` the text. -/
inductive Step {τ : Type} (c : Cfg) (strict : Bool) (L : List (TSlot τ)) :
    List (TSlot τ) → τ → Bytes → List (TSlot τ) → τ → Bytes → Prop
  | next {en l t u t' p} : NamedTakes en t u t' p → Step c strict L (en :: l) t (c%'"' :: (en.name ++ c%'"' :: u)) l t' p
  | other {d l en L1 L2 t t0 t1 u t' p} : L = L1 ++ en :: L2 → en.name ≠ d.name → d.passed t t0 → SlotsPassed L1 t0 t1 →
      NamedTakes en t1 u t' p → Step c strict L (d :: l) t (c%'"' :: (en.name ++ c%'"' :: u)) (d :: l) t' p
  | skip {d l t t0 t1 u p} : strict = false → UnknownName L u → d.passed t t0 → SlotsPassed L t0 t1 → Passes c (c%'"' :: u) p →
      Step c strict L (d :: l) t (c%'"' :: u) (d :: l) t1 p

/-- One member of the text is wrong; `L` are the places of the structure, `d` is the
one expected. -/
inductive HereFault {τ : Type} (c : Cfg) (strict : Bool) (L : List (TSlot τ)) (d : TSlot τ) (t : τ) : Bytes → JError → Prop
  | quote {s} : s.head? ≠ some c%'"' → HereFault c strict L d t s (expectAt b!"\"" s)
  | cut {en u} : en ∈ L → u <+: en.name → HereFault c strict L d t (c%'"' :: u) endErr
  | expected {u x} : NamedFault (d.fault t) u x → HereFault c strict L d t (c%'"' :: (d.name ++ c%'"' :: u)) x
  | other {en L1 L2 t0 t1 u x} : L = L1 ++ en :: L2 → en.name ≠ d.name → d.passed t t0 → SlotsPassed L1 t0 t1 →
      NamedFault (en.fault t1) u x → HereFault c strict L d t (c%'"' :: (en.name ++ c%'"' :: u)) x
  | unknown {u} : strict = true → UnknownName L u → HereFault c strict L d t (c%'"' :: u) (errAt .InvalidMember (c%'"' :: u))
  | skip {u x} : strict = false → UnknownName L u → PassFault c (c%'"' :: u) x → HereFault c strict L d t (c%'"' :: u) x

/-- Behind the last expected member, at a member of the text. In the strict mode the
error is at the last member of the text. -/
inductive SurplusFault (c : Cfg) (strict : Bool) : Bytes → JError → Prop
  | member {s x} : PassFault c s x → SurplusFault c strict s x
  | after {s p x} : Passes c s p → Cut p x → SurplusFault c strict s x
  | comma {s p b q} : Passes c s p → Skips p (b :: q) → b ≠ c%'}' → b ≠ c%',' → SurplusFault c strict s (expectAt b!"," (b :: q))
  | strict {s p q} : strict = true → Passes c s p → Skips p (c%'}' :: q) → SurplusFault c strict s (errAt .InvalidMember s)
  | comment {s p q} : Passes c s p → Skips p (c%',' :: q) → OpenComment q → SurplusFault c strict s commentErr
  | more {s p q s' x} : Passes c s p → Skips p (c%',' :: q) → Skips q s' → SurplusFault c strict s' x → SurplusFault c strict s x

/-- Behind the opening brace or a comma, with the expected members. -/
inductive MembersFault {τ : Type} (c : Cfg) (strict : Bool) (L : List (TSlot τ)) :
    List (TSlot τ) → τ → Bytes → JError → Prop
  | cut {t s x} : Cut s x → MembersFault c strict L [] t s x
  | surplus {t s b p x} : Skips s (b :: p) → b ≠ c%'}' → SurplusFault c strict (b :: p) x → MembersFault c strict L [] t s x
  | here {en l t s x} : HereFault c strict L en t s x → MembersFault c strict L (en :: l) t s x
  | after {cur t s cur' t' p x} : Step c strict L cur t s cur' t' p → Cut p x → MembersFault c strict L cur t s x
  | close {cur t s cur' t' p b q} : Step c strict L cur t s cur' t' p → Skips p (b :: q) → b ≠ c%',' → b ≠ c%'}' →
      MembersFault c strict L cur t s (expectAt b!"}" (b :: q))
  | comment {cur t s cur' t' p q} : Step c strict L cur t s cur' t' p → Skips p (c%',' :: q) → OpenComment q →
      MembersFault c strict L cur t s commentErr
  | more {cur t s cur' t' p q s' x} : Step c strict L cur t s cur' t' p → Skips p (c%',' :: q) → Skips q s' →
      MembersFault c strict L cur' t' s' x → MembersFault c strict L cur t s x

/-- A structure that holds `t`, written as an object. (An empty array is read as well.) -/
inductive ObjectFault {τ : Type} (c : Cfg) (strict : Bool) (L : List (TSlot τ)) (t : τ) :
    Bytes → JError → Prop
  | none : ObjectFault c strict L t [] endErr
  | null {s x} : WordFault b!"null" s x → ObjectFault c strict L t s x
  | kind {b s} : b ≠ c%'n' → b ≠ c%'{' → b ≠ c%'[' → ObjectFault c strict L t (b :: s) (expectAt b!"{" (b :: s))
  | bracket {s s'} : Skips s s' → s'.head? ≠ some c%']' → ObjectFault c strict L t (c%'[' :: s) (expectAt b!"]" s')
  | bracketComment {s} : OpenComment s → ObjectFault c strict L t (c%'[' :: s) commentErr
  | cut {s x} : Cut s x → ObjectFault c strict L t (c%'{' :: s) x
  | members {s b p x} : Skips s (b :: p) → b ≠ c%'}' → MembersFault c strict L L t (b :: p) x →
      ObjectFault c strict L t (c%'{' :: s) x

/-! ### Pointers, quoted values -/

/-- A pointer: `F` are the errors of the value. Nothing is an error where a text begins
with `n`, nor is the empty text. -/
inductive PointerFault (F : Bytes → JError → Prop) : Bytes → JError → Prop
  | value {b t x} : b ≠ c%'n' → F (b :: t) x → PointerFault F (b :: t) x

/-- A value in a string: `F` are the errors of the value. Those inside the string are
reported without the expected token, and with the distance to the end of the string
in its decoded form, the closing quote and what is behind it. -/
inductive QuotedFault (req : Bool) (F : Bytes → JError → Prop) : Bytes → JError → Prop
  | string {s x} : req = true ∨ s.head? = some c%'"' → StrFault 2147483647 s x → QuotedFault req F s x
  | inner {s w p y} : req = true ∨ s.head? = some c%'"' → Takes strSer.de [] s w p → F w y →
      QuotedFault req F s ⟨y.code, none, (p.length : Int) + y.tailOf + 1⟩
  | plain {s x} : req = false → s.head? ≠ some c%'"' → F s x → QuotedFault req F s x

/-! ### Raw values -/

/-- `parser::parse_value` passes a value; `p` is what is left. -/
def PassesValue (c : Cfg) (s p : Bytes) : Prop := parseValue c s .fresh = .ok (p, .fresh)

/-- A raw value: the errors are those of `parser::parse_value`. -/
def RawFault (c : Cfg) (s : Bytes) (x : JError) : Prop := x.code ≠ .ValidJSON ∧ ∃ p, parseValue c s .fresh = .ok (p, .obj x)

/-- A raw value between quotes that are not part of it, if they are required. -/
inductive RawQuotedFault (c : Cfg) (req : Bool) : Bytes → JError → Prop
  | none : RawQuotedFault c req [] endErr
  | quote {b t} : req = true → b ≠ c%'"' → RawQuotedFault c req (b :: t) (expectAt b!"\"" (b :: t))
  | value {t x} : req = true → RawFault c t x → RawQuotedFault c req (c%'"' :: t) x
  | plain {b t x} : req = false → RawFault c (b :: t) x → RawQuotedFault c req (b :: t) x
  | cut {t} : req = true → PassesValue c t [] → RawQuotedFault c req (c%'"' :: t) endErr
  | close {t b p} : req = true → PassesValue c t (b :: p) → b ≠ c%'"' → RawQuotedFault c req (c%'"' :: t) (expectAt b!"\"" (b :: p))

/-! ### Flags -/

/-- `parser::parse_string` passes a string; `p` is what is left. -/
def PassesString (s p : Bytes) : Prop := parseString s .fresh = (p, .fresh)

/-- `parser::parse_string` reports `x`. -/
def StringPassFault (s : Bytes) (x : JError) : Prop := x.code ≠ .ValidJSON ∧ ∃ p, parseString s .fresh = (p, .obj x)

/-- The text behind a quote does not begin with a listed name and a quote. -/
def UnlistedName {w : Nat} (L : List (Bytes × BitVec w)) (p : Bytes) : Prop := ∀ y ∈ L, ¬ (y.1 ++ [c%'"']) <+: p

/-- An element of the array form is right; `q` is what is left behind its quote. -/
inductive FlagElem {w : Nat} (L : List (Bytes × BitVec w)) (strict : Bool) : Bytes → Bytes → Prop
  | listed {n u q} : (n, u) ∈ L → FlagElem L strict (c%'"' :: (n ++ c%'"' :: q)) q
  | other {p q} : strict = false → UnlistedName L p → PassesString (c%'"' :: p) q → FlagElem L strict (c%'"' :: p) q

/-- The text without the byte `b` at its beginning, if it is there. -/
def dropByte (b : Byte) : Bytes → Bytes
  | [] => []
  | d :: r => if d = b then r else d :: r

/-- The array form behind the bracket or an element. -/
inductive FlagArrFault {w : Nat} (L : List (Bytes × BitVec w)) (strict : Bool) : Bytes → JError → Prop
  | cut {s x} : Cut s x → FlagArrFault L strict s x
  | kind {s b p} : Skips s (b :: p) → b ≠ c%']' → b ≠ c%'"' → FlagArrFault L strict s (expectAt b!"\"" (b :: p))
  | name {s p} : strict = true → Skips s (c%'"' :: p) → UnlistedName L p →
      FlagArrFault L strict s (errAt .InvalidEnum (c%'"' :: p))
  | string {s p x} : strict = false → Skips s (c%'"' :: p) → UnlistedName L p → StringPassFault (c%'"' :: p) x →
      FlagArrFault L strict s x
  | after {s p q x} : Skips s (c%'"' :: p) → FlagElem L strict (c%'"' :: p) q → Cut q x → FlagArrFault L strict s x
  | more {s p q d r x} : Skips s (c%'"' :: p) → FlagElem L strict (c%'"' :: p) q → Skips q (d :: r) →
      FlagArrFault L strict (dropByte c%',' (d :: r)) x → FlagArrFault L strict s x

/-- A word of the string form is right; `q` is what is left behind it. -/
inductive FlagWordTakes {w : Nat} (L : List (Bytes × BitVec w)) (strict : Bool) (sep : Byte) : Bytes → Bytes → Prop
  | listed {n u q} : (n, u) ∈ L → WordStop sep q → FlagWordTakes L strict sep (n ++ q) q
  | other {a q} : strict = false → Unlisted L sep (a ++ q) → (∀ b ∈ a, b ≠ sep ∧ b ≠ c%'"') →
      q = [] ∨ q.head? = some sep ∨ q.head? = some c%'"' → FlagWordTakes L strict sep (a ++ q) q

/-- The string form behind the quote or a word, for separators other than the space. -/
inductive FlagStrFault {w : Nat} (L : List (Bytes × BitVec w)) (strict : Bool) (sep : Byte) : Bytes → JError → Prop
  | cut {s x} : Cut s x → FlagStrFault L strict sep s x
  | name {s b p} : strict = true → Skips s (b :: p) → b ≠ c%'"' → Unlisted L sep (b :: p) →
      FlagStrFault L strict sep s (errAt .InvalidEnum (b :: p))
  | after {s b p q x} : Skips s (b :: p) → b ≠ c%'"' → FlagWordTakes L strict sep (b :: p) q → Cut q x →
      FlagStrFault L strict sep s x
  | more {s b p q d r x} : Skips s (b :: p) → b ≠ c%'"' → FlagWordTakes L strict sep (b :: p) q → Skips q (d :: r) →
      FlagStrFault L strict sep (dropByte sep (d :: r)) x → FlagStrFault L strict sep s x

/-- The same for the space as the separator. In the nonstrict mode white space before
a word that is not listed, and behind it, belongs to the word. -/
inductive FlagSpacedFault {w : Nat} (L : List (Bytes × BitVec w)) (strict : Bool) : Bytes → JError → Prop
  | none : FlagSpacedFault L strict [] endErr
  | name {b p} : strict = true → b ≠ c%'"' → Unlisted L c%' ' (b :: p) →
      FlagSpacedFault L strict (b :: p) (errAt .InvalidEnum (b :: p))
  | listed {n u r x} : (n, u) ∈ L → FlagSpacedFault L strict r x → FlagSpacedFault L strict (n ++ c%' ' :: r) x
  | cut {b p x} : strict = false → b ≠ c%'"' → Unlisted L c%' ' (b :: p) → Cut (b :: p) x → FlagSpacedFault L strict (b :: p) x
  | after {b p a q x} : strict = false → b ≠ c%'"' → Unlisted L c%' ' (b :: p) → Skips (b :: p) (a ++ q) →
      (∀ d ∈ a, d ≠ c%' ' ∧ d ≠ c%'"') → q = [] ∨ q.head? = some c%' ' ∨ q.head? = some c%'"' → a ++ q ≠ [] → Cut q x →
      FlagSpacedFault L strict (b :: p) x
  | more {b p a q r x} : strict = false → b ≠ c%'"' → Unlisted L c%' ' (b :: p) → Skips (b :: p) (a ++ q) →
      (∀ d ∈ a, d ≠ c%' ' ∧ d ≠ c%'"') → q.head? = some c%' ' ∨ q.head? = some c%'"' → Skips q r → r ≠ [] →
      FlagSpacedFault L strict r x → FlagSpacedFault L strict (b :: p) x

/-- Flags. -/
inductive FlagsFault {w : Nat} (F : Flags w) : Bytes → JError → Prop
  | none : FlagsFault F [] endErr
  | kind {b t} : b ≠ c%'[' → b ≠ c%'"' → FlagsFault F (b :: t) (expectAt b!"\"" (b :: t))
  | array {s x} : FlagArrFault F.list F.strict s x → FlagsFault F (c%'[' :: s) x
  | string {s x} : F.sep ≠ c%' ' → FlagStrFault F.list F.strict F.sep s x → FlagsFault F (c%'"' :: s) x
  | spaced {s x} : F.sep = c%' ' → FlagSpacedFault F.list F.strict s x → FlagsFault F (c%'"' :: s) x

/-! ### Units -/

/-- The text is neither `null` nor a number nor a string (its first byte tells). The
place is not reported. -/
def UnitKind (b : Byte) : Prop := b ≠ c%'n' ∧ b ≠ c%'-' ∧ ¬ Digit b ∧ b ≠ c%'"'

/-- The unit behind a number of a time interval: `ms`, `mk` and any byte, or one byte. -/
inductive UnitEnds : Bytes → Bytes → Prop
  | ms {r} : UnitEnds (c%'m' :: c%'s' :: r) r
  | mks {b r} : UnitEnds (c%'m' :: c%'k' :: b :: r) r
  | one {u r} : u ≠ c%'m' ∨ (r.head? ≠ some c%'s' ∧ r.head? ≠ some c%'k') → UnitEnds (u :: r) r

/-- A time interval behind the opening quote or a unit. The end of the text behind a
number is no error. -/
inductive TimeBodyFault (c : Cfg) (ty : IntTy) : Bytes → JError → Prop
  | none : TimeBodyFault c ty [] endErr
  | number {b t x} : b ≠ c%'"' → IntFault (b :: t) x → TimeBodyFault c ty (b :: t) x
  | more {b t v q r x} : b ≠ c%'"' → Takes (intSer c ty).de 0 (b :: t) v q → UnitEnds q r → TimeBodyFault c ty r x →
      TimeBodyFault c ty (b :: t) x

/-- A time interval. -/
inductive TimeFault (c : Cfg) (ty : IntTy) : Bytes → JError → Prop
  | none : TimeFault c ty [] endErr
  | number {b t x} : b = c%'n' ∨ b = c%'-' ∨ Digit b → IntFault (b :: t) x → TimeFault c ty (b :: t) x
  | kind {b t} : UnitKind b → TimeFault c ty (b :: t) ⟨.InvalidString, none, 0⟩
  | string {s x} : TimeBodyFault c ty s x → TimeFault c ty (c%'"' :: s) x

/-- A size. The number and the unit are in a string of at most 32 bytes; what counts is
before its first zero byte. The place of an error inside the string is reported as in
a text of its own, and that of a wrong unit is not reported. -/
inductive SizeFault (c : Cfg) : Bytes → JError → Prop
  | none : SizeFault c [] endErr
  | number {b t x} : b = c%'n' ∨ b = c%'-' ∨ Digit b → IntFault (b :: t) x → SizeFault c (b :: t) x
  | kind {b t} : UnitKind b → SizeFault c (b :: t) ⟨.InvalidString, none, 0⟩
  | string {s x} : StrFault 32 (c%'"' :: s) x → SizeFault c (c%'"' :: s) x
  | inner {s w z p x} : Takes (charArraySer 32).de (charArraySer 32).dflt (c%'"' :: s) (w ++ 0 :: z) p → 0 ∉ w → IntFault w x →
      SizeFault c (c%'"' :: s) x
  | unit {s w z p v u r} : Takes (charArraySer 32).de (charArraySer 32).dflt (c%'"' :: s) (w ++ 0 :: z) p → 0 ∉ w →
      Takes (intSer c .long).de 0 w v (u :: r) → u ∉ b!"TGMKB" → SizeFault c (c%'"' :: s) ⟨.InvalidNumber, none, 0⟩

/-! ### Whole descriptions -/

/-- `Tabled c units S F`: `S` is a description and `F v` the errors that a text can have when
it is read into a variable that holds `v`. Where `units` is false there are no time
intervals and sizes in it. -/
inductive Tabled (c : Cfg) (units : Bool) : {α : Type} → Ser α → (α → Bytes → JError → Prop) → Prop
  | int (ty : IntTy) : Tabled c units (intSer c ty) fun _ => IntFault
  | bool : Tabled c units boolSer fun _ => BoolFault
  | float {α : Type} (T : FloatTy α) (R : Int) : Tabled c units (floatSer T R) fun _ => FloatFault
  | str : Tabled c units strSer fun _ => StrFault 2147483647
  | chars (N : Nat) : Tabled c units (charArraySer N) fun _ => StrFault N
  | enum {α : Type} [DecidableEq α] (strict : Bool) (dflt : α) (L : List (Bytes × α)) :
      Tabled c units (enumSer c strict dflt L) fun _ => EnumFault (lowByte c.charSigned) strict L
  | flags {w : Nat} (G : Flags w) : G.list ≠ [] → GoodSep G.sep → (∀ y ∈ G.list, FlagWord G.sep y.1) →
      Tabled c units (flagsSer c G) fun _ => FlagsFault G
  | time (ty : IntTy) (fr : Int) : units = true → Tabled c units (timeSer c ty fr) fun _ => TimeFault c ty
  | size (ty : IntTy) (metric : Int) : units = true → Tabled c units (sizeSer c ty metric) fun _ => SizeFault c
  | raw : Tabled c units (rawSer c) fun _ => RawFault c
  | rawQuoted (serQ reqQ : Bool) : Tabled c units (rawQuotedSer c serQ reqQ) fun _ => RawQuotedFault c reqQ
  | quoted {α : Type} {S : Ser α} {F : α → Bytes → JError → Prop} (serQ reqQ : Bool) : Tabled c units S F →
      Tabled c units (quotedSer S serQ reqQ) fun v => QuotedFault reqQ (F v)
  | pointer {α : Type} {S : Ser α} {F : α → Bytes → JError → Prop} : Tabled c units S F →
      Tabled c units (pointerSer S) fun _ => PointerFault (F S.dflt)
  | memberValue {τ α : Type} {S : Ser α} {F : α → Bytes → JError → Prop} (dflt : τ) (get : τ → α) (set : α → τ → τ) : Tabled c units S F →
      Tabled c units (memberValueSer dflt get set S) fun t => F (get t)
  | array {α C : Type} {S : Ser α} {F : α → Bytes → JError → Prop} (K : Coll α C) : Tabled c units S F →
      Tabled c units (arraySer K S) fun _ => SeqFault S (F S.dflt) c%'[' c%']'
  | dict {κ ν C : Type} {SK : Ser κ} {SV : Ser ν} {FK : κ → Bytes → JError → Prop} {FV : ν → Bytes → JError → Prop}
      (K : Coll (κ × ν) C) : Tabled c units SK FK → Tabled c units SV FV →
      Tabled c units (dictSer K SK SV) fun _ => SeqFault (fieldSer SK SV) (EntryFault SK SK.dflt (FK SK.dflt) (FV SV.dflt)) c%'{' c%'}'
  | field {κ ν : Type} {SK : Ser κ} {SV : Ser ν} {FK : κ → Bytes → JError → Prop} {FV : ν → Bytes → JError → Prop} :
      Tabled c units SK FK → Tabled c units SV FV →
      Tabled c units (fieldSer SK SV) fun t => EntryFault SK t.1 (FK t.1) (FV t.2)
  | fixed {α : Type} {S : Ser α} {F : α → Bytes → JError → Prop} (k : FixKind) (N : Nat) : Tabled c units S F →
      Tabled c units (fixSer k N S) fun vs => FixFault S (k.start S) F k.commaMsg vs
  | objectArray {τ : Type} {L : List (TSlot τ)} (dflt : τ) :
      (∀ en F, .one en F ∈ L → Tabled c units en.ref.ser F) →
      (∀ l r i RU Fl Fr, .alt l r i RU Fl Fr ∈ L → Tabled c units l.ser Fl) →
      (∀ l r i RU Fl Fr, .alt l r i RU Fl Fr ∈ L → Tabled c units r.ser Fr) →
      Tabled c units (objectArraySer dflt (L.map fun x => x.slot.toAMember)) (ObjectArrayFault L)
  | object {τ : Type} {L : List (TSlot τ)} (strict : Bool) (dflt : τ) :
      (L.map TSlot.name).Nodup → (∀ x ∈ L, c%'"' ∉ x.name ∧ SameNames x.slot) →
      (∀ en F, .one en F ∈ L → Tabled c units en.ref.ser F) →
      (∀ l r i RU Fl Fr, .alt l r i RU Fl Fr ∈ L → Tabled c units l.ser Fl) →
      (∀ l r i RU Fl Fr, .alt l r i RU Fl Fr ∈ L → Tabled c units r.ser Fr) →
      Tabled c units (objectSer c strict dflt (L.map fun x => x.slot.toMember)) (ObjectFault c strict L)

end Wjson.Spec
