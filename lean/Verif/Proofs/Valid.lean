import Verif.Proofs.Nested
/-
Serialized values are JSON.
-/
namespace Wjson
open Spec

/-! ### UTF-8 -/

theorem Spec.Utf8Text.append {s t : Bytes} (hs : Utf8Text s) (ht : Utf8Text t) : Utf8Text (s ++ t) := by
  induction hs with
  | nil => exact ht
  | ascii hb _ ih => exact .ascii hb ih
  | multi hc _ ih => rw [List.append_assoc]; exact .multi hc ih

theorem utf8_of_ascii {t : Bytes} (h : ∀ b ∈ t, b < 0x80) : Utf8Text t := by
  induction t with
  | nil => exact .nil
  | cons b t ih => exact .ascii (h b (by simp)) (ih fun x hx => h x (by simp [hx]))

theorem Spec.Ws.utf8 {t : Bytes} (h : Ws t) : Utf8Text t := by
  have key : ∀ b : Byte, WsByte b → b < 0x80 := by unfold WsByte; apply forall_byte; decide +kernel
  exact utf8_of_ascii fun b hb => key b (h b hb)

theorem Spec.RChar.utf8 {t : Bytes} (h : RChar t) : Utf8Text t := by
  have hx : ∀ b : Byte, HexDigit b → b < 0x80 := by unfold HexDigit; apply forall_byte; decide +kernel
  have hs : ∀ b : Byte, ShortEscape b → b < 0x80 := by unfold ShortEscape; apply forall_byte; decide +kernel
  have ha : ∀ b : Byte, b ≤ 0x7F → b < 0x80 := by apply forall_byte; decide +kernel
  cases h with
  | ascii _ h2 _ _ => exact .ascii (ha _ h2) .nil
  | multi h => simpa using Utf8Text.multi h .nil
  | short h => exact .ascii (by decide) (.ascii (hs _ h) .nil)
  | uni h1 h2 h3 h4 =>
    exact .ascii (by decide) (.ascii (by decide) (.ascii (hx _ h1) (.ascii (hx _ h2) (.ascii (hx _ h3) (.ascii (hx _ h4) .nil)))))

theorem Spec.RChars.utf8 {t : Bytes} (h : RChars t) : Utf8Text t := by
  induction h with
  | nil => exact .nil
  | cons h1 _ ih => exact h1.utf8.append ih

theorem Spec.RString.utf8 {t : Bytes} (h : RString t) : Utf8Text t := by
  obtain ⟨u, hu, rfl⟩ := h
  exact .ascii (by decide) (hu.utf8.append (.ascii (by decide) .nil))

theorem Spec.RNumber.utf8 {t : Bytes} (h : RNumber t) : Utf8Text t := by
  have hd : ∀ b : Byte, Digit b → b < 0x80 := by unfold Digit; apply forall_byte; decide +kernel
  have hd' : ∀ b : Byte, Digit19 b → b < 0x80 := by unfold Digit19; apply forall_byte; decide +kernel
  have hds : ∀ {t : Bytes}, (∀ b ∈ t, Digit b) → Utf8Text t := fun h => utf8_of_ascii fun b hb => hd b (h b hb)
  obtain ⟨m, i, f, x, rfl, hm, hi, hf, hx⟩ := h
  refine .append (.append (.append ?_ ?_) ?_) ?_
  · rcases hm with rfl | rfl
    · exact .nil
    · exact .ascii (by decide) .nil
  · rcases hi with rfl | ⟨d, ds, rfl, h1, h2⟩
    · exact .ascii (by decide) .nil
    · exact .ascii (hd' _ h1) (hds h2)
  · rcases hf with rfl | ⟨ds, rfl, h2⟩
    · exact .nil
    · exact .ascii (by decide) (hds h2.2)
  · rcases hx with rfl | ⟨y, sg, ds, rfl, h1, h2, h3⟩
    · exact .nil
    · refine .ascii (by rcases h1 with rfl | rfl <;> decide) (.append ?_ (hds h3.2))
      rcases h2 with rfl | rfl | rfl
      · exact .nil
      · exact .ascii (by decide) .nil
      · exact .ascii (by decide) .nil

theorem Spec.RG.utf8 {k : Kind} {t : Bytes} (h : RG k t) : Utf8Text t := by
  induction h with
  | null => exact utf8_of_ascii (by decide)
  | true => exact utf8_of_ascii (by decide)
  | false => exact utf8_of_ascii (by decide)
  | num h => exact RNumber.utf8 h
  | str h => exact RString.utf8 h
  | arr0 h => exact .ascii (by decide) (.append (Ws.utf8 h) (.ascii (by decide) .nil))
  | arr _ ih => exact .ascii (by decide) (.append ih (.ascii (by decide) .nil))
  | obj0 h => exact .ascii (by decide) (.append (Ws.utf8 h) (.ascii (by decide) .nil))
  | obj _ ih => exact .ascii (by decide) (.append ih (.ascii (by decide) .nil))
  | elem h1 _ h2 ih => exact .append (.append (Ws.utf8 h1) ih) (Ws.utf8 h2)
  | elemMore h1 _ h2 _ ih ih' => exact .append (.append (.append (Ws.utf8 h1) ih) (Ws.utf8 h2)) (.ascii (by decide) ih')
  | memb h0 hk h1 h2 _ h3 ih =>
    exact .append (.append (.append (Ws.utf8 h0) (RString.utf8 hk)) (Ws.utf8 h1)) (.ascii (by decide) (.append (.append (Ws.utf8 h2) ih) (Ws.utf8 h3)))
  | membMore h0 hk h1 h2 _ h3 _ ih ih' =>
    exact .append (.append (.append (Ws.utf8 h0) (RString.utf8 hk)) (Ws.utf8 h1))
      (.ascii (by decide) (.append (.append (.append (Ws.utf8 h2) ih) (Ws.utf8 h3)) (.ascii (by decide) ih')))

/-! ### Texts -/

theorem Spec.RChars.append {s t : Bytes} (hs : RChars s) (ht : RChars t) : RChars (s ++ t) := by
  induction hs with
  | nil => exact ht
  | cons h1 _ ih => rw [List.append_assoc]; exact .cons h1 ih

/-- Printable ASCII other than the quote and the backslash. -/
def PlainAscii (b : Byte) : Prop := 0x20 ≤ b ∧ b ≤ 0x7F ∧ b ≠ c%'"' ∧ b ≠ c%'\\'

theorem rchars_of_plain {t : Bytes} (h : ∀ b ∈ t, PlainAscii b) : RChars t := by
  induction t with
  | nil => exact .nil
  | cons b t ih =>
    have hb := h b (by simp)
    exact .cons (c := [b]) (.ascii hb.1 hb.2.1 hb.2.2.1 hb.2.2.2) (ih fun x hx => h x (by simp [hx]))

theorem digit_plain : ∀ b : Byte, Digit b → PlainAscii b := by
  unfold Digit PlainAscii; apply forall_byte; decide +kernel

theorem decimal_plain {v : Int} {t : Bytes} (h : Decimal v t) : ∀ b ∈ t, PlainAscii b := by
  obtain ⟨i, hi, h⟩ := h
  have hi' : ∀ b ∈ i, PlainAscii b := by
    intro b hb
    rcases hi with rfl | ⟨d, ds, rfl, h1, h2⟩
    · simp at hb; subst hb; unfold PlainAscii; decide
    · rcases List.mem_cons.mp hb with rfl | hb
      · exact digit_plain _ (digit_of_19 h1)
      · exact digit_plain _ (h2 _ hb)
  rcases h with ⟨_, rfl, _⟩ | ⟨_, rfl, _⟩
  · exact hi'
  · intro b hb
    rcases List.mem_cons.mp hb with rfl | hb
    · unfold PlainAscii; decide
    · exact hi' b hb

theorem decimal_rnumber {v : Int} {t : Bytes} (h : Decimal v t) : RNumber t := by
  obtain ⟨i, hi, h⟩ := h
  rcases h with ⟨_, rfl, _⟩ | ⟨_, rfl, _⟩
  · exact ⟨[], _, [], [], by simp, .inl rfl, hi, .inl rfl, .inl rfl⟩
  · exact ⟨b!"-", i, [], [], by simp, .inr rfl, hi, .inl rfl, .inl rfl⟩

theorem timeText_plain {l : List (Int × TimeUnit)} {t : Bytes} (h : TimeText l t) : ∀ b ∈ t, PlainAscii b := by
  have hu : ∀ u : TimeUnit, ∀ b ∈ u.text, PlainAscii b := by
    intro u; cases u <;> (unfold PlainAscii TimeUnit.text; decide)
  induction h with
  | nil => simp
  | @cons n u l t r h1 _ ih =>
    intro b hb
    simp only [List.mem_append] at hb
    rcases hb with (hb | hb) | hb
    · exact decimal_plain h1 b hb
    · exact hu u b hb
    · exact ih b hb

theorem sizeText_plain {u : SizeUnit} {t : Bytes} (h : u.Text t) : ∀ b ∈ t, PlainAscii b := by
  cases h <;> (unfold PlainAscii; decide)

theorem rg_elems {ts : List Bytes} (hne : ts ≠ []) (h : ∀ t ∈ ts, RValue t) : RG .elems (joinComma ts) := by
  induction ts with
  | nil => exact absurd rfl hne
  | cons t ts ih =>
    cases ts with
    | nil =>
      have := RG.elem (w1 := []) (w2 := []) (by intro b hb; cases hb) (h t (by simp)) (by intro b hb; cases hb)
      simpa [joinComma] using this
    | cons u ts =>
      have := RG.elemMore (w1 := []) (w2 := []) (by intro b hb; cases hb) (h t (by simp)) (by intro b hb; cases hb)
        (ih (by simp) fun x hx => h x (by simp [hx]))
      simpa [joinComma] using this

theorem rg_array {ts : List Bytes} (h : ∀ t ∈ ts, RValue t) : RValue (c%'[' :: joinComma ts ++ b!"]") := by
  by_cases hne : ts = []
  · subst hne
    exact .arr0 (w := []) (by intro b hb; cases hb)
  · exact .arr (rg_elems hne h)

theorem rg_members {ts : List Bytes} (hne : ts ≠ []) (h : ∀ t ∈ ts, ∃ k v, t = k ++ c%':' :: v ∧ RString k ∧ RValue v) :
    RG .members (joinComma ts) := by
  have ws : Ws [] := by intro b hb; cases hb
  induction ts with
  | nil => exact absurd rfl hne
  | cons t ts ih =>
    obtain ⟨k, v, rfl, hk, hv⟩ := h t (by simp)
    cases ts with
    | nil =>
      have := RG.memb ws hk ws ws hv ws
      simpa [joinComma] using this
    | cons u ts =>
      have := RG.membMore ws hk ws ws hv ws (ih (by simp) fun x hx => h x (by simp [hx]))
      simpa [joinComma] using this

theorem rg_object {ts : List Bytes} (h : ∀ t ∈ ts, ∃ k v, t = k ++ c%':' :: v ∧ RString k ∧ RValue v) :
    RValue (c%'{' :: joinComma ts ++ b!"}") := by
  by_cases hne : ts = []
  · subst hne
    exact .obj0 (w := []) (by intro b hb; cases hb)
  · exact .obj (rg_members hne h)

/-- What the proof needs of a set of JSON texts. -/
structure JsonLike (P : Bytes → Prop) : Prop where
  null : P b!"null"
  true : P b!"true"
  false : P b!"false"
  num {t : Bytes} : RNumber t → P t
  str {t : Bytes} : RString t → P t
  array {ts : List Bytes} : (∀ t ∈ ts, P t) → P (c%'[' :: joinComma ts ++ b!"]")
  object {ts : List Bytes} : (∀ t ∈ ts, ∃ k v, t = k ++ c%':' :: v ∧ RString k ∧ P v) → P (c%'{' :: joinComma ts ++ b!"}")
  rfc {t : Bytes} : P t → RValue t

theorem CR.r {k : Kind} {t : Bytes} (h : CR k t) : RG k t := by
  have ws : Ws [] := by intro b hb; cases hb
  induction h with
  | null => exact .null
  | true => exact .true
  | false => exact .false
  | num h => exact .num h
  | str h => exact .str h
  | arr0 => exact .arr0 ws
  | arr _ ih => exact .arr ih
  | obj0 => exact .obj0 ws
  | obj _ ih => exact .obj ih
  | elem _ ih => simpa using RG.elem ws ih ws
  | elemMore _ _ ih ih2 => simpa using RG.elemMore ws ih ws ih2
  | memb hk _ ih => simpa using RG.memb ws hk ws ws ih ws
  | membMore hk _ _ ih ih2 => simpa using RG.membMore ws hk ws ws ih ws ih2

theorem cr_elems {ts : List Bytes} (hne : ts ≠ []) (h : ∀ t ∈ ts, CR .value t) : CR .elems (joinComma ts) := by
  induction ts with
  | nil => exact absurd rfl hne
  | cons t ts ih =>
    cases ts with
    | nil => exact .elem (h t (by simp))
    | cons u ts => exact .elemMore (h t (by simp)) (ih (by simp) fun x hx => h x (by simp [hx]))

theorem cr_members {ts : List Bytes} (hne : ts ≠ []) (h : ∀ t ∈ ts, ∃ k v, t = k ++ c%':' :: v ∧ RString k ∧ CR .value v) :
    CR .members (joinComma ts) := by
  induction ts with
  | nil => exact absurd rfl hne
  | cons t ts ih =>
    obtain ⟨k, v, rfl, hk, hv⟩ := h t (by simp)
    cases ts with
    | nil => exact .memb hk hv
    | cons u ts =>
      have := CR.membMore hk hv (ih (by simp) fun x hx => h x (by simp [hx]))
      simpa [joinComma] using this

theorem jsonLike_compact : JsonLike (CR .value) where
  null := .null
  true := .true
  false := .false
  num := .num
  str := .str
  array {ts} h := by
    by_cases hne : ts = []
    · subst hne; exact .arr0
    · exact .arr (cr_elems hne h)
  object {ts} h := by
    by_cases hne : ts = []
    · subst hne; exact .obj0
    · exact .obj (cr_members hne h)
  rfc h := CR.r h

theorem jsonLike_rfc : JsonLike RValue where
  null := .null
  true := .true
  false := .false
  num := .num
  str := .str
  array := rg_array
  object := rg_object
  rfc h := h

theorem all2_right {α : Type} {P : α → Bytes → Prop} {Q : Bytes → Prop} {vs : List α} {ts : List Bytes}
    (h : All2 P vs ts) (hpq : ∀ v t, P v t → Q t) : ∀ t ∈ ts, Q t := by
  induction h with
  | nil => simp
  | cons h1 _ ih =>
    intro t ht
    rcases List.mem_cons.mp ht with rfl | ht
    · exact hpq _ _ h1
    · exact ih t ht

/-- The value is written as a text of the given set. -/
def WritesJson (P : Bytes → Prop) {α : Type} (em : Emit α) (v : α) : Prop := ∃ t, WritesBack em v t ∧ P t

/-- The value is written as an RFC 8259 string. -/
def WritesString {α : Type} (em : Emit α) (v : α) : Prop := ∃ t, WritesBack em v t ∧ RString t

section
variable {P : Bytes → Prop} (J : JsonLike P)
include J
variable {α C : Type} {S : Ser α} {K : Coll α C}

theorem emitSeq_json {v : C} (h : ∀ x ∈ K.elems v, WritesJson P S.emit x) : WritesJson P (emitSeq K S c%'[' c%']') v := by
  obtain ⟨ts, h⟩ := all2_choose h
  exact ⟨_, emitSeq_back (all2_imp (fun _ _ h => h.1) h), J.array (all2_right h fun _ _ h => h.2)⟩

theorem emitFix_json {vs : List α} (h : ∀ x ∈ vs, WritesJson P S.emit x) : WritesJson P (emitFix S c%'[' c%']') vs := by
  obtain ⟨ts, h⟩ := all2_choose h
  exact ⟨_, emitFix_back (all2_imp (fun _ _ h => h.1) h), J.array (all2_right h fun _ _ h => h.2)⟩

theorem emitDict_json {κ ν C : Type} {K : Coll (κ × ν) C} {SK : Ser κ} {SV : Ser ν} {v : C}
    (hk : ∀ x ∈ K.elems v, WritesString SK.emit x.1) (hv : ∀ x ∈ K.elems v, WritesJson P SV.emit x.2) :
    WritesJson P (dictSer K SK SV).emit v := by
  have h : ∀ x ∈ K.elems v, ∃ t, WritesBack (fieldSer SK SV).emit x t ∧ ∃ k v, t = k ++ c%':' :: v ∧ RString k ∧ P v := by
    intro x hx
    obtain ⟨kt, h1, h2⟩ := hk x hx
    obtain ⟨vt, h3, h4⟩ := hv x hx
    exact ⟨_, emitField_back h1 h3, kt, vt, rfl, h2, h4⟩
  obtain ⟨ts, h⟩ := all2_choose h
  exact ⟨_, emitSeq_back (S := fieldSer SK SV) (all2_imp (fun _ _ h => h.1) h), J.object (all2_right h fun _ _ h => h.2)⟩

end

theorem emitObject_json {P : Bytes → Prop} (J : JsonLike P) {τ : Type} {L : List (Member τ)} {v : τ}
    (h : ∀ m ∈ L, ∃ t, WritesBack m.emit v t ∧ ∃ k x, t = k ++ c%':' :: x ∧ RString k ∧ P x) :
    WritesJson P (emitObject L) v := by
  obtain ⟨ts, h⟩ := all2_choose h
  exact ⟨_, emitObject_back (all2_imp (fun _ _ h => h.1) h), J.object (all2_right h fun _ _ h => h.2)⟩

theorem emitObjectArray_json {P : Bytes → Prop} (J : JsonLike P) {τ : Type} {L : List (AMember τ)} {v : τ} (h : ∀ m ∈ L, WritesJson P m.emit v) :
    WritesJson P (emitObjectArray L) v := by
  obtain ⟨ts, h⟩ := all2_choose h
  exact ⟨_, emitObjectArray_back (all2_imp (fun _ _ h => h.1) h), J.array (all2_right h fun _ _ h => h.2)⟩

theorem emitMember_json {P : Bytes → Prop} {τ : Type} {m : MRef τ} {t : τ} (hn : RChars m.name) (h : WritesJson P m.ser.emit (m.get t)) :
    ∃ x, WritesBack (emitMember m) t x ∧ ∃ k v, x = k ++ c%':' :: v ∧ RString k ∧ P v := by
  obtain ⟨x, h1, h2⟩ := h
  exact ⟨_, emitMember_back h1, quoted m.name, x, rfl, ⟨_, hn, rfl⟩, h2⟩

theorem emitEnum_string {α : Type} [DecidableEq α] (L : List (Bytes × α)) (v : α) (h : ∀ x ∈ L, RChars x.1) :
    WritesString (emitEnum L) v := by
  refine ⟨_, (emitEnum_writes L v).back, enumName L v, ?_, rfl⟩
  by_cases hv : v ∈ L.map Prod.snd
  · exact h _ (enumName_mem hv)
  · rw [enumName_none hv]; exact .nil

theorem rchars_joinSep {sep : Byte} (hs : RChars [sep]) {l : List Bytes} (h : ∀ t ∈ l, RChars t) : RChars (joinSep sep l) := by
  induction l with
  | nil => exact .nil
  | cons t l ih =>
    cases l with
    | nil => exact h t (by simp)
    | cons u l =>
      have := ih fun x hx => h x (by simp [hx])
      exact (h t (by simp)).append (hs.append this)

theorem emitFlags_string {w : Nat} {F : Flags w} (v : BitVec w) (hs : F.sep ≠ c%',') (hs' : RChars [F.sep])
    (h : ∀ x ∈ F.list, RChars x.1) : WritesString (emitFlags F) v := by
  refine ⟨_, (emitFlags_writes F v).back, joinSep F.sep ((F.list.filter fun x => flagOn x.2 v).map fun x => flagText F.sep x.1), ?_, ?_⟩
  · refine rchars_joinSep hs' ?_
    intro t ht
    obtain ⟨x, hx, rfl⟩ := List.mem_map.mp ht
    simp only [flagText, hs, if_false]
    exact h x (List.mem_filter.mp hx).1
  · simp [hs]

theorem emitFlags_json {P : Bytes → Prop} (J : JsonLike P) {w : Nat} {F : Flags w} (v : BitVec w) (hs : F.sep = c%',') (h : ∀ x ∈ F.list, RChars x.1) :
    WritesJson P (emitFlags F) v := by
  refine ⟨_, (emitFlags_writes F v).back, ?_⟩
  simp only [hs, if_true, joinSep_comma]
  refine J.array ?_
  intro t ht
  obtain ⟨x, hx, rfl⟩ := List.mem_map.mp ht
  exact J.str ⟨_, h x (List.mem_filter.mp hx).1, by simp [flagText, quoted]⟩

mutual

theorem JsonValueOf.json {P : Bytes → Prop} (J : JsonLike P) {c : Cfg} : ∀ {α : Type} {S : Ser α} {v : α}, JsonValueOf P c S v → WritesJson P S.emit v
  | _, _, v, .int h1 h2 => ⟨_, Writes.back (emitInt_writes h1 h2), J.num (decimal_rnumber (intText_decimal v))⟩
  | _, _, _, .bool true => ⟨_, (boolSer_rt true).writes.back, J.true⟩
  | _, _, _, .bool false => ⟨_, (boolSer_rt false).writes.back, J.false⟩
  | _, _, v, .float (F := F) (R := R) h1 h2 => ⟨F.fmt v, fun m => by
      have h0 := rnumber_no_nul h1
      simp only [floatSer, emitFloat, floatBuf]
      rw [List.take_of_length_le h2]
      have := List.takeWhile_append_of_pos (l₁ := F.fmt v) (l₂ := []) (p := fun x : Byte => decide (x ≠ 0)) (by simpa using h0)
      rw [show (F.fmt v).takeWhile (fun x : Byte => decide (x ≠ 0)) = F.fmt v by simpa using this, Sink.puts_back], J.num h1⟩
  | _, _, _, .key h => have ⟨t, h1, h2⟩ := h.string J; ⟨t, h1, J.str h2⟩
  | _, _, _, .flags v h1 h2 => emitFlags_json J v h1 h2
  | _, _, v, .raw (.inl h) => ⟨b!"\"\"", fun m => by subst h; simp [rawSer, emitRaw, Sink.puts_back], J.str ⟨[], .nil, rfl⟩⟩
  | _, _, v, .raw (.inr h) => ⟨v, (C41_round_trip c (RG.x (J.rfc h))).writes.back, h⟩
  | _, _, v, .rawUnquoted h => ⟨v, fun m => by simp [rawQuotedSer, emitRawQuoted, Sink.puts_back], h⟩
  | _, _, _, .unquoted h => h.json J
  | _, _, _, .null S => ⟨_, (C42_null S).1, J.null⟩
  | _, _, _, .pointer h => h.json J
  | _, _, _, .memberValue h => h.json J
  | _, _, _, .array h => emitSeq_json J fun x hx => (h x hx).json J
  | _, _, _, .fixed h => emitFix_json J fun x hx => (h x hx).json J
  | _, _, _, .fixedVec h => emitFix_json J fun x hx => (h x hx).json J
  | _, _, _, .dict h h' => emitDict_json J (fun x hx => (h x hx).string J) fun x hx => (h' x hx).json J
  | _, _, _, .object h => emitObject_json J fun m hm => (h m hm).json J
  | _, _, _, .objectArray h => emitObjectArray_json J fun m hm => (h m hm).json J
  | _, _, v, .size h1 h2 h3 h4 h5 => by
    rcases emitSize_text c h1 h2 h3 h4 h5 with ⟨h, _⟩ | ⟨n, u, s, hu, _, _, _, h⟩
    · exact ⟨_, h, J.num (decimal_rnumber (intText_decimal v))⟩
    · exact ⟨_, h, J.str ⟨intText n ++ s, .append (rchars_of_plain (decimal_plain (intText_decimal n))) (rchars_of_plain (sizeText_plain hu)),
        by simp⟩⟩

theorem JsonKeyOf.string {P : Bytes → Prop} (J : JsonLike P) {c : Cfg} : ∀ {α : Type} {S : Ser α} {v : α}, JsonKeyOf P c S v → WritesString S.emit v
  | _, _, v, .str h => ⟨_, Writes.back fun _ => rfl, strBody false v, strBody_rchars v h, rfl⟩
  | _, _, v, .chars h => ⟨_, Writes.back fun _ => rfl, strBody true v, by rw [strBody_nt]; exact strBody_rchars _ h, rfl⟩
  | _, _, _, @JsonKeyOf.enum _ _ _ _ _ _ L v h => emitEnum_string L v h
  | _, _, _, .flags v h1 h2 h3 => emitFlags_string v h1 h2 h3
  | _, _, v, .rawQuoted h => ⟨quoted v, fun m => by
      simp [rawQuotedSer, emitRawQuoted, Sink.put, Sink.puts_back, quoted], v, h, rfl⟩
  | _, _, _, .quoted h => by
    obtain ⟨t, h1, h2⟩ := h.json J
    refine ⟨c%'"' :: strBody false t ++ b!"\"", fun m => ?_, strBody false t, strBody_rchars t (RG.utf8 (J.rfc h2)), rfl⟩
    have h1 := h1 []
    simp only [List.nil_append] at h1
    simp [quotedSer, emitQuoted, h1, strSer, emitStr, Sink.puts_back]
  | _, _, v, .time (fr := fr) h1 h2 h3 h4 => by
    rcases Int.le_total 0 v with h | h
    · obtain ⟨t, h5, h6, _⟩ := emitTime_text c h1 (σ := 1) h2 (.inl rfl) h (by simpa using h3)
      simp only [Int.one_mul] at h5
      exact ⟨_, fun m => by simpa [timeSer] using h5 m, t, rchars_of_plain (timeText_plain h6), rfl⟩
    · have hd : -v % fr = 0 := by
        rcases h4 with h' | h'
        · rw [show v = 0 by omega]; simp
        · exact Int.emod_eq_zero_of_dvd (Int.dvd_neg.mpr (Int.dvd_of_emod_eq_zero h'))
      obtain ⟨t, h5, h6, _⟩ := emitTime_text c h1 (σ := -1) (w := -v) h2 (.inr ⟨rfl, hd⟩) (by omega) (by simpa using h3)
      rw [show (-1 : Int) * -v = v by omega] at h5
      exact ⟨_, fun m => by simpa [timeSer] using h5 m, t, rchars_of_plain (timeText_plain h6), rfl⟩

theorem JsonMemberOf.json {P : Bytes → Prop} (J : JsonLike P) {c : Cfg} : ∀ {τ : Type} {m : Member τ} {t : τ}, JsonMemberOf P c m t →
    ∃ x, WritesBack m.emit t x ∧ ∃ k v, x = k ++ c%':' :: v ∧ RString k ∧ P v
  | _, _, _, .member hn h => emitMember_json hn (h.json J)
  | _, _, _, .memberP hn h => emitMember_json hn (h.json J)
  | _, _, _, .memberL hd hn h => by
    obtain ⟨x, h1, h2⟩ := emitMember_json hn (h.json J)
    exact ⟨x, fun m => by simp [memberIf, hd, h1 m], h2⟩
  | _, _, _, .memberR hd hn h => by
    obtain ⟨x, h1, h2⟩ := emitMember_json hn (h.json J)
    exact ⟨x, fun m => by simp [memberIf, hd, h1 m], h2⟩

theorem JsonAMemberOf.json {P : Bytes → Prop} (J : JsonLike P) {c : Cfg} : ∀ {τ : Type} {m : AMember τ} {t : τ}, JsonAMemberOf P c m t → WritesJson P m.emit t
  | _, _, _, .member h => h.json J
  | _, _, _, .memberP h => h.json J
  | _, _, _, .memberL hd h => by
    obtain ⟨x, h1, h2⟩ := h.json J
    exact ⟨x, fun m => by simp [amemberIf, hd, h1 m], h2⟩
  | _, _, _, .memberR hd h => by
    obtain ⟨x, h1, h2⟩ := h.json J
    exact ⟨x, fun m => by simp [amemberIf, hd, h1 m], h2⟩

end

end Wjson
