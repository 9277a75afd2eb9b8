import Verif.Proofs.FaultsStr
/-
C75: the errors in the text of a scalar: exactly which, with code, expected token
and position.
-/
namespace Wjson
open Spec

/-- C75. Integers: the errors reported are exactly those of the table. -/
theorem C75_int (c : Cfg) (ty : IntTy) (v0 : Int) (s : Bytes) (x : JError) :
    Reports (intSer c ty).de v0 s x ↔ IntFault s x :=
  reports_iff (fun _ => int_sound c ty v0) (int_dich c ty v0 s)

/-- C75. Integers: where the table has no error, none is reported. -/
theorem C75_int_quiet (c : Cfg) (ty : IntTy) (v0 : Int) (s : Bytes) :
    Quiet (intSer c ty).de v0 s ↔ ∀ x, ¬ IntFault s x :=
  quiet_iff (fun _ h => (int_sound c ty v0 h).tells) (int_dich c ty v0 s)

/-- C75. `bool`. -/
theorem C75_bool (v0 : Bool) (s : Bytes) (x : JError) : Reports boolSer.de v0 s x ↔ BoolFault s x :=
  reports_iff (fun _ => bool_sound v0) (bool_dich v0 s)

theorem C75_bool_quiet (v0 : Bool) (s : Bytes) : Quiet boolSer.de v0 s ↔ ∀ x, ¬ BoolFault s x :=
  quiet_iff (fun _ h => (bool_sound v0 h).tells) (bool_dich v0 s)

/-- C75. Floating point numbers. -/
theorem C75_float {α : Type} (F : FloatTy α) (R : Int) (v0 : α) (s : Bytes) (x : JError) :
    Reports (floatSer F R).de v0 s x ↔ FloatFault s x :=
  reports_iff (fun _ => float_sound F R v0) (float_dich F R v0 s)

theorem C75_float_quiet {α : Type} (F : FloatTy α) (R : Int) (v0 : α) (s : Bytes) :
    Quiet (floatSer F R).de v0 s ↔ ∀ x, ¬ FloatFault s x :=
  quiet_iff (fun _ h => (float_sound F R v0 h).tells) (float_dich F R v0 s)

/-- C75. Strings: the errors reported are exactly those of the table, for strings of
up to 2147483647 bytes. -/
theorem C75_string (v0 s : Bytes) (x : JError) : Tells strSer.de v0 s x ↔ StrFault 2147483647 s x :=
  tells_iff (fun _ => str_sound v0) (str_dich v0 s)

theorem C75_string_quiet (v0 s : Bytes) : Quiet strSer.de v0 s ↔ ∀ x, ¬ StrFault 2147483647 s x :=
  quiet_iff (fun _ => str_sound v0) (str_dich v0 s)

/-- C75. Strings in a `char[N]`. -/
theorem C75_chars (N : Nat) (v0 s : Bytes) (x : JError) : Tells (charArraySer N).de v0 s x ↔ StrFault N s x :=
  tells_iff (fun _ => chars_sound N v0) (chars_dich N v0 s)

theorem C75_chars_quiet (N : Nat) (v0 s : Bytes) : Quiet (charArraySer N).de v0 s ↔ ∀ x, ¬ StrFault N s x :=
  quiet_iff (fun _ => chars_sound N v0) (chars_dich N v0 s)

/-- C75. Enumerators. -/
theorem C75_enum {α : Type} [DecidableEq α] (c : Cfg) (strict : Bool) (dflt : α) (L : List (Bytes × α)) (v0 : α)
    (s : Bytes) (x : JError) :
    Reports (enumSer c strict dflt L).de v0 s x ↔ EnumFault (lowByte c.charSigned) strict L s x := by
  rw [show lowByte c.charSigned = leSpace c from funext fun b => by simp [lowByte, leSpace]]
  exact reports_iff (fun _ => enum_sound c strict dflt L v0) (enum_dich c strict dflt L v0 s)

theorem C75_enum_quiet {α : Type} [DecidableEq α] (c : Cfg) (strict : Bool) (dflt : α) (L : List (Bytes × α)) (v0 : α)
    (s : Bytes) :
    Quiet (enumSer c strict dflt L).de v0 s ↔ ∀ x, ¬ EnumFault (lowByte c.charSigned) strict L s x := by
  rw [show lowByte c.charSigned = leSpace c from funext fun b => by simp [lowByte, leSpace]]
  exact quiet_iff (fun _ h => (enum_sound c strict dflt L v0 h).tells) (enum_dich c strict dflt L v0 s)

/-- C75. Each text has at most one of the errors. -/
theorem C75_one {n : Nat} {s : Bytes} {x x' : JError} (h : StrFault n s x) (h' : StrFault n s x') : x = x' :=
  (chars_sound n [] h).unique (chars_sound n [] h')

/-- C75. Deviation: after a wrong digit in `\u` or `\x` a string is read to its end, so
that what follows it is left over although an error is reported, and the position
reported is the end of the text. -/
theorem C75_hex_goes_on : ∃ s v p x, StrFault 2147483647 s x ∧ p ≠ [] ∧ x.tailOf = 0 ∧
    strSer.de [] s (.obj {}) = .ok (v, p, .obj x) := by
  have hs : strStep c%'\\' b!"uz041ab\",1]" 2147483647 (.obj {}) =
      (b!"A", b!"ab\",1]", 2147483646, .obj ⟨.InvalidString, none, 0⟩) := by decide +kernel
  have ha : ∀ e, strStep c%'a' b!"b\",1]" 2147483646 e = (b!"a", b!"b\",1]", 2147483645, e) := fun _ => rfl
  have hb : ∀ e, strStep c%'b' b!"\",1]" 2147483645 e = (b!"b", b!"\",1]", 2147483644, e) := fun _ => rfl
  have hd : strDec b!"\\uz041ab\",1]" 2147483647 (.obj {}) = (b!"Aab", b!",1]", .obj ⟨.InvalidString, none, 0⟩) := by
    rw [strDec.eq_def]
    simp only [hs]
    rw [strDec.eq_def]
    simp only [ha]
    rw [strDec.eq_def]
    simp only [hb]
    rw [strDec.eq_def]
    rfl
  refine ⟨b!"\"\\uz041ab\",1]", b!"Aab", b!",1]", ⟨.InvalidString, none, 0⟩, ?_, by decide, rfl, ?_⟩
  · exact .body (.hexDigit (x := c%'u') (k := 4) (ds := []) (b := c%'z') (by omega) (.inl ⟨rfl, rfl⟩) (by decide) (by decide)
      (by decide))
  · simp only [strSer, deStr, unserializeStr, intMax, hd, Sink.puts_back]
    rfl

/-! ### Cases -/

example : Reports (intSer Cfg.strict IntTy.int).de 7 b!"-x" ⟨.InvalidNumber, none, 1⟩ :=
  (C75_int ..).mpr (.minus (t := b!"x") (by simp; decide))
example : Quiet (intSer Cfg.strict IntTy.int).de 7 b!"-1x" := by
  rcases int_dich Cfg.strict IntTy.int 7 b!"-1x" with ⟨x, h⟩ | h
  · have := int_sound Cfg.strict IntTy.int 7 h {} rfl
    exact absurd this (by rw [show (intSer Cfg.strict IntTy.int).de 7 b!"-1x" (.obj {}) = .ok (-1, b!"x", .obj {}) by decide +kernel]; simp)
  · exact h
example : Reports boolSer.de false b!"tru" endErr := (C75_bool ..).mpr (.true (.cut (w := b!"e") rfl (by decide) (by decide)))
example : Reports boolSer.de false b!"falze" ⟨.ExpectedOf, some b!"false", 3⟩ :=
  (C75_bool ..).mpr (.false (.letter (a := b!"fal") (d := c%'s') (w := b!"e") (b := c%'z') (r := b!"e") rfl (by decide) (by decide)))
example : Tells (charArraySer 3).de b!"abc" b!"\"xyzw\"" (expectAt b!"\"" b!"w\"") :=
  (C75_chars ..).mpr (.body (.step (u := b!"x") (w := b!"x") (.ascii (by decide) (by decide) (by decide)) (by decide)
    (.step (u := b!"y") (w := b!"y") (.ascii (by decide) (by decide) (by decide)) (by decide)
    (.step (u := b!"z") (w := b!"z") (.ascii (by decide) (by decide) (by decide)) (by decide) (.full (by decide))))))
example : Tells strSer.de [] b!"\"\\q\"" (errAt .InvalidString b!"q\"") :=
  (C75_string ..).mpr (.body (.escape (by omega) (by intro y h; cases h) (by decide) (by decide)))
example : Reports (enumSer Cfg.strict true 0 [(b!"on", 1), (b!"off", 2)]).de 0 b!" \"of\"" (errAt .InvalidEnum b!"of\"") :=
  (C75_enum ..).mpr (.name (g := b!" ") (k := b!"of") (t := []) rfl (by simp [lowByte]) (by decide) (by simp))
example : FloatFault b!"-x" ⟨.InvalidNumber, none, 0⟩ :=
  .digit (n := b!"-") (b := c%'x') (r := []) ⟨⟨c%'-', by decide, by decide⟩, fun d hd => by
      refine ⟨b!"-", [d], [], [], rfl, .inr rfl, ?_, .inl rfl, .inl rfl⟩
      revert hd
      revert d
      simp only [Digit, RInt, Digit19]
      intro d hd
      by_cases h : d = c%'0'
      · exact .inl (by rw [h])
      · refine .inr ⟨d, [], rfl, ⟨?_, hd.2⟩, by simp⟩
        have := hd.1
        rw [UInt8.le_iff_toNat_le] at this ⊢
        have h' : d.toNat ≠ 48 := fun hh => h (UInt8.toNat_inj.mp hh)
        simp at this ⊢
        omega⟩ (by decide)
    (fun h => by obtain ⟨⟨z, h1, h2⟩, _⟩ := h; simp at h1; subst h1; exact absurd h2 (by decide))

end Wjson
