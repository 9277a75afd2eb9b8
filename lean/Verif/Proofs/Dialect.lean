import Verif.Spec.Dialect
import Verif.Proofs.Meaning
/-
What a description of `JsonMeans` reads is a value of the dialect.
-/
namespace Wjson
open Spec

theorem KeyMeans.means {c : Cfg} {α : Type} {S : Ser α} {D : Den α} (h : KeyMeans c S D) : Means c S D := by
  cases h with
  | str => exact .str
  | chars => exact .chars
  | quoted h => exact .quoted h
  | enum h _ => exact .enum h

theorem JsonMeans.means {c : Cfg} {α : Type} {S : Ser α} {D : Den α} {raw : Bool} (h : JsonMeans c raw S D) : Means c S D := by
  induction h with
  | int h => exact .int h
  | bool => exact .bool
  | float h => exact .float h
  | key h => exact h.means
  | raw => exact .raw
  | rawUnquoted => exact .rawQuoted
  | size h1 h2 h3 => exact .size h1 h2 h3
  | quoted _ ih => exact .quoted ih
  | memberValue _ ih => exact .memberValue ih
  | array _ ih => exact .array ih
  | stdArray h _ ih => exact .stdArray h ih
  | cArray h _ ih => exact .cArray h ih
  | dict h _ ih => exact .dict h.means ih
  | object h _ ih => exact .object h ih
  | objectArray _ ih => exact .objectArray ih

theorem PlainText.sub {t u : Bytes} (h : PlainText t) (hu : u <:+: t) : PlainText u :=
  ⟨fun b hb => h.ascii b (hu.subset hb), fun hx => h.nohex (hx.trans hu), fun g hg hx => h.nonull g hg (hx.trans hu)⟩

theorem infix_snoc {u r : Bytes} {x b : Byte} (hne : x ≠ b) (h : u ++ [x] <:+: r ++ [b]) : u ++ [x] <:+: r := by
  obtain ⟨a, d, h⟩ := h
  rcases List.eq_nil_or_concat d with rfl | ⟨d', y, rfl⟩
  · rw [List.append_nil, ← List.append_assoc] at h
    have := List.append_inj_right' h rfl
    simp only [List.cons.injEq, and_true] at this
    exact absurd this hne
  · rw [List.concat_eq_append, ← List.append_assoc] at h
    exact ⟨a, d', List.append_inj_left' h rfl⟩

theorem PlainText.snoc {t : Bytes} (h : PlainText t) : PlainText (t ++ b!"}") := by
  refine ⟨?_, fun hx => h.nohex (infix_snoc (u := [c%'\\']) (x := c%'x') (by decide) hx),
    fun g hg hx => h.nonull g hg (infix_snoc (u := b!"null" ++ g) (by decide) hx)⟩
  intro b hb
  rcases List.mem_append.mp hb with hb | hb
  · exact h.ascii b hb
  · simp only [List.mem_singleton] at hb
    subst hb
    decide

theorem infix_mid (a b c : Bytes) : b <:+: a ++ b ++ c := ⟨a, c, rfl⟩

theorem xchars_plain {k : Bytes} (hk : PlainName k) (ha : ∀ b ∈ k, b < 0x80) : XChars k := by
  induction k with
  | nil => exact .nil
  | cons b k ih =>
    have : XChars ([b] ++ k) := by
      refine .cons (.raw ⟨b, 0, [], rfl, .inl ⟨ha b (by simp), rfl⟩, rfl, by simp⟩ ?_ ?_)
        (ih ⟨fun h => hk.1 (by simp [h]), fun h => hk.2 (by simp [h])⟩ fun b hb => ha b (by simp [hb]))
      · intro h; cases h; exact hk.1 (by simp)
      · intro h; cases h; exact hk.2 (by simp)
    exact this

theorem lead_not_ascii {b : Byte} {n : Nat} (hl : LeadLen b n) (h1 : 1 ≤ n) : ¬ b < 0x80 := by
  intro hb
  rcases hl with ⟨_, rfl⟩ | ⟨h, _⟩ | ⟨h, _⟩ | ⟨h, _⟩ | ⟨h, _⟩ | ⟨h, _⟩
  · omega
  all_goals
    rw [UInt8.le_iff_toNat_le] at h
    rw [UInt8.lt_iff_toNat_lt] at hb
    simp at h hb
    omega

theorem xchars_decodes {u v : Bytes} (h : Decodes u v) (ha : ∀ b ∈ u, b < 0x80) (hx : ¬ b!"\\x" <:+: u) : XChars u := by
  induction h with
  | nil => exact .nil
  | @cons u v us vs h1 h2 ih =>
    refine .cons ?_ (ih (fun b hb => ha b (by simp [hb])) fun h => hx (h.trans (List.suffix_append _ _).isInfix))
    cases h1 with
    | @ascii b hb h1 h2 =>
      refine .raw ⟨b, 0, [], rfl, .inl ⟨hb, rfl⟩, rfl, by simp⟩ ?_ ?_
      · intro h; cases h; exact h1 rfl
      · intro h; cases h; exact h2 rfl
    | @multi b n ts hl h1 h2 h3 =>
      exact absurd (ha b (by simp)) (lead_not_ascii hl h1)
    | short h => cases h <;> exact .short (by unfold ShortEscape; decide)
    | uni h1 h2 h3 h4 _ => exact .uni h1 h2 h3 h4
    | ctl h1 h2 h3 h4 _ _ => exact .uni h1 h2 h3 h4
    | @hex a b h1 h2 => exact absurd ⟨[], [a, b] ++ us, rfl⟩ hx

theorem xchars_cut {u v : Bytes} (h : CutUnit u v) (ha : ∀ b ∈ u, b < 0x80) (hx : ¬ b!"\\x" <:+: u) : XChars u := by
  cases h with
  | ctl h1 h2 h3 h4 _ _ _ _ => simpa using XChars.cons (.uni h1 h2 h3 h4) .nil
  | @multi b n ts hl h1 h2 h3 => exact absurd (ha b (by simp)) (lead_not_ascii hl h1)

theorem Spec.XChars.append {s t : Bytes} (hs : XChars s) (ht : XChars t) : XChars (s ++ t) := by
  induction hs with
  | nil => exact ht
  | cons h1 _ ih => rw [List.append_assoc]; exact .cons h1 ih

theorem xchars_decodesIn {n : Nat} {u v : Bytes} (h : DecodesIn n u v) (ha : ∀ b ∈ u, b < 0x80) (hx : ¬ b!"\\x" <:+: u) : XChars u := by
  rcases h with ⟨h, _⟩ | ⟨u1, v1, u2, v2, rfl, _, h1, h2, _⟩
  · exact xchars_decodes h ha hx
  · exact (xchars_decodes h1 (fun b hb => ha b (by simp [hb])) fun h => hx (h.trans (List.prefix_append _ _).isInfix)).append
      (xchars_cut h2 (fun b hb => ha b (by simp [hb])) fun h => hx (h.trans (List.suffix_append _ _).isInfix))

/-- A text that does not begin with white space. -/
def NoWs (t : Bytes) : Prop := ∀ b, t.head? = some b → ¬ WsByte b

theorem Start.noWs {t : Bytes} (h : Start t) : NoWs t := by
  obtain ⟨b, u, rfl, h1, _⟩ := h
  intro b' hb
  cases hb
  exact h1

theorem ws_of_le {b : Byte} : b ≤ 32 → (0x20 ≤ b ∨ WsByte b) → WsByte b := by
  revert b; apply forall_byte; decide +kernel

theorem enum_prefix {c : Cfg} {g r : Bytes} (hg : ∀ b ∈ g, b ≤ 32 ∨ (c.charSigned = true ∧ 128 ≤ b)) (hp : PlainText (g ++ r))
    (hw : NoWs (g ++ r)) : g = [] := by
  cases g with
  | nil => rfl
  | cons b g =>
    exfalso
    have h1 := hp.ascii b (by simp)
    rcases hg b (by simp) with h | ⟨_, h⟩
    · exact hw b rfl (ws_of_le h h1.2)
    · have h1 := h1.1
      rw [UInt8.le_iff_toNat_le] at h
      rw [UInt8.lt_iff_toNat_lt] at h1
      simp at h h1
      omega

theorem PlainText.body {u : Bytes} (h : PlainText (quoted u)) : (∀ b ∈ u, b < 0x80) ∧ ¬ b!"\\x" <:+: u :=
  ⟨fun b hb => (h.ascii b (by simp [quoted, hb])).1, fun hx => h.nohex (hx.trans ⟨[c%'"'], [c%'"'], by simp [quoted]⟩)⟩

theorem intDen_value {c : Cfg} {ty : IntTy} {v0 v : Int} {t : Bytes} (h : IntDen c ty v0 v t) : t = b!"null" ∨ RNumber t := by
  rcases h with ⟨rfl, _⟩ | ⟨x, ⟨m, i, rfl, hm, hi, _⟩, _⟩
  · exact .inl rfl
  · exact .inr ⟨m, i, [], [], by simp, hm, hi, .inl rfl, .inl rfl⟩

theorem KeyMeans.string {c : Cfg} {α : Type} {S : Ser α} {D : Den α} (h : KeyMeans c S D) {v0 v : α} {t : Bytes} (hd : D v0 v t)
    (hp : PlainText t) (hw : NoWs t) : XString t ∨ t = b!"null" := by
  cases h with
  | str =>
    rcases hd with ⟨rfl, _⟩ | ⟨u, rfl, hd⟩
    · exact .inr rfl
    · obtain ⟨h1, h2⟩ := hp.body
      exact .inl ⟨u, xchars_decodes hd h1 h2, by simp [Wjson.quoted]⟩
  | chars =>
    rcases hd with ⟨rfl, _⟩ | ⟨u, w, rfl, hd, _⟩
    · exact .inr rfl
    · obtain ⟨h1, h2⟩ := hp.body
      exact .inl ⟨u, xchars_decodesIn hd h1 h2, by simp [Wjson.quoted]⟩
  | quoted _ =>
    rcases hd with ⟨w, r, ⟨u, rfl, hd⟩ | ⟨_, rfl, _⟩, _⟩ | ⟨h, _⟩
    · obtain ⟨h1, h2⟩ := hp.body
      exact .inl ⟨u, xchars_decodes hd h1 h2, by simp [Wjson.quoted]⟩
    · exact .inr rfl
    · cases h
  | enum _ hn =>
    obtain ⟨g, k, rfl, _, hg, h | h⟩ := hd
    · have := enum_prefix hg hp hw
      subst this
      have hk := hn k (List.mem_map_of_mem (f := Prod.fst) h)
      exact .inl ⟨k, xchars_plain hk fun b hb => (hp.ascii b (by simp [Wjson.quoted, hb])).1, by simp [Wjson.quoted]⟩
    · cases h.1

/-! ### Lists -/

/-- What stands between the brackets of an array. -/
def Elems (r : Bytes) : Prop := (∃ g, Gap g ∧ r = g ++ b!"]") ∨ ∃ u, XG .elems u ∧ r = u ++ b!"]"

/-- What stands between the braces of an object. -/
def Membs (r : Bytes) : Prop := (∃ g, Gap g ∧ r = g ++ b!"}") ∨ ∃ u, XG .members u ∧ r = u ++ b!"}"

theorem Elems.value {r : Bytes} (h : Elems r) : XValue (c%'[' :: r) := by
  rcases h with ⟨g, h, rfl⟩ | ⟨u, h, rfl⟩
  · exact .arr0 h
  · exact .arr h

theorem Membs.value {r : Bytes} (h : Membs r) : XValue (c%'{' :: r) := by
  rcases h with ⟨g, h, rfl⟩ | ⟨u, h, rfl⟩
  · exact .obj0 h
  · exact .obj h

theorem Elems.last {g1 t g2 : Bytes} (h1 : Gap g1) (ht : XValue t) (h2 : Gap g2) : Elems (g1 ++ t ++ g2 ++ b!"]") :=
  .inr ⟨_, .elem h1 ht h2, rfl⟩

theorem Elems.more {g1 t g2 r : Bytes} (h1 : Gap g1) (ht : XValue t) (h2 : Gap g2) (hr : Elems r) :
    Elems (g1 ++ t ++ g2 ++ c%',' :: r) := by
  rcases hr with ⟨g, h, rfl⟩ | ⟨u, h, rfl⟩
  · exact .inr ⟨_, .elemTrail h1 ht h2 h, by simp⟩
  · exact .inr ⟨_, .elemMore h1 ht h2 h, by simp⟩

theorem Membs.last {g0 k g1 g2 v g3 : Bytes} (h0 : Gap g0) (hk : XString k) (h1 : Gap g1) (h2 : Gap g2) (hv : XValue v) (h3 : Gap g3) :
    Membs (g0 ++ (k ++ (g1 ++ c%':' :: (g2 ++ (v ++ (g3 ++ b!"}")))))) :=
  .inr ⟨_, .memb h0 hk h1 h2 hv h3, by simp⟩

theorem Membs.more {g0 k g1 g2 v g3 r : Bytes} (h0 : Gap g0) (hk : XString k) (h1 : Gap g1) (h2 : Gap g2) (hv : XValue v) (h3 : Gap g3)
    (hr : Membs r) : Membs (g0 ++ (k ++ (g1 ++ c%':' :: (g2 ++ (v ++ (g3 ++ c%',' :: r)))))) := by
  rcases hr with ⟨g, h, rfl⟩ | ⟨u, h, rfl⟩
  · exact .inr ⟨_, .membTrail h0 hk h1 h2 hv h3 h, by simp⟩
  · exact .inr ⟨_, .membMore h0 hk h1 h2 hv h3 h, by simp⟩

/-- The part of a text between two others. -/
theorem infix_item (g1 t x : Bytes) : t <:+: g1 ++ t ++ x := ⟨g1, x, rfl⟩

theorem elems_of_items {α : Type} {item : α → Bytes → Prop} {vs : List α} {r : Bytes} (h : ItemsText item c%']' vs r)
    (hv : ∀ v t, item v t → Start t → t <:+: r → XValue t) : Elems r := by
  induction h with
  | close h => exact .inl ⟨_, h, rfl⟩
  | @last g1 v t g2 h1 h2 h3 h4 => exact .last h1 (hv v t h3 h2 ⟨g1, g2 ++ b!"]", by simp⟩) h4
  | @more g1 v t g2 vs r h1 h2 h3 h4 h5 ih =>
    refine .more h1 (hv v t h3 h2 ⟨g1, g2 ++ c%',' :: r, by simp⟩) h4 (ih fun v' t' hi hs ht => hv v' t' hi hs (ht.trans ?_))
    exact ⟨g1 ++ t ++ g2 ++ [c%','], [], by simp⟩

theorem elems_of_items1 {vs : List Bytes} {r : Bytes} (h : Items1 (fun v t => v = t) c%']' vs r)
    (hv : ∀ t ∈ vs, Start t → t <:+: r → XValue t) : Elems r := by
  induction h with
  | @last g1 v t g2 h1 h2 h3 h4 =>
    subst h3
    exact .last h1 (hv v (by simp) h2 ⟨g1, g2 ++ b!"]", by simp⟩) h4
  | @more g1 v t g2 vs r h1 h2 h3 h4 h5 ih =>
    subst h3
    refine .more h1 (hv v (by simp) h2 ⟨g1, g2 ++ c%',' :: r, by simp⟩) h4 (ih fun t hi hs ht => hv t (by simp [hi]) hs (ht.trans ?_))
    exact ⟨g1 ++ v ++ g2 ++ [c%','], [], by simp⟩

theorem elems_of_comma {vs : List Bytes} {r g : Bytes} (h : ItemsComma (fun v t => v = t) vs r) (hg : Gap g)
    (hv : ∀ t ∈ vs, Start t → t <:+: r → XValue t) : Elems (r ++ g ++ b!"]") := by
  induction h with
  | nil => exact .inl ⟨g, hg, rfl⟩
  | @cons g1 v t g2 vs r h1 h2 h3 h4 h5 ih =>
    subst h3
    have := Elems.more h1 (hv v (by simp) h2 ⟨g1, g2 ++ c%',' :: r, by simp⟩) h4
      (ih fun t hi hs ht => hv t (by simp [hi]) hs (ht.trans ⟨g1 ++ v ++ g2 ++ [c%','], [], by simp⟩))
    simpa using this

theorem elems_of_fix {α : Type} {fresh : α → α} {D : Den α} {vs vs' : List α} {r : Bytes} (h : FixDen fresh D vs vs' r)
    (hv : ∀ v v' t, D v v' t → Start t → t <:+: r → XValue t) : Elems r := by
  induction h with
  | full => exact .inl ⟨[], .nil, rfl⟩
  | close h => exact .inl ⟨_, h, rfl⟩
  | @last v v' vs g1 t g2 h1 h2 h3 h4 => exact .last h1 (hv _ _ t h3 h2 ⟨g1, g2 ++ b!"]", by simp⟩) h4
  | @more v v' vs vs' g1 t g2 r h1 h2 h3 h4 h5 ih =>
    refine .more h1 (hv _ _ t h3 h2 ⟨g1, g2 ++ c%',' :: r, by simp⟩) h4 (ih fun w w' t' hi hs ht => hv w w' t' hi hs (ht.trans ?_))
    exact ⟨g1 ++ t ++ g2 ++ [c%','], [], by simp⟩

theorem membs_of_items {κ ν : Type} {DK : Den κ} {DV : Den ν} {v0 : κ × ν} {vs : List (κ × ν)} {r : Bytes}
    (h : ItemsText (FieldDen DK DV v0) c%'}' vs r)
    (hk : ∀ v t x g, DK v0.1 v t → NoWs t → Gap g → t ++ g ++ c%':' :: x <:+: r → XString t)
    (hv : ∀ v t, DV v0.2 v t → Start t → t <:+: r → XValue t) (hne : ∀ v t, DK v0.1 v t → t ≠ []) : Membs r := by
  have noWs : ∀ {tk x : Bytes}, tk ≠ [] → Start (tk ++ x) → NoWs tk := by
    intro tk x hne hs b hb
    cases tk with
    | nil => exact absurd rfl hne
    | cons b' tk =>
      obtain ⟨b2, u, h1, h2, _⟩ := hs
      cases h1
      cases hb
      exact h2
  induction h with
  | close h => exact .inl ⟨_, h, rfl⟩
  | @last g1 v t g2 h1 h2 h3 h4 =>
    obtain ⟨tk, ga, gb, tv, rfl, ha, hb, hs, h5, h6⟩ := h3
    have kk := hk _ _ (gb ++ tv) _ h5 (noWs (hne _ _ h5) h2) ha ⟨g1, g2 ++ b!"}", by simp⟩
    have vv := hv _ _ h6 hs ⟨g1 ++ tk ++ ga ++ c%':' :: gb, g2 ++ b!"}", by simp⟩
    have := Membs.last h1 kk ha hb vv h4
    simpa using this
  | @more g1 v t g2 vs r h1 h2 h3 h4 h5 ih =>
    obtain ⟨tk, ga, gb, tv, rfl, ha, hb, hs, h6, h7⟩ := h3
    have kk := hk _ _ (gb ++ tv) _ h6 (noWs (hne _ _ h6) h2) ha ⟨g1, g2 ++ c%',' :: r, by simp⟩
    have vv := hv _ _ h7 hs ⟨g1 ++ tk ++ ga ++ c%':' :: gb, g2 ++ c%',' :: r, by simp⟩
    have hsub : r <:+: g1 ++ (tk ++ (ga ++ c%':' :: (gb ++ tv))) ++ g2 ++ c%',' :: r :=
      ⟨g1 ++ (tk ++ (ga ++ c%':' :: (gb ++ tv))) ++ g2 ++ [c%','], [], by simp⟩
    have := Membs.more h1 kk ha hb vv h4
      (ih (fun v t x g a b c d => hk v t x g a b c (d.trans hsub)) fun v t a b c => hv v t a b (c.trans hsub))
    simpa using this

theorem membs_of_from {items : List (Bytes × Bytes)} {r : Bytes} (h : ItemsFrom items r)
    (hk : ∀ x ∈ items, x.1 <:+: r → XChars x.1) (hv : ∀ x ∈ items, Start x.2 → x.2 <:+: r → XValue x.2) :
    ∀ g, Gap g → Membs (g ++ r) ∧ ∀ r0 g', r = r0 ++ b!"}" → Gap g' → Membs (g ++ (r0 ++ c%',' :: (g' ++ b!"}"))) := by
  induction h with
  | @one k g1 g2 v g3 h1 h2 h3 h4 =>
    intro g hg
    have kk : XString (quoted k) := ⟨k, hk (k, v) (by simp) ⟨[c%'"'], c%'"' :: (g1 ++ c%':' :: (g2 ++ (v ++ (g3 ++ b!"}")))), by simp [quoted]⟩, by simp [quoted]⟩
    have vv : XValue v := hv (k, v) (by simp) h3 ⟨quoted k ++ (g1 ++ c%':' :: g2), g3 ++ b!"}", by simp⟩
    refine ⟨Membs.last hg kk h1 h2 vv h4, ?_⟩
    intro r0 g' hr hg'
    have hr0 : r0 = quoted k ++ (g1 ++ c%':' :: (g2 ++ (v ++ g3))) := by
      refine List.append_cancel_right (bs := b!"}") ?_
      rw [← hr]; simp
    subst hr0
    have := Membs.more hg kk h1 h2 vv h4 (.inl ⟨g', hg', rfl⟩)
    simpa using this
  | @more k g1 g2 v g3 g4 items r h1 h2 h3 h4 h5 h6 ih =>
    intro g hg
    have kk : XString (quoted k) := ⟨k, hk (k, v) (by simp)
      ⟨[c%'"'], c%'"' :: (g1 ++ c%':' :: (g2 ++ (v ++ (g3 ++ c%',' :: (g4 ++ r))))), by simp [quoted]⟩, by simp [quoted]⟩
    have vv : XValue v := hv (k, v) (by simp) h3 ⟨quoted k ++ (g1 ++ c%':' :: g2), g3 ++ c%',' :: (g4 ++ r), by simp⟩
    have hsub : r <:+: quoted k ++ (g1 ++ c%':' :: (g2 ++ (v ++ (g3 ++ c%',' :: (g4 ++ r))))) :=
      ⟨quoted k ++ (g1 ++ c%':' :: (g2 ++ (v ++ (g3 ++ c%',' :: g4)))), [], by simp⟩
    obtain ⟨i1, i2⟩ := ih (fun x hx h => hk x (by simp [hx]) (h.trans hsub)) (fun x hx a b => hv x (by simp [hx]) a (b.trans hsub)) g4 h5
    refine ⟨Membs.more hg kk h1 h2 vv h4 i1, ?_⟩
    intro r0 g' hr hg'
    obtain ⟨r1, hr1, _⟩ := itemsThen_of_from h6
    have hr0 : r0 = quoted k ++ (g1 ++ c%':' :: (g2 ++ (v ++ (g3 ++ c%',' :: (g4 ++ r1))))) := by
      refine List.append_cancel_right (bs := b!"}") ?_
      rw [← hr, hr1]; simp
    subst hr0
    have := Membs.more hg kk h1 h2 vv h4 (i2 r1 g' hr1 hg')
    simpa using this

theorem run_items {τ : Type} {strict : Bool} {L l : List (DEntry τ)} {items : List (Bytes × Bytes)} {t t' : τ}
    {o : Option (List (DEntry τ))} (h : Run strict L l items t t' o) (hl : ∀ d ∈ l, d ∈ L) :
    ∀ x ∈ items, (∃ d ∈ L, x.1 = d.name ∧ ∃ t t1, d.stores t t1 x.2) ∨ Skippable x := by
  induction h with
  | done => intro x hx; cases hx
  | @next d cur s items t t1 t2 r h1 h2 ih =>
    intro x hx
    rcases List.mem_cons.mp hx with rfl | hx
    · exact .inl ⟨d, hl d (by simp), rfl, _, _, h1⟩
    · exact ih (fun d hd => hl d (by simp [hd])) x hx
  | @other d d' cur s items t t1 t2 r h0 h1 h2 h3 ih =>
    intro x hx
    rcases List.mem_cons.mp hx with rfl | hx
    · exact .inl ⟨d', h0, rfl, _, _, h2⟩
    · exact ih hl x hx
  | @unknown d cur k s items t t2 r h0 h1 h2 h3 ih =>
    intro x hx
    rcases List.mem_cons.mp hx with rfl | hx
    · exact .inr h2
    · exact ih hl x hx
  | rest h0 h1 => intro x hx; exact .inr (h1 x hx)

theorem positional_items {τ : Type} {L : List (DEntry τ)} {ts : List Bytes} {t t' : τ} (h : Positional L ts t t') :
    ∀ x ∈ ts, ∃ d ∈ L, ∃ t t1, d.stores t t1 x := by
  induction h with
  | nil => intro x hx; cases hx
  | @cons d L s ss t t1 t2 h1 h2 ih =>
    intro x hx
    rcases List.mem_cons.mp hx with rfl | hx
    · exact ⟨d, by simp, _, _, h1⟩
    · obtain ⟨d, hd, h⟩ := ih x hx
      exact ⟨d, by simp [hd], h⟩

/-! ### All descriptions -/

theorem JsonMeans.value {c : Cfg} {α : Type} {S : Ser α} {D : Den α} {raw : Bool} (h : JsonMeans c raw S D) {v0 v : α} {t : Bytes} (hd : D v0 v t)
    (hp : PlainText t) (hw : NoWs t) : XValue t := by
  induction h generalizing t with
  | int h =>
    rcases intDen_value hd with rfl | h
    · exact .null
    · exact .num h
  | bool =>
    rcases hd with ⟨rfl, _⟩ | ⟨rfl, _⟩ | ⟨rfl, _⟩
    · exact .true
    · exact .false
    · exact .null
  | float h =>
    rcases hd with ⟨rfl, _⟩ | ⟨h, _⟩
    · exact .null
    · exact .num h
  | key h =>
    rcases h.string hd hp hw with h | rfl
    · exact .str h
    · exact .null
  | raw => exact hd.1
  | rawUnquoted =>
    obtain ⟨h1, rfl⟩ := hd
    exact h1
  | size =>
    rcases hd with hd | ⟨u, w, n, x, r, rfl, hd, _⟩
    · rcases intDen_value hd with rfl | h
      · exact .null
      · exact .num h
    · obtain ⟨h1, h2⟩ := hp.body
      exact .str ⟨u, xchars_decodesIn hd h1 h2, by simp [Wjson.quoted]⟩
  | quoted _ ih =>
    rcases hd with ⟨w, r, ⟨u, rfl, hd⟩ | ⟨_, rfl, _⟩, _⟩ | ⟨_, _, h⟩
    · obtain ⟨h1, h2⟩ := hp.body
      exact .str ⟨u, xchars_decodes hd h1 h2, by simp [Wjson.quoted]⟩
    · exact .null
    · exact ih h hp hw
  | memberValue _ ih =>
    obtain ⟨x, h, _⟩ := hd
    exact ih h hp hw
  | array _ ih =>
    rcases hd with ⟨rfl, _⟩ | ⟨vs, r, rfl, h, _⟩
    · exact .null
    · refine (elems_of_items h fun v t hi hs ht => ih hi (hp.sub (ht.trans (List.suffix_cons _ _).isInfix)) hs.noWs).value
  | stdArray _ _ ih =>
    rcases hd with ⟨rfl, _⟩ | ⟨r, rfl, h⟩
    · exact .null
    · refine (elems_of_fix h fun v v' t hi hs ht => ih hi (hp.sub (ht.trans (List.suffix_cons _ _).isInfix)) hs.noWs).value
  | cArray _ _ ih =>
    rcases hd with ⟨rfl, _⟩ | ⟨r, rfl, h⟩
    · exact .null
    · refine (elems_of_fix h fun v v' t hi hs ht => ih hi (hp.sub (ht.trans (List.suffix_cons _ _).isInfix)) hs.noWs).value
  | dict hk hv ih =>
    rcases hd with ⟨rfl, _⟩ | ⟨vs, r, rfl, h, _⟩
    · exact .null
    · have hsub : ∀ {t}, t <:+: r → t <:+: c%'{' :: r := fun h => h.trans (List.suffix_cons _ _).isInfix
      refine (membs_of_items h ?_ (fun v t hi hs ht => ih hi (hp.sub (hsub ht)) hs.noWs) ?_).value
      · intro v t x g hd hw hg hi
        have hp' := hp.sub (hsub hi)
        rcases hk.string hd (hp'.sub ⟨[], g ++ c%':' :: x, by simp⟩) hw with h | rfl
        · exact h
        · exact absurd ⟨[], x, by simp⟩ (hp'.nonull g hg)
      · intro v t hd h0
        obtain ⟨b, _, hb, _⟩ := hk.means.exact.head hd
        rw [h0] at hb
        cases hb
  | @object τ strict dflt L hg hS ih =>
    have hnames : names (L.map DEntry.entry) = L.map DEntry.name := by simp [names, DEntry.name]
    have hpl : ∀ d ∈ L, PlainName d.name := fun d hd => hg.plain d.name (by rw [hnames]; exact List.mem_map_of_mem hd)
    have hkey : ∀ {items : List (Bytes × Bytes)} {r t t' o}, Run strict L L items t t' o → PlainText r →
        (∀ x ∈ items, x.1 <:+: r → XChars x.1) ∧ ∀ x ∈ items, Start x.2 → x.2 <:+: r → XValue x.2 := by
      intro items r t t' o hrun hp
      refine ⟨fun x hx hi => ?_, fun x hx hs hi => ?_⟩
      · rcases run_items hrun (fun _ h => h) x hx with ⟨d, hd, he, _⟩ | h
        · rw [he] at hi ⊢
          exact xchars_plain (hpl d hd) fun b hb => (hp.ascii b (hi.subset hb)).1
        · exact h.1
      · rcases run_items hrun (fun _ h => h) x hx with ⟨d, hd, _, t, t1, y, hy, _⟩ | h
        · exact ih d hd hy (hp.sub hi) hs.noWs
        · exact h.2
    rcases hd with ⟨rfl, _⟩ | ⟨g, rfl, hg, _⟩ | ⟨items, o, h1, h2⟩ | ⟨items, h1, h2⟩
    · exact .null
    · exact .arr0 hg
    · cases h1 with
      | empty h => exact .obj0 h
      | @items g _ r hg hi =>
        obtain ⟨hk, hv⟩ := hkey h2 (hp.sub (u := r) ⟨c%'{' :: g, [], by simp⟩)
        exact (membs_of_from hi hk hv g hg).1.value
    · cases h1 with
      | @mk r g hobj hne hg =>
        generalize hw : r ++ b!"}" = w at hobj
        cases hobj with
        | empty => exact absurd rfl hne
        | @items g1 _ r1 hg1 hi =>
          obtain ⟨r0, hr1, _⟩ := itemsThen_of_from hi
          subst hr1
          have hr : r = c%'{' :: (g1 ++ r0) := by
            refine List.append_cancel_right (bs := b!"}") ?_
            rw [hw]
            simp
          subst hr
          have hp' : PlainText (r0 ++ b!"}") := by
            have : PlainText r0 := hp.sub ⟨c%'{' :: g1, c%',' :: (g ++ b!"}"), by simp⟩
            exact this.snoc
          obtain ⟨hk, hv⟩ := hkey h2 hp'
          have := ((membs_of_from hi hk hv g1 hg1).2 r0 g rfl hg).value
          simpa using this
  | @objectArray τ dflt L hS ih =>
    have hval : ∀ {L1 ts t t' r}, (∀ d ∈ L1, d ∈ L) → Positional L1 ts t t' → PlainText r →
        ∀ x ∈ ts, Start x → x <:+: r → XValue x := by
      intro L1 ts t t' r hL hpos hp x hx hs hi
      obtain ⟨d, hd, t, t1, y, hy, _⟩ := positional_items hpos x hx
      exact ih d (hL d hd) hy (hp.sub hi) hs.noWs
    rcases hd with ⟨rfl, _⟩ | ⟨g, rfl, hg, _⟩ | ⟨L1, L2, ts, r, rfl, rfl, h1, h2⟩ | ⟨ts, r, g, rfl, _, h1, h2, h3⟩
    · exact .null
    · exact .arr0 hg
    · exact (elems_of_items1 h1 (hval (fun d hd => by simp [hd]) h2 (hp.sub (List.suffix_cons _ _).isInfix))).value
    · exact (elems_of_comma h1 h2 (hval (fun d hd => hd) h3 (hp.sub ⟨[c%'['], g ++ b!"]", by simp⟩))).value

end Wjson
