import Verif.Proofs.Alternatives
import Verif.Proofs.Dialect
/-
Descriptions with alternatives accept nothing but JSON of the dialect.
-/
namespace Wjson
open Spec

theorem AltJson.means {c : Cfg} {raw : Bool} {α : Type} {S : Ser α} {D : Den α} (h : AltJson c raw S D) : AltMeaning c true S D := by
  induction h with
  | base h => exact .base h.means
  | quoted _ ih => exact .quoted ih
  | memberValue _ ih => exact .memberValue ih
  | array _ ih => exact .array ih
  | stdArray h _ ih => exact .stdArray h ih
  | cArray h _ ih => exact .cArray h ih
  | dict h _ ih => exact .dict (.base h.means) ih
  | object hn _ _ _ h4 h5 ih1 ih2 ih3 =>
    exact .object (f := fun _ => true) (g := fun _ => true) (fun d hd => ⟨(hn d hd).1.1, (hn d hd).2⟩) ih1 ih2 ih3 h4 h5
  | objectArray _ _ _ h4 h5 ih1 ih2 ih3 => exact .objectArray (f := fun _ => true) (g := fun _ => true) ih1 ih2 ih3 h4 h5

/-- The text of a place is a text of one of its members. -/
theorem slot_value {τ : Type} {P : Prop} {d : DSlot τ} {t t1 : τ} {s : Bytes} (h : d.stores t t1 s)
    (h1 : ∀ x, d = .one x → ∀ v0 v, x.den v0 v s → P) (h2 : ∀ l r i RU Dl Dr ex, d = .alt l r i RU Dl Dr ex → ∀ v0 v, Dl v0 v s → P)
    (h3 : ∀ l r i RU Dl Dr ex, d = .alt l r i RU Dl Dr ex → ∀ v0 v, Dr v0 v s → P) : P := by
  cases d with
  | one d =>
    obtain ⟨x, hx, _⟩ := h
    exact h1 d rfl _ _ hx
  | alt l r i RU Dl Dr ex =>
    cases RU with
    | false =>
      rcases h with ⟨x, hx, _⟩ | ⟨_, _, x, _, _, hx, _⟩
      · exact h2 _ _ _ _ _ _ _ rfl _ _ hx
      · exact h3 _ _ _ _ _ _ _ rfl _ _ hx
    | true =>
      rcases h with ⟨x, hx, _⟩ | ⟨_, _, x, _, _, hx, _⟩
      · exact h3 _ _ _ _ _ _ _ rfl _ _ hx
      · exact h2 _ _ _ _ _ _ _ rfl _ _ hx

theorem slotRun_items {τ : Type} {strict : Bool} {L l : List (DSlot τ)} {items : List (Bytes × Bytes)} {t t' : τ}
    {o : Option (List (DSlot τ))} (h : SlotRun strict L l items t t' o) (hl : ∀ d ∈ l, d ∈ L) :
    ∀ x ∈ items, (∃ d ∈ L, x.1 = d.name ∧ ∃ t t1, d.stores t t1 x.2) ∨ Skippable x := by
  induction h with
  | done => intro x hx; cases hx
  | @next d cur s items t t1 t2 r h1 h2 ih =>
    intro x hx
    rcases List.mem_cons.mp hx with rfl | hx
    · exact .inl ⟨d, hl d (by simp), rfl, _, _, h1⟩
    · exact ih (fun d hd => hl d (by simp [hd])) x hx
  | @other d d' cur L1 L2 s items t t0 t1 t2 t3 r h0 _ _ _ _ h2 h3 ih =>
    intro x hx
    rcases List.mem_cons.mp hx with rfl | hx
    · exact .inl ⟨d', by rw [h0]; simp, rfl, _, _, h2⟩
    · exact ih hl x hx
  | @unknown d cur k s items t t0 t1 t2 r h0 h1 h2 _ _ h3 ih =>
    intro x hx
    rcases List.mem_cons.mp hx with rfl | hx
    · exact .inr h2
    · exact ih hl x hx
  | rest h0 h1 => intro x hx; exact .inr (h1 x hx)

theorem slotPositional_items {τ : Type} {L : List (DSlot τ)} {ts : List Bytes} {t t' : τ} (h : SlotPositional L ts t t') :
    ∀ x ∈ ts, ∃ d ∈ L, ∃ t t1, d.stores t t1 x := by
  induction h with
  | nil => intro x hx; cases hx
  | @cons d L s ss t t1 t2 h1 h2 ih =>
    intro x hx
    rcases List.mem_cons.mp hx with rfl | hx
    · exact ⟨d, by simp, _, _, h1⟩
    · obtain ⟨d, hd, h⟩ := ih x hx
      exact ⟨d, by simp [hd], h⟩

theorem AltJson.value {c : Cfg} {α : Type} {S : Ser α} {D : Den α} {raw : Bool} (h : AltJson c raw S D) {v0 v : α} {t : Bytes} (hd : D v0 v t)
    (hp : PlainText t) (hw : NoWs t) : XValue t := by
  induction h generalizing t with
  | base h => exact h.value hd hp hw
  | quoted _ ih =>
    rcases hd with ⟨w, r, ⟨u, rfl, hd⟩ | ⟨_, rfl, _⟩, _⟩ | ⟨_, _, h⟩
    · obtain ⟨h1, h2⟩ := hp.body
      exact .str ⟨u, xchars_decodes hd h1 h2, by simp [Wjson.quoted]⟩
    · exact .null
    · exact ih h hp hw
  | memberValue _ ih =>
    obtain ⟨x, h, _⟩ := hd
    exact ih h hp hw
  | array _ ih =>
    rcases hd with ⟨rfl, _⟩ | ⟨vs, r, rfl, h, _⟩
    · exact .null
    · refine (elems_of_items h fun v t hi hs ht => ih hi (hp.sub (ht.trans (List.suffix_cons _ _).isInfix)) hs.noWs).value
  | stdArray _ _ ih =>
    rcases hd with ⟨rfl, _⟩ | ⟨r, rfl, h⟩
    · exact .null
    · refine (elems_of_fix h fun v v' t hi hs ht => ih hi (hp.sub (ht.trans (List.suffix_cons _ _).isInfix)) hs.noWs).value
  | cArray _ _ ih =>
    rcases hd with ⟨rfl, _⟩ | ⟨r, rfl, h⟩
    · exact .null
    · refine (elems_of_fix h fun v v' t hi hs ht => ih hi (hp.sub (ht.trans (List.suffix_cons _ _).isInfix)) hs.noWs).value
  | dict hk hv ih =>
    rcases hd with ⟨rfl, _⟩ | ⟨vs, r, rfl, h, _⟩
    · exact .null
    · have hsub : ∀ {t}, t <:+: r → t <:+: c%'{' :: r := fun h => h.trans (List.suffix_cons _ _).isInfix
      refine (membs_of_items h ?_ (fun v t hi hs ht => ih hi (hp.sub (hsub ht)) hs.noWs) ?_).value
      · intro v t x g hd hw hg hi
        have hp' := hp.sub (hsub hi)
        rcases hk.string hd (hp'.sub ⟨[], g ++ c%':' :: x, by simp⟩) hw with h | rfl
        · exact h
        · exact absurd ⟨[], x, by simp⟩ (hp'.nonull g hg)
      · intro v t hd h0
        obtain ⟨b, _, hb, _⟩ := hk.means.exact.head hd
        rw [h0] at hb
        cases hb
  | @object τ strict dflt L hn h1 h2 h3 _ _ ih1 ih2 ih3 =>
    have hpl : ∀ d ∈ L, PlainName d.name := fun d hd => (hn d hd).1
    have ih : ∀ d ∈ L, ∀ {t t1 s}, d.stores t t1 s → PlainText s → NoWs s → XValue s := fun d hd _ _ _ hst hps hws =>
      slot_value hst (fun x hx v0 v hx' => by subst hx; exact ih1 _ hd hx' hps hws)
        (fun l r i RU Dl Dr ex hx v0 v hx' => by subst hx; exact ih2 _ _ _ _ _ _ _ hd hx' hps hws)
        (fun l r i RU Dl Dr ex hx v0 v hx' => by subst hx; exact ih3 _ _ _ _ _ _ _ hd hx' hps hws)
    have hkey : ∀ {items : List (Bytes × Bytes)} {r t t' o}, SlotRun strict L L items t t' o → PlainText r →
        (∀ x ∈ items, x.1 <:+: r → XChars x.1) ∧ ∀ x ∈ items, Start x.2 → x.2 <:+: r → XValue x.2 := by
      intro items r t t' o hrun hp
      refine ⟨fun x hx hi => ?_, fun x hx hs hi => ?_⟩
      · rcases slotRun_items hrun (fun _ h => h) x hx with ⟨d, hd, he, _⟩ | h
        · rw [he] at hi ⊢
          exact xchars_plain (hpl d hd) fun b hb => (hp.ascii b (hi.subset hb)).1
        · exact h.1
      · rcases slotRun_items hrun (fun _ h => h) x hx with ⟨d, hd, _, t, t1, hy⟩ | h
        · exact ih d hd hy (hp.sub hi) hs.noWs
        · exact h.2
    rcases hd with ⟨rfl, _⟩ | ⟨g, rfl, hg, _⟩ | ⟨items, o, h1, h2⟩ | ⟨items, h1, h2⟩
    · exact .null
    · exact .arr0 hg
    · cases h1 with
      | empty h => exact .obj0 h
      | @items g _ r hg hi =>
        obtain ⟨hk, hv⟩ := hkey h2 (hp.sub (u := r) ⟨c%'{' :: g, [], by simp⟩)
        exact (membs_of_from hi hk hv g hg).1.value
    · cases h1 with
      | @mk r g hobj hne hg =>
        generalize hw : r ++ b!"}" = w at hobj
        cases hobj with
        | empty => exact absurd rfl hne
        | @items g1 _ r1 hg1 hi =>
          obtain ⟨r0, hr1, _⟩ := itemsThen_of_from hi
          subst hr1
          have hr : r = c%'{' :: (g1 ++ r0) := by
            refine List.append_cancel_right (bs := b!"}") ?_
            rw [hw]
            simp
          subst hr
          have hp' : PlainText (r0 ++ b!"}") := by
            have : PlainText r0 := hp.sub ⟨c%'{' :: g1, c%',' :: (g ++ b!"}"), by simp⟩
            exact this.snoc
          obtain ⟨hk, hv⟩ := hkey h2 hp'
          have := ((membs_of_from hi hk hv g1 hg1).2 r0 g rfl hg).value
          simpa using this
  | @objectArray τ dflt L h1 h2 h3 _ _ ih1 ih2 ih3 =>
    have ih : ∀ d ∈ L, ∀ {t t1 s}, d.stores t t1 s → PlainText s → NoWs s → XValue s := fun d hd _ _ _ hst hps hws =>
      slot_value hst (fun x hx v0 v hx' => by subst hx; exact ih1 _ hd hx' hps hws)
        (fun l r i RU Dl Dr ex hx v0 v hx' => by subst hx; exact ih2 _ _ _ _ _ _ _ hd hx' hps hws)
        (fun l r i RU Dl Dr ex hx v0 v hx' => by subst hx; exact ih3 _ _ _ _ _ _ _ hd hx' hps hws)
    have hval : ∀ {L1 ts t t' r}, (∀ d ∈ L1, d ∈ L) → SlotPositional L1 ts t t' → PlainText r →
        ∀ x ∈ ts, Start x → x <:+: r → XValue x := by
      intro L1 ts t t' r hL hpos hp x hx hs hi
      obtain ⟨d, hd, t, t1, hy⟩ := slotPositional_items hpos x hx
      exact ih d (hL d hd) hy (hp.sub hi) hs.noWs
    rcases hd with ⟨rfl, _⟩ | ⟨g, rfl, hg, _⟩ | ⟨L1, L2, ts, r, rfl, rfl, h1, h2⟩ | ⟨ts, r, g, rfl, _, h1, h2, h3⟩
    · exact .null
    · exact .arr0 hg
    · exact (elems_of_items1 h1 (hval (fun d hd => by simp [hd]) h2 (hp.sub (List.suffix_cons _ _).isInfix))).value
    · exact (elems_of_comma h1 h2 (hval (fun d hd => hd) h3 (hp.sub ⟨[c%'['], g ++ b!"]", by simp⟩))).value

end Wjson
