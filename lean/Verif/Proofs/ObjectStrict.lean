import Verif.Spec.Strict
import Verif.Proofs.ObjectRead
import Verif.Proofs.ExactFlags
/-
Lemmas for C30.
-/
namespace Wjson
open Spec

section
variable {τ : Type} {c : Cfg}

theorem Entry.stalls {en : Entry τ} (hn : c%'"' ∉ en.ref.name) {v : Bytes} (hs : Start v) (h : Stalls en.ref.ser.de v) (t : τ) :
    MBad en.toMember en.ref.name v t := by
  intro g1 g2 rest e u h1 h2 he hd
  obtain ⟨x, rfl, hx⟩ := he
  have key : ∀ {p : Bytes} {e' : EPtr}, ((p = [] ∧ e'.failed = true) ∨ (e' = .obj x ∧ NoGap p ∧ p.head? ≠ some c%',' ∧ p.head? ≠ some c%'}')) → AfterBad p (.obj x) e' := by
    rintro p e' (h | ⟨rfl, h1, h2, h3⟩)
    · exact .inl h
    · exact .inr ⟨rfl, parseSpace_stop h1 _, h2, h3⟩
  cases en with
  | mem m =>
    simp only [Entry.toMember, member, Entry.ref, deMember] at h hn ⊢
    rw [memberName_match hn h1 h2 hs]
    simp only [Bool.not_true, Bool.false_eq_true, if_false]
    obtain ⟨v1, p, e', h3, h4⟩ := h (m.get t) rest x hx hd
    rw [h3]
    exact ⟨_, _, _, rfl, key h4⟩
  | prop m =>
    simp only [Entry.toMember, memberP, Entry.ref, deMemberP] at h hn ⊢
    rw [memberName_match hn h1 h2 hs]
    simp only [Bool.not_true, Bool.false_eq_true, if_false]
    obtain ⟨v1, p, e', h3, h4⟩ := h m.ser.dflt rest x hx hd
    rw [h3]
    exact ⟨_, _, _, rfl, key h4⟩

theorem key_skips {L : List (Entry τ)} (hg : GoodNames L) {en : Entry τ} (hen : en ∈ L) {k : Bytes} (hx : XChars k)
    (hne : en.ref.name ≠ k) : MSkips en.toMember k :=
  Entry.skips (keyDiffers_of_plain (hg.plain _ (names_mem hen)) hx (fun h => hne h.symm))

theorem chain_strict {L : List (Entry τ)} (hg : GoodNames L) {items : List (Bytes × Bytes)} (hs : ∀ x ∈ items, Start x.2)
    (hj : ∀ x ∈ items, Skippable x)
    (hv : ∀ x ∈ items, ∀ en ∈ L, en.ref.name = x.1 → (∃ y, Reads en.ref.ser.de x.2 y) ∨ Stalls en.ref.ser.de x.2)
    (hu : ∃ x ∈ items, x.1 ∉ names L) (l : List (Entry τ)) (hl : ∀ en ∈ l, en ∈ L) (t : τ) :
    Chain true (L.map Entry.toMember) (l.map Entry.toMember) items t none := by
  induction items generalizing l t with
  | nil => obtain ⟨x, hx, _⟩ := hu; cases hx
  | cons x items ih =>
    obtain ⟨k, v⟩ := x
    cases l with
    | nil => exact .pastStrict rfl (by simp) hj
    | cons en l =>
      have hen : en ∈ L := hl en (by simp)
      have hxk : XChars k := (hj (k, v) (by simp)).1
      have hsv : Start v := hs (k, v) (by simp)
      have hskip : ∀ en ∈ L, en.ref.name ≠ k → MSkips en.toMember k := fun en hen hne => key_skips hg hen hxk hne
      by_cases hk : k ∈ names L
      · have hu' : ∃ x ∈ items, x.1 ∉ names L := by
          obtain ⟨y, hy, hyn⟩ := hu
          rcases List.mem_cons.mp hy with rfl | hy
          · exact absurd hk hyn
          · exact ⟨y, hy, hyn⟩
        have ih' := ih (fun x hx => hs x (by simp [hx])) (fun x hx => hj x (by simp [hx])) (fun x hx => hv x (by simp [hx])) hu'
        by_cases hke : en.ref.name = k
        · subst hke
          have hq := (hg.plain _ (names_mem hen)).1
          rcases hv (en.ref.name, v) (by simp) en hen rfl with ⟨y, hy⟩ | hbad
          · exact .cur (fun g1 g2 rest e u => Entry.reads hq hsv hy t g1 g2 rest e u) (ih' l (fun en hen => hl en (by simp [hen])) _)
          · exact .curBad (Entry.stalls hq hsv hbad t)
        · obtain ⟨en', hen', rfl⟩ := List.mem_map.mp hk
          have hq := (hg.plain _ (names_mem hen')).1
          obtain ⟨pre, post, hL, hpre⟩ := split_at hg hen'
          have hpre' : ∀ x ∈ pre.map Entry.toMember, MSkips x en'.ref.name := by
            intro x hx
            obtain ⟨y, hy, rfl⟩ := List.mem_map.mp hx
            exact hskip y (by rw [hL]; simp [hy]) (hpre y hy)
          have hL' : L.map Entry.toMember = pre.map Entry.toMember ++ en'.toMember :: post.map Entry.toMember := by rw [hL]; simp
          rcases hv (en'.ref.name, v) (by simp) en' hen' rfl with ⟨y, hy⟩ | hbad
          · exact .search (hskip en hen hke) hL' hpre' (fun g1 g2 rest e u => Entry.reads hq hsv hy t g1 g2 rest e u)
              (ih' (en :: l) hl _)
          · exact .searchBad (hskip en hen hke) hL' hpre' (Entry.stalls hq hsv hbad t)
      · refine .unknownStrict rfl (hskip en hen fun h => hk (h ▸ names_mem hen)) ?_
        intro x hx
        obtain ⟨y, hy, rfl⟩ := List.mem_map.mp hx
        exact hskip y hy fun h => hk (h ▸ names_mem hy)

end

end Wjson
