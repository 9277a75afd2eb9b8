import Verif.Proofs.Array
import Verif.Proofs.Object
import Verif.Proofs.ObjectArray
/-
Writing through a back inserter.
-/
namespace Wjson
open Spec

theorem Writes.back {α : Type} {em : Emit α} {v : α} {t : Bytes} (h : Writes em v t) : WritesBack em v t := by
  intro m
  rw [h, Sink.puts_back]

theorem RT.back {α : Type} {S : Ser α} {v : α} {t : Bytes} (h : RT S v t) : RTB S v t := ⟨h.writes.back, h.start, h.reads⟩

/-- The text is unique. -/
theorem WritesBack.unique {α : Type} {em : Emit α} {v : α} {t u : Bytes} (h : WritesBack em v t) (h' : WritesBack em v u) : t = u := by
  have h1 := h []
  rw [h' []] at h1
  simpa using (Sink.mk.inj (Out.ok.inj h1)).1.symm

theorem WritesBack.at_nil {α : Type} {em : Emit α} {v : α} {t : Bytes} (h : WritesBack em v t) : em v ⟨[], .back⟩ = .ok ⟨t, .back⟩ := by
  simpa using h []

theorem Sink.put_back (m : Bytes) (b : Byte) : (Sink.mk m .back).put b = .ok ⟨m ++ [b], .back⟩ := rfl

section
variable {α C : Type} {S : Ser α} {K : Coll α C} {R : Byte}

theorem emitElems_back {vs : List α} {ts : List Bytes} (h : All2 (fun v t => WritesBack S.emit v t) vs ts) (m : Bytes) :
    emitElems S vs ⟨m, .back⟩ = .ok ⟨m ++ joinComma ts, .back⟩ := by
  induction h generalizing m with
  | nil => simp [emitElems, joinComma]
  | @cons v t vs ts hv hvs ih =>
    cases hvs with
    | nil => exact hv m
    | cons hw hws =>
      simp only [emitElems, joinComma]
      rw [hv m, Out.bind_ok, Sink.put_back, Out.bind_ok, ih]
      simp

theorem emitSeq_back {L : Byte} {c : C} {ts : List Bytes} (h : All2 (fun v t => WritesBack S.emit v t) (K.elems c) ts) :
    WritesBack (emitSeq K S L R) c (L :: joinComma ts ++ [R]) := by
  intro m
  simp only [emitSeq, Sink.put_back, Out.bind_ok, emitElems_back h]
  simp

theorem emitFix_back {L : Byte} {vs : List α} {ts : List Bytes} (h : All2 (fun v t => WritesBack S.emit v t) vs ts) :
    WritesBack (emitFix S L R) vs (L :: joinComma ts ++ [R]) := by
  intro m
  simp only [emitFix, Sink.put_back, Out.bind_ok, emitElems_back h]
  simp

end

theorem emitField_back {κ ν : Type} {SK : Ser κ} {SV : Ser ν} {x : κ × ν} {kt vt : Bytes} (hk : WritesBack SK.emit x.1 kt)
    (hv : WritesBack SV.emit x.2 vt) : WritesBack (emitField SK SV) x (kt ++ c%':' :: vt) := by
  intro m
  simp only [emitField, hk m, Out.bind_ok, Sink.put_back, hv _]
  simp

section
variable {τ : Type}

theorem emitMember_back {m : MRef τ} {t : τ} {v : Bytes} (h : WritesBack m.ser.emit (m.get t) v) :
    WritesBack (emitMember m) t (quoted m.name ++ c%':' :: v) := by
  intro mem
  simp only [emitMember, emitName, Sink.put_back, Out.bind_ok, Sink.puts_back, h _]
  simp [quoted]

theorem emitMembers_back {L : List (Member τ)} {t : τ} {ts : List Bytes} (h : All2 (fun m s => WritesBack m.emit t s) L ts)
    (m : Bytes) : emitMembers L t ⟨m, .back⟩ = .ok ⟨m ++ joinComma ts, .back⟩ := by
  induction h generalizing m with
  | nil => simp [emitMembers, joinComma]
  | cons hv hvs ih =>
    cases hvs with
    | nil => exact hv m
    | cons hw hws =>
      simp only [emitMembers, joinComma]
      rw [hv m, Out.bind_ok, Sink.put_back, Out.bind_ok, ih]
      simp

theorem emitObject_back {L : List (Member τ)} {t : τ} {ts : List Bytes} (h : All2 (fun m s => WritesBack m.emit t s) L ts) :
    WritesBack (emitObject L) t (c%'{' :: joinComma ts ++ b!"}") := by
  intro m
  simp only [emitObject, Sink.put_back, Out.bind_ok, emitMembers_back h]
  simp

theorem emitAMembers_back {L : List (AMember τ)} {t : τ} {ts : List Bytes} (h : All2 (fun m s => WritesBack m.emit t s) L ts)
    (m : Bytes) : emitAMembers L t ⟨m, .back⟩ = .ok ⟨m ++ joinComma ts, .back⟩ := by
  induction h generalizing m with
  | nil => simp [emitAMembers, joinComma]
  | cons hv hvs ih =>
    cases hvs with
    | nil => exact hv m
    | cons hw hws =>
      simp only [emitAMembers, joinComma]
      rw [hv m, Out.bind_ok, Sink.put_back, Out.bind_ok, ih]
      simp

theorem emitObjectArray_back {L : List (AMember τ)} {t : τ} {ts : List Bytes} (h : All2 (fun m s => WritesBack m.emit t s) L ts) :
    WritesBack (emitObjectArray L) t (c%'[' :: joinComma ts ++ b!"]") := by
  intro m
  simp only [emitObjectArray, Sink.put_back, Out.bind_ok, emitAMembers_back h]
  simp

end

end Wjson
