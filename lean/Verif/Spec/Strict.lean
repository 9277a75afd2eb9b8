import Verif.Spec.Flags
/-
Specification for C30: values that a type cannot read.
-/
namespace Wjson.Spec

/-- The reader `de` does not get to the end of the text `v`: whatever follows
`v` and whatever the error object without an error, it reports an error at the
end of the text, or it stops where neither white space nor a comma nor a brace
is. For example, an integer stops at the `.` of `1.5`. -/
def Stalls {α : Type} (de : De α) (v : Bytes) : Prop :=
  ∀ v0 rest x, x.status = false → Delim rest →
    ∃ v1 p e', de v0 (v ++ rest) (.obj x) = .ok (v1, p, e') ∧
      ((p = [] ∧ e'.failed = true) ∨ (e' = .obj x ∧ NoGap p ∧ p.head? ≠ some c%',' ∧ p.head? ≠ some c%'}'))

end Wjson.Spec
