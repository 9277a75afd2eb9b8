import Verif.Spec.AfterError
import Verif.Model.Units
import Verif.Model.Float
import Verif.Model.Misc
/-
Specification for C74: what a typed reader reports.
-/
namespace Wjson.Spec

/-- Reading the text `s` into a variable that holds `v0` reports `x`: for every
error object that holds no error yet, reading ends at the end of the text and the
object is `x` afterwards. -/
def Reports {α : Type} (f : De α) (v0 : α) (s : Bytes) (x : JError) : Prop :=
  ∀ y : JError, y.code = .ValidJSON → ∃ v, f v0 s (.obj y) = .ok (v, [], .obj x)

/-- An error at the place where the rest of the text is `s`. -/
def errAt (code : Code) (s : Bytes) : JError := ⟨code, none, (s.length : Nat)⟩

/-- The token `m` is missing where the rest of the text is `s`. -/
def expectAt (m : Bytes) (s : Bytes) : JError := ⟨.ExpectedOf, some m, (s.length : Nat)⟩

end Wjson.Spec
