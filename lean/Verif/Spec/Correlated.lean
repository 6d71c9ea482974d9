import Verif.Model.XReal
import Mathlib.LinearAlgebra.Matrix.PosDef

/-! What `correlated_normal_dist` has to do with the matrix it is given. -/
namespace Trng.Spec
open XR

/-- The elements of a matrix, row by row: what the caller passes as a range of iterators. -/
noncomputable def flat {d : Nat} (V : Matrix (Fin d) (Fin d) ℝ) : List XR :=
  List.ofFn fun q : Fin (d * d) => fin (V q.divNat q.modNat)

/-- `H` is the Cholesky factor of `V`: lower triangular with positive diagonal and `H Hᵀ = V`. -/
structure CholeskyFactor {d : Nat} (V H : Matrix (Fin d) (Fin d) ℝ) : Prop where
  lower : ∀ i j, i < j → H i j = 0
  diag : ∀ i, 0 < H i i
  prod : H * H.transpose = V

end Trng.Spec
