import Verif.GoemansWilliamson
import Mathlib.LinearAlgebra.Matrix.PosDef
import Mathlib.Data.Real.Basic

/-!
# The semidefinite program and the random hyperplanes of the Goemans-Williamson optimizer

Models the numerical part of `algorithms/goemans_williamson_optimizer.py`.  The solver of the semidefinite program, the
smallest eigenvalue, the Cholesky factorization and the normally distributed numbers are arguments.  Numbers are real
numbers instead of floating point numbers.
-/

namespace Verif

open Matrix

/-- Square matrices of real numbers. -/
abbrev RMat (n : Nat) := Matrix (Fin n) (Fin n) ℝ

/-- The adjacency matrix as a real matrix (`_extract_adjacency_matrix`, `goemans_williamson_optimizer.py:228-242`). -/
noncomputable def adjacencyMat (p : QP) : RMat p.objective.quadratic.n :=
  Matrix.of fun i j => ((adjacency p i j : ℚ) : ℝ)

/-- `expr` of `_solve_max_cut_sdp` (`goemans_williamson_optimizer.py:265`):
`cvx.sum(cvx.multiply(adj_matrix, np.ones(...) - x))`. -/
noncomputable def sdpObjective {n : Nat} (adj x : RMat n) : ℝ := ∑ i, ∑ j, adj i j * (1 - x i j)

/-- The points over which `_solve_max_cut_sdp` maximizes (`goemans_williamson_optimizer.py:257-262`): positive
semidefinite matrices with ones on the diagonal. -/
def SdpFeasible {n : Nat} (x : RMat n) : Prop := x.PosSemidef ∧ ∀ i, x i i = 1

open Classical in
/-- The matrix that is factorized in `_generate_random_cuts` (`goemans_williamson_optimizer.py:285-289`), where `lam` is
`min(eigenvalues)`. -/
noncomputable def shiftChi {n : Nat} (lam : ℝ) (chi : RMat n) : RMat n :=
  if lam < 0 then chi + (1.001 * |lam|) • (1 : RMat n)
  else if lam = 0 then chi + (0.00001 : ℝ) • (1 : RMat n)
  else chi

open Classical in
/-- An entry of `np.dot(r, x) > 0` (`goemans_williamson_optimizer.py:290-294`) for one row `r` and `x` the transpose of
the factor `l`. -/
noncomputable def hyperplaneSide {n : Nat} (l : RMat n) (r : Fin n → ℝ) (i : Fin n) : Bool :=
  decide (0 < ∑ k, r k * lᵀ k i)

/-- `_generate_random_cuts` (`goemans_williamson_optimizer.py:273-294`): the sides of the vertices in the cuts.
`np.linalg.cholesky` raises a LinAlgError if the matrix is not positive definite. -/
noncomputable def generateSides (eigMin : (n : Nat) → RMat n → ℝ) (chol : (n : Nat) → RMat n → Except Err (RMat n))
    {numCuts n : Nat} (chi : RMat n) (r : Fin numCuts → Fin n → ℝ) : Except Err (Nat → Nat → Bool) :=
  match chol n (shiftChi (eigMin n chi) chi) with
  | .error e => .error e
  | .ok l => .ok fun t i =>
      if ht : t < numCuts then if hi : i < n then hyperplaneSide l (r ⟨t, ht⟩) ⟨i, hi⟩ else false else false

/-- `solve` with its numerical parts (`goemans_williamson_optimizer.py:140-196`).  `sdp` is `_solve_max_cut_sdp`
(244-271), `none` if it raises one of the caught errors; `r` are the values of `np.random.normal` (292).  Programs
without variables are rejected in `goemansWilliamson`. -/
noncomputable def solveGw (numCuts : Nat) (sortCuts unique : Bool) (sdp : (n : Nat) → RMat n → Option (RMat n))
    (eigMin : (n : Nat) → RMat n → ℝ) (chol : (n : Nat) → RMat n → Except Err (RMat n)) (p : QP)
    (r : Fin numCuts → Fin p.objective.quadratic.n → ℝ) : Except Err Result :=
  if (p.vars.filter fun v => v.vartype == .binary).length ≠ p.numVars then .error .optimization
  else match sdp p.objective.quadratic.n (adjacencyMat p) with
    | none => goemansWilliamson numCuts sortCuts unique none p
    | some chi =>
      if p.objective.quadratic.n = 0 then .error .valueError
      else match generateSides eigMin chol chi r with
        | .error e => .error e
        | .ok side => goemansWilliamson numCuts sortCuts unique (some side) p

end Verif
