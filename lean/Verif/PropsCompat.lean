import Verif.PropsAdmmSteps
import Verif.PropsLocal
import Verif.Grover
import Verif.QuboLemmas
import Verif.Recursive
import Verif.WarmStart
import Verif.GoemansWilliamson

/-!
# Incompatible programs are refused: C118
-/

namespace Verif

/-- What makes a program unsuitable for the optimizers that work on QUBOs: a continuous variable, a quadratic constraint or a
fractional coefficient of a linear constraint. -/
def NotQuboLike (p : QP) : Prop :=
  (∃ v ∈ p.vars, v.vartype = .continuous) ∨ p.quads ≠ [] ∨
    ∃ c ∈ p.lins, ∃ q ∈ c.linear.coeffs, ¬ ∃ z : Int, q.2 = z

theorem quboMsg_of_notQuboLike {p : QP} (h : NotQuboLike p) : (quboMsg p).length > 0 := by
  by_contra hm
  obtain ⟨hc, hq, hco⟩ := (quboMsg_empty p).mp hm
  rcases h with ⟨v, hv, h⟩ | h | ⟨c, hc', q, hq', h⟩
  · exact hc v hv h
  · exact h hq
  · exact h (hco c hc' q hq')

/-- **C118** (optimizers for QUBOs): the optimizers raise, whatever converters, eigensolver, presolver or measurements they
are given. -/
theorem C118_qubo {p : QP} (h : NotQuboLike p) (convs : List Converter) :
    (∀ solver, minEigenSolve solver convs p = .error .optimization) ∧
    (∀ preSolve relax qaoa eps numInitial,
      warmStartSolve preSolve relax qaoa eps numInitial convs p = .error .optimization) ∧
    (∀ solver last minNumVars fuel, recursiveSolve solver last minNumVars convs p fuel = some (.error .optimization)) ∧
    (∀ measure rot sqrt nValue nIterations fuel,
      groverSolve measure rot sqrt convs nValue nIterations p fuel = some (.error .optimization)) := by
  have hm := quboMsg_of_notQuboLike h
  refine ⟨fun _ => ?_, fun _ _ _ _ _ => ?_, fun _ _ _ _ => ?_, fun _ _ _ _ _ _ => ?_⟩
  · unfold minEigenSolve
    rw [if_pos hm]
  · unfold warmStartSolve
    rw [if_pos hm]
    split <;> rfl
  · unfold recursiveSolve
    rw [if_pos hm]
  · unfold groverSolve
    rw [if_pos hm]

/-- **C118** (local optimizers): COBYLA and SLSQP raise if there is a variable that is not continuous. -/
theorem C118_local {p : QP} (h : ∃ v ∈ p.vars, v.vartype ≠ .continuous) (trials : Nat) (clip : ℚ) (u : Nat → Nat → ℚ) :
    (∀ cobyla, cobylaSolve cobyla trials clip u p = .error .optimization) ∧
    ∀ slsqp, slsqpSolve slsqp trials clip u p = .error .optimization := by
  have hc : ¬ onlyContinuous p = true := fun hc => by
    obtain ⟨v, hv, hne⟩ := h
    exact hne (onlyContinuous_iff.mp hc v hv)
  refine ⟨fun _ => ?_, fun _ => ?_⟩
  · unfold cobylaSolve
    rw [if_neg hc]
  · unfold slsqpSolve
    rw [if_neg hc]

/-- **C118** (Goemans-Williamson): the optimizer raises if there is a variable that is not binary. -/
theorem C118_goemans {p : QP} (h : ∃ v ∈ p.vars, v.vartype ≠ .binary) (numCuts : Nat) (sortCuts unique : Bool)
    (side : Option (Nat → Nat → Bool)) :
    goemansWilliamson numCuts sortCuts unique side p = .error .optimization := by
  have hc : (p.vars.filter fun v => v.vartype == .binary).length ≠ p.numVars := fun hc => by
    obtain ⟨v, hv, hne⟩ := h
    have := List.length_filter_eq_length_iff.mp hc v hv
    exact hne (by simpa using this)
  unfold goemansWilliamson
  rw [if_pos hc]

/-- **C118** (ADMM): the optimizer raises if the objective has a product of a binary and a continuous variable. -/
theorem C118_admm {p : QP} (hp : p.WF) (hs : p.ShapeOK) {i j : Nat} {vi vj : Variable} (hi : p.vars[i]? = some vi)
    (hj : p.vars[j]? = some vj) (hbi : vi.vartype = .binary) (hcj : vj.vartype = .continuous)
    (h : Dict.get p.objective.quadratic.coeffs (i, j) ≠ 0 ∨ Dict.get p.objective.quadratic.coeffs (j, i) ≠ 0)
    (qubo cont : Solver) (norm : List ℚ → ℚ) (clock : Nat → Bool) (prm : AdmmParams) :
    admmSolve qubo cont norm clock prm p = .error .optimization := by
  obtain ⟨b, hb, hiff⟩ := C65_separable_partial p hp hs
  have hf : b = false := by
    cases b
    · rfl
    · have := hiff.mp rfl i j vi vj hi hj hbi hcj
      rcases h with h | h
      · exact absurd this.1 h
      · exact absurd this.2 h
  subst hf
  unfold admmSolve
  rw [hb]

/-- `minimize x y` for a binary variable `x` and a continuous variable `y`, subject to `x / 2 <= 1`. -/
def mixedQP : QP :=
  (runCalls (QP.empty "") [.addVar 0 1 .binary (some "x"), .addVar 0 1 .continuous (some "y"),
    .linear (.dict [(.name "x", 1 / 2)]) (.str "<=") 1 none,
    .objective .minimize 0 (.dict []) (.dict [((.name "x", .name "y"), 1)])]).2

/-- This program is refused by all of them. -/
example : NotQuboLike mixedQP ∧ (∃ v ∈ mixedQP.vars, v.vartype ≠ .continuous) ∧ (∃ v ∈ mixedQP.vars, v.vartype ≠ .binary) ∧
    mixedQP.WF ∧ mixedQP.vars.map (·.vartype) = [.binary, .continuous] ∧
    Dict.get mixedQP.objective.quadratic.coeffs (0, 1) ≠ 0 := by
  refine ⟨Or.inl ?_, ?_, ?_, ?_, ?_, ?_⟩ <;> decide +kernel

example : mixedQP.ShapeOK := by
  refine ⟨?_, ?_, ?_⟩ <;> decide +kernel

end Verif
