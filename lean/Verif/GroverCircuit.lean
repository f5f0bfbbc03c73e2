import Verif.Grover
import Mathlib.LinearAlgebra.UnitaryGroup
import Mathlib.Analysis.SpecialFunctions.Trigonometric.Inverse
import Mathlib.Analysis.Complex.Basic

/-!
# The circuits of the Grover optimizer

Models `_get_a_operator` and `_get_oracle` of `algorithms/grover_optimizer.py` and the circuit that `Grover` of Qiskit
constructs from them.  A circuit is the matrix of its effect on the amplitudes of the basis states.  The circuit library
class `QuadraticForm` is an argument.
-/

namespace Verif

/-- The basis states of `q` qubits: the value of every qubit. -/
abbrev Bits (q : Nat) := Fin q → Bool

/-- The matrices of circuits with `q` qubits. -/
abbrev Unitary (q : Nat) := Matrix (Bits q) (Bits q) ℂ

/-- The outcome string of a basis state, qubit 0 first (`grover_optimizer.py:337-339, 349`: the strings of Qiskit are
reversed). -/
def outcomeOf {q : Nat} (b : Bits q) : List Char := List.ofFn fun i => if b i then '1' else '0'

/-- The one-qubit gate with matrix `u`, applied to qubit `j`. -/
def onQubit {q : Nat} (u : Bool → Bool → ℂ) (j : Fin q) : Unitary q := fun a b =>
  if a = Function.update b j (a j) then u (a j) (b j) else 0

/-- The Hadamard gate. -/
noncomputable def hGate (a b : Bool) : ℂ := (if a && b then -1 else 1) * ((Real.sqrt 2)⁻¹ : ℝ)

/-- The Z gate. -/
def zGate (a b : Bool) : ℂ := if a = b then (if a then -1 else 1) else 0

/-- `a_operator.h(list(range(k)))` (`grover_optimizer.py:132`). -/
noncomputable def hadamards {q : Nat} : (k : Nat) → k ≤ q → Unitary q
  | 0, _ => 1
  | k + 1, h => onQubit hGate ⟨k, h⟩ * hadamards k (by omega)

/-- `_get_a_operator` (`grover_optimizer.py:121-134`): Hadamard gates on the key qubits, then the `QuadraticForm`, whose
matrix is the argument.  The circuit has the key qubits, the value qubits and the oracle qubit. -/
noncomputable def aOperator (nKey nValue : Nat) (form : Unitary (nKey + nValue + 1)) : Unitary (nKey + nValue + 1) :=
  form * hadamards nKey (by omega)

/-- `_get_oracle` (`grover_optimizer.py:136-143`): a Z gate on the first value qubit.  The predicate `is_good_state` is
not used by `construct_circuit`. -/
def groverOracle (nKey nValue : Nat) : Unitary (nKey + nValue + 1) := onQubit zGate ⟨nKey, by omega⟩

/-- The reflection about the state zero used by `GroverOperator` of Qiskit. -/
def zeroReflection (q : Nat) : Unitary q := fun a b => if a = b then (if a = fun _ => false then 1 else -1) else 0

/-- `GroverOperator(oracle, state_preparation)`: the oracle, the inverse of the state preparation, the reflection, the
state preparation. -/
noncomputable def groverOperator {q : Nat} (a oracle : Unitary q) : Unitary q :=
  a * zeroReflection q * a.conjTranspose * oracle

/-- The state before the measurement (`grover_optimizer.py:232-241`: `grover.construct_circuit(problem, power=rotations)`),
all qubits being zero at the beginning: the amplitudes of all basis states. -/
noncomputable def groverCircuitState (nKey nValue : Nat) (form : Unitary (nKey + nValue + 1)) (rotations : Nat) :
    Bits (nKey + nValue + 1) → ℂ :=
  (groverOperator (aOperator nKey nValue form) (groverOracle nKey nValue) ^ rotations * aOperator nKey nValue form).mulVec
    (Pi.single (fun _ => false) 1)

end Verif
