import Verif.Files
import Verif.Tours
import Mathlib.Analysis.SpecialFunctions.Sqrt

/-!
# Instances with nodes in the plane

Models `create_random_instance` of `applications/tsp.py` and `applications/vehicle_routing.py`, and the graph that
`Tsp.parse_tsplib_format` constructs, with `networkx.random_geometric_graph` and the functions `hypot` and `rint` of numpy.
The generators of random numbers are an argument.
-/

namespace Verif

/-- `np.hypot`. -/
noncomputable def hypot (a b : ℚ) : ℝ := Real.sqrt ((a : ℝ) ^ 2 + (b : ℝ) ^ 2)

/-- `np.rint`: to the nearest integer, halves to the even one. -/
noncomputable def rint (r : ℝ) : ℤ :=
  if r - ⌊r⌋ < 1 / 2 then ⌊r⌋
  else if 1 / 2 < r - ⌊r⌋ then ⌊r⌋ + 1
  else if ⌊r⌋ % 2 = 0 then ⌊r⌋ else ⌊r⌋ + 1

/-- `nx.random_geometric_graph(n, radius, pos=pos)` and the loop that sets the weights (`tsp.py:136-140`,
`vehicle_routing.py:243-246`): the nodes at a distance of at most `radius` are joined.  For `n = 0` networkx raises an
error (there are no positions to unpack), which is not modelled. -/
noncomputable def geometricGraph (n : Nat) (radius : ℝ) (pos : Nat → ℚ × ℚ) : Graph :=
  open Classical in
  ⟨n, (List.range n).flatMap fun i =>
    ((List.range n).filter fun j =>
      decide (i < j ∧ hypot ((pos i).1 - (pos j).1) ((pos i).2 - (pos j).2) ≤ radius)).map fun j =>
        (i, j, some (rint (hypot ((pos i).1 - (pos j).1) ((pos i).2 - (pos j).2)) : ℚ))⟩

/-- A generator of random numbers: its state after seeding; the array of `uniform(low, high, (n, 2))`, by rows; and the
results of successive calls of `randint(low, high)`. -/
structure Generator (σ : Type) where
  seeded : ℤ → σ
  uniform : σ → ℚ → ℚ → Nat → ℚ × ℚ
  randint : σ → ℤ → ℤ → Nat → ℤ

/-- `if seed: algorithm_globals.random_seed = seed` (`tsp.py:133-134`); `st` is the state of `algorithm_globals.random` at
the time of the call. -/
def tspState {σ : Type} (gen : Generator σ) (st : σ) : Option ℤ → σ
  | some s => if s ≠ 0 then gen.seeded s else st
  | none => st

/-- `Tsp.create_random_instance` (`tsp.py:119-141`): the graph of the instance. -/
noncomputable def tspRandom {σ : Type} (gen : Generator σ) (st : σ) (n : Nat) (low high : ℚ) (seed : Option ℤ) : Graph :=
  geometricGraph n (hypot (high - low) (high - low) + 1) (gen.uniform (tspState gen st seed) low high)

/-- `random.seed(seed)` (`vehicle_routing.py:241`): without a seed the state comes from the system, the argument `fresh`. -/
def vrpState {σ : Type} (gen : Generator σ) (fresh : σ) : Option ℤ → σ
  | some s => gen.seeded s
  | none => fresh

/-- `VehicleRouting.create_random_instance` (`vehicle_routing.py:218-247`): the graph of the instance.  `randint` of an empty
range raises `ValueError`. -/
noncomputable def vrpRandom {σ : Type} (gen : Generator σ) (fresh : σ) (n : Nat) (low high : ℤ) (seed : Option ℤ) :
    Except Err Graph :=
  if 0 < n ∧ high < low then .error .valueError
  else .ok (geometricGraph n (hypot (high - low) (high - low) + 1) fun i =>
    (gen.randint (vrpState gen fresh seed) low high (2 * i), gen.randint (vrpState gen fresh seed) low high (2 * i + 1)))

/-- `max(...)` and `min(...)` of a non-empty list. -/
def maxOf : List ℚ → ℚ
  | [] => 0
  | a :: l => l.foldl max a

/-- See `maxOf`. -/
def minOf : List ℚ → ℚ
  | [] => 0
  | a :: l => l.foldl min a

/-- The end of `Tsp.parse_tsplib_format` (`tsp.py:187-201`) with the radius that is computed there. -/
noncomputable def tsplibGraph (coord : List (ℚ × ℚ)) : Graph :=
  geometricGraph coord.length
    (hypot (maxOf (coord.map Prod.fst) - minOf (coord.map Prod.fst))
      (maxOf (coord.map Prod.snd) - minOf (coord.map Prod.snd)) + 1)
    fun i => coord.getD i (0, 0)

end Verif
