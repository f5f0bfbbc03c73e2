import Verif.Apps

/-!
# Applications on tours

Models `Tsp` (`applications/tsp.py`) and `VehicleRouting` (`applications/vehicle_routing.py`) except drawing, the creation
of random instances and the reading of files (`Verif/Files.lean`).
-/

namespace Verif

/-- `self._graph.edges[i, j]["weight"]` of an undirected networkx graph; `none` is `KeyError` (no such edge, or an edge
without the attribute). -/
def Graph.weight? (g : Graph) (i j : Nat) : Option ℚ :=
  match g.edges.find? fun e => (e.1 == i && e.2.1 == j) || (e.1 == j && e.2.1 == i) with
  | some e => e.2.2
  | none => none

/-- No lookup of a weight for two different nodes raises `KeyError`. -/
def Graph.complete (g : Graph) : Bool :=
  (List.range g.n).all fun i => (List.range g.n).all fun j => decide (i = j) || (g.weight? i j).isSome

/-- The weight of the edge between two nodes; meaningful where `weight?` is not `none`. -/
def Graph.weight (g : Graph) (i j : Nat) : ℚ := (g.weight? i j).getD 0

/-- `"x_{0}_{1}".format(i, k)`. -/
def pairName (q : Nat × Nat) : String := "x_" ++ toString q.1 ++ "_" ++ toString q.2

/-- `for i in range(n) for k in range(n)`. -/
def allPairs (n : Nat) : List (Nat × Nat) := (List.range n).flatMap fun i => (List.range n).map fun k => (i, k)

/-- Binary variables for the given keys. -/
def pairVars (keys : List (Nat × Nat)) : List DVar := keys.map fun q => ⟨some (pairName q), 0, 1, .binary⟩

/-! ## Traveling salesman -/

/-- `x[(i, k)]` (`tsp.py:46-50`): the variables are created for `i` and, inside, for `k`, so that the index of the variable
is `i * n + k`. -/
def tspVar (n i k : Nat) : DExpr := .var (i * n + k)

/-- The objective (`tsp.py:51-57`). -/
def tspObjective (g : Graph) : DExpr :=
  DExpr.sum ((List.range g.n).flatMap fun i => (List.range g.n).flatMap fun j =>
    ((List.range g.n).filter fun _ => i != j).map fun k =>
      ((tspVar g.n i k).smul (g.weight i j)).mul (tspVar g.n j ((k + 1) % g.n)))

/-- `Tsp.to_quadratic_program` (`tsp.py:36-65`).  With one node the weights are never read. -/
def tspProgram (g : Graph) : Except Err QP :=
  if g.complete then
    loadModel ⟨"TSP", pairVars (allPairs g.n), true, tspObjective g,
      ((List.range g.n).map fun i =>
        .linear (DExpr.sum ((List.range g.n).map fun k => tspVar g.n i k)) .eq (.const 1) none) ++
      ((List.range g.n).map fun k =>
        .linear (DExpr.sum ((List.range g.n).map fun i => tspVar g.n i k)) .eq (.const 1) none)⟩
  else .error .keyError

/-- The inner loop of `Tsp.interpret`: the nodes at position `k` (`tsp.py:82-85`). -/
def tspStep (x : List ℚ) (n k : Nat) : List Nat := (List.range n).filter fun i => decide (x.getD (i * n + k) 0 ≠ 0)

/-- `Tsp.interpret` (`tsp.py:67-90`): a node, or the list of the nodes at a position if there is not exactly one.  All
indices are less than `n * n`, hence valid.  `int(np.sqrt(len(x)))` is the integer square root (the rounding of the square
root is exact for lengths below 2^52). -/
def tspInterpret (x : List ℚ) : List (Nat ⊕ List Nat) :=
  let n := Nat.sqrt x.length
  (List.range n).map fun k =>
    match tspStep x n k with
    | [i] => .inl i
    | l => .inr l

/-- `Tsp.tsp_value` (`tsp.py:204-217`) for a matrix given by its entries; `z[-1]` of an empty list raises `IndexError`.
The cities are taken to be valid indices of the matrix. -/
def tspValue (z : List Nat) (adj : Nat → Nat → ℚ) : Except Err ℚ :=
  match z.getLast?, z.head? with
  | some l, some h =>
    .ok ((List.range (z.length - 1)).foldl (fun r i => r + adj (z.getD i 0) (z.getD (i + 1) 0)) 0 + adj l h)
  | _, _ => .error .indexError

/-! ## Vehicle routing -/

/-- `itertools.combinations(l, k)`: the sublists of length `k` in lexicographic order of positions. -/
def combinations {α : Type} : Nat → List α → List (List α)
  | 0, _ => [[]]
  | _ + 1, [] => []
  | k + 1, a :: l => (combinations k l).map (a :: ·) ++ combinations (k + 1) l

/-- The keys of the variables (`vehicle_routing.py:64-67`). -/
def routeKeys (n : Nat) : List (Nat × Nat) := (allPairs n).filter fun q => q.1 != q.2

/-- `x[(i, j)]`. -/
def routeVar (n : Nat) (q : Nat × Nat) : DExpr := .var ((routeKeys n).idxOf q)

/-- The constraints on the edges at the nodes (`vehicle_routing.py:77-91`). -/
def degreeCsts (n vehicles depot : Nat) : List DCst :=
  let others (i : Nat) := (List.range n).filter fun j => j != i
  ((others depot).map fun i =>
    .linear (DExpr.sum ((others i).map fun j => routeVar n (i, j))) .eq (.const 1) none) ++
  ((others depot).map fun j =>
    .linear (DExpr.sum ((others j).map fun i => routeVar n (i, j))) .eq (.const 1) none) ++
  [.linear (DExpr.sum ((others depot).map fun i => routeVar n (i, depot))) .eq (.const vehicles) none,
    .linear (DExpr.sum ((others depot).map fun j => routeVar n (depot, j))) .eq (.const vehicles) none]

/-- The sets of nodes of `clique_set` (`vehicle_routing.py:93-97`). -/
def subrouteSets (n depot : Nat) : List (List Nat) :=
  let nodes := (List.range n).filter fun i => i != depot
  ((List.range (nodes.length + 1)).drop 2).flatMap fun i => combinations i nodes

/-- The constraint that eliminates the sub-routes in a set of nodes (`vehicle_routing.py:98-101`). -/
def subrouteCst (n : Nat) (s : List Nat) : DCst :=
  .linear (DExpr.sum (s.flatMap fun i => (s.filter fun j => i != j).map fun j => routeVar n (i, j))) .le
    (.const ((s.length : ℚ) - 1)) none

/-- `VehicleRouting.to_quadratic_program` (`vehicle_routing.py:53-104`).  The depot and the number of vehicles are taken to
be natural numbers (a negative depot raises `KeyError` like one that is too large, a negative number of vehicles makes the
program infeasible). -/
def vrpProgram (g : Graph) (vehicles depot : Nat) : Except Err QP :=
  if !g.complete then .error .keyError
  else if 0 < g.n ∧ g.n ≤ depot then .error .keyError
  else
    loadModel ⟨"Vehicle routing", pairVars (routeKeys g.n), true,
      DExpr.sum ((routeKeys g.n).map fun q => (routeVar g.n q).smul (g.weight q.1 q.2)),
      degreeCsts g.n vehicles depot ++ (subrouteSets g.n depot).map (subrouteCst g.n)⟩

/-- The edges with a value different from zero (`vehicle_routing.py:115-124`); `none` stands for `IndexError` of `x[idx]`. -/
def selectedEdges : List (Nat × Nat) → List ℚ → Option (List (Nat × Nat))
  | [], _ => some []
  | _ :: _, [] => none
  | q :: keys, v :: x => (selectedEdges keys x).map fun l => if v ≠ 0 then q :: l else l

/-- The scan for an edge that leaves `start`, from index 0 on, and its removal (`edge_list.pop(i)`,
`vehicle_routing.py:130-141`). -/
def popEdge (start : Nat) : List (Nat × Nat) → Option ((Nat × Nat) × List (Nat × Nat))
  | [] => none
  | e :: l => if e.1 = start then some (e, l) else (popEdge start l).map fun q => (q.1, e :: q.2)

/-- The `while` loop that follows one vehicle (`vehicle_routing.py:130-141`): the edges of the route and the edges left.
The first argument bounds the number of rounds; the number of edges is enough, because each round but the last removes
one (with no edge left the loop ends). -/
def followRoute (depot : Nat) : Nat → Nat → List (Nat × Nat) → List (Nat × Nat) × List (Nat × Nat)
  | 0, _, l => ([], l)
  | m + 1, start, l =>
    match popEdge start l with
    | none => ([], l)
    | some (e, l') =>
      if e.2 = depot then ([e], l')
      else
        let r := followRoute depot m e.2 l'
        (e :: r.1, r.2)

/-- The loop over the vehicles (`vehicle_routing.py:126-143`). -/
def vehicleRoutes (depot : Nat) : Nat → List (Nat × Nat) → List (List (Nat × Nat))
  | 0, l => if l = [] then [] else [l]
  | k + 1, l =>
    let r := followRoute depot l.length depot l
    r.1 :: vehicleRoutes depot k r.2

/-- `VehicleRouting.interpret` (`vehicle_routing.py:106-145`). -/
def vrpInterpret (n vehicles depot : Nat) (x : List ℚ) : Except Err (List (List (Nat × Nat))) :=
  match selectedEdges (routeKeys n) x with
  | none => .error .indexError
  | some l => .ok (vehicleRoutes depot vehicles l)

end Verif
