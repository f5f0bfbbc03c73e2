import Verif.Docplex
import Verif.Result

/-!
# Applications on graphs, items and sets

Models `to_quadratic_program` and `interpret` of the application classes of `applications/` except the tours
(`Verif/Tours.lean`).  All of them build a docplex model and load it.
-/

namespace Verif

/-- A networkx graph: the number of nodes and the edges with their attribute `weight`, if they have one.  The code takes
the nodes to be `0, ..., n - 1` (it uses them as keys of the dictionary of the variables). -/
structure Graph where
  n : Nat
  edges : List (Nat × Nat × Option ℚ)
  deriving DecidableEq, Repr

/-- The weight of an edge after `setdefault("weight", 1)` (`max_cut.py:46-47`, `graph_partition.py:44-45`). -/
def edgeWeight (e : Nat × Nat × Option ℚ) : ℚ := e.2.2.getD 1

/-- All ends of edges are keys of the dictionary of the variables; otherwise `x[i]` raises `KeyError`. -/
def Graph.keysOK (g : Graph) : Bool := g.edges.all fun e => decide (e.1 < g.n) && decide (e.2.1 < g.n)

/-- `{i: mdl.binary_var(name="x_{0}".format(i)) for i in range(n)}`. -/
def appVars (n : Nat) : List DVar := (List.range n).map fun i => ⟨some ("x_" ++ toString i), 0, 1, .binary⟩

/-- `op = QuadraticProgram(); op.from_docplex(mdl); return op`. -/
def loadModel (m : DModel) : Except Err QP :=
  match fromDocplex m with
  | (.ok _, p) => .ok p
  | (.error e, _) => .error e

/-- `mdl.sum(x[i] for i in x)`. -/
def sumVars (n : Nat) : DExpr := DExpr.sum ((List.range n).map DExpr.var)

/-- The summand of an edge in the max-cut objective (`max_cut.py:48-52`). -/
def maxcutTerm (e : Nat × Nat × Option ℚ) : DExpr :=
  (((DExpr.var e.1).smul (edgeWeight e)).mul ((DExpr.const 1).sub (.var e.2.1))).add
    (((DExpr.var e.2.1).smul (edgeWeight e)).mul ((DExpr.const 1).sub (.var e.1)))

/-- `Maxcut.to_quadratic_program` (`max_cut.py:34-56`). -/
def maxcutProgram (g : Graph) : Except Err QP :=
  if g.keysOK then loadModel ⟨"Max-cut", appVars g.n, false, DExpr.sum (g.edges.map maxcutTerm), []⟩
  else .error .keyError

/-- The loop of `interpret` with two lists (`max_cut.py:81-88`, `graph_partition.py:65-72`). -/
def interpretSides (x : List ℚ) : List Nat × List Nat :=
  x.zipIdx.foldl (fun c q => if q.1 = 0 then (c.1 ++ [q.2], c.2) else (c.1, c.2 ++ [q.2])) ([], [])

/-- The loop of `interpret` with one list (`stable_set.py:63-69`, `vertex_cover.py:60-66`, `clique.py:79-85`,
`knapsack.py:68-69`); `if value` is `value != 0`. -/
def interpretSet (x : List ℚ) : List Nat :=
  x.zipIdx.foldl (fun l q => if q.1 ≠ 0 then l ++ [q.2] else l) []

/-- `mdl.add_constraint(x[w] + x[v] <= 1)` and the like. -/
def edgeCst (s : Sense) (w v : Nat) : DCst := .linear ((DExpr.var w).add (.var v)) s (.const 1) none

/-- `StableSet.to_quadratic_program` (`stable_set.py:34-53`). -/
def stableSetProgram (g : Graph) : Except Err QP :=
  if g.keysOK then
    loadModel ⟨"Stable set", appVars g.n, false, sumVars g.n, g.edges.map fun e => edgeCst .le e.1 e.2.1⟩
  else .error .keyError

/-- `VertexCover.to_quadratic_program` (`vertex_cover.py:33-50`). -/
def vertexCoverProgram (g : Graph) : Except Err QP :=
  if g.keysOK then
    loadModel ⟨"Vertex cover", appVars g.n, true, sumVars g.n, g.edges.map fun e => edgeCst .ge e.1 e.2.1⟩
  else .error .keyError

/-- The two nodes are ends of an edge. -/
def Graph.hasEdge (g : Graph) (i j : Nat) : Bool :=
  g.edges.any fun e => (e.1 == i && e.2.1 == j) || (e.1 == j && e.2.1 == i)

/-- The edges of `nx.complement(graph)`: all pairs of different nodes that are not joined.  Simplification: in
lexicographic order (networkx lists the nodes in the order of their creation). -/
def Graph.complementEdges (g : Graph) : List (Nat × Nat) :=
  (List.range g.n).flatMap fun i => ((List.range g.n).filter fun j => decide (i < j) && !g.hasEdge i j).map fun j => (i, j)

/-- `Clique.to_quadratic_program` (`clique.py:46-69`).  An edge with an end that is no key does no harm here, as only the
complement is used. -/
def cliqueProgram (g : Graph) (size : Option ℤ) : Except Err QP :=
  let csts := g.complementEdges.map fun e => edgeCst .le e.1 e.2
  match size with
  | none => loadModel ⟨"Clique", appVars g.n, false, sumVars g.n, csts⟩
  | some k => loadModel ⟨"Clique", appVars g.n, true, .const 0,
      csts ++ [.linear (sumVars g.n) .eq (.const k) none]⟩

/-- The summand of an edge in the graph partition objective (`graph_partition.py:46-49`). -/
def partitionTerm (e : Nat × Nat × Option ℚ) : DExpr :=
  (((DExpr.var e.1).add (.var e.2.1)).sub (((DExpr.var e.1).smul 2).mul (.var e.2.1))).smul (edgeWeight e)

/-- `GraphPartition.to_quadratic_program` (`graph_partition.py:33-54`). -/
def graphPartitionProgram (g : Graph) : Except Err QP :=
  if g.keysOK then
    loadModel ⟨"Graph partition", appVars g.n, true, DExpr.sum (g.edges.map partitionTerm),
      [.linear (sumVars g.n) .eq (.const ((g.n / 2 : Nat) : ℚ)) none]⟩
  else .error .keyError

/-- `Knapsack.to_quadratic_program` (`knapsack.py:43-57`).  With fewer weights than values `self._weights[i]` raises
`IndexError`. -/
def knapsackProgram (values weights : List ℚ) (maxWeight : ℚ) : Except Err QP :=
  if weights.length < values.length then .error .indexError
  else loadModel ⟨"Knapsack", appVars values.length, false,
    DExpr.sum ((List.range values.length).map fun i => (DExpr.var i).smul (values.getD i 0)),
    [.linear (DExpr.sum ((List.range values.length).map fun i => (DExpr.var i).smul (weights.getD i 0))) .le
      (.const maxWeight) none]⟩

/-- `NumberPartition.to_quadratic_program` (`number_partition.py:40-55`).  The objective of docplex is zero, to be
minimized. -/
def numberPartitionProgram (numbers : List ℚ) : Except Err QP :=
  loadModel ⟨"Number partitioning", appVars numbers.length, true, .const 0,
    [.linear (DExpr.sum (numbers.zipIdx.map fun q => (((DExpr.var q.2).smul (-2)).add (.const 1)).smul q.1)) .eq
      (.const 0) none]⟩

/-- The loop of `NumberPartition.interpret` (`number_partition.py:68-72`); a point with more coordinates than numbers
raises `IndexError`. -/
def numberLoop (numbers : List ℚ) : List (ℚ × Nat) → List ℚ × List ℚ → Except Err (List ℚ × List ℚ)
  | [], c => .ok c
  | (value, i) :: l, c =>
    match numbers[i]? with
    | none => .error .indexError
    | some v => numberLoop numbers l (if value = 0 then (c.1 ++ [v], c.2) else (c.1, c.2 ++ [v]))

/-- `NumberPartition.interpret` (`number_partition.py:57-73`). -/
def numberPartitionInterpret (numbers x : List ℚ) : Except Err (List ℚ × List ℚ) := numberLoop numbers x.zipIdx ([], [])

/-- The union of the subsets, `np.unique` (`set_packing.py:39-42`, `exact_cover.py:38-41`). -/
def allElements (subsets : List (List ℤ)) : List ℤ := sortedBy (fun a b => decide (a ≤ b)) subsets.flatten.dedup

/-- `mdl.sum(x[i] for i, sub in enumerate(subsets) if element in sub)`. -/
def elementSum (subsets : List (List ℤ)) (e : ℤ) : DExpr :=
  DExpr.sum ((subsets.zipIdx.filter fun q => q.1.contains e).map fun q => .var q.2)

/-- `SetPacking.to_quadratic_program` (`set_packing.py:44-61`). -/
def setPackingProgram (subsets : List (List ℤ)) : Except Err QP :=
  loadModel ⟨"Set packing", appVars subsets.length, false, sumVars subsets.length,
    (allElements subsets).map fun e => .linear (elementSum subsets e) .le (.const 1) none⟩

/-- `ExactCover.to_quadratic_program` (`exact_cover.py:43-60`). -/
def exactCoverProgram (subsets : List (List ℤ)) : Except Err QP :=
  loadModel ⟨"Exact cover", appVars subsets.length, true, sumVars subsets.length,
    (allElements subsets).map fun e => .linear (elementSum subsets e) .eq (.const 1) none⟩

/-- The loop of `interpret` of both (`set_packing.py:74-76`, `exact_cover.py:73-75`); a selected position without a subset
raises `IndexError`. -/
def subsetLoop (subsets : List (List ℤ)) : List (ℚ × Nat) → List (List ℤ) → Except Err (List (List ℤ))
  | [], r => .ok r
  | (value, i) :: l, r =>
    if value ≠ 0 then
      match subsets[i]? with
      | none => .error .indexError
      | some s => subsetLoop subsets l (r ++ [s])
    else subsetLoop subsets l r

/-- `interpret` of both (`set_packing.py:63-77`, `exact_cover.py:62-76`). -/
def interpretSubsets (subsets : List (List ℤ)) (x : List ℚ) : Except Err (List (List ℤ)) :=
  subsetLoop subsets x.zipIdx []

end Verif
