import Verif.Apps
import Verif.Tours

/-!
# Drawings of results

Models the parts of `_draw_result` of the graph applications that decide which node gets which colour and which edges are
emphasised.  The nodes of the networkx graph are given in the order of `graph.nodes`, the order of insertion: for
`Maxcut([(2, 0), (0, 1)])` it is 2, 0, 1.
-/

namespace Verif

/-- `nx.draw(graph, node_color=colors)`: the colours belong to the nodes in the order of `graph.nodes`; matplotlib raises
`ValueError` if there are more or fewer colours than nodes.  The result lists the nodes with their colours. -/
def drawNodes (nodes : List Nat) (colors : List String) : Except Err (List (Nat × String)) :=
  if nodes.length = colors.length then .ok (nodes.zip colors) else .error .valueError

/-- `[color(x[node]) for node in self._graph.nodes]`. -/
def colorNodes (color : ℚ → String) (x : List ℚ) : List Nat → Except Err (List String)
  | [] => .ok []
  | node :: l =>
    match x[node]? with
    | none => .error .indexError
    | some v =>
      match colorNodes color x l with
      | .error e => .error e
      | .ok r => .ok (color v :: r)

/-- `Clique._draw_result` (`clique.py:87-105`). -/
def drawClique (nodes : List Nat) (x : List ℚ) : Except Err (List (Nat × String)) :=
  match colorNodes (fun v => if v ≠ 0 then "r" else "darkgrey") x nodes with
  | .error e => .error e
  | .ok colors => drawNodes nodes colors

/-- `VertexCover._draw_result` (`vertex_cover.py:68-86`). -/
def drawVertexCover (nodes : List Nat) (x : List ℚ) : Except Err (List (Nat × String)) :=
  match colorNodes (fun v => if v ≠ 0 then "r" else "darkgrey") x nodes with
  | .error e => .error e
  | .ok colors => drawNodes nodes colors

/-- `StableSet._draw_result` (`stable_set.py:71-89`): the comparison is with 1. -/
def drawStableSet (nodes : List Nat) (x : List ℚ) : Except Err (List (Nat × String)) :=
  match colorNodes (fun v => if v = 1 then "r" else "darkgrey") x nodes with
  | .error e => .error e
  | .ok colors => drawNodes nodes colors

/-- `GraphPartition._draw_result` (`graph_partition.py:74-92`). -/
def drawPartition (nodes : List Nat) (x : List ℚ) : Except Err (List (Nat × String)) :=
  match colorNodes (fun v => if v ≠ 0 then "r" else "b") x nodes with
  | .error e => .error e
  | .ok colors => drawNodes nodes colors

/-- `Maxcut._draw_result` (`max_cut.py:58-70, 90-94`): the colours are in the order of the values. -/
def drawMaxCut (nodes : List Nat) (x : List ℚ) : Except Err (List (Nat × String)) :=
  drawNodes nodes (x.map fun v => if v = 0 then "r" else "b")

/-- `Tsp._edgelist` (`tsp.py:114-117`).  The entries of the route may be lists (see `tspInterpret`). -/
def tspEdgelist (x : List ℚ) : List ((Nat ⊕ List Nat) × (Nat ⊕ List Nat)) :=
  let route := tspInterpret x
  (List.range route.length).map fun i =>
    (route.getD i (.inr []), route.getD ((i + 1) % route.length) (.inr []))

/-- `VehicleRouting._edgelist` (`vehicle_routing.py:172-175`). -/
def vrpEdgelist (routes : List (List (Nat × Nat))) : List (Nat × Nat) :=
  (List.range routes.length).flatMap fun k => routes.getD k []

/-- `VehicleRouting._edge_color` (`vehicle_routing.py:177-180`). -/
def vrpEdgeColor (routes : List (List (Nat × Nat))) : List ℚ :=
  (List.range routes.length).flatMap fun k => (routes.getD k []).map fun _ => (k : ℚ) / routes.length

end Verif
