import Verif.Draw
import Verif.PropsApps
import Verif.PropsTsp

/-!
# C76: drawings agree with interpretations
-/

namespace Verif

theorem colorNodes_spec (color : ℚ → String) (x : List ℚ) {nodes : List Nat} (h : ∀ i ∈ nodes, i < x.length) :
    colorNodes color x nodes = .ok (nodes.map fun i => color (x.getD i 0)) := by
  induction nodes with
  | nil => rfl
  | cons i l ih =>
    have hi := h i (by simp)
    simp [colorNodes, ih fun j hj => h j (by simp [hj]), hi]

/-- The drawing has one spot for every node; the nodes of the set, and no others, have the first colour, all others have
the second colour. -/
def Shows (d : List (Nat × String)) (nodes S : List Nat) (inside outside : String) : Prop :=
  d.map Prod.fst = nodes ∧ ∀ i c, (i, c) ∈ d → (i ∈ S → c = inside) ∧ (i ∉ S → c = outside)

theorem shows_zip {nodes S : List Nat} {inside outside : String} {f : Nat → String}
    (h : ∀ i ∈ nodes, (i ∈ S → f i = inside) ∧ (i ∉ S → f i = outside)) :
    drawNodes nodes (nodes.map f) = .ok (nodes.zip (nodes.map f)) ∧
    Shows (nodes.zip (nodes.map f)) nodes S inside outside := by
  refine ⟨by simp [drawNodes], by simp [List.map_fst_zip], fun i c hc => ?_⟩
  rw [List.zip_map_right, List.mem_map] at hc
  obtain ⟨⟨a, b⟩, hab, e⟩ := hc
  rw [List.zip_eq_zipWith, List.mem_iff_getElem] at hab
  obtain ⟨k, hk, e'⟩ := hab
  simp only [List.getElem_zipWith, Prod.mk.injEq] at e'
  simp only [Prod.map_apply, id_eq, Prod.mk.injEq] at e
  obtain ⟨rfl, rfl⟩ := e'
  obtain ⟨rfl, rfl⟩ := e
  exact h _ (List.getElem_mem _)

theorem perm_lt {nodes : List Nat} {n : Nat} (h : nodes.Perm (List.range n)) : ∀ i ∈ nodes, i < n :=
  fun _ hi => List.mem_range.mp (h.mem_iff.mp hi)

/-- **C76, clique.** Whatever the order of the nodes in the graph is, the nodes of the clique are red and the others grey. -/
theorem C76_clique {nodes : List Nat} {x : List ℚ} (h : nodes.Perm (List.range x.length)) :
    ∃ d, drawClique nodes x = .ok d ∧ Shows d nodes (interpretSet x) "r" "darkgrey" := by
  have hs := shows_zip (nodes := nodes) (S := interpretSet x) (inside := "r") (outside := "darkgrey")
    (f := fun i => if x.getD i 0 ≠ 0 then "r" else "darkgrey") fun i hi => by
      rw [(C43_interpret x).1 i]
      have := perm_lt h i hi
      constructor
      · intro h1; rw [if_pos h1.2]
      · intro h1; rw [if_neg fun h2 => h1 ⟨this, h2⟩]
  exact ⟨_, by unfold drawClique; rw [colorNodes_spec _ _ (perm_lt h)]; exact hs.1, hs.2⟩

/-- **C76, vertex cover.** -/
theorem C76_vertexCover {nodes : List Nat} {x : List ℚ} (h : nodes.Perm (List.range x.length)) :
    ∃ d, drawVertexCover nodes x = .ok d ∧ Shows d nodes (interpretSet x) "r" "darkgrey" := C76_clique h

/-- **C76, stable set**, for points with the values 0 and 1. -/
theorem C76_stableSet {nodes : List Nat} {x : List ℚ} (h : nodes.Perm (List.range x.length))
    (hx : ∀ v ∈ x, v = 0 ∨ v = 1) :
    ∃ d, drawStableSet nodes x = .ok d ∧ Shows d nodes (interpretSet x) "r" "darkgrey" := by
  have hs := shows_zip (nodes := nodes) (S := interpretSet x) (inside := "r") (outside := "darkgrey")
    (f := fun i => if x.getD i 0 = 1 then "r" else "darkgrey") fun i hi => by
      rw [(C43_interpret x).1 i]
      have hl := perm_lt h i hi
      have hv : x.getD i 0 = 0 ∨ x.getD i 0 = 1 := by
        have : x.getD i 0 = x[i] := by simp [hl]
        rw [this]; exact hx _ (List.getElem_mem _)
      constructor
      · intro h1; rw [if_pos (hv.resolve_left h1.2)]
      · intro h1
        rw [if_neg]
        intro h2
        exact h1 ⟨hl, by rw [h2]; norm_num⟩
  exact ⟨_, by unfold drawStableSet; rw [colorNodes_spec _ _ (perm_lt h)]; exact hs.1, hs.2⟩

/-- **C76, graph partition.** The nodes of the second part are red, those of the first part blue. -/
theorem C76_partition {nodes : List Nat} {x : List ℚ} (h : nodes.Perm (List.range x.length)) :
    ∃ d, drawPartition nodes x = .ok d ∧ Shows d nodes (interpretSides x).2 "r" "b" ∧
      Shows d nodes (interpretSides x).1 "b" "r" := by
  have h2 := shows_zip (nodes := nodes) (S := (interpretSides x).2) (inside := "r") (outside := "b")
    (f := fun i => if x.getD i 0 ≠ 0 then "r" else "b") fun i hi => by
      rw [(C42_interpret x).2.1 i]
      have := perm_lt h i hi
      constructor
      · intro h1; rw [if_pos h1.2]
      · intro h1; rw [if_neg fun h2 => h1 ⟨this, h2⟩]
  have h1 := shows_zip (nodes := nodes) (S := (interpretSides x).1) (inside := "b") (outside := "r")
    (f := fun i => if x.getD i 0 ≠ 0 then "r" else "b") fun i hi => by
      rw [(C42_interpret x).1 i]
      have := perm_lt h i hi
      constructor
      · intro h1; rw [if_neg (by simpa using h1.2)]
      · intro h1; rw [if_pos fun h2 => h1 ⟨this, h2⟩]
  exact ⟨_, by unfold drawPartition; rw [colorNodes_spec _ _ (perm_lt h)]; exact h2.1, h2.2, h1.2⟩

/-- **C76, max-cut, partial.**  Full statement: whatever the order of the nodes in the graph is, the nodes of the first side
are red and those of the second side blue.  Proved: this holds if the nodes are in the order 0, 1, 2, …  Missing: other
orders (false, see `C76_violated`). -/
theorem C76_maxCut_partial (x : List ℚ) :
    ∃ d, drawMaxCut (List.range x.length) x = .ok d ∧ Shows d (List.range x.length) (interpretSides x).1 "r" "b" ∧
      Shows d (List.range x.length) (interpretSides x).2 "b" "r" := by
  have e : (x.map fun v => if v = 0 then "r" else "b") =
      (List.range x.length).map fun i => if x.getD i 0 = 0 then "r" else "b" := by
    apply List.ext_getElem (by simp)
    intro i h1 h2
    simp at h1
    simp [h1]
  have h1 := shows_zip (nodes := List.range x.length) (S := (interpretSides x).1) (inside := "r") (outside := "b")
    (f := fun i => if x.getD i 0 = 0 then "r" else "b") fun i hi => by
      rw [(C42_interpret x).1 i]
      have := List.mem_range.mp hi
      constructor
      · intro h1; rw [if_pos h1.2]
      · intro h1; rw [if_neg fun h2 => h1 ⟨this, h2⟩]
  have h2 := shows_zip (nodes := List.range x.length) (S := (interpretSides x).2) (inside := "b") (outside := "r")
    (f := fun i => if x.getD i 0 = 0 then "r" else "b") fun i hi => by
      rw [(C42_interpret x).2.1 i]
      have := List.mem_range.mp hi
      constructor
      · intro h1; rw [if_neg h1.2]
      · intro h1
        rw [if_pos]
        by_contra h2
        exact h1 ⟨this, h2⟩
  refine ⟨_, ?_, h1.2, h2.2⟩
  unfold drawMaxCut
  rw [e]
  exact h1.1

/-- **C76 is violated by max-cut**: for the graph with the edges (2, 0) and (0, 1), the nodes of which are in the order
2, 0, 1, and the point (1, 0, 0), `interpret` separates node 0 from the others, and the drawing separates node 2 from the
others. -/
theorem C76_violated : [2, 0, 1].Perm (List.range 3) ∧ interpretSides [1, 0, 0] = ([1, 2], [0]) ∧
    drawMaxCut [2, 0, 1] [1, 0, 0] = .ok [(2, "b"), (0, "r"), (1, "r")] ∧
    ¬ ∀ (nodes : List Nat) (x : List ℚ), nodes.Perm (List.range x.length) → ∃ d, drawMaxCut nodes x = .ok d ∧
      (Shows d nodes (interpretSides x).1 "r" "b" ∨ Shows d nodes (interpretSides x).1 "b" "r") := by
  have h1 : interpretSides [1, 0, 0] = ([1, 2], [0]) := by decide +kernel
  have h2 : drawMaxCut [2, 0, 1] [1, 0, 0] = .ok [(2, "b"), (0, "r"), (1, "r")] := by decide +kernel
  refine ⟨by decide, h1, h2, fun h => ?_⟩
  obtain ⟨d, hd, hs⟩ := h [2, 0, 1] [1, 0, 0] (by decide)
  rw [h2, Except.ok.injEq] at hd
  subst hd
  rw [h1] at hs
  rcases hs with hs | hs
  · exact absurd ((hs.2 0 "r" (by simp)).2 (by decide)) (by decide)
  · exact absurd ((hs.2 1 "r" (by simp)).1 (by decide)) (by decide)

/-- The other drawings are right for this order. -/
example : drawPartition [2, 0, 1] [1, 0, 0] = .ok [(2, "b"), (0, "r"), (1, "b")] ∧
    drawClique [2, 0, 1] [1, 0, 1] = .ok [(2, "r"), (0, "r"), (1, "darkgrey")] ∧
    drawStableSet [2, 0, 1] [0, 1, 0] = .ok [(2, "darkgrey"), (0, "darkgrey"), (1, "r")] := by decide +kernel

/-- **C76.** A result with the wrong number of values is rejected: too few values by all drawings, too many by the drawing
of a cut.  (The others ignore surplus values.) -/
theorem C76_rejects {nodes : List Nat} {x : List ℚ} (hn : 0 < nodes.length) (h : nodes.Perm (List.range nodes.length)) :
    (x.length ≠ nodes.length → drawMaxCut nodes x = .error .valueError) ∧
    (x.length < nodes.length → drawClique nodes x = .error .indexError ∧ drawVertexCover nodes x = .error .indexError ∧
      drawStableSet nodes x = .error .indexError ∧ drawPartition nodes x = .error .indexError) := by
  constructor
  · intro hl
    unfold drawMaxCut drawNodes
    rw [if_neg (by rw [List.length_map]; exact Ne.symm hl)]
  · intro hl
    have key : ∀ color : ℚ → String, colorNodes color x nodes = .error .indexError := by
      intro color
      have hm : nodes.length - 1 ∈ nodes := h.mem_iff.mpr (List.mem_range.mpr (by omega))
      have hk : x.length ≤ nodes.length - 1 := by omega
      revert hm hk
      generalize nodes.length - 1 = k
      clear h hn hl
      intro hm hk
      induction nodes with
      | nil => simp at hm
      | cons a l ih =>
        unfold colorNodes
        cases ha : x[a]? with
        | none => rfl
        | some v =>
          simp only
          rcases List.mem_cons.mp hm with rfl | hm
          · rw [List.getElem?_eq_none hk] at ha
            cases ha
          · rw [ih hm]
    simp only [drawClique, drawVertexCover, drawStableSet, drawPartition, key, and_self]

example : drawMaxCut [0, 1] [1] = .error .valueError ∧ drawClique [1, 0] [1] = .error .indexError ∧
    drawMaxCut [0, 1] [1, 0, 1] = .error .valueError := by decide +kernel

theorem tspEdgelist_eq {n : Nat} {z : List Nat} (hz : z.Perm (List.range n)) {x : List ℚ} (hl : x.length = n * n)
    (hx : TourPoint n z (pt x)) :
    tspEdgelist x = (List.range n).map fun k => (.inl (z.getD k 0), .inl (z.getD ((k + 1) % n) 0)) := by
  have hi : tspInterpret x = z.map .inl := C49_interpret hl hz hx
  have hzl : z.length = n := by simpa using hz.length_eq
  unfold tspEdgelist
  simp only [hi, List.length_map, hzl]
  refine List.map_congr_left fun k hk => ?_
  have hk := List.mem_range.mp hk
  have hk' : (k + 1) % n < n := Nat.mod_lt _ (by omega)
  simp [hzl, hk, hk']

/-- **C76, traveling salesman.** At the vector of an ordering, the edges drawn lead from every node to the next one and from
the last one to the first one. -/
theorem C76_tsp {n : Nat} {z : List Nat} (hz : z.Perm (List.range n)) {x : List ℚ} (hl : x.length = n * n)
    (hx : TourPoint n z (pt x)) :
    tspEdgelist x = (z.zip (z.tail ++ z.head?.toList)).map fun e => (.inl e.1, .inl e.2) := by
  rw [tspEdgelist_eq hz hl hx]
  have hzl : z.length = n := by simpa using hz.length_eq
  subst hzl
  cases z with
  | nil => rfl
  | cons a t =>
    apply List.ext_getElem
    · simp
    · intro k h1 h2
      have hk : k < t.length + 1 := by simpa using h1
      have hk0 : (a :: t).getD k 0 = (a :: t)[k] := by simp [hk]
      simp only [List.getElem_map, List.getElem_range, List.getElem_zip, hk0, List.length_cons, Prod.mk.injEq, true_and,
        Sum.inl.injEq, List.tail_cons, List.head?_cons, Option.toList_some]
      by_cases hlast : k = t.length
      · subst hlast
        simp
      · have hkt : k < t.length := by omega
        rw [Nat.mod_eq_of_lt (by omega), List.getElem_append_left hkt]
        simp [hkt]

/-- **C76, traveling salesman.** The weights of the edges drawn add up to the value of the objective. -/
theorem C76_tsp_weight {g : Graph} {p : QP} (hp : tspProgram g = .ok p) (hn : 2 ≤ g.n) (hsim : g.Simple) {z : List Nat}
    (hz : z.Perm (List.range g.n)) {x : List ℚ} (hl : x.length = g.n * g.n) (hx : TourPoint g.n z (pt x)) :
    ∃ ws : List ℚ, List.Forall₂ (fun e w => ∃ i j, e = (.inl i, .inl j) ∧ g.Weighs i j w) (tspEdgelist x) ws ∧
      ws.sum = p.objective.val (pt x) := by
  have hadj : ∀ i < g.n, ∀ j < g.n, i ≠ j → g.Weighs i j (g.weight i j) := by
    intro i hi j hj hij
    by_contra hc
    have : ∃ w, g.Weighs i j w := by
      by_contra hw
      rw [C49_rejects hi hj hij hw] at hp
      simp at hp
    obtain ⟨w, hw⟩ := this
    apply hc
    unfold Graph.weight
    rw [weight_of_weighs hsim hw]
    exact hw
  have hzl : z.length = g.n := by simpa using hz.length_eq
  have hnd : z.Nodup := hz.nodup_iff.mpr List.nodup_range
  have hval := C49_objective hp hn hsim hadj hz hx
  obtain ⟨m, hm⟩ : ∃ m, g.n = m + 1 := ⟨g.n - 1, by omega⟩
  rw [tspValue_eq (hzl.trans hm), ← hm] at hval
  simp only [Except.ok.injEq] at hval
  refine ⟨(List.range g.n).map fun k => g.weight (z.getD k 0) (z.getD ((k + 1) % g.n) 0), ?_, ?_⟩
  · rw [tspEdgelist_eq hz hl hx, List.forall₂_map_left_iff, List.forall₂_map_right_iff, List.forall₂_same]
    intro k hk
    have hk := List.mem_range.mp hk
    have hk' : (k + 1) % g.n < g.n := Nat.mod_lt _ (by omega)
    have h1 : z.getD k 0 = z[k] := by simp [hzl, hk]
    have h2 : z.getD ((k + 1) % g.n) 0 = z[(k + 1) % g.n] := by simp [hzl, hk']
    refine ⟨_, _, rfl, ?_⟩
    rw [h1, h2]
    refine hadj _ (perm_lt hz _ (List.getElem_mem _)) _ (perm_lt hz _ (List.getElem_mem _)) fun h => ?_
    have := (List.Nodup.getElem_inj_iff hnd).mp h
    by_cases hlast : k + 1 = g.n
    · rw [hlast, Nat.mod_self] at this; omega
    · rw [Nat.mod_eq_of_lt (by omega)] at this; omega
  · rw [← hval]
    exact lsum_range _ _

example : tspEdgelist [0, 1, 0, 1, 0, 0, 0, 0, 1] = [(.inl 1, .inl 0), (.inl 0, .inl 2), (.inl 2, .inl 1)] := by
  decide +kernel

theorem range_getD {α : Type} (l : List α) (d : α) : (List.range l.length).map (fun k => l.getD k d) = l := by
  apply List.ext_getElem (by simp)
  intro i h1 h2
  simp [h2]

theorem zipIdx_getD {α : Type} (l : List α) (d : α) :
    l.zipIdx = (List.range l.length).map fun k => (l.getD k d, k) := by
  apply List.ext_getElem (by simp)
  intro i h1 h2
  have : i < l.length := by simpa using h1
  simp [this]

theorem zip_flatMap {α β γ : Type} (l : List α) (f : α → List β) (c : α → γ) :
    (l.flatMap f).zip (l.flatMap fun k => (f k).map fun _ => c k) =
      (l.map fun k => (f k).map fun e => (e, c k)).flatten := by
  induction l with
  | nil => rfl
  | cons a l ih =>
    rw [List.flatMap_cons, List.flatMap_cons, List.zip_append (by simp), ih, List.map_cons, List.flatten_cons]
    congr 1
    generalize f a = b
    induction b with
    | nil => rfl
    | cons e b ihb => rw [List.map_cons, List.zip_cons_cons, ihb, List.map_cons]

/-- **C76, vehicle routing.** The edges of all routes are drawn, each with the colour of its route; different routes have
different colours, between 0 and 1. -/
theorem C76_vrp (routes : List (List (Nat × Nat))) : ∃ color : Nat → ℚ,
    (vrpEdgelist routes).zip (vrpEdgeColor routes) = (routes.zipIdx.map fun q => q.1.map fun e => (e, color q.2)).flatten ∧
    vrpEdgelist routes = routes.flatten ∧ (vrpEdgeColor routes).length = (vrpEdgelist routes).length ∧
    (∀ k < routes.length, ∀ l < routes.length, color k = color l → k = l) ∧
    ∀ k < routes.length, 0 ≤ color k ∧ color k < 1 := by
  refine ⟨fun k => (k : ℚ) / routes.length, ?_, ?_, ?_, fun k hk l hl h => ?_, fun k hk => ?_⟩
  · rw [zipIdx_getD routes [], List.map_map]
    exact zip_flatMap _ _ _
  · unfold vrpEdgelist
    rw [List.flatMap_def, range_getD]
  · unfold vrpEdgeColor vrpEdgelist
    rw [List.length_flatMap, List.length_flatMap]
    simp
  · have hpos : (routes.length : ℚ) ≠ 0 := by
      have : routes.length ≠ 0 := by omega
      exact_mod_cast this
    rw [div_left_inj' hpos] at h
    exact_mod_cast h
  · have hpos : (0 : ℚ) < routes.length := by
      have : 0 < routes.length := by omega
      exact_mod_cast this
    refine ⟨by positivity, ?_⟩
    rw [div_lt_one hpos]
    exact_mod_cast hk

example : vrpEdgelist [[(1, 0), (0, 3), (3, 1)], [(1, 2), (2, 1)]] = [(1, 0), (0, 3), (3, 1), (1, 2), (2, 1)] ∧
    vrpEdgeColor [[(1, 0), (0, 3), (3, 1)], [(1, 2), (2, 1)]] = [0, 0, 0, 1 / 2, 1 / 2] := by decide +kernel

end Verif
