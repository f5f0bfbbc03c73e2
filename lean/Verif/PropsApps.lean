import Verif.AppsLemmas
import Verif.PropsProgram

/-!
# C42-C45: applications on graphs
-/

namespace Verif

/-- The variables of the application programs: binary, named `x_0, x_1, ...`. -/
def AppVariables (n : Nat) (p : QP) : Prop :=
  p.vars = (List.range n).map fun i => ⟨"x_" ++ toString i, 0, 1, .binary⟩

theorem BinProgram.appVariables {n : Nat} {m : DModel} {p : QP}
    (h : BinProgram ((List.range n).map fun i => "x_" ++ toString i) m p) : AppVariables n p := by
  unfold AppVariables
  rw [h.vars]
  simp [binaries, List.map_map, Function.comp_def]

theorem BinProgram.appFeas {n : Nat} {m : DModel} {p : QP}
    (h : BinProgram ((List.range n).map fun i => "x_" ++ toString i) m p) (x : Nat → ℚ) :
    p.Feas x ↔ Binary n x ∧ ∀ c ∈ m.csts, c.Holds x := by
  have := h.feas x
  simpa using this

/-- A triangle with weights 2, (none) and -1, and an isolated node. -/
def sampleGraph : Graph := ⟨4, [(0, 1, some 2), (2, 1, none), (0, 2, some (-1))]⟩

/-! ## C42 -/

theorem maxcutTerm_wf {n : Nat} {e : Nat × Nat × Option ℚ} (h : e.1 < n ∧ e.2.1 < n) : (maxcutTerm e).WF n :=
  (((var_wf h.1).smul _).mul ((const_wf n 1).sub (var_wf h.2))).add
    (((var_wf h.2).smul _).mul ((const_wf n 1).sub (var_wf h.1)))

theorem maxcutTerm_val (e : Nat × Nat × Option ℚ) (x : Nat → ℚ) : (maxcutTerm e).val x =
    edgeWeight e * (x e.1 * (1 - x e.2.1) + x e.2.1 * (1 - x e.1)) := by
  unfold maxcutTerm
  rw [DExpr.val_add, DExpr.val_mul _ _ (by rfl) (by rfl), DExpr.val_mul _ _ (by rfl) (by rfl)]
  simp only [DExpr.val_smul, DExpr.val_sub, DExpr.val_var, DExpr.val_const]
  ring

/-- **C42.** The program has one binary variable for each node and no constraints, its objective is to be maximized, and
at a 0/1 vector it is the total weight of the edges whose ends have different values.  The weight of an edge without
weight is one. -/
theorem C42_model (g : Graph) (hk : ∀ e ∈ g.edges, e.1 < g.n ∧ e.2.1 < g.n) : ∃ p, maxcutProgram g = .ok p ∧
    AppVariables g.n p ∧ p.objective.sense = .maximize ∧ (∀ x, p.Feas x ↔ ∀ i < g.n, x i = 0 ∨ x i = 1) ∧
    ∀ x, (∀ i < g.n, x i = 0 ∨ x i = 1) → p.objective.val x =
      ((g.edges.filter fun e => decide (x e.1 ≠ x e.2.1)).map fun e => e.2.2.getD 1).sum := by
  obtain ⟨p, hp, hb⟩ := loadModel_app (name := "Max-cut") (n := g.n) (min := false)
    (obj := DExpr.sum (g.edges.map maxcutTerm)) (csts := []) (sum_wf fun a ha => by
      obtain ⟨e, he, rfl⟩ := List.mem_map.mp ha
      exact maxcutTerm_wf (hk e he)) (by simp) (by simp)
  refine ⟨p, by unfold maxcutProgram; rw [if_pos (keysOK_iff.mpr hk), hp], hb.appVariables, hb.sense, ?_, ?_⟩
  · intro x
    rw [hb.appFeas]
    simp [Binary]
  · intro x hx
    rw [hb.obj]
    simp only [DExpr.val_sum, List.map_map]
    generalize g.edges = l at hk
    clear hb hp
    induction l with
    | nil => simp
    | cons e l ih =>
      rw [List.map_cons, List.sum_cons, ih fun e' he' => hk e' (by simp [he']), Function.comp_apply, maxcutTerm_val]
      obtain ⟨k1, k2⟩ := hk e (by simp)
      rcases hx _ k1 with h1 | h1 <;> rcases hx _ k2 with h2 | h2 <;>
        simp [h1, h2, edgeWeight]

/-- **C42.** An edge with an end that is not among `0, ..., n - 1` raises `KeyError`. -/
theorem C42_rejects (g : Graph) (hk : ∃ e ∈ g.edges, ¬ (e.1 < g.n ∧ e.2.1 < g.n)) :
    maxcutProgram g = .error .keyError := by
  unfold maxcutProgram
  rw [if_neg]
  rw [keysOK_iff]
  obtain ⟨e, he, h⟩ := hk
  exact fun hc => h (hc e he)

/-- **C42.** `interpret` returns the positions with value zero and the positions with another value, each in ascending
order. -/
theorem C42_interpret (x : List ℚ) :
    (∀ i, i ∈ (interpretSides x).1 ↔ i < x.length ∧ x.getD i 0 = 0) ∧
    (∀ i, i ∈ (interpretSides x).2 ↔ i < x.length ∧ x.getD i 0 ≠ 0) ∧
    (interpretSides x).1.Pairwise (· < ·) ∧ (interpretSides x).2.Pairwise (· < ·) := by
  rw [interpretSides_eq]
  exact ⟨by intro i; simp, by intro i; simp, List.pairwise_lt_range.filter _, List.pairwise_lt_range.filter _⟩

/-- **C42.** The objective at a 0/1 vector is the weight of the edges between the two sides that `interpret` returns. -/
theorem C42_cut {g : Graph} {p : QP} (h : maxcutProgram g = .ok p) {x : List ℚ} (hl : x.length = g.n)
    (hx : ∀ v ∈ x, v = 0 ∨ v = 1) : p.objective.val (pt x) = ((g.edges.filter fun e => decide
      ((e.1 ∈ (interpretSides x).1 ∧ e.2.1 ∈ (interpretSides x).2) ∨
        (e.1 ∈ (interpretSides x).2 ∧ e.2.1 ∈ (interpretSides x).1))).map fun e => e.2.2.getD 1).sum := by
  have hk : ∀ e ∈ g.edges, e.1 < g.n ∧ e.2.1 < g.n := by
    by_contra hc
    push Not at hc
    obtain ⟨e, he, hc⟩ := hc
    rw [C42_rejects g ⟨e, he, fun hh => absurd hh.2 (by simpa using hc hh.1)⟩] at h
    simp at h
  obtain ⟨p', h', _, _, _, hv⟩ := C42_model g hk
  rw [h] at h'
  simp only [Except.ok.injEq] at h'
  subst h'
  have hb : ∀ i < g.n, pt x i = 0 ∨ pt x i = 1 := by
    intro i hi
    have : x.getD i 0 ∈ x := by
      rw [List.getD_eq_getElem?_getD, List.getElem?_eq_getElem (by omega)]; exact List.getElem_mem _
    exact hx _ this
  rw [hv _ hb]
  congr 2
  refine List.filter_congr fun e he => ?_
  obtain ⟨k1, k2⟩ := hk e he
  obtain ⟨i1, i2, _⟩ := C42_interpret x
  simp only [i1, i2, hl, k1, k2, true_and, decide_eq_decide]
  have e1 := hb _ k1
  have e2 := hb _ k2
  unfold pt at e1 e2 ⊢
  rcases e1 with e1 | e1 <;> rcases e2 with e2 | e2 <;> rw [e1, e2] <;> norm_num

/-- The hypotheses of the theorems on max-cut are met by the sample, whose cut of node 1 has weight 3. -/
example : (∀ e ∈ sampleGraph.edges, e.1 < sampleGraph.n ∧ e.2.1 < sampleGraph.n) ∧
    (maxcutProgram sampleGraph).toOption.map (fun p => p.objective.val (pt [0, 1, 0, 0])) = some 3 ∧
    interpretSides [0, 1, 0, 0] = ([0, 2, 3], [1]) := by decide +kernel

example : ∃ e ∈ (⟨2, [(0, 2, none)]⟩ : Graph).edges, ¬ (e.1 < 2 ∧ e.2.1 < 2) := by decide

/-! ## C43 -/

theorem edgeProgram (name : String) (s : Sense) (min : Bool) (g : Graph)
    (hk : ∀ e ∈ g.edges, e.1 < g.n ∧ e.2.1 < g.n) :
    ∃ p, loadModel ⟨name, appVars g.n, min, sumVars g.n, g.edges.map fun e => edgeCst s e.1 e.2.1⟩ = .ok p ∧
      AppVariables g.n p ∧ p.objective.sense = (if min then .minimize else .maximize) ∧
      (∀ x, Binary g.n x → p.objective.val x = ones g.n x) ∧
      ∀ x, p.Feas x ↔ Binary g.n x ∧ ∀ e ∈ g.edges, s.rel (x e.1 + x e.2.1) 1 := by
  obtain ⟨p, hp, hb⟩ := loadModel_app (name := name) (n := g.n) (min := min) (obj := sumVars g.n)
    (csts := g.edges.map fun e => edgeCst s e.1 e.2.1) (sumVars_wf _) (by
      intro c hc
      obtain ⟨e, he, rfl⟩ := List.mem_map.mp hc
      exact edgeCst_wf s (hk e he).1 (hk e he).2) (by
      intro c hc
      obtain ⟨e, _, rfl⟩ := List.mem_map.mp hc
      exact ⟨Or.inl rfl, rfl⟩)
  refine ⟨p, hp, hb.appVariables, hb.sense, ?_, ?_⟩
  · intro x hx
    rw [hb.obj, sumVars_ones hx]
  · intro x
    rw [hb.appFeas]
    simp only [List.mem_map, forall_exists_index, and_imp, forall_apply_eq_imp_iff₂, edgeCst, DCst.Holds, DExpr.val_add,
      DExpr.val_var, DExpr.val_const]

/-- **C43.** The feasible points of the stable set program are the 0/1 vectors with no edge between two nodes of value one;
the objective, to be maximized, is the number of ones. -/
theorem C43_stable_set (g : Graph) (hk : ∀ e ∈ g.edges, e.1 < g.n ∧ e.2.1 < g.n) : ∃ p, stableSetProgram g = .ok p ∧
    AppVariables g.n p ∧ p.objective.sense = .maximize ∧
    (∀ x, p.Feas x ↔ (∀ i < g.n, x i = 0 ∨ x i = 1) ∧ ∀ e ∈ g.edges, ¬ (x e.1 = 1 ∧ x e.2.1 = 1)) ∧
    ∀ x, (∀ i < g.n, x i = 0 ∨ x i = 1) →
      p.objective.val x = (((List.range g.n).filter fun i => decide (x i = 1)).length : ℚ) := by
  obtain ⟨p, hp, h1, h2, h3, h4⟩ := edgeProgram "Stable set" .le false g hk
  refine ⟨p, by unfold stableSetProgram; rw [if_pos (keysOK_iff.mpr hk), hp], h1, h2, ?_, h3⟩
  intro x
  rw [h4]
  refine and_congr_right fun hb => forall₂_congr fun e he => ?_
  obtain ⟨k1, k2⟩ := hk e he
  simp only [Sense.rel]
  rcases hb _ k1 with e1 | e1 <;> rcases hb _ k2 with e2 | e2 <;> rw [e1, e2] <;> norm_num

/-- **C43.** The feasible points of the vertex cover program are the 0/1 vectors for which every edge has an end of value
one; the objective, to be minimized, is the number of ones. -/
theorem C43_vertex_cover (g : Graph) (hk : ∀ e ∈ g.edges, e.1 < g.n ∧ e.2.1 < g.n) : ∃ p, vertexCoverProgram g = .ok p ∧
    AppVariables g.n p ∧ p.objective.sense = .minimize ∧
    (∀ x, p.Feas x ↔ (∀ i < g.n, x i = 0 ∨ x i = 1) ∧ ∀ e ∈ g.edges, x e.1 = 1 ∨ x e.2.1 = 1) ∧
    ∀ x, (∀ i < g.n, x i = 0 ∨ x i = 1) →
      p.objective.val x = (((List.range g.n).filter fun i => decide (x i = 1)).length : ℚ) := by
  obtain ⟨p, hp, h1, h2, h3, h4⟩ := edgeProgram "Vertex cover" .ge true g hk
  refine ⟨p, by unfold vertexCoverProgram; rw [if_pos (keysOK_iff.mpr hk), hp], h1, h2, ?_, h3⟩
  intro x
  rw [h4]
  refine and_congr_right fun hb => forall₂_congr fun e he => ?_
  obtain ⟨k1, k2⟩ := hk e he
  simp only [Sense.rel]
  rcases hb _ k1 with e1 | e1 <;> rcases hb _ k2 with e2 | e2 <;> rw [e1, e2] <;> norm_num

/-- **C43.** `interpret` returns the positions whose value is not zero, in ascending order. -/
theorem C43_interpret (x : List ℚ) : (∀ i, i ∈ interpretSet x ↔ i < x.length ∧ x.getD i 0 ≠ 0) ∧
    (interpretSet x).Pairwise (· < ·) := by
  rw [interpretSet_eq]
  exact ⟨(C42_interpret x).2.1, (C42_interpret x).2.2.2⟩

theorem keys_of_stable {g : Graph} {p : QP} (h : stableSetProgram g = .ok p) :
    ∀ e ∈ g.edges, e.1 < g.n ∧ e.2.1 < g.n := by
  rw [← keysOK_iff]
  by_contra hc
  unfold stableSetProgram at h
  rw [if_neg hc] at h
  simp at h

theorem ones_complement {n : Nat} {x : Nat → ℚ} (h : Binary n x) : (ones n (fun i => 1 - x i) : ℚ) = n - ones n x := by
  have h' : Binary n (fun i => 1 - x i) := by
    intro i hi
    rcases h i hi with e | e <;> simp [e]
  rw [← sumVars_ones h, ← sumVars_ones h', sumVars_val, sumVars_val]
  clear h h'
  induction n with
  | zero => simp
  | succ n ih => rw [List.range_succ, List.map_append, List.map_append, List.sum_append, List.sum_append, ih]; simp; ring

/-- **C43.** A point is a stable set if and only if its complement is a vertex cover, and it is a maximum stable set if and
only if its complement is a minimum vertex cover. -/
theorem C43_complement {g : Graph} {p q : QP} (hp : stableSetProgram g = .ok p) (hq : vertexCoverProgram g = .ok q)
    (x : Nat → ℚ) : (p.Feas x ↔ q.Feas fun i => 1 - x i) ∧
      (OptimalIn p.Feas p.objective x ↔ OptimalIn q.Feas q.objective fun i => 1 - x i) := by
  have hk := keys_of_stable hp
  obtain ⟨p', e1, _, ps, pf, po⟩ := C43_stable_set g hk
  obtain ⟨q', e2, _, qs, qf, qo⟩ := C43_vertex_cover g hk
  rw [hp] at e1
  rw [hq] at e2
  simp only [Except.ok.injEq] at e1 e2
  subst e1; subst e2
  have hflip : ∀ x : Nat → ℚ, (fun i => 1 - (fun i => 1 - x i) i) = x := by intro x; funext i; simp
  have hbin : ∀ x : Nat → ℚ, (∀ i < g.n, x i = 0 ∨ x i = 1) ↔ ∀ i < g.n, 1 - x i = 0 ∨ 1 - x i = 1 := by
    intro x
    refine forall₂_congr fun i _ => ?_
    constructor
    · rintro (h | h) <;> simp [h]
    · rintro (h | h)
      · right; linarith
      · left; linarith
  have feas : ∀ x : Nat → ℚ, p.Feas x ↔ q.Feas fun i => 1 - x i := by
    intro x
    rw [pf, qf, ← hbin]
    refine and_congr_right fun hb => forall₂_congr fun e he => ?_
    obtain ⟨k1, k2⟩ := hk e he
    rcases hb _ k1 with e1 | e1 <;> rcases hb _ k2 with e2 | e2 <;> simp [e1, e2]
  have val : ∀ x : Nat → ℚ, p.Feas x → q.objective.val (fun i => 1 - x i) = g.n - p.objective.val x := by
    intro x hx
    have hb := ((pf x).mp hx).1
    have hb' := (hbin x).mp hb
    rw [po x hb, qo _ hb']
    exact ones_complement hb
  refine ⟨feas x, ?_⟩
  unfold OptimalIn
  rw [ps, qs, ← feas]
  refine and_congr_right fun hx => ?_
  simp only [ObjSense.value]
  constructor
  · intro h y hy
    have hy' : p.Feas fun i => 1 - y i := by rw [feas, hflip]; exact hy
    have h1 := h _ hy'
    have h2 := val _ hy'
    rw [hflip] at h2
    rw [val x hx, h2]
    linarith
  · intro h y hy
    have h1 := h _ ((feas y).mp hy)
    rw [val x hx, val y hy] at h1
    linarith

/-- The hypotheses are met by the sample: nodes 1 and 3 are a stable set. -/
example : (∀ e ∈ sampleGraph.edges, e.1 < sampleGraph.n ∧ e.2.1 < sampleGraph.n) ∧
    (stableSetProgram sampleGraph).toOption.map (fun p => p.lins.length) = some 3 ∧
    (vertexCoverProgram sampleGraph).toOption.map (fun p => p.lins.length) = some 3 ∧
    interpretSet [0, 1, 0, 1] = [1, 3] := by decide +kernel

/-! ## C44 -/

theorem mem_complementEdges {g : Graph} {i j : Nat} : (i, j) ∈ g.complementEdges ↔
    i < j ∧ j < g.n ∧ g.hasEdge i j = false := by
  unfold Graph.complementEdges
  simp only [List.mem_flatMap, List.mem_map, List.mem_filter, List.mem_range, Bool.and_eq_true, decide_eq_true_eq,
    Bool.not_eq_true', Prod.mk.injEq, exists_eq_right_right]
  constructor
  · rintro ⟨_, h1, h2, h3⟩
    exact ⟨h2, h1, h3⟩
  · rintro ⟨h1, h2, h3⟩
    exact ⟨by omega, h2, h1, h3⟩

/-- There is an edge between the nodes. -/
def Graph.Adj (g : Graph) (i j : Nat) : Prop :=
  ∃ e ∈ g.edges, (e.1 = i ∧ e.2.1 = j) ∨ (e.1 = j ∧ e.2.1 = i)

theorem hasEdge_iff {g : Graph} {i j : Nat} : g.hasEdge i j = true ↔ g.Adj i j := by
  simp [Graph.hasEdge, Graph.Adj]

/-- The nodes of value one are pairwise joined by edges. -/
def Graph.IsClique (g : Graph) (x : Nat → ℚ) : Prop :=
  ∀ i < g.n, ∀ j < g.n, i ≠ j → x i = 1 → x j = 1 → g.Adj i j

theorem Graph.Adj.symm {g : Graph} {i j : Nat} (h : g.Adj i j) : g.Adj j i := by
  obtain ⟨e, he, h⟩ := h
  exact ⟨e, he, h.symm⟩

theorem clique_csts {g : Graph} {x : Nat → ℚ} (hb : Binary g.n x) :
    (∀ c ∈ g.complementEdges.map (fun e => edgeCst .le e.1 e.2), c.Holds x) ↔ g.IsClique x := by
  simp only [List.mem_map, forall_exists_index, and_imp, forall_apply_eq_imp_iff₂, edgeCst, DCst.Holds, DExpr.val_add,
      DExpr.val_var, DExpr.val_const, Sense.rel]
  constructor
  · intro h i hi j hj hij e1 e2
    by_contra hc
    have key : ∀ i j, i < j → j < g.n → ¬ g.Adj i j → x i = 1 → x j = 1 → False := by
      intro i j h1 h2 h3 e1 e2
      have := h (i, j) (mem_complementEdges.mpr ⟨h1, h2, by rw [← hasEdge_iff] at h3; simpa using h3⟩)
      simp only [e1, e2] at this
      norm_num at this
    rcases Nat.lt_or_gt_of_ne hij with h1 | h1
    · exact key i j h1 hj hc e1 e2
    · exact key j i h1 hi (fun h => hc h.symm) e2 e1
  · rintro h ⟨i, j⟩ he
    obtain ⟨h1, h2, h3⟩ := mem_complementEdges.mp he
    have h3 : ¬ g.Adj i j := by rw [← hasEdge_iff]; simp [h3]
    have h4 := h i (by omega) j h2 (by omega)
    rcases hb i (by omega) with e1 | e1 <;> rcases hb j h2 with e2 | e2 <;> simp only [e1, e2]
    · norm_num
    · norm_num
    · norm_num
    · exact absurd (h4 e1 e2) h3

theorem clique_wf (g : Graph) : ∀ c ∈ g.complementEdges.map (fun e => edgeCst .le e.1 e.2), c.WF g.n := by
  intro c hc
  obtain ⟨⟨i, j⟩, he, rfl⟩ := List.mem_map.mp hc
  obtain ⟨h1, h2, _⟩ := mem_complementEdges.mp he
  exact edgeCst_wf _ (by simp only; omega) h2

theorem clique_kind (g : Graph) : ∀ c ∈ g.complementEdges.map (fun e => edgeCst .le e.1 e.2),
    (c.isLin = true ∨ c.isQuad = true) ∧ c.name = none := by
  intro c hc
  obtain ⟨e, _, rfl⟩ := List.mem_map.mp hc
  exact ⟨Or.inl rfl, rfl⟩

/-- **C44.** Without a size, the feasible points are the 0/1 vectors of cliques, and the objective, to be maximized, is the
number of nodes of the clique. -/
theorem C44_maximum (g : Graph) : ∃ p, cliqueProgram g none = .ok p ∧ AppVariables g.n p ∧
    p.objective.sense = .maximize ∧
    (∀ x, p.Feas x ↔ (∀ i < g.n, x i = 0 ∨ x i = 1) ∧
      ∀ i < g.n, ∀ j < g.n, i ≠ j → x i = 1 → x j = 1 → g.Adj i j) ∧
    ∀ x, (∀ i < g.n, x i = 0 ∨ x i = 1) →
      p.objective.val x = (((List.range g.n).filter fun i => decide (x i = 1)).length : ℚ) := by
  obtain ⟨p, hp, hb⟩ := loadModel_app (name := "Clique") (n := g.n) (min := false) (obj := sumVars g.n)
    (csts := g.complementEdges.map fun e => edgeCst .le e.1 e.2) (sumVars_wf _) (clique_wf g) (clique_kind g)
  refine ⟨p, hp, hb.appVariables, hb.sense, ?_, ?_⟩
  · intro x
    rw [hb.appFeas]
    exact and_congr_right fun h => clique_csts h
  · intro x hx
    rw [hb.obj, sumVars_ones hx]
    rfl

/-- **C44.** With a size, the feasible points are the 0/1 vectors of cliques of this size; the objective is constant. -/
theorem C44_size (g : Graph) (k : ℤ) : ∃ p, cliqueProgram g (some k) = .ok p ∧ AppVariables g.n p ∧
    (∀ x, p.Feas x ↔ (∀ i < g.n, x i = 0 ∨ x i = 1) ∧
      (∀ i < g.n, ∀ j < g.n, i ≠ j → x i = 1 → x j = 1 → g.Adj i j) ∧
      (((List.range g.n).filter fun i => decide (x i = 1)).length : ℤ) = k) ∧
    ∀ x, p.objective.val x = 0 := by
  obtain ⟨p, hp, hb⟩ := loadModel_app (name := "Clique") (n := g.n) (min := true) (obj := .const 0)
    (csts := (g.complementEdges.map fun e => edgeCst .le e.1 e.2) ++ [.linear (sumVars g.n) .eq (.const k) none])
    (const_wf _ _) (by
      intro c hc
      rcases List.mem_append.mp hc with hc | hc
      · exact clique_wf g c hc
      · rw [List.mem_singleton.mp hc]
        exact ⟨sumVars_wf _, const_wf _ _, sumVars_isQuad _, rfl⟩) (by
      intro c hc
      rcases List.mem_append.mp hc with hc | hc
      · exact clique_kind g c hc
      · rw [List.mem_singleton.mp hc]
        exact ⟨Or.inl rfl, rfl⟩)
  refine ⟨p, hp, hb.appVariables, ?_, ?_⟩
  · intro x
    rw [hb.appFeas]
    refine and_congr_right fun h => ?_
    simp only [List.mem_append, or_imp, forall_and]
    refine and_congr (clique_csts h) ?_
    simp only [List.mem_singleton, forall_eq, DCst.Holds, sumVars_ones h, DExpr.val_const, Sense.rel, ones]
    norm_cast
  · intro x
    rw [hb.obj]
    exact DExpr.val_const 0 x

/-- The sample graph has the clique 0, 1, 2; node 3 is joined with no other node. -/
example : (cliqueProgram sampleGraph none).toOption.map (fun p => p.lins.length) = some 3 ∧
    (cliqueProgram sampleGraph (some 3)).toOption.map (fun p => p.lins.length) = some 4 ∧
    sampleGraph.complementEdges = [(0, 3), (1, 3), (2, 3)] := by decide +kernel

/-! ## C45 -/

theorem partitionTerm_wf {n : Nat} {e : Nat × Nat × Option ℚ} (h : e.1 < n ∧ e.2.1 < n) : (partitionTerm e).WF n :=
  (((var_wf h.1).add (var_wf h.2)).sub (((var_wf h.1).smul 2).mul (var_wf h.2))).smul _

theorem partitionTerm_val (e : Nat × Nat × Option ℚ) (x : Nat → ℚ) : (partitionTerm e).val x =
    edgeWeight e * (x e.1 + x e.2.1 - 2 * x e.1 * x e.2.1) := by
  unfold partitionTerm
  rw [DExpr.val_smul, DExpr.val_sub, DExpr.val_mul _ _ (by rfl) (by rfl)]
  simp only [DExpr.val_add, DExpr.val_smul, DExpr.val_var]

/-- **C45.** The feasible points are the 0/1 vectors with `n // 2` ones, and the objective, to be minimized, is the total
weight of the edges between the parts. -/
theorem C45_model (g : Graph) (hk : ∀ e ∈ g.edges, e.1 < g.n ∧ e.2.1 < g.n) : ∃ p, graphPartitionProgram g = .ok p ∧
    AppVariables g.n p ∧ p.objective.sense = .minimize ∧
    (∀ x, p.Feas x ↔ (∀ i < g.n, x i = 0 ∨ x i = 1) ∧
      ((List.range g.n).filter fun i => decide (x i = 1)).length = g.n / 2) ∧
    ∀ x, (∀ i < g.n, x i = 0 ∨ x i = 1) → p.objective.val x =
      ((g.edges.filter fun e => decide (x e.1 ≠ x e.2.1)).map fun e => e.2.2.getD 1).sum := by
  obtain ⟨p, hp, hb⟩ := loadModel_app (name := "Graph partition") (n := g.n) (min := true)
    (obj := DExpr.sum (g.edges.map partitionTerm))
    (csts := [.linear (sumVars g.n) .eq (.const ((g.n / 2 : Nat) : ℚ)) none]) (sum_wf fun a ha => by
      obtain ⟨e, he, rfl⟩ := List.mem_map.mp ha
      exact partitionTerm_wf (hk e he)) (by
      intro c hc
      rw [List.mem_singleton.mp hc]
      exact ⟨sumVars_wf _, const_wf _ _, sumVars_isQuad _, rfl⟩) (by
      intro c hc
      rw [List.mem_singleton.mp hc]
      exact ⟨Or.inl rfl, rfl⟩)
  refine ⟨p, by unfold graphPartitionProgram; rw [if_pos (keysOK_iff.mpr hk), hp], hb.appVariables, hb.sense, ?_, ?_⟩
  · intro x
    rw [hb.appFeas]
    refine and_congr_right fun h => ?_
    simp only [List.mem_singleton, forall_eq, DCst.Holds, sumVars_ones h, DExpr.val_const, Sense.rel, ones, Nat.cast_inj]
  · intro x hx
    rw [hb.obj]
    simp only [DExpr.val_sum, List.map_map]
    generalize g.edges = l at hk
    clear hb hp
    induction l with
    | nil => simp
    | cons e l ih =>
      rw [List.map_cons, List.sum_cons, ih fun e' he' => hk e' (by simp [he']), Function.comp_apply, partitionTerm_val]
      obtain ⟨k1, k2⟩ := hk e (by simp)
      rcases hx _ k1 with h1 | h1 <;> rcases hx _ k2 with h2 | h2 <;>
        norm_num [h1, h2, edgeWeight]

/-- The hypotheses are met by the sample: the parts 0, 1 and 2, 3 are joined by the edges of weights 1 and -1. -/
example : (∀ e ∈ sampleGraph.edges, e.1 < sampleGraph.n ∧ e.2.1 < sampleGraph.n) ∧
    (graphPartitionProgram sampleGraph).toOption.map (fun p => p.objective.val (pt [1, 1, 0, 0])) = some 0 := by
  decide +kernel

end Verif
