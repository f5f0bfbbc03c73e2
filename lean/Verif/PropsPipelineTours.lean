import Verif.PropsPipelineItems

/-!
# C71: tours and routes solved through the QUBO and an exact eigensolver
-/

namespace Verif

theorem pairNames_noAt (keys : List (Nat × Nat)) : ∀ s ∈ keys.map pairName, '@' ∉ s.toList := by
  intro s hs
  obtain ⟨q, _, rfl⟩ := List.mem_map.mp hs
  unfold pairName
  rw [String.toList_append, String.toList_append, String.toList_append, List.mem_append, List.mem_append,
    List.mem_append]
  rintro (((h | h) | h) | h)
  · simp at h
  · exact toString_noAt _ h
  · simp at h
  · exact toString_noAt _ h

theorem solves_pairs {solver : QubitOp → Option Eigenstate} (hsol : ExactSolver solver) {name : String}
    {keys : List (Nat × Nat)} {min : Bool} {obj : DExpr} {csts : List DCst} (hn : keys.Nodup) (h0 : keys ≠ [])
    (ho : obj.WF keys.length) (hc : ∀ c ∈ csts, c.WF keys.length)
    (hs : ∀ c ∈ csts, c.isLin = true ∧ c.name = none) (hz : ∀ c ∈ csts, c.IntStep) {p : QP}
    (hp : loadModel ⟨name, pairVars keys, min, obj, csts⟩ = .ok p) (hf : ∃ x, p.Feas x) :
    ∃ y, Solves solver p y ∧ y.length = keys.length ∧ OptimalIn p.Feas p.objective (pt y) := by
  rw [pairVars_eq] at hp
  obtain ⟨y, h1, h2, h3⟩ := solves_model hsol (pairNames_nodup hn) (pairNames_noAt keys) (by simpa using h0)
    (by simpa using ho) (by simpa using hc) hs hz hp hf
  exact ⟨y, h1, by simpa using h2, h3⟩

/-- A sum of variables gives an integral constraint. -/
theorem varSum_int {n : Nat} {l : List DExpr} {s : Sense} {c : ℚ}
    (hc : (DCst.linear (DExpr.sum l) s (.const c) none).WF n) (h : ∀ a ∈ l, ∃ i, a = .var i) :
    (DCst.linear (DExpr.sum l) s (.const c) none).IntStep := by
  refine intStep_of_val hc.1 hc.2.2.1 _ _ fun x hx => ?_
  rw [DExpr.val_sum]
  refine int_sum fun a ha => ?_
  obtain ⟨i, rfl⟩ := h a ha
  rw [DExpr.val_var]
  exact hx i

/-! ## Tours -/

theorem tourPoint_exists (n : Nat) (z : List Nat) : ∃ x, TourPoint n z x := by
  refine ⟨fun q => if z.getD (q % n) 0 = q / n then 1 else 0, fun i hi k hk => ?_⟩
  have e1 : (i * n + k) % n = k := by rw [Nat.add_comm, Nat.add_mul_mod_self_right, Nat.mod_eq_of_lt hk]
  have e2 : (i * n + k) / n = i := by
    rw [Nat.add_comm, Nat.add_mul_div_right _ _ (by omega), Nat.div_eq_of_lt hk, Nat.zero_add]
  simp only [e1, e2]

/-- **C71, traveling salesman.** The reported list is an ordering of all nodes, and no closed tour is shorter. -/
theorem C71_tsp (solver : QubitOp → Option Eigenstate) (hsol : ExactSolver solver) (g : Graph) (hn : 2 ≤ g.n)
    (hsim : g.Simple) (adj : Nat → Nat → ℚ) (hadj : ∀ i < g.n, ∀ j < g.n, i ≠ j → g.Weighs i j (adj i j)) :
    ∃ p y, ∃ z : List Nat, tspProgram g = .ok p ∧ Solves solver p y ∧ tspInterpret y = z.map .inl ∧
      z.Perm (List.range g.n) ∧ tspValue z adj = .ok (p.objective.val (pt y)) ∧
      ∀ z' : List Nat, z'.Perm (List.range g.n) → ∃ v, tspValue z' adj = .ok v ∧ p.objective.val (pt y) ≤ v := by
  have hg : ∀ i < g.n, ∀ j < g.n, i ≠ j → ∃ w, g.weight? i j = some w :=
    fun i hi j hj hij => ⟨_, weight_of_weighs hsim (hadj i hi j hj hij)⟩
  obtain ⟨p, hp, hse, hv, hfe⟩ := C49_feasible g hsim fun i hi j hj hij => ⟨_, hadj i hi j hj hij⟩
  have hm := hp
  unfold tspProgram at hm
  rw [if_pos (complete_iff.mpr hg)] at hm
  have hclass : ∀ c ∈ ((List.range g.n).map fun i =>
        DCst.linear (DExpr.sum ((List.range g.n).map fun k => tspVar g.n i k)) .eq (.const 1) none) ++
      ((List.range g.n).map fun k =>
        .linear (DExpr.sum ((List.range g.n).map fun i => tspVar g.n i k)) .eq (.const 1) none),
      c.WF (g.n * g.n) ∧ (c.isLin = true ∧ c.name = none) ∧ c.IntStep := by
    intro c hc
    rcases List.mem_append.mp hc with hc | hc <;> obtain ⟨i, hi, rfl⟩ := List.mem_map.mp hc
    · have hw : (DCst.linear (DExpr.sum ((List.range g.n).map fun k => tspVar g.n i k)) .eq (.const 1) none).WF
          (g.n * g.n) := ⟨tspRow_wf (List.mem_range.mp hi), const_wf _ _, tspSum_isQuad _ _, rfl⟩
      refine ⟨hw, ⟨rfl, rfl⟩, varSum_int hw fun a ha => ?_⟩
      obtain ⟨k, _, rfl⟩ := List.mem_map.mp ha
      exact ⟨_, rfl⟩
    · have hw : (DCst.linear (DExpr.sum ((List.range g.n).map fun k => tspVar g.n k i)) .eq (.const 1) none).WF
          (g.n * g.n) := ⟨tspColumn_wf (List.mem_range.mp hi), const_wf _ _, tspSum_isQuad _ _, rfl⟩
      refine ⟨hw, ⟨rfl, rfl⟩, varSum_int hw fun a ha => ?_⟩
      obtain ⟨k, _, rfl⟩ := List.mem_map.mp ha
      exact ⟨_, rfl⟩
  obtain ⟨x0, hx0⟩ := tourPoint_exists g.n (List.range g.n)
  obtain ⟨y, hy, hl, hopt⟩ := solves_pairs hsol (allPairs_nodup g.n)
    (by rw [← List.length_pos_iff, allPairs_length]; nlinarith) (by rw [allPairs_length]; exact tspObjective_wf g)
    (fun c hc => by rw [allPairs_length]; exact (hclass c hc).1) (fun c hc => (hclass c hc).2.1)
    (fun c hc => (hclass c hc).2.2) hm ⟨x0, (hfe _).mpr ⟨_, List.Perm.refl _, hx0⟩⟩
  rw [allPairs_length] at hl
  obtain ⟨z, hz, hzx⟩ := (hfe _).mp hopt.1
  refine ⟨p, y, z, hp, hy, C49_interpret hl hz hzx, hz, C49_objective hp hn hsim hadj hz hzx, fun z' hz' => ?_⟩
  obtain ⟨x', hx'⟩ := tourPoint_exists g.n z'
  refine ⟨_, C49_objective hp hn hsim hadj hz' hx', ?_⟩
  have := hopt.2 x' ((hfe _).mpr ⟨z', hz', hx'⟩)
  rw [hse] at this
  simpa only [ObjSense.value, one_mul] using this

/-! ## Routes -/

/-- Closed routes from the depot, one for each vehicle, that together visit every other node exactly once. -/
def Routes (n vehicles depot : Nat) (visits : List (List Nat)) : Prop :=
  visits.length = vehicles ∧ (∀ v ∈ visits, v ≠ []) ∧
    visits.flatten.Perm ((List.range n).filter fun i => i != depot)

/-- The edges of the closed routes. -/
def routeEdges (depot : Nat) (visits : List (List Nat)) : List (List (Nat × Nat)) :=
  visits.map fun v => (depot :: v).zip (v ++ [depot])

theorem pathFrom_edges {depot : Nat} : ∀ {s : Nat} {nodes : List Nat}, nodes.Nodup → depot ∉ nodes → s ∉ nodes →
    (s ≠ depot ∨ nodes ≠ []) → ∀ e ∈ pathFrom depot s nodes, e.1 ∈ s :: nodes ∧ e.2 ∈ nodes ++ [depot] ∧ e.1 ≠ e.2
  | s, [], _, _, _, h, e, he => by
    have : e = (s, depot) := by simpa [pathFrom] using he
    subst this
    simpa using h
  | s, a :: nodes, hnd, hd, hs, _, e, he => by
    rw [pathFrom_cons, List.mem_cons] at he
    rw [List.nodup_cons] at hnd
    simp only [List.mem_cons, not_or] at hd hs
    rcases he with rfl | he
    · simp [hs.1]
    · obtain ⟨h1, h2, h3⟩ := pathFrom_edges hnd.2 hd.2 hnd.1 (Or.inl (Ne.symm hd.1)) e he
      exact ⟨List.mem_cons_of_mem _ h1, List.mem_cons_of_mem _ h2, h3⟩

theorem routeEdges_keys {n vehicles depot : Nat} (hd : depot < n) {visits : List (List Nat)}
    (h : Routes n vehicles depot visits) : ∀ e ∈ (routeEdges depot visits).flatten, e ∈ routeKeys n := by
  intro e he
  obtain ⟨r, hr, he⟩ := List.mem_flatten.mp he
  obtain ⟨v, hv, rfl⟩ := List.mem_map.mp hr
  have hmem : ∀ i ∈ v, i < n ∧ i ≠ depot := fun i hi =>
    mem_customers.mp (h.2.2.mem_iff.mp (List.mem_flatten.mpr ⟨v, hv, hi⟩))
  have hnd : v.Nodup := (List.nodup_flatten.mp (h.2.2.nodup_iff.mpr (customers_nodup n depot))).1 v hv
  have hdv : depot ∉ v := fun hm => (hmem _ hm).2 rfl
  obtain ⟨h1, h2, h3⟩ := pathFrom_edges hnd hdv hdv (Or.inr (h.2.1 v hv)) e he
  refine mem_routeKeys.mpr ⟨?_, ?_, h3⟩
  · rcases List.mem_cons.mp h1 with e | e
    · rw [e]; exact hd
    · exact (hmem _ e).1
  · rcases List.mem_append.mp h2 with e | e
    · exact (hmem _ e).1
    · rw [List.mem_singleton.mp e]; exact hd

/-- With as many customers as vehicles or more there are routes. -/
theorem routes_exist {n vehicles depot : Nat} (hd : depot < n) (h1 : 1 ≤ vehicles) (h2 : vehicles < n) :
    ∃ visits, Routes n vehicles depot visits := by
  have hlen : (customers n depot).length + 1 = n := by
    have : (customers n depot) = (List.range n).erase depot := by
      rw [List.nodup_range.erase_eq_filter]; rfl
    rw [this, List.length_erase_of_mem (List.mem_range.mpr hd)]
    simp; omega
  refine ⟨((customers n depot).take (vehicles - 1)).map (fun i => [i]) ++ [(customers n depot).drop (vehicles - 1)],
    ?_, ?_, ?_⟩
  · simp; omega
  · intro v hv
    rcases List.mem_append.mp hv with hv | hv
    · obtain ⟨i, _, rfl⟩ := List.mem_map.mp hv
      simp
    · rw [List.mem_singleton.mp hv]
      intro he
      have := congrArg List.length he
      simp at this; omega
  · have hf : ∀ l : List Nat, (l.map fun i => [i]).flatten = l := fun l => by
      induction l with
      | nil => rfl
      | cons a l ih => simp [ih]
    rw [List.flatten_append, hf]
    simp [customers]

/-- The value of the program at the vector of some routes. -/
theorem vrp_value {g : Graph} {vehicles depot : Nat} {p : QP} (hp : vrpProgram g vehicles depot = .ok p)
    (hd : depot < g.n) (hsim : g.Simple) {adj : Nat → Nat → ℚ}
    (hadj : ∀ i < g.n, ∀ j < g.n, i ≠ j → g.Weighs i j (adj i j)) {x : List ℚ} (hl : x.length = p.vars.length)
    (hx : p.Feas (pt x)) {visits : List (List Nat)} (hr : Routes g.n vehicles depot visits)
    (hsel : ∀ e, e ∈ (routeEdges depot visits).flatten ↔ Selected p (pt x) e) :
    p.objective.val (pt x) = ((routeEdges depot visits).flatten.map fun e => adj e.1 e.2).sum := by
  obtain ⟨_, visits', a1, a2, a3, _, a5, a6, ws, a7, a8⟩ := vrp_interpret hp hd hl hx
  have hperm : (routeEdges depot visits').flatten.Perm (routeEdges depot visits).flatten := by
    refine (List.perm_ext_iff_of_nodup a5 (closedRoutes_nodup hr.2.1 hr.2.2)).mpr fun e => ?_
    exact (a6 e).trans (hsel e).symm
  rw [a8, ← (hperm.map _).sum_eq]
  have h7 : ws.map some = ((routeEdges depot visits').flatten.map fun e => adj e.1 e.2).map some := by
    rw [← a7, List.map_map]
    refine List.map_congr_left fun e he => ?_
    have := mem_routeKeys.mp (routeEdges_keys hd ⟨a1, a2, a3⟩ e he)
    exact weight_of_weighs hsim (hadj _ this.1 _ this.2.1 this.2.2)
  rw [(List.map_injective_iff.mpr (Option.some_injective _)) h7]

/-- The vector of some routes. -/
theorem vrp_point {g : Graph} {vehicles depot : Nat} {p : QP} (hp : vrpProgram g vehicles depot = .ok p)
    (hd : depot < g.n) (hpv : PairVariables (routeKeys g.n) p) {visits : List (List Nat)}
    (hr : Routes g.n vehicles depot visits) : ∃ x : List ℚ, x.length = p.vars.length ∧ p.Feas (pt x) ∧
      ∀ e, e ∈ (routeEdges depot visits).flatten ↔ Selected p (pt x) e := by
  have hlen : p.vars.length = (routeKeys g.n).length := by rw [hpv]; simp
  refine ⟨(routeKeys g.n).map fun e => if e ∈ (routeEdges depot visits).flatten then 1 else 0, by simp [hlen], ?_⟩
  have hsel : ∀ e, e ∈ (routeEdges depot visits).flatten ↔
      Selected p (pt ((routeKeys g.n).map fun e => if e ∈ (routeEdges depot visits).flatten then 1 else 0)) e := by
    intro e
    rw [selected_iff hpv, mem_edgesAt]
    have hat : ∀ e ∈ routeKeys g.n, pt ((routeKeys g.n).map fun e =>
        if e ∈ (routeEdges depot visits).flatten then 1 else 0) ((routeKeys g.n).idxOf e) =
        if e ∈ (routeEdges depot visits).flatten then 1 else 0 := by
      intro e he
      rw [pt, List.getD_eq_getElem?_getD, List.getElem?_map,
        List.getElem?_eq_getElem (List.idxOf_lt_length_of_mem he), List.getElem_idxOf]
      rfl
    constructor
    · intro he
      have hk := routeEdges_keys hd hr e he
      exact ⟨hk, by rw [hat e hk, if_pos he]⟩
    · rintro ⟨hk, h⟩
      rw [hat e hk] at h
      by_contra hne
      rw [if_neg hne] at h
      norm_num at h
  refine ⟨(C50_feasible hp hd _).mpr ⟨fun k hk => ?_, visits, hr.1, hr.2.1, hr.2.2, hsel⟩, hsel⟩
  rw [hlen] at hk
  rw [pt, List.getD_eq_getElem?_getD, List.getElem?_map, List.getElem?_eq_getElem hk]
  simp only [Option.map_some, Option.getD_some]
  split <;> simp

/-- **C71, vehicle routing.** If there are at least as many customers as vehicles, the reported routes are closed routes
from the depot, one for each vehicle, that together visit every customer exactly once, and no such routes have a smaller
total weight. -/
theorem C71_vrp (solver : QubitOp → Option Eigenstate) (hsol : ExactSolver solver) (g : Graph) (vehicles depot : Nat)
    (hd : depot < g.n) (h1 : 1 ≤ vehicles) (h2 : vehicles < g.n) (hsim : g.Simple) (adj : Nat → Nat → ℚ)
    (hadj : ∀ i < g.n, ∀ j < g.n, i ≠ j → g.Weighs i j (adj i j)) :
    ∃ p y visits, vrpProgram g vehicles depot = .ok p ∧ Solves solver p y ∧
      vrpInterpret g.n vehicles depot y = .ok (routeEdges depot visits) ∧ Routes g.n vehicles depot visits ∧
      p.objective.val (pt y) = ((routeEdges depot visits).flatten.map fun e => adj e.1 e.2).sum ∧
      ∀ visits', Routes g.n vehicles depot visits' →
        ((routeEdges depot visits).flatten.map fun e => adj e.1 e.2).sum ≤
          ((routeEdges depot visits').flatten.map fun e => adj e.1 e.2).sum := by
  have hg : ∀ i < g.n, ∀ j < g.n, i ≠ j → ∃ w, g.weight? i j = some w :=
    fun i hi j hj hij => ⟨_, weight_of_weighs hsim (hadj i hi j hj hij)⟩
  obtain ⟨p, hp, hv⟩ := (C50_loads g hsim vehicles depot (by omega)).1
    ⟨hd, fun i hi j hj hij => ⟨_, hadj i hi j hj hij⟩⟩
  obtain ⟨p', hp', hse, hpv, _, _⟩ := vrpProgram_spec g vehicles hd hg
  rw [hp] at hp'
  simp only [Except.ok.injEq] at hp'
  subst hp'
  have hlen : p.vars.length = (routeKeys g.n).length := by rw [hpv]; simp
  have hval := fun x hl hx visits hr hsel => vrp_value hp hd hsim hadj (x := x) hl hx (visits := visits) hr hsel
  have hpoint := fun visits hr => vrp_point hp hd hpv (visits := visits) hr
  have hm := hp
  unfold vrpProgram at hm
  rw [complete_iff.mpr hg, if_neg (by simp), if_neg (by omega)] at hm
  have hclass := vrp_class g vehicles hd
  obtain ⟨visits0, hr0⟩ := routes_exist hd h1 h2
  obtain ⟨x0, _, hx0, _⟩ := hpoint visits0 hr0
  have hkeys : routeKeys g.n ≠ [] := by
    refine List.ne_nil_of_mem (a := (0, 1)) (mem_routeKeys.mpr ⟨by omega, ?_, by simp⟩)
    simp only; omega
  obtain ⟨y, hy, hl, hopt⟩ := solves_pairs hsol (routeKeys_nodup g.n) hkeys (by
      refine sum_wf fun a ha => ?_
      obtain ⟨q, hq, rfl⟩ := List.mem_map.mp ha
      exact (routeVar_wf hq).smul _) (fun c hc => (hclass c hc).1) (fun c hc => (hclass c hc).2) (by
      intro c hc
      have hw := (hclass c hc).1
      rcases List.mem_append.mp hc with hc | hc
      · simp only [degreeCsts, List.mem_append, List.mem_map, List.mem_cons, List.not_mem_nil, or_false] at hc
        rcases hc with (⟨i, hi, rfl⟩ | ⟨i, hi, rfl⟩) | rfl | rfl <;>
        · refine varSum_int hw fun a ha => ?_
          obtain ⟨k, _, rfl⟩ := List.mem_map.mp ha
          exact ⟨_, rfl⟩
      · obtain ⟨s, hs, rfl⟩ := List.mem_map.mp hc
        refine varSum_int hw fun a ha => ?_
        obtain ⟨i, _, ha⟩ := List.mem_flatMap.mp ha
        obtain ⟨k, _, rfl⟩ := List.mem_map.mp ha
        exact ⟨_, rfl⟩) hm ⟨_, hx0⟩
  obtain ⟨_, visits, a1, a2, a3, a4, _, a6, _⟩ := C50_interpret hp hd (hl.trans hlen.symm) hopt.1
  have hr : Routes g.n vehicles depot visits := ⟨a1, a2, a3⟩
  have hvy := hval y (hl.trans hlen.symm) hopt.1 visits hr a6
  refine ⟨p, y, visits, hp, hy, a4, hr, hvy, fun visits' hr' => ?_⟩
  obtain ⟨x', hl', hx', hsel'⟩ := hpoint visits' hr'
  have := hopt.2 (pt x') hx'
  rw [hse, hvy, hval x' hl' hx' visits' hr' hsel'] at this
  simpa only [ObjSense.value, one_mul] using this

/-- Two nodes at distance 3; and a triangle served from node 0 by one vehicle and by two vehicles. -/
example : reported exhaustive (tspProgram ⟨2, [(0, 1, some 3)]⟩) = some (some [0, 1, 1, 0], some 6) ∧
    tspInterpret [0, 1, 1, 0] = [.inl 1, .inl 0] ∧
    reported exhaustive (vrpProgram ⟨3, [(0, 1, some 3), (1, 2, some 1), (0, 2, some 4)]⟩ 1 0) =
      some (some [1, 0, 0, 1, 1, 0], some 8) ∧
    vrpInterpret 3 1 0 [1, 0, 0, 1, 1, 0] = .ok [[(0, 1), (1, 2), (2, 0)]] ∧
    reported exhaustive (vrpProgram ⟨3, [(0, 1, some 3), (1, 2, some 1), (0, 2, some 4)]⟩ 2 0) =
      some (some [1, 1, 1, 0, 1, 0], some 14) ∧
    vrpInterpret 3 2 0 [1, 1, 1, 0, 1, 0] = .ok [[(0, 1), (1, 0)], [(0, 2), (2, 0)]] := by decide +kernel

end Verif
