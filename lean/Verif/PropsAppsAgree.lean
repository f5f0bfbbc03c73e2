import Verif.PropsPipelineTours
import Mathlib.Data.List.GetD
import Mathlib.Data.List.Rotate

/-!
# C110: related applications agree with each other
-/

namespace Verif

/-- `h` is the complement of `g`: the same nodes, and two different nodes are joined in exactly one of the two. -/
def Graph.ComplementOf (h g : Graph) : Prop :=
  h.n = g.n ∧ (∀ e ∈ h.edges, e.1 < h.n ∧ e.2.1 < h.n ∧ e.1 ≠ e.2.1) ∧
    ∀ i < g.n, ∀ j < g.n, i ≠ j → (h.Adj i j ↔ ¬ g.Adj i j)

/-- **C110.** `Clique` on a graph and `StableSet` on its complement are the same problem: the same variables, feasible
points and sense, and the same value at every feasible point. -/
theorem C110_clique_stable {g h : Graph} (hc : h.ComplementOf g) : ∃ p q, cliqueProgram g none = .ok p ∧
    stableSetProgram h = .ok q ∧ p.vars = q.vars ∧ p.objective.sense = q.objective.sense ∧
    (∀ x, p.Feas x ↔ q.Feas x) ∧ ∀ x, p.Feas x → p.objective.val x = q.objective.val x := by
  obtain ⟨hn, hk, hadj⟩ := hc
  obtain ⟨p, hp, pv, ps, pf, po⟩ := C44_maximum g
  obtain ⟨q, hq, qv, qs, qf, qo⟩ := C43_stable_set h fun e he => ⟨(hk e he).1, (hk e he).2.1⟩
  rw [hn] at qv qf qo
  refine ⟨p, q, hp, hq, ?_, by rw [ps, qs], fun x => ?_, fun x hx => ?_⟩
  · unfold AppVariables at pv qv
    rw [pv, qv]
  · rw [pf, qf]
    refine and_congr_right fun _ => ⟨fun H e he ⟨e1, e2⟩ => ?_, fun H i hi j hj hij e1 e2 => ?_⟩
    · obtain ⟨k1, k2, k3⟩ := hk e he
      rw [hn] at k1 k2
      exact (hadj _ k1 _ k2 k3).mp ⟨e, he, Or.inl ⟨rfl, rfl⟩⟩ (H _ k1 _ k2 k3 e1 e2)
    · by_contra hna
      obtain ⟨e, he, h⟩ := (hadj i hi j hj hij).mpr hna
      rcases h with ⟨h1, h2⟩ | ⟨h1, h2⟩
      · exact H e he ⟨h1 ▸ e1, h2 ▸ e2⟩
      · exact H e he ⟨h1 ▸ e2, h2 ▸ e1⟩
  · have hb := ((pf x).mp hx).1
    rw [po x hb, qo x hb]

/-- **C110.** `GraphPartition` and `Maxcut` on a graph have the same variables and the same value at every 0/1 point, one
to be minimized and the other to be maximized, so that no partition into two halves is worth more than the maximum cut. -/
theorem C110_partition_cut (g : Graph) (hk : ∀ e ∈ g.edges, e.1 < g.n ∧ e.2.1 < g.n) : ∃ p q,
    graphPartitionProgram g = .ok p ∧ maxcutProgram g = .ok q ∧ p.vars = q.vars ∧
    p.objective.sense = .minimize ∧ q.objective.sense = .maximize ∧
    (∀ x, p.Feas x → q.Feas x) ∧ (∀ x, q.Feas x → p.objective.val x = q.objective.val x) ∧
    ∀ x y, p.Feas x → OptimalIn q.Feas q.objective y → p.objective.val x ≤ q.objective.val y := by
  obtain ⟨p, hp, pv, ps, pf, po⟩ := C45_model g hk
  obtain ⟨q, hq, qv, qs, qf, qo⟩ := C42_model g hk
  have hf : ∀ x, p.Feas x → q.Feas x := fun x hx => (qf x).mpr ((pf x).mp hx).1
  have ho : ∀ x, q.Feas x → p.objective.val x = q.objective.val x := fun x hx => by
    have hb := (qf x).mp hx
    rw [po x hb, qo x hb]
  refine ⟨p, q, hp, hq, ?_, ps, qs, hf, ho, fun x y hx hy => ?_⟩
  · unfold AppVariables at pv qv
    rw [pv, qv]
  · have := hy.2 x (hf x hx)
    rw [qs] at this
    rw [ho x (hf x hx)]
    simp only [ObjSense.value] at this
    linarith

/-- **C110.** The exact covers of a family of sets are its packings in which every element occurs; both applications
count the chosen sets, so that no exact cover has more sets than the maximum packing. -/
theorem C110_cover_packing (subsets : List (List ℤ)) : ∃ p q,
    exactCoverProgram subsets = .ok p ∧ setPackingProgram subsets = .ok q ∧ p.vars = q.vars ∧
    (∀ x, p.Feas x ↔ q.Feas x ∧ ∀ t ∈ subsets, ∀ e ∈ t, ∃ i < subsets.length, x i = 1 ∧ e ∈ subsets.getD i []) ∧
    (∀ x, q.Feas x → p.objective.val x = q.objective.val x) ∧
    ∀ x y, p.Feas x → OptimalIn q.Feas q.objective y → p.objective.val x ≤ q.objective.val y := by
  obtain ⟨p, hp, pv, ps, pf, po⟩ := C48_cover subsets
  obtain ⟨q, hq, qv, qs, qf, qo⟩ := C48_packing subsets
  have hf : ∀ x, p.Feas x ↔ q.Feas x ∧ ∀ t ∈ subsets, ∀ e ∈ t, ∃ i < subsets.length, x i = 1 ∧ e ∈ subsets.getD i [] := by
    intro x
    rw [pf, qf, and_assoc]
    refine and_congr_right fun hb => ⟨fun H => ⟨?_, ?_⟩, fun ⟨H1, H2⟩ e ⟨t, ht, he⟩ => ?_⟩
    · intro i hi j hj hij e1 e2 e ⟨h1, h2⟩
      have hm : subsets.getD i [] ∈ subsets := by
        rw [List.getD_eq_getElem _ _ hi]; exact List.getElem_mem _
      obtain ⟨k, _, hk⟩ := H e ⟨_, hm, h1⟩
      exact hij ((hk i ⟨hi, e1, h1⟩).trans (hk j ⟨hj, e2, h2⟩).symm)
    · intro t ht e he
      obtain ⟨k, ⟨h1, h2, h3⟩, _⟩ := H e ⟨t, ht, he⟩
      exact ⟨k, h1, h2, h3⟩
    · obtain ⟨k, h1, h2, h3⟩ := H2 t ht e he
      refine ⟨k, ⟨h1, h2, h3⟩, fun j ⟨j1, j2, j3⟩ => ?_⟩
      by_contra hne
      exact H1 j j1 k h1 hne j2 h2 e ⟨j3, h3⟩
  have ho : ∀ x, q.Feas x → p.objective.val x = q.objective.val x := fun x hx => by
    have hb := ((qf x).mp hx).1
    rw [po x hb, qo x hb]
  refine ⟨p, q, hp, hq, ?_, hf, ho, fun x y hx hy => ?_⟩
  · unfold AppVariables at pv qv
    rw [pv, qv]
  · have hx' := ((hf x).mp hx).1
    have := hy.2 x hx'
    rw [qs] at this
    rw [ho x hx']
    simp only [ObjSense.value] at this
    linarith

/-! ## One vehicle -/

/-- The length of the closed tour through the nodes of the list. -/
def tourLength (adj : Nat → Nat → ℚ) (z : List Nat) : ℚ := ((z.zip (z.rotate 1)).map fun e => adj e.1 e.2).sum

theorem tspValue_length {z : List Nat} (hz : z ≠ []) (adj : Nat → Nat → ℚ) :
    tspValue z adj = .ok (tourLength adj z) := by
  obtain ⟨n, hn⟩ : ∃ n, z.length = n + 1 := ⟨z.length - 1, by have := List.length_pos_of_ne_nil hz; omega⟩
  rw [tspValue_eq hn]
  unfold tourLength
  have : (z.zip (z.rotate 1)).map (fun e => adj e.1 e.2) =
      (List.range (n + 1)).map fun k => adj (z.getD k 0) (z.getD ((k + 1) % (n + 1)) 0) := by
    refine List.ext_getElem (by simp [hn]) fun k h1 h2 => ?_
    have hk : k < z.length := by simpa [hn] using h2
    have hk' : (k + 1) % (n + 1) < z.length := by rw [hn]; exact Nat.mod_lt _ (by omega)
    rw [List.getElem_map, List.getElem_map, List.getElem_zip, List.getElem_range, List.getElem_rotate,
      List.getD_eq_getElem _ _ hk, List.getD_eq_getElem _ _ hk']
    simp only [hn]
  rw [this, lsum_range]

theorem tourLength_rotate (adj : Nat → Nat → ℚ) (z : List Nat) (k : Nat) :
    tourLength adj (z.rotate k) = tourLength adj z := by
  unfold tourLength
  have : (z.rotate k).zip ((z.rotate k).rotate 1) = (z.zip (z.rotate 1)).rotate k := by
    unfold List.zip
    rw [List.zipWith_rotate_distrib _ _ _ _ (by simp), List.rotate_rotate, List.rotate_rotate,
      Nat.add_comm]
  rw [this]
  exact ((List.rotate_perm _ _).map _).sum_eq

theorem tourLength_route (adj : Nat → Nat → ℚ) (depot : Nat) (v : List Nat) :
    ((routeEdges depot [v]).flatten.map fun e => adj e.1 e.2).sum = tourLength adj (depot :: v) := by
  simp [routeEdges, tourLength]

/-- A feasible point of the program of the routes may be taken to be a list. -/
theorem vrp_list {g : Graph} {vehicles depot : Nat} {q : QP} (hq : vrpProgram g vehicles depot = .ok q)
    (hd : depot < g.n) {y : Nat → ℚ} (hy : q.Feas y) : ∃ y' : List ℚ, y'.length = q.vars.length ∧ q.Feas (pt y') ∧
      q.objective.val (pt y') = q.objective.val y := by
  obtain ⟨q', hq', _, hv, ho, hf⟩ := vrpProgram_spec g vehicles hd (vrpProgram_complete hq)
  rw [hq] at hq'
  simp only [Except.ok.injEq] at hq'
  subst hq'
  have hlen : q.vars.length = (routeKeys g.n).length := by rw [hv]; simp
  have hat : ∀ i < (routeKeys g.n).length, pt ((List.range (routeKeys g.n).length).map y) i = y i := by
    intro i hi
    rw [pt, List.getD_eq_getElem _ _ (by simpa using hi)]
    simp
  refine ⟨(List.range (routeKeys g.n).length).map y, by simp [hlen], ?_, ?_⟩
  · rw [hf] at hy ⊢
    refine ⟨fun i hi => by rw [hat i hi]; exact hy.1 i hi, ?_⟩
    have : edgesAt g.n (pt ((List.range (routeKeys g.n).length).map y)) = edgesAt g.n y := by
      unfold edgesAt
      refine List.filter_congr fun e he => ?_
      rw [hat _ (List.idxOf_lt_length_of_mem he)]
    rw [this]
    exact hy.2
  · rw [ho, ho]
    congr 1
    refine List.map_congr_left fun e he => ?_
    rw [hat _ (List.idxOf_lt_length_of_mem he)]

/-- **C110.** With one vehicle, `VehicleRouting` with any depot and `Tsp` on the same graph are the same problem: each
tour of one is a tour of the other with the same value, and so the optimal values are equal. -/
theorem C110_tour_route {g : Graph} (hn : 2 ≤ g.n) (hsim : g.Simple)
    (hg : ∀ i < g.n, ∀ j < g.n, i ≠ j → ∃ w, g.Weighs i j w) {depot : Nat} (hd : depot < g.n) :
    ∃ p q, tspProgram g = .ok p ∧ vrpProgram g 1 depot = .ok q ∧
      (∀ x, p.Feas x → ∃ y, q.Feas y ∧ q.objective.val y = p.objective.val x) ∧
      (∀ y, q.Feas y → ∃ x, p.Feas x ∧ p.objective.val x = q.objective.val y) ∧
      ∀ x y, OptimalIn p.Feas p.objective x → OptimalIn q.Feas q.objective y →
        p.objective.val x = q.objective.val y := by
  obtain ⟨adj, hadj⟩ : ∃ adj : Nat → Nat → ℚ, ∀ i < g.n, ∀ j < g.n, i ≠ j → g.Weighs i j (adj i j) := by
    refine ⟨fun i j => (g.weight? i j).getD 0, fun i hi j hj hij => ?_⟩
    obtain ⟨w, hw⟩ := hg i hi j hj hij
    simpa only [weight_of_weighs hsim hw, Option.getD_some] using hw
  obtain ⟨p, hp, ps, _, pf⟩ := C49_feasible g hsim hg
  have hg' : ∀ i < g.n, ∀ j < g.n, i ≠ j → ∃ w, g.weight? i j = some w :=
    fun i hi j hj hij => ⟨_, weight_of_weighs hsim (hadj i hi j hj hij)⟩
  obtain ⟨q, hq, qs, qv, _, _⟩ := vrpProgram_spec g 1 hd hg'
  have hval : ∀ {z : List Nat} {x : Nat → ℚ}, z.Perm (List.range g.n) → TourPoint g.n z x →
      p.objective.val x = tourLength adj z := by
    intro z x hz hx
    have h1 := C49_objective hp hn hsim hadj hz hx
    have hne : z ≠ [] := by
      rintro rfl
      have := hz.length_eq
      simp at this; omega
    rw [tspValue_length hne] at h1
    simpa using h1.symm
  have hpq : ∀ x, p.Feas x → ∃ y, q.Feas y ∧ q.objective.val y = p.objective.val x := by
    intro x hx
    obtain ⟨z, hz, hzx⟩ := (pf x).mp hx
    obtain ⟨a, b, rfl⟩ := List.append_of_mem (hz.mem_iff.mpr (List.mem_range.mpr hd))
    have hrot : (a ++ depot :: b).rotate a.length = depot :: (b ++ a) := by simp [List.rotate_append_length_eq]
    have hperm : (depot :: (b ++ a)).Perm (List.range g.n) := by
      rw [← hrot]; exact (List.rotate_perm _ _).trans hz
    have hnd : (depot :: (b ++ a)).Nodup := hperm.nodup_iff.mpr List.nodup_range
    have hr : Routes g.n 1 depot [b ++ a] := by
      refine ⟨rfl, fun v hv => ?_, ?_⟩
      · rw [List.mem_singleton.mp hv]
        intro h
        have := hperm.length_eq
        rw [h] at this
        simp at this; omega
      · rw [List.flatten_singleton]
        have h1 := hperm.filter fun i => i != depot
        rw [List.filter_cons_of_neg (by simp)] at h1
        rwa [List.filter_eq_self.mpr fun i hi => by
          have : i ≠ depot := fun h => (List.nodup_cons.mp hnd).1 (h ▸ hi)
          simpa using this] at h1
    obtain ⟨y, hl, hy, hsel⟩ := vrp_point hq hd qv hr
    refine ⟨pt y, hy, ?_⟩
    rw [vrp_value hq hd hsim hadj hl hy hr hsel, tourLength_route, ← hrot, tourLength_rotate, hval hz hzx]
  have hqp : ∀ y, q.Feas y → ∃ x, p.Feas x ∧ p.objective.val x = q.objective.val y := by
    intro y hy
    obtain ⟨y', hl, hy', hv⟩ := vrp_list hq hd hy
    obtain ⟨_, visits, a1, a2, a3, _, _, a6, _⟩ := C50_interpret hq hd hl hy'
    obtain ⟨v, rfl⟩ := List.length_eq_one_iff.mp a1
    have hperm : (depot :: v).Perm (List.range g.n) := by
      rw [List.flatten_singleton] at a3
      have h1 : ((List.range g.n).filter fun i => i != depot) = (List.range g.n).erase depot := by
        rw [List.nodup_range.erase_eq_filter]
      rw [h1] at a3
      exact (a3.cons depot).trans (List.perm_cons_erase (List.mem_range.mpr hd)).symm
    obtain ⟨x, hx⟩ := tourPoint_exists g.n (depot :: v)
    refine ⟨x, (pf x).mpr ⟨_, hperm, hx⟩, ?_⟩
    rw [hval hperm hx, ← hv, vrp_value hq hd hsim hadj hl hy' ⟨a1, a2, a3⟩ a6, tourLength_route]
  refine ⟨p, q, hp, hq, hpq, hqp, fun x y hx hy => ?_⟩
  obtain ⟨y', h1, h2⟩ := hpq x hx.1
  obtain ⟨x', h3, h4⟩ := hqp y hy.1
  have h5 := hy.2 y' h1
  have h6 := hx.2 x' h3
  rw [qs] at h5
  rw [ps] at h6
  simp only [ObjSense.value] at h5 h6
  linarith

/-- A path of three nodes and its complement; the triangle of `C71` seen by both applications. -/
example : Graph.ComplementOf ⟨3, [(2, 0, none)]⟩ ⟨3, [(0, 1, some 2), (1, 2, none)]⟩ := by
  refine ⟨rfl, by decide, ?_⟩
  simp only [← hasEdge_iff]
  decide

example : (2 ≤ tspSample.n ∧ tspSample.Simple) ∧
    (tspProgram tspSample).toOption.map (fun p => p.objective.val (pt [0, 1, 0, 1, 0, 0, 0, 0, 1])) = some 10 ∧
    (vrpProgram tspSample 1 2).toOption.map (fun q => q.objective.val (pt [0, 1, 1, 0, 0, 1])) = some 10 ∧
    vrpInterpret 3 1 2 [0, 1, 1, 0, 0, 1] = .ok [[(2, 1), (1, 0), (0, 2)]] := by decide +kernel

end Verif
