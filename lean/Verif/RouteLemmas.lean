import Verif.TourLemmas
import Mathlib.Data.List.Perm.Basic
import Mathlib.Data.List.Count
import Mathlib.Data.List.NodupEquivFin

/-!
# Lemmas on vehicle routing
-/

namespace Verif

/-! ## Keys -/

theorem mem_routeKeys {n : Nat} {q : Nat × Nat} : q ∈ routeKeys n ↔ q.1 < n ∧ q.2 < n ∧ q.1 ≠ q.2 := by
  unfold routeKeys
  rw [List.mem_filter, mem_allPairs]
  simp [and_assoc]

theorem routeKeys_nodup (n : Nat) : (routeKeys n).Nodup := (allPairs_nodup n).filter _

theorem selectedEdges_eq : ∀ (keys : List (Nat × Nat)) (x : List ℚ), keys.Nodup → keys.length ≤ x.length →
    selectedEdges keys x = some (keys.filter fun q => decide (x.getD (keys.idxOf q) 0 ≠ 0))
  | [], _, _, _ => by simp [selectedEdges]
  | q :: keys, [], _, h => by simp at h
  | q :: keys, v :: x, hn, h => by
    have hn' := List.nodup_cons.mp hn
    have ih := selectedEdges_eq keys x hn'.2 (by simpa using h)
    have hcong : (keys.filter fun r => decide ((v :: x).getD ((q :: keys).idxOf r) 0 ≠ 0)) =
        keys.filter fun r => decide (x.getD (keys.idxOf r) 0 ≠ 0) := by
      refine List.filter_congr fun r hr => ?_
      have hne : q ≠ r := by rintro rfl; exact hn'.1 hr
      rw [List.idxOf_cons_ne _ hne]
      simp
    unfold selectedEdges
    rw [ih, Option.map_some]
    by_cases hv : v = 0
    · rw [List.filter_cons_of_neg (by simp [hv]), hcong]
      simp [hv]
    · rw [List.filter_cons_of_pos (by simp [hv]), hcong]
      simp [hv]

/-! ## Sums of variables and numbers of selected edges -/

/-- The selected edges at a point. -/
def edgesAt (n : Nat) (x : Nat → ℚ) : List (Nat × Nat) :=
  (routeKeys n).filter fun q => decide (x ((routeKeys n).idxOf q) = 1)

theorem mem_edgesAt {n : Nat} {x : Nat → ℚ} {q : Nat × Nat} :
    q ∈ edgesAt n x ↔ q ∈ routeKeys n ∧ x ((routeKeys n).idxOf q) = 1 := by
  unfold edgesAt; simp

theorem edgesAt_nodup (n : Nat) (x : Nat → ℚ) : (edgesAt n x).Nodup := (routeKeys_nodup n).filter _

theorem routeVar_wf {n : Nat} {q : Nat × Nat} (h : q ∈ routeKeys n) : (routeVar n q).WF (routeKeys n).length :=
  var_wf (List.idxOf_lt_length_of_mem h)

theorem routeSum_wf {n : Nat} {l : List (Nat × Nat)} (h : ∀ q ∈ l, q ∈ routeKeys n) :
    (DExpr.sum (l.map (routeVar n))).WF (routeKeys n).length := by
  refine sum_wf fun a ha => ?_
  obtain ⟨q, hq, rfl⟩ := List.mem_map.mp ha
  exact routeVar_wf (h q hq)

theorem routeSum_isQuad (n : Nat) (l : List (Nat × Nat)) : (DExpr.sum (l.map (routeVar n))).isQuad = false := by
  refine sum_isQuad fun a ha => ?_
  obtain ⟨i, _, rfl⟩ := List.mem_map.mp ha
  rfl

/-- The sum of the variables of a set of keys is the number of selected edges in the set. -/
theorem routeSum_val {n : Nat} {x : Nat → ℚ} (hx : Binary (routeKeys n).length x) {l : List (Nat × Nat)}
    (hl : l.Nodup) {P : Nat × Nat → Bool} (hm : ∀ q, q ∈ l ↔ q ∈ routeKeys n ∧ P q = true) :
    (DExpr.sum (l.map (routeVar n))).val x = (edgesAt n x).countP P := by
  have hs : ∀ l : List (Nat × Nat), (∀ q ∈ l, q ∈ routeKeys n) → (DExpr.sum (l.map (routeVar n))).val x =
      ((l.filter fun q => decide (x ((routeKeys n).idxOf q) = 1)).length : ℚ) := by
    intro l
    rw [DExpr.val_sum, List.map_map]
    induction l with
    | nil => simp
    | cons q l ih =>
      intro h
      rw [List.map_cons, List.sum_cons, ih fun r hr => h r (by simp [hr]), Function.comp_apply, routeVar, DExpr.val_var]
      rcases hx _ (List.idxOf_lt_length_of_mem (h q (by simp))) with e | e
      · rw [List.filter_cons_of_neg (by simp [e]), e, zero_add]
      · rw [List.filter_cons_of_pos (by simp [e]), e, List.length_cons]; push_cast; ring
  rw [hs l fun q hq => ((hm q).mp hq).1, List.countP_eq_length_filter]
  have hp : (l.filter fun q => decide (x ((routeKeys n).idxOf q) = 1)).Perm ((edgesAt n x).filter P) := by
    rw [List.perm_ext_iff_of_nodup (hl.filter _) ((edgesAt_nodup n x).filter _)]
    intro q
    simp only [List.mem_filter, hm, mem_edgesAt, decide_eq_true_eq]
    tauto
  rw [hp.length_eq]

/-! ## Combinations -/

theorem mem_combinations {α : Type} : ∀ (k : Nat) (l s : List α), s ∈ combinations k l ↔ s.Sublist l ∧ s.length = k
  | 0, l, s => by
    simp only [combinations, List.mem_singleton, List.length_eq_zero_iff]
    exact ⟨by rintro rfl; simp, fun h => h.2⟩
  | k + 1, [], s => by
    simp only [combinations, List.not_mem_nil, false_iff, not_and, List.sublist_nil]
    rintro rfl; simp
  | k + 1, a :: l, s => by
    simp only [combinations, List.mem_append, List.mem_map, mem_combinations]
    rw [List.sublist_cons_iff]
    constructor
    · rintro (⟨t, ⟨ht, hk⟩, rfl⟩ | ⟨ht, hk⟩)
      · exact ⟨Or.inr ⟨t, rfl, ht⟩, by simp [hk]⟩
      · exact ⟨Or.inl ht, hk⟩
    · rintro ⟨ht | ⟨t, rfl, ht⟩, hk⟩
      · exact Or.inr ⟨ht, hk⟩
      · exact Or.inl ⟨t, ⟨ht, by simpa using hk⟩, rfl⟩

/-- The nodes other than the depot. -/
def customers (n depot : Nat) : List Nat := (List.range n).filter fun i => i != depot

theorem mem_customers {n depot i : Nat} : i ∈ customers n depot ↔ i < n ∧ i ≠ depot := by
  unfold customers; simp

theorem customers_nodup (n depot : Nat) : (customers n depot).Nodup := List.nodup_range.filter _

theorem mem_subrouteSets {n depot : Nat} {s : List Nat} :
    s ∈ subrouteSets n depot ↔ s.Sublist (customers n depot) ∧ 2 ≤ s.length := by
  have h : ∀ m k : Nat, k ∈ (List.range (m + 1)).drop 2 ↔ 2 ≤ k ∧ k ≤ m := by
    intro m k
    rw [List.mem_iff_getElem?]
    constructor
    · rintro ⟨i, hi⟩
      rw [List.getElem?_drop, List.getElem?_eq_some_iff] at hi
      obtain ⟨h1, h2⟩ := hi
      simp at h1 h2
      omega
    · rintro ⟨h1, h2⟩
      refine ⟨k - 2, ?_⟩
      rw [List.getElem?_drop, List.getElem?_eq_some_iff]
      refine ⟨by simp; omega, by simp; omega⟩
  unfold subrouteSets
  simp only [List.mem_flatMap, mem_combinations, h]
  constructor
  · rintro ⟨k, ⟨h1, _⟩, h3, rfl⟩
    exact ⟨h3, h1⟩
  · rintro ⟨h1, h2⟩
    exact ⟨s.length, ⟨h2, h1.length_le⟩, h1, rfl⟩

/-! ## The constraints in terms of the selected edges -/

/-- Number of edges of a list that leave a node. -/
def outDeg (l : List (Nat × Nat)) (v : Nat) : Nat := l.countP fun e => e.1 == v

/-- Number of edges of a list that enter a node. -/
def inDeg (l : List (Nat × Nat)) (v : Nat) : Nat := l.countP fun e => e.2 == v

/-- Number of edges of a list inside a set of nodes. -/
def insideDeg (l : List (Nat × Nat)) (s : List Nat) : Nat := l.countP fun e => s.contains e.1 && s.contains e.2

theorem outSum {n : Nat} {x : Nat → ℚ} (hx : Binary (routeKeys n).length x) {i : Nat} (hi : i < n) :
    (DExpr.sum (((List.range n).filter fun j => j != i).map fun j => routeVar n (i, j))).val x =
      outDeg (edgesAt n x) i := by
  have := routeSum_val hx (l := ((List.range n).filter fun j => j != i).map fun j => (i, j))
    (P := fun e => e.1 == i) ((List.nodup_range.filter _).map fun a b h => by simpa using h) (by
      rintro ⟨a, b⟩
      simp only [List.mem_map, List.mem_filter, List.mem_range, bne_iff_ne, mem_routeKeys, beq_iff_eq, Prod.mk.injEq]
      constructor
      · rintro ⟨c, ⟨h1, h2⟩, rfl, rfl⟩
        exact ⟨⟨hi, h1, Ne.symm h2⟩, rfl⟩
      · rintro ⟨⟨h1, h2, h3⟩, rfl⟩
        exact ⟨b, ⟨h2, Ne.symm h3⟩, rfl, rfl⟩)
  rw [List.map_map] at this
  exact this

theorem inSum {n : Nat} {x : Nat → ℚ} (hx : Binary (routeKeys n).length x) {j : Nat} (hj : j < n) :
    (DExpr.sum (((List.range n).filter fun i => i != j).map fun i => routeVar n (i, j))).val x =
      inDeg (edgesAt n x) j := by
  have := routeSum_val hx (l := ((List.range n).filter fun i => i != j).map fun i => (i, j))
    (P := fun e => e.2 == j) ((List.nodup_range.filter _).map fun a b h => by simpa using h) (by
      rintro ⟨a, b⟩
      simp only [List.mem_map, List.mem_filter, List.mem_range, bne_iff_ne, mem_routeKeys, beq_iff_eq, Prod.mk.injEq]
      constructor
      · rintro ⟨c, ⟨h1, h2⟩, rfl, rfl⟩
        exact ⟨⟨h1, hj, h2⟩, rfl⟩
      · rintro ⟨⟨h1, h2, h3⟩, rfl⟩
        exact ⟨a, ⟨h1, h3⟩, rfl, rfl⟩)
  rw [List.map_map] at this
  exact this

theorem mem_insidePairs {s : List Nat} {q : Nat × Nat} :
    q ∈ (s.flatMap fun i => (s.filter fun j => i != j).map fun j => (i, j)) ↔ q.1 ∈ s ∧ q.2 ∈ s ∧ q.1 ≠ q.2 := by
  obtain ⟨a, b⟩ := q
  simp only [List.mem_flatMap, List.mem_map, List.mem_filter, bne_iff_ne, Prod.mk.injEq]
  constructor
  · rintro ⟨i, hi, j, ⟨hj, hij⟩, rfl, rfl⟩
    exact ⟨hi, hj, hij⟩
  · rintro ⟨h1, h2, h3⟩
    exact ⟨a, h1, b, ⟨h2, h3⟩, rfl, rfl⟩

theorem insidePairs_map (n : Nat) (s : List Nat) :
    (s.flatMap fun i => (s.filter fun j => i != j).map fun j => routeVar n (i, j)) =
      (s.flatMap fun i => (s.filter fun j => i != j).map fun j => (i, j)).map (routeVar n) := by
  rw [List.map_flatMap]
  congr 1
  funext i
  rw [List.map_map]
  rfl

theorem insidePairs_nodup {s : List Nat} (hs : s.Nodup) :
    (s.flatMap fun i => (s.filter fun j => i != j).map fun j => (i, j)).Nodup := by
  rw [List.nodup_flatMap]
  refine ⟨fun i _ => (hs.filter _).map fun a b h => by simpa using h, ?_⟩
  refine List.Pairwise.imp ?_ hs
  intro a b hab q h1 h2
  obtain ⟨_, _, rfl⟩ := List.mem_map.mp h1
  obtain ⟨_, _, h⟩ := List.mem_map.mp h2
  simp only [Prod.mk.injEq] at h
  exact hab h.1.symm

theorem insideSum {n : Nat} {x : Nat → ℚ} (hx : Binary (routeKeys n).length x) {s : List Nat} (hs : s.Nodup)
    (hn : ∀ i ∈ s, i < n) :
    (DExpr.sum (s.flatMap fun i => (s.filter fun j => i != j).map fun j => routeVar n (i, j))).val x =
      insideDeg (edgesAt n x) s := by
  rw [insidePairs_map]
  refine routeSum_val hx (insidePairs_nodup hs) fun q => ?_
  rw [mem_insidePairs, mem_routeKeys]
  simp only [Bool.and_eq_true, List.contains_iff_mem]
  exact ⟨fun h => ⟨⟨hn _ h.1, hn _ h.2.1, h.2.2⟩, h.1, h.2.1⟩, fun h => ⟨h.2.1, h.2.2, h.1.2.2⟩⟩

/-- The constraints of the program as conditions on a list of edges. -/
structure RouteCsts (n vehicles depot : Nat) (l : List (Nat × Nat)) : Prop where
  out : ∀ i < n, i ≠ depot → outDeg l i = 1
  into : ∀ i < n, i ≠ depot → inDeg l i = 1
  depotIn : inDeg l depot = vehicles
  depotOut : outDeg l depot = vehicles
  inside : ∀ s : List Nat, s.Sublist (customers n depot) → 2 ≤ s.length → insideDeg l s + 1 ≤ s.length

theorem vrp_class (g : Graph) (vehicles : Nat) {depot : Nat} (hd : depot < g.n) :
    ∀ c ∈ degreeCsts g.n vehicles depot ++ (subrouteSets g.n depot).map (subrouteCst g.n),
      c.WF (routeKeys g.n).length ∧ c.isLin = true ∧ c.name = none := by
  have hmapOut : ∀ i, (((List.range g.n).filter fun j => j != i).map fun j => routeVar g.n (i, j)) =
      (((List.range g.n).filter fun j => j != i).map fun j => (i, j)).map (routeVar g.n) := fun i => by
    rw [List.map_map]; rfl
  have hmapIn : ∀ j, (((List.range g.n).filter fun i => i != j).map fun i => routeVar g.n (i, j)) =
      (((List.range g.n).filter fun i => i != j).map fun i => (i, j)).map (routeVar g.n) := fun i => by
    rw [List.map_map]; rfl
  have hkOut : ∀ i < g.n, ∀ q ∈ ((List.range g.n).filter fun j => j != i).map fun j => (i, j), q ∈ routeKeys g.n := by
    intro i hi q hq
    simp only [List.mem_map, List.mem_filter, List.mem_range, bne_iff_ne] at hq
    obtain ⟨j, ⟨h1, h2⟩, rfl⟩ := hq
    exact mem_routeKeys.mpr ⟨hi, h1, Ne.symm h2⟩
  have hkIn : ∀ j < g.n, ∀ q ∈ ((List.range g.n).filter fun i => i != j).map fun i => (i, j), q ∈ routeKeys g.n := by
    intro j hj q hq
    simp only [List.mem_map, List.mem_filter, List.mem_range, bne_iff_ne] at hq
    obtain ⟨i, ⟨h1, h2⟩, rfl⟩ := hq
    exact mem_routeKeys.mpr ⟨h1, hj, h2⟩
  have hcust : ∀ {s : List Nat}, s.Sublist (customers g.n depot) → ∀ i ∈ s, i < g.n := fun h i hi =>
    (mem_customers.mp (h.subset hi)).1
  intro c hc
  rcases List.mem_append.mp hc with hc | hc
  · simp only [degreeCsts, List.mem_append, List.mem_map, List.mem_cons, List.not_mem_nil, or_false] at hc
    rcases hc with (⟨i, hi, rfl⟩ | ⟨i, hi, rfl⟩) | rfl | rfl
    · have hi := (mem_customers.mp hi).1
      refine ⟨⟨?_, const_wf _ _, ?_, rfl⟩, rfl, rfl⟩
      · rw [hmapOut]; exact routeSum_wf (hkOut i hi)
      · rw [hmapOut]; exact routeSum_isQuad _ _
    · have hi := (mem_customers.mp hi).1
      refine ⟨⟨?_, const_wf _ _, ?_, rfl⟩, rfl, rfl⟩
      · rw [hmapIn]; exact routeSum_wf (hkIn i hi)
      · rw [hmapIn]; exact routeSum_isQuad _ _
    · refine ⟨⟨?_, const_wf _ _, ?_, rfl⟩, rfl, rfl⟩
      · rw [hmapIn]; exact routeSum_wf (hkIn _ hd)
      · rw [hmapIn]; exact routeSum_isQuad _ _
    · refine ⟨⟨?_, const_wf _ _, ?_, rfl⟩, rfl, rfl⟩
      · rw [hmapOut]; exact routeSum_wf (hkOut _ hd)
      · rw [hmapOut]; exact routeSum_isQuad _ _
  · obtain ⟨s, hs, rfl⟩ := List.mem_map.mp hc
    have hs := mem_subrouteSets.mp hs
    refine ⟨⟨?_, const_wf _ _, ?_, rfl⟩, rfl, rfl⟩
    · rw [insidePairs_map]
      refine routeSum_wf fun q hq => ?_
      have hq := mem_insidePairs.mp hq
      exact mem_routeKeys.mpr ⟨hcust hs.1 _ hq.1, hcust hs.1 _ hq.2.1, hq.2.2⟩
    · rw [insidePairs_map]; exact routeSum_isQuad _ _

theorem vrpProgram_spec (g : Graph) (vehicles : Nat) {depot : Nat} (hd : depot < g.n)
    (hg : ∀ i < g.n, ∀ j < g.n, i ≠ j → ∃ w, g.weight? i j = some w) :
    ∃ p, vrpProgram g vehicles depot = .ok p ∧ p.objective.sense = .minimize ∧ PairVariables (routeKeys g.n) p ∧
      (∀ x, p.objective.val x =
        ((routeKeys g.n).map fun q => g.weight q.1 q.2 * x ((routeKeys g.n).idxOf q)).sum) ∧
      ∀ x, p.Feas x ↔ Binary (routeKeys g.n).length x ∧ RouteCsts g.n vehicles depot (edgesAt g.n x) := by
  have hcust : ∀ {s : List Nat}, s.Sublist (customers g.n depot) → ∀ i ∈ s, i < g.n := fun h i hi =>
    (mem_customers.mp (h.subset hi)).1
  have hclass := vrp_class g vehicles hd
  obtain ⟨p, hp, hv, hs, ho, hf⟩ := loadModel_pairs (name := "Vehicle routing") (keys := routeKeys g.n) (min := true)
    (obj := DExpr.sum ((routeKeys g.n).map fun q => (routeVar g.n q).smul (g.weight q.1 q.2)))
    (csts := degreeCsts g.n vehicles depot ++ (subrouteSets g.n depot).map (subrouteCst g.n))
    (routeKeys_nodup _) (by
      refine sum_wf fun a ha => ?_
      obtain ⟨q, hq, rfl⟩ := List.mem_map.mp ha
      exact (routeVar_wf hq).smul _) (fun c hc => (hclass c hc).1) (fun c hc => (hclass c hc).2)
  refine ⟨p, ?_, hs, hv, ?_, ?_⟩
  · unfold vrpProgram
    rw [complete_iff.mpr hg, if_neg (by simp), if_neg (by omega), hp]
  · intro x
    rw [ho, DExpr.val_sum, List.map_map]
    congr 1
    refine List.map_congr_left fun q _ => ?_
    rw [Function.comp_apply, DExpr.val_smul, routeVar, DExpr.val_var]
  · intro x
    rw [hf]
    refine and_congr_right fun hx => ?_
    rw [List.forall_mem_append, List.forall_mem_map]
    have hcast : ∀ a b : Nat, ((a : ℚ) = b) ↔ a = b := fun a b => by norm_cast
    have hcast1 : ∀ a : Nat, ((a : ℚ) = 1) ↔ a = 1 := fun a => by norm_cast
    constructor
    · rintro ⟨h1, h2⟩
      have hdeg : ∀ c ∈ degreeCsts g.n vehicles depot, c.Holds x := h1
      simp only [degreeCsts] at hdeg
      rw [List.forall_mem_append, List.forall_mem_append, List.forall_mem_map, List.forall_mem_map] at hdeg
      obtain ⟨⟨a1, a2⟩, a3⟩ := hdeg
      refine ⟨?_, ?_, ?_, ?_, ?_⟩
      · intro i hi hne
        have := a1 i (mem_customers.mpr ⟨hi, hne⟩)
        simp only [DCst.Holds, outSum hx hi, DExpr.val_const, Sense.rel, hcast1] at this
        exact this
      · intro i hi hne
        have := a2 i (mem_customers.mpr ⟨hi, hne⟩)
        simp only [DCst.Holds, inSum hx hi, DExpr.val_const, Sense.rel, hcast1] at this
        exact this
      · have := a3 _ (List.mem_cons_self ..)
        simp only [DCst.Holds, inSum hx hd, DExpr.val_const, Sense.rel, hcast] at this
        exact this
      · have := a3 _ (List.mem_cons_of_mem _ (List.mem_cons_self ..))
        simp only [DCst.Holds, outSum hx hd, DExpr.val_const, Sense.rel, hcast] at this
        exact this
      · intro s hsub hlen
        have := h2 s (mem_subrouteSets.mpr ⟨hsub, hlen⟩)
        simp only [subrouteCst, DCst.Holds, insideSum hx ((customers_nodup _ _).sublist hsub) (hcust hsub),
          DExpr.val_const, Sense.rel] at this
        have h3 : (insideDeg (edgesAt g.n x) s : ℚ) + 1 ≤ s.length := by linarith
        exact_mod_cast h3
    · intro h
      refine ⟨?_, ?_⟩
      · simp only [degreeCsts]
        rw [List.forall_mem_append, List.forall_mem_append, List.forall_mem_map, List.forall_mem_map]
        refine ⟨⟨?_, ?_⟩, ?_⟩
        · intro i hi
          have hi := mem_customers.mp hi
          simp only [DCst.Holds, outSum hx hi.1, DExpr.val_const, Sense.rel, hcast1]
          exact h.out i hi.1 hi.2
        · intro i hi
          have hi := mem_customers.mp hi
          simp only [DCst.Holds, inSum hx hi.1, DExpr.val_const, Sense.rel, hcast1]
          exact h.into i hi.1 hi.2
        · intro c hc
          simp only [List.mem_cons, List.not_mem_nil, or_false] at hc
          rcases hc with rfl | rfl
          · simp only [DCst.Holds, inSum hx hd, DExpr.val_const, Sense.rel, hcast]
            exact h.depotIn
          · simp only [DCst.Holds, outSum hx hd, DExpr.val_const, Sense.rel, hcast]
            exact h.depotOut
      · intro s hs
        have hs := mem_subrouteSets.mp hs
        simp only [subrouteCst, DCst.Holds, insideSum hx ((customers_nodup _ _).sublist hs.1) (hcust hs.1),
          DExpr.val_const, Sense.rel]
        have h3 : (insideDeg (edgesAt g.n x) s : ℚ) + 1 ≤ s.length := by exact_mod_cast h.inside s hs.1 hs.2
        linarith

end Verif
