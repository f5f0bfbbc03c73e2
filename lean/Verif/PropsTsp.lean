import Verif.TourLemmas
import Verif.PropsProgram

/-!
# C49: the traveling salesman program
-/

namespace Verif
open Finset (range)

/-- The 0/1 vector of a tour: variable `i * n + k` tells whether node `i` is at position `k`. -/
def TourPoint (n : Nat) (z : List Nat) (x : Nat → ℚ) : Prop :=
  ∀ i < n, ∀ k < n, x (i * n + k) = if z.getD k 0 = i then 1 else 0

theorem tspIndex_lt {n i k : Nat} (hi : i < n) (hk : k < n) : i * n + k < n * n := by nlinarith

theorem tspRow_wf {n i : Nat} (hi : i < n) :
    (DExpr.sum ((List.range n).map fun k => tspVar n i k)).WF (n * n) := by
  have : ((List.range n).map fun k => tspVar n i k) = ((List.range n).map fun k => i * n + k).map DExpr.var := by
    simp [tspVar]
  rw [this]
  refine sumOf_wf fun q hq => ?_
  obtain ⟨k, hk, rfl⟩ := List.mem_map.mp hq
  exact tspIndex_lt hi (List.mem_range.mp hk)

theorem tspSum_isQuad (l : List Nat) (f : Nat → Nat) : (DExpr.sum (l.map fun k => .var (f k))).isQuad = false := by
  refine sum_isQuad fun a ha => ?_
  obtain ⟨i, _, rfl⟩ := List.mem_map.mp ha
  rfl

theorem tspSum_val (l : List Nat) (f : Nat → Nat) (x : Nat → ℚ) :
    (DExpr.sum (l.map fun k => .var (f k))).val x = (l.map fun k => x (f k)).sum := by
  rw [DExpr.val_sum, List.map_map]
  congr 1
  refine List.map_congr_left fun k _ => DExpr.val_var _ _

theorem tspColumn_wf {n k : Nat} (hk : k < n) :
    (DExpr.sum ((List.range n).map fun i => tspVar n i k)).WF (n * n) := by
  have : ((List.range n).map fun i => tspVar n i k) = ((List.range n).map fun i => i * n + k).map DExpr.var := by
    simp [tspVar]
  rw [this]
  refine sumOf_wf fun q hq => ?_
  obtain ⟨i, hi, rfl⟩ := List.mem_map.mp hq
  exact tspIndex_lt (List.mem_range.mp hi) hk

theorem tspObjective_wf (g : Graph) : (tspObjective g).WF (g.n * g.n) := by
  refine sum_wf fun a ha => ?_
  simp only [List.mem_flatMap, List.mem_map, List.mem_filter, List.mem_range] at ha
  obtain ⟨i, hi, j, hj, k, ⟨hk, _⟩, rfl⟩ := ha
  exact ((var_wf (tspIndex_lt hi hk)).smul _).mul (var_wf (tspIndex_lt hj (Nat.mod_lt _ (by omega))))

theorem tspObjective_val (g : Graph) (x : Nat → ℚ) : (tspObjective g).val x =
    ∑ i ∈ range g.n, ∑ j ∈ range g.n, ∑ k ∈ range g.n,
      (if i ≠ j then g.weight i j * x (i * g.n + k) * x (j * g.n + (k + 1) % g.n) else 0) := by
  unfold tspObjective
  rw [DExpr.val_sum, sum_flatMap, lsum_range]
  refine Finset.sum_congr rfl fun i _ => ?_
  rw [sum_flatMap, lsum_range]
  refine Finset.sum_congr rfl fun j _ => ?_
  by_cases hij : i = j
  · simp [hij]
  · have : ((List.range g.n).filter fun _ => i != j) = List.range g.n := by
      rw [List.filter_eq_self]
      simp [hij]
    rw [this, List.map_map, lsum_range]
    refine Finset.sum_congr rfl fun k _ => ?_
    rw [if_pos hij, Function.comp_apply, DExpr.val_mul _ _ (by rfl) (by rfl), DExpr.val_smul]
    unfold tspVar
    rw [DExpr.val_var, DExpr.val_var]

theorem tspFeas_iff {n : Nat} {x : Nat → ℚ} :
    (Binary (n * n) x ∧ (∀ i < n, ((List.range n).map fun k => x (i * n + k)).sum = 1) ∧
      ∀ k < n, ((List.range n).map fun i => x (i * n + k)).sum = 1) ↔
    ∃ z : List Nat, z.Perm (List.range n) ∧ TourPoint n z x := by
  constructor
  · rintro ⟨hb, hr, hc⟩
    have hr' : ∀ i < n, ∃! k, k < n ∧ x (i * n + k) = 1 := fun i hi =>
      (sum_eq_one_iff fun k hk => hb _ (tspIndex_lt hi hk)).mp (hr i hi)
    have hc' : ∀ k < n, ∃! i, i < n ∧ x (i * n + k) = 1 := fun k hk =>
      (sum_eq_one_iff fun i hi => hb _ (tspIndex_lt hi hk)).mp (hc k hk)
    have hex : ∀ k, ∃ i, k < n → (i < n ∧ x (i * n + k) = 1 ∧ ∀ j < n, x (j * n + k) = 1 → j = i) := by
      intro k
      by_cases hk : k < n
      · obtain ⟨i, hi, hu⟩ := hc' k hk
        exact ⟨i, fun _ => ⟨hi.1, hi.2, fun j hj e => hu j ⟨hj, e⟩⟩⟩
      · exact ⟨0, fun h => absurd h hk⟩
    choose f hf using hex
    have hnd : ((List.range n).map f).Nodup := by
      rw [List.nodup_map_iff_inj_on List.nodup_range]
      intro a ha b hb' hab
      rw [List.mem_range] at ha hb'
      obtain ⟨k, _, hu⟩ := hr' (f a) (hf a ha).1
      rw [hu a ⟨ha, (hf a ha).2.1⟩, hu b ⟨hb', by rw [hab]; exact (hf b hb').2.1⟩]
    refine ⟨(List.range n).map f, ?_, ?_⟩
    · refine (List.subperm_of_subset hnd ?_).perm_of_length_le (by simp)
      intro i hi
      obtain ⟨k, hk, rfl⟩ := List.mem_map.mp hi
      exact List.mem_range.mpr (hf k (List.mem_range.mp hk)).1
    · intro i hi k hk
      have e : ((List.range n).map f).getD k 0 = f k := by simp [hk]
      rw [e]
      by_cases h : f k = i
      · rw [if_pos h, ← h]; exact (hf k hk).2.1
      · rw [if_neg h]
        rcases hb _ (tspIndex_lt hi hk) with e0 | e1
        · exact e0
        · exact absurd ((hf k hk).2.2 i hi e1).symm h
  · rintro ⟨z, hz, hx⟩
    have hl : z.length = n := by simpa using hz.length_eq
    have hnd : z.Nodup := hz.nodup_iff.mpr List.nodup_range
    have hbin : ∀ i < n, ∀ k < n, x (i * n + k) = 0 ∨ x (i * n + k) = 1 := by
      intro i hi k hk
      rw [hx i hi k hk]
      split_ifs <;> simp
    refine ⟨?_, ?_, ?_⟩
    · intro q hq
      have hn : 0 < n := by
        rcases Nat.eq_zero_or_pos n with h | h
        · subst h; simp at hq
        · exact h
      have := hbin (q / n) (Nat.div_lt_of_lt_mul hq) (q % n) (Nat.mod_lt _ hn)
      rwa [Nat.div_add_mod' q n] at this
    · intro i hi
      rw [sum_eq_one_iff fun k hk => hbin i hi k hk]
      have hm : i ∈ z := hz.mem_iff.mpr (List.mem_range.mpr hi)
      obtain ⟨k, hk, e⟩ := List.getElem_of_mem hm
      have hg : ∀ j (hj : j < z.length), z.getD j 0 = z[j] := fun j hj => by simp [hj]
      refine ⟨k, ⟨by omega, ?_⟩, ?_⟩
      · rw [hx i hi k (by omega), hg k hk, if_pos e]
      · rintro j ⟨hj, e1⟩
        rw [hx i hi j hj, hg j (by omega)] at e1
        have : z[j] = i := by
          by_contra hne
          rw [if_neg hne] at e1
          norm_num at e1
        exact (List.Nodup.getElem_inj_iff hnd).mp (this.trans e.symm)
    · intro k hk
      rw [sum_eq_one_iff fun i hi => hbin i hi k hk]
      have hg : z.getD k 0 = z[k] := by simp [hl, hk]
      have hlt : z[k] < n := List.mem_range.mp (hz.mem_iff.mp (List.getElem_mem _))
      refine ⟨z[k], ⟨hlt, ?_⟩, ?_⟩
      · rw [hx _ hlt k hk, hg, if_pos rfl]
      · rintro i ⟨hi, e1⟩
        rw [hx i hi k hk, hg] at e1
        by_contra hne
        rw [if_neg (Ne.symm hne)] at e1
        norm_num at e1

theorem tspProgram_spec (g : Graph) (hg : ∀ i < g.n, ∀ j < g.n, i ≠ j → ∃ w, g.weight? i j = some w) :
    ∃ p, tspProgram g = .ok p ∧ p.objective.sense = .minimize ∧
      p.vars = (allPairs g.n).map (fun q => ⟨pairName q, 0, 1, .binary⟩) ∧
      (∀ x, p.objective.val x = (tspObjective g).val x) ∧
      ∀ x, p.Feas x ↔ ∃ z : List Nat, z.Perm (List.range g.n) ∧ TourPoint g.n z x := by
  obtain ⟨p, hp, hv, hs, ho, hf⟩ := loadModel_pairs (name := "TSP") (keys := allPairs g.n) (min := true)
    (obj := tspObjective g) (csts := ((List.range g.n).map fun i =>
        .linear (DExpr.sum ((List.range g.n).map fun k => tspVar g.n i k)) .eq (.const 1) none) ++
      ((List.range g.n).map fun k =>
        .linear (DExpr.sum ((List.range g.n).map fun i => tspVar g.n i k)) .eq (.const 1) none))
    (allPairs_nodup _) (by rw [allPairs_length]; exact tspObjective_wf g) (by
      intro c hc
      rw [allPairs_length]
      rcases List.mem_append.mp hc with hc | hc <;> obtain ⟨i, hi, rfl⟩ := List.mem_map.mp hc
      · exact ⟨tspRow_wf (List.mem_range.mp hi), const_wf _ _, tspSum_isQuad _ _, rfl⟩
      · exact ⟨tspColumn_wf (List.mem_range.mp hi), const_wf _ _, tspSum_isQuad _ _, rfl⟩) (by
      intro c hc
      rcases List.mem_append.mp hc with hc | hc <;> obtain ⟨i, hi, rfl⟩ := List.mem_map.mp hc <;> exact ⟨rfl, rfl⟩)
  refine ⟨p, by unfold tspProgram; rw [if_pos (complete_iff.mpr hg), hp], hs, hv, ho, fun x => ?_⟩
  rw [hf, ← tspFeas_iff, allPairs_length, List.forall_mem_append, List.forall_mem_map, List.forall_mem_map]
  simp only [DCst.Holds, DExpr.val_const, Sense.rel, tspVar, tspSum_val, List.mem_range]

/-- **C49.** The feasible points of the program are the 0/1 vectors of the orderings of all nodes, one vector for each
ordering. -/
theorem C49_feasible (g : Graph) (hsim : g.Simple) (hg : ∀ i < g.n, ∀ j < g.n, i ≠ j → ∃ w, g.Weighs i j w) :
    ∃ p, tspProgram g = .ok p ∧ p.objective.sense = .minimize ∧
      p.vars = (allPairs g.n).map (fun q => ⟨pairName q, 0, 1, .binary⟩) ∧
      ∀ x, p.Feas x ↔ ∃ z : List Nat, z.Perm (List.range g.n) ∧ TourPoint g.n z x := by
  obtain ⟨p, h1, h2, h3, _, h4⟩ := tspProgram_spec g fun i hi j hj hij =>
    (hg i hi j hj hij).imp fun _ => weight_of_weighs hsim
  exact ⟨p, h1, h2, h3, h4⟩

/-- **C49.** A missing edge or weight raises `KeyError`. -/
theorem C49_rejects {g : Graph} {i j : Nat} (hi : i < g.n) (hj : j < g.n) (hij : i ≠ j)
    (h : ¬ ∃ w, g.Weighs i j w) :
    tspProgram g = .error .keyError := by
  unfold tspProgram
  rw [if_neg]
  intro hc
  obtain ⟨w, hw⟩ := complete_iff.mp hc i hi j hj hij
  exact h ⟨w, weighs_of_weight hw⟩

/-- **C49.** At the vector of an ordering, `interpret` returns the ordering. -/
theorem C49_interpret {n : Nat} {x : List ℚ} (hl : x.length = n * n) {z : List Nat} (hz : z.Perm (List.range n))
    (hx : TourPoint n z (pt x)) : tspInterpret x = z.map .inl := by
  have hzl : z.length = n := by simpa using hz.length_eq
  unfold tspInterpret
  simp only [hl, Nat.sqrt_eq]
  apply List.ext_getElem
  · simp [hzl]
  · intro k h1 h2
    have hk : k < n := by simpa using h1
    have hlt : z[k] < n := List.mem_range.mp (hz.mem_iff.mp (List.getElem_mem _))
    have hstep : tspStep x n k = [z[k]] := by
      unfold tspStep
      have : ((List.range n).filter fun i => decide (x.getD (i * n + k) 0 ≠ 0)) =
          (List.range n).filter fun i => i == z[k] := by
        refine List.filter_congr fun i hi => ?_
        have := hx i (List.mem_range.mp hi) k hk
        unfold pt at this
        have hg : z.getD k 0 = z[k] := by simp [hzl, hk]
        rw [this, hg]
        by_cases e : z[k] = i
        · simp [e]
        · simp [e, Ne.symm e]
      rw [this, List.filter_beq]
      have hc : List.count z[k] (List.range n) = 1 := List.count_eq_one_of_mem List.nodup_range (List.mem_range.mpr hlt)
      rw [hc]; rfl
    simp [hstep]

theorem foldl_plus_sum (l : List Nat) (f : Nat → ℚ) (r : ℚ) : l.foldl (fun r i => r + f i) r = r + (l.map f).sum := by
  induction l generalizing r with
  | nil => simp
  | cons a l ih => rw [List.foldl_cons, ih, List.map_cons, List.sum_cons]; ring

theorem tspValue_eq {n : Nat} {z : List Nat} (hz : z.length = n + 1) (adj : Nat → Nat → ℚ) :
    tspValue z adj = .ok (∑ k ∈ range (n + 1), adj (z.getD k 0) (z.getD ((k + 1) % (n + 1)) 0)) := by
  have hne : z ≠ [] := by rintro rfl; simp at hz
  unfold tspValue
  rw [List.getLast?_eq_getElem?, List.head?_eq_getElem?, hz]
  have e1 : z[n + 1 - 1]? = some (z.getD n 0) := by simp [hz]
  have e2 : z[0]? = some (z.getD 0 0) := by simp [hz]
  rw [e1, e2]
  simp only [Except.ok.injEq]
  rw [foldl_plus_sum, zero_add, Finset.sum_range_succ, Nat.add_sub_cancel, lsum_range, Nat.mod_self]
  congr 1
  refine Finset.sum_congr rfl fun k hk => ?_
  rw [Nat.mod_eq_of_lt (by have := Finset.mem_range.mp hk; omega)]

/-- **C49.** At the vector of an ordering of at least two nodes the objective is the length of the closed tour as
`tsp_value` computes it from a matrix with the weights of the graph. -/
theorem C49_objective {g : Graph} {p : QP} (hp : tspProgram g = .ok p) (hn : 2 ≤ g.n) (hsim : g.Simple)
    {adj : Nat → Nat → ℚ} (hadj : ∀ i < g.n, ∀ j < g.n, i ≠ j → g.Weighs i j (adj i j)) {z : List Nat}
    (hz : z.Perm (List.range g.n)) {x : Nat → ℚ} (hx : TourPoint g.n z x) :
    tspValue z adj = .ok (p.objective.val x) := by
  replace hadj : ∀ i < g.n, ∀ j < g.n, i ≠ j → g.weight? i j = some (adj i j) :=
    fun i hi j hj hij => weight_of_weighs hsim (hadj i hi j hj hij)
  have hobj : p.objective.val x = (tspObjective g).val x := by
    obtain ⟨p', hp', _, _, ho, _⟩ := tspProgram_spec g fun i hi j hj hij => ⟨_, hadj i hi j hj hij⟩
    rw [hp] at hp'
    simp only [Except.ok.injEq] at hp'
    subst hp'
    exact ho x
  have hzl : z.length = g.n := by simpa using hz.length_eq
  have hnd : z.Nodup := hz.nodup_iff.mpr List.nodup_range
  obtain ⟨m, hm⟩ : ∃ m, g.n = m + 1 := ⟨g.n - 1, by omega⟩
  rw [tspValue_eq (hzl.trans hm), hobj, tspObjective_val, ← hm]
  congr 1
  have hlt : ∀ k < g.n, z.getD k 0 < g.n := by
    intro k hk
    have hg : z.getD k 0 = z[k] := by simp [hzl, hk]
    rw [hg]
    exact List.mem_range.mp (hz.mem_iff.mp (List.getElem_mem _))
  have hswap : ∀ i ∈ range g.n, ∑ j ∈ range g.n, ∑ k ∈ range g.n,
      (if i ≠ j then g.weight i j * x (i * g.n + k) * x (j * g.n + (k + 1) % g.n) else 0) =
      ∑ k ∈ range g.n, ∑ j ∈ range g.n,
      (if i ≠ j then g.weight i j * x (i * g.n + k) * x (j * g.n + (k + 1) % g.n) else 0) :=
    fun i _ => Finset.sum_comm
  rw [Finset.sum_congr rfl hswap, Finset.sum_comm]
  refine Finset.sum_congr rfl fun k hk => ?_
  have hk := Finset.mem_range.mp hk
  have hk' : (k + 1) % g.n < g.n := Nat.mod_lt _ (by omega)
  have hne : z.getD k 0 ≠ z.getD ((k + 1) % g.n) 0 := by
    have h1 : z.getD k 0 = z[k] := by simp [hzl, hk]
    have h2 : z.getD ((k + 1) % g.n) 0 = z[(k + 1) % g.n] := by simp [hzl, hk']
    rw [h1, h2]
    intro h
    have := (List.Nodup.getElem_inj_iff hnd).mp h
    by_cases hlast : k + 1 = g.n
    · rw [hlast, Nat.mod_self] at this; omega
    · rw [Nat.mod_eq_of_lt (by omega)] at this; omega
  symm
  rw [Finset.sum_eq_single (z.getD k 0)]
  · rw [Finset.sum_eq_single (z.getD ((k + 1) % g.n) 0)]
    · rw [if_pos hne, hx _ (hlt k hk) k hk, if_pos rfl, hx _ (hlt _ hk') _ hk', if_pos rfl]
      unfold Graph.weight
      rw [hadj _ (hlt k hk) _ (hlt _ hk') hne]
      simp
    · intro j hj hne'
      rw [hx j (Finset.mem_range.mp hj) _ hk', if_neg (Ne.symm hne')]
      simp
    · intro h
      exact absurd (Finset.mem_range.mpr (hlt _ hk')) h
  · intro i hi hne'
    refine Finset.sum_eq_zero fun j _ => ?_
    rw [hx i (Finset.mem_range.mp hi) k hk, if_neg (Ne.symm hne')]
    simp
  · intro h
    exact absurd (Finset.mem_range.mpr (hlt k hk)) h

/-- A triangle; the ordering 1, 0, 2 has length 2 + 5 + 3. -/
def tspSample : Graph := ⟨3, [(0, 1, some 2), (0, 2, some 5), (2, 1, some 3)]⟩

example : tspSample.Simple ∧ ∀ i < tspSample.n, ∀ j < tspSample.n, i ≠ j → tspSample.Weighs i j
    (if i + j = 1 then 2 else if i + j = 2 then 5 else 3) := by decide +kernel

example : tspSample.complete = true ∧ tspInterpret [0, 1, 0, 1, 0, 0, 0, 0, 1] = [.inl 1, .inl 0, .inl 2] ∧
    (tspProgram tspSample).toOption.map (fun p => p.objective.val (pt [0, 1, 0, 1, 0, 0, 0, 0, 1])) = some 10 ∧
    tspValue [1, 0, 2] tspSample.weight = .ok 10 := by decide +kernel

/-- **C49** (all points): position `k` of the interpretation holds the one node with a non-zero entry at this position, or, if there
is none or several, the increasing list of these nodes. -/
theorem C49_interpret_any {n : Nat} {x : List ℚ} (hl : x.length = n * n) :
    (tspInterpret x).length = n ∧ ∀ k < n, ∃ l : List Nat, l.Pairwise (· < ·) ∧
      (∀ i, i ∈ l ↔ i < n ∧ pt x (i * n + k) ≠ 0) ∧
      (tspInterpret x)[k]? = some (if l.length = 1 then .inl (l.headD 0) else .inr l) := by
  unfold tspInterpret
  simp only [hl, Nat.sqrt_eq]
  refine ⟨by simp, fun k hk => ⟨tspStep x n k, ?_, ?_, ?_⟩⟩
  · unfold tspStep
    exact List.Pairwise.filter _ List.pairwise_lt_range
  · intro i
    unfold tspStep pt
    simp
  · rw [List.getElem?_map, List.getElem?_range hk]
    simp only [Option.map_some]
    rcases tspStep x n k with _ | ⟨a, _ | ⟨b, l⟩⟩ <;> simp

/-- `interpret` at an infeasible point: two nodes at position 0, none at position 1. -/
example : tspInterpret [1, 0, 1, 0] = [.inr [0, 1], .inr []] := by decide +kernel

end Verif
