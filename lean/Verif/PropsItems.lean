import Verif.PropsApps
import Mathlib.Data.Finset.Card
import Mathlib.Data.Finset.Range
import Mathlib.Data.Finset.Dedup
import Mathlib.Data.List.Dedup

/-!
# C46-C48: applications on items, numbers and sets
-/

namespace Verif

/-! ## C46 -/

theorem weightedSum_val (n : Nat) (w : List ℚ) (x : Nat → ℚ) (h : Binary n x) :
    (DExpr.sum ((List.range n).map fun i => (DExpr.var i).smul (w.getD i 0))).val x =
      (((List.range n).filter fun i => decide (x i = 1)).map fun i => w.getD i 0).sum := by
  rw [DExpr.val_sum, List.map_map]
  have h' : ∀ i ∈ List.range n, x i = 0 ∨ x i = 1 := fun i hi => h i (List.mem_range.mp hi)
  generalize List.range n = l at h'
  induction l with
  | nil => simp
  | cons i l ih =>
    rw [List.map_cons, List.sum_cons, ih fun j hj => h' j (by simp [hj]), Function.comp_apply, DExpr.val_smul,
      DExpr.val_var]
    rcases h' i (by simp) with e | e
    · rw [List.filter_cons_of_neg (by simp [e]), e]; ring
    · rw [List.filter_cons_of_pos (by simp [e]), e, List.map_cons, List.sum_cons]; ring

theorem weightedSum_wf (n : Nat) (w : List ℚ) :
    (DExpr.sum ((List.range n).map fun i => (DExpr.var i).smul (w.getD i 0))).WF n := by
  refine sum_wf fun a ha => ?_
  obtain ⟨i, hi, rfl⟩ := List.mem_map.mp ha
  exact (var_wf (List.mem_range.mp hi)).smul _

theorem weightedSum_isQuad (n : Nat) (w : List ℚ) :
    (DExpr.sum ((List.range n).map fun i => (DExpr.var i).smul (w.getD i 0))).isQuad = false := by
  refine sum_isQuad fun a ha => ?_
  obtain ⟨i, _, rfl⟩ := List.mem_map.mp ha
  rfl

/-- **C46.** The feasible points are the selections whose weights sum up to at most the capacity; the objective, to be
maximized, is the sum of the values of the selected items. -/
theorem C46_model (values weights : List ℚ) (capacity : ℚ) (hw : values.length ≤ weights.length) :
    ∃ p, knapsackProgram values weights capacity = .ok p ∧ AppVariables values.length p ∧
      p.objective.sense = .maximize ∧
      (∀ x, p.Feas x ↔ (∀ i < values.length, x i = 0 ∨ x i = 1) ∧
        (((List.range values.length).filter fun i => decide (x i = 1)).map fun i => weights.getD i 0).sum ≤ capacity) ∧
      ∀ x, (∀ i < values.length, x i = 0 ∨ x i = 1) → p.objective.val x =
        (((List.range values.length).filter fun i => decide (x i = 1)).map fun i => values.getD i 0).sum := by
  obtain ⟨p, hp, hb⟩ := loadModel_app (name := "Knapsack") (n := values.length) (min := false)
    (obj := DExpr.sum ((List.range values.length).map fun i => (DExpr.var i).smul (values.getD i 0)))
    (csts := [.linear (DExpr.sum ((List.range values.length).map fun i => (DExpr.var i).smul (weights.getD i 0))) .le
      (.const capacity) none]) (weightedSum_wf _ _) (by
      intro c hc
      rw [List.mem_singleton.mp hc]
      exact ⟨weightedSum_wf _ _, const_wf _ _, weightedSum_isQuad _ _, rfl⟩) (by
      intro c hc
      rw [List.mem_singleton.mp hc]
      exact ⟨Or.inl rfl, rfl⟩)
  refine ⟨p, by unfold knapsackProgram; rw [if_neg (by omega), hp], hb.appVariables, hb.sense, ?_, ?_⟩
  · intro x
    rw [hb.appFeas]
    refine and_congr_right fun h => ?_
    simp only [List.mem_singleton, forall_eq, DCst.Holds, weightedSum_val _ _ _ h, DExpr.val_const, Sense.rel]
  · intro x hx
    rw [hb.obj]
    exact weightedSum_val _ _ _ hx

/-- **C46.** Too few weights raise `IndexError`. -/
theorem C46_rejects (values weights : List ℚ) (capacity : ℚ) (hw : weights.length < values.length) :
    knapsackProgram values weights capacity = .error .indexError := by
  unfold knapsackProgram
  rw [if_pos hw]

/-- **C46.** `interpret` returns the selected items, and the constraint and the objective are the sums over the items that
`interpret` returns. -/
theorem C46_interpret {values weights : List ℚ} {capacity : ℚ} {p : QP}
    (hp : knapsackProgram values weights capacity = .ok p) {x : List ℚ} (hl : x.length = values.length)
    (hx : ∀ v ∈ x, v = 0 ∨ v = 1) :
    (p.Feas (pt x) ↔ ((interpretSet x).map fun i => weights.getD i 0).sum ≤ capacity) ∧
      p.objective.val (pt x) = ((interpretSet x).map fun i => values.getD i 0).sum := by
  have hw : values.length ≤ weights.length := by
    by_contra hc
    rw [C46_rejects _ _ _ (by omega)] at hp
    simp at hp
  obtain ⟨p', h', _, _, hf, ho⟩ := C46_model values weights capacity hw
  rw [hp] at h'
  simp only [Except.ok.injEq] at h'
  subst h'
  have hb : ∀ i < values.length, pt x i = 0 ∨ pt x i = 1 := by
    intro i hi
    have : x.getD i 0 ∈ x := by
      rw [List.getD_eq_getElem?_getD, List.getElem?_eq_getElem (by omega)]; exact List.getElem_mem _
    exact hx _ this
  have hi : interpretSet x = (List.range values.length).filter fun i => decide (pt x i = 1) := by
    rw [interpretSet_eq, interpretSides_eq, hl]
    refine List.filter_congr fun i hi => ?_
    have hb := hb i (List.mem_range.mp hi)
    unfold pt at hb ⊢
    rcases hb with e | e <;> rw [e] <;> norm_num
  rw [hf, ho _ hb, hi]
  exact ⟨and_iff_right hb, rfl⟩

/-- The hypotheses are met: items 1 and 2 of four fit into the knapsack of capacity 5, items 0 and 1 do not. -/
example : (knapsackProgram [3, 1, 2, 7] [4, 2, 3, 9] 5).toOption.map (fun p => p.objective.val (pt [0, 1, 1, 0])) =
    some 3 ∧ interpretSet [0, 1, 1, 0] = [1, 2] := by decide +kernel

/-! ## C47 -/

theorem numberLoop_eq (numbers : List ℚ) (l : List (ℚ × Nat)) (h : ∀ q ∈ l, q.2 < numbers.length)
    (c : List ℚ × List ℚ) : numberLoop numbers l c =
      .ok (c.1 ++ (l.filter fun q => decide (q.1 = 0)).map (fun q => numbers.getD q.2 0),
        c.2 ++ (l.filter fun q => !decide (q.1 = 0)).map (fun q => numbers.getD q.2 0)) := by
  induction l generalizing c with
  | nil => simp [numberLoop]
  | cons q l ih =>
    obtain ⟨v, i⟩ := q
    have hi := h (v, i) (by simp)
    simp only at hi
    simp only [numberLoop, List.getElem?_eq_getElem hi]
    rw [ih fun q hq => h q (by simp [hq])]
    by_cases hv : v = 0
    · simp [hv, List.getElem?_eq_getElem hi]
    · simp [hv, List.getElem?_eq_getElem hi]

/-- **C47.** For every 0/1 vector of the right length `interpret` returns two lists which together are a rearrangement of
the numbers, the first one the numbers of the positions with value zero, and the vector is feasible if and only if the
lists have equal sums.  All feasible points are 0/1 vectors. -/
theorem C47_model (numbers : List ℚ) : ∃ p, numberPartitionProgram numbers = .ok p ∧ AppVariables numbers.length p ∧
    (∀ x, p.Feas x → ∀ i < numbers.length, x i = 0 ∨ x i = 1) ∧ (∀ x, p.objective.val x = 0) ∧
    ∀ x : List ℚ, x.length = numbers.length → (∀ v ∈ x, v = 0 ∨ v = 1) →
      ∃ a b, numberPartitionInterpret numbers x = .ok (a, b) ∧ (a ++ b).Perm numbers ∧
        a = ((List.range numbers.length).filter fun i => decide (x.getD i 0 = 0)).map (fun i => numbers.getD i 0) ∧
        (p.Feas (pt x) ↔ a.sum = b.sum) := by
  have hwf : (DExpr.sum (numbers.zipIdx.map fun q => (((DExpr.var q.2).smul (-2)).add (.const 1)).smul q.1)).WF
      numbers.length := by
    refine sum_wf fun a ha => ?_
    obtain ⟨q, hq, rfl⟩ := List.mem_map.mp ha
    have hq' : q.2 < numbers.length := by
      obtain ⟨v, i⟩ := q
      have := List.snd_lt_of_mem_zipIdx hq
      simpa using this
    exact (((var_wf hq').smul _).add (const_wf _ _)).smul _
  obtain ⟨p, hp, hb⟩ := loadModel_app (name := "Number partitioning") (n := numbers.length) (min := true)
    (obj := .const 0) (csts := [.linear (DExpr.sum (numbers.zipIdx.map fun q =>
      (((DExpr.var q.2).smul (-2)).add (.const 1)).smul q.1)) .eq (.const 0) none]) (const_wf _ _) (by
      intro c hc
      rw [List.mem_singleton.mp hc]
      refine ⟨hwf, const_wf _ _, sum_isQuad ?_, rfl⟩
      intro a ha
      obtain ⟨q, _, rfl⟩ := List.mem_map.mp ha
      rfl) (by
      intro c hc
      rw [List.mem_singleton.mp hc]
      exact ⟨Or.inl rfl, rfl⟩)
  refine ⟨p, hp, hb.appVariables, fun x hx => ((hb.appFeas x).mp hx).1, fun x => ?_, ?_⟩
  · rw [hb.obj]; exact DExpr.val_const 0 x
  intro x hl hx
  have hxb : Binary numbers.length (pt x) := by
    intro i hi
    have : x.getD i 0 ∈ x := by
      rw [List.getD_eq_getElem?_getD, List.getElem?_eq_getElem (by omega)]; exact List.getElem_mem _
    exact hx _ this
  have hz : x.zipIdx = (List.range numbers.length).map fun i => (x.getD i 0, i) := by
    apply List.ext_getElem
    · simp [hl]
    · intro i h1 h2
      simp at h1
      simp [h1]
  have hn : numbers.zipIdx = (List.range numbers.length).map fun i => (numbers.getD i 0, i) := by
    apply List.ext_getElem
    · simp
    · intro i h1 h2
      simp at h1
      simp [h1]
  have hself : numbers = (List.range numbers.length).map fun i => numbers.getD i 0 := by
    apply List.ext_getElem
    · simp
    · intro i h1 h2
      simp [h1]
  have hint : numberPartitionInterpret numbers x =
      .ok (((List.range numbers.length).filter fun i => decide (x.getD i 0 = 0)).map (fun i => numbers.getD i 0),
        ((List.range numbers.length).filter fun i => !decide (x.getD i 0 = 0)).map (fun i => numbers.getD i 0)) := by
    unfold numberPartitionInterpret
    rw [hz, numberLoop_eq _ _ (by
      intro q hq
      obtain ⟨i, hi, rfl⟩ := List.mem_map.mp hq
      exact List.mem_range.mp hi)]
    simp only [List.filter_map, List.map_map, List.nil_append]
    rfl
  refine ⟨_, _, hint, ?_, rfl, ?_⟩
  · rw [← List.map_append]
    exact ((List.filter_append_perm _ _).map _).trans (by rw [← hself])
  · rw [hb.appFeas]
    simp only [List.mem_singleton, forall_eq, DCst.Holds, DExpr.val_const, Sense.rel, hxb, true_and]
    rw [DExpr.val_sum, hn, List.map_map, List.map_map]
    have key : ∀ l : List Nat, (∀ i ∈ l, pt x i = 0 ∨ pt x i = 1) →
        (l.map (((fun a : DExpr => a.val (pt x)) ∘ (fun q : ℚ × Nat =>
          (((DExpr.var q.2).smul (-2)).add (.const 1)).smul q.1)) ∘ fun i => (numbers.getD i 0, i))).sum =
        ((l.filter fun i => decide (x.getD i 0 = 0)).map fun i => numbers.getD i 0).sum -
        ((l.filter fun i => !decide (x.getD i 0 = 0)).map fun i => numbers.getD i 0).sum := by
      intro l hb
      induction l with
      | nil => simp
      | cons i l ih =>
        rw [List.map_cons, List.sum_cons, ih fun j hj => hb j (by simp [hj])]
        have hbi := hb i (by simp)
        simp only [Function.comp_apply, DExpr.val_smul, DExpr.val_add, DExpr.val_var, DExpr.val_const]
        unfold pt at hbi ⊢
        rcases hbi with e | e
        · rw [List.filter_cons_of_pos (by rw [e]; rfl), List.filter_cons_of_neg (by rw [e]; simp), e, List.map_cons,
            List.sum_cons]
          ring
        · rw [List.filter_cons_of_neg (by rw [e]; simp), List.filter_cons_of_pos (by rw [e]; simp), e, List.map_cons,
            List.sum_cons]
          ring
    rw [key _ fun i hi => hxb i (List.mem_range.mp hi), sub_eq_zero]

/-- The numbers 3, 1, 2, 4 are divided into 3, 2 and 1, 4. -/
example : numberPartitionInterpret [3, 1, 2, 4] [0, 1, 0, 1] = .ok ([3, 2], [1, 4]) ∧
    (numberPartitionProgram [3, 1, 2, 4]).toOption.map (fun p => p.lins.map fun c => c.linear.coeffs) =
      some [[(0, -6), (1, -2), (2, -4), (3, -8)]] := by decide +kernel

/-! ## C48 -/

theorem mem_allElements {subsets : List (List ℤ)} {e : ℤ} : e ∈ allElements subsets ↔ ∃ s ∈ subsets, e ∈ s := by
  unfold allElements
  rw [mem_sortedBy, List.mem_dedup, List.mem_flatten]

theorem zipIdx_range {α : Type} (l : List α) (d : α) : l.zipIdx = (List.range l.length).map fun i => (l.getD i d, i) := by
  apply List.ext_getElem
  · simp
  · intro i h1 h2
    simp at h1
    simp [h1]

theorem elementSum_eq (subsets : List (List ℤ)) (e : ℤ) : elementSum subsets e =
    DExpr.sum (((List.range subsets.length).filter fun i => (subsets.getD i []).contains e).map DExpr.var) := by
  unfold elementSum
  rw [zipIdx_range subsets [], List.filter_map, List.map_map]
  rfl

theorem elementSum_wf (subsets : List (List ℤ)) (e : ℤ) : (elementSum subsets e).WF subsets.length := by
  rw [elementSum_eq]
  refine sum_wf fun a ha => ?_
  obtain ⟨i, hi, rfl⟩ := List.mem_map.mp ha
  exact var_wf (List.mem_range.mp (List.mem_filter.mp hi).1)

theorem elementSum_isQuad (subsets : List (List ℤ)) (e : ℤ) : (elementSum subsets e).isQuad = false := by
  rw [elementSum_eq]
  refine sum_isQuad fun a ha => ?_
  obtain ⟨i, _, rfl⟩ := List.mem_map.mp ha
  rfl

/-- The positions of the chosen subsets that contain an element. -/
def chosenWith (subsets : List (List ℤ)) (e : ℤ) (x : Nat → ℚ) : Finset Nat :=
  (Finset.range subsets.length).filter fun i => x i = 1 ∧ e ∈ subsets.getD i []

theorem elementSum_val {subsets : List (List ℤ)} {x : Nat → ℚ} (hx : Binary subsets.length x) (e : ℤ) :
    (elementSum subsets e).val x = (chosenWith subsets e x).card := by
  rw [elementSum_eq, DExpr.val_sum, List.map_map]
  have h1 : ((fun a : DExpr => a.val x) ∘ DExpr.var) = x := by funext i; exact DExpr.val_var i x
  rw [h1, sum_ones fun i hi => hx i (List.mem_range.mp (List.mem_filter.mp hi).1), List.filter_filter]
  congr 1
  have h2 : chosenWith subsets e x = ((List.range subsets.length).filter fun i =>
      decide (x i = 1) && (subsets.getD i []).contains e).toFinset := by
    ext i
    simp only [chosenWith, Finset.mem_filter, Finset.mem_range, List.mem_toFinset, List.mem_filter, List.mem_range,
      Bool.and_eq_true, decide_eq_true_eq, List.contains_iff_mem]
  rw [h2, List.toFinset_card_of_nodup (List.nodup_range.filter _)]

theorem subsetProgram (name : String) (min : Bool) (s : Sense) (subsets : List (List ℤ)) :
    ∃ p, loadModel ⟨name, appVars subsets.length, min, sumVars subsets.length,
        (allElements subsets).map fun e => .linear (elementSum subsets e) s (.const 1) none⟩ = .ok p ∧
      AppVariables subsets.length p ∧ p.objective.sense = (if min then .minimize else .maximize) ∧
      (∀ x, p.Feas x ↔ Binary subsets.length x ∧ ∀ e, (∃ t ∈ subsets, e ∈ t) →
        s.rel ((chosenWith subsets e x).card : ℚ) 1) ∧
      ∀ x, Binary subsets.length x → p.objective.val x = ones subsets.length x := by
  obtain ⟨p, hp, hb⟩ := loadModel_app (name := name) (n := subsets.length) (min := min) (obj := sumVars subsets.length)
    (csts := (allElements subsets).map fun e => .linear (elementSum subsets e) s (.const 1) none) (sumVars_wf _) (by
      intro c hc
      obtain ⟨e, _, rfl⟩ := List.mem_map.mp hc
      exact ⟨elementSum_wf _ _, const_wf _ _, elementSum_isQuad _ _, rfl⟩) (by
      intro c hc
      obtain ⟨e, _, rfl⟩ := List.mem_map.mp hc
      exact ⟨Or.inl rfl, rfl⟩)
  refine ⟨p, hp, hb.appVariables, hb.sense, ?_, ?_⟩
  · intro x
    rw [hb.appFeas]
    refine and_congr_right fun h => ?_
    rw [List.forall_mem_map]
    simp only [DCst.Holds, elementSum_val h, DExpr.val_const, mem_allElements]
  · intro x hx
    rw [hb.obj, sumVars_ones hx]

theorem getD_mem {subsets : List (List ℤ)} {i : Nat} (h : i < subsets.length) : subsets.getD i [] ∈ subsets := by
  rw [List.getD_eq_getElem?_getD, List.getElem?_eq_getElem h]
  exact List.getElem_mem _

/-- **C48.** The feasible points of the set packing program are the choices of pairwise disjoint subsets; the objective, to
be maximized, is the number of chosen subsets. -/
theorem C48_packing (subsets : List (List ℤ)) : ∃ p, setPackingProgram subsets = .ok p ∧
    AppVariables subsets.length p ∧ p.objective.sense = .maximize ∧
    (∀ x, p.Feas x ↔ (∀ i < subsets.length, x i = 0 ∨ x i = 1) ∧
      ∀ i < subsets.length, ∀ j < subsets.length, i ≠ j → x i = 1 → x j = 1 →
        ∀ e, ¬ (e ∈ subsets.getD i [] ∧ e ∈ subsets.getD j [])) ∧
    ∀ x, (∀ i < subsets.length, x i = 0 ∨ x i = 1) →
      p.objective.val x = (((List.range subsets.length).filter fun i => decide (x i = 1)).length : ℚ) := by
  obtain ⟨p, hp, h1, h2, h3, h4⟩ := subsetProgram "Set packing" false .le subsets
  refine ⟨p, hp, h1, h2, ?_, h4⟩
  intro x
  rw [h3]
  refine and_congr_right fun hb => ?_
  simp only [Sense.rel]
  constructor
  · rintro h i hi j hj hij e1 e2 e ⟨m1, m2⟩
    have hc : (chosenWith subsets e x).card ≤ 1 := by exact_mod_cast h e ⟨_, getD_mem hi, m1⟩
    exact hij (Finset.card_le_one.mp hc i (by simp only [chosenWith, Finset.mem_filter, Finset.mem_range]; exact ⟨hi, e1, m1⟩)
      j (by simp only [chosenWith, Finset.mem_filter, Finset.mem_range]; exact ⟨hj, e2, m2⟩))
  · intro h e _
    have hc : (chosenWith subsets e x).card ≤ 1 := by
      rw [Finset.card_le_one]
      intro i hi j hj
      simp only [chosenWith, Finset.mem_filter, Finset.mem_range] at hi hj
      by_contra hij
      exact h i hi.1 j hj.1 hij hi.2.1 hj.2.1 e ⟨hi.2.2, hj.2.2⟩
    exact_mod_cast hc

/-- **C48.** The feasible points of the exact cover program are the choices for which every element of a subset lies in
exactly one chosen subset; the objective, to be minimized, is the number of chosen subsets. -/
theorem C48_cover (subsets : List (List ℤ)) : ∃ p, exactCoverProgram subsets = .ok p ∧
    AppVariables subsets.length p ∧ p.objective.sense = .minimize ∧
    (∀ x, p.Feas x ↔ (∀ i < subsets.length, x i = 0 ∨ x i = 1) ∧
      ∀ e, (∃ t ∈ subsets, e ∈ t) → ∃! i, i < subsets.length ∧ x i = 1 ∧ e ∈ subsets.getD i []) ∧
    ∀ x, (∀ i < subsets.length, x i = 0 ∨ x i = 1) →
      p.objective.val x = (((List.range subsets.length).filter fun i => decide (x i = 1)).length : ℚ) := by
  obtain ⟨p, hp, h1, h2, h3, h4⟩ := subsetProgram "Exact cover" true .eq subsets
  refine ⟨p, hp, h1, h2, ?_, h4⟩
  intro x
  rw [h3]
  refine and_congr_right fun hb => forall₂_congr fun e _ => ?_
  simp only [Sense.rel]
  have : ((chosenWith subsets e x).card : ℚ) = 1 ↔ (chosenWith subsets e x).card = 1 := by norm_cast
  rw [this, Finset.card_eq_one]
  constructor
  · rintro ⟨i, hi⟩
    have hm : ∀ j, j ∈ chosenWith subsets e x ↔ j = i := by intro j; rw [hi]; simp
    simp only [chosenWith, Finset.mem_filter, Finset.mem_range] at hm
    exact ⟨i, (hm i).mpr rfl, fun j hj => (hm j).mp hj⟩
  · rintro ⟨i, hi, hu⟩
    refine ⟨i, ?_⟩
    ext j
    simp only [chosenWith, Finset.mem_filter, Finset.mem_range, Finset.mem_singleton]
    exact ⟨fun hj => hu j hj, by rintro rfl; exact hi⟩

theorem subsetLoop_eq (subsets : List (List ℤ)) (l : List (ℚ × Nat)) (h : ∀ q ∈ l, q.2 < subsets.length)
    (r : List (List ℤ)) : subsetLoop subsets l r =
      .ok (r ++ (l.filter fun q => decide (q.1 ≠ 0)).map fun q => subsets.getD q.2 []) := by
  induction l generalizing r with
  | nil => simp [subsetLoop]
  | cons q l ih =>
    obtain ⟨v, i⟩ := q
    have hi := h (v, i) (by simp)
    have ih := ih fun q hq => h q (by simp [hq])
    simp only at hi
    simp only [subsetLoop, List.getElem?_eq_getElem hi]
    by_cases hv : v = 0
    · simp [hv, ih]
    · simp [hv, ih, List.getElem?_eq_getElem hi]

/-- **C48.** `interpret` returns the chosen subsets, in order. -/
theorem C48_interpret (subsets : List (List ℤ)) (x : List ℚ) (hl : x.length ≤ subsets.length) :
    interpretSubsets subsets x = .ok (((List.range x.length).filter fun i => decide (x.getD i 0 ≠ 0)).map fun i =>
      subsets.getD i []) := by
  unfold interpretSubsets
  rw [zipIdx_range x 0, subsetLoop_eq _ _ (by
    intro q hq
    obtain ⟨i, hi, rfl⟩ := List.mem_map.mp hq
    have := List.mem_range.mp hi
    simp only; omega), List.filter_map, List.map_map]
  rfl

/-- Subsets 0 and 2 of the sample are disjoint and cover all elements. -/
example : (setPackingProgram [[1, 2], [2, 3], [3, 4]]).toOption.map (fun p => p.lins.length) = some 4 ∧
    (exactCoverProgram [[1, 2], [2, 3], [3, 4]]).toOption.map (fun p => p.lins.map fun c => c.linear.coeffs) =
      some [[(0, 1)], [(0, 1), (1, 1)], [(1, 1), (2, 1)], [(2, 1)]] ∧
    interpretSubsets [[1, 2], [2, 3], [3, 4]] [1, 0, 1] = .ok [[1, 2], [3, 4]] := by decide +kernel

end Verif
