import Verif.PropsPipeline

/-!
# C71: items and sets solved through the QUBO and an exact eigensolver
-/

namespace Verif

/-- **C71, knapsack** with integral weights: the reported items fit, and no set of items that fits is worth more. -/
theorem C71_knapsack (solver : QubitOp → Option Eigenstate) (hsol : ExactSolver solver) (values weights : List ℚ)
    (capacity : ℚ) (h0 : 0 < values.length) (hw : values.length ≤ weights.length)
    (hz : ∀ w ∈ weights, ∃ z : ℤ, w = z) (hc : 0 ≤ capacity) :
    ∃ p y, knapsackProgram values weights capacity = .ok p ∧ Solves solver p y ∧
      p.objective.val (pt y) = ((interpretSet y).map fun i => values.getD i 0).sum ∧
      (∀ i ∈ interpretSet y, i < values.length) ∧ (interpretSet y).Nodup ∧
      ((interpretSet y).map fun i => weights.getD i 0).sum ≤ capacity ∧
      ∀ S : List Nat, S.Nodup → (∀ i ∈ S, i < values.length) → (S.map fun i => weights.getD i 0).sum ≤ capacity →
        (S.map fun i => values.getD i 0).sum ≤ ((interpretSet y).map fun i => values.getD i 0).sum := by
  obtain ⟨p, hp, hv, hse, hfe, hob⟩ := C46_model values weights capacity hw
  have hm := hp
  unfold knapsackProgram at hm
  rw [if_neg (by omega)] at hm
  obtain ⟨y, hy, hl, hopt⟩ := solves_app hsol h0 (weightedSum_wf _ _) (by
      intro c hc
      rw [List.mem_singleton.mp hc]
      exact ⟨weightedSum_wf _ _, const_wf _ _, weightedSum_isQuad _ _, rfl⟩) (by
      intro c hc
      rw [List.mem_singleton.mp hc]
      exact ⟨rfl, rfl⟩) (by
      intro c hc
      rw [List.mem_singleton.mp hc]
      refine intStep_of_val (weightedSum_wf _ _) (weightedSum_isQuad _ _) _ _ fun x hx => ?_
      rw [DExpr.val_sum, List.map_map]
      refine int_sum fun i hi => ?_
      have hi := List.mem_range.mp hi
      obtain ⟨a, ha⟩ := hx i
      obtain ⟨b, hb⟩ := hz (weights.getD i 0) (by
        rw [List.getD_eq_getElem?_getD, List.getElem?_eq_getElem (by omega)]; exact List.getElem_mem _)
      exact ⟨b * a, by rw [Function.comp_apply, DExpr.val_smul, DExpr.val_var, ha, hb]; push_cast; rfl⟩) hm
    ⟨fun _ => 0, (hfe _).mpr ⟨fun i _ => Or.inl rfl, by simpa using hc⟩⟩
  obtain ⟨hb, he⟩ := (hfe _).mp hopt.1
  have hval : p.objective.val (pt y) = ((interpretSet y).map fun i => values.getD i 0).sum := by
    rw [hob _ hb, interpretSet_ones hl hb]
  refine ⟨p, y, hp, hy, hval, fun i hi => ((mem_interpretSet hl hb).mp hi).1, ?_, ?_, ?_⟩
  · rw [interpretSet_ones hl hb]; exact List.nodup_range.filter _
  · rw [interpretSet_ones hl hb]; exact he
  · intro S hd hS hi
    have hsum : ∀ f : Nat → ℚ, (((List.range values.length).filter fun i => decide (indicator S i = 1)).map f).sum =
        (S.map f).sum := fun f => ((indicator_perm hd hS).map f).sum_eq
    have := hopt.2 (indicator S) ((hfe _).mpr ⟨fun i _ => indicator_binary S i, by rw [hsum]; exact hi⟩)
    rw [hse, hob _ fun i _ => indicator_binary S i, hsum, hval] at this
    simp only [ObjSense.value] at this
    linarith

theorem pairwise_all {α : Type} {R : α → α → Prop} (hs : ∀ a b, R a b → R b a) {l : List α} (h : l.Pairwise R) :
    ∀ a ∈ l, ∀ b ∈ l, a ≠ b → R a b := by
  haveI : Std.Symm R := ⟨hs⟩
  exact fun a ha b hb => h.forall ha hb

/-- The positions of a sublist. -/
theorem sublist_positions {α : Type} {l m : List α} (h : l.Sublist m) (d : α) :
    ∃ S : List Nat, S.Nodup ∧ (∀ i ∈ S, i < m.length) ∧ S.map (fun i => m.getD i d) = l := by
  induction h with
  | slnil => exact ⟨[], by simp, by simp, rfl⟩
  | cons a _ ih =>
    obtain ⟨S, h1, h2, h3⟩ := ih
    refine ⟨S.map Nat.succ, h1.map Nat.succ_injective, ?_, ?_⟩
    · intro i hi
      obtain ⟨j, hj, rfl⟩ := List.mem_map.mp hi
      have := h2 j hj
      simp only [List.length_cons]; omega
    · rw [List.map_map, ← h3]
      exact List.map_congr_left fun i _ => by simp
  | cons_cons a _ ih =>
    obtain ⟨S, h1, h2, h3⟩ := ih
    refine ⟨0 :: S.map Nat.succ, ?_, ?_, ?_⟩
    · rw [List.nodup_cons]
      exact ⟨by simp, h1.map Nat.succ_injective⟩
    · intro i hi
      rcases List.mem_cons.mp hi with rfl | hi
      · simp
      · obtain ⟨j, hj, rfl⟩ := List.mem_map.mp hi
        have := h2 j hj
        simp only [List.length_cons]; omega
    · rw [List.map_cons, List.map_map, ← h3]
      refine congrArg₂ _ (by simp) (List.map_congr_left fun i _ => by simp)

theorem binary_list {n : Nat} {y : List ℚ} (hl : y.length = n) (hb : ∀ i < n, pt y i = 0 ∨ pt y i = 1) :
    ∀ v ∈ y, v = 0 ∨ v = 1 := by
  intro v hv
  obtain ⟨i, hi, rfl⟩ := List.getElem_of_mem hv
  have := hb i (by omega)
  unfold pt at this
  rwa [List.getD_eq_getElem?_getD, List.getElem?_eq_getElem hi] at this

/-- **C71, number partitioning** of integers: if the numbers can be divided into two parts of the same sum, the reported
division is one. -/
theorem C71_number_partition (solver : QubitOp → Option Eigenstate) (hsol : ExactSolver solver) (numbers : List ℚ)
    (h0 : 0 < numbers.length) (hz : ∀ w ∈ numbers, ∃ z : ℤ, w = z) (A B : List ℚ) (hAB : (A ++ B).Perm numbers)
    (hs : A.sum = B.sum) :
    ∃ p y a b, numberPartitionProgram numbers = .ok p ∧ Solves solver p y ∧
      numberPartitionInterpret numbers y = .ok (a, b) ∧ (a ++ b).Perm numbers ∧ a.sum = b.sum := by
  obtain ⟨p, hp, hv, hfe, hob, hin⟩ := C47_model numbers
  have hm := hp
  unfold numberPartitionProgram at hm
  have hwf : (DExpr.sum (numbers.zipIdx.map fun q => (((DExpr.var q.2).smul (-2)).add (.const 1)).smul q.1)).WF
      numbers.length := by
    refine sum_wf fun a ha => ?_
    obtain ⟨q, hq, rfl⟩ := List.mem_map.mp ha
    have hq' : q.2 < numbers.length := by
      obtain ⟨v, i⟩ := q
      have := List.snd_lt_of_mem_zipIdx hq
      simpa using this
    exact (((var_wf hq').smul _).add (const_wf _ _)).smul _
  have hq : (DExpr.sum (numbers.zipIdx.map fun q => (((DExpr.var q.2).smul (-2)).add (.const 1)).smul q.1)).isQuad =
      false := by
    refine sum_isQuad fun a ha => ?_
    obtain ⟨q, _, rfl⟩ := List.mem_map.mp ha
    rfl
  have hex : ∃ x, p.Feas x := by
    obtain ⟨l, hl, hsub⟩ : A.Subperm numbers := (List.sublist_append_left A B).subperm.trans hAB.subperm
    obtain ⟨S, s1, s2, s3⟩ := sublist_positions hsub 0
    let x := (List.range numbers.length).map fun i => 1 - indicator S i
    have hx : ∀ v ∈ x, v = 0 ∨ v = 1 := by
      intro v hv
      obtain ⟨i, _, rfl⟩ := List.mem_map.mp hv
      rcases indicator_binary S i with e | e <;> rw [e] <;> norm_num
    obtain ⟨a, b, _, hperm, ha, hf⟩ := hin x (by simp [x]) hx
    refine ⟨_, hf.mpr ?_⟩
    have h1 : a.sum = A.sum := by
      rw [ha, ← hl.sum_eq, ← s3]
      have : ((List.range numbers.length).filter fun i => decide (x.getD i 0 = 0)) =
          (List.range numbers.length).filter fun i => decide (indicator S i = 1) := by
        refine List.filter_congr fun i hi => ?_
        have hi := List.mem_range.mp hi
        have : x.getD i 0 = 1 - indicator S i := by simp [x, hi]
        rw [this]
        rcases indicator_binary S i with e | e <;> rw [e] <;> norm_num
      rw [this]
      exact ((indicator_perm s1 s2).map _).sum_eq
    have h2 := hperm.sum_eq
    have h3 := hAB.sum_eq
    rw [List.sum_append] at h2 h3
    linarith
  obtain ⟨y, hy, hl, hopt⟩ := solves_app hsol h0 (const_wf _ _) (by
      intro c hc
      rw [List.mem_singleton.mp hc]
      exact ⟨hwf, const_wf _ _, hq, rfl⟩) (by
      intro c hc
      rw [List.mem_singleton.mp hc]
      exact ⟨rfl, rfl⟩) (by
      intro c hc
      rw [List.mem_singleton.mp hc]
      refine intStep_of_val hwf hq _ _ fun x hx => ?_
      rw [DExpr.val_sum, List.map_map]
      refine int_sum fun q hq => ?_
      obtain ⟨a, ha⟩ := hx q.2
      obtain ⟨b, hb⟩ := hz q.1 (List.fst_mem_of_mem_zipIdx hq)
      exact ⟨b * (-2 * a + 1), by
        rw [Function.comp_apply, DExpr.val_smul, DExpr.val_add, DExpr.val_smul, DExpr.val_var, DExpr.val_const, ha, hb]
        push_cast; rfl⟩) hm hex
  obtain ⟨a, b, h1, h2, _, h4⟩ := hin y hl (binary_list hl (hfe _ hopt.1))
  exact ⟨p, y, a, b, hp, hy, h1, h2, h4.mp hopt.1⟩

theorem subset_solved {solver : QubitOp → Option Eigenstate} (hsol : ExactSolver solver) {subsets : List (List ℤ)}
    (h0 : 0 < subsets.length) {name : String} {s : Sense} {min : Bool} {p : QP}
    (hp : loadModel ⟨name, appVars subsets.length, min, sumVars subsets.length,
        (allElements subsets).map fun e => .linear (elementSum subsets e) s (.const 1) none⟩ = .ok p)
    (hf : ∃ x, p.Feas x) :
    ∃ y, Solves solver p y ∧ y.length = subsets.length ∧ OptimalIn p.Feas p.objective (pt y) := by
  refine solves_app hsol h0 (sumVars_wf _) ?_ ?_ ?_ hp hf
  all_goals
    intro c hc
    obtain ⟨e, he, rfl⟩ := List.mem_map.mp hc
  · exact ⟨elementSum_wf _ _, const_wf _ _, elementSum_isQuad _ _, rfl⟩
  · exact ⟨rfl, rfl⟩
  · refine intStep_of_val (elementSum_wf _ _) (elementSum_isQuad _ _) _ _ fun x hx => ?_
    unfold elementSum
    rw [DExpr.val_sum, List.map_map]
    refine int_sum fun q _ => ?_
    rw [Function.comp_apply, DExpr.val_var]
    exact hx _

theorem interpretSubsets_ones {subsets : List (List ℤ)} {y : List ℚ} (hl : y.length = subsets.length)
    (hb : ∀ i < subsets.length, pt y i = 0 ∨ pt y i = 1) :
    interpretSubsets subsets y = .ok ((interpretSet y).map fun i => subsets.getD i []) := by
  rw [C48_interpret subsets y (by omega), interpretSet_eq, interpretSides_eq]

theorem interpretSubsets_sublist {subsets : List (List ℤ)} {y : List ℚ} (hl : y.length = subsets.length) :
    ((interpretSet y).map fun i => subsets.getD i []).Sublist subsets := by
  have h : (List.range subsets.length).map (fun i => subsets.getD i []) = subsets := by
    apply List.ext_getElem
    · simp
    · intro i h1 h2
      simp [h2]
  have h2 : (interpretSet y).Sublist (List.range subsets.length) := by
    rw [interpretSet_eq, interpretSides_eq, hl]
    exact List.filter_sublist
  have := h2.map fun i => subsets.getD i []
  rwa [h] at this

theorem interpretSet_nodup (y : List ℚ) : (interpretSet y).Nodup := by
  rw [interpretSet_eq, interpretSides_eq]
  exact List.nodup_range.filter _

/-- **C71, set packing.** The reported subsets are pairwise disjoint, and no disjoint choice has more subsets. -/
theorem C71_packing (solver : QubitOp → Option Eigenstate) (hsol : ExactSolver solver) (subsets : List (List ℤ))
    (h0 : 0 < subsets.length) :
    ∃ p y chosen, setPackingProgram subsets = .ok p ∧ Solves solver p y ∧ interpretSubsets subsets y = .ok chosen ∧
      p.objective.val (pt y) = chosen.length ∧ chosen.Sublist subsets ∧
      chosen.Pairwise (fun s t => ∀ e, ¬ (e ∈ s ∧ e ∈ t)) ∧
      ∀ other : List (List ℤ), other.Sublist subsets → other.Pairwise (fun s t => ∀ e, ¬ (e ∈ s ∧ e ∈ t)) →
        other.length ≤ chosen.length := by
  obtain ⟨p, hp, hv, hse, hfe, hob⟩ := C48_packing subsets
  have hm := hp
  unfold setPackingProgram at hm
  obtain ⟨y, hy, hl, hopt⟩ := subset_solved hsol h0 hm
    ⟨fun _ => 0, (hfe _).mpr ⟨fun i _ => Or.inl rfl, fun i _ j _ _ h => absurd h (by norm_num)⟩⟩
  obtain ⟨hb, he⟩ := (hfe _).mp hopt.1
  have hval : p.objective.val (pt y) = (interpretSet y).length := by rw [hob _ hb, interpretSet_ones hl hb]
  refine ⟨p, y, _, hp, hy, interpretSubsets_ones hl hb, by rw [hval, List.length_map], interpretSubsets_sublist hl, ?_, ?_⟩
  · rw [List.pairwise_map]
    refine (List.Pairwise.imp_of_mem ?_ (interpretSet_nodup y))
    intro i j hi hj hij
    obtain ⟨i1, i2⟩ := (mem_interpretSet hl hb).mp hi
    obtain ⟨j1, j2⟩ := (mem_interpretSet hl hb).mp hj
    exact he i i1 j j1 hij i2 j2
  · intro other hsub hpw
    obtain ⟨S, s1, s2, rfl⟩ := sublist_positions hsub []
    rw [List.pairwise_map] at hpw
    have hall : ∀ i ∈ S, ∀ j ∈ S, i ≠ j → ∀ e, ¬ (e ∈ subsets.getD i [] ∧ e ∈ subsets.getD j []) := by
      intro i hi j hj hij
      exact pairwise_all (fun _ _ h e hh => h e ⟨hh.2, hh.1⟩) hpw i hi j hj hij
    have := hopt.2 (indicator S) ((hfe _).mpr ⟨fun i _ => indicator_binary S i, fun i _ j _ hij e1 e2 =>
      hall i (indicator_one.mp e1) j (indicator_one.mp e2) hij⟩)
    rw [hse, hob _ fun i _ => indicator_binary S i, ones_indicator s1 s2, hval] at this
    simp only [ObjSense.value] at this
    rw [List.length_map, List.length_map]
    have : (S.length : ℚ) ≤ (interpretSet y).length := by linarith
    exact_mod_cast this

/-- The subsets contain every element of the family exactly once. -/
def ExactCoverOf (subsets chosen : List (List ℤ)) : Prop :=
  chosen.Sublist subsets ∧ ∀ e, (∃ t ∈ subsets, e ∈ t) →
    (∃ t ∈ chosen, e ∈ t) ∧ chosen.Pairwise fun s t => ¬ (e ∈ s ∧ e ∈ t)

/-- **C71, exact cover.** If there is an exact cover, the reported subsets are one with as few subsets as possible. -/
theorem C71_cover (solver : QubitOp → Option Eigenstate) (hsol : ExactSolver solver) (subsets : List (List ℤ))
    (h0 : 0 < subsets.length) (cover : List (List ℤ)) (hcover : ExactCoverOf subsets cover) :
    ∃ p y chosen, exactCoverProgram subsets = .ok p ∧ Solves solver p y ∧ interpretSubsets subsets y = .ok chosen ∧
      p.objective.val (pt y) = chosen.length ∧ ExactCoverOf subsets chosen ∧
      ∀ other : List (List ℤ), ExactCoverOf subsets other → chosen.length ≤ other.length := by
  obtain ⟨p, hp, hv, hse, hfe, hob⟩ := C48_cover subsets
  have hm := hp
  unfold exactCoverProgram at hm
  have key : ∀ other, ExactCoverOf subsets other → ∃ S : List Nat, p.Feas (indicator S) ∧
      ((List.range subsets.length).filter fun i => decide (indicator S i = 1)).length = other.length := by
    rintro other ⟨hsub, hex⟩
    obtain ⟨S, s1, s2, rfl⟩ := sublist_positions hsub []
    refine ⟨S, (hfe _).mpr ⟨fun i _ => indicator_binary S i, ?_⟩, by rw [ones_indicator s1 s2, List.length_map]⟩
    intro e he
    obtain ⟨⟨t, ht, het⟩, hpw⟩ := hex e he
    obtain ⟨i, hi, rfl⟩ := List.mem_map.mp ht
    rw [List.pairwise_map] at hpw
    refine ⟨i, ⟨s2 i hi, indicator_one.mpr hi, het⟩, ?_⟩
    rintro j ⟨_, j2, j3⟩
    by_contra hne
    exact pairwise_all (fun _ _ h hh => h ⟨hh.2, hh.1⟩) hpw j (indicator_one.mp j2) i hi hne ⟨j3, het⟩
  obtain ⟨S0, f0, _⟩ := key cover hcover
  obtain ⟨y, hy, hl, hopt⟩ := subset_solved hsol h0 hm ⟨_, f0⟩
  obtain ⟨hb, he⟩ := (hfe _).mp hopt.1
  have hval : p.objective.val (pt y) = (interpretSet y).length := by rw [hob _ hb, interpretSet_ones hl hb]
  refine ⟨p, y, _, hp, hy, interpretSubsets_ones hl hb, by rw [hval, List.length_map],
    ⟨interpretSubsets_sublist hl, ?_⟩, ?_⟩
  · intro e hex
    obtain ⟨i, ⟨i1, i2, i3⟩, hu⟩ := he e hex
    refine ⟨⟨_, List.mem_map.mpr ⟨i, (mem_interpretSet hl hb).mpr ⟨i1, i2⟩, rfl⟩, i3⟩, ?_⟩
    rw [List.pairwise_map]
    refine (List.Pairwise.imp_of_mem ?_ (interpretSet_nodup y))
    rintro a b ha hb' hab ⟨ea, eb⟩
    obtain ⟨a1, a2⟩ := (mem_interpretSet hl hb).mp ha
    obtain ⟨b1, b2⟩ := (mem_interpretSet hl hb).mp hb'
    exact hab ((hu a ⟨a1, a2, ea⟩).trans (hu b ⟨b1, b2, eb⟩).symm)
  · intro other hother
    obtain ⟨S, f, hlen⟩ := key other hother
    have := hopt.2 _ f
    rw [hse, hob _ fun i _ => indicator_binary S i, hlen, hval] at this
    simp only [ObjSense.value] at this
    rw [List.length_map]
    have : ((interpretSet y).length : ℚ) ≤ other.length := by linarith
    exact_mod_cast this

/-- Three items, of which the first and the last fit together and are worth most; three numbers with equal halves; three
sets, of which the first and the last are disjoint and cover everything. -/
example : reported exhaustive (knapsackProgram [3, 4, 5] [2, 3, 4] 6) = some (some [1, 0, 1], some 8) ∧
    reported exhaustive (numberPartitionProgram [1, 2, 3]) = some (some [1, 1, 0], some 0) ∧
    reported exhaustive (setPackingProgram [[1, 2], [2, 3], [3, 4]]) = some (some [1, 0, 1], some 2) ∧
    reported exhaustive (exactCoverProgram [[1, 2], [2, 3], [3, 4]]) = some (some [1, 0, 1], some 2) := by
  decide +kernel

end Verif
