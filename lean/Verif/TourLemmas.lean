import Verif.Tours
import Verif.AppsLemmas
import Verif.SumLemmas
import Mathlib.Data.List.ProdSigma
import Mathlib.Data.List.Perm.Subperm
import Mathlib.Data.Finset.Card
import Mathlib.Data.Finset.Dedup

/-!
# Lemmas on the tour applications
-/

namespace Verif

/-! ## Names -/

theorem underscore_notMem (i : Nat) : '_' ∉ (toString i).toList := by
  intro h
  have h' : '_' ∈ (Nat.repr i).toList := h
  rw [Nat.repr_eq_ofList_toDigits] at h'
  have := Nat.isDigit_of_mem_toDigits (b := 10) (c := '_') (n := i) (by norm_num) (by norm_num) (by simpa using h')
  revert this
  decide

theorem append_cons_inj {α : Type} {c : α} : ∀ {a a' b b' : List α}, c ∉ a → c ∉ a' →
    a ++ c :: b = a' ++ c :: b' → a = a' ∧ b = b'
  | [], [], _, _, _, _, h => by simpa using h
  | [], d :: a', _, _, _, h2, h => by
    simp only [List.nil_append, List.cons_append, List.cons.injEq] at h
    exact absurd (by simp [h.1]) h2
  | d :: a, [], _, _, h1, _, h => by
    simp only [List.nil_append, List.cons_append, List.cons.injEq] at h
    exact absurd (by simp [h.1]) h1
  | d :: a, d' :: a', _, _, h1, h2, h => by
    simp only [List.cons_append, List.cons.injEq] at h
    have := append_cons_inj (fun hc => h1 (by simp [hc])) (fun hc => h2 (by simp [hc])) h.2
    exact ⟨by rw [h.1, this.1], this.2⟩

theorem pairName_injective {a b : Nat × Nat} (h : pairName a = pairName b) : a = b := by
  unfold pairName at h
  have h' := congrArg String.toList h
  simp only [String.toList_append, List.append_assoc] at h'
  have e1 : "_".toList = ['_'] := rfl
  rw [e1] at h'
  have h2 := List.append_cancel_left h'
  have h3 := append_cons_inj (underscore_notMem a.1) (underscore_notMem b.1) h2
  exact Prod.ext (repr_injective (String.ext h3.1)) (repr_injective (String.ext h3.2))

theorem mem_allPairs {n : Nat} {q : Nat × Nat} : q ∈ allPairs n ↔ q.1 < n ∧ q.2 < n := by
  unfold allPairs
  obtain ⟨a, b⟩ := q
  simp

theorem allPairs_nodup (n : Nat) : (allPairs n).Nodup :=
  List.Nodup.product List.nodup_range List.nodup_range

theorem allPairs_length (n : Nat) : (allPairs n).length = n * n := by
  unfold allPairs
  simp

theorem pairNames_nodup {keys : List (Nat × Nat)} (h : keys.Nodup) : (keys.map pairName).Nodup :=
  h.map fun _ _ => pairName_injective

theorem pairVars_eq (keys : List (Nat × Nat)) : pairVars keys = binVars (keys.map pairName) := by
  simp [pairVars, binVars]

/-- The variables of the tour programs: one binary variable for each key. -/
def PairVariables (keys : List (Nat × Nat)) (p : QP) : Prop :=
  p.vars = keys.map fun q => ⟨pairName q, 0, 1, .binary⟩

theorem loadModel_pairs {name : String} {keys : List (Nat × Nat)} {min : Bool} {obj : DExpr} {csts : List DCst}
    (hn : keys.Nodup) (ho : obj.WF keys.length) (hc : ∀ c ∈ csts, c.WF keys.length)
    (hs : ∀ c ∈ csts, c.isLin = true ∧ c.name = none) :
    ∃ p, loadModel ⟨name, pairVars keys, min, obj, csts⟩ = .ok p ∧ PairVariables keys p ∧
      p.objective.sense = (if min then .minimize else .maximize) ∧ (∀ x, p.objective.val x = obj.val x) ∧
      ∀ x, p.Feas x ↔ Binary keys.length x ∧ ∀ c ∈ csts, c.Holds x := by
  rw [pairVars_eq]
  obtain ⟨p, hp, hb⟩ := loadModel_bin (name := name) (min := min) (pairNames_nodup hn) (by simpa using ho)
    (by simpa using hc) fun c h => ⟨Or.inl (hs c h).1, (hs c h).2⟩
  refine ⟨p, hp, ?_, hb.sense, hb.obj, ?_⟩
  · unfold PairVariables
    rw [hb.vars]
    simp [binaries]
  · intro x
    have := hb.feas x
    simpa using this

/-! ## Sums of variables -/

theorem sumOf_wf {n : Nat} {l : List Nat} (h : ∀ i ∈ l, i < n) : (DExpr.sum (l.map DExpr.var)).WF n := by
  refine sum_wf fun a ha => ?_
  obtain ⟨i, hi, rfl⟩ := List.mem_map.mp ha
  exact var_wf (h i hi)

theorem sumOf_isQuad (l : List Nat) : (DExpr.sum (l.map DExpr.var)).isQuad = false := by
  refine sum_isQuad fun a ha => ?_
  obtain ⟨i, _, rfl⟩ := List.mem_map.mp ha
  rfl

theorem sumOf_val (l : List Nat) (x : Nat → ℚ) : (DExpr.sum (l.map DExpr.var)).val x = (l.map x).sum := by
  rw [DExpr.val_sum, List.map_map]
  have h1 : ((fun a : DExpr => a.val x) ∘ DExpr.var) = x := by funext i; exact DExpr.val_var i x
  rw [h1]

/-- A sum of zeros and ones is one if and only if there is exactly one one. -/
theorem sum_eq_one_iff {n : Nat} {y : Nat → ℚ} (h : ∀ i < n, y i = 0 ∨ y i = 1) :
    ((List.range n).map y).sum = 1 ↔ ∃! i, i < n ∧ y i = 1 := by
  rw [sum_ones fun i hi => h i (List.mem_range.mp hi)]
  have h2 : ((List.range n).filter fun i => decide (y i = 1)).length =
      ((List.range n).filter fun i => decide (y i = 1)).toFinset.card := by
    rw [List.toFinset_card_of_nodup (List.nodup_range.filter _)]
  rw [h2]
  have h3 : ∀ m : Nat, (m : ℚ) = 1 ↔ m = 1 := fun m => by norm_cast
  rw [h3, Finset.card_eq_one]
  constructor
  · rintro ⟨i, hi⟩
    have hm : ∀ j, j < n ∧ y j = 1 ↔ j = i := by
      intro j
      have : j ∈ ((List.range n).filter fun i => decide (y i = 1)).toFinset ↔ j = i := by rw [hi]; simp
      simpa using this
    exact ⟨i, (hm i).mpr rfl, fun j hj => (hm j).mp hj⟩
  · rintro ⟨i, hi, hu⟩
    refine ⟨i, ?_⟩
    ext j
    simp only [List.mem_toFinset, List.mem_filter, List.mem_range, decide_eq_true_eq, Finset.mem_singleton]
    exact ⟨fun hj => hu j hj, by rintro rfl; exact hi⟩

theorem sum_flatMap {α β : Type} (l : List α) (f : α → List β) (g : β → ℚ) :
    ((l.flatMap f).map g).sum = (l.map fun a => ((f a).map g).sum).sum := by
  induction l with
  | nil => simp
  | cons a l ih => simp [ih]

/-! ## Weights -/

theorem complete_iff {g : Graph} : g.complete = true ↔ ∀ i < g.n, ∀ j < g.n, i ≠ j → ∃ w, g.weight? i j = some w := by
  unfold Graph.complete
  simp only [List.all_eq_true, List.mem_range, Bool.or_eq_true, decide_eq_true_eq, Option.isSome_iff_exists]
  exact forall₂_congr fun i _ => forall₂_congr fun j _ => or_iff_not_imp_left

/-- The graph has an edge between the two nodes, written in either order, with this weight. -/
def Graph.Weighs (g : Graph) (i j : Nat) (w : ℚ) : Prop := (i, j, some w) ∈ g.edges ∨ (j, i, some w) ∈ g.edges

/-- Two nodes are joined by at most one edge, as in every networkx `Graph`. -/
def Graph.Simple (g : Graph) : Prop :=
  ∀ e ∈ g.edges, ∀ f ∈ g.edges, (e.1 = f.1 ∧ e.2.1 = f.2.1) ∨ (e.1 = f.2.1 ∧ e.2.1 = f.1) → e = f

instance (g : Graph) (i j : Nat) (w : ℚ) : Decidable (g.Weighs i j w) := by unfold Graph.Weighs; infer_instance

instance (g : Graph) : Decidable g.Simple := by unfold Graph.Simple; infer_instance

theorem weighs_of_weight {g : Graph} {i j : Nat} {w : ℚ} (h : g.weight? i j = some w) : g.Weighs i j w := by
  unfold Graph.weight? at h
  split at h
  · rename_i e he
    have hm := List.mem_of_find?_eq_some he
    have hp := List.find?_some he
    simp only [Bool.or_eq_true, Bool.and_eq_true, beq_iff_eq] at hp
    obtain ⟨a, b, c⟩ := e
    simp only at h hp
    subst h
    rcases hp with ⟨rfl, rfl⟩ | ⟨rfl, rfl⟩
    · exact Or.inl hm
    · exact Or.inr hm
  · simp at h

theorem weight_of_weighs {g : Graph} (hs : g.Simple) {i j : Nat} {w : ℚ} (h : g.Weighs i j w) :
    g.weight? i j = some w := by
  unfold Graph.weight?
  split
  · rename_i e he
    have hm := List.mem_of_find?_eq_some he
    have hp := List.find?_some he
    simp only [Bool.or_eq_true, Bool.and_eq_true, beq_iff_eq] at hp
    rcases h with h | h
    · rw [hs e hm _ h hp]
    · rw [hs e hm _ h hp.symm]
  · rename_i hn
    rw [List.find?_eq_none] at hn
    rcases h with h | h
    · exact absurd (hn _ h) (by simp)
    · exact absurd (hn _ h) (by simp)

end Verif
