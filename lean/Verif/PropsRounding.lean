import Verif.PropsFeasible
import Verif.Apps
import Verif.Tours

/-!
# Rounding errors of optimizers in the interpretations of the applications (C97)
-/

namespace Verif

/-- The answers of all applications for two points agree: cuts and partitions, sets of nodes or items, partitions of numbers,
collections of subsets, tours, routes of vehicles. -/
structure SameAnswers (x b : List ℚ) : Prop where
  sides : interpretSides x = interpretSides b
  set : interpretSet x = interpretSet b
  numbers : ∀ l, numberPartitionInterpret l x = numberPartitionInterpret l b
  subsets : ∀ s, interpretSubsets s x = interpretSubsets s b
  tour : tspInterpret x = tspInterpret b
  routes : ∀ n vehicles depot, vrpInterpret n vehicles depot x = vrpInterpret n vehicles depot b

theorem fold_pattern {β : Type} (f g : β → ℚ × Nat → β) (h : ∀ c v w i, (v = 0 ↔ w = 0) → f c (v, i) = g c (w, i))
    {x b : List ℚ} (hx : List.Forall₂ (fun v w => v = 0 ↔ w = 0) x b) (k : Nat) (c : β) :
    (x.zipIdx k).foldl f c = (b.zipIdx k).foldl g c := by
  induction hx generalizing k c with
  | nil => rfl
  | cons h1 _ ih => simp only [List.zipIdx_cons, List.foldl_cons]; rw [h _ _ _ _ h1, ih]

theorem numberLoop_pattern (l : List ℚ) {x b : List ℚ} (hx : List.Forall₂ (fun v w => v = 0 ↔ w = 0) x b) (k : Nat)
    (c : List ℚ × List ℚ) : numberLoop l (x.zipIdx k) c = numberLoop l (b.zipIdx k) c := by
  induction hx generalizing k c with
  | nil => rfl
  | cons h1 _ ih =>
    simp only [List.zipIdx_cons, numberLoop, h1]
    cases l[k]? with
    | none => rfl
    | some v => exact ih _ _

theorem subsetLoop_pattern (s : List (List ℤ)) {x b : List ℚ} (hx : List.Forall₂ (fun v w => v = 0 ↔ w = 0) x b) (k : Nat)
    (r : List (List ℤ)) : subsetLoop s (x.zipIdx k) r = subsetLoop s (b.zipIdx k) r := by
  induction hx generalizing k r with
  | nil => rfl
  | cons h1 _ ih =>
    simp only [List.zipIdx_cons, subsetLoop, ne_eq, h1]
    cases s[k]? with
    | none => simp only [ih]
    | some v => simp only [ih]

theorem selectedEdges_pattern {x b : List ℚ} (hx : List.Forall₂ (fun v w => v = 0 ↔ w = 0) x b) (keys : List (Nat × Nat)) :
    selectedEdges keys x = selectedEdges keys b := by
  induction hx generalizing keys with
  | nil => rfl
  | cons h1 _ ih =>
    cases keys with
    | nil => rfl
    | cons q keys => simp only [selectedEdges, ne_eq, h1, ih]

theorem getD_pattern {x b : List ℚ} (hx : List.Forall₂ (fun v w => v = 0 ↔ w = 0) x b) (i : Nat) :
    x.getD i 0 = 0 ↔ b.getD i 0 = 0 := by
  induction hx generalizing i with
  | nil => rfl
  | cons h1 _ ih =>
    cases i with
    | zero => simpa using h1
    | succ i => simpa using ih i

theorem sameAnswers_of {x b : List ℚ} (hx : List.Forall₂ (fun v w => v = 0 ↔ w = 0) x b) : SameAnswers x b := by
  refine ⟨fold_pattern _ _ (fun c v w i h => by simp [h]) hx 0 _, fold_pattern _ _ (fun c v w i h => by simp [h]) hx 0 _,
    fun l => numberLoop_pattern l hx 0 _, fun s => subsetLoop_pattern s hx 0 _, ?_, fun n k d => ?_⟩
  · have hs : ∀ n k, tspStep x n k = tspStep b n k := fun n k => by
      unfold tspStep
      congr 1
      funext i
      simp only [ne_eq, getD_pattern hx]
    unfold tspInterpret
    simp only [hx.length_eq, hs]
  · unfold vrpInterpret
    rw [selectedEdges_pattern hx]

/-- **C97** (errors at the ones): a point that differs from a point of zeros and ones by less than 1, and only where that is
1, gets the same answer in every application.  Missing (false by `C97_violated`): errors at the zeros. -/
theorem C97_partial (x b : List ℚ) (hl : x.length = b.length) (hb : ∀ i, pt b i = 0 ∨ pt b i = 1)
    (hx : ∀ i, |pt x i - pt b i| < 1) (h0 : ∀ i, pt b i = 0 → pt x i = 0) : SameAnswers x b := by
  refine sameAnswers_of (List.forall₂_iff_get.mpr ⟨hl, fun i h1 h2 => ?_⟩)
  have e1 : x.get ⟨i, h1⟩ = pt x i := by simp [pt, List.getD_eq_getElem?_getD, h1]
  have e2 : b.get ⟨i, h2⟩ = pt b i := by simp [pt, List.getD_eq_getElem?_getD, h2]
  rw [e1, e2]
  refine ⟨fun hz => ?_, h0 i⟩
  rcases hb i with h | h
  · exact h
  · have := hx i
    rw [hz, h] at this
    norm_num at this

example : (∀ i, |pt [999999 / 1000000, 0] i - pt [1, 0] i| < 1) ∧ ∀ i, pt [1, 0] i = 0 → pt [999999 / 1000000, 0] i = 0 := by
  refine ⟨fun i => ?_, fun i h => ?_⟩
  · match i with
    | 0 => norm_num [pt, abs_lt]
    | 1 => simp [pt]
    | i + 2 => simp [pt]
  · match i with
    | 0 => simp [pt] at h
    | 1 => rfl
    | i + 2 => rfl

/-- **C97 fails** at the zeros, for every tolerance: for a graph with a single edge the point `(1 - eps, eps)`, as near to the
optimum `(1, 0)` as one likes, passes the check of feasibility with which results are marked as a success, but the
stable set that `interpret` reads from it has both ends of the edge. -/
theorem C97_violated : ∃ p, stableSetProgram ⟨2, [(0, 1, none)]⟩ = .ok p ∧ interpretSet [1, 0] = [0] ∧
    ∀ eps : ℚ, 0 < eps → eps < 1 → p.isFeasible [1 - eps, eps] = .ok true ∧ interpretSet [1 - eps, eps] = [0, 1] := by
  obtain ⟨p, hp⟩ : ∃ p, stableSetProgram ⟨2, [(0, 1, none)]⟩ = .ok p := by
    cases h : stableSetProgram ⟨2, [(0, 1, none)]⟩ with
    | ok p => exact ⟨p, rfl⟩
    | error e =>
      have : (stableSetProgram ⟨2, [(0, 1, none)]⟩).isOk = true := by decide +kernel
      rw [h] at this
      cases this
  have hd1 : (stableSetProgram ⟨2, [(0, 1, none)]⟩).toOption.map (fun p => p.vars.map fun v => (v.lb, v.ub)) =
      some [(0, 1), (0, 1)] := by decide +kernel
  have hd2 : ((stableSetProgram ⟨2, [(0, 1, none)]⟩).toOption.map (fun p =>
      p.lins.map fun c => ((c.sense, c.rhs, c.linear.n, c.linear.coeffs) : Sense × ℚ × Nat × List (Nat × ℚ))) |>.getD []) = [(.le, 1, 2, [(0, 1), (1, 1)])] := by
    decide +kernel
  have hd3 : (stableSetProgram ⟨2, [(0, 1, none)]⟩).toOption.map (fun p => p.quads.length) = some 0 := by decide +kernel
  simp only [hp, Except.toOption, Option.map_some, Option.some.injEq, List.length_eq_zero_iff, Option.getD_some] at hd1 hd2 hd3
  have h1 := hd1
  have h2 := hd2
  have h3 := hd3
  obtain ⟨v, w, hv⟩ : ∃ v w, p.vars = [v, w] := List.length_eq_two.mp (by simpa using congrArg List.length hd1)
  obtain ⟨c, hc⟩ : ∃ c, p.lins = [c] := List.length_eq_one_iff.mp (by simpa using congrArg List.length hd2)
  simp only [hv, hc, List.map_cons, List.map_nil, List.cons.injEq, Prod.mk.injEq, and_true] at h1 h2
  obtain ⟨⟨v1, v2⟩, w1, w2⟩ := h1
  obtain ⟨c1, c2, c3, c4⟩ := h2
  have hn : p.numVars = 2 := by simp [QP.numVars, hv]
  have hall : p.allCsts = [.lin c] := by simp [QP.allCsts, hc, h3]
  refine ⟨p, hp, by decide +kernel, fun eps e1 e2 => ⟨C07_complete p ?_ _ (by simp [hn]) ?_ ?_, ?_⟩⟩
  · intro d hd
    rw [hall, List.mem_singleton] at hd
    subst hd
    simp [Cst.HasShape, c3, hn]
  · intro i u hu
    rw [hv] at hu
    match i, hu with
    | 0, hu =>
      simp only [List.getElem?_cons_zero, Option.some.injEq] at hu
      subst hu
      rw [v1, v2]
      constructor <;> simp [pt] <;> linarith
    | 1, hu =>
      simp only [List.getElem?_cons_succ, List.getElem?_cons_zero, Option.some.injEq] at hu
      subst hu
      rw [w1, w2]
      constructor <;> simp [pt] <;> linarith
    | i + 2, hu => simp at hu
  · intro d hd
    rw [hall, List.mem_singleton] at hd
    subst hd
    simp [Cst.sense, Cst.rhs, Cst.val, c1, c2, Sense.rel, LinExpr.val, c4, Dict.sum, pt]
  · have h : List.Forall₂ (fun v w : ℚ => v = 0 ↔ w = 0) [1 - eps, eps] [1, 1] := by
      refine .cons ?_ (.cons ?_ .nil)
      · constructor <;> intro h <;> linarith
      · constructor <;> intro h <;> linarith
    rw [(sameAnswers_of h).set]
    decide +kernel

end Verif
