import Verif.BitsTotal
import Mathlib.Algebra.BigOperators.Group.Finset.Basic
import Mathlib.Algebra.BigOperators.Group.Finset.Sigma
import Mathlib.Algebra.BigOperators.Group.Finset.Piecewise

/-!
# Helper lemmas: sums over the coefficients of programs with the variables in another order
-/

namespace Verif

/-! ## Sums over the entries of a dictionary -/

theorem dict_sum_keys {κ : Type} [DecidableEq κ] (f : κ → ℚ → ℚ) (hf : ∀ k, f k 0 = 0) (d : Dict κ)
    (hn : (Assoc.keys d).Nodup) (L : List κ) (hL : L.Nodup) (hk : ∀ k ∈ Assoc.keys d, k ∈ L) :
    (d.map fun q => f q.1 q.2).sum = (L.map fun k => f k (Dict.get d k)).sum := by
  induction d generalizing L with
  | nil =>
    have : L.map (fun k => f k (Dict.get ([] : Dict κ) k)) = L.map fun _ => 0 :=
      List.map_congr_left fun k _ => by simp [Dict.get, Assoc.get?, hf]
    rw [this]
    simp
  | cons q d ih =>
    obtain ⟨k, v⟩ := q
    simp only [Assoc.keys, List.map_cons, List.nodup_cons] at hn
    simp only [Assoc.keys, List.map_cons, List.forall_mem_cons] at hk
    have hp := List.perm_cons_erase hk.1
    rw [(hp.map _).sum_eq]
    simp only [List.map_cons, List.sum_cons]
    have hh := ih hn.2 (L.erase k) (hL.erase k) (fun a ha => by
      refine (List.mem_erase_of_ne ?_).mpr (hk.2 a ha)
      rintro rfl
      exact hn.1 ha)
    rw [hh]
    congr 1
    · simp [Dict.get, Assoc.get?]
    · congr 1
      refine List.map_congr_left fun a ha => ?_
      have : a ≠ k := fun h => by
        rw [h] at ha
        exact absurd ha (hL.not_mem_erase)
      simp [Dict.get, Assoc.get?, Ne.symm this]

theorem map_idxOf {α : Type} [DecidableEq α] {l : List α} (h : l.Nodup) : l.map l.idxOf = List.range l.length := by
  apply List.ext_getElem
  · simp
  · intro i h1 h2
    simp [h.idxOf_getElem]

theorem sum_over_vars {α : Type} [DecidableEq α] {l : List α} (h : l.Nodup) (g : Nat → ℚ) :
    ((List.range l.length).map g).sum = (l.map fun v => g (l.idxOf v)).sum := by
  rw [← map_idxOf h, List.map_map]; rfl

theorem QP.WF.varsNodup {p : QP} (h : p.WF) : p.vars.Nodup := List.Nodup.of_map _ h.cons.vars.2

/-- The sum over the entries of a linear expression, by variables. -/
theorem linSum_vars {p : QP} (hp : p.WF) {e : LinExpr} (he : e.Fits p.numVars) (f : Nat → ℚ → ℚ) (hf : ∀ k, f k 0 = 0) :
    (e.coeffs.map fun q => f q.1 q.2).sum =
      (p.vars.map fun v => f (p.vars.idxOf v) (Dict.get e.coeffs (p.vars.idxOf v))).sum := by
  rw [dict_sum_keys f hf e.coeffs he.1.nodup (List.range p.vars.length) List.nodup_range
    (fun k hk => List.mem_range.mpr (lt_of_lt_of_le (he.1.bound k hk) he.2)),
    sum_over_vars hp.varsNodup fun i => f i (Dict.get e.coeffs i)]

theorem sum_upper (n : Nat) (F : Nat → Nat → ℚ) (hF : ∀ i j, F i j = F j i) :
    2 * ∑ i ∈ Finset.range n, ∑ j ∈ Finset.range n, (if i ≤ j then F i j else 0) =
      ∑ i ∈ Finset.range n, ∑ j ∈ Finset.range n, F i j + ∑ i ∈ Finset.range n, F i i := by
  have h1 : ∑ i ∈ Finset.range n, ∑ j ∈ Finset.range n, F i j =
      ∑ i ∈ Finset.range n, ∑ j ∈ Finset.range n, (if i ≤ j then F i j else 0) +
      ∑ i ∈ Finset.range n, ∑ j ∈ Finset.range n, (if j < i then F i j else 0) := by
    rw [← Finset.sum_add_distrib]
    refine Finset.sum_congr rfl fun i _ => ?_
    rw [← Finset.sum_add_distrib]
    refine Finset.sum_congr rfl fun j _ => ?_
    by_cases h : i ≤ j
    · simp [h]
    · simp [h, not_le.mp h]
  have h2 : ∑ i ∈ Finset.range n, ∑ j ∈ Finset.range n, (if j < i then F i j else 0) =
      ∑ i ∈ Finset.range n, ∑ j ∈ Finset.range n, (if i < j then F i j else 0) := by
    rw [Finset.sum_comm]
    refine Finset.sum_congr rfl fun i _ => Finset.sum_congr rfl fun j _ => ?_
    rw [hF]
  have h3 : ∑ i ∈ Finset.range n, F i i = ∑ i ∈ Finset.range n, ∑ j ∈ Finset.range n, (if i = j then F i j else 0) := by
    refine Finset.sum_congr rfl fun i hi => ?_
    rw [Finset.sum_ite_eq]
    simp only [hi, if_true]
  have h4 : ∑ i ∈ Finset.range n, ∑ j ∈ Finset.range n, (if i ≤ j then F i j else 0) =
      ∑ i ∈ Finset.range n, ∑ j ∈ Finset.range n, (if i < j then F i j else 0) +
      ∑ i ∈ Finset.range n, ∑ j ∈ Finset.range n, (if i = j then F i j else 0) := by
    rw [← Finset.sum_add_distrib]
    refine Finset.sum_congr rfl fun i _ => ?_
    rw [← Finset.sum_add_distrib]
    refine Finset.sum_congr rfl fun j _ => ?_
    rcases lt_trichotomy i j with h | h | h
    · simp [h, h.le, h.ne]
    · simp [h]
    · simp [h.not_gt, h.not_ge, h.ne']
  rw [h1, h2, h3]
  linarith

theorem qget_comm (q : QuadExpr) (i j : Nat) : qget q i j = qget q j i := by
  unfold qget
  rw [min_comm, max_comm]

/-- Twice the sum over the entries of a quadratic expression, by pairs of variables. -/
theorem quadSum_vars {p : QP} (hp : p.WF) {e : QuadExpr} (he : e.Fits p.numVars) (f : Nat → Nat → ℚ → ℚ)
    (hf : ∀ i j, f i j 0 = 0) (hs : ∀ i j a, f i j a = f j i a) :
    2 * (e.coeffs.map fun q => f q.1.1 q.1.2 q.2).sum =
      (p.vars.map fun v => (p.vars.map fun w =>
        f (p.vars.idxOf v) (p.vars.idxOf w) (qget e (p.vars.idxOf v) (p.vars.idxOf w))).sum).sum +
      (p.vars.map fun v => f (p.vars.idxOf v) (p.vars.idxOf v) (qget e (p.vars.idxOf v) (p.vars.idxOf v))).sum := by
  have h1 := dict_sum_keys (fun k a => f k.1 k.2 a) (fun k => hf k.1 k.2) e.coeffs he.1.nodup
    ((List.range p.vars.length).product (List.range p.vars.length)) (List.Nodup.product List.nodup_range List.nodup_range)
    (by
      intro k hk
      have hb := he.1.bound k hk
      obtain ⟨a, b⟩ := k
      exact List.pair_mem_product.mpr
        ⟨List.mem_range.mpr (lt_of_lt_of_le hb.1 he.2), List.mem_range.mpr (lt_of_lt_of_le hb.2 he.2)⟩)
  have h2 : (((List.range p.vars.length).product (List.range p.vars.length)).map
      fun k => f k.1 k.2 (Dict.get e.coeffs k)).sum =
      ((List.range p.vars.length).map fun i => ((List.range p.vars.length).map fun j =>
        if i ≤ j then f i j (qget e i j) else 0).sum).sum := by
    generalize List.range p.vars.length = R
    have : ∀ R' : List Nat, ((R'.product R).map fun k => f k.1 k.2 (Dict.get e.coeffs k)).sum =
        (R'.map fun i => (R.map fun j => if i ≤ j then f i j (qget e i j) else 0).sum).sum := by
      intro R'
      induction R' with
      | nil => simp [List.product]
      | cons i R' ih =>
        have hcons : (i :: R').product R = R.map (fun j => (i, j)) ++ R'.product R := by simp [List.product]
        rw [hcons, List.map_append, List.sum_append, ih, List.map_cons, List.sum_cons, List.map_map]
        congr 2
        refine List.map_congr_left fun j _ => ?_
        simp only [Function.comp]
        by_cases hij : i ≤ j
        · rw [if_pos hij, qget, min_eq_left hij, max_eq_right hij]
        · rw [if_neg hij]
          have : Assoc.get? e.coeffs (i, j) = none := by
            cases hg : Assoc.get? e.coeffs (i, j) with
            | none => rfl
            | some u => exact absurd (he.1.upper (i, j) (List.mem_map_of_mem (f := Prod.fst) (Assoc.get?_mem hg))) hij
          rw [Dict.get, this]
          exact hf i j
    exact this R
  rw [h1, h2]
  have h3 := sum_upper p.vars.length (fun i j => f i j (qget e i j)) (fun i j => by
    rw [hs i j, qget_comm])
  have conv : ∀ (n : Nat) (g : Nat → ℚ), ((List.range n).map g).sum = ∑ i ∈ Finset.range n, g i := fun n g => rfl
  rw [← sum_over_vars hp.varsNodup fun i => f i i (qget e i i),
    ← sum_over_vars hp.varsNodup fun i => (p.vars.map fun w => f i (p.vars.idxOf w) (qget e i (p.vars.idxOf w))).sum]
  have h4 : ∀ i, (p.vars.map fun w => f i (p.vars.idxOf w) (qget e i (p.vars.idxOf w))).sum =
      ((List.range p.vars.length).map fun j => f i j (qget e i j)).sum := fun i =>
    (sum_over_vars hp.varsNodup fun j => f i j (qget e i j)).symm
  simp only [h4, conv]
  exact h3

/-! ## Expressions of two programs with the same values -/

theorem SamePoint.add {e e' : QP} {x x' y y' : Nat → ℚ} (h : SamePoint e e' x x') (h' : SamePoint e e' y y') :
    SamePoint e e' (fun t => x t + y t) fun t => x' t + y' t := fun i j v hi hj => by
  show x' j + y' j = x i + y i
  rw [h i j v hi hj, h' i j v hi hj]

theorem SamePoint.smul {e e' : QP} {x x' : Nat → ℚ} (h : SamePoint e e' x x') (c : ℚ) :
    SamePoint e e' (fun t => c * x t) fun t => c * x' t := fun i j v hi hj => by
  show c * x' j = c * x i
  rw [h i j v hi hj]

/-- The same value at the same point. -/
def SameValues (p p' : QP) (o o' : Objective) : Prop := ∀ y y', SamePoint p p' y y' → o'.val y' = o.val y

variable {p p' : QP} {o o' : Objective}

theorem SameValues.linear (hp : p.WF) (hp' : p'.WF) (h : SameValues p p' o o') (hl : o.linear.WF) (hl' : o'.linear.WF)
    (hq : o.quadratic.WF) (hq' : o'.quadratic.WF) {i j : Nat} {v : Variable} (hi : p.vars[i]? = some v)
    (hj : p'.vars[j]? = some v) :
    Dict.get o'.linear.coeffs j = Dict.get o.linear.coeffs i ∧ qget o'.quadratic j j = qget o.quadratic i i := by
  have hu := samePoint_unit hp hp' hi hj
  have h0 := h _ _ (samePoint_zero p p')
  have h1 := h _ _ hu
  have h2 := h _ _ (hu.smul (-1))
  simp only [Objective.val, LinExpr.val_zero, QuadExpr.val_zero, LinExpr.val_unit hl, LinExpr.val_unit hl',
    QuadExpr.val_unit hq, QuadExpr.val_unit hq', LinExpr.val_smul, QuadExpr.val_smul] at h0 h1 h2
  constructor <;> linarith

theorem mixed_sum (q : QuadExpr) {n i k : Nat} (hk : k < n) (hki : k ≠ i) :
    ((List.range n).map fun t => (if t = i then 2 * qget q i t else qget q i t) * unit k t).sum = qget q i k := by
  have : ∀ t ∈ List.range n, (if t = i then 2 * qget q i t else qget q i t) * unit k t = if k = t then qget q i t else 0 := by
    intro t _
    by_cases ht : k = t
    · subst ht; simp [unit, hki]
    · have : ¬ t = k := fun hh => ht hh.symm
      simp [unit, ht, this]
  rw [List.map_congr_left this, sum_range_ite n k hk]

theorem SameValues.quadratic (hp : p.WF) (hp' : p'.WF) (h : SameValues p p' o o') (hl : o.linear.WF) (hl' : o'.linear.WF)
    (hq : o.quadratic.Fits p.numVars) (hq' : o'.quadratic.Fits p'.numVars) {i j k l : Nat} {v w : Variable}
    (hi : p.vars[i]? = some v) (hj : p'.vars[j]? = some v) (hk : p.vars[k]? = some w) (hl2 : p'.vars[l]? = some w) :
    qget o'.quadratic j l = qget o.quadratic i k := by
  have h5 := h.linear hp hp' hl hl' hq.1 hq'.1 hi hj
  by_cases hki : k = i
  · subst hki
    rw [hi, Option.some.injEq] at hk
    subst hk
    have : l = j := position_unique hp' hl2 hj rfl
    rw [this]
    exact h5.2
  · have hlj : l ≠ j := by
      intro hh
      subst hh
      rw [hj, Option.some.injEq] at hl2
      subst hl2
      exact hki (position_unique hp hk hi rfl)
    have h6 := h.linear hp hp' hl hl' hq.1 hq'.1 hk hl2
    have h0 := h _ _ (samePoint_zero p p')
    have h4 := h _ _ ((samePoint_unit hp hp' hk hl2).add (samePoint_unit hp hp' hi hj))
    have bi := (List.getElem?_eq_some_iff.mp hi).1
    have bj := (List.getElem?_eq_some_iff.mp hj).1
    have bk : k < p.numVars := (List.getElem?_eq_some_iff.mp hk).1
    have bl : l < p'.numVars := (List.getElem?_eq_some_iff.mp hl2).1
    simp only [Objective.val, LinExpr.val_zero, QuadExpr.val_zero, LinExpr.val_add, LinExpr.val_unit hl, LinExpr.val_unit hl',
      QuadExpr.val_unit hq.1, QuadExpr.val_unit hq'.1, QuadExpr.val_shift hq.1 hq.2 bi, QuadExpr.val_shift hq'.1 hq'.2 bj,
      mixed_sum o.quadratic bk hki, mixed_sum o'.quadratic bl hlj, h5, h6] at h0 h4
    linarith

/-- Sums over the linear coefficients. -/
theorem SameValues.linSum (hp : p.WF) (hp' : p'.WF) (hv : p'.vars.Perm p.vars) (h : SameValues p p' o o')
    (hl : o.linear.Fits p.numVars) (hl' : o'.linear.Fits p'.numVars) (hq : o.quadratic.WF) (hq' : o'.quadratic.WF)
    (f f' : Nat → ℚ → ℚ) (hf : ∀ k, f k 0 = 0) (hf' : ∀ k, f' k 0 = 0)
    (hff : ∀ v ∈ p.vars, ∀ a, f' (p'.vars.idxOf v) a = f (p.vars.idxOf v) a) :
    (o'.linear.coeffs.map fun q => f' q.1 q.2).sum = (o.linear.coeffs.map fun q => f q.1 q.2).sum := by
  rw [linSum_vars hp hl f hf, linSum_vars hp' hl' f' hf', (hv.map _).sum_eq]
  congr 1
  refine List.map_congr_left fun v hm => ?_
  rw [hff v hm, (h.linear hp hp' hl.1 hl'.1 hq hq' (atVar_spec hm) (atVar_spec (hv.mem_iff.mpr hm))).1]

/-- Sums over the quadratic coefficients. -/
theorem SameValues.quadSum (hp : p.WF) (hp' : p'.WF) (hv : p'.vars.Perm p.vars) (h : SameValues p p' o o')
    (hl : o.linear.WF) (hl' : o'.linear.WF) (hq : o.quadratic.Fits p.numVars) (hq' : o'.quadratic.Fits p'.numVars)
    (f f' : Nat → Nat → ℚ → ℚ) (hf : ∀ i j, f i j 0 = 0) (hf' : ∀ i j, f' i j 0 = 0) (hs : ∀ i j a, f i j a = f j i a)
    (hs' : ∀ i j a, f' i j a = f' j i a)
    (hff : ∀ v ∈ p.vars, ∀ w ∈ p.vars, ∀ a, f' (p'.vars.idxOf v) (p'.vars.idxOf w) a = f (p.vars.idxOf v) (p.vars.idxOf w) a) :
    (o'.quadratic.coeffs.map fun q => f' q.1.1 q.1.2 q.2).sum = (o.quadratic.coeffs.map fun q => f q.1.1 q.1.2 q.2).sum := by
  have e : ∀ v ∈ p.vars, ∀ w ∈ p.vars,
      f' (p'.vars.idxOf v) (p'.vars.idxOf w) (qget o'.quadratic (p'.vars.idxOf v) (p'.vars.idxOf w)) =
        f (p.vars.idxOf v) (p.vars.idxOf w) (qget o.quadratic (p.vars.idxOf v) (p.vars.idxOf w)) := by
    intro v hm w hw
    rw [hff v hm w hw, h.quadratic hp hp' hl hl' hq hq' (atVar_spec hm) (atVar_spec (hv.mem_iff.mpr hm)) (atVar_spec hw)
      (atVar_spec (hv.mem_iff.mpr hw))]
  have h1 := quadSum_vars hp hq f hf hs
  have h2 := quadSum_vars hp' hq' f' hf' hs'
  rw [(hv.map _).sum_eq, (hv.map _).sum_eq] at h2
  have h3 : (p.vars.map fun v => f' (p'.vars.idxOf v) (p'.vars.idxOf v)
      (qget o'.quadratic (p'.vars.idxOf v) (p'.vars.idxOf v))) =
      p.vars.map fun v => f (p.vars.idxOf v) (p.vars.idxOf v) (qget o.quadratic (p.vars.idxOf v) (p.vars.idxOf v)) :=
    List.map_congr_left fun v hm => e v hm v hm
  have h4 : (p.vars.map fun v => (p'.vars.map fun w => f' (p'.vars.idxOf v) (p'.vars.idxOf w)
      (qget o'.quadratic (p'.vars.idxOf v) (p'.vars.idxOf w))).sum) =
      p.vars.map fun v => (p.vars.map fun w => f (p.vars.idxOf v) (p.vars.idxOf w)
        (qget o.quadratic (p.vars.idxOf v) (p.vars.idxOf w))).sum :=
    List.map_congr_left fun v hm => by
      rw [(hv.map _).sum_eq]
      congr 1
      exact List.map_congr_left fun w hw => e v hm w hw
  rw [h3, h4, ← h1] at h2
  linarith

end Verif
