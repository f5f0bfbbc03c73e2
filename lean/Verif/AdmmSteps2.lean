import Verif.AdmmSteps
import Verif.AdmmRun
import Verif.PropsProgram
import Verif.RecursiveLemmas

/-!
# Lemmas on the programs of steps 2 and 3 of ADMM
-/

namespace Verif

open Finset (range sum_congr)

/-! ## Step 3 -/

theorem step3_value {prm : AdmmParams} {r : AdmmRep} {s : AdmmState} {op3 : QP}
    (h : step3Problem prm r s = .ok op3) :
    op3.vars = r.binIdx.map (fun i => ⟨varName r.op.vars i, -INFINITY, INFINITY, .continuous⟩) ∧ op3.lins = [] ∧
      op3.quads = [] ∧ op3.objective.sense = .minimize ∧ op3.Consistent ∧
      ∃ K, ∀ y : Nat → ℚ, op3.objective.val y + K = ((List.range r.binIdx.length).map fun j =>
        prm.beta / 2 * y j ^ 2 + pt s.lam j * (pt s.x0 j - pt s.z j - y j) +
          s.rho / 2 * (pt s.x0 j - pt s.z j - y j) ^ 2).sum := by
  unfold step3Problem at h
  cases h1 : addFree r.op.vars r.binIdx (QP.empty "") with
  | error e => simp [h1] at h
  | ok op =>
    simp only [h1] at h
    have hx := addFree_ok h1
    have hc := hx.cons (QP.empty_wf "").cons
    cases h2 : QuadExpr.ofInput op.varsIndex op.numVars (.matrix
        ((List.range r.binIdx.length).map fun i => (List.range r.binIdx.length).map fun j =>
          prm.beta / 2 * (if i = j then 1 else 0) + s.rho / 2 * (if i = j then 1 else 0))) with
    | error e => simp only [h2] at h; cases h
    | ok q =>
      cases h3 : LinExpr.ofInput op.varsIndex op.numVars (.list
          ((List.range r.binIdx.length).map fun i => -pt s.lam i - s.rho * (pt s.x0 i - pt s.z i))) with
      | error e => simp only [h2, h3] at h; cases h
      | ok l =>
        simp only [h2, h3, Except.ok.injEq] at h
        subst h
        refine ⟨by simp [hx.vars, QP.empty], by simp [hx.lins, QP.empty], by simp [hx.quads, QP.empty],
          by simp [hx.objective, QP.empty], ⟨hc.vars, hc.lins, hc.quads⟩,
          ∑ j ∈ range r.binIdx.length, (pt s.lam j * (pt s.x0 j - pt s.z j) +
            s.rho / 2 * (pt s.x0 j - pt s.z j) ^ 2), fun y => ?_⟩
        have h0 : op.objective.constant = 0 := by simp [hx.objective, QP.empty]
        rw [Objective.val]
        simp only [h0]
        rw [matrix_val (M := fun i j => prm.beta / 2 * (if i = j then 1 else 0) + s.rho / 2 *
          (if i = j then 1 else 0)) h2, linList_val (L := fun i => -pt s.lam i - s.rho * (pt s.x0 i - pt s.z i)) h3,
          lsum_range, zero_add, ← Finset.sum_add_distrib, ← Finset.sum_add_distrib]
        refine sum_congr rfl fun i hi => ?_
        rw [Finset.sum_eq_single i]
        · simp; ring
        · intro j _ hj; simp [Ne.symm hj]
        · intro hn; exact absurd hi hn

/-! ## Step 2 -/

theorem relaxVar_inv {v w : Variable} (h : relaxVar v = .ok w) : w = ⟨v.name, 0, 1, .continuous⟩ := by
  unfold relaxVar Variable.setUb at h
  split at h
  · simp at h
  · rename_i g
    split at g
    · simp at g
    · simp only [Except.ok.injEq] at g
      subst g
      simp only [Variable.setLb] at h
      split at h
      · simp at h
      · simp only [Except.ok.injEq] at h
        exact h.symm

theorem QuadExpr.setItem_idx {l l' : QuadExpr} {vi : Assoc String Nat} {i j : Nat} {c : ℚ}
    (h : l.setItem vi (.idx i) (.idx j) c = .ok l') :
    i < l.n ∧ j < l.n ∧ l' = ⟨l.n, Dict.dokSet l.coeffs (min i j, max i j) c⟩ := by
  unfold QuadExpr.setItem resolve at h
  by_cases hi : i < l.n
  · by_cases hj : j < l.n
    · simp only [hi, hj, if_true, Except.ok.injEq] at h
      exact ⟨hi, hj, h.symm⟩
    · simp [hi, hj] at h
  · simp [hi] at h

/-- What the loop of step 2 does. -/
structure Relaxed (s : AdmmState) (k : Nat) (is : List Nat) (op op' : QP) : Prop where
  varsIndex : op'.varsIndex = op.varsIndex
  lins : op'.lins = op.lins
  linsIndex : op'.linsIndex = op.linsIndex
  quads : op'.quads = op.quads
  quadsIndex : op'.quadsIndex = op.quadsIndex
  sense : op'.objective.sense = op.objective.sense
  constant : op'.objective.constant = op.objective.constant
  length : op'.vars.length = op.vars.length
  inside : ∀ i ∈ is, op'.vars[i]? = op.vars[i]?.map fun v => ⟨v.name, 0, 1, .continuous⟩
  outside : ∀ i, i ∉ is → op'.vars[i]? = op.vars[i]?
  linFits : ∀ n, op.objective.linear.Fits n → op'.objective.linear.Fits n
  quadFits : ∀ n, op.objective.quadratic.Fits n → op'.objective.quadratic.Fits n
  linVal : (Assoc.keys op.objective.linear.coeffs).Nodup → ∀ x, op'.objective.linear.val x =
    op.objective.linear.val x + ((is.zipIdx k).map fun q =>
      (-1 * pt s.lam q.2 - s.rho * (pt s.x0 q.2 - pt s.y q.2) - Dict.get op.objective.linear.coeffs q.1) * x q.1).sum
  quadVal : (Assoc.keys op.objective.quadratic.coeffs).Nodup → ∀ x, op'.objective.quadratic.val x =
    op.objective.quadratic.val x + ((is.zipIdx k).map fun q =>
      (s.rho / 2 - Dict.get op.objective.quadratic.coeffs (q.1, q.1)) * (x q.1 * x q.1)).sum
  quadOff : (Assoc.keys op.objective.quadratic.coeffs).Nodup → ∀ i j, i ≠ j →
    Dict.get op'.objective.quadratic.coeffs (i, j) = Dict.get op.objective.quadratic.coeffs (i, j)

theorem step2Vars_inv {s : AdmmState} {k : Nat} {is : List Nat} (hn : is.Nodup) {op op' : QP}
    (h : step2Vars s k is op = .ok op') : Relaxed s k is op op' := by
  induction is generalizing k op with
  | nil =>
    simp only [step2Vars, Except.ok.injEq] at h
    subst h
    exact ⟨rfl, rfl, rfl, rfl, rfl, rfl, rfl, rfl, by simp, by simp, fun _ h => h, fun _ h => h,
      by simp, by simp, by simp⟩
  | cons i is ih =>
    obtain ⟨hi, hn⟩ := List.nodup_cons.mp hn
    simp only [step2Vars] at h
    cases hv : op.vars[i]? with
    | none => simp [hv] at h
    | some v =>
    simp only [hv] at h
    cases hw : relaxVar v with
    | error e => simp [hw] at h
    | ok w =>
    simp only [hw] at h
    cases hq : op.objective.quadratic.setItem op.varsIndex (.idx i) (.idx i) (s.rho / 2) with
    | error e => simp [hq] at h
    | ok q =>
    simp only [hq] at h
    cases hl : op.objective.linear.setItem op.varsIndex (.idx i) (-1 * pt s.lam k - s.rho * (pt s.x0 k - pt s.y k)) with
    | error e => simp only [hl] at h; cases h
    | ok l =>
    simp only [hl] at h
    have R := ih hn h
    obtain ⟨q1, _, rfl⟩ := QuadExpr.setItem_idx hq
    obtain ⟨l1, rfl⟩ := LinExpr.setItem_idx hl
    have hw := relaxVar_inv hw
    have hilt := (List.getElem?_eq_some_iff.mp hv).1
    refine ⟨R.varsIndex, R.lins, R.linsIndex, R.quads, R.quadsIndex, R.sense, R.constant,
      by rw [R.length]; simp, ?_, ?_, ?_, ?_, ?_, ?_, ?_⟩
    · intro j hj
      rcases List.mem_cons.mp hj with rfl | hj
      · rw [R.outside _ hi, hv, hw]
        simp [hilt]
      · rw [R.inside j hj]
        have : i ≠ j := fun hij => hi (hij ▸ hj)
        simp [this]
    · intro j hj
      simp only [List.mem_cons, not_or] at hj
      rw [R.outside j hj.2]
      simp [Ne.symm hj.1]
    · intro n hf
      refine R.linFits n ⟨⟨Dict.nodup_dokSet hf.1.nodup _ _, ?_⟩, hf.2⟩
      intro a ha
      rcases Dict.mem_keys_dokSet ha with ha | rfl
      · exact hf.1.bound a ha
      · exact l1
    · intro n hf
      refine R.quadFits n ⟨⟨Dict.nodup_dokSet hf.1.nodup _ _, ?_, ?_⟩, hf.2⟩
      · intro a ha
        rcases Dict.mem_keys_dokSet ha with ha | rfl
        · exact hf.1.bound a ha
        · simpa using q1
      · intro a ha
        rcases Dict.mem_keys_dokSet ha with ha | rfl
        · exact hf.1.upper a ha
        · simp
    · intro hnd x
      rw [R.linVal (Dict.nodup_dokSet hnd _ _), LinExpr.val, Dict.sum_dokSet, List.zipIdx_cons, List.map_cons,
        List.sum_cons, LinExpr.val, add_assoc]
      congr 2
      congr 1
      apply List.map_congr_left
      rintro ⟨a, b⟩ hab
      have : a ∈ is := by
        have := List.mem_zipIdx hab
        rw [this.2.2]; exact List.getElem_mem _
      rw [Dict.get_dokSet hnd, if_neg]
      rintro rfl
      exact hi this
    · intro hnd x
      rw [R.quadVal (Dict.nodup_dokSet hnd _ _), QuadExpr.val, Dict.sum_dokSet, List.zipIdx_cons, List.map_cons,
        List.sum_cons, QuadExpr.val, add_assoc]
      simp only [min_self, max_self]
      congr 2
      congr 1
      apply List.map_congr_left
      rintro ⟨a, b⟩ hab
      have : a ∈ is := by
        have := List.mem_zipIdx hab
        rw [this.2.2]; exact List.getElem_mem _
      rw [Dict.get_dokSet hnd, if_neg]
      intro hh
      simp only [Prod.mk.injEq] at hh
      exact hi (hh.1 ▸ this)
    · intro hnd a b hab
      rw [R.quadOff (Dict.nodup_dokSet hnd _ _) a b hab]
      simp only [min_self, max_self]
      rw [Dict.get_dokSet hnd, if_neg]
      rintro hh
      simp only [Prod.mk.injEq] at hh
      exact hab (hh.1.symm.trans hh.2)

theorem removeConstraints_inv {cs : List LinCst} {op op' : QP} (hc : op.Consistent) (hsub : ∀ c ∈ cs, c ∈ op.lins)
    (hn : (cs.map LinCst.name).Nodup) (h : removeConstraints cs op = .ok op') :
    op'.lins = op.lins.filter (fun c => c ∉ cs) ∧ op'.Consistent ∧
      op' = { op with lins := op'.lins, linsIndex := op'.linsIndex } := by
  induction cs generalizing op with
  | nil =>
    simp only [removeConstraints, Except.ok.injEq] at h
    subst h
    refine ⟨?_, hc, rfl⟩
    symm
    rw [List.filter_eq_self]
    simp
  | cons c cs ih =>
    have hm := hsub c (List.mem_cons_self ..)
    have hg := (getLinear_name_iff hc c.name c).mpr ⟨hm, rfl⟩
    obtain ⟨p', l₁, l₂, hr, h1, h2, h3, _⟩ := C06_removeLinear op hc (.name c.name) c hg
    simp only [removeConstraints, hr] at h
    have hc' : p'.Consistent := apply_consistent (c := .removeLin (.name c.name)) (by simpa [Call.apply] using hr) hc
    have hnames := hc.lins.2
    rw [h1, List.map_append, List.map_cons] at hnames
    have hnot : ∀ d, d ∈ l₁ ++ l₂ → d.name ≠ c.name := by
      intro d hd hdc
      have h4 := List.nodup_append.mp hnames
      have h5 := List.nodup_cons.mp h4.2.1
      rcases List.mem_append.mp hd with hd | hd
      · exact h4.2.2 d.name (List.mem_map_of_mem hd) c.name (List.mem_cons_self ..) hdc
      · exact h5.1 (hdc ▸ List.mem_map_of_mem hd)
    rw [List.map_cons, List.nodup_cons] at hn
    have hsub' : ∀ d ∈ cs, d ∈ p'.lins := by
      intro d hd
      have hdc : d ≠ c := fun hh => hn.1 (hh ▸ List.mem_map_of_mem hd)
      have := hsub d (List.mem_cons_of_mem _ hd)
      rw [h1] at this
      rw [h2]
      simp only [List.mem_append, List.mem_cons] at this ⊢
      tauto
    obtain ⟨g1, g2, g3⟩ := ih hc' hsub' hn.2 h
    refine ⟨?_, g2, ?_⟩
    · rw [g1, h1, h2]
      have hb : ∀ l : List LinCst, (∀ d ∈ l, d ∈ l₁ ++ l₂) → l.filter (fun d => decide (d ∉ cs)) =
          l.filter (fun d => decide (d ∉ c :: cs)) := by
        intro l hl
        apply List.filter_congr
        intro d hd
        have : d ≠ c := fun hh => hnot d (hl d hd) (hh ▸ rfl)
        simp [this]
      rw [List.filter_append, List.filter_append, List.filter_cons, if_neg (by simp)]
      rw [hb l₁ (fun d hd => List.mem_append_left _ hd), hb l₂ (fun d hd => List.mem_append_right _ hd)]
    · rw [g3, h3]

/-- The point with the values of the binary variables replaced by zero. -/
def QP.dropBinary (p : QP) (x : Nat → ℚ) : Nat → ℚ := fun i => if p.isBinary i then 0 else x i

/-- Terms of the objective that are products of two different variables, one of them binary. -/
def QP.BinaryProducts (p : QP) : Prop :=
  ∃ i j, i ≠ j ∧ (p.isBinary i ∨ p.isBinary j) ∧ Dict.get p.objective.quadratic.coeffs (i, j) ≠ 0

/-- The objective without the terms of single binary variables. -/
theorem dropBinary_val {p : QP} (hp : p.WF) (hno : ¬ p.BinaryProducts) (x : Nat → ℚ) :
    p.objective.val x = p.objective.val (p.dropBinary x) + p.binSum fun i _ =>
      Dict.get p.objective.linear.coeffs i * x i + Dict.get p.objective.quadratic.coeffs (i, i) * (x i * x i) := by
  have hno' : ∀ i j, i ≠ j → (p.isBinary i ∨ p.isBinary j) → Dict.get p.objective.quadratic.coeffs (i, j) = 0 := by
    intro i j h1 h2
    by_contra h3
    exact hno ⟨i, j, h1, h2, h3⟩
  have hq : p.objective.quadratic.val x = p.objective.quadratic.val (p.dropBinary x) + ∑ i ∈ range p.numVars,
      if p.isBinary i then Dict.get p.objective.quadratic.coeffs (i, i) * (x i * x i) else 0 := by
    rw [QuadExpr.val_range hp.objQuad, QuadExpr.val_range hp.objQuad, ← Finset.sum_add_distrib]
    refine sum_congr rfl fun i hi => ?_
    rw [← sub_eq_iff_eq_add', ← Finset.sum_sub_distrib, Finset.sum_eq_single i]
    · unfold QP.dropBinary
      split <;> simp
    · intro j _ hj
      unfold QP.dropBinary
      by_cases hi' : p.isBinary i
      · rw [hno' i j (Ne.symm hj) (Or.inl hi')]; ring
      · by_cases hj' : p.isBinary j
        · rw [hno' i j (Ne.symm hj) (Or.inr hj')]; ring
        · simp [hi', hj']
    · intro hn; exact absurd hi hn
  have hl : p.objective.linear.val x = p.objective.linear.val (p.dropBinary x) + ∑ i ∈ range p.numVars,
      if p.isBinary i then Dict.get p.objective.linear.coeffs i * x i else 0 := by
    rw [LinExpr.val_range hp.objLin, LinExpr.val_range hp.objLin, ← Finset.sum_add_distrib]
    refine sum_congr rfl fun i hi => ?_
    unfold QP.dropBinary
    split <;> simp
  rw [Objective.val, Objective.val, hq, hl, binSum_range]
  have : ∑ i ∈ range p.numVars, (if p.isBinary i then Dict.get p.objective.linear.coeffs i * x i +
      Dict.get p.objective.quadratic.coeffs (i, i) * (x i * x i) else 0) =
      ∑ i ∈ range p.numVars, (if p.isBinary i then Dict.get p.objective.linear.coeffs i * x i else 0) +
      ∑ i ∈ range p.numVars, (if p.isBinary i then Dict.get p.objective.quadratic.coeffs (i, i) * (x i * x i) else 0) := by
    rw [← Finset.sum_add_distrib]
    refine sum_congr rfl fun i _ => ?_
    split <;> simp
  rw [this]; ring

theorem binSum_zipIdx (p : QP) (f : Nat → Nat → ℚ) :
    (((variableIndices .binary p).zipIdx 0).map fun q => f q.1 q.2).sum = p.binSum f := by
  rw [binSum_range, sum_support (variableIndices_nodup .binary p) (fun i hi => variableIndices_lt hi) _
    (fun i hi => by rw [if_neg]; exact fun h => hi (isBinary_iff.mp h)),
    lsum_getD _ (0, 0), List.length_zipIdx]
  refine sum_congr rfl fun k hk => ?_
  have hk := Finset.mem_range.mp hk
  have h1 : (variableIndices .binary p)[k]? = some ((variableIndices .binary p).getD k 0) := by
    simp [List.getD_eq_getElem?_getD, hk]
  obtain ⟨v, v1, v2, v3⟩ := (variableIndices_getElem? .binary p k _).mp h1
  rw [if_pos (isBinary_iff.mpr (List.mem_of_getElem? h1)), ← v3]
  have : ((variableIndices .binary p).zipIdx 0).getD k (0, 0) = ((variableIndices .binary p).getD k 0, k) := by
    simp [List.getD_eq_getElem?_getD, hk]
  rw [this]

/-- The program of step 2. -/
theorem step2_facts {p : QP} (hp : p.WF) {r : AdmmRep} (hr : admmRep p = .ok r) {s : AdmmState} {op2 : QP}
    (h : step2Problem r s = .ok op2) :
    op2.vars = p.vars.map (fun v => if v.vartype = .binary then ⟨v.name, 0, 1, .continuous⟩ else v) ∧
      op2.lins = p.lins.filter (fun c => !c.isBinEq p) ∧ op2.quads = p.quads ∧
      op2.objective.sense = p.objective.sense ∧ op2.WF ∧
      (∀ x, op2.objective.val x + p.binSum (fun i _ => Dict.get p.objective.linear.coeffs i * x i +
          Dict.get p.objective.quadratic.coeffs (i, i) * (x i * x i)) =
        p.objective.val x + p.binSum fun i j => (-pt s.lam j - s.rho * (pt s.x0 j - pt s.y j)) * x i +
          s.rho / 2 * (x i * x i)) ∧
      ∀ i j, i ≠ j → Dict.get op2.objective.quadratic.coeffs (i, j) = Dict.get p.objective.quadratic.coeffs (i, j) := by
  obtain ⟨hop, h2, _, _, _, hbe, _⟩ := admmRep_inv hr
  unfold step2Problem at h
  cases h1 : step2Vars s 0 r.binIdx r.op with
  | error e => simp [h1] at h
  | ok op =>
    simp only [h1] at h
    rw [hop, h2] at h1
    have R := step2Vars_inv (variableIndices_nodup .binary p) h1
    have hvars : op.vars = p.vars.map (fun v => if v.vartype = .binary then ⟨v.name, 0, 1, .continuous⟩ else v) := by
      apply List.ext_getElem?
      intro i
      rw [List.getElem?_map]
      by_cases hi : i ∈ variableIndices .binary p
      · obtain ⟨v, v1, v2⟩ := mem_variableIndices.mp hi
        rw [R.inside i hi, v1]; simp [v2]
      · rw [R.outside i hi]
        cases hv : p.vars[i]? with
        | none => simp
        | some v =>
          have : v.vartype ≠ .binary := fun hh => hi (mem_variableIndices.mpr ⟨v, hv, hh⟩)
          simp [this]
    have hnames : op.vars.map Variable.name = p.vars.map Variable.name := by
      rw [hvars, List.map_map]
      apply List.map_congr_left
      intro v _
      simp only [Function.comp]
      split <;> rfl
    have hcons : op.Consistent := by
      refine ⟨?_, ?_, ?_⟩
      · rw [hnames, R.varsIndex]; exact hp.cons.vars
      · rw [R.lins, R.linsIndex]; exact hp.cons.lins
      · rw [R.quads, R.quadsIndex]; exact hp.cons.quads
    have hsub : (binaryEqualities p).Sublist p.lins := by rw [binEqs_eq]; exact List.filter_sublist
    rw [hbe] at h
    obtain ⟨g1, g2, g3⟩ := removeConstraints_inv hcons (by rw [R.lins]; exact fun c hc => hsub.subset hc)
      ((hsub.map _).nodup hp.cons.lins.2) h
    have hlins : op2.lins = p.lins.filter (fun c => !c.isBinEq p) := by
      rw [g1, R.lins]
      apply List.filter_congr
      intro c hc
      rw [binEqs_eq]
      simp [hc]
    have hnv : op2.numVars = p.numVars := by
      rw [g3]; unfold QP.numVars; exact R.length
    refine ⟨by rw [g3]; exact hvars, hlins, by rw [g3]; exact R.quads, by rw [g3]; exact R.sense,
      ⟨g2, ?_, ?_, ?_, ?_⟩, ?_, ?_⟩
    · rw [hnv, g3]; exact R.linFits _ hp.objLin
    · rw [hnv, g3]; exact R.quadFits _ hp.objQuad
    · rw [hnv, hlins]; exact fun c hc => hp.lins c (List.mem_of_mem_filter hc)
    · rw [hnv, g3]
      simp only [R.quads]
      exact hp.quads
    · intro x
      rw [g3]
      rw [Objective.val]
      simp only [R.constant]
      rw [R.linVal hp.objLin.1.nodup, R.quadVal hp.objQuad.1.nodup,
        binSum_zipIdx p (fun i j => (-1 * pt s.lam j - s.rho * (pt s.x0 j - pt s.y j) -
          Dict.get p.objective.linear.coeffs i) * x i),
        binSum_zipIdx p (fun i _ => (s.rho / 2 - Dict.get p.objective.quadratic.coeffs (i, i)) * (x i * x i)),
        Objective.val]
      have : p.binSum (fun i j => (-1 * pt s.lam j - s.rho * (pt s.x0 j - pt s.y j) -
          Dict.get p.objective.linear.coeffs i) * x i) +
          p.binSum (fun i _ => (s.rho / 2 - Dict.get p.objective.quadratic.coeffs (i, i)) * (x i * x i)) +
          p.binSum (fun i _ => Dict.get p.objective.linear.coeffs i * x i +
            Dict.get p.objective.quadratic.coeffs (i, i) * (x i * x i)) =
          p.binSum fun i j => (-pt s.lam j - s.rho * (pt s.x0 j - pt s.y j)) * x i + s.rho / 2 * (x i * x i) := by
        simp only [binSum_range, ← Finset.sum_add_distrib]
        refine sum_congr rfl fun i _ => ?_
        split
        · ring
        · simp
      rw [← this]; ring
    · intro i j hij
      rw [g3]
      exact R.quadOff hp.objQuad.1.nodup i j hij

/-- The objective of the step 2 program is, up to a constant, that part of the objective that has no binary variable
plus the coupling terms, provided that no binary variable is multiplied by another variable. -/
theorem step2_value {p : QP} (hp : p.WF) {r : AdmmRep} (hr : admmRep p = .ok r) {s : AdmmState} {op2 : QP}
    (h : step2Problem r s = .ok op2) (hno : ¬ p.BinaryProducts) :
    ∃ K, ∀ v x : Nat → ℚ, ∀ z : List ℚ, (∀ i, p.isBinary i → x i = pt s.x0 (p.rank .binary i)) →
      (∀ i, p.isBinary i → pt z (p.rank .binary i) = v i) →
      op2.objective.val v + K = p.objective.val (p.dropBinary v) + p.coupling s.rho s.lam x z s.y := by
  obtain ⟨_, _, _, _, _, hv, _⟩ := step2_facts hp hr h
  refine ⟨p.binSum fun _ j => pt s.lam j * (pt s.x0 j - pt s.y j) + s.rho / 2 * (pt s.x0 j - pt s.y j) ^ 2, ?_⟩
  intro v x z hx hz
  have h1 := hv v
  rw [dropBinary_val hp hno v] at h1
  have h2 : p.coupling s.rho s.lam x z s.y =
      p.binSum (fun i j => (-pt s.lam j - s.rho * (pt s.x0 j - pt s.y j)) * v i + s.rho / 2 * (v i * v i)) +
      p.binSum fun _ j => pt s.lam j * (pt s.x0 j - pt s.y j) + s.rho / 2 * (pt s.x0 j - pt s.y j) ^ 2 := by
    unfold QP.coupling
    simp only [binSum_range, ← Finset.sum_add_distrib]
    refine sum_congr rfl fun i _ => ?_
    split
    · rename_i hi
      rw [hx i hi, hz i hi]; ring
    · simp
  rw [h2]; linarith

theorem takeIdx_assembled {p : QP} {t : VarType} {b x : List ℚ} (hb : b.length = p.countType t)
    (hx : x.length = p.numVars) (h : ∀ i v, p.vars[i]? = some v → v.vartype = t → pt x i = pt b (p.rank t i)) :
    takeIdx x (variableIndices t p) = .ok b := by
  unfold takeIdx
  rw [if_pos]
  · congr 1
    apply List.ext_getElem?
    intro k
    rw [List.getElem?_map]
    by_cases hk : k < (variableIndices t p).length
    · have hk' : k < b.length := by rw [hb, ← variableIndices_length]; exact hk
      have h1 : (variableIndices t p)[k]? = some ((variableIndices t p)[k]) := List.getElem?_eq_getElem hk
      obtain ⟨v, v1, v2, v3⟩ := (variableIndices_getElem? t p k _).mp h1
      rw [h1, Option.map_some, h _ v v1 v2, ← v3]
      simp [pt, hk', List.getD_eq_getElem?_getD]
    · have hk' : ¬ k < b.length := by rw [hb, ← variableIndices_length]; exact hk
      rw [List.getElem?_eq_none (by omega), List.getElem?_eq_none (by omega)]
      rfl
  · rw [List.all_eq_true]
    intro i hi
    have := variableIndices_lt hi
    simp [hx, this]

theorem admmCompatible_inv {p : QP} (hp : p.WF) (h : admmCompatible p = .ok true) :
    ∀ i j vi vj, p.vars[i]? = some vi → p.vars[j]? = some vj → vi.vartype = .binary → vj.vartype = .continuous →
      Dict.get p.objective.quadratic.coeffs (i, j) = 0 ∧ Dict.get p.objective.quadratic.coeffs (j, i) = 0 := by
  intro i j vi vj hi hj hvi hvj
  simp only [admmCompatible] at h
  split at h
  · simp at h
  · simp only [Except.ok.injEq, List.all_eq_true, decide_eq_true_eq] at h
    have h1 := h i (mem_variableIndices.mpr ⟨vi, hi, hvi⟩) j (mem_variableIndices.mpr ⟨vj, hj, hvj⟩)
    have hz : ∀ a b, b < a → Dict.get p.objective.quadratic.coeffs (a, b) = 0 := by
      intro a b hab
      apply Dict.get_eq_zero_of_not_mem
      intro hk
      have := hp.objQuad.1.upper _ hk
      simp only at this
      omega
    rcases Nat.lt_trichotomy i j with hij | hij | hij
    · rw [min_eq_left (by omega), max_eq_right (by omega)] at h1
      exact ⟨h1, hz _ _ hij⟩
    · subst hij
      rw [hi, Option.some.injEq] at hj
      subst hj
      rw [hvi] at hvj
      cases hvj
    · rw [min_eq_right (by omega), max_eq_left (by omega)] at h1
      exact ⟨hz _ _ hij, h1⟩

theorem intToBin_none {p : QP} (hni : ∀ v ∈ p.vars, v.vartype ≠ .integer) : p.intToBin = .ok ⟨p, p, []⟩ := by
  unfold QP.intToBin
  rw [if_neg]
  unfold QP.numIntegerVars
  rw [List.filter_eq_nil_iff.mpr]
  · simp
  · intro v hv; simpa using hni v hv

theorem interpret_none {p : QP} (hp : p.WF) (hni : ∀ v ∈ p.vars, v.vartype ≠ .integer) {x y : List ℚ}
    (h : (⟨p, p, []⟩ : I2B).interpret x = .ok y) : y.length = p.numVars ∧ ∀ i < p.numVars, pt y i = pt x i := by
  obtain ⟨h1, h2⟩ := interpret_decodes hp (intToBin_facts hp (intToBin_none hni)) h
  refine ⟨h1, fun i hi => ?_⟩
  obtain ⟨v, hv⟩ := lt_numVars hi
  rw [h2 i v hv]
  show nameVal p.varsIndex (pt x) v.name = _
  exact nameVal_at hp.cons hv _

/-- The final interpretation, for programs without integer variables. -/
theorem AdmmFacts.plain {qubo cont : Solver} {norm : List ℚ → ℚ} {prm : AdmmParams} {p : QP} {a : AdmmResult}
    {conv : I2B} {q : QP} {start : AdmmState} {hist : List Iterate}
    (hf : AdmmFacts qubo cont norm prm p a conv q start hist) (hp : p.WF) (hni : ∀ v ∈ p.vars, v.vartype ≠ .integer) :
    conv = ⟨p, p, []⟩ ∧ ∃ y, a.result.x = some y ∧ y.length = p.numVars ∧ (∀ i < p.numVars, pt y i = pt a.point i) ∧
      a.result.fval = some (p.objective.val (pt y)) := by
  have hc := hf.hconv
  rw [intToBin_none hni, Except.ok.injEq] at hc
  subst hc
  obtain ⟨y, y1, y2, y3, y4, y5, _⟩ := C29_result p hp.cons.vars.2 _ _ _ _ _ hf.interp
  have hy : (⟨p, p, []⟩ : I2B).interpret a.point = .ok y := by
    rw [interprets_iff] at y1
    simp only [interpretAll, List.reverse_singleton, interpretRev] at y1
    cases hc : (⟨p, p, []⟩ : I2B).interpret a.point with
    | error e => simp [hc] at y1
    | ok z => simpa [hc] using y1
  obtain ⟨i1, i2⟩ := interpret_none hp hni hy
  exact ⟨rfl, y, y2, i1, i2, y5⟩

end Verif
