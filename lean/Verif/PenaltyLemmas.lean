import Verif.Penalty
import Verif.IneqToEqSuccess
import Mathlib.Tactic.LinearCombination

/-!
# Helper lemmas: the penalty conversion
-/

namespace Verif

theorem penLinear_sum (f rhs : ℚ) (row lin : Dict Nat) (x : Nat → ℚ) :
    Dict.sum (penLinear f rhs row lin) x = Dict.sum lin x + f * -2 * rhs * Dict.sum row x := by
  induction row generalizing lin with
  | nil => simp [penLinear]
  | cons p row ih =>
    obtain ⟨j, c⟩ := p
    simp only [penLinear, ih, Dict.sum_add, Dict.sum_cons]; ring

theorem penLinear_keys (f rhs : ℚ) (row lin : Dict Nat) {k : Nat} (h : k ∈ Assoc.keys (penLinear f rhs row lin)) :
    k ∈ Assoc.keys lin ∨ k ∈ Assoc.keys row := by
  induction row generalizing lin with
  | nil => exact Or.inl h
  | cons p row ih =>
    obtain ⟨j, c⟩ := p
    rcases ih _ h with h | h
    · rcases Assoc.mem_keys_set.mp h with h | h
      · exact Or.inl h
      · subst h; exact Or.inr (by simp [Assoc.keys])
    · exact Or.inr (by simp only [Assoc.keys, List.map_cons] at h ⊢; exact List.mem_cons_of_mem _ h)

theorem penLinear_nodup (f rhs : ℚ) (row lin : Dict Nat) (h : (Assoc.keys lin).Nodup) :
    (Assoc.keys (penLinear f rhs row lin)).Nodup := by
  induction row generalizing lin with
  | nil => exact h
  | cons p row ih => exact ih _ (Assoc.nodup_keys_set h _ _)

theorem penQuadRow_sum (f : ℚ) (j : Nat) (c1 : ℚ) (row : Dict Nat) (quad : Dict (Nat × Nat)) (x : Nat → ℚ) :
    Dict.sum (penQuadRow f j c1 row quad) (fun k => x k.1 * x k.2) =
      Dict.sum quad (fun k => x k.1 * x k.2) + f * (c1 * x j) * Dict.sum row x := by
  induction row generalizing quad with
  | nil => simp [penQuadRow]
  | cons p row ih =>
    obtain ⟨k, c⟩ := p
    simp only [penQuadRow, ih, Dict.sum_add, Dict.sum_cons]; ring

theorem penQuad_sum (f : ℚ) (all row : Dict Nat) (quad : Dict (Nat × Nat)) (x : Nat → ℚ) :
    Dict.sum (penQuad f all row quad) (fun k => x k.1 * x k.2) =
      Dict.sum quad (fun k => x k.1 * x k.2) + f * Dict.sum row x * Dict.sum all x := by
  induction row generalizing quad with
  | nil => simp [penQuad]
  | cons p row ih =>
    obtain ⟨k, c⟩ := p
    simp only [penQuad, ih, penQuadRow_sum, Dict.sum_cons]; ring

theorem penQuadRow_keys (f : ℚ) (j : Nat) (c1 : ℚ) (row : Dict Nat) (quad : Dict (Nat × Nat)) {k : Nat × Nat}
    (h : k ∈ Assoc.keys (penQuadRow f j c1 row quad)) :
    k ∈ Assoc.keys quad ∨ (k.1 = j ∧ k.2 ∈ Assoc.keys row) := by
  induction row generalizing quad with
  | nil => exact Or.inl h
  | cons p row ih =>
    obtain ⟨i, c⟩ := p
    rcases ih _ h with h | ⟨h1, h2⟩
    · rcases Assoc.mem_keys_set.mp h with h | h
      · exact Or.inl h
      · subst h; exact Or.inr ⟨rfl, by simp [Assoc.keys]⟩
    · exact Or.inr ⟨h1, by simp only [Assoc.keys, List.map_cons] at h2 ⊢; exact List.mem_cons_of_mem _ h2⟩

theorem penQuad_keys (f : ℚ) (all row : Dict Nat) (quad : Dict (Nat × Nat)) {k : Nat × Nat}
    (h : k ∈ Assoc.keys (penQuad f all row quad)) :
    k ∈ Assoc.keys quad ∨ (k.1 ∈ Assoc.keys row ∧ k.2 ∈ Assoc.keys all) := by
  induction row generalizing quad with
  | nil => exact Or.inl h
  | cons p row ih =>
    obtain ⟨i, c⟩ := p
    rcases ih _ h with h | ⟨h1, h2⟩
    · rcases penQuadRow_keys f i c all quad h with h | ⟨h1, h2⟩
      · exact Or.inl h
      · exact Or.inr ⟨by rw [h1]; simp [Assoc.keys], h2⟩
    · exact Or.inr ⟨by simp only [Assoc.keys, List.map_cons] at h1 ⊢; exact List.mem_cons_of_mem _ h1, h2⟩

theorem penQuadRow_nodup (f : ℚ) (j : Nat) (c1 : ℚ) (row : Dict Nat) (quad : Dict (Nat × Nat))
    (h : (Assoc.keys quad).Nodup) : (Assoc.keys (penQuadRow f j c1 row quad)).Nodup := by
  induction row generalizing quad with
  | nil => exact h
  | cons p row ih => exact ih _ (Assoc.nodup_keys_set h _ _)

theorem penQuad_nodup (f : ℚ) (all row : Dict Nat) (quad : Dict (Nat × Nat)) (h : (Assoc.keys quad).Nodup) :
    (Assoc.keys (penQuad f all row quad)).Nodup := by
  induction row generalizing quad with
  | nil => exact h
  | cons p row ih => exact ih _ (penQuadRow_nodup f _ _ _ _ h)

/-- Sum of the squared residuals of the linear constraints. -/
def residual2 (cs : List LinCst) (x : Nat → ℚ) : ℚ := (cs.map fun c => (c.linear.val x - c.rhs) ^ 2).sum

/-- Value of the terms. -/
def PenTerms.val (t : PenTerms) (x : Nat → ℚ) : ℚ :=
  t.offset + Dict.sum t.linear x + Dict.sum t.quadratic (fun k => x k.1 * x k.2)

/-- Well-formed terms for `n` variables. -/
structure PenTerms.OK (n : Nat) (t : PenTerms) : Prop where
  linNodup : (Assoc.keys t.linear).Nodup
  quadNodup : (Assoc.keys t.quadratic).Nodup
  lin : ∀ k ∈ Assoc.keys t.linear, k < n
  quad : ∀ k ∈ Assoc.keys t.quadratic, k.1 < n ∧ k.2 < n

theorem penLoop_ok {n : Nat} {f : ℚ} {cs : List LinCst} {t t' : PenTerms} (hf : ∀ c ∈ cs, c.linear.Fits n)
    (ht : t.OK n) (h : penLoop f cs t = .ok t') :
    (∀ c ∈ cs, c.sense = .eq) ∧ t'.OK n ∧ ∀ x, t'.val x = t.val x + f * residual2 cs x := by
  induction cs generalizing t with
  | nil =>
    simp only [penLoop, Except.ok.injEq] at h; subst h
    exact ⟨by simp, ht, by simp [residual2]⟩
  | cons c cs ih =>
    rw [List.forall_mem_cons] at hf
    simp only [penLoop] at h
    split at h
    · simp at h
    · rename_i hse
      rw [not_not] at hse
      have hb : ∀ k ∈ Assoc.keys c.linear.coeffs, k < n := fun k hk => lt_of_lt_of_le (hf.1.1.bound k hk) hf.1.2
      have hok : PenTerms.OK n ⟨t.offset + f * c.rhs ^ 2, penLinear f c.rhs c.linear.coeffs t.linear,
          penQuad f c.linear.coeffs c.linear.coeffs t.quadratic⟩ := by
        refine ⟨penLinear_nodup _ _ _ _ ht.linNodup, penQuad_nodup _ _ _ _ ht.quadNodup, ?_, ?_⟩
        · intro k hk
          rcases penLinear_keys _ _ _ _ hk with h | h
          · exact ht.lin k h
          · exact hb k h
        · intro k hk
          rcases penQuad_keys _ _ _ _ hk with h | h
          · exact ht.quad k h
          · exact ⟨hb _ h.1, hb _ h.2⟩
      obtain ⟨h1, h2, h3⟩ := ih hf.2 hok h
      refine ⟨by rw [List.forall_mem_cons]; exact ⟨hse, h1⟩, h2, ?_⟩
      intro x
      rw [h3]
      simp only [PenTerms.val, penLinear_sum, penQuad_sum, residual2, List.map_cons, List.sum_cons, LinExpr.val]
      ring

theorem penLoop_reject {f : ℚ} {cs : List LinCst} {t : PenTerms} (h : ∃ c ∈ cs, c.sense ≠ .eq) :
    penLoop f cs t = .error .optimization := by
  induction cs generalizing t with
  | nil => simp at h
  | cons c cs ih =>
    simp only [penLoop]
    split
    · rfl
    · rename_i hse
      apply ih
      obtain ⟨c', hc', hs'⟩ := h
      rcases List.mem_cons.mp hc' with rfl | hc'
      · exact absurd hs' hse
      · exact ⟨c', hc', hs'⟩

theorem penLoop_success {f : ℚ} {cs : List LinCst} {t : PenTerms} (h : ∀ c ∈ cs, c.sense = .eq) :
    ∃ t', penLoop f cs t = .ok t' := by
  induction cs generalizing t with
  | nil => exact ⟨t, rfl⟩
  | cons c cs ih =>
    rw [List.forall_mem_cons] at h
    simp only [penLoop, h.1, ne_eq, not_true_eq_false, if_false]
    exact ih h.2

theorem copyAllVars_error {l : List Variable} {dst : QP} {e : Err} (h : copyAllVars l dst = .error e) :
    e = .optimization := by
  induction l generalizing dst with
  | nil => simp [copyAllVars] at h
  | cons x l ih =>
    have key : ∀ (lb ub : ℚ) (t : VarType) (d : QP), dst.addVariable lb ub t (some x.name) = (.error e, d) →
        e = .optimization := by
      intro lb ub t d hh
      rw [addVariable_some] at hh
      split at hh
      · simp only [Prod.mk.injEq, Except.error.injEq] at hh; exact hh.1.symm
      · split at hh
        · simp only [Prod.mk.injEq, Except.error.injEq] at hh; exact hh.1.symm
        · simp at hh
    unfold copyAllVars at h
    cases ht : x.vartype with
    | binary =>
      simp only [ht, QP.binaryVar] at h
      split at h
      · rename_i e' d he; simp only [Except.error.injEq] at h; subst h; exact key _ _ _ _ he
      · exact ih h
    | integer =>
      simp only [ht, QP.integerVar] at h
      split at h
      · rename_i e' d he; simp only [Except.error.injEq] at h; subst h; exact key _ _ _ _ he
      · exact ih h
    | continuous =>
      simp only [ht, QP.continuousVar] at h
      split at h
      · rename_i e' d he; simp only [Except.error.injEq] at h; subst h; exact key _ _ _ _ he
      · exact ih h

/-- All facts about a successful penalty conversion. -/
structure PenFacts (penalty : Option ℚ) (src dst : QP) (pen : ℚ) : Prop where
  penEq : pen = penalty.getD (autoPenalty src)
  wf : dst.WF
  vars : dst.vars = src.vars.map plainVar
  csts : dst.allCsts = []
  eqs : ∀ c ∈ src.lins, c.sense = .eq
  sense : dst.objective.sense = src.objective.sense
  shape : dst.ShapeOK
  name : dst.name = src.name
  obj : ∀ x, dst.objective.val x = src.objective.val x + src.objective.sense.value * pen * residual2 src.lins x

theorem toPenalty_facts {penalty : Option ℚ} {src dst : QP} {pen : ℚ} (hs : src.WF)
    (h : src.toPenalty penalty = .ok (dst, pen)) : PenFacts penalty src dst pen := by
  unfold QP.toPenalty at h
  simp only at h
  split at h
  · simp at h
  · rename_i d0 h0
    have hg := copyAllVars_grows h0
    have hwf0 := hg.wf (QP.empty_wf src.name)
    have hv0 : d0.vars = src.vars.map plainVar := by simpa [QP.empty] using hg.vars
    have hn0 : d0.numVars = src.numVars := by simp [QP.numVars, hv0]
    split at h
    · simp at h
    · rename_i t h1
      have hok0 : PenTerms.OK src.numVars
          ⟨src.objective.constant, src.objective.linear.coeffs, src.objective.quadratic.toDict false⟩ := by
        refine ⟨hs.objLin.1.nodup, hs.objQuad.1.nodup, ?_, ?_⟩
        · intro k hk; exact lt_of_lt_of_le (hs.objLin.1.bound k hk) hs.objLin.2
        · intro k hk
          have := hs.objQuad.1.bound k hk
          exact ⟨lt_of_lt_of_le this.1 hs.objQuad.2, lt_of_lt_of_le this.2 hs.objQuad.2⟩
      obtain ⟨p1, p2, p3⟩ := penLoop_ok hs.lins hok0 h1
      split at h
      · simp at h
      · rename_i u d1 h2
        simp only [Except.ok.injEq, Prod.mk.injEq] at h
        obtain ⟨rfl, rfl⟩ := h
        have hwf1 := setObjective_wf h2 hwf0 trivial trivial
        obtain ⟨le, qe, e1, e2, rfl⟩ := setObjective_ok h2
        have hl0 : d0.lins = [] := by rw [hg.lins]; rfl
        have hq0 : d0.quads = [] := by rw [hg.quads]; rfl
        have hcs : ({ d0 with objective := ⟨t.offset, le, qe, src.objective.sense⟩ } : QP).allCsts = [] := by
          simp [QP.allCsts, hl0, hq0]
        refine ⟨rfl, hwf1, hv0, hcs, p1, rfl, ⟨?_, ?_, ?_⟩, hg.name, ?_⟩
        · rw [hcs]; simp
        · exact LinExpr.ofDict_n e1
        · exact QuadExpr.ofDict_n e2
        · intro x
          have hx := p3 x
          simp only [PenTerms.val, QuadExpr.toDict, Bool.false_eq_true, if_false] at hx
          simp only [Objective.val, LinExpr.val, QuadExpr.val]
          rw [linIdx_sum e1 p2.linNodup, quadIdx_sum e2 p2.quadNodup _ (fun i j => mul_comm _ _), hx]

theorem toPenalty_success {penalty : Option ℚ} {src : QP} (hs : src.WF) (hb : ∀ v ∈ src.vars, v.lb ≤ v.ub)
    (he : ∀ c ∈ src.lins, c.sense = .eq) : ∃ dst pen, src.toPenalty penalty = .ok (dst, pen) := by
  obtain ⟨d0, h0⟩ := copyAllVars_success (vs := src.vars) (QP.empty_wf src.name).cons
    (by simpa [QP.empty] using hs.cons.vars.2) hb
  have hg := copyAllVars_grows h0
  have hv0 : d0.vars = src.vars.map plainVar := by simpa [QP.empty] using hg.vars
  have hn0 : d0.numVars = src.numVars := by simp [QP.numVars, hv0]
  have hok0 : PenTerms.OK src.numVars
      ⟨src.objective.constant, src.objective.linear.coeffs, src.objective.quadratic.toDict false⟩ := by
    refine ⟨hs.objLin.1.nodup, hs.objQuad.1.nodup, ?_, ?_⟩
    · intro k hk; exact lt_of_lt_of_le (hs.objLin.1.bound k hk) hs.objLin.2
    · intro k hk
      have := hs.objQuad.1.bound k hk
      exact ⟨lt_of_lt_of_le this.1 hs.objQuad.2, lt_of_lt_of_le this.2 hs.objQuad.2⟩
  obtain ⟨t, ht⟩ := penLoop_success (f := src.objective.sense.value * penalty.getD (autoPenalty src)) (t :=
    ⟨src.objective.constant, src.objective.linear.coeffs, src.objective.quadratic.toDict false⟩) he
  obtain ⟨p1, p2, p3⟩ := penLoop_ok hs.lins hok0 ht
  obtain ⟨le, hle⟩ := linIdx_ok (vi := d0.varsIndex) (n := d0.numVars) (d := t.linear) (by rw [hn0]; exact p2.lin)
  obtain ⟨qe, hqe⟩ := quadIdx_ok (vi := d0.varsIndex) (n := d0.numVars) (d := t.quadratic) (by rw [hn0]; exact p2.quad)
  have h2 := setObjective_success (p := d0) (s := src.objective.sense) (c := t.offset) hle hqe
  refine ⟨{ d0 with objective := ⟨t.offset, le, qe, src.objective.sense⟩ }, penalty.getD (autoPenalty src), ?_⟩
  simp only [QP.toPenalty, h0, ht, h2]

/-! ## Exactness -/

theorem residual2_nonneg (cs : List LinCst) (x : Nat → ℚ) : 0 ≤ residual2 cs x := by
  induction cs with
  | nil => simp [residual2]
  | cons c cs ih =>
    simp only [residual2, List.map_cons, List.sum_cons] at ih ⊢
    positivity

theorem residual2_eq_zero {cs : List LinCst} (he : ∀ c ∈ cs, c.sense = .eq) (x : Nat → ℚ) :
    residual2 cs x = 0 ↔ ∀ c ∈ cs, c.Holds x := by
  induction cs with
  | nil => simp [residual2]
  | cons c cs ih =>
    rw [List.forall_mem_cons] at he ⊢
    rw [← ih he.2, LinCst.Holds, he.1]
    have h1 := residual2_nonneg cs x
    have h2 : residual2 (c :: cs) x = (c.linear.val x - c.rhs) ^ 2 + residual2 cs x := by
      simp [residual2]
    have h3 := sq_nonneg (c.linear.val x - c.rhs)
    rw [h2]
    simp only [Sense.rel]
    constructor
    · intro h
      have h4 : (c.linear.val x - c.rhs) ^ 2 = 0 := by linarith
      have h5 : c.linear.val x - c.rhs = 0 := by simpa using h4
      exact ⟨by linarith, by linarith⟩
    · rintro ⟨h4, h5⟩
      rw [h4, h5]; ring

theorem residual2_int {cs : List LinCst} {x : Nat → ℚ}
    (h : ∀ c ∈ cs, (∃ z : Int, c.linear.val x = z) ∧ ∃ z : Int, c.rhs = z) : ∃ z : Int, residual2 cs x = z := by
  induction cs with
  | nil => exact ⟨0, by simp [residual2]⟩
  | cons c cs ih =>
    rw [List.forall_mem_cons] at h
    have h2 : residual2 (c :: cs) x = (c.linear.val x - c.rhs) * (c.linear.val x - c.rhs) + residual2 cs x := by
      simp [residual2, sq]
    rw [h2]
    have := isInt_sub h.1.1 h.1.2
    exact isInt_add (isInt_mul this this) (ih h.2)

/-- Sum of the absolute values of the coefficients of the objective. -/
def absSum (o : Objective) : ℚ :=
  (o.linear.coeffs.map fun p => |p.2|).sum + (o.quadratic.coeffs.map fun p => |p.2|).sum

theorem abs_dict_diff {κ : Type} [DecidableEq κ] (d : Dict κ) (f g : κ → ℚ) (h : ∀ k ∈ Assoc.keys d, |f k - g k| ≤ 1) :
    |Dict.sum d f - Dict.sum d g| ≤ (d.map fun p => |p.2|).sum := by
  induction d with
  | nil => simp
  | cons p d ih =>
    have h1 := h p.1 (by simp [Assoc.keys])
    have h2 := ih (fun k hk => h k (by simp only [Assoc.keys, List.map_cons] at hk ⊢; exact List.mem_cons_of_mem _ hk))
    simp only [Dict.sum_cons, List.map_cons, List.sum_cons]
    have h3 : p.2 * f p.1 + Dict.sum d f - (p.2 * g p.1 + Dict.sum d g) =
        p.2 * (f p.1 - g p.1) + (Dict.sum d f - Dict.sum d g) := by ring
    rw [h3]
    refine (abs_add_le _ _).trans (add_le_add ?_ h2)
    rw [abs_mul]
    exact mul_le_of_le_one_right (abs_nonneg _) h1

theorem obj_diff {p : QP} (hp : p.WF) {x y : Nat → ℚ} (hx : ∀ i < p.numVars, x i = 0 ∨ x i = 1)
    (hy : ∀ i < p.numVars, y i = 0 ∨ y i = 1) : |p.objective.val x - p.objective.val y| ≤ absSum p.objective := by
  have h1 := abs_dict_diff p.objective.linear.coeffs x y (by
    intro k hk
    have := lt_of_lt_of_le (hp.objLin.1.bound k hk) hp.objLin.2
    rcases hx k this with h | h <;> rcases hy k this with h' | h' <;> rw [h, h'] <;> norm_num)
  have h2 := abs_dict_diff p.objective.quadratic.coeffs (fun k => x k.1 * x k.2) (fun k => y k.1 * y k.2) (by
    intro k hk
    have hb := hp.objQuad.1.bound k hk
    have b1 := lt_of_lt_of_le hb.1 hp.objQuad.2
    have b2 := lt_of_lt_of_le hb.2 hp.objQuad.2
    rcases hx _ b1 with h | h <;> rcases hy _ b1 with h' | h' <;> rcases hx _ b2 with h3 | h3 <;>
      rcases hy _ b2 with h4 | h4 <;> rw [h, h', h3, h4] <;> norm_num)
  have h3 : p.objective.val x - p.objective.val y =
      (Dict.sum p.objective.linear.coeffs x - Dict.sum p.objective.linear.coeffs y) +
      (Dict.sum p.objective.quadratic.coeffs (fun k => x k.1 * x k.2) -
        Dict.sum p.objective.quadratic.coeffs (fun k => y k.1 * y k.2)) := by
    simp only [Objective.val, LinExpr.val, QuadExpr.val]; ring
  rw [h3]
  exact (abs_add_le _ _).trans (add_le_add h1 h2)

theorem autoPenalty_eq {src : QP} (h : ∀ c ∈ src.lins, (∃ z : Int, c.rhs = z) ∧ ∀ q ∈ c.linear.coeffs, ∃ z : Int, q.2 = z) :
    autoPenalty src = 1 + absSum src.objective := by
  unfold autoPenalty
  rw [if_neg]
  · simp only [List.sum_cons, List.sum_append, absSum, Dict.values, List.map_map, QuadExpr.toDict, Bool.false_eq_true,
      if_false]
    rfl
  · rw [Bool.not_eq_true, anyFloat_false]
    intro v hv
    obtain ⟨c, hc, hv⟩ := List.mem_flatMap.mp hv
    rcases List.mem_cons.mp hv with rfl | hv
    · exact (h c hc).1
    · obtain ⟨q, hq, rfl⟩ := List.mem_map.mp hv
      exact (h c hc).2 q hq

theorem sense_sq (s : ObjSense) : s.value * s.value = 1 := by cases s <;> simp [ObjSense.value]

/-- A penalty above the sum of the absolute coefficients is exact for 0/1 variables and integral residuals. -/
theorem penalty_exact {penalty : Option ℚ} {src dst : QP} {pen : ℚ} (hs : src.WF) (h : PenFacts penalty src dst pen)
    (hq : src.quads = []) (hbits : ∀ x, (dst.InBounds x ∧ dst.Integral x) → ∀ i < src.numVars, x i = 0 ∨ x i = 1)
    (hadm : ∀ x, (dst.InBounds x ∧ dst.Integral x) ↔ (src.InBounds x ∧ src.Integral x))
    (hint : ∀ x, src.InBounds x → src.Integral x → ∃ z : Int, residual2 src.lins x = z)
    (hpen : absSum src.objective < pen) (hfeas : ∃ x, src.Feas x) {x : Nat → ℚ}
    (hx : OptimalIn dst.Feas dst.objective x) :
    OptimalIn src.Feas src.objective x ∧ dst.objective.val x = src.objective.val x := by
  have hsat : ∀ y, src.Sat y ↔ residual2 src.lins y = 0 := by
    intro y
    rw [residual2_eq_zero h.eqs, sat_iff, hq]; simp
  have hdst : ∀ y, dst.Feas y ↔ src.InBounds y ∧ src.Integral y := by
    intro y
    have : dst.Sat y := by unfold QP.Sat; rw [h.csts]; simp
    unfold QP.Feas
    rw [← and_assoc, hadm]
    exact and_iff_left this
  have hval : ∀ y, dst.objective.sense.value * dst.objective.val y =
      src.objective.sense.value * src.objective.val y + pen * residual2 src.lins y := by
    intro y
    rw [h.obj, h.sense]
    have := sense_sq src.objective.sense
    linear_combination (pen * residual2 src.lins y) * this
  obtain ⟨x0, f1, f2, f3⟩ := hfeas
  obtain ⟨a1, a2⟩ := (hdst x).mp hx.1
  -- the optimal point satisfies the constraints
  have hz : residual2 src.lins x = 0 := by
    by_contra hne
    obtain ⟨z, hz⟩ := hint x a1 a2
    have hpos : 0 < residual2 src.lins x := lt_of_le_of_ne (residual2_nonneg _ _) (Ne.symm hne)
    have h1 : 1 ≤ residual2 src.lins x := by
      rw [hz] at hpos ⊢
      have : (0 : Int) < z := by exact_mod_cast hpos
      exact_mod_cast this
    have hopt := hx.2 x0 ((hdst x0).mpr ⟨f1, f2⟩)
    rw [hval, hval, (hsat x0).mp f3] at hopt
    have hd := obj_diff hs (hbits x0 ((hadm x0).mpr ⟨f1, f2⟩)) (hbits x ((hadm x).mpr ⟨a1, a2⟩))
    have hd2 : src.objective.sense.value * (src.objective.val x0 - src.objective.val x) ≤ absSum src.objective := by
      refine (le_abs_self _).trans ?_
      rw [abs_mul]
      have : |src.objective.sense.value| = 1 := by cases src.objective.sense <;> simp [ObjSense.value]
      rw [this, one_mul]; exact hd
    have hpp : 0 ≤ pen := by
      have : 0 ≤ absSum src.objective := (abs_nonneg _).trans hd
      linarith
    have h2 : pen * 1 ≤ pen * residual2 src.lins x := mul_le_mul_of_nonneg_left h1 hpp
    linarith
  have hxs : src.Feas x := ⟨a1, a2, (hsat x).mpr hz⟩
  refine ⟨⟨hxs, ?_⟩, by rw [h.obj, hz]; ring⟩
  intro y hy
  have hopt := hx.2 y ((hdst y).mpr ⟨hy.1, hy.2.1⟩)
  rw [hval, hval, hz, (hsat y).mp hy.2.2] at hopt
  linarith

end Verif
