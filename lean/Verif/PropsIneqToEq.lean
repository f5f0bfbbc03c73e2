import Verif.IneqToEqSuccess
import Verif.PropsProgram

/-!
# C17, C18, C55: slack variables
-/

namespace Verif

/-- The common part of C17 and C18. -/
theorem slack_core {mode : SlackMode} {src dst : QP} (hs : src.WF) (hb : src.BinBoundsOK)
    (hc : ∀ c ∈ src.allCsts, SlackFits mode src c) (h : src.ineqToEq mode = .ok dst) (x : Nat → ℚ) :
    src.Feas x ↔ ∃ y, (∀ i < src.numVars, y i = x i) ∧ dst.Feas y := by
  have hf := ineqToEq_facts hs h
  have hin : src.BinBoundsIn := fun v hv ht => by
    have := hb v hv ht
    rw [this.1, this.2]; exact ⟨le_refl _, le_refl _⟩
  constructor
  · rintro ⟨h1, h2, h3⟩
    exact (hf.ext hin hc x h1 h2).mpr h3
  · rintro ⟨y, hy, hfe⟩
    have hadm : src.InBounds x ∧ src.Integral x := by
      rw [admits_iff]
      intro i v hv
      have hlt : i < src.numVars := (List.getElem?_eq_some_iff.mp hv).1
      have hd : dst.vars[i]? = some (plainVar v) := by rw [hf.starts.get hlt, hv]; rfl
      rw [← hy i hlt]
      exact (admits_plain (hb v (List.mem_of_getElem? hv)) _).mp (((feas_iff_admits dst y).mp hfe).1 i _ hd)
    exact ⟨hadm.1, hadm.2, (hf.ext hin hc x hadm.1 hadm.2).mp ⟨y, hy, hfe⟩⟩

/-! ## C17 -/

/-- An inequality with integer coefficients on a continuous variable. -/
def contIneqQP : QP :=
  (runCalls (QP.empty "") [.addVar 0 1 .continuous (some "x"),
    .linear (.dict [(.name "x", 1)]) (.sense .le) 1 (some "c")]).2

/-- Its conversion. -/
def contIneqDst : QP := match contIneqQP.ineqToEq .integer with | .ok d => d | .error _ => QP.empty ""

/-- **C17 fails** when a continuous variable occurs in an inequality with integer coefficients: for `x ≤ 1` with
`x` continuous in `[0, 1]`, the feasible point `1/2` has no feasible extension, since the slack is an integer. -/
theorem C17_violated : ∃ (src dst : QP) (x : Nat → ℚ), src.WF ∧ src.BinBoundsOK ∧
    (∀ c ∈ src.allCsts, c.IntCoeffs) ∧ src.ineqToEq .integer = .ok dst ∧ src.ineqToEq .auto = .ok dst ∧
    src.Feas x ∧ ¬ ∃ y, (∀ i < src.numVars, y i = x i) ∧ dst.Feas y := by
  have hv : contIneqQP.vars = [⟨"x", 0, 1, .continuous⟩] := by decide +kernel
  have hl : contIneqQP.lins = [⟨"c", ⟨1, [(0, 1)]⟩, .le, 1⟩] := by decide +kernel
  have hq : contIneqQP.quads = [] := by decide +kernel
  have hdv : contIneqDst.vars = [⟨"x", 0, 1, .continuous⟩, ⟨"c@int_slack", 0, 1, .integer⟩] := by decide +kernel
  have hdl : contIneqDst.lins = [⟨"c", ⟨2, [(0, 1), (1, 1)]⟩, .eq, 1⟩] := by decide +kernel
  refine ⟨contIneqQP, contIneqDst, fun _ => 1 / 2, by decide +kernel, ?_, ?_, by decide +kernel, by decide +kernel,
    ⟨?_, ?_, ?_⟩, ?_⟩
  · intro v hm ht
    rw [hv] at hm
    simp only [List.mem_singleton] at hm
    subst hm; simp at ht
  · intro c hc
    simp only [QP.allCsts, hl, hq, List.map_cons, List.map_nil, List.append_nil, List.mem_singleton] at hc
    subst hc
    intro q hq
    simp only [List.mem_singleton] at hq
    subst hq; exact ⟨1, by simp⟩
  · intro i v hi
    have := List.mem_of_getElem? hi
    rw [hv, List.mem_singleton] at this
    subst this; norm_num
  · intro i v hi ht
    have := List.mem_of_getElem? hi
    rw [hv, List.mem_singleton] at this
    subst this; exact absurd rfl ht
  · rw [sat_iff, hl, hq]
    simp [LinCst.Holds, Sense.rel, LinExpr.val, Dict.sum]
    norm_num
  · rintro ⟨y, hy, hfe⟩
    have hn : contIneqQP.numVars = 1 := by decide +kernel
    have hy0 := hy 0 (by rw [hn]; norm_num)
    obtain ⟨h1, h2, h3⟩ := hfe
    obtain ⟨z, hz⟩ := h2 1 ⟨"c@int_slack", 0, 1, .integer⟩ (by rw [hdv]; rfl) (by simp)
    rw [sat_iff, hdl] at h3
    have := h3.1 _ (List.mem_singleton.mpr rfl)
    simp only [LinCst.Holds, Sense.rel, LinExpr.val, Dict.sum, List.map_cons, List.map_nil, List.sum_cons, List.sum_nil,
      hy0, hz] at this
    have h4 : (2 : ℚ) * z = 1 := by linarith
    have h5 : (2 : Int) * z = 1 := by exact_mod_cast h4
    omega

/-- **C17, integer slacks** (the part that holds).  Full statement: for every program with integer constraint
coefficients, in the modes `integer` and `auto` (here: in every mode), a point is feasible iff it extends to a feasible point of the result.
Missing (false by `C17_violated`): inequalities with integer coefficients in which a continuous variable occurs; and
binary variables whose bounds were tightened (`C18_violated`).  The remaining claims are proved without gaps:
all constraints become equalities, exactly the slacks are appended to the variables, the objective is unchanged,
`interpret` drops exactly the slacks.  Non-integer coefficients are covered too (mode `auto`). -/
theorem C17_integer_slack_partial (mode : SlackMode) (src dst : QP) (hs : src.WF)
    (hb : src.BinBoundsOK) (hc : ∀ c ∈ src.allCsts, c.sense ≠ .eq → c.IntCoeffs → c.NoContinuous src)
    (h : src.ineqToEq mode = .ok dst) :
    (∀ x, src.Feas x ↔ ∃ y, (∀ i < src.numVars, y i = x i) ∧ dst.Feas y) ∧
    (∀ c ∈ dst.allCsts, c.sense = .eq) ∧
    (∃ slacks, dst.vars = src.vars ++ slacks ∧
      ∀ v ∈ slacks, v.lb = 0 ∧ 0 < v.ub ∧ (mode = .integer → v.vartype = .integer)) ∧
    (dst.objective.sense = src.objective.sense ∧ ∀ y, dst.objective.val y = src.objective.val y) ∧
    ∀ y x, ineqInterpret src dst y = .ok x ↔ dst.numVars ≤ y.length ∧ x = y.take src.numVars := by
  have hf := ineqToEq_facts hs h
  obtain ⟨more, m1, m2⟩ := hf.slacks
  refine ⟨slack_core hs hb (fun c hcs _ => hc c hcs) h, hf.eqs, ⟨more, ?_, ?_⟩, hf.objective,
    fun y x => ineqInterpret_iff hs.cons hf.starts y x⟩
  · rw [m1]
    congr 1
    conv_rhs => rw [← List.map_id src.vars]
    apply List.map_congr_left
    intro v hv
    unfold plainVar
    split
    · rename_i ht
      obtain ⟨h0, h1⟩ := hb v hv ht
      obtain ⟨nm, lb, ub, t⟩ := v
      simp only at h0 h1 ht
      subst h0 h1 ht; rfl
    · rfl
  · intro v hv
    have := m2 v hv
    refine ⟨this.lb, this.ub, fun hmi => ?_⟩
    rcases this.type with ht | ht
    · exact ht.1
    · exact absurd hmi ht.2

/-- A program with integer and binary variables, inequalities of both kinds and a fractional right-hand side. -/
def slackQP : QP :=
  (runCalls (QP.empty "p") [.addVar 0 1 .binary (some "b"), .addVar (-2) 3 .integer (some "x"),
    .objective .maximize 1 (.dict [(.name "x", 2)]) (.dict []),
    .linear (.dict [(.name "b", 2), (.name "x", -1)]) (.sense .le) (7 / 2) (some "c"),
    .linear (.dict [(.name "b", 1), (.name "x", 1)]) (.sense .ge) (-5) (some "r"),
    .quadratic (.dict [(.name "b", 1)]) (.dict [((.name "x", .name "x"), 1)]) (.sense .ge) 1 (some "q")]).2

/-- Its conversion. -/
def slackDst : QP := match slackQP.ineqToEq .integer with | .ok d => d | .error _ => QP.empty ""

example : slackQP.WF ∧ slackQP.ineqToEq .integer = .ok slackDst ∧
    slackDst.vars = [⟨"b", 0, 1, .binary⟩, ⟨"x", -2, 3, .integer⟩, ⟨"c@int_slack", 0, 6, .integer⟩,
      ⟨"r@int_slack", 0, 9, .integer⟩, ⟨"q@int_slack", 0, 9, .integer⟩] ∧
    slackDst.lins.map (fun c => (c.sense, c.rhs)) = [(.eq, 3), (.eq, -5)] ∧
    ineqInterpret slackQP slackDst [1, 2, 3, 8, 4] = .ok [1, 2] := by decide +kernel

/-! ## C18 -/

/-- A program with a binary variable fixed to one by its bounds. -/
def fixedBinQP : QP :=
  let p := (runCalls (QP.empty "") [.addVar 0 1 .binary (some "b"), .addVar 0 2 .integer (some "x")]).2
  { p with vars := [⟨"b", 1, 1, .binary⟩, ⟨"x", 0, 2, .integer⟩] }

/-- Its conversion. -/
def fixedBinDst : QP := match fixedBinQP.ineqToEq .continuous with | .ok d => d | .error _ => QP.empty ""

/-- **C18 fails** for binary variables with tightened bounds: the copy has the bounds zero and one again, so that
a feasible point of the result need not be feasible for the source. -/
theorem C18_violated : ∃ (src dst : QP) (x : Nat → ℚ), src.WF ∧ src.ineqToEq .continuous = .ok dst ∧
    src.numVars = dst.numVars ∧ dst.Feas x ∧ ¬ src.Feas x := by
  have hv : fixedBinQP.vars = [⟨"b", 1, 1, .binary⟩, ⟨"x", 0, 2, .integer⟩] := rfl
  have hdv : fixedBinDst.vars = [⟨"b", 0, 1, .binary⟩, ⟨"x", 0, 2, .integer⟩] := by decide +kernel
  have hdl : fixedBinDst.lins = [] := by decide +kernel
  have hdq : fixedBinDst.quads = [] := by decide +kernel
  refine ⟨fixedBinQP, fixedBinDst, fun _ => 0, by decide +kernel, by decide +kernel, by decide +kernel, ?_, ?_⟩
  · rw [feas_iff_admits]
    constructor
    · intro i v hi
      have := List.mem_of_getElem? hi
      rw [hdv] at this
      simp only [List.mem_cons, List.not_mem_nil, or_false] at this
      rcases this with rfl | rfl <;> exact ⟨⟨by norm_num, by norm_num⟩, fun _ => ⟨0, by simp⟩⟩
    · rw [sat_iff, hdl, hdq]; simp
  · rintro ⟨h1, _⟩
    have := (h1 0 ⟨"b", 1, 1, .binary⟩ (by rw [hv]; rfl)).1
    norm_num at this

/-- **C18, continuous slacks** (the part that holds).  Full statement: for every program, a point is feasible iff it
extends to a feasible point of the result.  Missing (false by `C18_violated`): binary variables whose bounds are not
zero and one; for bounds tightened to a part of that range one direction remains, see `C18_forward`. -/
theorem C18_continuous_slack_partial (src dst : QP) (hs : src.WF) (hb : src.BinBoundsOK)
    (h : src.ineqToEq .continuous = .ok dst) :
    (∀ x, src.Feas x ↔ ∃ y, (∀ i < src.numVars, y i = x i) ∧ dst.Feas y) ∧
    (∀ c ∈ dst.allCsts, c.sense = .eq) ∧
    (∃ slacks, dst.vars = src.vars.map plainVar ++ slacks ∧
      ∀ v ∈ slacks, v.lb = 0 ∧ 0 < v.ub ∧ v.vartype = .continuous) ∧
    (dst.objective.sense = src.objective.sense ∧ ∀ y, dst.objective.val y = src.objective.val y) ∧
    ∀ y x, ineqInterpret src dst y = .ok x ↔ dst.numVars ≤ y.length ∧ x = y.take src.numVars := by
  have hf := ineqToEq_facts hs h
  obtain ⟨more, m1, m2⟩ := hf.slacks
  refine ⟨slack_core hs hb (fun c _ hcc => absurd rfl hcc) h, hf.eqs, ⟨more, m1, ?_⟩, hf.objective,
    fun y x => ineqInterpret_iff hs.cons hf.starts y x⟩
  intro v hv
  have := m2 v hv
  refine ⟨this.lb, this.ub, ?_⟩
  rcases this.type with ht | ht
  · exact absurd rfl ht.2
  · exact ht.1

example : contIneqQP.WF ∧ contIneqQP.BinBoundsOK ∧ ∃ dst, contIneqQP.ineqToEq .continuous = .ok dst ∧
    dst.vars = [⟨"x", 0, 1, .continuous⟩, ⟨"c@continuous_slack", 0, 1, .continuous⟩] := by
  refine ⟨by decide +kernel, ?_, (match contIneqQP.ineqToEq .continuous with | .ok d => d | .error _ => QP.empty ""),
    by decide +kernel, by decide +kernel⟩
  intro v hm ht
  have hv : contIneqQP.vars = [⟨"x", 0, 1, .continuous⟩] := by decide +kernel
  rw [hv, List.mem_singleton] at hm
  subst hm; simp at ht

/-- **C18, feasible points extend** also for tightened binary bounds (and in every mode, if integer slacks are added
only where no continuous variable occurs). -/
theorem C18_forward (mode : SlackMode) (src dst : QP) (hs : src.WF) (hb : src.BinBoundsIn)
    (hc : mode ≠ .continuous → ∀ c ∈ src.allCsts, c.sense ≠ .eq → c.IntCoeffs → c.NoContinuous src)
    (h : src.ineqToEq mode = .ok dst) (x : Nat → ℚ) (hx : src.Feas x) :
    ∃ y, (∀ i < src.numVars, y i = x i) ∧ dst.Feas y :=
  ((ineqToEq_facts hs h).ext hb (fun c hcs hcc => hc hcc c hcs) x hx.1 hx.2.1).mpr hx.2.2

example : fixedBinQP.WF ∧ fixedBinQP.BinBoundsIn ∧ fixedBinQP.ineqToEq .continuous = .ok fixedBinDst := by
  refine ⟨by decide +kernel, ?_, by decide +kernel⟩
  intro v hm ht
  have hv : fixedBinQP.vars = [⟨"b", 1, 1, .binary⟩, ⟨"x", 0, 2, .integer⟩] := rfl
  rw [hv] at hm
  simp only [List.mem_cons, List.not_mem_nil, or_false] at hm
  rcases hm with rfl | rfl
  · norm_num
  · simp at ht

/-- **C18, optimal points**: an optimal point of the result restricts to an optimal point of the source. -/
theorem C18_optimal (src dst : QP) (hs : src.WF) (hb : src.BinBoundsOK) (h : src.ineqToEq .continuous = .ok dst)
    (y : Nat → ℚ) (hy : OptimalIn dst.Feas dst.objective y) : OptimalIn src.Feas src.objective y := by
  obtain ⟨h1, _, _, ⟨h2, h3⟩, _⟩ := C18_continuous_slack_partial src dst hs hb h
  refine ⟨(h1 y).mpr ⟨y, fun _ _ => rfl, hy.1⟩, ?_⟩
  intro x hx
  obtain ⟨z, hz, hfe⟩ := (h1 x).mp hx
  have := hy.2 z hfe
  rw [h2, h3, h3] at this
  rwa [Objective.val_congr hs hz] at this

/-! ## C55 -/

/-- A linear and a quadratic inequality with the same name (allowed, since names are unique per kind). -/
def sameNameQP : QP :=
  (runCalls (QP.empty "") [.addVar 0 1 .binary (some "x"),
    .linear (.dict [(.name "x", 1)]) (.sense .le) 1 (some "c"),
    .quadratic (.dict []) (.dict [((.name "x", .name "x"), 1)]) (.sense .le) 1 (some "c")]).2

/-- **C55 fails** when a linear and a quadratic inequality have the same name: both slack variables get the same name
and the second one is rejected. -/
theorem C55_violated : ∃ src : QP, src.WF ∧ (∀ v ∈ src.vars, v.lb ≤ v.ub) ∧ (∀ c ∈ src.allCsts, c.name = "c") ∧
    (∀ v ∈ src.vars, v.name = "x") ∧ src.ineqToEq .integer = .error .optimization ∧
    src.ineqToEq .auto = .error .optimization ∧ src.ineqToEq .continuous = .error .optimization := by
  refine ⟨sameNameQP, by decide +kernel, by decide +kernel, ?_, by decide +kernel, by decide +kernel, by decide +kernel,
    by decide +kernel⟩
  have hl : sameNameQP.lins.map LinCst.name = ["c"] := by decide +kernel
  have hq : sameNameQP.quads.map QuadCst.name = ["c"] := by decide +kernel
  intro c hc
  simp only [QP.allCsts, List.mem_append, List.mem_map] at hc
  rcases hc with ⟨c, hc, rfl⟩ | ⟨c, hc, rfl⟩
  · have := List.mem_map_of_mem (f := LinCst.name) hc
    rw [hl, List.mem_singleton] at this; exact this
  · have := List.mem_map_of_mem (f := QuadCst.name) hc
    rw [hq, List.mem_singleton] at this; exact this

/-- **C55, the conversion succeeds** (the part that holds).  Full statement: the conversion accepts every program
whose names do not contain `@` (in mode `integer`: whose inequalities have integer coefficients).  Missing (false by
`C55_violated`): a linear and a quadratic constraint with the same name.  Names are compared with the slack names
only, which is weaker than forbidding `@`. -/
theorem C55_succeeds_partial (mode : SlackMode) (src : QP) (hs : src.WF) (hb : ∀ v ∈ src.vars, v.lb ≤ v.ub)
    (hm : ∀ c ∈ src.allCsts, c.sense ≠ .eq → mode ≠ .other ∧ (mode = .integer → c.IntCoeffs))
    (hne : ∀ c ∈ src.allCsts, c.name ≠ "") (hd : ∀ c ∈ src.lins, ∀ c' ∈ src.quads, c.name ≠ c'.name)
    (hv : ∀ c ∈ src.allCsts, ∀ v ∈ src.vars, v.name ≠ c.name ++ "@int_slack" ∧ v.name ≠ c.name ++ "@continuous_slack") :
    ∃ dst, src.ineqToEq mode = .ok dst := by
  suffices hx : _ by
    obtain ⟨dst, h, _⟩ := ineqToEq_success hs hb hm hne hd hx
    exact ⟨dst, h⟩
  intro c hc s hs' hmem
  obtain ⟨v, hv', rfl⟩ := List.mem_map.mp hmem
  have := hv c hc v hv'
  simp only [slackNames, List.mem_cons, List.not_mem_nil, or_false, String.append_assoc] at hs'
  rcases hs' with hs' | hs'
  · exact this.1 hs'
  · exact this.2 hs'

/-- In mode `integer` a non-integer coefficient in an inequality is rejected. -/
theorem C55_rejects (src dst : QP) (hs : src.WF) (h : src.ineqToEq .integer = .ok dst) :
    ∀ c ∈ src.lins, c.sense ≠ .eq → ∀ p ∈ c.linear.coeffs, ∃ z : Int, p.2 = z := by
  have key : ∀ (ks : List LinCst) (d d' : QP), (∀ k ∈ ks, k.linear.Fits src.numVars) → Starts src d →
      i2eLins .integer src ks d = .ok d' → ∀ c ∈ ks, c.sense ≠ .eq → ∀ p ∈ c.linear.coeffs, ∃ z : Int, p.2 = z := by
    intro ks
    induction ks with
    | nil => intro d d' _ _ _ c hc; simp at hc
    | cons k ks ih =>
      intro d d' hk hst h c hc hse
      rw [List.forall_mem_cons] at hk
      simp only [i2eLins] at h
      split at h
      · simp at h
      · rename_i d1 h1
        rcases List.mem_cons.mp hc with rfl | hc
        · have h2 : intSlackLin src d (c.linear.toDictNames src.vars) c.sense c.rhs c.name = .ok d1 := by
            unfold i2eLinOne at h1
            simp only at h1
            cases hs' : c.sense with
            | eq => exact absurd hs' hse
            | le => rw [hs'] at h1; exact h1
            | ge => rw [hs'] at h1; exact h1
          exact (intSlackLin_ok hs hst hk.1 h2).1
        · exact ih d1 d' hk.2 (i2eLinOne_ok hs hst hk.1 h1).1.starts h c hc hse
  unfold QP.ineqToEq at h
  split at h
  · simp at h
  · rename_i d0 h0
    have hg := copyAllVars_grows h0
    have hst0 : Starts src d0 := ⟨hg.wf (QP.empty_wf src.name), [], by simpa [QP.empty] using hg.vars⟩
    split at h
    · simp at h
    · rename_i u d1 h1
      have hwf1 := setObjective_wf h1 hst0.wf trivial trivial
      obtain ⟨le, qe, e1, e2, rfl⟩ := setObjective_ok h1
      split at h
      · simp at h
      · rename_i d2 h2
        exact key src.lins _ d2 hs.lins ⟨hwf1, [], by simpa [QP.empty] using hg.vars⟩ h2

example : slackQP.WF ∧ (∀ v ∈ slackQP.vars, v.lb ≤ v.ub) ∧ (slackQP.ineqToEq .auto).isOk ∧
    (∀ c ∈ slackQP.lins, ∀ c' ∈ slackQP.quads, c.name ≠ c'.name) := by decide +kernel

end Verif
