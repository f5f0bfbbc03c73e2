import Verif.SlackTotal
import Verif.PropsPenalty
import Verif.PropsFeasible

/-!
# C115: the order of the constraints does not matter

Two programs that differ in the order of their constraints only.
-/

namespace Verif

/-- The same program with its linear constraints and its quadratic constraints in another order. -/
structure Reordered (p p' : QP) : Prop where
  name : p'.name = p.name
  vars : p'.vars = p.vars
  objective : p'.objective = p.objective
  lins : p'.lins.Perm p.lins
  quads : p'.quads.Perm p.quads

theorem Reordered.symm {p p' : QP} (h : Reordered p p') : Reordered p' p :=
  ⟨h.name.symm, h.vars.symm, h.objective.symm, h.lins.symm, h.quads.symm⟩

theorem Reordered.allCsts {p p' : QP} (h : Reordered p p') : p'.allCsts.Perm p.allCsts :=
  (h.lins.map _).append (h.quads.map _)

theorem Reordered.numVars {p p' : QP} (h : Reordered p p') : p'.numVars = p.numVars := by
  simp [QP.numVars, h.vars]

instance (p p' : QP) : Decidable (Reordered p p') :=
  decidable_of_iff (p'.name = p.name ∧ p'.vars = p.vars ∧ p'.objective = p.objective ∧ p'.lins.Perm p.lins ∧
    p'.quads.Perm p.quads) ⟨fun ⟨a, b, c, d, e⟩ => ⟨a, b, c, d, e⟩, fun ⟨a, b, c, d, e⟩ => ⟨a, b, c, d, e⟩⟩

/-- `slackQP` with its two linear constraints exchanged. -/
def slackQP2 : QP :=
  (runCalls (QP.empty "p") [.addVar 0 1 .binary (some "b"), .addVar (-2) 3 .integer (some "x"),
    .objective .maximize 1 (.dict [(.name "x", 2)]) (.dict []),
    .linear (.dict [(.name "b", 1), (.name "x", 1)]) (.sense .ge) (-5) (some "r"),
    .linear (.dict [(.name "b", 2), (.name "x", -1)]) (.sense .le) (7 / 2) (some "c"),
    .quadratic (.dict [(.name "b", 1)]) (.dict [((.name "x", .name "x"), 1)]) (.sense .ge) 1 (some "q")]).2

/-! ## Feasibility -/

/-- The results of two runs of the loop over constraints. -/
inductive SameList : Except Err (List Cst) → Except Err (List Cst) → Prop
  | ok {l l' : List Cst} (h : l'.Perm l) : SameList (.ok l) (.ok l')
  | error : SameList (.error .valueError) (.error .valueError)

theorem evaluate_cases (c : Cst) (x : List ℚ) : c.evaluate x = .error .valueError ∨ ∃ v, c.evaluate x = .ok v := by
  cases c with
  | lin c =>
    simp only [Cst.evaluate, LinExpr.evaluate]
    split <;> simp
  | quad c =>
    simp only [Cst.evaluate, LinExpr.evaluate, QuadExpr.evaluate]
    by_cases h1 : x.length ≠ c.linear.n <;> by_cases h2 : x.length ≠ c.quadratic.n <;> simp [h1, h2]

theorem violatedCsts_refl (x : List ℚ) (cs : List Cst) : SameList (violatedCsts x cs) (violatedCsts x cs) := by
  induction cs with
  | nil => exact .ok (List.Perm.refl _)
  | cons c cs ih =>
    simp only [violatedCsts]
    rcases evaluate_cases c x with h | ⟨v, h⟩ <;> rw [h]
    · exact .error
    · generalize violatedCsts x cs = r at ih
      cases ih with
      | ok h => exact .ok (List.Perm.refl _)
      | error => exact .error

theorem SameList.trans {a b c : Except Err (List Cst)} (h : SameList a b) (h' : SameList b c) : SameList a c := by
  cases h with
  | ok h1 =>
    cases h' with
    | ok h2 => exact .ok (h2.trans h1)
  | error => exact h'

theorem violatedCsts_perm (x : List ℚ) {cs cs' : List Cst} (h : cs'.Perm cs) :
    SameList (violatedCsts x cs) (violatedCsts x cs') := by
  induction h with
  | nil => exact .ok (List.Perm.refl _)
  | cons c _ ih =>
    simp only [violatedCsts]
    rcases evaluate_cases c x with h | ⟨v, h⟩ <;> rw [h]
    · exact .error
    · simp only
      rename_i l l' _
      generalize violatedCsts x l = r at ih ⊢
      generalize violatedCsts x l' = r' at ih ⊢
      cases ih with
      | ok h =>
        simp only
        split
        · exact .ok (h.cons _)
        · exact .ok h
      | error => exact .error
  | swap a b l =>
    simp only [violatedCsts]
    rcases evaluate_cases a x with ha | ⟨v, ha⟩ <;> rcases evaluate_cases b x with hb | ⟨w, hb⟩ <;> rw [ha, hb] <;>
      simp only
    · exact .error
    · exact .error
    · exact .error
    · have := violatedCsts_refl x l
      generalize violatedCsts x l = r at this
      cases this with
      | error => exact .error
      | ok h =>
        simp only
        refine .ok ?_
        split <;> split
        · exact List.Perm.swap _ _ _
        · exact List.Perm.refl _
        · exact List.Perm.refl _
        · exact List.Perm.refl _
  | trans _ _ h1 h2 => exact h2.trans h1

/-- **C115** (feasibility): `get_feasibility_info` gives the same verdict, the same variables and the same constraints up to
their order, or raises the same error; so `is_feasible` does not depend on the order of the constraints. -/
theorem C115_feasible (p p' : QP) (h : Reordered p p') (x : List ℚ) :
    ((∃ e, p.getFeasibilityInfo x = .error e ∧ p'.getFeasibilityInfo x = .error e) ∨
      ∃ b vs cs cs', p.getFeasibilityInfo x = .ok (b, vs, cs) ∧ p'.getFeasibilityInfo x = .ok (b, vs, cs') ∧ cs'.Perm cs) ∧
    p'.isFeasible x = p.isFeasible x ∧ ∀ y, p'.Feas y ↔ p.Feas y := by
  have key : (∃ e, p.getFeasibilityInfo x = .error e ∧ p'.getFeasibilityInfo x = .error e) ∨
      ∃ b vs cs cs', p.getFeasibilityInfo x = .ok (b, vs, cs) ∧ p'.getFeasibilityInfo x = .ok (b, vs, cs') ∧ cs'.Perm cs := by
    unfold QP.getFeasibilityInfo
    rw [h.numVars, h.vars]
    by_cases hx : x.length ≠ p.numVars
    · exact Or.inl ⟨_, by rw [if_pos hx], by rw [if_pos hx]⟩
    · simp only [if_neg hx]
      have hp : SameList (violatedCsts x p.csts) (violatedCsts x p'.csts) := violatedCsts_perm x h.allCsts
      generalize violatedCsts x p.csts = a at hp
      generalize violatedCsts x p'.csts = b at hp
      cases hp with
      | error => exact Or.inl ⟨_, rfl, rfl⟩
      | ok hl =>
        refine Or.inr ⟨_, _, _, _, rfl, ?_, hl⟩
        have : ∀ {l l' : List Cst}, l'.Perm l → l'.isEmpty = l.isEmpty := by
          intro l l' hh
          rw [Bool.eq_iff_iff, List.isEmpty_iff, List.isEmpty_iff]
          exact ⟨fun h0 => by rw [h0] at hh; exact hh.symm.eq_nil, fun h0 => by rw [h0] at hh; exact hh.eq_nil⟩
        simp only [this hl]
  refine ⟨key, ?_, ?_⟩
  · rcases key with ⟨e, h1, h2⟩ | ⟨b, vs, cs, cs', h1, h2, -⟩ <;> simp [QP.isFeasible, h1, h2]
  · intro y
    unfold QP.Feas QP.InBounds QP.Integral QP.Sat
    rw [h.vars]
    have : ∀ c, c ∈ p'.allCsts ↔ c ∈ p.allCsts := fun c => h.allCsts.mem_iff
    simp only [this]

example : Reordered slackQP slackQP2 ∧ slackQP ≠ slackQP2 ∧
    slackQP.getFeasibilityInfo [1, -2] = slackQP2.getFeasibilityInfo [1, -2] ∧
    (slackQP.getFeasibilityInfo [1, -9]).toOption.map (fun r => (r.1, r.2.2.map Cst.name)) = some (false, ["c", "r"]) ∧
    (slackQP2.getFeasibilityInfo [1, -9]).toOption.map (fun r => (r.1, r.2.2.map Cst.name)) = some (false, ["r", "c"]) := by
  decide +kernel

/-! ## Penalties -/

theorem sumSquares_perm {p p' : QP} (h : Reordered p p') (x : Nat → ℚ) : sumSquares p' x = sumSquares p x :=
  (h.lins.map _).sum_eq

theorem autoPenalty_perm {p p' : QP} (h : Reordered p p') : autoPenalty p' = autoPenalty p := by
  have : anyFloat (p'.lins.flatMap fun c => c.rhs :: c.linear.coeffs.values) =
      anyFloat (p.lins.flatMap fun c => c.rhs :: c.linear.coeffs.values) := by
    rw [Bool.eq_iff_iff]
    simp only [anyFloat, List.any_eq_true, List.mem_flatMap, h.lins.mem_iff]
  simp only [autoPenalty, this, h.objective]

theorem toPenalty_of_copy {penalty : Option ℚ} {src d0 : QP} (hs : src.WF)
    (h0 : copyAllVars src.vars (QP.empty src.name) = .ok d0)
    (he : ∀ c ∈ src.lins, c.sense = .eq) : ∃ dst, src.toPenalty penalty = .ok (dst, penalty.getD (autoPenalty src)) := by
  have hg := copyAllVars_grows h0
  have hv0 : d0.vars = src.vars.map plainVar := by simpa [QP.empty] using hg.vars
  have hn0 : d0.numVars = src.numVars := by simp [QP.numVars, hv0]
  have hok0 : PenTerms.OK src.numVars
      ⟨src.objective.constant, src.objective.linear.coeffs, src.objective.quadratic.toDict false⟩ := by
    refine ⟨hs.objLin.1.nodup, hs.objQuad.1.nodup, ?_, ?_⟩
    · intro k hk; exact lt_of_lt_of_le (hs.objLin.1.bound k hk) hs.objLin.2
    · intro k hk
      have := hs.objQuad.1.bound k hk
      exact ⟨lt_of_lt_of_le this.1 hs.objQuad.2, lt_of_lt_of_le this.2 hs.objQuad.2⟩
  obtain ⟨t, ht⟩ := penLoop_success (f := src.objective.sense.value * penalty.getD (autoPenalty src)) (t :=
    ⟨src.objective.constant, src.objective.linear.coeffs, src.objective.quadratic.toDict false⟩) he
  obtain ⟨p1, p2, p3⟩ := penLoop_ok hs.lins hok0 ht
  obtain ⟨le, hle⟩ := linIdx_ok (vi := d0.varsIndex) (n := d0.numVars) (d := t.linear) (by rw [hn0]; exact p2.lin)
  obtain ⟨qe, hqe⟩ := quadIdx_ok (vi := d0.varsIndex) (n := d0.numVars) (d := t.quadratic) (by rw [hn0]; exact p2.quad)
  have h2 := setObjective_success (p := d0) (s := src.objective.sense) (c := t.offset) hle hqe
  exact ⟨{ d0 with objective := ⟨t.offset, le, qe, src.objective.sense⟩ }, by simp only [QP.toPenalty, h0, ht, h2]⟩

/-- **C115** (penalties): `LinearEqualityToPenalty` chooses the same penalty and makes programs with the same variables and the
same objective (as a polynomial), or raises the same error. -/
theorem C115_penalty (penalty : Option ℚ) (p p' : QP) (hp : p.WF) (hp' : p'.WF) (h : Reordered p p') :
    (∃ e, p.toPenalty penalty = .error e ∧ p'.toPenalty penalty = .error e) ∨
    ∃ d d' pen, p.toPenalty penalty = .ok (d, pen) ∧ p'.toPenalty penalty = .ok (d', pen) ∧
      d'.name = d.name ∧ d'.vars = d.vars ∧ d.allCsts = [] ∧ d'.allCsts = [] ∧
      d'.objective.sense = d.objective.sense ∧ ∀ x, d'.objective.val x = d.objective.val x := by
  by_cases he : ∀ c ∈ p.lins, c.sense = .eq
  · have he' : ∀ c ∈ p'.lins, c.sense = .eq := fun c hc => he c (h.lins.mem_iff.mp hc)
    cases h0 : copyAllVars p.vars (QP.empty p.name) with
    | error e =>
      refine Or.inl ⟨e, by simp only [QP.toPenalty, h0], ?_⟩
      simp only [QP.toPenalty, h.vars, h.name, h0]
    | ok d0 =>
      obtain ⟨d, hd⟩ := toPenalty_of_copy (penalty := penalty) hp h0 he
      obtain ⟨d', hd'⟩ := toPenalty_of_copy (penalty := penalty) hp' (by rw [h.vars, h.name]; exact h0) he'
      rw [autoPenalty_perm h] at hd'
      have f := toPenalty_facts hp hd
      have f' := toPenalty_facts hp' hd'
      refine Or.inr ⟨d, d', _, hd, hd', by rw [f'.name, f.name, h.name], by rw [f'.vars, f.vars, h.vars], f.csts, f'.csts,
        by rw [f'.sense, f.sense, h.objective], ?_⟩
      intro x
      rw [(C19_objective_partial penalty p' d' _ hp' hd').1, (C19_objective_partial penalty p d _ hp hd).1, sumSquares_perm h,
        h.objective]
  · push Not at he
    obtain ⟨c, hc, hne⟩ := he
    exact Or.inl ⟨_, C19_rejects penalty p ⟨c, hc, hne⟩, C19_rejects penalty p' ⟨c, h.lins.mem_iff.mpr hc, hne⟩⟩

/-- Two equalities. -/
def orderQP : QP :=
  (runCalls (QP.empty "p") [.addVar 0 1 .binary (some "b"), .addVar (-2) 3 .integer (some "x"),
    .objective .maximize 1 (.dict [(.name "x", 2)]) (.dict []),
    .linear (.dict [(.name "b", 1), (.name "x", 1)]) (.sense .eq) 2 (some "r"),
    .linear (.dict [(.name "b", 2), (.name "x", -1)]) (.sense .eq) 1 (some "c")]).2

/-- The same equalities in the other order. -/
def orderQP2 : QP :=
  (runCalls (QP.empty "p") [.addVar 0 1 .binary (some "b"), .addVar (-2) 3 .integer (some "x"),
    .objective .maximize 1 (.dict [(.name "x", 2)]) (.dict []),
    .linear (.dict [(.name "b", 2), (.name "x", -1)]) (.sense .eq) 1 (some "c"),
    .linear (.dict [(.name "b", 1), (.name "x", 1)]) (.sense .eq) 2 (some "r")]).2

example : orderQP.WF ∧ orderQP2.WF ∧ Reordered orderQP orderQP2 ∧ orderQP ≠ orderQP2 ∧
    (orderQP.toPenalty none).toOption.map Prod.snd = some 3 ∧ (orderQP2.toPenalty none).toOption.map Prod.snd = some 3 ∧
    (orderQP.toPenalty none).toOption.map (fun r => r.1.objective.val (pt [1, 3])) = some (-17) ∧
    (orderQP2.toPenalty none).toOption.map (fun r => r.1.objective.val (pt [1, 3])) = some (-17) := by decide +kernel

/-! ## Slack variables -/

theorem Cst.low_vars {p p' : QP} (h : p'.vars = p.vars) (c : Cst) : c.low p' = c.low p := by
  cases c <;> simp only [Cst.low, QP.corners, QP.lbAt, QP.ubAt, h]

theorem Cst.high_vars {p p' : QP} (h : p'.vars = p.vars) (c : Cst) : c.high p' = c.high p := by
  cases c <;> simp only [Cst.high, QP.corners, QP.lbAt, QP.ubAt, h]

theorem Cst.slack_vars {p p' : QP} (h : p'.vars = p.vars) (mode : SlackMode) (c : Cst) :
    c.slack mode p' = c.slack mode p := by
  have : c.room mode p' = c.room mode p := by unfold Cst.room; rw [Cst.low_vars h, Cst.high_vars h]
  unfold Cst.slack
  rw [this]

/-- The value of a variable of the program. -/
def QP.atVar (d : QP) (y : Nat → ℚ) (v : Variable) : ℚ := y (d.vars.idxOf v)

theorem atVar_spec {d : QP} {v : Variable} (h : v ∈ d.vars) : d.vars[d.vars.idxOf v]? = some v := by
  rw [List.getElem?_eq_getElem (List.idxOf_lt_length_of_mem h), List.getElem_idxOf]

/-- What `ExactForm` says about a constraint, with the value of the slack variable. -/
def madeOf (mode : SlackMode) (src : QP) (val : Variable → ℚ) (y : Nat → ℚ) (c : Cst) : String × Sense × ℚ × ℚ :=
  (c.name, .eq, c.target mode, c.val y +
    match c.slack mode src with
    | [] => 0
    | v :: _ => if c.sense = .le then val v else -val v)

/-- Name, sense, right-hand side and the value of the left-hand side. -/
def Cst.shown (y : Nat → ℚ) (c : Cst) : String × Sense × ℚ × ℚ := (c.name, c.sense, c.rhs, c.val y)

theorem Cst.slack_cases (mode : SlackMode) (p : QP) (c : Cst) : c.slack mode p = [] ∨ ∃ v, c.slack mode p = [v] := by
  unfold Cst.slack
  split
  · exact Or.inr ⟨_, rfl⟩
  · exact Or.inl rfl

theorem ExactForm.shown {mode : SlackMode} {src dst : QP} {c c' : Cst} (h : ExactForm mode src dst c c') (hne : c.name ≠ "")
    (hv : ∀ v ∈ c.slack mode src, v ∈ dst.vars) (y : Nat → ℚ) :
    c'.shown y = madeOf mode src (dst.atVar y) y c := by
  unfold Cst.shown madeOf
  rw [h.name hne, h.sense, h.rhs]
  rcases c.slack_cases mode src with h0 | ⟨v, h0⟩
  · rw [h.none h0, h0]; simp
  · rw [h.some (dst.vars.idxOf v) v h0 (atVar_spec (hv v (by rw [h0]; simp))), h0]; rfl

theorem forall₂_shown {mode : SlackMode} {src dst : QP} {cs cs' : List Cst} (h : List.Forall₂ (ExactForm mode src dst) cs cs')
    (hne : ∀ c ∈ cs, c.name ≠ "") (hv : ∀ c ∈ cs, ∀ v ∈ c.slack mode src, v ∈ dst.vars) (y : Nat → ℚ) :
    cs'.map (Cst.shown y) = cs.map (madeOf mode src (dst.atVar y) y) := by
  induction h with
  | nil => rfl
  | cons h _ ih =>
    rw [List.forall_mem_cons] at hne hv
    rw [List.map_cons, List.map_cons, h.shown hne.1 hv.1, ih hne.2 hv.2]

theorem Cst.val_congr {p : QP} (hp : p.WF) {c : Cst} (hc : c ∈ p.allCsts) {x y : Nat → ℚ}
    (hxy : ∀ i < p.numVars, x i = y i) : c.val x = c.val y := by
  unfold QP.allCsts at hc
  rcases List.mem_append.mp hc with hc | hc
  · obtain ⟨k, hk, rfl⟩ := List.mem_map.mp hc
    exact LinExpr.val_congr (hp.lins k hk) hxy
  · obtain ⟨k, hk, rfl⟩ := List.mem_map.mp hc
    show k.linear.val x + k.quadratic.val x = _
    rw [LinExpr.val_congr (hp.quads k hk).1 hxy, QuadExpr.val_congr (hp.quads k hk).2 hxy]
    rfl

/-- Two points give the same values to the same variables. -/
def SamePoint (d d' : QP) (y y' : Nat → ℚ) : Prop :=
  ∀ (i j : Nat) (v : Variable), d.vars[i]? = some v → d'.vars[j]? = some v → y' j = y i

/-- **C115** (slack variables, errors): `InequalityToEquality` converts both programs or raises the same error for both. -/
theorem C115_slack_errors (mode : SlackMode) (p p' : QP) (hp : p.WF) (hp' : p'.WF) (hne : ∀ c ∈ p.allCsts, c.name ≠ "")
    (h : Reordered p p') :
    (∃ e, p.ineqToEq mode = .error e ∧ p'.ineqToEq mode = .error e) ∨
      ∃ d d', p.ineqToEq mode = .ok d ∧ p'.ineqToEq mode = .ok d' := by
  cases h0 : copyAllVars p.vars (QP.empty p.name) with
  | error e =>
    refine Or.inl ⟨e, by simp only [QP.ineqToEq, h0], ?_⟩
    simp only [QP.ineqToEq, h.vars, h.name, h0]
  | ok d0 =>
    have t := ineqToEq_total (mode := mode) hp hne h0
    have t' := ineqToEq_total (mode := mode) hp' (fun c hc => hne c (h.allCsts.mem_iff.mp hc))
      (d0 := d0) (by rw [h.vars, h.name]; exact h0)
    have hiff : AllFit mode p' (p'.vars.map plainVar) p'.allCsts ↔ AllFit mode p (p.vars.map plainVar) p.allCsts := by
      unfold AllFit
      have hsl : Cst.slack mode p' = Cst.slack mode p := funext (Cst.slack_vars h.vars mode)
      have hperm := ((h.allCsts.flatMap_right (Cst.slack mode p)).append_left (p.vars.map plainVar)).map Variable.name
      rw [h.vars, hsl, hperm.nodup_iff]
      simp only [h.allCsts.mem_iff]
    rw [hiff] at t'
    by_cases hc : AllFit mode p (p.vars.map plainVar) p.allCsts
    · obtain ⟨d, hd⟩ := t.1 hc
      obtain ⟨d', hd'⟩ := t'.1 hc
      exact Or.inr ⟨d, d', hd, hd'⟩
    · exact Or.inl ⟨_, t.2 hc, t'.2 hc⟩

/-- The conversion of `slackQP2`. -/
def slackDst2 : QP := match slackQP2.ineqToEq .integer with | .ok d => d | .error _ => QP.empty ""

example : slackQP.WF ∧ slackQP2.WF ∧ (∀ c ∈ slackQP.allCsts, c.name ≠ "") ∧ Reordered slackQP slackQP2 ∧
    slackQP.ineqToEq .integer = .ok slackDst ∧ slackQP2.ineqToEq .integer = .ok slackDst2 := by decide +kernel

/-- **C115** (slack variables): `InequalityToEquality` makes the same variables up to their order, and at points with the same
values of the variables the same objective and the same constraints (name, sense, right-hand side, value of the left-hand
side) up to their order. -/
theorem C115_slack (mode : SlackMode) (p p' d d' : QP) (hp : p.WF) (hp' : p'.WF) (hne : ∀ c ∈ p.allCsts, c.name ≠ "")
    (h : Reordered p p') (hd : p.ineqToEq mode = .ok d) (hd' : p'.ineqToEq mode = .ok d') :
    d'.name = d.name ∧ d'.vars.Perm d.vars ∧ d'.objective.sense = d.objective.sense ∧
    ∀ y y', SamePoint d d' y y' → d'.objective.val y' = d.objective.val y ∧
      ((d'.lins.map .lin).map (Cst.shown y')).Perm ((d.lins.map .lin).map (Cst.shown y)) ∧
      ((d'.quads.map .quad).map (Cst.shown y')).Perm ((d.quads.map .quad).map (Cst.shown y)) := by
  obtain ⟨w1, v1, l1, q1⟩ := ineqToEq_form hp hd
  obtain ⟨w2, v2, l2, q2⟩ := ineqToEq_form hp' hd'
  have f1 := ineqToEq_facts hp hd
  have f2 := ineqToEq_facts hp' hd'
  have hsl : ∀ c : Cst, c.slack mode p' = c.slack mode p := Cst.slack_vars h.vars mode
  have hsl' : Cst.slack mode p' = Cst.slack mode p := funext hsl
  have hpv : d'.vars.Perm d.vars := by
    rw [v1, v2, h.vars, hsl']
    exact (h.allCsts.flatMap_right _).append_left _
  refine ⟨?_, hpv, by rw [f2.objective.1, f1.objective.1, h.objective], ?_⟩
  · rw [(C17_form mode p' d' hp' hd').1, (C17_form mode p d hp hd).1, h.name]
  intro y y' hy
  have hsame : ∀ i < p.numVars, y' i = y i := by
    intro i hi
    have hlt : i < (p.vars.map plainVar).length := by simpa [QP.numVars] using hi
    refine hy i i ((p.vars.map plainVar)[i]) ?_ ?_
    · rw [v1, List.getElem?_append_left hlt, List.getElem?_eq_getElem hlt]
    · rw [v2, h.vars, List.getElem?_append_left hlt, List.getElem?_eq_getElem hlt]
  have hin : ∀ c ∈ p.allCsts, ∀ v ∈ c.slack mode p, v ∈ d.vars := by
    intro c hc v hv
    rw [v1]
    exact List.mem_append_right _ (List.mem_flatMap.mpr ⟨c, hc, hv⟩)
  have hin' : ∀ c ∈ p'.allCsts, ∀ v ∈ c.slack mode p', v ∈ d'.vars := by
    intro c hc v hv
    rw [v2]
    exact List.mem_append_right _ (List.mem_flatMap.mpr ⟨c, hc, hv⟩)
  have hmade : ∀ c ∈ p.allCsts, madeOf mode p' (d'.atVar y') y' c = madeOf mode p (d.atVar y) y c := by
    intro c hc
    unfold madeOf
    rw [hsl, Cst.val_congr hp hc hsame]
    rcases c.slack_cases mode p with h0 | ⟨v, h0⟩
    · rw [h0]
    · have hv := hin c hc v (by rw [h0]; simp)
      have : d'.atVar y' v = d.atVar y v := hy _ _ v (atVar_spec hv) (atVar_spec (hpv.mem_iff.mpr hv))
      rw [h0]
      simp only [this]
  have hmem : ∀ c ∈ p'.allCsts, c ∈ p.allCsts := fun c hc => h.allCsts.mem_iff.mp hc
  refine ⟨?_, ?_, ?_⟩
  · rw [f2.objective.2, f1.objective.2, h.objective]
    exact Objective.val_congr hp hsame
  · rw [forall₂_shown l1 (fun c hc => hne c (List.mem_append_left _ hc)) (fun c hc => hin c (List.mem_append_left _ hc)),
      forall₂_shown l2 (fun c hc => hne c (hmem c (List.mem_append_left _ hc))) (fun c hc => hin' c (List.mem_append_left _ hc)),
      List.map_congr_left (g := madeOf mode p (d.atVar y) y) fun c hc => hmade c (hmem c (List.mem_append_left _ hc))]
    exact (h.lins.map _).map _
  · rw [forall₂_shown q1 (fun c hc => hne c (List.mem_append_right _ hc)) (fun c hc => hin c (List.mem_append_right _ hc)),
      forall₂_shown q2 (fun c hc => hne c (hmem c (List.mem_append_right _ hc))) (fun c hc => hin' c (List.mem_append_right _ hc)),
      List.map_congr_left (g := madeOf mode p (d.atVar y) y) fun c hc => hmade c (hmem c (List.mem_append_right _ hc))]
    exact (h.quads.map _).map _

example : slackDst2.vars.map Variable.name = ["b", "x", "r@int_slack", "c@int_slack", "q@int_slack"] ∧
    slackDst.vars.map Variable.name = ["b", "x", "c@int_slack", "r@int_slack", "q@int_slack"] ∧
    (∀ i < 5, ∀ j < 5, slackDst.vars[i]? = slackDst2.vars[j]? → pt [1, 2, 8, 3, 4] j = pt [1, 2, 3, 8, 4] i) ∧
    ((slackDst.lins.map .lin).map (Cst.shown (pt [1, 2, 3, 8, 4]))) = [("c", .eq, 3, 3), ("r", .eq, -5, -5)] ∧
    ((slackDst2.lins.map .lin).map (Cst.shown (pt [1, 2, 8, 3, 4]))) = [("r", .eq, -5, -5), ("c", .eq, 3, 3)] := by
  decide +kernel

example : SamePoint slackDst slackDst2 (pt [1, 2, 3, 8, 4]) (pt [1, 2, 8, 3, 4]) := by
  intro i j v hi hj
  have hl : slackDst.vars.length = 5 := by decide +kernel
  have hl2 : slackDst2.vars.length = 5 := by decide +kernel
  have h1 : i < 5 := hl ▸ (List.getElem?_eq_some_iff.mp hi).1
  have h2 : j < 5 := hl2 ▸ (List.getElem?_eq_some_iff.mp hj).1
  have : ∀ i < 5, ∀ j < 5, slackDst.vars[i]? = slackDst2.vars[j]? → pt [1, 2, 8, 3, 4] j = pt [1, 2, 3, 8, 4] i := by
    decide +kernel
  exact this i h1 j h2 (hi.trans hj.symm)

end Verif
