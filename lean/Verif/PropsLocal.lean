import Verif.PropsCplex
import Verif.RecursiveLemmas

/-!
# C74: COBYLA and SLSQP with a solver that is right
-/

namespace Verif

/-! ## Specification: solvers that are right -/

/-- The point has `n` entries and is allowed, and no such point has a smaller value of the function. -/
def MinimumOf (f : Fn) (n : Nat) (Ok : List ℚ → Prop) (x : List ℚ) : Prop :=
  x.length = n ∧ Ok x ∧ ∀ y : List ℚ, y.length = n → Ok y → ∀ v w, f x = .ok v → f y = .ok w → v ≤ w

/-- What COBYLA is to respect: functions that must not be negative. -/
def CobylaOk (cs : List Fn) (x : List ℚ) : Prop := ∀ c ∈ cs, Fn.Nonneg c x

/-- What SLSQP is to respect: bounds, functions that must be zero and functions that must not be negative. -/
def SlsqpOk (eqs ineqs : List Fn) (bounds : List (ℚ × ℚ)) (x : List ℚ) : Prop :=
  bounds.length = x.length ∧ (∀ i b, bounds[i]? = some b → b.1 ≤ pt x i ∧ pt x i ≤ b.2) ∧
    (∀ c ∈ eqs, Fn.Zero c x) ∧ ∀ c ∈ ineqs, Fn.Nonneg c x

/-- Type of `fmin_cobyla`. -/
abbrev CobylaFn := Nat → Fn → List ℚ → List Fn → Except Err (List ℚ)

/-- Type of `fmin_slsqp`. -/
abbrev SlsqpFn := Nat → Fn → (List ℚ → Except Err (List ℚ)) → List ℚ → List Fn → List Fn → List (ℚ × ℚ) →
  Except Err (List ℚ)

/-- Every answer is a minimum. -/
def CobylaSound (cobyla : CobylaFn) : Prop :=
  ∀ t f x0 cs x, cobyla t f x0 cs = .ok x → MinimumOf f x0.length (CobylaOk cs) x

/-- There is an answer if there is a minimum. -/
def CobylaComplete (cobyla : CobylaFn) : Prop :=
  ∀ t f x0 cs, (∃ x, MinimumOf f x0.length (CobylaOk cs) x) → ∃ x, cobyla t f x0 cs = .ok x

/-- Every answer is a minimum. -/
def SlsqpSound (slsqp : SlsqpFn) : Prop :=
  ∀ t f g x0 eqs ineqs bounds x, slsqp t f g x0 eqs ineqs bounds = .ok x →
    MinimumOf f x0.length (SlsqpOk eqs ineqs bounds) x

/-- There is an answer if there is a minimum. -/
def SlsqpComplete (slsqp : SlsqpFn) : Prop :=
  ∀ t f g x0 eqs ineqs bounds, (∃ x, MinimumOf f x0.length (SlsqpOk eqs ineqs bounds) x) →
    ∃ x, slsqp t f g x0 eqs ineqs bounds = .ok x

/-! ## There are such solvers -/

open Classical in
noncomputable def idealMinimum (f : Fn) (n : Nat) (Ok : List ℚ → Prop) : Except Err (List ℚ) :=
  if h : ∃ x, MinimumOf f n Ok x then .ok h.choose else .error .optimization

theorem idealMinimum_right (f : Fn) (n : Nat) (Ok : List ℚ → Prop) :
    (∀ x, idealMinimum f n Ok = .ok x → MinimumOf f n Ok x) ∧
      ((∃ x, MinimumOf f n Ok x) → ∃ x, idealMinimum f n Ok = .ok x) := by
  unfold idealMinimum
  constructor
  · intro x h
    split at h
    · rename_i hx
      simp only [Except.ok.injEq] at h
      rw [← h]
      exact hx.choose_spec
    · simp at h
  · intro h
    rw [dif_pos h]
    exact ⟨_, rfl⟩

/-- A COBYLA that is right. -/
noncomputable def idealCobyla : CobylaFn := fun _ f x0 cs => idealMinimum f x0.length (CobylaOk cs)

/-- An SLSQP that is right. -/
noncomputable def idealSlsqp : SlsqpFn := fun _ f _ x0 eqs ineqs bounds =>
  idealMinimum f x0.length (SlsqpOk eqs ineqs bounds)

theorem idealCobyla_right : CobylaSound idealCobyla ∧ CobylaComplete idealCobyla :=
  ⟨fun _ f x0 cs x h => (idealMinimum_right f x0.length (CobylaOk cs)).1 x h,
    fun _ f x0 cs h => (idealMinimum_right f x0.length (CobylaOk cs)).2 h⟩

theorem idealSlsqp_right : SlsqpSound idealSlsqp ∧ SlsqpComplete idealSlsqp :=
  ⟨fun _ f _ x0 eqs ineqs bounds x h => (idealMinimum_right f x0.length (SlsqpOk eqs ineqs bounds)).1 x h,
    fun _ f _ x0 eqs ineqs bounds h => (idealMinimum_right f x0.length (SlsqpOk eqs ineqs bounds)).2 h⟩

/-! ## Helper lemmas -/

/-- Whatever the sense, the loop ends with its start values or with the answer of a trial and its value. -/
theorem trialLoop_answer {clip : ℚ} {u : Nat → Nat → ℚ} {minimize : Nat → List ℚ → Except Err (List ℚ)} {p : QP}
    {k t : Nat} {f : ℚ} {xs : Option (List ℚ)} {r : ℚ × Option (List ℚ)}
    (h : trialLoop clip u minimize p k t f xs = .ok r) :
    r = (f, xs) ∨ ∃ t' x, t ≤ t' ∧ t' < t + k ∧ Answer clip u minimize p t' x ∧ r = (p.objective.val (pt x), some x) := by
  induction k generalizing t f xs with
  | zero =>
    simp only [trialLoop, Except.ok.injEq] at h
    exact Or.inl h.symm
  | succ k ih =>
    obtain ⟨x, hx, _, h⟩ := trialLoop_step h
    split at h
    · rcases ih h with c | ⟨t', x', h1, h2, h3, h4⟩
      · exact Or.inr ⟨t, x, le_refl _, by omega, hx, c⟩
      · exact Or.inr ⟨t', x', by omega, by omega, h3, h4⟩
    · rcases ih h with c | ⟨t', x', h1, h2, h3, h4⟩
      · exact Or.inl c
      · exact Or.inr ⟨t', x', by omega, by omega, h3, h4⟩

theorem multiStart_answer {trials : Nat} {clip : ℚ} {u : Nat → Nat → ℚ}
    {minimize : Nat → List ℚ → Except Err (List ℚ)} {p : QP} {r : Result}
    (h : multiStartSolve trials clip u minimize p = .ok r) :
    ∃ t x, t < trials ∧ Answer clip u minimize p t x ∧ r.x = some x ∧ r.fval = some (p.objective.val (pt x)) ∧
      r.vars = p.vars ∧ x.length = p.numVars ∧ (r.status = .success ↔ p.FeasTol (pt x)) := by
  obtain ⟨f, x, h0, h1, h2, h3, h4, _, h5⟩ := multiStartSolve_inv h
  rcases trialLoop_answer h0 with c | ⟨t, y, _, ht, hy, he⟩
  · simp at c
  · simp only [Prod.mk.injEq, Option.some.injEq] at he
    obtain ⟨rfl, rfl⟩ := he
    exact ⟨t, x, by omega, hy, h1, h2, h3, h4, h5⟩

theorem guessLoop_length {clip : ℚ} {u : Nat → ℚ} {i : Nat} {vs : List Variable} {x : List ℚ}
    (h : guessLoop clip u i vs = .ok x) : x.length = vs.length := by
  induction vs generalizing i x with
  | nil => simp only [guessLoop, Except.ok.injEq] at h; subst h; rfl
  | cons v vs ih =>
    unfold guessLoop at h
    simp only at h
    generalize (if v.lb > -INFINITY then v.lb else -clip) = L at h
    generalize (if v.ub < INFINITY then v.ub else clip) = U at h
    by_cases hb : U - L < 0
    · rw [if_pos hb] at h; simp at h
    · rw [if_neg hb] at h
      cases hr : guessLoop clip u (i + 1) vs with
      | error e => simp [hr] at h
      | ok r =>
        simp only [hr, Except.ok.injEq] at h
        subst h
        simp [ih hr]

theorem initialGuess_length {clip : ℚ} {u : Nat → Nat → ℚ} {p : QP} {t : Nat} {x : List ℚ}
    (h : initialGuess clip u p t = .ok x) : x.length = p.numVars := by
  unfold initialGuess at h
  split at h
  · exact guessLoop_length h
  · simp only [Except.ok.injEq] at h
    subst h
    simp

/-- The property of a point depends on the values of the variables only. -/
def Depends (n : Nat) (F : (Nat → ℚ) → Prop) : Prop := ∀ x y, (∀ i < n, x i = y i) → F x → F y

theorem optimalIn_lists {p : QP} (hp : p.WF) {F : (Nat → ℚ) → Prop} (hF : Depends p.numVars F) {x : List ℚ}
    (hx : F (pt x)) (h : ∀ y : List ℚ, y.length = p.numVars → F (pt y) →
      p.objective.sense.value * p.objective.val (pt x) ≤ p.objective.sense.value * p.objective.val (pt y)) :
    OptimalIn F p.objective (pt x) := by
  refine ⟨hx, fun y hy => ?_⟩
  have hc : ∀ i < p.numVars, y i = pt (firstValues y p.numVars) i := fun i hi => (firstValues_pt y hi).symm
  rw [Objective.val_agree hp.objLin hp.objQuad hc]
  exact h _ (by simp [firstValues]) (hF _ _ hc hy)

theorem sat_depends {p : QP} (hp : p.WF) : Depends p.numVars p.Sat := by
  intro x y h hx
  rw [sat_iff] at hx ⊢
  refine ⟨fun c hc => ?_, fun c hc => ?_⟩
  · have := hx.1 c hc
    unfold LinCst.Holds LinExpr.val at this ⊢
    rwa [← Dict.sum_congr fun k hk => h k (lt_of_lt_of_le ((hp.lins c hc).1.bound k hk) (hp.lins c hc).2)]
  · have := hx.2 c hc
    obtain ⟨h1, h2⟩ := hp.quads c hc
    unfold QuadCst.Holds LinExpr.val QuadExpr.val at this ⊢
    rw [← Dict.sum_congr (f := x) (g := y) fun k hk => h k (lt_of_lt_of_le (h1.1.bound k hk) h1.2)]
    rwa [← Dict.sum_congr (d := c.quadratic.coeffs) (f := fun k : Nat × Nat => x k.1 * x k.2)
      (g := fun k : Nat × Nat => y k.1 * y k.2) fun k hk => by
        rw [h _ (lt_of_lt_of_le (h2.1.bound k hk).1 h2.2), h _ (lt_of_lt_of_le (h2.1.bound k hk).2 h2.2)]]

theorem solverObjective_ok {p : QP} (hs : p.ShapeOK) {x : List ℚ} (hx : x.length = p.numVars) :
    solverObjective p x = .ok (p.objective.sense.value * p.objective.val (pt x)) := by
  simp only [solverObjective, objective_ok hs hx]

theorem optimalIn_of_minimum {p : QP} (hp : p.WF) (hs : p.ShapeOK) {F : (Nat → ℚ) → Prop} (hF : Depends p.numVars F)
    {Ok : List ℚ → Prop} (hok : ∀ y : List ℚ, y.length = p.numVars → (Ok y ↔ F (pt y))) {x : List ℚ}
    (h : MinimumOf (solverObjective p) p.numVars Ok x) : OptimalIn F p.objective (pt x) := by
  obtain ⟨hl, h1, h2⟩ := h
  refine optimalIn_lists hp hF ((hok x hl).mp h1) fun y hy hy' => ?_
  exact h2 y hy ((hok y hy).mpr hy') _ _ (solverObjective_ok hs hl) (solverObjective_ok hs hy)

theorem minimum_of_optimalIn {p : QP} (hp : p.WF) (hs : p.ShapeOK) {F : (Nat → ℚ) → Prop} (hF : Depends p.numVars F)
    {Ok : List ℚ → Prop} (hok : ∀ y : List ℚ, y.length = p.numVars → (Ok y ↔ F (pt y))) {x : Nat → ℚ}
    (h : OptimalIn F p.objective x) : MinimumOf (solverObjective p) p.numVars Ok (firstValues x p.numVars) := by
  have hl : (firstValues x p.numVars).length = p.numVars := by simp [firstValues]
  have hc : ∀ i < p.numVars, x i = pt (firstValues x p.numVars) i := fun i hi => (firstValues_pt x hi).symm
  refine ⟨hl, (hok _ hl).mpr (hF _ _ hc h.1), fun y hy hy' v w hv hw => ?_⟩
  rw [solverObjective_ok hs hl] at hv
  rw [solverObjective_ok hs hy] at hw
  cases hv
  cases hw
  rw [← Objective.val_agree hp.objLin hp.objQuad hc]
  exact h.2 _ ((hok y hy).mp hy')

theorem finite_depends {p : QP} (hp : p.WF) : Depends p.numVars fun y => p.InFiniteBounds y ∧ p.Sat y := by
  rintro x y hxy ⟨a, b⟩
  refine ⟨fun i v hv => ?_, sat_depends hp x y hxy b⟩
  rw [← hxy i (List.getElem?_eq_some_iff.mp hv).1]
  exact a i v hv

theorem bounds_depends {p : QP} (hp : p.WF) : Depends p.numVars fun y => p.InBounds y ∧ p.Sat y := by
  rintro x y hxy ⟨a, b⟩
  refine ⟨fun i v hv => ?_, sat_depends hp x y hxy b⟩
  rw [← hxy i (List.getElem?_eq_some_iff.mp hv).1]
  exact a i v hv

theorem onlyContinuous_iff {p : QP} : onlyContinuous p = true ↔ ∀ v ∈ p.vars, v.vartype = .continuous := by
  have hle := List.length_filter_le (fun v : Variable => decide (v.vartype = .continuous)) p.vars
  constructor
  · intro hc v hv
    have hc : p.vars.length ≤ p.numContinuous := by simpa [onlyContinuous] using hc
    unfold QP.numContinuous at hc
    have he : (p.vars.filter fun v => v.vartype = .continuous).length = p.vars.length := by omega
    have := List.length_filter_eq_length_iff.mp he v hv
    simpa using this
  · intro h
    have he : (p.vars.filter fun v => v.vartype = .continuous).length = p.vars.length :=
      List.length_filter_eq_length_iff.mpr fun v hv => by simp [h v hv]
    unfold onlyContinuous QP.numContinuous
    rw [he]
    simp

/-! ## The property -/

/-- **C74** (COBYLA): whatever the number of trials and the sense, what `CobylaOptimizer.solve` returns is an optimal
point among those that satisfy the finite bounds and the constraints, and is reported with its value. -/
theorem C74_cobyla {cobyla : CobylaFn} (hc : CobylaSound cobyla) {trials : Nat} {clip : ℚ} {u : Nat → Nat → ℚ} {p : QP}
    (hp : p.WF) (hs : p.ShapeOK) {r : Result} (h : cobylaSolve cobyla trials clip u p = .ok r) :
    ∃ x, r.x = some x ∧ r.fval = some (p.objective.val (pt x)) ∧ r.vars = p.vars ∧
      OptimalIn (fun y => p.InFiniteBounds y ∧ p.Sat y) p.objective (pt x) := by
  unfold cobylaSolve at h
  split at h
  · obtain ⟨t, x, _, ⟨x0, g0, hx⟩, h1, h2, h3, hl, _⟩ := multiStart_answer h
    have hm := hc _ _ _ _ _ hx
    rw [initialGuess_length g0] at hm
    exact ⟨x, h1, h2, h3, optimalIn_of_minimum hp hs (finite_depends hp) (C32_cobyla p hs) hm⟩
  · simp at h

/-- **C74** (COBYLA, acceptance): a program of continuous variables with an optimal point of finite value is solved, if
the initial guesses can be drawn. -/
theorem C74_cobyla_accepts {cobyla : CobylaFn} (hc : CobylaSound cobyla) (hc' : CobylaComplete cobyla) {trials : Nat}
    (ht : 0 < trials) {clip : ℚ} {u : Nat → Nat → ℚ} {p : QP} (hp : p.WF) (hs : p.ShapeOK)
    (hv : ∀ v ∈ p.vars, v.vartype = .continuous) (hg : ∀ t < trials, ∃ x, initialGuess clip u p t = .ok x)
    {x : Nat → ℚ} (hx : OptimalIn (fun y => p.InFiniteBounds y ∧ p.Sat y) p.objective x)
    (hfin : p.objective.sense.value * p.objective.val x < INFINITY) :
    ∃ r, cobylaSolve cobyla trials clip u p = .ok r := by
  unfold cobylaSolve
  rw [if_pos (onlyContinuous_iff.mpr hv)]
  have hmin := minimum_of_optimalIn hp hs (finite_depends hp) (C32_cobyla p hs) hx
  refine C31_accepts trials clip u _ p hs ht ?_ ?_
  · intro t ht
    obtain ⟨x0, h0⟩ := hg t ht
    obtain ⟨y, hy⟩ := hc' t (solverObjective p) x0 (cobylaConstraints p) ⟨_, by rw [initialGuess_length h0]; exact hmin⟩
    exact ⟨y, ⟨x0, h0, hy⟩, (hc _ _ _ _ _ hy).1.trans (initialGuess_length h0)⟩
  · rintro y ⟨x0, h0, hy⟩
    have hm := hc _ _ _ _ _ hy
    rw [initialGuess_length h0] at hm
    exact lt_of_le_of_lt ((optimalIn_of_minimum hp hs (finite_depends hp) (C32_cobyla p hs) hm).2 x hx.1) hfin

/-- The second part of the SLSQP optimizer: the result of the multi-start method is kept. -/
theorem slsqpSolve_eq {slsqp : SlsqpFn} {trials : Nat} {clip : ℚ} {u : Nat → Nat → ℚ} {p : QP}
    (hv : onlyContinuous p = true) {r : Result}
    (h : multiStartSolve trials clip u (fun t x0 => slsqp t (solverObjective p) (solverGradient p) x0
      (slsqpEq p.csts) (slsqpIneq p.csts) (slsqpBounds p)) p = .ok r) : slsqpSolve slsqp trials clip u p = .ok r := by
  have hr := h
  unfold multiStartSolve at h
  cases h0 : trialLoop clip u (fun t x0 => slsqp t (solverObjective p) (solverGradient p) x0
      (slsqpEq p.csts) (slsqpIneq p.csts) (slsqpBounds p)) p trials 0 INFINITY none with
  | error e => simp [h0] at h
  | ok q =>
    obtain ⟨f, xs⟩ := q
    cases xs with
    | none => simp [h0] at h
    | some x =>
      cases h1 : feasibilityStatus p x with
      | error e => simp [h0, h1] at h
      | ok st =>
        have hl : x.length = p.vars.length := (feasibilityStatus_inv h1).1
        simp only [h0, h1, Result.mk?] at h
        rw [if_neg (by simp [hl])] at h
        cases h
        unfold slsqpSolve
        rw [if_pos hv, hr]
        simp only [h1, Result.mk?]
        rw [if_neg (by simp [hl])]

theorem slsqpSolve_inv {slsqp : SlsqpFn} {trials : Nat} {clip : ℚ} {u : Nat → Nat → ℚ} {p : QP} {r : Result}
    (h : slsqpSolve slsqp trials clip u p = .ok r) : onlyContinuous p = true ∧
      multiStartSolve trials clip u (fun t x0 => slsqp t (solverObjective p) (solverGradient p) x0
        (slsqpEq p.csts) (slsqpIneq p.csts) (slsqpBounds p)) p = .ok r := by
  by_cases hv : onlyContinuous p = true
  · refine ⟨hv, ?_⟩
    cases hm : multiStartSolve trials clip u (fun t x0 => slsqp t (solverObjective p) (solverGradient p) x0
        (slsqpEq p.csts) (slsqpIneq p.csts) (slsqpBounds p)) p with
    | error e => unfold slsqpSolve at h; rw [if_pos hv, hm] at h; simp at h
    | ok r' => rw [slsqpSolve_eq hv hm] at h; exact h
  · unfold slsqpSolve at h
    rw [if_neg hv] at h
    simp at h

/-- **C74** (SLSQP): whatever the number of trials and the sense, what `SlsqpOptimizer.solve` returns is optimal among
the feasible points, and is reported with its value and the status SUCCESS. -/
theorem C74_slsqp {slsqp : SlsqpFn} (hc : SlsqpSound slsqp) {trials : Nat} {clip : ℚ} {u : Nat → Nat → ℚ} {p : QP}
    (hp : p.WF) (hs : p.ShapeOK) {r : Result} (h : slsqpSolve slsqp trials clip u p = .ok r) :
    ∃ x, r.x = some x ∧ r.fval = some (p.objective.val (pt x)) ∧ r.vars = p.vars ∧ r.status = .success ∧
      OptimalIn p.Feas p.objective (pt x) := by
  obtain ⟨hv, h⟩ := slsqpSolve_inv h
  obtain ⟨t, x, _, ⟨x0, g0, hx⟩, h1, h2, h3, hl, h4⟩ := multiStart_answer h
  have hm := hc _ _ _ _ _ _ _ _ hx
  rw [initialGuess_length g0] at hm
  have ho := optimalIn_of_minimum hp hs (bounds_depends hp) (C32_slsqp p hs) hm
  have hF : ∀ y, p.Feas y ↔ p.InBounds y ∧ p.Sat y := by
    intro y
    unfold QP.Feas QP.Integral
    constructor
    · rintro ⟨a, _, b⟩; exact ⟨a, b⟩
    · rintro ⟨a, b⟩
      exact ⟨a, fun i v hi hne => absurd (onlyContinuous_iff.mp hv v (List.mem_of_getElem? hi)) hne, b⟩
  refine ⟨x, h1, h2, h3, h4.mpr ⟨ho.1.1, fun c hc => rel_imp_relTol (ho.1.2 c hc)⟩, (hF _).mpr ho.1, fun y hy => ?_⟩
  exact ho.2 y ((hF y).mp hy)

/-- **C74** (SLSQP, acceptance): a program of continuous variables with an optimal point of finite value is solved, if
the initial guesses can be drawn. -/
theorem C74_slsqp_accepts {slsqp : SlsqpFn} (hc : SlsqpSound slsqp) (hc' : SlsqpComplete slsqp) {trials : Nat}
    (ht : 0 < trials) {clip : ℚ} {u : Nat → Nat → ℚ} {p : QP} (hp : p.WF) (hs : p.ShapeOK)
    (hv : ∀ v ∈ p.vars, v.vartype = .continuous) (hg : ∀ t < trials, ∃ x, initialGuess clip u p t = .ok x)
    {x : Nat → ℚ} (hx : OptimalIn p.Feas p.objective x)
    (hfin : p.objective.sense.value * p.objective.val x < INFINITY) :
    ∃ r, slsqpSolve slsqp trials clip u p = .ok r := by
  have hx' : OptimalIn (fun y => p.InBounds y ∧ p.Sat y) p.objective x :=
    ⟨⟨hx.1.1, hx.1.2.2⟩, fun y hy => hx.2 y
      ⟨hy.1, fun i v hi hne => absurd (hv v (List.mem_of_getElem? hi)) hne, hy.2⟩⟩
  have hmin := minimum_of_optimalIn hp hs (bounds_depends hp) (C32_slsqp p hs) hx'
  obtain ⟨r, hr⟩ := C31_accepts trials clip u (fun t x0 => slsqp t (solverObjective p) (solverGradient p) x0
    (slsqpEq p.csts) (slsqpIneq p.csts) (slsqpBounds p)) p hs ht (by
      intro t ht
      obtain ⟨x0, h0⟩ := hg t ht
      obtain ⟨y, hy⟩ := hc' t (solverObjective p) (solverGradient p) x0 (slsqpEq p.csts) (slsqpIneq p.csts)
        (slsqpBounds p) ⟨_, by rw [initialGuess_length h0]; exact hmin⟩
      exact ⟨y, ⟨x0, h0, hy⟩, (hc _ _ _ _ _ _ _ _ hy).1.trans (initialGuess_length h0)⟩) (by
      rintro y ⟨x0, h0, hy⟩
      have hm := hc _ _ _ _ _ _ _ _ hy
      rw [initialGuess_length h0] at hm
      exact lt_of_le_of_lt ((optimalIn_of_minimum hp hs (bounds_depends hp) (C32_slsqp p hs) hm).2 x hx'.1) hfin)
  exact ⟨r, slsqpSolve_eq (onlyContinuous_iff.mpr hv) hr⟩

theorem maxLine_optimal : OptimalIn maxLineQP.Feas maxLineQP.objective (pt [10]) ∧
    OptimalIn (fun y => maxLineQP.InFiniteBounds y ∧ maxLineQP.Sat y) maxLineQP.objective (pt [10]) := by
  have hv : maxLineQP.vars = [⟨"x", 0, 10, .continuous⟩] := by decide +kernel
  have hcs : maxLineQP.allCsts = [] := by decide +kernel
  have h1 : maxLineQP.objective.constant = 0 := by decide +kernel
  have h2 : maxLineQP.objective.linear.coeffs = [(0, 1)] := by decide +kernel
  have h3 : maxLineQP.objective.quadratic.coeffs = [] := by decide +kernel
  have h4 : maxLineQP.objective.sense = .maximize := by decide +kernel
  have ho : ∀ x, maxLineQP.objective.val x = x 0 := by
    intro x
    simp [Objective.val, LinExpr.val, QuadExpr.val, h1, h2, h3]
  have hsat : maxLineQP.Sat (pt [10]) := by unfold QP.Sat; rw [hcs]; simp
  have hb : ∀ (i : Nat) (v : Variable), maxLineQP.vars[i]? = some v → v = ⟨"x", 0, 10, .continuous⟩ ∧ i = 0 := by
    intro i v hi
    rw [hv] at hi
    obtain ⟨i1, rfl⟩ := List.getElem?_eq_some_iff.mp hi
    simp only [List.length_singleton, Nat.lt_one_iff] at i1
    subst i1
    exact ⟨rfl, rfl⟩
  refine ⟨⟨⟨fun i v hi => ?_, fun i v hi hne => ?_, hsat⟩, fun y hy => ?_⟩, ⟨⟨fun i v hi => ?_, hsat⟩, fun y hy => ?_⟩⟩
  · obtain ⟨rfl, rfl⟩ := hb i v hi
    simp [pt]
  · obtain ⟨rfl, rfl⟩ := hb i v hi
    simp at hne
  · have := (hy.1 0 ⟨"x", 0, 10, .continuous⟩ (by rw [hv]; rfl)).2
    simp only at this
    rw [h4, ho, ho]
    simp only [ObjSense.value, pt, List.getD_cons_zero]
    linarith
  · obtain ⟨rfl, rfl⟩ := hb i v hi
    norm_num [pt]
  · have := (hy.1 0 ⟨"x", 0, 10, .continuous⟩ (by rw [hv]; rfl)).2 (by norm_num [INFINITY])
    simp only at this
    rw [h4, ho, ho]
    simp only [ObjSense.value, pt, List.getD_cons_zero]
    linarith

/-- The hypotheses of the theorems are met by `max x` with three trials, hence also their conclusions. -/
example : maxLineQP.WF ∧ maxLineQP.ShapeOK ∧ maxLineQP.objective.sense = .maximize ∧
    (∃ r, cobylaSolve idealCobyla 3 100 (fun _ _ => 1 / 2) maxLineQP = .ok r) ∧
    ∃ r, slsqpSolve idealSlsqp 3 100 (fun _ _ => 1 / 2) maxLineQP = .ok r := by
  have hp : maxLineQP.WF := by decide +kernel
  have hs : maxLineQP.ShapeOK := by decide +kernel
  have hv : ∀ v ∈ maxLineQP.vars, v.vartype = .continuous := by decide +kernel
  have hg : ∀ t < 3, ∃ x, initialGuess 100 (fun _ _ => 1 / 2) maxLineQP t = .ok x := by
    intro t ht
    match t, ht with
    | 0, _ => exact ⟨[0], by decide +kernel⟩
    | 1, _ => exact ⟨[5], by decide +kernel⟩
    | 2, _ => exact ⟨[5], by decide +kernel⟩
  have hf : maxLineQP.objective.sense.value * maxLineQP.objective.val (pt [10]) < INFINITY := by decide +kernel
  exact ⟨hp, hs, by decide +kernel,
    C74_cobyla_accepts idealCobyla_right.1 idealCobyla_right.2 (by decide) hp hs hv hg maxLine_optimal.2 hf,
    C74_slsqp_accepts idealSlsqp_right.1 idealSlsqp_right.2 (by decide) hp hs hv hg maxLine_optimal.1 hf⟩

end Verif
