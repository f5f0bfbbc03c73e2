import Verif.Multistart
import Verif.PropsResult
import Verif.PropsExpr
import Verif.BuildLemmas

/-!
# C31, C32, C56: multi-start, COBYLA and SLSQP
-/

namespace Verif

/-! ## C31 -/

/-- The local optimizer answered `x` in trial `t`. -/
def Answer (clip : ℚ) (u : Nat → Nat → ℚ) (minimize : Nat → List ℚ → Except Err (List ℚ)) (p : QP) (t : Nat)
    (x : List ℚ) : Prop := ∃ x0, initialGuess clip u p t = .ok x0 ∧ minimize t x0 = .ok x

theorem trialLoop_step {clip : ℚ} {u : Nat → Nat → ℚ} {minimize : Nat → List ℚ → Except Err (List ℚ)} {p : QP}
    {k t : Nat} {f : ℚ} {xs : Option (List ℚ)} {r : ℚ × Option (List ℚ)}
    (h : trialLoop clip u minimize p (k + 1) t f xs = .ok r) :
    ∃ x, Answer clip u minimize p t x ∧ p.objective.evaluate x = .ok (p.objective.val (pt x)) ∧
      (if p.objective.val (pt x) * p.objective.sense.value < f then
        trialLoop clip u minimize p k (t + 1) (p.objective.val (pt x)) (some x) = .ok r
      else trialLoop clip u minimize p k (t + 1) f xs = .ok r) := by
  unfold trialLoop at h
  cases h0 : initialGuess clip u p t with
  | error e => simp [h0] at h
  | ok x0 =>
    cases h1 : minimize t x0 with
    | error e => simp [h0, h1] at h
    | ok x =>
      cases h2 : p.objective.evaluate x with
      | error e => simp [h0, h1, h2] at h
      | ok o =>
        have ho := (Objective.evaluate_inv h2).2.2
        subst ho
        refine ⟨x, ⟨x0, h0, h1⟩, h2, ?_⟩
        simp only [h0, h1, h2] at h
        have hs : p.objective.val (pt x) * p.objective.sense.value * p.objective.sense.value =
            p.objective.val (pt x) := by
          cases p.objective.sense <;> simp [ObjSense.value]
        rw [hs] at h
        by_cases hlt : p.objective.val (pt x) * p.objective.sense.value < f
        · rw [if_pos hlt] at h ⊢; exact h
        · rw [if_neg hlt] at h ⊢; exact h

theorem trialLoop_min {clip : ℚ} {u : Nat → Nat → ℚ} {minimize : Nat → List ℚ → Except Err (List ℚ)} {p : QP}
    (hs : p.objective.sense = .minimize) {k t : Nat} {f : ℚ} {xs : Option (List ℚ)} {r : ℚ × Option (List ℚ)}
    (h : trialLoop clip u minimize p k t f xs = .ok r) :
    r.1 ≤ f ∧ (∀ t', t ≤ t' → t' < t + k → ∃ x, Answer clip u minimize p t' x ∧ r.1 ≤ p.objective.val (pt x)) ∧
      (r = (f, xs) ∨ ∃ t' x, t ≤ t' ∧ t' < t + k ∧ Answer clip u minimize p t' x ∧
        r = (p.objective.val (pt x), some x)) := by
  induction k generalizing t f xs with
  | zero =>
    simp only [trialLoop, Except.ok.injEq] at h
    subst h
    exact ⟨le_refl _, fun t' h1 h2 => by omega, Or.inl rfl⟩
  | succ k ih =>
    obtain ⟨x, hx, _, h⟩ := trialLoop_step h
    rw [hs] at h
    simp only [ObjSense.value, mul_one] at h
    by_cases hlt : p.objective.val (pt x) < f
    · rw [if_pos hlt] at h
      obtain ⟨a, b, c⟩ := ih h
      refine ⟨a.trans hlt.le, ?_, ?_⟩
      · intro t' h1 h2
        by_cases ht : t' = t
        · subst ht; exact ⟨x, hx, a⟩
        · exact b t' (by omega) (by omega)
      · rcases c with c | ⟨t', x', h1, h2, h3, h4⟩
        · exact Or.inr ⟨t, x, le_refl _, by omega, hx, c⟩
        · exact Or.inr ⟨t', x', by omega, by omega, h3, h4⟩
    · rw [if_neg hlt] at h
      obtain ⟨a, b, c⟩ := ih h
      refine ⟨a, ?_, ?_⟩
      · intro t' h1 h2
        by_cases ht : t' = t
        · subst ht; exact ⟨x, hx, a.trans (not_lt.mp hlt)⟩
        · exact b t' (by omega) (by omega)
      · rcases c with c | ⟨t', x', h1, h2, h3, h4⟩
        · exact Or.inl c
        · exact Or.inr ⟨t', x', by omega, by omega, h3, h4⟩

theorem Answer.unique {clip : ℚ} {u : Nat → Nat → ℚ} {minimize : Nat → List ℚ → Except Err (List ℚ)} {p : QP}
    {t : Nat} {x y : List ℚ} (h : Answer clip u minimize p t x) (h' : Answer clip u minimize p t y) : x = y := by
  obtain ⟨a, b, c⟩ := h
  obtain ⟨a', b', c'⟩ := h'
  rw [b] at b'; cases b'
  rw [c] at c'; cases c'; rfl

theorem multiStartSolve_inv {trials : Nat} {clip : ℚ} {u : Nat → Nat → ℚ}
    {minimize : Nat → List ℚ → Except Err (List ℚ)} {p : QP} {r : Result}
    (h : multiStartSolve trials clip u minimize p = .ok r) :
    ∃ f x, trialLoop clip u minimize p trials 0 INFINITY none = .ok (f, some x) ∧ r.x = some x ∧ r.fval = some f ∧
      r.vars = p.vars ∧ x.length = p.numVars ∧ (r.status = .success ∨ r.status = .infeasible) ∧
      (r.status = .success ↔ p.FeasTol (pt x)) := by
  unfold multiStartSolve at h
  cases h0 : trialLoop clip u minimize p trials 0 INFINITY none with
  | error e => simp [h0] at h
  | ok q =>
    obtain ⟨f, xs⟩ := q
    cases xs with
    | none => simp [h0] at h
    | some x =>
      cases h1 : feasibilityStatus p x with
      | error e => simp [h0, h1] at h
      | ok st =>
        obtain ⟨c, d, e⟩ := feasibilityStatus_inv h1
        have hl : x.length = p.vars.length := c
        simp only [h0, h1, Result.mk?] at h
        rw [if_neg (by simp [hl])] at h
        cases h
        exact ⟨f, x, rfl, rfl, rfl, rfl, c, d, e⟩

/-- **C31** (partial: minimization).  Full statement: for both senses the result is the best answer of all trials.
Missing: maximization with more than one trial, where it is false (`C31_violated`).  Here: whenever `multi_start_solve`
returns for a minimization problem, the point is the answer of some trial, `fval` is its objective value, no trial
has a smaller value, and the status is SUCCESS iff the point is feasible. -/
theorem C31_best_partial (trials : Nat) (clip : ℚ) (u : Nat → Nat → ℚ) (minimize : Nat → List ℚ → Except Err (List ℚ))
    (p : QP) (hs : p.objective.sense = .minimize) (r : Result)
    (h : multiStartSolve trials clip u minimize p = .ok r) :
    ∃ t x, t < trials ∧ Answer clip u minimize p t x ∧ r.x = some x ∧ r.fval = some (p.objective.val (pt x)) ∧
      (r.status = .success ↔ p.FeasTol (pt x)) ∧
      ∀ t' < trials, ∃ y, Answer clip u minimize p t' y ∧ p.objective.val (pt x) ≤ p.objective.val (pt y) := by
  obtain ⟨f, x, h0, h1, h2, _, _, _, h4⟩ := multiStartSolve_inv h
  obtain ⟨_, b, c⟩ := trialLoop_min hs h0
  rcases c with c | ⟨t, y, _, ht, hy, he⟩
  · simp at c
  · simp only [Prod.mk.injEq, Option.some.injEq] at he
    obtain ⟨rfl, rfl⟩ := he
    refine ⟨t, x, by omega, hy, h1, h2, h4, ?_⟩
    intro t' ht'
    exact b t' (Nat.zero_le _) (by omega)

/-- **C31** (partial: a single trial, both senses): the result is the answer of the trial, with its objective value. -/
theorem C31_single_partial (clip : ℚ) (u : Nat → Nat → ℚ) (minimize : Nat → List ℚ → Except Err (List ℚ))
    (p : QP) (r : Result) (h : multiStartSolve 1 clip u minimize p = .ok r) :
    ∃ x, Answer clip u minimize p 0 x ∧ r.x = some x ∧ r.fval = some (p.objective.val (pt x)) ∧
      (r.status = .success ↔ p.FeasTol (pt x)) := by
  obtain ⟨f, x, h0, h1, h2, _, _, _, h4⟩ := multiStartSolve_inv h
  obtain ⟨y, hy, _, h0⟩ := trialLoop_step h0
  split at h0
  · simp only [trialLoop, Except.ok.injEq, Prod.mk.injEq, Option.some.injEq] at h0
    obtain ⟨rfl, rfl⟩ := h0
    exact ⟨y, hy, h1, h2, h4⟩
  · simp [trialLoop] at h0

/-- What happens instead for maximization: once an answer with a non-negative value was accepted, a later answer replaces
it whenever its value is positive, better or not. -/
theorem trialLoop_last {clip : ℚ} {u : Nat → Nat → ℚ} {minimize : Nat → List ℚ → Except Err (List ℚ)} {p : QP}
    (hs : p.objective.sense = .maximize) {k t : Nat} {f : ℚ} {xs : Option (List ℚ)} {r : ℚ × Option (List ℚ)}
    (h : trialLoop clip u minimize p (k + 1) t f xs = .ok r) (hf : 0 ≤ f)
    (hpos : ∀ t' x, t ≤ t' → Answer clip u minimize p t' x → 0 < p.objective.val (pt x)) :
    ∃ x, Answer clip u minimize p (t + k) x ∧ r = (p.objective.val (pt x), some x) := by
  induction k generalizing t f xs with
  | zero =>
    obtain ⟨x, hx, _, h⟩ := trialLoop_step h
    have h1 := hpos t x (le_refl _) hx
    rw [if_pos (by rw [hs]; simp only [ObjSense.value]; linarith)] at h
    simp only [trialLoop, Except.ok.injEq] at h
    exact ⟨x, hx, h.symm⟩
  | succ k ih =>
    obtain ⟨x, hx, _, h⟩ := trialLoop_step h
    have h1 := hpos t x (le_refl _) hx
    rw [if_pos (by rw [hs]; simp only [ObjSense.value]; linarith)] at h
    have := ih h h1.le (fun t' y ht' hy => hpos t' y (by omega) hy)
    rwa [show t + 1 + k = t + (k + 1) by omega] at this

/-- **C31 fails in general for maximization**: when all answers have positive objective values, the result is the
answer of the last trial, whatever the other trials found. -/
theorem C31_maximize_last (k : Nat) (clip : ℚ) (u : Nat → Nat → ℚ) (minimize : Nat → List ℚ → Except Err (List ℚ))
    (p : QP) (hs : p.objective.sense = .maximize) (r : Result)
    (hpos : ∀ t x, Answer clip u minimize p t x → 0 < p.objective.val (pt x))
    (h : multiStartSolve (k + 1) clip u minimize p = .ok r) :
    ∃ x, Answer clip u minimize p k x ∧ r.x = some x ∧ r.fval = some (p.objective.val (pt x)) := by
  obtain ⟨f, x, h0, h1, h2, _⟩ := multiStartSolve_inv h
  obtain ⟨y, hy, he⟩ := trialLoop_last hs h0 (by norm_num [INFINITY]) (fun t x _ hx => hpos t x hx)
  simp only [Prod.mk.injEq, Option.some.injEq] at he
  obtain ⟨rfl, rfl⟩ := he
  exact ⟨x, by simpa using hy, h1, h2⟩

/-- The loop for maximization: an answer replaces the stored one iff the sum of the two values is positive. -/
theorem trialLoop_max {clip : ℚ} {u : Nat → Nat → ℚ} {minimize : Nat → List ℚ → Except Err (List ℚ)} {p : QP}
    (hs : p.objective.sense = .maximize) {k t : Nat} {f : ℚ} {xs : Option (List ℚ)} {r : ℚ × Option (List ℚ)}
    (h : trialLoop clip u minimize p k t f xs = .ok r) :
    (r = (f, xs) ∧ ∀ t', t ≤ t' → t' < t + k → ∃ y, Answer clip u minimize p t' y ∧ f + p.objective.val (pt y) ≤ 0) ∨
      ∃ t' x, t ≤ t' ∧ t' < t + k ∧ Answer clip u minimize p t' x ∧ r = (p.objective.val (pt x), some x) ∧
        ∀ t'', t' < t'' → t'' < t + k → ∃ y, Answer clip u minimize p t'' y ∧
          p.objective.val (pt x) + p.objective.val (pt y) ≤ 0 := by
  induction k generalizing t f xs with
  | zero =>
    simp only [trialLoop, Except.ok.injEq] at h
    exact .inl ⟨h.symm, fun t' h1 h2 => by omega⟩
  | succ k ih =>
    obtain ⟨x, hx, _, h⟩ := trialLoop_step h
    rw [hs] at h
    simp only [ObjSense.value, mul_neg, mul_one] at h
    by_cases hlt : -p.objective.val (pt x) < f
    · rw [if_pos hlt] at h
      rcases ih h with ⟨rfl, hl⟩ | ⟨t', y, h1, h2, h3, h4, h5⟩
      · exact .inr ⟨t, x, le_refl _, by omega, hx, rfl, fun t'' h1 h2 => hl t'' (by omega) (by omega)⟩
      · exact .inr ⟨t', y, by omega, by omega, h3, h4, fun t'' h6 h7 => h5 t'' h6 (by omega)⟩
    · rw [if_neg hlt] at h
      rcases ih h with ⟨rfl, hl⟩ | ⟨t', y, h1, h2, h3, h4, h5⟩
      · refine .inl ⟨rfl, fun t' h1 h2 => ?_⟩
        by_cases ht : t' = t
        · subst ht; exact ⟨x, hx, by linarith [not_lt.mp hlt]⟩
        · exact hl t' (by omega) (by omega)
      · exact .inr ⟨t', y, by omega, by omega, h3, h4, fun t'' h6 h7 => h5 t'' h6 (by omega)⟩

/-- **C31** (partial: maximization).  What holds for all answers: the result is the answer of some trial, with its
objective value, the status is SUCCESS iff the point is feasible, and the value of every later trial is at most *minus* the
returned value.  Missing: a comparison with the values of the other trials, which fails (`C31_violated`). -/
theorem C31_maximize_partial (trials : Nat) (clip : ℚ) (u : Nat → Nat → ℚ)
    (minimize : Nat → List ℚ → Except Err (List ℚ)) (p : QP) (hs : p.objective.sense = .maximize) (r : Result)
    (h : multiStartSolve trials clip u minimize p = .ok r) :
    ∃ t x, t < trials ∧ Answer clip u minimize p t x ∧ r.x = some x ∧ r.fval = some (p.objective.val (pt x)) ∧
      (r.status = .success ↔ p.FeasTol (pt x)) ∧
      ∀ t', t < t' → t' < trials → ∃ y, Answer clip u minimize p t' y ∧ p.objective.val (pt y) ≤ -p.objective.val (pt x) := by
  obtain ⟨f, x, h0, h1, h2, _, _, _, h4⟩ := multiStartSolve_inv h
  rcases trialLoop_max hs h0 with ⟨he, _⟩ | ⟨t, y, _, ht, hy, he, hl⟩
  · simp at he
  · simp only [Prod.mk.injEq, Option.some.injEq] at he
    obtain ⟨rfl, rfl⟩ := he
    refine ⟨t, x, by omega, hy, h1, h2, h4, fun t' h5 h6 => ?_⟩
    obtain ⟨z, hz, hle⟩ := hl t' h5 (by omega)
    exact ⟨z, hz, by linarith⟩

/-- **C31 fails in general for maximization** also when no answer has a positive objective value: the result is the answer
of the first trial, whatever the other trials found. -/
theorem C31_maximize_first (trials : Nat) (clip : ℚ) (u : Nat → Nat → ℚ)
    (minimize : Nat → List ℚ → Except Err (List ℚ)) (p : QP) (hs : p.objective.sense = .maximize) (r : Result)
    (hneg : ∀ t x, Answer clip u minimize p t x → -INFINITY < p.objective.val (pt x) ∧ p.objective.val (pt x) ≤ 0)
    (h : multiStartSolve trials clip u minimize p = .ok r) :
    ∃ x, Answer clip u minimize p 0 x ∧ r.x = some x ∧ r.fval = some (p.objective.val (pt x)) := by
  obtain ⟨f, x, h0, h1, h2, _⟩ := multiStartSolve_inv h
  cases trials with
  | zero => simp [trialLoop] at h0
  | succ k =>
    obtain ⟨y, hy, _, h0⟩ := trialLoop_step h0
    rw [hs] at h0
    simp only [ObjSense.value, mul_neg, mul_one] at h0
    rw [if_pos (by linarith [(hneg 0 y hy).1])] at h0
    have hstay : ∀ k t f xs, f ≤ 0 → ∀ r', trialLoop clip u minimize p k t f xs = .ok r' → r' = (f, xs) := by
      intro k
      induction k with
      | zero => intro t f xs _ r' hr; simp only [trialLoop, Except.ok.injEq] at hr; exact hr.symm
      | succ k ih =>
        intro t f xs hf r' hr
        obtain ⟨z, hz, _, hr⟩ := trialLoop_step hr
        rw [hs] at hr
        simp only [ObjSense.value, mul_neg, mul_one] at hr
        rw [if_neg (by linarith [(hneg t z hz).2])] at hr
        exact ih _ _ _ hf _ hr
    have he := hstay _ _ _ _ (hneg 0 y hy).2 _ h0
    simp only [Prod.mk.injEq, Option.some.injEq] at he
    obtain ⟨rfl, rfl⟩ := he
    exact ⟨x, hy, h1, h2⟩

/-- `maximize x` with `0 ≤ x ≤ 10`. -/
def maxLineQP : QP :=
  (runCalls (QP.empty "") [.addVar 0 10 .continuous (some "x"),
    .objective .maximize 0 (.dict [(.name "x", 1)]) (.dict [])]).2

/-- Answers 5, 3. -/
def decreasingAnswers : Nat → List ℚ → Except Err (List ℚ) := fun t _ => .ok [5 - 2 * t]

/-- The result for these answers. -/
def maxLineResult : Result := ⟨some [3], some 3, maxLineQP.vars, some [("x", 3)], .success, [], []⟩

/-- **C31 fails** for maximization: with the answers 5 and 3 of two trials the result is 3. -/
theorem C31_violated : ∃ (p : QP) (minimize : Nat → List ℚ → Except Err (List ℚ)) (r : Result) (y : List ℚ),
    p.WF ∧ p.ShapeOK ∧ p.objective.sense = .maximize ∧
    multiStartSolve 2 100 (fun _ _ => 1 / 2) minimize p = .ok r ∧ r.fval = some 3 ∧
    Answer 100 (fun _ _ => 1 / 2) minimize p 0 y ∧ p.objective.val (pt y) = 5 :=
  ⟨maxLineQP, decreasingAnswers, maxLineResult, [5], by decide +kernel, by decide +kernel, by decide +kernel,
    by decide +kernel, by decide +kernel, ⟨[0], by decide +kernel, by decide +kernel⟩, by decide +kernel⟩

/-- `maximize x` with `-10 ≤ x ≤ 0`. -/
def negLineQP : QP :=
  (runCalls (QP.empty "") [.addVar (-10) 0 .continuous (some "x"),
    .objective .maximize 0 (.dict [(.name "x", 1)]) (.dict [])]).2

/-- The answers -5 and -3 (better): the first one is returned. -/
example : negLineQP.objective.sense = .maximize ∧
    multiStartSolve 2 100 (fun _ _ => 1 / 2) (fun t _ => .ok [2 * t - 5]) negLineQP =
      .ok ⟨some [-5], some (-5), negLineQP.vars, some [("x", -5)], .success, [], []⟩ := by decide +kernel

/-- `minimize x² - 2 x` with `-1 ≤ x`, `x ≤ 10` and a constraint. -/
def minParabolaQP : QP :=
  (runCalls (QP.empty "") [.addVar (-1) 10 .continuous (some "x"), .addVar (-INFINITY) INFINITY .continuous (some "y"),
    .linear (.dict [(.name "x", 1), (.name "y", 1)]) (.str "<=") 7 (some "c"),
    .quadratic (.dict [(.name "x", 1)]) (.dict [((.name "y", .name "y"), 1)]) (.str ">=") 1 (some "q"),
    .linear (.dict [(.name "x", 1), (.name "y", -1)]) (.str "==") 0 (some "d"),
    .objective .minimize 0 (.dict [(.name "x", -2)]) (.dict [((.name "x", .name "x"), 1)])]).2

/-- Its result for the answers (3, 3), (2, 2), (1, 1). -/
def minParabolaResult : Result :=
  ⟨some [1, 1], some (-1), minParabolaQP.vars, some [("x", 1), ("y", 1)], .success, [], []⟩

example : multiStartSolve 3 100 (fun _ _ => 1 / 3) (fun t _ => .ok [3 - t, 3 - t]) minParabolaQP =
    .ok minParabolaResult ∧ minParabolaQP.objective.sense = .minimize := by decide +kernel

/-- **C31** (acceptance): when all guesses can be made, the local optimizer answers every time with a point of the right
length, and the first answer has a finite value, `multi_start_solve` returns a result. -/
theorem C31_accepts (trials : Nat) (clip : ℚ) (u : Nat → Nat → ℚ) (minimize : Nat → List ℚ → Except Err (List ℚ))
    (p : QP) (hs : p.ShapeOK) (ht : 0 < trials)
    (ha : ∀ t < trials, ∃ x, Answer clip u minimize p t x ∧ x.length = p.numVars)
    (hfin : ∀ x, Answer clip u minimize p 0 x → p.objective.sense.value * p.objective.val (pt x) < INFINITY) :
    ∃ r, multiStartSolve trials clip u minimize p = .ok r := by
  have step : ∀ k t f xs, t + k ≤ trials → ∃ f' xs', trialLoop clip u minimize p k t f xs = .ok (f', xs') ∧
      ((∀ y ∈ xs, y.length = p.numVars) → ∀ y ∈ xs', y.length = p.numVars) ∧ (xs.isSome → xs'.isSome) := by
    intro k
    induction k with
    | zero => intro t f xs _; exact ⟨f, xs, rfl, fun h => h, fun h => h⟩
    | succ k ih =>
      intro t f xs hk
      obtain ⟨x, ⟨x0, h1, h2⟩, hx⟩ := ha t (by omega)
      simp only [trialLoop, h1, h2, objective_ok hs hx]
      split
      · obtain ⟨f', xs', h3, h4, h5⟩ := ih (t + 1) (p.objective.val (pt x) * p.objective.sense.value *
          p.objective.sense.value) (some x) (by omega)
        exact ⟨f', xs', h3, fun _ => h4 (by simp [hx]), fun _ => h5 (by simp)⟩
      · obtain ⟨f', xs', h3, h4, h5⟩ := ih (t + 1) f xs (by omega)
        exact ⟨f', xs', h3, h4, h5⟩
  obtain ⟨k, rfl⟩ : ∃ k, trials = k + 1 := ⟨trials - 1, by omega⟩
  obtain ⟨x, hax, hx⟩ := ha 0 ht
  have hf := hfin x hax
  obtain ⟨x0, h1, h2⟩ := hax
  obtain ⟨f', xs', h3, h4, h5⟩ := step k 1 (p.objective.val (pt x) * p.objective.sense.value *
    p.objective.sense.value) (some x) (by omega)
  have h6 := h5 (by simp)
  obtain ⟨y, rfl⟩ := Option.isSome_iff_exists.mp h6
  have hy : y.length = p.numVars := h4 (by simp [hx]) y (by simp)
  obtain ⟨st, hst⟩ := feasibilityStatus_ok hs hy
  have hloop : trialLoop clip u minimize p (k + 1) 0 INFINITY none = .ok (f', some y) := by
    simp only [trialLoop, h1, h2, objective_ok hs hx]
    rw [if_pos (by rw [mul_comm]; exact hf)]
    exact h3
  have hl : y.length = p.vars.length := hy
  refine ⟨⟨some y, some f', p.vars, some (Assoc.ofEntries ((p.vars.map Variable.name).zip y)), st, [], []⟩, ?_⟩
  simp only [multiStartSolve, hloop, hst, Result.mk?, hl, ne_eq, not_true, if_false]

example : minParabolaQP.ShapeOK ∧ initialGuess 100 (fun _ _ => 1 / 3) minParabolaQP 2 = .ok [8 / 3, -100 / 3] := by
  decide +kernel

/-! ## C56 -/

/-- **C56** (partial).  Full statement: for every program with lower bounds at most the upper bounds and every clipping
parameter, the initial guesses after the first one exist and lie within the bounds.  Missing: variables without a finite
bound on one side whose other bound lies beyond the clipping value, where scipy rejects the negative range
(`C56_violated`). -/
theorem C56_guess_partial (clip : ℚ) (u : Nat → Nat → ℚ) (hu : ∀ t i, 0 ≤ u t i ∧ u t i ≤ 1) (p : QP)
    (hb : ∀ v ∈ p.vars, v.lb ≤ v.ub) (hc : 0 ≤ clip) (hl : ∀ v ∈ p.vars, INFINITY ≤ v.ub → v.lb ≤ clip ∧ clip ≤ v.ub)
    (hr : ∀ v ∈ p.vars, v.lb ≤ -INFINITY → -clip ≤ v.ub ∧ v.lb ≤ -clip) (t : Nat) (ht : 0 < t) :
    ∃ x, initialGuess clip u p t = .ok x ∧ x.length = p.numVars ∧ p.InBounds (pt x) := by
  have key : ∀ (vs : List Variable) (i : Nat), (∀ v ∈ vs, v ∈ p.vars) →
      ∃ x, guessLoop clip (u t) i vs = .ok x ∧ x.length = vs.length ∧
        ∀ (j : Nat) (v : Variable), vs[j]? = some v → v.lb ≤ pt x j ∧ pt x j ≤ v.ub := by
    intro vs
    induction vs with
    | nil => intro i _; exact ⟨[], rfl, rfl, by simp⟩
    | cons v vs ih =>
      intro i hm
      obtain ⟨x, h1, h2, h3⟩ := ih (i + 1) (fun w hw => hm w (by simp [hw]))
      have hv := hm v (by simp)
      have hbv := hb v hv
      have hlv := hl v hv
      have hrv := hr v hv
      obtain ⟨u0, u1⟩ := hu t i
      generalize hL : (if v.lb > -INFINITY then v.lb else -clip) = L
      generalize hU : (if v.ub < INFINITY then v.ub else clip) = U
      have hLU : 0 ≤ U - L ∧ v.lb ≤ L ∧ U ≤ v.ub := by
        subst hL hU
        by_cases h5 : v.lb > -INFINITY <;> by_cases h6 : v.ub < INFINITY
        · rw [if_pos h5, if_pos h6]; exact ⟨by linarith, le_refl _, le_refl _⟩
        · rw [if_pos h5, if_neg h6]
          obtain ⟨h7, h8⟩ := hlv (not_lt.mp h6)
          exact ⟨by linarith, le_refl _, h8⟩
        · rw [if_neg h5, if_pos h6]
          obtain ⟨h7, h8⟩ := hrv (not_lt.mp h5)
          exact ⟨by linarith, h8, le_refl _⟩
        · rw [if_neg h5, if_neg h6]
          exact ⟨by linarith, (hrv (not_lt.mp h5)).2, (hlv (not_lt.mp h6)).2⟩
      obtain ⟨h7, h8, h9⟩ := hLU
      refine ⟨(L + (U - L) * u t i) :: x, ?_, by simp [h2], ?_⟩
      · simp only [guessLoop, hL, hU, if_neg (not_lt.mpr h7), h1]
      · intro j w hw
        cases j with
        | zero =>
          simp only [List.getElem?_cons_zero, Option.some.injEq] at hw
          subst hw
          simp only [pt, List.getD_cons_zero]
          have a := mul_nonneg h7 u0
          have b := mul_le_mul_of_nonneg_left u1 h7
          constructor <;> linarith
        | succ j =>
          simp only [List.getElem?_cons_succ] at hw
          simpa [pt] using h3 j w hw
  obtain ⟨x, h1, h2, h3⟩ := key p.vars 0 (fun v hv => hv)
  exact ⟨x, by simp [initialGuess, ht, h1], h2, h3⟩

/-- **C56, when guesses exist**: an initial guess after the first one can be drawn iff no variable has an empty range after
infinite bounds are replaced by the clipping value; otherwise scipy raises a ValueError. -/
theorem C56_exists_iff (clip : ℚ) (u : Nat → Nat → ℚ) (p : QP) (t : Nat) (ht : 0 < t) :
    ((∃ x, initialGuess clip u p t = .ok x) ↔
      ∀ v ∈ p.vars, (if v.lb ≤ -10 ^ 20 then -clip else v.lb) ≤ (if 10 ^ 20 ≤ v.ub then clip else v.ub)) ∧
    ((∃ x, initialGuess clip u p t = .ok x) ∨ initialGuess clip u p t = .error .valueError) := by
  rw [show (10 : ℚ) ^ 20 = INFINITY from rfl]
  have key : ∀ (vs : List Variable) (i : Nat),
      ((∃ x, guessLoop clip (u t) i vs = .ok x) ↔
        ∀ v ∈ vs, (if v.lb ≤ -INFINITY then -clip else v.lb) ≤ (if INFINITY ≤ v.ub then clip else v.ub)) ∧
      ((∃ x, guessLoop clip (u t) i vs = .ok x) ∨ guessLoop clip (u t) i vs = .error .valueError) := by
    intro vs
    induction vs with
    | nil => intro i; simp [guessLoop]
    | cons v vs ih =>
      intro i
      obtain ⟨h1, h2⟩ := ih (i + 1)
      have hL : (if v.lb > -INFINITY then v.lb else -clip) = if v.lb ≤ -INFINITY then -clip else v.lb := by
        by_cases h : v.lb ≤ -INFINITY
        · rw [if_pos h, if_neg (not_lt.mpr h)]
        · rw [if_neg h, if_pos (not_le.mp h)]
      have hU : (if v.ub < INFINITY then v.ub else clip) = if INFINITY ≤ v.ub then clip else v.ub := by
        by_cases h : INFINITY ≤ v.ub
        · rw [if_pos h, if_neg (not_lt.mpr h)]
        · rw [if_neg h, if_pos (not_le.mp h)]
      rw [List.forall_mem_cons, ← h1]
      simp only [guessLoop, hL, hU]
      generalize (if v.lb ≤ -INFINITY then -clip else v.lb) = L
      generalize (if INFINITY ≤ v.ub then clip else v.ub) = U
      by_cases hLU : U - L < 0
      · rw [if_pos hLU]
        exact ⟨⟨fun ⟨x, hx⟩ => by simp at hx, fun hh => by linarith [hh.1]⟩, .inr rfl⟩
      · rw [if_neg hLU]
        rcases h2 with ⟨x, hx⟩ | hx
        · rw [hx]
          exact ⟨⟨fun _ => ⟨by linarith [not_lt.mp hLU], x, rfl⟩, fun _ => ⟨_, rfl⟩⟩, .inl ⟨_, rfl⟩⟩
        · rw [hx]
          simp
  simpa only [initialGuess, if_pos ht] using key p.vars 0

/-- **C56, first trial**: the first guess is the zero vector; it lies within the bounds only if zero does for every
variable, so the property fails for every program with a variable whose bounds exclude zero. -/
theorem C56_first (clip : ℚ) (u : Nat → Nat → ℚ) (p : QP) :
    ∃ x, initialGuess clip u p 0 = .ok x ∧ x.length = p.numVars ∧ (∀ i, pt x i = 0) ∧
      (p.InBounds (pt x) ↔ ∀ v ∈ p.vars, v.lb ≤ 0 ∧ 0 ≤ v.ub) := by
  have hz : ∀ i, pt (List.replicate p.numVars (0 : ℚ)) i = 0 := by
    intro i
    unfold pt
    rw [List.getD_eq_getElem?_getD, List.getElem?_replicate]
    split <;> rfl
  refine ⟨_, by simp [initialGuess], List.length_replicate, hz, ?_⟩
  constructor
  · intro h v hv
    obtain ⟨i, hi⟩ := List.mem_iff_getElem?.mp hv
    have := h i v hi
    rwa [hz] at this
  · intro h i v hi
    rw [hz]
    exact h v (List.mem_of_getElem? hi)

/-- `x ≥ 200` without upper bound. -/
def farQP : QP :=
  (runCalls (QP.empty "") [.addVar 200 INFINITY .continuous (some "x"),
    .objective .minimize 0 (.dict [(.name "x", 1)]) (.dict [])]).2

/-- **C56 fails**: a variable with lower bound 200 and no upper bound makes every multi-start run with the default
clipping value 100 and more than one trial raise a ValueError, whatever the local optimizer answers. -/
theorem C56_violated : ∃ p : QP, p.WF ∧ p.ShapeOK ∧ (∀ v ∈ p.vars, v.lb ≤ v.ub) ∧ p.FeasTol (pt [200]) ∧
    ∀ (u : Nat → Nat → ℚ) (t : Nat), 0 < t → initialGuess 100 u p t = .error .valueError := by
  refine ⟨farQP, by decide +kernel, by decide +kernel, by decide +kernel, ?_, ?_⟩
  · have h := (isFeasible_inv (p := farQP) (x := [200]) (b := true) (by decide +kernel)).2
    exact h.mp rfl
  · intro u t ht
    have hv : farQP.vars = [⟨"x", 200, INFINITY, .continuous⟩] := by decide +kernel
    simp only [initialGuess, if_pos ht, hv, guessLoop]
    norm_num [INFINITY]

example : (∀ v ∈ minParabolaQP.vars, v.lb ≤ v.ub) ∧ (0 : ℚ) ≤ 100 ∧
    (∀ v ∈ minParabolaQP.vars, INFINITY ≤ v.ub → v.lb ≤ 100 ∧ 100 ≤ v.ub) ∧
    (∀ v ∈ minParabolaQP.vars, v.lb ≤ -INFINITY → -100 ≤ v.ub ∧ v.lb ≤ -100) ∧
    initialGuess 100 (fun _ _ => 1 / 4) minParabolaQP 1 = .ok [7 / 4, -50] := by decide +kernel

/-! ## C32 -/

/-- The function can be evaluated at the point and is non-negative there. -/
def Fn.Nonneg (f : Fn) (x : List ℚ) : Prop := ∃ v, f x = .ok v ∧ 0 ≤ v

/-- The function can be evaluated at the point and is zero there. -/
def Fn.Zero (f : Fn) (x : List ℚ) : Prop := f x = .ok 0

/-- All finite bounds hold; a bound is infinite when it is at least `1e20` in absolute value, on its side. -/
def QP.InFiniteBounds (p : QP) (x : Nat → ℚ) : Prop :=
  ∀ i v, p.vars[i]? = some v → (-10 ^ 20 < v.lb → v.lb ≤ x i) ∧ (v.ub < 10 ^ 20 → x i ≤ v.ub)

theorem coord_ok {x : List ℚ} {j : Nat} (h : j < x.length) : coord x j = .ok (pt x j) := by
  simp [coord, pt, List.getD_eq_getElem?_getD, h]

theorem boundFns_nonneg {x : List ℚ} (vs : List Variable) (i : Nat) (h : i + vs.length ≤ x.length) :
    (∀ f ∈ boundFns i vs, Fn.Nonneg f x) ↔
      ∀ (j : Nat) (v : Variable), vs[j]? = some v →
        (-INFINITY < v.lb → v.lb ≤ pt x (i + j)) ∧ (v.ub < INFINITY → pt x (i + j) ≤ v.ub) := by
  induction vs generalizing i with
  | nil => simp [boundFns]
  | cons v vs ih =>
    have hi : i < x.length := by simp at h; omega
    have hl : Fn.Nonneg (lbConstraint v.lb i) x ↔ v.lb ≤ pt x i := by
      simp [Fn.Nonneg, lbConstraint, coord_ok hi]
    have hu : Fn.Nonneg (ubConstraint v.ub i) x ↔ pt x i ≤ v.ub := by
      simp [Fn.Nonneg, ubConstraint, coord_ok hi]
    have h1 : (∀ f ∈ (if v.lb > -INFINITY then [lbConstraint v.lb i] else []), Fn.Nonneg f x) ↔
        (-INFINITY < v.lb → v.lb ≤ pt x i) := by
      by_cases hv : v.lb > -INFINITY
      · rw [if_pos hv]; simp [hl, hv]
      · rw [if_neg hv]; simp [hv]
    have h2 : (∀ f ∈ (if v.ub < INFINITY then [ubConstraint v.ub i] else []), Fn.Nonneg f x) ↔
        (v.ub < INFINITY → pt x i ≤ v.ub) := by
      by_cases hv : v.ub < INFINITY
      · rw [if_pos hv]; simp [hu, hv]
      · rw [if_neg hv]; simp [hv]
    have h3 := ih (i + 1) (by simp at h; omega)
    simp only [boundFns, List.forall_mem_append]
    rw [h1, h2, h3]
    constructor
    · rintro ⟨⟨a, b⟩, c⟩ j w hw
      cases j with
      | zero => simp at hw; subst hw; exact ⟨a, b⟩
      | succ j => simpa [Nat.add_assoc, Nat.add_comm 1] using c j w (by simpa using hw)
    · intro c
      refine ⟨by simpa using c 0 v (by simp), ?_⟩
      intro j w hw
      simpa [Nat.add_assoc, Nat.add_comm 1] using c (j + 1) w (by simpa using hw)

theorem rhsMinus_nonneg {c : Cst} {x : List ℚ} (h : c.HasShape x.length) :
    Fn.Nonneg (rhsMinus c) x ↔ c.val (pt x) ≤ c.rhs := by
  simp [Fn.Nonneg, rhsMinus, Cst.evaluate_ok h rfl]

theorem minusRhs_nonneg {c : Cst} {x : List ℚ} (h : c.HasShape x.length) :
    Fn.Nonneg (minusRhs c) x ↔ c.rhs ≤ c.val (pt x) := by
  simp [Fn.Nonneg, minusRhs, Cst.evaluate_ok h rfl]

theorem rhsMinus_zero {c : Cst} {x : List ℚ} (h : c.HasShape x.length) :
    Fn.Zero (rhsMinus c) x ↔ c.val (pt x) = c.rhs := by
  simp only [Fn.Zero, rhsMinus, Cst.evaluate_ok h rfl, Except.ok.injEq, sub_eq_zero]
  exact eq_comm

theorem cstFns_nonneg {x : List ℚ} (cs : List Cst) (h : ∀ c ∈ cs, c.HasShape x.length) :
    (∀ f ∈ cstFns cs, Fn.Nonneg f x) ↔ ∀ c ∈ cs, c.sense.rel (c.val (pt x)) c.rhs := by
  induction cs with
  | nil => simp [cstFns]
  | cons c cs ih =>
    have hc := h c (by simp)
    have h3 := ih fun d hd => h d (by simp [hd])
    simp only [cstFns, List.forall_mem_append, List.forall_mem_cons, h3]
    refine and_congr ?_ Iff.rfl
    cases c.sense with
    | le => simp [rhsMinus_nonneg hc, Sense.rel]
    | ge => simp [minusRhs_nonneg hc, Sense.rel]
    | eq => simp [rhsMinus_nonneg hc, minusRhs_nonneg hc, Sense.rel, le_antisymm_iff]

theorem slsqp_fns {x : List ℚ} (cs : List Cst) (h : ∀ c ∈ cs, c.HasShape x.length) :
    ((∀ f ∈ slsqpEq cs, Fn.Zero f x) ∧ ∀ f ∈ slsqpIneq cs, Fn.Nonneg f x) ↔
      ∀ c ∈ cs, c.sense.rel (c.val (pt x)) c.rhs := by
  induction cs with
  | nil => simp [slsqpEq, slsqpIneq]
  | cons c cs ih =>
    have hc := h c (by simp)
    have h3 := ih fun d hd => h d (by simp [hd])
    rw [List.forall_mem_cons, ← h3]
    simp only [slsqpEq, slsqpIneq]
    cases c.sense with
    | le => simp only [List.forall_mem_cons, rhsMinus_nonneg hc, Sense.rel]; tauto
    | ge => simp only [List.forall_mem_cons, minusRhs_nonneg hc, Sense.rel]; tauto
    | eq => simp only [List.forall_mem_cons, rhsMinus_zero hc, Sense.rel]; tauto

/-- **C32** (COBYLA): at every point of the right length, all functions passed to the solver are non-negative iff the
point satisfies all finite bounds and all constraints. -/
theorem C32_cobyla (p : QP) (hs : p.ShapeOK) (x : List ℚ) (hx : x.length = p.numVars) :
    (∀ f ∈ cobylaConstraints p, Fn.Nonneg f x) ↔ p.InFiniteBounds (pt x) ∧ p.Sat (pt x) := by
  have h : ∀ c ∈ p.allCsts, c.HasShape x.length := by rw [hx]; exact hs.1
  unfold cobylaConstraints QP.InFiniteBounds QP.Sat
  rw [show (10 : ℚ) ^ 20 = INFINITY from rfl]
  rw [List.forall_mem_append, boundFns_nonneg p.vars 0 (by simp [hx, QP.numVars]), show p.csts = p.allCsts from rfl,
    cstFns_nonneg p.allCsts h]
  simp

/-- **C32** (SLSQP): bounds, equality functions and inequality functions passed to the solver hold iff the point
satisfies all bounds and all constraints. -/
theorem C32_slsqp (p : QP) (hs : p.ShapeOK) (x : List ℚ) (hx : x.length = p.numVars) :
    ((slsqpBounds p).length = x.length ∧ (∀ i b, (slsqpBounds p)[i]? = some b → b.1 ≤ pt x i ∧ pt x i ≤ b.2) ∧
      (∀ f ∈ slsqpEq p.csts, Fn.Zero f x) ∧ ∀ f ∈ slsqpIneq p.csts, Fn.Nonneg f x) ↔
    p.InBounds (pt x) ∧ p.Sat (pt x) := by
  have h : ∀ c ∈ p.allCsts, c.HasShape x.length := by rw [hx]; exact hs.1
  rw [show p.csts = p.allCsts from rfl, slsqp_fns p.allCsts h]
  unfold QP.InBounds QP.Sat slsqpBounds
  constructor
  · rintro ⟨_, a, b⟩
    exact ⟨fun i v hv => by simpa using a i (v.lb, v.ub) (by simp [hv]), b⟩
  · rintro ⟨a, b⟩
    refine ⟨by simp [hx, QP.numVars], fun i q hq => ?_, b⟩
    simp only [List.getElem?_map, Option.map_eq_some_iff] at hq
    obtain ⟨v, hv, rfl⟩ := hq
    exact a i v hv

/-- **C32** (objective): the function minimised by the solvers is the objective, negated for maximization. -/
theorem C32_objective (p : QP) (hs : p.ShapeOK) (x : List ℚ) (hx : x.length = p.numVars) :
    solverObjective p x = .ok (if p.objective.sense = .maximize then -p.objective.val (pt x)
      else p.objective.val (pt x)) := by
  simp only [solverObjective, objective_ok hs hx]
  cases p.objective.sense <;> simp [ObjSense.value]

theorem dot_map_mul (a : ℚ) (g h : List ℚ) : dot (g.map fun v => a * v) h = a * dot g h := by
  unfold dot
  induction g generalizing h with
  | nil => simp
  | cons v g ih =>
    cases h with
    | nil => simp
    | cons w h =>
      have := ih h
      simp only [List.map_cons, List.zipWith_cons_cons, List.sum_cons] at this ⊢
      rw [this]; ring

/-- **C32** (gradient): the gradient passed to SLSQP is the derivative of the function passed: for all points and
directions the difference of the values minus the derivative is a quadratic form in the direction alone. -/
theorem C32_gradient (p : QP) (hs : p.ShapeOK) (hlw : p.objective.linear.WF) (hqw : p.objective.quadratic.WF)
    (x h : List ℚ) (hx : x.length = p.numVars) (hh : h.length = p.numVars) :
    ∃ fx fxh g, solverObjective p x = .ok fx ∧ solverObjective p (vadd x h) = .ok fxh ∧ solverGradient p x = .ok g ∧
      g.length = x.length ∧ fxh - fx - dot g h = p.objective.sense.value * p.objective.quadratic.val (pt h) := by
  obtain ⟨fx, fxh, qh, g, h1, h2, h3, h4, h5, h6⟩ := C02_objective p.objective hlw hqw
    (hs.2.1.trans hs.2.2.symm) x h (hx.trans hs.2.1.symm) (hh.trans hs.2.1.symm)
  refine ⟨p.objective.sense.value * fx, p.objective.sense.value * fxh, g.map fun v => p.objective.sense.value * v,
    by simp only [solverObjective, h1], by simp only [solverObjective, h2], by simp only [solverGradient, h4],
    by simp [h5], ?_⟩
  rw [dot_map_mul, ← (QuadExpr.evaluate_inv h3).2, ← h6]
  ring

/-- **C32** (consequence): if every answer of the solver satisfies the constraint functions, and the infinite bounds
are respected, the result of `CobylaOptimizer.solve` has status SUCCESS. -/
theorem C32_status (cobyla : Nat → Fn → List ℚ → List Fn → Except Err (List ℚ)) (trials : Nat) (clip : ℚ)
    (u : Nat → Nat → ℚ) (p : QP) (hs : p.ShapeOK) (r : Result) (h : cobylaSolve cobyla trials clip u p = .ok r)
    (x : List ℚ) (hrx : r.x = some x) (hx : ∀ f ∈ cobylaConstraints p, Fn.Nonneg f x)
    (hinf : ∀ i, |pt x i| ≤ INFINITY) :
    r.status = .success ∧ ∀ v ∈ p.vars, v.vartype = .continuous := by
  unfold cobylaSolve at h
  by_cases hc : onlyContinuous p
  · rw [if_pos hc] at h
    obtain ⟨f, y, _, h1, _, _, hl, _, h2⟩ := multiStartSolve_inv h
    rw [hrx] at h1; cases h1
    have hx' := (C32_cobyla p hs x hl).mp hx
    constructor
    · refine h2.mpr ⟨?_, fun c hc => rel_imp_relTol (hx'.2 c hc)⟩
      intro i v hv
      have h3 := hx'.1 i v hv
      have h4 := abs_le.mp (hinf i)
      constructor
      · by_cases h5 : -INFINITY < v.lb
        · exact h3.1 h5
        · exact (not_lt.mp h5).trans h4.1
      · by_cases h5 : v.ub < INFINITY
        · exact h3.2 h5
        · exact h4.2.trans (not_lt.mp h5)
    · have hc : p.vars.length ≤ p.numContinuous := by simpa [onlyContinuous] using hc
      unfold QP.numContinuous at hc
      intro v hv
      have := List.length_filter_le (fun v : Variable => decide (v.vartype = .continuous)) p.vars
      have he : (p.vars.filter fun v => v.vartype = .continuous).length = p.vars.length := by omega
      have := List.length_filter_eq_length_iff.mp he v hv
      simpa using this
  · rw [if_neg hc] at h; simp at h

example : minParabolaQP.ShapeOK ∧ (cobylaConstraints minParabolaQP).length = 6 ∧
    (cobylaConstraints minParabolaQP).map (fun f => f [2, 2]) = [.ok 3, .ok 8, .ok 3, .ok 0, .ok 0, .ok 5] ∧
    (slsqpEq minParabolaQP.csts).map (fun f => f [2, 2]) = [.ok 0] ∧
    (slsqpIneq minParabolaQP.csts).map (fun f => f [2, 2]) = [.ok 3, .ok 5] := by decide +kernel

end Verif
