import Verif.Dtype
import Verif.PropsAdmmSteps

/-!
# Coefficients and their number type: C89
-/

namespace Verif

theorem NumType.cast_eq {t : NumType} {v : ℚ} (h : t = .float ∨ ∃ m : ℤ, v = m) : t.cast v = v := by
  rcases h with rfl | ⟨m, rfl⟩
  · rfl
  · cases t
    · simp [NumType.cast]
    · rfl

/-- **C89, linear expressions, the part that holds**: an assigned coefficient can be read back, by the name or the index
of the variable, and no other coefficient changes, if the matrix has floating point numbers or the value is an integer.
Full statement: without this condition.  Missing (false by `C89_violated`): a fraction in a matrix of integers. -/
theorem C89_linear_partial (t : TypedLin) (ht : t.expr.WF) (vi : Assoc String Nat) (k : Key) (i : Nat)
    (hk : resolve vi t.expr.n k = .ok i) (v : ℚ) (h : t.dtype = .float ∨ ∃ m : ℤ, v = m) :
    ∃ t', t.setItem vi k v = .ok t' ∧ t'.dtype = t.dtype ∧ t'.expr.getItem vi k = .ok v ∧
      ∀ k' j, resolve vi t.expr.n k' = .ok j → j ≠ i → t'.expr.getItem vi k' = t.expr.getItem vi k' := by
  refine ⟨⟨t.dtype, ⟨t.expr.n, Dict.dokSet t.expr.coeffs i (t.dtype.cast v)⟩⟩,
    by simp only [TypedLin.setItem, LinExpr.setItem, hk], rfl, ?_, fun k' j hj hne => ?_⟩
  · simp only [LinExpr.getItem, hk, NumType.cast_eq h]
    rw [Dict.get_dokSet ht.nodup, if_pos rfl]
  · simp only [LinExpr.getItem, hj]
    rw [Dict.get_dokSet ht.nodup, if_neg (Ne.symm hne)]

/-- **C89, quadratic expressions, the part that holds**: the same for a pair of variables, in both orders.  Full statement:
without the condition on the type or the value.  Missing (false by `C89_violated`): a fraction in a matrix of integers. -/
theorem C89_quadratic_partial (t : TypedQuad) (ht : t.expr.WF) (vi : Assoc String Nat) (k k' : Key) (i j : Nat)
    (hk : resolve vi t.expr.n k = .ok i) (hk' : resolve vi t.expr.n k' = .ok j) (v : ℚ)
    (h : t.dtype = .float ∨ ∃ m : ℤ, v = m) :
    ∃ t', t.setItem vi k k' v = .ok t' ∧ t'.dtype = t.dtype ∧ t'.expr.getItem vi k k' = .ok v ∧
      t'.expr.getItem vi k' k = .ok v ∧
      ∀ l l' a b, resolve vi t.expr.n l = .ok a → resolve vi t.expr.n l' = .ok b → ¬ (a = i ∧ b = j) →
        ¬ (a = j ∧ b = i) → t'.expr.getItem vi l l' = t.expr.getItem vi l l' := by
  refine ⟨⟨t.dtype, ⟨t.expr.n, Dict.dokSet t.expr.coeffs (min i j, max i j) (t.dtype.cast v)⟩⟩,
    by simp only [TypedQuad.setItem, QuadExpr.setItem, hk, hk'], rfl, ?_, ?_, fun l l' a b ha hb h1 h2 => ?_⟩
  · simp only [QuadExpr.getItem, hk, hk', NumType.cast_eq h]
    rw [Dict.get_dokSet ht.nodup, if_pos rfl]
  · simp only [QuadExpr.getItem, hk, hk', NumType.cast_eq h, min_comm j i, max_comm j i]
    rw [Dict.get_dokSet ht.nodup, if_pos rfl]
  · simp only [QuadExpr.getItem, ha, hb]
    rw [Dict.get_dokSet ht.nodup, if_neg]
    simp only [Prod.mk.injEq]
    omega

/-- **C89, types**: coefficients given as a dictionary are stored as floating point numbers, and so are those of a list
that are not all integers; assignment never changes the type. -/
theorem C89_types (vi : Assoc String Nat) (n : Nat) (ints : Bool) (l : LinInput) (t : TypedLin)
    (h : TypedLin.ofInput vi n ints l = .ok t) :
    LinExpr.ofInput vi n l = .ok t.expr ∧ (t.dtype = .int ↔ ints = true ∧ ∀ d, l ≠ .dict d) ∧
      ∀ k v t', t.setItem vi k v = .ok t' → t'.dtype = t.dtype := by
  unfold TypedLin.ofInput at h
  cases he : LinExpr.ofInput vi n l with
  | error e => simp [he] at h
  | ok e =>
    simp only [he, Except.ok.injEq] at h
    subst h
    refine ⟨rfl, ?_, fun k v t' ht => ?_⟩
    · cases l <;> cases ints <;> simp [LinInput.dtype]
    · unfold TypedLin.setItem at ht
      split at ht
      · simp at ht
      · simp only [Except.ok.injEq] at ht
        rw [← ht]

/-- The list `[1, 2]` of integers; the second coefficient becomes `1/2` only in a matrix of floating point numbers. -/
example : (TypedLin.ofInput [("x", 0), ("y", 1)] 2 false (.list [1, 2])).toOption.bind (fun t =>
    (t.setItem [("x", 0), ("y", 1)] (.name "y") (1 / 2)).toOption.map fun t => t.expr.toArray) = some [1, 1 / 2] ∧
    (TypedLin.ofInput [("x", 0), ("y", 1)] 2 true (.list [1, 2])).toOption.bind (fun t =>
    (t.setItem [("x", 0), ("y", 1)] (.name "y") 7).toOption.map fun t => t.expr.toArray) = some [1, 7] := by
  decide +kernel

example : (TypedQuad.ofInput [("x", 0), ("y", 1)] 2 false (.matrix [[1, 2], [3, 4]])).toOption.bind (fun t =>
    (t.setItem [("x", 0), ("y", 1)] (.name "y") (.idx 0) (1 / 2)).toOption.map fun t => t.expr.toArray false) =
    some [[1, 1 / 2], [0, 4]] := by
  decide +kernel

/-- **C89 is violated**: in the linear expression given by the list `[1, 2]` of integers, `expr[0] = 0.5` stores `0`, and
`expr[0] = -1.5` stores `-1`; likewise in the quadratic expression given by `[[1, 2], [3, 4]]`. -/
theorem C89_violated : ∃ (t : TypedLin) (q : TypedQuad), t.expr.WF ∧ q.expr.WF ∧
    TypedLin.ofInput [] 2 true (.list [1, 2]) = .ok t ∧ TypedQuad.ofInput [] 2 true (.matrix [[1, 2], [3, 4]]) = .ok q ∧
    (∃ t', t.setItem [] (.idx 0) (1 / 2) = .ok t' ∧ t'.expr.getItem [] (.idx 0) = .ok 0) ∧
    (∃ t', t.setItem [] (.idx 0) (-3 / 2) = .ok t' ∧ t'.expr.getItem [] (.idx 0) = .ok (-1)) ∧
    ∃ q', q.setItem [] (.idx 0) (.idx 1) (1 / 2) = .ok q' ∧ q'.expr.getItem [] (.idx 0) (.idx 1) = .ok 0 :=
  ⟨⟨.int, ⟨2, [(0, 1), (1, 2)]⟩⟩, ⟨.int, ⟨2, [((0, 0), 1), ((0, 1), 5), ((1, 1), 4)]⟩⟩, by decide +kernel, by decide +kernel,
    by decide +kernel, by decide +kernel, ⟨⟨.int, ⟨2, [(1, 2)]⟩⟩, by decide +kernel, by decide +kernel⟩,
    ⟨⟨.int, ⟨2, [(0, -1), (1, 2)]⟩⟩, by decide +kernel, by decide +kernel⟩,
    ⟨⟨.int, ⟨2, [((0, 0), 1), ((1, 1), 4)]⟩⟩, by decide +kernel, by decide +kernel⟩⟩

/-- The loop with types that do not matter. -/
theorem step2VarsTyped_eq {tl tq : NumType} {s : AdmmState} (hq : tq = .float ∨ ∃ m : ℤ, s.rho / 2 = m)
    (hl : tl = .float ∨ ∀ k, ∃ m : ℤ, -1 * pt s.lam k - s.rho * (pt s.x0 k - pt s.y k) = m) :
    ∀ (is : List Nat) (k : Nat) (op : QP), step2VarsTyped tl tq s k is op = step2Vars s k is op := by
  intro is
  induction is with
  | nil => intro k op; rfl
  | cons i is ih =>
    intro k op
    have hl' : tl.cast (-1 * pt s.lam k - s.rho * (pt s.x0 k - pt s.y k)) =
        -1 * pt s.lam k - s.rho * (pt s.x0 k - pt s.y k) :=
      NumType.cast_eq (hl.imp id fun h => h k)
    simp only [step2VarsTyped, step2Vars, TypedQuad.setItem, TypedLin.setItem, NumType.cast_eq hq, hl', ih]
    cases op.vars[i]? with
    | none => rfl
    | some v =>
      simp only
      cases relaxVar v with
      | error e => rfl
      | ok v =>
        simp only
        cases op.objective.quadratic.setItem op.varsIndex (.idx i) (.idx i) (s.rho / 2) with
        | error e => rfl
        | ok q =>
          simp only
          cases op.objective.linear.setItem op.varsIndex (.idx i)
            (-1 * pt s.lam k - s.rho * (pt s.x0 k - pt s.y k)) <;> rfl

/-- **C89, ADMM, the part that holds**: if the objective was given by dictionaries or floating point numbers, or the program
has integer variables, then the program of step 2 is the one of the model without types, so with `C63_objective_partial`
the augmented Lagrangian.  Full statement: for every objective.  Missing (false by `C89_admm_violated`): objectives given
by lists or matrices of integers. -/
theorem C89_admm_partial (p : QP) (tl tq : NumType)
    (h : (tl = .float ∧ tq = .float) ∨ ∃ v ∈ p.vars, v.vartype = .integer) (r : AdmmRep) (s : AdmmState) :
    step2ProblemTyped (admmTypes p tl tq).1 (admmTypes p tl tq).2 r s = step2Problem r s := by
  have hf : admmTypes p tl tq = (.float, .float) := by
    unfold admmTypes
    rcases h with ⟨rfl, rfl⟩ | ⟨v, hv, ht⟩
    · simp
    · rw [if_pos]
      rw [List.any_eq_true]
      exact ⟨v, hv, by simp [ht]⟩
  rw [hf, step2ProblemTyped, step2Problem, step2VarsTyped_eq (Or.inl rfl) (Or.inl rfl)]
  cases step2Vars s 0 r.binIdx r.op <;> rfl

/-- A binary and a continuous variable; the objective is given by the list `[-1, 1]`. -/
def admmIntQP : QP :=
  (runCalls (QP.empty "") [.addVar 0 1 .binary (some "b"), .addVar 0 5 .continuous (some "u"),
    .objective .minimize 0 (.list [-1, 1]) (.dict [])]).2

example : admmTypes admmIntQP .int .float = (.int, .float) ∧ admmTypes admmIntQP .float .float = (.float, .float) := by
  decide +kernel

/-- The state after step 1 of the first iteration with `rho_initial = 1/2`: `x0 = 1`, everything else is zero. -/
def admmIntState : AdmmState := { admmInit { admmDefaults 1 with rhoInitial := 1 / 2 } admmIntQP with x0 := [1] }

/-- **C89 is violated** by the ADMM optimizer: for the objective given by the list `[-1, 1]` of integers the coefficient
`-1/2` of the relaxed binary variable in step 2 is stored as `0`.  The objective of step 2 is not the augmented Lagrangian,
although no binary variable is multiplied by another one; with floating point numbers it is. -/
theorem C89_admm_violated : ∃ (r : AdmmRep) (op op' : QP), admmIntQP.WF ∧ ¬ admmIntQP.BinaryProducts ∧
    admmCompatible admmIntQP = .ok true ∧ admmIntQP.objective.sense = .minimize ∧ admmRep admmIntQP = .ok r ∧
    step2ProblemTyped .float .float r admmIntState = .ok op' ∧
    Step2Value admmIntQP admmIntState.rho admmIntState.lam admmIntState.x0 admmIntState.y op' ∧
    step2ProblemTyped (admmTypes admmIntQP .int .float).1 (admmTypes admmIntQP .int .float).2 r admmIntState = .ok op ∧
    ¬ Step2Value admmIntQP admmIntState.rho admmIntState.lam admmIntState.x0 admmIntState.y op := by
  have hsep : ¬ admmIntQP.BinaryProducts := by
    rintro ⟨i, j, h1, h2, h3⟩
    have e : admmIntQP.objective.quadratic.coeffs = [] := by decide +kernel
    rw [e] at h3
    exact h3 rfl
  have h : (admmRep admmIntQP).toOption.map (fun r =>
      ((step2ProblemTyped .float .float r admmIntState).toOption.map fun _ => (),
        (step2ProblemTyped .int .float r admmIntState).toOption.map fun op =>
          (op.objective.val (pt [0, 0]), op.objective.val (pt [1, 0])))) = some (some (), some (0, 1 / 4)) := by
    decide +kernel
  cases hr : admmRep admmIntQP with
  | error e => simp [hr, Except.toOption] at h
  | ok r =>
    cases ho' : step2ProblemTyped .float .float r admmIntState with
    | error e => simp [hr, ho', Except.toOption] at h
    | ok op' =>
      cases ho : step2ProblemTyped .int .float r admmIntState with
      | error e => simp [hr, ho, ho', Except.toOption] at h
      | ok op =>
        simp only [hr, ho, ho', Except.toOption, Option.map_some, Option.some.injEq, Prod.mk.injEq, true_and] at h
        have ht : admmTypes admmIntQP .int .float = (.int, .float) := by decide +kernel
        have hs : step2Problem r admmIntState = .ok op' := by
          rw [← ho', ← C89_admm_partial admmIntQP .float .float (Or.inl ⟨rfl, rfl⟩)]
          rfl
        refine ⟨r, op, op', by decide +kernel, hsep, by decide +kernel, by decide +kernel, rfl, ho',
          step2_value (by decide +kernel) hr hs hsep, by rw [ht]; exact ho, ?_⟩
        rintro ⟨K, hK⟩
        have hb : ∀ i, admmIntQP.isBinary i → i = 0 := by
          intro i hi
          have h2 := isBinary_iff.mp hi
          have e : variableIndices .binary admmIntQP = [0] := by decide +kernel
          rw [e] at h2
          simpa using h2
        have h0 := hK (pt [0, 0]) (pt [1, 0]) [0]
          (fun i hi => by rw [hb i hi]; decide +kernel) (fun i hi => by rw [hb i hi]; decide +kernel)
        have h1 := hK (pt [1, 0]) (pt [1, 0]) [1]
          (fun i hi => by rw [hb i hi]; decide +kernel) (fun i hi => by rw [hb i hi]; decide +kernel)
        have e0 : admmIntQP.objective.val (admmIntQP.dropBinary (pt [0, 0])) + admmIntQP.coupling admmIntState.rho
          admmIntState.lam (pt [1, 0]) [0] admmIntState.y = 1 / 4 := by decide +kernel
        have e1 : admmIntQP.objective.val (admmIntQP.dropBinary (pt [1, 0])) + admmIntQP.coupling admmIntState.rho
          admmIntState.lam (pt [1, 0]) [1] admmIntState.y = 0 := by decide +kernel
        rw [e0, h.1] at h0
        rw [e1, h.2] at h1
        linarith

end Verif
