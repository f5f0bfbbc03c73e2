import Verif.RenameAdmm
import Verif.PropsRenameRecursive
import Verif.PropsAdmm

/-!
# C114: ADMM with other names
-/

namespace Verif

/-- **C114**, partial (ADMM).  Full statement: for all names ADMM returns the same point, value and status.  Proved: for names without
`@` and inner optimizers whose answers do not depend on names (the QUBO optimizer for programs without constraints, as it gets no
others); all iterates, residuals, costs and merits are the same, or the same error is raised.  Missing (false, `C114_violated`): names
with `@`. -/
theorem C114_admm_partial {ρ σ : String → String} (hρ : PlainRenaming ρ) (hσ : PlainRenaming σ) (qubo cont : Solver)
    (hq : ∀ α β : String → String, Renaming α β → ∀ t q, q.lins = [] → q.quads = [] → qubo t (q.rename α β) = qubo t q)
    (hc : ∀ α β : String → String, Renaming α β → ∀ t q, cont t (q.rename α β) = cont t q)
    (norm : List ℚ → ℚ) (clock : Nat → Bool) (prm : AdmmParams) {p : QP} (hp : p.Consistent) (hn : p.PlainNames) (he : p.Named) :
    (∀ e, admmSolve qubo cont norm clock prm p = .error e → admmSolve qubo cont norm clock prm (p.rename ρ σ) = .error e) ∧
    ∀ a, admmSolve qubo cont norm clock prm p = .ok a → ∃ a', admmSolve qubo cont norm clock prm (p.rename ρ σ) = .ok a' ∧
      a'.result.x = a.result.x ∧ a'.result.fval = a.result.fval ∧ a'.result.status = a.result.status ∧
      a'.state = a.state ∧ a'.point = a.point ∧
      ∀ s, NoAt s → a'.result.getItem (.name (ρ s)) = a.result.getItem (.name s) := by
  rw [← rename_lift hp hn]
  have hr := lift_renaming hρ hσ
  have h := admmSolve_rename hr (hq _ _ hr) (hc _ _ hr) norm clock prm p he
  refine ⟨fun e h' => by rw [h, h']; rfl, fun a ha => ?_⟩
  rw [ha] at h
  refine ⟨_, h, rfl, rfl, rfl, rfl, rfl, fun s hs => ?_⟩
  rw [← liftVar_plain (ρ := ρ) (σ := σ) hs]
  simp only [Result.getItem, Result.rename]
  cases a.result.varsDict with
  | none => rfl
  | some d =>
    simp only [Option.map_some]
    rw [get?_mapKeys hr.inj]

/-- The point of an optimizer's result, as ADMM reads it. -/
def pointOf (r : Except Err Result) : Except Err (List ℚ) :=
  match r with
  | .error e => .error e
  | .ok r => match r.x with
    | some x => .ok x
    | none => .error .typeError

/-- **C114** (optimizers inside ADMM): `MinimumEigenOptimizer` can be used for the QUBO, and COBYLA or SLSQP for the other programs. -/
theorem C114_admm_solvers (eig : Nat → QubitOp → Option Eigenstate) (w : Option ℚ)
    (cobyla : Nat → Fn → List ℚ → List Fn → Except Err (List ℚ))
    (slsqp : Nat → Fn → (List ℚ → Except Err (List ℚ)) → List ℚ → List Fn → List Fn → List (ℚ × ℚ) → Except Err (List ℚ))
    (trials : Nat) (clip : ℚ) (u : Nat → Nat → ℚ) (α β : String → String) (hr : Renaming α β) (t : Nat) (q : QP) :
    (q.lins = [] → q.quads = [] → pointOf (minEigenSolve (eig t) [quboConverter w] (q.rename α β)) =
      pointOf (minEigenSolve (eig t) [quboConverter w] q)) ∧
    pointOf (cobylaSolve cobyla trials clip u (q.rename α β)) = pointOf (cobylaSolve cobyla trials clip u q) ∧
    pointOf (slsqpSolve slsqp trials clip u (q.rename α β)) = pointOf (slsqpSolve slsqp trials clip u q) := by
  refine ⟨fun hl hq => ?_, ?_, ?_⟩
  · rw [minEigenSolve_rename hr (eig t) w q ⟨by rw [hl]; simp, by rw [hq]; simp⟩]
    cases minEigenSolve (eig t) [quboConverter w] q <;> rfl
  · rw [(C114_local hr.inj β cobyla slsqp trials clip u q).1]
    cases cobylaSolve cobyla trials clip u q <;> rfl
  · rw [(C114_local hr.inj β cobyla slsqp trials clip u q).2]
    cases slsqpSolve slsqp trials clip u q <;> rfl

/-- The run of the ADMM examples, with two names exchanged, and its first block solved by exhaustive search. -/
example : admmQP.Consistent ∧ admmQP.PlainNames ∧ admmQP.Named ∧
    (admmQP.rename (swapNames (varName admmQP.vars 0) (varName admmQP.vars 1)) id).vars.map Variable.name ≠
      admmQP.vars.map Variable.name ∧
    (admmSolve (fun _ q => pointOf (minEigenSolve exhaustive [quboConverter none] q)) admmCont norm1 (fun _ => true) (admmDefaults 2)
      (admmQP.rename (swapNames (varName admmQP.vars 0) (varName admmQP.vars 1)) id)).toOption.map
      (fun a => (a.result.x, a.result.fval, a.result.status)) = some (some [1, 2, 0], some 2, .success) :=
  ⟨by decide +kernel, ⟨by decide +kernel, by decide +kernel, by decide +kernel⟩, ⟨by decide +kernel, by decide +kernel⟩,
    by decide +kernel, by decide +kernel⟩

end Verif
