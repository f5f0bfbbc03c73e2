import Verif.RenameRecursive
import Verif.RenameSubst
import Verif.PropsRename
import Verif.PropsRecursive
import Verif.PropsPipeline

/-!
# C114: substitution and the recursive optimizer with other names
-/

namespace Verif

theorem liftVar_const {ρ σ : String → String} (hc : ρ "__CONSTANT__" = "__CONSTANT__") : liftVar ρ σ CONST = CONST :=
  (liftVar_plain (by decide +kernel)).trans hc

/-- A key is a position or a name without `@`. -/
def Key.NoAt : Key → Prop
  | .idx _ => True
  | .name s => Verif.NoAt s

theorem key_lift {ρ σ : String → String} {k : Key} (h : k.NoAt) : k.rename (liftVar ρ σ) = k.rename ρ := by
  cases k with
  | idx i => rfl
  | name s => exact congrArg Key.name (liftVar_plain h)

section
variable {ρ σ : String → String} (hρ : PlainRenaming ρ) (hσ : PlainRenaming σ) (hc : ρ "__CONSTANT__" = "__CONSTANT__")
include hρ hσ hc

/-- **C114**, partial (substitution).  Full statement: substitution in the renamed program gives the same program up to names.
Proved: for names without `@`, `__CONSTANT__` not being renamed; or the same error is raised.  The remaining variables and the remaining
quadratic constraints are the renamed ones; quadratic constraints that become linear may get other names (C12).
Missing: the name `__CONSTANT__` (false, `C114_recursive_violated`); names with `@`. -/
theorem C114_substitute_partial {p : QP} (hp : p.Consistent) (hn : p.PlainNames) (he : p.Named)
    (cs : List (Key × ℚ)) (vs : List (Key × Key × ℚ)) (hcs : ∀ e ∈ cs, e.1.NoAt) (hvs : ∀ e ∈ vs, e.1.NoAt ∧ e.2.1.NoAt) :
    (∀ e, p.substitute cs vs = .error e → (p.rename ρ σ).substitute (cs.map fun e => (e.1.rename ρ, e.2))
      (vs.map fun e => (e.1.rename ρ, e.2.1.rename ρ, e.2.2)) = .error e) ∧
    ∀ d, p.substitute cs vs = .ok d → ∃ d', (p.rename ρ σ).substitute (cs.map fun e => (e.1.rename ρ, e.2))
      (vs.map fun e => (e.1.rename ρ, e.2.1.rename ρ, e.2.2)) = .ok d' ∧ SameUpToNames d d' ∧ d'.status = d.status ∧
      (∀ (i : Nat) (v : Variable), d.vars[i]? = some v → NoAt v.name → d'.vars[i]?.map Variable.name = some (ρ v.name)) ∧
      ∀ (i : Nat) (c : QuadCst), d.quads[i]? = some c → NoAt c.name → d'.quads[i]?.map QuadCst.name = some (σ c.name) := by
  rw [← rename_lift hp hn]
  have hr := lift_renaming hρ hσ
  have h1 : (cs.map fun e => (e.1.rename ρ, e.2)) = cs.map fun e => (e.1.rename (liftVar ρ σ), e.2) :=
    List.map_congr_left fun e h => by rw [key_lift (hcs e h)]
  have h2 : (vs.map fun e => (e.1.rename ρ, e.2.1.rename ρ, e.2.2)) =
      vs.map fun e => (e.1.rename (liftVar ρ σ), e.2.1.rename (liftVar ρ σ), e.2.2) :=
    List.map_congr_left fun e h => by rw [key_lift (hvs e h).1, key_lift (hvs e h).2]
  rw [h1, h2]
  obtain ⟨g1, g2⟩ := substitute_renameWith hr (liftVar_const hc) p he cs vs
  refine ⟨g1, fun d h => ?_⟩
  obtain ⟨a, b, h3, h4⟩ := g2 d h
  have hs := sameUpToNames_rename (liftVar ρ σ) (liftCst ρ σ) d
  exact ⟨_, h3, ⟨rfl, hs.vars, h4, hs.quads⟩, rfl,
    fun i v hi hv => by simp [QP.renameWith, QP.rename, Variable.rename, hi, liftVar_plain hv],
    fun i c hi hc => by simp [QP.renameWith, QP.rename, QuadCst.rename, hi, liftCst_plain hc]⟩

/-- An optimizer for programs without constraints whose samples and point do not depend on the names. -/
def NameBlind (solver : QP → Except Err Result) : Prop :=
  ∀ (ρ σ : String → String), Renaming ρ σ → ∀ q : QP, q.lins = [] → q.quads = [] →
    (solver (q.rename ρ σ)).map (fun r => (r.x, r.samples)) = (solver q).map fun r => (r.x, r.samples)

omit hρ hσ hc in
theorem map_of_pair {a b : Except Err Result} (h : a.map (fun r => (r.x, r.samples)) = b.map fun r => (r.x, r.samples)) :
    a.map Result.samples = b.map Result.samples ∧ a.map Result.x = b.map Result.x := by
  cases a with
  | error e =>
    cases b with
    | error e' => simp only [Except.map, Except.error.injEq] at h; rw [h]; exact ⟨rfl, rfl⟩
    | ok r => simp [Except.map] at h
  | ok r =>
    cases b with
    | error e' => simp [Except.map] at h
    | ok r' =>
      simp only [Except.map, Except.ok.injEq, Prod.mk.injEq] at h
      simp [Except.map, h.1, h.2]

/-- **C114**, partial (recursive optimizer).  Full statement: for all names the recursive optimizer returns the same point, value
and status.  Proved: for names without `@`, `__CONSTANT__` not being renamed, and inner optimizers that do not depend on names; the
loop ends or not in the same way, and the same errors are raised.  Missing (false, `C114_violated`, `C114_recursive_violated`): names
with `@`, the name `__CONSTANT__`. -/
theorem C114_recursive_partial (solver : Nat → QP → Except Err Result) (hsol : ∀ t, NameBlind (solver t))
    (last : QP → Except Err Result) (hlast : NameBlind last) (m : Nat) (v : Option ℚ) {p : QP} (hp : p.Consistent)
    (hn : p.PlainNames) (he : p.Named) (fuel : Nat) :
    (recursiveSolve solver last m [quboConverter v] p fuel = none →
      recursiveSolve solver last m [quboConverter v] (p.rename ρ σ) fuel = none) ∧
    (∀ e, recursiveSolve solver last m [quboConverter v] p fuel = some (.error e) →
      recursiveSolve solver last m [quboConverter v] (p.rename ρ σ) fuel = some (.error e)) ∧
    ∀ r, recursiveSolve solver last m [quboConverter v] p fuel = some (.ok r) →
      ∃ r', recursiveSolve solver last m [quboConverter v] (p.rename ρ σ) fuel = some (.ok r') ∧
        r'.result.x = r.result.x ∧ r'.result.fval = r.result.fval ∧ r'.result.status = r.result.status ∧ r'.point = r.point ∧
        SameUpToNames r.reduced r'.reduced ∧
        r'.replacements.map (fun e => e.2.2) = r.replacements.map (fun e => e.2.2) ∧
        ∀ s, NoAt s → r'.result.getItem (.name (ρ s)) = r.result.getItem (.name s) := by
  rw [← rename_lift hp hn]
  have hr := lift_renaming hρ hσ
  obtain ⟨h1, h2, h3⟩ := recursiveSolve_rename hr (liftVar_const hc) solver
    (fun t q hq => (map_of_pair (hsol t _ _ hr q hq.1 hq.2)).1) last
    (fun q hq => (map_of_pair (hlast _ _ hr q hq.1 hq.2)).2) m v p he fuel
  refine ⟨h1, h2, fun r h => ?_⟩
  obtain ⟨r', e1, e2, e3, e4, e5, -, -⟩ := h3 r h
  refine ⟨r', e1, by rw [e2]; rfl, by rw [e2]; rfl, by rw [e2]; rfl, e3, by rw [e5]; exact sameUpToNames_rename _ _ _, ?_, fun s hs => ?_⟩
  · rw [e4]
    simp [renameReps, Function.comp_def]
  · rw [e2, ← liftVar_plain (ρ := ρ) (σ := σ) hs]
    simp only [Result.getItem, Result.rename]
    cases r.result.varsDict with
    | none => rfl
    | some d =>
      simp only [Option.map_some]
      rw [get?_mapKeys hr.inj]

end

/-- **C114** (inner optimizers): the minimum eigen optimizer with the default converter does not depend on names, so that it can be
used in the recursive optimizer. -/
theorem C114_name_blind (eig : QubitOp → Option Eigenstate) (w : Option ℚ) : NameBlind (minEigenSolve eig [quboConverter w]) := by
  intro ρ σ hr q hl hq
  rw [minEigenSolve_rename hr eig w q ⟨by rw [hl]; simp, by rw [hq]; simp⟩]
  cases minEigenSolve eig [quboConverter w] q <;> rfl

example : PlainRenaming (swapNames "b0" "b1") ∧ swapNames "b0" "b1" "__CONSTANT__" = "__CONSTANT__" ∧ recQP.Consistent ∧
    recQP.PlainNames ∧ recQP.Named ∧ NameBlind (minEigenSolve exhaustive [quboConverter none]) :=
  ⟨swapNames_plain (by decide) (by decide) (by decide) (by decide), by decide, by decide +kernel,
    ⟨by decide +kernel, by decide +kernel, by decide +kernel⟩, ⟨by decide +kernel, by decide +kernel⟩,
    C114_name_blind _ _⟩

/-- Two variables; both should be one. -/
def bothOneQP : QP :=
  (runCalls (QP.empty "") [.addVar 0 1 .binary (some "x"), .addVar 0 1 .binary (some "y"),
    .objective .minimize 0 (.dict [(.name "x", -2), (.name "y", -1)]) (.dict [])]).2

/-- The recursive optimizer with exhaustive search as eigensolver in both places. -/
def recExhaustive (p : QP) : Option (Except Err RecResult) :=
  recursiveSolve (fun _ => minEigenSolve exhaustive [quboConverter none]) (minEigenSolve exhaustive [quboConverter none]) 1
    [quboConverter none] p 10

example : (match recExhaustive (bothOneQP.rename (swapNames "x" "y") id) with
    | some (.ok r) => decide (r.result.x = some [1, 1] ∧ r.result.fval = some (-3) ∧
        r.result.getItem (.name "x") = .ok 1 ∧ r.replacements = [("x", "y", 1)])
    | _ => false) = true := by decide +kernel

example : ((bothOneQP.rename (swapNames "x" "y") id).substitute [] [(.name "x", .name "y", 1)]).toOption.map (fun d =>
      (d.vars.map Variable.name, d.objective.linear.coeffs, d.status)) = some (["y"], [(0, -3)], .valid) ∧
    (bothOneQP.substitute [] [(.name "y", .name "x", 1)]).toOption.map (fun d =>
      (d.vars.map Variable.name, d.objective.linear.coeffs, d.status)) = some (["x"], [(0, -3)], .valid) := by decide +kernel

/-- A program with two constraints of the same name, of which one becomes linear. -/
def oneNameQP : QP :=
  (runCalls (QP.empty "") [.addVar 0 1 .binary (some "x"), .addVar 0 1 .binary (some "y"),
    .linear (.dict [(.name "y", 1)]) (.str "<=") 1 (some "c"),
    .quadratic (.dict []) (.dict [((.name "x", .name "y"), 1)]) (.str "<=") 2 (some "c")]).2

example : oneNameQP.Consistent ∧ oneNameQP.PlainNames ∧ oneNameQP.Named ∧ oneNameQP.quads.length = 1 ∧
    (oneNameQP.substitute [(.name "x", 1)] []).toOption.map (fun d => d.lins.map LinCst.name) = some ["c", "_c"] ∧
    ((oneNameQP.rename id (swapNames "c" "e")).substitute [(.name "x", 1)] []).toOption.map (fun d =>
      d.lins.map LinCst.name) = some ["e", "_e"] :=
  ⟨by decide +kernel, ⟨by decide +kernel, by decide +kernel, by decide +kernel⟩, ⟨by decide +kernel, by decide +kernel⟩,
    by decide +kernel, by decide +kernel, by decide +kernel⟩

/-- **C114 is violated** by the name `__CONSTANT__`: minimising `-2 x - y` the recursive optimizer with an exact eigensolver returns the
optimum `(1, 1)`, with value -3; with the variable `x` called `__CONSTANT__` it returns `(0, 0)`, with value 0, as a success. -/
theorem C114_recursive_violated : ∃ (p : QP) (ρ : String → String) (r r' : RecResult), PlainRenaming ρ ∧ p.WF ∧
    (p.rename ρ id).WF ∧ p.PlainNames ∧ (p.rename ρ id).vars.map Variable.name = ["__CONSTANT__", "y"] ∧
    recExhaustive p = some (.ok r) ∧ r.result.x = some [1, 1] ∧ r.result.fval = some (-3) ∧
    recExhaustive (p.rename ρ id) = some (.ok r') ∧ r'.result.x = some [0, 0] ∧ r'.result.fval = some 0 ∧
    r'.result.status = .success := by
  obtain ⟨r, h1, h2⟩ := run_check (o := recExhaustive bothOneQP)
    (P := fun r => r.result.x = some [1, 1] ∧ r.result.fval = some (-3)) (by decide +kernel)
  obtain ⟨r', h3, h4⟩ := run_check (o := recExhaustive (bothOneQP.rename (swapNames "x" "__CONSTANT__") id))
    (P := fun r => r.result.x = some [0, 0] ∧ r.result.fval = some 0 ∧ r.result.status = .success) (by decide +kernel)
  exact ⟨bothOneQP, swapNames "x" "__CONSTANT__", r, r',
    swapNames_plain (by decide) (by decide +kernel) (by decide) (by decide), by decide +kernel, by decide +kernel,
    ⟨by decide +kernel, by decide +kernel, by decide +kernel⟩, by decide +kernel, h1, h2.1, h2.2, h3, h4.1, h4.2.1, h4.2.2⟩

end Verif
