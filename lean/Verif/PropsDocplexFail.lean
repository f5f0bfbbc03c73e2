import Verif.Docplex
import Verif.PropsWellFormed

/-!
# Rejected docplex models: C92
-/

namespace Verif

/-- `from_docplex` called on the program `p` (`quadratic_program.py:872-1026`): `self.clear()` (888) comes first, then the
name is set (891) and the rest is `fromDocplex`. -/
def QP.loadDocplex (p : QP) (m : DModel) : Res Unit :=
  let q := (Call.clear.apply p).2
  match loadVars m.vars { q with name := m.name } with
  | (.error e, p) => (.error e, p)
  | (.ok names, p) =>
    match loadObjective names m p with
    | (.error e, p) => (.error e, p)
    | (.ok _, p) =>
      match loadLins names m.csts p with
      | (.error e, p) => (.error e, p)
      | (.ok _, p) => loadQuads names m.csts p

theorem loadDocplex_eq (p : QP) (m : DModel) : p.loadDocplex m = fromDocplex m := rfl

/-- Programs made by calls with dictionaries. -/
abbrev ByCalls (p : QP) : Prop := Built Call.FitsIn p

theorem loadVars_built {l : List DVar} {p : QP} (hp : ByCalls p) : ByCalls (loadVars l p).2 := by
  have hadd : ∀ {p : QP} (lb ub : ℚ) (t : VarType) (nm : Option String), ByCalls p →
      ByCalls (p.addVariable lb ub t nm).2 := by
    intro p lb ub t nm hp
    have := Built.call hp (.addVar lb ub t nm) trivial
    simpa only [Call.apply, drop_snd] using this
  induction l generalizing p with
  | nil => exact hp
  | cons x l ih =>
    have h1 : ByCalls (match x.vartype with
      | .continuous => p.continuousVar x.lb x.ub x.name
      | .binary => p.binaryVar x.name
      | .integer => p.integerVar x.lb x.ub x.name
      | .other => ((.error .optimization, p) : Res Variable)).2 := by
      cases x.vartype
      · exact hadd _ _ _ _ hp
      · exact hadd _ _ _ _ hp
      · exact hadd _ _ _ _ hp
      · exact hp
    simp only [loadVars]
    split
    · rename_i e p' he
      exact Eq.mp (congrArg (fun r : Res Variable => ByCalls r.2) he) h1
    · rename_i v p' he
      have h1' : ByCalls p' := Eq.mp (congrArg (fun r : Res Variable => ByCalls r.2) he) h1
      have h2 := ih h1'
      split
      · rename_i e p'' he'
        rw [he'] at h2; exact h2
      · rename_i names p'' he'
        rw [he'] at h2; exact h2

theorem loadObjective_built {names : List String} {m : DModel} {p : QP} (hp : ByCalls p) :
    ByCalls (loadObjective names m p).2 := by
  unfold loadObjective
  split
  · exact hp
  · rename_i linear _
    split
    · exact hp
    · rename_i quadratic _
      split_ifs
      · exact Built.call hp (.objective .minimize m.objective.constant (linNames linear) (quadNames quadratic))
          ⟨trivial, trivial⟩
      · exact Built.call hp (.objective .maximize m.objective.constant (linNames linear) (quadNames quadratic))
          ⟨trivial, trivial⟩

theorem loadLins_built {names : List String} {l : List DCst} {p : QP} (hp : ByCalls p) :
    ByCalls (loadLins names l p).2 := by
  induction l generalizing p with
  | nil => exact hp
  | cons c l ih =>
    cases c with
    | quadratic a s b nm => exact ih hp
    | notEqual a b nm => exact hp
    | other f => exact hp
    | linear left sense right name =>
      have h1 : ByCalls (loadLin names left sense right name p).2 := by
        unfold loadLin
        split
        · exact hp
        · split
          · exact hp
          · rename_i lhs _
            have := Built.call hp (.linear (linNames lhs) (.str sense.toStr) (right.constant - left.constant) name)
              trivial
            simpa only [Call.apply, drop_snd] using this
      simp only [loadLins]
      split
      · rename_i e p' he
        rw [he] at h1; exact h1
      · rename_i v p' he
        rw [he] at h1; exact ih h1

theorem loadQuads_built {names : List String} {l : List DCst} {p : QP} (hp : ByCalls p) :
    ByCalls (loadQuads names l p).2 := by
  induction l generalizing p with
  | nil => exact hp
  | cons c l ih =>
    cases c with
    | linear a s b nm => exact ih hp
    | notEqual a b nm => exact ih hp
    | other f => exact ih hp
    | quadratic left sense right name =>
      have h1 : ByCalls (loadQuad names left sense right name p).2 := by
        unfold loadQuad
        split
        · exact hp
        · split
          · exact hp
          · split
            · exact hp
            · rename_i linear _
              split
              · exact hp
              · rename_i quadratic _
                have := Built.call hp (.quadratic (linNames linear) (quadNames quadratic) (.str sense.toStr)
                  (right.constant - left.constant) name) ⟨trivial, trivial⟩
                simpa only [Call.apply, drop_snd] using this
      simp only [loadQuads]
      split
      · rename_i e p' he
        rw [he] at h1; exact h1
      · rename_i v p' he
        rw [he] at h1; exact ih h1

/-- **C92, the part that holds**.  Full statement: if `from_docplex` raises, the program is as it was before.  Proved: what is
left is a meaningful program (ordered bounds, coefficients of existing variables), made by ordinary builder calls, whatever
docplex contains.  Missing (false by `C92_violated`): the old program is lost. -/
theorem C92_load_partial (p : QP) (m : DModel) :
    Built Call.FitsIn (p.loadDocplex m).2 ∧ (p.loadDocplex m).2.Meaningful := by
  have hb : ByCalls (p.loadDocplex m).2 := by
    unfold QP.loadDocplex
    have h1 := loadVars_built (l := m.vars) (Built.new (kind := Call.FitsIn) m.name)
    simp only [Call.apply]
    change ByCalls (match loadVars m.vars (QP.empty m.name) with
      | (.error e, p) => ((.error e, p) : Res Unit)
      | (.ok names, p) => _).2
    split
    · rename_i e p' he
      rw [he] at h1; exact h1
    · rename_i names p' he
      rw [he] at h1
      have h2 := loadObjective_built (names := names) (m := m) h1
      split
      · rename_i e p'' he'
        rw [he'] at h2; exact h2
      · rename_i u p'' he'
        rw [he'] at h2
        have h3 := loadLins_built (names := names) (l := m.csts) h2
        split
        · rename_i e p3 he3
          rw [he3] at h3; exact h3
        · rename_i u p3 he3
          rw [he3] at h3
          exact loadQuads_built h3
  exact ⟨hb, C87_meaningful_partial hb⟩

/-- A model with two variables and an unsupported constraint. -/
def rejectedModel : DModel :=
  ⟨"m", [⟨some "a", 0, 1, .binary⟩, ⟨none, 0, 5, .integer⟩], true, .var 0, [.notEqual (.var 0) (.const 1) none]⟩

/-- **C92 is violated**: whatever the program was, after `from_docplex` has rejected the model with a constraint `!=` the
program has the name, the variables and the objective of the model, but not its constraint. -/
theorem C92_violated (p : QP) : ∃ q, p.loadDocplex rejectedModel = (.error .optimization, q) ∧ q.name = "m" ∧
    q.vars = [⟨"a", 0, 1, .binary⟩, ⟨"x1", 0, 5, .integer⟩] ∧ q.objective.linear.coeffs = [(0, 1)] ∧ q.lins = [] := by
  rw [loadDocplex_eq]
  exact ⟨(fromDocplex rejectedModel).2, by decide +kernel⟩

end Verif
