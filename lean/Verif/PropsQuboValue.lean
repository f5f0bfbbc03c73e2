import Verif.PropsQubo
import Verif.PropsIntToBin
import Verif.PropsPenalty

/-!
# C22: the value of a QUBO at every point

`Verif/PropsQubo.lean` compares the optimal points of a program and of its QUBO.  Here the objective of the QUBO is given at
every point, so that nothing is assumed of the products of the objective, of the penalty or of the point.
-/

namespace Verif

theorem sumSquares_congr {a b : QP} {x y : Nat → ℚ}
    (h : List.Forall₂ (fun c c' : LinCst => c'.linear.val y - c'.rhs = c.linear.val x - c.rhs) a.lins b.lins) :
    sumSquares b y = sumSquares a x := by
  unfold sumSquares
  generalize a.lins = la at h
  generalize b.lins = lb at h
  induction h with
  | nil => rfl
  | cons h _ ih => simp only [List.map_cons, List.sum_cons, h, ih]

/-- **C22, every point**: let `z` be any point of the QUBO that can be interpreted.  Its interpretation `x` is the beginning
of the point `w` of the program with the slack variables, and the objective of the QUBO at `z` is the objective of the source
at `x`, less what the products of integer variables miss (`QuadExpr.missed`, see `C16_error`), plus or minus the penalty times
the squares of the violations of the constraints with slack variables at `w`.  There is nothing else: for every program, every
penalty, given or chosen. -/
theorem C22_value (penalty : Option ℚ) (src : QP) (st : QuboState) (hs : src.WF) (hb : src.BinBoundsOK)
    (hi : ∀ v ∈ src.vars, v.vartype = .integer → (∃ z : Int, v.lb = z) ∧ ∃ z : Int, v.ub = z)
    (h : src.toQubo penalty = .ok st) (z x : List ℚ) (hx : st.interpret z = .ok x) :
    ∃ w : List ℚ, w.length = st.eqs.numVars ∧ x = w.take src.numVars ∧ st.i2b.interpret z = .ok w ∧
      st.dst.objective.val (pt z) = src.objective.val (pt x) - st.eqs.objective.quadratic.missed st.eqs st.i2b.dst w z +
        src.objective.sense.value * st.pen * sumSquares st.eqs (pt w) ∧
      (∀ p, penalty = some p → st.pen = p) := by
  obtain ⟨⟨hc, hq, hco⟩, hsrc, h1, h2, h3⟩ := toQubo_stages h
  have hf1 := ineqToEq_facts hs h1
  have hwe := hf1.starts.wf
  have hf2 := intToBin_facts hwe h2
  have hbounds : ∀ v ∈ src.vars, (∃ z : Int, v.lb = z) ∧ ∃ z : Int, v.ub = z := by
    intro v hv
    cases ht : v.vartype with
    | binary =>
      rw [(hb v hv ht).1, (hb v hv ht).2]
      exact ⟨⟨0, by simp⟩, ⟨1, by simp⟩⟩
    | integer => exact hi v hv ht
    | continuous => exact absurd ht (hc v hv)
  have hints := hf1.ints rfl hq hbounds
  have hie : st.eqs.IntBoundsOK := by
    intro v hv ht
    obtain ⟨e, _, he⟩ := hf2.enc v hv ht
    exact ⟨(hints v hv).1, (hints v hv).2, convertVar_lt he⟩
  obtain ⟨hpo, hpp, -⟩ := C19_objective_partial penalty st.i2b.dst st.dst st.pen hf2.wf h3
  unfold QuboState.interpret penInterpret at hx
  by_cases hl : z.length = st.i2b.dst.numVars
  · rw [if_neg (by simpa using hl)] at hx
    cases hzw : st.i2b.interpret z with
    | error e => simp [hzw] at hx
    | ok w =>
      simp only [hzw, hsrc] at hx
      obtain ⟨-, hxw⟩ := (ineqInterpret_iff hs.cons hf1.starts w x).mp hx
      obtain ⟨hwl, -⟩ := interpret_decodes hwe hf2 hzw
      obtain ⟨herr, -⟩ := C16_error st.eqs hwe hie st.i2b h2 z w hzw
      obtain ⟨-, hform, -⟩ := C16_form st.eqs hwe hie st.i2b h2
      have hss : sumSquares st.i2b.dst (pt z) = sumSquares st.eqs (pt w) :=
        sumSquares_congr (hform.imp fun c c' hm => hm.2.2 z w hzw)
      have hagree : ∀ i < src.numVars, pt w i = pt x i := by
        intro i hi'
        subst hxw
        simp [pt, List.getD_eq_getElem?_getD, List.getElem?_take_of_lt hi']
      refine ⟨w, hwl, hxw, rfl, ?_, hpp⟩
      rw [hpo, herr, hss, hf1.objective.2, hf2.sense, hf1.objective.1, Objective.val_congr hs hagree]
  · rw [if_pos hl] at hx
    simp at hx

/-- All terms occur.  For the program with constraints, the point below violates both constraints with slack variables by 2,
and the penalty is taken off since the program is maximized: `4 - 7 * 8`.  For the program of `C22_violated` the products
miss 10 at `(4, 4)`. -/
example : fullQP.WF ∧ (∀ v ∈ fullQP.vars, v.vartype = .binary → v.lb = 0 ∧ v.ub = 1) ∧
    (∀ v ∈ fullQP.vars, v.lb.den = 1 ∧ v.ub.den = 1) ∧ fullQP.toQubo (some 7) = .ok (fullState (some 7)) ∧
    (fullState (some 7)).interpret [1, 1, 1, 0, 1, 0, 0] = .ok [1, 3, 0] ∧
    (fullState (some 7)).i2b.interpret [1, 1, 1, 0, 1, 0, 0] = .ok [1, 3, 0, 0] ∧
    (fullState (some 7)).dst.objective.val (pt [1, 1, 1, 0, 1, 0, 0]) = -52 ∧ fullQP.objective.val (pt [1, 3, 0]) = 4 ∧
    sumSquares (fullState (some 7)).eqs (pt [1, 3, 0, 0]) = 8 ∧
    prodMaxState.interpret [1, 1, 1, 1] = .ok [4, 4] ∧ prodMaxState.dst.objective.val (pt [1, 1, 1, 1]) = -6 ∧
    prodMaxQP.objective.val (pt [4, 4]) = 4 ∧
    prodMaxState.eqs.objective.quadratic.missed prodMaxState.eqs prodMaxState.i2b.dst [4, 4] [1, 1, 1, 1] = 10 := by
  decide +kernel

end Verif
