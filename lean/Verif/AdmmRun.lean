import Verif.AdmmTrace
import Verif.PropsIntToBin
import Verif.PropsResult

/-!
# Facts on a successful run of the ADMM optimizer
-/

namespace Verif

theorem sum_negated {κ : Type} (d : Dict κ) (f : κ → ℚ) :
    Dict.sum (d.map fun q => (q.1, (-1) * q.2)) f = -Dict.sum d f := by
  induction d with
  | nil => simp [Dict.sum]
  | cons a d ih =>
    simp only [Dict.sum, List.map_cons, List.sum_cons] at ih ⊢
    rw [ih]; ring

theorem turnToMinimization_sign (p : QP) : ∃ q, turnToMinimization p = .ok q ∧ q.objective.sense = .minimize ∧
    (∀ x, q.objective.val x = if p.objective.sense = .maximize then -p.objective.val x else p.objective.val x) ∧
    q.vars = p.vars ∧ q.varsIndex = p.varsIndex ∧ q.lins = p.lins ∧ q.quads = p.quads := by
  unfold turnToMinimization
  cases hs : p.objective.sense with
  | minimize => exact ⟨p, rfl, hs, fun x => by simp, rfl, rfl, rfl, rfl⟩
  | maximize =>
    simp only [LinExpr.ofInput, QuadExpr.ofInput]
    refine ⟨_, rfl, rfl, fun x => ?_, rfl, rfl, rfl, rfl⟩
    simp only [Objective.val, LinExpr.val, QuadExpr.val, LinExpr.negated, QuadExpr.negated, if_true]
    rw [sum_triangle _ _ (fun i j => by ring), sum_negated, sum_negated]
    ring

theorem turnToMinimization_wf {p q : QP} (hp : p.WF) (h : turnToMinimization p = .ok q) : q.WF := by
  unfold turnToMinimization at h
  cases hs : p.objective.sense with
  | minimize => simp only [hs, Except.ok.injEq] at h; exact h ▸ hp
  | maximize =>
    simp only [hs, LinExpr.ofInput, QuadExpr.ofInput, Except.ok.injEq] at h
    subst h
    have hk : ∀ {κ : Type} (d : Dict κ), Assoc.keys (d.map fun q => (q.1, (-1) * q.2)) = Assoc.keys d := by
      intro κ d; simp [Assoc.keys, Function.comp_def]
    refine ⟨⟨hp.cons.vars, hp.cons.lins, hp.cons.quads⟩, ?_, ?_, hp.lins, hp.quads⟩
    · refine ⟨⟨?_, ?_⟩, hp.objLin.2⟩
      · show (Assoc.keys (List.map _ _)).Nodup
        rw [hk]; exact hp.objLin.1.nodup
      · show ∀ k ∈ Assoc.keys (List.map _ _), _
        rw [hk]; exact hp.objLin.1.bound
    · refine QuadExpr.ofInput_fits (vi := p.varsIndex) (inp := .sparse p.objective.quadratic.negated) rfl ⟨?_, ?_, hp.objQuad.2⟩
      · show (Assoc.keys (List.map _ _)).Nodup
        rw [hk]; exact hp.objQuad.1.nodup
      · show ∀ k ∈ Assoc.keys (List.map _ _), _
        rw [hk]; exact hp.objQuad.1.bound

theorem intToBin_noInteger {src : QP} (hs : src.WF) {st : I2B} (h : src.intToBin = .ok st) :
    ∀ v ∈ st.dst.vars, v.vartype ≠ .integer := by
  have hf := intToBin_facts hs h
  rw [hf.mem_vars (fun v => v.vartype ≠ .integer) (by
    intro v _ _
    unfold plainVar
    split
    · rename_i ht; simp [binVar, ht]
    · exact Iff.rfl)]
  intro v hv w hw
  by_cases ht : v.vartype = .integer
  · obtain ⟨e, he, _⟩ := hf.enc v hv ht
    simp only [newVars, he] at hw
    obtain ⟨p, _, rfl⟩ := List.mem_map.mp hw
    simp [binVar]
  · have hp := hf.plain v hv ht
    simp only [newVars, hp, List.mem_singleton] at hw
    subst hw
    unfold plainVar
    split
    · simp [binVar]
    · exact ht

theorem bestMerit_inv {norm : List ℚ → ℚ} {prm : AdmmParams} {p : QP} {s : AdmmState} {hist : List Iterate}
    (ht : Trace norm prm p s hist) {b c : List ℚ} {v : ℚ} (h : bestMerit s = .ok (b, c, v)) :
    ∃ k : Nat, ∃ it : Iterate, ∃ m, hist[k]? = some it ∧ b = it.x0 ∧ c = it.u ∧ s.costs[k]? = some v ∧ s.merits[k]? = some m ∧
      (∀ w ∈ s.merits, m ≤ w) ∧ ∀ j < k, ∀ w, s.merits[j]? = some w → m < w := by
  unfold bestMerit at h
  cases h1 : minIndex s.merits with
  | error e => simp [h1] at h
  | ok k =>
    obtain ⟨m, m1, m2, m3⟩ := minIndex_inv h1
    simp only [h1, ht.x0s, ht.us, List.getElem?_map] at h
    cases h2 : hist[k]? with
    | none => simp [h2] at h
    | some it =>
      cases h3 : s.costs[k]? with
      | none => simp [h2, h3] at h
      | some v' =>
        simp only [h2, h3, Option.map_some, Except.ok.injEq, Prod.mk.injEq] at h
        obtain ⟨rfl, rfl, rfl⟩ := h
        exact ⟨k, it, m, h2, rfl, rfl, h3, m1, m2, m3⟩

/-- The facts on a successful run. -/
structure AdmmFacts (qubo cont : Solver) (norm : List ℚ → ℚ) (prm : AdmmParams) (p : QP) (a : AdmmResult)
    (conv : I2B) (q : QP) (start : AdmmState) (hist : List Iterate) : Prop where
  compat : admmCompatible p = .ok true
  hconv : p.intToBin = .ok conv
  turn : turnToMinimization conv.dst = .ok q
  hstart : (if prm.warmStart then admmWarmStart cont q (admmInit prm q) else .ok (admmInit prm q)) = .ok start
  wf : q.WF
  noInt : ∀ v ∈ q.vars, v.vartype ≠ .integer
  rep : admmRep q = .ok a.rep
  sized : Sized q start
  trace : Trace norm prm q a.state hist
  ran : Ran qubo cont prm a.rep start hist
  short : hist.length ≤ prm.maxiter
  best : ∃ k : Nat, ∃ it : Iterate, hist[k]? = some it ∧ Assembles q it.x0 it.u a.point ∧ ∀ j : Nat, ∀ g : Iterate, ∀ x, hist[j]? = some g →
    Assembles q g.x0 g.u x →
    q.objective.val (pt a.point) + prm.muMerit * q.violation (pt a.point) ≤
      q.objective.val (pt x) + prm.muMerit * q.violation (pt x) ∧
    (j < k → q.objective.val (pt a.point) + prm.muMerit * q.violation (pt a.point) <
      q.objective.val (pt x) + prm.muMerit * q.violation (pt x))
  interp : interpretResult p [conv.interpret] [] [] a.point = .ok a.result

theorem admmSolve_facts {qubo cont : Solver} {norm : List ℚ → ℚ} {clock : Nat → Bool} {prm : AdmmParams} {p : QP}
    (hp : p.WF) {a : AdmmResult} (h : admmSolve qubo cont norm clock prm p = .ok a) :
    ∃ conv q start hist, AdmmFacts qubo cont norm prm p a conv q start hist := by
  obtain ⟨conv, q, s, b, c, v, h1, h2, h3, h4, h5, h6, h7, h8, h9⟩ := admmSolve_inv h
  have hwf : q.WF := turnToMinimization_wf (intToBin_facts hp h2).wf h3
  obtain ⟨q', hq', _, _, hv, _, _, _⟩ := turnToMinimization_sign conv.dst
  rw [h3, Except.ok.injEq] at hq'
  subst hq'
  have hni : ∀ v ∈ q.vars, v.vartype ≠ .integer := by rw [hv]; exact intToBin_noInteger hp h2
  have hst : Trace norm prm q s [] ∧ Sized q s := by
    split at h4
    · obtain ⟨w1, w2⟩ := admmWarmStart_ok (admmInit_sized prm q) h4
      exact ⟨(admmInit_trace norm prm q).same w1, w2⟩
    · simp only [Except.ok.injEq] at h4
      subst h4
      exact ⟨admmInit_trace norm prm q, admmInit_sized prm q⟩
  obtain ⟨hist, t1, _, t3, t4⟩ := admmLoop_trace (start := s) h5 hni hst.1 hst.2 (by intro k h hk; simp at hk)
    ⟨fun _ => ⟨rfl, rfl, rfl⟩, by simp⟩ h6
  rw [List.nil_append] at t1 t3
  refine ⟨conv, q, s, hist, h1, h2, h3, h4, hwf, hni, h5, hst.2, t1, t3, t4, ?_, h9⟩
  obtain ⟨k, it, m, k1, rfl, rfl, _, k4, k5, k6⟩ := bestMerit_inv t1 h7
  have hf := t1.steps k it k1
  obtain ⟨x, hx, hasm⟩ := revertIndexes_ok hni hf.lx hf.lu
  obtain ⟨e1, e2, e3, _⟩ := admmRep_inv h5
  rw [e2, e3, hx, Except.ok.injEq] at h8
  subst h8
  obtain ⟨y, y1, _, _, y4⟩ := hf.point
  have := Assembles.unique hni hasm y1
  subst this
  rw [k4, Option.some.injEq] at y4
  subst y4
  refine ⟨k, it, k1, hasm, ?_⟩
  intro j g w hj hw
  obtain ⟨z, z1, _, _, z4⟩ := (t1.steps j g hj).point
  have := Assembles.unique hni hw z1
  subst this
  exact ⟨k5 _ (List.mem_of_getElem? z4), fun hjk => k6 j hjk _ z4⟩

end Verif
