import Verif.PropsQubo

/-!
# Converting a QUBO again (C84)
-/

namespace Verif

/-- **C84** (QUBOs): a program with binary variables and without constraints is accepted and converted to a program with the
same variables (with bounds 0 and 1), the same sense and the same objective function; `interpret` returns its argument. -/
theorem C84_qubo {p : QP} (hs : p.WF) (hb : ∀ v ∈ p.vars, v.vartype = .binary) (hle : ∀ v ∈ p.vars, v.lb ≤ v.ub)
    (hl : p.lins = []) (hq : p.quads = []) (penalty : Option ℚ) :
    ∃ st, p.toQubo penalty = .ok st ∧ st.dst.vars = p.vars.map (fun v => ⟨v.name, 0, 1, .binary⟩) ∧
      st.dst.lins = [] ∧ st.dst.quads = [] ∧ st.dst.name = p.name ∧
      st.dst.objective.sense = p.objective.sense ∧ (∀ x, st.dst.objective.val x = p.objective.val x) ∧
      ∀ x : List ℚ, x.length = p.numVars → st.interpret x = .ok x := by
  have hm : ¬ (quboMsg p).length > 0 :=
    (quboMsg_empty p).mpr ⟨fun v hv => by rw [hb v hv]; simp, hq, by rw [hl]; simp⟩
  have hcst : p.allCsts = [] := by simp [QP.allCsts, hl, hq]
  obtain ⟨eqs, h1, -⟩ := ineqToEq_success (mode := .integer) hs hle (by rw [hcst]; simp) (by rw [hcst]; simp)
    (by rw [hl]; simp) (by rw [hcst]; simp)
  have hf1 := ineqToEq_facts hs h1
  have hlins : eqs.lins = [] := by
    have := hf1.lins
    rw [hl] at this
    exact List.forall₂_nil_left_iff.mp this
  have hvars : eqs.vars = p.vars.map (fun v => ⟨v.name, 0, 1, .binary⟩) := by
    unfold QP.ineqToEq at h1
    split at h1
    · simp at h1
    · rename_i d0 h0
      have hg := copyAllVars_grows h0
      split at h1
      · simp at h1
      · rename_i u d1 h2
        obtain ⟨le, qe, e1, e2, rfl⟩ := setObjective_ok h2
        rw [hl, hq] at h1
        simp only [i2eLins, i2eQuads, Except.ok.injEq] at h1
        rw [← h1]
        show d0.vars = _
        rw [show d0.vars = p.vars.map plainVar by simpa [QP.empty] using hg.vars]
        refine List.map_congr_left fun v hv => ?_
        simp [plainVar, hb v hv, binVar]
  have hint : eqs.numIntegerVars = 0 := by
    unfold QP.numIntegerVars
    rw [hvars]
    simp [Function.comp_def]
  have h2 : eqs.intToBin = .ok ⟨eqs, eqs, []⟩ := by simp [QP.intToBin, hint]
  obtain ⟨dst, pen, h3⟩ := toPenalty_success (penalty := penalty) hf1.starts.wf
    (fun v hv => by
      rw [hvars] at hv
      obtain ⟨w, _, rfl⟩ := List.mem_map.mp hv
      norm_num)
    (by rw [hlins]; simp)
  have hf3 := toPenalty_facts hf1.starts.wf h3
  have hdcst := hf3.csts
  simp only [QP.allCsts, List.append_eq_nil_iff, List.map_eq_nil_iff] at hdcst
  have hn : eqs.numVars = p.numVars := by simp [QP.numVars, hvars]
  refine ⟨⟨p, eqs, ⟨eqs, eqs, []⟩, dst, pen⟩, by simp only [QP.toQubo, if_neg hm, h1, h2, h3], ?_, hdcst.1, hdcst.2,
    hf3.name.trans hf1.name, hf3.sense.trans hf1.objective.1, fun x => ?_, fun x hx => ?_⟩
  · rw [hf3.vars, hvars, List.map_map]
    refine List.map_congr_left fun v _ => ?_
    simp [plainVar, binVar]
  · rw [hf3.obj, hf1.objective.2, hlins]
    simp [residual2]
  · have hi2 := (interpret_iff hf1.starts.wf (intToBin_facts hf1.starts.wf h2) x x).mpr ⟨by rw [hx, hn], ?_⟩
    · have hi1 := (ineqInterpret_iff hs.cons hf1.starts x x).mpr ⟨by rw [hx, hn], by rw [← hx, List.take_length]⟩
      simp only [QuboState.interpret, penInterpret, hn, hx, ne_eq, not_true_eq_false, if_false, hi2, hi1]
    · apply List.ext_getElem?
      intro i
      rw [List.getElem?_map]
      rcases Nat.lt_or_ge i eqs.vars.length with hlt | hge
      · rw [List.getElem?_eq_getElem hlt, List.getElem?_eq_getElem (show i < x.length by rw [hx, ← hn]; exact hlt)]
        simp only [Option.map_some, Option.some.injEq, encVal, Assoc.get?_nil]
        rw [nameVal_at hf1.starts.wf.cons (List.getElem?_eq_getElem hlt)]
        simp [pt, List.getD_eq_getElem?_getD, List.getElem?_eq_getElem (show i < x.length by rw [hx, ← hn]; exact hlt)]
      · rw [List.getElem?_eq_none hge, List.getElem?_eq_none (show x.length ≤ i by rw [hx, ← hn]; exact hge)]
        rfl

/-- **C84** (twice): converting a converted program again, with the same or another penalty, changes neither variables nor
objective, and `interpret` of the second conversion returns its argument. -/
theorem C84_twice {p : QP} (hs : p.WF) {penalty : Option ℚ} {st : QuboState} (h : p.toQubo penalty = .ok st)
    (penalty' : Option ℚ) :
    ∃ st', st.dst.toQubo penalty' = .ok st' ∧ st'.dst.vars = st.dst.vars ∧ st'.dst.lins = [] ∧ st'.dst.quads = [] ∧
      st'.dst.name = st.dst.name ∧ st'.dst.objective.sense = st.dst.objective.sense ∧
      (∀ x, st'.dst.objective.val x = st.dst.objective.val x) ∧
      ∀ x : List ℚ, x.length = st.dst.numVars → st'.interpret x = .ok x := by
  obtain ⟨⟨hc, hq, _⟩, _, h1, h2, h3⟩ := toQubo_stages h
  have hf1 := ineqToEq_facts hs h1
  have hf2 := intToBin_facts hf1.starts.wf h2
  have hf3 := toPenalty_facts hf2.wf h3
  obtain ⟨hbe, hce⟩ := eqs_vars hf1 hc
  have hbin := i2b_binary hf2 hbe hce
  have hdst : ∀ v ∈ st.dst.vars, v.vartype = .binary ∧ v.lb = 0 ∧ v.ub = 1 := by
    intro v hv
    rw [hf3.vars] at hv
    obtain ⟨w, hw, rfl⟩ := List.mem_map.mp hv
    simp [plainVar, (hbin w hw).1, binVar]
  have hcst := hf3.csts
  simp only [QP.allCsts, List.append_eq_nil_iff, List.map_eq_nil_iff] at hcst
  obtain ⟨st', a1, a2, a3⟩ := C84_qubo hf3.wf (fun v hv => (hdst v hv).1)
    (fun v hv => by rw [(hdst v hv).2.1, (hdst v hv).2.2]; norm_num) hcst.1 hcst.2 penalty'
  refine ⟨st', a1, ?_, a3⟩
  rw [a2]
  refine (List.map_congr_left (g := id) fun v hv => ?_).trans (List.map_id _)
  obtain ⟨t, l, u⟩ := hdst v hv
  cases v
  simp only at t l u
  simp [t, l, u]

example : fullQP.WF ∧ fullQP.toQubo none = .ok (fullState none) ∧
    ((fullState none).dst.toQubo (some 3)).toOption.map (fun st => st.dst.numVars) = some 7 ∧
    ((fullState none).dst.toQubo (some 3)).toOption.map (fun st => st.dst.objective.constant) =
      some (fullState none).dst.objective.constant := by
  refine ⟨by decide +kernel, by decide +kernel, by decide +kernel, by decide +kernel⟩

end Verif
