import Verif.BitsTotal

/-!
# C115: the order of the constraints and the QUBO
-/

namespace Verif

/-- What the three stages make of reordered constraints. -/
structure SameQubo (p : QP) (st st' : QuboState) : Prop where
  tail : SwapTail (p.vars.map plainVar) st.eqs st'.eqs
  bits : I2BFacts st.eqs st.i2b
  bits' : I2BFacts st'.eqs st'.i2b
  vars : st.dst.vars = st.i2b.dst.vars
  vars' : st'.dst.vars = st'.i2b.dst.vars

theorem sameQubo {penalty : Option ℚ} {p p' : QP} {st st' : QuboState} (hp : p.WF) (hp' : p'.WF)
    (hne : ∀ c ∈ p.allCsts, c.name ≠ "") (h : Reordered p p') (hst : p.toQubo penalty = .ok st)
    (hst' : p'.toQubo penalty = .ok st') : SameQubo p st st' := by
  obtain ⟨-, -, h1, h2, h3⟩ := toQubo_stages hst
  obtain ⟨-, -, g1, g2, g3⟩ := toQubo_stages hst'
  have ht := swapTail_of hp hp' hne h h1 g1
  have hf := intToBin_facts ht.wf h2
  have hf' := intToBin_facts ht.wf' g2
  refine ⟨ht, hf, hf', ?_, ?_⟩
  · rw [(toPenalty_facts hf.wf h3).vars]; exact hf.plainDst ht.plain
  · rw [(toPenalty_facts hf'.wf g3).vars]
    exact hf'.plainDst fun v hv => ht.plain v (ht.perm.mem_iff.mp hv)

/-- Two inequalities. -/
def orderIneq : QP :=
  (runCalls (QP.empty "p") [.addVar 0 1 .binary (some "b"), .addVar 0 2 .integer (some "x"),
    .objective .maximize 1 (.dict [(.name "x", 2)]) (.dict []),
    .linear (.dict [(.name "b", 1), (.name "x", 1)]) (.sense .le) 1 (some "c"),
    .linear (.dict [(.name "b", 2), (.name "x", 1)]) (.sense .ge) 2 (some "r")]).2

/-- The same inequalities in the other order. -/
def orderIneq2 : QP :=
  (runCalls (QP.empty "p") [.addVar 0 1 .binary (some "b"), .addVar 0 2 .integer (some "x"),
    .objective .maximize 1 (.dict [(.name "x", 2)]) (.dict []),
    .linear (.dict [(.name "b", 2), (.name "x", 1)]) (.sense .ge) 2 (some "r"),
    .linear (.dict [(.name "b", 1), (.name "x", 1)]) (.sense .le) 1 (some "c")]).2

/-- The names of the bits, and the penalty. -/
def quboShape (p : QP) : Option (List String × ℚ) :=
  (p.toQubo none).toOption.map fun st => (st.dst.vars.map Variable.name, st.pen)

/-- Interpretation and objective value of a point of the QUBO. -/
def quboAt (p : QP) (z : List ℚ) : Option (List ℚ × ℚ) :=
  match p.toQubo none with
  | .error _ => none
  | .ok st => (st.interpret z).toOption.map fun x => (x, st.dst.objective.val (pt z))

/-- **C115** (QUBO): `QuadraticProgramToQubo` uses the same penalty and makes the same variables up to their order.  Every point of
one QUBO corresponds to a point of the other with the same values of the variables; the two have the same objective value and the
same interpretation. -/
theorem C115_qubo (penalty : Option ℚ) (p p' : QP) (st st' : QuboState) (hp : p.WF) (hp' : p'.WF)
    (hne : ∀ c ∈ p.allCsts, c.name ≠ "") (h : Reordered p p') (hst : p.toQubo penalty = .ok st)
    (hst' : p'.toQubo penalty = .ok st') :
    st'.pen = st.pen ∧ st'.dst.vars.Perm st.dst.vars ∧ st'.dst.objective.sense = st.dst.objective.sense ∧
    (∀ z : List ℚ, ∃ z' : List ℚ, z'.length = st'.dst.numVars ∧ SamePoint st.dst st'.dst (pt z) (pt z')) ∧
    ∀ z z' : List ℚ, z.length = st.dst.numVars → z'.length = st'.dst.numVars → SamePoint st.dst st'.dst (pt z) (pt z') →
      st'.dst.objective.val (pt z') = st.dst.objective.val (pt z) ∧ st'.interpret z' = st.interpret z ∧
      ∃ x, st.interpret z = .ok x := by
  obtain ⟨-, hsrc, h1, h2, h3⟩ := toQubo_stages hst
  obtain ⟨-, hsrc', g1, g2, g3⟩ := toQubo_stages hst'
  have hs := sameQubo hp hp' hne h hst hst'
  have ht := hs.tail
  have hf := hs.bits
  have hf' := hs.bits'
  have hbp := ht.bits_perm hf hf'
  have f := toPenalty_facts hf.wf h3
  have f' := toPenalty_facts hf'.wf g3
  have hpen : st'.pen = st.pen := by rw [f.penEq, f'.penEq, ht.autoPenalty hf hf']
  have hsense : st'.i2b.dst.objective.sense = st.i2b.dst.objective.sense := by rw [hf.sense, hf'.sense, ht.objective]
  refine ⟨hpen, by rw [hs.vars, hs.vars']; exact hbp, by rw [f.sense, f'.sense, hsense], ?_, ?_⟩
  · intro z
    refine ⟨st'.dst.vars.map fun v => pt z (st.dst.vars.idxOf v), by simp [QP.numVars], ?_⟩
    intro i j v hi hj
    have hv : pt (st'.dst.vars.map fun v => pt z (st.dst.vars.idxOf v)) j = pt z (st.dst.vars.idxOf v) := by
      simp only [pt, List.getD_eq_getElem?_getD, List.getElem?_map, hj]; rfl
    rw [hv]
    congr 1
    have hmem := List.mem_of_getElem? hi
    have := atVar_spec hmem
    exact position_unique f.wf this hi rfl
  · intro z z' hz hz' hy
    have hn : st.i2b.dst.numVars = z.length := by rw [hz, QP.numVars, QP.numVars, hs.vars]
    have hn' : st'.i2b.dst.numVars = z'.length := by rw [hz', QP.numVars, QP.numVars, hs.vars']
    have hyb : SamePoint st.i2b.dst st'.i2b.dst (pt z) (pt z') := by
      unfold SamePoint at hy ⊢
      rw [← hs.vars, ← hs.vars']; exact hy
    have hobj : st'.i2b.dst.objective.val (pt z') = st.i2b.dst.objective.val (pt z) := by
      apply ht.objVal hf hf'
      intro v hv a ha
      exact hyb.nameVal hf.wf.cons hf'.wf.cons hbp (hf.outs_mem (ht.memA hv) ha)
    refine ⟨?_, ?_⟩
    · rw [f.obj, f'.obj, hobj, hpen, hsense, ← sumSquares_eq, ← sumSquares_eq, sumSquares_gaps (ht.gaps hf hf' hyb)]
    · have e : st.i2b.interpret z = .ok (st.eqs.vars.map fun v => encVal st.eqs st.i2b.conv (nameVal st.i2b.dst.varsIndex (pt z)) v.name) :=
        (interpret_iff ht.wf hf z _).mpr ⟨le_of_eq hn, rfl⟩
      have e' : st'.i2b.interpret z' =
          .ok (st'.eqs.vars.map fun v => encVal st'.eqs st'.i2b.conv (nameVal st'.i2b.dst.varsIndex (pt z')) v.name) :=
        (interpret_iff ht.wf' hf' z' _).mpr ⟨le_of_eq hn', rfl⟩
      have hs1 := (ineqToEq_facts hp h1).starts
      have hs2 := (ineqToEq_facts hp' g1).starts
      have i1 := (ineqInterpret_iff hp.cons hs1 (st.eqs.vars.map fun v =>
        encVal st.eqs st.i2b.conv (nameVal st.i2b.dst.varsIndex (pt z)) v.name) _).mpr ⟨by simp [QP.numVars], rfl⟩
      have i2 := (ineqInterpret_iff hp'.cons hs2 (st'.eqs.vars.map fun v =>
        encVal st'.eqs st'.i2b.conv (nameVal st'.i2b.dst.varsIndex (pt z')) v.name) _).mpr ⟨by simp [QP.numVars], rfl⟩
      have r1 : st.interpret z = .ok ((st.eqs.vars.map fun v =>
          encVal st.eqs st.i2b.conv (nameVal st.i2b.dst.varsIndex (pt z)) v.name).take p.numVars) := by
        simp only [QuboState.interpret, penInterpret, hn, ne_eq, not_true_eq_false, if_false, e, hsrc]
        exact i1
      have r2 : st'.interpret z' = .ok ((st'.eqs.vars.map fun v =>
          encVal st'.eqs st'.i2b.conv (nameVal st'.i2b.dst.varsIndex (pt z')) v.name).take p'.numVars) := by
        simp only [QuboState.interpret, penInterpret, hn', ne_eq, not_true_eq_false, if_false, e', hsrc']
        exact i2
      refine ⟨?_, _, r1⟩
      rw [r1, r2]
      congr 1
      obtain ⟨S, S', t1, t2, -⟩ := ht.tails
      have hl : (p.vars.map plainVar).length = p.numVars := by simp [QP.numVars]
      rw [h.numVars, ← List.map_take, ← List.map_take, t1, t2, ← hl, List.take_left, List.take_left]
      refine List.map_congr_left fun v hv => ?_
      exact ht.encVal hf hf' (ht.memA hv) fun a ha =>
        hyb.nameVal hf.wf.cons hf'.wf.cons hbp (hf.outs_mem (ht.memA hv) ha)

example : orderIneq.WF ∧ orderIneq2.WF ∧ (∀ c ∈ orderIneq.allCsts, c.name ≠ "") ∧ Reordered orderIneq orderIneq2 ∧
    quboShape orderIneq = some (["b", "x@0", "x@1", "c@int_slack@0", "r@int_slack@0", "r@int_slack@1"], 5) ∧
    quboShape orderIneq2 = some (["b", "x@0", "x@1", "r@int_slack@0", "r@int_slack@1", "c@int_slack@0"], 5) ∧
    quboAt orderIneq [1, 1, 0, 1, 0, 1] = some ([1, 1], -17) ∧
    quboAt orderIneq2 [1, 1, 0, 0, 1, 1] = some ([1, 1], -17) := by decide +kernel

theorem quboMsg_perm {p p' : QP} (h : Reordered p p') : quboMsg p' = quboMsg p := by
  have hl : (p'.lins.all fun c => !anyFloat c.linear.coeffs.values) = p.lins.all fun c => !anyFloat c.linear.coeffs.values := by
    rw [Bool.eq_iff_iff]
    simp only [List.all_eq_true, h.lins.mem_iff]
  have hq : (p'.quads.all fun c => !(anyFloat (c.quadratic.toDict false).values || anyFloat c.linear.coeffs.values)) =
      p.quads.all fun c => !(anyFloat (c.quadratic.toDict false).values || anyFloat c.linear.coeffs.values) := by
    rw [Bool.eq_iff_iff]
    simp only [List.all_eq_true, h.quads.mem_iff]
  unfold quboMsg
  rw [h.vars, h.quads.length_eq, hl, hq]

theorem convertVar_pos {nm : String} {lb ub : ℚ} (h : lb < ub) : ∃ enc, convertVar nm lb ub = .ok enc := by
  unfold convertVar encodeCoeffs
  rw [if_neg (by linarith)]
  by_cases h1 : ub - lb < 1
  · rw [if_pos h1]; exact ⟨_, rfl⟩
  · rw [if_neg h1]; exact ⟨_, rfl⟩

theorem Cst.slack_pos {mode : SlackMode} {p : QP} {c : Cst} {v : Variable} (hv : v ∈ c.slack mode p) :
    v.lb < v.ub ∧ (mode = .integer → c.IntCoeffs → v.vartype = .integer) := by
  unfold Cst.slack at hv
  split at hv
  · rename_i hr
    rw [List.mem_singleton] at hv
    subst hv
    split
    · exact ⟨hr, fun _ _ => rfl⟩
    · rename_i hm
      exact ⟨hr, fun h1 h2 => absurd ⟨by rw [h1]; simp, (Cst.allInt_iff c).mpr h2⟩ hm⟩
  · simp at hv

theorem toPenalty_bits {penalty : Option ℚ} {p d : QP} {b : I2B} (hp : p.WF) (hpl : ∀ v ∈ d.vars, plainVar v = v)
    (hc : ∀ v ∈ p.vars, v.vartype ≠ .continuous) (h1 : p.ineqToEq .integer = .ok d) (h2 : d.intToBin = .ok b) :
    ∃ dst pen, b.dst.toPenalty penalty = .ok (dst, pen) := by
  have hf1 := ineqToEq_facts hp h1
  have hf := intToBin_facts hf1.starts.wf h2
  obtain ⟨-, v1, -, -⟩ := ineqToEq_form hp h1
  have hb : ∀ w ∈ b.dst.vars, w.lb ≤ w.ub := by
    intro w hw
    rw [hf.allVars hpl] at hw
    obtain ⟨v, hv, hw⟩ := List.mem_flatMap.mp hw
    unfold newVars at hw
    cases hg : Assoc.get? b.conv v.name with
    | some enc =>
      rw [hg] at hw
      obtain ⟨q, -, rfl⟩ := List.mem_map.mp hw
      exact zero_le_one
    | none =>
      rw [hg, List.mem_singleton] at hw
      rw [hw, hpl v hv]
      have hni : v.vartype ≠ .integer := by
        intro hi
        obtain ⟨e, he, -⟩ := hf.enc v hv hi
        rw [hg] at he; cases he
      rw [v1] at hv
      rcases List.mem_append.mp hv with hv | hv
      · obtain ⟨u, hu, rfl⟩ := List.mem_map.mp hv
        have huc := hc u hu
        by_cases hub : u.vartype = .binary
        · rw [plainVar, if_pos hub]; exact zero_le_one
        · rw [plainVar, if_neg hub] at hni
          cases ht : u.vartype <;> simp_all
      · obtain ⟨c, -, hv⟩ := List.mem_flatMap.mp hv
        exact (Cst.slack_pos hv).1.le
  obtain ⟨d0, h0⟩ := copyAllVars_success (vs := b.dst.vars) (QP.empty_consistent b.dst.name)
    (by simpa [QP.empty] using hf.wf.cons.vars.2) hb
  have he : ∀ c ∈ b.dst.lins, c.sense = .eq := by
    intro c hc
    obtain ⟨k, hk, hm⟩ := forall2_mem_right hf.lins c hc
    rw [hm.sense]
    exact hf1.eqs (.lin k) (List.mem_append_left _ (List.mem_map_of_mem hk))
  obtain ⟨dst, hd⟩ := toPenalty_of_copy (penalty := penalty) hf.wf h0 he
  exact ⟨dst, _, hd⟩

/-- **C115** (QUBO, errors): `QuadraticProgramToQubo` converts both programs or raises the same error for both. -/
theorem C115_qubo_errors (penalty : Option ℚ) (p p' : QP) (hp : p.WF) (hp' : p'.WF) (hne : ∀ c ∈ p.allCsts, c.name ≠ "")
    (h : Reordered p p') :
    (∃ e, p.toQubo penalty = .error e ∧ p'.toQubo penalty = .error e) ∨
      ∃ st st', p.toQubo penalty = .ok st ∧ p'.toQubo penalty = .ok st' := by
  unfold QP.toQubo
  rw [quboMsg_perm h]
  by_cases hm : (quboMsg p).length > 0
  · exact Or.inl ⟨_, by rw [if_pos hm], by rw [if_pos hm]⟩
  simp only [if_neg hm]
  obtain ⟨hc, hq, hco⟩ := (quboMsg_empty p).mp hm
  rcases C115_slack_errors .integer p p' hp hp' hne h with ⟨e, e1, e2⟩ | ⟨d, d', h1, g1⟩
  · exact Or.inl ⟨e, by rw [e1], by rw [e2]⟩
  have ht := swapTail_of hp hp' hne h h1 g1
  have hq' : p'.quads = [] := by have := h.quads; rw [hq] at this; exact this.eq_nil
  have hdq : d.quads = [] := (ineqToEq_facts hp h1).noQuads hq
  have hdq' : d'.quads = [] := (ineqToEq_facts hp' g1).noQuads hq'
  obtain ⟨-, v1, -, -⟩ := ineqToEq_form hp h1
  obtain ⟨-, v2, -, -⟩ := ineqToEq_form hp' g1
  have hsl : Cst.slack .integer p' = Cst.slack .integer p := funext (Cst.slack_vars h.vars .integer)
  have hS : ∀ v ∈ p.allCsts.flatMap (Cst.slack .integer p), v.vartype = .integer ∧ ∃ enc, convertVar v.name v.lb v.ub = .ok enc := by
    intro v hv
    obtain ⟨c, hcm, hv⟩ := List.mem_flatMap.mp hv
    obtain ⟨s1, s2⟩ := Cst.slack_pos hv
    refine ⟨s2 rfl ?_, convertVar_pos s1⟩
    unfold QP.allCsts at hcm
    rw [hq] at hcm
    simp only [List.map_nil, List.append_nil] at hcm
    obtain ⟨k, hk, rfl⟩ := List.mem_map.mp hcm
    exact hco k hk
  have hbits := intToBin_tails v1 (by rw [v2, h.vars, hsl]) (h.allCsts.flatMap_right (Cst.slack .integer p)) ht.wf ht.wf'
    (C115_slack .integer p p' d d' hp hp' hne h h1 g1).1 ht.names (by simp [hdq]) ht.names' (by simp [hdq']) hS
  simp only [h1, g1]
  rcases hbits with ⟨e, e1, e2⟩ | ⟨b, b', h2, g2⟩
  · exact Or.inl ⟨e, by simp only [e1], by simp only [e2]⟩
  obtain ⟨dst, pen, h3⟩ := toPenalty_bits (penalty := penalty) hp ht.plain hc h1 h2
  obtain ⟨dst', pen', g3⟩ := toPenalty_bits (penalty := penalty) hp' (fun v hv => ht.plain v (ht.perm.mem_iff.mp hv))
    (by rw [h.vars]; exact hc) g1 g2
  simp only [h2, g2, h3, g3]
  exact Or.inr ⟨_, _, rfl, rfl⟩

/-- Both convert; and programs with quadratic constraints are rejected in every order. -/
example : (orderIneq.toQubo none).isOk ∧ (orderIneq2.toQubo none).isOk ∧
    slackQP.toQubo none = .error .optimization ∧ slackQP2.toQubo none = .error .optimization := by decide +kernel

end Verif
