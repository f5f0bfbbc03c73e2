import Verif.PropsRenumber
import Verif.PropsOrderQubo

/-!
# C116: the order of the variables: bits, penalties, QUBO
-/

namespace Verif

variable {p p' d d' : QP} {b b' : I2B}

/-! ## Penalties -/

theorem gaps_same {y y' : Nat → ℚ} (hy : SamePoint p p' y y') {l l' : List LinCst}
    (h : List.Forall₂ (SameCst p p') (l.map .lin) (l'.map .lin)) : l'.map (gap y') = l.map (gap y) := by
  induction l generalizing l' with
  | nil =>
    cases l' with
    | nil => rfl
    | cons k' l' => cases h
  | cons k l ih =>
    cases l' with
    | nil => cases h
    | cons k' l' =>
      cases h with
      | cons h1 h2 =>
        have a1 : k'.name = k.name := h1.name
        have a2 : k'.rhs = k.rhs := h1.rhs
        have a3 : k'.linear.val y' = k.linear.val y := h1.val y y' hy
        rw [List.map_cons, List.map_cons, ih h2, gap, gap, a1, a2, a3]

theorem Renumbered.autoPenalty (h : Renumbered p p') (hp : p.WF) (hp' : p'.WF) : Verif.autoPenalty p' = Verif.autoPenalty p := by
  have hgap : ∀ y y', SamePoint p p' y y' → (p'.lins.map (gap y')).Perm (p.lins.map (gap y)) :=
    fun y y' hy => List.Perm.of_eq (gaps_same hy h.lins)
  have hany : anyFloat (p'.lins.flatMap fun c => c.rhs :: c.linear.coeffs.values) =
      anyFloat (p.lins.flatMap fun c => c.rhs :: c.linear.coeffs.values) := by
    rw [Bool.eq_iff_iff]
    exact ⟨anyFloat_gaps hp hp' h.vars hgap, anyFloat_gaps hp' hp h.vars.symm fun y y' hy => (hgap y' y hy.symm).symm⟩
  have s1 := h.objective.linSum hp hp' h.vars hp.objLin hp'.objLin hp.objQuad.1 hp'.objQuad.1 (fun _ a => |a|) (fun _ a => |a|)
    (by simp) (by simp) (fun _ _ _ => rfl)
  have s2 := h.objective.quadSum hp hp' h.vars hp.objLin.1 hp'.objLin.1 hp.objQuad hp'.objQuad (fun _ _ a => |a|) (fun _ _ a => |a|)
    (by simp) (by simp) (fun _ _ _ => rfl) (fun _ _ _ => rfl) (fun _ _ _ _ _ => rfl)
  unfold Verif.autoPenalty
  rw [hany]
  simp only [List.sum_cons, List.sum_append, Dict.values, List.map_map, Function.comp_def, QuadExpr.toDict] at s1 s2 ⊢
  simp only [s1, s2, Bool.false_eq_true, if_false]

/-- **C116** (penalties): `LinearEqualityToPenalty` chooses the same penalty and makes of the two programs again the same program
with its variables in another order, or raises the same error for both. -/
theorem C116_penalty (penalty : Option ℚ) (p p' : QP) (hp : p.WF) (hp' : p'.WF) (h : Renumbered p p') :
    (p.toPenalty penalty = .error .optimization ∧ p'.toPenalty penalty = .error .optimization) ∨
    ∃ d d' pen, p.toPenalty penalty = .ok (d, pen) ∧ p'.toPenalty penalty = .ok (d', pen) ∧ Renumbered d d' := by
  have hsense : ∀ {q q' : QP} {l l' : List LinCst}, List.Forall₂ (SameCst q q') (l.map .lin) (l'.map .lin) →
      (∀ c ∈ l, c.sense = .eq) → ∀ c ∈ l', c.sense = .eq := by
    intro q q' l l' hf hl c' hc'
    obtain ⟨c, hc, hcc⟩ := forall₂_right hf (List.mem_map_of_mem (f := Cst.lin) hc')
    obtain ⟨k, hk, rfl⟩ := List.mem_map.mp hc
    have : c'.sense = k.sense := hcc.sense
    rw [this, hl k hk]
  have hsense' : ∀ {q q' : QP} {l l' : List LinCst}, List.Forall₂ (SameCst q q') (l.map .lin) (l'.map .lin) →
      (∃ c ∈ l, c.sense ≠ .eq) → ∃ c ∈ l', c.sense ≠ .eq := by
    rintro q q' l l' hf ⟨c, hc, hne⟩
    obtain ⟨c', hc', hcc⟩ := forall2_mem_left hf (.lin c) (List.mem_map_of_mem hc)
    obtain ⟨k, hk, rfl⟩ := List.mem_map.mp hc'
    have : k.sense = c.sense := hcc.sense
    exact ⟨k, hk, by rw [this]; exact hne⟩
  by_cases he : ∀ c ∈ p.lins, c.sense = .eq
  · have he' := hsense h.lins he
    cases h0 : copyAllVars p.vars (QP.empty p.name) with
    | error e =>
      refine Or.inl ⟨by simp only [QP.toPenalty, h0, copyAllVars_error h0], ?_⟩
      cases h0' : copyAllVars p'.vars (QP.empty p'.name) with
      | error e' => simp only [QP.toPenalty, h0', copyAllVars_error h0']
      | ok d' =>
        obtain ⟨d, hd⟩ := copyAllVars_perm (n' := p.name) hp h.vars.symm h0'
        rw [h0] at hd
        cases hd
    | ok d0 =>
      obtain ⟨d0', h0'⟩ := copyAllVars_perm (n' := p'.name) hp' h.vars h0
      obtain ⟨d, hd⟩ := toPenalty_of_copy (penalty := penalty) hp h0 he
      obtain ⟨d', hd'⟩ := toPenalty_of_copy (penalty := penalty) hp' h0' he'
      rw [h.autoPenalty hp hp'] at hd'
      have f := toPenalty_facts hp hd
      have f' := toPenalty_facts hp' hd'
      have none : d.lins = [] ∧ d.quads = [] := by simpa [QP.allCsts] using f.csts
      have none' : d'.lins = [] ∧ d'.quads = [] := by simpa [QP.allCsts] using f'.csts
      refine Or.inr ⟨d, d', _, hd, hd', by rw [f'.name, f.name, h.name], by rw [f'.vars, f.vars]; exact h.vars.map _,
        by rw [f'.sense, f.sense, h.sense], ?_, by rw [none.1, none'.1]; exact .nil, by rw [none.2, none'.2]; exact .nil⟩
      intro y y' hy
      have hy' : SamePoint p p' y y' := hy.source (A := []) (A' := []) (by simpa using f.vars) (by simpa using f'.vars)
      rw [f'.obj, f.obj, h.sense, h.objective y y' hy', ← sumSquares_eq, ← sumSquares_eq,
        sumSquares_gaps (List.Perm.of_eq (gaps_same hy' h.lins))]
  · push Not at he
    exact Or.inl ⟨C19_rejects penalty p he, C19_rejects penalty p' (hsense' h.lins he)⟩

/-- Equalities with continuous slack variables. -/
def renEqs : QP := match renIneq.ineqToEq .continuous with | .ok d => d | .error _ => QP.empty ""

/-- See `renEqs`. -/
def renEqs2 : QP := match renIneq2.ineqToEq .continuous with | .ok d => d | .error _ => QP.empty ""

example : Renumbered renEqs renEqs2 ∧ renEqs.WF ∧ renEqs2.WF ∧
    (renEqs.toPenalty none).toOption.map (fun r => (r.2, r.1.objective.val (pt [1, 2, 3, 4]))) = some (7, -168) ∧
    (renEqs2.toPenalty none).toOption.map (fun r => (r.2, r.1.objective.val (pt [2, 1, 3, 4]))) = some (7, -168) :=
  ⟨(C116_slack .continuous renIneq renIneq2 renEqs renEqs2 (by decide +kernel) (by decide +kernel) (by decide +kernel)
    renumbered_example2 (by decide +kernel) (by decide +kernel)).1, by decide +kernel, by decide +kernel, by decide +kernel,
    by decide +kernel⟩

/-- Inequalities are rejected for both. -/
example : renIneq.toPenalty none = .error .optimization ∧ renIneq2.toPenalty none = .error .optimization := by decide +kernel

/-! ## Bits -/

theorem encVal_same (hw : d.WF) (hw' : d'.WF) (hp : d'.vars.Perm d.vars) (hf : I2BFacts d b) (hf' : I2BFacts d' b')
    {Y Y' : String → ℚ} {v : Variable} (hv : v ∈ d.vars) (hY : ∀ a ∈ outs b.conv v.name, Y' a = Y a) :
    encVal d' b'.conv Y' v.name = encVal d b.conv Y v.name := by
  have hv' := hp.mem_iff.mpr hv
  have hc := hf.same_conv hf' hv hv'
  unfold encVal
  rw [hc, lbAt_var hw.cons hv, lbAt_var hw'.cons hv']
  unfold outs at hY
  cases hg : Assoc.get? b.conv v.name with
  | none => rw [hg] at hY; exact hY _ (by simp)
  | some enc =>
    rw [hg] at hY
    simp only
    congr 2
    exact List.map_congr_left fun q hq => by rw [hY q.1 (List.mem_map_of_mem hq)]

theorem decoded_same (hw : d.WF) (hw' : d'.WF) (hp : d'.vars.Perm d.vars) (hf : I2BFacts d b) (hf' : I2BFacts d' b')
    (hb : b'.dst.vars.Perm b.dst.vars) {y y' : Nat → ℚ} (hy : SamePoint b.dst b'.dst y y') :
    SamePoint d d' (decoded d b y) (decoded d' b' y') := by
  intro i j v hi hj
  simp only [decoded, hi, hj]
  have hv := List.mem_of_getElem? hi
  exact encVal_same hw hw' hp hf hf' hv fun a ha => hy.nameVal hf.wf.cons hf'.wf.cons hb (hf.outs_mem hv ha)

theorem pairErr_comm (src : QP) (conv : Conv) (Y : String → ℚ) (s t : String) : pairErr src conv Y s t = pairErr src conv Y t s := by
  unfold pairErr
  cases Assoc.get? conv s <;> cases Assoc.get? conv t <;> simp only
  ring

theorem pairErr_same (hw : d.WF) (hw' : d'.WF) (hp : d'.vars.Perm d.vars) (hf : I2BFacts d b) (hf' : I2BFacts d' b')
    {Y Y' : String → ℚ} {v w : Variable} (hv : v ∈ d.vars) (hm : w ∈ d.vars) (hY : ∀ a ∈ outs b.conv v.name, Y' a = Y a)
    (hY2 : ∀ a ∈ outs b.conv w.name, Y' a = Y a) :
    pairErr d' b'.conv Y' v.name w.name = pairErr d b.conv Y v.name w.name := by
  have hv' := hp.mem_iff.mpr hv
  have hm' := hp.mem_iff.mpr hm
  unfold outs at hY hY2
  unfold pairErr
  rw [hf.same_conv hf' hv hv', hf.same_conv hf' hm hm', lbAt_var hw.cons hv, lbAt_var hw.cons hm, lbAt_var hw'.cons hv',
    lbAt_var hw'.cons hm']
  cases g1 : Assoc.get? b.conv v.name with
  | none => rfl
  | some ex =>
    cases g2 : Assoc.get? b.conv w.name with
    | none => rfl
    | some ey =>
      rw [g1] at hY
      rw [g2] at hY2
      simp only
      have s1 : (ex.map fun p => Y' p.1 * p.2 - Y' p.1) = ex.map fun p => Y p.1 * p.2 - Y p.1 :=
        List.map_congr_left fun p hp => by rw [hY p.1 (List.mem_map_of_mem hp)]
      have s2 : (ey.map fun p => Y' p.1 * p.2 - Y' p.1) = ey.map fun p => Y p.1 * p.2 - Y p.1 :=
        List.map_congr_left fun p hp => by rw [hY2 p.1 (List.mem_map_of_mem hp)]
      rw [s1, s2]

theorem varName_idx {q : QP} {v : Variable} (h : v ∈ q.vars) : varName q.vars (q.vars.idxOf v) = v.name := varName_at (atVar_spec h)

/-- What the conversion of a quadratic expression misses is the same. -/
theorem quadErr_same (hw : d.WF) (hw' : d'.WF) (hp : d'.vars.Perm d.vars) (hf : I2BFacts d b) (hf' : I2BFacts d' b')
    {o o' : Objective} (ho : SameValues d d' o o') (hl : o.linear.WF) (hl' : o'.linear.WF) (hq : o.quadratic.Fits d.numVars)
    (hq' : o'.quadratic.Fits d'.numVars) {Y Y' : String → ℚ} (hY : ∀ v ∈ d.vars, ∀ a ∈ outs b.conv v.name, Y' a = Y a) :
    quadErr d' b'.conv o'.quadratic Y' = quadErr d b.conv o.quadratic Y := by
  have := ho.quadSum hw hw' hp hl hl' hq hq'
    (fun i j a => a * pairErr d b.conv Y (varName d.vars i) (varName d.vars j))
    (fun i j a => a * pairErr d' b'.conv Y' (varName d'.vars i) (varName d'.vars j)) (by simp) (by simp)
    (fun i j a => by rw [pairErr_comm]) (fun i j a => by rw [pairErr_comm]) (by
      intro v hv w hm a
      rw [varName_idx hv, varName_idx hm, varName_idx (hp.mem_iff.mpr hv), varName_idx (hp.mem_iff.mpr hm),
        pairErr_same hw hw' hp hf hf' hv hm (hY v hv) (hY w hm)])
  simpa only [quadErr, QuadExpr.toDictNames, Dict.sum, List.map_map, Function.comp_def] using this

theorem bits_vars (hp : d'.vars.Perm d.vars) (hf : I2BFacts d b) (hf' : I2BFacts d' b')
    (hi : ∃ v ∈ d.vars, v.vartype = .integer) : b'.dst.vars.Perm b.dst.vars := by
  obtain ⟨u, hu, hut⟩ := hi
  have e : b.dst.vars = d.vars.flatMap (newVars b.conv) := by
    rcases hf.vars with h | ⟨-, -, h⟩
    · exact h
    · exact absurd hut (h u hu)
  have e' : b'.dst.vars = d'.vars.flatMap (newVars b'.conv) := by
    rcases hf'.vars with h | ⟨-, -, h⟩
    · exact h
    · exact absurd hut (h u (hp.mem_iff.mpr hu))
  have hc : ∀ v ∈ d'.vars, newVars b'.conv v = newVars b.conv v := by
    intro v hv
    unfold newVars
    rw [hf.same_conv hf' (hp.mem_iff.mp hv) hv]
  rw [e, e', List.flatMap_congr hc]
  exact hp.flatMap_right _

theorem numIntegerVars_pos (q : QP) : q.numIntegerVars > 0 ↔ ∃ v ∈ q.vars, v.vartype = .integer := by
  unfold QP.numIntegerVars
  rw [gt_iff_lt, List.length_pos_iff_exists_mem]
  simp only [List.mem_filter, decide_eq_true_eq]

/-- **C116** (bits): `IntegerToBinary` makes of the two programs again the same program with its variables in another order.
Interpreting points with the same values of the bits gives points with the same values of the variables. -/
theorem C116_bits (d d' : QP) (b b' : I2B) (hw : d.WF) (hw' : d'.WF) (hne : ∀ c ∈ d.allCsts, c.name ≠ "")
    (h : Renumbered d d') (hb : d.intToBin = .ok b) (hb' : d'.intToBin = .ok b') :
    Renumbered b.dst b'.dst ∧ ∀ y y' : List ℚ, y.length = b.dst.numVars → y'.length = b'.dst.numVars →
      SamePoint b.dst b'.dst (pt y) (pt y') →
      ∃ x x', b.interpret y = .ok x ∧ b'.interpret y' = .ok x' ∧ SamePoint d d' (pt x) (pt x') := by
  have hf := intToBin_facts hw hb
  have hf' := intToBin_facts hw' hb'
  have hperm : b'.dst.vars.Perm b.dst.vars := by
    by_cases hi : ∃ v ∈ d.vars, v.vartype = .integer
    · exact bits_vars h.vars hf hf' hi
    · have hi' : ¬ ∃ v ∈ d'.vars, v.vartype = .integer := fun ⟨v, hv, ht⟩ => hi ⟨v, h.vars.mem_iff.mp hv, ht⟩
      rw [← numIntegerVars_pos] at hi hi'
      simp only [QP.intToBin, if_neg hi, Except.ok.injEq] at hb
      simp only [QP.intToBin, if_neg hi', Except.ok.injEq] at hb'
      subst hb hb'
      exact h.vars
  have hY : ∀ {y y' : Nat → ℚ}, SamePoint b.dst b'.dst y y' → ∀ v ∈ d.vars, ∀ a ∈ outs b.conv v.name,
      nameVal b'.dst.varsIndex y' a = nameVal b.dst.varsIndex y a := fun hy v hv a ha =>
    hy.nameVal hf.wf.cons hf'.wf.cons hperm (hf.outs_mem hv ha)
  have hdec : ∀ {y y' : Nat → ℚ}, SamePoint b.dst b'.dst y y' → SamePoint d d' (decoded d b y) (decoded d' b' y') :=
    fun hy => decoded_same hw hw' h.vars hf hf' hperm hy
  -- a constraint is determined by its gap and its value at the origin
  have build : ∀ {c c' e e' : Cst}, SameCst d d' c c' → c ∈ d.allCsts → c' ∈ d'.allCsts → (c.name ≠ "" → e.name = c.name) →
      (c'.name ≠ "" → e'.name = c'.name) → e.sense = c.sense → e'.sense = c'.sense →
      (∀ y, e.val y - e.rhs = c.val (decoded d b y) - c.rhs - quadErr d b.conv c.poly.quadratic (nameVal b.dst.varsIndex y)) →
      (∀ y, e'.val y - e'.rhs = c'.val (decoded d' b' y) - c'.rhs - quadErr d' b'.conv c'.poly.quadratic (nameVal b'.dst.varsIndex y)) →
      SameCst b.dst b'.dst e e' := by
    intro c c' e e' hc hm hm' n1 n2 s1 s2 g1 g2
    have hcn := hne c hm
    have key : ∀ y y', SamePoint b.dst b'.dst y y' → e'.val y' - e'.rhs = e.val y - e.rhs := by
      intro y y' hy
      obtain ⟨f1, f2⟩ := Cst.poly_fits hw hm
      obtain ⟨f1', f2'⟩ := Cst.poly_fits hw' hm'
      rw [g1, g2, hc.val _ _ (hdec hy), hc.rhs, quadErr_same hw hw' h.vars hf hf' hc.values f1.1 f1'.1 f2 f2' (hY hy)]
    have zero : ∀ k : Cst, k.val (fun _ => 0) = 0 := by
      intro k
      cases k <;> simp [Cst.val, LinExpr.val_zero, QuadExpr.val_zero]
    have h0 := key _ _ (samePoint_zero b.dst b'.dst)
    rw [zero, zero] at h0
    have hr : e'.rhs = e.rhs := by linarith
    refine ⟨by rw [n1 hcn, n2 (by rw [hc.name]; exact hcn), hc.name], by rw [s1, s2, hc.sense], hr, ?_⟩
    intro y y' hy
    have := key y y' hy
    rw [hr] at this
    linarith
  have lins : ∀ {l l' m m' : List LinCst}, List.Forall₂ (SameCst d d') (l.map .lin) (l'.map .lin) → (∀ k ∈ l, k ∈ d.lins) →
      (∀ k ∈ l', k ∈ d'.lins) → List.Forall₂ (LinMatch' d b) l m → List.Forall₂ (LinMatch' d' b') l' m' →
      List.Forall₂ (SameCst b.dst b'.dst) (m.map .lin) (m'.map .lin) := by
    intro l l' m m' hl h1 h2 m1
    induction m1 generalizing l' m' with
    | nil =>
      intro m2
      cases l' with
      | nil => cases m2; exact .nil
      | cons k' l' => cases hl
    | @cons k e l m a1 a2 ih =>
      intro m2
      cases m2 with
      | nil => cases hl
      | @cons k' e' l' m' c1 c2 =>
        rw [List.forall_mem_cons] at h1 h2
        cases hl with
        | cons hc hl =>
          refine .cons (build hc (List.mem_append_left _ (List.mem_map_of_mem h1.1))
            (List.mem_append_left _ (List.mem_map_of_mem h2.1)) a1.name c1.name a1.sense c1.sense ?_ ?_) (ih hl h1.2 h2.2 c2)
          · intro y
            have := a1.val _ y (decoded_spec d b y)
            simpa [Cst.val, Cst.rhs, Cst.poly, quadErr, QuadExpr.toDictNames, Dict.sum] using this
          · intro y
            have := c1.val _ y (decoded_spec d' b' y)
            simpa [Cst.val, Cst.rhs, Cst.poly, quadErr, QuadExpr.toDictNames, Dict.sum] using this
  have quads : ∀ {l l' m m' : List QuadCst}, List.Forall₂ (SameCst d d') (l.map .quad) (l'.map .quad) → (∀ k ∈ l, k ∈ d.quads) →
      (∀ k ∈ l', k ∈ d'.quads) → List.Forall₂ (QuadMatch' d b) l m → List.Forall₂ (QuadMatch' d' b') l' m' →
      List.Forall₂ (SameCst b.dst b'.dst) (m.map .quad) (m'.map .quad) := by
    intro l l' m m' hl h1 h2 m1
    induction m1 generalizing l' m' with
    | nil =>
      intro m2
      cases l' with
      | nil => cases m2; exact .nil
      | cons k' l' => cases hl
    | @cons k e l m a1 a2 ih =>
      intro m2
      cases m2 with
      | nil => cases hl
      | @cons k' e' l' m' c1 c2 =>
        rw [List.forall_mem_cons] at h1 h2
        cases hl with
        | cons hc hl =>
          exact .cons (build hc (List.mem_append_right _ (List.mem_map_of_mem h1.1))
            (List.mem_append_right _ (List.mem_map_of_mem h2.1)) a1.name c1.name a1.sense c1.sense
            (fun y => a1.err _ y (decoded_spec d b y)) (fun y => c1.err _ y (decoded_spec d' b' y))) (ih hl h1.2 h2.2 c2)
  refine ⟨⟨by rw [hf'.name, hf.name, h.name], hperm, by rw [hf'.sense, hf.sense, h.sense], ?_,
    lins h.lins (fun _ hk => hk) (fun _ hk => hk) hf.lins hf'.lins, quads h.quads (fun _ hk => hk) (fun _ hk => hk) hf.quads hf'.quads⟩, ?_⟩
  · intro y y' hy
    rw [hf'.objErr _ _ (decoded_spec d' b' y'), hf.objErr _ _ (decoded_spec d b y), h.objective _ _ (hdec hy),
      quadErr_same hw hw' h.vars hf hf' h.objective hw.objLin.1 hw'.objLin.1 hw.objQuad hw'.objQuad (hY hy)]
  · intro y y' hy hy' hyy
    refine ⟨_, _, (interpret_iff hw hf y _).mpr ⟨hy.ge, rfl⟩, (interpret_iff hw' hf' y' _).mpr ⟨hy'.ge, rfl⟩, ?_⟩
    intro i j v hi hj
    have e1 : pt (d.vars.map fun v => encVal d b.conv (nameVal b.dst.varsIndex (pt y)) v.name) i =
        encVal d b.conv (nameVal b.dst.varsIndex (pt y)) v.name := by
      simp [pt, List.getD_eq_getElem?_getD, List.getElem?_map, hi]
    have e2 : pt (d'.vars.map fun v => encVal d' b'.conv (nameVal b'.dst.varsIndex (pt y')) v.name) j =
        encVal d' b'.conv (nameVal b'.dst.varsIndex (pt y')) v.name := by
      simp [pt, List.getD_eq_getElem?_getD, List.getElem?_map, hj]
    rw [e1, e2]
    have hv := List.mem_of_getElem? hi
    exact encVal_same hw hw' h.vars hf hf' hv (hY hyy v hv)

/-- The variable can be converted. -/
def Convertible (v : Variable) : Prop :=
  match v.vartype with
  | .integer => ∃ enc, convertVar v.name v.lb v.ub = .ok enc
  | .continuous => v.lb ≤ v.ub
  | .binary => True

/-- The names of the variables that stand for a variable. -/
def standsFor (v : Variable) : List String :=
  match v.vartype with
  | .integer => bitNames v
  | _ => [v.name]

theorem addVariable_iff {dst : QP} (hd : dst.Consistent) {lb ub : ℚ} {t : VarType} {s : String} :
    (∃ v d, dst.addVariable lb ub t (some s) = (.ok v, d)) ↔ s ∉ dst.vars.map Variable.name ∧ lb ≤ ub := by
  constructor
  · rintro ⟨v, d, h⟩
    have := addVariable_grows h
    rw [hd.vars.keys] at this
    exact ⟨this.2.2.1, this.2.1⟩
  · rintro ⟨h1, h2⟩
    obtain ⟨d, h⟩ := addVariable_success (p := dst) (lb := lb) (ub := ub) (t := t) (s := s) (by rw [hd.vars.keys]; exact h1) h2
    exact ⟨_, d, h⟩

/-- When the variables can be declared. -/
theorem i2bVars_iff {l : List Variable} {conv : Conv} {dst : QP} (hd : dst.Consistent) :
    (∃ r, i2bVars l conv dst = .ok r) ↔ (∀ v ∈ l, Convertible v) ∧ (dst.vars.map Variable.name ++ l.flatMap standsFor).Nodup := by
  induction l generalizing conv dst with
  | nil => simpa [i2bVars] using hd.vars.2
  | cons v l ih =>
    rw [List.forall_mem_cons, List.flatMap_cons, ← List.append_assoc]
    have single : ∀ (lb ub : ℚ) (t : VarType), (Convertible v ↔ lb ≤ ub) → standsFor v = [v.name] →
        ((∃ r, (match dst.addVariable lb ub t (some v.name) with
          | (.error e, _) => (.error e : Except Err (Conv × QP))
          | (.ok _, dst) => i2bVars l conv dst) = .ok r) ↔
        (Convertible v ∧ ∀ w ∈ l, Convertible w) ∧
          (dst.vars.map Variable.name ++ standsFor v ++ l.flatMap standsFor).Nodup) := by
      intro lb ub t hc hs
      rw [hs]
      rcases hadd : dst.addVariable lb ub t (some v.name) with ⟨r, d⟩
      cases r with
      | error e =>
        refine ⟨fun ⟨r, h⟩ => by simp at h, ?_⟩
        rintro ⟨⟨h1, -⟩, h2⟩
        have h3 : v.name ∉ dst.vars.map Variable.name := by
          have := (List.nodup_append.mp (List.nodup_append.mp h2).1).2.2
          intro hm
          exact this _ hm _ (by simp) rfl
        obtain ⟨w, d', h⟩ := (addVariable_iff hd (t := t)).mpr ⟨h3, hc.mp h1⟩
        rw [hadd] at h
        cases h
      | ok w =>
        have hg := addVariable_grows hadd
        have := ih (conv := conv) (hg.1.cons hd)
        rw [hg.1.vars, List.map_append, List.map_singleton] at this
        simp only
        rw [this]
        constructor
        · rintro ⟨h1, h2⟩
          exact ⟨⟨hc.mpr hg.2.1, h1⟩, h2⟩
        · rintro ⟨⟨-, h1⟩, h2⟩
          exact ⟨h1, h2⟩
    cases ht : v.vartype with
    | integer =>
      have hcv : Convertible v ↔ ∃ enc, convertVar v.name v.lb v.ub = .ok enc := by simp [Convertible, ht]
      have hsv : standsFor v = bitNames v := by simp [standsFor, ht]
      rw [hcv, hsv]
      simp only [i2bVars, ht]
      cases he : convertVar v.name v.lb v.ub with
      | error e => simp
      | ok enc =>
        have hbn : bitNames v = enc.map Prod.fst := by simp [bitNames, he]
        rw [hbn]
        have hone := addBins_total (enc := enc) hd
        by_cases h1 : (dst.vars.map Variable.name ++ enc.map Prod.fst).Nodup
        · obtain ⟨d, hadd⟩ := hone.1 h1
          have hg := addBins_grows hadd
          have := ih (conv := Assoc.set conv v.name enc) (hg.cons hd)
          rw [hg.vars, List.map_append, List.map_map] at this
          simp only [hadd]
          rw [this]
          constructor
          · rintro ⟨h2, h3⟩
            exact ⟨⟨⟨enc, rfl⟩, h2⟩, h3⟩
          · rintro ⟨⟨-, h2⟩, h3⟩
            exact ⟨h2, h3⟩
        · simp only [hone.2 h1]
          refine ⟨fun ⟨r, h⟩ => by simp at h, ?_⟩
          rintro ⟨-, h2⟩
          exact absurd (List.nodup_append.mp h2).1 h1
    | continuous =>
      have := single v.lb v.ub .continuous (by simp [Convertible, ht]) (by simp [standsFor, ht])
      simp only [i2bVars, ht, QP.continuousVar]
      exact this
    | binary =>
      have := single 0 1 .binary (by simp [Convertible, ht]) (by simp [standsFor, ht])
      simp only [i2bVars, ht, QP.binaryVar]
      exact this

theorem bits_ok (hw' : d'.WF) (hne : ∀ c ∈ d.allCsts, c.name ≠ "") (h : Renumbered d d') (hb : d.intToBin = .ok b) :
    ∃ b', d'.intToBin = .ok b' := by
  by_cases hi : d.numIntegerVars > 0
  · have hi' : d'.numIntegerVars > 0 := by
      rw [numIntegerVars_pos] at hi ⊢
      obtain ⟨v, hv, ht⟩ := hi
      exact ⟨v, h.vars.mem_iff.mpr hv, ht⟩
    have h0 : ∃ r, i2bVars d.vars [] (QP.empty d.name) = .ok r := by
      simp only [QP.intToBin, if_pos hi] at hb
      split at hb
      · cases hb
      · rename_i r hr
        exact ⟨_, hr⟩
    have h0' : ∃ r, i2bVars d'.vars [] (QP.empty d'.name) = .ok r := by
      rw [i2bVars_iff (QP.empty_consistent _)] at h0 ⊢
      refine ⟨fun v hv => h0.1 v (h.vars.mem_iff.mp hv), ?_⟩
      have := (h.vars.flatMap_right standsFor).nodup_iff
      simpa [QP.empty, this] using h0.2
    obtain ⟨⟨conv, d0⟩, hr⟩ := h0'
    have hn' := h.names hne
    exact intToBin_of_vars hw' (fun c hc => hn' (.lin c) (List.mem_append_left _ (List.mem_map_of_mem hc)))
      (fun c hc => hn' (.quad c) (List.mem_append_right _ (List.mem_map_of_mem hc))) hr
  · have hi' : ¬ d'.numIntegerVars > 0 := by
      rw [numIntegerVars_pos] at hi ⊢
      rintro ⟨v, hv, ht⟩
      exact hi ⟨v, h.vars.mem_iff.mp hv, ht⟩
    exact ⟨⟨d', d', []⟩, by simp only [QP.intToBin, if_neg hi']⟩

/-- The roles of the two programs can be exchanged. -/
theorem Renumbered.symm (h : Renumbered p p') : Renumbered p' p := by
  have : ∀ {l l' : List Cst}, List.Forall₂ (SameCst p p') l l' → List.Forall₂ (SameCst p' p) l' l := by
    intro l l' hl
    induction hl with
    | nil => exact .nil
    | cons hc _ ih => exact .cons ⟨hc.name.symm, hc.sense.symm, hc.rhs.symm, fun y y' hy => (hc.val y' y hy.symm).symm⟩ ih
  exact ⟨h.name.symm, h.vars.symm, h.sense.symm, fun y y' hy => (h.objective y' y hy.symm).symm, this h.lins, this h.quads⟩

/-- **C116** (bits, errors): `IntegerToBinary` converts both programs or none. -/
theorem C116_bits_errors (d d' : QP) (hw : d.WF) (hw' : d'.WF) (hne : ∀ c ∈ d.allCsts, c.name ≠ "") (h : Renumbered d d') :
    (∃ b, d.intToBin = .ok b) ↔ ∃ b', d'.intToBin = .ok b' :=
  ⟨fun ⟨_, hb⟩ => bits_ok hw' hne h hb, fun ⟨_, hb⟩ => bits_ok hw (h.names hne) h.symm hb⟩

/-- Bits and interpretation of a point. -/
def bitsAt (p : QP) (y : List ℚ) : Option (List String × List ℚ) :=
  match p.intToBin with
  | .error _ => none
  | .ok b => (b.interpret y).toOption.map fun x => (b.dst.vars.map Variable.name, x)

example : renQP.WF ∧ renQP2.WF ∧ (∀ c ∈ renQP.allCsts, c.name ≠ "") ∧
    bitsAt renQP [1, 0, 1] = some (["b", "x@0", "x@1"], [1, 1]) ∧
    bitsAt renQP2 [0, 1, 1] = some (["x@0", "x@1", "b"], [1, 1]) := by decide +kernel

/-! ## The QUBO -/

/-- **C116** (QUBO): `QuadraticProgramToQubo` uses the same penalty and makes of the two programs the same QUBO with its
variables in another order; points with the same values of the bits have the same objective value and are interpreted as points
with the same values of the variables of the source. -/
theorem C116_qubo (penalty : Option ℚ) (p p' : QP) (st st' : QuboState) (hp : p.WF) (hp' : p'.WF)
    (hne : ∀ c ∈ p.allCsts, c.name ≠ "") (h : Renumbered p p') (hst : p.toQubo penalty = .ok st)
    (hst' : p'.toQubo penalty = .ok st') :
    st'.pen = st.pen ∧ Renumbered st.dst st'.dst ∧
    ∀ z z' : List ℚ, z.length = st.dst.numVars → z'.length = st'.dst.numVars → SamePoint st.dst st'.dst (pt z) (pt z') →
      st'.dst.objective.val (pt z') = st.dst.objective.val (pt z) ∧
      ∃ x x', st.interpret z = .ok x ∧ st'.interpret z' = .ok x' ∧ SamePoint p p' (pt x) (pt x') := by
  obtain ⟨-, hsrc, h1, h2, h3⟩ := toQubo_stages hst
  obtain ⟨-, hsrc', g1, g2, g3⟩ := toQubo_stages hst'
  obtain ⟨w1, v1, l1, q1⟩ := ineqToEq_form hp h1
  obtain ⟨w2, v2, l2, q2⟩ := ineqToEq_form hp' g1
  obtain ⟨r1, i1⟩ := C116_slack .integer p p' _ _ hp hp' hne h h1 g1
  have hne1 : ∀ c ∈ st.eqs.allCsts, c.name ≠ "" := by
    intro c hc
    have := forall2_append l1 q1
    obtain ⟨k, hk, hform⟩ := forall₂_right this hc
    rw [hform.name (hne k hk)]
    exact hne k hk
  obtain ⟨r2, i2⟩ := C116_bits _ _ _ _ w1 w2 hne1 r1 h2 g2
  have hf := intToBin_facts w1 h2
  have hf' := intToBin_facts w2 g2
  have f := toPenalty_facts hf.wf h3
  have f' := toPenalty_facts hf'.wf g3
  rcases C116_penalty penalty _ _ hf.wf hf'.wf r2 with ⟨e, -⟩ | ⟨d, d', pen, e1, e2, r3⟩
  · rw [h3] at e; cases e
  rw [h3, Except.ok.injEq, Prod.mk.injEq] at e1
  rw [g3, Except.ok.injEq, Prod.mk.injEq] at e2
  obtain ⟨rfl, rfl⟩ := e1
  obtain ⟨rfl, e3⟩ := e2
  refine ⟨e3, r3, ?_⟩
  intro z z' hz hz' hy
  refine ⟨r3.objective _ _ hy, ?_⟩
  have hn : z.length = st.i2b.dst.numVars := by rw [hz, QP.numVars, QP.numVars, f.vars, List.length_map]
  have hn' : z'.length = st'.i2b.dst.numVars := by rw [hz', QP.numVars, QP.numVars, f'.vars, List.length_map]
  have hy' : SamePoint st.i2b.dst st'.i2b.dst (pt z) (pt z') :=
    hy.source (A := []) (A' := []) (by simpa using f.vars) (by simpa using f'.vars)
  obtain ⟨x, x', e4, e5, hx⟩ := i2 z z' hn hn' hy'
  have hl : x.length = st.eqs.numVars := by
    rw [((interpret_iff w1 hf z x).mp e4).2, List.length_map, QP.numVars]
  have hl' : x'.length = st'.eqs.numVars := by
    rw [((interpret_iff w2 hf' z' x').mp e5).2, List.length_map, QP.numVars]
  obtain ⟨u, u', e6, e7, hu⟩ := i1 x x' hl hl' hx
  refine ⟨u, u', ?_, ?_, hu⟩
  · simp only [QuboState.interpret, penInterpret, hn, ne_eq, not_true_eq_false, if_false, e4, hsrc]
    exact e6
  · simp only [QuboState.interpret, penInterpret, hn', ne_eq, not_true_eq_false, if_false, e5, hsrc']
    exact e7

example : renIneq.WF ∧ renIneq2.WF ∧ (∀ c ∈ renIneq.allCsts, c.name ≠ "") ∧
    quboShape renIneq = some (["b", "x@0", "x@1", "c@int_slack@0", "c@int_slack@1", "r@int_slack@0", "r@int_slack@1",
      "r@int_slack@2"], 32) ∧
    quboShape renIneq2 = some (["x@0", "x@1", "b", "c@int_slack@0", "c@int_slack@1", "r@int_slack@0", "r@int_slack@1",
      "r@int_slack@2"], 32) ∧
    quboAt renIneq [1, 0, 1, 1, 0, 1, 0, 1] = some ([1, 1], -157) ∧
    quboAt renIneq2 [0, 1, 1, 1, 0, 1, 0, 1] = some ([1, 1], -157) := by decide +kernel

example : Renumbered renIneq renIneq2 := renumbered_example2

theorem qubo_ok {penalty : Option ℚ} {st : QuboState} (hp : p.WF) (hp' : p'.WF) (hne : ∀ c ∈ p.allCsts, c.name ≠ "")
    (h : Renumbered p p') (hst : p.toQubo penalty = .ok st) : ∃ st', p'.toQubo penalty = .ok st' := by
  obtain ⟨⟨c1, c2, c3⟩, -, h1, h2, h3⟩ := toQubo_stages hst
  have hm : ¬ (quboMsg p').length > 0 := by
    rw [quboMsg_empty]
    refine ⟨fun v hv => c1 v (h.vars.mem_iff.mp hv), ?_, ?_⟩
    · have := h.quads
      rw [c2] at this
      exact List.length_eq_zero_iff.mp (by simpa using this.length_eq.symm)
    · intro k' hk'
      obtain ⟨c, hc, hcc⟩ := forall₂_right h.lins (List.mem_map_of_mem (f := Cst.lin) hk')
      obtain ⟨k, hk, rfl⟩ := List.mem_map.mp hc
      have hi : (Cst.lin k).allInt = true := (Cst.allInt_iff _).mpr (c3 k hk)
      have := (hcc.data .integer hp hp' h.vars (List.mem_append_left _ hc)
        (List.mem_append_left _ (List.mem_map_of_mem hk'))).allInt
      rw [hi] at this
      exact (Cst.allInt_iff _).mp this
  rcases C116_slack_errors .integer p p' hp hp' hne h with ⟨e, -⟩ | ⟨e, e', he, he'⟩
  · rw [h1] at e; cases e
  rw [h1, Except.ok.injEq] at he
  subst he
  obtain ⟨w1, v1, l1, q1⟩ := ineqToEq_form hp h1
  obtain ⟨w2, v2, l2, q2⟩ := ineqToEq_form hp' he'
  obtain ⟨r1, -⟩ := C116_slack .integer p p' _ _ hp hp' hne h h1 he'
  have hne1 : ∀ c ∈ st.eqs.allCsts, c.name ≠ "" := by
    intro c hc
    obtain ⟨k, hk, hform⟩ := forall₂_right (forall2_append l1 q1) hc
    rw [hform.name (hne k hk)]
    exact hne k hk
  obtain ⟨b', hb'⟩ := bits_ok w2 hne1 r1 h2
  obtain ⟨r2, -⟩ := C116_bits _ _ _ _ w1 w2 hne1 r1 h2 hb'
  rcases C116_penalty penalty _ _ (intToBin_facts w1 h2).wf (intToBin_facts w2 hb').wf r2 with ⟨e, -⟩ | ⟨d, d', pen, e1, e2, -⟩
  · rw [h3] at e; cases e
  unfold QP.toQubo
  simp only [if_neg hm, he', hb', e2]
  exact ⟨_, rfl⟩

/-- **C116** (QUBO, errors): `QuadraticProgramToQubo` converts both programs or none. -/
theorem C116_qubo_errors (penalty : Option ℚ) (p p' : QP) (hp : p.WF) (hp' : p'.WF) (hne : ∀ c ∈ p.allCsts, c.name ≠ "")
    (h : Renumbered p p') : (∃ st, p.toQubo penalty = .ok st) ↔ ∃ st', p'.toQubo penalty = .ok st' :=
  ⟨fun ⟨_, hs⟩ => qubo_ok hp hp' hne h hs, fun ⟨_, hs⟩ => qubo_ok hp' hp (h.names hne) h.symm hs⟩

/-- The programs with a quadratic constraint are rejected in both orders. -/
example : (renIneq.toQubo none).isOk ∧ (renIneq2.toQubo none).isOk ∧ ¬ (renQP.toQubo none).isOk ∧ ¬ (renQP2.toQubo none).isOk := by
  decide +kernel

end Verif
