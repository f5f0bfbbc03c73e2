import Verif.PropsQubo

/-!
# What a single point of the QUBO says about the source
-/

namespace Verif

theorem i2eLins_eq_vars {mode : SlackMode} {src : QP} {ks : List LinCst} (he : ∀ k ∈ ks, k.sense = .eq) {d d' : QP}
    (h : i2eLins mode src ks d = .ok d') : d'.vars = d.vars := by
  induction ks generalizing d with
  | nil => simp only [i2eLins, Except.ok.injEq] at h; rw [h]
  | cons k ks ih =>
    simp only [i2eLins] at h
    split at h
    · simp at h
    · rename_i d1 h1
      rw [ih (fun k hk => he k (List.mem_cons_of_mem _ hk)) h]
      simp only [i2eLinOne, he k (by simp)] at h1
      split at h1
      · simp at h1
      · rename_i c d2 hadd
        simp only [Except.ok.injEq] at h1
        subst h1
        obtain ⟨_, _, _, _, _, _, _, rfl⟩ := linearConstraint_ok hadd
        rfl

/-- Equalities need no slack variables. -/
theorem ineqToEq_eq_numVars {src dst : QP} (he : ∀ k ∈ src.lins, k.sense = .eq) (hq : src.quads = [])
    (h : src.ineqToEq .integer = .ok dst) : dst.numVars = src.numVars := by
  unfold QP.ineqToEq at h
  split at h
  · simp at h
  · rename_i d0 h0
    have hg := copyAllVars_grows h0
    split at h
    · simp at h
    · rename_i u d1 h1
      obtain ⟨le, qe, e1, e2, rfl⟩ := setObjective_ok h1
      split at h
      · simp at h
      · rename_i d2 h2
        rw [hq] at h
        simp only [i2eQuads, Except.ok.injEq] at h
        subst h
        rw [QP.numVars, i2eLins_eq_vars he h2]
        show d0.vars.length = _
        rw [show d0.vars = src.vars.map plainVar by simpa [QP.empty] using hg.vars, List.length_map, QP.numVars]

/-- Every 0/1 point of the QUBO is interpreted as a point within the bounds, whose objective value is not worse than that
of the QUBO; if it is not feasible, the value of the QUBO is worse than those of all feasible points. -/
theorem qubo_sample {penalty : Option ℚ} {src : QP} {st : QuboState} (hs : src.WF) (hb : src.BinBoundsOK)
    (hi : ∀ v ∈ src.vars, v.vartype = .integer → (∃ z : Int, v.lb = z) ∧ ∃ z : Int, v.ub = z)
    (hp : ProductsOK src src.objective.quadratic) (h : src.toQubo penalty = .ok st)
    (hpen : ∀ p, penalty = some p → absSum st.i2b.dst.objective < p)
    (hfeas : ∃ x, src.Feas x) {z : List ℚ} (hlen : z.length = st.dst.numVars)
    (hz : ∀ i < st.dst.numVars, pt z i = 0 ∨ pt z i = 1) :
    ∃ x, st.interpret z = .ok x ∧ x.length = src.numVars ∧ src.InBounds (pt x) ∧ src.Integral (pt x) ∧
      src.objective.sense.value * src.objective.val (pt x) ≤ src.objective.sense.value * st.dst.objective.val (pt z) ∧
      (¬ src.Feas (pt x) → ∀ x', src.Feas x' →
        src.objective.sense.value * src.objective.val x' < src.objective.sense.value * st.dst.objective.val (pt z)) ∧
      ((∀ c ∈ src.lins, c.sense = .eq) → src.Feas (pt x) → st.dst.objective.val (pt z) = src.objective.val (pt x)) := by
  obtain ⟨⟨hc, hq, hco⟩, hsrc, h1, h2, h3⟩ := toQubo_stages h
  have hf1 := ineqToEq_facts hs h1
  have hwe := hf1.starts.wf
  have hf2 := intToBin_facts hwe h2
  have hf3 := toPenalty_facts hf2.wf h3
  obtain ⟨hbe, hce⟩ := eqs_vars hf1 hc
  obtain ⟨x0, hx0⟩ := hfeas
  have hbounds : ∀ v ∈ src.vars, (∃ z : Int, v.lb = z) ∧ ∃ z : Int, v.ub = z := by
    intro v hv
    cases ht : v.vartype with
    | binary =>
      rw [(hb v hv ht).1, (hb v hv ht).2]
      exact ⟨⟨0, by simp⟩, ⟨1, by simp⟩⟩
    | integer => exact hi v hv ht
    | continuous => exact absurd ht (hc v hv)
  have hints := hf1.ints rfl hq hbounds
  have hie : st.eqs.IntBoundsOK := by
    intro v hv ht
    obtain ⟨e, _, he⟩ := hf2.enc v hv ht
    exact ⟨(hints v hv).1, (hints v hv).2, convertVar_lt he⟩
  have hle : ∀ c ∈ st.eqs.lins, (∃ z : Int, c.rhs = z) ∧ ∀ q ∈ c.linear.coeffs, ∃ z : Int, q.2 = z := by
    intro c hc'
    obtain ⟨k, hk, hx⟩ := forall2_mem_right hf1.lins c hc'
    exact (hx.ints rfl (hco k hk) (rhs_int hs hc hx0 hk (hco k hk))).symm
  have hld := i2b_ints hwe hf2 hie hle
  have hbin := i2b_binary hf2 hbe hce
  have hqe := hf1.noQuads hq
  have hqd := hf2.noQuads hqe
  have hpo := pairsOK_of_products hwe hie hf2 hwe.objQuad (productsOK_eqs hs hf1 hp)
  have hsat := hf2.sat (by rw [hqe]; simp)
  have hfits : ∀ c ∈ src.allCsts, SlackFits .integer src c := by
    intro c hm _ _ _
    unfold Cst.NoContinuous
    cases c with
    | lin c => exact fun _ _ v hv => hc v (List.mem_of_getElem? hv)
    | quad c => exact ⟨fun _ _ v hv => hc v (List.mem_of_getElem? hv),
        fun _ _ v hv => hv.elim (fun hv => hc v (List.mem_of_getElem? hv)) (fun hv => hc v (List.mem_of_getElem? hv))⟩
  have hslack := slack_core hs hb hfits h1
  have lift1 : ∀ u, st.eqs.Feas u → ∃ y, Decodes st.eqs st.i2b.dst.varsIndex st.i2b.conv u y ∧ st.i2b.dst.Feas y := by
    rintro u ⟨u1, u2, u3⟩
    obtain ⟨y, y1, y2, y3⟩ := encode_exists hwe hf2 hie hbe ⟨u1, u2⟩
    exact ⟨y, y1, y2, y3, (hsat u y y1).mpr u3⟩
  have hpen' : absSum st.i2b.dst.objective < st.pen := by
    rw [hf3.penEq]
    cases penalty with
    | some p => exact hpen p rfl
    | none =>
      simp only [Option.getD_none]
      rw [autoPenalty_eq hld]; linarith
  have hn3 : st.dst.numVars = st.i2b.dst.numVars := by simp [QP.numVars, hf3.vars]
  -- the point in binary variables
  have hbits : ∀ w, (st.i2b.dst.InBounds w ∧ st.i2b.dst.Integral w) ↔ ∀ i < st.i2b.dst.numVars, w i = 0 ∨ w i = 1 := by
    intro w
    constructor
    · rintro ⟨a, b⟩ i hi'
      obtain ⟨v, hv⟩ := lt_numVars hi'
      obtain ⟨t, l, u⟩ := hbin v (List.mem_of_getElem? hv)
      have := a i v hv
      rw [l, u] at this
      exact binary_val this.1 this.2 (b i v hv (by rw [t]; simp))
    · intro hw
      refine ⟨fun i v hv => ?_, fun i v hv _ => ?_⟩
      · obtain ⟨t, l, u⟩ := hbin v (List.mem_of_getElem? hv)
        rw [l, u]
        rcases hw i (List.getElem?_eq_some_iff.mp hv).1 with g | g <;> rw [g] <;> norm_num
      · rcases hw i (List.getElem?_eq_some_iff.mp hv).1 with g | g
        · exact ⟨0, by rw [g]; simp⟩
        · exact ⟨1, by rw [g]; simp⟩
  have hzb : ∀ i < st.i2b.dst.numVars, pt z i = 0 ∨ pt z i = 1 := hn3 ▸ hz
  have hzd := (hbits (pt z)).mpr hzb
  have hsatr : ∀ w, st.i2b.dst.Sat w ↔ residual2 st.i2b.dst.lins w = 0 := by
    intro w
    rw [residual2_eq_zero hf3.eqs, sat_iff, hqd]; simp
  have hval : ∀ w, src.objective.sense.value * st.dst.objective.val w =
      src.objective.sense.value * st.i2b.dst.objective.val w + st.pen * residual2 st.i2b.dst.lins w := by
    intro w
    rw [hf3.obj, hf2.sense, hf1.objective.1]
    have := sense_sq src.objective.sense
    linear_combination (st.pen * residual2 st.i2b.dst.lins w) * this
  have hpos : 0 ≤ st.pen := by
    have := obj_diff hf2.wf hzb hzb
    have h0 := abs_nonneg (st.i2b.dst.objective.val (pt z) - st.i2b.dst.objective.val (pt z))
    linarith
  -- interpretation
  obtain ⟨y, hy⟩ : ∃ y, st.i2b.interpret z = .ok y :=
    ⟨_, (interpret_iff hwe hf2 z _).mpr ⟨by rw [hlen, hn3], rfl⟩⟩
  obtain ⟨hyl, hdec⟩ := interpret_decodes hwe hf2 hy
  have hi3 : ineqInterpret src st.eqs y = .ok (y.take src.numVars) :=
    (ineqInterpret_iff hs.cons hf1.starts y _).mpr ⟨by rw [hyl], rfl⟩
  have hle' := hf1.starts.le
  have hagree : ∀ i < src.numVars, pt y i = pt (y.take src.numVars) i := by
    intro i hi'
    simp [pt, List.getD_eq_getElem?_getD, List.getElem?_take_of_lt hi']
  obtain ⟨ye, yi⟩ := decode_admits hwe hf2 hie hbe hdec hzd
  have hov : st.i2b.dst.objective.val (pt z) = src.objective.val (pt (y.take src.numVars)) := by
    rw [hf2.obj hpo _ _ hdec, hf1.objective.2, Objective.val_congr hs hagree]
  have hsrcb : src.InBounds (pt (y.take src.numVars)) ∧ src.Integral (pt (y.take src.numVars)) := by
    obtain ⟨more, hm, _⟩ := hf1.slacks
    have hvar : ∀ (i : Nat) (v : Variable), src.vars[i]? = some v → st.eqs.vars[i]? = some (plainVar v) ∧ i < src.numVars := by
      intro i v hv
      have hlt := (List.getElem?_eq_some_iff.mp hv).1
      rw [hm, List.getElem?_append_left (by simpa using hlt), List.getElem?_map, hv]
      exact ⟨rfl, hlt⟩
    constructor
    · intro i v hv
      obtain ⟨e1, e2⟩ := hvar i v hv
      have := ye i _ e1
      rw [← hagree i e2]
      by_cases ht : v.vartype = .binary
      · rw [(hb v (List.mem_of_getElem? hv) ht).1, (hb v (List.mem_of_getElem? hv) ht).2]
        simpa [plainVar, ht, binVar] using this
      · simpa [plainVar, ht] using this
    · intro i v hv ht'
      obtain ⟨e1, e2⟩ := hvar i v hv
      rw [← hagree i e2]
      refine yi i _ e1 ?_
      by_cases ht : v.vartype = .binary
      · simp [plainVar, ht, binVar]
      · simpa [plainVar, ht] using ht'
  refine ⟨y.take src.numVars, ?_, by simp; omega, hsrcb.1, hsrcb.2, ?_, ?_, ?_⟩
  · unfold QuboState.interpret penInterpret
    rw [if_neg (by rw [hlen, hn3]; simp)]
    simp only [hy, hsrc, hi3]
  · rw [hval, hov]
    have := mul_nonneg hpos (residual2_nonneg st.i2b.dst.lins (pt z))
    linarith
  · intro hnf x' hx'
    have hr0 : residual2 st.i2b.dst.lins (pt z) ≠ 0 := by
      intro h0
      have h1' := (hsat _ _ hdec).mp ((hsatr _).mpr h0)
      exact hnf ((hslack _).mpr ⟨pt y, hagree, ye, yi, h1'⟩)
    have hr1 : 1 ≤ residual2 st.i2b.dst.lins (pt z) := by
      obtain ⟨c, hcz⟩ : ∃ c : Int, residual2 st.i2b.dst.lins (pt z) = c := by
        apply residual2_int
        intro c hc
        refine ⟨?_, (hld c hc).1⟩
        refine Dict.sum_int _ _ (fun q hq' => ⟨(hld c hc).2 q hq', ?_⟩)
        have hlt := lt_of_lt_of_le ((hf2.wf.lins c hc).1.bound q.1 (List.mem_map_of_mem hq')) (hf2.wf.lins c hc).2
        rcases hzb q.1 hlt with h | h
        · exact ⟨0, by simp [h]⟩
        · exact ⟨1, by simp [h]⟩
      have hpos : 0 < residual2 st.i2b.dst.lins (pt z) := lt_of_le_of_ne (residual2_nonneg _ _) (Ne.symm hr0)
      rw [hcz] at hpos ⊢
      have : (0 : Int) < c := by exact_mod_cast hpos
      exact_mod_cast this
    obtain ⟨u', a1, a2⟩ := (hslack x').mp hx'
    obtain ⟨w, b1, b2⟩ := lift1 u' a2
    have hw : src.objective.val x' = st.i2b.dst.objective.val w := by
      rw [hf2.obj hpo _ _ b1, hf1.objective.2, Objective.val_congr hs a1]
    have hd := obj_diff hf2.wf ((hbits w).mp ⟨b2.1, b2.2.1⟩) hzb
    have hd' : src.objective.sense.value * (st.i2b.dst.objective.val w - st.i2b.dst.objective.val (pt z)) ≤
        absSum st.i2b.dst.objective := by
      refine (le_abs_self _).trans ?_
      rw [abs_mul]
      have : |src.objective.sense.value| = 1 := by cases src.objective.sense <;> simp [ObjSense.value]
      rw [this, one_mul]; exact hd
    have := mul_le_mul_of_nonneg_left hr1 hpos
    rw [hval, hw]
    linarith
  · intro he hfx
    obtain ⟨u, u1, u2⟩ := (hslack _).mp hfx
    have hnv := ineqToEq_eq_numVars he hq h1
    have hsy : st.eqs.Sat (pt y) := by
      refine (QP.sat_congr hwe fun i hi' => ?_).mp u2.2.2
      rw [hnv] at hi'
      rw [u1 i hi', hagree i hi']
    have h0 := (hsatr _).mp ((hsat _ _ hdec).mpr hsy)
    have := hval (pt z)
    rw [h0, mul_zero, add_zero, hov] at this
    have hsq := sense_sq src.objective.sense
    calc st.dst.objective.val (pt z) = src.objective.sense.value * (src.objective.sense.value * st.dst.objective.val (pt z)) := by
          rw [← mul_assoc, hsq, one_mul]
      _ = _ := by rw [this, ← mul_assoc, hsq, one_mul]

end Verif
