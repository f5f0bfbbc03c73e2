import Verif.FloatQuboLemmas
import Verif.PropsMinEigen
import Verif.PropsFloatDecimal

/-!
# The whole conversion to a QUBO has no rounding errors on integer data (C102)
-/

namespace Verif

/-- The numbers that occur in the conversion fit into doubles: `W` bounds the bounds of all variables, slack variables
included; the sums of absolute values in the objective and in each constraint, weighted with `W`, stay below `2 ^ 51`; and the
coefficients of the QUBO stay below `2 ^ 49`. -/
structure FitsDouble (src : QP) (st : QuboState) (W : ℚ) : Prop where
  one : 1 ≤ W
  small : W < 2 ^ 46
  srcVars : ∀ v ∈ src.vars, |v.lb| ≤ W ∧ |v.ub| ≤ W
  eqsVars : ∀ v ∈ st.eqs.vars, |v.lb| ≤ W ∧ |v.ub| ≤ W
  srcQuad : absTotal src.objective.quadratic.coeffs < 2 ^ 51
  srcLins : ∀ k ∈ src.lins, |k.rhs| + W * absTotal k.linear.coeffs < 2 ^ 53
  eqsObj : st.eqs.objective.encSize (2 * W) < 2 ^ 51
  eqsLins : ∀ k ∈ st.eqs.lins, |k.rhs| + 2 * W * absTotal k.linear.coeffs < 2 ^ 53
  size : st.i2b.dst.quboSize st.pen < 2 ^ 49

theorem slackVar_objective {d d' : QP} {t : VarType} {nm : String} {s : Sense} {r lb ub : ℚ} {o : Option (String × ℚ)}
    (h : slackVar d t nm s r lb ub = .ok (o, d')) : d'.objective = d.objective := by
  have key : ∀ {b : ℚ} {v : Variable} {e : QP}, d.addVariable 0 b t (some nm) = (.ok v, e) → e.objective = d.objective := by
    intro b v e he
    rw [addVariable_some] at he
    split at he
    · simp at he
    · split at he
      · simp at he
      · simp only [Prod.mk.injEq] at he
        rw [← he.2]
  cases s with
  | le =>
    simp only [slackVar] at h
    split at h
    · split at h
      · simp at h
      · rename_i he
        simp only [Except.ok.injEq, Prod.mk.injEq] at h
        rw [← h.2, key he]
    · simp only [Except.ok.injEq, Prod.mk.injEq] at h
      rw [h.2]
  | ge =>
    simp only [slackVar] at h
    split at h
    · split at h
      · simp at h
      · rename_i he
        simp only [Except.ok.injEq, Prod.mk.injEq] at h
        rw [← h.2, key he]
    · simp only [Except.ok.injEq, Prod.mk.injEq] at h
      rw [h.2]
  | eq => simp [slackVar] at h

theorem addLin_objective {d d' : QP} {l : LinInput} {s : SenseInput} {r : ℚ} {nm : String}
    (h : (match d.linearConstraint l s r (some nm) with
      | (.error e, _) => (.error e : Except Err QP)
      | (.ok _, d) => .ok d) = .ok d') : d'.objective = d.objective := by
  split at h
  · simp at h
  · rename_i he
    simp only [Except.ok.injEq] at h
    obtain ⟨_, _, _, _, _, _, _, hp⟩ := linearConstraint_ok he
    rw [← h, hp]

theorem i2eLinOne_objective {src d d' : QP} {k : LinCst} (h : i2eLinOne .integer src d k = .ok d') :
    d'.objective = d.objective := by
  have key : intSlackLin src d (k.linear.toDictNames src.vars) k.sense k.rhs k.name = .ok d' → d'.objective = d.objective := by
    intro h
    unfold intSlackLin at h
    split at h
    · simp at h
    · split at h
      · simp at h
      · split at h
        · simp at h
        · rename_i hs
          rw [addLin_objective h, slackVar_objective hs]
  unfold i2eLinOne at h
  simp only at h
  split at h
  · exact addLin_objective h
  · exact key h

theorem i2eLins_objective {src : QP} (l : List LinCst) {d d' : QP} (h : i2eLins .integer src l d = .ok d') :
    d'.objective = d.objective := by
  induction l generalizing d with
  | nil => simp only [i2eLins, Except.ok.injEq] at h; rw [h]
  | cons k l ih =>
    simp only [i2eLins] at h
    split at h
    · simp at h
    · rename_i he
      rw [ih h, i2eLinOne_objective he]

/-- The objective after the first stage has whole coefficients. -/
theorem ineqToEq_whole {fl : ℚ → ℚ} (hf : IsRounding fl) {src eqs : QP} (hw : src.IsWhole) (hq : src.quads = [])
    (hb : absTotal src.objective.quadratic.coeffs < 2 ^ 51) (h : src.ineqToEq .integer = .ok eqs) :
    Whole eqs.objective.constant ∧ WholeDict eqs.objective.linear.coeffs ∧ WholeDict eqs.objective.quadratic.coeffs := by
  unfold QP.ineqToEq at h
  split at h
  · simp at h
  · rename_i dst _
    split at h
    · simp at h
    · rename_i u d hset
      split at h
      · simp at h
      · rename_i d' hl
        rw [hq] at h
        simp only [i2eQuads, Except.ok.injEq] at h
        subst h
        rw [i2eLins_objective _ hl]
        have key := setObjectiveFl_eq hf dst src.objective.sense src.objective.constant
          ((src.objective.linear.toDictNames src.vars).map fun q => (.name q.1, q.2))
          ((src.objective.quadratic.toDictNames src.vars).map fun q => ((.name q.1.1, .name q.1.2), q.2))
          (wholeDict_map (toDictNames_whole hw.linear _) Key.name)
          (wholeDict_map (toDictNames_whole₂ hw.quadratic _) fun k => (Key.name k.1, Key.name k.2))
          (by rw [absTotal_map (src.objective.quadratic.toDictNames src.vars) fun k => (Key.name k.1, Key.name k.2),
            toDictNames_total₂]; exact hb)
        obtain ⟨a1, a2, a3, -⟩ := key.2 u d hset
        exact ⟨by rw [a1]; exact hw.constant, a2, a3⟩

/-- All programs of the conversion have whole coefficients. -/
theorem toQubo_whole {fl log2 : ℚ → ℚ} (h : IsRounding fl) (hg : IsLog2 log2) {src : QP} (hs : src.WF) (hw : src.IsWhole)
    (hv : ∀ v ∈ src.vars, Whole v.lb ∧ Whole v.ub) {penalty : Option ℚ} {st : QuboState} (hq : src.toQubo penalty = .ok st) {W : ℚ}
    (hf : FitsDouble src st W) : src.ineqToEqFl fl = .ok st.eqs ∧ BoundsWithin st.eqs W ∧
      st.eqs.intToBinFl fl log2 = .ok st.i2b ∧ st.i2b.dst.IsWhole := by
  obtain ⟨⟨hc, hnq, hco⟩, hsrc, h1, h2, h3⟩ := toQubo_stages hq
  have hf1 := ineqToEq_facts hs h1
  have hwe := hf1.starts.wf
  have hf2 := intToBin_facts hwe h2
  have hqe := hf1.noQuads hnq
  have e1 := ineqToEqFl_eq h hs.cons (W := W) (fun v hm => ⟨(hv v hm).1, (hv v hm).2, hf.srcVars v hm⟩) hw hnq hf.srcQuad hf.srcLins
  have hbe : BoundsWithin st.eqs W := fun v hm =>
    ⟨(hf1.ints rfl hnq hv v hm).1, (hf1.ints rfl hnq hv v hm).2, hf.eqsVars v hm⟩
  have hle : ∀ c ∈ st.eqs.lins, Whole c.rhs ∧ WholeDict c.linear.coeffs := by
    intro c hc'
    obtain ⟨k, hk, hx⟩ := forall2_mem_right hf1.lins c hc'
    exact (hx.ints rfl (hco k hk) (fun _ => (hw.lins k hk).1)).symm
  obtain ⟨o1, o2, o3⟩ := ineqToEq_whole h hw hnq hf.srcQuad h1
  have hwe' : st.eqs.IsWhole := ⟨o1, o2, o3, hle⟩
  obtain ⟨e2, w2⟩ := intToBinFl_eq h hg hwe hf.one hf.small hbe hwe' hqe hf.eqsObj hf.eqsLins
  obtain ⟨p1, p2, p3⟩ := w2 _ h2
  have hie : st.eqs.IntBoundsOK := by
    intro v hv ht
    obtain ⟨e, _, he⟩ := hf2.enc v hv ht
    exact ⟨(hbe v hv).1, (hbe v hv).2.1, convertVar_lt he⟩
  exact ⟨by rw [e1, h1], hbe, by rw [e2, h2], ⟨p1, p2, p3, i2b_ints hwe hf2 hie hle⟩⟩

/-- **C102** (whole conversion): with whole coefficients, right-hand sides and bounds that fit into doubles, `convert` of
`QuadraticProgramToQubo` computed with rounding after every operation, and with the floating point logarithm, gives the same
programs, encodings and penalty as exact arithmetic. -/
theorem C102_qubo {fl log2 : ℚ → ℚ} (h : IsRounding fl) (hg : IsLog2 log2) (src : QP) (hs : src.WF) (hw : src.IsWhole)
    (hv : ∀ v ∈ src.vars, Whole v.lb ∧ Whole v.ub) (penalty : Option ℚ) (hp : ∀ q, penalty = some q → Whole q ∧ |q| ≤ 2 ^ 51)
    (st : QuboState) (hq : src.toQubo penalty = .ok st) (W : ℚ) (hf : FitsDouble src st W) :
    src.toQuboFl fl log2 penalty = .ok st := by
  obtain ⟨a1, a2, a3, a4⟩ := toQubo_whole h hg hs hw hv hq hf
  obtain ⟨-, hsrc, h1, h2, h3⟩ := toQubo_stages hq
  have hpen : st.pen = penalty.getD (autoPenalty st.i2b.dst) :=
    (toPenalty_facts (intToBin_facts (ineqToEq_facts hs h1).starts.wf h2).wf h3).penEq
  have a5 := C102_penalty h st.i2b.dst a4 penalty hp (by rw [← hpen]; exact lt_trans hf.size (by norm_num))
  have hmsg : ¬ (quboMsg src).length > 0 := by
    intro hlen
    simp [QP.toQubo, hlen] at hq
  unfold QP.toQuboFl
  rw [if_neg hmsg, a1]
  simp only [a3, a5, h3]
  rw [← hsrc]

/-! ## Interpretation -/

theorem solDict_bits {vars : List Variable} {z : List ℚ} {sol : Assoc String ℚ} (hz : ∀ b ∈ z, b = 0 ∨ b = 1)
    (h : solDict vars z = .ok sol) {s : String} {v : ℚ} (hv : lookupSol sol s = .ok v) : v = 0 ∨ v = 1 := by
  have key : ∀ (l : List (Variable × Nat)) (d : Assoc String ℚ), (∀ p ∈ d, p.2 = 0 ∨ p.2 = 1) →
      ∀ p ∈ l.foldl (fun d p => Assoc.set d p.1.name (pt z p.2)) d, p.2 = 0 ∨ p.2 = 1 := by
    intro l
    induction l with
    | nil => exact fun d hd => hd
    | cons a l ih =>
      intro d hd
      refine ih _ fun p hp => ?_
      rcases Assoc.mem_set hp with hp | hp
      · subst hp
        simp only [pt, List.getD_eq_getElem?_getD]
        cases hi : z[a.2]? with
        | none => simp
        | some b => exact hz b (List.mem_of_getElem? hi)
      · exact hd p hp
  unfold solDict at h
  split at h
  · simp at h
  · simp only [Except.ok.injEq] at h
    subst h
    unfold lookupSol at hv
    split at hv
    · rename_i w hw
      simp only [Except.ok.injEq] at hv
      subst hv
      exact key _ [] (by simp) _ (Assoc.get?_mem hw)
    · simp at hv

theorem decodeSumFl_eq {fl : ℚ → ℚ} (h : IsRounding fl) {sol : Assoc String ℚ}
    (hsol : ∀ s v, lookupSol sol s = .ok v → v = 0 ∨ v = 1) (enc : List (String × ℚ)) (he : WholeDict (κ := String) enc) (acc : ℚ)
    (ha : Whole acc) (hb : |acc| + absTotal (κ := String) enc < 2 ^ 53) :
    decodeSumFl fl sol enc acc = (decodeSum sol enc).map (acc + ·) ∧
      ∀ s, decodeSum sol enc = .ok s → Whole s ∧ |s| ≤ absTotal (κ := String) enc := by
  induction enc generalizing acc with
  | nil =>
    refine ⟨by simp [decodeSumFl, decodeSum, Except.map], fun s hs => ?_⟩
    simp only [decodeSum, Except.ok.injEq] at hs
    subst hs
    exact ⟨whole_zero, by simp [absTotal]⟩
  | cons p enc ih =>
    obtain ⟨wp, he⟩ := wholeDict_cons he
    rw [absTotal_cons] at hb
    have n1 := abs_nonneg acc
    have n2 := abs_nonneg p.2
    have n3 := absTotal_nonneg (κ := String) enc
    simp only [decodeSumFl, decodeSum]
    cases hp : lookupSol sol p.1 with
    | error e => simp [Except.map]
    | ok v =>
      have wv : Whole (v * p.2) ∧ |v * p.2| ≤ |p.2| := by
        rcases hsol _ _ hp with rfl | rfl
        · simp [whole_zero]
        · simp [wp]
      have hadd : |acc + v * p.2| ≤ |acc| + |v * p.2| := abs_add_le _ _
      simp only [fl_whole h wv.1 (by linarith [wv.2]), fl_whole h (ha.add wv.1) (by linarith [wv.2])]
      obtain ⟨i1, i2⟩ := ih he (acc + v * p.2) (ha.add wv.1) (by linarith [wv.2])
      rw [i1]
      cases hs : decodeSum sol enc with
      | error e => simp [Except.map]
      | ok s =>
        obtain ⟨ws, bs⟩ := i2 s hs
        refine ⟨by simp [Except.map, add_assoc], fun r hr => ?_⟩
        simp only [Except.ok.injEq] at hr
        subst hr
        rw [absTotal_cons]
        exact ⟨wv.1.add ws, (abs_add_le _ _).trans (by linarith [wv.2])⟩

theorem i2bInterpretVarsFl_eq {fl : ℚ → ℚ} (h : IsRounding fl) {src : QP} {conv : Conv} {W : ℚ} (hc : ConvWithin src conv W)
    (hW : W < 2 ^ 50) {sol : Assoc String ℚ} (hsol : ∀ s v, lookupSol sol s = .ok v → v = 0 ∨ v = 1) (l : List Variable)
    (hl : ∀ v ∈ l, v ∈ src.vars) : i2bInterpretVarsFl fl conv sol l = i2bInterpretVars conv sol l := by
  induction l with
  | nil => rfl
  | cons v l ih =>
    have hv := hl v List.mem_cons_self
    obtain ⟨wl, bl, hen⟩ := hc.2 v hv
    simp only [i2bInterpretVarsFl, i2bInterpretVars, ih fun w hw => hl w (List.mem_cons_of_mem _ hw)]
    cases hg : Assoc.get? conv v.name with
    | none => rfl
    | some enc =>
      have he := hen enc hg
      have ht : absTotal (κ := String) enc ≤ W := he.total.1
      obtain ⟨d1, d2⟩ := decodeSumFl_eq h hsol enc (fun p hp => (he.1 p hp).1) 0 whole_zero
        (by rw [abs_zero]; linarith [show (2 : ℚ) ^ 50 < 2 ^ 53 by norm_num])
      simp only [d1]
      cases hs : decodeSum sol enc with
      | error e => simp [Except.map]
      | ok s =>
        obtain ⟨ws, bs⟩ := d2 s hs
        simp only [Except.map, zero_add]
        rw [fl_whole h (ws.add wl) (lt_of_le_of_lt ((abs_add_le _ _).trans (by linarith))
          (show W + W < 2 ^ 53 by linarith [show (2 : ℚ) ^ 53 = 8 * 2 ^ 50 by norm_num]))]
        rfl

theorem toQubo_conv {src : QP} (hs : src.WF) {penalty : Option ℚ} {st : QuboState} (hq : src.toQubo penalty = .ok st) {W : ℚ}
    (hW : 1 ≤ W) (hb : BoundsWithin st.eqs W) : ConvWithin st.eqs st.i2b.conv (2 * W) := by
  obtain ⟨-, -, h1, h2, -⟩ := toQubo_stages hq
  have hf2 := intToBin_facts (ineqToEq_facts hs h1).starts.wf h2
  refine ⟨by linarith, fun x hx => ?_⟩
  obtain ⟨w1, w2, b1, b2⟩ := hb x hx
  refine ⟨w1, by linarith, fun enc he => ?_⟩
  by_cases ht : x.vartype = .integer
  · obtain ⟨e, e1, e2⟩ := hf2.enc x hx ht
    rw [e1] at he
    cases he
    exact convertVar_within w1 w2 (by linarith [le_abs_self x.ub, neg_abs_le x.lb]) e2
  · rw [hf2.plain x hx ht] at he
    cases he

/-- **C102** (interpretation): bit strings are interpreted without rounding errors. -/
theorem C102_interpret {fl log2 : ℚ → ℚ} (h : IsRounding fl) (hg : IsLog2 log2) (src : QP) (hs : src.WF) (hw : src.IsWhole)
    (hv : ∀ v ∈ src.vars, Whole v.lb ∧ Whole v.ub) (penalty : Option ℚ) (st : QuboState) (hq : src.toQubo penalty = .ok st) (W : ℚ)
    (hf : FitsDouble src st W) (z : List ℚ) (hz : ∀ b ∈ z, b = 0 ∨ b = 1) : st.interpretFl fl z = st.interpret z := by
  obtain ⟨-, a2, -, -⟩ := toQubo_whole h hg hs hw hv hq hf
  obtain ⟨-, hsrc, h1, h2, h3⟩ := toQubo_stages hq
  have hf2 := intToBin_facts (ineqToEq_facts hs h1).starts.wf h2
  have hc := toQubo_conv hs hq hf.one a2
  unfold QuboState.interpretFl QuboState.interpret I2B.interpret
  cases hp : penInterpret st.i2b.dst z with
  | error e => rfl
  | ok z' =>
    have hz' : ∀ b ∈ z', b = 0 ∨ b = 1 := by
      unfold penInterpret at hp
      grind
    cases hd : solDict st.i2b.dst.vars z' with
    | error e => simp [hd]
    | ok sol =>
      simp only [hd]
      rw [i2bInterpretVarsFl_eq h hc (by linarith [hf.small, show (2 : ℚ) ^ 50 = 16 * 2 ^ 46 by norm_num, show (0 : ℚ) < 2 ^ 46 by positivity])
        (fun s v hv => solDict_bits hz' hd hv) st.i2b.src.vars (by rw [hf2.src_eq]; exact fun _ hv => hv)]
      rfl

/-- **C102** (end to end): everything is computed with rounding: the QUBO of a program with integer and binary variables and
linear constraints, its automatic penalty, the Hamiltonian, and the interpretation of a bit string of least energy.  The result
is an optimal point of the program.  (Products of a variable with itself and between integer variables are restricted as in
C22.) -/
theorem C102_solution {fl log2 : ℚ → ℚ} (h : IsRounding fl) (hg : IsLog2 log2) (src : QP) (hs : src.WF) (hw : src.IsWhole)
    (hb : src.BinBoundsOK) (hv : ∀ v ∈ src.vars, Whole v.lb ∧ Whole v.ub) (hp : ProductsOK src src.objective.quadratic)
    (ex : QuboState) (hx : src.toQubo none = .ok ex) (W : ℚ) (hf : FitsDouble src ex W) (hfeas : ∃ x, src.Feas x)
    (st : QuboState) (hq : src.toQuboFl fl log2 none = .ok st) (op : QubitOp) (offset : ℚ) (ho : st.dst.toIsingFl fl = .ok (op, offset))
    (z : List ℚ) (hlen : z.length = st.dst.numVars) (hz : ∀ b ∈ z, b = 0 ∨ b = 1)
    (hmin : ∀ b, IsBits st.dst.numVars b → op.energy (pt z) ≤ op.energy b) :
    ∃ x, st.interpretFl fl z = .ok x ∧ x.length = src.numVars ∧ OptimalIn src.Feas src.objective (pt x) := by
  have hst : ex = st := by
    rw [C102_qubo h hg src hs hw hv none (by simp) ex hx W hf] at hq
    exact Except.ok.inj hq
  subst hst
  obtain ⟨-, -, -, a4⟩ := toQubo_whole h hg hs hw hv hx hf
  obtain ⟨-, -, h1, h2, h3⟩ := toQubo_stages hx
  have hpen : ex.pen = (none : Option ℚ).getD (autoPenalty ex.i2b.dst) :=
    (toPenalty_facts (intToBin_facts (ineqToEq_facts hs h1).starts.wf h2).wf h3).penEq
  have h3' := h3
  rw [← C102_penalty h ex.i2b.dst a4 none (by simp) (by rw [← hpen]; exact lt_trans hf.size (by norm_num))] at h3'
  rw [C102_ising h ex.i2b.dst a4 none (by simp) (by rw [← hpen]; exact hf.size) ex.dst ex.pen h3'] at ho
  rw [C102_interpret h hg src hs hw hv none ex hx W hf z hz]
  obtain ⟨hbin, hcs, -⟩ := (C23_qubo none src hs).1 ex hx
  obtain ⟨-, c, hen⟩ := toIsing_shift ho
  have hbits : ∀ y, ex.dst.Feas y ↔ IsBits ex.dst.numVars y := by
    intro y
    rw [feas_iff_admits]
    constructor
    · rintro ⟨ha, _⟩ i hi'
      have hv : ex.dst.vars[i]? = some (ex.dst.vars[i]'hi') := List.getElem?_eq_getElem hi'
      have hA := ha i _ hv
      obtain ⟨t, l, u⟩ := hbin _ (List.getElem_mem hi')
      exact binary_val (by rw [← l]; exact hA.1.1) (by rw [← u]; exact hA.1.2) (hA.2 (by rw [t]; simp))
    · intro hy
      refine ⟨fun i v hv => ?_, by unfold QP.Sat; rw [hcs]; simp⟩
      have hi' := (List.getElem?_eq_some_iff.mp hv).1
      obtain ⟨t, l, u⟩ := hbin v (List.mem_of_getElem? hv)
      refine ⟨?_, fun _ => ?_⟩
      · rw [l, u]; rcases hy i hi' with g | g <;> rw [g] <;> norm_num
      · rcases hy i hi' with g | g
        · exact ⟨0, by rw [g]; simp⟩
        · exact ⟨1, by rw [g]; simp⟩
  have hzb : IsBits ex.dst.numVars (pt z) := fun i hi => by
    rw [← hlen] at hi
    simp only [pt, List.getD_eq_getElem?_getD, List.getElem?_eq_getElem hi, Option.getD_some]
    exact hz _ (List.getElem_mem hi)
  obtain ⟨x, r1, r2, r3, -⟩ := C22_exact_partial src ex hs hb (fun v hm _ => hv v hm) hp hx hfeas z hlen
    ⟨(hbits _).mpr hzb, fun y hy => by
      have hy := (hbits y).mp hy
      have := hmin y hy
      rw [hen _ hzb, hen _ hy] at this
      linarith⟩
  exact ⟨x, r1, r2, r3⟩

/-! ## A concrete program -/

/-- A correctly rounded logarithm exists. -/
theorem exists_log2 : ∃ log2, IsLog2 log2 := by
  have key : ∀ x : ℝ, ∃ y : ℚ, NearestDouble x y := fun x => by
    unfold NearestDouble
    by_cases h0 : x = 0
    · exact ⟨0, by simp [h0]⟩
    · refine ⟨(round (x / (2 : ℝ) ^ (Int.log 2 |x| - 52)) : ℚ) * (2 : ℚ) ^ (Int.log 2 |x| - 52), ?_⟩
      rw [if_neg h0]
      refine ⟨round (x / (2 : ℝ) ^ (Int.log 2 |x| - 52)), by push_cast; rfl, ?_⟩
      push_cast
      generalize Int.log 2 |x| = L
      have hu : (0 : ℝ) < (2 : ℝ) ^ (L - 52) := by positivity
      have h2 : x - (round (x / (2 : ℝ) ^ (L - 52)) : ℝ) * (2 : ℝ) ^ (L - 52) =
          (x / (2 : ℝ) ^ (L - 52) - round (x / (2 : ℝ) ^ (L - 52))) * (2 : ℝ) ^ (L - 52) := by
        field_simp
      rw [h2, abs_mul, abs_of_pos hu, show L - 53 = -1 + (L - 52) by ring, zpow_add₀ (by norm_num)]
      exact mul_le_mul_of_nonneg_right ((abs_sub_round _).trans (by norm_num)) hu.le
  choose f hf using key
  refine ⟨fun q => f (Real.logb 2 (q : ℝ)), fun n _ => ?_⟩
  simpa using hf (Real.logb 2 (n : ℝ))

theorem fullQP_whole : fullQP.IsWhole where
  constant := whole_of_den (by decide +kernel)
  linear p hp := whole_of_den ((by decide +kernel : ∀ p ∈ fullQP.objective.linear.coeffs, p.2.den = 1) p hp)
  quadratic p hp := whole_of_den ((by decide +kernel : ∀ p ∈ fullQP.objective.quadratic.coeffs, p.2.den = 1) p hp)
  lins c hc := ⟨whole_of_den ((by decide +kernel : ∀ c ∈ fullQP.lins, c.rhs.den = 1) c hc), fun p hp =>
    whole_of_den ((by decide +kernel : ∀ c ∈ fullQP.lins, ∀ p ∈ c.linear.coeffs, p.2.den = 1) c hc p hp)⟩

theorem fullQP_fits : FitsDouble fullQP (fullState none) 10 where
  one := by norm_num
  small := by norm_num
  srcVars := by decide +kernel
  eqsVars := by decide +kernel
  srcQuad := by decide +kernel
  srcLins := by decide +kernel
  eqsObj := by decide +kernel
  eqsLins := by decide +kernel
  size := by decide +kernel

/-- The conditions of the theorems are met by a program with integer variables of a negative lower bound, an inequality, an
equality, and products; whatever rounding and logarithm are used, the bit string found is interpreted as `(1, 1, 0)`. -/
example : ∃ fl log2, IsRounding fl ∧ IsLog2 log2 ∧ fullQP.WF ∧ fullQP.IsWhole ∧ fullQP.BinBoundsOK ∧
    (∀ v ∈ fullQP.vars, Whole v.lb ∧ Whole v.ub) ∧ ProductsOK fullQP fullQP.objective.quadratic ∧
    fullQP.toQubo none = .ok (fullState none) ∧ FitsDouble fullQP (fullState none) 10 ∧
    fullQP.toQuboFl fl log2 none = .ok (fullState none) ∧
    (fullState none).interpretFl fl [1, 1, 0, 0, 1, 0, 0] = .ok [1, 1, 0] := by
  obtain ⟨fl, h⟩ := exists_rounding
  obtain ⟨log2, hg⟩ := exists_log2
  have hs : fullQP.WF := by decide +kernel
  have hq : fullQP.toQubo none = .ok (fullState none) := by decide +kernel
  have hv : ∀ v ∈ fullQP.vars, Whole v.lb ∧ Whole v.ub := fun v hv =>
    ⟨whole_of_den ((by decide +kernel : ∀ v ∈ fullQP.vars, v.lb.den = 1) v hv),
      whole_of_den ((by decide +kernel : ∀ v ∈ fullQP.vars, v.ub.den = 1) v hv)⟩
  refine ⟨fl, log2, h, hg, hs, fullQP_whole, fun v hv => ?_, hv, ?_, hq, fullQP_fits,
    C102_qubo h hg fullQP hs fullQP_whole hv none (by simp) _ hq 10 fullQP_fits, ?_⟩
  · exact (by decide +kernel : ∀ v ∈ fullQP.vars, v.vartype = .binary → v.lb = 0 ∧ v.ub = 1) v hv
  · exact fun k hk v w hv hw => (by decide +kernel : ∀ k ∈ Assoc.keys fullQP.objective.quadratic.coeffs,
      ∀ v ∈ fullQP.vars[k.1]?, ∀ w ∈ fullQP.vars[k.2]?, v.vartype = .integer → w.vartype = .integer →
      (w.lb = 0 ∨ v.ub - v.lb ≤ 2) ∧ (v.lb = 0 ∨ w.ub - w.lb ≤ 2)) k hk v hv w hw
  · rw [C102_interpret h hg fullQP hs fullQP_whole hv none _ hq 10 fullQP_fits _ (by decide)]
    decide +kernel

/-- A point of the program. -/
example : ∃ x, fullQP.Feas x := by
  have hv : fullQP.vars = [⟨"b", 0, 1, .binary⟩, ⟨"x", 0, 3, .integer⟩, ⟨"y", -1, 1, .integer⟩] := by decide +kernel
  refine ⟨pt [1, 1, 0], fun i v hi => ?_, fun i v hi _ => ?_, ?_⟩
  · rw [hv] at hi
    match i, hi with
    | 0, hi => simp at hi; subst hi; simp [pt]
    | 1, hi => simp at hi; subst hi; norm_num [pt]
    | 2, hi => simp at hi; subst hi; norm_num [pt]
  · match i with
    | 0 => exact ⟨1, by simp [pt]⟩
    | 1 => exact ⟨1, by simp [pt]⟩
    | 2 => exact ⟨0, by simp [pt]⟩
    | i + 3 => exact ⟨0, by simp [pt]⟩
  · show ∀ c ∈ fullQP.allCsts, _
    have hc : fullQP.allCsts = [.lin ⟨"c", ⟨3, [(0, 2), (1, 1)]⟩, .le, 3⟩, .lin ⟨"e", ⟨3, [(1, 1), (2, -1)]⟩, .eq, 1⟩] := by
      decide +kernel
    rw [hc]
    norm_num [Cst.sense, Cst.val, Cst.rhs, Sense.rel, LinExpr.val, Dict.sum, pt]

end Verif
