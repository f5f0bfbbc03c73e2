import Verif.IsingLemmas
import Verif.PropsFeasible

/-!
# C09, C10, C11: Ising Hamiltonians
-/

namespace Verif

/-- **C09 fails** for constant objectives: with no linear and quadratic coefficient the operator returned is
the identity with coefficient 1, so energy plus offset exceeds the objective by one. -/
theorem C09_violated : ∃ (p : QP) (op : QubitOp) (offset : ℚ), p.toIsing = .ok (op, offset) ∧
    p.numVars = 1 ∧ ∀ b : Nat → ℚ, op.energy b + offset = p.objective.sense.value * p.objective.val b + 1 := by
  refine ⟨(runCalls (QP.empty "") [.addVar 0 1 .binary none, .objective .minimize 5 (.dict []) (.dict [])]).2,
    ⟨1, [(([false], [false]), 1)]⟩, 5, by decide +kernel, by decide +kernel, ?_⟩
  intro b
  have ho : (runCalls (QP.empty "") [.addVar 0 1 .binary none,
    .objective .minimize 5 (.dict []) (.dict [])]).2.objective = ⟨5, ⟨1, []⟩, ⟨1, []⟩, .minimize⟩ := by
    decide +kernel
  rw [ho]
  simp [QubitOp.energy, zval, Objective.val, LinExpr.val, QuadExpr.val, ObjSense.value]
  norm_num

/-- **C09, the part that holds**.  Full statement: whenever `to_ising` succeeds, the operator is diagonal and
energy + offset = sense * objective on every bitstring.  Missing (false by `C09_violated`): objectives
without any linear or quadratic coefficient. -/
theorem C09_energy_partial (p : QP) (op : QubitOp) (offset : ℚ) (h : p.toIsing = .ok (op, offset))
    (hne : p.objective.linear.coeffs ≠ [] ∨ p.objective.quadratic.coeffs ≠ []) :
    op.numQubits = p.numVars ∧ op.Diagonal ∧ ∀ b : Nat → ℚ, IsBits p.numVars b →
      op.energy b + offset = p.objective.sense.value * p.objective.val b := by
  obtain ⟨_, _, _, st, terms, h1, h2, h3⟩ := toIsing_ok h
  have hen : ∀ b, IsBits p.numVars b → Dict.sum terms (fun k => zval k.1 b) + offset
      = p.objective.sense.value * p.objective.val b := by
    intro b hb
    have e2 := isingQuadratic_energy h2 b hb
    have e1 := isingLinear_energy h1 b
    simp only at e1 e2
    rw [e2, e1, sum_mergeCoeffs _ _ (fun i j => mul_comm _ _)]
    simp only [Objective.val, LinExpr.val, QuadExpr.val, Dict.sum_nil]; ring
  have hnil : terms ≠ [] := by
    intro ht
    have g1 := isingLinear_length h1
    have g2 := isingQuadratic_length h2
    simp only [ht, List.length_nil] at g1 g2
    rcases hne with hne | hne
    · exact hne (List.length_eq_zero_iff.mp (by omega))
    · exact mergeCoeffs_ne_nil hne (List.length_eq_zero_iff.mp (by omega))
  rw [if_neg hnil] at h3
  have hdiag : ∀ t ∈ terms, t.1.2 = noMask p.numVars := by
    have d1 := isingLinear_good h1 (by simp)
    exact fun t ht => (isingQuadratic_good h2 d1 t ht).1
  subst h3
  refine ⟨rfl, ?_, ?_⟩
  · intro t ht i
    rcases reduceTerms_keys ht with hk | ⟨hk, _⟩
    · obtain ⟨q, hq, hqt⟩ := List.mem_map.mp hk
      rw [← hqt, hdiag q hq]; exact noMask_get _ _
    · rw [hk]; exact noMask_get _ _
  · intro b hb
    simp only [QubitOp.energy]
    rw [sum_reduceTerms, hen b hb]

/-- **C09** (rejection): non-binary variables and constraints are rejected. -/
theorem C09_rejects (p : QP) :
    ((∃ v ∈ p.vars, v.vartype ≠ .binary) ∨ p.lins ≠ [] ∨ p.quads ≠ []) →
      p.toIsing = .error .optimization := by
  intro h
  unfold QP.toIsing
  simp only
  by_cases h1 : p.numVars > (p.vars.filter fun v => v.vartype = .binary).length
  · rw [if_pos h1]
  · rw [if_neg h1, if_pos]
    rcases h with ⟨v, hv, hvt⟩ | h
    · exfalso
      apply h1
      simp only [QP.numVars]
      apply List.length_filter_lt_length_iff_exists.mpr
      exact ⟨v, hv, by simpa using hvt⟩
    · exact h

/-- **C09** (acceptance): a program with binary variables only, without constraints, whose objective only
mentions existing variables is accepted. -/
theorem C09_accepts (p : QP) (hv : ∀ v ∈ p.vars, v.vartype = .binary) (hl : p.lins = [])
    (hq : p.quads = []) (h1 : ∀ k ∈ Assoc.keys p.objective.linear.coeffs, k < p.numVars)
    (h2 : ∀ k ∈ Assoc.keys p.objective.quadratic.coeffs, k.1 < p.numVars ∧ k.2 < p.numVars) :
    ∃ r, p.toIsing = .ok r := by
  have lin_ok : ∀ (l : Dict Nat) (st : IsingState), (∀ k ∈ Assoc.keys l, k < p.numVars) →
      ∃ st', isingLinear p.numVars p.objective.sense.value l st = .ok st' := by
    intro l
    induction l with
    | nil => intro st _; exact ⟨st, rfl⟩
    | cons q l ih =>
      rintro ⟨t, o⟩ hk
      obtain ⟨i, c⟩ := q
      have hi : i < p.numVars := hk i (by simp [Assoc.keys])
      simp only [isingLinear, hi, if_true]
      exact ih _ (fun k hk' => hk k (by simp only [Assoc.keys, List.map_cons, List.mem_cons]; exact Or.inr hk'))
  have quad_ok : ∀ (l : Dict (Nat × Nat)) (st : IsingState),
      (∀ k ∈ Assoc.keys l, k.1 < p.numVars ∧ k.2 < p.numVars) →
      ∃ st', isingQuadratic p.numVars p.objective.sense.value l st = .ok st' := by
    intro l
    induction l with
    | nil => intro st _; exact ⟨st, rfl⟩
    | cons q l ih =>
      rintro ⟨t, o⟩ hk
      obtain ⟨⟨i, j⟩, c⟩ := q
      have hij : i < p.numVars ∧ j < p.numVars := hk (i, j) (by simp [Assoc.keys])
      simp only [isingQuadratic, hij]
      exact ih _ (fun k hk' => hk k (by simp only [Assoc.keys, List.map_cons, List.mem_cons]; exact Or.inr hk'))
  have merge_keys : ∀ (d acc : Dict (Nat × Nat)), (∀ k ∈ Assoc.keys d, k.1 < p.numVars ∧ k.2 < p.numVars) →
      (∀ k ∈ Assoc.keys acc, k.1 < p.numVars ∧ k.2 < p.numVars) →
      ∀ k ∈ Assoc.keys (d.foldl (fun acc p =>
        if p.1.2 < p.1.1 then Dict.add acc (p.1.2, p.1.1) p.2 else Dict.add acc p.1 p.2) acc),
        k.1 < p.numVars ∧ k.2 < p.numVars := by
    intro d
    induction d with
    | nil => intro acc _ h; exact h
    | cons q d ih =>
      intro acc hd hacc
      have hq := hd q.1 (by simp [Assoc.keys])
      simp only [List.foldl_cons]
      apply ih
      · exact fun k hk' => hd k (by simp only [Assoc.keys, List.map_cons, List.mem_cons]; exact Or.inr hk')
      · intro k hk
        split at hk
        · rcases Assoc.mem_keys_set.mp hk with h | h
          · exact hacc k h
          · subst h; exact ⟨hq.2, hq.1⟩
        · rcases Assoc.mem_keys_set.mp hk with h | h
          · exact hacc k h
          · subst h; exact hq
  obtain ⟨st, hst⟩ := lin_ok p.objective.linear.coeffs
    ([], 0 + p.objective.constant * p.objective.sense.value) h1
  obtain ⟨⟨terms, off⟩, hst'⟩ := quad_ok (mergeCoeffs p.objective.quadratic.coeffs) st
    (merge_keys _ [] h2 (by simp [Assoc.keys]))
  have hall : (p.vars.filter fun v => v.vartype = .binary) = p.vars := by
    rw [List.filter_eq_self]; intro v hv'; simpa using hv v hv'
  unfold QP.toIsing
  simp only [hall, hl, hq, hst, hst']
  rw [if_neg (by simp [QP.numVars]), if_neg (by simp)]
  split <;> exact ⟨_, rfl⟩

/-- A two-variable maximisation used in the examples. -/
def isingQP : QP :=
  (runCalls (QP.empty "") [.addVar 0 1 .binary none, .addVar 0 1 .binary none,
    .objective .maximize 5 (.dict [(.idx 0, 1), (.idx 1, 2)]) (.dict [((.idx 1, .idx 0), 3)])]).2

example : isingQP.toIsing = .ok (⟨2, [(([true, false], [false, false]), 5/4),
      (([false, true], [false, false]), 7/4), (([true, true], [false, false]), -3/4)]⟩, -29/4) ∧
    isingQP.objective.linear.coeffs ≠ [] := by decide +kernel

/-! ## C10 -/

/-- **C10 fails** for operators in which a Pauli string occurs twice: the second coefficient overwrites the
first.  Here `Z_0 + Z_0` is read as `Z_0`. -/
theorem C10_violated : ∃ (op : QubitOp) (p : QP), (QP.empty "").fromIsing op 0 false = (.ok (), p) ∧
    op.Diagonal ∧ p.numVars = 1 ∧ op.energy (fun _ => 0) = 2 ∧ p.objective.val (fun _ => 0) = 1 := by
  refine ⟨⟨1, [(([true], [false]), 1), (([true], [false]), 1)]⟩, ((QP.empty "").fromIsing
    ⟨1, [(([true], [false]), 1), (([true], [false]), 1)]⟩ 0 false).2, by decide +kernel, ?_, ?_⟩
  · intro t ht i
    have : t.1.2 = noMask 1 := by simp at ht; subst ht; rfl
    rw [this]; exact noMask_get _ _
  · refine ⟨by decide +kernel, ?_, ?_⟩
    · simp [QubitOp.energy, zval]; norm_num
    · have : ((QP.empty "").fromIsing ⟨1, [(([true], [false]), 1), (([true], [false]), 1)]⟩ 0 false).2.objective
          = ⟨1, ⟨1, []⟩, ⟨1, [((0, 0), -2)]⟩, .minimize⟩ := by decide +kernel
      rw [this]
      simp [Objective.val, LinExpr.val, QuadExpr.val]

/-- **C10, the part that holds**.  Full statement: for every operator whose strings contain one or two `Z` and
nothing else, `from_ising` on an empty program yields binary variables `x_0 .. x_{n-1}` and a minimisation
objective equal to energy + offset on every bitstring.  Missing (false by `C10_violated`): operators
containing the same string twice. -/
theorem C10_from_ising_partial (name : String) (op : QubitOp) (offset : ℚ) (linear : Bool)
    (hlen : ∀ t ∈ op.terms, t.1.1.length = op.numQubits)
    (hz : ∀ t ∈ op.terms, t.1.1.count true = 1 ∨ t.1.1.count true = 2) (hx : op.Diagonal)
    (hd : (op.terms.map fun t => t.1.1).Nodup) :
    ∃ p, (QP.empty name).fromIsing op offset linear = (.ok (), p) ∧
      p.vars = (List.range op.numQubits).map (fun j => ⟨"x_" ++ toString j, 0, 1, .binary⟩) ∧
      p.allCsts = [] ∧ p.objective.sense = .minimize ∧ p.ShapeOK ∧
      ∀ b, IsBits op.numQubits b → p.objective.val b = op.energy b + offset := by
  obtain ⟨p', h1, h2, h3, h4, h5⟩ := addIsingVars_ok op.numQubits 0 (QP.empty name)
    (QP.empty_consistent name) (by simp [QP.empty])
  have hv : p'.numVars = op.numQubits := by simp [QP.numVars, h3, QP.empty]
  obtain ⟨m, hm⟩ := fillMatrix_ok (m := []) (l := op.terms) (fun t ht => by
    refine ⟨?_, ?_⟩
    · have hc := length_trueIndices t.1.1
      unfold pairKey
      rcases hz t ht with h | h
      · rw [h] at hc
        obtain ⟨i, hi⟩ := List.length_eq_one_iff.mp hc
        simp [hi]
      · rw [h] at hc
        obtain ⟨i, j, hi⟩ := List.length_eq_two.mp hc
        simp [hi]
    · rw [List.eq_nil_iff_forall_not_mem]
      intro i hi
      exact hx t ht i (mem_trueIndices.mp hi))
  obtain ⟨hmn, hmb⟩ := fillMatrix_keys hm hlen (by simp [Assoc.keys]) (by simp [Assoc.keys])
  have hsum := fillMatrix_sum hm hlen hd (by simp [Assoc.keys])
  obtain ⟨k1, k2, k3, k4, k5⟩ := decode_value offset linear hmn hmb
  generalize hst : (List.range op.numQubits).foldl (decodeDiag linear)
    ((upperPairs op.numQubits).foldl decodePair ⟨m, [], [], offset⟩) = st at *
  obtain ⟨le, hle⟩ := linIdx_ok (vi := p'.varsIndex) k4
  obtain ⟨qe, hqe⟩ := quadIdx_ok (vi := p'.varsIndex) k2
  refine ⟨{ p' with objective := ⟨st.offset, le, qe, .minimize⟩ }, ?_, ?_, ?_, rfl, ?_, ?_⟩
  · unfold QP.fromIsing
    simp only [h1, hm, hst, QP.minimize, QP.setObjective, hv]
    simp only [linIdx] at hle
    simp only [quadIdx] at hqe
    rw [hle, hqe]
  · simp [h3, QP.empty, List.range_eq_range']
  · simp [QP.allCsts, h4, h5, QP.empty]
  · refine ⟨by simp [QP.allCsts, h4, h5, QP.empty], ?_, ?_⟩
    · simp only [QP.numVars] at hv ⊢; rw [hv]; exact LinExpr.ofDict_n hle
    · simp only [QP.numVars] at hv ⊢; rw [hv]; exact QuadExpr.ofDict_n hqe
  · intro b hb
    simp only [Objective.val, LinExpr.val, QuadExpr.val]
    rw [linIdx_sum hle k3, quadIdx_sum hqe k1 _ (fun i j => mul_comm _ _), k5 b hb, hsum b]
    simp [QubitOp.energy]

example : ∃ op : QubitOp, (∀ t ∈ op.terms, t.1.1.length = op.numQubits) ∧
    (∀ t ∈ op.terms, t.1.1.count true = 1 ∨ t.1.1.count true = 2) ∧
    (op.terms.map fun t => t.1.1).Nodup ∧ op.terms.length = 3 :=
  ⟨⟨2, [(([true, false], [false, false]), 5/4), (([false, true], [false, false]), 7/4),
    (([true, true], [false, false]), -3/4)]⟩, by decide +kernel⟩

/-- **C10** (rejection): a term that is not made of one or two `Z`, or that contains an `X`, is rejected. -/
theorem C10_rejects (p : QP) (op : QubitOp) (offset : ℚ) (linear : Bool) (t : Pauli × ℚ)
    (ht : t ∈ op.terms)
    (hbad : (t.1.1.count true ≠ 1 ∧ t.1.1.count true ≠ 2) ∨ true ∈ t.1.2) :
    ∃ p', (p.fromIsing op offset linear) = (.error .optimization, p') := by
  have hc := length_trueIndices
  have hvars : ∀ (m i : Nat) (p p' : QP) (e : Err), addIsingVars m i p = (.error e, p') →
      e = .optimization := by
    intro m
    induction m with
    | zero => intro i p p' e h; simp [addIsingVars] at h
    | succ m ih =>
      intro i p p' e h
      simp only [addIsingVars, QP.binaryVar, addVariable_some] at h
      rw [if_neg (show ¬ ((0 : ℚ) > 1) by norm_num)] at h
      split at h
      · rename_i e' p'' heq
        split at heq
        · simp at heq h; rw [← h.1, ← heq.1]
        · simp at heq
      · exact ih _ _ _ _ h
  have hfill : ∀ (l : Dict Pauli) (m : Dict (Nat × Nat)), t ∈ l → fillMatrix l m = .error .optimization := by
    intro l
    induction l with
    | nil => intro m h; simp at h
    | cons s l ih =>
      intro m h
      obtain ⟨⟨z, x⟩, c⟩ := s
      rcases List.mem_cons.mp h with h | h
      · subst h
        simp only at hbad
        simp only [fillMatrix]
        rcases hbad with hbad | hbad
        · rw [← hc z] at hbad
          split
          · rename_i i hi; simp [hi] at hbad
          · rename_i i j hi; simp [hi] at hbad
          · rfl
        · have : trueIndices x ≠ [] := by
            obtain ⟨i, hi, hxi⟩ := List.getElem_of_mem hbad
            have : i ∈ trueIndices x := mem_trueIndices.mpr (by rw [List.getElem?_eq_getElem hi, hxi])
            exact List.ne_nil_of_mem this
          split <;> simp [this]
      · simp only [fillMatrix]
        split
        · split
          · rfl
          · exact ih _ h
        · split
          · rfl
          · exact ih _ h
        · rfl
  unfold QP.fromIsing
  split
  · rename_i e p' heq
    rw [hvars _ _ _ _ _ heq]; exact ⟨p', rfl⟩
  · rw [hfill _ _ ht]; exact ⟨_, rfl⟩

/-! ## C11 -/

/-- **C11 fails** for constant objectives: `from_ising` rejects the identity that `to_ising` returned. -/
theorem C11_violated : ∃ (p : QP) (op : QubitOp) (offset : ℚ), p.toIsing = .ok (op, offset) ∧
    p.numVars = 1 ∧ ∀ lin, ∃ p', (QP.empty "").fromIsing op offset lin = (.error .optimization, p') := by
  refine ⟨(runCalls (QP.empty "") [.addVar 0 1 .binary none, .objective .minimize 5 (.dict []) (.dict [])]).2,
    ⟨1, [(([false], [false]), 1)]⟩, 5, by decide +kernel, by decide +kernel, ?_⟩
  intro lin
  exact C10_rejects _ _ _ _ _ List.mem_cons_self (Or.inl (by simp))

/-- **C11, the part that holds**.  Full statement: for every program accepted by `to_ising`, reading its
operator back with the offset gives a program with the same number of binary variables whose objective, a
minimisation, equals sense * objective on every bitstring.  Missing (false by `C11_violated`): objectives
that are constant on bitstrings. -/
theorem C11_round_trip_partial (p : QP) (op : QubitOp) (offset : ℚ) (h : p.toIsing = .ok (op, offset))
    (name : String) (linear : Bool)
    (hne : ∃ b b', IsBits p.numVars b ∧ IsBits p.numVars b' ∧ p.objective.val b ≠ p.objective.val b') :
    ∃ p', (QP.empty name).fromIsing op offset linear = (.ok (), p') ∧ p'.numVars = p.numVars ∧
      (∀ v ∈ p'.vars, v.vartype = .binary) ∧ p'.allCsts = [] ∧ p'.objective.sense = .minimize ∧
      ∀ b, IsBits p.numVars b → p'.objective.val b = p.objective.sense.value * p.objective.val b := by
  have hcoef : p.objective.linear.coeffs ≠ [] ∨ p.objective.quadratic.coeffs ≠ [] := by
    by_contra hcon
    push Not at hcon
    obtain ⟨b, b', _, _, hv⟩ := hne
    apply hv
    simp [Objective.val, LinExpr.val, QuadExpr.val, hcon.1, hcon.2]
  obtain ⟨hnq, hdiag, hen⟩ := C09_energy_partial p op offset h hcoef
  obtain ⟨_, _, _, st, terms, h1, h2, h3⟩ := toIsing_ok h
  have hgood := isingQuadratic_good h2 (isingLinear_good h1 (by simp))
  have hterms : op.terms = reduceTerms p.numVars terms := by
    by_cases ht : terms = []
    · exfalso
      rw [if_pos ht] at h3
      obtain ⟨b, b', hb, hb', hv⟩ := hne
      have e := hen b hb
      have e' := hen b' hb'
      rw [h3] at e e'
      simp only [QubitOp.energy, Dict.sum_cons, Dict.sum_nil, zval_noMask] at e e'
      rw [e] at e'
      apply hv
      have hs : p.objective.sense.value ≠ 0 := by cases p.objective.sense <;> simp [ObjSense.value]
      exact mul_left_cancel₀ hs e'
    · rw [if_neg ht] at h3; rw [h3]
  have hall : ∀ t ∈ op.terms, GoodTerm p.numVars t.1 := by
    intro t ht
    rw [hterms] at ht
    rcases reduceTerms_keys ht with hk | ⟨hk, hk'⟩
    · obtain ⟨q, hq, hqt⟩ := List.mem_map.mp hk
      rw [← hqt]; exact hgood q hq
    · exfalso
      obtain ⟨b, b', hb, hb', hv⟩ := hne
      have e := hen b hb
      have e' := hen b' hb'
      simp only [QubitOp.energy] at e e'
      rw [hterms, hk', hk] at e e'
      simp only [Dict.sum_cons, Dict.sum_nil, zval_noMask] at e e'
      rw [e] at e'
      apply hv
      have hs : p.objective.sense.value ≠ 0 := by cases p.objective.sense <;> simp [ObjSense.value]
      exact mul_left_cancel₀ hs e'
  obtain ⟨p', g1, g2, g3, g4, _, g6⟩ := C10_from_ising_partial name op offset linear
    (fun t ht => by rw [hnq]; exact (hall t ht).count.1) (fun t ht => (hall t ht).count.2) hdiag (by
      have hn := reduceTerms_nodup p.numVars terms
      rw [← hterms] at hn
      have : op.terms.map (fun t => t.1.1) = (Assoc.keys op.terms).map Prod.fst := by
        simp [Assoc.keys]
      rw [this]
      refine hn.map_on ?_
      intro a ha a' ha' hfst
      obtain ⟨t, ht, rfl⟩ := List.mem_map.mp ha
      obtain ⟨t', ht', rfl⟩ := List.mem_map.mp ha'
      exact Prod.ext hfst (by rw [(hall t ht).1, (hall t' ht').1]))
  rw [hnq] at g2 g6
  refine ⟨p', g1, ?_, ?_, g3, g4, ?_⟩
  · simp [QP.numVars, g2]
  · intro v hv
    rw [g2] at hv
    obtain ⟨j, _, rfl⟩ := List.mem_map.mp hv
    rfl
  · intro b hb; rw [g6 b hb, hen b hb]

example : (∃ r, isingQP.toIsing = .ok r) ∧
    ∃ b b', IsBits isingQP.numVars b ∧ IsBits isingQP.numVars b' ∧
      isingQP.objective.val b ≠ isingQP.objective.val b' := by
  refine ⟨⟨(⟨2, [(([true, false], [false, false]), 5/4), (([false, true], [false, false]), 7/4),
    (([true, true], [false, false]), -3/4)]⟩, -29/4), by decide +kernel⟩,
    fun _ => 0, fun _ => 1, fun _ _ => Or.inl rfl, fun _ _ => Or.inr rfl, ?_⟩
  decide +kernel

end Verif
