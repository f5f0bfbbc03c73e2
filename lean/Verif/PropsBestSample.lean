import Verif.QuboSample
import Verif.PropsIsingMatrix

/-!
# The answer of the minimum eigen optimizer against what was measured: C86
-/

namespace Verif

open Finset

theorem hasProb_bits {n : Nat} {e : Eigenstate} (he : e.IsState n) {x : List ℚ} {pr : ℚ} (h : e.HasProb n x pr) :
    x.length = n ∧ IsBits n (pt x) := by
  cases e with
  | vector v =>
    obtain ⟨i, a, _, hl, hb, _⟩ := h
    refine ⟨hl, fun j hj => ?_⟩
    rw [hb j hj]
    have : i / 2 ^ j % 2 = 0 ∨ i / 2 ^ j % 2 = 1 := by omega
    rcases this with h | h <;> simp [h]
  | counts d =>
    obtain ⟨_, q, hq, rfl, _⟩ := h
    have hl : (q.1.toList.map fun c => if c = '1' then (1 : ℚ) else 0).length = n := by
      rw [List.length_map]; exact (he q hq).1
    refine ⟨hl, fun j hj => ?_⟩
    have hj' : j < (q.1.toList.map fun c => if c = '1' then (1 : ℚ) else 0).length := by omega
    have hm : pt (q.1.toList.map fun c => if c = '1' then (1 : ℚ) else 0) j ∈
        (q.1.toList.map fun c => if c = '1' then (1 : ℚ) else 0) := by
      simp only [pt, List.getD_eq_getElem?_getD, List.getElem?_eq_getElem hj', Option.getD_some]
      exact List.getElem_mem hj'
    obtain ⟨c, _, hc⟩ := List.mem_map.mp hm
    rw [← hc]
    split <;> simp
  | dictFn d => exact absurd h (by simp [Eigenstate.HasProb])
  | other => exact absurd h (by simp [Eigenstate.HasProb])

/-- Every basis state with enough probability is among the decoded samples. -/
theorem decode_has {n : Nat} (hn : 0 < n) {qubo : QP} (h1 : qubo.objective.linear.n = n)
    (h2 : qubo.objective.quadratic.n = n) {thr : ℚ} {e : Eigenstate} (he : e.IsState n) {raw : List Sample}
    (hr : eigenToSolutions e qubo thr = .ok raw) {x : List ℚ} {pr : ℚ} (h : e.HasProb n x pr) (hp : thr ≤ pr) :
    ∃ s ∈ raw, s.x = x ∧ s.fval = qubo.objective.val (pt x) := by
  cases e with
  | vector v =>
    obtain ⟨raw', r1, _, r3⟩ := C27_vector qubo n hn h1 h2 thr v he
    rw [r1] at hr
    cases hr
    obtain ⟨i, a, ha, hl, hb, rfl⟩ := h
    exact ⟨⟨x, qubo.objective.val (pt x), a.1 ^ 2 + a.2 ^ 2, .success⟩, (r3 _).mpr ⟨i, a, ha, hp, hl, hb, rfl, rfl, rfl⟩,
      rfl, rfl⟩
  | counts d =>
    obtain ⟨hs, q, hq, rfl, rfl⟩ := h
    have hdec := decodeCounts_ok (thr := thr) h1 h2 hs d he
    simp only [eigenToSolutions] at hr
    rw [hdec] at hr
    cases hr
    exact ⟨_, List.mem_map.mpr ⟨q, List.mem_filter.mpr ⟨hq, by simpa using hp⟩, rfl⟩, rfl, rfl⟩
  | dictFn d => exact absurd he (by simp [Eigenstate.IsState])
  | other => exact absurd he (by simp [Eigenstate.IsState])

/-- **C86, the part that holds.**  Full statement: whatever state the eigensolver returns, the answer of
`MinimumEigenOptimizer.solve` is at least as good as every sample: if some sample is feasible, the answer is feasible, and
no feasible sample is better.  Proved: for all states of which at least one basis state has probability 1e-6 or more, and
for every such basis state `x` (measured): the objective value of the answer is not worse than the value that the QUBO
gives `x`; if `x` has a value that is not worse than that of some feasible point, the answer is feasible with status SUCCESS;
and if all constraints are equalities, the full statement.  Missing (false): inequalities (`C86_violated`), since samples
are compared with values that count wrong slack bits. -/
theorem C86_measured_partial (p : QP) (hs : p.WF) (hsh : p.ShapeOK) (hb : p.BinBoundsOK)
    (hi : ∀ v ∈ p.vars, v.vartype = .integer → (∃ z : Int, v.lb = z) ∧ ∃ z : Int, v.ub = z)
    (hp : ProductsOK p p.objective.quadratic) (penalty : Option ℚ) (st : QuboState) (h : p.toQubo penalty = .ok st)
    (hpen : ∀ q, penalty = some q → absSum st.i2b.dst.objective < q)
    (hn : 0 < st.dst.numVars) (hfeas : ∃ x, p.Feas x) (solver : QubitOp → Option Eigenstate) (op : QubitOp) (offset : ℚ)
    (hop : st.dst.toIsing = .ok (op, offset)) (e : Eigenstate) (he : solver op = some e) (hst : e.IsState st.dst.numVars)
    (hpr : ∃ x pr, e.HasProb st.dst.numVars x pr ∧ 1 / 10 ^ 6 ≤ pr) :
    ∃ r y, minEigenSolve solver [quboConverter penalty] p = .ok r ∧ r.x = some y ∧ y.length = p.numVars ∧
      p.InBounds (pt y) ∧ p.Integral (pt y) ∧ r.fval = some (p.objective.val (pt y)) ∧
      ∀ x pr, e.HasProb st.dst.numVars x pr → 1 / 10 ^ 6 ≤ pr →
        p.objective.sense.value * p.objective.val (pt y) ≤ p.objective.sense.value * st.dst.objective.val (pt x) ∧
        ((∃ x', p.Feas x' ∧
            p.objective.sense.value * st.dst.objective.val (pt x) ≤ p.objective.sense.value * p.objective.val x') →
          p.Feas (pt y) ∧ r.status = .success) ∧
        ((∀ c ∈ p.lins, c.sense = .eq) → ∀ u, st.interpret x = .ok u → p.Feas (pt u) →
          p.Feas (pt y) ∧ r.status = .success ∧
          p.objective.sense.value * p.objective.val (pt y) ≤ p.objective.sense.value * p.objective.val (pt u)) := by
  obtain ⟨_, _, h1, h2, h3⟩ := toQubo_stages h
  have hf1 := ineqToEq_facts hs h1
  have hf2 := intToBin_facts hf1.starts.wf h2
  have hf3 := toPenalty_facts hf2.wf h3
  have hsense : st.dst.objective.sense = p.objective.sense := by
    rw [hf3.sense, hf2.sense, hf1.objective.1]
  obtain ⟨hnq, _⟩ := toIsing_shift hop
  obtain ⟨raw, hraw, hne, hmem⟩ := eigen_decode hn hf3.shape.2.1 hf3.shape.2.2 (by norm_num) hst hpr
  have hopt : ∀ z, z.length = st.dst.numVars → IsBits st.dst.numVars (pt z) → _ :=
    fun z hl hz => qubo_sample hs hb hi hp h hpen hfeas hl hz
  have hmsg : ¬ (quboMsg p).length > 0 := by
    intro hlen
    simp [QP.toQubo, hlen] at h
  have hall : ∀ x, interpretAll [st.interpret] x = st.interpret x := by
    intro x
    simp only [interpretAll, List.reverse_singleton, interpretRev]
    cases st.interpret x <;> rfl
  have hsolve : minEigenSolve solver [quboConverter penalty] p = solveInternal solver op st.dst p [st.interpret] := by
    simp only [minEigenSolve, hmsg, if_false, convertAll, quboConverter, h, hop]
  obtain ⟨srt, hsrt⟩ : ∃ srt, srt = sortedBy (fun a b : Sample =>
      decide (st.dst.objective.sense.value * a.fval ≤ st.dst.objective.sense.value * b.fval)) raw := ⟨_, rfl⟩
  have hsm : ∀ s, s ∈ srt ↔ s ∈ raw := fun s => by rw [hsrt]; exact mem_sortedBy
  have hpw : srt.Pairwise fun a b => (decide (st.dst.objective.sense.value * a.fval ≤
      st.dst.objective.sense.value * b.fval)) = true := by
    rw [hsrt]
    refine sortedBy_pairwise ?_ ?_ raw
    · intro a b; simp only [decide_eq_true_eq]; exact le_total _ _
    · intro a b c hab hbc; simp only [decide_eq_true_eq] at *; exact hab.trans hbc
  cases srt with
  | nil =>
    obtain ⟨s, hs'⟩ := List.exists_mem_of_ne_nil raw hne
    simp [← hsm] at hs'
  | cons s l =>
    obtain ⟨s1, s2, s3, _⟩ := hmem s ((hsm s).mp (by simp))
    obtain ⟨y, hy, hyl, hyb, hyi, hyv, hyf, _⟩ := hopt s.x s1 s2
    obtain ⟨samples, hsam⟩ := C26_accepts p hsh (s :: l) [st.interpret] (by
      intro r hr
      obtain ⟨r1, r2, _⟩ := hmem r ((hsm r).mp hr)
      obtain ⟨y, hy, hyl, _⟩ := hopt r.x r1 r2
      exact ⟨y, by rw [interprets_iff, hall, hy], hyl⟩)
    obtain ⟨r, hr⟩ := C29_accepts p hsh [st.interpret] samples (s :: l) s.x y (by rw [interprets_iff, hall, hy]) hyl
    obtain ⟨y', y1, y2, y3, _, y4, _, y5, _⟩ := C29_result p hs.cons.vars.2 _ _ _ _ r hr
    rw [interprets_iff, hall, hy] at y1
    cases y1
    have hbest : ∀ x pr, e.HasProb st.dst.numVars x pr → 1 / 10 ^ 6 ≤ pr →
        p.objective.sense.value * st.dst.objective.val (pt s.x) ≤ p.objective.sense.value * st.dst.objective.val (pt x) := by
      intro x pr hx hpr'
      obtain ⟨t, ht, rfl, htv⟩ := decode_has hn hf3.shape.2.1 hf3.shape.2.2 hst hraw hx hpr'
      rw [← s3, ← htv, ← hsense]
      rcases List.mem_cons.mp ((hsm t).mpr ht) with rfl | htl
      · exact le_rfl
      · have := (List.pairwise_cons.mp hpw).1 t htl
        simpa using this
    have hgood : ∀ x pr, e.HasProb st.dst.numVars x pr → 1 / 10 ^ 6 ≤ pr → (∃ x', p.Feas x' ∧
        p.objective.sense.value * st.dst.objective.val (pt x) ≤ p.objective.sense.value * p.objective.val x') →
        p.Feas (pt y) ∧ r.status = .success := by
      rintro x pr hx hpr' ⟨x', hx', hle⟩
      have hf : p.Feas (pt y) := by
        by_contra hnf
        have := hyf hnf x' hx'
        have := hbest x pr hx hpr'
        linarith
      refine ⟨hf, ?_⟩
      rw [y5]
      exact ⟨hf.1, fun k hk => rel_imp_relTol (hf.2.2 k hk)⟩
    refine ⟨r, y, ?_, y2, y3, hyb, hyi, y4, fun x pr hx hpr' => ⟨hyv.trans (hbest x pr hx hpr'), hgood x pr hx hpr', ?_⟩⟩
    · rw [hsolve]
      simp only [solveInternal, hnq, hn.ne', if_false, he, hraw, ← hsrt, hsam, hr]
    · intro heq u hu huf
      obtain ⟨x1, x2⟩ := hasProb_bits hst hx
      obtain ⟨u', hu', _, _, _, _, _, hval⟩ := hopt x x1 x2
      rw [hu] at hu'
      cases hu'
      have hv := hval heq huf
      obtain ⟨g1, g2⟩ := hgood x pr hx hpr' ⟨pt u, huf, by rw [hv]⟩
      exact ⟨g1, g2, by rw [← hv]; exact hyv.trans (hbest x pr hx hpr')⟩

/-- A weighted mean is not below all the values with positive weights. -/
theorem mean_reached {m : Nat} {w f : Nat → ℚ} (hw : ∀ i, 0 ≤ w i) (h1 : ∑ i ∈ range m, w i = 1) :
    ∃ i < m, 0 < w i ∧ f i ≤ ∑ j ∈ range m, w j * f j := by
  by_contra hc
  push Not at hc
  set t := ∑ j ∈ range m, w j * f j
  have hle : ∀ i ∈ range m, w i * t ≤ w i * f i := by
    intro i hi
    rcases (hw i).eq_or_lt with h0 | h0
    · rw [← h0]; simp
    · exact (mul_le_mul_of_nonneg_left (hc i (mem_range.mp hi) h0).le (hw i))
  obtain ⟨i, hi, hi0⟩ : ∃ i ∈ range m, 0 < w i := by
    by_contra hn
    push Not at hn
    have : ∑ i ∈ range m, w i ≤ 0 := Finset.sum_nonpos hn
    linarith
  have hlt : ∑ i ∈ range m, w i * t < ∑ i ∈ range m, w i * f i :=
    Finset.sum_lt_sum hle ⟨i, hi, mul_lt_mul_of_pos_left (hc i (mem_range.mp hi) hi0) hi0⟩
  rw [← Finset.sum_mul, h1, one_mul] at hlt
  exact lt_irrefl _ hlt

theorem sum_ampProb (v : List (ℚ × ℚ)) : ∑ i ∈ range v.length, ampProb (v.getD i (0, 0)) = (v.map ampProb).sum := by
  have := sum_zipIdx v (0, 0) (fun a _ => ampProb a) 0
  rw [← this]
  congr 1
  calc _ = (v.zipIdx.map Prod.fst).map ampProb := by rw [List.map_map]; rfl
    _ = _ := by rw [List.zipIdx_map_fst]

theorem digitPt_list (n i : Nat) : ∃ x : List ℚ, x.length = n ∧ (∀ j < n, pt x j = ((i / 2 ^ j % 2 : Nat) : ℚ)) := by
  refine ⟨(List.range n).map fun j => ((i / 2 ^ j % 2 : Nat) : ℚ), by simp, fun j hj => ?_⟩
  simp [pt, List.getD_eq_getElem?_getD, hj]

/-- **C86** (expectation values), partial: for a normalised state vector without positive probabilities below 1e-6, the
objective value of the answer is not worse than the expectation value of the operator plus the offset; and if that is not
worse than the value of some feasible point, the answer is feasible and the status is SUCCESS.  So an eigensolver that gets
its energy below the value of a known feasible point yields a feasible answer at least as good.  Full statement: for all
states.  Missing: states with positive probabilities below 1e-6 (their basis states are dropped, `C82_violated`), and
constant objectives (`C09_violated`). -/
theorem C86_expectation_partial (p : QP) (hs : p.WF) (hsh : p.ShapeOK) (hb : p.BinBoundsOK)
    (hi : ∀ v ∈ p.vars, v.vartype = .integer → (∃ z : Int, v.lb = z) ∧ ∃ z : Int, v.ub = z)
    (hp : ProductsOK p p.objective.quadratic) (penalty : Option ℚ) (st : QuboState) (h : p.toQubo penalty = .ok st)
    (hpen : ∀ q, penalty = some q → absSum st.i2b.dst.objective < q)
    (hn : 0 < st.dst.numVars) (hfeas : ∃ x, p.Feas x) (solver : QubitOp → Option Eigenstate) (op : QubitOp) (offset : ℚ)
    (hop : st.dst.toIsing = .ok (op, offset))
    (hne : st.dst.objective.linear.coeffs ≠ [] ∨ st.dst.objective.quadratic.coeffs ≠ []) (v : List (ℚ × ℚ))
    (he : solver op = some (.vector v)) (hv : v.length = 2 ^ op.numQubits) (hnorm : (v.map ampProb).sum = 1)
    (hsmall : ∀ a ∈ v, 0 < ampProb a → 1 / 10 ^ 6 ≤ ampProb a) :
    ∃ (r : Result) (y : List ℚ) (energy : ℚ),
      minEigenSolve solver [quboConverter penalty] p = .ok r ∧ r.x = some y ∧ y.length = p.numVars ∧
      r.fval = some (p.objective.val (pt y)) ∧ expectation op.matrix (amplitudes _ v) + offset = (energy : ℂ) ∧
      p.objective.sense.value * p.objective.val (pt y) ≤ energy ∧
      ((∃ x', p.Feas x' ∧ energy ≤ p.objective.sense.value * p.objective.val x') →
        p.Feas (pt y) ∧ r.status = .success) := by
  obtain ⟨_, _, h1, h2, h3⟩ := toQubo_stages h
  have hf1 := ineqToEq_facts hs h1
  have hf2 := intToBin_facts hf1.starts.wf h2
  have hf3 := toPenalty_facts hf2.wf h3
  have hsense : st.dst.objective.sense = p.objective.sense := by
    rw [hf3.sense, hf2.sense, hf1.objective.1]
  obtain ⟨hnq, _⟩ := toIsing_shift hop
  have hpos : ∀ a : ℚ × ℚ, 0 ≤ ampProb a := fun a => by unfold ampProb; positivity
  have hE := expectation_list hop hne hv hnorm
  obtain ⟨i, hi', hi0, hile⟩ := mean_reached (m := 2 ^ op.numQubits) (w := fun i => ampProb (v.getD i (0, 0)))
    (f := fun i => st.dst.objective.sense.value * st.dst.objective.val (digitPt i)) (fun i => hpos _)
    (by rw [← hv, sum_ampProb, hnorm])
  have hsum : (∑ i ∈ range (2 ^ op.numQubits), st.dst.objective.sense.value *
      (ampProb (v.getD i (0, 0)) * st.dst.objective.val (digitPt i))) = ∑ j ∈ range (2 ^ op.numQubits),
        ampProb (v.getD j (0, 0)) * (st.dst.objective.sense.value * st.dst.objective.val (digitPt j)) :=
    Finset.sum_congr rfl fun i _ => by ring
  rw [hsum] at hE
  obtain ⟨x, hxl, hxb⟩ := digitPt_list st.dst.numVars i
  have hiv : i < v.length := by rw [hv]; exact hi'
  have hget : v.getD i (0, 0) = v[i] := by simp [List.getD_eq_getElem?_getD, hiv]
  have hx : (Eigenstate.vector v).HasProb st.dst.numVars x (ampProb v[i]) :=
    ⟨i, v[i], List.getElem?_eq_getElem hiv, hxl, hxb, rfl⟩
  have hbig : 1 / 10 ^ 6 ≤ ampProb v[i] := hsmall _ (List.getElem_mem hiv) (by rw [← hget]; exact hi0)
  have hxv : st.dst.objective.val (pt x) = st.dst.objective.val (digitPt i) := by
    refine Objective.val_congr hf3.wf fun j hj => ?_
    rw [hxb j hj]; rfl
  obtain ⟨r, y, r1, r2, r3, _, _, r4, r5⟩ := C86_measured_partial p hs hsh hb hi hp penalty st h hpen hn hfeas solver op
    offset hop (.vector v) he (by show v.length = _; rw [hv, hnq]) ⟨x, _, hx, hbig⟩
  obtain ⟨g1, g2, _⟩ := r5 x _ hx hbig
  rw [hxv] at g1 g2
  rw [hsense] at hile hE
  refine ⟨r, y, _, r1, r2, r3, r4, hE, g1.trans hile, ?_⟩
  rintro ⟨x', hx', hle⟩
  exact g2 ⟨x', hx', hile.trans hle⟩

/-- `minimize 0` subject to `b0 + b1 + b2 >= 1`. -/
def coverAllQP : QP :=
  (runCalls (QP.empty "") [.addVars (.count 3) 0 1 .binary (some "b") (.hole "" ""),
    .linear (.dict [(.name "b0", 1), (.name "b1", 1), (.name "b2", 1)]) (.str ">=") 1 none,
    .objective .minimize 0 (.dict []) (.dict [])]).2

/-- Its conversion: two slack bits. -/
def coverAllState : QuboState :=
  match coverAllQP.toQubo none with
  | .ok st => st
  | .error _ => ⟨QP.empty "", QP.empty "", ⟨QP.empty "", QP.empty "", []⟩, QP.empty "", 0⟩

/-- The results of a measurement: half of the shots found `(0, 0, 0)`, half found `(1, 1, 1)`, both with slack 0. -/
def coverAllCounts : Eigenstate := .counts [("00000", 512), ("11100", 512)]

/-- The result for these. -/
def coverAllResult : Result :=
  match minEigenSolve (fun _ => some coverAllCounts) [quboConverter none] coverAllQP with
  | .ok r => r
  | .error _ => ⟨none, none, [], none, .failure, [], []⟩

/-- **C86 fails** with inequalities: the eigensolver finds the feasible `(1, 1, 1)` and the infeasible `(0, 0, 0)`; the
optimizer answers `(0, 0, 0)` with status INFEASIBLE, although the first of its own samples is `(1, 1, 1)` with status
SUCCESS.  The answer is chosen by the value of the QUBO, in which the slack bits of `(1, 1, 1)` are wrong. -/
theorem C86_violated : coverAllQP.WF ∧ coverAllQP.toQubo none = .ok coverAllState ∧
    minEigenSolve (fun _ => some coverAllCounts) [quboConverter none] coverAllQP = .ok coverAllResult ∧
    coverAllResult.x = some [0, 0, 0] ∧ coverAllResult.status = .infeasible ∧
    coverAllQP.isFeasible [0, 0, 0] = .ok false ∧
    coverAllCounts.HasProb 5 [1, 1, 1, 0, 0] (1 / 2) ∧ coverAllState.interpret [1, 1, 1, 0, 0] = .ok [1, 1, 1] ∧
    coverAllQP.isFeasible [1, 1, 1] = .ok true ∧
    coverAllResult.samples.head? = some ⟨[1, 1, 1], 0, 1 / 2, .success⟩ := by
  refine ⟨by decide +kernel, by decide +kernel, by decide +kernel, by decide +kernel, by decide +kernel,
    by decide +kernel, ⟨by decide +kernel, ("11100", 512), by simp, by decide +kernel, by decide +kernel⟩,
    by decide +kernel, by decide +kernel, by decide +kernel⟩

/-- `minimize b0` subject to `b0 + b1 = 1`. -/
def eitherQP : QP :=
  (runCalls (QP.empty "") [.addVars (.count 2) 0 1 .binary (some "b") (.hole "" ""),
    .linear (.dict [(.name "b0", 1), (.name "b1", 1)]) (.str "==") 1 none,
    .objective .minimize 0 (.dict [(.name "b0", 1)]) (.dict [])]).2

/-- Its conversion. -/
def eitherState : QuboState :=
  match eitherQP.toQubo none with
  | .ok st => st
  | .error _ => ⟨QP.empty "", QP.empty "", ⟨QP.empty "", QP.empty "", []⟩, QP.empty "", 0⟩

/-- Its operator and offset. -/
def eitherIsing : QubitOp × ℚ :=
  match eitherState.dst.toIsing with
  | .ok r => r
  | .error _ => (⟨0, []⟩, 0)

/-- The amplitude of `(0, 0)` is 3/5, that of `(1, 0)` is 4/5: not a ground state. -/
def eitherVector : List (ℚ × ℚ) := [(3 / 5, 0), (4 / 5, 0), (0, 0), (0, 0)]

theorem either_feas : eitherQP.Feas (pt [1, 0]) := by
  have hv : eitherQP.vars = [⟨"b0", 0, 1, .binary⟩, ⟨"b1", 0, 1, .binary⟩] := by decide +kernel
  have hl : eitherQP.lins = [⟨"c0", ⟨2, [(0, 1), (1, 1)]⟩, .eq, 1⟩] := by decide +kernel
  have hq : eitherQP.quads = [] := by decide +kernel
  refine ⟨?_, ?_, ?_⟩
  · intro i v h
    rw [hv] at h
    rcases i with _ | _ | i <;> simp at h <;> subst h <;> norm_num [pt]
  · intro i v h _
    rw [hv] at h
    rcases i with _ | _ | i <;> simp at h <;> subst h
    · exact ⟨1, by norm_num [pt]⟩
    · exact ⟨0, by norm_num [pt]⟩
  · rw [sat_iff, hl, hq]
    simp [LinExpr.val, Dict.sum, pt, Sense.rel, LinCst.Holds]

/-- The hypotheses of `C86_measured_partial` and `C86_expectation_partial` for `eitherQP` and a superposition of the
infeasible `(0, 0)` and the feasible `(1, 0)`; the answer is `(1, 0)`. -/
example : eitherQP.WF ∧ eitherQP.ShapeOK ∧ eitherQP.BinBoundsOK ∧ (∃ x, eitherQP.Feas x) ∧
    eitherQP.toQubo none = .ok eitherState ∧ 0 < eitherState.dst.numVars ∧
    eitherState.dst.toIsing = .ok eitherIsing ∧ eitherState.dst.objective.linear.coeffs ≠ [] ∧
    eitherVector.length = 2 ^ eitherIsing.1.numQubits ∧ (eitherVector.map ampProb).sum = 1 ∧
    (∀ a ∈ eitherVector, 0 < ampProb a → 1 / 10 ^ 6 ≤ ampProb a) ∧ (∀ c ∈ eitherQP.lins, c.sense = .eq) ∧
    (minEigenSolve (vectorSolver eitherVector) [quboConverter none] eitherQP).toOption.map
      (fun r => (r.x, r.fval, r.status)) = some (some [1, 0], some 1, .success) := by
  refine ⟨by decide +kernel, by decide +kernel, by unfold QP.BinBoundsOK; decide +kernel, ⟨_, either_feas⟩, by decide +kernel, by decide +kernel,
    by decide +kernel, by decide +kernel, by decide +kernel, by decide +kernel, by decide +kernel, by decide +kernel,
    by decide +kernel⟩

example : ∃ x pr, (Eigenstate.vector eitherVector).HasProb eitherState.dst.numVars x pr ∧ 1 / 10 ^ 6 ≤ pr := by
  have hn : eitherState.dst.numVars = 2 := by decide +kernel
  rw [hn]
  refine ⟨[1, 0], 16 / 25, ⟨1, (4 / 5, 0), rfl, rfl, ?_, by norm_num⟩, by norm_num⟩
  intro j hj
  have : j = 0 ∨ j = 1 := by omega
  rcases this with rfl | rfl <;> norm_num [pt]

end Verif
