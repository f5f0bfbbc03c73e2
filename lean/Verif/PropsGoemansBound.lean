import Verif.GoemansRoundingLemmas
import Verif.PropsPipeline
import Mathlib.Analysis.Matrix.Order
import Mathlib.Topology.Instances.Matrix

/-!
# C79: the approximation guarantee of the Goemans-Williamson optimizer
-/

namespace Verif

open Matrix MeasureTheory Real

/-- `np.linalg.eigh` finds the smallest eigenvalue of every symmetric matrix with at least one row. -/
def EighOK (eigMin : (n : Nat) → RMat n → ℝ) : Prop :=
  ∀ n (a : RMat n), 0 < n → a.IsHermitian → LeastEigenvalue a (eigMin n a)

/-- `np.linalg.cholesky` factorizes every positive definite matrix. -/
def CholeskyOK (chol : (n : Nat) → RMat n → Except Err (RMat n)) : Prop :=
  ∀ n (a : RMat n), a.PosDef → ∃ l, chol n a = .ok l ∧ l * lᵀ = a

/-- The distribution of `np.random.normal(size=(num_cuts, num_vertices))`: independent standard normal numbers. -/
noncomputable def normalRows (k n : Nat) : Measure (Fin k → Fin n → ℝ) := Measure.pi fun _ => normals n

/-- The objective of the program is the weight of the cut on 0/1 points, with weights that are not negative; the
variables are binary, there is at least one and the objective was set after them. -/
structure IsMaxCut (p : QP) (w : Nat → Nat → ℚ) : Prop where
  wf : p.WF
  binary : ∀ v ∈ p.vars, v.vartype = .binary
  size : p.objective.quadratic.n = p.numVars
  pos : 0 < p.numVars
  cut : ∀ x : Nat → ℚ, (∀ i < p.numVars, x i = 0 ∨ x i = 1) → p.objective.val x = cutWeight p.numVars w x
  nonneg : ∀ i < p.numVars, ∀ j < i, 0 ≤ w i j

/-- The call succeeds and returns a 0/1 point with its objective value `f`. -/
def Returns (p : QP) (res : Except Err Result) (f : ℚ) : Prop :=
  ∃ r x, res = .ok r ∧ r.status = .success ∧ r.x = some x ∧ x.length = p.numVars ∧ (∀ v ∈ x, v = 0 ∨ v = 1) ∧
    r.fval = some f ∧ f = p.objective.val (pt x)

/-! ## Lemmas -/

/-- The sides in terms of the bits. -/
def sideOf {k n : Nat} (b : Fin k → Fin n → Bool) (t i : Nat) : Bool :=
  if ht : t < k then if hi : i < n then b ⟨t, ht⟩ ⟨i, hi⟩ else false else false

theorem bits_measurable {k n : Nat} (l : RMat n) :
    Measurable fun (r : Fin k → Fin n → ℝ) (t : Fin k) (i : Fin n) => hyperplaneSide l (r t) i := by
  refine measurable_pi_lambda _ fun t => measurable_pi_lambda _ fun i => ?_
  refine measurable_to_bool ?_
  have : (fun r : Fin k → Fin n → ℝ => hyperplaneSide l (r t) i) ⁻¹' {true} =
      {r | 0 < ∑ j, r t j * lᵀ j i} := by
    ext r
    rw [Set.mem_preimage, Set.mem_singleton_iff, hyperplaneSide, decide_eq_true_eq, Set.mem_setOf_eq]
  rw [this]
  exact measurableSet_lt measurable_const (by fun_prop)

theorem solveGw_eq {numCuts : Nat} {sort unique : Bool} {sdp : (n : Nat) → RMat n → Option (RMat n)}
    {eigMin : (n : Nat) → RMat n → ℝ} {chol : (n : Nat) → RMat n → Except Err (RMat n)} {p : QP} {w : Nat → Nat → ℚ}
    (hp : IsMaxCut p w) (he : EighOK eigMin) (hc : CholeskyOK chol) {chi : RMat p.objective.quadratic.n}
    (hs : sdp _ (adjacencyMat p) = some chi) (hsym : chi.IsHermitian) :
    ∃ l, l * lᵀ = shiftChi (eigMin _ chi) chi ∧ ∀ r, solveGw numCuts sort unique sdp eigMin chol p r =
      goemansWilliamson numCuts sort unique (some (sideOf fun t i => hyperplaneSide l (r t) i)) p := by
  have hn : 0 < p.objective.quadratic.n := by rw [hp.size]; exact hp.pos
  obtain ⟨l, h1, h2⟩ := hc _ _ (shift_posDef hsym (he _ chi hn hsym))
  refine ⟨l, h2, fun r => ?_⟩
  unfold solveGw
  have hb : (p.vars.filter fun v => v.vartype == .binary).length = p.numVars := by
    rw [List.filter_eq_self.mpr]
    · rfl
    · intro v hv
      simp [hp.binary v hv]
  rw [if_neg (by simp [hb])]
  simp only [hs]
  rw [if_neg (by omega)]
  unfold generateSides
  rw [h1]
  rfl

theorem gw_returns {numCuts : Nat} (sort unique : Bool) (side : Nat → Nat → Bool) {p : QP} {w : Nat → Nat → ℚ}
    (hp : IsMaxCut p w) (hk : 0 < numCuts) :
    ∃ f, Returns p (goemansWilliamson numCuts sort unique (some side) p) f ∧
      cutWeight p.objective.quadratic.n (adjacency p) (fun i => if side 0 i then 1 else 0) ≤ f := by
  obtain ⟨r, h1, h2⟩ := C39_success numCuts sort unique side p hp.binary hp.size hp.pos hk
  obtain ⟨f, h3, h4⟩ := gw_first h1
  obtain ⟨_, _, x, h5, h6, h7, h8, _⟩ := C68_result_partial numCuts sort unique side p w hp.wf hp.cut r h1
  rw [h3] at h8
  exact ⟨f, ⟨r, x, h1, h2, h5, h6, h7, h3, Option.some.inj h8⟩, h4⟩

/-! ## C79 -/

/-- **C79** (semidefinite program): whatever symmetric matrix with unit diagonal and no eigenvalue below `-0.0004` the
solver of the semidefinite program returns, the call succeeds for all random numbers, and the expected objective value
of the returned cut is at least `0.878` times the weight that the matrix promises. -/
theorem C79_promise {numCuts : Nat} (sort unique : Bool) {sdp : (n : Nat) → RMat n → Option (RMat n)}
    {eigMin : (n : Nat) → RMat n → ℝ} {chol : (n : Nat) → RMat n → Except Err (RMat n)} {p : QP} {w : Nat → Nat → ℚ}
    (hp : IsMaxCut p w) (hk : 0 < numCuts) (he : EighOK eigMin) (hc : CholeskyOK chol)
    {chi : RMat p.objective.quadratic.n} (hs : sdp _ (adjacencyMat p) = some chi) (hsym : chi.IsHermitian)
    (hd : ∀ i, chi i i = 1) (hl : ∀ (mu : ℝ) v, v ≠ 0 → chi *ᵥ v = mu • v → -0.0004 ≤ mu) :
    ∃ f : (Fin numCuts → Fin p.objective.quadratic.n → ℝ) → ℚ,
      (∀ r, Returns p (solveGw numCuts sort unique sdp eigMin chol p r) (f r)) ∧
      Integrable (fun r => (f r : ℝ)) (normalRows numCuts p.objective.quadratic.n) ∧
      0.878 * (sdpObjective (adjacencyMat p) chi / 4) ≤
        ∫ r, (f r : ℝ) ∂normalRows numCuts p.objective.quadratic.n := by
  have hn : 0 < p.objective.quadratic.n := by rw [hp.size]; exact hp.pos
  obtain ⟨l, hl1, hl2⟩ := solveGw_eq (numCuts := numCuts) (sort := sort) (unique := unique) hp he hc hs hsym
  set lam := eigMin _ chi with hlam
  have hleast := he _ chi hn hsym
  have hlam0 : -0.0004 ≤ lam := by
    obtain ⟨v, hv, e⟩ := hleast.1
    exact hl lam v hv e
  have hsh := shift_pos lam
  have hs' : 0.878 * (1 + shift lam) ≤ 0.8784 := by
    unfold shift
    split_ifs with h1 h2
    · rw [abs_of_neg h1]; linarith
    · norm_num
    · norm_num
  have hgram : ∀ i j, (l * lᵀ) i j = chi i j + if i = j then shift lam else 0 := by
    intro i j
    rw [hl1, shiftChi_eq]
    by_cases h : i = j
    · simp [h]
    · simp [h]
  have hdiag : ∀ i, (l * lᵀ) i i = 1 + shift lam := by
    intro i; rw [hgram, hd]; simp
  have ha : 0 < 1 + shift lam := by linarith [hsh.1]
  choose f hf1 hf2 using fun b : Fin numCuts → Fin p.objective.quadratic.n → Bool => gw_returns (numCuts := numCuts) sort unique (sideOf b) hp hk
  let bits : (Fin numCuts → Fin p.objective.quadratic.n → ℝ) → Fin numCuts → Fin p.objective.quadratic.n → Bool := fun r t i => hyperplaneSide l (r t) i
  have hbits : Measurable bits := bits_measurable l
  have : IsProbabilityMeasure (normalRows numCuts p.objective.quadratic.n) := by unfold normalRows; infer_instance
  have hint : ∀ g : (Fin numCuts → Fin p.objective.quadratic.n → Bool) → ℝ, Integrable (fun r => g (bits r)) (normalRows numCuts p.objective.quadratic.n) := by
    intro g
    have : IsProbabilityMeasure ((normalRows numCuts p.objective.quadratic.n).map bits) :=
      Measure.isProbabilityMeasure_map hbits.aemeasurable
    exact (integrable_map_measure (Measurable.of_discrete).aestronglyMeasurable hbits.aemeasurable).mp
      (Integrable.of_finite (f := g))
  refine ⟨fun r => f (bits r), fun r => ?_, hint fun b => (f b : ℝ), ?_⟩
  · rw [hl2 r]
    exact hf1 (bits r)
  · -- the first cut
    let z : Fin numCuts := ⟨0, hk⟩
    let G : (Fin p.objective.quadratic.n → ℝ) → ℝ := fun r => ∑ i, ∑ j, adjacencyMat p i j *
      (if hyperplaneSide l r i = true ∧ hyperplaneSide l r j = false then 1 else 0)
    have hG : ∀ r : Fin numCuts → Fin p.objective.quadratic.n → ℝ,
        ((cutWeight p.objective.quadratic.n (adjacency p) (fun i => if sideOf (bits r) 0 i then 1 else 0) : ℚ) : ℝ) = G (r z) := by
      intro r
      rw [cutWeight_real p.objective.quadratic.n (adjacency p) (adjacency_symm p)]
      refine Finset.sum_congr rfl fun i _ => Finset.sum_congr rfl fun j _ => ?_
      simp [sideOf, hk, bits, adjacencyMat, z]
    have h1 : ∫ r, G (r z) ∂normalRows numCuts p.objective.quadratic.n ≤ ∫ r, (f (bits r) : ℝ) ∂normalRows numCuts p.objective.quadratic.n := by
      refine integral_mono ?_ (hint fun b => (f b : ℝ)) ?_
      · have := hint fun b => ((cutWeight p.objective.quadratic.n (adjacency p) (fun i => if sideOf b 0 i then 1 else 0) : ℚ) : ℝ)
        simpa only [hG] using this
      · intro r
        show G (r z) ≤ (f (bits r) : ℝ)
        rw [← hG r]
        exact_mod_cast hf2 (bits r)
    have h2 : ∫ r, G (r z) ∂normalRows numCuts p.objective.quadratic.n = ∫ r, G r ∂normals p.objective.quadratic.n := by
      have hm : MeasurePreserving (Function.eval z) (normalRows numCuts p.objective.quadratic.n) (normals p.objective.quadratic.n) :=
        measurePreserving_eval (fun _ : Fin numCuts => normals p.objective.quadratic.n) z
      have hGm : AEStronglyMeasurable G (normals p.objective.quadratic.n) := by
        have hb1 : Measurable fun r : Fin p.objective.quadratic.n → ℝ => fun i => hyperplaneSide l r i := by
          have := (bits_measurable (k := 1) l).comp (measurable_pi_lambda (fun (r : Fin p.objective.quadratic.n → ℝ) (_ : Fin 1) => r)
            fun _ => measurable_id)
          exact (measurable_pi_apply (0 : Fin 1)).comp this
        exact ((Measurable.of_discrete (f := fun b : Fin p.objective.quadratic.n → Bool => ∑ i, ∑ j, adjacencyMat p i j *
          (if b i = true ∧ b j = false then (1 : ℝ) else 0))).comp hb1).aestronglyMeasurable
      rw [← hm.map_eq] at hGm ⊢
      rw [integral_map hm.measurable.aemeasurable hGm]
    have h3 : ∫ r, G r ∂normals p.objective.quadratic.n =
        ∑ i, ∑ j, adjacencyMat p i j * (arccos ((l * lᵀ) i j / (1 + shift lam)) / (2 * π)) := by
      rw [← expected_cut ha hdiag]
    refine le_trans ?_ h1
    rw [h2, h3]
    unfold sdpObjective
    rw [Finset.sum_div, Finset.mul_sum]
    refine Finset.sum_le_sum fun i _ => ?_
    rw [Finset.sum_div, Finset.mul_sum]
    refine Finset.sum_le_sum fun j _ => ?_
    by_cases hij : i = j
    · subst hij
      rw [hd, hdiag, div_self (ne_of_gt ha), arccos_one]
      simp
    · have hnn : 0 ≤ adjacencyMat p i j := by
        have key : ∀ a b : Nat, a < p.objective.quadratic.n → b < a → 0 ≤ adjacency p a b := by
          intro a b h1 h2
          rw [adjacency_of_cut hp.wf.objLin hp.wf.objQuad hp.cut (by rw [← hp.size]; exact h1) h2]
          exact hp.nonneg a (by rw [← hp.size]; exact h1) b h2
        simp only [adjacencyMat, Matrix.of_apply]
        rcases lt_trichotomy (i : Nat) j with h | h | h
        · rw [adjacency_symm]
          exact_mod_cast key j i j.2 h
        · exact absurd (Fin.ext h) hij
        · exact_mod_cast key i j i.2 h
      have hb := gram_le ha hdiag i j
      have hg : (l * lᵀ) i j = chi i j := by rw [hgram, if_neg hij, add_zero]
      rw [hg] at hb ⊢
      have := mul_le_mul_of_nonneg_left (term_bound hsh.1 hs' hb.2 hb.1) hnn
      linarith

/-- **C79**: if the solver of the semidefinite program is exact, then for a program that is the max-cut of a graph with
weights that are not negative, the expected objective value of the returned cut is at least `0.878` times the weight of
every cut, whatever the options are. -/
theorem C79_bound {numCuts : Nat} (sort unique : Bool) {sdp : (n : Nat) → RMat n → Option (RMat n)}
    {eigMin : (n : Nat) → RMat n → ℝ} {chol : (n : Nat) → RMat n → Except Err (RMat n)} {p : QP} {w : Nat → Nat → ℚ}
    (hp : IsMaxCut p w) (hk : 0 < numCuts) (he : EighOK eigMin) (hc : CholeskyOK chol)
    {chi : RMat p.objective.quadratic.n} (hs : sdp _ (adjacencyMat p) = some chi) (hfeas : SdpFeasible chi)
    (hopt : ∀ y, SdpFeasible y → sdpObjective (adjacencyMat p) y ≤ sdpObjective (adjacencyMat p) chi) :
    ∃ f : (Fin numCuts → Fin p.objective.quadratic.n → ℝ) → ℚ,
      (∀ r, Returns p (solveGw numCuts sort unique sdp eigMin chol p r) (f r)) ∧
      Integrable (fun r => (f r : ℝ)) (normalRows numCuts p.objective.quadratic.n) ∧
      ∀ x : Nat → ℚ, (∀ i < p.numVars, x i = 0 ∨ x i = 1) →
        0.878 * (cutWeight p.numVars w x : ℝ) ≤ ∫ r, (f r : ℝ) ∂normalRows numCuts p.objective.quadratic.n := by
  obtain ⟨f, h1, h2, h3⟩ := C79_promise (numCuts := numCuts) sort unique hp hk he hc hs hfeas.1.1 hfeas.2 (by
    intro mu v hv e
    have h := hfeas.1.dotProduct_mulVec_nonneg v
    rw [e, dotProduct_smul, smul_eq_mul] at h
    have hpos : 0 < star v ⬝ᵥ v := by
      rw [star_trivial]
      refine lt_of_le_of_ne (Finset.sum_nonneg fun i _ => mul_self_nonneg (v i)) ?_
      intro h0
      exact hv (dotProduct_self_eq_zero.mp h0.symm)
    have : 0 ≤ mu := nonneg_of_mul_nonneg_left h hpos
    linarith)
  refine ⟨f, h1, h2, fun x hx => le_trans ?_ h3⟩
  let b : Nat → Bool := fun i => decide (x i = 1)
  have hw : cutWeight p.numVars w x =
      cutWeight p.objective.quadratic.n (adjacency p) (fun i => if b i then 1 else 0) := by
    rw [hp.size, cutWeight_congr (w' := w) fun i hi j hj => adjacency_of_cut hp.wf.objLin hp.wf.objQuad hp.cut hi hj]
    have hv : ∀ i < p.numVars, (if b i then (1 : ℚ) else 0) = x i := by
      intro i hi
      rcases hx i hi with h | h <;> simp [b, h]
    unfold cutWeight
    refine Finset.sum_congr rfl fun i hi => Finset.sum_congr rfl fun j hj => ?_
    have hi' := Finset.mem_range.mp hi
    have hj' := Finset.mem_range.mp hj
    simp only [hv i hi', hv j (show j < p.numVars by omega)]
  have ho := hopt _ (cutMat_feasible _ b)
  have he := cutMat_objective p.objective.quadratic.n (adjacency p) (adjacency_symm p) b
  have hadj : (Matrix.of fun i j : Fin p.objective.quadratic.n => ((adjacency p i j : ℚ) : ℝ)) = adjacencyMat p := rfl
  rw [hadj] at he
  rw [he] at ho
  rw [hw]
  linarith

/-! ## The max-cut application -/

/-- The weight between two nodes. -/
def pairWeight (l : List (Nat × Nat × Option ℚ)) (i j : Nat) : ℚ :=
  (l.map fun e => if (e.1 = i ∧ e.2.1 = j) ∨ (e.1 = j ∧ e.2.1 = i) then e.2.2.getD 1 else 0).sum

theorem cutWeight_add (n : Nat) (w w' : Nat → Nat → ℚ) (x : Nat → ℚ) :
    cutWeight n (fun i j => w i j + w' i j) x = cutWeight n w x + cutWeight n w' x := by
  unfold cutWeight
  rw [← Finset.sum_add_distrib]
  refine Finset.sum_congr rfl fun i _ => ?_
  rw [← Finset.sum_add_distrib]
  refine Finset.sum_congr rfl fun j _ => ?_
  split <;> simp

theorem cutWeight_edge {n a b : Nat} (ha : a < n) (hb : b < n) (c : ℚ) (x : Nat → ℚ) :
    cutWeight n (fun i j => if (a = i ∧ b = j) ∨ (a = j ∧ b = i) then c else 0) x = if x a ≠ x b then c else 0 := by
  have main : ∀ a b : Nat, a < n → b < a →
      cutWeight n (fun i j => if (a = i ∧ b = j) ∨ (a = j ∧ b = i) then c else 0) x = if x a ≠ x b then c else 0 := by
    intro a b ha hb
    unfold cutWeight
    rw [Finset.sum_eq_single a, Finset.sum_eq_single b]
    · simp
    · intro j hj hjb
      have h1 : ¬ ((a = a ∧ b = j) ∨ (a = j ∧ b = a)) := by omega
      show (if x a ≠ x j then (if (a = a ∧ b = j) ∨ (a = j ∧ b = a) then c else 0) else 0) = 0
      rw [if_neg h1, ite_self]
    · intro h
      exact absurd (Finset.mem_range.mpr hb) h
    · intro i hi hia
      refine Finset.sum_eq_zero fun j hj => ?_
      have hj' := Finset.mem_range.mp hj
      have h1 : ¬ ((a = i ∧ b = j) ∨ (a = j ∧ b = i)) := by omega
      simp [h1]
    · intro h
      exact absurd (Finset.mem_range.mpr ha) h
  rcases lt_trichotomy a b with h | h | h
  · have := main b a hb h
    have e : (fun i j => if (a = i ∧ b = j) ∨ (a = j ∧ b = i) then c else 0) =
        fun i j => if (b = i ∧ a = j) ∨ (b = j ∧ a = i) then c else 0 := by
      funext i j
      have : ((a = i ∧ b = j) ∨ (a = j ∧ b = i)) ↔ ((b = i ∧ a = j) ∨ (b = j ∧ a = i)) := by omega
      simp only [this]
    rw [e, this]
    simp only [ne_comm]
  · subst h
    unfold cutWeight
    rw [if_neg (by simp)]
    refine Finset.sum_eq_zero fun i _ => Finset.sum_eq_zero fun j hj => ?_
    have hj' := Finset.mem_range.mp hj
    have h1 : ¬ ((a = i ∧ a = j) ∨ (a = j ∧ a = i)) := by omega
    simp [h1]
  · exact main a b ha h

theorem cutWeight_pair {n : Nat} (l : List (Nat × Nat × Option ℚ)) (hk : ∀ e ∈ l, e.1 < n ∧ e.2.1 < n) (x : Nat → ℚ) :
    cutWeight n (pairWeight l) x = ((l.filter fun e => decide (x e.1 ≠ x e.2.1)).map fun e => e.2.2.getD 1).sum := by
  induction l with
  | nil => simp [pairWeight, cutWeight]
  | cons e l ih =>
    have h : pairWeight (e :: l) = fun i j =>
        (if (e.1 = i ∧ e.2.1 = j) ∨ (e.1 = j ∧ e.2.1 = i) then e.2.2.getD 1 else 0) + pairWeight l i j := by
      funext i j
      simp [pairWeight]
    obtain ⟨h1, h2⟩ := hk e (by simp)
    rw [h, cutWeight_add, cutWeight_edge h1 h2, ih fun e' he' => hk e' (by simp [he'])]
    by_cases hx : x e.1 = x e.2.1
    · rw [List.filter_cons_of_neg (by simp [hx]), if_neg (by simp [hx]), zero_add]
    · rw [List.filter_cons_of_pos (by simp [hx]), if_pos hx, List.map_cons, List.sum_cons]

theorem maxcut_isMaxCut {g : Graph} (h0 : 0 < g.n) (hk : ∀ e ∈ g.edges, e.1 < g.n ∧ e.2.1 < g.n)
    (hw : ∀ e ∈ g.edges, 0 ≤ e.2.2.getD 1) :
    ∃ p, maxcutProgram g = .ok p ∧ p.numVars = g.n ∧ IsMaxCut p (pairWeight g.edges) := by
  obtain ⟨p, hp, hv, hse, hfe, hob⟩ := C42_model g hk
  have ho : (DExpr.sum (g.edges.map maxcutTerm)).WF g.n := sum_wf fun a ha => by
    obtain ⟨e, he, rfl⟩ := List.mem_map.mp ha
    exact maxcutTerm_wf (hk e he)
  have hnum : p.numVars = g.n := by
    unfold AppVariables at hv
    simp [QP.numVars, hv]
  obtain ⟨p', hp', hb⟩ := loadModel_app (name := "Max-cut") (min := false) ho (csts := []) (by simp) (by simp)
  have hm := hp
  unfold maxcutProgram at hm
  rw [if_pos (keysOK_iff.mpr hk)] at hm
  rw [hm] at hp'
  simp only [Except.ok.injEq] at hp'
  subst hp'
  have hsh : p.ShapeOK := by
    unfold loadModel at hm
    cases hf : fromDocplex ⟨"Max-cut", appVars g.n, false, DExpr.sum (g.edges.map maxcutTerm), []⟩ with
    | mk a b =>
      rw [hf] at hm
      cases a with
      | error e => simp at hm
      | ok u =>
        simp only [Except.ok.injEq] at hm
        subst hm
        exact (fromDocplex_more ⟨by simpa [appVars] using ho, by simp⟩ (by simp) hf).1
  refine ⟨p, hp, hnum, hb.wf, ?_, hsh.2.2, by omega, ?_, ?_⟩
  · intro v hvm
    unfold AppVariables at hv
    rw [hv] at hvm
    obtain ⟨i, _, rfl⟩ := List.mem_map.mp hvm
    rfl
  · intro x hx
    rw [hnum] at hx ⊢
    rw [hob x hx, cutWeight_pair g.edges hk]
  · intro i _ j _
    refine List.sum_nonneg ?_
    intro a ha
    obtain ⟨e, he, rfl⟩ := List.mem_map.mp ha
    split
    · exact hw e he
    · exact le_refl _

/-- **C79** (application): the program of the max-cut application for a graph with weights that are not negative, solved
with an exact solver of the semidefinite program.  For all random numbers the result is a set of nodes and the weight of
its cut; the expected weight is at least `0.878` times the weight of the cut of every set. -/
theorem C79_maxcut {numCuts : Nat} (sort unique : Bool) {sdp : (n : Nat) → RMat n → Option (RMat n)}
    {eigMin : (n : Nat) → RMat n → ℝ} {chol : (n : Nat) → RMat n → Except Err (RMat n)} (g : Graph) (h0 : 0 < g.n)
    (hkeys : ∀ e ∈ g.edges, e.1 < g.n ∧ e.2.1 < g.n) (hw : ∀ e ∈ g.edges, 0 ≤ e.2.2.getD 1) (hk : 0 < numCuts)
    (he : EighOK eigMin) (hc : CholeskyOK chol)
    (hs : ∀ n (adj : RMat n), ∃ chi, sdp n adj = some chi ∧ SdpFeasible chi ∧
      ∀ y, SdpFeasible y → sdpObjective adj y ≤ sdpObjective adj chi) :
    ∃ p, maxcutProgram g = .ok p ∧ ∃ y : (Fin numCuts → Fin p.objective.quadratic.n → ℝ) → List ℚ,
      (∀ r, ∃ res, solveGw numCuts sort unique sdp eigMin chol p r = .ok res ∧ res.status = .success ∧
        res.x = some (y r) ∧ res.fval = some (cutWeightOf g (interpretSides (y r)).2)) ∧
      Integrable (fun r => (cutWeightOf g (interpretSides (y r)).2 : ℝ)) (normalRows numCuts p.objective.quadratic.n) ∧
      ∀ S : List Nat, 0.878 * (cutWeightOf g S : ℝ) ≤
        ∫ r, (cutWeightOf g (interpretSides (y r)).2 : ℝ) ∂normalRows numCuts p.objective.quadratic.n := by
  obtain ⟨p, hp, hnum, hm⟩ := maxcut_isMaxCut h0 hkeys hw
  refine ⟨p, hp, ?_⟩
  obtain ⟨chi, h1, h2, h3⟩ := hs _ (adjacencyMat p)
  obtain ⟨f, g1, g2, g3⟩ := C79_bound (numCuts := numCuts) sort unique hm hk he hc h1 h2 h3
  choose res y k1 k2 k3 k4 k5 k6 k7 using g1
  have hval : ∀ r, f r = cutWeightOf g (interpretSides (y r)).2 := by
    intro r
    have hb : ∀ i < g.n, pt (y r) i = 0 ∨ pt (y r) i = 1 := by
      intro i hi
      have hl : i < (y r).length := by rw [k4 r, hnum]; exact hi
      have : pt (y r) i ∈ y r := by
        unfold pt
        rw [List.getD_eq_getElem?_getD, List.getElem?_eq_getElem hl]
        exact List.getElem_mem hl
      exact k5 r _ this
    rw [k7 r, hm.cut _ (by rw [hnum]; exact hb), hnum, cutWeight_pair g.edges hkeys,
      cut_interpret hkeys (by rw [k4 r, hnum]) hb, interpretSet_eq]
  refine ⟨y, fun r => ⟨res r, k1 r, k2 r, k3 r, by rw [k6 r, hval]⟩, ?_, ?_⟩
  · simpa only [hval] using g2
  · intro S
    have := g3 (indicator S) fun i _ => indicator_binary S i
    rw [hnum, cutWeight_pair g.edges hkeys, cut_indicator] at this
    simpa only [hval] using this

/-! ## The hypotheses can be met -/

open Classical in
/-- A smallest eigenvalue. -/
noncomputable def someEigMin (n : Nat) (a : RMat n) : ℝ := if h : ∃ lam, LeastEigenvalue a lam then h.choose else 0

theorem someEigMin_ok : EighOK someEigMin := by
  intro n a hn ha
  have : ∃ lam, LeastEigenvalue a lam := by
    have : Nonempty (Fin n) := ⟨⟨0, hn⟩⟩
    obtain ⟨i, hi⟩ := Finite.exists_min ha.eigenvalues
    refine ⟨ha.eigenvalues i, ⟨(ha.eigenvectorBasis i).ofLp, ?_, ha.mulVec_eigenvectorBasis i⟩, ?_⟩
    · intro e
      apply ha.eigenvectorBasis.orthonormal.ne_zero i
      ext k
      exact congrFun e k
    · intro mu v hv e
      have hm : mu ∈ spectrum ℝ a := by
        rw [spectrum.mem_iff]
        intro hu
        have h0 : (algebraMap ℝ (RMat n) mu - a) *ᵥ v = 0 := by
          rw [Matrix.sub_mulVec, e, Algebra.algebraMap_eq_smul_one, Matrix.smul_mulVec, Matrix.one_mulVec, sub_self]
        exact hv (Matrix.mulVec_injective_of_isUnit hu (h0.trans (Matrix.mulVec_zero _).symm))
      rw [ha.spectrum_real_eq_range_eigenvalues] at hm
      obtain ⟨k, rfl⟩ := hm
      exact hi k
  unfold someEigMin
  rw [dif_pos this]
  exact this.choose_spec

open Classical in
/-- A factorization of positive definite matrices. -/
noncomputable def someChol (n : Nat) (a : RMat n) : Except Err (RMat n) :=
  if h : ∃ l, l * lᵀ = a then .ok h.choose else .error .valueError

theorem someChol_ok : CholeskyOK someChol := by
  intro n a ha
  have : ∃ l, l * lᵀ = a := by
    open scoped MatrixOrder in
    obtain ⟨b, hb⟩ := CStarAlgebra.nonneg_iff_eq_star_mul_self.mp ha.posSemidef.nonneg
    refine ⟨bᵀ, ?_⟩
    rw [hb, Matrix.transpose_transpose, Matrix.star_eq_conjTranspose, Matrix.conjTranspose_eq_transpose_of_trivial]
  exact ⟨this.choose, by unfold someChol; rw [dif_pos this], this.choose_spec⟩

theorem sdp_entry {n : Nat} {x : RMat n} (hx : SdpFeasible x) (i j : Fin n) : -1 ≤ x i j ∧ x i j ≤ 1 := by
  have hp := hx.1.dotProduct_mulVec_nonneg
  have hsym : x j i = x i j := by
    have := congrFun (congrFun hx.1.1 i) j
    simpa using this
  have h1 := hp (Pi.single i 1 + Pi.single j 1)
  have h2 := hp (Pi.single i 1 - Pi.single j 1)
  simp only [star_trivial, Matrix.mulVec_add, Matrix.mulVec_sub, add_dotProduct, dotProduct_add, sub_dotProduct,
    dotProduct_sub, Matrix.mulVec_single_one, single_one_dotProduct, Matrix.col_apply, hx.2, hsym] at h1 h2
  constructor <;> linarith

/-- The semidefinite program has an optimum. -/
theorem sdp_exists {n : Nat} (adj : RMat n) :
    ∃ chi, SdpFeasible chi ∧ ∀ y, SdpFeasible y → sdpObjective adj y ≤ sdpObjective adj chi := by
  have hK : IsCompact {x : RMat n | SdpFeasible x} := by
    have hbox : IsCompact (Set.pi Set.univ fun _ : Fin n => Set.pi Set.univ fun _ : Fin n => Set.Icc (-1 : ℝ) 1) :=
      isCompact_univ_pi fun _ => isCompact_univ_pi fun _ => isCompact_Icc
    refine IsCompact.of_isClosed_subset (s := (Set.pi Set.univ fun _ : Fin n => Set.pi Set.univ fun _ : Fin n =>
      Set.Icc (-1 : ℝ) 1 : Set (Fin n → Fin n → ℝ))) hbox ?_ ?_
    · have : {x : RMat n | SdpFeasible x} = {x | xᴴ = x} ∩ ((⋂ v : Fin n → ℝ, {x | 0 ≤ star v ⬝ᵥ (x *ᵥ v)}) ∩
          ⋂ i : Fin n, {x | x i i = 1}) := by
        ext x
        simp only [SdpFeasible, Matrix.posSemidef_iff_dotProduct_mulVec, Set.mem_setOf_eq, Set.mem_inter_iff,
          Set.mem_iInter, Matrix.IsHermitian, and_assoc]
      rw [this]
      refine (isClosed_eq (by fun_prop) continuous_id).inter ((isClosed_iInter fun v => ?_).inter
        (isClosed_iInter fun i => ?_))
      · exact isClosed_le continuous_const (by fun_prop)
      · exact isClosed_eq (by fun_prop) continuous_const
    · intro x hx i _ j _
      exact sdp_entry hx i j
  have hne : {x : RMat n | SdpFeasible x}.Nonempty := ⟨1, Matrix.PosSemidef.one, by simp⟩
  have hcont : Continuous fun x : RMat n => sdpObjective adj x := by
    unfold sdpObjective
    fun_prop
  obtain ⟨chi, h1, h2⟩ := hK.exists_isMaxOn hne hcont.continuousOn
  exact ⟨chi, h1, fun y hy => h2 hy⟩

/-- An exact solver of the semidefinite program. -/
noncomputable def someSdp (n : Nat) (adj : RMat n) : Option (RMat n) := some (sdp_exists adj).choose

/-- The path of three vertices with weights 2 and 3. -/
theorem pathQP_maxCut : IsMaxCut pathQP pathW where
  wf := pathQP_cut.1
  binary := by decide +kernel
  size := by decide +kernel
  pos := by decide +kernel
  cut := pathQP_cut.2
  nonneg := by
    intro i _ j _
    unfold pathW
    split
    · norm_num
    · split <;> norm_num

/-- The hypotheses of the theorem on the application are met. -/
example : EighOK someEigMin ∧ CholeskyOK someChol ∧ (∀ n (adj : RMat n), ∃ chi, someSdp n adj = some chi ∧
    SdpFeasible chi ∧ ∀ y, SdpFeasible y → sdpObjective adj y ≤ sdpObjective adj chi) ∧
    (∀ e ∈ (⟨3, [(0, 1, some 4), (1, 2, some 3), (0, 2, none)]⟩ : Graph).edges, (0 : ℚ) ≤ e.2.2.getD 1) :=
  ⟨someEigMin_ok, someChol_ok, fun _ adj => ⟨_, rfl, (sdp_exists adj).choose_spec⟩, by decide +kernel⟩

/-- The expected weight of the returned cut of the path is at least `0.878 · 5`. -/
example : ∃ f : (Fin 4 → Fin pathQP.objective.quadratic.n → ℝ) → ℚ,
    (∀ r, Returns pathQP (solveGw 4 true true someSdp someEigMin someChol pathQP r) (f r)) ∧
    0.878 * 5 ≤ ∫ r, (f r : ℝ) ∂normalRows 4 pathQP.objective.quadratic.n := by
  obtain ⟨f, h1, _, h2⟩ := C79_bound (numCuts := 4) true true pathQP_maxCut (by norm_num) someEigMin_ok someChol_ok
    (sdp := someSdp) rfl (sdp_exists _).choose_spec.1 (sdp_exists _).choose_spec.2
  refine ⟨f, h1, ?_⟩
  have := h2 (fun i => if i = 1 then 1 else 0) (by intro i _; by_cases h : i = 1 <;> simp [h])
  have e : cutWeight pathQP.numVars pathW (fun i => if i = 1 then 1 else 0) = 5 := by decide +kernel
  rw [e] at this
  exact_mod_cast this

end Verif
