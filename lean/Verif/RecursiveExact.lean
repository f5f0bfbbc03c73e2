import Verif.PropsRecursive
import Verif.PropsSubstitute
import Verif.PropsPipeline
import Verif.WarmStartRuns

/-!
# The recursive optimizer with exact inner optimizers

Helper lemmas: the programs that occur during the reduction, and the success of every step.
-/

namespace Verif

/-- Programs that occur during the reduction: binary variables that may be zero, no constraints, an objective over all
variables. -/
structure QP.Free (q : QP) : Prop where
  wf : q.WF
  const : CONST ∉ q.vars.map Variable.name
  binary : ∀ v ∈ q.vars, v.vartype = .binary
  zero : ∀ v ∈ q.vars, v.lb ≤ 0 ∧ 0 ≤ v.ub
  lins : q.lins = []
  quads : q.quads = []
  nl : q.objective.linear.n = q.numVars
  nq : q.objective.quadratic.n = q.numVars

theorem QP.Free.shape {q : QP} (h : q.Free) : q.ShapeOK :=
  ⟨by simp [QP.allCsts, h.lins, h.quads], h.nl, h.nq⟩

theorem QP.Free.sane {q : QP} (h : q.Free) : ∀ v ∈ q.vars, v.lb < INFINITY ∧ -INFINITY < v.ub := by
  intro v hv
  have hinf : (0 : ℚ) < INFINITY := by norm_num [INFINITY]
  have := h.zero v hv
  constructor <;> linarith [this.1, this.2]

theorem QP.Free.zeroIn {q : QP} (h : q.Free) : q.InBounds (fun _ => 0) ∧ q.Sat (fun _ => 0) :=
  ⟨fun _ v hv => h.zero v (List.mem_of_getElem? hv), by simp [QP.Sat, QP.allCsts, h.lins, h.quads]⟩

/-- A substitution of one variable by a multiple of another one is possible and keeps the kind of program. -/
theorem substOne_free {p : QP} (hp : p.Free) {i j : Nat} {c : ℚ} (hi : i < p.numVars) (hj : j < p.numVars)
    (hij : i ≠ j) (hc : c ≠ 0) :
    ∃ q, p.substitute [] [(.idx i, .idx j, c)] = .ok q ∧ q.status ≠ .infeasible ∧ q.Free := by
  have hk : KnownKeys p [] [(.idx i, .idx j, c)] :=
    ⟨by simp, by intro e he; simp at he; subst he; exact ⟨⟨i, rfl, hi⟩, ⟨j, rfl, hj⟩⟩⟩
  have hv : ValidSubst p [] [(.idx i, .idx j, c)] := by
    refine ⟨hk, by simp [replacedKeys], by simpa using hc, ?_⟩
    intro k hk' e he
    simp only [replacedKeys, List.map_nil, List.map_cons, List.nil_append, List.mem_singleton] at hk'
    rw [List.mem_singleton] at he
    subst hk' he
    rintro ⟨a, ⟨rfl, _⟩, ⟨h1, _⟩⟩
    exact hij h1.symm
  have hinf : (0 : ℚ) ≤ INFINITY := by norm_num [INFINITY]
  obtain ⟨q, hq⟩ := C14_accepts_partial p [] [(.idx i, .idx j, c)] hp.wf hp.const
    (by simp [hp.lins, hp.quads]) hp.sane hv ⟨fun _ => 0, by simp, by simp, hp.zeroIn.1, by simp [hinf]⟩
  have hE : IsExtension p q [] [(.idx i, .idx j, c)] (fun _ => 0) (fun _ => 0) := ⟨by simp, by simp, by simp⟩
  obtain ⟨f1, f2⟩ := C13_feasibility_partial p q _ _ hq hp.wf hp.const hp.sane _ _ hE (by simp [hinf])
  have hst : q.status = .valid := by
    by_contra hne
    exact (f2 hne).2 hp.zeroIn
  obtain ⟨hb, _⟩ := (f1 hst).mpr hp.zeroIn
  obtain ⟨hm, _⟩ := C12_extension_exists p q _ _ hq hp.wf hp.const hk
  refine ⟨q, hq, by rw [hst]; simp, ?_⟩
  have hwf := substitute_wf hq hp.wf
  obtain ⟨subs, d0, d1, d2, d3, d4, fa, f3, f4, st⟩ := substitute_stages hq
  obtain ⟨c0, hv0, hl0, hq0⟩ := copyVars_ok st.copy (QP.empty_consistent _)
  obtain ⟨a1, _⟩ := adjustBounds_const st.adjust hp.wf.cons c0
  obtain ⟨c1, l1, c2, l2, qq, le, qe, o1, o2, o3, o4, o5⟩ := substObjective_ok st.obj
  have h3 := st.lins
  have h4 := st.quads
  rw [hp.lins] at h3
  rw [hp.quads] at h4
  simp only [substLins, Except.ok.injEq, Prod.mk.injEq] at h3
  simp only [substQuads, Except.ok.injEq, Prod.mk.injEq] at h4
  obtain ⟨rfl, rfl⟩ := h3
  obtain ⟨rfl, rfl⟩ := h4
  have hvars : q.vars = d1.vars := by rw [st.result, o5]
  have hobj : q.objective = ⟨([p.objective.constant] ++ c1 ++ c2).sum, le, qe, p.objective.sense⟩ := by
    rw [st.result, o5]
  refine ⟨hwf, fun h => hp.const ((hm _).mp h).1, ?_, ?_, ?_, ?_, ?_, ?_⟩
  · intro v hv'
    rw [hvars] at hv'
    have h5 : v.vartype ∈ d1.vars.map Variable.vartype := List.mem_map_of_mem hv'
    rw [a1.types, hv0] at h5
    obtain ⟨w, hw, he⟩ := List.mem_map.mp h5
    simp only [QP.empty, List.nil_append, List.mem_filter] at hw
    rw [← he]
    exact hp.binary w hw.1
  · intro v hv'
    obtain ⟨k, hk'⟩ := List.mem_iff_getElem?.mp hv'
    exact hb k v hk'
  · rw [st.result, o5]; show d1.lins = []; rw [a1.lins, hl0]; rfl
  · rw [st.result, o5]; show d1.quads = []; rw [a1.quads, hq0]; rfl
  · rw [hobj, QP.numVars, hvars]
    simp only [LinExpr.ofInput, Except.ok.injEq] at o3
    rw [← o3]; rfl
  · rw [hobj, QP.numVars, hvars]
    simp only [QuadExpr.ofInput, Except.ok.injEq] at o4
    rw [← o4]; exact (substQuadratic_n o2).2.1

theorem LinExpr.getItem_lt {l : LinExpr} {vi : Assoc String Nat} {k : Nat} (h : k < l.n) :
    l.getItem vi (.idx k) = .ok (Dict.get l.coeffs k) := by
  simp [LinExpr.getItem, resolve, h]

theorem QuadExpr.getItem_lt {q : QuadExpr} {vi : Assoc String Nat} {i k : Nat} (hi : i < q.n) (hk : k < q.n) :
    q.getItem vi (.idx i) (.idx k) = .ok (qget q i k) := by
  simp [QuadExpr.getItem, resolve, hi, hk, qget]

theorem shiftLinear_success {q : QuadExpr} {vi : Assoc String Nat} {i : Nat} (hi : i < q.n) : ∀ (m k : Nat) (l : LinExpr),
    k + m ≤ l.n → k + m ≤ q.n → ∃ l', shiftLinear q vi i m k l = .ok l' := by
  intro m
  induction m with
  | zero => intro k l _ _; exact ⟨l, rfl⟩
  | succ m ih =>
    intro k l h1 h2
    rw [shiftLinear]
    rw [LinExpr.getItem_lt (by omega), QuadExpr.getItem_lt hi (by omega)]
    simp only [LinExpr.setItem, resolve]
    rw [if_pos (show k < l.n by omega)]
    exact ih _ _ (by simp only; omega) (by omega)

theorem shiftProgram_free {p : QP} (hp : p.Free) {i : Nat} (hi : i < p.numVars) :
    ∃ p', shiftProgram p i = .ok p' ∧ p'.Free ∧ p'.numVars = p.numVars := by
  obtain ⟨l, hl⟩ := shiftLinear_success (vi := p.varsIndex) (by rw [hp.nq]; exact hi) p.numVars 0
    p.objective.linear (by rw [hp.nl]; omega) (by rw [hp.nq]; omega)
  have h : shiftProgram p i = .ok { p with objective := { p.objective with
      constant := p.objective.constant + Dict.get p.objective.linear.coeffs i + qget p.objective.quadratic i i,
      linear := l } } := by
    unfold shiftProgram
    rw [LinExpr.getItem_lt (by rw [hp.nl]; exact hi), QuadExpr.getItem_lt (by rw [hp.nq]; exact hi) (by rw [hp.nq]; exact hi)]
    simp only [hl]
  have sf := shiftProgram_facts hp.wf hi h
  obtain ⟨a, _, _⟩ := shiftLinear_spec _ _ _ _ hp.wf.objLin.1 hl
  exact ⟨_, h, ⟨sf.wf, hp.const, hp.binary, hp.zero, hp.lins, hp.quads, by simp only [a, hp.nl]; rfl, hp.nq⟩, rfl⟩

/-! ## The samples of an exact optimizer -/

/-- The samples describe a ground state: points of the right length, nonnegative probabilities, those with positive
probability are optimal among all bit strings, and there is one. -/
def GroundSamples (q : QP) (l : List Sample) : Prop :=
  (∀ s ∈ l, s.x.length = q.numVars ∧ 0 ≤ s.probability ∧
    (0 < s.probability → OptimalIn (IsBits q.numVars) q.objective (pt s.x))) ∧ ∃ s ∈ l, 0 < s.probability

theorem GroundSamples.size {q : QP} {l : List Sample} (h : GroundSamples q l) : correlationSize l = .ok q.numVars := by
  obtain ⟨h1, s, hs, _⟩ := h
  cases l with
  | nil => simp at hs
  | cons a l => simp only [correlationSize, (h1 a (by simp)).1]

/-- Weight of the samples with a property. -/
def weight (l : List Sample) (P : Sample → Bool) : ℚ := ((l.filter P).map Sample.probability).sum

theorem weight_split (l : List Sample) (P : Sample → Bool) :
    weight l P + weight l (fun s => !P s) = (l.map Sample.probability).sum := by
  induction l with
  | nil => simp [weight]
  | cons s l ih =>
    simp only [weight] at ih ⊢
    by_cases h : P s <;> simp [h] <;> linarith

theorem weight_pos {l : List Sample} (h0 : ∀ s ∈ l, 0 ≤ s.probability) {P : Sample → Bool} (h : 0 < weight l P) :
    ∃ s ∈ l, P s = true ∧ 0 < s.probability := by
  by_contra hn
  push Not at hn
  have : ∀ q ∈ (l.filter P).map Sample.probability, q = 0 := by
    intro q hq
    obtain ⟨s, hs, rfl⟩ := List.mem_map.mp hq
    obtain ⟨h1, h2⟩ := List.mem_filter.mp hs
    exact le_antisymm (hn s h1 h2) (h0 s h1)
  unfold weight at h
  rw [List.sum_eq_zero this] at h
  exact lt_irrefl _ h

theorem sum_prob_pos {l : List Sample} (h0 : ∀ s ∈ l, 0 ≤ s.probability) (h : ∃ s ∈ l, 0 < s.probability) :
    0 < (l.map Sample.probability).sum := by
  obtain ⟨s, hs, hp⟩ := h
  refine lt_of_lt_of_le hp ?_
  refine List.single_le_sum ?_ _ (List.mem_map_of_mem hs)
  intro q hq
  obtain ⟨t, ht, rfl⟩ := List.mem_map.mp hq
  exact h0 t ht

/-- For every pair the sign chosen by the reduction occurs in a sample of positive probability. -/
theorem chosen_occurs {l : List Sample} (h0 : ∀ s ∈ l, 0 ≤ s.probability) (h1 : ∃ s ∈ l, 0 < s.probability) {n i j : Nat}
    (hi : i < n) (hj : j < n) (hij : i ≠ j)
    (hmax : ∀ a < n, ∀ b < n, a ≠ b → |correlation l a b| ≤ |correlation l i j|) :
    if 0 < correlation l i j then ∃ s ∈ l, 0 < s.probability ∧ pt s.x i = pt s.x j
    else ∃ s ∈ l, 0 < s.probability ∧ pt s.x i ≠ pt s.x j := by
  have htot := sum_prob_pos h0 h1
  have hcor : ∀ a b, b < a → correlation l a b = weight l (fun s => decide (pt s.x a = pt s.x b)) -
      weight l (fun s => !decide (pt s.x a = pt s.x b)) := by
    intro a b hab
    rw [C30_correlation, if_pos hab]
    simp [weight]
  split
  · rename_i hpos
    have hlt : j < i := by
      by_contra hn
      rw [C30_correlation, if_neg hn] at hpos
      exact lt_irrefl _ hpos
    rw [hcor i j hlt] at hpos
    have hs := weight_split l (fun s => decide (pt s.x i = pt s.x j))
    obtain ⟨s, a, b, c⟩ := weight_pos h0 (P := fun s => decide (pt s.x i = pt s.x j)) (by linarith)
    exact ⟨s, a, c, by simpa using b⟩
  · rename_i hneg
    rcases lt_or_gt_of_ne hij with hlt | hlt
    · have hz : correlation l i j = 0 := by rw [C30_correlation, if_neg (by omega)]
      have h2 := hmax j hj i hi (Ne.symm hij)
      rw [hz, abs_zero, abs_nonpos_iff, hcor j i hlt] at h2
      have hs := weight_split l (fun s => decide (pt s.x j = pt s.x i))
      obtain ⟨s, a, b, c⟩ := weight_pos h0 (P := fun s => !decide (pt s.x j = pt s.x i)) (by linarith)
      exact ⟨s, a, c, Ne.symm (by simpa using b)⟩
    · rw [hcor i j hlt] at hneg
      have hs := weight_split l (fun s => decide (pt s.x i = pt s.x j))
      obtain ⟨s, a, b, c⟩ := weight_pos h0 (P := fun s => !decide (pt s.x i = pt s.x j)) (by linarith)
      exact ⟨s, a, c, by simpa using b⟩

/-- One iteration with a ground state succeeds, and some optimal point respects the replacement. -/
theorem reduceStep_ground {p : QP} (hp : p.Free) (h2 : 2 ≤ p.numVars) {l : List Sample} (hl : GroundSamples p l) :
    ∃ p' q xi xj s, reduceStep l p = .ok (p', q, xi, xj, s) ∧ q.Free ∧
      ∃ V : String → ℚ, V xi = replaced s (V xj) ∧ (∀ n ∈ p.vars.map Variable.name, V n = 0 ∨ V n = 1) ∧
        OptimalIn (IsBits p.numVars) p.objective (ptOf p V) := by
  obtain ⟨⟨i, j⟩, hij⟩ : ∃ ij, strongest l p.numVars = .ok ij := by
    unfold strongest
    rw [if_neg (by omega)]
    exact ⟨_, rfl⟩
  obtain ⟨hi, hj, hne, hmax⟩ := C30_strongest l _ i j h2 hij
  have hocc := chosen_occurs (fun s hs => (hl.1 s hs).2.1) hl.2 hi hj hne hmax
  have hvi : p.vars[i]? = some (p.vars[i]'hi) := List.getElem?_eq_getElem hi
  have hvj : p.vars[j]? = some (p.vars[j]'hj) := List.getElem?_eq_getElem hj
  have hV : ∀ s ∈ l, 0 < s.probability → ∃ V : String → ℚ, V (p.vars[i]'hi).name = pt s.x i ∧
      V (p.vars[j]'hj).name = pt s.x j ∧ (pt s.x i = 0 ∨ pt s.x i = 1) ∧ (pt s.x j = 0 ∨ pt s.x j = 1) ∧
      (∀ n ∈ p.vars.map Variable.name, V n = 0 ∨ V n = 1) ∧
      OptimalIn (IsBits p.numVars) p.objective (ptOf p V) := by
    intro s hs hpos
    have ho := (hl.1 s hs).2.2 hpos
    have hag : ∀ k < p.numVars, ptOf p (nameVal p.varsIndex (pt s.x)) k = pt s.x k := by
      intro k hk
      obtain ⟨v, hv, hvn⟩ := varName_mem hk
      rw [ptOf, hvn, nameVal_at hp.wf.cons hv]
    refine ⟨nameVal p.varsIndex (pt s.x), nameVal_at hp.wf.cons hvi _, nameVal_at hp.wf.cons hvj _, ho.1 i hi, ho.1 j hj,
      ?_, ?_, ?_⟩
    · intro n hn
      obtain ⟨w, hw, rfl⟩ := List.mem_map.mp hn
      obtain ⟨a, ha⟩ := List.mem_iff_getElem?.mp hw
      rw [nameVal_at hp.wf.cons ha]
      exact ho.1 a (List.getElem?_eq_some_iff.mp ha).1
    · intro k hk
      rw [hag k hk]
      exact ho.1 k hk
    · intro y hy
      rw [Objective.val_agree hp.wf.objLin hp.wf.objQuad hag]
      exact ho.2 y hy
  unfold reduceStep
  rw [hl.size]
  simp only [hij, hvi, hvj]
  by_cases hc : correlation l i j > 0
  · rw [if_pos hc]
    rw [if_pos hc] at hocc
    obtain ⟨s, hs, hpos, heq⟩ := hocc
    obtain ⟨q, hq, hst, hfree⟩ := substOne_free hp hi hj hne (c := 1) (by norm_num)
    obtain ⟨V, v1, v2, _, _, v3, v4⟩ := hV s hs hpos
    refine ⟨p, q, (p.vars[i]'hi).name, (p.vars[j]'hj).name, 1, by simp only [hq, hst, if_false], hfree, V, ?_, v3, v4⟩
    rw [v1, v2, heq]; simp [replaced]
  · rw [if_neg hc]
    rw [if_neg hc] at hocc
    obtain ⟨s, hs, hpos, heq⟩ := hocc
    obtain ⟨p1, hp1, hfree1, hn1⟩ := shiftProgram_free hp hi
    obtain ⟨q, hq, hst, hfree⟩ := substOne_free hfree1 (i := i) (j := j) (by rw [hn1]; exact hi) (by rw [hn1]; exact hj) hne
      (c := -1) (by norm_num)
    obtain ⟨V, v1, v2, b1, b2, v3, v4⟩ := hV s hs hpos
    refine ⟨p1, q, (p.vars[i]'hi).name, (p.vars[j]'hj).name, -1, by simp only [hp1, hq, hst, if_false], hfree, V, ?_, v3, v4⟩
    rw [v1, v2]
    simp only [replaced]
    rcases b1 with b1 | b1 <;> rcases b2 with b2 | b2 <;> simp [b1, b2] at heq ⊢

/-! ## The loop -/

/-- How much one iteration may change the objective: nothing if all coefficients are multiples of something larger
than twice the cutoff, otherwise the number of variables times the cutoff. -/
def Accuracy (ε : ℚ) (p : QP) : Prop :=
  0 ≤ ε ∧ ((∃ g, 2 / 10 ^ 10 < g ∧ Quant g p.objective) ∨ (p.numVars : ℚ) / 10 ^ 10 ≤ ε)

theorem Accuracy.step {ε : ℚ} {p q : QP} (h : Accuracy ε p) (hp : p.WF) {xi xj : String} {s : Int}
    (sf : StepFacts p q xi xj s) :
    Accuracy ε q ∧ ∀ V : String → ℚ, V xi = replaced s (V xj) → (∀ n ∈ q.vars.map Variable.name, |V n| ≤ 1) →
      |p.objective.val (ptOf p V) - q.objective.val (ptOf q V)| ≤ ε := by
  obtain ⟨h0, ⟨g, hg, hQ⟩ | h1⟩ := h
  · obtain ⟨a, b⟩ := sf.exact g hg hQ
    refine ⟨⟨h0, Or.inl ⟨g, hg, a⟩⟩, fun V hV _ => ?_⟩
    rw [b V hV, sub_self, abs_zero]
    exact h0
  · refine ⟨⟨h0, Or.inr (le_trans ?_ h1)⟩, fun V hV hb => le_trans (sf.close V hV hb) h1⟩
    have : (q.numVars : ℚ) ≤ p.numVars := by
      have := sf.numVars hp
      exact_mod_cast (by omega : q.numVars ≤ p.numVars)
    gcongr

theorem Chain.accuracy {p r : QP} {l : Replacements} (h : Chain p l r) {ε : ℚ} (ha : Accuracy ε p) (hp : p.WF)
    (V : String → ℚ) (h1 : ∀ e ∈ l, V e.1 = replaced e.2.2 (V e.2.1))
    (h2 : ∀ n ∈ r.vars.map Variable.name, 0 ≤ V n ∧ V n ≤ 1) :
    |p.objective.val (ptOf p V) - r.objective.val (ptOf r V)| ≤ l.length * ε := by
  induction h with
  | nil p => simp
  | cons p q r xi xj s l sf ch ih =>
    have hl : ∀ e ∈ l, V e.1 = replaced e.2.2 (V e.2.1) := fun e he => h1 e (by simp [he])
    obtain ⟨hq, hs⟩ := ha.step hp sf
    have h3 := ih hq sf.wf hl h2
    have h4 := hs V (h1 (xi, xj, s) (by simp)) (by
      intro n hn
      obtain ⟨a, b⟩ := ch.unitRange V hl h2 n hn
      rw [abs_of_nonneg a]; exact b)
    have h5 := abs_sub_le (p.objective.val (ptOf p V)) (q.objective.val (ptOf q V)) (r.objective.val (ptOf r V))
    simp only [List.length_cons]
    push_cast
    linarith

theorem Chain.bits {p r : QP} {l : Replacements} (h : Chain p l r) (V : String → ℚ)
    (h1 : ∀ e ∈ l, V e.1 = replaced e.2.2 (V e.2.1))
    (h2 : ∀ n ∈ r.vars.map Variable.name, V n = 0 ∨ V n = 1) :
    ∀ n ∈ p.vars.map Variable.name, V n = 0 ∨ V n = 1 := by
  induction h with
  | nil p => exact h2
  | cons p q r xi xj s l sf ch ih =>
    have hq := ih (fun e he => h1 e (by simp [he])) h2
    intro n hn
    by_cases he : n = xi
    · subst he
      rw [h1 (n, xj, s) (by simp)]
      simp only [replaced]
      split
      · exact hq xj sf.target
      · rcases hq xj sf.target with h | h <;> rw [h] <;> norm_num
    · exact hq n ((sf.mem n).mpr ⟨hn, he⟩)

theorem sense_sub_le {s : ObjSense} {a b ε : ℚ} (h : |a - b| ≤ ε) : s.value * b ≤ s.value * a + ε := by
  rw [abs_le] at h
  cases s <;> simp only [ObjSense.value] <;> linarith [h.1, h.2]

/-- The loop with ground states succeeds, and the reduced program has a point as good as any of the original one. -/
theorem reduceLoop_ground {solver : Nat → QP → Except Err Result} {m : Nat} (hm : 1 ≤ m)
    (hsol : ∀ t q, q.Free → m < q.numVars → ∃ res, solver t q = .ok res ∧ GroundSamples q res.samples) {ε : ℚ} :
    ∀ (fuel t : Nat) (p : QP) (reps : Replacements), p.Free → Accuracy ε p → p.numVars < fuel →
    ∃ r reps', reduceLoop solver m fuel t p reps = some (.ok (r, reps')) ∧ r.Free ∧
      ∀ y, IsBits p.numVars y → ∃ w, IsBits r.numVars w ∧
        r.objective.sense.value * r.objective.val w ≤
          p.objective.sense.value * p.objective.val y + (p.numVars - r.numVars : ℚ) * ε := by
  intro fuel
  induction fuel with
  | zero => intro t p reps _ _ h; omega
  | succ fuel ih =>
    intro t p reps hp ha hf
    rw [reduceLoop]
    by_cases hn : p.numVars > m
    · rw [if_pos hn]
      obtain ⟨res, h1, h2⟩ := hsol t p hp hn
      obtain ⟨p', q, xi, xj, s, h3, hq, V, hV, hb, ho⟩ := reduceStep_ground hp (by omega) h2
      have sf := reduceStep_facts hp.wf hp.const h3
      have hnum := sf.numVars hp.wf
      obtain ⟨aq, hacc⟩ := ha.step hp.wf sf
      obtain ⟨r, reps', h4, hr, hkeep⟩ := ih (t + 1) q (Assoc.set reps xi (xj, s)) hq aq (by omega)
      refine ⟨r, reps', by simp only [h1, h3, h4], hr, ?_⟩
      intro y hy
      have hqb : ∀ n ∈ q.vars.map Variable.name, V n = 0 ∨ V n = 1 := fun n hn => hb n ((sf.mem n).mp hn).1
      obtain ⟨w, hw, hle⟩ := hkeep (ptOf q V) (by
        intro k hk
        obtain ⟨v, hv, hvn⟩ := varName_mem hk
        rw [ptOf, hvn]
        exact hqb _ (List.mem_map_of_mem (List.mem_of_getElem? hv)))
      refine ⟨w, hw, ?_⟩
      have h5 := hacc V hV (by
        intro n hn
        rcases hqb n hn with h | h <;> rw [h] <;> norm_num)
      have h6 := sense_sub_le (s := p.objective.sense) h5
      have h7 := ho.2 y hy
      rw [sf.sense] at hle
      have h8 : (p.numVars : ℚ) = q.numVars + 1 := by exact_mod_cast hnum.symm
      rw [h8]
      linarith
    · rw [if_neg hn]
      exact ⟨p, reps, rfl, hp, fun y hy => ⟨y, hy, by simp⟩⟩

/-! ## The optimizer in the loop -/

/-- The conversion to a QUBO changes nothing. -/
theorem toQubo_free {q : QP} (h : q.Free) (pen : Option ℚ) :
    ∃ st, q.toQubo pen = .ok st ∧ st.dst.numVars = q.numVars ∧ st.dst.objective.sense = q.objective.sense ∧
      (∀ x, st.dst.objective.val x = q.objective.val x) ∧ ∀ z, z.length = q.numVars → st.interpret z = .ok z := by
  have hno : ∀ c, c ∉ q.allCsts := by simp [QP.allCsts, h.lins, h.quads]
  obtain ⟨eqs, h1, hx⟩ := ineqToEq_success (mode := .integer) h.wf
    (fun v hv => le_trans (h.zero v hv).1 (h.zero v hv).2) (fun c hc => absurd hc (hno c))
    (fun c hc => absurd hc (hno c)) (by simp [h.lins]) (fun c hc => absurd hc (hno c))
  have f1 := ineqToEq_facts h.wf h1
  obtain ⟨more, hm, _⟩ := f1.slacks
  have hnil : more = [] := by
    rw [List.eq_nil_iff_forall_not_mem]
    intro v hv
    have hnd : (eqs.vars.map Variable.name).Nodup := f1.starts.wf.cons.vars.2
    rw [hm, List.map_append, List.nodup_append] at hnd
    rcases (hx h.quads).2 v.name (by rw [hm]; simp only [List.map_append, List.mem_append]; exact Or.inr (List.mem_map_of_mem hv)) with h2 | ⟨k, hk, _⟩
    · obtain ⟨w, hw, hn⟩ := List.mem_map.mp h2
      refine hnd.2.2 w.name ?_ v.name (List.mem_map_of_mem hv) hn
      rw [List.map_map]
      exact List.mem_map.mpr ⟨w, hw, by simp only [Function.comp_apply, plainVar]; split <;> rfl⟩
    · simp [h.lins] at hk
  rw [hnil, List.append_nil] at hm
  have hty : ∀ v ∈ eqs.vars, v.vartype ≠ .integer := by
    rw [hm]
    intro v hv
    obtain ⟨w, hw, rfl⟩ := List.mem_map.mp hv
    simp [plainVar, binVar, h.binary w hw]
  have h2 := intToBin_none hty
  have f2 := intToBin_facts f1.starts.wf h2
  have hn : eqs.numVars = q.numVars := by simp [QP.numVars, hm]
  have hlins : eqs.lins = [] := by
    have := f1.lins
    rw [h.lins] at this
    exact List.forall₂_nil_left_iff.mp this
  obtain ⟨dst, pen', h3⟩ := toPenalty_success (penalty := pen) f1.starts.wf (by
    rw [hm]
    intro v hv
    obtain ⟨w, hw, rfl⟩ := List.mem_map.mp hv
    simp [plainVar, binVar, h.binary w hw]) (by simp [hlins])
  have f3 := toPenalty_facts f1.starts.wf h3
  have hmsg : ¬ (quboMsg q).length > 0 :=
    (quboMsg_empty q).mpr ⟨fun v hv => by simp [h.binary v hv], h.quads, by simp [h.lins]⟩
  refine ⟨⟨q, eqs, ⟨eqs, eqs, []⟩, dst, pen'⟩, by simp only [QP.toQubo, hmsg, if_false, h1, h2, h3], ?_, ?_, ?_, ?_⟩
  · rw [← hn]; simp [QP.numVars, f3.vars]
  · rw [f3.sense, f1.objective.1]
  · intro x
    rw [f3.obj, f1.objective.2, hlins]
    simp [residual2]
  · intro z hz
    obtain ⟨y, hy⟩ : ∃ y, (⟨eqs, eqs, []⟩ : I2B).interpret z = .ok y :=
      ⟨_, (interpret_iff f1.starts.wf f2 z _).mpr ⟨by rw [hn, hz], rfl⟩⟩
    obtain ⟨i1, i2⟩ := interpret_none f1.starts.wf hty hy
    have hyz : y = z := by
      apply List.ext_getElem (by rw [i1, hn, hz])
      intro k k1 k2
      have := i2 k (by rw [← i1]; exact k1)
      simpa [pt, List.getD_eq_getElem?_getD, List.getElem?_eq_getElem k1, List.getElem?_eq_getElem k2] using this
    subst hyz
    have := (ineqInterpret_iff h.wf.cons f1.starts y y).mpr ⟨by rw [hn, hz], by rw [List.take_of_length_le (by omega)]⟩
    have hlen : ¬ y.length ≠ eqs.numVars := by rw [hn]; simpa using hz
    simp only [QuboState.interpret, penInterpret, hlen, if_false, hy, this]

theorem eigen_prob {n : Nat} (hn : 0 < n) {qubo : QP} (h1 : qubo.objective.linear.n = n)
    (h2 : qubo.objective.quadratic.n = n) {thr : ℚ} {e : Eigenstate} (he : e.IsState n)
    (hx : ∃ x p, e.HasProb n x p ∧ thr ≤ p) {raw : List Sample} (h : eigenToSolutions e qubo thr = .ok raw) :
    ∀ s ∈ raw, thr ≤ s.probability := by
  cases e with
  | vector v =>
    obtain ⟨raw', r1, _, r3⟩ := C27_vector qubo n hn h1 h2 thr v he
    rw [r1] at h
    cases h
    intro s hs
    obtain ⟨i, a, ha, hp, _, _, _, hpr, _⟩ := (r3 s).mp hs
    rw [hpr]
    exact hp
  | counts d =>
    obtain ⟨x, p, ⟨hs, _⟩, _⟩ := hx
    have hdec := decodeCounts_ok (thr := thr) h1 h2 hs d he
    simp only [eigenToSolutions] at h
    rw [hdec] at h
    cases h
    intro s hs'
    obtain ⟨r, hr, rfl⟩ := List.mem_map.mp hs'
    simpa using (List.mem_filter.mp hr).2
  | dictFn d => exact absurd he (by simp [Eigenstate.IsState])
  | other => exact absurd he (by simp [Eigenstate.IsState])

theorem interpretResult_samples {p : QP} {convs : List Interp} {samples raw : List Sample} {x : List ℚ} {r : Result}
    (h : interpretResult p convs samples raw x = .ok r) : r.samples = samples := by
  unfold interpretResult at h
  cases h0 : interpretAll convs x with
  | error e => simp [h0] at h
  | ok y =>
    cases h1 : p.objective.evaluate y with
    | error e => simp [h0, h1] at h
    | ok fval =>
      cases h2 : feasibilityStatus p y with
      | error e => simp [h0, h1, h2] at h
      | ok st =>
        simp only [h0, h1, h2, Result.mk?] at h
        split at h
        · simp at h
        · simp only [Except.ok.injEq] at h
          rw [← h]

theorem sum_map_pos {α : Type} {l : List α} {f : α → ℚ} (h : ∀ a ∈ l, 0 < f a) (hl : l ≠ []) : 0 < (l.map f).sum := by
  induction l with
  | nil => exact absurd rfl hl
  | cons a l ih =>
    simp only [List.map_cons, List.sum_cons]
    have ha := h a (by simp)
    by_cases h0 : l = []
    · subst h0; simpa using ha
    · have := ih (fun b hb => h b (by simp [hb])) h0
      linarith

/-- `MinimumEigenOptimizer` with an exact eigensolver returns an optimal point, and all its samples are optimal. -/
theorem minEigen_free {q : QP} (h : q.Free) (hn : 0 < q.numVars) (pen : Option ℚ)
    {solver : QubitOp → Option Eigenstate} (hsol : ExactSolver solver) :
    ∃ r y, minEigenSolve solver [quboConverter pen] q = .ok r ∧ GroundSamples q r.samples ∧ r.x = some y ∧
      y.length = q.numVars ∧ OptimalIn (IsBits q.numVars) q.objective (pt y) := by
  obtain ⟨st, hst, hnum, hsen, hval, hint⟩ := toQubo_free h pen
  obtain ⟨hbin, hcs, ⟨⟨op, offset⟩, hop⟩⟩ := (C23_qubo pen q h.wf).1 st hst
  obtain ⟨_, _, _, _, h3⟩ := toQubo_stages hst
  obtain ⟨hnq, c, hen⟩ := toIsing_shift hop
  obtain ⟨hshp, hdiag⟩ := toIsing_diagonal hop
  obtain ⟨e, he, hg, hpr⟩ := hsol op (by omega) hshp hdiag
  have hN : op.numQubits = q.numVars := by omega
  rw [hN] at hg hpr
  have hl1 : st.dst.objective.linear.n = q.numVars := by rw [(qubo_interpret h.wf hst).1, hnum]
  have hl2 : st.dst.objective.quadratic.n = q.numVars := by
    rw [← hnum]
    have f1 := ineqToEq_facts h.wf (toQubo_stages hst).2.2.1
    have f2 := intToBin_facts f1.starts.wf (toQubo_stages hst).2.2.2.1
    exact (toPenalty_facts f2.wf h3).shape.2.2
  obtain ⟨raw, hraw, hne, hmem⟩ := eigen_decode hn hl1 hl2 (by norm_num) hg.1 hpr
  have hprob := eigen_prob hn hl1 hl2 hg.1 hpr hraw
  have hopt : ∀ s ∈ raw, s.x.length = q.numVars ∧ OptimalIn (IsBits q.numVars) q.objective (pt s.x) := by
    intro s hs
    obtain ⟨hl, hb, _, pr, hp, hpos⟩ := hmem s hs
    refine ⟨hl, hb, fun y hy => ?_⟩
    have := hg.2 s.x pr hp hpos y hy
    rw [hen _ (by rw [hnum]; exact hb), hen _ (by rw [hnum]; exact hy), hsen, hval, hval] at this
    linarith
  have hmsg : ¬ (quboMsg q).length > 0 := by
    intro hlen
    simp [QP.toQubo, hlen] at hst
  have hall : ∀ x, interpretAll [st.interpret] x = st.interpret x := by
    intro x
    simp only [interpretAll, List.reverse_singleton, interpretRev]
    cases st.interpret x <;> rfl
  have hsolve : minEigenSolve solver [quboConverter pen] q = solveInternal solver op st.dst q [st.interpret] := by
    simp only [minEigenSolve, hmsg, if_false, convertAll, quboConverter, hst, hop]
  obtain ⟨srt, hsrt⟩ : ∃ srt, srt = sortedBy (fun a b : Sample =>
      decide (st.dst.objective.sense.value * a.fval ≤ st.dst.objective.sense.value * b.fval)) raw := ⟨_, rfl⟩
  have hsm : ∀ s, s ∈ srt ↔ s ∈ raw := fun s => by rw [hsrt]; exact mem_sortedBy
  cases srt with
  | nil =>
    obtain ⟨s, hs'⟩ := List.exists_mem_of_ne_nil raw hne
    simp [← hsm] at hs'
  | cons s l =>
    have hi : ∀ r ∈ s :: l, Interprets [st.interpret] r.x r.x := by
      intro r hr
      rw [interprets_iff, hall]
      exact hint _ (hopt r ((hsm r).mp hr)).1
    obtain ⟨samples, hsam⟩ := C26_accepts q h.shape (s :: l) [st.interpret]
      (fun r hr => ⟨r.x, hi r hr, (hopt r ((hsm r).mp hr)).1⟩)
    obtain ⟨r, hr⟩ := C29_accepts q h.shape [st.interpret] samples (s :: l) s.x s.x (hi s (by simp))
      (hopt s ((hsm s).mp (by simp))).1
    obtain ⟨y, y1, y2, y3, _⟩ := C29_result q h.wf.cons.vars.2 _ _ _ _ r hr
    have hy : y = s.x := by
      have := hi s (by simp)
      rw [interprets_iff] at this y1
      rw [this] at y1
      cases y1
      rfl
    subst hy
    refine ⟨r, s.x, ?_, ?_, y2, y3, (hopt s ((hsm s).mp (by simp))).2⟩
    · rw [hsolve]
      simp only [solveInternal, hN, hn.ne', if_false, he, hraw, ← hsrt, hsam, hr]
    · rw [interpretResult_samples hr]
      obtain ⟨pts, p1, _, p3, p4, _⟩ := C26_merge q _ _ _ hsam
      have hpts : pts = (s :: l).map Sample.x := by
        have : ∀ (a : List Sample) (b : List (List ℚ)), (∀ r ∈ a, r ∈ s :: l) →
            List.Forall₂ (fun r x => Interprets [st.interpret] r.x x) a b → b = a.map Sample.x := by
          intro a b ha hab
          induction hab with
          | nil => rfl
          | cons h1 h2 ih =>
            rename_i r x a b
            have h3 := hi r (ha r (by simp))
            rw [interprets_iff] at h1 h3
            rw [h3] at h1
            cases h1
            rw [ih fun r hr => ha r (by simp [hr])]
            rfl
        exact this _ _ (fun _ hr => hr) p1
      have hpos : ∀ t ∈ samples, 0 < t.probability := by
        intro t ht
        rw [(p4 t ht).1]
        refine sum_map_pos ?_ ?_
        · intro a ha
          have h5 := (List.of_mem_zip (List.mem_filter.mp ha).1).1
          exact lt_of_lt_of_le (by norm_num) (hprob _ ((hsm _).mp h5))
        · have h5 := (p3 t.x).mp (List.mem_map_of_mem ht)
          rw [hpts] at h5
          obtain ⟨r, hr, hrx⟩ := List.mem_map.mp h5
          obtain ⟨k, hk, hk'⟩ := List.mem_iff_getElem.mp hr
          apply List.ne_nil_of_mem (a := (r, t.x))
          refine List.mem_filter.mpr ⟨?_, by simp⟩
          rw [hpts, List.mem_iff_getElem]
          refine ⟨k, by simpa using hk, ?_⟩
          rw [List.getElem_zip, List.getElem_map, hk', hrx]
      have hsx : ∀ t ∈ samples, t.x.length = q.numVars ∧ OptimalIn (IsBits q.numVars) q.objective (pt t.x) := by
        intro t ht
        have h5 := (p3 t.x).mp (List.mem_map_of_mem ht)
        rw [hpts] at h5
        obtain ⟨r, hr, hrx⟩ := List.mem_map.mp h5
        rw [← hrx]
        exact hopt r ((hsm r).mp hr)
      refine ⟨fun t ht => ⟨(hsx t ht).1, (hpos t ht).le, fun _ => (hsx t ht).2⟩, ?_⟩
      have h5 : s.x ∈ samples.map Sample.x := (p3 _).mpr (by rw [hpts]; simp)
      obtain ⟨t, ht, _⟩ := List.mem_map.mp h5
      exact ⟨t, ht, hpos t ht⟩

/-! ## The unrolled point -/

theorem Chain.length {p r : QP} {l : Replacements} (h : Chain p l r) (hp : p.WF) :
    r.numVars + l.length = p.numVars := by
  induction h with
  | nil p => simp
  | cons p q r xi xj s l sf ch ih =>
    have := ih sf.wf
    have := sf.numVars hp
    simp only [List.length_cons]
    omega

theorem Chain.sense {p r : QP} {l : Replacements} (h : Chain p l r) : r.objective.sense = p.objective.sense := by
  induction h with
  | nil p => rfl
  | cons p q r xi xj s l sf ch ih => rw [ih, sf.sense]

theorem Chain.pos {p r : QP} {l : Replacements} (h : Chain p l r) (hp : 0 < p.numVars) : 0 < r.numVars := by
  induction h with
  | nil p => exact hp
  | cons p q r xi xj s l sf ch ih =>
    refine ih ?_
    obtain ⟨w, hw, _⟩ := List.mem_map.mp sf.target
    exact List.length_pos_of_mem hw

/-- The unrolled point of an optimal point of the reduced program is as good as allowed by the accuracy. -/
theorem unroll_ground {solver : Nat → QP → Except Err Result} {m : Nat} (hm : 1 ≤ m)
    (hsol : ∀ t q, q.Free → m < q.numVars → ∃ res, solver t q = .ok res ∧ GroundSamples q res.samples) {ε : ℚ}
    {p : QP} (hp : p.Free) (ha : Accuracy ε p) {fuel : Nat} (hf : p.numVars < fuel) :
    ∃ r reps, reduceLoop solver m fuel 0 p [] = some (.ok (r, reps)) ∧ r.Free ∧
      (0 < p.numVars → 0 < r.numVars) ∧
      ∀ y : List ℚ, y.length = r.numVars → OptimalIn (IsBits r.numVars) r.objective (pt y) →
        ∃ x, unroll reps r p (some y) = .ok x ∧ x.length = p.numVars ∧ IsBits p.numVars (pt x) ∧
          ∀ z, IsBits p.numVars z → p.objective.sense.value * p.objective.val (pt x) ≤
            p.objective.sense.value * p.objective.val z + 2 * p.numVars * ε := by
  obtain ⟨r, reps, h1, hr, hkeep⟩ := reduceLoop_ground hm hsol fuel 0 p [] hp ha hf
  obtain ⟨_, l, hl, hch⟩ := reduceLoop_chain _ _ _ _ _ _ hp.wf hp.const (by simp [Assoc.keys]) h1
  rw [List.nil_append] at hl
  subst hl
  have hlen := hch.length hp.wf
  refine ⟨r, reps, h1, hr, ?_, ?_⟩
  · exact hch.pos
  · intro y hy ho
    obtain ⟨V, v1, v2, v3⟩ := unroll_values hch hp.wf (y := y) (by omega)
    have hrn : ∀ n ∈ r.vars.map Variable.name, V n = 0 ∨ V n = 1 := by
      intro n hn
      obtain ⟨w, hw, rfl⟩ := List.mem_map.mp hn
      obtain ⟨a, haw⟩ := List.mem_iff_getElem?.mp hw
      rw [v3 a w haw]
      exact ho.1 a (List.getElem?_eq_some_iff.mp haw).1
    have hpn := hch.bits V v2 hrn
    have hagp : ∀ k < p.numVars, ptOf p V k = pt (p.vars.map fun v => V v.name) k := by
      intro k hk
      obtain ⟨v, hv, hvn⟩ := varName_mem hk
      rw [ptOf, hvn]
      simp [pt, List.getD_eq_getElem?_getD, List.getElem?_map, hv]
    have hagr : ∀ k < r.numVars, ptOf r V k = pt y k := by
      intro k hk
      obtain ⟨v, hv, hvn⟩ := varName_mem hk
      rw [ptOf, hvn, v3 k v hv]
    refine ⟨_, v1, by simp [QP.numVars], ?_, ?_⟩
    · intro k hk
      rw [← hagp k hk]
      obtain ⟨v, hv, hvn⟩ := varName_mem hk
      rw [ptOf, hvn]
      exact hpn _ (List.mem_map_of_mem (List.mem_of_getElem? hv))
    · intro z hz
      have h2 := hch.accuracy ha hp.wf V v2 (fun n hn => by rcases hrn n hn with h | h <;> rw [h] <;> norm_num)
      rw [Objective.val_agree hp.wf.objLin hp.wf.objQuad hagp, Objective.val_agree hr.wf.objLin hr.wf.objQuad hagr,
        abs_sub_comm] at h2
      have h3 := sense_sub_le (s := p.objective.sense) h2
      obtain ⟨w, hw, h4⟩ := hkeep z hz
      have h5 := ho.2 w hw
      have h6 : r.objective.sense = p.objective.sense := hch.sense
      rw [h6] at h4 h5
      have h7 : (p.numVars : ℚ) = r.numVars + reps.length := by exact_mod_cast hlen.symm
      have h8 := mul_nonneg (Nat.cast_nonneg (α := ℚ) r.numVars) ha.1
      rw [h7] at h4 ⊢
      linarith

end Verif
