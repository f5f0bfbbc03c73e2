import Verif.WarmStartRuns
import Verif.PropsMinEigen

/-!
# C38, C66: warm-start QAOA
-/

namespace Verif

/-! ## C38 -/

/-- **C38** (initial variables): for an accepted `epsilon`, every initial variable lies in `[epsilon, 1 - epsilon]`,
and values that lie there already are unchanged. -/
theorem C38_initial (eps : ℚ) (f : List ℚ → List ℚ) (h : factory eps = .ok f) (x : List ℚ) :
    (f x).length = x.length ∧ (∀ v ∈ f x, eps ≤ v ∧ v ≤ 1 - eps) ∧
      (∀ (i : Nat) (v : ℚ), x[i]? = some v → eps ≤ v → v ≤ 1 - eps → (f x)[i]? = some v) ∧
      (∀ (i : Nat) (v : ℚ), x[i]? = some v → v < eps → (f x)[i]? = some eps) ∧
      (∀ (i : Nat) (v : ℚ), x[i]? = some v → 1 - eps < v → (f x)[i]? = some (1 - eps)) := by
  unfold factory at h
  split at h
  · simp at h
  · rename_i he
    rw [not_or, not_lt, not_lt] at he
    obtain ⟨h0, h1⟩ := he
    simp only [Except.ok.injEq] at h
    subst h
    refine ⟨by simp [initialVariables], ?_, ?_, ?_, ?_⟩
    · intro v hv
      obtain ⟨w, _, rfl⟩ := List.mem_map.mp hv
      split
      · constructor <;> linarith
      · split
        · constructor <;> linarith
        · constructor <;> linarith
    · intro i v hv h2 h3
      simp [initialVariables, hv, not_lt.mpr h2, not_lt.mpr h3]
    · intro i v hv h2
      simp [initialVariables, hv, h2]
    · intro i v hv h2
      simp [initialVariables, hv, not_lt.mpr (show eps ≤ v by linarith), h2]

example : factory (1 / 4) = .ok (initialVariables (1 / 4)) ∧
    initialVariables (1 / 4) [0, 1 / 3, 1, 5] = [1 / 4, 1 / 3, 3 / 4, 3 / 4] ∧
    (∃ v, v = (1 / 3 : ℚ) ∧ 1 / 4 ≤ v ∧ v ≤ 1 - 1 / 4) := by
  refine ⟨by norm_num [factory], by decide +kernel, 1 / 3, rfl, by norm_num, by norm_num⟩

/-- **C38** (domain): exactly the values in `[0, 1/2]` are accepted. -/
theorem C38_domain (eps : ℚ) : (∃ f, factory eps = .ok f) ↔ 0 ≤ eps ∧ eps ≤ 1 / 2 := by
  unfold factory
  by_cases h : eps < 0 ∨ eps > 1 / 2
  · rw [if_pos h]
    simp only [reduceCtorEq, exists_const, false_iff, not_and, not_le]
    intro h0
    rcases h with h | h
    · linarith
    · exact h
  · rw [if_neg h]
    rw [not_or, not_lt, not_lt] at h
    simpa using h

example : 0 ≤ (1 / 4 : ℚ) ∧ (1 / 4 : ℚ) ≤ 1 / 2 := by norm_num

/-- Probability of the point `x` in a result. -/
def Result.prob (r : Result) (x : List ℚ) : ℚ := ((r.samples.filter fun s => s.x = x).map Sample.probability).sum

/-- **C38** (aggregation), for samples with single-digit coordinates (in particular binary ones): every distinct
sample point occurs once, with its mean probability over the results and an objective value reported for this point;
if all results have total probability one, so has the aggregate.

Full statement: the same for every list of results with samples.  It fails for larger values (`C38_violated`): the key
of a point is the concatenation of its coordinates, which are then read back as single digits. -/
theorem C38_mean_partial (results : List Result) (h0 : ∀ r ∈ results, r.samples ≠ [])
    (hd : ∀ r ∈ results, ∀ s ∈ r.samples, ∀ v ∈ s.x, ∃ d : Nat, d < 10 ∧ v = d) :
    ∃ out, meanAggregate results = .ok out ∧ (out.map Sample.x).Nodup ∧
      (∀ x, x ∈ out.map Sample.x ↔ ∃ r ∈ results, ∃ s ∈ r.samples, s.x = x) ∧
      (∀ o ∈ out, o.probability = (results.map fun r => r.prob o.x).sum / results.length ∧
        ∃ r ∈ results, ∃ s ∈ r.samples, s.x = o.x ∧ s.fval = o.fval) ∧
      (results ≠ [] → (∀ r ∈ results, (r.samples.map Sample.probability).sum = 1) →
        (out.map Sample.probability).sum = 1) := by
  obtain ⟨out, h1, h2, h3, h4, h5, h6⟩ := meanAggregate_facts h0 hd
  refine ⟨out, h1, h2, h3, ?_, ?_⟩
  · intro o ho
    refine ⟨?_, h5 o ho⟩
    rw [h4 o ho]
    congr 1
    clear h1 h2 h3 h4 h5 h6 h0 hd
    induction results with
    | nil => simp
    | cons r l ih => simp [List.flatMap_cons, List.filter_append, ih, Result.prob]
  · intro hne hp
    rw [h6]
    have : ((results.flatMap Result.samples).map Sample.probability).sum = results.length := by
      clear h1 h2 h3 h4 h5 h6 h0 hd hne
      induction results with
      | nil => simp
      | cons r l ih =>
        rw [List.flatMap_cons, List.map_append, List.sum_append, ih fun r hr => hp r (by simp [hr]),
          hp r (by simp)]
        push_cast [List.length_cons]
        ring
    rw [this]
    have hl : (results.length : ℚ) ≠ 0 := by
      simpa using hne
    exact div_self hl

/-- Two results about two binary variables. -/
def aggA : Result := ⟨some [0, 1], some 1, [], none, .success, [⟨[0, 1], 1, 3 / 4, .success⟩, ⟨[1, 1], 2, 1 / 4, .success⟩], []⟩
/-- The second one. -/
def aggB : Result := ⟨some [0, 1], some 1, [], none, .success, [⟨[1, 0], 5, 1 / 2, .success⟩, ⟨[0, 1], 1, 1 / 2, .success⟩], []⟩

example : meanAggregate [aggA, aggB] = .ok [⟨[0, 1], 1, 5 / 8, .success⟩, ⟨[1, 1], 2, 1 / 8, .success⟩,
      ⟨[1, 0], 5, 1 / 4, .success⟩] ∧ (∀ r ∈ [aggA, aggB], r.samples ≠ []) ∧
    (∀ r ∈ [aggA, aggB], ∀ s ∈ r.samples, ∀ v ∈ s.x, ∃ d : Nat, d < 10 ∧ v = d) ∧
    ∀ r ∈ [aggA, aggB], (r.samples.map Sample.probability).sum = 1 := by
  refine ⟨by decide +kernel, by decide +kernel, ?_, by decide +kernel⟩
  have : ∀ r ∈ [aggA, aggB], ∀ s ∈ r.samples, ∀ v ∈ s.x, v = 0 ∨ v = 1 := by decide +kernel
  intro r hr s hs v hv
  rcases this r hr s hs v hv with h | h
  · exact ⟨0, by norm_num, by simp [h]⟩
  · exact ⟨1, by norm_num, by simp [h]⟩

/-- **C38, results without samples**: a result that holds only a point counts as one sample of that point with its
value and probability one, so averaging is the same as if the run had reported that sample.  With
`C38_mean_partial` this says what the average of runs is in which some have no samples. -/
theorem C38_point (results results' : List Result)
    (h : List.Forall₂ (fun r r' => r.samples ≠ [] ∧ r' = r ∨ r.samples = [] ∧ ∃ x f, r.x = some x ∧
      r.fval = some f ∧ r'.samples = [⟨x, f, 1, r.status⟩]) results results') :
    meanAggregate results = meanAggregate results' := by
  have hs : ∀ d, sumResults results d = sumResults results' d := by
    induction h with
    | nil => intro d; rfl
    | cons h _ ih =>
      intro d
      rcases h with ⟨_, rfl⟩ | ⟨h0, x, f, hx, hf, hr⟩
      · simp only [sumResults]
        split
        · rfl
        · exact ih _
      · simp only [sumResults, Result.sampleList, h0, hx, hf, hr, ne_eq, not_true_eq_false, if_false, reduceCtorEq,
          not_false_eq_true, if_true]
        exact ih _
  rw [meanAggregate, meanAggregate, hs [], h.length_eq]

example : meanAggregate [aggA, ⟨some [1, 1], some 2, [], none, .success, [], []⟩] =
    .ok [⟨[0, 1], 1, 3 / 8, .success⟩, ⟨[1, 1], 2, 5 / 8, .success⟩] ∧
    List.Forall₂ (fun r r' : Result => r.samples ≠ [] ∧ r' = r ∨ r.samples = [] ∧ ∃ x f, r.x = some x ∧
      r.fval = some f ∧ r'.samples = [⟨x, f, 1, r.status⟩])
      [aggA, ⟨some [1, 1], some 2, [], none, .success, [], []⟩]
      [aggA, ⟨some [1, 1], some 2, [], none, .success, [⟨[1, 1], 2, 1, .success⟩], []⟩] :=
  ⟨by decide +kernel, .cons (.inl ⟨by decide +kernel, rfl⟩)
    (.cons (.inr ⟨rfl, _, _, rfl, rfl, rfl⟩) .nil)⟩

/-- **C38 is violated** by points with a coordinate of two digits: the two different points `(1, 12)` and `(11, 2)` are
merged into one sample with the three coordinates `(1, 1, 2)`, a point nobody sampled. -/
theorem C38_violated : ∃ results : List Result, (∀ r ∈ results, r.samples ≠ []) ∧
    (∀ r ∈ results, ∀ s ∈ r.samples, s.x.length = 2 ∧ ∀ v ∈ s.x, ∃ d : Nat, v = d) ∧
    ((results.flatMap Result.samples).map Sample.x).Nodup ∧ (results.flatMap Result.samples).length = 2 ∧
    ∃ o, meanAggregate results = .ok [o] ∧ o.x = [1, 1, 2] := by
  refine ⟨[⟨some [1, 12], some 0, [], none, .success, [⟨[1, 12], 0, 1, .success⟩], []⟩,
    ⟨some [11, 2], some 0, [], none, .success, [⟨[11, 2], 0, 1, .success⟩], []⟩], by decide +kernel, ?_,
    by decide +kernel, by decide +kernel, ⟨[1, 1, 2], 0, 1, .success⟩, by decide +kernel, rfl⟩
  intro r hr s hs
  simp only [List.mem_cons, List.not_mem_nil, or_false] at hr
  rcases hr with rfl | rfl <;> simp only [List.mem_cons, List.not_mem_nil, or_false] at hs <;> subst hs <;>
    refine ⟨rfl, ?_⟩ <;> intro v hv <;> simp only [List.mem_cons, List.not_mem_nil, or_false] at hv <;>
    rcases hv with rfl | rfl
  · exact ⟨1, by norm_num⟩
  · exact ⟨12, by norm_num⟩
  · exact ⟨11, by norm_num⟩
  · exact ⟨2, by norm_num⟩

/-! ## C66 -/

/-- **C66** (one initial solution): the result is that of the minimum eigen optimizer with QAOA started from the first
solution of the pre-solver. -/
theorem C66_single (preSolve : QP → Except Err (ResStatus × List Sample)) (relax : Bool)
    (qaoa : List ℚ → QubitOp → Option Eigenstate) (eps : ℚ) (h0 : 0 ≤ eps) (h1 : eps ≤ 1 / 2) (k : Nat)
    (convs : List Converter) (p q : QP) (fs : List Interp) (hc : convertAll convs p = .ok (q, fs)) (s : Sample)
    (pre : List Sample) (hp : preSolve (if relax then q.relaxAll else q) = .ok (.success, s :: pre))
    (hk : 0 < k) (h2 : k = 1 ∨ pre = []) :
    warmStartSolve preSolve relax qaoa eps k convs p =
      minEigenSolve (qaoa (initialVariables eps s.x)) convs p := by
  have ht : (s :: pre).take (min k (s :: pre).length) = [s] := by
    rcases h2 with rfl | rfl
    · simp
    · obtain ⟨k, rfl⟩ : ∃ j, k = j + 1 := ⟨k - 1, by omega⟩
      simp
  unfold warmStartSolve minEigenSolve
  rw [if_neg (by rw [not_or, not_lt, not_lt]; exact ⟨h0, h1⟩)]
  by_cases hm : (quboMsg p).length > 0
  · rw [if_pos hm, if_pos hm]
  · rw [if_neg hm, if_neg hm]
    simp only [hc, hp, ne_eq, not_true_eq_false, if_false]
    cases h3 : q.toIsing with
    | error e => rfl
    | ok oo =>
      obtain ⟨op, offset⟩ := oo
      simp only [ht, warmRuns]
      cases solveInternal (qaoa (initialVariables eps s.x)) op q p fs <;> rfl

/-- A pre-solver answering with the two corners `0` and `1`. -/
def cornerPre : QP → Except Err (ResStatus × List Sample) := fun q =>
  .ok (.success, [⟨List.replicate q.numVars 0, 0, 1 / 2, .success⟩, ⟨List.replicate q.numVars 1, 0, 1 / 2, .success⟩])

/-- A QAOA measuring `0` once and `1` three times on one qubit. -/
def oneQubit : List ℚ → QubitOp → Option Eigenstate := fun _ _ => some (.counts [("0", 1), ("1", 3)])

/-- Minimize `b` for one binary variable. -/
def warmQP : QP :=
  (runCalls (QP.empty "") [.addVar 0 1 .binary (some "b"),
    .objective .minimize 0 (.dict [(.name "b", 1)]) (.dict [])]).2

example : (warmStartSolve cornerPre true oneQubit (1 / 4) 1 [quboConverter none] warmQP).toOption.map
    (fun r => (r.x, r.fval)) = some (some [0], some 0) ∧
    (cornerPre (warmQP.relaxAll)).toOption.map (fun a => (a.1, a.2.length)) = some (.success, 2) := by
  constructor <;> decide +kernel

/-- **C66** (several initial solutions), for a program with binary variables whose QUBO has no additional variables:
the result is a sampled point, its value is the objective there, and no sample of any run has a better objective value.

Full statement: for every accepted problem, `solve` succeeds if all runs do, and its result is the best of the samples
of all runs (feasible ones first).  It fails when the conversion changes the variables (`C66_violated`,
`C66_rejects`), and feasibility is ignored in the choice (`C66_violated_infeasible`). -/
theorem C66_best_partial (preSolve : QP → Except Err (ResStatus × List Sample)) (relax : Bool)
    (qaoa : List ℚ → QubitOp → Option Eigenstate) (eps : ℚ) (k : Nat) (penalty : Option ℚ) (p : QP) (hp : p.WF)
    (hb : ∀ v ∈ p.vars, v.vartype = .binary) (st : QuboState) (hst : p.toQubo penalty = .ok st)
    (hn : st.dst.numVars = p.numVars) (pre : List Sample)
    (hpre : preSolve (if relax then st.dst.relaxAll else st.dst) = .ok (.success, pre))
    (h2 : 2 ≤ k ∧ 2 ≤ pre.length) (r : Result)
    (h : warmStartSolve preSolve relax qaoa eps k [quboConverter penalty] p = .ok r) :
    ∃ x f, r.x = some x ∧ r.fval = some f ∧ f = p.objective.val (pt x) ∧
      (∃ s ∈ pre.take k, ∃ rs, minEigenSolve (qaoa (initialVariables eps s.x)) [quboConverter penalty] p = .ok rs ∧
        ∃ t ∈ rs.samples, t.x = x) ∧
      ∀ s ∈ pre.take k, ∃ rs, minEigenSolve (qaoa (initialVariables eps s.x)) [quboConverter penalty] p = .ok rs ∧
        ∀ t ∈ rs.samples, p.objective.sense.value * f ≤ p.objective.sense.value * t.fval := by
  obtain ⟨g1, g2, _, g4⟩ := qubo_interpret hp hst
  have hid := g4 hb hn
  obtain ⟨_, _, hmsg, q, fs, pre', op, offset, rs, hconv, hpre', hop, hruns, hres⟩ := warmStartSolve_inv h
  have hconv' : convertAll [quboConverter penalty] p = .ok (st.dst, [st.interpret]) := by
    simp [convertAll, quboConverter, hst]
  rw [hconv', Except.ok.injEq, Prod.mk.injEq] at hconv
  obtain ⟨rfl, rfl⟩ := hconv
  rw [hpre, Except.ok.injEq, Prod.mk.injEq] at hpre'
  obtain ⟨_, rfl⟩ := hpre'
  have htake : pre.take (min k pre.length) = pre.take k := by
    rcases Nat.le_total k pre.length with h | h
    · rw [min_eq_left h]
    · rw [min_eq_right h, List.take_length, List.take_of_length_le h]
  rw [htake] at hruns
  have hf := warmRuns_inv hruns
  have hlen := hf.length_eq
  rw [List.length_take] at hlen
  have hmin : ∀ (s : Sample) (t : Result), solveInternal (qaoa (initialVariables eps s.x)) op st.dst p [st.interpret] =
      .ok t → minEigenSolve (qaoa (initialVariables eps s.x)) [quboConverter penalty] p = .ok t := by
    intro s t ht
    unfold minEigenSolve
    rw [if_neg hmsg]
    simp only [hconv', hop]
    exact ht
  rcases hres with hres | ⟨samples, s0, l, _, hagg, hsort, hint⟩
  · rw [hres] at hlen; simp at hlen; omega
  · have hsum : ∃ d, sumResults rs [] = .ok d := by
      unfold meanAggregate at hagg
      cases h3 : sumResults rs [] with
      | error e => simp [h3] at hagg
      | ok d => exact ⟨d, rfl⟩
    obtain ⟨d, hsum⟩ := hsum
    have hgood := sumResults_points hsum
    -- every run has samples, with digits, of the right length
    have hrun : ∀ t ∈ rs, t.samples ≠ [] ∧ (∀ s ∈ t.samples, Digits s.x) ∧
        ∀ s ∈ t.samples, s.fval = p.objective.val (pt s.x) := by
      intro t ht
      obtain ⟨s, _, hs⟩ := Forall₂.mem_right hf ht
      rcases solveInternal_inv hs with h3 | ⟨raw, x0, hraw, hne, his, _⟩
      · exact absurd h3 (hgood t ht)
      · obtain ⟨pts, a1, a2, a3, a4, _⟩ := C26_merge p raw _ _ his
        refine ⟨?_, ?_, fun s hs => (a4 s hs).2.2.1⟩
        · intro h0
          rw [h0] at a3
          cases a1 with
          | nil => exact hne rfl
          | cons hx _ => exact absurd ((a3 _).mpr (List.mem_cons_self ..)) (by simp)
        · intro s hs
          obtain ⟨w, hw, hw'⟩ := Forall₂.mem_right a1 ((a3 s.x).mp (List.mem_map_of_mem hs))
          rw [interprets_iff] at hw'
          simp only [interpretAll, List.reverse_singleton, interpretRev] at hw'
          cases h5 : st.interpret w.x with
          | error e => simp [h5] at hw'
          | ok y =>
            simp only [h5, Except.ok.injEq] at hw'
            rw [← hw', hid w.x y h5]
            exact (hraw w hw).1
    obtain ⟨out, o1, _, o3, _, o5, _⟩ := meanAggregate_facts (fun t ht => (hrun t ht).1) (fun t ht => (hrun t ht).2.1)
    rw [hagg, Except.ok.injEq] at o1
    subst o1
    obtain ⟨y, y1, y2, y3, _, y5, _⟩ := C29_result p hp.cons.vars.2 _ _ _ _ _ hint
    have hy : y = s0.x := by
      rw [interprets_iff] at y1
      simp only [interpretAll, List.reverse_singleton, interpretRev] at y1
      cases h5 : st.interpret s0.x with
      | error e => simp [h5] at y1
      | ok z =>
        simp only [h5, Except.ok.injEq] at y1
        rw [← y1, hid s0.x z h5]
    subst hy
    have hs0 : s0 ∈ samples := by
      have : s0 ∈ sortedBy (fun a b => decide (st.dst.objective.sense.value * a.fval ≤
        st.dst.objective.sense.value * b.fval)) samples := by rw [hsort]; simp
      exact mem_sortedBy.mp this
    have hval : ∀ o ∈ samples, o.fval = p.objective.val (pt o.x) := by
      intro o ho
      obtain ⟨t, ht, s, hs, e1, e2⟩ := o5 o ho
      rw [← e2, ← e1]
      exact (hrun t ht).2.2 s hs
    have hbest : ∀ o ∈ samples, p.objective.sense.value * s0.fval ≤ p.objective.sense.value * o.fval := by
      intro o ho
      have hpw := sortedBy_pairwise (le := fun (a b : Sample) => decide (st.dst.objective.sense.value * a.fval ≤
          st.dst.objective.sense.value * b.fval)) (fun a b => by simpa using le_total _ _)
        (fun a b c h h' => by simp only [decide_eq_true_eq] at *; exact le_trans h h') samples
      rw [hsort, List.pairwise_cons] at hpw
      have : o ∈ s0 :: l := by rw [← hsort]; exact mem_sortedBy.mpr ho
      rcases List.mem_cons.mp this with rfl | h6
      · exact le_refl _
      · have := hpw.1 o h6
        rw [g2] at this
        simpa using this
    refine ⟨s0.x, p.objective.val (pt s0.x), y2, y5, rfl, ?_, ?_⟩
    · obtain ⟨t, ht, s, hs, e1, _⟩ := o5 s0 hs0
      obtain ⟨w, hw, hw'⟩ := Forall₂.mem_right hf ht
      exact ⟨w, hw, t, hmin w t hw', s, hs, e1⟩
    · intro w hw
      obtain ⟨t, ht, hw'⟩ := Forall₂.mem_left hf hw
      refine ⟨t, hmin w t hw', fun s hs => ?_⟩
      obtain ⟨o, ho, e1⟩ := List.mem_map.mp ((o3 s.x).mpr ⟨t, ht, s, hs, rfl⟩)
      have := hbest o ho
      rw [hval s0 hs0, hval o ho] at this
      rw [(hrun t ht).2.2 s hs, ← e1]
      exact this

/-- Maximize `3 b + c` subject to `b + c = 1`: the QUBO has the same two variables. -/
def warmEqQP : QP :=
  (runCalls (QP.empty "") [.addVar 0 1 .binary (some "b"), .addVar 0 1 .binary (some "c"),
    .objective .maximize 0 (.dict [(.name "b", 3), (.name "c", 1)]) (.dict []),
    .linear (.dict [(.name "b", 1), (.name "c", 1)]) (.str "==") 1 (some "one")]).2

/-- A QAOA on two qubits that depends on the start. -/
def twoQubits : List ℚ → QubitOp → Option Eigenstate := fun v _ =>
  some (.counts (if v = [1 / 4, 1 / 4] then [("00", 1), ("01", 3)] else [("10", 1), ("00", 1)]))

example : warmEqQP.WF ∧ (∀ v ∈ warmEqQP.vars, v.vartype = .binary) ∧
    (warmEqQP.toQubo none).toOption.map (fun st => st.dst.numVars) = some warmEqQP.numVars ∧
    (warmStartSolve cornerPre true twoQubits (1 / 4) 2 [quboConverter none] warmEqQP).toOption.map
      (fun r => (r.x, r.fval)) = some (some [1, 0], some 3) := by
  refine ⟨by decide +kernel, by decide +kernel, by decide +kernel, by decide +kernel⟩

/-- **C66** (rejection): when the QUBO conversion adds variables (an inequality constraint, an integer variable with
more than two values), `solve` with several initial solutions always raises, although every single run succeeds: the
aggregated samples are points of the original problem, and they are interpreted a second time. -/
theorem C66_rejects (preSolve : QP → Except Err (ResStatus × List Sample)) (relax : Bool)
    (qaoa : List ℚ → QubitOp → Option Eigenstate) (eps : ℚ) (k : Nat) (penalty : Option ℚ) (p : QP) (hp : p.WF)
    (st : QuboState) (hst : p.toQubo penalty = .ok st) (hn : st.dst.numVars ≠ p.numVars) (pre : List Sample)
    (hpre : preSolve (if relax then st.dst.relaxAll else st.dst) = .ok (.success, pre))
    (h2 : 2 ≤ k ∧ 2 ≤ pre.length)
    (hd : ∀ s ∈ pre.take k, ∀ rs, minEigenSolve (qaoa (initialVariables eps s.x)) [quboConverter penalty] p = .ok rs →
      ∀ t ∈ rs.samples, ∀ v ∈ t.x, ∃ d : Nat, d < 10 ∧ v = d) (r : Result) :
    warmStartSolve preSolve relax qaoa eps k [quboConverter penalty] p ≠ .ok r := by
  intro h
  obtain ⟨_, _, g3, _⟩ := qubo_interpret hp hst
  obtain ⟨_, _, hmsg, q, fs, pre', op, offset, rs, hconv, hpre', hop, hruns, hres⟩ := warmStartSolve_inv h
  have hconv' : convertAll [quboConverter penalty] p = .ok (st.dst, [st.interpret]) := by
    simp [convertAll, quboConverter, hst]
  rw [hconv', Except.ok.injEq, Prod.mk.injEq] at hconv
  obtain ⟨rfl, rfl⟩ := hconv
  rw [hpre, Except.ok.injEq, Prod.mk.injEq] at hpre'
  obtain ⟨_, rfl⟩ := hpre'
  have htake : pre.take (min k pre.length) = pre.take k := by
    rcases Nat.le_total k pre.length with h | h
    · rw [min_eq_left h]
    · rw [min_eq_right h, List.take_length, List.take_of_length_le h]
  rw [htake] at hruns
  have hf := warmRuns_inv hruns
  have hlen := hf.length_eq
  rw [List.length_take] at hlen
  rcases hres with hres | ⟨samples, s0, l, _, hagg, hsort, hint⟩
  · rw [hres] at hlen; simp at hlen; omega
  · have hsum : ∃ d, sumResults rs [] = .ok d := by
      unfold meanAggregate at hagg
      cases h3 : sumResults rs [] with
      | error e => simp [h3] at hagg
      | ok d => exact ⟨d, rfl⟩
    obtain ⟨d, hsum⟩ := hsum
    have hgood := sumResults_points hsum
    have hrun : ∀ t ∈ rs, t.samples ≠ [] ∧ (∀ s ∈ t.samples, Digits s.x) ∧
        ∀ s ∈ t.samples, s.x.length = p.numVars := by
      intro t ht
      obtain ⟨s, hs1, hs⟩ := Forall₂.mem_right hf ht
      rcases solveInternal_inv hs with h3 | ⟨raw, x0, hraw, hne, his, _⟩
      · exact absurd h3 (hgood t ht)
      · obtain ⟨pts, a1, a2, a3, a4, _⟩ := C26_merge p raw _ _ his
        refine ⟨?_, ?_, fun s hs => (a4 s hs).2.1⟩
        · intro h0
          rw [h0] at a3
          cases a1 with
          | nil => exact hne rfl
          | cons hx _ => exact absurd ((a3 _).mpr (List.mem_cons_self ..)) (by simp)
        · refine hd s hs1 t ?_
          unfold minEigenSolve
          rw [if_neg hmsg]
          simp only [hconv', hop]
          exact hs
    obtain ⟨out, o1, _, o3, _, o5, _⟩ := meanAggregate_facts (fun t ht => (hrun t ht).1) (fun t ht => (hrun t ht).2.1)
    rw [hagg, Except.ok.injEq] at o1
    subst o1
    have hs0 : s0 ∈ samples := by
      have : s0 ∈ sortedBy (fun a b => decide (st.dst.objective.sense.value * a.fval ≤
        st.dst.objective.sense.value * b.fval)) samples := by rw [hsort]; simp
      exact mem_sortedBy.mp this
    obtain ⟨t, ht, s, hs, e1, _⟩ := o5 s0 hs0
    have hl : s0.x.length ≠ st.dst.numVars := by
      rw [← e1, (hrun t ht).2.2 s hs]; exact fun e => hn e.symm
    simp [interpretResult, interpretAll, interpretRev, g3 s0.x hl] at hint

/-- Minimize `b` subject to `b + c >= 1`: the QUBO has a slack variable. -/
def warmIneqQP : QP :=
  (runCalls (QP.empty "") [.addVar 0 1 .binary (some "b"), .addVar 0 1 .binary (some "c"),
    .objective .minimize 0 (.dict [(.name "b", 1)]) (.dict []),
    .linear (.dict [(.name "b", 1), (.name "c", 1)]) (.str ">=") 1 (some "some")]).2

/-- A QAOA on three qubits that always finds one point. -/
def threeQubits : List ℚ → QubitOp → Option Eigenstate := fun _ _ => some (.counts [("010", 1)])

example : warmIneqQP.WF ∧ (warmIneqQP.toQubo none).toOption.map (fun st => st.dst.numVars) = some 3 ∧
    warmIneqQP.numVars = 2 ∧
    (∀ v : List ℚ, (minEigenSolve (threeQubits v) [quboConverter none] warmIneqQP).toOption.map
      (fun r => (r.x, r.fval, r.status, r.samples.map Sample.x)) = some (some [0, 1], some 0, .success, [[0, 1]])) ∧
    warmStartSolve cornerPre true threeQubits (1 / 4) 2 [quboConverter none] warmIneqQP = .error .optimization := by
  refine ⟨by decide +kernel, by decide +kernel, by decide +kernel, ?_, by decide +kernel⟩
  · intro v
    show (minEigenSolve (fun _ => some (.counts [("010", 1)])) [quboConverter none] warmIneqQP).toOption.map _ = _
    decide +kernel

/-- Minimize an integer variable between one and two: the QUBO has one variable as well. -/
def warmIntQP : QP :=
  (runCalls (QP.empty "") [.addVar 1 2 .integer (some "a"),
    .objective .minimize 0 (.dict [(.name "a", 1)]) (.dict [])]).2

/-- **C66 is violated**: for "minimize `a`, `1 <= a <= 2`" every run samples both points and returns the optimum `1`;
with two initial solutions the result is `2`, since the chosen sample `1` is taken for a value of the binary variable
of the QUBO and decoded once more. -/
theorem C66_violated : warmIntQP.WF ∧
    (∀ v : List ℚ, (minEigenSolve (oneQubit v) [quboConverter none] warmIntQP).toOption.map
      (fun r => (r.x, r.fval, r.samples.map Sample.x)) = some (some [1], some 1, [[1], [2]])) ∧
    (warmStartSolve cornerPre true oneQubit (1 / 4) 2 [quboConverter none] warmIntQP).toOption.map
      (fun r => (r.x, r.fval, r.samples.map Sample.x)) = some (some [2], some 2, [[1], [2]]) := by
  refine ⟨by decide +kernel, ?_, by decide +kernel⟩
  · intro v
    show (minEigenSolve (fun _ => some (.counts [("0", 1), ("1", 3)])) [quboConverter none] warmIntQP).toOption.map _ = _
    decide +kernel

/-- Minimize `b` subject to `b = 1`. -/
def warmFixQP : QP :=
  (runCalls (QP.empty "") [.addVar 0 1 .binary (some "b"),
    .objective .minimize 0 (.dict [(.name "b", 1)]) (.dict []),
    .linear (.dict [(.name "b", 1)]) (.str "==") 1 (some "fix")]).2

/-- **C66 is violated** (feasibility): for "minimize `b` subject to `b = 1`" every run returns the feasible point; with
two initial solutions the result is the infeasible point, and the list of samples reports it as a success. -/
theorem C66_violated_infeasible : warmFixQP.WF ∧
    (∀ v : List ℚ, (minEigenSolve (oneQubit v) [quboConverter none] warmFixQP).toOption.map
      (fun r => (r.x, r.fval, r.status)) = some (some [1], some 1, .success)) ∧
    (warmStartSolve cornerPre true oneQubit (1 / 4) 2 [quboConverter none] warmFixQP).toOption.map
      (fun r => (r.x, r.fval, r.status, r.samples.map fun s => (s.x, s.status))) =
      some (some [0], some 0, .infeasible, [([0], .success), ([1], .success)]) := by
  refine ⟨by decide +kernel, ?_, by decide +kernel⟩
  · intro v
    show (minEigenSolve (fun _ => some (.counts [("0", 1), ("1", 3)])) [quboConverter none] warmFixQP).toOption.map _ = _
    decide +kernel

end Verif
