import Verif.ResultLemmas
import Verif.PropsProgram

/-!
# Properties of results and samples: C26, C29
-/

namespace Verif

/-! ## C26 -/

/-- The point satisfies bounds and constraints, equalities up to the documented tolerance (what C07 shows about
`is_feasible`). -/
def QP.FeasTol (p : QP) (x : Nat → ℚ) : Prop :=
  p.InBounds x ∧ ∀ c ∈ p.allCsts, c.sense.relTol (c.val x) c.rhs

/-- **C26** (merging): the samples are the distinct interpretations of the raw samples; each carries the sum of the
probabilities of the raw samples with this interpretation, its objective value and its feasibility status; the total
probability is conserved. -/
theorem C26_merge (p : QP) (raw : List Sample) (convs : List Interp) (samples : List Sample)
    (h : interpretSamples p raw convs = .ok samples) :
    ∃ pts, List.Forall₂ (fun r x => Interprets convs r.x x) raw pts ∧
      (samples.map Sample.x).Nodup ∧ (∀ x, x ∈ samples.map Sample.x ↔ x ∈ pts) ∧
      (∀ s ∈ samples,
        s.probability = (((raw.zip pts).filter fun q => q.2 = s.x).map fun q => q.1.probability).sum ∧
        s.x.length = p.numVars ∧ s.fval = p.objective.val (pt s.x) ∧
        (s.status = .success ∨ s.status = .infeasible) ∧ (s.status = .success ↔ p.FeasTol (pt s.x))) ∧
      (samples.map Sample.probability).sum = (raw.map Sample.probability).sum := by
  simp only [interprets_iff] at *
  unfold interpretSamples at h
  cases h1 : mergeSamples convs raw [] with
  | error e => simp [h1] at h
  | ok prob =>
    cases h2 : evalSamples p prob with
    | error e => simp [h1, h2] at h
    | ok l =>
      simp only [h1, h2, Except.ok.injEq] at h
      obtain ⟨pts, a, b, c, d⟩ := mergeSamples_inv h1 (by simp [Assoc.keys])
      obtain ⟨e, f⟩ := evalSamples_inv h2
      have hperm : samples.Perm l := h ▸ sortedBy_perm _ l
      have hkeys : l.map Sample.x = Assoc.keys prob := by
        rw [← e]; simp [Assoc.keys]
      have hk := hperm.map Sample.x
      refine ⟨pts, a, hk.nodup_iff.mpr (hkeys ▸ b), ?_, ?_, ?_⟩
      · intro x; rw [hk.mem_iff, hkeys, c]; simp [Assoc.keys]
      · intro s hs
        have hs' := hperm.mem_iff.mp hs
        refine ⟨?_, f s hs'⟩
        have hm : (s.x, s.probability) ∈ prob := by rw [← e]; exact List.mem_map.mpr ⟨s, hs', rfl⟩
        have hg := Assoc.get?_of_mem b hm
        have hd := d s.x
        rw [Dict.get, hg] at hd
        simpa [Dict.get, Assoc.get?] using hd
      · rw [(hperm.map Sample.probability).sum_eq]
        have ht := mergeSamples_total h1
        rw [← e] at ht
        simpa [Function.comp_def] using ht

/-- **C26** (order): feasible samples come first, and among samples of the same status better objective values come
first. -/
theorem C26_sorted (p : QP) (raw : List Sample) (convs : List Interp) (samples : List Sample)
    (h : interpretSamples p raw convs = .ok samples) :
    samples.Pairwise fun a b => (b.status = .success → a.status = .success) ∧
      (a.status = b.status → p.objective.sense.value * a.fval ≤ p.objective.sense.value * b.fval) := by
  obtain ⟨pts, _, _, _, hg, _⟩ := C26_merge p raw convs samples h
  have hst : ∀ s ∈ samples, s.status = .success ∨ s.status = .infeasible := fun s hs => (hg s hs).2.2.2.1
  unfold interpretSamples at h
  cases h1 : mergeSamples convs raw [] with
  | error e => simp [h1] at h
  | ok prob =>
    cases h2 : evalSamples p prob with
    | error e => simp [h1, h2] at h
    | ok l =>
      simp only [h1, h2, Except.ok.injEq] at h
      have hp := sortedBy_pairwise (sampleLE_total p.objective.sense) (sampleLE_trans p.objective.sense) l
      rw [h] at hp
      refine hp.imp_of_mem ?_
      intro a b ha hb hab
      simp only [sampleLE, decide_eq_true_eq] at hab
      refine ⟨fun hbs => ?_, fun he => ?_⟩
      · rcases hst a ha with ha | ha
        · exact ha
        · simp [ha, hbs, ResStatus.value] at hab
      · rcases hab with hlt | ⟨_, hle⟩
        · simp [he] at hlt
        · exact hle

/-- **C26** (first sample): if some raw sample is interpreted as a feasible point, the first sample is feasible and has
the best objective value of all feasible samples. -/
theorem C26_first (p : QP) (raw : List Sample) (convs : List Interp) (samples : List Sample)
    (h : interpretSamples p raw convs = .ok samples) (r : Sample) (hr : r ∈ raw) (x : List ℚ)
    (hx : Interprets convs r.x x) (hf : p.FeasTol (pt x)) :
    ∃ s l, samples = s :: l ∧ p.FeasTol (pt s.x) ∧
      ∀ q ∈ raw, ∀ y, Interprets convs q.x y → p.FeasTol (pt y) →
        p.objective.sense.value * p.objective.val (pt s.x) ≤ p.objective.sense.value * p.objective.val (pt y) := by
  simp only [interprets_iff] at *
  obtain ⟨pts, hpts, _, hmem, hg, _⟩ := C26_merge p raw convs samples h
  have key : ∀ q ∈ raw, ∀ y, interpretAll convs q.x = .ok y → p.FeasTol (pt y) →
      ∃ t ∈ samples, t.x = y ∧ t.status = .success := by
    intro q hq y hy hfy
    obtain ⟨y', hy', he⟩ := Forall₂.mem_left hpts hq
    rw [interprets_iff, hy] at he; cases he
    obtain ⟨t, ht, rfl⟩ := List.mem_map.mp ((hmem y).mpr hy')
    exact ⟨t, ht, rfl, (hg t ht).2.2.2.2.mpr hfy⟩
  have hs := C26_sorted p raw convs samples h
  obtain ⟨t0, ht0, _, hsucc⟩ := key r hr x hx hf
  cases samples with
  | nil => simp at ht0
  | cons s l =>
    have hfirst : s.status = .success := by
      rcases List.mem_cons.mp ht0 with rfl | ht0
      · exact hsucc
      · exact ((List.pairwise_cons.mp hs).1 t0 ht0).1 hsucc
    refine ⟨s, l, rfl, (hg s (by simp)).2.2.2.2.mp hfirst, ?_⟩
    intro q hq y hy hfy
    obtain ⟨t, ht, rfl, hts⟩ := key q hq y hy hfy
    rw [← (hg s (by simp)).2.2.1, ← (hg t ht).2.2.1]
    rcases List.mem_cons.mp ht with rfl | ht'
    · exact le_refl _
    · exact ((List.pairwise_cons.mp hs).1 t ht').2 (hfirst.trans hts.symm)

/-- **C26** (acceptance): the merging succeeds when every raw sample can be interpreted as a point of the right
length. -/
theorem C26_accepts (p : QP) (hs : p.ShapeOK) (raw : List Sample) (convs : List Interp)
    (hr : ∀ r ∈ raw, ∃ x, Interprets convs r.x x ∧ x.length = p.numVars) :
    ∃ samples, interpretSamples p raw convs = .ok samples := by
  simp only [interprets_iff] at *
  obtain ⟨prob, h1⟩ := mergeSamples_ok (raw := raw) (convs := convs) []
    fun r hr' => ⟨_, (hr r hr').choose_spec.1⟩
  obtain ⟨pts, a, _, c, _⟩ := mergeSamples_inv h1 (by simp [Assoc.keys])
  obtain ⟨l, h2⟩ := evalSamples_ok hs (prob := prob) (by
    intro x hx
    rcases (c x).mp hx with hx | hx
    · simp [Assoc.keys] at hx
    · obtain ⟨r, hr', he⟩ := Forall₂.mem_right a hx
      obtain ⟨y, hy, hl⟩ := hr r hr'
      rw [hy] at he; cases he; exact hl)
  exact ⟨sortedBy (sampleLE p.objective.sense) l, by simp only [interpretSamples, h1, h2]⟩

/-- A program with an integer and a binary variable, and a constraint. -/
def sampQP : QP :=
  (runCalls (QP.empty "s") [.addVar 0 2 .integer (some "x"), .addVar 0 1 .binary (some "b"),
    .linear (.dict [(.name "x", 1), (.name "b", 1)]) (.str "<=") 2 (some "c"),
    .objective .maximize 0 (.dict [(.name "x", 1), (.name "b", 2)]) (.dict [])]).2

/-- The integer is the sum of the first two bits. -/
def sampInterp : Interp := fun y =>
  match y with
  | [a, b, c] => .ok [a + b, c]
  | _ => .error .indexError

example : sampQP.ShapeOK ∧
    interpretSamples sampQP [⟨[1, 0, 0], 0, 1 / 4, .success⟩, ⟨[1, 1, 1], 0, 1 / 8, .success⟩,
      ⟨[0, 1, 0], 0, 1 / 2, .success⟩, ⟨[0, 1, 1], 0, 1 / 8, .success⟩] [sampInterp] =
    .ok [⟨[1, 1], 3, 1 / 8, .success⟩, ⟨[1, 0], 1, 3 / 4, .success⟩, ⟨[2, 1], 4, 1 / 8, .infeasible⟩] := by
  decide +kernel

/-! ## C29 -/

/-- **C29** (content of a result): whenever the interpretation step returns a result, its point is the interpretation
of the given point, it has one entry per variable, `fval` is the objective there, the status is SUCCESS iff the point
is feasible (INFEASIBLE otherwise), and the entries are found by index and by name. -/
theorem C29_result (p : QP) (hn : (p.vars.map Variable.name).Nodup) (convs : List Interp) (samples raw : List Sample)
    (x : List ℚ) (r : Result) (h : interpretResult p convs samples raw x = .ok r) :
    ∃ y, Interprets convs x y ∧ r.x = some y ∧ y.length = p.numVars ∧ r.vars = p.vars ∧
      r.fval = some (p.objective.val (pt y)) ∧ (r.status = .success ∨ r.status = .infeasible) ∧
      (r.status = .success ↔ p.FeasTol (pt y)) ∧
      ∀ i v, p.vars[i]? = some v → r.getItem (.idx i) = .ok (pt y i) ∧ r.getItem (.name v.name) = .ok (pt y i) := by
  simp only [interprets_iff] at *
  unfold interpretResult at h
  cases h0 : interpretAll convs x with
  | error e => simp [h0] at h
  | ok y =>
    cases h1 : p.objective.evaluate y with
    | error e => simp [h0, h1] at h
    | ok fval =>
      cases h2 : feasibilityStatus p y with
      | error e => simp [h0, h1, h2] at h
      | ok st =>
        simp only [h0, h1, h2, Result.mk?] at h
        obtain ⟨c, d, e⟩ := feasibilityStatus_inv h2
        have hlen : y.length = p.vars.length := c
        rw [if_neg (by simp [hlen])] at h
        cases h
        refine ⟨y, rfl, rfl, c, rfl, by rw [(Objective.evaluate_inv h1).2.2], d, e, ?_⟩
        intro i v hv
        have hi : i < p.vars.length := (List.getElem?_eq_some_iff.mp hv).1
        have hy : y[i]? = some (pt y i) := by
          rw [List.getElem?_eq_getElem (hlen ▸ hi)]
          simp [pt, List.getD_eq_getElem?_getD, hlen ▸ hi]
        refine ⟨by simp [Result.getItem, hy], ?_⟩
        have hz : ((p.vars.map Variable.name).zip y)[i]? = some (v.name, pt y i) := by
          rw [List.getElem?_zip_eq_some]
          exact ⟨by simp [hv], hy⟩
        have hm : (v.name, pt y i) ∈ (p.vars.map Variable.name).zip y := List.mem_of_getElem? hz
        have hk : Assoc.keys ((p.vars.map Variable.name).zip y) = p.vars.map Variable.name :=
          List.map_fst_zip (by simp [hlen])
        have hnk : (Assoc.keys ((p.vars.map Variable.name).zip y)).Nodup := by
          rw [hk]; exact hn
        simp only [Result.getItem, ofEntries_of_nodup _ hnk, Assoc.get?_of_mem hnk hm]

/-- **C29** (wrong length): a point of the wrong length is never made into a result. -/
theorem C29_length (p : QP) (convs : List Interp) (samples raw : List Sample) (x y : List ℚ)
    (hy : Interprets convs x y) (hl : y.length ≠ p.numVars) (r : Result) :
    interpretResult p convs samples raw x ≠ .ok r := by
  simp only [interprets_iff] at *
  intro h
  unfold interpretResult at h
  cases h1 : p.objective.evaluate y with
  | error e => simp [hy, h1] at h
  | ok fval =>
    simp [hy, h1, feasibilityStatus, (C07_length p y hl).2] at h

/-- **C29** (wrong length, constructor): the constructor of results rejects a point of the wrong length. -/
theorem C29_constructor (x : List ℚ) (fval : Option ℚ) (vars : List Variable) (st : ResStatus)
    (samples raw : List Sample) :
    (∃ r, Result.mk? (some x) fval vars st samples raw = .ok r) ↔ x.length = vars.length := by
  unfold Result.mk?
  by_cases h : x.length = vars.length <;> simp [h]

/-- **C29** (acceptance): a point whose interpretation has the right length is made into a result. -/
theorem C29_accepts (p : QP) (hs : p.ShapeOK) (convs : List Interp) (samples raw : List Sample) (x y : List ℚ)
    (hy : Interprets convs x y) (hl : y.length = p.numVars) :
    ∃ r, interpretResult p convs samples raw x = .ok r := by
  simp only [interprets_iff] at *
  obtain ⟨st, hst⟩ := feasibilityStatus_ok hs hl
  refine ⟨_, by simp only [interpretResult, hy, objective_ok hs hl, hst, Result.mk?]; rw [if_neg]; simp [hl, QP.numVars]⟩

/-- A result of the example. -/
def sampResult : Result :=
  ⟨some [1, 1], some 3, sampQP.vars, some [("x", 1), ("b", 1)], .success, [], []⟩

example : interpretResult sampQP [sampInterp] [] [] [1, 0, 1] = .ok sampResult ∧
    sampResult.getItem (.name "b") = .ok 1 ∧ sampResult.getItem (.idx 1) = .ok 1 ∧
    sampResult.getItem (.name "y") = .error .keyError ∧ (sampQP.vars.map Variable.name).Nodup := by decide +kernel

end Verif
