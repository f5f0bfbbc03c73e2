import Verif.PropsDecode
import Verif.PropsResult
import Verif.PropsQubo

/-!
# The minimum eigen optimizer: C28
-/

namespace Verif

/-- The state is a state of `n` qubits: a state vector of length `2^n`, or a dictionary of bit strings of length `n`. -/
def Eigenstate.IsState (n : Nat) : Eigenstate → Prop
  | .vector v => v.length = 2 ^ n
  | .counts d => ∀ q ∈ d, q.1.toList.length = n ∧ ∀ c ∈ q.1.toList, c = '0' ∨ c = '1'
  | _ => False

/-- The probability of the basis state `x` (entry `j` of `x` is the bit of qubit `j`; position `j` of a key is qubit
`j`) is `p`. -/
def Eigenstate.HasProb (n : Nat) (x : List ℚ) (p : ℚ) : Eigenstate → Prop
  | .vector v => ∃ i a, v[i]? = some a ∧ x.length = n ∧ (∀ j < n, pt x j = ((i / 2 ^ j % 2 : Nat) : ℚ)) ∧
      p = a.1 ^ 2 + a.2 ^ 2
  | .counts d => (d.map Prod.snd).sum ≠ 0 ∧ ∃ q ∈ d, x = q.1.toList.map (fun c => if c = '1' then 1 else 0) ∧
      p = q.2 / (d.map Prod.snd).sum
  | _ => False

/-- The state is supported on basis states of minimal energy. -/
def Eigenstate.Ground (n : Nat) (op : QubitOp) (e : Eigenstate) : Prop :=
  e.IsState n ∧ ∀ x p, e.HasProb n x p → 0 < p → ∀ b, IsBits n b → op.energy (pt x) ≤ op.energy b

theorem toIsing_shift {p : QP} {op : QubitOp} {offset : ℚ} (h : p.toIsing = .ok (op, offset)) :
    op.numQubits = p.numVars ∧ ∃ c, ∀ b, IsBits p.numVars b →
      op.energy b = p.objective.sense.value * p.objective.val b + c := by
  by_cases hne : p.objective.linear.coeffs ≠ [] ∨ p.objective.quadratic.coeffs ≠ []
  · obtain ⟨a, _, b⟩ := C09_energy_partial p op offset h hne
    exact ⟨a, -offset, fun x hx => by have := b x hx; linarith⟩
  · push Not at hne
    obtain ⟨_, _, _, st, terms, h1, h2, h3⟩ := toIsing_ok h
    simp only [hne.1, hne.2, isingLinear, Except.ok.injEq, mergeCoeffs, List.foldl_nil] at h1 h2
    subst h1
    simp only [isingQuadratic, Except.ok.injEq, Prod.mk.injEq] at h2
    rw [← h2.1, if_pos rfl] at h3
    subst h3
    refine ⟨rfl, 1 - p.objective.sense.value * p.objective.constant, fun b _ => ?_⟩
    simp [QubitOp.energy, Dict.sum, zval_noMask, Objective.val, LinExpr.val, QuadExpr.val, hne.1, hne.2]

/-- Decoding a proper state: every sample is a basis state with its probability and objective value, and the basis
states with enough probability are there. -/
theorem eigen_decode {n : Nat} (hn : 0 < n) {qubo : QP} (h1 : qubo.objective.linear.n = n)
    (h2 : qubo.objective.quadratic.n = n) {thr : ℚ} (ht : 0 < thr) {e : Eigenstate} (he : e.IsState n)
    (hx : ∃ x p, e.HasProb n x p ∧ thr ≤ p) :
    ∃ raw, eigenToSolutions e qubo thr = .ok raw ∧ raw ≠ [] ∧ ∀ s ∈ raw, s.x.length = n ∧ IsBits n (pt s.x) ∧
      s.fval = qubo.objective.val (pt s.x) ∧ ∃ p, e.HasProb n s.x p ∧ 0 < p := by
  cases e with
  | vector v =>
    obtain ⟨raw, r1, _, r3⟩ := C27_vector qubo n hn h1 h2 thr v he
    obtain ⟨x, p, ⟨i, a, ha, hl, hb, rfl⟩, hp⟩ := hx
    refine ⟨raw, r1, ?_, ?_⟩
    · apply List.ne_nil_of_mem (a := ⟨x, qubo.objective.val (pt x), a.1 ^ 2 + a.2 ^ 2, .success⟩)
      rw [r3]
      exact ⟨i, a, ha, hp, hl, hb, rfl, rfl, rfl⟩
    · intro s hs
      obtain ⟨i, a, ha, hp, hl, hb, hf, hpr, _⟩ := (r3 s).mp hs
      refine ⟨hl, ?_, hf, _, ⟨i, a, ha, hl, hb, rfl⟩, lt_of_lt_of_le ht hp⟩
      intro j hj
      rw [hb j hj]
      have : i / 2 ^ j % 2 = 0 ∨ i / 2 ^ j % 2 = 1 := by omega
      rcases this with h | h <;> simp [h]
  | counts d =>
    obtain ⟨x, p, ⟨hs, q, hq, rfl, rfl⟩, hp⟩ := hx
    have hdec := decodeCounts_ok (thr := thr) h1 h2 hs d he
    refine ⟨_, by simp only [eigenToSolutions]; exact hdec, ?_, ?_⟩
    · apply List.ne_nil_of_mem
      exact List.mem_map.mpr ⟨q, List.mem_filter.mpr ⟨hq, by simpa using hp⟩, rfl⟩
    · intro s hs'
      obtain ⟨r, hr, rfl⟩ := List.mem_map.mp hs'
      have hr' := List.mem_filter.mp hr
      have hlen : (keyPoint r.1).length = n := by rw [keyPoint, List.length_map]; exact (he r hr'.1).1
      refine ⟨hlen, ?_, rfl, _, ⟨hs, r, hr'.1, rfl, rfl⟩, lt_of_lt_of_le ht (by simpa using hr'.2)⟩
      intro j hj
      have hj' : j < (keyPoint r.1).length := by omega
      have hm : pt (keyPoint r.1) j ∈ keyPoint r.1 := by
        simp only [pt, List.getD_eq_getElem?_getD, List.getElem?_eq_getElem hj', Option.getD_some]
        exact List.getElem_mem hj'
      obtain ⟨c, _, hc⟩ := List.mem_map.mp hm
      rw [← hc]
      split <;> simp
  | dictFn d => exact absurd he (by simp [Eigenstate.IsState])
  | other => exact absurd he (by simp [Eigenstate.IsState])

/-- **C28, the part that holds.**  Full statement: whenever the problem is compatible and feasible and the eigensolver
returns a ground state of the operator it is given, `solve` returns a feasible optimal solution with its objective value
and status SUCCESS.  Missing (false): the cases where the QUBO is not exact (`C28_violated`, see C22), ground states
spread over so many basis states that none has probability 1e-6 (`C28_violated_threshold`), and dictionaries whose keys
have qubit 0 at the end (C27); programs without variables (the operator is then a number). -/
theorem C28_optimum_partial (p : QP) (hs : p.WF) (hsh : p.ShapeOK) (hb : p.BinBoundsOK)
    (hi : ∀ v ∈ p.vars, v.vartype = .integer → (∃ z : Int, v.lb = z) ∧ ∃ z : Int, v.ub = z)
    (hp : ProductsOK p p.objective.quadratic) (st : QuboState) (h : p.toQubo none = .ok st)
    (hn : 0 < st.dst.numVars) (hfeas : ∃ x, p.Feas x) (solver : QubitOp → Option Eigenstate)
    (hsol : ∀ op offset, st.dst.toIsing = .ok (op, offset) → ∃ e, solver op = some e ∧ e.Ground st.dst.numVars op ∧
      ∃ x pr, e.HasProb st.dst.numVars x pr ∧ 1 / 10 ^ 6 ≤ pr) :
    ∃ r y, minEigenSolve solver [quboConverter none] p = .ok r ∧ r.x = some y ∧ y.length = p.numVars ∧
      OptimalIn p.Feas p.objective (pt y) ∧ r.fval = some (p.objective.val (pt y)) ∧ r.status = .success := by
  obtain ⟨hbin, hcs, ⟨⟨op, offset⟩, hop⟩⟩ := (C23_qubo none p hs).1 st h
  obtain ⟨⟨hc, hq, hco⟩, hsrc, h1, h2, h3⟩ := toQubo_stages h
  have hf1 := ineqToEq_facts hs h1
  have hf2 := intToBin_facts hf1.starts.wf h2
  have hf3 := toPenalty_facts hf2.wf h3
  obtain ⟨hnq, c, hen⟩ := toIsing_shift hop
  obtain ⟨e, he, hg, hpr⟩ := hsol op offset hop
  obtain ⟨raw, hraw, hne, hmem⟩ := eigen_decode hn hf3.shape.2.1 hf3.shape.2.2 (by norm_num) hg.1 hpr
  -- points of the QUBO are the bit strings
  have hbits : ∀ y, st.dst.Feas y ↔ IsBits st.dst.numVars y := by
    intro y
    rw [feas_iff_admits]
    constructor
    · rintro ⟨ha, _⟩ i hi'
      have hv : st.dst.vars[i]? = some (st.dst.vars[i]'hi') := List.getElem?_eq_getElem hi'
      have hA := ha i _ hv
      obtain ⟨t, l, u⟩ := hbin _ (List.getElem_mem hi')
      have g := hA.2 (by rw [t]; simp)
      exact binary_val (by rw [← l]; exact hA.1.1) (by rw [← u]; exact hA.1.2) g
    · intro hy
      refine ⟨?_, by unfold QP.Sat; rw [hcs]; simp⟩
      intro i v hv
      have hi' := (List.getElem?_eq_some_iff.mp hv).1
      obtain ⟨t, l, u⟩ := hbin v (List.mem_of_getElem? hv)
      refine ⟨?_, fun _ => ?_⟩
      · rw [l, u]; rcases hy i hi' with g | g <;> rw [g] <;> norm_num
      · rcases hy i hi' with g | g
        · exact ⟨0, by rw [g]; simp⟩
        · exact ⟨1, by rw [g]; simp⟩
  have hopt : ∀ s ∈ raw, ∃ x, st.interpret s.x = .ok x ∧ x.length = p.numVars ∧
      OptimalIn p.Feas p.objective (pt x) := by
    intro s hs'
    obtain ⟨hl, hb', _, pr, hp', hpos⟩ := hmem s hs'
    have hz : OptimalIn st.dst.Feas st.dst.objective (pt s.x) := by
      refine ⟨(hbits _).mpr hb', fun y hy => ?_⟩
      have hy' := (hbits y).mp hy
      have := hg.2 s.x pr hp' hpos y hy'
      rw [hen _ hb', hen _ hy'] at this
      linarith
    obtain ⟨x, a, b, d, _⟩ := C22_exact_partial p st hs hb hi hp h hfeas s.x hl hz
    exact ⟨x, a, b, d⟩
  have hmsg : ¬ (quboMsg p).length > 0 := by
    intro hlen
    simp [QP.toQubo, hlen] at h
  have hall : ∀ x, interpretAll [st.interpret] x = st.interpret x := by
    intro x
    simp only [interpretAll, List.reverse_singleton, interpretRev]
    cases st.interpret x <;> rfl
  have hsolve : minEigenSolve solver [quboConverter none] p = solveInternal solver op st.dst p [st.interpret] := by
    simp only [minEigenSolve, hmsg, if_false, convertAll, quboConverter, h, hop]
  obtain ⟨srt, hsrt⟩ : ∃ srt, srt = sortedBy (fun a b : Sample =>
      decide (st.dst.objective.sense.value * a.fval ≤ st.dst.objective.sense.value * b.fval)) raw := ⟨_, rfl⟩
  have hsm : ∀ s, s ∈ srt ↔ s ∈ raw := fun s => by rw [hsrt]; exact mem_sortedBy
  cases srt with
  | nil =>
    obtain ⟨s, hs'⟩ := List.exists_mem_of_ne_nil raw hne
    simp [← hsm] at hs'
  | cons s l =>
    obtain ⟨x, hx, hxl, hxo⟩ := hopt s ((hsm s).mp (by simp))
    obtain ⟨samples, hsam⟩ := C26_accepts p hsh (s :: l) [st.interpret] (by
      intro r hr
      obtain ⟨y, hy, hyl, _⟩ := hopt r ((hsm r).mp hr)
      exact ⟨y, by rw [interprets_iff, hall, hy], hyl⟩)
    obtain ⟨r, hr⟩ := C29_accepts p hsh [st.interpret] samples (s :: l) s.x x (by rw [interprets_iff, hall, hx]) hxl
    obtain ⟨y, y1, y2, y3, _, y4, _, y5, _⟩ := C29_result p hs.cons.vars.2 _ _ _ _ r hr
    rw [interprets_iff, hall, hx] at y1
    cases y1
    refine ⟨r, x, ?_, y2, y3, hxo, y4, ?_⟩
    · rw [hsolve]
      simp only [solveInternal, hnq, hn.ne', if_false, he, hraw, ← hsrt, hsam, hr]
    · rw [y5]
      exact ⟨hxo.1.1, fun k hk => rel_imp_relTol (hxo.1.2.2 k hk)⟩

/-- The result of the optimizer for `prodMaxQP` with an eigensolver that returns the ground state. -/
def prodMaxResult : Result :=
  match minEigenSolve (fun _ => some (.counts [("1011", 1)])) [quboConverter none] prodMaxQP with
  | .ok r => r
  | .error _ => ⟨none, none, [], none, .failure, [], []⟩

/-- **C28 fails** where the QUBO is not exact: for `maximize 5 x y - 19 x` on `[1, 4]²` an exact ground state leads to
the answer `(2, 4)` with value 2 and status SUCCESS, but the feasible point `(4, 4)` has value 4. -/
theorem C28_violated : ∃ (p : QP) (st : QuboState) (e : Eigenstate) (r : Result) (x' : List ℚ),
    p.WF ∧ p.toQubo none = .ok st ∧
    (∀ op offset, st.dst.toIsing = .ok (op, offset) → e.Ground st.dst.numVars op) ∧
    minEigenSolve (fun _ => some e) [quboConverter none] p = .ok r ∧ r.x = some [2, 4] ∧ r.fval = some 2 ∧
    r.status = .success ∧ p.objective.sense = .maximize ∧ p.isFeasible x' = .ok true ∧
    p.objective.evaluate x' = .ok 4 := by
  refine ⟨prodMaxQP, prodMaxState, .counts [("1011", 1)], prodMaxResult, [4, 4], by decide +kernel, by decide +kernel,
    ?_, by decide +kernel, by decide +kernel, by decide +kernel, by decide +kernel, by decide +kernel,
    by decide +kernel, by decide +kernel⟩
  intro op offset hop
  have ho : prodMaxState.dst.objective = ⟨-14, ⟨4, [(0, -14), (1, -33), (2, 5), (3, 5)]⟩,
    ⟨4, [((0, 2), 5), ((0, 3), 10), ((1, 2), 10), ((1, 3), 20)]⟩, .maximize⟩ := by decide +kernel
  have hnv : prodMaxState.dst.numVars = 4 := by decide +kernel
  obtain ⟨_, c, hen⟩ := toIsing_shift hop
  rw [hnv] at hen ⊢
  have hkey : "1011".toList = ['1', '0', '1', '1'] := by decide +kernel
  refine ⟨?_, ?_⟩
  · intro q hq
    simp only [List.mem_singleton] at hq
    subst hq
    rw [hkey]
    exact ⟨by decide, by decide⟩
  · rintro x pr ⟨_, q, hq, rfl, rfl⟩ _ b hb
    simp only [List.mem_singleton] at hq
    subst hq
    have hpt : ("1011".toList.map fun c => if c = '1' then (1 : ℚ) else 0) = [1, 0, 1, 1] := by decide +kernel
    rw [hpt]
    have hx : IsBits 4 (pt [1, 0, 1, 1]) := by
      intro i hi
      have : i = 0 ∨ i = 1 ∨ i = 2 ∨ i = 3 := by omega
      rcases this with rfl | rfl | rfl | rfl <;> simp [pt]
    rw [hen _ hx, hen b hb, ho]
    simp only [Objective.val, LinExpr.val, QuadExpr.val, Dict.sum, ObjSense.value, List.map_cons, List.map_nil,
      List.sum_cons, List.sum_nil]
    rcases hb 0 (by norm_num) with h0 | h0 <;> rcases hb 1 (by norm_num) with h1 | h1 <;>
      rcases hb 2 (by norm_num) with h2 | h2 <;> rcases hb 3 (by norm_num) with h3 | h3 <;>
      rw [h0, h1, h2, h3] <;> norm_num [pt]

/-- Twenty binary variables, constant objective. -/
def twentyQP : QP :=
  (runCalls (QP.empty "") [.addVars (.count 20) 0 1 .binary (some "b") (.hole "" ""),
    .objective .minimize 0 (.dict []) (.dict [])]).2

/-- Its conversion. -/
def twentyState : QuboState :=
  match twentyQP.toQubo none with
  | .ok st => st
  | .error _ => ⟨QP.empty "", QP.empty "", ⟨QP.empty "", QP.empty "", []⟩, QP.empty "", 0⟩

theorem decodeVector_small {qubo : QP} {thr : ℚ} {n : Nat} (v : List (ℚ × ℚ)) (k : Nat)
    (h : ∀ a ∈ v, ampProb a < thr) : decodeVector qubo thr n v k = .ok [] := by
  induction v generalizing k with
  | nil => rfl
  | cons a v ih =>
    simp only [decodeVector, if_neg (not_le.mpr (h a (by simp)))]
    exact ih (k + 1) fun b hb => h b (by simp [hb])

theorem twenty_toQubo : twentyQP.toQubo none = .ok twentyState := by decide +kernel

theorem twenty_numVars : twentyState.dst.numVars = 20 := by decide +kernel

theorem twenty_ground {v : List (ℚ × ℚ)} (hl : v.length = 2 ^ 20) {op : QubitOp} {offset : ℚ}
    (hop : twentyState.dst.toIsing = .ok (op, offset)) : (Eigenstate.vector v).Ground 20 op := by
  obtain ⟨_, c, hen⟩ := toIsing_shift hop
  rw [twenty_numVars] at hen
  have ho : twentyState.dst.objective = ⟨0, ⟨20, []⟩, ⟨20, []⟩, .minimize⟩ := by decide +kernel
  refine ⟨hl, ?_⟩
  rintro x pr ⟨i, a, ha, hl, hb, _⟩ _ b hbb
  have hx : IsBits 20 (pt x) := by
    intro j hj
    rw [hb j hj]
    have : i / 2 ^ j % 2 = 0 ∨ i / 2 ^ j % 2 = 1 := by omega
    rcases this with h | h <;> simp [h]
  rw [hen _ hx, hen b hbb, ho]
  simp [Objective.val, LinExpr.val, QuadExpr.val, Dict.sum]

theorem twenty_fails {v : List (ℚ × ℚ)} (hne : v ≠ []) (hp : ∀ a ∈ v, ampProb a < 1 / 10 ^ 6) :
    minEigenSolve (fun _ => some (.vector v)) [quboConverter none] twentyQP = .error .indexError := by
  have hmsg : ¬ (quboMsg twentyQP).length > 0 := by decide +kernel
  have hop : ∃ off, twentyState.dst.toIsing = .ok (⟨20, [((noMask 20, noMask 20), 1)]⟩, off) := ⟨0, by decide +kernel⟩
  obtain ⟨off, hop⟩ := hop
  have hdec : eigenToSolutions (.vector v) twentyState.dst (1 / 10 ^ 6) = .ok [] := by
    simp only [eigenToSolutions, if_neg hne]
    exact decodeVector_small v 0 hp
  simp only [minEigenSolve, hmsg, if_false, convertAll, quboConverter, twenty_toQubo, hop, solveInternal, hdec]
  rfl

/-- **C28 fails** for ground states spread over many basis states: with twenty binary variables and a constant
objective the uniform superposition is a (normalised) ground state, every basis state has probability below 1e-6, and
`solve` raises an IndexError. -/
theorem C28_violated_threshold : ∃ (p : QP) (st : QuboState) (v : List (ℚ × ℚ)),
    p.WF ∧ p.ShapeOK ∧ p.toQubo none = .ok st ∧ st.dst.numVars = 20 ∧ (v.map ampProb).sum = 1 ∧
    (∀ op offset, st.dst.toIsing = .ok (op, offset) → (Eigenstate.vector v).Ground 20 op) ∧
    minEigenSolve (fun _ => some (.vector v)) [quboConverter none] p = .error .indexError := by
  have hamp : ampProb ((1 / 2 ^ 10 : ℚ), 0) = 1 / 2 ^ 20 := by norm_num [ampProb]
  obtain ⟨v, hl, hv⟩ : ∃ v : List (ℚ × ℚ), v.length = 2 ^ 20 ∧ ∀ a ∈ v, a = (1 / 2 ^ 10, 0) :=
    ⟨List.replicate (2 ^ 20) (1 / 2 ^ 10, 0), List.length_replicate, fun a ha => List.eq_of_mem_replicate ha⟩
  refine ⟨twentyQP, twentyState, v, by decide +kernel, by decide +kernel, twenty_toQubo, twenty_numVars, ?_,
    fun op offset hop => twenty_ground hl hop, twenty_fails ?_ ?_⟩
  · rw [List.eq_replicate_of_mem hv, List.map_replicate, List.sum_replicate, hamp, hl, nsmul_eq_mul]
    push_cast
    norm_num
  · rintro rfl
    rw [List.length_nil] at hl
    norm_num at hl
  · intro a ha
    rw [hv a ha, hamp]
    norm_num

/-- The hypotheses of `C28_optimum_partial` on the example of C22: the eigensolver returns the optimal bit string. -/
example : fullQP.WF ∧ fullQP.ShapeOK ∧ fullQP.toQubo none = .ok (fullState none) ∧ 0 < (fullState none).dst.numVars ∧
    (minEigenSolve (fun _ => some (.counts [("1100100", 1)])) [quboConverter none] fullQP).toOption.map Result.x =
      some (some [1, 1, 0]) := by decide +kernel

end Verif
