import Verif.WarmStartLemmas
import Verif.PropsResult
import Verif.QuboLemmas
import Verif.AdmmSteps2

/-!
# Lemmas about the runs of the warm-start optimizer
-/

namespace Verif

theorem digitsOf_digits {l : List Char} {x : List ℚ} (h : digitsOf l = .ok x) : Digits x := by
  induction l generalizing x with
  | nil => simp only [digitsOf, Except.ok.injEq] at h; subst h; intro v hv; simp at hv
  | cons c l ih =>
    simp only [digitsOf] at h
    by_cases hc : c.isDigit
    · rw [if_pos hc] at h
      cases h1 : digitsOf l with
      | error e => simp [h1] at h
      | ok r =>
        simp only [h1, Except.ok.injEq] at h
        subst h
        intro v hv
        rcases List.mem_cons.mp hv with rfl | hv
        · refine ⟨c.toNat - 48, ?_, rfl⟩
          simp only [Char.isDigit, Bool.and_eq_true, decide_eq_true_eq] at hc
          have : c.val ≤ 57 := hc.2
          have h2 : c.toNat ≤ 57 := this
          omega
        · exact ih h1 v hv
    · rw [if_neg hc] at h; simp at h

/-- A raw sample: digits, with as many coordinates as the objective has columns. -/
def RawOK (qubo : QP) (s : Sample) : Prop := Digits s.x ∧ s.x.length = qubo.objective.linear.n

theorem generateSolution_raw {l : List Char} {qubo : QP} {pr : ℚ} {s : Sample}
    (h : generateSolution l qubo pr = .ok s) : RawOK qubo s := by
  unfold generateSolution at h
  cases h1 : digitsOf l with
  | error e => simp [h1] at h
  | ok x =>
    cases h2 : qubo.objective.evaluate x with
    | error e => simp [h1, h2] at h
    | ok f =>
      simp only [h1, h2, Except.ok.injEq] at h
      subst h
      exact ⟨digitsOf_digits h1, (Objective.evaluate_inv h2).1⟩

theorem decodeCounts_raw {qubo : QP} {m a : ℚ} {d : List (String × ℚ)} {r : List Sample}
    (h : decodeCounts qubo m a d = .ok r) : ∀ s ∈ r, RawOK qubo s := by
  induction d generalizing r with
  | nil => simp only [decodeCounts, Except.ok.injEq] at h; subst h; simp
  | cons e d ih =>
    obtain ⟨k, c⟩ := e
    simp only [decodeCounts] at h
    split at h
    · simp at h
    · split at h
      · cases h1 : generateSolution k.toList qubo (c / a) with
        | error e => simp [h1] at h
        | ok s =>
          cases h2 : decodeCounts qubo m a d with
          | error e => simp [h1, h2] at h
          | ok r' =>
            simp only [h1, h2, Except.ok.injEq] at h
            subst h
            intro t ht
            rcases List.mem_cons.mp ht with rfl | ht
            · exact generateSolution_raw h1
            · exact ih h2 t ht
      · exact ih h

theorem decodeVector_raw {qubo : QP} {m : ℚ} {n : Nat} {v : List (ℚ × ℚ)} {i : Nat} {r : List Sample}
    (h : decodeVector qubo m n v i = .ok r) : ∀ s ∈ r, RawOK qubo s := by
  induction v generalizing r i with
  | nil => simp only [decodeVector, Except.ok.injEq] at h; subst h; simp
  | cons a v ih =>
    simp only [decodeVector] at h
    split at h
    · cases h1 : generateSolution (vectorKey n i) qubo (ampProb a) with
      | error e => simp [h1] at h
      | ok s =>
        cases h2 : decodeVector qubo m n v (i + 1) with
        | error e => simp [h1, h2] at h
        | ok r' =>
          simp only [h1, h2, Except.ok.injEq] at h
          subst h
          intro t ht
          rcases List.mem_cons.mp ht with rfl | ht
          · exact generateSolution_raw h1
          · exact ih h2 t ht
    · exact ih h

theorem eigenToSolutions_raw {e : Eigenstate} {qubo : QP} {m : ℚ} {r : List Sample}
    (h : eigenToSolutions e qubo m = .ok r) : ∀ s ∈ r, RawOK qubo s := by
  cases e with
  | counts d => exact decodeCounts_raw h
  | dictFn d =>
    simp only [eigenToSolutions] at h
    cases h1 : squareAmps d with
    | error e => simp [h1] at h
    | ok d' => simp only [h1] at h; exact decodeCounts_raw h
  | vector v =>
    simp only [eigenToSolutions] at h
    split at h
    · simp at h
    · exact decodeVector_raw h
  | other => simp [eigenToSolutions] at h

/-- The result of one run: a failure, or a result with its samples. -/
theorem solveInternal_inv {solver : QubitOp → Option Eigenstate} {op : QubitOp} {q p : QP} {fs : List Interp}
    {r : Result} (h : solveInternal solver op q p fs = .ok r) :
    (r.x = none ∧ r.samples = []) ∨ ∃ raw x0, (∀ s ∈ raw, RawOK q s) ∧ raw ≠ [] ∧
      interpretSamples p raw fs = .ok r.samples ∧ interpretResult p fs r.samples raw x0 = .ok r := by
  unfold solveInternal at h
  split at h
  · simp at h
  · cases h1 : solver op with
    | none =>
      simp only [h1, Result.mk?, Except.ok.injEq] at h
      subst h
      exact Or.inl ⟨rfl, rfl⟩
    | some e =>
      simp only [h1] at h
      cases h2 : eigenToSolutions e q (1 / 10 ^ 6) with
      | error e => simp only [h2] at h; cases h
      | ok raw =>
        simp only [h2] at h
        have hraw := eigenToSolutions_raw h2
        set raw' := sortedBy (fun a b => decide (q.objective.sense.value * a.fval ≤ q.objective.sense.value * b.fval))
          raw with hr'
        have hm : ∀ s ∈ raw', RawOK q s := fun s hs => hraw s (mem_sortedBy.mp hs)
        clear_value raw'
        cases raw' with
        | nil => simp at h
        | cons s l =>
          simp only at h
          cases h3 : interpretSamples p (s :: l) fs with
          | error e => simp [h3] at h
          | ok ss =>
            simp only [h3] at h
            have hss : r.samples = ss := by
              unfold interpretResult at h
              cases h4 : interpretAll fs s.x with
              | error e => simp [h4] at h
              | ok x =>
                simp only [h4] at h
                cases h5 : p.objective.evaluate x with
                | error e => simp [h5] at h
                | ok f =>
                  simp only [h5] at h
                  cases h6 : feasibilityStatus p x with
                  | error e => simp [h6] at h
                  | ok st =>
                    simp only [h6, Result.mk?] at h
                    split at h
                    · simp at h
                    · simp only [Except.ok.injEq] at h
                      subst h
                      rfl
            subst hss
            exact Or.inr ⟨s :: l, s.x, hm, by simp, h3, h⟩

/-- The loop over the initial solutions. -/
theorem warmRuns_inv {qaoa : List ℚ → QubitOp → Option Eigenstate} {eps : ℚ} {op : QubitOp} {q p : QP}
    {fs : List Interp} {pre : List Sample} {rs : List Result}
    (h : warmRuns qaoa eps op q p fs pre = .ok rs) :
    List.Forall₂ (fun (s : Sample) (r : Result) =>
      solveInternal (qaoa (initialVariables eps s.x)) op q p fs = .ok r) pre rs := by
  induction pre generalizing rs with
  | nil => simp only [warmRuns, Except.ok.injEq] at h; subst h; exact .nil
  | cons s l ih =>
    simp only [warmRuns] at h
    cases h1 : solveInternal (qaoa (initialVariables eps s.x)) op q p fs with
    | error e => simp [h1] at h
    | ok r =>
      cases h2 : warmRuns qaoa eps op q p fs l with
      | error e => simp [h1, h2] at h
      | ok rs' =>
        simp only [h1, h2, Except.ok.injEq] at h
        subst h
        exact .cons h1 (ih h2)

theorem sumResults_points {rs : List Result} {d d' : Assoc String (ℚ × ℚ)} (h : sumResults rs d = .ok d') :
    ∀ r ∈ rs, ¬ (r.x = none ∧ r.samples = []) := by
  induction rs generalizing d with
  | nil => simp
  | cons r l ih =>
    simp only [sumResults] at h
    cases h1 : r.sampleList with
    | error e => simp [h1] at h
    | ok ss =>
      simp only [h1] at h
      intro t ht
      rcases List.mem_cons.mp ht with rfl | ht
      · rintro ⟨a, b⟩
        simp [Result.sampleList, a, b] at h1
      · exact ih h t ht

/-- The stages of a successful call. -/
theorem warmStartSolve_inv {preSolve : QP → Except Err (ResStatus × List Sample)} {relax : Bool}
    {qaoa : List ℚ → QubitOp → Option Eigenstate} {eps : ℚ} {k : Nat} {convs : List Converter} {p : QP} {r : Result}
    (h : warmStartSolve preSolve relax qaoa eps k convs p = .ok r) :
    0 ≤ eps ∧ eps ≤ 1 / 2 ∧ ¬ (quboMsg p).length > 0 ∧
    ∃ q fs pre op offset rs, convertAll convs p = .ok (q, fs) ∧
      preSolve (if relax then q.relaxAll else q) = .ok (.success, pre) ∧ q.toIsing = .ok (op, offset) ∧
      warmRuns qaoa eps op q p fs (pre.take (min k pre.length)) = .ok rs ∧
      (rs = [r] ∨ ∃ samples s l, rs.length ≠ 1 ∧ meanAggregate rs = .ok samples ∧
        sortedBy (fun a b => decide (q.objective.sense.value * a.fval ≤ q.objective.sense.value * b.fval)) samples =
          s :: l ∧ interpretResult p fs (s :: l) [] s.x = .ok r) := by
  unfold warmStartSolve at h
  split at h
  · simp at h
  · rename_i heps
    split at h
    · simp at h
    · rename_i hmsg
      rw [not_or, not_lt, not_lt] at heps
      refine ⟨heps.1, heps.2, hmsg, ?_⟩
      cases h1 : convertAll convs p with
      | error e => simp [h1] at h
      | ok qf =>
        obtain ⟨q, fs⟩ := qf
        simp only [h1] at h
        cases h2 : preSolve (if relax then q.relaxAll else q) with
        | error e => simp [h2] at h
        | ok sp =>
          obtain ⟨st, pre⟩ := sp
          simp only [h2] at h
          by_cases hst : st = .success
          · subst hst
            simp only [ne_eq, not_true_eq_false, if_false] at h
            cases h3 : q.toIsing with
            | error e => simp [h3] at h
            | ok oo =>
              obtain ⟨op, offset⟩ := oo
              simp only [h3] at h
              cases h4 : warmRuns qaoa eps op q p fs (pre.take (min k pre.length)) with
              | error e => simp [h4] at h
              | ok rs =>
                refine ⟨q, fs, pre, op, offset, rs, rfl, h2, h3, h4, ?_⟩
                have key : ∀ rs : List Result, rs.length ≠ 1 →
                    ((if k ≤ 1 then .error .attributeError
                    else match meanAggregate rs with
                      | .error e => .error e
                      | .ok samples =>
                        match sortedBy (fun a b => decide (q.objective.sense.value * a.fval ≤
                          q.objective.sense.value * b.fval)) samples with
                        | [] => .error .indexError
                        | s :: l => interpretResult p fs (s :: l) [] s.x : Except Err Result)) = .ok r →
                    ∃ samples s l, rs.length ≠ 1 ∧ meanAggregate rs = .ok samples ∧
                      sortedBy (fun a b => decide (q.objective.sense.value * a.fval ≤
                        q.objective.sense.value * b.fval)) samples = s :: l ∧
                      interpretResult p fs (s :: l) [] s.x = .ok r := by
                  intro rs hl h
                  split at h
                  · simp at h
                  · cases h5 : meanAggregate rs with
                    | error e => simp [h5] at h
                    | ok samples =>
                      simp only [h5] at h
                      split at h
                      · simp at h
                      · rename_i s l hs
                        exact ⟨samples, s, l, hl, rfl, hs, h⟩
                match rs, h4, h with
                | [], h4, h =>
                  simp only [h4] at h
                  exact Or.inr (key [] (by simp) (by
                    revert h
                    cases meanAggregate [] with
                    | error e => exact id
                    | ok ss =>
                      simp only
                      generalize sortedBy _ ss = t
                      cases t <;> exact id))
                | [a], h4, h =>
                  simp only [h4, Except.ok.injEq] at h
                  exact Or.inl (by rw [h])
                | a :: b :: l, h4, h =>
                  simp only [h4] at h
                  exact Or.inr (key (a :: b :: l) (by simp) (by
                    revert h
                    cases meanAggregate (a :: b :: l) with
                    | error e => exact id
                    | ok ss =>
                      simp only
                      generalize sortedBy _ ss = t
                      cases t <;> exact id))
          · simp [hst] at h

theorem convertVar_ne {name : String} {lb ub : ℚ} {e : List (String × ℚ)} (h : convertVar name lb ub = .ok e) :
    e ≠ [] := by
  unfold convertVar encodeCoeffs at h
  split at h
  · simp at h
  · rename_i cs hcs
    simp only [Except.ok.injEq] at h
    split at hcs
    · simp at hcs
    · intro he
      subst he
      have hn : cs = [] := by simpa using h
      subst hn
      split at hcs <;> simp at hcs

/-- For a program with binary variables only and a conversion without new variables, interpretation is the identity;
if the conversion adds variables, points of the original length are rejected. -/
theorem qubo_interpret {penalty : Option ℚ} {p : QP} {st : QuboState} (hp : p.WF)
    (h : p.toQubo penalty = .ok st) :
    st.dst.objective.linear.n = st.dst.numVars ∧ st.dst.objective.sense = p.objective.sense ∧
    (∀ x : List ℚ, x.length ≠ st.dst.numVars → st.interpret x = .error .optimization) ∧
    ((∀ v ∈ p.vars, v.vartype = .binary) → st.dst.numVars = p.numVars → ∀ x y : List ℚ, st.interpret x = .ok y →
      y = x) := by
  obtain ⟨⟨hc, hq, hi⟩, hsrc, h1, h2, h3⟩ := toQubo_stages h
  have f1 := ineqToEq_facts hp h1
  have hwf := f1.starts.wf
  have f2 := intToBin_facts hwf h2
  have f3 := toPenalty_facts f2.wf h3
  have hnum : st.dst.numVars = st.i2b.dst.numVars := by simp [QP.numVars, f3.vars]
  refine ⟨f3.shape.2.1, by rw [f3.sense, f2.sense, f1.objective.1], ?_, ?_⟩
  · intro x hx
    simp [QuboState.interpret, penInterpret, hnum ▸ hx]
  · intro hb hn x y hxy
    have hle : p.numVars ≤ st.eqs.numVars := f1.starts.le
    have hle2 : st.eqs.numVars ≤ st.i2b.dst.numVars := by
      have h4 := congrArg List.length f2.names
      rw [List.length_map, List.length_flatMap, List.map_map] at h4
      have h5 : ∀ l : List Variable, (∀ v ∈ l, v ∈ st.eqs.vars) →
          l.length ≤ (l.map (List.length ∘ outs st.i2b.conv ∘ Variable.name)).sum := by
        intro l
        induction l with
        | nil => simp
        | cons v l ih =>
          intro hl
          have h6 := ih fun w hw => hl w (by simp [hw])
          have h7 : 1 ≤ (outs st.i2b.conv v.name).length := by
            unfold outs
            by_cases hv : v.vartype = .integer
            · obtain ⟨e, e1, e2⟩ := f2.enc v (hl v (by simp)) hv
              rw [e1]
              have := convertVar_ne e2
              simp only [List.length_map]
              exact List.length_pos_iff.mpr this
            · rw [f2.plain v (hl v (by simp)) hv]; simp
          simp only [List.map_cons, List.sum_cons, List.length_cons, Function.comp_apply]
          omega
      have := h5 st.eqs.vars (fun v hv => hv)
      simp only [QP.numVars]
      rw [h4]
      exact this
    have heq : st.eqs.numVars = p.numVars := by omega
    have hni : ∀ v ∈ st.eqs.vars, v.vartype ≠ .integer := by
      obtain ⟨more, hm, _⟩ := f1.slacks
      have : more = [] := by
        have := congrArg List.length hm
        simp only [List.length_append, List.length_map, QP.numVars] at this heq
        exact List.length_eq_zero_iff.mp (by omega)
      rw [hm, this, List.append_nil]
      intro v hv
      obtain ⟨w, hw, rfl⟩ := List.mem_map.mp hv
      simp [plainVar, hb w hw, binVar]
    rw [intToBin_none hni, Except.ok.injEq] at h2
    unfold QuboState.interpret at hxy
    rw [← h2, hsrc] at hxy
    unfold penInterpret at hxy
    split at hxy
    · simp at hxy
    · rename_i x' hx'
      split at hx'
      · simp at hx'
      · rename_i hlen
        simp only [Except.ok.injEq] at hx'
        subst hx'
        split at hxy
        · simp at hxy
        · rename_i z hz
          obtain ⟨z1, z2⟩ := interpret_none hwf hni hz
          obtain ⟨_, e2⟩ := (ineqInterpret_iff hp.cons f1.starts z y).mp hxy
          have hlen' : x.length = st.eqs.numVars := by simpa using hlen
          rw [← heq, ← z1, List.take_length] at e2
          subst e2
          apply List.ext_getElem (by omega)
          intro i hi1 hi2
          have := z2 i (by omega)
          simpa [pt, List.getD_eq_getElem?_getD, hi1, hi2] using this

end Verif
