import Verif.RecursiveLemmas
import Verif.PropsResult
import Verif.IntToBinMain

/-!
# Properties of the recursive optimizer: C30, C59, C60
-/

namespace Verif

/-! ## C30 -/

/-- **C30** (correlations): the entry for `j < i` is the probability of equal bits minus the probability of different
ones; all others are zero. -/
theorem C30_correlation (samples : List Sample) (i j : Nat) :
    correlation samples i j = if j < i then
      ((samples.filter fun s => pt s.x i = pt s.x j).map Sample.probability).sum -
      ((samples.filter fun s => pt s.x i ≠ pt s.x j).map Sample.probability).sum else 0 := by
  unfold correlation
  split
  · have : ∀ (l : List Sample) (a : ℚ),
        l.foldl (fun acc s => if pt s.x i = pt s.x j then acc + s.probability else acc - s.probability) a =
        a + (((l.filter fun s => pt s.x i = pt s.x j).map Sample.probability).sum -
          ((l.filter fun s => pt s.x i ≠ pt s.x j).map Sample.probability).sum) := by
      intro l
      induction l with
      | nil => intro a; simp
      | cons s l ih =>
        intro a
        rw [List.foldl_cons, ih]
        by_cases h : pt s.x i = pt s.x j
        · simp [h]; ring
        · simp [h]; ring
    rw [this]; ring
  · rfl

/-- **C30** (choice): the eliminated pair consists of two different variables and has the largest correlation in
absolute value. -/
theorem C30_strongest (samples : List Sample) (n i j : Nat) (hn : 2 ≤ n) (h : strongest samples n = .ok (i, j)) :
    i < n ∧ j < n ∧ i ≠ j ∧
      ∀ a < n, ∀ b < n, a ≠ b → |correlation samples a b| ≤ |correlation samples i j| :=
  strongest_spec hn h

theorem recursiveSolve_inv {solver : Nat → QP → Except Err Result} {last : QP → Except Err Result} {m : Nat}
    {converters : List Converter} {p : QP} {fuel : Nat} {r : RecResult} {ref : QP} {convs : List Interp}
    (h : recursiveSolve solver last m converters p fuel = some (.ok r))
    (hc : convertAll converters p = .ok (ref, convs)) :
    reduceLoop solver m fuel 0 ref [] = some (.ok (r.reduced, r.replacements)) ∧
      last r.reduced = .ok r.reducedResult ∧
      unroll r.replacements r.reduced ref r.reducedResult.x = .ok r.point ∧
      r.callers = callersProgram solver m converters p ∧
      interpretResult r.callers convs [] [] r.point = .ok r.result := by
  unfold recursiveSolve at h
  split at h
  · simp at h
  · rw [hc] at h
    simp only at h
    cases h1 : reduceLoop solver m fuel 0 ref [] with
    | none => simp [h1] at h
    | some e =>
      cases e with
      | error e => simp [h1] at h
      | ok fr =>
        obtain ⟨final, reps⟩ := fr
        cases h2 : last final with
        | error e => simp [h1, h2] at h
        | ok res =>
          cases h3 : unroll reps final ref res.x with
          | error e => simp [h1, h2, h3] at h
          | ok x =>
            cases h4 : interpretResult (callersProgram solver m converters p) convs [] [] x with
            | error e => simp [h1, h2, h3, h4] at h
            | ok res' =>
              simp only [h1, h2, h3, h4, Option.some.injEq, Except.ok.injEq] at h
              subst h
              exact ⟨rfl, h2, h3, rfl, h4⟩

theorem initValues_good {q : QP} (hq : q.WF) {y : List ℚ} (hl : q.numVars ≤ y.length) {V : String → ℚ}
    (hV : ∀ n ∈ q.vars.map Variable.name, V n = nameVal q.varsIndex (pt y) n) :
    ∃ vals, initValues q.vars (some y) = .ok vals ∧ Chain.Good q V vals := by
  have hk : Assoc.keys ((q.vars.map Variable.name).zip y) = q.vars.map Variable.name :=
    List.map_fst_zip (by simpa [QP.numVars] using hl)
  have hnk : (Assoc.keys ((q.vars.map Variable.name).zip y)).Nodup := by rw [hk]; exact hq.cons.vars.2
  refine ⟨(q.vars.map Variable.name).zip y, ?_, ?_, ?_⟩
  · unfold initValues
    simp only
    rw [if_neg (by simpa [QP.numVars] using hl), ofEntries_of_nodup _ hnk]
  · intro n v hn
    obtain ⟨i, hi⟩ := List.mem_iff_getElem?.mp (Assoc.get?_mem hn)
    rw [List.getElem?_zip_eq_some] at hi
    obtain ⟨h1, h2⟩ := hi
    rw [List.getElem?_map] at h1
    cases hv : q.vars[i]? with
    | none => simp [hv] at h1
    | some w =>
      simp only [hv, Option.map_some, Option.some.injEq] at h1
      rw [hV n (h1 ▸ List.mem_map_of_mem (List.mem_of_getElem? hv)), ← h1, nameVal_at hq.cons hv]
      simp [pt, List.getD_eq_getElem?_getD, h2]
  · intro n hn
    rw [← Assoc.mem_keys_iff, hk]
    exact hn

/-- The point, the replacements and the reduced program in terms of one assignment of values to names. -/
theorem unroll_values {ref q : QP} {l : Replacements} (hch : Chain ref l q) (hw : ref.WF) {y : List ℚ}
    (hl : q.numVars ≤ y.length) :
    ∃ V : String → ℚ, unroll l q ref (some y) = .ok (ref.vars.map fun v => V v.name) ∧
      (∀ e ∈ l, V e.1 = replaced e.2.2 (V e.2.1)) ∧
      ∀ a w, q.vars[a]? = some w → V w.name = pt y a := by
  obtain ⟨hq, _, _⟩ := hch.wf hw
  obtain ⟨V, h1, h2⟩ := hch.extend (nameVal q.varsIndex (pt y))
  obtain ⟨vals, hv, hg⟩ := initValues_good hq hl h1
  obtain ⟨vals', a, b, _, d⟩ := hch.unrollLoop_ok V h2 ref.vars vals (fun v hv => List.mem_map_of_mem hv) hg
  refine ⟨V, ?_, h2, ?_⟩
  · simp only [unroll, hv, a]
    exact collectValues_ok b.1 _ d
  · intro k w hk
    rw [h1 _ (List.mem_map_of_mem (List.mem_of_getElem? hk)), nameVal_at hq.cons hk]

theorem pt_map_name (vars : List Variable) (V : String → ℚ) {k : Nat} {v : Variable} (h : vars[k]? = some v) :
    pt (vars.map fun v => V v.name) k = V v.name := by
  simp [pt, List.getD_eq_getElem?_getD, h]

theorem unroll_length {ref q : QP} {l : Replacements} {y x : List ℚ} (h : unroll l q ref (some y) = .ok x) :
    q.numVars ≤ y.length := by
  by_contra hh
  simp only [unroll, initValues] at h
  rw [if_pos (by simpa [QP.numVars] using hh)] at h
  simp at h

/-- A replacement is justified by the samples that the optimizer reports for some program: it is between the variables
`i` and `j` of that program, no pair has a stronger correlation, and the sign is that of the correlation (no correlation
counts as negative). -/
def Justified (solver : Nat → QP → Except Err Result) (e : String × String × Int) : Prop :=
  ∃ t q res n i j vi vj, solver t q = .ok res ∧ correlationSize res.samples = .ok n ∧ q.vars[i]? = some vi ∧
    q.vars[j]? = some vj ∧ vi.name = e.1 ∧ vj.name = e.2.1 ∧
    (2 ≤ n → ∀ a < n, ∀ b < n, a ≠ b → |correlation res.samples a b| ≤ |correlation res.samples i j|) ∧
    e.2.2 = if 0 < correlation res.samples i j then 1 else -1

theorem reduceStep_justified {solver : Nat → QP → Except Err Result} {t : Nat} {p : QP} {res : Result}
    (hs : solver t p = .ok res) {p' q : QP} {xi xj : String} {s : Int}
    (h : reduceStep res.samples p = .ok (p', q, xi, xj, s)) : Justified solver (xi, xj, s) := by
  unfold reduceStep at h
  cases hn : correlationSize res.samples with
  | error e => simp [hn] at h
  | ok n =>
    cases hij : strongest res.samples n with
    | error e => simp [hn, hij] at h
    | ok ij =>
      obtain ⟨i, j⟩ := ij
      simp only [hn, hij] at h
      have hst : 2 ≤ n → ∀ a < n, ∀ b < n, a ≠ b →
          |correlation res.samples a b| ≤ |correlation res.samples i j| := fun h2 => (C30_strongest _ n i j h2 hij).2.2.2
      split at h
      · rename_i vi vj hvi hvj
        by_cases hc : correlation res.samples i j > 0
        · rw [if_pos hc] at h
          split at h
          · simp at h
          · split at h
            · simp at h
            · simp only [Except.ok.injEq, Prod.mk.injEq] at h
              obtain ⟨_, _, rfl, rfl, rfl⟩ := h
              exact ⟨t, p, res, n, i, j, vi, vj, hs, hn, hvi, hvj, rfl, rfl, hst, (if_pos hc).symm⟩
        · rw [if_neg hc] at h
          split at h
          · simp at h
          · split at h
            · simp at h
            · split at h
              · simp at h
              · simp only [Except.ok.injEq, Prod.mk.injEq] at h
                obtain ⟨_, _, rfl, rfl, rfl⟩ := h
                exact ⟨t, p, res, n, i, j, vi, vj, hs, hn, hvi, hvj, rfl, rfl, hst, (if_neg hc).symm⟩
      · simp at h

theorem reduceLoop_justified {solver : Nat → QP → Except Err Result} {m : Nat} : ∀ (fuel t : Nat) (p : QP)
    (reps : Replacements) (r : QP) (reps' : Replacements),
    reduceLoop solver m fuel t p reps = some (.ok (r, reps')) → ∀ e ∈ reps', e ∈ reps ∨ Justified solver e := by
  intro fuel
  induction fuel with
  | zero => intro t p reps r reps' h; simp [reduceLoop] at h
  | succ fuel ih =>
    intro t p reps r reps' h
    rw [reduceLoop] at h
    split at h
    · cases h1 : solver t p with
      | error e => simp [h1] at h
      | ok res =>
        cases h2 : reduceStep res.samples p with
        | error e => simp [h1, h2] at h
        | ok st =>
          obtain ⟨p', q, xi, xj, s⟩ := st
          simp only [h1, h2] at h
          intro e he
          rcases ih _ _ _ _ _ h e he with h3 | h3
          · rcases (Assoc.mem_set h3).symm with h4 | h4
            · exact Or.inl h4
            · rw [h4]
              exact Or.inr (reduceStep_justified h1 h2)
          · exact Or.inr h3
    · simp only [Option.some.injEq, Except.ok.injEq, Prod.mk.injEq] at h
      rw [← h.2]
      exact fun e he => Or.inl he

/-- **C30** (sign): every recorded replacement follows the strongest correlation of the samples for some intermediate
program, "equal" if it is positive and "complementary" otherwise. -/
theorem C30_sign (solver : Nat → QP → Except Err Result) (last : QP → Except Err Result) (m : Nat)
    (converters : List Converter) (p : QP) (fuel : Nat) (r : RecResult)
    (h : recursiveSolve solver last m converters p fuel = some (.ok r)) : ∀ e ∈ r.replacements, Justified solver e := by
  have hc : ∃ ref convs, convertAll converters p = .ok (ref, convs) := by
    unfold recursiveSolve at h
    split at h
    · simp at h
    · cases hc : convertAll converters p with
      | error e => simp [hc] at h
      | ok rc => exact ⟨rc.1, rc.2, rfl⟩
  obtain ⟨ref, convs, hc⟩ := hc
  intro e he
  rcases reduceLoop_justified _ _ _ _ _ _ (recursiveSolve_inv h hc).1 e he with h1 | h1
  · simp at h1
  · exact h1

/-- **C30** (unrolling): a variable of the converted program either remains or is replaced, never both; remaining
variables get the value computed for the reduced program, and every recorded replacement holds between the final
values: equal for sign 1, complementary for sign -1 (the only signs).  The returned point is the interpretation. -/
theorem C30_unroll (solver : Nat → QP → Except Err Result) (last : QP → Except Err Result) (m : Nat)
    (converters : List Converter) (p : QP) (fuel : Nat) (r : RecResult) (ref : QP) (convs : List Interp)
    (h : recursiveSolve solver last m converters p fuel = some (.ok r))
    (hc : convertAll converters p = .ok (ref, convs)) (hw : ref.WF)
    (hn : "__CONSTANT__" ∉ ref.vars.map Variable.name) (y : List ℚ) (hy : r.reducedResult.x = some y) :
    r.point.length = ref.numVars ∧ r.reduced.numVars ≤ m ∧
      (∀ s, s ∈ ref.vars.map Variable.name ↔
        (s ∈ r.reduced.vars.map Variable.name ∨ s ∈ r.replacements.map Prod.fst)) ∧
      (∀ s ∈ r.replacements.map Prod.fst, s ∉ r.reduced.vars.map Variable.name) ∧
      (∀ k a v w, ref.vars[k]? = some v → r.reduced.vars[a]? = some w → v.name = w.name →
        pt r.point k = pt y a) ∧
      (∀ e ∈ r.replacements, ∃ k l v w, ref.vars[k]? = some v ∧ ref.vars[l]? = some w ∧ v.name = e.1 ∧
        w.name = e.2.1 ∧ ((e.2.2 = 1 ∧ pt r.point k = pt r.point l) ∨
          (e.2.2 = -1 ∧ pt r.point k = 1 - pt r.point l))) ∧
      ∀ z, r.result.x = some z → Interprets convs r.point z := by
  obtain ⟨h1, _, h3, _, h5⟩ := recursiveSolve_inv h hc
  obtain ⟨hm, l, hl, hch⟩ := reduceLoop_chain _ _ _ _ _ _ hw hn (by simp [Assoc.keys]) h1
  rw [List.nil_append] at hl
  subst hl
  rw [hy] at h3
  obtain ⟨V, hV, hrep, hkept⟩ := unroll_values hch hw (unroll_length h3)
  rw [hV, Except.ok.injEq] at h3
  obtain ⟨n1, n2, n3, n4⟩ := hch.names
  refine ⟨by rw [← h3]; simp [QP.numVars], hm, n1, n2, ?_, ?_, ?_⟩
  · intro k a v w hv hw' hnm
    rw [← h3, pt_map_name _ _ hv, hnm, hkept a w hw']
  · intro e he
    obtain ⟨v, hv, hv'⟩ := List.mem_map.mp ((n1 e.1).mpr (Or.inr (List.mem_map_of_mem he)))
    obtain ⟨w, hw', hw''⟩ := List.mem_map.mp (n4 e he)
    obtain ⟨k, hk⟩ := List.mem_iff_getElem?.mp hv
    obtain ⟨l, hl⟩ := List.mem_iff_getElem?.mp hw'
    refine ⟨k, l, v, w, hk, hl, hv', hw'', ?_⟩
    rw [← h3, pt_map_name _ _ hk, pt_map_name _ _ hl, hv', hw'', hrep e he]
    rcases hch.signs e he with hs | hs
    · exact Or.inl ⟨hs, by simp [replaced, hs]⟩
    · exact Or.inr ⟨hs, by simp [replaced, hs]⟩
  · intro z hz
    rw [interprets_iff]
    unfold interpretResult at h5
    cases h0 : interpretAll convs r.point with
    | error e => simp [h0] at h5
    | ok x =>
      cases h6 : r.callers.objective.evaluate x with
      | error e => simp [h0, h6] at h5
      | ok fval =>
        cases h7 : feasibilityStatus r.callers x with
        | error e => simp [h0, h6, h7] at h5
        | ok st =>
          simp only [h0, h6, h7, Result.mk?] at h5
          split at h5
          · simp at h5
          · simp only [Except.ok.injEq] at h5
            rw [← h5] at hz
            simpa using hz

/-- **C30** (objective, every program): at a point of the reduced program with coordinates in `[0, 1]` the reduced
objective differs from the objective of the converted program at the unrolled point by at most `N² / 10¹⁰`, where
`N` is the number of variables.  Full statement: they are equal.  Missing (false by `C30_violated`): programs with
coefficients of size about `10⁻¹⁰`, which are dropped; see `C30_objective_exact` for the others. -/
theorem C30_objective_partial (solver : Nat → QP → Except Err Result) (last : QP → Except Err Result) (m : Nat)
    (converters : List Converter) (p : QP) (fuel : Nat) (r : RecResult) (ref : QP) (convs : List Interp)
    (h : recursiveSolve solver last m converters p fuel = some (.ok r))
    (hc : convertAll converters p = .ok (ref, convs)) (hw : ref.WF)
    (hn : "__CONSTANT__" ∉ ref.vars.map Variable.name) (y : List ℚ) (hy : r.reducedResult.x = some y)
    (hb : ∀ a < r.reduced.numVars, 0 ≤ pt y a ∧ pt y a ≤ 1) :
    r.reduced.objective.sense = ref.objective.sense ∧
    |ref.objective.val (pt r.point) - r.reduced.objective.val (pt y)| ≤ (ref.numVars : ℚ) ^ 2 / 10 ^ 10 := by
  obtain ⟨h1, _, h3, _, _⟩ := recursiveSolve_inv h hc
  obtain ⟨hm, l, hl, hch⟩ := reduceLoop_chain _ _ _ _ _ _ hw hn (by simp [Assoc.keys]) h1
  rw [List.nil_append] at hl
  subst hl
  rw [hy] at h3
  obtain ⟨V, hV, hrep, hkept⟩ := unroll_values hch hw (unroll_length h3)
  rw [hV, Except.ok.injEq] at h3
  obtain ⟨hq, hlen, hs⟩ := hch.wf hw
  refine ⟨hs, ?_⟩
  have e1 : ref.objective.val (pt r.point) = ref.objective.val (ptOf ref V) := by
    refine Objective.val_agree hw.objLin hw.objQuad ?_
    intro k hk
    obtain ⟨v, hv, hvn⟩ := varName_mem hk
    rw [← h3, pt_map_name _ _ hv, ptOf, hvn]
  have e2 : r.reduced.objective.val (pt y) = r.reduced.objective.val (ptOf r.reduced V) := by
    refine Objective.val_agree hq.objLin hq.objQuad ?_
    intro k hk
    obtain ⟨v, hv, hvn⟩ := varName_mem hk
    rw [ptOf, hvn, hkept k v hv]
  rw [e1, e2]
  refine le_trans (hch.close hw V hrep ?_) ?_
  · intro n hn
    obtain ⟨w, hw', rfl⟩ := List.mem_map.mp hn
    obtain ⟨a, ha⟩ := List.mem_iff_getElem?.mp hw'
    rw [hkept a w ha]
    exact hb a (List.getElem?_eq_some_iff.mp ha).1
  · have hle : (r.replacements.length : ℚ) ≤ ref.numVars := by
      exact_mod_cast (by omega : r.replacements.length ≤ ref.numVars)
    have h0 : (0 : ℚ) ≤ ref.numVars / 10 ^ 10 := by positivity
    calc (r.replacements.length : ℚ) * (ref.numVars / 10 ^ 10) ≤ ref.numVars * (ref.numVars / 10 ^ 10) :=
        mul_le_mul_of_nonneg_right hle h0
      _ = _ := by ring

/-- All coefficients of the objective are multiples of `g`. -/
def Objective.MultiplesOf (g : ℚ) (o : Objective) : Prop :=
  (∃ z : Int, o.constant = g * z) ∧ (∀ q ∈ o.linear.coeffs, ∃ z : Int, q.2 = g * z) ∧
    ∀ q ∈ o.quadratic.coeffs, ∃ z : Int, q.2 = g * z

theorem sum_quant {κ : Type} (d : Dict κ) (g : ℚ) (f : κ → ℚ) (hd : ∀ q ∈ d, ∃ z : Int, q.2 = g * z)
    (hf : ∀ k, ∃ z : Int, f k = z) : ∃ z : Int, Dict.sum d f = g * z := by
  induction d with
  | nil => exact ⟨0, by simp [Dict.sum]⟩
  | cons q d ih =>
    obtain ⟨a, ha⟩ := ih fun q hq => hd q (by simp [hq])
    obtain ⟨b, hb⟩ := hd q (by simp)
    obtain ⟨c, hc⟩ := hf q.1
    refine ⟨b * c + a, ?_⟩
    simp only [Dict.sum, List.map_cons, List.sum_cons] at ha ⊢
    rw [ha, hb, hc]; push_cast; ring

theorem Objective.MultiplesOf.quant {g : ℚ} {o : Objective} (h : o.MultiplesOf g) : Quant g o := by
  intro x hx
  obtain ⟨⟨a, ha⟩, h2, h3⟩ := h
  obtain ⟨b, hb⟩ := sum_quant o.linear.coeffs g x h2 hx
  obtain ⟨c, hc⟩ := sum_quant o.quadratic.coeffs g (fun k => x k.1 * x k.2) h3 (fun k => by
    obtain ⟨u, hu⟩ := hx k.1
    obtain ⟨v, hv⟩ := hx k.2
    exact ⟨u * v, by rw [hu, hv]; push_cast; ring⟩)
  refine ⟨a + b + c, ?_⟩
  rw [Objective.val, LinExpr.val, QuadExpr.val, ha, hb, hc]; push_cast; ring

/-- **C30** (objective, exact): if all coefficients are multiples of some `g > 2 / 10¹⁰` (for example integers), the
reduced objective at the answer for the reduced program equals the objective of the converted program at the unrolled
point. -/
theorem C30_objective_exact (solver : Nat → QP → Except Err Result) (last : QP → Except Err Result) (m : Nat)
    (converters : List Converter) (p : QP) (fuel : Nat) (r : RecResult) (ref : QP) (convs : List Interp)
    (h : recursiveSolve solver last m converters p fuel = some (.ok r))
    (hc : convertAll converters p = .ok (ref, convs)) (hw : ref.WF)
    (hn : "__CONSTANT__" ∉ ref.vars.map Variable.name) (g : ℚ) (hg : 2 / 10 ^ 10 < g)
    (hco : ref.objective.MultiplesOf g) (y : List ℚ) (hy : r.reducedResult.x = some y) :
    ref.objective.val (pt r.point) = r.reduced.objective.val (pt y) := by
  obtain ⟨h1, _, h3, _, _⟩ := recursiveSolve_inv h hc
  obtain ⟨hm, l, hl, hch⟩ := reduceLoop_chain _ _ _ _ _ _ hw hn (by simp [Assoc.keys]) h1
  rw [List.nil_append] at hl
  subst hl
  rw [hy] at h3
  obtain ⟨V, hV, hrep, hkept⟩ := unroll_values hch hw (unroll_length h3)
  rw [hV, Except.ok.injEq] at h3
  obtain ⟨hq, hlen, hs⟩ := hch.wf hw
  have e1 : ref.objective.val (pt r.point) = ref.objective.val (ptOf ref V) := by
    refine Objective.val_agree hw.objLin hw.objQuad ?_
    intro k hk
    obtain ⟨v, hv, hvn⟩ := varName_mem hk
    rw [← h3, pt_map_name _ _ hv, ptOf, hvn]
  have e2 : r.reduced.objective.val (pt y) = r.reduced.objective.val (ptOf r.reduced V) := by
    refine Objective.val_agree hq.objLin hq.objQuad ?_
    intro k hk
    obtain ⟨v, hv, hvn⟩ := varName_mem hk
    rw [ptOf, hvn, hkept k v hv]
  rw [e1, e2, hch.exact hg hco.quant V hrep]

/-- **C30** (no failure while unrolling): whatever was eliminated, unrolling succeeds for every answer with enough
coordinates. -/
theorem C30_unroll_accepts (solver : Nat → QP → Except Err Result) (m fuel : Nat) (ref q : QP) (reps : Replacements)
    (h : reduceLoop solver m fuel 0 ref [] = some (.ok (q, reps))) (hw : ref.WF)
    (hn : "__CONSTANT__" ∉ ref.vars.map Variable.name) (y : List ℚ) (hy : q.numVars ≤ y.length) :
    ∃ x, unroll reps q ref (some y) = .ok x := by
  obtain ⟨_, l, hl, hch⟩ := reduceLoop_chain _ _ _ _ _ _ hw hn (by simp [Assoc.keys]) h
  rw [List.nil_append] at hl
  subst hl
  obtain ⟨V, hV, _⟩ := unroll_values hch hw hy
  exact ⟨_, hV⟩

/-- **C30** (termination): the loop ends after at most as many iterations as there are variables. -/
theorem C30_terminates (solver : Nat → QP → Except Err Result) (last : QP → Except Err Result) (m : Nat)
    (converters : List Converter) (p : QP) (fuel : Nat)
    (hw : ∀ ref convs, convertAll converters p = .ok (ref, convs) →
      ref.WF ∧ "__CONSTANT__" ∉ ref.vars.map Variable.name ∧ ref.numVars < fuel) :
    (recursiveSolve solver last m converters p fuel).isSome := by
  unfold recursiveSolve
  split
  · rfl
  · cases hc : convertAll converters p with
    | error e => rfl
    | ok rc =>
      obtain ⟨ref, convs⟩ := rc
      obtain ⟨a, b, c⟩ := hw ref convs hc
      have := reduceLoop_total (solver := solver) (m := m) fuel 0 ref [] a b c
      obtain ⟨e, he⟩ := Option.isSome_iff_exists.mp this
      simp only [he]
      cases e with
      | error e => rfl
      | ok fr =>
        obtain ⟨final, reps⟩ := fr
        simp only
        cases h2 : last final with
        | error e => rfl
        | ok res =>
          simp only
          cases h3 : unroll reps final ref res.x with
          | error e => rfl
          | ok x =>
            simp only
            cases h4 : interpretResult (callersProgram solver m converters p) convs [] [] x <;> rfl

/-! ## Examples -/

/-- Three binary variables, `minimize x0 + 2 x1 - 3 x2 + 4 x0 x1 - x1 x2`. -/
def recQP : QP :=
  (runCalls (QP.empty "") [.addVars (.count 3) 0 1 .binary (some "b") (.hole "" ""),
    .objective .minimize 0 (.dict [(.idx 0, 1), (.idx 1, 2), (.idx 2, -3)])
      (.dict [((.idx 0, .idx 1), 4), ((.idx 1, .idx 2), -1)])]).2

/-- An optimizer that returns the given samples in turn. -/
def recSolver (l : List (List ℚ)) (t : Nat) (p : QP) : Except Err Result :=
  .ok ⟨none, none, p.vars, none, .success, [⟨l.getD t [], 0, 1, .success⟩], []⟩

/-- An optimizer that returns a given point. -/
def recLast (x : List ℚ) (p : QP) : Except Err Result := .ok ⟨some x, none, p.vars, none, .success, [], []⟩

/-- A run of the recursive optimizer. -/
def recRun (l : List (List ℚ)) (y : List ℚ) (converters : List Converter) (p : QP) : Option RecResult :=
  match recursiveSolve (recSolver l) (recLast y) 1 converters p 10 with
  | some (.ok r) => some r
  | _ => none

/-- The hypotheses of the C30 theorems: two eliminations, `b1 = 1 - b0` and then `b2 = b0`. -/
example : (∃ ref convs, (convertAll [quboConverter none] recQP).toOption = some (ref, convs) ∧
      ref.WF ∧ CONST ∉ ref.vars.map Variable.name ∧ ref.objective.constant = 0 ∧
      ref.objective.linear.coeffs = [(0, 1), (1, 2), (2, -3)]) ∧
    (recRun [[1, 0, 1], [0, 0]] [0] [quboConverter none] recQP).map (fun r => (r.point, r.replacements)) =
      some ([0, 1, 0], [("b1", "b0", -1), ("b2", "b0", 1)]) := by
  refine ⟨?_, by decide +kernel⟩
  cases h : convertAll [quboConverter none] recQP with
  | error e =>
    have : (convertAll [quboConverter none] recQP).isOk = true := by decide +kernel
    simp [h, Except.isOk, Except.toBool] at this
  | ok rc =>
    obtain ⟨ref, convs⟩ := rc
    have h1 : ∀ ref' convs', convertAll [quboConverter none] recQP = .ok (ref', convs') →
        ((convertAll [quboConverter none] recQP).toOption.map Prod.fst).getD (QP.empty "") = ref' := by
      intro a b hab; rw [hab]; rfl
    refine ⟨ref, convs, rfl, ?_⟩
    rw [← h1 ref convs h]
    decide +kernel

/-! ## C30 fails for tiny coefficients -/

/-- Two binary variables, `minimize b0 / 10¹¹`. -/
def tinyQP : QP :=
  (runCalls (QP.empty "") [.addVars (.count 2) 0 1 .binary (some "b") (.hole "" ""),
    .objective .minimize 0 (.dict [(.idx 0, 1 / 10 ^ 11)]) (.dict [])]).2

/-- Reads a property off a computed run. -/
theorem run_check {o : Option (Except Err RecResult)} {P : RecResult → Prop} [DecidablePred P]
    (h : (match o with | some (.ok r) => decide (P r) | _ => false) = true) : ∃ r, o = some (.ok r) ∧ P r := by
  cases o with
  | none => simp at h
  | some e =>
    cases e with
    | error e => simp at h
    | ok r => exact ⟨r, rfl, by simpa using h⟩

/-- **C30 fails** for tiny coefficients: the reduced objective is 0 at the answer, the objective of the program before
the reduction is `10⁻¹¹` at the unrolled point. -/
theorem C30_violated : ∃ (samples : List Sample) (p : QP) (r : RecResult), p.WF ∧
    recursiveSolve (fun _ q => .ok ⟨none, none, q.vars, none, .success, samples, []⟩) (recLast [1]) 1
      [quboConverter none] p 10 = some (.ok r) ∧
    r.reduced.objective.evaluate [1] = .ok 0 ∧ r.point = [1, 0] ∧ p.objective.evaluate r.point = .ok (1 / 10 ^ 11) := by
  obtain ⟨r, h1, h2⟩ := run_check (o := recursiveSolve (fun _ q => .ok ⟨none, none, q.vars, none, .success,
      [⟨[1, 0], 0, 1, .success⟩], []⟩) (recLast [1]) 1 [quboConverter none] tinyQP 10)
    (P := fun r => r.reduced.objective.evaluate [1] = .ok 0 ∧ r.point = [1, 0] ∧
      tinyQP.objective.evaluate r.point = .ok (1 / 10 ^ 11)) (by decide +kernel)
  exact ⟨_, tinyQP, r, by decide +kernel, h1, h2⟩

/-! ## C59 -/

theorem chain_domain {p r : QP} {l : Replacements} (hch : Chain p l r)
    (hs : ∀ e ∈ l, e.2.2 = 1)
    (hp : ∀ V : String → ℚ, (∀ e ∈ l, V e.1 = V e.2.1) → (∀ n ∈ p.vars.map Variable.name, 0 ≤ V n ∧ V n ≤ 1) →
      p.InBounds (ptOf p V) ∧ p.Sat (ptOf p V)) :
    ∀ V : String → ℚ, (∀ n ∈ r.vars.map Variable.name, 0 ≤ V n ∧ V n ≤ 1) →
      r.InBounds (ptOf r V) ∧ r.Sat (ptOf r V) := by
  induction hch with
  | nil p => exact fun V hV => hp V (by simp) hV
  | cons p q r xi xj s l sf ch ih =>
    have hinf : (1 : ℚ) < INFINITY := by norm_num [INFINITY]
    have hs1 : s = 1 := hs (xi, xj, s) (by simp)
    obtain ⟨n1, n2, n3, n4⟩ := ch.names
    have hxi : xi ∉ q.vars.map Variable.name := fun h => ((sf.mem xi).mp h).2 rfl
    have hbd : ∀ v ∈ p.vars, v.lb < INFINITY ∧ -INFINITY < v.ub := by
      intro v hv
      obtain ⟨k, hk⟩ := List.mem_iff_getElem?.mp hv
      have := (hp (fun _ => 0) (by simp) (by simp)).1 k v hk
      simp only [ptOf] at this
      constructor <;> linarith [this.1, this.2]
    refine ih (fun e he => hs e (by simp [he])) ?_
    intro V h1 h2
    have hxj : xj ≠ xi := fun h => hxi (h ▸ sf.target)
    obtain ⟨W, hW⟩ : ∃ W : String → ℚ, W = Function.update V xi (V xj) := ⟨_, rfl⟩
    have hWo : ∀ n ∈ q.vars.map Variable.name, W n = V n := by
      intro n hn
      rw [hW, Function.update_of_ne]
      rintro rfl
      exact hxi hn
    have hWx : W xi = W xj := by rw [hWo xj sf.target, hW, Function.update_self]
    have hWr : ∀ n ∈ p.vars.map Variable.name, 0 ≤ W n ∧ W n ≤ 1 := by
      intro n hn
      by_cases h : n = xi
      · rw [h, hWx, hWo xj sf.target]
        exact h2 xj sf.target
      · have := (sf.mem n).mpr ⟨hn, h⟩
        rw [hWo n this]
        exact h2 n this
    have hq := (sf.domPos hs1 hbd W hWx (fun n hn => by
      rw [abs_le]; constructor <;> linarith [(hWr n hn).1, (hWr n hn).2])).mpr (hp W (by
        intro e he
        rcases List.mem_cons.mp he with rfl | he
        · exact hWx
        · rw [hWo e.1 ((n1 e.1).mpr (Or.inr (List.mem_map_of_mem he))), hWo e.2.1 (n4 e he)]
          exact h1 e he) hWr)
    have hcg : ∀ k < q.numVars, ptOf q W k = ptOf q V k := by
      intro k hk
      obtain ⟨v, hv, hvn⟩ := varName_mem hk
      simp only [ptOf, hvn]
      exact hWo _ (List.mem_map_of_mem (List.mem_of_getElem? hv))
    refine ⟨fun k v hv => ?_, (QP.sat_congr sf.wf hcg).mp hq.2⟩
    rw [← hcg k (List.getElem?_eq_some_iff.mp hv).1]
    exact hq.1 k v hv

/-- **C59** (correlated eliminations only): if the program before the reduction has no constraints and no bounds inside
`[0, 1]` and all eliminations identify variables, every assignment of the remaining variables in `[0, 1]` is feasible
for the reduced program (bounds and constraints).
Full statement: the same for all eliminations.  Missing (false by `C59_violated`): eliminations `x_i = 1 - x_j`. -/
theorem C59_domain_partial (solver : Nat → QP → Except Err Result) (m fuel : Nat) (ref q : QP) (reps : Replacements)
    (h : reduceLoop solver m fuel 0 ref [] = some (.ok (q, reps))) (hw : ref.WF)
    (hn : "__CONSTANT__" ∉ ref.vars.map Variable.name) (hlin : ref.lins = []) (hquad : ref.quads = [])
    (hb : ∀ v ∈ ref.vars, v.lb ≤ 0 ∧ 1 ≤ v.ub) (hs : ∀ e ∈ reps, e.2.2 = 1) (y : List ℚ)
    (hy : ∀ a < q.numVars, 0 ≤ pt y a ∧ pt y a ≤ 1) : q.InBounds (pt y) ∧ q.Sat (pt y) := by
  obtain ⟨_, l, hl, hch⟩ := reduceLoop_chain _ _ _ _ _ _ hw hn (by simp [Assoc.keys]) h
  rw [List.nil_append] at hl
  subst hl
  obtain ⟨hq, _, _⟩ := hch.wf hw
  have hag : ∀ k < q.numVars, ptOf q (nameVal q.varsIndex (pt y)) k = pt y k := by
    intro k hk
    obtain ⟨v, hv, hvn⟩ := varName_mem hk
    rw [ptOf, hvn, nameVal_at hq.cons hv]
  have := chain_domain hch hs (fun V _ hV => ⟨fun k v hv => by
      have h1 := hb v (List.mem_of_getElem? hv)
      have h2 := hV v.name (List.mem_map_of_mem (List.mem_of_getElem? hv))
      rw [ptOf, varName_some hv]
      constructor <;> linarith [h1.1, h1.2, h2.1, h2.2], by
        intro c hc
        simp [QP.allCsts, hlin, hquad] at hc⟩)
    (nameVal q.varsIndex (pt y)) (fun n hn => by
      obtain ⟨w, hw', rfl⟩ := List.mem_map.mp hn
      obtain ⟨a, ha⟩ := List.mem_iff_getElem?.mp hw'
      rw [nameVal_at hq.cons ha]
      exact hy a (List.getElem?_eq_some_iff.mp ha).1)
  refine ⟨fun k v hv => ?_, (QP.sat_congr hq hag).mp this.2⟩
  rw [← hag k (List.getElem?_eq_some_iff.mp hv).1]
  exact this.1 k v hv

/-- **C59** (what goes wrong): after an elimination `x_i = 1 - x_j` in a program with non-negative variables, no
feasible point of the new program has a positive value of `x_j`. -/
theorem C59_anticorrelated (samples : List Sample) (p p' q : QP) (xi xj : String)
    (h : reduceStep samples p = .ok (p', q, xi, xj, -1)) (hw : p.WF)
    (hn : "__CONSTANT__" ∉ p.vars.map Variable.name)
    (hb : ∀ v ∈ p.vars, 0 ≤ v.lb ∧ v.lb < INFINITY ∧ -INFINITY < v.ub) (y : List ℚ)
    (hy : ∀ a < q.numVars, |pt y a| ≤ INFINITY) (hf : q.InBounds (pt y) ∧ q.Sat (pt y)) :
    ∀ a w, q.vars[a]? = some w → w.name = xj → pt y a ≤ 0 := by
  have sf := reduceStep_facts hw hn h
  have hag : ∀ k < q.numVars, ptOf q (nameVal q.varsIndex (pt y)) k = pt y k := by
    intro k hk
    obtain ⟨v, hv, hvn⟩ := varName_mem hk
    rw [ptOf, hvn, nameVal_at sf.wf.cons hv]
  have := sf.domNeg rfl hb (nameVal q.varsIndex (pt y)) (fun n hn => by
      obtain ⟨w, hw', rfl⟩ := List.mem_map.mp hn
      obtain ⟨a, ha⟩ := List.mem_iff_getElem?.mp hw'
      rw [nameVal_at sf.wf.cons ha]
      exact hy a (List.getElem?_eq_some_iff.mp ha).1)
    (fun k v hv => by
      rw [hag k (List.getElem?_eq_some_iff.mp hv).1]
      exact hf.1 k v hv) ((QP.sat_congr sf.wf hag).mpr hf.2)
  rintro a w ha rfl
  rwa [nameVal_at sf.wf.cons ha] at this

/-- `maximize b0 - b1` with two binary variables. -/
def antiQP : QP :=
  (runCalls (QP.empty "") [.addVars (.count 2) 0 1 .binary (some "b") (.hole "" ""),
    .objective .maximize 0 (.dict [(.idx 0, 1), (.idx 1, -1)]) (.dict [])]).2

/-- **C59 fails**: for `maximize b0 - b1` the first optimizer reports the optimum `(1, 0)` with probability 1 and the
second one an optimal feasible point of the reduced program, but the answer is `(0, 1)` with value -1: the reduced
program forces `b0` to 0. -/
theorem C59_violated : ∃ (samples : List Sample) (p : QP) (r : RecResult), p.WF ∧
    samples.map Sample.x = [[1, 0]] ∧ p.isFeasible [1, 0] = .ok true ∧ p.objective.evaluate [1, 0] = .ok 1 ∧
    p.objective.sense = .maximize ∧
    recursiveSolve (fun _ q => .ok ⟨none, none, q.vars, none, .success, samples, []⟩) (recLast [0]) 1
      [quboConverter none] p 10 = some (.ok r) ∧
    OptimalIn r.reduced.Feas r.reduced.objective (pt [0]) ∧
    r.result.x = some [0, 1] ∧ r.result.fval = some (-1) := by
  obtain ⟨r, h1, h2, h3, h4, h5, h6, h7⟩ := run_check
    (o := recursiveSolve (fun _ q => .ok ⟨none, none, q.vars, none, .success,
      [⟨[1, 0], 1, 1, .success⟩], []⟩) (recLast [0]) 1 [quboConverter none] antiQP 10)
    (P := fun r => r.reduced.vars = [⟨"b0", 0, 0, .binary⟩] ∧ r.reduced.lins = [] ∧ r.reduced.quads = [] ∧
      r.result.x = some [0, 1] ∧ r.result.fval = some (-1) ∧
      r.reduced.objective = ⟨-1, ⟨1, [(0, 2)]⟩, ⟨1, []⟩, .maximize⟩) (by decide +kernel)
  refine ⟨_, antiQP, r, by decide +kernel, by decide +kernel, by decide +kernel, by decide +kernel, by decide +kernel,
    h1, ⟨⟨?_, ?_, ?_⟩, ?_⟩, h5, h6⟩
  · intro k v hv
    rw [h2] at hv
    match k, hv with
    | 0, hv => cases hv; simp [pt]
  · intro k v _ _
    match k with
    | 0 => exact ⟨0, by simp [pt]⟩
    | k + 1 => exact ⟨0, by simp [pt]⟩
  · intro c hc
    simp [QP.allCsts, h3, h4] at hc
  · intro y hy
    have := hy.1 0 _ (by rw [h2]; rfl)
    have hy0 : y 0 = 0 := le_antisymm this.2 this.1
    simp [h7, Objective.val, LinExpr.val, QuadExpr.val, Dict.sum, hy0, pt]

/-! ## C60 -/

/-- **C60** (with converters): the caller's program is unchanged and the reported value is its value at the reported
point.  Full statement: the same for every list of converters.  Missing (false by `C60_violated`): the empty list. -/
theorem C60_value_partial (solver : Nat → QP → Except Err Result) (last : QP → Except Err Result) (m : Nat)
    (converters : List Converter) (p : QP) (fuel : Nat) (r : RecResult) (hne : converters ≠ [])
    (h : recursiveSolve solver last m converters p fuel = some (.ok r)) :
    r.callers = p ∧ ∃ x v, r.result.x = some x ∧ r.result.fval = some v ∧ p.objective.evaluate x = .ok v := by
  cases hc : convertAll converters p with
  | error e =>
    unfold recursiveSolve at h
    split at h
    · simp at h
    · simp [hc] at h
  | ok rc =>
    obtain ⟨ref, convs⟩ := rc
    obtain ⟨_, _, _, h4, h5⟩ := recursiveSolve_inv h hc
    have h6 : r.callers = p := by
      rw [h4, callersProgram, if_neg]
      simp [hne]
    refine ⟨h6, ?_⟩
    rw [h6] at h5
    unfold interpretResult at h5
    cases h0 : interpretAll convs r.point with
    | error e => simp [h0] at h5
    | ok x =>
      cases h6 : p.objective.evaluate x with
      | error e => simp [h0, h6] at h5
      | ok fval =>
        cases h7 : feasibilityStatus p x with
        | error e => simp [h0, h6, h7] at h5
        | ok st =>
          simp only [h0, h6, h7, Result.mk?] at h5
          split at h5
          · simp at h5
          · simp only [Except.ok.injEq] at h5
            rw [← h5]
            exact ⟨x, fval, rfl, rfl, h6⟩

/-- **C60 fails** without converters: for `maximize b0 - b1` the program of the caller has the constant -1 after the
call, and the reported value of the point `(0, 1)` is -2 instead of -1. -/
theorem C60_violated : ∃ (samples : List Sample) (p : QP) (r : RecResult), p.WF ∧
    p.objective.constant = 0 ∧ p.objective.evaluate [0, 1] = .ok (-1) ∧
    recursiveSolve (fun _ q => .ok ⟨none, none, q.vars, none, .success, samples, []⟩) (recLast [0]) 1
      [] p 10 = some (.ok r) ∧
    r.result.x = some [0, 1] ∧ r.result.fval = some (-2) ∧ r.callers.objective.constant = -1 := by
  obtain ⟨r, h1, h2⟩ := run_check
    (o := recursiveSolve (fun _ q => .ok ⟨none, none, q.vars, none, .success,
      [⟨[1, 0], 1, 1, .success⟩], []⟩) (recLast [0]) 1 [] antiQP 10)
    (P := fun r => r.result.x = some [0, 1] ∧ r.result.fval = some (-2) ∧ r.callers.objective.constant = -1)
    (by decide +kernel)
  exact ⟨_, antiQP, r, by decide +kernel, by decide +kernel, by decide +kernel, h1, h2⟩

/-- The hypotheses of `C59_domain_partial` and `C60_value_partial` on a run with two identifications. -/
example : recQP.WF ∧ recQP.lins = [] ∧ recQP.quads = [] ∧ (∀ v ∈ recQP.vars, v.lb ≤ 0 ∧ 1 ≤ v.ub) ∧
    ((reduceLoop (recSolver [[1, 1, 0], [0, 0]]) 1 10 0 recQP []).map fun e => e.toOption.map Prod.snd) =
      some (some [("b1", "b0", 1), ("b2", "b0", 1)]) ∧
    (recRun [[1, 1, 0], [0, 0]] [1] [quboConverter none] recQP).map (fun r => (r.result.x, r.result.fval)) =
      some (some [1, 1, 1], some 3) := by decide +kernel

end Verif
