import Verif.AdmmLemmas

/-!
# Lemmas on the ADMM iterations: what the recorded lists contain
-/

namespace Verif

/-- The values of the variables after the three steps of an iteration, the penalty and the multipliers used in it. -/
structure Iterate where
  x0 : List ℚ
  u : List ℚ
  z : List ℚ
  y : List ℚ
  rho : ℚ
  lam : List ℚ

/-- The multipliers after an iteration: `lam + rho * (x0 - z - y)`, with `m` entries. -/
def Iterate.nextLam (m : Nat) (h : Iterate) : List ℚ :=
  (List.range m).map fun i => pt h.lam i + h.rho * (pt h.x0 i - pt h.z i - pt h.y i)

/-- Difference of two vectors. -/
def vsub (a b : List ℚ) : List ℚ := List.zipWith (· - ·) a b

/-- What is recorded about iteration `k`, in which the variables had the values `h`. -/
structure IterFacts (norm : List ℚ → ℚ) (prm : AdmmParams) (p : QP) (s : AdmmState) (k : Nat) (h : Iterate) : Prop where
  lx : h.x0.length = p.countType .binary
  lz : h.z.length = p.countType .binary
  ly : h.y.length = p.countType .binary
  lu : h.u.length = p.countType .continuous
  point : ∃ x, Assembles p h.x0 h.u x ∧ s.costs[k]? = some (p.objective.val (pt x)) ∧
    s.consR[k]? = some (p.violation (pt x)) ∧
    s.merits[k]? = some (p.objective.val (pt x) + prm.muMerit * p.violation (pt x))
  primal : s.residuals[k]? = some (norm (vsub (vsub h.x0 h.z) h.y))
  dual : ∃ w, (k = 0 → w = List.replicate (p.countType .binary) 0) ∧ (0 < k → s.zSaved[k - 1]? = some w) ∧
    s.dualResiduals[k]? = some (h.rho * norm (vsub h.z w))

/-- `s` is a state after the iterations `hist`. -/
structure Trace (norm : List ℚ → ℚ) (prm : AdmmParams) (p : QP) (s : AdmmState) (hist : List Iterate) : Prop where
  x0s : s.x0Saved = hist.map Iterate.x0
  us : s.uSaved = hist.map Iterate.u
  zs : s.zSaved = hist.flatMap fun h => [h.z, h.y]
  lc : s.costs.length = hist.length
  lr : s.residuals.length = hist.length
  ld : s.dualResiduals.length = hist.length
  lcr : s.consR.length = hist.length
  lm : s.merits.length = hist.length
  steps : ∀ k h, hist[k]? = some h → IterFacts norm prm p s k h
  first : ∀ h, hist[0]? = some h →
    h.rho = prm.rhoInitial ∧ h.lam = List.replicate (p.countType .binary) 0
  next : ∀ k h h', hist[k]? = some h → hist[k + 1]? = some h' →
    ∃ a b, s.residuals[k]? = some a ∧ s.dualResiduals[k]? = some b ∧ h'.rho = updateRho prm h.rho a b ∧
      h'.lam = h.nextLam (p.countType .binary)
  rhoInit : hist = [] → s.rho = prm.rhoInitial ∧ s.lam = List.replicate (p.countType .binary) 0
  rhoLast : ∀ h, hist.getLast? = some h →
    ∃ a b, s.residuals[hist.length - 1]? = some a ∧ s.dualResiduals[hist.length - 1]? = some b ∧
      s.rho = updateRho prm h.rho a b ∧ s.lam = h.nextLam (p.countType .binary)

/-- The current values have the right lengths. -/
structure Sized (p : QP) (s : AdmmState) : Prop where
  x0 : s.x0.length = p.countType .binary
  u : s.u.length = p.countType .continuous
  z : s.z.length = p.countType .binary
  y : s.y.length = p.countType .binary
  lam : s.lam.length = p.countType .binary

/-- The recorded lists and the penalty are the same. -/
structure SameRecord (s t : AdmmState) : Prop where
  rho : t.rho = s.rho
  lam : t.lam = s.lam
  costs : t.costs = s.costs
  residuals : t.residuals = s.residuals
  dual : t.dualResiduals = s.dualResiduals
  consR : t.consR = s.consR
  merits : t.merits = s.merits
  x0s : t.x0Saved = s.x0Saved
  us : t.uSaved = s.uSaved
  zs : t.zSaved = s.zSaved

theorem getElem?_append_some {α : Type} {l m : List α} {k : Nat} {a : α} (h : l[k]? = some a) :
    (l ++ m)[k]? = some a := by
  rw [List.getElem?_append_left (List.getElem?_eq_some_iff.mp h).1, h]

theorem getElem?_append_last {α : Type} {l : List α} {k : Nat} {a : α} (h : l.length = k) :
    (l ++ [a])[k]? = some a := by
  subst h; simp

theorem vsub_range {a b : List ℚ} {m : Nat} (ha : a.length = m) (hb : b.length = m) :
    ((List.range m).map fun i => pt a i - pt b i) = vsub a b := by
  apply List.ext_getElem (by simp [vsub, ha, hb])
  intro i h1 h2
  have hi : i < m := by simpa using h1
  simp [vsub, pt, List.getD_eq_getElem?_getD, List.getElem?_eq_getElem (ha ▸ hi : i < a.length),
    List.getElem?_eq_getElem (hb ▸ hi : i < b.length)]

theorem pt_vsub {a b : List ℚ} (h : a.length = b.length) (i : Nat) : pt (vsub a b) i = pt a i - pt b i := by
  rw [← vsub_range rfl h.symm, pt_map_range]
  split
  · rfl
  · rename_i hi
    simp [pt, List.getD_eq_getElem?_getD, List.getElem?_eq_none (not_lt.mp hi),
      List.getElem?_eq_none (h ▸ not_lt.mp hi)]

theorem vsub_length {a b : List ℚ} (h : a.length = b.length) : (vsub a b).length = a.length := by
  simp [vsub, h]

theorem splitGap_eq {s : AdmmState} {m : Nat} (hx : s.x0.length = m) (hz : s.z.length = m) (hy : s.y.length = m) :
    splitGap m s = vsub (vsub s.x0 s.z) s.y := by
  rw [← vsub_range (m := m) (by rw [vsub_length (hx.trans hz.symm), hx]) hy]
  apply List.map_congr_left
  intro i _
  rw [pt_vsub (hx.trans hz.symm)]

theorem solutionResiduals_inv {norm : List ℚ → ℚ} {m : Nat} {s : AdmmState} {it : Nat} {a b : ℚ}
    (hx : s.x0.length = m) (hz : s.z.length = m) (hy : s.y.length = m) (hs : ∀ w ∈ s.zSaved, w.length = m)
    (h : solutionResiduals norm m s it = .ok (a, b)) :
    a = norm (vsub (vsub s.x0 s.z) s.y) ∧ ∃ w, (it = 0 → w = List.replicate m 0) ∧
      (0 < it → s.zSaved[it - 1]? = some w) ∧ b = s.rho * norm (vsub s.z w) := by
  simp only [solutionResiduals] at h
  split at h
  · rename_i hit
    cases hw : s.zSaved[it - 1]? with
    | none => simp [hw] at h
    | some w =>
      simp only [hw, Except.ok.injEq, Prod.mk.injEq] at h
      rw [splitGap_eq hx hz hy] at h
      refine ⟨h.1.symm, w, fun h0 => by omega, fun _ => rfl, ?_⟩
      rw [← h.2, vsub_range hz (hs w (List.mem_of_getElem? hw))]
  · rename_i hit
    simp only [Except.ok.injEq, Prod.mk.injEq] at h
    rw [splitGap_eq hx hz hy] at h
    refine ⟨h.1.symm, _, fun _ => rfl, fun h0 => absurd h0 hit, ?_⟩
    rw [← h.2, vsub_range hz (by simp)]

theorem updateLambda_eq (m : Nat) (s : AdmmState) :
    updateLambda m s = Iterate.nextLam m ⟨s.x0, s.u, s.z, s.y, s.rho, s.lam⟩ := by
  apply List.map_congr_left
  intro i hi
  simp only [splitGap]
  rw [pt_map_range, if_pos (List.mem_range.mp hi)]

theorem admmRecord_trace {norm : List ℚ → ℚ} {prm : AdmmParams} {p : QP} {r : AdmmRep} (hr : admmRep p = .ok r)
    (hni : ∀ v ∈ p.vars, v.vartype ≠ .integer)
    {s t : AdmmState} {hist : List Iterate} {primal : ℚ} (ht : Trace norm prm p s hist) (hz : Sized p s)
    (h : admmRecord norm prm r hist.length s = .ok (t, primal)) :
    Trace norm prm p t (hist ++ [⟨s.x0, s.u, s.z, s.y, s.rho, s.lam⟩]) ∧ Sized p t ∧ t.x0 = s.x0 ∧ t.u = s.u ∧ t.z = s.z ∧
      t.y = s.y ∧ t.lam = updateLambda (p.countType .binary) s ∧ t.residuals = s.residuals ++ [primal] := by
  obtain ⟨h1, h2, h3, _⟩ := admmRep_inv hr
  have hm : r.binIdx.length = p.countType .binary := by rw [h2, variableIndices_length]
  simp only [admmRecord, hm] at h
  obtain ⟨x, hx, hasm⟩ := revertIndexes_ok hni hz.x0 hz.u
  rw [h2, h3, hx, h1] at h
  simp only at h
  cases hc : p.objective.evaluate x with
  | error e => simp [hc] at h
  | ok cost =>
  cases hcr : constraintResidual r x with
  | error e => simp [hc, hcr] at h
  | ok cr =>
  cases hsr : solutionResiduals norm (p.countType .binary)
      { s with lam := updateLambda (p.countType .binary) s } hist.length with
  | error e => simp [hc, hcr, hsr] at h
  | ok ab =>
  obtain ⟨a, b⟩ := ab
  simp only [hc, hcr, hsr, Except.ok.injEq, Prod.mk.injEq] at h
  obtain ⟨hE, rfl⟩ := h
  have hcost := (Objective.evaluate_inv hc).2.2
  have hviol := constraintResidual_inv hr hcr
  have hzs : ∀ w ∈ s.zSaved, w.length = p.countType .binary := by
    rw [ht.zs]
    intro w hw
    obtain ⟨g, hg, hw⟩ := List.mem_flatMap.mp hw
    obtain ⟨k, hk⟩ := List.mem_iff_getElem?.mp hg
    have := ht.steps k g hk
    simp only [List.mem_cons, List.not_mem_nil, or_false] at hw
    rcases hw with rfl | rfl
    · exact this.lz
    · exact this.ly
  obtain ⟨ha, w, hw0, hw1, hb⟩ := solutionResiduals_inv
    (s := { s with lam := updateLambda (p.countType .binary) s }) hz.x0 hz.z hz.y hzs hsr
  simp only at ha hw1 hb
  subst hE
  refine ⟨?_, ⟨hz.x0, hz.u, hz.z, hz.y, by simp [updateLambda]⟩, rfl, rfl, rfl, rfl, rfl, rfl⟩
  have hnew : ∀ k h, (hist ++ [(⟨s.x0, s.u, s.z, s.y, s.rho, s.lam⟩ : Iterate)])[k]? = some h →
      hist[k]? = some h ∨ (k = hist.length ∧ h = ⟨s.x0, s.u, s.z, s.y, s.rho, s.lam⟩) := by
    intro k h hk
    by_cases hkl : k < hist.length
    · left; rwa [List.getElem?_append_left hkl] at hk
    · right
      have hlt := (List.getElem?_eq_some_iff.mp hk).1
      simp only [List.length_append, List.length_singleton] at hlt
      have : k = hist.length := by omega
      subst this
      simp only [List.getElem?_concat_length, Option.some.injEq] at hk
      exact ⟨rfl, hk.symm⟩
  constructor
  case x0s => simp [ht.x0s]
  case us => simp [ht.us]
  case zs => simp [ht.zs]
  case lc => simp [ht.lc]
  case lr => simp [ht.lr]
  case ld => simp [ht.ld]
  case lcr => simp [ht.lcr]
  case lm => simp [ht.lm]
  case steps =>
    intro k h hk
    rcases hnew k h hk with hk | ⟨rfl, rfl⟩
    · have hs := ht.steps k h hk
      obtain ⟨y, y1, y2, y3, y4⟩ := hs.point
      obtain ⟨v, v1, v2, v3⟩ := hs.dual
      refine ⟨hs.lx, hs.lz, hs.ly, hs.lu, ⟨y, y1, getElem?_append_some y2, getElem?_append_some y3,
        getElem?_append_some y4⟩, getElem?_append_some hs.primal, v, v1, fun hk0 => ?_, getElem?_append_some v3⟩
      show (s.zSaved ++ [s.z] ++ [s.y])[k - 1]? = some v
      exact getElem?_append_some (getElem?_append_some (v2 hk0))
    · refine ⟨hz.x0, hz.z, hz.y, hz.u, ⟨x, hasm, ?_, ?_, ?_⟩, ?_, w, hw0, fun hk0 => ?_, ?_⟩
      · rw [← hcost]; exact getElem?_append_last ht.lc
      · rw [← hviol]; exact getElem?_append_last ht.lcr
      · rw [← hviol, ← hcost]; exact getElem?_append_last ht.lm
      · rw [← ha]; exact getElem?_append_last ht.lr
      · exact getElem?_append_some (getElem?_append_some (hw1 hk0))
      · rw [← hb]; exact getElem?_append_last ht.ld
  case first =>
    intro h hh
    rcases hnew 0 h hh with hh | ⟨hl, rfl⟩
    · exact ht.first h hh
    · exact ht.rhoInit (List.length_eq_zero_iff.mp hl.symm)
  case next =>
    intro k h h' hk hk'
    have hkl : k < hist.length := by
      have := (List.getElem?_eq_some_iff.mp hk').1
      simp only [List.length_append, List.length_singleton] at this
      omega
    rcases hnew k h hk with hk | ⟨rfl, _⟩
    · rcases hnew (k + 1) h' hk' with hk' | ⟨hl, rfl⟩
      · obtain ⟨a', b', q1, q2, q3⟩ := ht.next k h h' hk hk'
        exact ⟨a', b', getElem?_append_some q1, getElem?_append_some q2, q3⟩
      · obtain ⟨a', b', q1, q2, q3⟩ := ht.rhoLast h (by
          rw [List.getLast?_eq_getElem?, ← hl]; simpa using hk)
        rw [← hl, Nat.add_sub_cancel] at q1 q2
        exact ⟨a', b', getElem?_append_some q1, getElem?_append_some q2, q3⟩
    · omega
  case rhoInit => intro h; simp at h
  case rhoLast =>
    intro h hh
    simp only [List.getLast?_concat, Option.some.injEq] at hh
    subst hh
    refine ⟨a, b, ?_, ?_, rfl, updateLambda_eq _ _⟩
    · simp only [List.length_append, List.length_singleton, Nat.add_sub_cancel]
      exact getElem?_append_last ht.lr
    · simp only [List.length_append, List.length_singleton, Nat.add_sub_cancel]
      exact getElem?_append_last ht.ld

/-! ## The three steps -/

theorem checkedSolve_inv {solver : Solver} {t : Nat} {p : QP} {x : List ℚ} (h : checkedSolve solver t p = .ok x) :
    solver t p = .ok x ∧ x.length = p.numVars := by
  unfold checkedSolve at h
  cases h1 : solver t p with
  | error e => simp [h1] at h
  | ok y =>
    simp only [h1] at h
    split at h
    · rename_i hl
      simp only [Except.ok.injEq] at h
      subst h; exact ⟨rfl, hl⟩
    · simp at h

theorem putFrom_length {vals : List ℚ} {k : Nat} {is : List Nat} {sol r : List ℚ}
    (h : putFrom vals k is sol = .ok r) : r.length = sol.length := by
  induction is generalizing k sol with
  | nil => simp only [putFrom, Except.ok.injEq] at h; rw [h]
  | cons a is ih =>
    simp only [putFrom] at h
    split at h
    · rw [ih h, List.length_set]
    · simp at h

theorem put_length {sol : List ℚ} {is : List Nat} {vals r : List ℚ} (h : put sol is vals = .ok r) :
    r.length = sol.length := by
  unfold put at h
  split at h
  · simp only [Except.ok.injEq] at h; rw [h]
  · exact putFrom_length h

theorem addVariable_named {p p' : QP} {lb ub : ℚ} {t : VarType} {s : String} {v : Variable}
    (h : p.addVariable lb ub t (some s) = (.ok v, p')) : v = ⟨s, lb, ub, t⟩ := by
  rw [addVariable_some] at h
  split at h
  · simp at h
  · split at h
    · simp at h
    · simp only [Prod.mk.injEq, Except.ok.injEq] at h
      exact h.1.symm

theorem addFree_ok {vars : List Variable} {is : List Nat} {op op' : QP} (h : addFree vars is op = .ok op') :
    Extends op op' (is.map fun i => ⟨varName vars i, -INFINITY, INFINITY, .continuous⟩) (-INFINITY) INFINITY
      .continuous := by
  induction is generalizing op with
  | nil =>
    simp only [addFree, Except.ok.injEq] at h
    subst h
    exact Extends.refl _ _ _ _
  | cons a is ih =>
    simp only [addFree, QP.continuousVar] at h
    cases hv : op.addVariable (-INFINITY) INFINITY .continuous (some (varName vars a)) with
    | mk e op1 =>
      rw [hv] at h
      cases e with
      | error e => simp at h
      | ok v =>
        have hx := addVariable_extends hv
        rw [addVariable_named hv] at hx
        exact hx.trans (ih h)

theorem addBinaries_ok {vars : List Variable} {is : List Nat} {op op' : QP} (h : addBinaries vars is op = .ok op') :
    Extends op op' (is.map fun i => ⟨varName vars i, 0, 1, .binary⟩) 0 1 .binary := by
  induction is generalizing op with
  | nil =>
    simp only [addBinaries, Except.ok.injEq] at h
    subst h
    exact Extends.refl _ _ _ _
  | cons a is ih =>
    simp only [addBinaries, QP.binaryVar] at h
    cases hv : op.addVariable 0 1 .binary (some (varName vars a)) with
    | mk e op1 =>
      rw [hv] at h
      cases e with
      | error e => simp at h
      | ok v =>
        have hx := addVariable_extends hv
        rw [addVariable_named hv] at hx
        exact hx.trans (ih h)

theorem step3Problem_vars {prm : AdmmParams} {r : AdmmRep} {s : AdmmState} {op3 : QP}
    (h : step3Problem prm r s = .ok op3) :
    op3.vars = r.binIdx.map fun i => ⟨varName r.op.vars i, -INFINITY, INFINITY, .continuous⟩ := by
  unfold step3Problem at h
  cases h1 : addFree r.op.vars r.binIdx (QP.empty "") with
  | error e => simp [h1] at h
  | ok op =>
    simp only [h1] at h
    have hx := addFree_ok h1
    split at h
    · simp at h
    · split at h
      · simp at h
      · simp only [Except.ok.injEq] at h
        rw [← h]
        simp [hx.vars, QP.empty]

theorem admmBlocks_same {qubo cont : Solver} {prm : AdmmParams} {p : QP} {r : AdmmRep} (hr : admmRep p = .ok r)
    {it : Nat} {s t : AdmmState} (hz : Sized p s) (h : admmBlocks qubo cont prm r it s = .ok t) :
    SameRecord s t ∧ Sized p t := by
  obtain ⟨h1, h2, h3, _⟩ := admmRep_inv hr
  have hm : r.binIdx.length = p.countType .binary := by rw [h2, variableIndices_length]
  have hm' : r.contIdx.length = p.countType .continuous := by rw [h3, variableIndices_length]
  unfold admmBlocks at h
  cases hx : updateX0 qubo it prm r s with
  | error e => simp [hx] at h
  | ok x0 =>
  simp only [hx] at h
  cases hu : updateX1 cont (2 * it + 1) r { s with x0 := x0 } with
  | error e => simp [hu] at h
  | ok uz =>
  obtain ⟨u, z⟩ := uz
  simp only [hu] at h
  cases hy : updateY cont (2 * it + 2) prm r { s with x0 := x0, u := u, z := z } with
  | error e => simp [hy] at h
  | ok y =>
  simp only [hy, Except.ok.injEq] at h
  subst h
  refine ⟨⟨rfl, rfl, rfl, rfl, rfl, rfl, rfl, rfl, rfl, rfl⟩, ?_, ?_, ?_, ?_, hz.lam⟩
  · show x0.length = _
    unfold updateX0 at hx
    split at hx
    · simp only [Except.ok.injEq] at hx; rw [← hx]; exact hz.x0
    · split at hx
      · simp at hx
      · split at hx
        · simp at hx
        · rw [put_length hx, List.length_replicate, hm]
  all_goals
    have hul : u.length = p.countType .continuous ∧ z.length = p.countType .binary := by
      unfold updateX1 at hu
      split at hu
      · simp at hu
      · split at hu
        · simp at hu
        · split at hu
          · simp at hu
          · rename_i hu1
            split at hu
            · simp at hu
            · rename_i hz1
              simp only [Except.ok.injEq, Prod.mk.injEq] at hu
              rw [← hu.1, ← hu.2, (takeIdx_inv hu1).2, (takeIdx_inv hz1).2, List.length_map, List.length_map, hm, hm']
              exact ⟨rfl, rfl⟩
  · exact hul.1
  · exact hul.2
  · show y.length = _
    unfold updateY at hy
    split at hy
    · split at hy
      · simp at hy
      · rename_i op3 h3
        rw [(checkedSolve_inv hy).2, QP.numVars, step3Problem_vars h3, List.length_map, hm]
    · simp only [Except.ok.injEq] at hy
      rw [← hy]; exact hz.y

theorem Trace.same {norm : List ℚ → ℚ} {prm : AdmmParams} {p : QP} {s t : AdmmState} {hist : List Iterate}
    (h : Trace norm prm p s hist) (hs : SameRecord s t) : Trace norm prm p t hist where
  x0s := hs.x0s.trans h.x0s
  us := hs.us.trans h.us
  zs := hs.zs.trans h.zs
  lc := by rw [hs.costs, h.lc]
  lr := by rw [hs.residuals, h.lr]
  ld := by rw [hs.dual, h.ld]
  lcr := by rw [hs.consR, h.lcr]
  lm := by rw [hs.merits, h.lm]
  steps k i hk := by
    have := h.steps k i hk
    exact ⟨this.lx, this.lz, this.ly, this.lu, by rw [hs.costs, hs.consR, hs.merits]; exact this.point,
      by rw [hs.residuals]; exact this.primal, by rw [hs.zs, hs.dual]; exact this.dual⟩
  first := h.first
  next := by rw [hs.residuals, hs.dual]; exact h.next
  rhoInit hn := by rw [hs.rho, hs.lam]; exact h.rhoInit hn
  rhoLast := by rw [hs.residuals, hs.dual, hs.rho, hs.lam]; exact h.rhoLast

/-- The iterates result from the three steps, with the numbers of the iterations; `start` is the state before the
first iteration. -/
def Ran (qubo cont : Solver) (prm : AdmmParams) (r : AdmmRep) (start : AdmmState) (hist : List Iterate) : Prop :=
  ∀ k h, hist[k]? = some h → ∃ s t : AdmmState, admmBlocks qubo cont prm r k s = .ok t ∧
    h = ⟨t.x0, t.u, t.z, t.y, s.rho, s.lam⟩ ∧
    (k = 0 → s.x0 = start.x0 ∧ s.z = start.z ∧ s.y = start.y) ∧
    ∀ j g, k = j + 1 → hist[j]? = some g → s.x0 = g.x0 ∧ s.z = g.z ∧ s.y = g.y

/-- The current values are those of the last iteration. -/
def IsLast (start : AdmmState) (hist : List Iterate) (s : AdmmState) : Prop :=
  (hist = [] → s.x0 = start.x0 ∧ s.z = start.z ∧ s.y = start.y) ∧
    ∀ g, hist[hist.length - 1]? = some g → s.x0 = g.x0 ∧ s.z = g.z ∧ s.y = g.y

theorem Ran.snoc {qubo cont : Solver} {prm : AdmmParams} {r : AdmmRep} {start s t : AdmmState} {hist : List Iterate}
    (h : Ran qubo cont prm r start hist) (hl : IsLast start hist s)
    (hb : admmBlocks qubo cont prm r hist.length s = .ok t) :
    Ran qubo cont prm r start (hist ++ [⟨t.x0, t.u, t.z, t.y, s.rho, s.lam⟩]) := by
  intro k g hk
  by_cases hkl : k < hist.length
  · rw [List.getElem?_append_left hkl] at hk
    obtain ⟨a, b, h1, h2, h3, h4⟩ := h k g hk
    refine ⟨a, b, h1, h2, h3, fun j g' hj hg => h4 j g' hj ?_⟩
    rwa [List.getElem?_append_left (by omega)] at hg
  · have hlt := (List.getElem?_eq_some_iff.mp hk).1
    simp only [List.length_append, List.length_singleton] at hlt
    have : k = hist.length := by omega
    subst this
    simp only [List.getElem?_concat_length, Option.some.injEq] at hk
    refine ⟨s, t, hb, hk.symm, fun h0 => hl.1 (List.length_eq_zero_iff.mp h0), fun j g' hj hg => hl.2 g' ?_⟩
    rw [List.getElem?_append_left (by omega)] at hg
    rw [hj, Nat.add_sub_cancel]; exact hg

theorem admmLoop_trace {qubo cont : Solver} {norm : List ℚ → ℚ} {clock : Nat → Bool} {prm : AdmmParams} {p : QP}
    {r : AdmmRep} (hr : admmRep p = .ok r) (hni : ∀ v ∈ p.vars, v.vartype ≠ .integer) {k : Nat} {res : ℚ}
    {start s t : AdmmState} {hist : List Iterate} (ht : Trace norm prm p s hist) (hz : Sized p s)
    (hran : Ran qubo cont prm r start hist) (hlast : IsLast start hist s)
    (h : admmLoop qubo cont norm clock prm r k hist.length res s = .ok t) :
    ∃ new, Trace norm prm p t (hist ++ new) ∧ Sized p t ∧ Ran qubo cont prm r start (hist ++ new) ∧ new.length ≤ k := by
  induction k generalizing hist s res with
  | zero =>
    simp only [admmLoop, Except.ok.injEq] at h
    subst h
    exact ⟨[], by simpa using ht, hz, by simpa using hran, le_rfl⟩
  | succ k ih =>
    simp only [admmLoop] at h
    split at h
    · cases hb : admmBlocks qubo cont prm r hist.length s with
      | error e => simp [hb] at h
      | ok s1 =>
        obtain ⟨g1, g2⟩ := admmBlocks_same hr hz hb
        simp only [hb] at h
        cases hrec : admmRecord norm prm r hist.length s1 with
        | error e => simp [hrec] at h
        | ok sp =>
          obtain ⟨s2, primal⟩ := sp
          simp only [hrec] at h
          obtain ⟨t1, t2, t3, t4, t5, t6, _⟩ := admmRecord_trace hr hni (ht.same g1) g2 hrec
          have hran' := hran.snoc hlast hb
          rw [← g1.rho, ← g1.lam] at hran'
          have hl : hist.length + 1 =
              (hist ++ [(⟨s1.x0, s1.u, s1.z, s1.y, s1.rho, s1.lam⟩ : Iterate)]).length := by simp
          rw [hl] at h
          obtain ⟨new, n1, n2, n3, n4⟩ := ih t1 t2 hran' ⟨by simp, by simp [t3, t5, t6]⟩ h
          exact ⟨_ :: new, by simpa using n1, n2, by simpa using n3, by simpa using n4⟩
    · simp only [Except.ok.injEq] at h
      subst h
      exact ⟨[], by simpa using ht, hz, by simpa using hran, by simp⟩

theorem admmInit_trace (norm : List ℚ → ℚ) (prm : AdmmParams) (p : QP) : Trace norm prm p (admmInit prm p) [] := by
  constructor <;> simp [admmInit, variableIndices_length]

theorem admmInit_sized (prm : AdmmParams) (p : QP) : Sized p (admmInit prm p) := by
  constructor <;> simp [admmInit, variableIndices_length]

theorem admmWarmStart_ok {cont : Solver} {p : QP} {s t : AdmmState} (hz : Sized p s)
    (h : admmWarmStart cont p s = .ok t) : SameRecord s t ∧ Sized p t := by
  unfold admmWarmStart at h
  split at h
  · simp at h
  · split at h
    · simp at h
    · rename_i hx
      split at h
      · simp at h
      · rename_i hu
        simp only [Except.ok.injEq] at h
        subst h
        have e1 := (takeIdx_inv hx).2
        have e2 := (takeIdx_inv hu).2
        refine ⟨⟨rfl, rfl, rfl, rfl, rfl, rfl, rfl, rfl, rfl, rfl⟩, ?_, ?_, ?_, hz.y, hz.lam⟩
        · show List.length _ = _
          rw [e1, List.length_map, variableIndices_length]
        · show List.length _ = _
          rw [e2, List.length_map, variableIndices_length]
        · show List.length _ = _
          rw [e1, List.length_map, variableIndices_length]

theorem foldl_min_spec (l : List ℚ) (a : ℚ) :
    l.foldl min a ∈ a :: l ∧ ∀ b ∈ a :: l, l.foldl min a ≤ b := by
  induction l generalizing a with
  | nil => simp
  | cons c l ih =>
    obtain ⟨h1, h2⟩ := ih (min a c)
    rw [List.foldl_cons]
    constructor
    · rcases List.mem_cons.mp h1 with h | h
      · rw [h]
        rcases min_choice a c with h | h <;> simp [h]
      · simp [h]
    · intro b hb
      rcases List.mem_cons.mp hb with rfl | hb
      · exact (h2 _ List.mem_cons_self).trans (min_le_left _ _)
      · rcases List.mem_cons.mp hb with rfl | hb
        · exact (h2 _ List.mem_cons_self).trans (min_le_right _ _)
        · exact h2 b (List.mem_cons_of_mem _ hb)

theorem minIndex_inv {l : List ℚ} {k : Nat} (h : minIndex l = .ok k) :
    ∃ v, l[k]? = some v ∧ (∀ w ∈ l, v ≤ w) ∧ ∀ j < k, ∀ w, l[j]? = some w → v < w := by
  cases l with
  | nil => simp [minIndex] at h
  | cons a l =>
    simp only [minIndex, Except.ok.injEq] at h
    obtain ⟨h1, h2⟩ := foldl_min_spec l a
    subst h
    refine ⟨_, List.getElem?_idxOf h1, h2, ?_⟩
    intro j hj w hw
    refine lt_of_le_of_ne (h2 w (List.mem_of_getElem? hw)) ?_
    rintro e
    have hlt := (List.getElem?_eq_some_iff.mp hw).1
    have hge : (a :: l)[j] = w := (List.getElem?_eq_some_iff.mp hw).2
    have := List.not_of_lt_findIdx (p := fun x => x == l.foldl min a) (xs := a :: l) (i := j) hj
    simp [hge, e] at this

/-- What a successful run of `solve` is made of. -/
theorem admmSolve_inv {qubo cont : Solver} {norm : List ℚ → ℚ} {clock : Nat → Bool} {prm : AdmmParams} {p : QP}
    {a : AdmmResult} (h : admmSolve qubo cont norm clock prm p = .ok a) :
    ∃ conv q s b c v, admmCompatible p = .ok true ∧ p.intToBin = .ok conv ∧ turnToMinimization conv.dst = .ok q ∧
      (if prm.warmStart then admmWarmStart cont q (admmInit prm q) else .ok (admmInit prm q)) = .ok s ∧
      admmRep q = .ok a.rep ∧ admmLoop qubo cont norm clock prm a.rep prm.maxiter 0 100 s = .ok a.state ∧
      bestMerit a.state = .ok (b, c, v) ∧ revertIndexes a.rep.binIdx a.rep.contIdx b c = .ok a.point ∧
      interpretResult p [conv.interpret] [] [] a.point = .ok a.result := by
  unfold admmSolve at h
  cases h1 : admmCompatible p with
  | error e => simp [h1] at h
  | ok bb =>
  cases bb with
  | false => simp [h1] at h
  | true =>
  cases h2 : p.intToBin with
  | error e => simp [h1, h2] at h
  | ok conv =>
  cases h3 : turnToMinimization conv.dst with
  | error e => simp [h1, h2, h3] at h
  | ok q =>
  cases h4 : (if prm.warmStart then admmWarmStart cont q (admmInit prm q) else .ok (admmInit prm q)) with
  | error e => simp [h1, h2, h3, h4] at h
  | ok s =>
  cases h5 : admmRep q with
  | error e => simp [h1, h2, h3, h4, h5] at h
  | ok r =>
  cases h6 : admmLoop qubo cont norm clock prm r prm.maxiter 0 100 s with
  | error e => simp [h1, h2, h3, h4, h5, h6] at h
  | ok t =>
  cases h7 : bestMerit t with
  | error e => simp [h1, h2, h3, h4, h5, h6, h7] at h
  | ok bcv =>
  obtain ⟨b, c, v⟩ := bcv
  cases h8 : revertIndexes r.binIdx r.contIdx b c with
  | error e => simp [h1, h2, h3, h4, h5, h6, h7, h8] at h
  | ok x =>
  cases h9 : interpretResult p [conv.interpret] [] [] x with
  | error e => simp [h1, h2, h3, h4, h5, h6, h7, h8, h9] at h
  | ok res =>
    simp only [h1, h2, h3, h4, h5, h6, h7, h8, h9, Except.ok.injEq] at h
    subst h
    exact ⟨conv, q, s, b, c, v, rfl, rfl, h3, h4, h5, h6, h7, h8, h9⟩

end Verif
