import Verif.Admm
import Verif.ResultLemmas
import Verif.IntToBinMain

/-!
# Lemmas on the ADMM optimizer: indices, assembling points, constraint residual
-/

namespace Verif

/-! ## Specifications -/

/-- The number of variables of type `t` before position `i`. -/
def QP.rank (p : QP) (t : VarType) (i : Nat) : Nat := ((p.vars.take i).filter fun v => v.vartype = t).length

/-- The number of variables of type `t`. -/
def QP.countType (p : QP) (t : VarType) : Nat := (p.vars.filter fun v => v.vartype = t).length

/-- `x` is put together from values of the binary variables and values of the continuous variables, each in the order
of the variables. -/
def Assembles (p : QP) (b c x : List ℚ) : Prop :=
  x.length = p.numVars ∧ ∀ i v, p.vars[i]? = some v →
    (v.vartype = .binary → pt x i = pt b (p.rank .binary i)) ∧
    (v.vartype = .continuous → pt x i = pt c (p.rank .continuous i))

/-- How much a constraint is violated at a point. -/
def Cst.violation (c : Cst) (x : Nat → ℚ) : ℚ :=
  match c.sense with
  | .eq => |c.val x - c.rhs|
  | .le => max (c.val x - c.rhs) 0
  | .ge => max (c.rhs - c.val x) 0

/-- Sum of the violations of all constraints. -/
def QP.violation (p : QP) (x : Nat → ℚ) : ℚ := (p.allCsts.map fun c => c.violation x).sum

/-! ## Positions of the variables of one type -/

theorem idxs_getElem? (t : VarType) (l : List Variable) (o k i : Nat) :
    (((l.zipIdx o).filter fun q => decide (q.1.vartype = t)).map Prod.snd)[k]? = some i ↔
      ∃ v, o ≤ i ∧ l[i - o]? = some v ∧ v.vartype = t ∧
        k = ((l.take (i - o)).filter fun v => decide (v.vartype = t)).length := by
  induction l generalizing o k with
  | nil => simp
  | cons a l ih =>
    rw [List.zipIdx_cons, List.filter_cons]
    by_cases ha : a.vartype = t
    · simp only [ha, decide_true, if_true, List.map_cons]
      cases k with
      | zero =>
        simp only [List.getElem?_cons_zero, Option.some.injEq]
        constructor
        · rintro rfl
          exact ⟨a, le_rfl, by simp, ha, by simp⟩
        · rintro ⟨v, h1, h2, h3, h4⟩
          by_contra hne
          obtain ⟨d, hd⟩ : ∃ d, i - o = d + 1 := ⟨i - o - 1, by omega⟩
          rw [hd] at h4
          simp [ha] at h4
      | succ k =>
        rw [List.getElem?_cons_succ, ih]
        constructor
        · rintro ⟨v, h1, h2, h3, h4⟩
          have hd : i - o = (i - (o + 1)) + 1 := by omega
          exact ⟨v, by omega, by rw [hd]; simpa using h2, h3, by rw [hd]; simp [ha, h4]⟩
        · rintro ⟨v, h1, h2, h3, h4⟩
          have hne : i ≠ o := by rintro rfl; simp at h4
          have hd : i - o = (i - (o + 1)) + 1 := by omega
          rw [hd] at h2 h4
          exact ⟨v, by omega, by simpa using h2, h3, by simpa [ha] using h4⟩
    · simp only [ha, decide_false, Bool.false_eq_true, if_false]
      rw [ih]
      constructor
      · rintro ⟨v, h1, h2, h3, h4⟩
        have hd : i - o = (i - (o + 1)) + 1 := by omega
        exact ⟨v, by omega, by rw [hd]; simpa using h2, h3, by rw [hd]; simp [ha, h4]⟩
      · rintro ⟨v, h1, h2, h3, h4⟩
        have hne : i ≠ o := by
          rintro rfl
          simp at h2; subst h2; exact ha h3
        have hd : i - o = (i - (o + 1)) + 1 := by omega
        rw [hd] at h2 h4
        exact ⟨v, by omega, by simpa using h2, h3, by simpa [ha] using h4⟩

theorem variableIndices_getElem? (t : VarType) (p : QP) (k i : Nat) :
    (variableIndices t p)[k]? = some i ↔ ∃ v, p.vars[i]? = some v ∧ v.vartype = t ∧ k = p.rank t i := by
  unfold variableIndices
  rw [idxs_getElem?]
  simp [QP.rank]

theorem mem_variableIndices {t : VarType} {p : QP} {i : Nat} :
    i ∈ variableIndices t p ↔ ∃ v, p.vars[i]? = some v ∧ v.vartype = t := by
  rw [List.mem_iff_getElem?]
  constructor
  · rintro ⟨k, h⟩
    obtain ⟨v, h1, h2, _⟩ := (variableIndices_getElem? t p k i).mp h
    exact ⟨v, h1, h2⟩
  · rintro ⟨v, h1, h2⟩
    exact ⟨_, (variableIndices_getElem? t p _ i).mpr ⟨v, h1, h2, rfl⟩⟩

theorem idxs_pairwise (t : VarType) (l : List Variable) (o : Nat) :
    (((l.zipIdx o).filter fun q => decide (q.1.vartype = t)).map Prod.snd).Pairwise (· < ·) ∧
      ∀ i ∈ ((l.zipIdx o).filter fun q => decide (q.1.vartype = t)).map Prod.snd, o ≤ i := by
  induction l generalizing o with
  | nil => simp
  | cons a l ih =>
    rw [List.zipIdx_cons, List.filter_cons]
    obtain ⟨h1, h2⟩ := ih (o + 1)
    by_cases ha : a.vartype = t
    · simp only [ha, decide_true, if_true, List.map_cons, List.pairwise_cons, List.mem_cons]
      refine ⟨⟨fun i hi => ?_, h1⟩, ?_⟩
      · have := h2 i hi; omega
      · rintro i (rfl | hi)
        · exact le_rfl
        · have := h2 i hi; omega
    · simp only [ha, decide_false, Bool.false_eq_true, if_false]
      exact ⟨h1, fun i hi => by have := h2 i hi; omega⟩

theorem variableIndices_pairwise (t : VarType) (p : QP) : (variableIndices t p).Pairwise (· < ·) :=
  (idxs_pairwise t p.vars 0).1

theorem variableIndices_nodup (t : VarType) (p : QP) : (variableIndices t p).Nodup :=
  (variableIndices_pairwise t p).imp fun h => by omega

theorem variableIndices_length (t : VarType) (p : QP) : (variableIndices t p).length = p.countType t := by
  unfold variableIndices QP.countType
  rw [List.length_map]
  generalize 0 = o
  induction p.vars generalizing o with
  | nil => simp
  | cons a l ih =>
    rw [List.zipIdx_cons, List.filter_cons, List.filter_cons]
    by_cases ha : a.vartype = t
    · simp [ha, ih]
    · simp [ha, ih]

theorem variableIndices_lt {t : VarType} {p : QP} {i : Nat} (h : i ∈ variableIndices t p) : i < p.numVars := by
  obtain ⟨v, h1, _⟩ := mem_variableIndices.mp h
  exact (List.getElem?_eq_some_iff.mp h1).1

theorem rank_lt {p : QP} {t : VarType} {i : Nat} {v : Variable} (h : p.vars[i]? = some v) (ht : v.vartype = t) :
    p.rank t i < p.countType t := by
  rw [← variableIndices_length]
  exact (List.getElem?_eq_some_iff.mp ((variableIndices_getElem? t p _ i).mpr ⟨v, h, ht, rfl⟩)).1

theorem counts_add {p : QP} (h : ∀ v ∈ p.vars, v.vartype ≠ .integer) :
    p.countType .binary + p.countType .continuous = p.numVars := by
  unfold QP.countType QP.numVars
  revert h
  generalize p.vars = l
  intro h
  induction l with
  | nil => simp
  | cons a l ih =>
    have ha := h a List.mem_cons_self
    have := ih fun v hv => h v (List.mem_cons_of_mem _ hv)
    cases hv : a.vartype with
    | binary => simp [List.filter_cons, hv]; omega
    | continuous => simp [List.filter_cons, hv]; omega
    | integer => exact absurd hv ha

/-! ## Putting values at positions -/

theorem pt_set (l : List ℚ) (i j : Nat) (v : ℚ) (h : i < l.length) :
    pt (l.set i v) j = if i = j then v else pt l j := by
  simp only [pt, List.getD_eq_getElem?_getD, List.getElem?_set]
  by_cases hij : i = j
  · subst hij; simp [h]
  · simp [hij]

theorem putFrom_spec (vals : List ℚ) (is : List Nat) (k : Nat) (sol : List ℚ) (hb : ∀ i ∈ is, i < sol.length)
    (hn : is.Nodup) :
    ∃ r, putFrom vals k is sol = .ok r ∧ r.length = sol.length ∧
      (∀ j i, is[j]? = some i → pt r i = pt vals ((k + j) % vals.length)) ∧ ∀ i, i ∉ is → pt r i = pt sol i := by
  induction is generalizing k sol with
  | nil => exact ⟨sol, rfl, rfl, by simp, fun _ _ => rfl⟩
  | cons a is ih =>
    have ha := hb a List.mem_cons_self
    obtain ⟨hna, hn⟩ := List.nodup_cons.mp hn
    obtain ⟨r, h1, h2, h3, h4⟩ := ih (k + 1) (sol.set a (pt vals (k % vals.length)))
      (fun i hi => by rw [List.length_set]; exact hb i (List.mem_cons_of_mem _ hi)) hn
    refine ⟨r, by rw [putFrom, if_pos ha, h1], by rw [h2, List.length_set], ?_, ?_⟩
    · intro j i hj
      cases j with
      | zero =>
        simp only [List.getElem?_cons_zero, Option.some.injEq] at hj
        subst hj
        rw [h4 a hna, pt_set _ _ _ _ ha, if_pos rfl, Nat.add_zero]
      | succ j =>
        rw [h3 j i (by simpa using hj)]
        congr 2; omega
    · intro i hi
      rw [List.mem_cons, not_or] at hi
      rw [h4 i hi.2, pt_set _ _ _ _ ha, if_neg (Ne.symm hi.1)]

theorem put_spec (vals : List ℚ) (is : List Nat) (sol : List ℚ) (hb : ∀ i ∈ is, i < sol.length) (hn : is.Nodup)
    (hl : vals.length = is.length) :
    ∃ r, put sol is vals = .ok r ∧ r.length = sol.length ∧
      (∀ j i, is[j]? = some i → pt r i = pt vals j) ∧ ∀ i, i ∉ is → pt r i = pt sol i := by
  unfold put
  by_cases hv : vals = []
  · subst hv
    have : is = [] := List.length_eq_zero_iff.mp hl.symm
    subst this
    exact ⟨sol, by simp, rfl, by simp, fun _ _ => rfl⟩
  · rw [if_neg hv]
    obtain ⟨r, h1, h2, h3, h4⟩ := putFrom_spec vals is 0 sol hb hn
    refine ⟨r, h1, h2, fun j i hj => ?_, h4⟩
    rw [h3 j i hj, Nat.zero_add, Nat.mod_eq_of_lt]
    rw [hl]; exact (List.getElem?_eq_some_iff.mp hj).1

theorem takeIdx_inv {a : List ℚ} {idx : List Nat} {r : List ℚ} (h : takeIdx a idx = .ok r) :
    (∀ i ∈ idx, i < a.length) ∧ r = idx.map (pt a) := by
  unfold takeIdx at h
  split at h
  · rename_i g
    simp only [List.all_eq_true, decide_eq_true_eq] at g
    simp only [Except.ok.injEq] at h
    exact ⟨g, h.symm⟩
  · simp at h

theorem takeIdx_ok {a : List ℚ} {idx : List Nat} (h : ∀ i ∈ idx, i < a.length) :
    takeIdx a idx = .ok (idx.map (pt a)) := by
  unfold takeIdx
  rw [if_pos]
  simpa using h

theorem pt_map {α : Type} (f : α → ℚ) (l : List α) (k : Nat) : pt (l.map f) k = (l[k]?.map f).getD 0 := by
  simp [pt, List.getD_eq_getElem?_getD]

theorem pt_map_range (f : Nat → ℚ) (m k : Nat) : pt ((List.range m).map f) k = if k < m then f k else 0 := by
  rw [pt_map]
  by_cases h : k < m
  · simp [h]
  · simp [h, List.getElem?_eq_none]

/-- `revertIndexes` assembles the point. -/
theorem revertIndexes_ok {p : QP} (hni : ∀ v ∈ p.vars, v.vartype ≠ .integer) {b c : List ℚ}
    (hb : b.length = p.countType .binary) (hc : c.length = p.countType .continuous) :
    ∃ x, revertIndexes (variableIndices .binary p) (variableIndices .continuous p) b c = .ok x ∧
      Assembles p b c x := by
  have hlen : (variableIndices .binary p).length + (variableIndices .continuous p).length = p.numVars := by
    rw [variableIndices_length, variableIndices_length, counts_add hni]
  unfold revertIndexes
  rw [hlen]
  obtain ⟨r, h1, h2, h3, h4⟩ := put_spec b (variableIndices .binary p) (List.replicate p.numVars 0)
    (fun i hi => by rw [List.length_replicate]; exact variableIndices_lt hi) (variableIndices_nodup _ _)
    (by rw [hb, variableIndices_length])
  rw [List.length_replicate] at h2
  obtain ⟨r', g1, g2, g3, g4⟩ := put_spec c (variableIndices .continuous p) r
    (fun i hi => by rw [h2]; exact variableIndices_lt hi) (variableIndices_nodup _ _)
    (by rw [hc, variableIndices_length])
  rw [h1]
  refine ⟨r', g1, by rw [g2, h2], fun i v hv => ⟨fun ht => ?_, fun ht => ?_⟩⟩
  · rw [g4 i, h3 (p.rank .binary i) i ((variableIndices_getElem? _ _ _ _).mpr ⟨v, hv, ht, rfl⟩)]
    intro hi
    obtain ⟨w, hw, hwt⟩ := mem_variableIndices.mp hi
    rw [hv, Option.some.injEq] at hw
    subst hw
    rw [ht] at hwt; cases hwt
  · exact g3 (p.rank .continuous i) i ((variableIndices_getElem? _ _ _ _).mpr ⟨v, hv, ht, rfl⟩)

theorem Assembles.unique {p : QP} (hni : ∀ v ∈ p.vars, v.vartype ≠ .integer) {b c x y : List ℚ}
    (hx : Assembles p b c x) (hy : Assembles p b c y) : x = y := by
  apply List.ext_getElem (hx.1.trans hy.1.symm)
  intro i h1 h2
  obtain ⟨v, hv⟩ := lt_numVars (p := p) (i := i) (hx.1 ▸ h1)
  have e : pt x i = pt y i := by
    cases ht : v.vartype with
    | binary => rw [(hx.2 i v hv).1 ht, (hy.2 i v hv).1 ht]
    | continuous => rw [(hx.2 i v hv).2 ht, (hy.2 i v hv).2 ht]
    | integer => exact absurd ht (hni v (List.mem_of_getElem? hv))
  simpa [pt, List.getD_eq_getElem?_getD, List.getElem?_eq_getElem h1, List.getElem?_eq_getElem h2] using e

/-! ## Constraint residual -/

theorem Cst.violation_nonneg (c : Cst) (x : Nat → ℚ) : 0 ≤ c.violation x := by
  unfold Cst.violation
  split
  · exact abs_nonneg _
  · exact le_max_right _ _
  · exact le_max_right _ _

theorem Cst.violation_eq_zero (c : Cst) (x : Nat → ℚ) : c.violation x = 0 ↔ c.sense.rel (c.val x) c.rhs := by
  unfold Cst.violation Sense.rel
  cases c.sense <;> simp only
  · rw [max_eq_right_iff]; exact sub_nonpos
  · rw [max_eq_right_iff]; exact sub_nonpos
  · rw [abs_eq_zero]; exact sub_eq_zero

theorem sum_nonneg_eq_zero {α : Type} (l : List α) (f : α → ℚ) (hf : ∀ a ∈ l, 0 ≤ f a) :
    0 ≤ (l.map f).sum ∧ ((l.map f).sum = 0 ↔ ∀ a ∈ l, f a = 0) := by
  induction l with
  | nil => simp
  | cons a l ih =>
    obtain ⟨h1, h2⟩ := ih fun b hb => hf b (List.mem_cons_of_mem _ hb)
    have ha := hf a List.mem_cons_self
    rw [List.map_cons, List.sum_cons]
    refine ⟨by linarith, ?_⟩
    rw [List.forall_mem_cons, ← h2]
    constructor
    · intro h; constructor <;> linarith
    · rintro ⟨g1, g2⟩; rw [g1, g2, add_zero]

theorem QP.violation_nonneg (p : QP) (x : Nat → ℚ) : 0 ≤ p.violation x :=
  (sum_nonneg_eq_zero _ _ fun c _ => c.violation_nonneg x).1

theorem QP.violation_eq_zero (p : QP) (x : Nat → ℚ) : p.violation x = 0 ↔ p.Sat x := by
  rw [QP.violation, (sum_nonneg_eq_zero _ _ fun c _ => c.violation_nonneg x).2]
  exact forall₂_congr fun c _ => c.violation_eq_zero x

theorem Cst.evaluate_val {c : Cst} {x : List ℚ} {v : ℚ} (h : c.evaluate x = .ok v) : v = c.val (pt x) := by
  cases c with
  | lin c => exact (LinExpr.evaluate_inv h).2
  | quad c =>
    simp only [Cst.evaluate] at h
    cases h1 : c.linear.evaluate x with
    | error e => simp [h1] at h
    | ok l =>
      cases h2 : c.quadratic.evaluate x with
      | error e => simp [h1, h2] at h
      | ok q =>
        simp only [h1, h2, Except.ok.injEq] at h
        rw [← h, (LinExpr.evaluate_inv h1).2, (QuadExpr.evaluate_inv h2).2]; rfl

theorem Cst.evaluate_shape {c : Cst} {x : List ℚ} (h : c.HasShape x.length) : ∃ v, c.evaluate x = .ok v := by
  cases c with
  | lin c => exact ⟨_, LinExpr.evaluate_ok (e := c.linear) (by rw [show c.linear.n = x.length from h])⟩
  | quad c =>
    obtain ⟨h1, h2⟩ : c.linear.n = x.length ∧ c.quadratic.n = x.length := h
    exact ⟨_, by simp only [Cst.evaluate, LinExpr.evaluate_ok h1.symm, QuadExpr.evaluate_ok h2.symm]; rfl⟩

theorem residualEq_inv {x : List ℚ} {cs : List Cst} {acc v : ℚ} (hs : ∀ c ∈ cs, c.sense = .eq)
    (h : residualEq x cs acc = .ok v) : v = acc + (cs.map fun c => c.violation (pt x)).sum := by
  induction cs generalizing acc with
  | nil => simp only [residualEq, Except.ok.injEq] at h; simp [h]
  | cons c cs ih =>
    simp only [residualEq] at h
    cases h1 : c.evaluate x with
    | error e => simp [h1] at h
    | ok w =>
      simp only [h1] at h
      rw [ih (fun c hc => hs c (List.mem_cons_of_mem _ hc)) h, List.map_cons, List.sum_cons, Cst.evaluate_val h1,
        Cst.violation, hs c List.mem_cons_self]
      ring

theorem residualIneq_inv {x : List ℚ} {cs : List Cst} {acc v : ℚ} (hs : ∀ c ∈ cs, c.sense = .le ∨ c.sense = .ge)
    (h : residualIneq x cs acc = .ok v) : v = acc + (cs.map fun c => c.violation (pt x)).sum := by
  induction cs generalizing acc with
  | nil => simp only [residualIneq, Except.ok.injEq] at h; simp [h]
  | cons c cs ih =>
    simp only [residualIneq] at h
    cases h1 : c.evaluate x with
    | error e => simp [h1] at h
    | ok w =>
      simp only [h1] at h
      rw [ih (fun c hc => hs c (List.mem_cons_of_mem _ hc)) h, List.map_cons, List.sum_cons, Cst.evaluate_val h1]
      rcases hs c List.mem_cons_self with hc | hc
      · rw [Cst.violation, hc]; simp only [reduceCtorEq, if_false, one_mul]; ring
      · rw [Cst.violation, hc]; simp only [if_true, neg_mul, one_mul, neg_sub]; ring

theorem equalities_sense {p : QP} : ∀ c ∈ equalities p, c.sense = .eq := by
  intro c hc
  simp only [equalities, List.mem_append, List.mem_map, List.mem_filter, decide_eq_true_eq] at hc
  rcases hc with ⟨k, hk, rfl⟩ | ⟨k, hk, rfl⟩ <;> exact hk.2

theorem inequalities_sense {p : QP} : ∀ c ∈ inequalities p, c.sense = .le ∨ c.sense = .ge := by
  intro c hc
  simp only [inequalities, List.mem_append, List.mem_map, List.mem_filter, decide_eq_true_eq] at hc
  rcases hc with ⟨k, hk, rfl⟩ | ⟨k, hk, rfl⟩ <;> exact hk.2

theorem sum_filter_split {α : Type} (l : List α) (P Q : α → Bool) (h : ∀ a ∈ l, Q a = !P a) (f : α → ℚ) :
    ((l.filter P).map f).sum + ((l.filter Q).map f).sum = (l.map f).sum := by
  induction l with
  | nil => simp
  | cons a l ih =>
    have := ih fun b hb => h b (List.mem_cons_of_mem _ hb)
    have ha := h a List.mem_cons_self
    rw [List.filter_cons, List.filter_cons, ha]
    cases hP : P a <;> simp <;> linarith

theorem violation_split (p : QP) (x : Nat → ℚ) :
    ((equalities p).map fun c => c.violation x).sum + ((inequalities p).map fun c => c.violation x).sum =
      p.violation x := by
  simp only [equalities, inequalities, QP.violation, QP.allCsts, List.map_append, List.sum_append, List.map_map]
  have hl := sum_filter_split p.lins (fun c => decide (c.sense = .eq)) (fun c => decide (c.sense = .le ∨ c.sense = .ge))
    (fun c _ => by cases c.sense <;> simp) ((fun c => Cst.violation c x) ∘ Cst.lin)
  have hq := sum_filter_split p.quads (fun c => decide (c.sense = .eq)) (fun c => decide (c.sense = .le ∨ c.sense = .ge))
    (fun c _ => by cases c.sense <;> simp) ((fun c => Cst.violation c x) ∘ Cst.quad)
  linarith

theorem admmRep_inv {p : QP} {r : AdmmRep} (h : admmRep p = .ok r) :
    r.op = p ∧ r.binIdx = variableIndices .binary p ∧ r.contIdx = variableIndices .continuous p ∧
      r.eqs = equalities p ∧ r.ineqs = inequalities p ∧ r.binEqs = binaryEqualities p ∧
      step1Absolute p = .ok r.step1Abs ∧ relativeIndices (variableIndices .binary p) 0 r.step1Abs = .ok r.step1Rel ∧
      getQ p.objective.quadratic r.step1Abs = .ok r.q0 ∧ takeIdx p.objective.linear.toArray r.step1Abs = .ok r.c0 ∧
      getA0B0 r.step1Abs (binaryEqualities p) = .ok (r.a0, r.b0) := by
  unfold admmRep at h
  cases h1 : step1Absolute p with
  | error e => simp [h1] at h
  | ok st =>
  cases h2 : relativeIndices (variableIndices .binary p) 0 st with
  | error e => simp [h1, h2] at h
  | ok rel =>
  cases h3 : getQ p.objective.quadratic st with
  | error e => simp [h1, h2, h3] at h
  | ok q0 =>
  cases h4 : takeIdx p.objective.linear.toArray st with
  | error e => simp [h1, h2, h3, h4] at h
  | ok c0 =>
  cases h5 : getA0B0 st (binaryEqualities p) with
  | error e => simp [h1, h2, h3, h4, h5] at h
  | ok ab =>
    obtain ⟨a0, b0⟩ := ab
    simp only [h1, h2, h3, h4, h5, Except.ok.injEq] at h
    subst h
    exact ⟨rfl, rfl, rfl, rfl, rfl, rfl, rfl, h2, h3, h4, h5⟩

theorem constraintResidual_inv {p : QP} {r : AdmmRep} (hr : admmRep p = .ok r) {x : List ℚ} {v : ℚ}
    (h : constraintResidual r x = .ok v) : v = p.violation (pt x) := by
  obtain ⟨_, _, _, h4, h5, _⟩ := admmRep_inv hr
  unfold constraintResidual at h
  rw [h4, h5] at h
  cases h1 : residualEq x (equalities p) 0 with
  | error e => simp [h1] at h
  | ok a =>
    cases h2 : residualIneq x (inequalities p) 0 with
    | error e => simp [h1, h2] at h
    | ok b =>
      simp only [h1, h2, Except.ok.injEq] at h
      rw [← h, residualEq_inv equalities_sense h1, residualIneq_inv inequalities_sense h2, ← violation_split]
      ring

end Verif
