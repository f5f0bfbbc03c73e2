import Verif.QuboLemmas
import Verif.IneqToEqSuccess
import Verif.PropsIsing

/-!
# C22–C25: the conversion to a QUBO
-/

namespace Verif

/-! ## C22 -/

/-- `maximize 5 x y - 19 x` with `x`, `y` integers in `[1, 4]`. -/
def prodMaxQP : QP :=
  (runCalls (QP.empty "") [.addVar 1 4 .integer (some "x"), .addVar 1 4 .integer (some "y"),
    .objective .maximize 0 (.dict [(.name "x", -19)]) (.dict [((.name "x", .name "y"), 5)])]).2

/-- Its conversion. -/
def prodMaxState : QuboState :=
  match prodMaxQP.toQubo none with
  | .ok st => st
  | .error _ => ⟨QP.empty "", QP.empty "", ⟨QP.empty "", QP.empty "", []⟩, QP.empty "", 0⟩

/-- **C22 fails** for a product of integer variables with non-zero lower bounds: the only optimal point of the QUBO for
`maximize 5 x y - 19 x` on `[1, 4]²` is interpreted as `(2, 4)` with value 2, but `(4, 4)` has value 4.  (Cause: C16.) -/
theorem C22_violated : ∃ (src : QP) (st : QuboState) (z x : List ℚ) (x' : Nat → ℚ), src.WF ∧ src.IntBoundsOK ∧
    src.allCsts.length = 0 ∧ src.toQubo none = .ok st ∧ OptimalIn st.dst.Feas st.dst.objective (pt z) ∧
    st.interpret z = .ok x ∧ src.Feas x' ∧ src.objective.sense = .maximize ∧
    src.objective.val (pt x) = 2 ∧ src.objective.val x' = 4 := by
  have hv : prodMaxQP.vars = [⟨"x", 1, 4, .integer⟩, ⟨"y", 1, 4, .integer⟩] := by decide +kernel
  have hl : prodMaxQP.lins = [] := by decide +kernel
  have hq : prodMaxQP.quads = [] := by decide +kernel
  have hd : prodMaxState.dst.vars = [binVar "x@0", binVar "x@1", binVar "y@0", binVar "y@1"] := by decide +kernel
  have hdl : prodMaxState.dst.lins = [] := by decide +kernel
  have hdq : prodMaxState.dst.quads = [] := by decide +kernel
  have ho : prodMaxState.dst.objective = ⟨-14, ⟨4, [(0, -14), (1, -33), (2, 5), (3, 5)]⟩,
    ⟨4, [((0, 2), 5), ((0, 3), 10), ((1, 2), 10), ((1, 3), 20)]⟩, .maximize⟩ := by decide +kernel
  refine ⟨prodMaxQP, prodMaxState, [1, 0, 1, 1], [2, 4], fun _ => 4, by decide +kernel, ?_, by decide +kernel,
    by decide +kernel, ⟨?_, ?_⟩, by decide +kernel, ⟨?_, ?_, ?_⟩, by decide +kernel, by decide +kernel, ?_⟩
  · intro v hm _
    rw [hv] at hm
    simp only [List.mem_cons, List.not_mem_nil, or_false] at hm
    rcases hm with rfl | rfl <;> exact ⟨⟨1, by norm_num⟩, ⟨4, by norm_num⟩, by norm_num⟩
  · rw [feas_iff_admits, sat_iff, hdl, hdq]
    refine ⟨?_, by simp⟩
    intro i v hi
    rw [hd] at hi
    have hlt := (List.getElem?_eq_some_iff.mp hi).1
    simp only [List.length_cons, List.length_nil] at hlt
    have : i = 0 ∨ i = 1 ∨ i = 2 ∨ i = 3 := by omega
    rcases this with rfl | rfl | rfl | rfl <;>
      (simp only [List.getElem?_cons_zero, List.getElem?_cons_succ, Option.some.injEq] at hi
       subst hi
       rw [admits_bin]
       simp [pt])
  · intro y hy
    rw [feas_iff_admits] at hy
    have hbit : ∀ (i : Nat) (s : String), prodMaxState.dst.vars[i]? = some (binVar s) → y i = 0 ∨ y i = 1 :=
      fun i s hi => (admits_bin s _).mp (hy.1 i _ hi)
    have h0 := hbit 0 "x@0" (by rw [hd]; rfl)
    have h1 := hbit 1 "x@1" (by rw [hd]; rfl)
    have h2 := hbit 2 "y@0" (by rw [hd]; rfl)
    have h3 := hbit 3 "y@1" (by rw [hd]; rfl)
    rw [ho]
    simp only [Objective.val, LinExpr.val, QuadExpr.val, Dict.sum, ObjSense.value, List.map_cons, List.map_nil,
      List.sum_cons, List.sum_nil]
    rcases h0 with h0 | h0 <;> rcases h1 with h1 | h1 <;> rcases h2 with h2 | h2 <;> rcases h3 with h3 | h3 <;>
      rw [h0, h1, h2, h3] <;> norm_num [pt]
  · intro i v hi
    have := List.mem_of_getElem? hi
    rw [hv] at this
    simp only [List.mem_cons, List.not_mem_nil, or_false] at this
    rcases this with rfl | rfl <;> norm_num
  · intro i v _ _
    exact ⟨4, by norm_num⟩
  · rw [sat_iff, hl, hq]; simp
  · decide +kernel

/-- **C22, the conversion is exact end to end** (the part that holds).  Full statement: for a program with binary and
bounded integer variables and linear constraints with integer coefficients that has a feasible solution, every optimal
solution of the QUBO is interpreted as a feasible and optimal solution of the source with the same objective value.
(Compatibility is implied by `h`.)  Missing (false): products of two integer variables where one has a non-zero lower
bound and the other takes more than three values (`C22_violated`), and binary variables with tightened bounds (C25).
Integer variables are assumed to have integral bounds. -/
theorem C22_exact_partial (src : QP) (st : QuboState) (hs : src.WF) (hb : src.BinBoundsOK)
    (hi : ∀ v ∈ src.vars, v.vartype = .integer → (∃ z : Int, v.lb = z) ∧ ∃ z : Int, v.ub = z)
    (hp : ProductsOK src src.objective.quadratic) (h : src.toQubo none = .ok st) (hfeas : ∃ x, src.Feas x)
    (z : List ℚ) (hlen : z.length = st.dst.numVars) (hz : OptimalIn st.dst.Feas st.dst.objective (pt z)) :
    ∃ x, st.interpret z = .ok x ∧ x.length = src.numVars ∧ OptimalIn src.Feas src.objective (pt x) ∧
      st.dst.objective.val (pt z) = src.objective.val (pt x) :=
  qubo_exact hs hb hi hp h (by simp) hfeas hlen hz

/-- **C22 with a given penalty**: exact as soon as the penalty exceeds the sum of the absolute coefficients of the
objective of the program in binary variables. -/
theorem C22_exact_given (src : QP) (p : ℚ) (st : QuboState) (hs : src.WF) (hb : src.BinBoundsOK)
    (hi : ∀ v ∈ src.vars, v.vartype = .integer → (∃ z : Int, v.lb = z) ∧ ∃ z : Int, v.ub = z)
    (hp : ProductsOK src src.objective.quadratic) (h : src.toQubo (some p) = .ok st)
    (hpen : (st.i2b.dst.objective.linear.coeffs.map fun q => |q.2|).sum +
      (st.i2b.dst.objective.quadratic.coeffs.map fun q => |q.2|).sum < p) (hfeas : ∃ x, src.Feas x)
    (z : List ℚ) (hlen : z.length = st.dst.numVars) (hz : OptimalIn st.dst.Feas st.dst.objective (pt z)) :
    ∃ x, st.interpret z = .ok x ∧ x.length = src.numVars ∧ OptimalIn src.Feas src.objective (pt x) ∧
      st.dst.objective.val (pt z) = src.objective.val (pt x) :=
  qubo_exact hs hb hi hp h (by rintro q ⟨⟩; exact hpen) hfeas hlen hz

/-- A program with a binary and two integer variables, a product of integer variables, a product with a binary
variable, an inequality and an equality. -/
def fullQP : QP :=
  (runCalls (QP.empty "m") [.addVar 0 1 .binary (some "b"), .addVar 0 3 .integer (some "x"),
    .addVar (-1) 1 .integer (some "y"),
    .linear (.dict [(.name "b", 2), (.name "x", 1)]) (.str "<=") 3 (some "c"),
    .linear (.dict [(.name "x", 1), (.name "y", -1)]) (.str "==") 1 (some "e"),
    .objective .maximize 1 (.dict [(.name "b", 3)]) (.dict [((.name "b", .name "y"), 2), ((.name "y", .name "y"), -1)])]).2

/-- Its conversion. -/
def fullState (penalty : Option ℚ) : QuboState :=
  match fullQP.toQubo penalty with
  | .ok st => st
  | .error _ => ⟨QP.empty "", QP.empty "", ⟨QP.empty "", QP.empty "", []⟩, QP.empty "", 0⟩

example : fullQP.WF ∧ fullQP.toQubo none = .ok (fullState none) ∧ fullQP.isFeasible [1, 1, 0] = .ok true ∧
    fullQP.toQubo (some 100) = .ok (fullState (some 100)) ∧
    ((fullState (some 100)).i2b.dst.objective.linear.coeffs.map fun q => |q.2|).sum +
      ((fullState (some 100)).i2b.dst.objective.quadratic.coeffs.map fun q => |q.2|).sum < 100 ∧
    (fullState none).dst.numVars = 7 ∧ (fullState none).interpret [1, 1, 0, 0, 1, 0, 0] = .ok [1, 1, 0] ∧
    (∀ v ∈ fullQP.vars, v.vartype = .binary → v.lb = 0 ∧ v.ub = 1) ∧
    (∀ v ∈ fullQP.vars, v.lb.den = 1 ∧ v.ub.den = 1) := by decide +kernel

/-- The point above is optimal for the QUBO of the example, and the products of the objective are fine. -/
example : (∀ n ∈ List.range 128, (fullState none).dst.objective.val (pt ((List.range 7).map fun i => ((n / 2 ^ i % 2 : Nat) : ℚ)))
      ≤ (fullState none).dst.objective.val (pt [1, 1, 0, 0, 1, 0, 0])) ∧
    (∀ k ∈ Assoc.keys fullQP.objective.quadratic.coeffs, ∀ v ∈ fullQP.vars[k.1]?, ∀ w ∈ fullQP.vars[k.2]?,
      v.vartype = .integer → w.vartype = .integer →
      (w.lb = 0 ∨ v.ub - v.lb ≤ 2) ∧ (v.lb = 0 ∨ w.ub - w.lb ≤ 2)) := by decide +kernel

/-! ## C23 -/

/-- **C23**.  The result of a successful conversion has only binary variables with bounds zero and one and no
constraints, and the Ising conversion accepts it; programs with a continuous variable, a quadratic constraint or a
fractional coefficient in a constraint are rejected, and the compatibility message says so. -/
theorem C23_qubo (penalty : Option ℚ) (src : QP) (hs : src.WF) :
    (∀ st, src.toQubo penalty = .ok st →
      (∀ v ∈ st.dst.vars, v.vartype = .binary ∧ v.lb = 0 ∧ v.ub = 1) ∧ st.dst.allCsts = [] ∧
        ∃ r, st.dst.toIsing = .ok r) ∧
    (quboMsg src ≠ "" → src.toQubo penalty = .error .optimization) ∧
    (((∃ v ∈ src.vars, v.vartype = .continuous) ∨ src.quads ≠ [] ∨
      ∃ c ∈ src.lins, ∃ q ∈ c.linear.coeffs, ¬ ∃ z : Int, q.2 = z) ↔ quboMsg src ≠ "") := by
  refine ⟨?_, ?_, ?_⟩
  · intro st h
    obtain ⟨⟨hc, hq, hco⟩, hsrc, h1, h2, h3⟩ := toQubo_stages h
    have hf1 := ineqToEq_facts hs h1
    have hf2 := intToBin_facts hf1.starts.wf h2
    have hf3 := toPenalty_facts hf2.wf h3
    obtain ⟨hbe, hce⟩ := eqs_vars hf1 hc
    have hbin := i2b_binary hf2 hbe hce
    have hdv : st.dst.vars = st.i2b.dst.vars := by
      rw [hf3.vars]
      exact map_plainVar (fun w hw _ => (hbin w hw).2)
    have hall : ∀ v ∈ st.dst.vars, v.vartype = .binary ∧ v.lb = 0 ∧ v.ub = 1 := by rw [hdv]; exact hbin
    have hcs := hf3.csts
    refine ⟨hall, hcs, ?_⟩
    simp only [QP.allCsts, List.append_eq_nil_iff, List.map_eq_nil_iff] at hcs
    refine C09_accepts st.dst (fun v hv => (hall v hv).1) hcs.1 hcs.2 ?_ ?_
    · intro k hk
      exact lt_of_lt_of_le (hf3.wf.objLin.1.bound k hk) hf3.wf.objLin.2
    · intro k hk
      have := hf3.wf.objQuad.1.bound k hk
      exact ⟨lt_of_lt_of_le this.1 hf3.wf.objQuad.2, lt_of_lt_of_le this.2 hf3.wf.objQuad.2⟩
  · intro h
    unfold QP.toQubo
    rw [if_pos (string_length_pos.mpr h)]
  · rw [← string_length_pos]
    have := quboMsg_empty src
    constructor
    · intro h
      by_contra hn
      obtain ⟨a, b, c⟩ := this.mp hn
      rcases h with ⟨v, hv, h⟩ | h | ⟨k, hk, q, hq, h⟩
      · exact a v hv h
      · exact h b
      · exact h (c k hk q hq)
    · intro h
      by_contra hn
      simp only [not_or, not_exists, not_and, not_not] at hn
      exact this.mpr ⟨hn.1, hn.2.1, fun k hk q hq => by
        by_contra hz; exact hz (by simpa using hn.2.2 k hk q hq)⟩ h

example : fullQP.WF ∧ fullQP.toQubo none = .ok (fullState none) ∧ quboMsg fullQP = "" ∧ quboMsg contIneqQP ≠ "" ∧
    contIneqQP.toQubo none = .error .optimization ∧ quboMsg halfQP ≠ "" ∧ quboMsg quadIneqQP ≠ "" := by decide +kernel

/-! ## C24 -/

/-- An integer variable with one value. -/
def oneValueQP : QP := (runCalls (QP.empty "") [.addVar 2 2 .integer (some "x")]).2

/-- A binary variable with a name of the form the encoding produces. -/
def clashQP : QP := (runCalls (QP.empty "") [.addVar 0 1 .binary (some "x@0"), .addVar 0 3 .integer (some "x")]).2

/-- **C24 fails**: an integer variable with equal bounds passes the compatibility check, but the conversion raises
`OverflowError` (logarithm of zero); and a binary variable called `x@0` beside an integer variable `x` passes, but the
conversion raises since the name is taken. -/
theorem C24_violated : (∃ src : QP, src.WF ∧ quboCompatible src = true ∧ src.toQubo none = .error .overflowError) ∧
    ∃ src : QP, src.WF ∧ src.IntBoundsOK ∧ quboCompatible src = true ∧ src.toQubo none = .error .optimization := by
  refine ⟨⟨oneValueQP, by decide +kernel, by decide +kernel, by decide +kernel⟩,
    ⟨clashQP, by decide +kernel, ?_, by decide +kernel, by decide +kernel⟩⟩
  have hv : clashQP.vars = [⟨"x@0", 0, 1, .binary⟩, ⟨"x", 0, 3, .integer⟩] := by decide +kernel
  intro v hm ht
  rw [hv] at hm
  simp only [List.mem_cons, List.not_mem_nil, or_false] at hm
  rcases hm with rfl | rfl
  · simp at ht
  · exact ⟨⟨0, by norm_num⟩, ⟨3, by norm_num⟩, by norm_num⟩

/-- The base name from which a name of the QUBO was made: up to `@`, together with the suffix of slack variables. -/
def baseName (a : List Char) : List Char :=
  let p := a.takeWhile (· ≠ '@')
  match a.dropWhile (· ≠ '@') with
  | '@' :: 'i' :: _ => p ++ "@int_slack".toList
  | '@' :: 'c' :: _ => p ++ "@continuous_slack".toList
  | _ => p

theorem takeWhile_at {p r : List Char} (hp : '@' ∉ p) : (p ++ '@' :: r).takeWhile (· ≠ '@') = p ∧
    (p ++ '@' :: r).dropWhile (· ≠ '@') = '@' :: r ∧ p.takeWhile (· ≠ '@') = p ∧ p.dropWhile (· ≠ '@') = [] := by
  induction p with
  | nil => simp
  | cons c p ih =>
    have hc : c ≠ '@' := fun h => hp (by simp [h])
    have := ih (fun h => hp (by simp [h]))
    simp only [ne_eq, decide_not] at this
    simp [hc, this]

theorem digits_head (i : Nat) : ∀ c r, (toString i).toList = c :: r → c ≠ 'i' ∧ c ≠ 'c' := by
  intro c r h
  have hm : c ∈ Nat.toDigits 10 i := by
    have : (toString i).toList = Nat.toDigits 10 i := by
      simp [toString, Nat.repr]
    rw [← this, h]; simp
  have := Nat.isDigit_of_mem_toDigits (by decide) (by decide) hm
  constructor <;> (rintro rfl; simp [Char.isDigit] at this)

theorem belongs_base {s a : String} (hs : '@' ∉ s.toList ∨ ∃ c : String, '@' ∉ c.toList ∧ s ∈ slackNames c)
    (h : Belongs s a) : baseName a.toList = s.toList := by
  have hd : delim.toList = ['@'] := by decide +kernel
  have hi : "int_slack".toList = ['i', 'n', 't', '_', 's', 'l', 'a', 'c', 'k'] := by decide +kernel
  have hc : "continuous_slack".toList =
    ['c', 'o', 'n', 't', 'i', 'n', 'u', 'o', 'u', 's', '_', 's', 'l', 'a', 'c', 'k'] := by decide +kernel
  have hi' : "@int_slack".toList = '@' :: "int_slack".toList := by decide +kernel
  have hc' : "@continuous_slack".toList = '@' :: "continuous_slack".toList := by decide +kernel
  unfold baseName
  rcases hs with hs | ⟨c, hcn, hs⟩
  · rcases h with rfl | ⟨i, rfl⟩
    · obtain ⟨_, _, h3, h4⟩ := takeWhile_at (r := []) hs
      rw [h3, h4]
    · simp only [String.toList_append, hd, List.append_assoc, List.cons_append, List.nil_append]
      obtain ⟨h1, h2, _, _⟩ := takeWhile_at (r := (toString i).toList) hs
      rw [h1, h2]
      have := digits_head i
      cases hl : (toString i).toList with
      | nil => rfl
      | cons d r =>
        obtain ⟨n1, n2⟩ := this d r hl
        split <;> simp_all
  · simp only [slackNames, List.mem_cons, List.not_mem_nil, or_false] at hs
    rcases hs with rfl | rfl <;> rcases h with rfl | ⟨i, rfl⟩ <;>
      simp only [String.toList_append, hd, List.append_assoc, List.cons_append, List.nil_append, hi, hc, hi', hc']
    all_goals
      obtain ⟨h1, h2, _, _⟩ := takeWhile_at (p := c.toList) (r := _) hcn
      rw [h1, h2]
      rfl

/-- **C24, accepted programs are converted** (the part that holds).  Full statement: if the compatibility message is
empty, the conversion succeeds.  Missing (false by `C24_violated`): integer variables with equal bounds, and names that
contain `@`.  Bounds are assumed to be integral, and constraints to have a name (constraints built through the API always
do). -/
theorem C24_converts_partial (penalty : Option ℚ) (src : QP) (hs : src.WF) (h : quboCompatible src = true)
    (hb : ∀ v ∈ src.vars, ((∃ z : Int, v.lb = z) ∧ ∃ z : Int, v.ub = z) ∧ v.lb ≤ v.ub)
    (hi : ∀ v ∈ src.vars, v.vartype = .integer → v.lb < v.ub)
    (hv : ∀ v ∈ src.vars, '@' ∉ v.name.toList)
    (hn : ∀ c ∈ src.lins, c.name ≠ "" ∧ '@' ∉ c.name.toList) : ∃ st, src.toQubo penalty = .ok st := by
  have hm : ¬ (quboMsg src).length > 0 := by simpa [quboCompatible] using h
  obtain ⟨hc, hq, hco⟩ := (quboMsg_empty src).mp hm
  have hcst : ∀ c ∈ src.allCsts, ∃ k ∈ src.lins, c = .lin k := by
    intro c hcm
    simp only [QP.allCsts, hq, List.map_nil, List.append_nil, List.mem_map] at hcm
    obtain ⟨k, hk, rfl⟩ := hcm
    exact ⟨k, hk, rfl⟩
  obtain ⟨eqs, h1, h1'⟩ := ineqToEq_success (mode := .integer) hs (fun v hv => (hb v hv).2)
    (by
      intro c hcm _
      obtain ⟨k, hk, rfl⟩ := hcst c hcm
      exact ⟨by simp, fun _ => hco k hk⟩)
    (by
      intro c hcm
      obtain ⟨k, hk, rfl⟩ := hcst c hcm
      exact (hn k hk).1)
    (by rw [hq]; simp)
    (by
      intro c hcm s hs' hmem
      obtain ⟨v, hv', rfl⟩ := List.mem_map.mp hmem
      apply hv v hv'
      simp only [slackNames, List.mem_cons, List.not_mem_nil, or_false] at hs'
      rcases hs' with hs' | hs' <;> (rw [hs']; simp [delim]))
  obtain ⟨hnames, hvn⟩ := h1' hq
  have hf1 := ineqToEq_facts hs h1
  have hints := hf1.ints rfl hq (fun v hv => (hb v hv).1)
  obtain ⟨more, m1, m2⟩ := hf1.slacks
  have hlt : ∀ v ∈ eqs.vars, v.lb ≤ v.ub ∧ (v.vartype = .integer → v.lb < v.ub) := by
    intro v hv'
    rw [m1, List.mem_append] at hv'
    rcases hv' with hv' | hv'
    · obtain ⟨w, hw, rfl⟩ := List.mem_map.mp hv'
      unfold plainVar
      split
      · simp [binVar]
      · exact ⟨(hb w hw).2, hi w hw⟩
    · have := m2 v hv'
      rw [this.lb]
      exact ⟨this.ub.le, fun _ => this.ub⟩
  obtain ⟨i2b, h2⟩ := intToBin_success hf1.starts.wf
    (fun v hv' ht => ⟨(hints v hv').1, (hints v hv').2, (hlt v hv').2 ht⟩) (fun v hv' => (hlt v hv').1)
    (by
      have hok : ∀ v ∈ eqs.vars, '@' ∉ v.name.toList ∨ ∃ c : String, '@' ∉ c.toList ∧ v.name ∈ slackNames c := by
        intro v hv'
        rcases hvn v.name (List.mem_map_of_mem hv') with hh | ⟨k, hk, hh⟩
        · obtain ⟨w, hw, he⟩ := List.mem_map.mp hh
          rw [← he]; exact Or.inl (hv w hw)
        · exact Or.inr ⟨k.name, (hn k hk).2, hh⟩
      intro v hv' w hw' a ha hb'
      have e1 := belongs_base (hok v hv') ha
      have e2 := belongs_base (hok w hw') hb'
      exact String.toList_inj.mp (e1.symm.trans e2))
    (by
      intro c hc'
      have : c.name ∈ src.lins.map LinCst.name := by rw [← hnames]; exact List.mem_map_of_mem hc'
      obtain ⟨k, hk, he⟩ := List.mem_map.mp this
      rw [← he]; exact (hn k hk).1)
    (by rw [hf1.noQuads hq]; simp)
  have hf2 := intToBin_facts hf1.starts.wf h2
  obtain ⟨hbe, hce⟩ := eqs_vars hf1 hc
  have hbin := i2b_binary hf2 hbe hce
  obtain ⟨dst, pen, h3⟩ := toPenalty_success (penalty := penalty) hf2.wf
    (fun v hv' => by rw [(hbin v hv').2.1, (hbin v hv').2.2]; norm_num)
    (by
      intro c hc'
      obtain ⟨k, hk, hm'⟩ := forall2_mem_right hf2.lins c hc'
      rw [hm'.sense]
      exact hf1.eqs (.lin k) (by simp [QP.allCsts, hk]))
  exact ⟨⟨src, eqs, i2b, dst, pen⟩, by simp only [QP.toQubo, if_neg hm, h1, h2, h3]⟩

example : fullQP.WF ∧ quboCompatible fullQP = true ∧
    (∀ v ∈ fullQP.vars, (v.lb.den = 1 ∧ v.ub.den = 1) ∧ v.lb ≤ v.ub) ∧
    (∀ v ∈ fullQP.vars, v.vartype = .integer → v.lb < v.ub) ∧ (∀ v ∈ fullQP.vars, '@' ∉ v.name.toList) ∧
    (∀ c ∈ fullQP.lins, c.name ≠ "" ∧ '@' ∉ c.name.toList) := by decide +kernel

/-! ## C25 -/

/-- The conversion of `fixedBinQP` by the three converters. -/
def fixedI2B : I2B :=
  match fixedBinQP.intToBin with | .ok st => st | .error _ => ⟨QP.empty "", QP.empty "", []⟩

/-- **C25 fails** for each of the three converters: `fixedBinQP` has a binary variable with bounds `[1, 1]`, and all
three results admit the value zero for it (also through `interpret`). -/
theorem C25_violated : ∃ src : QP, src.WF ∧ src.vars[0]? = some ⟨"b", 1, 1, .binary⟩ ∧
    (∃ dst, src.ineqToEq .auto = .ok dst ∧ dst.Feas (fun _ => 0)) ∧
    (∃ dst pen, src.toPenalty none = .ok (dst, pen) ∧ dst.Feas (fun _ => 0)) ∧
    ∃ st y x, src.intToBin = .ok st ∧ st.dst.Feas (pt y) ∧ st.interpret y = .ok x ∧ pt x 0 = 0 := by
  have zero : ∀ d : QP, d.lins = [] → d.quads = [] → (∀ v ∈ d.vars, v.lb = 0 ∧ 0 ≤ v.ub) → ∀ f : Nat → ℚ,
      (∀ i, f i = 0) → d.Feas f := by
    intro d hl hq hv f hf
    rw [feas_iff_admits, sat_iff, hl, hq]
    refine ⟨fun i v hi => ?_, by simp⟩
    have := hv v (List.mem_of_getElem? hi)
    rw [hf]
    exact ⟨⟨by rw [this.1], this.2⟩, fun _ => ⟨0, by simp⟩⟩
  refine ⟨fixedBinQP, by decide +kernel, by decide +kernel,
    ⟨fixedBinDst, by decide +kernel, zero _ (by decide +kernel) (by decide +kernel) (by decide +kernel) _ (fun _ => rfl)⟩,
    ⟨fixedPenDst, 1, by decide +kernel, zero _ (by decide +kernel) (by decide +kernel) (by decide +kernel) _ (fun _ => rfl)⟩,
    ⟨fixedI2B, [0, 0, 0], [0, 0], by decide +kernel,
      zero _ (by decide +kernel) (by decide +kernel) (by decide +kernel) _ ?_, by decide +kernel, by decide +kernel⟩⟩
  intro i
  match i with
  | 0 | 1 | 2 => rfl
  | n + 3 => rfl

/-- **C25, bounds survive** (the part that holds).  Full statement: the results exclude the same values of every binary
variable as the source.  Shown: if all binary variables of the source have bounds zero and one, the results have the same
binary variables with the same bounds.  Missing (false by `C25_violated`): tightened bounds. -/
theorem C25_survive_partial (src : QP) (hs : src.WF) (hb : src.BinBoundsOK) :
    (∀ mode dst, src.ineqToEq mode = .ok dst → ∀ v ∈ src.vars, v ∈ dst.vars) ∧
    (∀ penalty dst pen, src.toPenalty penalty = .ok (dst, pen) → ∀ v ∈ src.vars, v ∈ dst.vars) ∧
    ∀ st, src.intToBin = .ok st → ∀ v ∈ src.vars, v.vartype = .binary → v ∈ st.dst.vars := by
  have hpl : src.vars.map plainVar = src.vars := map_plainVar hb
  refine ⟨?_, ?_, ?_⟩
  · intro mode dst h v hv
    obtain ⟨more, m1, _⟩ := (ineqToEq_facts hs h).slacks
    rw [m1, hpl]; exact List.mem_append_left _ hv
  · intro penalty dst pen h v hv
    rw [(toPenalty_facts hs h).vars, hpl]; exact hv
  · intro st h v hv ht
    have hf := intToBin_facts hs h
    rcases hf.vars with hv' | ⟨hd, _, _⟩
    · rw [hv']
      refine List.mem_flatMap.mpr ⟨v, hv, ?_⟩
      simp only [newVars, hf.plain v hv (by rw [ht]; simp), List.mem_singleton]
      have := hb v hv ht
      obtain ⟨n, lb, ub, t⟩ := v
      simp only at this ht
      simp [plainVar, ht, binVar, this]
    · rw [hd]; exact hv

example : fullQP.WF ∧ (∀ v ∈ fullQP.vars, v.vartype = .binary → v.lb = 0 ∧ v.ub = 1) ∧
    fullQP.ineqToEq .integer = .ok (fullState none).eqs ∧ fullQP.vars[0]? = some ⟨"b", 0, 1, .binary⟩ := by decide +kernel

end Verif
