import Verif.Renumber

/-!
# C116: the order of the variables does not matter

Two programs whose variables were declared in another order.
-/

namespace Verif

/-- The same constraint: name, sense, right-hand side, and the same left-hand side at points with the same values of the
variables. -/
structure SameCst (p p' : QP) (c c' : Cst) : Prop where
  name : c'.name = c.name
  sense : c'.sense = c.sense
  rhs : c'.rhs = c.rhs
  val : ∀ y y', SamePoint p p' y y' → c'.val y' = c.val y

/-- The same program with its variables in another order. -/
structure Renumbered (p p' : QP) : Prop where
  name : p'.name = p.name
  vars : p'.vars.Perm p.vars
  sense : p'.objective.sense = p.objective.sense
  objective : SameValues p p' p.objective p'.objective
  lins : List.Forall₂ (SameCst p p') (p.lins.map .lin) (p'.lins.map .lin)
  quads : List.Forall₂ (SameCst p p') (p.quads.map .quad) (p'.quads.map .quad)

theorem forall2_append {α β : Type} {R : α → β → Prop} {a c : List α} {b d : List β} (h : List.Forall₂ R a b)
    (h' : List.Forall₂ R c d) : List.Forall₂ R (a ++ c) (b ++ d) := by
  induction h with
  | nil => exact h'
  | cons h _ ih => exact .cons h ih

variable {p p' : QP}

theorem Renumbered.allCsts (h : Renumbered p p') : List.Forall₂ (SameCst p p') p.allCsts p'.allCsts :=
  forall2_append h.lins h.quads

theorem Renumbered.numVars (h : Renumbered p p') : p'.numVars = p.numVars := h.vars.length_eq

/-- Two inequalities over variables declared by `vs`; further calls `more`. -/
def renProgram (vs more : List Call) : QP :=
  (runCalls (QP.empty "p") (vs ++ [.objective .maximize 1 (.dict [(.name "x", 2)])
      (.dict [((.name "b", .name "x"), 3), ((.name "x", .name "x"), -1)]),
    .linear (.dict [(.name "b", 1), (.name "x", 1)]) (.sense .le) 1 (some "c"),
    .linear (.dict [(.name "b", 2), (.name "x", 1)]) (.sense .ge) 0 (some "r")] ++ more)).2

/-- A program with linear and quadratic constraints. -/
def renQP : QP := renProgram [.addVar 0 1 .binary (some "b"), .addVar (-1) 2 .integer (some "x")]
  [.quadratic (.dict [(.name "b", 1)]) (.dict [((.name "b", .name "x"), 1)]) (.sense .le) 3 (some "q")]

/-- The same program with the variables declared in the other order. -/
def renQP2 : QP := renProgram [.addVar (-1) 2 .integer (some "x"), .addVar 0 1 .binary (some "b")]
  [.quadratic (.dict [(.name "b", 1)]) (.dict [((.name "b", .name "x"), 1)]) (.sense .le) 3 (some "q")]

/-- `renQP` without its quadratic constraint. -/
def renIneq : QP := renProgram [.addVar 0 1 .binary (some "b"), .addVar (-1) 2 .integer (some "x")] []

/-- `renQP2` without its quadratic constraint. -/
def renIneq2 : QP := renProgram [.addVar (-1) 2 .integer (some "x"), .addVar 0 1 .binary (some "b")] []

theorem swap_point {p p' : QP} {v w : Variable} (h : p.vars = [v, w]) (h' : p'.vars = [w, v]) {y y' : Nat → ℚ}
    (hy : SamePoint p p' y y') : y' 0 = y 1 ∧ y' 1 = y 0 :=
  ⟨hy 1 0 w (by simp [h]) (by simp [h']), hy 0 1 v (by simp [h]) (by simp [h'])⟩

theorem renumbered_example : Renumbered renQP renQP2 := by
  have h1 : renQP.vars = [⟨"b", 0, 1, .binary⟩, ⟨"x", -1, 2, .integer⟩] := by decide +kernel
  have h2 : renQP2.vars = [⟨"x", -1, 2, .integer⟩, ⟨"b", 0, 1, .binary⟩] := by decide +kernel
  have o1 : renQP.objective = ⟨1, ⟨2, [(1, 2)]⟩, ⟨2, [((0, 1), 3), ((1, 1), -1)]⟩, .maximize⟩ := by decide +kernel
  have o2 : renQP2.objective = ⟨1, ⟨2, [(0, 2)]⟩, ⟨2, [((0, 0), -1), ((0, 1), 3)]⟩, .maximize⟩ := by decide +kernel
  have l1 : renQP.lins = [⟨"c", ⟨2, [(0, 1), (1, 1)]⟩, .le, 1⟩, ⟨"r", ⟨2, [(0, 2), (1, 1)]⟩, .ge, 0⟩] := by decide +kernel
  have l2 : renQP2.lins = [⟨"c", ⟨2, [(1, 1), (0, 1)]⟩, .le, 1⟩, ⟨"r", ⟨2, [(1, 2), (0, 1)]⟩, .ge, 0⟩] := by decide +kernel
  have q1 : renQP.quads = [⟨"q", ⟨2, [(0, 1)]⟩, ⟨2, [((0, 1), 1)]⟩, .le, 3⟩] := by decide +kernel
  have q2 : renQP2.quads = [⟨"q", ⟨2, [(1, 1)]⟩, ⟨2, [((0, 1), 1)]⟩, .le, 3⟩] := by decide +kernel
  refine ⟨by decide +kernel, by rw [h1, h2]; exact List.Perm.swap _ _ _, by rw [o1, o2], ?_, ?_, ?_⟩
  · intro y y' hy
    obtain ⟨a, b⟩ := swap_point h1 h2 hy
    rw [o1, o2]
    simp only [Objective.val, LinExpr.val, QuadExpr.val, Dict.sum, List.map_cons, List.map_nil, List.sum_cons, List.sum_nil, a, b]
    ring
  · rw [l1, l2]
    refine .cons ⟨rfl, rfl, rfl, ?_⟩ (.cons ⟨rfl, rfl, rfl, ?_⟩ .nil) <;>
    · intro y y' hy
      obtain ⟨a, b⟩ := swap_point h1 h2 hy
      simp only [Cst.val, LinExpr.val, Dict.sum, List.map_cons, List.map_nil, List.sum_cons, List.sum_nil, a, b]
  · rw [q1, q2]
    refine .cons ⟨rfl, rfl, rfl, ?_⟩ .nil
    intro y y' hy
    obtain ⟨a, b⟩ := swap_point h1 h2 hy
    simp only [Cst.val, LinExpr.val, QuadExpr.val, Dict.sum, List.map_cons, List.map_nil, List.sum_cons, List.sum_nil, a, b]
    ring

theorem renumbered_example2 : Renumbered renIneq renIneq2 := by
  have h := renumbered_example
  have e1 : renIneq = { renQP with quads := [], quadsIndex := [] } := by decide +kernel
  have e2 : renIneq2 = { renQP2 with quads := [], quadsIndex := [] } := by decide +kernel
  rw [e1, e2]
  refine ⟨h.name, h.vars, h.sense, fun y y' hy => h.objective y y' fun i j v => hy i j v, ?_, .nil⟩
  exact h.lins.imp fun c c' hc => ⟨hc.name, hc.sense, hc.rhs, fun y y' hy => hc.val y y' fun i j v => hy i j v⟩

theorem samePoint_of {d d' : QP} {y y' : Nat → ℚ}
    (h : ∀ i < d.vars.length, ∀ j < d'.vars.length, d.vars[i]? = d'.vars[j]? → y' j = y i) : SamePoint d d' y y' :=
  fun i j _ hi hj => h i (List.getElem?_eq_some_iff.mp hi).1 j (List.getElem?_eq_some_iff.mp hj).1 (hi.trans hj.symm)

/-! ## Feasibility -/

theorem zip_vars {vs : List Variable} (hn : vs.Nodup) {x : List ℚ} (hx : x.length = vs.length) :
    x.zip vs = vs.map fun v => (pt x (vs.idxOf v), v) := by
  apply List.ext_getElem
  · simp [hx]
  · intro i h1 h2
    have hi : i < vs.length := by simpa using h2
    have hi' : i < x.length := hx ▸ hi
    simp [hn.idxOf_getElem, pt, List.getD_eq_getElem?_getD, hi']

theorem filter_same {p p' : QP} {cs cs' : List Cst} (h : List.Forall₂ (SameCst p p') cs cs') {P P' : Cst → Bool}
    (hP : ∀ c c', SameCst p p' c c' → P' c' = P c) : (cs'.filter P').map Cst.name = (cs.filter P).map Cst.name := by
  induction h with
  | nil => rfl
  | cons h _ ih =>
    rw [List.filter_cons, List.filter_cons, hP _ _ h]
    split
    · rw [List.map_cons, List.map_cons, ih, h.name]
    · exact ih

theorem sat_same {x y : Nat → ℚ} (hxy : SamePoint p p' x y) {cs cs' : List Cst} (h : List.Forall₂ (SameCst p p') cs cs') :
    (∀ c ∈ cs', c.sense.rel (c.val y) c.rhs) ↔ ∀ c ∈ cs, c.sense.rel (c.val x) c.rhs := by
  induction h with
  | nil => simp
  | cons h _ ih => rw [List.forall_mem_cons, List.forall_mem_cons, ih, h.sense, h.rhs, h.val x y hxy]

/-- A property of the variables and their values. -/
theorem vars_same (hv : p'.vars.Perm p.vars) {x y : Nat → ℚ} (hxy : SamePoint p p' x y) (P : Variable → ℚ → Prop) :
    (∀ i v, p'.vars[i]? = some v → P v (y i)) ↔ ∀ i v, p.vars[i]? = some v → P v (x i) := by
  constructor
  · intro h i v hi
    obtain ⟨j, hj⟩ := List.mem_iff_getElem?.mp (hv.mem_iff.mpr (List.mem_of_getElem? hi))
    rw [← hxy i j v hi hj]
    exact h j v hj
  · intro h j v hj
    obtain ⟨i, hi⟩ := List.mem_iff_getElem?.mp (hv.mem_iff.mp (List.mem_of_getElem? hj))
    rw [hxy i j v hi hj]
    exact h i v hi

/-- **C116** (feasibility): at points with the same values of the variables `get_feasibility_info` gives the same verdict, the
same variables up to their order and the same constraints; and mathematical feasibility and objective value agree. -/
theorem C116_feasible (p p' : QP) (hp : p.WF) (hp' : p'.WF) (hs : ∀ c ∈ p.allCsts, c.HasShape p.numVars)
    (hs' : ∀ c ∈ p'.allCsts, c.HasShape p'.numVars) (h : Renumbered p p') :
    (∀ x x' : List ℚ, x.length = p.numVars → x'.length = p'.numVars → SamePoint p p' (pt x) (pt x') →
      ∃ b vs vs' cs cs', p.getFeasibilityInfo x = .ok (b, vs, cs) ∧ p'.getFeasibilityInfo x' = .ok (b, vs', cs') ∧
        vs'.Perm vs ∧ cs'.map Cst.name = cs.map Cst.name) ∧
    ∀ y y', SamePoint p p' y y' → (p'.Feas y' ↔ p.Feas y) ∧ p'.objective.val y' = p.objective.val y := by
  constructor
  · intro x x' hx hx' hxx
    classical
    obtain ⟨b, vs, cs, e1, e2, e3, e4⟩ := C07_info p hs x hx
    obtain ⟨b', vs', cs', g1, g2, g3, g4⟩ := C07_info p' hs' x' hx'
    have hvs : vs'.Perm vs := by
      rw [e2, g2]
      refine List.Perm.map _ (List.Perm.filter _ ?_)
      rw [zip_vars hp.varsNodup hx, zip_vars hp'.varsNodup hx']
      refine (h.vars.map _).trans (List.Perm.of_eq ?_)
      refine List.map_congr_left fun v hv => ?_
      rw [hxx _ _ v (atVar_spec hv) (atVar_spec (h.vars.mem_iff.mpr hv))]
    have hcs : cs'.map Cst.name = cs.map Cst.name := by
      rw [e3, g3]
      refine filter_same h.allCsts fun c c' hc => ?_
      rw [hc.sense, hc.rhs, hc.val _ _ hxx]
    have hb : b' = b := by
      rw [Bool.eq_iff_iff, e4, g4, ← List.map_eq_nil_iff (f := Cst.name), hcs, List.map_eq_nil_iff,
        ← List.length_eq_zero_iff, hvs.length_eq, List.length_eq_zero_iff]
    subst hb
    exact ⟨b', vs, vs', cs, cs', e1, g1, hvs, hcs⟩
  · intro y y' hy
    refine ⟨?_, h.objective y y' hy⟩
    unfold QP.Feas
    refine and_congr ?_ (and_congr ?_ ?_)
    · exact vars_same h.vars hy fun v a => v.lb ≤ a ∧ a ≤ v.ub
    · exact vars_same h.vars hy fun v a => v.vartype ≠ .continuous → ∃ z : Int, a = z
    · exact sat_same hy h.allCsts

example : renQP.WF ∧ renQP2.WF ∧ (∀ c ∈ renQP.allCsts, c.HasShape renQP.numVars) ∧
    (∀ c ∈ renQP2.allCsts, c.HasShape renQP2.numVars) ∧
    (renQP.getFeasibilityInfo [1, 5]).toOption.map (fun r => (r.1, r.2.1.map Variable.name, r.2.2.map Cst.name)) =
      some (false, ["x"], ["c", "q"]) ∧
    (renQP2.getFeasibilityInfo [5, 1]).toOption.map (fun r => (r.1, r.2.1.map Variable.name, r.2.2.map Cst.name)) =
      some (false, ["x"], ["c", "q"]) := by decide +kernel

example : Renumbered renQP renQP2 ∧ renQP ≠ renQP2 ∧ SamePoint renQP renQP2 (pt [1, 5]) (pt [5, 1]) :=
  ⟨renumbered_example, by decide +kernel, samePoint_of (by decide +kernel)⟩

/-! ## Slack variables -/

/-- The left-hand side of a constraint as an objective function. -/
def Cst.poly : Cst → Objective
  | .lin c => ⟨0, c.linear, ⟨0, []⟩, .minimize⟩
  | .quad c => ⟨0, c.linear, c.quadratic, .minimize⟩

theorem Cst.poly_val (c : Cst) (y : Nat → ℚ) : c.poly.val y = c.val y := by
  cases c <;> simp [Cst.poly, Objective.val, Cst.val, QuadExpr.val, Dict.sum]

theorem Cst.poly_fits {p : QP} (hp : p.WF) {c : Cst} (hc : c ∈ p.allCsts) :
    c.poly.linear.Fits p.numVars ∧ c.poly.quadratic.Fits p.numVars := by
  unfold QP.allCsts at hc
  rcases List.mem_append.mp hc with hc | hc
  · obtain ⟨k, hk, rfl⟩ := List.mem_map.mp hc
    exact ⟨hp.lins k hk, ⟨by simp [Cst.poly, Assoc.keys], by simp [Cst.poly, Assoc.keys], by simp [Cst.poly, Assoc.keys]⟩,
      Nat.zero_le _⟩
  · obtain ⟨k, hk, rfl⟩ := List.mem_map.mp hc
    exact hp.quads k hk

theorem Cst.low_poly (p : QP) (c : Cst) :
    c.low p = (c.poly.linear.coeffs.map fun q => min (p.lbAt q.1 * q.2) (p.ubAt q.1 * q.2)).sum +
      (c.poly.quadratic.coeffs.map fun q =>
        let r := p.corners q.1.1 q.1.2 q.2
        min (min (min r.1 r.2.1) r.2.2.1) r.2.2.2).sum := by
  cases c <;> simp [Cst.low, Cst.poly]

theorem Cst.high_poly (p : QP) (c : Cst) :
    c.high p = (c.poly.linear.coeffs.map fun q => max (p.lbAt q.1 * q.2) (p.ubAt q.1 * q.2)).sum +
      (c.poly.quadratic.coeffs.map fun q =>
        let r := p.corners q.1.1 q.1.2 q.2
        max (max (max r.1 r.2.1) r.2.2.1) r.2.2.2).sum := by
  cases c <;> simp [Cst.high, Cst.poly]

/-- Counts a coefficient that is not an integer. -/
def oddOne (a : ℚ) : ℚ := if a.den = 1 then 0 else 1

theorem oddOne_nonneg (a : ℚ) : 0 ≤ oddOne a := by unfold oddOne; split <;> simp

theorem sum_oddOne {κ : Type} (d : Dict κ) : (d.map fun q => oddOne q.2).sum = 0 ↔ d.all (fun q => q.2.den == 1) = true := by
  induction d with
  | nil => simp
  | cons q d ih =>
    have hnn : 0 ≤ (d.map fun q => oddOne q.2).sum := List.sum_nonneg (by
      intro a ha
      obtain ⟨q, -, rfl⟩ := List.mem_map.mp ha
      exact oddOne_nonneg _)
    rw [List.map_cons, List.sum_cons, List.all_cons, Bool.and_eq_true, ← ih, add_eq_zero_iff_of_nonneg (oddOne_nonneg _) hnn]
    refine and_congr ?_ Iff.rfl
    unfold oddOne
    split <;> simp_all

theorem Cst.allInt_poly (c : Cst) : c.allInt = true ↔ (c.poly.linear.coeffs.map fun q => oddOne q.2).sum = 0 ∧
    (c.poly.quadratic.coeffs.map fun q => oddOne q.2).sum = 0 := by
  rw [sum_oddOne, sum_oddOne]
  cases c <;> simp [Cst.allInt, Cst.poly]

theorem lbAt_idx {p : QP} {v : Variable} (h : v ∈ p.vars) : p.lbAt (p.vars.idxOf v) = v.lb ∧ p.ubAt (p.vars.idxOf v) = v.ub := by
  unfold QP.lbAt QP.ubAt
  rw [atVar_spec h]
  exact ⟨rfl, rfl⟩

theorem SameCst.values {c c' : Cst} (h : SameCst p p' c c') : SameValues p p' c.poly c'.poly := fun y y' hy => by
  rw [Cst.poly_val, Cst.poly_val, h.val y y' hy]

/-- What the converter reads off a constraint. -/
structure SameData (mode : SlackMode) (p p' : QP) (c c' : Cst) : Prop where
  allInt : c'.allInt = c.allInt
  target : c'.target mode = c.target mode
  slack : c'.slack mode p' = c.slack mode p

theorem SameCst.data {c c' : Cst} (mode : SlackMode) (hp : p.WF) (hp' : p'.WF) (hv : p'.vars.Perm p.vars) (hc : c ∈ p.allCsts)
    (hc' : c' ∈ p'.allCsts) (h : SameCst p p' c c') : SameData mode p p' c c' := by
  obtain ⟨f1, f2⟩ := Cst.poly_fits hp hc
  obtain ⟨f1', f2'⟩ := Cst.poly_fits hp' hc'
  have lin := h.values.linSum hp hp' hv f1 f1' f2.1 f2'.1
  have quad := h.values.quadSum hp hp' hv f1.1 f1'.1 f2 f2'
  have hb : ∀ v ∈ p.vars, p'.lbAt (p'.vars.idxOf v) = p.lbAt (p.vars.idxOf v) ∧
      p'.ubAt (p'.vars.idxOf v) = p.ubAt (p.vars.idxOf v) := by
    intro v hm
    have e := lbAt_idx hm
    have e' := lbAt_idx (hv.mem_iff.mpr hm)
    rw [e.1, e.2, e'.1, e'.2]
    exact ⟨rfl, rfl⟩
  have hlow : c'.low p' = c.low p := by
    rw [Cst.low_poly, Cst.low_poly]
    congr 1
    · refine lin (fun i a => min (p.lbAt i * a) (p.ubAt i * a)) (fun i a => min (p'.lbAt i * a) (p'.ubAt i * a)) (by simp) (by simp) ?_
      intro v hm a
      rw [(hb v hm).1, (hb v hm).2]
    · refine quad (fun i j a => min (min (min (p.lbAt i * p.lbAt j * a) (p.lbAt i * p.ubAt j * a)) (p.ubAt i * p.lbAt j * a)) (p.ubAt i * p.ubAt j * a))
        (fun i j a => min (min (min (p'.lbAt i * p'.lbAt j * a) (p'.lbAt i * p'.ubAt j * a)) (p'.ubAt i * p'.lbAt j * a)) (p'.ubAt i * p'.ubAt j * a))
        (by simp) (by simp) ?_ ?_ ?_
      · intro i j a
        rw [mul_comm (p.lbAt j), mul_comm (p.lbAt j), mul_comm (p.ubAt j), mul_comm (p.ubAt j), min_assoc (p.lbAt i * p.lbAt j * a),
          min_comm (p.lbAt i * p.ubAt j * a), ← min_assoc]
      · intro i j a
        rw [mul_comm (p'.lbAt j), mul_comm (p'.lbAt j), mul_comm (p'.ubAt j), mul_comm (p'.ubAt j), min_assoc (p'.lbAt i * p'.lbAt j * a),
          min_comm (p'.lbAt i * p'.ubAt j * a), ← min_assoc]
      · intro v hm w hw a
        simp only [hb v hm, hb w hw]
  have hhigh : c'.high p' = c.high p := by
    rw [Cst.high_poly, Cst.high_poly]
    congr 1
    · refine lin (fun i a => max (p.lbAt i * a) (p.ubAt i * a)) (fun i a => max (p'.lbAt i * a) (p'.ubAt i * a)) (by simp) (by simp) ?_
      intro v hm a
      rw [(hb v hm).1, (hb v hm).2]
    · refine quad (fun i j a => max (max (max (p.lbAt i * p.lbAt j * a) (p.lbAt i * p.ubAt j * a)) (p.ubAt i * p.lbAt j * a)) (p.ubAt i * p.ubAt j * a))
        (fun i j a => max (max (max (p'.lbAt i * p'.lbAt j * a) (p'.lbAt i * p'.ubAt j * a)) (p'.ubAt i * p'.lbAt j * a)) (p'.ubAt i * p'.ubAt j * a))
        (by simp) (by simp) ?_ ?_ ?_
      · intro i j a
        rw [mul_comm (p.lbAt j), mul_comm (p.lbAt j), mul_comm (p.ubAt j), mul_comm (p.ubAt j), max_assoc (p.lbAt i * p.lbAt j * a),
          max_comm (p.lbAt i * p.ubAt j * a), ← max_assoc]
      · intro i j a
        rw [mul_comm (p'.lbAt j), mul_comm (p'.lbAt j), mul_comm (p'.ubAt j), mul_comm (p'.ubAt j), max_assoc (p'.lbAt i * p'.lbAt j * a),
          max_comm (p'.lbAt i * p'.ubAt j * a), ← max_assoc]
      · intro v hm w hw a
        simp only [hb v hm, hb w hw]
  have hint : c'.allInt = c.allInt := by
    rw [Bool.eq_iff_iff, Cst.allInt_poly, Cst.allInt_poly,
      lin (fun _ a => oddOne a) (fun _ a => oddOne a) (fun _ => rfl) (fun _ => rfl) (fun _ _ _ => rfl),
      quad (fun _ _ a => oddOne a) (fun _ _ a => oddOne a) (fun _ _ => rfl) (fun _ _ => rfl) (fun _ _ _ => rfl) (fun _ _ _ => rfl)
        (fun _ _ _ _ _ => rfl)]
  have htar : c'.target mode = c.target mode := by
    unfold Cst.target
    rw [hint, h.sense, h.rhs]
  refine ⟨hint, htar, ?_⟩
  unfold Cst.slack Cst.room
  rw [htar, hlow, hhigh, h.sense, h.name, hint]

theorem Renumbered.data (h : Renumbered p p') (mode : SlackMode) (hp : p.WF) (hp' : p'.WF) :
    List.Forall₂ (fun c c' => SameCst p p' c c' ∧ SameData mode p p' c c' ∧ c ∈ p.allCsts ∧ c' ∈ p'.allCsts) p.allCsts p'.allCsts := by
  have : ∀ {cs cs' : List Cst}, List.Forall₂ (SameCst p p') cs cs' → (∀ c ∈ cs, c ∈ p.allCsts) → (∀ c ∈ cs', c ∈ p'.allCsts) →
      List.Forall₂ (fun c c' => SameCst p p' c c' ∧ SameData mode p p' c c' ∧ c ∈ p.allCsts ∧ c' ∈ p'.allCsts) cs cs' := by
    intro cs cs' hf
    induction hf with
    | nil => intro _ _; exact .nil
    | cons h1 _ ih =>
      intro h2 h3
      rw [List.forall_mem_cons] at h2 h3
      exact .cons ⟨h1, h1.data mode hp hp' h.vars h2.1 h3.1, h2.1, h3.1⟩ (ih h2.2 h3.2)
  exact this h.allCsts (fun _ hc => hc) fun _ hc => hc

theorem Renumbered.slacks (h : Renumbered p p') (mode : SlackMode) (hp : p.WF) (hp' : p'.WF) :
    p'.allCsts.flatMap (Cst.slack mode p') = p.allCsts.flatMap (Cst.slack mode p) := by
  have : List.Forall₂ (fun c c' => c'.slack mode p' = c.slack mode p) p.allCsts p'.allCsts :=
    (h.data mode hp hp').imp fun _ _ hc => hc.2.1.slack
  generalize p.allCsts = l at this
  generalize p'.allCsts = l' at this
  induction this with
  | nil => rfl
  | cons hc _ ih => rw [List.flatMap_cons, List.flatMap_cons, ih, hc]

theorem copyAllVars_bounds {vs : List Variable} {dst dst' : QP} (h : copyAllVars vs dst = .ok dst') :
    ∀ v ∈ vs, v.vartype ≠ .binary → v.lb ≤ v.ub := by
  induction vs generalizing dst with
  | nil => simp
  | cons v vs ih =>
    rw [List.forall_mem_cons]
    simp only [copyAllVars] at h
    cases ht : v.vartype with
    | binary =>
      simp only [ht] at h
      split at h
      · simp at h
      · exact ⟨fun hh => absurd rfl hh, ih h⟩
    | integer =>
      simp only [ht] at h
      split at h
      · simp at h
      · rename_i hadd
        exact ⟨fun _ => (addVariable_grows hadd).2.1, ih h⟩
    | continuous =>
      simp only [ht] at h
      split at h
      · simp at h
      · rename_i hadd
        exact ⟨fun _ => (addVariable_grows hadd).2.1, ih h⟩

theorem copyAllVars_ok {vs : List Variable} {dst : QP} (hd : dst.Consistent)
    (hn : ((dst.vars ++ vs).map Variable.name).Nodup) (hb : ∀ v ∈ vs, v.vartype ≠ .binary → v.lb ≤ v.ub) :
    ∃ dst', copyAllVars vs dst = .ok dst' := by
  induction vs generalizing dst with
  | nil => exact ⟨dst, rfl⟩
  | cons v vs ih =>
    rw [List.forall_mem_cons] at hb
    have hn' : (dst.vars.map Variable.name ++ v.name :: vs.map Variable.name).Nodup := by simpa using hn
    have hfresh : v.name ∉ Assoc.keys dst.varsIndex := by
      rw [hd.vars.keys]
      intro hmem
      rw [List.nodup_append] at hn'
      exact hn'.2.2 _ hmem _ List.mem_cons_self rfl
    have go : ∀ d' : QP, ∀ w : Variable, w.name = v.name → Grows dst d' [w] →
        ∃ dst', copyAllVars vs d' = .ok dst' := by
      intro d' w hw hg
      apply ih (hg.cons hd) _ hb.2
      rw [hg.vars]
      simpa [hw] using hn'
    unfold copyAllVars
    cases ht : v.vartype with
    | binary =>
      obtain ⟨p', hp'⟩ := addVariable_success (p := dst) (lb := 0) (ub := 1) (t := .binary) hfresh (by norm_num)
      simp only [QP.binaryVar, hp']
      exact go p' ⟨v.name, 0, 1, .binary⟩ rfl (addVariable_grows hp').1
    | integer =>
      obtain ⟨p', hp'⟩ := addVariable_success (p := dst) (t := .integer) hfresh (hb.1 (by simp [ht]))
      simp only [QP.integerVar, hp']
      exact go p' ⟨v.name, v.lb, v.ub, .integer⟩ rfl (addVariable_grows hp').1
    | continuous =>
      obtain ⟨p', hp'⟩ := addVariable_success (p := dst) (t := .continuous) hfresh (hb.1 (by simp [ht]))
      simp only [QP.continuousVar, hp']
      exact go p' ⟨v.name, v.lb, v.ub, .continuous⟩ rfl (addVariable_grows hp').1

/-- The copy of the variables succeeds for both programs or for none. -/
theorem copyAllVars_perm (hp' : p'.WF) (hv : p'.vars.Perm p.vars) {n n' : String} {d : QP}
    (h : copyAllVars p.vars (QP.empty n) = .ok d) : ∃ d', copyAllVars p'.vars (QP.empty n') = .ok d' :=
  copyAllVars_ok (QP.empty_consistent n') (by simpa [QP.empty] using hp'.cons.vars.2)
    fun v hm => copyAllVars_bounds h v (hv.mem_iff.mp hm)

theorem Renumbered.names (h : Renumbered p p') (hne : ∀ c ∈ p.allCsts, c.name ≠ "") : ∀ c ∈ p'.allCsts, c.name ≠ "" := by
  intro c' hc'
  obtain ⟨c, hc, hcc⟩ := forall₂_right h.allCsts hc'
  rw [hcc.name]
  exact hne c hc

theorem Renumbered.modeFits (h : Renumbered p p') (mode : SlackMode) (hp : p.WF) (hp' : p'.WF) :
    (∀ c ∈ p'.allCsts, ModeFits mode c) ↔ ∀ c ∈ p.allCsts, ModeFits mode c := by
  have : List.Forall₂ (fun c c' => ModeFits mode c' ↔ ModeFits mode c) p.allCsts p'.allCsts :=
    (h.data mode hp hp').imp fun c c' hc => by
      unfold ModeFits
      rw [hc.1.sense, ← Cst.allInt_iff, ← Cst.allInt_iff, hc.2.1.allInt]
  generalize p.allCsts = l at this
  generalize p'.allCsts = l' at this
  induction this with
  | nil => simp
  | cons hc _ ih =>
    rw [List.forall_mem_cons, List.forall_mem_cons]
    exact and_congr hc ih

/-- **C116** (slack variables, errors): `InequalityToEquality` converts both programs or raises the same error for both. -/
theorem C116_slack_errors (mode : SlackMode) (p p' : QP) (hp : p.WF) (hp' : p'.WF) (hne : ∀ c ∈ p.allCsts, c.name ≠ "")
    (h : Renumbered p p') :
    (p.ineqToEq mode = .error .optimization ∧ p'.ineqToEq mode = .error .optimization) ∨
      ∃ d d', p.ineqToEq mode = .ok d ∧ p'.ineqToEq mode = .ok d' := by
  cases h0 : copyAllVars p.vars (QP.empty p.name) with
  | error e =>
    refine Or.inl ⟨by simp only [QP.ineqToEq, h0, copyAllVars_error h0], ?_⟩
    cases h0' : copyAllVars p'.vars (QP.empty p'.name) with
    | error e' => simp only [QP.ineqToEq, h0', copyAllVars_error h0']
    | ok d' =>
      obtain ⟨d, hd⟩ := copyAllVars_perm (n' := p.name) hp h.vars.symm h0'
      rw [h0] at hd
      cases hd
  | ok d0 =>
    obtain ⟨d0', h0'⟩ := copyAllVars_perm (n' := p'.name) hp' h.vars h0
    have t := ineqToEq_total (mode := mode) hp hne h0
    have t' := ineqToEq_total (mode := mode) hp' (h.names hne) h0'
    have hiff : AllFit mode p' (p'.vars.map plainVar) p'.allCsts ↔ AllFit mode p (p.vars.map plainVar) p.allCsts := by
      unfold AllFit
      rw [h.modeFits mode hp hp', h.slacks mode hp hp',
        (((h.vars.map plainVar).append_right (p.allCsts.flatMap (Cst.slack mode p))).map Variable.name).nodup_iff]
    rw [hiff] at t'
    by_cases hc : AllFit mode p (p.vars.map plainVar) p.allCsts
    · obtain ⟨d, hd⟩ := t.1 hc
      obtain ⟨d', hd'⟩ := t'.1 hc
      exact Or.inr ⟨d, d', hd, hd'⟩
    · exact Or.inl ⟨t.2 hc, t'.2 hc⟩

/-- Points of the converted programs, seen as points of the sources. -/
theorem SamePoint.source {d d' : QP} {A A' : List Variable} (h1 : d.vars = p.vars.map plainVar ++ A)
    (h2 : d'.vars = p'.vars.map plainVar ++ A') {y y' : Nat → ℚ} (hy : SamePoint d d' y y') : SamePoint p p' y y' := by
  have get : ∀ {q e : QP} {B : List Variable}, e.vars = q.vars.map plainVar ++ B → ∀ {i : Nat} {v : Variable},
      q.vars[i]? = some v → e.vars[i]? = some (plainVar v) := by
    intro q e B he i v hi
    have hlt : i < (q.vars.map plainVar).length := by simpa using (List.getElem?_eq_some_iff.mp hi).1
    rw [he, List.getElem?_append_left hlt, List.getElem?_map, hi]
    rfl
  intro i j v hi hj
  exact hy i j (plainVar v) (get h1 hi) (get h2 hj)

/-- **C116** (slack variables): `InequalityToEquality` makes of the two programs again the same program with its variables in
another order.  Interpreting points with the same values of the variables gives points with the same values of the variables. -/
theorem C116_slack (mode : SlackMode) (p p' d d' : QP) (hp : p.WF) (hp' : p'.WF) (hne : ∀ c ∈ p.allCsts, c.name ≠ "")
    (h : Renumbered p p') (hd : p.ineqToEq mode = .ok d) (hd' : p'.ineqToEq mode = .ok d') :
    Renumbered d d' ∧ ∀ y y' : List ℚ, y.length = d.numVars → y'.length = d'.numVars → SamePoint d d' (pt y) (pt y') →
      ∃ x x', ineqInterpret p d y = .ok x ∧ ineqInterpret p' d' y' = .ok x' ∧ SamePoint p p' (pt x) (pt x') := by
  obtain ⟨w1, v1, l1, q1⟩ := ineqToEq_form hp hd
  obtain ⟨w2, v2, l2, q2⟩ := ineqToEq_form hp' hd'
  have f1 := ineqToEq_facts hp hd
  have f2 := ineqToEq_facts hp' hd'
  have hpv : d'.vars.Perm d.vars := by
    rw [v1, v2, h.slacks mode hp hp']
    exact (h.vars.map plainVar).append_right _
  have step : ∀ {cs cs' e e' : List Cst}, List.Forall₂ (SameCst p p') cs cs' → (∀ c ∈ cs, c ∈ p.allCsts) →
      (∀ c ∈ cs', c ∈ p'.allCsts) → List.Forall₂ (ExactForm mode p d) cs e → List.Forall₂ (ExactForm mode p' d') cs' e' →
      List.Forall₂ (SameCst d d') e e' := by
    intro cs cs' e e' hcs
    induction hcs generalizing e e' with
    | nil =>
      intro _ _ g1 g2
      cases g1
      cases g2
      exact .nil
    | @cons c c' cs cs' hc _ ih =>
      intro m1 m2 g1 g2
      rw [List.forall_mem_cons] at m1 m2
      cases g1 with
      | cons a1 a2 =>
        cases g2 with
        | cons b1 b2 =>
          refine .cons ?_ (ih m1.2 m2.2 a2 b2)
          have hdata := hc.data mode hp hp' h.vars m1.1 m2.1
          have hcn := hne c m1.1
          refine ⟨by rw [a1.name hcn, b1.name (by rw [hc.name]; exact hcn), hc.name], by rw [a1.sense, b1.sense],
            by rw [a1.rhs, b1.rhs, hdata.target], ?_⟩
          intro y y' hy
          have hval := hc.val y y' (hy.source v1 v2)
          rcases c.slack_cases mode p with h0 | ⟨v, h0⟩
          · rw [a1.none h0, b1.none (by rw [hdata.slack, h0]), hval]
          · have hv : v ∈ d.vars := by
              rw [v1]
              exact List.mem_append_right _ (List.mem_flatMap.mpr ⟨c, m1.1, by rw [h0]; simp⟩)
            have hv' := hpv.mem_iff.mpr hv
            rw [a1.some _ v h0 (atVar_spec hv), b1.some _ v (by rw [hdata.slack, h0]) (atVar_spec hv'), hval, hc.sense,
              hy _ _ v (atVar_spec hv) (atVar_spec hv')]
  refine ⟨⟨?_, hpv, by rw [f2.objective.1, f1.objective.1, h.sense], ?_, ?_, ?_⟩, ?_⟩
  · rw [f2.name, f1.name, h.name]
  · intro y y' hy
    rw [f2.objective.2, f1.objective.2, h.objective y y' (hy.source v1 v2)]
  · exact step h.lins (fun c hc => List.mem_append_left _ hc) (fun c hc => List.mem_append_left _ hc) l1 l2
  · exact step h.quads (fun c hc => List.mem_append_right _ hc) (fun c hc => List.mem_append_right _ hc) q1 q2
  · intro y y' hy hy' hyy
    refine ⟨_, _, (ineqInterpret_iff hp.cons f1.starts y _).mpr ⟨hy.ge, rfl⟩,
      (ineqInterpret_iff hp'.cons f2.starts y' _).mpr ⟨hy'.ge, rfl⟩, ?_⟩
    have take : ∀ {q : QP} (z : List ℚ) {i : Nat} {v : Variable}, q.vars[i]? = some v → pt (z.take q.numVars) i = pt z i := by
      intro q z i v hi
      have : i < q.numVars := (List.getElem?_eq_some_iff.mp hi).1
      simp [pt, List.getD_eq_getElem?_getD, this]
    intro i j v hi hj
    rw [take y hi, take y' hj]
    exact hyy.source v1 v2 i j v hi hj

/-- The conversions of the two programs. -/
def renEq : QP := match renQP.ineqToEq .auto with | .ok d => d | .error _ => QP.empty ""

/-- See `renEq`. -/
def renEq2 : QP := match renQP2.ineqToEq .auto with | .ok d => d | .error _ => QP.empty ""

example : renQP.WF ∧ renQP2.WF ∧ (∀ c ∈ renQP.allCsts, c.name ≠ "") ∧ renQP.ineqToEq .auto = .ok renEq ∧
    renQP2.ineqToEq .auto = .ok renEq2 ∧
    renEq.vars.map (fun v => (v.name, v.ub)) = [("b", 1), ("x", 2), ("c@int_slack", 2), ("r@int_slack", 4), ("q@int_slack", 4)] ∧
    renEq2.vars.map (fun v => (v.name, v.ub)) = [("x", 2), ("b", 1), ("c@int_slack", 2), ("r@int_slack", 4), ("q@int_slack", 4)] ∧
    renEq.lins.map (fun c => (c.name, c.linear.coeffs, c.rhs)) = [("c", [(0, 1), (1, 1), (2, 1)], 1), ("r", [(0, 2), (1, 1), (3, -1)], 0)] ∧
    renEq2.lins.map (fun c => (c.name, c.linear.coeffs, c.rhs)) = [("c", [(1, 1), (0, 1), (2, 1)], 1), ("r", [(1, 2), (0, 1), (3, -1)], 0)] := by
  decide +kernel

example : SamePoint renEq renEq2 (pt [1, 2, 3, 4, 5]) (pt [2, 1, 3, 4, 5]) := samePoint_of (by decide +kernel)

/-- Both fail: the mode does not exist. -/
example : renQP.ineqToEq .other = .error .optimization ∧ renQP2.ineqToEq .other = .error .optimization := by decide +kernel

end Verif
