import Verif.PropsWellFormed

/-!
# Assignments to parts of a program: C90
-/

namespace Verif

/-- The key denotes the variable with the index `j`: by this index or by its name. -/
def QP.KeyOf (p : QP) (k : Key) (j : Nat) : Prop :=
  match k with
  | .idx i => i = j ∧ j < p.vars.length
  | .name s => ∃ v, p.vars[j]? = some v ∧ v.name = s

/-- `new` is `old` with the coefficient of the variable `k` replaced by `v`: the value changes at every point as if
`(v - a) * x` was added, where `a` is the coefficient that was there. -/
def LinExpr.CoeffSet (p : QP) (old : LinExpr) (k : Key) (v : ℚ) (new : LinExpr) : Prop :=
  ∃ j a, p.KeyOf k j ∧ old.getItem p.varsIndex k = .ok a ∧ new.getItem p.varsIndex k = .ok v ∧
    ∀ x : Nat → ℚ, new.val x = old.val x + (v - a) * x j

/-- The same for the coefficient of a product of two variables. -/
def QuadExpr.CoeffSet (p : QP) (old : QuadExpr) (k k' : Key) (v : ℚ) (new : QuadExpr) : Prop :=
  ∃ i j a, p.KeyOf k i ∧ p.KeyOf k' j ∧ old.getItem p.varsIndex k k' = .ok a ∧
    new.getItem p.varsIndex k k' = .ok v ∧ ∀ x : Nat → ℚ, new.val x = old.val x + (v - a) * (x i * x j)

/-- `new` is the linear part of every objective made by `minimize` or `maximize` with these coefficients. -/
def LinInput.Gives (p : QP) (l : LinInput) (new : LinExpr) : Prop :=
  ∀ s c q, (p.setObjective s c l q).1 = .ok () → (p.setObjective s c l q).2.objective.linear = new

/-- `new` is the quadratic part of every objective made by `minimize` or `maximize` with these coefficients. -/
def QuadInput.Gives (p : QP) (q : QuadInput) (new : QuadExpr) : Prop :=
  ∀ s c l, (p.setObjective s c l q).1 = .ok () → (p.setObjective s c l q).2.objective.quadratic = new

/-- What the assignment is for: `c` becomes `c'`. -/
def LinEdit.Means (p : QP) (c c' : LinCst) : LinEdit → Prop
  | .sense s => c' = ⟨c.name, c.linear, s, c.rhs⟩
  | .rhs r => c' = ⟨c.name, c.linear, c.sense, r⟩
  | .linear l => ∃ f, l.Gives p f ∧ c' = ⟨c.name, f, c.sense, c.rhs⟩
  | .linCoeff k v => ∃ f, c.linear.CoeffSet p k v f ∧ c' = ⟨c.name, f, c.sense, c.rhs⟩

/-- What the assignment is for: `c` becomes `c'`. -/
def QuadEdit.Means (p : QP) (c c' : QuadCst) : QuadEdit → Prop
  | .sense s => c' = ⟨c.name, c.linear, c.quadratic, s, c.rhs⟩
  | .rhs r => c' = ⟨c.name, c.linear, c.quadratic, c.sense, r⟩
  | .linear l => ∃ f, l.Gives p f ∧ c' = ⟨c.name, f, c.quadratic, c.sense, c.rhs⟩
  | .quadratic q => ∃ f, q.Gives p f ∧ c' = ⟨c.name, c.linear, f, c.sense, c.rhs⟩
  | .linCoeff k v => ∃ f, c.linear.CoeffSet p k v f ∧ c' = ⟨c.name, f, c.quadratic, c.sense, c.rhs⟩
  | .quadCoeff k k' v => ∃ f, c.quadratic.CoeffSet p k k' v f ∧ c' = ⟨c.name, c.linear, f, c.sense, c.rhs⟩

/-- What the assignment is for: `o` becomes `o'`. -/
def ObjEdit.Means (p : QP) (o o' : Objective) : ObjEdit → Prop
  | .constant c => o' = ⟨c, o.linear, o.quadratic, o.sense⟩
  | .sense s => o' = ⟨o.constant, o.linear, o.quadratic, s⟩
  | .linear l => ∃ f, l.Gives p f ∧ o' = ⟨o.constant, f, o.quadratic, o.sense⟩
  | .quadratic q => ∃ f, q.Gives p f ∧ o' = ⟨o.constant, o.linear, f, o.sense⟩
  | .linCoeff k v => ∃ f, o.linear.CoeffSet p k v f ∧ o' = ⟨o.constant, f, o.quadratic, o.sense⟩
  | .quadCoeff k k' v => ∃ f, o.quadratic.CoeffSet p k k' v f ∧ o' = ⟨o.constant, o.linear, f, o.sense⟩

/-- The lists agree except at `i`, where `x` has become `y`. -/
def ChangedAt {α : Type} (i : Nat) (x y : α) (l l' : List α) : Prop :=
  l'.length = l.length ∧ l[i]? = some x ∧ l'[i]? = some y ∧ ∀ j, j ≠ i → l'[j]? = l[j]?

theorem changedAt_set {α : Type} {i : Nat} {x y : α} {l : List α} (h : l[i]? = some x) :
    ChangedAt i x y l (l.set i y) := by
  have hi : i < l.length := (List.getElem?_eq_some_iff.mp h).1
  refine ⟨List.length_set, h, ?_, fun j hj => ?_⟩
  · rw [List.getElem?_set_self hi]
  · rw [List.getElem?_set_ne (Ne.symm hj)]

theorem keyOf_of_resolve {p : QP} (hc : p.Consistent) {n : Nat} (hn : n ≤ p.numVars) {k : Key} {j : Nat}
    (h : resolve p.varsIndex n k = .ok j) : p.KeyOf k j := by
  have hlt : j < p.vars.length := lt_of_lt_of_le (resolve_lt h) hn
  cases k with
  | idx i =>
    unfold resolve at h
    simp only at h
    split_ifs at h
    simp only [Except.ok.injEq] at h
    exact ⟨h, hlt⟩
  | name s =>
    have h1 : Assoc.get? p.varsIndex s = some j := by
      simp only [resolve] at h
      split at h
      · simp at h
      · rename_i i hi
        split_ifs at h
        simp only [Except.ok.injEq] at h
        rw [hi, h]
    have h2 := (IndexOK.get? hc.vars s j).mp h1
    rw [List.getElem?_map] at h2
    cases hv : p.vars[j]? with
    | none => simp [hv] at h2
    | some v => simp only [hv, Option.map_some, Option.some.injEq] at h2; exact ⟨v, hv, h2⟩

theorem LinExpr.coeffSet_of {p : QP} (hc : p.Consistent) {l f : LinExpr} (hl : l.Fits p.numVars) {k : Key} {v : ℚ}
    (h : l.setItem p.varsIndex k v = .ok f) : l.CoeffSet p k v f := by
  unfold LinExpr.setItem at h
  split at h
  · simp at h
  · rename_i j hj
    simp only [Except.ok.injEq] at h
    subst h
    refine ⟨j, Dict.get l.coeffs j, keyOf_of_resolve hc hl.2 hj, ?_, ?_, fun x => ?_⟩
    · simp only [LinExpr.getItem, hj]
    · simp only [LinExpr.getItem, hj, Dict.get_dokSet hl.1.nodup, if_pos]
    · simp only [LinExpr.val, Dict.sum_dokSet]

theorem QuadExpr.coeffSet_of {p : QP} (hc : p.Consistent) {l f : QuadExpr} (hl : l.Fits p.numVars) {k k' : Key} {v : ℚ}
    (h : l.setItem p.varsIndex k k' v = .ok f) : l.CoeffSet p k k' v f := by
  unfold QuadExpr.setItem at h
  split at h
  · simp at h
  · rename_i i hi
    split at h
    · simp at h
    · rename_i j hj
      simp only [Except.ok.injEq] at h
      subst h
      refine ⟨i, j, Dict.get l.coeffs (min i j, max i j), keyOf_of_resolve hc hl.2 hi, keyOf_of_resolve hc hl.2 hj,
        ?_, ?_, fun x => ?_⟩
      · simp only [QuadExpr.getItem, hi, hj]
      · simp only [QuadExpr.getItem, hi, hj, Dict.get_dokSet hl.1.nodup, if_pos]
      · simp only [QuadExpr.val, Dict.sum_dokSet]
        rcases le_total i j with h | h
        · rw [min_eq_left h, max_eq_right h]
        · rw [min_eq_right h, max_eq_left h, mul_comm (x j)]

theorem LinInput.gives_of {p : QP} {l : LinInput} {f : LinExpr} (h : LinExpr.ofInput p.varsIndex p.numVars l = .ok f) :
    l.Gives p f := by
  intro s c q hok
  unfold QP.setObjective at hok ⊢
  rw [h] at hok ⊢
  cases hq : QuadExpr.ofInput p.varsIndex p.numVars q with
  | error e => simp [hq] at hok
  | ok g => simp

theorem QuadInput.gives_of {p : QP} {q : QuadInput} {f : QuadExpr} (h : QuadExpr.ofInput p.varsIndex p.numVars q = .ok f) :
    q.Gives p f := by
  intro s c l hok
  unfold QP.setObjective at hok ⊢
  rw [h] at hok ⊢
  cases hl : LinExpr.ofInput p.varsIndex p.numVars l with
  | error e => simp [hl] at hok
  | ok g => simp

/-- **C90**: an assignment that does not raise an exception changes what it is meant to change and nothing else: the value
of the new expression differs from the old one by the change of the coefficient at every point, the other fields, the other
constraints and variables, the tables of names and the status are as before. -/
theorem C90_edit {p p' : QP} (hp : p.WF) {e : Edit} (h : (Call.edit e).apply p = (.ok (), p')) :
    match e with
    | .name s => p' = { p with name := s }
    | .vartype i t => ∃ v v', ChangedAt i v v' p.vars p'.vars ∧ v' = ⟨v.name, v.lb, v.ub, t⟩ ∧ p' = { p with vars := p'.vars }
    | .lin i d => ∃ c c', ChangedAt i c c' p.lins p'.lins ∧ d.Means p c c' ∧ p' = { p with lins := p'.lins }
    | .quad i d => ∃ c c', ChangedAt i c c' p.quads p'.quads ∧ d.Means p c c' ∧ p' = { p with quads := p'.quads }
    | .obj d => d.Means p p.objective p'.objective ∧ p' = { p with objective := p'.objective } := by
  rcases QP.edit_cases (apply_edit_ok h) with ⟨s, rfl, rfl⟩ | ⟨i, t, x, rfl, hx, rfl⟩ | ⟨i, d, c, c', rfl, hx, hc, rfl⟩ |
    ⟨i, d, c, c', rfl, hx, hc, rfl⟩ | ⟨d, o, rfl, hc, rfl⟩
  · rfl
  · exact ⟨x, _, changedAt_set hx, rfl, rfl⟩
  · refine ⟨c, c', changedAt_set hx, ?_, rfl⟩
    have h0 := hp.lins c (List.mem_of_getElem? hx)
    rcases LinCst.edit_cases hc with ⟨_, rfl, rfl⟩ | ⟨_, rfl, rfl⟩ | ⟨l, f, rfl, hf, rfl⟩ | ⟨k, v, f, rfl, hf, rfl⟩
    · rfl
    · rfl
    · exact ⟨f, LinInput.gives_of hf, rfl⟩
    · exact ⟨f, LinExpr.coeffSet_of hp.cons h0 hf, rfl⟩
  · refine ⟨c, c', changedAt_set hx, ?_, rfl⟩
    have h0 := hp.quads c (List.mem_of_getElem? hx)
    rcases QuadCst.edit_cases hc with ⟨_, rfl, rfl⟩ | ⟨_, rfl, rfl⟩ | ⟨l, f, rfl, hf, rfl⟩ | ⟨l, f, rfl, hf, rfl⟩ |
      ⟨k, v, f, rfl, hf, rfl⟩ | ⟨k, k', v, f, rfl, hf, rfl⟩
    · rfl
    · rfl
    · exact ⟨f, LinInput.gives_of hf, rfl⟩
    · exact ⟨f, QuadInput.gives_of hf, rfl⟩
    · exact ⟨f, LinExpr.coeffSet_of hp.cons h0.1 hf, rfl⟩
    · exact ⟨f, QuadExpr.coeffSet_of hp.cons h0.2 hf, rfl⟩
  · refine ⟨?_, rfl⟩
    rcases Objective.edit_cases hc with ⟨_, rfl, rfl⟩ | ⟨_, rfl, rfl⟩ | ⟨l, f, rfl, hf, rfl⟩ | ⟨l, f, rfl, hf, rfl⟩ |
      ⟨k, v, f, rfl, hf, rfl⟩ | ⟨k, k', v, f, rfl, hf, rfl⟩
    · rfl
    · rfl
    · exact ⟨f, LinInput.gives_of hf, rfl⟩
    · exact ⟨f, QuadInput.gives_of hf, rfl⟩
    · exact ⟨f, LinExpr.coeffSet_of hp.cons hp.objLin hf, rfl⟩
    · exact ⟨f, QuadExpr.coeffSet_of hp.cons hp.objQuad hf, rfl⟩

theorem resolve_of_keyOf {p : QP} (hc : p.Consistent) {n : Nat} {k : Key} {j : Nat} (h : p.KeyOf k j) (hn : j < n) :
    resolve p.varsIndex n k = .ok j := by
  cases k with
  | idx i => obtain ⟨rfl, _⟩ := h; exact resolve_idx hn
  | name s =>
    obtain ⟨v, hv, rfl⟩ := h
    have h1 : Assoc.get? p.varsIndex v.name = some j := by
      rw [IndexOK.get? hc.vars, List.getElem?_map, hv]; rfl
    simp only [resolve, h1, if_pos hn]

/-- **C90, which assignments succeed, the part that holds**: a coefficient of a constraint or the objective can be assigned
for every variable that the program had when the expression was created, by name or index; all assignments of other parts
to existing constraints succeed too.  Full statement: coefficients for every variable of the program.  Missing (false by
`C90_violated`): variables created later. -/
theorem C90_succeeds_partial {p : QP} (hp : p.Consistent) {k k' : Key} {j j' : Nat} (hk : p.KeyOf k j)
    (hk' : p.KeyOf k' j') (v : ℚ) :
    (∀ i c, p.lins[i]? = some c → j < c.linear.n → ∃ p', (Call.edit (.lin i (.linCoeff k v))).apply p = (.ok (), p')) ∧
    (∀ i c, p.quads[i]? = some c → j < c.linear.n → ∃ p', (Call.edit (.quad i (.linCoeff k v))).apply p = (.ok (), p')) ∧
    (∀ i c, p.quads[i]? = some c → j < c.quadratic.n → j' < c.quadratic.n →
      ∃ p', (Call.edit (.quad i (.quadCoeff k k' v))).apply p = (.ok (), p')) ∧
    (j < p.objective.linear.n → ∃ p', (Call.edit (.obj (.linCoeff k v))).apply p = (.ok (), p')) ∧
    (j < p.objective.quadratic.n → j' < p.objective.quadratic.n →
      ∃ p', (Call.edit (.obj (.quadCoeff k k' v))).apply p = (.ok (), p')) ∧
    (∀ i c s, p.lins[i]? = some c → ∃ p', (Call.edit (.lin i (.sense s))).apply p = (.ok (), p')) ∧
    (∀ i c, p.lins[i]? = some c → ∃ p', (Call.edit (.lin i (.rhs v))).apply p = (.ok (), p')) ∧
    (∀ i c s, p.quads[i]? = some c → ∃ p', (Call.edit (.quad i (.sense s))).apply p = (.ok (), p')) ∧
    ∀ i c, p.quads[i]? = some c → ∃ p', (Call.edit (.quad i (.rhs v))).apply p = (.ok (), p') := by
  refine ⟨?_, ?_, ?_, ?_, ?_, ?_, ?_, ?_, ?_⟩
  · intro i c hc hj
    simp only [Call.apply, QP.edit, hc, LinCst.edit, LinExpr.setItem, resolve_of_keyOf hp hk hj]
    exact ⟨_, rfl⟩
  · intro i c hc hj
    simp only [Call.apply, QP.edit, hc, QuadCst.edit, LinExpr.setItem, resolve_of_keyOf hp hk hj]
    exact ⟨_, rfl⟩
  · intro i c hc hj hj'
    simp only [Call.apply, QP.edit, hc, QuadCst.edit, QuadExpr.setItem, resolve_of_keyOf hp hk hj,
      resolve_of_keyOf hp hk' hj']
    exact ⟨_, rfl⟩
  · intro hj
    simp only [Call.apply, QP.edit, Objective.edit, LinExpr.setItem, resolve_of_keyOf hp hk hj]
    exact ⟨_, rfl⟩
  · intro hj hj'
    simp only [Call.apply, QP.edit, Objective.edit, QuadExpr.setItem, resolve_of_keyOf hp hk hj,
      resolve_of_keyOf hp hk' hj']
    exact ⟨_, rfl⟩
  · intro i c s hc
    simp only [Call.apply, QP.edit, hc, LinCst.edit]
    exact ⟨_, rfl⟩
  · intro i c hc
    simp only [Call.apply, QP.edit, hc, LinCst.edit]
    exact ⟨_, rfl⟩
  · intro i c s hc
    simp only [Call.apply, QP.edit, hc, QuadCst.edit]
    exact ⟨_, rfl⟩
  · intro i c hc
    simp only [Call.apply, QP.edit, hc, QuadCst.edit]
    exact ⟨_, rfl⟩

/-- **C90** (bounds): assigning a lower bound that is at most the upper bound, or an upper bound that is at least the lower
bound, changes this bound of this variable and nothing else; any other value is rejected and nothing changes. -/
theorem C90_bounds {p : QP} {i : Nat} {x : Variable} (hx : p.vars[i]? = some x) (v : ℚ) :
    (v ≤ x.ub → (Call.setLb i v).apply p = (.ok (), { p with vars := p.vars.set i ⟨x.name, v, x.ub, x.vartype⟩ })) ∧
    (x.ub < v → (Call.setLb i v).apply p = (.error .optimization, p)) ∧
    (x.lb ≤ v → (Call.setUb i v).apply p = (.ok (), { p with vars := p.vars.set i ⟨x.name, x.lb, v, x.vartype⟩ })) ∧
    (v < x.lb → (Call.setUb i v).apply p = (.error .optimization, p)) := by
  simp only [Call.apply, QP.setLowerbound, QP.setUpperbound, hx, Variable.setLb, Variable.setUb]
  refine ⟨fun h => ?_, fun h => ?_, fun h => ?_, fun h => ?_⟩
  · rw [if_neg (not_lt.mpr h)]
  · rw [if_pos h]
  · rw [if_neg (not_lt.mpr h)]
  · rw [if_pos h]

/-- A variable fixed by its bounds; a bound on the wrong side is rejected. -/
example : (runCalls (QP.empty "") [.addVar 0 5 .integer (some "x"), .setLb 0 5]).2.vars = [⟨"x", 5, 5, .integer⟩] ∧
    ((Call.setUb 0 4).apply (runCalls (QP.empty "") [.addVar 0 5 .integer (some "x"), .setLb 0 5]).2).1 =
      .error .optimization := by decide +kernel

/-- **C90 is violated**: a constraint made before the variable `y` can not be given a coefficient of `y`:
`qp.linear_constraints[0].linear["y"] = 1` raises an `IndexError`; so does the objective. -/
theorem C90_violated : ∃ p : QP, BuiltOK Call.FitsIn p ∧ p.KeyOf (.name "y") 1 ∧
    (Call.edit (.lin 0 (.linCoeff (.name "y") 1))).apply p = (.error .indexError, p) ∧
    (Call.edit (.obj (.linCoeff (.name "y") 1))).apply p = (.error .indexError, p) := by
  refine ⟨_, .call (.call (.call (.new "") (.addVar 0 1 .binary (some "x")) trivial
    (Prod.ext_iff.mpr ⟨by decide +kernel, rfl⟩)) (.linear (.dict [(.name "x", 1)]) (.str "<=") 1 none) trivial
    (Prod.ext_iff.mpr ⟨by decide +kernel, rfl⟩)) (.addVar 0 1 .binary (some "y")) trivial
    (Prod.ext_iff.mpr ⟨by decide +kernel, rfl⟩), ⟨⟨"y", 0, 1, .binary⟩, by decide +kernel, rfl⟩, by decide +kernel,
    by decide +kernel⟩

/-- A successful assignment of a coefficient by name. -/
example : ∃ p p' : QP, p.WF ∧ (Call.edit (.lin 0 (.linCoeff (.name "y") 7))).apply p = (.ok (), p') ∧
    p.lins.map (fun c => c.linear.coeffs) = [[(0, 1), (1, 2)]] ∧ p'.lins.map (fun c => c.linear.coeffs) = [[(0, 1), (1, 7)]] := by
  refine ⟨(runCalls (QP.empty "") [.addVar 0 1 .binary (some "x"), .addVar 0 1 .binary (some "y"),
    .linear (.list [1, 2]) (.str "<=") 1 none]).2, _, by decide +kernel, Prod.ext_iff.mpr ⟨by decide +kernel, rfl⟩,
    by decide +kernel, by decide +kernel⟩

end Verif
