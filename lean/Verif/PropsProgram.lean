import Verif.EditLemmas

/-!
# C03 - C08: name lookup, exception safety, generated names, removal, feasibility
-/

namespace Verif

/-! ## C03: name lookup stays consistent -/

theorem map_name_set {l : List Variable} {i : Nat} {x y : Variable} (h : l[i]? = some x)
    (hn : y.name = x.name) : (l.set i y).map Variable.name = l.map Variable.name := by
  rw [List.map_set, hn]
  have hi : i < l.length := (List.getElem?_eq_some_iff.mp h).1
  have hx : l[i] = x := (List.getElem?_eq_some_iff.mp h).2
  apply List.ext_getElem
  · simp
  · intro j h1 h2
    rw [List.getElem_set]
    split
    · rename_i hij; subst hij; simp [hx]
    · rfl

theorem apply_consistent {p p' : QP} {c : Call} (h : c.apply p = (.ok (), p')) (hc : p.Consistent) :
    p'.Consistent := by
  cases c with
  | addVars keys lb ub t name fmt =>
    simp only [Call.apply] at h
    rcases hr : p.addVariables keys lb ub t name fmt with ⟨r, q⟩
    rw [hr] at h
    cases r with
    | error e => simp [Res.drop] at h
    | ok vs => simp [Res.drop] at h; subst h; exact (addVariables_extends hr).cons hc
  | addVar lb ub t name =>
    simp only [Call.apply] at h
    rcases hr : p.addVariable lb ub t name with ⟨r, q⟩
    rw [hr] at h
    cases r with
    | error e => simp [Res.drop] at h
    | ok vs => simp [Res.drop] at h; subst h; exact (addVariable_extends hr).cons hc
  | linear l s r nm =>
    simp only [Call.apply, QP.linearConstraint] at h
    split at h
    · simp [Res.drop] at h
    · rename_i nm' hnm
      split at h
      · simp [Res.drop] at h
      · split at h
        · simp [Res.drop] at h
        · simp [Res.drop] at h; subst h
          refine ⟨hc.vars, ?_, hc.quads⟩
          have := hc.lins.set (by rw [← hc.lins.keys]; exact chooseName_fresh hnm)
          simpa using this
  | quadratic l q s r nm =>
    simp only [Call.apply, QP.quadraticConstraint] at h
    split at h
    · simp [Res.drop] at h
    · rename_i nm' hnm
      split at h
      · simp [Res.drop] at h
      · split at h
        · simp [Res.drop] at h
        · split at h
          · simp [Res.drop] at h
          · simp [Res.drop] at h; subst h
            refine ⟨hc.vars, hc.lins, ?_⟩
            have := hc.quads.set (by rw [← hc.quads.keys]; exact chooseName_fresh hnm)
            simpa using this
  | removeLin k =>
    simp only [Call.apply, QP.removeLinear] at h
    split at h
    · simp at h
    · split at h
      · simp at h; subst h
        refine ⟨hc.vars, ?_, hc.quads⟩
        apply indexOfNames_ok
        exact hc.lins.2.sublist ((List.eraseIdx_sublist _ _).map _)
      · simp at h
  | removeQuad k =>
    simp only [Call.apply, QP.removeQuadratic] at h
    split at h
    · simp at h
    · split at h
      · simp at h; subst h
        refine ⟨hc.vars, hc.lins, ?_⟩
        apply indexOfNames_ok
        exact hc.quads.2.sublist ((List.eraseIdx_sublist _ _).map _)
      · simp at h
  | objective s c l q =>
    simp only [Call.apply, QP.setObjective] at h
    split at h
    · simp at h
    · split at h
      · simp at h
      · simp at h; subst h; exact ⟨hc.vars, hc.lins, hc.quads⟩
  | clear => simp [Call.apply] at h; subst h; exact QP.empty_consistent _
  | setLb i v =>
    simp only [Call.apply, QP.setLowerbound] at h
    split at h
    · simp at h
    · rename_i x hx
      simp only [Variable.setLb] at h
      split at h
      · simp at h
      · rename_i x' hx'
        simp at h; subst h
        refine ⟨?_, hc.lins, hc.quads⟩
        split at hx'
        · simp at hx'
        · simp at hx'; subst hx'
          simp only
          rw [map_name_set (y := { x with lb := v }) hx rfl]; exact hc.vars
  | setUb i v =>
    simp only [Call.apply, QP.setUpperbound] at h
    split at h
    · simp at h
    · rename_i x hx
      simp only [Variable.setUb] at h
      split at h
      · simp at h
      · rename_i x' hx'
        simp at h; subst h
        refine ⟨?_, hc.lins, hc.quads⟩
        split at hx'
        · simp at hx'
        · simp at hx'; subst hx'
          simp only
          rw [map_name_set (y := { x with ub := v }) hx rfl]; exact hc.vars
  | edit e => exact QP.edit_consistent (apply_edit_ok h) hc

theorem runCalls_consistent {p p' : QP} {cs : List Call} (h : runCalls p cs = (.ok (), p'))
    (hc : p.Consistent) : p'.Consistent := by
  induction cs generalizing p with
  | nil => simp [runCalls] at h; subst h; exact hc
  | cons c cs ih =>
    simp only [runCalls] at h
    split at h
    · simp at h
    · rename_i u q hq
      exact ih h (apply_consistent hq hc)

theorem lookup_iff {α : Type} (l : List α) (nm : α → String) (ix : Assoc String Nat)
    (h : IndexOK (l.map nm) ix) (s : String) (a : α) :
    (∃ i, Assoc.get? ix s = some i ∧ l[i]? = some a) ↔ a ∈ l ∧ nm a = s := by
  constructor
  · rintro ⟨i, hi, ha⟩
    have := (h.get? s i).mp hi
    rw [List.getElem?_map, ha] at this
    simp at this
    exact ⟨List.mem_of_getElem? ha, this⟩
  · rintro ⟨ha, rfl⟩
    obtain ⟨i, hi⟩ := List.mem_iff_getElem?.mp ha
    exact ⟨i, (h.get? _ i).mpr (by simp [hi]), hi⟩

theorem getVariable_name_iff {p : QP} (hc : p.Consistent) (s : String) (v : Variable) :
    p.getVariable (.name s) = .ok v ↔ v ∈ p.vars ∧ v.name = s := by
  rw [← lookup_iff p.vars Variable.name p.varsIndex hc.vars]
  simp only [QP.getVariable]
  cases h1 : Assoc.get? p.varsIndex s with
  | none => simp
  | some i => cases h2 : p.vars[i]? <;> simp [h2]

theorem getLinear_name_iff {p : QP} (hc : p.Consistent) (s : String) (c : LinCst) :
    p.getLinearConstraint (.name s) = .ok c ↔ c ∈ p.lins ∧ c.name = s := by
  rw [← lookup_iff p.lins LinCst.name p.linsIndex hc.lins]
  simp only [QP.getLinearConstraint]
  cases h1 : Assoc.get? p.linsIndex s with
  | none => simp
  | some i => cases h2 : p.lins[i]? <;> simp [h2]

theorem getQuadratic_name_iff {p : QP} (hc : p.Consistent) (s : String) (c : QuadCst) :
    p.getQuadraticConstraint (.name s) = .ok c ↔ c ∈ p.quads ∧ c.name = s := by
  rw [← lookup_iff p.quads QuadCst.name p.quadsIndex hc.quads]
  simp only [QP.getQuadraticConstraint]
  cases h1 : Assoc.get? p.quadsIndex s with
  | none => simp
  | some i => cases h2 : p.quads[i]? <;> simp [h2]

/-- **C03**: after any sequence of successful builder calls starting from a fresh program, looking a name
up returns exactly the element carrying the name, and names of each kind are pairwise distinct. -/
theorem C03_lookup (name : String) (cs : List Call) (p : QP)
    (h : runCalls (QP.empty name) cs = (.ok (), p)) :
    (∀ s v, p.getVariable (.name s) = .ok v ↔ v ∈ p.vars ∧ v.name = s) ∧
    (∀ s c, p.getLinearConstraint (.name s) = .ok c ↔ c ∈ p.lins ∧ c.name = s) ∧
    (∀ s c, p.getQuadraticConstraint (.name s) = .ok c ↔ c ∈ p.quads ∧ c.name = s) ∧
    (p.vars.map Variable.name).Nodup ∧ (p.lins.map LinCst.name).Nodup ∧
    (p.quads.map QuadCst.name).Nodup := by
  have hc := runCalls_consistent h (QP.empty_consistent name)
  exact ⟨getVariable_name_iff hc, getLinear_name_iff hc, getQuadratic_name_iff hc,
    hc.vars.2, hc.lins.2, hc.quads.2⟩

/-- A run with batches, removal and automatic names. -/
example : (runCalls (QP.empty "t") [.addVars (.count 2) 0 1 .binary none (.hole "" ""),
    .addVar 0 5 .integer (some "z"), .linear (.dict [(.name "x1", 1), (.idx 2, 2)]) (.str "<=") 3 none,
    .linear (.dict [(.name "z", 1)]) (.str "ge") 1 (some "low"), .removeLin (.idx 0)]).1 = .ok () ∧
    (runCalls (QP.empty "t") [.addVars (.count 2) 0 1 .binary none (.hole "" ""),
    .addVar 0 5 .integer (some "z"), .linear (.dict [(.name "x1", 1), (.idx 2, 2)]) (.str "<=") 3 none,
    .linear (.dict [(.name "z", 1)]) (.str "ge") 1 (some "low"), .removeLin (.idx 0)]).2.linsIndex
      = [("low", 0)] := by decide +kernel

/-! ## C04: exception safety -/

/-- **C04 fails for variables**: adding a variable with `lowerbound > upperbound` raises, but its name stays
in the table.  Afterwards the name cannot be used, looking it up raises `IndexError` instead of `KeyError`,
and once another variable is added the rejected name silently resolves to that other variable. -/
theorem C04_variable_violated :
    ∃ (p : QP) (c d : Call) (e : Err), c.apply p = (.error e, (c.apply p).2) ∧ (c.apply p).2 ≠ p ∧
      p.getVariable (.name "y") = .error .keyError ∧
      (d.apply (c.apply p).2).1 = .ok () ∧
      (d.apply (c.apply p).2).2.getVariable (.name "y") = .ok ⟨"z", 0, 1, .binary⟩ :=
  ⟨(QP.empty "").binaryVar (some "x") |>.2, .addVar 1 0 .continuous (some "y"),
    .addVar 0 1 .binary (some "z"), .optimization, by decide +kernel⟩

/-- **C04 fails for linear constraints**: a bad sense (or an unknown variable name) raises after the
constraint's name has been entered in the table. -/
theorem C04_linear_violated :
    ∃ (p : QP) (c d : Call) (e : Err), c.apply p = (.error e, (c.apply p).2) ∧ (c.apply p).2 ≠ p ∧
      p.getLinearConstraint (.name "a") = .error .keyError ∧
      (d.apply (c.apply p).2).1 = .ok () ∧
      (d.apply (c.apply p).2).2.getLinearConstraint (.name "a") = .ok ⟨"b", ⟨1, [(0, 1)]⟩, .le, 1⟩ :=
  ⟨(QP.empty "").binaryVar (some "x") |>.2, .linear (.dict [(.idx 0, 1)]) (.str "=<") 1 (some "a"),
    .linear (.dict [(.idx 0, 1)]) (.str "<=") 1 (some "b"), .optimization, by decide +kernel⟩

/-- **C04 fails for quadratic constraints**, likewise. -/
theorem C04_quadratic_violated :
    ∃ (p : QP) (c : Call) (e : Err), c.apply p = (.error e, (c.apply p).2) ∧ (c.apply p).2 ≠ p ∧
      p.getQuadraticConstraint (.name "a") = .error .keyError ∧
      (c.apply p).2.getQuadraticConstraint (.name "a") = .error .indexError :=
  ⟨(QP.empty "").binaryVar (some "x") |>.2,
    .quadratic (.dict [(.idx 0, 1)]) (.dict [((.idx 0, .name "zz"), 1)]) (.str "<=") 1 (some "a"),
    .keyError, by decide +kernel⟩

/-- **C04 fails for batches**: when the second key of a batch clashes, the first variable stays. -/
theorem C04_batch_violated :
    ∃ (p : QP) (c : Call) (e : Err), c.apply p = (.error e, (c.apply p).2) ∧
      (c.apply p).2.vars ≠ p.vars :=
  ⟨QP.empty "", .addVars (.seq ["a", "a"]) 0 1 .binary none (.hole "" ""), .optimization, by decide +kernel⟩

/-- **C04, the part that holds**.  Full statement: whenever `c.apply p` raises, the program afterwards is
`p`.  It is proved for: setting the objective, removing constraints, assigning bounds, types, right hand sides, senses and
coefficients, single variables with
`lb ≤ ub`, constraints whose name is rejected; and for every failing constraint or single-variable call the
lists of variables and constraints, the objective, the name and the status are unchanged (only a name table
may be polluted).  Missing: the name tables on the other failures and batches, where the statement is false
(`C04_variable_violated`, `C04_linear_violated`, `C04_quadratic_violated`, `C04_batch_violated`). -/
theorem C04_exception_safety_partial (p : QP) (e : Err) (p' : QP) :
    (∀ s c l q, (Call.objective s c l q).apply p = (.error e, p') → p' = p) ∧
    (∀ k, (Call.removeLin k).apply p = (.error e, p') → p' = p) ∧
    (∀ k, (Call.removeQuad k).apply p = (.error e, p') → p' = p) ∧
    (∀ i v, (Call.setLb i v).apply p = (.error e, p') → p' = p) ∧
    (∀ i v, (Call.setUb i v).apply p = (.error e, p') → p' = p) ∧
    (∀ d, (Call.edit d).apply p = (.error e, p') → p' = p) ∧
    (∀ lb ub t nm, lb ≤ ub → (Call.addVar lb ub t nm).apply p = (.error e, p') → p' = p) ∧
    (∀ l s r nm, nm ∈ Assoc.keys p.linsIndex → nm ≠ "" →
      (Call.linear l s r (some nm)).apply p = (.error .optimization, p)) ∧
    (∀ l q s r nm, nm ∈ Assoc.keys p.quadsIndex → nm ≠ "" →
      (Call.quadratic l q s r (some nm)).apply p = (.error .optimization, p)) ∧
    (∀ c : Call, (match c with | .addVars .. => False | _ => True) → c.apply p = (.error e, p') →
      p'.vars = p.vars ∧ p'.lins = p.lins ∧ p'.quads = p.quads ∧ p'.objective = p.objective ∧
      p'.name = p.name ∧ p'.status = p.status) := by
  have hobj : ∀ s c l q, (Call.objective s c l q).apply p = (.error e, p') → p' = p := by
    intro s c l q h
    simp only [Call.apply, QP.setObjective] at h
    split at h
    · simp at h; exact h.2.symm
    · split at h <;> simp at h; exact h.2.symm
  have hrl : ∀ k, (Call.removeLin k).apply p = (.error e, p') → p' = p := by
    intro k h
    simp only [Call.apply, QP.removeLinear] at h
    split at h
    · simp at h; exact h.2.symm
    · split at h <;> simp at h; exact h.2.symm
  have hrq : ∀ k, (Call.removeQuad k).apply p = (.error e, p') → p' = p := by
    intro k h
    simp only [Call.apply, QP.removeQuadratic] at h
    split at h
    · simp at h; exact h.2.symm
    · split at h <;> simp at h; exact h.2.symm
  have hlb : ∀ i v, (Call.setLb i v).apply p = (.error e, p') → p' = p := by
    intro i v h
    simp only [Call.apply, QP.setLowerbound] at h
    split at h
    · simp at h; exact h.2.symm
    · split at h <;> simp at h; exact h.2.symm
  have hub : ∀ i v, (Call.setUb i v).apply p = (.error e, p') → p' = p := by
    intro i v h
    simp only [Call.apply, QP.setUpperbound] at h
    split at h
    · simp at h; exact h.2.symm
    · split at h <;> simp at h; exact h.2.symm
  -- the single variable call, spelled out
  have hvar : ∀ lb ub t nm, (Call.addVar lb ub t nm).apply p = (.error e, p') →
      (lb ≤ ub → p' = p) ∧ ∃ ix, p' = { p with varsIndex := ix } := by
    intro lb ub t nm h
    have key : ∀ (s : String) (fmt : KeyFormat), fmt ≠ .invalid →
        Res.drop (match p.addVariables (.count 1) lb ub t (some s) fmt with
          | (.ok (v :: _), p') => (.ok v, p')
          | (.ok [], p') => (.error .indexError, p')
          | (.error e, p') => ((.error e, p') : Res Variable)) = (.error e, p') →
        (lb ≤ ub → p' = p) ∧ ∃ ix, p' = { p with varsIndex := ix } := by
      intro s fmt hf h
      simp [QP.addVariables, hf] at h
      simp only [QP.addVarsCount] at h
      rcases hfn : findName p.varsIndex s fmt (p.varsIndex.length + 2) none p.numVars with e' | ⟨a, b⟩
      · simp [hfn, Res.drop] at h
        obtain ⟨_, rfl⟩ := h
        exact ⟨fun _ => rfl, p.varsIndex, rfl⟩
      · simp only [hfn] at h
        unfold QP.addOneVar at h
        by_cases hh : Assoc.has p.varsIndex a = true
        · simp [hh, Res.drop] at h
          obtain ⟨_, rfl⟩ := h
          exact ⟨fun _ => rfl, p.varsIndex, rfl⟩
        · by_cases hle : lb > ub
          · simp [hh, Variable.mk?, hle, Res.drop] at h
            obtain ⟨_, rfl⟩ := h
            exact ⟨fun h' => absurd h' (not_le.mpr hle), _, rfl⟩
          · simp [hh, Variable.mk?, hle, Res.drop] at h
    cases nm with
    | none => exact key "x" (.hole "" "") (by simp) h
    | some s => exact key s (.lit "") (by simp) h
  refine ⟨hobj, hrl, hrq, hlb, hub, fun d h => apply_edit_error h, fun lb ub t nm hle h => (hvar lb ub t nm h).1 hle, ?_, ?_, ?_⟩
  · intro l s r nm hm hne
    simp [Call.apply, QP.linearConstraint, chooseName, hne, Assoc.has_iff.mpr hm, Res.drop]
  · intro l q s r nm hm hne
    simp [Call.apply, QP.quadraticConstraint, chooseName, hne, Assoc.has_iff.mpr hm, Res.drop]
  · intro c hcall h
    cases c with
    | addVars => exact absurd hcall id
    | addVar lb ub t nm =>
      obtain ⟨_, ix, rfl⟩ := hvar lb ub t nm h
      exact ⟨rfl, rfl, rfl, rfl, rfl, rfl⟩
    | linear l s r nm =>
      simp only [Call.apply, QP.linearConstraint] at h
      split at h
      · simp [Res.drop] at h; obtain ⟨_, rfl⟩ := h; exact ⟨rfl, rfl, rfl, rfl, rfl, rfl⟩
      · split at h
        · simp [Res.drop] at h; obtain ⟨_, rfl⟩ := h; exact ⟨rfl, rfl, rfl, rfl, rfl, rfl⟩
        · split at h
          · simp [Res.drop] at h; obtain ⟨_, rfl⟩ := h; exact ⟨rfl, rfl, rfl, rfl, rfl, rfl⟩
          · simp [Res.drop] at h
    | quadratic l q s r nm =>
      simp only [Call.apply, QP.quadraticConstraint] at h
      split at h
      · simp [Res.drop] at h; obtain ⟨_, rfl⟩ := h; exact ⟨rfl, rfl, rfl, rfl, rfl, rfl⟩
      · split at h
        · simp [Res.drop] at h; obtain ⟨_, rfl⟩ := h; exact ⟨rfl, rfl, rfl, rfl, rfl, rfl⟩
        · split at h
          · simp [Res.drop] at h; obtain ⟨_, rfl⟩ := h; exact ⟨rfl, rfl, rfl, rfl, rfl, rfl⟩
          · split at h
            · simp [Res.drop] at h; obtain ⟨_, rfl⟩ := h; exact ⟨rfl, rfl, rfl, rfl, rfl, rfl⟩
            · simp [Res.drop] at h
    | removeLin k => rw [hrl k h]; exact ⟨rfl, rfl, rfl, rfl, rfl, rfl⟩
    | removeQuad k => rw [hrq k h]; exact ⟨rfl, rfl, rfl, rfl, rfl, rfl⟩
    | objective s c l q => rw [hobj s c l q h]; exact ⟨rfl, rfl, rfl, rfl, rfl, rfl⟩
    | clear => simp [Call.apply] at h
    | setLb i v => rw [hlb i v h]; exact ⟨rfl, rfl, rfl, rfl, rfl, rfl⟩
    | setUb i v => rw [hub i v h]; exact ⟨rfl, rfl, rfl, rfl, rfl, rfl⟩
    | edit d => rw [apply_edit_error h]; exact ⟨rfl, rfl, rfl, rfl, rfl, rfl⟩

/-- A failing call of the covered kind. -/
example : (Call.addVar 0 1 .binary (some "x")).apply ((QP.empty "").binaryVar (some "x")).2
    = (.error .optimization, ((QP.empty "").binaryVar (some "x")).2) := by decide +kernel

/-! ## C05: generated names -/

/-- **C05** (one variable): on any program, whatever names are taken, adding an unnamed variable (with
`lb ≤ ub`) succeeds and its name is of the form `x<k>` and new. -/
theorem C05_variable (p : QP) (lb ub : ℚ) (t : VarType) (hle : lb ≤ ub) :
    ∃ v p', p.addVariable lb ub t none = (.ok v, p') ∧ v.name ∉ Assoc.keys p.varsIndex ∧
      (∃ k : Nat, p.numVars ≤ k ∧ v.name = "x" ++ toString k) ∧ v.lb = lb ∧ v.ub = ub ∧ v.vartype = t ∧
      p'.vars = p.vars ++ [v] := by
  obtain ⟨m, hm, h1, h2⟩ := findName_fuel p.varsIndex "x" "" "" p.numVars
  have hfmt : "x" ++ ("" ++ toString m ++ "") = "x" ++ toString m := by simp
  rw [hfmt] at h1 h2
  have hx : ∃ k : Nat, p.numVars ≤ k ∧ "x" ++ toString m = "x" ++ toString k := ⟨m, hm, rfl⟩
  generalize "x" ++ toString m = nm at h1 h2 hx
  refine ⟨⟨nm, lb, ub, t⟩,
    { p with varsIndex := Assoc.set p.varsIndex nm p.numVars, vars := p.vars ++ [⟨nm, lb, ub, t⟩] },
    ?_, h2, hx, rfl, rfl, rfl, rfl⟩
  · have hh : ¬ Assoc.has p.varsIndex nm = true := fun hc => h2 (Assoc.has_iff.mp hc)
    simp [QP.addVariable, QP.addVariables, QP.addVarsCount, h1, QP.addOneVar, hh, Variable.mk?,
      not_lt.mpr hle]

/-- **C05** (batch): adding any positive number of variables with a key format containing `{}` succeeds on
any program, and yields that many variables. -/
theorem C05_batch (p : QP) (m : Nat) (hm : 0 < m) (lb ub : ℚ) (t : VarType) (hle : lb ≤ ub)
    (name : Option String) (pre post : String) :
    ∃ vs p', p.addVariables (.count m) lb ub t name (.hole pre post) = (.ok vs, p') ∧ vs.length = m ∧
      p'.vars = p.vars ++ vs ∧ ∀ v ∈ vs, v.name ∉ Assoc.keys p.varsIndex := by
  have key : ∀ (m k : Nat) (p : QP) (nm : String),
      ∃ vs p', QP.addVarsCount nm (.hole pre post) lb ub t m k p = (.ok vs, p') ∧
        ∀ v ∈ vs, v.name ∉ Assoc.keys p.varsIndex := by
    intro m
    induction m with
    | zero => intro k p nm; exact ⟨[], p, rfl, by simp⟩
    | succ m ih =>
      intro k p nm
      obtain ⟨j, hj, h1, h2⟩ := findName_fuel p.varsIndex nm pre post k
      have hh : ¬ Assoc.has p.varsIndex (nm ++ (pre ++ toString j ++ post)) = true :=
        fun hc => h2 (Assoc.has_iff.mp hc)
      obtain ⟨vs, p', hvs, hfresh⟩ := ih (j + 1)
        { p with varsIndex := Assoc.set p.varsIndex (nm ++ (pre ++ toString j ++ post)) p.numVars
                 vars := p.vars ++ [⟨nm ++ (pre ++ toString j ++ post), lb, ub, t⟩] } nm
      refine ⟨⟨nm ++ (pre ++ toString j ++ post), lb, ub, t⟩ :: vs, p', ?_, ?_⟩
      · simp only [QP.addVarsCount, h1]
        have hadd : p.addOneVar (nm ++ (pre ++ toString j ++ post)) lb ub t =
            (.ok ⟨nm ++ (pre ++ toString j ++ post), lb, ub, t⟩,
            { p with varsIndex := Assoc.set p.varsIndex (nm ++ (pre ++ toString j ++ post)) p.numVars
                     vars := p.vars ++ [⟨nm ++ (pre ++ toString j ++ post), lb, ub, t⟩] }) := by
          simp only [QP.addOneVar, if_neg hh, Variable.mk?, gt_iff_lt, not_lt.mpr hle, if_false]
        rw [hadd]
        simp only [hvs]
      · intro v hv
        rcases List.mem_cons.mp hv with rfl | hv
        · exact h2
        · intro hc
          exact hfresh v hv (Assoc.mem_keys_set.mpr (Or.inl hc))
  obtain ⟨vs, p', h, hf⟩ := key m p.numVars p (name.getD "x")
  have hadd : p.addVariables (.count m) lb ub t name (.hole pre post) = (.ok vs, p') := by
    have : ¬ ((m : Int) < 1) := by omega
    simp [QP.addVariables, this, h]
  exact ⟨vs, p', hadd, (addVarsCount_extends h).2, (addVariables_extends hadd).vars, hf⟩

/-- **C05** (linear constraint): an unnamed linear constraint gets a new name `c<k>`; the call fails only
because of its sense or its coefficients. -/
theorem C05_linear (p : QP) (l : LinInput) (s : Sense) (r : ℚ) (e : LinExpr)
    (he : LinExpr.ofInput p.varsIndex p.numVars l = .ok e) :
    ∃ c p', p.linearConstraint l (.sense s) r none = (.ok c, p') ∧ c.name ∉ Assoc.keys p.linsIndex ∧
      (∃ k : Nat, p.lins.length ≤ k ∧ c.name = "c" ++ toString k) ∧ c.linear = e ∧ c.sense = s ∧ c.rhs = r ∧
      p'.lins = p.lins ++ [c] := by
  obtain ⟨m, hm, h1, h2⟩ := freeName_ok p.linsIndex "c" p.lins.length
  refine ⟨⟨"c" ++ toString m, e, s, r⟩,
    { p with linsIndex := Assoc.set p.linsIndex ("c" ++ toString m) p.lins.length
             lins := p.lins ++ [⟨"c" ++ toString m, e, s, r⟩] },
    ?_, h2, ⟨m, hm, rfl⟩, rfl, rfl, rfl, rfl⟩
  · have he' : LinExpr.ofInput p.varsIndex p.vars.length l = .ok e := he
    simp [QP.linearConstraint, chooseName, h1, Sense.convert, QP.numVars, he']

/-- **C05** (quadratic constraint). -/
theorem C05_quadratic (p : QP) (l : LinInput) (q : QuadInput) (s : Sense) (r : ℚ) (e : LinExpr)
    (f : QuadExpr) (he : LinExpr.ofInput p.varsIndex p.numVars l = .ok e)
    (hf : QuadExpr.ofInput p.varsIndex p.numVars q = .ok f) :
    ∃ c p', p.quadraticConstraint l q (.sense s) r none = (.ok c, p') ∧
      c.name ∉ Assoc.keys p.quadsIndex ∧
      (∃ k : Nat, p.quads.length ≤ k ∧ c.name = "q" ++ toString k) ∧ c.linear = e ∧ c.quadratic = f ∧
      c.sense = s ∧ c.rhs = r ∧ p'.quads = p.quads ++ [c] := by
  obtain ⟨m, hm, h1, h2⟩ := freeName_ok p.quadsIndex "q" p.quads.length
  refine ⟨⟨"q" ++ toString m, e, f, s, r⟩,
    { p with quadsIndex := Assoc.set p.quadsIndex ("q" ++ toString m) p.quads.length
             quads := p.quads ++ [⟨"q" ++ toString m, e, f, s, r⟩] },
    ?_, h2, ⟨m, hm, rfl⟩, rfl, rfl, rfl, rfl, rfl⟩
  · have he' : LinExpr.ofInput p.varsIndex p.vars.length l = .ok e := he
    have hf' : QuadExpr.ofInput p.varsIndex p.vars.length q = .ok f := hf
    simp [QP.quadraticConstraint, chooseName, h1, Sense.convert, QP.numVars, he', hf']

/-- Name clash with user names of the automatic pattern. -/
example : ((runCalls (QP.empty "") [.addVar 0 1 .binary (some "x1"), .addVar 0 1 .binary none]).2.vars.map
    Variable.name) = ["x1", "x2"] := by decide +kernel

/-! ## C06: removal -/

/-- **C06** (linear, by index): exactly the addressed constraint disappears, the order of the others is
kept, every remaining constraint is found under its name, everything else is untouched. -/
theorem C06_removeLinear (p : QP) (hc : p.Consistent) (k : Key) (c : LinCst)
    (h : p.getLinearConstraint k = .ok c) :
    ∃ p' l₁ l₂, p.removeLinear k = (.ok (), p') ∧ p.lins = l₁ ++ c :: l₂ ∧ p'.lins = l₁ ++ l₂ ∧
      p' = { p with lins := p'.lins, linsIndex := p'.linsIndex } ∧
      (∀ s d, p'.getLinearConstraint (.name s) = .ok d ↔ d ∈ l₁ ++ l₂ ∧ d.name = s) := by
  obtain ⟨i, hi, hidx⟩ : ∃ i, p.lins[i]? = some c ∧ (match k with
      | .idx i => (.ok i : Except Err Nat)
      | .name s => match Assoc.get? p.linsIndex s with | none => .error .keyError | some i => .ok i)
        = .ok i := by
    cases k with
    | idx i =>
      simp only [QP.getLinearConstraint] at h
      cases h2 : p.lins[i]? with
      | none => simp [h2] at h
      | some d => simp [h2] at h; subst h; exact ⟨i, h2, rfl⟩
    | name s =>
      simp only [QP.getLinearConstraint] at h
      cases h1 : Assoc.get? p.linsIndex s with
      | none => simp [h1] at h
      | some i =>
        simp only [h1] at h
        cases h2 : p.lins[i]? with
        | none => simp [h2] at h
        | some d => simp [h2] at h; subst h; exact ⟨i, h2, by simp [h1]⟩
  have hlt : i < p.lins.length := (List.getElem?_eq_some_iff.mp hi).1
  have hci : p.lins[i] = c := (List.getElem?_eq_some_iff.mp hi).2
  have hrem : p.removeLinear k = (.ok (), { p with
      lins := p.lins.eraseIdx i, linsIndex := indexOfNames ((p.lins.eraseIdx i).map LinCst.name) }) := by
    unfold QP.removeLinear
    cases k with
    | idx j => simp at hidx; subst hidx; simp [hlt]
    | name s =>
      simp only at hidx ⊢
      cases h1 : Assoc.get? p.linsIndex s with
      | none => simp [h1] at hidx
      | some j => simp [h1] at hidx; subst hidx; simp [hlt]
  have hcons : QP.Consistent { p with
      lins := p.lins.eraseIdx i, linsIndex := indexOfNames ((p.lins.eraseIdx i).map LinCst.name) } :=
    apply_consistent (c := .removeLin k) (by simpa [Call.apply] using hrem) hc
  refine ⟨_, p.lins.take i, p.lins.drop (i + 1), hrem, ?_, ?_, rfl, ?_⟩
  · rw [← hci, List.getElem_cons_drop, List.take_append_drop]
  · exact List.eraseIdx_eq_take_drop_succ _ _
  · intro s d
    rw [getLinear_name_iff hcons]
    simp only [List.eraseIdx_eq_take_drop_succ]

/-- **C06** (quadratic). -/
theorem C06_removeQuadratic (p : QP) (hc : p.Consistent) (k : Key) (c : QuadCst)
    (h : p.getQuadraticConstraint k = .ok c) :
    ∃ p' l₁ l₂, p.removeQuadratic k = (.ok (), p') ∧ p.quads = l₁ ++ c :: l₂ ∧ p'.quads = l₁ ++ l₂ ∧
      p' = { p with quads := p'.quads, quadsIndex := p'.quadsIndex } ∧
      (∀ s d, p'.getQuadraticConstraint (.name s) = .ok d ↔ d ∈ l₁ ++ l₂ ∧ d.name = s) := by
  obtain ⟨i, hi, hidx⟩ : ∃ i, p.quads[i]? = some c ∧ (match k with
      | .idx i => (.ok i : Except Err Nat)
      | .name s => match Assoc.get? p.quadsIndex s with | none => .error .keyError | some i => .ok i)
        = .ok i := by
    cases k with
    | idx i =>
      simp only [QP.getQuadraticConstraint] at h
      cases h2 : p.quads[i]? with
      | none => simp [h2] at h
      | some d => simp [h2] at h; subst h; exact ⟨i, h2, rfl⟩
    | name s =>
      simp only [QP.getQuadraticConstraint] at h
      cases h1 : Assoc.get? p.quadsIndex s with
      | none => simp [h1] at h
      | some i =>
        simp only [h1] at h
        cases h2 : p.quads[i]? with
        | none => simp [h2] at h
        | some d => simp [h2] at h; subst h; exact ⟨i, h2, by simp [h1]⟩
  have hlt : i < p.quads.length := (List.getElem?_eq_some_iff.mp hi).1
  have hci : p.quads[i] = c := (List.getElem?_eq_some_iff.mp hi).2
  have hrem : p.removeQuadratic k = (.ok (), { p with
      quads := p.quads.eraseIdx i, quadsIndex := indexOfNames ((p.quads.eraseIdx i).map QuadCst.name) }) := by
    unfold QP.removeQuadratic
    cases k with
    | idx j => simp at hidx; subst hidx; simp [hlt]
    | name s =>
      simp only at hidx ⊢
      cases h1 : Assoc.get? p.quadsIndex s with
      | none => simp [h1] at hidx
      | some j => simp [h1] at hidx; subst hidx; simp [hlt]
  have hcons : QP.Consistent { p with
      quads := p.quads.eraseIdx i, quadsIndex := indexOfNames ((p.quads.eraseIdx i).map QuadCst.name) } :=
    apply_consistent (c := .removeQuad k) (by simpa [Call.apply] using hrem) hc
  refine ⟨_, p.quads.take i, p.quads.drop (i + 1), hrem, ?_, ?_, rfl, ?_⟩
  · rw [← hci, List.getElem_cons_drop, List.take_append_drop]
  · exact List.eraseIdx_eq_take_drop_succ _ _
  · intro s d
    rw [getQuadratic_name_iff hcons]
    simp only [List.eraseIdx_eq_take_drop_succ]

end Verif
