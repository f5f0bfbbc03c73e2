import Verif.DocplexExport
import Verif.PropsProgram

/-!
# C40, C41, C69: loading docplex models and export to docplex
-/

namespace Verif

/-! ## C40 -/

/-- **C40.** The objective has the sense and at every point the value of the objective of the docplex model, and at
every point the constraints of the program hold if and only if those of the docplex model hold, whatever terms and
constants stand on either side.  Constraints correspond one by one, in order, the linear ones to the linear ones and the
quadratic ones to the quadratic ones, with the names given. -/
theorem C40_meaning {m : DModel} {p : QP} (hm : m.WF) (h : fromDocplex m = (.ok (), p)) :
    p.name = m.name ∧ p.objective.sense = (if m.minimize then .minimize else .maximize) ∧
    (∀ x, p.objective.val x = m.objective.val x) ∧ (∀ x, p.Sat x ↔ ∀ c ∈ m.csts, c.Holds x) ∧
    List.Forall₂ (fun c k => (∀ x, Sense.rel k.sense (k.linear.val x) k.rhs ↔ c.Holds x) ∧
      ∀ t, t ≠ "" → c.name = some t → k.name = t) (m.csts.filter DCst.isLin) p.lins ∧
    List.Forall₂ (fun c k => (∀ x, Sense.rel k.sense (k.linear.val x + k.quadratic.val x) k.rhs ↔ c.Holds x) ∧
      ∀ t, t ≠ "" → c.name = some t → k.name = t) (m.csts.filter DCst.isQuad) p.quads := by
  have hl := fromDocplex_loaded hm h
  exact ⟨hl.name, hl.sense, hl.obj, hl.sat, hl.lins, hl.quads⟩

/-- **C40.** Models with a constraint that is neither linear nor quadratic, a not-equal constraint, or a variable of
another type are rejected. -/
theorem C40_rejects {m : DModel} (hm : m.WF) (h : (∃ c ∈ m.csts, c.isLin = false ∧ c.isQuad = false) ∨
    ∃ v ∈ m.vars, v.vartype = .other) : ∃ e, (fromDocplex m).1 = .error e := by
  cases hf : fromDocplex m with
  | mk r p =>
    cases r with
    | error e => exact ⟨e, rfl⟩
    | ok u =>
      have hl := fromDocplex_loaded hm hf
      rcases h with ⟨c, hc, h1, h2⟩ | ⟨v, hv, ht⟩
      · rcases hl.supported c hc with h | h
        · simp [h] at h1
        · simp [h] at h2
      · obtain ⟨w, hw⟩ : ∃ w, DVar.Loaded v w := by
          have h2 := hl.vars
          clear hl hf hm
          generalize m.vars = vs, p.vars = ws at hv h2
          induction h2 with
          | nil => simp at hv
          | cons h1 _ ih =>
            rcases List.mem_cons.mp hv with rfl | hv
            · exact ⟨_, h1⟩
            · exact ih hv
        have := hw.type
        rw [ht] at this
        cases hv : w.vartype <;> simp [hv, VarType.toDocplex] at this

/-- **C40.** All other models whose names do not clash are accepted. -/
theorem C40_accepts {m : DModel} (hm : m.WF) (hv : ∀ x ∈ m.vars, x.vartype ≠ .other ∧ (x.vartype = .binary ∨ x.lb ≤ x.ub))
    (hn : NamesOK "x" (m.vars.map DVar.name)) (hc : ∀ c ∈ m.csts, c.isLin = true ∨ c.isQuad = true)
    (hl : CstNamesOK "c" ((m.csts.filter DCst.isLin).map DCst.name))
    (hq : CstNamesOK "q" ((m.csts.filter DCst.isQuad).map DCst.name)) : ∃ p, fromDocplex m = (.ok (), p) :=
  fromDocplex_success hm ⟨hv, hn, hc, hl, hq⟩

/-- `min y + 2 y z`, `s.t. 2 y + 1 >= 3 z - y + 4`, `y z <= z` unnamed, of a binary `y` and an unnamed integer `z`. -/
def docplexSample : DModel :=
  ⟨"m", [⟨some "y", 0, 1, .binary⟩, ⟨none, -2, 5, .integer⟩], true,
    ⟨0, [(0, 1)], [((0, 1), 2)], true⟩,
    [.linear ⟨1, [(0, 2)], [], false⟩ .ge ⟨4, [(1, 3), (0, -1)], [], false⟩ (some "k"),
      .quadratic ⟨0, [], [((0, 1), 1)], true⟩ .le ⟨0, [(1, 1)], [], false⟩ none]⟩

theorem docplexSample_wf : docplexSample.WF := by
  refine ⟨⟨?_, ?_, ?_, ?_, ?_⟩, ?_⟩
  · decide +kernel
  · decide +kernel
  · decide +kernel
  · decide +kernel
  · decide +kernel
  · intro c hc
    simp only [docplexSample, List.mem_cons, List.not_mem_nil, or_false] at hc
    rcases hc with rfl | rfl
    · exact ⟨⟨by decide +kernel, by decide +kernel, by decide +kernel, by decide +kernel, by decide +kernel⟩,
        ⟨by decide +kernel, by decide +kernel, by decide +kernel, by decide +kernel, by decide +kernel⟩, rfl, rfl⟩
    · exact ⟨⟨by decide +kernel, by decide +kernel, by decide +kernel, by decide +kernel, by decide +kernel⟩,
        ⟨by decide +kernel, by decide +kernel, by decide +kernel, by decide +kernel, by decide +kernel⟩⟩

/-- The hypotheses of `C40_meaning` are met: the sample is loaded, with the terms moved to the left. -/
example : docplexSample.WF ∧ (fromDocplex docplexSample).1 = .ok () ∧
    (fromDocplex docplexSample).2.vars = [⟨"y", 0, 1, .binary⟩, ⟨"x1", -2, 5, .integer⟩] ∧
    (fromDocplex docplexSample).2.lins = [⟨"k", ⟨2, [(0, 3), (1, -3)]⟩, .ge, 3⟩] ∧
    (fromDocplex docplexSample).2.quads = [⟨"q0", ⟨2, [(1, -1)]⟩, ⟨2, [((0, 1), 1)]⟩, .le, 0⟩] :=
  ⟨docplexSample_wf, by decide +kernel, by decide +kernel, by decide +kernel, by decide +kernel⟩

/-- The hypotheses of `C40_rejects` are met by the sample with a not-equal constraint. -/
example : ∃ c ∈ ({ docplexSample with csts := [.notEqual (.var 0) (.var 1) none] } : DModel).csts,
    c.isLin = false ∧ c.isQuad = false := ⟨_, List.mem_singleton.mpr rfl, rfl, rfl⟩

/-- The hypotheses of `C40_accepts` on the names are met by the sample. -/
example : NamesOK "x" (docplexSample.vars.map DVar.name) := by
  refine ⟨by decide +kernel, Or.inr ?_⟩
  intro s hs k
  simp only [docplexSample, List.map_cons, List.map_nil, List.mem_cons, Option.some.injEq, reduceCtorEq, List.not_mem_nil,
    or_false] at hs
  subst hs
  intro h
  have := congrArg String.toList h
  simp at this

/-! ## C69: variables -/

/-- The value is allowed for the docplex variable. -/
def DVar.Allows (v : DVar) (q : ℚ) : Prop :=
  v.lb ≤ q ∧ q ≤ v.ub ∧ (v.vartype ≠ .continuous → ∃ z : Int, q = z)

/-- The points of the docplex model. -/
def DModel.Feas (m : DModel) (x : Nat → ℚ) : Prop :=
  (∀ (i : Nat) (v : DVar), m.vars[i]? = some v → v.Allows (x i)) ∧ ∀ c ∈ m.csts, c.Holds x

/-- **C69** for models whose binary variables have the bounds 0 and 1.  The full statement, that the program has the
variables (number, order, names, types, bounds) and the feasible points of the docplex model, lacks the case of binary
variables with other bounds, where it is false (`C69_violated`). -/
theorem C69_partial {m : DModel} {p : QP} (hm : m.WF) (hb : ∀ v ∈ m.vars, v.vartype = .binary → v.lb = 0 ∧ v.ub = 1)
    (h : fromDocplex m = (.ok (), p)) :
    p.vars.length = m.vars.length ∧
    (∀ (i : Nat) d v, m.vars[i]? = some d → p.vars[i]? = some v → v.lb = d.lb ∧ v.ub = d.ub ∧
      d.vartype = v.vartype.toDocplex ∧ ∀ s, d.name = some s → v.name = s) ∧
    ∀ x, p.Feas x ↔ m.Feas x := by
  have hl := fromDocplex_loaded hm h
  have hlen : p.vars.length = m.vars.length := hl.vars.length_eq.symm
  have hv : ∀ (i : Nat) d v, m.vars[i]? = some d → p.vars[i]? = some v → v.lb = d.lb ∧ v.ub = d.ub ∧
      d.vartype = v.vartype.toDocplex ∧ ∀ s, d.name = some s → v.name = s := by
    intro i d v h1 h2
    obtain ⟨i1, e1⟩ := List.getElem?_eq_some_iff.mp h1
    obtain ⟨i2, e2⟩ := List.getElem?_eq_some_iff.mp h2
    have hd : DVar.Loaded d v := by
      have := List.Forall₂.get hl.vars i1 i2
      simp only [List.get_eq_getElem, e1, e2] at this
      exact this
    have hb := hb d (List.mem_of_getElem? h1)
    by_cases hbin : d.vartype = .binary
    · obtain ⟨b1, b2⟩ := hd.bin hbin
      obtain ⟨c1, c2⟩ := hb hbin
      exact ⟨by rw [b1, c1], by rw [b2, c2], hd.type, hd.name⟩
    · exact ⟨(hd.bounds hbin).1, (hd.bounds hbin).2, hd.type, hd.name⟩
  refine ⟨hlen, hv, ?_⟩
  intro x
  have hex : ∀ {i : Nat} {d : DVar}, m.vars[i]? = some d → ∃ v, p.vars[i]? = some v := by
    intro i d h1
    have := (List.getElem?_eq_some_iff.mp h1).1
    exact ⟨p.vars[i], List.getElem?_eq_getElem (by omega)⟩
  have hex' : ∀ {i : Nat} {v : Variable}, p.vars[i]? = some v → ∃ d, m.vars[i]? = some d := by
    intro i d h1
    have := (List.getElem?_eq_some_iff.mp h1).1
    exact ⟨m.vars[i], List.getElem?_eq_getElem (by omega)⟩
  have ht : ∀ t : VarType, t.toDocplex ≠ .continuous ↔ t ≠ .continuous := by
    intro t; cases t <;> simp [VarType.toDocplex]
  unfold QP.Feas DModel.Feas
  rw [← and_assoc, hl.sat x]
  refine and_congr_left fun _ => ?_
  constructor
  · rintro ⟨h1, h2⟩ i d hd
    obtain ⟨v, hv'⟩ := hex hd
    obtain ⟨e1, e2, e3, _⟩ := hv i d v hd hv'
    have hb := h1 i v hv'
    refine ⟨by rw [← e1]; exact hb.1, by rw [← e2]; exact hb.2, fun hc => h2 i v hv' ?_⟩
    rw [e3] at hc
    exact (ht _).mp hc
  · intro h0
    constructor
    · intro i v hv'
      obtain ⟨d, hd⟩ := hex' hv'
      obtain ⟨e1, e2, e3, _⟩ := hv i d v hd hv'
      rw [e1, e2]
      exact ⟨(h0 i d hd).1, (h0 i d hd).2.1⟩
    · intro i v hv' hc
      obtain ⟨d, hd⟩ := hex' hv'
      obtain ⟨e1, e2, e3, _⟩ := hv i d v hd hv'
      exact (h0 i d hd).2.2 (by rw [e3]; exact (ht _).mpr hc)

/-- The hypotheses of `C69_partial` are met by the sample. -/
example : docplexSample.WF ∧ (∀ v ∈ docplexSample.vars, v.vartype = .binary → v.lb = 0 ∧ v.ub = 1) ∧
    (fromDocplex docplexSample).1 = .ok () := ⟨docplexSample_wf, by decide +kernel, by decide +kernel⟩

/-- **C69 is false**: a binary variable fixed to zero by its upper bound in docplex (`x.ub = 0`) is free after loading,
so the program has a feasible point that the docplex model does not have. -/
theorem C69_violated : ∃ (m : DModel) (p : QP) (x : Nat → ℚ), m.WF ∧ fromDocplex m = (.ok (), p) ∧ p.Feas x ∧
    ¬ m.Feas x := by
  refine ⟨⟨"m", [⟨some "x", 0, 0, .binary⟩], true, .const 0, []⟩,
    (fromDocplex ⟨"m", [⟨some "x", 0, 0, .binary⟩], true, .const 0, []⟩).2, fun _ => 1,
    ⟨const_wf _ _, by simp⟩, ?_, ?_, ?_⟩
  · exact Prod.ext (by decide +kernel) rfl
  · have hv : (fromDocplex ⟨"m", [⟨some "x", 0, 0, .binary⟩], true, .const 0, []⟩).2.vars = [⟨"x", 0, 1, .binary⟩] := by
      decide +kernel
    have hc : (fromDocplex ⟨"m", [⟨some "x", 0, 0, .binary⟩], true, .const 0, []⟩).2.allCsts = [] := by
      decide +kernel
    refine ⟨?_, ?_, ?_⟩
    · intro i v h
      rw [hv] at h
      obtain ⟨i1, rfl⟩ := List.getElem?_eq_some_iff.mp h
      simp at i1
      subst i1
      simp
    · intro i v _ _
      exact ⟨1, by simp⟩
    · intro c hc'
      rw [hc] at hc'
      simp at hc'
  · intro h
    have := (h.1 0 _ rfl).2.1
    norm_num at this

/-! ## C41 -/

/-- **C41** for programs whose binary variables have the bounds 0 and 1, whose constraints without terms are always
satisfied, and without a linear constraint that has the name of a quadratic constraint without quadratic terms.  Export
and loading succeed, and give the same variables, the same objective function and the same feasible points.  The full
statement has none of these hypotheses; it is false without the first (`C41_violated_bounds`) and without the last
(`C41_violated_names`), and without the second it depends on what docplex does with a constraint that is the Python value
`False`.  That docplex adds nothing for the Python value `True` is the hypothesis `ht`. -/
theorem C41_partial {trivial : Bool → Option String → Except Err (List DCst)} (ht : ∀ nm, trivial true nm = .ok [])
    {p : QP} (hp : p.WF) (hb : p.BinBoundsOK) (hlu : ∀ v ∈ p.vars, v.lb ≤ v.ub)
    (hl : ∀ c ∈ p.lins, c.name ≠ "") (hq : ∀ c ∈ p.quads, c.name ≠ "")
    (htl : ∀ c ∈ p.lins, c.linear.coeffs = [] → c.sense.rel 0 c.rhs)
    (htq : ∀ c ∈ p.quads, c.linear.coeffs = [] → c.quadratic.coeffs = [] → c.sense.rel 0 c.rhs)
    (hd : ∀ c ∈ p.quads, c.quadratic.coeffs = [] → ∀ k ∈ p.lins, k.name ≠ c.name) :
    ∃ m p', toDocplex trivial p = .ok m ∧ fromDocplex m = (.ok (), p') ∧ p'.name = p.name ∧ p'.vars = p.vars ∧
      p'.objective.sense = p.objective.sense ∧ (∀ x, p'.objective.val x = p.objective.val x) ∧
      (∀ x, p'.Sat x ↔ p.Sat x) ∧ ∀ x, p'.Feas x ↔ p.Feas x := by
  obtain ⟨p', h'⟩ := fromDocplex_success (exported_wf hp) (exported_ok hp hlu hl hq hd)
  have hL := fromDocplex_loaded (exported_wf hp) h'
  have hv : p'.vars = p.vars := exported_vars hb hL.vars
  have hs : ∀ x, p'.Sat x ↔ p.Sat x := fun x => (hL.sat x).trans (exported_csts htl htq x)
  refine ⟨exported p, p', toDocplex_eq ht htl htq, h', hL.name, hv, ?_, ?_, hs, ?_⟩
  · rw [hL.sense]
    have : ∀ t : ObjSense, (if (t == .minimize) = true then ObjSense.minimize else .maximize) = t := by
      intro t; cases t <;> rfl
    exact this _
  · intro x
    rw [hL.obj]
    simp only [exported, addPairs_val, addTerms_val, DExpr.val_const]
    rfl
  · intro x
    unfold QP.Feas QP.InBounds QP.Integral
    rw [hv, hs]

/-- Docplex adds nothing for `True` and raises for `False`. -/
def docplexBool : Bool → Option String → Except Err (List DCst) := fun b _ => if b then .ok [] else .error .optimization

/-- A program with a constraint without terms and a quadratic constraint without quadratic terms. -/
def exportSample : QP :=
  (runCalls (QP.empty "p") [.addVar 0 1 .binary (some "b"), .addVar (-2) 3 .integer (some "i"),
    .objective .maximize 1 (.dict [(.name "b", 2)]) (.dict [((.name "b", .name "i"), 3)]),
    .linear (.dict [(.name "b", 1), (.name "i", 1)]) (.str "<=") 2 (some "c"),
    .linear (.dict []) (.str "<=") 4 (some "e"),
    .quadratic (.dict [(.name "i", 1)]) (.dict []) (.str ">=") (-1) (some "q")]).2

/-- The hypotheses of `C41_partial` are met by the sample. -/
example : (∀ nm, docplexBool true nm = .ok []) ∧ exportSample.WF ∧ (∀ v ∈ exportSample.vars, v.vartype = .binary →
    v.lb = 0 ∧ v.ub = 1) ∧ exportSample.lins.length = 2 ∧ exportSample.quads.length = 1 ∧
    (∀ c ∈ exportSample.quads, c.quadratic.coeffs = [] → ∀ k ∈ exportSample.lins, k.name ≠ c.name) :=
  ⟨fun _ => rfl, by decide +kernel, by decide +kernel, by decide +kernel, by decide +kernel, by decide +kernel⟩

/-- **C41 is false** for a binary variable with bounds other than 0 and 1 (here fixed to 1, as substitution and the
setters of the bounds allow): the bounds are lost. -/
theorem C41_violated_bounds : ∃ (p : QP) (m : DModel) (p' : QP), p.WF ∧ toDocplex docplexBool p = .ok m ∧
    fromDocplex m = (.ok (), p') ∧ p'.vars ≠ p.vars := by
  let p : QP := (runCalls (QP.empty "p") [.addVar 1 1 .binary (some "b")]).2
  have hp : p.WF := by decide +kernel
  refine ⟨p, exported p, (fromDocplex (exported p)).2, hp, toDocplex_eq (fun _ => rfl) ?_ ?_, ?_, ?_⟩
  · exact fun c hc he => absurd he ((show ∀ c ∈ p.lins, c.linear.coeffs ≠ [] by decide +kernel) c hc)
  · exact fun c hc he => absurd he ((show ∀ c ∈ p.quads, c.linear.coeffs ≠ [] by decide +kernel) c hc)
  · exact Prod.ext (by decide +kernel) rfl
  · decide +kernel

/-- **C41 is false** for a program with a linear constraint and a quadratic constraint without quadratic terms of the
same name (the two kinds of constraints have separate names): the export has two linear constraints of that name, and
loading it raises an error. -/
theorem C41_violated_names : ∃ (p : QP) (m : DModel) (e : Err), p.WF ∧ p.BinBoundsOK ∧
    toDocplex docplexBool p = .ok m ∧ (fromDocplex m).1 = .error e := by
  let p : QP := (runCalls (QP.empty "p") [.addVar 0 1 .binary (some "b"),
    .linear (.dict [(.name "b", 1)]) (.str "<=") 1 (some "c"),
    .quadratic (.dict [(.name "b", 1)]) (.dict []) (.str ">=") 0 (some "c")]).2
  have hp : p.WF := by decide +kernel
  refine ⟨p, exported p, .optimization, hp, ?_, toDocplex_eq (fun _ => rfl) ?_ ?_, ?_⟩
  · unfold QP.BinBoundsOK; decide +kernel
  · exact fun c hc he => absurd he ((show ∀ c ∈ p.lins, c.linear.coeffs ≠ [] by decide +kernel) c hc)
  · exact fun c hc he => absurd he ((show ∀ c ∈ p.quads, c.linear.coeffs ≠ [] by decide +kernel) c hc)
  · decide +kernel

end Verif
