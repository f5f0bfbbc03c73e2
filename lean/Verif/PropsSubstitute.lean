import Verif.SubstSuccess

/-!
# C12, C13, C14: substitution of variables
-/

namespace Verif

/-! ## C12 -/

/-- A program with a variable named `__CONSTANT__`. -/
def reservedQP : QP :=
  (runCalls (QP.empty "") [.addVar 0 5 .integer (some "__CONSTANT__"),
    .objective .minimize 0 (.dict [(.idx 0, 2)]) (.dict [])]).2

/-- **C12 fails** for a variable named `__CONSTANT__`: substituting nothing turns its objective term into a
constant. -/
theorem C12_violated : ∃ (src dst : QP), src.WF ∧ src.substitute [] [] = .ok dst ∧
    (∀ x, IsExtension src dst [] [] x x) ∧ ¬ ∀ x, dst.objective.val x = src.objective.val x := by
  refine ⟨reservedQP, ⟨"", .valid, [⟨"__CONSTANT__", 0, 5, .integer⟩], [("__CONSTANT__", 0)], [], [], [], [],
    ⟨2, ⟨1, []⟩, ⟨1, []⟩, .minimize⟩⟩, by decide +kernel, by decide +kernel, ?_, ?_⟩
  · intro x
    have hv : reservedQP.vars = [⟨"__CONSTANT__", 0, 5, .integer⟩] := by decide +kernel
    refine ⟨by simp, by simp, ?_⟩
    intro i a v w hi ha _
    rw [hv] at hi
    have h1 := (List.getElem?_eq_some_iff.mp hi).1
    have h2 := (List.getElem?_eq_some_iff.mp ha).1
    simp at h1 h2
    rw [h1, h2]
  · intro h
    have h0 := h (fun _ => 0)
    have ho : reservedQP.objective = ⟨0, ⟨1, [(0, 2)]⟩, ⟨1, []⟩, .minimize⟩ := by decide +kernel
    rw [ho] at h0
    simp [Objective.val, LinExpr.val, QuadExpr.val] at h0

/-- **C12, the part that holds**.  Full statement: for every accepted substitution the objective of the result
at `y` is the source objective at the extended point, with the same sense.  Missing (false by
`C12_violated`): programs with a variable named `__CONSTANT__`. -/
theorem C12_objective_partial (src dst : QP) (consts : List (Key × ℚ)) (varSubs : List (Key × Key × ℚ))
    (h : src.substitute consts varSubs = .ok dst) (hs : src.WF)
    (hc : "__CONSTANT__" ∉ src.vars.map Variable.name) (x y : Nat → ℚ)
    (hx : IsExtension src dst consts varSubs x y) :
    dst.objective.sense = src.objective.sense ∧ dst.objective.val y = src.objective.val x :=
  ⟨(substitute_spec h hs hc hx).1, (substitute_spec h hs hc hx).2.1⟩

/-- **C12** (the variables of the result, and every point of it extends): the remaining variables are the
unreplaced ones in order, and every point `y` of the result has an extension. -/
theorem C12_extension_exists (src dst : QP) (consts : List (Key × ℚ)) (varSubs : List (Key × Key × ℚ))
    (h : src.substitute consts varSubs = .ok dst) (hs : src.WF)
    (hc : "__CONSTANT__" ∉ src.vars.map Variable.name) (hk : KnownKeys src consts varSubs) :
    (∀ s, s ∈ dst.vars.map Variable.name ↔
      s ∈ src.vars.map Variable.name ∧
        ∀ k ∈ replacedKeys consts varSubs, ∀ i v, src.Denotes k i → src.vars[i]? = some v → v.name ≠ s) ∧
    ∀ y : Nat → ℚ, ∃ x, IsExtension src dst consts varSubs x y := by
  obtain ⟨subs, d0, d1, d2, d3, d4, fa, f3, f4, st⟩ := substitute_stages h
  have hf := st.facts hs
  have hval := substitute_valid h hs hc hk
  have hnames : dst.vars.map Variable.name = d0.vars.map Variable.name := by rw [hf.dvars, hf.same.names]
  have hnone : ∀ s, Assoc.get? subs s = none ↔
      ∀ k ∈ replacedKeys consts varSubs, ∀ i v, src.Denotes k i → src.vars[i]? = some v → v.name ≠ s := by
    intro s
    constructor
    · intro hg k hkm i v hd hi hn
      have hnm : NameOf src k s := (NameOf_iff hs.cons _ _).mpr ⟨i, v, hd, hi, hn⟩
      simp only [replacedKeys, List.mem_append, List.mem_map] at hkm
      rcases hkm with ⟨c, hcm, rfl⟩ | ⟨c, hcm, rfl⟩
      · have := (hf.get s (CONST, c.2)).mpr (Or.inl ⟨c, hcm, hnm, rfl⟩)
        rw [hg] at this; simp at this
      · obtain ⟨_, ⟨j, hj⟩⟩ := hk.2 c hcm
        obtain ⟨w, hw⟩ := known_ok hs.cons ⟨j, hj⟩
        have := (hf.get s (w.name, c.2.2)).mpr (Or.inr ⟨c, hcm, hnm, ⟨w, hw, rfl⟩, rfl⟩)
        rw [hg] at this; simp at this
    · intro hall
      cases hg : Assoc.get? subs s with
      | none => rfl
      | some r =>
        exfalso
        rcases (hf.get s r).mp hg with ⟨c, hcm, n1, _⟩ | ⟨c, hcm, n1, _, _⟩
        · obtain ⟨i, v, hd, hi, hn⟩ := (NameOf_iff hs.cons _ _).mp n1
          exact hall c.1 (by simp only [replacedKeys, List.mem_append, List.mem_map]; exact Or.inl ⟨c, hcm, rfl⟩)
            i v hd hi hn
        · obtain ⟨i, v, hd, hi, hn⟩ := (NameOf_iff hs.cons _ _).mp n1
          exact hall c.1 (by simp only [replacedKeys, List.mem_append, List.mem_map]; exact Or.inr ⟨c, hcm, rfl⟩)
            i v hd hi hn
  refine ⟨fun s => by rw [hnames, hf.kept_iff, hnone], ?_⟩
  intro y
  let val : String → ℚ := fun s =>
    match Assoc.get? subs s with
    | none => nameVal d1.varsIndex y s
    | some r => if r.1 = CONST then r.2 else r.2 * nameVal d1.varsIndex y r.1
  refine ⟨fun i => val (varName src.vars i), ?_, ?_, ?_⟩
  · intro e he i hd
    have hlt := Denotes.lt hd
    have hn : NameOf src e.1 (varName src.vars i) := by
      refine (NameOf_iff hs.cons _ _).mpr ⟨i, src.vars[i], hd, by simp [hlt], by simp [varName, hlt]⟩
    have hg := (hf.get _ _).mpr (Or.inl ⟨e, he, hn, rfl⟩)
    simp only [val, hg, if_true]
  · intro e he i j hd hd'
    have hlt := Denotes.lt hd
    have hlt' := Denotes.lt hd'
    have hn : NameOf src e.1 (varName src.vars i) := by
      refine (NameOf_iff hs.cons _ _).mpr ⟨i, src.vars[i], hd, by simp [hlt], by simp [varName, hlt]⟩
    have hn' : NameOf src e.2.1 (varName src.vars j) := by
      refine (NameOf_iff hs.cons _ _).mpr ⟨j, src.vars[j], hd', by simp [hlt'], by simp [varName, hlt']⟩
    have hg := (hf.get (varName src.vars i) (varName src.vars j, e.2.2)).mpr (Or.inr ⟨e, he, hn, hn', rfl⟩)
    have hne : varName src.vars j ≠ CONST := by
      intro hh; have := hn'.mem hs.cons; rw [hh] at this; exact hc this
    have hk' := ((hf.kept_iff _).mp (hf.repl _ (Assoc.get?_mem hg) hne)).2
    simp only [val, hg, hk', hne, if_false]
  · intro i a v w hi ha hvw
    have hvn : varName src.vars i = v.name := by simp [varName, hi]
    rw [hf.dvars] at ha
    have hmem : v.name ∈ d0.vars.map Variable.name := by
      rw [hvw, ← hf.same.names]; exact List.mem_map_of_mem (List.mem_of_getElem? ha)
    have hg := ((hf.kept_iff _).mp hmem).2
    simp only [val, hvn, hg]
    rw [hvw, nameVal_at hf.cons1 ha]

/-- A program for the examples: two bounded variables, a product, a quadratic constraint. -/
def substQP : QP :=
  (runCalls (QP.empty "") [.addVar 0 10 .integer (some "x"), .addVar (-3) 7 .continuous (some "y"),
    .addVar 0 1 .binary (some "z"),
    .linear (.dict [(.name "x", 1), (.name "y", 3)]) (.str "<=") 8 none,
    .quadratic (.dict [(.name "z", 1)]) (.dict [((.name "x", .name "z"), 3)]) (.str "<=") 9 none,
    .objective .maximize 1 (.dict [(.name "x", 2)]) (.dict [((.name "x", .name "y"), 1), ((.idx 0, .idx 0), 1)])]).2

/-- The result of fixing `z = 1` and replacing `x` by `-2 y`. -/
def substDst : QP :=
  match substQP.substitute [(.name "z", 1)] [(.idx 0, .name "y", -2)] with | .ok d => d | .error _ => QP.empty ""

example : substQP.substitute [(.name "z", 1)] [(.idx 0, .name "y", -2)] = .ok substDst ∧ substQP.WF ∧
    "__CONSTANT__" ∉ substQP.vars.map Variable.name ∧ substDst.status = .valid ∧
    substDst.vars = [⟨"y", -3, 0, .continuous⟩] ∧ substDst.lins.length = 2 := by decide +kernel

/-! ## C13 -/

/-- **C13 fails** for integrality: fixing an integer variable at a fractional constant gives a valid program
whose points do not extend to feasible points of the source. -/
theorem C13_violated : ∃ (src dst : QP) (consts : List (Key × ℚ)) (x y : Nat → ℚ), src.WF ∧
    src.substitute consts [] = .ok dst ∧ dst.status = .valid ∧ IsExtension src dst consts [] x y ∧
    dst.Feas y ∧ ¬ src.Feas x := by
  refine ⟨(runCalls (QP.empty "") [.addVar 0 10 .integer (some "x")]).2, QP.empty "",
    [(.name "x", 1 / 2)], fun _ => 1 / 2, fun _ => 0, by decide +kernel, by decide +kernel, rfl, ?_, ?_, ?_⟩
  · refine ⟨by simp, by simp, ?_⟩
    intro i a v w _ ha _
    simp [QP.empty] at ha
  · refine ⟨?_, ?_, ?_⟩ <;> simp [QP.InBounds, QP.Integral, QP.Sat, QP.empty, QP.allCsts]
  · rintro ⟨_, h, _⟩
    have hv : (runCalls (QP.empty "") [.addVar 0 10 .integer (some "x")]).2.vars
        = [⟨"x", 0, 10, .integer⟩] := by decide +kernel
    obtain ⟨z, hz⟩ := h 0 ⟨"x", 0, 10, .integer⟩ (by rw [hv]; rfl) (by simp)
    have : ((2 * z : Int) : ℚ) = (1 : Int) := by push_cast; linarith
    have := Int.cast_injective this
    omega

/-- **C13, the part that holds**.  Full statement: with status VALID a point is feasible for the result iff
its extension is feasible for the source, with status INFEASIBLE no extension is.  Missing (false by
`C13_violated`): integrality of replaced variables, so feasibility here means bounds and constraints, as in
the package's own check.  Restrictions: no variable named `__CONSTANT__`; no lower bound `+INFINITY` or upper
bound `-INFINITY`; points with coordinates up to `INFINITY = 1e20`, the package's infinity. -/
theorem C13_feasibility_partial (src dst : QP) (consts : List (Key × ℚ)) (varSubs : List (Key × Key × ℚ))
    (h : src.substitute consts varSubs = .ok dst) (hs : src.WF)
    (hc : "__CONSTANT__" ∉ src.vars.map Variable.name)
    (hb : ∀ v ∈ src.vars, v.lb < INFINITY ∧ -INFINITY < v.ub) (x y : Nat → ℚ)
    (hx : IsExtension src dst consts varSubs x y) (hxb : ∀ i < src.numVars, |x i| ≤ INFINITY) :
    (dst.status = .valid → ((dst.InBounds y ∧ dst.Sat y) ↔ (src.InBounds x ∧ src.Sat x))) ∧
    (dst.status ≠ .valid → dst.status = .infeasible ∧ ¬ (src.InBounds x ∧ src.Sat x)) := by
  have hsp := (substitute_spec h hs hc hx).2.2 hb hxb
  refine ⟨?_, ?_⟩
  · intro hst
    rw [← hsp]; tauto
  · intro hst
    refine ⟨?_, fun hh => hst (hsp.mpr hh).1⟩
    obtain ⟨_, _, _, _, _, _, _, _, _, st⟩ := substitute_stages h
    have hr := st.result
    rw [hr] at hst ⊢
    simp only at hst ⊢
    split
    · rename_i hh; rw [if_pos hh] at hst; exact absurd rfl hst
    · rfl

/-- **C13** (the result is a well-formed program again, so that substitutions can be chained). -/
theorem C13_result_wf (src dst : QP) (consts : List (Key × ℚ)) (varSubs : List (Key × Key × ℚ))
    (h : src.substitute consts varSubs = .ok dst) (hs : src.WF) : dst.WF := substitute_wf h hs

/-- **C13** (the variables that remain): they keep their order, names and types. -/
theorem C13_variables (src dst : QP) (consts : List (Key × ℚ)) (varSubs : List (Key × Key × ℚ))
    (h : src.substitute consts varSubs = .ok dst) (hs : src.WF) :
    (dst.vars.map fun v => (v.name, v.vartype)).Sublist (src.vars.map fun v => (v.name, v.vartype)) := by
  obtain ⟨subs, d0, d1, d2, d3, d4, fa, f3, f4, st⟩ := substitute_stages h
  have hf := st.facts hs
  have hz : ∀ l : List Variable, (l.map fun v => (v.name, v.vartype)) = (l.map Variable.name).zip (l.map Variable.vartype) := by
    intro l
    rw [List.zip_map']
  rw [hz, hf.dvars, hf.same.names, hf.same.types, ← hz, hf.vars0]
  exact List.filter_sublist.map _

/-- **C13** (partial, with the types): if the replaced binary and integer variables get integral values, then the feasible
points of the result are exactly the feasible points of the source.  Missing compared with the full claim: that the result
rejects points that give replaced integer variables fractional values, which is false (`C13_violated`); bounds as in
`C13_feasibility_partial`. -/
theorem C13_feasible_partial (src dst : QP) (consts : List (Key × ℚ)) (varSubs : List (Key × Key × ℚ))
    (h : src.substitute consts varSubs = .ok dst) (hs : src.WF)
    (hc : "__CONSTANT__" ∉ src.vars.map Variable.name) (hk : KnownKeys src consts varSubs)
    (hb : ∀ v ∈ src.vars, v.lb < INFINITY ∧ -INFINITY < v.ub) (x y : Nat → ℚ)
    (hx : IsExtension src dst consts varSubs x y) (hxb : ∀ i < src.numVars, |x i| ≤ INFINITY)
    (hint : ∀ k ∈ replacedKeys consts varSubs, ∀ i v, src.Denotes k i → src.vars[i]? = some v → v.vartype ≠ .continuous →
      ∃ z : ℤ, x i = z) :
    (dst.status = .valid → (dst.Feas y ↔ src.Feas x)) ∧ (dst.status ≠ .valid → ¬ src.Feas x) := by
  obtain ⟨hv, hi⟩ := C13_feasibility_partial src dst consts varSubs h hs hc hb x y hx hxb
  refine ⟨fun hst => ?_, fun hst hfe => (hi hst).2 ⟨hfe.1, hfe.2.2⟩⟩
  have hsub := C13_variables src dst consts varSubs h hs
  have hmem := (C12_extension_exists src dst consts varSubs h hs hc hk).1
  have hnd : (src.vars.map Variable.name).Nodup := hs.cons.vars.2
  have htype : ∀ (i a : Nat) (v w : Variable), src.vars[i]? = some v → dst.vars[a]? = some w → v.name = w.name → v.vartype = w.vartype := by
    intro i a v w h1 h2 hn
    have hw := hsub.subset (List.mem_map_of_mem (f := fun v : Variable => (v.name, v.vartype)) (List.mem_of_getElem? h2))
    obtain ⟨u, hu, he⟩ := List.mem_map.mp hw
    simp only [Prod.mk.injEq] at he
    have : u = v := List.inj_on_of_nodup_map hnd hu (List.mem_of_getElem? h1) (he.1.trans hn.symm)
    rw [← this, he.2]
  have key : dst.Integral y ↔ src.Integral x := by
    constructor
    · intro hy i v h1 ht
      by_cases hr : ∀ k ∈ replacedKeys consts varSubs, ∀ j u, src.Denotes k j → src.vars[j]? = some u → u.name ≠ v.name
      · obtain ⟨w, hw, hn⟩ := List.mem_map.mp ((hmem v.name).mpr ⟨List.mem_map_of_mem (List.mem_of_getElem? h1), hr⟩)
        obtain ⟨a, ha⟩ := List.mem_iff_getElem?.mp hw
        rw [hx.kept i a v w h1 ha hn.symm]
        exact hy a w ha (by rw [← htype i a v w h1 ha hn.symm]; exact ht)
      · push Not at hr
        obtain ⟨k, hkm, j, u, hd, hu, hn⟩ := hr
        have : u = v := List.inj_on_of_nodup_map hnd (List.mem_of_getElem? hu) (List.mem_of_getElem? h1) hn
        subst this
        have hij : i = j := by
          have e1 : (src.vars.map Variable.name)[i]? = some u.name := by simp [h1]
          have e2 : (src.vars.map Variable.name)[j]? = some u.name := by simp [hu]
          have l1 : i < (src.vars.map Variable.name).length := by simpa using (List.getElem?_eq_some_iff.mp h1).1
          exact (List.getElem?_inj l1 hnd).mp (e1.trans e2.symm)
        subst hij
        exact hint k hkm i u hd hu ht
    · intro hxi a w ha ht
      obtain ⟨v, hv', hn⟩ := List.mem_map.mp ((hmem w.name).mp (List.mem_map_of_mem (List.mem_of_getElem? ha))).1
      obtain ⟨i, h1⟩ := List.mem_iff_getElem?.mp hv'
      rw [← hx.kept i a v w h1 ha hn]
      exact hxi i v h1 (by rw [htype i a v w h1 ha hn]; exact ht)
  have hv := hv hst
  constructor
  · rintro ⟨h1, h2, h3⟩
    have := hv.mp ⟨h1, h3⟩
    exact ⟨this.1, key.mp h2, this.2⟩
  · rintro ⟨h1, h2, h3⟩
    have := hv.mpr ⟨h1, h3⟩
    exact ⟨this.1, key.mpr h2, this.2⟩

/-- An integer variable is replaced by an integer and the rest keeps names and types. -/
example : ∃ d, substQP.substitute [(.name "x", 2)] [] = .ok d ∧ d.status = .valid ∧
    (d.vars.map fun v => (v.name, v.vartype)) = [("y", .continuous), ("z", .binary)] ∧
    KnownKeys substQP [(.name "x", 2)] [] := by
  refine ⟨(match substQP.substitute [(.name "x", 2)] [] with
    | .ok d => d | .error _ => QP.empty ""), by decide +kernel, by decide +kernel, by decide +kernel, ?_, by simp⟩
  rintro e he
  simp only [List.mem_singleton] at he
  subst he
  exact ⟨0, by show substQP.vars[0]?.map Variable.name = some "x"; decide +kernel⟩

example : substQP.SaneBounds ∧ (∃ d, substQP.substitute [(.name "x", 9), (.name "y", 7)] [] = .ok d ∧
    d.status = .infeasible) := by
  refine ⟨by decide +kernel, (match substQP.substitute [(.name "x", 9), (.name "y", 7)] [] with
    | .ok d => d | .error _ => QP.empty ""), by decide +kernel, by decide +kernel⟩

/-! ## C14 -/

/-- **C14 fails**: (1) a chain of replacements listed in the other order raises `KeyError` instead of
`QiskitOptimizationError`; (2) contradictory bounds raise from the bound setter instead of giving status
INFEASIBLE. -/
theorem C14_violated :
    (∃ src : QP, src.WF ∧ src.substitute [] [(.name "x", .name "y", 1), (.name "y", .name "z", 1)]
      = .error .keyError ∧
      src.substitute [] [(.name "y", .name "z", 1), (.name "x", .name "y", 1)] = .error .optimization) ∧
    ∃ src : QP, src.WF ∧ ValidSubst src [] [(.name "x", .name "y", 1)] ∧
      src.substitute [] [(.name "x", .name "y", 1)] = .error .optimization := by
  refine ⟨⟨(runCalls (QP.empty "") [.addVar 0 1 .binary (some "x"), .addVar 0 1 .binary (some "y"),
    .addVar 0 1 .binary (some "z")]).2, by decide +kernel, by decide +kernel, by decide +kernel⟩,
    (runCalls (QP.empty "") [.addVar 0 1 .integer (some "x"), .addVar 2 3 .integer (some "y")]).2,
    by decide +kernel, ?_, by decide +kernel⟩
  have hv : (runCalls (QP.empty "") [.addVar 0 1 .integer (some "x"), .addVar 2 3 .integer (some "y")]).2.vars
      = [⟨"x", 0, 1, .integer⟩, ⟨"y", 2, 3, .integer⟩] := by decide +kernel
  have hns : ¬ (runCalls (QP.empty "") [.addVar 0 1 .integer (some "x"),
      .addVar 2 3 .integer (some "y")]).2.SameVar (.name "x") (.name "y") := by
    rintro ⟨i, h1, h2⟩
    simp only [QP.Denotes] at h1 h2
    rw [h1] at h2
    simp at h2
  refine ⟨⟨by simp, ?_⟩, by simp [replacedKeys], by simp, ?_⟩
  · intro e he
    simp at he; subst he
    exact ⟨⟨0, by simp [QP.Denotes, hv]⟩, ⟨1, by simp [QP.Denotes, hv]⟩⟩
  · intro k hk e he
    simp [replacedKeys] at hk he
    subst hk; subst he
    exact hns

/-- **C14, the part that holds** (rejection).  Full statement: a substitution is rejected with
QiskitOptimizationError exactly when it is invalid, in whatever order it is listed, and contradictory bounds
give status INFEASIBLE.  Missing (false by `C14_violated`): forward chains, contradictory bounds.
Proved: for known keys an invalid substitution is always rejected, and the error is
QiskitOptimizationError unless the only fault is a variable that is replaced later in the list. -/
theorem C14_rejects_partial (src : QP) (consts : List (Key × ℚ)) (varSubs : List (Key × Key × ℚ))
    (hs : src.WF) (hc : "__CONSTANT__" ∉ src.vars.map Variable.name) (hk : KnownKeys src consts varSubs) :
    (¬ ValidSubst src consts varSubs → ∃ e, src.substitute consts varSubs = .error e) ∧
    (((∃ e ∈ varSubs, e.2.2 = 0 ∨ src.SameVar e.1 e.2.1) ∨
      ¬ (replacedKeys consts varSubs).Pairwise (fun k l => ¬ src.SameVar k l) ∨
      (∃ c ∈ consts, ∃ e ∈ varSubs, src.SameVar c.1 e.2.1) ∨
      ¬ varSubs.Pairwise (fun a b => ¬ src.SameVar a.1 b.2.1)) →
      src.substitute consts varSubs = .error .optimization) := by
  constructor
  · intro hv
    cases h : src.substitute consts varSubs with
    | error e => exact ⟨e, rfl⟩
    | ok dst => exact absurd (substitute_valid h hs hc hk) hv
  · intro hv
    rcases subsDict_cases hs.cons hk with ⟨_, hok⟩ | ⟨h, _⟩
    · exfalso
      rcases hv with ⟨e, he, h0 | h0⟩ | h0 | ⟨c, hcm, e, he, h0⟩ | h0
      · exact hok.nonzero e he h0
      · exact hok.self e he h0
      · exact h0 hok.distinct
      · exact hok.const c hcm e he h0
      · exact h0 hok.earlier
    · simp [QP.substitute, h]

/-- **C14, the part that holds** (acceptance).  Every valid substitution under which some point respects all
bounds is accepted.  See `C14_rejects_partial` for what is missing. -/
theorem C14_accepts_partial (src : QP) (consts : List (Key × ℚ)) (varSubs : List (Key × Key × ℚ))
    (hs : src.WF) (hc : "__CONSTANT__" ∉ src.vars.map Variable.name)
    (hne : (∀ c ∈ src.lins, c.name ≠ "") ∧ ∀ c ∈ src.quads, c.name ≠ "")
    (hb : ∀ v ∈ src.vars, v.lb < INFINITY ∧ -INFINITY < v.ub) (hv : ValidSubst src consts varSubs)
    (hpt : ∃ x : Nat → ℚ, (∀ e ∈ consts, ∀ i, src.Denotes e.1 i → x i = e.2) ∧
      (∀ e ∈ varSubs, ∀ i j, src.Denotes e.1 i → src.Denotes e.2.1 j → x i = e.2.2 * x j) ∧
      src.InBounds x ∧ ∀ i < src.numVars, |x i| ≤ INFINITY) :
    ∃ dst, src.substitute consts varSubs = .ok dst := by
  obtain ⟨x, h1, h2, h3, h4⟩ := hpt
  exact substitute_success hs hc hne hb hv h1 h2 h3 h4

example : substQP.WF ∧ ((∀ c ∈ substQP.lins, c.name ≠ "") ∧ ∀ c ∈ substQP.quads, c.name ≠ "") ∧
    substQP.SaneBounds := by decide +kernel

theorem adjustBounds_flag {src : QP} {l : Subs} {dst dst' : QP} {f f' : Bool}
    (h : adjustBounds src l dst f = .ok (dst', f')) (hf : f' = true) :
    f = true ∧ ∀ t ∈ l, t.2.1 = CONST → ∀ v, src.getVariable (.name t.1) = .ok v → v.lb ≤ t.2.2 ∧ t.2.2 ≤ v.ub := by
  induction l generalizing dst f with
  | nil => simp [adjustBounds] at h; obtain ⟨rfl, rfl⟩ := h; simp [hf]
  | cons t l ih =>
    obtain ⟨i, j, v⟩ := t
    simp only [adjustBounds] at h
    cases hvi : src.getVariable (.name i) with
    | error e => simp [hvi] at h
    | ok vi =>
      simp only [hvi] at h
      by_cases hj : j = CONST
      · rw [if_pos hj] at h
        obtain ⟨g1, g2⟩ := ih h
        simp only [Bool.and_eq_true, decide_eq_true_eq] at g1
        refine ⟨g1.1, ?_⟩
        intro t ht hc w hw
        rcases List.mem_cons.mp ht with rfl | ht
        · simp only [hvi, Except.ok.injEq] at hw
          subst hw
          exact g1.2
        · exact g2 t ht hc w hw
      · rw [if_neg hj] at h
        have key : ∃ d, adjustBounds src l d f = .ok (dst', f') := by
          split at h
          · simp at h
          · split at h
            · simp at h
            · split at h
              · simp at h
              · split at h
                · simp at h
                · split at h
                  · simp at h
                  · exact ⟨_, h⟩
        obtain ⟨d, hd⟩ := key
        obtain ⟨g1, g2⟩ := ih hd
        refine ⟨g1, ?_⟩
        intro t ht hc w hw
        rcases List.mem_cons.mp ht with rfl | ht
        · exact absurd hc hj
        · exact g2 t ht hc w hw

theorem adjustBounds_constants {src : QP} {l : Subs} {dst dst' : QP} {f f' : Bool}
    (h : adjustBounds src l dst f = .ok (dst', f')) (hc : ∀ t ∈ l, t.2.1 = CONST)
    (hin : ∀ t ∈ l, ∀ v, src.getVariable (.name t.1) = .ok v → v.lb ≤ t.2.2 ∧ t.2.2 ≤ v.ub) : dst' = dst ∧ f' = f := by
  induction l generalizing dst f with
  | nil => simp [adjustBounds] at h; exact ⟨h.1.symm, h.2.symm⟩
  | cons t l ih =>
    obtain ⟨i, j, v⟩ := t
    have hj : j = CONST := hc (i, j, v) (by simp)
    simp only [adjustBounds] at h
    cases hvi : src.getVariable (.name i) with
    | error e => simp [hvi] at h
    | ok vi =>
      have := hin (i, j, v) (by simp) vi hvi
      simp only [hvi, if_pos hj, this, and_self, decide_true, Bool.and_true] at h
      exact ih h (fun t ht => hc t (by simp [ht])) (fun t ht => hin t (by simp [ht]))

theorem getVariable_name {p : QP} (hp : p.Consistent) {i : Nat} {v : Variable} (h : p.vars[i]? = some v) {w : Variable} :
    p.getVariable (.name v.name) = .ok w → w = v := by
  intro hw
  obtain ⟨j, hj, hjv⟩ := (getVariable_iff hp _ _).mp hw
  have hun : w.name = v.name := by simpa [QP.Denotes, hjv] using hj
  have hnd := hp.vars.2
  have h1 : (p.vars.map Variable.name)[i]? = some v.name := by simp [h]
  have h2 : (p.vars.map Variable.name)[j]? = some v.name := by simp [hjv, hun]
  have hi := (List.getElem?_eq_some_iff.mp h1).1
  have := (List.getElem?_inj hi hnd).mp (h1.trans h2.symm)
  subst this
  rw [h] at hjv
  exact (Option.some.inj hjv).symm

/-- **C14** (status, constants out of bounds): if a variable is replaced by a constant outside its bounds, the result
has status INFEASIBLE. -/
theorem C14_status_outside (src dst : QP) (consts : List (Key × ℚ)) (varSubs : List (Key × Key × ℚ)) (hs : src.WF)
    (h : src.substitute consts varSubs = .ok dst) (e : Key × ℚ) (he : e ∈ consts) (i : Nat) (v : Variable)
    (hd : src.Denotes e.1 i) (hv : src.vars[i]? = some v) (hout : e.2 < v.lb ∨ v.ub < e.2) :
    dst.status = .infeasible := by
  obtain ⟨subs, d0, d1, d2, d3, d4, fa, f3, f4, st⟩ := substitute_stages h
  have hfa : fa = false := by
    cases fa with
    | false => rfl
    | true =>
      have hg : Assoc.get? subs v.name = some (CONST, e.2) :=
        ((subsDict_get st.table).2 v.name (CONST, e.2)).mpr
          (Or.inl ⟨e, he, (NameOf_iff hs.cons _ _).mpr ⟨i, v, hd, hv, rfl⟩, rfl⟩)
      have hgv : src.getVariable (.name v.name) = .ok v :=
        (getVariable_iff hs.cons _ _).mpr ⟨i, by simp [QP.Denotes, hv], hv⟩
      have := (adjustBounds_flag st.adjust rfl).2 _ (Assoc.get?_mem hg) rfl v hgv
      simp only at this
      rcases hout with h1 | h1 <;> linarith [this.1, this.2]
  rw [st.result]
  simp [hfa]

/-- **C14** (status, exactly): for a program without constraints and a substitution of constants, the status of the
result is INFEASIBLE iff one of the constants is outside the bounds of its variable. -/
theorem C14_status_exact (src dst : QP) (consts : List (Key × ℚ)) (hs : src.WF) (hl : src.lins = [])
    (hq : src.quads = []) (hb : ∀ v ∈ src.vars, v.lb ≤ v.ub) (h : src.substitute consts [] = .ok dst) :
    dst.status = .infeasible ↔
      ∃ e ∈ consts, ∃ i v, src.Denotes e.1 i ∧ src.vars[i]? = some v ∧ (e.2 < v.lb ∨ v.ub < e.2) := by
  constructor
  · intro hinf
    by_contra hno
    obtain ⟨subs, d0, d1, d2, d3, d4, fa, f3, f4, st⟩ := substitute_stages h
    have hg := subsDict_get st.table
    have hmem : ∀ t ∈ subs, ∃ e ∈ consts, NameOf src e.1 t.1 ∧ t.2 = (CONST, e.2) := by
      intro t ht
      have := (hg.2 t.1 t.2).mp (Assoc.get?_of_mem hg.1 ht)
      simpa using this
    obtain ⟨hd, hfa⟩ := adjustBounds_constants st.adjust
      (fun t ht => by obtain ⟨e, _, _, he⟩ := hmem t ht; rw [he])
      (fun t ht v hv => by
        obtain ⟨e, he, hn, ht2⟩ := hmem t ht
        obtain ⟨i, w, hi, hw, hwn⟩ := (NameOf_iff hs.cons _ _).mp hn
        have hvw : v = w := getVariable_name hs.cons hw (by rw [hwn]; exact hv)
        subst hvw
        by_contra hc
        apply hno
        refine ⟨e, he, i, v, hi, hw, ?_⟩
        rw [ht2] at hc
        rw [not_and_or, not_le, not_le] at hc
        exact hc)
    have hvars := (copyVars_ok st.copy (QP.empty_consistent _)).2.1
    have hall : (d1.vars.all fun v => decide (v.lb ≤ v.ub)) = true := by
      rw [hd, hvars]
      simp only [QP.empty, List.nil_append, List.all_eq_true, List.mem_filter, decide_eq_true_eq]
      exact fun v hv => hb v hv.1
    have h3 := st.lins
    have h4 := st.quads
    rw [hl] at h3
    rw [hq] at h4
    simp only [substLins, Except.ok.injEq, Prod.mk.injEq] at h3
    simp only [substQuads, Except.ok.injEq, Prod.mk.injEq] at h4
    rw [st.result, hfa, hall, ← h3.2, ← h4.2] at hinf
    simp at hinf
  · rintro ⟨e, he, i, v, hi, hv, hout⟩
    exact C14_status_outside src dst consts [] hs h e he i v hi hv hout

/-- One integer variable between 0 and 3. -/
def boundedQP : QP := (runCalls (QP.empty "") [.addVar 0 3 .integer (some "x")]).2

/-- A constant on the boundary and one beyond it. -/
example : boundedQP.WF ∧ boundedQP.lins = [] ∧ boundedQP.quads = [] ∧ (∀ v ∈ boundedQP.vars, v.lb ≤ v.ub) ∧
    (boundedQP.substitute [(.name "x", 3)] []).toOption.map QP.status = some .valid ∧
    (boundedQP.substitute [(.name "x", 4)] []).toOption.map QP.status = some .infeasible := by decide +kernel

end Verif
