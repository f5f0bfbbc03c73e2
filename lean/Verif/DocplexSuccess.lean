import Verif.DocplexLemmas

/-!
# When loading a docplex model succeeds; arithmetic of expressions
-/

namespace Verif

/-- Names given by the user, `none` for those to be generated: the given ones are distinct, and none of them has the
form of a generated name unless nothing is generated. -/
def NamesOK (pre : String) (names : List (Option String)) : Prop :=
  (names.filterMap id).Nodup ∧
    ((∀ n ∈ names, n ≠ none) ∨ ∀ s, some s ∈ names → ∀ k : Nat, s ≠ pre ++ toString k)

theorem NamesOK.tail {pre : String} {a : Option String} {l : List (Option String)} (h : NamesOK pre (a :: l)) :
    NamesOK pre l := by
  refine ⟨?_, ?_⟩
  · have := h.1
    cases a with
    | none => simpa using this
    | some s => simp only [List.filterMap_cons, id] at this; exact (List.nodup_cons.mp this).2
  · rcases h.2 with h | h
    · exact Or.inl fun n hn => h n (by simp [hn])
    · exact Or.inr fun s hs => h s (by simp [hs])

theorem addVariable_none_success {p : QP} {lb ub : ℚ} {t : VarType} (hb : lb ≤ ub) :
    ∃ v p' k, p.addVariable lb ub t none = (.ok v, p') ∧ v.name = "x" ++ toString (k : Nat) := by
  obtain ⟨m, _, h1, h2⟩ := findName_fuel p.varsIndex "x" "" "" p.numVars
  have hlt : ¬ lb > ub := not_lt.mpr hb
  have hh : ¬ Assoc.has p.varsIndex ("x" ++ ("" ++ toString m ++ "")) = true := fun hc => h2 (Assoc.has_iff.mp hc)
  refine ⟨⟨"x" ++ ("" ++ toString m ++ ""), lb, ub, t⟩,
    { p with varsIndex := Assoc.set p.varsIndex ("x" ++ ("" ++ toString m ++ "")) p.numVars,
             vars := p.vars ++ [⟨"x" ++ ("" ++ toString m ++ ""), lb, ub, t⟩] }, m, ?_, by simp⟩
  have h3 : ¬ ((1 : Int) < 1) := by norm_num
  simp only [QP.addVariable, QP.addVariables, h3, if_false, Option.getD, reduceCtorEq, show (1 : Int).toNat = 1 from rfl,
    QP.addVarsCount, h1, QP.addOneVar, Variable.mk?, hh, hlt]

/-- The docplex variable can be loaded. -/
def DVar.OK (x : DVar) : Prop := x.vartype ≠ .other ∧ (x.vartype = .binary ∨ x.lb ≤ x.ub)

theorem loadVars_success {l : List DVar} {p : QP} (hp : p.WF) (ho : ∀ x ∈ l, x.OK) (hn : NamesOK "x" (l.map DVar.name))
    (hf : ∀ s, some s ∈ l.map DVar.name → s ∉ p.vars.map Variable.name) :
    ∃ names p', loadVars l p = (.ok names, p') := by
  induction l generalizing p with
  | nil => exact ⟨[], p, rfl⟩
  | cons x l ih =>
    have key : ∀ (t : VarType) (lb ub : ℚ), lb ≤ ub → ∃ v p1, p.addVariable lb ub t x.name = (.ok v, p1) ∧
        ∀ s, some s ∈ l.map DVar.name → s ∉ p1.vars.map Variable.name := by
      intro t lb ub hb
      cases hx : x.name with
      | none =>
        obtain ⟨v, p1, k, h1, h2⟩ := addVariable_none_success (p := p) (t := t) hb
        refine ⟨v, p1, h1, ?_⟩
        intro s hs
        rw [(addVariable_extends h1).vars, List.map_append, List.mem_append, not_or]
        refine ⟨hf s (by simp only [List.map_cons, List.mem_cons]; exact Or.inr hs), ?_⟩
        simp only [List.map_cons, List.map_nil, List.mem_singleton, h2]
        rcases hn.2 with h | h
        · exact absurd hx (h x.name (by simp))
        · exact h s (by simp only [List.map_cons, List.mem_cons]; exact Or.inr hs) k
      | some s0 =>
        have h0 := hf s0 (by simp [hx])
        obtain ⟨p1, h1⟩ := addVariable_success (p := p) (t := t) (by rw [hp.cons.vars.keys]; exact h0) hb
        refine ⟨_, p1, h1, ?_⟩
        intro s hs
        rw [(addVariable_extends h1).vars, List.map_append, List.mem_append, not_or]
        refine ⟨hf s (by simp only [List.map_cons, List.mem_cons]; exact Or.inr hs), ?_⟩
        simp only [List.map_cons, List.map_nil, List.mem_singleton]
        rintro rfl
        have := hn.1
        simp only [List.map_cons, hx, List.filterMap_cons, id] at this
        exact (List.nodup_cons.mp this).1 (List.mem_filterMap.mpr ⟨some s, hs, rfl⟩)
    have fin : ∀ (t : VarType) (lb ub : ℚ), lb ≤ ub → ∃ names p',
        (match p.addVariable lb ub t x.name with
          | (.error e, p') => (.error e, p')
          | (.ok v, p') =>
            match loadVars l p' with
            | (.error e, p'') => (.error e, p'')
            | (.ok names, p'') => ((.ok (v.name :: names), p'') : Except Err (List String) × QP)) = (.ok names, p') := by
      intro t lb ub hb
      obtain ⟨v, p1, h1, h2⟩ := key t lb ub hb
      obtain ⟨names, p2, h3⟩ := ih ((addVariable_extends h1).wf hp) (fun y hy => ho y (by simp [hy])) hn.tail h2
      exact ⟨v.name :: names, p2, by simp only [h1, h3]⟩
    obtain ⟨o1, o2⟩ := ho x (by simp)
    simp only [loadVars]
    cases ht : x.vartype with
    | continuous => exact fin .continuous x.lb x.ub (o2.resolve_left (by simp [ht]))
    | binary => exact fin .binary 0 1 (by norm_num)
    | integer => exact fin .integer x.lb x.ub (o2.resolve_left (by simp [ht]))
    | other => exact absurd ht o1

theorem setTerms_success {names : List String} {coef : Nat → ℚ} {l : List Nat} (h : ∀ i ∈ l, i < names.length)
    (d : Dict String) : ∃ d', setTerms names coef l d = .ok d' := by
  induction l generalizing d with
  | nil => exact ⟨d, rfl⟩
  | cons i l ih =>
    simp only [setTerms, List.getElem?_eq_getElem (h i (by simp))]
    exact ih (fun j hj => h j (by simp [hj])) _

theorem subTerms_success {names : List String} {coef : Nat → ℚ} {l : List Nat} (h : ∀ i ∈ l, i < names.length)
    (d : Dict String) : ∃ d', subTerms names coef l d = .ok d' := by
  induction l generalizing d with
  | nil => exact ⟨d, rfl⟩
  | cons i l ih =>
    simp only [subTerms, List.getElem?_eq_getElem (h i (by simp))]
    exact ih (fun j hj => h j (by simp [hj])) _

theorem setPairs_success {names : List String} {l : Dict (Nat × Nat)}
    (h : ∀ k ∈ Assoc.keys l, k.1 < names.length ∧ k.2 < names.length) (d : Dict (String × String)) :
    ∃ d', setPairs names l d = .ok d' := by
  induction l generalizing d with
  | nil => exact ⟨d, rfl⟩
  | cons p l ih =>
    obtain ⟨k, v⟩ := p
    have hk := h k (by simp [Assoc.keys])
    simp only [setPairs, List.getElem?_eq_getElem hk.1, List.getElem?_eq_getElem hk.2]
    exact ih (fun j hj => h j (List.mem_cons_of_mem _ hj)) _

theorem subPairs_success {names : List String} {l : Dict (Nat × Nat)}
    (h : ∀ k ∈ Assoc.keys l, k.1 < names.length ∧ k.2 < names.length) (d : Dict (String × String)) :
    ∃ d', subPairs names l d = .ok d' := by
  induction l generalizing d with
  | nil => exact ⟨d, rfl⟩
  | cons p l ih =>
    obtain ⟨k, v⟩ := p
    have hk := h k (by simp [Assoc.keys])
    simp only [subPairs, List.getElem?_eq_getElem hk.1, List.getElem?_eq_getElem hk.2]
    exact ih (fun j hj => h j (List.mem_cons_of_mem _ hj)) _

theorem name_found {names : List String} {p : QP} (hp : p.Consistent) (hn : NamesOf names p) {s : String}
    (hs : s ∈ names) : ∃ i, Assoc.get? p.varsIndex s = some i ∧ i < p.numVars := by
  obtain ⟨i, hi⟩ := List.getElem?_of_mem hs
  refine ⟨i, ?_, ?_⟩
  · rw [hp.vars.get?, show p.vars.map Variable.name = names from hn, hi]
  · have := (List.getElem?_eq_some_iff.mp hi).1
    rw [← show p.vars.map Variable.name = names from hn, List.length_map] at this
    exact this

theorem const_wf (n : Nat) (c : ℚ) : (DExpr.const c).WF n :=
  ⟨by simp [Assoc.keys, DExpr.const], by simp [Assoc.keys, DExpr.const], by simp [Assoc.keys, DExpr.const],
    by simp [Assoc.keys, DExpr.const], by simp [DExpr.const]⟩

theorem loadObjective_success {names : List String} {m : DModel} {p : QP} (hp : p.WF) (hn : NamesOf names p)
    (hm : m.objective.WF names.length) : ∃ p', loadObjective names m p = (.ok (), p') := by
  unfold loadObjective
  obtain ⟨d, hd⟩ := setTerms_success (coef := Dict.get m.objective.linear) hm.linBound []
  obtain ⟨q, hq⟩ := setPairs_success hm.quadBound []
  rw [hd]
  simp only
  have hq' : (if m.objective.isQuad then setPairs names m.objective.quad [] else .ok []) = .ok q := by
    split
    · exact hq
    · rename_i hb
      rw [hm.lin (by simpa using hb)] at hq
      exact hq
  rw [hq']
  simp only
  obtain ⟨_, l2, _⟩ := lin_sides hp.cons hn hm (const_wf _ 0) hd (d' := d) rfl
  obtain ⟨_, q2, _⟩ := quad_sides hp.cons hn hm.quadNodup hm.quadBound (b := []) (by simp [Assoc.keys]) hq (d' := q) rfl
  obtain ⟨le, hle⟩ := linNames_ok (vi := p.varsIndex) (n := p.numVars) fun s hs => name_found hp.cons hn (l2 s hs)
  obtain ⟨qe, hqe⟩ := quadNames_ok (vi := p.varsIndex) (n := p.numVars) fun s hs =>
    ⟨name_found hp.cons hn (q2 s hs).1, name_found hp.cons hn (q2 s hs).2⟩
  split
  · exact ⟨_, setObjective_success hle hqe⟩
  · exact ⟨_, setObjective_success hle hqe⟩

/-- The new name: the given one or one of the generated form. -/
theorem chooseName_success {ix : Assoc String Nat} {n : Nat} {pre : String} {nm : Option String}
    (h : ∀ s, nm = some s → s ≠ "" ∧ s ∉ Assoc.keys ix) :
    ∃ s, chooseName ix n pre nm = .ok s ∧ (nm = some s ∨ (nm = none ∧ ∃ k : Nat, s = pre ++ toString k)) := by
  cases nm with
  | some s => exact ⟨s, chooseName_some (h s rfl).1 (h s rfl).2, Or.inl rfl⟩
  | none =>
    obtain ⟨m, _, h1, _⟩ := freeName_ok ix pre n
    exact ⟨pre ++ toString m, by simp only [chooseName, h1], Or.inr ⟨rfl, m, rfl⟩⟩

theorem loadLin_success {names : List String} {a b : DExpr} {s : Sense} {nm : Option String} {p : QP}
    (hp : p.WF) (hn : NamesOf names p) (hc : (DCst.linear a s b nm).WF names.length)
    (hnm : ∀ t, nm = some t → t ≠ "" ∧ t ∉ p.lins.map LinCst.name) :
    ∃ k p', loadLin names a s b nm p = (.ok k, p') ∧ (nm = some k.name ∨ (nm = none ∧ ∃ i : Nat, k.name = "c" ++ toString i)) := by
  obtain ⟨ha, hb, _, _⟩ := hc
  obtain ⟨d, hd⟩ := setTerms_success (coef := Dict.get a.linear) ha.linBound []
  obtain ⟨d', hd'⟩ := subTerms_success (coef := Dict.get b.linear) hb.linBound d
  obtain ⟨_, l2, _⟩ := lin_sides hp.cons hn ha hb hd hd'
  obtain ⟨le, hle⟩ := linNames_ok (vi := p.varsIndex) (n := p.numVars) fun s hs => name_found hp.cons hn (l2 s hs)
  obtain ⟨nm', h1, h2⟩ := chooseName_success (ix := p.linsIndex) (n := p.lins.length) (pre := "c") (nm := nm) (by
    rw [hp.cons.lins.keys]; exact hnm)
  have e : ∃ k p', loadLin names a s b nm p = (.ok k, p') ∧ k.name = nm' := by
    simp only [loadLin, hd, hd', QP.linearConstraint, h1, Sense.convert_toStr]
    simp only [QP.numVars] at hle ⊢
    rw [hle]
    exact ⟨_, _, rfl, rfl⟩
  obtain ⟨k, p', e1, rfl⟩ := e
  exact ⟨k, p', e1, h2⟩

theorem loadQuad_success {names : List String} {a b : DExpr} {s : Sense} {nm : Option String} {p : QP}
    (hp : p.WF) (hn : NamesOf names p) (hc : (DCst.quadratic a s b nm).WF names.length)
    (hnm : ∀ t, nm = some t → t ≠ "" ∧ t ∉ p.quads.map QuadCst.name) :
    ∃ k p', loadQuad names a s b nm p = (.ok k, p') ∧ (nm = some k.name ∨ (nm = none ∧ ∃ i : Nat, k.name = "q" ++ toString i)) := by
  obtain ⟨ha, hb⟩ := hc
  obtain ⟨d, hd⟩ := setTerms_success (coef := Dict.get a.linear) ha.linBound []
  obtain ⟨d', hd'⟩ := subTerms_success (coef := Dict.get b.linear) hb.linBound d
  obtain ⟨q, hq⟩ := setPairs_success ha.quadBound []
  obtain ⟨q', hq'⟩ := subPairs_success hb.quadBound q
  obtain ⟨_, l2, _⟩ := lin_sides hp.cons hn ha hb hd hd'
  obtain ⟨_, q2, _⟩ := quad_sides hp.cons hn ha.quadNodup ha.quadBound hb.quadBound hq hq'
  obtain ⟨le, hle⟩ := linNames_ok (vi := p.varsIndex) (n := p.numVars) fun s hs => name_found hp.cons hn (l2 s hs)
  obtain ⟨qe, hqe⟩ := quadNames_ok (vi := p.varsIndex) (n := p.numVars) fun s hs =>
    ⟨name_found hp.cons hn (q2 s hs).1, name_found hp.cons hn (q2 s hs).2⟩
  obtain ⟨nm', h1, h2⟩ := chooseName_success (ix := p.quadsIndex) (n := p.quads.length) (pre := "q") (nm := nm) (by
    rw [hp.cons.quads.keys]; exact hnm)
  have e : ∃ k p', loadQuad names a s b nm p = (.ok k, p') ∧ k.name = nm' := by
    simp only [loadQuad, hd, hd', quadOf_wf ha, quadOf_wf hb, hq, hq', QP.quadraticConstraint, h1, Sense.convert_toStr]
    simp only [QP.numVars] at hle hqe ⊢
    rw [hle]
    simp only
    rw [hqe]
    exact ⟨_, _, rfl, rfl⟩
  obtain ⟨k, p', e1, rfl⟩ := e
  exact ⟨k, p', e1, h2⟩

/-- The names of constraints: those given are not empty, and as in `NamesOK`. -/
def CstNamesOK (pre : String) (names : List (Option String)) : Prop :=
  NamesOK pre names ∧ ∀ s, some s ∈ names → s ≠ ""

theorem loadLins_success {names : List String} {cs : List DCst} {p : QP} (hp : p.WF) (hn : NamesOf names p)
    (hc : ∀ c ∈ cs, c.WF names.length) (hs : ∀ c ∈ cs, c.isLin = true ∨ c.isQuad = true)
    (hnm : CstNamesOK "c" ((cs.filter DCst.isLin).map DCst.name))
    (hf : ∀ s, some s ∈ (cs.filter DCst.isLin).map DCst.name → s ∉ p.lins.map LinCst.name) :
    ∃ p', loadLins names cs p = (.ok (), p') := by
  induction cs generalizing p with
  | nil => exact ⟨p, rfl⟩
  | cons c cs ih =>
    have hc' : ∀ c ∈ cs, c.WF names.length := fun c h => hc c (by simp [h])
    have hs' : ∀ c ∈ cs, c.isLin = true ∨ c.isQuad = true := fun c h => hs c (by simp [h])
    cases c with
    | linear a s b nm =>
      rw [List.filter_cons_of_pos rfl, List.map_cons] at hnm hf
      obtain ⟨k, p1, h1, h2⟩ := loadLin_success hp hn (hc (.linear a s b nm) (by simp)) (by
        rintro t rfl
        exact ⟨hnm.2 t (by simp [DCst.name]), hf t (by simp [DCst.name])⟩)
      obtain ⟨f1, f2, f3, f4, _⟩ := loadLin_facts hp hn (hc _ (by simp)) h1
      simp only [loadLins, h1]
      refine ih f1 (show NamesOf names p1 by unfold NamesOf; rw [f2.vars]; exact hn) hc' hs'
        ⟨hnm.1.tail, fun t ht => hnm.2 t (by simp only [List.mem_cons]; exact Or.inr ht)⟩ ?_
      intro t ht
      rw [f4, List.map_append, List.mem_append, not_or]
      refine ⟨hf t (by simp only [List.mem_cons]; exact Or.inr ht), ?_⟩
      simp only [List.map_cons, List.map_nil, List.mem_singleton]
      rintro rfl
      rcases h2 with rfl | ⟨rfl, i, hi⟩
      · have := hnm.1.1
        simp only [DCst.name, List.filterMap_cons, id] at this
        exact (List.nodup_cons.mp this).1 (List.mem_filterMap.mpr ⟨_, ht, rfl⟩)
      · rcases hnm.1.2 with h | h
        · exact h none (by simp [DCst.name]) rfl
        · exact h _ (by simp only [List.mem_cons]; exact Or.inr ht) i hi
    | notEqual a b nm => rcases hs (.notEqual a b nm) (by simp) with h | h <;> simp [DCst.isLin, DCst.isQuad] at h
    | quadratic a s b nm =>
      rw [List.filter_cons_of_neg (by simp [DCst.isLin])] at hnm hf
      exact ih hp hn hc' hs' hnm hf
    | other f => rcases hs (.other f) (by simp) with h | h <;> simp [DCst.isLin, DCst.isQuad] at h

theorem loadQuads_success {names : List String} {cs : List DCst} {p : QP} (hp : p.WF) (hn : NamesOf names p)
    (hc : ∀ c ∈ cs, c.WF names.length)
    (hnm : CstNamesOK "q" ((cs.filter DCst.isQuad).map DCst.name))
    (hf : ∀ s, some s ∈ (cs.filter DCst.isQuad).map DCst.name → s ∉ p.quads.map QuadCst.name) :
    ∃ p', loadQuads names cs p = (.ok (), p') := by
  induction cs generalizing p with
  | nil => exact ⟨p, rfl⟩
  | cons c cs ih =>
    have hc' : ∀ c ∈ cs, c.WF names.length := fun c h => hc c (by simp [h])
    cases c with
    | quadratic a s b nm =>
      rw [List.filter_cons_of_pos rfl, List.map_cons] at hnm hf
      obtain ⟨k, p1, h1, h2⟩ := loadQuad_success hp hn (hc (.quadratic a s b nm) (by simp)) (by
        rintro t rfl
        exact ⟨hnm.2 t (by simp [DCst.name]), hf t (by simp [DCst.name])⟩)
      obtain ⟨f1, f2, f3, f4, _⟩ := loadQuad_facts hp hn (hc _ (by simp)) h1
      simp only [loadQuads, h1]
      refine ih f1 (show NamesOf names p1 by unfold NamesOf; rw [f2.vars]; exact hn) hc'
        ⟨hnm.1.tail, fun t ht => hnm.2 t (by simp only [List.mem_cons]; exact Or.inr ht)⟩ ?_
      intro t ht
      rw [f4, List.map_append, List.mem_append, not_or]
      refine ⟨hf t (by simp only [List.mem_cons]; exact Or.inr ht), ?_⟩
      simp only [List.map_cons, List.map_nil, List.mem_singleton]
      rintro rfl
      rcases h2 with rfl | ⟨rfl, i, hi⟩
      · have := hnm.1.1
        simp only [DCst.name, List.filterMap_cons, id] at this
        exact (List.nodup_cons.mp this).1 (List.mem_filterMap.mpr ⟨_, ht, rfl⟩)
      · rcases hnm.1.2 with h | h
        · exact h none (by simp [DCst.name]) rfl
        · exact h _ (by simp only [List.mem_cons]; exact Or.inr ht) i hi
    | notEqual a b nm =>
      rw [List.filter_cons_of_neg (by simp [DCst.isQuad])] at hnm hf
      exact ih hp hn hc' hnm hf
    | linear a s b nm =>
      rw [List.filter_cons_of_neg (by simp [DCst.isQuad])] at hnm hf
      exact ih hp hn hc' hnm hf
    | other f =>
      rw [List.filter_cons_of_neg (by simp [DCst.isQuad])] at hnm hf
      exact ih hp hn hc' hnm hf

/-- A model that can be loaded: variables of the three types with proper bounds, linear and quadratic constraints, names
that do not clash. -/
structure DModel.OK (m : DModel) : Prop where
  vars : ∀ x ∈ m.vars, x.OK
  varNames : NamesOK "x" (m.vars.map DVar.name)
  csts : ∀ c ∈ m.csts, c.isLin = true ∨ c.isQuad = true
  linNames : CstNamesOK "c" ((m.csts.filter DCst.isLin).map DCst.name)
  quadNames : CstNamesOK "q" ((m.csts.filter DCst.isQuad).map DCst.name)

theorem fromDocplex_success {m : DModel} (hm : m.WF) (ho : m.OK) : ∃ p, fromDocplex m = (.ok (), p) := by
  obtain ⟨names, p1, h1⟩ := loadVars_success (QP.empty_wf m.name) ho.vars ho.varNames (by simp [QP.empty])
  obtain ⟨vs, a1, a2, a3, a4, a5, a6, a7, a8⟩ := loadVars_facts (QP.empty_wf m.name) h1
  have hlen : names.length = m.vars.length := by rw [a2, List.length_map, a3.length_eq]
  have hn1 : NamesOf names p1 := by unfold NamesOf; rw [a1, a2]; simp [QP.empty]
  obtain ⟨p2, h2⟩ := loadObjective_success a4 hn1 (hlen ▸ hm.obj)
  obtain ⟨b1, b2, b3, b4, b5, b6, b7⟩ := loadObjective_facts a4 hn1 (hlen ▸ hm.obj) h2
  have hn2 : NamesOf names p2 := by unfold NamesOf; rw [b2]; exact hn1
  have hc : ∀ c ∈ m.csts, c.WF names.length := fun c hc => hlen ▸ hm.csts c hc
  obtain ⟨p3, h3⟩ := loadLins_success b1 hn2 hc ho.csts ho.linNames (by rw [b3, a5]; simp [QP.empty])
  obtain ⟨c1, c2, c3, c4, ks, c5, c6⟩ := loadLins_facts b1 hn2 hc h3
  have hn3 : NamesOf names p3 := by unfold NamesOf; rw [c2.vars]; exact hn2
  obtain ⟨p4, h4⟩ := loadQuads_success c1 hn3 hc ho.quadNames (by rw [c3, b4, a6]; simp [QP.empty])
  exact ⟨p4, by simp only [fromDocplex, h1, h2, h3, h4]⟩

/-! ## Arithmetic -/

theorem foldl_add_sum {κ : Type} [DecidableEq κ] (l d : Dict κ) (f : κ → ℚ) :
    Dict.sum (l.foldl (fun d p => Dict.add d p.1 p.2) d) f = Dict.sum d f + Dict.sum l f := by
  induction l generalizing d with
  | nil => simp
  | cons p l ih => simp only [List.foldl_cons, ih, Dict.sum_add, Dict.sum_cons]; ring

theorem foldl_add_nodup {κ : Type} [DecidableEq κ] (l d : Dict κ) (hd : (Assoc.keys d).Nodup) :
    (Assoc.keys (l.foldl (fun d p => Dict.add d p.1 p.2) d)).Nodup := by
  induction l generalizing d with
  | nil => exact hd
  | cons p l ih => exact ih _ (Assoc.nodup_keys_set hd _ _)

theorem foldl_add_keys {κ : Type} [DecidableEq κ] (l d : Dict κ) :
    ∀ k ∈ Assoc.keys (l.foldl (fun d p => Dict.add d p.1 p.2) d), k ∈ Assoc.keys d ∨ k ∈ Assoc.keys l := by
  induction l generalizing d with
  | nil => intro k hk; exact Or.inl hk
  | cons p l ih =>
    intro k hk
    rcases ih _ k hk with h | h
    · rcases Assoc.mem_keys_set.mp h with h | h
      · exact Or.inl h
      · exact Or.inr (by simp [Assoc.keys, h])
    · exact Or.inr (List.mem_cons_of_mem _ h)

theorem DExpr.val_const (c : ℚ) (x : Nat → ℚ) : (DExpr.const c).val x = c := by simp [DExpr.val, DExpr.const]

theorem DExpr.val_term (v : ℚ) (i : Nat) (x : Nat → ℚ) : (DExpr.term v i).val x = v * x i := by
  simp [DExpr.val, DExpr.term]

theorem DExpr.val_var (i : Nat) (x : Nat → ℚ) : (DExpr.var i).val x = x i := by simp [DExpr.var, DExpr.val_term]

theorem DExpr.val_pair (v : ℚ) (i j : Nat) (x : Nat → ℚ) : (DExpr.pair v i j).val x = v * (x i * x j) := by
  simp only [DExpr.val, DExpr.pair, Dict.sum_nil, Dict.sum_cons]
  rcases le_total i j with h | h
  · rw [min_eq_left h, max_eq_right h]; ring
  · rw [min_eq_right h, max_eq_left h]; ring

theorem DExpr.val_add (a b : DExpr) (x : Nat → ℚ) : (a.add b).val x = a.val x + b.val x := by
  simp only [DExpr.val, DExpr.add, foldl_add_sum]; ring

theorem dict_smul_sum {κ : Type} (c : ℚ) (d : Dict κ) (f : κ → ℚ) :
    Dict.sum (d.map fun p => (p.1, c * p.2)) f = c * Dict.sum d f := by
  induction d with
  | nil => simp [Dict.sum]
  | cons p d ih => simp only [Dict.sum, List.map_cons, List.sum_cons] at *; rw [ih]; ring

theorem DExpr.val_smul (c : ℚ) (a : DExpr) (x : Nat → ℚ) : (a.smul c).val x = c * a.val x := by
  simp only [DExpr.val, DExpr.smul, dict_smul_sum]; ring

theorem DExpr.val_sub (a b : DExpr) (x : Nat → ℚ) : (a.sub b).val x = a.val x - b.val x := by
  simp only [DExpr.sub, DExpr.val_add, DExpr.val_smul]; ring

theorem DExpr.val_foldl (l : List DExpr) (e : DExpr) (x : Nat → ℚ) :
    (l.foldl DExpr.add e).val x = e.val x + (l.map fun a => a.val x).sum := by
  induction l generalizing e with
  | nil => simp
  | cons a l ih => simp only [List.foldl_cons, ih, DExpr.val_add, List.map_cons, List.sum_cons]; ring

theorem DExpr.val_sum (l : List DExpr) (x : Nat → ℚ) : (DExpr.sum l).val x = (l.map fun a => a.val x).sum := by
  rw [DExpr.sum, DExpr.val_foldl, DExpr.val_const, zero_add]

theorem DExpr.val_mul (a b : DExpr) (ha : a.quad = []) (hb : b.quad = []) (x : Nat → ℚ) :
    (a.mul b).val x = a.val x * b.val x := by
  have h1 : ∀ (c : ℚ) (d : Dict Nat), (⟨0, d.map fun p => (p.1, c * p.2), [], false⟩ : DExpr).val x = c * Dict.sum d x := by
    intro c d
    simp only [DExpr.val, dict_smul_sum, Dict.sum_nil]; ring
  have h2 : ∀ (l m : Dict Nat), ((l.flatMap fun p => m.map fun q => DExpr.pair (p.2 * q.2) p.1 q.1).map
      fun e => e.val x).sum = Dict.sum l x * Dict.sum m x := by
    intro l m
    induction l with
    | nil => simp
    | cons p l ih =>
      rw [List.flatMap_cons, List.map_append, List.sum_append, ih, Dict.sum_cons, List.map_map]
      have : (m.map ((fun e => e.val x) ∘ fun q => DExpr.pair (p.2 * q.2) p.1 q.1)).sum = p.2 * x p.1 * Dict.sum m x := by
        clear ih
        induction m with
        | nil => simp
        | cons q m ih =>
          rw [List.map_cons, List.sum_cons, ih, Dict.sum_cons]
          simp only [Function.comp_apply, DExpr.val_pair]
          ring
      rw [this]; ring
  rw [DExpr.mul, DExpr.val_add, DExpr.val_add, DExpr.val_add, DExpr.val_const, h1, h1, DExpr.val_sum, h2]
  simp only [DExpr.val, ha, hb, Dict.sum_nil]
  ring

theorem DExpr.WF.add {n : Nat} {a b : DExpr} (ha : a.WF n) (hb : b.WF n) : (a.add b).WF n where
  linNodup := foldl_add_nodup _ _ ha.linNodup
  linBound i hi := (foldl_add_keys _ _ i hi).elim (ha.linBound i) (hb.linBound i)
  quadNodup := foldl_add_nodup _ _ ha.quadNodup
  quadBound k hk := (foldl_add_keys _ _ k hk).elim (ha.quadBound k) (hb.quadBound k)
  lin h := by
    simp only [DExpr.add, Bool.or_eq_false_iff] at h
    simp only [DExpr.add, ha.lin h.1, hb.lin h.2, List.foldl_nil]

theorem keys_smul {κ : Type} (c : ℚ) (d : Dict κ) : Assoc.keys (d.map fun p => (p.1, c * p.2)) = Assoc.keys d := by
  simp [Assoc.keys, Function.comp_def]

theorem DExpr.WF.smul {n : Nat} {a : DExpr} (ha : a.WF n) (c : ℚ) : (a.smul c).WF n where
  linNodup := by simp only [DExpr.smul, keys_smul]; exact ha.linNodup
  linBound := by simp only [DExpr.smul, keys_smul]; exact ha.linBound
  quadNodup := by simp only [DExpr.smul, keys_smul]; exact ha.quadNodup
  quadBound := by simp only [DExpr.smul, keys_smul]; exact ha.quadBound
  lin h := by simp only [DExpr.smul, ha.lin h, List.map_nil]

theorem DExpr.WF.sub {n : Nat} {a b : DExpr} (ha : a.WF n) (hb : b.WF n) : (a.sub b).WF n := ha.add (hb.smul _)

theorem term_wf {n i : Nat} (h : i < n) (v : ℚ) : (DExpr.term v i).WF n :=
  ⟨by simp [Assoc.keys, DExpr.term], by simpa [Assoc.keys, DExpr.term] using h, by simp [Assoc.keys, DExpr.term],
    by simp [Assoc.keys, DExpr.term], by simp [DExpr.term]⟩

theorem var_wf {n i : Nat} (h : i < n) : (DExpr.var i).WF n := term_wf h 1

theorem pair_wf {n i j : Nat} (h : i < n) (h' : j < n) (v : ℚ) : (DExpr.pair v i j).WF n :=
  ⟨by simp [Assoc.keys, DExpr.pair], by simp [Assoc.keys, DExpr.pair], by simp [Assoc.keys, DExpr.pair],
    by simp only [Assoc.keys, DExpr.pair, List.map_cons, List.map_nil, List.mem_singleton]; rintro k rfl; simp only; omega,
    by simp [DExpr.pair]⟩

theorem foldl_wf {n : Nat} (l : List DExpr) {e : DExpr} (he : e.WF n) (h : ∀ a ∈ l, a.WF n) :
    (l.foldl DExpr.add e).WF n := by
  induction l generalizing e with
  | nil => exact he
  | cons a l ih => exact ih (he.add (h a (by simp))) fun b hb => h b (by simp [hb])

theorem sum_wf {n : Nat} {l : List DExpr} (h : ∀ a ∈ l, a.WF n) : (DExpr.sum l).WF n := foldl_wf l (const_wf n 0) h

theorem foldl_isQuad (l : List DExpr) {e : DExpr} (he : e.isQuad = false) (h : ∀ a ∈ l, a.isQuad = false) :
    (l.foldl DExpr.add e).isQuad = false := by
  induction l generalizing e with
  | nil => exact he
  | cons a l ih => exact ih (by simp [DExpr.add, he, h a (by simp)]) fun b hb => h b (by simp [hb])

theorem sum_isQuad {l : List DExpr} (h : ∀ a ∈ l, a.isQuad = false) : (DExpr.sum l).isQuad = false :=
  foldl_isQuad l rfl h

theorem DExpr.WF.mul {n : Nat} {a b : DExpr} (ha : a.WF n) (hb : b.WF n) : (a.mul b).WF n := by
  refine (((const_wf n _).add ?_).add ?_).add (sum_wf ?_)
  · exact ⟨by simp only [keys_smul]; exact hb.linNodup, by simp only [keys_smul]; exact hb.linBound,
      by simp [Assoc.keys], by simp [Assoc.keys], by simp⟩
  · exact ⟨by simp only [keys_smul]; exact ha.linNodup, by simp only [keys_smul]; exact ha.linBound,
      by simp [Assoc.keys], by simp [Assoc.keys], by simp⟩
  · intro e he
    obtain ⟨p, hp, he⟩ := List.mem_flatMap.mp he
    obtain ⟨q, hq, rfl⟩ := List.mem_map.mp he
    exact pair_wf (ha.linBound _ (List.mem_map_of_mem hp)) (hb.linBound _ (List.mem_map_of_mem hq)) _

end Verif
