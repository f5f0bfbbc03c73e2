import Verif.WFLemmas
import Verif.SubstTableLemmas

/-!
# Helper lemmas: programs that grow by new variables or constraints

Facts shared by the converters, which all build the destination program by a sequence of builder calls.
-/

namespace Verif

/-- `p'` is `p` with the variables `vs` appended and nothing else changed. -/
structure Grows (p p' : QP) (vs : List Variable) : Prop where
  vars : p'.vars = p.vars ++ vs
  cons : p.Consistent → p'.Consistent
  lins : p'.lins = p.lins
  linsIndex : p'.linsIndex = p.linsIndex
  quads : p'.quads = p.quads
  quadsIndex : p'.quadsIndex = p.quadsIndex
  objective : p'.objective = p.objective
  name : p'.name = p.name
  status : p'.status = p.status

theorem Grows.refl (p : QP) : Grows p p [] := ⟨by simp, id, rfl, rfl, rfl, rfl, rfl, rfl, rfl⟩

theorem Grows.trans {p p' p'' : QP} {vs vs' : List Variable} (h : Grows p p' vs) (h' : Grows p' p'' vs') :
    Grows p p'' (vs ++ vs') where
  vars := by rw [h'.vars, h.vars, List.append_assoc]
  cons hc := h'.cons (h.cons hc)
  lins := h'.lins.trans h.lins
  linsIndex := h'.linsIndex.trans h.linsIndex
  quads := h'.quads.trans h.quads
  quadsIndex := h'.quadsIndex.trans h.quadsIndex
  objective := h'.objective.trans h.objective
  name := h'.name.trans h.name
  status := h'.status.trans h.status

theorem Extends.grows {p p' : QP} {vs : List Variable} {lb ub : ℚ} {t : VarType} (h : Extends p p' vs lb ub t) :
    Grows p p' vs := ⟨h.vars, h.cons, h.lins, h.linsIndex, h.quads, h.quadsIndex, h.objective, h.name, h.status⟩

theorem Grows.wf {p p' : QP} {vs : List Variable} (h : Grows p p' vs) (hp : p.WF) : p'.WF := by
  have hn : p.numVars ≤ p'.numVars := by simp [QP.numVars, h.vars]
  refine ⟨h.cons hp.cons, ?_, ?_, ?_, ?_⟩
  · rw [h.objective]; exact hp.objLin.mono hn
  · rw [h.objective]; exact hp.objQuad.mono hn
  · rw [h.lins]; exact fun c hc => (hp.lins c hc).mono hn
  · rw [h.quads]; exact fun c hc => ⟨(hp.quads c hc).1.mono hn, (hp.quads c hc).2.mono hn⟩

theorem addVariable_grows {p p' : QP} {lb ub : ℚ} {t : VarType} {s : String} {v : Variable}
    (h : p.addVariable lb ub t (some s) = (.ok v, p')) :
    Grows p p' [⟨s, lb, ub, t⟩] ∧ lb ≤ ub ∧ s ∉ Assoc.keys p.varsIndex ∧ v = ⟨s, lb, ub, t⟩ := by
  have hext := addVariable_extends h
  rw [addVariable_some] at h
  split at h
  · simp at h
  · rename_i hh
    split at h
    · simp at h
    · rename_i hb
      simp only [Prod.mk.injEq, Except.ok.injEq] at h
      refine ⟨?_, not_lt.mp hb, fun hm => hh (Assoc.has_iff.mpr hm), h.1.symm⟩
      rw [h.1]; exact hext.grows

theorem mem_names_index {p : QP} (hp : p.Consistent) {s : String} (h : s ∈ p.vars.map Variable.name) :
    ∃ i, Assoc.get? p.varsIndex s = some i ∧ i < p.numVars := by
  obtain ⟨v, hv, rfl⟩ := List.mem_map.mp h
  obtain ⟨i, hi⟩ := List.mem_iff_getElem?.mp hv
  refine ⟨i, (hp.vars.get? _ _).mpr (by simp [hi]), ?_⟩
  exact (List.getElem?_eq_some_iff.mp hi).1

/-- A linear expression given by distinct names of variables. -/
theorem linNames_spec {p : QP} (hp : p.Consistent) {d : Dict String} (hn : (Assoc.keys d).Nodup)
    (hm : ∀ s ∈ Assoc.keys d, s ∈ p.vars.map Variable.name) :
    ∃ e, LinExpr.ofInput p.varsIndex p.numVars (linNames d) = .ok e ∧ e.n = p.numVars ∧ e.Fits p.numVars ∧
      ∀ y, e.val y = Dict.sum d (nameVal p.varsIndex y) := by
  obtain ⟨e, he⟩ := linNames_ok (fun s hs => mem_names_index hp (hm s hs))
  exact ⟨e, he, LinExpr.ofDict_n he, LinExpr.ofInput_fits he trivial, fun y => linNames_sum he hn hp.vars.inj y⟩

/-- A quadratic expression given by distinct pairs of names of variables. -/
theorem quadNames_spec {p : QP} (hp : p.Consistent) {d : Dict (String × String)} (hn : (Assoc.keys d).Nodup)
    (hm : ∀ s ∈ Assoc.keys d, s.1 ∈ p.vars.map Variable.name ∧ s.2 ∈ p.vars.map Variable.name) :
    ∃ e, QuadExpr.ofInput p.varsIndex p.numVars (quadNames d) = .ok e ∧ e.n = p.numVars ∧ e.Fits p.numVars ∧
      ∀ y, e.val y =
        Dict.sum d (fun k => nameVal p.varsIndex y k.1 * nameVal p.varsIndex y k.2) := by
  obtain ⟨e, he⟩ := quadNames_ok (fun s hs =>
    ⟨mem_names_index hp (hm s hs).1, mem_names_index hp (hm s hs).2⟩)
  exact ⟨e, he, QuadExpr.ofDict_n he, QuadExpr.ofInput_fits he trivial,
    fun y => quadNames_sum he hn hp.vars.inj y⟩

theorem varName_inj {p : QP} (hp : p.Consistent) {i j : Nat} (hi : i < p.numVars) (hj : j < p.numVars)
    (h : varName p.vars i = varName p.vars j) : i = j := by
  obtain ⟨v, hv, hn⟩ := varName_mem hi
  obtain ⟨w, hw, hm⟩ := varName_mem hj
  have h1 := (hp.vars.get? v.name i).mpr (by simp [hv])
  have h2 := (hp.vars.get? w.name j).mpr (by simp [hw])
  rw [← hn, h, hm, h2] at h1
  simpa using h1.symm

theorem toDictNames_nodup {p : QP} (hp : p.Consistent) {e : LinExpr} (he : e.Fits p.numVars) :
    (Assoc.keys (e.toDictNames p.vars)).Nodup := by
  have : Assoc.keys (e.toDictNames p.vars) = (Assoc.keys e.coeffs).map (varName p.vars) := by
    simp [LinExpr.toDictNames, Assoc.keys]
  rw [this]
  refine he.1.nodup.map_on ?_
  intro i hi j hj h
  exact varName_inj hp (lt_of_lt_of_le (he.1.bound i hi) he.2) (lt_of_lt_of_le (he.1.bound j hj) he.2) h

theorem toDictNames_nodup2 {p : QP} (hp : p.Consistent) {e : QuadExpr} (he : e.Fits p.numVars) :
    (Assoc.keys (e.toDictNames p.vars)).Nodup := by
  have : Assoc.keys (e.toDictNames p.vars) =
      (Assoc.keys e.coeffs).map fun k => (varName p.vars k.1, varName p.vars k.2) := by
    simp [QuadExpr.toDictNames, Assoc.keys]
  rw [this]
  refine he.1.nodup.map_on ?_
  intro i hi j hj h
  have bi := he.1.bound i hi
  have bj := he.1.bound j hj
  simp only [Prod.mk.injEq] at h
  exact Prod.ext (varName_inj hp (lt_of_lt_of_le bi.1 he.2) (lt_of_lt_of_le bj.1 he.2) h.1)
    (varName_inj hp (lt_of_lt_of_le bi.2 he.2) (lt_of_lt_of_le bj.2 he.2) h.2)

end Verif
