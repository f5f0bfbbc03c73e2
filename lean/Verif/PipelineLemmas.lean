import Verif.AppsLemmas
import Verif.PropsQubo
import Verif.PropsMinEigen

/-!
# Loaded models are accepted by the QUBO conversion

Helper lemmas for C71: a docplex model of binary variables whose constraints are linear with integral coefficients is
loaded as a program that meets all hypotheses of C24 and C28.
-/

namespace Verif

/-- Coefficients of a linear expression are values at unit vectors. -/
theorem Dict.mem_val {d : Dict Nat} (hd : (Assoc.keys d).Nodup) {k : Nat} {v : ℚ} (h : (k, v) ∈ d) :
    Dict.sum d (fun i => if i = k then 1 else 0) = v := by
  induction d with
  | nil => simp at h
  | cons q d ih =>
    simp only [Assoc.keys, List.map_cons, List.nodup_cons] at hd
    rw [Dict.sum_cons]
    rcases List.mem_cons.mp h with rfl | h
    · have : Dict.sum d (fun i => if i = k then (1 : ℚ) else 0) = Dict.sum d fun _ => 0 := by
        refine Dict.sum_congr fun j hj => if_neg ?_
        rintro rfl
        exact hd.1 hj
      rw [this]
      simp [Dict.sum]
    · have hne : q.1 ≠ k := by
        rintro rfl
        exact hd.1 (List.mem_map.mpr ⟨_, h, rfl⟩)
      rw [ih hd.2 h, if_neg hne]
      ring

theorem chooseName_none {ix : Assoc String Nat} {n : Nat} {pre nm : String} (h : chooseName ix n pre none = .ok nm) :
    ∃ m : Nat, nm = pre ++ toString m := by
  obtain ⟨m, _, h1, _⟩ := freeName_ok ix pre n
  simp only [chooseName, h1, Except.ok.injEq] at h
  exact ⟨m, h.symm⟩

/-- What is known of a constraint made from an unnamed linear constraint of docplex. -/
structure LoadedLin (n : Nat) (c : DCst) (k : LinCst) : Prop where
  n : k.linear.n = n
  name : ∃ m : Nat, k.name = "c" ++ toString m
  val : ∀ a s b nm, c = .linear a s b nm → ∀ x, k.linear.val x = Dict.sum a.linear x - Dict.sum b.linear x

theorem loadLin_more {names : List String} {a b : DExpr} {s : Sense} {p p' : QP} {k : LinCst}
    (hp : p.WF) (hn : NamesOf names p) (hc : (DCst.linear a s b none).WF names.length)
    (h : loadLin names a s b none p = (.ok k, p')) : LoadedLin p.numVars (.linear a s b none) k := by
  obtain ⟨ha, hb, qa, qb⟩ := hc
  unfold loadLin at h
  split at h
  · simp at h
  · rename_i d hd
    split at h
    · simp at h
    · rename_i d' hd'
      obtain ⟨nm', le, s', h1, h2, h3, rfl, rfl⟩ := linearConstraint_ok h
      obtain ⟨l1, l2, l3⟩ := lin_sides hp.cons hn ha hb hd hd'
      refine ⟨LinExpr.ofDict_n h3, chooseName_none h1, ?_⟩
      rintro a' s' b' nm' ⟨⟩ x
      simp only [LinExpr.val]
      rw [linNames_sum h3 l1 hp.cons.vars.inj, l3]

theorem loadLins_more {names : List String} {cs : List DCst} {p p' : QP} (hp : p.WF) (hn : NamesOf names p)
    (hc : ∀ c ∈ cs, c.WF names.length) (hnm : ∀ c ∈ cs, c.name = none) (h : loadLins names cs p = (.ok (), p')) :
    ∃ ks, p'.lins = p.lins ++ ks ∧ List.Forall₂ (LoadedLin p.numVars) (cs.filter DCst.isLin) ks := by
  induction cs generalizing p with
  | nil =>
    simp only [loadLins, Prod.mk.injEq, true_and] at h
    subst h
    exact ⟨[], by simp, by simp⟩
  | cons c cs ih =>
    have hc' : ∀ c ∈ cs, c.WF names.length := fun c h => hc c (by simp [h])
    have hnm' : ∀ c ∈ cs, c.name = none := fun c h => hnm c (by simp [h])
    cases c with
    | linear a s b nm =>
      obtain rfl : nm = none := hnm (.linear a s b nm) (by simp)
      simp only [loadLins] at h
      split at h
      · simp at h
      · rename_i k p1 hk
        obtain ⟨f1, f2, f3, f4, f5, f6⟩ := loadLin_facts hp hn (hc _ (by simp)) hk
        have f7 := loadLin_more hp hn (hc _ (by simp)) hk
        obtain ⟨ks, g5, g6⟩ := ih f1 (show NamesOf names p1 by unfold NamesOf; rw [f2.vars]; exact hn) hc' hnm' h
        refine ⟨k :: ks, by rw [g5, f4]; simp, ?_⟩
        rw [List.filter_cons_of_pos rfl]
        refine .cons f7 ?_
        simpa only [QP.numVars, f2.vars] using g6
    | notEqual a b nm => simp [loadLins] at h
    | quadratic a s b nm =>
      simp only [loadLins] at h
      obtain ⟨ks, g5, g6⟩ := ih hp hn hc' hnm' h
      refine ⟨ks, g5, ?_⟩
      rw [List.filter_cons_of_neg (by simp [DCst.isLin])]
      exact g6
    | other f => simp [loadLins] at h

theorem loadObjective_shape {names : List String} {m : DModel} {p p' : QP}
    (h : loadObjective names m p = (.ok (), p')) :
    p'.objective.linear.n = p.numVars ∧ p'.objective.quadratic.n = p.numVars := by
  unfold loadObjective at h
  split at h
  · simp at h
  · rename_i d hd
    split at h
    · simp at h
    · rename_i q hq
      have h : p.setObjective (if m.minimize then .minimize else .maximize) m.objective.constant (linNames d)
          (quadNames q) = (.ok (), p') := by
        split at h <;> rename_i hmin <;> simp only [hmin] <;> exact h
      obtain ⟨le, qe, h1, h2, rfl⟩ := setObjective_ok h
      exact ⟨LinExpr.ofDict_n h1, QuadExpr.ofDict_n h2⟩

/-- Shape, names and values of a loaded model whose constraints are linear and unnamed. -/
theorem fromDocplex_more {m : DModel} {p : QP} (hm : m.WF) (hs : ∀ c ∈ m.csts, c.isLin = true ∧ c.name = none)
    (h : fromDocplex m = (.ok (), p)) : p.ShapeOK ∧ p.quads = [] ∧
      List.Forall₂ (LoadedLin p.numVars) m.csts p.lins := by
  have hL := fromDocplex_loaded hm h
  have hf1 : m.csts.filter DCst.isLin = m.csts := List.filter_eq_self.mpr fun c hc => (hs c hc).1
  have hf2 : m.csts.filter DCst.isQuad = [] := by
    rw [List.filter_eq_nil_iff]
    intro c hc
    have := (hs c hc).1
    cases c <;> simp_all [DCst.isLin, DCst.isQuad]
  have hq : p.quads = [] := by
    have := hL.quads
    rw [hf2] at this
    exact List.forall₂_nil_left_iff.mp this
  have key : (p.objective.linear.n = p.numVars ∧ p.objective.quadratic.n = p.numVars) ∧
      List.Forall₂ (LoadedLin p.numVars) m.csts p.lins := by
    unfold fromDocplex at h
    split at h
    · simp at h
    · rename_i names p1 h1
      obtain ⟨vs, a1, a2, a3, a4, a5, a6, a7, a8⟩ := loadVars_facts (QP.empty_wf m.name) h1
      have hlen : names.length = m.vars.length := by rw [a2, List.length_map, a3.length_eq]
      have hn1 : NamesOf names p1 := by unfold NamesOf; rw [a1, a2]; simp [QP.empty]
      split at h
      · simp at h
      · rename_i p2 h2
        obtain ⟨b1, b2, b3, b4, b5, b6, b7⟩ := loadObjective_facts a4 hn1 (hlen ▸ hm.obj) h2
        have bs := loadObjective_shape h2
        have hn2 : NamesOf names p2 := by unfold NamesOf; rw [b2]; exact hn1
        split at h
        · simp at h
        · rename_i p3 h3
          obtain ⟨c1, c2, c3, c4, _⟩ := loadLins_facts b1 hn2 (fun c hc => hlen ▸ hm.csts c hc) h3
          obtain ⟨ks, c5, c6⟩ := loadLins_more b1 hn2 (fun c hc => hlen ▸ hm.csts c hc) (fun c hc => (hs c hc).2) h3
          have hn3 : NamesOf names p3 := by unfold NamesOf; rw [c2.vars]; exact hn2
          obtain ⟨d1, d2, d3, qs, d4, d5⟩ := loadQuads_facts c1 hn3 (fun c hc => hlen ▸ hm.csts c hc) h
          have e1 : p.numVars = p1.numVars := by simp only [QP.numVars]; rw [d2.vars, c2.vars, b2]
          have e2 : p2.numVars = p1.numVars := by simp only [QP.numVars]; rw [b2]
          rw [hf1] at c6
          refine ⟨?_, ?_⟩
          · rw [d2.objective, c2.objective, e1]; exact bs
          · rw [d3, c5, b3, a5, e1, ← e2]
            simpa [QP.empty] using c6
  refine ⟨⟨?_, key.1⟩, hq, key.2⟩
  intro c hc
  simp only [QP.allCsts, hq, List.map_nil, List.append_nil, List.mem_map] at hc
  obtain ⟨k, hk, rfl⟩ := hc
  obtain ⟨_, _, hh⟩ := forall2_mem_right key.2 k hk
  exact hh.n

/-- The coefficients of a linear constraint of docplex are integral (said with values, which are easy to compute):
between the origin and an integral point the difference of the sides changes by an integer. -/
def DCst.IntStep : DCst → Prop
  | .linear a _ b _ => ∀ x : Nat → ℚ, (∀ i, ∃ z : ℤ, x i = z) → ∃ z : ℤ, Dict.sum a.linear x - Dict.sum b.linear x = z
  | _ => False

theorem toString_noAt (m : Nat) : '@' ∉ (toString m).toList := by
  intro h
  have h : '@' ∈ Nat.toDigits 10 m := by
    have : (toString m).toList = Nat.toDigits 10 m := by simp [toString, Nat.repr]
    rwa [this] at h
  exact absurd (Nat.isDigit_of_mem_toDigits (by decide) (by decide) h) (by decide)

theorem toQubo_pos {p : QP} (hp : p.WF) {st : QuboState} (h : p.toQubo none = .ok st)
    (hb : ∀ v ∈ p.vars, v.vartype ≠ .integer) (h0 : p.vars ≠ []) : 0 < st.dst.numVars := by
  obtain ⟨_, hsrc, h1, h2, h3⟩ := toQubo_stages h
  have hf1 := ineqToEq_facts hp h1
  have hf2 := intToBin_facts hf1.starts.wf h2
  have hf3 := toPenalty_facts hf2.wf h3
  obtain ⟨more, hm, _⟩ := hf1.slacks
  cases hv : p.vars with
  | nil => exact absurd hv h0
  | cons v l =>
    rw [hv, List.map_cons, List.cons_append] at hm
    have hmem : plainVar v ∈ st.eqs.vars := by rw [hm]; simp
    have ht : (plainVar v).vartype ≠ .integer := by
      have : (plainVar v).vartype = v.vartype := by cases hvt : v.vartype <;> simp [plainVar, hvt, binVar]
      rw [this]
      exact hb v (by rw [hv]; simp)
    have hnone := hf2.plain _ hmem ht
    have hin : (plainVar v).name ∈ st.i2b.dst.vars.map Variable.name := by
      rw [hf2.names, List.mem_flatMap]
      refine ⟨_, List.mem_map.mpr ⟨_, hmem, rfl⟩, ?_⟩
      simp [outs, hnone]
    have : st.i2b.dst.vars ≠ [] := by
      intro hc
      rw [hc] at hin
      simp at hin
    simp only [QP.numVars, hf3.vars, List.length_map]
    exact List.length_pos_iff.mpr this

/-- A loaded model of binary variables with integral linear constraints can be converted and solved. -/
theorem binary_pipeline {names : List String} {m : DModel} {p : QP} (hw : m.WF)
    (hs : ∀ c ∈ m.csts, c.isLin = true ∧ c.name = none) (hz : ∀ c ∈ m.csts, c.IntStep)
    (hat : ∀ s ∈ names, '@' ∉ s.toList) (h0 : names ≠ [])
    (h : loadModel m = .ok p) (hb : BinProgram names m p) :
    p.ShapeOK ∧ p.BinBoundsOK ∧ (∀ v ∈ p.vars, v.vartype ≠ .integer) ∧ ∃ st, p.toQubo none = .ok st ∧
      0 < st.dst.numVars := by
  have h' : fromDocplex m = (.ok (), p) := by
    unfold loadModel at h
    split at h
    · rename_i hh
      simp only [Except.ok.injEq] at h
      rw [hh, h]
    · simp at h
  obtain ⟨hsh, hq, hl⟩ := fromDocplex_more hw hs h'
  have hv : ∀ v ∈ p.vars, v.lb = 0 ∧ v.ub = 1 ∧ v.vartype = .binary ∧ v.name ∈ names := by
    intro v hv
    rw [hb.vars] at hv
    obtain ⟨s, hs, rfl⟩ := List.mem_map.mp hv
    exact ⟨rfl, rfl, rfl, hs⟩
  have hni : ∀ v ∈ p.vars, v.vartype ≠ .integer := by
    intro v hv'
    rw [(hv v hv').2.2.1]
    simp
  refine ⟨hsh, fun v hv' _ => ⟨(hv v hv').1, (hv v hv').2.1⟩, hni, ?_⟩
  have hmsg : quboCompatible p = true := by
    have : ¬ (quboMsg p).length > 0 := by
      rw [quboMsg_empty]
      refine ⟨fun v hv' => by rw [(hv v hv').2.2.1]; simp, hq, ?_⟩
      intro k hk q hq'
      obtain ⟨c, hc, hh⟩ := forall2_mem_right hl k hk
      have hzc := hz c hc
      have hwk := (hb.wf.lins k hk).1
      have hv := Dict.mem_val hwk.nodup hq'
      cases c with
      | linear a s b nm =>
        obtain ⟨z, hz⟩ := hzc (fun i => if i = q.1 then 1 else 0) (by
          intro i
          by_cases e : i = q.1
          · exact ⟨1, by simp [e]⟩
          · exact ⟨0, by simp [e]⟩)
        rw [← hh.val _ _ _ _ rfl] at hz
        exact ⟨z, by rw [← hz, ← hv]; rfl⟩
      | _ => exact absurd hzc (by simp [DCst.IntStep])
    simpa [quboCompatible] using this
  obtain ⟨st, hst⟩ := C24_converts_partial none p hb.wf hmsg
    (fun v hv' => by
      obtain ⟨e1, e2, _⟩ := hv v hv'
      rw [e1, e2]
      exact ⟨⟨⟨0, by norm_num⟩, ⟨1, by norm_num⟩⟩, by norm_num⟩)
    (fun v hv' ht => absurd ht (hni v hv')) (fun v hv' => hat _ (hv v hv').2.2.2)
    (fun k hk => by
      obtain ⟨c, hc, hh⟩ := forall2_mem_right hl k hk
      obtain ⟨m, hm⟩ := hh.name
      rw [hm]
      refine ⟨?_, ?_⟩
      · intro he
        have := congrArg String.toList he
        simp at this
      · rw [String.toList_append, List.mem_append]
        rintro (hc | hc)
        · simp at hc
        · exact toString_noAt m hc)
  refine ⟨st, hst, toQubo_pos hb.wf hst hni ?_⟩
  rw [hb.vars]
  simpa [binaries] using h0

end Verif
