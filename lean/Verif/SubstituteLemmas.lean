import Verif.Substitute
import Verif.BuildLemmas
import Mathlib.Algebra.Order.Field.Basic
import Mathlib.Tactic.Linarith

/-!
# Lemmas about substitution
-/

namespace Verif

/-- The source value of name `s` is what the substitution table says, in terms of target values. -/
def Subst1 (subs : Subs) (X Y : String → ℚ) (s : String) : Prop :=
  X s = if (repl subs s).1 = CONST then (repl subs s).2 else (repl subs s).2 * Y (repl subs s).1

theorem substLin_fold {subs : Subs} {X Y : String → ℚ} (l : Dict String) (st : List ℚ × Dict String)
    (h : ∀ s ∈ Assoc.keys l, Subst1 subs X Y s) :
    (l.foldl (substLinStep subs) st).1.sum + Dict.sum (l.foldl (substLinStep subs) st).2 Y
      = st.1.sum + Dict.sum st.2 Y + Dict.sum l X := by
  induction l generalizing st with
  | nil => simp
  | cons p l ih =>
    simp only [List.foldl_cons, Dict.sum_cons]
    rw [ih _ (fun s hs => h s (List.mem_cons_of_mem _ hs))]
    have hp := h p.1 List.mem_cons_self
    unfold Subst1 at hp
    rw [hp]
    unfold substLinStep
    simp only
    split
    · simp; ring
    · simp [Dict.sum_add]; ring

theorem substLin_nodup {subs : Subs} (l : Dict String) (st : List ℚ × Dict String)
    (h : (Assoc.keys st.2).Nodup) : (Assoc.keys (l.foldl (substLinStep subs) st).2).Nodup := by
  induction l generalizing st with
  | nil => exact h
  | cons p l ih =>
    apply ih
    unfold substLinStep
    simp only
    split
    · exact h
    · exact Assoc.nodup_keys_set h _ _

theorem substLin_keys {subs : Subs} (l : Dict String) (st : List ℚ × Dict String) {s : String}
    (h : s ∈ Assoc.keys (l.foldl (substLinStep subs) st).2) :
    s ∈ Assoc.keys st.2 ∨ ∃ t ∈ Assoc.keys l, (repl subs t).1 ≠ CONST ∧ s = (repl subs t).1 := by
  induction l generalizing st with
  | nil => exact Or.inl h
  | cons p l ih =>
    rcases ih _ h with h | ⟨t, ht, h1, h2⟩
    · unfold substLinStep at h
      simp only at h
      split at h
      · exact Or.inl h
      · rename_i hc
        rcases Assoc.mem_keys_set.mp h with h | h
        · exact Or.inl h
        · exact Or.inr ⟨p.1, List.mem_cons_self, hc, h⟩
    · exact Or.inr ⟨t, List.mem_cons_of_mem _ ht, h1, h2⟩

theorem substQuad_fold {subs : Subs} {X Y : String → ℚ} (l : Dict (String × String)) (st : SubstQuadState)
    (h : ∀ s ∈ Assoc.keys l, Subst1 subs X Y s.1 ∧ Subst1 subs X Y s.2) :
    (l.foldl (substQuadStep subs) st).1.sum + Dict.sum (l.foldl (substQuadStep subs) st).2.1 Y
        + Dict.sum (l.foldl (substQuadStep subs) st).2.2 (fun k => Y k.1 * Y k.2)
      = st.1.sum + Dict.sum st.2.1 Y + Dict.sum st.2.2 (fun k => Y k.1 * Y k.2)
        + Dict.sum l (fun k => X k.1 * X k.2) := by
  induction l generalizing st with
  | nil => simp
  | cons p l ih =>
    simp only [List.foldl_cons, Dict.sum_cons]
    rw [ih _ (fun s hs => h s (List.mem_cons_of_mem _ hs))]
    obtain ⟨hp1, hp2⟩ := h p.1 List.mem_cons_self
    unfold Subst1 at hp1 hp2
    rw [hp1, hp2]
    unfold substQuadStep
    simp only
    by_cases h1 : (repl subs p.1.1).1 = CONST <;> by_cases h2 : (repl subs p.1.2).1 = CONST
    · simp [h1, h2]; ring
    · simp [h1, h2, Dict.sum_add]; ring
    · simp [h1, h2, Dict.sum_add]; ring
    · simp [h1, h2, Dict.sum_add]; ring

theorem substQuad_nodup {subs : Subs} (l : Dict (String × String)) (st : SubstQuadState)
    (h : (Assoc.keys st.2.1).Nodup) (h' : (Assoc.keys st.2.2).Nodup) :
    (Assoc.keys (l.foldl (substQuadStep subs) st).2.1).Nodup ∧
      (Assoc.keys (l.foldl (substQuadStep subs) st).2.2).Nodup := by
  induction l generalizing st with
  | nil => exact ⟨h, h'⟩
  | cons p l ih =>
    apply ih
    · unfold substQuadStep
      simp only
      split <;> split <;> first | exact h | exact Assoc.nodup_keys_set h _ _
    · unfold substQuadStep
      simp only
      split <;> split <;> first | exact h' | exact Assoc.nodup_keys_set h' _ _

theorem substQuad_keys {subs : Subs} (good : String → Prop) (l : Dict (String × String))
    (st : SubstQuadState)
    (hl : ∀ s ∈ Assoc.keys l, ((repl subs s.1).1 ≠ CONST → good (repl subs s.1).1) ∧
      ((repl subs s.2).1 ≠ CONST → good (repl subs s.2).1))
    (h1 : ∀ s ∈ Assoc.keys st.2.1, good s) (h2 : ∀ s ∈ Assoc.keys st.2.2, good s.1 ∧ good s.2) :
    (∀ s ∈ Assoc.keys (l.foldl (substQuadStep subs) st).2.1, good s) ∧
      ∀ s ∈ Assoc.keys (l.foldl (substQuadStep subs) st).2.2, good s.1 ∧ good s.2 := by
  induction l generalizing st with
  | nil => exact ⟨h1, h2⟩
  | cons p l ih =>
    obtain ⟨g1, g2⟩ := hl p.1 List.mem_cons_self
    apply ih _ (fun s hs => hl s (List.mem_cons_of_mem _ hs))
    · unfold substQuadStep
      simp only
      split
      · rename_i hi
        split
        · exact h1
        · intro s hs
          rcases Assoc.mem_keys_set.mp hs with hs | hs
          · exact h1 s hs
          · rw [hs]; exact g1 hi
      · split
        · rename_i hj
          intro s hs
          rcases Assoc.mem_keys_set.mp hs with hs | hs
          · exact h1 s hs
          · rw [hs]; exact g2 hj
        · exact h1
    · unfold substQuadStep
      simp only
      split
      · rename_i hi
        split
        · rename_i hj
          intro s hs
          rcases Assoc.mem_keys_set.mp hs with hs | hs
          · exact h2 s hs
          · rw [hs]; exact ⟨g1 hi, g2 hj⟩
        · exact h2
      · split
        · exact h2
        · exact h2

/-- Names of the variables with index below the number of variables. -/
theorem varName_mem {vars : List Variable} {i : Nat} (h : i < vars.length) :
    ∃ v, vars[i]? = some v ∧ varName vars i = v.name := by
  refine ⟨vars[i], List.getElem?_eq_getElem h, ?_⟩
  simp [varName, List.getElem?_eq_getElem h]

theorem nameVal_varName {p : QP} (hp : p.Consistent) (x : Nat → ℚ) {i : Nat} (h : i < p.numVars) :
    nameVal p.varsIndex x (varName p.vars i) = x i := by
  obtain ⟨v, hv, hn⟩ := varName_mem h
  unfold nameVal
  rw [hn, (hp.vars.get? v.name i).mpr (by simp [hv])]
  rfl

theorem sum_toDictNames {p : QP} (hp : p.Consistent) {e : LinExpr} (he : e.Fits p.numVars) (x : Nat → ℚ) :
    Dict.sum (e.toDictNames p.vars) (nameVal p.varsIndex x) = e.val x := by
  unfold LinExpr.toDictNames LinExpr.val
  have := Dict.sum_map_key e.coeffs (varName p.vars) (nameVal p.varsIndex x)
  rw [this]
  apply Dict.sum_congr
  intro k hk
  exact nameVal_varName hp x (lt_of_lt_of_le (he.1.bound k hk) he.2)

theorem sum_toDictNames2 {p : QP} (hp : p.Consistent) {e : QuadExpr} (he : e.Fits p.numVars)
    (x : Nat → ℚ) :
    Dict.sum (e.toDictNames p.vars) (fun k => nameVal p.varsIndex x k.1 * nameVal p.varsIndex x k.2)
      = e.val x := by
  unfold QuadExpr.toDictNames QuadExpr.val
  have := Dict.sum_map_key e.coeffs (fun k : Nat × Nat => (varName p.vars k.1, varName p.vars k.2))
    (fun k => nameVal p.varsIndex x k.1 * nameVal p.varsIndex x k.2)
  rw [this]
  apply Dict.sum_congr
  intro k hk
  have := he.1.bound k hk
  rw [nameVal_varName hp x (lt_of_lt_of_le this.1 he.2), nameVal_varName hp x (lt_of_lt_of_le this.2 he.2)]

theorem toDictNames_keys {p : QP} {e : LinExpr} (he : e.Fits p.numVars) {s : String}
    (h : s ∈ Assoc.keys (e.toDictNames p.vars)) : s ∈ p.vars.map Variable.name := by
  unfold LinExpr.toDictNames Assoc.keys at h
  simp only [List.map_map, List.mem_map, Function.comp_def] at h
  obtain ⟨q, hq, rfl⟩ := h
  obtain ⟨v, hv, hn⟩ := varName_mem (vars := p.vars)
    (lt_of_lt_of_le (he.1.bound q.1 (List.mem_map_of_mem hq)) he.2)
  rw [hn]; exact List.mem_map_of_mem (List.mem_of_getElem? hv)

theorem toDictNames_keys2 {p : QP} {e : QuadExpr} (he : e.Fits p.numVars) {s : String × String}
    (h : s ∈ Assoc.keys (e.toDictNames p.vars)) :
    s.1 ∈ p.vars.map Variable.name ∧ s.2 ∈ p.vars.map Variable.name := by
  unfold QuadExpr.toDictNames Assoc.keys at h
  simp only [List.map_map, List.mem_map, Function.comp_def] at h
  obtain ⟨q, hq, rfl⟩ := h
  have hb := he.1.bound q.1 (List.mem_map_of_mem hq)
  obtain ⟨v, hv, hn⟩ := varName_mem (vars := p.vars) (lt_of_lt_of_le hb.1 he.2)
  obtain ⟨w, hw, hm⟩ := varName_mem (vars := p.vars) (lt_of_lt_of_le hb.2 he.2)
  simp only [hn, hm]
  exact ⟨List.mem_map_of_mem (List.mem_of_getElem? hv), List.mem_map_of_mem (List.mem_of_getElem? hw)⟩

/-- The points `x` of the source and `y` of the target correspond under the table. -/
def Corr (src dst : QP) (subs : Subs) (x y : Nat → ℚ) : Prop :=
  ∀ s ∈ src.vars.map Variable.name, Subst1 subs (nameVal src.varsIndex x) (nameVal dst.varsIndex y) s

theorem substLinear_val {src dst : QP} {subs : Subs} {e l : LinExpr} {c : List ℚ}
    (h : substLinear src dst subs e = .ok (c, l)) (hs : src.Consistent) (hd : IxInj dst.varsIndex)
    (he : e.Fits src.numVars) {x y : Nat → ℚ} (hc : Corr src dst subs x y) :
    c.sum + l.val y = e.val x := by
  unfold substLinear at h
  simp only at h
  split at h
  · simp at h
  · rename_i l' hl
    simp at h
    obtain ⟨rfl, rfl⟩ := h
    have h1 := linNames_sum hl (substLin_nodup _ _ (by simp [Assoc.keys])) hd y
    have h2 := substLin_fold (X := nameVal src.varsIndex x) (Y := nameVal dst.varsIndex y)
      (e.toDictNames src.vars) ([], []) (fun s hs' => hc s (toDictNames_keys he hs'))
    rw [sum_toDictNames hs he x] at h2
    simp only [List.sum_nil, Dict.sum_nil, zero_add] at h2
    rw [LinExpr.val, h1, h2]

theorem substLinear_n {src dst : QP} {subs : Subs} {e l : LinExpr} {c : List ℚ}
    (h : substLinear src dst subs e = .ok (c, l)) : l.n = dst.numVars ∧ l.WF := by
  unfold substLinear at h
  simp only at h
  split at h
  · simp at h
  · rename_i l' hl
    simp at h
    obtain ⟨rfl, rfl⟩ := h
    exact ⟨LinExpr.ofDict_n hl, LinExpr.ofInput_wf hl (by simp [linNames])⟩

theorem substQuadratic_val {src dst : QP} {subs : Subs} {e q : QuadExpr} {l : LinExpr} {c : List ℚ}
    (h : substQuadratic src dst subs e = .ok (c, l, q)) (hs : src.Consistent) (hd : IxInj dst.varsIndex)
    (he : e.Fits src.numVars) {x y : Nat → ℚ} (hc : Corr src dst subs x y) :
    c.sum + l.val y + q.val y = e.val x := by
  unfold substQuadratic at h
  simp only at h
  split at h
  · simp at h
  · rename_i l' hl
    split at h
    · simp at h
    · rename_i q' hq
      simp at h
      obtain ⟨rfl, rfl, rfl⟩ := h
      have hn := substQuad_nodup (subs := subs) (e.toDictNames src.vars) ([], [], [])
        (by simp [Assoc.keys]) (by simp [Assoc.keys])
      have h1 := linNames_sum hl hn.1 hd y
      have h1' := quadNames_sum hq hn.2 hd y
      have h2 := substQuad_fold (X := nameVal src.varsIndex x) (Y := nameVal dst.varsIndex y)
        (e.toDictNames src.vars) ([], [], [])
        (fun s hs' => ⟨hc _ (toDictNames_keys2 he hs').1, hc _ (toDictNames_keys2 he hs').2⟩)
      rw [sum_toDictNames2 hs he x] at h2
      simp only [List.sum_nil, Dict.sum_nil, zero_add] at h2
      rw [LinExpr.val, QuadExpr.val, h1, h1', h2]

theorem substQuadratic_n {src dst : QP} {subs : Subs} {e q : QuadExpr} {l : LinExpr} {c : List ℚ}
    (h : substQuadratic src dst subs e = .ok (c, l, q)) :
    (l.n = dst.numVars ∧ l.WF) ∧ q.n = dst.numVars ∧ q.WF := by
  unfold substQuadratic at h
  simp only at h
  split at h
  · simp at h
  · rename_i l' hl
    split at h
    · simp at h
    · rename_i q' hq
      simp at h
      obtain ⟨rfl, rfl, rfl⟩ := h
      exact ⟨⟨LinExpr.ofDict_n hl, LinExpr.ofInput_wf hl (by simp [linNames])⟩,
        QuadExpr.ofDict_n hq, QuadExpr.ofInput_wf hq (by simp [quadNames])⟩

/-- Triangular folding of an already stored expression keeps its value. -/
theorem sparse_val {vi : Assoc String Nat} {n : Nat} {q qe : QuadExpr}
    (h : QuadExpr.ofInput vi n (.sparse q) = .ok qe) : qe.n = q.n ∧ ∀ y, qe.val y = q.val y := by
  simp only [QuadExpr.ofInput, Except.ok.injEq] at h
  subst h
  exact ⟨rfl, fun y => sum_triangle _ _ (fun i j => mul_comm _ _)⟩

theorem dokPlus_val (n m k : Nat) (a b : Dict Nat) (y : Nat → ℚ) :
    (LinExpr.mk n (dokPlus a b)).val y = (LinExpr.mk m a).val y + (LinExpr.mk k b).val y := by
  simp only [LinExpr.val]; exact Dict.sum_dokPlus a b y

theorem substObjective_ok {src dst dst' : QP} {subs : Subs} (h : substObjective src subs dst = .ok dst') :
    ∃ c1 l1 c2 l2 q le qe, substLinear src dst subs src.objective.linear = .ok (c1, l1) ∧
      substQuadratic src dst subs src.objective.quadratic = .ok (c2, l2, q) ∧
      LinExpr.ofInput dst.varsIndex dst.numVars (.sparse ⟨dst.numVars, dokPlus l1.coeffs l2.coeffs⟩) = .ok le ∧
      QuadExpr.ofInput dst.varsIndex dst.numVars (.sparse q) = .ok qe ∧
      dst' = { dst with objective :=
        ⟨([src.objective.constant] ++ c1 ++ c2).sum, le, qe, src.objective.sense⟩ } := by
  unfold substObjective at h
  split at h
  · simp at h
  · rename_i c1 l1 h1
    split at h
    · simp at h
    · rename_i c2 l2 q h2
      simp only at h
      split at h
      · simp at h
      · rename_i u d hobj
        simp at h; subst h
        obtain ⟨le, qe, hle, hqe, hp⟩ := setObjective_ok hobj
        exact ⟨c1, l1, c2, l2, q, le, qe, h1, h2, hle, hqe, hp⟩

theorem substObjective_val {src dst dst' : QP} {subs : Subs} (h : substObjective src subs dst = .ok dst')
    (hs : src.WF) (hd : IxInj dst.varsIndex) {x y : Nat → ℚ} (hc : Corr src dst subs x y) :
    dst'.objective.val y = src.objective.val x := by
  obtain ⟨c1, l1, c2, l2, q, le, qe, h1, h2, hle, hqe, rfl⟩ := substObjective_ok h
  have e1 := substLinear_val h1 hs.cons hd hs.objLin hc
  have e2 := substQuadratic_val h2 hs.cons hd hs.objQuad hc
  simp only [LinExpr.ofInput, Except.ok.injEq] at hle
  subst hle
  simp only [Objective.val]
  rw [dokPlus_val _ l1.n l2.n, (sparse_val hqe).2, ← e1, ← e2]
  simp only [List.sum_append, List.sum_cons, List.sum_nil]
  ring

theorem feasibleZero_iff (s : Sense) (r : ℚ) : feasibleZero s r = true ↔ s.rel 0 r := by
  cases s <;> simp [feasibleZero, Sense.rel]

theorem substLins_spec {src : QP} {subs : Subs} (cs : List LinCst) {dst dst' : QP} {feas feas' : Bool}
    (h : substLins src subs cs dst feas = .ok (dst', feas')) (hs : src.Consistent)
    (hf : ∀ c ∈ cs, c.linear.Fits src.numVars) (hd : IxInj dst.varsIndex) :
    dst'.vars = dst.vars ∧ dst'.varsIndex = dst.varsIndex ∧ dst'.objective = dst.objective ∧
    dst'.quads = dst.quads ∧
    ((∀ c ∈ dst.lins, c.linear.n = dst.numVars) → ∀ c ∈ dst'.lins, c.linear.n = dst.numVars) ∧
    ∀ x y, Corr src dst subs x y → ((feas' = true ∧ ∀ c ∈ dst'.lins, c.Holds y) ↔
      (feas = true ∧ (∀ c ∈ dst.lins, c.Holds y) ∧ ∀ c ∈ cs, c.Holds x)) := by
  induction cs generalizing dst feas with
  | nil => simp [substLins] at h; obtain ⟨rfl, rfl⟩ := h; simp
  | cons c cs ih =>
    simp only [substLins] at h
    split at h
    · simp at h
    · rename_i const l hl
      have hfc := hf c List.mem_cons_self
      have hfs := fun c' hc' => hf c' (List.mem_cons_of_mem _ hc')
      split at h
      · split at h
        · simp at h
        · rename_i cc d hlc
          obtain ⟨nm, le, s', _, hsense, hle, hcc, rfl⟩ := linearConstraint_ok hlc
          simp only [Sense.convert, Except.ok.injEq] at hsense
          simp only [LinExpr.ofInput, Except.ok.injEq] at hle
          subst hsense hle
          obtain ⟨g1, g2, g3, g4, g6, g5⟩ := ih h hfs hd
          refine ⟨g1, g2, g3, g4, ?_, ?_⟩
          · intro hn
            apply g6
            intro c' hc'
            rcases List.mem_append.mp hc' with hc' | hc'
            · exact hn c' hc'
            · simp at hc'; rw [hc', hcc]; exact (substLinear_n hl).1
          intro x y hc
          rw [g5 x y hc]
          have e := substLinear_val hl hs hd hfc hc
          have hh : cc.Holds y ↔ c.Holds x := by
            rw [hcc]; simp only [LinCst.Holds]
            have : -(([-c.rhs] ++ const).sum) = c.rhs - const.sum := by simp; ring
            rw [this, Sense.rel_sub, add_comm, e]
          simp only [List.mem_append, List.mem_cons, List.not_mem_nil, or_false, forall_eq_or_imp, or_imp,
            forall_and, forall_eq, hh]
          tauto
      · rename_i hlen
        have hnil : l.coeffs = [] := List.length_eq_zero_iff.mp (by omega)
        obtain ⟨g1, g2, g3, g4, g6, g5⟩ := ih h hfs hd
        refine ⟨g1, g2, g3, g4, g6, ?_⟩
        intro x y hc
        rw [g5 x y hc]
        have e := substLinear_val hl hs hd hfc hc
        have hh : feasibleZero c.sense (-(([-c.rhs] ++ const).sum)) = true ↔ c.Holds x := by
          rw [feasibleZero_iff]
          simp only [LinCst.Holds]
          have : -(([-c.rhs] ++ const).sum) = c.rhs - const.sum := by simp; ring
          rw [this, Sense.rel_sub]
          have e0 : l.val y = 0 := by simp [LinExpr.val, hnil]
          rw [← e, e0, zero_add, add_zero]
        rw [Bool.and_eq_true, hh]
        simp only [List.mem_cons, forall_eq_or_imp]
        tauto

theorem substQuads_spec {src : QP} {subs : Subs} (cs : List QuadCst) {dst dst' : QP} {feas feas' : Bool}
    (h : substQuads src subs cs dst feas = .ok (dst', feas')) (hs : src.Consistent)
    (hf : ∀ c ∈ cs, c.linear.Fits src.numVars ∧ c.quadratic.Fits src.numVars)
    (hd : IxInj dst.varsIndex) :
    dst'.vars = dst.vars ∧ dst'.varsIndex = dst.varsIndex ∧ dst'.objective = dst.objective ∧
    (((∀ c ∈ dst.lins, c.linear.n = dst.numVars) ∧
        ∀ c ∈ dst.quads, c.linear.n = dst.numVars ∧ c.quadratic.n = dst.numVars) →
      (∀ c ∈ dst'.lins, c.linear.n = dst.numVars) ∧
        ∀ c ∈ dst'.quads, c.linear.n = dst.numVars ∧ c.quadratic.n = dst.numVars) ∧
    ∀ x y, Corr src dst subs x y →
      ((feas' = true ∧ (∀ c ∈ dst'.lins, c.Holds y) ∧ ∀ c ∈ dst'.quads, c.Holds y) ↔
      (feas = true ∧ ((∀ c ∈ dst.lins, c.Holds y) ∧ ∀ c ∈ dst.quads, c.Holds y) ∧ ∀ c ∈ cs, c.Holds x)) := by
  induction cs generalizing dst feas with
  | nil => simp [substQuads] at h; obtain ⟨rfl, rfl⟩ := h; simp
  | cons c cs ih =>
    simp only [substQuads] at h
    split at h
    · simp at h
    · rename_i c1 l1 hl1
      split at h
      · simp at h
      · rename_i c2 l2 q hl2
        have hfc := hf c List.mem_cons_self
        have hfs := fun c' hc' => hf c' (List.mem_cons_of_mem _ hc')
        have hrhs : -(([-c.rhs] ++ c1 ++ c2).sum) = c.rhs - (c1.sum + c2.sum) := by simp; ring
        rw [hrhs] at h
        have hval : ∀ x y, Corr src dst subs x y →
            (LinExpr.mk dst.numVars (dokPlus l1.coeffs l2.coeffs)).val y + q.val y + (c1.sum + c2.sum)
              = c.linear.val x + c.quadratic.val x := by
          intro x y hc
          have e1 := substLinear_val hl1 hs hd hfc.1 hc
          have e2 := substQuadratic_val hl2 hs hd hfc.2 hc
          rw [dokPlus_val _ l1.n l2.n, ← e1, ← e2]
          ring
        split at h
        · split at h
          · simp at h
          · rename_i cc d hqc
            obtain ⟨nm, le, qe, s', _, hsense, hle, hqe, hcc, rfl⟩ := quadraticConstraint_ok hqc
            simp only [Sense.convert, Except.ok.injEq] at hsense
            simp only [LinExpr.ofInput, Except.ok.injEq] at hle
            subst hsense hle
            obtain ⟨g1, g2, g3, g6, g5⟩ := ih h hfs hd
            refine ⟨g1, g2, g3, ?_, ?_⟩
            · rintro ⟨hn1, hn2⟩
              apply g6
              refine ⟨hn1, ?_⟩
              intro c' hc'
              rcases List.mem_append.mp hc' with hc' | hc'
              · exact hn2 c' hc'
              · simp at hc'; rw [hc', hcc]; exact ⟨rfl, (sparse_val hqe).1.trans (substQuadratic_n hl2).2.1⟩
            intro x y hc
            rw [g5 x y hc]
            have hh : cc.Holds y ↔ c.Holds x := by
              rw [hcc]; simp only [QuadCst.Holds]
              rw [Sense.rel_sub, (sparse_val hqe).2, hval x y hc]
            simp only [List.mem_append, List.mem_cons, List.not_mem_nil, or_false, forall_eq_or_imp, or_imp,
              forall_and, forall_eq, hh]
            tauto
        · rename_i hlen
          have hnil : q.coeffs = [] := List.length_eq_zero_iff.mp (by omega)
          have hq0 : ∀ y, q.val y = 0 := by intro y; simp [QuadExpr.val, hnil]
          split at h
          · split at h
            · simp at h
            · rename_i cc d hlc
              obtain ⟨nm, le, s', _, hsense, hle, hcc, rfl⟩ := linearConstraint_ok hlc
              simp only [Sense.convert, Except.ok.injEq] at hsense
              simp only [LinExpr.ofInput, Except.ok.injEq] at hle
              subst hsense hle
              obtain ⟨g1, g2, g3, g6, g5⟩ := ih h hfs hd
              refine ⟨g1, g2, g3, ?_, ?_⟩
              · rintro ⟨hn1, hn2⟩
                apply g6
                refine ⟨?_, hn2⟩
                intro c' hc'
                rcases List.mem_append.mp hc' with hc' | hc'
                · exact hn1 c' hc'
                · simp at hc'; rw [hc', hcc]; rfl
              intro x y hc
              rw [g5 x y hc]
              have hh : cc.Holds y ↔ c.Holds x := by
                rw [hcc]; simp only [LinCst.Holds, QuadCst.Holds]
                rw [Sense.rel_sub, ← hval x y hc, hq0, add_zero]
              simp only [List.mem_append, List.mem_cons, List.not_mem_nil, or_false, forall_eq_or_imp, or_imp,
                forall_and, forall_eq, hh]
              tauto
          · rename_i hlen2
            have hnil2 : dokPlus l1.coeffs l2.coeffs = [] := List.length_eq_zero_iff.mp (by omega)
            obtain ⟨g1, g2, g3, g6, g5⟩ := ih h hfs hd
            refine ⟨g1, g2, g3, g6, ?_⟩
            intro x y hc
            rw [g5 x y hc]
            have hh : feasibleZero c.sense (c.rhs - (c1.sum + c2.sum)) = true ↔ c.Holds x := by
              rw [feasibleZero_iff, Sense.rel_sub]
              simp only [QuadCst.Holds]
              have e0 : (LinExpr.mk dst.numVars (dokPlus l1.coeffs l2.coeffs)).val y = 0 := by
                simp [LinExpr.val, hnil2]
              rw [← hval x y hc, e0, hq0, add_zero]
            rw [Bool.and_eq_true, hh]
            simp only [List.mem_cons, forall_eq_or_imp]
            tauto

/-! ## The variables -/

theorem copyVars_ok {subs : Subs} {vs : List Variable} {dst dst' : QP}
    (h : copyVars subs vs dst = .ok dst') (hd : dst.Consistent) :
    dst'.Consistent ∧ dst'.vars = dst.vars ++ vs.filter (fun v => !Assoc.has subs v.name) ∧
      dst'.lins = dst.lins ∧ dst'.quads = dst.quads := by
  induction vs generalizing dst with
  | nil => simp [copyVars] at h; subst h; simp [hd]
  | cons v vs ih =>
    simp only [copyVars] at h
    split at h
    · rename_i hh
      obtain ⟨h1, h2, h3, h4⟩ := ih h hd
      exact ⟨h1, by rw [h2]; simp [hh], h3, h4⟩
    · rename_i hh
      split at h
      · simp at h
      · rename_i w d hadd
        have hext := addVariable_extends hadd
        rw [addVariable_some] at hadd
        split at hadd
        · simp at hadd
        · split at hadd
          · simp at hadd
          · simp only [Prod.mk.injEq, Except.ok.injEq] at hadd
            obtain ⟨h1, h2, h3, h4⟩ := ih h (hext.cons hd)
            refine ⟨h1, ?_, h3.trans hext.lins, h4.trans hext.quads⟩
            rw [h2, hext.vars, ← hadd.1]
            simp [hh]

theorem copyVars_success {subs : Subs} {vs : List Variable} {dst : QP} (hd : dst.Consistent)
    (hn : ((dst.vars ++ vs).map Variable.name).Nodup) (hb : ∀ v ∈ vs, v.lb ≤ v.ub) :
    ∃ dst', copyVars subs vs dst = .ok dst' := by
  induction vs generalizing dst with
  | nil => exact ⟨dst, rfl⟩
  | cons v vs ih =>
    have hbv := hb v List.mem_cons_self
    have hbs := fun w hw => hb w (List.mem_cons_of_mem _ hw)
    have hn' : (dst.vars.map Variable.name ++ v.name :: vs.map Variable.name).Nodup := by
      simpa using hn
    simp only [copyVars]
    split
    · apply ih hd _ hbs
      rw [List.map_append]
      exact hn'.sublist (List.Sublist.append_left (List.sublist_cons_self _ _) _)
    · have hhas : ¬ Assoc.has dst.varsIndex v.name = true := by
        rw [Assoc.has_iff, hd.vars.keys]
        intro hmem
        rw [List.nodup_append] at hn'
        exact hn'.2.2 _ hmem _ List.mem_cons_self rfl
      have hadd := addVariable_some dst v.lb v.ub v.vartype v.name
      rw [if_neg hhas, if_neg (not_lt.mpr hbv)] at hadd
      have hext := addVariable_extends hadd
      rw [hadd]
      apply ih (hext.cons hd) _ hbs
      rw [hext.vars]
      simpa using hn'

/-- Changing bounds only. -/
structure SameButBounds (dst dst' : QP) : Prop where
  names : dst'.vars.map Variable.name = dst.vars.map Variable.name
  types : dst'.vars.map Variable.vartype = dst.vars.map Variable.vartype
  varsIndex : dst'.varsIndex = dst.varsIndex
  lins : dst'.lins = dst.lins
  linsIndex : dst'.linsIndex = dst.linsIndex
  quads : dst'.quads = dst.quads
  quadsIndex : dst'.quadsIndex = dst.quadsIndex

theorem SameButBounds.refl (p : QP) : SameButBounds p p := ⟨rfl, rfl, rfl, rfl, rfl, rfl, rfl⟩

theorem SameButBounds.trans {p q r : QP} (h : SameButBounds p q) (h' : SameButBounds q r) :
    SameButBounds p r :=
  ⟨h'.names.trans h.names, h'.types.trans h.types, h'.varsIndex.trans h.varsIndex, h'.lins.trans h.lins,
    h'.linsIndex.trans h.linsIndex, h'.quads.trans h.quads, h'.quadsIndex.trans h.quadsIndex⟩

theorem SameButBounds.cons {p q : QP} (h : SameButBounds p q) (hp : p.Consistent) : q.Consistent := by
  constructor
  · rw [h.names, h.varsIndex]; exact hp.vars
  · rw [h.lins, h.linsIndex]; exact hp.lins
  · rw [h.quads, h.quadsIndex]; exact hp.quads

theorem scale_pos {v yj : ℚ} (hv : 0 < v) (h1 : |yj| ≤ INFINITY) (h2 : |v * yj| ≤ INFINITY) (lb ub : ℚ)
    (hl : lb < INFINITY) (hu : -INFINITY < ub) :
    (scaleBound lb v ≤ yj ∧ yj ≤ scaleBound ub v) ↔ (lb ≤ v * yj ∧ v * yj ≤ ub) := by
  rw [abs_le] at h1 h2
  unfold scaleBound
  apply and_congr
  · split
    · rw [div_le_iff₀ hv, mul_comm]
    · rename_i hb
      rw [abs_lt] at hb
      push Not at hb
      have : lb ≤ -INFINITY := by
        by_contra hcon
        have := hb (not_le.mp hcon)
        linarith
      try simp only [gt_iff_lt, hv, if_true]
      exact ⟨fun _ => by linarith, fun _ => by linarith⟩
  · split
    · rw [le_div_iff₀ hv, mul_comm]
    · rename_i hb
      rw [abs_lt] at hb
      push Not at hb
      have : INFINITY ≤ ub := hb hu
      try simp only [gt_iff_lt, hv, if_true]
      exact ⟨fun _ => by linarith, fun _ => by linarith⟩

theorem scale_neg {v yj : ℚ} (hv : v < 0) (h1 : |yj| ≤ INFINITY) (h2 : |v * yj| ≤ INFINITY) (lb ub : ℚ)
    (hl : lb < INFINITY) (hu : -INFINITY < ub) :
    (scaleBound ub v ≤ yj ∧ yj ≤ scaleBound lb v) ↔ (lb ≤ v * yj ∧ v * yj ≤ ub) := by
  rw [abs_le] at h1 h2
  have hv' : ¬ (v > 0) := by linarith
  unfold scaleBound
  rw [and_comm]
  apply and_congr
  · split
    · rw [le_div_iff_of_neg hv, mul_comm]
    · rename_i hb
      rw [abs_lt] at hb
      push Not at hb
      have : lb ≤ -INFINITY := by
        by_contra hcon
        have := hb (not_le.mp hcon)
        linarith
      try simp only [hv', if_false]
      exact ⟨fun _ => by linarith, fun _ => by linarith⟩
  · split
    · rw [div_le_iff_of_neg hv, mul_comm]
    · rename_i hb
      rw [abs_lt] at hb
      push Not at hb
      have : INFINITY ≤ ub := hb hu
      try simp only [hv', if_false]
      exact ⟨fun _ => by linarith, fun _ => by linarith⟩

/-- The entry `t` of the table holds between source values `X` and target values `Y`, all of moderate size. -/
def EntryOK (X Y : String → ℚ) (t : String × String × ℚ) : Prop :=
  if t.2.1 = CONST then X t.1 = t.2.2
  else X t.1 = t.2.2 * Y t.2.1 ∧ |X t.1| ≤ INFINITY ∧ |Y t.2.1| ≤ INFINITY

/-- Bounds of the source variable named `s` hold at the value `a`. -/
def BoundsAt (src : QP) (s : String) (a : ℚ) : Prop :=
  ∀ v ∈ src.vars, v.name = s → v.lb ≤ a ∧ a ≤ v.ub

/-- No variable has `+INFINITY` as lower or `-INFINITY` as upper bound. -/
def QP.SaneBounds (p : QP) : Prop := ∀ v ∈ p.vars, v.lb < INFINITY ∧ -INFINITY < v.ub

instance (p : QP) : Decidable p.SaneBounds := by unfold QP.SaneBounds; infer_instance

theorem getVariable_name_ok {p : QP} (hp : p.Consistent) {s : String} {v : Variable}
    (h : p.getVariable (.name s) = .ok v) : v ∈ p.vars ∧ v.name = s := by
  simp only [QP.getVariable] at h
  split at h
  · simp at h
  · rename_i i hi
    split at h
    · rename_i w hw
      simp at h; subst h
      refine ⟨List.mem_of_getElem? hw, ?_⟩
      rw [hp.vars.get?] at hi
      simpa [hw] using hi
    · simp at h

theorem unique_name {p : QP} (hp : p.Consistent) {v w : Variable} (hv : v ∈ p.vars) (hw : w ∈ p.vars)
    (h : v.name = w.name) : v = w := by
  have := hp.vars.2
  exact List.inj_on_of_nodup_map this hv hw h

theorem boundsAt_iff {src : QP} (hs : src.Consistent) {v : Variable} (hv : v ∈ src.vars) (a : ℚ) :
    BoundsAt src v.name a ↔ v.lb ≤ a ∧ a ≤ v.ub := by
  constructor
  · intro h; exact h v hv rfl
  · intro h w hw hn; rw [unique_name hs hw hv hn]; exact h

/-- One tightening step on the target. -/
theorem inBounds_set {dst : QP} {k : Nat} {vj : Variable} (hk : dst.vars[k]? = some vj) (lo hi : ℚ)
    (y : Nat → ℚ) :
    (∀ i v, (dst.vars.set k { vj with lb := lo, ub := hi })[i]? = some v → v.lb ≤ y i ∧ y i ≤ v.ub) ↔
      (∀ i v, i ≠ k → dst.vars[i]? = some v → v.lb ≤ y i ∧ y i ≤ v.ub) ∧ lo ≤ y k ∧ y k ≤ hi := by
  have hlt : k < dst.vars.length := (List.getElem?_eq_some_iff.mp hk).1
  constructor
  · intro h
    refine ⟨?_, ?_⟩
    · intro i v hi hv
      exact h i v (by rw [List.getElem?_set_ne (Ne.symm hi)]; exact hv)
    · have := h k { vj with lb := lo, ub := hi } (by rw [List.getElem?_set_self hlt])
      exact this
  · rintro ⟨h1, h2⟩ i v hv
    by_cases hik : i = k
    · subst hik
      rw [List.getElem?_set_self hlt] at hv
      simp at hv; subst hv; exact h2
    · rw [List.getElem?_set_ne (Ne.symm hik)] at hv
      exact h1 i v hik hv

theorem inBounds_split {dst : QP} {k : Nat} {vj : Variable} (hk : dst.vars[k]? = some vj) (y : Nat → ℚ) :
    dst.InBounds y ↔
      (∀ i v, i ≠ k → dst.vars[i]? = some v → v.lb ≤ y i ∧ y i ≤ v.ub) ∧ vj.lb ≤ y k ∧ y k ≤ vj.ub := by
  constructor
  · intro h; exact ⟨fun i v _ hv => h i v hv, h k vj hk⟩
  · rintro ⟨h1, h2⟩ i v hv
    by_cases hik : i = k
    · subst hik; rw [hk] at hv; simp at hv; subst hv; exact h2
    · exact h1 i v hik hv

/-- The new bounds of the replacing variable say exactly what they should. -/
theorem newBounds_iff {vi vj : Variable} {v yj : ℚ} (hv : v ≠ 0) (h1 : |yj| ≤ INFINITY)
    (h2 : |v * yj| ≤ INFINITY) (hl : vi.lb < INFINITY) (hu : -INFINITY < vi.ub) :
    ((if v > 0 then max vj.lb (scaleBound vi.lb v) else max vj.lb (scaleBound vi.ub v)) ≤ yj ∧
      yj ≤ (if v > 0 then min vj.ub (scaleBound vi.ub v) else min vj.ub (scaleBound vi.lb v))) ↔
    ((vj.lb ≤ yj ∧ yj ≤ vj.ub) ∧ vi.lb ≤ v * yj ∧ v * yj ≤ vi.ub) := by
  by_cases hp : v > 0
  · simp only [hp, if_true, max_le_iff, le_min_iff]
    rw [← scale_pos hp h1 h2 vi.lb vi.ub hl hu]; tauto
  · have hn : v < 0 := lt_of_le_of_ne (not_lt.mp hp) hv
    simp only [hp, if_false, max_le_iff, le_min_iff]
    rw [← scale_neg hn h1 h2 vi.lb vi.ub hl hu]; tauto

theorem adjustBounds_spec {src : QP} (hs : src.Consistent) (hsane : src.SaneBounds) (l : Subs)
    {dst dst' : QP} {feas feas' : Bool}
    (h : adjustBounds src l dst feas = .ok (dst', feas')) (hd : dst.Consistent) :
    SameButBounds dst dst' ∧ (∀ t ∈ l, t.2.1 ≠ CONST → t.2.1 ∈ dst.vars.map Variable.name) ∧
    ∀ X y, (∀ t ∈ l, EntryOK X (nameVal dst.varsIndex y) t) →
      ((feas' = true ∧ dst'.InBounds y) ↔
        (feas = true ∧ dst.InBounds y ∧ ∀ t ∈ l, BoundsAt src t.1 (X t.1))) := by
  induction l generalizing dst feas with
  | nil => simp [adjustBounds] at h; obtain ⟨rfl, rfl⟩ := h; simp [SameButBounds.refl]
  | cons t l ih =>
    obtain ⟨i, j, v⟩ := t
    simp only [adjustBounds] at h
    split at h
    · simp at h
    · rename_i vi hvi
      obtain ⟨hvm, hvn⟩ := getVariable_name_ok hs hvi
      split at h
      · rename_i hj
        obtain ⟨g1, g2, g3⟩ := ih h hd
        refine ⟨g1, ?_, ?_⟩
        · intro t ht hne
          rcases List.mem_cons.mp ht with rfl | ht
          · exact absurd hj hne
          · exact g2 t ht hne
        · intro X y he
          rw [g3 X y (fun t ht => he t (List.mem_cons_of_mem _ ht))]
          have hi := he (i, j, v) List.mem_cons_self
          simp only [EntryOK, hj, if_true] at hi
          have hb : BoundsAt src i (X i) ↔ vi.lb ≤ v ∧ v ≤ vi.ub := by
            rw [← hvn] at hi ⊢; rw [boundsAt_iff hs hvm, hi]
          simp only [List.mem_cons, forall_eq_or_imp, hb, Bool.and_eq_true, decide_eq_true_eq]
          tauto
      · rename_i hj
        split at h
        · simp at h
        · rename_i hv0
          split at h
          · simp at h
          · rename_i k hk
            split at h
            · simp at h
            · rename_i vj hvj
              generalize hlo : (if v > 0 then max vj.lb (scaleBound vi.lb v) else max vj.lb (scaleBound vi.ub v))
                = lo at h
              generalize hhi : (if v > 0 then min vj.ub (scaleBound vi.ub v) else min vj.ub (scaleBound vi.lb v))
                = up at h
              simp only [QP.setLowerbound, hvj, Variable.setLb] at h
              split at h
              · simp at h
              · rename_i u d hset
                split at hset
                · simp at hset
                · rename_i x' hx'
                  split at hx'
                  · simp at hx'
                  · simp only [Except.ok.injEq] at hx'
                    subst hx'
                    simp only [Prod.mk.injEq, true_and] at hset
                    subst hset
                    have hlt : k < dst.vars.length := (List.getElem?_eq_some_iff.mp hvj).1
                    simp only [QP.setUpperbound, List.getElem?_set_self hlt, Variable.setUb] at h
                    split at h
                    · simp at h
                    · rename_i u' d' hset'
                      split at hset'
                      · simp at hset'
                      · rename_i x'' hx''
                        split at hx''
                        · simp at hx''
                        · simp only [Except.ok.injEq] at hx''
                          subst hx''
                          simp only [Prod.mk.injEq, true_and, List.set_set] at hset'
                          have hvk : vj.name = j := by
                            rw [hd.vars.get?] at hk; simpa [hvj] using hk
                          have hsb : SameButBounds dst d' := by
                            rw [← hset']
                            have gn : dst.vars[k] = vj := (List.getElem?_eq_some_iff.mp hvj).2
                            refine ⟨?_, ?_, rfl, rfl, rfl, rfl, rfl⟩
                            · simp only [List.map_set]
                              rw [← gn, ← List.getElem_map Variable.name, List.set_getElem_self]; simpa using hlt
                            · simp only [List.map_set]
                              rw [← gn, ← List.getElem_map Variable.vartype, List.set_getElem_self]; simpa using hlt
                          obtain ⟨g1, g2, g3⟩ := ih h (hsb.cons hd)
                          refine ⟨hsb.trans g1, ?_, ?_⟩
                          · intro t ht hne
                            rcases List.mem_cons.mp ht with rfl | ht
                            · simp only
                              rw [← hvk]; exact List.mem_map_of_mem (List.mem_of_getElem? hvj)
                            · rw [← hsb.names]; exact g2 t ht hne
                          · intro X y he
                            rw [g3 X y (fun t ht => by
                              rw [hsb.varsIndex]; exact he t (List.mem_cons_of_mem _ ht))]
                            have hi := he (i, j, v) List.mem_cons_self
                            simp only [EntryOK, hj, if_false] at hi
                            obtain ⟨hX, hXb, hYb⟩ := hi
                            have hyk : nameVal dst.varsIndex y j = y k := by simp [nameVal, hk]
                            rw [hyk] at hX hYb
                            have hnb := newBounds_iff (vi := vi) (vj := vj) hv0 hYb (by rw [← hX]; exact hXb)
                              (hsane vi hvm).1 (hsane vi hvm).2
                            have hb : BoundsAt src i (X i) ↔ vi.lb ≤ v * y k ∧ v * y k ≤ vi.ub := by
                              rw [← hX]
                              rw [← hvn]
                              exact boundsAt_iff hs hvm _
                            have hin : d'.InBounds y ↔
                                (∀ i v, i ≠ k → dst.vars[i]? = some v → v.lb ≤ y i ∧ y i ≤ v.ub) ∧
                                  lo ≤ y k ∧ y k ≤ up := by
                              rw [← hset']
                              exact inBounds_set hvj lo up y
                            rw [hlo, hhi] at hnb
                            rw [hin, hnb, inBounds_split hvj y]
                            simp only [List.mem_cons, forall_eq_or_imp, hb, and_assoc]

/-- If some point respects all bounds, tightening never raises. -/
theorem adjustBounds_success {src : QP} (hs : src.Consistent) (hsane : src.SaneBounds) (l : Subs)
    {dst : QP} {feas : Bool} (hd : dst.Consistent) (X : String → ℚ) (y : Nat → ℚ)
    (hi : ∀ t ∈ l, t.1 ∈ src.vars.map Variable.name)
    (hj : ∀ t ∈ l, t.2.1 ≠ CONST → t.2.1 ∈ dst.vars.map Variable.name ∧ t.2.2 ≠ 0)
    (he : ∀ t ∈ l, EntryOK X (nameVal dst.varsIndex y) t)
    (hb : ∀ t ∈ l, BoundsAt src t.1 (X t.1)) (hin : dst.InBounds y) :
    ∃ r, adjustBounds src l dst feas = .ok r := by
  induction l generalizing dst feas with
  | nil => exact ⟨_, rfl⟩
  | cons t l ih =>
    obtain ⟨i, j, v⟩ := t
    have hi' := hi (i, j, v) List.mem_cons_self
    obtain ⟨vi, hvm, hvn⟩ := List.mem_map.mp hi'
    simp only at hvn
    obtain ⟨a, ha⟩ := List.mem_iff_getElem?.mp hvm
    have hget : src.getVariable (.name i) = .ok vi := by
      have : Assoc.get? src.varsIndex i = some a := by
        rw [hs.vars.get?]; simp [ha, hvn]
      simp [QP.getVariable, this, ha]
    simp only [adjustBounds, hget]
    have hil := fun t ht => hi t (List.mem_cons_of_mem _ ht)
    have hjl := fun t ht => hj t (List.mem_cons_of_mem _ ht)
    have hel := fun t ht => he t (List.mem_cons_of_mem _ ht)
    have hbl := fun t ht => hb t (List.mem_cons_of_mem _ ht)
    by_cases hjc : j = CONST
    · simp only [hjc, if_true]
      exact ih hd hil hjl hel hbl hin
    · obtain ⟨hjm, hv0⟩ := hj (i, j, v) List.mem_cons_self hjc
      simp only at hjm hv0
      obtain ⟨vj, hvjm, hvjn⟩ := List.mem_map.mp hjm
      obtain ⟨k, hk⟩ := List.mem_iff_getElem?.mp hvjm
      have hgetj : Assoc.get? dst.varsIndex j = some k := by
        rw [hd.vars.get?]; simp [hk, hvjn]
      have hlt : k < dst.vars.length := (List.getElem?_eq_some_iff.mp hk).1
      have hee := he (i, j, v) List.mem_cons_self
      simp only [EntryOK, hjc, if_false] at hee
      obtain ⟨hX, hXb, hYb⟩ := hee
      have hyk : nameVal dst.varsIndex y j = y k := by simp [nameVal, hgetj]
      rw [hyk] at hX hYb
      have hnb := newBounds_iff (vi := vi) (vj := vj) hv0 hYb (by rw [← hX]; exact hXb)
        (hsane vi hvm).1 (hsane vi hvm).2
      have hbi : vi.lb ≤ v * y k ∧ v * y k ≤ vi.ub := by
        have := hb (i, j, v) List.mem_cons_self vi hvm hvn
        simp only at this
        rwa [hX] at this
      have hbj := hin k vj hk
      have hnew := hnb.mpr ⟨hbj, hbi⟩
      generalize hlo : (if v > 0 then max vj.lb (scaleBound vi.lb v) else max vj.lb (scaleBound vi.ub v)) = lo
        at hnew
      generalize hhi : (if v > 0 then min vj.ub (scaleBound vi.ub v) else min vj.ub (scaleBound vi.lb v)) = up
        at hnew
      have s1 : ¬ lo > vj.ub := by linarith [hnew.1, hbj.2]
      have s2 : ¬ lo > up := by linarith [hnew.1, hnew.2]
      simp only [hjc, hv0, if_false, hgetj, hk, hlo, hhi, QP.setLowerbound, Variable.setLb, s1]
      simp only [QP.setUpperbound, List.getElem?_set_self hlt, Variable.setUb, s2, if_false, List.set_set]
      have hsb : SameButBounds dst
          { dst with vars := dst.vars.set k { name := vj.name, lb := lo, ub := up, vartype := vj.vartype } } := by
        have gn : dst.vars[k] = vj := (List.getElem?_eq_some_iff.mp hk).2
        refine ⟨?_, ?_, rfl, rfl, rfl, rfl, rfl⟩
        · simp only [List.map_set]
          rw [← gn, ← List.getElem_map Variable.name, List.set_getElem_self]; simpa using hlt
        · simp only [List.map_set]
          rw [← gn, ← List.getElem_map Variable.vartype, List.set_getElem_self]; simpa using hlt
      apply ih (hsb.cons hd) hil
      · intro t ht hne; rw [hsb.names]; exact hjl t ht hne
      · exact hel
      · exact hbl
      · exact (inBounds_set hk lo up y).mpr ⟨fun i v _ hv => hin i v hv, hnew⟩

end Verif
