import Verif.RenameSolve
import Verif.Recursive

/-!
# Substitution and the recursive optimizer under renaming
-/

namespace Verif

variable {ρ σ : String → String}

/-- The key with another name; positions stay. -/
def Key.rename (ρ : String → String) : Key → Key
  | .idx i => .idx i
  | .name s => .name (ρ s)

/-- The table of substitutions with other names. -/
def renameSubs (ρ : String → String) (subs : Subs) : Subs := subs.map fun e => (ρ e.1, ρ e.2.1, e.2.2)

/-- The replacements with other names. -/
def renameReps (ρ : String → String) (reps : Replacements) : Replacements := reps.map fun e => (ρ e.1, ρ e.2.1, e.2.2)

section
variable {β : Type}

theorem get?_both (hi : ∀ s t, ρ s = ρ t → s = t) (d : Assoc String (String × β)) (k : String) :
    Assoc.get? (d.map fun e => (ρ e.1, ρ e.2.1, e.2.2)) (ρ k) = (Assoc.get? d k).map fun e => (ρ e.1, e.2) := by
  induction d with
  | nil => rfl
  | cons p d ih =>
    obtain ⟨k', v⟩ := p
    simp only [List.map_cons, Assoc.get?] at ih ⊢
    by_cases h : k' = k
    · rw [if_pos h, if_pos (by rw [h])]; rfl
    · rw [if_neg h, if_neg fun e => h (hi _ _ e)]
      exact ih

theorem has_both (hi : ∀ s t, ρ s = ρ t → s = t) (d : Assoc String (String × β)) (k : String) :
    Assoc.has (d.map fun e => (ρ e.1, ρ e.2.1, e.2.2)) (ρ k) = Assoc.has d k := by
  unfold Assoc.has
  rw [get?_both hi]
  cases Assoc.get? d k <;> rfl

theorem set_both (hi : ∀ s t, ρ s = ρ t → s = t) (d : Assoc String (String × β)) (k : String) (v : String × β) :
    Assoc.set (d.map fun e => (ρ e.1, ρ e.2.1, e.2.2)) (ρ k) (ρ v.1, v.2) =
      (Assoc.set d k v).map fun e => (ρ e.1, ρ e.2.1, e.2.2) := by
  induction d with
  | nil => rfl
  | cons p d ih =>
    obtain ⟨k', v'⟩ := p
    simp only [List.map_cons, Assoc.set] at ih ⊢
    by_cases h : k' = k
    · rw [if_pos h, if_pos (by rw [h])]
      rfl
    · rw [if_neg h, if_neg fun e => h (hi _ _ e), ih]
      rfl

end

/-! ## Substitution -/

theorem getVariable_renameKey (hρ : Renaming ρ σ) (p : QP) (k : Key) :
    (p.rename ρ σ).getVariable (k.rename ρ) = (p.getVariable k).map (Variable.rename ρ) := by
  cases k with
  | name s => exact getVariable_rename hρ p s
  | idx i =>
    simp only [QP.getVariable, Key.rename, QP.rename, List.getElem?_map]
    cases p.vars[i]? <;> rfl

theorem subsConstants_rename (hρ : Renaming ρ σ) (hc : ρ CONST = CONST) (src : QP) (l : List (Key × ℚ)) (subs : Subs) :
    subsConstants (src.rename ρ σ) (l.map fun e => (e.1.rename ρ, e.2)) (renameSubs ρ subs) =
      (subsConstants src l subs).map (renameSubs ρ) := by
  induction l generalizing subs with
  | nil => rfl
  | cons e l ih =>
    obtain ⟨i, v⟩ := e
    simp only [List.map_cons, subsConstants]
    rw [getVariable_renameKey hρ]
    cases src.getVariable i with
    | error e => rfl
    | ok vi =>
      simp only [Except.map]
      rw [show (vi.rename ρ).name = ρ vi.name from rfl, show renameSubs ρ subs = subs.map _ from rfl, has_both hρ.inj]
      split
      · rfl
      · have h := set_both hρ.inj subs vi.name (CONST, v)
        simp only [hc] at h
        rw [h]
        exact ih _

theorem subsVariables_rename (hρ : Renaming ρ σ) (src : QP) (l : List (Key × Key × ℚ)) (subs : Subs) :
    subsVariables (src.rename ρ σ) (l.map fun e => (e.1.rename ρ, e.2.1.rename ρ, e.2.2)) (renameSubs ρ subs) =
      (subsVariables src l subs).map (renameSubs ρ) := by
  induction l generalizing subs with
  | nil => rfl
  | cons e l ih =>
    obtain ⟨i, j, v⟩ := e
    simp only [List.map_cons, subsVariables]
    by_cases hv : v = 0
    · rw [if_pos hv, if_pos hv]; rfl
    · rw [if_neg hv, if_neg hv, getVariable_renameKey hρ, getVariable_renameKey hρ]
      cases src.getVariable i with
      | error e => rfl
      | ok vi =>
        cases src.getVariable j with
        | error e => rfl
        | ok vj =>
          simp only [Except.map, show (vi.rename ρ).name = ρ vi.name from rfl, show (vj.rename ρ).name = ρ vj.name from rfl]
          rw [show renameSubs ρ subs = subs.map _ from rfl, has_both hρ.inj, has_both hρ.inj]
          by_cases h1 : vi.name = vj.name
          · rw [if_pos h1, if_pos (by rw [h1])]
          · rw [if_neg h1, if_neg fun h => h1 (hρ.inj _ _ h)]
            split
            · rfl
            · split
              · rfl
              · rw [set_both hρ.inj subs vi.name (vj.name, v)]
                exact ih _

theorem subsDict_rename (hρ : Renaming ρ σ) (hc : ρ CONST = CONST) (src : QP) (cs : List (Key × ℚ)) (vs : List (Key × Key × ℚ)) :
    subsDict (src.rename ρ σ) (cs.map fun e => (e.1.rename ρ, e.2)) (vs.map fun e => (e.1.rename ρ, e.2.1.rename ρ, e.2.2)) =
      (subsDict src cs vs).map (renameSubs ρ) := by
  unfold subsDict
  have h := subsConstants_rename hρ hc src cs []
  rw [show renameSubs ρ [] = [] from rfl] at h
  rw [h]
  cases subsConstants src cs [] with
  | error e => rfl
  | ok subs => exact subsVariables_rename hρ src vs subs

theorem copyVars_rename (hρ : Renaming ρ σ) (subs : Subs) (l : List Variable) (dst : QP) :
    copyVars (renameSubs ρ subs) (l.map (Variable.rename ρ)) (dst.rename ρ σ) = (copyVars subs l dst).map (QP.rename ρ σ) := by
  induction l generalizing dst with
  | nil => rfl
  | cons v l ih =>
    simp only [List.map_cons, copyVars, show (v.rename ρ).vartype = v.vartype from rfl,
      show (v.rename ρ).lb = v.lb from rfl, show (v.rename ρ).ub = v.ub from rfl, show (v.rename ρ).name = ρ v.name from rfl]
    rw [show renameSubs ρ subs = subs.map _ from rfl, has_both hρ.inj, addVariable_rename hρ]
    split
    · exact ih dst
    · generalize dst.addVariable v.lb v.ub v.vartype (some v.name) = a
      obtain ⟨a, p'⟩ := a
      cases a with
      | error e => rfl
      | ok v => exact ih p'

theorem setLowerbound_rename (p : QP) (i : Nat) (v : ℚ) :
    (p.rename ρ σ).setLowerbound i v = Res.rename ρ σ id (p.setLowerbound i v) := by
  unfold QP.setLowerbound
  rw [show (p.rename ρ σ).vars = p.vars.map (Variable.rename ρ) from rfl, List.getElem?_map]
  cases p.vars[i]? with
  | none => rfl
  | some x =>
    simp only [Option.map_some, Variable.setLb, show (x.rename ρ).ub = x.ub from rfl]
    by_cases h : v > x.ub
    · rw [if_pos h, if_pos h]; rfl
    · rw [if_neg h, if_neg h]
      simp [Res.rename, QP.rename, Except.map, List.map_set, Variable.rename]

theorem setUpperbound_rename (p : QP) (i : Nat) (v : ℚ) :
    (p.rename ρ σ).setUpperbound i v = Res.rename ρ σ id (p.setUpperbound i v) := by
  unfold QP.setUpperbound
  rw [show (p.rename ρ σ).vars = p.vars.map (Variable.rename ρ) from rfl, List.getElem?_map]
  cases p.vars[i]? with
  | none => rfl
  | some x =>
    simp only [Option.map_some, Variable.setUb, show (x.rename ρ).lb = x.lb from rfl]
    by_cases h : x.lb > v
    · rw [if_pos h, if_pos h]; rfl
    · rw [if_neg h, if_neg h]
      simp [Res.rename, QP.rename, Except.map, List.map_set, Variable.rename]

theorem const_iff (hρ : Renaming ρ σ) (hc : ρ CONST = CONST) (s : String) : ρ s = CONST ↔ s = CONST :=
  ⟨fun h => hρ.inj _ _ (h.trans hc.symm), fun h => by rw [h, hc]⟩

theorem adjustBounds_rename (hρ : Renaming ρ σ) (hc : ρ CONST = CONST) (src : QP) (subs : Subs) (dst : QP) (feas : Bool) :
    adjustBounds (src.rename ρ σ) (renameSubs ρ subs) (dst.rename ρ σ) feas =
      (adjustBounds src subs dst feas).map fun r => (r.1.rename ρ σ, r.2) := by
  induction subs generalizing dst feas with
  | nil => rfl
  | cons e l ih =>
    obtain ⟨i, j, v⟩ := e
    rw [show renameSubs ρ ((i, j, v) :: l) = (ρ i, ρ j, v) :: renameSubs ρ l from rfl]
    simp only [adjustBounds]
    rw [getVariable_rename hρ]
    cases src.getVariable (.name i) with
    | error e => rfl
    | ok vi =>
      simp only [Except.map, show (vi.rename ρ).lb = vi.lb from rfl, show (vi.rename ρ).ub = vi.ub from rfl]
      by_cases hj : j = CONST
      · rw [if_pos hj, if_pos ((const_iff hρ hc j).mpr hj)]
        exact ih dst _
      · rw [if_neg hj, if_neg (mt (const_iff hρ hc j).mp hj)]
        by_cases hv : v = 0
        · rw [if_pos hv, if_pos hv]
        · rw [if_neg hv, if_neg hv, show (dst.rename ρ σ).varsIndex = mapKeys ρ dst.varsIndex from rfl, get?_mapKeys hρ.inj]
          cases Assoc.get? dst.varsIndex j with
          | none => rfl
          | some k =>
            simp only [show (dst.rename ρ σ).vars = dst.vars.map (Variable.rename ρ) from rfl, List.getElem?_map]
            cases dst.vars[k]? with
            | none => rfl
            | some vj =>
              simp only [Option.map_some, setLowerbound_rename, show (vj.rename ρ).lb = vj.lb from rfl,
                show (vj.rename ρ).ub = vj.ub from rfl]
              generalize dst.setLowerbound k _ = a
              obtain ⟨a, p'⟩ := a
              cases a with
              | error e => rfl
              | ok u =>
                simp only [Res.rename, Except.map, setUpperbound_rename]
                generalize p'.setUpperbound k _ = b
                obtain ⟨b, p''⟩ := b
                cases b with
                | error e => rfl
                | ok u => exact ih p'' feas

theorem substVars_rename (hρ : Renaming ρ σ) (hc : ρ CONST = CONST) (src : QP) (subs : Subs) (dst : QP) :
    substVars (src.rename ρ σ) (renameSubs ρ subs) (dst.rename ρ σ) =
      (substVars src subs dst).map fun r => (r.1.rename ρ σ, r.2) := by
  unfold substVars
  rw [show (src.rename ρ σ).vars = src.vars.map (Variable.rename ρ) from rfl, copyVars_rename hρ]
  cases copyVars subs src.vars dst with
  | error e => rfl
  | ok dst =>
    simp only [Except.map]
    rw [adjustBounds_rename hρ hc]
    cases adjustBounds src subs dst true with
    | error e => rfl
    | ok r =>
      simp only [Except.map, QP.rename, List.all_map, Function.comp_def, Variable.rename]
      rfl

theorem repl_rename (hρ : Renaming ρ σ) (subs : Subs) (s : String) :
    repl (renameSubs ρ subs) (ρ s) = (ρ (repl subs s).1, (repl subs s).2) := by
  unfold repl
  rw [show renameSubs ρ subs = subs.map _ from rfl, get?_both hρ.inj]
  cases Assoc.get? subs s <;> rfl

theorem substLin_fold_rename (hρ : Renaming ρ σ) (hc : ρ CONST = CONST) (subs : Subs) (d : Dict String)
    (st : List ℚ × Dict String) :
    (mapKeys ρ d).foldl (substLinStep (renameSubs ρ subs)) (st.1, mapKeys ρ st.2) =
      ((d.foldl (substLinStep subs) st).1, mapKeys ρ (d.foldl (substLinStep subs) st).2) := by
  induction d generalizing st with
  | nil => rfl
  | cons p d ih =>
    rw [show mapKeys ρ (p :: d) = (ρ p.1, p.2) :: mapKeys ρ d from rfl]
    simp only [List.foldl_cons]
    rw [← ih (substLinStep subs st p)]
    congr 1
    simp only [substLinStep]
    rw [repl_rename hρ]
    by_cases h : (repl subs p.1).1 = CONST
    · rw [if_pos h, if_pos ((const_iff hρ hc _).mpr h)]
    · rw [if_neg h, if_neg (mt (const_iff hρ hc _).mp h), add_mapKeys hρ.inj]

theorem substLinear_rename (hρ : Renaming ρ σ) (hc : ρ CONST = CONST) (src dst : QP) (subs : Subs) (e : LinExpr) :
    substLinear (src.rename ρ σ) (dst.rename ρ σ) (renameSubs ρ subs) e = substLinear src dst subs e := by
  unfold substLinear
  have h := substLin_fold_rename hρ hc subs (e.toDictNames src.vars) ([], [])
  rw [show mapKeys ρ (([], []) : List ℚ × Dict String).2 = [] from rfl] at h
  simp only [show (src.rename ρ σ).vars = src.vars.map (Variable.rename ρ) from rfl]
  rw [linToDict_rename hρ, h, show (dst.rename ρ σ).varsIndex = mapKeys ρ dst.varsIndex from rfl, numVars_rename,
    linNames_rename hρ]

theorem substQuad_fold_rename (hρ : Renaming ρ σ) (hc : ρ CONST = CONST) (subs : Subs) (d : Dict (String × String))
    (st : SubstQuadState) :
    (mapKeys (namePair ρ) d).foldl (substQuadStep (renameSubs ρ subs)) (st.1, mapKeys ρ st.2.1, mapKeys (namePair ρ) st.2.2) =
      ((d.foldl (substQuadStep subs) st).1, mapKeys ρ (d.foldl (substQuadStep subs) st).2.1,
        mapKeys (namePair ρ) (d.foldl (substQuadStep subs) st).2.2) := by
  induction d generalizing st with
  | nil => rfl
  | cons p d ih =>
    rw [show mapKeys (namePair ρ) (p :: d) = (namePair ρ p.1, p.2) :: mapKeys (namePair ρ) d from rfl]
    simp only [List.foldl_cons]
    rw [← ih (substQuadStep subs st p)]
    congr 1
    simp only [substQuadStep, show (namePair ρ p.1).1 = ρ p.1.1 from rfl, show (namePair ρ p.1).2 = ρ p.1.2 from rfl]
    rw [repl_rename hρ, repl_rename hρ]
    have hadd := add_mapKeys (namePair_inj hρ) st.2.2 ((repl subs p.1.1).1, (repl subs p.1.2).1)
      (p.2 * (repl subs p.1.1).2 * (repl subs p.1.2).2)
    simp only [namePair] at hadd
    by_cases h : (repl subs p.1.1).1 = CONST
    · rw [if_neg (not_not.mpr h), if_neg (not_not.mpr ((const_iff hρ hc _).mpr h))]
      by_cases h' : (repl subs p.1.2).1 = CONST
      · rw [if_neg (not_not.mpr h'), if_neg (not_not.mpr ((const_iff hρ hc _).mpr h'))]
      · rw [if_pos h', if_pos (mt (const_iff hρ hc _).mp h'), add_mapKeys hρ.inj]
    · rw [if_pos h, if_pos (mt (const_iff hρ hc _).mp h)]
      by_cases h' : (repl subs p.1.2).1 = CONST
      · rw [if_neg (not_not.mpr h'), if_neg (not_not.mpr ((const_iff hρ hc _).mpr h')), add_mapKeys hρ.inj]
      · rw [if_pos h', if_pos (mt (const_iff hρ hc _).mp h')]
        exact congrArg (fun z => (st.1, mapKeys ρ st.2.1, z)) hadd

theorem substQuadratic_rename (hρ : Renaming ρ σ) (hc : ρ CONST = CONST) (src dst : QP) (subs : Subs) (e : QuadExpr) :
    substQuadratic (src.rename ρ σ) (dst.rename ρ σ) (renameSubs ρ subs) e = substQuadratic src dst subs e := by
  unfold substQuadratic
  have h := substQuad_fold_rename hρ hc subs (e.toDictNames src.vars) ([], [], [])
  rw [show mapKeys ρ (([], [], []) : SubstQuadState).2.1 = [] from rfl,
    show mapKeys (namePair ρ) (([], [], []) : SubstQuadState).2.2 = [] from rfl] at h
  simp only [show (src.rename ρ σ).vars = src.vars.map (Variable.rename ρ) from rfl]
  rw [quadToDict_rename hρ, h, show (dst.rename ρ σ).varsIndex = mapKeys ρ dst.varsIndex from rfl, numVars_rename,
    linNames_rename hρ, quadNames_rename hρ]

theorem setObjective_renameSparse (p : QP) (s : ObjSense) (c : ℚ) (l : LinExpr) (q : QuadExpr) :
    (p.rename ρ σ).setObjective s c (.sparse l) (.sparse q) = Res.rename ρ σ id (p.setObjective s c (.sparse l) (.sparse q)) := rfl

theorem substObjective_rename (hρ : Renaming ρ σ) (hc : ρ CONST = CONST) (src : QP) (subs : Subs) (dst : QP) :
    substObjective (src.rename ρ σ) (renameSubs ρ subs) (dst.rename ρ σ) = (substObjective src subs dst).map (QP.rename ρ σ) := by
  unfold substObjective
  simp only [substLinear_rename hρ hc, substQuadratic_rename hρ hc, show (src.rename ρ σ).objective = src.objective from rfl,
    numVars_rename, setObjective_renameSparse]
  cases substLinear src dst subs src.objective.linear with
  | error e => rfl
  | ok r =>
    obtain ⟨c1, l1⟩ := r
    cases substQuadratic src dst subs src.objective.quadratic with
    | error e => rfl
    | ok r =>
      obtain ⟨c2, l2, q⟩ := r
      simp only
      generalize dst.setObjective _ _ _ _ = a
      obtain ⟨a, p'⟩ := a
      cases a <;> rfl

theorem linearConstraint_renameSparse (hρ : Renaming ρ σ) (p : QP) (l : LinExpr) (s : SenseInput) (r : ℚ) (n : String)
    (hn : n ≠ "") : (p.rename ρ σ).linearConstraint (.sparse l) s r (some (σ n)) =
      Res.rename ρ σ (LinCst.rename σ) (p.linearConstraint (.sparse l) s r (some n)) := by
  unfold QP.linearConstraint
  rw [show (p.rename ρ σ).linsIndex = mapKeys σ p.linsIndex from rfl,
    show (p.rename ρ σ).lins.length = p.lins.length by simp [QP.rename], chooseName_rename hρ _ _ _ _ hn]
  cases chooseName p.linsIndex p.lins.length "c" (some n) with
  | error e => rfl
  | ok nm =>
    simp only [Except.map]
    rw [set_mapKeys hρ.injCst]
    cases Sense.convert s with
    | error e => rfl
    | ok s => simp [Res.rename, Except.map, QP.rename, LinCst.rename, LinExpr.ofInput]

theorem substLins_rename (hρ : Renaming ρ σ) (hc : ρ CONST = CONST) (src : QP) (subs : Subs) (ks : List LinCst)
    (hk : ∀ k ∈ ks, k.name ≠ "") (dst : QP) (feas : Bool) :
    substLins (src.rename ρ σ) (renameSubs ρ subs) (ks.map (LinCst.rename σ)) (dst.rename ρ σ) feas =
      (substLins src subs ks dst feas).map fun r => (r.1.rename ρ σ, r.2) := by
  induction ks generalizing dst feas with
  | nil => rfl
  | cons c ks ih =>
    have ih := ih fun k h => hk k (List.mem_cons_of_mem _ h)
    simp only [List.map_cons, substLins, substLinear_rename hρ hc, show (c.rename σ).linear = c.linear from rfl,
      show (c.rename σ).rhs = c.rhs from rfl, show (c.rename σ).sense = c.sense from rfl,
      show (c.rename σ).name = σ c.name from rfl]
    cases substLinear src dst subs c.linear with
    | error e => rfl
    | ok r =>
      obtain ⟨const, l⟩ := r
      simp only
      by_cases hl : l.coeffs.length > 0
      · rw [if_pos hl, if_pos hl, linearConstraint_renameSparse hρ _ _ _ _ _ (hk c List.mem_cons_self)]
        generalize dst.linearConstraint _ _ _ _ = a
        obtain ⟨a, p'⟩ := a
        cases a with
        | error e => rfl
        | ok u => exact ih p' feas
      · rw [if_neg hl, if_neg hl]
        exact ih dst _

/-- Substitution commutes with renaming when there are no quadratic constraints. -/
theorem substitute_rename (hρ : Renaming ρ σ) (hc : ρ CONST = CONST) (src : QP) (hk : ∀ k ∈ src.lins, k.name ≠ "")
    (hq : src.quads = []) (cs : List (Key × ℚ)) (vs : List (Key × Key × ℚ)) :
    (src.rename ρ σ).substitute (cs.map fun e => (e.1.rename ρ, e.2)) (vs.map fun e => (e.1.rename ρ, e.2.1.rename ρ, e.2.2)) =
      (src.substitute cs vs).map (QP.rename ρ σ) := by
  unfold QP.substitute
  rw [subsDict_rename hρ hc]
  cases subsDict src cs vs with
  | error e => rfl
  | ok subs =>
    simp only [Except.map, show (src.rename ρ σ).name = src.name from rfl,
      show (src.rename ρ σ).lins = src.lins.map (LinCst.rename σ) from rfl,
      show (src.rename ρ σ).quads = src.quads.map (QuadCst.rename σ) from rfl, hq, List.map_nil]
    have h := substVars_rename hρ hc src subs (QP.empty src.name)
    rw [empty_rename] at h
    rw [h]
    cases substVars src subs (QP.empty src.name) with
    | error e => rfl
    | ok r =>
      obtain ⟨dst, f1⟩ := r
      simp only [Except.map]
      rw [substObjective_rename hρ hc]
      cases substObjective src subs dst with
      | error e => rfl
      | ok dst =>
        simp only [Except.map]
        rw [substLins_rename hρ hc _ _ _ hk]
        cases substLins src subs src.lins dst true with
        | error e => rfl
        | ok r => rfl

/-! ## The recursive optimizer -/

theorem shiftLinear_rename (q : QuadExpr) (vi vi' : Assoc String Nat) (i m k : Nat) (l : LinExpr) :
    shiftLinear q vi' i m k l = shiftLinear q vi i m k l := by
  induction m generalizing k l with
  | zero => rfl
  | succ m ih =>
    simp only [shiftLinear]
    rw [show l.getItem vi' (.idx k) = l.getItem vi (.idx k) from rfl,
      show q.getItem vi' (.idx i) (.idx k) = q.getItem vi (.idx i) (.idx k) from rfl]
    cases l.getItem vi (.idx k) with
    | error e => rfl
    | ok c =>
      cases q.getItem vi (.idx i) (.idx k) with
      | error e => rfl
      | ok d =>
        simp only
        rw [show ∀ v, l.setItem vi' (.idx k) v = l.setItem vi (.idx k) v from fun _ => rfl]
        generalize l.setItem vi (.idx k) _ = a
        cases a with
        | error e => rfl
        | ok l => exact ih _ _

theorem shiftProgram_rename (p : QP) (i : Nat) :
    shiftProgram (p.rename ρ σ) i = (shiftProgram p i).map (QP.rename ρ σ) := by
  unfold shiftProgram
  rw [numVars_rename, show (p.rename ρ σ).objective = p.objective from rfl,
    shiftLinear_rename _ p.varsIndex (p.rename ρ σ).varsIndex,
    show p.objective.linear.getItem (p.rename ρ σ).varsIndex (.idx i) = p.objective.linear.getItem p.varsIndex (.idx i) from rfl,
    show p.objective.quadratic.getItem (p.rename ρ σ).varsIndex (.idx i) (.idx i) =
      p.objective.quadratic.getItem p.varsIndex (.idx i) (.idx i) from rfl]
  cases p.objective.linear.getItem p.varsIndex (.idx i) with
  | error e => rfl
  | ok c =>
    cases p.objective.quadratic.getItem p.varsIndex (.idx i) (.idx i) with
    | error e => rfl
    | ok d =>
      simp only
      cases shiftLinear p.objective.quadratic p.varsIndex i p.numVars 0 p.objective.linear <;> rfl

/-- The result of one iteration with other names. -/
def renameStep (ρ σ : String → String) (r : QP × QP × String × String × Int) : QP × QP × String × String × Int :=
  (r.1.rename ρ σ, r.2.1.rename ρ σ, ρ r.2.2.1, ρ r.2.2.2.1, r.2.2.2.2)

theorem shiftProgram_csts {p p' : QP} {i : Nat} (h : shiftProgram p i = .ok p') : p'.lins = p.lins ∧ p'.quads = p.quads := by
  unfold shiftProgram at h
  cases h1 : p.objective.linear.getItem p.varsIndex (.idx i) with
  | error e => rw [h1] at h; simp at h
  | ok c =>
    rw [h1] at h
    cases h2 : p.objective.quadratic.getItem p.varsIndex (.idx i) (.idx i) with
    | error e => rw [h2] at h; simp at h
    | ok d =>
      rw [h2] at h
      simp only at h
      cases h3 : shiftLinear p.objective.quadratic p.varsIndex i p.numVars 0 p.objective.linear with
      | error e => rw [h3] at h; simp at h
      | ok l =>
        rw [h3] at h
        simp only [Except.ok.injEq] at h
        subst h
        exact ⟨rfl, rfl⟩

theorem reduceStep_rename (hρ : Renaming ρ σ) (hc : ρ CONST = CONST) (samples : List Sample) (p : QP)
    (hl : p.lins = []) (hq : p.quads = []) :
    reduceStep samples (p.rename ρ σ) = (reduceStep samples p).map (renameStep ρ σ) := by
  unfold reduceStep
  cases correlationSize samples with
  | error e => rfl
  | ok n =>
    simp only
    cases strongest samples n with
    | error e => rfl
    | ok ij =>
      obtain ⟨i, j⟩ := ij
      simp only [show (p.rename ρ σ).vars = p.vars.map (Variable.rename ρ) from rfl, List.getElem?_map]
      cases p.vars[i]? with
      | none => rfl
      | some vi =>
        cases p.vars[j]? with
        | none => rfl
        | some vj =>
          simp only [Option.map_some]
          have hsub : ∀ (q : QP) (v : ℚ), q.lins = [] → q.quads = [] → (q.rename ρ σ).substitute [] [(.idx i, .idx j, v)] =
              (q.substitute [] [(.idx i, .idx j, v)]).map (QP.rename ρ σ) := fun q v h1 h2 =>
            substitute_rename hρ hc q (by rw [h1]; simp) h2 [] [(.idx i, .idx j, v)]
          by_cases hcor : correlation samples i j > 0
          · rw [if_pos hcor, if_pos hcor, hsub p 1 hl hq]
            cases p.substitute [] [(.idx i, .idx j, 1)] with
            | error e => rfl
            | ok q =>
              simp only [Except.map, show (q.rename ρ σ).status = q.status from rfl]
              split <;> rfl
          · rw [if_neg hcor, if_neg hcor, shiftProgram_rename]
            cases hs : shiftProgram p i with
            | error e => rfl
            | ok p' =>
              obtain ⟨h1, h2⟩ := shiftProgram_csts hs
              simp only [Except.map]
              rw [hsub p' (-1) (h1.trans hl) (h2.trans hq)]
              cases p'.substitute [] [(.idx i, .idx j, -1)] with
              | error e => rfl
              | ok q =>
                simp only [Except.map, show (q.rename ρ σ).status = q.status from rfl]
                split <;> rfl

/-- No constraints. -/
def QP.NoCsts (p : QP) : Prop := p.lins = [] ∧ p.quads = []

theorem addVariable_csts {p p' : QP} {lb ub : ℚ} {t : VarType} {n : String} {v : Variable}
    (h : p.addVariable lb ub t (some n) = (.ok v, p')) : p'.lins = p.lins ∧ p'.quads = p.quads := by
  rw [addVariable_some] at h
  split at h
  · simp at h
  · split at h
    · simp at h
    · simp only [Prod.mk.injEq, Except.ok.injEq] at h
      obtain ⟨-, rfl⟩ := h
      exact ⟨rfl, rfl⟩

theorem copyVars_csts {subs : Subs} {l : List Variable} {dst dst' : QP} (hd : dst.NoCsts) (h : copyVars subs l dst = .ok dst') :
    dst'.NoCsts := by
  induction l generalizing dst with
  | nil =>
    simp only [copyVars, Except.ok.injEq] at h
    exact h ▸ hd
  | cons v l ih =>
    simp only [copyVars] at h
    split at h
    · exact ih hd h
    · cases ha : dst.addVariable v.lb v.ub v.vartype (some v.name) with
      | mk a p' =>
        rw [ha] at h
        cases a with
        | error e => simp at h
        | ok w =>
          obtain ⟨h1, h2⟩ := addVariable_csts ha
          exact ih ⟨h1.trans hd.1, h2.trans hd.2⟩ h

theorem setLowerbound_csts (p : QP) (i : Nat) (v : ℚ) : (p.setLowerbound i v).2.lins = p.lins ∧
    (p.setLowerbound i v).2.quads = p.quads := by
  unfold QP.setLowerbound
  cases p.vars[i]? with
  | none => exact ⟨rfl, rfl⟩
  | some x =>
    simp only
    cases x.setLb v <;> exact ⟨rfl, rfl⟩

theorem setUpperbound_csts (p : QP) (i : Nat) (v : ℚ) : (p.setUpperbound i v).2.lins = p.lins ∧
    (p.setUpperbound i v).2.quads = p.quads := by
  unfold QP.setUpperbound
  cases p.vars[i]? with
  | none => exact ⟨rfl, rfl⟩
  | some x =>
    simp only
    cases x.setUb v <;> exact ⟨rfl, rfl⟩

theorem adjustBounds_csts {src : QP} {subs : Subs} {dst dst' : QP} {f f' : Bool} (hd : dst.NoCsts)
    (h : adjustBounds src subs dst f = .ok (dst', f')) : dst'.NoCsts := by
  induction subs generalizing dst f with
  | nil =>
    simp only [adjustBounds, Except.ok.injEq, Prod.mk.injEq] at h
    exact h.1 ▸ hd
  | cons e l ih =>
    obtain ⟨i, j, v⟩ := e
    simp only [adjustBounds] at h
    cases h1 : src.getVariable (.name i) with
    | error e => rw [h1] at h; simp at h
    | ok vi =>
      rw [h1] at h
      simp only at h
      by_cases hj : j = CONST
      · rw [if_pos hj] at h
        exact ih hd h
      · rw [if_neg hj] at h
        by_cases hv : v = 0
        · rw [if_pos hv] at h; simp at h
        · rw [if_neg hv] at h
          cases h2 : Assoc.get? dst.varsIndex j with
          | none => rw [h2] at h; simp at h
          | some k =>
            rw [h2] at h
            simp only at h
            cases h3 : dst.vars[k]? with
            | none => rw [h3] at h; simp at h
            | some vj =>
              rw [h3] at h
              simp only at h
              generalize (if v > 0 then max vj.lb (scaleBound vi.lb v) else max vj.lb (scaleBound vi.ub v)) = lo at h
              generalize (if v > 0 then min vj.ub (scaleBound vi.ub v) else min vj.ub (scaleBound vi.lb v)) = hi at h
              have c1 := setLowerbound_csts dst k lo
              cases ha : dst.setLowerbound k lo with
              | mk a p' =>
                rw [ha] at h c1
                cases a with
                | error e => simp at h
                | ok u =>
                  simp only at h c1
                  have c2 := setUpperbound_csts p' k hi
                  cases hb : p'.setUpperbound k hi with
                  | mk b p'' =>
                    rw [hb] at h c2
                    cases b with
                    | error e => simp at h
                    | ok u =>
                      simp only at h c2
                      exact ih ⟨c2.1.trans (c1.1.trans hd.1), c2.2.trans (c1.2.trans hd.2)⟩ h

theorem substitute_csts {src dst : QP} {cs : List (Key × ℚ)} {vs : List (Key × Key × ℚ)} (hs : src.NoCsts)
    (h : src.substitute cs vs = .ok dst) : dst.NoCsts := by
  unfold QP.substitute at h
  cases h1 : subsDict src cs vs with
  | error e => rw [h1] at h; simp at h
  | ok subs =>
    rw [h1] at h
    simp only [hs.1, hs.2, substLins, substQuads] at h
    cases h2 : substVars src subs (QP.empty src.name) with
    | error e => rw [h2] at h; simp at h
    | ok r =>
      obtain ⟨d1, f1⟩ := r
      rw [h2] at h
      simp only at h
      have hd1 : d1.NoCsts := by
        unfold substVars at h2
        cases h3 : copyVars subs src.vars (QP.empty src.name) with
        | error e => rw [h3] at h2; simp at h2
        | ok d0 =>
          rw [h3] at h2
          simp only at h2
          cases h4 : adjustBounds src subs d0 true with
          | error e => rw [h4] at h2; simp at h2
          | ok r =>
            obtain ⟨d, f⟩ := r
            rw [h4] at h2
            simp only [Except.ok.injEq, Prod.mk.injEq] at h2
            exact h2.1 ▸ adjustBounds_csts (copyVars_csts ⟨rfl, rfl⟩ h3) h4
      cases h5 : substObjective src subs d1 with
      | error e => rw [h5] at h; simp at h
      | ok d2 =>
        rw [h5] at h
        simp only [Except.ok.injEq] at h
        obtain ⟨c1, l1, c2, l2, q, le, qe, -, -, -, -, rfl⟩ := substObjective_ok h5
        exact h ▸ hd1

theorem reduceStep_csts {samples : List Sample} {p p' q : QP} {a b : String} {s : Int} (hp : p.NoCsts)
    (h : reduceStep samples p = .ok (p', q, a, b, s)) : q.NoCsts := by
  unfold reduceStep at h
  cases h1 : correlationSize samples with
  | error e => simp [h1] at h
  | ok n =>
    cases h2 : strongest samples n with
    | error e => simp [h1, h2] at h
    | ok ij =>
      obtain ⟨i, j⟩ := ij
      cases hi : p.vars[i]? with
      | none => simp [h1, h2, hi] at h
      | some vi =>
        cases hj : p.vars[j]? with
        | none => simp [h1, h2, hi, hj] at h
        | some vj =>
          simp only [h1, h2, hi, hj] at h
          by_cases hcor : correlation samples i j > 0
          · rw [if_pos hcor] at h
            cases hsub : p.substitute [] [(.idx i, .idx j, 1)] with
            | error e => rw [hsub] at h; simp at h
            | ok d =>
              rw [hsub] at h
              simp only at h
              split at h
              · simp at h
              · simp only [Except.ok.injEq, Prod.mk.injEq] at h
                exact h.2.1 ▸ substitute_csts hp hsub
          · rw [if_neg hcor] at h
            cases hs : shiftProgram p i with
            | error e => rw [hs] at h; simp at h
            | ok p1 =>
              rw [hs] at h
              obtain ⟨c1, c2⟩ := shiftProgram_csts hs
              simp only at h
              cases hsub : p1.substitute [] [(.idx i, .idx j, -1)] with
              | error e => rw [hsub] at h; simp at h
              | ok d =>
                rw [hsub] at h
                simp only at h
                split at h
                · simp at h
                · simp only [Except.ok.injEq, Prod.mk.injEq] at h
                  exact h.2.1 ▸ substitute_csts ⟨c1.trans hp.1, c2.trans hp.2⟩ hsub

/-- The loop of the recursive optimizer commutes with renaming, for an optimizer whose samples do not depend on names. -/
theorem reduceLoop_rename (hρ : Renaming ρ σ) (hc : ρ CONST = CONST) (solver : Nat → QP → Except Err Result)
    (hsol : ∀ t q, q.NoCsts → (solver t (q.rename ρ σ)).map Result.samples = (solver t q).map Result.samples) (m fuel t : Nat) (p : QP)
    (hp : p.NoCsts) (reps : Replacements) :
    reduceLoop solver m fuel t (p.rename ρ σ) (renameReps ρ reps) =
      (reduceLoop solver m fuel t p reps).map (Except.map fun r => (r.1.rename ρ σ, renameReps ρ r.2)) := by
  induction fuel generalizing t p reps with
  | zero => rfl
  | succ fuel ih =>
    simp only [reduceLoop, numVars_rename]
    split
    · have hs := hsol t p hp
      cases h1 : solver t p with
      | error e =>
        rw [h1] at hs
        cases h2 : solver t (p.rename ρ σ) with
        | error e' =>
          rw [h2] at hs
          simp only [Except.map, Except.error.injEq] at hs
          rw [hs]; rfl
        | ok r => rw [h2] at hs; simp [Except.map] at hs
      | ok res =>
        rw [h1] at hs
        cases h2 : solver t (p.rename ρ σ) with
        | error e' => rw [h2] at hs; simp [Except.map] at hs
        | ok res' =>
          rw [h2] at hs
          simp only [Except.map, Except.ok.injEq] at hs
          simp only
          rw [hs, reduceStep_rename hρ hc _ _ hp.1 hp.2]
          cases h3 : reduceStep res.samples p with
          | error e => rfl
          | ok r =>
            obtain ⟨p', q, xi, xj, s⟩ := r
            simp only [Except.map, renameStep]
            rw [show renameReps ρ reps = reps.map _ from rfl, set_both hρ.inj reps xi (xj, s)]
            exact ih _ q (reduceStep_csts hp h3) _
    · rfl

theorem reduceLoop_csts {solver : Nat → QP → Except Err Result} {m fuel t : Nat} {p q : QP} {reps reps' : Replacements}
    (hp : p.NoCsts) (h : reduceLoop solver m fuel t p reps = some (.ok (q, reps'))) : q.NoCsts := by
  induction fuel generalizing t p reps with
  | zero => simp [reduceLoop] at h
  | succ fuel ih =>
    simp only [reduceLoop] at h
    split at h
    · cases h1 : solver t p with
      | error e => rw [h1] at h; simp at h
      | ok res =>
        rw [h1] at h
        simp only at h
        cases h2 : reduceStep res.samples p with
        | error e => rw [h2] at h; simp at h
        | ok r =>
          obtain ⟨p', q', xi, xj, s⟩ := r
          rw [h2] at h
          exact ih (reduceStep_csts hp h2) h
    · simp only [Option.some.injEq, Except.ok.injEq, Prod.mk.injEq] at h
      exact h.1 ▸ hp

theorem findValue_rename (hi : ∀ s t, ρ s = ρ t → s = t) (reps : Replacements) (fuel : Nat) (x : String) (vals : Assoc String ℚ) :
    findValue (renameReps ρ reps) fuel (ρ x) (mapKeys ρ vals) =
      (findValue reps fuel x vals).map fun r => (r.1, mapKeys ρ r.2) := by
  induction fuel generalizing x vals with
  | zero => rfl
  | succ fuel ih =>
    simp only [findValue]
    rw [get?_mapKeys hi]
    cases Assoc.get? vals x with
    | some v => rfl
    | none =>
      simp only
      rw [show renameReps ρ reps = reps.map _ from rfl, get?_both hi]
      cases Assoc.get? reps x with
      | none => rfl
      | some r =>
        obtain ⟨y, s⟩ := r
        simp only [Option.map_some]
        have := ih y vals
        rw [show renameReps ρ reps = reps.map _ from rfl] at this
        rw [this]
        cases findValue reps fuel y vals with
        | error e => rfl
        | ok r =>
          simp only [Except.map]
          rw [set_mapKeys hi]

theorem unrollLoop_rename (hi : ∀ s t, ρ s = ρ t → s = t) (reps : Replacements) (l : List Variable) (vals : Assoc String ℚ) :
    unrollLoop (renameReps ρ reps) (l.map (Variable.rename ρ)) (mapKeys ρ vals) = (unrollLoop reps l vals).map (mapKeys ρ) := by
  induction l generalizing vals with
  | nil => rfl
  | cons v l ih =>
    simp only [List.map_cons, unrollLoop, show (v.rename ρ).name = ρ v.name from rfl]
    rw [has_mapKeys hi, findValue_rename hi, show (renameReps ρ reps).length = reps.length from List.length_map _]
    split
    · exact ih vals
    · cases findValue reps (reps.length + 1) v.name vals with
      | error e => rfl
      | ok r => exact ih r.2

theorem ofEntries_rename (hi : ∀ s t, ρ s = ρ t → s = t) (vars : List Variable) (x : List ℚ) :
    Assoc.ofEntries (((vars.map (Variable.rename ρ)).map Variable.name).zip x) =
      mapKeys ρ (Assoc.ofEntries ((vars.map Variable.name).zip x)) := by
  have h : ((vars.map (Variable.rename ρ)).map Variable.name).zip x = ((vars.map Variable.name).zip x).map fun p => (ρ p.1, p.2) := by
    rw [List.map_map, show Variable.name ∘ Variable.rename ρ = ρ ∘ Variable.name from rfl, ← List.map_map, List.zip_map_left]
    rfl
  rw [h]
  exact foldl_set_mapKeys hi ((vars.map Variable.name).zip x) (fun p => (ρ p.1, p.2)) Prod.fst Prod.fst Prod.snd Prod.snd
    (fun _ => rfl) (fun _ => rfl) []

theorem initValues_rename (hi : ∀ s t, ρ s = ρ t → s = t) (l : List Variable) (x : Option (List ℚ)) :
    initValues (l.map (Variable.rename ρ)) x = (initValues l x).map (mapKeys ρ) := by
  unfold initValues
  cases x with
  | none => cases l <;> rfl
  | some x =>
    simp only [List.length_map]
    rw [ofEntries_rename hi]
    split <;> rfl

theorem collectValues_rename (hi : ∀ s t, ρ s = ρ t → s = t) (vals : Assoc String ℚ) (l : List Variable) :
    collectValues (mapKeys ρ vals) (l.map (Variable.rename ρ)) = collectValues vals l := by
  induction l with
  | nil => rfl
  | cons v l ih =>
    simp only [List.map_cons, collectValues, show (v.rename ρ).name = ρ v.name from rfl]
    rw [get?_mapKeys hi, ih]

theorem unroll_rename (hi : ∀ s t, ρ s = ρ t → s = t) (reps : Replacements) (final ref : QP) (x : Option (List ℚ)) :
    unroll (renameReps ρ reps) (final.rename ρ σ) (ref.rename ρ σ) x = unroll reps final ref x := by
  unfold unroll
  rw [show (final.rename ρ σ).vars = final.vars.map (Variable.rename ρ) from rfl,
    show (ref.rename ρ σ).vars = ref.vars.map (Variable.rename ρ) from rfl, initValues_rename hi]
  cases initValues final.vars x with
  | error e => rfl
  | ok vals =>
    simp only [Except.map]
    rw [unrollLoop_rename hi]
    cases unrollLoop reps ref.vars vals with
    | error e => rfl
    | ok vals => exact collectValues_rename hi vals ref.vars

theorem toQubo_csts {v : Option ℚ} {p : QP} {st : QuboState} (h : p.toQubo v = .ok st) : st.dst.NoCsts := by
  unfold QP.toQubo at h
  split at h
  · simp at h
  · cases h1 : p.ineqToEq .integer with
    | error e => rw [h1] at h; simp at h
    | ok eqs =>
      rw [h1] at h
      simp only at h
      cases h2 : eqs.intToBin with
      | error e => rw [h2] at h; simp at h
      | ok c =>
        rw [h2] at h
        simp only at h
        cases h3 : c.dst.toPenalty v with
        | error e => rw [h3] at h; simp at h
        | ok r =>
          obtain ⟨d, pen⟩ := r
          rw [h3] at h
          simp only [Except.ok.injEq] at h
          subst h
          unfold QP.toPenalty at h3
          simp only at h3
          split at h3
          · simp at h3
          · rename_i d0 h0
            have hg := copyAllVars_grows h0
            split at h3
            · simp at h3
            · split at h3
              · simp at h3
              · rename_i d' hset
                simp only [Except.ok.injEq, Prod.mk.injEq] at h3
                obtain ⟨rfl, -⟩ := h3
                unfold QP.setObjective at hset
                split at hset
                · simp at hset
                · split at hset
                  · simp at hset
                  · simp only [Prod.mk.injEq] at hset
                    rw [← hset.2]
                    exact ⟨hg.lins.trans rfl, hg.quads.trans rfl⟩

/-- What the recursive optimizer returns, with other names; the result for the reduced program is given. -/
def RecResult.SameAs (ρ σ : String → String) (r r' : RecResult) : Prop :=
  r'.result = r.result.rename ρ ∧ r'.point = r.point ∧ r'.replacements = renameReps ρ r.replacements ∧
    r'.reduced = r.reduced.rename ρ σ ∧ r'.reducedResult.x = r.reducedResult.x ∧ r'.callers = r.callers.rename ρ σ

/-- The recursive optimizer commutes with renaming. -/
theorem recursiveSolve_rename (hρ : Renaming ρ σ) (hc : ρ CONST = CONST) (solver : Nat → QP → Except Err Result)
    (hsol : ∀ t q, q.NoCsts → (solver t (q.rename ρ σ)).map Result.samples = (solver t q).map Result.samples)
    (last : QP → Except Err Result) (hlast : ∀ q, q.NoCsts → (last (q.rename ρ σ)).map Result.x = (last q).map Result.x) (m : Nat)
    (v : Option ℚ) (p : QP) (hp : p.Named) (fuel : Nat) :
    (recursiveSolve solver last m [quboConverter v] p fuel = none →
      recursiveSolve solver last m [quboConverter v] (p.rename ρ σ) fuel = none) ∧
    (∀ e, recursiveSolve solver last m [quboConverter v] p fuel = some (.error e) →
      recursiveSolve solver last m [quboConverter v] (p.rename ρ σ) fuel = some (.error e)) ∧
    ∀ r, recursiveSolve solver last m [quboConverter v] p fuel = some (.ok r) →
      ∃ r', recursiveSolve solver last m [quboConverter v] (p.rename ρ σ) fuel = some (.ok r') ∧ r.SameAs ρ σ r' := by
  have hcall : ∀ q, callersProgram solver m [quboConverter v] q = q := fun q => if_neg (by simp)
  unfold recursiveSolve
  simp only [hcall]
  rw [quboMsg_rename]
  by_cases hm : (quboMsg p).length > 0
  · rw [if_pos hm, if_pos hm]
    simp
  · rw [if_neg hm, if_neg hm]
    simp only [convertAll, quboConverter]
    rw [toQubo_rename hρ _ _ hp]
    cases hq : p.toQubo v with
    | error e => simp [Except.map]
    | ok st =>
      simp only [Except.map]
      have hl := reduceLoop_rename hρ hc solver hsol m fuel 0 st.dst (toQubo_csts hq) []
      rw [show renameReps ρ [] = [] from rfl] at hl
      rw [interpret_rename hρ, show (st.rename ρ σ).dst = st.dst.rename ρ σ from rfl, hl]
      cases hr : reduceLoop solver m fuel 0 st.dst [] with
      | none => simp
      | some o =>
        cases o with
        | error e => simp [Except.map]
        | ok fr =>
          obtain ⟨final, reps⟩ := fr
          simp only [Option.map_some, Except.map]
          have hx := hlast final (reduceLoop_csts (toQubo_csts hq) hr)
          cases h1 : last final with
          | error e =>
            rw [h1] at hx
            cases h2 : last (final.rename ρ σ) with
            | error e' =>
              rw [h2] at hx
              simp only [Except.map, Except.error.injEq] at hx
              simp [hx]
            | ok r => rw [h2] at hx; simp [Except.map] at hx
          | ok res =>
            rw [h1] at hx
            cases h2 : last (final.rename ρ σ) with
            | error e' => rw [h2] at hx; simp [Except.map] at hx
            | ok res' =>
              rw [h2] at hx
              simp only [Except.map, Except.ok.injEq] at hx
              simp only
              rw [hx, unroll_rename hρ.inj]
              cases unroll reps final st.dst res.x with
              | error e => simp
              | ok x =>
                simp only
                rw [interpretResult_rename hρ]
                cases interpretResult p [st.interpret] [] [] x with
                | error e => simp [Except.map]
                | ok r =>
                  simp only [Except.map]
                  refine ⟨by simp, by simp, fun r' hr' => ⟨_, rfl, ?_⟩⟩
                  simp only [Option.some.injEq, Except.ok.injEq] at hr'
                  subst hr'
                  exact ⟨rfl, rfl, rfl, rfl, hx, rfl⟩

end Verif
