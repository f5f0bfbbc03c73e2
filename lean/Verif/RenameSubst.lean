import Verif.RenameRecursive
import Verif.SubstSuccess

/-!
# Substitution under renaming, with quadratic constraints

Quadratic constraints that become linear get new names when the old ones are taken, and which ones are taken depends on the names.
The result is therefore the renamed one up to the names of linear constraints.
-/

namespace Verif

variable {ρ σ : String → String}

/-- The same table of linear constraints. -/
def SameLins (p p' : QP) : Prop := p'.lins = p.lins ∧ p'.linsIndex = p.linsIndex

theorem SameLins.trans {p q r : QP} (h : SameLins p q) (h' : SameLins q r) : SameLins p r := ⟨h'.1.trans h.1, h'.2.trans h.2⟩

theorem copyVars_lins {subs : Subs} {l : List Variable} {dst dst' : QP} (h : copyVars subs l dst = .ok dst') : SameLins dst dst' := by
  induction l generalizing dst with
  | nil =>
    simp only [copyVars, Except.ok.injEq] at h
    exact h ▸ ⟨rfl, rfl⟩
  | cons v l ih =>
    simp only [copyVars] at h
    split at h
    · exact ih h
    · cases ha : dst.addVariable v.lb v.ub v.vartype (some v.name) with
      | mk a p' =>
        rw [ha] at h
        cases a with
        | error e => simp at h
        | ok w =>
          refine SameLins.trans ?_ (ih h)
          rw [addVariable_some] at ha
          split at ha
          · simp at ha
          · split at ha
            · simp at ha
            · simp only [Prod.mk.injEq, Except.ok.injEq] at ha
              obtain ⟨-, rfl⟩ := ha
              exact ⟨rfl, rfl⟩

theorem setLowerbound_lins (p : QP) (i : Nat) (v : ℚ) : SameLins p (p.setLowerbound i v).2 := by
  unfold QP.setLowerbound
  cases p.vars[i]? with
  | none => exact ⟨rfl, rfl⟩
  | some x =>
    simp only
    cases x.setLb v <;> exact ⟨rfl, rfl⟩

theorem setUpperbound_lins (p : QP) (i : Nat) (v : ℚ) : SameLins p (p.setUpperbound i v).2 := by
  unfold QP.setUpperbound
  cases p.vars[i]? with
  | none => exact ⟨rfl, rfl⟩
  | some x =>
    simp only
    cases x.setUb v <;> exact ⟨rfl, rfl⟩

theorem adjustBounds_lins {src : QP} {subs : Subs} {dst dst' : QP} {f f' : Bool}
    (h : adjustBounds src subs dst f = .ok (dst', f')) : SameLins dst dst' := by
  induction subs generalizing dst f with
  | nil =>
    simp only [adjustBounds, Except.ok.injEq, Prod.mk.injEq] at h
    exact h.1 ▸ ⟨rfl, rfl⟩
  | cons e l ih =>
    obtain ⟨i, j, v⟩ := e
    simp only [adjustBounds] at h
    cases h1 : src.getVariable (.name i) with
    | error e => rw [h1] at h; simp at h
    | ok vi =>
      rw [h1] at h
      simp only at h
      by_cases hj : j = CONST
      · rw [if_pos hj] at h
        exact ih h
      · rw [if_neg hj] at h
        by_cases hv : v = 0
        · rw [if_pos hv] at h; simp at h
        · rw [if_neg hv] at h
          cases h2 : Assoc.get? dst.varsIndex j with
          | none => rw [h2] at h; simp at h
          | some k =>
            rw [h2] at h
            simp only at h
            cases h3 : dst.vars[k]? with
            | none => rw [h3] at h; simp at h
            | some vj =>
              rw [h3] at h
              simp only at h
              generalize (if v > 0 then max vj.lb (scaleBound vi.lb v) else max vj.lb (scaleBound vi.ub v)) = lo at h
              generalize (if v > 0 then min vj.ub (scaleBound vi.ub v) else min vj.ub (scaleBound vi.lb v)) = hi at h
              have c1 := setLowerbound_lins dst k lo
              cases ha : dst.setLowerbound k lo with
              | mk a p' =>
                rw [ha] at h c1
                cases a with
                | error e => simp at h
                | ok u =>
                  simp only at h c1
                  have c2 := setUpperbound_lins p' k hi
                  cases hb : p'.setUpperbound k hi with
                  | mk b p'' =>
                    rw [hb] at h c2
                    cases b with
                    | error e => simp at h
                    | ok u => exact (c1.trans c2).trans (ih h)

theorem substVars_lins {src : QP} {subs : Subs} {dst dst' : QP} {f : Bool} (h : substVars src subs dst = .ok (dst', f)) :
    SameLins dst dst' := by
  unfold substVars at h
  cases h3 : copyVars subs src.vars dst with
  | error e => rw [h3] at h; simp at h
  | ok d0 =>
    rw [h3] at h
    simp only at h
    cases h4 : adjustBounds src subs d0 true with
    | error e => rw [h4] at h; simp at h
    | ok r =>
      obtain ⟨d, f⟩ := r
      rw [h4] at h
      simp only [Except.ok.injEq, Prod.mk.injEq] at h
      exact h.1 ▸ (copyVars_lins h3).trans (adjustBounds_lins h4)

/-- The table of linear constraints agrees with their list. -/
def QP.LinsOK (p : QP) : Prop := IndexOK (p.lins.map LinCst.name) p.linsIndex

theorem substLins_linsOK {src : QP} {subs : Subs} {ks : List LinCst} {dst dst' : QP} {f f' : Bool} (hd : dst.LinsOK)
    (h : substLins src subs ks dst f = .ok (dst', f')) : dst'.LinsOK := by
  induction ks generalizing dst f with
  | nil =>
    simp only [substLins, Except.ok.injEq, Prod.mk.injEq] at h
    exact h.1 ▸ hd
  | cons k ks ih =>
    simp only [substLins] at h
    split at h
    · simp at h
    · split at h
      · split at h
        · simp at h
        · rename_i hl
          obtain ⟨nm, le, s, h1, -, -, h4, h5⟩ := linearConstraint_ok hl
          refine ih ?_ h
          unfold QP.LinsOK
          rw [h5, h4]
          have := IndexOK.set hd (s := nm) (by rw [← hd.keys]; exact chooseName_fresh h1)
          simpa using this
      · exact ih hd h

/-- What a linear constraint says. -/
def LinCst.content (c : LinCst) : LinExpr × Sense × ℚ := (c.linear, c.sense, c.rhs)

/-- The renamed program, with other linear constraints. -/
def QP.renameWith (ρ σ : String → String) (a : List LinCst) (b : Assoc String Nat) (p : QP) : QP :=
  { p.rename ρ σ with lins := a, linsIndex := b }

theorem quadraticConstraint_renameWith (hρ : Renaming ρ σ) (a : List LinCst) (b : Assoc String Nat) (p : QP) (l : LinExpr) (q : QuadExpr)
    (s : SenseInput) (r : ℚ) (n : String) (hn : n ≠ "") :
    (p.renameWith ρ σ a b).quadraticConstraint (.sparse l) (.sparse q) s r (some (σ n)) =
      ((p.quadraticConstraint (.sparse l) (.sparse q) s r (some n)).1.map (QuadCst.rename σ),
       (p.quadraticConstraint (.sparse l) (.sparse q) s r (some n)).2.renameWith ρ σ a b) := by
  unfold QP.quadraticConstraint
  rw [show (p.renameWith ρ σ a b).quadsIndex = mapKeys σ p.quadsIndex from rfl,
    show (p.renameWith ρ σ a b).quads.length = p.quads.length by simp [QP.renameWith, QP.rename], chooseName_rename hρ _ _ _ _ hn]
  cases chooseName p.quadsIndex p.quads.length "q" (some n) with
  | error e => rfl
  | ok nm =>
    simp only [Except.map]
    rw [set_mapKeys hρ.injCst]
    cases Sense.convert s with
    | error e => rfl
    | ok s => simp [QP.renameWith, QP.rename, QuadCst.rename, LinExpr.ofInput, QuadExpr.ofInput]

theorem substQuads_rename (hρ : Renaming ρ σ) (hc : ρ CONST = CONST) (src : QP) (subs : Subs) (ks : List QuadCst)
    (hk : ∀ k ∈ ks, k.name ≠ "") (dst : QP) (hd : dst.LinsOK) (a : List LinCst) (b : Assoc String Nat)
    (hb : IndexOK (a.map LinCst.name) b) (hab : a.map LinCst.content = dst.lins.map LinCst.content) (f : Bool) :
    (∀ e, substQuads src subs ks dst f = .error e →
      substQuads (src.rename ρ σ) (renameSubs ρ subs) (ks.map (QuadCst.rename σ)) (dst.renameWith ρ σ a b) f = .error e) ∧
    ∀ r, substQuads src subs ks dst f = .ok r → ∃ a' b',
      substQuads (src.rename ρ σ) (renameSubs ρ subs) (ks.map (QuadCst.rename σ)) (dst.renameWith ρ σ a b) f =
        .ok (r.1.renameWith ρ σ a' b', r.2) ∧ a'.map LinCst.content = r.1.lins.map LinCst.content := by
  induction ks generalizing dst f a b with
  | nil =>
    refine ⟨fun e h => by simp [substQuads] at h, fun r h => ⟨a, b, ?_, ?_⟩⟩
    · simp only [substQuads, Except.ok.injEq] at h
      subst h; rfl
    · simp only [substQuads, Except.ok.injEq] at h
      subst h; exact hab
  | cons c ks ih =>
    have ih := ih fun k h => hk k (List.mem_cons_of_mem _ h)
    have e1 : substLinear (src.rename ρ σ) (dst.renameWith ρ σ a b) (renameSubs ρ subs) c.linear = substLinear src dst subs c.linear :=
      substLinear_rename hρ hc src dst subs c.linear
    have e2 : substQuadratic (src.rename ρ σ) (dst.renameWith ρ σ a b) (renameSubs ρ subs) c.quadratic =
        substQuadratic src dst subs c.quadratic :=
      substQuadratic_rename hρ hc src dst subs c.quadratic
    have e3 : (dst.renameWith ρ σ a b).numVars = dst.numVars := numVars_rename (ρ := ρ) (σ := σ) dst
    simp only [List.map_cons, substQuads, show (c.rename σ).linear = c.linear from rfl, show (c.rename σ).quadratic = c.quadratic from rfl,
      show (c.rename σ).rhs = c.rhs from rfl, show (c.rename σ).sense = c.sense from rfl,
      show (c.rename σ).name = σ c.name from rfl, e1, e2, e3]
    cases substLinear src dst subs c.linear with
    | error e => exact ⟨fun _ h => h, fun r h => by simp at h⟩
    | ok r =>
      obtain ⟨c1, l1⟩ := r
      cases substQuadratic src dst subs c.quadratic with
      | error e => exact ⟨fun _ h => h, fun r h => by simp at h⟩
      | ok r =>
        obtain ⟨c2, l2, q⟩ := r
        simp only
        have hcn := hk c List.mem_cons_self
        by_cases hq : q.coeffs.length > 0
        · simp only [if_pos hq]
          rw [quadraticConstraint_renameWith hρ a b _ _ _ _ _ _ hcn]
          have hs : SameLins dst (dst.quadraticConstraint (.sparse ⟨dst.numVars, dokPlus l1.coeffs l2.coeffs⟩) (.sparse q) (.sense c.sense)
            (-(([-c.rhs] ++ c1 ++ c2).sum)) (some c.name)).2 := by
            unfold QP.quadraticConstraint
            split
            · exact ⟨rfl, rfl⟩
            · simp only [Sense.convert]
              exact ⟨rfl, rfl⟩
          generalize dst.quadraticConstraint (.sparse ⟨dst.numVars, dokPlus l1.coeffs l2.coeffs⟩) (.sparse q) (.sense c.sense)
            (-(([-c.rhs] ++ c1 ++ c2).sum)) (some c.name) = w at hs
          obtain ⟨w, p'⟩ := w
          cases w with
          | error e => exact ⟨fun _ h => h, fun r h => by simp at h⟩
          | ok u =>
            refine ih p' ?_ a b hb ?_ f
            · unfold QP.LinsOK; rw [hs.1, hs.2]; exact hd
            · rw [hs.1]; exact hab
        · simp only [if_neg hq]
          by_cases hl : (dokPlus l1.coeffs l2.coeffs).length > 0
          · simp only [if_pos hl]
            have hsn : σ c.name ≠ "" := fun h => hcn (hρ.injCst _ _ (h.trans hρ.empty.symm))
            rw [linearConstraint_success (underscoreName_ne _ _ hcn) (by
                rw [hd.keys]; exact underscoreName_fresh _ _) rfl,
              linearConstraint_success (p := dst.renameWith ρ σ a b) (underscoreName_ne _ _ hsn) (by
                show _ ∉ Assoc.keys b
                rw [hb.keys]; exact underscoreName_fresh _ _) rfl]
            simp only
            refine ih _ ?_ _ _ ?_ ?_ f
            · have := IndexOK.set hd (underscoreName_fresh (dst.lins.map LinCst.name) c.name)
              unfold QP.LinsOK
              simpa using this
            · have := IndexOK.set hb (underscoreName_fresh (a.map LinCst.name) (σ c.name))
              simpa [QP.renameWith] using this
            · simp only [QP.renameWith, List.map_append, hab]
              rfl
          · simp only [if_neg hl]
            exact ih dst hd a b hb hab _

/-- Substitution commutes with renaming up to the names of linear constraints. -/
theorem substitute_renameWith (hρ : Renaming ρ σ) (hc : ρ CONST = CONST) (src : QP) (hk : src.Named)
    (cs : List (Key × ℚ)) (vs : List (Key × Key × ℚ)) :
    (∀ e, src.substitute cs vs = .error e → (src.rename ρ σ).substitute (cs.map fun e => (e.1.rename ρ, e.2))
      (vs.map fun e => (e.1.rename ρ, e.2.1.rename ρ, e.2.2)) = .error e) ∧
    ∀ d, src.substitute cs vs = .ok d → ∃ a b, (src.rename ρ σ).substitute (cs.map fun e => (e.1.rename ρ, e.2))
      (vs.map fun e => (e.1.rename ρ, e.2.1.rename ρ, e.2.2)) = .ok (d.renameWith ρ σ a b) ∧
      a.map LinCst.content = d.lins.map LinCst.content := by
  unfold QP.substitute
  rw [subsDict_rename hρ hc]
  cases subsDict src cs vs with
  | error e => exact ⟨fun _ h => h, fun r h => by simp at h⟩
  | ok subs =>
    simp only [Except.map, show (src.rename ρ σ).name = src.name from rfl,
      show (src.rename ρ σ).lins = src.lins.map (LinCst.rename σ) from rfl,
      show (src.rename ρ σ).quads = src.quads.map (QuadCst.rename σ) from rfl]
    have h := substVars_rename hρ hc src subs (QP.empty src.name)
    rw [empty_rename] at h
    rw [h]
    cases h1 : substVars src subs (QP.empty src.name) with
    | error e => exact ⟨fun _ h => h, fun r h => by simp at h⟩
    | ok r =>
      obtain ⟨dst, f1⟩ := r
      simp only [Except.map]
      rw [substObjective_rename hρ hc]
      cases h2 : substObjective src subs dst with
      | error e => exact ⟨fun _ h => h, fun r h => by simp at h⟩
      | ok dst2 =>
        simp only [Except.map]
        rw [substLins_rename hρ hc _ _ _ hk.lins]
        cases h3 : substLins src subs src.lins dst2 true with
        | error e => exact ⟨fun _ h => h, fun r h => by simp at h⟩
        | ok r =>
          obtain ⟨d3, f3⟩ := r
          simp only [Except.map]
          have hl1 := substVars_lins h1
          obtain ⟨c1, l1, c2, l2, q, le, qe, -, -, -, -, hd2⟩ := substObjective_ok h2
          have hl2 : dst2.LinsOK := by
            rw [hd2]
            unfold QP.LinsOK
            show IndexOK (dst.lins.map LinCst.name) dst.linsIndex
            rw [hl1.1, hl1.2]
            exact (QP.empty_consistent src.name).lins
          have hl3 := substLins_linsOK hl2 h3
          have hl3' : IndexOK ((d3.lins.map (LinCst.rename σ)).map LinCst.name) (mapKeys σ d3.linsIndex) := by
            refine ⟨?_, ?_⟩
            · rw [hl3.1]
              unfold mapKeys
              rw [List.map_map, show (LinCst.name ∘ LinCst.rename σ) = σ ∘ LinCst.name from rfl, ← List.map_map,
                List.zipIdx_map (f := σ)]
              rfl
            · rw [List.map_map, show (LinCst.name ∘ LinCst.rename σ) = σ ∘ LinCst.name from rfl, ← List.map_map]
              exact hl3.2.map fun x y h => hρ.injCst x y h
          obtain ⟨g1, g2⟩ := substQuads_rename hρ hc src subs src.quads hk.quads d3 hl3 (d3.lins.map (LinCst.rename σ))
            (mapKeys σ d3.linsIndex) hl3' (by rw [List.map_map]; rfl) true
          have hw : d3.renameWith ρ σ (d3.lins.map (LinCst.rename σ)) (mapKeys σ d3.linsIndex) = d3.rename ρ σ := rfl
          rw [hw] at g1 g2
          cases h4 : substQuads src subs src.quads d3 true with
          | error e =>
            rw [g1 e h4]
            exact ⟨fun _ h => h, fun r h => by simp at h⟩
          | ok r =>
            obtain ⟨a, b, h5, h6⟩ := g2 r h4
            rw [h5]
            refine ⟨fun e h => by simp at h, fun d h => ⟨a, b, ?_, ?_⟩⟩
            · simp only [Except.ok.injEq] at h ⊢
              subst h
              rfl
            · simp only [Except.ok.injEq] at h
              subst h
              exact h6

end Verif
