import Verif.ProgramLemmas

/-!
# Lemmas on assignments to parts of a program
-/

namespace Verif

theorem map_set_same {α β : Type} {f : α → β} {l : List α} {i : Nat} {x y : α} (h : l[i]? = some x)
    (hf : f y = f x) : (l.set i y).map f = l.map f := by
  rw [List.map_set, hf]
  have hi : i < l.length := (List.getElem?_eq_some_iff.mp h).1
  have hx : l[i] = x := (List.getElem?_eq_some_iff.mp h).2
  apply List.ext_getElem
  · simp
  · intro j h1 h2
    rw [List.getElem_set]
    split
    · rename_i hij; subst hij; simp [hx]
    · rfl

/-- The ways in which an assignment to a linear constraint succeeds. -/
theorem LinCst.edit_cases {p : QP} {c c' : LinCst} {e : LinEdit} (h : c.edit p e = .ok c') :
    (∃ s, e = .sense s ∧ c' = { c with sense := s }) ∨ (∃ r, e = .rhs r ∧ c' = { c with rhs := r }) ∨
    (∃ l f, e = .linear l ∧ LinExpr.ofInput p.varsIndex p.numVars l = .ok f ∧ c' = { c with linear := f }) ∨
    ∃ k v f, e = .linCoeff k v ∧ c.linear.setItem p.varsIndex k v = .ok f ∧ c' = { c with linear := f } := by
  cases e with
  | sense s => simp only [LinCst.edit, Except.ok.injEq] at h; exact Or.inl ⟨s, rfl, h.symm⟩
  | rhs r => simp only [LinCst.edit, Except.ok.injEq] at h; exact Or.inr (Or.inl ⟨r, rfl, h.symm⟩)
  | linear l =>
    simp only [LinCst.edit] at h
    split at h
    · simp at h
    · rename_i f hf
      simp only [Except.ok.injEq] at h
      exact Or.inr (Or.inr (Or.inl ⟨l, f, rfl, hf, h.symm⟩))
  | linCoeff k v =>
    simp only [LinCst.edit] at h
    split at h
    · simp at h
    · rename_i f hf
      simp only [Except.ok.injEq] at h
      exact Or.inr (Or.inr (Or.inr ⟨k, v, f, rfl, hf, h.symm⟩))

/-- The ways in which an assignment to a quadratic constraint succeeds. -/
theorem QuadCst.edit_cases {p : QP} {c c' : QuadCst} {e : QuadEdit} (h : c.edit p e = .ok c') :
    (∃ s, e = .sense s ∧ c' = { c with sense := s }) ∨ (∃ r, e = .rhs r ∧ c' = { c with rhs := r }) ∨
    (∃ l f, e = .linear l ∧ LinExpr.ofInput p.varsIndex p.numVars l = .ok f ∧ c' = { c with linear := f }) ∨
    (∃ l f, e = .quadratic l ∧ QuadExpr.ofInput p.varsIndex p.numVars l = .ok f ∧ c' = { c with quadratic := f }) ∨
    (∃ k v f, e = .linCoeff k v ∧ c.linear.setItem p.varsIndex k v = .ok f ∧ c' = { c with linear := f }) ∨
    ∃ k k' v f, e = .quadCoeff k k' v ∧ c.quadratic.setItem p.varsIndex k k' v = .ok f ∧ c' = { c with quadratic := f } := by
  cases e with
  | sense s => simp only [QuadCst.edit, Except.ok.injEq] at h; exact Or.inl ⟨s, rfl, h.symm⟩
  | rhs r => simp only [QuadCst.edit, Except.ok.injEq] at h; exact Or.inr (Or.inl ⟨r, rfl, h.symm⟩)
  | linear l =>
    simp only [QuadCst.edit] at h
    split at h
    · simp at h
    · rename_i f hf
      simp only [Except.ok.injEq] at h
      exact Or.inr (Or.inr (Or.inl ⟨l, f, rfl, hf, h.symm⟩))
  | quadratic l =>
    simp only [QuadCst.edit] at h
    split at h
    · simp at h
    · rename_i f hf
      simp only [Except.ok.injEq] at h
      exact Or.inr (Or.inr (Or.inr (Or.inl ⟨l, f, rfl, hf, h.symm⟩)))
  | linCoeff k v =>
    simp only [QuadCst.edit] at h
    split at h
    · simp at h
    · rename_i f hf
      simp only [Except.ok.injEq] at h
      exact Or.inr (Or.inr (Or.inr (Or.inr (Or.inl ⟨k, v, f, rfl, hf, h.symm⟩))))
  | quadCoeff k k' v =>
    simp only [QuadCst.edit] at h
    split at h
    · simp at h
    · rename_i f hf
      simp only [Except.ok.injEq] at h
      exact Or.inr (Or.inr (Or.inr (Or.inr (Or.inr ⟨k, k', v, f, rfl, hf, h.symm⟩))))

/-- The ways in which an assignment to the objective succeeds. -/
theorem Objective.edit_cases {p : QP} {c c' : Objective} {e : ObjEdit} (h : c.edit p e = .ok c') :
    (∃ r, e = .constant r ∧ c' = { c with constant := r }) ∨ (∃ s, e = .sense s ∧ c' = { c with sense := s }) ∨
    (∃ l f, e = .linear l ∧ LinExpr.ofInput p.varsIndex p.numVars l = .ok f ∧ c' = { c with linear := f }) ∨
    (∃ l f, e = .quadratic l ∧ QuadExpr.ofInput p.varsIndex p.numVars l = .ok f ∧ c' = { c with quadratic := f }) ∨
    (∃ k v f, e = .linCoeff k v ∧ c.linear.setItem p.varsIndex k v = .ok f ∧ c' = { c with linear := f }) ∨
    ∃ k k' v f, e = .quadCoeff k k' v ∧ c.quadratic.setItem p.varsIndex k k' v = .ok f ∧ c' = { c with quadratic := f } := by
  cases e with
  | constant s => simp only [Objective.edit, Except.ok.injEq] at h; exact Or.inl ⟨s, rfl, h.symm⟩
  | sense r => simp only [Objective.edit, Except.ok.injEq] at h; exact Or.inr (Or.inl ⟨r, rfl, h.symm⟩)
  | linear l =>
    simp only [Objective.edit] at h
    split at h
    · simp at h
    · rename_i f hf
      simp only [Except.ok.injEq] at h
      exact Or.inr (Or.inr (Or.inl ⟨l, f, rfl, hf, h.symm⟩))
  | quadratic l =>
    simp only [Objective.edit] at h
    split at h
    · simp at h
    · rename_i f hf
      simp only [Except.ok.injEq] at h
      exact Or.inr (Or.inr (Or.inr (Or.inl ⟨l, f, rfl, hf, h.symm⟩)))
  | linCoeff k v =>
    simp only [Objective.edit] at h
    split at h
    · simp at h
    · rename_i f hf
      simp only [Except.ok.injEq] at h
      exact Or.inr (Or.inr (Or.inr (Or.inr (Or.inl ⟨k, v, f, rfl, hf, h.symm⟩))))
  | quadCoeff k k' v =>
    simp only [Objective.edit] at h
    split at h
    · simp at h
    · rename_i f hf
      simp only [Except.ok.injEq] at h
      exact Or.inr (Or.inr (Or.inr (Or.inr (Or.inr ⟨k, k', v, f, rfl, hf, h.symm⟩))))

/-- The ways in which an assignment to a program succeeds. -/
theorem QP.edit_cases {p p' : QP} {e : Edit} (h : p.edit e = .ok p') :
    (∃ s, e = .name s ∧ p' = { p with name := s }) ∨
    (∃ i t x, e = .vartype i t ∧ p.vars[i]? = some x ∧ p' = { p with vars := p.vars.set i { x with vartype := t } }) ∨
    (∃ i d c c', e = .lin i d ∧ p.lins[i]? = some c ∧ c.edit p d = .ok c' ∧ p' = { p with lins := p.lins.set i c' }) ∨
    (∃ i d c c', e = .quad i d ∧ p.quads[i]? = some c ∧ c.edit p d = .ok c' ∧ p' = { p with quads := p.quads.set i c' }) ∨
    ∃ d o, e = .obj d ∧ p.objective.edit p d = .ok o ∧ p' = { p with objective := o } := by
  cases e with
  | name s => simp only [QP.edit, Except.ok.injEq] at h; exact Or.inl ⟨s, rfl, h.symm⟩
  | vartype i t =>
    simp only [QP.edit] at h
    split at h
    · simp at h
    · rename_i x hx
      simp only [Except.ok.injEq] at h
      exact Or.inr (Or.inl ⟨i, t, x, rfl, hx, h.symm⟩)
  | lin i d =>
    simp only [QP.edit] at h
    split at h
    · simp at h
    · rename_i c hc
      split at h
      · simp at h
      · rename_i c' hc'
        simp only [Except.ok.injEq] at h
        exact Or.inr (Or.inr (Or.inl ⟨i, d, c, c', rfl, hc, hc', h.symm⟩))
  | quad i d =>
    simp only [QP.edit] at h
    split at h
    · simp at h
    · rename_i c hc
      split at h
      · simp at h
      · rename_i c' hc'
        simp only [Except.ok.injEq] at h
        exact Or.inr (Or.inr (Or.inr (Or.inl ⟨i, d, c, c', rfl, hc, hc', h.symm⟩)))
  | obj d =>
    simp only [QP.edit] at h
    split at h
    · simp at h
    · rename_i o ho
      simp only [Except.ok.injEq] at h
      exact Or.inr (Or.inr (Or.inr (Or.inr ⟨d, o, rfl, ho, h.symm⟩)))

theorem LinCst.edit_name {p : QP} {c c' : LinCst} {e : LinEdit} (h : c.edit p e = .ok c') : c'.name = c.name := by
  rcases LinCst.edit_cases h with ⟨_, _, rfl⟩ | ⟨_, _, rfl⟩ | ⟨_, _, _, _, rfl⟩ | ⟨_, _, _, _, _, rfl⟩ <;> rfl

theorem QuadCst.edit_name {p : QP} {c c' : QuadCst} {e : QuadEdit} (h : c.edit p e = .ok c') : c'.name = c.name := by
  rcases QuadCst.edit_cases h with ⟨_, _, rfl⟩ | ⟨_, _, rfl⟩ | ⟨_, _, _, _, rfl⟩ | ⟨_, _, _, _, rfl⟩ |
    ⟨_, _, _, _, _, rfl⟩ | ⟨_, _, _, _, _, _, rfl⟩ <;> rfl

theorem QP.edit_consistent {p p' : QP} {e : Edit} (h : p.edit e = .ok p') (hc : p.Consistent) : p'.Consistent := by
  rcases QP.edit_cases h with ⟨s, _, rfl⟩ | ⟨i, t, x, _, hx, rfl⟩ | ⟨i, d, c, c', _, hx, hd, rfl⟩ |
    ⟨i, d, c, c', _, hx, hd, rfl⟩ | ⟨d, o, _, _, rfl⟩
  · exact ⟨hc.vars, hc.lins, hc.quads⟩
  · refine ⟨?_, hc.lins, hc.quads⟩
    simp only
    rw [map_set_same (f := Variable.name) (y := { x with vartype := t }) hx rfl]; exact hc.vars
  · refine ⟨hc.vars, ?_, hc.quads⟩
    simp only
    rw [map_set_same (f := LinCst.name) hx (LinCst.edit_name hd)]; exact hc.lins
  · refine ⟨hc.vars, hc.lins, ?_⟩
    simp only
    rw [map_set_same (f := QuadCst.name) hx (QuadCst.edit_name hd)]; exact hc.quads
  · exact ⟨hc.vars, hc.lins, hc.quads⟩

theorem apply_edit_ok {p p' : QP} {e : Edit} (h : (Call.edit e).apply p = (.ok (), p')) : p.edit e = .ok p' := by
  simp only [Call.apply] at h
  split at h
  · simp at h
  · rename_i q hq
    simp at h; rw [hq, h]

theorem apply_edit_error {p p' : QP} {e : Edit} {er : Err} (h : (Call.edit e).apply p = (.error er, p')) : p' = p := by
  simp only [Call.apply] at h
  split at h
  · simp at h; exact h.2.symm
  · simp at h

theorem LinExpr.setItem_n {l l' : LinExpr} {vi : Assoc String Nat} {k : Key} {v : ℚ} (h : l.setItem vi k v = .ok l') :
    l'.n = l.n := by
  unfold LinExpr.setItem at h
  split at h
  · simp at h
  · simp only [Except.ok.injEq] at h; rw [← h]

theorem QuadExpr.setItem_n {q q' : QuadExpr} {vi : Assoc String Nat} {k k' : Key} {v : ℚ}
    (h : q.setItem vi k k' v = .ok q') : q'.n = q.n := by
  unfold QuadExpr.setItem at h
  split at h
  · simp at h
  · split at h
    · simp at h
    · simp only [Except.ok.injEq] at h; rw [← h]

end Verif
