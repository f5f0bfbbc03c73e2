import Verif.ExprLemmas
import Verif.ProgramLemmas
import Verif.Spec
import Verif.Inputs
import Mathlib.Data.List.Nodup

/-!
# Lemmas about building programs from dictionaries
-/

namespace Verif

/-- Adding a named variable, in closed form. -/
theorem addVariable_some (p : QP) (lb ub : ℚ) (t : VarType) (s : String) :
    p.addVariable lb ub t (some s) =
      if Assoc.has p.varsIndex s then (.error .optimization, p)
      else if lb > ub then
        (.error .optimization, { p with varsIndex := Assoc.set p.varsIndex s p.numVars })
      else (.ok ⟨s, lb, ub, t⟩,
        { p with varsIndex := Assoc.set p.varsIndex s p.numVars, vars := p.vars ++ [⟨s, lb, ub, t⟩] }) := by
  unfold QP.addVariable QP.addVariables
  have h1 : ¬ ((1 : Int) < 1) := by norm_num
  have h2 : (1 : Int).toNat = 1 := rfl
  simp only [Option.getD, h1, if_false, h2, QP.addVarsCount, findName_lit, String.append_empty]
  rw [if_neg (by simp)]
  by_cases h : Assoc.has p.varsIndex s
  · simp [h]
  · simp only [h]
    unfold QP.addOneVar Variable.mk?
    simp only [h]
    by_cases hb : lb > ub
    · simp [h, hb]
    · simp [h, hb]

theorem resolve_idx {vi : Assoc String Nat} {n i : Nat} (h : i < n) : resolve vi n (.idx i) = .ok i := by
  simp [resolve, h]

theorem linOfEntries_ok {vi : Assoc String Nat} {n : Nat} {l : List (Key × ℚ)} {acc : Dict Nat}
    (h : ∀ p ∈ l, ∃ i, resolve vi n p.1 = .ok i) : ∃ d, linOfEntries vi n l acc = .ok d := by
  induction l generalizing acc with
  | nil => exact ⟨acc, rfl⟩
  | cons p l ih =>
    obtain ⟨k, v⟩ := p
    obtain ⟨i, hi⟩ := h (k, v) (by simp)
    simp only [linOfEntries]
    rw [hi]
    exact ih fun q hq => h q (List.mem_cons_of_mem _ hq)

theorem quadOfEntries_ok {vi : Assoc String Nat} {n : Nat} {l : List ((Key × Key) × ℚ)}
    {acc : Dict (Nat × Nat)}
    (h : ∀ p ∈ l, (∃ i, resolve vi n p.1.1 = .ok i) ∧ ∃ i, resolve vi n p.1.2 = .ok i) :
    ∃ d, quadOfEntries vi n l acc = .ok d := by
  induction l generalizing acc with
  | nil => exact ⟨acc, rfl⟩
  | cons p l ih =>
    obtain ⟨⟨k, k'⟩, v⟩ := p
    obtain ⟨⟨i, hi⟩, ⟨j, hj⟩⟩ := h ((k, k'), v) (by simp)
    simp only [quadOfEntries]
    rw [hi, hj]
    exact ih fun q hq => h q (List.mem_cons_of_mem _ hq)

/-- A linear dictionary whose keys denote distinct positions. -/
theorem LinExpr.ofDict_sum {vi : Assoc String Nat} {n : Nat} {l : List (Key × ℚ)} {e : LinExpr}
    (h : LinExpr.ofInput vi n (.dict l) = .ok e) (hn : (l.map fun p => p.1.pos vi).Nodup) (f : Nat → ℚ) :
    Dict.sum e.coeffs f = (l.map fun p => p.2 * f (p.1.pos vi)).sum := by
  simp only [LinExpr.ofInput] at h
  split at h
  · simp at h
  · rename_i d hd
    simp at h; subst h
    have := linOfEntries_sum hd (by simp [Assoc.keys]) hn (by simp [Assoc.keys]) f
    simpa using this

/-- A quadratic dictionary whose keys denote distinct pairs of positions. -/
theorem QuadExpr.ofDict_sum {vi : Assoc String Nat} {n : Nat} {l : List ((Key × Key) × ℚ)} {e : QuadExpr}
    (h : QuadExpr.ofInput vi n (.dict l) = .ok e)
    (hn : (l.map fun p => (p.1.1.pos vi, p.1.2.pos vi)).Nodup) (f : Nat × Nat → ℚ)
    (hf : ∀ i j, f (i, j) = f (j, i)) :
    Dict.sum e.coeffs f = (l.map fun p => p.2 * f (p.1.1.pos vi, p.1.2.pos vi)).sum := by
  simp only [QuadExpr.ofInput] at h
  split at h
  · simp at h
  · rename_i d hd
    simp at h; subst h
    have := quadOfEntries_sum hd (by simp [Assoc.keys]) hn (by simp [Assoc.keys]) f
    simp only
    rw [sum_triangle d f hf, this]; simp

theorem LinExpr.ofDict_n {vi : Assoc String Nat} {n : Nat} {l : List (Key × ℚ)} {e : LinExpr}
    (h : LinExpr.ofInput vi n (.dict l) = .ok e) : e.n = n := by
  simp only [LinExpr.ofInput] at h
  split at h
  · simp at h
  · simp at h; subst h; rfl

theorem QuadExpr.ofDict_n {vi : Assoc String Nat} {n : Nat} {l : List ((Key × Key) × ℚ)} {e : QuadExpr}
    (h : QuadExpr.ofInput vi n (.dict l) = .ok e) : e.n = n := by
  simp only [QuadExpr.ofInput] at h
  split at h
  · simp at h
  · simp at h; subst h; rfl

theorem LinExpr.ofDict_ok {vi : Assoc String Nat} {n : Nat} {l : List (Key × ℚ)}
    (h : ∀ p ∈ l, ∃ i, resolve vi n p.1 = .ok i) : ∃ e, LinExpr.ofInput vi n (.dict l) = .ok e := by
  obtain ⟨d, hd⟩ := linOfEntries_ok (acc := []) h
  exact ⟨⟨n, d⟩, by simp [LinExpr.ofInput, hd]⟩

theorem QuadExpr.ofDict_ok {vi : Assoc String Nat} {n : Nat} {l : List ((Key × Key) × ℚ)}
    (h : ∀ p ∈ l, (∃ i, resolve vi n p.1.1 = .ok i) ∧ ∃ i, resolve vi n p.1.2 = .ok i) :
    ∃ e, QuadExpr.ofInput vi n (.dict l) = .ok e := by
  obtain ⟨d, hd⟩ := quadOfEntries_ok (acc := []) h
  exact ⟨⟨n, triangle d⟩, by simp [QuadExpr.ofInput, hd]⟩

theorem linIdx_sum {vi : Assoc String Nat} {n : Nat} {d : Dict Nat} {e : LinExpr}
    (h : LinExpr.ofInput vi n (linIdx d) = .ok e) (hn : (Assoc.keys d).Nodup) (f : Nat → ℚ) :
    Dict.sum e.coeffs f = Dict.sum d f := by
  rw [LinExpr.ofDict_sum h _ f]
  · rw [List.map_map]; rfl
  · rw [List.map_map]; exact hn

theorem quadIdx_sum {vi : Assoc String Nat} {n : Nat} {d : Dict (Nat × Nat)} {e : QuadExpr}
    (h : QuadExpr.ofInput vi n (quadIdx d) = .ok e) (hn : (Assoc.keys d).Nodup) (f : Nat × Nat → ℚ)
    (hf : ∀ i j, f (i, j) = f (j, i)) : Dict.sum e.coeffs f = Dict.sum d f := by
  rw [QuadExpr.ofDict_sum h _ f hf]
  · rw [List.map_map]; rfl
  · rw [List.map_map]; exact hn

theorem linIdx_ok {vi : Assoc String Nat} {n : Nat} {d : Dict Nat} (h : ∀ k ∈ Assoc.keys d, k < n) :
    ∃ e, LinExpr.ofInput vi n (linIdx d) = .ok e := by
  apply LinExpr.ofDict_ok
  intro p hp
  obtain ⟨q, hq, rfl⟩ := List.mem_map.mp hp
  exact ⟨q.1, resolve_idx (h q.1 (List.mem_map_of_mem hq))⟩

theorem quadIdx_ok {vi : Assoc String Nat} {n : Nat} {d : Dict (Nat × Nat)}
    (h : ∀ k ∈ Assoc.keys d, k.1 < n ∧ k.2 < n) : ∃ e, QuadExpr.ofInput vi n (quadIdx d) = .ok e := by
  apply QuadExpr.ofDict_ok
  intro p hp
  obtain ⟨q, hq, rfl⟩ := List.mem_map.mp hp
  have := h q.1 (List.mem_map_of_mem hq)
  exact ⟨⟨q.1.1, resolve_idx this.1⟩, ⟨q.1.2, resolve_idx this.2⟩⟩

theorem linIdx_lt {vi : Assoc String Nat} {n : Nat} {d : Dict Nat} {e : LinExpr}
    (h : LinExpr.ofInput vi n (linIdx d) = .ok e) : ∀ k ∈ Assoc.keys d, k < n := by
  have key : ∀ (d : Dict Nat) (acc r : Dict Nat),
      linOfEntries vi n (d.map fun q => (.idx q.1, q.2)) acc = .ok r → ∀ k ∈ Assoc.keys d, k < n := by
    intro d
    induction d with
    | nil => intro acc r _ k hk; simp [Assoc.keys] at hk
    | cons p d ih =>
      intro acc r h k hk
      simp only [List.map_cons, linOfEntries] at h
      split at h
      · simp at h
      · rename_i i hi
        rcases List.mem_cons.mp hk with rfl | hk
        · simp only [resolve] at hi
          split at hi
          · assumption
          · simp at hi
        · exact ih _ _ h k hk
  simp only [LinExpr.ofInput, linIdx] at h
  split at h
  · simp at h
  · rename_i r hr; exact key d [] r hr

theorem setObjective_ok {p p' : QP} {s : ObjSense} {c : ℚ} {l : LinInput} {q : QuadInput}
    (h : p.setObjective s c l q = (.ok (), p')) :
    ∃ le qe, LinExpr.ofInput p.varsIndex p.numVars l = .ok le ∧
      QuadExpr.ofInput p.varsIndex p.numVars q = .ok qe ∧ p' = { p with objective := ⟨c, le, qe, s⟩ } := by
  unfold QP.setObjective at h
  split at h
  · simp at h
  · rename_i le hle
    split at h
    · simp at h
    · rename_i qe hqe
      simp at h
      exact ⟨le, qe, hle, hqe, h.symm⟩

/-! ## Dictionaries keyed by names -/

/-- Distinct names have distinct positions. -/
def IxInj (vi : Assoc String Nat) : Prop :=
  ∀ s t i, Assoc.get? vi s = some i → Assoc.get? vi t = some i → s = t

theorem IndexOK.inj {names : List String} {ix : Assoc String Nat} (h : IndexOK names ix) : IxInj ix := by
  intro s t i hs ht
  rw [h.get?] at hs ht
  rw [hs] at ht; simpa using ht

/-- Value of a point at a name. -/
def nameVal (vi : Assoc String Nat) (x : Nat → ℚ) (s : String) : ℚ := x ((Assoc.get? vi s).getD 0)

theorem linOfEntries_resolved {vi : Assoc String Nat} {n : Nat} {l : List (Key × ℚ)} {acc d : Dict Nat}
    (h : linOfEntries vi n l acc = .ok d) : ∀ p ∈ l, ∃ i, resolve vi n p.1 = .ok i := by
  induction l generalizing acc with
  | nil => simp
  | cons p l ih =>
    obtain ⟨k, v⟩ := p
    simp only [linOfEntries] at h
    split at h
    · simp at h
    · rename_i i hi
      intro p hp
      rcases List.mem_cons.mp hp with rfl | hp
      · exact ⟨i, hi⟩
      · exact ih h p hp

theorem quadOfEntries_resolved {vi : Assoc String Nat} {n : Nat} {l : List ((Key × Key) × ℚ)}
    {acc d : Dict (Nat × Nat)} (h : quadOfEntries vi n l acc = .ok d) :
    ∀ p ∈ l, (∃ i, resolve vi n p.1.1 = .ok i) ∧ ∃ i, resolve vi n p.1.2 = .ok i := by
  induction l generalizing acc with
  | nil => simp
  | cons p l ih =>
    obtain ⟨⟨k, k'⟩, v⟩ := p
    simp only [quadOfEntries] at h
    split at h
    · simp at h
    · rename_i i hi
      split at h
      · simp at h
      · rename_i j hj
        intro p hp
        rcases List.mem_cons.mp hp with rfl | hp
        · exact ⟨⟨i, hi⟩, ⟨j, hj⟩⟩
        · exact ih h p hp

theorem resolve_name {vi : Assoc String Nat} {n : Nat} {s : String} {i : Nat}
    (h : resolve vi n (.name s) = .ok i) : Assoc.get? vi s = some i ∧ i < n := by
  simp only [resolve] at h
  split at h
  · simp at h
  · rename_i j hj
    split at h
    · rename_i hlt; simp at h; subst h; exact ⟨hj, hlt⟩
    · simp at h

theorem resolve_name_ok {vi : Assoc String Nat} {n : Nat} {s : String} {i : Nat}
    (h : Assoc.get? vi s = some i) (hlt : i < n) : resolve vi n (.name s) = .ok i := by
  simp [resolve, h, hlt]

theorem linNames_sum {vi : Assoc String Nat} {n : Nat} {d : Dict String} {e : LinExpr}
    (h : LinExpr.ofInput vi n (linNames d) = .ok e) (hn : (Assoc.keys d).Nodup) (hi : IxInj vi)
    (f : Nat → ℚ) : Dict.sum e.coeffs f = Dict.sum d (nameVal vi f) := by
  rw [LinExpr.ofDict_sum h _ f]
  · rw [List.map_map]; rfl
  · have hr : ∀ s ∈ Assoc.keys d, ∃ i, Assoc.get? vi s = some i := by
      simp only [LinExpr.ofInput, linNames] at h
      split at h
      · simp at h
      · rename_i r hr
        intro s hs
        obtain ⟨q, hq, rfl⟩ := List.mem_map.mp hs
        obtain ⟨i, hi⟩ := linOfEntries_resolved hr (.name q.1, q.2) (List.mem_map.mpr ⟨q, hq, rfl⟩)
        exact ⟨i, (resolve_name hi).1⟩
    have he : ((d.map fun q => ((Key.name q.1 : Key), q.2)).map fun p => p.1.pos vi)
        = (Assoc.keys d).map fun s => (Assoc.get? vi s).getD 0 := by
      simp [Assoc.keys, Key.pos, Function.comp_def]
    rw [he]
    refine hn.map_on ?_
    intro a ha b hb hab
    obtain ⟨i, hia⟩ := hr a ha
    obtain ⟨j, hjb⟩ := hr b hb
    simp only [hia, hjb, Option.getD_some] at hab
    subst hab
    exact hi a b i hia hjb

theorem quadNames_sum {vi : Assoc String Nat} {n : Nat} {d : Dict (String × String)} {e : QuadExpr}
    (h : QuadExpr.ofInput vi n (quadNames d) = .ok e) (hn : (Assoc.keys d).Nodup) (hi : IxInj vi)
    (x : Nat → ℚ) :
    Dict.sum e.coeffs (fun k => x k.1 * x k.2) = Dict.sum d (fun k => nameVal vi x k.1 * nameVal vi x k.2) := by
  rw [QuadExpr.ofDict_sum h _ _ (fun i j => mul_comm _ _)]
  · rw [List.map_map]; rfl
  · have hr : ∀ s ∈ Assoc.keys d, (∃ i, Assoc.get? vi s.1 = some i) ∧ ∃ i, Assoc.get? vi s.2 = some i := by
      simp only [QuadExpr.ofInput, quadNames] at h
      split at h
      · simp at h
      · rename_i r hr
        intro s hs
        obtain ⟨q, hq, rfl⟩ := List.mem_map.mp hs
        obtain ⟨⟨i, hi⟩, ⟨j, hj⟩⟩ := quadOfEntries_resolved hr ((.name q.1.1, .name q.1.2), q.2)
          (List.mem_map.mpr ⟨q, hq, rfl⟩)
        exact ⟨⟨i, (resolve_name hi).1⟩, ⟨j, (resolve_name hj).1⟩⟩
    have he : ((d.map fun q => (((Key.name q.1.1 : Key), (Key.name q.1.2 : Key)), q.2)).map
          fun p => (p.1.1.pos vi, p.1.2.pos vi))
        = (Assoc.keys d).map fun s => ((Assoc.get? vi s.1).getD 0, (Assoc.get? vi s.2).getD 0) := by
      simp [Assoc.keys, Key.pos, Function.comp_def]
    rw [he]
    refine hn.map_on ?_
    intro a ha b hb hab
    obtain ⟨⟨i, hia⟩, ⟨i', hia'⟩⟩ := hr a ha
    obtain ⟨⟨j, hjb⟩, ⟨j', hjb'⟩⟩ := hr b hb
    simp only [hia, hjb, hia', hjb', Option.getD_some, Prod.mk.injEq] at hab
    obtain ⟨rfl, rfl⟩ := hab
    exact Prod.ext (hi _ _ _ hia hjb) (hi _ _ _ hia' hjb')

theorem linNames_ok {vi : Assoc String Nat} {n : Nat} {d : Dict String}
    (h : ∀ s ∈ Assoc.keys d, ∃ i, Assoc.get? vi s = some i ∧ i < n) :
    ∃ e, LinExpr.ofInput vi n (linNames d) = .ok e := by
  apply LinExpr.ofDict_ok
  intro p hp
  obtain ⟨q, hq, rfl⟩ := List.mem_map.mp hp
  obtain ⟨i, hi, hlt⟩ := h q.1 (List.mem_map_of_mem hq)
  exact ⟨i, resolve_name_ok hi hlt⟩

theorem quadNames_ok {vi : Assoc String Nat} {n : Nat} {d : Dict (String × String)}
    (h : ∀ s ∈ Assoc.keys d, (∃ i, Assoc.get? vi s.1 = some i ∧ i < n) ∧
      ∃ i, Assoc.get? vi s.2 = some i ∧ i < n) :
    ∃ e, QuadExpr.ofInput vi n (quadNames d) = .ok e := by
  apply QuadExpr.ofDict_ok
  intro p hp
  obtain ⟨q, hq, rfl⟩ := List.mem_map.mp hp
  obtain ⟨⟨i, hi, hlt⟩, ⟨j, hj, hlt'⟩⟩ := h q.1 (List.mem_map_of_mem hq)
  exact ⟨⟨i, resolve_name_ok hi hlt⟩, ⟨j, resolve_name_ok hj hlt'⟩⟩

/-! ## Constraints -/

theorem linearConstraint_ok {p p' : QP} {l : LinInput} {s : SenseInput} {r : ℚ} {nm : Option String}
    {c : LinCst} (h : p.linearConstraint l s r nm = (.ok c, p')) :
    ∃ nm' le s', chooseName p.linsIndex p.lins.length "c" nm = .ok nm' ∧ Sense.convert s = .ok s' ∧
      LinExpr.ofInput p.varsIndex p.numVars l = .ok le ∧ c = ⟨nm', le, s', r⟩ ∧
      p' = { p with linsIndex := Assoc.set p.linsIndex nm' p.lins.length, lins := p.lins ++ [c] } := by
  unfold QP.linearConstraint at h
  split at h
  · simp at h
  · rename_i nm' hnm
    simp only at h
    split at h
    · simp at h
    · rename_i s' hs
      split at h
      · simp at h
      · rename_i le hle
        simp only [Prod.mk.injEq, Except.ok.injEq] at h
        exact ⟨nm', le, s', hnm, hs, hle, h.1.symm, by rw [← h.1]; exact h.2.symm⟩

theorem quadraticConstraint_ok {p p' : QP} {l : LinInput} {q : QuadInput} {s : SenseInput} {r : ℚ}
    {nm : Option String} {c : QuadCst} (h : p.quadraticConstraint l q s r nm = (.ok c, p')) :
    ∃ nm' le qe s', chooseName p.quadsIndex p.quads.length "q" nm = .ok nm' ∧ Sense.convert s = .ok s' ∧
      LinExpr.ofInput p.varsIndex p.numVars l = .ok le ∧
      QuadExpr.ofInput p.varsIndex p.numVars q = .ok qe ∧ c = ⟨nm', le, qe, s', r⟩ ∧
      p' = { p with quadsIndex := Assoc.set p.quadsIndex nm' p.quads.length, quads := p.quads ++ [c] } := by
  unfold QP.quadraticConstraint at h
  split at h
  · simp at h
  · rename_i nm' hnm
    simp only at h
    split at h
    · simp at h
    · rename_i s' hs
      split at h
      · simp at h
      · rename_i le hle
        split at h
        · simp at h
        · rename_i qe hqe
          simp only [Prod.mk.injEq, Except.ok.injEq] at h
          exact ⟨nm', le, qe, s', hnm, hs, hle, hqe, h.1.symm, by rw [← h.1]; exact h.2.symm⟩

/-- A linear constraint holds at a point. -/
def LinCst.Holds (c : LinCst) (x : Nat → ℚ) : Prop := c.sense.rel (c.linear.val x) c.rhs

/-- A quadratic constraint holds at a point. -/
def QuadCst.Holds (c : QuadCst) (x : Nat → ℚ) : Prop :=
  c.sense.rel (c.linear.val x + c.quadratic.val x) c.rhs

theorem sat_iff {p : QP} {x : Nat → ℚ} :
    p.Sat x ↔ (∀ c ∈ p.lins, c.Holds x) ∧ ∀ c ∈ p.quads, c.Holds x := by
  simp only [QP.Sat, QP.allCsts, List.mem_append, List.mem_map]
  constructor
  · intro h
    exact ⟨fun c hc => h (.lin c) (Or.inl ⟨c, hc, rfl⟩), fun c hc => h (.quad c) (Or.inr ⟨c, hc, rfl⟩)⟩
  · rintro ⟨h1, h2⟩ c (⟨c, hc, rfl⟩ | ⟨c, hc, rfl⟩)
    · exact h1 c hc
    · exact h2 c hc

theorem Sense.rel_sub (s : Sense) (a b t : ℚ) : s.rel a (b - t) ↔ s.rel (a + t) b := by
  cases s <;> simp only [Sense.rel] <;> constructor <;> intro h <;> linarith

/-- The linear expression is well formed and its columns are variables of a program with `n` of them. -/
def LinExpr.Fits (n : Nat) (e : LinExpr) : Prop := e.WF ∧ e.n ≤ n

/-- The quadratic expression is well formed and its columns are variables of a program with `n` of them. -/
def QuadExpr.Fits (n : Nat) (e : QuadExpr) : Prop := e.WF ∧ e.n ≤ n

instance (e : LinExpr) : Decidable e.WF :=
  decidable_of_iff ((Assoc.keys e.coeffs).Nodup ∧ ∀ k ∈ Assoc.keys e.coeffs, k < e.n)
    ⟨fun h => ⟨h.1, h.2⟩, fun h => ⟨h.nodup, h.bound⟩⟩

instance (e : QuadExpr) : Decidable e.WF :=
  decidable_of_iff ((Assoc.keys e.coeffs).Nodup ∧ (∀ k ∈ Assoc.keys e.coeffs, k.1 < e.n ∧ k.2 < e.n) ∧
      ∀ k ∈ Assoc.keys e.coeffs, k.1 ≤ k.2)
    ⟨fun h => ⟨h.1, h.2.1, h.2.2⟩, fun h => ⟨h.nodup, h.bound, h.upper⟩⟩

instance (n : Nat) (e : LinExpr) : Decidable (e.Fits n) := by unfold LinExpr.Fits; infer_instance
instance (n : Nat) (e : QuadExpr) : Decidable (e.Fits n) := by unfold QuadExpr.Fits; infer_instance

/-- A program as the builder makes it: consistent name tables, well-formed expressions over its variables. -/
structure QP.WF (p : QP) : Prop where
  cons : p.Consistent
  objLin : p.objective.linear.Fits p.numVars
  objQuad : p.objective.quadratic.Fits p.numVars
  lins : ∀ c ∈ p.lins, c.linear.Fits p.numVars
  quads : ∀ c ∈ p.quads, c.linear.Fits p.numVars ∧ c.quadratic.Fits p.numVars

instance (p : QP) : Decidable p.Consistent :=
  decidable_of_iff
    ((p.varsIndex = (p.vars.map Variable.name).zipIdx ∧ (p.vars.map Variable.name).Nodup) ∧
      (p.linsIndex = (p.lins.map LinCst.name).zipIdx ∧ (p.lins.map LinCst.name).Nodup) ∧
      (p.quadsIndex = (p.quads.map QuadCst.name).zipIdx ∧ (p.quads.map QuadCst.name).Nodup))
    ⟨fun h => ⟨h.1, h.2.1, h.2.2⟩, fun h => ⟨h.vars, h.lins, h.quads⟩⟩

instance (p : QP) : Decidable p.WF :=
  decidable_of_iff (p.Consistent ∧ p.objective.linear.Fits p.numVars ∧ p.objective.quadratic.Fits p.numVars ∧
      (∀ c ∈ p.lins, c.linear.Fits p.numVars) ∧
      ∀ c ∈ p.quads, c.linear.Fits p.numVars ∧ c.quadratic.Fits p.numVars)
    ⟨fun h => ⟨h.1, h.2.1, h.2.2.1, h.2.2.2.1, h.2.2.2.2⟩, fun h => ⟨h.cons, h.objLin, h.objQuad, h.lins, h.quads⟩⟩

end Verif
