import Verif.AdmmRun

/-!
# Lemmas on the choice of the step 1 variables of ADMM
-/

namespace Verif

/-- The variable `i` has a linear coefficient, or a coefficient in its own row of the upper triangular matrix: a product
with itself or with a later variable. -/
def InOwnRow (o : Objective) (i : Nat) : Prop :=
  Dict.get o.linear.coeffs i ≠ 0 ∨ ∃ j, Dict.get o.quadratic.coeffs (i, j) ≠ 0

/-- A linear equality constraint all of whose coefficients belong to binary variables. -/
def BinaryEquality (p : QP) (c : LinCst) : Prop :=
  c ∈ p.lins ∧ c.sense = .eq ∧ ∀ k ∈ Assoc.keys c.linear.coeffs, ∃ v, p.vars[k]? = some v ∧ v.vartype = .binary

theorem mem_binaryEqualities {p : QP} {c : LinCst} : c ∈ binaryEqualities p ↔ BinaryEquality p c := by
  simp only [binaryEqualities, List.mem_filter, Bool.and_eq_true, decide_eq_true_eq, List.all_eq_true, BinaryEquality]
  constructor
  · rintro ⟨h1, h2, h3⟩
    exact ⟨h1, h2, fun k hk => mem_variableIndices.mp (h3 k hk)⟩
  · rintro ⟨h1, h2, h3⟩
    exact ⟨h1, h2, fun k hk => mem_variableIndices.mpr (h3 k hk)⟩

theorem dget_of_mem {κ : Type} [DecidableEq κ] {d : Dict κ} (hn : (Assoc.keys d).Nodup) {k : κ} {v : ℚ}
    (h : (k, v) ∈ d) : Dict.get d k = v := by
  unfold Dict.get; rw [Assoc.get?_of_mem hn h]; rfl

theorem row_sum_ne {d : Dict (Nat × Nat)} (hn : (Assoc.keys d).Nodup) (i : Nat) :
    ((d.filter fun q => q.1.1 = i).map fun q => |q.2|).sum ≠ 0 ↔ ∃ j, Dict.get d (i, j) ≠ 0 := by
  have h0 := sum_nonneg_eq_zero (d.filter fun q => decide (q.1.1 = i)) (fun q => |q.2|) (fun a _ => abs_nonneg _)
  rw [ne_eq, h0.2]
  push Not
  constructor
  · rintro ⟨⟨⟨a, j⟩, v⟩, hm, hv⟩
    simp only [List.mem_filter, decide_eq_true_eq] at hm
    obtain ⟨hm, rfl⟩ := hm
    exact ⟨j, by rw [dget_of_mem hn hm]; simpa using hv⟩
  · rintro ⟨j, hj⟩
    have hk : (i, j) ∈ Assoc.keys d := by
      by_contra hc; exact hj (Dict.get_eq_zero_of_not_mem hc)
    obtain ⟨⟨k, v⟩, hm, hkv⟩ := List.mem_map.mp hk
    simp only at hkv
    subst hkv
    refine ⟨_, List.mem_filter.mpr ⟨hm, by simp⟩, ?_⟩
    rw [dget_of_mem hn hm] at hj
    simpa using hj

theorem inObjective_inv {p : QP} (hp : p.WF) {i : Nat} {b : Bool} (h : inObjective p i = .ok b) :
    b = true ↔ InOwnRow p.objective i := by
  unfold inObjective at h
  simp only [LinExpr.getItem] at h
  cases hr : resolve p.varsIndex p.objective.linear.n (.idx i) with
  | error e => simp [hr] at h
  | ok k =>
    have hk : k = i := by simpa [Key.pos] using resolve_eq hr
    subst hk
    simp only [hr] at h
    split at h
    · rename_i hc
      simp only [Except.ok.injEq] at h
      subst h
      exact ⟨fun _ => Or.inl hc, fun _ => rfl⟩
    · rename_i hc
      split at h
      · simp only [Except.ok.injEq] at h
        subst h
        rw [decide_eq_true_eq, row_sum_ne hp.objQuad.1.nodup]
        constructor
        · exact Or.inr
        · rintro (h | h)
          · exact absurd h hc
          · exact h
      · simp at h

theorem step1Objective_inv {p : QP} (hp : p.WF) {is acc r : List Nat} (h : step1Objective p is acc = .ok r)
    (ha : acc.Nodup) : r.Nodup ∧ ∀ i, i ∈ r ↔ i ∈ acc ∨ (i ∈ is ∧ InOwnRow p.objective i) := by
  induction is generalizing acc with
  | nil =>
    simp only [step1Objective, Except.ok.injEq] at h
    subst h
    exact ⟨ha, by simp⟩
  | cons a is ih =>
    simp only [step1Objective] at h
    cases hb : inObjective p a with
    | error e => simp [hb] at h
    | ok b =>
      simp only [hb] at h
      have hb' := inObjective_inv hp hb
      split at h
      · rename_i hc
        obtain ⟨i1, i2⟩ := ih h (List.nodup_append.mpr ⟨ha, by simp, by
          intro x hx y hy; rw [List.mem_singleton] at hy; subst hy; rintro rfl; exact hc.2 hx⟩)
        refine ⟨i1, fun i => ?_⟩
        rw [i2 i, List.mem_append, List.mem_singleton, List.mem_cons]
        constructor
        · rintro ((h | rfl) | h)
          · exact Or.inl h
          · exact Or.inr ⟨Or.inl rfl, hb'.mp hc.1⟩
          · exact Or.inr ⟨Or.inr h.1, h.2⟩
        · rintro (h | ⟨rfl | h, h'⟩)
          · exact Or.inl (Or.inl h)
          · exact Or.inl (Or.inr rfl)
          · exact Or.inr ⟨h, h'⟩
      · rename_i hc
        obtain ⟨i1, i2⟩ := ih h ha
        refine ⟨i1, fun i => ?_⟩
        rw [i2 i, List.mem_cons]
        constructor
        · rintro (h | h)
          · exact Or.inl h
          · exact Or.inr ⟨Or.inr h.1, h.2⟩
        · rintro (h | ⟨rfl | h, h'⟩)
          · exact Or.inl h
          · left; by_contra hn; exact hc ⟨hb'.mpr h', hn⟩
          · exact Or.inr ⟨h, h'⟩

theorem step1Constraint_inv {p : QP} {c : LinCst} {is acc r : List Nat} (h : step1Constraint p c is acc = .ok r)
    (ha : acc.Nodup) : r.Nodup ∧ ∀ i, i ∈ r ↔ i ∈ acc ∨ (i ∈ is ∧ 0 < Dict.get c.linear.coeffs i) := by
  induction is generalizing acc with
  | nil =>
    simp only [step1Constraint, Except.ok.injEq] at h
    subst h
    exact ⟨ha, by simp⟩
  | cons a is ih =>
    simp only [step1Constraint, LinExpr.getItem] at h
    cases hr : resolve p.varsIndex c.linear.n (.idx a) with
    | error e => simp [hr] at h
    | ok k =>
      have hk : k = a := by simpa [Key.pos] using resolve_eq hr
      subst hk
      simp only [hr] at h
      split at h
      · rename_i hc
        obtain ⟨i1, i2⟩ := ih h (List.nodup_append.mpr ⟨ha, by simp, by
          intro x hx y hy; rw [List.mem_singleton] at hy; subst hy; rintro rfl; exact hc.2 hx⟩)
        refine ⟨i1, fun i => ?_⟩
        rw [i2 i, List.mem_append, List.mem_singleton, List.mem_cons]
        constructor
        · rintro ((h | rfl) | h)
          · exact Or.inl h
          · exact Or.inr ⟨Or.inl rfl, hc.1⟩
          · exact Or.inr ⟨Or.inr h.1, h.2⟩
        · rintro (h | ⟨rfl | h, h'⟩)
          · exact Or.inl (Or.inl h)
          · exact Or.inl (Or.inr rfl)
          · exact Or.inr ⟨h, h'⟩
      · rename_i hc
        obtain ⟨i1, i2⟩ := ih h ha
        refine ⟨i1, fun i => ?_⟩
        rw [i2 i, List.mem_cons]
        constructor
        · rintro (h | h)
          · exact Or.inl h
          · exact Or.inr ⟨Or.inr h.1, h.2⟩
        · rintro (h | ⟨rfl | h, h'⟩)
          · exact Or.inl h
          · left; by_contra hn; exact hc ⟨h', hn⟩
          · exact Or.inr ⟨h, h'⟩

theorem step1Constraints_inv {p : QP} {rest : List Nat} {cs : List LinCst} {acc r : List Nat}
    (h : step1Constraints p rest cs acc = .ok r) (ha : acc.Nodup) :
    r.Nodup ∧ ∀ i, i ∈ r ↔ i ∈ acc ∨ (i ∈ rest ∧ ∃ c ∈ cs, 0 < Dict.get c.linear.coeffs i) := by
  induction cs generalizing acc with
  | nil =>
    simp only [step1Constraints, Except.ok.injEq] at h
    subst h
    exact ⟨ha, by simp⟩
  | cons c cs ih =>
    simp only [step1Constraints] at h
    cases h1 : step1Constraint p c rest acc with
    | error e => simp [h1] at h
    | ok acc' =>
      simp only [h1] at h
      obtain ⟨a1, a2⟩ := step1Constraint_inv h1 ha
      obtain ⟨b1, b2⟩ := ih h a1
      refine ⟨b1, fun i => ?_⟩
      rw [b2, a2]
      constructor
      · rintro ((h | ⟨h, h'⟩) | ⟨h, c', hc, h'⟩)
        · exact Or.inl h
        · exact Or.inr ⟨h, c, List.mem_cons_self, h'⟩
        · exact Or.inr ⟨h, c', List.mem_cons_of_mem _ hc, h'⟩
      · rintro (h | ⟨h, c', hc, h'⟩)
        · exact Or.inl (Or.inl h)
        · rcases List.mem_cons.mp hc with rfl | hc
          · exact Or.inl (Or.inr ⟨h, h'⟩)
          · exact Or.inr ⟨h, c', hc, h'⟩

theorem step1Absolute_inv {p : QP} (hp : p.WF) {l : List Nat} (h : step1Absolute p = .ok l) :
    l.Pairwise (· < ·) ∧ ∀ i, i ∈ l ↔ (∃ v, p.vars[i]? = some v ∧ v.vartype = .binary) ∧
      (InOwnRow p.objective i ∨ ∃ c, BinaryEquality p c ∧ 0 < Dict.get c.linear.coeffs i) := by
  unfold step1Absolute at h
  cases h1 : step1Objective p (variableIndices .binary p) [] with
  | error e => simp [h1] at h
  | ok acc =>
    simp only [h1] at h
    obtain ⟨a1, a2⟩ := step1Objective_inv hp h1 List.nodup_nil
    cases h2 : step1Constraints p ((variableIndices .binary p).filter fun i => i ∉ acc) (binaryEqualities p) acc with
    | error e => simp only [h2] at h; cases h
    | ok acc2 =>
      simp only [h2] at h
      obtain ⟨b1, b2⟩ := step1Constraints_inv h2 a1
      simp only [Except.ok.injEq] at h
      subst h
      constructor
      · have hnd : (sortedBy (fun a b => decide (a ≤ b)) acc2).Nodup := (sortedBy_perm _ _).nodup_iff.mpr b1
        have hle := sortedBy_pairwise (le := fun a b : Nat => decide (a ≤ b)) (l := acc2)
          (fun a b => by simp only [decide_eq_true_eq]; omega) (fun a b c => by simp only [decide_eq_true_eq]; omega)
        exact (hle.and hnd).imp (fun {a b} h => by
          have := h.1; simp only [decide_eq_true_eq] at this; exact lt_of_le_of_ne this h.2)
      · intro i
        rw [mem_sortedBy, b2, a2, List.mem_filter]
        simp only [List.not_mem_nil, false_or, decide_eq_true_eq, mem_variableIndices]
        constructor
        · rintro (⟨h, h'⟩ | ⟨⟨h, _⟩, c, hc, h'⟩)
          · exact ⟨h, Or.inl h'⟩
          · exact ⟨h, Or.inr ⟨c, mem_binaryEqualities.mp hc, h'⟩⟩
        · rintro ⟨h, h' | ⟨c, hc, h'⟩⟩
          · exact Or.inl ⟨h, h'⟩
          · by_cases hm : i ∈ acc
            · left
              have := (a2 i).mp hm
              simpa [mem_variableIndices] using this
            · exact Or.inr ⟨⟨h, hm⟩, c, mem_binaryEqualities.mpr hc, h'⟩

theorem findFrom_inv {a : Nat} {l : List Nat} {o j : Nat} (h : findFrom a l o = some j) :
    o ≤ j ∧ l[j - o]? = some a := by
  induction l generalizing o with
  | nil => simp [findFrom] at h
  | cons b l ih =>
    simp only [findFrom] at h
    split at h
    · rename_i hb
      simp only [Option.some.injEq] at h
      subst h hb
      simp
    · obtain ⟨h1, h2⟩ := ih h
      refine ⟨by omega, ?_⟩
      have : j - o = (j - (o + 1)) + 1 := by omega
      rw [this]; simpa using h2

theorem relativeIndices_inv {bins : List Nat} {r : Nat} {l is : List Nat} (h : relativeIndices bins r l = .ok is) :
    is.length = l.length ∧ ∀ k a : Nat, l[k]? = some a → ∃ j : Nat, is[k]? = some j ∧ bins[j]? = some a := by
  induction l generalizing r is with
  | nil =>
    simp only [relativeIndices, Except.ok.injEq] at h
    subst h; simp
  | cons a l ih =>
    simp only [relativeIndices] at h
    cases hf : findFrom a (bins.drop r) r with
    | none => simp [hf] at h
    | some j =>
      simp only [hf] at h
      cases hr : relativeIndices bins j l with
      | error e => simp [hr] at h
      | ok is' =>
        simp only [hr, Except.ok.injEq] at h
        subst h
        obtain ⟨h1, h2⟩ := ih hr
        refine ⟨by simp [h1], ?_⟩
        intro k b hk
        cases k with
        | zero =>
          simp only [List.getElem?_cons_zero, Option.some.injEq] at hk
          subst hk
          obtain ⟨g1, g2⟩ := findFrom_inv hf
          refine ⟨j, rfl, ?_⟩
          rw [List.getElem?_drop] at g2
          rwa [show r + (j - r) = j by omega] at g2
        | succ k => simpa using h2 k b (by simpa using hk)

theorem findFrom_ok {a : Nat} {l : List Nat} {o : Nat} (h : a ∈ l) : ∃ j, findFrom a l o = some j := by
  induction l generalizing o with
  | nil => simp at h
  | cons b l ih =>
    simp only [findFrom]
    split
    · exact ⟨_, rfl⟩
    · rename_i hb
      rcases List.mem_cons.mp h with rfl | h
      · exact absurd rfl hb
      · exact ih h

theorem relativeIndices_ok {bins : List Nat} (hb : bins.Pairwise (· < ·)) {l : List Nat} {r : Nat}
    (hl : l.Pairwise (· < ·)) (hm : ∀ a ∈ l, a ∈ bins.drop r) : ∃ is, relativeIndices bins r l = .ok is := by
  induction l generalizing r with
  | nil => exact ⟨[], rfl⟩
  | cons a l ih =>
    obtain ⟨hal, hl⟩ := List.pairwise_cons.mp hl
    obtain ⟨j, hj⟩ := findFrom_ok (o := r) (hm a List.mem_cons_self)
    obtain ⟨g1, g2⟩ := findFrom_inv hj
    rw [List.getElem?_drop, show r + (j - r) = j by omega] at g2
    obtain ⟨hj', hje⟩ := List.getElem?_eq_some_iff.mp g2
    obtain ⟨is, his⟩ := ih (r := j) hl (by
      intro b hbl
      obtain ⟨i, hi⟩ := List.mem_iff_getElem?.mp (List.mem_of_mem_drop (hm b (List.mem_cons_of_mem _ hbl)))
      obtain ⟨hi', hie⟩ := List.getElem?_eq_some_iff.mp hi
      have hab := hal b hbl
      have hij : j ≤ i := by
        by_contra hlt
        have := List.pairwise_iff_getElem.mp hb i j hi' hj' (by omega)
        omega
      exact List.mem_iff_getElem?.mpr ⟨i - j, by rw [List.getElem?_drop, show j + (i - j) = i by omega, hi]⟩)
    exact ⟨j :: is, by simp only [relativeIndices, hj, his]⟩

/-- The representation can be computed when all expressions have as many columns as there are variables. -/
theorem admmRep_ok {p : QP} (hp : p.WF) (hs : p.ShapeOK) : ∃ r, admmRep p = .ok r := by
  have hlin : ∀ c ∈ p.lins, c.linear.n = p.numVars := fun c hc => by
    have := hs.1 (.lin c) (List.mem_append_left _ (List.mem_map_of_mem hc)); exact this
  have hget : ∀ (e : LinExpr) i, e.n = p.numVars → i ∈ variableIndices .binary p →
      e.getItem p.varsIndex (.idx i) = .ok (Dict.get e.coeffs i) := by
    intro e i he hi
    simp [LinExpr.getItem, resolve, he, variableIndices_lt hi]
  have h1 : ∀ is acc, (∀ i ∈ is, i ∈ variableIndices .binary p) → ∃ r, step1Objective p is acc = .ok r := by
    intro is
    induction is with
    | nil => intro acc _; exact ⟨acc, rfl⟩
    | cons a is ih =>
      intro acc hm
      have ha := hm a List.mem_cons_self
      have : ∃ b, inObjective p a = .ok b := by
        unfold inObjective
        rw [hget _ a hs.2.1 ha]
        simp only
        split
        · exact ⟨_, rfl⟩
        · rw [if_pos (by rw [hs.2.2]; exact variableIndices_lt ha)]; exact ⟨_, rfl⟩
      obtain ⟨b, hb⟩ := this
      simp only [step1Objective, hb]
      exact ih _ (fun i hi => hm i (List.mem_cons_of_mem _ hi))
  have h2 : ∀ (c : LinCst) is acc, c.linear.n = p.numVars → (∀ i ∈ is, i ∈ variableIndices .binary p) →
      ∃ r, step1Constraint p c is acc = .ok r := by
    intro c is
    induction is with
    | nil => intro acc _ _; exact ⟨acc, rfl⟩
    | cons a is ih =>
      intro acc hc hm
      simp only [step1Constraint, hget _ a hc (hm a List.mem_cons_self)]
      exact ih _ hc (fun i hi => hm i (List.mem_cons_of_mem _ hi))
  have h3 : ∀ (cs : List LinCst) is acc, (∀ c ∈ cs, c.linear.n = p.numVars) →
      (∀ i ∈ is, i ∈ variableIndices .binary p) → ∃ r, step1Constraints p is cs acc = .ok r := by
    intro cs is
    induction cs with
    | nil => intro acc _ _; exact ⟨acc, rfl⟩
    | cons c cs ih =>
      intro acc hc hm
      obtain ⟨r, hr⟩ := h2 c is acc (hc c List.mem_cons_self) hm
      simp only [step1Constraints, hr]
      exact ih _ (fun c' h' => hc c' (List.mem_cons_of_mem _ h')) hm
  have hbe : ∀ c ∈ binaryEqualities p, c.linear.n = p.numVars := fun c hc => hlin c (mem_binaryEqualities.mp hc).1
  obtain ⟨acc, hacc⟩ := h1 (variableIndices .binary p) [] (fun _ h => h)
  obtain ⟨acc2, hacc2⟩ := h3 (binaryEqualities p) ((variableIndices .binary p).filter fun i => i ∉ acc) acc hbe
    (fun i hi => (List.mem_filter.mp hi).1)
  have hst : step1Absolute p = .ok (sortedBy (fun a b => decide (a ≤ b)) acc2) := by
    unfold step1Absolute; simp only [hacc, hacc2]
  obtain ⟨st, hst'⟩ : ∃ st, step1Absolute p = .ok st := ⟨_, hst⟩
  obtain ⟨s1, s2⟩ := step1Absolute_inv hp hst'
  have hmem : ∀ a ∈ st, a ∈ variableIndices .binary p := fun a ha => mem_variableIndices.mpr ((s2 a).mp ha).1
  obtain ⟨rel, hrel⟩ := relativeIndices_ok (variableIndices_pairwise .binary p) (r := 0) s1 (by simpa using hmem)
  have hq : ∃ m, getQ p.objective.quadratic st = .ok m := by
    unfold getQ
    rw [if_pos]
    · exact ⟨_, rfl⟩
    · simp only [List.all_eq_true, decide_eq_true_eq]
      intro i hi; rw [hs.2.2]; exact variableIndices_lt (hmem i hi)
  obtain ⟨q0, hq0⟩ := hq
  have htake : ∀ e : LinExpr, e.n = p.numVars → takeIdx e.toArray st = .ok (st.map (pt e.toArray)) := by
    intro e he
    refine takeIdx_ok (fun i hi => ?_)
    simp only [LinExpr.toArray, List.length_map, List.length_range, he]
    exact variableIndices_lt (hmem i hi)
  have hrows : ∀ cs : List LinCst, (∀ c ∈ cs, c.linear.n = p.numVars) → ∃ rows, a0Rows st cs = .ok rows := by
    intro cs
    induction cs with
    | nil => intro _; exact ⟨[], rfl⟩
    | cons c cs ih =>
      intro hc
      obtain ⟨rows, hr⟩ := ih (fun c' h' => hc c' (List.mem_cons_of_mem _ h'))
      exact ⟨_, by simp only [a0Rows, htake _ (hc c List.mem_cons_self), hr]; rfl⟩
  obtain ⟨rows, hr⟩ := hrows _ hbe
  have hab : ∃ ab, getA0B0 st (binaryEqualities p) = .ok ab := by
    unfold getA0B0
    rw [hr]
    cases rows with
    | nil => exact ⟨_, rfl⟩
    | cons _ _ => exact ⟨_, rfl⟩
  obtain ⟨⟨a0, b0⟩, hab⟩ := hab
  exact ⟨_, by unfold admmRep; simp only [hst', hrel, hq0, htake _ hs.2.1, hab]; rfl⟩

/-- The positions of the step 1 variables among the binary variables. -/
theorem step1Rel_inv {p : QP} (hp : p.WF) {r : AdmmRep} (hr : admmRep p = .ok r) :
    r.step1Rel = r.step1Abs.map (p.rank .binary) ∧ r.step1Rel.Nodup ∧ ∀ k ∈ r.step1Rel, k < p.countType .binary := by
  obtain ⟨_, _, _, _, _, _, h7, h8, _⟩ := admmRep_inv hr
  obtain ⟨s1, s2⟩ := step1Absolute_inv hp h7
  obtain ⟨r1, r2⟩ := relativeIndices_inv h8
  have hmap : r.step1Rel = r.step1Abs.map (p.rank .binary) := by
    apply List.ext_getElem?
    intro k
    rw [List.getElem?_map]
    by_cases hk : k < r.step1Abs.length
    · obtain ⟨j, j1, j2⟩ := r2 k _ (List.getElem?_eq_getElem hk)
      rw [variableIndices_getElem?] at j2
      obtain ⟨v, _, _, hj⟩ := j2
      rw [j1, List.getElem?_eq_getElem hk, hj]; rfl
    · rw [List.getElem?_eq_none (by omega), List.getElem?_eq_none (by omega)]; rfl
  refine ⟨hmap, ?_, ?_⟩
  · rw [hmap]
    refine List.Nodup.map_on ?_ (s1.imp (fun h => Nat.ne_of_lt h))
    intro a ha b hb hab
    obtain ⟨⟨v, v1, v2⟩, _⟩ := (s2 a).mp ha
    obtain ⟨⟨w, w1, w2⟩, _⟩ := (s2 b).mp hb
    have e1 := (variableIndices_getElem? .binary p (p.rank .binary a) a).mpr ⟨v, v1, v2, rfl⟩
    have e2 := (variableIndices_getElem? .binary p (p.rank .binary a) b).mpr ⟨w, w1, w2, hab⟩
    rw [e1, Option.some.injEq] at e2
    exact e2
  · intro k hk
    rw [hmap] at hk
    obtain ⟨i, hi, rfl⟩ := List.mem_map.mp hk
    obtain ⟨⟨v, v1, v2⟩, _⟩ := (s2 i).mp hi
    exact rank_lt v1 v2

end Verif
