import Verif.IneqToEq
import Verif.IntToBinMain

/-!
# Helper lemmas: slack variables
-/

namespace Verif

/-! ## Copying the variables -/

theorem copyAllVars_grows {l : List Variable} {dst dst' : QP} (h : copyAllVars l dst = .ok dst') :
    Grows dst dst' (l.map plainVar) := by
  induction l generalizing dst with
  | nil => simp [copyAllVars] at h; subst h; exact Grows.refl _
  | cons x l ih =>
    obtain ⟨nm, lb, ub, t⟩ := x
    simp only [copyAllVars] at h
    split at h
    · simp at h
    · rename_i v d hadd
      have hg : Grows dst d [plainVar ⟨nm, lb, ub, t⟩] := by
        cases t <;> exact (addVariable_grows hadd).1
      simpa using hg.trans (ih h)

/-- `d` starts with the (copied) variables of `src`. -/
structure Starts (src d : QP) : Prop where
  wf : d.WF
  vars : ∃ more, d.vars = src.vars.map plainVar ++ more

theorem plainVar_name (v : Variable) : (plainVar v).name = v.name := by unfold plainVar; split <;> rfl

theorem plainVar_names (l : List Variable) : (l.map plainVar).map Variable.name = l.map Variable.name := by
  simp [plainVar_name]

theorem Starts.le {src d : QP} (h : Starts src d) : src.numVars ≤ d.numVars := by
  obtain ⟨more, hm⟩ := h.vars
  simp [QP.numVars, hm]

theorem Starts.get {src d : QP} (h : Starts src d) {i : Nat} (hi : i < src.numVars) :
    d.vars[i]? = (src.vars[i]?).map plainVar := by
  obtain ⟨more, hm⟩ := h.vars
  rw [hm, List.getElem?_append_left (by simpa [QP.numVars] using hi), List.getElem?_map]

theorem Starts.nameVal {src d : QP} (h : Starts src d) (hs : src.Consistent) (y : Nat → ℚ) {s : String}
    (hm : s ∈ src.vars.map Variable.name) : nameVal d.varsIndex y s = nameVal src.varsIndex y s := by
  obtain ⟨v, hv, rfl⟩ := List.mem_map.mp hm
  obtain ⟨i, hi⟩ := List.mem_iff_getElem?.mp hv
  have hlt : i < src.numVars := (List.getElem?_eq_some_iff.mp hi).1
  have hd : d.vars[i]? = some (plainVar v) := by rw [h.get hlt, hi]; rfl
  rw [nameVal_at hs hi, ← plainVar_name v, nameVal_at h.wf.cons hd]

theorem Starts.names {src d : QP} (h : Starts src d) {s : String} (hm : s ∈ src.vars.map Variable.name) :
    s ∈ d.vars.map Variable.name := by
  obtain ⟨more, hmo⟩ := h.vars
  rw [hmo, List.map_append, plainVar_names]
  exact List.mem_append_left _ hm

theorem Starts.grows {src d d' : QP} {vs : List Variable} (h : Starts src d) (hg : Grows d d' vs) : Starts src d' := by
  obtain ⟨more, hm⟩ := h.vars
  exact ⟨hg.wf h.wf, more ++ vs, by rw [hg.vars, hm, List.append_assoc]⟩

/-! ## Bounds of the left-hand side -/

theorem mul_bounds {l u x v : ℚ} (h : l ≤ x ∧ x ≤ u) : min (l * v) (u * v) ≤ x * v ∧ x * v ≤ max (l * v) (u * v) := by
  rcases le_total 0 v with hv | hv
  · exact ⟨(min_le_left _ _).trans (mul_le_mul_of_nonneg_right h.1 hv),
      (mul_le_mul_of_nonneg_right h.2 hv).trans (le_max_right _ _)⟩
  · exact ⟨(min_le_right _ _).trans (mul_le_mul_of_nonpos_right h.2 hv),
      (mul_le_mul_of_nonpos_right h.1 hv).trans (le_max_left _ _)⟩

theorem mul_bounds2 {l u l' u' x y v : ℚ} (h : l ≤ x ∧ x ≤ u) (h' : l' ≤ y ∧ y ≤ u') :
    min (min (min (l * l' * v) (l * u' * v)) (u * l' * v)) (u * u' * v) ≤ x * y * v ∧
      x * y * v ≤ max (max (max (l * l' * v) (l * u' * v)) (u * l' * v)) (u * u' * v) := by
  have a := mul_bounds (v := y * v) h
  have b := mul_bounds (v := l * v) h'
  have c := mul_bounds (v := u * v) h'
  have e1 : x * (y * v) = x * y * v := by ring
  have e2 : l * (y * v) = y * (l * v) := by ring
  have e3 : u * (y * v) = y * (u * v) := by ring
  have f1 : l' * (l * v) = l * l' * v := by ring
  have f2 : u' * (l * v) = l * u' * v := by ring
  have f3 : l' * (u * v) = u * l' * v := by ring
  have f4 : u' * (u * v) = u * u' * v := by ring
  rw [e1, e2, e3] at a
  rw [f1, f2] at b
  rw [f3, f4] at c
  constructor
  · refine le_trans ?_ a.1
    rw [le_min_iff]
    constructor
    · refine le_trans ?_ b.1
      rw [min_assoc]; exact min_le_left _ _
    · refine le_trans ?_ c.1
      rw [min_assoc]; exact min_le_right _ _
  · refine le_trans a.2 ?_
    rw [max_le_iff]
    constructor
    · refine le_trans b.2 ?_
      rw [max_assoc]; exact le_max_left _ _
    · refine le_trans c.2 ?_
      rw [max_assoc]; exact le_max_right _ _

theorem getVariable_bounds {src : QP} (hs : src.Consistent) {x : Nat → ℚ} (hx : src.InBounds x) {s : String}
    {v : Variable} (h : src.getVariable (.name s) = .ok v) :
    v.lb ≤ nameVal src.varsIndex x s ∧ nameVal src.varsIndex x s ≤ v.ub := by
  obtain ⟨i, hd, hi⟩ := (getVariable_iff hs _ _).mp h
  have hn : s = v.name := by
    simp only [QP.Denotes, hi, Option.map_some, Option.some.injEq] at hd; exact hd.symm
  rw [hn, nameVal_at hs hi]
  exact hx i v hi

theorem calcLinBounds_ok {src : QP} (hs : src.Consistent) {l : Dict String} {a b lb ub : ℚ}
    (h : calcLinBounds src l (a, b) = .ok (lb, ub)) {x : Nat → ℚ} (hx : src.InBounds x) :
    lb - a ≤ Dict.sum l (nameVal src.varsIndex x) ∧ Dict.sum l (nameVal src.varsIndex x) ≤ ub - b := by
  induction l generalizing a b with
  | nil => simp only [calcLinBounds, Except.ok.injEq, Prod.mk.injEq] at h; obtain ⟨rfl, rfl⟩ := h; simp
  | cons p l ih =>
    obtain ⟨s, v⟩ := p
    simp only [calcLinBounds] at h
    split at h
    · simp at h
    · rename_i w hw
      obtain ⟨h1, h2⟩ := ih h
      obtain ⟨h3, h4⟩ := mul_bounds (v := v) (getVariable_bounds hs hx hw)
      simp only [Dict.sum_cons]
      constructor <;> linarith

theorem calcQuadBoundsLoop_ok {src : QP} (hs : src.Consistent) {l : Dict (String × String)} {a b lb ub : ℚ}
    (h : calcQuadBoundsLoop src l (a, b) = .ok (lb, ub)) {x : Nat → ℚ} (hx : src.InBounds x) :
    lb - a ≤ Dict.sum l (fun k => nameVal src.varsIndex x k.1 * nameVal src.varsIndex x k.2) ∧
      Dict.sum l (fun k => nameVal src.varsIndex x k.1 * nameVal src.varsIndex x k.2) ≤ ub - b := by
  induction l generalizing a b with
  | nil => simp only [calcQuadBoundsLoop, Except.ok.injEq, Prod.mk.injEq] at h; obtain ⟨rfl, rfl⟩ := h; simp
  | cons p l ih =>
    obtain ⟨⟨s, t⟩, v⟩ := p
    simp only [calcQuadBoundsLoop] at h
    split at h
    · simp at h
    · rename_i w hw
      split at h
      · simp at h
      · rename_i w' hw'
        obtain ⟨h1, h2⟩ := ih h
        obtain ⟨h3, h4⟩ := mul_bounds2 (v := v) (getVariable_bounds hs hx hw) (getVariable_bounds hs hx hw')
        simp only [Dict.sum_cons]
        constructor <;> linarith

theorem calcQuadBounds_ok {src : QP} (hs : src.Consistent) {l : Dict String} {q : Dict (String × String)} {lb ub : ℚ}
    (h : calcQuadBounds src l q = .ok (lb, ub)) {x : Nat → ℚ} (hx : src.InBounds x) :
    lb ≤ Dict.sum l (nameVal src.varsIndex x) +
        Dict.sum q (fun k => nameVal src.varsIndex x k.1 * nameVal src.varsIndex x k.2) ∧
      Dict.sum l (nameVal src.varsIndex x) +
        Dict.sum q (fun k => nameVal src.varsIndex x k.1 * nameVal src.varsIndex x k.2) ≤ ub := by
  unfold calcQuadBounds at h
  split at h
  · simp at h
  · rename_i acc hacc
    obtain ⟨h1, h2⟩ := calcLinBounds_ok hs hacc hx
    obtain ⟨h3, h4⟩ := calcQuadBoundsLoop_ok hs h hx
    constructor <;> linarith

theorem mem_names_getVariable {src : QP} (hs : src.Consistent) {s : String} (h : s ∈ src.vars.map Variable.name) :
    ∃ v, src.getVariable (.name s) = .ok v ∧ v ∈ src.vars ∧ v.name = s := by
  obtain ⟨v, hv, rfl⟩ := List.mem_map.mp h
  obtain ⟨i, hi⟩ := List.mem_iff_getElem?.mp hv
  exact ⟨v, (getVariable_iff hs _ _).mpr ⟨i, by simp [QP.Denotes, hi], hi⟩, hv, rfl⟩

theorem calcLinBounds_success {src : QP} (hs : src.Consistent) {l : Dict String}
    (h : ∀ s ∈ Assoc.keys l, s ∈ src.vars.map Variable.name) (acc : ℚ × ℚ) : ∃ r, calcLinBounds src l acc = .ok r := by
  induction l generalizing acc with
  | nil => exact ⟨acc, rfl⟩
  | cons p l ih =>
    obtain ⟨s, v⟩ := p
    obtain ⟨w, hw, _⟩ := mem_names_getVariable hs (h s (by simp [Assoc.keys]))
    simp only [calcLinBounds, hw]
    exact ih (fun t ht => h t (by simp only [Assoc.keys, List.map_cons] at ht ⊢; exact List.mem_cons_of_mem _ ht)) _

theorem calcQuadBounds_success {src : QP} (hs : src.Consistent) {l : Dict String} {q : Dict (String × String)}
    (h : ∀ s ∈ Assoc.keys l, s ∈ src.vars.map Variable.name)
    (h' : ∀ s ∈ Assoc.keys q, s.1 ∈ src.vars.map Variable.name ∧ s.2 ∈ src.vars.map Variable.name) :
    ∃ r, calcQuadBounds src l q = .ok r := by
  obtain ⟨acc, hacc⟩ := calcLinBounds_success hs h (0, 0)
  simp only [calcQuadBounds, hacc]
  clear hacc
  induction q generalizing acc with
  | nil => exact ⟨acc, rfl⟩
  | cons p q ih =>
    obtain ⟨⟨s, t⟩, v⟩ := p
    have hh := h' (s, t) (by simp [Assoc.keys])
    obtain ⟨w, hw, _⟩ := mem_names_getVariable hs hh.1
    obtain ⟨w', hw', _⟩ := mem_names_getVariable hs hh.2
    simp only [calcQuadBoundsLoop, hw, hw']
    exact ih (fun t ht => h' t (by simp only [Assoc.keys, List.map_cons] at ht ⊢; exact List.mem_cons_of_mem _ ht)) _

/-! ## One slack variable -/

/-- What adding (or not adding) a slack variable did: `s` is the sense, `r` the right-hand side after rounding,
`lb` and `ub` the bounds of the left-hand side. -/
inductive SlackAdded (d d' : QP) (t : VarType) (nm : String) (s : Sense) (r lb ub : ℚ) : Option (String × ℚ) → Prop
  | no : d' = d → (s = .le ∧ r ≤ lb ∨ s = .ge ∧ ub ≤ r) → SlackAdded d d' t nm s r lb ub none
  | le : s = .le → 0 < r - lb → Grows d d' [⟨nm, 0, r - lb, t⟩] → nm ∉ d.vars.map Variable.name →
      SlackAdded d d' t nm s r lb ub (some (nm, 1))
  | ge : s = .ge → 0 < ub - r → Grows d d' [⟨nm, 0, ub - r, t⟩] → nm ∉ d.vars.map Variable.name →
      SlackAdded d d' t nm s r lb ub (some (nm, -1))

theorem slackVar_ok {d d' : QP} (hd : d.Consistent) {t : VarType} {nm : String} {s : Sense} {r lb ub : ℚ}
    {o : Option (String × ℚ)} (h : slackVar d t nm s r lb ub = .ok (o, d')) : SlackAdded d d' t nm s r lb ub o := by
  cases s with
  | le =>
    simp only [slackVar] at h
    split at h
    · rename_i hp
      split at h
      · simp at h
      · rename_i v d1 hadd
        simp only [Except.ok.injEq, Prod.mk.injEq] at h
        obtain ⟨rfl, rfl⟩ := h
        obtain ⟨g1, _, g3, _⟩ := addVariable_grows hadd
        rw [hd.vars.keys] at g3
        exact .le rfl hp g1 g3
    · rename_i hp
      simp only [Except.ok.injEq, Prod.mk.injEq] at h
      obtain ⟨rfl, rfl⟩ := h
      exact .no rfl (Or.inl ⟨rfl, by linarith⟩)
  | ge =>
    simp only [slackVar] at h
    split at h
    · rename_i hp
      split at h
      · simp at h
      · rename_i v d1 hadd
        simp only [Except.ok.injEq, Prod.mk.injEq] at h
        obtain ⟨rfl, rfl⟩ := h
        obtain ⟨g1, _, g3, _⟩ := addVariable_grows hadd
        rw [hd.vars.keys] at g3
        exact .ge rfl hp g1 g3
    · rename_i hp
      simp only [Except.ok.injEq, Prod.mk.injEq] at h
      obtain ⟨rfl, rfl⟩ := h
      exact .no rfl (Or.inr ⟨rfl, by linarith⟩)
  | eq => simp [slackVar] at h

/-- The variables added. -/
def slackVars (t : VarType) (nm : String) (s : Sense) (r lb ub : ℚ) : List Variable :=
  match s with
  | .le => if r ≤ lb then [] else [⟨nm, 0, r - lb, t⟩]
  | .ge => if ub ≤ r then [] else [⟨nm, 0, ub - r, t⟩]
  | .eq => []

/-- The term added to the left-hand side. -/
def slackTerm (s : Sense) (r lb ub : ℚ) (z : ℚ) : ℚ :=
  match s with
  | .le => if r ≤ lb then 0 else z
  | .ge => if ub ≤ r then 0 else -z
  | .eq => 0

theorem SlackAdded.spec {src d d' : QP} (hst : Starts src d) (hs : src.Consistent) {t : VarType} {nm : String}
    {s : Sense} {r lb ub : ℚ} {o : Option (String × ℚ)} (h : SlackAdded d d' t nm s r lb ub o) {l : Dict String}
    (hl : ∀ a ∈ Assoc.keys l, a ∈ src.vars.map Variable.name) (hn : (Assoc.keys l).Nodup) :
    s ≠ .eq ∧ Grows d d' (slackVars t nm s r lb ub) ∧ (Assoc.keys (withSlack l o)).Nodup ∧
      (∀ a ∈ Assoc.keys (withSlack l o), a ∈ d'.vars.map Variable.name) ∧
      (∀ p ∈ withSlack l o, p ∈ l ∨ p.2 = 1 ∨ p.2 = -1) ∧
      ∀ y, Dict.sum (withSlack l o) (Verif.nameVal d'.varsIndex y) =
        Dict.sum l (Verif.nameVal src.varsIndex y) + slackTerm s r lb ub (y d.numVars) := by
  have key : ∀ w : ℚ, ∀ sg : ℚ, Grows d d' [⟨nm, 0, w, t⟩] → nm ∉ d.vars.map Variable.name →
      (Assoc.keys (Assoc.set l nm sg)).Nodup ∧
      (∀ a ∈ Assoc.keys (Assoc.set l nm sg), a ∈ d'.vars.map Variable.name) ∧
      ∀ y, Dict.sum (Assoc.set l nm sg) (Verif.nameVal d'.varsIndex y) =
        Dict.sum l (Verif.nameVal src.varsIndex y) + sg * y d.numVars := by
    intro w sg hg hnm
    have hst' := hst.grows hg
    refine ⟨Assoc.nodup_keys_set hn _ _, ?_, ?_⟩
    · intro a ha
      rcases Assoc.mem_keys_set.mp ha with ha | rfl
      · exact hst'.names (hl a ha)
      · rw [hg.vars]; simp
    · intro y
      have hnl : nm ∉ Assoc.keys l := fun hh => hnm (hst.names (hl nm hh))
      rw [Dict.sum_set_of_not_mem hnl]
      congr 1
      · exact Dict.sum_congr fun k hk => hst'.nameVal hs y (hl k hk)
      · have hi : d'.vars[d.numVars]? = some ⟨nm, 0, w, t⟩ := by
          rw [hg.vars]; simp [QP.numVars]
        have := nameVal_at hst'.wf.cons hi y
        simp only at this
        rw [this]
  cases h with
  | no hd hc =>
    subst hd
    have hsl : slackVars t nm s r lb ub = [] ∧ ∀ z, slackTerm s r lb ub z = 0 := by
      rcases hc with ⟨rfl, hc⟩ | ⟨rfl, hc⟩ <;> simp [slackVars, slackTerm, hc]
    refine ⟨by rcases hc with ⟨rfl, _⟩ | ⟨rfl, _⟩ <;> simp, by rw [hsl.1]; exact Grows.refl _, hn,
      fun a ha => hst.names (hl a ha), fun p hp => Or.inl hp, ?_⟩
    intro y
    rw [hsl.2, add_zero]
    exact Dict.sum_congr fun k hk => hst.nameVal hs y (hl k hk)
  | le hs' hp hg hnm =>
    subst hs'
    obtain ⟨k1, k2, k3⟩ := key _ 1 hg hnm
    have hc : ¬ r ≤ lb := by linarith
    refine ⟨by simp, by simpa [slackVars, hc] using hg, k1, k2, ?_, ?_⟩
    · intro p hp
      rcases Assoc.mem_set hp with rfl | hp
      · exact Or.inr (Or.inl rfl)
      · exact Or.inl hp
    · intro y; simp only [withSlack, k3, slackTerm, hc, if_false, one_mul]
  | ge hs' hp hg hnm =>
    subst hs'
    obtain ⟨k1, k2, k3⟩ := key _ (-1) hg hnm
    have hc : ¬ ub ≤ r := by linarith
    refine ⟨by simp, by simpa [slackVars, hc] using hg, k1, k2, ?_, ?_⟩
    · intro p hp
      rcases Assoc.mem_set hp with rfl | hp
      · exact Or.inr (Or.inr rfl)
      · exact Or.inl hp
    · intro y; simp only [withSlack, k3, slackTerm, hc, if_false]; ring

/-! ## One constraint -/

/-- One more constraint (and possibly variables): `new` is the new constraint as a predicate. -/
structure Step (d d' : QP) (vs : List Variable) (newl : List LinCst) (newq : List QuadCst) (new : (Nat → ℚ) → Prop) :
    Prop where
  vars : d'.vars = d.vars ++ vs
  wf : d'.WF
  objective : d'.objective = d.objective
  lins : d'.lins = d.lins ++ newl
  quads : d'.quads = d.quads ++ newq
  name : d'.name = d.name
  sat : ∀ y, d'.Sat y ↔ d.Sat y ∧ new y

/-- Integer-valued coefficients. -/
def LinExpr.IntCoeffs (e : LinExpr) : Prop := ∀ p ∈ e.coeffs, p.2.den = 1

theorem linOfEntries_values {vi : Assoc String Nat} {n : Nat} {l : List (Key × ℚ)} {acc d : Dict Nat}
    (h : linOfEntries vi n l acc = .ok d) : ∀ p ∈ d, p ∈ acc ∨ ∃ q ∈ l, p.2 = q.2 := by
  induction l generalizing acc with
  | nil => simp only [linOfEntries, Except.ok.injEq] at h; subst h; exact fun p hp => Or.inl hp
  | cons q l ih =>
    obtain ⟨k, v⟩ := q
    simp only [linOfEntries] at h
    split at h
    · simp at h
    · intro p hp
      rcases ih h p hp with h' | ⟨q, hq, h'⟩
      · have : p ∈ acc ∨ p.2 = v := by
          unfold Dict.dokSet at h'
          split at h'
          · exact Or.inl ((Assoc.erase_sublist _ _).subset h')
          · rcases Assoc.mem_set h' with rfl | h'
            · exact Or.inr rfl
            · exact Or.inl h'
        rcases this with h' | h'
        · exact Or.inl h'
        · exact Or.inr ⟨(k, v), List.mem_cons_self, h'⟩
      · exact Or.inr ⟨q, List.mem_cons_of_mem _ hq, h'⟩

theorem linNames_values {vi : Assoc String Nat} {n : Nat} {d : Dict String} {e : LinExpr}
    (h : LinExpr.ofInput vi n (linNames d) = .ok e) : ∀ p ∈ e.coeffs, ∃ q ∈ d, p.2 = q.2 := by
  simp only [LinExpr.ofInput, linNames] at h
  split at h
  · simp at h
  · rename_i r hr
    simp only [Except.ok.injEq] at h
    subst h
    intro p hp
    rcases linOfEntries_values hr p hp with h | ⟨q, hq, h⟩
    · simp at h
    · obtain ⟨q', hq', rfl⟩ := List.mem_map.mp hq
      exact ⟨q', hq', h⟩

theorem linStep {d0 d d' : QP} {vs : List Variable} (hg : Grows d0 d vs) (hd : d.WF)
    {l : Dict String} (hn : (Assoc.keys l).Nodup) (hm : ∀ a ∈ Assoc.keys l, a ∈ d.vars.map Variable.name)
    {si : SenseInput} (hsi : Sense.convert si = .ok .eq) {r : ℚ} {nm : Option String} {c : LinCst}
    (h : d.linearConstraint (linNames l) si r nm = (.ok c, d')) :
    Step d0 d' vs [c] [] (fun y => Dict.sum l (Verif.nameVal d.varsIndex y) = r) ∧ c.sense = .eq ∧ c.rhs = r ∧
      ∀ p ∈ c.linear.coeffs, ∃ q ∈ l, p.2 = q.2 := by
  have hwf := linearConstraint_wf h hd trivial
  obtain ⟨nm', le, s', h1, h2, h3, rfl, rfl⟩ := linearConstraint_ok h
  obtain ⟨e, e1, e2, e3, e4⟩ := linNames_spec hd.cons hn hm
  rw [hsi, Except.ok.injEq] at h2
  subst h2
  have hv := linNames_values h3
  rw [e1, Except.ok.injEq] at h3
  subst h3
  refine ⟨⟨hg.vars, hwf, hg.objective, by rw [← hg.lins], by simp [← hg.quads], hg.name, ?_⟩, rfl, rfl, hv⟩
  intro y
  rw [sat_iff, sat_iff]
  simp only [hg.lins, hg.quads, List.forall_mem_append, List.forall_mem_singleton, LinCst.Holds, Sense.rel, e4]
  constructor
  · rintro ⟨⟨a, b⟩, c⟩; exact ⟨⟨a, c⟩, b⟩
  · rintro ⟨⟨a, c⟩, b⟩; exact ⟨⟨a, b⟩, c⟩

theorem quadStep {d0 d d' : QP} {vs : List Variable} (hg : Grows d0 d vs) (hd : d.WF)
    {l : Dict String} (hn : (Assoc.keys l).Nodup) (hm : ∀ a ∈ Assoc.keys l, a ∈ d.vars.map Variable.name)
    {q : Dict (String × String)} (hqn : (Assoc.keys q).Nodup)
    (hqm : ∀ a ∈ Assoc.keys q, a.1 ∈ d.vars.map Variable.name ∧ a.2 ∈ d.vars.map Variable.name)
    {si : SenseInput} (hsi : Sense.convert si = .ok .eq) {r : ℚ} {nm : Option String} {c : QuadCst}
    (h : d.quadraticConstraint (linNames l) (quadNames q) si r nm = (.ok c, d')) :
    Step d0 d' vs [] [c] (fun y => Dict.sum l (Verif.nameVal d.varsIndex y) +
      Dict.sum q (fun k => Verif.nameVal d.varsIndex y k.1 * Verif.nameVal d.varsIndex y k.2) = r) ∧
      c.sense = .eq ∧ c.rhs = r := by
  have hwf := quadraticConstraint_wf h hd trivial trivial
  obtain ⟨nm', le, qe, s', h1, h2, h3, h4, rfl, rfl⟩ := quadraticConstraint_ok h
  obtain ⟨e, e1, e2, e3, e4⟩ := linNames_spec hd.cons hn hm
  obtain ⟨f, f1, f2, f3, f4⟩ := quadNames_spec hd.cons hqn hqm
  rw [hsi, Except.ok.injEq] at h2
  subst h2
  rw [e1, Except.ok.injEq] at h3
  subst h3
  rw [f1, Except.ok.injEq] at h4
  subst h4
  refine ⟨⟨hg.vars, hwf, hg.objective, by simp [← hg.lins], by rw [← hg.quads], hg.name, ?_⟩, rfl, rfl⟩
  intro y
  rw [sat_iff, sat_iff]
  simp only [hg.lins, hg.quads, List.forall_mem_append, List.forall_mem_singleton, QuadCst.Holds, Sense.rel, e4, f4]
  constructor
  · rintro ⟨a, b, c⟩; exact ⟨⟨a, b⟩, c⟩
  · rintro ⟨⟨a, c⟩, b⟩; exact ⟨a, c, b⟩

end Verif
