import Verif.Result
import Mathlib.Data.List.Induction
import Verif.PropsFeasible
import Verif.ListSum
import Verif.DictLemmas

/-!
# Lemmas about results and samples
-/

namespace Verif

/-- Specification: `y` is obtained from `x` by the `interpret` methods, that of the last converter first. -/
inductive Interprets : List Interp → List ℚ → List ℚ → Prop
  | nil (x : List ℚ) : Interprets [] x x
  | snoc (convs : List Interp) (f : Interp) (x z y : List ℚ) :
      f x = .ok z → Interprets convs z y → Interprets (convs ++ [f]) x y

theorem interpretAll_snoc (convs : List Interp) (f : Interp) (x : List ℚ) :
    interpretAll (convs ++ [f]) x = match f x with | .error e => .error e | .ok z => interpretAll convs z := by
  simp only [interpretAll, List.reverse_append, List.reverse_singleton, List.singleton_append, interpretRev]
  cases f x <;> rfl

theorem interprets_iff {convs : List Interp} {x y : List ℚ} :
    Interprets convs x y ↔ interpretAll convs x = .ok y := by
  constructor
  · intro h
    induction h with
    | nil x => rfl
    | snoc convs f x z y hf _ ih => rw [interpretAll_snoc, hf]; exact ih
  · induction convs using List.reverseRecOn generalizing x with
    | nil =>
      intro h
      simp only [interpretAll, List.reverse_nil, interpretRev, Except.ok.injEq] at h
      exact h ▸ .nil x
    | append_singleton convs f ih =>
      intro h
      rw [interpretAll_snoc] at h
      cases hf : f x with
      | error e => rw [hf] at h; simp at h
      | ok z => rw [hf] at h; exact .snoc convs f x z y hf (ih h)

theorem sortedBy_perm {α : Type} (le : α → α → Bool) (l : List α) : (sortedBy le l).Perm l :=
  List.perm_insertionSort _ l

theorem mem_sortedBy {α : Type} {le : α → α → Bool} {l : List α} {a : α} : a ∈ sortedBy le l ↔ a ∈ l :=
  (sortedBy_perm le l).mem_iff

theorem sortedBy_pairwise {α : Type} {le : α → α → Bool} (ht : ∀ a b, le a b = true ∨ le b a = true)
    (htr : ∀ a b c, le a b = true → le b c = true → le a c = true) (l : List α) :
    (sortedBy le l).Pairwise fun a b => le a b = true := by
  haveI : Std.Total (fun a b : α => le a b = true) := ⟨ht⟩
  haveI : IsTrans α (fun a b : α => le a b = true) := ⟨htr⟩
  exact List.pairwise_insertionSort _ l

theorem sampleLE_total (o : ObjSense) (a b : Sample) : sampleLE o a b = true ∨ sampleLE o b a = true := by
  simp only [sampleLE, decide_eq_true_eq]
  rcases lt_trichotomy a.status.value b.status.value with h | h | h
  · exact Or.inl (Or.inl h)
  · rcases le_total (o.value * a.fval) (o.value * b.fval) with g | g
    · exact Or.inl (Or.inr ⟨h, g⟩)
    · exact Or.inr (Or.inr ⟨h.symm, g⟩)
  · exact Or.inr (Or.inl h)

theorem sampleLE_trans (o : ObjSense) (a b c : Sample) (h : sampleLE o a b = true) (h' : sampleLE o b c = true) :
    sampleLE o a c = true := by
  simp only [sampleLE, decide_eq_true_eq] at *
  rcases h with h | ⟨h, g⟩ <;> rcases h' with h' | ⟨h', g'⟩
  · exact Or.inl (h.trans h')
  · exact Or.inl (h' ▸ h)
  · exact Or.inl (h ▸ h')
  · exact Or.inr ⟨h.trans h', g.trans g'⟩

theorem LinExpr.evaluate_inv {e : LinExpr} {x : List ℚ} {v : ℚ} (h : e.evaluate x = .ok v) :
    x.length = e.n ∧ v = e.val (pt x) := by
  unfold LinExpr.evaluate at h
  split at h
  · exact absurd h (by simp)
  · rename_i hn
    exact ⟨not_not.mp hn, by simpa using h.symm⟩

theorem QuadExpr.evaluate_inv {e : QuadExpr} {x : List ℚ} {v : ℚ} (h : e.evaluate x = .ok v) :
    x.length = e.n ∧ v = e.val (pt x) := by
  unfold QuadExpr.evaluate at h
  split at h
  · exact absurd h (by simp)
  · rename_i hn
    exact ⟨not_not.mp hn, by simpa using h.symm⟩

theorem Objective.evaluate_inv {o : Objective} {x : List ℚ} {v : ℚ} (h : o.evaluate x = .ok v) :
    x.length = o.linear.n ∧ x.length = o.quadratic.n ∧ v = o.val (pt x) := by
  unfold Objective.evaluate at h
  cases h1 : o.linear.evaluate x with
  | error e => simp [h1] at h
  | ok l =>
    cases h2 : o.quadratic.evaluate x with
    | error e => simp [h1, h2] at h
    | ok q =>
      simp only [h1, h2, Except.ok.injEq] at h
      obtain ⟨a, b⟩ := LinExpr.evaluate_inv h1
      obtain ⟨c, d⟩ := QuadExpr.evaluate_inv h2
      exact ⟨a, c, by rw [← h, b, d]; rfl⟩

theorem Cst.evaluate_inv {c : Cst} {x : List ℚ} {v : ℚ} (h : c.evaluate x = .ok v) : c.HasShape x.length := by
  cases c with
  | lin c => exact (LinExpr.evaluate_inv h).1.symm
  | quad c =>
    simp only [Cst.evaluate] at h
    cases h1 : c.linear.evaluate x with
    | error e => simp [h1] at h
    | ok l =>
      cases h2 : c.quadratic.evaluate x with
      | error e => simp [h1, h2] at h
      | ok q => exact ⟨(LinExpr.evaluate_inv h1).1.symm, (QuadExpr.evaluate_inv h2).1.symm⟩

theorem violatedCsts_inv {x : List ℚ} {cs r : List Cst} (h : violatedCsts x cs = .ok r) :
    ∀ c ∈ cs, c.HasShape x.length := by
  induction cs generalizing r with
  | nil => simp
  | cons c cs ih =>
    simp only [violatedCsts] at h
    cases h1 : c.evaluate x with
    | error e => simp [h1] at h
    | ok l =>
      cases h2 : violatedCsts x cs with
      | error e => simp [h1, h2] at h
      | ok q =>
        intro d hd
        rcases List.mem_cons.mp hd with rfl | hd
        · exact Cst.evaluate_inv h1
        · exact ih h2 d hd

/-- Whenever `is_feasible` answers, the answer means bounds and constraints with the tolerance. -/
theorem isFeasible_inv {p : QP} {x : List ℚ} {b : Bool} (h : p.isFeasible x = .ok b) :
    x.length = p.numVars ∧
      (b = true ↔ p.InBounds (pt x) ∧ ∀ c ∈ p.allCsts, c.sense.relTol (c.val (pt x)) c.rhs) := by
  have hx : x.length = p.numVars := by
    by_contra hx
    simp [(C07_length p x hx).2] at h
  have hs : ∀ c ∈ p.allCsts, c.HasShape p.numVars := by
    simp only [QP.isFeasible, QP.getFeasibilityInfo, hx, ne_eq, not_true, if_false] at h
    cases h2 : violatedCsts x p.csts with
    | error e => simp [h2] at h
    | ok r => rw [← hx]; exact violatedCsts_inv h2
  obtain ⟨b', h1, h2⟩ := C07_isFeasible p hs x hx
  rw [h1] at h
  cases h
  exact ⟨hx, h2⟩

theorem mergeSamples_inv {convs : List Interp} {raw : List Sample} {prob r : Assoc (List ℚ) ℚ}
    (h : mergeSamples convs raw prob = .ok r) (hn : (Assoc.keys prob).Nodup) :
    ∃ pts, List.Forall₂ (fun s x => interpretAll convs s.x = .ok x) raw pts ∧ (Assoc.keys r).Nodup ∧
      (∀ x, x ∈ Assoc.keys r ↔ x ∈ Assoc.keys prob ∨ x ∈ pts) ∧
      ∀ x, Dict.get r x = Dict.get prob x +
        (((raw.zip pts).filter fun q => q.2 = x).map fun q => q.1.probability).sum := by
  induction raw generalizing prob with
  | nil =>
    simp only [mergeSamples, Except.ok.injEq] at h
    subst h
    exact ⟨[], .nil, hn, by simp, by simp⟩
  | cons s l ih =>
    simp only [mergeSamples] at h
    cases h1 : interpretAll convs s.x with
    | error e => simp [h1] at h
    | ok x =>
      simp only [h1] at h
      obtain ⟨pts, a, b, c, d⟩ := ih h (Assoc.nodup_keys_set hn _ _)
      refine ⟨x :: pts, .cons h1 a, b, ?_, ?_⟩
      · intro y
        rw [c, Assoc.mem_keys_set, List.mem_cons]
        tauto
      · intro y
        rw [d, Dict.get_set, List.zip_cons_cons, List.filter_cons]
        by_cases hy : x = y
        · subst hy
          simp only [if_true, decide_true, List.map_cons, List.sum_cons, Dict.get]
          ring
        · have hy' : ¬ y = x := fun e => hy e.symm
          simp [hy, hy']

theorem mergeSamples_total {convs : List Interp} {raw : List Sample} {prob r : Assoc (List ℚ) ℚ}
    (h : mergeSamples convs raw prob = .ok r) :
    (r.map Prod.snd).sum = (prob.map Prod.snd).sum + (raw.map Sample.probability).sum := by
  have e : ∀ d : Dict (List ℚ), (d.map Prod.snd).sum = Dict.sum d fun _ => 1 := by
    intro d; simp [Dict.sum]
  induction raw generalizing prob with
  | nil => simp only [mergeSamples, Except.ok.injEq] at h; subst h; simp
  | cons s l ih =>
    simp only [mergeSamples] at h
    cases h1 : interpretAll convs s.x with
    | error e => simp [h1] at h
    | ok x =>
      simp only [h1] at h
      rw [ih h]
      have := Dict.sum_add (d := prob) x s.probability (fun _ => 1)
      simp only [Dict.add, Dict.get] at this
      rw [e, this, e]
      simp only [List.map_cons, List.sum_cons]
      ring

/-- What a sample of the merged list must be. -/
def Sample.Good (p : QP) (s : Sample) : Prop :=
  s.x.length = p.numVars ∧ s.fval = p.objective.val (pt s.x) ∧
    (s.status = .success ∨ s.status = .infeasible) ∧
    (s.status = .success ↔ p.InBounds (pt s.x) ∧ ∀ c ∈ p.allCsts, c.sense.relTol (c.val (pt s.x)) c.rhs)

theorem feasibilityStatus_inv {p : QP} {x : List ℚ} {s : ResStatus} (h : feasibilityStatus p x = .ok s) :
    x.length = p.numVars ∧ (s = .success ∨ s = .infeasible) ∧
      (s = .success ↔ p.InBounds (pt x) ∧ ∀ c ∈ p.allCsts, c.sense.relTol (c.val (pt x)) c.rhs) := by
  unfold feasibilityStatus at h
  cases h1 : p.isFeasible x with
  | error e => simp [h1] at h
  | ok b =>
    simp only [h1, Except.ok.injEq] at h
    obtain ⟨a, c⟩ := isFeasible_inv h1
    refine ⟨a, ?_, ?_⟩
    · subst h; cases b <;> simp
    · rw [← c]; subst h; cases b <;> simp

theorem evalSamples_inv {p : QP} {prob : Assoc (List ℚ) ℚ} {r : List Sample} (h : evalSamples p prob = .ok r) :
    r.map (fun s => (s.x, s.probability)) = prob ∧ ∀ s ∈ r, s.Good p := by
  induction prob generalizing r with
  | nil => simp only [evalSamples, Except.ok.injEq] at h; subst h; simp
  | cons q l ih =>
    obtain ⟨x, pr⟩ := q
    simp only [evalSamples] at h
    cases h1 : p.objective.evaluate x with
    | error e => simp [h1] at h
    | ok fval =>
      cases h2 : feasibilityStatus p x with
      | error e => simp [h1, h2] at h
      | ok st =>
        cases h3 : evalSamples p l with
        | error e => simp [h1, h2, h3] at h
        | ok r' =>
          simp only [h1, h2, h3, Except.ok.injEq] at h
          subst h
          obtain ⟨a, b⟩ := ih h3
          obtain ⟨c, d, e⟩ := feasibilityStatus_inv h2
          refine ⟨by simp [a], ?_⟩
          intro s hs
          rcases List.mem_cons.mp hs with rfl | hs
          · exact ⟨c, (Objective.evaluate_inv h1).2.2, d, e⟩
          · exact b s hs

theorem mergeSamples_ok {convs : List Interp} {raw : List Sample} (prob : Assoc (List ℚ) ℚ)
    (h : ∀ s ∈ raw, ∃ x, interpretAll convs s.x = .ok x) : ∃ r, mergeSamples convs raw prob = .ok r := by
  induction raw generalizing prob with
  | nil => exact ⟨_, rfl⟩
  | cons s l ih =>
    obtain ⟨x, hx⟩ := h s (by simp)
    simp only [mergeSamples, hx]
    exact ih _ fun t ht => h t (by simp [ht])

theorem feasibilityStatus_ok {p : QP} (hs : p.ShapeOK) {x : List ℚ} (hx : x.length = p.numVars) :
    ∃ s, feasibilityStatus p x = .ok s := by
  obtain ⟨b, hb, _⟩ := C07_isFeasible p hs.1 x hx
  exact ⟨_, by rw [feasibilityStatus, hb]⟩

theorem objective_ok {p : QP} (hs : p.ShapeOK) {x : List ℚ} (hx : x.length = p.numVars) :
    p.objective.evaluate x = .ok (p.objective.val (pt x)) :=
  Objective.evaluate_ok (hx.trans hs.2.1.symm) (hx.trans hs.2.2.symm)

theorem evalSamples_ok {p : QP} (hs : p.ShapeOK) {prob : Assoc (List ℚ) ℚ}
    (h : ∀ x ∈ Assoc.keys prob, x.length = p.numVars) : ∃ r, evalSamples p prob = .ok r := by
  induction prob with
  | nil => exact ⟨[], rfl⟩
  | cons q l ih =>
    obtain ⟨x, pr⟩ := q
    have hx : x.length = p.numVars := h x (by simp [Assoc.keys])
    obtain ⟨st, hst⟩ := feasibilityStatus_ok hs hx
    obtain ⟨r, hr⟩ := ih (fun y hy => h y (by
      simp only [Assoc.keys, List.map_cons, List.mem_cons]; exact Or.inr hy))
    exact ⟨⟨x, p.objective.val (pt x), pr, st⟩ :: r, by simp only [evalSamples, objective_ok hs hx, hst, hr]⟩

theorem Forall₂.mem_right {α β : Type} {R : α → β → Prop} {l : List α} {l' : List β} (h : List.Forall₂ R l l')
    {b : β} (hb : b ∈ l') : ∃ a ∈ l, R a b := by
  induction h with
  | nil => simp at hb
  | cons hab _ ih =>
    rcases List.mem_cons.mp hb with rfl | hb
    · exact ⟨_, by simp, hab⟩
    · obtain ⟨a, ha, hr⟩ := ih hb; exact ⟨a, by simp [ha], hr⟩

theorem Forall₂.mem_left {α β : Type} {R : α → β → Prop} {l : List α} {l' : List β} (h : List.Forall₂ R l l')
    {a : α} (ha : a ∈ l) : ∃ b ∈ l', R a b := by
  induction h with
  | nil => simp at ha
  | cons hab _ ih =>
    rcases List.mem_cons.mp ha with rfl | ha
    · exact ⟨_, by simp, hab⟩
    · obtain ⟨b, hb, hr⟩ := ih ha; exact ⟨b, by simp [hb], hr⟩

end Verif
