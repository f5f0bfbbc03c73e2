import Verif.SubstituteSpec
import Verif.SubstituteLemmas
import Verif.WFLemmas

/-!
# Helper lemmas: the substitution table and the whole of `substitute_variables`
-/

namespace Verif

/-- The key denotes the variable named `s`. -/
def NameOf (p : QP) (k : Key) (s : String) : Prop := ∃ v, p.getVariable k = .ok v ∧ v.name = s

theorem getVariable_iff {p : QP} (hp : p.Consistent) (k : Key) (v : Variable) :
    p.getVariable k = .ok v ↔ ∃ i, p.Denotes k i ∧ p.vars[i]? = some v := by
  cases k with
  | idx m =>
    simp only [QP.getVariable, QP.Denotes]
    constructor
    · intro h
      split at h
      · rename_i w hw; simp at h; subst h
        exact ⟨m, ⟨rfl, (List.getElem?_eq_some_iff.mp hw).1⟩, hw⟩
      · simp at h
    · rintro ⟨i, ⟨rfl, _⟩, h⟩; simp [h]
  | name s =>
    constructor
    · intro h
      simp only [QP.getVariable] at h
      split at h
      · simp at h
      · rename_i i hi
        split at h
        · rename_i w hw
          simp at h; subst h
          rw [hp.vars.get?] at hi
          exact ⟨i, by simpa [QP.Denotes] using hi, hw⟩
        · simp at h
    · rintro ⟨i, hd, hi⟩
      have : Assoc.get? p.varsIndex s = some i := by
        rw [hp.vars.get?]; simpa [QP.Denotes] using hd
      simp [QP.getVariable, this, hi]

theorem Denotes.lt {p : QP} {k : Key} {i : Nat} (h : p.Denotes k i) : i < p.vars.length := by
  cases k with
  | idx m => exact h.2
  | name s =>
    simp only [QP.Denotes, Option.map_eq_some_iff] at h
    obtain ⟨v, hv, _⟩ := h
    exact (List.getElem?_eq_some_iff.mp hv).1

theorem name_pos {p : QP} (hp : p.Consistent) {i j : Nat} {v w : Variable} (hi : p.vars[i]? = some v)
    (hj : p.vars[j]? = some w) (h : v.name = w.name) : i = j := by
  have h1 : Assoc.get? p.varsIndex v.name = some i := by rw [hp.vars.get?]; simp [hi]
  have h2 : Assoc.get? p.varsIndex v.name = some j := by rw [hp.vars.get?]; simp [hj, h]
  rw [h1] at h2; simpa using h2

theorem NameOf_iff {p : QP} (hp : p.Consistent) (k : Key) (s : String) :
    NameOf p k s ↔ ∃ i v, p.Denotes k i ∧ p.vars[i]? = some v ∧ v.name = s := by
  unfold NameOf
  simp only [getVariable_iff hp]
  constructor
  · rintro ⟨v, ⟨i, h1, h2⟩, h3⟩; exact ⟨i, v, h1, h2, h3⟩
  · rintro ⟨i, v, h1, h2, h3⟩; exact ⟨v, ⟨i, h1, h2⟩, h3⟩

theorem sameVar_iff {p : QP} (hp : p.Consistent) (k l : Key) :
    p.SameVar k l ↔ ∃ s, NameOf p k s ∧ NameOf p l s := by
  simp only [NameOf_iff hp]
  constructor
  · rintro ⟨i, h1, h2⟩
    have hlt := Denotes.lt h1
    exact ⟨(p.vars[i]).name, ⟨i, _, h1, by simp [hlt], rfl⟩, ⟨i, _, h2, by simp [hlt], rfl⟩⟩
  · rintro ⟨s, ⟨i, v, h1, h2, h3⟩, ⟨j, w, h4, h5, h6⟩⟩
    have := name_pos hp h2 h5 (h3.trans h6.symm)
    subst this
    exact ⟨i, h1, h4⟩

theorem NameOf.unique {p : QP} {k : Key} {s t : String} (h1 : NameOf p k s) (h2 : NameOf p k t) : s = t := by
  obtain ⟨v, hv, rfl⟩ := h1
  obtain ⟨w, hw, rfl⟩ := h2
  rw [hv] at hw; simp at hw; rw [hw]

theorem NameOf.mem {p : QP} (hp : p.Consistent) {k : Key} {s : String} (h : NameOf p k s) :
    s ∈ p.vars.map Variable.name := by
  obtain ⟨i, v, _, h2, h3⟩ := (NameOf_iff hp k s).mp h
  rw [← h3]; exact List.mem_map_of_mem (List.mem_of_getElem? h2)

theorem known_ok {p : QP} (hp : p.Consistent) {k : Key} (h : ∃ i, p.Denotes k i) :
    ∃ v, p.getVariable k = .ok v := by
  obtain ⟨i, hi⟩ := h
  exact ⟨p.vars[i]'(Denotes.lt hi), (getVariable_iff hp k _).mpr ⟨i, hi, by simp [Denotes.lt hi]⟩⟩

/-! ## Success of the table -/

theorem subsConstants_cases {src : QP} (hs : src.Consistent) (l : List (Key × ℚ)) (acc : Subs)
    (hk : ∀ e ∈ l, ∃ i, src.Denotes e.1 i) :
    ((∃ subs, subsConstants src l acc = .ok subs) ∧
      (∀ e ∈ l, ∀ s, NameOf src e.1 s → s ∉ Assoc.keys acc) ∧
      l.Pairwise (fun a b => ¬ src.SameVar a.1 b.1)) ∨
    (subsConstants src l acc = .error .optimization ∧
      ¬ ((∀ e ∈ l, ∀ s, NameOf src e.1 s → s ∉ Assoc.keys acc) ∧
      l.Pairwise (fun a b => ¬ src.SameVar a.1 b.1))) := by
  induction l generalizing acc with
  | nil => left; simp [subsConstants]
  | cons e l ih =>
    obtain ⟨k, v⟩ := e
    obtain ⟨vi, hvi⟩ := known_ok hs (hk (k, v) List.mem_cons_self)
    simp only at hvi
    have hn : NameOf src k vi.name := ⟨vi, hvi, rfl⟩
    simp only [subsConstants, hvi]
    split
    · rename_i hh
      right
      refine ⟨rfl, ?_⟩
      rintro ⟨h1, _⟩
      exact h1 (k, v) List.mem_cons_self vi.name hn (Assoc.has_iff.mp hh)
    · rename_i hh
      have hnm : vi.name ∉ Assoc.keys acc := fun h => hh (Assoc.has_iff.mpr h)
      have heq : ((∀ e ∈ l, ∀ s, NameOf src e.1 s → s ∉ Assoc.keys (Assoc.set acc vi.name (CONST, v))) ∧
          l.Pairwise (fun a b => ¬ src.SameVar a.1 b.1)) ↔
          ((∀ e ∈ (k, v) :: l, ∀ s, NameOf src e.1 s → s ∉ Assoc.keys acc) ∧
          ((k, v) :: l).Pairwise (fun a b => ¬ src.SameVar a.1 b.1)) := by
        rw [List.pairwise_cons]
        constructor
        · rintro ⟨h1, h2⟩
          refine ⟨?_, ?_, h2⟩
          · intro e he s hes
            rcases List.mem_cons.mp he with rfl | he
            · rw [hes.unique hn]; exact hnm
            · exact fun hm => h1 e he s hes (Assoc.mem_keys_set.mpr (Or.inl hm))
          · intro e he hsame
            obtain ⟨s, h3, h4⟩ := (sameVar_iff hs _ _).mp hsame
            exact h1 e he s h4 (Assoc.mem_keys_set.mpr (Or.inr (h3.unique hn)))
        · rintro ⟨h1, h2, h3⟩
          refine ⟨?_, h3⟩
          intro e he s hes hm
          rcases Assoc.mem_keys_set.mp hm with hm | hm
          · exact h1 e (List.mem_cons_of_mem _ he) s hes hm
          · exact h2 e he ((sameVar_iff hs _ _).mpr ⟨s, hm ▸ hn, hes⟩)
      rw [← heq]
      exact ih _ (fun e he => hk e (List.mem_cons_of_mem _ he))

theorem subsConstants_get {src : QP} (l : List (Key × ℚ)) {acc subs : Subs}
    (h : subsConstants src l acc = .ok subs) (hacc : (Assoc.keys acc).Nodup) :
    (Assoc.keys subs).Nodup ∧ ∀ s r, Assoc.get? subs s = some r ↔
      (Assoc.get? acc s = some r ∨ ∃ e ∈ l, NameOf src e.1 s ∧ r = (CONST, e.2)) := by
  induction l generalizing acc with
  | nil => simp [subsConstants] at h; subst h; simp [hacc]
  | cons e l ih =>
    obtain ⟨k, v⟩ := e
    simp only [subsConstants] at h
    split at h
    · simp at h
    · rename_i vi hvi
      have hn : NameOf src k vi.name := ⟨vi, hvi, rfl⟩
      split at h
      · simp at h
      · rename_i hh
        have hnm : vi.name ∉ Assoc.keys acc := fun h => hh (Assoc.has_iff.mpr h)
        obtain ⟨g1, g2⟩ := ih h (Assoc.nodup_keys_set hacc _ _)
        refine ⟨g1, ?_⟩
        intro s r
        rw [g2, Assoc.get?_set]
        simp only [List.mem_cons, exists_eq_or_imp]
        by_cases hsn : vi.name = s
        · subst hsn
          have hgn : Assoc.get? acc vi.name = none := by
            rw [Assoc.mem_keys_iff] at hnm; simpa using hnm
          simp only [if_true, hgn, Option.some.injEq, reduceCtorEq, false_or, hn, true_and]
          constructor
          · rintro (h | h)
            · left; exact h.symm
            · right; exact h
          · rintro (h | h)
            · left; exact h.symm
            · right; exact h
        · simp only [hsn, if_false]
          constructor
          · rintro (h | h)
            · left; exact h
            · right; right; exact h
          · rintro (h | h | h)
            · left; exact h
            · exact absurd (hn.unique h.1) hsn
            · right; exact h

/-- What `subsVariables` checks. -/
def VarsOK (src : QP) (l : List (Key × Key × ℚ)) (acc : Subs) : Prop :=
  (∀ e ∈ l, e.2.2 ≠ 0 ∧ ¬ src.SameVar e.1 e.2.1 ∧
    ∀ s, (NameOf src e.1 s ∨ NameOf src e.2.1 s) → s ∉ Assoc.keys acc) ∧
  l.Pairwise (fun a b => ¬ src.SameVar a.1 b.1 ∧ ¬ src.SameVar a.1 b.2.1)

theorem subsVariables_cases {src : QP} (hs : src.Consistent) (l : List (Key × Key × ℚ)) (acc : Subs)
    (hk : ∀ e ∈ l, (∃ i, src.Denotes e.1 i) ∧ ∃ i, src.Denotes e.2.1 i) :
    ((∃ subs, subsVariables src l acc = .ok subs) ∧ VarsOK src l acc) ∨
    (subsVariables src l acc = .error .optimization ∧ ¬ VarsOK src l acc) := by
  induction l generalizing acc with
  | nil => left; simp [subsVariables, VarsOK]
  | cons e l ih =>
    obtain ⟨k, k', v⟩ := e
    have hke := hk (k, k', v) List.mem_cons_self
    obtain ⟨vi, hvi⟩ := known_ok hs hke.1
    obtain ⟨vj, hvj⟩ := known_ok hs hke.2
    simp only at hvi hvj
    have hn : NameOf src k vi.name := ⟨vi, hvi, rfl⟩
    have hn' : NameOf src k' vj.name := ⟨vj, hvj, rfl⟩
    simp only [subsVariables, hvi, hvj]
    by_cases hv : v = 0
    · right
      simp only [hv, if_true, true_and]
      rintro ⟨h1, _⟩
      exact (h1 _ List.mem_cons_self).1 rfl
    · simp only [hv, if_false]
      split
      · rename_i hij
        right
        refine ⟨rfl, ?_⟩
        rintro ⟨h1, _⟩
        exact (h1 _ List.mem_cons_self).2.1 ((sameVar_iff hs _ _).mpr ⟨vi.name, hn, hij ▸ hn'⟩)
      · rename_i hij
        split
        · rename_i hh
          right
          refine ⟨rfl, ?_⟩
          rintro ⟨h1, _⟩
          exact (h1 _ List.mem_cons_self).2.2 _ (Or.inl hn) (Assoc.has_iff.mp hh)
        · rename_i hh
          split
          · rename_i hh'
            right
            refine ⟨rfl, ?_⟩
            rintro ⟨h1, _⟩
            exact (h1 _ List.mem_cons_self).2.2 _ (Or.inr hn') (Assoc.has_iff.mp hh')
          · rename_i hh'
            have hnm : vi.name ∉ Assoc.keys acc := fun h => hh (Assoc.has_iff.mpr h)
            have hnm' : vj.name ∉ Assoc.keys acc := fun h => hh' (Assoc.has_iff.mpr h)
            have heq : VarsOK src l (Assoc.set acc vi.name (vj.name, v)) ↔
                VarsOK src ((k, k', v) :: l) acc := by
              unfold VarsOK
              rw [List.pairwise_cons]
              constructor
              · rintro ⟨h1, h2⟩
                refine ⟨?_, ?_, h2⟩
                · intro e he
                  rcases List.mem_cons.mp he with rfl | he
                  · refine ⟨hv, ?_, ?_⟩
                    · intro hsame
                      obtain ⟨s, h3, h4⟩ := (sameVar_iff hs _ _).mp hsame
                      exact hij ((hn.unique h3).trans (h4.unique hn'))
                    · rintro s (h3 | h3)
                      · rw [h3.unique hn]; exact hnm
                      · rw [h3.unique hn']; exact hnm'
                  · obtain ⟨g1, g2, g3⟩ := h1 e he
                    exact ⟨g1, g2, fun s hs hm => g3 s hs (Assoc.mem_keys_set.mpr (Or.inl hm))⟩
                · intro e he
                  constructor
                  · intro hsame
                    obtain ⟨s, h3, h4⟩ := (sameVar_iff hs _ _).mp hsame
                    exact (h1 e he).2.2 s (Or.inl h4) (Assoc.mem_keys_set.mpr (Or.inr (h3.unique hn)))
                  · intro hsame
                    obtain ⟨s, h3, h4⟩ := (sameVar_iff hs _ _).mp hsame
                    exact (h1 e he).2.2 s (Or.inr h4) (Assoc.mem_keys_set.mpr (Or.inr (h3.unique hn)))
              · rintro ⟨h1, h2, h3⟩
                refine ⟨?_, h3⟩
                intro e he
                obtain ⟨g1, g2, g3⟩ := h1 e (List.mem_cons_of_mem _ he)
                refine ⟨g1, g2, ?_⟩
                intro s hse hm
                rcases Assoc.mem_keys_set.mp hm with hm | hm
                · exact g3 s hse hm
                · rcases hse with hse | hse
                  · exact (h2 e he).1 ((sameVar_iff hs _ _).mpr ⟨s, hm ▸ hn, hse⟩)
                  · exact (h2 e he).2 ((sameVar_iff hs _ _).mpr ⟨s, hm ▸ hn, hse⟩)
            rw [← heq]
            exact ih _ (fun e he => hk e (List.mem_cons_of_mem _ he))

theorem subsVariables_get {src : QP} (l : List (Key × Key × ℚ)) {acc subs : Subs}
    (h : subsVariables src l acc = .ok subs) (hacc : (Assoc.keys acc).Nodup) :
    (Assoc.keys subs).Nodup ∧ ∀ s r, Assoc.get? subs s = some r ↔
      (Assoc.get? acc s = some r ∨ ∃ e ∈ l, NameOf src e.1 s ∧ NameOf src e.2.1 r.1 ∧ r.2 = e.2.2) := by
  induction l generalizing acc with
  | nil => simp [subsVariables] at h; subst h; simp [hacc]
  | cons e l ih =>
    obtain ⟨k, k', v⟩ := e
    simp only [subsVariables] at h
    split at h
    · simp at h
    · split at h
      · simp at h
      · rename_i vi hvi
        have hn : NameOf src k vi.name := ⟨vi, hvi, rfl⟩
        split at h
        · simp at h
        · rename_i vj hvj
          have hn' : NameOf src k' vj.name := ⟨vj, hvj, rfl⟩
          split at h
          · simp at h
          · split at h
            · simp at h
            · rename_i hh
              split at h
              · simp at h
              · have hnm : vi.name ∉ Assoc.keys acc := fun h => hh (Assoc.has_iff.mpr h)
                obtain ⟨g1, g2⟩ := ih h (Assoc.nodup_keys_set hacc _ _)
                refine ⟨g1, ?_⟩
                intro s r
                rw [g2, Assoc.get?_set]
                simp only [List.mem_cons, exists_eq_or_imp]
                by_cases hsn : vi.name = s
                · subst hsn
                  have hgn : Assoc.get? acc vi.name = none := by
                    rw [Assoc.mem_keys_iff] at hnm; simpa using hnm
                  have hr : ((vj.name, v) = r) ↔ (NameOf src k' r.1 ∧ r.2 = v) := by
                    constructor
                    · rintro rfl; exact ⟨hn', rfl⟩
                    · rintro ⟨h1, h2⟩; rw [← h2, hn'.unique h1]
                  simp only [if_true, hgn, Option.some.injEq, reduceCtorEq, false_or, hn, true_and, hr]
                · simp only [hsn, if_false]
                  constructor
                  · rintro (h | h)
                    · left; exact h
                    · right; right; exact h
                  · rintro (h | h | h)
                    · left; exact h
                    · exact absurd (hn.unique h.1) hsn
                    · right; exact h

/-- The contents of the table. -/
theorem subsDict_get {src : QP} {consts : List (Key × ℚ)} {varSubs : List (Key × Key × ℚ)} {subs : Subs}
    (h : subsDict src consts varSubs = .ok subs) :
    (Assoc.keys subs).Nodup ∧ ∀ s r, Assoc.get? subs s = some r ↔
      ((∃ e ∈ consts, NameOf src e.1 s ∧ r = (CONST, e.2)) ∨
        ∃ e ∈ varSubs, NameOf src e.1 s ∧ NameOf src e.2.1 r.1 ∧ r.2 = e.2.2) := by
  unfold subsDict at h
  split at h
  · simp at h
  · rename_i s1 h1
    obtain ⟨g1, g2⟩ := subsConstants_get consts h1 (by simp [Assoc.keys])
    obtain ⟨g3, g4⟩ := subsVariables_get varSubs h g1
    refine ⟨g3, ?_⟩
    intro s r
    rw [g4, g2]
    simp

/-! ## The whole of `substitute_variables` -/

/-- The stages of a successful substitution. -/
structure Stages (src dst : QP) (consts : List (Key × ℚ)) (varSubs : List (Key × Key × ℚ)) (subs : Subs)
    (d0 d1 d2 d3 d4 : QP) (fa f3 f4 : Bool) : Prop where
  table : subsDict src consts varSubs = .ok subs
  copy : copyVars subs src.vars (QP.empty src.name) = .ok d0
  adjust : adjustBounds src subs d0 true = .ok (d1, fa)
  obj : substObjective src subs d1 = .ok d2
  lins : substLins src subs src.lins d2 true = .ok (d3, f3)
  quads : substQuads src subs src.quads d3 true = .ok (d4, f4)
  result : dst = { d4 with status :=
    if ((fa && d1.vars.all fun v => decide (v.lb ≤ v.ub)) && f3 && f4) then .valid else .infeasible }

theorem substitute_stages {src dst : QP} {consts : List (Key × ℚ)} {varSubs : List (Key × Key × ℚ)}
    (h : src.substitute consts varSubs = .ok dst) :
    ∃ subs d0 d1 d2 d3 d4 fa f3 f4, Stages src dst consts varSubs subs d0 d1 d2 d3 d4 fa f3 f4 := by
  unfold QP.substitute at h
  split at h
  · simp at h
  · rename_i subs h0
    split at h
    · simp at h
    · rename_i d1 f1 h1
      unfold substVars at h1
      split at h1
      · simp at h1
      · rename_i d0 hc
        split at h1
        · simp at h1
        · rename_i d1' fa ha
          simp only [Except.ok.injEq, Prod.mk.injEq] at h1
          obtain ⟨rfl, rfl⟩ := h1
          split at h
          · simp at h
          · rename_i d2 h2
            split at h
            · simp at h
            · rename_i d3 f3 h3
              split at h
              · simp at h
              · rename_i d4 f4 h4
                simp only [Except.ok.injEq] at h
                exact ⟨subs, d0, d1', d2, d3, d4, fa, f3, f4, h0, hc, ha, h2, h3, h4, h.symm⟩

theorem adjustBounds_const {src : QP} {l : Subs} {dst dst' : QP} {f f' : Bool}
    (h : adjustBounds src l dst f = .ok (dst', f')) (hs : src.Consistent) (hd : dst.Consistent) :
    SameButBounds dst dst' ∧ (∀ t ∈ l, t.2.1 ≠ CONST → t.2.1 ∈ dst.vars.map Variable.name) := by
  induction l generalizing dst f with
  | nil => simp [adjustBounds] at h; obtain ⟨rfl, rfl⟩ := h; simp [SameButBounds.refl]
  | cons t l ih =>
    obtain ⟨i, j, v⟩ := t
    simp only [adjustBounds] at h
    split at h
    · simp at h
    · rename_i vi hvi
      split at h
      · rename_i hj
        obtain ⟨g1, g2⟩ := ih h hd
        refine ⟨g1, ?_⟩
        intro t ht hne
        rcases List.mem_cons.mp ht with rfl | ht
        · exact absurd hj hne
        · exact g2 t ht hne
      · split at h
        · simp at h
        · split at h
          · simp at h
          · rename_i k hk
            split at h
            · simp at h
            · rename_i vj hvj
              generalize (if v > 0 then max vj.lb (scaleBound vi.lb v) else max vj.lb (scaleBound vi.ub v))
                = lo at h
              generalize (if v > 0 then min vj.ub (scaleBound vi.ub v) else min vj.ub (scaleBound vi.lb v))
                = up at h
              have hlt : k < dst.vars.length := (List.getElem?_eq_some_iff.mp hvj).1
              simp only [QP.setLowerbound, hvj, Variable.setLb] at h
              by_cases s1 : lo > vj.ub
              · simp [s1] at h
              · simp only [s1, if_false, QP.setUpperbound, List.getElem?_set_self hlt, Variable.setUb] at h
                by_cases s2 : lo > up
                · simp [s2] at h
                · simp only [s2, if_false, List.set_set] at h
                  have hsb : SameButBounds dst
                      { dst with vars := dst.vars.set k { name := vj.name, lb := lo, ub := up, vartype := vj.vartype } } := by
                    have gn : dst.vars[k] = vj := (List.getElem?_eq_some_iff.mp hvj).2
                    refine ⟨?_, ?_, rfl, rfl, rfl, rfl, rfl⟩
                    · simp only [List.map_set]
                      rw [← gn, ← List.getElem_map Variable.name, List.set_getElem_self]; simpa using hlt
                    · simp only [List.map_set]
                      rw [← gn, ← List.getElem_map Variable.vartype, List.set_getElem_self]; simpa using hlt
                  obtain ⟨g1, g2⟩ := ih h (hsb.cons hd)
                  refine ⟨hsb.trans g1, ?_⟩
                  intro t ht hne
                  rcases List.mem_cons.mp ht with rfl | ht
                  · have hvk : vj.name = j := by
                      rw [hd.vars.get?] at hk; simpa [hvj] using hk
                    simp only
                    rw [← hvk]; exact List.mem_map_of_mem (List.mem_of_getElem? hvj)
                  · rw [← hsb.names]; exact g2 t ht hne

/-- Facts about the variables of the stages. -/
structure VarFacts (src dst : QP) (consts : List (Key × ℚ)) (varSubs : List (Key × Key × ℚ)) (subs : Subs)
    (d0 d1 : QP) : Prop where
  nodup : (Assoc.keys subs).Nodup
  get : ∀ s r, Assoc.get? subs s = some r ↔
      ((∃ e ∈ consts, NameOf src e.1 s ∧ r = (CONST, e.2)) ∨
        ∃ e ∈ varSubs, NameOf src e.1 s ∧ NameOf src e.2.1 r.1 ∧ r.2 = e.2.2)
  vars0 : d0.vars = src.vars.filter (fun v => !Assoc.has subs v.name)
  cons0 : d0.Consistent
  same : SameButBounds d0 d1
  repl : ∀ t ∈ subs, t.2.1 ≠ CONST → t.2.1 ∈ d0.vars.map Variable.name
  dvars : dst.vars = d1.vars
  dindex : dst.varsIndex = d1.varsIndex

theorem Stages.facts {src dst : QP} {consts : List (Key × ℚ)} {varSubs : List (Key × Key × ℚ)} {subs : Subs}
    {d0 d1 d2 d3 d4 : QP} {fa f3 f4 : Bool} (h : Stages src dst consts varSubs subs d0 d1 d2 d3 d4 fa f3 f4)
    (hs : src.WF) : VarFacts src dst consts varSubs subs d0 d1 := by
  obtain ⟨g1, g2⟩ := subsDict_get h.table
  obtain ⟨c1, c2, _, _⟩ := copyVars_ok h.copy (QP.empty_consistent _)
  obtain ⟨a1, a2⟩ := adjustBounds_const h.adjust hs.cons c1
  obtain ⟨_, _, _, _, _, _, _, _, _, _, _, hd2⟩ := substObjective_ok h.obj
  have hinj : IxInj d2.varsIndex := by rw [hd2]; exact (a1.cons c1).vars.inj
  obtain ⟨l1, l2, _, _, _⟩ := substLins_spec src.lins h.lins hs.cons hs.lins hinj
  obtain ⟨q1, q2, _, _⟩ := substQuads_spec src.quads h.quads hs.cons hs.quads (by rw [l2]; exact hinj)
  refine ⟨g1, g2, by simpa [QP.empty] using c2, c1, a1, a2, ?_, ?_⟩
  · rw [h.result]; show d4.vars = _
    rw [q1, l1, hd2]
  · rw [h.result]; show d4.varsIndex = _
    rw [q2, l2, hd2]

theorem VarFacts.kept_iff {src dst : QP} {consts : List (Key × ℚ)} {varSubs : List (Key × Key × ℚ)}
    {subs : Subs} {d0 d1 : QP} (h : VarFacts src dst consts varSubs subs d0 d1) (s : String) :
    s ∈ d0.vars.map Variable.name ↔ s ∈ src.vars.map Variable.name ∧ Assoc.get? subs s = none := by
  rw [h.vars0]
  simp only [List.mem_map, List.mem_filter, Bool.not_eq_true']
  have hh : ∀ t, Assoc.has subs t = false ↔ Assoc.get? subs t = none := by
    intro t; simp [Assoc.has]
  constructor
  · rintro ⟨v, ⟨hv, hn⟩, rfl⟩; exact ⟨⟨v, hv, rfl⟩, (hh _).mp hn⟩
  · rintro ⟨⟨v, hv, rfl⟩, hn⟩; exact ⟨v, ⟨hv, (hh _).mpr hn⟩, rfl⟩

theorem nameVal_at {p : QP} (hp : p.Consistent) {i : Nat} {v : Variable} (h : p.vars[i]? = some v)
    (x : Nat → ℚ) : nameVal p.varsIndex x v.name = x i := by
  unfold nameVal
  rw [(hp.vars.get? v.name i).mpr (by simp [h])]; rfl

section Ext
variable {src dst : QP} {consts : List (Key × ℚ)} {varSubs : List (Key × Key × ℚ)}
    {subs : Subs} {d0 d1 : QP}

theorem VarFacts.cons1 (h : VarFacts src dst consts varSubs subs d0 d1) : d1.Consistent := h.same.cons h.cons0

/-- Names kept: values agree. -/
theorem ext_kept (h : VarFacts src dst consts varSubs subs d0 d1) (hs : src.WF) {x y : Nat → ℚ}
    (hx : IsExtension src dst consts varSubs x y) {s : String} (hm : s ∈ d0.vars.map Variable.name) :
    nameVal src.varsIndex x s = nameVal d1.varsIndex y s := by
  have hm1 : s ∈ d1.vars.map Variable.name := by rw [h.same.names]; exact hm
  obtain ⟨w, hw, hwn⟩ := List.mem_map.mp hm1
  obtain ⟨v, hv, hvn⟩ := List.mem_map.mp ((h.kept_iff s).mp hm).1
  obtain ⟨a, ha⟩ := List.mem_iff_getElem?.mp hw
  obtain ⟨i, hi⟩ := List.mem_iff_getElem?.mp hv
  have := hx.kept i a v w hi (by rw [h.dvars]; exact ha) (hvn.trans hwn.symm)
  rw [← nameVal_at hs.cons hi x, ← nameVal_at h.cons1 ha y, hvn, hwn] at this
  exact this

theorem ext_entry (h : VarFacts src dst consts varSubs subs d0 d1) (hs : src.WF)
    (hc : CONST ∉ src.vars.map Variable.name) {x y : Nat → ℚ}
    (hx : IsExtension src dst consts varSubs x y) {s : String} {r : String × ℚ}
    (hg : Assoc.get? subs s = some r) :
    nameVal src.varsIndex x s =
      if r.1 = CONST then r.2 else r.2 * nameVal d1.varsIndex y r.1 := by
  rcases (h.get s r).mp hg with ⟨e, he, hn, rfl⟩ | ⟨e, he, hn, hn', hr⟩
  · obtain ⟨i, v, hd, hi, rfl⟩ := (NameOf_iff hs.cons _ _).mp hn
    rw [if_pos rfl, nameVal_at hs.cons hi, hx.const e he i hd]
  · have hr1 : r.1 ∈ src.vars.map Variable.name := hn'.mem hs.cons
    have hne : r.1 ≠ CONST := fun hh => hc (hh ▸ hr1)
    rw [if_neg hne]
    have hk := h.repl (s, r) (Assoc.get?_mem hg) hne
    rw [← ext_kept h hs hx hk]
    obtain ⟨i, v, hd, hi, rfl⟩ := (NameOf_iff hs.cons _ _).mp hn
    obtain ⟨j, w, hd', hj, hwn⟩ := (NameOf_iff hs.cons _ _).mp hn'
    rw [← hwn, nameVal_at hs.cons hi, nameVal_at hs.cons hj, hx.var e he i j hd hd', hr]

theorem ext_corr (h : VarFacts src dst consts varSubs subs d0 d1) (hs : src.WF)
    (hc : CONST ∉ src.vars.map Variable.name) {x y : Nat → ℚ}
    (hx : IsExtension src dst consts varSubs x y) : Corr src d1 subs x y := by
  intro s hm
  unfold Subst1 Verif.repl
  cases hg : Assoc.get? subs s with
  | none =>
    have hne : s ≠ CONST := fun hh => hc (hh ▸ hm)
    simp only [Option.getD_none, hne, if_false, one_mul]
    exact ext_kept h hs hx ((h.kept_iff s).mpr ⟨hm, hg⟩)
  | some r =>
    simp only [Option.getD_some]
    exact ext_entry h hs hc hx hg

theorem ext_bounds (h : VarFacts src dst consts varSubs subs d0 d1) (hs : src.WF) {x y : Nat → ℚ}
    (hx : IsExtension src dst consts varSubs x y) :
    src.InBounds x ↔ d0.InBounds y ∧ ∀ t ∈ subs, BoundsAt src t.1 (nameVal src.varsIndex x t.1) := by
  have hcons0 := h.cons0
  have hix : d1.varsIndex = d0.varsIndex := h.same.varsIndex
  constructor
  · intro hb
    refine ⟨?_, ?_⟩
    · intro a w ha
      have hwm : w ∈ d0.vars := List.mem_of_getElem? ha
      have hk := ext_kept h hs hx (List.mem_map_of_mem hwm)
      rw [hix, nameVal_at hcons0 ha y] at hk
      rw [h.vars0, List.mem_filter] at hwm
      obtain ⟨i, hi⟩ := List.mem_iff_getElem?.mp hwm.1
      rw [nameVal_at hs.cons hi x] at hk
      rw [← hk]; exact hb i w hi
    · intro t _ v hv hn
      obtain ⟨i, hi⟩ := List.mem_iff_getElem?.mp hv
      rw [← hn, nameVal_at hs.cons hi x]
      exact hb i v hi
  · rintro ⟨h1, h2⟩ i v hi
    have hvm := List.mem_of_getElem? hi
    cases hg : Assoc.get? subs v.name with
    | none =>
      have hmem : v.name ∈ d0.vars.map Variable.name :=
        (h.kept_iff _).mpr ⟨List.mem_map_of_mem hvm, hg⟩
      have hk := ext_kept h hs hx hmem
      have hv0 : v ∈ d0.vars := by
        rw [h.vars0, List.mem_filter]; exact ⟨hvm, by simp [Assoc.has, hg]⟩
      obtain ⟨a, ha⟩ := List.mem_iff_getElem?.mp hv0
      rw [hix, nameVal_at hcons0 ha y, nameVal_at hs.cons hi x] at hk
      rw [hk]; exact h1 a v ha
    | some r =>
      have := h2 (v.name, r) (Assoc.get?_mem hg) v hvm rfl
      rwa [nameVal_at hs.cons hi x] at this

theorem ext_entryOK (h : VarFacts src dst consts varSubs subs d0 d1) (hs : src.WF)
    (hc : CONST ∉ src.vars.map Variable.name) {x y : Nat → ℚ}
    (hx : IsExtension src dst consts varSubs x y) (hb : ∀ i < src.numVars, |x i| ≤ INFINITY) :
    ∀ t ∈ subs, EntryOK (nameVal src.varsIndex x) (nameVal d0.varsIndex y) t := by
  intro t ht
  have hg := Assoc.get?_of_mem h.nodup (k := t.1) (v := t.2) ht
  have he := ext_entry h hs hc hx hg
  have hix : d1.varsIndex = d0.varsIndex := h.same.varsIndex
  have hval : ∀ s ∈ src.vars.map Variable.name, |nameVal src.varsIndex x s| ≤ INFINITY := by
    intro s hm
    obtain ⟨v, hv, rfl⟩ := List.mem_map.mp hm
    obtain ⟨i, hi⟩ := List.mem_iff_getElem?.mp hv
    rw [nameVal_at hs.cons hi]
    exact hb i (List.getElem?_eq_some_iff.mp hi).1
  unfold EntryOK
  split
  · rename_i hcc; rw [he, if_pos hcc]
  · rename_i hcc
    have hk := h.repl t ht hcc
    have hkk := ext_kept h hs hx hk
    rw [hix] at hkk
    refine ⟨by rw [he, if_neg hcc, hix], ?_, ?_⟩
    · apply hval
      rcases (h.get _ _).mp hg with ⟨e, _, hn, _⟩ | ⟨e, _, hn, _, _⟩ <;> exact hn.mem hs.cons
    · rw [← hkk]; exact hval _ ((h.kept_iff _).mp hk).1

end Ext

/-- Objective, bounds, constraints of the result. -/
theorem substitute_spec {src dst : QP} {consts : List (Key × ℚ)} {varSubs : List (Key × Key × ℚ)}
    (h : src.substitute consts varSubs = .ok dst) (hs : src.WF)
    (hc : CONST ∉ src.vars.map Variable.name) {x y : Nat → ℚ}
    (hx : IsExtension src dst consts varSubs x y) :
    dst.objective.sense = src.objective.sense ∧ dst.objective.val y = src.objective.val x ∧
    (src.SaneBounds → (∀ i < src.numVars, |x i| ≤ INFINITY) →
      ((dst.status = .valid ∧ dst.InBounds y ∧ dst.Sat y) ↔ (src.InBounds x ∧ src.Sat x))) := by
  obtain ⟨subs, d0, d1, d2, d3, d4, fa, f3, f4, st⟩ := substitute_stages h
  have hf := st.facts hs
  have hcorr := ext_corr hf hs hc hx
  have hinj1 : IxInj d1.varsIndex := hf.cons1.vars.inj
  obtain ⟨c1, l1, c2, l2, q, le, qe, _, _, _, _, hd2⟩ := substObjective_ok st.obj
  have hv2 : d2.varsIndex = d1.varsIndex := by rw [hd2]
  have hval := substObjective_val st.obj hs hinj1 hcorr
  have hcorr2 : Corr src d2 subs x y := by unfold Corr; rw [hv2]; exact hcorr
  obtain ⟨e1, e2, e3, e4, _, e5⟩ := substLins_spec src.lins st.lins hs.cons hs.lins (by rw [hv2]; exact hinj1)
  have hcorr3 : Corr src d3 subs x y := by unfold Corr; rw [e2, hv2]; exact hcorr
  obtain ⟨q1, q2, q3, _, q5⟩ := substQuads_spec src.quads st.quads hs.cons hs.quads
    (by rw [e2, hv2]; exact hinj1)
  have hobj : dst.objective = d2.objective := by rw [st.result]; show d4.objective = _; rw [q3, e3]
  refine ⟨by rw [hobj, hd2], by rw [hobj]; exact hval, ?_⟩
  intro hsane hbnd
  obtain ⟨cc1, _, cl, cq⟩ := copyVars_ok st.copy (QP.empty_consistent _)
  obtain ⟨_, _, adj⟩ := adjustBounds_spec hs.cons hsane subs st.adjust hf.cons0
  have hadj := adj (nameVal src.varsIndex x) y (ext_entryOK hf hs hc hx hbnd)
  have hl := e5 x y hcorr2
  have hq := q5 x y hcorr3
  have hl2 : d2.lins = [] := by
    rw [hd2]; show d1.lins = []; rw [hf.same.lins, cl]; rfl
  have hq3 : d3.quads = [] := by
    rw [e4, hd2]; show d1.quads = []; rw [hf.same.quads, cq]; rfl
  rw [hl2] at hl
  rw [hq3] at hq
  simp only [List.not_mem_nil, false_implies, implies_true, true_and, and_true] at hl hq
  have hin : dst.InBounds y ↔ d1.InBounds y := by unfold QP.InBounds; rw [hf.dvars]
  have hsat : dst.Sat y ↔ (∀ c ∈ d4.lins, c.Holds y) ∧ ∀ c ∈ d4.quads, c.Holds y := by
    rw [sat_iff, st.result]
  have hstat : dst.status = .valid ↔
      (((fa = true ∧ ∀ v ∈ d1.vars, v.lb ≤ v.ub) ∧ f3 = true) ∧ f4 = true) := by
    rw [st.result]
    show (if _ then _ else _) = _ ↔ _
    have : ((fa && d1.vars.all fun v => decide (v.lb ≤ v.ub)) && f3 && f4) = true ↔
        (((fa = true ∧ ∀ v ∈ d1.vars, v.lb ≤ v.ub) ∧ f3 = true) ∧ f4 = true) := by
      simp [Bool.and_eq_true]
    rw [← this]
    split <;> rename_i hh <;> simp [hh]
  have hall : d1.InBounds y → ∀ v ∈ d1.vars, v.lb ≤ v.ub := by
    intro hb v hv
    obtain ⟨i, hi⟩ := List.mem_iff_getElem?.mp hv
    have := hb i v hi; linarith [this.1, this.2]
  rw [hin, hsat, hstat, sat_iff, ext_bounds hf hs hx]
  constructor
  · rintro ⟨⟨⟨⟨ha, _⟩, h3⟩, h4⟩, hb, hll, hqq⟩
    obtain ⟨_, k1, k2⟩ := hadj.mp ⟨ha, hb⟩
    obtain ⟨k3, k4⟩ := hq.mp ⟨h4, hll, hqq⟩
    exact ⟨⟨k1, k2⟩, hl.mp ⟨h3, k3⟩, k4⟩
  · rintro ⟨⟨k1, k2⟩, k3, k4⟩
    obtain ⟨ha, hb⟩ := hadj.mpr ⟨rfl, k1, k2⟩
    obtain ⟨h3, hll⟩ := hl.mpr k3
    obtain ⟨h4, hll', hqq⟩ := hq.mpr ⟨hll, k4⟩
    exact ⟨⟨⟨⟨ha, hall hb⟩, h3⟩, h4⟩, hb, hll', hqq⟩

end Verif
