import Verif.DocplexSuccess

/-!
# Lemmas about the export to docplex
-/

namespace Verif

theorem Loaded.sat {m : DModel} {p : QP} (h : Loaded m p) (x : Nat → ℚ) : p.Sat x ↔ ∀ c ∈ m.csts, c.Holds x := by
  have aux : ∀ {α : Type} {R : DCst → α → Prop} {H : α → Prop} {l : List DCst} {ks : List α},
      (∀ c k, R c k → (H k ↔ c.Holds x)) → List.Forall₂ R l ks → ((∀ k ∈ ks, H k) ↔ ∀ c ∈ l, c.Holds x) := by
    intro α R H l ks hR hf
    induction hf with
    | nil => simp
    | cons hab _ ih => simp only [List.forall_mem_cons, ih, hR _ _ hab]
  rw [sat_iff, aux (H := fun k : LinCst => k.Holds x) (fun c k hk => hk.1 x) h.lins,
    aux (H := fun k : QuadCst => k.Holds x) (fun c k hk => hk.1 x) h.quads]
  constructor
  · rintro ⟨h1, h2⟩ c hc
    rcases h.supported c hc with hl | hl
    · exact h1 c (List.mem_filter.mpr ⟨hc, hl⟩)
    · exact h2 c (List.mem_filter.mpr ⟨hc, hl⟩)
  · intro h0
    exact ⟨fun c hc => h0 c (List.mem_filter.mp hc).1, fun c hc => h0 c (List.mem_filter.mp hc).1⟩

theorem addTerms_val (d : Dict Nat) (e : DExpr) (x : Nat → ℚ) : (addTerms d e).val x = e.val x + Dict.sum d x := by
  unfold addTerms
  induction d generalizing e with
  | nil => simp
  | cons p d ih => simp only [List.foldl_cons, ih, DExpr.val_add, DExpr.val_term, Dict.sum_cons]; ring

theorem addPairs_val (d : Dict (Nat × Nat)) (e : DExpr) (x : Nat → ℚ) :
    (addPairs d e).val x = e.val x + Dict.sum d fun k => x k.1 * x k.2 := by
  unfold addPairs
  induction d generalizing e with
  | nil => simp
  | cons p d ih => simp only [List.foldl_cons, ih, DExpr.val_add, DExpr.val_pair, Dict.sum_cons]; ring

theorem addTerms_wf {n : Nat} (d : Dict Nat) {e : DExpr} (he : e.WF n) (h : ∀ i ∈ Assoc.keys d, i < n) :
    (addTerms d e).WF n := by
  unfold addTerms
  induction d generalizing e with
  | nil => exact he
  | cons p d ih =>
    exact ih (he.add (term_wf (h p.1 (by simp [Assoc.keys])) _)) fun i hi => h i (List.mem_cons_of_mem _ hi)

theorem addPairs_wf {n : Nat} (d : Dict (Nat × Nat)) {e : DExpr} (he : e.WF n)
    (h : ∀ k ∈ Assoc.keys d, k.1 < n ∧ k.2 < n) : (addPairs d e).WF n := by
  unfold addPairs
  induction d generalizing e with
  | nil => exact he
  | cons p d ih =>
    have hp := h p.1 (by simp [Assoc.keys])
    exact ih (he.add (pair_wf hp.1 hp.2 _)) fun i hi => h i (List.mem_cons_of_mem _ hi)

theorem addTerms_isQuad (d : Dict Nat) {e : DExpr} (he : e.isQuad = false) : (addTerms d e).isQuad = false := by
  unfold addTerms
  induction d generalizing e with
  | nil => exact he
  | cons p d ih => exact ih (by simp [DExpr.add, DExpr.term, he])

/-- What is made from a linear constraint. -/
def linExport (c : LinCst) : List DCst :=
  if c.linear.coeffs.length = 0 then []
  else [.linear (addTerms c.linear.coeffs (.const 0)) c.sense (.const c.rhs) (some c.name)]

/-- What is made from a quadratic constraint. -/
def quadExport (c : QuadCst) : List DCst :=
  if c.quadratic.coeffs.length = 0 then
    if c.linear.coeffs.length = 0 then []
    else [.linear (addTerms c.linear.coeffs (.const 0)) c.sense (.const c.rhs) (some c.name)]
  else [.quadratic (addPairs c.quadratic.coeffs (addTerms c.linear.coeffs (.const 0))) c.sense (.const c.rhs)
    (some c.name)]

theorem zeroHolds_of_rel {s : Sense} {r : ℚ} (h : s.rel 0 r) : s.zeroHolds r = true := by
  cases s <;> simpa [Sense.zeroHolds, Sense.rel] using h

theorem exportLins_eq {trivial : Bool → Option String → Except Err (List DCst)}
    (ht : ∀ nm, trivial true nm = .ok []) {l : List LinCst}
    (h : ∀ c ∈ l, c.linear.coeffs = [] → c.sense.rel 0 c.rhs) : exportLins trivial l = .ok (l.flatMap linExport) := by
  induction l with
  | nil => rfl
  | cons c l ih =>
    have ih := ih fun c hc => h c (by simp [hc])
    have h0 := h c (by simp)
    simp only [exportLins, List.flatMap_cons, linExport, ih]
    by_cases hl : c.linear.coeffs.length = 0
    · have hz := zeroHolds_of_rel (h0 (List.length_eq_zero_iff.mp hl))
      simp only [hl, and_true, if_true, hz, ht]
      split <;> rfl
    · simp only [hl, and_false, if_false]

theorem exportQuads_eq {trivial : Bool → Option String → Except Err (List DCst)}
    (ht : ∀ nm, trivial true nm = .ok []) {l : List QuadCst}
    (h : ∀ c ∈ l, c.linear.coeffs = [] → c.quadratic.coeffs = [] → c.sense.rel 0 c.rhs) :
    exportQuads trivial l = .ok (l.flatMap quadExport) := by
  induction l with
  | nil => rfl
  | cons c l ih =>
    have ih := ih fun c hc => h c (by simp [hc])
    have h0 := h c (by simp)
    simp only [exportQuads, List.flatMap_cons, quadExport, ih]
    by_cases hq : c.quadratic.coeffs.length = 0
    · by_cases hl : c.linear.coeffs.length = 0
      · have hz := zeroHolds_of_rel (h0 (List.length_eq_zero_iff.mp hl) (List.length_eq_zero_iff.mp hq))
        simp only [hl, hq, and_true, if_true, hz, ht]
        split <;> rfl
      · simp only [hl, hq, and_true, and_false, if_false, if_true]
    · simp only [hq, and_false, if_false]

theorem linExport_holds {c : LinCst} (h : c.linear.coeffs = [] → c.sense.rel 0 c.rhs) (x : Nat → ℚ) :
    (∀ d ∈ linExport c, d.Holds x) ↔ c.Holds x := by
  unfold linExport
  split
  · rename_i hl
    have hl := List.length_eq_zero_iff.mp hl
    have : c.linear.val x = 0 := by simp [LinExpr.val, hl]
    simp only [List.not_mem_nil, false_implies, implies_true, true_iff, LinCst.Holds, this]
    exact h hl
  · simp only [List.mem_singleton, forall_eq, DCst.Holds, addTerms_val, DExpr.val_const, zero_add, LinCst.Holds]
    rfl

theorem quadExport_holds {c : QuadCst} (h : c.linear.coeffs = [] → c.quadratic.coeffs = [] → c.sense.rel 0 c.rhs)
    (x : Nat → ℚ) : (∀ d ∈ quadExport c, d.Holds x) ↔ c.Holds x := by
  unfold quadExport
  split
  · rename_i hq
    have hq := List.length_eq_zero_iff.mp hq
    have e2 : c.quadratic.val x = 0 := by simp [QuadExpr.val, hq]
    split
    · rename_i hl
      have hl := List.length_eq_zero_iff.mp hl
      have e1 : c.linear.val x = 0 := by simp [LinExpr.val, hl]
      simp only [List.not_mem_nil, false_implies, implies_true, true_iff, QuadCst.Holds, e1, e2, add_zero]
      exact h hl hq
    · simp only [List.mem_singleton, forall_eq, DCst.Holds, addTerms_val, DExpr.val_const, zero_add, QuadCst.Holds, e2,
        add_zero]
      rfl
  · simp only [List.mem_singleton, forall_eq, DCst.Holds, addPairs_val, addTerms_val, DExpr.val_const, zero_add,
      QuadCst.Holds]
    rfl

theorem linExport_wf {n : Nat} {c : LinCst} (h : c.linear.Fits n) : ∀ d ∈ linExport c, d.WF n := by
  have hb : ∀ i ∈ Assoc.keys c.linear.coeffs, i < n := fun i hi => lt_of_lt_of_le (h.1.bound i hi) h.2
  unfold linExport
  split
  · simp
  · simp only [List.mem_singleton, forall_eq]
    exact ⟨addTerms_wf _ (const_wf n 0) hb, const_wf n _, addTerms_isQuad _ rfl, rfl⟩

theorem quadExport_wf {n : Nat} {c : QuadCst} (h : c.linear.Fits n ∧ c.quadratic.Fits n) :
    ∀ d ∈ quadExport c, d.WF n := by
  have hb : ∀ i ∈ Assoc.keys c.linear.coeffs, i < n := fun i hi => lt_of_lt_of_le (h.1.1.bound i hi) h.1.2
  have hq : ∀ k ∈ Assoc.keys c.quadratic.coeffs, k.1 < n ∧ k.2 < n := fun k hk =>
    ⟨lt_of_lt_of_le (h.2.1.bound k hk).1 h.2.2, lt_of_lt_of_le (h.2.1.bound k hk).2 h.2.2⟩
  unfold quadExport
  split
  · split
    · simp
    · simp only [List.mem_singleton, forall_eq]
      exact ⟨addTerms_wf _ (const_wf n 0) hb, const_wf n _, addTerms_isQuad _ rfl, rfl⟩
  · simp only [List.mem_singleton, forall_eq]
    exact ⟨addPairs_wf _ (addTerms_wf _ (const_wf n 0) hb) hq, const_wf n _⟩

theorem export_supported (p : QP) : ∀ c ∈ p.lins.flatMap linExport ++ p.quads.flatMap quadExport,
    c.isLin = true ∨ c.isQuad = true := by
  intro c hc
  rcases List.mem_append.mp hc with hc | hc
  · obtain ⟨k, _, hk⟩ := List.mem_flatMap.mp hc
    unfold linExport at hk
    split at hk
    · simp at hk
    · simp only [List.mem_singleton] at hk; subst hk; exact Or.inl rfl
  · obtain ⟨k, _, hk⟩ := List.mem_flatMap.mp hc
    unfold quadExport at hk
    split at hk
    · split at hk
      · simp at hk
      · simp only [List.mem_singleton] at hk; subst hk; exact Or.inl rfl
    · simp only [List.mem_singleton] at hk; subst hk; exact Or.inr rfl

/-- The given names among a list of constraints. -/
def givenNames (cs : List DCst) : List String := (cs.map DCst.name).filterMap id

theorem givenNames_cons (c : DCst) (cs : List DCst) : givenNames (c :: cs) = c.name.toList ++ givenNames cs := by
  unfold givenNames
  cases h : c.name <;> simp [h]

theorem linExport_names (l : List LinCst) : (givenNames (l.flatMap linExport)).Sublist (l.map LinCst.name) := by
  induction l with
  | nil => simp [givenNames]
  | cons c l ih =>
    rw [List.flatMap_cons, List.map_cons]
    unfold linExport at *
    split
    · exact ih.cons _
    · rw [List.singleton_append, givenNames_cons]
      exact ih.cons_cons _

theorem linExport_isLin (l : List LinCst) : (l.flatMap linExport).filter DCst.isLin = l.flatMap linExport := by
  rw [List.filter_eq_self]
  intro c hc
  obtain ⟨k, _, hk⟩ := List.mem_flatMap.mp hc
  unfold linExport at hk
  split at hk
  · simp at hk
  · simp only [List.mem_singleton] at hk; subst hk; rfl

theorem quadExport_linNames (l : List QuadCst) : (givenNames ((l.flatMap quadExport).filter DCst.isLin)).Sublist
    ((l.filter fun c => c.quadratic.coeffs = []).map QuadCst.name) := by
  induction l with
  | nil => simp [givenNames]
  | cons c l ih =>
    rw [List.flatMap_cons, List.filter_append]
    by_cases hq : c.quadratic.coeffs = []
    · rw [List.filter_cons_of_pos (by simpa using hq), List.map_cons]
      have : quadExport c = if c.linear.coeffs.length = 0 then [] else
          [.linear (addTerms c.linear.coeffs (.const 0)) c.sense (.const c.rhs) (some c.name)] := by
        unfold quadExport; rw [if_pos (by simp [hq])]
      rw [this]
      split
      · exact ih.cons _
      · rw [List.filter_cons_of_pos rfl, List.filter_nil, List.singleton_append, givenNames_cons]
        exact ih.cons_cons _
    · rw [List.filter_cons_of_neg (by simpa using hq)]
      have : quadExport c = [.quadratic (addPairs c.quadratic.coeffs (addTerms c.linear.coeffs (.const 0))) c.sense
          (.const c.rhs) (some c.name)] := by
        unfold quadExport; rw [if_neg (by simpa using hq)]
      rw [this, List.filter_cons_of_neg (by simp [DCst.isLin])]
      exact ih

theorem quadExport_quadNames (l : List QuadCst) : (givenNames ((l.flatMap quadExport).filter DCst.isQuad)).Sublist
    (l.map QuadCst.name) := by
  induction l with
  | nil => simp [givenNames]
  | cons c l ih =>
    rw [List.flatMap_cons, List.filter_append, List.map_cons]
    have : givenNames ((quadExport c).filter DCst.isQuad ++ (l.flatMap quadExport).filter DCst.isQuad) =
        givenNames ((l.flatMap quadExport).filter DCst.isQuad) ∨
        givenNames ((quadExport c).filter DCst.isQuad ++ (l.flatMap quadExport).filter DCst.isQuad) =
        c.name :: givenNames ((l.flatMap quadExport).filter DCst.isQuad) := by
      unfold quadExport
      split
      · split
        · exact Or.inl rfl
        · exact Or.inl (by rw [List.filter_cons_of_neg (by simp [DCst.isQuad])]; rfl)
      · exact Or.inr (by rw [List.filter_cons_of_pos rfl, List.filter_nil, List.singleton_append, givenNames_cons]; rfl)
    rcases this with e | e
    · rw [e]; exact ih.cons _
    · rw [e]; exact ih.cons_cons _

theorem linExport_isQuad (l : List LinCst) : (l.flatMap linExport).filter DCst.isQuad = [] := by
  rw [List.filter_eq_nil_iff]
  intro c hc
  obtain ⟨k, _, hk⟩ := List.mem_flatMap.mp hc
  unfold linExport at hk
  split at hk
  · simp at hk
  · simp only [List.mem_singleton] at hk; subst hk; simp [DCst.isQuad]

theorem export_named (p : QP) : ∀ c ∈ p.lins.flatMap linExport ++ p.quads.flatMap quadExport, ∃ s, c.name = some s := by
  intro c hc
  rcases List.mem_append.mp hc with hc | hc
  · obtain ⟨k, _, hk⟩ := List.mem_flatMap.mp hc
    unfold linExport at hk
    split at hk
    · simp at hk
    · simp only [List.mem_singleton] at hk; subst hk; exact ⟨_, rfl⟩
  · obtain ⟨k, _, hk⟩ := List.mem_flatMap.mp hc
    unfold quadExport at hk
    split at hk
    · split at hk
      · simp at hk
      · simp only [List.mem_singleton] at hk; subst hk; exact ⟨_, rfl⟩
    · simp only [List.mem_singleton] at hk; subst hk; exact ⟨_, rfl⟩

theorem cstNamesOK_of {pre : String} {cs : List DCst} (h1 : (givenNames cs).Nodup) (h2 : ∀ s ∈ givenNames cs, s ≠ "")
    (h3 : ∀ c ∈ cs, ∃ s, c.name = some s) : CstNamesOK pre (cs.map DCst.name) := by
  refine ⟨⟨h1, Or.inl ?_⟩, ?_⟩
  · intro n hn
    obtain ⟨c, hc, rfl⟩ := List.mem_map.mp hn
    obtain ⟨s, hs⟩ := h3 c hc
    rw [hs]; simp
  · intro s hs
    exact h2 s (List.mem_filterMap.mpr ⟨_, hs, rfl⟩)

/-- The exported model. -/
def exported (p : QP) : DModel :=
  ⟨p.name, p.vars.map Variable.toDocplex, p.objective.sense == .minimize,
    addPairs p.objective.quadratic.coeffs (addTerms p.objective.linear.coeffs (.const p.objective.constant)),
    p.lins.flatMap linExport ++ p.quads.flatMap quadExport⟩

theorem toDocplex_eq {trivial : Bool → Option String → Except Err (List DCst)} (ht : ∀ nm, trivial true nm = .ok [])
    {p : QP} (hl : ∀ c ∈ p.lins, c.linear.coeffs = [] → c.sense.rel 0 c.rhs)
    (hq : ∀ c ∈ p.quads, c.linear.coeffs = [] → c.quadratic.coeffs = [] → c.sense.rel 0 c.rhs) :
    toDocplex trivial p = .ok (exported p) := by
  simp only [toDocplex, exportLins_eq ht hl, exportQuads_eq ht hq, exported]

theorem exported_wf {p : QP} (hp : p.WF) : (exported p).WF := by
  have hlen : (exported p).vars.length = p.numVars := by simp [exported, QP.numVars]
  refine ⟨?_, ?_⟩
  · rw [hlen]
    refine addPairs_wf _ (addTerms_wf _ (const_wf _ _) ?_) ?_
    · exact fun i hi => lt_of_lt_of_le (hp.objLin.1.bound i hi) hp.objLin.2
    · exact fun k hk => ⟨lt_of_lt_of_le (hp.objQuad.1.bound k hk).1 hp.objQuad.2,
        lt_of_lt_of_le (hp.objQuad.1.bound k hk).2 hp.objQuad.2⟩
  · rw [hlen]
    intro c hc
    rcases List.mem_append.mp hc with hc | hc
    · obtain ⟨k, hk, hc⟩ := List.mem_flatMap.mp hc
      exact linExport_wf (hp.lins k hk) c hc
    · obtain ⟨k, hk, hc⟩ := List.mem_flatMap.mp hc
      exact quadExport_wf (hp.quads k hk) c hc

theorem exported_ok {p : QP} (hp : p.WF) (hb : ∀ v ∈ p.vars, v.lb ≤ v.ub) (hl : ∀ c ∈ p.lins, c.name ≠ "")
    (hq : ∀ c ∈ p.quads, c.name ≠ "")
    (hd : ∀ c ∈ p.quads, c.quadratic.coeffs = [] → ∀ k ∈ p.lins, k.name ≠ c.name) : (exported p).OK := by
  have hnames : (exported p).vars.map DVar.name = (p.vars.map Variable.name).map some := by
    simp only [exported, List.map_map]
    refine List.map_congr_left fun v _ => ?_
    unfold Function.comp Variable.toDocplex
    cases v.vartype <;> rfl
  have ndl : (p.lins.map LinCst.name).Nodup := hp.cons.lins.2
  have ndq : (p.quads.map QuadCst.name).Nodup := hp.cons.quads.2
  refine ⟨?_, ⟨?_, ?_⟩, export_supported p, ?_, ?_⟩
  · intro x hx
    obtain ⟨v, hv, rfl⟩ := List.mem_map.mp hx
    have := hb v hv
    unfold Variable.toDocplex
    cases hvt : v.vartype <;> simp [DVar.OK, VarType.toDocplex, this]
  · rw [hnames, List.filterMap_map]
    simpa using hp.cons.vars.2
  · refine Or.inl ?_
    rw [hnames]
    intro n hn
    obtain ⟨s, _, rfl⟩ := List.mem_map.mp hn
    simp
  · refine cstNamesOK_of ?_ ?_ fun c hc => export_named p c (List.mem_filter.mp hc).1
    · simp only [exported, List.filter_append, linExport_isLin]
      unfold givenNames
      rw [List.map_append, List.filterMap_append]
      refine List.nodup_append.mpr ⟨ndl.sublist (linExport_names p.lins), ?_, ?_⟩
      · exact (ndq.sublist (List.filter_sublist.map QuadCst.name)).sublist (quadExport_linNames p.quads)
      · intro a ha b hb
        obtain ⟨k, hk, rfl⟩ := List.mem_map.mp ((linExport_names p.lins).subset ha)
        obtain ⟨c, hc, rfl⟩ := List.mem_map.mp ((quadExport_linNames p.quads).subset hb)
        obtain ⟨hc1, hc2⟩ := List.mem_filter.mp hc
        exact hd c hc1 (by simpa using hc2) k hk
    · simp only [exported, List.filter_append, linExport_isLin]
      unfold givenNames
      rw [List.map_append, List.filterMap_append]
      intro s hs
      rcases List.mem_append.mp hs with hs | hs
      · obtain ⟨k, hk, rfl⟩ := List.mem_map.mp ((linExport_names p.lins).subset hs)
        exact hl k hk
      · obtain ⟨c, hc, rfl⟩ := List.mem_map.mp ((quadExport_linNames p.quads).subset hs)
        exact hq c (List.mem_filter.mp hc).1
  · refine cstNamesOK_of ?_ ?_ fun c hc => export_named p c (List.mem_filter.mp hc).1
    · simp only [exported, List.filter_append, linExport_isQuad, List.nil_append]
      exact ndq.sublist (quadExport_quadNames p.quads)
    · simp only [exported, List.filter_append, linExport_isQuad, List.nil_append]
      intro s hs
      obtain ⟨c, hc, rfl⟩ := List.mem_map.mp ((quadExport_quadNames p.quads).subset hs)
      exact hq c hc

theorem exported_csts {p : QP} (hl : ∀ c ∈ p.lins, c.linear.coeffs = [] → c.sense.rel 0 c.rhs)
    (hq : ∀ c ∈ p.quads, c.linear.coeffs = [] → c.quadratic.coeffs = [] → c.sense.rel 0 c.rhs) (x : Nat → ℚ) :
    (∀ c ∈ (exported p).csts, c.Holds x) ↔ p.Sat x := by
  rw [sat_iff]
  simp only [exported, List.mem_append, List.mem_flatMap]
  constructor
  · intro h
    exact ⟨fun k hk => (linExport_holds (hl k hk) x).mp fun d hd => h d (Or.inl ⟨k, hk, hd⟩),
      fun k hk => (quadExport_holds (hq k hk) x).mp fun d hd => h d (Or.inr ⟨k, hk, hd⟩)⟩
  · rintro ⟨h1, h2⟩ d (⟨k, hk, hd⟩ | ⟨k, hk, hd⟩)
    · exact (linExport_holds (hl k hk) x).mpr (h1 k hk) d hd
    · exact (quadExport_holds (hq k hk) x).mpr (h2 k hk) d hd

theorem exported_vars {p : QP} (hb : p.BinBoundsOK) {vs : List Variable}
    (h : List.Forall₂ DVar.Loaded (p.vars.map Variable.toDocplex) vs) : vs = p.vars := by
  have hb : ∀ v ∈ p.vars, v.vartype = .binary → v.lb = 0 ∧ v.ub = 1 := hb
  generalize p.vars = l at h hb
  induction l generalizing vs with
  | nil => cases h; rfl
  | cons v l ih =>
    cases h with
    | cons h1 h2 =>
      rename_i w ws
      rw [ih h2 fun v hv => hb v (by simp [hv])]
      congr 1
      have hb0 := hb v (by simp)
      have ht : w.vartype = v.vartype := by
        have := h1.type
        unfold Variable.toDocplex at this
        cases hv : v.vartype <;> cases hw : w.vartype <;> simp [hv, hw, VarType.toDocplex] at this ⊢
      have hn : w.name = v.name := by
        apply h1.name
        unfold Variable.toDocplex
        cases v.vartype <;> rfl
      have hlu : w.lb = v.lb ∧ w.ub = v.ub := by
        cases hv : v.vartype with
        | binary =>
          obtain ⟨b1, b2⟩ := h1.bin (by simp [Variable.toDocplex, hv])
          obtain ⟨c1, c2⟩ := hb0 hv
          rw [b1, b2, c1, c2]; exact ⟨rfl, rfl⟩
        | continuous => simpa [Variable.toDocplex, hv] using h1.bounds (by simp [Variable.toDocplex, hv, VarType.toDocplex])
        | integer => simpa [Variable.toDocplex, hv] using h1.bounds (by simp [Variable.toDocplex, hv, VarType.toDocplex])
      cases v; cases w
      simp_all

end Verif
