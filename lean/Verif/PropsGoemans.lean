import Verif.GoemansLemmas
import Verif.PropsProgram

/-!
# C39, C68: the Goemans-Williamson optimizer
-/

namespace Verif

/-- What is known about the list of solutions of a successful call. -/
structure GwFacts (numCuts : Nat) (sort unique : Bool) (side : Nat → Nat → Bool) (p : QP) (r : Result)
    (sols : List (List Nat × ℚ)) : Prop where
  pos : 0 < p.objective.quadratic.n
  cut : ∀ c ∈ sols, IsCut p.objective.quadratic.n c.1 ∧
    c.2 = cutWeight p.objective.quadratic.n (adjacency p) (pt (cutPoint c.1))
  cover : ∀ g ∈ randomCuts numCuts p.objective.quadratic.n side, ∃ c ∈ sols,
    c.1 = g ∨ (unique = true ∧ c.1 = flipCut g)
  origin : ∀ c ∈ sols, ∃ g ∈ randomCuts numCuts p.objective.quadratic.n side,
    c.1 = g ∨ (unique = true ∧ c.1 = flipCut g)
  distinct : unique = true → sols.Pairwise fun a b => a.1 ≠ b.1 ∧ a.1 ≠ flipCut b.1
  first : ∃ c l, sols = c :: l ∧ r.x = some (cutPoint c.1) ∧ r.fval = some c.2 ∧
    (sort = true → ∀ d ∈ sols, d.2 ≤ c.2) ∧
    (sort = false → ∃ g, (randomCuts numCuts p.objective.quadratic.n side)[0]? = some g ∧ (c.1 = g ∨ c.1 = flipCut g))
  few : sols.length ≤ numCuts
  samples : r.samples = sols.map fun s => (⟨cutPoint s.1, s.2, 1 / (sols.length : ℚ), .success⟩ : Sample)
  vars : r.vars = p.vars ∧ r.status = .success ∧ p.objective.quadratic.n = p.numVars

theorem randomCuts_cut {k n : Nat} {side : Nat → Nat → Bool} : ∀ g ∈ randomCuts k n side, IsCut n g := by
  intro g hg
  obtain ⟨r, _, rfl⟩ := List.mem_map.mp hg
  refine ⟨by simp, ?_⟩
  intro v hv
  obtain ⟨i, _, rfl⟩ := List.mem_map.mp hv
  cases side r i <;> simp

theorem gw_facts {numCuts : Nat} {sort unique : Bool} {side : Nat → Nat → Bool} {p : QP} {r : Result}
    (h : goemansWilliamson numCuts sort unique (some side) p = .ok r) :
    ∃ sols, GwFacts numCuts sort unique side p r sols := by
  unfold goemansWilliamson at h
  split at h
  · simp at h
  · simp only at h
    split at h
    · simp at h
    · rename_i hn
      have hpos : 0 < p.objective.quadratic.n := by omega
      -- the solutions before and after sorting
      set gen := randomCuts numCuts p.objective.quadratic.n side with hgen
      have hgc : ∀ g ∈ gen, IsCut p.objective.quadratic.n g := randomCuts_cut
      have hglen : gen.length = numCuts := by simp [hgen, randomCuts]
      set s0 := gen.map fun c => (c, maxCutValue p.objective.quadratic.n (adjacency p) c) with hs0
      set s1 := (if sort = true then sortedBy (fun a b => decide (-a.2 ≤ -b.2)) s0 else s0) with hs1
      have hm1 : ∀ c, c ∈ s1 ↔ c ∈ s0 := by
        intro c
        rw [hs1]
        split
        · exact mem_sortedBy
        · rfl
      have hl1 : s1.length = numCuts := by
        rw [hs1]
        split
        · rw [(sortedBy_perm _ _).length_eq, hs0, List.length_map, hglen]
        · rw [hs0, List.length_map, hglen]
      have hval1 : ∀ c ∈ s1, c.1 ∈ gen ∧ c.2 = cutWeight p.objective.quadratic.n (adjacency p) (pt (cutPoint c.1)) := by
        intro c hc
        obtain ⟨g, hg, rfl⟩ := List.mem_map.mp ((hm1 c).mp hc)
        exact ⟨hg, maxCutValue_eq (adjacency_symm p) (hgc g hg)⟩
      have hgen1 : ∀ g ∈ gen, ∃ c ∈ s1, c.1 = g := fun g hg =>
        ⟨_, (hm1 _).mpr (List.mem_map_of_mem hg), rfl⟩
      have hsorted : sort = true → s1.Pairwise fun a b => b.2 ≤ a.2 := by
        intro e
        rw [hs1, if_pos e]
        have := sortedBy_pairwise (le := fun (a b : List Nat × ℚ) => decide (-a.2 ≤ -b.2))
          (fun a b => by simpa using le_total _ _)
          (fun a b c h h' => by simp only [decide_eq_true_eq] at *; exact le_trans h h') s0
        exact this.imp fun h => by simpa using h
      have hunsorted : sort = false → s1 = s0 := by intro e; rw [hs1, e]; rfl
      clear_value s1
      -- the solutions after removal of duplicates
      have key : ∃ s2, (if unique = true then uniqueCuts s1 else .ok s1 : Except Err (List (List Nat × ℚ))) = .ok s2 ∧
          s2.length ≤ numCuts ∧
          (∀ c ∈ s2, IsCut p.objective.quadratic.n c.1 ∧
            c.2 = cutWeight p.objective.quadratic.n (adjacency p) (pt (cutPoint c.1))) ∧
          (∀ g ∈ gen, ∃ c ∈ s2, c.1 = g ∨ (unique = true ∧ c.1 = flipCut g)) ∧
          (∀ c ∈ s2, ∃ g ∈ gen, c.1 = g ∨ (unique = true ∧ c.1 = flipCut g)) ∧
          (unique = true → s2.Pairwise fun a b => a.1 ≠ b.1 ∧ a.1 ≠ flipCut b.1) ∧
          (∀ c l, s2 = c :: l → ∃ d m, s1 = d :: m ∧ d.2 = c.2 ∧ (c.1 = d.1 ∨ c.1 = flipCut d.1) ∧
            (sort = true → ∀ d ∈ s2, d.2 ≤ c.2)) := by
        cases unique with
        | false =>
          refine ⟨s1, by simp, le_of_eq hl1, fun c hc => ⟨hgc _ (hval1 c hc).1, (hval1 c hc).2⟩, ?_, ?_, by simp, ?_⟩
          · intro g hg
            obtain ⟨c, hc, e⟩ := hgen1 g hg
            exact ⟨c, hc, Or.inl e⟩
          · intro c hc
            exact ⟨c.1, (hval1 c hc).1, Or.inl rfl⟩
          · intro c l e
            refine ⟨c, l, e, rfl, Or.inl rfl, ?_⟩
            intro hs d hd
            have hp := hsorted hs
            rw [e] at hp hd
            rcases List.mem_cons.mp hd with rfl | hd
            · exact le_refl _
            · exact (List.pairwise_cons.mp hp).1 d hd
        | true =>
          obtain ⟨t, ht, hf⟩ := normalizeCuts_ok hpos (l := s1) fun c hc => hgc _ (hval1 c hc).1
          have hft : ∀ d ∈ t, ∃ c ∈ s1, Normal p.objective.quadratic.n c d := fun d hd => Forall₂.mem_right hf hd
          refine ⟨dropSeen [] t, by simp [uniqueCuts, ht], ?_, ?_, ?_, ?_, ?_, ?_⟩
          · have := dropSeen_length [] t
            rw [← hf.length_eq, hl1] at this
            exact this
          · intro d hd
            obtain ⟨c, hc, h1, h2, h3, _⟩ := hft d (dropSeen_mem hd).1
            refine ⟨h1, ?_⟩
            rw [h2, (hval1 c hc).2]
            rcases h3 with h3 | h3
            · rw [h3]
            · rw [h3, cutWeight_flip (hgc _ (hval1 c hc).1)]
          · intro g hg
            obtain ⟨c, hc, rfl⟩ := hgen1 g hg
            obtain ⟨d, hd, h1, _, h3, _⟩ := Forall₂.mem_left hf hc
            obtain ⟨e, he, h4⟩ := dropSeen_cover hd (seen := []) (by simp)
            obtain ⟨c', hc', h1', _⟩ := hft e (dropSeen_mem he).1
            have := cutStr_inj h1' h1 h4
            exact ⟨e, he, by rw [this]; rcases h3 with h3 | h3 <;> simp [h3]⟩
          · intro d hd
            obtain ⟨c, hc, _, _, h3, _⟩ := hft d (dropSeen_mem hd).1
            exact ⟨c.1, (hval1 c hc).1, by rcases h3 with h3 | h3 <;> simp [h3]⟩
          · intro _
            refine (dropSeen_nodup [] t).imp_of_mem ?_
            intro a b ha hb hab
            obtain ⟨_, _, a1, _, _, a4⟩ := hft a (dropSeen_mem ha).1
            obtain ⟨_, _, b1, _, _, b4⟩ := hft b (dropSeen_mem hb).1
            refine ⟨fun e => hab (by rw [e]), fun e => ?_⟩
            have hb0 : (flipCut b.1).getD 0 0 = 1 := by
              cases hb1 : b.1 with
              | nil => have := b1.1; rw [hb1] at this; simp at this; omega
              | cons v l =>
                rw [hb1] at b4
                simp only [List.getD_cons_zero] at b4
                simp [flipCut, b4]
            rw [← e, a4] at hb0
            simp at hb0
          · intro c l e
            cases hf with
            | nil => simp [dropSeen] at e
            | @cons d d' m m' hd hm =>
              simp only [dropSeen, List.not_mem_nil, if_false, List.cons.injEq] at e
              obtain ⟨rfl, rfl⟩ := e
              refine ⟨d, m, rfl, hd.2.1.symm, hd.2.2.1, ?_⟩
              intro hs b hb
              have hp := hsorted hs
              have hle : ∀ a ∈ d :: m, a.2 ≤ d.2 := by
                intro a ha
                rcases List.mem_cons.mp ha with rfl | ha
                · exact le_refl _
                · exact (List.pairwise_cons.mp hp).1 a ha
              rw [hd.2.1]
              rcases List.mem_cons.mp hb with rfl | hb
              · rw [hd.2.1]
              · obtain ⟨a, ha, h1⟩ := Forall₂.mem_right hm (dropSeen_mem hb).1
                rw [h1.2.1]
                exact hle a (by simp [ha])
      obtain ⟨s2, e2, hlen, k1, k2, k3, k4, k5⟩ := key
      simp only [e2] at h
      rw [List.take_of_length_le hlen] at h
      refine ⟨s2, ?_⟩
      cases hs2 : s2 with
      | nil => rw [hs2] at h; simp at h
      | cons c l =>
        obtain ⟨d, m, j1, j2, j3, j4⟩ := k5 c l hs2
        rw [← hs2]
        have h' : Result.mk? (some (cutPoint c.1)) (some c.2) p.vars .success
            (s2.map fun s => (⟨cutPoint s.1, s.2, 1 / (s2.length : ℚ), .success⟩ : Sample)) [] = .ok r := by
          rw [hs2] at h ⊢
          simpa using h
        unfold Result.mk? at h'
        simp only at h'
        split at h'
        · simp at h'
        · rename_i hl
          simp only [Except.ok.injEq] at h'
          have hc := (k1 c (by simp [hs2])).1.1
          subst h'
          refine ⟨hpos, k1, k2, k3, k4, ⟨c, l, hs2, rfl, rfl, j4, ?_⟩, hlen, rfl, rfl, rfl, ?_⟩
          · intro hs
            have := hunsorted hs
            rw [this, hs0] at j1
            cases hg : gen with
            | nil => rw [hg] at j1; simp at j1
            | cons g gs =>
              rw [hg, List.map_cons, List.cons.injEq] at j1
              refine ⟨g, by rw [← hgen, hg]; rfl, ?_⟩
              rw [← j1.1] at j3
              exact j3
          · simp only [QP.numVars]
            rw [← hc]
            simpa [cutPoint] using hl

/-! ## C39 -/

/-- **C39** (value): if the objective of the program is the weight of the cut on 0/1 points, then every reported
candidate is a cut of all vertices, and its value is the total weight of the edges between the two sides. -/
theorem C39_value (numCuts : Nat) (sort unique : Bool) (side : Nat → Nat → Bool) (p : QP) (w : Nat → Nat → ℚ)
    (hp : p.WF)
    (hw : ∀ x : Nat → ℚ, (∀ i < p.numVars, x i = 0 ∨ x i = 1) → p.objective.val x = cutWeight p.numVars w x)
    (r : Result) (h : goemansWilliamson numCuts sort unique (some side) p = .ok r) :
    ∀ s ∈ r.samples, s.x.length = p.numVars ∧ (∀ v ∈ s.x, v = 0 ∨ v = 1) ∧
      s.fval = cutWeight p.numVars w (pt s.x) := by
  obtain ⟨sols, hf⟩ := gw_facts h
  intro s hs
  rw [hf.samples] at hs
  obtain ⟨c, hc, rfl⟩ := List.mem_map.mp hs
  obtain ⟨h1, h2⟩ := hf.cut c hc
  rw [hf.vars.2.2] at h1 h2
  refine ⟨by simpa [cutPoint] using h1.1, ?_, ?_⟩
  · intro v hv
    obtain ⟨u, hu, rfl⟩ := List.mem_map.mp hv
    rcases h1.2 u hu with rfl | rfl <;> simp
  · show c.2 = _
    rw [h2]
    exact cutWeight_congr (fun i hi j hj => adjacency_of_cut hp.objLin hp.objQuad hw hi hj) _

/-- **C39** (merging): with `unique_cuts`, no two candidates describe the same cut (equal or with the sides exchanged),
and every generated cut is among the candidates up to an exchange of the sides. -/
theorem C39_unique (numCuts : Nat) (sort : Bool) (side : Nat → Nat → Bool) (p : QP)
    (r : Result) (h : goemansWilliamson numCuts sort true (some side) p = .ok r) :
    (r.samples.Pairwise fun a b => a.x ≠ b.x ∧ a.x ≠ b.x.map fun v => 1 - v) ∧
    (∀ t < numCuts, ∃ s ∈ r.samples,
      (∀ i < p.numVars, pt s.x i = if side t i then 1 else 0) ∨
      (∀ i < p.numVars, pt s.x i = if side t i then 0 else 1)) ∧
    ∀ s ∈ r.samples, ∃ t < numCuts, (∀ i < p.numVars, pt s.x i = if side t i then 1 else 0) ∨
      (∀ i < p.numVars, pt s.x i = if side t i then 0 else 1) := by
  obtain ⟨sols, hf⟩ := gw_facts h
  have hn := hf.vars.2.2
  have hpt : ∀ t, ∀ i < p.numVars, pt (cutPoint ((List.range p.objective.quadratic.n).map fun i =>
      if side t i then 1 else 0)) i = if side t i then 1 else 0 := by
    intro t i hi
    rw [hn, pt_cut, List.getD_eq_getElem?_getD, List.getElem?_map, List.getElem?_range hi]
    cases hst : side t i <;> simp [hst]
  have hptf : ∀ t, ∀ i < p.numVars, pt (cutPoint (flipCut ((List.range p.objective.quadratic.n).map fun i =>
      if side t i then 1 else 0))) i = if side t i then 0 else 1 := by
    intro t i hi
    rw [hn, pt_cut, List.getD_eq_getElem?_getD, flipCut, List.getElem?_map, List.getElem?_map, List.getElem?_range hi]
    cases hst : side t i <;> simp [hst]
  refine ⟨?_, ?_, ?_⟩
  · rw [hf.samples, List.pairwise_map]
    refine (hf.distinct rfl).imp_of_mem ?_
    intro a b ha hb hab
    have hinj : ∀ x y : List Nat, cutPoint x = cutPoint y → x = y := by
      intro x y e
      exact List.map_injective_iff.mpr (fun u v h => by exact_mod_cast h) e
    refine ⟨fun e => hab.1 (hinj _ _ e), fun e => hab.2 (hinj _ _ (e.trans ?_))⟩
    simp only [cutPoint, flipCut, List.map_map]
    refine List.map_congr_left fun v hv => ?_
    rcases (hf.cut b hb).1.2 v hv with rfl | rfl <;> simp
  · intro t ht
    obtain ⟨c, hc, h1⟩ := hf.cover _ (List.mem_map.mpr ⟨t, List.mem_range.mpr ht, rfl⟩)
    refine ⟨_, by rw [hf.samples]; exact List.mem_map_of_mem hc, ?_⟩
    rcases h1 with h1 | ⟨_, h1⟩
    · left; intro i hi; simp only [h1]; exact hpt t i hi
    · right; intro i hi; simp only [h1]; exact hptf t i hi
  · intro s hs
    rw [hf.samples] at hs
    obtain ⟨c, hc, rfl⟩ := List.mem_map.mp hs
    obtain ⟨g, hg, h1⟩ := hf.origin c hc
    obtain ⟨t, ht, rfl⟩ := List.mem_map.mp hg
    refine ⟨t, List.mem_range.mp ht, ?_⟩
    rcases h1 with h1 | ⟨_, h1⟩
    · left; intro i hi; simp only [h1]; exact hpt t i hi
    · right; intro i hi; simp only [h1]; exact hptf t i hi

/-- **C39** (best candidate), with `sort_cuts`: the returned candidate is one of the samples, and no generated cut has
a larger weight. -/
theorem C39_best_partial (numCuts : Nat) (unique : Bool) (side : Nat → Nat → Bool) (p : QP) (w : Nat → Nat → ℚ)
    (hp : p.WF)
    (hw : ∀ x : Nat → ℚ, (∀ i < p.numVars, x i = 0 ∨ x i = 1) → p.objective.val x = cutWeight p.numVars w x)
    (r : Result) (h : goemansWilliamson numCuts true unique (some side) p = .ok r) :
    ∃ x f, r.x = some x ∧ r.fval = some f ∧ f = cutWeight p.numVars w (pt x) ∧ f = p.objective.val (pt x) ∧
      (∃ s ∈ r.samples, s.x = x) ∧
      ∀ t < numCuts, cutWeight p.numVars w (fun i => if side t i then 1 else 0) ≤ f := by
  obtain ⟨sols, hf⟩ := gw_facts h
  have hn := hf.vars.2.2
  obtain ⟨c, l, e1, e2, e3, e4, _⟩ := hf.first
  have hc : c ∈ sols := by rw [e1]; simp
  have hadj : ∀ x, cutWeight p.numVars (adjacency p) x = cutWeight p.numVars w x := fun x =>
    cutWeight_congr (fun i hi j hj => adjacency_of_cut hp.objLin hp.objQuad hw hi hj) x
  obtain ⟨h1, h2⟩ := hf.cut c hc
  rw [hn, hadj] at h2
  rw [hn] at h1
  refine ⟨cutPoint c.1, c.2, e2, e3, h2, ?_, ?_, ?_⟩
  · rw [h2, hw _ fun i _ => h1.val i]
  · exact ⟨_, by rw [hf.samples]; exact List.mem_map_of_mem hc, rfl⟩
  · intro t ht
    obtain ⟨d, hd, h3⟩ := hf.cover _ (List.mem_map.mpr ⟨t, List.mem_range.mpr ht, rfl⟩)
    obtain ⟨d1, d2⟩ := hf.cut d hd
    rw [hn, hadj] at d2
    have hle := e4 rfl d hd
    rw [d2] at hle
    refine le_trans (le_of_eq ?_) hle
    have hg : IsCut p.numVars ((List.range p.objective.quadratic.n).map fun i => if side t i then 1 else 0) := by
      have := randomCuts_cut (k := numCuts) (n := p.objective.quadratic.n) (side := side) _
        (List.mem_map.mpr ⟨t, List.mem_range.mpr ht, rfl⟩)
      rwa [hn] at this ⊢
    have hval : cutWeight p.numVars w (fun i => if side t i then 1 else 0) = cutWeight p.numVars w
        (pt (cutPoint ((List.range p.objective.quadratic.n).map fun i => if side t i then 1 else 0))) := by
      have hpt : ∀ i < p.numVars, pt (cutPoint ((List.range p.objective.quadratic.n).map fun i =>
          if side t i then 1 else 0)) i = if side t i then 1 else 0 := by
        intro i hi
        rw [hn, pt_cut, List.getD_eq_getElem?_getD, List.getElem?_map, List.getElem?_range hi]
        cases hst : side t i <;> simp [hst]
      unfold cutWeight
      refine Finset.sum_congr rfl fun i hi => Finset.sum_congr rfl fun j hj => ?_
      have hi' := Finset.mem_range.mp hi
      have hj' := Finset.mem_range.mp hj
      rw [hpt i hi', hpt j (by omega)]
    rw [hval]
    rcases h3 with h3 | ⟨_, h3⟩
    · rw [h3]
    · rw [h3, cutWeight_flip hg]

/-- **C39** (probabilities): the probabilities of the candidates are equal and sum to one. -/
theorem C39_probability (numCuts : Nat) (sort unique : Bool) (side : Nat → Nat → Bool) (p : QP)
    (r : Result) (h : goemansWilliamson numCuts sort unique (some side) p = .ok r) :
    (r.samples.map Sample.probability).sum = 1 ∧ r.samples.length ≤ numCuts ∧
      ∀ s ∈ r.samples, s.probability = 1 / (r.samples.length : ℚ) := by
  obtain ⟨sols, hf⟩ := gw_facts h
  obtain ⟨c, l, e1, _⟩ := hf.first
  have hl : (sols.length : ℚ) ≠ 0 := by rw [e1]; simp; positivity
  refine ⟨?_, ?_, ?_⟩
  · rw [hf.samples, List.map_map]
    have : (sols.map (Sample.probability ∘ fun s => (⟨cutPoint s.1, s.2, 1 / (sols.length : ℚ), .success⟩ : Sample))) =
        List.replicate sols.length (1 / (sols.length : ℚ)) := by
      rw [← List.map_const']
      rfl
    rw [this, List.sum_replicate, nsmul_eq_mul]
    field_simp
  · rw [hf.samples, List.length_map]
    exact hf.few
  · intro s hs
    rw [hf.samples] at hs ⊢
    obtain ⟨c, _, rfl⟩ := List.mem_map.mp hs
    simp

/-- **C39** (success): for a program of binary variables whose objective was set after the variables, with at least one
variable and one cut, the call succeeds when the semidefinite program is solved. -/
theorem C39_success (numCuts : Nat) (sort unique : Bool) (side : Nat → Nat → Bool) (p : QP)
    (hb : ∀ v ∈ p.vars, v.vartype = .binary) (hn : p.objective.quadratic.n = p.numVars) (h0 : 0 < p.numVars)
    (hc : 0 < numCuts) : ∃ r, goemansWilliamson numCuts sort unique (some side) p = .ok r ∧ r.status = .success := by
  have key : ∀ s1 : List (List Nat × ℚ), s1.length = numCuts → (∀ c ∈ s1, IsCut p.objective.quadratic.n c.1) →
      ∃ s2, (if unique = true then uniqueCuts s1 else .ok s1 : Except Err (List (List Nat × ℚ))) = .ok s2 ∧
        (∀ c ∈ s2, IsCut p.objective.quadratic.n c.1) ∧ 0 < s2.length := by
    intro s1 hl h
    cases unique with
    | false => exact ⟨s1, by simp, h, by omega⟩
    | true =>
      obtain ⟨t, ht, hf⟩ := normalizeCuts_ok (by omega : 0 < p.objective.quadratic.n) h
      refine ⟨dropSeen [] t, by simp [uniqueCuts, ht], ?_, ?_⟩
      · intro d hd
        obtain ⟨c, _, h1, _⟩ := Forall₂.mem_right hf (dropSeen_mem hd).1
        exact h1
      · cases hf with
        | nil => simp at hl; omega
        | cons _ _ => simp [dropSeen]
  unfold goemansWilliamson
  rw [if_neg (by
    rw [List.filter_eq_self.mpr (fun v hv => by simp [hb v hv])]
    simp [QP.numVars])]
  simp only
  rw [if_neg (by omega)]
  have hbase : ∀ c ∈ (randomCuts numCuts p.objective.quadratic.n side).map
      (fun c => (c, maxCutValue p.objective.quadratic.n (adjacency p) c)), IsCut p.objective.quadratic.n c.1 := by
    intro c hc
    obtain ⟨g, hg, rfl⟩ := List.mem_map.mp hc
    exact randomCuts_cut g hg
  obtain ⟨s2, e2, h2, h3⟩ := key (if sort = true then sortedBy (fun a b => decide (-a.2 ≤ -b.2))
      ((randomCuts numCuts p.objective.quadratic.n side).map
        (fun c => (c, maxCutValue p.objective.quadratic.n (adjacency p) c)))
      else (randomCuts numCuts p.objective.quadratic.n side).map
        (fun c => (c, maxCutValue p.objective.quadratic.n (adjacency p) c)))
    (by split
        · rw [(sortedBy_perm _ _).length_eq]; simp [randomCuts]
        · simp [randomCuts])
    (by
      intro c hc
      split at hc
      · exact hbase c (mem_sortedBy.mp hc)
      · exact hbase c hc)
  rw [e2]
  simp only
  cases hs2 : s2 with
  | nil => rw [hs2] at h3; simp at h3
  | cons c l =>
    obtain ⟨k, rfl⟩ : ∃ k, numCuts = k + 1 := ⟨numCuts - 1, by omega⟩
    simp only [List.take_succ_cons, List.map_cons, Result.mk?]
    have hlen := (h2 c (by simp [hs2])).1
    rw [if_neg (by simp only [cutPoint, List.length_map, hlen, hn, QP.numVars]; simp)]
    exact ⟨_, rfl, rfl⟩

/-- A path of three vertices with edges of weights 2 and 3. -/
def pathQP : QP :=
  (runCalls (QP.empty "") [.addVar 0 1 .binary (some "x0"), .addVar 0 1 .binary (some "x1"),
    .addVar 0 1 .binary (some "x2"),
    .objective .maximize 0 (.dict [(.name "x0", 2), (.name "x1", 5), (.name "x2", 3)])
      (.dict [((.name "x0", .name "x1"), -4), ((.name "x1", .name "x2"), -6)])]).2

/-- The weights of the path. -/
def pathW (i j : Nat) : ℚ := if i = 1 ∧ j = 0 then 2 else if i = 2 ∧ j = 1 then 3 else 0

/-- Four generated cuts: the empty one, vertex 0, vertex 1, vertices 0 and 2. -/
def pathSide (t i : Nat) : Bool := (t == 1 && i == 0) || (t == 2 && i == 1) || (t == 3 && (i == 0 || i == 2))

theorem pathQP_cut : pathQP.WF ∧ ∀ x : Nat → ℚ, (∀ i < pathQP.numVars, x i = 0 ∨ x i = 1) →
    pathQP.objective.val x = cutWeight pathQP.numVars pathW x := by
  refine ⟨by decide +kernel, ?_⟩
  intro x hx
  have h1 : pathQP.objective = ⟨0, ⟨3, [(0, 2), (1, 5), (2, 3)]⟩, ⟨3, [((0, 1), -4), ((1, 2), -6)]⟩, .maximize⟩ := by
    decide +kernel
  have h2 : pathQP.numVars = 3 := by decide +kernel
  rw [h2] at hx ⊢
  rw [h1]
  rcases hx 0 (by omega) with h0 | h0 <;> rcases hx 1 (by omega) with h1 | h1 <;>
    rcases hx 2 (by omega) with h2 | h2 <;>
    simp [Objective.val, LinExpr.val, QuadExpr.val, cutWeight, pathW, Finset.sum_range_succ, h0, h1, h2,
      Dict.sum] <;> norm_num

example : (goemansWilliamson 4 true true (some pathSide) pathQP).toOption.map
    (fun r => (r.x, r.fval, r.samples.map fun s => (s.x, s.fval))) =
    some (some [0, 1, 0], some 5, [([0, 1, 0], 5), ([0, 1, 1], 2), ([0, 0, 0], 0)]) := by decide +kernel

/-- **C39 is violated** without `sort_cuts`: the first generated cut is returned, of weight 0, although a cut of weight
5 was generated. -/
theorem C39_violated : (goemansWilliamson 4 false true (some pathSide) pathQP).toOption.map
    (fun r => (r.x, r.fval, r.samples.map fun s => (s.x, s.fval))) =
    some (some [0, 0, 0], some 0, [([0, 0, 0], 0), ([0, 1, 1], 2), ([0, 1, 0], 5)]) := by decide +kernel

/-! ## C68 -/

/-- The objective of the program is the weight of the cut and there are no constraints: the reported value is the
objective at the reported point, which is feasible, whatever the options are.

**C68** asks for this for every program that the optimizer accepts, and for a result with status FAILURE when the
semidefinite program is not solved; both are false (`C68_value_violated`, `C68_feasible_violated`,
`C68_failure_violated`). -/
theorem C68_result_partial (numCuts : Nat) (sort unique : Bool) (side : Nat → Nat → Bool) (p : QP) (w : Nat → Nat → ℚ)
    (hp : p.WF)
    (hw : ∀ x : Nat → ℚ, (∀ i < p.numVars, x i = 0 ∨ x i = 1) → p.objective.val x = cutWeight p.numVars w x)
    (r : Result) (h : goemansWilliamson numCuts sort unique (some side) p = .ok r) :
    r.status = .success ∧ r.vars = p.vars ∧
    ∃ x, r.x = some x ∧ x.length = p.numVars ∧ (∀ v ∈ x, v = 0 ∨ v = 1) ∧ r.fval = some (p.objective.val (pt x)) ∧
      ∃ s ∈ r.samples, s.x = x := by
  obtain ⟨sols, hf⟩ := gw_facts h
  obtain ⟨c, l, e1, e2, e3, _⟩ := hf.first
  have hc : c ∈ sols := by rw [e1]; simp
  have hs : (⟨cutPoint c.1, c.2, 1 / (sols.length : ℚ), .success⟩ : Sample) ∈ r.samples := by
    rw [hf.samples]; exact List.mem_map_of_mem hc
  obtain ⟨h1, h2, h3⟩ := C39_value numCuts sort unique side p w hp hw r h _ hs
  refine ⟨hf.vars.2.1, hf.vars.1, cutPoint c.1, e2, h1, h2, ?_, _, hs, rfl⟩
  rw [e3, hw]
  · simpa using h3
  · intro i hi
    have hi' : i < (cutPoint c.1).length := by simpa using h1 ▸ hi
    have : pt (cutPoint c.1) i ∈ cutPoint c.1 := by
      simp only [pt, List.getD_eq_getElem?_getD, List.getElem?_eq_getElem hi', Option.getD_some]
      exact List.getElem_mem hi'
    exact h2 _ this

example : pathQP.WF ∧ (goemansWilliamson 4 false false (some pathSide) pathQP).toOption.map
    (fun r => (r.x, r.fval)) = some (some [0, 0, 0], some 0) := by
  refine ⟨by decide +kernel, by decide +kernel⟩

/-- Maximize `3 + b + c` subject to `b = 1`. -/
def gwLinQP : QP :=
  (runCalls (QP.empty "") [.addVar 0 1 .binary (some "b"), .addVar 0 1 .binary (some "c"),
    .objective .maximize 3 (.dict [(.name "b", 1), (.name "c", 1)]) (.dict []),
    .linear (.dict [(.name "b", 1)]) (.str "==") 1 (some "fix")]).2

/-- **C68 is violated** (value): the program is accepted, the reported value of the reported point is 0, its objective
is 4. -/
theorem C68_value_violated : gwLinQP.WF ∧ (goemansWilliamson 1 true true (some fun _ i => i == 1) gwLinQP).toOption.map
    (fun r => (r.x, r.fval, r.x.map fun x => gwLinQP.objective.val (pt x))) =
    some (some [0, 1], some 0, some 4) := by
  refine ⟨by decide +kernel, by decide +kernel⟩

/-- **C68 is violated** (feasibility): the reported point violates the constraint and has status SUCCESS; the generated
cut `[1, 0]` satisfies it, but is replaced by its complement. -/
theorem C68_feasible_violated :
    (goemansWilliamson 1 true true (some fun _ i => i == 0) gwLinQP).toOption.map
      (fun r => (r.x, r.status, r.x.map fun x => (gwLinQP.isFeasible x).toOption)) =
      some (some [0, 1], .success, some (some false)) ∧
    (gwLinQP.isFeasible [1, 0]).toOption = some true := by
  refine ⟨by decide +kernel, by decide +kernel⟩

/-- **C68 is violated** (failure): when the semidefinite program is not solved, the call raises an error instead of
returning a result with status FAILURE, for every program with a variable. -/
theorem C68_failure_violated (numCuts : Nat) (sort unique : Bool) (p : QP) (h0 : 0 < p.numVars) :
    goemansWilliamson numCuts sort unique none p = .error .optimization := by
  unfold goemansWilliamson
  split
  · rfl
  · simp only [Result.mk?, List.length_nil]
    rw [if_pos (by simp only [QP.numVars] at h0; omega)]

example : 0 < pathQP.numVars := by decide +kernel

end Verif
