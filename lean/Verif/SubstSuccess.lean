import Verif.SubstTableLemmas

/-!
# Helper lemmas: when the stages of a substitution succeed, and well-formedness of the result
-/

namespace Verif

/-- Every replacing name is a variable of the target. -/
def Good (src dst : QP) (subs : Subs) : Prop :=
  ∀ s ∈ src.vars.map Variable.name, (repl subs s).1 ≠ CONST → (repl subs s).1 ∈ dst.vars.map Variable.name

theorem name_resolves {p : QP} (hp : p.Consistent) {s : String} (h : s ∈ p.vars.map Variable.name) :
    ∃ i, Assoc.get? p.varsIndex s = some i ∧ i < p.numVars := by
  obtain ⟨v, hv, rfl⟩ := List.mem_map.mp h
  obtain ⟨i, hi⟩ := List.mem_iff_getElem?.mp hv
  exact ⟨i, (hp.vars.get? v.name i).mpr (by simp [hi]), (List.getElem?_eq_some_iff.mp hi).1⟩

theorem substLinear_success {src dst : QP} {subs : Subs} {e : LinExpr} (hd : dst.Consistent)
    (hg : Good src dst subs) (he : e.Fits src.numVars) : ∃ r, substLinear src dst subs e = .ok r := by
  unfold substLinear
  obtain ⟨l, hl⟩ := linNames_ok (vi := dst.varsIndex) (n := dst.numVars)
    (d := ((e.toDictNames src.vars).foldl (substLinStep subs) ([], [])).2) (by
      intro s hs
      rcases substLin_keys _ _ hs with h | ⟨t, ht, h1, rfl⟩
      · simp [Assoc.keys] at h
      · exact name_resolves hd (hg t (toDictNames_keys he ht) h1))
  simp only [hl]
  exact ⟨_, rfl⟩

theorem substQuadratic_success {src dst : QP} {subs : Subs} {e : QuadExpr} (hd : dst.Consistent)
    (hg : Good src dst subs) (he : e.Fits src.numVars) : ∃ r, substQuadratic src dst subs e = .ok r := by
  unfold substQuadratic
  obtain ⟨k1, k2⟩ := substQuad_keys (subs := subs) (fun s => s ∈ dst.vars.map Variable.name)
    (e.toDictNames src.vars) ([], [], [])
    (fun s hs => ⟨hg _ (toDictNames_keys2 he hs).1, hg _ (toDictNames_keys2 he hs).2⟩)
    (by simp [Assoc.keys]) (by simp [Assoc.keys])
  obtain ⟨l, hl⟩ := linNames_ok (vi := dst.varsIndex) (n := dst.numVars)
    (d := ((e.toDictNames src.vars).foldl (substQuadStep subs) ([], [], [])).2.1)
    (fun s hs => name_resolves hd (k1 s hs))
  obtain ⟨q, hq⟩ := quadNames_ok (vi := dst.varsIndex) (n := dst.numVars)
    (d := ((e.toDictNames src.vars).foldl (substQuadStep subs) ([], [], [])).2.2)
    (fun s hs => ⟨name_resolves hd (k2 s hs).1, name_resolves hd (k2 s hs).2⟩)
  simp only [hl, hq]
  exact ⟨_, rfl⟩

/-- Sum of two linear expressions over the variables of `dst`. -/
theorem dokPlus_fits {n : Nat} {a b : LinExpr} (ha : a.n = n ∧ a.WF) (hb : b.n = n ∧ b.WF) :
    (LinExpr.mk n (dokPlus a.coeffs b.coeffs)).Fits n := by
  refine ⟨⟨Dict.nodup_dokPlus ha.2.nodup _, ?_⟩, le_refl _⟩
  intro k hk
  rcases Dict.mem_keys_dokPlus hk with hk | hk
  · have := ha.2.bound k hk; rwa [ha.1] at this
  · have := hb.2.bound k hk; rwa [hb.1] at this

theorem substObjective_success {src dst : QP} {subs : Subs} (hs : src.WF) (hd : dst.Consistent)
    (hg : Good src dst subs) : ∃ d, substObjective src subs dst = .ok d := by
  obtain ⟨⟨c1, l1⟩, h1⟩ := substLinear_success hd hg hs.objLin
  obtain ⟨⟨c2, l2, q⟩, h2⟩ := substQuadratic_success hd hg hs.objQuad
  simp [substObjective, h1, h2, QP.setObjective, LinExpr.ofInput, QuadExpr.ofInput]

theorem substObjective_wf {src dst d : QP} {subs : Subs} (h : substObjective src subs dst = .ok d)
    (hc : dst.Consistent) (hl : ∀ c ∈ dst.lins, c.linear.Fits dst.numVars)
    (hq : ∀ c ∈ dst.quads, c.linear.Fits dst.numVars ∧ c.quadratic.Fits dst.numVars) : d.WF := by
  obtain ⟨c1, l1, c2, l2, q, le, qe, h1, h2, h3, h4, rfl⟩ := substObjective_ok h
  have w1 := substLinear_n h1
  obtain ⟨w2, w3⟩ := substQuadratic_n h2
  refine ⟨⟨hc.vars, hc.lins, hc.quads⟩, ?_, ?_, hl, hq⟩
  · exact LinExpr.ofInput_fits h3 (dokPlus_fits w1 w2)
  · exact QuadExpr.ofInput_fits h4 ⟨w3.2.nodup, w3.2.bound, le_of_eq w3.1⟩

theorem substLins_wf {src : QP} {subs : Subs} (cs : List LinCst) {dst dst' : QP} {f f' : Bool}
    (h : substLins src subs cs dst f = .ok (dst', f')) (hd : dst.WF) : dst'.WF := by
  induction cs generalizing dst f with
  | nil => simp [substLins] at h; exact h.1 ▸ hd
  | cons c cs ih =>
    simp only [substLins] at h
    split at h
    · simp at h
    · rename_i k l hl
      split at h
      · split at h
        · simp at h
        · rename_i c' d hc'
          obtain ⟨h1, h2⟩ := substLinear_n hl
          exact ih h (linearConstraint_wf hc' hd ⟨h2, le_of_eq h1⟩)
      · exact ih h hd

theorem substQuads_wf {src : QP} {subs : Subs} (cs : List QuadCst) {dst dst' : QP} {f f' : Bool}
    (h : substQuads src subs cs dst f = .ok (dst', f')) (hd : dst.WF) : dst'.WF := by
  induction cs generalizing dst f with
  | nil => simp [substQuads] at h; exact h.1 ▸ hd
  | cons c cs ih =>
    simp only [substQuads] at h
    split at h
    · simp at h
    · rename_i c1 l1 hl1
      split at h
      · simp at h
      · rename_i c2 l2 q hq
        have w1 := substLinear_n hl1
        obtain ⟨w2, w3⟩ := substQuadratic_n hq
        split at h
        · split at h
          · simp at h
          · rename_i c' d hc'
            exact ih h (quadraticConstraint_wf hc' hd (dokPlus_fits w1 w2)
              ⟨w3.2.nodup, w3.2.bound, le_of_eq w3.1⟩)
        · split at h
          · split at h
            · simp at h
            · rename_i c' d hc'
              exact ih h (linearConstraint_wf hc' hd (dokPlus_fits w1 w2))
          · exact ih h hd

theorem substLins_success {src : QP} {subs : Subs} (cs : List LinCst) {dst : QP} {f : Bool} (hd : dst.WF)
    (hg : Good src dst subs) (hf : ∀ c ∈ cs, c.linear.Fits src.numVars) (hne : ∀ c ∈ cs, c.name ≠ "")
    (hn : ((dst.lins ++ cs).map LinCst.name).Nodup) : ∃ r, substLins src subs cs dst f = .ok r := by
  induction cs generalizing dst f with
  | nil => exact ⟨_, rfl⟩
  | cons c cs ih =>
    have hfs := fun c hc => hf c (List.mem_cons_of_mem _ hc)
    have hnes := fun c hc => hne c (List.mem_cons_of_mem _ hc)
    obtain ⟨⟨k, l⟩, hl⟩ := substLinear_success hd.cons hg (hf c List.mem_cons_self)
    simp only [substLins, hl]
    have hn' : (dst.lins.map LinCst.name ++ c.name :: cs.map LinCst.name).Nodup := by simpa using hn
    split
    · have hfresh : c.name ∉ Assoc.keys dst.linsIndex := by
        rw [hd.cons.lins.keys]
        intro hmem
        rw [List.nodup_append] at hn'
        exact hn'.2.2 _ hmem _ List.mem_cons_self rfl
      have hcst := linearConstraint_success (p := dst) (l := .sparse l) (s := c.sense)
        (r := -(([-c.rhs] ++ k).sum)) (le := l) (hne c List.mem_cons_self) hfresh rfl
      have w := substLinear_n hl
      have hwf := linearConstraint_wf hcst hd ⟨w.2, le_of_eq w.1⟩
      simp only [hcst]
      apply ih hwf _ hfs hnes
      · simpa using hn'
      · exact hg
    · apply ih hd hg hfs hnes
      rw [List.map_append]
      exact hn'.sublist (List.Sublist.append_left (List.sublist_cons_self _ _) _)

theorem underscore_length (s : String) (k : Nat) :
    ((Nat.iterate (fun t => "_" ++ t) k s).length) = k + s.length := by
  induction k generalizing s with
  | zero => simp
  | succ k ih => 
    have h1 : "_".length = 1 := by decide
    rw [Function.iterate_succ_apply, ih, String.length_append, h1]; omega

theorem underscoreName_iter (names : List String) (fuel : Nat) (s : String) :
    (∃ k ≤ fuel, underscoreName names fuel s = Nat.iterate (fun t => "_" ++ t) k s) ∧
    (underscoreName names fuel s ∉ names ∨
      ∀ k < fuel, Nat.iterate (fun t => "_" ++ t) k s ∈ names) := by
  induction fuel generalizing s with
  | zero => exact ⟨⟨0, le_refl _, rfl⟩, Or.inr (by simp)⟩
  | succ fuel ih =>
    simp only [underscoreName]
    split
    · rename_i hm
      obtain ⟨⟨k, hk, h1⟩, h2⟩ := ih ("_" ++ s)
      refine ⟨⟨k + 1, by omega, by rw [h1]; rfl⟩, ?_⟩
      rcases h2 with h2 | h2
      · exact Or.inl h2
      · right
        intro k hk
        cases k with
        | zero => exact hm
        | succ k => exact h2 k (by omega)
    · rename_i hm
      exact ⟨⟨0, by omega, rfl⟩, Or.inl hm⟩

theorem underscoreName_fresh (names : List String) (s : String) :
    underscoreName names (names.length + 1) s ∉ names := by
  rcases (underscoreName_iter names (names.length + 1) s).2 with h | h
  · exact h
  · exfalso
    have hinj : ((List.range (names.length + 1)).map fun k => Nat.iterate (fun t => "_" ++ t) k s).Nodup := by
      refine List.nodup_range.map_on ?_
      intro a _ b _ hab
      have := congrArg String.length hab
      rw [underscore_length, underscore_length] at this
      omega
    have hsub := List.subperm_of_subset hinj (l₂ := names) (by
      intro t ht
      obtain ⟨k, hk, rfl⟩ := List.mem_map.mp ht
      exact h k (by simpa using hk))
    have := hsub.length_le
    simp at this

theorem underscoreName_ne (names : List String) (fuel : Nat) {s : String} (hs : s ≠ "") :
    underscoreName names fuel s ≠ "" := by
  obtain ⟨⟨k, _, h⟩, _⟩ := underscoreName_iter names fuel s
  rw [h]
  intro hh
  have := congrArg String.length hh
  rw [underscore_length] at this
  simp at this
  exact hs this.2

theorem substQuads_success {src : QP} {subs : Subs} (cs : List QuadCst) {dst : QP} {f : Bool} (hd : dst.WF)
    (hg : Good src dst subs) (hf : ∀ c ∈ cs, c.linear.Fits src.numVars ∧ c.quadratic.Fits src.numVars)
    (hne : ∀ c ∈ cs, c.name ≠ "")
    (hn : ((dst.quads ++ cs).map QuadCst.name).Nodup) : ∃ r, substQuads src subs cs dst f = .ok r := by
  induction cs generalizing dst f with
  | nil => exact ⟨_, rfl⟩
  | cons c cs ih =>
    have hfs := fun c hc => hf c (List.mem_cons_of_mem _ hc)
    have hnes := fun c hc => hne c (List.mem_cons_of_mem _ hc)
    obtain ⟨⟨c1, l1⟩, hl⟩ := substLinear_success hd.cons hg (hf c List.mem_cons_self).1
    obtain ⟨⟨c2, l2, q⟩, hq⟩ := substQuadratic_success hd.cons hg (hf c List.mem_cons_self).2
    simp only [substQuads, hl, hq]
    have hn' : (dst.quads.map QuadCst.name ++ c.name :: cs.map QuadCst.name).Nodup := by simpa using hn
    have hn'' : ((dst.quads ++ cs).map QuadCst.name).Nodup := by
      rw [List.map_append]
      exact hn'.sublist (List.Sublist.append_left (List.sublist_cons_self _ _) _)
    have w1 := substLinear_n hl
    obtain ⟨w2, w3⟩ := substQuadratic_n hq
    split
    · have hfresh : c.name ∉ Assoc.keys dst.quadsIndex := by
        rw [hd.cons.quads.keys]
        intro hmem
        rw [List.nodup_append] at hn'
        exact hn'.2.2 _ hmem _ List.mem_cons_self rfl
      have hcst := quadraticConstraint_success (p := dst)
        (l := .sparse ⟨dst.numVars, dokPlus l1.coeffs l2.coeffs⟩) (q := .sparse q) (s := c.sense)
        (r := -(([-c.rhs] ++ c1 ++ c2).sum)) (hne c List.mem_cons_self) hfresh rfl rfl
      have hwf := quadraticConstraint_wf hcst hd (dokPlus_fits w1 w2)
        ⟨w3.2.nodup, w3.2.bound, le_of_eq w3.1⟩
      simp only [hcst]
      apply ih hwf _ hfs hnes
      · simpa using hn'
      · exact hg
    · split
      · have hfresh := underscoreName_fresh (dst.lins.map LinCst.name) c.name
        have hnne := underscoreName_ne (dst.lins.map LinCst.name) ((dst.lins.map LinCst.name).length + 1)
          (hne c List.mem_cons_self)
        generalize underscoreName (dst.lins.map LinCst.name) ((dst.lins.map LinCst.name).length + 1) c.name = nm
          at hfresh hnne ⊢
        rw [← hd.cons.lins.keys] at hfresh
        have hcst := linearConstraint_success (p := dst)
          (l := .sparse ⟨dst.numVars, dokPlus l1.coeffs l2.coeffs⟩) (s := c.sense)
          (r := -(([-c.rhs] ++ c1 ++ c2).sum)) hnne hfresh rfl
        have hwf := linearConstraint_wf hcst hd (dokPlus_fits w1 w2)
        simp only [hcst]
        exact ih hwf hg hfs hnes hn''
      · exact ih hd hg hfs hnes hn''

/-! ## Validity of the table -/

section Valid
variable {src : QP} {consts : List (Key × ℚ)} {varSubs : List (Key × Key × ℚ)}

/-- The substitution passes the checks made while the table is built: as `ValidSubst`, but a replacing
variable is only compared with variables replaced by constants or by entries listed earlier. -/
structure ValidInOrder (src : QP) (consts : List (Key × ℚ)) (varSubs : List (Key × Key × ℚ)) : Prop where
  distinct : (replacedKeys consts varSubs).Pairwise (fun k l => ¬ src.SameVar k l)
  nonzero : ∀ e ∈ varSubs, e.2.2 ≠ 0
  self : ∀ e ∈ varSubs, ¬ src.SameVar e.1 e.2.1
  const : ∀ c ∈ consts, ∀ e ∈ varSubs, ¬ src.SameVar c.1 e.2.1
  earlier : varSubs.Pairwise (fun a b => ¬ src.SameVar a.1 b.2.1)

theorem subsDict_cases (hs : src.Consistent) (hk : KnownKeys src consts varSubs) :
    ((∃ subs, subsDict src consts varSubs = .ok subs) ∧ ValidInOrder src consts varSubs) ∨
    (subsDict src consts varSubs = .error .optimization ∧ ¬ ValidInOrder src consts varSubs) := by
  have hpw : ∀ {c : List (Key × ℚ)} {v : List (Key × Key × ℚ)},
      (replacedKeys c v).Pairwise (fun k l => ¬ src.SameVar k l) ↔
      (c.Pairwise (fun a b => ¬ src.SameVar a.1 b.1) ∧ v.Pairwise (fun a b => ¬ src.SameVar a.1 b.1) ∧
        ∀ a ∈ c, ∀ b ∈ v, ¬ src.SameVar a.1 b.1) := by
    intro c v
    rw [replacedKeys, List.pairwise_append, List.pairwise_map, List.pairwise_map]
    simp only [List.mem_map, forall_exists_index, and_imp, forall_apply_eq_imp_iff₂]
  rcases subsConstants_cases hs consts [] hk.1 with ⟨⟨s1, h1⟩, _, h3⟩ | ⟨h1, h2⟩
  · obtain ⟨_, g2⟩ := subsConstants_get consts h1 (by simp [Assoc.keys])
    have hkeys : ∀ s, s ∈ Assoc.keys s1 ↔ ∃ c ∈ consts, NameOf src c.1 s := by
      intro s
      rw [Assoc.mem_keys_iff, Option.isSome_iff_exists]
      constructor
      · rintro ⟨r, hr⟩
        rcases (g2 s r).mp hr with h | ⟨c, hc, hn, _⟩
        · simp at h
        · exact ⟨c, hc, hn⟩
      · rintro ⟨c, hc, hn⟩
        exact ⟨_, (g2 s _).mpr (Or.inr ⟨c, hc, hn, rfl⟩)⟩
    have heq : VarsOK src varSubs s1 ↔ ValidInOrder src consts varSubs := by
      unfold VarsOK
      constructor
      · rintro ⟨k1, k2⟩
        refine ⟨hpw.mpr ⟨h3, k2.imp (fun h => h.1), ?_⟩, fun e he => (k1 e he).1, fun e he => (k1 e he).2.1, ?_,
          k2.imp (fun h => h.2)⟩
        · intro c hc e he hsame
          obtain ⟨s, n1, n2⟩ := (sameVar_iff hs _ _).mp hsame
          exact (k1 e he).2.2 s (Or.inl n2) ((hkeys s).mpr ⟨c, hc, n1⟩)
        · intro c hc e he hsame
          obtain ⟨s, n1, n2⟩ := (sameVar_iff hs _ _).mp hsame
          exact (k1 e he).2.2 s (Or.inr n2) ((hkeys s).mpr ⟨c, hc, n1⟩)
      · rintro ⟨k1, k2, k3, k4, k5⟩
        obtain ⟨_, m2, m3⟩ := hpw.mp k1
        refine ⟨?_, List.pairwise_and_iff.mpr ⟨m2, k5⟩⟩
        intro e he
        refine ⟨k2 e he, k3 e he, ?_⟩
        rintro s hse hm
        obtain ⟨c, hc, n1⟩ := (hkeys s).mp hm
        rcases hse with hse | hse
        · exact m3 c hc e he ((sameVar_iff hs _ _).mpr ⟨s, n1, hse⟩)
        · exact k4 c hc e he ((sameVar_iff hs _ _).mpr ⟨s, n1, hse⟩)
    rcases subsVariables_cases hs varSubs s1 hk.2 with ⟨⟨s2, h4⟩, h5⟩ | ⟨h4, h5⟩
    · left; exact ⟨⟨s2, by simp [subsDict, h1, h4]⟩, heq.mp h5⟩
    · right; exact ⟨by simp [subsDict, h1, h4], fun h => h5 (heq.mpr h)⟩
  · right
    refine ⟨by simp [subsDict, h1], ?_⟩
    intro hv
    exact h2 ⟨by simp [Assoc.keys], (hpw.mp hv.distinct).1⟩

theorem ValidSubst.inOrder (h : ValidSubst src consts varSubs) : ValidInOrder src consts varSubs := by
  have hv : ∀ a ∈ varSubs, ∀ b ∈ varSubs, ¬ src.SameVar a.1 b.2.1 := fun a ha b hb =>
    h.target a.1 (by simp only [replacedKeys, List.mem_append, List.mem_map]; exact Or.inr ⟨a, ha, rfl⟩) b hb
  refine ⟨h.distinct, h.nonzero, fun e he => hv e he e he, ?_, ?_⟩
  · intro c hc e he
    exact h.target c.1 (by simp only [replacedKeys, List.mem_append, List.mem_map]; exact Or.inl ⟨c, hc, rfl⟩) e he
  · exact List.Pairwise.imp_of_mem (R := fun _ _ => True) (fun ha hb _ => hv _ ha _ hb)
      (List.pairwise_of_forall (fun _ _ => trivial))

theorem substitute_valid {dst : QP} (h : src.substitute consts varSubs = .ok dst) (hs : src.WF)
    (hc : CONST ∉ src.vars.map Variable.name) (hk : KnownKeys src consts varSubs) :
    ValidSubst src consts varSubs := by
  obtain ⟨subs, d0, d1, d2, d3, d4, fa, f3, f4, st⟩ := substitute_stages h
  have hf := st.facts hs
  rcases subsDict_cases hs.cons hk with ⟨_, hv⟩ | ⟨he, _⟩
  · refine ⟨hk, hv.distinct, hv.nonzero, ?_⟩
    intro k hkm e he hsame
    obtain ⟨s, n1, n2⟩ := (sameVar_iff hs.cons _ _).mp hsame
    obtain ⟨⟨i, hi⟩, _⟩ := hk.2 e he
    obtain ⟨v, hv⟩ := known_ok hs.cons ⟨i, hi⟩
    have hg : Assoc.get? subs v.name = some (s, e.2.2) :=
      (hf.get _ _).mpr (Or.inr ⟨e, he, ⟨v, hv, rfl⟩, n2, rfl⟩)
    have hsc : s ≠ CONST := fun hh => hc (hh ▸ n2.mem hs.cons)
    have hnone := ((hf.kept_iff s).mp (hf.repl _ (Assoc.get?_mem hg) hsc)).2
    simp only [replacedKeys, List.mem_append, List.mem_map] at hkm
    rcases hkm with ⟨c, hcm, rfl⟩ | ⟨c, hcm, rfl⟩
    · have := (hf.get s (CONST, c.2)).mpr (Or.inl ⟨c, hcm, n1, rfl⟩)
      rw [hnone] at this; simp at this
    · obtain ⟨_, ⟨j, hj⟩⟩ := hk.2 c hcm
      obtain ⟨w, hw⟩ := known_ok hs.cons ⟨j, hj⟩
      have := (hf.get s (w.name, c.2.2)).mpr (Or.inr ⟨c, hcm, n1, ⟨w, hw, rfl⟩, rfl⟩)
      rw [hnone] at this; simp at this
  · rw [st.table] at he; simp at he

/-- Valid substitutions with some point inside all bounds succeed. -/
theorem substitute_success (hs : src.WF) (hc : CONST ∉ src.vars.map Variable.name)
    (hne : (∀ c ∈ src.lins, c.name ≠ "") ∧ ∀ c ∈ src.quads, c.name ≠ "")
    (hsane : src.SaneBounds) (hval : ValidSubst src consts varSubs) {x : Nat → ℚ}
    (hxc : ∀ e ∈ consts, ∀ i, src.Denotes e.1 i → x i = e.2)
    (hxv : ∀ e ∈ varSubs, ∀ i j, src.Denotes e.1 i → src.Denotes e.2.1 j → x i = e.2.2 * x j)
    (hin : src.InBounds x) (hbnd : ∀ i < src.numVars, |x i| ≤ INFINITY) :
    ∃ dst, src.substitute consts varSubs = .ok dst := by
  obtain ⟨subs, hsub⟩ : ∃ subs, subsDict src consts varSubs = .ok subs := by
    rcases subsDict_cases hs.cons hval.known with ⟨h, _⟩ | ⟨_, h⟩
    · exact h
    · exact absurd hval.inOrder h
  obtain ⟨hnd, hget⟩ := subsDict_get hsub
  have hlbub : ∀ v ∈ src.vars, v.lb ≤ v.ub := by
    intro v hv
    obtain ⟨i, hi⟩ := List.mem_iff_getElem?.mp hv
    have := hin i v hi; linarith [this.1, this.2]
  obtain ⟨d0, h0⟩ := copyVars_success (subs := subs) (vs := src.vars) (QP.empty_consistent src.name)
    (by simpa [QP.empty] using hs.cons.vars.2) hlbub
  obtain ⟨c0, hv0, hl0, hq0⟩ := copyVars_ok h0 (QP.empty_consistent _)
  have hv0 : d0.vars = src.vars.filter (fun v => !Assoc.has subs v.name) := by simpa [QP.empty] using hv0
  have hkept : ∀ s, s ∈ d0.vars.map Variable.name ↔
      s ∈ src.vars.map Variable.name ∧ Assoc.get? subs s = none := by
    intro s
    rw [hv0]
    simp only [List.mem_map, List.mem_filter, Bool.not_eq_true']
    have hh : ∀ t, Assoc.has subs t = false ↔ Assoc.get? subs t = none := by
      intro t; simp [Assoc.has]
    constructor
    · rintro ⟨v, ⟨hv, hn⟩, rfl⟩; exact ⟨⟨v, hv, rfl⟩, (hh _).mp hn⟩
    · rintro ⟨⟨v, hv, rfl⟩, hn⟩; exact ⟨v, ⟨hv, (hh _).mpr hn⟩, rfl⟩
  have htarget : ∀ e ∈ varSubs, ∀ s, NameOf src e.2.1 s → Assoc.get? subs s = none := by
    intro e he s hn
    cases hg : Assoc.get? subs s with
    | none => rfl
    | some r =>
      exfalso
      rcases (hget s r).mp hg with ⟨c, hcm, n1, _⟩ | ⟨c, hcm, n1, _, _⟩
      · exact hval.target c.1 (by simp only [replacedKeys, List.mem_append, List.mem_map]; exact Or.inl ⟨c, hcm, rfl⟩) e he
          ((sameVar_iff hs.cons _ _).mpr ⟨s, n1, hn⟩)
      · exact hval.target c.1 (by simp only [replacedKeys, List.mem_append, List.mem_map]; exact Or.inr ⟨c, hcm, rfl⟩) e he
          ((sameVar_iff hs.cons _ _).mpr ⟨s, n1, hn⟩)
  have hrepl : ∀ s r, Assoc.get? subs s = some r → r.1 ≠ CONST → r.1 ∈ d0.vars.map Variable.name ∧ r.2 ≠ 0 := by
    intro s r hg hr
    rcases (hget s r).mp hg with ⟨c, _, _, rfl⟩ | ⟨c, hcm, n1, n2, hr2⟩
    · exact absurd rfl hr
    · exact ⟨(hkept _).mpr ⟨n2.mem hs.cons, htarget c hcm _ n2⟩, by rw [hr2]; exact hval.nonzero c hcm⟩
  let y : Nat → ℚ := fun a => nameVal src.varsIndex x (varName d0.vars a)
  have hY : ∀ s ∈ d0.vars.map Variable.name, nameVal d0.varsIndex y s = nameVal src.varsIndex x s := by
    intro s hm
    obtain ⟨w, hw, rfl⟩ := List.mem_map.mp hm
    obtain ⟨a, ha⟩ := List.mem_iff_getElem?.mp hw
    rw [nameVal_at c0 ha]
    show nameVal src.varsIndex x (varName d0.vars a) = _
    simp [varName, ha]
  have hvalb : ∀ s ∈ src.vars.map Variable.name, |nameVal src.varsIndex x s| ≤ INFINITY := by
    intro s hm
    obtain ⟨v, hv, rfl⟩ := List.mem_map.mp hm
    obtain ⟨i, hi⟩ := List.mem_iff_getElem?.mp hv
    rw [nameVal_at hs.cons hi]
    exact hbnd i (List.getElem?_eq_some_iff.mp hi).1
  have hkey : ∀ t ∈ subs, t.1 ∈ src.vars.map Variable.name := by
    intro t ht
    have hg := Assoc.get?_of_mem hnd (k := t.1) (v := t.2) ht
    rcases (hget _ _).mp hg with ⟨c, _, n1, _⟩ | ⟨c, _, n1, _, _⟩ <;> exact n1.mem hs.cons
  obtain ⟨⟨d1, fa⟩, h1⟩ := adjustBounds_success (feas := true) hs.cons hsane subs c0 (nameVal src.varsIndex x) y
    hkey
    (by
      intro t ht hne
      exact hrepl t.1 t.2 (Assoc.get?_of_mem hnd (k := t.1) (v := t.2) ht) hne)
    (by
      intro t ht
      have hg := Assoc.get?_of_mem hnd (k := t.1) (v := t.2) ht
      unfold EntryOK
      rcases (hget _ _).mp hg with ⟨c, hcm, n1, hr⟩ | ⟨c, hcm, n1, n2, hr⟩
      · rw [hr]; simp only [if_true]
        obtain ⟨i, v, hd, hi, hn⟩ := (NameOf_iff hs.cons _ _).mp n1
        rw [← hn, nameVal_at hs.cons hi, hxc c hcm i hd]
      · have hsc : t.2.1 ≠ CONST := fun hh => hc (hh ▸ n2.mem hs.cons)
        rw [if_neg hsc]
        have hm := (hrepl _ _ hg hsc).1
        rw [hY _ hm]
        refine ⟨?_, hvalb _ (hkey t ht), hvalb _ ((hkept _).mp hm).1⟩
        obtain ⟨i, v, hd, hi, hn⟩ := (NameOf_iff hs.cons _ _).mp n1
        obtain ⟨j, w, hd', hj, hn'⟩ := (NameOf_iff hs.cons _ _).mp n2
        rw [← hn, ← hn', nameVal_at hs.cons hi, nameVal_at hs.cons hj, hxv c hcm i j hd hd', hr])
    (by
      intro t _ v hv hn
      obtain ⟨i, hi⟩ := List.mem_iff_getElem?.mp hv
      rw [← hn, nameVal_at hs.cons hi x]
      exact hin i v hi)
    (by
      intro a w ha
      have hwm : w ∈ d0.vars := List.mem_of_getElem? ha
      have := hY w.name (List.mem_map_of_mem hwm)
      rw [nameVal_at c0 ha] at this
      rw [this]
      rw [hv0, List.mem_filter] at hwm
      obtain ⟨i, hi⟩ := List.mem_iff_getElem?.mp hwm.1
      rw [nameVal_at hs.cons hi x]
      exact hin i w hi)
  obtain ⟨a1, _⟩ := adjustBounds_const h1 hs.cons c0
  have c1 := a1.cons c0
  have hgood : Good src d1 subs := by
    intro s hm hne'
    rw [a1.names]
    unfold repl at hne' ⊢
    cases hg : Assoc.get? subs s with
    | none => simp only [Option.getD_none]; exact (hkept s).mpr ⟨hm, hg⟩
    | some r =>
      simp only [hg, Option.getD_some] at hne' ⊢
      exact (hrepl s r hg hne').1
  obtain ⟨d2, h2⟩ := substObjective_success hs c1 hgood
  have hl1 : d1.lins = [] := by rw [a1.lins, hl0]; rfl
  have hq1 : d1.quads = [] := by rw [a1.quads, hq0]; rfl
  have w2 := substObjective_wf h2 c1 (by simp [hl1]) (by simp [hq1])
  obtain ⟨_, _, _, _, _, _, _, _, _, _, _, hd2⟩ := substObjective_ok h2
  obtain ⟨⟨d3, f3⟩, h3⟩ := substLins_success (subs := subs) (f := true) src.lins w2
    (by unfold Good; rw [hd2]; exact hgood) hs.lins hne.1
    (by rw [hd2]; show ((d1.lins ++ src.lins).map LinCst.name).Nodup; rw [hl1]; exact hs.cons.lins.2)
  have w3 := substLins_wf _ h3 w2
  obtain ⟨l1, l2, _, l4, _⟩ := substLins_spec src.lins h3 hs.cons hs.lins w2.cons.vars.inj
  obtain ⟨⟨d4, f4⟩, h4⟩ := substQuads_success (subs := subs) (f := true) src.quads w3
    (by unfold Good; rw [l1, hd2]; exact hgood) hs.quads hne.2
    (by rw [l4, hd2]; show ((d1.quads ++ src.quads).map QuadCst.name).Nodup; rw [hq1]; exact hs.cons.quads.2)
  unfold QP.substitute substVars
  simp only [hsub, h0, h1, h2, h3, h4]
  exact ⟨_, rfl⟩

theorem substitute_wf {dst : QP} (h : src.substitute consts varSubs = .ok dst) (hs : src.WF) : dst.WF := by
  obtain ⟨subs, d0, d1, d2, d3, d4, fa, f3, f4, st⟩ := substitute_stages h
  obtain ⟨c0, _, hl0, hq0⟩ := copyVars_ok st.copy (QP.empty_consistent _)
  obtain ⟨a1, _⟩ := adjustBounds_const st.adjust hs.cons c0
  have w2 := substObjective_wf st.obj (a1.cons c0) (by rw [a1.lins, hl0]; simp [QP.empty])
    (by rw [a1.quads, hq0]; simp [QP.empty])
  have w4 := substQuads_wf _ st.quads (substLins_wf _ st.lins w2)
  rw [st.result]
  exact ⟨⟨w4.cons.vars, w4.cons.lins, w4.cons.quads⟩, w4.objLin, w4.objQuad, w4.lins, w4.quads⟩

end Valid

end Verif
