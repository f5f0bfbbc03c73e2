import Verif.PropsSubstitute

/-!
# Lemmas for substitution in steps
-/

namespace Verif

/-- A sublist of a list without repetitions is determined by its members. -/
theorem sublist_unique {α : Type} [DecidableEq α] {L : List α} (hn : L.Nodup) : ∀ {a b : List α}, a.Sublist L → b.Sublist L →
    (∀ s, s ∈ a ↔ s ∈ b) → a = b := by
  have key : ∀ {a : List α}, a.Sublist L → a = L.filter (· ∈ a) := by
    intro a ha
    induction ha with
    | slnil => rfl
    | @cons l₁ l₂ x h ih =>
      have hx : x ∉ l₁ := fun hm => (List.nodup_cons.mp hn).1 (h.subset hm)
      rw [List.filter_cons_of_neg (by simpa using hx)]
      exact ih (List.nodup_cons.mp hn).2
    | @cons_cons l₁ l₂ x h ih =>
      rw [List.filter_cons_of_pos (by simp)]
      congr 1
      have hx : x ∉ l₂ := (List.nodup_cons.mp hn).1
      refine (ih (List.nodup_cons.mp hn).2).trans ?_
      apply List.filter_congr
      intro y hy
      have : y ≠ x := fun e => hx (e ▸ hy)
      simp [this]
  intro a b ha hb h
  rw [key ha, key hb]
  apply List.filter_congr
  intro y _
  simp [h y]

/-- Variables with the same name are the same variable of a well-formed program. -/
theorem position_unique {p : QP} (hp : p.WF) {i j : Nat} {v w : Variable} (hi : p.vars[i]? = some v)
    (hj : p.vars[j]? = some w) (h : v.name = w.name) : i = j := by
  have hnd : (p.vars.map Variable.name).Nodup := hp.cons.vars.2
  have e1 : (p.vars.map Variable.name)[i]? = some v.name := by simp [hi]
  have e2 : (p.vars.map Variable.name)[j]? = some v.name := by simp [hj, h]
  have l1 : i < (p.vars.map Variable.name).length := by simpa using (List.getElem?_eq_some_iff.mp hi).1
  exact (List.getElem?_inj l1 hnd).mp (e1.trans e2.symm)

theorem addOneVar_status (p : QP) (nm : String) (lb ub : ℚ) (t : VarType) : (p.addOneVar nm lb ub t).2.status = p.status := by
  unfold QP.addOneVar
  split
  · rfl
  · dsimp only
    split <;> rfl

theorem addVarsCount_status (name : String) (fmt : KeyFormat) (lb ub : ℚ) (t : VarType) (m : Nat) : ∀ (k : Nat) (p : QP),
    (QP.addVarsCount name fmt lb ub t m k p).2.status = p.status := by
  induction m with
  | zero => intro k p; rfl
  | succ m ih =>
    intro k p
    unfold QP.addVarsCount
    split
    · rfl
    · rename_i nn k' _
      have h1 := addOneVar_status p nn lb ub t
      split
      · rename_i he; rw [he] at h1; exact h1
      · rename_i v p' he
        rw [he] at h1
        have h2 := ih k' p'
        split <;> rename_i he2 <;> rw [he2] at h2 <;> exact h2.trans h1

theorem addVarsSeq_status (name : String) (fmt : KeyFormat) (lb ub : ℚ) (t : VarType) (l : List String) : ∀ p : QP,
    (QP.addVarsSeq name fmt lb ub t l p).2.status = p.status := by
  induction l with
  | nil => intro p; rfl
  | cons key l ih =>
    intro p
    unfold QP.addVarsSeq
    have h1 := addOneVar_status p (name ++ fmt.format key) lb ub t
    split
    · rename_i he; rw [he] at h1; exact h1
    · rename_i v p' he
      rw [he] at h1
      have h2 := ih p'
      split <;> rename_i he2 <;> rw [he2] at h2 <;> exact h2.trans h1

theorem addVariables_status (p : QP) (keys : Keys) (lb ub : ℚ) (t : VarType) (name : Option String) (fmt : KeyFormat) :
    (p.addVariables keys lb ub t name fmt).2.status = p.status := by
  unfold QP.addVariables
  dsimp only
  split
  · split
    · rfl
    · split
      · rfl
      · exact addVarsCount_status ..
  · split
    · rfl
    · exact addVarsSeq_status ..

theorem addVariable_status (p : QP) (lb ub : ℚ) (t : VarType) (name : Option String) :
    (p.addVariable lb ub t name).2.status = p.status := by
  unfold QP.addVariable
  cases name with
  | none =>
    have h := addVariables_status p (.count 1) lb ub t (some "x") (.hole "" "")
    dsimp only
    split <;> rename_i he <;> rw [he] at h <;> exact h
  | some s =>
    have h := addVariables_status p (.count 1) lb ub t (some s) (.lit "")
    dsimp only
    split <;> rename_i he <;> rw [he] at h <;> exact h

theorem drop_snd {α : Type} (r : Res α) : (Res.drop r).2 = r.2 := by
  unfold Res.drop; split <;> rfl

theorem edit_status {p p' : QP} {e : Edit} (h : p.edit e = .ok p') : p'.status = p.status := by
  unfold QP.edit at h
  split at h
  all_goals first
    | (cases h; rfl)
    | (split at h
       · cases h
       · first
         | (cases h; rfl)
         | (split at h
            · cases h
            · cases h; rfl))

/-- The builder calls and assignments other than `clear` keep the status. -/
theorem apply_status (p : QP) (c : Call) (hc : c ≠ .clear) : (c.apply p).2.status = p.status := by
  cases c with
  | addVars => simp only [Call.apply, drop_snd]; exact addVariables_status ..
  | addVar => simp only [Call.apply, drop_snd]; exact addVariable_status ..
  | linear =>
    simp only [Call.apply, drop_snd]
    unfold QP.linearConstraint
    repeat' (first | rfl | split | dsimp only)
  | quadratic =>
    simp only [Call.apply, drop_snd]
    unfold QP.quadraticConstraint
    repeat' (first | rfl | split | dsimp only)
  | removeLin =>
    simp only [Call.apply]
    unfold QP.removeLinear
    repeat' (first | rfl | split | dsimp only)
  | removeQuad =>
    simp only [Call.apply]
    unfold QP.removeQuadratic
    repeat' (first | rfl | split | dsimp only)
  | objective =>
    simp only [Call.apply]
    unfold QP.setObjective
    repeat' (first | rfl | split | dsimp only)
  | clear => exact absurd rfl hc
  | setLb =>
    simp only [Call.apply]
    unfold QP.setLowerbound
    repeat' (first | rfl | split | dsimp only)
  | setUb =>
    simp only [Call.apply]
    unfold QP.setUpperbound
    repeat' (first | rfl | split | dsimp only)
  | edit e =>
    simp only [Call.apply]
    split
    · rfl
    · rename_i h; exact edit_status h

theorem runCalls_status (cs : List Call) : ∀ p : QP, Call.clear ∉ cs → (runCalls p cs).2.status = p.status := by
  induction cs with
  | nil => intro p _; rfl
  | cons c cs ih =>
    intro p h
    simp only [List.mem_cons, not_or] at h
    unfold runCalls
    have h1 := apply_status p c (Ne.symm h.1)
    split
    · rename_i he; rw [he] at h1; exact h1
    · rename_i p' he
      rw [he] at h1
      exact (ih p' h.2).trans h1

/-- Keys given as names. -/
def constKeys (l : List (String × ℚ)) : List (Key × ℚ) := l.map fun e => (.name e.1, e.2)

/-- Keys given as names. -/
def varKeys (l : List (String × String × ℚ)) : List (Key × Key × ℚ) := l.map fun e => (.name e.1, .name e.2.1, e.2.2)

/-- The replacements `c`, `v` have the effect of `c1`, `v1` followed by `c2`, `v2`: a variable that is replaced by a multiple of
another one in the first step, and that one by a constant or a multiple of a third one in the second step, is replaced by the
product; everything else is as in the two steps. -/
structure Combined (c1 c2 c : List (String × ℚ)) (v1 v2 v : List (String × String × ℚ)) : Prop where
  const : ∀ s a, (s, a) ∈ c ↔ (s, a) ∈ c1 ∨ (s, a) ∈ c2 ∨ ∃ t b d, (s, t, b) ∈ v1 ∧ (t, d) ∈ c2 ∧ a = b * d
  var : ∀ s t a, (s, t, a) ∈ v ↔ (s, t, a) ∈ v2 ∨
    ((s, t, a) ∈ v1 ∧ (∀ d, (t, d) ∉ c2) ∧ ∀ u d, (t, u, d) ∉ v2) ∨
    ∃ u b d, (s, u, b) ∈ v1 ∧ (u, t, d) ∈ v2 ∧ a = b * d

theorem denotes_name {p : QP} {s : String} {i : Nat} : p.Denotes (.name s) i ↔ ∃ v, p.vars[i]? = some v ∧ v.name = s := by
  simp [QP.Denotes]

theorem mem_constKeys {l : List (String × ℚ)} {s : String} {a : ℚ} : (Key.name s, a) ∈ constKeys l ↔ (s, a) ∈ l := by
  simp only [constKeys, List.mem_map, Prod.mk.injEq, Key.name.injEq, Prod.exists]
  constructor
  · rintro ⟨_, _, h, rfl, rfl⟩; exact h
  · intro h; exact ⟨s, a, h, rfl, rfl⟩

theorem mem_varKeys {l : List (String × String × ℚ)} {s t : String} {a : ℚ} :
    (Key.name s, Key.name t, a) ∈ varKeys l ↔ (s, t, a) ∈ l := by
  simp only [varKeys, List.mem_map, Prod.mk.injEq, Key.name.injEq, Prod.exists]
  constructor
  · rintro ⟨_, _, _, h, rfl, rfl, rfl⟩; exact h
  · intro h; exact ⟨s, t, a, h, rfl, rfl, rfl⟩

theorem knownKeys_names {p : QP} {c : List (String × ℚ)} {v : List (String × String × ℚ)} :
    KnownKeys p (constKeys c) (varKeys v) ↔ (∀ s a, (s, a) ∈ c → s ∈ p.vars.map Variable.name) ∧
      ∀ s t a, (s, t, a) ∈ v → s ∈ p.vars.map Variable.name ∧ t ∈ p.vars.map Variable.name := by
  have hd : ∀ s, (∃ i, p.Denotes (.name s) i) ↔ s ∈ p.vars.map Variable.name := by
    intro s
    constructor
    · rintro ⟨i, hi⟩
      obtain ⟨v, hv, rfl⟩ := denotes_name.mp hi
      exact List.mem_map_of_mem (List.mem_of_getElem? hv)
    · intro h
      obtain ⟨v, hv, rfl⟩ := List.mem_map.mp h
      obtain ⟨i, hi⟩ := List.mem_iff_getElem?.mp hv
      exact ⟨i, denotes_name.mpr ⟨v, hi, rfl⟩⟩
  constructor
  · rintro ⟨h1, h2⟩
    refine ⟨fun s a h => (hd s).mp (h1 _ (mem_constKeys.mpr h)), fun s t a h => ?_⟩
    have := h2 _ (mem_varKeys.mpr h)
    exact ⟨(hd s).mp this.1, (hd t).mp this.2⟩
  · rintro ⟨h1, h2⟩
    constructor
    · intro e0 he
      obtain ⟨e, h, rfl⟩ := List.mem_map.mp he
      exact (hd _).mpr (h1 e.1 e.2 h)
    · intro e0 he
      obtain ⟨e, h, rfl⟩ := List.mem_map.mp he
      have := h2 e.1 e.2.1 e.2.2 h
      exact ⟨(hd _).mpr this.1, (hd _).mpr this.2⟩

theorem names_left {src dst : QP} {c : List (String × ℚ)} {v : List (String × String × ℚ)} (hs : src.WF)
    (hc : "__CONSTANT__" ∉ src.vars.map Variable.name) (h : src.substitute (constKeys c) (varKeys v) = .ok dst)
    (hk : KnownKeys src (constKeys c) (varKeys v)) (s : String) :
    s ∈ dst.vars.map Variable.name ↔ s ∈ src.vars.map Variable.name ∧ (∀ a, (s, a) ∉ c) ∧ ∀ t a, (s, t, a) ∉ v := by
  rw [(C12_extension_exists src dst _ _ h hs hc hk).1 s]
  constructor
  · rintro ⟨hm, hr⟩
    obtain ⟨w, hw, rfl⟩ := List.mem_map.mp hm
    obtain ⟨i, hi⟩ := List.mem_iff_getElem?.mp hw
    refine ⟨hm, fun a ha => hr (.name w.name) ?_ i w (denotes_name.mpr ⟨w, hi, rfl⟩) hi rfl,
      fun t a ha => hr (.name w.name) ?_ i w (denotes_name.mpr ⟨w, hi, rfl⟩) hi rfl⟩
    · exact List.mem_append_left _ (List.mem_map.mpr ⟨_, mem_constKeys.mpr ha, rfl⟩)
    · exact List.mem_append_right _ (List.mem_map.mpr ⟨_, mem_varKeys.mpr ha, rfl⟩)
  · rintro ⟨hm, h1, h2⟩
    refine ⟨hm, fun k hk i w hd hw hn => ?_⟩
    rcases List.mem_append.mp hk with hk | hk
    · obtain ⟨e, he, rfl⟩ := List.mem_map.mp hk
      obtain ⟨e', he', rfl⟩ := List.mem_map.mp he
      obtain ⟨w', hw', hn'⟩ := denotes_name.mp hd
      rw [hw] at hw'; cases hw'
      exact h1 e'.2 (by rw [← hn, hn']; exact he')
    · obtain ⟨e, he, rfl⟩ := List.mem_map.mp hk
      obtain ⟨e', he', rfl⟩ := List.mem_map.mp he
      obtain ⟨w', hw', hn'⟩ := denotes_name.mp hd
      rw [hw] at hw'; cases hw'
      exact h2 e'.2.1 e'.2.2 (by rw [← hn, hn']; exact he')

theorem exists_position {p : QP} {s : String} (h : s ∈ p.vars.map Variable.name) : ∃ i, p.Denotes (.name s) i := by
  obtain ⟨v, hv, rfl⟩ := List.mem_map.mp h
  obtain ⟨i, hi⟩ := List.mem_iff_getElem?.mp hv
  exact ⟨i, denotes_name.mpr ⟨v, hi, rfl⟩⟩

theorem denotes_mem {p : QP} {s : String} {i : Nat} (h : p.Denotes (.name s) i) : s ∈ p.vars.map Variable.name := by
  obtain ⟨v, hv, rfl⟩ := denotes_name.mp h
  exact List.mem_map_of_mem (List.mem_of_getElem? hv)

/-- What the replacements of the two steps and those of the single one have in common. -/
structure ChainFacts (src mid dst2 dst : QP) (c1 c2 c : List (String × ℚ)) (v1 v2 v : List (String × String × ℚ)) : Prop where
  known : KnownKeys src (constKeys c) (varKeys v)
  midWF : mid.WF
  midConst : "__CONSTANT__" ∉ mid.vars.map Variable.name
  vars : (dst2.vars.map fun w => (w.name, w.vartype)) = (dst.vars.map fun w => (w.name, w.vartype))
  ext : ∀ x y, IsExtension src dst (constKeys c) (varKeys v) x y → ∃ m, IsExtension src mid (constKeys c1) (varKeys v1) x m ∧
    IsExtension mid dst2 (constKeys c2) (varKeys v2) m y ∧
    ((∀ i < src.numVars, |x i| ≤ INFINITY) → ∀ i < mid.numVars, |m i| ≤ INFINITY)

theorem chainFacts {src mid dst2 dst : QP} {c1 c2 c : List (String × ℚ)} {v1 v2 v : List (String × String × ℚ)}
    (hcomb : Combined c1 c2 c v1 v2 v) (hs : src.WF) (hc : "__CONSTANT__" ∉ src.vars.map Variable.name)
    (h1 : src.substitute (constKeys c1) (varKeys v1) = .ok mid)
    (h2 : mid.substitute (constKeys c2) (varKeys v2) = .ok dst2)
    (h : src.substitute (constKeys c) (varKeys v) = .ok dst)
    (hk1 : KnownKeys src (constKeys c1) (varKeys v1)) (hk2 : KnownKeys mid (constKeys c2) (varKeys v2)) :
    ChainFacts src mid dst2 dst c1 c2 c v1 v2 v := by
  have hm := C13_result_wf _ _ _ _ h1 hs
  have hsub1 := C13_variables _ _ _ _ h1 hs
  have hsub2 := C13_variables _ _ _ _ h2 hm
  have hsub := C13_variables _ _ _ _ h hs
  have hin1 : ∀ s, s ∈ mid.vars.map Variable.name → s ∈ src.vars.map Variable.name := fun s hs' =>
    ((names_left hs hc h1 hk1 s).mp hs').1
  have hcm : "__CONSTANT__" ∉ mid.vars.map Variable.name := fun hh => hc (hin1 _ hh)
  have k1 := knownKeys_names.mp hk1
  have k2 := knownKeys_names.mp hk2
  have hk : KnownKeys src (constKeys c) (varKeys v) := by
    refine knownKeys_names.mpr ⟨fun s a ha => ?_, fun s t a ha => ?_⟩
    · rcases (hcomb.const s a).mp ha with h0 | h0 | ⟨t, b, d, h0, _⟩
      · exact k1.1 s a h0
      · exact hin1 _ (k2.1 s a h0)
      · exact (k1.2 s t b h0).1
    · rcases (hcomb.var s t a).mp ha with h0 | h0 | ⟨u, b, d, h0, h0', _⟩
      · exact ⟨hin1 _ (k2.2 s t a h0).1, hin1 _ (k2.2 s t a h0).2⟩
      · exact k1.2 s t a h0.1
      · exact ⟨(k1.2 s u b h0).1, hin1 _ (k2.2 u t d h0').2⟩
  have hnames : ∀ s, s ∈ dst2.vars.map Variable.name ↔ s ∈ dst.vars.map Variable.name := by
    intro s
    rw [names_left hm hcm h2 hk2, names_left hs hc h1 hk1, names_left hs hc h hk]
    constructor
    · rintro ⟨⟨h0, ha, hb⟩, hd, he⟩
      refine ⟨h0, fun a hh => ?_, fun t a hh => ?_⟩
      · rcases (hcomb.const s a).mp hh with g | g | ⟨t, b, d, g, _⟩
        · exact ha _ g
        · exact hd _ g
        · exact hb _ _ g
      · rcases (hcomb.var s t a).mp hh with g | g | ⟨u, b, d, g, _⟩
        · exact he _ _ g
        · exact hb _ _ g.1
        · exact hb _ _ g
    · rintro ⟨h0, ha, hb⟩
      refine ⟨⟨h0, fun a hh => ha a ((hcomb.const s a).mpr (Or.inl hh)), fun t a hh => ?_⟩,
        fun a hh => ha a ((hcomb.const s a).mpr (Or.inr (Or.inl hh))), fun t a hh => hb t a ((hcomb.var s t a).mpr (Or.inl hh))⟩
      by_cases g1 : ∃ d, (t, d) ∈ c2
      · obtain ⟨d, g1⟩ := g1
        exact ha _ ((hcomb.const s (a * d)).mpr (Or.inr (Or.inr ⟨t, a, d, hh, g1, rfl⟩)))
      · by_cases g2 : ∃ u d, (t, u, d) ∈ v2
        · obtain ⟨u, d, g2⟩ := g2
          exact hb _ _ ((hcomb.var s u (a * d)).mpr (Or.inr (Or.inr ⟨t, a, d, hh, g2, rfl⟩)))
        · push Not at g1 g2
          exact hb _ _ ((hcomb.var s t a).mpr (Or.inr (Or.inl ⟨hh, g1, g2⟩)))
  have hnd : (src.vars.map Variable.name).Nodup := hs.cons.vars.2
  have hpn : (src.vars.map fun w => (w.name, w.vartype)).Nodup := by
    apply List.Nodup.of_map Prod.fst
    rw [List.map_map]
    exact hnd
  have hpair : ∀ d : QP, (d.vars.map fun w => (w.name, w.vartype)).Sublist (src.vars.map fun w => (w.name, w.vartype)) →
      ∀ q, q ∈ (d.vars.map fun w => (w.name, w.vartype)) ↔
        q ∈ (src.vars.map fun w => (w.name, w.vartype)) ∧ q.1 ∈ d.vars.map Variable.name := by
    intro d hd q
    constructor
    · intro hq
      refine ⟨hd.subset hq, ?_⟩
      obtain ⟨w, hw, rfl⟩ := List.mem_map.mp hq
      exact List.mem_map_of_mem hw
    · rintro ⟨hq, hn⟩
      obtain ⟨w, hw, hwn⟩ := List.mem_map.mp hn
      obtain ⟨u, hu, rfl⟩ := List.mem_map.mp hq
      have hw' := List.mem_map_of_mem (f := fun w : Variable => (w.name, w.vartype)) hw
      obtain ⟨u', hu', he⟩ := List.mem_map.mp (hd.subset hw')
      simp only [Prod.mk.injEq] at he
      have : u' = u := List.inj_on_of_nodup_map hnd hu' hu (he.1.trans hwn)
      subst this
      exact List.mem_map.mpr ⟨w, hw, by simp [he.1, he.2]⟩
  have hvars : (dst2.vars.map fun w => (w.name, w.vartype)) = (dst.vars.map fun w => (w.name, w.vartype)) := by
    refine sublist_unique hpn (hsub2.trans hsub1) hsub fun q => ?_
    rw [hpair dst2 (hsub2.trans hsub1), hpair dst hsub, hnames]
  refine ⟨hk, hm, hcm, hvars, fun x y hx => ?_⟩
  have hmx : ∀ k, ∃ r : ℚ, ∀ s, mid.Denotes (.name s) k → ∀ i, src.Denotes (.name s) i → r = x i := by
    intro k
    cases hw : mid.vars[k]? with
    | none => exact ⟨0, fun s hd => by obtain ⟨v, hv, _⟩ := denotes_name.mp hd; rw [hw] at hv; cases hv⟩
    | some w =>
      obtain ⟨i, hi⟩ := exists_position (hin1 w.name (List.mem_map_of_mem (List.mem_of_getElem? hw)))
      refine ⟨x i, fun s hd j hj => ?_⟩
      obtain ⟨w', hw', hn⟩ := denotes_name.mp hd
      rw [hw] at hw'; cases hw'
      obtain ⟨a, ha, han⟩ := denotes_name.mp hi
      obtain ⟨b, hb, hbn⟩ := denotes_name.mp hj
      rw [position_unique hs ha hb (han.trans (hn.trans hbn.symm))]
  choose m hmx using hmx
  have xc : ∀ s a, (s, a) ∈ c → ∀ i, src.Denotes (.name s) i → x i = a := fun s a ha i hi =>
    hx.const _ (mem_constKeys.mpr ha) i hi
  have xv : ∀ s t a, (s, t, a) ∈ v → ∀ i j, src.Denotes (.name s) i → src.Denotes (.name t) j → x i = a * x j :=
    fun s t a ha i j hi hj => hx.var _ (mem_varKeys.mpr ha) i j hi hj
  refine ⟨m, ⟨?_, ?_, ?_⟩, ⟨?_, ?_, ?_⟩, fun hb k hk' => ?_⟩
  · intro e0 he i hi
    obtain ⟨e, he', rfl⟩ := List.mem_map.mp he
    exact xc e.1 e.2 ((hcomb.const _ _).mpr (Or.inl he')) i hi
  · intro e0 he i j hi hj
    obtain ⟨⟨s, t, b⟩, he', rfl⟩ := List.mem_map.mp he
    by_cases g1 : ∃ d, (t, d) ∈ c2
    · obtain ⟨d, g1⟩ := g1
      have e1 := xc s (b * d) ((hcomb.const _ _).mpr (Or.inr (Or.inr ⟨t, b, d, he', g1, rfl⟩))) i hi
      have e2 := xc t d ((hcomb.const _ _).mpr (Or.inr (Or.inl g1))) j hj
      simp only [e1, e2]
    · by_cases g2 : ∃ u d, (t, u, d) ∈ v2
      · obtain ⟨u, d, g2⟩ := g2
        obtain ⟨l, hl⟩ := exists_position (hin1 u (k2.2 t u d g2).2)
        have e1 := xv s u (b * d) ((hcomb.var _ _ _).mpr (Or.inr (Or.inr ⟨t, b, d, he', g2, rfl⟩))) i l hi hl
        have e2 := xv t u d ((hcomb.var _ _ _).mpr (Or.inl g2)) j l hj hl
        simp only [e1, e2, mul_assoc]
      · push Not at g1 g2
        exact xv s t b ((hcomb.var _ _ _).mpr (Or.inr (Or.inl ⟨he', g1, g2⟩))) i j hi hj
  · intro i a w w' hw hw' hn
    exact (hmx a w'.name (denotes_name.mpr ⟨w', hw', rfl⟩) i (denotes_name.mpr ⟨w, hw, hn⟩)).symm
  · intro e0 he i hi
    obtain ⟨e, he', rfl⟩ := List.mem_map.mp he
    obtain ⟨l, hl⟩ := exists_position (hin1 e.1 (denotes_mem hi))
    exact (hmx i e.1 hi l hl).trans (xc e.1 e.2 ((hcomb.const _ _).mpr (Or.inr (Or.inl he'))) l hl)
  · intro e0 he i j hi hj
    obtain ⟨⟨s, t, b⟩, he', rfl⟩ := List.mem_map.mp he
    obtain ⟨l, hl⟩ := exists_position (hin1 s (denotes_mem hi))
    obtain ⟨l', hl'⟩ := exists_position (hin1 t (denotes_mem hj))
    rw [hmx i s hi l hl, hmx j t hj l' hl']
    exact xv s t b ((hcomb.var _ _ _).mpr (Or.inl he')) l l' hl hl'
  · intro i a w w' hw hw' hn
    obtain ⟨l, hl⟩ := exists_position (hin1 w.name (List.mem_map_of_mem (List.mem_of_getElem? hw)))
    rw [hmx i w.name (denotes_name.mpr ⟨w, hw, rfl⟩) l hl]
    obtain ⟨u, hu, hun⟩ := denotes_name.mp hl
    have e := congrArg (fun L : List (String × VarType) => L[a]?) hvars
    simp only [List.getElem?_map, hw', Option.map_some] at e
    cases hd : dst.vars[a]? with
    | none => rw [hd] at e; cases e
    | some w'' =>
      rw [hd] at e
      simp only [Option.map_some, Option.some.injEq, Prod.mk.injEq] at e
      exact hx.kept l a u w'' hu hd (hun.trans (hn.trans e.1))
  · obtain ⟨w, hw⟩ : ∃ w, mid.vars[k]? = some w := ⟨_, List.getElem?_eq_getElem hk'⟩
    obtain ⟨l, hl⟩ := exists_position (hin1 w.name (List.mem_map_of_mem (List.mem_of_getElem? hw)))
    rw [hmx k w.name (denotes_name.mpr ⟨w, hw, rfl⟩) l hl]
    obtain ⟨u, hu, _⟩ := denotes_name.mp hl
    exact hb l (List.getElem?_eq_some_iff.mp hu).1

end Verif
