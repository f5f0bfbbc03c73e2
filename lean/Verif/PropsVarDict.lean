import Verif.VarDict
import Verif.PropsProgram

/-!
# Batches of variables: C91
-/

namespace Verif

/-- The name found is the next one that is free. -/
theorem findName_ok {vi : Assoc String Nat} {name : String} {fmt : KeyFormat} {fuel : Nat} {prev : Option String} {k : Nat}
    {s : String} {k' : Nat} (h : findName vi name fmt fuel prev k = .ok (s, k')) :
    ∃ m, k ≤ m ∧ k' = m + 1 ∧ s = name ++ fmt.format (toString m) ∧ s ∉ Assoc.keys vi ∧
      ∀ j, k ≤ j → j < m → name ++ fmt.format (toString j) ∈ Assoc.keys vi := by
  induction fuel generalizing prev k with
  | zero => simp [findName] at h
  | succ fuel ih =>
    simp only [findName] at h
    split_ifs at h with h1 h2
    · obtain ⟨m, hm, h3, h4, h5, h6⟩ := ih h
      refine ⟨m, by omega, h3, h4, h5, fun j hj hlt => ?_⟩
      rcases Nat.eq_or_lt_of_le hj with rfl | hj
      · exact Assoc.has_iff.mp h2
      · exact h6 j hj hlt
    · simp only [Except.ok.injEq, Prod.mk.injEq] at h
      obtain ⟨rfl, rfl⟩ := h
      exact ⟨k, le_refl _, rfl, rfl, fun hc => h2 (Assoc.has_iff.mpr hc), fun j h1 h2 => by omega⟩

theorem addVarsCount_names {name pre post : String} {lb ub : ℚ} {t : VarType} {m k : Nat} {p p' : QP} {vs : List Variable}
    (h : QP.addVarsCount name (.hole pre post) lb ub t m k p = (.ok vs, p')) :
    ∃ ns : List Nat, vs.map Variable.name = ns.map (fun n => name ++ (pre ++ toString n ++ post)) ∧
      ns.Pairwise (· < ·) ∧ (∀ n ∈ ns, k ≤ n) ∧
      ∀ n, k ≤ n → (∃ n' ∈ ns, n < n') → n ∉ ns → name ++ (pre ++ toString n ++ post) ∈ Assoc.keys p.varsIndex := by
  induction m generalizing k p vs with
  | zero =>
    simp [QP.addVarsCount] at h
    obtain ⟨rfl, rfl⟩ := h
    exact ⟨[], rfl, List.Pairwise.nil, by simp, by simp⟩
  | succ m ih =>
    simp only [QP.addVarsCount] at h
    split at h
    · simp at h
    · rename_i s k' hs
      obtain ⟨a, ha, rfl, rfl, hfree, hskip⟩ := findName_ok hs
      split at h
      · simp at h
      · rename_i v p1 hv
        split at h
        · simp at h
        · rename_i vs1 p2 hvs
          simp only [Prod.mk.injEq, Except.ok.injEq] at h
          obtain ⟨rfl, rfl⟩ := h
          obtain ⟨ns, h1, h2, h3, h4⟩ := ih hvs
          obtain ⟨rfl, _, _, rfl⟩ := addOneVar_ok hv
          refine ⟨a :: ns, by rw [List.map_cons, List.map_cons, h1]; rfl,
            List.pairwise_cons.mpr ⟨fun n hn => by have := h3 n hn; omega, h2⟩, ?_, ?_⟩
          · intro n hn
            rcases List.mem_cons.mp hn with rfl | hn
            · exact ha
            · have := h3 n hn; omega
          · rintro n hn ⟨n', hn', hlt⟩ hni
            simp only [List.mem_cons, not_or] at hni
            rcases Nat.lt_or_ge n a with hna | hna
            · exact hskip n hn hna
            · rcases List.mem_cons.mp hn' with rfl | hn'
              · omega
              · have h5 := h4 n (by omega) ⟨n', hn', hlt⟩ hni.2
                rcases Assoc.mem_keys_set.mp h5 with h5 | h5
                · exact h5
                · exact absurd (format_hole_injective name pre post n a h5) hni.1

theorem varDict_ok {p p' : QP} {keys : Keys} {lb ub : ℚ} {t : VarType} {name : Option String} {fmt : KeyFormat}
    {d : Assoc String Variable} (hp : p.Consistent) (h : p.varDict keys lb ub t name fmt = (.ok d, p')) :
    ∃ vs, p.addVariables keys lb ub t name fmt = (.ok vs, p') ∧ d = (vs.map Variable.name).zip vs ∧
      (vs.map Variable.name).Nodup := by
  unfold QP.varDict at h
  split at h
  · simp at h
  · rename_i vs q hq
    simp only [Prod.mk.injEq, Except.ok.injEq] at h
    obtain ⟨rfl, rfl⟩ := h
    have he := addVariables_extends hq
    have hn := (he.cons hp).vars.2
    rw [he.vars, List.map_append] at hn
    have hn' := (List.nodup_append.mp hn).2.1
    refine ⟨vs, hq, ?_, hn'⟩
    apply ofEntries_of_nodup
    rw [Assoc.keys, List.map_fst_zip (by simp)]
    exact hn'

/-- **C91** (dictionaries): the dictionary returned by a batch contains exactly the new variables, in order, each under its
own name, with the bounds and the type given; they are the last variables of the program, whose rest is unchanged, and
every entry is what `get_variable` finds under this name. -/
theorem C91_dict {p p' : QP} (hp : p.Consistent) {keys : Keys} {lb ub : ℚ} {t : VarType} {name : Option String}
    {fmt : KeyFormat} {d : Assoc String Variable} (h : p.varDict keys lb ub t name fmt = (.ok d, p')) :
    p'.vars = p.vars ++ d.map Prod.snd ∧ (d.map Prod.fst).Nodup ∧
    (∀ e ∈ d, e.2 = ⟨e.1, lb, ub, t⟩ ∧ p'.getVariable (.name e.1) = .ok e.2 ∧ ∀ v ∈ p.vars, v.name ≠ e.1) ∧
    p'.lins = p.lins ∧ p'.quads = p.quads ∧ p'.objective = p.objective ∧ p'.name = p.name ∧ p'.status = p.status ∧
    (match keys with
      | .count k => (d.length : ℤ) = k
      | .seq l => d.map Prod.fst = l.map fun key => name.getD "x" ++ fmt.format key) := by
  obtain ⟨vs, hq, rfl, hn⟩ := varDict_ok hp h
  have he := addVariables_extends hq
  have hc := he.cons hp
  have h2 : ((vs.map Variable.name).zip vs).map Prod.snd = vs := List.map_snd_zip (by simp)
  have h1 : ((vs.map Variable.name).zip vs).map Prod.fst = vs.map Variable.name := List.map_fst_zip (by simp)
  have hmem : ∀ e ∈ (vs.map Variable.name).zip vs, e.2 ∈ vs ∧ e.1 = e.2.name := by
    rintro ⟨s, v⟩ hv
    rw [List.zip_map_left, List.mem_map] at hv
    obtain ⟨⟨a, b⟩, hab, hv⟩ := hv
    simp only [Prod.map, Prod.mk.injEq, id] at hv
    obtain ⟨rfl, rfl⟩ := hv
    obtain ⟨i, hi, hi'⟩ := List.mem_iff_getElem.mp hab
    simp only [List.getElem_zip, Prod.mk.injEq] at hi'
    obtain ⟨rfl, hb⟩ := hi'
    subst hb
    exact ⟨List.getElem_mem _, rfl⟩
  refine ⟨by rw [h2]; exact he.vars, by rw [h1]; exact hn, ?_, he.lins, he.quads, he.objective, he.name, he.status, ?_⟩
  · intro e hev
    obtain ⟨hm, hs⟩ := hmem e hev
    obtain ⟨a, b, c⟩ := he.data _ hm
    refine ⟨?_, ?_, ?_⟩
    · rw [hs, ← a, ← b, ← c]
    · obtain ⟨i, hi⟩ := List.getElem?_of_mem (show e.2 ∈ p'.vars by rw [he.vars]; exact List.mem_append_right _ hm)
      have hg : Assoc.get? p'.varsIndex e.1 = some i := by
        rw [IndexOK.get? hc.vars, List.getElem?_map, hi, hs]; rfl
      simp only [QP.getVariable, hg, hi]
    · intro v hv hvn
      have hn2 := hc.vars.2
      rw [he.vars, List.map_append] at hn2
      exact (List.nodup_append.mp hn2).2.2 _ (List.mem_map_of_mem hv) _ (List.mem_map_of_mem hm) (hvn.trans hs)
  · cases keys with
    | count k =>
      simp only
      unfold QP.addVariables at hq
      simp only at hq
      split_ifs at hq with hk
      · simp at hq
      · simp at hq
      · have hl := (addVarsCount_extends hq).2
        rw [List.length_zip, List.length_map, min_self, hl]
        omega
    | seq l =>
      simp only
      unfold QP.addVariables at hq
      simp only at hq
      split_ifs at hq
      · simp at hq
      · rw [h1]; exact (addVarsSeq_extends hq).2

/-- **C91** (lists): `*_var_list` makes the same variables as `*_var_dict` and returns the values of its dictionary. -/
theorem C91_list {p p' : QP} (hp : p.Consistent) {keys : Keys} {lb ub : ℚ} {t : VarType} {name : Option String}
    {fmt : KeyFormat} {vs : List Variable} (h : p.varList keys lb ub t name fmt = (.ok vs, p')) :
    ∃ d, p.varDict keys lb ub t name fmt = (.ok d, p') ∧ vs = d.map Prod.snd := by
  have h' : p.addVariables keys lb ub t name fmt = (.ok vs, p') := h
  have hd : p.varDict keys lb ub t name fmt = (.ok (Assoc.ofEntries ((vs.map Variable.name).zip vs)), p') := by
    simp only [QP.varDict, h']
  refine ⟨_, hd, ?_⟩
  have h1 := (C91_dict hp hd).1
  rw [(addVariables_extends h').vars] at h1
  exact List.append_cancel_left h1

/-- **C91** (numbers): a batch given by its size gets the next free numbers: the numbers ascend, start at the number of
variables or later, and a number that is left out in between belongs to a name that is already taken. -/
theorem C91_numbers {p p' : QP} (hp : p.Consistent) {k : Int} {lb ub : ℚ} {t : VarType} {name : Option String}
    {pre post : String} {d : Assoc String Variable}
    (h : p.varDict (.count k) lb ub t name (.hole pre post) = (.ok d, p')) :
    ∃ ns : List Nat, d.map Prod.fst = ns.map (fun n => name.getD "x" ++ (pre ++ toString n ++ post)) ∧
      ns.Pairwise (· < ·) ∧ (∀ n ∈ ns, p.vars.length ≤ n) ∧
      ∀ n, p.vars.length ≤ n → (∃ n' ∈ ns, n < n') → n ∉ ns →
        ∃ v ∈ p.vars, v.name = name.getD "x" ++ (pre ++ toString n ++ post) := by
  obtain ⟨vs, hq, rfl, hn⟩ := varDict_ok hp h
  unfold QP.addVariables at hq
  simp only at hq
  split_ifs at hq with hk h0
  · simp at hq
  · cases h0
  · obtain ⟨ns, h1, h2, h3, h4⟩ := addVarsCount_names hq
    refine ⟨ns, by rw [List.map_fst_zip (by simp), h1], h2, h3, fun n hn he hni => ?_⟩
    have h5 := h4 n hn he hni
    rw [hp.vars.keys] at h5
    obtain ⟨v, hv, hv'⟩ := List.mem_map.mp h5
    exact ⟨v, hv, hv'⟩

theorem addVarsSeq_succeeds {name : String} {fmt : KeyFormat} {lb ub : ℚ} (hle : lb ≤ ub) {t : VarType} {l : List String}
    {p : QP} (hp : p.Consistent) (hd : (p.vars.map Variable.name ++ l.map fun key => name ++ fmt.format key).Nodup) :
    ∃ vs p', QP.addVarsSeq name fmt lb ub t l p = (.ok vs, p') := by
  induction l generalizing p with
  | nil => exact ⟨[], p, rfl⟩
  | cons key l ih =>
    have hnew : name ++ fmt.format key ∉ Assoc.keys p.varsIndex := by
      rw [hp.vars.keys]
      intro hc
      exact (List.nodup_append.mp hd).2.2 _ hc _ (List.mem_cons_self) rfl
    have h1 : p.addOneVar (name ++ fmt.format key) lb ub t = (.ok ⟨name ++ fmt.format key, lb, ub, t⟩,
        { p with varsIndex := Assoc.set p.varsIndex (name ++ fmt.format key) p.numVars,
                 vars := p.vars ++ [⟨name ++ fmt.format key, lb, ub, t⟩] }) := by
      unfold QP.addOneVar Variable.mk?
      rw [if_neg (fun hc => hnew (Assoc.has_iff.mp hc)), if_neg (not_lt.mpr hle)]
    obtain ⟨vs, p', h2⟩ := ih ((addOneVar_extends h1).cons hp) (by
      simpa [List.append_assoc] using hd)
    exact ⟨⟨name ++ fmt.format key, lb, ub, t⟩ :: vs, p', by simp only [QP.addVarsSeq, h1, h2]⟩

/-- **C91** (sequences): with ordered bounds and a valid format, a batch given by a sequence of keys is accepted exactly if
its names differ from each other and from the names of the program. -/
theorem C91_sequence {p : QP} (hp : p.Consistent) {l : List String} {lb ub : ℚ} (hle : lb ≤ ub) {t : VarType}
    {name : Option String} {fmt : KeyFormat} (hf : fmt ≠ .invalid) :
    (∃ d p', p.varDict (.seq l) lb ub t name fmt = (.ok d, p')) ↔
      (p.vars.map Variable.name ++ l.map fun key => name.getD "x" ++ fmt.format key).Nodup := by
  constructor
  · rintro ⟨d, p', h⟩
    obtain ⟨vs, hq, rfl, hn⟩ := varDict_ok hp h
    have he := addVariables_extends hq
    have hc := (he.cons hp).vars.2
    unfold QP.addVariables at hq
    simp only [if_neg hf] at hq
    rw [he.vars, List.map_append, (addVarsSeq_extends hq).2] at hc
    exact hc
  · intro hd
    obtain ⟨vs, p', h⟩ := addVarsSeq_succeeds (t := t) hle hp hd
    exact ⟨Assoc.ofEntries ((vs.map Variable.name).zip vs), p', by simp only [QP.varDict, QP.addVariables, if_neg hf, h]⟩

/-- **C91** The six public functions make variables of their type with the bounds given (0 and 1 for binary ones); the
new variables are the returned ones, in order. -/
theorem C91_public {p p' : QP} (hp : p.Consistent) {keys : Keys} {lb ub : ℚ} {name : Option String} {fmt : KeyFormat} :
    (∀ d, p.binaryVarDict keys name fmt = (.ok d, p') →
      p'.vars = p.vars ++ d.map Prod.snd ∧ ∀ e ∈ d, e.2 = ⟨e.1, 0, 1, .binary⟩) ∧
    (∀ d, p.integerVarDict keys lb ub name fmt = (.ok d, p') →
      p'.vars = p.vars ++ d.map Prod.snd ∧ ∀ e ∈ d, e.2 = ⟨e.1, lb, ub, .integer⟩) ∧
    (∀ d, p.continuousVarDict keys lb ub name fmt = (.ok d, p') →
      p'.vars = p.vars ++ d.map Prod.snd ∧ ∀ e ∈ d, e.2 = ⟨e.1, lb, ub, .continuous⟩) ∧
    (∀ vs, p.binaryVarList keys name fmt = (.ok vs, p') →
      p'.vars = p.vars ++ vs ∧ ∀ v ∈ vs, v.lb = 0 ∧ v.ub = 1 ∧ v.vartype = .binary) ∧
    (∀ vs, p.integerVarList keys lb ub name fmt = (.ok vs, p') →
      p'.vars = p.vars ++ vs ∧ ∀ v ∈ vs, v.lb = lb ∧ v.ub = ub ∧ v.vartype = .integer) ∧
    (∀ vs, p.continuousVarList keys lb ub name fmt = (.ok vs, p') →
      p'.vars = p.vars ++ vs ∧ ∀ v ∈ vs, v.lb = lb ∧ v.ub = ub ∧ v.vartype = .continuous) := by
  have hd : ∀ {lb ub : ℚ} {t : VarType} {d : Assoc String Variable}, p.varDict keys lb ub t name fmt = (.ok d, p') →
      p'.vars = p.vars ++ d.map Prod.snd ∧ ∀ e ∈ d, e.2 = ⟨e.1, lb, ub, t⟩ := fun h =>
    ⟨(C91_dict hp h).1, fun e he => ((C91_dict hp h).2.2.1 e he).1⟩
  have hl : ∀ {lb ub : ℚ} {t : VarType} {vs : List Variable}, p.varList keys lb ub t name fmt = (.ok vs, p') →
      p'.vars = p.vars ++ vs ∧ ∀ v ∈ vs, v.lb = lb ∧ v.ub = ub ∧ v.vartype = t := by
    intro lb ub t vs h
    obtain ⟨d, h1, rfl⟩ := C91_list hp h
    refine ⟨(hd h1).1, fun v hv => ?_⟩
    obtain ⟨e, he, rfl⟩ := List.mem_map.mp hv
    rw [(hd h1).2 e he]
    exact ⟨rfl, rfl, rfl⟩
  exact ⟨fun _ h => hd h, fun _ h => hd h, fun _ h => hd h, fun _ h => hl h, fun _ h => hl h, fun _ h => hl h⟩

example : ((QP.empty "").continuousVarDict (.seq ["a"]) (-1) 4 none (.hole "_" "")).1 =
    .ok [("x_a", ⟨"x_a", -1, 4, .continuous⟩)] ∧
    ((QP.empty "").binaryVarList (.count 2) none (.hole "" "")).1 =
      .ok [⟨"x0", 0, 1, .binary⟩, ⟨"x1", 0, 1, .binary⟩] ∧
    ((QP.empty "").integerVarList (.count 1) (-1) 4 none (.hole "" "")).1 = .ok [⟨"x0", -1, 4, .integer⟩] ∧
    ((QP.empty "").continuousVarList (.count 1) (-1) 4 none (.hole "" "")).1 = .ok [⟨"x0", -1, 4, .continuous⟩] := by
  decide +kernel

/-- Two binary variables with numbers after `x3` was made: `x2` is the first free name, `x3` is left out. -/
example : ((runCalls (QP.empty "") [.addVar 0 1 .binary none, .addVar 0 1 .binary (some "x3")]).2.binaryVarDict (.count 2) none
    (.hole "" "")).1 = .ok [("x2", ⟨"x2", 0, 1, .binary⟩), ("x4", ⟨"x4", 0, 1, .binary⟩)] := by decide +kernel

example : ((QP.empty "").integerVarDict (.seq ["a", "b"]) (-1) 4 (some "y") (.hole "_" "")).1 =
    .ok [("y_a", ⟨"y_a", -1, 4, .integer⟩), ("y_b", ⟨"y_b", -1, 4, .integer⟩)] ∧
    ((QP.empty "").continuousVarDict (.seq ["a", "a"]) (-1) 4 (some "y") (.hole "_" "")).1 = .error .optimization := by
  decide +kernel

example : ((QP.empty "").varList (.seq ["a", "b"]) (-1) 4 .integer (some "y") (.hole "_" "")).1 =
    .ok [⟨"y_a", -1, 4, .integer⟩, ⟨"y_b", -1, 4, .integer⟩] := by decide +kernel

end Verif
