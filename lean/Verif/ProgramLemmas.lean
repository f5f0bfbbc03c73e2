import Verif.Program
import Verif.ExprLemmas
import Mathlib.Data.List.Perm.Subperm

/-! # Lemmas about programs: index tables, fresh names -/

namespace Verif

/-- The name table lists the names with their positions, and the names are distinct. -/
def IndexOK (names : List String) (ix : Assoc String Nat) : Prop := ix = names.zipIdx ∧ names.Nodup

theorem keys_zipIdx (names : List String) : Assoc.keys names.zipIdx = names := by
  simp [Assoc.keys]

theorem IndexOK.keys {names : List String} {ix : Assoc String Nat} (h : IndexOK names ix) :
    Assoc.keys ix = names := by rw [h.1, keys_zipIdx]

theorem IndexOK.get? {names : List String} {ix : Assoc String Nat} (h : IndexOK names ix) (s : String)
    (i : Nat) : Assoc.get? ix s = some i ↔ names[i]? = some s := by
  have hk := h.keys
  constructor
  · intro hg
    have := Assoc.get?_mem hg
    rw [h.1] at this
    have := List.mem_zipIdx_iff_getElem?.mp this
    simpa using this
  · intro hg
    apply Assoc.get?_of_mem (by rw [hk]; exact h.2)
    rw [h.1]
    exact List.mem_zipIdx_iff_getElem?.mpr (by simpa using hg)

theorem IndexOK.get?_isSome {names : List String} {ix : Assoc String Nat} (h : IndexOK names ix)
    (s : String) : Assoc.has ix s = true ↔ s ∈ names := by
  rw [Assoc.has_iff, h.keys]

theorem IndexOK.set {names : List String} {ix : Assoc String Nat} (h : IndexOK names ix) {s : String}
    (hs : s ∉ names) : IndexOK (names ++ [s]) (Assoc.set ix s names.length) := by
  have hk := h.keys
  constructor
  · rw [Assoc.set_of_not_mem (by rw [hk]; exact hs), h.1, List.zipIdx_append]; simp
  · rw [List.nodup_append]
    exact ⟨h.2, by simp, by simp; intro a ha hc; exact hs (hc ▸ ha)⟩

theorem foldl_set_of_nodup {β : Type} (l d : Assoc String β) (hn : (Assoc.keys (d ++ l)).Nodup) :
    l.foldl (fun d p => Assoc.set d p.1 p.2) d = d ++ l := by
  induction l generalizing d with
  | nil => simp
  | cons p l ih =>
    simp only [List.foldl_cons]
    have hp : p.1 ∉ Assoc.keys d := by
      simp only [Assoc.keys, List.map_append, List.map_cons] at hn ⊢
      rw [List.nodup_append] at hn
      intro hc
      exact hn.2.2 p.1 hc p.1 (by simp) rfl
    rw [Assoc.set_of_not_mem hp, ih]
    · simp
    · simpa using hn

theorem ofEntries_of_nodup {β : Type} (l : Assoc String β) (hn : (Assoc.keys l).Nodup) :
    Assoc.ofEntries l = l := by
  have := foldl_set_of_nodup l [] (by simpa using hn)
  simpa [Assoc.ofEntries] using this

theorem indexOfNames_ok {names : List String} (h : names.Nodup) : IndexOK names (indexOfNames names) := by
  refine ⟨?_, h⟩
  unfold indexOfNames
  exact ofEntries_of_nodup _ (by rw [keys_zipIdx]; exact h)

/-- All three name tables agree with the lists. -/
structure QP.Consistent (p : QP) : Prop where
  vars : IndexOK (p.vars.map Variable.name) p.varsIndex
  lins : IndexOK (p.lins.map LinCst.name) p.linsIndex
  quads : IndexOK (p.quads.map QuadCst.name) p.quadsIndex

theorem QP.empty_consistent (name : String) : (QP.empty name).Consistent := by
  constructor <;> exact ⟨rfl, List.nodup_nil⟩

/-! ## Fresh names -/

theorem repr_injective {a b : Nat} (h : toString a = toString b) : a = b := by
  have h' : Nat.repr a = Nat.repr b := h
  rw [Nat.repr_eq_ofList_toDigits, Nat.repr_eq_ofList_toDigits] at h'
  have h2 : Nat.toDigits 10 a = Nat.toDigits 10 b := by
    have := congrArg String.toList h'
    simpa using this
  have ha := Nat.ofDigitChars_toDigits (b := 10) (n := a) (by norm_num) (by norm_num)
  have hb := Nat.ofDigitChars_toDigits (b := 10) (n := b) (by norm_num) (by norm_num)
  rw [← ha, ← hb, h2]

theorem append_left_cancel {a b c : String} (h : a ++ b = a ++ c) : b = c := by
  have := congrArg String.toList h
  simp only [String.toList_append, List.append_cancel_left_eq] at this
  exact String.toList_inj.mp this

theorem append_right_cancel {a b c : String} (h : a ++ c = b ++ c) : a = b := by
  have := congrArg String.toList h
  simp only [String.toList_append, List.append_cancel_right_eq] at this
  exact String.toList_inj.mp this

/-- Among `keys.length + 1` consecutive candidates of an injective family one is not taken. -/
theorem exists_fresh (g : Nat → String) (hg : ∀ a b, g a = g b → a = b) (keys : List String) (k : Nat) :
    ∃ j ≤ keys.length, g (k + j) ∉ keys := by
  by_contra hcon
  push Not at hcon
  have hsub : (List.range (keys.length + 1)).map (fun j => g (k + j)) ⊆ keys := by
    intro s hs
    obtain ⟨j, hj, rfl⟩ := List.mem_map.mp hs
    exact hcon j (by simp at hj; omega)
  have hnd : ((List.range (keys.length + 1)).map (fun j => g (k + j))).Nodup := by
    apply List.Nodup.map _ List.nodup_range
    intro a b hab
    have := hg _ _ hab
    omega
  have := (List.subperm_of_subset hnd hsub).length_le
  simp at this

theorem freeName_spec (ix : Assoc String Nat) (pre : String) (fuel k : Nat)
    (h : ∃ j < fuel, pre ++ toString (k + j) ∉ Assoc.keys ix) :
    ∃ m, k ≤ m ∧ freeName ix pre fuel k = some (pre ++ toString m) ∧
      pre ++ toString m ∉ Assoc.keys ix := by
  induction fuel generalizing k with
  | zero => obtain ⟨j, hj, _⟩ := h; omega
  | succ fuel ih =>
    simp only [freeName]
    by_cases hh : Assoc.has ix (pre ++ toString k) = true
    · rw [if_pos hh]
      obtain ⟨j, hj, hf⟩ := h
      have hj0 : j ≠ 0 := by
        rintro rfl
        exact hf (Assoc.has_iff.mp (by simpa using hh))
      obtain ⟨m, hm, h1, h2⟩ := ih (k + 1) ⟨j - 1, by omega, by
        have : k + 1 + (j - 1) = k + j := by omega
        rw [this]; exact hf⟩
      exact ⟨m, by omega, h1, h2⟩
    · rw [if_neg hh]
      exact ⟨k, le_refl _, rfl, fun hc => hh (Assoc.has_iff.mpr hc)⟩

theorem freeName_ok (ix : Assoc String Nat) (pre : String) (k : Nat) :
    ∃ m, k ≤ m ∧ freeName ix pre (ix.length + 1) k = some (pre ++ toString m) ∧
      pre ++ toString m ∉ Assoc.keys ix := by
  apply freeName_spec
  obtain ⟨j, hj, hf⟩ := exists_fresh (fun n => pre ++ toString n)
    (fun a b h => repr_injective (append_left_cancel h)) (Assoc.keys ix) k
  exact ⟨j, by simp [Assoc.keys] at hj; omega, hf⟩

theorem chooseName_fresh {ix : Assoc String Nat} {count : Nat} {pre : String} {name : Option String}
    {nm : String} (h : chooseName ix count pre name = .ok nm) : nm ∉ Assoc.keys ix := by
  obtain ⟨m, _, h1, h2⟩ := freeName_ok ix pre count
  unfold chooseName at h
  cases name with
  | none => simp [h1] at h; exact h ▸ h2
  | some s =>
    simp only at h
    split at h
    · simp [h1] at h; exact h ▸ h2
    · split at h
      · simp at h
      · rename_i hh
        simp at h; subst h
        exact fun hc => hh (Assoc.has_iff.mpr hc)

theorem format_hole_injective (name pre post : String) (a b : Nat)
    (h : name ++ (KeyFormat.hole pre post).format (toString a)
      = name ++ (KeyFormat.hole pre post).format (toString b)) : a = b := by
  have := append_left_cancel h
  simp only [KeyFormat.format] at this
  exact repr_injective (append_left_cancel (append_right_cancel this))

theorem findName_spec (vi : Assoc String Nat) (name : String) (fmt : KeyFormat)
    (hinj : ∀ a b : Nat, name ++ fmt.format (toString a) = name ++ fmt.format (toString b) → a = b)
    (fuel k : Nat) (prev : Option String)
    (hprev : ∀ m, k ≤ m → prev ≠ some (name ++ fmt.format (toString m)))
    (h : ∃ j < fuel, name ++ fmt.format (toString (k + j)) ∉ Assoc.keys vi) :
    ∃ m, k ≤ m ∧ findName vi name fmt fuel prev k = .ok (name ++ fmt.format (toString m), m + 1) ∧
      name ++ fmt.format (toString m) ∉ Assoc.keys vi := by
  induction fuel generalizing k prev with
  | zero => obtain ⟨j, hj, _⟩ := h; omega
  | succ fuel ih =>
    simp only [findName]
    rw [if_neg (fun hc => hprev k (le_refl _) hc.symm)]
    by_cases hh : Assoc.has vi (name ++ fmt.format (toString k)) = true
    · rw [if_pos hh]
      obtain ⟨j, hj, hf⟩ := h
      have hj0 : j ≠ 0 := by
        rintro rfl
        exact hf (Assoc.has_iff.mp (by simpa using hh))
      obtain ⟨m, hm, h1, h2⟩ := ih (k + 1) (some (name ++ fmt.format (toString k)))
        (by
          intro m hm hc
          have := hinj _ _ (Option.some.inj hc)
          omega)
        ⟨j - 1, by omega, by
          have : k + 1 + (j - 1) = k + j := by omega
          rw [this]; exact hf⟩
      exact ⟨m, by omega, h1, h2⟩
    · rw [if_neg hh]
      exact ⟨k, le_refl _, rfl, fun hc => hh (Assoc.has_iff.mpr hc)⟩

/-- The fuel used by the model is enough: with a format containing `{}` the search always finds a name. -/
theorem findName_fuel (vi : Assoc String Nat) (name pre post : String) (k : Nat) :
    ∃ m, k ≤ m ∧ findName vi name (.hole pre post) (vi.length + 2) none k
        = .ok (name ++ (pre ++ toString m ++ post), m + 1) ∧
      name ++ (pre ++ toString m ++ post) ∉ Assoc.keys vi := by
  apply findName_spec vi name (.hole pre post) (format_hole_injective name pre post)
  · simp
  · obtain ⟨j, hj, hf⟩ := exists_fresh (fun n => name ++ (KeyFormat.hole pre post).format (toString n))
      (format_hole_injective name pre post) (Assoc.keys vi) k
    exact ⟨j, by simp [Assoc.keys] at hj; omega, hf⟩

/-- With a format without replacement field the search ends after at most two rounds: success exactly if
the name is new, `QiskitOptimizationError` otherwise. -/
theorem findName_lit (vi : Assoc String Nat) (name s : String) (fuel k : Nat) :
    findName vi name (.lit s) (fuel + 2) none k =
      if Assoc.has vi (name ++ s) then .error .optimization else .ok (name ++ s, k + 1) := by
  simp only [findName, KeyFormat.format]
  simp

/-! ## Preservation of consistency -/

theorem addOneVar_ok {p p' : QP} {nm : String} {lb ub : ℚ} {t : VarType} {v : Variable}
    (h : p.addOneVar nm lb ub t = (.ok v, p')) :
    v = ⟨nm, lb, ub, t⟩ ∧ lb ≤ ub ∧ nm ∉ Assoc.keys p.varsIndex ∧
      p' = { p with varsIndex := Assoc.set p.varsIndex nm p.numVars, vars := p.vars ++ [v] } := by
  unfold QP.addOneVar at h
  split at h
  · simp at h
  · rename_i hh
    simp only [Variable.mk?] at h
    by_cases hlb : lb > ub
    · simp [hlb] at h
    · simp [hlb] at h
      obtain ⟨h1, h2⟩ := h
      refine ⟨h1.symm, not_lt.mp hlb, fun hc => hh (Assoc.has_iff.mpr hc), ?_⟩
      rw [← h2, h1]

/-- A successful addition of variables, whatever the naming: the new variables are appended with their
type and bounds, the rest is unchanged. -/
structure Extends (p p' : QP) (vs : List Variable) (lb ub : ℚ) (t : VarType) : Prop where
  vars : p'.vars = p.vars ++ vs
  cons : p.Consistent → p'.Consistent
  lins : p'.lins = p.lins
  linsIndex : p'.linsIndex = p.linsIndex
  quads : p'.quads = p.quads
  quadsIndex : p'.quadsIndex = p.quadsIndex
  objective : p'.objective = p.objective
  name : p'.name = p.name
  status : p'.status = p.status
  data : ∀ v ∈ vs, v.lb = lb ∧ v.ub = ub ∧ v.vartype = t

theorem Extends.refl (p : QP) (lb ub : ℚ) (t : VarType) : Extends p p [] lb ub t :=
  ⟨by simp, id, rfl, rfl, rfl, rfl, rfl, rfl, rfl, by simp⟩

theorem Extends.trans {p p' p'' : QP} {vs vs' : List Variable} {lb ub : ℚ} {t : VarType}
    (h : Extends p p' vs lb ub t) (h' : Extends p' p'' vs' lb ub t) :
    Extends p p'' (vs ++ vs') lb ub t where
  vars := by rw [h'.vars, h.vars, List.append_assoc]
  cons hc := h'.cons (h.cons hc)
  lins := h'.lins.trans h.lins
  linsIndex := h'.linsIndex.trans h.linsIndex
  quads := h'.quads.trans h.quads
  quadsIndex := h'.quadsIndex.trans h.quadsIndex
  objective := h'.objective.trans h.objective
  name := h'.name.trans h.name
  status := h'.status.trans h.status
  data v hv := by
    rcases List.mem_append.mp hv with hv | hv
    · exact h.data v hv
    · exact h'.data v hv

theorem addOneVar_extends {p p' : QP} {nm : String} {lb ub : ℚ} {t : VarType} {v : Variable}
    (h : p.addOneVar nm lb ub t = (.ok v, p')) : Extends p p' [v] lb ub t := by
  obtain ⟨hv, _, hn, rfl⟩ := addOneVar_ok h
  refine ⟨rfl, ?_, rfl, rfl, rfl, rfl, rfl, rfl, rfl, by simp [hv]⟩
  intro hc
  refine ⟨?_, hc.lins, hc.quads⟩
  have hk := hc.vars.keys
  rw [hk] at hn
  have := hc.vars.set hn
  subst hv
  simpa [QP.numVars] using this

theorem addVarsCount_extends {name : String} {fmt : KeyFormat} {lb ub : ℚ} {t : VarType} {m k : Nat}
    {p p' : QP} {vs : List Variable}
    (h : QP.addVarsCount name fmt lb ub t m k p = (.ok vs, p')) :
    Extends p p' vs lb ub t ∧ vs.length = m := by
  induction m generalizing k p vs with
  | zero =>
    simp [QP.addVarsCount] at h
    obtain ⟨rfl, rfl⟩ := h
    exact ⟨Extends.refl _ _ _ _, rfl⟩
  | succ m ih =>
    simp only [QP.addVarsCount] at h
    split at h
    · simp at h
    · split at h
      · simp at h
      · rename_i v p1 hv
        split at h
        · simp at h
        · rename_i vs1 p2 hvs
          simp only [Prod.mk.injEq, Except.ok.injEq] at h
          obtain ⟨rfl, rfl⟩ := h
          obtain ⟨e2, l2⟩ := ih hvs
          exact ⟨(addOneVar_extends hv).trans e2, by simp [l2]⟩

theorem addVarsSeq_extends {name : String} {fmt : KeyFormat} {lb ub : ℚ} {t : VarType} {l : List String}
    {p p' : QP} {vs : List Variable}
    (h : QP.addVarsSeq name fmt lb ub t l p = (.ok vs, p')) :
    Extends p p' vs lb ub t ∧ vs.map Variable.name = l.map fun key => name ++ fmt.format key := by
  induction l generalizing p vs with
  | nil =>
    simp [QP.addVarsSeq] at h
    obtain ⟨rfl, rfl⟩ := h
    exact ⟨Extends.refl _ _ _ _, rfl⟩
  | cons key l ih =>
    simp only [QP.addVarsSeq] at h
    split at h
    · simp at h
    · rename_i v p1 hv
      split at h
      · simp at h
      · rename_i vs1 p2 hvs
        simp only [Prod.mk.injEq, Except.ok.injEq] at h
        obtain ⟨rfl, rfl⟩ := h
        obtain ⟨e2, l2⟩ := ih hvs
        exact ⟨(addOneVar_extends hv).trans e2, by simp [l2, (addOneVar_ok hv).1]⟩

theorem addVariables_extends {p p' : QP} {keys : Keys} {lb ub : ℚ} {t : VarType} {name : Option String}
    {fmt : KeyFormat} {vs : List Variable}
    (h : p.addVariables keys lb ub t name fmt = (.ok vs, p')) : Extends p p' vs lb ub t := by
  unfold QP.addVariables at h
  cases keys with
  | count k =>
    simp only at h
    split at h
    · simp at h
    · split at h
      · simp at h
      · exact (addVarsCount_extends h).1
  | seq l =>
    simp only at h
    split at h
    · simp at h
    · exact (addVarsSeq_extends h).1

theorem addVariable_extends {p p' : QP} {lb ub : ℚ} {t : VarType} {name : Option String} {v : Variable}
    (h : p.addVariable lb ub t name = (.ok v, p')) : Extends p p' [v] lb ub t := by
  have key : ∀ (nm : String) (fmt : KeyFormat) (hf : fmt ≠ .invalid),
      (match p.addVariables (.count 1) lb ub t (some nm) fmt with
        | (.ok (v :: _), p') => (.ok v, p')
        | (.ok [], p') => (.error .indexError, p')
        | (.error e, p') => ((.error e, p') : Res Variable)) = (.ok v, p') → Extends p p' [v] lb ub t := by
    intro nm fmt hf h
    have hx := @addVariables_extends p
    revert h
    rcases hr : p.addVariables (.count 1) lb ub t (some nm) fmt with ⟨r, q⟩
    cases r with
    | error e => simp
    | ok l =>
      have he := hx hr
      have hlen : l.length = 1 := by
        simp [QP.addVariables, hf] at hr
        exact (addVarsCount_extends hr).2
      match l, hlen with
      | [w], _ =>
        intro h
        simp at h
        obtain ⟨rfl, rfl⟩ := h
        exact he
  unfold QP.addVariable at h
  cases name with
  | none => exact key "x" (.hole "" "") (by simp) h
  | some s => exact key s (.lit "") (by simp) h

end Verif
