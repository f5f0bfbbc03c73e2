import Verif.Docplex
import Verif.WFLemmas

/-!
# Meaning of docplex models and lemmas about loading
-/

namespace Verif

/-! ## Meaning -/

/-- Value of an expression at a point. -/
def DExpr.val (e : DExpr) (x : Nat → ℚ) : ℚ :=
  e.constant + Dict.sum e.linear x + Dict.sum e.quad fun k => x k.1 * x k.2

/-- The constraint holds at a point. -/
def DCst.Holds : DCst → (Nat → ℚ) → Prop
  | .linear l s r _, x => s.rel (l.val x) (r.val x)
  | .notEqual l r _, x => l.val x ≠ r.val x
  | .quadratic l s r _, x => s.rel (l.val x) (r.val x)
  | .other h, x => h x

/-- An expression of a docplex model with `n` variables: each variable and each pair has one coefficient, and only a
`QuadExpr` has pairs. -/
structure DExpr.WF (n : Nat) (e : DExpr) : Prop where
  linNodup : (Assoc.keys e.linear).Nodup
  linBound : ∀ i ∈ Assoc.keys e.linear, i < n
  quadNodup : (Assoc.keys e.quad).Nodup
  quadBound : ∀ k ∈ Assoc.keys e.quad, k.1 < n ∧ k.2 < n
  lin : e.isQuad = false → e.quad = []

/-- The sides of the constraint are expressions of the model; those of a linear constraint are linear. -/
def DCst.WF (n : Nat) : DCst → Prop
  | .linear l _ r _ => l.WF n ∧ r.WF n ∧ l.isQuad = false ∧ r.isQuad = false
  | .quadratic l _ r _ => l.WF n ∧ r.WF n
  | _ => True

/-- A docplex model. -/
structure DModel.WF (m : DModel) : Prop where
  obj : m.objective.WF m.vars.length
  csts : ∀ c ∈ m.csts, c.WF m.vars.length

def DCst.isLin : DCst → Bool
  | .linear .. => true
  | _ => false

def DCst.isQuad : DCst → Bool
  | .quadratic .. => true
  | _ => false

/-- The name of a constraint. -/
def DCst.name : DCst → Option String
  | .linear _ _ _ nm => nm
  | .notEqual _ _ nm => nm
  | .quadratic _ _ _ nm => nm
  | .other _ => none

/-- The variable of the program made from a docplex variable: the type, the bounds (those of binary variables are 0 and
1), the name if there is one. -/
structure DVar.Loaded (x : DVar) (v : Variable) : Prop where
  type : x.vartype = v.vartype.toDocplex
  bin : x.vartype = .binary → v.lb = 0 ∧ v.ub = 1
  bounds : x.vartype ≠ .binary → v.lb = x.lb ∧ v.ub = x.ub
  name : ∀ s, x.name = some s → v.name = s

/-! ## Dictionaries -/

theorem Dict.sum_keys {κ : Type} [DecidableEq κ] {d : Dict κ} (hd : (Assoc.keys d).Nodup) (f : κ → ℚ) :
    ((Assoc.keys d).map fun i => Dict.get d i * f i).sum = Dict.sum d f := by
  unfold Assoc.keys Dict.sum
  rw [List.map_map]
  congr 1
  refine List.map_congr_left fun p hp => ?_
  simp only [Function.comp_apply]
  have : Dict.get d p.1 = p.2 := by
    unfold Dict.get
    rw [Assoc.get?_of_mem hd (show (p.1, p.2) ∈ d from hp)]
    rfl
  rw [this]

theorem setTerms_facts {names : List String} (hn : names.Nodup) {coef : Nat → ℚ} {l : List Nat} (hl : l.Nodup)
    {d d' : Dict String} (hd : (Assoc.keys d).Nodup) (hf : ∀ i ∈ l, ∀ s, names[i]? = some s → s ∉ Assoc.keys d)
    (h : setTerms names coef l d = .ok d') : (Assoc.keys d').Nodup ∧ (∀ s ∈ Assoc.keys d', s ∈ Assoc.keys d ∨ s ∈ names) ∧
      ∀ F : String → ℚ, Dict.sum d' F = Dict.sum d F + (l.map fun i => coef i * F (names.getD i "")).sum := by
  induction l generalizing d with
  | nil => simp only [setTerms, Except.ok.injEq] at h; subst h; exact ⟨hd, fun s hs => Or.inl hs, by simp⟩
  | cons i l ih =>
    simp only [setTerms] at h
    split at h
    · simp at h
    · rename_i s hs
      have hi := hf i (by simp) s hs
      obtain ⟨h1, h2, h3⟩ := ih (List.nodup_cons.mp hl).2 (Assoc.nodup_keys_set hd _ _) (by
        intro j hj t ht hmem
        rcases Assoc.mem_keys_set.mp hmem with hmem | rfl
        · exact hf j (by simp [hj]) t ht hmem
        · have hij : i = j := by
            have hi' := (List.getElem?_eq_some_iff.mp hs).1
            exact List.getElem?_inj hi' hn |>.mp (hs.trans ht.symm)
          subst hij
          exact (List.nodup_cons.mp hl).1 hj) h
      refine ⟨h1, ?_, ?_⟩
      · intro t ht
        rcases h2 t ht with ht | ht
        · rcases Assoc.mem_keys_set.mp ht with ht | rfl
          · exact Or.inl ht
          · exact Or.inr (List.mem_of_getElem? hs)
        · exact Or.inr ht
      · intro F
        rw [h3 F, Dict.sum_set_of_not_mem hi]
        simp only [List.map_cons, List.sum_cons, List.getD_eq_getElem?_getD, hs, Option.getD_some]
        ring

theorem subTerms_facts {names : List String} {coef : Nat → ℚ} {l : List Nat}
    {d d' : Dict String} (hd : (Assoc.keys d).Nodup)
    (h : subTerms names coef l d = .ok d') : (Assoc.keys d').Nodup ∧ (∀ s ∈ Assoc.keys d', s ∈ Assoc.keys d ∨ s ∈ names) ∧
      ∀ F : String → ℚ, Dict.sum d' F = Dict.sum d F - (l.map fun i => coef i * F (names.getD i "")).sum := by
  induction l generalizing d with
  | nil => simp only [subTerms, Except.ok.injEq] at h; subst h; exact ⟨hd, fun s hs => Or.inl hs, by simp⟩
  | cons i l ih =>
    simp only [subTerms] at h
    split at h
    · simp at h
    · rename_i s hs
      obtain ⟨h1, h2, h3⟩ := ih (Assoc.nodup_keys_set hd _ _) h
      refine ⟨h1, ?_, ?_⟩
      · intro t ht
        rcases h2 t ht with ht | ht
        · rcases Assoc.mem_keys_set.mp ht with ht | rfl
          · exact Or.inl ht
          · exact Or.inr (List.mem_of_getElem? hs)
        · exact Or.inr ht
      · intro F
        rw [h3 F, Dict.sum_set]
        simp only [List.map_cons, List.sum_cons, List.getD_eq_getElem?_getD, hs, Option.getD_some]
        ring

theorem setPairs_facts {names : List String} (hn : names.Nodup) {l : Dict (Nat × Nat)} (hl : (Assoc.keys l).Nodup)
    {d d' : Dict (String × String)} (hd : (Assoc.keys d).Nodup)
    (hf : ∀ k ∈ Assoc.keys l, ∀ s t, names[k.1]? = some s → names[k.2]? = some t → (s, t) ∉ Assoc.keys d)
    (h : setPairs names l d = .ok d') : (Assoc.keys d').Nodup ∧
      (∀ k ∈ Assoc.keys d', k ∈ Assoc.keys d ∨ (k.1 ∈ names ∧ k.2 ∈ names)) ∧
      ∀ F : String × String → ℚ, Dict.sum d' F = Dict.sum d F +
        Dict.sum l fun k => F (names.getD k.1 "", names.getD k.2 "") := by
  induction l generalizing d with
  | nil => simp only [setPairs, Except.ok.injEq] at h; subst h; exact ⟨hd, fun s hs => Or.inl hs, by simp⟩
  | cons p l ih =>
    obtain ⟨k, v⟩ := p
    simp only [setPairs] at h
    split at h
    · rename_i s t hs ht
      have hi := hf k (by simp [Assoc.keys]) s t hs ht
      have hl' : k ∉ Assoc.keys l ∧ (Assoc.keys l).Nodup := by simpa [Assoc.keys] using hl
      obtain ⟨h1, h2, h3⟩ := ih hl'.2 (Assoc.nodup_keys_set hd _ _) (by
        intro j hj s' t' hs' ht' hmem
        rcases Assoc.mem_keys_set.mp hmem with hmem | e
        · exact hf j (List.mem_cons_of_mem _ hj) s' t' hs' ht' hmem
        · simp only [Prod.mk.injEq] at e
          obtain ⟨rfl, rfl⟩ := e
          have e1 : k.1 = j.1 := (List.getElem?_inj (List.getElem?_eq_some_iff.mp hs).1 hn).mp (hs.trans hs'.symm)
          have e2 : k.2 = j.2 := (List.getElem?_inj (List.getElem?_eq_some_iff.mp ht).1 hn).mp (ht.trans ht'.symm)
          exact hl'.1 (Prod.ext e1 e2 ▸ hj)) h
      refine ⟨h1, ?_, ?_⟩
      · intro q hq
        rcases h2 q hq with hq | hq
        · rcases Assoc.mem_keys_set.mp hq with hq | rfl
          · exact Or.inl hq
          · exact Or.inr ⟨List.mem_of_getElem? hs, List.mem_of_getElem? ht⟩
        · exact Or.inr hq
      · intro F
        rw [h3 F, Dict.sum_set_of_not_mem hi]
        simp only [Dict.sum_cons, List.getD_eq_getElem?_getD, hs, ht, Option.getD_some]
        ring
    · simp at h

theorem subPairs_facts {names : List String} {l : Dict (Nat × Nat)}
    {d d' : Dict (String × String)} (hd : (Assoc.keys d).Nodup)
    (h : subPairs names l d = .ok d') : (Assoc.keys d').Nodup ∧
      (∀ k ∈ Assoc.keys d', k ∈ Assoc.keys d ∨ (k.1 ∈ names ∧ k.2 ∈ names)) ∧
      ∀ F : String × String → ℚ, Dict.sum d' F = Dict.sum d F -
        Dict.sum l fun k => F (names.getD k.1 "", names.getD k.2 "") := by
  induction l generalizing d with
  | nil => simp only [subPairs, Except.ok.injEq] at h; subst h; exact ⟨hd, fun s hs => Or.inl hs, by simp⟩
  | cons p l ih =>
    obtain ⟨k, v⟩ := p
    simp only [subPairs] at h
    split at h
    · rename_i s t hs ht
      obtain ⟨h1, h2, h3⟩ := ih (Assoc.nodup_keys_set hd _ _) h
      refine ⟨h1, ?_, ?_⟩
      · intro q hq
        rcases h2 q hq with hq | hq
        · rcases Assoc.mem_keys_set.mp hq with hq | rfl
          · exact Or.inl hq
          · exact Or.inr ⟨List.mem_of_getElem? hs, List.mem_of_getElem? ht⟩
        · exact Or.inr hq
      · intro F
        rw [h3 F, Dict.sum_set]
        simp only [Dict.sum_cons, List.getD_eq_getElem?_getD, hs, ht, Option.getD_some]
        ring
    · simp at h

/-! ## Programs whose variables have the given names -/

/-- The names are those of the variables of the program. -/
def NamesOf (names : List String) (p : QP) : Prop := p.vars.map Variable.name = names

theorem nameVal_getD {names : List String} {p : QP} (hp : p.Consistent) (hn : NamesOf names p) (x : Nat → ℚ) {i : Nat}
    (hi : i < names.length) : nameVal p.varsIndex x (names.getD i "") = x i := by
  have : Assoc.get? p.varsIndex (names.getD i "") = some i := by
    rw [hp.vars.get?, show p.vars.map Variable.name = names from hn, List.getD_eq_getElem?_getD,
      List.getElem?_eq_getElem hi]
    rfl
  unfold nameVal
  rw [this]
  rfl

/-- The linear dictionary of two sides. -/
theorem lin_sides {names : List String} {p : QP} (hp : p.Consistent) (hn : NamesOf names p) {a b : DExpr}
    (ha : a.WF names.length) (hb : b.WF names.length) {d d' : Dict String}
    (h : setTerms names (Dict.get a.linear) (Assoc.keys a.linear) [] = .ok d)
    (h' : subTerms names (Dict.get b.linear) (Assoc.keys b.linear) d = .ok d') :
    (Assoc.keys d').Nodup ∧ (∀ s ∈ Assoc.keys d', s ∈ names) ∧
      ∀ x, Dict.sum d' (nameVal p.varsIndex x) = Dict.sum a.linear x - Dict.sum b.linear x := by
  have hnd : names.Nodup := by
    have h2 := hp.vars.2
    rwa [show p.vars.map Variable.name = names from hn] at h2
  obtain ⟨h1, h2, h3⟩ := setTerms_facts hnd ha.linNodup (by simp [Assoc.keys]) (by simp [Assoc.keys]) h
  obtain ⟨k1, k2, k3⟩ := subTerms_facts h1 h'
  refine ⟨k1, ?_, ?_⟩
  · intro s hs
    rcases k2 s hs with hs | hs
    · rcases h2 s hs with hs | hs
      · simp [Assoc.keys] at hs
      · exact hs
    · exact hs
  · intro x
    have aux : ∀ e : DExpr, e.WF names.length → ((Assoc.keys e.linear).map fun i =>
        Dict.get e.linear i * nameVal p.varsIndex x (names.getD i "")).sum = Dict.sum e.linear x := by
      intro e he
      rw [← Dict.sum_keys he.linNodup]
      congr 1
      refine List.map_congr_left fun i hi => ?_
      rw [nameVal_getD hp hn x (he.linBound i hi)]
    rw [k3, h3, aux a ha, aux b hb]
    simp

/-- The quadratic dictionary of two sides. -/
theorem quad_sides {names : List String} {p : QP} (hp : p.Consistent) (hn : NamesOf names p) {a b : Dict (Nat × Nat)}
    (ha : (Assoc.keys a).Nodup) (hab : ∀ k ∈ Assoc.keys a, k.1 < names.length ∧ k.2 < names.length)
    (hbb : ∀ k ∈ Assoc.keys b, k.1 < names.length ∧ k.2 < names.length) {d d' : Dict (String × String)}
    (h : setPairs names a [] = .ok d) (h' : subPairs names b d = .ok d') :
    (Assoc.keys d').Nodup ∧ (∀ k ∈ Assoc.keys d', k.1 ∈ names ∧ k.2 ∈ names) ∧
      ∀ x, Dict.sum d' (fun k => nameVal p.varsIndex x k.1 * nameVal p.varsIndex x k.2) =
        Dict.sum a (fun k => x k.1 * x k.2) - Dict.sum b fun k => x k.1 * x k.2 := by
  have hnd : names.Nodup := by
    have h2 := hp.vars.2
    rwa [show p.vars.map Variable.name = names from hn] at h2
  obtain ⟨h1, h2, h3⟩ := setPairs_facts hnd ha (by simp [Assoc.keys]) (by simp [Assoc.keys]) h
  obtain ⟨k1, k2, k3⟩ := subPairs_facts h1 h'
  refine ⟨k1, ?_, ?_⟩
  · intro s hs
    rcases k2 s hs with hs | hs
    · rcases h2 s hs with hs | hs
      · simp [Assoc.keys] at hs
      · exact hs
    · exact hs
  · intro x
    have aux : ∀ e : Dict (Nat × Nat), (∀ k ∈ Assoc.keys e, k.1 < names.length ∧ k.2 < names.length) →
        Dict.sum e (fun k => nameVal p.varsIndex x (names.getD k.1 "") * nameVal p.varsIndex x (names.getD k.2 "")) =
          Dict.sum e fun k => x k.1 * x k.2 := by
      intro e he
      refine Dict.sum_congr fun k hk => ?_
      rw [nameVal_getD hp hn x (he k hk).1, nameVal_getD hp hn x (he k hk).2]
    rw [k3, h3, aux a hab, aux b hbb]
    simp

theorem Sense.convert_toStr (s : Sense) : Sense.convert (.str s.toStr) = .ok s := by
  cases s <;> decide +kernel

theorem quadOf_wf {n : Nat} {e : DExpr} (h : e.WF n) : quadOf e = e.quad := by
  unfold quadOf
  split
  · rfl
  · rename_i hq
    rw [h.lin (by simpa using hq)]

/-! ## The loops -/

theorem loadVars_facts {l : List DVar} {p p' : QP} {names : List String} (hp : p.WF)
    (h : loadVars l p = (.ok names, p')) : ∃ vs, p'.vars = p.vars ++ vs ∧ names = vs.map Variable.name ∧
      List.Forall₂ DVar.Loaded l vs ∧ p'.WF ∧ p'.lins = p.lins ∧ p'.quads = p.quads ∧ p'.objective = p.objective ∧
      p'.name = p.name := by
  induction l generalizing p names with
  | nil =>
    simp only [loadVars, Prod.mk.injEq, Except.ok.injEq] at h
    obtain ⟨rfl, rfl⟩ := h
    exact ⟨[], by simp, rfl, .nil, hp, rfl, rfl, rfl, rfl⟩
  | cons x l ih =>
    simp only [loadVars] at h
    have key : ∀ (t : VarType) (lb ub : ℚ), x.vartype = t.toDocplex → (x.vartype = .binary → lb = 0 ∧ ub = 1) →
        (x.vartype ≠ .binary → lb = x.lb ∧ ub = x.ub) →
        (match p.addVariable lb ub t x.name with
          | (.error e, p') => (.error e, p')
          | (.ok v, p') =>
            match loadVars l p' with
            | (.error e, p'') => (.error e, p'')
            | (.ok names, p'') => ((.ok (v.name :: names), p'') : Except Err (List String) × QP)) = (.ok names, p') →
        ∃ vs, p'.vars = p.vars ++ vs ∧ names = vs.map Variable.name ∧
          List.Forall₂ DVar.Loaded (x :: l) vs ∧ p'.WF ∧ p'.lins = p.lins ∧ p'.quads = p.quads ∧
          p'.objective = p.objective ∧ p'.name = p.name := by
      intro t lb ub h1 h2 h3 h
      split at h
      · simp at h
      · rename_i v p1 hv
        split at h
        · simp at h
        · rename_i names1 p2 hl
          simp only [Prod.mk.injEq, Except.ok.injEq] at h
          obtain ⟨rfl, rfl⟩ := h
          have he := addVariable_extends hv
          obtain ⟨vs, e1, e2, e3, e4, e5, e6, e7, e8⟩ := ih (he.wf hp) hl
          obtain ⟨d1, d2, d3⟩ := he.data v (by simp)
          refine ⟨v :: vs, by rw [e1, he.vars]; simp, by rw [e2]; rfl, .cons ⟨?_, ?_, ?_, ?_⟩ e3, e4, by rw [e5, he.lins],
            by rw [e6, he.quads], by rw [e7, he.objective], by rw [e8, he.name]⟩
          · rw [d3, h1]
          · intro hb; rw [d1, d2]; exact h2 hb
          · intro hb; rw [d1, d2]; exact h3 hb
          · intro s hs
            rw [hs, addVariable_some] at hv
            split at hv
            · simp at hv
            · split at hv
              · simp at hv
              · simp only [Prod.mk.injEq, Except.ok.injEq] at hv
                rw [← hv.1]
    cases ht : x.vartype with
    | continuous =>
      rw [ht] at h
      exact key .continuous x.lb x.ub ht (by simp [ht]) (by simp) h
    | binary =>
      rw [ht] at h
      exact key .binary 0 1 ht (by simp) (by simp [ht]) h
    | integer =>
      rw [ht] at h
      exact key .integer x.lb x.ub ht (by simp [ht]) (by simp) h
    | other => rw [ht] at h; simp at h

theorem loadObjective_facts {names : List String} {m : DModel} {p p' : QP} (hp : p.WF) (hn : NamesOf names p)
    (hm : m.objective.WF names.length) (h : loadObjective names m p = (.ok (), p')) :
    p'.WF ∧ p'.vars = p.vars ∧ p'.lins = p.lins ∧ p'.quads = p.quads ∧ p'.name = p.name ∧
      p'.objective.sense = (if m.minimize then .minimize else .maximize) ∧
      ∀ x, p'.objective.val x = m.objective.val x := by
  unfold loadObjective at h
  split at h
  · simp at h
  · rename_i d hd
    split at h
    · simp at h
    · rename_i q hq
      have h : p.setObjective (if m.minimize then .minimize else .maximize) m.objective.constant (linNames d)
          (quadNames q) = (.ok (), p') := by
        split at h <;> rename_i hmin <;> simp only [hmin] <;> exact h
      have hw := setObjective_wf h hp trivial trivial
      obtain ⟨le, qe, h1, h2, rfl⟩ := setObjective_ok h
      have hq' : setPairs names m.objective.quad [] = .ok q := by
        rw [← quadOf_wf hm]
        unfold quadOf
        split at hq <;> rename_i hb <;> simp only [hb]
        · exact hq
        · exact hq
      obtain ⟨l1, l2, l3⟩ := lin_sides hp.cons hn hm (b := .const 0) ⟨by simp [Assoc.keys, DExpr.const],
        by simp [Assoc.keys, DExpr.const], by simp [Assoc.keys, DExpr.const], by simp [Assoc.keys, DExpr.const],
        by simp [DExpr.const]⟩ hd (d' := d) rfl
      obtain ⟨q1, q2, q3⟩ := quad_sides hp.cons hn hm.quadNodup hm.quadBound (b := []) (by simp [Assoc.keys]) hq'
        (d' := q) rfl
      refine ⟨hw, rfl, rfl, rfl, rfl, rfl, ?_⟩
      intro x
      simp only [Objective.val, LinExpr.val, QuadExpr.val, DExpr.val]
      rw [linNames_sum h1 l1 hp.cons.vars.inj, quadNames_sum h2 q1 hp.cons.vars.inj, l3, q3]
      simp [DExpr.const]

/-- What is kept by adding constraints. -/
structure Kept (p p' : QP) : Prop where
  vars : p'.vars = p.vars
  objective : p'.objective = p.objective
  name : p'.name = p.name

theorem Kept.refl (p : QP) : Kept p p := ⟨rfl, rfl, rfl⟩
theorem Kept.trans {p q r : QP} (h : Kept p q) (h' : Kept q r) : Kept p r :=
  ⟨h'.vars.trans h.vars, h'.objective.trans h.objective, h'.name.trans h.name⟩

theorem chooseName_given {ix : Assoc String Nat} {n : Nat} {pre s nm : String} (hs : s ≠ "")
    (h : chooseName ix n pre (some s) = .ok nm) : nm = s := by
  simp only [chooseName, if_neg hs] at h
  split at h
  · simp at h
  · simpa using h.symm

theorem loadLin_facts {names : List String} {a b : DExpr} {s : Sense} {nm : Option String} {p p' : QP} {k : LinCst}
    (hp : p.WF) (hn : NamesOf names p) (hc : (DCst.linear a s b nm).WF names.length)
    (h : loadLin names a s b nm p = (.ok k, p')) : p'.WF ∧ Kept p p' ∧ p'.quads = p.quads ∧ p'.lins = p.lins ++ [k] ∧
      (∀ x, k.Holds x ↔ (DCst.linear a s b nm).Holds x) ∧ ∀ t, t ≠ "" → nm = some t → k.name = t := by
  obtain ⟨ha, hb, qa, qb⟩ := hc
  unfold loadLin at h
  split at h
  · simp at h
  · rename_i d hd
    split at h
    · simp at h
    · rename_i d' hd'
      have hw := linearConstraint_wf h hp trivial
      obtain ⟨nm', le, s', h1, h2, h3, rfl, rfl⟩ := linearConstraint_ok h
      rw [Sense.convert_toStr] at h2
      simp only [Except.ok.injEq] at h2
      subst h2
      obtain ⟨l1, l2, l3⟩ := lin_sides hp.cons hn ha hb hd hd'
      refine ⟨hw, ⟨rfl, rfl, rfl⟩, rfl, rfl, ?_, ?_⟩
      · intro x
        simp only [LinCst.Holds, LinExpr.val, DCst.Holds, DExpr.val]
        rw [linNames_sum h3 l1 hp.cons.vars.inj, l3, ha.lin qa, hb.lin qb]
        cases s <;> simp only [Sense.rel, Dict.sum_nil] <;> constructor <;> intro h <;> linarith
      · intro t ht e
        rw [e] at h1
        exact chooseName_given ht h1

theorem loadQuad_facts {names : List String} {a b : DExpr} {s : Sense} {nm : Option String} {p p' : QP} {k : QuadCst}
    (hp : p.WF) (hn : NamesOf names p) (hc : (DCst.quadratic a s b nm).WF names.length)
    (h : loadQuad names a s b nm p = (.ok k, p')) : p'.WF ∧ Kept p p' ∧ p'.lins = p.lins ∧ p'.quads = p.quads ++ [k] ∧
      (∀ x, k.Holds x ↔ (DCst.quadratic a s b nm).Holds x) ∧ ∀ t, t ≠ "" → nm = some t → k.name = t := by
  obtain ⟨ha, hb⟩ := hc
  unfold loadQuad at h
  split at h
  · simp at h
  · rename_i d hd
    split at h
    · simp at h
    · rename_i q hq
      split at h
      · simp at h
      · rename_i d' hd'
        split at h
        · simp at h
        · rename_i q' hq'
          have hw := quadraticConstraint_wf h hp trivial trivial
          obtain ⟨nm', le, qe, s', h1, h2, h3, h4, rfl, rfl⟩ := quadraticConstraint_ok h
          rw [Sense.convert_toStr] at h2
          simp only [Except.ok.injEq] at h2
          subst h2
          rw [quadOf_wf ha] at hq
          rw [quadOf_wf hb] at hq'
          obtain ⟨l1, l2, l3⟩ := lin_sides hp.cons hn ha hb hd hd'
          obtain ⟨q1, q2, q3⟩ := quad_sides hp.cons hn ha.quadNodup ha.quadBound hb.quadBound hq hq'
          refine ⟨hw, ⟨rfl, rfl, rfl⟩, rfl, rfl, ?_, ?_⟩
          · intro x
            simp only [QuadCst.Holds, LinExpr.val, QuadExpr.val, DCst.Holds, DExpr.val]
            rw [linNames_sum h3 l1 hp.cons.vars.inj, l3, quadNames_sum h4 q1 hp.cons.vars.inj, q3]
            cases s <;> simp only [Sense.rel] <;> constructor <;> intro h <;> linarith
          · intro t ht e
            rw [e] at h1
            exact chooseName_given ht h1

/-- A constraint of the docplex model and the one made from it. -/
def DLinMatch (c : DCst) (k : LinCst) : Prop :=
  (∀ x, k.Holds x ↔ c.Holds x) ∧ ∀ t, t ≠ "" → c.name = some t → k.name = t

def DQuadMatch (c : DCst) (k : QuadCst) : Prop :=
  (∀ x, k.Holds x ↔ c.Holds x) ∧ ∀ t, t ≠ "" → c.name = some t → k.name = t

theorem loadLins_facts {names : List String} {cs : List DCst} {p p' : QP} (hp : p.WF) (hn : NamesOf names p)
    (hc : ∀ c ∈ cs, c.WF names.length) (h : loadLins names cs p = (.ok (), p')) :
    p'.WF ∧ Kept p p' ∧ p'.quads = p.quads ∧ (∀ c ∈ cs, c.isLin = true ∨ c.isQuad = true) ∧
      ∃ ks, p'.lins = p.lins ++ ks ∧ List.Forall₂ DLinMatch (cs.filter DCst.isLin) ks := by
  induction cs generalizing p with
  | nil =>
    simp only [loadLins, Prod.mk.injEq, true_and] at h
    subst h
    exact ⟨hp, .refl _, rfl, by simp, [], by simp, by simp⟩
  | cons c cs ih =>
    have hc' : ∀ c ∈ cs, c.WF names.length := fun c h => hc c (by simp [h])
    cases c with
    | linear a s b nm =>
      simp only [loadLins] at h
      split at h
      · simp at h
      · rename_i k p1 hk
        obtain ⟨f1, f2, f3, f4, f5, f6⟩ := loadLin_facts hp hn (hc _ (by simp)) hk
        obtain ⟨g1, g2, g3, g4, ks, g5, g6⟩ := ih f1 (show NamesOf names p1 by unfold NamesOf; rw [f2.vars]; exact hn) hc' h
        refine ⟨g1, f2.trans g2, g3.trans f3, ?_, k :: ks, by rw [g5, f4]; simp, ?_⟩
        · intro c hc
          rcases List.mem_cons.mp hc with rfl | hc
          · exact Or.inl rfl
          · exact g4 c hc
        · rw [List.filter_cons_of_pos rfl]
          exact .cons ⟨f5, f6⟩ g6
    | notEqual a b nm => simp [loadLins] at h
    | quadratic a s b nm =>
      simp only [loadLins] at h
      obtain ⟨g1, g2, g3, g4, ks, g5, g6⟩ := ih hp hn hc' h
      refine ⟨g1, g2, g3, ?_, ks, g5, ?_⟩
      · intro c hc
        rcases List.mem_cons.mp hc with rfl | hc
        · exact Or.inr rfl
        · exact g4 c hc
      · rw [List.filter_cons_of_neg (by simp [DCst.isLin])]
        exact g6
    | other f => simp [loadLins] at h

theorem loadQuads_facts {names : List String} {cs : List DCst} {p p' : QP} (hp : p.WF) (hn : NamesOf names p)
    (hc : ∀ c ∈ cs, c.WF names.length) (h : loadQuads names cs p = (.ok (), p')) :
    p'.WF ∧ Kept p p' ∧ p'.lins = p.lins ∧
      ∃ ks, p'.quads = p.quads ++ ks ∧ List.Forall₂ DQuadMatch (cs.filter DCst.isQuad) ks := by
  induction cs generalizing p with
  | nil =>
    simp only [loadQuads, Prod.mk.injEq, true_and] at h
    subst h
    exact ⟨hp, .refl _, rfl, [], by simp, by simp⟩
  | cons c cs ih =>
    have hc' : ∀ c ∈ cs, c.WF names.length := fun c h => hc c (by simp [h])
    cases c with
    | quadratic a s b nm =>
      simp only [loadQuads] at h
      split at h
      · simp at h
      · rename_i k p1 hk
        obtain ⟨f1, f2, f3, f4, f5, f6⟩ := loadQuad_facts hp hn (hc _ (by simp)) hk
        obtain ⟨g1, g2, g3, ks, g5, g6⟩ := ih f1 (show NamesOf names p1 by unfold NamesOf; rw [f2.vars]; exact hn) hc' h
        refine ⟨g1, f2.trans g2, g3.trans f3, k :: ks, by rw [g5, f4]; simp, ?_⟩
        · rw [List.filter_cons_of_pos rfl]
          exact .cons ⟨f5, f6⟩ g6
    | notEqual a b nm =>
      obtain ⟨g1, g2, g3, ks, g5, g6⟩ := ih hp hn hc' h
      exact ⟨g1, g2, g3, ks, g5, by rwa [List.filter_cons_of_neg (by simp [DCst.isQuad])]⟩
    | linear a s b nm =>
      obtain ⟨g1, g2, g3, ks, g5, g6⟩ := ih hp hn hc' h
      exact ⟨g1, g2, g3, ks, g5, by rwa [List.filter_cons_of_neg (by simp [DCst.isQuad])]⟩
    | other f =>
      obtain ⟨g1, g2, g3, ks, g5, g6⟩ := ih hp hn hc' h
      exact ⟨g1, g2, g3, ks, g5, by rwa [List.filter_cons_of_neg (by simp [DCst.isQuad])]⟩

/-- A loaded model. -/
structure Loaded (m : DModel) (p : QP) : Prop where
  wf : p.WF
  name : p.name = m.name
  vars : List.Forall₂ DVar.Loaded m.vars p.vars
  sense : p.objective.sense = (if m.minimize then .minimize else .maximize)
  obj : ∀ x, p.objective.val x = m.objective.val x
  supported : ∀ c ∈ m.csts, c.isLin = true ∨ c.isQuad = true
  lins : List.Forall₂ DLinMatch (m.csts.filter DCst.isLin) p.lins
  quads : List.Forall₂ DQuadMatch (m.csts.filter DCst.isQuad) p.quads

theorem fromDocplex_loaded {m : DModel} {p : QP} (hm : m.WF) (h : fromDocplex m = (.ok (), p)) : Loaded m p := by
  unfold fromDocplex at h
  split at h
  · simp at h
  · rename_i names p1 h1
    obtain ⟨vs, a1, a2, a3, a4, a5, a6, a7, a8⟩ := loadVars_facts (QP.empty_wf m.name) h1
    have hlen : names.length = m.vars.length := by rw [a2, List.length_map, a3.length_eq]
    have hn1 : NamesOf names p1 := by unfold NamesOf; rw [a1, a2]; simp [QP.empty]
    split at h
    · simp at h
    · rename_i p2 h2
      obtain ⟨b1, b2, b3, b4, b5, b6, b7⟩ := loadObjective_facts a4 hn1 (hlen ▸ hm.obj) h2
      have hn2 : NamesOf names p2 := by unfold NamesOf; rw [b2]; exact hn1
      split at h
      · simp at h
      · rename_i p3 h3
        obtain ⟨c1, c2, c3, c4, ks, c5, c6⟩ := loadLins_facts b1 hn2 (fun c hc => hlen ▸ hm.csts c hc) h3
        have hn3 : NamesOf names p3 := by unfold NamesOf; rw [c2.vars]; exact hn2
        obtain ⟨d1, d2, d3, qs, d4, d5⟩ := loadQuads_facts c1 hn3 (fun c hc => hlen ▸ hm.csts c hc) h
        refine ⟨d1, ?_, ?_, ?_, ?_, c4, ?_, ?_⟩
        · rw [d2.name, c2.name, b5, a8]; rfl
        · rw [d2.vars, c2.vars, b2, a1]; simpa [QP.empty] using a3
        · rw [d2.objective, c2.objective, b6]
        · intro x; rw [d2.objective, c2.objective, b7]
        · rw [d3, c5, b3, a5]; simpa [QP.empty] using c6
        · rw [d4, c3, b4, a6]; simpa [QP.empty] using d5

end Verif
