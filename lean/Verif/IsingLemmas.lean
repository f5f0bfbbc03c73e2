import Verif.Ising
import Verif.BuildLemmas
import Mathlib.Data.List.Nodup

/-!
# Energy specification and lemmas about the Ising conversions
-/

namespace Verif

/-- Specification: eigenvalue of a string of `Z`s on the basis state `b` (`Z|b> = (-1)^b |b>`). -/
def zval : List Bool → (Nat → ℚ) → ℚ
  | [], _ => 1
  | t :: z, b => (if t then 1 - 2 * b 0 else 1) * zval z fun i => b (i + 1)

/-- Specification: energy of a diagonal operator on a basis state. -/
def QubitOp.energy (op : QubitOp) (b : Nat → ℚ) : ℚ := Dict.sum op.terms fun k => zval k.1 b

/-- Specification: no `X` or `Y` in any term. -/
def QubitOp.Diagonal (op : QubitOp) : Prop := ∀ t ∈ op.terms, ∀ i : Nat, t.1.2[i]? ≠ some true

/-- `b` is a bitstring on the first `n` positions. -/
def IsBits (n : Nat) (b : Nat → ℚ) : Prop := ∀ i < n, b i = 0 ∨ b i = 1

/-! ## Helper lemmas -/

theorem zval_noMask (n : Nat) (b : Nat → ℚ) : zval (noMask n) b = 1 := by
  induction n generalizing b with
  | zero => rfl
  | succ n ih =>
    have : noMask (n + 1) = false :: noMask n := rfl
    rw [this]; simp [zval, ih]

theorem zval_set (z : List Bool) (i : Nat) (h : z[i]? = some false) (b : Nat → ℚ) :
    zval (z.set i true) b = (1 - 2 * b i) * zval z b := by
  induction z generalizing i b with
  | nil => simp at h
  | cons t z ih =>
    cases i with
    | zero => simp at h; subst h; simp [zval]
    | succ i =>
      simp at h
      simp only [List.set_cons_succ, zval]
      rw [ih i h]; ring

theorem zval_mask1 {n i : Nat} (h : i < n) (b : Nat → ℚ) : zval (zMask1 n i) b = 1 - 2 * b i := by
  unfold zMask1
  rw [zval_set _ _ (by simp [h])]
  have := zval_noMask n b
  unfold noMask at this
  rw [this, mul_one]

theorem zval_mask2 {n i j : Nat} (hi : i < n) (hj : j < n) (hij : i ≠ j) (b : Nat → ℚ) :
    zval (zMask2 n i j) b = (1 - 2 * b i) * (1 - 2 * b j) := by
  unfold zMask2
  rw [zval_set _ _ (by simp [hij, hj])]
  have := zval_mask1 hi b
  unfold zMask1 at this
  rw [this]; ring

theorem isingLinear_energy {n : Nat} {sense : ℚ} {l : Dict Nat} {st st' : IsingState}
    (h : isingLinear n sense l st = .ok st') (b : Nat → ℚ) :
    Dict.sum st'.1 (fun k => zval k.1 b) + st'.2
      = Dict.sum st.1 (fun k => zval k.1 b) + st.2 + sense * Dict.sum l b := by
  induction l generalizing st with
  | nil => simp [isingLinear] at h; subst h; simp
  | cons p l ih =>
    obtain ⟨i, coef⟩ := p
    obtain ⟨terms, offset⟩ := st
    simp only [isingLinear] at h
    split at h
    · rename_i hi
      rw [ih h]
      simp [zval_mask1 hi]; ring
    · simp at h

theorem isingQuadratic_energy {n : Nat} {sense : ℚ} {l : Dict (Nat × Nat)} {st st' : IsingState}
    (h : isingQuadratic n sense l st = .ok st') (b : Nat → ℚ) (hb : IsBits n b) :
    Dict.sum st'.1 (fun k => zval k.1 b) + st'.2
      = Dict.sum st.1 (fun k => zval k.1 b) + st.2 + sense * Dict.sum l (fun k => b k.1 * b k.2) := by
  induction l generalizing st with
  | nil => simp [isingQuadratic] at h; subst h; simp
  | cons p l ih =>
    obtain ⟨⟨i, j⟩, coef⟩ := p
    obtain ⟨terms, offset⟩ := st
    simp only [isingQuadratic] at h
    split at h
    · rename_i hij
      rw [ih h]
      by_cases he : i = j
      · subst he
        simp [zval_mask1 hij.1]
        have : b i * b i = b i := by rcases hb i hij.1 with h | h <;> simp [h]
        rw [this]; ring
      · simp [he, zval_mask1 hij.1, zval_mask1 hij.2, zval_mask2 hij.1 hij.2 he]; ring
    · simp at h

theorem sum_mergeCoeffs (d : Dict (Nat × Nat)) (f : Nat × Nat → ℚ) (hf : ∀ i j, f (i, j) = f (j, i)) :
    Dict.sum (mergeCoeffs d) f = Dict.sum d f := by
  have key : ∀ (d acc : Dict (Nat × Nat)), Dict.sum (d.foldl (fun acc p =>
      if p.1.2 < p.1.1 then Dict.add acc (p.1.2, p.1.1) p.2 else Dict.add acc p.1 p.2) acc) f
      = Dict.sum acc f + Dict.sum d f := by
    intro d
    induction d with
    | nil => simp
    | cons p d ih =>
      intro acc
      simp only [List.foldl_cons, ih, Dict.sum_cons]
      split
      · rw [Dict.sum_add, hf p.1.2 p.1.1]; ring
      · rw [Dict.sum_add]; ring
  have := key d []
  simpa [mergeCoeffs] using this

theorem sum_reduceTerms (n : Nat) (terms : Dict Pauli) (b : Nat → ℚ) :
    Dict.sum (reduceTerms n terms) (fun k => zval k.1 b) = Dict.sum terms fun k => zval k.1 b := by
  unfold reduceTerms
  have hm : Dict.sum (terms.foldl (fun acc p => Dict.add acc p.1 p.2) []) (fun k => zval k.1 b)
      = Dict.sum terms fun k => zval k.1 b := by
    rw [Dict.sum_foldl_add]; simp
  simp only
  split
  · exact hm
  · split
    · rename_i hk
      rw [← hm, ← Dict.sum_filter_ne (List.foldl _ _ _), hk]; simp
    · rw [Dict.sum_filter_ne, hm]

theorem noMask_get (n i : Nat) : (noMask n)[i]? ≠ some true := by
  unfold noMask
  rw [List.getElem?_replicate]; split <;> simp

/-- What every generated term looks like. -/
def GoodTerm (n : Nat) (t : Pauli) : Prop :=
  t.2 = noMask n ∧ ((∃ i < n, t.1 = zMask1 n i) ∨ ∃ i < n, ∃ j < n, i ≠ j ∧ t.1 = zMask2 n i j)

theorem isingLinear_good {n : Nat} {sense : ℚ} {l : Dict Nat} {st st' : IsingState}
    (h : isingLinear n sense l st = .ok st') (hd : ∀ t ∈ st.1, GoodTerm n t.1) :
    ∀ t ∈ st'.1, GoodTerm n t.1 := by
  induction l generalizing st with
  | nil => simp [isingLinear] at h; subst h; exact hd
  | cons p l ih =>
    obtain ⟨i, coef⟩ := p
    obtain ⟨terms, offset⟩ := st
    simp only [isingLinear] at h
    split at h
    · rename_i hi
      refine ih h ?_
      intro t ht
      rcases List.mem_append.mp ht with ht | ht
      · exact hd t ht
      · simp at ht; subst ht; exact ⟨rfl, Or.inl ⟨i, hi, rfl⟩⟩
    · simp at h

theorem isingQuadratic_good {n : Nat} {sense : ℚ} {l : Dict (Nat × Nat)} {st st' : IsingState}
    (h : isingQuadratic n sense l st = .ok st') (hd : ∀ t ∈ st.1, GoodTerm n t.1) :
    ∀ t ∈ st'.1, GoodTerm n t.1 := by
  induction l generalizing st with
  | nil => simp [isingQuadratic] at h; subst h; exact hd
  | cons p l ih =>
    obtain ⟨⟨i, j⟩, coef⟩ := p
    obtain ⟨terms, offset⟩ := st
    simp only [isingQuadratic] at h
    split at h
    · rename_i hij
      refine ih h ?_
      intro t ht
      have gi : GoodTerm n (zMask1 n i, noMask n) := ⟨rfl, Or.inl ⟨i, hij.1, rfl⟩⟩
      have gj : GoodTerm n (zMask1 n j, noMask n) := ⟨rfl, Or.inl ⟨j, hij.2, rfl⟩⟩
      by_cases he : i = j
      · simp only [he, if_true, List.mem_append, List.mem_singleton] at ht
        rcases ht with (ht | rfl) | rfl
        · exact hd t ht
        · exact gj
        · exact gj
      · simp only [he, if_false, List.mem_append, List.mem_singleton] at ht
        rcases ht with ((ht | rfl) | rfl) | rfl
        · exact hd t ht
        · exact ⟨rfl, Or.inr ⟨i, hij.1, j, hij.2, he, rfl⟩⟩
        · exact gi
        · exact gj
    · simp at h

theorem mem_keys_merged {terms : Dict Pauli} {k : Pauli}
    (h : k ∈ Assoc.keys (terms.foldl (fun acc p => Dict.add acc p.1 p.2) [])) :
    k ∈ Assoc.keys terms := by
  have := @Dict.mem_keys_dokPlus _ _ [] terms k
  simp only [dokPlus] at this
  rcases this h with h' | h'
  · simp [Assoc.keys] at h'
  · exact h'

theorem reduceTerms_keys {n : Nat} {terms : Dict Pauli} {t : Pauli × ℚ} (h : t ∈ reduceTerms n terms) :
    t.1 ∈ Assoc.keys terms ∨ (t = ((noMask n, noMask n), 0) ∧ reduceTerms n terms = [t]) := by
  have hm : ∀ t ∈ terms.foldl (fun acc p => Dict.add acc p.1 p.2) [], t.1 ∈ Assoc.keys terms :=
    fun t ht => mem_keys_merged (List.mem_map_of_mem ht)
  unfold reduceTerms at h ⊢
  simp only at h ⊢
  split at h
  · exact Or.inl (hm t h)
  · rename_i h1
    rw [if_neg h1]
    split at h
    · rename_i h2
      rw [if_pos h2]
      simp at h
      exact Or.inr ⟨h, by rw [h]⟩
    · exact Or.inl (hm t (List.mem_of_mem_filter h))

theorem isingLinear_length {n : Nat} {sense : ℚ} {l : Dict Nat} {st st' : IsingState}
    (h : isingLinear n sense l st = .ok st') : st'.1.length = st.1.length + l.length := by
  induction l generalizing st with
  | nil => simp [isingLinear] at h; subst h; simp
  | cons q l ih =>
    obtain ⟨t, o⟩ := st
    obtain ⟨i, c⟩ := q
    simp only [isingLinear] at h
    split at h
    · rw [ih h]; simp; omega
    · simp at h

theorem isingQuadratic_length {n : Nat} {sense : ℚ} {l : Dict (Nat × Nat)} {st st' : IsingState}
    (h : isingQuadratic n sense l st = .ok st') : st.1.length + l.length ≤ st'.1.length := by
  induction l generalizing st with
  | nil => simp [isingQuadratic] at h; subst h; simp
  | cons q l ih =>
    obtain ⟨t, o⟩ := st
    obtain ⟨⟨i, j⟩, c⟩ := q
    simp only [isingQuadratic] at h
    split at h
    · have := ih h
      split at this <;> simp at this <;> simp <;> omega
    · simp at h

theorem Dict.add_ne_nil {κ : Type} [DecidableEq κ] (a : Dict κ) (k : κ) (v : ℚ) : Dict.add a k v ≠ [] := by
  intro h
  have := congrArg Assoc.keys h
  have hk : k ∈ Assoc.keys (Dict.add a k v) := Assoc.mem_keys_set.mpr (Or.inr rfl)
  rw [this] at hk; simp [Assoc.keys] at hk

theorem mergeCoeffs_ne_nil {d : Dict (Nat × Nat)} (h : d ≠ []) : mergeCoeffs d ≠ [] := by
  have keep : ∀ (d acc : Dict (Nat × Nat)), (d ≠ [] ∨ acc ≠ []) → d.foldl (fun acc p =>
      if p.1.2 < p.1.1 then Dict.add acc (p.1.2, p.1.1) p.2 else Dict.add acc p.1 p.2) acc ≠ [] := by
    intro d
    induction d with
    | nil => intro acc h; simpa using h
    | cons q d ih =>
      intro acc _
      apply ih
      right
      beta_reduce
      split <;> exact Dict.add_ne_nil _ _ _
  exact keep _ _ (Or.inl h)

theorem toIsing_ok {p : QP} {op : QubitOp} {offset : ℚ} (h : p.toIsing = .ok (op, offset)) :
    p.numVars ≤ (p.vars.filter fun v => v.vartype = .binary).length ∧ p.lins = [] ∧ p.quads = [] ∧
    ∃ st terms, isingLinear p.numVars p.objective.sense.value p.objective.linear.coeffs
        ([], 0 + p.objective.constant * p.objective.sense.value) = .ok st ∧
      isingQuadratic p.numVars p.objective.sense.value (mergeCoeffs p.objective.quadratic.coeffs) st
        = .ok (terms, offset) ∧
      op = if terms = [] then ⟨p.numVars, [((noMask p.numVars, noMask p.numVars), 1)]⟩
        else ⟨p.numVars, reduceTerms p.numVars terms⟩ := by
  unfold QP.toIsing at h
  simp only at h
  split at h
  · simp at h
  · rename_i h1
    split at h
    · simp at h
    · rename_i h2
      push Not at h2
      split at h
      · simp at h
      · rename_i st hst
        split at h
        · simp at h
        · rename_i terms off hq
          refine ⟨not_lt.mp h1, h2.1, h2.2, st, terms, hst, ?_, ?_⟩
          · split at h <;> simp at h <;> rw [hq, h.2]
          · split at h
            · rename_i ht; simp at h; simp [ht, h.1]
            · rename_i ht; simp at h; simp [ht, h.1]

theorem reduceTerms_nodup (n : Nat) (terms : Dict Pauli) : (Assoc.keys (reduceTerms n terms)).Nodup := by
  have hm : (Assoc.keys (terms.foldl (fun acc p => Dict.add acc p.1 p.2) [])).Nodup :=
    Dict.nodup_dokPlus (b := terms) (by simp [Assoc.keys])
  unfold reduceTerms
  simp only
  split
  · exact hm
  · split
    · simp [Assoc.keys]
    · exact Dict.nodup_keys_filter hm _

theorem count_noMask (n : Nat) : (noMask n).count true = 0 := by simp [noMask, List.count_replicate]

theorem count_set {z : List Bool} {i : Nat} (h : z[i]? = some false) :
    (z.set i true).count true = z.count true + 1 := by
  induction z generalizing i with
  | nil => simp at h
  | cons t z ih =>
    cases i with
    | zero => simp at h; subst h; simp
    | succ i =>
      simp at h
      simp only [List.set_cons_succ, List.count_cons, ih h]; omega

theorem GoodTerm.count {n : Nat} {t : Pauli} (h : GoodTerm n t) :
    t.1.length = n ∧ (t.1.count true = 1 ∨ t.1.count true = 2) := by
  have h0 : (List.replicate n false).count true = 0 := count_noMask n
  rcases h.2 with ⟨i, hi, h⟩ | ⟨i, hi, j, hj, hij, h⟩
  · rw [h]
    refine ⟨by simp [zMask1], Or.inl ?_⟩
    rw [zMask1, count_set (by simp [hi]), h0]
  · rw [h]
    refine ⟨by simp [zMask2], Or.inr ?_⟩
    rw [zMask2, count_set (by simp [hij, hj]), count_set (by simp [hi]), h0]

theorem length_trueIndices (z : List Bool) : (trueIndices z).length = z.count true := by
  unfold trueIndices
  rw [List.length_map, ← List.countP_eq_length_filter, List.count_eq_countP]
  conv_rhs => rw [← List.zipIdx_map_fst 0 z]
  rw [List.countP_map]
  apply List.countP_congr
  simp

/-! ## From Ising -/

theorem zval_trueIndices_aux (z : List Bool) (s : Nat) (b : Nat → ℚ) :
    zval z (fun i => b (i + s))
      = ((((z.zipIdx s).filter fun p => p.1).map Prod.snd).map fun i => 1 - 2 * b i).prod := by
  induction z generalizing s with
  | nil => rfl
  | cons t z ih =>
    have h := ih (s + 1)
    have e : (fun i => b (i + 1 + s)) = fun i => b (i + (s + 1)) := by
      funext i; congr 1; omega
    simp only [zval, List.zipIdx_cons]
    rw [e, h]
    cases t <;> simp

theorem zval_trueIndices (z : List Bool) (b : Nat → ℚ) :
    zval z b = ((trueIndices z).map fun i => 1 - 2 * b i).prod := by
  have := zval_trueIndices_aux z 0 b
  simpa [trueIndices] using this

theorem mem_trueIndices {z : List Bool} {i : Nat} : i ∈ trueIndices z ↔ z[i]? = some true := by
  unfold trueIndices
  simp only [List.mem_map, List.mem_filter, Prod.exists, exists_eq_right, List.mem_zipIdx_iff_getElem?]

theorem trueIndices_sorted (z : List Bool) : (trueIndices z).Pairwise (· < ·) := by
  unfold trueIndices
  have h : (z.zipIdx.map Prod.snd).Pairwise (· < ·) := by
    rw [List.zipIdx_map_snd]; exact List.pairwise_lt_range'
  exact h.sublist (List.filter_sublist.map _)

/-- Matrix position a Pauli string is written to. -/
def pairKey (z : List Bool) : Option (Nat × Nat) :=
  match trueIndices z with
  | [i] => some (i, i)
  | [i, j] => some (i, j)
  | _ => none

/-- Spin monomial of a matrix position. -/
def spinMono (b : Nat → ℚ) (k : Nat × Nat) : ℚ :=
  if k.1 = k.2 then 1 - 2 * b k.1 else (1 - 2 * b k.1) * (1 - 2 * b k.2)

theorem pairKey_cases {z : List Bool} {k : Nat × Nat} (h : pairKey z = some k) :
    (trueIndices z = [k.1] ∧ k.1 = k.2) ∨ (trueIndices z = [k.1, k.2] ∧ k.1 < k.2) := by
  unfold pairKey at h
  split at h
  · rename_i i hi; simp at h; subst h; exact Or.inl ⟨hi, rfl⟩
  · rename_i i j hi
    simp at h; subst h
    refine Or.inr ⟨hi, ?_⟩
    have := trueIndices_sorted z
    rw [hi] at this; simpa using this
  · simp at h

theorem zval_pairKey {z : List Bool} {k : Nat × Nat} (h : pairKey z = some k) (b : Nat → ℚ) :
    zval z b = spinMono b k := by
  rw [zval_trueIndices]
  rcases pairKey_cases h with ⟨h1, h2⟩ | ⟨h1, h2⟩
  · rw [h1]; simp [spinMono, h2]
  · rw [h1]; simp [spinMono, h2.ne]

theorem pairKey_inj {z z' : List Bool} (hl : z.length = z'.length) {k : Nat × Nat}
    (h : pairKey z = some k) (h' : pairKey z' = some k) : z = z' := by
  have ht : trueIndices z = trueIndices z' := by
    rcases pairKey_cases h with ⟨h1, h2⟩ | ⟨h1, h2⟩ <;>
      rcases pairKey_cases h' with ⟨h3, h4⟩ | ⟨h3, h4⟩
    · rw [h1, h3]
    · omega
    · omega
    · rw [h1, h3]
  apply List.ext_getElem? ; intro i
  have hi : z[i]? = some true ↔ z'[i]? = some true := by rw [← mem_trueIndices, ← mem_trueIndices, ht]
  by_cases hlt : i < z.length
  · have hlt' : i < z'.length := hl ▸ hlt
    rw [List.getElem?_eq_getElem hlt, List.getElem?_eq_getElem hlt'] at *
    cases h1 : z[i] <;> cases h2 : z'[i] <;> simp_all
  · rw [List.getElem?_eq_none (by omega), List.getElem?_eq_none (by omega)]

theorem fillMatrix_step {z x : List Bool} {c : ℚ} {l : Dict Pauli} {m m' : Dict (Nat × Nat)}
    (h : fillMatrix (((z, x), c) :: l) m = .ok m') :
    ∃ k, pairKey z = some k ∧ trueIndices x = [] ∧ fillMatrix l (Assoc.set m k c) = .ok m' := by
  simp only [fillMatrix] at h
  unfold pairKey
  split at h
  · rename_i i hi
    split at h
    · simp at h
    · rename_i hx
      exact ⟨(i, i), by rw [hi], not_not.mp hx, h⟩
  · rename_i i j hi
    split at h
    · simp at h
    · rename_i hx
      exact ⟨(i, j), by rw [hi], not_not.mp hx, h⟩
  · simp at h

theorem fillMatrix_sum {n : Nat} {l : Dict Pauli} {m m' : Dict (Nat × Nat)} (h : fillMatrix l m = .ok m')
    (hlen : ∀ t ∈ l, t.1.1.length = n) (hd : (l.map fun t => t.1.1).Nodup)
    (hdis : ∀ t ∈ l, ∀ k, pairKey t.1.1 = some k → k ∉ Assoc.keys m) (b : Nat → ℚ) :
    Dict.sum m' (spinMono b) = Dict.sum m (spinMono b) + Dict.sum l fun k => zval k.1 b := by
  induction l generalizing m with
  | nil => simp [fillMatrix] at h; subst h; simp
  | cons t l ih =>
    obtain ⟨⟨z, x⟩, c⟩ := t
    obtain ⟨k, hk, _, h⟩ := fillMatrix_step h
    rw [List.map_cons, List.nodup_cons] at hd
    rw [ih h (fun t ht => hlen t (List.mem_cons_of_mem _ ht)) hd.2]
    · rw [Dict.sum_set_of_not_mem (hdis _ List.mem_cons_self k hk), Dict.sum_cons, zval_pairKey hk]
      ring
    · intro t ht k' hk' hmem
      rcases Assoc.mem_keys_set.mp hmem with h1 | h1
      · exact hdis t (List.mem_cons_of_mem _ ht) k' hk' h1
      · subst h1
        apply hd.1
        have hz : z.length = n := hlen ((z, x), c) List.mem_cons_self
        have := pairKey_inj (hz.trans (hlen t (List.mem_cons_of_mem _ ht)).symm) hk hk'
        simp only
        rw [this]; exact List.mem_map_of_mem ht

theorem fillMatrix_keys {n : Nat} {l : Dict Pauli} {m m' : Dict (Nat × Nat)} (h : fillMatrix l m = .ok m')
    (hlen : ∀ t ∈ l, t.1.1.length = n) (hn : (Assoc.keys m).Nodup)
    (hb : ∀ k ∈ Assoc.keys m, k.1 ≤ k.2 ∧ k.2 < n) :
    (Assoc.keys m').Nodup ∧ ∀ k ∈ Assoc.keys m', k.1 ≤ k.2 ∧ k.2 < n := by
  induction l generalizing m with
  | nil => simp [fillMatrix] at h; subst h; exact ⟨hn, hb⟩
  | cons t l ih =>
    obtain ⟨⟨z, x⟩, c⟩ := t
    obtain ⟨k, hk, _, h⟩ := fillMatrix_step h
    have hz : z.length = n := hlen ((z, x), c) List.mem_cons_self
    apply ih h (fun t ht => hlen t (List.mem_cons_of_mem _ ht)) (Assoc.nodup_keys_set hn _ _)
    intro k' hk'
    rcases Assoc.mem_keys_set.mp hk' with h1 | h1
    · exact hb k' h1
    · subst h1
      have hm : k'.2 ∈ trueIndices z := by
        rcases pairKey_cases hk with ⟨h1, h2⟩ | ⟨h1, h2⟩
        · rw [h1, h2]; simp
        · rw [h1]; simp
      have := List.getElem?_eq_some_iff.mp (mem_trueIndices.mp hm)
      obtain ⟨hlt, _⟩ := this
      rcases pairKey_cases hk with ⟨_, h2⟩ | ⟨_, h2⟩ <;> omega

theorem fillMatrix_ok {l : Dict Pauli} {m : Dict (Nat × Nat)}
    (h : ∀ t ∈ l, (pairKey t.1.1).isSome ∧ trueIndices t.1.2 = []) : ∃ m', fillMatrix l m = .ok m' := by
  induction l generalizing m with
  | nil => exact ⟨m, rfl⟩
  | cons t l ih =>
    obtain ⟨⟨z, x⟩, c⟩ := t
    obtain ⟨h1, h2⟩ := h ((z, x), c) List.mem_cons_self
    simp only at h1 h2
    have hl := fun t ht => h t (List.mem_cons_of_mem _ ht)
    unfold pairKey at h1
    simp only [fillMatrix]
    split at h1
    · rename_i i hi; simp only [hi, h2]; exact ih hl
    · rename_i i j hi; simp only [hi, h2]; exact ih hl
    · simp at h1

/-! ### The decoding loops -/

theorem mem_upperPairs {n : Nat} {k : Nat × Nat} : k ∈ upperPairs n ↔ k.1 < k.2 ∧ k.2 < n := by
  obtain ⟨i, j⟩ := k
  simp [upperPairs]
  omega

theorem nodup_upperPairs (n : Nat) : (upperPairs n).Nodup := by
  unfold upperPairs
  rw [List.nodup_flatMap]
  constructor
  · intro i _
    exact ((List.nodup_range).filter _).map (fun a b h => by simpa using h)
  · have : (List.range n).Pairwise (· ≠ ·) := List.nodup_range
    refine this.imp ?_
    intro a b hab
    simp only [Function.onFun, List.disjoint_left, List.mem_map]
    rintro k ⟨j, _, rfl⟩ ⟨j', _, h⟩
    simp at h; exact hab h.1.symm

/-- The polynomial a decoding state stands for. -/
def DecodeState.value (st : DecodeState) (b : Nat → ℚ) : ℚ :=
  Dict.sum st.matrix (spinMono b) + Dict.sum st.quad (fun k => b k.1 * b k.2) + Dict.sum st.lin b + st.offset

theorem decodePair_value {st : DecodeState} {k : Nat × Nat} (hk : k.1 ≠ k.2)
    (hq : k ∉ Assoc.keys st.quad) (b : Nat → ℚ) : (decodePair st k).value b = st.value b := by
  simp only [decodePair, DecodeState.value, Dict.sum_add, Dict.sum_set_of_not_mem hq]
  simp only [spinMono, hk, if_true, if_false]
  ring

theorem decodePair_get {st : DecodeState} {k k' : Nat × Nat} (hk' : k'.1 ≠ k'.2) :
    Dict.get (decodePair st k).matrix k' = if k = k' then 0 else Dict.get st.matrix k' := by
  have h1 : (k.1, k.1) ≠ k' := by rintro rfl; exact hk' rfl
  have h2 : (k.2, k.2) ≠ k' := by rintro rfl; exact hk' rfl
  simp only [decodePair, Dict.add, Dict.get_set, h1, h2, if_false]
  split
  · simp
  · rfl

theorem decodePairs {n : Nat} (ps : List (Nat × Nat)) (st : DecodeState)
    (hps : ps.Nodup) (hlt : ∀ k ∈ ps, k.1 < k.2 ∧ k.2 < n)
    (hq : ∀ k ∈ ps, k ∉ Assoc.keys st.quad)
    (hqn : (Assoc.keys st.quad).Nodup) (hqb : ∀ k ∈ Assoc.keys st.quad, k.1 < k.2 ∧ k.2 < n)
    (hmn : (Assoc.keys st.matrix).Nodup) (hmb : ∀ k ∈ Assoc.keys st.matrix, k.1 ≤ k.2 ∧ k.2 < n) :
    let r := ps.foldl decodePair st
    (∀ b, r.value b = st.value b) ∧ r.lin = st.lin ∧
    (Assoc.keys r.quad).Nodup ∧ (∀ k ∈ Assoc.keys r.quad, k.1 < k.2 ∧ k.2 < n) ∧
    (Assoc.keys r.matrix).Nodup ∧ (∀ k ∈ Assoc.keys r.matrix, k.1 ≤ k.2 ∧ k.2 < n) ∧
    ∀ k, k.1 ≠ k.2 → (k ∈ ps ∨ Dict.get st.matrix k = 0) → Dict.get r.matrix k = 0 := by
  induction ps generalizing st with
  | nil => exact ⟨fun _ => rfl, rfl, hqn, hqb, hmn, hmb, by simp⟩
  | cons k ps ih =>
    rw [List.nodup_cons] at hps
    have hk := hlt k List.mem_cons_self
    have := ih (decodePair st k) hps.2 (fun k' h => hlt k' (List.mem_cons_of_mem _ h)) ?_ ?_ ?_ ?_ ?_
    · obtain ⟨h1, h2, h3, h4, h5, h6, h7⟩ := this
      refine ⟨?_, h2, h3, h4, h5, h6, ?_⟩
      · intro b; simp only [List.foldl_cons]
        rw [h1 b, decodePair_value hk.1.ne (hq k List.mem_cons_self)]
      · intro k' hk' hor
        apply h7 k' hk'
        rw [decodePair_get hk']
        rcases hor with hor | hor
        · rcases List.mem_cons.mp hor with rfl | hor
          · right; simp
          · left; exact hor
        · right; split
          · rfl
          · exact hor
    · intro k' hk' hmem
      simp only [decodePair] at hmem
      rcases Assoc.mem_keys_set.mp hmem with h | h
      · exact hq k' (List.mem_cons_of_mem _ hk') h
      · subst h; exact hps.1 hk'
    · exact Assoc.nodup_keys_set hqn _ _
    · intro k' hk'
      rcases Assoc.mem_keys_set.mp hk' with h | h
      · exact hqb k' h
      · subst h; exact hk
    · exact Assoc.nodup_keys_set (Assoc.nodup_keys_set (Assoc.nodup_keys_set hmn _ _) _ _) _ _
    · intro k' hk'
      rcases Assoc.mem_keys_set.mp hk' with h | rfl
      · rcases Assoc.mem_keys_set.mp h with h | rfl
        · rcases Assoc.mem_keys_set.mp h with h | rfl
          · exact hmb k' h
          · exact ⟨hk.1.le, hk.2⟩
        · exact ⟨le_rfl, by simp only; omega⟩
      · exact ⟨le_rfl, hk.2⟩

theorem decodeDiag_value {linear : Bool} {st : DecodeState} {i : Nat} (b : Nat → ℚ)
    (hb : b i = 0 ∨ b i = 1) (hq : (i, i) ∉ Assoc.keys st.quad) (hl : i ∉ Assoc.keys st.lin) :
    (decodeDiag linear st i).value b = st.value b := by
  have hbb : b i * b i = b i := by rcases hb with h | h <;> simp [h]
  cases linear
  · simp only [decodeDiag, DecodeState.value, Dict.sum_add, Dict.sum_set_of_not_mem hq, spinMono, if_true,
      Bool.false_eq_true, if_false, hbb]
    ring
  · simp only [decodeDiag, DecodeState.value, Dict.sum_add, Dict.sum_set_of_not_mem hl, spinMono, if_true]
    ring

theorem decodeDiag_get {linear : Bool} {st : DecodeState} {i : Nat} {k : Nat × Nat} :
    Dict.get (decodeDiag linear st i).matrix k = if (i, i) = k then 0 else Dict.get st.matrix k := by
  cases linear <;> simp only [decodeDiag, Dict.add, Dict.get_set, Bool.false_eq_true, if_false, if_true] <;>
    split <;> simp

theorem decodeDiags {n : Nat} (linear : Bool) (is : List Nat) (st : DecodeState)
    (his : is.Nodup) (hlt : ∀ i ∈ is, i < n)
    (hq : ∀ i ∈ is, (i, i) ∉ Assoc.keys st.quad) (hl : ∀ i ∈ is, i ∉ Assoc.keys st.lin)
    (hqn : (Assoc.keys st.quad).Nodup) (hqb : ∀ k ∈ Assoc.keys st.quad, k.1 < n ∧ k.2 < n)
    (hln : (Assoc.keys st.lin).Nodup) (hlb : ∀ k ∈ Assoc.keys st.lin, k < n)
    (hmn : (Assoc.keys st.matrix).Nodup) (hmb : ∀ k ∈ Assoc.keys st.matrix, k.1 ≤ k.2 ∧ k.2 < n) :
    let r := is.foldl (decodeDiag linear) st
    (∀ b, IsBits n b → r.value b = st.value b) ∧
    (Assoc.keys r.quad).Nodup ∧ (∀ k ∈ Assoc.keys r.quad, k.1 < n ∧ k.2 < n) ∧
    (Assoc.keys r.lin).Nodup ∧ (∀ k ∈ Assoc.keys r.lin, k < n) ∧
    (Assoc.keys r.matrix).Nodup ∧ (∀ k ∈ Assoc.keys r.matrix, k.1 ≤ k.2 ∧ k.2 < n) ∧
    ∀ k, ((∃ i ∈ is, k = (i, i)) ∨ Dict.get st.matrix k = 0) → Dict.get r.matrix k = 0 := by
  induction is generalizing st with
  | nil => exact ⟨fun _ _ => rfl, hqn, hqb, hln, hlb, hmn, hmb, by simp⟩
  | cons i is ih =>
    rw [List.nodup_cons] at his
    have hi := hlt i List.mem_cons_self
    have := ih (decodeDiag linear st i) his.2 (fun k' h => hlt k' (List.mem_cons_of_mem _ h))
      ?_ ?_ ?_ ?_ ?_ ?_ ?_ ?_
    · obtain ⟨h1, h2, h3, h4, h5, h6, h7, h8⟩ := this
      refine ⟨?_, h2, h3, h4, h5, h6, h7, ?_⟩
      · intro b hb; simp only [List.foldl_cons]
        rw [h1 b hb, decodeDiag_value b (hb i hi) (hq i List.mem_cons_self) (hl i List.mem_cons_self)]
      · intro k hor
        apply h8
        rw [decodeDiag_get]
        rcases hor with ⟨j, hj, rfl⟩ | hor
        · rcases List.mem_cons.mp hj with rfl | hj
          · right; simp
          · left; exact ⟨j, hj, rfl⟩
        · right; split
          · rfl
          · exact hor
    · intro j hj hmem
      cases linear
      · simp only [decodeDiag] at hmem
        rcases Assoc.mem_keys_set.mp hmem with h | h
        · exact hq j (List.mem_cons_of_mem _ hj) h
        · simp at h; subst h; exact his.1 hj
      · exact hq j (List.mem_cons_of_mem _ hj) hmem
    · intro j hj hmem
      cases linear
      · exact hl j (List.mem_cons_of_mem _ hj) hmem
      · simp only [decodeDiag] at hmem
        rcases Assoc.mem_keys_set.mp hmem with h | h
        · exact hl j (List.mem_cons_of_mem _ hj) h
        · subst h; exact his.1 hj
    · cases linear
      · exact Assoc.nodup_keys_set hqn _ _
      · exact hqn
    · cases linear
      · intro k hk
        rcases Assoc.mem_keys_set.mp hk with h | rfl
        · exact hqb k h
        · exact ⟨hi, hi⟩
      · exact hqb
    · cases linear
      · exact hln
      · exact Assoc.nodup_keys_set hln _ _
    · cases linear
      · exact hlb
      · intro k hk
        rcases Assoc.mem_keys_set.mp hk with h | rfl
        · exact hlb k h
        · exact hi
    · cases linear <;> exact Assoc.nodup_keys_set hmn _ _
    · have : ∀ k ∈ Assoc.keys (Dict.add st.matrix (i, i) (-Dict.get st.matrix (i, i))),
          k.1 ≤ k.2 ∧ k.2 < n := by
        intro k hk
        rcases Assoc.mem_keys_set.mp hk with h | rfl
        · exact hmb k h
        · exact ⟨le_rfl, hi⟩
      cases linear <;> exact this

/-- Both loops together. -/
theorem decode_value {n : Nat} {m : Dict (Nat × Nat)} (offset : ℚ) (linear : Bool)
    (hmn : (Assoc.keys m).Nodup) (hmb : ∀ k ∈ Assoc.keys m, k.1 ≤ k.2 ∧ k.2 < n) :
    let st := (List.range n).foldl (decodeDiag linear) ((upperPairs n).foldl decodePair ⟨m, [], [], offset⟩)
    (Assoc.keys st.quad).Nodup ∧ (∀ k ∈ Assoc.keys st.quad, k.1 < n ∧ k.2 < n) ∧
    (Assoc.keys st.lin).Nodup ∧ (∀ k ∈ Assoc.keys st.lin, k < n) ∧
    ∀ b, IsBits n b → st.offset + Dict.sum st.lin b + Dict.sum st.quad (fun k => b k.1 * b k.2)
      = Dict.sum m (spinMono b) + offset := by
  obtain ⟨a1, a2, a3, a4, a5, a6, a7⟩ := decodePairs (n := n) (upperPairs n) ⟨m, [], [], offset⟩
    (nodup_upperPairs n) (fun k hk => mem_upperPairs.mp hk) (by simp [Assoc.keys]) (by simp [Assoc.keys])
    (by simp [Assoc.keys]) hmn hmb
  obtain ⟨b1, b2, b3, b4, b5, b6, b7, b8⟩ := decodeDiags (n := n) linear (List.range n)
    ((upperPairs n).foldl decodePair ⟨m, [], [], offset⟩) List.nodup_range (by simp)
    (fun i _ hmem => absurd (a4 _ hmem).1 (lt_irrefl _))
    (by rw [a2]; simp [Assoc.keys]) a3 (fun k hk => ⟨(a4 k hk).1.trans (a4 k hk).2, (a4 k hk).2⟩)
    (by rw [a2]; simp [Assoc.keys]) (by rw [a2]; simp [Assoc.keys]) a5 a6
  refine ⟨b2, b3, b4, b5, ?_⟩
  intro b hb
  have e1 := b1 b hb
  rw [a1 b] at e1
  generalize hst : (List.range n).foldl (decodeDiag linear)
    ((upperPairs n).foldl decodePair ⟨m, [], [], offset⟩) = st at *
  have hz : Dict.sum st.matrix (spinMono b) = 0 := by
    apply Dict.sum_eq_zero_of_get
    intro p hp
    left
    have hk : p.1 ∈ Assoc.keys st.matrix := List.mem_map_of_mem hp
    have hg : Dict.get st.matrix p.1 = p.2 := by
      unfold Dict.get; rw [Assoc.get?_of_mem b6 (k := p.1) (v := p.2) hp]; rfl
    rw [← hg]
    apply b8
    by_cases h : p.1.1 = p.1.2
    · left; exact ⟨p.1.1, by simp; exact lt_of_le_of_lt (b7 _ hk).1 (b7 _ hk).2, by ext <;> simp [h]⟩
    · right
      apply a7 _ h
      left
      exact mem_upperPairs.mpr ⟨lt_of_le_of_ne (b7 _ hk).1 h, (b7 _ hk).2⟩
  simp only [DecodeState.value, hz, Dict.sum_nil] at e1
  linarith

/-! ### The variables -/

theorem addIsingVars_ok (m i : Nat) (p : QP) (hp : p.Consistent)
    (hf : ∀ j, i ≤ j → "x_" ++ toString j ∉ p.vars.map Variable.name) :
    ∃ p', addIsingVars m i p = (.ok (), p') ∧ p'.Consistent ∧
      p'.vars = p.vars ++ (List.range' i m).map (fun j => ⟨"x_" ++ toString j, 0, 1, .binary⟩) ∧
      p'.lins = p.lins ∧ p'.quads = p.quads := by
  induction m generalizing i p with
  | zero => exact ⟨p, rfl, hp, by simp, rfl, rfl⟩
  | succ m ih =>
    have hnm := hf i le_rfl
    simp only [addIsingVars, QP.binaryVar]
    have hhas : ¬ Assoc.has p.varsIndex ("x_" ++ toString i) = true := by
      rw [Assoc.has_iff, hp.vars.keys]; exact hnm
    have hadd := addVariable_some p 0 1 .binary ("x_" ++ toString i)
    rw [if_neg hhas, if_neg (by norm_num)] at hadd
    have hext := addVariable_extends hadd
    rw [hadd]
    obtain ⟨p', h1, h2, h3, h4, h5⟩ := ih (i + 1) _ (hext.cons hp) (by
      intro j hj
      rw [hext.vars]
      simp only [List.map_append, List.map_cons, List.map_nil, List.mem_append, List.mem_singleton, not_or]
      refine ⟨hf j (by omega), ?_⟩
      intro h
      have := repr_injective (append_left_cancel h)
      omega)
    refine ⟨p', h1, h2, ?_, h4, h5⟩
    rw [h3, List.range'_succ]
    simp

end Verif
