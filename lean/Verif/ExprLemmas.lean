import Verif.Expr
import Verif.DictLemmas
import Mathlib.Data.List.Nodup

/-! # Lemmas about expressions -/

namespace Verif

namespace Dict
variable {κ : Type} [DecidableEq κ]

theorem sum_foldl_add (a b : Dict κ) (f : κ → ℚ) :
    sum (b.foldl (fun acc p => Dict.add acc p.1 p.2) a) f = sum a f + sum b f := by
  induction b generalizing a with
  | nil => simp
  | cons p b ih => simp [ih, sum_add]; ring

theorem sum_foldl_sub (a b : Dict κ) (f : κ → ℚ) :
    sum (b.foldl (fun acc p => Dict.add acc p.1 (-p.2)) a) f = sum a f - sum b f := by
  induction b generalizing a with
  | nil => simp
  | cons p b ih => simp [ih, sum_add]; ring

theorem sum_filter_ne (d : Dict κ) (f : κ → ℚ) :
    sum (d.filter fun p => p.2 ≠ 0) f = sum d f := by
  induction d with
  | nil => rfl
  | cons p d ih =>
    simp only [List.filter_cons]
    by_cases h : p.2 = 0
    · simp [h] at ih ⊢; exact ih
    · simp [h] at ih ⊢; exact ih

theorem sum_dokPlus (a b : Dict κ) (f : κ → ℚ) : sum (dokPlus a b) f = sum a f + sum b f :=
  sum_foldl_add a b f

theorem sum_csrMinus (a b : Dict κ) (f : κ → ℚ) : sum (csrMinus a b) f = sum a f - sum b f := by
  unfold csrMinus; rw [sum_filter_ne, sum_foldl_sub]

theorem sum_filter_add (d : Dict κ) (q : κ × ℚ → Bool) (f : κ → ℚ) :
    sum (d.filter q) f + sum (d.filter fun p => !q p) f = sum d f := by
  induction d with
  | nil => simp
  | cons p d ih =>
    cases h : q p <;> simp [h, List.filter_cons] <;> linarith

/-- Summing over the entries selected by a test on the key. -/
theorem sum_filter_key (d : Dict κ) (q : κ → Bool) (f : κ → ℚ) :
    sum (d.filter fun p => q p.1) f = sum d fun k => if q k then f k else 0 := by
  induction d with
  | nil => rfl
  | cons p d ih =>
    cases h : q p.1 <;> simp [h, ih, List.filter_cons]

theorem sum_map_key {κ' : Type} [DecidableEq κ'] (d : Dict κ) (g : κ → κ') (f : κ' → ℚ) :
    sum (d.map fun p => (g p.1, p.2)) f = sum d fun k => f (g k) := by
  induction d with
  | nil => rfl
  | cons p d ih => simp [ih]

theorem sum_map_val (d : Dict κ) (c : ℚ) (f : κ → ℚ) :
    sum (d.map fun p => (p.1, c * p.2)) f = c * sum d f := by
  induction d with
  | nil => simp
  | cons p d ih => simp [ih]; ring

theorem sum_const_zero (d : Dict κ) : sum d (fun _ => 0) = 0 := by
  induction d with
  | nil => rfl
  | cons p d ih => simp [ih]

theorem sum_transpose (d : Dict (Nat × Nat)) (f : Nat × Nat → ℚ) :
    sum (transpose d) f = sum d fun k => f (k.2, k.1) := by
  unfold transpose
  exact sum_map_key d (fun k => (k.2, k.1)) f

/-- In a dictionary with distinct keys, reading a key is summing against its indicator. -/
theorem get_eq_sum {d : Dict κ} (hd : (Assoc.keys d).Nodup) (k : κ) :
    get d k = sum d fun k' => if k' = k then 1 else 0 := by
  induction d with
  | nil => rfl
  | cons p d ih =>
    have hd' : p.1 ∉ Assoc.keys d ∧ (Assoc.keys d).Nodup := by
      simpa [Assoc.keys, List.nodup_cons] using hd
    rw [get_cons]
    by_cases h : p.1 = k
    · subst h
      have : sum d (fun k' => if k' = p.1 then (1 : ℚ) else 0) = 0 := by
        rw [← ih hd'.2]; exact get_eq_zero_of_not_mem hd'.1
      simp [this]
    · simp [h, ih hd'.2]

theorem nodup_keys_add {d : Dict κ} (hd : (Assoc.keys d).Nodup) (k : κ) (v : ℚ) :
    (Assoc.keys (add d k v)).Nodup := Assoc.nodup_keys_set hd k _

theorem nodup_keys_foldl_add {a : Dict κ} (ha : (Assoc.keys a).Nodup) (b : Dict κ) (c : ℚ) :
    (Assoc.keys (b.foldl (fun acc p => Dict.add acc p.1 (c * p.2)) a)).Nodup := by
  induction b generalizing a with
  | nil => exact ha
  | cons p b ih => exact ih (nodup_keys_add ha _ _)

theorem mem_keys_foldl_add {a b : Dict κ} {c : ℚ} {k : κ}
    (h : k ∈ Assoc.keys (b.foldl (fun acc p => Dict.add acc p.1 (c * p.2)) a)) :
    k ∈ Assoc.keys a ∨ k ∈ Assoc.keys b := by
  induction b generalizing a with
  | nil => exact Or.inl h
  | cons p b ih =>
    rcases ih h with h | h
    · rcases Assoc.mem_keys_set.mp h with h | h
      · exact Or.inl h
      · right; simp [Assoc.keys, h]
    · right; simp only [Assoc.keys, List.map_cons, List.mem_cons] at h ⊢; exact Or.inr h

theorem nodup_keys_filter {d : Dict κ} (hd : (Assoc.keys d).Nodup) (q : κ × ℚ → Bool) :
    (Assoc.keys (d.filter q)).Nodup := by
  refine hd.sublist ?_
  exact List.filter_sublist.map _

theorem mem_keys_filter {d : Dict κ} {q : κ × ℚ → Bool} {k : κ}
    (h : k ∈ Assoc.keys (d.filter q)) : k ∈ Assoc.keys d := by
  unfold Assoc.keys at *
  exact (List.filter_sublist.map _).subset h

theorem nodup_dokPlus {a : Dict κ} (ha : (Assoc.keys a).Nodup) (b : Dict κ) :
    (Assoc.keys (dokPlus a b)).Nodup := by
  have := nodup_keys_foldl_add ha b 1
  simpa [dokPlus] using this

theorem mem_keys_dokPlus {a b : Dict κ} {k : κ} (h : k ∈ Assoc.keys (dokPlus a b)) :
    k ∈ Assoc.keys a ∨ k ∈ Assoc.keys b := by
  have := @mem_keys_foldl_add _ _ a b 1 k
  simp [dokPlus] at *; exact this h

theorem nodup_csrMinus {a : Dict κ} (ha : (Assoc.keys a).Nodup) (b : Dict κ) :
    (Assoc.keys (csrMinus a b)).Nodup := by
  have := nodup_keys_foldl_add ha b (-1)
  unfold csrMinus
  apply nodup_keys_filter
  simpa using this

theorem mem_keys_csrMinus {a b : Dict κ} {k : κ} (h : k ∈ Assoc.keys (csrMinus a b)) :
    k ∈ Assoc.keys a ∨ k ∈ Assoc.keys b := by
  have h' := mem_keys_filter h
  have := @mem_keys_foldl_add _ _ a b (-1) k
  simp at this; exact this h'

theorem get_csrMinus_ne_zero {a b : Dict κ} (ha : (Assoc.keys a).Nodup) {k : κ}
    (h : k ∈ Assoc.keys (csrMinus a b)) : get (csrMinus a b) k ≠ 0 := by
  obtain ⟨p, hp, rfl⟩ := List.mem_map.mp h
  have hn := nodup_csrMinus ha b
  have := Assoc.get?_of_mem hn (k := p.1) (v := p.2) hp
  unfold get; rw [this]
  have := (List.mem_filter.mp hp).2
  simpa using this

/-- Multiplication out of a product of two linear functionals. -/
theorem sum_mul_sum {κ' : Type} (d : Dict κ) (e : Dict κ') [DecidableEq κ'] (f : κ → ℚ) (g : κ' → ℚ) :
    sum d f * sum e g = sum d fun k => f k * sum e g := by
  induction d with
  | nil => simp
  | cons p d ih => simp [add_mul, ih]; ring

end Dict

/-! ## Folding into the upper triangle -/

theorem sum_triangle (d : Dict (Nat × Nat)) (f : Nat × Nat → ℚ) (hf : ∀ i j, f (i, j) = f (j, i)) :
    Dict.sum (triangle d) f = Dict.sum d f := by
  unfold triangle
  simp only
  rw [Dict.sum_csrMinus, Dict.sum_dokPlus, Dict.sum_transpose]
  have : (fun k : Nat × Nat => f (k.2, k.1)) = f := by
    funext k; exact hf _ _
  rw [this]; ring

theorem sum_symmetric (d : Dict (Nat × Nat)) (f : Nat × Nat → ℚ) (hf : ∀ i j, f (i, j) = f (j, i)) :
    Dict.sum (symmetric d) f = Dict.sum d f := by
  unfold symmetric
  simp only
  rw [Dict.sum_csrMinus, Dict.sum_dokPlus, Dict.sum_transpose]
  have : (fun k : Nat × Nat => f (k.2, k.1)) = f := by
    funext k; exact hf _ _
  rw [this]; ring

theorem nodup_triangle {d : Dict (Nat × Nat)} (hd : (Assoc.keys d).Nodup) :
    (Assoc.keys (triangle d)).Nodup := Dict.nodup_csrMinus (Dict.nodup_dokPlus hd _) _

theorem get_triangle {d : Dict (Nat × Nat)} (hd : (Assoc.keys d).Nodup) (i j : Nat) :
    Dict.get (triangle d) (i, j) =
      if i < j then Dict.get d (i, j) + Dict.get d (j, i) else if i = j then Dict.get d (i, j) else 0 := by
  rw [Dict.get_eq_sum (nodup_triangle hd)]
  unfold triangle
  simp only
  rw [Dict.sum_csrMinus, Dict.sum_dokPlus, Dict.sum_transpose,
    Dict.sum_filter_key d (fun k => decide (k.2 < k.1)),
    Dict.sum_filter_key d (fun k => decide (k.2 < k.1))]
  have e1 : ∀ a b : Nat, Dict.get d (a, b) = Dict.sum d fun k' => if k' = (a, b) then 1 else 0 :=
    fun a b => Dict.get_eq_sum hd _
  rcases lt_trichotomy i j with h | h | h
  · simp only [h, if_true]
    rw [e1, e1]
    have h1 : (Dict.sum d fun k => if decide (k.2 < k.1) = true then
        (if (k.2, k.1) = (i, j) then (1 : ℚ) else 0) else 0)
        = Dict.sum d fun k' => if k' = (j, i) then 1 else 0 := by
      apply Dict.sum_congr; rintro ⟨a, b⟩ _
      simp only [Prod.mk.injEq, decide_eq_true_eq]
      split_ifs <;> first | rfl | omega
    have h2 : (Dict.sum d fun k => if decide (k.2 < k.1) = true then
        (if k = (i, j) then (1 : ℚ) else 0) else 0) = Dict.sum d fun _ => 0 := by
      apply Dict.sum_congr; rintro ⟨a, b⟩ _
      simp only [Prod.mk.injEq, decide_eq_true_eq]
      split_ifs <;> first | rfl | omega
    rw [h1, h2, Dict.sum_const_zero]; ring
  · subst h
    simp only [lt_irrefl, if_false, if_true]
    rw [e1]
    have h1 : (Dict.sum d fun k => if decide (k.2 < k.1) = true then
        (if (k.2, k.1) = (i, i) then (1 : ℚ) else 0) else 0)
        = Dict.sum d fun _ => 0 := by
      apply Dict.sum_congr; rintro ⟨a, b⟩ _
      simp only [Prod.mk.injEq, decide_eq_true_eq]
      split_ifs <;> first | rfl | omega
    have h2 : (Dict.sum d fun k => if decide (k.2 < k.1) = true then
        (if k = (i, i) then (1 : ℚ) else 0) else 0) = Dict.sum d fun _ => 0 := by
      apply Dict.sum_congr; rintro ⟨a, b⟩ _
      simp only [Prod.mk.injEq, decide_eq_true_eq]
      split_ifs <;> first | rfl | omega
    rw [h1, h2, Dict.sum_const_zero]; ring
  · have h' : ¬ i < j := by omega
    have h'' : ¬ i = j := by omega
    simp only [h', h'', if_false]
    have h1 : (Dict.sum d fun k => if decide (k.2 < k.1) = true then
        (if (k.2, k.1) = (i, j) then (1 : ℚ) else 0) else 0)
        = Dict.sum d fun _ => 0 := by
      apply Dict.sum_congr; rintro ⟨a, b⟩ _
      simp only [Prod.mk.injEq, decide_eq_true_eq]
      split_ifs <;> first | rfl | omega
    have h2 : (Dict.sum d fun k => if decide (k.2 < k.1) = true then
        (if k = (i, j) then (1 : ℚ) else 0) else 0) =
        Dict.sum d fun k' => if k' = (i, j) then 1 else 0 := by
      apply Dict.sum_congr; rintro ⟨a, b⟩ _
      simp only [Prod.mk.injEq, decide_eq_true_eq]
      split_ifs <;> first | rfl | omega
    rw [h1, h2, Dict.sum_const_zero]; ring

theorem triangle_upper {d : Dict (Nat × Nat)} (hd : (Assoc.keys d).Nodup) {k : Nat × Nat}
    (h : k ∈ Assoc.keys (triangle d)) : k.1 ≤ k.2 := by
  by_contra hlt
  have hne : Dict.get (triangle d) k ≠ 0 := Dict.get_csrMinus_ne_zero (Dict.nodup_dokPlus hd _) h
  obtain ⟨i, j⟩ := k
  rw [get_triangle hd] at hne
  simp at hlt
  have h1 : ¬ i < j := by omega
  have h2 : ¬ i = j := by omega
  simp [h1, h2] at hne

theorem mem_keys_transpose {d : Dict (Nat × Nat)} {k : Nat × Nat} :
    k ∈ Assoc.keys (transpose d) ↔ (k.2, k.1) ∈ Assoc.keys d := by
  simp only [Assoc.keys, transpose, List.map_map, List.mem_map, Function.comp]
  constructor
  · rintro ⟨p, hp, rfl⟩; exact ⟨p, hp, rfl⟩
  · rintro ⟨p, hp, h⟩; exact ⟨p, hp, by rw [h]⟩

theorem triangle_bound {d : Dict (Nat × Nat)} {n : Nat}
    (hd : ∀ k ∈ Assoc.keys d, k.1 < n ∧ k.2 < n) {k : Nat × Nat}
    (h : k ∈ Assoc.keys (triangle d)) : k.1 < n ∧ k.2 < n := by
  unfold triangle at h
  rcases Dict.mem_keys_csrMinus h with h | h
  · rcases Dict.mem_keys_dokPlus h with h | h
    · exact hd _ h
    · have := hd _ (Dict.mem_keys_filter (mem_keys_transpose.mp h))
      exact ⟨this.2, this.1⟩
  · exact hd _ (Dict.mem_keys_filter h)

theorem nodup_symmetric {d : Dict (Nat × Nat)} (hd : (Assoc.keys d).Nodup) :
    (Assoc.keys (symmetric d)).Nodup := Dict.nodup_csrMinus (Dict.nodup_dokPlus hd _) _

/-- The symmetric form of an upper-triangular dictionary. -/
theorem get_symmetric {d : Dict (Nat × Nat)} (hd : (Assoc.keys d).Nodup)
    (hu : ∀ k ∈ Assoc.keys d, k.1 ≤ k.2) (i j : Nat) :
    Dict.get (symmetric d) (i, j) =
      if i = j then Dict.get d (i, j) else Dict.get d (min i j, max i j) / 2 := by
  rw [Dict.get_eq_sum (nodup_symmetric hd)]
  unfold symmetric
  simp only
  have half : ∀ (l : Dict (Nat × Nat)) (f : Nat × Nat → ℚ),
      Dict.sum (l.map fun p => (p.1, p.2 / 2)) f = Dict.sum l f / 2 := by
    intro l f
    induction l with
    | nil => simp
    | cons p l ih => simp [ih]; ring
  rw [Dict.sum_csrMinus, Dict.sum_dokPlus, Dict.sum_transpose, half, half,
    Dict.sum_filter_key d (fun k => decide (k.1 < k.2)),
    Dict.sum_filter_key d (fun k => decide (k.1 < k.2))]
  have e1 : ∀ a b : Nat, Dict.get d (a, b) = Dict.sum d fun k' => if k' = (a, b) then 1 else 0 :=
    fun a b => Dict.get_eq_sum hd _
  rw [e1, e1]
  rcases lt_trichotomy i j with h | h | h
  · have hij : ¬ i = j := by omega
    simp only [hij, if_false, min_eq_left h.le, max_eq_right h.le]
    have h1 : (Dict.sum d fun k => if decide (k.1 < k.2) = true then
        (if (k.2, k.1) = (i, j) then (1 : ℚ) else 0) else 0)
        = Dict.sum d fun _ => 0 := by
      apply Dict.sum_congr; rintro ⟨a, b⟩ _
      simp only [Prod.mk.injEq, decide_eq_true_eq]
      split_ifs <;> first | rfl | omega
    have h2 : (Dict.sum d fun k => if decide (k.1 < k.2) = true then
        (if k = (i, j) then (1 : ℚ) else 0) else 0)
        = Dict.sum d fun k' => if k' = (i, j) then 1 else 0 := by
      apply Dict.sum_congr; rintro ⟨a, b⟩ _
      simp only [Prod.mk.injEq, decide_eq_true_eq]
      split_ifs <;> first | rfl | omega
    rw [h1, h2, Dict.sum_const_zero]; ring
  · subst h
    simp only [if_true]
    have h1 : (Dict.sum d fun k => if decide (k.1 < k.2) = true then
        (if (k.2, k.1) = (i, i) then (1 : ℚ) else 0) else 0)
        = Dict.sum d fun _ => 0 := by
      apply Dict.sum_congr; rintro ⟨a, b⟩ _
      simp only [Prod.mk.injEq, decide_eq_true_eq]
      split_ifs <;> first | rfl | omega
    have h2 : (Dict.sum d fun k => if decide (k.1 < k.2) = true then
        (if k = (i, i) then (1 : ℚ) else 0) else 0) = Dict.sum d fun _ => 0 := by
      apply Dict.sum_congr; rintro ⟨a, b⟩ _
      simp only [Prod.mk.injEq, decide_eq_true_eq]
      split_ifs <;> first | rfl | omega
    rw [h1, h2, Dict.sum_const_zero]; ring
  · have hij : ¬ i = j := by omega
    simp only [hij, if_false, min_eq_right h.le, max_eq_left h.le]
    have h0 : (Dict.sum d fun k => if k = (i, j) then (1 : ℚ) else 0) = Dict.sum d fun _ => 0 := by
      apply Dict.sum_congr; rintro ⟨a, b⟩ hab
      have := hu _ hab
      simp only [Prod.mk.injEq] at this ⊢
      split_ifs <;> first | rfl | omega
    have h1 : (Dict.sum d fun k => if decide (k.1 < k.2) = true then
        (if (k.2, k.1) = (i, j) then (1 : ℚ) else 0) else 0)
        = Dict.sum d fun k' => if k' = (j, i) then 1 else 0 := by
      apply Dict.sum_congr; rintro ⟨a, b⟩ _
      simp only [Prod.mk.injEq, decide_eq_true_eq]
      split_ifs <;> first | rfl | omega
    have h2 : (Dict.sum d fun k => if decide (k.1 < k.2) = true then
        (if k = (i, j) then (1 : ℚ) else 0) else 0) = Dict.sum d fun _ => 0 := by
      apply Dict.sum_congr; rintro ⟨a, b⟩ _
      simp only [Prod.mk.injEq, decide_eq_true_eq]
      split_ifs <;> first | rfl | omega
    rw [h0, h1, h2, Dict.sum_const_zero]; ring

/-! ## Well-formed expressions -/

/-- The stored entries have distinct keys inside the shape. -/
structure LinExpr.WF (e : LinExpr) : Prop where
  nodup : (Assoc.keys e.coeffs).Nodup
  bound : ∀ k ∈ Assoc.keys e.coeffs, k < e.n

/-- The stored entries have distinct keys inside the upper triangle of the shape. -/
structure QuadExpr.WF (e : QuadExpr) : Prop where
  nodup : (Assoc.keys e.coeffs).Nodup
  bound : ∀ k ∈ Assoc.keys e.coeffs, k.1 < e.n ∧ k.2 < e.n
  upper : ∀ k ∈ Assoc.keys e.coeffs, k.1 ≤ k.2

theorem resolve_lt {vi : Assoc String Nat} {n : Nat} {k : Key} {i : Nat}
    (h : resolve vi n k = .ok i) : i < n := by
  cases k with
  | idx j => simp only [resolve] at h; split at h <;> simp_all
  | name s =>
    simp only [resolve] at h
    split at h
    · simp at h
    · split at h <;> simp_all

theorem linOfEntries_wf {vi : Assoc String Nat} {n : Nat} {l : List (Key × ℚ)} {acc d : Dict Nat}
    (h : linOfEntries vi n l acc = .ok d) (hn : (Assoc.keys acc).Nodup)
    (hb : ∀ k ∈ Assoc.keys acc, k < n) :
    (Assoc.keys d).Nodup ∧ ∀ k ∈ Assoc.keys d, k < n := by
  induction l generalizing acc with
  | nil => simp [linOfEntries] at h; subst h; exact ⟨hn, hb⟩
  | cons p l ih =>
    obtain ⟨k, v⟩ := p
    simp only [linOfEntries] at h
    split at h
    · simp at h
    · rename_i i hi
      refine ih h (Dict.nodup_dokSet hn _ _) ?_
      intro k' hk'
      rcases Dict.mem_keys_dokSet hk' with h' | h'
      · exact hb _ h'
      · subst h'; exact resolve_lt hi

theorem quadOfEntries_wf {vi : Assoc String Nat} {n : Nat} {l : List ((Key × Key) × ℚ)}
    {acc d : Dict (Nat × Nat)}
    (h : quadOfEntries vi n l acc = .ok d) (hn : (Assoc.keys acc).Nodup)
    (hb : ∀ k ∈ Assoc.keys acc, k.1 < n ∧ k.2 < n) :
    (Assoc.keys d).Nodup ∧ ∀ k ∈ Assoc.keys d, k.1 < n ∧ k.2 < n := by
  induction l generalizing acc with
  | nil => simp [quadOfEntries] at h; subst h; exact ⟨hn, hb⟩
  | cons p l ih =>
    obtain ⟨⟨k, k'⟩, v⟩ := p
    simp only [quadOfEntries] at h
    split at h
    · simp at h
    · rename_i i hi
      split at h
      · simp at h
      · rename_i j hj
        refine ih h (Dict.nodup_dokSet hn _ _) ?_
        intro k' hk'
        rcases Dict.mem_keys_dokSet hk' with h' | h'
        · exact hb _ h'
        · subst h'; exact ⟨resolve_lt hi, resolve_lt hj⟩

theorem linOfList_wf (l : List ℚ) :
    (Assoc.keys (linOfList l)).Nodup ∧ ∀ k ∈ Assoc.keys (linOfList l), k < l.length := by
  have hk : Assoc.keys (l.zipIdx.map fun p => (p.2, p.1)) = List.range l.length := by
    simp [Assoc.keys, List.zipIdx_map_snd, Function.comp_def, List.range_eq_range']
  constructor
  · apply Dict.nodup_keys_filter
    rw [hk]; exact List.nodup_range
  · intro k h
    have := Dict.mem_keys_filter h
    rw [hk] at this; simpa using this

theorem keys_quadRows (rows : List (List ℚ)) (s : Nat) :
    Assoc.keys ((rows.zipIdx s).flatMap fun r => r.1.zipIdx.map fun p => ((r.2, p.2), p.1))
      = (rows.zipIdx s).flatMap fun r => (List.range r.1.length).map fun j => (r.2, j) := by
  unfold Assoc.keys
  rw [List.map_flatMap]
  congr 1
  funext r
  rw [List.map_map]
  have : (List.range r.1.length) = r.1.zipIdx.map Prod.snd := by
    simp [List.zipIdx_map_snd, List.range_eq_range']
  rw [this, List.map_map]
  rfl

theorem quadOfMatrix_wf (rows : List (List ℚ)) (hsq : ∀ r ∈ rows, r.length = rows.length) :
    (Assoc.keys (quadOfMatrix rows)).Nodup ∧
      ∀ k ∈ Assoc.keys (quadOfMatrix rows), k.1 < rows.length ∧ k.2 < rows.length := by
  constructor
  · apply Dict.nodup_keys_filter
    rw [keys_quadRows]
    rw [List.nodup_flatMap]
    constructor
    · rintro r _
      exact (List.nodup_range).map fun a b h => by simpa using h
    · have hnd : (rows.zipIdx.map Prod.snd).Nodup := by
        rw [List.zipIdx_map_snd]; exact List.nodup_range'
      have := List.pairwise_map.mp hnd
      refine this.imp ?_
      intro a b hab
      simp only [Function.onFun, List.disjoint_left, List.mem_map]
      rintro x ⟨i, _, rfl⟩ ⟨j, _, h⟩
      simp at h
      exact hab h.1.symm
  · intro k h
    have h := Dict.mem_keys_filter h
    rw [keys_quadRows] at h
    obtain ⟨r, hr, h⟩ := List.mem_flatMap.mp h
    obtain ⟨j, hj, rfl⟩ := List.mem_map.mp h
    have hr' := List.mem_zipIdx hr
    simp at hj hr'
    have hmem : r.1 ∈ rows := by rw [hr'.2]; exact List.getElem_mem _
    refine ⟨hr'.1, ?_⟩
    rw [hsq _ hmem] at hj; exact hj

theorem LinExpr.ofInput_wf {vi : Assoc String Nat} {n : Nat} {inp : LinInput} {e : LinExpr}
    (h : LinExpr.ofInput vi n inp = .ok e) (hs : ∀ s, inp = .sparse s → s.WF) : e.WF := by
  cases inp with
  | dict l =>
    simp only [LinExpr.ofInput] at h
    split at h
    · simp at h
    · rename_i d hd
      simp at h; subst h
      have := linOfEntries_wf hd (by simp [Assoc.keys]) (by simp [Assoc.keys])
      exact ⟨this.1, this.2⟩
  | list l =>
    simp [LinExpr.ofInput] at h; subst h
    exact ⟨(linOfList_wf l).1, (linOfList_wf l).2⟩
  | sparse s =>
    simp [LinExpr.ofInput] at h; subst h
    exact hs s rfl

theorem QuadExpr.ofInput_wf {vi : Assoc String Nat} {n : Nat} {inp : QuadInput} {e : QuadExpr}
    (h : QuadExpr.ofInput vi n inp = .ok e)
    (hs : ∀ s, inp = .sparse s → (Assoc.keys s.coeffs).Nodup ∧
      ∀ k ∈ Assoc.keys s.coeffs, k.1 < s.n ∧ k.2 < s.n) : e.WF := by
  cases inp with
  | dict l =>
    simp only [QuadExpr.ofInput] at h
    split at h
    · simp at h
    · rename_i d hd
      simp at h; subst h
      have := quadOfEntries_wf hd (by simp [Assoc.keys]) (by simp [Assoc.keys])
      exact ⟨nodup_triangle this.1, fun k hk => triangle_bound this.2 hk,
        fun k hk => triangle_upper this.1 hk⟩
  | matrix rows =>
    simp only [QuadExpr.ofInput] at h
    split at h
    · rename_i hsq
      simp at h; subst h
      have := quadOfMatrix_wf rows (by simpa using hsq)
      exact ⟨nodup_triangle this.1, fun k hk => triangle_bound this.2 hk,
        fun k hk => triangle_upper this.1 hk⟩
    · simp at h
  | sparse s =>
    simp [QuadExpr.ofInput] at h; subst h
    have := hs s rfl
    exact ⟨nodup_triangle this.1, fun k hk => triangle_bound this.2 hk,
        fun k hk => triangle_upper this.1 hk⟩

/-! ## Values of expressions built from input -/

/-- Position of a key (`0` for an unknown name, which is rejected anyway). -/
def Key.pos (vi : Assoc String Nat) : Key → Nat
  | .idx i => i
  | .name s => (Assoc.get? vi s).getD 0

theorem resolve_eq {vi : Assoc String Nat} {n : Nat} {k : Key} {i : Nat}
    (h : resolve vi n k = .ok i) : i = k.pos vi := by
  cases k with
  | idx j => simp only [resolve] at h; split at h <;> simp_all [Key.pos]
  | name s =>
    simp only [resolve] at h
    split at h
    · simp at h
    · rename_i hs; split at h <;> simp_all [Key.pos]

theorem linOfEntries_sum {vi : Assoc String Nat} {n : Nat} {l : List (Key × ℚ)} {acc d : Dict Nat}
    (h : linOfEntries vi n l acc = .ok d) (hacc : (Assoc.keys acc).Nodup)
    (hn : (l.map fun p => p.1.pos vi).Nodup)
    (hdis : ∀ k ∈ Assoc.keys acc, k ∉ l.map fun p => p.1.pos vi) (f : Nat → ℚ) :
    Dict.sum d f = Dict.sum acc f + (l.map fun p => p.2 * f (p.1.pos vi)).sum := by
  induction l generalizing acc with
  | nil => simp [linOfEntries] at h; subst h; simp
  | cons p l ih =>
    obtain ⟨k, v⟩ := p
    simp only [linOfEntries] at h
    split at h
    · simp at h
    · rename_i i hi
      have hi' := resolve_eq hi
      simp only [List.map_cons, List.nodup_cons] at hn
      rw [ih h (Dict.nodup_dokSet hacc _ _) hn.2]
      · rw [Dict.sum_dokSet]
        have : i ∉ Assoc.keys acc := by
          intro hmem; exact hdis _ hmem (by simp [hi'])
        rw [Dict.get_eq_zero_of_not_mem this]
        simp [← hi']; ring
      · intro k' hk' hmem
        rcases Dict.mem_keys_dokSet hk' with h' | h'
        · exact hdis _ h' (by simp only [List.map_cons, List.mem_cons]; exact Or.inr hmem)
        · subst h'; rw [hi'] at hmem; exact hn.1 hmem

theorem quadOfEntries_sum {vi : Assoc String Nat} {n : Nat} {l : List ((Key × Key) × ℚ)}
    {acc d : Dict (Nat × Nat)}
    (h : quadOfEntries vi n l acc = .ok d) (hacc : (Assoc.keys acc).Nodup)
    (hn : (l.map fun p => (p.1.1.pos vi, p.1.2.pos vi)).Nodup)
    (hdis : ∀ k ∈ Assoc.keys acc, k ∉ l.map fun p => (p.1.1.pos vi, p.1.2.pos vi))
    (f : Nat × Nat → ℚ) :
    Dict.sum d f = Dict.sum acc f + (l.map fun p => p.2 * f (p.1.1.pos vi, p.1.2.pos vi)).sum := by
  induction l generalizing acc with
  | nil => simp [quadOfEntries] at h; subst h; simp
  | cons p l ih =>
    obtain ⟨⟨k, k'⟩, v⟩ := p
    simp only [quadOfEntries] at h
    split at h
    · simp at h
    · rename_i i hi
      split at h
      · simp at h
      rename_i j hj
      have hi' := resolve_eq hi
      have hj' := resolve_eq hj
      simp only [List.map_cons, List.nodup_cons] at hn
      rw [ih h (Dict.nodup_dokSet hacc _ _) hn.2]
      · rw [Dict.sum_dokSet]
        have : (i, j) ∉ Assoc.keys acc := by
          intro hmem; exact hdis _ hmem (by simp [hi', hj'])
        rw [Dict.get_eq_zero_of_not_mem this]
        simp [← hi', ← hj']; ring
      · intro k' hk' hmem
        rcases Dict.mem_keys_dokSet hk' with h' | h'
        · exact hdis _ h' (by simp only [List.map_cons, List.mem_cons]; exact Or.inr hmem)
        · subst h'; rw [hi', hj'] at hmem; exact hn.1 hmem

theorem sum_quadOfMatrix (rows : List (List ℚ)) (f : Nat × Nat → ℚ) :
    Dict.sum (quadOfMatrix rows) f =
      ((List.range rows.length).map fun i =>
        ((List.range (rows.getD i []).length).map fun j => (rows.getD i []).getD j 0 * f (i, j)).sum).sum := by
  unfold quadOfMatrix
  rw [Dict.sum_filter_ne]
  have inner : ∀ (r : List ℚ) (s : Nat) (g : Nat → ℚ),
      ((r.zipIdx s).map fun p => p.1 * g p.2).sum
        = ((List.range r.length).map fun j => r.getD j 0 * g (s + j)).sum := by
    intro r
    induction r with
    | nil => simp
    | cons a r ih =>
      intro s g
      rw [List.length_cons, List.range_succ_eq_map]
      simp only [List.zipIdx_cons, List.map_cons, List.sum_cons, List.map_map, ih]
      simp [Function.comp_def, add_assoc, add_comm 1]
  have outer : ∀ (rs : List (List ℚ)) (s : Nat),
      Dict.sum ((rs.zipIdx s).flatMap fun r => r.1.zipIdx.map fun p => ((r.2, p.2), p.1)) f
        = ((List.range rs.length).map fun i =>
          ((List.range (rs.getD i []).length).map fun j =>
            (rs.getD i []).getD j 0 * f (s + i, j)).sum).sum := by
    intro rs
    induction rs with
    | nil => simp
    | cons r rs ih =>
      intro s
      rw [List.length_cons, List.range_succ_eq_map]
      simp only [List.zipIdx_cons, List.flatMap_cons, Dict.sum_append, List.map_cons, List.sum_cons,
        List.map_map, ih]
      congr 1
      · unfold Dict.sum
        rw [List.map_map]
        have := inner r 0 (fun j => f (s, j))
        simp only [Function.comp_def] at this ⊢
        rw [this]; simp
      · simp [Function.comp_def, add_assoc, add_comm 1]
  have := outer rows 0
  simpa using this

theorem sum_linOfList (l : List ℚ) (f : Nat → ℚ) :
    Dict.sum (linOfList l) f = ((List.range l.length).map fun i => l.getD i 0 * f i).sum := by
  unfold linOfList
  rw [Dict.sum_filter_ne]
  have inner : ∀ (r : List ℚ) (s : Nat),
      Dict.sum ((r.zipIdx s).map fun p => (p.2, p.1)) f
        = ((List.range r.length).map fun j => r.getD j 0 * f (s + j)).sum := by
    intro r
    induction r with
    | nil => simp
    | cons a r ih =>
      intro s
      rw [List.length_cons, List.range_succ_eq_map]
      simp only [List.zipIdx_cons, List.map_cons, List.sum_cons, List.map_map, Dict.sum_cons, ih]
      simp [Function.comp_def, add_assoc, add_comm 1]
  have := inner l 0
  simpa using this

theorem LinExpr.evaluate_ok {e : LinExpr} {x : List ℚ} (h : x.length = e.n) :
    e.evaluate x = .ok (e.val (pt x)) := by simp [LinExpr.evaluate, h]

theorem QuadExpr.evaluate_ok {e : QuadExpr} {x : List ℚ} (h : x.length = e.n) :
    e.evaluate x = .ok (e.val (pt x)) := by simp [QuadExpr.evaluate, h]

theorem Objective.evaluate_ok {o : Objective} {x : List ℚ} (h : x.length = o.linear.n)
    (h' : x.length = o.quadratic.n) : o.evaluate x = .ok (o.val (pt x)) := by
  simp [Objective.evaluate, LinExpr.evaluate_ok h, QuadExpr.evaluate_ok h', Objective.val]

end Verif
