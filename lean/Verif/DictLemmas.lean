import Verif.Dict

/-! Helper lemmas on association lists (not property statements). -/

namespace Verif
namespace Assoc
variable {κ β : Type} [DecidableEq κ]

@[simp] theorem get?_nil (k : κ) : get? ([] : Assoc κ β) k = none := rfl

theorem get?_cons (p : κ × β) (d : Assoc κ β) (k : κ) :
    get? (p :: d) k = if p.1 = k then some p.2 else get? d k := rfl

theorem get?_set (d : Assoc κ β) (k k' : κ) (v : β) :
    get? (set d k v) k' = if k = k' then some v else get? d k' := by
  induction d with
  | nil => simp [set, get?]
  | cons p d ih =>
    obtain ⟨a, b⟩ := p
    by_cases h : a = k
    · subst h
      by_cases h2 : a = k' <;> simp [set, get?, h2]
    · simp only [set, h, if_false, get?, ih]
      by_cases h2 : a = k'
      · subst h2
        simp [Ne.symm h]
      · simp [h2]

theorem mem_keys_iff {d : Assoc κ β} {k : κ} : k ∈ keys d ↔ (get? d k).isSome := by
  induction d with
  | nil => simp [keys]
  | cons p d ih =>
    simp only [keys, List.map_cons, List.mem_cons, get?_cons] at *
    by_cases h : p.1 = k
    · simp [h]
    · simp [h, Ne.symm h, ih]

theorem has_iff {d : Assoc κ β} {k : κ} : has d k = true ↔ k ∈ keys d := by
  simp [has, mem_keys_iff]

theorem get?_mem {d : Assoc κ β} {k : κ} {v : β} (h : get? d k = some v) : (k, v) ∈ d := by
  induction d with
  | nil => simp at h
  | cons p d ih =>
    rw [get?_cons] at h
    by_cases h2 : p.1 = k
    · simp [h2] at h
      subst h; subst h2; simp
    · simp [h2] at h
      exact List.mem_cons_of_mem _ (ih h)

theorem get?_of_mem {d : Assoc κ β} (hd : (keys d).Nodup) {k : κ} {v : β} (h : (k, v) ∈ d) :
    get? d k = some v := by
  induction d with
  | nil => simp at h
  | cons p d ih =>
    simp only [keys, List.map_cons, List.nodup_cons] at hd
    rw [get?_cons]
    rcases List.mem_cons.1 h with h | h
    · subst h; simp
    · have : p.1 ≠ k := by
        rintro rfl
        exact hd.1 (List.mem_map.2 ⟨_, h, rfl⟩)
      simp [this, ih hd.2 h]

theorem keys_set_of_mem {d : Assoc κ β} {k : κ} (h : k ∈ keys d) (v : β) :
    keys (set d k v) = keys d := by
  induction d with
  | nil => simp [keys] at h
  | cons p d ih =>
    obtain ⟨a, b⟩ := p
    by_cases h2 : a = k
    · simp [set, h2, keys]
    · have : k ∈ keys d := by
        simp only [keys, List.map_cons, List.mem_cons] at h
        exact h.resolve_left (Ne.symm h2)
      have := ih this
      simp only [keys] at this
      simp [set, h2, keys, this]

theorem set_of_not_mem {d : Assoc κ β} {k : κ} (h : k ∉ keys d) (v : β) :
    set d k v = d ++ [(k, v)] := by
  induction d with
  | nil => simp [set]
  | cons p d ih =>
    obtain ⟨a, b⟩ := p
    simp only [keys, List.map_cons, List.mem_cons, not_or] at h
    simp only [set, Ne.symm h.1, if_false, List.cons_append]
    rw [ih h.2]

theorem keys_set (d : Assoc κ β) (k : κ) (v : β) :
    keys (set d k v) = if k ∈ keys d then keys d else keys d ++ [k] := by
  by_cases h : k ∈ keys d
  · simp [h, keys_set_of_mem h]
  · rw [set_of_not_mem h]; simp [keys, h] at *; simp [h]

theorem nodup_keys_set {d : Assoc κ β} (hd : (keys d).Nodup) (k : κ) (v : β) :
    (keys (set d k v)).Nodup := by
  rw [keys_set]
  by_cases h : k ∈ keys d
  · simp [h, hd]
  · rw [if_neg h]
    refine List.nodup_append.2 ⟨hd, by simp, ?_⟩
    intro a ha b hb
    simp at hb; subst hb
    rintro rfl; exact h ha

theorem mem_keys_set {d : Assoc κ β} {k k' : κ} {v : β} :
    k' ∈ keys (set d k v) ↔ k' ∈ keys d ∨ k' = k := by
  rw [keys_set]
  by_cases h : k ∈ keys d
  · simp only [h, if_true]
    constructor
    · exact Or.inl
    · rintro (h' | rfl) <;> assumption
  · simp [h]

theorem erase_sublist (d : Assoc κ β) (k : κ) : (erase d k).Sublist d := by
  induction d with
  | nil => simp [erase]
  | cons p d ih =>
    obtain ⟨a, b⟩ := p
    by_cases h : a = k
    · simp [erase, h]
    · simp [erase, h, ih]

theorem keys_erase_sublist (d : Assoc κ β) (k : κ) : (keys (erase d k)).Sublist (keys d) :=
  (erase_sublist d k).map _

theorem nodup_keys_erase {d : Assoc κ β} (hd : (keys d).Nodup) (k : κ) :
    (keys (erase d k)).Nodup := hd.sublist (keys_erase_sublist d k)

theorem not_mem_keys_erase {d : Assoc κ β} (hd : (keys d).Nodup) (k : κ) :
    k ∉ keys (erase d k) := by
  induction d with
  | nil => simp [erase, keys]
  | cons p d ih =>
    obtain ⟨a, b⟩ := p
    simp only [keys, List.map_cons, List.nodup_cons] at hd
    by_cases h : a = k
    · subst h; simpa [erase, keys] using hd.1
    · have := ih hd.2
      simp only [keys] at this
      simp only [erase, h, if_false, keys, List.map_cons, List.mem_cons, not_or]
      exact ⟨Ne.symm h, this⟩

theorem mem_set {d : Assoc κ β} {k : κ} {v : β} {p : κ × β} (h : p ∈ set d k v) :
    p = (k, v) ∨ p ∈ d := by
  induction d with
  | nil => simp [set] at h; exact Or.inl h
  | cons q d ih =>
    obtain ⟨a, b⟩ := q
    by_cases h2 : a = k
    · subst h2
      simp only [set, if_true, List.mem_cons] at h
      rcases h with h | h
      · exact Or.inl h
      · exact Or.inr (List.mem_cons_of_mem _ h)
    · simp only [set, h2, if_false, List.mem_cons] at h
      rcases h with h | h
      · exact Or.inr (by rw [h]; simp)
      · rcases ih h with h | h
        · exact Or.inl h
        · exact Or.inr (List.mem_cons_of_mem _ h)

end Assoc

namespace Dict
variable {κ : Type} [DecidableEq κ]

@[simp] theorem sum_nil (f : κ → ℚ) : sum ([] : Dict κ) f = 0 := rfl
@[simp] theorem sum_cons (p : κ × ℚ) (d : Dict κ) (f : κ → ℚ) :
    sum (p :: d) f = p.2 * f p.1 + sum d f := by simp [sum]
@[simp] theorem sum_append (d e : Dict κ) (f : κ → ℚ) : sum (d ++ e) f = sum d f + sum e f := by
  simp [sum]

@[simp] theorem get_nil (k : κ) : get ([] : Dict κ) k = 0 := rfl
theorem get_cons (p : κ × ℚ) (d : Dict κ) (k : κ) :
    get (p :: d) k = if p.1 = k then p.2 else get d k := by
  unfold get; rw [Assoc.get?_cons]; split <;> simp

theorem sum_set (d : Dict κ) (k : κ) (v : ℚ) (f : κ → ℚ) :
    sum (Assoc.set d k v) f = sum d f + (v - get d k) * f k := by
  induction d with
  | nil => simp [Assoc.set]
  | cons p d ih =>
    obtain ⟨a, b⟩ := p
    by_cases h : a = k
    · subst h; simp [Assoc.set, get_cons]; ring
    · simp [Assoc.set, h, get_cons, ih]; ring

theorem sum_add (d : Dict κ) (k : κ) (v : ℚ) (f : κ → ℚ) :
    sum (add d k v) f = sum d f + v * f k := by
  rw [add, sum_set]; ring

theorem sum_erase (d : Dict κ) (k : κ) (f : κ → ℚ) :
    sum (Assoc.erase d k) f = sum d f - get d k * f k := by
  induction d with
  | nil => simp [Assoc.erase]
  | cons p d ih =>
    obtain ⟨a, b⟩ := p
    by_cases h : a = k
    · subst h; simp [Assoc.erase, get_cons]
    · simp [Assoc.erase, h, get_cons, ih]; ring

theorem sum_dokSet (d : Dict κ) (k : κ) (v : ℚ) (f : κ → ℚ) :
    sum (dokSet d k v) f = sum d f + (v - get d k) * f k := by
  unfold dokSet
  split
  · next h => subst h; rw [sum_erase]; ring
  · rw [sum_set]

theorem sum_set_of_not_mem {d : Dict κ} {k : κ} (h : k ∉ Assoc.keys d) (v : ℚ) (f : κ → ℚ) :
    sum (Assoc.set d k v) f = sum d f + v * f k := by
  rw [Assoc.set_of_not_mem h]; simp

theorem sum_congr {d : Dict κ} {f g : κ → ℚ} (h : ∀ k ∈ Assoc.keys d, f k = g k) :
    sum d f = sum d g := by
  induction d with
  | nil => rfl
  | cons p d ih =>
    simp only [Assoc.keys, List.map_cons, List.mem_cons, forall_eq_or_imp] at h
    simp only [sum_cons, h.1]
    rw [ih]
    simpa [Assoc.keys] using h.2

theorem sum_add_fun (d : Dict κ) (f g : κ → ℚ) :
    sum d (fun k => f k + g k) = sum d f + sum d g := by
  induction d with
  | nil => simp
  | cons p d ih => simp [ih]; ring

theorem sum_mul_fun (d : Dict κ) (f : κ → ℚ) (c : ℚ) :
    sum d (fun k => c * f k) = c * sum d f := by
  induction d with
  | nil => simp
  | cons p d ih => simp [ih]; ring

theorem sum_eq_zero_of_get (d : Dict κ) (f : κ → ℚ) (h : ∀ p ∈ d, p.2 = 0 ∨ f p.1 = 0) :
    sum d f = 0 := by
  induction d with
  | nil => rfl
  | cons p d ih =>
    simp only [List.mem_cons, forall_eq_or_imp] at h
    rw [sum_cons, ih h.2]
    rcases h.1 with h | h <;> simp [h]

theorem get_set (d : Dict κ) (k k' : κ) (v : ℚ) :
    get (Assoc.set d k v) k' = if k = k' then v else get d k' := by
  unfold get; rw [Assoc.get?_set]; split <;> simp

theorem get_eq_zero_of_not_mem {d : Dict κ} {k : κ} (h : k ∉ Assoc.keys d) : get d k = 0 := by
  unfold get
  rw [Assoc.mem_keys_iff] at h
  simp at h; simp [h]

theorem get_erase {d : Dict κ} (hd : (Assoc.keys d).Nodup) (k k' : κ) :
    get (Assoc.erase d k) k' = if k = k' then 0 else get d k' := by
  induction d with
  | nil => simp [Assoc.erase]
  | cons p d ih =>
    obtain ⟨a, b⟩ := p
    simp only [Assoc.keys, List.map_cons, List.nodup_cons] at hd
    have ih := ih hd.2
    by_cases h : a = k
    · subst h
      simp only [Assoc.erase, if_true, get_cons]
      by_cases h2 : a = k'
      · subst h2
        simp; exact get_eq_zero_of_not_mem hd.1
      · simp [h2]
    · simp only [Assoc.erase, h, if_false, get_cons, ih]
      by_cases h2 : k = k'
      · subst h2; simp [h]
      · simp [h2]

theorem get_dokSet {d : Dict κ} (hd : (Assoc.keys d).Nodup) (k k' : κ) (v : ℚ) :
    get (dokSet d k v) k' = if k = k' then v else get d k' := by
  unfold dokSet
  split
  · next h => subst h; rw [get_erase hd]
  · rw [get_set]

theorem nodup_dokSet {d : Dict κ} (hd : (Assoc.keys d).Nodup) (k : κ) (v : ℚ) :
    (Assoc.keys (dokSet d k v)).Nodup := by
  unfold dokSet
  split
  · exact Assoc.nodup_keys_erase hd k
  · exact Assoc.nodup_keys_set hd k v

theorem mem_keys_dokSet {d : Dict κ} {k k' : κ} {v : ℚ} (h : k' ∈ Assoc.keys (dokSet d k v)) :
    k' ∈ Assoc.keys d ∨ k' = k := by
  unfold dokSet at h
  split at h
  · exact Or.inl ((Assoc.keys_erase_sublist d k).subset h)
  · exact Assoc.mem_keys_set.1 h

end Dict
end Verif
