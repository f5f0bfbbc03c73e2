import Verif.WarmStart
import Verif.ResultLemmas
import Verif.DictLemmas
import Mathlib.Tactic.FieldSimp
import Mathlib.Tactic.Ring

/-!
# Lemmas about the aggregation of warm-start results
-/

namespace Verif

/-- All coordinates are single decimal digits. -/
def Digits (x : List ℚ) : Prop := ∀ v ∈ x, ∃ d : Nat, d < 10 ∧ v = d

theorem digit_str : ∀ d : Fin 10, (toString (pyInt ((d : Nat) : ℚ))).toList = [Char.ofNat (48 + d)] := by
  decide +kernel

theorem digit_char : ∀ d : Fin 10, (Char.ofNat (48 + d)).isDigit = true ∧ (Char.ofNat (48 + d)).toNat - 48 = d := by
  decide +kernel

theorem digits_key {x : List ℚ} (h : Digits x) : digitsOf (stateKey x).toList = .ok x := by
  unfold stateKey
  rw [String.toList_join]
  induction x with
  | nil => rfl
  | cons v l ih =>
    obtain ⟨d, hd, rfl⟩ := h v (by simp)
    have h1 := digit_str ⟨d, hd⟩
    have h2 := digit_char ⟨d, hd⟩
    simp only at h1 h2
    rw [List.map_cons, List.flatMap_cons, h1, List.singleton_append, digitsOf, if_pos h2.1,
      ih fun w hw => h w (by simp [hw]), h2.2]

theorem stateKey_inj {x y : List ℚ} (hx : Digits x) (hy : Digits y) (h : stateKey x = stateKey y) : x = y := by
  have h1 := digits_key hx
  rw [h, digits_key hy, Except.ok.injEq] at h1
  exact h1.symm

/-- The probabilities stored in the dictionary. -/
def probs (d : Assoc String (ℚ × ℚ)) : Dict String := d.map fun e => (e.1, e.2.2)

theorem probs_set (d : Assoc String (ℚ × ℚ)) (k : String) (v : ℚ × ℚ) :
    probs (Assoc.set d k v) = Assoc.set (probs d) k v.2 := by
  induction d with
  | nil => rfl
  | cons e d ih =>
    obtain ⟨k', w⟩ := e
    simp only [Assoc.set, probs, List.map_cons]
    by_cases hk : k' = k
    · simp [hk]
    · simpa [hk, probs] using ih

theorem probs_get (d : Assoc String (ℚ × ℚ)) (k : String) :
    Assoc.get? (probs d) k = (Assoc.get? d k).map Prod.snd := by
  induction d with
  | nil => rfl
  | cons e d ih =>
    obtain ⟨k', w⟩ := e
    simp only [Assoc.get?, probs, List.map_cons]
    by_cases hk : k' = k
    · simp [hk]
    · simpa [hk, probs] using ih

theorem addSample_eq (d : Assoc String (ℚ × ℚ)) (s : Sample) :
    addSample d s = Assoc.set d (stateKey s.x) (s.fval, Dict.get (probs d) (stateKey s.x) + s.probability) := by
  unfold addSample Dict.get
  rw [probs_get]
  cases h : Assoc.get? d (stateKey s.x) <;> simp

theorem probs_addSample (d : Assoc String (ℚ × ℚ)) (s : Sample) :
    probs (addSample d s) = Dict.add (probs d) (stateKey s.x) s.probability := by
  rw [addSample_eq, probs_set]; rfl

/-- What the summation loop does to the dictionary. -/
theorem foldl_addSample (ss : List Sample) (d : Assoc String (ℚ × ℚ)) (hn : (Assoc.keys d).Nodup) :
    (Assoc.keys (ss.foldl addSample d)).Nodup ∧
    (∀ k, k ∈ Assoc.keys (ss.foldl addSample d) ↔ k ∈ Assoc.keys d ∨ ∃ s ∈ ss, stateKey s.x = k) ∧
    (∀ k, Dict.get (probs (ss.foldl addSample d)) k = Dict.get (probs d) k +
      ((ss.filter fun s => stateKey s.x = k).map Sample.probability).sum) ∧
    (∀ e ∈ ss.foldl addSample d, e ∈ d ∨ ∃ s ∈ ss, stateKey s.x = e.1 ∧ s.fval = e.2.1) ∧
    Dict.sum (probs (ss.foldl addSample d)) (fun _ => 1) =
      Dict.sum (probs d) (fun _ => 1) + (ss.map Sample.probability).sum := by
  induction ss generalizing d with
  | nil => exact ⟨hn, by simp, by simp, by simp, by simp⟩
  | cons s l ih =>
    have hn' : (Assoc.keys (addSample d s)).Nodup := by
      rw [addSample_eq]; exact Assoc.nodup_keys_set hn _ _
    obtain ⟨a, b, c, e, f⟩ := ih (addSample d s) hn'
    refine ⟨a, ?_, ?_, ?_, ?_⟩
    · intro k
      rw [List.foldl_cons, b, addSample_eq, Assoc.mem_keys_set]
      constructor
      · rintro ((h | h) | ⟨t, ht, h⟩)
        · first
          | exact Or.inr ⟨s, by simp, h.symm⟩
          | exact Or.inl h
        · first
          | exact Or.inr ⟨s, by simp, h.symm⟩
          | exact Or.inl h
        · exact Or.inr ⟨t, by simp [ht], h⟩
      · rintro (h | ⟨t, ht, h⟩)
        · exact Or.inl (by tauto)
        · rcases List.mem_cons.mp ht with rfl | ht
          · exact Or.inl (by subst h; tauto)
          · exact Or.inr ⟨t, ht, h⟩
    · intro k
      rw [List.foldl_cons, c, probs_addSample, Dict.add, Dict.get_set, List.filter_cons]
      by_cases hk : stateKey s.x = k
      · subst hk; simp; ring
      · have hk' : ¬ k = stateKey s.x := fun h => hk h.symm
        simp [hk, hk']
    · intro q hq
      rw [List.foldl_cons] at hq
      rcases e q hq with h | ⟨t, ht, h⟩
      · rw [addSample_eq] at h
        rcases Assoc.mem_set h with h | h
        · exact Or.inr ⟨s, by simp, by rw [h], by rw [h]⟩
        · exact Or.inl h
      · exact Or.inr ⟨t, by simp [ht], h⟩
    · rw [List.foldl_cons, f, probs_addSample, Dict.sum_add, List.map_cons, List.sum_cons]
      ring

theorem sumResults_eq {results : List Result} (h : ∀ r ∈ results, r.samples ≠ []) (d : Assoc String (ℚ × ℚ)) :
    sumResults results d = .ok ((results.flatMap Result.samples).foldl addSample d) := by
  induction results generalizing d with
  | nil => rfl
  | cons r l ih =>
    have hr := h r (by simp)
    rw [sumResults, Result.sampleList, if_pos hr]
    simp only
    rw [ih fun r hr => h r (by simp [hr]), List.flatMap_cons, List.foldl_append]

theorem meanSamples_ok {num : Nat} {d : Assoc String (ℚ × ℚ)}
    (h : ∀ e ∈ d, ∃ x, digitsOf e.1.toList = .ok x) : ∃ out, meanSamples num d = .ok out := by
  induction d with
  | nil => exact ⟨[], rfl⟩
  | cons e d ih =>
    obtain ⟨x, hx⟩ := h e (by simp)
    obtain ⟨out, ho⟩ := ih fun e he => h e (by simp [he])
    exact ⟨_, by simp only [meanSamples, hx, ho]; rfl⟩

theorem meanSamples_inv {num : Nat} {d : Assoc String (ℚ × ℚ)} {out : List Sample}
    (h : meanSamples num d = .ok out) :
    List.Forall₂ (fun (e : String × ℚ × ℚ) (o : Sample) => digitsOf e.1.toList = .ok o.x ∧ o.fval = e.2.1 ∧
      o.probability = e.2.2 / (num : ℚ)) d out := by
  induction d generalizing out with
  | nil => simp only [meanSamples, Except.ok.injEq] at h; subst h; exact .nil
  | cons e d ih =>
    obtain ⟨k, v⟩ := e
    simp only [meanSamples] at h
    cases h1 : digitsOf k.toList with
    | error e => simp [h1] at h
    | ok x =>
      cases h2 : meanSamples num d with
      | error e => simp [h1, h2] at h
      | ok r =>
        simp only [h1, h2, Except.ok.injEq] at h
        subst h
        exact .cons ⟨h1, rfl, rfl⟩ (ih h2)

theorem meanSamples_total {num : Nat} {d : Assoc String (ℚ × ℚ)} {out : List Sample}
    (h : meanSamples num d = .ok out) :
    (out.map Sample.probability).sum = Dict.sum (probs d) (fun _ => 1) / (num : ℚ) := by
  replace h := meanSamples_inv h
  induction h with
  | nil => simp [probs]
  | cons a _ ih =>
    rw [List.map_cons, List.sum_cons, ih, a.2.2]
    simp only [probs, List.map_cons, Dict.sum_cons]
    ring

/-- The aggregation of samples whose points have single-digit coordinates. -/
theorem meanAggregate_facts {results : List Result} (h0 : ∀ r ∈ results, r.samples ≠ [])
    (hd : ∀ r ∈ results, ∀ s ∈ r.samples, Digits s.x) :
    ∃ out, meanAggregate results = .ok out ∧ (out.map Sample.x).Nodup ∧
      (∀ x, x ∈ out.map Sample.x ↔ ∃ r ∈ results, ∃ s ∈ r.samples, s.x = x) ∧
      (∀ o ∈ out, o.probability = (((results.flatMap Result.samples).filter fun s => s.x = o.x).map
          Sample.probability).sum / (results.length : ℚ)) ∧
      (∀ o ∈ out, ∃ r ∈ results, ∃ s ∈ r.samples, s.x = o.x ∧ s.fval = o.fval) ∧
      (out.map Sample.probability).sum =
        ((results.flatMap Result.samples).map Sample.probability).sum / (results.length : ℚ) := by
  have hd' : ∀ s ∈ results.flatMap Result.samples, Digits s.x := by
    intro s hs
    obtain ⟨r, hr, hs⟩ := List.mem_flatMap.mp hs
    exact hd r hr s hs
  have hmem : ∀ P : Sample → Prop, (∃ r ∈ results, ∃ s ∈ r.samples, P s) ↔
      ∃ s ∈ results.flatMap Result.samples, P s := by
    intro P
    constructor
    · rintro ⟨r, hr, s, hs, h⟩
      exact ⟨s, List.mem_flatMap.mpr ⟨r, hr, hs⟩, h⟩
    · rintro ⟨s, hs, h⟩
      obtain ⟨r, hr, hs⟩ := List.mem_flatMap.mp hs
      exact ⟨r, hr, s, hs, h⟩
  obtain ⟨a, b, c, e, f⟩ := foldl_addSample (results.flatMap Result.samples) [] (by simp [Assoc.keys])
  have hs := sumResults_eq h0 []
  generalize (results.flatMap Result.samples) = ss at *
  generalize ss.foldl addSample [] = d at *
  have hkey : ∀ q ∈ d, ∃ s ∈ ss, stateKey s.x = q.1 ∧ s.fval = q.2.1 := by
    intro q hq
    rcases e q hq with h | h
    · simp at h
    · exact h
  obtain ⟨out, ho⟩ := meanSamples_ok (num := results.length) (d := d) (by
    intro q hq
    obtain ⟨s, hs, h, _⟩ := hkey q hq
    exact ⟨s.x, h ▸ digits_key (hd' s hs)⟩)
  have hf := meanSamples_inv ho
  have hx : ∀ q ∈ d, ∀ o : Sample, digitsOf q.1.toList = .ok o.x → q.1 = stateKey o.x ∧ Digits o.x := by
    intro q hq o h
    obtain ⟨s, hs, h', _⟩ := hkey q hq
    rw [← h', digits_key (hd' s hs), Except.ok.injEq] at h
    rw [← h, h']
    exact ⟨rfl, hd' s hs⟩
  have hkeys : ∀ (d : Assoc String (ℚ × ℚ)) (out : List Sample),
      List.Forall₂ (fun (e : String × ℚ × ℚ) (o : Sample) => digitsOf e.1.toList = .ok o.x ∧ o.fval = e.2.1 ∧
        o.probability = e.2.2 / (results.length : ℚ)) d out →
      (∀ q ∈ d, ∀ o : Sample, digitsOf q.1.toList = .ok o.x → q.1 = stateKey o.x ∧ Digits o.x) →
      Assoc.keys d = out.map fun o => stateKey o.x := by
    intro d out h hx
    induction h with
    | nil => rfl
    | cons h _ ih =>
      simp only [Assoc.keys, List.map_cons] at *
      rw [ih fun q hq => hx q (by simp [hq]), (hx _ (by simp) _ h.1).1]
  have hk := hkeys d out hf hx
  have hdo : ∀ o ∈ out, Digits o.x := by
    intro o hm
    obtain ⟨q, hq, h⟩ := Forall₂.mem_right hf hm
    exact (hx q hq o h.1).2
  refine ⟨out, by simp only [meanAggregate, hs, ho], ?_, ?_, ?_, ?_, ?_⟩
  · rw [hk] at a
    have : out.map (fun o => stateKey o.x) = (out.map Sample.x).map stateKey := by simp
    rw [this] at a
    exact a.of_map _
  · intro x
    rw [hmem fun s => s.x = x]
    constructor
    · intro h
      obtain ⟨o, hm, rfl⟩ := List.mem_map.mp h
      obtain ⟨q, hq, h1⟩ := Forall₂.mem_right hf hm
      obtain ⟨s, hs, h2, _⟩ := hkey q hq
      exact ⟨s, hs, stateKey_inj (hd' s hs) (hdo o hm) (h2.trans (hx q hq o h1.1).1)⟩
    · rintro ⟨s, hs, rfl⟩
      have h1 : stateKey s.x ∈ Assoc.keys d := (b _).mpr (Or.inr ⟨s, hs, rfl⟩)
      rw [hk] at h1
      obtain ⟨o, hm, h1⟩ := List.mem_map.mp h1
      exact List.mem_map.mpr ⟨o, hm, stateKey_inj (hdo o hm) (hd' s hs) h1⟩
  · intro o hm
    obtain ⟨q, hq, h1, h2, h3⟩ := Forall₂.mem_right hf hm
    have h4 := c q.1
    rw [Dict.get, probs_get, Assoc.get?_of_mem a hq] at h4
    simp only [Option.map_some, Option.getD_some, probs, List.map_nil, Dict.get_nil, zero_add] at h4
    rw [h3, h4]
    congr 3
    apply List.filter_congr
    intro s hs
    simp only [decide_eq_decide]
    rw [(hx q hq o h1).1]
    exact ⟨fun h => stateKey_inj (hd' s hs) (hdo o hm) h, fun h => by rw [h]⟩
  · intro o hm
    obtain ⟨q, hq, h1, h2, h3⟩ := Forall₂.mem_right hf hm
    obtain ⟨s, hs, h4, h5⟩ := hkey q hq
    rw [hmem fun s => s.x = o.x ∧ s.fval = o.fval]
    exact ⟨s, hs, stateKey_inj (hd' s hs) (hdo o hm) (h4.trans (hx q hq o h1).1), h5.trans h2.symm⟩
  · rw [meanSamples_total ho, f]
    simp [probs]

end Verif
