import Verif.PropsGrover
import Verif.PropsDecode

/-!
# C57: what the samples of backends with shots carry instead
-/

namespace Verif

/-- The key register of an outcome of a backend: its last `n` characters, qubit 0 first. -/
def outcomeKey (n : Nat) (s : String) : List Char := s.toList.reverse.take n

/-- The outcomes that are the last ones with their key. -/
def lastOutcomes (n : Nat) : List (String × ℚ) → List (String × ℚ)
  | [] => []
  | q :: l => if outcomeKey n q.1 ∈ l.map (fun r => outcomeKey n r.1) then lastOutcomes n l else q :: lastOutcomes n l

section
variable {κ β : Type} [DecidableEq κ]

theorem ofEntries_append (l : List (κ × β)) (p : κ × β) :
    Assoc.ofEntries (l ++ [p]) = Assoc.set (Assoc.ofEntries l) p.1 p.2 := by
  simp [Assoc.ofEntries, List.foldl_append]

theorem ofEntries_nodup (l : List (κ × β)) : (Assoc.keys (Assoc.ofEntries l)).Nodup := by
  induction l using List.reverseRecOn with
  | nil => simp [Assoc.ofEntries, Assoc.keys]
  | append_singleton l p ih => rw [ofEntries_append]; exact Assoc.nodup_keys_set ih _ _

theorem mem_keys_ofEntries (l : List (κ × β)) (k : κ) : k ∈ Assoc.keys (Assoc.ofEntries l) ↔ k ∈ l.map Prod.fst := by
  induction l using List.reverseRecOn with
  | nil => simp [Assoc.ofEntries, Assoc.keys]
  | append_singleton l p ih =>
    rw [ofEntries_append, Assoc.mem_keys_set, ih]
    simp only [List.map_append, List.map_cons, List.map_nil, List.mem_append, List.mem_singleton]

theorem ofEntries_nodup_eq (l : List (κ × β)) (h : (l.map Prod.fst).Nodup) : Assoc.ofEntries l = l := by
  induction l using List.reverseRecOn with
  | nil => rfl
  | append_singleton l p ih =>
    rw [List.map_append, List.map_cons, List.map_nil, List.nodup_append] at h
    have ih := ih h.1
    have hp : p.1 ∉ Assoc.keys l := fun hm => h.2.2 _ hm _ (by simp) rfl
    rw [ofEntries_append, ih, Assoc.set_of_not_mem hp]

/-- The value stored for a key is the one of the last entry. -/
theorem get?_ofEntries_append (l : List (κ × β)) (m : List (κ × β)) (k : κ) (h : k ∉ m.map Prod.fst) :
    Assoc.get? (Assoc.ofEntries (l ++ m)) k = Assoc.get? (Assoc.ofEntries l) k := by
  induction m using List.reverseRecOn with
  | nil => simp
  | append_singleton m p ih =>
    simp only [List.map_append, List.map_cons, List.map_nil, List.mem_append, List.mem_singleton, not_or] at h
    rw [← List.append_assoc, ofEntries_append, Assoc.get?_set, if_neg (Ne.symm h.2), ih h.1]
end

theorem mem_lastOutcomes (n : Nat) (d : List (String × ℚ)) (q : String × ℚ) :
    q ∈ lastOutcomes n d ↔ ∃ l m, d = l ++ q :: m ∧ outcomeKey n q.1 ∉ m.map fun r => outcomeKey n r.1 := by
  induction d with
  | nil => simp [lastOutcomes]
  | cons p d ih =>
    have key : (∃ l m, p :: d = l ++ q :: m ∧ outcomeKey n q.1 ∉ m.map fun r => outcomeKey n r.1) ↔
        (p = q ∧ outcomeKey n q.1 ∉ d.map fun r => outcomeKey n r.1) ∨
          ∃ l m, d = l ++ q :: m ∧ outcomeKey n q.1 ∉ m.map fun r => outcomeKey n r.1 := by
      constructor
      · rintro ⟨l, m, h1, h2⟩
        cases l with
        | nil => simp only [List.nil_append, List.cons.injEq] at h1; exact .inl ⟨h1.1, h1.2 ▸ h2⟩
        | cons a l => simp only [List.cons_append, List.cons.injEq] at h1; exact .inr ⟨l, m, h1.2, h2⟩
      · rintro (⟨rfl, h⟩ | ⟨l, m, rfl, h⟩)
        · exact ⟨[], d, rfl, h⟩
        · exact ⟨p :: l, m, rfl, h⟩
    rw [key, ← ih, lastOutcomes]
    split
    · rename_i hm
      constructor
      · exact .inr
      · rintro (⟨rfl, h⟩ | h)
        · exact absurd hm h
        · exact h
    · rename_i hm
      rw [List.mem_cons]
      constructor
      · rintro (rfl | h)
        · exact .inl ⟨rfl, hm⟩
        · exact .inr h
      · rintro (⟨rfl, _⟩ | h)
        · exact .inl rfl
        · exact .inr h

theorem lastOutcomes_keys (n : Nat) (d : List (String × ℚ)) : ((lastOutcomes n d).map fun q => outcomeKey n q.1).Nodup := by
  induction d with
  | nil => simp [lastOutcomes]
  | cons p d ih =>
    rw [lastOutcomes]
    split
    · exact ih
    · rename_i hm
      rw [List.map_cons, List.nodup_cons]
      refine ⟨fun h => hm ?_, ih⟩
      obtain ⟨r, hr, he⟩ := List.mem_map.mp h
      obtain ⟨l, m, rfl, _⟩ := (mem_lastOutcomes n d r).mp hr
      exact List.mem_map.mpr ⟨r, by simp, he⟩

/-- The dictionary `truncated` of `groverRaw` has the entries of the last outcomes, in some order. -/
theorem truncated_perm (sqrt : ℚ → ℚ) (n : Nat) (shots : ℚ) (d : List (String × ℚ)) (hk : (d.map Prod.fst).Nodup) :
    let results : Assoc (List Char) ℚ := Assoc.ofEntries (d.map fun q => (q.1.toList.reverse, sqrt (q.2 / shots)))
    List.Perm (Assoc.ofEntries (results.map fun q => (q.1.take n, q.2)) : Assoc (List Char) ℚ)
      ((lastOutcomes n d).map fun q => (outcomeKey n q.1, sqrt (q.2 / shots))) := by
  intro results
  have hres : results = d.map fun q => (q.1.toList.reverse, sqrt (q.2 / shots)) := by
    apply ofEntries_nodup_eq
    rw [List.map_map]
    have : (d.map (Prod.fst ∘ fun q => (q.1.toList.reverse, sqrt (q.2 / shots)))) =
        (d.map Prod.fst).map fun s => s.toList.reverse := by simp [Function.comp_def]
    rw [this]
    apply hk.map
    intro a b hab
    exact String.toList_inj.mp (List.reverse_injective hab)
  rw [hres, List.map_map]
  have hent : (d.map ((fun q : List Char × ℚ => (q.1.take n, q.2)) ∘ fun q => (q.1.toList.reverse, sqrt (q.2 / shots)))) =
      d.map fun q => (outcomeKey n q.1, sqrt (q.2 / shots)) := rfl
  rw [hent]
  have hnd1 := ofEntries_nodup (d.map fun q => (outcomeKey n q.1, sqrt (q.2 / shots)))
  have hnd2 := lastOutcomes_keys n d
  rw [List.perm_ext_iff_of_nodup (List.Nodup.of_map _ hnd1) (List.Nodup.of_map Prod.fst (by simpa [Function.comp_def] using hnd2))]
  rintro ⟨k, v⟩
  have hlast : ∀ q ∈ lastOutcomes n d, Assoc.get? (Assoc.ofEntries (d.map fun q => (outcomeKey n q.1, sqrt (q.2 / shots))))
      (outcomeKey n q.1) = some (sqrt (q.2 / shots)) := by
    intro q hq
    obtain ⟨l, m, rfl, hm⟩ := (mem_lastOutcomes n d q).mp hq
    have he : ((l ++ q :: m).map fun q => (outcomeKey n q.1, sqrt (q.2 / shots))) =
        ((l.map fun q => (outcomeKey n q.1, sqrt (q.2 / shots))) ++ [(outcomeKey n q.1, sqrt (q.2 / shots))]) ++
          m.map fun q => (outcomeKey n q.1, sqrt (q.2 / shots)) := by simp
    rw [he, get?_ofEntries_append _ _ _ (by simpa [Function.comp_def] using hm), ofEntries_append, Assoc.get?_set, if_pos rfl]
  have hex : ∀ d : List (String × ℚ), ∀ k ∈ d.map (fun q => outcomeKey n q.1), ∃ q ∈ lastOutcomes n d, outcomeKey n q.1 = k := by
    intro d
    induction d with
    | nil => simp
    | cons p d ih =>
      intro k hk
      rw [lastOutcomes]
      rw [List.map_cons, List.mem_cons] at hk
      split
      · rename_i hm
        rcases hk with rfl | hk
        · exact ih _ hm
        · exact ih _ hk
      · rcases hk with rfl | hk
        · exact ⟨p, by simp, rfl⟩
        · obtain ⟨q, hq, he⟩ := ih _ hk
          exact ⟨q, by simp [hq], he⟩
  constructor
  · intro h
    have hg := Assoc.get?_of_mem hnd1 h
    have hkm := (mem_keys_ofEntries _ k).mp (List.mem_map_of_mem h)
    rw [List.map_map] at hkm
    obtain ⟨q, hq, rfl⟩ := hex d k hkm
    rw [hlast q hq] at hg
    exact List.mem_map.mpr ⟨q, hq, by simpa using hg⟩
  · intro h
    obtain ⟨q, hq, he⟩ := List.mem_map.mp h
    simp only [Prod.mk.injEq] at he
    obtain ⟨rfl, rfl⟩ := he
    exact Assoc.get?_mem (hlast q hq)

/-- **C57, backends with shots**: what the samples carry instead.  For outcomes that are strings of at least `n` bits, the
samples are exactly the keys measured, each with its value in the converted problem; but the probability is the square root of
the relative frequency of the *last* outcome with this key in the dictionary of the backend, divided by the sum of these
square roots (keys below 1e-6 are left out). -/
theorem C57_counts (sqrt : ℚ → ℚ) (qubo : QP) (n : Nat) (h1 : qubo.objective.linear.n = n)
    (h2 : qubo.objective.quadratic.n = n) (shots : ℚ) (d : List (String × ℚ)) (hk : (d.map Prod.fst).Nodup)
    (hd : ∀ q ∈ d, n ≤ q.1.toList.length ∧ ∀ c ∈ q.1.toList, c = '0' ∨ c = '1')
    (ht : ((lastOutcomes n d).map fun q => sqrt (q.2 / shots)).sum ≠ 0) :
    ∃ raw, groverRaw sqrt qubo n (.counts shots d) = .ok raw ∧ (raw.map Sample.x).Nodup ∧
      ∀ s, s ∈ raw ↔ ∃ q ∈ lastOutcomes n d,
        1 / 10 ^ 6 ≤ sqrt (q.2 / shots) / ((lastOutcomes n d).map fun q => sqrt (q.2 / shots)).sum ∧
        s.x = (outcomeKey n q.1).map (fun c => if c = '1' then 1 else 0) ∧ s.fval = qubo.objective.val (pt s.x) ∧
        s.probability = sqrt (q.2 / shots) / ((lastOutcomes n d).map fun q => sqrt (q.2 / shots)).sum ∧
        s.status = .success := by
  have hp := truncated_perm sqrt n shots d hk
  simp only at hp
  simp only [groverRaw]
  generalize hT : (Assoc.ofEntries ((Assoc.ofEntries (d.map fun q => (q.1.toList.reverse, sqrt (q.2 / shots)))).map
    fun q => (q.1.take n, q.2)) : Assoc (List Char) ℚ) = T at hp ⊢
  have hsum : ((T.map fun q => (String.ofList q.1, q.2)).map Prod.snd).sum =
      ((lastOutcomes n d).map fun q => sqrt (q.2 / shots)).sum := by
    rw [List.map_map]
    have := (hp.map Prod.snd).sum_eq
    rw [List.map_map] at this
    exact this
  have hkeys : ∀ q ∈ T, q.1.length = n ∧ ∀ c ∈ q.1, c = '0' ∨ c = '1' := by
    intro q hq
    obtain ⟨r, hr, rfl⟩ := List.mem_map.mp (hp.mem_iff.mp hq)
    obtain ⟨l, m, rfl, _⟩ := (mem_lastOutcomes n d r).mp hr
    obtain ⟨a, b⟩ := hd r (by simp)
    refine ⟨?_, fun c hc => b c ?_⟩
    · simp only [outcomeKey, List.length_take, List.length_reverse]; omega
    · exact List.mem_reverse.mp (List.mem_of_mem_take hc)
  obtain ⟨raw, hr1, hr2, hr3⟩ := C27_counts qubo n h1 h2 (1 / 10 ^ 6) (T.map fun q => (String.ofList q.1, q.2))
    (by
      rw [List.map_map]
      have h3 : (T.map Prod.fst).Nodup := by rw [← hT]; exact ofEntries_nodup _
      have h4 : T.map (Prod.fst ∘ fun q => (String.ofList q.1, q.2)) = (T.map Prod.fst).map String.ofList := by
        simp [Function.comp_def]
      rw [h4]
      apply h3.map
      intro a b hab
      have := congrArg String.toList hab
      simpa using this)
    (by
      intro q hq
      obtain ⟨r, hr, rfl⟩ := List.mem_map.mp hq
      simpa using hkeys r hr)
    (by rw [hsum]; exact ht)
  refine ⟨raw, hr1, hr2, fun s => ?_⟩
  rw [hr3, hsum]
  constructor
  · rintro ⟨q, hq, e1, e2, e3, e4, e5⟩
    obtain ⟨r, hr, rfl⟩ := List.mem_map.mp hq
    obtain ⟨w, hw, rfl⟩ := List.mem_map.mp (hp.mem_iff.mp hr)
    exact ⟨w, hw, e1, by simpa using e2, e3, e4, e5⟩
  · rintro ⟨w, hw, e1, e2, e3, e4, e5⟩
    refine ⟨(String.ofList (outcomeKey n w.1), sqrt (w.2 / shots)), ?_, e1, by simpa using e2, e3, e4, e5⟩
    exact List.mem_map.mpr ⟨(outcomeKey n w.1, sqrt (w.2 / shots)),
      hp.mem_iff.mpr (List.mem_map.mpr ⟨w, hw, rfl⟩), rfl⟩

/-- The outcomes of `C57_violated_merge`: the entry of `10` is overwritten by the one of `00`. -/
example : lastOutcomes 1 [("10", 36), ("00", 4), ("11", 9)] = [("00", 4), ("11", 9)] ∧
    ((lastOutcomes 1 [("10", 36), ("00", 4), ("11", 9)]).map fun q => Rat.sqrt (q.2 / 49)).sum = 5 / 7 := by decide +kernel

end Verif
