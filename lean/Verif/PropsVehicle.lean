import Verif.RouteLemmas
import Verif.PropsProgram

/-!
# C50: vehicle routing
-/

namespace Verif

/-- The edges of a route that leaves the depot, visits the given nodes in order and returns. -/
def closedRoute (depot : Nat) (nodes : List Nat) : List (Nat × Nat) := (depot :: nodes).zip (nodes ++ [depot])

/-- The edges of a path that begins at `s` and, after the given nodes, ends at the depot. -/
def pathFrom (depot s : Nat) (nodes : List Nat) : List (Nat × Nat) := (s :: nodes).zip (nodes ++ [depot])

theorem closedRoute_eq (depot : Nat) (nodes : List Nat) : closedRoute depot nodes = pathFrom depot depot nodes := rfl

theorem pathFrom_cons (depot s a : Nat) (nodes : List Nat) :
    pathFrom depot s (a :: nodes) = (s, a) :: pathFrom depot a nodes := rfl

theorem pathFrom_fst : ∀ (depot s : Nat) (nodes : List Nat), (pathFrom depot s nodes).map (·.1) = s :: nodes
  | _, _, [] => rfl
  | depot, s, a :: nodes => by rw [pathFrom_cons, List.map_cons, pathFrom_fst]

theorem pathFrom_snd : ∀ (depot s : Nat) (nodes : List Nat), (pathFrom depot s nodes).map (·.2) = nodes ++ [depot]
  | _, _, [] => rfl
  | depot, s, a :: nodes => by rw [pathFrom_cons, List.map_cons, pathFrom_snd]; rfl

theorem outDeg_eq (l : List (Nat × Nat)) (v : Nat) : outDeg l v = (l.map (·.1)).count v := by
  unfold outDeg
  rw [List.count, List.countP_map]
  rfl

theorem inDeg_eq (l : List (Nat × Nat)) (v : Nat) : inDeg l v = (l.map (·.2)).count v := by
  unfold inDeg
  rw [List.count, List.countP_map]
  rfl

theorem popEdge_some {s : Nat} : ∀ {l : List (Nat × Nat)}, 0 < outDeg l s →
    ∃ e l', popEdge s l = some (e, l') ∧ e.1 = s ∧ (e :: l').Perm l
  | [], h => by simp [outDeg] at h
  | a :: l, h => by
    by_cases ha : a.1 = s
    · exact ⟨a, l, by simp [popEdge, ha], ha, List.Perm.refl _⟩
    · have h' : 0 < outDeg l s := by
        unfold outDeg at h ⊢
        rwa [List.countP_cons_of_neg (by simp [ha])] at h
      obtain ⟨e, l', h1, h2, h3⟩ := popEdge_some h'
      exact ⟨e, a :: l', by simp [popEdge, ha, h1], h2, (List.Perm.swap a e l').trans (h3.cons a)⟩

/-- The condition on the remaining edges while a vehicle that started at the depot is at a node. -/
def Balanced (depot s : Nat) (l : List (Nat × Nat)) : Prop :=
  ∀ v, outDeg l v + (if v = depot then 1 else 0) = inDeg l v + (if v = s then 1 else 0)

theorem outDeg_perm {l l' : List (Nat × Nat)} (h : l.Perm l') (v : Nat) : outDeg l v = outDeg l' v := h.countP_eq _
theorem inDeg_perm {l l' : List (Nat × Nat)} (h : l.Perm l') (v : Nat) : inDeg l v = inDeg l' v := h.countP_eq _

theorem outDeg_cons (e : Nat × Nat) (l : List (Nat × Nat)) (v : Nat) :
    outDeg (e :: l) v = outDeg l v + if v = e.1 then 1 else 0 := by
  unfold outDeg
  rw [List.countP_cons]
  by_cases h : v = e.1
  · simp [h]
  · rw [if_neg h, if_neg (by simpa using Ne.symm h)]

theorem inDeg_cons (e : Nat × Nat) (l : List (Nat × Nat)) (v : Nat) :
    inDeg (e :: l) v = inDeg l v + if v = e.2 then 1 else 0 := by
  unfold inDeg
  rw [List.countP_cons]
  by_cases h : v = e.2
  · simp [h]
  · rw [if_neg h, if_neg (by simpa using Ne.symm h)]

theorem followRoute_spec {depot : Nat} : ∀ (m s : Nat) (l : List (Nat × Nat)), l.length ≤ m → Balanced depot s l →
    (s = depot → 0 < outDeg l depot) →
    ∃ nodes rest, followRoute depot m s l = (pathFrom depot s nodes, rest) ∧ depot ∉ nodes ∧
      (pathFrom depot s nodes ++ rest).Perm l ∧ Balanced depot depot rest
  | 0, s, l, hm, hb, hs => by
    have : l = [] := by simpa using hm
    subst this
    by_cases h : s = depot
    · have := hs h
      simp [outDeg] at this
    · have := hb s
      simp [outDeg, inDeg, h] at this
  | m + 1, s, l, hm, hb, hs => by
    have hout : 0 < outDeg l s := by
      by_cases h : s = depot
      · rw [h]; exact hs h
      · have := hb s
        rw [if_neg h, if_pos rfl] at this
        omega
    obtain ⟨e, l', hp, he, hperm⟩ := popEdge_some hout
    have hb' : Balanced depot e.2 l' := by
      intro v
      have h1 := hb v
      rw [← outDeg_perm hperm, ← inDeg_perm hperm, outDeg_cons, inDeg_cons, he] at h1
      omega
    have hlen : l'.length ≤ m := by
      have := hperm.length_eq
      rw [List.length_cons] at this
      omega
    by_cases hd : e.2 = depot
    · refine ⟨[], l', ?_, by simp, ?_, ?_⟩
      · simp only [followRoute, hp, hd, if_true]
        rw [← he, ← hd]
        rfl
      · have : pathFrom depot s [] = [e] := by rw [← he, ← hd]; rfl
        rw [this]
        exact hperm
      · rwa [hd] at hb'
    · obtain ⟨nodes, rest, h1, h2, h3, h4⟩ := followRoute_spec m e.2 l' hlen hb' fun h => absurd h hd
      refine ⟨e.2 :: nodes, rest, ?_, ?_, ?_, h4⟩
      · simp only [followRoute, hp, hd, if_false, h1]
        rw [pathFrom_cons, ← he]
      · simp only [List.mem_cons, not_or]
        exact ⟨fun h => hd h.symm, h2⟩
      · rw [pathFrom_cons, ← he]
        exact (h3.cons e).trans hperm

theorem closedRoute_out {depot : Nat} {nodes : List Nat} (h : depot ∉ nodes) : outDeg (closedRoute depot nodes) depot = 1 := by
  rw [outDeg_eq, closedRoute_eq, pathFrom_fst, List.count_cons_self, List.count_eq_zero_of_not_mem h]

theorem vehicleRoutes_spec {depot : Nat} : ∀ (k : Nat) (l : List (Nat × Nat)), Balanced depot depot l →
    outDeg l depot = k → ∃ (visits : List (List Nat)) (rest : List (Nat × Nat)), visits.length = k ∧
      (∀ v ∈ visits, depot ∉ v) ∧
      vehicleRoutes depot k l = visits.map (closedRoute depot) ++ (if rest = [] then [] else [rest]) ∧
      ((visits.map (closedRoute depot)).flatten ++ rest).Perm l ∧ Balanced depot depot rest ∧ outDeg rest depot = 0
  | 0, l, hb, h0 => ⟨[], l, rfl, by simp, by simp [vehicleRoutes], by simp, hb, h0⟩
  | k + 1, l, hb, hk => by
    obtain ⟨nodes, rest, h1, h2, h3, h4⟩ := followRoute_spec l.length depot l le_rfl hb fun _ => by omega
    rw [← closedRoute_eq] at h1 h3
    have hout : outDeg rest depot = k := by
      have := outDeg_perm h3 depot
      unfold outDeg at this hk
      rw [List.countP_append] at this
      have h5 := closedRoute_out h2
      unfold outDeg at h5 ⊢
      omega
    obtain ⟨visits, rest', g1, g2, g3, g4, g5, g6⟩ := vehicleRoutes_spec k rest h4 hout
    refine ⟨nodes :: visits, rest', by simp [g1], ?_, ?_, ?_, g5, g6⟩
    · intro v hv
      rcases List.mem_cons.mp hv with rfl | hv
      · exact h2
      · exact g2 v hv
    · simp only [vehicleRoutes, h1, g3, List.map_cons, List.cons_append]
    · rw [List.map_cons, List.flatten_cons, List.append_assoc]
      exact (g4.append_left _).trans h3

/-- No edges are left after the last vehicle: they would form a sub-route. -/
theorem rest_nil {n vehicles depot : Nat} {l rest used : List (Nat × Nat)} (hc : RouteCsts n vehicles depot l)
    (hl : ∀ e ∈ l, e.1 < n ∧ e.2 < n ∧ e.1 ≠ e.2) (hperm : (used ++ rest).Perm l) (hb : Balanced depot depot rest)
    (h0 : outDeg rest depot = 0) : rest = [] := by
  by_contra hne
  have hbal : ∀ v, outDeg rest v = inDeg rest v := by
    intro v
    have := hb v
    omega
  have hle : ∀ v < n, v ≠ depot → outDeg rest v ≤ 1 := by
    intro v hv hvd
    have h1 := hc.out v hv hvd
    have h2 := outDeg_perm hperm v
    unfold outDeg at h1 h2 ⊢
    rw [List.countP_append] at h2
    omega
  have hmem : ∀ e ∈ rest, e ∈ l := fun e he => hperm.mem_iff.mp (List.mem_append_right _ he)
  have hsrc : ∀ e ∈ rest, 0 < outDeg rest e.1 := fun e he => List.countP_pos_iff.mpr ⟨e, he, by simp⟩
  have htgt : ∀ e ∈ rest, 0 < outDeg rest e.2 := fun e he => by
    rw [hbal]; exact List.countP_pos_iff.mpr ⟨e, he, by simp⟩
  have hnd : ∀ v, 0 < outDeg rest v → v ≠ depot := by rintro v hv rfl; omega
  have hlt : ∀ v, 0 < outDeg rest v → v < n := by
    intro v hv
    obtain ⟨e, he, h⟩ := List.countP_pos_iff.mp hv
    simp only [beq_iff_eq] at h
    rw [← h]
    exact (hl e (hmem e he)).1
  let s := (customers n depot).filter fun v => decide (0 < outDeg rest v)
  have hs : ∀ v, v ∈ s ↔ 0 < outDeg rest v := by
    intro v
    simp only [s, List.mem_filter, mem_customers, decide_eq_true_eq]
    exact ⟨fun h => h.2, fun h => ⟨⟨hlt v h, hnd v h⟩, h⟩⟩
  have hsub : s.Sublist (customers n depot) := List.filter_sublist
  have hsnd : s.Nodup := (customers_nodup n depot).sublist hsub
  have hps : (rest.map (·.1)).Perm s := by
    rw [List.perm_iff_count]
    intro v
    rw [← outDeg_eq]
    by_cases hv : 0 < outDeg rest v
    · rw [List.count_eq_one_of_mem hsnd ((hs v).mpr hv)]
      have := hle v (hlt v hv) (hnd v hv)
      omega
    · rw [List.count_eq_zero_of_not_mem fun h => hv ((hs v).mp h)]
      omega
  have hlen : rest.length = s.length := by simpa using hps.length_eq
  have hin : insideDeg rest s = rest.length := by
    unfold insideDeg
    rw [List.countP_eq_length]
    intro e he
    simp only [Bool.and_eq_true, List.contains_iff_mem]
    exact ⟨(hs _).mpr (hsrc e he), (hs _).mpr (htgt e he)⟩
  have hge : rest.length ≤ insideDeg l s := by
    have : insideDeg l s = insideDeg used s + insideDeg rest s := by
      unfold insideDeg
      rw [← hperm.countP_eq, List.countP_append]
    omega
  obtain ⟨e, he⟩ := List.exists_mem_of_ne_nil rest hne
  have h2 : 2 ≤ s.length := by
    have hm1 := (hs _).mpr (hsrc e he)
    have hm2 := (hs _).mpr (htgt e he)
    have hne := (hl e (hmem e he)).2.2
    have : ([e.1, e.2] : List Nat).Subperm s :=
      List.subperm_of_subset (by simp [hne]) (by
        intro a ha
        simp only [List.mem_cons, List.not_mem_nil, or_false] at ha
        rcases ha with rfl | rfl <;> assumption)
    exact this.length_le
  have := hc.inside s hsub h2
  omega

theorem flatten_count_out {depot v : Nat} (hv : v ≠ depot) (visits : List (List Nat)) :
    outDeg (visits.map (closedRoute depot)).flatten v = visits.flatten.count v := by
  rw [outDeg_eq, List.map_flatten, List.map_map]
  induction visits with
  | nil => rfl
  | cons a l ih =>
    rw [List.map_cons, List.flatten_cons, List.count_append, ih, List.flatten_cons, List.count_append,
      Function.comp_apply, closedRoute_eq, pathFrom_fst, List.count_cons_of_ne (Ne.symm hv)]

theorem flatten_count_in {depot v : Nat} (hv : v ≠ depot) (visits : List (List Nat)) :
    inDeg (visits.map (closedRoute depot)).flatten v = visits.flatten.count v := by
  rw [inDeg_eq, List.map_flatten, List.map_map]
  induction visits with
  | nil => rfl
  | cons a l ih =>
    rw [List.map_cons, List.flatten_cons, List.count_append, ih, List.flatten_cons, List.count_append,
      Function.comp_apply, closedRoute_eq, pathFrom_snd, List.count_append]
    have : List.count v [depot] = 0 := List.count_eq_zero_of_not_mem (by simp [hv])
    omega

theorem flatten_depot {depot : Nat} {visits : List (List Nat)} (h : ∀ v ∈ visits, depot ∉ v) :
    outDeg (visits.map (closedRoute depot)).flatten depot = visits.length ∧
      inDeg (visits.map (closedRoute depot)).flatten depot = visits.length := by
  rw [outDeg_eq, inDeg_eq, List.map_flatten, List.map_map, List.map_flatten, List.map_map]
  induction visits with
  | nil => exact ⟨rfl, rfl⟩
  | cons a l ih =>
    have ih := ih fun v hv => h v (by simp [hv])
    have ha := List.count_eq_zero_of_not_mem (h a (by simp))
    rw [List.map_cons, List.flatten_cons, List.count_append, ih.1, List.map_cons, List.flatten_cons, List.count_append,
      ih.2, Function.comp_apply, Function.comp_apply, closedRoute_eq, pathFrom_fst, pathFrom_snd, List.count_append,
      List.count_cons_self, ha, List.length_cons]
    simp
    omega

/-- A path that ends at the depot has, inside a set of nodes without the depot, fewer edges than nodes. -/
theorem inside_path {depot : Nat} {s : List Nat} (hd : depot ∉ s) : ∀ (a : Nat) (nodes : List Nat),
    insideDeg (pathFrom depot a nodes) s + (if ∃ v ∈ a :: nodes, v ∈ s then 1 else 0) ≤
      (a :: nodes).countP fun v => s.contains v
  | a, [] => by
    by_cases ha : a ∈ s <;> simp [insideDeg, pathFrom, ha, hd]
  | a, b :: nodes => by
    have ih := inside_path hd b nodes
    rw [pathFrom_cons, List.countP_cons]
    have hcons : insideDeg ((a, b) :: pathFrom depot b nodes) s =
        insideDeg (pathFrom depot b nodes) s + if a ∈ s ∧ b ∈ s then 1 else 0 := by
      unfold insideDeg
      rw [List.countP_cons]
      simp
    rw [hcons]
    by_cases ha : a ∈ s
    · by_cases hb : b ∈ s
      · simp only [ha, hb, List.mem_cons, exists_eq_or_imp, true_or, if_true, and_self, List.contains_iff_mem] at ih ⊢
        omega
      · simp only [ha, hb, List.mem_cons, exists_eq_or_imp, true_or, if_true, and_false, if_false, List.contains_iff_mem]
          at ih ⊢
        omega
    · simp only [ha, List.mem_cons, exists_eq_or_imp, false_or, false_and, if_false, List.contains_iff_mem] at ih ⊢
      omega

theorem inside_routes {depot : Nat} {s : List Nat} (hd : depot ∉ s) : ∀ (visits : List (List Nat)),
    insideDeg (visits.map (closedRoute depot)).flatten s + (if ∃ v ∈ visits.flatten, v ∈ s then 1 else 0) ≤
      visits.flatten.countP fun v => s.contains v
  | [] => by simp [insideDeg]
  | a :: l => by
    have ih := inside_routes hd l
    have hp : insideDeg (closedRoute depot a) s + (if ∃ v ∈ a, v ∈ s then 1 else 0) ≤ a.countP fun v => s.contains v := by
      have := inside_path hd depot a
      rw [List.countP_cons_of_neg (by simpa using hd), ← closedRoute_eq] at this
      simpa [hd] using this
    have happ : insideDeg (closedRoute depot a ++ (l.map (closedRoute depot)).flatten) s =
        insideDeg (closedRoute depot a) s + insideDeg (l.map (closedRoute depot)).flatten s := by
      unfold insideDeg
      rw [List.countP_append]
    rw [List.map_cons, List.flatten_cons, happ, List.flatten_cons, List.countP_append]
    have hex : (∃ v ∈ a ++ l.flatten, v ∈ s) ↔ (∃ v ∈ a, v ∈ s) ∨ ∃ v ∈ l.flatten, v ∈ s := by
      simp only [List.mem_append, or_and_right, exists_or]
    simp only [hex]
    by_cases h1 : ∃ v ∈ a, v ∈ s <;> by_cases h2 : ∃ v ∈ l.flatten, v ∈ s <;>
      simp only [h1, h2, if_true, if_false, or_true, true_or, or_self] at ih hp ⊢ <;> omega

/-- The routes of a feasible point. -/
theorem routes_of_csts {n vehicles depot : Nat} {l : List (Nat × Nat)} (hc : RouteCsts n vehicles depot l)
    (hl : ∀ e ∈ l, e.1 < n ∧ e.2 < n ∧ e.1 ≠ e.2) :
    ∃ visits : List (List Nat), visits.length = vehicles ∧ (∀ v ∈ visits, v ≠ []) ∧
      visits.flatten.Perm (customers n depot) ∧ vehicleRoutes depot vehicles l = visits.map (closedRoute depot) ∧
      (visits.map (closedRoute depot)).flatten.Perm l := by
  have hzero : ∀ v, n ≤ v → outDeg l v = 0 ∧ inDeg l v = 0 := by
    intro v hv
    unfold outDeg inDeg
    rw [List.countP_eq_zero, List.countP_eq_zero]
    refine ⟨fun e he => ?_, fun e he => ?_⟩
    · have := (hl e he).1
      simp only [beq_iff_eq]; omega
    · have := (hl e he).2.1
      simp only [beq_iff_eq]; omega
  have hb : Balanced depot depot l := by
    intro v
    have : outDeg l v = inDeg l v := by
      by_cases hd : v = depot
      · rw [hd, hc.depotOut, hc.depotIn]
      · by_cases hv : v < n
        · rw [hc.out v hv hd, hc.into v hv hd]
        · rw [(hzero v (by omega)).1, (hzero v (by omega)).2]
    omega
  obtain ⟨visits, rest, h1, h2, h3, h4, h5, h6⟩ := vehicleRoutes_spec vehicles l hb hc.depotOut
  have hr := rest_nil hc hl h4 h5 h6
  subst hr
  rw [List.append_nil] at h4
  rw [if_pos rfl, List.append_nil] at h3
  refine ⟨visits, h1, ?_, ?_, h3, h4⟩
  · rintro v hv rfl
    have hm : (depot, depot) ∈ l := h4.mem_iff.mp (List.mem_flatten.mpr
      ⟨closedRoute depot [], List.mem_map.mpr ⟨[], hv, rfl⟩, by simp [closedRoute]⟩)
    exact (hl _ hm).2.2 rfl
  · rw [List.perm_iff_count]
    intro v
    by_cases hd : v = depot
    · rw [List.count_eq_zero_of_not_mem, List.count_eq_zero_of_not_mem]
      · rw [mem_customers]; exact fun h => h.2 hd
      · rw [List.mem_flatten]
        rintro ⟨a, ha, hva⟩
        exact h2 a ha (hd ▸ hva)
    · rw [← flatten_count_out hd, outDeg_perm h4]
      by_cases hv : v < n
      · rw [hc.out v hv hd, List.count_eq_one_of_mem (customers_nodup n depot) (mem_customers.mpr ⟨hv, hd⟩)]
      · rw [(hzero v (by omega)).1, List.count_eq_zero_of_not_mem]
        rw [mem_customers]; exact fun h => hv h.1

/-- Routes satisfy the constraints. -/
theorem csts_of_routes {n depot : Nat} {l : List (Nat × Nat)} {visits : List (List Nat)}
    (hp : visits.flatten.Perm (customers n depot)) (hl : (visits.map (closedRoute depot)).flatten.Perm l) :
    RouteCsts n visits.length depot l := by
  have hd : ∀ v ∈ visits, depot ∉ v := by
    intro v hv hm
    exact (mem_customers.mp (hp.mem_iff.mp (List.mem_flatten.mpr ⟨v, hv, hm⟩))).2 rfl
  have hcount : ∀ i < n, i ≠ depot → visits.flatten.count i = 1 := by
    intro i hi hne
    rw [hp.count_eq, List.count_eq_one_of_mem (customers_nodup n depot) (mem_customers.mpr ⟨hi, hne⟩)]
  refine ⟨?_, ?_, ?_, ?_, ?_⟩
  · intro i hi hne
    rw [← outDeg_perm hl, flatten_count_out hne, hcount i hi hne]
  · intro i hi hne
    rw [← inDeg_perm hl, flatten_count_in hne, hcount i hi hne]
  · rw [← inDeg_perm hl, (flatten_depot hd).2]
  · rw [← outDeg_perm hl, (flatten_depot hd).1]
  · intro s hs h2
    have hds : depot ∉ s := fun h => (mem_customers.mp (hs.subset h)).2 rfl
    have h3 := inside_routes hds visits
    have h4 : insideDeg l s = insideDeg (visits.map (closedRoute depot)).flatten s := (hl.countP_eq _).symm
    have hsnd : s.Nodup := (customers_nodup n depot).sublist hs
    have h5 : (visits.flatten.countP fun v => s.contains v) = s.length := by
      rw [hp.countP_eq, List.countP_eq_length_filter]
      refine List.Perm.length_eq ?_
      rw [List.perm_ext_iff_of_nodup ((customers_nodup n depot).filter _) hsnd]
      intro a
      simp only [List.mem_filter, List.contains_iff_mem]
      exact ⟨fun h => h.2, fun h => ⟨hs.subset h, h⟩⟩
    have h6 : ∃ v ∈ visits.flatten, v ∈ s := by
      obtain ⟨a, ha⟩ := List.exists_mem_of_length_pos (l := s) (by omega)
      exact ⟨a, hp.mem_iff.mpr (hs.subset ha), ha⟩
    rw [if_pos h6] at h3
    omega

theorem closedRoutes_nodup {n depot : Nat} {visits : List (List Nat)} (hne : ∀ v ∈ visits, v ≠ [])
    (hp : visits.flatten.Perm (customers n depot)) : (visits.map (closedRoute depot)).flatten.Nodup := by
  have hnd : visits.flatten.Nodup := hp.nodup_iff.mpr (customers_nodup n depot)
  rw [List.nodup_iff_count_le_one]
  rintro ⟨a, b⟩
  have hout : (visits.map (closedRoute depot)).flatten.count (a, b) ≤ outDeg (visits.map (closedRoute depot)).flatten a := by
    refine List.countP_mono_left fun e _ he => ?_
    simp only [beq_iff_eq] at he ⊢
    rw [he]
  have hin : (visits.map (closedRoute depot)).flatten.count (a, b) ≤ inDeg (visits.map (closedRoute depot)).flatten b := by
    refine List.countP_mono_left fun e _ he => ?_
    simp only [beq_iff_eq] at he ⊢
    rw [he]
  by_cases ha : a = depot
  · by_cases hb : b = depot
    · rw [List.count_eq_zero_of_not_mem]
      · omega
      · rw [List.mem_flatten]
        rintro ⟨r, hr, hm⟩
        obtain ⟨v, hv, rfl⟩ := List.mem_map.mp hr
        have hdv : depot ∉ v := fun h =>
          (mem_customers.mp (hp.mem_iff.mp (List.mem_flatten.mpr ⟨v, hv, h⟩))).2 rfl
        subst ha
        subst hb
        cases v with
        | nil => exact hne _ hv rfl
        | cons c v =>
          rw [closedRoute_eq, pathFrom_cons, List.mem_cons] at hm
          rcases hm with h | h
          · simp only [Prod.mk.injEq] at h
            exact hdv (by simp [← h.2])
          · have : b ∈ (pathFrom b c v).map (·.1) := List.mem_map.mpr ⟨_, h, rfl⟩
            rw [pathFrom_fst] at this
            exact hdv this
    · rw [flatten_count_in hb] at hin
      exact hin.trans (List.nodup_iff_count_le_one.mp hnd b)
  · rw [flatten_count_out ha] at hout
    exact hout.trans (List.nodup_iff_count_le_one.mp hnd a)

/-- An edge is selected at a point of a program if the variable named after it has value one. -/
def Selected (p : QP) (x : Nat → ℚ) (e : Nat × Nat) : Prop :=
  ∃ k v, p.vars[k]? = some v ∧ v.name = "x_" ++ toString e.1 ++ "_" ++ toString e.2 ∧ x k = 1

theorem selected_iff {n : Nat} {p : QP} (hv : PairVariables (routeKeys n) p) {x : Nat → ℚ} {e : Nat × Nat} :
    Selected p x e ↔ e ∈ edgesAt n x := by
  unfold Selected
  rw [mem_edgesAt, hv]
  constructor
  · rintro ⟨k, v, h1, h2, h3⟩
    rw [List.getElem?_map, Option.map_eq_some_iff] at h1
    obtain ⟨q, hq, rfl⟩ := h1
    have : q = e := pairName_injective h2
    subst this
    have hk := List.getElem?_eq_some_iff.mp hq
    obtain ⟨hk, rfl⟩ := hk
    exact ⟨List.getElem_mem _, by rw [(routeKeys_nodup n).idxOf_getElem]; exact h3⟩
  · rintro ⟨h1, h2⟩
    refine ⟨(routeKeys n).idxOf e, ⟨pairName e, 0, 1, .binary⟩, ?_, rfl, h2⟩
    rw [List.getElem?_map, List.getElem?_eq_getElem (List.idxOf_lt_length_of_mem h1)]
    simp

theorem edgesAt_keys {n : Nat} {x : Nat → ℚ} : ∀ e ∈ edgesAt n x, e.1 < n ∧ e.2 < n ∧ e.1 ≠ e.2 := fun _ h =>
  mem_routeKeys.mp (mem_edgesAt.mp h).1

theorem vrpProgram_complete {g : Graph} {vehicles depot : Nat} {p : QP} (hp : vrpProgram g vehicles depot = .ok p) :
    ∀ i < g.n, ∀ j < g.n, i ≠ j → ∃ w, g.weight? i j = some w := by
  refine complete_iff.mp ?_
  by_contra h
  unfold vrpProgram at hp
  rw [if_pos (by simpa using h)] at hp
  simp at hp

/-- **C50.** A point of the vehicle routing program is feasible if and only if its values are 0 and 1 and the selected edges
are the edges of as many closed routes from the depot as there are vehicles, which together visit every other node exactly
once. -/
theorem C50_feasible {g : Graph} {vehicles depot : Nat} {p : QP} (hp : vrpProgram g vehicles depot = .ok p)
    (hd : depot < g.n) (x : Nat → ℚ) :
    p.Feas x ↔ (∀ k < p.vars.length, x k = 0 ∨ x k = 1) ∧
      ∃ visits : List (List Nat), visits.length = vehicles ∧ (∀ v ∈ visits, v ≠ []) ∧
        visits.flatten.Perm ((List.range g.n).filter fun i => i != depot) ∧
        ∀ e, e ∈ (visits.map fun v => (depot :: v).zip (v ++ [depot])).flatten ↔ Selected p x e := by
  obtain ⟨p', hp', hs, hv, ho, hf⟩ := vrpProgram_spec g vehicles hd (vrpProgram_complete hp)
  rw [hp] at hp'
  simp only [Except.ok.injEq] at hp'
  subst hp'
  have hlen : p.vars.length = (routeKeys g.n).length := by rw [hv]; simp
  rw [hf, hlen]
  refine and_congr_right fun hx => ?_
  simp only [selected_iff hv]
  constructor
  · intro hc
    obtain ⟨visits, h1, h2, h3, _, h5⟩ := routes_of_csts hc edgesAt_keys
    exact ⟨visits, h1, h2, h3, fun e => h5.mem_iff⟩
  · rintro ⟨visits, rfl, h2, h3, h4⟩
    refine csts_of_routes h3 ?_
    rw [List.perm_ext_iff_of_nodup (closedRoutes_nodup h2 h3) (edgesAt_nodup _ _)]
    exact h4

theorem vrp_interpret {g : Graph} {vehicles depot : Nat} {p : QP} (hp : vrpProgram g vehicles depot = .ok p)
    (hd : depot < g.n) {x : List ℚ} (hl : x.length = p.vars.length) (hx : p.Feas (pt x)) :
    p.objective.sense = .minimize ∧ ∃ visits : List (List Nat), visits.length = vehicles ∧ (∀ v ∈ visits, v ≠ []) ∧
      visits.flatten.Perm ((List.range g.n).filter fun i => i != depot) ∧
      vrpInterpret g.n vehicles depot x = .ok (visits.map fun v => (depot :: v).zip (v ++ [depot])) ∧
      (visits.map fun v => (depot :: v).zip (v ++ [depot])).flatten.Nodup ∧
      (∀ e, e ∈ (visits.map fun v => (depot :: v).zip (v ++ [depot])).flatten ↔ Selected p (pt x) e) ∧
      ∃ ws : List ℚ, (visits.map fun v => (depot :: v).zip (v ++ [depot])).flatten.map (fun e => g.weight? e.1 e.2) =
        ws.map some ∧ p.objective.val (pt x) = ws.sum := by
  have hcomp := vrpProgram_complete hp
  obtain ⟨p', hp', hs, hv, ho, hf⟩ := vrpProgram_spec g vehicles hd hcomp
  rw [hp] at hp'
  simp only [Except.ok.injEq] at hp'
  subst hp'
  have hlen : p.vars.length = (routeKeys g.n).length := by rw [hv]; simp
  obtain ⟨hb, hc⟩ := (hf _).mp hx
  obtain ⟨visits, h1, h2, h3, h4, h5⟩ := routes_of_csts hc edgesAt_keys
  refine ⟨hs, visits, h1, h2, h3, ?_, closedRoutes_nodup h2 h3, ?_, ?_⟩
  · unfold vrpInterpret
    rw [selectedEdges_eq _ _ (routeKeys_nodup _) (by omega)]
    have : ((routeKeys g.n).filter fun q => decide (x.getD ((routeKeys g.n).idxOf q) 0 ≠ 0)) = edgesAt g.n (pt x) := by
      unfold edgesAt
      refine List.filter_congr fun q hq => ?_
      have := hb _ (List.idxOf_lt_length_of_mem hq)
      unfold pt at this ⊢
      rcases this with e | e <;> rw [e] <;> norm_num
    rw [this]
    simp only [h4]
    rfl
  · intro e
    rw [selected_iff hv]
    exact h5.mem_iff
  · refine ⟨(visits.map (closedRoute depot)).flatten.map fun e => g.weight e.1 e.2, ?_, ?_⟩
    · rw [List.map_map]
      refine List.map_congr_left fun e he => ?_
      have := edgesAt_keys e (h5.mem_iff.mp he)
      obtain ⟨w, hw⟩ := hcomp _ this.1 _ this.2.1 this.2.2
      simp [Graph.weight, hw]
    · rw [ho, (h5.map _).sum_eq]
      unfold edgesAt
      have : ∀ l : List (Nat × Nat), (∀ q ∈ l, q ∈ routeKeys g.n) →
          (l.map fun q => g.weight q.1 q.2 * pt x ((routeKeys g.n).idxOf q)).sum =
          ((l.filter fun q => decide (pt x ((routeKeys g.n).idxOf q) = 1)).map fun e => g.weight e.1 e.2).sum := by
        intro l
        induction l with
        | nil => simp
        | cons q l ih =>
          intro h
          rw [List.map_cons, List.sum_cons, ih fun r hr => h r (by simp [hr])]
          rcases hb _ (List.idxOf_lt_length_of_mem (h q (by simp))) with e | e
          · rw [List.filter_cons_of_neg (by simp [e]), e]; ring
          · rw [List.filter_cons_of_pos (by simp [e]), e, List.map_cons, List.sum_cons]; ring
      exact this _ fun q hq => hq

/-- **C50.** At a feasible point `interpret` returns exactly one closed route for each vehicle; the routes visit every other
node exactly once and use exactly the selected edges, each once, and the objective, to be minimized, is the sum of their
weights. -/
theorem C50_interpret {g : Graph} {vehicles depot : Nat} {p : QP} (hp : vrpProgram g vehicles depot = .ok p)
    (hd : depot < g.n) {x : List ℚ} (hl : x.length = p.vars.length) (hx : p.Feas (pt x)) :
    p.objective.sense = .minimize ∧ ∃ visits : List (List Nat), visits.length = vehicles ∧ (∀ v ∈ visits, v ≠ []) ∧
      visits.flatten.Perm ((List.range g.n).filter fun i => i != depot) ∧
      vrpInterpret g.n vehicles depot x = .ok (visits.map fun v => (depot :: v).zip (v ++ [depot])) ∧
      (visits.map fun v => (depot :: v).zip (v ++ [depot])).flatten.Nodup ∧
      (∀ e, e ∈ (visits.map fun v => (depot :: v).zip (v ++ [depot])).flatten ↔ Selected p (pt x) e) ∧
      ∃ ws : List ℚ, List.Forall₂ (fun e w => g.Weighs e.1 e.2 w)
          (visits.map fun v => (depot :: v).zip (v ++ [depot])).flatten ws ∧
        p.objective.val (pt x) = ws.sum := by
  obtain ⟨h0, visits, h1, h2, h3, h4, h5, h6, ws, h7, h8⟩ := vrp_interpret hp hd hl hx
  refine ⟨h0, visits, h1, h2, h3, h4, h5, h6, ws, ?_, h8⟩
  have := List.forall₂_eq_eq_eq (α := Option ℚ) ▸ h7
  rw [List.forall₂_map_left_iff, List.forall₂_map_right_iff] at this
  exact this.imp fun _ _ => weighs_of_weight

/-- **C50.** With an edge or a weight missing, or a depot that is no node, `KeyError` is raised; otherwise there is a
program, with one binary variable for each ordered pair of different nodes. -/
theorem C50_loads (g : Graph) (hsim : g.Simple) (vehicles depot : Nat) (hn : 0 < g.n) :
    ((depot < g.n ∧ ∀ i < g.n, ∀ j < g.n, i ≠ j → ∃ w, g.Weighs i j w) →
      ∃ p, vrpProgram g vehicles depot = .ok p ∧ p.vars = ((List.range g.n).flatMap fun i =>
          ((List.range g.n).filter fun j => i != j).map fun j =>
            ⟨"x_" ++ toString i ++ "_" ++ toString j, 0, 1, .binary⟩)) ∧
    (¬ (depot < g.n ∧ ∀ i < g.n, ∀ j < g.n, i ≠ j → ∃ w, g.Weighs i j w) →
      vrpProgram g vehicles depot = .error .keyError) := by
  have hw : (∀ i < g.n, ∀ j < g.n, i ≠ j → ∃ w, g.Weighs i j w) ↔
      ∀ i < g.n, ∀ j < g.n, i ≠ j → ∃ w, g.weight? i j = some w :=
    forall₂_congr fun i _ => forall₂_congr fun j _ => imp_congr_right fun _ => exists_congr fun w =>
      ⟨weight_of_weighs hsim, weighs_of_weight⟩
  rw [hw]
  refine ⟨fun h => ?_, fun h => ?_⟩
  · obtain ⟨p, hp, _, hv, _⟩ := vrpProgram_spec g vehicles h.1 h.2
    refine ⟨p, hp, ?_⟩
    rw [hv]
    unfold routeKeys allPairs
    rw [List.filter_flatMap, List.map_flatMap]
    congr 1
    funext i
    rw [List.filter_map, List.map_map]
    rfl
  · unfold vrpProgram
    by_cases hc : g.complete = true
    · rw [if_neg (by simp [hc]), if_pos]
      refine ⟨hn, ?_⟩
      by_contra hlt
      exact h ⟨by omega, complete_iff.mp hc⟩
    · rw [if_pos (by simpa using hc)]

/-- Four nodes, depot 1, two vehicles: one visits 0 and 3, the other 2. -/
def vrpSample : Graph :=
  ⟨4, [(0, 1, some 2), (0, 2, some 5), (2, 1, some 3), (3, 0, some 1), (1, 3, some 7), (3, 2, some 4)]⟩

def vrpPoint : List ℚ := [0, 0, 1, 1, 1, 0, 0, 1, 0, 0, 1, 0]

example : vrpSample.Simple ∧ ∀ i < vrpSample.n, ∀ j < vrpSample.n, i ≠ j → ∃ w ∈ [2, 5, 3, 1, 7, 4],
    vrpSample.Weighs i j w := by decide +kernel

example : (vrpProgram vrpSample 2 1).toOption.map (fun p => (p.vars.map (·.name), p.lins.length,
      p.objective.val (pt vrpPoint))) =
    some (["x_0_1", "x_0_2", "x_0_3", "x_1_0", "x_1_2", "x_1_3", "x_2_0", "x_2_1", "x_2_3", "x_3_0", "x_3_1", "x_3_2"],
      12, 16) ∧
    vrpInterpret 4 2 1 vrpPoint = .ok [[(1, 0), (0, 3), (3, 1)], [(1, 2), (2, 1)]] := by decide +kernel

/-- At a point that violates the constraint on sub-routes the edges left over are returned as one more route. -/
example : vrpInterpret 4 1 1 [0, 0, 1, 0, 1, 0, 0, 1, 0, 1, 0, 0] = .ok [[(1, 2), (2, 1)], [(0, 3), (3, 0)]] := by
  decide +kernel

end Verif
