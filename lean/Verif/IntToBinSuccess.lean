import Verif.IntToBinMain

/-!
# Helper lemmas: when the integer-to-binary conversion succeeds
-/

namespace Verif

theorem split_at {s t a b : List Char} (hs : '@' ∉ s) (ht : '@' ∉ t) (h : s ++ '@' :: a = t ++ '@' :: b) :
    s = t := by
  induction s generalizing t with
  | nil =>
    cases t with
    | nil => rfl
    | cons c t => simp at h; exact absurd h.1 (fun hc => ht (by rw [← hc]; simp))
  | cons c s ih =>
    cases t with
    | nil => simp at h; exact absurd h.1 (fun hc => hs (by rw [hc]; simp))
    | cons d t =>
      simp only [List.cons_append, List.cons.injEq] at h
      rw [h.1, ih (fun hm => hs (by simp [hm])) (fun hm => ht (by simp [hm])) h.2]

/-- The names the conversion may create for the variable `s`. -/
def Belongs (s a : String) : Prop := a = s ∨ ∃ i : Nat, a = s ++ delim ++ toString i

theorem belongs_unique {s t a : String} (hs : '@' ∉ s.toList) (ht : '@' ∉ t.toList) (h1 : Belongs s a)
    (h2 : Belongs t a) : s = t := by
  rcases h1 with h1 | ⟨i, h1⟩ <;> rcases h2 with h2 | ⟨j, h2⟩
  · rw [← h1, ← h2]
  · exfalso
    rw [h1] at h2
    apply hs
    rw [h2]
    simp [delim]
  · exfalso
    rw [h2] at h1
    apply ht
    rw [h1]
    simp [delim]
  · rw [h1] at h2
    have := congrArg String.toList h2
    simp only [String.toList_append] at this
    have hd : delim.toList = ['@'] := by decide +kernel
    rw [hd] at this
    simp only [List.append_assoc, List.cons_append, List.nil_append] at this
    exact String.toList_inj.mp (split_at hs ht this)

theorem convertVar_belongs {name : String} {lb ub : ℚ} {enc : List (String × ℚ)}
    (h : convertVar name lb ub = .ok enc) : ∀ p ∈ enc, Belongs name p.1 := by
  unfold convertVar at h
  split at h
  · simp at h
  · simp only [Except.ok.injEq] at h
    subst h
    intro p hp
    obtain ⟨q, _, rfl⟩ := List.mem_map.mp hp
    exact Or.inr ⟨q.2, rfl⟩

theorem addBins_success {enc : List (String × ℚ)} {dst : QP} (hd : dst.Consistent)
    (hn : (enc.map Prod.fst).Nodup) (hf : ∀ p ∈ enc, p.1 ∉ dst.vars.map Variable.name) :
    ∃ d, addBins enc dst = .ok d := by
  induction enc generalizing dst with
  | nil => exact ⟨dst, rfl⟩
  | cons p l ih =>
    simp only [List.map_cons, List.nodup_cons] at hn
    obtain ⟨d, hadd⟩ := addVariable_success (p := dst) (lb := 0) (ub := 1) (t := .binary) (s := p.1)
      (by rw [hd.vars.keys]; exact hf p List.mem_cons_self) (by norm_num)
    have hg := (addVariable_grows hadd).1
    obtain ⟨d', h'⟩ := ih (dst := d) (hg.cons hd) hn.2 (by
      intro q hq
      rw [hg.vars]
      simp only [List.map_append, List.mem_append, not_or]
      refine ⟨hf q (List.mem_cons_of_mem _ hq), ?_⟩
      simp only [List.map_cons, List.map_nil, List.mem_singleton]
      intro hh
      exact hn.1 (hh ▸ List.mem_map_of_mem hq))
    exact ⟨d', by simp only [addBins, QP.binaryVar, hadd, h']⟩

theorem i2bVars_success {l : List Variable} {conv : Conv} {dst : QP} (hd : dst.Consistent)
    (hn : (l.map Variable.name).Nodup)
    (hat : ∀ v ∈ l, ∀ w ∈ l, ∀ a, Belongs v.name a → Belongs w.name a → v.name = w.name)
    (hi : ∀ v ∈ l, v.vartype = .integer → (∃ z : Int, v.lb = z) ∧ (∃ z : Int, v.ub = z) ∧ v.lb < v.ub)
    (hb : ∀ v ∈ l, v.lb ≤ v.ub)
    (hf : ∀ v ∈ l, ∀ a ∈ dst.vars.map Variable.name, ¬ Belongs v.name a) :
    ∃ r, i2bVars l conv dst = .ok r := by
  induction l generalizing conv dst with
  | nil => exact ⟨_, rfl⟩
  | cons x l ih =>
    simp only [List.map_cons, List.nodup_cons] at hn
    rw [List.forall_mem_cons] at hi hb hf
    have step : ∀ (d : QP) (vs : List Variable) (conv : Conv), Grows dst d vs → (∀ w ∈ vs, Belongs x.name w.name) →
        ∃ r, i2bVars l conv d = .ok r := by
      intro d vs conv hg hvs
      refine ih (hg.cons hd) hn.2 (fun v hv w hw => hat v (List.mem_cons_of_mem _ hv) w (List.mem_cons_of_mem _ hw))
        hi.2 hb.2 ?_
      intro v hv a ha hbel
      rw [hg.vars] at ha
      simp only [List.map_append, List.mem_append] at ha
      rcases ha with ha | ha
      · exact hf.2 v hv a ha hbel
      · obtain ⟨w, hw, rfl⟩ := List.mem_map.mp ha
        have := hat x List.mem_cons_self v (List.mem_cons_of_mem _ hv) _ (hvs w hw) hbel
        exact hn.1 (this ▸ List.mem_map_of_mem hv)
    simp only [i2bVars]
    have hxf : x.name ∉ Assoc.keys dst.varsIndex := by
      rw [hd.vars.keys]
      intro hm
      exact hf.1 _ hm (Or.inl rfl)
    split
    · rename_i ht
      obtain ⟨b1, b2, b3⟩ := hi.1 ht
      obtain ⟨enc, henc⟩ := convertVar_success (name := x.name) b1 b2 b3
      have hbel := convertVar_belongs henc
      obtain ⟨d, hadd⟩ := addBins_success hd (convertVar_encOK b1 b2 b3 henc).nodup
        (fun p hp hm => hf.1 _ hm (hbel p hp))
      simp only [henc, hadd]
      refine step d _ _ (addBins_grows hadd) ?_
      intro w hw
      obtain ⟨p, hp, rfl⟩ := List.mem_map.mp hw
      exact hbel p hp
    · obtain ⟨d, hadd⟩ := addVariable_success (p := dst) (t := .continuous) hxf hb.1
      simp only [QP.continuousVar, hadd]
      exact step d _ _ (addVariable_grows hadd).1 (by simp [Belongs])
    · obtain ⟨d, hadd⟩ := addVariable_success (p := dst) (lb := 0) (ub := 1) (t := .binary) hxf (by norm_num)
      simp only [QP.binaryVar, hadd]
      exact step d _ _ (addVariable_grows hadd).1 (by simp [Belongs])

theorem i2bLins_success {src : QP} {conv : Conv} (hs : src.WF) (ks : List LinCst)
    (hk : ∀ k ∈ ks, k.linear.Fits src.numVars) {d : QP} (hd : d.WF) (he : Encodes src d conv)
    (hne : ∀ k ∈ ks, k.name ≠ "") (hn : ((d.lins ++ ks).map LinCst.name).Nodup) :
    ∃ d', i2bLins src conv ks d = .ok d' := by
  induction ks generalizing d with
  | nil => exact ⟨d, rfl⟩
  | cons k ks ih =>
    obtain ⟨l, c, a1, a2, a3, a4⟩ := i2bLin_full hs.cons he (hk k List.mem_cons_self)
    obtain ⟨le, e1, e2, e3, e4⟩ := linNames_spec he.cons a2 a3
    have hfr : k.name ∉ Assoc.keys d.linsIndex := by
      rw [hd.cons.lins.keys]
      intro hm
      simp only [List.map_append, List.map_cons] at hn
      rw [List.nodup_append] at hn
      exact hn.2.2 _ hm _ (List.mem_cons_self) rfl
    have hadd := linearConstraint_success (p := d) (s := k.sense) (r := k.rhs - c) (hne k List.mem_cons_self) hfr e1
    have hwf := linearConstraint_wf hadd hd trivial
    simp only [i2bLins, a1, hadd]
    apply ih (fun k hk' => hk k (List.mem_cons_of_mem _ hk')) hwf (he.congr hwf.cons rfl)
      (fun k hk' => hne k (List.mem_cons_of_mem _ hk'))
    simpa using hn

theorem i2bQuads_success {src : QP} {conv : Conv} (hs : src.WF) (ks : List QuadCst)
    (hk : ∀ k ∈ ks, k.linear.Fits src.numVars ∧ k.quadratic.Fits src.numVars) {d : QP} (hd : d.WF)
    (he : Encodes src d conv) (hne : ∀ k ∈ ks, k.name ≠ "")
    (hn : ((d.quads ++ ks).map QuadCst.name).Nodup) : ∃ d', i2bQuads src conv ks d = .ok d' := by
  induction ks generalizing d with
  | nil => exact ⟨d, rfl⟩
  | cons k ks ih =>
    obtain ⟨l, c, q', l', c', le, qe, h1, h2, h3, h4, h5, h6, h7, h8, h9⟩ :=
      i2bBoth hs.cons he (hk k List.mem_cons_self).1 (hk k List.mem_cons_self).2
    have hfr : k.name ∉ Assoc.keys d.quadsIndex := by
      rw [hd.cons.quads.keys]
      intro hm
      simp only [List.map_append, List.map_cons] at hn
      rw [List.nodup_append] at hn
      exact hn.2.2 _ hm _ (List.mem_cons_self) rfl
    have hadd := quadraticConstraint_success (p := d) (s := k.sense) (r := k.rhs - (c + c'))
      (hne k List.mem_cons_self) hfr h3 h4
    have hwf := quadraticConstraint_wf hadd hd trivial trivial
    simp only [i2bQuads, h1, h2, hadd]
    apply ih (fun k hk' => hk k (List.mem_cons_of_mem _ hk')) hwf (he.congr hwf.cons rfl)
      (fun k hk' => hne k (List.mem_cons_of_mem _ hk'))
    simpa using hn

theorem intToBin_success {src : QP} (hs : src.WF) (hi : src.IntBoundsOK) (hb : ∀ v ∈ src.vars, v.lb ≤ v.ub)
    (hat : ∀ v ∈ src.vars, ∀ w ∈ src.vars, ∀ a, Belongs v.name a → Belongs w.name a → v.name = w.name)
    (hl : ∀ c ∈ src.lins, c.name ≠ "") (hq : ∀ c ∈ src.quads, c.name ≠ "") : ∃ st, src.intToBin = .ok st := by
  unfold QP.intToBin
  split
  · obtain ⟨⟨conv, d0⟩, h0⟩ := i2bVars_success (conv := []) (dst := QP.empty src.name) (l := src.vars)
      (QP.empty_consistent _) hs.cons.vars.2 hat hi hb (by simp [QP.empty])
    obtain ⟨g1, g2, g3, g4⟩ := i2bVars_ok h0 hs.cons.vars.2 (fun v _ => rfl)
    have hwf0 := g1.wf (QP.empty_wf src.name)
    have he0 : Encodes src d0 conv := ⟨hwf0.cons, by simpa [QP.empty] using g1.vars, g3, g4⟩
    obtain ⟨o, o1, o2, o3, o4, o5, o6, o7⟩ := i2bObjective_ok hs he0
    have hwf1 : ({ d0 with objective := o } : QP).WF :=
      ⟨⟨hwf0.cons.vars, hwf0.cons.lins, hwf0.cons.quads⟩, o5, o6, hwf0.lins, hwf0.quads⟩
    have he1 : Encodes src { d0 with objective := o } conv := he0.congr hwf1.cons rfl
    obtain ⟨d2, h2⟩ := i2bLins_success hs src.lins hs.lins hwf1 he1 hl (by
      show ((d0.lins ++ src.lins).map LinCst.name).Nodup
      rw [g1.lins]; simpa [QP.empty] using hs.cons.lins.2)
    obtain ⟨l1, l2, l3, l4, l5, l6, l7, l8, newl, l9, l10⟩ := i2bLins_ok hs src.lins hs.lins hwf1 he1 h2
    have he2 : Encodes src d2 conv := he1.congr l8.cons l1
    obtain ⟨d3, h3⟩ := i2bQuads_success hs src.quads hs.quads l8 he2 hq (by
      rw [l4]
      show ((d0.quads ++ src.quads).map QuadCst.name).Nodup
      rw [g1.quads]; simpa [QP.empty] using hs.cons.quads.2)
    refine ⟨⟨src, d3, conv⟩, ?_⟩
    simp only [h0, o1, h2, h3]
  · exact ⟨_, rfl⟩

/-! ## Products of two integer variables -/

theorem pairsOK_of_products {src : QP} (hs : src.WF) (hi : src.IntBoundsOK) {st : I2B} (h : I2BFacts src st)
    {e : QuadExpr} (he : e.Fits src.numVars) (hp : ProductsOK src e) : PairsOK src st.conv e := by
  intro k hk ex ey hx hy
  simp only [QuadExpr.toDictNames, Assoc.keys, List.map_map, List.mem_map] at hk
  obtain ⟨q, hq, rfl⟩ := hk
  have hb := he.1.bound q.1 (List.mem_map_of_mem hq)
  obtain ⟨v, hv, hvn⟩ := varName_mem (vars := src.vars) (lt_of_lt_of_le hb.1 he.2)
  obtain ⟨w, hw, hwn⟩ := varName_mem (vars := src.vars) (lt_of_lt_of_le hb.2 he.2)
  simp only [Function.comp] at hx hy ⊢
  rw [hvn] at hx ⊢
  rw [hwn] at hy ⊢
  have hvm := List.mem_of_getElem? hv
  have hwm := List.mem_of_getElem? hw
  have hvt : v.vartype = .integer := by
    by_contra ht; rw [h.plain v hvm ht] at hx; simp at hx
  have hwt : w.vartype = .integer := by
    by_contra ht; rw [h.plain w hwm ht] at hy; simp at hy
  obtain ⟨ex', hx1, hx2⟩ := h.enc v hvm hvt
  obtain ⟨ey', hy1, hy2⟩ := h.enc w hwm hwt
  rw [hx] at hx1
  rw [hy] at hy1
  simp only [Option.some.injEq] at hx1 hy1
  subst hx1 hy1
  obtain ⟨a1, a2⟩ := hp q.1 (List.mem_map_of_mem hq) v w hv hw hvt hwt
  rw [lbAt_var hs.cons hvm, lbAt_var hs.cons hwm]
  exact ⟨a1.imp_right (fun h => convertVar_ones (hi v hvm hvt).1 (hi v hvm hvt).2.1 h hx2),
    a2.imp_right (fun h => convertVar_ones (hi w hwm hwt).1 (hi w hwm hwt).2.1 h hy2)⟩

end Verif
