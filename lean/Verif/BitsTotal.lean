import Verif.OrderQubo

/-!
# Helper lemmas: when the conversion to bits succeeds, for reordered slack variables
-/

namespace Verif

theorem addBins_total {enc : List (String × ℚ)} {dst : QP} (hd : dst.Consistent) :
    OkIff ((dst.vars.map Variable.name ++ enc.map Prod.fst).Nodup) (addBins enc dst) := by
  induction enc generalizing dst with
  | nil => exact ⟨fun _ => ⟨dst, rfl⟩, fun h => absurd (by simpa using hd.vars.2) h⟩
  | cons p l ih =>
    by_cases hp : p.1 ∈ dst.vars.map Variable.name
    · obtain ⟨p', hp'⟩ := addVariable_dup (p := dst) (lb := 0) (ub := 1) (t := .binary) (s := p.1) (by rw [hd.vars.keys]; exact hp)
      refine ⟨fun h => ?_, fun _ => by simp only [addBins, QP.binaryVar, hp']⟩
      rw [List.nodup_append] at h
      exact absurd rfl (h.2.2 _ hp _ (by simp))
    · obtain ⟨d, hadd⟩ := addVariable_success (p := dst) (lb := 0) (ub := 1) (t := .binary) (s := p.1)
        (by rw [hd.vars.keys]; exact hp) (by norm_num)
      have hg := (addVariable_grows hadd).1
      have := ih (dst := d) (hg.cons hd)
      simp only [addBins, QP.binaryVar, hadd]
      rw [hg.vars] at this
      simpa using this

theorem i2bVars_append (l l' : List Variable) (conv : Conv) (dst : QP) : i2bVars (l ++ l') conv dst =
    match i2bVars l conv dst with
    | .error e => .error e
    | .ok (conv, dst) => i2bVars l' conv dst := by
  induction l generalizing conv dst with
  | nil => rfl
  | cons x l ih =>
    rw [List.cons_append]
    simp only [i2bVars, ih]
    cases x.vartype with
    | integer =>
      simp only
      cases convertVar x.name x.lb x.ub with
      | error e => rfl
      | ok enc =>
        simp only
        cases addBins enc dst <;> rfl
    | continuous =>
      simp only
      obtain ⟨r, d⟩ := dst.continuousVar x.lb x.ub (some x.name)
      cases r <;> rfl
    | binary =>
      simp only
      obtain ⟨r, d⟩ := dst.binaryVar (some x.name)
      cases r <;> rfl

/-- The names of the bits of an integer variable. -/
def bitNames (v : Variable) : List String :=
  match convertVar v.name v.lb v.ub with
  | .ok enc => enc.map Prod.fst
  | .error _ => []

theorem i2bVars_tail {S : List Variable} (hS : ∀ v ∈ S, v.vartype = .integer ∧ ∃ enc, convertVar v.name v.lb v.ub = .ok enc)
    {conv : Conv} {dst : QP} (hd : dst.Consistent) :
    OkIff ((dst.vars.map Variable.name ++ S.flatMap bitNames).Nodup) (i2bVars S conv dst) := by
  induction S generalizing conv dst with
  | nil => exact ⟨fun _ => ⟨_, rfl⟩, fun h => absurd (by simpa using hd.vars.2) h⟩
  | cons v S ih =>
    rw [List.forall_mem_cons] at hS
    obtain ⟨⟨ht, enc, henc⟩, hS⟩ := hS
    have hb : bitNames v = enc.map Prod.fst := by simp [bitNames, henc]
    rw [List.flatMap_cons, hb, ← List.append_assoc]
    have hone := addBins_total (enc := enc) hd
    simp only [i2bVars, ht, henc]
    by_cases h1 : (dst.vars.map Variable.name ++ enc.map Prod.fst).Nodup
    · obtain ⟨d, hadd⟩ := hone.1 h1
      have hg := addBins_grows hadd
      have := ih hS (conv := Assoc.set conv v.name enc) (hg.cons hd)
      rw [hg.vars, List.map_append, List.map_map] at this
      simp only [hadd]
      exact this
    · simp only [hone.2 h1]
      exact ⟨fun h => absurd (List.nodup_append.mp h).1 h1, fun _ => rfl⟩

theorem intToBin_of_vars {src : QP} (hs : src.WF) (hl : ∀ c ∈ src.lins, c.name ≠ "") (hq : ∀ c ∈ src.quads, c.name ≠ "")
    {conv : Conv} {d0 : QP} (h0 : i2bVars src.vars [] (QP.empty src.name) = .ok (conv, d0)) : ∃ st, src.intToBin = .ok st := by
  unfold QP.intToBin
  split
  · obtain ⟨g1, g2, g3, g4⟩ := i2bVars_ok h0 hs.cons.vars.2 (fun v _ => rfl)
    have hwf0 := g1.wf (QP.empty_wf src.name)
    have he0 : Encodes src d0 conv := ⟨hwf0.cons, by simpa [QP.empty] using g1.vars, g3, g4⟩
    obtain ⟨o, o1, o2, o3, o4, o5, o6, o7⟩ := i2bObjective_ok hs he0
    have hwf1 : ({ d0 with objective := o } : QP).WF :=
      ⟨⟨hwf0.cons.vars, hwf0.cons.lins, hwf0.cons.quads⟩, o5, o6, hwf0.lins, hwf0.quads⟩
    have he1 : Encodes src { d0 with objective := o } conv := he0.congr hwf1.cons rfl
    obtain ⟨d2, h2⟩ := i2bLins_success hs src.lins hs.lins hwf1 he1 hl (by
      show ((d0.lins ++ src.lins).map LinCst.name).Nodup
      rw [g1.lins]; simpa [QP.empty] using hs.cons.lins.2)
    obtain ⟨l1, l2, l3, l4, l5, l6, l7, l8, newl, l9, l10⟩ := i2bLins_ok hs src.lins hs.lins hwf1 he1 h2
    have he2 : Encodes src d2 conv := he1.congr l8.cons l1
    obtain ⟨d3, h3⟩ := i2bQuads_success hs src.quads hs.quads l8 he2 hq (by
      rw [l4]
      show ((d0.quads ++ src.quads).map QuadCst.name).Nodup
      rw [g1.quads]; simpa [QP.empty] using hs.cons.quads.2)
    refine ⟨⟨src, d3, conv⟩, ?_⟩
    simp only [h0, o1, h2, h3]
  · exact ⟨_, rfl⟩

/-- Both conversions to bits succeed, or both fail with the same error. -/
theorem intToBin_tails {A S S' : List Variable} {d d' : QP} (h1 : d.vars = A ++ S) (h2 : d'.vars = A ++ S') (hp : S'.Perm S)
    (hw : d.WF) (hw' : d'.WF) (hn : d'.name = d.name)
    (hl : ∀ c ∈ d.lins, c.name ≠ "") (hq : ∀ c ∈ d.quads, c.name ≠ "")
    (hl' : ∀ c ∈ d'.lins, c.name ≠ "") (hq' : ∀ c ∈ d'.quads, c.name ≠ "")
    (hS : ∀ v ∈ S, v.vartype = .integer ∧ ∃ enc, convertVar v.name v.lb v.ub = .ok enc) :
    (∃ e, d.intToBin = .error e ∧ d'.intToBin = .error e) ∨ ∃ b b', d.intToBin = .ok b ∧ d'.intToBin = .ok b' := by
  have hcount : d'.numIntegerVars = d.numIntegerVars := by
    unfold QP.numIntegerVars
    rw [h1, h2]
    exact ((hp.append_left A).filter _).length_eq
  by_cases h0 : d.numIntegerVars > 0
  · have h0' : d'.numIntegerVars > 0 := by rw [hcount]; exact h0
    have fails : ∀ {s : QP} {e : Err}, s.numIntegerVars > 0 → i2bVars s.vars [] (QP.empty s.name) = .error e →
        s.intToBin = .error e := by
      intro s e hc he
      simp only [QP.intToBin, if_pos hc, he]
    have e1 := i2bVars_append A S [] (QP.empty d.name)
    have e2 := i2bVars_append A S' [] (QP.empty d'.name)
    rw [← h1] at e1
    rw [← h2, hn] at e2
    cases ha : i2bVars A [] (QP.empty d.name) with
    | error e =>
      rw [ha] at e1 e2
      exact Or.inl ⟨e, fails h0 e1, fails h0' (by rw [hn]; exact e2)⟩
    | ok r =>
      obtain ⟨conv, d1⟩ := r
      rw [ha] at e1 e2
      simp only at e1 e2
      have hna : (A.map Variable.name).Nodup := by
        have := hw.cons.vars.2
        rw [h1, List.map_append] at this
        exact (List.nodup_append.mp this).1
      have hd1 := ((i2bVars_ok ha hna fun v _ => rfl).1.wf (QP.empty_wf _)).cons
      have t1 := i2bVars_tail hS (conv := conv) hd1
      have t2 := i2bVars_tail (S := S') (fun v hv => hS v (hp.mem_iff.mp hv)) (conv := conv) hd1
      have hperm := (hp.flatMap_right bitNames).append_left (d1.vars.map Variable.name)
      rw [hperm.nodup_iff] at t2
      by_cases hc : (d1.vars.map Variable.name ++ S.flatMap bitNames).Nodup
      · obtain ⟨⟨c1, f1⟩, g1⟩ := t1.1 hc
        obtain ⟨⟨c2, f2⟩, g2⟩ := t2.1 hc
        obtain ⟨b, hb⟩ := intToBin_of_vars hw hl hq (e1.trans g1)
        obtain ⟨b', hb'⟩ := intToBin_of_vars hw' hl' hq' (by rw [hn]; exact e2.trans g2)
        exact Or.inr ⟨b, b', hb, hb'⟩
      · exact Or.inl ⟨_, fails h0 (e1.trans (t1.2 hc)), fails h0' (by rw [hn]; exact e2.trans (t2.2 hc))⟩
  · right
    refine ⟨⟨d, d, []⟩, ⟨d', d', []⟩, by simp only [QP.intToBin, if_neg h0], ?_⟩
    rw [← hcount] at h0
    simp only [QP.intToBin, if_neg h0]

end Verif
