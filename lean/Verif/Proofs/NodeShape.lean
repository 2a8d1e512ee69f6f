import Verif.Proofs.Micro

/-! What `make_node` does to the heaps, whatever the solver answers. -/

set_option linter.unusedSectionVars false

namespace Hylaa
variable {K : Type} [Field K] [LinearOrder K] [IsStrictOrderedRing K]

theorem setLps_shape : ∀ (l : List (ℕ × Lp K)) (ss : List (SS K)),
    (l.foldl (fun ss p => ss.modify p.1 fun st => { st with lp := p.2 }) ss).length = ss.length ∧
    ∀ (k : ℕ) st, ss[k]? = some st → ∃ lp,
      (l.foldl (fun ss p => ss.modify p.1 fun st => { st with lp := p.2 }) ss)[k]? = some { st with lp := lp }
  | [], ss => ⟨rfl, fun k st h => ⟨st.lp, h⟩⟩
  | p :: l, ss => by
    obtain ⟨h1, h2⟩ := setLps_shape l (ss.modify p.1 fun st => { st with lp := p.2 })
    rw [List.foldl_cons]
    refine ⟨by rw [h1, List.length_modify], fun k st hk => ?_⟩
    have : ∃ lp, (ss.modify p.1 fun st => { st with lp := p.2 })[k]? = some { st with lp := lp } := by
      rw [List.getElem?_modify, hk]
      by_cases hp : p.1 = k
      · exact ⟨p.2, by simp [hp]⟩
      · exact ⟨st.lp, by simp [hp]⟩
    obtain ⟨lp, hlp⟩ := this
    obtain ⟨lp', hlp'⟩ := h2 k _ hlp
    exact ⟨lp', hlp'⟩

/-- Aggregation makes one new state set: not concrete, at step 0, with the whole step interval. -/
theorem aggregateOps_shape {E : Env K} {σ σ' : Core K} {ops : List ℕ} {os : List (OpTr K)}
    {sts : List (SS K)} {at_ : AggType} {st : SS K}
    (h : aggregateOps E σ ops os sts at_ = .ok (σ', st)) :
    (∃ ss, σ' = { σ with states := ss } ∧ ss.length = σ.states.length ∧
      ∀ (k : ℕ) s, σ.states[k]? = some s → ∃ lp, ss[k]? = some { s with lp := lp }) ∧
    (∃ s0, sts[0]? = some s0 ∧ st.mode = s0.mode) ∧
    st.concrete = false ∧ st.steps = stepInterval (sts.map fun s => s.steps) ∧ st.stepIn = 0 := by
  simp only [aggregateOps, bind_ok, needSome_ok] at h
  obtain ⟨st0, h0, m, -, h⟩ := h
  split at h
  · simp only [bind_ok, pure_ok, Prod.mk.injEq] at h
    obtain ⟨lp, -, st1, h1, rfl, rfl⟩ := h
    obtain ⟨a1, a2, a3, a4, -⟩ := SS.make_like h1
    exact ⟨⟨σ.states, rfl, rfl, fun k s hk => ⟨s.lp, hk⟩⟩, ⟨st0, h0, a1⟩, a2, a3, a4⟩
  · simp only [bind_ok, needSome_ok, pure_ok, Prod.mk.injEq] at h
    obtain ⟨a, -, o, -, dirs, -, r, -, st1, h1, rfl, rfl⟩ := h
    obtain ⟨a1, a2, a3, a4, -⟩ := SS.make_like h1
    obtain ⟨b1, b2⟩ := setLps_shape ((os.map fun o => o.post).zip r.1) σ.states
    exact ⟨⟨_, rfl, b1, b2⟩, ⟨st0, h0, a1⟩, a2, a3, a4⟩

/-- **`make_node`**: one operation keeps its own state set; several get a new one. -/
theorem makeNode_shape {E : Env K} {σ σ' : Core K} {ids : List ℕ} {at_ : Option AggType}
    {s : Option String} {nid : ℕ} (h : makeNode E σ ids at_ s = .ok (σ', nid)) :
    ∃ ss rts sid os sts, σ' = { σ with
        states := ss
        roots := rts
        nodes := σ.nodes ++ [{ state := sid, parents := ids, agg := at_ }]
        ops := ids.foldl (fun l o => l.modify o fun x =>
          { x with child := some σ.nodes.length }) σ.ops } ∧
      nid = σ.nodes.length ∧
      List.Forall₂ (fun o op => σ.ops[o]? = some op) ids os ∧
      List.Forall₂ (fun op st => σ.states[op.post]? = some st) os sts ∧
      (∀ (k : ℕ) st, σ.states[k]? = some st → ∃ st', ss[k]? = some st' ∧ st.Like st' ∧
        st'.steps = st.steps ∧ st'.stepIn = st.stepIn) ∧
      ((∃ o op, ids = [o] ∧ σ.ops[o]? = some op ∧ sid = op.post ∧ ss.length = σ.states.length) ∨
       (2 ≤ ids.length ∧ sid = σ.states.length ∧ ss.length = σ.states.length + 1 ∧
        ∃ st s0, ss[sid]? = some st ∧ st.concrete = false ∧
          st.steps = stepInterval (sts.map fun s => s.steps) ∧ st.stepIn = 0 ∧
          sts[0]? = some s0 ∧ st.mode = s0.mode)) := by
  simp only [makeNode, bind_ok, needSome_ok, pure_ok, Prod.mk.injEq] at h
  obtain ⟨os, hos, sts, hsts, ⟨σ1, sid⟩, hns, st, hst, rfl, rfl⟩ := h
  have fos := mapM_needSome hos
  have fsts := mapM_needSome hsts
  simp only at hst ⊢
  unfold nodeState at hns
  split at hns
  · rename_i o
    cases hns
    cases fos with
    | @cons p _ _ _ hp ht =>
      cases ht
      refine ⟨_, _, o.post, [o], sts, rfl, rfl, .cons hp .nil, fsts, ?_,
        .inl ⟨p, o, rfl, hp, rfl, by simp [Core.setState]⟩⟩
      intro k s' hk
      by_cases hc : o.post = k
      · subst hc
        rw [hst] at hk; cases hk
        exact ⟨_, List.getElem?_set_self (lt_of_getElem? hst), ⟨rfl, rfl, rfl⟩, rfl, rfl⟩
      · exact ⟨s', by simp only [Core.setState]; rw [List.getElem?_set_ne hc]; exact hk, ⟨rfl, rfl, rfl⟩, rfl, rfl⟩
  · rename_i hne
    simp only [bind_ok, needSome_ok, pure_ok, Prod.mk.injEq] at hns
    obtain ⟨at', -, ⟨σ2, st2⟩, hagg, rfl, rfl⟩ := hns
    obtain ⟨⟨ss, rfl, c2, c3⟩, ⟨s0, c4, c5⟩, c6, c7, c8⟩ := aggregateOps_shape hagg
    simp only at hst ⊢
    rw [List.getElem?_concat_length] at hst
    cases hst
    have hlen : 2 ≤ ids.length := by
      have h1 : sts.length ≠ 0 := fun h => by
        rw [List.length_eq_zero_iff] at h; rw [h] at c4; cases c4
      have h2 := fos.length_eq
      have h3 := fsts.length_eq
      by_contra hc
      have : os.length = 1 := by omega
      obtain ⟨o, rfl⟩ := List.length_eq_one_iff.1 this
      exact hne o rfl
    refine ⟨_, _, ss.length, os, sts, rfl, rfl, fos, fsts, ?_, .inr ⟨hlen, c2, by simp [Core.setState, c2],
      _, s0, List.getElem?_set_self (by simp), c6, c7, c8, c4, c5⟩⟩
    intro k s' hk
    obtain ⟨lp, hlp⟩ := c3 k s' hk
    have hkl := lt_of_getElem? hlp
    refine ⟨{ s' with lp := lp }, ?_, ⟨rfl, rfl, rfl⟩, rfl, rfl⟩
    simp only [Core.setState]
    rw [List.getElem?_set_ne (by omega)]
    exact append_keep hlp

end Hylaa
