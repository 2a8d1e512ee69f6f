import Verif.Proofs.Term4

/-! Termination with deaggregation: every round makes the measure smaller. -/

set_option linter.unusedSectionVars false

namespace Hylaa
open Spec
variable {K : Type} [Field K] [LinearOrder K] [IsStrictOrderedRing K] [JumpAt K]

/-- A queued replay. -/
structure QOk (σ : Core K) (g : Gt) (A : List ℕ) (e : ℕ × List ℕ) : Prop where
  node : ∃ nd, σ.nodes[e.1]? = some nd
  dead : ¬ NLive σ e.1
  kids : ∀ k ∈ e.2, k ∈ A ∧ g.hN k = g.hN e.1

/-- The invariant. -/
structure TI (E : Env K) (ρ : ℕ → ℕ) (σ : Core K) (g : Gt) (A : List ℕ) : Prop where
  tree : Tree E ρ σ g (σ.toOps.flatMap fun e => e.2) A
  curA : ∀ ν, σ.cur = some ν → ν ∈ A
  curL : σ.curState = none → σ.cur = none
  queue : ∀ e ∈ σ.queue, QOk σ g A e
  rep : ∀ r, σ.rep = some r → ∃ pn, RS E ρ σ g r.parent pn r.children r.toOps A

/-- The rank decreases along transitions (needed with urgent transitions only). -/
def Ranked (E : Env K) (ρ : ℕ → ℕ) : Prop := E.set.urgent = true →
  ∀ (i : ℕ) (l : List ℕ), E.ha.out[i]? = some l → ∀ ti ∈ l, ∀ t : Tr K, E.ha.trans[ti]? = some t → ρ t.dst < ρ i

theorem QOk.fr {σ σ' : Core K} {g g' : Gt} {A T : List ℕ} {b : ℕ} {e : ℕ × List ℕ} (h : QOk σ g A e)
    (hf : Fr T b σ g σ' g') : QOk σ' g' A e := by
  obtain ⟨nd, h1⟩ := h.node
  obtain ⟨l, a1, -⟩ := hf.node _ _ h1
  exact ⟨⟨_, a1⟩, by rw [hf.live]; exact h.dead, fun k hk => by rw [hf.hN]; exact h.kids k hk⟩

theorem TI.qT {E : Env K} {ρ : ℕ → ℕ} {σ : Core K} {g : Gt} {A T : List ℕ} (h : TI E ρ σ g A)
    (hT : ∀ ν ∈ T, ν ∈ A) : ∀ e ∈ σ.queue, (∃ nd, σ.nodes[e.1]? = some nd) ∧ e.1 ∉ T := fun e he =>
  ⟨(h.queue e he).node, fun hc => (h.queue e he).dead (h.tree.live _ (.inl (hT _ hc)))⟩

theorem TI.rT {E : Env K} {ρ : ℕ → ℕ} {σ : Core K} {g : Gt} {A T : List ℕ} (h : TI E ρ σ g A)
    (hT : ∀ ν ∈ T, ν ∈ A) : ∀ r, σ.rep = some r → (∃ nd, σ.nodes[r.parent]? = some nd) ∧ r.parent ∉ T :=
  fun r hr => by
    obtain ⟨pn, h1⟩ := h.rep r hr
    exact ⟨⟨pn, h1.par⟩, fun hc => h1.notA (hT _ hc)⟩

/-- A framed change that leaves the replay bookkeeping alone. -/
theorem TI.fr {E : Env K} {ρ : ℕ → ℕ} {σ σ' : Core K} {g g' : Gt} {A T : List ℕ} {b : ℕ} (h : TI E ρ σ g A)
    (hT : ∀ ν ∈ T, ν ∈ A) (hf : Fr T b σ g σ' g') (ht : Tree E ρ σ' g' (σ.toOps.flatMap fun e => e.2) A)
    (hq : σ'.queue = σ.queue) (hr : σ'.rep = σ.rep) (hc : ∀ ν, σ'.cur = some ν → ν ∈ A)
    (hl : σ'.curState = none → σ'.cur = none) : TI E ρ σ' g' A := by
  have e : σ'.toOps = σ.toOps := by unfold Core.toOps; rw [hr]
  refine ⟨by rw [e]; exact ht, hc, hl, fun x hx => ?_, fun r hr' => ?_⟩
  · rw [hq] at hx; exact (h.queue x hx).fr hf
  · rw [hr] at hr'
    obtain ⟨pn, h1⟩ := h.rep r hr'
    refine ⟨pn, h1.fr hT hf ?_⟩
    have : σ.toOps = r.toOps := by unfold Core.toOps; rw [hr']
    rw [← this]; exact ht

theorem curState_none {σ : Core K} (h : σ.cur = none) : σ.curState = none := by
  unfold Core.curState; rw [h]

theorem curState_some {σ : Core K} {ν : ℕ} {nd : Node} (h : σ.cur = some ν) (hn : σ.nodes[ν]? = some nd)
    (hl : nd.left = false) : σ.curState = some (ν, nd.state) := by
  unfold Core.curState; rw [h]; simp only [hn, hl]; simp

theorem left_append {nd : Node} (h : nd.left = false) {l : List NOp} (hl : ∀ x ∈ l, x.isLeft = false) :
    ({ nd with ops := nd.ops ++ l } : Node).left = false := by
  unfold Node.left at h ⊢
  simp only
  rcases List.eq_nil_or_concat l with rfl | ⟨l', x, rfl⟩
  · simpa using h
  · have hx := hl x (by simp)
    rw [List.concat_eq_append, ← List.append_assoc, List.getLast?_concat]
    cases x with
    | left => cases hx
    | inv => rfl
    | tr => rfl

/-! ### Recorded operations do not make a node left -/

theorem pushAll_nodes (ν s : ℕ) : ∀ (qs : List (ℕ × Bool)) (σ : Core K) {nd : Node}, σ.nodes[ν]? = some nd →
    ∃ l, (qs.foldl (fun σ q => σ.pushOp ν (.inv s q.1 q.2)) σ).nodes[ν]? = some { nd with ops := nd.ops ++ l } ∧
      ∀ x ∈ l, x.isLeft = false
  | [], σ, nd, h => ⟨[], by rw [List.append_nil]; exact h, by simp⟩
  | q :: qs, σ, nd, h => by
    rw [List.foldl_cons]
    have h1 : (σ.pushOp ν (.inv s q.1 q.2)).nodes[ν]? = some { nd with ops := nd.ops ++ [.inv s q.1 q.2] } := by
      rw [pushOp_nodes, h]; simp
    obtain ⟨l, a1, a2⟩ := pushAll_nodes ν s qs _ h1
    refine ⟨.inv s q.1 q.2 :: l, by rw [a1]; simp, fun x hx => ?_⟩
    rcases List.mem_cons.1 hx with rfl | hx
    · rfl
    · exact a2 x hx

theorem intersectCur_cur {E : Env K} {σ σ' : Core K} {f : Bool} (h : intersectCur E σ = .ok (σ', f)) :
    ∃ c, σ.curState = some c ∧ σ'.curState = some c := by
  have c0 := (intersectCur_soft h).choose_spec.choose_spec.choose_spec.2.2.2.1
  simp only [intersectCur, bind_ok, needSome_ok, pure_ok, Prod.mk.injEq] at h
  obtain ⟨c, hc, st, hst, m, -, ⟨st', f', qs⟩, hii, rfl, -⟩ := h
  obtain ⟨h1, nd, h2, h3, h4⟩ := curState_inv hc
  obtain ⟨l, a1, a2⟩ := pushAll_nodes c.1 st.stepIn qs (σ.setState c.2 st') h2
  exact ⟨c, hc, by rw [curState_some (c0.1.trans h1) a1 (left_append h4 a2)]; simp [h3]⟩

theorem guardLoop_nodes {E : Env K} {nid sid : ℕ} : ∀ (ts : List ℕ) {σ σ' : Core K} {nd : Node},
    σ.nodes[nid]? = some nd → guardLoop E nid sid σ ts = .ok σ' →
    ∃ l, σ'.nodes[nid]? = some { nd with ops := nd.ops ++ l } ∧ ∀ x ∈ l, x.isLeft = false
  | [], σ, σ', nd, hn, h => by cases h; exact ⟨[], by rw [List.append_nil]; exact hn, by simp⟩
  | ti :: ts, σ, σ', nd, hn, h => by
    simp only [guardLoop, bind_ok, needSome_ok] at h
    obtain ⟨st, hst, t, -, g, -, ⟨lp1, tl⟩, -, h⟩ := h
    simp only at h
    split at h
    · exact guardLoop_nodes ts (σ := σ.setState sid { st with lp := lp1 }) hn h
    · simp only [bind_ok, needSome_ok] at h
      obtain ⟨dst, -, ce, -, h⟩ := h
      generalize hσ2 : (if dst.isError = true then
          (σ.setState sid { st with lp := lp1 }).errorReached st.concrete ce
          else σ.setState sid { st with lp := lp1 }) = σ2 at h
      have n2 : σ2.nodes[nid]? = some nd := by
        rw [← hσ2, ← hn]
        split
        · unfold Core.errorReached; split <;> rfl
        · rfl
      split at h
      · cases h; exact ⟨[], by rw [List.append_nil]; exact n2, by simp⟩
      · simp only [bind_ok] at h
        obtain ⟨σ3, h3, σ4, h4, h5⟩ := h
        have n3 : ∃ l, σ3.nodes[nid]? = some { nd with ops := nd.ops ++ l } ∧ ∀ x ∈ l, x.isLeft = false := by
          simp only [addSuccessor, bind_ok, pure_ok] at h3
          obtain ⟨⟨σ2b, r⟩, hmk, rfl⟩ := h3
          rcases makeOp_shape hmk with ⟨rfl, rfl⟩ | ⟨rfl, c, post, -, -, -, -, -, rfl⟩
          · exact ⟨[], by rw [List.append_nil]; exact n2, by simp⟩
          · refine ⟨[.tr σ2.ops.length], ?_, by simp [NOp.isLeft]⟩
            simp only
            rw [pushOp_nodes]
            show (σ2.nodes[nid]?).map _ = _
            rw [n2]; simp
        obtain ⟨l, a1, a2⟩ := n3
        have n4 : σ4.nodes[nid]? = some { nd with ops := nd.ops ++ l } := by
          unfold ttCheck at h4
          split at h4
          · simp only [bind_ok, needSome_ok, pure_ok] at h4
            obtain ⟨_, -, _, -, _, -, rfl⟩ := h4
            exact a1
          · cases h4; exact a1
        obtain ⟨l', b1, b2⟩ := guardLoop_nodes ts n4 h5
        refine ⟨l ++ l', by rw [b1]; simp, fun x hx => ?_⟩
        rcases List.mem_append.1 hx with hx | hx
        · exact a2 x hx
        · exact b2 x hx

/-- `check_guards` on the current node. -/
theorem checkGuards_went {E : Env K} {ρ : ℕ → ℕ} (hρ : Ranked E ρ) {σ σ' : Core K} {g : Gt} {L A : List ℕ}
    {c : ℕ × ℕ} {st : SS K} (hT : Tree E ρ σ g L A) (hc : σ.curState = some c) (hA : c.1 ∈ A)
    (hst : σ.states[c.2]? = some st)
    (h1 : E.set.urgent = false → 1 ≤ st.stepIn ∧ 1 ≤ g.hN c.1)
    (h : checkGuards E σ = .ok σ') :
    Went E ρ [c.1] A (g.hN c.1) σ g σ' L ∧ σ'.curState = some c ∧
      ∃ st', σ'.states[c.2]? = some st' ∧ st'.steps = st.steps := by
  simp only [checkGuards, bind_ok, needSome_ok] at h
  obtain ⟨c', hc', st', hst', ts, hts, h⟩ := h
  rw [hc] at hc'; cases hc'
  rw [hst] at hst'; cases hst'
  obtain ⟨k1, nd, k2, k3, k4⟩ := curState_inv hc
  have hen : Enough E ρ st (g.hN c.1) := by
    obtain ⟨s, a1, a2⟩ := hT.ndSt c.1 nd k2
    rw [k3, hst] at a1; cases a1
    exact a2
  have hcs : ∀ {σ'' : Core K}, guardLoop E c.1 c.2 σ ts = .ok σ'' → SameCtl σ σ'' → σ''.curState = some c := by
    intro σ'' hg hs
    obtain ⟨l, n1, n2⟩ := guardLoop_nodes ts k2 hg
    rw [curState_some (hs.1.trans k1) n1 (left_append k4 n2)]; simp [k3]
  cases ts with
  | nil =>
    cases h
    exact ⟨⟨g, hT, .refl _ _ _ _, .refl _⟩, hc, st, hst, rfl⟩
  | cons t0 ts =>
    have hlt : E.set.urgent = true → ∀ ti ∈ t0 :: ts, ∀ t, E.ha.trans[ti]? = some t → ρ t.dst + 1 ≤ g.hN c.1 := by
      intro hu ti hti t ht
      have := hρ hu _ _ hts ti hti t ht
      have := hen.2 hu
      omega
    have hh : 1 ≤ g.hN c.1 := by
      cases hu : E.set.urgent with
      | false => exact (h1 hu).2
      | true =>
        have h' := h
        simp only [guardLoop, bind_ok, needSome_ok] at h'
        obtain ⟨_, -, t, ht, -⟩ := h'
        have := hlt hu t0 List.mem_cons_self t ht
        omega
    obtain ⟨w, r⟩ := guardLoop_went hA (t0 :: ts) hT k2 k3 hst (fun hu => (h1 hu).1) hh
      (fun hu ti hti t ht => by have := hlt hu ti hti t ht; omega) h
    exact ⟨w, hcs h w.choose_spec.2.2, r⟩

/-! ### Continuous post -/

theorem mes_left {E : Env K} {σ : Core K} (g : Gt) (h : σ.cur = none) :
    mes E σ g = mW σ g + mN σ g + mQ σ g + mR σ g := by
  unfold mes mC
  rw [curState_none h]; simp

theorem mes_cur {E : Env K} {σ : Core K} (g : Gt) {c : ℕ × ℕ} {st : SS K} (h : σ.curState = some c)
    (hs : σ.states[c.2]? = some st) :
    mes E σ g = mW σ g + mN σ g + mQ σ g + mR σ g + {tri (2 * g.hN c.1) 0 (E.set.numSteps - st.steps.1 + 1)} := by
  unfold mes mC
  rw [h]; simp only [stepsOf_eq hs]

/-- The parts of the measure other than the current node, after a framed change. -/
theorem TI.adds {E : Env K} {ρ : ℕ → ℕ} {σ σ' : Core K} {g g' : Gt} {A T : List ℕ} {b : ℕ} (h : TI E ρ σ g A)
    (hT : ∀ ν ∈ T, ν ∈ A) (hf : Fr T b σ g σ' g') (hq : σ'.queue = σ.queue) (hr : σ'.rep = σ.rep) (i j : ℕ) :
    MAdds (tri (2 * b) i j) (mW σ g + mN σ g + mQ σ g + mR σ g) (mW σ' g' + mN σ' g' + mQ σ' g' + mR σ' g') := by
  rw [hf.mN, hf.mQ hq (h.qT hT), hf.mR hr (h.rT hT)]
  exact ((hf.mW h.tree i j).add (.of_le le_rfl) |>.add (.of_le le_rfl)).add (.of_le le_rfl)

theorem Fr.state {T : List ℕ} {b : ℕ} {σ σ' : Core K} {g g' : Gt} (hf : Fr T b σ g σ' g') {ν : ℕ} {nd : Node}
    (h : σ.nodes[ν]? = some nd) : ∃ nd', σ'.nodes[ν]? = some nd' ∧ nd'.state = nd.state := by
  obtain ⟨l, a, -⟩ := hf.node ν nd h
  exact ⟨_, a, rfl⟩

theorem stepPost_dec {E : Env K} {ρ : ℕ → ℕ} (hρ : Ranked E ρ) {σ σ' : Core K} {g : Gt} {A : List ℕ}
    (hI : TI E ρ σ g A) (hf : σ.isFinished E = false) (h : stepPost E σ = .ok σ') :
    ∃ g', TI E ρ σ' g' A ∧ (mes E σ' g').IsDershowitzMannaLT (mes E σ g) := by
  simp only [stepPost, bind_ok, needSome_ok] at h
  obtain ⟨c, hc, st, hst, h⟩ := h
  obtain ⟨k1, nd, k2, k3, k4⟩ := curState_inv hc
  have hA := hI.curA c.1 k1
  have hAT : ∀ ν ∈ [c.1], ν ∈ A := by simpa using hA
  rw [hf] at h
  simp only [Bool.false_eq_true, if_false] at h
  have leave : ∀ {τ τ' : Core K} {g1 : Gt} {b : Bool}, Fr [c.1] (g.hN c.1) σ g τ g1 →
      Tree E ρ τ g1 (σ.toOps.flatMap fun e => e.2) A → SameCtl σ τ → τ.curState = some c →
      τ.leftInvariant b = .ok τ' →
      ∃ g', TI E ρ τ' g' A ∧ (mes E τ' g').IsDershowitzMannaLT (mes E σ g) := by
    intro τ τ' g1 b hfr ht hctl hcs hl
    obtain ⟨c', q1, q2, q3, q4, q5⟩ := leftInvariant_soft hl
    rw [hcs] at q1; cases q1
    have fr' := hfr.trans (q2.fr (g.hN c.1) g1)
    refine ⟨g1, hI.fr hAT fr' (ht.soft q2) (q4.trans hctl.2.1) (q5.trans hctl.2.2) (by rw [q3]; simp)
      fun _ => q3, ?_⟩
    rw [mes_left g1 q3]
    exact MAdds.lt' (mes_cur g hc hst) (hI.adds hAT fr' (q4.trans hctl.2.1) (q5.trans hctl.2.2) _ _)
  split at h
  · exact leave (.refl _ _ _ _) hI.tree (.refl _) hc h
  rename_i hN
  split at h
  · exact leave (τ := { σ with tookTt := false }) ((Soft.of_eq (τ' := { σ with tookTt := false }) (Soft.refl [c.1] σ) rfl rfl rfl rfl).fr _ _)
      (hI.tree.of_eq rfl rfl rfl rfl) ⟨rfl, rfl, rfl⟩ hc h
  simp only [bind_ok] at h
  obtain ⟨⟨σ1, f⟩, h1, h⟩ := h
  obtain ⟨c', st', st1, r1, r2, s1, c1, r3, r4, r5, r6⟩ := intersectCur_soft h1
  rw [hc] at r1; cases r1
  rw [hst] at r2; cases r2
  obtain ⟨c', r7, cs1⟩ := intersectCur_cur h1
  rw [hc] at r7; cases r7
  have f1 := s1.fr (g.hN c.1) g
  have t1 := hI.tree.soft s1
  simp only at h
  split at h
  · exact leave f1 t1 c1 cs1 h
  simp only [bind_ok, needSome_ok] at h
  obtain ⟨σ2, h2, σ3, h3, m, -, a, -, h⟩ := h
  obtain ⟨st1', st2, q1, s2, c2, n2, q2, q3, q4, q5⟩ := stepState_soft h2
  rw [r3] at q1; cases q1
  simp only [Option.getD_none] at q4 q5
  have f2 := f1.trans ((s2.fr (g.hN c.1) g).mono (T' := [c.1]) (by simp))
  have t2 := t1.soft s2
  have cs2 : σ2.curState = some c := by
    rw [← cs1]; unfold Core.curState; rw [c2.1, n2]
  have hsteps : st2.steps.1 = st.steps.1 + 1 := by rw [q5, r4]; omega
  have hen : Enough E ρ st2 (g.hN c.1) := by
    obtain ⟨b1, nd2, b2, b3, -⟩ := curState_inv cs2
    obtain ⟨s, a1, a2⟩ := t2.ndSt c.1 nd2 b2
    rw [b3, q2] at a1; cases a1
    exact a2
  obtain ⟨⟨g3, t3, f3, c3⟩, cs3, st3, d1, d2⟩ := checkGuards_went hρ t2 cs2 hA q2 (fun hu => by
    refine ⟨by omega, ?_⟩
    have := hen.1 hu
    omega) h3
  have f3' := f2.trans f3
  have c3' := (c1.trans c2).trans c3
  split at h
  · exact leave f3' t3 c3' cs3 h
  · cases h
    refine ⟨g3, hI.fr hAT f3' t3 c3'.2.1 c3'.2.2 (fun ν hν => hI.curA ν (by rw [← c3'.1]; exact hν))
      (fun hn => by rw [cs3] at hn; cases hn), ?_⟩
    rw [mes_cur g3 cs3 d1]
    refine MAdds.lt' (mes_cur g hc hst) ((hI.adds hAT f3' c3'.2.1 c3'.2.2 _ _).trans (.one _ (tri_lt (.inr ?_))))
    rw [f3'.hN, d2, hsteps]
    exact ⟨rfl, .inr ⟨rfl, by omega⟩⟩

end Hylaa
