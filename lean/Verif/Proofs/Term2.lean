import Verif.Proofs.Term

/-! Termination with deaggregation: what the functions of the computation do to the tree. -/

set_option linter.unusedSectionVars false

namespace Hylaa
open Spec
variable {K : Type} [Field K] [LinearOrder K] [IsStrictOrderedRing K] [JumpAt K]

/-- New operations of budget `b - 1` may be waiting; nodes outside `T` are untouched. -/
structure Fr (T : List ℕ) (b : ℕ) (σ : Core K) (g : Gt) (σ' : Core K) (g' : Gt) : Prop where
  len : σ'.nodes.length = σ.nodes.length
  node : ∀ (ν : ℕ) nd, σ.nodes[ν]? = some nd → ∃ l, σ'.nodes[ν]? = some { nd with ops := nd.ops ++ l } ∧
    (ν ∉ T → l = [])
  ops : ∀ (o : ℕ) op, σ.ops[o]? = some op → σ'.ops[o]? = some op
  hO : ∀ o < σ.ops.length, g'.hO o = g.hO o
  hN : g'.hN = g.hN
  D : g'.D = g.D
  wait : ∃ l, σ'.waiting = σ.waiting ++ l ∧ ∀ o ∈ l, o < σ'.ops.length ∧ g'.hO o + 1 = b
  live : ∀ a, NLive σ' a ↔ NLive σ a

theorem Fr.opsLen {T : List ℕ} {b : ℕ} {σ σ' : Core K} {g g' : Gt} (h : Fr T b σ g σ' g') :
    σ.ops.length ≤ σ'.ops.length := by
  by_contra hc
  have : σ'.ops.length < σ.ops.length := by omega
  have h1 := h.ops _ _ (List.getElem?_eq_getElem this)
  have := lt_of_getElem? h1
  omega

theorem Fr.refl (T : List ℕ) (b : ℕ) (σ : Core K) (g : Gt) : Fr T b σ g σ g :=
  ⟨rfl, fun _ nd h => ⟨[], by simpa using h, fun _ => rfl⟩, fun _ _ h => h, fun _ _ => rfl, rfl, rfl,
    ⟨[], by simp⟩, fun _ => Iff.rfl⟩

theorem Fr.trans {T : List ℕ} {b : ℕ} {σ τ υ : Core K} {g g1 g2 : Gt} (h : Fr T b σ g τ g1)
    (k : Fr T b τ g1 υ g2) : Fr T b σ g υ g2 := by
  refine ⟨k.len.trans h.len, fun ν nd hn => ?_, fun o op ho => k.ops o op (h.ops o op ho),
    fun o ho => (k.hO o (ho.trans_le h.opsLen)).trans (h.hO o ho), k.hN.trans h.hN, k.D.trans h.D, ?_,
    fun a => (k.live a).trans (h.live a)⟩
  · obtain ⟨l, a1, a2⟩ := h.node ν nd hn
    obtain ⟨l', b1, b2⟩ := k.node ν _ a1
    exact ⟨l ++ l', by rw [b1]; simp, fun hT => by rw [a2 hT, b2 hT]; rfl⟩
  · obtain ⟨l, a1, a2⟩ := h.wait
    obtain ⟨l', b1, b2⟩ := k.wait
    refine ⟨l ++ l', by rw [b1, a1, List.append_assoc], fun o ho => ?_⟩
    rcases List.mem_append.1 ho with ho | ho
    · exact ⟨(a2 o ho).1.trans_le k.opsLen, by rw [k.hO o (a2 o ho).1]; exact (a2 o ho).2⟩
    · exact b2 o ho

theorem Soft.fr {T : List ℕ} {σ σ' : Core K} (h : Soft T σ σ') (b : ℕ) (g : Gt) : Fr T b σ g σ' g :=
  ⟨h.len, fun ν nd hn => by obtain ⟨l, a1, -, a3⟩ := h.nodes ν nd hn; exact ⟨l, a1, a3⟩,
    fun o op ho => by rw [h.ops]; exact ho, fun _ _ => rfl, rfl, rfl, ⟨[], by rw [h.waiting]; simp⟩, h.live⟩

theorem withOp_fr {E : Env K} {ρ : ℕ → ℕ} {σ : Core K} {g : Gt} {L A w : List ℕ} (h : Tree E ρ σ g L A)
    (ν : ℕ) (op : OpTr K) (post : SS K) {b : ℕ} (hb : g.hN ν = b) (h1 : 1 ≤ b)
    (hw : w = σ.waiting ++ [σ.ops.length] ∨ w = σ.waiting) :
    Fr [ν] b σ g (withOp σ ν op post w) (g.addOp σ.ops.length (b - 1)) := by
  refine ⟨?_, fun μ nd hn => ?_, fun o op ho => append_keep ho, fun o ho => g.addOp_ne (by omega), rfl, rfl, ?_,
    fun a => withOp_live h ν op post w⟩
  · unfold withOp Core.pushOp; simp
  · rw [withOp_nodes, hn]
    by_cases hc : ν = μ
    · exact ⟨[.tr σ.ops.length], by simp [hc], fun hT => absurd (by simp [hc]) hT⟩
    · exact ⟨[], by simp [hc], fun _ => rfl⟩
  · have hl : (withOp σ ν op post w).ops.length = σ.ops.length + 1 := by
      show (σ.ops ++ [op]).length = _; simp
    have hw' : (withOp σ ν op post w).waiting = w := rfl
    rcases hw with rfl | rfl
    · refine ⟨[σ.ops.length], hw', fun o ho => ?_⟩
      simp only [List.mem_singleton] at ho
      subst ho
      exact ⟨by omega, by rw [g.addOp_eq]; omega⟩
    · exact ⟨[], by rw [hw']; simp, by simp⟩

/-! ### Changes without new operations -/

theorem Soft.setState {T : List ℕ} {σ : Core K} {sid : ℕ} {st st' : SS K} (h : σ.states[sid]? = some st)
    (hl : Later st st') : Soft T σ (σ.setState sid st') := by
  refine ⟨rfl, rfl, rfl, fun _ nd h => ⟨[], by rw [List.append_nil]; exact h, by simp, fun _ => rfl⟩,
    fun k s hk => ?_⟩
  by_cases hc : sid = k
  · subst hc
    rw [h] at hk; cases hk
    exact ⟨st', List.getElem?_set_self (lt_of_getElem? h), hl⟩
  · exact ⟨s, by simp only [Core.setState]; rw [List.getElem?_set_ne hc]; exact hk, .refl _⟩

theorem Soft.push (σ : Core K) (ν : ℕ) {x : NOp} (hx : x.isTr = false) : Soft [ν] σ (σ.pushOp ν x) := by
  refine ⟨rfl, rfl, by unfold Core.pushOp; simp, fun μ nd h => ?_, fun _ s h => ⟨s, h, .refl _⟩⟩
  rw [pushOp_nodes, h]
  by_cases hc : ν = μ
  · exact ⟨[x], by simp [hc], by simpa using hx, fun hT => absurd (by simp [hc]) hT⟩
  · exact ⟨[], by simp [hc], by simp, fun _ => rfl⟩

theorem Later.lp (st : SS K) (lp : Lp K) : Later st { st with lp := lp } := ⟨rfl, rfl, le_rfl⟩

theorem errorReached_soft (σ : Core K) (b : Bool) (ce : List (CeSeg K)) :
    Soft [] σ (σ.errorReached b ce) ∧ SameCtl σ (σ.errorReached b ce) := by
  unfold Core.errorReached
  split
  · exact ⟨(Soft.refl [] σ).of_eq rfl rfl rfl rfl, rfl, rfl, rfl⟩
  · exact ⟨(Soft.refl [] σ).of_eq rfl rfl rfl rfl, rfl, rfl, rfl⟩

theorem leftInvariant_soft {σ σ' : Core K} {b : Bool} (h : σ.leftInvariant b = .ok σ') :
    ∃ c, σ.curState = some c ∧ Soft [c.1] σ σ' ∧ σ'.cur = none ∧ σ'.queue = σ.queue ∧ σ'.rep = σ.rep := by
  simp only [Core.leftInvariant, bind_ok, needSome_ok, pure_ok] at h
  obtain ⟨c, hc, st, -, rfl⟩ := h
  exact ⟨c, hc, (Soft.push σ c.1 rfl).of_eq rfl rfl rfl rfl, rfl, rfl, rfl⟩

theorem pushAll_soft (ν s : ℕ) : ∀ (qs : List (ℕ × Bool)) (σ : Core K),
    Soft [ν] σ (qs.foldl (fun σ q => σ.pushOp ν (.inv s q.1 q.2)) σ) ∧
      SameCtl σ (qs.foldl (fun σ q => σ.pushOp ν (.inv s q.1 q.2)) σ) ∧
      (qs.foldl (fun σ q => σ.pushOp ν (.inv s q.1 q.2)) σ).states = σ.states
  | [], σ => ⟨.refl _ _, .refl _, rfl⟩
  | q :: qs, σ => by
    rw [List.foldl_cons]
    obtain ⟨h1, h2, h3⟩ := pushAll_soft ν s qs (σ.pushOp ν (.inv s q.1 q.2))
    exact ⟨(Soft.push σ ν rfl).trans h1, SameCtl.trans (τ := σ.pushOp ν (.inv s q.1 q.2)) ⟨rfl, rfl, rfl⟩ h2, h3⟩

theorem intersectCur_soft {E : Env K} {σ σ' : Core K} {f : Bool} (h : intersectCur E σ = .ok (σ', f)) :
    ∃ c st st', σ.curState = some c ∧ σ.states[c.2]? = some st ∧ Soft [c.1] σ σ' ∧ SameCtl σ σ' ∧
      σ'.states[c.2]? = some st' ∧ st'.steps = st.steps ∧ st'.mode = st.mode ∧ st'.stepIn = st.stepIn := by
  simp only [intersectCur, bind_ok, needSome_ok, pure_ok, Prod.mk.injEq] at h
  obtain ⟨c, hc, st, hst, m, -, ⟨st', f', qs⟩, hii, rfl, -⟩ := h
  have e := invLoop_like _ hii
  have hl : Later st st' := ⟨by rw [e], by rw [e], by rw [e]⟩
  obtain ⟨h1, h2, h3⟩ := pushAll_soft c.1 st.stepIn qs (σ.setState c.2 st')
  refine ⟨c, st, st', hc, hst, (Soft.setState hst hl).trans h1,
    SameCtl.trans (τ := σ.setState c.2 st') ⟨rfl, rfl, rfl⟩ h2, ?_, by rw [e], by rw [e], by rw [e]⟩
  rw [h3]; exact List.getElem?_set_self (lt_of_getElem? hst)

theorem approxCur_soft {E : Env K} {σ σ' : Core K} (h : approxCur E σ = .ok σ') :
    ∃ c st st', σ.curState = some c ∧ σ.states[c.2]? = some st ∧ Soft [] σ σ' ∧ SameCtl σ σ' ∧
      σ'.states[c.2]? = some st' ∧ st'.steps = st.steps ∧ st'.mode = st.mode ∧ st'.stepIn = st.stepIn := by
  obtain ⟨c, st, lp, β, te, hc, hst, -, rfl⟩ := approxCur_eq h
  exact ⟨c, st, { st with lp := lp, lggBeta := β }, hc, hst,
    (Soft.setState (st' := { st with lp := lp, lggBeta := β }) hst ⟨rfl, rfl, le_rfl⟩).of_eq rfl rfl rfl rfl,
    ⟨rfl, rfl, rfl⟩, List.getElem?_set_self (lt_of_getElem? hst), rfl, rfl, rfl⟩

theorem stepState_soft {E : Env K} {σ σ' : Core K} {sid : ℕ} {target : Option ℕ}
    (h : stepState E σ sid target = .ok σ') : ∃ st st', σ.states[sid]? = some st ∧ Soft [] σ σ' ∧
      SameCtl σ σ' ∧ σ'.nodes = σ.nodes ∧ σ'.states[sid]? = some st' ∧ st'.mode = st.mode ∧
      st'.stepIn = target.getD (st.stepIn + 1) ∧
      st'.steps.1 = st.steps.1 + (target.getD (st.stepIn + 1) - st.stepIn) := by
  simp only [stepState, bind_ok, needSome_ok, pure_ok] at h
  obtain ⟨st, hst, m, -, ⟨te, st'⟩, hs, rfl⟩ := h
  obtain ⟨e, hle⟩ := step_like hs
  have e1 : st'.mode = st.mode := by rw [e]
  have e2 : st'.stepIn = target.getD (st.stepIn + 1) := by rw [e]
  have e3 : st'.steps.1 = st.steps.1 + (target.getD (st.stepIn + 1) - st.stepIn) := by rw [e]
  exact ⟨st, st', hst, (Soft.setState hst ⟨e1, by omega, by omega⟩).of_eq rfl rfl rfl rfl, ⟨rfl, rfl, rfl⟩, rfl,
    List.getElem?_set_self (lt_of_getElem? hst), e1, e2, e3⟩

/-! ### Transitions -/

/-- The tree, the frame and the control state after some operations. -/
def Went (E : Env K) (ρ : ℕ → ℕ) (T A : List ℕ) (b : ℕ) (σ : Core K) (g : Gt) (σ' : Core K) (L' : List ℕ) : Prop :=
  ∃ g', Tree E ρ σ' g' L' A ∧ Fr T b σ g σ' g' ∧ SameCtl σ σ'

theorem Fr.mono {T T' : List ℕ} {b : ℕ} {σ σ' : Core K} {g g' : Gt} (h : Fr T b σ g σ' g')
    (hT : ∀ ν ∈ T, ν ∈ T') : Fr T' b σ g σ' g' :=
  { h with
    node := fun ν nd hn => by
      obtain ⟨l, a1, a2⟩ := h.node ν nd hn
      exact ⟨l, a1, fun hc => a2 fun hx => hc (hT ν hx)⟩ }

/-- `make_op_transition` and recording the operation. -/
theorem makeOp_went {E : Env K} {ρ : ℕ → ℕ} {σ σ1 : Core K} {g : Gt} {L A : List ℕ} (h : Tree E ρ σ g L A)
    {ν : ℕ} {nd : Node} {st : SS K} {ti : ℕ} {t : Tr K} {tlp : Lp K} {r : Option ℕ} (hA : ν ∈ A)
    (hn : σ.nodes[ν]? = some nd) (hs : σ.states[nd.state]? = some st) (ht : E.ha.trans[ti]? = some t)
    (h1 : E.set.urgent = false → 1 ≤ st.stepIn) (hh : 1 ≤ g.hN ν)
    (hf : E.set.urgent = true → ρ t.dst ≤ g.hN ν - 1)
    (hm : makeOp E σ ti t tlp st ν = .ok (σ1, r)) :
    (r = none ∧ σ1 = σ) ∨ (r = some σ.ops.length ∧ (∀ (k : ℕ) s, σ.states[k]? = some s → σ1.states[k]? = some s) ∧
      σ1.waiting = σ.waiting ∧ σ1.nodes = σ.nodes ∧ ∀ w L',
      ((w = σ.waiting ++ [σ.ops.length] ∧ L' = L) ∨ (w = σ.waiting ∧ L' = σ.ops.length :: L)) →
      Tree E ρ { σ1.pushOp ν (.tr σ.ops.length) with waiting := w } (g.addOp σ.ops.length (g.hN ν - 1)) L' A ∧
      Fr [ν] (g.hN ν) σ g { σ1.pushOp ν (.tr σ.ops.length) with waiting := w }
        (g.addOp σ.ops.length (g.hN ν - 1)) ∧
      SameCtl σ { σ1.pushOp ν (.tr σ.ops.length) with waiting := w }) := by
  rcases makeOp_shape hm with ⟨rfl, rfl⟩ | ⟨rfl, c, post, p1, p2, p3, p4, p5, rfl⟩
  · exact .inl ⟨rfl, rfl⟩
  · refine .inr ⟨rfl, fun k s hk => append_keep hk, rfl, rfl, fun w L' hw => ?_⟩
    exact ⟨h.addOp (c := c) hA hn hs ht h1 hh hf p1 p3 p4 hw,
      withOp_fr h ν _ post rfl hh (hw.imp (fun q => q.1) fun q => q.1), rfl, rfl, rfl⟩

theorem guardLoop_went {E : Env K} {ρ : ℕ → ℕ} {ν sid : ℕ} {L A : List ℕ} (hA : ν ∈ A) : ∀ (ts : List ℕ)
    {σ σ' : Core K} {g : Gt} {nd : Node} {st : SS K}, Tree E ρ σ g L A → σ.nodes[ν]? = some nd → nd.state = sid →
    σ.states[sid]? = some st → (E.set.urgent = false → 1 ≤ st.stepIn) → 1 ≤ g.hN ν →
    (E.set.urgent = true → ∀ ti ∈ ts, ∀ t, E.ha.trans[ti]? = some t → ρ t.dst ≤ g.hN ν - 1) →
    guardLoop E ν sid σ ts = .ok σ' → Went E ρ [ν] A (g.hN ν) σ g σ' L ∧
      ∃ st', σ'.states[sid]? = some st' ∧ st'.steps = st.steps
  | [], σ, σ', g, nd, st, hT, hn, hnd, hst, h1, hh, hf, h => by
    cases h; exact ⟨⟨g, hT, .refl _ _ _ _, .refl _⟩, st, hst, rfl⟩
  | ti :: ts, σ, σ', g, nd, st, hT, hn, hnd, hst, h1, hh, hf, h => by
    simp only [guardLoop, bind_ok, needSome_ok] at h
    obtain ⟨st', hst', t, ht, gd, -, ⟨lp1, tl⟩, -, h⟩ := h
    rw [hst] at hst'; cases hst'
    simp only at h
    have s1 : Soft [] σ (σ.setState sid { st with lp := lp1 }) := .setState hst (.lp _ _)
    have hst1 : (σ.setState sid { st with lp := lp1 }).states[sid]? = some { st with lp := lp1 } :=
      List.getElem?_set_self (lt_of_getElem? hst)
    have hf' : E.set.urgent = true → ∀ ti ∈ ts, ∀ t, E.ha.trans[ti]? = some t → ρ t.dst ≤ g.hN ν - 1 :=
      fun hu ti hti => hf hu ti (List.mem_cons_of_mem _ hti)
    have fr1 : ∀ g, Fr [ν] (g.hN ν) σ g (σ.setState sid { st with lp := lp1 }) g := fun g =>
      (s1.fr _ _).mono (by simp)
    split at h
    · obtain ⟨⟨g', a1, a2, a3⟩, a4⟩ := guardLoop_went hA ts (hT.soft s1) hn hnd hst1 h1 hh hf' h
      exact ⟨⟨g', a1, (fr1 g).trans a2, SameCtl.trans (τ := σ.setState sid { st with lp := lp1 }) ⟨rfl, rfl, rfl⟩ a3⟩, a4⟩
    · simp only [bind_ok, needSome_ok] at h
      obtain ⟨dst, -, ce, -, h⟩ := h
      generalize hσ2 : (if dst.isError = true then
          (σ.setState sid { st with lp := lp1 }).errorReached st.concrete ce
          else σ.setState sid { st with lp := lp1 }) = σ2 at h
      have k2 : Soft [] (σ.setState sid { st with lp := lp1 }) σ2 ∧ SameCtl (σ.setState sid { st with lp := lp1 }) σ2 ∧
          σ2.states = (σ.setState sid { st with lp := lp1 }).states ∧ σ2.nodes = σ.nodes := by
        rw [← hσ2]
        split
        · refine ⟨(errorReached_soft _ _ _).1, (errorReached_soft _ _ _).2, ?_, ?_⟩ <;>
            (unfold Core.errorReached; split <;> rfl)
        · exact ⟨.refl _ _, .refl _, rfl, rfl⟩
      obtain ⟨s2, c2, e2, n2⟩ := k2
      have s2' := s1.trans s2
      have c2' : SameCtl σ σ2 := SameCtl.trans (τ := σ.setState sid { st with lp := lp1 }) ⟨rfl, rfl, rfl⟩ c2
      have fr2 : Fr [ν] (g.hN ν) σ g σ2 g := (s2'.fr _ _).mono (by simp)
      have t2 := hT.soft s2'
      split at h
      · cases h
        exact ⟨⟨g, t2, fr2, c2'⟩, { st with lp := lp1 }, by rw [e2]; exact hst1, rfl⟩
      · simp only [bind_ok] at h
        obtain ⟨σ3, h3, σ4, h4, h5⟩ := h
        have hst2 : σ2.states[nd.state]? = some { st with lp := lp1 } := by rw [hnd, e2]; exact hst1
        have hn2 : σ2.nodes[ν]? = some nd := by rw [n2]; exact hn
        have k3 : ∃ g3 nd3, Tree E ρ σ3 g3 L A ∧ Fr [ν] (g.hN ν) σ2 g σ3 g3 ∧ SameCtl σ2 σ3 ∧
            σ3.nodes[ν]? = some nd3 ∧ nd3.state = sid ∧ σ3.states[sid]? = some { st with lp := lp1 } := by
          simp only [addSuccessor, bind_ok, pure_ok] at h3
          obtain ⟨⟨σ2b, r⟩, hmk, rfl⟩ := h3
          rcases makeOp_went t2 hA hn2 hst2 ht h1 hh (fun hu => hf hu ti List.mem_cons_self t ht) hmk with
            ⟨rfl, rfl⟩ | ⟨rfl, q1, q2, q3, q4⟩
          · exact ⟨g, nd, t2, .refl _ _ _ _, .refl _, hn2, hnd, by rw [← hnd]; exact hst2⟩
          · simp only
            obtain ⟨r1, r2, r3⟩ := q4 (σ2b.waiting ++ [σ2.ops.length]) L (.inl ⟨by rw [q2], rfl⟩)
            obtain ⟨l, n1, -⟩ := r2.node ν nd hn2
            exact ⟨_, _, r1, r2, r3, n1, hnd, q1 _ _ (by rw [← hnd]; exact hst2)⟩
        obtain ⟨g3, nd3, t3, f3, c3, n3, m3, s3⟩ := k3
        have k4 : ∃ st4, Soft [] σ3 σ4 ∧ SameCtl σ3 σ4 ∧ σ4.nodes = σ3.nodes ∧ σ4.states[sid]? = some st4 ∧
            st4.steps = st.steps ∧ st4.stepIn = st.stepIn := by
          unfold ttCheck at h4
          split at h4
          · simp only [bind_ok, needSome_ok, pure_ok] at h4
            obtain ⟨st5, hst5, src, -, r, -, rfl⟩ := h4
            rw [s3] at hst5; cases hst5
            exact ⟨{ st with lp := r.1 }, (Soft.setState s3 (.lp { st with lp := lp1 } r.1)).of_eq rfl rfl rfl rfl,
              ⟨rfl, rfl, rfl⟩, rfl, List.getElem?_set_self (lt_of_getElem? s3), rfl, rfl⟩
          · cases h4
            exact ⟨_, .refl _ _, .refl _, rfl, s3, rfl, rfl⟩
        obtain ⟨st4, s4, c4, n4, e4, d4, i4⟩ := k4
        have hg3 : g3.hN ν = g.hN ν := by rw [f3.hN]
        obtain ⟨⟨g', a1, a2, a3⟩, st', a4, a5⟩ := guardLoop_went hA ts (t3.soft s4) (by rw [n4]; exact n3) m3 e4
          (fun hu => by rw [i4]; exact h1 hu) (by rw [hg3]; exact hh) (by rw [hg3]; exact hf') h5
        rw [hg3] at a2
        exact ⟨⟨g', a1, ((fr2.trans f3).trans ((s4.fr _ _).mono (by simp))).trans a2,
          ((c2'.trans c3).trans c4).trans a3⟩, st', a4, a5.trans d4⟩

end Hylaa
