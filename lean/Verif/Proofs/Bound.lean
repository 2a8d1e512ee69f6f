import Verif.Proofs.NodeShape

/-!
# Steps and progress of the computation

`Quiet`: no state set's step count changes.  What each part of a round does to the step counts, the
waiting list and the current node.  Nothing is assumed about the automaton or the solver.
-/

set_option linter.unusedSectionVars false

namespace Hylaa
variable {K : Type} [Field K] [LinearOrder K] [IsStrictOrderedRing K]

/-- State sets keep mode and step count; new ones have the step count of an old one; operations keep
their state set, nodes theirs. -/
structure Quiet (σ σ' : Core K) : Prop where
  fwd : ∀ (k : ℕ) (st : SS K), σ.states[k]? = some st →
    ∃ st', σ'.states[k]? = some st' ∧ st'.mode = st.mode ∧ st'.steps.1 = st.steps.1
  back : ∀ st' ∈ σ'.states, ∃ st ∈ σ.states, st'.steps.1 = st.steps.1
  op : ∀ (o : ℕ) (op : OpTr K), σ.ops[o]? = some op → ∃ op', σ'.ops[o]? = some op' ∧ op'.post = op.post
  node : ∀ (k : ℕ) (n : Node), σ.nodes[k]? = some n → ∃ n', σ'.nodes[k]? = some n' ∧ n'.state = n.state

theorem Quiet.refl (σ : Core K) : Quiet σ σ :=
  ⟨fun _ st h => ⟨st, h, rfl, rfl⟩, fun st h => ⟨st, h, rfl⟩, fun _ op h => ⟨op, h, rfl⟩,
   fun _ n h => ⟨n, h, rfl⟩⟩

theorem Quiet.trans {σ τ ρ : Core K} (h : Quiet σ τ) (g : Quiet τ ρ) : Quiet σ ρ := by
  refine ⟨fun k st hk => ?_, fun st hs => ?_, fun o op ho => ?_, fun k n hn => ?_⟩
  · obtain ⟨a, h1, h2, h3⟩ := h.fwd k st hk
    obtain ⟨b, g1, g2, g3⟩ := g.fwd k a h1
    exact ⟨b, g1, g2.trans h2, g3.trans h3⟩
  · obtain ⟨a, h1, h2⟩ := g.back st hs
    obtain ⟨b, g1, g2⟩ := h.back a h1
    exact ⟨b, g1, h2.trans g2⟩
  · obtain ⟨a, h1, h2⟩ := h.op o op ho
    obtain ⟨b, g1, g2⟩ := g.op o a h1
    exact ⟨b, g1, g2.trans h2⟩
  · obtain ⟨a, h1, h2⟩ := h.node k n hn
    obtain ⟨b, g1, g2⟩ := g.node k a h1
    exact ⟨b, g1, g2.trans h2⟩

/-- The parts of the heap other than state sets, operations and nodes are irrelevant. -/
theorem Quiet.of_eq {σ τ σ' τ' : Core K} (h : Quiet σ τ) (h1 : σ'.states = σ.states)
    (h2 : σ'.ops = σ.ops) (h3 : σ'.nodes = σ.nodes) (g1 : τ'.states = τ.states)
    (g2 : τ'.ops = τ.ops) (g3 : τ'.nodes = τ.nodes) : Quiet σ' τ' := by
  refine ⟨?_, ?_, ?_, ?_⟩
  · rw [h1, g1]; exact h.fwd
  · rw [h1, g1]; exact h.back
  · rw [h2, g2]; exact h.op
  · rw [h3, g3]; exact h.node

theorem Quiet.setState {σ : Core K} {sid : ℕ} {st st' : SS K} (h : σ.states[sid]? = some st)
    (h1 : st'.mode = st.mode) (h2 : st'.steps.1 = st.steps.1) : Quiet σ (σ.setState sid st') := by
  refine ⟨fun k s hk => ?_, fun s hs => ?_, fun o op ho => ⟨op, ho, rfl⟩, fun k n hn => ⟨n, hn, rfl⟩⟩
  · by_cases hc : sid = k
    · subst hc
      rw [h] at hk; cases hk
      exact ⟨st', List.getElem?_set_self (lt_of_getElem? h), h1, h2⟩
    · exact ⟨s, by simp only [Core.setState]; rw [List.getElem?_set_ne hc]; exact hk, rfl, rfl⟩
  · rcases List.mem_or_eq_of_mem_set hs with hm | rfl
    · exact ⟨s, hm, rfl⟩
    · exact ⟨st, List.mem_of_getElem? h, h2⟩

theorem Quiet.pushOp (σ : Core K) (ν : ℕ) (x : NOp) : Quiet σ (σ.pushOp ν x) := by
  refine ⟨fun k s hk => ⟨s, hk, rfl, rfl⟩, fun s hs => ⟨s, hs, rfl⟩, fun o op ho => ⟨op, ho, rfl⟩,
    fun k n hn => ?_⟩
  rw [pushOp_nodes, hn]
  by_cases hc : ν = k
  · exact ⟨{ n with ops := n.ops ++ [x] }, by simp [hc], rfl⟩
  · exact ⟨n, by simp [hc], rfl⟩

theorem Quiet.addOp {σ : Core K} {st post : SS K} {op : OpTr K} (hst : st ∈ σ.states)
    (h : post.steps.1 = st.steps.1) :
    Quiet σ { σ with ops := σ.ops ++ [op], states := σ.states ++ [post] } := by
  refine ⟨fun k s hk => ⟨s, append_keep hk, rfl, rfl⟩, fun s hs => ?_,
    fun o p ho => ⟨p, append_keep ho, rfl⟩, fun k n hn => ⟨n, hn, rfl⟩⟩
  rcases List.mem_append.1 hs with hs | hs
  · exact ⟨s, hs, rfl⟩
  · rw [List.mem_singleton] at hs; subst hs; exact ⟨st, hst, h⟩

theorem Quiet.errorReached (σ : Core K) (b : Bool) (ce : List (CeSeg K)) : Quiet σ (σ.errorReached b ce) := by
  unfold Core.errorReached
  split
  · exact (Quiet.refl σ).of_eq rfl rfl rfl rfl rfl rfl
  · exact (Quiet.refl σ).of_eq rfl rfl rfl rfl rfl rfl

/-- The parts of the heap the search is driven by. -/
def SameCtl (σ σ' : Core K) : Prop := σ'.cur = σ.cur ∧ σ'.queue = σ.queue ∧ σ'.rep = σ.rep

theorem SameCtl.refl (σ : Core K) : SameCtl σ σ := ⟨rfl, rfl, rfl⟩

theorem SameCtl.trans {σ τ ρ : Core K} (h : SameCtl σ τ) (g : SameCtl τ ρ) : SameCtl σ ρ :=
  ⟨g.1.trans h.1, g.2.1.trans h.2.1, g.2.2.trans h.2.2⟩

theorem errorReached_ctl (σ : Core K) (b : Bool) (ce : List (CeSeg K)) :
    SameCtl σ (σ.errorReached b ce) ∧ (σ.errorReached b ce).waiting = σ.waiting := by
  unfold Core.errorReached
  split <;> exact ⟨⟨rfl, rfl, rfl⟩, rfl⟩

/-- The waiting list grew by at most `k` operations whose sets satisfy `P` (mode, steps). -/
def Grew (k : ℕ) (P : SS K → Prop) (σ σ' : Core K) : Prop :=
  ∃ l : List ℕ, σ'.waiting = σ.waiting ++ l ∧ l.length ≤ k ∧
    ∀ o ∈ l, ∃ op st, σ'.ops[o]? = some op ∧ σ'.states[op.post]? = some st ∧ P st

/-- `add_transition_successor` -/
theorem addSuccessor_bound {E : Env K} {σ σ' : Core K} {ti : ℕ} {t : Tr K} {tlp : Lp K}
    {st : SS K} {nid : ℕ} (hst : st ∈ σ.states)
    (h : addSuccessor E σ ti t tlp st nid = .ok σ') :
    Quiet σ σ' ∧ SameCtl σ σ' ∧ Grew 1 (fun s => s.mode = t.dst ∧ s.steps.1 = st.steps.1) σ σ' := by
  simp only [addSuccessor, bind_ok, pure_ok] at h
  obtain ⟨⟨σ1, r⟩, h1, rfl⟩ := h
  rcases makeOp_shape h1 with ⟨rfl, rfl⟩ | ⟨rfl, c, post, p1, p2, p3, p4, -, rfl⟩
  · exact ⟨Quiet.refl _, SameCtl.refl _, [], by simp, by simp, by simp⟩
  · have q := Quiet.addOp (op := OpTr.mk st.stepIn (some nid) none (some ti) σ.states.length c) hst (by rw [p3] : post.steps.1 = st.steps.1)
    refine ⟨(q.trans (Quiet.pushOp _ nid (.tr σ.ops.length))).of_eq rfl rfl rfl rfl rfl rfl,
      ⟨rfl, rfl, rfl⟩, [σ.ops.length], rfl, by simp, ?_⟩
    intro o ho
    rw [List.mem_singleton] at ho
    subst ho
    exact ⟨_, post, List.getElem?_concat_length, List.getElem?_concat_length, p1, by rw [p3]⟩

theorem ttCheck_bound {E : Env K} {σ σ' : Core K} {t : Tr K} {g : Csr K × List K} {sid : ℕ}
    (h : ttCheck E σ t g sid = .ok σ') : Quiet σ σ' ∧ SameCtl σ σ' ∧ σ'.waiting = σ.waiting := by
  unfold ttCheck at h
  split at h
  · simp only [bind_ok, needSome_ok, pure_ok] at h
    obtain ⟨st, hst, src, -, r, -, rfl⟩ := h
    exact ⟨(Quiet.setState (st' := { st with lp := r.1 }) hst rfl rfl).of_eq rfl rfl rfl rfl rfl rfl,
      ⟨rfl, rfl, rfl⟩, rfl⟩
  · cases h; exact ⟨Quiet.refl _, SameCtl.refl _, rfl⟩

theorem Grew.trans {k l : ℕ} {P : SS K → Prop} {σ τ ρ : Core K} (h : Grew k P σ τ) (g : Grew l P τ ρ)
    (q : Quiet τ ρ) (hP : ∀ s s' : SS K, s'.mode = s.mode → s'.steps.1 = s.steps.1 → P s → P s') :
    Grew (k + l) P σ ρ := by
  obtain ⟨a, a1, a2, a3⟩ := h
  obtain ⟨b, b1, b2, b3⟩ := g
  refine ⟨a ++ b, by rw [b1, a1, List.append_assoc], by rw [List.length_append]; omega, ?_⟩
  intro o ho
  rcases List.mem_append.1 ho with ho | ho
  · obtain ⟨op, st, c1, c2, c3⟩ := a3 o ho
    obtain ⟨op', d1, d2⟩ := q.op o op c1
    obtain ⟨st', e1, e2, e3⟩ := q.fwd _ _ c2
    exact ⟨op', st', d1, by rw [d2]; exact e1, hP _ _ e2 e3 c3⟩
  · exact b3 o ho

theorem Grew.zero {P : SS K → Prop} {σ τ : Core K} (h : τ.waiting = σ.waiting) : Grew 0 P σ τ :=
  ⟨[], by simp [h], by simp, by simp⟩

theorem Grew.mono {k l : ℕ} {P Q : SS K → Prop} {σ τ : Core K} (h : Grew k P σ τ) (hk : k ≤ l)
    (hP : ∀ s, P s → Q s) : Grew l Q σ τ := by
  obtain ⟨a, a1, a2, a3⟩ := h
  refine ⟨a, a1, a2.trans hk, fun o ho => ?_⟩
  obtain ⟨op, st, c1, c2, c3⟩ := a3 o ho
  exact ⟨op, st, c1, c2, hP _ c3⟩

/-- The loop over the outgoing transitions: at most one new waiting operation for each, in the
transition's target mode, with the step count of the set. -/
theorem guardLoop_bound {E : Env K} {nid sid : ℕ} : ∀ (ts : List ℕ) {σ σ' : Core K} {st : SS K},
    σ.states[sid]? = some st → guardLoop E nid sid σ ts = .ok σ' →
    Quiet σ σ' ∧ SameCtl σ σ' ∧
      Grew ts.length (fun s => (∃ ti ∈ ts, ∃ t, E.ha.trans[ti]? = some t ∧ s.mode = t.dst) ∧
        s.steps.1 = st.steps.1) σ σ'
  | [], σ, σ', st, _, h => by cases h; exact ⟨Quiet.refl _, SameCtl.refl _, Grew.zero rfl⟩
  | ti :: ts, σ, σ', st, hst, h => by
    simp only [guardLoop, bind_ok, needSome_ok] at h
    obtain ⟨st1, hst1, t, ht, g, -, ⟨lp1, tl⟩, -, h⟩ := h
    rw [hst] at hst1; cases hst1
    have q1 : Quiet σ (σ.setState sid { st with lp := lp1 }) := .setState hst rfl rfl
    have s1 : (σ.setState sid { st with lp := lp1 }).states[sid]? = some { st with lp := lp1 } :=
      List.getElem?_set_self (lt_of_getElem? hst)
    have hP : ∀ s s' : SS K, s'.mode = s.mode → s'.steps.1 = s.steps.1 →
        ((∃ tj ∈ ti :: ts, ∃ t, E.ha.trans[tj]? = some t ∧ s.mode = t.dst) ∧ s.steps.1 = st.steps.1) →
        ((∃ tj ∈ ti :: ts, ∃ t, E.ha.trans[tj]? = some t ∧ s'.mode = t.dst) ∧ s'.steps.1 = st.steps.1) := by
      rintro s s' a b ⟨⟨tj, c1, t, c2, c3⟩, c4⟩
      exact ⟨⟨tj, c1, t, c2, a.trans c3⟩, b.trans c4⟩
    have weak : ∀ s : SS K, ((∃ tj ∈ ts, ∃ t, E.ha.trans[tj]? = some t ∧ s.mode = t.dst) ∧
        s.steps.1 = st.steps.1) →
        ((∃ tj ∈ ti :: ts, ∃ t, E.ha.trans[tj]? = some t ∧ s.mode = t.dst) ∧ s.steps.1 = st.steps.1) := by
      rintro s ⟨⟨tj, c1, c2⟩, c3⟩
      exact ⟨⟨tj, List.mem_cons_of_mem _ c1, c2⟩, c3⟩
    simp only at h
    split at h
    · obtain ⟨a1, a2, a3⟩ := guardLoop_bound ts s1 h
      refine ⟨q1.trans a1, (SameCtl.refl σ).trans a2, ?_⟩
      obtain ⟨l, b1, b2, b3⟩ := Grew.mono a3 (Nat.le_succ _) weak
      exact ⟨l, b1, b2, b3⟩
    · simp only [bind_ok, needSome_ok] at h
      obtain ⟨dst, -, ce, -, h⟩ := h
      generalize hτ : (if dst.isError = true then
          (σ.setState sid { st with lp := lp1 }).errorReached st.concrete ce
          else σ.setState sid { st with lp := lp1 }) = τ at h
      have q2 : Quiet (σ.setState sid { st with lp := lp1 }) τ ∧
          SameCtl (σ.setState sid { st with lp := lp1 }) τ ∧
          τ.waiting = σ.waiting ∧ τ.states[sid]? = some { st with lp := lp1 } := by
        rw [← hτ]
        split
        · obtain ⟨c1, c2⟩ := errorReached_ctl (σ.setState sid { st with lp := lp1 }) st.concrete ce
          refine ⟨Quiet.errorReached _ _ _, c1, c2, ?_⟩
          unfold Core.errorReached
          split <;> exact s1
        · exact ⟨Quiet.refl _, SameCtl.refl _, rfl, s1⟩
      obtain ⟨r1, r2, r3, r4⟩ := q2
      split at h
      · cases h
        exact ⟨q1.trans r1, (SameCtl.refl σ).trans r2, Grew.mono (Grew.zero r3) (Nat.zero_le _) fun _ h => h⟩
      · simp only [bind_ok] at h
        obtain ⟨σ1, h1, σ2, h2, h3⟩ := h
        obtain ⟨a1, a2, a3⟩ := addSuccessor_bound (List.mem_of_getElem? r4) h1
        obtain ⟨b1, b2, b3⟩ := ttCheck_bound h2
        obtain ⟨st2, d1, d2, d3⟩ := (a1.trans b1).fwd _ _ r4
        obtain ⟨e1, e2, e3⟩ := guardLoop_bound ts d1 h3
        have d3' : st2.steps.1 = st.steps.1 := d3
        refine ⟨((q1.trans r1).trans (a1.trans b1)).trans e1,
          ((SameCtl.refl σ).trans r2).trans ((a2.trans b2).trans e2), ?_⟩
        have g0 : Grew 0 (fun s : SS K => (∃ tj ∈ ti :: ts, ∃ t, E.ha.trans[tj]? = some t ∧ s.mode = t.dst) ∧
            s.steps.1 = st.steps.1) σ τ := Grew.zero r3
        have g1 := Grew.trans g0 (Grew.mono (Q := fun s : SS K =>
          (∃ tj ∈ ti :: ts, ∃ t, E.ha.trans[tj]? = some t ∧ s.mode = t.dst) ∧ s.steps.1 = st.steps.1)
          a3 le_rfl fun s hs => ⟨⟨ti, List.mem_cons_self, t, ht, hs.1⟩, hs.2⟩) a1 hP
        have g2 := Grew.trans g1 (Grew.zero b3) b1 hP
        have g3 := Grew.trans g2 (Grew.mono e3 le_rfl (fun s hs => weak s ⟨hs.1, hs.2.trans d3'⟩)) e1 hP
        refine Grew.mono g3 ?_ fun _ h => h
        rw [List.length_cons]; omega

theorem pushAll_bound (ν s : ℕ) : ∀ (qs : List (ℕ × Bool)) (σ : Core K),
    Quiet σ (qs.foldl (fun σ q => σ.pushOp ν (.inv s q.1 q.2)) σ) ∧
    SameCtl σ (qs.foldl (fun σ q => σ.pushOp ν (.inv s q.1 q.2)) σ) ∧
    (qs.foldl (fun σ q => σ.pushOp ν (.inv s q.1 q.2)) σ).waiting = σ.waiting ∧
    (qs.foldl (fun σ q => σ.pushOp ν (.inv s q.1 q.2)) σ).states = σ.states
  | [], σ => ⟨Quiet.refl _, SameCtl.refl _, rfl, rfl⟩
  | q :: qs, σ => by
    rw [List.foldl_cons]
    obtain ⟨a1, a2, a3, a4⟩ := pushAll_bound ν s qs (σ.pushOp ν (.inv s q.1 q.2))
    exact ⟨(Quiet.pushOp σ ν _).trans a1, (SameCtl.refl σ).trans a2, a3, a4⟩

theorem intersectCur_bound {E : Env K} {σ σ' : Core K} {f : Bool} (h : intersectCur E σ = .ok (σ', f)) :
    Quiet σ σ' ∧ SameCtl σ σ' ∧ σ'.waiting = σ.waiting := by
  simp only [intersectCur, bind_ok, needSome_ok, pure_ok, Prod.mk.injEq] at h
  obtain ⟨c, -, st, hst, m, -, ⟨st', f', qs⟩, hii, rfl, -⟩ := h
  have e := invLoop_like _ hii
  have q : Quiet σ (σ.setState c.2 st') := .setState hst (by rw [e]) (by rw [e])
  obtain ⟨a1, a2, a3, -⟩ := pushAll_bound c.1 st.stepIn qs (σ.setState c.2 st')
  exact ⟨q.trans a1, (SameCtl.refl σ).trans a2, a3⟩

theorem approxCur_bound {E : Env K} {σ σ' : Core K} (h : approxCur E σ = .ok σ') :
    Quiet σ σ' ∧ σ'.waiting = σ.waiting ∧ σ'.cur = σ.cur ∧ σ'.queue = σ.queue ∧ σ'.rep = σ.rep := by
  obtain ⟨c, st, lp, β, te, -, hst, -, rfl⟩ := approxCur_eq h
  exact ⟨(Quiet.setState (st' := { st with lp := lp, lggBeta := β }) hst rfl rfl).of_eq rfl rfl rfl rfl rfl rfl,
    rfl, rfl, rfl, rfl⟩

theorem leftInvariant_bound {σ σ' : Core K} {b : Bool} (h : σ.leftInvariant b = .ok σ') :
    Quiet σ σ' ∧ σ'.waiting = σ.waiting ∧ σ'.cur = none ∧ σ'.queue = σ.queue ∧ σ'.rep = σ.rep := by
  simp only [Core.leftInvariant, bind_ok, needSome_ok, pure_ok] at h
  obtain ⟨c, -, st, -, rfl⟩ := h
  exact ⟨(Quiet.pushOp σ c.1 (.left st.stepIn b)).of_eq rfl rfl rfl rfl rfl rfl, rfl, rfl, rfl, rfl⟩

/-- One continuous step: the set's own step count goes up by one, nothing else changes. -/
theorem stepState_bound {E : Env K} {σ σ' : Core K} {sid : ℕ} {st : SS K} (hst : σ.states[sid]? = some st)
    (h : stepState E σ sid none = .ok σ') :
    ∃ st', σ'.states = σ.states.set sid st' ∧ st'.mode = st.mode ∧ st'.steps.1 = st.steps.1 + 1 ∧
      σ'.ops = σ.ops ∧ σ'.nodes = σ.nodes ∧ σ'.waiting = σ.waiting ∧ SameCtl σ σ' := by
  simp only [stepState, bind_ok, needSome_ok, pure_ok] at h
  obtain ⟨st1, hst1, m, -, ⟨te, st'⟩, hs, rfl⟩ := h
  rw [hst] at hst1; cases hst1
  have e := (step_like hs).1
  refine ⟨st', rfl, by rw [e], ?_, rfl, rfl, rfl, rfl, rfl, rfl⟩
  rw [e]
  simp

theorem setChild_bound (c : ℕ) : ∀ (ids : List ℕ) (l : List (OpTr K)) (o : ℕ) (op : OpTr K), l[o]? = some op →
    ∃ op', (ids.foldl (fun l o => l.modify o fun x => { x with child := some c }) l)[o]? = some op' ∧
      op'.post = op.post
  | [], l, o, op, h => ⟨op, h, rfl⟩
  | i :: ids, l, o, op, h => by
    rw [List.foldl_cons]
    have : ∃ op1 : OpTr K, (l.modify i fun x => { x with child := some c })[o]? = some op1 ∧ op1.post = op.post := by
      rw [List.getElem?_modify, h]
      by_cases hc : i = o
      · exact ⟨{ op with child := some c }, by simp [hc], rfl⟩
      · exact ⟨op, by simp [hc], rfl⟩
    obtain ⟨op1, h1, h2⟩ := this
    obtain ⟨op2, h3, h4⟩ := setChild_bound c ids _ o op1 h1
    exact ⟨op2, h3, h4.trans h2⟩

theorem min?_mem {l : List ℕ} (h : l ≠ []) : l.min?.getD 0 ∈ l := by
  cases hm : l.min? with
  | none => rw [List.min?_eq_none_iff] at hm; exact absurd hm h
  | some a => exact List.min?_mem hm

theorem forall₂_mem_right {α β : Type} {R : α → β → Prop} {l : List α} {l' : List β}
    (h : List.Forall₂ R l l') {b : β} (hb : b ∈ l') : ∃ a ∈ l, R a b := by
  induction h with
  | nil => simp at hb
  | cons h1 _ ih =>
    rcases List.mem_cons.1 hb with rfl | hb
    · exact ⟨_, List.mem_cons_self, h1⟩
    · obtain ⟨a, a1, a2⟩ := ih hb
      exact ⟨a, List.mem_cons_of_mem _ a1, a2⟩

/-- `make_node`: the new node's set has the mode of the first operation and the step count of one of
the operations. -/
theorem makeNode_bound {E : Env K} {σ σ' : Core K} {ids : List ℕ} {at_ : Option AggType}
    {s : Option String} {nid : ℕ} (h : makeNode E σ ids at_ s = .ok (σ', nid)) :
    Quiet σ σ' ∧ SameCtl σ σ' ∧ σ'.waiting = σ.waiting ∧ nid = σ.nodes.length ∧
    ∃ nd st, σ'.nodes[nid]? = some nd ∧ σ'.states[nd.state]? = some st ∧
      (∃ o ∈ ids, ∃ op s0, σ.ops[o]? = some op ∧ σ.states[op.post]? = some s0 ∧ st.steps.1 = s0.steps.1) ∧
      (∃ o ∈ ids, ∃ op s0, σ.ops[o]? = some op ∧ σ.states[op.post]? = some s0 ∧ st.mode = s0.mode) := by
  obtain ⟨ss, rts, sid, os, sts, rfl, hnid, f1, f2, hss, hsid⟩ := makeNode_shape h
  have hnode : (σ.nodes ++ [({ state := sid, parents := ids, agg := at_ } : Node)])[nid]? =
      some { state := sid, parents := ids, agg := at_ } := by
    rw [hnid]; exact List.getElem?_concat_length
  have hsrc : ∀ s0 ∈ sts, ∃ o ∈ ids, ∃ op, σ.ops[o]? = some op ∧ σ.states[op.post]? = some s0 := by
    intro s0 hs0
    obtain ⟨op, h1, h2⟩ := forall₂_mem_right f2 hs0
    obtain ⟨o, h3, h4⟩ := forall₂_mem_right f1 h1
    exact ⟨o, h3, op, h4, h2⟩
  refine ⟨⟨?_, ?_, ?_, ?_⟩, ⟨rfl, rfl, rfl⟩, rfl, hnid, ?_⟩
  · intro k st hk
    obtain ⟨st', h1, h2, h3, -⟩ := hss k st hk
    exact ⟨st', h1, h2.1, by rw [h3]⟩
  · intro st' hst'
    obtain ⟨k, hk⟩ := List.getElem?_of_mem hst'
    simp only at hk
    by_cases hc : k < σ.states.length
    · obtain ⟨st'', h1, -, h3, -⟩ := hss k _ (List.getElem?_eq_getElem hc)
      rw [hk] at h1; cases h1
      exact ⟨_, List.getElem_mem hc, by rw [h3]⟩
    · rcases hsid with ⟨o, op, -, -, -, hlen⟩ | ⟨h2, hs, hlen, st, s0, hst, -, hsteps, -, hs0, -⟩
      · have := lt_of_getElem? hk; omega
      · have hk' : k = sid := by have := lt_of_getElem? hk; omega
        rw [hk', hst] at hk; cases hk
        rw [hsteps]
        have hne : (sts.map fun s => s.steps).map (fun s => s.1) ≠ [] := by
          intro hn
          simp only [List.map_eq_nil_iff] at hn
          rw [hn] at hs0; cases hs0
        have := min?_mem hne
        obtain ⟨p, hp, e⟩ := List.mem_map.1 this
        obtain ⟨s1, hs1, rfl⟩ := List.mem_map.1 hp
        obtain ⟨o, -, op, -, h4⟩ := hsrc s1 hs1
        exact ⟨s1, List.mem_of_getElem? h4, e.symm⟩
  · intro o op ho
    exact setChild_bound _ ids σ.ops o op ho
  · intro k n hn
    exact ⟨n, append_keep hn, rfl⟩
  · rcases hsid with ⟨o, op, rfl, hop, rfl, hlen⟩ | ⟨h2, hs, hlen, st, s0, hst, -, hsteps, -, hs0, hmode⟩
    · cases f1 with
      | cons hp ht =>
        cases ht
        rw [hop] at hp; cases hp
        cases f2 with
        | cons hp ht =>
          cases ht
          obtain ⟨st', h1, h2, h3, -⟩ := hss _ _ hp
          exact ⟨_, st', hnode, h1, ⟨o, by simp, op, _, hop, hp, by rw [h3]⟩,
            ⟨o, by simp, op, _, hop, hp, h2.1⟩⟩
    · refine ⟨_, st, hnode, hst, ?_, ?_⟩
      · have hne : (sts.map fun s => s.steps).map (fun s => s.1) ≠ [] := by
          intro hn
          simp only [List.map_eq_nil_iff] at hn
          rw [hn] at hs0; cases hs0
        obtain ⟨p, hp, e⟩ := List.mem_map.1 (min?_mem hne)
        obtain ⟨s1, hs1, rfl⟩ := List.mem_map.1 hp
        obtain ⟨o, ho, op, h3, h4⟩ := hsrc s1 hs1
        exact ⟨o, ho, op, s1, h3, h4, by rw [hsteps]; exact e.symm⟩
      · obtain ⟨o, ho, op, h3, h4⟩ := hsrc s0 (List.mem_of_getElem? hs0)
        exact ⟨o, ho, op, s0, h3, h4, hmode⟩

end Hylaa
