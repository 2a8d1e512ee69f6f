import Verif.Proofs.CoreRun

/-!
# The heap operations of the reachability computation

Every function of the computation is a sequence of a few elementary heap operations (`Mild`, and
`makeNode`, removal from the waiting list).  Nothing is assumed about the automaton or the solver.
-/

set_option linter.unusedSectionVars false

namespace Hylaa
variable {K : Type} [Field K] [LinearOrder K] [IsStrictOrderedRing K]

/-- Same mode, same concreteness, same predecessors. -/
def SS.Like (a b : SS K) : Prop := b.mode = a.mode ∧ b.concrete = a.concrete ∧ b.opList = a.opList

/-- Elementary operations other than making nodes and removing from the waiting list.  `all`: every
new transition operation is put into the waiting list, and the replay bookkeeping is not touched. -/
inductive Mild (all : Bool) : Core K → Core K → Prop
  | state {σ sid st st'} : σ.states[sid]? = some st → st.Like st' → Mild all σ (σ.setState sid st')
  | misc (σ cur queue rep te tookTt hasAgg hasConc ce) :
      (all = true → queue = σ.queue ∧ rep = σ.rep) → Mild all σ { σ with
      cur := cur, queue := queue, rep := rep, te := te, tookTt := tookTt
      hasAgg := hasAgg, hasConc := hasConc, ce := ce }
  | push (σ ν x) : x.isTr = false → Mild all σ (σ.pushOp ν x)
  | op {σ : Core K} {ν : ℕ} {nd : Node} {st post : SS K} {ti : ℕ} {c : Option (List K)} {b : Bool} :
      σ.nodes[ν]? = some nd → σ.states[nd.state]? = some st → post.concrete = st.concrete →
      post.steps = st.steps → (all = true → b = true) → post.opList = [σ.ops.length] →
      Mild all σ { ({ σ with
          ops := σ.ops ++ [{ step := st.stepIn, parent := some ν, child := none, trans := some ti,
                             post := σ.states.length, center := c }]
          states := σ.states ++ [post] } : Core K).pushOp ν (.tr σ.ops.length) with
        waiting := if b then σ.waiting ++ [σ.ops.length] else σ.waiting }

/-- Sequences of elementary operations. -/
abbrev Milds (all : Bool) : Core K → Core K → Prop := Relation.ReflTransGen (Mild all)

theorem SS.Like.refl (a : SS K) : a.Like a := ⟨rfl, rfl, rfl⟩

theorem Milds.state {all : Bool} {σ : Core K} {sid : ℕ} {st st' : SS K} (h : σ.states[sid]? = some st)
    (hl : st.Like st') : Milds all σ (σ.setState sid st') := .single (.state h hl)

theorem Milds.misc {all : Bool} (σ : Core K) (cur queue rep te tookTt hasAgg hasConc)
    (h : all = true → queue = σ.queue ∧ rep = σ.rep := by exact fun _ => ⟨rfl, rfl⟩)
    (ce : List (CeSeg K) := σ.ce) : Milds all σ
    { σ with
      cur := cur, queue := queue, rep := rep, te := te, tookTt := tookTt
      hasAgg := hasAgg, hasConc := hasConc, ce := ce } :=
  .single (.misc σ cur queue rep te tookTt hasAgg hasConc ce h)

theorem errorReached_mild {all : Bool} (σ : Core K) (b : Bool) (ce : List (CeSeg K)) :
    Milds all σ (σ.errorReached b ce) := by
  unfold Core.errorReached
  split
  · exact Milds.misc σ σ.cur σ.queue σ.rep σ.te σ.tookTt σ.hasAgg true (ce := ce)
  · exact Milds.misc σ σ.cur σ.queue σ.rep σ.te σ.tookTt true σ.hasConc

theorem leftInvariant_mild {all : Bool} {σ σ' : Core K} {b : Bool} (h : σ.leftInvariant b = .ok σ') :
    Milds all σ σ' := by
  simp only [Core.leftInvariant, bind_ok, needSome_ok, pure_ok] at h
  obtain ⟨c, -, st, -, rfl⟩ := h
  exact (Relation.ReflTransGen.single (.push σ c.1 _ rfl)).trans
    (Milds.misc (σ.pushOp c.1 (.left st.stepIn b)) none σ.queue σ.rep σ.te σ.tookTt σ.hasAgg σ.hasConc)

theorem SS.make_like {T : Tols K} {m : Mode K} {mid : ℕ} {lp : Lp K} {steps : ℕ × ℕ} {ol : List ℕ}
    {con : Bool} {st : SS K} (h : SS.make T m mid lp steps ol con = .ok st) :
    st.mode = mid ∧ st.concrete = con ∧ st.steps = steps ∧ st.stepIn = 0 ∧ st.opList = ol := by
  unfold SS.make at h
  split at h
  · cases h; exact ⟨rfl, rfl, rfl, rfl, rfl⟩
  · simp only [bind_ok, pure_ok] at h
    obtain ⟨_, -, _, -, _, -, rfl⟩ := h
    exact ⟨rfl, rfl, rfl, rfl, rfl⟩

/-- `make_op_transition`: nothing, or a new operation. -/
theorem makeOp_shape {E : Env K} {σ σ' : Core K} {ti : ℕ} {t : Tr K} {tlp : Lp K} {st : SS K} {nid : ℕ}
    {r : Option ℕ} (h : makeOp E σ ti t tlp st nid = .ok (σ', r)) :
    (r = none ∧ σ' = σ) ∨ (r = some σ.ops.length ∧ ∃ (c : Option (List K)) (post : SS K),
      post.mode = t.dst ∧ post.concrete = st.concrete ∧ post.steps = st.steps ∧ post.stepIn = 0 ∧
      post.opList = [σ.ops.length] ∧ σ' = { σ with
        ops := σ.ops ++ [{ step := st.stepIn, parent := some nid, child := none, trans := some ti,
                           post := σ.states.length, center := c }]
        states := σ.states ++ [post] }) := by
  simp only [makeOp, bind_ok] at h
  obtain ⟨⟨lp1, r1⟩, -, h⟩ := h
  simp only at h
  split at h
  · cases h; exact .inl ⟨rfl, rfl⟩
  · simp only [bind_ok, needSome_ok, need_ok, pure_ok, Prod.mk.injEq] at h
    obtain ⟨dst, -, s, -, f, -, _, -, post, hp, rfl, rfl⟩ := h
    obtain ⟨a1, a2, a3, a4, a5⟩ := SS.make_like hp
    exact .inr ⟨rfl, _, post, a1, a2, a3, a4, a5, rfl⟩

theorem addSuccessor_mild {all : Bool} {E : Env K} {σ σ' : Core K} {ti : ℕ} {t : Tr K} {tlp : Lp K}
    {st : SS K} {nid : ℕ} {nd : Node} (hn : σ.nodes[nid]? = some nd)
    (hs : σ.states[nd.state]? = some st)
    (h : addSuccessor E σ ti t tlp st nid = .ok σ') : Milds all σ σ' := by
  simp only [addSuccessor, bind_ok, pure_ok] at h
  obtain ⟨⟨σ1, r⟩, h1, rfl⟩ := h
  rcases makeOp_shape h1 with ⟨rfl, rfl⟩ | ⟨rfl, c, post, p1, p2, p3, p4, p5, rfl⟩
  · exact .refl
  · exact .single (.op (b := true) (c := c) (ti := ti) hn hs p2 p3 (fun _ => rfl) p5)

theorem Mild.node {all : Bool} {σ σ' : Core K} (h : Mild all σ σ') {ν : ℕ} {nd : Node}
    (hn : σ.nodes[ν]? = some nd) : ∃ l, σ'.nodes[ν]? = some { nd with ops := nd.ops ++ l } := by
  have same : ∃ l, σ.nodes[ν]? = some { nd with ops := nd.ops ++ l } :=
    ⟨[], by rw [List.append_nil]; exact hn⟩
  have psh : ∀ (τ : Core K) μ x, τ.nodes = σ.nodes →
      ∃ l, (τ.pushOp μ x).nodes[ν]? = some { nd with ops := nd.ops ++ l } := by
    intro τ μ x hτ
    rw [pushOp_nodes, hτ, hn]
    by_cases hc : ν = μ
    · exact ⟨[x], by simp [hc]⟩
    · have hc' : ¬ μ = ν := fun e => hc e.symm
      exact ⟨[], by simp [hc']⟩
  cases h with
  | state h1 h2 => exact same
  | misc => exact same
  | push μ x => exact psh σ μ x rfl
  | op h1 h2 h3 h4 h5 h6 => exact psh _ _ _ rfl

theorem Milds.node {all : Bool} {σ σ' : Core K} (h : Milds all σ σ') {ν : ℕ} {nd : Node}
    (hn : σ.nodes[ν]? = some nd) : ∃ l, σ'.nodes[ν]? = some { nd with ops := nd.ops ++ l } := by
  induction h with
  | refl => exact ⟨[], by rw [List.append_nil]; exact hn⟩
  | tail _ h2 ih =>
    obtain ⟨l, hl⟩ := ih
    obtain ⟨l', hl'⟩ := h2.node hl
    exact ⟨l ++ l', by rw [hl']; simp⟩

theorem ttCheck_mild {all : Bool} {E : Env K} {σ σ' : Core K} {t : Tr K} {g : Csr K × List K} {sid : ℕ}
    (h : ttCheck E σ t g sid = .ok σ') : Milds all σ σ' := by
  unfold ttCheck at h
  split at h
  · simp only [bind_ok, needSome_ok, pure_ok] at h
    obtain ⟨st, hst, src, -, r, -, rfl⟩ := h
    exact (Milds.state (st' := { st with lp := r.1 }) hst ⟨rfl, rfl, rfl⟩).trans
      (Milds.misc (σ.setState sid { st with lp := r.1 }) σ.cur σ.queue σ.rep σ.te (σ.tookTt || r.2)
        σ.hasAgg σ.hasConc)
  · cases h; exact .refl

theorem guardLoop_mild {all : Bool} {E : Env K} {nid sid : ℕ} : ∀ (ts : List ℕ) {σ σ' : Core K}
    {nd : Node}, σ.nodes[nid]? = some nd → nd.state = sid →
    guardLoop E nid sid σ ts = .ok σ' → Milds all σ σ'
  | [], σ, σ', nd, _, _, h => by cases h; exact .refl
  | ti :: ts, σ, σ', nd, hn, hnd, h => by
    simp only [guardLoop, bind_ok, needSome_ok] at h
    obtain ⟨st, hst, t, -, g, -, ⟨lp1, tl⟩, -, h⟩ := h
    have m1 : Milds all σ (σ.setState sid { st with lp := lp1 }) := .state hst ⟨rfl, rfl, rfl⟩
    simp only at h
    split at h
    · exact m1.trans (guardLoop_mild ts hn hnd h)
    · simp only [bind_ok, needSome_ok] at h
      obtain ⟨dst, -, ce, -, h⟩ := h
      have m2 : Milds all σ (if dst.isError = true then
          (σ.setState sid { st with lp := lp1 }).errorReached st.concrete ce
          else σ.setState sid { st with lp := lp1 }) := by
        split
        · exact m1.trans (errorReached_mild _ _ _)
        · exact m1
      split at h
      · cases h; exact m2
      · simp only [bind_ok] at h
        obtain ⟨σ1, h1, σ2, h2, h3⟩ := h
        obtain ⟨l1, hn1⟩ := m2.node hn
        have hst' : (if dst.isError = true then
          (σ.setState sid { st with lp := lp1 }).errorReached st.concrete ce
          else σ.setState sid { st with lp := lp1 }).states[nd.state]? = some { st with lp := lp1 } := by
          have : ∀ b, ((σ.setState sid { st with lp := lp1 }).errorReached b ce).states =
              (σ.setState sid { st with lp := lp1 }).states := by
            intro b; unfold Core.errorReached; split <;> rfl
          have h0 : (σ.setState sid { st with lp := lp1 }).states[nd.state]? = some { st with lp := lp1 } := by
            rw [hnd]; exact List.getElem?_set_self (lt_of_getElem? hst)
          split
          · rw [this]; exact h0
          · exact h0
        have m3 := m2.trans (addSuccessor_mild (all := all) hn1 hst' h1)
        have m4 : Milds all σ σ2 := m3.trans (ttCheck_mild h2)
        obtain ⟨l2, hn2⟩ := m4.node hn
        exact m4.trans (guardLoop_mild ts hn2 hnd h3)

theorem curState_inv {σ : Core K} {c : ℕ × ℕ} (h : σ.curState = some c) :
    σ.cur = some c.1 ∧ ∃ nd, σ.nodes[c.1]? = some nd ∧ nd.state = c.2 ∧ nd.left = false := by
  unfold Core.curState at h
  split at h
  · cases h
  · split at h
    · cases h
    · rename_i nid hc _ n hn
      split at h
      · cases h
      · rename_i hl
        cases h
        exact ⟨hc, n, hn, rfl, by simpa using hl⟩

theorem checkGuards_mild {all : Bool} {E : Env K} {σ σ' : Core K} (h : checkGuards E σ = .ok σ') :
    Milds all σ σ' := by
  simp only [checkGuards, bind_ok, needSome_ok] at h
  obtain ⟨c, hc, st, -, ts, -, h⟩ := h
  obtain ⟨-, nd, h1, h2, -⟩ := curState_inv hc
  exact guardLoop_mild ts h1 h2 h

theorem addInv_like {S : Solver K} {T : Tols K} {st st' : SS K} {i : ℕ} {lc : LinCon K} {b : Bool}
    (h : st.addInv S T i lc = .ok (st', b)) : st' = { st with lp := st'.lp, invRows := st'.invRows } := by
  simp only [SS.addInv, bind_ok, needSome_ok] at h
  obtain ⟨old, -, bm, -, h⟩ := h
  split at h
  · simp only [bind_ok, pure_ok, Prod.mk.injEq] at h
    obtain ⟨r, -, rfl, -⟩ := h; rfl
  · simp only [bind_ok, pure_ok, Prod.mk.injEq] at h
    obtain ⟨r, -, rfl, -⟩ := h; rfl

theorem invLoop_like {S : Solver K} {T : Tols K} : ∀ (lcs : List (LinCon K)) {st st' : SS K} {idx : ℕ}
    {ops ops' : List (ℕ × Bool)} {f : Bool}, invLoop S T st idx lcs ops = .ok (st', f, ops') →
    st' = { st with lp := st'.lp, invRows := st'.invRows }
  | [], st, st', idx, ops, ops', f, h => by cases h; rfl
  | lc :: lcs, st, st', idx, ops, ops', f, h => by
    simp only [invLoop, bind_ok] at h
    obtain ⟨r, -, h⟩ := h
    split at h
    · simp only [bind_ok] at h
      obtain ⟨⟨q, b⟩, h1, fe, -, h⟩ := h
      have e1 := addInv_like h1
      simp only at e1 h
      split at h
      · have e2 := invLoop_like lcs h
        rw [e2, e1]
      · cases h; rw [e1]
    · have e := invLoop_like lcs h
      rw [e]

theorem pushAll_mild {all : Bool} (ν s : ℕ) : ∀ (qs : List (ℕ × Bool)) (σ : Core K),
    Milds all σ (qs.foldl (fun σ q => σ.pushOp ν (.inv s q.1 q.2)) σ)
  | [], σ => .refl
  | q :: qs, σ => by
    rw [List.foldl_cons]
    exact (Relation.ReflTransGen.single (.push σ ν _ rfl)).trans (pushAll_mild ν s qs _)

theorem intersectCur_mild {all : Bool} {E : Env K} {σ σ' : Core K} {f : Bool}
    (h : intersectCur E σ = .ok (σ', f)) : Milds all σ σ' := by
  simp only [intersectCur, bind_ok, needSome_ok, pure_ok, Prod.mk.injEq] at h
  obtain ⟨c, -, st, hst, m, -, ⟨st', f', qs⟩, hii, rfl, -⟩ := h
  have e := invLoop_like _ hii
  have hl : st.Like st' := ⟨by rw [e], by rw [e], by rw [e]⟩
  exact (Milds.state hst hl).trans (pushAll_mild c.1 st.stepIn qs _)

theorem approxCur_mild {all : Bool} {E : Env K} {σ σ' : Core K} (h : approxCur E σ = .ok σ') : Milds all σ σ' := by
  obtain ⟨c, st, lp, β, te, -, hst, -, rfl⟩ := approxCur_eq h
  have hl : st.Like { st with lp := lp, lggBeta := β } := ⟨rfl, rfl, rfl⟩
  exact (Milds.state hst hl).trans (Milds.misc (σ.setState c.2 { st with lp := lp, lggBeta := β }) σ.cur σ.queue σ.rep te
    σ.tookTt σ.hasAgg σ.hasConc)

theorem approxCur_cur {E : Env K} {σ σ' : Core K} (h : approxCur E σ = .ok σ') : σ'.curState = σ.curState := by
  obtain ⟨c, st, lp, β, te, -, hst, -, rfl⟩ := approxCur_eq h
  rfl

theorem step_like {d : Dyn K} {m : Mode K} {te te' : Option (TE K)} {st st' : SS K} {target : Option ℕ}
    (h : st.step d m te target = .ok (te', st')) :
    st' = { st with
      lp := st'.lp, basis := st'.basis, ies := st'.ies
      stepIn := target.getD (st.stepIn + 1)
      steps := (st.steps.1 + (target.getD (st.stepIn + 1) - st.stepIn),
                st.steps.2 + (target.getD (st.stepIn + 1) - st.stepIn)) } ∧
      st.stepIn ≤ target.getD (st.stepIn + 1) := by
  unfold SS.step at h
  simp only at h
  split at h
  · cases h
  · split at h
    · rename_i h1 h2
      cases h
      rw [h2]
      simp
    · simp only [bind_ok, pure_ok, Prod.mk.injEq] at h
      obtain ⟨r, -, s, -, q, -, -, rfl⟩ := h
      exact ⟨rfl, by omega⟩

theorem stepState_mild {all : Bool} {E : Env K} {σ σ' : Core K} {sid : ℕ} {target : Option ℕ}
    (h : stepState E σ sid target = .ok σ') : Milds all σ σ' := by
  simp only [stepState, bind_ok, needSome_ok, pure_ok] at h
  obtain ⟨st, hst, m, -, ⟨te, st'⟩, hs, rfl⟩ := h
  have e := (step_like hs).1
  have hl : st.Like st' := ⟨by rw [e], by rw [e], by rw [e]⟩
  exact (Milds.state hst hl).trans (Milds.misc (σ.setState sid st') σ.cur σ.queue σ.rep _ σ.tookTt
    σ.hasAgg σ.hasConc)

theorem stepPost_mild {all : Bool} {E : Env K} {σ σ' : Core K} (h : stepPost E σ = .ok σ') :
    Milds all σ σ' := by
  simp only [stepPost, bind_ok, needSome_ok] at h
  obtain ⟨c, hc, st, hst, h⟩ := h
  split at h
  · cases h; exact .refl
  split at h
  · exact leftInvariant_mild h
  split at h
  · exact (Milds.misc σ σ.cur σ.queue σ.rep σ.te false σ.hasAgg σ.hasConc).trans (leftInvariant_mild h)
  simp only [bind_ok] at h
  obtain ⟨⟨σ1, f⟩, h1, h⟩ := h
  have m1 : Milds all σ σ1 := intersectCur_mild h1
  split at h
  · exact m1.trans (leftInvariant_mild h)
  simp only [bind_ok, needSome_ok] at h
  obtain ⟨σ2, h2, σ3, h3, m, -, a, -, h⟩ := h
  have m3 := (m1.trans (stepState_mild h2)).trans (checkGuards_mild h3)
  split at h
  · exact m3.trans (leftInvariant_mild h)
  · cases h; exact m3

/-! ### Replay -/

theorem replayTr_mild {E : Env K} {σ : Core K} {kid oid : ℕ} {t : List ((ℕ × ℕ) × List ℕ)}
    {r : Core K × List ((ℕ × ℕ) × List ℕ)} (h : replayTr E σ kid oid t = .ok r) : Milds false σ r.1 := by
  simp only [replayTr, bind_ok, needSome_ok] at h
  obtain ⟨n, hn, o, -, σ1, h1, st, hst, ti, -, tr, -, g, -, ⟨lp, tl⟩, -, h⟩ := h
  have m1 : Milds false σ σ1 := stepState_mild h1
  have m2 : Milds false σ (σ1.setState n.state { st with lp := lp }) := m1.trans (Milds.state hst ⟨rfl, rfl, rfl⟩)
  simp only at h
  split at h
  · cases h; exact m2
  · simp only [bind_ok, needSome_ok, pure_ok] at h
    obtain ⟨dst, -, ce, -, ⟨σ2, q⟩, h2, rfl⟩ := h
    have m3 : Milds false σ (if dst.isError = true then
        (σ1.setState n.state { st with lp := lp }).errorReached st.concrete ce
        else σ1.setState n.state { st with lp := lp }) := by
      split
      · exact m2.trans (errorReached_mild _ _ _)
      · exact m2
    have hst' : (if dst.isError = true then
        (σ1.setState n.state { st with lp := lp }).errorReached st.concrete ce
        else σ1.setState n.state { st with lp := lp }).states[n.state]? = some { st with lp := lp } := by
      have : ∀ b, ((σ1.setState n.state { st with lp := lp }).errorReached b ce).states =
          (σ1.setState n.state { st with lp := lp }).states := by
        intro b; unfold Core.errorReached; split <;> rfl
      have h0 : (σ1.setState n.state { st with lp := lp }).states[n.state]? = some { st with lp := lp } :=
        List.getElem?_set_self (lt_of_getElem? hst)
      split
      · rw [this]; exact h0
      · exact h0
    obtain ⟨l, hn'⟩ := m3.node hn
    rcases makeOp_shape h2 with ⟨rfl, rfl⟩ | ⟨rfl, c, post, p1, p2, p3, p4, p5, rfl⟩
    · exact m3
    · simp only
      split
      · exact m3.trans (.single (.op (b := true) (c := c) (ti := ti) (st := { st with lp := lp }) hn' hst' p2 p3 (fun _ => rfl) p5))
      · exact m3.trans (.single (.op (b := false) (c := c) (ti := ti) (st := { st with lp := lp }) hn' hst' p2 p3 (fun h => by cases h) p5))

theorem replayInv_mild {all : Bool} {E : Env K} {σ σ' : Core K} {kid s i : ℕ}
    (h : replayInv E σ kid s i = .ok σ') : Milds all σ σ' := by
  simp only [replayInv, bind_ok, needSome_ok] at h
  obtain ⟨n, -, σ1, h1, st, hst, m, -, lc, -, ⟨lp, r⟩, -, h⟩ := h
  have m1 : Milds all σ σ1 := stepState_mild h1
  simp only at h
  split at h
  · cases h
    exact (m1.trans (Milds.state (st' := { st with lp := lp }) hst ⟨rfl, rfl, rfl⟩)).tail (.push _ _ _ rfl)
  · cases h
    exact m1.trans (Milds.state hst ⟨rfl, rfl, rfl⟩)
  · simp only [bind_ok, pure_ok] at h
    obtain ⟨⟨q, b⟩, hq, f, -, rfl⟩ := h
    have e := addInv_like hq
    have hl : st.Like { q with lp := f.1 } := ⟨by rw [e], by rw [e], by rw [e]⟩
    have m2 := (m1.trans (Milds.state hst hl)).tail (.push _ kid (.inv s i b) rfl)
    split
    · exact m2
    · exact m2.tail (.push _ _ _ rfl)

theorem replayOp_mild {E : Env K} {σ : Core K} {kid : ℕ} {o : NOp} {t : List ((ℕ × ℕ) × List ℕ)}
    {r : Core K × List ((ℕ × ℕ) × List ℕ)} (h : replayOp E σ kid o t = .ok r) : Milds false σ r.1 := by
  simp only [replayOp, bind_ok, needSome_ok] at h
  obtain ⟨n, -, h⟩ := h
  split at h
  · cases h; exact .refl
  · split at h
    · cases h; exact .single (.push _ _ _ rfl)
    · exact replayTr_mild h
    · simp only [bind_ok, pure_ok] at h
      obtain ⟨σ1, h1, rfl⟩ := h
      exact replayInv_mild h1

theorem replayKids_mild {E : Env K} {o : NOp} : ∀ (kids : List ℕ) {σ : Core K}
    {t : List ((ℕ × ℕ) × List ℕ)} {r : Core K × List ((ℕ × ℕ) × List ℕ)},
    replayKids E o σ kids t = .ok r → Milds false σ r.1
  | [], σ, t, r, h => by cases h; exact .refl
  | k :: kids, σ, t, r, h => by
    simp only [replayKids, bind_ok] at h
    obtain ⟨q, h1, h⟩ := h
    exact (replayOp_mild h1).trans (replayKids_mild kids h)

theorem replayLoop_mild {E : Env K} {kids : List ℕ} : ∀ (ops : List NOp) {σ : Core K} {cur : ℕ}
    {only lft : Bool} {k : ℕ} {t : List ((ℕ × ℕ) × List ℕ)}
    {r : Core K × (ℕ × Bool × ℕ × List ((ℕ × ℕ) × List ℕ))},
    replayLoop E kids σ ops cur only lft k t = .ok r → Milds false σ r.1
  | [], σ, cur, only, lft, k, t, r, h => by cases h; exact .refl
  | o :: ops, σ, cur, only, lft, k, t, r, h => by
    simp only [replayLoop, bind_ok] at h
    obtain ⟨s, -, h⟩ := h
    generalize hc : (if (decide (s > cur) && !only) = true then cur + 1 else cur) = c' at h
    generalize ho : (only || (decide (s > cur) && !only)) = o' at h
    split at h
    · cases h; exact .refl
    · split at h
      · cases h; exact .refl
      · simp only [bind_ok] at h
        obtain ⟨q, h1, h⟩ := h
        exact (replayKids_mild kids h1).trans (replayLoop_mild ops h)

theorem advanceKids_mild {all : Bool} {E : Env K} {cur : ℕ} {chk : Bool} : ∀ (kids : List ℕ)
    {σ σ' : Core K}, advanceKids E cur chk σ kids = .ok σ' → Milds all σ σ'
  | [], σ, σ', h => by cases h; exact .refl
  | k :: kids, σ, σ', h => by
    simp only [advanceKids, bind_ok, needSome_ok] at h
    obtain ⟨n, -, σ1, h1, h⟩ := h
    refine Relation.ReflTransGen.trans ?_ (advanceKids_mild kids h)
    split at h1
    · cases h1; exact .refl
    · simp only [bind_ok, needSome_ok, assert_ok, pure_ok] at h1
      obtain ⟨σ2, h2, st, -, _, -, rfl⟩ := h1
      exact stepState_mild h2

/-! ### All operations -/

/-- Any elementary operation. -/
inductive Micro (E : Env K) : Core K → Core K → Prop
  | mild {σ σ'} : Mild false σ σ' → Micro E σ σ'
  | node {σ r ids at_ s} : makeNode E σ ids at_ s = .ok r → Micro E σ r.1
  | unwait (σ p) : Micro E σ { σ with waiting := σ.waiting.filter p }

abbrev Micros (E : Env K) : Core K → Core K → Prop := Relation.ReflTransGen (Micro E)

theorem Mild.weaken {all : Bool} {σ σ' : Core K} (h : Mild all σ σ') : Mild false σ σ' := by
  cases h with
  | state h1 h2 => exact .state h1 h2
  | misc => exact .misc _ _ _ _ _ _ _ _ _ fun h => by cases h
  | push _ _ h => exact .push _ _ _ h
  | op h1 h2 h3 h4 h5 h6 => exact .op h1 h2 h3 h4 (fun h => by cases h) h6

theorem Milds.micros {all : Bool} {E : Env K} {σ σ' : Core K} (h : Milds all σ σ') : Micros E σ σ' := by
  induction h with
  | refl => exact .refl
  | tail _ h2 ih => exact ih.tail (.mild h2.weaken)

theorem popWaiting_micros {E : Env K} {σ σ' : Core K} (h : popWaiting E σ = .ok σ') : Micros E σ σ' := by
  simp only [popWaiting, bind_ok, assert_ok, pure_ok] at h
  obtain ⟨items, hitems, l1, hl1, l, hl, _, -, at_, hat, r, hmk, rfl⟩ := h
  exact ((Relation.ReflTransGen.single (.unwait σ _)).tail (.node hmk)).trans
    (Milds.micros (all := true) (Milds.misc r.1 (some r.2) r.1.queue r.1.rep r.1.te r.1.tookTt r.1.hasAgg r.1.hasConc))

theorem stepPop_micros {E : Env K} {σ σ' : Core K} (h : stepPop E σ = .ok σ') : Micros E σ σ' := by
  simp only [stepPop, bind_ok, needSome_ok] at h
  obtain ⟨σ1, h1, c, -, st, -, m, -, h⟩ := h
  have l1 := popWaiting_micros h1
  split at h
  · exact l1.trans (Milds.micros (all := true) (leftInvariant_mild h))
  · simp only [bind_ok] at h
    obtain ⟨⟨σ2, f⟩, h2, h⟩ := h
    have l2 : Micros E σ1 σ2 := Milds.micros (all := true) (intersectCur_mild h2)
    split at h
    · exact (l1.trans l2).trans (Milds.micros (all := true) (approxCur_mild h))
    · exact (l1.trans l2).trans (Milds.micros (all := true) (leftInvariant_mild h))

theorem finishReplay_micros {E : Env K} : ∀ (l : List ((ℕ × ℕ) × List ℕ)) {σ σ' : Core K},
    finishReplay E σ l = .ok σ' → Micros E σ σ'
  | [], σ, σ', h => by cases h; exact .refl
  | ((a, c), ops) :: l, σ, σ', h => by
    simp only [finishReplay, bind_ok, needSome_ok] at h
    obtain ⟨n, -, st, -, r, h1, h⟩ := h
    exact ((Relation.ReflTransGen.single (.node h1)).trans (Milds.micros (all := false)
      (Milds.misc r.1 r.1.cur (r.1.queue ++ [(c, [r.2])]) r.1.rep r.1.te r.1.tookTt r.1.hasAgg
        r.1.hasConc (fun h => by cases h)))).trans (finishReplay_micros l h)

theorem beginReplay_micros {E : Env K} {σ σ' : Core K} {nid : ℕ} (h : beginReplay E σ nid = .ok σ') :
    Micros E σ σ' := by
  simp only [beginReplay, bind_ok, pure_ok] at h
  obtain ⟨rm, -, r, h1, rfl⟩ := h
  simp only [splitNode, bind_ok, needSome_ok, assert_ok, pure_ok] at h1
  obtain ⟨n, -, _, -, st, -, a, ha, b, hb, rfl⟩ := h1
  exact (((Relation.ReflTransGen.single (.unwait σ _)).tail (.node ha)).tail (.node hb)).trans
    (Milds.micros (all := false) (Milds.misc b.1 b.1.cur _ b.1.rep b.1.te b.1.tookTt b.1.hasAgg
        b.1.hasConc (fun h => by cases h)))

theorem stepReplay_micros {E : Env K} {σ σ' : Core K} (h : stepReplay E σ = .ok σ') : Micros E σ σ' := by
  simp only [stepReplay, bind_ok, needSome_ok] at h
  obtain ⟨i, hi, pn, -, o, -, s, -, q, hq, σ1, h1, h⟩ := h
  have l0 : Micros E σ i.1 := by
    unfold initReplay at hi
    split at hi
    · cases hi; exact .refl
    · rename_i q' _ _
      cases hi
      exact Milds.micros (all := false) (Milds.misc σ σ.cur q' σ.rep σ.te σ.tookTt σ.hasAgg σ.hasConc
        (fun h => by cases h))
    · cases hi
  have l1 : Micros E σ σ1 := (l0.trans (Milds.micros (replayLoop_mild _ hq))).trans
    (Milds.micros (all := true) (advanceKids_mild _ h1))
  split at h
  · exact (l1.trans (Milds.micros (all := false) (Milds.misc σ1 σ1.cur σ1.queue none σ1.te σ1.tookTt
      σ1.hasAgg σ1.hasConc (fun h => by cases h)))).trans (finishReplay_micros _ h)
  · cases h
    exact l1.trans (Milds.micros (all := false) (Milds.misc σ1 σ1.cur σ1.queue _ σ1.te σ1.tookTt
      σ1.hasAgg σ1.hasConc (fun h => by cases h)))

/-- One round of the main loop is a sequence of elementary operations. -/
theorem doStep_micros {E : Env K} {σ σ' : Core K} (h : doStep E σ = .ok σ') : Micros E σ σ' := by
  unfold doStep at h
  split at h
  · cases h; exact .refl
  split at h
  · exact Milds.micros (all := true) (stepPost_mild h)
  split at h
  · exact stepReplay_micros h
  · simp only [bind_ok] at h
    obtain ⟨d, -, h⟩ := h
    split at h
    · simp only [bind_ok] at h
      obtain ⟨σ1, h1, h⟩ := h
      exact (beginReplay_micros h1).trans (stepReplay_micros h)
    · simp only [bind_ok] at h
      obtain ⟨σ1, h1, h⟩ := h
      refine (stepPop_micros h1).trans ?_
      split at h
      · exact Milds.micros (all := true) (checkGuards_mild h)
      · cases h; exact .refl

theorem runSteps_micros {E : Env K} : ∀ (n : ℕ) {σ σ' : Core K}, runSteps E n σ = .ok σ' → Micros E σ σ'
  | 0, σ, σ', h => by cases h; exact .refl
  | n + 1, σ, σ', h => by
    simp only [runSteps, bind_ok] at h
    obtain ⟨σ1, h1, h⟩ := h
    exact (doStep_micros h1).trans (runSteps_micros n h)

end Hylaa
