import Verif.Proofs.CoreAgg

/-!
# Invariant of the reachability computation

Every transition operation `o` gets a ghost set `G o` of entry points with entry times: exactly the
points reached along the recorded path.  `Body` says that nothing is lost.
-/

set_option linter.unusedSectionVars false

namespace Hylaa
open Spec
variable {K : Type} [Field K] [LinearOrder K] [IsStrictOrderedRing K] [JumpAt K]

theorem Bad.anti {H : Hyb K} {i : ℕ} {x : ℕ → K} {n : ℕ} (h : H.Bad i x n) :
    ∀ {n'}, n' ≤ n → H.Bad i x n' := by
  induction h with
  | err h1 h2 => exact fun _ => .err h1 h2
  | jump h1 h2 _ ih => exact fun hn => .jump h1 (by omega) (ih (by omega))

theorem Bad.of_reach {H : Hyb K} {X0 : ℕ → (ℕ → K) → Prop} {i : ℕ} {x : ℕ → K} {n : ℕ}
    (h : H.Reach 0 X0 i x n) (hb : H.Bad i x n) :
    ∃ i x m, X0 i x ∧ H.ha.modes[i]? = some m ∧ InvEps 0 m x ∧ H.Bad i x 0 := by
  induction h with
  | init h1 h2 h3 => exact ⟨_, _, _, h1, h2, h3, hb⟩
  | jump _ h2 h3 ih => exact ih (.jump h2 h3 hb)

/-- A property of entry states that is followed along runs: it holds if and only if the mode is an error mode or it holds after some jump
within the time bound, and with more time left. -/
structure Tracked (H : Hyb K) (B : ℕ → (ℕ → K) → ℕ → Prop) : Prop where
  next : ∀ {i x n}, B i x n → (∃ m, H.ha.modes[i]? = some m ∧ m.isError = true) ∨
    ∃ k ti j y, H.Jump 0 i x k ti j y ∧ n + k ≤ H.bound ∧ B j y (n + k)
  prev : ∀ {i x n k ti j y}, H.Jump 0 i x k ti j y → n + k ≤ H.bound → B j y (n + k) → B i x n
  anti : ∀ {i x n n'}, B i x n → n' ≤ n → B i x n'

theorem Bad.tracked (H : Hyb K) : Tracked H H.Bad where
  next h := by
    cases h with
    | err h1 h2 => exact .inl ⟨_, h1, h2⟩
    | jump h1 h2 h3 => exact .inr ⟨_, _, _, _, h1, h2, h3⟩
  prev h1 h2 h3 := .jump h1 h2 h3
  anti h hn := Bad.anti h hn

/-- Ghost state: entry points and mode of each operation, mode of each node. -/
structure Ghost (K : Type) where
  G : ℕ → (ℕ → K) → ℕ → Prop
  M : ℕ → ℕ
  MN : ℕ → ℕ

/-- Entry points of a node. -/
def Ghost.GP (gh : Ghost K) (nd : Node) (x : ℕ → K) (n : ℕ) : Prop := ∃ p ∈ nd.parents, gh.G p x n

/-- Deaggregation is enabled. -/
def Env.deaggOn (E : Env K) : Prop := ∃ s, E.set.strat = some s ∧ s.deagg = true

/-- Convex hulls are used for aggregation. -/
def Env.chullOn (E : Env K) : Prop := ∃ s, E.set.strat = some s ∧ s.kind = .chull

/-- The verdict is "unsafe" or cannot be "safe". -/
def Flag (E : Env K) (σ : Core K) : Prop :=
  σ.hasConc = true ∨ (σ.hasAgg = true ∧ (E.set.stopAgg = true ∨ ¬ E.deaggOn))

/-- The operation's own state set is still untouched. -/
def FreshOp (σ : Core K) (op : OpTr K) : Prop :=
  op.child = none ∨ ∃ c nd, op.child = some c ∧ σ.nodes[c]? = some nd ∧ 2 ≤ nd.parents.length

structure FreshSt (E : Env K) (gh : Ghost K) (o : ℕ) (op : OpTr K) (st : SS K) : Prop where
  zero : st.stepIn = 0
  mode : st.mode = gh.M o
  time : ∀ x n, gh.G o x n → st.steps.1 ≤ n
  init : op.parent = none → ∀ m, E.ha.modes[st.mode]? = some m → m.isError = false →
    st.Ok m (E.dyn st.mode) (fun x => ∃ n, gh.G o x n) E.T.inter False 0
  entry : op.parent ≠ none → st.Entry E ∧ ∀ x n, gh.G o x n → st.lp.Mem x
  lo : E.chullOn → st.lp.NoLo
  initMode : op.parent = none → ∃ m, E.ha.modes[st.mode]? = some m ∧ m.isError = false

/-- Ancestor nodes. -/
inductive Up (ns : List Node) (os : List (OpTr K)) : ℕ → ℕ → Prop
  | refl (ν) : Up ns os ν ν
  | step {ν μ nd p op μ'} : Up ns os ν μ → ns[μ]? = some nd → p ∈ nd.parents →
      os[p]? = some op → op.parent = some μ' → Up ns os ν μ'

/-- The node and its ancestors have not been replaced. -/
def NLive (σ : Core K) (ν : ℕ) : Prop := ∀ μ nd p op, Up σ.nodes σ.ops ν μ → σ.nodes[μ]? = some nd →
  p ∈ nd.parents → σ.ops[p]? = some op → op.child = some μ

def OpLive (σ : Core K) (o : ℕ) : Prop := ∀ op ν, σ.ops[o]? = some op → op.parent = some ν → NLive σ ν

/-- All jumps selected by `Q` out of the entry points of the node have been recorded (possibly with
an earlier step). -/
def Done (E : Env K) (gh : Ghost K) (ops : List (OpTr K)) (ν : ℕ) (nd : Node)
    (Q : ℕ → ℕ → Prop) : Prop :=
  ∀ x n k ti j y, gh.GP nd x n → E.hybJ.Jump 0 (gh.MN ν) x k ti j y → n + k ≤ E.set.numSteps →
    Q k ti → ∃ o op, NOp.tr o ∈ nd.ops ∧ ops[o]? = some op ∧ op.trans = some ti ∧ op.step ≤ k ∧
      E.hybJ.Jump 0 (gh.MN ν) x op.step ti j y

/-- Invariant operations before a transition operation have smaller steps (or both are at step 0). -/
def OrderOk (ops : List (OpTr K)) (l : List NOp) : Prop :=
  l.Pairwise fun a b => ∀ s i st o op, a = .inv s i st → b = .tr o → ops[o]? = some op →
    s < op.step ∨ (s = 0 ∧ op.step = 0)

def NoLeft (l : List NOp) : Prop := ∀ s b, NOp.left s b ∉ l

/-- A left node's last operation, and only that one, is `OpLeftInvariant`. -/
def LeftLast (l : List NOp) : Prop := ∃ l' s b, l = l' ++ [.left s b] ∧ NoLeft l'

/-- The invariant.  `L`: operations currently held by the program (neither waiting nor in a node);
`A`: nodes being computed. -/
structure Body (E : Env K) (X0 : ℕ → (ℕ → K) → Prop) (σ : Core K) (gh : Ghost K) (L A : List ℕ) :
    Prop where
  noFlag : ¬ Flag E σ
  te : ∀ (i : ℕ) (m : Mode K) u, E.ha.modes[i]? = some m → m.isError = false → σ.te i = some u →
    u.Inv (E.dyn i)
  opPost : ∀ (o : ℕ) op, σ.ops[o]? = some op → op.post < σ.states.length
  opPar : ∀ (o : ℕ) op ν, σ.ops[o]? = some op → op.parent = some ν →
    ∃ nd, σ.nodes[ν]? = some nd ∧ NOp.tr o ∈ nd.ops
  opChild : ∀ (o : ℕ) op c, σ.ops[o]? = some op → op.child = some c →
    ∃ nd, σ.nodes[c]? = some nd ∧ o ∈ nd.parents
  opTrans : ∀ (o : ℕ) op ν, σ.ops[o]? = some op → op.parent = some ν →
    ∃ ti t, op.trans = some ti ∧ E.ha.trans[ti]? = some t ∧ gh.M o = t.dst ∧
      ∃ l, E.ha.out[gh.MN ν]? = some l ∧ ti ∈ l
  ndSt : ∀ (ν : ℕ) nd, σ.nodes[ν]? = some nd → ∃ st, σ.states[nd.state]? = some st ∧ st.mode = gh.MN ν
  ndErr : ∀ (ν : ℕ) nd, σ.nodes[ν]? = some nd →
    ∃ m, E.ha.modes[gh.MN ν]? = some m ∧ m.isError = false
  ndPar : ∀ (ν : ℕ) nd p, σ.nodes[ν]? = some nd → p ∈ nd.parents →
    ∃ op, σ.ops[p]? = some op ∧ gh.M p = gh.MN ν ∧ ∀ μ, op.parent = some μ → μ < ν
  ndMany : ∀ (ν : ℕ) nd p op, σ.nodes[ν]? = some nd → 2 ≤ nd.parents.length → p ∈ nd.parents →
    σ.ops[p]? = some op → op.parent ≠ none
  ndSame : E.deaggOn → ∀ (ν : ℕ) nd p q op oq, σ.nodes[ν]? = some nd → p ∈ nd.parents →
    q ∈ nd.parents → σ.ops[p]? = some op → σ.ops[q]? = some oq → op.parent = oq.parent
  ndNodup : ∀ (ν : ℕ) nd, σ.nodes[ν]? = some nd → nd.parents.Nodup
  ndOps : ∀ (ν : ℕ) nd o, σ.nodes[ν]? = some nd → NOp.tr o ∈ nd.ops →
    ∃ op, σ.ops[o]? = some op ∧ op.parent = some ν
  ndAgg : ∀ (ν : ℕ) nd a, σ.nodes[ν]? = some nd → nd.agg = some a → aggTypeOf E = .ok a
  ndOrder : ∀ (ν : ℕ) nd, σ.nodes[ν]? = some nd → OrderOk σ.ops nd.ops
  postInj : ∀ (o o' : ℕ) op op', σ.ops[o]? = some op → σ.ops[o']? = some op' → op.post = op'.post → o = o'
  stInj : ∀ (ν μ : ℕ) nd md, σ.nodes[ν]? = some nd → σ.nodes[μ]? = some md → nd.state = md.state → ν = μ
  freshNe : ∀ (o : ℕ) op (ν : ℕ) nd, σ.ops[o]? = some op → FreshOp σ op → σ.nodes[ν]? = some nd →
    nd.state ≠ op.post
  fresh : ∀ (o : ℕ) op, σ.ops[o]? = some op → FreshOp σ op →
    ∃ st, σ.states[op.post]? = some st ∧ FreshSt E gh o op st
  exact : ∀ (o : ℕ) op ν nd ti, σ.ops[o]? = some op → op.parent = some ν → σ.nodes[ν]? = some nd →
    op.trans = some ti → ∀ y n', gh.G o y n' ↔ ∃ x n, gh.GP nd x n ∧
      E.hybJ.Jump 0 (gh.MN ν) x op.step ti (gh.M o) y ∧ n' = n + op.step ∧ n' ≤ E.set.numSteps
  done : ∀ (ν : ℕ) nd, ν ∉ A → σ.nodes[ν]? = some nd → LeftLast nd.ops ∧
    Done E gh σ.ops ν nd fun _ _ => True
  wait : ∀ o ∈ σ.waiting, ∃ op, σ.ops[o]? = some op ∧ op.child = none
  waitNodup : σ.waiting.Nodup
  held : ∀ o ∈ L, ∃ op, σ.ops[o]? = some op
  waitErr : ∀ o ∈ σ.waiting, ∀ op st m, σ.ops[o]? = some op → σ.states[op.post]? = some st →
    E.ha.modes[gh.M o]? = some m → m.isError = true → E.deaggOn ∧ st.concrete = false
  live : (∀ o ∈ σ.waiting, OpLive σ o) ∧ (∀ o ∈ L, OpLive σ o) ∧ ∀ ν ∈ A, NLive σ ν
  pend : ∀ B, Tracked E.hybJ B → (∃ i x m, X0 i x ∧ E.ha.modes[i]? = some m ∧ InvEps 0 m x ∧ B i x 0) →
    ∃ o x n, gh.G o x n ∧ B (gh.M o) x n ∧
      (o ∈ σ.waiting ∨ o ∈ L ∨ ∃ ν nd, ν ∈ A ∧ σ.nodes[ν]? = some nd ∧ o ∈ nd.parents)

/-- The state set of a node being computed: it contains all trajectories from the entry points; the
invariant has been applied at steps `0 … c - 1`. -/
structure NodeSt (E : Env K) (gh : Ghost K) (σ : Core K) (ν : ℕ) (nd : Node) (st : SS K) (c : ℕ) :
    Prop where
  node : σ.nodes[ν]? = some nd
  state : σ.states[nd.state]? = some st
  mode : st.mode = gh.MN ν
  ok : ∃ m, E.ha.modes[st.mode]? = some m ∧ m.isError = false ∧
    st.Ok m (E.dyn st.mode) (fun x => ∃ n, gh.GP nd x n) E.T.inter False c
  cle : c ≤ st.stepIn + 1
  time : ∀ x n, gh.GP nd x n → st.steps.1 ≤ n + st.stepIn
  lo : E.chullOn → st.lp.NoLo
  noLeft : NoLeft nd.ops

/-- Nothing recorded is changed, except a node's list of operations (appended to) and an operation's
child. -/
structure Ext (σ : Core K) (gh : Ghost K) (σ' : Core K) (gh' : Ghost K) : Prop where
  ops : ∀ (o : ℕ) op, σ.ops[o]? = some op → ∃ c, σ'.ops[o]? = some { op with child := c }
  nodes : ∀ (ν : ℕ) nd, σ.nodes[ν]? = some nd → ∃ l, σ'.nodes[ν]? = some { nd with ops := nd.ops ++ l }
  G : ∀ o < σ.ops.length, gh'.G o = gh.G o
  M : ∀ o < σ.ops.length, gh'.M o = gh.M o
  MN : ∀ ν < σ.nodes.length, gh'.MN ν = gh.MN ν

theorem lt_of_getElem? {α : Type} {l : List α} {i : ℕ} {a : α} (h : l[i]? = some a) : i < l.length := by
  by_contra hc
  rw [List.getElem?_eq_none (by omega)] at h
  cases h

theorem Ext.refl (σ : Core K) (gh : Ghost K) : Ext σ gh σ gh :=
  ⟨fun o op h => ⟨op.child, h⟩, fun ν nd h => ⟨[], by rw [List.append_nil]; exact h⟩,
    fun _ _ => rfl, fun _ _ => rfl, fun _ _ => rfl⟩

theorem Ext.opsLen {σ σ' : Core K} {gh gh' : Ghost K} (h : Ext σ gh σ' gh') :
    σ.ops.length ≤ σ'.ops.length := by
  by_contra hc
  have hl : σ'.ops.length < σ.ops.length := by omega
  obtain ⟨c, hc⟩ := h.ops _ _ (List.getElem?_eq_getElem hl)
  have := lt_of_getElem? hc
  omega

theorem Ext.nodesLen {σ σ' : Core K} {gh gh' : Ghost K} (h : Ext σ gh σ' gh') :
    σ.nodes.length ≤ σ'.nodes.length := by
  by_contra hc
  have hl : σ'.nodes.length < σ.nodes.length := by omega
  obtain ⟨c, hc⟩ := h.nodes _ _ (List.getElem?_eq_getElem hl)
  have := lt_of_getElem? hc
  omega

theorem Ext.trans {a b c : Core K} {ga gb gc : Ghost K} (h : Ext a ga b gb) (h' : Ext b gb c gc) :
    Ext a ga c gc := by
  refine ⟨fun o op ho => ?_, fun ν nd hn => ?_, fun o ho => ?_, fun o ho => ?_, fun ν hν => ?_⟩
  · obtain ⟨c1, h1⟩ := h.ops o op ho
    obtain ⟨c2, h2⟩ := h'.ops o _ h1
    exact ⟨c2, h2⟩
  · obtain ⟨l1, h1⟩ := h.nodes ν nd hn
    obtain ⟨l2, h2⟩ := h'.nodes ν _ h1
    exact ⟨l1 ++ l2, by rw [h2]; simp⟩
  · rw [h'.G o (lt_of_lt_of_le ho h.opsLen), h.G o ho]
  · rw [h'.M o (lt_of_lt_of_le ho h.opsLen), h.M o ho]
  · rw [h'.MN ν (lt_of_lt_of_le hν h.nodesLen), h.MN ν hν]

theorem Ext.GP {σ σ' : Core K} {gh gh' : Ghost K} (h : Ext σ gh σ' gh') {nd : Node} {l : List NOp}
    (hp : ∀ p ∈ nd.parents, p < σ.ops.length) (x : ℕ → K) (n : ℕ) :
    gh'.GP { nd with ops := l } x n ↔ gh.GP nd x n := by
  unfold Ghost.GP
  simp only
  constructor
  · rintro ⟨p, h1, h2⟩; exact ⟨p, h1, by rw [← h.G p (hp p h1)]; exact h2⟩
  · rintro ⟨p, h1, h2⟩; exact ⟨p, h1, by rw [h.G p (hp p h1)]; exact h2⟩

theorem Done.ext {E : Env K} {σ σ' : Core K} {gh gh' : Ghost K} (h : Ext σ gh σ' gh') {ν : ℕ}
    {nd : Node} (hν : ν < σ.nodes.length) (hp : ∀ p ∈ nd.parents, p < σ.ops.length)
    {Q : ℕ → ℕ → Prop} {l : List NOp} (hd : Done E gh σ.ops ν nd Q) :
    Done E gh' σ'.ops ν { nd with ops := nd.ops ++ l } Q := by
  intro x n k ti j y h1 h2 h3 h4
  rw [h.GP hp] at h1
  rw [h.MN ν hν] at h2 ⊢
  obtain ⟨o, op, a1, a2, a3, a4, a5⟩ := hd x n k ti j y h1 h2 h3 h4
  obtain ⟨c, b⟩ := h.ops o op a2
  exact ⟨o, _, by simp [a1], b, a3, a4, a5⟩

theorem Up.ext {σ σ' : Core K} {gh gh' : Ghost K} (h : Ext σ gh σ' gh')
    (hw : ∀ (ν : ℕ) nd p, σ.nodes[ν]? = some nd → p ∈ nd.parents → ∃ op, σ.ops[p]? = some op ∧
      ∀ μ, op.parent = some μ → μ < σ.nodes.length)
    {ν μ : ℕ} (hν : ν < σ.nodes.length) (hu : Up σ'.nodes σ'.ops ν μ) : Up σ.nodes σ.ops ν μ ∧ μ < σ.nodes.length := by
  induction hu with
  | refl => exact ⟨.refl _, hν⟩
  | @step μ nd p op μ' _ h1 h2 h3 h4 ih =>
    obtain ⟨ih1, ih2⟩ := ih
    obtain ⟨l, hl⟩ := h.nodes μ _ (List.getElem?_eq_getElem ih2)
    rw [h1] at hl
    cases hl
    obtain ⟨op0, ho, hlt⟩ := hw μ _ p (List.getElem?_eq_getElem ih2) h2
    obtain ⟨c, hc⟩ := h.ops p op0 ho
    rw [h3] at hc
    cases hc
    exact ⟨.step ih1 (List.getElem?_eq_getElem ih2) h2 ho h4, hlt μ' h4⟩

end Hylaa
