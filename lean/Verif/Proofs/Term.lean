import Verif.Proofs.CoreReplay3
import Verif.Proofs.Bound

/-!
# Termination with deaggregation: the tree of nodes and operations

Every operation and node gets a budget (`hO`, `hN`): an operation leaving a node has a smaller budget
than the node.  `D` holds the nodes that have been split.  Nothing is assumed about the automaton, the
solver or the aggregation strategy.
-/

set_option linter.unusedSectionVars false

namespace Hylaa
open Spec
variable {K : Type} [Field K] [LinearOrder K] [IsStrictOrderedRing K] [JumpAt K]

/-- The budget `h` is enough for a state set: it bounds the number of steps left at its entry; with
urgent transitions, the rank of its mode. -/
def Enough (E : Env K) (ρ : ℕ → ℕ) (st : SS K) (h : ℕ) : Prop :=
  (E.set.urgent = false → E.set.numSteps + st.stepIn ≤ st.steps.1 + h) ∧
    (E.set.urgent = true → ρ st.mode ≤ h)

/-- The same set, perhaps some steps later. -/
structure Later (st st' : SS K) : Prop where
  mode : st'.mode = st.mode
  steps : st'.steps.1 + st.stepIn = st.steps.1 + st'.stepIn
  le : st.stepIn ≤ st'.stepIn

theorem Later.refl (st : SS K) : Later st st := ⟨rfl, rfl, le_rfl⟩

theorem Later.trans {a b c : SS K} (h : Later a b) (g : Later b c) : Later a c :=
  ⟨g.mode.trans h.mode, by have := h.steps; have := g.steps; omega, h.le.trans g.le⟩

theorem Enough.later {E : Env K} {ρ : ℕ → ℕ} {st st' : SS K} {h : ℕ} (he : Enough E ρ st h)
    (hl : Later st st') : Enough E ρ st' h := by
  refine ⟨fun hu => ?_, fun hu => by rw [hl.mode]; exact he.2 hu⟩
  have := he.1 hu
  have := hl.steps
  omega

/-- Budgets, and the nodes that were split. -/
structure Gt where
  hO : ℕ → ℕ
  hN : ℕ → ℕ
  D : Finset ℕ

/-- `L`: operations held by a replay; `A`: nodes being computed. -/
structure Tree (E : Env K) (ρ : ℕ → ℕ) (σ : Core K) (g : Gt) (L A : List ℕ) : Prop where
  opPar : ∀ (o : ℕ) op ν, σ.ops[o]? = some op → op.parent = some ν →
    (∃ nd, σ.nodes[ν]? = some nd ∧ NOp.tr o ∈ nd.ops) ∧ g.hO o + 1 = g.hN ν
  opEn : ∀ (o : ℕ) op, σ.ops[o]? = some op → ∃ st, σ.states[op.post]? = some st ∧ Enough E ρ st (g.hO o)
  opFit : E.set.urgent = true → ∀ (o : ℕ) op ti t, σ.ops[o]? = some op → op.trans = some ti →
    E.ha.trans[ti]? = some t → ρ t.dst ≤ g.hO o
  opStep : E.set.urgent = false → ∀ (o : ℕ) op, σ.ops[o]? = some op → op.parent ≠ none → 1 ≤ op.step
  opChild : ∀ (o : ℕ) op c, σ.ops[o]? = some op → op.child = some c →
    ∃ nd, σ.nodes[c]? = some nd ∧ o ∈ nd.parents
  postInj : ∀ (o o' : ℕ) op op', σ.ops[o]? = some op → σ.ops[o']? = some op' → op.post = op'.post → o = o'
  ndSt : ∀ (ν : ℕ) nd, σ.nodes[ν]? = some nd → ∃ st, σ.states[nd.state]? = some st ∧ Enough E ρ st (g.hN ν)
  ndPar : ∀ (ν : ℕ) nd p, σ.nodes[ν]? = some nd → p ∈ nd.parents →
    ∃ op, σ.ops[p]? = some op ∧ g.hO p = g.hN ν ∧ ∀ μ, op.parent = some μ → μ < ν
  ndNodup : ∀ (ν : ℕ) nd, σ.nodes[ν]? = some nd → nd.parents.Nodup
  ndOps : ∀ (ν : ℕ) nd o, σ.nodes[ν]? = some nd → NOp.tr o ∈ nd.ops →
    ∃ op, σ.ops[o]? = some op ∧ op.parent = some ν
  wait : ∀ o ∈ σ.waiting, ∃ op, σ.ops[o]? = some op ∧ op.child = none
  waitNodup : σ.waiting.Nodup
  held : ∀ o ∈ L, (∃ op, σ.ops[o]? = some op ∧ op.child = none) ∧ o ∉ σ.waiting
  heldNodup : L.Nodup
  act : ∀ ν ∈ A, ∃ nd, σ.nodes[ν]? = some nd
  live : ∀ a, Anchor σ L A a → NLive σ a
  dead : ∀ ν ∈ g.D, ∃ nd p op, σ.nodes[ν]? = some nd ∧ p ∈ nd.parents ∧ σ.ops[p]? = some op ∧
    op.child ≠ some ν

/-- Fewer obligations. -/
theorem Tree.mono {E : Env K} {ρ : ℕ → ℕ} {σ : Core K} {g : Gt} {L A L' A' : List ℕ} (h : Tree E ρ σ g L A)
    (hL : ∀ o ∈ L', o ∈ L) (hn : L'.Nodup) (hA : ∀ ν ∈ A', ν ∈ A) : Tree E ρ σ g L' A' :=
  { h with
    held := fun o ho => h.held o (hL o ho)
    heldNodup := hn
    act := fun ν hν => h.act ν (hA ν hν)
    live := fun a ha => h.live a (by
      rcases ha with ha | ⟨o, op, ho | ho, h1⟩
      · exact .inl (hA a ha)
      · exact .inr ⟨o, op, .inl ho, h1⟩
      · exact .inr ⟨o, op, .inr (hL o ho), h1⟩) }

/-- The parts of the heap that do not matter. -/
theorem Tree.of_eq {E : Env K} {ρ : ℕ → ℕ} {σ σ' : Core K} {g : Gt} {L A : List ℕ} (h : Tree E ρ σ g L A)
    (h1 : σ'.ops = σ.ops) (h2 : σ'.nodes = σ.nodes) (h3 : σ'.states = σ.states)
    (h4 : σ'.waiting = σ.waiting) : Tree E ρ σ' g L A := by
  obtain ⟨s', o', n', w', r', c', q', p', t', k', a', b', ce'⟩ := σ'
  obtain ⟨s, o, n, w, r, c, q, p, t, k, a, b, ce⟩ := σ
  simp only at h1 h2 h3 h4
  subst h1 h2 h3 h4
  exact ⟨h.opPar, h.opEn, h.opFit, h.opStep, h.opChild, h.postInj, h.ndSt, h.ndPar, h.ndNodup, h.ndOps, h.wait,
    h.waitNodup, h.held, h.heldNodup, h.act, h.live, h.dead⟩

/-- Fewer waiting operations. -/
theorem Tree.unwait {E : Env K} {ρ : ℕ → ℕ} {σ : Core K} {g : Gt} {L A : List ℕ} (h : Tree E ρ σ g L A)
    (p : ℕ → Bool) : Tree E ρ { σ with waiting := σ.waiting.filter p } g L A :=
  { h with
    wait := fun o ho => h.wait o (List.mem_filter.1 ho).1
    waitNodup := h.waitNodup.filter _
    held := fun o ho => ⟨(h.held o ho).1, fun hc => (h.held o ho).2 (List.mem_filter.1 hc).1⟩
    live := fun a ha => h.live a (by
      rcases ha with ha | ⟨o, op, ho | ho, h1⟩
      · exact .inl ha
      · exact .inr ⟨o, op, .inl (List.mem_filter.1 ho).1, h1⟩
      · exact .inr ⟨o, op, .inr ho, h1⟩) }

/-- Changes without new operations: state sets may advance, nodes of `T` may record invariants and
leaving. -/
structure Soft (T : List ℕ) (σ σ' : Core K) : Prop where
  ops : σ'.ops = σ.ops
  waiting : σ'.waiting = σ.waiting
  len : σ'.nodes.length = σ.nodes.length
  nodes : ∀ (ν : ℕ) nd, σ.nodes[ν]? = some nd → ∃ l, σ'.nodes[ν]? = some { nd with ops := nd.ops ++ l } ∧
    (∀ x ∈ l, x.isTr = false) ∧ (ν ∉ T → l = [])
  states : ∀ (k : ℕ) st, σ.states[k]? = some st → ∃ st', σ'.states[k]? = some st' ∧ Later st st'

theorem Soft.refl (T : List ℕ) (σ : Core K) : Soft T σ σ :=
  ⟨rfl, rfl, rfl, fun _ nd h => ⟨[], by simpa using h, by simp, fun _ => rfl⟩, fun _ st h => ⟨st, h, .refl _⟩⟩

theorem Soft.trans {T : List ℕ} {σ τ υ : Core K} (h : Soft T σ τ) (g : Soft T τ υ) : Soft T σ υ := by
  refine ⟨g.ops.trans h.ops, g.waiting.trans h.waiting, g.len.trans h.len, fun ν nd hn => ?_, fun k st hk => ?_⟩
  · obtain ⟨l, a1, a2, a3⟩ := h.nodes ν nd hn
    obtain ⟨l', b1, b2, b3⟩ := g.nodes ν _ a1
    refine ⟨l ++ l', by rw [b1]; simp, fun x hx => ?_, fun hT => by rw [a3 hT, b3 hT]; rfl⟩
    rcases List.mem_append.1 hx with hx | hx
    · exact a2 x hx
    · exact b2 x hx
  · obtain ⟨s, a1, a2⟩ := h.states k st hk
    obtain ⟨s', b1, b2⟩ := g.states k s a1
    exact ⟨s', b1, a2.trans b2⟩

theorem Soft.mono {T T' : List ℕ} {σ σ' : Core K} (h : Soft T σ σ') (hT : ∀ ν ∈ T, ν ∈ T') : Soft T' σ σ' :=
  { h with
    nodes := fun ν nd hn => by
      obtain ⟨l, a1, a2, a3⟩ := h.nodes ν nd hn
      exact ⟨l, a1, a2, fun hc => a3 fun hx => hc (hT ν hx)⟩ }

theorem Soft.of_eq {T : List ℕ} {σ τ τ' : Core K} (h : Soft T σ τ) (h1 : τ'.ops = τ.ops)
    (h2 : τ'.nodes = τ.nodes) (h3 : τ'.states = τ.states) (h4 : τ'.waiting = τ.waiting) : Soft T σ τ' := by
  refine ⟨h1.trans h.ops, h4.trans h.waiting, by rw [h2]; exact h.len, ?_, ?_⟩
  · rw [h2]; exact h.nodes
  · rw [h3]; exact h.states

theorem Soft.back {T : List ℕ} {σ σ' : Core K} (h : Soft T σ σ') {ν : ℕ} {nd' : Node}
    (hn : σ'.nodes[ν]? = some nd') : ∃ nd l, σ.nodes[ν]? = some nd ∧ nd' = { nd with ops := nd.ops ++ l } ∧
      ∀ x ∈ l, x.isTr = false := by
  have : ν < σ.nodes.length := by rw [← h.len]; exact lt_of_getElem? hn
  obtain ⟨l, a1, a2, -⟩ := h.nodes ν _ (List.getElem?_eq_getElem this)
  rw [hn] at a1
  exact ⟨_, l, List.getElem?_eq_getElem this, Option.some.inj a1, a2⟩

theorem Soft.live {T : List ℕ} {σ σ' : Core K} (h : Soft T σ σ') (a : ℕ) : NLive σ' a ↔ NLive σ a := by
  have e := h.ops
  constructor
  · intro hl μ nd p op h1 h2 h3 h4
    obtain ⟨l, a1, -⟩ := h.nodes μ nd h2
    refine hl μ _ p op ?_ a1 h3 (by rw [e]; exact h4)
    refine Up.congr (fun ν md hm => ?_) (fun p op hp => ⟨op, by rw [e]; exact hp, rfl⟩) h1
    obtain ⟨l, b1, -⟩ := h.nodes ν md hm
    exact ⟨_, b1, rfl⟩
  · intro hl μ nd p op h1 h2 h3 h4
    obtain ⟨nd0, l, a1, rfl, -⟩ := h.back h2
    refine hl μ _ p op ?_ a1 h3 (by rw [← e]; exact h4)
    refine Up.congr (fun ν md hm => ?_) (fun p op hp => ⟨op, by rw [← e]; exact hp, rfl⟩) h1
    obtain ⟨nd, l, b1, rfl, -⟩ := h.back hm
    exact ⟨_, b1, rfl⟩

theorem Tree.soft {E : Env K} {ρ : ℕ → ℕ} {σ σ' : Core K} {g : Gt} {L A T : List ℕ} (h : Tree E ρ σ g L A)
    (hs : Soft T σ σ') : Tree E ρ σ' g L A where
  opPar := by
    intro o op ν h1 h2
    rw [hs.ops] at h1
    obtain ⟨⟨nd, a1, a2⟩, a3⟩ := h.opPar o op ν h1 h2
    obtain ⟨l, b1, -⟩ := hs.nodes ν nd a1
    exact ⟨⟨_, b1, List.mem_append_left _ a2⟩, a3⟩
  opEn := by
    intro o op h1
    rw [hs.ops] at h1
    obtain ⟨st, a1, a2⟩ := h.opEn o op h1
    obtain ⟨st', b1, b2⟩ := hs.states _ _ a1
    exact ⟨st', b1, a2.later b2⟩
  opFit := by rw [hs.ops]; exact h.opFit
  opStep := by rw [hs.ops]; exact h.opStep
  opChild := by
    intro o op c h1 h2
    rw [hs.ops] at h1
    obtain ⟨nd, a1, a2⟩ := h.opChild o op c h1 h2
    obtain ⟨l, b1, -⟩ := hs.nodes c nd a1
    exact ⟨_, b1, a2⟩
  postInj := by rw [hs.ops]; exact h.postInj
  ndSt := by
    intro ν nd h1
    obtain ⟨nd0, l, a1, rfl, -⟩ := hs.back h1
    obtain ⟨st, b1, b2⟩ := h.ndSt ν nd0 a1
    obtain ⟨st', c1, c2⟩ := hs.states _ _ b1
    exact ⟨st', c1, b2.later c2⟩
  ndPar := by
    intro ν nd p h1 h2
    obtain ⟨nd0, l, a1, rfl, -⟩ := hs.back h1
    rw [hs.ops]
    exact h.ndPar ν nd0 p a1 h2
  ndNodup := by
    intro ν nd h1
    obtain ⟨nd0, l, a1, rfl, -⟩ := hs.back h1
    exact h.ndNodup ν nd0 a1
  ndOps := by
    intro ν nd o h1 h2
    obtain ⟨nd0, l, a1, rfl, a3⟩ := hs.back h1
    rw [hs.ops]
    refine h.ndOps ν nd0 o a1 ?_
    rcases List.mem_append.1 h2 with h2 | h2
    · exact h2
    · have := a3 _ h2
      cases this
  wait := by rw [hs.ops, hs.waiting]; exact h.wait
  waitNodup := by rw [hs.waiting]; exact h.waitNodup
  held := by rw [hs.ops, hs.waiting]; exact h.held
  heldNodup := h.heldNodup
  act := by
    intro ν hν
    obtain ⟨nd, a1⟩ := h.act ν hν
    obtain ⟨l, b1, -⟩ := hs.nodes ν nd a1
    exact ⟨_, b1⟩
  live := by
    intro a ha
    rw [hs.live]
    refine h.live a ?_
    unfold Anchor at ha ⊢
    rwa [hs.ops, hs.waiting] at ha
  dead := by
    intro ν hν
    obtain ⟨nd, p, op, a1, a2, a3, a4⟩ := h.dead ν hν
    obtain ⟨l, b1, -⟩ := hs.nodes ν nd a1
    exact ⟨_, p, op, b1, a2, by rw [hs.ops]; exact a3, a4⟩

/-! ### A new operation -/

/-- The heap after `make_op_transition` and recording the operation in node `ν`; `w`: the new waiting
list. -/
def withOp (σ : Core K) (ν : ℕ) (op : OpTr K) (post : SS K) (w : List ℕ) : Core K :=
  { ({ σ with ops := σ.ops ++ [op], states := σ.states ++ [post] } : Core K).pushOp ν (.tr σ.ops.length) with
    waiting := w }

theorem withOp_nodes (σ : Core K) (ν : ℕ) (op : OpTr K) (post : SS K) (w : List ℕ) (μ : ℕ) :
    (withOp σ ν op post w).nodes[μ]? = (σ.nodes[μ]?).map fun n =>
      if ν = μ then { n with ops := n.ops ++ [.tr σ.ops.length] } else n := pushOp_nodes _ _ _ _

theorem withOp_back {σ : Core K} {ν : ℕ} {op : OpTr K} {post : SS K} {w : List ℕ} {μ : ℕ} {nd : Node}
    (h : (withOp σ ν op post w).nodes[μ]? = some nd) : ∃ nd0, σ.nodes[μ]? = some nd0 ∧
      nd.parents = nd0.parents ∧ nd.state = nd0.state ∧ nd.agg = nd0.agg ∧ (ν ≠ μ → nd = nd0) ∧
      (ν = μ → nd.ops = nd0.ops ++ [.tr σ.ops.length]) := by
  rw [withOp_nodes] at h
  cases hn : σ.nodes[μ]? with
  | none => rw [hn] at h; cases h
  | some nd0 =>
    rw [hn] at h
    simp only [Option.map_some, Option.some.injEq] at h
    refine ⟨nd0, rfl, ?_⟩
    subst h
    by_cases hc : ν = μ
    · simp only [hc, if_true]; simp
    · simp only [hc, if_false]; simp

theorem withOp_fwd {σ : Core K} (ν : ℕ) (op : OpTr K) (post : SS K) (w : List ℕ) {μ : ℕ} {nd0 : Node}
    (h : σ.nodes[μ]? = some nd0) : ∃ nd, (withOp σ ν op post w).nodes[μ]? = some nd ∧
      nd.parents = nd0.parents ∧ nd.state = nd0.state ∧ (ν ≠ μ → nd = nd0) ∧
      (ν = μ → nd.ops = nd0.ops ++ [.tr σ.ops.length]) := by
  rw [withOp_nodes, h]
  by_cases hc : ν = μ
  · exact ⟨_, rfl, by simp only [hc, if_true]; simp⟩
  · exact ⟨_, rfl, by simp only [hc, if_false]; simp⟩

theorem concat_cases {α : Type} {l : List α} {x y : α} {i : ℕ} (h : (l ++ [x])[i]? = some y) :
    l[i]? = some y ∨ (i = l.length ∧ y = x) := by
  by_cases hi : i < l.length
  · rw [List.getElem?_append_left hi] at h; exact .inl h
  · have h2 := lt_of_getElem? h
    simp only [List.length_append, List.length_singleton] at h2
    obtain rfl : i = l.length := by omega
    rw [List.getElem?_concat_length] at h
    exact .inr ⟨rfl, (Option.some.inj h).symm⟩

theorem withOp_live {E : Env K} {ρ : ℕ → ℕ} {σ : Core K} {g : Gt} {L A : List ℕ} (h : Tree E ρ σ g L A)
    (ν : ℕ) (op : OpTr K) (post : SS K) (w : List ℕ) {a : ℕ} :
    NLive (withOp σ ν op post w) a ↔ NLive σ a := by
  have bk : ∀ (p : ℕ) op', (withOp σ ν op post w).ops[p]? = some op' → ∀ (μ : ℕ) nd, σ.nodes[μ]? = some nd →
      p ∈ nd.parents → σ.ops[p]? = some op' := by
    intro p op' hp μ nd hμ hpp
    obtain ⟨op0, b1, -⟩ := h.ndPar μ nd p hμ hpp
    have := append_keep (a := op) b1
    have hp' : (σ.ops ++ [op])[p]? = some op' := hp
    rw [this] at hp'
    rw [b1, ← Option.some.inj hp']
  have upb : ∀ {μ : ℕ}, Up (withOp σ ν op post w).nodes (withOp σ ν op post w).ops a μ → Up σ.nodes σ.ops a μ := by
    intro μ hu
    induction hu with
    | refl => exact .refl _
    | step _ h1 h2 h3 h4 ih =>
      obtain ⟨nd0, a1, a2, -⟩ := withOp_back h1
      exact .step ih a1 (a2 ▸ h2) (bk _ _ h3 _ _ a1 (a2 ▸ h2)) h4
  have upf : ∀ {μ : ℕ}, Up σ.nodes σ.ops a μ → Up (withOp σ ν op post w).nodes (withOp σ ν op post w).ops a μ := by
    intro μ hu
    induction hu with
    | refl => exact .refl _
    | step _ h1 h2 h3 h4 ih =>
      obtain ⟨nd, a1, a2, -⟩ := withOp_fwd ν op post w h1
      exact .step ih a1 (by rw [a2]; exact h2) (append_keep h3) h4
  constructor
  · intro hl μ nd p op' h1 h2 h3 h4
    obtain ⟨nd', a1, a2, -⟩ := withOp_fwd ν op post w h2
    exact hl μ nd' p op' (upf h1) a1 (by rw [a2]; exact h3) (append_keep h4)
  · intro hl μ nd p op' h1 h2 h3 h4
    obtain ⟨nd0, a1, a2, -⟩ := withOp_back h2
    exact hl μ nd0 p op' (upb h1) a1 (a2 ▸ h3) (bk _ _ h4 _ _ a1 (a2 ▸ h3))

/-- Budgets after a new operation with budget `b`. -/
def Gt.addOp (g : Gt) (o b : ℕ) : Gt := { g with hO := Function.update g.hO o b }

theorem Gt.addOp_ne (g : Gt) {o o' b : ℕ} (h : o' ≠ o) : (g.addOp o b).hO o' = g.hO o' :=
  Function.update_of_ne h _ _

theorem Gt.addOp_eq (g : Gt) (o b : ℕ) : (g.addOp o b).hO o = b := Function.update_self _ _ _

theorem Tree.addOp {E : Env K} {ρ : ℕ → ℕ} {σ : Core K} {g : Gt} {L A w L' : List ℕ} (h : Tree E ρ σ g L A)
    {ν : ℕ} {nd : Node} {st post : SS K} {ti : ℕ} {t : Tr K} {c : Option (List K)} (hA : ν ∈ A)
    (hn : σ.nodes[ν]? = some nd) (hs : σ.states[nd.state]? = some st) (ht : E.ha.trans[ti]? = some t)
    (h1 : E.set.urgent = false → 1 ≤ st.stepIn) (hh : 1 ≤ g.hN ν)
    (hf : E.set.urgent = true → ρ t.dst ≤ g.hN ν - 1) (p1 : post.mode = t.dst) (p2 : post.steps = st.steps)
    (p3 : post.stepIn = 0)
    (hw : (w = σ.waiting ++ [σ.ops.length] ∧ L' = L) ∨ (w = σ.waiting ∧ L' = σ.ops.length :: L)) :
    Tree E ρ (withOp σ ν ⟨st.stepIn, some ν, none, some ti, σ.states.length, c⟩ post w) (g.addOp σ.ops.length (g.hN ν - 1)) L' A := by
  set op : OpTr K := ⟨st.stepIn, some ν, none, some ti, σ.states.length, c⟩ with hop
  have hops : (withOp σ ν op post w).ops = σ.ops ++ [op] := rfl
  have hstates : (withOp σ ν op post w).states = σ.states ++ [post] := rfl
  have hlt : ∀ {o : ℕ} {op'}, σ.ops[o]? = some op' → o ≠ σ.ops.length := fun h => (lt_of_getElem? h).ne
  have hpost : Enough E ρ post (g.hN ν - 1) := by
    obtain ⟨st', a1, a2⟩ := h.ndSt ν nd hn
    rw [hs] at a1; cases a1
    refine ⟨fun hu => ?_, fun hu => by rw [p1]; exact hf hu⟩
    have := a2.1 hu
    have := h1 hu
    rw [p2, p3]; omega
  have hfresh : ∀ o ∈ σ.waiting, o ≠ σ.ops.length := fun o ho => by
    obtain ⟨op', a, -⟩ := h.wait o ho; exact hlt a
  have hfreshL : ∀ o ∈ L, o ≠ σ.ops.length := fun o ho => by
    obtain ⟨⟨op', a, -⟩, -⟩ := h.held o ho; exact hlt a
  refine ⟨?_, ?_, ?_, ?_, ?_, ?_, ?_, ?_, ?_, ?_, ?_, ?_, ?_, ?_, ?_, ?_, ?_⟩
  · intro o op' μ ho hp
    rcases concat_cases ho with ho | ⟨rfl, rfl⟩
    · obtain ⟨⟨nd', a1, a2⟩, a3⟩ := h.opPar o op' μ ho hp
      obtain ⟨nd2, b1, -, -, b4, b5⟩ := withOp_fwd ν op post w a1
      refine ⟨⟨nd2, b1, ?_⟩, by rw [g.addOp_ne (hlt ho)]; exact a3⟩
      by_cases hc : ν = μ
      · rw [b5 hc]; exact List.mem_append_left _ a2
      · rw [b4 hc]; exact a2
    · cases hp
      obtain ⟨nd2, b1, -, -, -, b5⟩ := withOp_fwd ν op post w hn
      refine ⟨⟨nd2, b1, by rw [b5 rfl]; simp⟩, ?_⟩
      rw [g.addOp_eq]
      show _ = g.hN ν
      omega
  · intro o op' ho
    rcases concat_cases ho with ho | ⟨rfl, rfl⟩
    · obtain ⟨s, a1, a2⟩ := h.opEn o op' ho
      exact ⟨s, append_keep a1, by rw [g.addOp_ne (hlt ho)]; exact a2⟩
    · exact ⟨post, List.getElem?_concat_length, by rw [g.addOp_eq]; exact hpost⟩
  · intro hu o op' ti' t' ho h2 h3
    rcases concat_cases ho with ho | ⟨rfl, rfl⟩
    · rw [g.addOp_ne (hlt ho)]; exact h.opFit hu o op' ti' t' ho h2 h3
    · cases h2
      rw [ht] at h3; cases h3
      rw [g.addOp_eq]; exact hf hu
  · intro hu o op' ho hp
    rcases concat_cases ho with ho | ⟨rfl, rfl⟩
    · exact h.opStep hu o op' ho hp
    · exact h1 hu
  · intro o op' c' ho hc
    rcases concat_cases ho with ho | ⟨rfl, rfl⟩
    · obtain ⟨nd', a1, a2⟩ := h.opChild o op' c' ho hc
      obtain ⟨nd2, b1, b2, -⟩ := withOp_fwd ν op post w a1
      exact ⟨nd2, b1, by rw [b2]; exact a2⟩
    · cases hc
  · have hp : ∀ (o : ℕ) op', σ.ops[o]? = some op' → op'.post ≠ σ.states.length := fun o op' ho => by
      obtain ⟨s, a1, -⟩ := h.opEn o op' ho
      exact (lt_of_getElem? a1).ne
    intro o o' op1 op2 h1 h2 he
    rcases concat_cases h1 with h1 | ⟨rfl, rfl⟩
    · rcases concat_cases h2 with h2 | ⟨rfl, rfl⟩
      · exact h.postInj o o' op1 op2 h1 h2 he
      · exact absurd he (hp o op1 h1)
    · rcases concat_cases h2 with h2 | ⟨rfl, rfl⟩
      · exact absurd he.symm (hp o' op2 h2)
      · rfl
  · intro μ nd' hm
    obtain ⟨nd0, a1, -, a3, -⟩ := withOp_back hm
    obtain ⟨s, b1, b2⟩ := h.ndSt μ nd0 a1
    exact ⟨s, by rw [a3]; exact append_keep b1, b2⟩
  · intro μ nd' p hm hp
    obtain ⟨nd0, a1, a2, -⟩ := withOp_back hm
    obtain ⟨op', b1, b2, b3⟩ := h.ndPar μ nd0 p a1 (a2 ▸ hp)
    exact ⟨op', append_keep b1, by rw [g.addOp_ne (hlt b1)]; exact b2, b3⟩
  · intro μ nd' hm
    obtain ⟨nd0, a1, a2, -⟩ := withOp_back hm
    rw [a2]; exact h.ndNodup μ nd0 a1
  · intro μ nd' o hm ho
    obtain ⟨nd0, a1, -, -, -, a5, a6⟩ := withOp_back hm
    by_cases hc : ν = μ
    · rw [a6 hc] at ho
      rcases List.mem_append.1 ho with ho | ho
      · obtain ⟨op', b1, b2⟩ := h.ndOps μ nd0 o a1 ho
        exact ⟨op', append_keep b1, b2⟩
      · simp only [List.mem_singleton, NOp.tr.injEq] at ho
        subst ho
        exact ⟨op, List.getElem?_concat_length, by rw [← hc]⟩
    · rw [a5 hc] at ho
      obtain ⟨op', b1, b2⟩ := h.ndOps μ nd0 o a1 ho
      exact ⟨op', append_keep b1, b2⟩
  · intro o ho
    have ho : o ∈ w := ho
    rcases hw with ⟨rfl, -⟩ | ⟨rfl, -⟩
    · rcases List.mem_append.1 ho with ho | ho
      · obtain ⟨op', b1, b2⟩ := h.wait o ho
        exact ⟨op', append_keep b1, b2⟩
      · simp only [List.mem_singleton] at ho; subst ho
        exact ⟨op, List.getElem?_concat_length, rfl⟩
    · obtain ⟨op', b1, b2⟩ := h.wait o ho
      exact ⟨op', append_keep b1, b2⟩
  · show w.Nodup
    rcases hw with ⟨rfl, -⟩ | ⟨rfl, -⟩
    · refine List.Nodup.append h.waitNodup (List.nodup_singleton _) ?_
      intro o h1 h2
      simp only [List.mem_singleton] at h2
      exact hfresh o h1 h2
    · exact h.waitNodup
  · intro o ho
    show (∃ op', (σ.ops ++ [op])[o]? = some op' ∧ op'.child = none) ∧ o ∉ w
    rcases hw with ⟨rfl, rfl⟩ | ⟨rfl, rfl⟩
    · obtain ⟨⟨op', b1, b2⟩, b3⟩ := h.held o ho
      refine ⟨⟨op', append_keep b1, b2⟩, fun hc => ?_⟩
      rcases List.mem_append.1 hc with hc | hc
      · exact b3 hc
      · simp only [List.mem_singleton] at hc; exact hfreshL o ho hc
    · rcases List.mem_cons.1 ho with rfl | ho
      · exact ⟨⟨op, List.getElem?_concat_length, rfl⟩, fun hc => hfresh _ hc rfl⟩
      · obtain ⟨⟨op', b1, b2⟩, b3⟩ := h.held o ho
        exact ⟨⟨op', append_keep b1, b2⟩, b3⟩
  · rcases hw with ⟨-, rfl⟩ | ⟨-, rfl⟩
    · exact h.heldNodup
    · exact List.nodup_cons.2 ⟨fun hc => hfreshL _ hc rfl, h.heldNodup⟩
  · intro μ hμ
    obtain ⟨nd0, a1⟩ := h.act μ hμ
    obtain ⟨nd2, b1, -⟩ := withOp_fwd ν op post w a1
    exact ⟨nd2, b1⟩
  · intro a ha
    rw [withOp_live h]
    rcases ha with ha | ⟨o, op', ho, h2, h3⟩
    · exact h.live a (.inl ha)
    · rcases concat_cases h2 with h2' | ⟨rfl, rfl⟩
      · refine h.live a (.inr ⟨o, op', ?_, h2', h3⟩)
        rcases ho with ho | ho
        · have ho : o ∈ w := ho
          rcases hw with ⟨rfl, -⟩ | ⟨rfl, -⟩
          · rcases List.mem_append.1 ho with ho | ho
            · exact .inl ho
            · simp only [List.mem_singleton] at ho; exact absurd ho (hlt h2')
          · exact .inl ho
        · rcases hw with ⟨-, rfl⟩ | ⟨-, rfl⟩
          · exact .inr ho
          · rcases List.mem_cons.1 ho with rfl | ho
            · exact absurd rfl (hlt h2')
            · exact .inr ho
      · cases h3
        exact h.live _ (.inl hA)
  · intro μ hμ
    obtain ⟨nd0, p, op', a1, a2, a3, a4⟩ := h.dead μ hμ
    obtain ⟨nd2, b1, b2, -⟩ := withOp_fwd ν op post w a1
    exact ⟨nd2, p, op', b1, by rw [b2]; exact a2, append_keep a3, a4⟩

/-! ### A new node -/

/-- What `make_node` does to the heaps. -/
structure NewNode (σ σ' : Core K) (ids : List ℕ) (nid : ℕ) (new : Node) : Prop where
  hid : nid = σ.nodes.length
  nodes : σ'.nodes = σ.nodes ++ [new]
  parents : new.parents = ids
  ops0 : new.ops = []
  ops : ∀ o : ℕ, σ'.ops[o]? = (σ.ops[o]?).map fun x => if o ∈ ids then { x with child := some nid } else x
  waiting : σ'.waiting = σ.waiting
  ctl : SameCtl σ σ'
  states : ∀ (k : ℕ) st, σ.states[k]? = some st → ∃ st', σ'.states[k]? = some st' ∧ Later st st'
  st : ∀ (E : Env K) (ρ : ℕ → ℕ) b, (∀ o ∈ ids, ∀ op st, σ.ops[o]? = some op → σ.states[op.post]? = some st →
    Enough E ρ st b) → ∃ st, σ'.states[new.state]? = some st ∧ Enough E ρ st b
  has : ∀ o ∈ ids, ∃ op, σ.ops[o]? = some op
  tookTt : σ'.tookTt = σ.tookTt

theorem forall₂_mem_left {α β : Type} {R : α → β → Prop} {l : List α} {l' : List β}
    (h : List.Forall₂ R l l') {a : α} (ha : a ∈ l) : ∃ b ∈ l', R a b := by
  induction h with
  | nil => simp at ha
  | cons h1 _ ih =>
    rcases List.mem_cons.1 ha with rfl | ha
    · exact ⟨_, List.mem_cons_self, h1⟩
    · obtain ⟨b, a1, a2⟩ := ih ha
      exact ⟨b, List.mem_cons_of_mem _ a1, a2⟩

theorem makeNode_new {E : Env K} {σ σ' : Core K} {ids : List ℕ} {at_ : Option AggType} {s : Option String}
    {nid : ℕ} (h : makeNode E σ ids at_ s = .ok (σ', nid)) :
    ∃ sid, NewNode σ σ' ids nid { state := sid, parents := ids, agg := at_ } := by
  obtain ⟨ss, rts, sid, os, sts, rfl, hnid, f1, f2, hss, hsid⟩ := makeNode_shape h
  refine ⟨sid, hnid, rfl, rfl, rfl, ?_, rfl, ⟨rfl, rfl, rfl⟩, ?_, ?_, ?_, rfl⟩
  · intro o
    rw [hnid]
    exact setChild_get _ _ _
  · intro k st hk
    obtain ⟨st', h1, h2, h3, h4⟩ := hss k st hk
    exact ⟨st', h1, h2.1, by rw [h3, h4], by rw [h4]⟩
  · intro E' ρ b hb
    rcases hsid with ⟨o, op, rfl, hop, rfl, -⟩ | ⟨h2, hs, hlen, st, s0, hst, -, hsteps, hin, hs0, hmode⟩
    · obtain ⟨op', q1, q2⟩ := forall₂_mem_left f1 (List.mem_singleton.2 rfl)
      rw [hop] at q2; cases q2
      obtain ⟨s1, q3, q4⟩ := forall₂_mem_left f2 q1
      obtain ⟨st', h1, h2, h3, h4⟩ := hss _ _ q4
      refine ⟨st', h1, ?_⟩
      exact (hb o (List.mem_singleton.2 rfl) op s1 hop q4).later ⟨h2.1, by rw [h3, h4], by rw [h4]⟩
    · have hsrc : ∀ s0 ∈ sts, Enough E' ρ s0 b := by
        intro s0 hs0
        obtain ⟨op, h1, h2⟩ := forall₂_mem_right f2 hs0
        obtain ⟨o, h3, h4⟩ := forall₂_mem_right f1 h1
        exact hb o h3 op s0 h4 h2
      refine ⟨st, hst, fun hu => ?_, fun hu => by rw [hmode]; exact (hsrc s0 (List.mem_of_getElem? hs0)).2 hu⟩
      have hne : (sts.map fun s => s.steps).map (fun s => s.1) ≠ [] := by
        intro hn
        simp only [List.map_eq_nil_iff] at hn
        rw [hn] at hs0; cases hs0
      obtain ⟨q, hq, e⟩ := List.mem_map.1 (min?_mem hne)
      obtain ⟨s1, hs1, rfl⟩ := List.mem_map.1 hq
      have := (hsrc s1 hs1).1 hu
      rw [hsteps, hin]
      unfold stepInterval
      simp only at e ⊢
      rw [← e]
      omega
  · intro o ho
    obtain ⟨op, -, q⟩ := forall₂_mem_left f1 ho
    exact ⟨op, q⟩

/-- Budgets after a new node. -/
def Gt.addNode (g : Gt) (ν b : ℕ) : Gt := { g with hN := Function.update g.hN ν b }

theorem Gt.addNode_ne (g : Gt) {ν μ b : ℕ} (h : μ ≠ ν) : (g.addNode ν b).hN μ = g.hN μ :=
  Function.update_of_ne h _ _

theorem Gt.addNode_eq (g : Gt) (ν b : ℕ) : (g.addNode ν b).hN ν = b := Function.update_self _ _ _

section
variable {σ σ' : Core K} {ids : List ℕ} {nid : ℕ} {new : Node}

theorem NewNode.op_back (hn : NewNode σ σ' ids nid new) {o : ℕ} {op : OpTr K} (h : σ'.ops[o]? = some op) :
    ∃ op0, σ.ops[o]? = some op0 ∧ op = if o ∈ ids then { op0 with child := some nid } else op0 := by
  rw [hn.ops] at h
  cases hq : σ.ops[o]? with
  | none => rw [hq] at h; cases h
  | some op0 =>
    rw [hq] at h
    exact ⟨op0, rfl, (Option.some.inj h).symm⟩

theorem NewNode.op_fwd (hn : NewNode σ σ' ids nid new) {o : ℕ} {op : OpTr K} (h : σ.ops[o]? = some op) :
    σ'.ops[o]? = some (if o ∈ ids then { op with child := some nid } else op) := by
  rw [hn.ops, h]; rfl

theorem NewNode.node_fwd (hn : NewNode σ σ' ids nid new) {μ : ℕ} {nd : Node} (h : σ.nodes[μ]? = some nd) :
    σ'.nodes[μ]? = some nd := by
  rw [hn.nodes]; exact append_keep h

theorem NewNode.node_new (hn : NewNode σ σ' ids nid new) : σ'.nodes[nid]? = some new := by
  rw [hn.nodes, hn.hid]; exact List.getElem?_concat_length

theorem NewNode.node_back (hn : NewNode σ σ' ids nid new) {μ : ℕ} {nd : Node} (h : σ'.nodes[μ]? = some nd) :
    (σ.nodes[μ]? = some nd ∧ μ ≠ nid) ∨ (μ = nid ∧ nd = new) := by
  rw [hn.nodes] at h
  rcases append_inv h with ⟨h1, h2⟩ | ⟨h1, h2⟩
  · exact .inl ⟨h1, by rw [hn.hid]; omega⟩
  · exact .inr ⟨by rw [hn.hid]; exact h1, h2⟩

theorem ite_child {op0 : OpTr K} {o c : ℕ} {ids : List ℕ} :
    (if o ∈ ids then { op0 with child := some c } else op0).parent = op0.parent := by split <;> rfl

theorem NewNode.up_fwd (hn : NewNode σ σ' ids nid new) {a b : ℕ} (h : Up σ.nodes σ.ops a b) :
    Up σ'.nodes σ'.ops a b :=
  Up.congr (fun _ md h => ⟨md, hn.node_fwd h, rfl⟩) (fun _ _ h => ⟨_, hn.op_fwd h, ite_child.symm⟩) h

/-- Ancestors of an old node. -/
theorem NewNode.up_back (hn : NewNode σ σ' ids nid new)
    (hp : ∀ (o : ℕ) op μ, σ.ops[o]? = some op → op.parent = some μ → μ < σ.nodes.length) {a b : ℕ}
    (ha : a < σ.nodes.length) (h : Up σ'.nodes σ'.ops a b) : Up σ.nodes σ.ops a b ∧ b < σ.nodes.length := by
  induction h with
  | refl => exact ⟨.refl _, ha⟩
  | @step μ nd p op μ' _ h1 h2 h3 h4 ih =>
    obtain ⟨op0, k1, rfl⟩ := hn.op_back h3
    rw [ite_child] at h4
    rcases hn.node_back h1 with ⟨h1, -⟩ | ⟨rfl, -⟩
    · exact ⟨.step ih.1 h1 h2 k1 h4, hp _ _ _ k1 h4⟩
    · have := ih.2
      rw [hn.hid] at this; omega

/-- Ancestors of the new node. -/
theorem NewNode.up_new (hn : NewNode σ σ' ids nid new)
    (hp : ∀ (o : ℕ) op μ, σ.ops[o]? = some op → op.parent = some μ → μ < σ.nodes.length) {b : ℕ}
    (h : Up σ'.nodes σ'.ops nid b) : b = nid ∨ ∃ o ∈ ids, ∃ op a, σ.ops[o]? = some op ∧ op.parent = some a ∧
      Up σ.nodes σ.ops a b ∧ b < σ.nodes.length := by
  induction h with
  | refl => exact .inl rfl
  | @step μ nd p op μ' _ h1 h2 h3 h4 ih =>
    obtain ⟨op0, k1, rfl⟩ := hn.op_back h3
    rw [ite_child] at h4
    rcases ih with rfl | ⟨o, ho, op, a, i1, i2, i3, i4⟩
    · rcases hn.node_back h1 with ⟨-, h1⟩ | ⟨-, rfl⟩
      · exact absurd rfl h1
      · exact .inr ⟨p, hn.parents ▸ h2, op0, μ', k1, h4, .refl _, hp _ _ _ k1 h4⟩
    · rcases hn.node_back h1 with ⟨h1, -⟩ | ⟨rfl, -⟩
      · exact .inr ⟨o, ho, op, a, i1, i2, .step i3 h1 h2 k1 h4, hp _ _ _ k1 h4⟩
      · rw [hn.hid] at i4; omega

/-- Dead nodes stay dead. -/
theorem NewNode.live_back (hn : NewNode σ σ' ids nid new) {a : ℕ}
    (h : NLive σ' a) : NLive σ a := by
  intro μ nd p op h1 h2 h3 h4
  have := h μ nd p _ (hn.up_fwd h1) (hn.node_fwd h2) h3 (hn.op_fwd h4)
  split at this
  · have e := Option.some.inj this
    have := lt_of_getElem? h2
    have := hn.hid
    omega
  · exact this

end

theorem Tree.parlt {E : Env K} {ρ : ℕ → ℕ} {σ : Core K} {g : Gt} {L A : List ℕ} (h : Tree E ρ σ g L A) :
    ∀ (o : ℕ) op μ, σ.ops[o]? = some op → op.parent = some μ → μ < σ.nodes.length := by
  intro o op μ h1 h2
  obtain ⟨⟨nd, a1, -⟩, -⟩ := h.opPar o op μ h1 h2
  exact lt_of_getElem? a1

theorem Tree.node {E : Env K} {ρ : ℕ → ℕ} {σ σ' : Core K} {g : Gt} {L A L' ids : List ℕ} {nid b : ℕ}
    {new : Node} (h : Tree E ρ σ g L A) (hn : NewNode σ σ' ids nid new) (hnd : ids.Nodup)
    (hb : ∀ o ∈ ids, g.hO o = b) (hw : ∀ o ∈ ids, o ∉ σ.waiting)
    (hLn : L'.Nodup) (hL : ∀ o ∈ L', o ∈ L ∧ o ∉ ids)
    (hlive : ∀ a, Anchor σ (ids ++ L') A a → NLive σ a)
    (hcut : ∀ a μ nd p, Anchor σ (ids ++ L') A a → Up σ.nodes σ.ops a μ → σ.nodes[μ]? = some nd →
      p ∈ ids → p ∉ nd.parents) :
    Tree E ρ σ' (g.addNode nid b) L' (nid :: A) := by
  have hlt : ∀ {μ : ℕ} {nd}, σ.nodes[μ]? = some nd → μ ≠ nid := fun h => by
    rw [hn.hid]; exact (lt_of_getElem? h).ne
  have hgN : ∀ {μ : ℕ} {nd}, σ.nodes[μ]? = some nd → (g.addNode nid b).hN μ = g.hN μ :=
    fun h => g.addNode_ne (hlt h)
  have hliveOld : ∀ a, a < σ.nodes.length → Anchor σ (ids ++ L') A a → NLive σ' a := by
    intro a ha hanc μ nd p op h1 h2 h3 h4
    obtain ⟨u1, u2⟩ := hn.up_back h.parlt ha h1
    rcases hn.node_back h2 with ⟨h2, -⟩ | ⟨rfl, -⟩
    · obtain ⟨op0, k1, rfl⟩ := hn.op_back h4
      rw [if_neg fun hp => hcut a μ nd p hanc u1 h2 hp h3]
      exact hlive a hanc μ nd p op0 u1 h2 h3 k1
    · rw [hn.hid] at u2; omega
  refine ⟨?_, ?_, ?_, ?_, ?_, ?_, ?_, ?_, ?_, ?_, ?_, ?_, ?_, ?_, ?_, ?_, ?_⟩
  · intro o op ν h1 h2
    obtain ⟨op0, k1, rfl⟩ := hn.op_back h1
    rw [ite_child] at h2
    obtain ⟨⟨nd, a1, a2⟩, a3⟩ := h.opPar o op0 ν k1 h2
    exact ⟨⟨nd, hn.node_fwd a1, a2⟩, by rw [hgN a1]; exact a3⟩
  · intro o op h1
    obtain ⟨op0, k1, rfl⟩ := hn.op_back h1
    obtain ⟨st, a1, a2⟩ := h.opEn o op0 k1
    obtain ⟨st', b1, b2⟩ := hn.states _ _ a1
    refine ⟨st', ?_, a2.later b2⟩
    rw [← b1]; split <;> rfl
  · intro hu o op ti t h1 h2 h3
    obtain ⟨op0, k1, rfl⟩ := hn.op_back h1
    refine h.opFit hu o op0 ti t k1 ?_ h3
    rw [← h2]; split <;> rfl
  · intro hu o op h1 h2
    obtain ⟨op0, k1, rfl⟩ := hn.op_back h1
    rw [ite_child] at h2
    have := h.opStep hu o op0 k1 h2
    split <;> exact this
  · intro o op c h1 h2
    obtain ⟨op0, k1, rfl⟩ := hn.op_back h1
    split at h2
    · rename_i hi
      cases h2
      exact ⟨new, hn.node_new, hn.parents ▸ hi⟩
    · obtain ⟨nd, a1, a2⟩ := h.opChild o op0 c k1 h2
      exact ⟨nd, hn.node_fwd a1, a2⟩
  · intro o o' op op' h1 h2 he
    obtain ⟨op0, k1, rfl⟩ := hn.op_back h1
    obtain ⟨op0', k1', rfl⟩ := hn.op_back h2
    refine h.postInj o o' op0 op0' k1 k1' ?_
    have e : ∀ (op0 : OpTr K) (o : ℕ),
      (if o ∈ ids then { op0 with child := some nid } else op0).post = op0.post := fun _ _ => by split <;> rfl
    rwa [e, e] at he
  · intro ν nd h1
    rcases hn.node_back h1 with ⟨h1, h2⟩ | ⟨rfl, rfl⟩
    · obtain ⟨st, a1, a2⟩ := h.ndSt ν nd h1
      obtain ⟨st', b1, b2⟩ := hn.states _ _ a1
      exact ⟨st', b1, by rw [hgN h1]; exact a2.later b2⟩
    · rw [g.addNode_eq]
      refine hn.st E ρ b fun o ho op st q1 q2 => ?_
      obtain ⟨st', a1, a2⟩ := h.opEn o op q1
      rw [q2] at a1; cases a1
      rw [← hb o ho]; exact a2
  · intro ν nd p h1 h2
    rcases hn.node_back h1 with ⟨h1, h3⟩ | ⟨rfl, rfl⟩
    · obtain ⟨op, a1, a2, a3⟩ := h.ndPar ν nd p h1 h2
      exact ⟨_, hn.op_fwd a1, by rw [hgN h1]; exact a2, fun μ hμ => a3 μ (by rw [ite_child] at hμ; exact hμ)⟩
    · rw [hn.parents] at h2
      obtain ⟨op, a1⟩ := hn.has p h2
      refine ⟨_, hn.op_fwd a1, by rw [g.addNode_eq]; exact hb p h2, fun μ hμ => ?_⟩
      rw [ite_child] at hμ
      have := h.parlt p op μ a1 hμ
      rw [hn.hid]; exact this
  · intro ν nd h1
    rcases hn.node_back h1 with ⟨h1, h3⟩ | ⟨rfl, rfl⟩
    · exact h.ndNodup ν nd h1
    · rw [hn.parents]; exact hnd
  · intro ν nd o h1 h2
    rcases hn.node_back h1 with ⟨h1, h3⟩ | ⟨rfl, rfl⟩
    · obtain ⟨op, a1, a2⟩ := h.ndOps ν nd o h1 h2
      exact ⟨_, hn.op_fwd a1, by rw [ite_child]; exact a2⟩
    · rw [hn.ops0] at h2; simp at h2
  · intro o ho
    rw [hn.waiting] at ho
    obtain ⟨op, a1, a2⟩ := h.wait o ho
    refine ⟨_, hn.op_fwd a1, ?_⟩
    rw [if_neg fun hc => hw o hc ho]; exact a2
  · rw [hn.waiting]; exact h.waitNodup
  · intro o ho
    obtain ⟨c1, c2⟩ := hL o ho
    obtain ⟨⟨op, a1, a2⟩, a3⟩ := h.held o c1
    refine ⟨⟨_, hn.op_fwd a1, ?_⟩, by rw [hn.waiting]; exact a3⟩
    rw [if_neg c2]; exact a2
  · exact hLn
  · intro ν hν
    rcases List.mem_cons.1 hν with rfl | hν
    · exact ⟨new, hn.node_new⟩
    · obtain ⟨nd, a1⟩ := h.act ν hν
      exact ⟨nd, hn.node_fwd a1⟩
  · intro a ha
    have old : Anchor σ (ids ++ L') A a → NLive σ' a := fun hanc => by
      refine hliveOld a ?_ hanc
      rcases hanc with hanc | ⟨o, op, -, h1, h2⟩
      · obtain ⟨nd, a1⟩ := h.act a hanc
        exact lt_of_getElem? a1
      · exact h.parlt o op a h1 h2
    rcases ha with ha | ⟨o, op, ho, h1, h2⟩
    · rcases List.mem_cons.1 ha with rfl | ha
      · intro μ nd p op h1 h2 h3 h4
        rcases hn.up_new h.parlt h1 with rfl | ⟨o, ho, op', a', i1, i2, i3, i4⟩
        · rcases hn.node_back h2 with ⟨-, h2⟩ | ⟨-, rfl⟩
          · exact absurd rfl h2
          · obtain ⟨op0, k1, rfl⟩ := hn.op_back h4
            rw [if_pos (hn.parents ▸ h3)]
        · exact hliveOld a' (h.parlt o op' a' i1 i2) (.inr ⟨o, op', .inr (by simp [ho]), i1, i2⟩) μ nd p op
            (hn.up_fwd i3) h2 h3 h4
      · exact old (.inl ha)
    · obtain ⟨op0, k1, rfl⟩ := hn.op_back h1
      rw [ite_child] at h2
      refine old (.inr ⟨o, op0, ?_, k1, h2⟩)
      rcases ho with ho | ho
      · rw [hn.waiting] at ho; exact .inl ho
      · exact .inr (by simp [ho])
  · intro ν hν
    obtain ⟨nd, p, op, a1, a2, a3, a4⟩ := h.dead ν hν
    refine ⟨nd, p, _, hn.node_fwd a1, a2, hn.op_fwd a3, ?_⟩
    split
    · intro hc
      exact hlt a1 (Option.some.inj hc).symm
    · exact a4

/-- A split node. -/
theorem Tree.kill {E : Env K} {ρ : ℕ → ℕ} {σ : Core K} {g : Gt} {L A : List ℕ} (h : Tree E ρ σ g L A) {ν : ℕ}
    {nd : Node} {p : ℕ} {op : OpTr K} (h1 : σ.nodes[ν]? = some nd) (h2 : p ∈ nd.parents)
    (h3 : σ.ops[p]? = some op) (h4 : op.child ≠ some ν) : Tree E ρ σ { g with D := insert ν g.D } L A :=
  { h with
    dead := fun μ hμ => by
      rcases Finset.mem_insert.1 hμ with rfl | hμ
      · exact ⟨nd, p, op, h1, h2, h3, h4⟩
      · exact h.dead μ hμ }

theorem Tree.live_notD {E : Env K} {ρ : ℕ → ℕ} {σ : Core K} {g : Gt} {L A : List ℕ} (h : Tree E ρ σ g L A) {ν : ℕ}
    (hl : NLive σ ν) : ν ∉ g.D := by
  intro hc
  obtain ⟨nd, p, op, a1, a2, a3, a4⟩ := h.dead ν hc
  exact a4 (hl ν nd p op (.refl _) a1 a2 a3)

end Hylaa
