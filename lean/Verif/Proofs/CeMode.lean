import Verif.Proofs.CeHeap

/-! The modes of operations and nodes: operations leave along transitions of the mode of their node, and
arrive in the mode of the node made from them; replay works with nodes of the same mode. -/

set_option linter.unusedSectionVars false

namespace Hylaa
open Spec
variable {K : Type} [Field K] [LinearOrder K] [IsStrictOrderedRing K]

/-- Mode of a state set, of a node, and of the state set an operation leads to. -/
def Core.smode (σ : Core K) (s : ℕ) : Option ℕ := (σ.states[s]?).map fun st => st.mode
def Core.nmode (σ : Core K) (ν : ℕ) : Option ℕ := (σ.nodes[ν]?).bind fun nd => σ.smode nd.state
def Core.pmode (σ : Core K) (o : ℕ) : Option ℕ := (σ.ops[o]?).bind fun op => σ.smode op.post

theorem smode_of {σ : Core K} {s : ℕ} {st : SS K} (h : σ.states[s]? = some st) : σ.smode s = some st.mode := by
  unfold Core.smode; rw [h]; rfl

theorem nmode_of {σ : Core K} {ν : ℕ} {nd : Node} (h : σ.nodes[ν]? = some nd) :
    σ.nmode ν = σ.smode nd.state := by
  unfold Core.nmode; rw [h]; rfl

theorem pmode_of {σ : Core K} {o : ℕ} {op : OpTr K} (h : σ.ops[o]? = some op) :
    σ.pmode o = σ.smode op.post := by
  unfold Core.pmode; rw [h]; rfl

/-- Modes are never changed. -/
structure MKeep (σ σ' : Core K) : Prop where
  s : ∀ s i, σ.smode s = some i → σ'.smode s = some i
  n : ∀ (ν : ℕ) nd, σ.nodes[ν]? = some nd → ∃ nd', σ'.nodes[ν]? = some nd' ∧ nd'.state = nd.state ∧
    nd'.parents = nd.parents
  o : ∀ (o : ℕ) op, σ.ops[o]? = some op → ∃ op', σ'.ops[o]? = some op' ∧ op'.post = op.post ∧
    op'.parent = op.parent ∧ op'.trans = op.trans

theorem MKeep.nm {σ σ' : Core K} (h : MKeep σ σ') {ν i : ℕ} (hn : σ.nmode ν = some i) :
    σ'.nmode ν = some i := by
  unfold Core.nmode at hn
  cases hq : σ.nodes[ν]? with
  | none => rw [hq] at hn; cases hn
  | some nd =>
    rw [hq] at hn
    obtain ⟨nd', h1, h2, -⟩ := h.n ν nd hq
    rw [nmode_of h1, h2]
    exact h.s _ _ hn

theorem MKeep.pm {σ σ' : Core K} (h : MKeep σ σ') {o i : ℕ} (hn : σ.pmode o = some i) :
    σ'.pmode o = some i := by
  unfold Core.pmode at hn
  cases hq : σ.ops[o]? with
  | none => rw [hq] at hn; cases hn
  | some op =>
    rw [hq] at hn
    obtain ⟨op', h1, h2, -⟩ := h.o o op hq
    rw [pmode_of h1, h2]
    exact h.s _ _ hn

theorem MKeep.refl (σ : Core K) : MKeep σ σ :=
  ⟨fun _ _ h => h, fun _ nd h => ⟨nd, h, rfl, rfl⟩, fun _ op h => ⟨op, h, rfl, rfl, rfl⟩⟩

theorem MKeep.trans {a b c : Core K} (h : MKeep a b) (h' : MKeep b c) : MKeep a c := by
  refine ⟨fun s i hs => h'.s s i (h.s s i hs), fun ν nd hν => ?_, fun o op ho => ?_⟩
  · obtain ⟨n1, a1, a2, a3⟩ := h.n ν nd hν
    obtain ⟨n2, b1, b2, b3⟩ := h'.n ν n1 a1
    exact ⟨n2, b1, b2.trans a2, b3.trans a3⟩
  · obtain ⟨o1, a1, a2, a3, a4⟩ := h.o o op ho
    obtain ⟨o2, b1, b2, b3, b4⟩ := h'.o o o1 a1
    exact ⟨o2, b1, b2.trans a2, b3.trans a3, b4.trans a4⟩

theorem smode_append {σ : Core K} {l : List (SS K)} {s i : ℕ} (h : σ.smode s = some i) :
    ({ σ with states := σ.states ++ l } : Core K).smode s = some i := by
  unfold Core.smode at h ⊢
  cases hq : σ.states[s]? with
  | none => rw [hq] at h; cases h
  | some st => rw [hq] at h; rw [List.getElem?_append_left (lt_of_getElem? hq), hq]; exact h

theorem Mild.mkeep {all : Bool} {σ σ' : Core K} (h : Mild all σ σ') : MKeep σ σ' := by
  have hn : ∀ (ν : ℕ) nd, σ.nodes[ν]? = some nd → ∃ nd', σ'.nodes[ν]? = some nd' ∧ nd'.state = nd.state ∧
      nd'.parents = nd.parents := fun ν nd hν => by
    obtain ⟨l, hl⟩ := h.node hν
    exact ⟨_, hl, rfl, rfl⟩
  cases h with
  | @state sid st st' h1 h2 =>
    refine ⟨fun s i hs => ?_, hn, fun o op ho => ⟨op, ho, rfl, rfl, rfl⟩⟩
    unfold Core.smode at hs ⊢
    show ((σ.states.set sid st')[s]?).map _ = _
    by_cases hk : sid = s
    · subst hk
      rw [List.getElem?_set_self (lt_of_getElem? h1)]
      rw [h1] at hs
      rw [← hs]; exact congrArg some h2.1
    · rw [List.getElem?_set_ne hk]; exact hs
  | misc => exact ⟨fun _ _ h => h, hn, fun o op ho => ⟨op, ho, rfl, rfl, rfl⟩⟩
  | push ν x => exact ⟨fun _ _ h => h, hn, fun o op ho => ⟨op, ho, rfl, rfl, rfl⟩⟩
  | @op ν nd st post ti c b h1 h2 h3 h4 h5 h6 =>
    exact ⟨fun _ _ h => smode_append h, hn, fun o op ho => ⟨op, append_keep ho, rfl, rfl, rfl⟩⟩

theorem setChild_get3 {c : ℕ} : ∀ (ids : List ℕ) (l : List (OpTr K)) (o : ℕ),
    ∃ f : OpTr K → OpTr K, (∀ x, (f x).parent = x.parent ∧ (f x).post = x.post ∧ (f x).trans = x.trans) ∧
      (ids.foldl (fun l o => l.modify o fun x => { x with child := some c }) l)[o]? = (l[o]?).map f
  | [], l, o => ⟨id, fun _ => ⟨rfl, rfl, rfl⟩, by simp⟩
  | i :: ids, l, o => by
    obtain ⟨f, hf, h⟩ := setChild_get3 ids (l.modify i fun x => { x with child := some c }) o
    rw [List.foldl_cons, h, List.getElem?_modify]
    by_cases hi : i = o
    · refine ⟨fun x => f { x with child := some c }, fun x => hf _, ?_⟩
      cases l[o]? <;> simp [hi]
    · refine ⟨f, hf, ?_⟩
      cases l[o]? <;> simp [hi]

theorem makeNode_mkeep {E : Env K} {σ : Core K} {r : Core K × ℕ} {ids : List ℕ} {at_ : Option AggType}
    {s : Option String} (h : makeNode E σ ids at_ s = .ok r) : MKeep σ r.1 := by
  obtain ⟨σ', nid⟩ := r
  obtain ⟨ss, rts, sid, os, sts, rfl, -, -, -, hk, -⟩ := makeNode_shape h
  refine ⟨fun s i hs => ?_, fun ν nd hν => ⟨nd, append_keep hν, rfl, rfl⟩, fun o op ho => ?_⟩
  · unfold Core.smode at hs ⊢
    cases hq : σ.states[s]? with
    | none => rw [hq] at hs; cases hs
    | some st =>
      rw [hq] at hs
      obtain ⟨st', b1, b2, -⟩ := hk s st hq
      rw [b1, ← hs]; exact congrArg some b2.1
  · obtain ⟨f, hf, he⟩ := setChild_get3 (c := σ.nodes.length) ids σ.ops o
    refine ⟨f op, ?_, (hf op).2.1, (hf op).1, (hf op).2.2⟩
    simp only
    rw [he, ho]; rfl

theorem Micros.mkeep {E : Env K} {σ σ' : Core K} (h : Micros E σ σ') : MKeep σ σ' := by
  induction h with
  | refl => exact .refl _
  | tail _ h2 ih =>
    refine ih.trans ?_
    cases h2 with
    | mild h => exact h.mkeep
    | node h => exact makeNode_mkeep h
    | unwait => exact ⟨fun _ _ h => h, fun _ nd h => ⟨nd, h, rfl, rfl⟩, fun _ op h => ⟨op, h, rfl, rfl, rfl⟩⟩

/-! ### The invariant -/

/-- Transition `ti` leaves a mode `i` that is not an error mode. -/
def Leaves (E : Env K) (i ti : ℕ) (t : Tr K) : Prop :=
  E.ha.trans[ti]? = some t ∧ ∃ m l, E.ha.modes[i]? = some m ∧ m.isError = false ∧ E.ha.out[i]? = some l ∧ ti ∈ l

structure ModeInv (E : Env K) (σ : Core K) : Prop where
  op : ∀ (o : ℕ) op ν, σ.ops[o]? = some op → op.parent = some ν → ∃ ti t i, op.trans = some ti ∧
    Leaves E i ti t ∧ σ.nmode ν = some i ∧ σ.smode op.post = some t.dst
  nd : ∀ (ν : ℕ) nd o, σ.nodes[ν]? = some nd → o ∈ nd.parents → ∃ i, σ.pmode o = some i ∧ σ.nmode ν = some i
  tr : ∀ (ν : ℕ) nd oid, σ.nodes[ν]? = some nd → .tr oid ∈ nd.ops → ∃ op, σ.ops[oid]? = some op ∧
    op.parent = some ν

/-- Nothing new in the heap. -/
theorem ModeInv.upd {E : Env K} {σ σ' : Core K} (h : ModeInv E σ) (hk : MKeep σ σ')
    (ho : ∀ (o : ℕ) op, σ'.ops[o]? = some op → ∃ op', σ.ops[o]? = some op' ∧ op'.parent = op.parent ∧
      op'.trans = op.trans ∧ op'.post = op.post)
    (hn : ∀ (ν : ℕ) nd, σ'.nodes[ν]? = some nd → ∃ nd', σ.nodes[ν]? = some nd' ∧ nd'.parents = nd.parents ∧
      ∀ oid, .tr oid ∈ nd.ops → .tr oid ∈ nd'.ops) : ModeInv E σ' := by
  refine ⟨fun o op ν h1 h2 => ?_, fun ν nd o h1 h2 => ?_, fun ν nd oid h1 h2 => ?_⟩
  · obtain ⟨op', a1, a2, a3, a4⟩ := ho o op h1
    obtain ⟨ti, t, i, b1, b2, b3, b4⟩ := h.op o op' ν a1 (a2.trans h2)
    exact ⟨ti, t, i, a3.symm.trans b1, b2, hk.nm b3, by rw [← a4]; exact hk.s _ _ b4⟩
  · obtain ⟨nd', a1, a2, -⟩ := hn ν nd h1
    obtain ⟨i, b1, b2⟩ := h.nd ν nd' o a1 (by rw [a2]; exact h2)
    exact ⟨i, hk.pm b1, hk.nm b2⟩
  · obtain ⟨nd', a1, a2, a3⟩ := hn ν nd h1
    obtain ⟨op, b1, b2⟩ := h.tr ν nd' oid a1 (a3 oid h2)
    obtain ⟨op', c1, c2, c3, -⟩ := hk.o oid op b1
    exact ⟨op', c1, c3.trans b2⟩

theorem ModeInv.same {E : Env K} {σ σ' : Core K} (h : ModeInv E σ) (hk : MKeep σ σ') (ho : σ'.ops = σ.ops)
    (hn : σ'.nodes = σ.nodes) : ModeInv E σ' :=
  h.upd hk (fun _ op h => ⟨op, by rw [← ho]; exact h, rfl, rfl, rfl⟩)
    fun _ nd h => ⟨nd, by rw [← hn]; exact h, rfl, fun _ h => h⟩

theorem pushOp_cases {σ : Core K} {ν : ℕ} {x : NOp} {μ : ℕ} {md : Node}
    (h : (σ.pushOp ν x).nodes[μ]? = some md) : (σ.nodes[μ]? = some md) ∨
      (μ = ν ∧ ∃ md0, σ.nodes[μ]? = some md0 ∧ md = { md0 with ops := md0.ops ++ [x] }) := by
  obtain ⟨md0, h1, -, -, -, h2, h3⟩ := pushOp_inv h
  by_cases hk : μ = ν
  · exact .inr ⟨hk, md0, h1, h3 hk⟩
  · rw [h2 hk]; exact .inl h1

theorem ModeInv.push {E : Env K} {σ : Core K} (h : ModeInv E σ) (ν : ℕ) {x : NOp} (hx : x.isTr = false) :
    ModeInv E (σ.pushOp ν x) := by
  refine h.upd (Mild.mkeep (all := true) (.push σ ν x hx)) (fun _ op h => ⟨op, h, rfl, rfl, rfl⟩)
    fun μ nd h => ?_
  rcases pushOp_cases h with h | ⟨-, nd0, h0, rfl⟩
  · exact ⟨nd, h, rfl, fun _ h => h⟩
  · refine ⟨nd0, h0, rfl, fun oid ho => ?_⟩
    simp only [List.mem_append, List.mem_singleton] at ho
    rcases ho with ho | rfl
    · exact ho
    · cases hx

theorem makeOp_modeInv {E : Env K} {σ : Core K} (h : ModeInv E σ) {ν : ℕ} {nd : Node} {st post : SS K}
    {ti : ℕ} {t : Tr K} {c : Option (List K)} {b : Bool} (hν : σ.nodes[ν]? = some nd)
    (hst : σ.states[nd.state]? = some st) (hl : Leaves E st.mode ti t) (hp : post.mode = t.dst) :
    ModeInv E { ({ σ with
          ops := σ.ops ++ [{ step := st.stepIn, parent := some ν, child := none, trans := some ti,
                             post := σ.states.length, center := c }]
          states := σ.states ++ [post] } : Core K).pushOp ν (.tr σ.ops.length) with
        waiting := if b then σ.waiting ++ [σ.ops.length] else σ.waiting } := by
  have hk : MKeep σ { ({ σ with
          ops := σ.ops ++ [{ step := st.stepIn, parent := some ν, child := none, trans := some ti,
                             post := σ.states.length, center := c }]
          states := σ.states ++ [post] } : Core K).pushOp ν (.tr σ.ops.length) with
        waiting := if b then σ.waiting ++ [σ.ops.length] else σ.waiting } := by
    refine ⟨fun _ _ h => smode_append h, fun μ nd h => ?_, fun o op ho => ⟨op, append_keep ho, rfl, rfl, rfl⟩⟩
    have : ∃ l, (σ.nodes.modify ν fun n => { n with ops := n.ops ++ [.tr σ.ops.length] })[μ]? =
        some { nd with ops := l } := by
      rw [List.getElem?_modify, h]
      by_cases hk : ν = μ
      · exact ⟨nd.ops ++ [.tr σ.ops.length], by simp [hk]⟩
      · exact ⟨nd.ops, by simp [hk]⟩
    obtain ⟨l, hl⟩ := this
    exact ⟨_, hl, rfl, rfl⟩
  refine ⟨fun o op μ h1 h2 => ?_, fun μ nd o h1 h2 => ?_, fun μ md oid h1 h2 => ?_⟩
  · rcases append_inv h1 with ⟨h1, -⟩ | ⟨rfl, rfl⟩
    · obtain ⟨ti', t', i, b1, b2, b3, b4⟩ := h.op o op μ h1 h2
      exact ⟨ti', t', i, b1, b2, hk.nm b3, hk.s _ _ b4⟩
    · cases h2
      refine ⟨ti, t, st.mode, rfl, hl, hk.nm ?_, ?_⟩
      · rw [nmode_of hν, smode_of hst]
      · rw [← hp]
        exact smode_of (st := post) List.getElem?_concat_length
  · have h1' := pushOp_cases h1
    have : ∃ nd', σ.nodes[μ]? = some nd' ∧ nd'.parents = nd.parents := by
      rcases h1' with h | ⟨-, nd0, h, rfl⟩
      · exact ⟨nd, h, rfl⟩
      · exact ⟨nd0, h, rfl⟩
    obtain ⟨nd', a1, a2⟩ := this
    obtain ⟨i, b1, b2⟩ := h.nd μ nd' o a1 (by rw [a2]; exact h2)
    exact ⟨i, hk.pm b1, hk.nm b2⟩
  · rcases pushOp_cases h1 with h1 | ⟨hμ, nd0, h3, rfl⟩
    · obtain ⟨op, b1, b2⟩ := h.tr μ md oid h1 h2
      exact ⟨op, append_keep b1, b2⟩
    · simp only [List.mem_append, List.mem_singleton, NOp.tr.injEq] at h2
      rcases h2 with h2 | rfl
      · obtain ⟨op, b1, b2⟩ := h.tr μ nd0 oid h3 h2
        exact ⟨op, append_keep b1, b2⟩
      · exact ⟨_, List.getElem?_concat_length, by rw [hμ]⟩

theorem makeNode_modeInv {E : Env K} {σ : Core K} {r : Core K × ℕ} {ids : List ℕ} {at_ : Option AggType}
    {s : Option String} (h : ModeInv E σ) (hn : makeNode E σ ids at_ s = .ok r) {i : ℕ}
    (hi : ∀ o ∈ ids, σ.pmode o = some i) : ModeInv E r.1 ∧ r.1.nmode r.2 = some i := by
  have hk := makeNode_mkeep hn
  obtain ⟨σ', nid⟩ := r
  obtain ⟨ss, rts, sid, os, sts, rfl, rfl, fos, fsts, hlk, hor⟩ := makeNode_shape hn
  have hnew : ({ σ with
        states := ss
        roots := rts
        nodes := σ.nodes ++ [{ state := sid, parents := ids, agg := at_ }]
        ops := ids.foldl (fun l o => l.modify o fun x =>
          { x with child := some σ.nodes.length }) σ.ops } : Core K).nmode σ.nodes.length = some i := by
    rw [nmode_of List.getElem?_concat_length]
    rcases hor with ⟨o, op, h1, h2, h3, -⟩ | ⟨h1, h2, h3, st, s0, a1, a2, a3, a4, a5, a6⟩
    · apply hk.s
      have := hi o (by simp [h1])
      rw [pmode_of h2] at this
      simp only
      rw [h3]; exact this
    · rw [smode_of (st := st) a1, a6]
      cases fsts with
      | nil => simp at a5
      | cons q1 q2 =>
        simp at a5; subst a5
        cases fos with
        | cons p1 p2 =>
          have := hi _ (List.mem_cons_self ..)
          rw [pmode_of p1, smode_of q1] at this
          exact this
  refine ⟨⟨fun o op ν h1 h2 => ?_, fun ν nd o h1 h2 => ?_, fun ν nd oid h1 h2 => ?_⟩, hnew⟩
  · obtain ⟨f, hf, he⟩ := setChild_get3 (c := σ.nodes.length) ids σ.ops o
    have h1' := h1
    simp only at h1'
    rw [he] at h1'
    cases hq : σ.ops[o]? with
    | none => rw [hq] at h1'; cases h1'
    | some op0 =>
      rw [hq] at h1'
      obtain rfl : f op0 = op := Option.some.inj h1'
      obtain ⟨ti, t, i, b1, b2, b3, b4⟩ := h.op o op0 ν hq ((hf op0).1.symm.trans h2)
      exact ⟨ti, t, i, (hf op0).2.2.trans b1, b2, hk.nm b3, by rw [(hf op0).2.1]; exact hk.s _ _ b4⟩
  · rcases append_inv h1 with ⟨h1, -⟩ | ⟨rfl, rfl⟩
    · obtain ⟨i, b1, b2⟩ := h.nd ν nd o h1 h2
      exact ⟨i, hk.pm b1, hk.nm b2⟩
    · exact ⟨i, hk.pm (hi o h2), hnew⟩
  · rcases append_inv h1 with ⟨h1, -⟩ | ⟨rfl, rfl⟩
    · obtain ⟨op, b1, b2⟩ := h.tr ν nd oid h1 h2
      obtain ⟨op', c1, -, c3, -⟩ := hk.o oid op b1
      exact ⟨op', c1, c3.trans b2⟩
    · simp at h2

end Hylaa
