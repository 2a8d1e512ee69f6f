import Verif.Proofs.CoreInv

/-! The invariant under the elementary heap changes. -/

set_option linter.unusedSectionVars false

namespace Hylaa
open Spec
variable {K : Type} [Field K] [LinearOrder K] [IsStrictOrderedRing K] [JumpAt K]

/-! ### State sets whose LP was only optimised -/

theorem SS.Ok.withLp {m : Mode K} {d : Dyn K} {X : (ℕ → K) → Prop} {ε : K} {hi : Prop} {c : ℕ}
    {st : SS K} (h : st.Ok m d X ε hi c) {lp : Lp K} (h1 : lp.toSys = st.lp.toSys)
    (h2 : lp.ObjInv) : ({ st with lp := lp } : SS K).Ok m d X ε hi c := by
  obtain ⟨⟨ρ, a1, a2, a3⟩, a4⟩ := h
  exact ⟨⟨ρ, a1.withLp h1 h2, a2, a3⟩, a4⟩

theorem SS.Ok.anti {m : Mode K} {d : Dyn K} {X Y : (ℕ → K) → Prop} {ε : K} {hi : Prop} {c : ℕ}
    {st : SS K} (h : st.Ok m d X ε hi c) (hXY : ∀ x, Y x → X x) : st.Ok m d Y ε False c := by
  obtain ⟨⟨ρ, a1, a2, a3⟩, a4⟩ := h
  exact ⟨⟨ρ, a1, fun y v hy => a2 y v (hXY y hy), fun hf => hf.elim⟩, a4⟩

theorem mem_toSys {a b : Lp K} (h : a.toSys = b.toSys) (x : ℕ → K) : a.Mem x ↔ b.Mem x := by
  unfold Sys.Mem; rw [h]

theorem SS.Entry.withLp {E : Env K} {st : SS K} (h : st.Entry E) {lp : Lp K}
    (h1 : lp.toSys = st.lp.toSys) (h2 : lp.ObjInv) : ({ st with lp := lp } : SS K).Entry E := by
  refine ⟨h.zero, h2, ?_, ?_, fun m hm he => ?_⟩
  · show lp.WF; rw [h1]; exact h.wf
  · show lp.cur + lp.dims ≤ lp.numCols; rw [h1]; exact h.cur
  · obtain ⟨a1, a2⟩ := h.ok m hm he
    refine ⟨by show lp.dims = _; rw [h1]; exact a1, ?_⟩
    have := a2.withLp h1 h2
    have e : (lp.Mem : (ℕ → K) → Prop) = st.lp.Mem := by rw [h1]
    show SS.Ok m _ lp.Mem _ _ _ _
    rw [e]; exact this

theorem FreshSt.touch {E : Env K} {gh : Ghost K} {o : ℕ} {op : OpTr K} {st : SS K}
    (h : FreshSt E gh o op st) {lp : Lp K} (h1 : lp.toSys = st.lp.toSys)
    (h2 : st.lp.ObjInv → lp.ObjInv) : FreshSt E gh o op { st with lp := lp } :=
  ⟨h.zero, h.mode, h.time,
    fun hp m hm he => by
      have := h.init hp m hm he
      refine this.withLp h1 (h2 ?_)
      obtain ⟨⟨ρ, a1, -⟩, -⟩ := this
      exact a1.obj,
    fun hp => ⟨(h.entry hp).1.withLp h1 (h2 (h.entry hp).1.obj), fun x n hx => by
      rw [mem_toSys h1]; exact (h.entry hp).2 x n hx⟩,
    fun hc => by have := h.lo hc; rw [← h1] at this; exact this, h.initMode⟩

/-! ### Elementary changes -/

/-- Change the state set of an active node (and the time-elapse objects). -/
theorem Body.setState {E : Env K} {X0 : ℕ → (ℕ → K) → Prop} {σ : Core K} {gh : Ghost K}
    {L A : List ℕ} (h : Body E X0 σ gh L A) {ν : ℕ} {nd : Node} (hν : σ.nodes[ν]? = some nd)
    {st st' : SS K} (hst : σ.states[nd.state]? = some st) (hmode : st'.mode = st.mode)
    {te : ℕ → Option (TE K)}
    (hte : ∀ (i : ℕ) (m : Mode K) u, E.ha.modes[i]? = some m → m.isError = false → te i = some u →
      u.Inv (E.dyn i)) :
    Body E X0 { σ.setState nd.state st' with te := te } gh L A := by
  have hlt := lt_of_getElem? hst
  have hne : ∀ (i : ℕ), i ≠ nd.state → (σ.states.set nd.state st')[i]? = σ.states[i]? :=
    fun i hi => List.getElem?_set_ne (Ne.symm hi)
  have hwait : ∀ o ∈ σ.waiting, ∀ op, σ.ops[o]? = some op → op.post ≠ nd.state := by
    intro o ho op hop
    obtain ⟨op', h1, h2⟩ := h.wait o ho
    rw [hop] at h1; cases h1
    exact (h.freshNe o op ν nd hop (.inl h2) hν).symm
  exact { h with
    te := hte
    opPost := fun o op ho => by
      show _ < (σ.states.set nd.state st').length
      rw [List.length_set]; exact h.opPost o op ho
    ndSt := fun μ md hμ => by
      obtain ⟨s, h1, h2⟩ := h.ndSt μ md hμ
      by_cases he : md.state = nd.state
      · obtain rfl := h.stInj _ _ _ _ hμ hν he
        refine ⟨st', ?_, ?_⟩
        · show (σ.states.set nd.state st')[md.state]? = _
          rw [he, List.getElem?_set_self hlt]
        · rw [hmode]
          rw [he, hst] at h1; cases h1; exact h2
      · exact ⟨s, (hne _ he).trans h1, h2⟩
    fresh := fun o op ho hf => by
      obtain ⟨s, h1, h2⟩ := h.fresh o op ho hf
      exact ⟨s, (hne _ (h.freshNe o op ν nd ho hf hν).symm).trans h1, h2⟩
    waitErr := fun o ho op s m hop hs hm he =>
      h.waitErr o ho op s m hop ((hne _ (hwait o ho op hop)).symm.trans hs) hm he }

/-- Optimisation on any state sets. -/
theorem Body.touch {E : Env K} {X0 : ℕ → (ℕ → K) → Prop} {σ : Core K} {gh : Ghost K}
    {L A : List ℕ} (h : Body E X0 σ gh L A) {ss : List (SS K)} (ht : Touched σ.states ss) :
    Body E X0 { σ with states := ss } gh L A := by
  exact { h with
    opPost := fun o op ho => by
      show _ < ss.length
      rw [ht.1]; exact h.opPost o op ho
    ndSt := fun μ md hμ => by
      obtain ⟨s, h1, h2⟩ := h.ndSt μ md hμ
      obtain ⟨lp, k1, -⟩ := ht.2 _ _ h1
      exact ⟨_, k1, h2⟩
    fresh := fun o op ho hf => by
      obtain ⟨s, h1, h2⟩ := h.fresh o op ho hf
      obtain ⟨lp, k1, k2, k3⟩ := ht.2 _ _ h1
      exact ⟨_, k1, h2.touch k2 k3⟩
    waitErr := fun o ho op s m hop hs hm he => by
      have hlt := h.opPost o op hop
      obtain ⟨lp, k1, -⟩ := ht.2 _ _ (List.getElem?_eq_getElem hlt)
      have hs' : ss[op.post]? = some s := hs
      rw [k1] at hs'; cases hs'
      obtain ⟨w1, w2⟩ := h.waitErr o ho op _ m hop (List.getElem?_eq_getElem hlt) hm he
      exact ⟨w1, w2⟩ }

theorem pushOp_nodes (σ : Core K) (ν : ℕ) (x : NOp) (μ : ℕ) :
    (σ.pushOp ν x).nodes[μ]? =
      (σ.nodes[μ]?).map fun n => if ν = μ then { n with ops := n.ops ++ [x] } else n := by
  show (σ.nodes.modify ν _)[μ]? = _
  rw [List.getElem?_modify]
  cases σ.nodes[μ]? <;> by_cases h : ν = μ <;> simp [h]

/-- Nodes of a heap after `pushOp`, in terms of the nodes before. -/
theorem pushOp_inv {σ : Core K} {ν : ℕ} {x : NOp} {μ : ℕ} {md : Node}
    (h : (σ.pushOp ν x).nodes[μ]? = some md) : ∃ md0, σ.nodes[μ]? = some md0 ∧
      md.parents = md0.parents ∧ md.state = md0.state ∧ md.agg = md0.agg ∧
      (μ ≠ ν → md = md0) ∧ (μ = ν → md = { md0 with ops := md0.ops ++ [x] }) := by
  rw [pushOp_nodes] at h
  cases hq : σ.nodes[μ]? with
  | none => rw [hq] at h; cases h
  | some md0 =>
    rw [hq] at h
    simp only [Option.map_some, Option.some.injEq] at h
    refine ⟨md0, rfl, ?_⟩
    by_cases he : ν = μ
    · rw [if_pos he] at h; subst h
      exact ⟨rfl, rfl, rfl, fun hc => absurd he.symm hc, fun _ => rfl⟩
    · rw [if_neg he] at h; subst h
      exact ⟨rfl, rfl, rfl, fun _ => rfl, fun hc => absurd hc.symm he⟩

theorem Up.congr {σ σ' : Core K} (hn : ∀ (μ : ℕ) md, σ'.nodes[μ]? = some md →
    ∃ md0, σ.nodes[μ]? = some md0 ∧ md.parents = md0.parents)
    (ho : ∀ (p : ℕ) op, σ'.ops[p]? = some op → ∃ op0, σ.ops[p]? = some op0 ∧ op.parent = op0.parent)
    {ν μ : ℕ} (h : Up σ'.nodes σ'.ops ν μ) : Up σ.nodes σ.ops ν μ := by
  induction h with
  | refl => exact .refl _
  | step _ h1 h2 h3 h4 ih =>
    obtain ⟨md0, a1, a2⟩ := hn _ _ h1
    obtain ⟨op0, b1, b2⟩ := ho _ _ h3
    exact .step ih a1 (a2 ▸ h2) b1 (b2 ▸ h4)

/-- Append an invariant or left operation to an active node. -/
theorem Body.push {E : Env K} {X0 : ℕ → (ℕ → K) → Prop} {σ : Core K} {gh : Ghost K}
    {L A : List ℕ} (h : Body E X0 σ gh L A) {ν : ℕ} (hA : ν ∈ A) {x : NOp} (hx : x.isTr = false) :
    Body E X0 (σ.pushOp ν x) gh L A := by
  have hmem : ∀ (μ : ℕ) (md md0 : Node) o, (μ ≠ ν → md = md0) →
      (μ = ν → md = { md0 with ops := md0.ops ++ [x] }) → (NOp.tr o ∈ md.ops ↔ NOp.tr o ∈ md0.ops) := by
    intro μ md md0 o h1 h2
    by_cases he : μ = ν
    · rw [h2 he]
      simp only [List.mem_append, List.mem_singleton]
      constructor
      · rintro (h | h)
        · exact h
        · subst h; simp [NOp.isTr] at hx
      · exact .inl
    · rw [h1 he]
  have hback : ∀ (μ : ℕ) md0, σ.nodes[μ]? = some md0 → ∃ md, (σ.pushOp ν x).nodes[μ]? = some md ∧
      md.parents = md0.parents ∧ ∀ o, NOp.tr o ∈ md0.ops → NOp.tr o ∈ md.ops := by
    intro μ md0 h0
    refine ⟨if ν = μ then { md0 with ops := md0.ops ++ [x] } else md0, by rw [pushOp_nodes, h0]; rfl, ?_, ?_⟩
    · split <;> rfl
    · intro o ho; split
      · simp [ho]
      · exact ho
  have hup : ∀ {a b}, Up (σ.pushOp ν x).nodes σ.ops a b → Up σ.nodes σ.ops a b :=
    Up.congr (σ := σ) (σ' := σ.pushOp ν x)
    (fun μ md hμ => by obtain ⟨md0, a, b, -⟩ := pushOp_inv hμ; exact ⟨md0, a, b⟩)
    (fun p op hp => ⟨op, hp, rfl⟩)
  have hlive : ∀ a, NLive σ a → NLive (σ.pushOp ν x) a := by
    intro a ha μ md p op h1 h2 h3 h4
    obtain ⟨md0, k1, k2, -⟩ := pushOp_inv h2
    exact ha μ md0 p op (hup h1) k1 (k2 ▸ h3) h4
  have hfr : ∀ op, FreshOp (σ.pushOp ν x) op → FreshOp σ op := by
    rintro op (hc | ⟨c, md, h1, h2, h3⟩)
    · exact .inl hc
    · obtain ⟨md0, k1, k2, -⟩ := pushOp_inv h2
      exact .inr ⟨c, md0, h1, k1, k2 ▸ h3⟩
  exact { h with
    opPar := fun o op μ ho hp => by
      obtain ⟨md0, h1, h2⟩ := h.opPar o op μ ho hp
      obtain ⟨md, k1, -, k3⟩ := hback μ md0 h1
      exact ⟨md, k1, k3 o h2⟩
    opChild := fun o op c ho hc => by
      obtain ⟨md0, h1, h2⟩ := h.opChild o op c ho hc
      obtain ⟨md, k1, k2, -⟩ := hback c md0 h1
      exact ⟨md, k1, k2 ▸ h2⟩
    ndSt := fun μ md hμ => by
      obtain ⟨md0, a, -, b, -⟩ := pushOp_inv hμ
      rw [b]; exact h.ndSt μ md0 a
    ndErr := fun μ md hμ => by
      obtain ⟨md0, a, -⟩ := pushOp_inv hμ
      exact h.ndErr μ md0 a
    ndPar := fun μ md p hμ hp => by
      obtain ⟨md0, a, b, -⟩ := pushOp_inv hμ
      exact h.ndPar μ md0 p a (b ▸ hp)
    ndMany := fun μ md p op hμ hl hp ho => by
      obtain ⟨md0, a, b, -⟩ := pushOp_inv hμ
      exact h.ndMany μ md0 p op a (b ▸ hl) (b ▸ hp) ho
    ndSame := fun hd μ md p q op oq hμ hp hq => by
      obtain ⟨md0, a, b, -⟩ := pushOp_inv hμ
      exact h.ndSame hd μ md0 p q op oq a (b ▸ hp) (b ▸ hq)
    ndNodup := fun μ md hμ => by
      obtain ⟨md0, a, b, -⟩ := pushOp_inv hμ
      rw [b]; exact h.ndNodup μ md0 a
    ndOps := fun μ md o hμ ho => by
      obtain ⟨md0, a, -, -, -, b, c⟩ := pushOp_inv hμ
      exact h.ndOps μ md0 o a ((hmem μ md md0 o b c).1 ho)
    ndAgg := fun μ md ag hμ ha => by
      obtain ⟨md0, a, -, -, b, -⟩ := pushOp_inv hμ
      exact h.ndAgg μ md0 ag a (b ▸ ha)
    ndOrder := fun μ md hμ => by
      obtain ⟨md0, a, -, -, -, b, c⟩ := pushOp_inv hμ
      have := h.ndOrder μ md0 a
      by_cases he : μ = ν
      · rw [c he]
        unfold OrderOk
        rw [List.pairwise_append]
        refine ⟨this, List.pairwise_singleton _ _, ?_⟩
        intro a _ b hb s i st o op _ hbo
        simp only [List.mem_singleton] at hb
        subst hb; subst hbo; simp [NOp.isTr] at hx
      · rw [b he]; exact this
    stInj := fun μ ρ md rd hμ hρ he => by
      obtain ⟨md0, a, -, b, -⟩ := pushOp_inv hμ
      obtain ⟨rd0, a', -, b', -⟩ := pushOp_inv hρ
      exact h.stInj μ ρ md0 rd0 a a' (by rw [← b, ← b']; exact he)
    freshNe := fun o op μ md ho hf hμ => by
      obtain ⟨md0, a, -, b, -⟩ := pushOp_inv hμ
      rw [b]; exact h.freshNe o op μ md0 ho (hfr op hf) a
    fresh := fun o op ho hf => h.fresh o op ho (hfr op hf)
    exact := fun o op μ md ti ho hp hμ ht y n' => by
      obtain ⟨md0, a, b, -⟩ := pushOp_inv hμ
      have := h.exact o op μ md0 ti ho hp a ht y n'
      unfold Ghost.GP at this ⊢
      rw [b]; exact this
    done := fun μ md hμA hμ => by
      obtain ⟨md0, a, -, -, -, b, -⟩ := pushOp_inv hμ
      obtain rfl := b (fun he => hμA (he ▸ hA))
      exact h.done μ md hμA a
    live := ⟨fun o ho op μ h1 h2 => hlive μ (h.live.1 o ho op μ h1 h2),
      fun o ho op μ h1 h2 => hlive μ (h.live.2.1 o ho op μ h1 h2),
      fun μ hμ => hlive μ (h.live.2.2 μ hμ)⟩
    pend := fun B hT hb => by
      obtain ⟨o, x, n, h1, h2, h3⟩ := h.pend B hT hb
      refine ⟨o, x, n, h1, h2, ?_⟩
      rcases h3 with h3 | h3 | ⟨μ, md0, h3, h4, h5⟩
      · exact .inl h3
      · exact .inr (.inl h3)
      · obtain ⟨md, k1, k2, -⟩ := hback μ md0 h4
        exact .inr (.inr ⟨μ, md, h3, k1, k2 ▸ h5⟩) }

/-! ### A new operation -/

theorem append_inv {α : Type} {l : List α} {a b : α} {i : ℕ} (h : (l ++ [a])[i]? = some b) :
    (l[i]? = some b ∧ i < l.length) ∨ (i = l.length ∧ b = a) := by
  by_cases hi : i < l.length
  · rw [List.getElem?_append_left hi] at h
    exact .inl ⟨h, hi⟩
  · have := lt_of_getElem? h
    simp only [List.length_append, List.length_singleton] at this
    obtain rfl : i = l.length := by omega
    rw [List.getElem?_concat_length] at h
    cases h
    exact .inr ⟨rfl, rfl⟩

theorem append_keep {α : Type} {l : List α} {a b : α} {i : ℕ} (h : l[i]? = some b) :
    (l ++ [a])[i]? = some b := by
  rw [List.getElem?_append_left (lt_of_getElem? h)]; exact h

theorem FreshSt.congr {E : Env K} {gh gh' : Ghost K} {o : ℕ} {op : OpTr K} {st : SS K}
    (h : FreshSt E gh o op st) (hG : gh'.G o = gh.G o) (hM : gh'.M o = gh.M o) :
    FreshSt E gh' o op st := by
  refine ⟨h.zero, by rw [hM]; exact h.mode, by rw [hG]; exact h.time, ?_, by rw [hG]; exact h.entry, h.lo, h.initMode⟩
  rw [hG]; exact h.init

/-- Record the entry points and mode of a new operation. -/
def Ghost.addOp (gh : Ghost K) (i : ℕ) (g : (ℕ → K) → ℕ → Prop) (j : ℕ) : Ghost K :=
  { gh with G := Function.update gh.G i g, M := Function.update gh.M i j }

/-- A new transition operation out of an active node. -/
theorem Body.addOp {E : Env K} (hE : E.OkJ) {X0 : ℕ → (ℕ → K) → Prop} {σ : Core K} {gh : Ghost K}
    {L A : List ℕ} (h : Body E X0 σ gh L A) {ν : ℕ} (hA : ν ∈ A) {nd : Node} {st : SS K} {c : ℕ}
    (hn : NodeSt E gh σ ν nd st c) (hc : c ≤ st.stepIn ∨ (c ≤ 1 ∧ st.stepIn = 0))
    (hord : ∀ s i b, NOp.inv s i b ∈ nd.ops → s < st.stepIn ∨ (s = 0 ∧ st.stepIn = 0))
    {l : List ℕ} {ti : ℕ} {t : Tr K} (hti : E.ha.trans[ti]? = some t)
    (hl : E.ha.out[gh.MN ν]? = some l) (htl : ti ∈ l) {post : SS K} {cen : Option (List K)}
    (p1 : post.mode = t.dst) (p2 : post.steps = st.steps) (p3 : post.Entry E)
    (p4 : ∀ y, post.lp.Mem y ↔
      ∃ x, st.lp.Mem x ∧ GuardHolds t x ∧ ResetTo (E.dyn st.mode).dims t x y)
    (p5 : st.lp.NoLo → post.lp.NoLo) :
    ∃ gh', Body E X0 (({ σ with
        ops := σ.ops ++ [{ step := st.stepIn, parent := some ν, child := none,
                           trans := some ti, post := σ.states.length, center := cen }],
        states := σ.states ++ [post] } : Core K).pushOp ν (.tr σ.ops.length)) gh'
        (σ.ops.length :: L) A ∧
      gh' = gh.addOp σ.ops.length (fun y n' => ∃ x n, gh.GP nd x n ∧
        E.hybJ.Jump 0 (gh.MN ν) x st.stepIn ti t.dst y ∧ n' = n + st.stepIn ∧
        n' ≤ E.set.numSteps) t.dst := by
  set new : OpTr K := { step := st.stepIn, parent := some ν, child := none, trans := some ti,
                        post := σ.states.length, center := cen } with hnew
  set g : (ℕ → K) → ℕ → Prop := fun y n' => ∃ x n, gh.GP nd x n ∧
    E.hybJ.Jump 0 (gh.MN ν) x st.stepIn ti t.dst y ∧ n' = n + st.stepIn ∧ n' ≤ E.set.numSteps with hg
  set gh' := gh.addOp σ.ops.length g t.dst with hgh
  set σ1 : Core K := { σ with ops := σ.ops ++ [new], states := σ.states ++ [post] } with hσ1
  have hG : ∀ o < σ.ops.length, gh'.G o = gh.G o := fun o ho =>
    Function.update_of_ne (by omega) _ _
  have hM : ∀ o < σ.ops.length, gh'.M o = gh.M o := fun o ho =>
    Function.update_of_ne (by omega) _ _
  have hG' : gh'.G σ.ops.length = g := Function.update_self _ _ _
  have hM' : gh'.M σ.ops.length = t.dst := Function.update_self _ _ _
  have hpl : ∀ (μ : ℕ) md p, σ.nodes[μ]? = some md → p ∈ md.parents → p < σ.ops.length := by
    intro μ md p h1 h2
    obtain ⟨op, h3, -⟩ := h.ndPar μ md p h1 h2
    exact lt_of_getElem? h3
  have hGP : ∀ (μ : ℕ) md md0, σ.nodes[μ]? = some md0 → md.parents = md0.parents → ∀ x n,
      gh'.GP md x n ↔ gh.GP md0 x n := by
    intro μ md md0 h1 h2 x n
    unfold Ghost.GP
    rw [h2]
    constructor
    · rintro ⟨p, a1, a2⟩; exact ⟨p, a1, by rw [← hG p (hpl μ md0 p h1 a1)]; exact a2⟩
    · rintro ⟨p, a1, a2⟩; exact ⟨p, a1, by rw [hG p (hpl μ md0 p h1 a1)]; exact a2⟩
  have hback : ∀ (μ : ℕ) md0, σ.nodes[μ]? = some md0 →
      ∃ md, (σ1.pushOp ν (.tr σ.ops.length)).nodes[μ]? = some md ∧
      md.parents = md0.parents ∧ (∀ o ∈ md0.ops, o ∈ md.ops) ∧
      (μ = ν → NOp.tr σ.ops.length ∈ md.ops) := by
    intro μ md0 h0
    refine ⟨if ν = μ then { md0 with ops := md0.ops ++ [.tr σ.ops.length] } else md0,
      by rw [pushOp_nodes]; show Option.map _ σ.nodes[μ]? = _; rw [h0]; rfl, ?_, ?_, ?_⟩
    · split <;> rfl
    · intro o ho; split
      · simp [ho]
      · exact ho
    · intro he; rw [if_pos he.symm]; simp
  have hup : ∀ {a b}, a < σ.nodes.length → Up (σ1.pushOp ν (.tr σ.ops.length)).nodes σ1.ops a b →
      Up σ.nodes σ.ops a b := by
    intro a b _ hu
    induction hu with
    | refl => exact .refl _
    | step _ h1 h2 h3 h4 ih =>
      obtain ⟨md0, k1, k2, -⟩ := pushOp_inv h1
      have hlt := hpl _ md0 _ k1 (k2 ▸ h2)
      rcases append_inv h3 with ⟨h3, -⟩ | ⟨h3, -⟩
      · exact .step ih k1 (k2 ▸ h2) h3 h4
      · omega
  have hlive : ∀ a < σ.nodes.length, NLive σ a → NLive (σ1.pushOp ν (.tr σ.ops.length)) a := by
    intro a hal ha μ md p op h1 h2 h3 h4
    obtain ⟨md0, k1, k2, -⟩ := pushOp_inv h2
    have hlt := hpl _ md0 _ k1 (k2 ▸ h3)
    rcases append_inv h4 with ⟨h4, -⟩ | ⟨h4, -⟩
    · exact ha μ md0 p op (hup hal h1) k1 (k2 ▸ h3) h4
    · omega
  have hparlt : ∀ (o : ℕ) op μ, σ.ops[o]? = some op → op.parent = some μ → μ < σ.nodes.length := by
    intro o op μ h1 h2
    obtain ⟨md, k, -⟩ := h.opPar o op μ h1 h2
    exact lt_of_getElem? k
  have hfr : ∀ op, FreshOp (σ1.pushOp ν (.tr σ.ops.length)) op → FreshOp σ op := by
    rintro op (hc | ⟨c, md, h1, h2, h3⟩)
    · exact .inl hc
    · obtain ⟨md0, k1, k2, -⟩ := pushOp_inv h2
      exact .inr ⟨c, md0, h1, k1, k2 ▸ h3⟩
  have hνl := lt_of_getElem? hn.node
  refine ⟨gh', ?_, rfl⟩
  exact { h with
    opPost := fun o op ho => by
      show _ < (σ.states ++ [post]).length
      rw [List.length_append]
      rcases append_inv ho with ⟨ho, -⟩ | ⟨-, rfl⟩
      · have := h.opPost o op ho; simp only [List.length_singleton]; omega
      · simp [hnew]
    opPar := fun o op μ ho hp => by
      rcases append_inv ho with ⟨ho, -⟩ | ⟨rfl, rfl⟩
      · obtain ⟨md0, h1, h2⟩ := h.opPar o op μ ho hp
        obtain ⟨md, k1, -, k3, -⟩ := hback μ md0 h1
        exact ⟨md, k1, k3 _ h2⟩
      · simp only [hnew, Option.some.injEq] at hp
        subst hp
        obtain ⟨md, k1, -, -, k4⟩ := hback ν nd hn.node
        exact ⟨md, k1, k4 rfl⟩
    opChild := fun o op c ho hc => by
      rcases append_inv ho with ⟨ho, -⟩ | ⟨rfl, rfl⟩
      · obtain ⟨md0, h1, h2⟩ := h.opChild o op c ho hc
        obtain ⟨md, k1, k2, -⟩ := hback c md0 h1
        exact ⟨md, k1, k2 ▸ h2⟩
      · simp [hnew] at hc
    opTrans := fun o op μ ho hp => by
      rcases append_inv ho with ⟨ho, hlt⟩ | ⟨rfl, rfl⟩
      · rw [hM o hlt]; exact h.opTrans o op μ ho hp
      · simp only [hnew, Option.some.injEq] at hp
        subst hp
        exact ⟨ti, t, rfl, hti, hM', l, hl, htl⟩
    ndSt := fun μ md hμ => by
      obtain ⟨md0, a, -, b, -⟩ := pushOp_inv hμ
      obtain ⟨s, h1, h2⟩ := h.ndSt μ md0 a
      exact ⟨s, by rw [b]; exact append_keep h1, h2⟩
    ndErr := fun μ md hμ => by
      obtain ⟨md0, a, -⟩ := pushOp_inv hμ
      exact h.ndErr μ md0 a
    ndPar := fun μ md p hμ hp => by
      obtain ⟨md0, a, b, -⟩ := pushOp_inv hμ
      obtain ⟨op, h1, h2, h3⟩ := h.ndPar μ md0 p a (b ▸ hp)
      exact ⟨op, append_keep h1, by rw [hM p (lt_of_getElem? h1)]; exact h2, h3⟩
    ndMany := fun μ md p op hμ hl hp ho => by
      obtain ⟨md0, a, b, -⟩ := pushOp_inv hμ
      have hlt := hpl _ md0 _ a (b ▸ hp)
      rcases append_inv ho with ⟨ho, -⟩ | ⟨ho, -⟩
      · exact h.ndMany μ md0 p op a (b ▸ hl) (b ▸ hp) ho
      · omega
    ndSame := fun hd μ md p q op oq hμ hp hq ho ho' => by
      obtain ⟨md0, a, b, -⟩ := pushOp_inv hμ
      have hlt := hpl _ md0 _ a (b ▸ hp)
      have hlt' := hpl _ md0 _ a (b ▸ hq)
      rcases append_inv ho with ⟨ho, -⟩ | ⟨ho, -⟩
      · rcases append_inv ho' with ⟨ho', -⟩ | ⟨ho', -⟩
        · exact h.ndSame hd μ md0 p q op oq a (b ▸ hp) (b ▸ hq) ho ho'
        · omega
      · omega
    ndNodup := fun μ md hμ => by
      obtain ⟨md0, a, b, -⟩ := pushOp_inv hμ
      rw [b]; exact h.ndNodup μ md0 a
    ndOps := fun μ md o hμ ho => by
      obtain ⟨md0, a, -, -, -, b, c⟩ := pushOp_inv hμ
      by_cases he : μ = ν
      · rw [c he] at ho
        simp only [List.mem_append, List.mem_singleton, NOp.tr.injEq] at ho
        rcases ho with ho | rfl
        · obtain ⟨op, h1, h2⟩ := h.ndOps μ md0 o a ho
          exact ⟨op, append_keep h1, h2⟩
        · exact ⟨new, List.getElem?_concat_length, by rw [he]⟩
      · rw [b he] at ho
        obtain ⟨op, h1, h2⟩ := h.ndOps μ md0 o a ho
        exact ⟨op, append_keep h1, h2⟩
    ndAgg := fun μ md ag hμ ha => by
      obtain ⟨md0, a, -, -, b, -⟩ := pushOp_inv hμ
      exact h.ndAgg μ md0 ag a (b ▸ ha)
    ndOrder := fun μ md hμ => by
      obtain ⟨md0, a, -, -, -, b, c⟩ := pushOp_inv hμ
      have hold : OrderOk (σ.ops ++ [new]) md0.ops := by
        have := h.ndOrder μ md0 a
        unfold OrderOk at this ⊢
        refine List.Pairwise.imp_of_mem ?_ this
        intro x y _ hy hxy s i sb o op e1 e2 ho
        subst e2
        obtain ⟨op', h1, -⟩ := h.ndOps μ md0 o a hy
        have := append_keep (a := new) h1
        rw [ho] at this; cases this
        exact hxy s i sb o op e1 rfl h1
      by_cases he : μ = ν
      · rw [c he]
        unfold OrderOk
        rw [List.pairwise_append]
        refine ⟨hold, List.pairwise_singleton _ _, ?_⟩
        intro x hx y hy s i sb o op e1 e2 ho
        simp only [List.mem_singleton] at hy
        subst hy; subst e1; cases e2
        have ho' : (σ.ops ++ [new])[σ.ops.length]? = some op := ho
        rw [List.getElem?_concat_length] at ho'
        cases ho'
        subst he
        rw [hn.node] at a; cases a
        exact hord s i sb hx
      · rw [b he]; exact hold
    postInj := fun o o' op op' ho ho' he => by
      rcases append_inv ho with ⟨ho, -⟩ | ⟨rfl, rfl⟩ <;> rcases append_inv ho' with ⟨ho', -⟩ | ⟨rfl, rfl⟩
      · exact h.postInj o o' op op' ho ho' he
      · have := h.opPost o op ho
        simp only [hnew] at he; omega
      · have := h.opPost o' op' ho'
        simp only [hnew] at he; omega
      · rfl
    stInj := fun μ ρ md rd hμ hρ he => by
      obtain ⟨md0, a, -, b, -⟩ := pushOp_inv hμ
      obtain ⟨rd0, a', -, b', -⟩ := pushOp_inv hρ
      exact h.stInj μ ρ md0 rd0 a a' (by rw [← b, ← b']; exact he)
    freshNe := fun o op μ md ho hf hμ => by
      obtain ⟨md0, a, -, b, -⟩ := pushOp_inv hμ
      rw [b]
      rcases append_inv ho with ⟨ho, -⟩ | ⟨rfl, rfl⟩
      · exact h.freshNe o op μ md0 ho (hfr op hf) a
      · obtain ⟨s, h1, -⟩ := h.ndSt μ md0 a
        have := lt_of_getElem? h1
        simp only [hnew]; omega
    fresh := fun o op ho hf => by
      rcases append_inv ho with ⟨ho, hlt⟩ | ⟨rfl, rfl⟩
      · obtain ⟨s, h1, h2⟩ := h.fresh o op ho (hfr op hf)
        exact ⟨s, append_keep h1, h2.congr (hG o hlt) (hM o hlt)⟩
      · refine ⟨post, List.getElem?_concat_length, p3.zero, by rw [hM', p1], ?_, ?_, ?_, ?_,
          fun hp => by simp [hnew] at hp⟩
        · rw [hG']
          rintro y n' ⟨x, n, h1, -, rfl, -⟩
          rw [p2]; exact hn.time x n h1
        · intro hp; simp [hnew] at hp
        · intro _
          refine ⟨p3, ?_⟩
          rw [hG']
          rintro y n' ⟨x, n, h1, hj, rfl, -⟩
          obtain ⟨m, t', z, l', j1, j2, j3, j4, j5, j6, j7, j8, j9, -⟩ := hj
          obtain ⟨m', k1, k2, k3⟩ := hn.ok
          have hmd := hn.mode
          simp only [Env.hybJ, Env.hybOn] at j1 j3 j4 j5 j7 j9
          rw [hti] at j7; cases j7
          rw [hmd] at k1
          rw [j1] at k1; cases k1
          rw [hmd] at k3
          refine (p4 y).2 ⟨z, ?_, j8, by rw [hmd]; exact j9⟩
          refine k3.mem_of_flow (hE.dynFor _ _ j1 j2) (hE.plain _ _ j1 j2) ⟨n, h1⟩ j3 ?_
          rcases hc with hc | ⟨hc, h0⟩
          · exact .inl hc
          · by_cases hc0 : c = 0
            · left; omega
            · right; exact ⟨by omega, (j4 h0).2⟩
        · intro hch; exact p5 (hn.lo hch)
    exact := fun o op μ md tj ho hp hμ ht y n' => by
      obtain ⟨md0, a, b, -⟩ := pushOp_inv hμ
      rcases append_inv ho with ⟨ho, hlt⟩ | ⟨rfl, rfl⟩
      · rw [hG o hlt, hM o hlt]
        simp only [hGP μ md md0 a b]
        exact h.exact o op μ md0 tj ho hp a ht y n'
      · simp only [hnew, Option.some.injEq] at hp ht
        subst hp; subst ht
        rw [hG', hM']
        simp only [hGP ν md md0 a b]
        rw [hn.node] at a; cases a
        rfl
    done := fun μ md hμA hμ => by
      obtain ⟨md0, a, -, -, -, b, -⟩ := pushOp_inv hμ
      obtain rfl := b (fun he => hμA (he ▸ hA))
      obtain ⟨h1, h2⟩ := h.done μ md hμA a
      refine ⟨h1, ?_⟩
      intro x n k tj j y hgp hj hb _
      rw [hGP μ md md a rfl] at hgp
      obtain ⟨o, op, q1, q2, q3⟩ := h2 x n k tj j y hgp hj hb trivial
      exact ⟨o, op, q1, append_keep q2, q3⟩
    wait := fun o ho => by
      obtain ⟨op, h1, h2⟩ := h.wait o ho
      exact ⟨op, append_keep h1, h2⟩
    held := fun o ho => by
      rcases List.mem_cons.1 ho with rfl | ho
      · exact ⟨new, List.getElem?_concat_length⟩
      · obtain ⟨op, h1⟩ := h.held o ho
        exact ⟨op, append_keep h1⟩
    waitErr := fun o ho op s m hop hs hm he => by
      obtain ⟨op', h1, h2⟩ := h.wait o ho
      have hlt := lt_of_getElem? h1
      rw [hM o hlt] at hm
      rcases append_inv hop with ⟨hop, -⟩ | ⟨hop, -⟩
      · have hs' := append_inv hs
        rcases hs' with ⟨hs', -⟩ | ⟨hs', -⟩
        · exact h.waitErr o ho op s m hop hs' hm he
        · have := h.opPost o op hop
          omega
      · omega
    live := ⟨fun o ho op μ h1 h2 => by
        obtain ⟨op', k1, -⟩ := h.wait o ho
        have := lt_of_getElem? k1
        rcases append_inv h1 with ⟨h1, -⟩ | ⟨h1, -⟩
        · exact hlive μ (hparlt o op μ h1 h2) (h.live.1 o ho op μ h1 h2)
        · omega,
      fun o ho op μ h1 h2 => by
        rcases append_inv h1 with ⟨h1, hlt⟩ | ⟨rfl, rfl⟩
        · rcases List.mem_cons.1 ho with rfl | ho
          · omega
          · exact hlive μ (hparlt o op μ h1 h2) (h.live.2.1 o ho op μ h1 h2)
        · simp only [hnew, Option.some.injEq] at h2
          subst h2
          exact hlive ν hνl (h.live.2.2 ν hA),
      fun μ hμ => by
        by_cases hl : μ < σ.nodes.length
        · exact hlive μ hl (h.live.2.2 μ hμ)
        · intro a md p op hu h2 h3 h4
          exfalso
          have key : ∀ b, Up (σ1.pushOp ν (.tr σ.ops.length)).nodes σ1.ops μ b → b = μ := by
            intro b hb
            induction hb with
            | refl => rfl
            | step _ q1 _ _ _ ih =>
              subst ih
              obtain ⟨md0, k1, -⟩ := pushOp_inv q1
              exact absurd (lt_of_getElem? k1) hl
          obtain rfl := key a hu
          obtain ⟨md0, k1, -⟩ := pushOp_inv h2
          exact absurd (lt_of_getElem? k1) hl⟩
    pend := fun B hT hb => by
      obtain ⟨o, x, n, h1, h2, h3⟩ := h.pend B hT hb
      have hlt : o < σ.ops.length := by
        rcases h3 with h3 | h3 | ⟨μ, md0, h3, h4, h5⟩
        · obtain ⟨op, k, -⟩ := h.wait o h3; exact lt_of_getElem? k
        · obtain ⟨op, k⟩ := h.held o h3; exact lt_of_getElem? k
        · exact hpl μ md0 o h4 h5
      refine ⟨o, x, n, by rw [hG o hlt]; exact h1, by rw [hM o hlt]; exact h2, ?_⟩
      rcases h3 with h3 | h3 | ⟨μ, md0, h3, h4, h5⟩
      · exact .inl h3
      · exact .inr (.inl (by simp [h3]))
      · obtain ⟨md, k1, k2, -⟩ := hback μ md0 h4
        exact .inr (.inr ⟨μ, md, h3, k1, k2 ▸ h5⟩) }

end Hylaa
