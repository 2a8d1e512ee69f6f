import Verif.Proofs.CoreNode
import Verif.Proofs.TtLoop

/-! Steps of the main loop outside deaggregation. -/

set_option linter.unusedSectionVars false

namespace Hylaa
open Spec
variable {K : Type} [Field K] [LinearOrder K] [IsStrictOrderedRing K] [JumpAt K]

/-- Result flags are never reset. -/
def FlagLe (σ σ' : Core K) : Prop :=
  (σ.hasConc = true → σ'.hasConc = true) ∧ (σ.hasAgg = true → σ'.hasAgg = true)

theorem FlagLe.refl (σ : Core K) : FlagLe σ σ := ⟨id, id⟩

theorem FlagLe.trans {a b c : Core K} (h : FlagLe a b) (h' : FlagLe b c) : FlagLe a c :=
  ⟨fun x => h'.1 (h.1 x), fun x => h'.2 (h.2 x)⟩

theorem FlagLe.flag {E : Env K} {a b : Core K} (h : FlagLe a b) (hf : Flag E a) : Flag E b := by
  rcases hf with hf | ⟨h1, h2⟩
  · exact .inl (h.1 hf)
  · exact .inr ⟨h.2 h1, h2⟩

theorem errorReached_le (σ : Core K) (b : Bool) (ce : List (CeSeg K)) : FlagLe σ (σ.errorReached b ce) := by
  unfold Core.errorReached; split
  · exact ⟨fun _ => rfl, id⟩
  · exact ⟨id, fun _ => rfl⟩

/-- Only the result flags differ. -/
theorem Body.flags {E : Env K} {X0 : ℕ → (ℕ → K) → Prop} {σ : Core K} {gh : Ghost K}
    {L A : List ℕ} (h : Body E X0 σ gh L A) {a b : Bool} {ce : List (CeSeg K)}
    (hf : ¬ Flag E { σ with hasAgg := a, hasConc := b, ce := ce }) :
    Body E X0 { σ with hasAgg := a, hasConc := b, ce := ce } gh L A :=
  { h with noFlag := hf }

/-- Nothing in the invariant depends on these components. -/
theorem Body.misc {E : Env K} {X0 : ℕ → (ℕ → K) → Prop} {σ : Core K} {gh : Ghost K}
    {L A : List ℕ} (h : Body E X0 σ gh L A) (cur : Option ℕ) (q : List (ℕ × List ℕ))
    (r : Option Replay) (tt : Bool) :
    Body E X0 { σ with cur := cur, queue := q, rep := r, tookTt := tt } gh L A :=
  { h with noFlag := h.noFlag }

theorem Ext.of_same {σ σ' : Core K} (gh : Ghost K) (h1 : σ'.ops = σ.ops) (h2 : σ'.nodes = σ.nodes) :
    Ext σ gh σ' gh :=
  ⟨fun o op h => ⟨op.child, by rw [h1]; exact h⟩,
    fun ν nd h => ⟨[], by rw [List.append_nil, h2]; exact h⟩,
    fun _ _ => rfl, fun _ _ => rfl, fun _ _ => rfl⟩

theorem Ext.push (σ : Core K) (gh : Ghost K) (ν : ℕ) (x : NOp) : Ext σ gh (σ.pushOp ν x) gh :=
  ⟨fun o op h => ⟨op.child, h⟩,
    fun μ nd h => by
      rw [pushOp_nodes, h]
      by_cases he : ν = μ
      · exact ⟨[x], by simp [he]⟩
      · exact ⟨[], by simp [he]⟩,
    fun _ _ => rfl, fun _ _ => rfl, fun _ _ => rfl⟩

theorem Ext.addOp (σ : Core K) (gh : Ghost K) (ν : ℕ) (new : OpTr K) (post : SS K)
    (g : (ℕ → K) → ℕ → Prop) (j : ℕ) (x : NOp) :
    Ext σ gh (({ σ with ops := σ.ops ++ [new], states := σ.states ++ [post] } : Core K).pushOp ν x)
      (gh.addOp σ.ops.length g j) := by
  refine ⟨fun o op h => ⟨op.child, append_keep h⟩, ?_, fun o ho => Function.update_of_ne (by omega) _ _,
    fun o ho => Function.update_of_ne (by omega) _ _, fun _ _ => rfl⟩
  intro μ nd h
  rw [pushOp_nodes]
  show ∃ l, Option.map _ σ.nodes[μ]? = _
  rw [h]
  by_cases he : ν = μ
  · exact ⟨[x], by simp [he]⟩
  · exact ⟨[], by simp [he]⟩

theorem Ext.addNode (σ : Core K) (gh : Ghost K) (new : Node) (ids : List ℕ) (ss : List (SS K))
    (rts : List ℕ) (c i : ℕ) :
    Ext σ gh { σ with states := ss, roots := rts, nodes := σ.nodes ++ [new],
                      ops := ids.foldl (fun l o => l.modify o fun x => { x with child := some c }) σ.ops }
      { gh with MN := Function.update gh.MN σ.nodes.length i } := by
  refine ⟨fun o op h => ?_, fun ν nd h => ⟨[], by rw [List.append_nil]; exact append_keep h⟩,
    fun _ _ => rfl, fun _ _ => rfl, fun ν hν => Function.update_of_ne (by omega) _ _⟩
  refine ⟨if o ∈ ids then some c else op.child, ?_⟩
  show (ids.foldl _ σ.ops)[o]? = _
  rw [setChild_get, h]
  by_cases hi : o ∈ ids <;> simp [hi]

/-! ### One transition -/

/-- The state of a node with its bookkeeping, while transitions are tried at step `st.stepIn`. -/
structure Ready (E : Env K) (gh : Ghost K) (σ : Core K) (ν : ℕ) (nd : Node) (st : SS K) (c : ℕ) :
    Prop extends NodeSt E gh σ ν nd st c where
  cOk : c ≤ st.stepIn ∨ (c ≤ 1 ∧ st.stepIn = 0)
  ord : ∀ s i b, NOp.inv s i b ∈ nd.ops → s < st.stepIn ∨ (s = 0 ∧ st.stepIn = 0)

theorem Ready.mem {E : Env K} (hE : E.OkJ) {gh : Ghost K} {σ : Core K} {ν : ℕ} {nd : Node} {st : SS K}
    {c : ℕ} (h : Ready E gh σ ν nd st c) {x z : ℕ → K} {n : ℕ} {m : Mode K} (hx : gh.GP nd x n)
    (hm : E.ha.modes[gh.MN ν]? = some m) (hf : Flow 0 m (E.dyn (gh.MN ν)) st.stepIn x z)
    (h0 : st.stepIn = 0 → InvEps 0 m z) : st.lp.Mem z := by
  obtain ⟨m', k1, k2, k3⟩ := h.ok
  rw [h.mode] at k1 k3
  rw [hm] at k1; cases k1
  refine k3.mem_of_flow (hE.dynFor _ _ hm k2) (hE.plain _ _ hm k2) ⟨n, hx⟩ hf ?_
  rcases h.cOk with hc | ⟨hc, e0⟩
  · exact .inl hc
  · by_cases hc0 : c = 0
    · left; omega
    · right; exact ⟨by omega, h0 e0⟩

theorem Ready.wf {E : Env K} {gh : Ghost K} {σ : Core K} {ν : ℕ} {nd : Node} {st : SS K}
    {c : ℕ} (h : NodeSt E gh σ ν nd st c) : st.lp.WF ∧ ∃ ρ, st.lp.Repr ρ ∧ ρ.n = (E.dyn st.mode).dims := by
  obtain ⟨m, -, -, ⟨ρ, a, -⟩, -⟩ := h.ok
  exact ⟨a.repr.wf, ρ, a.repr, a.n⟩

/-- The LP of a node's state was optimised. -/
theorem NodeSt.optimised {E : Env K} {X0 : ℕ → (ℕ → K) → Prop} {gh : Ghost K} {σ : Core K}
    {L A : List ℕ} (hB : Body E X0 σ gh L A) {ν : ℕ} {nd : Node}
    {st : SS K} {c : ℕ} (h : NodeSt E gh σ ν nd st c) {lp : Lp K} (h1 : lp.toSys = st.lp.toSys)
    (h2 : lp.ObjInv) :
    Body E X0 (σ.setState nd.state { st with lp := lp }) gh L A ∧
    NodeSt E gh (σ.setState nd.state { st with lp := lp }) ν nd { st with lp := lp } c := by
  refine ⟨hB.setState (te := σ.te) (st' := { st with lp := lp }) h.node h.state rfl hB.te, h.frame (σ' := σ.setState nd.state { st with lp := lp }) h.node ?_ h1
    (fun _ => h2) (fun _ _ hx => hx) rfl⟩
  exact List.getElem?_set_self (lt_of_getElem? h.state)

/-- The guard of a transition is not met. -/
theorem Ready.noJump {E : Env K} (hE : E.OkJ) {gh : Ghost K} {σ : Core K} {ν : ℕ} {nd : Node} {st : SS K}
    {c : ℕ} (h : Ready E gh σ ν nd st c) {ti : ℕ} {t : Tr K} (ht : E.ha.trans[ti]? = some t)
    {g : Csr K × List K} (hg : t.guard = some g) {lp' : Lp K}
    (hgi : guardIntersection E.S st.lp g = .ok (lp', none)) {x y : ℕ → K} {n j : ℕ}
    (hx : gh.GP nd x n) : ¬ E.hybJ.Jump 0 (gh.MN ν) x st.stepIn ti j y := by
  rintro ⟨m, t', z, l, j1, j2, j3, j4, j5, j6, j7, ⟨g', hg', j8⟩, -, -⟩
  have : t' = t := Option.some.inj (j7.symm.trans ht)
  subst this
  rw [hg] at hg'; cases hg'
  obtain ⟨hgo, -⟩ := (hE.trs _ m l ti t' j1 j2 j5 j6 ht).guard g hg
  obtain ⟨-, -, hno, -⟩ := guardIntersection_spec hE.honest h.obj (Ready.wf h.toNodeSt).1 hgo hgi
  exact hno rfl z (h.mem hE hx j1 j3 fun e0 => (j4 e0).2) j8

/-- A transition operation is made. -/
theorem Ready.newOp {E : Env K} (hE : E.OkJ) {X0 : ℕ → (ℕ → K) → Prop} {gh : Ghost K}
    {σ : Core K} {L A : List ℕ} (hB : Body E X0 σ gh L A) {ν : ℕ} (hA : ν ∈ A) {nd : Node} {st : SS K}
    {c : ℕ} (h : Ready E gh σ ν nd st c) {l : List ℕ} {ti : ℕ} {t : Tr K}
    (hl : E.ha.out[gh.MN ν]? = some l) (hti : ti ∈ l) (ht : E.ha.trans[ti]? = some t)
    {g : Csr K × List K} (hg : t.guard = some g) {lp0 : Lp K} {tlp : Lp K}
    (hgi : guardIntersection E.S lp0 g = .ok (st.lp, some tlp))
    (hl0 : ∃ st0 : SS K, st0.lp = lp0 ∧ lp0.ObjInv ∧ st.lp.toSys = lp0.toSys) {σ' : Core K} {r : Option ℕ}
    (hm : makeOp E σ ti t tlp st ν = .ok (σ', r)) :
    ∃ gh' post op, r = some σ.ops.length ∧
      σ'.ops = σ.ops ++ [op] ∧ op.child = none ∧ op.parent = some ν ∧ op.trans = some ti ∧
      op.step = st.stepIn ∧ op.post = σ.states.length ∧ σ'.states = σ.states ++ [post] ∧
      post.concrete = st.concrete ∧ 
      σ' = { σ with ops := σ'.ops, states := σ'.states } ∧
      Body E X0 (σ'.pushOp ν (.tr σ.ops.length)) gh' (σ.ops.length :: L) A ∧
      Ext σ gh (σ'.pushOp ν (.tr σ.ops.length)) gh' ∧ gh'.M σ.ops.length = t.dst ∧
      (∀ y n', gh'.G σ.ops.length y n' ↔ ∃ x n, gh.GP nd x n ∧
        E.hybJ.Jump 0 (gh.MN ν) x st.stepIn ti t.dst y ∧ n' = n + st.stepIn ∧ n' ≤ E.set.numSteps) ∧
      Ready E gh' (σ'.pushOp ν (.tr σ.ops.length)) ν { nd with ops := nd.ops ++ [.tr σ.ops.length] } st c := by
  obtain ⟨m, k1, k2, k3⟩ := h.ok
  obtain ⟨hwf, ρ, hr, hn⟩ := Ready.wf h.toNodeSt
  obtain ⟨st0, rfl, ho0, hts⟩ := hl0
  have hr0 : st0.lp.Repr ρ := by rw [← hts]; exact hr
  obtain ⟨post, cen, e1, e2, e3, e4, e5, e6, e7, e8⟩ := makeOp_spec hE.toBase k1 k2 hr0 hn ho0
    (by rw [h.mode]; exact hl) hti ht hg hgi hm
  obtain ⟨gh', hB', hgh⟩ := hB.addOp hE hA h.toNodeSt h.cOk h.ord (l := l) ht hl hti (cen := cen) e3 e4 e6
    (fun y => by rw [e7]; simp only [mem_toSys hts])
    (fun hlo => e8 (by rw [← hts]; exact hlo))
  subst e2
  have hext : Ext σ gh (({ σ with
        ops := σ.ops ++ [{ step := st.stepIn, parent := some ν, child := none,
                           trans := some ti, post := σ.states.length, center := cen }],
        states := σ.states ++ [post] } : Core K).pushOp ν (.tr σ.ops.length)) gh' := by
    rw [hgh]; exact Ext.addOp ..
  have hpl : ∀ p ∈ nd.parents, p < σ.ops.length := by
    intro p hp
    obtain ⟨op, k, -⟩ := hB.ndPar ν nd p h.node hp
    exact lt_of_getElem? k
  have hGP : ∀ x n, gh'.GP { nd with ops := nd.ops ++ [.tr σ.ops.length] } x n → gh.GP nd x n :=
    fun x n => (hext.GP hpl x n).1
  refine ⟨gh', post, _, e1, rfl, rfl, rfl, rfl, rfl, rfl, rfl, e5, rfl, hB', hext, ?_, ?_, ?_⟩
  · rw [hgh]; exact Function.update_self _ _ _
  · intro y n'
    rw [hgh]
    show Function.update gh.G _ _ _ _ _ ↔ _
    rw [Function.update_self]
  · refine ⟨⟨?_, append_keep h.state, ?_, ⟨m, k1, k2, k3.anti fun x ⟨n, hx⟩ => ⟨n, hGP x n hx⟩⟩, h.cle,
      fun x n hx => h.time x n (hGP x n hx), h.lo, ?_⟩, h.cOk, ?_⟩
    · rw [pushOp_nodes]
      show Option.map _ σ.nodes[ν]? = _
      rw [h.node]; simp
    · rw [hgh]; exact h.mode
    · intro s b hb
      simp only [List.mem_append, List.mem_singleton] at hb
      rcases hb with hb | hb
      · exact h.noLeft s b hb
      · cases hb
    · intro s i b hb
      simp only [List.mem_append, List.mem_singleton] at hb
      rcases hb with hb | hb
      · exact h.ord s i b hb
      · cases hb

theorem NodeSt.parlt {E : Env K} {X0 : ℕ → (ℕ → K) → Prop} {gh : Ghost K} {σ : Core K}
    {L A : List ℕ} (hB : Body E X0 σ gh L A) {ν : ℕ} {nd : Node} {st : SS K} {c : ℕ}
    (h : NodeSt E gh σ ν nd st c) : ∀ p ∈ nd.parents, p < σ.ops.length := by
  intro p hp
  obtain ⟨op, k, -⟩ := hB.ndPar ν nd p h.node hp
  exact lt_of_getElem? k

/-- The invariant while one node is being computed (outside deaggregation). -/
structure Run (E : Env K) (X0 : ℕ → (ℕ → K) → Prop) (σ : Core K) (gh : Ghost K) (ν : ℕ) (nd : Node)
    (st : SS K) (c : ℕ) (Q : ℕ → ℕ → Prop) : Prop where
  body : Body E X0 σ gh [] [ν]
  ready : Ready E gh σ ν nd st c
  done : Done E gh σ.ops ν nd Q
  pend : ∀ o, NOp.tr o ∈ nd.ops → o ∈ σ.waiting
  cur : σ.cur = some ν
  queue : σ.queue = []
  rep : σ.rep = none

theorem flag_of_error {E : Env K} {σ : Core K} {b : Bool} {ce : List (CeSeg K)}
    (h : E.set.stopAgg = true ∨ b = true ∨ ¬ E.deaggOn) : Flag E (σ.errorReached b ce) := by
  unfold Core.errorReached
  cases b with
  | true => exact .inl rfl
  | false =>
    refine .inr ⟨rfl, ?_⟩
    rcases h with h | h | h
    · exact .inl h
    · cases h
    · exact .inr h

theorem makeOp_le {E : Env K} {σ σ' : Core K} {ti : ℕ} {t : Tr K} {tlp : Lp K} {st : SS K} {nid : ℕ}
    {r : Option ℕ} (h : makeOp E σ ti t tlp st nid = .ok (σ', r)) :
    σ'.hasConc = σ.hasConc ∧ σ'.hasAgg = σ.hasAgg := by
  simp only [makeOp, bind_ok] at h
  obtain ⟨⟨lp1, r1⟩, h1, h⟩ := h
  cases r1 with
  | none => simp only [Except.ok.injEq, Prod.mk.injEq] at h; rw [← h.1]; exact ⟨rfl, rfl⟩
  | some cen =>
    simp only [bind_ok, needSome_ok, need_ok, pure_ok, Prod.mk.injEq] at h
    obtain ⟨dst, hdst, s, hs, ⟨lp2, f⟩, hf, _, hft, post, hpost, rfl, hr'⟩ := h
    exact ⟨rfl, rfl⟩

theorem addSuccessor_le {E : Env K} {σ σ' : Core K} {ti : ℕ} {t : Tr K} {tlp : Lp K} {st : SS K}
    {nid : ℕ} (h : addSuccessor E σ ti t tlp st nid = .ok σ') : FlagLe σ σ' := by
  simp only [addSuccessor, bind_ok, pure_ok] at h
  obtain ⟨⟨σ1, r⟩, h1, rfl⟩ := h
  obtain ⟨e1, e2⟩ := makeOp_le h1
  cases r with
  | none => exact ⟨fun h => e1 ▸ h, fun h => e2 ▸ h⟩
  | some o => exact ⟨fun h => by show σ1.hasConc = true; rw [e1]; exact h,
      fun h => by show σ1.hasAgg = true; rw [e2]; exact h⟩

theorem ttCheck_le {E : Env K} {σ σ' : Core K} {t : Tr K} {g : Csr K × List K} {sid : ℕ}
    (h : ttCheck E σ t g sid = .ok σ') : FlagLe σ σ' := by
  unfold ttCheck at h
  split at h
  · simp only [bind_ok, needSome_ok, pure_ok] at h
    obtain ⟨st, -, src, -, r, -, rfl⟩ := h
    exact ⟨id, id⟩
  · cases h; exact FlagLe.refl _

theorem guardLoop_le {E : Env K} {nid sid : ℕ} : ∀ (ts : List ℕ) {σ σ' : Core K},
    guardLoop E nid sid σ ts = .ok σ' → FlagLe σ σ'
  | [], σ, σ', h => by cases h; exact FlagLe.refl _
  | ti :: ts, σ, σ', h => by
    simp only [guardLoop, bind_ok, needSome_ok] at h
    obtain ⟨st, -, t, -, g, -, ⟨lp1, r⟩, -, h⟩ := h
    cases r with
    | none =>
      have := guardLoop_le ts h
      exact ⟨this.1, this.2⟩
    | some tlp =>
      simp only [bind_ok, needSome_ok] at h
      obtain ⟨dst, -, ce, -, h⟩ := h
      have h0 : ∀ τ : Core K, FlagLe τ (if dst.isError = true then τ.errorReached st.concrete ce else τ) := by
        intro τ; split
        · exact errorReached_le _ _ _
        · exact FlagLe.refl _
      split at h
      · cases h
        have := h0 (σ.setState sid { st with lp := lp1 })
        exact ⟨this.1, this.2⟩
      · simp only [bind_ok] at h
        obtain ⟨σ1, h1, σ2, h2, h3⟩ := h
        have a0 := h0 (σ.setState sid { st with lp := lp1 })
        have := ((a0.trans (addSuccessor_le h1)).trans (ttCheck_le h2)).trans (guardLoop_le ts h3)
        exact ⟨this.1, this.2⟩

theorem flow_inv {m : Mode K} {d : Dyn K} {k : ℕ} {x z : ℕ → K} (h : Flow 0 m d k x z) :
    ∀ {s}, s < k → ∃ y, Flow 0 m d s x y ∧ InvEps 0 m y := by
  induction h with
  | zero => intro s hs; omega
  | @step k x y z h1 h2 _ ih =>
    intro s hs
    by_cases hc : s = k
    · subst hc; exact ⟨y, h1, h2⟩
    · exact ih (by omega)

theorem flow_split {m : Mode K} {d : Dyn K} {a : ℕ} : ∀ {b : ℕ} {x z : ℕ → K},
    Flow 0 m d (a + b) x z → ∃ w, Flow 0 m d a x w ∧ Flow 0 m d b w z
  | 0, x, z, h => ⟨z, h, .zero fun _ _ => rfl⟩
  | b + 1, x, z, h => by
    cases h with
    | step h1 h2 h3 =>
      obtain ⟨w, k1, k2⟩ := flow_split (b := b) h1
      exact ⟨w, k1, .step k2 h2 h3⟩

theorem Done.mono {E : Env K} {gh : Ghost K} {ops : List (OpTr K)} {ν : ℕ} {nd : Node}
    {Q Q' : ℕ → ℕ → Prop} (h : Done E gh ops ν nd Q) (hQ : ∀ k ti, Q' k ti → Q k ti) :
    Done E gh ops ν nd Q' := fun x n k ti j y h1 h2 h3 h4 => h x n k ti j y h1 h2 h3 (hQ k ti h4)

/-- After a time-triggered transition that falls: no later jumps. -/
theorem Ready.ttDone {E : Env K} (hE : E.OkJ) {gh : Ghost K} {σ : Core K} {ν : ℕ} {nd : Node} {st : SS K}
    {c : ℕ} (h : Ready E gh σ ν nd st c) {l : List ℕ} {ti : ℕ} {t : Tr K} {g : Csr K × List K}
    (hl : E.ha.out[gh.MN ν]? = some l) (hti : ti ∈ l) (ht : E.ha.trans[ti]? = some t)
    (hg : t.guard = some g) (htt : E.set.tt = true) (ht2 : t.tt = true) {src : Mode K}
    (hsrc : E.ha.modes[t.src]? = some src) {lp' : Lp K} (hw : wasTtTaken E src st.lp g = .ok (lp', true))
    {x y : ℕ → K} {n k tj j : ℕ} (hx : gh.GP nd x n) (hk : st.stepIn < k) :
    ¬ E.hybJ.Jump 0 (gh.MN ν) x k tj j y := by
  rintro ⟨m, t', z, l', j1, j2, j3, -, -, -, -, -, -, -, jz⟩
  have j1 : E.ha.modes[gh.MN ν]? = some m := j1
  have j3 : Flow 0 m (E.dyn (gh.MN ν)) k x z := j3
  have jz : JumpAt.at_ (gh.MN ν) z := jz
  obtain ⟨e1, e2, e3⟩ := hE.tt htt _ m l ti t g j1 j2 hl hti ht ht2 hg
  rw [e1, j1] at hsrc
  have : m = src := Option.some.inj hsrc
  subst this
  simp only [wasTtTaken, bind_ok, needSome_ok] at hw
  obtain ⟨a, ha, hw⟩ := hw
  obtain ⟨hwf, ρ, hρ, -⟩ := Ready.wf h.toNodeSt
  rcases ttLoop_spec hE.honest hρ.curLe ⟨rfl, h.obj⟩ hw with h1 | ⟨p, hp, lc, hr, hlc, habs, hopp, hflat⟩
  · cases h1
  obtain ⟨b, rfl⟩ : ∃ b, k = st.stepIn + (b + 1) := ⟨k - st.stepIn - 1, by omega⟩
  obtain ⟨w, w1, w2⟩ := flow_split j3
  obtain ⟨w', v1, v2⟩ := flow_inv j3 (s := 0) (by omega)
  have hmem : st.lp.Mem w := h.mem hE hx j1 w1 fun e0 => by
    rw [e0] at w1
    cases w1 with
    | zero w1 =>
      cases v1 with
      | zero v1 =>
        exact (InvEps.congr (hE.dynFor _ _ j1 j2).wf fun i hi => by rw [v1 i hi, w1 i hi]).1 v2
  obtain ⟨f1, f2⟩ := e3 a ha p hp lc hlc hr habs hopp b w z w2 jz
  have hgo := ((hE.trs _ m l ti t j1 j2 hl hti ht).guard g hg).1
  have hpw : ∀ q ∈ p.1, q.1 < g.1.ncols := hgo.wf p.1 (List.of_mem_zip hp).1
  have hlw : ∀ q ∈ lc.row, q.1 < g.1.ncols := fun q hq => by
    rw [e2]; exact (hE.dynFor _ _ j1 j2).wf.lt lc hlc q hq
  have hneg : dot lc.row z = -dot p.1 z := by
    rw [dot_eq_sum_coefAt hlw, dot_eq_sum_coefAt hpw, ← Finset.sum_neg_distrib]
    refine Finset.sum_congr rfl fun j hj => ?_
    rw [hopp j (Finset.mem_range.1 hj)]; ring
  have h0 := hflat w hmem
  rw [← dot_eq_sum_coefAt hpw] at h0
  have h2 := f1 lc hlc
  have h3 := (abs_lt.1 habs).2
  rw [hneg] at h2
  linarith

/-- The check after a transition. -/
theorem ttCheck_spec {E : Env K} (hE : E.OkJ) {X0 : ℕ → (ℕ → K) → Prop} {σ σ' : Core K} {gh : Ghost K}
    {ν sid : ℕ} {nd : Node} {st : SS K} {c : ℕ} {Q : ℕ → ℕ → Prop} (hR : Run E X0 σ gh ν nd st c Q)
    (hQ : ∀ k ti, σ.tookTt = true → st.stepIn < k → Q k ti)
    (hsid : nd.state = sid) {l : List ℕ} {ti : ℕ} {t : Tr K} {g : Csr K × List K}
    (hl : E.ha.out[gh.MN ν]? = some l) (hti : ti ∈ l) (ht : E.ha.trans[ti]? = some t)
    (hg : t.guard = some g) (h : ttCheck E σ t g sid = .ok σ') :
    ∃ lp, Run E X0 σ' gh ν nd { st with lp := lp } c
        (fun k tj => Q k tj ∨ (σ'.tookTt = true ∧ st.stepIn < k)) ∧
      (σ'.tookTt = true → σ.tookTt = true ∨ ¬ E.NoTt) := by
  unfold ttCheck at h
  split at h
  · rename_i hc
    simp only [Bool.and_eq_true] at hc
    simp only [bind_ok, needSome_ok, pure_ok] at h
    obtain ⟨st', hst', src, hsrc, ⟨lp1, b⟩, hw, rfl⟩ := h
    have hstt := hR.ready.state
    rw [hsid, hst'] at hstt
    have : st' = st := Option.some.inj hstt
    subst this
    have hk : st'.lp.Kept lp1 := by
      have hw' := hw
      simp only [wasTtTaken, bind_ok, needSome_ok] at hw'
      obtain ⟨a, -, hw'⟩ := hw'
      exact ttLoop_kept _ hw'
    obtain ⟨hB1, hN1⟩ := NodeSt.optimised hR.body hR.ready.toNodeSt hk.1 (hk.2 hR.ready.obj)
    rw [hsid] at hB1 hN1
    refine ⟨lp1, ⟨hB1.misc σ.cur σ.queue σ.rep _, ⟨⟨hN1.node, hN1.state, hN1.mode, hN1.ok, hN1.cle,
      hN1.time, hN1.lo, hN1.noLeft⟩, hR.ready.cOk, hR.ready.ord⟩, ?_, hR.pend, hR.cur, hR.queue, hR.rep⟩, ?_⟩
    · intro x n k tj j y h1 h2 h3 h4
      rcases h4 with h4 | ⟨h4, h5⟩
      · exact hR.done x n k tj j y h1 h2 h3 h4
      · simp only [Bool.or_eq_true] at h4
        rcases h4 with h4 | h4
        · exact hR.done x n k tj j y h1 h2 h3 (hQ k tj h4 h5)
        · subst h4
          exact absurd h2 (hR.ready.ttDone hE hl hti ht hg hc.1 hc.2 hsrc hw h1 h5)
    · intro _
      exact .inr fun hn => by
        have := hn t (List.mem_of_getElem? ht) hc.1
        rw [this] at hc; cases hc.2
  · cases h
    refine ⟨st.lp, ⟨hR.body, hR.ready, ?_, hR.pend, hR.cur, hR.queue, hR.rep⟩, fun h => .inl h⟩
    refine hR.done.mono fun k tj h => ?_
    rcases h with h | ⟨h, h'⟩
    · exact h
    · exact hQ k tj h h'

/-- **The transitions of the current state.** -/
theorem guardLoop_spec {E : Env K} (hE : E.OkJ) {X0 : ℕ → (ℕ → K) → Prop} {ν sid : ℕ} {l : List ℕ} :
    ∀ (ts : List ℕ) {σ σ' : Core K} {gh : Ghost K} {nd : Node} {st : SS K} {c : ℕ} {Q : ℕ → ℕ → Prop},
    Run E X0 σ gh ν nd st c Q → (∀ k ti, σ.tookTt = true → st.stepIn < k → Q k ti) →
    nd.state = sid → E.ha.out[gh.MN ν]? = some l → (∀ ti ∈ ts, ti ∈ l) →
    guardLoop E ν sid σ ts = .ok σ' → Flag E σ' ∨ ∃ gh' nd' st',
      Run E X0 σ' gh' ν nd' st' c
        (fun k ti => Q k ti ∨ (k = st.stepIn ∧ ti ∈ ts) ∨ (σ'.tookTt = true ∧ st.stepIn < k)) ∧
      st'.stepIn = st.stepIn ∧ st'.steps = st.steps ∧ gh'.MN ν = gh.MN ν ∧ nd'.state = nd.state ∧
      st'.mode = st.mode ∧ (σ'.tookTt = true → σ.tookTt = true ∨ ¬ E.NoTt)
  | [], σ, σ', gh, nd, st, c, Q, hR, hQ, hsid, hl, hts, h => by
    cases h
    refine .inr ⟨gh, nd, st, ⟨hR.body, hR.ready, ?_, hR.pend, hR.cur, hR.queue, hR.rep⟩, rfl, rfl, rfl, rfl,
      rfl, fun h => .inl h⟩
    intro x n k ti j y h1 h2 h3 h4
    refine hR.done x n k ti j y h1 h2 h3 ?_
    rcases h4 with h4 | ⟨-, h4⟩ | ⟨h4, h5⟩
    · exact h4
    · simp at h4
    · exact hQ k ti h4 h5
  | ti :: ts, σ, σ', gh, nd, st, c, Q, hR, hQ, hsid, hl, hts, h => by
    have hall := h
    simp only [guardLoop, bind_ok, needSome_ok] at h
    obtain ⟨st', hst', t, ht, g, hg, ⟨lp1, r⟩, hgi, h⟩ := h
    have hstt := hR.ready.state
    rw [hsid, hst'] at hstt
    have : st' = st := Option.some.inj hstt
    subst this
    obtain ⟨m, hm1, hm2⟩ := hR.body.ndErr ν nd hR.ready.node
    have hgo := ((hE.trs _ m l ti t hm1 hm2 hl (hts ti (by simp)) ht).guard g hg).1
    obtain ⟨g1, g2, -, -⟩ := guardIntersection_spec hE.honest hR.ready.obj
      (Ready.wf hR.ready.toNodeSt).1 hgo hgi
    simp only at h
    obtain ⟨hB1, hN1⟩ := NodeSt.optimised hR.body hR.ready.toNodeSt g1 g2
    rw [hsid] at hB1 hN1
    have hRd1 : Ready E gh (σ.setState sid { st' with lp := lp1 }) ν nd { st' with lp := lp1 } c :=
      ⟨hN1, hR.ready.cOk, hR.ready.ord⟩
    have htsl : ∀ tj ∈ ts, tj ∈ l := fun tj h => hts tj (by simp [h])
    cases r with
    | none =>
      have hR1 : Run E X0 (σ.setState sid { st' with lp := lp1 }) gh ν nd { st' with lp := lp1 } c
          (fun k tj => Q k tj ∨ (k = st'.stepIn ∧ tj = ti)) := by
        refine ⟨hB1, hRd1, ?_, hR.pend, hR.cur, hR.queue, hR.rep⟩
        intro x n k tj j y h1 h2 h3 h4
        rcases h4 with h4 | ⟨rfl, rfl⟩
        · exact hR.done x n k tj j y h1 h2 h3 h4
        · exact absurd h2 (hR.ready.noJump hE ht hg hgi h1)
      rcases guardLoop_spec hE ts hR1 (fun k tj a b => .inl (hQ k tj a b)) hsid hl htsl h with
        hf | ⟨gh', nd', st2, q1, q2, q3, q4, q5, q6, q7⟩
      · exact .inl hf
      · refine .inr ⟨gh', nd', st2, ⟨q1.body, q1.ready, ?_, q1.pend, q1.cur, q1.queue, q1.rep⟩, q2, q3, q4,
          q5, q6, q7⟩
        intro x n k tj j y h1 h2 h3 h4
        refine q1.done x n k tj j y h1 h2 h3 ?_
        rcases h4 with h4 | ⟨h4, h5⟩ | h4
        · exact .inl (.inl h4)
        · rcases List.mem_cons.1 h5 with rfl | h5
          · exact .inl (.inr ⟨h4, rfl⟩)
          · exact .inr (.inl ⟨h4, h5⟩)
        · exact .inr (.inr h4)
    | some tlp =>
      simp only [bind_ok, needSome_ok] at h
      obtain ⟨dst, hdst, ce, -, h⟩ := h
      by_cases hflag : Flag E (if dst.isError = true then
          (σ.setState sid { st' with lp := lp1 }).errorReached st'.concrete ce
          else σ.setState sid { st' with lp := lp1 })
      · left
        split at h
        · cases h; exact hflag
        · simp only [bind_ok] at h
          obtain ⟨σ1, h1, σ2, h2, h3⟩ := h
          exact (((addSuccessor_le h1).trans (ttCheck_le h2)).trans (guardLoop_le ts h3)).flag hflag
      · have hnstop : ¬ (dst.isError && (E.set.stopAgg || (st'.concrete && E.set.stopConc))) = true := by
          intro hc
          simp only [Bool.and_eq_true, Bool.or_eq_true] at hc
          obtain ⟨hc1, hc2⟩ := hc
          rw [if_pos hc1] at hflag
          refine hflag (flag_of_error ?_)
          rcases hc2 with hc2 | ⟨hc2, -⟩
          · exact .inl hc2
          · exact .inr (.inl hc2)
        rw [if_neg hnstop] at h
        have herr : dst.isError = true → E.deaggOn ∧ st'.concrete = false := by
          intro he
          rw [if_pos he] at hflag
          constructor
          · by_contra hc; exact hflag (flag_of_error (.inr (.inr hc)))
          · cases hcc : st'.concrete with
            | false => rfl
            | true => rw [hcc] at hflag; exact absurd (flag_of_error (.inr (.inl rfl))) hflag
        simp only [bind_ok] at h
        obtain ⟨σ1, h1, σ2, h2, h3⟩ := h
        -- the heap with updated flags
        obtain ⟨τ, hτ, hτs, hτo, hτn, hτw, hτc, hτq, hτr, hτt, hBτ⟩ : ∃ τ : Core K,
            τ = (if dst.isError = true then
              (σ.setState sid { st' with lp := lp1 }).errorReached st'.concrete ce
              else σ.setState sid { st' with lp := lp1 }) ∧
            τ.states = (σ.setState sid { st' with lp := lp1 }).states ∧ τ.ops = σ.ops ∧
            τ.nodes = σ.nodes ∧ τ.waiting = σ.waiting ∧ τ.cur = σ.cur ∧ τ.queue = σ.queue ∧
            τ.rep = σ.rep ∧ τ.tookTt = σ.tookTt ∧ Body E X0 τ gh [] [ν] := by
          refine ⟨_, rfl, ?_⟩
          split
          · rename_i he
            rw [if_pos he] at hflag
            unfold Core.errorReached at hflag ⊢
            split
            · rename_i hcc
              rw [if_pos hcc] at hflag
              exact ⟨rfl, rfl, rfl, rfl, rfl, rfl, rfl, rfl, Body.flags hB1 hflag⟩
            · rename_i hcc
              rw [if_neg hcc] at hflag
              exact ⟨rfl, rfl, rfl, rfl, rfl, rfl, rfl, rfl, Body.flags hB1 hflag⟩
          · exact ⟨rfl, rfl, rfl, rfl, rfl, rfl, rfl, rfl, hB1⟩
        rw [← hτ] at h1
        have hRτ : Ready E gh τ ν nd { st' with lp := lp1 } c := by
          refine ⟨⟨by rw [hτn]; exact hN1.node, by rw [hτs]; exact hN1.state, hN1.mode, hN1.ok, hN1.cle,
            hN1.time, hN1.lo, hN1.noLeft⟩, hRd1.cOk, hRd1.ord⟩
        simp only [addSuccessor, bind_ok, pure_ok] at h1
        obtain ⟨⟨σ3, r⟩, h1, h1'⟩ := h1
        obtain ⟨gh', post, op, e1, e2, e3, e4, e5, e6, e7, e8, e9, e10, e11, e12, e13, e14, e15⟩ :=
          Ready.newOp hE hBτ (by simp) hRτ hl (hts ti (by simp)) ht hg hgi ⟨st', rfl, hR.ready.obj, g1⟩ h1
        subst e1
        simp only at h1'
        have hops : σ3.ops[τ.ops.length]? = some op := by rw [e2]; exact List.getElem?_concat_length
        have hw3 : σ3.waiting = σ.waiting := by rw [e10]; exact hτw
        have hBw : Body E X0 { σ3.pushOp ν (.tr τ.ops.length) with
            waiting := (σ3.pushOp ν (.tr τ.ops.length)).waiting ++ [τ.ops.length] } gh' [] [ν] := by
          refine e11.toWait hops e3 ?_ ?_
          · show τ.ops.length ∉ σ3.waiting
            rw [hw3]
            intro hc
            obtain ⟨op', k, -⟩ := hR.body.wait _ hc
            have := lt_of_getElem? k
            rw [hτo] at this; omega
          · intro s m' hs hm' he'
            rw [e13, hdst] at hm'; cases hm'
            have hs' : σ3.states[op.post]? = some s := hs
            rw [e8, e7, List.getElem?_concat_length] at hs'
            cases hs'
            obtain ⟨q1, q2⟩ := herr he'
            exact ⟨q1, by rw [e9]; exact q2⟩
        rw [show (σ3.pushOp ν (.tr τ.ops.length)).waiting = σ3.waiting from rfl] at hBw
        have hR1 : Run E X0 σ1 gh' ν { nd with ops := nd.ops ++ [.tr τ.ops.length] }
            { st' with lp := lp1 } c (fun k tj => Q k tj ∨ (k = st'.stepIn ∧ tj = ti)) := by
          subst h1'
          refine ⟨hBw, ⟨⟨e15.node, e15.state, e15.mode, e15.ok, e15.cle, e15.time, e15.lo, e15.noLeft⟩, e15.cOk, e15.ord⟩,
            ?_, ?_, ?_, ?_, ?_⟩
          · have hpl := NodeSt.parlt hBτ hRτ.toNodeSt
            have hDτ : Done E gh τ.ops ν nd Q := by rw [hτo]; exact hR.done
            have hD1 := Done.ext e12 (lt_of_getElem? hRτ.node) hpl (l := [.tr τ.ops.length]) hDτ
            intro x n k tj j y a1 a2 a3 a4
            rcases a4 with a4 | ⟨rfl, rfl⟩
            · exact hD1 x n k tj j y a1 a2 a3 a4
            · exact ⟨τ.ops.length, op, by simp, hops, e5, by rw [e6], by rw [e6]; exact a2⟩
          · intro o ho
            simp only [List.mem_append, List.mem_singleton, NOp.tr.injEq] at ho
            show o ∈ σ3.waiting ++ [τ.ops.length]
            rcases ho with ho | rfl
            · rw [hw3]; simp [hR.pend o ho]
            · simp
          · show σ3.cur = _; rw [e10]; exact hτc.trans hR.cur
          · show σ3.queue = _; rw [e10]; exact hτq.trans hR.queue
          · show σ3.rep = _; rw [e10]; exact hτr.trans hR.rep
        have hMN : gh'.MN ν = gh.MN ν := e12.MN ν (lt_of_getElem? hRτ.node)
        have htk : σ1.tookTt = σ.tookTt := by
          subst h1'
          show σ3.tookTt = _; rw [e10]; exact hτt
        obtain ⟨lp2, hR2, hn2⟩ := ttCheck_spec hE hR1 (fun k tj a b => .inl (hQ k tj (by rw [← htk]; exact a) b)) hsid
          (by rw [hMN]; exact hl) (hts ti (by simp)) ht hg h2
        rcases guardLoop_spec hE ts hR2 (fun k tj a b => .inr ⟨a, b⟩) hsid (by rw [hMN]; exact hl) htsl h3 with
          hf | ⟨gh2, nd', st2, q1, q2, q3, q4, q5, q6, q7⟩
        · exact .inl hf
        · refine .inr ⟨gh2, nd', st2, ⟨q1.body, q1.ready, ?_, q1.pend, q1.cur, q1.queue, q1.rep⟩, q2, q3,
            q4.trans hMN, q5, q6, ?_⟩
          · intro x n k tj j y h1 h2 h3 h4
            refine q1.done x n k tj j y h1 h2 h3 ?_
            rcases h4 with h4 | ⟨h4, h5⟩ | h4
            · exact .inl (.inl (.inl h4))
            · rcases List.mem_cons.1 h5 with rfl | h5
              · exact .inl (.inl (.inr ⟨h4, rfl⟩))
              · exact .inr (.inl ⟨h4, h5⟩)
            · exact .inr (.inr h4)
          · intro h
            rcases q7 h with h | h
            · rcases hn2 h with h | h
              · exact .inl (by rw [← htk]; exact h)
              · exact .inr h
            · exact .inr h

/-! ### Invariant and time step -/

/-- The state set of another node is not affected. -/
theorem NodeSt.other {E : Env K} {X0 : ℕ → (ℕ → K) → Prop} {gh : Ghost K} {σ : Core K}
    {L A : List ℕ} (hB : Body E X0 σ gh L A) {ν μ : ℕ} {nd md : Node} {st : SS K} {c : ℕ}
    (hν : σ.nodes[ν]? = some nd) (hne : μ ≠ ν) (h : NodeSt E gh σ μ md st c) (st' : SS K)
    (te : ℕ → Option (TE K)) :
    NodeSt E gh { σ.setState nd.state st' with te := te } μ md st c := by
  refine ⟨h.node, ?_, h.mode, h.ok, h.cle, h.time, h.lo, h.noLeft⟩
  show (σ.states.set nd.state st')[md.state]? = some st
  rw [List.getElem?_set_ne]
  · exact h.state
  · intro he
    exact hne (hB.stInj μ ν md nd h.node hν he.symm)

/-- **A time step** of a node's state set. -/
theorem stepState_spec {E : Env K} (hE : E.OkJ) {X0 : ℕ → (ℕ → K) → Prop} {gh : Ghost K}
    {σ σ' : Core K} {L A : List ℕ} (hB : Body E X0 σ gh L A) {ν : ℕ} {nd : Node} {st : SS K} {c : ℕ}
    (h : NodeSt E gh σ ν nd st c) {target : Option ℕ}
    (hs : stepState E σ nd.state target = .ok σ') :
    ∃ te st', σ' = { σ.setState nd.state st' with te := te } ∧ Body E X0 σ' gh L A ∧
      NodeSt E gh σ' ν nd st' c ∧ st.stepIn ≤ target.getD (st.stepIn + 1) ∧
      st'.stepIn = target.getD (st.stepIn + 1) ∧ st'.mode = st.mode ∧ st'.concrete = st.concrete := by
  simp only [stepState, bind_ok, needSome_ok, pure_ok] at hs
  obtain ⟨s0, h0, m, hm, ⟨te1, st'⟩, hst, rfl⟩ := hs
  rw [h.state] at h0; cases h0
  obtain ⟨m', k1, k2, k3⟩ := h.ok
  rw [hm] at k1; cases k1
  obtain ⟨a1, a2, a3, a4⟩ := k3.step (hE.dynFor _ _ hm k2)
    (fun u hu => hB.te _ _ u hm k2 hu) hst
  have hmode : st'.mode = st.mode := by rw [a3]
  have hsi : st'.stepIn = target.getD (st.stepIn + 1) := by rw [a3]
  have hte : ∀ (i : ℕ) (m : Mode K) u, E.ha.modes[i]? = some m → m.isError = false →
      Function.update σ.te st.mode te1 i = some u → u.Inv (E.dyn i) := by
    intro i m' u hi he hu
    by_cases hc : i = st.mode
    · subst hc
      rw [Function.update_self] at hu
      exact a1 u hu
    · rw [Function.update_of_ne hc] at hu
      exact hB.te i m' u hi he hu
  refine ⟨_, st', rfl, hB.setState h.node h.state hmode hte, ?_, a2, hsi, hmode, by rw [a3]⟩
  refine ⟨h.node, List.getElem?_set_self (lt_of_getElem? h.state), by rw [hmode]; exact h.mode,
    ⟨m, by rw [hmode]; exact hm, k2, by rw [hmode]; exact a4⟩, ?_, ?_, fun hc => step_noLo (h.lo hc) hst,
    h.noLeft⟩
  · have := h.cle; omega
  · intro x n hx
    have := h.time x n hx
    rw [hsi, a3]
    simp only
    omega

theorem stepState_le {E : Env K} {σ σ' : Core K} {sid : ℕ} {target : Option ℕ}
    (hs : stepState E σ sid target = .ok σ') : FlagLe σ σ' := by
  simp only [stepState, bind_ok, needSome_ok, pure_ok] at hs
  obtain ⟨s0, h0, m, hm, ⟨te1, st'⟩, hst, rfl⟩ := hs
  exact ⟨id, id⟩

/-- Several recorded operations. -/
theorem pushAll {E : Env K} {X0 : ℕ → (ℕ → K) → Prop} {gh : Ghost K} {L A : List ℕ} {ν s : ℕ}
    (hA : ν ∈ A) : ∀ (qs : List (ℕ × Bool)) {σ : Core K} {nd : Node}, Body E X0 σ gh L A →
    σ.nodes[ν]? = some nd → ∃ σ', qs.foldl (fun σ q => σ.pushOp ν (.inv s q.1 q.2)) σ = σ' ∧
      Body E X0 σ' gh L A ∧ σ' = { σ with nodes := σ'.nodes } ∧
      σ'.nodes[ν]? = some { nd with ops := nd.ops ++ qs.map fun q => .inv s q.1 q.2 } ∧
      ∀ μ, μ ≠ ν → σ'.nodes[μ]? = σ.nodes[μ]?
  | [], σ, nd, hB, hn => ⟨σ, rfl, hB, rfl, by simpa using hn, fun _ _ => rfl⟩
  | q :: qs, σ, nd, hB, hn => by
    have h1 := hB.push hA (x := .inv s q.1 q.2) rfl
    have hn1 : (σ.pushOp ν (.inv s q.1 q.2)).nodes[ν]? =
        some { nd with ops := nd.ops ++ [.inv s q.1 q.2] } := by
      rw [pushOp_nodes, hn]; simp
    obtain ⟨σ', a1, a2, a3, a4, a5⟩ := pushAll hA qs h1 hn1
    refine ⟨σ', by rw [List.foldl_cons]; exact a1, a2, ?_, by rw [a4]; simp, ?_⟩
    · rw [a3]; rfl
    · intro μ hμ
      rw [a5 μ hμ, pushOp_nodes]
      cases σ.nodes[μ]? <;> simp [hμ.symm]

theorem intersectCur_le {E : Env K} {σ σ' : Core K} {f : Bool}
    (h : intersectCur E σ = .ok (σ', f)) : FlagLe σ σ' := by
  simp only [intersectCur, bind_ok, needSome_ok, pure_ok, Prod.mk.injEq] at h
  obtain ⟨⟨ν', sid⟩, hc, s0, hs0, m, hm, ⟨st', f', ops⟩, hii, rfl, rfl⟩ := h
  have key : ∀ (qs : List (ℕ × Bool)) (τ : Core K) ν s,
      FlagLe τ (qs.foldl (fun σ q => σ.pushOp ν (.inv s q.1 q.2)) τ) := by
    intro qs
    induction qs with
    | nil => intro τ ν s; exact FlagLe.refl _
    | cons q qs ih => intro τ ν s; rw [List.foldl_cons]; exact ih (τ.pushOp ν (.inv s q.1 q.2)) ν s
  exact key ops (σ.setState sid st') ν' s0.stepIn

/-- The current node. -/
theorem curState_eq {σ : Core K} {ν : ℕ} {nd : Node} (hc : σ.cur = some ν) (hn : σ.nodes[ν]? = some nd)
    (hl : NoLeft nd.ops) : σ.curState = some (ν, nd.state) := by
  have : nd.left = false := by
    unfold Node.left
    split
    · rename_i s b h
      exact absurd (List.mem_of_getLast? h) (hl s b)
    · rfl
  unfold Core.curState
  rw [hc]; simp only
  rw [hn]; simp [this]

/-- **Intersection with the invariant** of the current state. -/
theorem intersectCur_spec {E : Env K} (hE : E.OkJ) {X0 : ℕ → (ℕ → K) → Prop} {gh : Ghost K}
    {σ σ' : Core K} {ν : ℕ} {nd : Node} {st : SS K} {c : ℕ} {Q : ℕ → ℕ → Prop}
    (hB : Body E X0 σ gh [] [ν]) (h : NodeSt E gh σ ν nd st c) (hd : Done E gh σ.ops ν nd Q)
    (hc : σ.cur = some ν) {f : Bool} (hs : intersectCur E σ = .ok (σ', f)) :
    ∃ (st' : SS K) (qs : List (ℕ × Bool)), Body E X0 σ' gh [] [ν] ∧
      NodeSt E gh σ' ν { nd with ops := nd.ops ++ qs.map fun q => .inv st.stepIn q.1 q.2 } st'
        (st.stepIn + 1) ∧
      Done E gh σ'.ops ν { nd with ops := nd.ops ++ qs.map fun q => .inv st.stepIn q.1 q.2 } Q ∧
      st'.stepIn = st.stepIn ∧ st'.steps = st.steps ∧ st'.mode = st.mode ∧ st'.concrete = st.concrete ∧
      σ' = { σ with nodes := σ'.nodes, states := σ'.states } ∧
      (f = false → ∀ x n z m, gh.GP nd x n → E.ha.modes[gh.MN ν]? = some m →
        Flow 0 m (E.dyn (gh.MN ν)) st.stepIn x z → ¬ InvEps 0 m z) := by
  simp only [intersectCur, bind_ok, needSome_ok, pure_ok, Prod.mk.injEq] at hs
  obtain ⟨cc, hcc, s0, hs0, m, hm, ⟨st', f', ops⟩, hii, hσ', rfl⟩ := hs
  rw [curState_eq hc h.node h.noLeft] at hcc
  cases hcc
  simp only at hs0 hσ'
  rw [h.state] at hs0; cases hs0
  obtain ⟨m', k1, k2, k3⟩ := h.ok
  rw [hm] at k1; cases k1
  obtain ⟨a1, a2, a3, a4⟩ := k3.intersectInvariant hE.honest hE.tol (hE.dynFor _ _ hm k2)
    (hE.plain _ _ hm k2) h.cle hii
  have hmode : st'.mode = st.mode := by rw [a1]
  have hB1 : Body E X0 (σ.setState nd.state st') gh [] [ν] :=
    hB.setState (te := σ.te) (st' := st') h.node h.state hmode hB.te
  obtain ⟨σ2, b1, b2, b3, b4, b5⟩ := pushAll (s := st.stepIn) (by simp : ν ∈ [ν]) ops hB1 h.node
  rw [b1] at hσ'
  subst hσ'
  have hsi : st'.stepIn = st.stepIn := by rw [a1]
  have hst : st'.steps = st.steps := by rw [a1]
  refine ⟨st', ops, b2, ?_, ?_, hsi, hst, hmode, by rw [a1], ?_, ?_⟩
  · refine ⟨b4, ?_, by rw [hmode]; exact h.mode, ⟨m, by rw [hmode]; exact hm, k2, ?_⟩, by omega, ?_, ?_, ?_⟩
    · rw [b3]; exact List.getElem?_set_self (lt_of_getElem? h.state)
    · rw [hmode]; exact a3.anti fun x hx => hx
    · intro x n hx
      have := h.time x n hx
      rw [hst, hsi]; exact this
    · intro hch; exact invLoop_noLo _ (h.lo hch) hii
    · intro s b hb
      simp only [List.mem_append, List.mem_map] at hb
      rcases hb with hb | ⟨q, -, hb⟩
      · exact h.noLeft s b hb
      · cases hb
  · intro x n k ti j y h1 h2 h3 h4
    obtain ⟨o, op, q1, q2, q3⟩ := hd x n k ti j y h1 h2 h3 h4
    exact ⟨o, op, by simp [q1], by rw [b3]; exact q2, q3⟩
  · rw [b3]; rfl
  · intro hf x n z m' hx hm' hfl
    rw [← h.mode] at hm' hfl
    rw [hm] at hm'; cases hm'
    exact a4 hf x z ⟨n, hx⟩ hfl

/-! ### `do_step_continuous_post` -/

/-- Between rounds, outside deaggregation, while a node is being computed. -/
def Running (E : Env K) (X0 : ℕ → (ℕ → K) → Prop) (σ : Core K) (gh : Ghost K) : Prop :=
  ∃ ν nd st c, Run E X0 σ gh ν nd st c (fun k _ => k ≤ st.stepIn ∨ σ.tookTt = true) ∧
    (σ.tookTt = true → ¬ E.NoTt)

/-- The flag of a time-triggered transition belongs to the current state set, and this is not at the time
bound. -/
def Core.TtFresh (E : Env K) (σ : Core K) : Prop :=
  σ.tookTt = true → ∃ ν sid st, σ.curState = some (ν, sid) ∧ σ.states[sid]? = some st ∧
    st.steps.1 < E.set.numSteps

/-- Between rounds, outside deaggregation, when nothing is being computed. -/
structure Idle (E : Env K) (X0 : ℕ → (ℕ → K) → Prop) (σ : Core K) (gh : Ghost K) : Prop where
  body : Body E X0 σ gh [] []
  cur : σ.cur = none
  queue : σ.queue = []
  rep : σ.rep = none
  tt : σ.tookTt = false

theorem leftInvariant_le {σ σ' : Core K} {b : Bool} (h : σ.leftInvariant b = .ok σ') : FlagLe σ σ' := by
  simp only [Core.leftInvariant, bind_ok, needSome_ok, pure_ok] at h
  obtain ⟨c, -, st, -, rfl⟩ := h
  exact ⟨id, id⟩

/-- **Leaving a node** whose jumps have all been recorded. -/
theorem leftInvariant_spec {E : Env K} {X0 : ℕ → (ℕ → K) → Prop} {gh : Ghost K} {σ σ' : Core K}
    {ν : ℕ} {nd : Node} {st : SS K} {c : ℕ} (hB : Body E X0 σ gh [] [ν])
    (hN : NodeSt E gh σ ν nd st c) (hd : Done E gh σ.ops ν nd fun _ _ => True)
    (hp : ∀ o, NOp.tr o ∈ nd.ops → o ∈ σ.waiting) (hc : σ.cur = some ν) (hq : σ.queue = [])
    (hr : σ.rep = none) (htt : σ.tookTt = false) {b : Bool} (h : σ.leftInvariant b = .ok σ') :
    Idle E X0 σ' gh := by
  simp only [Core.leftInvariant, bind_ok, needSome_ok, pure_ok] at h
  obtain ⟨cc, hcc, st', hst', rfl⟩ := h
  rw [curState_eq hc hN.node hN.noLeft] at hcc
  cases hcc
  have h1 := hB.push (ν := ν) (by simp) (x := .left st'.stepIn b) rfl
  have hn1 : (σ.pushOp ν (.left st'.stepIn b)).nodes[ν]? =
      some { nd with ops := nd.ops ++ [.left st'.stepIn b] } := by
    rw [pushOp_nodes, hN.node]; simp
  have h2 := h1.finish hn1 ⟨nd.ops, st'.stepIn, b, rfl, hN.noLeft⟩ ?_ ?_
  · exact ⟨h2.misc none σ.queue σ.rep σ.tookTt, rfl, hq, hr, htt⟩
  · intro x n k ti j y q1 q2 q3 q4
    obtain ⟨o, op, r1, r2⟩ := hd x n k ti j y q1 q2 q3 q4
    exact ⟨o, op, by simp [r1], r2⟩
  · intro o ho
    simp only [List.mem_append, List.mem_singleton] at ho
    rcases ho with ho | ho
    · exact .inl (hp o ho)
    · cases ho

/-- No jump after a step at which the invariant is violated. -/
theorem Done.left {E : Env K} {gh : Ghost K} {ops : List (OpTr K)} {ν : ℕ} {nd : Node} {s : ℕ}
    {Q : ℕ → ℕ → Prop} (hd : Done E gh ops ν nd Q)
    (hno : ∀ x n z m, gh.GP nd x n → E.ha.modes[gh.MN ν]? = some m →
      Flow 0 m (E.dyn (gh.MN ν)) s x z → ¬ InvEps 0 m z)
    (hQ : ∀ k ti, k ≤ s → (s = 0 → False) → Q k ti) :
    Done E gh ops ν nd fun _ _ => True := by
  intro x n k ti j y h1 h2 h3 _
  obtain ⟨m, t, z, l, j1, j2, j3, j4, j5⟩ := id h2
  by_cases hk : s < k
  · obtain ⟨y', f1, f2⟩ := flow_inv j3 hk
    exact absurd f2 (hno x n y' m h1 j1 f1)
  · by_cases h0 : s = 0
    · have hk0 : k = 0 := by omega
      subst hk0
      rw [← h0] at j3
      exact absurd (j4 rfl).2 (hno x n z m h1 j1 j3)
    · exact hd x n k ti j y h1 h2 h3 (hQ k ti (by omega) h0)

theorem stepPost_le {E : Env K} {σ σ' : Core K} (h : stepPost E σ = .ok σ') : FlagLe σ σ' := by
  simp only [stepPost, bind_ok, needSome_ok] at h
  obtain ⟨c, -, st, -, h⟩ := h
  split at h
  · cases h; exact FlagLe.refl _
  split at h
  · exact leftInvariant_le h
  split at h
  · have := leftInvariant_le h; exact ⟨this.1, this.2⟩
  simp only [bind_ok] at h
  obtain ⟨⟨σ1, f⟩, h1, h⟩ := h
  have l1 := intersectCur_le h1
  split at h
  · exact l1.trans (leftInvariant_le h)
  simp only [bind_ok, needSome_ok] at h
  obtain ⟨σ2, h2, σ3, h3, m, -, a, -, h⟩ := h
  have l2 := stepState_le h2
  have l3 : FlagLe σ2 σ3 := by
    simp only [checkGuards, bind_ok, needSome_ok] at h3
    obtain ⟨c', -, st', -, ts, -, h3⟩ := h3
    exact guardLoop_le ts h3
  split at h
  · exact ((l1.trans l2).trans l3).trans (leftInvariant_le h)
  · cases h; exact (l1.trans l2).trans l3

/-- Constant dynamics: a later jump is possible after one step. -/
theorem jump_zero {E : Env K} (hE : E.OkJ) (hz : E.set.skipZero = true) {i : ℕ} {m : Mode K} {a : Csr K}
    (hm : E.ha.modes[i]? = some m) (ha : m.a = some a) (hn : a.noEntries = true) {x y : ℕ → K}
    {k ti j : ℕ} (hk : 1 ≤ k) (h : E.hybJ.Jump 0 i x k ti j y) : E.hybJ.Jump 0 i x 1 ti j y := by
  obtain ⟨hi, hex⟩ := hE.zero hz i m a hm ha hn
  obtain ⟨m', t, z, l, j1, j2, j3, j4, j5⟩ := h
  have : m' = m := Option.some.inj (j1.symm.trans hm)
  subst this
  have hd := hE.dynFor i m' hm j2
  have hN : (E.dyn i).nmat = none := by
    cases hN : (E.dyn i).nmat with
    | none => rfl
    | some N => obtain ⟨inp, h1, -⟩ := hd.inp N hN; rw [hi] at h1; cases h1
  have hone : ∀ u w : ℕ → K, OneStep m' (E.dyn i) u w ↔ EqOn (E.dyn i).dims w u := by
    intro u w
    have e : ∀ r < (E.dyn i).dims, mulV (E.dyn i).dims ((E.dyn i).ex 1).e u r = u r := by
      intro r hr
      unfold mulV
      rw [Finset.sum_congr rfl (g := fun c => if r = c then u c else 0)]
      · rw [Finset.sum_ite_eq]; simp [hr]
      · intro c hc
        rw [hex r hr c (Finset.mem_range.1 hc)]
        split <;> simp
    constructor
    · rintro ⟨v, -, hv⟩ r hr
      rw [hv r hr, e r hr]
      simp [inputPart, hN]
    · intro hw
      refine ⟨fun _ => 0, ?_, fun r hr => ?_⟩
      · intro inp hinp; rw [hi] at hinp; cases hinp
      · rw [hw r hr, e r hr]; simp [inputPart, hN]
  have hfix : ∀ k (z : ℕ → K), Flow 0 m' (E.dyn i) k x z → EqOn (E.dyn i).dims z x := by
    intro k
    induction k with
    | zero => intro z hz; cases hz with | zero h => exact h
    | succ k ih =>
      intro z hz
      cases hz with
      | step h1 _ h3 =>
        intro r hr
        rw [(hone _ _).1 h3 r hr, ih _ h1 r hr]
  obtain ⟨y0, f1, f2⟩ := flow_inv j3 (s := 0) (by omega)
  refine ⟨m', t, z, l, j1, j2, ?_, by simp, j5⟩
  refine Flow.step f1 f2 ((hone _ _).2 ?_)
  intro r hr
  rw [hfix k z j3 r hr, hfix 0 y0 f1 r hr]

theorem stepPost_spec {E : Env K} (hE : E.OkJ) {X0 : ℕ → (ℕ → K) → Prop} {gh : Ghost K}
    {σ σ' : Core K} (hR : Running E X0 σ gh) (hf1 : E.NoTt ∨ σ.TtFresh E) (hf2 : E.NoTt ∨ σ'.TtFresh E)
    (h : stepPost E σ = .ok σ') :
    Flag E σ' ∨ ∃ gh', Running E X0 σ' gh' ∨ Idle E X0 σ' gh' := by
  obtain ⟨ν, nd, st, c, hR, hnt⟩ := id hR
  simp only [stepPost, bind_ok, needSome_ok] at h
  obtain ⟨cc, hcc, st0, hst0, h⟩ := h
  rw [curState_eq hR.cur hR.ready.node hR.ready.noLeft] at hcc
  cases hcc
  simp only at hst0 h
  rw [hR.ready.state] at hst0; cases hst0
  split at h
  · cases h; exact .inr ⟨gh, .inl ⟨ν, nd, st, c, hR, hnt⟩⟩
  split at h
  · -- time bound
    rename_i hb
    have htt : σ.tookTt = false := by
      by_contra hc
      simp only [Bool.not_eq_false] at hc
      rcases hf1 with hf1 | hf1
      · exact hnt hc hf1
      · obtain ⟨ν', sid, st', a1, a2, a3⟩ := hf1 hc
        rw [curState_eq hR.cur hR.ready.node hR.ready.noLeft] at a1
        cases a1
        have : st = st' := Option.some.inj (hR.ready.state.symm.trans a2)
        subst this
        omega
    refine .inr ⟨gh, .inr (leftInvariant_spec hR.body hR.ready.toNodeSt ?_ hR.pend hR.cur hR.queue hR.rep htt h)⟩
    intro x n k ti j y h1 h2 h3 _
    have := hR.ready.time x n h1
    exact hR.done x n k ti j y h1 h2 h3 (.inl (by omega))
  split at h
  · -- after a time-triggered transition
    rename_i hc
    have hN' : NodeSt E gh { σ with tookTt := false } ν nd st c :=
      ⟨hR.ready.node, hR.ready.state, hR.ready.mode, hR.ready.ok, hR.ready.cle, hR.ready.time, hR.ready.lo,
        hR.ready.noLeft⟩
    exact .inr ⟨gh, .inr (leftInvariant_spec (hR.body.misc σ.cur σ.queue σ.rep false) hN'
      (hR.done.mono fun k ti _ => .inr hc) hR.pend hR.cur hR.queue hR.rep rfl h)⟩
  rename_i htt
  simp only [Bool.not_eq_true] at htt
  simp only [bind_ok] at h
  obtain ⟨⟨σ1, f⟩, h1, h⟩ := h
  have hdone0 : Done E gh σ.ops ν nd fun k _ => k ≤ st.stepIn := hR.done.mono fun k ti h => .inl h
  obtain ⟨st1, qs, a1, a2, a3, a4, a5, a6, a7, a8, a9⟩ := intersectCur_spec hE hR.body hR.ready.toNodeSt
    hdone0 hR.cur h1
  have hcur1 : σ1.cur = some ν := by rw [a8]; exact hR.cur
  have hpend1 : ∀ o, NOp.tr o ∈ nd.ops ++ qs.map (fun q => .inv st.stepIn q.1 q.2) → o ∈ σ1.waiting := by
    intro o ho
    simp only [List.mem_append, List.mem_map] at ho
    rcases ho with ho | ⟨q, -, ho⟩
    · rw [a8]; exact hR.pend o ho
    · cases ho
  have hq1 : σ1.queue = [] := by rw [a8]; exact hR.queue
  have hr1 : σ1.rep = none := by rw [a8]; exact hR.rep
  have ht1 : σ1.tookTt = false := by rw [a8]; exact htt
  split at h
  · -- infeasible
    rename_i hf
    simp only at hf
    refine .inr ⟨gh, .inr (leftInvariant_spec a1 a2 ?_ hpend1 hcur1 hq1 hr1 ht1 h)⟩
    exact a3.left (a9 hf) fun k ti hk _ => hk
  · simp only [bind_ok, needSome_ok] at h
    obtain ⟨σ2, h2, σ3, h3, m, hm, a, ha, h⟩ := h
    obtain ⟨te, st2, b1, b2, b3, -, b4, b5, -⟩ := stepState_spec hE a1 a2 h2
    simp only [Option.getD_none, a4] at b4
    have hR2 : Run E X0 σ2 gh ν { nd with ops := nd.ops ++ qs.map fun q => .inv st.stepIn q.1 q.2 } st2
        (st.stepIn + 1) (fun k _ => k ≤ st.stepIn) := by
      refine ⟨b2, ⟨b3, .inl (by omega), ?_⟩, ?_, ?_, ?_, ?_, ?_⟩
      · intro s i b hb
        simp only [List.mem_append, List.mem_map] at hb
        rcases hb with hb | ⟨q, -, hb⟩
        · have := hR.ready.ord s i b hb; omega
        · cases hb; omega
      · rw [b1]; exact a3
      · rw [b1]; exact hpend1
      · rw [b1]; exact hcur1
      · rw [b1]; exact hq1
      · rw [b1]; exact hr1
    have ht2 : σ2.tookTt = false := by rw [b1]; exact ht1
    simp only [checkGuards, bind_ok, needSome_ok] at h3
    obtain ⟨c3, hc3, st3, hst3, ts, hts, h3⟩ := h3
    rw [curState_eq hR2.cur hR2.ready.node hR2.ready.noLeft] at hc3
    cases hc3
    simp only at hst3 h3
    have : st3 = st2 := Option.some.inj (hst3.symm.trans hR2.ready.state)
    subst this
    rw [hR2.ready.mode] at hts
    rcases guardLoop_spec hE ts hR2 (fun k tj a => by rw [ht2] at a; cases a) rfl hts (fun _ h => h) h3 with
      hf | ⟨gh', nd', st', q1, q2, q3, q4, q5, q6, q7⟩
    · left
      split at h
      · exact (leftInvariant_le h).flag hf
      · cases h; exact hf
    · right
      have hnt3 : σ3.tookTt = true → ¬ E.NoTt := fun hc => (q7 hc).resolve_left (by rw [ht2]; simp)
      have hdone : Done E gh' σ3.ops ν nd' fun k _ => k ≤ st'.stepIn ∨ σ3.tookTt = true := by
        intro x n k ti j y r1 r2 r3 r4
        refine q1.done x n k ti j y r1 r2 r3 ?_
        by_cases hk : k ≤ st.stepIn
        · exact .inl hk
        · right
          by_cases hk2 : st3.stepIn < k
          · right
            rcases r4 with r4 | r4
            · omega
            · exact ⟨r4, hk2⟩
          left
          refine ⟨by omega, ?_⟩
          obtain ⟨m', t, z, l, j1, j2, j3, j4, j5, j6, -⟩ := r2
          rw [q4] at j5
          have : l = ts := Option.some.inj (j5.symm.trans hts)
          rw [← this]; exact j6
      split at h
      · -- zero dynamics
        rename_i hz
        simp only [Bool.and_eq_true] at hz
        have ht3 : σ3.tookTt = false := by
          by_contra hc
          simp only [Bool.not_eq_false] at hc
          rcases hf2 with hf2 | hf2
          · exact hnt3 hc hf2
          · simp only [Core.leftInvariant, bind_ok, needSome_ok, pure_ok] at h
            obtain ⟨c4, -, st4, -, rfl⟩ := h
            obtain ⟨ν', sid, st', a1, -⟩ := hf2 hc
            simp [Core.curState] at a1
        refine ⟨gh', .inr (leftInvariant_spec q1.body q1.ready.toNodeSt ?_ q1.pend q1.cur q1.queue q1.rep
          ht3 h)⟩
        intro x n k ti j y r1 r2 r3 _
        by_cases hk : k = 0
        · exact hdone x n k ti j y r1 r2 r3 (.inl (by omega))
        · have hmm : E.ha.modes[gh'.MN ν]? = some m := by
            rw [q4, ← hR.ready.mode]; exact hm
          have := jump_zero hE hz.2 hmm ha hz.1 (by omega) r2
          obtain ⟨o, op, s1, s2, s3, s4, s5⟩ := hdone x n 1 ti j y r1 this (by omega) (.inl (by omega))
          exact ⟨o, op, s1, s2, s3, by omega, s5⟩
      · cases h
        exact ⟨gh', .inl ⟨ν, nd', st', _, ⟨q1.body, q1.ready, hdone, q1.pend, q1.cur, q1.queue, q1.rep⟩,
          hnt3⟩⟩

end Hylaa
