import Verif.Proofs.CoreReplay3
import Verif.Proofs.Micro

/-!
# Concrete state sets contain only reachable points

Invariant for C33, without deaggregation: every state set marked concrete contains only points of runs
(with invariants relaxed by the tolerance of the intersection check).
-/

set_option linter.unusedSectionVars false

namespace Hylaa
open Spec
variable {K : Type} [Field K] [LinearOrder K] [IsStrictOrderedRing K]

/-- State `st` of mode `m` contains only trajectories from `X`, inside the `ε`-relaxed invariant at steps
`0 … c - 1`. -/
def SS.Hi (m : Mode K) (d : Dyn K) (X : (ℕ → K) → Prop) (ε : K) (c : ℕ) (st : SS K) : Prop :=
  ∃ ρ, st.Sh d ρ ∧ ∀ y v, ρ.P y v → X y ∧ (∀ l < st.stepIn, Admissible m (v l)) ∧
    ∀ j < c, InvEps ε m (d.val j y fun _ _ => 0)

theorem SS.Ok.toHi {m : Mode K} {d : Dyn K} {X : (ℕ → K) → Prop} {ε : K} {c : ℕ} {st : SS K}
    (h : st.Ok m d X ε True c) : st.Hi m d X ε c := by
  obtain ⟨⟨ρ, h1, -, h3⟩, -⟩ := h
  exact ⟨ρ, h1, h3 trivial⟩

theorem SS.Hi.withLp {m : Mode K} {d : Dyn K} {X : (ℕ → K) → Prop} {ε : K} {c : ℕ}
    {st : SS K} (h : st.Hi m d X ε c) {lp : Lp K} (h1 : lp.toSys = st.lp.toSys)
    (h2 : st.lp.ObjInv → lp.ObjInv) : ({ st with lp := lp } : SS K).Hi m d X ε c := by
  obtain ⟨ρ, a1, a2⟩ := h
  exact ⟨ρ, a1.withLp h1 (h2 a1.obj), a2⟩

theorem SS.Hi.aggstr {m : Mode K} {d : Dyn K} {X : (ℕ → K) → Prop} {ε : K} {c : ℕ}
    {st : SS K} (h : st.Hi m d X ε c) (s : Option String) :
    ({ st with aggstr := s } : SS K).Hi m d X ε c := by
  obtain ⟨ρ, a, a2⟩ := h
  exact ⟨ρ, ⟨a.repr, a.obj, a.rows, a.lgg, a.basis, a.n, a.B, a.Ns, a.ies, a.m⟩, a2⟩

theorem SS.Hi.step {m : Mode K} {d : Dyn K} (hd : d.For m)
    {X : (ℕ → K) → Prop} {ε : K} {c : ℕ} {te te' : Option (TE K)}
    (ht : ∀ u, te = some u → u.Inv d) {st st' : SS K} (h : st.Hi m d X ε c) {target : Option ℕ}
    (hs : st.step d m te target = .ok (te', st')) : st'.Hi m d X ε c := by
  obtain ⟨ρ, h1, h3⟩ := h
  obtain ⟨-, a2, a3, ρ', a4, a5⟩ := h1.step hd ht hs
  have hk : st'.stepIn = target.getD (st.stepIn + 1) := by rw [a3]
  refine ⟨ρ', a4, fun y v hp => ?_⟩
  obtain ⟨b1, b2⟩ := (a5 y v).1 hp
  obtain ⟨c1, c2, c3⟩ := h3 y v b1
  refine ⟨c1, fun l hl => ?_, c3⟩
  by_cases hlk : l < st.stepIn
  · exact c2 l hlk
  · exact b2 l (by omega) hl

theorem SS.Hi.intersectInvariant {S : Solver K} (hS : S.Honest) {T : Tols K} (hT : 0 ≤ T.inter)
    {m : Mode K} {d : Dyn K} (hd : d.For m) (hm : m.Plain) {X : (ℕ → K) → Prop} {c : ℕ}
    {st st' : SS K} (h : st.Hi m d X T.inter c) (hc : st.stepIn ≤ c) {f : Bool}
    {ops : List (ℕ × Bool)} (hi' : SS.intersectInvariant S T m st = .ok (st', f, ops)) :
    st'.Hi m d X T.inter (st.stepIn + 1) := by
  obtain ⟨ρ, h1, h3⟩ := h
  obtain ⟨a1, a2, -, ρ', a4, a5, a6, a7, a8⟩ := invLoop_spec hS hT hd m.inv (fun lc hlc => hlc) h1 hi'
  have hk : st'.stepIn = st.stepIn := by rw [a1]
  refine ⟨ρ', a4, fun y v hp => ?_⟩
  obtain ⟨b1, b2, b3⟩ := h3 y v (a5 y v hp)
  refine ⟨b1, by rw [hk]; exact b2, fun j hj => ?_⟩
  by_cases hjc : j < c
  · exact b3 j hjc
  · obtain rfl : j = st.stepIn := by omega
    cases f with
    | true =>
      rw [inv_indep hd hm st.stepIn y _ v]
      exact a7 rfl y v hp
    | false => exact absurd hp (a8 rfl y v)

theorem SS.Hi.flow_of_mem {m : Mode K} {d : Dyn K} (hd : d.For m) (hm : m.Plain)
    {X : (ℕ → K) → Prop} {ε : K} {c : ℕ} {st : SS K} (h : st.Hi m d X ε c)
    (hc : st.stepIn ≤ c) {z : ℕ → K} (hz : st.lp.Mem z) :
    ∃ x, X x ∧ Flow ε m d st.stepIn x z ∧ (st.stepIn < c → InvEps ε m z) := by
  obtain ⟨ρ, h1, h3⟩ := h
  obtain ⟨y, v, hp, hv⟩ := (h1.mem z).1 hz
  obtain ⟨a1, a2, a3⟩ := h3 y v hp
  refine ⟨y, a1, (flow_iff hd.laws hd.wf _ _ _).2 ⟨v, a2, hv, fun j hj =>
    (inv_indep hd hm j y _ _).1 (a3 j (by omega))⟩, fun hlt => ?_⟩
  rw [InvEps.congr hd.wf (z := d.val st.stepIn y v) hv, inv_indep hd hm st.stepIn y v fun _ _ => 0]
  exact a3 _ hlt

/-- The cached rows are forgotten; the invariant at the start becomes part of the set. -/
theorem SS.Hi.absorb {m : Mode K} {d : Dyn K} (hd : d.For m) {X : (ℕ → K) → Prop} {ε : K}
    {st : SS K} (h : st.Hi m d X ε 1) :
    ({ st with invRows := m.inv.map fun _ => none } : SS K).Hi m d
      (fun x => X x ∧ InvEps ε m x) ε 0 := by
  obtain ⟨ρ, h1, h2⟩ := h
  refine ⟨ρ, ⟨h1.repr, h1.obj, ?_, h1.lgg, h1.basis, h1.n, h1.B, h1.Ns, h1.ies, h1.m⟩,
    fun y v hp => ?_⟩
  · intro i r hr
    simp only [List.getElem?_map] at hr
    cases hq : m.inv[i]? <;> rw [hq] at hr <;> cases hr
  · obtain ⟨a1, a2, a3⟩ := h2 y v hp
    refine ⟨⟨a1, ?_⟩, a2, by simp⟩
    have h0 := a3 0 (by omega)
    obtain ⟨w, -, f2, -⟩ := (flow_iff (m := m) (ε := (0 : K)) hd.laws hd.wf 0 y y).1 (.zero fun _ _ => rfl)
    have he : d.val 0 y w = d.val 0 y fun _ _ => 0 := by
      funext i
      unfold Dyn.val
      cases hN : d.nmat with
      | none => rw [Dyn.iesTo_none hN]; simp [inSum]
      | some N => simp [Dyn.iesTo, hN, inSum]
    rw [← he] at h0
    exact (InvEps.congr hd.wf (ε := ε) (x := y) (z := d.val 0 y w) f2).2 h0

/-- A concrete state set of a non-error mode. -/
def StConc (E : Env K) (X0 : ℕ → (ℕ → K) → Prop) (st : SS K) (c : ℕ) : Prop :=
  ∀ m, E.ha.modes[st.mode]? = some m → m.isError = false →
    ∃ X n, st.Hi m (E.dyn st.mode) X E.T.inter c ∧ st.stepIn ≤ c ∧ c ≤ st.stepIn + 1 ∧
      (∀ x, X x → E.hyb.Reach E.T.inter X0 st.mode x n) ∧ st.steps.1 = n + st.stepIn ∧
      st.steps.1 ≤ E.set.numSteps

/-- An error mode can be entered. -/
def ErrReach (E : Env K) (X0 : ℕ → (ℕ → K) → Prop) : Prop :=
  ∃ i x n m, E.hyb.Reach E.T.inter X0 i x n ∧ E.ha.modes[i]? = some m ∧ m.isError = true

structure ConcReach (E : Env K) (X0 : ℕ → (ℕ → K) → Prop) (σ : Core K) : Prop where
  st : ∀ (sid : ℕ) st, σ.states[sid]? = some st → st.concrete = true → ∃ c, StConc E X0 st c
  te : ∀ (i : ℕ) (m : Mode K) u, E.ha.modes[i]? = some m → m.isError = false → σ.te i = some u →
    u.Inv (E.dyn i)
  conc : σ.hasConc = true → ErrReach E X0
  queue : σ.queue = []
  rep : σ.rep = none

theorem StConc.withLp {E : Env K} {X0 : ℕ → (ℕ → K) → Prop} {st : SS K} {c : ℕ}
    (h : StConc E X0 st c) {lp : Lp K} (h1 : lp.toSys = st.lp.toSys)
    (h2 : st.lp.ObjInv → lp.ObjInv) : StConc E X0 { st with lp := lp } c := by
  intro m hm he
  obtain ⟨X, n, a, b⟩ := h m hm he
  exact ⟨X, n, a.withLp h1 h2, b⟩

theorem ConcReach.setState {E : Env K} {X0 : ℕ → (ℕ → K) → Prop} {σ : Core K} (h : ConcReach E X0 σ)
    {sid : ℕ} {st : SS K} (hs : st.concrete = true → ∃ c, StConc E X0 st c) :
    ConcReach E X0 (σ.setState sid st) := by
  refine ⟨fun i st' hi hc => ?_, h.te, h.conc, h.queue, h.rep⟩
  have hi' : (σ.states.set sid st)[i]? = some st' := hi
  rw [List.getElem?_set] at hi'
  split at hi'
  · split at hi'
    · cases hi'; exact hs hc
    · cases hi'
  · exact h.st i st' hi' hc

theorem ConcReach.errorReached {E : Env K} {X0 : ℕ → (ℕ → K) → Prop} {σ : Core K} (h : ConcReach E X0 σ)
    {b : Bool} {ce : List (CeSeg K)} (hb : b = true → ErrReach E X0) : ConcReach E X0 (σ.errorReached b ce) := by
  unfold Core.errorReached
  split
  · rename_i e
    exact ⟨h.st, h.te, fun _ => hb e, h.queue, h.rep⟩
  · exact ⟨h.st, h.te, h.conc, h.queue, h.rep⟩

theorem ConcReach.push {E : Env K} {X0 : ℕ → (ℕ → K) → Prop} {σ : Core K} (h : ConcReach E X0 σ)
    (ν : ℕ) (x : NOp) : ConcReach E X0 (σ.pushOp ν x) := ⟨h.st, h.te, h.conc, h.queue, h.rep⟩

/-- The point is on a run, and the guard leads on. -/
theorem StConc.jump {E : Env K} (hE : E.Sound) {X0 : ℕ → (ℕ → K) → Prop} {st : SS K} {c : ℕ}
    (h : StConc E X0 st c) {m : Mode K} (hm : E.ha.modes[st.mode]? = some m) (he : m.isError = false)
    (hu : st.stepIn = 0 → E.set.urgent = true ∧ c = 1) {l : List ℕ} {ti : ℕ} {t : Tr K}
    (hl : E.ha.out[st.mode]? = some l) (hti : ti ∈ l) (ht : E.ha.trans[ti]? = some t) {z y : ℕ → K}
    (hz : st.lp.Mem z) (hg : GuardHolds t z) (hr : ResetTo (E.dyn st.mode).dims t z y) :
    E.hyb.Reach E.T.inter X0 t.dst y st.steps.1 := by
  obtain ⟨X, n, a1, a2, a3, a4, a5, a6⟩ := h m hm he
  obtain ⟨x, hx, hf, hi⟩ := a1.flow_of_mem (hE.dynFor _ _ hm he) (hE.plain _ _ hm he) a2 hz
  rw [a5]
  refine .jump (a4 x hx) ⟨m, t, z, l, hm, he, hf, fun h0 => ?_, hl, hti, ht, hg, hr, rfl, trivial⟩
    (by rw [← a5]; exact a6)
  obtain ⟨u1, u2⟩ := hu h0
  exact ⟨u1, hi (by omega)⟩

/-- The second summands of resets are not empty. -/
def MinkOk (E : Env K) : Prop := ∀ t ∈ E.ha.trans, ∀ M, t.mink = some M →
  ∃ w, (t.minkC.getD ⟨0, []⟩).le w (t.minkRhs.getD [])

theorem ResetTo.exists {n : ℕ} {t : Tr K} (ht : ∀ M, t.mink = some M →
    ∃ w, (t.minkC.getD ⟨0, []⟩).le w (t.minkRhs.getD [])) (z : ℕ → K) : ∃ y, ResetTo n t z y := by
  have : ∃ w, ∀ M, t.mink = some M → (t.minkC.getD ⟨0, []⟩).le w (t.minkRhs.getD []) := by
    cases hM : t.mink with
    | none => exact ⟨fun _ => 0, fun M h => by cases h⟩
    | some M =>
      obtain ⟨w, hw⟩ := ht M hM
      exact ⟨w, fun _ _ => hw⟩
  obtain ⟨w, hw⟩ := this
  exact ⟨_, w, hw, fun i _ => rfl⟩

theorem SS.Entry.conc {E : Env K} {X0 : ℕ → (ℕ → K) → Prop} {st : SS K} (h : st.Entry E)
    {n : ℕ} (hn : st.steps.1 = n) (hb : n ≤ E.set.numSteps)
    (hr : ∀ x, st.lp.Mem x → E.hyb.Reach E.T.inter X0 st.mode x n) : StConc E X0 st 0 := by
  intro m hm he
  have h0 := h.zero
  exact ⟨st.lp.Mem, n, (h.ok m hm he).2.toHi, by omega, by omega, hr, by omega, by omega⟩

theorem ConcReach.addOp {E : Env K} {X0 : ℕ → (ℕ → K) → Prop} {σ : Core K} (h : ConcReach E X0 σ)
    {post : SS K} (hp : post.concrete = true → ∃ c, StConc E X0 post c) (op : OpTr K) :
    ConcReach E X0 { σ with ops := σ.ops ++ [op], states := σ.states ++ [post] } := by
  refine ⟨fun i st hi hc => ?_, h.te, h.conc, h.queue, h.rep⟩
  rcases append_inv hi with ⟨hi, -⟩ | ⟨-, rfl⟩
  · exact h.st i st hi hc
  · exact hp hc

/-- The transition loop. -/
theorem guardLoop_conc {E : Env K} (hE : E.Sound) (hM : MinkOk E) {X0 : ℕ → (ℕ → K) → Prop}
    {nid sid : ℕ} {m : Mode K} {i : ℕ} {l : List ℕ} (hm : E.ha.modes[i]? = some m)
    (he : m.isError = false) (hl : E.ha.out[i]? = some l) :
    ∀ (ts : List ℕ) {σ σ' : Core K}, (∀ t ∈ ts, t ∈ l) → ConcReach E X0 σ →
    (∀ st, σ.states[sid]? = some st → st.concrete = true → st.mode = i ∧
      ∃ c, StConc E X0 st c ∧ (st.stepIn = 0 → E.set.urgent = true ∧ c = 1)) →
    guardLoop E nid sid σ ts = .ok σ' → ConcReach E X0 σ'
  | [], σ, σ', _, h, _, hg => by cases hg; exact h
  | ti :: ts, σ, σ', hts, h, hsid, hg => by
    simp only [guardLoop, bind_ok, needSome_ok] at hg
    obtain ⟨st, hst, t, ht, g, hgd, ⟨lp1, tl⟩, hgi, hg⟩ := hg
    have hts' : ∀ t ∈ ts, t ∈ l := fun t ht => hts t (by simp [ht])
    have hti : ti ∈ l := hts ti (by simp)
    have key : st.concrete = true → st.mode = i ∧ lp1.toSys = st.lp.toSys ∧ lp1.ObjInv ∧
        (∃ c, StConc E X0 st c ∧ (st.stepIn = 0 → E.set.urgent = true ∧ c = 1)) := by
      intro hc
      obtain ⟨k1, c, k2, k3⟩ := hsid st hst hc
      obtain ⟨X, n, ⟨ρ, a1, -⟩, -⟩ := k2 m (by rw [k1]; exact hm) he
      obtain ⟨hgo, -⟩ := (hE.trs i m l ti t hm he hl hti ht).guard g hgd
      obtain ⟨g1, g2, -⟩ := guardIntersection_spec hE.honest a1.obj a1.repr.wf hgo hgi
      exact ⟨k1, g1, g2, c, k2, k3⟩
    have h1 : ConcReach E X0 (σ.setState sid { st with lp := lp1 }) := by
      refine h.setState fun hc => ?_
      obtain ⟨-, k2, k3, c, k4, -⟩ := key hc
      exact ⟨c, k4.withLp k2 fun _ => k3⟩
    have hsid1 : ∀ st1, (σ.setState sid { st with lp := lp1 }).states[sid]? = some st1 →
        st1.concrete = true → st1.mode = i ∧
          ∃ c, StConc E X0 st1 c ∧ (st1.stepIn = 0 → E.set.urgent = true ∧ c = 1) := by
      intro st1 hst1 hc
      have e : (σ.states.set sid { st with lp := lp1 })[sid]? = some st1 := hst1
      rw [List.getElem?_set_self (lt_of_getElem? hst)] at e
      cases e
      obtain ⟨k1, k2, k3, c, k4, k5⟩ := key hc
      exact ⟨k1, c, k4.withLp k2 fun _ => k3, k5⟩
    simp only at hg
    split at hg
    · exact guardLoop_conc hE hM hm he hl ts hts' h1 hsid1 hg
    · rename_i tlp
      simp only [bind_ok, needSome_ok] at hg
      obtain ⟨dst, hdst, ce, -, hg⟩ := hg
      have h2 : ConcReach E X0 (if dst.isError = true then
          (σ.setState sid { st with lp := lp1 }).errorReached st.concrete ce
          else σ.setState sid { st with lp := lp1 }) := by
        split
        · rename_i herr
          refine h1.errorReached fun hc => ?_
          obtain ⟨k1, k2, k3, c, k4, k5⟩ := key hc
          have k4' := k4
          obtain ⟨X, n, ⟨ρ, a1, -⟩, -⟩ := k4' m (by rw [k1]; exact hm) he
          obtain ⟨hgo, -⟩ := (hE.trs i m l ti t hm he hl hti ht).guard g hgd
          obtain ⟨-, -, -, g4⟩ := guardIntersection_spec hE.honest a1.obj a1.repr.wf hgo hgi
          obtain ⟨cc, -, -, -, ⟨x0, hx0⟩, -, c3⟩ := g4 tlp rfl
          obtain ⟨z1, z2⟩ := (c3 x0).1 hx0
          obtain ⟨y, hy⟩ := ResetTo.exists (n := (E.dyn st.mode).dims)
            (hM t (List.mem_of_getElem? ht)) x0
          exact ⟨t.dst, y, _, dst, k4.jump hE (by rw [k1]; exact hm) he k5 (by rw [k1]; exact hl) hti ht
            z1 ⟨g, hgd, z2⟩ hy, hdst, herr⟩
        · exact h1
      split at hg
      · cases hg; exact h2
      · simp only [bind_ok] at hg
        obtain ⟨σ1, hs1, σ2, hs2, hg⟩ := hg
        have hst0 : (if dst.isError = true then
            (σ.setState sid { st with lp := lp1 }).errorReached st.concrete ce
            else σ.setState sid { st with lp := lp1 }).states =
              (σ.setState sid { st with lp := lp1 }).states := by
          split
          · unfold Core.errorReached; split <;> rfl
          · rfl
        generalize hτ : (if dst.isError = true then
            (σ.setState sid { st with lp := lp1 }).errorReached st.concrete ce
            else σ.setState sid { st with lp := lp1 }) = τ at h2 hs1 hst0
        have hlen : sid < τ.states.length := by
          rw [hst0]; simpa [Core.setState] using lt_of_getElem? hst
        have hsid2 : ∀ st1, τ.states[sid]? = some st1 → st1.concrete = true → st1.mode = i ∧
          ∃ c, StConc E X0 st1 c ∧ (st1.stepIn = 0 → E.set.urgent = true ∧ c = 1) := by
          rw [hst0]; exact hsid1
        have k1 : ConcReach E X0 σ1 ∧ ∀ st1, σ1.states[sid]? = some st1 → st1.concrete = true →
            st1.mode = i ∧ ∃ c, StConc E X0 st1 c ∧ (st1.stepIn = 0 → E.set.urgent = true ∧ c = 1) := by
          simp only [addSuccessor, bind_ok, pure_ok] at hs1
          obtain ⟨⟨σ3, r⟩, h3, rfl⟩ := hs1
          rcases makeOp_shape h3 with ⟨rfl, rfl⟩ | ⟨rfl, cen, post, p1, p2, p3, p4, -, rfl⟩
          · exact ⟨h2, hsid2⟩
          · have hpost : post.concrete = true → ∃ c, StConc E X0 post c := by
              intro hc
              rw [p2] at hc
              obtain ⟨k1, k2, k3, c, k4, k5⟩ := key hc
              have k4' := k4
              obtain ⟨X, n, ⟨ρ, a1, -⟩, -, -, -, -, hb⟩ := k4' m (by rw [k1]; exact hm) he
              obtain ⟨post', c', q1, q2, q3, q4, q5, q6, q7, -⟩ := makeOp_spec hE.toBase hm he a1.repr
                (by rw [a1.n, k1]) a1.obj hl hti ht hgd hgi h3
              obtain rfl : post = post' := by
                have := congrArg (fun τ => τ.states) q2
                simpa using this
              refine ⟨0, q6.conc (by rw [q4]) hb fun y hy => ?_⟩
              obtain ⟨z, z1, z2, z3⟩ := (q7 y).1 hy
              rw [q3]
              exact k4.jump hE (by rw [k1]; exact hm) he k5 (by rw [k1]; exact hl) hti ht z1 z2
                (by rw [k1]; exact z3)
            refine ⟨⟨(h2.addOp hpost { step := 0, parent := none, child := none, trans := none, post := 0 }).st,
              h2.te, h2.conc, h2.queue, h2.rep⟩, ?_⟩
            intro st1 hst1
            have e : (τ.states ++ [post])[sid]? = some st1 := hst1
            rw [List.getElem?_append_left hlen] at e
            exact hsid2 st1 e
        rcases ttCheck_kept hs2 with rfl | ⟨st2, lp2, b, hst2, hk, rfl⟩
        · exact guardLoop_conc hE hM hm he hl ts hts' k1.1 k1.2 hg
        · refine guardLoop_conc hE hM hm he hl ts hts' (σ := _) ?_ ?_ hg
          · have := k1.1.setState (sid := sid) (st := { st2 with lp := lp2 }) fun hc => by
              obtain ⟨-, c, k, -⟩ := k1.2 st2 hst2 hc
              exact ⟨c, k.withLp hk.1 hk.2⟩
            exact ⟨this.st, this.te, this.conc, this.queue, this.rep⟩
          · intro st1 hst1 hc
            have e : (σ1.states.set sid { st2 with lp := lp2 })[sid]? = some st1 := hst1
            rw [List.getElem?_set_self (lt_of_getElem? hst2)] at e
            cases e
            obtain ⟨q1, c, k, q2⟩ := k1.2 st2 hst2 hc
            exact ⟨q1, c, k.withLp hk.1 hk.2, q2⟩

/-- The time-elapse cache does not depend on the state sets. -/
theorem ieLoop_te {d : Dyn K} (hd : d.Laws) {m : Mode K} {b : Option K} : ∀ (ks : List ℕ)
    {te te' : TE K} {s s' : Sys K} {ies l : List (Mat K)}, te.Inv d →
    ieLoop d m b te s ies ks = .ok (te', s', l) → te'.Inv d
  | [], te, te', s, s', ies, l, ht, h => by cases h; exact ht
  | k :: ks, te, te', s, s', ies, l, ht, h => by
    simp only [ieLoop, bind_ok] at h
    obtain ⟨r, hr, ie, -, s1, -, h⟩ := h
    exact ieLoop_te hd ks (getBasis_ok hd (fun u hu => by cases hu; exact ht) hr).1 h

theorem SS.step_te {d : Dyn K} (hd : d.Laws) {m : Mode K} {te te' : Option (TE K)}
    (ht : ∀ u, te = some u → u.Inv d) {st st' : SS K} {target : Option ℕ}
    (hs : st.step d m te target = .ok (te', st')) : ∀ u, te' = some u → u.Inv d := by
  unfold SS.step at hs
  simp only at hs
  split at hs
  · cases hs
  split at hs
  · cases hs; exact ht
  simp only [bind_ok, pure_ok, Prod.mk.injEq] at hs
  obtain ⟨r, hr, s1, -, q, hq, rfl, -⟩ := hs
  have h1 := (getBasis_ok hd ht hr).1
  intro u hu
  cases hu
  unfold SS.stepInputs at hq
  split at hq
  · cases hq; exact h1
  · simp only [bind_ok, pure_ok] at hq
    obtain ⟨ies, -, ⟨te2, s2, l⟩, h2, s3, -, rfl⟩ := hq
    exact ieLoop_te hd _ h1 h2

theorem SS.step_like {d : Dyn K} {m : Mode K} {te te' : Option (TE K)} {st st' : SS K}
    {target : Option ℕ} (hs : st.step d m te target = .ok (te', st')) :
    st'.mode = st.mode ∧ st'.concrete = st.concrete := by
  unfold SS.step at hs
  simp only at hs
  split at hs
  · cases hs
  split at hs
  · cases hs; exact ⟨rfl, rfl⟩
  simp only [bind_ok, pure_ok, Prod.mk.injEq] at hs
  obtain ⟨r, -, s1, -, q, -, -, rfl⟩ := hs
  exact ⟨rfl, rfl⟩

end Hylaa
