import Verif.Proofs.LggInv
import Verif.Proofs.CoreRun
import Verif.Proofs.Term5

/-!
# Runs with the LGG approximation model

Automata whose transitions all lead to error modes: while no error is reported, the run has only its
initial sets, one after the other.
-/

set_option linter.unusedSectionVars false

namespace Hylaa
open Spec

/-- What is assumed of the settings and the automaton. -/
structure LggEnv (E : Env ℝ) : Prop where
  honest : E.S.Honest
  tol : 0 < E.T.inter
  model : E.approx = .lgg
  exp : E.lgg.exp = Real.exp
  tau : 0 < E.lgg.tau
  mode : ∀ (i : ℕ) m, E.ha.modes[i]? = some m → m.isError = false → ∃ a, LggMode E.lgg m a ∧
    E.dyn i = dynOf a m.inputs E.lgg.tau ∧ (E.set.skipZero = true → a.noEntries = true → m.inputs = none)
  out : ∀ (i : ℕ) m ts, E.ha.modes[i]? = some m → m.isError = false → E.ha.out[i]? = some ts → ∀ ti ∈ ts, ∀ t,
    E.ha.trans[ti]? = some t → (∀ g, t.guard = some g → GuardOk g) ∧
      ∃ dst, E.ha.modes[t.dst]? = some dst ∧ dst.isError = true

/-- No outgoing transition of mode `i` is enabled in `x`. -/
def NoGuard (E : Env ℝ) (i : ℕ) (x : ℕ → ℝ) : Prop :=
  ∀ (ts : List ℕ) (ti : ℕ) t, E.ha.out[i]? = some ts → ti ∈ ts → E.ha.trans[ti]? = some t → ¬ GuardHolds t x

/-- No outgoing transition is enabled during step `k` of any motion from `X`. -/
def SafeAt (E : Env ℝ) (i : ℕ) (X : (ℕ → ℝ) → Prop) (k : ℕ) : Prop :=
  ∀ m a, E.ha.modes[i]? = some m → m.a = some a → ∀ Tm w u, 0 < Tm → Mot m a X Tm w u → ∀ s : ℝ,
    k * E.lgg.tau ≤ s → s ≤ (k + 1) * E.lgg.tau → s ≤ Tm → NoGuard E i (w s)

/-- The first step whose guards are checked. -/
def Env.firstStep (E : Env ℝ) : ℕ := if E.set.urgent then 0 else 1

/-- The state set being advanced. -/
structure CurOk (E : Env ℝ) (X : (ℕ → ℝ) → Prop) (te : Option (TE ℝ)) (n : ℕ) (st : SS ℝ) : Prop where
  cov : ∃ m a, E.ha.modes[st.mode]? = some m ∧ m.isError = false ∧ LggMode E.lgg m a ∧
    E.dyn st.mode = dynOf a m.inputs E.lgg.tau ∧ LggCov E.lgg m a X E.T.inter n te st
  steps : st.steps.1 = st.stepIn

/-- A state set waiting. -/
def WaitOk (E : Env ℝ) (X : (ℕ → ℝ) → Prop) (st : SS ℝ) : Prop :=
  ∀ m, E.ha.modes[st.mode]? = some m → m.isError = false →
    LggFresh (E.dyn st.mode) m X st ∧ st.Within E.T m ∧ st.steps.1 = 0

/-- A state set that was computed to the end. -/
def DoneOk (E : Env ℝ) (X : (ℕ → ℝ) → Prop) (i : ℕ) : Prop :=
  ∀ m, E.ha.modes[i]? = some m → m.isError = false → ∀ k, E.firstStep ≤ k → k ≤ E.set.numSteps → SafeAt E i X k

/-- The run, while no error was reported; `G j`: the initial states of state set `j`. -/
structure LggRunInv (E : Env ℝ) (G : ℕ → (ℕ → ℝ) → Prop) (M : List ℕ) (σ : Core ℝ) : Prop where
  queue : σ.queue = []
  rep : σ.rep = none
  tookTt : σ.tookTt = false
  modes : σ.states.map (fun s => s.mode) = M
  ops : ∀ (o : ℕ) op, σ.ops[o]? = some op → op.parent = none ∧ op.post = o
  te : ∀ (i : ℕ) m a, E.ha.modes[i]? = some m → m.isError = false → m.a = some a → LggIdle E.lgg m a (σ.te i)
  wait : ∀ j ∈ σ.waiting, ∀ st, σ.states[j]? = some st → WaitOk E (G j) st
  cur : ∀ c, σ.curState = some c → c.2 ∉ σ.waiting ∧ ∃ st, σ.states[c.2]? = some st ∧
    CurOk E (G c.2) (σ.te st.mode) st.stepIn st ∧
    ∀ k, E.firstStep ≤ k → k ≤ st.stepIn → SafeAt E st.mode (G c.2) k
  done : ∀ (j : ℕ) st, σ.states[j]? = some st → j ∉ σ.waiting → (∀ c, σ.curState = some c → c.2 ≠ j) →
    DoneOk E (G j) st.mode

variable {E : Env ℝ} {G : ℕ → (ℕ → ℝ) → Prop} {M : List ℕ}

theorem LggCov.wf {c : LggCfg ℝ} {m : Mode ℝ} {a : Csr ℝ} {X : (ℕ → ℝ) → Prop} {ε : ℝ} {n : ℕ} {te : Option (TE ℝ)}
    {st : SS ℝ} (h : LggCov c m a X ε n te st) : st.lp.WF ∧ st.lp.dims = a.nrows := by
  by_cases hx : LggExact c m a
  · obtain ⟨rv, Y, -, -, -, ⟨⟨ρ, hρ, -⟩, -⟩, -⟩ := h.exact hx
    exact ⟨hρ.repr.wf, hρ.repr.n.trans hρ.n⟩
  · obtain ⟨inp, bt, rv, Y, -, -, -, -, hok, -⟩ := h.wide hx
    obtain ⟨ρ, h1, h2, -⟩ := hok.set
    exact ⟨h1.wf, h1.n.trans h2⟩

/-- **The guard check**, if no error was reported. -/
theorem guardLoop_lgg (hE : LggEnv E) {nid sid : ℕ} : ∀ (ts : List ℕ) {σ σ' : Core ℝ} {st : SS ℝ},
    (∀ ti ∈ ts, ∀ t, E.ha.trans[ti]? = some t → (∀ g, t.guard = some g → GuardOk g) ∧
      ∃ dst, E.ha.modes[t.dst]? = some dst ∧ dst.isError = true) →
    σ.states[sid]? = some st → st.lp.ObjInv → st.lp.WF → guardLoop E nid sid σ ts = .ok σ' →
    σ'.hasAgg = false → σ'.hasConc = false →
    ∃ lp, lp.toSys = st.lp.toSys ∧ lp.ObjInv ∧ σ' = σ.setState sid { st with lp := lp } ∧
      ∀ ti ∈ ts, ∀ t, E.ha.trans[ti]? = some t → ∀ x, st.lp.Mem x → ¬ GuardHolds t x
  | [], σ, σ', st, _, hst, ho, _, h, _, _ => by
    cases h
    refine ⟨st.lp, rfl, ho, ?_, by simp⟩
    unfold Core.setState
    rw [show σ.states.set sid st = σ.states from List.ext_getElem? fun k => by
      rw [List.getElem?_set]
      split
      · rename_i hk; subst hk
        rw [hst]; simp [lt_of_getElem? hst]
      · rfl]
  | ti :: ts, σ, σ', st, hts, hst, ho, hw, h, ha, hc => by
    simp only [guardLoop, bind_ok, needSome_ok] at h
    obtain ⟨st', hst', t, ht, g, hg, ⟨lp1, ans⟩, hgi, h⟩ := h
    rw [hst] at hst'; cases hst'
    obtain ⟨hgok, dst, hdst, herr⟩ := hts ti (by simp) t ht
    obtain ⟨g1, g2, g3, -⟩ := guardIntersection_spec hE.honest ho hw (hgok g hg) hgi
    cases ans with
    | none =>
      simp only at h
      have hst1 : (σ.setState sid { st with lp := lp1 }).states[sid]? = some { st with lp := lp1 } := by
        simp [Core.setState, lt_of_getElem? hst]
      obtain ⟨lp, e1, e2, rfl, e4⟩ := guardLoop_lgg hE ts (fun ti hti => hts ti (by simp [hti])) hst1 g2
        (by simp only; rw [g1]; exact hw) h ha hc
      refine ⟨lp, e1.trans g1, e2, ?_, fun ti' hti' t' ht' x hx => ?_⟩
      · simp only [Core.setState, List.set_set]
      · rcases List.mem_cons.1 hti' with rfl | hti'
        · rw [ht] at ht'; cases ht'
          rintro ⟨g', hg', hle⟩
          rw [hg] at hg'; cases hg'
          exact g3 rfl x hx hle
        · exact e4 ti' hti' t' ht' x (by simpa only [g1] using hx)
    | some tlp =>
      simp only [bind_ok, needSome_ok] at h
      obtain ⟨dst', hdst', ce, -, h⟩ := h
      rw [hdst] at hdst'; cases hdst'
      rw [herr] at h
      simp only [if_true, Bool.true_and] at h
      have hle : FlagLe ((σ.setState sid { st with lp := lp1 }).errorReached st.concrete ce) σ' := by
        split at h
        · cases h; exact .refl _
        · simp only [bind_ok] at h
          obtain ⟨σ2, h2, σ3, h3, h⟩ := h
          exact ((addSuccessor_le h2).trans (ttCheck_le h3)).trans (guardLoop_le ts h)
      exfalso
      unfold Core.errorReached at hle
      cases hcon : st.concrete <;> simp only [hcon, if_true, Bool.false_eq_true, if_false] at hle
      · have := hle.2 rfl; rw [ha] at this; cases this
      · have := hle.1 rfl; rw [hc] at this; cases this

/-- **`check_guards`**, if no error was reported. -/
theorem checkGuards_lgg (hE : LggEnv E) {σ σ' : Core ℝ} {c : ℕ × ℕ} (hc : σ.curState = some c) {st : SS ℝ}
    (hst : σ.states[c.2]? = some st) {X : (ℕ → ℝ) → Prop} {te : Option (TE ℝ)} {n : ℕ} (hn : n ≤ st.stepIn) (hcur : CurOk E X te n st)
    (h : checkGuards E σ = .ok σ') (ha : σ'.hasAgg = false) (hc' : σ'.hasConc = false) :
    ∃ st', σ' = σ.setState c.2 st' ∧ st'.mode = st.mode ∧ st'.stepIn = st.stepIn ∧ CurOk E X te n st' ∧
      SafeAt E st.mode X st.stepIn ∧ ∀ x, st'.lp.Mem x → NoGuard E st.mode x := by
  simp only [checkGuards, bind_ok, needSome_ok] at h
  obtain ⟨c', hc1, st1, hst1, ts, hts, h⟩ := h
  rw [hc] at hc1; cases hc1
  rw [hst] at hst1; cases hst1
  obtain ⟨⟨m, a, hm, herr, hmode, hdyn, hcov⟩, hsteps⟩ := hcur
  obtain ⟨lp, e1, e2, rfl, e4⟩ := guardLoop_lgg hE ts (hE.out _ m ts hm herr hts) hst hcov.obj hcov.wf.1 h ha hc'
  have hno : ∀ x, st.lp.Mem x → NoGuard E st.mode x := by
    intro x hx ts' ti t h1 h2 h3
    rw [hts] at h1; cases h1
    exact e4 ti h2 t h3 x hx
  refine ⟨_, rfl, rfl, rfl, ⟨⟨m, a, hm, herr, hmode, hdyn, hcov.setLp e1 e2⟩, hsteps⟩, ?_, fun x hx => hno x ?_⟩
  · intro m' a' hm' ha' Tm w u hT hw s hs1 hs2 hs3
    rw [hm] at hm'; cases hm'
    rw [hmode.real.dyns] at ha'; cases ha'
    exact hno _ (hcov.mem hE.exp hE.tau hmode hw hs1 hs2 hs3 hn)
  · simpa only [e1] using hx

/-- State set `o` - the current one, or the next one if there is none - was replaced; it is now current, or
its mode was left. -/
theorem LggRunInv.change {σ σ' : Core ℝ} (h : LggRunInv E G M σ) {o : ℕ} {st st' : SS ℝ}
    (hst : σ.states[o]? = some st) (hcur : ∀ c, σ.curState = some c → c.2 = o) (hmode : st'.mode = st.mode)
    (h1 : σ'.states = σ.states.set o st')
    (h2 : ∀ (o : ℕ) op, σ'.ops[o]? = some op → op.parent = none ∧ op.post = o)
    (h3 : ∀ j, j ∈ σ'.waiting ↔ j ∈ σ.waiting ∧ j ≠ o)
    (h4 : σ'.queue = σ.queue) (h5 : σ'.rep = σ.rep) (h6 : σ'.tookTt = false)
    (h7 : ∀ i, i ≠ st.mode → σ'.te i = σ.te i)
    (h8 : ∀ m a, E.ha.modes[st.mode]? = some m → m.isError = false → m.a = some a →
      LggIdle E.lgg m a (σ'.te st.mode))
    (h9 : (∃ ν, σ'.curState = some (ν, o) ∧ CurOk E (G o) (σ'.te st.mode) st'.stepIn st' ∧
        ∀ k, E.firstStep ≤ k → k ≤ st'.stepIn → SafeAt E st.mode (G o) k) ∨
      (σ'.curState = none ∧ DoneOk E (G o) st.mode)) : LggRunInv E G M σ' := by
  have hlt := lt_of_getElem? hst
  refine ⟨h4.trans h.queue, h5.trans h.rep, h6, ?_, h2, ?_, ?_, ?_, ?_⟩
  · rw [h1, ← h.modes]
    apply List.ext_getElem?
    intro k
    simp only [List.getElem?_map, List.getElem?_set]
    split
    · rename_i hk; subst hk
      rw [hst]; simp [hlt, hmode]
    · rfl
  · intro i m a hm he ha
    by_cases hi : i = st.mode
    · subst hi; exact h8 m a hm he ha
    · rw [h7 i hi]; exact h.te i m a hm he ha
  · intro j hj s hs
    obtain ⟨hj1, hj2⟩ := (h3 j).1 hj
    rw [h1, List.getElem?_set_ne (Ne.symm hj2)] at hs
    exact h.wait j hj1 s hs
  · intro c' hc'
    rcases h9 with ⟨ν, g1, g2, g3⟩ | ⟨g1, -⟩
    · rw [g1] at hc'; cases hc'
      refine ⟨fun hh => ((h3 o).1 hh).2 rfl, st', by rw [h1]; simp [hlt], ?_, ?_⟩
      · rw [hmode]; exact g2
      · rw [hmode]; exact g3
    · rw [g1] at hc'; cases hc'
  · intro j s hs hj hcc
    by_cases hjc : j = o
    · subst hjc
      rcases h9 with ⟨ν, g1, -⟩ | ⟨-, g2⟩
      · exact absurd rfl (hcc _ g1)
      · rw [h1] at hs
        simp only [List.getElem?_set_self hlt, Option.some.injEq] at hs
        rw [← hs, hmode]; exact g2
    · rw [h1, List.getElem?_set_ne (Ne.symm hjc)] at hs
      exact h.done j s hs (fun hw => hj ((h3 j).2 ⟨hw, hjc⟩)) fun c' hc' e => hjc (e.symm.trans (hcur c' hc'))

/-! ### Zero dynamics -/

theorem noEntries_aMat {a : Csr ℝ} (h : a.noEntries = true) : aMat a = 0 := by
  have hrow : ∀ i, a.row i = [] := by
    intro i
    unfold Csr.row
    cases hq : a.rows[i]? with
    | none => simp [List.getD, hq]
    | some r =>
      simp only [Csr.noEntries, List.all_eq_true] at h
      have := h r (List.mem_of_getElem? hq)
      simp [List.getD, hq] at this ⊢
      exact this
  funext i j
  simp [aMat, hrow, coefAt]

/-- Nothing moves. -/
theorem Mot.constant {m : Mode ℝ} {a : Csr ℝ} {τ : ℝ} (hτ : 0 < τ) (hma : ModeReal m a) (hi : m.inputs = none)
    (hz : a.noEntries = true) {X : (ℕ → ℝ) → Prop} {Tm : ℝ} {w u : ℝ → ℕ → ℝ} (hw : Mot m a X Tm w u) {s : ℝ}
    (hs : 0 ≤ s) : ∀ (k : ℕ), s + k * τ ≤ Tm → ∀ i < a.nrows, w (s + k * τ) i = w s i
  | 0, _, i, _ => by simp
  | k + 1, hk, i, hin => by
    push_cast at hk
    have e : s + ((k : ℝ) + 1) * τ = s + k * τ + τ := by ring
    rw [e] at hk
    obtain ⟨v, -, hstep⟩ := exact_step hma hτ le_rfl (R := 0) (fun u _ i _ => by simp [inputAt, hi]) (.inl hi) hw.moves
      (s := s + k * τ) (by positivity) hk
    have := hstep i hin
    push_cast
    rw [e, this, ← hw.constant hτ hma hi hz hs k (by linarith) i hin]
    rw [show (dynOf a m.inputs τ).dims = a.nrows from rfl, mulV_ex m a τ _ hin]
    simp [noEntries_aMat hz, inputPart, dynOf, hi]

/-! ### Continuous steps -/

theorem pushAll_core (ν s : ℕ) : ∀ (qs : List (ℕ × Bool)) (σ : Core ℝ),
    ∃ nodes, qs.foldl (fun σ q => σ.pushOp ν (.inv s q.1 q.2)) σ = { σ with nodes := nodes }
  | [], σ => ⟨σ.nodes, rfl⟩
  | q :: qs, σ => by
    rw [List.foldl_cons]
    obtain ⟨nodes, h⟩ := pushAll_core ν s qs (σ.pushOp ν (.inv s q.1 q.2))
    exact ⟨nodes, h⟩

/-- Intersecting the current state set with the invariant. -/
theorem intersectCur_core {σ σ1 : Core ℝ} {f : Bool} {c : ℕ × ℕ} (hc : σ.curState = some c) {st : SS ℝ}
    (hst : σ.states[c.2]? = some st) (h : intersectCur E σ = .ok (σ1, f)) :
    ∃ m st1 qs nodes, E.ha.modes[st.mode]? = some m ∧ st.intersectInvariant E.S E.T m = .ok (st1, f, qs) ∧
      σ1 = { σ.setState c.2 st1 with nodes := nodes } ∧ σ1.curState = some c := by
  simp only [intersectCur, bind_ok, needSome_ok, pure_ok, Prod.mk.injEq] at h
  obtain ⟨c', hc', st', hst', m, hm, ⟨st1, f', qs⟩, hi, rfl, rfl⟩ := h
  rw [hc] at hc'; cases hc'
  rw [hst] at hst'; cases hst'
  obtain ⟨nodes, hn⟩ := pushAll_core c.1 st.stepIn qs (σ.setState c.2 st1)
  obtain ⟨k1, nd, k2, k3, k4⟩ := curState_inv hc
  obtain ⟨l, p1, p2⟩ := pushAll_nodes c.1 st.stepIn qs (σ.setState c.2 st1) (nd := nd) k2
  refine ⟨m, st1, qs, nodes, hm, hi, hn, ?_⟩
  simp only [hn] at p1 ⊢
  unfold Core.curState
  simp only [Core.setState, k1]
  rw [p1]
  have hl := left_append k4 p2
  simp only
  rw [hl, k3]
  simp

theorem leftInvariant_core {σ σ' : Core ℝ} {b : Bool} (h : σ.leftInvariant b = .ok σ') :
    ∃ nodes, σ' = { σ with nodes := nodes, cur := none } := by
  simp only [Core.leftInvariant, bind_ok, needSome_ok, pure_ok] at h
  obtain ⟨c, -, st, -, rfl⟩ := h
  exact ⟨_, rfl⟩

theorem curState_noCur {σ : Core ℝ} (h : σ.cur = none) : σ.curState = none := by
  unfold Core.curState; rw [h]

theorem curState_congr {σ σ' : Core ℝ} (h : σ'.cur = σ.cur) (h' : σ'.nodes = σ.nodes) : σ'.curState = σ.curState := by
  unfold Core.curState; rw [h, h']

/-- **A continuous step.** -/
theorem stepPost_lgg (hE : LggEnv E) {σ σ' : Core ℝ} (h : LggRunInv E G M σ) (hs : stepPost E σ = .ok σ')
    (ha : σ'.hasAgg = false) (hc : σ'.hasConc = false) : LggRunInv E G M σ' := by
  simp only [stepPost, bind_ok, needSome_ok] at hs
  obtain ⟨c, hcur, st, hst, hs⟩ := hs
  obtain ⟨hnw, st0, hst0, hok, hsafe⟩ := h.cur c hcur
  rw [hst] at hst0; cases hst0
  obtain ⟨⟨m, a, hm, herr, hmode, hdyn, hcov⟩, hsteps⟩ := hok
  have honly : ∀ c', σ.curState = some c' → c'.2 = c.2 := fun c' hc' => by rw [hcur] at hc'; cases hc'; rfl
  have hset : σ.states = σ.states.set c.2 st := List.ext_getElem? fun k => by
    rw [List.getElem?_set]
    split
    · rename_i hk; subst hk
      rw [hst]; simp [lt_of_getElem? hst]
    · rfl
  have hwait : ∀ j, j ∈ σ.waiting ↔ j ∈ σ.waiting ∧ j ≠ c.2 := fun j => 
    ⟨fun hj => ⟨hj, fun e => hnw (e ▸ hj)⟩, fun hj => hj.1⟩
  split at hs
  · cases hs; exact h
  split at hs
  · rename_i hN
    obtain ⟨nodes, rfl⟩ := leftInvariant_core hs
    refine h.change hst honly rfl hset h.ops hwait rfl rfl h.tookTt (fun _ _ => rfl)
      (fun m a hm he ha => h.te _ m a hm he ha) (.inr ⟨curState_noCur rfl, fun m' _ _ k hk1 hk2 => ?_⟩)
    exact hsafe k hk1 (by omega)
  split at hs
  · rename_i htt; rw [h.tookTt] at htt; cases htt
  simp only [bind_ok, needSome_ok] at hs
  obtain ⟨⟨σ1, f⟩, hint, hs⟩ := hs
  obtain ⟨m', st1, qs, nodes, hm', hii, hσ1, hcur1⟩ := intersectCur_core hcur hst hint
  rw [hm] at hm'; cases hm'
  obtain ⟨cov1, e1, hout⟩ := hcov.intersect hE.honest hE.tol.le hE.tau hmode (by omega) hii
  have hmode1 : st1.mode = st.mode := by rw [e1]
  have hk1 : st1.stepIn = st.stepIn := by rw [e1]
  have hsteps1 : st1.steps = st.steps := by rw [e1]
  simp only at hs
  split at hs
  · -- infeasible
    rename_i hf
    obtain ⟨nodes', rfl⟩ := leftInvariant_core hs
    refine h.change (st' := st1) hst honly hmode1 (by rw [hσ1]; rfl) (by rw [hσ1]; exact h.ops) (by rw [hσ1]; exact hwait)
      (by rw [hσ1]; rfl) (by rw [hσ1]; rfl) (by rw [hσ1]; exact h.tookTt) (fun i _ => by rw [hσ1]; rfl)
      (fun m a hm he ha => by rw [hσ1]; exact h.te _ m a hm he ha)
      (.inr ⟨curState_noCur rfl, fun m' _ _ k hk1 hk2 => ?_⟩)
    by_cases hk : k ≤ st.stepIn
    · exact hsafe k hk1 hk
    · intro m2 a2 hm2 ha2 Tm w u hT hw s hs1 _ hs3
      rw [hm] at hm2; cases hm2
      rw [hmode.real.dyns] at ha2; cases ha2
      refine absurd ?_ (hout hf Tm w u hw)
      have : ((st.stepIn : ℝ) + 1) * E.lgg.tau ≤ k * E.lgg.tau := by
        have : ((st.stepIn : ℝ) + 1) ≤ k := by exact_mod_cast (by omega : st.stepIn + 1 ≤ k)
        exact mul_le_mul_of_nonneg_right this hE.tau.le
      linarith
  · simp only [stepState, bind_ok, needSome_ok, pure_ok] at hs
    obtain ⟨σ2, ⟨st1', hst1', m1, hm1, ⟨te2, st2⟩, hstep, rfl⟩, σ3, hg, m2, hm2, a2, ha2, hs⟩ := hs
    have hlt := lt_of_getElem? hst
    have hst1 : σ1.states[c.2]? = some st1 := by rw [hσ1]; simp [Core.setState, hlt]
    rw [hst1] at hst1'; cases hst1'
    rw [hmode1, hm] at hm1; cases hm1
    rw [hm] at hm2; cases hm2
    rw [hmode.real.dyns] at ha2; cases ha2
    have hte1 : σ1.te = σ.te := by rw [hσ1]; rfl
    rw [hmode1, hdyn, hte1] at hstep
    obtain ⟨cov2, hk2⟩ := cov1.step hmode hstep
    obtain ⟨like2, -⟩ := step_like hstep
    have hmode2 : st2.mode = st.mode := by rw [like2]; exact hmode1
    have hsteps2 : st2.steps.1 = st2.stepIn := by
      rw [hk2, like2]; simp only [Option.getD_none, hsteps1, hsteps, hk1]; omega
    set σ2 : Core ℝ := { σ1.setState c.2 st2 with te := Function.update σ1.te st1.mode te2 } with hσ2
    have hcur2 : σ2.curState = some c := hcur1 ▸ curState_congr rfl rfl
    have hst2 : σ2.states[c.2]? = some st2 := by
      simp [hσ2, Core.setState, hσ1, hlt]
    have hcurOk : CurOk E (G c.2) te2 (st.stepIn + 1) st2 :=
      ⟨⟨m, a, by rw [hmode2]; exact hm, herr, hmode, by rw [hmode2]; exact hdyn, cov2⟩, hsteps2⟩
    have hflags : σ3.hasAgg = false ∧ σ3.hasConc = false := by
      split at hs
      · obtain ⟨_, rfl⟩ := leftInvariant_core hs; exact ⟨ha, hc⟩
      · cases hs; exact ⟨ha, hc⟩
    have hk2' : st2.stepIn = st.stepIn + 1 := by rw [hk2, hk1]
    obtain ⟨st3, hσ3, q1, q2, q3, q4, q5⟩ := checkGuards_lgg hE hcur2 hst2 (by omega) hcurOk hg hflags.1 hflags.2
    have hst3 : σ3.states = σ.states.set c.2 st3 := by
      rw [hσ3, hσ2, hσ1]; simp [Core.setState, List.set_set]
    have hcur3 : σ3.curState = some c := by rw [hσ3]; exact (curState_congr rfl rfl).trans hcur2
    have hte3 : σ3.te = Function.update σ.te st.mode te2 := by rw [hσ3, hσ2, hmode1, ← hte1]; rfl
    have hmode3 : st3.mode = st.mode := q1.trans hmode2
    rw [hk2', hmode2] at q4
    rw [hmode2] at q5
    have hsafe3 : ∀ k, E.firstStep ≤ k → k ≤ st3.stepIn → SafeAt E st.mode (G c.2) k := by
      intro k hk1' hk2''
      by_cases hk : k ≤ st.stepIn
      · exact hsafe k hk1' hk
      · rw [show k = st.stepIn + 1 by omega]; exact q4
    have hcur3' : CurOk E (G c.2) (σ3.te st.mode) st3.stepIn st3 := by
      rw [hte3, Function.update_self, q2, hk2']; exact q3
    have hidle : ∀ m' a', E.ha.modes[st.mode]? = some m' → m'.isError = false → m'.a = some a' →
        LggIdle E.lgg m' a' (σ3.te st.mode) := by
      intro m' a' hm' _ ha'
      rw [hm] at hm'; cases hm'
      rw [hmode.real.dyns] at ha'; cases ha'
      rw [hte3, Function.update_self]; exact cov2.idle
    have f2 : σ3.ops = σ.ops := by rw [hσ3, hσ2, hσ1]; rfl
    have f3 : σ3.waiting = σ.waiting := by rw [hσ3, hσ2, hσ1]; rfl
    have f4 : σ3.queue = σ.queue := by rw [hσ3, hσ2, hσ1]; rfl
    have f5 : σ3.rep = σ.rep := by rw [hσ3, hσ2, hσ1]; rfl
    have f6 : σ3.tookTt = σ.tookTt := by rw [hσ3, hσ2, hσ1]; rfl
    split at hs
    · rename_i hz
      simp only [Bool.and_eq_true] at hz
      obtain ⟨nodes', rfl⟩ := leftInvariant_core hs
      refine h.change (st' := st3) hst honly hmode3 hst3 (by simp only [f2]; exact h.ops) (by simp only [f3]; exact hwait)
        f4 f5 (f6.trans h.tookTt) (fun i hi => by simp only [hte3]; exact Function.update_of_ne hi _ _) hidle
        (.inr ⟨curState_noCur rfl, fun m' _ _ k hk1' _ => ?_⟩)
      by_cases hk : k ≤ st3.stepIn
      · exact hsafe3 k hk1' hk
      · intro m2 a2 hm2 ha2 Tm w u hT hw s hs1 hs2 hs3
        rw [hm] at hm2; cases hm2
        rw [hmode.real.dyns] at ha2; cases ha2
        refine q5 _ ?_
        obtain ⟨⟨m4, a4, hm4, -, hmode4, -, cov4⟩, -⟩ := q3
        rw [hmode3, hm] at hm4; cases hm4
        have := hmode4.real.dyns; rw [hmode.real.dyns] at this; cases this
        obtain ⟨a', -, -, hnoinp⟩ := hE.mode _ m hm herr
        have hni : m.inputs = none := by
          obtain ⟨a', g1, -, g3⟩ := hE.mode _ m hm herr
          have := g1.real.dyns; rw [hmode.real.dyns] at this; cases this
          exact g3 hz.2 hz.1
        -- the state `k - stepIn` steps before
        set j := k - st3.stepIn with hj
        have hkj : (k : ℝ) = st3.stepIn + j := by
          have : k = st3.stepIn + j := by omega
          exact_mod_cast this
        have hkt : 0 ≤ (st3.stepIn : ℝ) * E.lgg.tau := mul_nonneg (Nat.cast_nonneg _) hE.tau.le
        have hjt : 0 ≤ (j : ℝ) * E.lgg.tau := mul_nonneg (Nat.cast_nonneg _) hE.tau.le
        rw [hkj] at hs1 hs2
        have e0 : s - j * E.lgg.tau + j * E.lgg.tau = s := by ring
        have hmem := cov4.mem hE.exp hE.tau hmode hw (t := s - j * E.lgg.tau) (by linarith) (by linarith) (by linarith)
          (by omega)
        have hconst := hw.constant hE.tau hmode.real hni hz.1 (s := s - j * E.lgg.tau) (by linarith) j (by linarith)
        rw [e0] at hconst
        obtain ⟨v, hv, hvx⟩ := hmem
        refine ⟨v, hv, fun i hi => ?_⟩
        rw [hvx i hi]
        exact (hconst i (by rw [← cov4.wf.2]; exact hi)).symm
    · cases hs
      exact h.change (st' := st3) hst honly hmode3 hst3 (by rw [f2]; exact h.ops) (by rw [f3]; exact hwait)
        f4 f5 (f6.trans h.tookTt) (fun i hi => by rw [hte3]; exact Function.update_of_ne hi _ _) hidle
        (.inl ⟨c.1, hcur3, hcur3', hsafe3⟩)

/-! ### Taking a set from the waiting list -/

theorem deaggScan_roots {σ : Core ℝ} (h : ∀ (o : ℕ) op, σ.ops[o]? = some op → op.parent = none) : ∀ (ws : List ℕ)
    {rv : Option ℕ}, deaggScan E σ ws [] none = .ok rv → rv = none
  | [], rv, hs => by cases hs; rfl
  | o :: ws, rv, hs => by
    simp only [deaggScan, bind_ok, needSome_ok] at hs
    obtain ⟨op, ho, st, hst, hs⟩ := hs
    split at hs
    · exact deaggScan_roots h ws hs
    · simp only [bind_ok, needSome_ok, List.lookup_nil] at hs
      obtain ⟨m, -, p, hp, -⟩ := hs
      rw [h o op ho] at hp; cases hp

theorem getDeaggNode_roots {σ : Core ℝ} (h : ∀ (o : ℕ) op, σ.ops[o]? = some op → op.parent = none) {d : Option ℕ}
    (hd : getDeaggNode E σ = .ok d) : d = none := by
  unfold getDeaggNode at hd
  split at hd
  · cases hd; rfl
  split at hd
  · simp only [bind_ok] at hd
    obtain ⟨rv, h1, hd⟩ := hd
    rw [deaggScan_roots h _ h1] at hd
    cases hd; rfl
  · cases hd; rfl

/-- One initial set is taken. -/
theorem popWaiting_lgg {σ σ' : Core ℝ} (h : LggRunInv E G M σ) (hs : popWaiting E σ = .ok σ') :
    ∃ o ν st, o ∈ σ.waiting ∧ σ.states[o]? = some st ∧ σ'.curState = some (ν, o) ∧
      σ'.states = σ.states.set o { st with aggstr := some "full" } ∧
      (∀ j, j ∈ σ'.waiting ↔ j ∈ σ.waiting ∧ j ≠ o) ∧
      (∀ (o : ℕ) op, σ'.ops[o]? = some op → op.parent = none ∧ op.post = o) ∧
      σ'.queue = σ.queue ∧ σ'.rep = σ.rep ∧ σ'.tookTt = σ.tookTt ∧ σ'.te = σ.te := by
  simp only [popWaiting, bind_ok, assert_ok, pure_ok] at hs
  obtain ⟨items, hitems, l1, hl1, l, hl, _, -, at_, -, ⟨σ1, ν⟩, hmk, rfl⟩ := hs
  obtain ⟨o1, o2⟩ := waitItems_oids hitems
  obtain ⟨s1, -, -, -⟩ := stratPop_spec hl1
  obtain ⟨r1, r2, r3⟩ := restrictPop_spec hl
  have hsub : l.Sublist items := r1.trans s1
  have hitem : ∀ w ∈ l, waitItem E σ w.oid = .ok w := fun w hw => o2 w (hsub.subset hw)
  obtain ⟨w, rfl⟩ : ∃ w, l = [w] := by
    match l, r2 with
    | [w], _ => exact ⟨w, rfl⟩
    | w :: w' :: l, _ =>
      refine absurd ?_ (r3 (by simp) w (by simp))
      exact (h.ops _ _ (waitItem_ok (hitem w (by simp))).2.1).1
  obtain ⟨-, w1, w2, -⟩ := waitItem_ok (hitem w (by simp))
  obtain ⟨w3, w4⟩ := h.ops _ _ w1
  have hmem : w.oid ∈ σ.waiting := by
    rw [← o1]; exact List.mem_map_of_mem (hsub.subset (by simp))
  rw [w4] at w2
  simp only [makeNode, List.map_cons, List.map_nil, List.mapM_cons, List.mapM_nil, bind_ok, needSome_ok, pure_ok,
    Prod.mk.injEq] at hmk
  obtain ⟨os, ⟨op, hop, bs, rfl, rfl⟩, sts, hsts, r, hr, st', hst', rfl, rfl⟩ := hmk
  rw [w1] at hop; cases hop
  clear hsts
  simp only [nodeState, Except.ok.injEq] at hr
  subst hr
  simp only [w4] at hst'
  rw [w2] at hst'; cases hst'
  refine ⟨w.oid, σ.nodes.length, w.st, hmem, w2, ?_, by simp [Core.setState, w4], fun j => ?_, fun o op ho => ?_, rfl,
    rfl, rfl, rfl⟩
  · simp [Core.curState, Core.setState, w4, Node.left]
  · simp [Core.setState, List.mem_filter]
  · simp only [Core.setState, List.foldl_cons, List.foldl_nil, List.getElem?_modify] at ho
    cases hq : σ.ops[o]? with
    | none => rw [hq] at ho; cases ho
    | some op' =>
      rw [hq] at ho
      simp only [Option.map_eq_map, Option.map_some, Option.some.injEq] at ho
      have := h.ops o op' hq
      subst ho
      split <;> exact this

/-- **Taking a set from the waiting list and applying the model.** -/
theorem stepPop_lgg (hE : LggEnv E) {σ σ1 σ' : Core ℝ} (h : LggRunInv E G M σ) (hnc : σ.curState = none)
    (hs : stepPop E σ = .ok σ1)
    (hg : (if E.set.urgent && σ1.curState.isSome then checkGuards E σ1 else .ok σ1) = .ok σ')
    (ha : σ'.hasAgg = false) (hc : σ'.hasConc = false) : LggRunInv E G M σ' := by
  simp only [stepPop, bind_ok, needSome_ok] at hs
  obtain ⟨σ2, hpop, c, hcur, st2, hst2, m, hm, hs⟩ := hs
  obtain ⟨o, ν, st, hw, hst, p1, p2, p3, p4, p5, p6, p7, p8⟩ := popWaiting_lgg h hpop
  rw [p1] at hcur; cases hcur
  have hlt := lt_of_getElem? hst
  rw [p2] at hst2
  simp only [List.getElem?_set_self hlt, Option.some.injEq] at hst2
  subst hst2
  have honly : ∀ c', σ.curState = some c' → c'.2 = o := fun c' hc' => by rw [hnc] at hc'; cases hc'
  simp only at hm
  split at hs
  · -- an error mode
    rename_i herr
    obtain ⟨nodes, rfl⟩ := leftInvariant_core hs
    rw [curState_noCur rfl] at hg
    simp only [Option.isSome_none, Bool.and_false, Bool.false_eq_true, if_false, Except.ok.injEq] at hg
    subst hg
    exact h.change (st' := { st with aggstr := some "full" }) hst honly rfl p2 p4 p3 p5 p6 (p7.trans h.tookTt)
      (fun i _ => by simp only [p8]) (fun m a hm he ha => by simp only [p8]; exact h.te _ m a hm he ha)
      (.inr ⟨curState_noCur rfl, fun m' hm' he' => by rw [hm] at hm'; cases hm'; rw [herr] at he'; cases he'⟩)
  · rename_i herr
    simp only [Bool.not_eq_true] at herr
    simp only [bind_ok] at hs
    obtain ⟨⟨σ3, f⟩, hint, hs⟩ := hs
    have hst2 : σ2.states[o]? = some { st with aggstr := some "full" } := by rw [p2]; simp [hlt]
    obtain ⟨m', st3, qs, nodes, hm', hii, hσ3, hcur3⟩ := intersectCur_core p1 hst2 hint
    simp only [hm, Option.some.injEq] at hm'
    subst hm'
    obtain ⟨a, hmode, hdyn, -⟩ := hE.mode _ m hm herr
    obtain ⟨hfresh, hwithin, hzero⟩ := h.wait o hw st hst m hm herr
    have hfor : (E.dyn st.mode).For m := by rw [hdyn]; exact hmode.real.dyn _
    obtain ⟨rfl, -, hf3, e3⟩ := (hfresh.aggstr (some "full")).pop hE.honest hfor
      (st := { st with aggstr := some "full" }) hwithin hii
    simp only [if_true, approxCur, bind_ok, needSome_ok, pure_ok] at hs
    obtain ⟨c4, hc4, st4, hst4, m4, hm4, ⟨te5, st5⟩, hap, rfl⟩ := hs
    rw [hcur3] at hc4; cases hc4
    have hst3 : σ3.states[o]? = some st3 := by rw [hσ3]; simp [Core.setState, p2, hlt]
    rw [hst3] at hst4; cases hst4
    have hmode3 : st3.mode = st.mode := by rw [e3]
    have hsteps3 : st3.steps = st.steps := by rw [e3]
    rw [hmode3, hm] at hm4; cases hm4
    have hte3 : σ3.te = σ.te := by rw [hσ3]; exact p8
    rw [hmode3, hdyn, hte3, hE.model] at hap
    rw [hdyn] at hf3
    obtain ⟨h0, lp5, β5, e5⟩ := applyApprox_like hap
    have cov := hf3.approx hE.honest hE.exp hE.tau hmode (h.te _ m a hm herr hmode.real.dyns) E.T.inter hap
    have hmode5 : st5.mode = st.mode := by rw [e5]; exact hmode3
    have hk5 : st5.stepIn = 0 := by rw [e5]; exact h0
    have hsteps5 : st5.steps.1 = st5.stepIn := by
      rw [hk5, e5]; simp only [hsteps3]; exact hzero
    have hok5 : CurOk E (G o) te5 0 st5 :=
      ⟨⟨m, a, by rw [hmode5]; exact hm, herr, hmode, by rw [hmode5]; exact hdyn, cov⟩, hsteps5⟩
    set σ5 : Core ℝ := { σ3.setState o st5 with te := Function.update σ3.te st3.mode te5 } with hσ5
    have hcur5 : σ5.curState = some (ν, o) := hcur3 ▸ curState_congr rfl rfl
    have hst5 : σ5.states = σ.states.set o st5 := by
      simp [hσ5, hσ3, Core.setState, p2, List.set_set]
    have hte5 : σ5.te = Function.update σ.te st.mode te5 := by simp only [hσ5, hmode3, hte3]
    have f2 : σ5.ops = σ2.ops := by rw [hσ5, hσ3]; rfl
    have f3 : σ5.waiting = σ2.waiting := by rw [hσ5, hσ3]; rfl
    have f4 : σ5.queue = σ2.queue := by rw [hσ5, hσ3]; rfl
    have f5 : σ5.rep = σ2.rep := by rw [hσ5, hσ3]; rfl
    have f6 : σ5.tookTt = σ2.tookTt := by rw [hσ5, hσ3]; rfl
    have hidle : ∀ m' a', E.ha.modes[st.mode]? = some m' → m'.isError = false → m'.a = some a' →
        LggIdle E.lgg m' a' (σ5.te st.mode) := by
      intro m' a' hm' _ ha'
      rw [hm] at hm'; cases hm'
      rw [hmode.real.dyns] at ha'; cases ha'
      rw [hte5, Function.update_self]; exact cov.idle
    by_cases hurg : E.set.urgent = true
    · rw [hcur5, hurg] at hg
      simp only [Option.isSome_some, Bool.and_self, if_true] at hg
      obtain ⟨st6, rfl, q1, q2, q3, q4, -⟩ := checkGuards_lgg hE hcur5 (by rw [hst5]; simp [hlt]) (by omega) hok5 hg ha hc
      refine h.change (st' := st6) hst honly (q1.trans hmode5) (by simp [Core.setState, hst5]) (by
          simp only [Core.setState, f2]; exact p4) (by simp only [Core.setState, f3]; exact p3)
        (f4.trans p5) (f5.trans p6) (f6.trans (p7.trans h.tookTt))
        (fun i hi => by simp only [Core.setState, hte5]; exact Function.update_of_ne hi _ _)
        (fun m a hm he ha => hidle m a hm he ha)
        (.inl ⟨ν, (curState_congr rfl rfl).trans hcur5, ?_, fun k _ hk => ?_⟩)
      · simp only [Core.setState, hte5, Function.update_self]; rw [q2, hk5]; exact q3
      · rw [q2, hk5] at hk
        rw [hk5, hmode5] at q4
        rw [show k = 0 by omega]; exact q4
    · simp only [hurg, Bool.false_and, Bool.false_eq_true, if_false, Except.ok.injEq] at hg
      subst hg
      refine h.change (st' := st5) hst honly hmode5 hst5 (by rw [f2]; exact p4) (by rw [f3]; exact p3)
        (f4.trans p5) (f5.trans p6) (f6.trans (p7.trans h.tookTt))
        (fun i hi => by simp only [hte5]; exact Function.update_of_ne hi _ _)
        (fun m a hm he ha => hidle m a hm he ha)
        (.inl ⟨ν, hcur5, ?_, fun k hk1 hk => ?_⟩)
      · rw [hte5, Function.update_self, hk5]; exact hok5
      · unfold Env.firstStep at hk1
        rw [if_neg hurg] at hk1
        omega

/-- **Any step of the main loop.** -/
theorem doStep_lgg (hE : LggEnv E) {σ σ' : Core ℝ} (h : LggRunInv E G M σ) (hs : doStep E σ = .ok σ')
    (ha : σ'.hasAgg = false) (hc : σ'.hasConc = false) : LggRunInv E G M σ' := by
  unfold doStep at hs
  split at hs
  · cases hs; exact h
  split at hs
  · exact stepPost_lgg hE h hs ha hc
  rename_i hnc
  split at hs
  · rename_i hr
    simp [Core.doingReplay, h.rep, h.queue] at hr
  simp only [bind_ok] at hs
  obtain ⟨d, hd, hs⟩ := hs
  rw [getDeaggNode_roots (fun o op ho => (h.ops o op ho).1) hd] at hs
  simp only [bind_ok] at hs
  obtain ⟨σ1, h1, h2⟩ := hs
  exact stepPop_lgg hE h (by simpa using hnc) h1 h2 ha hc

theorem runSteps_flags : ∀ (n : ℕ) {σ σ' : Core ℝ}, runSteps E n σ = .ok σ' → FlagLe σ σ'
  | 0, σ, σ', hs => by cases hs; exact .refl _
  | n + 1, σ, σ', hs => by
    simp only [runSteps, bind_ok] at hs
    obtain ⟨σ1, h1, h2⟩ := hs
    exact (doStep_le h1).trans (runSteps_flags n h2)

theorem runSteps_lgg (hE : LggEnv E) : ∀ (n : ℕ) {σ σ' : Core ℝ}, LggRunInv E G M σ → runSteps E n σ = .ok σ' →
    σ'.hasAgg = false → σ'.hasConc = false → LggRunInv E G M σ'
  | 0, σ, σ', h, hs, _, _ => by cases hs; exact h
  | n + 1, σ, σ', h, hs, ha, hc => by
    simp only [runSteps, bind_ok] at hs
    obtain ⟨σ1, h1, h2⟩ := hs
    obtain ⟨l1, l2⟩ := runSteps_flags n h2
    refine runSteps_lgg hE n (doStep_lgg hE h h1 ?_ ?_) h2 ha hc
    · cases hq : σ1.hasAgg
      · rfl
      · rw [l2 hq] at ha; cases ha
    · cases hq : σ1.hasConc
      · rfl
      · rw [l1 hq] at hc; cases hc

/-! ### Setting up -/

/-- The initial sets so far. -/
structure LggSetup (E : Env ℝ) (G : ℕ → (ℕ → ℝ) → Prop) (σ : Core ℝ) : Prop where
  eq : σ = { ({} : Core ℝ) with ops := σ.ops, states := σ.states, waiting := List.range σ.states.length }
  len : σ.ops.length = σ.states.length
  ops : ∀ (o : ℕ) op, σ.ops[o]? = some op → op.parent = none ∧ op.post = o
  wait : ∀ (j : ℕ) st, σ.states[j]? = some st → WaitOk E (G j) st

/-- A user's initial set. -/
def LggInit (E : Env ℝ) (st : SS ℝ) : Prop :=
  ∀ m, E.ha.modes[st.mode]? = some m → m.isError = false →
    LggFresh (E.dyn st.mode) m st.lp.Mem st ∧ st.steps.1 = 0

/-- What became of an initial set. -/
def LggKept (E : Env ℝ) (G : ℕ → (ℕ → ℝ) → Prop) (σ : Core ℝ) (st : SS ℝ) : Prop :=
  ∀ m, E.ha.modes[st.mode]? = some m → m.isError = false →
    (∃ (j : ℕ) (s : SS ℝ), σ.states[j]? = some s ∧ s.mode = st.mode ∧ G j = fun x => st.lp.Mem x ∧ InvEps 0 m x) ∨
      ∀ x, st.lp.Mem x → ¬ InvEps 0 m x

theorem setupStates_lgg (hE : LggEnv E) : ∀ (l : List (SS ℝ)) {G : ℕ → (ℕ → ℝ) → Prop} {σ σ' : Core ℝ},
    (∀ st ∈ l, LggInit E st) → LggSetup E G σ → setupStates E σ l = .ok σ' →
    ∃ G', LggSetup E G' σ' ∧ (∀ (j : ℕ) s, σ.states[j]? = some s → σ'.states[j]? = some s ∧ G' j = G j) ∧
      ∀ st ∈ l, LggKept E G' σ' st
  | [], G, σ, σ', _, hS, h => by
    cases h
    exact ⟨G, hS, fun j s hs => ⟨hs, rfl⟩, by simp⟩
  | st :: l, G, σ, σ', hl, hS, h => by
    simp only [setupStates, bind_ok, needSome_ok] at h
    obtain ⟨m, hm, ⟨lp, f⟩, hf, h⟩ := h
    have hl' : ∀ st ∈ l, LggInit E st := fun s hs => hl s (by simp [hs])
    have hst := hl st (by simp)
    split at h
    · rename_i hff
      obtain ⟨G', a1, a2, a3⟩ := setupStates_lgg hE l hl' hS h
      refine ⟨G', a1, a2, fun s hs => ?_⟩
      rcases List.mem_cons.1 hs with rfl | hs
      · intro m' hm' he
        right
        intro x hx
        obtain ⟨hfr, -⟩ := hst m' hm' he
        obtain ⟨ρ, hρ⟩ := hfr.sh
        obtain ⟨-, -, f3⟩ := isFeasible_spec hE.honest hf hρ.obj
        simp only at hff
        rw [hff] at f3
        obtain ⟨v, hv, -⟩ := hx
        exact absurd (f3.2 ⟨v, hv⟩) (by simp)
      · exact a3 s hs
    · simp only [bind_ok] at h
      obtain ⟨⟨st1, f1, ops⟩, hi, h⟩ := h
      split at h
      · rename_i hff
        simp only at hff; subst hff
        obtain ⟨G', a1, a2, a3⟩ := setupStates_lgg hE l hl' hS h
        refine ⟨G', a1, a2, fun s hs => ?_⟩
        rcases List.mem_cons.1 hs with rfl | hs
        · intro m' hm' he
          right
          intro x hx
          rw [hm] at hm'; cases hm'
          obtain ⟨hfr, -⟩ := hst m hm he
          obtain ⟨a, hmode, hdyn, -⟩ := hE.mode _ m hm he
          obtain ⟨ρ, hρ⟩ := hfr.sh
          obtain ⟨f1, f2, -⟩ := isFeasible_spec hE.honest hf hρ.obj
          have hfor : (E.dyn s.mode).For m := by rw [hdyn]; exact hmode.real.dyn _
          exact invLoop_out hE.honest hE.tol.le hfor (hρ.withLp f1 f2) hi (by simpa only [f1] using hx)
        · exact a3 s hs
      · rename_i hff
        simp only [Bool.not_eq_false] at hff; subst hff
        have hmode1 : st1.mode = st.mode := by
          have e := invLoop_like _ hi; rw [e]
        set Gn : ℕ → (ℕ → ℝ) → Prop := Function.update G σ.states.length (fun x => st.lp.Mem x ∧ InvEps 0 m x) with hGn
        obtain ⟨G', a1, a2, a3⟩ := setupStates_lgg hE l (G := Gn) hl' (by
          refine ⟨?_, by simp [hS.len], fun o op ho => ?_, fun j s hs => ?_⟩
          · have := hS.eq
            rw [this]
            simp [List.range_succ, hS.len]
          · simp only [List.getElem?_append] at ho
            split at ho
            · exact hS.ops o op ho
            · rename_i hlt
              simp only [not_lt] at hlt
              by_cases ho' : o - σ.ops.length = 0
              · rw [ho'] at ho
                simp only [List.getElem?_cons_zero, Option.some.injEq] at ho
                subst ho
                refine ⟨rfl, ?_⟩
                simp only; rw [← hS.len]; omega
              · obtain ⟨q, hq⟩ := Nat.exists_eq_succ_of_ne_zero ho'
                rw [hq] at ho; simp at ho
          · simp only [List.getElem?_append] at hs
            split at hs
            · rename_i hlt
              rw [hGn, Function.update_of_ne (by omega)]
              exact hS.wait j s hs
            · rename_i hlt
              simp only [not_lt] at hlt
              by_cases ho' : j - σ.states.length = 0
              · obtain rfl : j = σ.states.length := by omega
                rw [ho'] at hs
                simp only [List.getElem?_cons_zero, Option.some.injEq] at hs
                subst hs
                intro m' hm' he
                simp only [hmode1, hm, Option.some.injEq] at hm'
                subst hm'
                rw [hGn, Function.update_self]
                obtain ⟨hfr, hz⟩ := hst m hm he
                obtain ⟨a, hmo, hdyn, -⟩ := hE.mode _ m hm he
                have hfor : (E.dyn st.mode).For m := by rw [hdyn]; exact hmo.real.dyn _
                obtain ⟨ρ, hρ⟩ := hfr.sh
                obtain ⟨f1, f2, -⟩ := isFeasible_spec hE.honest hf hρ.obj
                obtain ⟨g1, g2, g3, g4⟩ := (hfr.setLp f1 f2).setup hE.honest hE.tol hfor hi
                refine ⟨by
                  rw [show E.dyn ({ st1 with invRows := m.inv.map fun _ => none } : SS ℝ).mode = E.dyn st.mode from
                    congrArg E.dyn hmode1]
                  exact g1, g2, ?_⟩
                simp only [g4]; exact hz
              · obtain ⟨q, hq⟩ := Nat.exists_eq_succ_of_ne_zero ho'
                rw [hq] at hs; simp at hs) h
        refine ⟨G', a1, fun j s hs => ?_, fun s hs => ?_⟩
        · have hlt := lt_of_getElem? hs
          obtain ⟨b1, b2⟩ := a2 j s (by simp only [List.getElem?_append_left hlt]; exact hs)
          exact ⟨b1, b2.trans (by rw [hGn]; exact Function.update_of_ne (by omega) _ _)⟩
        · rcases List.mem_cons.1 hs with rfl | hs
          · intro m' hm' he
            rw [hm] at hm'; cases hm'
            left
            obtain ⟨b1, b2⟩ := a2 σ.states.length _ (by simp; rfl)
            exact ⟨_, _, b1, hmode1, b2.trans (by rw [hGn]; exact Function.update_self _ _ _)⟩
          · exact a3 s hs

/-- **`setup`.** -/
theorem setup_lgg (hE : LggEnv E) {init : List (SS ℝ)} {σ : Core ℝ} (hi : ∀ st ∈ init, LggInit E st)
    (h : setup E init = .ok σ) : ∃ G M, LggRunInv E G M σ ∧ ∀ st ∈ init, LggKept E G σ st := by
  simp only [setup, bind_ok, assert_ok, need_ok, pure_ok] at h
  obtain ⟨_, -, σ0, h1, _, -, rfl⟩ := h
  obtain ⟨G, a1, -, a3⟩ := setupStates_lgg hE init (G := fun _ _ => True) hi
    ⟨rfl, rfl, by simp, by simp⟩ h1
  refine ⟨G, _, ⟨?_, ?_, ?_, rfl, a1.ops, ?_, ?_, ?_, ?_⟩, a3⟩
  · rw [a1.eq]
  · rw [a1.eq]
  · rw [a1.eq]
  · intro i m a _ _ _
    have : σ0.te i = none := by rw [a1.eq]
    rw [this]; exact .empty
  · intro j _ st hs; exact a1.wait j st hs
  · intro c hc
    rw [curState_noCur (by rw [a1.eq])] at hc; cases hc
  · intro j st hs hj
    refine absurd ?_ hj
    have : σ0.waiting = List.range σ0.states.length := by
      have := congrArg Core.waiting a1.eq; exact this
    rw [this]; exact List.mem_range.2 (lt_of_getElem? hs)

end Hylaa
