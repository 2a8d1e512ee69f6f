import Verif.Props.RunEx

/-!
# C41: deaggregation loses nothing

At every moment of an analysis (except in the middle of a replay), a run into an error mode that has
not been reported still passes through a set that is waiting or being computed — however often nodes
were split and their operations replayed on the parts before.
-/

set_option linter.unusedSectionVars false

namespace Hylaa
open Spec
variable {K : Type} [Field K] [LinearOrder K] [IsStrictOrderedRing K]

/-- A waiting state set contains a point from which an error mode can be entered. -/
def Core.WaitBad (E : Env K) (σ : Core K) : Prop :=
  ∃ o ∈ σ.waiting, ∃ op st x n, σ.ops[o]? = some op ∧ σ.states[op.post]? = some st ∧ st.lp.Mem x ∧
    st.steps.1 ≤ n ∧ E.hyb.Bad st.mode x n

/-- The state set being computed contains a point from which, one or more steps later, a transition can
be taken that leads on to an error mode. -/
def Core.CurBad (E : Env K) (σ : Core K) : Prop :=
  ∃ ν sid st x n k ti j y, σ.curState = some (ν, sid) ∧ σ.states[sid]? = some st ∧ st.lp.Mem x ∧
    st.steps.1 ≤ n ∧ 1 ≤ k ∧ E.hyb.Jump 0 st.mode x k ti j y ∧ n + k ≤ E.set.numSteps ∧
    E.hyb.Bad j y (n + k)

/-- A waiting operation with a bad entry point. -/
theorem Body.waitBad {E : Env K} (hE : E.Ok) {X0 : ℕ → (ℕ → K) → Prop} {σ : Core K} {gh : Ghost K}
    {L A : List ℕ} (hB : Body E X0 σ gh L A) {o : ℕ} {x : ℕ → K} {n : ℕ} (ho : o ∈ σ.waiting)
    (hg : gh.G o x n) (hb : E.hyb.Bad (gh.M o) x n) : σ.WaitBad E := by
  obtain ⟨op, h1, h2⟩ := hB.wait o ho
  obtain ⟨st, h3, h4⟩ := hB.fresh o op h1 (.inl h2)
  refine ⟨o, ho, op, st, x, n, h1, h3, ?_, h4.time x n hg, by rw [h4.mode]; exact hb⟩
  by_cases hp : op.parent = none
  · obtain ⟨m, k1, k2⟩ := h4.initMode hp
    refine (h4.init hp m k1 k2).mem_of_flow (hE.dynFor _ _ k1 k2) (hE.plain _ _ k1 k2) ⟨n, hg⟩ ?_
      (.inl (Nat.zero_le _))
    rw [h4.zero]
    exact .zero fun _ _ => rfl
  · exact (h4.entry hp).2 x n hg

theorem Idle.frontier {E : Env K} (hE : E.Ok) {X0 : ℕ → (ℕ → K) → Prop} {σ : Core K} {gh : Ghost K}
    (h : Idle E X0 σ gh) (hX : ∃ i x m, X0 i x ∧ E.ha.modes[i]? = some m ∧ InvEps 0 m x ∧
      E.hyb.Bad i x 0) : σ.WaitBad E := by
  obtain ⟨o, x, n, h1, h2, h3 | h3 | ⟨ν, nd, h3, -⟩⟩ := h.body.pend _ (Bad.tracked _) hX
  · exact h.body.waitBad hE h3 h1 h2
  · cases h3
  · cases h3

theorem Running.frontier {E : Env K} (hE : E.Ok) (hnt : E.NoTt) {X0 : ℕ → (ℕ → K) → Prop} {σ : Core K} {gh : Ghost K}
    (h : Running E X0 σ gh) (hX : ∃ i x m, X0 i x ∧ E.ha.modes[i]? = some m ∧ InvEps 0 m x ∧
      E.hyb.Bad i x 0) : σ.WaitBad E ∨ σ.CurBad E := by
  obtain ⟨ν, nd, st, c, hR, -⟩ := h
  obtain ⟨o, x, n, h1, h2, h3 | h3 | ⟨ν', nd', h3, h4, h5⟩⟩ := hR.body.pend _ (Bad.tracked _) hX
  · exact .inl (hR.body.waitBad hE h3 h1 h2)
  · cases h3
  rw [List.mem_singleton] at h3
  subst h3
  obtain rfl : nd = nd' := Option.some.inj (hR.ready.node.symm.trans h4)
  obtain ⟨-, -, hM, -⟩ := hR.body.ndPar _ _ _ h4 h5
  obtain ⟨m, hm, he⟩ := hR.body.ndErr _ _ h4
  rw [hM] at h2
  have hgp : gh.GP nd x n := ⟨o, h5, h1⟩
  cases h2 with
  | err e1 e2 =>
    have : E.ha.modes[gh.MN ν']? = some _ := e1
    rw [hm] at this; cases this; rw [he] at e2; cases e2
  | @jump _ _ _ k ti j y e1 e2 e3 =>
    by_cases hk : k ≤ st.stepIn
    · obtain ⟨o', op', a1, a2, a3, a4, a5⟩ := hR.done x n k ti j y hgp e1 e2 (.inl hk)
      obtain ⟨op2, b1, b2⟩ := hR.body.ndOps _ _ _ h4 a1
      obtain rfl : op' = op2 := Option.some.inj (a2.symm.trans b1)
      obtain ⟨ti2, t2, c1, c2, c3, -⟩ := hR.body.opTrans _ _ _ a2 b2
      rw [a3] at c1; cases c1
      have hj : j = gh.M o' := by
        obtain ⟨m, t, z, l, -, -, -, -, -, -, d7, -, -, d10, -⟩ := a5
        obtain rfl : t = t2 := Option.some.inj (d7.symm.trans c2)
        rw [d10, c3]
      subst hj
      have e2' : n + k ≤ E.set.numSteps := e2
      refine .inl (hR.body.waitBad hE (hR.pend _ a1) (x := y) (n := n + op'.step) ?_
        (Bad.anti e3 (by omega)))
      exact (hR.body.exact _ _ _ _ _ a2 b2 h4 a3 y _).2 ⟨x, n, hgp, a5, rfl, by omega⟩
    · obtain ⟨m', t, z, l, d1, d2, d3, d4, d5⟩ := e1
      obtain ⟨b, rfl⟩ : ∃ b, k = st.stepIn + (b + 1) := ⟨k - st.stepIn - 1, by omega⟩
      obtain ⟨w, w1, w2⟩ := flow_split d3
      obtain ⟨w', v1, v2⟩ := flow_inv d3 (s := 0) (by omega)
      refine .inr ⟨ν', nd.state, st, w, n + st.stepIn, b + 1, ti, j, y,
        curState_eq hR.cur h4 hR.ready.noLeft, hR.ready.state,
        hR.ready.mem hE hgp d1 w1 fun e0 => ?_, hR.ready.time x n hgp, by omega, ?_, ?_, ?_⟩
      · rw [e0] at w1
        cases w1 with
        | zero w1 =>
          cases v1 with
          | zero v1 =>
            exact (InvEps.congr (hE.dynFor _ _ d1 d2).wf fun i hi => by rw [v1 i hi, w1 i hi]).1 v2
      · rw [hR.ready.mode]
        exact ⟨m', t, z, l, d1, d2, w2, by simp, d5⟩
      · have e2' : n + (st.stepIn + (b + 1)) ≤ E.set.numSteps := e2
        omega
      · rw [Nat.add_assoc]; exact e3

/-- **C41** Deaggregation loses nothing.  Start an analysis (`setup`), run any number of rounds of the
main loop, with any aggregation and deaggregation strategy; assume that no concrete error was reported,
and an aggregated one only if it is to be refined, and that there are no time-triggered transitions.  If the automaton can reach an error mode, then in
the state reached — unless a replay is going on — a waiting set or the set being computed still contains
a point of a run into an error mode, at a time not earlier than the one the set is labelled with. -/
theorem C41_frontier {E : Env K} (hE : E.Ok) (hnt : E.NoTt) (hsp : E.SamePath) {init : List (SS K)}
    (hi : ∀ st ∈ init, UserInit E st) {σ0 σ : Core K} {n : ℕ} (h0 : setup E init = .ok σ0)
    (hr : runSteps E n σ0 = .ok σ) (hc : σ.hasConc = false)
    (ha : σ.hasAgg = true → E.deaggOn ∧ E.set.stopAgg = false) (hd : σ.doingReplay = false)
    (hu : ¬ E.hyb.Safe (InitSet init)) : σ.WaitBad E ∨ σ.CurBad E := by
  obtain ⟨gh, hI⟩ := setup_spec hE (fun st hs => (hi st hs).ok hE.toBase) h0
  have hG := runSteps_spec hE hsp n (.inr ⟨gh, .inr (.inl hI)⟩) (.inl hnt) hr
  have hn : ¬ Flag E σ := by
    rintro (h | ⟨h, h1 | h1⟩)
    · rw [hc] at h; cases h
    · rw [(ha h).2] at h1; cases h1
    · exact h1 (ha h).1
  have hX : ∃ i x m, InitSet init i x ∧ E.ha.modes[i]? = some m ∧ InvEps 0 m x ∧ E.hyb.Bad i x 0 := by
    simp only [Spec.Hyb.Safe, not_forall] at hu
    obtain ⟨i, x, n, m, h1, h2, h3⟩ := hu
    exact Bad.of_reach h1 (.err h2 (by simpa using h3))
  rcases hG with h | ⟨gh, h | h | ⟨h, -⟩⟩
  · exact (hn h).elim
  · exact h.frontier hE hnt hX
  · exact .inl (h.frontier hE hX)
  · exact .inl ((h.idle hd).frontier hE hX)

/-! ### Example -/

theorem exStep4 (lim hi : ℚ) (i : ℕ) (m : Mode ℚ) (hu : m.inputs = none) (a b : ℚ)
    (hb : b = a + (if i = 0 then 1 else -1)) :
    OneStep m ((exEnv 4 lim (some exDeagg) hi).dyn i) (fun j => if j = 0 then a else 1)
      (fun j => if j = 0 then b else 1) := by
  subst hb
  refine ⟨fun _ => 0, fun _ h => (by rw [hu] at h; cases h), fun r hr => ?_⟩
  have : r = 0 ∨ r = 1 := by
    have : r < 2 := hr
    omega
  rcases this with rfl | rfl <;>
    simp [exEnv, exDyn, mulV, inputPart, Finset.sum_range_succ]

theorem Reach.mono {H : Hyb K} {X Y : ℕ → (ℕ → K) → Prop} (h : ∀ i x, X i x → Y i x) {i : ℕ}
    {x : ℕ → K} {n : ℕ} (hr : H.Reach 0 X i x n) : H.Reach 0 Y i x n := by
  induction hr with
  | init h1 h2 h3 => exact .init (h _ _ h1) h2 h3
  | jump _ h2 h3 ih => exact .jump ih h2 h3

/-- From `x = 0`: three steps up, the jump at `x = 3`, one step down, and the error guard at `x = 2`. -/
theorem exUnsafe : ¬ (exEnv 4 (3 / 2) (some exDeagg) 5).hyb.Safe (BoxInit [(0, [(0, 0), (1, 1)])]) := by
  intro h
  let m0 : Mode ℚ := { name := "up", id := 0, a := some ⟨2, [[(1, 1)], []]⟩, inv := [⟨2, [(0, 1)], 3⟩] }
  have hm0 : (exEnv 4 (3 / 2) (some exDeagg) 5).ha.modes[0]? = some m0 := rfl
  have hm1 : (exEnv 4 (3 / 2) (some exDeagg) 5).ha.modes[1]? = some
    { name := "down", id := 1, a := some ⟨2, [[(1, -1)], []]⟩ } := rfl
  have hm2 : (exEnv 4 (3 / 2) (some exDeagg) 5).ha.modes[2]? = some
    { name := "bad", id := 2 } := rfl
  let p : ℚ → ℕ → ℚ := fun a j => if j = 0 then a else 1
  have inv0 : ∀ a : ℚ, a ≤ 3 → InvEps 0 m0 (p a) := by
    intro a ha lc hlc
    simp [m0] at hlc
    subst hlc
    simpa [dot, p] using ha
  have r0 : (exEnv 4 (3 / 2) (some exDeagg) 5).hyb.Reach 0 (BoxInit [(0, [(0, 0), (1, 1)])]) 0 (p 0) 0 := by
    refine .init ⟨_, List.mem_singleton_self _, rfl, ?_⟩ hm0 (inv0 0 (by norm_num))
    intro i hi
    have : i = 0 ∨ i = 1 := by
      have : i < 2 := hi
      omega
    rcases this with rfl | rfl <;> simp [p]
  have f0 : Flow (0 : ℚ) _ _ 3 (p 0) (p 3) :=
    .step (.step (.step (.zero fun _ _ => rfl) (inv0 0 (by norm_num))
      (exStep4 (3 / 2) 5 0 m0 rfl 0 1 (by norm_num))) (inv0 1 (by norm_num))
      (exStep4 (3 / 2) 5 0 m0 rfl 1 2 (by norm_num))) (inv0 2 (by norm_num))
      (exStep4 (3 / 2) 5 0 m0 rfl 2 3 (by norm_num))
  have r1 : (exEnv 4 (3 / 2) (some exDeagg) 5).hyb.Reach 0 (BoxInit [(0, [(0, 0), (1, 1)])]) 1 (p 3) (0 + 3) := by
    refine .jump (ti := 0) r0 ⟨_, _, p 3, [0], hm0, rfl, f0, by simp, rfl, by simp, rfl, ⟨_, rfl, ?_⟩,
      ⟨fun _ => 0, by simp, by simp⟩, rfl, trivial⟩ (by simp [Env.hyb, Env.hybOn, exEnv])
    norm_num [Csr.le, p, dot]
  have f1 : Flow (0 : ℚ) _ _ 1 (p 3) (p 2) :=
    .step (.zero fun _ _ => rfl) (by simp [InvEps]) (exStep4 (3 / 2) 5 1
      { name := "down", id := 1, a := some ⟨2, [[(1, -1)], []]⟩ } rfl 3 2 (by norm_num))
  have r2 : (exEnv 4 (3 / 2) (some exDeagg) 5).hyb.Reach 0 (BoxInit [(0, [(0, 0), (1, 1)])]) 2 (p 2) (0 + 3 + 1) := by
    refine .jump (ti := 1) r1 ⟨_, _, p 2, [1], hm1, rfl, f1, by simp, rfl, by simp, rfl, ⟨_, rfl, ?_⟩,
      ⟨fun _ => 0, by simp, by simp⟩, rfl, trivial⟩ (by simp [Env.hyb, Env.hybOn, exEnv])
    intro i hi
    have : i = 0 ∨ i = 1 := by
      have : i < 2 := hi
      omega
    rcases this with rfl | rfl <;> norm_num [Csr.row, p, dot]
  exact absurd (h _ _ _ _ r2 hm2) (by decide)

/-- The hypotheses of **C41** are met there. -/
example : ∃ σ, exRunD (3 / 2) 5 13 = .ok σ ∧
    (σ.WaitBad (exEnv 4 (3 / 2) (some exDeagg) 5) ∨ σ.CurBad (exEnv 4 (3 / 2) (some exDeagg) 5)) := by
  obtain ⟨σ, h, hσ⟩ := okAnd_ok exRunD_mid
  simp only [Bool.and_eq_true, decide_eq_true_eq, Bool.not_eq_true'] at hσ
  refine ⟨σ, h, ?_⟩
  simp only [exRunD, analyse, bind_ok] at h
  obtain ⟨init, h0, σ0, h1, h2⟩ := h
  obtain ⟨a, b, -⟩ := boxStates_spec (by
    intro p hp m hm
    simp at hp
    subst hp
    simp [exEnv, exRunHA] at hm
    subst hm
    rfl) h0
  refine C41_frontier (exEnv_ok _ _ _ _) (exEnv_noTt _ _ _ _ _ _) ?_ (fun st hs => (a st hs).1) h1 h2 hσ.1.1.1.1
    (fun _ => ⟨⟨exDeagg, rfl, rfl⟩, rfl⟩) hσ.1.1.2 fun hs => exUnsafe fun i x n m hr => hs i x n m (Reach.mono b hr)
  intro s h1 _
  cases h1
  rfl

end Hylaa
