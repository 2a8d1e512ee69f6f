import Verif.Props.Deagg
import Verif.Model.Automaton

/-!
# C32 and C44: runs with time-triggered transitions

Two variables `x' = c`, `c' = 0`.  Mode 0 has the invariant `x ≤ 1` and a transition to mode 1 when
`x ≥ 1`, which `detect_tt_transitions` marks as time-triggered; mode 1 has a transition to the error mode
2 when `x ≥ lim`.
-/

set_option linter.unusedSectionVars false

namespace Hylaa
open Spec

/-- The automaton as the user builds it. -/
def ttBase (lim : ℚ) : HA ℚ :=
  { modes := [{ name := "wait", id := 0, a := some ⟨2, [[(1, 1)], []]⟩, inv := [⟨2, [(0, 1)], 1⟩] },
      { name := "go", id := 1, a := some ⟨2, [[(1, 1)], []]⟩ }, { name := "bad", id := 2 }]
    out := [[0], [1], []]
    trans := [{ src := 0, dst := 1, index := 0, guard := some (⟨2, [[(0, -1)]]⟩, [-1]) },
      { src := 1, dst := 2, index := 0, guard := some (⟨2, [[(0, -1)]]⟩, [-lim]) }] }

/-- The same after `detect_tt_transitions`. -/
def ttHA (eps lim : ℚ) : HA ℚ :=
  { ttBase lim with
    trans := [{ src := 0, dst := 1, index := 0, guard := some (⟨2, [[(0, -1)]]⟩, [-1 + eps]), tt := true },
      { src := 1, dst := 2, index := 0, guard := some (⟨2, [[(0, -1)]]⟩, [-lim]) }] }

theorem ttHA_detect (eps lim : ℚ) : HA.detectTt eps (ttBase lim) = .ok (ttHA eps lim) := by
  norm_num [HA.detectTt, ttBase, ttHA, needSome, getTtVars, constantVars, Csr.nrows, Csr.row,
    List.range_succ, relaxTt, rowOnly, relaxRow, oppositeRow, coefAt, bind, Except.bind, pure, Except.pure]

/-- Step size 1, `steps` steps, default options. -/
def ttEnv (steps : ℕ) (lim : ℚ) : Env ℚ :=
  { S := Simplex.solver 100
    T := { inter := 1 / 1000000, atol := 1 / 100000000, rtol := 1 / 100000, norm2 := 1 / 10000000000000000
           dblMax := 1000000000000 }
    set := { numSteps := steps, strat := none }
    ha := ttHA (1 / steps / 1000) lim
    dyn := fun _ => exDyn 1
    epsTt := 2 * 1 / steps / 1000
    dirs := fun _ _ _ _ n => .ok [(List.range n).map fun _ => 1] }

/-- Transitions are taken inside the invariant (in mode 0) with `c = 1`. -/
def ttR (i : ℕ) (z : ℕ → ℚ) : Prop := (i = 0 → z 0 ≤ 1) ∧ z 1 = 1

theorem exDyn_flow {m : Mode ℚ} (hu : m.inputs = none) {k : ℕ} {x z : ℕ → ℚ} (h : Flow 0 m (exDyn 1) k x z) :
    z 0 = x 0 + k * x 1 ∧ z 1 = x 1 := by
  induction h with
  | zero h =>
    have h0 := h 0 (by simp [exDyn])
    have h1 := h 1 (by simp [exDyn])
    simp [h0, h1]
  | step _ _ hs ih =>
    obtain ⟨i1, i2⟩ := ih
    obtain ⟨w, -, hs⟩ := hs
    have h0 := hs 0 (by simp [exDyn])
    have h1 := hs 1 (by simp [exDyn])
    simp [exDyn, inputPart, mulV, Finset.sum_range_succ] at h0 h1
    refine ⟨?_, by rw [h1, i2]⟩
    rw [h0, i1, i2]
    push_cast
    ring

theorem ttEnv_ok (steps : ℕ) (hs : 0 < steps) (lim : ℚ) : (ttEnv steps lim).OkOn ttR where
  noApprox := rfl
  honest := Simplex.honest _
  tol := by norm_num [ttEnv]
  dynFor := by
    intro i m hm he
    have hcase : i = 0 ∨ i = 1 ∨ i = 2 := by
      have : i < 3 := lt_of_getElem? hm
      omega
    rcases hcase with rfl | rfl | rfl <;> simp [ttEnv, ttHA, ttBase] at hm <;> subst hm <;>
      first
      | (simp [Mode.isError] at he; done)
      | exact ⟨exDyn_laws _, ⟨by simp [ttEnv, exDyn], by simp [ttEnv, exDyn], by simp⟩,
          by simp [ttEnv, exDyn], by simp [ttEnv, exDyn], by simp⟩
  plain := by
    intro i m hm he
    have hcase : i = 0 ∨ i = 1 ∨ i = 2 := by
      have : i < 3 := lt_of_getElem? hm
      omega
    rcases hcase with rfl | rfl | rfl <;> simp [ttEnv, ttHA, ttBase] at hm <;> subst hm <;> simp [Mode.Plain]
  rows := by
    intro i m a hm ha
    have hcase : i = 0 ∨ i = 1 ∨ i = 2 := by
      have : i < 3 := lt_of_getElem? hm
      omega
    rcases hcase with rfl | rfl | rfl <;> simp [ttEnv, ttHA, ttBase] at hm <;> subst hm <;> simp at ha <;>
      subst ha <;> rfl
  trs := by
    intro i m l ti t hm he hl hti ht
    have hcase : ti = 0 ∨ ti = 1 := by
      have : ti < 2 := lt_of_getElem? ht
      omega
    rcases hcase with rfl | rfl <;> simp [ttEnv, ttHA, ttBase] at ht <;> subst ht <;>
      exact ⟨fun g hg => by
          cases hg
          exact ⟨⟨rfl, by simp [Csr.WF], by simp⟩, by simp [ttEnv, exDyn]⟩, by simp, by simp, by simp, by simp, by simp⟩
  tt := by
    intro _ i m l ti t g hm he hl hti ht htt hg
    have h2 : ti < 2 := lt_of_getElem? ht
    have h3 : i < 3 := lt_of_getElem? hm
    rcases (by omega : ti = 0 ∨ ti = 1) with rfl | rfl
    · have hi : i = 0 := by
        rcases (by omega : i = 0 ∨ i = 1 ∨ i = 2) with rfl | rfl | rfl
        · rfl
        · simp [ttEnv, ttHA, ttBase] at hl; subst hl; simp at hti
        · simp [ttEnv, ttHA, ttBase] at hl; subst hl; simp at hti
      subst hi
      simp [ttEnv, ttHA, ttBase] at ht
      subst ht
      simp at hg
      subst hg
      refine ⟨rfl, rfl, ?_⟩
      intro a ha p hp lc hlc _ _ _ k x z hf hz
      simp [ttEnv, ttHA, ttBase] at hm
      subst hm
      simp at hp
      subst hp
      obtain ⟨f1, f2⟩ := exDyn_flow rfl hf
      have hz1 := hz.1 rfl
      refine ⟨?_, ?_⟩
      · intro lc hlc
        simp at hlc
        subst hlc
        simpa [dot] using hz1
      · have hx1 : x 1 = 1 := by rw [← f2]; exact hz.2
        have hk : (0 : ℚ) ≤ k := Nat.cast_nonneg k
        have hst : (1 : ℚ) ≤ steps := by exact_mod_cast hs
        have he : (ttEnv steps lim).epsTt ≤ 1 / 2 := by
          have : (ttEnv steps lim).epsTt = 2 * 1 / steps / 1000 := rfl
          rw [this, div_div, div_le_div_iff₀ (by positivity) (by norm_num)]
          linarith
        simp [dot, f1, hx1]
        linarith
    · simp [ttEnv, ttHA, ttBase] at ht
      subst ht
      cases htt
  zero := by
    intro _ i m a hm ha hn
    have hcase : i = 0 ∨ i = 1 ∨ i = 2 := by
      have : i < 3 := lt_of_getElem? hm
      omega
    rcases hcase with rfl | rfl | rfl <;> simp [ttEnv, ttHA, ttBase] at hm <;> subst hm <;> simp at ha <;>
      subst ha <;> simp [Csr.noEntries] at hn

/-- Both initial sets are the point `x = 0, c = 1`: one in mode 0, one in mode 1. -/
def ttBoxes : List (ℕ × List (ℚ × ℚ)) := [(0, [(0, 0), (1, 1)]), (1, [(0, 0), (1, 1)])]

theorem ttBoxes_ok (eps lim : ℚ) : ∀ p ∈ ttBoxes, ∀ m : Mode ℚ, (ttHA eps lim).modes[p.1]? = some m →
    m.isError = false := by
  intro p hp m hm
  simp [ttBoxes] at hp
  rcases hp with rfl | rfl <;> simp [ttHA, ttBase] at hm <;> subst hm <;> rfl

/-! ### The flag outlives the set it was raised for -/

set_option maxRecDepth 100000 in
theorem ttStale_run : okAnd (analyse (ttEnv 1 1) ttBoxes 8) (fun σ =>
    σ.isFinished (ttEnv 1 1) && decide (σ.verdict = .safe)) = true := by
  decide +kernel

theorem tt_unsafe : ¬ ((ttEnv 1 1).hybOn ttR).Safe (BoxInit ttBoxes) := by
  intro h
  let p : ℚ → ℕ → ℚ := fun a j => if j = 0 then a else 1
  have hm1 : ((ttEnv 1 1).hybOn ttR).ha.modes[1]? = some { name := "go", id := 1, a := some ⟨2, [[(1, 1)], []]⟩ } := rfl
  have hm2 : ((ttEnv 1 1).hybOn ttR).ha.modes[2]? = some { name := "bad", id := 2 } := rfl
  have r0 : ((ttEnv 1 1).hybOn ttR).Reach 0 (BoxInit ttBoxes) 1 (p 0) 0 := by
    refine .init ⟨(1, [(0, 0), (1, 1)]), by simp [ttBoxes], rfl, ?_⟩ hm1 (by simp [InvEps])
    intro i hi
    rcases (by simp at hi; omega : i = 0 ∨ i = 1) with rfl | rfl <;> simp [p]
  have f0 : Flow (0 : ℚ) { name := "go", id := 1, a := some ⟨2, [[(1, 1)], []]⟩ } (exDyn 1) 1 (p 0) (p 1) := by
    refine .step (.zero fun _ _ => rfl) (by simp [InvEps]) ⟨fun _ => 0, by simp [Admissible], ?_⟩
    intro i hi
    rcases (by simp [exDyn] at hi; omega : i = 0 ∨ i = 1) with rfl | rfl <;>
      simp [exDyn, inputPart, mulV, Finset.sum_range_succ, p]
  have r1 : ((ttEnv 1 1).hybOn ttR).Reach 0 (BoxInit ttBoxes) 2 (p 1) (0 + 1) := by
    refine .jump (ti := 1) r0 ⟨_, _, p 1, [1], hm1, rfl, f0, by simp, rfl, by simp, rfl, ⟨_, rfl, ?_⟩,
      ⟨fun _ => 0, by simp, by simp⟩, rfl, ⟨by simp, by simp [p]⟩⟩ (by simp [Env.hybOn, ttEnv])
    norm_num [Csr.le, p, dot]
  exact absurd (h _ _ _ _ r1 hm2) (by decide)

/-- **C32, negative: a stale flag.**  The flag `took_tt_transition` raised by a time-triggered transition
in the last step before the time bound is not cleared when the state set is dropped because of the bound;
the next state set is then dropped in place of it.  Here the automaton is built by
`detect_tt_transitions`, all other hypotheses of `C32_safe_verdict_tt_partial` are met, the second initial
set reaches the error mode in one step — and the verdict is "System is safe". -/
theorem C32_stale_flag_unsound : ∃ (E : Env ℚ) (base : HA ℚ) (R : ℕ → (ℕ → ℚ) → Prop)
    (l : List (ℕ × List (ℚ × ℚ))) (n : ℕ) (σ : Core ℚ),
    HA.detectTt ((1 : ℚ) / (E.set.numSteps : ℚ) / 1000) base = .ok E.ha ∧ E.OkOn R ∧ E.SamePath ∧
    (∀ p ∈ l, ∀ m : Mode ℚ, E.ha.modes[p.1]? = some m → m.isError = false) ∧
    analyse E l n = .ok σ ∧ σ.isFinished E = true ∧ σ.verdict = .safe ∧
    ¬ (E.hybOn R).Safe (BoxInit l) := by
  obtain ⟨σ, h, hσ⟩ := okAnd_ok ttStale_run
  simp only [Bool.and_eq_true, decide_eq_true_eq] at hσ
  exact ⟨ttEnv 1 1, ttBase 1, ttR, ttBoxes, 8, σ, ttHA_detect _ _, ttEnv_ok 1 (by norm_num) 1,
    fun s h1 => (by cases h1), ttBoxes_ok _ _, h, hσ.1, hσ.2, tt_unsafe⟩

/-! ### With room before the bound -/

/-- `Core.TtFresh`, computed. -/
def ttFreshB (E : Env ℚ) (σ : Core ℚ) : Bool :=
  !σ.tookTt || (match σ.curState with
    | none => false
    | some c => match σ.states[c.2]? with
      | none => false
      | some st => decide (st.steps.1 < E.set.numSteps))

theorem ttFreshB_ok {E : Env ℚ} {σ : Core ℚ} (h : ttFreshB E σ = true) : σ.TtFresh E := by
  intro ht
  simp only [ttFreshB, ht, Bool.not_true, Bool.false_or] at h
  split at h
  · cases h
  · rename_i c hc
    split at h
    · cases h
    · rename_i st hst
      exact ⟨c.1, c.2, st, hc, hst, by simpa using h⟩

/-- `Core.TtFreshFor`, computed along with the run. -/
def runFresh (E : Env ℚ) : ℕ → Core ℚ → Except Err (Core ℚ × Bool)
  | 0, σ => .ok (σ, ttFreshB E σ)
  | n + 1, σ => do
    let σ1 ← doStep E σ
    let r ← runFresh E n σ1
    return (r.1, ttFreshB E σ && r.2)

theorem runFresh_ok {E : Env ℚ} : ∀ {n : ℕ} {σ : Core ℚ} {r : Core ℚ × Bool}, runFresh E n σ = .ok r →
    runSteps E n σ = .ok r.1 ∧ (r.2 = true → σ.TtFreshFor E n)
  | 0, σ, r, h => by
    cases h
    refine ⟨rfl, fun hb k hk σk hr => ?_⟩
    obtain rfl : k = 0 := by omega
    cases hr
    exact ttFreshB_ok hb
  | n + 1, σ, r, h => by
    simp only [runFresh, bind_ok, pure_ok] at h
    obtain ⟨σ1, h1, q, hq, rfl⟩ := h
    obtain ⟨a, b⟩ := runFresh_ok hq
    refine ⟨by simp only [runSteps, bind_ok]; exact ⟨σ1, h1, a⟩, fun hb k hk σk hr => ?_⟩
    simp only [Bool.and_eq_true] at hb
    rcases k with _ | k
    · cases hr
      exact ttFreshB_ok hb.1
    · simp only [runSteps, bind_ok] at hr
      obtain ⟨τ, g1, g2⟩ := hr
      rw [h1] at g1
      cases g1
      exact b hb.2 k (by omega) σk g2

set_option maxRecDepth 100000 in
/-- Three steps: the time-triggered transition is taken in the first one (the set that takes it is dropped
at once: its interval is that of the first step). -/
theorem ttFresh_run : okAnd (do
      let init ← boxStates (ttEnv 3 10) ttBoxes
      let σ0 ← setup (ttEnv 3 10) init
      let σ2 ← runSteps (ttEnv 3 10) 2 σ0
      let r ← runFresh (ttEnv 3 10) 14 σ0
      return (σ2, r)) (fun r => r.2.2 && r.2.1.isFinished (ttEnv 3 10) && decide (r.2.1.verdict = .safe) &&
        r.1.tookTt) = true := by
  decide +kernel

/-- The hypotheses of **C32** for time-triggered transitions are met by a run in which one is taken. -/
example : ((ttEnv 3 10).hybOn ttR).Safe (BoxInit ttBoxes) := by
  obtain ⟨r, h, hσ⟩ := okAnd_ok ttFresh_run
  simp only [Bool.and_eq_true, decide_eq_true_eq] at hσ
  simp only [bind_ok, pure_ok] at h
  obtain ⟨init, h0, σ0, h1, σ2, -, q, hq, rfl⟩ := h
  obtain ⟨a, b⟩ := runFresh_ok hq
  obtain ⟨c1, c2, -⟩ := boxStates_spec (ttBoxes_ok _ _) h0
  have := C32_safe_verdict_tt_partial (ttEnv_ok 3 (by norm_num) 10) (fun s h1 => by cases h1)
    (fun st hs => (c1 st hs).1) h1 a (.inr (b hσ.1.1.1)) hσ.1.1.2 (.inl hσ.1.2)
  intro i x k m hr hm
  exact this i x k m (Reach.mono c2 hr) hm

end Hylaa
