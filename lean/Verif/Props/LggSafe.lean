import Verif.Proofs.LggRun
import Verif.Props.Approx
import Verif.Props.EndToEnd

/-!
# C57: continuous time

With `APPROX_LGG`, a finished analysis without a found error means that no error is reached at any time, also
between the steps - from the second step on (from the first one, with `process_urgent_guards`).

What is missing: automata with transitions to other modes (the sets entered by a transition are wrong if their
radius is not the largest coordinate, C18, and deaggregated sets never get the model), modes with inputs and an
invariant (C42), matrices with a norm in `(0, 1e-7]` (alpha is 0 for them).
-/

set_option linter.unusedSectionVars false

namespace Hylaa
open Spec

theorem boxStates_lgg {E : Env ℝ} (hE : LggEnv E) : ∀ {l : List (ℕ × List (ℝ × ℝ))} {init : List (SS ℝ)},
    boxStates E l = .ok init → (∀ st ∈ init, LggInit E st) ∧
      ∀ p ∈ l, ∃ st ∈ init, st.mode = p.1 ∧ ∀ x, st.lp.Mem x ↔ Box p.2 x
  | [], init, h => by cases h; simp
  | p :: l, init, h => by
    simp only [boxStates, bind_ok, pure_ok, needSome_ok] at h
    obtain ⟨m, hm, lp, hb, st, hs, l', hl', rfl⟩ := h
    obtain ⟨b1, b2⟩ := boxStates_lgg hE hl'
    have hmode : st.mode = p.1 ∧ st.lp = lp := by
      unfold SS.make at hs
      split at hs
      · cases hs; exact ⟨rfl, rfl⟩
      · simp only [bind_ok, pure_ok] at hs
        obtain ⟨_, -, _, -, _, -, rfl⟩ := hs
        exact ⟨rfl, rfl⟩
    refine ⟨fun s hs' => ?_, fun q hq => ?_⟩
    · rcases List.mem_cons.1 hs' with rfl | hs'
      · intro m' hm' he
        rw [hmode.1, hm] at hm'; cases hm'
        obtain ⟨a, hmo, hdyn, -⟩ := hE.mode _ m hm he
        have hb' := hb
        simp only [fromBox, bind_ok, assert_ok] at hb'
        obtain ⟨_, -, hc⟩ := hb'
        have hdims : p.2.length = a.nrows := by
          have hrep := fromConstraints_repr hc (by simp) (boxCsr_wf p.2)
          obtain ⟨G, hG, g1, -⟩ := getBasisMatrix_repr hrep
          simp only [SS.make, hmo.real.dyns, bind_ok, need_ok] at hs
          obtain ⟨bm, hbm, _, hn, -⟩ := hs
          rw [hG] at hbm; cases hbm
          rw [g1] at hn; exact hn.1
        obtain ⟨hf, f1, f2, f3⟩ := fromConstraints_fresh hE.honest (τ := E.lgg.tau) hmo.real hc (by simp) (boxCsr_wf _)
          (by simp) hdims hs
        rw [f1, f2, f3, hdyn]
        exact ⟨hf, rfl⟩
      · exact b1 s hs'
    · rcases List.mem_cons.1 hq with rfl | hq
      · exact ⟨st, by simp, hmode.1, fun x => by rw [hmode.2]; exact C01_from_box hb x⟩
      · obtain ⟨s, hs', h2⟩ := b2 q hq
        exact ⟨s, by simp [hs'], h2⟩

/-- **C57**: with `APPROX_LGG`, if all transitions lead to error modes and the analysis, started in boxes, finishes
with "System is safe", then along any motion `x' = A x + B u(t)`, with inputs that may change at any time, that
starts in one of the boxes and stays inside the invariant, no guard holds at any time between the first step
(time 0 with `process_urgent_guards`) and the end of the last step. -/
theorem C57_continuous_time_partial {E : Env ℝ} (hE : LggEnv E) (hN : 0 < E.set.numSteps) {l : List (ℕ × List (ℝ × ℝ))} {n : ℕ} {σ : Core ℝ}
    (h : analyse E l n = .ok σ) (hf : σ.isFinished E = true) (hv : σ.verdict = .safe)
    {p : ℕ × List (ℝ × ℝ)} (hp : p ∈ l) {m : Mode ℝ} {a : Csr ℝ} (hm : E.ha.modes[p.1]? = some m) (ha : m.a = some a)
    {Tm : ℝ} {w u : ℝ → ℕ → ℝ} (hT : 0 < Tm) (hw : Moves m a Tm w u) (h0 : Box p.2 (w 0))
    (hinv : ∀ s, 0 ≤ s → s < Tm → InvHolds m (w s)) {s : ℝ} (hs : E.set.urgent = true ∧ 0 ≤ s ∨ E.lgg.tau ≤ s)
    (hsT : s ≤ Tm) (hsN : s ≤ (E.set.numSteps + 1) * E.lgg.tau) {ts : List ℕ} {ti : ℕ} {t : Tr ℝ}
    (hts : E.ha.out[p.1]? = some ts) (hti : ti ∈ ts) (ht : E.ha.trans[ti]? = some t) : ¬ GuardHolds t (w s) := by
  have hτ := hE.tau
  simp only [analyse, bind_ok] at h
  obtain ⟨init, hi, σ0, h1, h2⟩ := h
  obtain ⟨i1, i2⟩ := boxStates_lgg hE hi
  obtain ⟨G, M, hI, hkept⟩ := setup_lgg hE i1 h1
  unfold Core.verdict at hv
  have hconc : σ.hasConc = false := by
    cases hq : σ.hasConc
    · rfl
    · rw [hq] at hv; cases hv
  have hagg : σ.hasAgg = false := by
    rw [hconc] at hv
    cases hq : σ.hasAgg
    · rfl
    · rw [hq] at hv; cases hv
  have hI' := runSteps_lgg hE n hI h2 hagg hconc
  simp only [Core.isFinished, hagg, hconc, Bool.and_false, Bool.false_eq_true, if_false, Bool.and_eq_true,
    Option.isNone_iff_eq_none, List.isEmpty_iff] at hf
  obtain ⟨⟨hcur, hwait⟩, -⟩ := hf
  have herr : m.isError = false := by simp [Mode.isError, ha]
  obtain ⟨st, hst, hmode, hmem⟩ := i2 p hp
  have hiE : InvEps 0 m (w 0) := (invEps_zero m _).2 (hinv 0 le_rfl hT)
  rcases hkept st hst m (by rw [hmode]; exact hm) herr with ⟨j, s', hj, hjm, hG⟩ | hout
  swap
  · exact absurd hiE (hout _ ((hmem _).2 h0))
  -- its state set at the end
  obtain ⟨s'', hs'', hm''⟩ : ∃ s'', σ.states[j]? = some s'' ∧ s''.mode = p.1 := by
    have e : (σ.states.map fun s => s.mode)[j]? = (σ0.states.map fun s => s.mode)[j]? := by rw [hI'.modes, hI.modes]
    simp only [List.getElem?_map, hj] at e
    cases hq : σ.states[j]? with
    | none => rw [hq] at e; cases e
    | some s'' =>
      rw [hq] at e
      simp only [Option.map_some, Option.some.injEq] at e
      exact ⟨s'', rfl, e.trans (hjm.trans hmode)⟩
  have hdone := hI'.done j s'' hs'' (by rw [hwait]; simp) (by rw [hcur]; simp)
  rw [hm''] at hdone
  have hs0 : 0 ≤ s := by rcases hs with hs | hs <;> linarith [hs]
  have hmot : Mot m a (G j) Tm w u := ⟨hw, by rw [hG]; exact ⟨(hmem _).2 h0, hiE⟩,
    fun s h1 h2 => (invEps_zero m _).2 (hinv s h1 h2)⟩
  -- the step
  have hfl : (⌊s / E.lgg.tau⌋₊ : ℝ) * E.lgg.tau ≤ s := by
    rw [← le_div_iff₀ hτ]; exact Nat.floor_le (by positivity)
  have hfu : s ≤ (⌊s / E.lgg.tau⌋₊ + 1) * E.lgg.tau := by
    rw [← div_le_iff₀ hτ]; exact (Nat.lt_floor_add_one _).le
  have hfirst : E.firstStep ≤ ⌊s / E.lgg.tau⌋₊ := by
    unfold Env.firstStep
    split
    · exact Nat.zero_le _
    · rename_i hu
      rcases hs with hs | hs
      · exact absurd hs.1 hu
      · exact Nat.le_floor (by rw [Nat.cast_one, le_div_iff₀ hτ]; linarith)
  have hone : E.firstStep ≤ 1 := by unfold Env.firstStep; split <;> simp
  obtain ⟨k, k1, k2, k3, k4⟩ : ∃ k : ℕ, E.firstStep ≤ k ∧ k ≤ E.set.numSteps ∧ k * E.lgg.tau ≤ s ∧
      s ≤ (k + 1) * E.lgg.tau := by
    by_cases hle : ⌊s / E.lgg.tau⌋₊ ≤ E.set.numSteps
    · exact ⟨_, hfirst, hle, hfl, hfu⟩
    · refine ⟨E.set.numSteps, by omega, le_rfl, le_trans ?_ hfl, hsN⟩
      exact mul_le_mul_of_nonneg_right (by exact_mod_cast (by omega)) hτ.le
  exact hdone m hm herr k k1 k2 m a hm ha Tm w u hT hmot s k3 k4 hsT ts ti t hts hti ht

/-- `E` is the environment of an analysis with `APPROX_LGG` of the automaton built by the script `ops`. -/
structure Env.OfLgg (E : Env ℝ) (ops : List (BuildOp ℝ)) (str : Bool) (tolIn tolStr : ℝ) : Prop where
  script : ScriptOk ops
  honest : E.S.Honest
  tol : 0 < E.T.inter
  eps : 0 ≤ E.epsTt
  prepared : (HA.build E.S tolIn ops).setupHa E.set.tt str E.epsTt tolStr = .ok E.ha
  expm : E.Expm E.lgg.tau
  model : E.approx = .lgg
  exp : E.lgg.exp = Real.exp

/-- **C57** from the script: the guards and invariants are those the user wrote (not the strengthened ones). -/
theorem C57_script_partial {E : Env ℝ} {ops : List (BuildOp ℝ)} {str : Bool} {tolIn tolStr : ℝ}
    (h : E.OfLgg ops str tolIn tolStr) (hN : 0 < E.set.numSteps)
    (hplain : ∀ m ∈ (HA.build E.S tolIn ops).modes, m.inputs = none ∨ m.inv = [])
    (hzero : E.set.skipZero = true → ∀ m ∈ (HA.build E.S tolIn ops).modes, ∀ a, m.a = some a →
      a.noEntries = true → m.inputs = none)
    (hnorm : ∀ m ∈ (HA.build E.S tolIn ops).modes, ∀ a, m.a = some a → aNorm a = 0 ∨ E.lgg.tol < aNorm a)
    (hshape : ∀ m ∈ (HA.build E.S tolIn ops).modes, ∀ a inp, m.a = some a → m.inputs = some inp → inp.Shaped a.nrows)
    (hdst : ∀ t ∈ (HA.build E.S tolIn ops).trans, ∃ m, (HA.build E.S tolIn ops).modes[t.dst]? = some m ∧ m.a = none)
    {l : List (ℕ × List (ℝ × ℝ))} {n : ℕ} {σ : Core ℝ}
    (hr : analyse E l n = .ok σ) (hf : σ.isFinished E = true) (hv : σ.verdict = .safe)
    {p : ℕ × List (ℝ × ℝ)} (hp : p ∈ l) {m : Mode ℝ} {a : Csr ℝ} (hm : (HA.build E.S tolIn ops).modes[p.1]? = some m)
    (ha : m.a = some a) {Tm : ℝ} {w u : ℝ → ℕ → ℝ} (hT : 0 < Tm) (hw : Moves m a Tm w u) (h0 : Box p.2 (w 0))
    (hinv : ∀ s, 0 ≤ s → s < Tm → InvHolds m (w s)) {s : ℝ} (hs : E.set.urgent = true ∧ 0 ≤ s ∨ E.lgg.tau ≤ s)
    (hsT : s ≤ Tm) (hsN : s ≤ (E.set.numSteps + 1) * E.lgg.tau) {t : Tr ℝ}
    (ht : t ∈ (HA.build E.S tolIn ops).trans) (hsrc : t.src = p.1) : ¬ GuardHolds t (w s) := by
  have hb := (build_ok (tol := tolIn) h.honest ops h.script).1
  obtain ⟨hp', htr, -⟩ := setupHa_spec h.eps hb h.prepared
  have hE : LggEnv E := by
    refine ⟨h.honest, h.tol, h.model, h.exp, h.expm.1, fun i m hm he => ?_, fun i m ts hm he hts ti hti t ht => ?_⟩
    · obtain ⟨a, ha⟩ : ∃ a, m.a = some a := by
        cases hma : m.a with
        | none => simp [Mode.isError, hma] at he
        | some a => exact ⟨a, rfl⟩
      have hdyn := h.expm.2 i m a hm ha
      rw [hp'.modes] at hm
      have hmm := List.mem_of_getElem? hm
      exact ⟨a, ⟨(hb.modes m hmm).real ha, fun inp hi => hshape m hmm a inp ha hi, hplain m hmm, hnorm m hmm a ha⟩,
        hdyn, fun hz hno => hzero hz m hmm a ha hno⟩
    · have hto := htr t (List.mem_of_getElem? ht)
      refine ⟨fun g hg => (hto.guard g hg).1, ?_⟩
      obtain ⟨t0, ht0⟩ : ∃ t0, (HA.build E.S tolIn ops).trans[ti]? = some t0 := by
        have := lt_of_getElem? ht
        rw [hp'.len] at this
        exact ⟨_, List.getElem?_eq_getElem this⟩
      obtain ⟨dst, hd, he'⟩ := hdst t0 (List.mem_of_getElem? ht0)
      rw [hp'.modes, (hp'.trans ti t0 t ht0 ht).dst]
      exact ⟨dst, hd, by simp [Mode.isError, he']⟩
  obtain ⟨ti, hti⟩ := List.mem_iff_getElem?.1 ht
  obtain ⟨ts, l1, l2⟩ := hb.cons.listed ti t hti
  obtain ⟨t', ht'⟩ : ∃ t', E.ha.trans[ti]? = some t' := by
    have := lt_of_getElem? hti
    rw [← hp'.len] at this
    exact ⟨_, List.getElem?_eq_getElem this⟩
  intro hg
  refine C57_continuous_time_partial hE hN hr hf hv hp (by rw [hp'.modes]; exact hm) ha hT hw h0 hinv hs hsT hsN
    (by rw [hp'.out, ← hsrc]; exact l1) (List.mem_of_getElem? l2) ht' ?_
  refine (hp'.trans ti t t' hti ht').more _ hg fun _ m' hm' lc hlc => ?_
  obtain ⟨dst, hd, he'⟩ := hdst t ht
  rw [hd] at hm'; cases hm'
  rw [((hb.modes _ (List.mem_of_getElem? hd)).none_ he').1] at hlc
  simp at hlc

end Hylaa
