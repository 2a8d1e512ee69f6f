import Verif.Proofs.Script
import Verif.Proofs.Dwell
import Verif.Props.Concrete
import Verif.Props.Invariant

/-!
# C32, C33 from the script to the verdict

The automaton is the one built by a script of API calls (`HA.build`); the analysis prepares it (`setup_ha`:
time-triggered transitions, guard strengthening, checks), builds the initial sets from boxes and runs.  The
conclusion is about the automaton as the user wrote it — first in discrete time, then with the trajectories of
the differential equations (`Spec/Continuous.lean`).
-/

set_option linter.unusedSectionVars false

namespace Hylaa
open Spec

section
variable {K : Type} [Field K] [LinearOrder K] [IsStrictOrderedRing K]
  {E : Env K} {ops : List (BuildOp K)} {str : Bool} {tolIn tolStr : K}

/-- **C32** from the script: if the analysis of the automaton built by a script, started in boxes, finishes
with a "safe" message, then the automaton as written is safe.  (Not for modes with inputs and an invariant,
C42; for time-triggered transitions see `C32_safe_verdict_tt_partial`.) -/
theorem C32_script_partial (h : E.Of ops str tolIn tolStr)
    (hplain : ∀ m ∈ (HA.build E.S tolIn ops).modes, m.inputs = none ∨ m.inv = [])
    (hzero : E.set.skipZero = true → ∀ (i : ℕ) (m : Mode K) (a : Csr K),
      (HA.build E.S tolIn ops).modes[i]? = some m → m.a = some a → a.noEntries = true → m.inputs = none ∧
        ∀ r < a.nrows, ∀ c < a.nrows, ((E.dyn i).ex 1).e r c = if r = c then 1 else 0)
    (hnt : E.NoTt) (hsp : E.SamePath) {l : List (ℕ × List (K × K))}
    (hl : ∀ p ∈ l, ∀ m : Mode K, (HA.build E.S tolIn ops).modes[p.1]? = some m → m.isError = false) {n : ℕ}
    {σ : Core K} (hr : analyse E l n = .ok σ) (hf : σ.isFinished E = true)
    (hv : σ.verdict = .safe ∨ (σ.verdict = .safeAgg ∧ E.deaggOn ∧ E.set.stopAgg = false)) :
    (E.user (HA.build E.S tolIn ops)).Safe (BoxInit l) := by
  have hm := h.spec.2.1.modes
  refine h.safe (C32_boxes_partial (E := E) ?_ hnt hsp ?_ hr hf hv)
  · refine { h.base with plain := fun i m h1 _ => ?_, tt := fun htt i m l ti t g h1 h2 h3 h4 h5 h6 => ?_, zero := ?_ }
    · rw [hm] at h1
      exact hplain m (List.mem_of_getElem? h1)
    · rw [hnt t (List.mem_of_getElem? h5) htt] at h6; cases h6
    · intro hz i m a h1 h2 h3
      have hd := h.dyn i m a h1 h2
      rw [hm] at h1
      obtain ⟨q1, q2⟩ := hzero hz i m a h1 h2 h3
      exact ⟨q1, fun r hr c hc => q2 r (by rw [← hd.dims]; exact hr) c (by rw [← hd.dims]; exact hc)⟩
  · rw [hm]; exact hl

/-- **C33** from the script: without deaggregation and without time-triggered transitions (whose guards are
relaxed), "Error modes are reachable" means that a run of the automaton as written enters an error mode. -/
theorem C33_script_partial (h : E.Of ops str tolIn tolStr)
    (hplain : ∀ m ∈ (HA.build E.S tolIn ops).modes, m.inputs = none ∨ m.inv = [])
    (hnt : ∀ t ∈ E.ha.trans, t.tt = false) (hd : ¬ E.deaggOn) {l : List (ℕ × List (K × K))}
    (hl : ∀ p ∈ l, ∀ m : Mode K, (HA.build E.S tolIn ops).modes[p.1]? = some m → m.isError = false) {n : ℕ}
    {σ : Core K} (hr : analyse E l n = .ok σ) (hv : σ.verdict = .reachable) :
    ∃ i x k m, (E.user (HA.build E.S tolIn ops)).Reach E.T.inter (BoxInit l) i x k ∧
      (HA.build E.S tolIn ops).modes[i]? = some m ∧ m.isError = true := by
  have hm := h.spec.2.1.modes
  obtain ⟨i, x, k, m, h1, h2, h3⟩ := C33_boxes_partial (E := E)
    { h.base with plain := fun i m h1 _ => by rw [hm] at h1; exact hplain m (List.mem_of_getElem? h1) }
    h.minkOk hd (by rw [hm]; exact hl) hr hv
  exact ⟨i, x, k, m, h.reach_user hnt h1, by rw [← hm]; exact h2, h3⟩

end

/-! ### Trajectories -/

/-- The dynamics used by the analysis are the solutions of the modes' differential equations for the step
size `τ`. -/
def Env.Expm (E : Env ℝ) (τ : ℝ) : Prop :=
  0 < τ ∧ ∀ (i : ℕ) (m : Mode ℝ) (a : Csr ℝ), E.ha.modes[i]? = some m → m.a = some a →
    E.dyn i = dynOf a m.inputs τ

/-- `E` is the environment of an analysis of the automaton built by the script `ops`, with step size `τ`;
the solver is exact. -/
structure Env.OfReal (E : Env ℝ) (ops : List (BuildOp ℝ)) (str : Bool) (tolIn tolStr τ : ℝ) : Prop where
  noApprox : E.approx = .none
  script : ScriptOk ops
  honest : E.S.Honest
  tol : 0 ≤ E.T.inter
  eps : 0 ≤ E.epsTt
  prepared : (HA.build E.S tolIn ops).setupHa E.set.tt str E.epsTt tolStr = .ok E.ha
  expm : E.Expm τ

section
variable {E : Env ℝ} {ops : List (BuildOp ℝ)} {str : Bool} {tolIn tolStr τ : ℝ}

theorem ModeOk.real {m : Mode ℝ} (h : ModeOk m) {a : Csr ℝ} (ha : m.a = some a) : ModeReal m a := by
  obtain ⟨d1, d2, d3, d4⟩ := h.dyn a ha
  exact ⟨ha, d1, d2, d3, h.inp, d4⟩

theorem Env.OfReal.toOf (h : E.OfReal ops str tolIn tolStr τ) : E.Of ops str tolIn tolStr := by
  refine ⟨h.noApprox, h.script, h.honest, h.tol, h.eps, h.prepared, fun i m a hm ha => ?_⟩
  have hb := (build_ok (tol := tolIn) h.honest ops h.script).1
  have hp := (setupHa_spec h.eps hb h.prepared).1
  have hmo : ModeOk m := by
    rw [hp.modes] at hm
    exact hb.modes m (List.mem_of_getElem? hm)
  rw [h.expm.2 i m a hm ha]
  have := (hmo.real ha).dyn τ
  exact ⟨this.laws, rfl, this.inp, this.noInp⟩

/-- Runs in discrete time and trajectories are the same. -/
theorem Env.OfReal.reach_iff (h : E.OfReal ops str tolIn tolStr τ) {ε : ℝ} {X0 : ℕ → (ℕ → ℝ) → Prop} {i : ℕ}
    {x : ℕ → ℝ} {n : ℕ} : (E.user (HA.build E.S tolIn ops)).Reach ε X0 i x n ↔
      (⟨HA.build E.S tolIn ops, τ, E.set.urgent, E.set.numSteps, ε⟩ : Ct).Reach X0 i x n := by
  obtain ⟨hb, hp, -, -⟩ := h.toOf.spec
  have hreal : ∀ {i : ℕ} {m : Mode ℝ} {a : Csr ℝ}, (HA.build E.S tolIn ops).modes[i]? = some m → m.a = some a →
      ModeReal m a ∧ E.dyn i = dynOf a m.inputs τ := by
    intro i m a hm ha
    refine ⟨(hb.modes m (List.mem_of_getElem? hm)).real ha, h.expm.2 i m a ?_ ha⟩
    rw [hp.modes]; exact hm
  constructor
  · intro hr
    induction hr with
    | init h0 hm hi => exact .init h0 hm hi
    | @jump i x n k ti j y hr hj hn ih =>
      refine .jump (ti := ti) ih ?_ hn
      obtain ⟨m, t, z, l, h1, h2, h3, h4, h5, h6, h7, h8, h9, rfl, -⟩ := hj
      obtain ⟨a, ha⟩ : ∃ a, m.a = some a := by
        cases hma : m.a with
        | none => simp [Mode.isError, hma] at h2
        | some a => exact ⟨a, rfl⟩
      obtain ⟨r1, r2⟩ := hreal h1 ha
      have h3 : Flow ε m (E.dyn i) k x z := h3
      have h9 : ResetTo (E.dyn i).dims t z y := h9
      rw [r2] at h3 h9
      have hsrc : t.src = i := by
        obtain ⟨j, hj⟩ := List.mem_iff_getElem?.1 h6
        obtain ⟨t0, q1, q2, -⟩ := hb.cons.only i l j ti h5 hj
        have : t0 = t := Option.some.inj (q1.symm.trans h7)
        rw [← this]; exact q2
      exact ⟨m, a, t, z, h1, ha, (flow_iff_dwells r1 h.expm.1 k x z).1 h3, h4, h7, hsrc, h8, h9, rfl⟩
  · intro hr
    induction hr with
    | init h0 hm hi => exact .init h0 hm hi
    | @jump i x n k ti j y hr hj hn ih =>
      refine .jump (ti := ti) ih ?_ hn
      obtain ⟨m, a, t, z, h1, ha, h3, h4, h7, hsrc, h8, h9, rfl⟩ := hj
      obtain ⟨r1, r2⟩ := hreal h1 ha
      obtain ⟨l, l1, l2⟩ := hb.cons.listed ti t h7
      rw [hsrc] at l1
      refine ⟨m, t, z, l, h1, by simp [Mode.isError, ha], ?_, h4, l1, List.mem_of_getElem? l2, h7, h8, ?_, rfl, trivial⟩
      · show Flow ε m (E.dyn i) k x z
        rw [r2]
        exact (flow_iff_dwells r1 h.expm.1 k x z).2 h3
      · show ResetTo (E.dyn i).dims t z y
        rw [r2]
        exact h9

/-- **C32** from the script to trajectories: if the analysis ends with a "safe" message, no trajectory of the
automaton as written — following `x' = A x + B u` in each mode, inputs constant during each step, guards and
invariants looked at after each step — enters an error mode within the time bound. -/
theorem C32_trajectories_partial (h : E.OfReal ops str tolIn tolStr τ)
    (hplain : ∀ m ∈ (HA.build E.S tolIn ops).modes, m.inputs = none ∨ m.inv = [])
    (hzero : E.set.skipZero = true → ∀ m ∈ (HA.build E.S tolIn ops).modes, ∀ a, m.a = some a →
      a.noEntries = true → m.inputs = none)
    (hnt : E.NoTt) (hsp : E.SamePath) {l : List (ℕ × List (ℝ × ℝ))}
    (hl : ∀ p ∈ l, ∀ m : Mode ℝ, (HA.build E.S tolIn ops).modes[p.1]? = some m → m.isError = false) {n : ℕ}
    {σ : Core ℝ} (hr : analyse E l n = .ok σ) (hf : σ.isFinished E = true)
    (hv : σ.verdict = .safe ∨ (σ.verdict = .safeAgg ∧ E.deaggOn ∧ E.set.stopAgg = false)) :
    (⟨HA.build E.S tolIn ops, τ, E.set.urgent, E.set.numSteps, 0⟩ : Ct).Safe (BoxInit l) := by
  have hs := C32_script_partial h.toOf hplain ?_ hnt hsp hl hr hf hv
  · intro i x n m hr hm hne
    have := hs i x n m (h.reach_iff.2 hr) hm
    simp [Mode.isError, hne] at this
  · intro hz i m a hm ha hno
    refine ⟨hzero hz m (List.mem_of_getElem? hm) a ha hno, fun r hr c hc => ?_⟩
    have he : E.ha.modes[i]? = some m := by rw [h.toOf.spec.2.1.modes]; exact hm
    rw [h.expm.2 i m a he ha]
    have h0 : ∀ r ∈ a.rows, r = [] := by
      intro r hr
      have := List.all_eq_true.1 hno r hr
      simpa using this
    exact dynOf_zero h0 m.inputs τ 1 hr hc

/-- **C33** from the script to trajectories. -/
theorem C33_trajectories_partial (h : E.OfReal ops str tolIn tolStr τ)
    (hplain : ∀ m ∈ (HA.build E.S tolIn ops).modes, m.inputs = none ∨ m.inv = [])
    (hnt : ∀ t ∈ E.ha.trans, t.tt = false) (hd : ¬ E.deaggOn) {l : List (ℕ × List (ℝ × ℝ))}
    (hl : ∀ p ∈ l, ∀ m : Mode ℝ, (HA.build E.S tolIn ops).modes[p.1]? = some m → m.isError = false) {n : ℕ}
    {σ : Core ℝ} (hr : analyse E l n = .ok σ) (hv : σ.verdict = .reachable) :
    ∃ i x k m, (⟨HA.build E.S tolIn ops, τ, E.set.urgent, E.set.numSteps, E.T.inter⟩ : Ct).Reach (BoxInit l) i x k ∧
      (HA.build E.S tolIn ops).modes[i]? = some m ∧ m.a = none := by
  obtain ⟨i, x, k, m, h1, h2, h3⟩ := C33_script_partial h.toOf hplain hnt hd hl hr hv
  refine ⟨i, x, k, m, h.reach_iff.1 h1, h2, ?_⟩
  simpa [Mode.isError] using h3

end

/-! ### A script -/

/-- The automaton of `Props/RunEx.lean`, with an invariant `x ≤ 100` of mode 1, as a script; two calls of it
are refused (a name used twice, an invariant of the wrong width). -/
def exScript (lim : ℚ) : List (BuildOp ℚ) :=
  [.newMode "up", .newMode "down", .newMode "bad", .newMode "up",
    .setDynamics 0 ⟨2, [[(1, 1)], []]⟩, .setInvariant 0 ⟨2, [[(0, 1)]]⟩ [3],
    .setDynamics 1 ⟨2, [[(1, -1)], []]⟩, .setInvariant 1 ⟨1, [[(0, 1)]]⟩ [3], .setInvariant 1 ⟨2, [[(0, 1)]]⟩ [100],
    .newTransition 0 1 none, .setGuard 0 ⟨2, [[(0, -1)]]⟩ [-2],
    .newTransition 1 2 none, .setGuard 1 ⟨2, [[(0, -1)], [(0, 1)]]⟩ [-lim, 1000]]

/-- The environment of its analysis; the automaton is the result of `setup_ha`. -/
def exScriptEnv (steps : ℕ) (lim : ℚ) (strat : Option AggStrat) : Env ℚ :=
  { exEnv steps lim strat with
    ha := match (HA.build (Simplex.solver 100) (1 / 10 ^ 9) (exScript lim)).setupHa true true (1 / 1000) (1 / 10 ^ 13) with
      | .ok ha => ha
      | .error _ => {} }

instance : DecidableEq (SRow ℚ) := inferInstanceAs (DecidableEq (List (ℕ × ℚ)))

/-- What is built and prepared. -/
theorem exScript_prepared (lim : ℚ) (hlim : lim = 10 ∨ lim = 3 / 2) :
    okAnd ((HA.build (Simplex.solver 100) (1 / 10 ^ 9) (exScript lim)).setupHa true true (1 / 1000) (1 / 10 ^ 13))
      (fun ha => decide (ha.modes.map (fun m => (m.name, m.a.map fun a => (a.ncols, a.rows))) =
          [("up", some (2, [[(1, 1)], []])), ("down", some (2, [[(1, -1)], []])), ("bad", none)]) &&
        decide (ha.trans.map (fun t => (t.src, t.dst, t.guard.map fun g => (g.1.rows, g.2))) =
          [(0, 1, some ([[(0, -1)], [(0, 1)]], [-2, 100])), (1, 2, some ([[(0, -1)], [(0, 1)]], [-lim, 1000]))]) &&
        decide (ha.trans.map (fun t => t.tt) = [false, false]) &&
        decide (ha.modes.map (fun m => m.inputs.isNone) = [true, true, true])) = true := by
  rcases hlim with rfl | rfl <;> decide +kernel

theorem exScript_ok (lim : ℚ) : ScriptOk (exScript lim) := by
  refine ⟨fun op hop => ?_, (by decide : [0, 1].Nodup)⟩
  simp only [exScript, List.mem_cons, List.not_mem_nil, or_false] at hop
  rcases hop with rfl | rfl | rfl | rfl | rfl | rfl | rfl | rfl | rfl | rfl | rfl | rfl | rfl <;>
    first
    | trivial
    | exact ⟨⟨by simp, by simp⟩, by simp [Csr.nrows]⟩
    | exact ⟨by simp, by simp⟩


theorem exScript_of (steps : ℕ) {lim : ℚ} (hlim : lim = 10 ∨ lim = 3 / 2) (strat : Option AggStrat) :
    (exScriptEnv steps lim strat).Of (exScript lim) true (1 / 10 ^ 9) (1 / 10 ^ 13) ∧
      (∀ t ∈ (exScriptEnv steps lim strat).ha.trans, t.tt = false) ∧
      ∀ (i : ℕ) (m : Mode ℚ), (exScriptEnv steps lim strat).ha.modes[i]? = some m → m.inputs = none ∧
        (m.isError = true ↔ i = 2) ∧ ∀ a, m.a = some a → a.noEntries = false := by
  obtain ⟨ha, h, hh⟩ := okAnd_ok (exScript_prepared lim hlim)
  simp only [Bool.and_eq_true, decide_eq_true_eq] at hh
  obtain ⟨⟨⟨hm, -⟩, htt⟩, hin⟩ := hh
  have hE : (exScriptEnv steps lim strat).ha = ha := by
    simp only [exScriptEnv]
    rw [h]
  have hmode : ∀ (i : ℕ) (m : Mode ℚ), ha.modes[i]? = some m → m.inputs = none ∧ (m.isError = true ↔ i = 2) ∧
      ∀ a, m.a = some a → a.nrows = 2 ∧ a.noEntries = false := by
    intro i m hi
    have e1 := congrArg (fun l : List (String × Option (ℕ × List (SRow ℚ))) => l[i]?) hm
    have e2 := congrArg (fun l : List Bool => l[i]?) hin
    simp only [List.getElem?_map, hi, Option.map_some] at e1 e2
    have hlt : i < 3 := by
      by_contra hc
      obtain ⟨j, rfl⟩ : ∃ j, i = j + 3 := ⟨i - 3, by omega⟩
      simp at e1
    have hcase : i = 0 ∨ i = 1 ∨ i = 2 := by omega
    rcases hcase with rfl | rfl | rfl <;>
      simp only [List.getElem?_cons_zero, List.getElem?_cons_succ, Option.some.injEq, Prod.mk.injEq] at e1 e2 <;>
      refine ⟨by simpa using e2, ?_, fun a ha => ?_⟩
    · cases hma : m.a with
      | none => rw [hma] at e1; simp at e1
      | some a => simp [Mode.isError, hma]
    · rw [ha] at e1
      simp only [Option.map_some, Option.some.injEq, Prod.mk.injEq] at e1
      have hr : a.rows = [[(1, 1)], []] := e1.2.2
      exact ⟨by simp [Csr.nrows, hr], by simp [Csr.noEntries, hr]⟩
    · cases hma : m.a with
      | none => rw [hma] at e1; simp at e1
      | some a => simp [Mode.isError, hma]
    · rw [ha] at e1
      simp only [Option.map_some, Option.some.injEq, Prod.mk.injEq] at e1
      have hr : a.rows = [[(1, -1)], []] := e1.2.2
      exact ⟨by simp [Csr.nrows, hr], by simp [Csr.noEntries, hr]⟩
    · simp only [Option.map_eq_none_iff] at e1
      simp [Mode.isError, e1.2]
    · rw [ha] at e1; simp at e1
  refine ⟨⟨rfl, exScript_ok lim, Simplex.honest _, by simp [exScriptEnv, exEnv], by simp [exScriptEnv, exEnv],
    by rw [hE]; exact h, fun i m a hm ha => ?_⟩, ?_, ?_⟩
  · rw [hE] at hm
    obtain ⟨q1, -, q3⟩ := hmode i m hm
    exact ⟨exDyn_laws _, (q3 a ha).1.symm, by simp [exScriptEnv, exEnv, exDyn], fun _ => q1⟩
  · rw [hE]
    intro t ht
    have : t.tt ∈ ha.trans.map fun t => t.tt := List.mem_map_of_mem ht
    rw [htt] at this
    simpa using this
  · rw [hE]
    intro i m hi
    obtain ⟨q1, q2, q3⟩ := hmode i m hi
    exact ⟨q1, q2, fun a ha => (q3 a ha).2⟩

set_option maxRecDepth 100000 in
theorem exScript_run : okAnd (analyse (exScriptEnv 3 10 (some { kind := .box })) [(0, [(0, 1), (1, 1)])] 9)
    (fun σ => σ.isFinished (exScriptEnv 3 10 (some { kind := .box })) && decide (σ.verdict = .safe)) = true := by
  decide +kernel

set_option maxRecDepth 100000 in
theorem exScript_run' : okAnd (analyse (exScriptEnv 4 (3 / 2) none) [(0, [(0, 1), (1, 1)])] 13)
    (fun σ => decide (σ.verdict = .reachable)) = true := by
  decide +kernel

/-- The hypotheses of `C32_script_partial` are met: the automaton of the script is safe. -/
example : ((exScriptEnv 3 10 (some { kind := .box })).user
    (HA.build (Simplex.solver 100) (1 / 10 ^ 9) (exScript 10))).Safe (BoxInit [(0, [(0, 1), (1, 1)])]) := by
  obtain ⟨hof, htt, hm⟩ := exScript_of 3 (.inl rfl) (some { kind := .box })
  obtain ⟨σ, h, hσ⟩ := okAnd_ok exScript_run
  simp only [Bool.and_eq_true, decide_eq_true_eq] at hσ
  have hmod : ∀ (i : ℕ) (m : Mode ℚ), (HA.build (Simplex.solver 100) (1 / 10 ^ 9) (exScript 10)).modes[i]? = some m →
      (exScriptEnv 3 10 (some { kind := .box })).ha.modes[i]? = some m := by
    intro i m hi
    rw [hof.spec.2.1.modes]; exact hi
  refine C32_script_partial hof (fun m hmm => .inl ?_) (fun _ i m a h1 h2 h3 => ?_) (fun t ht _ => htt t ht) ?_
    (fun p hp m h1 => ?_) h hσ.1 (.inl hσ.2)
  · obtain ⟨i, hi⟩ := List.mem_iff_getElem?.1 hmm
    exact (hm i m (hmod i m hi)).1
  · rw [(hm i m (hmod i m h1)).2.2 a h2] at h3; cases h3
  · intro s h1 h2
    cases h1
    simp at h2
  · simp at hp
    subst hp
    have := (hm 0 m (hmod 0 m h1)).2.1
    simpa using this

/-- Those of `C33_script_partial` too: with the guard at `3/2` the error mode can be entered. -/
example : ∃ i x k m, ((exScriptEnv 4 (3 / 2) none).user
      (HA.build (Simplex.solver 100) (1 / 10 ^ 9) (exScript (3 / 2)))).Reach (1 / 1000000)
        (BoxInit [(0, [(0, 1), (1, 1)])]) i x k ∧
      (HA.build (Simplex.solver 100) (1 / 10 ^ 9) (exScript (3 / 2))).modes[i]? = some m ∧ m.isError = true := by
  obtain ⟨hof, htt, hm⟩ := exScript_of 4 (.inr rfl) none
  obtain ⟨σ, h, hσ⟩ := okAnd_ok exScript_run'
  simp only [decide_eq_true_eq] at hσ
  have hmod : ∀ (i : ℕ) (m : Mode ℚ), (HA.build (Simplex.solver 100) (1 / 10 ^ 9) (exScript (3 / 2))).modes[i]? = some m →
      (exScriptEnv 4 (3 / 2) none).ha.modes[i]? = some m := by
    intro i m hi
    rw [hof.spec.2.1.modes]; exact hi
  refine C33_script_partial hof (fun m hmm => .inl ?_) htt ?_ (fun p hp m h1 => ?_) h hσ
  · obtain ⟨i, hi⟩ := List.mem_iff_getElem?.1 hmm
    exact (hm i m (hmod i m hi)).1
  · rintro ⟨s, h1, -⟩
    cases h1
  · simp at hp
    subst hp
    have := (hm 0 m (hmod 0 m h1)).2.1
    simpa using this

end Hylaa
