import Verif.Proofs.Simplex
import Verif.Props.Safe
import Verif.Props.Build
import Verif.Props.Bound
import Verif.Props.Dag

/-!
# C32 from boxes to verdict, and complete runs as examples

The examples run the whole model (set-up, main loop, aggregation, LP solving with the honest solver of
`Proofs/Simplex.lean`) inside the kernel.
-/

set_option linter.unusedSectionVars false

namespace Hylaa
open Spec
section
variable {K : Type} [Field K] [LinearOrder K] [IsStrictOrderedRing K]

/-- What the user writes: `StateSet(from_box(box, mode), mode)` for each pair (mode, box). -/
def boxStates (E : Env K) : List (ℕ × List (K × K)) → Except Err (List (SS K))
  | [] => .ok []
  | p :: l => do
    let m ← needSome E.ha.modes[p.1]?
    let lp ← fromBox E.S p.2 m
    let st ← SS.make E.T m p.1 lp (0, 0) [] true
    let l ← boxStates E l
    return st :: l

/-- The states to start from. -/
def BoxInit (l : List (ℕ × List (K × K))) (i : ℕ) (x : ℕ → K) : Prop :=
  ∃ p ∈ l, p.1 = i ∧ Box p.2 x

theorem UserInit.of_box {E : Env K} {m : Mode K} {i : ℕ} {box : List (K × K)} {lp : Lp K} {st : SS K}
    (hm : E.ha.modes[i]? = some m) (he : m.isError = false) (hb : fromBox E.S box m = .ok lp)
    (hs : SS.make E.T m i lp (0, 0) [] true = .ok st) :
    UserInit E st ∧ st.mode = i ∧ st.lp = lp ∧ st.steps = (0, 0) := by
  have hst : st.mode = i ∧ st.lp = lp ∧ st.steps = (0, 0) := by
    unfold SS.make at hs
    split at hs
    · cases hs; exact ⟨rfl, rfl, rfl⟩
    · simp only [bind_ok, pure_ok] at hs
      obtain ⟨_, -, _, -, _, -, rfl⟩ := hs
      exact ⟨rfl, rfl, rfl⟩
  obtain ⟨h1, h2, h3⟩ := hst
  refine ⟨?_, h1, h2, h3⟩
  simp only [fromBox, bind_ok, assert_ok] at hb
  obtain ⟨_, -, hb⟩ := hb
  have ho := fromConstraints_ok hb (by simp)
  have hrep := fromConstraints_repr hb (by simp) (boxCsr_wf box)
  refine ⟨m, _, _, by rw [h1]; exact hm, he, by rw [h2]; exact hrep, ?_, fun _ => ?_, ?_⟩
  · rw [h2]
    intro j hj
    rw [ho.2.2.2.2.2.2.2.2.2.2.2.1] at hj
    exact absurd rfl hj
  · rw [h2]; exact fromConstraints_noLo hb
  · rw [h1, h2]; exact hs

theorem boxStates_spec {E : Env K} : ∀ {l : List (ℕ × List (K × K))} {init : List (SS K)},
    (∀ p ∈ l, ∀ m : Mode K, E.ha.modes[p.1]? = some m → m.isError = false) → boxStates E l = .ok init →
    (∀ st ∈ init, UserInit E st ∧ st.steps = (0, 0)) ∧ (∀ i x, BoxInit l i x → InitSet init i x) ∧
      ∀ i x, InitSet init i x → BoxInit l i x
  | [], init, hl, h => by
    cases h
    exact ⟨by simp, fun i x ⟨p, hp, _⟩ => by simp at hp, fun i x ⟨p, hp, _⟩ => by simp at hp⟩
  | p :: l, init, hl, h => by
    simp only [boxStates, bind_ok, pure_ok, needSome_ok] at h
    obtain ⟨m, hm, lp, hb, st, hs, l', hl', rfl⟩ := h
    obtain ⟨a1, a2, a3, a4⟩ := UserInit.of_box hm (hl p (by simp) m hm) hb hs
    obtain ⟨b1, b2, b3⟩ := boxStates_spec (fun q hq => hl q (by simp [hq])) hl'
    refine ⟨fun s hs => ?_, fun i x hx => ?_, fun i x hx => ?_⟩
    · rcases List.mem_cons.1 hs with rfl | hs
      · exact ⟨a1, a4⟩
      · exact b1 s hs
    · obtain ⟨q, hq, h1, h2⟩ := hx
      rcases List.mem_cons.1 hq with rfl | hq
      · exact ⟨st, by simp, by rw [a2]; exact h1, by rw [a3]; exact (C01_from_box hb x).2 h2⟩
      · obtain ⟨s, hs, hr⟩ := b2 i x ⟨q, hq, h1, h2⟩
        exact ⟨s, by simp [hs], hr⟩
    · obtain ⟨s, hs, h1, h2⟩ := hx
      rcases List.mem_cons.1 hs with rfl | hs
      · exact ⟨p, by simp, by rw [← a2]; exact h1, by rw [a3] at h2; exact (C01_from_box hb x).1 h2⟩
      · obtain ⟨q, hq, hr⟩ := b3 i x ⟨s, hs, h1, h2⟩
        exact ⟨q, by simp [hq], hr⟩

/-- The whole analysis, from the user's boxes: `n` rounds of the main loop. -/
def analyse (E : Env K) (l : List (ℕ × List (K × K))) (n : ℕ) : Except Err (Core K) := do
  let init ← boxStates E l
  let σ ← setup E init
  runSteps E n σ

/-- **C32** from boxes to verdict: if the analysis of boxes of initial states
ends with "System is safe", no run starting in one of them enters an error mode within the time bound. -/
theorem C32_boxes_partial {E : Env K} (hE : E.Ok) (hnt : E.NoTt) (hsp : E.SamePath) {l : List (ℕ × List (K × K))}
    (hl : ∀ p ∈ l, ∀ m : Mode K, E.ha.modes[p.1]? = some m → m.isError = false) {n : ℕ} {σ : Core K}
    (h : analyse E l n = .ok σ) (hf : σ.isFinished E = true) 
    (hv : σ.verdict = .safe ∨ (σ.verdict = .safeAgg ∧ E.deaggOn ∧ E.set.stopAgg = false)) :
    E.hyb.Safe (BoxInit l) := by
  simp only [analyse, bind_ok] at h
  obtain ⟨init, h0, σ0, h1, h2⟩ := h
  obtain ⟨a, b, -⟩ := boxStates_spec hl h0
  have := C32_safe_verdict_partial hE hnt hsp (fun st hs => (a st hs).1) h1 h2 hf hv
  intro i x k m hr hm
  refine this i x k m ?_ hm
  clear hm hf hv
  induction hr with
  | init h hm hi => exact .init (b _ _ h) hm hi
  | jump _ hj hn ih => exact .jump ih hj hn

end

/-! ### An automaton with three modes

Two variables `x`, `c`; mode 0: `x' = c` while `x ≤ 3`; mode 1: `x' = s c` (`s = -1` unless said otherwise); mode 2: error.  Transition 0
leads from mode 0 to mode 1 when `x ≥ 2`, transition 1 from mode 1 to the error mode when `lim ≤ x ≤ hi`. -/

/-- Discrete dynamics of `x' = s c, c' = 0` -/
def exDyn (s : ℚ) : Dyn ℚ :=
  ⟨2, fun k => ⟨2, 2, fun i j => if i = 0 then if j = 0 then 1 else if j = 1 then s * k else 0
    else if i = 1 then if j = 1 then 1 else 0 else 0⟩, none, none⟩

def exRunHA (lim : ℚ) (hi : ℚ := 1000) (s : ℚ := -1) : HA ℚ :=
  { modes := [{ name := "up", id := 0, a := some ⟨2, [[(1, 1)], []]⟩, inv := [⟨2, [(0, 1)], 3⟩] },
      { name := "down", id := 1, a := some ⟨2, [[(1, s)], []]⟩ }, { name := "bad", id := 2 }]
    out := [[0], [1], []]
    trans := [{ src := 0, dst := 1, index := 0, guard := some (⟨2, [[(0, -1)]]⟩, [-2]) },
      { src := 1, dst := 2, index := 0, guard := some (⟨2, [[(0, -1)], [(0, 1)]]⟩, [-lim, hi]) }] }

/-- Everything the analysis needs; `Simplex.solver` as the solver. -/
def exEnv (steps : ℕ) (lim : ℚ) (strat : Option AggStrat) (hi : ℚ := 1000) (s : ℚ := -1)
    (tol : ℚ := 1 / 1000000) : Env ℚ :=
  { S := Simplex.solver 100
    T := { inter := tol, atol := 1 / 100000000, rtol := 1 / 100000, norm2 := 1 / 10000000000000000
           dblMax := 1000000000000 }
    set := { numSteps := steps, strat := strat }
    ha := exRunHA lim hi s
    dyn := fun i => exDyn (if i = 0 then 1 else s)
    epsTt := 1 / 1000
    dirs := fun _ _ _ _ n => .ok [(List.range n).map fun _ => 1] }

theorem exDyn_laws (s : ℚ) : (exDyn s).Laws := by
  refine ⟨fun k => ⟨rfl, rfl⟩, fun k => ?_, fun N h => by simp [exDyn] at h⟩
  simp only [exDyn, Mat.mul, Mat.mk.injEq, true_and]
  funext i j
  rw [Finset.sum_range_succ, Finset.sum_range_succ, Finset.sum_range_zero]
  by_cases i0 : i = 0 <;> by_cases i1 : i = 1 <;> by_cases j0 : j = 0 <;> by_cases j1 : j = 1 <;>
    simp [i0, i1, j0, j1] <;> first | omega | ring

theorem exEnv_noTt (steps : ℕ) (lim : ℚ) (strat : Option AggStrat) (hi s tol : ℚ) :
    (exEnv steps lim strat hi s tol).NoTt := by
  intro t ht _
  simp [exEnv, exRunHA] at ht
  rcases ht with rfl | rfl <;> rfl

theorem exEnv_ok (steps : ℕ) (lim : ℚ) (strat : Option AggStrat) (hi : ℚ) {s tol : ℚ}
    (htol : 0 ≤ tol := by norm_num) : (exEnv steps lim strat hi s tol).Ok where
  noApprox := rfl
  honest := Simplex.honest _
  tol := htol
  dynFor := by
    intro i m hm he
    have hcase : i = 0 ∨ i = 1 ∨ i = 2 := by
      have : i < 3 := lt_of_getElem? hm
      omega
    rcases hcase with rfl | rfl | rfl <;> simp [exEnv, exRunHA] at hm <;> subst hm <;>
      first
      | (simp [Mode.isError] at he; done)
      | exact ⟨exDyn_laws _, ⟨by simp [exEnv, exDyn], by simp [exEnv, exDyn], by simp⟩,
          by simp [exEnv, exDyn], by simp [exEnv, exDyn], by simp⟩
  plain := by
    intro i m hm he
    have hcase : i = 0 ∨ i = 1 ∨ i = 2 := by
      have : i < 3 := lt_of_getElem? hm
      omega
    rcases hcase with rfl | rfl | rfl <;> simp [exEnv, exRunHA] at hm <;> subst hm <;> simp [Mode.Plain]
  rows := by
    intro i m a hm ha
    have hcase : i = 0 ∨ i = 1 ∨ i = 2 := by
      have : i < 3 := lt_of_getElem? hm
      omega
    rcases hcase with rfl | rfl | rfl <;> simp [exEnv, exRunHA] at hm <;> subst hm <;> simp at ha <;>
      subst ha <;> rfl
  trs := by
    intro i m l ti t hm he hl hti ht
    have hcase : ti = 0 ∨ ti = 1 := by
      have : ti < 2 := lt_of_getElem? ht
      omega
    rcases hcase with rfl | rfl <;> simp [exEnv, exRunHA] at ht <;> subst ht <;>
      exact ⟨fun g hg => by
          cases hg
          exact ⟨⟨rfl, by simp [Csr.WF], by simp⟩, by simp [exEnv, exDyn]⟩, by simp, by simp, by simp, by simp, by simp⟩
  tt := by
    intro _ i m l ti t g _ _ _ _ ht htt
    rw [exEnv_noTt steps lim strat hi s tol t (List.mem_of_getElem? ht) rfl] at htt
    cases htt
  zero := by
    intro _ i m a hm ha hn
    have hcase : i = 0 ∨ i = 1 ∨ i = 2 := by
      have : i < 3 := lt_of_getElem? hm
      omega
    rcases hcase with rfl | rfl | rfl <;> simp [exEnv, exRunHA] at hm <;> subst hm <;> simp at ha <;>
      subst ha <;> simp [Csr.noEntries] at hn

/-- The analysis of `x ∈ [0, 1], c = 1` in mode 0. -/
def exRun (steps : ℕ) (lim : ℚ) (strat : Option AggStrat) (n : ℕ) : Except Err (Core ℚ) :=
  analyse (exEnv steps lim strat) [(0, [(0, 1), (1, 1)])] n

/-- A check of the outcome. -/
def okAnd {α : Type} (r : Except Err α) (p : α → Bool) : Bool :=
  match r with
  | .ok a => p a
  | .error _ => false

theorem okAnd_ok {α : Type} {r : Except Err α} {p : α → Bool} (h : okAnd r p = true) :
    ∃ a, r = .ok a ∧ p a = true := by
  cases r with
  | ok a => exact ⟨a, rfl, h⟩
  | error e => simp [okAnd] at h

theorem runSteps_add {K : Type} [Field K] [LinearOrder K] [IsStrictOrderedRing K] {E : Env K} : ∀ {n k : ℕ}
    {σ τ ρ : Core K}, runSteps E n σ = .ok τ → runSteps E k τ = .ok ρ → runSteps E (n + k) σ = .ok ρ
  | 0, k, σ, τ, ρ, h, h' => by cases h; rw [Nat.zero_add]; exact h'
  | n + 1, k, σ, τ, ρ, h, h' => by
    simp only [runSteps, bind_ok] at h
    obtain ⟨σ1, h1, h2⟩ := h
    have := runSteps_add h2 h'
    rw [show n + 1 + k = (n + k) + 1 by omega]
    simp only [runSteps, bind_ok]
    exact ⟨σ1, h1, this⟩

theorem analyse_add {K : Type} [Field K] [LinearOrder K] [IsStrictOrderedRing K] {E : Env K}
    {l : List (ℕ × List (K × K))} {n k : ℕ} {τ ρ : Core K} (h : analyse E l n = .ok τ)
    (h' : runSteps E k τ = .ok ρ) : analyse E l (n + k) = .ok ρ := by
  simp only [analyse, bind_ok] at h ⊢
  obtain ⟨init, h0, σ0, h1, h2⟩ := h
  exact ⟨init, h0, σ0, h1, runSteps_add h2 h'⟩

set_option maxRecDepth 100000 in
/-- The run with box aggregation: finished and safe after some rounds; the four sets that enter mode 1
have been aggregated into one node. -/
theorem exRun_box' : okAnd (do
      let σ ← exRun 3 10 (some { kind := .box }) 5
      let items ← σ.waiting.mapM (waitItem (exEnv 3 10 (some { kind := .box })) σ)
      let l ← stratPop (exEnv 3 10 (some { kind := .box })) items
      let σ' ← popWaiting (exEnv 3 10 (some { kind := .box })) σ
      let q ← splitNode (exEnv 3 10 (some { kind := .box })) σ' 1
      let τ ← runSteps (exEnv 3 10 (some { kind := .box })) 4 σ
      return ((l, (σ', q)), τ)) (fun r => (decide (r.1.1.map (fun w => w.oid) = [1, 2, 3]) &&
        decide (r.1.2.1.states.map (fun s => s.steps) = [(3, 3), (1, 1), (2, 2), (3, 3), (1, 3)]) &&
        decide (r.1.2.2.2 = (2, 3)) &&
        decide (r.1.2.2.1.nodes.map (fun n => n.parents) = [[0], [1, 2, 3], [1], [2, 3]])) &&
      (r.2.isFinished (exEnv 3 10 (some { kind := .box })) && decide (r.2.verdict = .safe) &&
        decide (r.2.nodes.map (fun n => n.parents) = [[0], [1, 2, 3]]))) = true := by
  decide +kernel

theorem exRun_box : okAnd (exRun 3 10 (some { kind := .box }) 9) (fun σ =>
    σ.isFinished (exEnv 3 10 (some { kind := .box })) && decide (σ.verdict = .safe) &&
      decide (σ.nodes.map (fun n => n.parents) = [[0], [1, 2, 3]])) = true := by
  obtain ⟨r, h, hr⟩ := okAnd_ok exRun_box'
  simp only [bind_ok, pure_ok] at h
  obtain ⟨σ, h1, items, -, l, -, σ', -, q, -, τ, h2, rfl⟩ := h
  have : exRun 3 10 (some { kind := .box }) 9 = .ok τ := analyse_add h1 h2
  rw [this]
  exact ((Bool.and_eq_true _ _).mp hr).2

/-- The hypotheses of **C32** (and C34, C36, C40) are met by it: the automaton is safe. -/
example : (exEnv 3 10 (some { kind := .box })).hyb.Safe (BoxInit [(0, [(0, 1), (1, 1)])]) := by
  obtain ⟨σ, h, hσ⟩ := okAnd_ok exRun_box
  simp only [Bool.and_eq_true, decide_eq_true_eq] at hσ
  refine C32_boxes_partial (exEnv_ok _ _ _ _) (exEnv_noTt _ _ _ _ _ _) ?_ ?_ h hσ.1.1 (.inl hσ.1.2)
  · intro s h1 h2
    cases h1
    simp at h2
  · intro p hp m hm
    simp at hp
    subst hp
    simp [exEnv, exRunHA] at hm
    subst hm
    rfl

/-- The hypotheses of **C34**, **C36** and **C40** are met by the same run. -/
example : ∃ init σ0 σ, setup (exEnv 3 10 (some { kind := .box })) init = .ok σ0 ∧
    (∀ st ∈ init, st.steps = (0, 0)) ∧
    runSteps (exEnv 3 10 (some { kind := .box })) 9 σ0 = .ok σ ∧ ¬ (exEnv 3 10 (some { kind := .box })).deaggOn ∧
    σ.nodes.map (fun n => n.parents) = [[0], [1, 2, 3]] := by
  obtain ⟨σ, h, hσ⟩ := okAnd_ok exRun_box
  simp only [Bool.and_eq_true, decide_eq_true_eq] at hσ
  simp only [exRun, analyse, bind_ok] at h
  obtain ⟨init, h0, σ0, h1, h2⟩ := h
  refine ⟨init, σ0, σ, h1, fun st hs => ((boxStates_spec ?_ h0).1 st hs).2, h2, ?_, hσ.2⟩
  · intro p hp m hm
    simp at hp
    subst hp
    simp [exEnv, exRunHA] at hm
    subst hm
    rfl
  · rintro ⟨s, h1, h2⟩
    cases h1
    simp at h2

/-- **C37–C39**: in that run the three waiting operations are popped together, the node made of them has
the step interval `(1, 3)`, and it can be split. -/
theorem exPop : okAnd (do
      let σ ← exRun 3 10 (some { kind := .box }) 5
      let items ← σ.waiting.mapM (waitItem (exEnv 3 10 (some { kind := .box })) σ)
      let l ← stratPop (exEnv 3 10 (some { kind := .box })) items
      let σ' ← popWaiting (exEnv 3 10 (some { kind := .box })) σ
      let q ← splitNode (exEnv 3 10 (some { kind := .box })) σ' 1
      return (l, (σ', q))) (fun r => decide (r.1.map (fun w => w.oid) = [1, 2, 3]) &&
        decide (r.2.1.states.map (fun s => s.steps) = [(3, 3), (1, 1), (2, 2), (3, 3), (1, 3)]) &&
        decide (r.2.2.2 = (2, 3)) &&
        decide (r.2.2.1.nodes.map (fun n => n.parents) = [[0], [1, 2, 3], [1], [2, 3]])) = true := by
  obtain ⟨r, h, hr⟩ := okAnd_ok exRun_box'
  simp only [bind_ok, pure_ok] at h
  obtain ⟨σ, h1, items, h2, l, h3, σ', h4, q, h5, τ, -, rfl⟩ := h
  have : (do
      let σ ← exRun 3 10 (some { kind := .box }) 5
      let items ← σ.waiting.mapM (waitItem (exEnv 3 10 (some { kind := .box })) σ)
      let l ← stratPop (exEnv 3 10 (some { kind := .box })) items
      let σ' ← popWaiting (exEnv 3 10 (some { kind := .box })) σ
      let q ← splitNode (exEnv 3 10 (some { kind := .box })) σ' 1
      return (l, (σ', q))) = .ok (l, (σ', q)) := by
    simp only [bind_ok, pure_ok]
    exact ⟨σ, h1, items, h2, l, h3, σ', h4, q, h5, rfl⟩
  rw [this]
  exact ((Bool.and_eq_true _ _).mp hr).1

/-! ### A run with deaggregation

From `x = 0, c = 1`, mode 1 is entered at `x = 2` (step 2) and `x = 3` (step 3); the aggregated set
`x ∈ [2, 3]` reaches the error guard `7/5 ≤ x ≤ 8/5` after one step, the two points do not. -/

/-- Box aggregation with deaggregation. -/
def exDeagg : AggStrat := { kind := .box, deagg := true }

/-- The analysis of `x = 0, c = 1`. -/
def exRunD (lim hi : ℚ) (n : ℕ) : Except Err (Core ℚ) :=
  analyse (exEnv 4 lim (some exDeagg) hi) [(0, [(0, 0), (1, 1)])] n

set_option maxRecDepth 100000 in
/-- The aggregated error is spurious: node 1 is split, replayed, one part is split again, and nothing
remains. -/
theorem exRunD_safe : okAnd (exRunD (7 / 5) (8 / 5) 15) (fun σ =>
    σ.isFinished (exEnv 4 (7 / 5) (some exDeagg) (8 / 5)) && decide (σ.verdict = .safeAgg) &&
      decide (σ.nodes.map (fun n => n.parents) = [[0], [1, 2, 3], [1], [2, 3], [2], [3]])) = true := by
  decide +kernel

/-- The hypotheses of **C32** are met by a run with deaggregation: the automaton is safe. -/
example : (exEnv 4 (7 / 5) (some exDeagg) (8 / 5)).hyb.Safe (BoxInit [(0, [(0, 0), (1, 1)])]) := by
  obtain ⟨σ, h, hσ⟩ := okAnd_ok exRunD_safe
  simp only [Bool.and_eq_true, decide_eq_true_eq] at hσ
  refine C32_boxes_partial (exEnv_ok _ _ _ _) (exEnv_noTt _ _ _ _ _ _) ?_ ?_ h hσ.1.1 (.inr ⟨hσ.1.2, ⟨exDeagg, rfl, rfl⟩, rfl⟩)
  · intro s h1 _
    cases h1
    rfl
  · intro p hp m hm
    simp at hp
    subst hp
    simp [exEnv, exRunHA] at hm
    subst hm
    rfl

set_option maxRecDepth 100000 in
/-- With the error guard `3/2 ≤ x ≤ 5`: after 13 rounds the aggregated node has been split and both parts
have been replayed; one round later the refinement ends in a concrete error, with a counterexample. -/
theorem exRunD_both : okAnd (do
      let σ ← exRunD (3 / 2) 5 13
      let τ ← runSteps (exEnv 4 (3 / 2) (some exDeagg) 5) 1 σ
      return (σ, τ)) (fun r => (!r.1.hasConc && r.1.hasAgg && !r.1.doingReplay && decide (r.1.waiting = [6, 7]) &&
      decide (r.1.nodes.map (fun n => n.parents) = [[0], [1, 2, 3], [1], [2, 3]])) &&
    (r.2.isFinished (exEnv 4 (3 / 2) (some exDeagg) 5) && decide (r.2.verdict = .reachable) &&
      decide (r.2.nodes.map (fun n => n.parents) = [[0], [1, 2, 3], [1], [2, 3], [2], [3]]) &&
      decide (r.2.ce.map (fun s => (s.mode, s.start, s.fin, s.steps, s.out)) =
        [(0, [0, 1], [3, 1], 3, some 0), (1, [3, 1], [2, 1], 1, some 1)]))) = true := by
  decide +kernel

theorem exRunD_mid : okAnd (exRunD (3 / 2) 5 13) (fun σ =>
    !σ.hasConc && σ.hasAgg && !σ.doingReplay && decide (σ.waiting = [6, 7]) &&
      decide (σ.nodes.map (fun n => n.parents) = [[0], [1, 2, 3], [1], [2, 3]])) = true := by
  obtain ⟨r, h, hr⟩ := okAnd_ok exRunD_both
  simp only [bind_ok, pure_ok] at h
  obtain ⟨σ, h1, τ, -, rfl⟩ := h
  rw [h1]
  exact ((Bool.and_eq_true _ _).mp hr).1

theorem exRunD_reach : okAnd (exRunD (3 / 2) 5 14) (fun σ =>
    σ.isFinished (exEnv 4 (3 / 2) (some exDeagg) 5) && decide (σ.verdict = .reachable) &&
      decide (σ.nodes.map (fun n => n.parents) = [[0], [1, 2, 3], [1], [2, 3], [2], [3]]) &&
      decide (σ.ce.map (fun s => (s.mode, s.start, s.fin, s.steps, s.out)) =
        [(0, [0, 1], [3, 1], 3, some 0), (1, [3, 1], [2, 1], 1, some 1)])) = true := by
  obtain ⟨r, h, hr⟩ := okAnd_ok exRunD_both
  simp only [bind_ok, pure_ok] at h
  obtain ⟨σ, h1, τ, h2, rfl⟩ := h
  have : exRunD (3 / 2) 5 14 = .ok τ := analyse_add h1 h2
  rw [this]
  exact ((Bool.and_eq_true _ _).mp hr).2

end Hylaa
