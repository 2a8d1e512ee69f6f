import Verif.Model.Trace
import Verif.Proofs.Inv
import Mathlib.Tactic.FieldSimp
import Mathlib.Tactic.Positivity

/-!
# C51: counterexample replay
-/

set_option linter.unusedSectionVars false

namespace Hylaa
variable {K : Type} [Field K] [LinearOrder K] [IsStrictOrderedRing K]

/-! ### `check_trace.check` -/

/-- Groups that follow each other from step `i` to step `j`. -/
inductive Follows {I : Type} : ℕ → List (ℕ × ℕ × I) → ℕ → Prop
  | nil (i) : Follows i [] i
  | cons {i n u gs j} : 1 ≤ n → Follows (i + n) gs j → Follows i ((i, n, u) :: gs) j

theorem runLen_spec {I : Type} {close : I → I → Bool} {u : I} : ∀ (k : ℕ) (l : List I),
    runLen close u k l ≤ k ∧ runLen close u k l ≤ l.length ∧
      ∀ j v, j < runLen close u k l → l[j]? = some v → close u v = true
  | 0, l => ⟨le_refl _, Nat.zero_le _, fun j v h => absurd h (Nat.not_lt_zero j)⟩
  | k + 1, [] => ⟨Nat.zero_le _, le_refl _, fun j v h => absurd h (Nat.not_lt_zero j)⟩
  | k + 1, v :: l => by
    obtain ⟨h1, h2, h3⟩ := runLen_spec (close := close) (u := u) k l
    unfold runLen
    by_cases hc : close u v = true
    · simp only [hc, if_true]
      refine ⟨by omega, by simp only [List.length_cons]; omega, ?_⟩
      intro j w hj hw
      cases j with
      | zero => cases hw; exact hc
      | succ j => exact h3 j w (by omega) hw
    · simp only [hc]
      exact ⟨Nat.zero_le _, Nat.zero_le _, fun j v h => absurd h (Nat.not_lt_zero j)⟩

theorem traceGroups_spec {I : Type} {close : I → I → Bool} {total : ℕ} {inputs : List I}
    (hle : inputs.length ≤ total) : ∀ (fuel index : ℕ), inputs.length ≤ index + fuel →
      index ≤ inputs.length →
    Follows index (traceGroups close total inputs fuel index) inputs.length ∧
      ∀ g ∈ traceGroups close total inputs fuel index, inputs[g.1]? = some g.2.2 ∧
        ∀ j v, g.1 < j → j < g.1 + g.2.1 → inputs[j]? = some v → close g.2.2 v = true
  | 0, index, h1, h2 => by
    have : index = inputs.length := by omega
    subst this
    exact ⟨.nil _, fun g hg => by cases hg⟩
  | fuel + 1, index, h1, h2 => by
    unfold traceGroups
    by_cases hlt : index < inputs.length
    · rw [if_pos (by omega), List.getElem?_eq_getElem hlt]
      simp only
      obtain ⟨r1, r2, r3⟩ := runLen_spec (close := close) (u := inputs[index])
        (min total inputs.length - index - 1) (inputs.drop (index + 1))
      generalize hn : runLen close inputs[index] (min total inputs.length - index - 1)
        (inputs.drop (index + 1)) = n at r1 r2 r3
      have hb : index + (n + 1) ≤ inputs.length := by
        have := min_le_right total inputs.length
        rw [List.length_drop] at r2
        omega
      obtain ⟨i1, i2⟩ := traceGroups_spec (close := close) hle fuel (index + (n + 1)) (by omega) hb
      refine ⟨.cons (by omega) i1, ?_⟩
      intro g hg
      rcases List.mem_cons.1 hg with rfl | hg
      · refine ⟨List.getElem?_eq_getElem hlt, ?_⟩
        intro j v hj1 hj2 hj3
        simp only at hj1 hj2
        refine r3 (j - index - 1) v (by omega) ?_
        rw [List.getElem?_drop, show index + 1 + (j - index - 1) = j by omega]
        exact hj3
      · exact i2 g hg
    · have : index = inputs.length := by omega
      have hnone : inputs[index]? = none := List.getElem?_eq_none (by omega)
      by_cases h : index < total
      · rw [if_pos h, hnone]
        refine ⟨?_, fun g hg => by cases hg⟩
        conv => arg 1; rw [this]
        exact .nil _
      · rw [if_neg h]
        refine ⟨?_, fun g hg => by cases hg⟩
        conv => arg 1; rw [this]
        exact .nil _

theorem Follows.cover {I : Type} {i j : ℕ} {gs : List (ℕ × ℕ × I)} (h : Follows i gs j) :
    i ≤ j ∧ (gs.flatMap fun g => (List.range g.2.1).map (g.1 + ·)) = (List.range (j - i)).map (i + ·) := by
  induction h with
  | nil => simp
  | @cons i n u gs j hn h ih =>
    obtain ⟨h1, h2⟩ := ih
    refine ⟨by omega, ?_⟩
    rw [List.flatMap_cons, h2, show j - i = n + (j - (i + n)) by omega, List.range_add, List.map_append,
      List.map_map]
    congr 1
    refine List.map_congr_left fun k _ => ?_
    simp only [Function.comp]; omega

/-- The simulated groups partition the given inputs, in order, and inputs grouped together are close
to the group's input. -/
theorem C51_groups {I : Type} {close : I → I → Bool} {total : ℕ} {inputs : List I}
    {gs : List (ℕ × ℕ × I)} (h : checkTrace close total inputs = .ok gs) :
    (gs.flatMap fun g => (List.range g.2.1).map (g.1 + ·)) = List.range inputs.length ∧
      ∀ g ∈ gs, inputs[g.1]? = some g.2.2 ∧
        ∀ j v, g.1 < j → j < g.1 + g.2.1 → inputs[j]? = some v → close g.2.2 v = true := by
  simp only [checkTrace, bind_ok, assert_ok, pure_ok] at h
  obtain ⟨_, hle, rfl⟩ := h
  obtain ⟨h1, h2⟩ := traceGroups_spec (close := close) hle inputs.length 0 (by omega) (by omega)
  refine ⟨?_, h2⟩
  rw [h1.cover.2]
  simp

/-- The time stamps of a group. -/
theorem group_times {step : K} {samples i n : ℕ} (hs : 1 ≤ samples) (hn : 1 ≤ n) :
    ((linspace (step * (n : K)) (1 + samples * n)).tail).map (fun t => t + (i : K) * step) =
      (List.range (samples * n)).map fun (k : ℕ) => ((i : K) + ((k : K) + 1) / samples) * step := by
  unfold linspace
  rw [Nat.add_comm, List.range_succ_eq_map, List.map_cons, List.tail_cons, List.map_map, List.map_map]
  refine List.map_congr_left fun k _ => ?_
  have h1 : (samples : K) ≠ 0 := by
    have : (0 : K) < samples := by exact_mod_cast hs
    exact this.ne'
  have h2 : (n : K) ≠ 0 := by
    have : (0 : K) < n := by exact_mod_cast hn
    exact this.ne'
  simp only [Function.comp]
  push_cast
  rw [add_sub_cancel_right]
  field_simp
  ring

theorem Follows.times {I : Type} {step : K} (hstep : 0 < step) {samples : ℕ} (hs : 1 ≤ samples) {i j : ℕ}
    {gs : List (ℕ × ℕ × I)} (h : Follows i gs j) :
    ∃ T, (gs.flatMap fun g =>
      ((linspace (step * (g.2.1 : K)) (1 + samples * g.2.1)).tail).map fun t => t + (g.1 : K) * step) = T ∧
      T.Pairwise (· < ·) ∧ (∀ t ∈ T, (i : K) * step < t ∧ t ≤ (j : K) * step) ∧
      ∀ k : ℕ, i < k → k ≤ j → (k : K) * step ∈ T := by
  have hsp : (0 : K) < samples := by exact_mod_cast hs
  induction h with
  | nil i => exact ⟨[], rfl, .nil, ⟨fun t ht => (List.not_mem_nil ht).elim, fun k h1 h2 => absurd h2 (by omega)⟩⟩
  | @cons i n u gs j hn h ih =>
    obtain ⟨T, e, p1, p2, p3⟩ := ih
    have hij := h.cover.1
    refine ⟨_, rfl, ?_, ?_, ?_⟩
    all_goals rw [List.flatMap_cons, e]; simp only; rw [group_times hs hn]
    · rw [List.pairwise_append]
      refine ⟨?_, p1, ?_⟩
      · rw [List.pairwise_map]
        refine List.pairwise_lt_range.imp fun {a b} hab => ?_
        have hab' : (a : K) < b := by exact_mod_cast hab
        have : ((a : K) + 1) / samples < ((b : K) + 1) / samples := by
          rw [div_lt_div_iff_of_pos_right hsp]; linarith
        exact mul_lt_mul_of_pos_right (by linarith) hstep
      · intro a ha b hb
        obtain ⟨k, hk, rfl⟩ := List.mem_map.1 ha
        have hk' := List.mem_range.1 hk
        refine lt_of_le_of_lt ?_ (p2 b hb).1
        refine mul_le_mul_of_nonneg_right ?_ hstep.le
        have : ((k : K) + 1) / samples ≤ n := by
          rw [div_le_iff₀ hsp]
          have : k + 1 ≤ n * samples := by rw [Nat.mul_comm]; omega
          exact_mod_cast this
        push_cast; linarith
    · intro t ht
      rcases List.mem_append.1 ht with ht | ht
      · obtain ⟨k, hk, rfl⟩ := List.mem_map.1 ht
        have hk' := List.mem_range.1 hk
        have h0 : (0 : K) < ((k : K) + 1) / samples := by positivity
        constructor
        · exact mul_lt_mul_of_pos_right (by linarith) hstep
        · refine mul_le_mul_of_nonneg_right ?_ hstep.le
          have : ((k : K) + 1) / samples ≤ n := by
            rw [div_le_iff₀ hsp]
            have : k + 1 ≤ n * samples := by rw [Nat.mul_comm]; omega
            exact_mod_cast this
          have h2 : ((i + n : ℕ) : K) ≤ j := by exact_mod_cast hij
          push_cast at h2; linarith
      · obtain ⟨q1, q2⟩ := p2 t ht
        refine ⟨lt_trans (mul_lt_mul_of_pos_right ?_ hstep) q1, q2⟩
        have : (0 : K) < n := by exact_mod_cast hn
        push_cast; linarith
    · intro k hk1 hk2
      rw [List.mem_append]
      by_cases hc : k ≤ i + n
      · left
        refine List.mem_map.2 ⟨samples * (k - i) - 1, ?_, ?_⟩
        · rw [List.mem_range]
          have h1 : samples * (k - i) ≤ samples * n := Nat.mul_le_mul_left _ (by omega)
          have h2 : 1 ≤ samples * (k - i) := Nat.mul_pos hs (by omega)
          omega
        · have h2 : 1 ≤ samples * (k - i) := Nat.mul_pos hs (by omega)
          have h3 : ((samples * (k - i) - 1 : ℕ) : K) + 1 = samples * ((k : K) - i) := by
            have : (((samples * (k - i) - 1 + 1 : ℕ)) : K) = ((samples * (k - i) : ℕ) : K) := by
              congr 1; omega
            push_cast [Nat.cast_sub hk1.le] at this
            push_cast
            exact this
          rw [h3, mul_div_cancel_left₀ _ hsp.ne']
          ring
      · right
        exact p3 k (by omega) hk2

/-- The time stamps start at 0, increase strictly, contain every multiple of the step up to the end
and do not go beyond the last input's step. -/
theorem C51_check_times {I : Type} {close : I → I → Bool} {total : ℕ} {inputs : List I}
    {gs : List (ℕ × ℕ × I)} (h : checkTrace close total inputs = .ok gs) {step : K} (hstep : 0 < step)
    {samples : ℕ} (hs : 1 ≤ samples) :
    (traceTimes step samples gs).head? = some 0 ∧ (traceTimes step samples gs).Pairwise (· < ·) ∧
      (∀ t ∈ traceTimes step samples gs, 0 ≤ t ∧ t ≤ (inputs.length : K) * step) ∧
      ∀ k : ℕ, k ≤ inputs.length → (k : K) * step ∈ traceTimes step samples gs := by
  simp only [checkTrace, bind_ok, assert_ok, pure_ok] at h
  obtain ⟨_, hle, rfl⟩ := h
  obtain ⟨h1, -⟩ := traceGroups_spec (close := close) hle inputs.length 0 (by omega) (by omega)
  obtain ⟨T, e, p1, p2, p3⟩ := h1.times hstep hs
  unfold traceTimes
  rw [e]
  refine ⟨rfl, List.pairwise_cons.2 ⟨fun t ht => by simpa using (p2 t ht).1, p1⟩, ?_, ?_⟩
  · intro t ht
    rcases List.mem_cons.1 ht with rfl | ht
    · exact ⟨le_refl _, by positivity⟩
    · have := p2 t ht
      exact ⟨by have := this.1; push_cast at this; linarith, this.2⟩
  · intro k hk
    cases k with
    | zero => simp
    | succ k => exact List.mem_cons_of_mem _ (p3 (k + 1) (by omega) hk)

example : checkTrace (fun a b : ℕ => a == b) 5 [7, 7, 3, 7] = .ok [(0, 2, 7), (2, 1, 3), (3, 1, 7)] := by
  simp [checkTrace, assert, traceGroups, runLen, bind, Except.bind, pure, Except.pure]

/-! ### `result.replay_counterexample` -/

/-- `odeint` is right: one state per time, each the exact solution `flow`. -/
def OdeOk (ode : Csr K → List K → List K → List (List K)) (flow : Csr K → List K → K → List K) : Prop :=
  (∀ a x ts, ode a x ts = ts.map (flow a x)) ∧ ∀ a x, flow a x 0 = x

theorem linspace_last (T : K) {n : ℕ} (hn : 2 ≤ n) : (linspace T n).getLast? = some T := by
  obtain ⟨m, rfl⟩ : ∃ m, n = m + 1 := ⟨n - 1, by omega⟩
  unfold linspace
  rw [List.range_succ, List.map_append, List.getLast?_append]
  have : (m : K) ≠ 0 := by
    have : (0 : K) < m := by exact_mod_cast (by omega : 0 < m)
    exact this.ne'
  simp [this]

/-- If a segment of at least two steps is replayed, its last replayed state, which is the exact
solution after the segment's number of steps, agrees with the segment's end, satisfies the guard of
the outgoing transition and is reset to the next segment's start (within the tolerances); the time
stamps are as many as the steps and run from 0 to the end, and the invariant holds at all but the last.  Partial: see `C51_replay_spacing`. -/
theorem C51_replay_partial {ode : Csr K → List K → List K → List (List K)}
    {flow : Csr K → List K → K → List K} (ho : OdeOk ode flow) {eps atol rtol h : K} {g : TraceSeg K}
    {next : Option (List K)} {r : List (List K) × List K × Option (List K)} (hsteps : 2 ≤ g.steps)
    (hr : replaySeg ode eps atol rtol h g next = .ok r) :
    ∃ a gd, g.mode.a = some a ∧ g.tr.guard = some gd ∧
      r.2.1.length = g.steps ∧ r.2.1.head? = some 0 ∧ r.2.1.getLast? = some ((g.steps : K) * h) ∧
      r.1 = r.2.1.map (flow a g.start) ∧
      (∀ k (t : K), k + 1 < g.steps → r.2.1[k]? = some t → ∀ lc ∈ g.mode.inv,
        dot lc.row (vecOf (flow a g.start t)) ≤ lc.rhs + eps) ∧
      allClose atol rtol (flow a g.start ((g.steps : K) * h)) g.stop = true ∧
      (∀ p ∈ gd.1.rows.zip gd.2, dot p.1 (vecOf (flow a g.start ((g.steps : K) * h))) ≤ p.2 + eps) ∧
      ∀ R x, g.tr.reset = some R → next = some x →
        allClose atol rtol (R.mulList (flow a g.start ((g.steps : K) * h))) x = true := by
  simp only [replaySeg, bind_ok, assert_ok, needSome_ok] at hr
  obtain ⟨_, -, a, ha, _, hinv, last, hlast, _, hclose, gd, hgd, _, hguard, _, -, hr⟩ := hr
  have hl : last = flow a g.start ((g.steps : K) * h) := by
    rw [ho.1, List.getLast?_map, linspace_last _ hsteps] at hlast
    exact (Option.some.inj hlast).symm
  have hts : r.1 = ode a g.start (linspace ((g.steps : K) * h) g.steps) ∧
      r.2.1 = linspace ((g.steps : K) * h) g.steps ∧
      ∀ R x, g.tr.reset = some R → next = some x → allClose atol rtol (R.mulList last) x = true := by
    cases hR : g.tr.reset with
    | none =>
      rw [hR] at hr; cases hr
      exact ⟨rfl, rfl, fun R x h => by cases h⟩
    | some R =>
      rw [hR] at hr
      cases hn : next with
      | none =>
        rw [hn] at hr; cases hr
        exact ⟨rfl, rfl, fun R x _ h => by cases h⟩
      | some x =>
        rw [hn] at hr
        simp only [bind_ok, assert_ok, pure_ok] at hr
        obtain ⟨_, hx, rfl⟩ := hr
        refine ⟨rfl, rfl, fun R' x' h1 h2 => ?_⟩
        cases h1; cases h2
        exact hx
  obtain ⟨t1, t2, t3⟩ := hts
  subst hl
  refine ⟨a, gd, ha, hgd, ?_, ?_, ?_, ?_, ?_, hclose, hguard, t3⟩
  · rw [t2]; simp [linspace]
  · rw [t2]
    obtain ⟨m, hm⟩ : ∃ m, g.steps = m + 1 := ⟨g.steps - 1, by omega⟩
    rw [hm]
    unfold linspace
    rw [List.range_succ_eq_map]
    simp
  · rw [t2]; exact linspace_last _ hsteps
  · rw [t1, ho.1, t2]
  · intro k t hk ht lc hlc
    rw [t2] at ht
    refine hinv _ ?_ lc hlc
    rw [ho.1]
    refine List.mem_of_getElem? (i := k) ?_
    have hlen : (linspace ((g.steps : K) * h) g.steps).length = g.steps := by simp [linspace]
    rw [List.getElem?_dropLast, List.length_map, hlen, if_pos (by omega), List.getElem?_map, ht]
    rfl

/-- The time stamps are not spaced by the step: the spacing is too large by the factor `n / (n-1)`, so
the invariant is checked at other times than those of the analysis. -/
theorem C51_replay_spacing {h : K} (hh : 0 < h) {n i : ℕ} (hn : 2 ≤ n) (hi : i + 1 < n) {t t' : K}
    (h1 : (linspace ((n : K) * h) n)[i]? = some t) (h2 : (linspace ((n : K) * h) n)[i + 1]? = some t') :
    t' - t = h * n / (n - 1) ∧ h < t' - t := by
  unfold linspace at h1 h2
  rw [List.getElem?_map, List.getElem?_range (by omega)] at h1 h2
  simp only [Option.map_some, Option.some.injEq] at h1 h2
  subst h1 h2
  have hn1 : (0 : K) < (n : K) - 1 := by
    have : ((2 : ℕ) : K) ≤ n := by exact_mod_cast hn
    push_cast at this; linarith
  have e : ((i + 1 : ℕ) : K) * ((n : K) * h) / ((n : K) - 1) - (i : K) * ((n : K) * h) / ((n : K) - 1) =
      h * n / (n - 1) := by
    field_simp
    push_cast; ring
  refine ⟨e, ?_⟩
  rw [e, lt_div_iff₀ hn1]
  linarith [mul_comm h (n : K)]

/-- A segment of one step is not replayed: only its start is compared with its end. -/
theorem C51_one_step_not_replayed {ode : Csr K → List K → List K → List (List K)}
    {flow : Csr K → List K → K → List K} (ho : OdeOk ode flow) {eps atol rtol h : K} {g : TraceSeg K}
    {next : Option (List K)} {r : List (List K) × List K × Option (List K)} (hsteps : g.steps = 1)
    (hr : replaySeg ode eps atol rtol h g next = .ok r) : allClose atol rtol g.start g.stop = true := by
  simp only [replaySeg, bind_ok, assert_ok, needSome_ok] at hr
  obtain ⟨_, -, a, ha, _, -, last, hlast, _, hclose, -⟩ := hr
  rw [ho.1, hsteps] at hlast
  simp only [linspace, List.range_one, List.map_cons, List.map_nil, Nat.cast_zero, zero_mul, zero_div, ho.2,
    List.getLast?_singleton, Option.some.injEq] at hlast
  rw [hlast]; exact hclose

/-- The end time of the whole replay is the total number of steps. -/
theorem C51_replay_end_partial {ode : Csr K → List K → List K → List (List K)} {eps atol rtol h : K} :
    ∀ (l : List (TraceSeg K)) {off : K} {r : List (List K) × List K}, (∀ g ∈ l, 2 ≤ g.steps) →
    replayCe ode eps atol rtol h off l = .ok r → l ≠ [] →
      r.2.getLast? = some (off + ((l.map fun g => g.steps).sum : ℕ) * h)
  | [], _, _, _, _, hne => (hne rfl).elim
  | g :: l, off, r, hs, hr, _ => by
    simp only [replayCe, bind_ok, pure_ok] at hr
    obtain ⟨r1, h1, q, h2, rfl⟩ := hr
    have ht : r1.2.1 = linspace ((g.steps : K) * h) g.steps := by
      simp only [replaySeg, bind_ok, assert_ok, needSome_ok] at h1
      obtain ⟨_, -, a, ha, _, -, last, hlast, _, hclose, gd, hgd, _, hguard, _, -, h1⟩ := h1
      split at h1
      · cases h1; rfl
      · split at h1
        · simp only [bind_ok, assert_ok, pure_ok] at h1
          obtain ⟨_, hx, rfl⟩ := h1
          rfl
        · cases h1; rfl
    have hlast : (r1.2.1.map fun t => t + off).getLast? = some ((g.steps : K) * h + off) := by
      rw [List.getLast?_map, ht, linspace_last _ (hs g List.mem_cons_self)]; rfl
    rw [hlast, Option.getD_some] at h2
    have hfin : ∀ (ts : List K), ts.getLast? = some ((g.steps : K) * h + off) →
        (ts ++ q.2).getLast? = some (off + (((g :: l).map fun g => g.steps).sum : ℕ) * h) := by
      intro ts hts
      cases l with
      | nil =>
        cases h2
        rw [List.append_nil, hts]
        simp; ring
      | cons g' l =>
        have := C51_replay_end_partial (g' :: l) (fun x hx => hs x (List.mem_cons_of_mem _ hx)) h2
          (by simp)
        rw [List.getLast?_append, this]
        rw [Option.some_or, Option.some.injEq, List.map_cons (l := g' :: l), List.sum_cons]
        push_cast; ring
    split
    · exact hfin _ hlast
    · refine hfin _ ?_
      rw [List.getLast?_append, hlast]
      simp

/-- The hypotheses of `C51_replay_partial` and `C51_replay_end_partial` are met: two segments of `x' = c`,
`c' = 0`, the first of which resets `x` to 0. -/
def exSegs : List (TraceSeg ℚ) :=
  [{ mode := { name := "m", id := 0, a := some ⟨2, [[(1, 1)], []]⟩, inv := [⟨2, [(0, 1)], 5⟩] }
     start := [0, 1], stop := [3, 1], steps := 3
     tr := { src := 0, dst := 0, index := 0, guard := some (⟨2, [[(0, -1)]]⟩, [-3]),
             reset := some ⟨2, [[], [(1, 1)]]⟩ } },
   { mode := { name := "m", id := 0, a := some ⟨2, [[(1, 1)], []]⟩, inv := [⟨2, [(0, 1)], 5⟩] }
     start := [0, 1], stop := [2, 1], steps := 2
     tr := { src := 0, dst := 1, index := 0, guard := some (⟨2, [[(0, -1)]]⟩, [-2]) } }]

/-- The solution of `x' = c`, `c' = 0`. -/
def exFlow (_ : Csr ℚ) (x : List ℚ) (t : ℚ) : List ℚ :=
  match x with
  | [a, b] => [a + b * t, b]
  | x => x

theorem exFlow_ok : OdeOk (fun a x ts => ts.map (exFlow a x)) exFlow := by
  refine ⟨fun _ _ _ => rfl, fun a x => ?_⟩
  unfold exFlow
  split <;> simp

example : ∃ r, replayCe (fun a x ts => ts.map (exFlow a x)) (1 / 1000) (1 / 1000) (1 / 1000) 1 0 exSegs = .ok r ∧
    (∀ g ∈ exSegs, 2 ≤ g.steps) ∧ r.2.getLast? = some 5 := by
  have h : ∃ r, replayCe (fun a x ts => ts.map (exFlow a x)) (1 / 1000) (1 / 1000) (1 / 1000) 1 0 exSegs =
      .ok r := by
    have : (match replayCe (fun a x ts => ts.map (exFlow a x)) (1 / 1000) (1 / 1000) (1 / 1000) 1 0 exSegs with
      | .ok _ => true
      | .error _ => false) = true := by decide +kernel
    revert this
    cases replayCe (fun a x ts => ts.map (exFlow a x)) (1 / 1000 : ℚ) (1 / 1000) (1 / 1000) 1 0 exSegs with
    | ok r => exact fun _ => ⟨r, rfl⟩
    | error e => exact fun h => by cases h
  obtain ⟨r, h⟩ := h
  have hs : ∀ g ∈ exSegs, 2 ≤ g.steps := by simp [exSegs]
  refine ⟨r, h, hs, ?_⟩
  rw [C51_replay_end_partial exSegs hs h (by simp [exSegs])]
  norm_num [exSegs]

end Hylaa
