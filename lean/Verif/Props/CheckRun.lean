import Verif.Model.CheckRun
import Verif.Props.Trace
import Mathlib.Data.Rat.Floor

/-!
# C51: `check_trace.check`
-/

set_option linter.unusedSectionVars false

namespace Hylaa

section
variable {K I : Type} [Field K] [LinearOrder K] [IsStrictOrderedRing K]

/-- `odeint` is exact: `flow u x t` is the state at time `t` of the motion from `x` under the input `u`. -/
structure SolOk (sol : I → List K → List K → List (List K)) (flow : I → List K → K → List K) : Prop where
  sol : ∀ u x ts, sol u x ts = ts.map (flow u x)
  zero : ∀ u x, flow u x 0 = x
  add : ∀ u x s t, flow u x (s + t) = flow u (flow u x s) t

theorem samplesPerInput_int {approx : K} {n m : ℕ} (h : samplesPerInput approx n = .int m) :
    m = 1 ∧ approx < (max 1 n : ℕ) := by
  unfold samplesPerInput at h
  split at h
  · rename_i hlt
    cases h
    refine ⟨rfl, ?_⟩
    rwa [div_lt_one (by exact_mod_cast (by omega : 0 < max 1 n))] at hlt
  · cases h

theorem linspace_one {step : K} {n : ℕ} (hn : 1 ≤ n) :
    linspace (step * (n : K)) (1 + 1 * n) = (List.range (n + 1)).map fun (k : ℕ) => (k : K) * step := by
  unfold linspace
  rw [show 1 + 1 * n = n + 1 by omega]
  refine List.map_congr_left fun k _ => ?_
  have : (n : K) ≠ 0 := by
    have : (0 : K) < n := by exact_mod_cast hn
    exact this.ne'
  have e : ((n + 1 : ℕ) : K) - 1 = n := by push_cast; ring
  rw [e]
  field_simp

theorem checkLoop_spec {sol : I → List K → List K → List (List K)} {flow : I → List K → K → List K}
    (ho : SolOk sol flow) {step : K} {i j : ℕ} {gs : List (ℕ × ℕ × I)} (hf : Follows i gs j) :
    ∀ {x : List K} {r : List (List K) × List K}, checkLoop sol step (.int 1) gs x = .ok r →
      r.2 = (List.range (j - i)).map (fun (k : ℕ) => ((i + k + 1 : ℕ) : K) * step) ∧ r.1.length = j - i ∧
      ∀ k, k < j - i → ∃ g ∈ gs, g.1 ≤ i + k ∧ i + k < g.1 + g.2.1 ∧
        ∃ y, (x :: r.1)[k]? = some y ∧ r.1[k]? = some (flow g.2.2 y step) := by
  induction hf with
  | nil => intro x r h; cases h; simp
  | @cons i n u gs j hn hf ih =>
    intro x r h
    simp only [checkLoop, PyNum.times, bind_ok, assert_ok, pure_ok, ok_ok] at h
    obtain ⟨ts, hts, _, -, r', hr', rfl⟩ := h
    subst hts
    have hij := hf.cover.1
    rw [ho.sol, linspace_one hn] at hr' ⊢
    have htail : ((List.range (n + 1)).map fun (k : ℕ) => (k : K) * step).tail =
        (List.range n).map fun (k : ℕ) => ((k + 1 : ℕ) : K) * step := by
      rw [List.range_succ_eq_map, List.map_cons, List.tail_cons, List.map_map]
      rfl
    rw [← List.map_tail, htail] at hr' ⊢
    simp only [List.map_map] at hr' ⊢
    obtain ⟨h1, h2, h3⟩ := ih hr'
    set A := List.map (flow u x ∘ fun (k : ℕ) => ((k + 1 : ℕ) : K) * step) (List.range n) with hA
    have hAlen : A.length = n := by simp [hA]
    have hAget : ∀ k, k < n → A[k]? = some (flow u x (((k + 1 : ℕ) : K) * step)) := by
      intro k hk
      simp [hA, List.getElem?_range hk]
    have hlast : A.getLast?.getD x = flow u x ((n : K) * step) := by
      rw [List.getLast?_eq_getElem?, hAlen, hAget _ (by omega)]
      simp only [Option.getD_some]
      congr 3
      omega
    refine ⟨?_, ?_, ?_⟩
    · rw [h1, show j - i = n + (j - (i + n)) by omega, List.range_add, List.map_append, List.map_map]
      congr 1
      · refine List.map_congr_left fun k _ => ?_
        simp only [Function.comp]; push_cast; ring
      · refine List.map_congr_left fun k _ => ?_
        simp only [Function.comp]; push_cast; ring
    · rw [List.length_append, hAlen, h2]; omega
    · intro k hk
      by_cases hkn : k < n
      · refine ⟨(i, n, u), by simp, by simp, by simp; omega, flow u x ((k : K) * step), ?_, ?_⟩
        · cases k with
          | zero => simp [ho.zero]
          | succ k =>
            rw [List.getElem?_cons_succ, List.getElem?_append_left (by omega), hAget k (by omega)]
        · rw [List.getElem?_append_left (by omega), hAget k hkn, ← ho.add]
          congr 2
          push_cast; ring
      · obtain ⟨g, g1, g2, g3, y, g4, g5⟩ := h3 (k - n) (by omega)
        refine ⟨g, by simp [g1], by omega, by omega, y, ?_, ?_⟩
        · rw [hlast] at g4
          cases hk' : k - n with
          | zero =>
            rw [hk'] at g4
            have hkn' : k = n := by omega
            subst hkn'
            obtain ⟨m, hm⟩ : ∃ m, k = m + 1 := ⟨k - 1, by omega⟩
            rw [hm, List.getElem?_cons_succ, List.getElem?_append_left (by omega), hAget m (by omega), ← hm]
            exact g4
          | succ m =>
            rw [hk', List.getElem?_cons_succ] at g4
            rw [show k = (n + m) + 1 by omega, List.getElem?_cons_succ, List.getElem?_append_right (by omega),
              hAlen, show n + m - n = m by omega]
            exact g4
        · rw [List.getElem?_append_right (by omega), hAlen]
          exact g5

/-- What `check` returns: a state for every multiple of the step up to the number of inputs, each one the exact
motion for one step from the one before under an input that is close to the given one, and the error of the last
state against the predicted value. -/
theorem C51_check_result {close : I → I → Bool} {sol : I → List K → List K → List (List K)}
    {flow : I → List K → K → List K} (ho : SolOk sol flow) {round : K → ℤ} {tiny : K} {dims : ℕ}
    {step maxTime : K} {start : List K} {inputs : List I} {normal : List K} {endVal approx : K} {o : CheckOut K}
    (ha : 0 ≤ approx)
    (h : check close sol round tiny dims step maxTime start inputs normal endVal approx = .ok o) :
    o.times = (List.range (inputs.length + 1)).map (fun (k : ℕ) => (k : K) * step) ∧
    o.states.length = inputs.length + 1 ∧ o.states.head? = some start ∧
    (∀ k, k < inputs.length → ∃ u v y, inputs[k]? = some u ∧ (v = u ∨ close v u = true) ∧ v ∈ inputs ∧
      o.states[k]? = some y ∧ o.states[k + 1]? = some (flow v y step)) ∧
    ∃ last, o.states.getLast? = some last ∧ o.absError = |dotVec last normal - endVal| ∧
      o.relError * |dotVec last normal| = (if dotVec last normal = 0 then 0 else o.absError) ∧
      (dotVec last normal = 0 → o.relError = 0) := by
  simp only [check, bind_ok, assert_ok, need_ok, pure_ok] at h
  obtain ⟨_, -, _, -, _, -, _, -, _, -, gs, hgs, r, hr, _, -, rfl⟩ := h
  have hG := hgs
  simp only [checkTrace, bind_ok, assert_ok, pure_ok] at hG
  obtain ⟨_, hle, hG⟩ := hG
  obtain ⟨f1, f2⟩ := traceGroups_spec (close := close) hle inputs.length 0 (by omega) (by omega)
  rw [hG] at f1 f2
  have key : r.2 = (List.range inputs.length).map (fun (k : ℕ) => ((k + 1 : ℕ) : K) * step) ∧
      r.1.length = inputs.length ∧ ∀ k, k < inputs.length → ∃ g ∈ gs, g.1 ≤ k ∧ k < g.1 + g.2.1 ∧
        ∃ y, (start :: r.1)[k]? = some y ∧ r.1[k]? = some (flow g.2.2 y step) := by
    cases hs : samplesPerInput approx inputs.length with
    | int m =>
      obtain ⟨rfl, -⟩ := samplesPerInput_int hs
      rw [hs] at hr
      simpa using checkLoop_spec ho f1 hr
    | float z =>
      rw [hs] at hr
      cases gs with
      | nil =>
        cases hr
        have : inputs.length = 0 := by
          generalize hm : inputs.length = m at f1
          cases f1; rfl
        simp [this]
      | cons g gs =>
        simp only [checkLoop, PyNum.times, bind, Except.bind] at hr
        cases hr
  obtain ⟨k1, k2, k3⟩ := key
  refine ⟨?_, by simp [k2], rfl, ?_, ?_⟩
  · rw [k1, List.range_succ_eq_map, List.map_cons, List.map_map]
    simp [Function.comp_def]
  · intro k hk
    obtain ⟨g, g1, g2, g3, y, g4, g5⟩ := k3 k hk
    obtain ⟨q1, q2⟩ := f2 g g1
    refine ⟨inputs[k], g.2.2, y, List.getElem?_eq_getElem hk, ?_, List.mem_of_getElem? q1, g4, by
      rw [List.getElem?_cons_succ]; exact g5⟩
    rcases Nat.eq_or_lt_of_le g2 with e | e
    · left
      have := q1
      rw [e, List.getElem?_eq_getElem hk] at this
      exact (Option.some.inj this).symm
    · exact .inr (q2 k _ e g3 (List.getElem?_eq_getElem hk))
  · refine ⟨r.1.getLast?.getD start, ?_, rfl, ?_, ?_⟩
    · rw [List.getLast?_cons]
    · simp only [abs_eq_zero]
      by_cases hz : dotVec (r.1.getLast?.getD start) normal = 0
      · simp [hz]
      · rw [if_neg hz, if_neg hz, div_mul_cancel₀]
        exact abs_ne_zero.2 hz
    · intro hz
      simp [hz]

/-- With as many inputs as samples or fewer (2000 by default), but at least one, `check` never returns: the number
of samples per input is a `float`, which NumPy refuses as a count. -/
theorem C51_check_raises {close : I → I → Bool} {sol : I → List K → List K → List (List K)} {round : K → ℤ}
    {tiny : K} {dims : ℕ} {step maxTime : K} {start : List K} {inputs : List I} {normal : List K}
    {endVal approx : K} (h1 : 1 ≤ inputs.length) (h2 : (inputs.length : K) ≤ approx) :
    ∃ e, check close sol round tiny dims step maxTime start inputs normal endVal approx = .error e := by
  cases h : check close sol round tiny dims step maxTime start inputs normal endVal approx with
  | error e => exact ⟨e, rfl⟩
  | ok o =>
    exfalso
    simp only [check, bind_ok, assert_ok, need_ok, pure_ok] at h
    obtain ⟨_, -, _, -, _, -, _, -, _, -, gs, hgs, r, hr, _, -, -⟩ := h
    simp only [checkTrace, bind_ok, assert_ok, pure_ok] at hgs
    obtain ⟨_, hle, hG⟩ := hgs
    obtain ⟨f1, -⟩ := traceGroups_spec (close := close) hle inputs.length 0 (by omega) (by omega)
    rw [hG] at f1
    have hs : samplesPerInput approx inputs.length = .float (approx / (max 1 inputs.length : ℕ)) := by
      unfold samplesPerInput
      rw [if_neg]
      rw [not_lt, one_le_div (by exact_mod_cast (by omega : 0 < max 1 inputs.length))]
      rw [max_eq_right h1]; exact h2
    rw [hs] at hr
    cases gs with
    | nil =>
      generalize hm : inputs.length = m at f1 h1
      cases f1
      omega
    | cons g gs =>
      simp only [checkLoop, PyNum.times, bind, Except.bind] at hr
      cases hr

end

/-- A case in which `check` returns: three inputs, at most two samples asked for, `x' = u`. -/
example : (check (K := ℚ) (I := ℚ) (fun a b => a == b) (fun u x ts => ts.map fun t => x.map (· + u * t))
    (fun x => ⌊x + 1 / 2⌋) (1 / 1000000000) 1 (1 / 2) (3 / 2) [5] [1, 1, 2] [1] 8 2).toOption.map
      (fun o => (o.states, o.times, o.absError, o.relError)) =
    some ([[5], [11 / 2], [6], [7]], [0, 1 / 2, 1, 3 / 2], 1, 1 / 7) := by
  decide +kernel

theorem checkEx_sol : SolOk (K := ℚ) (I := ℚ) (fun u x ts => ts.map fun t => x.map (· + u * t))
    (fun u x t => x.map (· + u * t)) where
  sol _ _ _ := rfl
  zero u x := by simp
  add u x s t := by
    rw [List.map_map]
    refine List.map_congr_left fun a _ => ?_
    simp only [Function.comp]; ring

end Hylaa
