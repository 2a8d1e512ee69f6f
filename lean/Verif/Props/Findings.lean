import Verif.Props.Deagg
import Verif.Props.Anim

/-!
# Smaller disagreements between the code and the properties
-/

set_option linter.unusedSectionVars false

namespace Hylaa
open Spec

section
variable {K : Type} [Field K] [LinearOrder K] [IsStrictOrderedRing K]

/-- `set_reset` accepts a Minkowski matrix (of any shape) without constraints ... -/
theorem C12_mink_without_constraints_accepted (S : Solver K) {ha : HA K} {t : Tr K} {src dst : Mode K} {a : Csr K}
    (h1 : ha.modes[t.src]? = some src) (h2 : ha.modes[t.dst]? = some dst) (h3 : src.a = some a) {r : Csr K}
    (h4 : r.ncols = a.nrows) (h5 : r.nrows = (dst.a.getD a).nrows) (mk : Csr K) :
    t.setReset S ha (some r) (some mk) none none =
      .ok { t with reset := some r, mink := some mk, minkC := none, minkRhs := none } := by
  simp [Tr.setReset, checkMink, h1, h2, h3, h4, h5, needSome, assert, bind, Except.bind, pure, Except.pure]

/-- ... but taking such a transition fails, whatever the set. -/
theorem C12_mink_without_constraints_raises (s : Sys K) (modeId tIndex : ℕ) (r : Option (Csr K)) (mk : Csr K) (inp : Bool) :
    ∃ e, addResetVariables s modeId tIndex r (some mk) none none inp = .error e := by
  cases h : addResetVariables s modeId tIndex r (some mk) none none inp with
  | error e => exact ⟨e, rfl⟩
  | ok s' =>
    simp only [addResetVariables, bind_ok, needSome_ok] at h
    obtain ⟨_, -, _, h, -⟩ := h
    simp at h

/-- A sparse direction in which an index occurs twice (which scipy reads as the sum of the two entries): only the last entry
counts as the objective. -/
theorem C21_duplicate_index_overwrites {lp lp1 : Lp K} (ho : lp.ObjInv) {n i : ℕ} {a b : K} {o : ℕ}
    (h : lp.setMinDirCsr n [(i, a), (i, b)] (some o) = .ok lp1) :
    lp1.obj (o + i) = b ∧ ∀ j, j ≠ o + i → lp1.obj j = 0 := by
  unfold Lp.setMinDirCsr at h
  simp only at h
  split at h
  · simp only [Lp.setObjCsrLoop] at h
    split at h
    · split at h
      · cases h
        refine ⟨by simp [Lp.setObj], fun j hj => ?_⟩
        simp only [Lp.setObj]
        rw [Function.update_of_ne hj, Function.update_of_ne hj]
        exact clearObj_obj ho j
      · cases h
    · cases h
  · cases h

end

set_option maxRecDepth 100000 in
theorem errInit_run : okAnd (analyse (exEnv 4 2 none) [(2, [(0, 1), (1, 1)])] 5) (fun σ =>
    σ.isFinished (exEnv 4 2 none) && decide (σ.verdict = .safe)) = true := by decide +kernel

/-- An initial set in an error mode is not reported: the verdict is "System is safe" (which is why the theorems on C32
ask for initial sets in ordinary modes). -/
theorem C32_error_init_unreported : ∃ (E : Env ℚ) (l : List (ℕ × List (ℚ × ℚ))) (n : ℕ) (σ : Core ℚ),
    E.Ok ∧ E.NoTt ∧ analyse E l n = .ok σ ∧ σ.isFinished E = true ∧ σ.verdict = .safe ∧ ¬ E.hyb.Safe (BoxInit l) := by
  obtain ⟨σ, h, hσ⟩ := okAnd_ok errInit_run
  simp only [Bool.and_eq_true, decide_eq_true_eq] at hσ
  refine ⟨_, _, _, σ, exEnv_ok _ _ _ _, exEnv_noTt _ _ _ _ _ _, h, hσ.1, hσ.2, fun hs => ?_⟩
  have := hs 2 (fun i => 1) 0 { name := "bad", id := 2 } (.init ⟨(2, [(0, 1), (1, 1)]), by simp, rfl, ?_⟩ rfl ?_) rfl
  · simp [Mode.isError] at this
  · intro i hi
    simp at hi
    rcases (by omega : i = 0 ∨ i = 1) with rfl | rfl <;> norm_num
  · intro lc hlc
    simp at hlc

/-- **C63** with C32: if the computation has finished when the window is closed and the verdict is "System is safe", the
system is safe. -/
theorem C63_safe_in_window_partial {K : Type} [Field K] [LinearOrder K] [IsStrictOrderedRing K] {E : Env K} (hE : E.Ok)
    (hnt : E.NoTt) (hsp : E.SamePath) {l : List (ℕ × List (K × K))}
    (hl : ∀ p ∈ l, ∀ m : Mode K, E.ha.modes[p.1]? = some m → m.isError = false) {σ0 σ : Core K} (h0 : analyse E l 0 = .ok σ0)
    {p : Core K → Bool} {c : AnimSet} {md : Animated} {skip : ℕ} {es : List AnimEv}
    (h : showWindow (coreMachine E p) c md skip es σ0 = .ok σ) (hf : σ.isFinished E = true) (hv : σ.verdict = .safe) :
    E.hyb.Safe (BoxInit l) := by
  obtain ⟨n, -, h1⟩ := C63_window_same_steps h
  rw [coreMachine_iter] at h1
  exact C32_boxes_partial hE hnt hsp hl (analyse_add h0 h1) hf (.inl hv)

set_option maxRecDepth 100000 in
theorem closed_run : okAnd (do
    let σ0 ← analyse (exEnv 4 (3 / 2) (some exDeagg) 5) [(0, [(0, 0), (1, 1)])] 0
    let σ ← showWindow (coreMachine (exEnv 4 (3 / 2) (some exDeagg) 5) fun _ => true) ⟨1, 20, 40⟩ .interactive 0 [.frame] σ0
    return (σ0, σ)) (fun p => !p.2.isFinished (exEnv 4 (3 / 2) (some exDeagg) 5) && decide (p.2.verdict = .safe)) = true := by
  decide +kernel

/-- **C63** fails for a window that is closed early: after one frame the user closes the window of an interactive plot; the
result says "System is safe", although an error mode can be reached and the analysis had just begun. -/
theorem C63_closed_window_reports_safe : ∃ (E : Env ℚ) (l : List (ℕ × List (ℚ × ℚ))) (σ0 σ : Core ℚ) (c : AnimSet),
    E.Ok ∧ E.NoTt ∧ analyse E l 0 = .ok σ0 ∧
      showWindow (coreMachine E fun _ => true) c .interactive 0 [.frame] σ0 = .ok σ ∧ σ.verdict = .safe ∧
      σ.isFinished E = false ∧ ¬ E.hyb.Safe (BoxInit l) := by
  obtain ⟨⟨σ0, σ⟩, h, hσ⟩ := okAnd_ok closed_run
  simp only [bind_ok, pure_ok, Prod.mk.injEq] at h
  obtain ⟨a, h0, b, h1, rfl, rfl⟩ := h
  simp only [Bool.and_eq_true, decide_eq_true_eq, Bool.not_eq_true'] at hσ
  exact ⟨_, _, _, _, _, exEnv_ok _ _ _ _, exEnv_noTt _ _ _ _ _ _, h0, h1, hσ.2, hσ.1, exUnsafe⟩

end Hylaa
