import Verif.Proofs.Prepared
import Verif.Proofs.Simplex

/-! # C26: shapes in an automaton built by a script -/

set_option linter.unusedSectionVars false

namespace Hylaa
open Spec

section
variable {K : Type} [Field K] [LinearOrder K]

/-- **C26** `set_reset` accepts only a matrix with a column per variable of the source mode and a row per
variable of the target mode (of the source mode, if the target has no dynamics yet), and sets the identity if
none is given; a second summand with constraints has as many rows, and its constraint matrix fits it. -/
theorem C26_reset_fits {S : Solver K} {ha : HA K} {t t' : Tr K} {reset mink minkC : Option (Csr K)}
    {minkRhs : Option (List K)} (h : t.setReset S ha reset mink minkC minkRhs = .ok t') :
    ∃ src a dst r, ha.modes[t.src]? = some src ∧ src.a = some a ∧ ha.modes[t.dst]? = some dst ∧
      t'.reset = some r ∧ r.ncols = a.nrows ∧ r.nrows = (dst.a.getD a).nrows ∧
      r = reset.getD (Csr.id a.nrows) ∧ (t'.src, t'.dst, t'.index, t'.guard) = (t.src, t.dst, t.index, t.guard) ∧
      ∀ d, minkRhs = some d → ∃ M c, t'.mink = some M ∧ t'.minkC = some c ∧ t'.minkRhs = some d ∧
        M.nrows = r.nrows ∧ M.ncols = c.ncols ∧ c.nrows = d.length := by
  simp only [Tr.setReset, bind_ok, needSome_ok, assert_ok, pure_ok] at h
  obtain ⟨src, h1, dst, h2, _, -, a, h4, _, -, _, h6, _, h7, m, h8, rfl⟩ := h
  refine ⟨src, a, dst, _, h1, h4, h2, rfl, h6, h7, rfl, rfl, fun d hd => ?_⟩
  subst hd
  simp only [checkMink, bind_ok, needSome_ok, assert_ok, pure_ok] at h8
  obtain ⟨_, -, c, g1, _, g2, _, g3, _, g4, _, -, _, -, rfl⟩ := h8
  exact ⟨_, c, rfl, g1, rfl, by rw [g3, h7], g4, g2⟩

/-- **C26, negative.** Without right-hand side the second summand is not looked at: any matrices are accepted. -/
theorem C26_mink_unchecked {S : Solver K} {ha : HA K} {t t' : Tr K} {reset : Option (Csr K)}
    (h : t.setReset S ha reset none none none = .ok t') (M c : Option (Csr K)) :
    t.setReset S ha reset M c none = .ok { t' with mink := M, minkC := c } := by
  simp only [Tr.setReset, checkMink, bind_ok, needSome_ok, assert_ok, pure_ok] at h ⊢
  obtain ⟨src, h1, dst, h2, u, h3, a, h4, v, h5, w, h6, x, h7, m, h8, rfl⟩ := h
  exact ⟨src, h1, dst, h2, u, h3, a, h4, v, h5, w, h6, x, h7, M, rfl, rfl⟩

/-- **C26** Whatever calls are made, a mode's dynamics matrix is square. -/
theorem C26_square (S : Solver K) (tol : K) (ops : List (BuildOp K)) :
    ∀ m ∈ (HA.build S tol ops).modes, ∀ a, m.a = some a → a.nrows = a.ncols := by
  induction ops using List.reverseRecOn with
  | nil => simp [HA.build]
  | append_singleton ops op ih =>
    have hb : HA.build S tol (ops ++ [op]) = (HA.build S tol ops).attempt S tol op := by
      simp [HA.build]
    rw [hb]
    unfold HA.attempt
    have mm : ∀ {i : ℕ} {f : Mode K → Except Err (Mode K)} {ha' : HA K},
        (∀ m m', (∀ a, m.a = some a → a.nrows = a.ncols) → f m = .ok m' → ∀ a, m'.a = some a → a.nrows = a.ncols) →
        (HA.build S tol ops).modMode i f = .ok ha' → ∀ m ∈ ha'.modes, ∀ a, m.a = some a → a.nrows = a.ncols := by
      intro i f ha' hf h
      simp only [HA.modMode, bind_ok, needSome_ok, pure_ok] at h
      obtain ⟨m, h1, m', h2, rfl⟩ := h
      intro u hu
      rcases List.mem_or_eq_of_mem_set hu with hu | rfl
      · exact ih u hu
      · exact hf m _ (ih m (List.mem_of_getElem? h1)) h2
    have mt : ∀ {i : ℕ} {f : Tr K → Except Err (Tr K)} {ha' : HA K},
        (HA.build S tol ops).modTr i f = .ok ha' → ∀ m ∈ ha'.modes, ∀ a, m.a = some a → a.nrows = a.ncols := by
      intro i f ha' h
      simp only [HA.modTr, bind_ok, needSome_ok, pure_ok] at h
      obtain ⟨m, h1, m', h2, rfl⟩ := h
      exact ih
    cases h : (HA.build S tol ops).apply S tol op with
    | error e => exact ih
    | ok ha' =>
      cases op with
      | newMode n =>
        simp only [HA.apply, HA.newMode, bind_ok, pure_ok] at h
        obtain ⟨_, -, rfl⟩ := h
        intro m hm
        simp only [List.mem_append, List.mem_singleton] at hm
        rcases hm with hm | rfl
        · exact ih m hm
        · simp
      | newTransition s d n =>
        simp only [HA.apply, HA.newTransition, bind_ok, pure_ok] at h
        obtain ⟨_, -, _, _, rfl⟩ := h
        exact ih
      | setDynamics m a =>
        refine mm (fun m m' _ hf b hb => ?_) h
        simp only [Mode.setDynamics, bind_ok, assert_ok, pure_ok] at hf
        obtain ⟨_, hsq, rfl⟩ := hf
        cases hb
        exact hsq
      | setInvariant m c rhs =>
        refine mm (fun m m' hm hf => ?_) h
        simp only [Mode.setInvariant, bind_ok, pure_ok] at hf
        obtain ⟨_, _, _, _, _, _, _, _, _, _, _, _, rfl⟩ := hf
        exact hm
      | setInputs m b u rhs al =>
        refine mm (fun m m' hm hf => ?_) h
        simp only [Mode.setInputs, bind_ok, pure_ok] at hf
        obtain ⟨_, _, _, _, _, _, rfl⟩ := hf
        exact hm
      | setGuard t c rhs => exact mt h
      | setGuardTrue t => exact mt h
      | setReset t r m c d => exact mt h

/-- **C26** If a script sets the dynamics of each mode at most once (and passes proper matrices), then
conditions, inputs and guards have the width of the mode they belong to, an error mode has neither invariant
nor inputs, and the second summand of a reset is not empty. -/
theorem C26_shapes {S : Solver K} (hS : S.Honest) {tol : K} {ops : List (BuildOp K)} (hops : ScriptOk ops) :
    (∀ m ∈ (HA.build S tol ops).modes, (m.a = none → m.inv = [] ∧ m.inputs = none) ∧
      ∀ a, m.a = some a → ∀ lc ∈ m.inv, lc.ncols = a.nrows) ∧
    ∀ t ∈ (HA.build S tol ops).trans, (∀ g, t.guard = some g → g.1.rows.length = g.2.length ∧
      ∃ m a, (HA.build S tol ops).modes[t.src]? = some m ∧ m.a = some a ∧ g.1.ncols = a.nrows) ∧
      ∀ M, t.mink = some M → ∃ w, (t.minkC.getD ⟨0, []⟩).le w (t.minkRhs.getD []) := by
  obtain ⟨hb, -⟩ := build_ok (tol := tol) hS ops hops
  refine ⟨fun m hm => ⟨(hb.modes m hm).none_, fun a ha => ((hb.modes m hm).dyn a ha).2.2.2.ncols⟩,
    fun t ht => ⟨fun g hg => ?_, (hb.trans t ht).minkNe⟩⟩
  obtain ⟨go, m, a, h1, h2, h3⟩ := (hb.trans t ht).guard g hg
  exact ⟨go.len, m, a, h1, h2, h3⟩

end

def exTwice : List (BuildOp ℚ) :=
  [.newMode "m", .setDynamics 0 ⟨1, [[]]⟩, .setInvariant 0 ⟨1, [[(0, 1)]]⟩ [3], .setDynamics 0 ⟨2, [[], []]⟩]

theorem exTwice_ok : ∀ op ∈ exTwice, OpOk op := by
  intro op hop
  simp only [exTwice, List.mem_cons, List.not_mem_nil, or_false] at hop
  rcases hop with rfl | rfl | rfl | rfl <;>
    first
    | trivial
    | exact ⟨⟨by simp, by simp⟩, by simp [Csr.nrows]⟩
    | exact ⟨by simp, by simp⟩

/-- **C26, negative**: without "at most once" it is false: an invariant of width one in a mode with two
variables. -/
theorem C26_dynamics_twice : ∃ ops : List (BuildOp ℚ), (∀ op ∈ ops, OpOk op) ∧
    ∃ m a lc, (HA.build (Simplex.solver 100) (1 / 10 ^ 9) ops).modes = [m] ∧ m.a = some a ∧ m.inv = [lc] ∧
      lc.ncols = 1 ∧ a.nrows = 2 := by
  refine ⟨exTwice, exTwice_ok, ?_⟩
  have h : (HA.build (Simplex.solver 100) (1 / 10 ^ 9) exTwice).modes.map (fun m =>
      (m.a.map fun a => a.nrows, m.inv.map fun lc => lc.ncols)) = [(some 2, [1])] := by decide +kernel
  obtain ⟨m, hm, h⟩ := List.map_eq_singleton_iff.1 h
  simp only [Prod.mk.injEq] at h
  obtain ⟨a, ha, hn⟩ := Option.map_eq_some_iff.1 h.1
  obtain ⟨lc, hlc, hc⟩ := List.map_eq_singleton_iff.1 h.2
  exact ⟨m, a, lc, hm, ha, hlc, hc, hn⟩

def exUnchecked : List (BuildOp ℚ) :=
  [.newMode "m", .newMode "n", .setDynamics 0 ⟨1, [[]]⟩, .newTransition 0 1 none, .setGuardTrue 0,
    .setReset 0 (some ⟨1, [[(0, 1)]]⟩) none none none, .setDynamics 1 ⟨2, [[], []]⟩]

theorem exUnchecked_ok : ScriptOk exUnchecked := by
  refine ⟨fun op hop => ?_, (by decide : [0, 1].Nodup)⟩
  simp only [exUnchecked, List.mem_cons, List.not_mem_nil, or_false] at hop
  rcases hop with rfl | rfl | rfl | rfl | rfl | rfl | rfl
  · trivial
  · trivial
  · exact ⟨⟨by simp, by simp⟩, by simp [Csr.nrows]⟩
  · trivial
  · trivial
  · refine ⟨fun M hM => ?_, by simp, by simp, by simp⟩
    cases hM
    exact ⟨by simp, by simp⟩
  · exact ⟨⟨by simp, by simp⟩, by simp [Csr.nrows]⟩

def exUncheckedCheck (r : Except Err (HA ℚ)) : Bool :=
  match r with
  | .ok ha => decide (ha.trans.map (fun t => (t.dst, t.reset.map fun r => r.nrows)) = [(1, some 1)]) &&
      decide (ha.modes.map (fun m => m.a.map fun a => a.nrows) = [some 1, some 2])
  | .error _ => false

/-- **C26, negative**: `set_reset` before the target mode has dynamics is checked against the source mode, and
never again: a reset matrix with one row into a mode with two variables passes all checks. -/
theorem C26_reset_unchecked : ∃ (ops : List (BuildOp ℚ)) (ha : HA ℚ), ScriptOk ops ∧
    (HA.build (Simplex.solver 100) (1 / 10 ^ 9) ops).setupHa true true (1 / 1000) (1 / 10 ^ 13) = .ok ha ∧
    ∃ t r m a, ha.trans = [t] ∧ t.reset = some r ∧ ha.modes[t.dst]? = some m ∧ m.a = some a ∧
      r.nrows = 1 ∧ a.nrows = 2 := by
  have h : exUncheckedCheck ((HA.build (Simplex.solver 100) (1 / 10 ^ 9) exUnchecked).setupHa true true (1 / 1000)
      (1 / 10 ^ 13)) = true := by decide +kernel
  cases h0 : (HA.build (Simplex.solver 100) (1 / 10 ^ 9) exUnchecked).setupHa true true (1 / 1000) (1 / 10 ^ 13) with
  | error e => rw [h0] at h; cases h
  | ok ha =>
    rw [h0] at h
    simp only [exUncheckedCheck, Bool.and_eq_true, decide_eq_true_eq] at h
    obtain ⟨h1, h2⟩ := h
    obtain ⟨t, ht, h1⟩ := List.map_eq_singleton_iff.1 h1
    simp only [Prod.mk.injEq] at h1
    obtain ⟨d1, d2⟩ := h1
    obtain ⟨r, hr, hn⟩ := Option.map_eq_some_iff.1 d2
    have e := congrArg (fun l : List (Option ℕ) => l[1]?) h2
    simp only [List.getElem?_map, List.getElem?_cons_succ, List.getElem?_cons_zero, Option.map_eq_some_iff] at e
    obtain ⟨m, hm, a, ha', hn'⟩ := e
    exact ⟨exUnchecked, ha, exUnchecked_ok, h0, t, r, m, a, ht, hr, by rw [d1]; exact hm, ha', hn, hn'⟩

end Hylaa
