import Verif.Proofs.SetOk
import Verif.Proofs.Accept2
import Verif.Props.TimeElapse
import Verif.Props.OpsEx

/-!
# C07: `k` steps of a state set give the discrete-time reachable set
-/

set_option linter.unusedSectionVars false

namespace Hylaa
open Spec

section
variable {K : Type} [Field K] [LinearOrder K]

/-- A sequence of `step()` / `step(k)` calls on one state set.  stateset.py:100-148 -/
def takeSteps (d : Dyn K) (m : Mode K) (te : Option (TE K)) (st : SS K) :
    List (Option ℕ) → Except Err (Option (TE K) × SS K)
  | [] => .ok (te, st)
  | t :: ts => do
    let r ← st.step d m te t
    takeSteps d m r.1 r.2 ts

theorem takeSteps_ok {m : Mode K} {d : Dyn K} (hd : d.For m) {X : (ℕ → K) → Prop} {ε : K}
    {hi : Prop} {c : ℕ} (ts : List (Option ℕ)) {te te' : Option (TE K)}
    (ht : ∀ u, te = some u → u.Inv d) {st st' : SS K} (h : st.Ok m d X ε hi c)
    (hr : takeSteps d m te st ts = .ok (te', st')) :
    st'.Ok m d X ε hi c ∧ ((∀ t ∈ ts, t = none) → st'.stepIn = st.stepIn + ts.length) := by
  induction ts generalizing te st with
  | nil =>
    simp only [takeSteps, Except.ok.injEq, Prod.mk.injEq] at hr
    obtain ⟨rfl, rfl⟩ := hr
    exact ⟨h, fun _ => rfl⟩
  | cons t ts ih =>
    simp only [takeSteps, bind_ok] at hr
    obtain ⟨⟨te1, st1⟩, h1, hr⟩ := hr
    obtain ⟨a1, a2, a3, a4⟩ := h.step hd ht h1
    obtain ⟨b1, b2⟩ := ih a1 a4 hr
    refine ⟨b1, fun hall => ?_⟩
    rw [b2 fun t ht => hall t (by simp [ht])]
    have ht0 := hall t (by simp)
    subst ht0
    rw [a3]
    simp only [Option.getD_none, List.length_cons]
    omega

variable [IsStrictOrderedRing K]

/-- **C07.** A state set built from any instance of the library, in a mode without invariant:
after any sequence of `step` calls ending at step `k` of the mode, its points are exactly the
points reachable by `k` steps `x ↦ E x + N u`, `u` in the input set, from the initial points.
After `n` calls without target, `k = n`. -/
theorem C07_steps_reachable {S : Solver K} (hS : S.Honest) {T : Tols K} {m : Mode K} {a : Csr K}
    {d : Dyn K} (hd : d.For m) (ha : m.a = some a) (had : a.nrows = d.dims) (hinv : m.inv = [])
    {lp : Lp K} {X : (ℕ → K) → Prop} {rows : List ℕ} (hH : Hist S lp (Rep.ofSet d.dims X) rows)
    {mid : ℕ} {steps : ℕ × ℕ} {ol : List ℕ} {con : Bool} {st st' : SS K} {te' : Option (TE K)}
    {ts : List (Option ℕ)} (hm : SS.make T m mid lp steps ol con = .ok st)
    (hr : takeSteps d m none st ts = .ok (te', st')) :
    ((∀ t ∈ ts, t = none) → st'.stepIn = ts.length) ∧
    ∀ z, st'.lp.Mem z ↔ ∃ x, lp.Mem x ∧ Flow 0 m d st'.stepIn x z := by
  obtain ⟨hst, hok⟩ := SS.Ok.make (ε := 0) hd ha (hH.inv hS).1 (hH.inv hS).2.1 had hm
  obtain ⟨h1, h2⟩ := takeSteps_ok hd ts (by simp) hok hr
  refine ⟨fun h => ?_, fun z => ⟨fun hz => ?_, ?_⟩⟩
  · rw [h2 h, hst]; simp
  · obtain ⟨x, hx, hf, -⟩ := (h1.mono (hi' := True) (c' := st'.stepIn) (Nat.zero_le _)
      fun _ => ⟨trivial, .inr hinv⟩).flow_of_mem hd (.inr hinv) trivial (le_refl _) hz
    exact ⟨x, hx, hf⟩
  · rintro ⟨x, hx, hf⟩
    exact h1.mem_of_flow hd (.inr hinv) hx hf (.inl (Nat.zero_le _))

end

/-! ## Over the reals: the points reached by the differential equation -/

section
open Set

/-- `z` is reached from `x` in `k` intervals of length `τ` by `x' = A x + B u`, the input being
constant and admissible in each interval. -/
inductive Spec.CtReach (m : Mode ℝ) (a : Csr ℝ) (τ : ℝ) : ℕ → (ℕ → ℝ) → (ℕ → ℝ) → Prop
  | zero {x z} : EqOn a.nrows z x → CtReach m a τ 0 x z
  | noInput {k x y z} {w : ℝ → ℕ → ℝ} : CtReach m a τ k x y → m.inputs = none →
      Solves a (fun _ _ => 0) τ w → EqOn a.nrows (w 0) y → EqOn a.nrows z (w τ) →
      CtReach m a τ (k + 1) x z
  | input {k x y z} {w : ℝ → ℕ → ℝ} {inp : Inputs ℝ} {u : ℕ → ℝ} : CtReach m a τ k x y →
      m.inputs = some inp → InputSet inp u → Solves a (fun _ i => dot (inp.b.row i) u) τ w →
      EqOn a.nrows (w 0) y → EqOn a.nrows z (w τ) → CtReach m a τ (k + 1) x z

/-- What the constructors of modes guarantee (checked by `set_dynamics` and `set_inputs`). -/
structure ModeReal (m : Mode ℝ) (a : Csr ℝ) : Prop where
  dyns : m.a = some a
  wf : a.WF
  sq : a.ncols = a.nrows
  pos : 0 < a.nrows
  inp : ∀ p, m.inputs = some p → 0 < p.b.ncols ∧ p.b.WF
  inv : m.InvWF a.nrows

theorem ModeReal.dyn {m : Mode ℝ} {a : Csr ℝ} (h : ModeReal m a) (τ : ℝ) :
    (dynOf a m.inputs τ).For m where
  laws := dynOf_laws fun i hi => (h.inp i hi).1
  wf := h.inv
  pos := h.pos
  inp N hN := by
    cases hi : m.inputs with
    | none => rw [hi] at hN; cases hN
    | some p => rw [hi] at hN; simp [dynOf] at hN; subst hN; exact ⟨p, rfl, rfl⟩
  noInp hN := by
    cases hi : m.inputs with
    | none => rfl
    | some p => rw [hi] at hN; simp [dynOf] at hN

theorem flow_eq_mats {a b : Csr ℝ} {inp : Option (Inputs ℝ)} (τ : ℝ) (x0 u : ℕ → ℝ) {i : ℕ}
    (hi : i < a.nrows) : flow a b x0 u τ i =
      mulV a.nrows ((dynOf a inp τ).ex 1).e x0 i + ∑ c ∈ Finset.range b.ncols,
        (inputEffects a b τ).e i c * u c := by
  unfold flow mulV
  rw [dif_pos hi]
  congr 1
  · rw [Finset.sum_range]
    exact Finset.sum_congr rfl fun j _ => by simp [ofSquare, dynOf, hi]
  · exact Finset.sum_congr rfl fun c _ => by simp [inputEffects, hi]

theorem ctReach_iff {m : Mode ℝ} {a : Csr ℝ} (h : ModeReal m a) (hinv : m.inv = []) {τ : ℝ}
    (hτ : 0 ≤ τ) (k : ℕ) (x z : ℕ → ℝ) :
    Flow 0 m (dynOf a m.inputs τ) k x z ↔ CtReach m a τ k x z := by
  have h0 : (⟨0, []⟩ : Csr ℝ).WF := by intro r hr; simp at hr
  have hdot : ∀ i (u : ℕ → ℝ), dot ((⟨0, []⟩ : Csr ℝ).row i) u = 0 := by
    intro i u; simp [Csr.row]
  constructor
  · intro hf
    induction hf with
    | zero he => exact .zero he
    | @step k x y z hf _ hs ih =>
      obtain ⟨u, hu, hz⟩ := hs
      cases hi : m.inputs with
      | none =>
        refine .noInput (w := flow a ⟨0, []⟩ y u) ih hi ?_ (flow_zero y u) fun i hil => ?_
        · have := flow_solves h.wf h.sq h0 y u τ
          simpa only [hdot] using this
        · rw [hz i hil, flow_eq_mats (inp := m.inputs) τ y u hil]
          simp [inputPart, dynOf, hi]
      | some p =>
        refine .input (w := flow a p.b y u) ih hi (hu p hi)
          (flow_solves h.wf h.sq (h.inp p hi).2 y u τ) (flow_zero y u) fun i hil => ?_
        rw [hz i hil, flow_eq_mats (inp := m.inputs) τ y u hil]
        simp [inputPart, dynOf, hi, mulV, inputEffects]
  · intro hc
    have hIn : ∀ y, InvEps 0 m y := by intro y; simp [InvEps, hinv]
    induction hc with
    | zero he => exact .zero he
    | @noInput k x y z w hc hi hw hw0 hz ih =>
      refine .step ih (hIn y) ⟨fun _ => 0, ⟨fun p hp => by simp [hi] at hp, fun i hil => ?_⟩⟩
      have hw' : Solves a (fun _ i => dot ((⟨0, []⟩ : Csr ℝ).row i) fun _ => 0) τ w := by
        simpa only [hdot] using hw
      rw [hz i hil, flow_unique h.wf h.sq h0 hτ hw' hw0 hil,
        flow_eq_mats (inp := m.inputs) τ y (fun _ => 0) hil]
      simp [inputPart, dynOf, hi]
    | @input k x y z w p u hc hi hu hw hw0 hz ih =>
      refine .step ih (hIn y) ⟨u, ⟨fun q hq => by rw [hi] at hq; cases hq; exact hu, fun i hil => ?_⟩⟩
      rw [hz i hil, flow_unique h.wf h.sq (h.inp p hi).2 hτ hw hw0 hil,
        flow_eq_mats (inp := m.inputs) τ y u hil]
      simp [inputPart, dynOf, hi, mulV, inputEffects]

/-- **C07** in continuous time: after `k` steps the state set is exactly the set of points reached
at time `k τ` by the differential equation of the mode, with inputs constant in each step. -/
theorem C07_continuous_time {S : Solver ℝ} (hS : S.Honest) {T : Tols ℝ} {m : Mode ℝ} {a : Csr ℝ}
    (hma : ModeReal m a) (hinv : m.inv = []) {τ : ℝ} (hτ : 0 ≤ τ)
    {lp : Lp ℝ} {X : (ℕ → ℝ) → Prop} {rows : List ℕ} (hH : Hist S lp (Rep.ofSet a.nrows X) rows)
    {mid : ℕ} {steps : ℕ × ℕ} {ol : List ℕ} {con : Bool} {st st' : SS ℝ} {te' : Option (TE ℝ)}
    {ts : List (Option ℕ)} (hm : SS.make T m mid lp steps ol con = .ok st)
    (hr : takeSteps (dynOf a m.inputs τ) m none st ts = .ok (te', st')) :
    ((∀ t ∈ ts, t = none) → st'.stepIn = ts.length) ∧
    ∀ z, st'.lp.Mem z ↔ ∃ x, lp.Mem x ∧ CtReach m a τ st'.stepIn x z := by
  obtain ⟨h1, h2⟩ := C07_steps_reachable hS (hma.dyn τ) hma.dyns rfl hinv hH hm hr
  refine ⟨h1, fun z => (h2 z).trans ?_⟩
  simp only [ctReach_iff hma hinv hτ]

end

end Hylaa
