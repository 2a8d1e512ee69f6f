import Verif.Proofs.CeRun3
import Verif.Props.Automaton
import Verif.Props.Concrete

/-!
# C35: the counterexample is a trajectory

`IsTrace` (Spec/Witness.lean) says what a counterexample has to be.
-/

set_option linter.unusedSectionVars false

namespace Hylaa
open Spec
section
variable {K : Type} [Field K] [LinearOrder K]

/-- The automata users build (C26) have the identifiers the counterexample code looks up. -/
theorem Spec.Consistent.ids' {ha : HA K} (h : Consistent ha) : ha.Ids := by
  refine ⟨h.ids, fun i L ti t hL hti ht => ?_⟩
  obtain ⟨j, hj⟩ := List.getElem?_of_mem hti
  obtain ⟨t', h1, -, h2⟩ := h.only i L j ti hL hj
  rw [ht] at h1
  cases h1
  rw [h2]; exact hj

variable [IsStrictOrderedRing K]

/-- `StateSet(lpi, mode)` with `lpi` made by `from_box`, `from_zonotope`, or by `from_constraints` from
inequalities over at least one variable. -/
def Spec.UserSet (E : Env K) (st : SS K) : Prop :=
  ∃ m, E.ha.modes[st.mode]? = some m ∧ m.isError = false ∧
    SS.make E.T m st.mode st.lp (0, 0) [] true = .ok st ∧
    ((∃ box, 0 < box.length ∧ fromBox E.S box m = .ok st.lp) ∨
      (∃ c g, fromZonotope E.S c g m = .ok st.lp) ∨
      ∃ csr rhs dims, csr.WF ∧ 0 < csr.ncols ∧ fromConstraints E.S csr rhs m none none dims = .ok st.lp)

theorem fromConstraints_names {S : Solver K} {csr : Csr K} {rhs : List K} {mode : Mode K}
    {dims? : Option ℕ} {lp : Lp K} (h : fromConstraints S csr rhs mode none none dims? = .ok lp) :
    lp.names = (List.range csr.ncols).map (fun d => s!"m{mode.id}_i{d}") ++
      ((List.range lp.dims).map (fun d => s!"m{mode.id}_c{d}") ++
      (if mode.inputs.isSome then (List.range lp.dims).map (fun d => s!"m{mode.id}_ti{d}") else [])) := by
  obtain ⟨-, -, -, -, -, hd, -⟩ := fromConstraints_ok h (by simp)
  rw [hd]
  simp only [fromConstraints, bind_ok, assert_ok, pure_ok, setCsr_ok, setReachVars_ok] at h
  obtain ⟨_, h1, feas, h2, _, rfl, _, h3, _, h4, s1, h5, s2, ⟨h6, rfl⟩, s3, ⟨h7, rfl⟩, s4, h8,
    s5, ⟨h9, rfl⟩, rfl⟩ := h
  cases h5
  cases hin : mode.inputs.isSome <;> rw [hin] at h8
  · simp only [Bool.false_eq_true, if_false] at h8 ⊢
    cases h8
    simp [Sys.addCols, Sys.addRowsLE, Sys.addRowsEqZero]
  · simp only [if_true, setCsr_ok] at h8 ⊢
    obtain ⟨-, rfl⟩ := h8
    simp [Sys.addCols, Sys.addRowsLE, Sys.addRowsEqZero]

theorem Spec.UserSet.init {E : Env K} {st : SS K} (h : UserSet E st) : UserInit E st ∧ NamesOk E st := by
  obtain ⟨m, hm, he, hs, hc⟩ := h
  have hc' : ∃ csr rhs dims, csr.WF ∧ 0 < csr.ncols ∧
      fromConstraints E.S csr rhs m none none dims = .ok st.lp := by
    rcases hc with ⟨box, hl, h⟩ | ⟨c, g, h⟩ | h
    · simp only [fromBox, bind_ok, assert_ok] at h
      obtain ⟨_, -, h⟩ := h
      exact ⟨_, _, _, boxCsr_wf box, hl, h⟩
    · simp only [fromZonotope, bind_ok, assert_ok] at h
      obtain ⟨_, -, h⟩ := h
      exact ⟨_, _, _, zonCsr_wf c g, by simp, h⟩
    · exact h
  obtain ⟨csr, rhs, dims, hwf, hpos, h⟩ := hc'
  have ho := fromConstraints_ok h (by simp)
  refine ⟨⟨m, _, _, hm, he, fromConstraints_repr h (by simp) hwf, ?_, fun _ => fromConstraints_noLo h, hs⟩, ?_⟩
  · intro j hj
    rw [ho.2.2.2.2.2.2.2.2.2.2.2.1] at hj
    exact absurd rfl hj
  · intro m' hm'
    rw [hm] at hm'
    cases hm'
    exact ⟨csr.ncols, hpos, fromConstraints_names h, by rw [ho.2.2.2.2.2.2.1], ho.2.2.2.2.2.2.2.1⟩

theorem boxStates_user {E : Env K} : ∀ {l : List (ℕ × List (K × K))} {init : List (SS K)},
    (∀ p ∈ l, 0 < p.2.length ∧ ∀ m : Mode K, E.ha.modes[p.1]? = some m → m.isError = false) →
    boxStates E l = .ok init → ∀ st ∈ init, UserSet E st
  | [], init, hl, h => by cases h; simp
  | p :: l, init, hl, h => by
    simp only [boxStates, bind_ok, pure_ok, needSome_ok] at h
    obtain ⟨m, hm, lp, hb, st, hs, l', hl', rfl⟩ := h
    obtain ⟨-, a2, a3, a4⟩ := UserInit.of_box hm ((hl p (by simp)).2 m hm) hb hs
    intro s hs'
    rcases List.mem_cons.1 hs' with rfl | hs'
    · exact ⟨m, by rw [a2]; exact hm, (hl p (by simp)).2 m hm, by rw [a2, a3]; exact hs,
        .inl ⟨p.2, (hl p (by simp)).1, by rw [a3]; exact hb⟩⟩
    · exact boxStates_user (fun q hq => hl q (by simp [hq])) hl' s hs'

theorem run_wit {E : Env K} (hE : E.Base) (hids : Consistent E.ha) {P : Prop} (hP : P → E.Sound)
    (hd : P → ¬ E.deaggOn) {init : List (SS K)} (hi : ∀ st ∈ init, UserSet E st) {σ0 σ : Core K} {n : ℕ}
    (h0 : setup E init = .ok σ0) (hr : runSteps E n σ0 = .ok σ) : WitInv E P (InitSet init) σ := by
  have hi' : ∀ st ∈ init, InitOk E st ∧ NamesOk E st ∧ st.opList = [] := by
    intro st hs
    obtain ⟨a, b⟩ := (hi st hs).init
    obtain ⟨m, _, _, -, -, -, -, -, hmk⟩ := id a
    exact ⟨a.ok hE, b, (SS.make_like hmk).2.2.2.2⟩
  refine runSteps_wit hE hids.ids' hP hd n (setup_wit hE hids.ids' hP hi' h0) (fun _ => ?_) hr
  have hw := setup_wit hE hids.ids' (P := False) (by simp) hi' h0
  clear hr hw
  simp only [setup, bind_ok, assert_ok, need_ok, pure_ok] at h0
  obtain ⟨_, -, σ1, h1, _, -, rfl⟩ := h0
  obtain ⟨-, b⟩ := setupStates_wit hE hids.ids' (P := False) (by simp) (X0 := InitSet init) init hi'
    (fun st hs x hx => ⟨st, hs, rfl, hx⟩) (by intro sid st h; simp at h) h1
  refine ⟨?_, ?_⟩
  · rw [b]; clear b h1; intros; simp_all
  · rw [b]; clear b h1; intros; simp_all

/-- **C35** Whatever the settings and the aggregation strategy, with or without deaggregation, at every
moment of the analysis: a counterexample, if there is one, is a trajectory into an error mode (`IsTrace`
without its part on invariants); and when the settings ask for a counterexample and a concrete error has
been found, there is one. -/
theorem C35_counterexample {E : Env K} (hE : E.Base) (hc : Consistent E.ha) {init : List (SS K)}
    (hi : ∀ st ∈ init, UserSet E st) {σ0 σ : Core K} {n : ℕ}
    (h0 : setup E init = .ok σ0) (hr : runSteps E n σ0 = .ok σ) :
    (σ.ce ≠ [] → IsTrace E.hyb E.T.inter False (InitSet init) σ.ce) ∧
      (σ.verdict = .reachable → E.set.makeCe = true → σ.ce ≠ []) := by
  have h := run_wit hE hc (P := False) (by simp) (by simp) hi h0 hr
  refine ⟨h.ce, fun hv => h.has ?_⟩
  unfold Core.verdict at hv
  by_contra hc
  simp only [Bool.not_eq_true] at hc
  rw [hc] at hv
  simp only [Bool.false_eq_true, if_false] at hv
  split at hv <;> cases hv

/-- **C35** Without deaggregation and outside the unsound cases of C42 (`E.Sound`), the invariants hold
along it as well, up to the tolerance of the intersection check. -/
theorem C35_with_invariants {E : Env K} (hE : E.Sound) (hd : ¬ E.deaggOn) (hc : Consistent E.ha)
    {init : List (SS K)} (hi : ∀ st ∈ init, UserSet E st) {σ0 σ : Core K} {n : ℕ}
    (h0 : setup E init = .ok σ0) (hr : runSteps E n σ0 = .ok σ) (hne : σ.ce ≠ []) :
    IsTrace E.hyb E.T.inter True (InitSet init) σ.ce :=
  (run_wit hE.toBase hc (P := True) (fun _ => hE) (fun _ => hd) hi h0 hr).ce hne

theorem Spec.Chain.mono {H : Hyb K} {ε : K} {inv : Prop} {X Y : ℕ → (ℕ → K) → Prop} {l : List (CeSeg K)}
    (hXY : ∀ i x, X i x → Y i x) (h : Chain H ε inv X l) : Chain H ε inv Y l :=
  ⟨h.seg, fun s hs => hXY _ _ (h.first s hs), h.next⟩

/-- **C35** from the user's boxes: the counterexample starts in one of them. -/
theorem C35_boxes {E : Env K} (hE : E.Base) (hc : Consistent E.ha) {l : List (ℕ × List (K × K))}
    (hl : ∀ p ∈ l, 0 < p.2.length ∧ ∀ m : Mode K, E.ha.modes[p.1]? = some m → m.isError = false)
    {n : ℕ} {σ : Core K} (h : analyse E l n = .ok σ) :
    (σ.ce ≠ [] → IsTrace E.hyb E.T.inter False (BoxInit l) σ.ce) ∧
      (σ.verdict = .reachable → E.set.makeCe = true → σ.ce ≠ []) := by
  simp only [analyse, bind_ok] at h
  obtain ⟨init, h0, σ0, h1, h2⟩ := h
  obtain ⟨-, -, b⟩ := boxStates_spec (fun p hp => (hl p hp).2) h0
  obtain ⟨q1, q2⟩ := C35_counterexample hE hc (boxStates_user hl h0) h1 h2
  exact ⟨fun hne => ⟨(q1 hne).1.mono b, (q1 hne).2⟩, q2⟩

end

/-! ### Examples -/

theorem exRunHA_consistent (lim hi s : ℚ) : Consistent (exRunHA lim hi s) := by
  refine ⟨?_, by simp [exRunHA], rfl, ?_, ?_, ?_⟩
  · intro i m hm
    have : i < 3 := lt_of_getElem? hm
    rcases (by omega : i = 0 ∨ i = 1 ∨ i = 2) with rfl | rfl | rfl <;> simp [exRunHA] at hm <;>
      subst hm <;> rfl
  · intro t ht
    simp [exRunHA] at ht
    rcases ht with rfl | rfl <;> simp [exRunHA]
  · intro k t ht
    have : k < 2 := lt_of_getElem? ht
    rcases (by omega : k = 0 ∨ k = 1) with rfl | rfl <;> simp [exRunHA] at ht <;> subst ht <;>
      simp [exRunHA]
  · intro i l j k hl hj
    have : i < 3 := lt_of_getElem? hl
    rcases (by omega : i = 0 ∨ i = 1 ∨ i = 2) with rfl | rfl | rfl <;> simp [exRunHA] at hl <;>
      subst hl
    · rcases j with _ | j <;> simp at hj
      subst hj; simp [exRunHA]
    · rcases j with _ | j <;> simp at hj
      subst hj; simp [exRunHA]
    · simp at hj

theorem exRun_hl (lim hi s : ℚ) (b : List (ℚ × ℚ)) (hb : 0 < b.length) : ∀ p ∈ [((0 : ℕ), b)],
    0 < p.2.length ∧ ∀ m : Mode ℚ, (exRunHA lim hi s).modes[p.1]? = some m → m.isError = false := by
  intro p hp
  simp at hp
  subst hp
  refine ⟨hb, fun m hm => ?_⟩
  simp [exRunHA] at hm
  subst hm
  rfl

/-- The hypotheses of **C35** are met by both, and the counterexamples are not empty. -/
example : ∃ σ, exRun 4 (3 / 2) none 13 = .ok σ ∧ σ.ce.length = 2 ∧
    IsTrace (exEnv 4 (3 / 2) none).hyb (1 / 1000000) False (BoxInit [(0, [(0, 1), (1, 1)])]) σ.ce := by
  obtain ⟨σ, h, hσ⟩ := okAnd_ok exRun_reach
  simp only [Bool.and_eq_true, decide_eq_true_eq] at hσ
  have hl : σ.ce.length = 2 := by simpa using congrArg List.length hσ.1.1
  exact ⟨σ, h, hl, (C35_boxes (exEnv_ok _ _ _ _).toSound.toBase (exRunHA_consistent _ _ _)
    (exRun_hl _ _ _ _ (by simp)) h).1 (by rintro h; simp [h] at hl)⟩

example : ∃ σ, exRunD (3 / 2) 5 14 = .ok σ ∧ σ.ce.length = 2 ∧
    IsTrace (exEnv 4 (3 / 2) (some exDeagg) 5).hyb (1 / 1000000) False
      (BoxInit [(0, [(0, 0), (1, 1)])]) σ.ce := by
  obtain ⟨σ, h, hσ⟩ := okAnd_ok exRunD_reach
  simp only [Bool.and_eq_true, decide_eq_true_eq] at hσ
  have hl : σ.ce.length = 2 := by simpa using congrArg List.length hσ.2
  exact ⟨σ, h, hl, (C35_boxes (exEnv_ok _ _ _ _).toSound.toBase (exRunHA_consistent _ _ _)
    (exRun_hl _ _ _ _ (by simp)) h).1 (by rintro h; simp [h] at hl)⟩

end Hylaa
