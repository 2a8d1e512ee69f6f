import Verif.Model.SimLines
import Verif.Props.Sim

/-!
# C62: the simulation lines in the result are the simulated trajectories
-/

set_option linter.unusedSectionVars false

namespace Hylaa
variable {K : Type} [Field K] [LinearOrder K] [IsStrictOrderedRing K]

/-- The states a simulation goes through during one stay in a mode: it starts at a reachable state, each further state is
one time step later (from inside the invariant, within the time bound), and it may end with the state after a jump through a true
guard (then the flag is true). -/
inductive SimLine (C : SimEnv K) (X0 : List (Sim K)) : List (Sim K) → Bool → Prop
  | start {s} : SimReach C X0 s.mode s.pt s.steps → SimLine C X0 [s] false
  | step {l s m} : SimLine C X0 (l ++ [s]) false → C.ha.modes[s.mode]? = some m →
      (∀ lc ∈ m.inv, dot lc.row (vecOf s.pt) ≤ lc.rhs) → s.steps < C.numSteps →
      SimLine C X0 (l ++ [s] ++ [{ s with pt := (C.basis s.mode).mulList s.pt, steps := s.steps + 1 }]) false
  | jump {l s ti ts t g y} : SimLine C X0 (l ++ [s]) false → C.ha.out[s.mode]? = some ts → ti ∈ ts →
      C.ha.trans[ti]? = some t → t.guard = some g → (∀ p ∈ g.1.rows.zip g.2, dot p.1 (vecOf s.pt) ≤ p.2) →
      (∀ R, t.reset = some R → y = R.mulList s.pt) → (t.reset = none → y = s.pt) →
      SimLine C X0 (l ++ [s] ++ [{ s with pt := y }]) true

/-- Why a simulation ends: it jumped, reached the time bound, or is outside the invariant. -/
def LineEnded (C : SimEnv K) (l : List (Sim K)) (jumped : Bool) : Prop :=
  jumped = true ∨ ∃ s, l.getLast? = some s ∧ (s.steps = C.numSteps ∨
    ∃ m, C.ha.modes[s.mode]? = some m ∧ ¬ ∀ lc ∈ m.inv, dot lc.row (vecOf s.pt) ≤ lc.rhs)

/-- What is read off the plotted point `v` along one axis: the time or a coordinate. -/
def AxisVal (step : K) (d : PlotDim K) (s : Sim K) (v : K) : Prop :=
  match d with
  | .idx i => s.pt[i]? = some v
  | .time => v = (s.steps : K) * step
  | .dir _ => False

/-- The point `p` of a subplot with axes `d` shows the state `s`. -/
def PointOf (step : K) (d : PlotDim K × PlotDim K) (s : Sim K) (p : K × K) : Prop :=
  AxisVal step d.1 s p.1 ∧ AxisVal step d.2 s p.2

/-- Axes that plot what they say: time or a coordinate, and not coordinate 0 on the y axis (`C50_ydim_zero_wrong`). -/
def PlainAxes (d : PlotDim K × PlotDim K) : Prop :=
  (d.1 = .time ∨ ∃ i, d.1 = .idx i) ∧ (d.2 = .time ∨ ∃ i, d.2 = .idx (i + 1))

/-- What the code plots. -/
def Drawn1 (P : SimPlot K) (d : PlotDim K × PlotDim K) (s : Sim K) (p : K × K) : Prop :=
  ptToPlotXy s.pt d.1 d.2 ((s.steps : K) * P.step) = .ok p

theorem Drawn1.pointOf {P : SimPlot K} {d : PlotDim K × PlotDim K} (hd : PlainAxes d) {s : Sim K} {p : K × K}
    (h : Drawn1 P d s p) : PointOf P.step d s p := by
  obtain ⟨x, y⟩ := d
  simp only [Drawn1, ptToPlotXy, bind_ok, pure_ok] at h
  obtain ⟨a, h1, b, h2, rfl⟩ := h
  obtain ⟨hx, hy⟩ := hd
  constructor
  · rcases hx with e | ⟨i, e⟩ <;> simp only at e <;> subst e
    · simp only [plotX] at h1; cases h1; rfl
    · simp only [plotX] at h1; exact needSome_ok.1 h1
  · rcases hy with e | ⟨i, e⟩ <;> simp only at e <;> subst e
    · simp only [plotY] at h2; cases h2; rfl
    · simp only [plotY] at h2; exact needSome_ok.1 h2

/-- A simulation object and the states seen so far. -/
structure LineGood (C : SimEnv K) (X0 : List (Sim K)) (p : Option (Sim K) × Bool) (tr : List (Sim K)) : Prop where
  line : SimLine C X0 tr p.2
  last : ∀ s, p.1 = some s → tr.getLast? = some s ∧ s.steps ≤ C.numSteps
  ended : p.1 = none → LineEnded C tr p.2

theorem SimLine.ne_nil {C : SimEnv K} {X0 : List (Sim K)} {l : List (Sim K)} {b : Bool} (h : SimLine C X0 l b) : l ≠ [] := by
  cases h <;> simp

theorem simOne_good {C : SimEnv K} {X0 : List (Sim K)} {tryG took : Bool} {obj : Option (Sim K)} {tr : List (Sim K)}
    {r : SimOut K} (hg : LineGood C X0 (obj, took) tr) (h : simOne C tryG took obj = .ok r) :
    LineGood C X0 (r.obj, r.took) (tr ++ r.obj.toList) ∧ (r.finished = true → r.obj = none) := by
  obtain ⟨g1, g2, g3⟩ := hg
  unfold simOne at h
  split at h
  · cases h
    exact ⟨⟨by simpa using g1, fun s hs => by simp at hs, fun _ => by simpa using g3 rfl⟩, fun _ => rfl⟩
  rename_i s
  obtain ⟨hl, hst⟩ := g2 s rfl
  split at h
  · rename_i he
    cases h
    exact ⟨⟨by simpa using g1, fun s hs => by simp at hs,
      fun _ => .inr ⟨s, by simpa using hl, .inl he⟩⟩, fun _ => rfl⟩
  rename_i hne
  split at h
  · rename_i ht
    cases h
    exact ⟨⟨by simpa using g1, fun s hs => by simp at hs, fun _ => .inl ht⟩, fun _ => rfl⟩
  rename_i htk
  have htk : took = false := by simpa using htk
  subst htk
  simp only at g1
  obtain ⟨l, rfl⟩ : ∃ l, tr = l ++ [s] := by
    rw [List.getLast?_eq_some_iff] at hl
    exact hl
  simp only [bind_ok, needSome_ok] at h
  obtain ⟨ts, hts, t, ht, h⟩ := h
  cases t with
  | some t =>
    simp only [bind_ok, needSome_ok, pure_ok] at h
    obtain ⟨pt, hpt, dst, hdst, rfl⟩ := h
    have htg : firstGuard C s.pt ts = .ok (some t) := by
      cases tryG
      · cases ht
      · exact ht
    obtain ⟨ti, h1, g, h2, h3, h4⟩ := firstGuard_spec ts htg
    simp only [resetPoint, bind_ok, assert_ok, pure_ok, Option.isNone_iff_eq_none] at hpt
    obtain ⟨_, hmk, rfl⟩ := hpt
    refine ⟨⟨.jump g1 hts h1 h2 h3 h4 (fun R hR => by rw [hR]) (fun hR => by rw [hR]), ?_, ?_⟩, ?_⟩
    · intro s' hs'
      cases hs'
      exact ⟨by simp, hst⟩
    · intro h; cases h
    · intro h; cases h
  | none =>
    simp only [bind_ok, needSome_ok] at h
    obtain ⟨m, hm, h⟩ := h
    split at h
    · rename_i hin
      cases h
      unfold inInv at hin
      rw [List.all_eq_true] at hin
      have hlt : s.steps < C.numSteps := lt_of_le_of_ne hst hne
      refine ⟨⟨.step g1 hm (fun lc hlc => by simpa using hin lc hlc) hlt, ?_, ?_⟩, ?_⟩
      · intro s' hs'
        cases hs'
        exact ⟨by simp, hlt⟩
      · intro h; cases h
      · intro h; cases h
    · rename_i hin
      cases h
      refine ⟨⟨by simpa using g1, fun s hs => by simp at hs, fun _ => .inr ⟨s, by simp, .inr ⟨m, hm, ?_⟩⟩⟩, fun _ => rfl⟩
      intro hall
      apply hin
      unfold inInv
      rw [List.all_eq_true]
      exact fun lc hlc => by simpa using hall lc hlc

/-- The states seen after one more round. -/
def extend (trs : List (List (Sim K))) (os : List (Option (Sim K))) : List (List (Sim K)) :=
  List.zipWith (fun tr o => tr ++ o.toList) trs os

theorem simLoop_good {C : SimEnv K} {X0 : List (Sim K)} : ∀ {l : List (Option (Sim K) × Bool)} {tryG : Bool}
    {r : List (Sim K) × List (Option (Sim K) × Bool) × Bool × Bool} {trs : List (List (Sim K))},
    List.Forall₂ (LineGood C X0) l trs → simLoop C tryG l = .ok r →
    List.Forall₂ (LineGood C X0) r.2.1 (extend trs (r.2.1.map fun p => p.1)) ∧
      (r.2.2.2 = true → ∀ p ∈ r.2.1, p.1 = none) ∧ r.2.1.length = l.length
  | [], _, _, _, hg, h => by
    cases hg; cases h
    exact ⟨.nil, fun _ p hp => by simp at hp, rfl⟩
  | p :: l, tryG, r, _, hg, h => by
    cases hg with
    | cons g0 gs =>
    simp only [simLoop, bind_ok, pure_ok] at h
    obtain ⟨r1, h1, q, h2, rfl⟩ := h
    obtain ⟨a1, a2⟩ := simOne_good g0 h1
    obtain ⟨b1, b2, b3⟩ := simLoop_good gs h2
    refine ⟨.cons a1 b1, fun hf p' hp' => ?_, by simp [b3]⟩
    simp only [Bool.and_eq_true] at hf
    rcases List.mem_cons.1 hp' with rfl | hp'
    · exact a2 hf.1
    · exact b2 hf.2 p' hp'

theorem appendPts_spec {R : Sim K → K × K → Prop} : ∀ {trs : List (List (Sim K))} {ls : List (List (K × K))}
    {os : List (Option (Sim K))} {ps : List (Option (K × K))} {ls' : List (List (K × K))},
    List.Forall₂ (List.Forall₂ R) trs ls →
    List.Forall₂ (fun (o : Option (Sim K)) p => ∀ q, p = some q → ∃ s, o = some s ∧ R s q) os ps →
    List.Forall₂ (fun (o : Option (Sim K)) (p : Option (K × K)) => o = none ↔ p = none) os ps →
    os.length = trs.length → appendPts ls ps = .ok ls' → List.Forall₂ (List.Forall₂ R) (extend trs os) ls'
  | [], _, _, _, _, h1, h2, h3, hlen, h => by
    cases h1
    cases h2 with
    | nil => cases h; exact .nil
    | cons => simp at hlen
  | tr :: trs, _, _, _, _, h1, h2, h3, hlen, h => by
    cases h1 with
    | @cons _ line _ ls a1 a2 =>
    cases h2 with
    | nil => simp at hlen
    | @cons o p os ps b1 b2 =>
      cases h3 with
      | cons c1 c2 =>
      simp only [appendPts, bind_ok, pure_ok] at h
      obtain ⟨r, h4, rfl⟩ := h
      refine .cons ?_ (appendPts_spec a2 b2 c2 (by simpa using hlen) h4)
      cases p with
      | none => rw [c1.2 rfl]; simpa using a1
      | some q =>
        obtain ⟨s, rfl, hs⟩ := b1 q rfl
        exact List.rel_append a1 (.cons hs .nil)

theorem plotPts_spec {P : SimPlot K} {d : PlotDim K × PlotDim K} : ∀ {os : List (Option (Sim K))}
    {ps : List (Option (K × K))}, plotPts P os d = .ok ps →
    List.Forall₂ (fun (o : Option (Sim K)) p => ∀ q, p = some q → ∃ s, o = some s ∧ Drawn1 P d s q) os ps ∧
    List.Forall₂ (fun (o : Option (Sim K)) (p : Option (K × K)) => o = none ↔ p = none) os ps
  | [], ps, h => by
    simp [plotPts, pure, Except.pure] at h
    subst h
    exact ⟨.nil, .nil⟩
  | o :: os, ps, h => by
    simp only [plotPts, List.mapM_cons, bind_ok, pure_ok] at h
    obtain ⟨p, h1, ps', h2, rfl⟩ := h
    obtain ⟨a, b⟩ := plotPts_spec (os := os) (P := P) (d := d) h2
    cases o with
    | none =>
      simp only at h1
      cases h1
      exact ⟨.cons (fun q hq => by cases hq) a, .cons (by simp) b⟩
    | some s =>
      simp only [bind_ok, pure_ok] at h1
      obtain ⟨q, h3, rfl⟩ := h1
      exact ⟨.cons (fun q' hq => by cases hq; exact ⟨s, rfl, h3⟩) a, .cons (by simp) b⟩

theorem setCurSim_spec {P : SimPlot K} {d : PlotDim K × PlotDim K} {os : List (Option (Sim K))}
    {trs : List (List (Sim K))} {ls ls' : List (List (K × K))} (h1 : List.Forall₂ (List.Forall₂ (Drawn1 P d)) trs ls)
    (hlen : trs = [] ∨ os.length = trs.length) {ps : List (Option (K × K))} (hp : plotPts P os d = .ok ps)
    (h : setCurSim ls ps = .ok ls') :
    List.Forall₂ (List.Forall₂ (Drawn1 P d)) (extend (if trs = [] then os.map fun _ => [] else trs) os) ls' := by
  obtain ⟨a, b⟩ := plotPts_spec hp
  unfold setCurSim at h
  by_cases e : trs = []
  · subst e
    cases h1
    rw [if_pos rfl] at h ⊢
    refine appendPts_spec ?_ a b (by simp) h
    clear h hp b hlen
    induction a with
    | nil => exact .nil
    | cons _ _ ih => exact .cons .nil ih
  · have e' : ls ≠ [] := by
      rintro rfl
      cases h1
      exact e rfl
    rw [if_neg e'] at h
    rw [if_neg e]
    exact appendPts_spec h1 a b (hlen.resolve_left e) h

/-- The invariant: `trs` are the states of the active simulations; `W`: simulations that must not be lost. -/
structure LInv (C : SimEnv K) (P : SimPlot K) (X0 : List (Sim K)) (W : Sim K → Prop) (D : SimDraw K)
    (trs : List (List (Sim K))) : Prop where
  sim : SimInv C X0 D.sim
  took : D.sim.cur.length ≤ D.sim.took.length
  good : List.Forall₂ (LineGood C X0) (D.sim.cur.zip D.sim.took) trs
  nlines : D.lines.length = P.dims.length
  ndone : D.done.length = P.dims.length
  lines : ∀ (k : ℕ) ls d, D.lines[k]? = some ls → P.dims[k]? = some d → List.Forall₂ (List.Forall₂ (Drawn1 P d)) trs ls
  done : ∀ (k : ℕ) bs d, D.done[k]? = some bs → P.dims[k]? = some d → ∀ b ∈ bs, ∀ line ∈ b,
    ∃ tr fl, SimLine C X0 tr fl ∧ LineEnded C tr fl ∧ List.Forall₂ (Drawn1 P d) tr line
  cov : ∀ s, W s → s ∈ D.sim.waiting ∨ (∃ tr ∈ trs, tr.head? = some s) ∨
    ∀ (k : ℕ) bs d, D.done[k]? = some bs → P.dims[k]? = some d →
      ∃ b ∈ bs, ∃ line ∈ b, ∃ p, line.head? = some p ∧ Drawn1 P d s p

theorem LInv.len {C : SimEnv K} {P : SimPlot K} {X0 : List (Sim K)} {W : Sim K → Prop} {D : SimDraw K}
    {trs : List (List (Sim K))} (h : LInv C P X0 W D trs) : trs.length = D.sim.cur.length := by
  have := h.good.length_eq
  rw [List.length_zip] at this
  have := h.took
  omega

theorem head_extend {trs : List (List (Sim K))} {os : List (Option (Sim K))} (hlen : os.length = trs.length) {s : Sim K}
    (h : ∃ tr ∈ trs, tr.head? = some s) : ∃ tr ∈ extend trs os, tr.head? = some s := by
  obtain ⟨tr, h1, h2⟩ := h
  obtain ⟨i, hi⟩ := List.mem_iff_getElem?.1 h1
  have hi' : i < trs.length := (List.getElem?_eq_some_iff.1 hi).1
  refine ⟨tr ++ (os[i]'(by omega)).toList, ?_, by simp [List.head?_append, h2]⟩
  refine List.mem_iff_getElem?.2 ⟨i, ?_⟩
  unfold extend
  rw [List.getElem?_zipWith, hi, List.getElem?_eq_getElem (by omega)]

/-- Plotting adds the current states. -/
theorem plot_lines {P : SimPlot K} {D D' : SimDraw K} {trs : List (List (Sim K))} (hc : D.sim.cur ≠ [])
    (hn : D.lines.length = P.dims.length)
    (hl : ∀ (k : ℕ) ls d, D.lines[k]? = some ls → P.dims[k]? = some d → List.Forall₂ (List.Forall₂ (Drawn1 P d)) trs ls)
    (hlen : trs = [] ∨ D.sim.cur.length = trs.length) (h : SimDraw.plot P D = .ok D') :
    D'.sim = D.sim ∧ D'.done = D.done ∧ D'.lines.length = P.dims.length ∧
      ∀ (k : ℕ) ls d, D'.lines[k]? = some ls → P.dims[k]? = some d →
        List.Forall₂ (List.Forall₂ (Drawn1 P d)) (extend (if trs = [] then D.sim.cur.map fun _ => [] else trs) D.sim.cur) ls := by
  unfold SimDraw.plot at h
  rw [if_neg hc] at h
  simp only [bind_ok, pure_ok] at h
  obtain ⟨ls', h1, rfl⟩ := h
  have hm : ∀ {α β : Type} {f : α → Except Err β} {l : List α} {r : List β}, l.mapM f = .ok r →
      List.Forall₂ (fun a b => f a = .ok b) l r := by
    intro α β f l
    induction l with
    | nil => intro r h; simp [pure, Except.pure] at h; subst h; exact .nil
    | cons a l ih =>
      intro r h
      simp only [List.mapM_cons, bind_ok, pure_ok] at h
      obtain ⟨b, h1, r', h2, rfl⟩ := h
      exact .cons h1 (ih h2)
  have h2 := hm h1
  have hlen' : ls'.length = P.dims.length := by
    have := h2.length_eq
    rw [List.length_zip, hn] at this
    omega
  refine ⟨rfl, rfl, hlen', fun k ls d hk hd => ?_⟩
  simp only at hk
  have hk' : k < ls'.length := (List.getElem?_eq_some_iff.1 hk).1
  have hkl : k < D.lines.length := by omega
  have h3 := (List.forall₂_iff_get.1 h2).2 k (by rw [List.length_zip]; omega) hk'
  have e1 : (D.lines.zip P.dims).get ⟨k, by rw [List.length_zip]; omega⟩ = (D.lines[k], d) := by
    rw [List.get_eq_getElem, List.getElem_zip]
    rw [List.getElem?_eq_getElem (by omega)] at hd
    cases hd
    rfl
  have e2 : ls'.get ⟨k, hk'⟩ = ls := by
    rw [List.getElem?_eq_getElem hk'] at hk
    cases hk; rfl
  rw [e1, e2] at h3
  simp only [bind_ok] at h3
  obtain ⟨ps, h4, h5⟩ := h3
  exact setCurSim_spec (hl k _ d (List.getElem?_eq_getElem hkl) hd) hlen h4 h5

theorem round_inv {C : SimEnv K} {P : SimPlot K} {X0 : List (Sim K)} {W : Sim K → Prop} {D D' : SimDraw K}
    {trs : List (List (Sim K))} (hi : LInv C P X0 W D trs) (h : D.round C P = .ok D') :
    ∃ trs', LInv C P X0 W D' trs' := by
  have hlen := hi.len
  simp only [SimDraw.round, bind_ok] at h
  obtain ⟨σ, h1, h2⟩ := h
  have hsim := simStep_spec hi.sim h1
  by_cases hc : D.sim.cur = []
  · rw [if_neg (by simp [hc])] at h2
    have htrs : trs = [] := by rw [← List.length_eq_zero_iff, hlen, hc]; rfl
    subst htrs
    unfold simStep at h1
    rw [hc] at h1
    simp only at h1
    split at h1
    · cases h1
      simp only [SimDraw.plot, hc, if_true] at h2
      cases h2
      exact ⟨[], hi⟩
    · simp only [simPop, bind_ok, needSome_ok, assert_ok, pure_ok] at h1
      obtain ⟨i, -, m, -, _, -, rfl⟩ := h1
      set pop := D.sim.waiting.filter fun s => s.mode = i with hpop
      have hgood : List.Forall₂ (LineGood C X0) ((pop.map some).zip (pop.map fun _ => false)) (pop.map fun s => [s]) := by
        have hw : ∀ s ∈ pop, s.steps ≤ C.numSteps ∧ SimReach C X0 s.mode s.pt s.steps :=
          fun s hs => hi.sim.1 s (List.mem_filter.1 hs).1
        clear_value pop
        clear h2 hsim hpop
        induction pop with
        | nil => exact .nil
        | cons s l ih =>
          obtain ⟨a, b⟩ := hw s List.mem_cons_self
          refine .cons ⟨.start b, fun s' hs' => ?_, fun h => by cases h⟩ (ih fun s hs => hw s (List.mem_cons_of_mem _ hs))
          cases hs'
          exact ⟨rfl, a⟩
      have hcov : ∀ s, s ∈ D.sim.waiting → s ∈ D.sim.waiting.filter (fun s => s.mode ≠ i) ∨
          ∃ tr ∈ pop.map fun s => [s], tr.head? = some s := by
        intro s hs
        by_cases e : s.mode = i
        · exact .inr ⟨[s], List.mem_map.2 ⟨s, List.mem_filter.2 ⟨hs, by simpa using e⟩, rfl⟩, rfl⟩
        · exact .inl (List.mem_filter.2 ⟨hs, by simpa using e⟩)
      by_cases hpe : pop = []
      · rw [hpe] at h2 hgood hsim hcov
        simp only [SimDraw.plot, List.map_nil, if_true] at h2
        cases h2
        refine ⟨[], hsim, by simp, by simp, hi.nlines, hi.ndone, hi.lines, hi.done, fun s hs => ?_⟩
        rcases hi.cov s hs with h | h | h
        · rcases hcov s h with h | h
          · exact .inl h
          · exact .inr (.inl h)
        · obtain ⟨tr, h, -⟩ := h; cases h
        · exact .inr (.inr h)
      · obtain ⟨e1, e2, e3, e4⟩ := plot_lines (trs := []) (D := { D with sim :=
            { waiting := D.sim.waiting.filter fun s => s.mode ≠ i
              cur := pop.map some
              tryGuards := C.urgent
              took := pop.map fun _ => false } }) (by simpa using hpe) hi.nlines hi.lines (.inl rfl) (by simpa using h2)
        have ee : extend (if ([] : List (List (Sim K))) = [] then (pop.map some).map fun _ => [] else []) (pop.map some) =
            pop.map fun s => [s] := by
          rw [if_pos rfl]
          clear_value pop
          clear * -
          induction pop with
          | nil => rfl
          | cons s l ih =>
            simp only [extend, List.map_cons, List.zipWith_cons_cons] at ih ⊢
            rw [ih]
            rfl
        rw [if_pos rfl] at ee
        simp only [if_true, ee] at e4
        refine ⟨pop.map fun s => [s], by rw [e1]; exact hsim, by rw [e1]; simp, by rw [e1]; exact hgood, e3,
          by rw [e2]; exact hi.ndone, e4, by rw [e2]; exact hi.done, fun s hs => ?_⟩
        rw [e1, e2]
        rcases hi.cov s hs with h | h | h
        · rcases hcov s h with h | h
          · exact .inl h
          · exact .inr (.inl h)
        · obtain ⟨tr, h, -⟩ := h; cases h
        · exact .inr (.inr h)
  · have htrs : trs ≠ [] := by
      rintro rfl
      exact hc (List.length_eq_zero_iff.1 hlen.symm)
    unfold simStep at h1
    split at h1
    · next e => exact absurd e hc
    simp only [bind_ok, pure_ok] at h1
    obtain ⟨r, h3, rfl⟩ := h1
    obtain ⟨g1, g2, g3⟩ := simLoop_good hi.good h3
    have hrl : r.2.1.length = trs.length := by
      rw [g3, hi.good.length_eq]
    have hext : extend trs (r.2.1.map fun p => p.1) = extend trs (r.2.1.map fun p => p.1) := rfl
    cases hf : r.2.2.2 with
    | true =>
      rw [hf] at h2 hsim
      simp only [if_true] at h2 hsim
      rw [if_pos ⟨hc, trivial⟩] at h2
      simp only [SimDraw.plot, if_true] at h2
      cases h2
      have hnone := g2 hf
      have htr' : extend trs (r.2.1.map fun p => p.1) = trs := by
        unfold extend
        apply List.ext_getElem?
        intro n
        rw [List.getElem?_zipWith]
        by_cases hn : n < trs.length
        · rw [List.getElem?_eq_getElem hn, List.getElem?_eq_getElem (by rw [List.length_map]; omega)]
          simp only [List.getElem_map]
          rw [hnone _ (List.getElem_mem _)]
          simp
        · rw [List.getElem?_eq_none (by omega)]
      rw [htr'] at g1
      have hend : ∀ tr ∈ trs, ∃ fl, SimLine C X0 tr fl ∧ LineEnded C tr fl := by
        intro tr htr
        obtain ⟨n, hn, rfl⟩ := List.mem_iff_getElem.1 htr
        have hg := (List.forall₂_iff_get.1 g1).2 n (by omega) hn
        exact ⟨_, hg.line, hg.ended (hnone _ (List.get_mem _ _))⟩
      have hdone : ∀ (k : ℕ) bs d, ((D.done.zip D.lines).map fun p => p.1 ++ [p.2])[k]? = some bs → P.dims[k]? = some d →
          ∃ bs0 ls, D.done[k]? = some bs0 ∧ D.lines[k]? = some ls ∧ bs = bs0 ++ [ls] := by
        intro k bs d hk _
        rw [List.getElem?_map, Option.map_eq_some_iff] at hk
        obtain ⟨q, hq, rfl⟩ := hk
        rw [List.getElem?_zip_eq_some] at hq
        exact ⟨q.1, q.2, hq.1, hq.2, rfl⟩
      refine ⟨[], hsim, by simp, by simp, by simp [SimDraw.commit, hi.nlines],
        by simp [SimDraw.commit, hi.ndone, hi.nlines], ?_, ?_, ?_⟩
      · intro k ls d hk _
        simp only [SimDraw.commit, List.getElem?_map, Option.map_eq_some_iff] at hk
        obtain ⟨_, _, rfl⟩ := hk
        exact .nil
      · intro k bs d hk hd b hb line hl
        obtain ⟨bs0, ls, q1, q2, rfl⟩ := hdone k bs d hk hd
        rcases List.mem_append.1 hb with hb | hb
        · exact hi.done k bs0 d q1 hd b hb line hl
        · rw [List.mem_singleton] at hb
          subst hb
          have hfa := hi.lines k b d q2 hd
          obtain ⟨n, hn, rfl⟩ := List.mem_iff_getElem.1 hl
          have hnt : n < trs.length := by rw [hfa.length_eq]; exact hn
          obtain ⟨fl, l1, l2⟩ := hend trs[n] (List.getElem_mem hnt)
          exact ⟨_, fl, l1, l2, (List.forall₂_iff_get.1 hfa).2 n hnt hn⟩
      · intro s hs
        rcases hi.cov s hs with h | h | h
        · exact .inl (List.mem_append.2 (.inl h))
        · refine .inr (.inr fun k bs d hk hd => ?_)
          obtain ⟨bs0, ls, q1, q2, rfl⟩ := hdone k bs d hk hd
          obtain ⟨tr, htr, hh⟩ := h
          have hfa := hi.lines k ls d q2 hd
          obtain ⟨n, hn, rfl⟩ := List.mem_iff_getElem.1 htr
          have hnl : n < ls.length := by rw [← hfa.length_eq]; exact hn
          have hl := (List.forall₂_iff_get.1 hfa).2 n hn hnl
          refine ⟨ls, by simp, ls[n], List.getElem_mem hnl, ?_⟩
          simp only [List.get_eq_getElem] at hl
          revert hl hh
          generalize trs[n] = tr
          generalize ls[n] = line
          intro hh hl
          cases hl with
          | nil => cases hh
          | cons a _ => cases hh; exact ⟨_, rfl, a⟩
        · refine .inr (.inr fun k bs d hk hd => ?_)
          obtain ⟨bs0, ls, q1, q2, rfl⟩ := hdone k bs d hk hd
          obtain ⟨b, hb, rest⟩ := h k bs0 d q1 hd
          exact ⟨b, List.mem_append.2 (.inl hb), rest⟩
    | false =>
      rw [hf] at h2 hsim
      simp only [Bool.false_eq_true, if_false] at h2 hsim
      have hne : (r.2.1.map fun p => p.1) ≠ [] := by
        intro e
        have : r.2.1.length = 0 := by simpa using congrArg List.length e
        exact htrs (List.length_eq_zero_iff.1 (by omega))
      rw [if_neg (by rintro ⟨-, e⟩; exact hne e)] at h2
      obtain ⟨e1, e2, e3, e4⟩ := plot_lines (trs := trs) (D := { D with sim :=
            { waiting := D.sim.waiting ++ r.1
              cur := r.2.1.map fun p => p.1
              tryGuards := r.2.2.1
              took := r.2.1.map fun p => p.2 } }) hne hi.nlines hi.lines (.inr (by simpa using hrl)) h2
      simp only [if_neg htrs] at e4
      refine ⟨extend trs (r.2.1.map fun p => p.1), by rw [e1]; exact hsim, by rw [e1]; simp, ?_, e3,
        by rw [e2]; exact hi.ndone, e4, by rw [e2]; exact hi.done, fun s hs => ?_⟩
      · rw [e1]
        simp only
        rw [List.zip_map']
        simpa using g1
      · rw [e1, e2]
        rcases hi.cov s hs with h | h | h
        · exact .inl (List.mem_append.2 (.inl h))
        · exact .inr (.inl (head_extend (by simpa using hrl) h))
        · exact .inr (.inr h)

theorem rounds_inv {C : SimEnv K} {P : SimPlot K} {X0 : List (Sim K)} {W : Sim K → Prop} : ∀ (n : ℕ) {D D' : SimDraw K}
    {trs : List (List (Sim K))}, LInv C P X0 W D trs → D.rounds C P n = .ok D' → ∃ trs', LInv C P X0 W D' trs'
  | 0, D, D', trs, hi, h => by cases h; exact ⟨trs, hi⟩
  | n + 1, D, D', trs, hi, h => by
    simp only [SimDraw.rounds, bind_ok] at h
    obtain ⟨D1, h1, h2⟩ := h
    obtain ⟨trs1, hi1⟩ := round_inv hi h1
    exact rounds_inv n hi1 h2

theorem rounds_start {C : SimEnv K} {P : SimPlot K} {X0 : List (Sim K)} (h0 : ∀ s ∈ X0, s.steps = 0) :
    LInv C P X0 (fun _ => False) (SimDraw.new P X0) [] := by
  refine ⟨⟨fun s hs => ⟨by rw [h0 s hs]; exact Nat.zero_le _, .init hs⟩, fun p hp => by simp [SimDraw.new] at hp⟩,
    by simp [SimDraw.new], by simp [SimDraw.new], by simp [SimDraw.new], by simp [SimDraw.new], ?_, ?_, fun s hs => hs.elim⟩
  · intro k ls d hk _
    simp only [SimDraw.new, List.getElem?_map, Option.map_eq_some_iff] at hk
    obtain ⟨_, _, rfl⟩ := hk
    exact .nil
  · intro k bs d hk _ b hb
    simp only [SimDraw.new, List.getElem?_map, Option.map_eq_some_iff] at hk
    obtain ⟨_, _, rfl⟩ := hk
    cases hb

/-- **C62** Every line of the result shows, point by point, the states of a simulation during one stay in a mode, from the
state in which the mode was entered to the end of the stay.  Missing: coordinate 0 on the y axis (`C62_y_axis_zero_wrong`). -/
theorem C62_lines_are_trajectories_partial {C : SimEnv K} {P : SimPlot K} {X0 : List (Sim K)} (h0 : ∀ s ∈ X0, s.steps = 0)
    {n : ℕ} {D : SimDraw K} (h : (SimDraw.new P X0).rounds C P n = .ok D) {k : ℕ} {d : PlotDim K × PlotDim K}
    (hk : P.dims[k]? = some d) (hd : PlainAxes d) {bs : List (List (List (K × K)))} (hb : D.done[k]? = some bs)
    {b : List (List (K × K))} (hbm : b ∈ bs) {line : List (K × K)} (hl : line ∈ b) :
    ∃ states jumped, SimLine C X0 states jumped ∧ LineEnded C states jumped ∧
      List.Forall₂ (PointOf P.step d) states line := by
  obtain ⟨trs, hi⟩ := rounds_inv n (rounds_start h0) h
  obtain ⟨tr, fl, h1, h2, h3⟩ := hi.done k bs d hb hk b hbm line hl
  exact ⟨tr, fl, h1, h2, h3.imp fun s p hp => hp.pointOf hd⟩

theorem rounds_add {C : SimEnv K} {P : SimPlot K} : ∀ (m n : ℕ) {D : SimDraw K},
    D.rounds C P (m + n) = (do let D ← D.rounds C P m; D.rounds C P n)
  | 0, n, D => by rw [Nat.zero_add]; rfl
  | m + 1, n, D => by
    rw [Nat.add_right_comm]
    simp only [SimDraw.rounds]
    cases D.round C P with
    | error e => rfl
    | ok D1 => exact rounds_add m n

/-- **C62** No simulation is left out: when all have ended, for every simulation that ever waited (an initial one, or one that
jumped to another mode) every subplot has a line that starts at it.  Missing: coordinate 0 on the y axis. -/
theorem C62_every_simulation_drawn_partial {C : SimEnv K} {P : SimPlot K} {X0 : List (Sim K)} (h0 : ∀ s ∈ X0, s.steps = 0)
    {m n : ℕ} {D D' : SimDraw K} (h : (SimDraw.new P X0).rounds C P m = .ok D) {s : Sim K} (hs : s ∈ D.sim.waiting)
    (h' : (SimDraw.new P X0).rounds C P (m + n) = .ok D') (hw : D'.sim.waiting = []) (hc : D'.sim.cur = [])
    {k : ℕ} {d : PlotDim K × PlotDim K} (hk : P.dims[k]? = some d) (hd : PlainAxes d) :
    ∃ bs, D'.done[k]? = some bs ∧ ∃ b ∈ bs, ∃ line ∈ b, ∃ p, line.head? = some p ∧ PointOf P.step d s p := by
  obtain ⟨trs, hi⟩ := rounds_inv m (rounds_start h0) h
  have hi' : LInv C P X0 (fun t => t = s) D trs :=
    ⟨hi.sim, hi.took, hi.good, hi.nlines, hi.ndone, hi.lines, hi.done, fun t ht => by subst ht; exact .inl hs⟩
  rw [rounds_add, h] at h'
  obtain ⟨trs', hj⟩ := rounds_inv n hi' h'
  have ht : trs' = [] := List.length_eq_zero_iff.1 (by rw [hj.len, hc]; rfl)
  subst ht
  have hkl : k < D'.done.length := by rw [hj.ndone]; exact (List.getElem?_eq_some_iff.1 hk).1
  refine ⟨_, List.getElem?_eq_getElem hkl, ?_⟩
  rcases hj.cov s rfl with h | h | h
  · rw [hw] at h; cases h
  · obtain ⟨tr, h, -⟩ := h; cases h
  · obtain ⟨b, hb, line, hl, p, h1, h2⟩ := h k _ d (List.getElem?_eq_getElem hkl) hk
    exact ⟨b, hb, line, hl, p, h1, h2.pointOf hd⟩

/-! ### An example -/

/-- Mode 0 with `y := 2 y` in every step, left for mode 1 (where nothing changes) as soon as `y ≥ 4`; 3 steps. -/
def lineEx : SimEnv ℚ where
  ha := { modes := [{ name := "a", id := 0, a := some ⟨2, [[], [(1, 1)]]⟩ }, { name := "b", id := 1, a := some ⟨2, [[], []]⟩ }]
          out := [[0], []]
          trans := [{ src := 0, dst := 1, index := 0, guard := some (⟨2, [[(1, -1)]]⟩, [-4]) }] }
  basis := fun i => if i = 0 then ⟨2, 2, fun i j => if i = j then if i = 0 then 1 else 2 else 0⟩ else Mat.id 2
  numSteps := 3
  urgent := true
  avoid := []

/-- Two subplots: `y` over time and `y` over `x`. -/
def lineExP : SimPlot ℚ := ⟨[(.time, .idx 1), (.idx 0, .idx 1)], 1 / 2⟩

/-- Two simulations; the second jumps one step earlier. -/
def lineEx0 : List (Sim ℚ) := [⟨0, [7, 1], 0⟩, ⟨0, [8, 2], 0⟩]

set_option maxRecDepth 100000 in
/-- All simulations end, and the lines are those of both simulations in both modes. -/
theorem lineEx_done : (((SimDraw.new lineExP lineEx0).rounds lineEx lineExP 20).toOption.map fun D =>
    D.sim.waiting.isEmpty && D.sim.cur.isEmpty && decide (D.done =
      [[[[(0, 1), (1 / 2, 2), (1, 4), (1, 4)], [(0, 2), (1 / 2, 4), (1 / 2, 4)]],
        [[(1 / 2, 4), (1, 4), (3 / 2, 4)], [(1, 4), (3 / 2, 4)]]],
       [[[(7, 1), (7, 2), (7, 4), (7, 4)], [(8, 2), (8, 4), (8, 4)]],
        [[(8, 4), (8, 4), (8, 4)], [(7, 4), (7, 4)]]]])) = some true := by
  decide +kernel

/-- The hypotheses of both theorems are met by the example. -/
example : (∀ s ∈ lineEx0, s.steps = 0) ∧ ∀ d ∈ lineExP.dims, PlainAxes d := by
  refine ⟨by simp [lineEx0], fun d hd => ?_⟩
  simp only [lineExP, List.mem_cons, List.not_mem_nil, or_false] at hd
  rcases hd with rfl | rfl
  · exact ⟨.inl rfl, .inr ⟨0, rfl⟩⟩
  · exact ⟨.inr ⟨0, rfl⟩, .inr ⟨0, rfl⟩⟩

set_option maxRecDepth 100000 in
/-- **C62** fails for coordinate 0 on the y axis: the coordinates are 7 and 8, but the lines show the time twice. -/
theorem C62_y_axis_zero_wrong : ∀ P : SimPlot ℚ, P = ⟨[(.time, .idx 0)], 1 / 2⟩ →
    (((SimDraw.new P lineEx0).rounds lineEx P 20).toOption.map fun D => D.done) =
      some [[[[(0, 0), (1 / 2, 1 / 2), (1, 1), (1, 1)], [(0, 0), (1 / 2, 1 / 2), (1 / 2, 1 / 2)]],
        [[(1 / 2, 1 / 2), (1, 1), (3 / 2, 3 / 2)], [(1, 1), (3 / 2, 3 / 2)]]]] := by
  rintro _ rfl
  decide +kernel

end Hylaa
