import Verif.Model.Sim
import Verif.Proofs.Inv

/-!
# C45: simulation traces are trajectories
-/

set_option linter.unusedSectionVars false

namespace Hylaa
variable {K : Type} [Field K] [LinearOrder K] [IsStrictOrderedRing K]

/-- The discrete-time trajectories of the automaton from the points `X0`: a step multiplies by the
mode's one-step matrix and needs the invariant at its start; a jump takes an outgoing transition of
the current mode whose guard is true and applies its reset, without passing time. -/
inductive SimReach (C : SimEnv K) (X0 : List (Sim K)) : ℕ → List K → ℕ → Prop
  | init {s} : s ∈ X0 → SimReach C X0 s.mode s.pt s.steps
  | step {i m x n} : SimReach C X0 i x n → C.ha.modes[i]? = some m →
      (∀ lc ∈ m.inv, dot lc.row (vecOf x) ≤ lc.rhs) → n < C.numSteps →
      SimReach C X0 i ((C.basis i).mulList x) (n + 1)
  | jump {i x n ti ts t g y} : SimReach C X0 i x n → C.ha.out[i]? = some ts → ti ∈ ts →
      C.ha.trans[ti]? = some t → t.guard = some g → t.mink = none →
      (∀ p ∈ g.1.rows.zip g.2, dot p.1 (vecOf x) ≤ p.2) →
      (∀ R, t.reset = some R → y = R.mulList x) → (t.reset = none → y = x) →
      SimReach C X0 t.dst y n

theorem firstGuard_spec {C : SimEnv K} {pt : List K} {t : Tr K} : ∀ (ts : List ℕ),
    firstGuard C pt ts = .ok (some t) → ∃ ti ∈ ts, ∃ g, C.ha.trans[ti]? = some t ∧ t.guard = some g ∧
      ∀ p ∈ g.1.rows.zip g.2, dot p.1 (vecOf pt) ≤ p.2
  | [], h => by cases h
  | ti :: ts, h => by
    simp only [firstGuard, bind_ok, needSome_ok] at h
    obtain ⟨t', ht, g, hg, h⟩ := h
    split at h
    · rename_i hgt
      cases h
      refine ⟨ti, List.mem_cons_self, g, ht, hg, ?_⟩
      intro p hp
      unfold guardTrue at hgt
      rw [List.all_eq_true] at hgt
      simpa using hgt p hp
    · obtain ⟨tj, h1, h2⟩ := firstGuard_spec ts h
      exact ⟨tj, List.mem_cons_of_mem _ h1, h2⟩

/-- A simulation object: still in its mode, or showing the point after the jump it took. -/
def SimGood (C : SimEnv K) (X0 : List (Sim K)) (p : Option (Sim K) × Bool) : Prop :=
  ∀ s, p.1 = some s → s.steps ≤ C.numSteps ∧
    (p.2 = false → SimReach C X0 s.mode s.pt s.steps) ∧
    (p.2 = true → ∃ j, SimReach C X0 j s.pt s.steps)

theorem simOne_spec {C : SimEnv K} {X0 : List (Sim K)} {tryG took : Bool} {obj : Option (Sim K)}
    {r : SimOut K} (hg : SimGood C X0 (obj, took)) (h : simOne C tryG took obj = .ok r) :
    SimGood C X0 (r.obj, r.took) ∧
      ∀ s ∈ r.add, s.steps ≤ C.numSteps ∧ SimReach C X0 s.mode s.pt s.steps := by
  unfold simOne at h
  split at h
  · cases h
    exact ⟨fun s hs => by simp at hs, fun s hs => by simp at hs⟩
  rename_i s
  split at h
  · cases h
    exact ⟨fun s hs => by simp at hs, fun s hs => by simp at hs⟩
  rename_i hne
  split at h
  · cases h
    exact ⟨fun s hs => by simp at hs, fun s hs => by simp at hs⟩
  rename_i htk
  simp only [bind_ok, needSome_ok] at h
  obtain ⟨ts, hts, t, ht, h⟩ := h
  obtain ⟨hst, hre, -⟩ := hg s rfl
  have hre := hre (by simpa using htk)
  cases t with
  | some t =>
    simp only [bind_ok, needSome_ok, pure_ok] at h
    obtain ⟨pt, hpt, dst, hdst, rfl⟩ := h
    have htg : firstGuard C s.pt ts = .ok (some t) := by
      cases tryG
      · cases ht
      · exact ht
    obtain ⟨ti, h1, g, h2, h3, h4⟩ := firstGuard_spec ts htg
    simp only [resetPoint, bind_ok, assert_ok, pure_ok, Option.isNone_iff_eq_none] at hpt
    obtain ⟨_, hmk, rfl⟩ := hpt
    have hj := SimReach.jump (y := match t.reset with
      | none => s.pt
      | some R => R.mulList s.pt) hre hts h1 h2 h3 hmk h4 (fun R hR => by rw [hR]) (fun hR => by rw [hR])
    constructor
    · intro s' hs'
      cases hs'
      exact ⟨hst, fun h => by simp at h, fun _ => ⟨_, hj⟩⟩
    · intro s' hs'
      simp only at hs'
      split at hs'
      · cases hs'
      · rw [List.mem_singleton] at hs'
        subst hs'
        exact ⟨hst, hj⟩
  | none =>
    simp only [bind_ok, needSome_ok] at h
    obtain ⟨m, hm, h⟩ := h
    split at h
    · rename_i hin
      cases h
      unfold inInv at hin
      rw [List.all_eq_true] at hin
      refine ⟨?_, fun s hs => by simp at hs⟩
      intro s' hs'
      cases hs'
      have hlt : s.steps < C.numSteps := lt_of_le_of_ne hst hne
      exact ⟨hlt, fun _ => .step hre hm (fun lc hlc => by simpa using hin lc hlc) hlt, fun h => by simp at h⟩
    · cases h
      exact ⟨fun s hs => by simp at hs, fun s hs => by simp at hs⟩

theorem simLoop_spec {C : SimEnv K} {X0 : List (Sim K)} : ∀ (l : List (Option (Sim K) × Bool)) {tryG : Bool}
    {r : List (Sim K) × List (Option (Sim K) × Bool) × Bool × Bool},
    (∀ p ∈ l, SimGood C X0 p) → simLoop C tryG l = .ok r →
    (∀ p ∈ r.2.1, SimGood C X0 p) ∧
      ∀ s ∈ r.1, s.steps ≤ C.numSteps ∧ SimReach C X0 s.mode s.pt s.steps
  | [], _, _, _, h => by
    cases h
    exact ⟨fun p hp => by simp at hp, fun s hs => by simp at hs⟩
  | p :: l, tryG, r, hg, h => by
    simp only [simLoop, bind_ok, pure_ok] at h
    obtain ⟨r1, h1, q, h2, rfl⟩ := h
    obtain ⟨a1, a2⟩ := simOne_spec (hg p List.mem_cons_self) h1
    obtain ⟨b1, b2⟩ := simLoop_spec l (fun p hp => hg p (List.mem_cons_of_mem _ hp)) h2
    constructor
    · intro p' hp'
      rcases List.mem_cons.1 hp' with rfl | hp'
      · exact a1
      · exact b1 p' hp'
    · intro s hs
      rcases List.mem_append.1 hs with hs | hs
      · exact a2 s hs
      · exact b2 s hs

/-- All simulations of a state are trajectories. -/
def SimInv (C : SimEnv K) (X0 : List (Sim K)) (σ : SimSt K) : Prop :=
  (∀ s ∈ σ.waiting, s.steps ≤ C.numSteps ∧ SimReach C X0 s.mode s.pt s.steps) ∧
    ∀ p ∈ σ.cur.zip σ.took, SimGood C X0 p

theorem simStep_spec {C : SimEnv K} {X0 : List (Sim K)} {σ σ' : SimSt K} (hi : SimInv C X0 σ)
    (h : simStep C σ = .ok σ') : SimInv C X0 σ' := by
  unfold simStep at h
  split at h
  · split at h
    · cases h; exact hi
    · simp only [simPop, bind_ok, needSome_ok, assert_ok, pure_ok] at h
      obtain ⟨i, -, m, -, _, -, rfl⟩ := h
      constructor
      · intro s hs
        exact hi.1 s (List.mem_filter.1 hs).1
      · intro p hp s hs
        simp only [List.zip_map', List.mem_map] at hp
        obtain ⟨s', hs', rfl⟩ := hp
        simp only [Option.some.injEq] at hs
        subst hs
        have := hi.1 s' (List.mem_filter.1 hs').1
        exact ⟨this.1, fun _ => this.2, fun h => by simp at h⟩
  · simp only [bind_ok, pure_ok] at h
    obtain ⟨r, h1, rfl⟩ := h
    obtain ⟨a1, a2⟩ := simLoop_spec _ hi.2 h1
    constructor
    · intro s hs
      rcases List.mem_append.1 hs with hs | hs
      · exact hi.1 s hs
      · exact a2 s hs
    · intro p hp
      simp only at hp
      split at hp
      · simp at hp
      · rw [List.zip_map', List.mem_map] at hp
        obtain ⟨q, hq, rfl⟩ := hp
        exact a1 q hq

/-- Every waiting simulation and every active one is a trajectory of the automaton from an initial
point, within the time bound; one that just jumped shows the point after the jump. -/
theorem C45_sims_are_trajectories {C : SimEnv K} {X0 : List (Sim K)} (h0 : ∀ s ∈ X0, s.steps = 0) {n : ℕ}
    {σ : SimSt K} (h : simSteps C n { waiting := X0 } = .ok σ) :
    (∀ s ∈ σ.waiting, s.steps ≤ C.numSteps ∧ SimReach C X0 s.mode s.pt s.steps) ∧
    ∀ s took, (some s, took) ∈ σ.cur.zip σ.took → s.steps ≤ C.numSteps ∧
      (took = false → SimReach C X0 s.mode s.pt s.steps) ∧
      (took = true → ∃ j, SimReach C X0 j s.pt s.steps) := by
  have key : SimInv C X0 σ := by
    have h1 : SimInv C X0 { waiting := X0 } :=
      ⟨fun s hs => ⟨by rw [h0 s hs]; exact Nat.zero_le _, .init hs⟩, fun p hp => by simp at hp⟩
    revert h
    generalize ({ waiting := X0 } : SimSt K) = σ0 at h1
    induction n generalizing σ0 with
    | zero => intro h; cases h; exact h1
    | succ n ih =>
      intro h
      simp only [simSteps, bind_ok] at h
      obtain ⟨σ1, k1, k2⟩ := h
      exact ih _ (simStep_spec h1 k1) k2
  exact ⟨key.1, fun s took hs => key.2 _ hs s rfl⟩

theorem foldl_min {s : Sim K} : ∀ (l : List (Sim K)) (b : Sim K),
    l.foldl (fun b s => if s.steps < b.steps then s else b) b = s →
    s ∈ b :: l ∧ ∀ x ∈ b :: l, s.steps ≤ x.steps
  | [], b, h => by simp_all
  | a :: l, b, h => by
    rw [List.foldl_cons] at h
    obtain ⟨h1, h2⟩ := foldl_min l _ h
    split at h1
    · rename_i hab
      refine ⟨List.mem_cons_of_mem _ h1, fun x hx => ?_⟩
      rw [if_pos hab] at h2
      rcases List.mem_cons.1 hx with rfl | hx
      · exact (h2 a (by simp)).trans hab.le
      · exact h2 x hx
    · rename_i hab
      rw [if_neg hab] at h2
      refine ⟨by rcases List.mem_cons.1 h1 with rfl | h1 <;> simp_all, fun x hx => ?_⟩
      rcases List.mem_cons.1 hx with rfl | hx
      · exact h2 x (by simp)
      · rcases List.mem_cons.1 hx with rfl | hx
        · exact (h2 b (by simp)).trans (not_lt.1 hab)
        · exact h2 x (by simp [hx])

/-- **C45.** Popping takes all waiting simulations of one mode, and leaves the others: the mode of a simulation
with the fewest steps outside the modes to avoid, or, if all are in such modes, of the first simulation. -/
theorem C45_pops_earliest {C : SimEnv K} {σ σ' : SimSt K} (h : simPop C σ = .ok σ') :
    ∃ s ∈ σ.waiting, σ'.cur = (σ.waiting.filter fun t => t.mode = s.mode).map some ∧
      σ'.waiting = σ.waiting.filter (fun t => t.mode ≠ s.mode) ∧
      (((∃ m, C.ha.modes[s.mode]? = some m ∧ m.name ∉ C.avoid) ∧
        ∀ t ∈ σ.waiting, ∀ m, C.ha.modes[t.mode]? = some m → m.name ∉ C.avoid → s.steps ≤ t.steps) ∨
       ((∀ t ∈ σ.waiting, ∀ m, C.ha.modes[t.mode]? = some m → m.name ∈ C.avoid) ∧ σ.waiting.head? = some s)) := by
  simp only [simPop, bind_ok, assert_ok, pure_ok, needSome_ok] at h
  obtain ⟨i, hi, m, hm, _, -, rfl⟩ := h
  simp only [simPopMode, bind_ok, needSome_ok, pure_ok] at hi
  obtain ⟨ok, hok, first, hf, hi⟩ := hi
  have hmap : ∀ (l : List (Sim K)) (ok : List (Sim K × Bool)), l.mapM (fun s => do
        let m ← needSome C.ha.modes[s.mode]?
        return (s, decide (m.name ∉ C.avoid))) = Except.ok (ε := Err) ok →
      ∀ t b, (t, b) ∈ ok ↔ t ∈ l ∧ ∃ m, C.ha.modes[t.mode]? = some m ∧ b = decide (m.name ∉ C.avoid) := by
    intro l
    induction l with
    | nil =>
      intro ok h t b
      cases h
      simp
    | cons a l ih =>
      intro ok h t b
      rw [List.mapM_cons] at h
      simp only [bind_ok, needSome_ok, pure_ok] at h
      obtain ⟨_, ⟨m, hm, rfl⟩, q, hq, rfl⟩ := h
      rw [List.mem_cons, List.mem_cons, ih q hq t b, Prod.mk.injEq]
      constructor
      · rintro (⟨rfl, rfl⟩ | ⟨h1, h2⟩)
        · exact ⟨.inl rfl, m, hm, rfl⟩
        · exact ⟨.inr h1, h2⟩
      · rintro ⟨rfl | h1, m', h2, h3⟩
        · rw [hm] at h2; cases h2; exact .inl ⟨rfl, h3⟩
        · exact .inr ⟨h1, m', h2, h3⟩
  have hall := hmap _ _ hok
  have hcand : ∀ t, t ∈ (ok.filter fun p => p.2).map (fun p => p.1) ↔
      t ∈ σ.waiting ∧ ∃ m, C.ha.modes[t.mode]? = some m ∧ m.name ∉ C.avoid := by
    intro t
    simp only [List.mem_map, List.mem_filter]
    constructor
    · rintro ⟨⟨t, b⟩, ⟨h1, h2⟩, rfl⟩
      obtain ⟨k1, m, k2, k3⟩ := (hall t b).1 h1
      simp only at h2
      rw [h2] at k3
      exact ⟨k1, m, k2, of_decide_eq_true k3.symm⟩
    · rintro ⟨h1, m, h2, h3⟩
      exact ⟨(t, true), ⟨(hall t true).2 ⟨h1, m, h2, (decide_eq_true h3).symm⟩, rfl⟩, rfl⟩
  split at hi
  · rename_i hc
    subst hi
    refine ⟨first, List.mem_of_head? hf, rfl, rfl, .inr ⟨fun t ht m hm => ?_, hf⟩⟩
    by_contra hn
    have := (hcand t).2 ⟨ht, m, hm, hn⟩
    rw [hc] at this; simp at this
  · rename_i c cs hc
    subst hi
    obtain ⟨k1, k2⟩ := foldl_min cs c rfl
    rw [hc] at hcand
    obtain ⟨w1, w2⟩ := (hcand _).1 k1
    exact ⟨_, w1, rfl, rfl, .inl ⟨w2, fun t ht m hm hn => k2 t ((hcand t).2 ⟨ht, m, hm, hn⟩)⟩⟩

/-- The initial points lie in the box, for random numbers between 0 and 1. -/
theorem C45_init_in_box {mode : ℕ} {box : List (K × K)} (hbox : ∀ p ∈ box, p.1 ≤ p.2) {skip : ℕ}
    {rands : List (List K)} (hr : ∀ r ∈ rands, r.length = box.length ∧ ∀ u ∈ r, 0 ≤ u ∧ u ≤ 1) :
    (simInit mode box skip rands).length = rands.length - skip ∧
    ∀ s ∈ simInit mode box skip rands, s.mode = mode ∧ s.steps = 0 ∧ s.pt.length = box.length ∧
      ∀ (i : ℕ) (p : K × K) (x : K), box[i]? = some p → s.pt[i]? = some x → p.1 ≤ x ∧ x ≤ p.2 := by
  refine ⟨by simp [simInit], fun s hs => ?_⟩
  simp only [simInit, List.mem_map] at hs
  obtain ⟨r, hr', rfl⟩ := hs
  obtain ⟨hl, hu⟩ := hr r (List.mem_of_mem_drop hr')
  refine ⟨rfl, rfl, by simp [hl], ?_⟩
  intro i p x hp hx
  simp only [List.getElem?_map, Option.map_eq_some_iff] at hx
  obtain ⟨q, hq, rfl⟩ := hx
  rw [List.getElem?_zip_eq_some] at hq
  obtain ⟨hq1, hq2⟩ := hq
  rw [hp] at hq1
  have e1 : q.1 = p := (Option.some.inj hq1).symm
  have hub := hu q.2 (List.mem_of_getElem? hq2)
  have hb := hbox p (List.mem_of_getElem? hp)
  rw [e1]
  have hd : 0 ≤ p.2 - p.1 := sub_nonneg.2 hb
  constructor
  · have := mul_nonneg hub.1 hd
    linarith
  · have := mul_le_mul_of_nonneg_right hub.2 hd
    linarith

/-! ### An example, and the shared guard flag -/

/-- One mode `x' = 0` (one-step matrix 1) with the self-loop `x ≤ 5`, and no urgent guards. -/
def simEx : SimEnv ℚ where
  ha := { modes := [{ name := "m", id := 0, a := some ⟨1, [[(0, 0)]]⟩ }]
          out := [[0]]
          trans := [{ src := 0, dst := 0, index := 0, guard := some (⟨1, [[(0, 1)]]⟩, [5]) }] }
  basis := fun _ => Mat.id 1
  numSteps := 10
  urgent := false
  avoid := []

/-- `process_urgent_guards = False` should keep every simulation from jumping before its first time
step; but the flag is shared: of two simulations at the same point, the first advances and the
second jumps at once, without passing time. -/
theorem C45_shared_flag : ∃ σ, simSteps simEx 2 { waiting := [⟨0, [3], 0⟩, ⟨0, [3], 0⟩] } = .ok σ ∧
    σ.took = [false, true] ∧ σ.waiting.map (fun s => (s.mode, s.pt, s.steps)) = [(0, [3], 0)] := by
  refine ⟨⟨[⟨0, [3], 0⟩], [some ⟨0, [3], 1⟩, some ⟨0, [3], 0⟩], true, [false, true]⟩, ?_, rfl, rfl⟩
  have hb : (Mat.id 1 : Mat ℚ).mulList [3] = [3] := by
    simp [Mat.mulList, Mat.mulVec, Mat.id, vecOf]
  simp [simSteps, simStep, simPop, simPopMode, simEx, needSome, assert, bind, Except.bind, pure, Except.pure,
      simLoop, simOne, firstGuard, guardTrue, inInv, dot, vecOf, resetPoint, Mode.isError, List.mapM_cons, hb]
  norm_num
  exact fun h => by cases h

end Hylaa
