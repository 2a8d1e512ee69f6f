import Verif.Props.SimLines

/-!
# C62 with more than one step per frame (`draw_stride`)
-/

set_option linter.unusedSectionVars false

namespace Hylaa
variable {K : Type} [Field K] [LinearOrder K] [IsStrictOrderedRing K]

/-- `line` shows some of the states `tr`, in their order.  If a step was made since the last plot (`fresh`), the current state
`o` is not among them. -/
def SubD (P : SimPlot K) (d : PlotDim K × PlotDim K) (fresh : Bool) (tr : List (Sim K)) (o : Option (Sim K))
    (line : List (K × K)) : Prop :=
  ∃ sub, sub.Sublist tr ∧ List.Forall₂ (Drawn1 P d) sub line ∧
    (fresh = true → ∀ s, o = some s → ∃ t0, tr = t0 ++ [s] ∧ sub.Sublist t0)

/-- The invariant, as `LInv` with fewer points in the lines. -/
structure FInv (C : SimEnv K) (P : SimPlot K) (X0 : List (Sim K)) (fresh : Bool) (D : SimDraw K)
    (trs : List (List (Sim K))) : Prop where
  sim : SimInv C X0 D.sim
  took : D.sim.cur.length ≤ D.sim.took.length
  good : List.Forall₂ (LineGood C X0) (D.sim.cur.zip D.sim.took) trs
  nlines : D.lines.length = P.dims.length
  ndone : D.done.length = P.dims.length
  lines : ∀ (k : ℕ) ls d, D.lines[k]? = some ls → P.dims[k]? = some d → ls = [] ∨ (ls.length = trs.length ∧
    ∀ (i : ℕ) tr o line, trs[i]? = some tr → D.sim.cur[i]? = some o → ls[i]? = some line → SubD P d fresh tr o line)
  done : ∀ (k : ℕ) bs d, D.done[k]? = some bs → P.dims[k]? = some d → ∀ b ∈ bs, ∀ line ∈ b,
    ∃ tr fl sub, SimLine C X0 tr fl ∧ LineEnded C tr fl ∧ sub.Sublist tr ∧ List.Forall₂ (Drawn1 P d) sub line

theorem FInv.len {C : SimEnv K} {P : SimPlot K} {X0 : List (Sim K)} {f : Bool} {D : SimDraw K}
    {trs : List (List (Sim K))} (h : FInv C P X0 f D trs) : trs.length = D.sim.cur.length := by
  have := h.good.length_eq
  rw [List.length_zip] at this
  have := h.took
  omega

theorem LineGood.split {C : SimEnv K} {X0 : List (Sim K)} {s : Sim K} {b : Bool} {tr : List (Sim K)}
    (h : LineGood C X0 (some s, b) tr) : ∃ t0, tr = t0 ++ [s] :=
  List.getLast?_eq_some_iff.1 (h.last s rfl).1

theorem step_finv {C : SimEnv K} {P : SimPlot K} {X0 : List (Sim K)} {f : Bool} {D D' : SimDraw K}
    {trs : List (List (Sim K))} (hi : FInv C P X0 f D trs) (h : D.step C = .ok D') :
    ∃ trs', FInv C P X0 true D' trs' := by
  have hlen := hi.len
  simp only [SimDraw.step, bind_ok] at h
  obtain ⟨σ, h1, h2⟩ := h
  have hsim := simStep_spec hi.sim h1
  by_cases hc : D.sim.cur = []
  · rw [if_neg (by simp [hc])] at h2
    cases h2
    have htrs : trs = [] := by rw [← List.length_eq_zero_iff, hlen, hc]; rfl
    subst htrs
    have hl0 : ∀ (k : ℕ) ls d, D.lines[k]? = some ls → P.dims[k]? = some d → ls = [] := fun k ls d hk hd => by
      rcases hi.lines k ls d hk hd with h | ⟨h, -⟩
      · exact h
      · exact List.length_eq_zero_iff.1 (by simpa using h)
    unfold simStep at h1
    rw [hc] at h1
    simp only at h1
    split at h1
    · cases h1
      exact ⟨[], hsim, hi.took, hi.good, hi.nlines, hi.ndone, fun k ls d hk hd => .inl (hl0 k ls d hk hd), hi.done⟩
    · simp only [simPop, bind_ok, needSome_ok, assert_ok, pure_ok] at h1
      obtain ⟨i, -, m, -, _, -, rfl⟩ := h1
      set pop := D.sim.waiting.filter fun s => s.mode = i with hpop
      have hgood : List.Forall₂ (LineGood C X0) ((pop.map some).zip (pop.map fun _ => false)) (pop.map fun s => [s]) := by
        have hw : ∀ s ∈ pop, s.steps ≤ C.numSteps ∧ SimReach C X0 s.mode s.pt s.steps :=
          fun s hs => hi.sim.1 s (List.mem_filter.1 hs).1
        clear_value pop
        clear hsim hpop
        induction pop with
        | nil => exact .nil
        | cons s l ih =>
          obtain ⟨a, b⟩ := hw s List.mem_cons_self
          refine .cons ⟨.start b, fun s' hs' => ?_, fun h => by cases h⟩ (ih fun s hs => hw s (List.mem_cons_of_mem _ hs))
          cases hs'
          exact ⟨rfl, a⟩
      exact ⟨pop.map fun s => [s], hsim, by simp, hgood, hi.nlines, hi.ndone,
        fun k ls d hk hd => .inl (hl0 k ls d hk hd), hi.done⟩
  · have htrs : trs ≠ [] := by
      rintro rfl
      exact hc (List.length_eq_zero_iff.1 hlen.symm)
    unfold simStep at h1
    split at h1
    · next e => exact absurd e hc
    simp only [bind_ok, pure_ok] at h1
    obtain ⟨r, h3, rfl⟩ := h1
    obtain ⟨g1, g2, g3⟩ := simLoop_good hi.good h3
    have hrl : r.2.1.length = trs.length := by
      rw [g3, hi.good.length_eq]
    cases hf : r.2.2.2 with
    | true =>
      rw [hf] at h2 hsim
      simp only [if_true] at h2 hsim
      rw [if_pos ⟨hc, trivial⟩] at h2
      simp only [SimDraw.commitPaths, bind_ok, need_ok, pure_ok, exists_const] at h2
      obtain ⟨D1, ⟨-, rfl⟩, rfl⟩ := h2
      have hnone := g2 hf
      have htr' : extend trs (r.2.1.map fun p => p.1) = trs := by
        unfold extend
        apply List.ext_getElem?
        intro n
        rw [List.getElem?_zipWith]
        by_cases hn : n < trs.length
        · rw [List.getElem?_eq_getElem hn, List.getElem?_eq_getElem (by rw [List.length_map]; omega)]
          simp only [List.getElem_map]
          rw [hnone _ (List.getElem_mem _)]
          simp
        · rw [List.getElem?_eq_none (by omega)]
      rw [htr'] at g1
      have hend : ∀ tr ∈ trs, ∃ fl, SimLine C X0 tr fl ∧ LineEnded C tr fl := by
        intro tr htr
        obtain ⟨n, hn, rfl⟩ := List.mem_iff_getElem.1 htr
        have hg := (List.forall₂_iff_get.1 g1).2 n (by omega) hn
        exact ⟨_, hg.line, hg.ended (hnone _ (List.get_mem _ _))⟩
      refine ⟨[], hsim, by simp, by simp, by simp [SimDraw.commit, hi.nlines],
        by simp [SimDraw.commit, hi.ndone, hi.nlines], ?_, ?_⟩
      · intro k ls d hk _
        simp only [SimDraw.commit, List.getElem?_map, Option.map_eq_some_iff] at hk
        obtain ⟨_, _, rfl⟩ := hk
        exact .inl rfl
      · intro k bs d hk hd b hb line hl
        simp only [SimDraw.commit] at hk
        rw [List.getElem?_map, Option.map_eq_some_iff] at hk
        obtain ⟨q, hq, rfl⟩ := hk
        rw [List.getElem?_zip_eq_some] at hq
        rcases List.mem_append.1 hb with hb | hb
        · exact hi.done k q.1 d hq.1 hd b hb line hl
        · rw [List.mem_singleton] at hb
          subst hb
          rcases hi.lines k q.2 d hq.2 hd with h | ⟨hll, hfa⟩
          · rw [h] at hl; cases hl
          · obtain ⟨n, hn, rfl⟩ := List.mem_iff_getElem.1 hl
            have hnt : n < trs.length := by omega
            obtain ⟨fl, l1, l2⟩ := hend trs[n] (List.getElem_mem hnt)
            obtain ⟨sub, s1, s2, -⟩ := hfa n _ _ _ (List.getElem?_eq_getElem hnt)
              (List.getElem?_eq_getElem (by omega)) (List.getElem?_eq_getElem hn)
            exact ⟨_, fl, sub, l1, l2, s1, s2⟩
    | false =>
      rw [hf] at h2 hsim
      simp only [Bool.false_eq_true, if_false] at h2 hsim
      have hne : (r.2.1.map fun p => p.1) ≠ [] := by
        intro e
        have : r.2.1.length = 0 := by simpa using congrArg List.length e
        exact htrs (List.length_eq_zero_iff.1 (by omega))
      rw [if_neg (by rintro ⟨-, e⟩; exact hne e)] at h2
      cases h2
      refine ⟨extend trs (r.2.1.map fun p => p.1), hsim, by simp, ?_, hi.nlines, hi.ndone, fun k ls d hk hd => ?_, hi.done⟩
      · simp only
        rw [List.zip_map']
        simpa using g1
      · rcases hi.lines k ls d hk hd with h | ⟨hll, hfa⟩
        · exact .inl h
        · refine .inr ⟨by simp [extend, hll, hrl], fun i tr' o line ht ho hl => ?_⟩
          have hil : i < ls.length := (List.getElem?_eq_some_iff.1 hl).1
          have hit : i < trs.length := by omega
          obtain ⟨sub, s1, s2, -⟩ := hfa i _ _ _ (List.getElem?_eq_getElem hit)
            (List.getElem?_eq_getElem (by omega)) hl
          simp only at ho
          unfold extend at ht
          rw [List.getElem?_zipWith, List.getElem?_eq_getElem hit, ho] at ht
          simp only [Option.some.injEq] at ht
          subst ht
          refine ⟨sub, s1.trans (List.sublist_append_left _ _), s2, fun _ s hs => ?_⟩
          subst hs
          exact ⟨trs[i], rfl, s1⟩

theorem strides_finv {C : SimEnv K} {P : SimPlot K} {X0 : List (Sim K)} : ∀ {n : ℕ} {f : Bool} {D D' : SimDraw K}
    {trs : List (List (Sim K))}, FInv C P X0 f D trs → SimDraw.strides C n D = .ok D' →
      ∃ trs', FInv C P X0 (f || decide (0 < n)) D' trs'
  | 0, f, D, D', trs, hi, h => by cases h; exact ⟨trs, by simpa using hi⟩
  | n + 1, f, D, D', trs, hi, h => by
    simp only [SimDraw.strides, bind_ok] at h
    obtain ⟨D1, h1, h2⟩ := h
    obtain ⟨trs1, hi1⟩ := step_finv hi h1
    obtain ⟨trs2, hi2⟩ := strides_finv hi1 h2
    exact ⟨trs2, by simpa using hi2⟩

theorem appendPts_get : ∀ {ls : List (List (K × K))} {ps : List (Option (K × K))} {ls' : List (List (K × K))},
    ls.length = ps.length → appendPts ls ps = .ok ls' → ls' = List.zipWith (fun l p => l ++ p.toList) ls ps
  | [], [], ls', _, h => by cases h; rfl
  | l :: ls, p :: ps, ls', hlen, h => by
    simp only [appendPts, bind_ok, pure_ok] at h
    obtain ⟨r, h1, rfl⟩ := h
    rw [appendPts_get (by simpa using hlen) h1]
    rfl

theorem plot_finv {C : SimEnv K} {P : SimPlot K} {X0 : List (Sim K)} {D D' : SimDraw K} {trs : List (List (Sim K))}
    (hi : FInv C P X0 true D trs) (h : SimDraw.plot P D = .ok D') : FInv C P X0 false D' trs := by
  have hlen := hi.len
  unfold SimDraw.plot at h
  split at h
  · cases h
    refine ⟨hi.sim, hi.took, hi.good, hi.nlines, hi.ndone, fun k ls d hk hd => ?_, hi.done⟩
    rcases hi.lines k ls d hk hd with h | ⟨h1, h2⟩
    · exact .inl h
    · exact .inr ⟨h1, fun i tr o line a b c => by
        obtain ⟨sub, s1, s2, -⟩ := h2 i tr o line a b c
        exact ⟨sub, s1, s2, fun h => by cases h⟩⟩
  · next hc =>
    simp only [bind_ok, pure_ok] at h
    obtain ⟨ls', h1, rfl⟩ := h
    have hm : ∀ {α β : Type} {f : α → Except Err β} {l : List α} {r : List β}, l.mapM f = .ok r →
        List.Forall₂ (fun a b => f a = .ok b) l r := by
      intro α β f l
      induction l with
      | nil => intro r h; simp [pure, Except.pure] at h; subst h; exact .nil
      | cons a l ih =>
        intro r h
        simp only [List.mapM_cons, bind_ok, pure_ok] at h
        obtain ⟨b, h1, r', h2, rfl⟩ := h
        exact .cons h1 (ih h2)
    have h2 := hm h1
    have hlen' : ls'.length = P.dims.length := by
      have := h2.length_eq
      rw [List.length_zip, hi.nlines] at this
      omega
    refine ⟨hi.sim, hi.took, hi.good, hlen', hi.ndone, fun k ls d hk hd => .inr ?_, hi.done⟩
    simp only at hk
    have hk' : k < ls'.length := (List.getElem?_eq_some_iff.1 hk).1
    have hkl : k < D.lines.length := by have := hi.nlines; omega
    have h3 := (List.forall₂_iff_get.1 h2).2 k (by rw [List.length_zip, hi.nlines]; omega) hk'
    have e1 : (D.lines.zip P.dims).get ⟨k, by rw [List.length_zip, hi.nlines]; omega⟩ = (D.lines[k], d) := by
      rw [List.get_eq_getElem, List.getElem_zip]
      rw [List.getElem?_eq_getElem (by omega)] at hd
      cases hd
      rfl
    have e2 : ls'.get ⟨k, hk'⟩ = ls := by
      rw [List.getElem?_eq_getElem hk'] at hk
      cases hk; rfl
    rw [e1, e2] at h3
    simp only [bind_ok] at h3
    obtain ⟨ps, h4, h5⟩ := h3
    obtain ⟨p1, p2⟩ := plotPts_spec h4
    have hpl : ps.length = D.sim.cur.length := p1.length_eq.symm
    have hpo : ∀ (i : ℕ) o, D.sim.cur[i]? = some o → ∃ p, ps[i]? = some p ∧
        (∀ q, p = some q → ∃ s, o = some s ∧ Drawn1 P d s q) := fun i o ho => by
      obtain ⟨hil, rfl⟩ := List.getElem?_eq_some_iff.1 ho
      exact ⟨ps[i], List.getElem?_eq_getElem (by omega), (List.forall₂_iff_get.1 p1).2 i hil (by omega)⟩
    unfold setCurSim at h5
    split at h5
    · rw [appendPts_get (by simp) h5]
      refine ⟨by simp [hpl, hlen], fun i tr o line ht ho hl => ?_⟩
      obtain ⟨p, q1, q2⟩ := hpo i o ho
      rw [List.getElem?_zipWith, List.getElem?_map, q1] at hl
      simp only [Option.map_some, Option.some.injEq, List.nil_append] at hl
      subst hl
      cases p with
      | none => exact ⟨[], List.nil_sublist _, .nil, fun h => by cases h⟩
      | some q =>
        obtain ⟨s, rfl, hs⟩ := q2 q rfl
        have hit : i < trs.length := (List.getElem?_eq_some_iff.1 ht).1
        have hg := (List.forall₂_iff_get.1 hi.good).2 i (by rw [hi.good.length_eq]; exact hit) hit
        rw [List.get_eq_getElem, List.getElem_zip, List.get_eq_getElem] at hg
        have hic : i < D.sim.cur.length := by omega
        rw [List.getElem?_eq_getElem hic] at ho
        rw [List.getElem?_eq_getElem hit] at ht
        cases ho' : D.sim.cur[i] with
        | none => rw [ho'] at ho; cases ho
        | some s' =>
          rw [ho'] at ho hg
          cases ho; cases ht
          obtain ⟨t0, ht0⟩ := hg.split
          refine ⟨[s], ?_, .cons hs .nil, fun h => by cases h⟩
          rw [ht0]
          exact List.sublist_append_right _ _
    · next hls =>
      rcases hi.lines k _ d (List.getElem?_eq_getElem hkl) hd with h | ⟨hll, hfa⟩
      · exact absurd h hls
      · rw [appendPts_get (by omega) h5]
        refine ⟨by simp [hpl, hlen, hll], fun i tr o line ht ho hl => ?_⟩
        obtain ⟨p, q1, q2⟩ := hpo i o ho
        have hit : i < trs.length := (List.getElem?_eq_some_iff.1 ht).1
        have hil : i < D.lines[k].length := by omega
        rw [List.getElem?_zipWith, q1, List.getElem?_eq_getElem hil] at hl
        simp only [Option.some.injEq] at hl
        obtain ⟨sub, s1, s2, s3⟩ := hfa i tr o _ ht ho (List.getElem?_eq_getElem hil)
        subst hl
        cases p with
        | none => exact ⟨sub, s1, by simpa using s2, fun h => by cases h⟩
        | some q =>
          obtain ⟨s, rfl, hs⟩ := q2 q rfl
          obtain ⟨t0, rfl, h⟩ := s3 rfl s rfl
          exact ⟨sub ++ [s], h.append (.refl _), List.rel_append s2 (.cons hs .nil), fun h => by cases h⟩

theorem frames_finv {C : SimEnv K} {P : SimPlot K} {X0 : List (Sim K)} : ∀ {ns : List ℕ} {D D' : SimDraw K}
    {trs : List (List (Sim K))}, (∀ n ∈ ns, 0 < n) → FInv C P X0 false D trs → D.frames C P ns = .ok D' →
      ∃ trs', FInv C P X0 false D' trs'
  | [], D, D', trs, _, hi, h => by cases h; exact ⟨trs, hi⟩
  | n :: ns, D, D', trs, hn, hi, h => by
    simp only [SimDraw.frames, SimDraw.frame, bind_ok] at h
    obtain ⟨D1, ⟨D0, h0, h1⟩, h2⟩ := h
    obtain ⟨trs1, hi1⟩ := strides_finv hi h0
    rw [show (false || decide (0 < n)) = true by simp [hn n (by simp)]] at hi1
    exact frames_finv (fun m hm => hn m (by simp [hm])) (plot_finv hi1 h1) h2

theorem frames_start {C : SimEnv K} {P : SimPlot K} {X0 : List (Sim K)} (h0 : ∀ s ∈ X0, s.steps = 0) :
    FInv C P X0 false (SimDraw.new P X0) [] := by
  have h := rounds_start (C := C) (P := P) h0
  refine ⟨h.sim, h.took, h.good, h.nlines, h.ndone, fun k ls d hk _ => ?_, fun k bs d hk _ b hb => ?_⟩
  · simp only [SimDraw.new, List.getElem?_map, Option.map_eq_some_iff] at hk
    obtain ⟨_, _, rfl⟩ := hk
    exact .inl rfl
  · simp only [SimDraw.new, List.getElem?_map, Option.map_eq_some_iff] at hk
    obtain ⟨_, _, rfl⟩ := hk
    cases hb

/-- **C62** With several steps per frame, whatever their numbers: every line of the result shows, in order and without
repetition, some of the states that a simulation goes through during one stay in a mode.  Missing: coordinate 0 on the y
axis (`C62_y_axis_zero_wrong`), and the animation may raise (`C62_stride_raises`). -/
theorem C62_strides_partial {C : SimEnv K} {P : SimPlot K} {X0 : List (Sim K)} (h0 : ∀ s ∈ X0, s.steps = 0)
    {ns : List ℕ} (hns : ∀ n ∈ ns, 0 < n) {D : SimDraw K} (h : (SimDraw.new P X0).frames C P ns = .ok D) {k : ℕ}
    {d : PlotDim K × PlotDim K} (hk : P.dims[k]? = some d) (hd : PlainAxes d) {bs : List (List (List (K × K)))}
    (hb : D.done[k]? = some bs) {b : List (List (K × K))} (hbm : b ∈ bs) {line : List (K × K)} (hl : line ∈ b) :
    ∃ states jumped shown, SimLine C X0 states jumped ∧ LineEnded C states jumped ∧ shown.Sublist states ∧
      List.Forall₂ (PointOf P.step d) shown line := by
  obtain ⟨trs, hi⟩ := frames_finv hns (frames_start h0) h
  obtain ⟨tr, fl, sub, h1, h2, h3, h4⟩ := hi.done k bs d hb hk b hbm line hl
  exact ⟨tr, fl, sub, h1, h2, h3, h4.imp fun s p hp => hp.pointOf hd⟩

theorem SimDraw.round_eq {C : SimEnv K} {P : SimPlot K} {D D' : SimDraw K}
    (hne : ∀ ls ∈ D.lines, ∀ l ∈ ls, l ≠ []) (h : D.round C P = .ok D') : D.frame C P 1 = .ok D' := by
  simp only [SimDraw.round, bind_ok] at h
  obtain ⟨σ, h1, h2⟩ := h
  simp only [SimDraw.frame, SimDraw.strides, SimDraw.step, bind_ok, SimDraw.commitPaths]
  refine ⟨_, ⟨_, ⟨σ, h1, ?_⟩, rfl⟩, h2⟩
  split
  · simp only [bind_ok, need_ok, pure_ok, exists_const]
    exact ⟨_, ⟨hne, rfl⟩, rfl⟩
  · rfl

/-- **C62** With one step per frame `commit_cur_sims` never meets an empty line, so `SimDraw.rounds` is what the animation
does. -/
theorem C62_one_step_never_raises {C : SimEnv K} {P : SimPlot K} {X0 : List (Sim K)} (h0 : ∀ s ∈ X0, s.steps = 0) :
    ∀ {n : ℕ} {D : SimDraw K}, (SimDraw.new P X0).rounds C P n = .ok D →
      (SimDraw.new P X0).frames C P (List.replicate n 1) = .ok D := by
  have key : ∀ (n : ℕ) {D D' : SimDraw K} {trs : List (List (Sim K))}, LInv C P X0 (fun _ => False) D trs →
      D.rounds C P n = .ok D' → D.frames C P (List.replicate n 1) = .ok D' := by
    intro n
    induction n with
    | zero => intro D D' trs _ h; exact h
    | succ n ih =>
      intro D D' trs hi h
      simp only [SimDraw.rounds, bind_ok] at h
      obtain ⟨D1, h1, h2⟩ := h
      obtain ⟨trs1, hi1⟩ := round_inv hi h1
      simp only [List.replicate_succ, SimDraw.frames, bind_ok]
      refine ⟨D1, SimDraw.round_eq (fun ls hls l hl => ?_) h1, ih hi1 h2⟩
      obtain ⟨k, hk, rfl⟩ := List.getElem_of_mem hls
      have hkd : k < P.dims.length := by rw [← hi.nlines]; exact hk
      have hfa := hi.lines k _ _ (List.getElem?_eq_getElem hk) (List.getElem?_eq_getElem hkd)
      obtain ⟨i, hil, rfl⟩ := List.getElem_of_mem hl
      have hit : i < trs.length := by rw [hfa.length_eq]; exact hil
      have h5 := (List.forall₂_iff_get.1 hfa).2 i hit hil
      have hg := (List.forall₂_iff_get.1 hi.good).2 i (by rw [hi.good.length_eq]; exact hit) hit
      intro e
      have hl0 := h5.length_eq
      simp only [List.get_eq_getElem] at hl0 hg
      rw [e] at hl0
      exact hg.line.ne_nil (List.length_eq_zero_iff.1 hl0)
  exact fun {n D} h => key n (rounds_start h0) h

/-! ### Examples -/

set_option maxRecDepth 100000 in
/-- Two steps per frame: every second state. -/
theorem strideEx_done : (((SimDraw.new lineExP lineEx0).frames lineEx lineExP (List.replicate 10 2)).toOption.map fun D =>
    decide (D.done = [[[[(1 / 2, 2), (1, 4)], [(1 / 2, 4)]], [[(1 / 2, 4), (3 / 2, 4)], [(1, 4)]]],
      [[[(7, 2), (7, 4)], [(8, 4)]], [[(8, 4), (8, 4)], [(7, 4)]]]])) = some true := by
  decide +kernel

/-- `lineEx` with the invariant `y ≤ 8` in mode 0. -/
def strideEx : SimEnv ℚ :=
  { lineEx with
    ha := { lineEx.ha with modes := [{ name := "a", id := 0, a := some ⟨2, [[], [(1, 1)]]⟩, inv := [⟨2, [(1, 1)], 8⟩] },
      { name := "b", id := 1, a := some ⟨2, [[], []]⟩ }]
                           out := [[], []] } }

set_option maxRecDepth 100000 in
/-- **C62** With two steps per frame a simulation may end before it is plotted: then saving the lines raises (one step per
frame: no exception). -/
theorem C62_stride_raises : ∃ (C : SimEnv ℚ) (P : SimPlot ℚ) (X0 : List (Sim ℚ)), (∀ s ∈ X0, s.steps = 0) ∧
    (∀ d ∈ P.dims, PlainAxes d) ∧
    ((SimDraw.new P X0).frames C P (List.replicate 3 2)).toOption.isNone = true ∧
    ((SimDraw.new P X0).frames C P (List.replicate 6 1)).toOption.isSome = true := by
  refine ⟨strideEx, lineExP, [⟨0, [7, 1], 0⟩, ⟨0, [8, 9], 0⟩], by simp, fun d hd => ?_, by decide +kernel, by decide +kernel⟩
  simp only [lineExP, List.mem_cons, List.not_mem_nil, or_false] at hd
  rcases hd with rfl | rfl
  · exact ⟨.inl rfl, .inr ⟨0, rfl⟩⟩
  · exact ⟨.inr ⟨0, rfl⟩, .inr ⟨0, rfl⟩⟩

end Hylaa
