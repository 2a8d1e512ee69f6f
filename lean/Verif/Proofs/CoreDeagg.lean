import Verif.Proofs.CoreRun

/-! Choosing a node to deaggregate, removing its descendants, splitting it. -/

set_option linter.unusedSectionVars false

namespace Hylaa
open Spec
variable {K : Type} [Field K] [LinearOrder K] [IsStrictOrderedRing K] [JumpAt K]

theorem Body.congr {E : Env K} {X0 : ℕ → (ℕ → K) → Prop} {σ : Core K} {gh : Ghost K}
    {L A L' A' : List ℕ} (h : Body E X0 σ gh L A) (hL : ∀ o, o ∈ L' ↔ o ∈ L)
    (hA : ∀ ν, ν ∈ A' ↔ ν ∈ A) : Body E X0 σ gh L' A' :=
  { h with
    done := fun ν nd h1 h2 => h.done ν nd (fun hc => h1 ((hA ν).2 hc)) h2
    held := fun o ho => h.held o ((hL o).1 ho)
    live := ⟨h.live.1, fun o ho => h.live.2.1 o ((hL o).1 ho), fun ν hν => h.live.2.2 ν ((hA ν).1 hν)⟩
    pend := fun B hT hb => by
      obtain ⟨o, x, n, h1, h2, h3⟩ := h.pend B hT hb
      refine ⟨o, x, n, h1, h2, ?_⟩
      rcases h3 with h3 | h3 | ⟨ν, nd, h3, h4⟩
      · exact .inl h3
      · exact .inr (.inl ((hL o).2 h3))
      · exact .inr (.inr ⟨ν, nd, (hA ν).2 h3, h4⟩) }

/-! ### Ancestors -/

theorem Up.trans {ns : List Node} {os : List (OpTr K)} {a b c : ℕ} (h : Up ns os a b)
    (h' : Up ns os b c) : Up ns os a c := by
  induction h' with
  | refl => exact h
  | step _ h1 h2 h3 h4 ih => exact .step ih h1 h2 h3 h4

theorem NLive.up {σ : Core K} {a b : ℕ} (h : NLive σ a) (hu : Up σ.nodes σ.ops a b) : NLive σ b :=
  fun μ nd p op h1 h2 h3 h4 => h μ nd p op (hu.trans h1) h2 h3 h4

theorem Body.up_le {E : Env K} {X0 : ℕ → (ℕ → K) → Prop} {σ : Core K} {gh : Ghost K}
    {L A : List ℕ} (hB : Body E X0 σ gh L A) {a b : ℕ} (h : Up σ.nodes σ.ops a b) : b ≤ a := by
  induction h with
  | refl => exact le_refl _
  | @step μ nd p op μ' _ h1 h2 h3 h4 ih =>
    obtain ⟨op', q1, -, q2⟩ := hB.ndPar _ _ _ h1 h2
    rw [h3] at q1; cases q1
    exact ((q2 _ h4).le).trans ih

theorem ancestors_up {σ : Core K} : ∀ (fuel : ℕ) {nid : ℕ} {l : List ℕ}, ancestors σ fuel nid = .ok l →
    ∀ μ ∈ l, Up σ.nodes σ.ops nid μ
  | 0, nid, l, h => by cases h
  | fuel + 1, nid, l, h => by
    simp only [ancestors, bind_ok, needSome_ok] at h
    obtain ⟨n, h1, p0, h2, o, h3, h⟩ := h
    split at h
    · cases h
      intro μ hμ
      simp only [List.mem_singleton] at hμ
      subst hμ; exact .refl _
    · rename_i p hp
      simp only [bind_ok, pure_ok] at h
      obtain ⟨l', h4, rfl⟩ := h
      intro μ hμ
      simp only [List.mem_append, List.mem_singleton] at hμ
      rcases hμ with hμ | rfl
      · exact (Up.step (.refl _) h1 (List.mem_of_getElem? h2) h3 hp).trans (ancestors_up fuel h4 μ hμ)
      · exact .refl _

theorem deaggScan_none {E : Env K} {σ : Core K} : ∀ (ws : List ℕ) {seen : List (Option ℕ × Option ℕ)}
    {rv : Option ℕ}, (∀ q ∈ seen, q.1 ≠ none) → deaggScan E σ ws seen rv = .ok none →
    rv = none ∧ ∀ o ∈ ws, ∀ op st m, σ.ops[o]? = some op → σ.states[op.post]? = some st →
      E.ha.modes[st.mode]? = some m → st.concrete = false → m.isError = false
  | [], seen, rv, hs, h => by
    cases h; exact ⟨rfl, by simp⟩
  | oid :: ws, seen, rv, hs, h => by
    simp only [deaggScan, bind_ok, needSome_ok] at h
    obtain ⟨o, h1, st, h2, h⟩ := h
    split at h
    · rename_i hc
      obtain ⟨a1, a2⟩ := deaggScan_none ws hs h
      refine ⟨a1, fun o' ho' => ?_⟩
      rcases List.mem_cons.1 ho' with rfl | ho'
      · intro op st' m q1 q2 q3 q4
        rw [h1] at q1; cases q1
        rw [h2] at q2; cases q2
        rw [hc] at q4; cases q4
      · exact a2 o' ho'
    · simp only [bind_ok, needSome_ok] at h
      obtain ⟨m, h3, h⟩ := h
      have key : (if m.isError = true then o.parent else rv) = none → o.parent ≠ none →
          rv = none ∧ m.isError = false := by
        intro k1 k2
        split at k1
        · exact absurd k1 k2
        · rename_i hme; exact ⟨k1, by simpa using hme⟩
      have fin : ∀ (b : Bool), m.isError = false → (∀ o ∈ ws, ∀ op st m, σ.ops[o]? = some op →
          σ.states[op.post]? = some st → E.ha.modes[st.mode]? = some m → st.concrete = false →
          m.isError = false) → ∀ o' ∈ oid :: ws, ∀ op st m, σ.ops[o']? = some op →
          σ.states[op.post]? = some st → E.ha.modes[st.mode]? = some m → st.concrete = false →
          m.isError = false := by
        intro _ hm hw o' ho'
        rcases List.mem_cons.1 ho' with rfl | ho'
        · intro op st' m' q1 q2 q3 q4
          rw [h1] at q1; cases q1
          rw [h2] at q2; cases q2
          rw [h3] at q3; cases q3
          exact hm
        · exact hw o' ho'
      split at h
      · rename_i tr hl
        have hne : o.parent ≠ none := by
          intro hc
          rw [hc] at hl
          obtain ⟨l1, l2, e, -⟩ := List.lookup_eq_some_iff.1 hl
          exact hs (none, tr) (by rw [e]; simp) rfl
        obtain ⟨a1, a2⟩ := deaggScan_none ws hs h
        have : (if m.isError = true then o.parent else rv) = none := by
          split at a1
          · exact absurd a1 hne
          · exact a1
        obtain ⟨b1, b2⟩ := key this hne
        exact ⟨b1, fin true b2 a2⟩
      · simp only [bind_ok, needSome_ok, assert_ok] at h
        obtain ⟨p, h4, n, -, _, -, h⟩ := h
        have hne : o.parent ≠ none := by rw [h4]; simp
        obtain ⟨a1, a2⟩ := deaggScan_none ws (seen := seen ++ [(o.parent, o.trans)]) (by
          intro q hq
          rcases List.mem_append.1 hq with hq | hq
          · exact hs q hq
          · simp only [List.mem_singleton] at hq; subst hq; exact hne) h
        obtain ⟨b1, b2⟩ := key a1 hne
        exact ⟨b1, fin true b2 a2⟩

theorem deaggScan_some {E : Env K} {σ : Core K} {p : ℕ} : ∀ (ws : List ℕ)
    {seen : List (Option ℕ × Option ℕ)} {rv : Option ℕ}, deaggScan E σ ws seen rv = .ok (some p) →
    rv = some p ∨ ∃ o ∈ ws, ∃ op, σ.ops[o]? = some op ∧ op.parent = some p
  | [], seen, rv, h => by cases h; exact .inl rfl
  | oid :: ws, seen, rv, h => by
    have up : ∀ {rv' : Option ℕ} {o : OpTr K}, σ.ops[oid]? = some o →
        (rv' = some p → rv = some p ∨ o.parent = some p) →
        (rv' = some p ∨ ∃ o ∈ ws, ∃ op, σ.ops[o]? = some op ∧ op.parent = some p) →
        rv = some p ∨ ∃ o ∈ oid :: ws, ∃ op, σ.ops[o]? = some op ∧ op.parent = some p := by
      intro rv' o h1 h2 h3
      rcases h3 with h3 | ⟨o', h3, h4⟩
      · rcases h2 h3 with h2 | h2
        · exact .inl h2
        · exact .inr ⟨oid, by simp, o, h1, h2⟩
      · exact .inr ⟨o', by simp [h3], h4⟩
    simp only [deaggScan, bind_ok, needSome_ok] at h
    obtain ⟨o, h1, st, h2, h⟩ := h
    split at h
    · exact up h1 (fun h => .inl h) (deaggScan_some ws h)
    · simp only [bind_ok, needSome_ok] at h
      obtain ⟨m, h3, h⟩ := h
      split at h
      · refine up h1 (fun h => ?_) (deaggScan_some ws h)
        split at h
        · exact .inr h
        · split at h
          · exact .inr h
          · exact .inl h
      · simp only [bind_ok, needSome_ok, assert_ok] at h
        obtain ⟨q, h4, n, -, _, -, h⟩ := h
        refine up h1 (fun h => ?_) (deaggScan_some ws h)
        split at h
        · exact .inr h
        · exact .inl h

theorem getDeagg_none {E : Env K} {σ : Core K} (h : getDeaggNode E σ = .ok none) (hd : E.deaggOn) :
    ∀ o ∈ σ.waiting, ∀ op st m, σ.ops[o]? = some op → σ.states[op.post]? = some st →
      E.ha.modes[st.mode]? = some m → st.concrete = false → m.isError = false := by
  obtain ⟨s, h1, h2⟩ := hd
  unfold getDeaggNode at h
  rw [h1] at h
  simp only [h2, if_true, bind_ok] at h
  obtain ⟨rv, h3, h⟩ := h
  split at h
  · exact (deaggScan_none σ.waiting (by simp) h3).2
  · simp only [bind_ok, assert_ok, pure_ok] at h
    obtain ⟨anc, -, _, h4, h5⟩ := h
    rw [h5] at h4; cases h4

theorem getDeagg_some {E : Env K} {σ : Core K} {nid : ℕ} (h : getDeaggNode E σ = .ok (some nid)) :
    E.deaggOn ∧ ∃ o ∈ σ.waiting, ∃ op p, σ.ops[o]? = some op ∧ op.parent = some p ∧
      Up σ.nodes σ.ops p nid ∧ ∃ nd, σ.nodes[nid]? = some nd ∧ 2 ≤ nd.parents.length := by
  unfold getDeaggNode at h
  split at h
  · cases h
  · rename_i s hs
    split at h
    · rename_i hdg
      simp only [bind_ok] at h
      obtain ⟨rv, h3, h⟩ := h
      split at h
      · cases h
      · rename_i p
        simp only [bind_ok, assert_ok, pure_ok] at h
        obtain ⟨anc, ha, _, h4, h5⟩ := h
        refine ⟨⟨s, hs, hdg⟩, ?_⟩
        rcases deaggScan_some σ.waiting h3 with h3 | ⟨o, ho, op, q1, q2⟩
        · cases h3
        · refine ⟨o, ho, op, p, q1, q2, ?_, ?_⟩
          · refine ancestors_up _ ha nid ?_
            have := List.mem_of_find?_eq_some h5
            split at this
            · simpa using this
            · exact this
            · simpa [List.mem_insertionSort] using this
          · have := List.find?_some h5
            simp only [decide_eq_true_eq] at this
            unfold Core.numParents at this
            cases hq : σ.nodes[nid]? with
            | none => rw [hq] at this; simp at this
            | some nd => rw [hq] at this; exact ⟨nd, rfl, this⟩
    · cases h

/-! ### Descendants -/

/-- Descendant nodes, following the operations' children. -/
inductive Down (σ : Core K) : ℕ → ℕ → Prop
  | refl (ν) : Down σ ν ν
  | step {ν nd o op c a} : σ.nodes[ν]? = some nd → NOp.tr o ∈ nd.ops → σ.ops[o]? = some op →
      op.child = some c → Down σ c a → Down σ ν a

theorem Down.trans {σ : Core K} {a b c : ℕ} (h : Down σ a b) (h' : Down σ b c) : Down σ a c := by
  induction h with
  | refl => exact h'
  | step h1 h2 h3 h4 _ ih => exact .step h1 h2 h3 h4 (ih h')

theorem Body.down {E : Env K} {X0 : ℕ → (ℕ → K) → Prop} {σ : Core K} {gh : Ghost K}
    {L A : List ℕ} (hB : Body E X0 σ gh L A) {a b : ℕ} (h : Up σ.nodes σ.ops a b) (hl : NLive σ a) :
    Down σ b a := by
  induction h with
  | refl => exact .refl _
  | @step μ nd p op μ' h0 h1 h2 h3 h4 ih =>
    obtain ⟨nd', q1, q2⟩ := hB.opPar _ _ _ h3 h4
    exact .step q1 q2 h3 (hl _ _ _ _ h0 h1 h2 h3) ih

theorem leafOps_mem {σ : Core K} : ∀ (fuel : ℕ) {nid : ℕ} {l : List ℕ}, leafOps σ fuel nid = .ok l →
    ∀ o, o ∈ l ↔ ∃ a nd op, Down σ nid a ∧ σ.nodes[a]? = some nd ∧ NOp.tr o ∈ nd.ops ∧
      σ.ops[o]? = some op ∧ op.child = none
  | 0, nid, l, h => by cases h
  | fuel + 1, nid, l, h => by
    simp only [leafOps, bind_ok, needSome_ok, pure_ok] at h
    obtain ⟨n, h1, os, h2, rest, h3, hl⟩ := h
    generalize htr : List.filterMap _ n.ops = trs at h2 hl
    have mem_trs : ∀ {o : ℕ}, o ∈ trs ↔ NOp.tr o ∈ n.ops := by
      intro o
      rw [← htr, List.mem_filterMap]
      constructor
      · rintro ⟨x, h1, h2⟩
        split at h2
        · cases h2; exact h1
        · cases h2
      · intro h; exact ⟨_, h, rfl⟩
    subst hl
    have f2 := mapM_needSome h2
    have f3 := mapM_ok h3
    have hos : ∀ o, NOp.tr o ∈ n.ops → ∃ op, σ.ops[o]? = some op ∧ op ∈ os ∧
        (o, op) ∈ trs.zip os := by
      intro o ho
      obtain ⟨k, hk, he⟩ := List.getElem_of_mem (mem_trs.2 ho)
      have hk2 : k < os.length := by rw [← f2.length_eq]; exact hk
      refine ⟨os[k], by have := f2.get hk hk2; simp only [List.get_eq_getElem] at this; rw [← he]; exact this,
        List.getElem_mem _, ?_⟩
      rw [← he]
      exact List.mem_iff_getElem.2 ⟨k, by simp only [List.length_zip]; omega, by simp⟩
    have hos' : ∀ q ∈ trs.zip os,
        NOp.tr q.1 ∈ n.ops ∧ σ.ops[q.1]? = some q.2 := by
      intro q hq
      obtain ⟨k, hk, he⟩ := List.mem_iff_getElem.1 hq
      simp only [List.length_zip] at hk
      have e := f2.get (i := k) (by omega) (by omega)
      simp only [List.get_eq_getElem] at e
      simp only [List.getElem_zip] at he
      rw [← he]
      exact ⟨mem_trs.1 (List.getElem_mem _), e⟩
    have hos2 : ∀ op ∈ os, ∃ o, NOp.tr o ∈ n.ops ∧ σ.ops[o]? = some op := by
      intro op hop
      obtain ⟨k, hk, he⟩ := List.mem_iff_getElem.1 hop
      have hk2 : k < trs.length := by
        rw [f2.length_eq]; exact hk
      have e := f2.get hk2 hk
      simp only [List.get_eq_getElem] at e
      exact ⟨_, mem_trs.1 (List.getElem_mem hk2), by rw [← he]; exact e⟩
    intro o
    rw [List.mem_append]
    constructor
    · rintro (ho | ho)
      · obtain ⟨q, hq, rfl⟩ := List.mem_map.1 ho
        obtain ⟨hq, hc⟩ := List.mem_filter.1 hq
        obtain ⟨e1, e2⟩ := hos' q hq
        exact ⟨nid, n, q.2, .refl _, h1, e1, e2, by simpa using hc⟩
      · obtain ⟨l', hl', ho⟩ := List.mem_flatten.1 ho
        obtain ⟨k, hk, he⟩ := List.mem_iff_getElem.1 hl'
        have hk2 := f3.length_eq ▸ hk
        have e := f3.get hk2 hk
        simp only [List.get_eq_getElem] at e
        rw [he] at e
        obtain ⟨a, nd, op, q1, q2⟩ := (leafOps_mem fuel e o).1 ho
        have hc := List.mem_eraseDups.1 (List.getElem_mem hk2)
        obtain ⟨op', ho1, ho2⟩ := List.mem_filterMap.1 hc
        obtain ⟨o', r1, r2⟩ := hos2 op' ho1
        exact ⟨a, nd, op, .step h1 r1 r2 ho2 q1, q2⟩
    · rintro ⟨a, nd, op, hd, q1, q2, q3, q4⟩
      cases hd with
      | refl =>
        rw [h1] at q1; cases q1
        obtain ⟨op', r1, -, r3⟩ := hos o q2
        rw [q3] at r1; cases r1
        exact .inl (List.mem_map.2 ⟨(o, op), List.mem_filter.2 ⟨r3, by simp [q4]⟩, rfl⟩)
      | @step _ nd' o' op' c _ s1 s2 s3 s4 s5 =>
        rw [h1] at s1; cases s1
        obtain ⟨op'', r1, r2, -⟩ := hos o' s2
        rw [s3] at r1; cases r1
        have hc : c ∈ (os.filterMap fun o => o.child).eraseDups :=
          List.mem_eraseDups.2 (List.mem_filterMap.2 ⟨_, r2, s4⟩)
        obtain ⟨k, hk, he⟩ := List.mem_iff_getElem.1 hc
        have hk2 := f3.length_eq ▸ hk
        have e := f3.get hk hk2
        simp only [List.get_eq_getElem] at e
        rw [he] at e
        refine .inr (List.mem_flatten.2 ⟨_, List.getElem_mem hk2, (leafOps_mem fuel e o).2 ⟨a, nd, op, s5, q1, q2, q3, q4⟩⟩)

/-- A pending point below a node comes from a point of that node. -/
theorem Body.down_bad {E : Env K} {X0 : ℕ → (ℕ → K) → Prop} {σ : Core K} {gh : Ghost K}
    {L A : List ℕ} (hB : Body E X0 σ gh L A) (hd : E.deaggOn) {B : ℕ → (ℕ → K) → ℕ → Prop} (hT : Tracked E.hybJ B) {ν a : ℕ}
    (h : Down σ ν a) :
    ∀ {nda x n}, σ.nodes[a]? = some nda → gh.GP nda x n → B (gh.MN a) x n →
    ∃ nd x n, σ.nodes[ν]? = some nd ∧ gh.GP nd x n ∧ B (gh.MN ν) x n := by
  induction h with
  | refl => exact fun h1 h2 h3 => ⟨_, _, _, h1, h2, h3⟩
  | @step ν nd o op c a h1 h2 h3 h4 _ ih =>
    intro nda x n k1 k2 k3
    obtain ⟨ndc, x, n, r1, ⟨p, r2, r3⟩, r4⟩ := ih k1 k2 k3
    obtain ⟨ndc', s1, s2⟩ := hB.opChild _ _ _ h3 h4
    rw [r1] at s1; cases s1
    obtain ⟨op1, s3, s4⟩ := hB.ndOps _ _ _ h1 h2
    rw [h3] at s3; cases s3
    obtain ⟨opp, t1, t2, -⟩ := hB.ndPar _ _ _ r1 r2
    have hpar : opp.parent = some ν := by
      rw [hB.ndSame hd _ _ _ _ _ _ r1 r2 s2 t1 h3]; exact s4
    obtain ⟨ti, t, u1, -⟩ := hB.opTrans _ _ _ t1 hpar
    obtain ⟨x', n', v1, v2, v3, v4⟩ := (hB.exact _ _ _ _ _ t1 hpar h1 u1 x n).1 r3
    refine ⟨nd, x', n', h1, v1, hT.prev v2 (by rw [← v3]; exact v4) ?_⟩
    rw [← v3, t2]; exact r4

/-- **Removing the descendants of a node**: its parent operations become pending again. -/
theorem Body.cut {E : Env K} {X0 : ℕ → (ℕ → K) → Prop} {σ : Core K} {gh : Ghost K}
    (hB : Body E X0 σ gh [] []) (hd : E.deaggOn) {nid : ℕ} {nd : Node} (hn : σ.nodes[nid]? = some nd)
    (hl : NLive σ nid) {fuel : ℕ} {rm : List ℕ} (hr : leafOps σ fuel nid = .ok rm) :
    Body E X0 { σ with waiting := σ.waiting.filter fun o => !rm.contains o } gh nd.parents [] := by
  have hsub : ∀ o, o ∈ σ.waiting.filter (fun o => !rm.contains o) → o ∈ σ.waiting := fun o ho =>
    (List.mem_filter.1 ho).1
  exact { hB with
    wait := fun o ho => hB.wait o (hsub o ho)
    waitNodup := hB.waitNodup.filter _
    held := fun o ho => by
      obtain ⟨op, h1, -⟩ := hB.ndPar _ _ _ hn ho
      exact ⟨op, h1⟩
    waitErr := fun o ho => hB.waitErr o (hsub o ho)
    live := ⟨fun o ho => hB.live.1 o (hsub o ho), fun o ho op ν h1 h2 =>
      NLive.up hl (.step (.refl _) hn ho h1 h2), by simp⟩
    pend := fun B hT hb => by
      obtain ⟨o, x, n, h1, h2, h3⟩ := hB.pend B hT hb
      have ho : o ∈ σ.waiting := by
        rcases h3 with h3 | h3 | ⟨_, _, h3, -⟩
        · exact h3
        · simp at h3
        · simp at h3
      by_cases hrm : o ∈ rm
      · obtain ⟨a, nda, op, q1, q2, q3, q4, q5⟩ := (leafOps_mem _ hr o).1 hrm
        obtain ⟨op', r1, r2⟩ := hB.ndOps _ _ _ q2 q3
        rw [q4] at r1; cases r1
        obtain ⟨ti, t, s1, -⟩ := hB.opTrans _ _ _ q4 r2
        obtain ⟨x', n', v1, v2, v3, v4⟩ := (hB.exact _ _ _ _ _ q4 r2 q2 s1 x n).1 h1
        obtain ⟨nd', x2, n2, w1, ⟨p, w2, w4⟩, w3⟩ := hB.down_bad hd hT q1 q2 v1
          (hT.prev v2 (by rw [← v3]; exact v4) (by rw [← v3]; exact h2))
        rw [hn] at w1; cases w1
        obtain ⟨-, -, e, -⟩ := hB.ndPar _ _ _ hn w2
        exact ⟨p, x2, n2, w4, by rw [e]; exact w3, .inr (.inl w2)⟩
      · exact ⟨o, x, n, h1, h2, .inl (List.mem_filter.2 ⟨ho, by simpa using hrm⟩)⟩ }

end Hylaa
