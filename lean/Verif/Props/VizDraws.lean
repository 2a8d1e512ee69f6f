import Verif.Props.VizOrder

/-!
# C67: the picture can be drawn

At every moment of every run without deaggregation, drawing the DAG succeeds.
-/

set_option linter.unusedSectionVars false

namespace Hylaa
open Spec
section
variable {K : Type} [Field K] [LinearOrder K] [IsStrictOrderedRing K]

/-- An operation made by a transition of the automaton. -/
def OpTr.HasTr (ha : HA K) (op : OpTr K) : Prop := ∃ t tr, op.trans = some t ∧ ha.trans[t]? = some tr

/-- Operations that leave a node are made by transitions of the automaton. -/
def HasTrs (ha : HA K) (σ : Core K) : Prop :=
  ∀ (i : ℕ) op p, σ.ops[i]? = some op → op.parent = some p → op.HasTr ha

theorem HasTrs.of_ops {ha : HA K} {σ σ' : Core K} (h : HasTrs ha σ) (e : σ'.ops = σ.ops) : HasTrs ha σ' := by
  unfold HasTrs at *
  rw [e]; exact h

theorem errorReached_ops (σ : Core K) (b : Bool) (ce : List (CeSeg K)) : (σ.errorReached b ce).ops = σ.ops := by
  unfold Core.errorReached
  split <;> rfl

theorem leftInvariant_ops {σ σ' : Core K} {b : Bool} (h : σ.leftInvariant b = .ok σ') : σ'.ops = σ.ops := by
  simp only [Core.leftInvariant, bind_ok, needSome_ok, pure_ok] at h
  obtain ⟨c, hc, st, hst, rfl⟩ := h
  rfl

theorem ttCheck_ops {E : Env K} {σ σ' : Core K} {t : Tr K} {g : Csr K × List K} {sid : ℕ}
    (h : ttCheck E σ t g sid = .ok σ') : σ'.ops = σ.ops := by
  unfold ttCheck at h
  split at h
  · simp only [bind_ok, needSome_ok, pure_ok] at h
    obtain ⟨st, hst, src, -, r, -, rfl⟩ := h
    rfl
  · cases h; rfl

theorem get_append_one {α : Type} {l : List α} {x b : α} {i : ℕ} (h : (l ++ [x])[i]? = some b) :
    l[i]? = some b ∨ b = x := by
  rw [List.getElem?_append] at h
  split at h
  · exact .inl h
  · have hl := lt_of_getElem? h
    simp only [List.length_singleton] at hl
    rw [Nat.lt_one_iff.1 hl] at h
    simp only [List.getElem?_cons_zero, Option.some.injEq] at h
    exact .inr h.symm

theorem guardLoop_hasTrs {E : Env K} {nid sid : ℕ} : ∀ (ts : List ℕ) {σ σ' : Core K},
    guardLoop E nid sid σ ts = .ok σ' → HasTrs E.ha σ → HasTrs E.ha σ'
  | [], σ, σ', h, ht => by cases h; exact ht
  | ti :: ts, σ, σ', h, ht => by
    simp only [guardLoop, bind_ok, needSome_ok] at h
    obtain ⟨st, hst, t, htr, g, -, ⟨lp1, tl⟩, -, h⟩ := h
    have t1 : HasTrs E.ha (σ.setState sid { st with lp := lp1 }) := ht.of_ops rfl
    simp only at h
    split at h
    · exact guardLoop_hasTrs ts h t1
    · simp only [bind_ok, needSome_ok] at h
      obtain ⟨dst, -, ce, -, h⟩ := h
      have t2 : HasTrs E.ha (if dst.isError = true then
          (σ.setState sid { st with lp := lp1 }).errorReached st.concrete ce
          else σ.setState sid { st with lp := lp1 }) := by
        split
        · exact t1.of_ops (errorReached_ops _ _ _)
        · exact t1
      split at h
      · cases h; exact t2
      · simp only [bind_ok] at h
        obtain ⟨σ1, h1, σ2, h2, h3⟩ := h
        refine guardLoop_hasTrs ts h3 (HasTrs.of_ops ?_ (ttCheck_ops h2))
        simp only [addSuccessor, bind_ok, pure_ok] at h1
        obtain ⟨⟨σ3, r⟩, h1, rfl⟩ := h1
        rcases makeOp_shape h1 with ⟨rfl, rfl⟩ | ⟨rfl, c, post, p1, p2, p3, p4, p5, rfl⟩
        · exact t2
        · intro i op p ho hp
          rcases get_append_one ho with ho | rfl
          · exact t2 i op p ho hp
          · exact ⟨ti, t, rfl, htr⟩

theorem checkGuards_hasTrs {E : Env K} {σ σ' : Core K} (h : checkGuards E σ = .ok σ') (ht : HasTrs E.ha σ) :
    HasTrs E.ha σ' := by
  simp only [checkGuards, bind_ok, needSome_ok] at h
  obtain ⟨c, hc, st, -, ts, -, h⟩ := h
  exact guardLoop_hasTrs ts h ht

theorem pushInvs_ops (ν s : ℕ) : ∀ (qs : List (ℕ × Bool)) (σ : Core K),
    (qs.foldl (fun σ q => σ.pushOp ν (.inv s q.1 q.2)) σ).ops = σ.ops
  | [], σ => rfl
  | q :: qs, σ => by
    rw [List.foldl_cons, pushInvs_ops ν s qs]
    rfl

theorem intersectCur_ops {E : Env K} {σ σ' : Core K} {f : Bool} (h : intersectCur E σ = .ok (σ', f)) :
    σ'.ops = σ.ops := by
  simp only [intersectCur, bind_ok, needSome_ok, pure_ok, Prod.mk.injEq] at h
  obtain ⟨c, hc, st, hst, m, -, ⟨st', f', qs⟩, hii, rfl, -⟩ := h
  simp only
  rw [pushInvs_ops]
  rfl

theorem approxCur_ops {E : Env K} {σ σ' : Core K} (h : approxCur E σ = .ok σ') : σ'.ops = σ.ops := by
  obtain ⟨c, st, lp, β, te, -, hst, -, rfl⟩ := approxCur_eq h
  rfl

theorem stepState_ops {E : Env K} {σ σ' : Core K} {sid : ℕ} {target : Option ℕ}
    (h : stepState E σ sid target = .ok σ') : σ'.ops = σ.ops := by
  simp only [stepState, bind_ok, needSome_ok, pure_ok] at h
  obtain ⟨st, hst, m, -, ⟨te, st'⟩, hs, rfl⟩ := h
  rfl

theorem stepPost_hasTrs {E : Env K} {σ σ' : Core K} (h : stepPost E σ = .ok σ') (ht : HasTrs E.ha σ) :
    HasTrs E.ha σ' := by
  simp only [stepPost, bind_ok, needSome_ok] at h
  obtain ⟨c, hc, st, hst, h⟩ := h
  split at h
  · cases h; exact ht
  split at h
  · exact ht.of_ops (leftInvariant_ops h)
  split at h
  · exact ht.of_ops ((leftInvariant_ops h).trans rfl)
  simp only [bind_ok] at h
  obtain ⟨⟨σ1, f⟩, h1, h⟩ := h
  have t1 := ht.of_ops (intersectCur_ops h1)
  split at h
  · exact t1.of_ops (leftInvariant_ops h)
  simp only [bind_ok, needSome_ok] at h
  obtain ⟨σ2, h2, σ3, h3, m, -, a, -, h⟩ := h
  have t3 := checkGuards_hasTrs h3 (t1.of_ops (stepState_ops h2))
  split at h
  · exact t3.of_ops (leftInvariant_ops h)
  · cases h; exact t3

theorem popWaiting_hasTrs {E : Env K} {σ σ' : Core K} (h : popWaiting E σ = .ok σ') (ht : HasTrs E.ha σ) :
    HasTrs E.ha σ' := by
  simp only [popWaiting, bind_ok, assert_ok, pure_ok] at h
  obtain ⟨items, hitems, l1, hl1, l, hl, _, -, at_, hat, ⟨σ1, nid⟩, hmk, rfl⟩ := h
  obtain ⟨ss, rts, sid, os, sts, e1, -⟩ := makeNode_shape hmk
  rw [e1]
  intro i op p ho hp
  simp only at ho
  rw [setChild_getV] at ho
  split at ho
  · obtain ⟨op0, a, rfl⟩ := Option.map_eq_some_iff.1 ho
    exact ht i op0 p a hp
  · exact ht i op p ho hp

theorem stepPop_hasTrs {E : Env K} {σ σ' : Core K} (h : stepPop E σ = .ok σ') (hp : HasTrs E.ha σ) :
    HasTrs E.ha σ' := by
  simp only [stepPop, bind_ok, needSome_ok] at h
  obtain ⟨σ1, h1, c, -, st, -, m, -, h⟩ := h
  have p1 := popWaiting_hasTrs h1 hp
  split at h
  · exact p1.of_ops (leftInvariant_ops h)
  · simp only [bind_ok] at h
    obtain ⟨⟨σ2, f⟩, h2, h⟩ := h
    have p2 := p1.of_ops (intersectCur_ops h2)
    split at h
    · exact p2.of_ops (approxCur_ops h)
    · exact p2.of_ops (leftInvariant_ops h)

theorem setupStates_hasTrs {E : Env K} : ∀ (l : List (SS K)) {σ σ' : Core K},
    HasTrs E.ha σ → setupStates E σ l = .ok σ' → HasTrs E.ha σ'
  | [], σ, σ', ht, h => by cases h; exact ht
  | st :: l, σ, σ', ht, h => by
    simp only [setupStates, bind_ok, needSome_ok] at h
    obtain ⟨m, -, f, -, h⟩ := h
    split at h
    · exact setupStates_hasTrs l ht h
    · simp only [bind_ok] at h
      obtain ⟨r, -, h⟩ := h
      split at h
      · exact setupStates_hasTrs l ht h
      · refine setupStates_hasTrs l ?_ h
        intro i op p ho hp
        rcases get_append_one ho with ho | rfl
        · exact ht i op p ho hp
        · cases hp

/-- The invariants of a run without deaggregation that drawing needs. -/
theorem runs_drawable {E : Env K} (hd : ¬ E.deaggOn) {init : List (SS K)} {σ0 σ : Core K} {n : ℕ}
    (h0 : setup E init = .ok σ0) (hr : runSteps E n σ0 = .ok σ) : TInv σ ∧ HasTrs E.ha σ := by
  have hinit : TInv σ0 ∧ HasTrs E.ha σ0 ∧ σ0.queue = [] ∧ σ0.rep = none := by
    simp only [setup, bind_ok, assert_ok, need_ok, pure_ok] at h0
    obtain ⟨_, -, σ1, h1, _, -, rfl⟩ := h0
    obtain ⟨a, b, c⟩ := setupStates_fresh init h1
    have he : σ1.nodes = [] := a
    exact ⟨⟨fun n nd i h => by simp [he] at h, fun n nd h => by simp [he] at h, fun n nd h => by simp [he] at h⟩,
      setupStates_hasTrs init (fun i op p h => by simp at h) h1, b, c⟩
  obtain ⟨hp, ht, hq, hrp⟩ := hinit
  clear h0
  induction n generalizing σ0 with
  | zero => cases hr; exact ⟨hp, ht⟩
  | succ n ih =>
    simp only [runSteps, bind_ok] at hr
    obtain ⟨σ1, h1, h2⟩ := hr
    have key : TInv σ1 ∧ HasTrs E.ha σ1 ∧ σ1.queue = [] ∧ σ1.rep = none := by
      have hnr : σ0.doingReplay = false := by unfold Core.doingReplay; rw [hq, hrp]; rfl
      unfold doStep at h1
      split at h1
      · cases h1; exact ⟨hp, ht, hq, hrp⟩
      split at h1
      · have := stepPost_mild (all := true) h1
        exact ⟨stepPost_tinv h1 hp, stepPost_hasTrs h1 ht, by rw [this.replay.1]; exact hq,
          by rw [this.replay.2]; exact hrp⟩
      rw [hnr, getDeagg_off hd] at h1
      simp only [Bool.false_eq_true, if_false, bind_ok] at h1
      obtain ⟨dg, hdg, h1⟩ := h1
      cases hdg
      simp only [bind_ok] at h1
      obtain ⟨σ2, h3, h4⟩ := h1
      have p2 := stepPop_tinv h3 hp
      have s2 := stepPop_hasTrs h3 ht
      have q2 := stepPop_replay h3
      have m : Milds true σ2 σ1 ∧ TInv σ1 ∧ HasTrs E.ha σ1 := by
        split at h4
        · exact ⟨checkGuards_mild h4, checkGuards_tinv h4 p2, checkGuards_hasTrs h4 s2⟩
        · cases h4; exact ⟨.refl, p2, s2⟩
      exact ⟨m.2.1, m.2.2, by rw [m.1.replay.1, q2.1]; exact hq, by rw [m.1.replay.2, q2.2]; exact hrp⟩
    exact ih h2 key.1 key.2.1 key.2.2.1 key.2.2.2

/-! ### Drawing succeeds -/

/-- A group that can be drawn. -/
def GroupOk (ha : HA K) (g : VGroup K) : Prop := g.2 ≠ [] ∧ ∀ op ∈ g.2, op.HasTr ha

theorem drawGroup_draws {ha : HA K} {n : ℕ} {g : VGroup K} (h : GroupOk ha g) : ∃ d, drawGroup ha n g = .ok d := by
  obtain ⟨x, l⟩ := g
  obtain ⟨h1, h2⟩ := h
  simp only at h1
  obtain ⟨a, ha'⟩ : ∃ a, l.head? = some a := by
    cases hh : l.head? with
    | none => exact absurd (List.head?_eq_none_iff.1 hh) h1
    | some a => exact ⟨a, rfl⟩
  obtain ⟨b, hb⟩ : ∃ b, l.getLast? = some b := by
    cases hh : l.getLast? with
    | none => exact absurd (List.getLast?_eq_none_iff.1 hh) h1
    | some a => exact ⟨a, rfl⟩
  obtain ⟨t, tr, q1, q2⟩ := h2 a (List.mem_of_head? ha')
  unfold drawGroup
  simp only [ha', hb, needSome, bind, Except.bind]
  cases x with
  | node c => exact ⟨_, rfl⟩
  | out k u => exact ⟨_, by simp only [q1, q2]; rfl⟩
  | pre c => exact ⟨_, rfl⟩

theorem drawGroups_draws {ha : HA K} {n : ℕ} : ∀ (gs : List (VGroup K)), (∀ g ∈ gs, GroupOk ha g) →
    ∃ d, drawGroups ha n gs = .ok d
  | [], _ => ⟨[], rfl⟩
  | g :: gs, h => by
    obtain ⟨d, hd⟩ := drawGroup_draws (n := n) (h g (by simp))
    obtain ⟨r, hr⟩ := drawGroups_draws (n := n) gs fun g' hg => h g' (by simp [hg])
    exact ⟨d ++ r, by simp only [drawGroups, hd, hr, bind, Except.bind, pure, Except.pure]⟩

theorem pruneGroups_draws {ha : HA K} {n s : ℕ} {en : List (VGroup K)} {out : List VDraw}
    (h : ∀ g ∈ en, GroupOk ha g) : ∃ r, pruneGroups ha n s en out = .ok r ∧ ∀ g ∈ r.1, GroupOk ha g := by
  obtain ⟨d, hd⟩ := drawGroups_draws (n := n) (en.filter (oldGroup s)) fun g hg => h g (List.mem_filter.1 hg).1
  refine ⟨(en.filter fun g => !oldGroup s g, out ++ d), ?_, fun g hg => h g (List.mem_filter.1 hg).1⟩
  simp only [pruneGroups, hd, bind, Except.bind, pure, Except.pure]

theorem vizOps_draws {ha : HA K} {ops : List (OpTr K)} {n : ℕ} : ∀ (L : List NOp) (en : List (VGroup K))
    (out : List VDraw), (∀ g ∈ en, GroupOk ha g) →
    (∀ i, .tr i ∈ L → ∃ op, ops[i]? = some op ∧ op.HasTr ha) → ∃ r, vizOps ha ops n L en out = .ok r
  | [], en, out, _, _ => ⟨(en, out), rfl⟩
  | o :: L, en, out, h, hL => by
    have step : ∃ r, vizOp ha ops n en out o = .ok r ∧ ∀ g ∈ r.1, GroupOk ha g := by
      cases o with
      | tr i =>
        obtain ⟨op, h1, h2⟩ := hL i (by simp)
        obtain ⟨r, h3, h4⟩ := pruneGroups_draws (ha := ha) (n := n) (s := op.step) (out := out)
          (en := addGroup en (childName n op) op) fun g hg => by
            rcases mem_addGroup hg with hg | ⟨-, ⟨l, hl, he⟩ | he⟩
            · exact h g hg
            · refine ⟨by rw [he]; simp, fun op' ho => ?_⟩
              rw [he] at ho
              rcases List.mem_append.1 ho with ho | ho
              · exact (h _ hl).2 op' ho
              · rw [List.mem_singleton] at ho; subst ho; exact h2
            · refine ⟨by rw [he]; simp, fun op' ho => ?_⟩
              rw [he, List.mem_singleton] at ho
              subst ho; exact h2
        exact ⟨r, by simp only [vizOp, h1, needSome, bind, Except.bind]; exact h3, h4⟩
      | left s b =>
        obtain ⟨d, hd⟩ := drawGroups_draws (n := n) en h
        obtain ⟨r, h3, h4⟩ := pruneGroups_draws (ha := ha) (n := n) (s := s) (out := out ++ d) (en := []) (by simp)
        exact ⟨r, by simp only [vizOp, hd, bind, Except.bind]; exact h3, h4⟩
      | inv s j b => exact pruneGroups_draws h
    obtain ⟨r, h1, h2⟩ := step
    obtain ⟨q, hq⟩ := vizOps_draws L r.1 r.2 h2 fun i hi => hL i (by simp [hi])
    exact ⟨q, by simp only [vizOps, h1, bind, Except.bind]; exact hq⟩

theorem vizNode_draws {ha : HA K} {σ : Core K} (hv : VizOk σ) (ht : TInv σ) (hh : HasTrs ha σ) :
    ∀ {f n : ℕ} {D : List ℕ} {out : List VDraw}, n < σ.nodes.length →
    n ∉ D → D.Nodup → (∀ m ∈ D, m < σ.nodes.length) → σ.nodes.length < D.length + f →
    ∃ r, vizNode ha σ f n D out = .ok r
  | 0, n, D, out, _, hn, hd, hlt, hf => by
    exfalso
    have : D.length ≤ σ.nodes.length := by
      have := (List.subperm_of_subset hd (fun m hm => List.mem_range.2 (hlt m hm))).length_le
      simpa using this
    omega
  | f + 1, n, D, out, hnl, hn, hd, hlt, hf => by
    have key : ∀ {l D' : List ℕ} {out' : List VDraw}, (∀ c ∈ l, c < σ.nodes.length) → D'.Nodup →
        (∀ m ∈ D', m < σ.nodes.length) → σ.nodes.length < D'.length + f →
        ∃ r, vizList (vizNode ha σ f) l D' out' = .ok r := by
      intro l
      induction l with
      | nil => intro D' out' _ _ _ _; exact ⟨(D', out'), rfl⟩
      | cons c l ih =>
        intro D' out' h0 h1 h2 h3
        unfold vizList
        split
        · exact ih (fun c hc => h0 c (by simp [hc])) h1 h2 h3
        · rename_i hc
          obtain ⟨q, hq⟩ := vizNode_draws hv ht hh (out := out') (h0 c (by simp)) hc h1 h2 h3
          have A := vizNode_drew hc hq
          obtain ⟨r, hr⟩ := ih (D' := q.1) (out' := q.2) (fun c hc => h0 c (by simp [hc])) (A.nodup h1)
            (fun m hm => by
              rcases A.drawn m hm with h | ⟨⟨nd, st, a, -⟩, -⟩
              · exact h2 m h
              · exact lt_of_getElem? a)
            (by
              have := (List.subperm_of_subset h1 A.keepD).length_le
              omega)
          exact ⟨r, by simp only [hq, bind, Except.bind]; exact hr⟩
    have hnd : σ.nodes[n]? = some σ.nodes[n] := List.getElem?_eq_getElem hnl
    set nd := σ.nodes[n] with hndd
    have hA : ∀ p ∈ nd.parents, σ.ops[p]?.bind (fun op => op.child) = some n := by
      intro p hp
      obtain ⟨op, a, b⟩ := hv.par n nd p hnd hp
      rw [a]; exact b
    obtain ⟨st, hst, -⟩ := ht.bound n nd hnd
    obtain ⟨q, hq⟩ := vizOps_draws (ha := ha) (ops := σ.ops) (n := n) nd.ops []
      (out ++ [.full n st.mode (vizState nd st.stepIn)]) (by simp) fun i hi => by
        obtain ⟨op, a, b⟩ := hv.opsPar n nd i hnd hi
        exact ⟨op, a, hh i op n a b⟩
    obtain ⟨r, hr⟩ := key (l := vizKids σ.ops nd) (D' := D ++ [n]) (out' := q.2) (fun c hc => by
        obtain ⟨nd', i, op, -, -, a, b⟩ := (kid_iff hnd c).1 hc
        obtain ⟨md, e, -⟩ := hv.childPar i op c a b
        exact lt_of_getElem? e)
      (by
        rw [List.nodup_append]
        refine ⟨hd, by simp, fun a ha b hb => ?_⟩
        simp only [List.mem_singleton] at hb; subst hb
        rintro rfl; exact hn ha)
      (fun m hm => by
        rcases List.mem_append.1 hm with hm | hm
        · exact hlt m hm
        · rw [List.mem_singleton] at hm; subst hm; exact hnl)
      (by simp only [List.length_append, List.length_singleton]; omega)
    refine ⟨r, ?_⟩
    rw [vizNode]
    simp only [hnd, needSome, bind, Except.bind, assert]
    rw [if_pos hA]
    simp only [hst, hq]
    exact hr

theorem vizRoots_draws {ha : HA K} {σ : Core K} (hv : VizOk σ) (ht : TInv σ) (hh : HasTrs ha σ) {f : ℕ}
    (hf : σ.nodes.length < f) : ∀ {l : List ℕ} {i : ℕ} {D : List ℕ} {out : List VDraw}, σ.roots.drop i = l →
      D.Nodup → (∀ m ∈ D, m < σ.nodes.length) →
      (∀ m ∈ D, ∃ j x, j < i ∧ σ.roots[j]? = some x ∧ Relation.ReflTransGen (IsKid σ) x m) →
      ∃ r, vizRoots ha σ f i l D out = .ok r
  | [], i, D, out, _, _, _, _ => ⟨(D, out), rfl⟩
  | x :: l, i, D, out, hl, hd, hlt, hfrom => by
    have hx : σ.roots[i]? = some x := by
      have := congrArg List.head? hl
      simpa [List.head?_drop] using this
    have hxr : x ∈ σ.roots := List.mem_of_getElem? hx
    have hnew : x ∉ D := by
      intro hD
      obtain ⟨j, y, hj, hy, hp⟩ := hfrom x hD
      rcases Relation.ReflTransGen.cases_tail hp with rfl | ⟨k, -, hkid⟩
      · have := (List.getElem?_inj (lt_of_getElem? hy) hv.rootsNd).1 (hy.trans hx.symm)
        omega
      · exact hv.kid hkid hxr
    obtain ⟨md, hmd, -⟩ := hv.root x hxr
    obtain ⟨q, hq⟩ := vizNode_draws hv ht hh (out := out ++ [.invis i, .edge (.pre i) (.node x) none])
      (lt_of_getElem? hmd) hnew hd hlt (f := f) (by omega)
    have A := vizNode_drew hnew hq
    obtain ⟨r, hr⟩ := vizRoots_draws hv ht hh hf (l := l) (i := i + 1) (D := q.1) (out := q.2)
      (by
        have := congrArg List.tail hl
        simpa [List.tail_drop] using this)
      (A.nodup hd)
      (fun m hm => by
        rcases A.drawn m hm with h | ⟨⟨nd, st, a, -⟩, -⟩
        · exact hlt m h
        · exact lt_of_getElem? a)
      (fun m hm => by
        rcases A.from_ m hm with hm | ⟨k, hk, hp⟩
        · obtain ⟨j, y, a, b⟩ := hfrom m hm
          exact ⟨j, y, by omega, b⟩
        · rw [List.mem_singleton] at hk; subst hk
          exact ⟨i, k, by omega, hx, hp⟩)
    exact ⟨r, by simp only [vizRoots, hq, bind, Except.bind]; exact hr⟩

/-- **C67** At every moment of a run without deaggregation drawing the DAG succeeds, if calls may be nested more
deeply than there are nodes. -/
theorem C67_always_drawn {E : Env K} (hd : ¬ E.deaggOn) {init : List (SS K)} {σ0 σ : Core K} {n f : ℕ}
    (h0 : setup E init = .ok σ0) (hr : runSteps E n σ0 = .ok σ) (hf : σ.nodes.length < f) :
    ∃ out, vizDag E.ha σ f = .ok out := by
  have hv := runs_vizOk hd h0 hr
  obtain ⟨ht, hh⟩ := runs_drawable hd h0 hr
  obtain ⟨r, h1⟩ := vizRoots_draws hv ht hh hf (l := σ.roots) (i := 0) (D := []) (out := []) rfl (by simp) (by simp)
    (by simp)
  have hna := C67_no_assertion hd h0 hr f
  cases hz : vizDag E.ha σ f with
  | ok out => exact ⟨out, rfl⟩
  | error e =>
    exfalso
    refine hna ?_
    rw [hz]
    unfold vizDag at hz
    rw [h1] at hz
    simp only [bind, Except.bind, assert] at hz
    split at hz
    · rename_i hA
      split at hA
      · cases hA
      · cases hA; exact hz.symm
    · cases hz

end

/-- The hypotheses are met by the run drawn in `errEx_draws`. -/
example : ∃ (E : Env ℚ) (init : List (SS ℚ)) (σ0 σ : Core ℚ) (n : ℕ), ¬ E.deaggOn ∧
    setup E init = .ok σ0 ∧ runSteps E n σ0 = .ok σ ∧ σ.nodes ≠ [] := by
  obtain ⟨r, h, hr⟩ := okAnd_ok errEx_draws
  simp only [drawAfter, analyse, bind_ok, pure_ok] at h
  obtain ⟨σ, ⟨init, hi, σ0, h1, h2⟩, d, h3, rfl⟩ := h
  simp only [Bool.and_eq_true, decide_eq_true_eq] at hr
  have hdg : ¬ (exEnv 3 1 none).deaggOn := by
    rintro ⟨s, hs, -⟩
    cases hs
  refine ⟨exEnv 3 1 none, init, σ0, σ, 8, hdg, h1, h2, fun h => ?_⟩
  have := (C67_runs_partial hdg h1 h2 h3).2.1 0
  rw [hr.2] at this
  have h4 := this.1 (by simp [drawnNodes])
  rw [h] at h4
  simp at h4

end Hylaa
