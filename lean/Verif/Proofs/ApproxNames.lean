import Verif.Proofs.CoreApprox
import Verif.Proofs.NoLo
import Verif.Proofs.Grow
import Verif.Proofs.Term5

/-!
# Column names with an approximation model

The hull's columns are named `A1_…`, `A2_…`, `L1_…`, `L2_…`, `a`, `m{id}_c…`, `m{id}_ti…`: none of them opens a
segment of a counterexample, so `make_counterexample` raises.
-/

set_option linter.unusedSectionVars false

namespace Hylaa
variable {K : Type} [Field K] [LinearOrder K]

/-- Does this name open a segment of a counterexample? (result.py:163) -/
def opens (name : String) : Bool := "m".toList.isPrefixOf name.toList && hasSub "_i0".toList name.toList

/-- No column opens a segment. -/
def NoOpen (names : List String) : Prop := ∀ s ∈ names, opens s = false

theorem NoOpen.append {a b : List String} (ha : NoOpen a) (hb : NoOpen b) : NoOpen (a ++ b) := fun s hs => by
  rcases List.mem_append.1 hs with h | h
  · exact ha s h
  · exact hb s h

theorem NoOpen.map {α : Type} {l : List α} {f : α → String} (h : ∀ a, opens (f a) = false) : NoOpen (l.map f) := by
  intro s hs
  obtain ⟨a, -, rfl⟩ := List.mem_map.1 hs
  exact h a

theorem opens_of_head {c : Char} {l : List Char} {s : String} (h : s.toList = c :: l) (hc : c ≠ 'm') :
    opens s = false := by
  unfold opens
  rw [h]
  have : ('m' == c) = false := by simpa using fun e : 'm' = c => hc e.symm
  simp [List.isPrefixOf, this]

theorem opens_A1 (i : ℕ) : opens s!"A1_{i}" = false :=
  opens_of_head (c := 'A') (l := '1' :: '_' :: dig i) (by simp only [toString, String.toList_append, Nat.toList_repr]; simp) (by decide)
theorem opens_A2 (i : ℕ) : opens s!"A2_{i}" = false :=
  opens_of_head (c := 'A') (l := '2' :: '_' :: dig i) (by simp only [toString, String.toList_append, Nat.toList_repr]; simp) (by decide)
theorem opens_L1 (i : ℕ) : opens s!"L1_{i}" = false :=
  opens_of_head (c := 'L') (l := '1' :: '_' :: dig i) (by simp only [toString, String.toList_append, Nat.toList_repr]; simp) (by decide)
theorem opens_L2 (i : ℕ) : opens s!"L2_{i}" = false :=
  opens_of_head (c := 'L') (l := '2' :: '_' :: dig i) (by simp only [toString, String.toList_append, Nat.toList_repr]; simp) (by decide)

theorem dig_no_us {c : Char} (hc : c ≠ '_') (i : ℕ) : '_' ∉ c :: dig i := by
  simp only [List.mem_cons, not_or]
  exact ⟨fun e => hc e.symm, us_dig i⟩

theorem opens_c (a i : ℕ) : opens s!"m{a}_c{i}" = false := by
  unfold opens
  rw [name_c, show "_i0".toList = '_' :: ['i', '0'] from rfl, mName_sub a (dig_no_us (by decide) i)]
  simp [List.isPrefixOf]

theorem opens_I (a i : ℕ) : opens s!"m{a}_I{i}" = false := by
  unfold opens
  rw [name_I, show "_i0".toList = '_' :: ['i', '0'] from rfl, mName_sub a (dig_no_us (by decide) i)]
  simp [List.isPrefixOf]

theorem name_b (a b : ℕ) : (s!"m{a}_b{b}").toList = mName a ('b' :: dig b) := by
  simp only [toString, String.toList_append, Nat.toList_repr, mName]; simp

theorem opens_b (a i : ℕ) : opens s!"m{a}_b{i}" = false := by
  unfold opens
  rw [name_b, show "_i0".toList = '_' :: ['i', '0'] from rfl, mName_sub a (dig_no_us (by decide) i)]
  simp [List.isPrefixOf]

theorem opens_ti (a i : ℕ) : opens s!"m{a}_ti{i}" = false := by
  unfold opens
  rw [name_ti, show "_i0".toList = '_' :: ['i', '0'] from rfl, mName_sub a]
  · simp [List.isPrefixOf]
  · simp only [List.mem_cons, not_or]
    exact ⟨by decide, by decide, us_dig i⟩

/-! ### The counterexample -/

theorem ceLoop_noOpen {ha : HA K} {nums : List ℕ} : ∀ (l : List (String × K)) {segs : List (CeSeg K)},
    (∀ p ∈ l, opens p.1 = false) → ceLoop ha nums l [] = .ok segs → segs = []
  | [], segs, _, h => by cases h; rfl
  | (name, v) :: l, segs, hl, h => by
    simp only [ceLoop, bind_ok] at h
    obtain ⟨s1, h1, s2, h2, h⟩ := h
    have hn := hl (name, v) (by simp)
    unfold opens at hn
    unfold ceOpen at h1
    rw [hn] at h1
    cases h1
    have hl0 : ∀ f : CeSeg K → Except Err (CeSeg K), ∀ s, modLast f [] = .ok s → False := by
      intro f s hs
      simp only [modLast, bind_ok, needSome_ok] at hs
      obtain ⟨_, h0, -⟩ := hs
      cases h0
    have e2 : s2 = [] := by
      unfold ceStore at h2
      repeat' split at h2
      all_goals first
        | exact (hl0 _ _ h2).elim
        | (cases h2; rfl)
    subst e2
    exact ceLoop_noOpen l (fun p hp => hl p (by simp [hp])) h

/-- Without a name that opens a segment `make_counterexample` raises. -/
theorem makeCounterexample_noOpen {E : Env K} {σ : Core K} {st : SS K} {ti : ℕ} {tlp : Lp K} {segs : List (CeSeg K)}
    (hn : NoOpen tlp.names) (h : makeCounterexample E σ st ti tlp = .ok segs) : False := by
  simp only [makeCounterexample, bind_ok, needSome_ok] at h
  obtain ⟨r, -, sol, -, nums, -, s1, h1, h2⟩ := h
  have := ceLoop_noOpen _ (fun p hp => hn _ (List.of_mem_zip hp).1) h1
  subst this
  simp only [modLast, bind_ok, needSome_ok] at h2
  obtain ⟨_, h0, -⟩ := h2
  cases h0

/-! ### Operations on one set -/

theorem setCsr_names {s s' : Sys K} {c : Csr K} {off : ℕ × ℕ} (h : s.setCsr c off = .ok s') : s'.names = s.names := by
  rw [setCsr_ok] at h
  rw [← h.2, Sys.setCsrLoop_names]

theorem setBasis_names {s s' : Sys K} {m : Mat K} (h : setBasisMatrix s m = .ok s') : s'.names = s.names := by
  simp only [setBasisMatrix, bind_ok, pure_ok] at h
  obtain ⟨_, -, _, -, rfl⟩ := h
  exact Sys.setCsrLoop_names _ _ _ _

theorem addInputEffects_noOpen {s s' : Sys K} {n : Mat K} {m : Mode K} {b : Option K} (hs : NoOpen s.names)
    (h : addInputEffects s n m b = .ok s') : NoOpen s'.names := by
  simp only [addInputEffects, bind_ok, setCsc_ok] at h
  obtain ⟨_, -, _, -, ie, -, inp, -, a, -, _, -, _, -, _, -, _, -, -, rfl⟩ := h
  rw [Sys.setCscLoop_names]
  cases b with
  | none =>
    simp only [Sys.addRowsLE, Sys.addCols, Option.isSome_none, Bool.false_eq_true, if_false, List.append_nil]
    exact hs.append (.map fun i => opens_I _ i)
  | some b =>
    simp only [Sys.addRowsLE, Sys.addCols, Option.isSome_some, if_true]
    exact hs.append ((NoOpen.map fun i => opens_I _ i).append (.map fun i => opens_b _ i))

theorem ieLoop_noOpen {d : Dyn K} {m : Mode K} {lgg : Option K} : ∀ (ks : List ℕ) {te te' : TE K}
    {s s' : Sys K} {l l' : List (Mat K)}, NoOpen s.names → ieLoop d m lgg te s l ks = .ok (te', s', l') →
    NoOpen s'.names
  | [], te, te', s, s', l, l', hs, h => by cases h; exact hs
  | k :: ks, te, te', s, s', l, l', hs, h => by
    simp only [ieLoop, bind_ok] at h
    obtain ⟨r, -, ie, -, s1, h1, h2⟩ := h
    exact ieLoop_noOpen ks (addInputEffects_noOpen hs h1) h2

theorem step_noOpen {d : Dyn K} {m : Mode K} {te te' : Option (TE K)} {st st' : SS K}
    {target : Option ℕ} (hs : NoOpen st.lp.names) (h : st.step d m te target = .ok (te', st')) :
    NoOpen st'.lp.names := by
  unfold SS.step at h
  simp only at h
  split at h
  · cases h
  · split at h
    · cases h; exact hs
    · simp only [bind_ok, pure_ok] at h
      obtain ⟨r, -, s, h1, ⟨q1, q2, q3⟩, h2, h3⟩ := h
      cases h3
      simp only
      have n1 : NoOpen s.names := by rw [setBasis_names h1]; exact hs
      unfold SS.stepInputs at h2
      cases hr : r.2.2 with
      | none => rw [hr] at h2; cases h2; exact n1
      | some ie =>
        rw [hr] at h2
        simp only [bind_ok, pure_ok, Prod.mk.injEq] at h2
        obtain ⟨ies, -, ⟨a, b, c⟩, h4, s2, h5, -, rfl, -⟩ := h2
        exact addInputEffects_noOpen (ieLoop_noOpen _ n1 h4) h5

theorem addInit_names {s s' : Sys K} {vec : List K} {rhs : K} {bm : Mat K}
    {ies : Option (List (Mat K))} {ri : Option ℕ} {row : ℕ}
    (h : addInitConstraint s vec rhs bm ies ri = .ok (s', row)) : s'.names = s.names := by
  simp only [addInitConstraint, bind_ok, pure_ok, Prod.mk.injEq] at h
  obtain ⟨_, -, s1, h1, ieRow, -, _, -, s2, h2, rfl, -⟩ := h
  rw [setCsr_names h2]
  cases ri with
  | none => cases h1; rfl
  | some i =>
    simp only [Sys.setConstraintRhs] at h1
    split at h1
    · cases h1; rfl
    · cases h1

theorem tryReplace_names {S : Solver K} {M : K} {lp lp' : Lp K} {old : ℕ} {vec : List K} {rhs : K}
    {bm : Mat K} {ies : Option (List (Mat K))} {r : ℕ × Bool}
    (h : tryReplaceInitConstraint S M lp old vec rhs bm ies = .ok (lp', r)) : lp'.names = lp.names := by
  simp only [tryReplaceInitConstraint, bind_ok] at h
  obtain ⟨oldC, -, ⟨s1, row⟩, h1, lp2, h2, ⟨lp3, res⟩, h3, h⟩ := h
  have n1 := addInit_names h1
  have n3 : lp3.toSys = s1 := by
    rw [(minimize_keeps h3).1, setMinDirCsr_toSys h2]
  cases res with
  | none =>
    simp only [pure_ok, Prod.mk.injEq] at h
    obtain ⟨rfl, -⟩ := h
    rw [n3]; exact n1
  | some l =>
    simp only at h
    split at h
    · simp only [bind_ok, pure_ok, Prod.mk.injEq] at h
      obtain ⟨s2, h4, rfl, -⟩ := h
      simp only
      rw [setCsr_names h4]
      show lp3.names = _
      rw [n3]; exact n1
    · simp only [pure_ok, Prod.mk.injEq] at h
      obtain ⟨rfl, -⟩ := h
      rw [n3]; exact n1

theorem invLoop_names {S : Solver K} {T : Tols K} : ∀ (lcs : List (LinCon K)) {st st' : SS K} {idx : ℕ}
    {ops ops' : List (ℕ × Bool)} {f : Bool},
    invLoop S T st idx lcs ops = .ok (st', f, ops') → st'.lp.names = st.lp.names
  | [], st, st', idx, ops, ops', f, h => by cases h; rfl
  | lc :: lcs, st, st', idx, ops, ops', f, h => by
    simp only [invLoop, bind_ok] at h
    obtain ⟨⟨lp1, r⟩, h1, h⟩ := h
    have n1 : lp1.names = st.lp.names := by rw [checkIntersection_toSys h1]
    split at h
    · simp only [bind_ok] at h
      obtain ⟨⟨q1, q2⟩, h2, ⟨f1, f2⟩, h3, h⟩ := h
      have n2 : q1.lp.names = lp1.names := by
        simp only [SS.addInv, bind_ok] at h2
        obtain ⟨old, -, bm, -, h2⟩ := h2
        cases old with
        | none =>
          simp only [bind_ok, pure_ok, Prod.mk.injEq] at h2
          obtain ⟨⟨s, row⟩, h2, rfl, -⟩ := h2
          exact addInit_names h2
        | some row =>
          simp only [bind_ok, pure_ok, Prod.mk.injEq] at h2
          obtain ⟨⟨lp, r⟩, h2, rfl, -⟩ := h2
          exact tryReplace_names h2
      have n3 : f1.names = st.lp.names := by rw [isFeasible_toSys h3, n2, n1]
      split at h
      · exact (invLoop_names lcs h).trans n3
      · simp only [pure_ok, Prod.mk.injEq] at h
        obtain ⟨rfl, -⟩ := h
        exact n3
    · exact (invLoop_names lcs h).trans n1

theorem guardRows_names {S : Solver K} {nc : ℕ} : ∀ (rows : List (SRow K × K)) {lp lp' : Lp K} {b : Bool},
    guardRowsLoop S lp nc rows = .ok (lp', b) → lp'.names = lp.names
  | [], lp, lp', b, h => by cases h; rfl
  | (r, q) :: rows, lp, lp', b, h => by
    simp only [guardRowsLoop, bind_ok] at h
    obtain ⟨lp1, h1, ⟨lp2, res⟩, h2, h⟩ := h
    have e : lp2.names = lp.names := by rw [(minimize_keeps h2).1, setMinDirCsr_toSys h1]
    cases res with
    | none => cases h; exact e
    | some vals =>
      simp only at h
      split at h
      · cases h; exact e
      · exact (guardRows_names rows h).trans e

theorem guardIntersection_names {S : Solver K} {lp lp' : Lp K} {g : Csr K × List K} {r : Option (Lp K)}
    (h : guardIntersection S lp g = .ok (lp', r)) :
    lp'.names = lp.names ∧ ∀ tlp, r = some tlp → tlp.names = lp.names := by
  simp only [guardIntersection, bind_ok] at h
  obtain ⟨_, -, ⟨lp1, b⟩, h1, h⟩ := h
  have e1 := guardRows_names _ h1
  split at h
  · simp only [bind_ok, pure_ok, Prod.mk.injEq] at h
    obtain ⟨c, hc, s, hs, ⟨f1, f2⟩, hf, rfl, rfl⟩ := h
    refine ⟨e1, fun tlp ht => ?_⟩
    simp only at ht
    split at ht
    · cases ht
      rw [isFeasible_toSys hf]
      have := setCsr_names hs
      simp only
      rw [this, clone_ok hc]
      exact e1
    · cases ht
  · cases h
    exact ⟨e1, fun tlp ht => by cases ht⟩

theorem affine_names {S : Solver K} {eps : K} : ∀ (vars : List ℕ) {lp lp' : Lp K} {b : Bool},
    affineLoop S eps lp vars = .ok (lp', b) → lp'.names = lp.names
  | [], lp, lp', b, h => by cases h; rfl
  | v :: vars, lp, lp', b, h => by
    simp only [affineLoop, bind_ok] at h
    obtain ⟨⟨l1, r1⟩, h1, v1, -, ⟨l2, r2⟩, h2, v2, -, h⟩ := h
    have e : l2.names = lp.names := by rw [(minimize_keeps h2).1, (minimize_keeps h1).1]
    simp only at h
    split at h
    · cases h; exact e
    · exact (affine_names vars h).trans e

theorem ttLoop_names {S : Solver K} {eps : K} {a : Csr K} {inv : List (LinCon K)} {nc : ℕ} :
    ∀ (rows : List (SRow K × K)) {lp lp' : Lp K} {acc b : Bool},
    ttLoop S eps a inv nc lp rows acc = .ok (lp', b) → lp'.names = lp.names
  | [], lp, lp', acc, b, h => by cases h; rfl
  | (r, q) :: rows, lp, lp', acc, b, h => by
    unfold ttLoop at h
    split at h
    · simp only [bind_ok] at h
      obtain ⟨⟨l1, b1⟩, h1, h⟩ := h
      have e1 := affine_names _ h1
      split at h
      · simp only [bind_ok] at h
        obtain ⟨⟨l2, r2⟩, h2, ⟨l3, r3⟩, h3, h⟩ := h
        have e3 : l3.names = lp.names := by rw [(minimize_keeps h3).1, (minimize_keeps h2).1]; exact e1
        exact (ttLoop_names rows h).trans e3
      · exact (ttLoop_names rows h).trans e1
    · exact ttLoop_names rows h

/-! ### The hull -/

theorem chullTwo_noOpen {M : K} {s1 s2 s : Sys K} (h : chullTwo M s1 s2 = .ok s) : NoOpen s.names := by
  simp only [chullTwo, bind_ok, pure_ok] at h
  obtain ⟨_, -, t0, h0, t1, h1, t2, h2, rfl⟩ := h
  simp only
  rw [setCsr_names h2, setCsr_names h1]
  have e0 : t0.names = [] := by
    have := h0
    simp only [Sys.addRowsWithTypes, bind_ok, pure_ok] at this
    revert this
    repeat' split
    all_goals first
      | (intro h; cases h; rfl)
      | (rintro ⟨_, -, _, -, rfl⟩; rfl)
      | (rintro ⟨_, -, rfl⟩; rfl)
      | (intro h; cases h)
  simp only [Sys.addCols, e0, List.nil_append]
  refine ((((NoOpen.map fun i => opens_A1 i).append (.map fun i => opens_A2 i)).append
    (.map fun i => opens_L1 i)).append (.map fun i => opens_L2 i)).append ?_
  intro s hs
  simp only [List.mem_singleton] at hs
  subst hs
  decide

theorem setReachVars_names {s s' : Sys K} {dims cur : ℕ} {pos : ℕ × ℕ} {ie : Option (ℕ × ℕ)}
    (h : s.setReachVars dims pos cur ie = .ok s') : s'.names = s.names := by
  rw [setReachVars_ok] at h
  rw [← h.2]

theorem fromConstraints_noOpen {S : Solver K} {csr : Csr K} {rhs : List K} {mode : Mode K} {ty : List RowType}
    {ns : List String} {dims? : Option ℕ} {lp : Lp K} (hns : NoOpen ns)
    (h : fromConstraints S csr rhs mode (some ty) (some ns) dims? = .ok lp) : NoOpen lp.names := by
  simp only [fromConstraints, bind_ok, pure_ok] at h
  obtain ⟨_, -, feas, -, _, -, _, -, _, -, s1, h1, s2, h2, s3, h3, s4, h4, s5, h5, rfl⟩ := h
  simp only
  rw [setReachVars_names h5]
  have e1 : s1.names = ns ++ (List.range (dims?.getD csr.ncols)).map fun i => s!"m{mode.id}_c{i}" := by
    simp only [Sys.addRowsWithTypes] at h1
    split at h1
    · cases h1; rfl
    · cases h1
  have n1 : NoOpen s1.names := by rw [e1]; exact hns.append (.map fun i => opens_c _ i)
  have n2 : NoOpen s2.names := by
    rw [setCsr_names h2]
    split
    · exact n1.append (.map fun i => opens_ti _ i)
    · exact n1
  have n3 : NoOpen s3.names := by rw [setCsr_names h3]; exact n2
  split at h4
  · rw [setCsr_names h4]; exact n3
  · cases h4; exact n3

theorem aggregateChull_noOpen {S : Solver K} {M : K} {lp1 lp2 lp : Lp K} {m : Mode K}
    (h : aggregateChull S M [lp1, lp2] m = .ok lp) : NoOpen lp.names := by
  unfold aggregateChull at h
  simp only [bind_ok] at h
  obtain ⟨c1, -, c2, -, s, hs, h⟩ := h
  exact fromConstraints_noOpen (chullTwo_noOpen hs) h

/-- After applying an approximation model no column opens a segment. -/
theorem applyApprox_noOpen {S : Solver K} {T : Tols K} {c : LggCfg K} {d : Dyn K} {m : Mode K} {am : ApproxModel}
    (ham : am = .chull ∨ am = .lgg) {te te' : Option (TE K)} {st st' : SS K}
    (h : st.applyApprox S T c d m am te = .ok (te', st')) : NoOpen st'.lp.names := by
  simp only [SS.applyApprox, bind_ok, assert_ok] at h
  obtain ⟨_, -, h⟩ := h
  rcases ham with rfl | rfl
  · simp only [SS.approxChull, bind_ok, pure_ok, Prod.mk.injEq] at h
    obtain ⟨one, -, g, -, s, -, s', -, lp, hl, -, rfl⟩ := h
    exact aggregateChull_noOpen hl
  · simp only [SS.approxLgg, bind_ok, needSome_ok] at h
    obtain ⟨a, -, one, -, g, -, s, -, r, -, rx, -, q, -, ms, -, lp, hl, h⟩ := h
    have hn := aggregateChull_noOpen hl
    unfold SS.lggBetaPart at h
    split at h
    · simp only [bind_ok, assert_ok, pure_ok, Prod.mk.injEq] at h
      obtain ⟨_, -, _, -, lp', hl', te2, -, -, rfl⟩ := h
      simp only
      rw [(setMinDir_toSys hl').1]; exact hn
    · cases h; exact hn

/-! ### Runs -/

section
variable [IsStrictOrderedRing K]

/-- Nothing was reported, nothing is being replayed and the columns of the current set open no segment. -/
structure Dumb (σ : Core K) : Prop where
  conc : σ.hasConc = false
  ce : σ.ce = []
  rep : σ.doingReplay = false
  cur : ∀ ν nd st, σ.cur = some ν → σ.nodes[ν]? = some nd → σ.states[nd.state]? = some st → NoOpen st.lp.names

theorem addSuccessor_dumb {E : Env K} {σ σ' : Core K} {ti : ℕ} {t : Tr K} {tlp : Lp K}
    {st : SS K} {nid : ℕ} (h : addSuccessor E σ ti t tlp st nid = .ok σ') :
    σ'.hasConc = σ.hasConc ∧ σ'.ce = σ.ce ∧ ∃ l, σ'.states = σ.states ++ l := by
  simp only [addSuccessor, bind_ok, pure_ok] at h
  obtain ⟨⟨σ1, r⟩, h1, rfl⟩ := h
  rcases makeOp_shape h1 with ⟨rfl, rfl⟩ | ⟨rfl, c, post, p1, p2, p3, p4, p5, rfl⟩
  · exact ⟨rfl, rfl, [], by simp⟩
  · exact ⟨rfl, rfl, [post], rfl⟩

theorem guardLoop_dumb {E : Env K} (hce : E.set.makeCe = true) {nid sid : ℕ} : ∀ (ts : List ℕ) {σ σ' : Core K} {st : SS K},
    σ.states[sid]? = some st → NoOpen st.lp.names → σ.hasConc = false → σ.ce = [] →
    guardLoop E nid sid σ ts = .ok σ' → σ'.hasConc = false ∧ σ'.ce = [] ∧
      ∃ st', σ'.states[sid]? = some st' ∧ NoOpen st'.lp.names
  | [], σ, σ', st, hst, hn, hc, he, h => by cases h; exact ⟨hc, he, st, hst, hn⟩
  | ti :: ts, σ, σ', st, hst, hn, hc, he, h => by
    simp only [guardLoop, bind_ok, needSome_ok] at h
    obtain ⟨st', hst', t, ht, g, hg, ⟨lp1, ans⟩, hgi, h⟩ := h
    rw [hst] at hst'; cases hst'
    obtain ⟨g1, g2⟩ := guardIntersection_names hgi
    have hst1 : (σ.setState sid { st with lp := lp1 }).states[sid]? = some { st with lp := lp1 } := by
      simp [Core.setState, lt_of_getElem? hst]
    have hn1 : NoOpen lp1.names := by rw [g1]; exact hn
    cases ans with
    | none => exact guardLoop_dumb hce ts (st := { st with lp := lp1 }) hst1 hn1 hc he h
    | some tlp =>
      simp only [bind_ok, needSome_ok] at h
      obtain ⟨dst, hdst, ce, hcf, h⟩ := h
      generalize hσ2 : (if dst.isError = true then
          (σ.setState sid { st with lp := lp1 }).errorReached st.concrete ce
          else σ.setState sid { st with lp := lp1 }) = σ2 at h
      have key : σ2.hasConc = false ∧ σ2.ce = [] ∧ σ2.states = (σ.setState sid { st with lp := lp1 }).states := by
        rw [← hσ2]
        split
        · rename_i herr
          unfold ceFor at hcf
          cases hcon : st.concrete with
          | true =>
            exfalso
            have e1 : (σ.setState sid { st with lp := lp1 }).hasConc = false := hc
            have e2 : (σ.setState sid { st with lp := lp1 }).ce = [] := he
            rw [e1, e2, herr, hce] at hcf
            simp only [hcon, Bool.not_false, List.isEmpty_nil, Bool.and_self, if_true] at hcf
            exact makeCounterexample_noOpen (by rw [g2 tlp rfl]; exact hn) hcf
          | false => exact ⟨hc, he, rfl⟩
        · exact ⟨hc, he, rfl⟩
      obtain ⟨c2, e2, s2⟩ := key
      split at h
      · cases h
        exact ⟨c2, e2, { st with lp := lp1 }, by rw [s2]; exact hst1, hn1⟩
      · simp only [bind_ok] at h
        obtain ⟨σ3, h3, σ4, h4, h5⟩ := h
        obtain ⟨c3, e3, l, s3⟩ := addSuccessor_dumb h3
        have hst3 : σ3.states[sid]? = some { st with lp := lp1 } := by
          rw [s3, s2, List.getElem?_append_left (lt_of_getElem? hst1)]; exact hst1
        have h4' : σ4.hasConc = false ∧ σ4.ce = [] ∧ ∃ st', σ4.states[sid]? = some st' ∧ NoOpen st'.lp.names := by
          unfold ttCheck at h4
          split at h4
          · simp only [bind_ok, needSome_ok, pure_ok] at h4
            obtain ⟨st4, hs4, src, -, ⟨lp4, b4⟩, hw, rfl⟩ := h4
            rw [hst3] at hs4; cases hs4
            simp only [wasTtTaken, bind_ok, needSome_ok] at hw
            obtain ⟨a, -, hw⟩ := hw
            refine ⟨by simpa [Core.setState] using c3.trans c2, by simpa [Core.setState] using e3.trans e2,
              { st with lp := lp4 }, by simp [Core.setState, lt_of_getElem? hst3], ?_⟩
            simp only
            rw [ttLoop_names _ hw]; exact hn1
          · cases h4
            exact ⟨c3.trans c2, e3.trans e2, _, hst3, hn1⟩
        obtain ⟨c4, e4, st4, hs4, hn4⟩ := h4'
        exact guardLoop_dumb hce ts hs4 hn4 c4 e4 h5

theorem checkGuards_dumb {E : Env K} (hce : E.set.makeCe = true) {σ σ' : Core K} (hd : Dumb σ)
    (h : checkGuards E σ = .ok σ') : Dumb σ' := by
  simp only [checkGuards, bind_ok, needSome_ok] at h
  obtain ⟨c, hc, st, hst, ts, -, h⟩ := h
  obtain ⟨c1, nd, c2, c3, c4⟩ := curState_inv hc
  have hn := hd.cur _ nd st c1 c2 (by rw [c3]; exact hst)
  obtain ⟨a1, a2, st', a3, a4⟩ := guardLoop_dumb hce ts hst hn hd.conc hd.ce h
  obtain ⟨-, q, -⟩ := guardLoop_bound ts hst h
  refine ⟨a1, a2, ?_, fun ν nd' s h1 h2 h3 => ?_⟩
  · have := hd.rep
    unfold Core.doingReplay at this ⊢
    rw [q.2.1, q.2.2]; exact this
  · rw [q.1, c1] at h1; cases h1
    obtain ⟨l, hl, -⟩ := guardLoop_nodes ts c2 h
    rw [hl] at h2; cases h2
    simp only [c3] at h3
    rw [a3] at h3; cases h3
    exact a4

theorem leftInvariant_dumb {σ σ' : Core K} {b : Bool} (hc : σ.hasConc = false) (he : σ.ce = []) (hr : σ.doingReplay = false)
    (h : σ.leftInvariant b = .ok σ') : Dumb σ' := by
  simp only [Core.leftInvariant, bind_ok, needSome_ok, pure_ok] at h
  obtain ⟨c, -, st, -, rfl⟩ := h
  exact ⟨hc, he, hr, fun ν nd s h1 => by cases h1⟩

theorem pushAll_same (ν s : ℕ) : ∀ (qs : List (ℕ × Bool)) (σ : Core K),
    ∃ nodes, qs.foldl (fun σ q => σ.pushOp ν (.inv s q.1 q.2)) σ = { σ with nodes := nodes }
  | [], σ => ⟨σ.nodes, rfl⟩
  | q :: qs, σ => by
    rw [List.foldl_cons]
    obtain ⟨nodes, h⟩ := pushAll_same ν s qs (σ.pushOp ν (.inv s q.1 q.2))
    exact ⟨nodes, h⟩

theorem intersectCur_flags {E : Env K} {σ σ' : Core K} {f : Bool} (h : intersectCur E σ = .ok (σ', f)) :
    σ'.hasConc = σ.hasConc ∧ σ'.ce = σ.ce ∧ σ'.doingReplay = σ.doingReplay := by
  simp only [intersectCur, bind_ok, needSome_ok, pure_ok, Prod.mk.injEq] at h
  obtain ⟨c, hc, st, hst, m, -, ⟨st', f', qs⟩, hii, rfl, -⟩ := h
  obtain ⟨nodes, hn⟩ := pushAll_same c.1 st.stepIn qs (σ.setState c.2 st')
  simp only [hn]
  exact ⟨rfl, rfl, rfl⟩

theorem intersectCur_dumb {E : Env K} {σ σ' : Core K} {f : Bool} (hd : Dumb σ) (h : intersectCur E σ = .ok (σ', f)) :
    Dumb σ' := by
  obtain ⟨f1, f2, f3⟩ := intersectCur_flags h
  refine ⟨f1.trans hd.conc, f2.trans hd.ce, f3.trans hd.rep, ?_⟩
  simp only [intersectCur, bind_ok, needSome_ok, pure_ok, Prod.mk.injEq] at h
  obtain ⟨c, hc, st, hst, m, -, ⟨st', f', qs⟩, hii, rfl, -⟩ := h
  obtain ⟨c1, nd, c2, c3, c4⟩ := curState_inv hc
  have hn := hd.cur _ nd st c1 c2 (by rw [c3]; exact hst)
  obtain ⟨nodes, hn2⟩ := pushAll_same c.1 st.stepIn qs (σ.setState c.2 st')
  obtain ⟨l, p1, p2⟩ := pushAll_nodes c.1 st.stepIn qs (σ.setState c.2 st') (nd := nd) c2
  simp only [hn2] at p1 ⊢
  intro ν nd' s h1 h2 h3
  simp only [Core.setState] at h1
  rw [c1] at h1; cases h1
  rw [p1] at h2; cases h2
  simp only [c3, Core.setState] at h3
  rw [List.getElem?_set_self (lt_of_getElem? hst)] at h3; cases h3
  rw [invLoop_names _ hii]; exact hn

theorem stepPost_dumb {E : Env K} (hce : E.set.makeCe = true) {σ σ' : Core K} (hd : Dumb σ)
    (h : stepPost E σ = .ok σ') : Dumb σ' := by
  simp only [stepPost, bind_ok, needSome_ok] at h
  obtain ⟨c, hc, st, hst, h⟩ := h
  split at h
  · cases h; exact hd
  split at h
  · exact leftInvariant_dumb hd.conc hd.ce hd.rep h
  split at h
  · exact leftInvariant_dumb (σ := { σ with tookTt := false }) hd.conc hd.ce hd.rep h
  simp only [bind_ok, needSome_ok] at h
  obtain ⟨⟨σ1, f⟩, h1, h⟩ := h
  have d1 := intersectCur_dumb hd h1
  obtain ⟨c', hc', hc1⟩ := intersectCur_cur h1
  rw [hc] at hc'; cases hc'
  split at h
  · exact leftInvariant_dumb d1.conc d1.ce d1.rep h
  simp only [bind_ok, needSome_ok] at h
  obtain ⟨σ2, h2, σ3, h3, m, -, a, -, h⟩ := h
  have d2 : Dumb σ2 := by
    simp only [stepState, bind_ok, needSome_ok, pure_ok] at h2
    obtain ⟨s1, hs1, m1, -, ⟨te, s2⟩, hst2, rfl⟩ := h2
    obtain ⟨c1, nd, c2, c3, c4⟩ := curState_inv hc1
    have hn := d1.cur _ nd s1 c1 c2 (by rw [c3]; exact hs1)
    refine ⟨d1.conc, d1.ce, d1.rep, fun ν nd' s k1 k2 k3 => ?_⟩
    simp only [Core.setState] at k1 k2 k3
    rw [c1] at k1; cases k1
    rw [c2] at k2; cases k2
    rw [c3, List.getElem?_set_self (lt_of_getElem? hs1)] at k3; cases k3
    exact step_noOpen hn hst2
  have d3 := checkGuards_dumb hce d2 h3
  split at h
  · exact leftInvariant_dumb d3.conc d3.ce d3.rep h
  · cases h; exact d3

theorem stepPop_dumb {E : Env K} (ham : E.approx = .chull ∨ E.approx = .lgg) {σ σ' : Core K} (hd : Dumb σ)
    (h : stepPop E σ = .ok σ') : Dumb σ' := by
  simp only [stepPop, bind_ok, needSome_ok] at h
  obtain ⟨σ1, h1, c, hc, st, hst, m, -, h⟩ := h
  have hf : σ1.hasConc = false ∧ σ1.ce = [] ∧ σ1.doingReplay = false := by
    simp only [popWaiting, bind_ok, assert_ok, pure_ok] at h1
    obtain ⟨items, -, l1, -, l, -, _, -, at_, -, ⟨σ0, nid⟩, hmk, rfl⟩ := h1
    obtain ⟨ss, rts, sid, os, sts, rfl, -⟩ := makeNode_shape hmk
    exact ⟨hd.conc, hd.ce, hd.rep⟩
  split at h
  · exact leftInvariant_dumb hf.1 hf.2.1 hf.2.2 h
  simp only [bind_ok] at h
  obtain ⟨⟨σ2, f⟩, h2, h⟩ := h
  obtain ⟨f1, f2, f3⟩ := intersectCur_flags h2
  split at h
  · simp only [approxCur, bind_ok, needSome_ok, pure_ok] at h
    obtain ⟨c', hc', st', hst', m', -, ⟨te, s2⟩, ha, rfl⟩ := h
    obtain ⟨c1, nd, c2, c3, c4⟩ := curState_inv hc'
    refine ⟨f1.trans hf.1, f2.trans hf.2.1, f3.trans hf.2.2, fun ν nd' s k1 k2 k3 => ?_⟩
    simp only [Core.setState] at k1 k2 k3
    rw [c1] at k1; cases k1
    rw [c2] at k2; cases k2
    rw [c3, List.getElem?_set_self (lt_of_getElem? hst')] at k3; cases k3
    exact applyApprox_noOpen ham ha
  · exact leftInvariant_dumb (f1.trans hf.1) (f2.trans hf.2.1) (f3.trans hf.2.2) h

theorem doStep_dumb {E : Env K} (ham : E.approx = .chull ∨ E.approx = .lgg) (hce : E.set.makeCe = true)
    (hdg : ∀ s, E.set.strat = some s → s.deagg = false) {σ σ' : Core K} (hd : Dumb σ)
    (h : doStep E σ = .ok σ') : Dumb σ' := by
  unfold doStep at h
  split at h
  · cases h; exact hd
  split at h
  · exact stepPost_dumb hce hd h
  rw [if_neg (by rw [hd.rep]; simp)] at h
  simp only [bind_ok] at h
  obtain ⟨d, hd', h⟩ := h
  have : d = none := by
    unfold getDeaggNode at hd'
    cases hq : E.set.strat with
    | none => rw [hq] at hd'; cases hd'; rfl
    | some s =>
      rw [hq] at hd'
      simp only [hdg s hq, Bool.false_eq_true, if_false] at hd'
      cases hd'; rfl
  subst this
  simp only [bind_ok] at h
  obtain ⟨σ1, h1, h⟩ := h
  have d1 := stepPop_dumb ham hd h1
  split at h
  · exact checkGuards_dumb hce d1 h
  · cases h; exact d1

theorem runSteps_dumb {E : Env K} (ham : E.approx = .chull ∨ E.approx = .lgg) (hce : E.set.makeCe = true)
    (hdg : ∀ s, E.set.strat = some s → s.deagg = false) : ∀ (n : ℕ) {σ σ' : Core K}, Dumb σ →
    runSteps E n σ = .ok σ' → Dumb σ'
  | 0, σ, σ', hd, h => by cases h; exact hd
  | n + 1, σ, σ', hd, h => by
    simp only [runSteps, bind_ok] at h
    obtain ⟨σ1, h1, h2⟩ := h
    exact runSteps_dumb ham hce hdg n (doStep_dumb ham hce hdg hd h1) h2

theorem setup_dumb {E : Env K} {init : List (SS K)} {σ : Core K} (h : setup E init = .ok σ) : Dumb σ := by
  have key : ∀ (l : List (SS K)) {σ σ' : Core K}, σ.hasConc = false → σ.ce = [] → σ.cur = none →
      σ.doingReplay = false → setupStates E σ l = .ok σ' → Dumb σ' := by
    intro l
    induction l with
    | nil => intro σ σ' a b c d h; cases h; exact ⟨a, b, d, fun ν nd s h1 => by rw [c] at h1; cases h1⟩
    | cons st l ih =>
      intro σ σ' a b c d h
      simp only [setupStates, bind_ok] at h
      obtain ⟨m, -, f, -, h⟩ := h
      split at h
      · exact ih a b c d h
      simp only [bind_ok] at h
      obtain ⟨r, -, h⟩ := h
      split at h
      · exact ih a b c d h
      · refine ih ?_ ?_ ?_ ?_ h
        exacts [a, b, c, d]
  simp only [setup, bind_ok, pure_ok] at h
  obtain ⟨_, -, σ1, h1, _, -, rfl⟩ := h
  exact key init rfl rfl rfl rfl h1

end

end Hylaa
