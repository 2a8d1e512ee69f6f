import Verif.Proofs.Conc
import Verif.Proofs.NodeShape

/-! The rest of the invariant for C33. -/

set_option linter.unusedSectionVars false

namespace Hylaa
open Spec
variable {K : Type} [Field K] [LinearOrder K] [IsStrictOrderedRing K]

/-! ### Optimisation keeps the instances -/

theorem aggDirLoop_kept {S : Solver K} {dir : List K} : ∀ (lps : List (Lp K)) {acc acc' : Option (K × K)}
    {lps' : List (Lp K)}, aggDirLoop S dir lps acc = .ok (lps', acc') →
    List.Forall₂ Lp.Kept lps lps'
  | [], acc, acc', lps', h => by cases h; exact .nil
  | lp :: rest, acc, acc', lps', h => by
    simp only [aggDirLoop, bind_ok, pure_ok, Prod.mk.injEq] at h
    obtain ⟨_, -, r1, h1, r2, h2, ⟨rest', a⟩, h3, rfl, rfl⟩ := h
    have k1 : lp.Kept r1.1 := minimize_keeps (r := r1.2) h1
    have k2 : r1.1.Kept r2.1 := minimize_keeps (r := r2.2) h2
    exact .cons (k1.trans k2) (aggDirLoop_kept rest h3)

theorem forall₂_kept_trans {a b c : List (Lp K)} (h : List.Forall₂ Lp.Kept a b)
    (h' : List.Forall₂ Lp.Kept b c) : List.Forall₂ Lp.Kept a c := by
  induction h generalizing c with
  | nil => cases h'; exact .nil
  | cons p _ ih => cases h' with | cons q t => exact .cons (p.trans q) (ih t)

theorem aggDirs_kept {S : Solver K} {tol2 : K} : ∀ (dirs : List (List K)) {lps lps' : List (Lp K)}
    {rows : List (SRow K × K)}, aggDirs S tol2 dirs lps = .ok (lps', rows) →
    List.Forall₂ Lp.Kept lps lps'
  | [], lps, lps', rows, h => by
    cases h; exact List.forall₂_same.2 fun l _ => Lp.Kept.refl l
  | d :: ds, lps, lps', rows, h => by
    simp only [aggDirs] at h
    split at h
    · exact aggDirs_kept ds h
    · simp only [bind_ok, pure_ok, Prod.mk.injEq] at h
      obtain ⟨⟨l1, acc⟩, h1, ⟨hi, lo⟩, -, ⟨l2, rs⟩, h2, rfl, -⟩ := h
      exact forall₂_kept_trans (aggDirLoop_kept _ h1) (aggDirs_kept ds h2)

theorem aggregateOps_touched {E : Env K} {σ σ' : Core K} {ops : List ℕ} {os : List (OpTr K)}
    {sts : List (SS K)} {at_ : AggType} {st : SS K}
    (hsts : List.Forall₂ (fun o s => σ.states[o.post]? = some s) os sts)
    (h : aggregateOps E σ ops os sts at_ = .ok (σ', st)) :
    (∃ ss, Touched σ.states ss ∧ σ' = { σ with states := ss }) ∧ st.concrete = false := by
  refine ⟨?_, (aggregateOps_shape h).2.2.1⟩
  simp only [aggregateOps, bind_ok, needSome_ok] at h
  obtain ⟨st0, h0, m, -, h⟩ := h
  split at h
  · simp only [bind_ok, pure_ok, Prod.mk.injEq] at h
    obtain ⟨lp, -, st1, h1, rfl, rfl⟩ := h
    exact ⟨σ.states, Touched.refl _, rfl⟩
  · simp only [bind_ok, needSome_ok, pure_ok, Prod.mk.injEq] at h
    obtain ⟨a, -, o, -, dirs, -, ⟨lps', lp⟩, hr, st1, h1, rfl, rfl⟩ := h
    simp only [aggregate, bind_ok, pure_ok, Prod.mk.injEq] at hr
    obtain ⟨_, -, _, -, ⟨l1, rows⟩, h2, rv, -, rfl, -⟩ := hr
    have hk := aggDirs_kept _ h2
    refine ⟨_, setLps_touched σ.states _ _ (Touched.refl _) ?_, rfl⟩
    intro p hp
    obtain ⟨j, hj, rfl⟩ := List.getElem_of_mem hp
    have hll := hk.length_eq
    have hl2 := hsts.length_eq
    simp only [List.length_map] at hll
    simp only [List.length_zip, List.length_map] at hj
    have hjo : j < os.length := by omega
    have hjs : j < sts.length := by omega
    have hjl : j < l1.length := by omega
    have hg := hk.get (i := j) (by simpa using hjs) hjl
    simp only [List.get_eq_getElem, List.getElem_map] at hg
    refine ⟨sts[j], ?_, ?_, ?_⟩
    · simp only [List.getElem_zip, List.getElem_map]
      exact hsts.get hjo hjs
    · simp only [List.getElem_zip]; exact hg.1
    · simp only [List.getElem_zip]; exact hg.2

/-! ### The invariant through the operations -/

theorem StConc.aggstr {E : Env K} {X0 : ℕ → (ℕ → K) → Prop} {st : SS K} {c : ℕ}
    (h : StConc E X0 st c) (s : Option String) : StConc E X0 { st with aggstr := s } c := by
  intro m hm he
  obtain ⟨X, n, a, b⟩ := h m hm he
  exact ⟨X, n, a.aggstr s, b⟩

theorem ConcReach.touched {E : Env K} {X0 : ℕ → (ℕ → K) → Prop} {σ : Core K} (h : ConcReach E X0 σ)
    {ss : List (SS K)} (ht : Touched σ.states ss) : ConcReach E X0 { σ with states := ss } := by
  refine ⟨fun i st hi hc => ?_, h.te, h.conc, h.queue, h.rep⟩
  simp only at hi
  have hlt : i < σ.states.length := by rw [← ht.1]; exact lt_of_getElem? hi
  obtain ⟨lp, k1, k2, k3⟩ := ht.2 i _ (List.getElem?_eq_getElem hlt)
  rw [hi] at k1
  cases k1
  obtain ⟨c, hc'⟩ := h.st i _ (List.getElem?_eq_getElem hlt) hc
  exact ⟨c, hc'.withLp k2 k3⟩

theorem makeNode_concReach {E : Env K} {X0 : ℕ → (ℕ → K) → Prop} {σ σ' : Core K} (h : ConcReach E X0 σ)
    {ids : List ℕ} {at_ : Option AggType} {s : Option String} {nid : ℕ}
    (hn : makeNode E σ ids at_ s = .ok (σ', nid)) : ConcReach E X0 σ' := by
  simp only [makeNode, bind_ok, needSome_ok, pure_ok, Prod.mk.injEq] at hn
  obtain ⟨os, hos, sts, hsts, ⟨σ1, sid⟩, hns, st, hst, rfl, rfl⟩ := hn
  have fsts := mapM_needSome hsts
  have h1 : ConcReach E X0 σ1 := by
    unfold nodeState at hns
    split at hns
    · cases hns; exact h
    · simp only [bind_ok, needSome_ok, pure_ok, Prod.mk.injEq] at hns
      obtain ⟨at', -, ⟨σ2, st2⟩, hagg, rfl, rfl⟩ := hns
      obtain ⟨⟨ss, ht, rfl⟩, hc⟩ := aggregateOps_touched fsts hagg
      have h2 := h.touched ht
      refine ⟨fun i st hi hcon => ?_, h2.te, h2.conc, h2.queue, h2.rep⟩
      rcases append_inv hi with ⟨hi, -⟩ | ⟨-, rfl⟩
      · exact h2.st i st hi hcon
      · rw [hc] at hcon; cases hcon
  have h2 : ConcReach E X0 (σ1.setState sid { st with aggstr := s }) := by
    refine h1.setState fun hc => ?_
    obtain ⟨c, hc'⟩ := h1.st sid st hst hc
    exact ⟨c, hc'.aggstr s⟩
  exact ⟨h2.st, h2.te, h2.conc, h2.queue, h2.rep⟩

theorem ConcReach.pushAll {E : Env K} {X0 : ℕ → (ℕ → K) → Prop} (ν s : ℕ) : ∀ (qs : List (ℕ × Bool))
    {σ : Core K}, ConcReach E X0 σ →
    ConcReach E X0 (qs.foldl (fun σ q => σ.pushOp ν (.inv s q.1 q.2)) σ) ∧
    (qs.foldl (fun σ q => σ.pushOp ν (.inv s q.1 q.2)) σ).states = σ.states ∧
    (qs.foldl (fun σ q => σ.pushOp ν (.inv s q.1 q.2)) σ).cur = σ.cur
  | [], σ, h => ⟨h, rfl, rfl⟩
  | q :: qs, σ, h => by
    rw [List.foldl_cons]
    exact ConcReach.pushAll ν s qs (h.push ν _)

/-- **Intersection with the invariant** of the current state set. -/
theorem intersectCur_conc {E : Env K} (hE : E.Sound) {X0 : ℕ → (ℕ → K) → Prop} {σ σ' : Core K}
    (h : ConcReach E X0 σ) {c : ℕ × ℕ} (hc : σ.curState = some c) {st : SS K}
    (hst : σ.states[c.2]? = some st) {f : Bool} (hi : intersectCur E σ = .ok (σ', f)) :
    ConcReach E X0 σ' ∧ σ'.cur = σ.cur ∧ ∃ st', σ'.states[c.2]? = some st' ∧ st'.mode = st.mode ∧
      st'.stepIn = st.stepIn ∧ st'.steps = st.steps ∧ st'.concrete = st.concrete ∧
      (st.concrete = true → StConc E X0 st' (st.stepIn + 1)) := by
  simp only [intersectCur, bind_ok, needSome_ok, pure_ok, Prod.mk.injEq] at hi
  obtain ⟨c', hc', st0, hst0, m, hm, ⟨st', f', qs⟩, hii, rfl, -⟩ := hi
  rw [hc] at hc'; cases hc'
  rw [hst] at hst0; cases hst0
  have e := invLoop_like _ hii
  have hmode : st'.mode = st.mode := by rw [e]
  have hcon : st'.concrete = st.concrete := by rw [e]
  have hsi : st'.stepIn = st.stepIn := by rw [e]
  have hss : st'.steps = st.steps := by rw [e]
  have key : st.concrete = true → StConc E X0 st' (st.stepIn + 1) := by
    intro hcc m' hm' he
    rw [hmode, hm] at hm'
    cases hm'
    obtain ⟨cc, hcc'⟩ := h.st _ st hst hcc
    obtain ⟨X, n, a1, a2, a3, a4, a5, a6⟩ := hcc' m hm he
    have := a1.intersectInvariant hE.honest hE.tol (hE.dynFor _ _ hm he) (hE.plain _ _ hm he) a2 hii
    refine ⟨X, n, by rw [hmode]; exact this, by omega, by omega, by rw [hmode]; exact a4, ?_, ?_⟩
    · rw [hss, hsi]; exact a5
    · rw [hss]; exact a6
  have h1 : ConcReach E X0 (σ.setState c.2 st') := h.setState fun hcc => ⟨_, key (by rw [← hcon]; exact hcc)⟩
  obtain ⟨b1, b2, b3⟩ := ConcReach.pushAll c.1 st.stepIn qs h1
  refine ⟨b1, b3, st', ?_, hmode, hsi, hss, hcon, key⟩
  rw [b2]
  exact List.getElem?_set_self (lt_of_getElem? hst)

/-- **One step** of a state set inside the `ε`-relaxed invariant. -/
theorem stepState_conc {E : Env K} (hE : E.Sound) {X0 : ℕ → (ℕ → K) → Prop} {σ σ' : Core K}
    (h : ConcReach E X0 σ) {sid : ℕ} {st : SS K} (hst : σ.states[sid]? = some st) {m : Mode K}
    (hm : E.ha.modes[st.mode]? = some m) (he : m.isError = false)
    (hcon : st.concrete = true → StConc E X0 st (st.stepIn + 1)) (hb : st.steps.1 < E.set.numSteps)
    (hs : stepState E σ sid none = .ok σ') :
    ConcReach E X0 σ' ∧ σ'.cur = σ.cur ∧ σ'.nodes = σ.nodes ∧ ∃ st', σ'.states[sid]? = some st' ∧
      st'.mode = st.mode ∧ st'.stepIn = st.stepIn + 1 ∧ st'.concrete = st.concrete ∧
      (st.concrete = true → StConc E X0 st' (st.stepIn + 1)) := by
  simp only [stepState, bind_ok, needSome_ok, pure_ok] at hs
  obtain ⟨st0, hst0, m0, hm0, ⟨te, st'⟩, hss, rfl⟩ := hs
  rw [hst] at hst0; cases hst0
  rw [hm] at hm0; cases hm0
  have hd := hE.dynFor _ _ hm he
  have e := (step_like hss).1
  have hmode : st'.mode = st.mode := by rw [e]
  have hcc : st'.concrete = st.concrete := by rw [e]
  have hsi : st'.stepIn = st.stepIn + 1 := by rw [e]; rfl
  have hsteps : st'.steps.1 = st.steps.1 + 1 := by
    rw [e]; simp
  have hte : ∀ u, σ.te st.mode = some u → u.Inv (E.dyn st.mode) := fun u hu => h.te _ m u hm he hu
  have key : st.concrete = true → StConc E X0 st' (st.stepIn + 1) := by
    intro hc m' hm' he'
    rw [hmode, hm] at hm'
    cases hm'
    obtain ⟨X, n, a1, a2, a3, a4, a5, a6⟩ := hcon hc m hm he
    refine ⟨X, n, by rw [hmode]; exact a1.step hd hte hss, by omega, by omega,
      by rw [hmode]; exact a4, by omega, by omega⟩
  have h1 : ConcReach E X0 (σ.setState sid st') := h.setState fun hc => ⟨_, key (by rw [← hcc]; exact hc)⟩
  refine ⟨⟨h1.st, ?_, h1.conc, h1.queue, h1.rep⟩, rfl, rfl, st',
    List.getElem?_set_self (lt_of_getElem? hst), hmode, hsi, hcc, key⟩
  intro i m' u hm' he' hu
  simp only at hu
  by_cases hi : i = st.mode
  · subst hi
    rw [Function.update_self] at hu
    exact SS.step_te hd.laws hte hss u hu
  · rw [Function.update_of_ne hi] at hu
    exact h.te i m' u hm' he' hu

theorem checkGuards_conc {E : Env K} (hE : E.Sound) (hM : MinkOk E) {X0 : ℕ → (ℕ → K) → Prop}
    {σ σ' : Core K} (h : ConcReach E X0 σ) {c : ℕ × ℕ} (hc : σ.curState = some c) {st : SS K}
    (hst : σ.states[c.2]? = some st) {m : Mode K} (hm : E.ha.modes[st.mode]? = some m)
    (he : m.isError = false) {cc : ℕ} (hcon : st.concrete = true → StConc E X0 st cc)
    (hz : st.stepIn = 0 → E.set.urgent = true ∧ cc = 1) (hg : checkGuards E σ = .ok σ') :
    ConcReach E X0 σ' := by
  simp only [checkGuards, bind_ok, needSome_ok] at hg
  obtain ⟨c', hc', st0, hst0, ts, hts, hg⟩ := hg
  rw [hc] at hc'; cases hc'
  rw [hst] at hst0; cases hst0
  refine guardLoop_conc hE hM hm he hts ts (fun _ h => h) h ?_ hg
  intro st1 h1 hc1
  rw [hst] at h1; cases h1
  exact ⟨rfl, cc, hcon hc1, hz⟩

theorem leftInvariant_conc {E : Env K} {X0 : ℕ → (ℕ → K) → Prop} {σ σ' : Core K} (h : ConcReach E X0 σ)
    {b : Bool} (hl : σ.leftInvariant b = .ok σ') : ConcReach E X0 σ' := by
  simp only [Core.leftInvariant, bind_ok, needSome_ok, pure_ok] at hl
  obtain ⟨c, -, st, -, rfl⟩ := hl
  have := h.push c.1 (.left st.stepIn b)
  exact ⟨this.st, this.te, this.conc, this.queue, this.rep⟩

/-- The current state set stays where it is. -/
theorem curState_kept {σ σ' : Core K} {c c' : ℕ × ℕ} (hc : σ.curState = some c)
    (hc' : σ'.curState = some c') (hcur : σ'.cur = σ.cur) (hm : Milds true σ σ') : c' = c := by
  obtain ⟨a1, nd, a2, a3, -⟩ := curState_inv hc
  obtain ⟨b1, nd', b2, b3, -⟩ := curState_inv hc'
  have e : c'.1 = c.1 := by
    rw [hcur, a1] at b1
    exact (Option.some.inj b1).symm
  obtain ⟨l, hl⟩ := hm.node a2
  rw [e] at b2
  rw [hl] at b2
  cases b2
  exact Prod.ext e (b3.symm.trans a3)

theorem stepPost_conc {E : Env K} (hE : E.Sound) (hM : MinkOk E) {X0 : ℕ → (ℕ → K) → Prop}
    {σ σ' : Core K} (h : ConcReach E X0 σ) (hs : stepPost E σ = .ok σ') : ConcReach E X0 σ' := by
  simp only [stepPost, bind_ok, needSome_ok] at hs
  obtain ⟨c, hc, st, hst, hs⟩ := hs
  split at hs
  · cases hs; exact h
  split at hs
  · exact leftInvariant_conc h hs
  rename_i hlt
  split at hs
  · refine leftInvariant_conc (σ := { σ with tookTt := false }) ?_ hs
    exact ⟨h.st, h.te, h.conc, h.queue, h.rep⟩
  simp only [bind_ok] at hs
  obtain ⟨⟨σ1, f⟩, h1, hs⟩ := hs
  obtain ⟨i1, i2, st1, i3, i4, i5, i6, i7, i8⟩ := intersectCur_conc hE h hc hst h1
  simp only at hs
  split at hs
  · exact leftInvariant_conc i1 hs
  simp only [bind_ok, needSome_ok] at hs
  obtain ⟨σ2, h2, σ3, h3, m, hm, a, ha, hs⟩ := hs
  have he : m.isError = false := by unfold Mode.isError; rw [ha]; rfl
  obtain ⟨j1, j2, j3, st2, j4, j5, j6, j7, j8⟩ := stepState_conc hE i1 i3 (by rw [i4]; exact hm) he
    (fun hcc => by rw [i5]; exact i8 (by rw [← i7]; exact hcc)) (by rw [i6]; omega) h2
  have h3' := h3
  simp only [checkGuards, bind_ok, needSome_ok] at h3'
  obtain ⟨c', hc', -⟩ := h3'
  have hce : c' = c := curState_kept hc hc' (j2.trans i2)
    ((intersectCur_mild h1).trans (stepState_mild h2))
  subst hce
  have k := checkGuards_conc hE hM j1 hc' j4 (m := m) (by rw [j5, i4]; exact hm) he
    (cc := st1.stepIn + 1) (fun hcc => j8 (by rw [← j7]; exact hcc)) (by omega) h3
  split at hs
  · exact leftInvariant_conc k hs
  · cases hs; exact k

theorem popWaiting_conc {E : Env K} {X0 : ℕ → (ℕ → K) → Prop} {σ σ' : Core K} (h : ConcReach E X0 σ)
    (hp : popWaiting E σ = .ok σ') : ConcReach E X0 σ' := by
  simp only [popWaiting, bind_ok, assert_ok, pure_ok] at hp
  obtain ⟨items, -, l1, -, l, -, _, -, at_, -, ⟨σ1, nid⟩, hn, rfl⟩ := hp
  have h1 : ConcReach E X0 ({ σ with waiting := (σ.waiting.filter fun o =>
      !(l.map fun w => w.oid).contains o) } : Core K) := ⟨h.st, h.te, h.conc, h.queue, h.rep⟩
  have := makeNode_concReach h1 hn
  exact ⟨this.st, this.te, this.conc, this.queue, this.rep⟩

/-- Popping; with urgent transitions the guards are checked at once. -/
theorem pop_conc {E : Env K} (hE : E.Sound) (hM : MinkOk E) {X0 : ℕ → (ℕ → K) → Prop}
    {σ σ1 σ' : Core K} (h : ConcReach E X0 σ) (hp : stepPop E σ = .ok σ1)
    (hs : (if E.set.urgent && σ1.curState.isSome then checkGuards E σ1 else .ok σ1) = .ok σ') :
    ConcReach E X0 σ' := by
  simp only [stepPop, bind_ok, needSome_ok] at hp
  obtain ⟨τ, hτ, c, hc, st, hst, m, hm, hp⟩ := hp
  have h1 := popWaiting_conc h hτ
  have left : ∀ {τ' : Core K} {b}, ConcReach E X0 τ' → τ'.leftInvariant b = .ok σ1 → ConcReach E X0 σ' := by
    intro τ' b hi hl
    have hi' := leftInvariant_conc hi hl
    have : σ1.curState = none := by
      simp only [Core.leftInvariant, bind_ok, needSome_ok, pure_ok] at hl
      obtain ⟨c, -, st, -, rfl⟩ := hl
      rfl
    rw [this] at hs
    simp only [Option.isSome_none, Bool.and_false, Bool.false_eq_true, if_false] at hs
    cases hs; exact hi'
  split at hp
  · exact left h1 hp
  rename_i he
  simp only [bind_ok] at hp
  obtain ⟨⟨τ2, f⟩, h2, hp⟩ := hp
  obtain ⟨i1, i2, st1, i3, i4, i5, i6, i7, i8⟩ := intersectCur_conc hE h1 hc hst h2
  simp only at hp
  split at hp
  · obtain rfl := approxCur_none hE.noApprox hp
    split at hs
    · rename_i hu
      rw [Bool.and_eq_true] at hu
      have h3' := hs
      simp only [checkGuards, bind_ok, needSome_ok] at h3'
      obtain ⟨c', hc', -⟩ := h3'
      have hce : c' = c := curState_kept hc hc' i2 (intersectCur_mild h2)
      subst hce
      refine checkGuards_conc hE hM i1 hc' i3 (m := m) (by rw [i4]; exact hm) (by simpa using he)
        (cc := st.stepIn + 1) (fun hcc => i8 (by rw [← i7]; exact hcc)) (fun _ => ⟨hu.1, by omega⟩) hs
    · cases hs; exact i1
  · exact left i1 hp

theorem doStep_conc {E : Env K} (hE : E.Sound) (hM : MinkOk E) (hd : ¬ E.deaggOn)
    {X0 : ℕ → (ℕ → K) → Prop} {σ σ' : Core K} (h : ConcReach E X0 σ) (hs : doStep E σ = .ok σ') :
    ConcReach E X0 σ' := by
  unfold doStep at hs
  split at hs
  · cases hs; exact h
  split at hs
  · exact stepPost_conc hE hM h hs
  split at hs
  · rename_i hdr
    unfold Core.doingReplay at hdr
    rw [h.queue, h.rep] at hdr; cases hdr
  · rw [getDeagg_off hd] at hs
    simp only [bind_ok] at hs
    obtain ⟨dg, hdg, hs⟩ := hs
    cases hdg
    simp only [bind_ok] at hs
    obtain ⟨σ1, h1, h2⟩ := hs
    exact pop_conc hE hM h h1 h2

theorem runSteps_conc {E : Env K} (hE : E.Sound) (hM : MinkOk E) (hd : ¬ E.deaggOn)
    {X0 : ℕ → (ℕ → K) → Prop} : ∀ (n : ℕ) {σ σ' : Core K}, ConcReach E X0 σ →
    runSteps E n σ = .ok σ' → ConcReach E X0 σ'
  | 0, σ, σ', h, hs => by cases hs; exact h
  | n + 1, σ, σ', h, hs => by
    simp only [runSteps, bind_ok] at hs
    obtain ⟨σ1, h1, h2⟩ := hs
    exact runSteps_conc hE hM hd n (doStep_conc hE hM hd h h1) h2

/-- The initial sets. -/
theorem setupStates_concReach {E : Env K} (hE : E.Sound) {X0 : ℕ → (ℕ → K) → Prop} : ∀ (l : List (SS K))
    {σ σ' : Core K}, (∀ st ∈ l, InitOk E st) → (∀ st ∈ l, ∀ x, st.lp.Mem x → X0 st.mode x) →
    ConcReach E X0 σ → setupStates E σ l = .ok σ' → ConcReach E X0 σ'
  | [], σ, σ', _, _, h, hs => by cases hs; exact h
  | st :: l, σ, σ', hl, hX, h, hs => by
    have hst := hl st (by simp)
    have hl' : ∀ st ∈ l, InitOk E st := fun s hs => hl s (by simp [hs])
    have hX' : ∀ st ∈ l, ∀ x, st.lp.Mem x → X0 st.mode x := fun s hs => hX s (by simp [hs])
    simp only [setupStates, bind_ok, needSome_ok] at hs
    obtain ⟨m, hm, ⟨lp1, f⟩, hf, hs⟩ := hs
    obtain ⟨m', hm', herr⟩ := hst.mode
    rw [hm] at hm'; cases hm'
    simp only at hs
    split at hs
    · exact setupStates_concReach hE l hl' hX' h hs
    simp only [bind_ok] at hs
    obtain ⟨⟨st1, f1, qs⟩, hii, hs⟩ := hs
    simp only at hs
    split at hs
    · exact setupStates_concReach hE l hl' hX' h hs
    refine setupStates_concReach hE l hl' hX' (σ := _) ?_ hs
    obtain ⟨hk, hko, -⟩ := isFeasible_spec hE.honest hf hst.entry.obj
    obtain ⟨-, k3⟩ := hst.entry.ok m hm herr
    have k4 : ({ st with lp := lp1 } : SS K).Hi m (E.dyn st.mode) st.lp.Mem E.T.inter 0 :=
      (k3.withLp hk hko).toHi
    have hd := hE.dynFor _ _ hm herr
    have hz : st.stepIn = 0 := hst.entry.zero
    have k5 := k4.intersectInvariant hE.honest hE.tol hd (hE.plain _ _ hm herr) (by simp [hz]) hii
    have k6 : st1.Hi m (E.dyn st.mode) st.lp.Mem E.T.inter 1 := by
      have : ({ st with lp := lp1 } : SS K).stepIn + 1 = 1 := by simp [hz]
      rw [← this]; exact k5
    have e := invLoop_like _ hii
    have hmode : st1.mode = st.mode := by rw [e]
    have hz1 : st1.stepIn = 0 := by rw [e]; exact hz
    have hsteps : st1.steps.1 = 0 := by rw [e]; exact hst.steps
    have hpost : ({ st1 with invRows := m.inv.map fun _ => none } : SS K).concrete = true → ∃ c,
        StConc E X0 { st1 with invRows := m.inv.map fun _ => none } c := by
      intro _
      refine ⟨0, fun m' hm' he => ?_⟩
      have hm2 : E.ha.modes[st1.mode]? = some m' := hm'
      rw [hmode, hm] at hm2; cases hm2
      refine ⟨fun x => st.lp.Mem x ∧ InvEps E.T.inter m x, 0, ?_, hz1.le, Nat.zero_le _, ?_, ?_, ?_⟩
      · show SS.Hi m (E.dyn st1.mode) _ _ _ _
        rw [show E.dyn st1.mode = E.dyn st.mode by rw [hmode]]
        exact k6.absorb hd
      · rintro x ⟨h1, h2⟩
        show E.hyb.Reach E.T.inter X0 st1.mode x 0
        rw [hmode]
        exact .init (hX st (by simp) x h1) hm h2
      · show st1.steps.1 = 0 + st1.stepIn
        omega
      · show st1.steps.1 ≤ _
        omega
    have := h.addOp hpost { step := 0, parent := none, child := none, trans := none, post := 0 }
    exact ⟨this.st, this.te, this.conc, this.queue, this.rep⟩

theorem setup_concReach {E : Env K} (hE : E.Sound) {init : List (SS K)} (hi : ∀ st ∈ init, InitOk E st)
    {σ : Core K} (h : setup E init = .ok σ) : ConcReach E (InitSet init) σ := by
  simp only [setup, bind_ok, assert_ok, need_ok, pure_ok] at h
  obtain ⟨_, -, σ1, h1, _, -, rfl⟩ := h
  refine setupStates_concReach hE init hi (fun st hs x hx => ⟨st, hs, rfl, hx⟩) (σ := {}) ?_ h1
  refine ⟨?_, ?_, ?_, rfl, rfl⟩ <;> intros <;> simp_all

end Hylaa
