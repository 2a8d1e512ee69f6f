import Verif.Proofs.CeRun

/-! The invariant for C35: the main loop without replay, and the initial sets. -/

set_option linter.unusedSectionVars false

namespace Hylaa
open Spec
variable {K : Type} [Field K] [LinearOrder K] [IsStrictOrderedRing K]

theorem stepPost_wit {E : Env K} (hE : E.Base) (hids : E.ha.Ids) {P : Prop} (hP : P → E.Sound)
    {X0 : ℕ → (ℕ → K) → Prop} {σ σ' : Core K} (h : WitInv E P X0 σ) (hs : stepPost E σ = .ok σ') :
    WitInv E P X0 σ' := by
  simp only [stepPost, bind_ok, needSome_ok] at hs
  obtain ⟨c, hc, st, hst, hs⟩ := hs
  split at hs
  · cases hs; exact h
  split at hs
  · exact leftInvariant_wit h hs
  rename_i hlt
  split at hs
  · exact leftInvariant_wit (h.misc σ.cur false) hs
  simp only [bind_ok] at hs
  obtain ⟨⟨σ1, f⟩, h1, hs⟩ := hs
  obtain ⟨i1, i2, st1, i3, i4, i5, i6, i7⟩ := intersectCur_wit hE hP h hc hst h1
  simp only at hs
  split at hs
  · exact leftInvariant_wit i1 hs
  simp only [bind_ok, needSome_ok] at hs
  obtain ⟨σ2, h2, σ3, h3, m, hm, a, ha, hs⟩ := hs
  have he : m.isError = false := by unfold Mode.isError; rw [ha]; rfl
  obtain ⟨j1, j2, j3, st2, j4, j5, j6, j7, j8⟩ := stepState_wit hE i1 i3
    (fun hp hcc => ⟨rfl, by
      obtain ⟨cc, k1, k2⟩ := i7 (by rw [← i6]; exact hcc)
      rw [i5, ← k2 hp]; exact k1⟩) h2
  have h3' := h3
  simp only [checkGuards, bind_ok, needSome_ok] at h3'
  obtain ⟨c', hc', -⟩ := h3'
  have hce : c' = c := curState_kept hc hc' (j2.trans i2)
    ((intersectCur_mild h1).trans (stepState_mild h2))
  subst hce
  have k := checkGuards_wit hE hids hP j1 hc' j4 (m := m) (by rw [j5, i4]; exact hm) he
    (fun hcc => by
      obtain ⟨cc, k⟩ := j8 (by rw [← j7]; exact hcc)
      refine ⟨cc, k, fun _ h0 => ?_⟩
      rw [j6] at h0
      simp at h0) h3
  split at hs
  · exact leftInvariant_wit k hs
  · cases hs; exact k

theorem makeNode_wit {E : Env K} {P : Prop} {X0 : ℕ → (ℕ → K) → Prop} {σ σ' : Core K}
    (h : WitInv E P X0 σ) {ids : List ℕ} {at_ : Option AggType} {s : Option String} {nid : ℕ}
    (hn : makeNode E σ ids at_ s = .ok (σ', nid)) {i : ℕ} (hi : ∀ o ∈ ids, σ.pmode o = some i) :
    WitInv E P X0 σ' ∧ σ'.nmode nid = some i ∧ σ'.queue = σ.queue ∧ σ'.rep = σ.rep := by
  have hmi := makeNode_modeInv h.mode hn hi
  have hmic : Micros E σ σ' := .single (.node hn)
  have hk := hmic.keep
  have hh := hmic.heapWit h.heap
  simp only [makeNode, bind_ok, needSome_ok, pure_ok, Prod.mk.injEq] at hn
  obtain ⟨os, hos, sts, hsts, ⟨σ1, sid⟩, hns, st, hst, rfl, rfl⟩ := hn
  have fsts := mapM_needSome hsts
  have h1 : (∀ (i : ℕ) st, σ1.states[i]? = some st → st.concrete = true → ∃ c, StWit E P X0 σ st c) ∧
      σ1.te = σ.te ∧ σ1.ce = σ.ce ∧ σ1.hasConc = σ.hasConc ∧ σ1.queue = σ.queue ∧ σ1.rep = σ.rep := by
    unfold nodeState at hns
    split at hns
    · cases hns; exact ⟨h.st, rfl, rfl, rfl, rfl, rfl⟩
    · simp only [bind_ok, needSome_ok, pure_ok, Prod.mk.injEq] at hns
      obtain ⟨at', -, ⟨σ2, st2⟩, hagg, rfl, rfl⟩ := hns
      obtain ⟨⟨ss, ht, rfl⟩, hc⟩ := aggregateOps_touched fsts hagg
      refine ⟨fun i st hi hcon => ?_, rfl, rfl, rfl, rfl, rfl⟩
      rcases append_inv hi with ⟨hi, -⟩ | ⟨-, rfl⟩
      · simp only at hi
        have hlt : i < σ.states.length := by rw [← ht.1]; exact lt_of_getElem? hi
        obtain ⟨lp, k1, k2, k3⟩ := ht.2 i _ (List.getElem?_eq_getElem hlt)
        rw [hi] at k1
        cases k1
        obtain ⟨c, hc'⟩ := h.st i _ (List.getElem?_eq_getElem hlt) hcon
        exact ⟨c, hc'.kept ⟨k2, k3⟩⟩
      · rw [hc] at hcon; cases hcon
  obtain ⟨g1, g2, g3, g4, g5, g6⟩ := h1
  refine ⟨⟨hh, hmi.1, fun i s' hi hc => ?_, ?_, ?_, ?_, ?_⟩, hmi.2, g5, g6⟩
  · have hi' : (σ1.states.set sid { st with aggstr := s })[i]? = some s' := hi
    by_cases hki : sid = i
    · subst hki
      rw [List.getElem?_set_self (lt_of_getElem? hst)] at hi'
      cases hi'
      obtain ⟨c, hw⟩ := g1 sid st hst hc
      exact ⟨c, (hw.aggstr s).keep hk⟩
    · rw [List.getElem?_set_ne hki] at hi'
      obtain ⟨c, hw⟩ := g1 i s' hi' hc
      exact ⟨c, hw.keep hk⟩
  · intro i m u hm he hu
    exact h.te i m u hm he (by rw [← g2]; exact hu)
  · show σ1.ce ≠ [] → IsTrace _ _ _ _ σ1.ce
    rw [g3]; exact h.ce
  · show σ1.hasConc = true → _ → σ1.ce ≠ []
    rw [g3, g4]; exact h.has
  · show P → σ1.queue = [] ∧ σ1.rep = none
    rw [g5, g6]; exact h.nr

theorem WitInv.unwait {E : Env K} {P : Prop} {X0 : ℕ → (ℕ → K) → Prop} {σ : Core K}
    (h : WitInv E P X0 σ) (p : ℕ → Bool) : WitInv E P X0 { σ with waiting := σ.waiting.filter p } :=
  h.upd (.single (.unwait σ p)) (h.mode.same (Micros.mkeep (E := E) (.single (.unwait σ p))) rfl rfl) (fun _ _ h _ => .inl h) rfl rfl rfl fun _ => ⟨rfl, rfl⟩

theorem compatible_mode {E : Env K} {σ : Core K} {s : AggStrat}
    {a b : WaitItem K} (ha : waitItem E σ a.oid = .ok a) (hb : waitItem E σ b.oid = .ok b)
    (h : compatible s a b = true) : b.st.mode = a.st.mode := by
  obtain ⟨-, a1, a2, -⟩ := waitItem_ok ha
  obtain ⟨-, b1, b2, -⟩ := waitItem_ok hb
  unfold compatible at h
  simp only [Bool.or_eq_true, decide_eq_true_eq, Bool.and_eq_true, Bool.not_eq_true'] at h
  rcases h with h | ⟨h1, h2⟩
  · rw [h, a2] at b2
    rw [← Option.some.inj b2]
  · exact h1

/-- The operations popped together lead to the same mode. -/
theorem popped_mode {E : Env K} {σ : Core K} {items l1 l : List (WaitItem K)}
    (hitems : σ.waiting.mapM (waitItem E σ) = .ok items) (hl1 : stratPop E items = .ok l1)
    (hl : restrictPop E l1 = .ok l) : ∃ i, ∀ o ∈ l.map (fun w => w.oid), σ.pmode o = some i := by
  obtain ⟨o1, o2⟩ := waitItems_oids hitems
  obtain ⟨s1, s2, s3, s4⟩ := stratPop_spec hl1
  obtain ⟨r1, r2, r3⟩ := restrictPop_spec hl
  have hitem : ∀ w ∈ l1, waitItem E σ w.oid = .ok w := fun w hw => o2 w (s1.subset hw)
  have key : ∃ i, ∀ w ∈ l1, w.st.mode = i := by
    cases hs : E.set.strat with
    | none =>
      obtain ⟨w', hw'⟩ := s3 hs
      refine ⟨w'.st.mode, fun w hw => ?_⟩
      rw [hw'] at hw
      rw [List.mem_singleton.1 hw]
    | some s =>
      obtain ⟨best, hb1, hb2⟩ := s4 s hs
      exact ⟨best.st.mode, fun w hw => compatible_mode (hitem best hb1) (hitem w hw) (hb2 w hw)⟩
  obtain ⟨i, hi⟩ := key
  refine ⟨i, fun o ho => ?_⟩
  obtain ⟨w, hw, rfl⟩ := List.mem_map.1 ho
  obtain ⟨-, w1, w2, -⟩ := waitItem_ok (hitem w (r1.subset hw))
  rw [pmode_of w1, smode_of w2, hi w (r1.subset hw)]

theorem popWaiting_wit {E : Env K} {P : Prop} {X0 : ℕ → (ℕ → K) → Prop} {σ σ' : Core K}
    (h : WitInv E P X0 σ) (hp : popWaiting E σ = .ok σ') : WitInv E P X0 σ' ∧ σ'.queue = σ.queue ∧
      σ'.rep = σ.rep := by
  simp only [popWaiting, bind_ok, assert_ok, pure_ok] at hp
  obtain ⟨items, hitems, l1, hl1, l, hl, _, -, at_, -, ⟨σ1, nid⟩, hn, rfl⟩ := hp
  obtain ⟨i, hi⟩ := popped_mode hitems hl1 hl
  obtain ⟨a, -, b, c⟩ := makeNode_wit (h.unwait _) hn (i := i) hi
  exact ⟨a.misc (some nid) σ1.tookTt, b, c⟩

theorem pop_wit {E : Env K} (hE : E.Base) (hids : E.ha.Ids) {P : Prop} (hP : P → E.Sound)
    {X0 : ℕ → (ℕ → K) → Prop} {σ σ1 σ' : Core K} (h : WitInv E P X0 σ) (hp : stepPop E σ = .ok σ1)
    (hs : (if E.set.urgent && σ1.curState.isSome then checkGuards E σ1 else .ok σ1) = .ok σ') :
    WitInv E P X0 σ' := by
  simp only [stepPop, bind_ok, needSome_ok] at hp
  obtain ⟨τ, hτ, c, hc, st, hst, m, hm, hp⟩ := hp
  have h1 := (popWaiting_wit h hτ).1
  have left : ∀ {τ' : Core K} {b}, WitInv E P X0 τ' → τ'.leftInvariant b = .ok σ1 → WitInv E P X0 σ' := by
    intro τ' b hi hl
    have hi' := leftInvariant_wit hi hl
    have : σ1.curState = none := by
      simp only [Core.leftInvariant, bind_ok, needSome_ok, pure_ok] at hl
      obtain ⟨c, -, st, -, rfl⟩ := hl
      rfl
    rw [this] at hs
    simp only [Option.isSome_none, Bool.and_false, Bool.false_eq_true, if_false] at hs
    cases hs; exact hi'
  split at hp
  · exact left h1 hp
  rename_i he
  simp only [bind_ok] at hp
  obtain ⟨⟨τ2, f⟩, h2, hp⟩ := hp
  obtain ⟨i1, i2, st1, i3, i4, i5, i7, i8⟩ := intersectCur_wit hE hP h1 hc hst h2
  simp only at hp
  split at hp
  · obtain rfl := approxCur_none hE.noApprox hp
    split at hs
    · rename_i hu
      rw [Bool.and_eq_true] at hu
      have h3' := hs
      simp only [checkGuards, bind_ok, needSome_ok] at h3'
      obtain ⟨c', hc', -⟩ := h3'
      have hce : c' = c := curState_kept hc hc' i2 (intersectCur_mild h2)
      subst hce
      refine checkGuards_wit hE hids hP i1 hc' i3 (m := m) (by rw [i4]; exact hm) (by simpa using he)
        (fun hcc => ?_) hs
      obtain ⟨cc, k1, k2⟩ := i8 (by rw [← i7]; exact hcc)
      exact ⟨cc, k1, fun hp h0 => ⟨hu.1, by rw [k2 hp]; omega⟩⟩
    · cases hs; exact i1
  · exact left i1 hp

/-! ### Initial sets -/

/-- The column names of a new instance for mode `st.mode`, as `from_box`, `from_zonotope` and
`from_constraints` choose them. -/
def NamesOk (E : Env K) (st : SS K) : Prop :=
  ∀ m, E.ha.modes[st.mode]? = some m → ∃ w, 0 < w ∧
    st.lp.names = (List.range w).map (fun d => s!"m{m.id}_i{d}") ++
      ((List.range st.lp.dims).map (fun d => s!"m{m.id}_c{d}") ++
      (if m.inputs.isSome then (List.range st.lp.dims).map (fun d => s!"m{m.id}_ti{d}") else [])) ∧
    st.lp.bmPos.2 = 0 ∧ st.lp.cur = w

theorem namesOf_first {d : Dyn K} {mode : ℕ} {m : Mode K} {w : ℕ} (hw : 0 < w) :
    namesOf [curBlk d mode m none w 0] = (List.range w).map (fun d => s!"m{m.id}_i{d}") ++
      ((List.range d.dims).map (fun d => s!"m{m.id}_c{d}") ++
      (if m.inputs.isSome then (List.range d.dims).map (fun d => s!"m{m.id}_ti{d}") else [])) := by
  obtain ⟨w, rfl⟩ : ∃ k, w = k + 1 := ⟨w - 1, by omega⟩
  rw [namesOf_single]
  unfold Blk.names Blk.head curBlk
  simp only [Nat.add_sub_cancel, ite_self, List.range_zero, List.map_nil, List.append_nil]
  have h0 : insNames m.id d.inputs 0 = [] := by simp [insNames]
  rw [h0, List.append_nil, List.range_succ_eq_map, List.map_cons, List.map_map]
  rfl

/-- A new state set, as processed by `setup`. -/
theorem initial_wit {E : Env K} (hE : E.Base) (hids : E.ha.Ids) {P : Prop} (hP : P → E.Sound)
    {X0 : ℕ → (ℕ → K) → Prop} {st st1 : SS K} (hst : InitOk E st) (hn : NamesOk E st)
    (hol : st.opList = []) (hX : ∀ x, st.lp.Mem x → X0 st.mode x) {m : Mode K}
    (hm : E.ha.modes[st.mode]? = some m) {lp1 : Lp K} {b : Bool} (hf : isFeasible E.S st.lp = .ok (lp1, b))
    {f : Bool} {qs : List (ℕ × Bool)}
    (hi : SS.intersectInvariant E.S E.T m { st with lp := lp1 } = .ok (st1, f, qs)) (σ : Core K) :
    StWit E P X0 σ { st1 with invRows := m.inv.map fun _ => none } 0 := by
  obtain ⟨m', hm', herr⟩ := hst.mode
  rw [hm] at hm'; cases hm'
  obtain ⟨hk, hko, -⟩ := isFeasible_spec hE.honest hf hst.entry.obj
  obtain ⟨hdim, k3⟩ := hst.entry.ok m hm herr
  have k4 : ({ st with lp := lp1 } : SS K).Hi m (E.dyn st.mode) st.lp.Mem E.T.inter 0 :=
    (k3.withLp hk hko).toHi
  have hd := hE.dynFor _ _ hm herr
  have hz : st.stepIn = 0 := hst.entry.zero
  have k5 := k4.invLoop hE.honest hE.tol hd (fun _ h => h) hi
  have e := invLoop_like _ hi
  obtain ⟨lp', rows', rfl⟩ : ∃ lp' rows', st1 = { st with lp := lp', invRows := rows' } := ⟨_, _, e⟩
  have hgrow : lp1.Grow lp'.toSys [] := by
    obtain ⟨ρ, hsh, -⟩ := k4
    exact invLoop_grow hE.honest hd m.inv (fun _ h => h) hsh hi
  rw [hk] at hgrow
  intro m' hm' he
  have hm2 : E.ha.modes[st.mode]? = some m' := hm'
  rw [hm] at hm2; cases hm2
  have k6 : ({ st with lp := lp', invRows := m.inv.map fun _ => none } : SS K).Hi m (E.dyn st.mode)
      st.lp.Mem E.T.inter 0 := by
    obtain ⟨ρ, h1, h2⟩ := k5
    refine ⟨ρ, ⟨h1.repr, h1.obj, ?_, h1.lgg, h1.basis, h1.n, h1.B, h1.Ns, h1.ies, h1.m⟩, h2⟩
    intro i r hr
    simp only [List.getElem?_map] at hr
    cases hq : m.inv[i]? <;> rw [hq] at hr <;> cases hr
  have k7 := k6
  obtain ⟨ρ, h1, h2⟩ := k7
  obtain ⟨w, hw, hnm, hb, hc⟩ := hn m hm
  refine ⟨⟨ρ, h1, fun y v hp => ⟨trivial, (h2 y v hp).2⟩⟩, fun _ => ⟨hz.le, Nat.zero_le _⟩, [], none, w, ?_,
    .inl ⟨hol, rfl⟩⟩
  have hnames : lp'.names = namesOf ([] ++ [curBlk (E.dyn st.mode) st.mode m none w st.stepIn]) := by
    rw [hgrow.names, List.append_nil, hnm, hz, hdim, List.nil_append, namesOf_first hw]
  have hbm : lp'.bmPos = st.lp.bmPos := hgrow.same.bmPos
  have hcur : lp'.cur = st.lp.cur := hgrow.same.cur
  refine ⟨hnames, ?_, ?_, ?_, ?_, ?_⟩
  · show lp'.bmPos.2 = _
    rw [hbm, hb]; rfl
  · show lp'.cur = lp'.bmPos.2 + w
    rw [hbm, hb, hcur, hc]; omega
  · intro b hb'
    simp only [List.nil_append, List.mem_singleton] at hb'
    subst hb'
    refine ⟨hw, fun hk => ?_, ?_⟩
    · have : st.stepIn = 0 := hz
      simp [curBlk, this] at hk
    · exact hids.find hm
  · exact ⟨rfl, trivial⟩
  · intro v hv y hy
    refine ⟨⟨by simp [segsOf], by simp [segsOf], by simp [segsOf]⟩, fun _ => ?_, by simp [segsOf]⟩
    have hp : ρ.P y fun k c => v (lp'.inBase + ρ.m * k + c) := by
      refine (h1.repr.par _ _).2 ⟨v, hv, fun j hj => ?_, fun _ _ _ _ => rfl⟩
      exact (hy j (by rw [h1.repr.n]; exact hj)).symm
    exact hX y (h2 y _ hp).1

theorem setupStates_wit {E : Env K} (hE : E.Base) (hids : E.ha.Ids) {P : Prop} (hP : P → E.Sound)
    {X0 : ℕ → (ℕ → K) → Prop} : ∀ (l : List (SS K)) {σ σ' : Core K},
    (∀ st ∈ l, InitOk E st ∧ NamesOk E st ∧ st.opList = []) →
    (∀ st ∈ l, ∀ x, st.lp.Mem x → X0 st.mode x) →
    (∀ (sid : ℕ) st, σ.states[sid]? = some st → ∀ σ0, ∃ c, StWit E P X0 σ0 st c) →
    setupStates E σ l = .ok σ' →
    (∀ (sid : ℕ) st, σ'.states[sid]? = some st → ∀ σ0, ∃ c, StWit E P X0 σ0 st c) ∧
      σ' = { σ with states := σ'.states, ops := σ'.ops, waiting := σ'.waiting }
  | [], σ, σ', _, _, h, hs => by cases hs; exact ⟨h, rfl⟩
  | st :: l, σ, σ', hl, hX, h, hs => by
    obtain ⟨hst, hn, hol⟩ := hl st (by simp)
    have hl' : ∀ st ∈ l, InitOk E st ∧ NamesOk E st ∧ st.opList = [] := fun s hs => hl s (by simp [hs])
    have hX' : ∀ st ∈ l, ∀ x, st.lp.Mem x → X0 st.mode x := fun s hs => hX s (by simp [hs])
    simp only [setupStates, bind_ok, needSome_ok] at hs
    obtain ⟨m, hm, ⟨lp1, f⟩, hf, hs⟩ := hs
    simp only at hs
    split at hs
    · exact setupStates_wit hE hids hP l hl' hX' h hs
    simp only [bind_ok] at hs
    obtain ⟨⟨st1, f1, qs⟩, hii, hs⟩ := hs
    simp only at hs
    split at hs
    · exact setupStates_wit hE hids hP l hl' hX' h hs
    obtain ⟨a, b⟩ := setupStates_wit hE hids hP l hl' hX' (fun sid s hsid σ0 => by
      rcases append_inv hsid with ⟨hsid, -⟩ | ⟨-, rfl⟩
      · exact h sid s hsid σ0
      · exact ⟨0, initial_wit hE hids hP hst hn hol (hX st (by simp)) hm hf hii σ0⟩) hs
    exact ⟨a, b⟩

theorem setupStates_root {E : Env K} : ∀ (l : List (SS K)) {σ σ' : Core K},
    (∀ (o : ℕ) op, σ.ops[o]? = some op → op.parent = none) → setupStates E σ l = .ok σ' →
    ∀ (o : ℕ) op, σ'.ops[o]? = some op → op.parent = none
  | [], σ, σ', h, hs => by cases hs; exact h
  | st :: l, σ, σ', h, hs => by
    simp only [setupStates, bind_ok, needSome_ok] at hs
    obtain ⟨m, hm, ⟨lp1, f⟩, hf, hs⟩ := hs
    simp only at hs
    split at hs
    · exact setupStates_root l h hs
    simp only [bind_ok] at hs
    obtain ⟨⟨st1, f1, qs⟩, hii, hs⟩ := hs
    simp only at hs
    split at hs
    · exact setupStates_root l h hs
    refine setupStates_root l ?_ hs
    intro o op ho
    rcases append_inv ho with ⟨ho, -⟩ | ⟨-, rfl⟩
    · exact h o op ho
    · rfl

theorem setup_wit {E : Env K} (hE : E.Base) (hids : E.ha.Ids) {P : Prop} (hP : P → E.Sound)
    {init : List (SS K)} (hi : ∀ st ∈ init, InitOk E st ∧ NamesOk E st ∧ st.opList = []) {σ : Core K}
    (h : setup E init = .ok σ) : WitInv E P (InitSet init) σ := by
  simp only [setup, bind_ok, assert_ok, need_ok, pure_ok] at h
  obtain ⟨_, -, σ1, h1, _, -, rfl⟩ := h
  obtain ⟨a, b⟩ := setupStates_wit hE hids hP (X0 := InitSet init) init hi
    (fun st hs x hx => ⟨st, hs, rfl, hx⟩) (by intro sid st h; simp at h) h1
  have hh : HeapWit σ1 := setupStates_heapWit init (fun st hs => (hi st hs).2.2) (σ := {})
    (by clear b a h1; refine ⟨⟨?_, ?_, ?_, ?_⟩, ?_, ?_⟩ <;> intros <;> simp_all) rfl
    (by clear b a h1; intros; simp_all) h1
  refine ⟨hh, ?_, fun sid st hs _ => a sid st hs σ1, ?_, ?_, ?_, ?_⟩
  · have hn : σ1.nodes = [] := by rw [b]
    refine ⟨fun o op ν ho hp => ?_, fun ν nd o hν => ?_, fun ν nd o hν => ?_⟩
    · have := (setupStates_root init (σ := {}) (by simp) h1 o op ho)
      rw [this] at hp; cases hp
    · rw [hn] at hν; simp at hν
    · rw [hn] at hν; simp at hν
  all_goals rw [b]
  · intro i m u _ _ hu; cases hu
  · intro h; exact absurd rfl h
  · intro h; cases h
  · intro _; exact ⟨rfl, rfl⟩

end Hylaa
