import Verif.Proofs.CeTrail
import Verif.Proofs.CeHeap

/-! The invariant for C35: concrete state sets record runs; the counterexample is one of them. -/

set_option linter.unusedSectionVars false

namespace Hylaa
open Spec
variable {K : Type} [Field K] [LinearOrder K] [IsStrictOrderedRing K]

/-! ### State sets -/

/-- A concrete state set: its LP records a path, whose numbers of steps are those of the operations
leading to the set. -/
def StWit (E : Env K) (P : Prop) (X0 : ℕ → (ℕ → K) → Prop) (σ : Core K) (st : SS K) (c : ℕ) : Prop :=
  ∀ m, E.ha.modes[st.mode]? = some m → m.isError = false →
    st.Hi m (E.dyn st.mode) (fun _ => True) E.T.inter c ∧ (P → st.stepIn ≤ c ∧ c ≤ st.stepIn + 1) ∧
    ∃ cl via w, Trail E P X0 st.mode m cl via w st.stepIn st.lp.toSys ∧ SPath σ st (cl.map Blk.steps)

theorem StWit.keep {E : Env K} {P : Prop} {X0 : ℕ → (ℕ → K) → Prop} {σ σ' : Core K} {st : SS K} {c : ℕ}
    (h : StWit E P X0 σ st c) (hk : Keep σ σ') : StWit E P X0 σ' st c := by
  intro m hm he
  obtain ⟨a, b, cl, via, w, d, e⟩ := h m hm he
  exact ⟨a, b, cl, via, w, d, e.keep hk⟩

theorem StWit.kept {E : Env K} {P : Prop} {X0 : ℕ → (ℕ → K) → Prop} {σ : Core K} {st : SS K} {c : ℕ}
    (h : StWit E P X0 σ st c) {lp : Lp K} (hk : st.lp.Kept lp) : StWit E P X0 σ { st with lp := lp } c := by
  intro m hm he
  obtain ⟨a, b, cl, via, w, d, e⟩ := h m hm he
  exact ⟨a.withLp hk.1 hk.2, b, cl, via, w, by rw [show ({ st with lp := lp } : SS K).lp.toSys = st.lp.toSys from hk.1]; exact d,
    e.like rfl⟩

theorem StWit.aggstr {E : Env K} {P : Prop} {X0 : ℕ → (ℕ → K) → Prop} {σ : Core K} {st : SS K} {c : ℕ}
    (h : StWit E P X0 σ st c) (s : Option String) : StWit E P X0 σ { st with aggstr := s } c := by
  intro m hm he
  obtain ⟨a, b, cl, via, w, d, e⟩ := h m hm he
  exact ⟨a.aggstr s, b, cl, via, w, d, e.like rfl⟩

/-- Nothing is added by intersections. -/
theorem SS.Hi.invLoop {S : Solver K} (hS : S.Honest) {T : Tols K} (hT : 0 ≤ T.inter)
    {m : Mode K} {d : Dyn K} (hd : d.For m) {X : (ℕ → K) → Prop} {ε : K} {c : ℕ} {lcs : List (LinCon K)}
    (hlcs : ∀ lc ∈ lcs, lc ∈ m.inv) {st st' : SS K} (h : st.Hi m d X ε c) {f : Bool} {i : ℕ}
    {ops ops' : List (ℕ × Bool)} (hi' : invLoop S T st i lcs ops = .ok (st', f, ops')) :
    st'.Hi m d X ε c := by
  obtain ⟨ρ, h1, h3⟩ := h
  obtain ⟨a1, a2, -, ρ', a4, a5, -⟩ := invLoop_spec hS hT hd lcs hlcs h1 hi'
  have hk : st'.stepIn = st.stepIn := by rw [a1]
  refine ⟨ρ', a4, fun y v hp => ?_⟩
  rw [hk]
  exact h3 y v (a5 y v hp)

theorem SS.Hi.addInv {S : Solver K} (hS : S.Honest) {T : Tols K}
    {m : Mode K} {d : Dyn K} (hd : d.For m) {X : (ℕ → K) → Prop} {ε : K} {c : ℕ}
    {st st' : SS K} (h : st.Hi m d X ε c) {i : ℕ} {lc : LinCon K} (hlc : lc ∈ m.inv) {b : Bool}
    (hi' : st.addInv S T i lc = .ok (st', b)) : st'.Hi m d X ε c := by
  obtain ⟨ρ, h1, h3⟩ := h
  obtain ⟨a1, -, ρ', a4, a5⟩ := h1.addInv hS hd hlc hi'
  have hk : st'.stepIn = st.stepIn := by rw [a1]
  refine ⟨ρ', a4, fun y v hp => ?_⟩
  rw [hk]
  exact h3 y v ((a5 y v).1 hp).1

/-- Intersection with the invariant. -/
theorem StWit.inv {E : Env K} (hE : E.Base) {P : Prop} (hP : P → E.Sound) {X0 : ℕ → (ℕ → K) → Prop}
    {σ : Core K} {st st' : SS K} {c : ℕ} (h : StWit E P X0 σ st c) {m : Mode K}
    (hm : E.ha.modes[st.mode]? = some m) {f : Bool} {ops : List (ℕ × Bool)}
    (hi : SS.intersectInvariant E.S E.T m st = .ok (st', f, ops)) :
    ∃ c', StWit E P X0 σ st' c' ∧ (P → c' = st.stepIn + 1) := by
  have e := invLoop_like _ hi
  obtain ⟨lp', rows', rfl⟩ : ∃ lp' rows', st' = { st with lp := lp', invRows := rows' } := ⟨_, _, e⟩
  have tr : ∀ cl via w, m.isError = false → st.Hi m (E.dyn st.mode) (fun _ => True) E.T.inter c →
      Trail E P X0 st.mode m cl via w st.stepIn st.lp.toSys →
      Trail E P X0 st.mode m cl via w st.stepIn lp'.toSys := by
    intro cl via w he a d
    obtain ⟨ρ, hsh, -⟩ := a
    exact d.grow0 (hE.dynFor _ _ hm he) (invLoop_grow hE.honest (hE.dynFor _ _ hm he) m.inv
      (fun _ h => h) hsh hi)
  by_cases hp : P
  · refine ⟨st.stepIn + 1, fun m' hm' he => ?_, fun _ => rfl⟩
    have hm1 : E.ha.modes[st.mode]? = some m' := hm'
    rw [hm] at hm1; cases hm1
    obtain ⟨a, b, cl, via, w, d, e⟩ := h m hm he
    have hs := hP hp
    refine ⟨a.intersectInvariant hE.honest hE.tol (hE.dynFor _ _ hm he) (hs.plain _ _ hm he) (b hp).1 hi,
      fun _ => ⟨Nat.le_succ _, le_rfl⟩, cl, via, w, tr cl via w he a d, e.like rfl⟩
  · refine ⟨c, fun m' hm' he => ?_, fun h => absurd h hp⟩
    have hm1 : E.ha.modes[st.mode]? = some m' := hm'
    rw [hm] at hm1; cases hm1
    obtain ⟨a, b, cl, via, w, d, e⟩ := h m hm he
    exact ⟨a.invLoop hE.honest hE.tol (hE.dynFor _ _ hm he) (fun _ h => h) hi, fun h => absurd h hp, cl, via, w,
      tr cl via w he a d, e.like rfl⟩

/-- Steps. -/
theorem StWit.step {E : Env K} (hE : E.Base) {P : Prop} {X0 : ℕ → (ℕ → K) → Prop}
    {σ : Core K} {st st' : SS K} {c : ℕ} (h : StWit E P X0 σ st c) {m : Mode K}
    (hm : E.ha.modes[st.mode]? = some m) {te te' : Option (TE K)}
    (ht : m.isError = false → ∀ u, te = some u → u.Inv (E.dyn st.mode)) {target : Option ℕ}
    (hc : P → target = none ∧ c = st.stepIn + 1)
    (hs : st.step (E.dyn st.mode) m te target = .ok (te', st')) : StWit E P X0 σ st' c := by
  obtain ⟨e, hle⟩ := step_like hs
  have hmode : st'.mode = st.mode := by rw [e]
  have hopl : st'.opList = st.opList := by rw [e]
  have hsi : st'.stepIn = target.getD (st.stepIn + 1) := by rw [e]
  intro m' hm' he
  rw [hmode, hm] at hm'; cases hm'
  obtain ⟨a, b, cl, via, w, d, e'⟩ := h m hm he
  have hd := hE.dynFor _ _ hm he
  have a' := a
  obtain ⟨ρ, hsh, -⟩ := a'
  have hg := hsh.step_grow hd (ht he) hs
  rw [hmode]
  refine ⟨a.step hd (ht he) hs, fun hp => ?_, cl, via, w, d.grow hd (by omega) hg, e'.like hopl⟩
  obtain ⟨h1, h2⟩ := hc hp
  rw [h1] at hsi
  simp at hsi; omega

theorem StWit.addInv {E : Env K} (hE : E.Base) {P : Prop} (hP : ¬ P) {X0 : ℕ → (ℕ → K) → Prop}
    {σ : Core K} {st st' : SS K} {c : ℕ} (h : StWit E P X0 σ st c) {m : Mode K}
    (hm : E.ha.modes[st.mode]? = some m) {i : ℕ} {lc : LinCon K} (hlc : lc ∈ m.inv) {b : Bool}
    (hi : st.addInv E.S E.T i lc = .ok (st', b)) : StWit E P X0 σ st' c := by
  have e := addInv_like hi
  obtain ⟨lp', rows', rfl⟩ : ∃ lp' rows', st' = { st with lp := lp', invRows := rows' } := ⟨_, _, e⟩
  intro m' hm' he
  have hm1 : E.ha.modes[st.mode]? = some m' := hm'
  rw [hm] at hm1; cases hm1
  obtain ⟨a, b, cl, via, w, d, e'⟩ := h m hm he
  have hd := hE.dynFor _ _ hm he
  have a' := a
  obtain ⟨ρ, hsh, -⟩ := a'
  exact ⟨a.addInv hE.honest hd hlc hi, fun h => absurd h hP, cl, via, w,
    d.grow0 hd (hsh.addInv_grow hE.honest hd hi), e'.like rfl⟩

/-! ### The number of steps of each segment -/

theorem ceOpen_len {ha : HA K} {nums ext : List ℕ} {segs r : List (CeSeg K)} {cs : List Char}
    (h : ceOpen ha nums segs cs = .ok r) : ceOpen ha (nums ++ ext) segs cs = .ok r ∧
      (segs.length ≤ nums.length → r.length ≤ nums.length) := by
  unfold ceOpen at h ⊢
  split at h
  · rename_i hc
    rw [if_pos hc]
    simp only [bind_ok, needSome_ok] at h ⊢
    obtain ⟨s, hs, segs', h1, id, h2, mode, h3, h4⟩ := h
    refine ⟨⟨s, (List.getElem?_append_left (lt_of_getElem? hs)).trans hs, segs', h1, id, h2, mode, h3, h4⟩, fun _ => ?_⟩
    have hl : segs'.length = segs.length := by
      split at h1
      · simp only [bind_ok, pure_ok] at h1
        obtain ⟨_, -, rfl⟩ := h1; rfl
      · simp only [bind_ok, modLast, needSome_ok, pure_ok] at h1
        obtain ⟨_, -, k, -, s, hs, _, -, rfl⟩ := h1
        have : segs ≠ [] := by rintro rfl; cases hs
        have := List.length_pos_iff.2 this
        simp; omega
    rw [pure_ok] at h4
    rw [← h4]
    simp only [List.length_append, List.length_singleton, hl]
    exact lt_of_getElem? hs
  · rename_i hc
    rw [if_neg hc]
    cases h
    exact ⟨rfl, id⟩

theorem modLast_length {f : CeSeg K → Except Err (CeSeg K)} {segs r : List (CeSeg K)}
    (h : modLast f segs = .ok r) : r.length = segs.length := by
  simp only [bind_ok, modLast, needSome_ok, pure_ok] at h
  obtain ⟨s, hs, _, -, rfl⟩ := h
  have : segs ≠ [] := by rintro rfl; cases hs
  have := List.length_pos_iff.2 this
  simp; omega

theorem ceStore_length {segs r : List (CeSeg K)} {cs : List Char} {v : K}
    (h : ceStore segs cs v = .ok r) : r.length = segs.length := by
  unfold ceStore at h
  split at h
  · split at h
    · exact modLast_length h
    · split at h
      · exact modLast_length h
      · split at h
        · exact modLast_length h
        · cases h; rfl
  · split at h
    · exact modLast_length h
    · cases h; rfl

/-- There is a number for every segment. -/
theorem ceLoop_len {ha : HA K} {nums ext : List ℕ} : ∀ (l : List (String × K)) {segs r : List (CeSeg K)},
    ceLoop ha nums l segs = .ok r → ceLoop ha (nums ++ ext) l segs = .ok r ∧
      (segs.length ≤ nums.length → r.length ≤ nums.length)
  | [], segs, r, h => by cases h; exact ⟨rfl, id⟩
  | (s, v) :: l, segs, r, h => by
    simp only [ceLoop, bind_ok] at h ⊢
    obtain ⟨s1, h1, s2, h2, h3⟩ := h
    obtain ⟨a1, a2⟩ := ceOpen_len (ext := ext) h1
    obtain ⟨b1, b2⟩ := ceLoop_len (ext := ext) l h3
    refine ⟨⟨s1, a1, s2, h2, b1⟩, fun hl => b2 ?_⟩
    rw [ceStore_length h2]; exact a2 hl

/-- The steps recorded along the ancestors. -/
theorem ancestors_steps {σ : Core K} : ∀ (fuel : ℕ) {ν : ℕ} {nd : Node} {o : ℕ} {π l anc : List ℕ},
    σ.nodes[ν]? = some nd → nd.parents[0]? = some o → OPath σ o π → ancestors σ fuel ν = .ok anc →
    ((anc.drop 1).mapM fun nid => (do
      let n ← needSome σ.nodes[nid]?
      assert (n.parents.length = 1)
      let p ← needSome n.parents[0]?
      let o ← needSome σ.ops[p]?
      return o.step : Except Err ℕ)) = .ok l → anc ≠ [] ∧ l = π
  | 0, ν, nd, o, π, l, anc, h1, h2, h3, h4, h5 => by cases h4
  | fuel + 1, ν, nd, o, π, l, anc, h1, h2, h3, h4, h5 => by
    simp only [ancestors, bind_ok, needSome_ok] at h4
    obtain ⟨n, hn, p0, hp0, op, hop, h4⟩ := h4
    rw [h1] at hn; cases hn
    rw [h2] at hp0; cases hp0
    cases h3 with
    | @root _ op' ho hpar =>
      rw [hop] at ho; cases ho
      rw [hpar] at h4
      cases h4
      cases h5
      exact ⟨by simp, rfl⟩
    | @step _ op' ν' nd' o' π' ho hpar hν' ho' hp =>
      rw [hop] at ho; cases ho
      rw [hpar] at h4
      simp only [bind_ok, pure_ok] at h4
      obtain ⟨anc', h6, rfl⟩ := h4
      have hne : anc' ≠ [] := by
        intro h0
        cases fuel with
        | zero => cases h6
        | succ fuel =>
          simp only [ancestors, bind_ok, needSome_ok] at h6
          obtain ⟨_, _, _, _, q, _, h6⟩ := h6
          subst h0
          split at h6
          · cases h6
          · simp only [bind_ok, pure_ok] at h6
            obtain ⟨_, -, h6⟩ := h6
            simp at h6
      have hd : (anc' ++ [ν]).drop 1 = anc'.drop 1 ++ [ν] := by
        rw [List.drop_append_of_le_length (List.length_pos_iff.2 hne)]
      rw [hd, List.mapM_append, bind_ok] at h5
      obtain ⟨l1, h7, h8⟩ := h5
      simp only [List.mapM_cons, List.mapM_nil, bind_ok, needSome_ok, assert_ok, pure_ok] at h8
      obtain ⟨l2, ⟨s, ⟨n, hn, _, -, p, hp', o2, ho2, rfl⟩, _, rfl, rfl⟩, rfl⟩ := h8
      rw [h1] at hn; cases hn
      rw [h2] at hp'; cases hp'
      rw [hop] at ho2; cases ho2
      obtain ⟨-, rfl⟩ := ancestors_steps fuel hν' ho' hp h6 h7
      exact ⟨by simp, rfl⟩

/-- The numbers of steps of a concrete set. -/
theorem ceSteps_path {σ : Core K} (hw : HeapWit σ) {st : SS K} {π nums : List ℕ} (hp : SPath σ st π)
    (h : ceSteps σ st = .ok nums) : nums = π ++ [st.stepIn] ∨ nums = [st.stepIn] := by
  unfold ceSteps at h
  split at h
  · cases h; exact .inr rfl
  · rename_i oid l hol
    simp only [bind_ok, needSome_ok, pure_ok] at h
    obtain ⟨op, hop, c, hc, anc, hanc, l', hl', rfl⟩ := h
    rcases hp with ⟨h0, -⟩ | ⟨o, h1, h2⟩
    · rw [hol] at h0; cases h0
    rw [hol] at h1
    cases h1
    obtain ⟨nd, hnd, hmem⟩ := hw.child oid op c hop hc
    have hanc' := hanc
    simp only [ancestors, bind_ok, needSome_ok] at hanc'
    obtain ⟨n, hn, p0, hp0, op0, hop0, h3⟩ := hanc'
    rw [hnd] at hn; cases hn
    by_cases he : p0 = oid
    · subst he
      obtain ⟨-, rfl⟩ := ancestors_steps _ hnd hp0 h2 hanc hl'
      exact .inl rfl
    · refine .inr ?_
      split at h3
      · cases h3; cases hl'; rfl
      · exfalso
        rename_i ν' hν'
        simp only [bind_ok, pure_ok] at h3
        obtain ⟨anc', h6, rfl⟩ := h3
        have hne : anc' ≠ [] := by
          intro h0
          cases hf : σ.nodes.length with
          | zero => rw [hf] at h6; cases h6
          | succ fuel =>
            rw [hf] at h6
            simp only [ancestors, bind_ok, needSome_ok] at h6
            obtain ⟨_, _, _, _, q, _, h6⟩ := h6
            subst h0
            split at h6
            · cases h6
            · simp only [bind_ok, pure_ok] at h6
              obtain ⟨_, -, h6⟩ := h6
              simp at h6
        have hd : (anc' ++ [c]).drop 1 = anc'.drop 1 ++ [c] := by
          rw [List.drop_append_of_le_length (List.length_pos_iff.2 hne)]
        rw [hd, List.mapM_append, bind_ok] at hl'
        obtain ⟨l1, h7, h8⟩ := hl'
        simp only [List.mapM_cons, List.mapM_nil, bind_ok, needSome_ok, assert_ok, pure_ok] at h8
        obtain ⟨l2, ⟨s, ⟨n, hn, _, hlen, -⟩, -⟩, -⟩ := h8
        rw [hnd] at hn; cases hn
        obtain ⟨x, hx⟩ := List.length_eq_one_iff.1 hlen
        rw [hx] at hmem hp0
        simp at hmem hp0
        exact he (hp0.symm.trans hmem.symm)

/-- The blocks are read back. -/
theorem ceLoop_blocks {ha : HA K} {nums : List ℕ} {v : ℕ → K} {cl : List Blk} {b : Blk}
    (hok : ∀ x ∈ cl ++ [b], x.Ok ha) (hl : Linked ha (cl ++ [b]))
    (hn : nums = cl.map Blk.steps ++ [b.steps] ∨ nums = [b.steps]) {segs : List (CeSeg K)}
    (h : ceLoop ha nums (tag (namesOf (cl ++ [b])) v 0) [] = .ok segs) :
    segs = openLast (segsOf v (cl ++ [b]) 0) := by
  have main : nums = cl.map Blk.steps ++ [b.steps] → segs = openLast (segsOf v (cl ++ [b]) 0) := by
    rintro rfl
    have := ceLoop_path (v := v) (nums := cl.map Blk.steps ++ [b.steps]) hok hl fun i x hx => by
      rw [show cl.map Blk.steps ++ [b.steps] = (cl ++ [b]).map Blk.steps by simp, List.getElem?_map, hx]
      rfl
    rw [this] at h
    exact (Except.ok.inj h).symm
  rcases hn with hn | hn
  · exact main hn
  · cases cl with
    | nil => exact main hn
    | cons x cl =>
      exfalso
      obtain ⟨h1, h2⟩ := ceLoop_len (ext := cl.map Blk.steps ++ [b.steps]) _ h
      have h3 := ceLoop_path (ha := ha) (v := v) (l := { x with steps := b.steps } :: (cl ++ [b]))
        (nums := nums ++ (cl.map Blk.steps ++ [b.steps])) ?_ hl ?_
      · have e : namesOf ({ x with steps := b.steps } :: (cl ++ [b])) = namesOf (x :: cl ++ [b]) := rfl
        rw [e, h1] at h3
        have h4 := h2 (by simp)
        rw [Except.ok.inj h3, hn] at h4
        have h5 := segsOf_length v ({ x with steps := b.steps } :: (cl ++ [b])) 0
        rw [show ({ x with steps := b.steps } :: (cl ++ [b]) : List Blk) =
          ({ x with steps := b.steps } :: cl) ++ [b] from rfl, segsOf_append] at h4
        simp only [segsOf] at h4
        rw [openLast_snoc] at h4
        simp at h4
      · intro y hy
        rcases List.mem_cons.1 hy with rfl | hy
        · have := hok x (by simp)
          exact ⟨this.w, this.km, this.find⟩
        · exact hok y (by simp at hy ⊢; tauto)
      · intro i y hy
        rw [hn, show [b.steps] ++ (cl.map Blk.steps ++ [b.steps]) =
          ({ x with steps := b.steps } :: (cl ++ [b])).map Blk.steps by simp, List.getElem?_map, hy]
        rfl

/-- **The counterexample is a run into the error mode.** -/
theorem makeCe_trace {E : Env K} (hE : E.Base) {P : Prop} (hP : P → E.Sound)
    {X0 : ℕ → (ℕ → K) → Prop} {σ : Core K} (hw : HeapWit σ) {st : SS K} {c : ℕ}
    (hst : StWit E P X0 σ st c) {m : Mode K} (hm : E.ha.modes[st.mode]? = some m) (he : m.isError = false)
    (hz : P → st.stepIn = 0 → E.set.urgent = true ∧ c = 1) {l : List ℕ} {ti : ℕ} {t : Tr K}
    {g : Csr K × List K} (hl : E.ha.out[st.mode]? = some l) (hti : ti ∈ l) (ht : E.ha.trans[ti]? = some t)
    (hgd : t.guard = some g) {tlp : Lp K} (hcut : IsCut E.S g st.lp tlp) {dst : Mode K}
    (hdst : E.ha.modes[t.dst]? = some dst) (hde : dst.isError = true) {ce : List (CeSeg K)}
    (h : makeCounterexample E σ st ti tlp = .ok ce) : IsTrace E.hyb E.T.inter P X0 ce := by
  obtain ⟨hh, hc, cl, via, w, htl, hsp⟩ := hst m hm he
  have htr := hE.trs st.mode m l ti t hm he hl hti ht
  obtain ⟨hgo, hgn⟩ := htr.guard g hgd
  have hh' := hh
  obtain ⟨ρ, hsh, -⟩ := hh'
  obtain ⟨c1, c2, c3, c4, c5, -⟩ := hcut.facts hE.honest hsh.repr hsh.obj hgo
  simp only [makeCounterexample, bind_ok, needSome_ok] at h
  obtain ⟨⟨lp', r⟩, hmin, sol, hsol, nums, hnums, segs, hsegs, h⟩ := h
  simp only at hsol
  obtain ⟨-, -, -, -, hr⟩ := minimize_spec hE.honest hmin c1
  obtain ⟨v, hv, rfl, -⟩ := hr sol hsol
  obtain ⟨v1, v2⟩ := (c5 v).1 hv
  have hzip : tlp.names.zip (colVals tlp none v) =
      tag (namesOf (cl ++ [curBlk (E.dyn st.mode) st.mode m via w st.stepIn])) v 0 := by
    rw [← zip_tag, ← htl.names, ← c4]
    unfold colVals Sys.numCols
    simp
  rw [hzip] at hsegs
  have hb := ceLoop_blocks htl.ok htl.linked (ceSteps_path hw hsp hnums) hsegs
  rw [segsOf_append] at hb
  simp only [segsOf] at hb
  rw [openLast_snoc] at hb
  rw [hb, modLast_snoc] at h
  have hch := htl.close hm he (hE.dynFor _ _ hm he) hh (fun hp => ⟨(hP hp).plain _ _ hm he, (hc hp).1, hz hp⟩)
    hl hti ht hgd hgo hgn v1 v2 0
  rw [segsOf_append] at hch
  simp only [segsOf] at hch
  have h' : ce = segsOf v cl 0 ++ [({ curBlk (E.dyn st.mode) st.mode m via w st.stepIn with
    r := 0, out := some ti } : Blk).seg v (0 + (cl.map Blk.len).sum)] := (Except.ok.inj h).symm
  rw [h']
  exact ⟨hch, _, ti, t, dst, List.getLast?_concat, rfl, ht, hdst, hde⟩

end Hylaa
