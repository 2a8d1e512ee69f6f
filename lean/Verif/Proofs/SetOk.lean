import Verif.Proofs.StateSet

/-! A state set between the exact reachable sets of its mode: invariant of `step` and
`intersect_invariant`. -/

set_option linter.unusedSectionVars false

namespace Hylaa
open Spec
variable {K : Type} [Field K] [LinearOrder K]

/-- The modes for which the invariant handling is sound: no inputs, or no invariant (see C42). -/
def Mode.Plain (m : Mode K) : Prop := m.inputs = none ∨ m.inv = []

/-- State `st` of mode `m` was started with points `X`; the invariant has been applied at steps
`0 … c - 1`.  `hi`: also nothing but `ε`-relaxed trajectories is in it. -/
structure SS.Ok (m : Mode K) (d : Dyn K) (X : (ℕ → K) → Prop) (ε : K) (hi : Prop) (c : ℕ)
    (st : SS K) : Prop where
  ex : ∃ ρ, st.Sh d ρ ∧
    (∀ y v, X y → (∀ l < st.stepIn, Admissible m (v l)) →
      (∀ j < c, InvEps 0 m (d.val j y fun _ _ => 0)) → ρ.P y v) ∧
    (hi → ∀ y v, ρ.P y v → X y ∧ (∀ l < st.stepIn, Admissible m (v l)) ∧
      ∀ j < c, InvEps ε m (d.val j y fun _ _ => 0))
  rowsLen : st.invRows.length = m.inv.length

theorem inv_indep {m : Mode K} {d : Dyn K} (hd : d.For m) (hm : m.Plain) {ε : K} (j : ℕ)
    (y : ℕ → K) (v w : ℕ → ℕ → K) : InvEps ε m (d.val j y v) ↔ InvEps ε m (d.val j y w) := by
  rcases hm with h | h
  · have hN : d.nmat = none := by
      cases hN : d.nmat with
      | none => rfl
      | some N => obtain ⟨inp, h1, -⟩ := hd.inp N hN; rw [h] at h1; cases h1
    have : d.val j y v = d.val j y w := by
      funext i
      unfold Dyn.val
      rw [Dyn.iesTo_none hN]
      simp [inSum]
    rw [this]
  · simp [InvEps, h]

theorem SS.Ok.mono {m : Mode K} {d : Dyn K} {X : (ℕ → K) → Prop} {ε : K} {hi hi' : Prop}
    {c c' : ℕ} {st : SS K} (h : st.Ok m d X ε hi c) (hc : c ≤ c')
    (hh : hi' → hi ∧ (c = c' ∨ m.inv = [])) : st.Ok m d X ε hi' c' := by
  obtain ⟨⟨ρ, h1, h2, h3⟩, h4⟩ := h
  refine ⟨⟨ρ, h1, fun y v hx ha hj => h2 y v hx ha fun j hjc => hj j (by omega), fun hh' y v hp => ?_⟩, h4⟩
  obtain ⟨g1, g2⟩ := hh hh'
  obtain ⟨a1, a2, a3⟩ := h3 g1 y v hp
  refine ⟨a1, a2, fun j hj => ?_⟩
  rcases g2 with rfl | g2
  · exact a3 j hj
  · simp [InvEps, g2]

/-- **`step`** -/
theorem SS.Ok.step {m : Mode K} {d : Dyn K} (hd : d.For m)
    {X : (ℕ → K) → Prop} {ε : K} {hi : Prop} {c : ℕ} {te te' : Option (TE K)}
    (ht : ∀ u, te = some u → u.Inv d) {st st' : SS K} (h : st.Ok m d X ε hi c) {target : Option ℕ}
    (hs : st.step d m te target = .ok (te', st')) :
    (∀ u, te' = some u → u.Inv d) ∧ st.stepIn ≤ target.getD (st.stepIn + 1) ∧
    st' = { st with lp := st'.lp, basis := st'.basis, ies := st'.ies,
                    stepIn := target.getD (st.stepIn + 1),
                    steps := (st.steps.1 + (target.getD (st.stepIn + 1) - st.stepIn),
                              st.steps.2 + (target.getD (st.stepIn + 1) - st.stepIn)) } ∧
    st'.Ok m d X ε hi c := by
  obtain ⟨⟨ρ, h1, h2, h3⟩, h4⟩ := h
  obtain ⟨a1, a2, a3, ρ', a4, a5⟩ := h1.step hd ht hs
  have hk : st'.stepIn = target.getD (st.stepIn + 1) := by rw [a3]
  refine ⟨a1, a2, a3, ⟨ρ', a4, fun y v hx ha hj => ?_, fun hh y v hp => ?_⟩, by rw [a3]; exact h4⟩
  · exact (a5 y v).2 ⟨h2 y v hx (fun l hl => ha l (by omega)) hj, fun l _ hl => ha l hl⟩
  · obtain ⟨b1, b2⟩ := (a5 y v).1 hp
    obtain ⟨c1, c2, c3⟩ := h3 hh y v b1
    refine ⟨c1, fun l hl => ?_, c3⟩
    by_cases hlk : l < st.stepIn
    · exact c2 l hlk
    · exact b2 l (by omega) hl

/-- Trajectories are in the set. -/
theorem SS.Ok.mem_of_flow {m : Mode K} {d : Dyn K} (hd : d.For m) (hm : m.Plain)
    {X : (ℕ → K) → Prop} {ε : K} {hi : Prop} {c : ℕ} {st : SS K} (h : st.Ok m d X ε hi c)
    {x z : ℕ → K} (hx : X x) (hf : Flow 0 m d st.stepIn x z)
    (hc : c ≤ st.stepIn ∨ (c = st.stepIn + 1 ∧ InvEps 0 m z)) : st.lp.Mem z := by
  obtain ⟨⟨ρ, h1, h2, -⟩, -⟩ := h
  obtain ⟨v, f1, f2, f3⟩ := (flow_iff hd.laws hd.wf _ _ _).1 hf
  refine (h1.mem z).2 ⟨x, v, h2 x v hx f1 fun j hj => ?_, f2⟩
  by_cases hjk : j < st.stepIn
  · exact (inv_indep hd hm j x _ _).1 (f3 j hjk)
  · obtain ⟨rfl, hz⟩ := hc.resolve_left (by omega)
    obtain rfl : j = st.stepIn := by omega
    rw [inv_indep hd hm st.stepIn x _ v, ← InvEps.congr hd.wf (x := z)]
    · exact hz
    · exact f2

/-- The set contains only trajectories. -/
theorem SS.Ok.flow_of_mem {m : Mode K} {d : Dyn K} (hd : d.For m) (hm : m.Plain)
    {X : (ℕ → K) → Prop} {ε : K} {hi : Prop} {c : ℕ} {st : SS K} (h : st.Ok m d X ε hi c)
    (hh : hi) (hc : st.stepIn ≤ c) {z : ℕ → K} (hz : st.lp.Mem z) :
    ∃ x, X x ∧ Flow ε m d st.stepIn x z ∧ (st.stepIn < c → InvEps ε m z) := by
  obtain ⟨⟨ρ, h1, -, h3⟩, -⟩ := h
  obtain ⟨y, v, hp, hv⟩ := (h1.mem z).1 hz
  obtain ⟨a1, a2, a3⟩ := h3 hh y v hp
  refine ⟨y, a1, (flow_iff hd.laws hd.wf _ _ _).2 ⟨v, a2, hv, fun j hj =>
    (inv_indep hd hm j y _ _).1 (a3 j (by omega))⟩, fun hlt => ?_⟩
  rw [InvEps.congr hd.wf (z := d.val st.stepIn y v) hv, inv_indep hd hm st.stepIn y v fun _ _ => 0]
  exact a3 _ hlt

variable [IsStrictOrderedRing K]

/-- **`intersect_invariant`** -/
theorem SS.Ok.intersectInvariant {S : Solver K} (hS : S.Honest) {T : Tols K} (hT : 0 ≤ T.inter)
    {m : Mode K} {d : Dyn K} (hd : d.For m) (hm : m.Plain) {X : (ℕ → K) → Prop} {hi : Prop} {c : ℕ}
    {st st' : SS K} (h : st.Ok m d X T.inter hi c) (hc : c ≤ st.stepIn + 1) {f : Bool}
    {ops : List (ℕ × Bool)} (hi' : SS.intersectInvariant S T m st = .ok (st', f, ops)) :
    st' = { st with lp := st'.lp, invRows := st'.invRows } ∧
    (∀ q ∈ ops, q.1 < m.inv.length) ∧
    st'.Ok m d X T.inter (hi ∧ (st.stepIn ≤ c ∨ m.inv = [])) (st.stepIn + 1) ∧
    (f = false → ∀ x z, X x → Flow 0 m d st.stepIn x z → ¬ InvEps 0 m z) := by
  obtain ⟨⟨ρ, h1, h2, h3⟩, h4⟩ := h
  obtain ⟨a1, a2, ⟨new, a3, a3'⟩, ρ', a4, a5, a6, a7, a8⟩ := invLoop_spec hS hT hd m.inv
    (fun lc hlc => hlc) h1 hi'
  have hk : st'.stepIn = st.stepIn := by rw [a1]
  have hlow : ∀ y v, X y → (∀ l < st.stepIn, Admissible m (v l)) →
      (∀ j < st.stepIn + 1, InvEps 0 m (d.val j y fun _ _ => 0)) → ρ'.P y v := by
    intro y v hx ha hj
    refine a6 y v (h2 y v hx ha fun j hjc => hj j (by omega)) ?_
    have := (inv_indep hd hm st.stepIn y (fun _ _ => 0) v).1 (hj st.stepIn (by omega))
    simpa [InvEps] using this
  refine ⟨a1, ?_, ⟨⟨ρ', a4, by rw [hk]; exact hlow, ?_⟩, a2.trans h4⟩, ?_⟩
  · intro q hq
    rw [a3] at hq
    simp only [List.nil_append] at hq
    have := a3' q hq; omega
  · rintro ⟨hh, hor⟩ y v hp
    obtain ⟨b1, b2, b3⟩ := h3 hh y v (a5 y v hp)
    refine ⟨b1, by rw [hk]; exact b2, fun j hj => ?_⟩
    rcases hor with hor | hor
    · by_cases hjc : j < c
      · exact b3 j hjc
      · obtain rfl : j = st.stepIn := by omega
        cases f with
        | true =>
          rw [inv_indep hd hm st.stepIn y _ v]
          exact a7 rfl y v hp
        | false => exact absurd hp (a8 rfl y v)
    · simp [InvEps, hor]
  · intro hf x z hx hfl hz
    obtain ⟨v, f1, f2, f3⟩ := (flow_iff hd.laws hd.wf _ _ _).1 hfl
    refine a8 hf x v (hlow x v hx f1 fun j hj => ?_)
    by_cases hjk : j < st.stepIn
    · exact (inv_indep hd hm j x _ _).1 (f3 j hjk)
    · obtain rfl : j = st.stepIn := by omega
      rw [inv_indep hd hm st.stepIn x _ v, ← InvEps.congr hd.wf (x := z)]
      · exact hz
      · exact f2

/-- One recorded condition, re-applied. -/
theorem SS.Ok.addInv {S : Solver K} (hS : S.Honest) {T : Tols K} {m : Mode K} {d : Dyn K}
    (hd : d.For m) (hm : m.Plain) {X : (ℕ → K) → Prop} {hi : Prop} {c : ℕ} {ε : K}
    {st st' : SS K} (h : st.Ok m d X ε hi c) (hc : c ≤ st.stepIn + 1) {idx : ℕ} {lc : LinCon K}
    (hlc : lc ∈ m.inv) {b : Bool} (hs : st.addInv S T idx lc = .ok (st', b)) :
    st' = { st with lp := st'.lp, invRows := st'.invRows } ∧
    st'.Ok m d X ε False (st.stepIn + 1) := by
  obtain ⟨⟨ρ, h1, h2, h3⟩, h4⟩ := h
  obtain ⟨a1, a2, ρ', a3, a4⟩ := h1.addInv hS hd hlc hs
  have hk : st'.stepIn = st.stepIn := by rw [a1]
  refine ⟨a1, ⟨ρ', a3, fun y v hx ha hj => (a4 y v).2 ⟨?_, ?_⟩, fun hf => hf.elim⟩, a2.trans h4⟩
  · rw [hk] at ha
    exact h2 y v hx ha fun j hjc => hj j (by omega)
  · have := (inv_indep hd hm st.stepIn y (fun _ _ => 0) v).1 (hj st.stepIn (by omega))
    simpa [InvEps] using this lc hlc

/-- **A new state set.** -/
theorem SS.Ok.make {T : Tols K} {m : Mode K} {d : Dyn K} (hd : d.For m) {a : Csr K}
    (ha : m.a = some a) {lp : Lp K} {X : (ℕ → K) → Prop}
    (hr : lp.Repr (Rep.ofSet d.dims X)) (ho : lp.ObjInv) (had : a.nrows = d.dims)
    {mid : ℕ} {steps : ℕ × ℕ} {ol : List ℕ} {con : Bool} {st : SS K} {ε : K}
    (h : SS.make T m mid lp steps ol con = .ok st) :
    st = { mode := mid, lp := lp, stepIn := 0, steps := steps, concrete := con, opList := ol,
           invRows := m.inv.map fun _ => none, basis := some (Mat.id d.dims),
           ies := m.inputs.map fun _ => [] } ∧
    st.Ok m d lp.Mem ε True 0 := by
  unfold SS.make at h
  rw [ha] at h
  simp only [bind_ok, pure_ok] at h
  obtain ⟨bm, -, _, -, _, -, rfl⟩ := h
  have hmem : ∀ y, lp.Mem y ↔ ∃ z, X z ∧ EqOn d.dims y z := by
    intro y
    rw [hr.mem]
    unfold Rep.Mem Rep.val
    constructor
    · rintro ⟨w, u, ⟨z, hz, hwz⟩, h⟩
      refine ⟨z, hz, fun i hi => ?_⟩
      rw [h i hi, ← hwz i hi]
      simp only [Rep.ofSet, ite_mul, one_mul, zero_mul]
      rw [Finset.sum_ite_eq]
      simp [hi, inSum]
    · rintro ⟨z, hz, h⟩
      refine ⟨z, fun _ _ => 0, ⟨z, hz, fun _ _ => rfl⟩, fun i hi => ?_⟩
      rw [h i hi]
      simp only [Rep.ofSet, ite_mul, one_mul, zero_mul]
      rw [Finset.sum_ite_eq]
      have : i < d.dims := hi
      simp [this, inSum]
  refine ⟨by rw [had], ⟨_, ⟨hr, ho, ?_, rfl, by rw [had]; rfl, rfl, rfl, ?_, ?_, .inl rfl⟩, ?_, ?_⟩,
    by simp⟩
  · intro i r hr
    simp only [List.getElem?_map] at hr
    cases hq : m.inv[i]? <;> rw [hq] at hr <;> cases hr
  · simp only [Rep.ofSet, Dyn.iesTo]
    cases d.nmat <;> rfl
  · simp only
    cases hN : d.nmat with
    | none => rw [hd.noInp hN]; rfl
    | some N =>
      obtain ⟨inp, h1, -⟩ := hd.inp N hN
      rw [h1]; simp [Dyn.iesTo, hN]
  · intro y v hy _ _
    exact (hmem y).1 hy
  · intro _ y v hp
    exact ⟨(hmem y).2 hp, fun l hl => absurd hl (by simp), fun j hj => absurd hj (by omega)⟩

end Hylaa
