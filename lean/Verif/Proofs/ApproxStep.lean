import Verif.Proofs.Approx
import Verif.Proofs.SetOk

/-! Steps of a state set with the LGG approximation model. -/

set_option linter.unusedSectionVars false

namespace Hylaa
open Spec
variable {K : Type} [Field K] [LinearOrder K] [IsStrictOrderedRing K]

/-- `[E^l B' | E^l]` -/
structure GoodIe (d : Dyn K) (bt : Mat K) (l : ℕ) (ie : Mat K) : Prop where
  nr : ie.nr = d.dims
  nc : ie.nc = bt.nc + d.dims
  left : ∀ i < d.dims, ∀ c < bt.nc, ie.e i c = ∑ j ∈ Finset.range d.dims, (d.at l).1.e i j * bt.e j c
  right : ∀ i < d.dims, ∀ j < d.dims, ie.e i (bt.nc + j) = (d.at l).1.e i j

/-- The time-elapse object of a mode after `use_lgg_approx`, for a state set at step `k`. -/
structure LggTe (d : Dyn K) (bt : Mat K) (k : ℕ) (t : TE K) : Prop where
  one : t.one = d.ex 1
  oneIe : t.oneIe = some bt
  lgg : t.lgg = true
  cur : k ≠ 0 → t.curStep = k ∧ t.basis = some (d.at k).1 ∧ ∃ ie, t.ie = some ie ∧ GoodIe d bt (k - 1) ie

/-- What the LGG steps need of the mode's data. -/
structure LggDyn (m : Mode K) (d : Dyn K) (inp : Inputs K) (bt : Mat K) : Prop where
  laws : d.Laws
  has : m.inputs = some inp
  shaped : inp.Shaped d.dims
  nmat : ∃ N, d.nmat = some N ∧ N.nc = inp.b.ncols
  btNr : bt.nr = d.dims
  btNc : bt.nc = inp.b.ncols
  pos : 0 < d.dims
  inPos : 0 < inp.b.ncols

theorem LggDyn.inputs {m : Mode K} {d : Dyn K} {inp : Inputs K} {bt : Mat K} (h : LggDyn m d inp bt) :
    d.inputs = inp.b.ncols := by
  obtain ⟨N, h1, h2⟩ := h.nmat
  simp [Dyn.inputs, h1, h2]

theorem LggTe.next {m : Mode K} {d : Dyn K} {inp : Inputs K} {bt : Mat K} (hd : LggDyn m d inp bt) {k : ℕ}
    {t : TE K} (ht : LggTe d bt k t) {r : TE K × (Mat K × Option (Mat K))}
    (h : getBasis d (some t) (k + 1) = .ok r) :
    LggTe d bt (k + 1) r.1 ∧ r.2.1 = (d.at (k + 1)).1 ∧ ∃ ie, r.2.2 = some ie ∧ GoodIe d bt k ie := by
  obtain ⟨N, hN, hNc⟩ := hd.nmat
  simp only [getBasis, Option.getD_some, bind_ok, pure_ok] at h
  obtain ⟨t1, h1, q, hq, rfl⟩ := h
  have key : LggTe d bt (k + 1) t1 := by
    unfold TE.assign at h1
    rw [if_neg (Nat.succ_ne_zero k)] at h1
    split at h1
    · rename_i hk
      obtain rfl : k = 0 := by omega
      simp only [bind_ok, pure_ok, TE.firstIe, ht.lgg, hN, Option.isSome_some, and_self, if_true, ht.oneIe,
        needSome_ok, Option.some.injEq, Mat.hcat, need_ok] at h1
      obtain ⟨ie, ⟨c, rfl, w, ⟨_, hnr, rfl⟩, rfl⟩, rfl⟩ := h1
      refine ⟨ht.one, rfl, rfl, fun _ => ⟨rfl, by rw [ht.one]; rfl, _, rfl, hd.btNr, rfl, fun i hi c hc => ?_, fun i hi j hj => ?_⟩⟩
      · simp only [hc, if_true, Dyn.at, Mat.id, ite_mul, one_mul, zero_mul, Nat.zero_add, Nat.sub_self]
        rw [Finset.sum_ite_eq, if_pos (Finset.mem_range.2 hi)]
      · simp [Dyn.at, Mat.id]
    · rename_i hk1
      obtain ⟨j, rfl⟩ : ∃ j, k = j + 1 := ⟨k - 1, by omega⟩
      obtain ⟨c1, c2, ie, c3, c4⟩ := ht.cur (by omega)
      rw [if_pos (by omega)] at h1
      simp only [bind_ok, pure_ok, TE.quickIe, hN, ht.lgg, if_true, c3, c2, needSome_ok, Option.some.injEq,
        Mat.mul?, need_ok, Mat.hcat, ht.one] at h1
      obtain ⟨b, rfl, b', ⟨_, hb, rfl⟩, e1, ⟨c, rfl, c', ⟨_, hc, rfl⟩, w, ⟨_, hw, rfl⟩, rfl⟩, rfl⟩ := h1
      have hsh := hd.laws.shape 0
      have hinp := hd.inputs
      have hatsh := Dyn.at_shape hd.laws (j + 1)
      have hmin : min d.inputs ie.nc = bt.nc := by rw [c4.nc, hinp, hd.btNc]; omega
      refine ⟨rfl, ht.oneIe, rfl, fun _ => ⟨rfl, ?_, _, rfl, ?_, ?_, fun i hi c hc => ?_, fun i hi l hl => ?_⟩⟩
      · show some ((d.at (j + 1)).1.mul (d.ex 1)) = some (d.at (j + 2)).1
        rw [Dyn.at_succ hd.laws j]
      · exact hsh.1
      · simp only [Mat.mul, Mat.takeCols, hmin, hatsh.2]
      · simp only [Mat.mul, Mat.takeCols, hmin, hc, if_true, hsh.2, Nat.add_sub_cancel]
        rw [Finset.sum_congr rfl fun l hl => by rw [c4.left l (Finset.mem_range.1 hl) c hc, Nat.add_sub_cancel]]
        simp only [Finset.mul_sum]
        rw [Finset.sum_comm]
        refine Finset.sum_congr rfl fun l hl => ?_
        rw [Dyn.at_one_mul hd.laws j hi (Finset.mem_range.1 hl), Finset.sum_mul]
        exact Finset.sum_congr rfl fun x _ => by ring
      · simp only [Mat.mul, Mat.takeCols, hmin, Nat.add_sub_cancel]
        rw [if_neg (by omega), Nat.add_sub_cancel_left]
  obtain ⟨c1, c2, ie, c3, c4⟩ := key.cur (by omega)
  simp only [checkBasis, bind_ok, needSome_ok, c2, Option.some.injEq, assert_ok] at hq
  obtain ⟨b, rfl, _, -, hq⟩ := hq
  rw [if_neg (by rw [hd.inputs]; have := hd.inPos; omega)] at hq
  simp only [bind_ok, needSome_ok, c3, Option.some.injEq, assert_ok, pure_ok] at hq
  obtain ⟨ie', rfl, _, -, rfl⟩ := hq
  exact ⟨key, rfl, _, rfl, by simpa using c4⟩

/-- A state set after `apply_approx_lgg` (whose set is `X`) and single steps. -/
structure LggOk (m : Mode K) (d : Dyn K) (inp : Inputs K) (bt : Mat K) (β : K) (X : (ℕ → K) → Prop)
    (te : Option (TE K)) (st : SS K) : Prop where
  te : ∃ t, te = some t ∧ LggTe d bt st.stepIn t
  beta : st.lggBeta = some β
  ies : st.ies.isSome = true
  set : ∃ ρ, st.lp.Repr ρ ∧ ρ.n = d.dims ∧ ρ.B = (d.at st.stepIn).1.e ∧ ρ.Ns.length = st.stepIn ∧
    (∀ l < st.stepIn, GoodIe d bt l (ρ.Ns.getD l ⟨0, 0, fun _ _ => 0⟩)) ∧
    (ρ.Ns = [] ∨ ρ.m = inp.b.ncols + d.dims) ∧
    ∀ y v, X y → (∀ l < st.stepIn, InputBoxSet inp d.dims β (v l)) → ρ.P y v

theorem LggOk.step {m : Mode K} {d : Dyn K} {inp : Inputs K} {bt : Mat K} (hd : LggDyn m d inp bt) {β : K}
    {X : (ℕ → K) → Prop} {te te' : Option (TE K)} {st st' : SS K} (h : LggOk m d inp bt β X te st)
    (hs : st.step d m te none = .ok (te', st')) :
    LggOk m d inp bt β X te' st' ∧ st'.stepIn = st.stepIn + 1 := by
  obtain ⟨t, rfl, ht⟩ := h.te
  unfold SS.step at hs
  simp only [Option.getD_none] at hs
  rw [if_neg (by omega), if_neg (by omega)] at hs
  simp only [bind_ok, pure_ok, Prod.mk.injEq] at hs
  obtain ⟨r, hr, s1, hs1, q, hq, rfl, rfl⟩ := hs
  obtain ⟨k1, k2, ie, k3, k4⟩ := ht.next hd hr
  obtain ⟨ies, hies⟩ := Option.isSome_iff_exists.1 h.ies
  simp only [SS.stepInputs, k3, hies, bind_ok, needSome_ok, Option.some.injEq, pure_ok, h.beta,
    Nat.sub_self, List.range'_zero, ieLoop] at hq
  obtain ⟨ies', rfl, p, hp, s2, hs2, rfl⟩ := hq
  cases hp
  obtain ⟨ρ, hρ, hn, hB, hlen, hgood, hm, hpar⟩ := h.set
  have hr1 := setBasisMatrix_repr hs1 hρ
  simp only at hs2
  have hie : s1.ie.isSome = true := by
    obtain ⟨X', R', hsh, -⟩ := hr1.shape
    exact (addInputEffects_lgg_shape hs2 hd.has hd.shaped.rows hsh).2.2.2.2.2.2.2
  have hdim : s1.dims = d.dims := by rw [hr1.n]; exact hn
  have hr2 : s2.Repr ((ρ.setBasis r.2.1).addInput ie (inp.b.ncols + d.dims) (InputBoxSet inp d.dims β)) := by
    obtain ⟨X', R', hsh, -⟩ := hr1.shape
    obtain ⟨g1, g2, g3, g4, g5, g6, g7, g8⟩ := addInputEffects_lgg_shape hs2 hd.has hd.shaped.rows hsh
    rw [hdim] at g3
    refine addInput_repr hr1 hie hm ?_ g2 g3 ?_ ?_
    · rintro u w hc ⟨h1, h2⟩
      refine ⟨fun i hi => ?_, fun j hj => ?_⟩
      · have := h1 i hi
        rwa [Finset.sum_congr rfl fun c hc' => by rw [hc c (by have := Finset.mem_range.1 hc'; omega)]] at this
      · rw [← hc _ (by omega)]; exact h2 j hj
    · intro X'' R'' hX
      have := (addInputEffects_lgg_shape hs2 hd.has hd.shaped.rows hX).1
      rwa [hdim] at this
    · intro v
      rw [g5 v, hdim]
      apply and_congr_right; intro _
      unfold InputBoxSet
      apply and_congr Iff.rfl
      refine forall_congr' fun j => imp_congr_right fun hj => ?_
      rw [and_comm, neg_le, Nat.add_assoc]
  refine ⟨⟨⟨_, rfl, k1⟩, h.beta, rfl, _, hr2, hn, by rw [← k2]; rfl, by simp [Rep.addInput, Rep.setBasis, hlen], ?_, .inr rfl,
    ?_⟩, rfl⟩
  · intro l hl
    simp only at hl
    simp only [Rep.addInput, Rep.setBasis, List.getD_eq_getElem?_getD]
    by_cases hlk : l < st.stepIn
    · rw [List.getElem?_append_left (by omega), ← List.getD_eq_getElem?_getD]
      exact hgood l hlk
    · obtain rfl : l = st.stepIn := by omega
      rw [List.getElem?_append_right (by omega), hlen]
      simpa using k4
  · intro y v hy hv
    refine ⟨hpar y v hy fun l hl => hv l (by simp only; omega), ?_⟩
    have := hv st.stepIn (by simp)
    simpa [Rep.setBasis, hlen] using this

theorem LggOk.mem {m : Mode K} {d : Dyn K} {inp : Inputs K} {bt : Mat K} (hd : LggDyn m d inp bt) {β : K}
    {X : (ℕ → K) → Prop} {te : Option (TE K)} {st : SS K} (h : LggOk m d inp bt β X te st)
    {y : ℕ → K} {u w : ℕ → ℕ → K} (hy : X y) (hu : ∀ l < st.stepIn, InputSet inp (u l))
    (hw : ∀ l < st.stepIn, ∀ j < d.dims, -β ≤ w l j ∧ w l j ≤ β) :
    st.lp.Mem fun i => mulV d.dims (d.at st.stepIn).1.e y i +
      ∑ l ∈ Finset.range st.stepIn,
        mulV d.dims (d.at l).1.e (fun j => mulV inp.b.ncols bt.e (u l) j + w l j) i := by
  obtain ⟨ρ, hρ, hn, hB, hlen, hgood, hm, hpar⟩ := h.set
  rw [hρ.mem]
  refine ⟨y, fun l c => if c < inp.b.ncols then u l c else w l (c - inp.b.ncols), hpar _ _ hy fun l hl =>
    ⟨fun i hi => ?_, fun j hj => ?_⟩, fun i hi => ?_⟩
  · have := hu l hl i hi
    refine le_of_eq_of_le (Finset.sum_congr rfl fun c hc => ?_) this
    simp only [if_pos (Finset.mem_range.1 hc)]
  · have := hw l hl j hj
    simpa using this
  · rw [hn] at hi
    unfold Rep.val
    rw [hn, hB]
    simp only
    congr 1
    unfold inSum
    rw [hlen]
    refine Finset.sum_congr rfl fun l hl => ?_
    have hl := Finset.mem_range.1 hl
    have hm' : ρ.m = inp.b.ncols + d.dims := by
      rcases hm with hm | hm
      · rw [hm] at hlen; simp at hlen; omega
      · exact hm
    rw [hm', Finset.sum_range_add]
    simp only
    have hg := hgood l hl
    have hnc := hd.btNc
    rw [Finset.sum_congr (s₁ := Finset.range inp.b.ncols) rfl fun c hc => by
      rw [if_pos (Finset.mem_range.1 hc), hg.left i hi c (by rw [hnc]; exact Finset.mem_range.1 hc)]]
    rw [Finset.sum_congr (s₁ := Finset.range d.dims) rfl fun j hj => by
      rw [if_neg (show ¬ inp.b.ncols + j < inp.b.ncols by omega), Nat.add_sub_cancel_left, ← hnc,
        hg.right i hi j (Finset.mem_range.1 hj)]]
    unfold mulV
    simp only [mul_add, Finset.sum_add_distrib, Finset.mul_sum, Finset.sum_mul]
    congr 1
    rw [Finset.sum_comm]
    exact Finset.sum_congr rfl fun _ _ => Finset.sum_congr rfl fun _ _ => by ring

/-- Unrolling `p_{j+1} = E p_j + g_j`. -/
theorem unroll {d : Dyn K} (hd : d.Laws) {p g : ℕ → ℕ → K} (k : ℕ)
    (h : ∀ j < k, ∀ i < d.dims, p (j + 1) i = mulV d.dims (d.ex 1).e (p j) i + g j i) :
    ∀ i < d.dims, p k i = mulV d.dims (d.at k).1.e (p 0) i +
      ∑ l ∈ Finset.range k, mulV d.dims (d.at l).1.e (g (k - 1 - l)) i := by
  induction k with
  | zero =>
    intro i hi
    simp only [Finset.range_zero, Finset.sum_empty, add_zero, mulV, Dyn.at, Mat.id, ite_mul, one_mul, zero_mul]
    rw [Finset.sum_ite_eq, if_pos (Finset.mem_range.2 hi)]
  | succ k ih =>
    have ih := ih fun j hj => h j (by omega)
    have hmul : ∀ l (z : ℕ → K), ∀ i < d.dims, mulV d.dims (d.ex 1).e (fun j => mulV d.dims (d.at l).1.e z j) i =
        mulV d.dims (d.at (l + 1)).1.e z i := by
      intro l z i hi
      unfold mulV
      simp only [Finset.mul_sum]
      rw [Finset.sum_comm]
      refine Finset.sum_congr rfl fun j hj => ?_
      rw [Dyn.at_one_mul hd l hi (Finset.mem_range.1 hj), Finset.sum_mul]
      exact Finset.sum_congr rfl fun _ _ => by ring
    intro i hi
    rw [h k (by omega) i hi]
    have e1 : mulV d.dims (d.ex 1).e (p k) i = mulV d.dims (d.at (k + 1)).1.e (p 0) i +
        ∑ l ∈ Finset.range k, mulV d.dims (d.at (l + 1)).1.e (g (k - 1 - l)) i := by
      rw [← hmul k (p 0) i hi, Finset.sum_congr rfl fun l _ => (hmul l (g (k - 1 - l)) i hi).symm]
      unfold mulV
      rw [Finset.sum_congr rfl fun j hj => by rw [ih j (Finset.mem_range.1 hj)]]
      simp only [mul_add, Finset.sum_add_distrib, Finset.mul_sum, mulV]
      congr 1
      rw [Finset.sum_comm]
    rw [e1, Finset.sum_range_succ', add_assoc]
    congr 1
    congr 1
    · refine Finset.sum_congr rfl fun l _ => ?_
      rw [show k + 1 - 1 - (l + 1) = k - 1 - l by omega]
    · simp only [mulV, Dyn.at, Mat.id, ite_mul, one_mul, zero_mul, Nat.add_sub_cancel, Nat.sub_zero]
      rw [Finset.sum_ite_eq, if_pos (Finset.mem_range.2 hi)]

end Hylaa
