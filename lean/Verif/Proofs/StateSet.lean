import Verif.Proofs.Flow
import Verif.Proofs.Guard

/-! State sets under `step` and `intersect_invariant`. -/

set_option linter.unusedSectionVars false

namespace Hylaa
open Spec
variable {K : Type} [Field K] [LinearOrder K]

theorem addInit_up {lp : Lp K} {ρ : Rep K} {vec : List K} {rhs : K} {bm : Mat K}
    {ies : Option (List (Mat K))} {s : Sys K} {row : ℕ}
    (ha : addInitConstraint lp.toSys vec rhs bm ies none = .ok (s, row)) (hs : lp.Repr ρ)
    (hbm : bm.nr = ρ.n) : s.UpRow row ∧ ∀ i, lp.UpRow i → s.UpRow i := by
  obtain ⟨X, R, hsh, -⟩ := hs.shape
  obtain ⟨c, hc, hvl, rfl, rfl⟩ := addInitConstraint_none ha
  have hnd := hc.nodup (by rw [hbm, hs.n]) hsh.colsLe fun p hp => (hsh.iePos p hp).1
  have hr := hsh.rowsLe
  constructor
  · refine ⟨(⟨.up, rhs, []⟩ : LRow K).withCoefs c, by simp [Sys.numRows], rfl,
      withCoefs_nodup hnd, ?_⟩
    rintro (⟨h1, h2⟩ | ⟨p, hp, h1, h2⟩)
    · simp only at h1 h2; omega
    · simp only at hp h1 h2; have := hsh.iePos p hp; omega
  · intro i hi
    obtain ⟨r, hr, h1, h2, h3⟩ := hi
    have hil : i < lp.rows.length := by
      by_contra hcc; rw [List.getElem?_eq_none (by omega)] at hr; cases hr
    exact ⟨r, by simp only; rw [List.getElem?_append_left hil]; exact hr, h1, h2, h3⟩

theorem setBasis_up {s s' : Sys K} {ρ : Rep K} {M : Mat K} (hb : setBasisMatrix s M = .ok s')
    (hs : s.Repr ρ) {i : ℕ} (hi : s.UpRow i) : s'.UpRow i := by
  obtain ⟨X, R, hsh, -⟩ := hs.shape
  obtain ⟨-, hsv, -, -, -, -, -, hkeep⟩ := setBasisMatrix_shape hb hsh
  obtain ⟨r, hr, h1, h2, h3⟩ := hi
  exact ⟨r, by rw [← hr]; exact hkeep i h3, h1, h2, by rw [hsv.special]; exact h3⟩

/-- The dynamics `d` are those of mode `m`. -/
structure Dyn.For (d : Dyn K) (m : Mode K) : Prop where
  laws : d.Laws
  wf : m.InvWF d.dims
  pos : 0 < d.dims
  inp : ∀ N, d.nmat = some N → ∃ inp, m.inputs = some inp ∧ inp.b.ncols = N.nc
  noInp : d.nmat = none → m.inputs = none

/-- The state's bookkeeping is consistent with being `stepIn` steps into the mode; `ρ` describes its
set. -/
structure SS.Sh (d : Dyn K) (st : SS K) (ρ : Rep K) : Prop where
  repr : st.lp.Repr ρ
  obj : st.lp.ObjInv
  rows : ∀ (i r : ℕ), st.invRows[i]? = some (some r) → st.lp.UpRow r
  lgg : st.lggBeta = none
  basis : st.basis = some (d.at st.stepIn).1
  n : ρ.n = d.dims
  B : ρ.B = (d.at st.stepIn).1.e
  Ns : ρ.Ns = d.iesTo st.stepIn
  ies : st.ies = d.nmat.map fun _ => d.iesTo st.stepIn
  m : ρ.Ns = [] ∨ ρ.m = d.inputs

theorem SS.Sh.val {d : Dyn K} {st : SS K} {ρ : Rep K} (h : st.Sh d ρ) (y : ℕ → K)
    (v : ℕ → ℕ → K) (i : ℕ) : ρ.val y v i = d.val st.stepIn y v i := by
  unfold Rep.val Dyn.val
  rw [h.n, h.B]
  congr 1
  rcases h.m with h1 | h1
  · rw [← h.Ns, h1]; simp [inSum]
  · rw [h1, h.Ns]

/-- Membership in terms of parameters. -/
theorem SS.Sh.mem {d : Dyn K} {st : SS K} {ρ : Rep K} (h : st.Sh d ρ) (x : ℕ → K) :
    st.lp.Mem x ↔ ∃ y v, ρ.P y v ∧ ∀ i < d.dims, x i = d.val st.stepIn y v i := by
  rw [h.repr.mem]
  unfold Rep.Mem
  simp only [h.n, h.val]

theorem Dyn.iesTo_succ {d : Dyn K} {N : Mat K} (hN : d.nmat = some N) (k : ℕ) :
    d.iesTo (k + 1) = d.iesTo k ++ [((d.at (k + 1)).2).getD zeroMat] := by
  simp [Dyn.iesTo, hN, List.range_succ]

theorem Dyn.iesTo_length {d : Dyn K} {N : Mat K} (hN : d.nmat = some N) (k : ℕ) :
    (d.iesTo k).length = k := by
  simp [Dyn.iesTo, hN]

theorem Dyn.iesTo_none {d : Dyn K} (hN : d.nmat = none) (k : ℕ) : d.iesTo k = [] := by
  simp [Dyn.iesTo, hN]

theorem admissible_iff {m : Mode K} {inp : Inputs K} (h : m.inputs = some inp) (u : ℕ → K) :
    Admissible m u ↔ inp.Ok u := by
  unfold Admissible
  rw [h]
  exact ⟨fun h => h inp rfl, fun h q hq => by cases hq; exact h⟩

/-- The state of the LP while inputs of steps `1 … k` have been added. -/
structure Part (d : Dyn K) (s : Sys K) (ρ : Rep K) (k : ℕ) : Prop where
  repr : s.Repr ρ
  n : ρ.n = d.dims
  Ns : ρ.Ns = d.iesTo k
  m : ρ.Ns = [] ∨ ρ.m = d.inputs

theorem Part.add {d : Dyn K} {m : Mode K} (hd : d.For m) {N : Mat K} (hN : d.nmat = some N)
    {s s' : Sys K} {ρ : Rep K} {k : ℕ} (h : Part d s ρ k)
    (ha : addInputEffects s (((d.at (k + 1)).2).getD zeroMat) m none = .ok s') :
    ∃ ρ', Part d s' ρ' (k + 1) ∧ ρ'.B = ρ.B ∧
      (∀ y v, ρ'.P y v ↔ ρ.P y v ∧ Admissible m (v k)) ∧ (∀ i, s.UpRow i → s'.UpRow i) := by
  obtain ⟨inp, hi, hc⟩ := hd.inp N hN
  have hq : d.inputs = inp.b.ncols := by simp [Dyn.inputs, hN, hc]
  have h1 := addInputEffects_repr ha hi (by rw [← hq]; exact h.m) h.repr
  obtain ⟨X, R, hsh, -⟩ := h.repr.shape
  have hsv := (addInputEffects_shape ha hi hsh).2.1
  refine ⟨_, ⟨h1, h.n, ?_, .inr hq.symm⟩, rfl, ?_, fun i hi => addInput_up ha hsh.wf hsv hi⟩
  · simp only [Rep.addInput, h.Ns, Dyn.iesTo_succ hN]
  · intro y v
    rw [admissible_iff hi]
    simp only [Rep.addInput, h.Ns, Dyn.iesTo_length hN]

theorem getBasis_ok {d : Dyn K} (hd : d.Laws) {t : Option (TE K)}
    (h : ∀ u, t = some u → u.Inv d) {k : ℕ} {r : TE K × (Mat K × Option (Mat K))}
    (hr : getBasis d t k = .ok r) : r.1.Inv d ∧ r.2 = d.at k := by
  obtain ⟨t', h1, h2⟩ := getBasis_spec hd h k
  rw [h1] at hr
  cases hr
  exact ⟨h2, rfl⟩

theorem ieLoop_spec {d : Dyn K} {m : Mode K} (hd : d.For m) {N : Mat K} (hN : d.nmat = some N)
    (cnt k : ℕ) {te te' : TE K} (ht : te.Inv d) {s s' : Sys K} {ρ : Rep K} (h : Part d s ρ k)
    {l : List (Mat K)}
    (hl : ieLoop d m none te s (d.iesTo k) (List.range' (k + 1) cnt) = .ok (te', s', l)) :
    te'.Inv d ∧ l = d.iesTo (k + cnt) ∧ ∃ ρ', Part d s' ρ' (k + cnt) ∧ ρ'.B = ρ.B ∧
      (∀ y v, ρ'.P y v ↔ ρ.P y v ∧ ∀ l, k ≤ l → l < k + cnt → Admissible m (v l)) ∧
      ∀ i, s.UpRow i → s'.UpRow i := by
  induction cnt generalizing k te s ρ with
  | zero =>
    simp only [List.range'_zero, ieLoop, Except.ok.injEq, Prod.mk.injEq] at hl
    obtain ⟨rfl, rfl, rfl⟩ := hl
    exact ⟨ht, rfl, ρ, h, rfl, fun y v => ⟨fun hp => ⟨hp, fun l h1 h2 => by omega⟩, fun hp => hp.1⟩,
      fun i hi => hi⟩
  | succ cnt ih =>
    simp only [List.range'_succ, ieLoop, bind_ok] at hl
    obtain ⟨r, hr, ie, hie, s1, hs1, hl⟩ := hl
    obtain ⟨h1, h2⟩ := getBasis_ok hd.laws (fun u hu => by cases hu; exact ht) hr
    rw [h2] at hie
    obtain ⟨P, hP, -⟩ := Dyn.at_ie_succ hd.laws hN k
    rw [hP] at hie
    simp only [needSome, Except.ok.injEq] at hie
    subst hie
    have hg : ((d.at (k + 1)).2).getD zeroMat = P := by rw [hP]; rfl
    rw [← hg] at hs1
    obtain ⟨ρ1, k1, k2, k3, k4⟩ := h.add hd hN hs1
    rw [← hg, ← Dyn.iesTo_succ hN] at hl
    obtain ⟨q1, q2, ρ2, q3, q4, q5, q6⟩ := ih (k + 1) h1 k1 hl
    rw [show k + 1 + cnt = k + (cnt + 1) by omega] at q2 q3 q5
    refine ⟨q1, q2, ρ2, q3, q4.trans k2, fun y v => ?_, fun i hi => q6 i (k4 i hi)⟩
    rw [q5, k3, and_assoc]
    apply and_congr_right; intro _
    constructor
    · rintro ⟨a1, a2⟩ l b1 b2
      by_cases hlk : l = k
      · subst hlk; exact a1
      · exact a2 l (by omega) b2
    · intro a
      exact ⟨a k (le_refl _) (by omega), fun l b1 b2 => a l (by omega) b2⟩

/-- **`step` to `k'`.** -/
theorem SS.Sh.step {d : Dyn K} {m : Mode K} (hd : d.For m) {te te' : Option (TE K)}
    (ht : ∀ u, te = some u → u.Inv d) {st st' : SS K} {ρ : Rep K} (h : st.Sh d ρ)
    {target : Option ℕ} (hs : st.step d m te target = .ok (te', st')) :
    (∀ u, te' = some u → u.Inv d) ∧ st.stepIn ≤ target.getD (st.stepIn + 1) ∧
    st' = { st with lp := st'.lp, basis := st'.basis, ies := st'.ies,
                    stepIn := target.getD (st.stepIn + 1),
                    steps := (st.steps.1 + (target.getD (st.stepIn + 1) - st.stepIn),
                              st.steps.2 + (target.getD (st.stepIn + 1) - st.stepIn)) } ∧
    ∃ ρ', st'.Sh d ρ' ∧ ∀ y v, ρ'.P y v ↔ ρ.P y v ∧
      ∀ l, st.stepIn ≤ l → l < st'.stepIn → Admissible m (v l) := by
  unfold SS.step at hs
  simp only at hs
  generalize hk : target.getD (st.stepIn + 1) = k at *
  split at hs
  · cases hs
  rename_i hlt
  split at hs
  · rename_i heq
    simp only [Except.ok.injEq, Prod.mk.injEq] at hs
    obtain ⟨rfl, rfl⟩ := hs
    refine ⟨ht, by omega, ?_, ρ, h, fun y v => ⟨fun hp => ⟨hp, fun l h1 h2 => by omega⟩, fun hp => hp.1⟩⟩
    subst heq
    simp
  rename_i hne
  simp only [bind_ok, pure_ok, Prod.mk.injEq] at hs
  obtain ⟨r, hr, s1, hs1, q, hq, rfl, rfl⟩ := hs
  obtain ⟨hti, hr2⟩ := getBasis_ok hd.laws ht hr
  rw [hr2] at hs1 hq
  rw [hr2]
  have hR1 := setBasisMatrix_repr hs1 h.repr
  have hU1 := fun i (hi : st.lp.UpRow i) => setBasis_up hs1 h.repr hi
  refine ⟨?_, by omega, rfl, ?_⟩
  · intro u hu
    cases hu
    unfold SS.stepInputs at hq
    cases hie : (d.at k).2 with
    | none =>
      rw [hie] at hq
      simp only [Except.ok.injEq] at hq
      rw [← hq]; exact hti
    | some ie =>
      rw [hie] at hq
      cases hN : d.nmat with
      | none =>
        have : (d.at k).2 = none := by
          match k with
          | 0 => rfl
          | 1 => exact hN
          | k + 2 => simp [Dyn.at, hN]
        rw [this] at hie; cases hie
      | some N =>
        simp only [bind_ok, pure_ok] at hq
        obtain ⟨ies, h1, ⟨te2, s2, l⟩, h2, s3, h3, rfl⟩ := hq
        rw [h.ies, hN] at h1
        simp only [needSome, Option.map_some, Except.ok.injEq] at h1
        subst h1
        rw [h.lgg] at h2
        exact (ieLoop_spec hd hN _ _ hti (ρ := ρ.setBasis (d.at k).1)
          ⟨hR1, h.n, h.Ns, h.m⟩ h2).1
  · cases hN : d.nmat with
    | none =>
      have hnone : (d.at k).2 = none := by
        match k with
        | 0 => rfl
        | 1 => exact hN
        | k + 2 => simp [Dyn.at, hN]
      rw [hnone] at hq
      simp only [SS.stepInputs, Except.ok.injEq] at hq
      subst hq
      refine ⟨ρ.setBasis (d.at k).1, ⟨hR1, h.obj, fun i r hir => hU1 r (h.rows i r hir), h.lgg, rfl,
        h.n, rfl, ?_, ?_, h.m⟩, fun y v => ⟨fun hp => ⟨hp, fun l _ _ inp hinp => ?_⟩, fun hp => hp.1⟩⟩
      · show ρ.Ns = _
        rw [h.Ns, Dyn.iesTo_none hN, Dyn.iesTo_none hN]
      · show st.ies = _
        rw [h.ies, hN]; rfl
      · rw [hd.noInp hN] at hinp; cases hinp
    | some N =>
      obtain ⟨k, rfl⟩ : ∃ j, k = j + 1 := ⟨k - 1, by omega⟩
      obtain ⟨P, hP, -⟩ := Dyn.at_ie_succ hd.laws hN k
      rw [hP] at hq
      simp only [SS.stepInputs, bind_ok, pure_ok] at hq
      obtain ⟨ies, h1, ⟨te2, s2, l⟩, h2, s3, h3, rfl⟩ := hq
      rw [h.ies, hN] at h1
      simp only [needSome, Option.map_some, Except.ok.injEq] at h1
      subst h1
      rw [h.lgg] at h2 h3
      obtain ⟨-, rfl, ρ1, k1, k2, k3, k4⟩ := ieLoop_spec hd hN _ _ hti (ρ := ρ.setBasis (d.at (k + 1)).1)
          ⟨hR1, h.n, h.Ns, h.m⟩ h2
      rw [show st.stepIn + (k + 1 - (st.stepIn + 1)) = k by omega] at k1 k3
      have hg : ((d.at (k + 1)).2).getD zeroMat = P := by rw [hP]; rfl
      simp only at h3
      rw [← hg] at h3
      obtain ⟨ρ2, q1, q2, q3, q4⟩ := k1.add hd hN h3
      refine ⟨ρ2, ⟨q1.repr, h.obj, fun i r hir => q4 r (k4 r (hU1 r (h.rows i r hir))), h.lgg, rfl,
        q1.n, q2.trans k2, q1.Ns, ?_, q1.m⟩, fun y v => ?_⟩
      · simp only [hN, Option.map_some]
        rw [Dyn.iesTo_succ hN, ← hg, show st.stepIn + (k + 1 - (st.stepIn + 1)) = k by omega]
      · rw [q3, k3]
        constructor
        · rintro ⟨⟨a1, a2⟩, a3⟩
          refine ⟨a1, fun l b1 b2 => ?_⟩
          by_cases hlk : l = k
          · subst hlk; exact a3
          · exact a2 l b1 (by simp only at b2; omega)
        · rintro ⟨a1, a2⟩
          exact ⟨⟨a1, fun l b1 b2 => a2 l b1 (by simp only; omega)⟩, a2 k (by omega) (by simp only; omega)⟩

theorem Dyn.iesTo_nc {d : Dyn K} (hd : d.Laws) (k : ℕ) : ∀ N ∈ d.iesTo k, N.nc = d.inputs := by
  cases hN : d.nmat with
  | none => rw [Dyn.iesTo_none hN]; simp
  | some N =>
    intro M hM
    simp only [Dyn.iesTo, hN, List.mem_map, List.mem_range] at hM
    obtain ⟨l, -, rfl⟩ := hM
    obtain ⟨P, h1, -, h3, -⟩ := Dyn.at_ie_succ hd hN l
    rw [h1]
    simp [Dyn.inputs, hN, h3]

variable [IsStrictOrderedRing K]

/-- **One invariant condition.** -/
theorem SS.Sh.addInv {S : Solver K} (hS : S.Honest) {T : Tols K} {d : Dyn K} {m : Mode K}
    (hd : d.For m) {st st' : SS K} {ρ : Rep K} (h : st.Sh d ρ) {idx : ℕ} {lc : LinCon K}
    (hlc : lc ∈ m.inv) {b : Bool} (hs : st.addInv S T idx lc = .ok (st', b)) :
    st' = { st with lp := st'.lp, invRows := st'.invRows } ∧
    st'.invRows.length = st.invRows.length ∧
    ∃ ρ', st'.Sh d ρ' ∧ ∀ y v, ρ'.P y v ↔ ρ.P y v ∧ dot lc.row (d.val st.stepIn y v) ≤ lc.rhs := by
  have hnc := hd.wf.ncols lc hlc
  have hP : ∀ y v, (ρ.addInit lc.vec lc.rhs (d.at st.stepIn).1 (d.iesTo st.stepIn)).P y v ↔
      ρ.P y v ∧ dot lc.row (d.val st.stepIn y v) ≤ lc.rhs := by
    intro y v
    simp only [Rep.addInit]
    apply and_congr_right; intro _
    rw [dot_eq_sum_coefAt (hd.wf.lt lc hlc)]
    apply iff_of_eq
    congr 1
    rw [h.n]
    refine Finset.sum_congr rfl fun i hi => ?_
    have hv : lc.vec.getD i 0 = coefAt lc.row i := by
      simp only [LinCon.vec, hnc]
      rw [List.getD_eq_getElem?_getD, List.getElem?_map, List.getElem?_range (Finset.mem_range.1 hi)]
      rfl
    rw [hv]
    congr 1
    unfold Dyn.val
    congr 1
    rcases h.m with h1 | h1
    · rw [← h.Ns, h1]; simp [inSum]
    · rw [h1]
  have hies : st.ies.getD [] = d.iesTo st.stepIn := by
    rw [h.ies]
    cases hN : d.nmat with
    | none => simp [Dyn.iesTo_none hN]
    | some N => simp
  have hncs : ∀ N ∈ st.ies.getD [], N.nc = ρ.m := by
    rw [hies]
    rcases h.m with h1 | h1
    · rw [← h.Ns, h1]; simp
    · rw [h1]; exact Dyn.iesTo_nc hd.laws _
  have hlen : (st.ies.getD []).length ≤ ρ.Ns.length := by rw [hies, h.Ns]
  have hbm : (d.at st.stepIn).1.nr = ρ.n := by rw [h.n]; exact (Dyn.at_shape hd.laws _).1
  simp only [SS.addInv, bind_ok] at hs
  obtain ⟨old, ho, bm, hb, hs⟩ := hs
  rw [h.basis] at hb
  simp only [needSome, Except.ok.injEq] at hb
  subst hb
  have ho' : st.invRows[idx]? = some old := by
    cases hq : st.invRows[idx]? with
    | none => rw [hq] at ho; cases ho
    | some o => rw [hq] at ho; cases ho; rfl
  have hil : idx < st.invRows.length := by
    by_contra hcc; rw [List.getElem?_eq_none (by omega)] at ho'; cases ho'
  have hset : ∀ (r' i r : ℕ), (st.invRows.set idx (some r'))[i]? = some (some r) →
      r = r' ∨ st.invRows[i]? = some (some r) := by
    intro r' i r hr
    rw [List.getElem?_set] at hr
    split at hr
    · simp only [Option.some.injEq] at hr; exact .inl hr.symm
    · exact .inr hr
  cases old with
  | none =>
    simp only [bind_ok, pure_ok, Prod.mk.injEq] at hs
    obtain ⟨⟨s', row⟩, ha, rfl, rfl⟩ := hs
    refine ⟨rfl, by simp, _, ⟨addInitConstraint_repr ha h.repr hbm hncs hlen, h.obj, ?_, h.lgg,
      h.basis, h.n, h.B, h.Ns, h.ies, h.m⟩, ?_⟩
    · intro i r hr
      obtain ⟨u1, u2⟩ := addInit_up ha h.repr hbm
      rcases hset _ i r hr with rfl | hr
      · exact u1
      · exact u2 r (h.rows i r hr)
    · rw [hies]; exact hP
  | some row =>
    simp only [bind_ok, pure_ok, Prod.mk.injEq] at hs
    obtain ⟨⟨lp', row', rep⟩, ha, rfl, rfl⟩ := hs
    obtain ⟨h1, h2, rfl, h4, -⟩ := tryReplace_repr hS ha h.repr h.obj (h.rows idx row ho') hbm hncs hlen
    refine ⟨rfl, by simp, _, ⟨h1, h2, ?_, h.lgg, h.basis, h.n, h.B, h.Ns, h.ies, h.m⟩, ?_⟩
    · intro i r hr
      rcases hset _ i r hr with rfl | hr
      · exact h4 _ (h.rows idx _ ho')
      · exact h4 r (h.rows i r hr)
    · rw [hies]; exact hP

/-- Replacing the LP by one with the same system. -/
theorem SS.Sh.withLp {d : Dyn K} {st : SS K} {ρ : Rep K} (h : st.Sh d ρ) {lp : Lp K}
    (h1 : lp.toSys = st.lp.toSys) (h2 : lp.ObjInv) : ({ st with lp := lp } : SS K).Sh d ρ :=
  ⟨by rw [h1]; exact h.repr, h2, fun i r hr => by rw [h1]; exact h.rows i r hr, h.lgg, h.basis, h.n,
    h.B, h.Ns, h.ies, h.m⟩

theorem SS.Sh.empty {d : Dyn K} {st : SS K} {ρ : Rep K} (h : st.Sh d ρ) (he : ∀ x, ¬ st.lp.Mem x)
    (y : ℕ → K) (v : ℕ → ℕ → K) : ¬ ρ.P y v :=
  fun hp => he _ ((h.mem _).2 ⟨y, v, hp, fun _ _ => rfl⟩)

/-- **The loop over the invariant's conditions.** -/
theorem invLoop_spec {S : Solver K} (hS : S.Honest) {T : Tols K} (hT : 0 ≤ T.inter) {d : Dyn K}
    {m : Mode K} (hd : d.For m) (lcs : List (LinCon K)) (hlcs : ∀ lc ∈ lcs, lc ∈ m.inv)
    {st st' : SS K} {ρ : Rep K} (h : st.Sh d ρ) {idx : ℕ} {ops ops' : List (ℕ × Bool)} {f : Bool}
    (hl : invLoop S T st idx lcs ops = .ok (st', f, ops')) :
    st' = { st with lp := st'.lp, invRows := st'.invRows } ∧
    st'.invRows.length = st.invRows.length ∧
    (∃ new, ops' = ops ++ new ∧ ∀ q ∈ new, idx ≤ q.1 ∧ q.1 < idx + lcs.length) ∧
    ∃ ρ', st'.Sh d ρ' ∧ (∀ y v, ρ'.P y v → ρ.P y v) ∧
      (∀ y v, ρ.P y v → (∀ lc ∈ lcs, dot lc.row (d.val st.stepIn y v) ≤ lc.rhs) → ρ'.P y v) ∧
      (f = true → ∀ y v, ρ'.P y v →
        ∀ lc ∈ lcs, dot lc.row (d.val st.stepIn y v) ≤ lc.rhs + T.inter) ∧
      (f = false → ∀ y v, ¬ ρ'.P y v) := by
  induction lcs generalizing st ρ idx ops with
  | nil =>
    simp only [invLoop, Except.ok.injEq, Prod.mk.injEq] at hl
    obtain ⟨rfl, rfl, rfl⟩ := hl
    exact ⟨rfl, rfl, ⟨[], by simp, by simp⟩, ρ, h, fun _ _ hp => hp, fun _ _ hp _ => hp,
      fun _ _ _ _ => by simp, fun hf => by cases hf⟩
  | cons lc lcs ih =>
    simp only [invLoop, bind_ok] at hl
    obtain ⟨⟨lp1, ans⟩, hc, hl⟩ := hl
    have hlc : lc ∈ m.inv := hlcs lc (by simp)
    obtain ⟨c1, c2, c3, c4, c5, c6⟩ := checkIntersection_spec hS h.obj
      (by have := hd.wf.nodup lc hlc; simpa [LinCon.negate, negRow, Function.comp_def] using this)
      (by
        intro p hp
        simp only [LinCon.negate, negRow, List.mem_map] at hp
        obtain ⟨q, hq, rfl⟩ := hp
        simp only [LinCon.negate]
        rw [hd.wf.ncols lc hlc]; exact hd.wf.lt lc hlc q hq) hc
    have h1 := h.withLp c1 c2
    split at hl
    · simp only [bind_ok] at hl
      obtain ⟨⟨st2, b⟩, ha, ⟨lp3, f3⟩, hf, hl⟩ := hl
      obtain ⟨a1, a2, ρ2, a3, a4⟩ := h1.addInv hS hd hlc ha
      have hk2 : st2.stepIn = st.stepIn := by rw [a1]
      obtain ⟨g1, g2, g3⟩ := isFeasible_spec hS hf a3.obj
      have h3 := a3.withLp g1 g2
      split at hl
      · rename_i hf3
        obtain ⟨b1, b2, ⟨new, b3, b3'⟩, ρ3, b4, b5, b6, b7, b8⟩ :=
          ih (fun q hq => hlcs q (by simp [hq])) h3 hl
        simp only [hk2] at b6 b7
        refine ⟨?_, b2.trans a2, ⟨(idx, b) :: new, by rw [b3]; simp, ?_⟩, ρ3, b4,
          fun y v hp => ((a4 y v).1 (b5 y v hp)).1, fun y v hp hall => ?_, fun hf y v hp q hq => ?_, b8⟩
        · rw [b1, a1]
        · intro q hq
          rcases List.mem_cons.1 hq with rfl | hq
          · simp
          · have := b3' q hq; simp only [List.length_cons]; omega
        · exact b6 y v ((a4 y v).2 ⟨hp, hall lc (by simp)⟩) fun q hq => hall q (by simp [hq])
        · rcases List.mem_cons.1 hq with rfl | hq
          · exact ((a4 y v).1 (b5 y v hp)).2.trans (le_add_of_nonneg_right hT)
          · exact b7 hf y v hp q hq
      · rename_i hf3
        simp only [pure_ok, Prod.mk.injEq] at hl
        obtain ⟨rfl, rfl, rfl⟩ := hl
        have hno : ∀ y v, ¬ ρ2.P y v := by
          apply a3.empty
          rintro x ⟨v, hv, -⟩
          exact hf3 (g3.2 ⟨v, hv⟩)
        refine ⟨by rw [a1], a2, ⟨[(idx, b)], rfl, by simp⟩, ρ2, h3, fun y v hp => ((a4 y v).1 hp).1,
          fun y v hp hall => (a4 y v).2 ⟨hp, hall lc (by simp)⟩, (fun hf => by cases hf),
          fun _ => hno⟩
    · rename_i hans
      obtain ⟨b1, b2, ⟨new, b3, b3'⟩, ρ3, b4, b5, b6, b7, b8⟩ :=
        ih (fun q hq => hlcs q (by simp [hq])) h1 hl
      refine ⟨by rw [b1], b2, ⟨new, b3, fun q hq => ?_⟩, ρ3, b4, b5, fun y v hp hall => b6 y v hp
        fun q hq => hall q (by simp [hq]), fun hf y v hp q hq => ?_, b8⟩
      · have := b3' q hq; simp only [List.length_cons]; omega
      · rcases List.mem_cons.1 hq with rfl | hq
        · have hm : st.lp.Mem (d.val st.stepIn y v) :=
            (h.mem _).2 ⟨y, v, b5 y v hp, fun _ _ => rfl⟩
          cases ans with
          | none => exact absurd hm (c4 rfl _)
          | some bb =>
            cases bb with
            | true => exact absurd rfl hans
            | false =>
              have := (c6.1 rfl).2 _ hm
              simp only [LinCon.negate, dot_negRow] at this
              linarith
        · exact b7 hf y v hp q hq

end Hylaa
