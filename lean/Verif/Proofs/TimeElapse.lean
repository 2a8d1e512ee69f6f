import Verif.Model.TimeElapse
import Verif.Proofs.Inv
import Mathlib.Algebra.BigOperators.Group.Finset.Sigma

/-! Every request to the time-elapse object returns the matrices of that step. -/

set_option linter.unusedSectionVars false

namespace Hylaa
variable {K : Type} [Field K] [LinearOrder K]

theorem Mat.mul_assoc (a b c : Mat K) : (a.mul b).mul c = a.mul (b.mul c) := by
  unfold Mat.mul
  simp only [Mat.mk.injEq, true_and]
  funext i k
  simp only [Finset.sum_mul, Finset.mul_sum]
  rw [Finset.sum_comm]
  exact Finset.sum_congr rfl fun _ _ => Finset.sum_congr rfl fun _ _ => by ring

/-- What is assumed of the exponentials: shapes, and `ex (k+1) = ex k · ex 1`. -/
structure Dyn.Laws (d : Dyn K) : Prop where
  shape : ∀ k, (d.ex (k + 1)).nr = d.dims ∧ (d.ex (k + 1)).nc = d.dims
  pow : ∀ k, d.ex (k + 2) = (d.ex (k + 1)).mul (d.ex 1)
  inShape : ∀ N, d.nmat = some N → N.nr = d.dims ∧ 0 < N.nc

theorem Dyn.Laws.comm {d : Dyn K} (h : d.Laws) (k : ℕ) :
    (d.ex 1).mul (d.ex (k + 1)) = d.ex (k + 2) := by
  induction k with
  | zero => exact (h.pow 0).symm
  | succ k ih =>
    have := h.pow (k + 1)
    rw [← ih, Mat.mul_assoc, ← h.pow k] at this
    exact this.symm

/-- The matrices of step `k`. -/
def Dyn.at (d : Dyn K) : ℕ → Mat K × Option (Mat K)
  | 0 => (Mat.id d.dims, none)
  | 1 => (d.ex 1, d.nmat)
  | k + 2 => (d.ex (k + 2), d.nmat.map fun n => (d.ex (k + 1)).mul n)

/-- State of the cache after any requests. -/
structure TE.Inv (d : Dyn K) (t : TE K) : Prop where
  one : t.one = d.ex 1
  oneIe : t.oneIe = d.nmat
  lgg : t.lgg = false
  basis : t.curStep ≠ 0 → t.basis = some (d.at t.curStep).1
  ie : t.ie = (d.at t.curStep).2

theorem TE.Inv.init (d : Dyn K) : (TE.init d).Inv d :=
  ⟨rfl, rfl, rfl, fun h => absurd rfl h, rfl⟩

theorem Dyn.at_shape {d : Dyn K} (h : d.Laws) (k : ℕ) :
    (d.at k).1.nr = d.dims ∧ (d.at k).1.nc = d.dims := by
  match k with
  | 0 => exact ⟨rfl, rfl⟩
  | 1 => exact h.shape 0
  | k + 2 => exact h.shape (k + 1)

theorem Dyn.at_succ {d : Dyn K} (h : d.Laws) (k : ℕ) :
    (d.at (k + 2)).1 = (d.at (k + 1)).1.mul (d.ex 1) := by
  cases k with
  | zero => exact h.pow 0
  | succ k => exact h.pow (k + 1)

theorem Dyn.at_ie_succ {d : Dyn K} (h : d.Laws) {N : Mat K} (hN : d.nmat = some N) (k : ℕ) :
    ∃ P, (d.at (k + 1)).2 = some P ∧ P.nr = d.dims ∧ P.nc = N.nc ∧
      (d.at (k + 2)).2 = some ((d.ex 1).mul P) := by
  cases k with
  | zero => exact ⟨N, hN, (h.inShape N hN).1, rfl, by simp [Dyn.at, hN]⟩
  | succ k =>
    refine ⟨(d.ex (k + 1)).mul N, by simp [Dyn.at, hN], (h.shape k).1, rfl, ?_⟩
    simp [Dyn.at, hN, ← Mat.mul_assoc, h.comm]

theorem TE.Inv.assign {d : Dyn K} (hd : d.Laws) {t : TE K} (h : t.Inv d) (k : ℕ) :
    ∃ t', t.assign d k = .ok t' ∧ t'.Inv d ∧ t'.curStep = k ∧ t'.basis = some (d.at k).1 := by
  unfold TE.assign
  split
  · rename_i hk; subst hk
    exact ⟨_, rfl, ⟨h.one, h.oneIe, h.lgg, fun h => absurd rfl h, rfl⟩, rfl, rfl⟩
  rename_i hk0
  split
  · rename_i hk; subst hk
    refine ⟨{ t with basis := some t.one, ie := t.oneIe, curStep := 1 }, ?_,
      ⟨h.one, h.oneIe, h.lgg, fun _ => ?_, h.oneIe⟩, rfl, ?_⟩
    · simp [TE.firstIe, h.lgg, bind_ok]
    · simp [Dyn.at, h.one]
    · simp [Dyn.at, h.one]
  rename_i hk1
  obtain ⟨k, rfl⟩ : ∃ m, k = m + 2 := ⟨k - 2, by omega⟩
  have key : ∀ ie, ie = (d.at (k + 2)).2 →
      TE.Inv d { t with basis := some (d.at (k + 2)).1, ie := ie, curStep := k + 2 } :=
    fun ie hie => ⟨h.one, h.oneIe, h.lgg, fun _ => rfl, hie⟩
  split
  · rename_i hk
    have hc : t.curStep = k + 1 := by omega
    have hb := h.basis (by omega)
    have hi := h.ie
    rw [hc] at hb hi
    refine ⟨{ t with basis := some (d.at (k + 2)).1, ie := (d.at (k + 2)).2, curStep := k + 2 }, ?_,
      key _ rfl, rfl, rfl⟩
    simp only [bind_ok, pure_ok, needSome_ok, Mat.mul?, need_ok]
    refine ⟨_, hb, _, ⟨(), ?_, rfl⟩, (d.at (k + 2)).2, ?_, ?_⟩
    · rw [h.one, (Dyn.at_shape hd _).2, (hd.shape 0).1]
    · unfold TE.quickIe
      cases hN : d.nmat with
      | none => rw [hi]; cases k <;> simp [Dyn.at, hN]
      | some N =>
        obtain ⟨P, h1, h2, h3, h4⟩ := Dyn.at_ie_succ hd hN k
        simp only [bind_ok, needSome_ok, h.lgg, Bool.false_eq_true, if_false, Mat.mul?, need_ok,
          pure_ok]
        exact ⟨P, by rw [hi, h1], _, ⟨(), by rw [h.one, (hd.shape 0).2, h2], rfl⟩,
          by rw [h4, h.one]⟩
    · rw [Dyn.at_succ hd k, h.one]
  · refine ⟨{ t with basis := some (d.at (k + 2)).1, ie := (d.at (k + 2)).2, curStep := k + 2 }, ?_,
      key _ rfl, rfl, rfl⟩
    simp only [bind_ok, pure_ok, needSome_ok, Mat.mul?, need_ok]
    rw [show k + 2 - 1 = k + 1 from rfl]
    refine ⟨_, ⟨(), ?_, rfl⟩, (d.at (k + 2)).2, ?_, ?_⟩
    · rw [h.one, (hd.shape k).2, (hd.shape 0).1]
    · unfold TE.slowIe
      cases hN : d.nmat with
      | none =>
        have := h.ie
        rw [this]
        have : ∀ j, (d.at j).2 = none := by
          intro j; match j with
          | 0 => rfl
          | 1 => exact hN
          | j + 2 => simp [Dyn.at, hN]
        rw [this, this]
      | some N =>
        simp only [bind_ok, needSome_ok, Mat.mul?, need_ok, pure_ok]
        exact ⟨N, h.oneIe.trans hN, _, ⟨(), by rw [(hd.shape k).2, (hd.inShape N hN).1], rfl⟩, (),
          h.lgg, by simp [Dyn.at, hN]⟩
    · rw [h.one, show (d.at (k + 2)).1 = d.ex (k + 2) from rfl, hd.pow k]

/-- **Every request is answered with the matrices of the requested step.** -/
theorem getBasis_spec {d : Dyn K} (hd : d.Laws) {t : Option (TE K)}
    (h : ∀ u, t = some u → u.Inv d) (k : ℕ) :
    ∃ t', getBasis d t k = .ok (t', d.at k) ∧ t'.Inv d := by
  have h0 : (t.getD (TE.init d)).Inv d := by
    cases t with
    | none => exact TE.Inv.init d
    | some u => exact h u rfl
  obtain ⟨t', h1, h2, h3, h4⟩ := h0.assign hd k
  refine ⟨t', ?_, h2⟩
  simp only [getBasis, bind_ok, pure_ok]
  refine ⟨t', h1, d.at k, ?_, rfl⟩
  have hie := h2.ie
  rw [h3] at hie
  simp only [checkBasis, bind_ok, needSome_ok, assert_ok]
  refine ⟨_, h4, (), Dyn.at_shape hd k, ?_⟩
  split
  · rename_i hc
    have hno : (d.at k).2 = none := by
      match k with
      | 0 => rfl
      | k + 1 =>
        have hn : d.nmat = none := by
          cases hN : d.nmat with
          | none => rfl
          | some N =>
            have := (hd.inShape N hN).2
            simp [Dyn.inputs, hN] at hc; omega
        cases k <;> simp [Dyn.at, hn]
    simp only [bind_ok, assert_ok, pure_ok]
    exact ⟨(), by rw [hie, hno]; rfl, by rw [← hno]⟩
  · rename_i hc
    obtain ⟨hc1, hc2⟩ := not_or.1 hc
    obtain ⟨k, rfl⟩ : ∃ m, k = m + 1 := ⟨k - 1, by omega⟩
    obtain ⟨N, hN⟩ : ∃ N, d.nmat = some N := by
      cases hN : d.nmat with
      | none => simp [Dyn.inputs, hN] at hc1
      | some N => exact ⟨N, rfl⟩
    obtain ⟨P, h5, h6, h7, -⟩ := Dyn.at_ie_succ hd hN k
    simp only [bind_ok, needSome_ok, assert_ok, pure_ok]
    refine ⟨P, by rw [hie, h5], (), ⟨h6, ?_⟩, by rw [← h5]⟩
    rw [h2.lgg, h7]; simp [Dyn.inputs, hN]

end Hylaa
