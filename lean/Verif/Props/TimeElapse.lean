import Verif.Model.Expm
import Verif.Proofs.TimeElapse
import Verif.Proofs.Dot
import Verif.Props.Tt
import Mathlib.Analysis.Matrix.Normed
import Mathlib.Analysis.SpecialFunctions.Exponential
import Mathlib.Topology.Algebra.Module.FiniteDimension

/-!
# C06: the matrices returned for step `k`
-/

set_option linter.unusedSectionVars false

namespace Hylaa
open NormedSpace Set Spec

/-! ## The exponential is entrywise differentiable -/

section
open scoped Matrix.Norms.Operator
variable {n : ℕ}

theorem entry_hasDerivAt {f : ℝ → Matrix (Fin n) (Fin n) ℝ} {f' : Matrix (Fin n) (Fin n) ℝ} {t : ℝ}
    (h : HasDerivAt f f' t) (i j : Fin n) : HasDerivAt (fun s => f s i j) (f' i j) t := by
  have h1 := (LinearMap.toContinuousLinearMap
    (Matrix.entryLinearMap ℝ ℝ i j : Matrix (Fin n) (Fin n) ℝ →ₗ[ℝ] ℝ)).hasFDerivAt.comp_hasDerivAt t h
  exact h1

theorem exp_entry_deriv (M : Matrix (Fin n) (Fin n) ℝ) (i j : Fin n) (t : ℝ) :
    HasDerivAt (fun s : ℝ => exp (s • M) i j) ((exp (t • M) * M) i j) t :=
  entry_hasDerivAt (hasDerivAt_exp_smul_const M t) i j

theorem exp_entry_deriv' (M : Matrix (Fin n) (Fin n) ℝ) (i j : Fin n) (t : ℝ) :
    HasDerivAt (fun s : ℝ => exp (s • M) i j) ((M * exp (t • M)) i j) t :=
  entry_hasDerivAt (hasDerivAt_exp_smul_const' M t) i j

end

theorem exp_smul_succ {n : ℕ} (M : Matrix (Fin n) (Fin n) ℝ) (k : ℕ) :
    exp (((k + 1 : ℕ) : ℝ) • M) = exp ((k : ℝ) • M) * exp M := by
  rw [← Matrix.exp_add_of_commute _ _ ((Commute.refl M).smul_left _)]
  congr 1
  push_cast
  rw [add_smul, one_smul]

theorem exp_smul_pow {n : ℕ} (M : Matrix (Fin n) (Fin n) ℝ) (k : ℕ) :
    exp ((k : ℝ) • M) = exp M ^ k := by
  induction k with
  | zero => simp [exp_zero]
  | succ k ih => rw [exp_smul_succ, ih, pow_succ]

theorem ofSquare_mul {n : ℕ} (M N : Matrix (Fin n) (Fin n) ℝ) :
    (ofSquare M).mul (ofSquare N) = ofSquare (M * N) := by
  unfold Mat.mul ofSquare
  simp only [Mat.mk.injEq, true_and]
  funext i k
  rw [Finset.sum_range]
  split
  · rename_i h
    rw [Matrix.mul_apply]
    exact Finset.sum_congr rfl fun j _ => by simp [h.1, h.2]
  · rename_i h
    apply Finset.sum_eq_zero
    intro j _
    by_cases hi : i < n
    · have : ¬ k < n := fun hk => h ⟨hi, hk⟩
      simp [this]
    · simp [hi]

theorem dynOf_laws {a : Csr ℝ} {inp : Option (Inputs ℝ)} {τ : ℝ}
    (hin : ∀ i, inp = some i → 0 < i.b.ncols) : (dynOf a inp τ).Laws where
  shape _ := ⟨rfl, rfl⟩
  pow k := by
    simp only [dynOf]
    rw [ofSquare_mul, show k + 2 = (k + 1) + 1 from rfl, exp_smul_succ]
    simp
  inShape N hN := by
    cases inp with
    | none => cases hN
    | some i => simp [dynOf] at hN; subst hN; exact ⟨rfl, hin i rfl⟩

/-! ## Sequences of requests -/

/-- Answers to a sequence of `get_basis_matrix` requests, stopping at an exception.
time_elapse.py:28-60 -/
def requests {K : Type} [Field K] [LinearOrder K] (d : Dyn K) (t : Option (TE K)) :
    List ℕ → Except Err (List (Mat K × Option (Mat K)))
  | [] => .ok []
  | k :: ks => do
    let r ← getBasis d t k
    let l ← requests d (some r.1) ks
    return r.2 :: l

theorem requests_eq {K : Type} [Field K] [LinearOrder K] {d : Dyn K} (hd : d.Laws) (ks : List ℕ) :
    ∀ t : Option (TE K), (∀ u, t = some u → u.Inv d) → requests d t ks = .ok (ks.map d.at) := by
  induction ks with
  | nil => intro t _; rfl
  | cons k ks ih =>
    intro t ht
    obtain ⟨t', h1, h2⟩ := getBasis_spec hd ht k
    simp only [requests, bind_ok, pure_ok]
    exact ⟨_, h1, _, ih (some t') (fun u hu => by cases hu; exact h2), rfl⟩

/-- The matrices a request for step `k` must return: `E^k` with `E` the exponential of `τ A`, and
`E^(k-1) N` for `k ≥ 1`, where column `c` of `N` is the last column of the exponential of
`τ [[A, b_c], [0, 0]]`. -/
structure Spec.StepMats (a : Csr ℝ) (inp : Option (Inputs ℝ)) (τ : ℝ) (k : ℕ)
    (r : Mat ℝ × Option (Mat ℝ)) : Prop where
  shape : r.1.nr = a.nrows ∧ r.1.nc = a.nrows
  basis : ∀ i j : Fin a.nrows, r.1.e i j = (exp (τ • aMat a) ^ k) i j
  noInputs : k = 0 ∨ inp = none → r.2 = none
  inputs : ∀ p, inp = some p → 0 < k → ∃ N, r.2 = some N ∧ N.nr = a.nrows ∧ N.nc = p.b.ncols ∧
    ∀ (i : Fin a.nrows) (c : ℕ), c < p.b.ncols →
      N.e i c = ∑ j : Fin a.nrows, (exp (τ • aMat a) ^ (k - 1)) i j *
        exp (τ • augMat a p.b c) j.castSucc (Fin.last _)

theorem dynOf_at (a : Csr ℝ) (inp : Option (Inputs ℝ)) (τ : ℝ) (k : ℕ) :
    StepMats a inp τ k ((dynOf a inp τ).at k) := by
  have hE : ∀ k, ∀ i j : Fin a.nrows, ((dynOf a inp τ).ex k).e i j = (exp (τ • aMat a) ^ k) i j := by
    intro k i j
    simp only [dynOf, ofSquare]
    rw [dif_pos ⟨i.2, j.2⟩, exp_smul_pow]
  match k with
  | 0 =>
    refine ⟨⟨rfl, rfl⟩, fun i j => ?_, fun _ => rfl, fun _ _ h => absurd h (by omega)⟩
    simp [Dyn.at, Mat.id, Matrix.one_apply, Fin.ext_iff]
  | 1 =>
    refine ⟨⟨rfl, rfl⟩, hE 1, ?_, ?_⟩
    · rintro (h | rfl)
      · omega
      · rfl
    · rintro p rfl -
      refine ⟨_, rfl, rfl, rfl, fun i c _ => ?_⟩
      simp only [inputEffects, Nat.sub_self, pow_zero]
      rw [dif_pos i.2, Finset.sum_eq_single i]
      · simp [Matrix.one_apply, Fin.castSucc, Fin.castAdd, Fin.castLE]
      · intro j _ hj; rw [Matrix.one_apply_ne (Ne.symm hj)]; ring
      · simp
  | k + 2 =>
    refine ⟨⟨rfl, rfl⟩, hE (k + 2), ?_, ?_⟩
    · rintro (h | rfl)
      · omega
      · rfl
    · rintro p rfl -
      refine ⟨_, rfl, rfl, rfl, fun i c _ => ?_⟩
      simp only [Dyn.at, Mat.mul]
      rw [show ((dynOf a (some p) τ).ex (k + 1)).nc = a.nrows from rfl, Finset.sum_range]
      apply Finset.sum_congr rfl
      intro j _
      rw [hE (k + 1) i j]
      simp [inputEffects, Fin.castSucc, Fin.castAdd, Fin.castLE]

/-- **C06.** For every sequence of requests (any order, repetitions, gaps) nothing is raised and
every answer is the pair of matrices of the requested step. -/
theorem C06_time_elapse {a : Csr ℝ} {inp : Option (Inputs ℝ)} {τ : ℝ}
    (hin : ∀ p, inp = some p → 0 < p.b.ncols) (ks : List ℕ) :
    ∃ rs, requests (dynOf a inp τ) none ks = .ok rs ∧ rs.length = ks.length ∧
      ∀ (q : ℕ) (h : q < ks.length) (h' : q < rs.length), StepMats a inp τ ks[q] rs[q] := by
  refine ⟨_, requests_eq (dynOf_laws hin) ks none (by simp), by simp, ?_⟩
  intro q h h'
  rw [List.getElem_map]
  exact dynOf_at a inp τ _

/-! ## The matrices solve the differential equation -/

theorem aMat_mul {a : Csr ℝ} (hwf : a.WF) (hsq : a.ncols = a.nrows) (x : ℕ → ℝ) (i : Fin a.nrows) :
    dot (a.row i) x = ∑ j : Fin a.nrows, aMat a i j * x j := by
  have : ∀ p ∈ a.row i, p.1 < a.nrows := by
    intro p hp
    have hi : (i : ℕ) < a.rows.length := i.2
    unfold Csr.row at hp
    rw [List.getD_eq_getElem?_getD, List.getElem?_eq_getElem hi] at hp
    rw [← hsq]; exact hwf _ (List.getElem_mem hi) p hp
  rw [dot_eq_sum_coefAt this, Finset.sum_range]
  rfl

/-- Solutions of `x' = A x` starting at `0` stay at `0`. -/
theorem solves_zero {a : Csr ℝ} (hwf : a.WF) (hsq : a.ncols = a.nrows) {T : ℝ}
    {z : ℝ → ℕ → ℝ} (h : Solves a (fun _ _ => 0) T z) (h0 : ∀ i < a.nrows, z 0 i = 0) :
    ∀ t ∈ Icc 0 T, ∀ i < a.nrows, z t i = 0 := by
  have hw : ∀ i : Fin a.nrows, ∀ t ∈ Icc 0 T,
      ∑ j : Fin a.nrows, exp (t • (-aMat a)) i j * z t j =
        ∑ j : Fin a.nrows, exp ((0 : ℝ) • (-aMat a)) i j * z 0 j := by
    intro i
    apply constant_of_has_deriv_right_zero (f := fun t => ∑ j : Fin a.nrows,
      exp (t • (-aMat a)) i j * z t j)
    · apply continuousOn_finsetSum
      intro j _
      refine ContinuousOn.mul ?_ (h.cont j j.2)
      exact fun t _ => (exp_entry_deriv (-aMat a) i j t).continuousAt.continuousWithinAt
    · intro t ht
      have hd : ∀ j : Fin a.nrows, HasDerivWithinAt (fun s => exp (s • (-aMat a)) i j * z s j)
          ((exp (t • (-aMat a)) * (-aMat a)) i j * z t j +
            exp (t • (-aMat a)) i j * (dot (a.row j) (z t) + 0)) (Ici t) t := fun j =>
        ((exp_entry_deriv (-aMat a) i j t).hasDerivWithinAt).mul (h.deriv j j.2 t ht)
      have hs := HasDerivWithinAt.fun_sum fun j (_ : j ∈ Finset.univ) => hd j
      convert hs using 1
      rw [Finset.sum_add_distrib]
      simp only [aMat_mul hwf hsq, add_zero, Matrix.mul_apply, Finset.sum_mul, Finset.mul_sum,
        Matrix.neg_apply]
      rw [Finset.sum_comm, ← Finset.sum_add_distrib]
      symm
      apply Finset.sum_eq_zero
      intro j _
      rw [← Finset.sum_add_distrib]
      apply Finset.sum_eq_zero
      intro l _
      ring
  intro t ht i hi
  have hw0 : ∀ i : Fin a.nrows, ∑ j : Fin a.nrows, exp (t • (-aMat a)) i j * z t j = 0 := by
    intro i
    rw [hw i t ht]
    exact Finset.sum_eq_zero fun j _ => by rw [h0 j j.2, mul_zero]
  have hinv : exp (t • aMat a) * exp (t • (-aMat a)) = 1 := by
    rw [← Matrix.exp_add_of_commute _ _ (((Commute.refl (aMat a)).neg_right.smul_left t).smul_right t)]
    rw [smul_neg, add_neg_cancel, exp_zero]
  have := calc z t i
    _ = ∑ j : Fin a.nrows, (1 : Matrix (Fin a.nrows) (Fin a.nrows) ℝ) ⟨i, hi⟩ j * z t j := by
        rw [Finset.sum_eq_single ⟨i, hi⟩]
        · simp
        · intro j _ hj; rw [Matrix.one_apply_ne (Ne.symm hj)]; ring
        · simp
    _ = ∑ l : Fin a.nrows, exp (t • aMat a) ⟨i, hi⟩ l *
          ∑ j : Fin a.nrows, exp (t • (-aMat a)) l j * z t j := by
        rw [← hinv]
        simp only [Matrix.mul_apply, Finset.sum_mul, Finset.mul_sum]
        rw [Finset.sum_comm]
        exact Finset.sum_congr rfl fun _ _ => Finset.sum_congr rfl fun _ _ => by ring
    _ = 0 := Finset.sum_eq_zero fun l _ => by rw [hw0 l, mul_zero]
  exact this

theorem aug_last (a b : Csr ℝ) (c : ℕ) (t : ℝ) :
    exp (t • augMat a b c) (Fin.last _) (Fin.last _) = 1 := by
  have hd : ∀ s : ℝ, HasDerivAt (fun s : ℝ => exp (s • augMat a b c) (Fin.last _) (Fin.last _)) 0 s := by
    intro s
    have := exp_entry_deriv' (augMat a b c) (Fin.last _) (Fin.last _) s
    have h0 : (augMat a b c * exp (s • augMat a b c)) (Fin.last _) (Fin.last _) = 0 := by
      rw [Matrix.mul_apply]
      exact Finset.sum_eq_zero fun j _ => by simp [augMat]
    rwa [h0] at this
  have := is_const_of_deriv_eq_zero (fun s => (hd s).differentiableAt) (fun s => (hd s).deriv) t 0
  rw [this]; simp [exp_zero]

theorem aug_deriv {a b : Csr ℝ} (c : ℕ) (i : Fin a.nrows) (t : ℝ) :
    HasDerivAt (fun s : ℝ => exp (s • augMat a b c) i.castSucc (Fin.last _))
      ((∑ j : Fin a.nrows, aMat a i j * exp (t • augMat a b c) j.castSucc (Fin.last _)) +
        coefAt (b.row i) c) t := by
  have := exp_entry_deriv' (augMat a b c) i.castSucc (Fin.last _) t
  rw [Matrix.mul_apply, Fin.sum_univ_castSucc, aug_last] at this
  convert this using 1
  congr 1
  · exact Finset.sum_congr rfl fun j _ => by simp [augMat, aMat]
  · simp [augMat]

/-- `e^{At} x0 + N(t) u`. -/
noncomputable def flow (a b : Csr ℝ) (x0 u : ℕ → ℝ) (t : ℝ) (i : ℕ) : ℝ :=
  if h : i < a.nrows then (∑ j : Fin a.nrows, exp (t • aMat a) ⟨i, h⟩ j * x0 j) +
    ∑ c ∈ Finset.range b.ncols, exp (t • augMat a b c) ⟨i, by omega⟩ (Fin.last _) * u c
  else 0

theorem flow_solves {a b : Csr ℝ} (hwf : a.WF) (hsq : a.ncols = a.nrows) (hb : b.WF)
    (x0 u : ℕ → ℝ) (T : ℝ) : Solves a (fun _ i => dot (b.row i) u) T (flow a b x0 u) := by
  have hd : ∀ (i : ℕ) (hi : i < a.nrows) (t : ℝ), HasDerivAt (fun s => flow a b x0 u s i)
      (dot (a.row i) (flow a b x0 u t) + dot (b.row i) u) t := by
    intro i hi t
    have h1 := HasDerivAt.fun_sum fun j (_ : j ∈ (Finset.univ : Finset (Fin a.nrows))) =>
      (exp_entry_deriv' (aMat a) ⟨i, hi⟩ j t).mul_const (x0 j)
    have h2 := HasDerivAt.fun_sum fun c (_ : c ∈ Finset.range b.ncols) =>
      (aug_deriv (b := b) c ⟨i, hi⟩ t).mul_const (u c)
    have h3 := h1.add h2
    have hbr : ∀ p ∈ b.row i, p.1 < b.ncols := by
      intro p hp
      unfold Csr.row at hp
      by_cases hil : i < b.rows.length
      · rw [List.getD_eq_getElem?_getD, List.getElem?_eq_getElem hil] at hp
        exact hb _ (List.getElem_mem hil) p hp
      · rw [List.getD_eq_getElem?_getD, List.getElem?_eq_none (by omega)] at hp; simp at hp
    have hfun : (fun s => flow a b x0 u s i) = fun s =>
        (∑ j : Fin a.nrows, exp (s • aMat a) ⟨i, hi⟩ j * x0 j) +
        ∑ c ∈ Finset.range b.ncols, exp (s • augMat a b c) (Fin.castSucc ⟨i, hi⟩) (Fin.last _) * u c := by
      funext s; unfold flow; rw [dif_pos hi]; rfl
    rw [hfun]
    refine h3.congr_deriv ?_
    symm
    rw [show dot (a.row i) (flow a b x0 u t) = ∑ j : Fin a.nrows, aMat a ⟨i, hi⟩ j *
      flow a b x0 u t j from aMat_mul hwf hsq (flow a b x0 u t) ⟨i, hi⟩, dot_eq_sum_coefAt hbr]
    simp only [add_mul, Finset.sum_add_distrib, Matrix.mul_apply]
    rw [← add_assoc]
    congr 1
    have : ∀ j : Fin a.nrows, flow a b x0 u t j =
        (∑ l : Fin a.nrows, exp (t • aMat a) j l * x0 l) +
        ∑ c ∈ Finset.range b.ncols, exp (t • augMat a b c) j.castSucc (Fin.last _) * u c := by
      intro j; unfold flow; rw [dif_pos j.2]; rfl
    simp only [this, mul_add, Finset.sum_add_distrib, Finset.mul_sum, Finset.sum_mul]
    congr 1
    · rw [Finset.sum_comm]
      exact Finset.sum_congr rfl fun _ _ => Finset.sum_congr rfl fun _ _ => by ring
    · rw [Finset.sum_comm]
      exact Finset.sum_congr rfl fun _ _ => Finset.sum_congr rfl fun _ _ => by ring
  exact ⟨fun i hi t _ => (hd i hi t).continuousAt.continuousWithinAt,
    fun i hi t _ => (hd i hi t).hasDerivWithinAt⟩

theorem flow_zero {a b : Csr ℝ} (x0 u : ℕ → ℝ) : ∀ i < a.nrows, flow a b x0 u 0 i = x0 i := by
  intro i hi
  unfold flow
  rw [dif_pos hi]
  simp only [zero_smul, exp_zero]
  rw [Finset.sum_eq_single ⟨i, hi⟩]
  · have : ∑ c ∈ Finset.range b.ncols,
        (1 : Matrix (Fin (a.nrows + 1)) (Fin (a.nrows + 1)) ℝ) ⟨i, by omega⟩ (Fin.last _) * u c = 0 := by
      apply Finset.sum_eq_zero
      intro c _
      rw [Matrix.one_apply_ne]
      · ring
      · intro h; simp [Fin.ext_iff] at h; omega
    rw [this]; simp
  · intro j _ hj; rw [Matrix.one_apply_ne (Ne.symm hj)]; ring
  · simp

/-- The solution from `x0` with constant input `u` is unique. -/
theorem flow_unique {a b : Csr ℝ} (hwf : a.WF) (hsq : a.ncols = a.nrows) (hb : b.WF) {τ : ℝ}
    (hτ : 0 ≤ τ) {x0 u : ℕ → ℝ} {x : ℝ → ℕ → ℝ} (hx : Solves a (fun _ i => dot (b.row i) u) τ x)
    (hx0 : ∀ i < a.nrows, x 0 i = x0 i) {i : ℕ} (hi : i < a.nrows) :
    x τ i = flow a b x0 u τ i := by
  have hz : Solves a (fun _ _ => 0) τ (fun t i => x t i - flow a b x0 u t i) := by
    have hf := flow_solves hwf hsq hb x0 u τ
    refine ⟨fun j hj => (hx.cont j hj).sub (hf.cont j hj), fun j hj t ht => ?_⟩
    refine ((hx.deriv j hj t ht).sub (hf.deriv j hj t ht)).congr_deriv ?_
    have := aMat_mul hwf hsq (x t) ⟨j, hj⟩
    have h2 := aMat_mul hwf hsq (flow a b x0 u t) ⟨j, hj⟩
    have h3 := aMat_mul hwf hsq (fun i => x t i - flow a b x0 u t i) ⟨j, hj⟩
    simp only at this h2 h3
    rw [this, h2, h3]
    simp only [mul_sub, Finset.sum_sub_distrib]
    ring
  have hzero := solves_zero hwf hsq hz (fun i hi => by rw [hx0 i hi, flow_zero (b := b) x0 u i hi, sub_self]) τ
    ⟨hτ, le_refl τ⟩ i hi
  linarith

/-- **C06** (what the one-step matrices mean).  For dynamics `x' = A x + B u` with a constant input
`u` during the step, there is exactly one solution from every `x0`, and its value after one step is
`E x0 + N u` for the matrices returned for step 1. -/
theorem C06_one_step_is_flow {a : Csr ℝ} {p : Inputs ℝ} {τ : ℝ} (hτ : 0 ≤ τ) (hwf : a.WF)
    (hsq : a.ncols = a.nrows) (hb : p.b.WF) (hin : 0 < p.b.ncols) (x0 u : ℕ → ℝ) :
    ∃ E N, requests (dynOf a (some p) τ) none [1] = .ok [(E, some N)] ∧
      (∃ x, Solves a (fun _ i => dot (p.b.row i) u) τ x ∧ ∀ i < a.nrows, x 0 i = x0 i) ∧
      ∀ x, Solves a (fun _ i => dot (p.b.row i) u) τ x → (∀ i < a.nrows, x 0 i = x0 i) →
        ∀ i < a.nrows, x τ i = (∑ j ∈ Finset.range a.nrows, E.e i j * x0 j) +
          ∑ c ∈ Finset.range p.b.ncols, N.e i c * u c := by
  have hfl0 := flow_zero (a := a) (b := p.b) x0 u
  refine ⟨_, _, requests_eq (dynOf_laws (by rintro q ⟨⟩; exact hin)) [1] none (by simp),
    ⟨_, flow_solves hwf hsq hb x0 u τ, hfl0⟩, fun x hx hx0 i hi => ?_⟩
  have hxf := flow_unique hwf hsq hb hτ hx hx0 hi
  rw [hxf]
  unfold flow
  rw [dif_pos hi]
  congr 1
  · rw [Finset.sum_range]
    apply Finset.sum_congr rfl
    intro j _
    simp [ofSquare, dynOf, hi]
  · apply Finset.sum_congr rfl
    intro c _
    simp [inputEffects, hi]

end Hylaa
