import Verif.Proofs.Directions
import Verif.Proofs.Inv
import Mathlib.Analysis.Real.Sqrt
import Mathlib.Tactic.NormNum

/-!
# C55, C56: template directions for Arnoldi aggregation

`c.Ok n`: `c.sq` is the square root, the tolerance is positive, random vectors have `n` entries.
-/

namespace Hylaa
set_option linter.unusedSectionVars false
variable {K : Type} [Field K] [LinearOrder K] [IsStrictOrderedRing K]

theorem makeDirections_ok {c : DirCfg K} {fuel : ℕ} {point : List K} {a : Csr K} {r : Option (List (List K))} :
    makeDirections c fuel point a = .ok r ↔ point.length = a.ncols ∧ a.nrows = a.ncols ∧
      dirLoop c a point.length fuel { rv := [], cur := some point, k := 0 } = r := by
  simp only [makeDirections, bind_ok, pure_ok, assert_ok, need_ok, exists_and_left, exists_const]

theorem DirInv.init (c : DirCfg K) (n : ℕ) (a : Csr K) (point : List K) :
    DirInv c n a point { rv := [], cur := some point, k := 0 } :=
  ⟨.nil n, by simp, fun v hv => (by cases hv; rfl), fun i hi hh => (by
    rcases hh with hh | hh
    · exact absurd hh (by simp)
    · cases hh)⟩

theorem makeDirections_inv {c : DirCfg K} {fuel : ℕ} {point : List K} {a : Csr K} {rows : List (List K)}
    (hc : c.Ok point.length) (h : makeDirections c fuel point a = .ok (some rows)) :
    ∃ s, DirInv c point.length a point s ∧ s.rv = rows ∧ rows.length = point.length := by
  obtain ⟨h1, h2, h3⟩ := makeDirections_ok.1 h
  exact dirLoop_inv hc (by omega) (DirInv.init c _ a point) (by simp) h3

/-- If `make_direction_matrix` returns, it returns as many directions as there are dimensions; they have
length 1 and are pairwise orthogonal - for every point, every dynamics matrix (singular, nilpotent, zero, ...)
and every outcome of the random draws. -/
theorem C55_orthonormal {c : DirCfg K} {fuel : ℕ} {point : List K} {a : Csr K} {rows : List (List K)}
    (hc : c.Ok point.length) (h : makeDirections c fuel point a = .ok (some rows)) :
    rows.length = point.length ∧ Orthonormal point.length rows := by
  obtain ⟨s, h1, rfl, h3⟩ := makeDirections_inv hc h
  exact ⟨h3, h1.orth.orthonormal h1.unit⟩

/-- Hence limits in these directions limit every coordinate: no direction is missing. -/
theorem C55_bounds {c : DirCfg K} {fuel : ℕ} {point : List K} {a : Csr K} {rows : List (List K)}
    (hc : c.Ok point.length) (h : makeDirections c fuel point a = .ok (some rows))
    (x : Fin point.length → K) (b : ℕ → K)
    (hb : ∀ i (hi : i < rows.length), |vec point.length rows[i] ⬝ᵥ x| ≤ b i) (k : Fin point.length) :
    |x k| ≤ ∑ i ∈ Finset.range point.length, b i := by
  obtain ⟨h1, h2⟩ := C55_orthonormal hc h
  have hx := h2.expand h1 x
  have hk : x k = ∑ i : Fin point.length, (vec point.length (rows[(i : ℕ)]'(by omega)) ⬝ᵥ x) *
      vec point.length (rows[(i : ℕ)]'(by omega)) k := by
    conv_lhs => rw [hx]
    rw [Finset.sum_apply]
    rfl
  rw [hk, Finset.sum_range (fun i => b i)]
  refine (Finset.abs_sum_le_sum_abs _ _).trans (Finset.sum_le_sum fun i _ => ?_)
  rw [abs_mul]
  have h3 := h2.dot i i (by omega) (by omega)
  rw [if_pos rfl] at h3
  have h4 : vec point.length (rows[(i : ℕ)]'(by omega)) k * vec point.length (rows[(i : ℕ)]'(by omega)) k ≤ 1 := by
    rw [← h3]
    exact Finset.single_le_sum (f := fun j => vec point.length (rows[(i : ℕ)]'(by omega)) j *
      vec point.length (rows[(i : ℕ)]'(by omega)) j) (fun j _ => mul_self_nonneg _) (Finset.mem_univ k)
  have h5 : |vec point.length (rows[(i : ℕ)]'(by omega)) k| ≤ 1 := abs_le_one_iff_mul_self_le_one.2 h4
  calc _ ≤ |vec point.length (rows[(i : ℕ)]'(by omega)) ⬝ᵥ x| * 1 :=
        mul_le_mul_of_nonneg_left h5 (abs_nonneg _)
    _ ≤ b i := by rw [mul_one]; exact hb i (by omega)

theorem vec_applyTo {n : ℕ} {a : Csr K} (ha : a.nrows = n) (v : List K) :
    vec n (a.applyTo v) = fun k : Fin n => a.mulVec (fun j => v.getD j 0) k := by
  funext k
  rw [vec_apply, getD_lt (by rw [applyTo_length, ha]; exact k.2)]
  simp only [Csr.applyTo, List.getElem_map, Csr.mulVec, Csr.row]
  congr 1
  rw [List.getD_eq_getElem?_getD, List.getElem?_eq_getElem (by have := k.2; unfold Csr.nrows at ha; omega)]
  rfl

/-- The directions follow the dynamics: the derivative at the point is, up to `tol`, a multiple of the first
direction, and the derivative at direction `i` is, up to `tol`, a combination of the directions up to
`i + 1`. -/
theorem C55_follows_dynamics {c : DirCfg K} {fuel : ℕ} {point : List K} {a : Csr K} {rows : List (List K)}
    (hc : c.Ok point.length) (h : makeDirections c fuel point a = .ok (some rows)) (i : ℕ)
    (hi : i < point.length) :
    ∃ s ∈ rowSpan point.length (rows.take (i + 1)),
      ((fun k : Fin point.length => a.mulVec (fun j => ((point :: rows).getD i []).getD j 0) k) - s) ⬝ᵥ
      ((fun k : Fin point.length => a.mulVec (fun j => ((point :: rows).getD i []).getD j 0) k) - s)
        < c.tol * c.tol := by
  obtain ⟨h1, h2, -⟩ := makeDirections_ok.1 h
  obtain ⟨s, g1, rfl, g3⟩ := makeDirections_inv hc h
  have := g1.near i (by simp; omega) (.inl (by simp; omega))
  rw [vec_applyTo (by omega)] at this
  rw [show (point :: s.rv).getD i [] = (point :: s.rv)[i]'(by simp; omega) by
    rw [List.getD_eq_getElem?_getD, List.getElem?_eq_getElem]; rfl]
  exact this

theorem round_prefix (c : DirCfg K) (a : Csr K) (n : ℕ) (s : DirSt K) : s.rv <+: (s.round c a n).rv := by
  unfold DirSt.round
  simp only
  split
  · exact List.prefix_rfl
  · exact List.prefix_append _ _

theorem dirLoop_prefix {c : DirCfg K} {a : Csr K} {n fuel : ℕ} {s : DirSt K} {rows : List (List K)}
    (h : dirLoop c a n fuel s = some rows) : s.rv <+: rows := by
  induction fuel generalizing s with
  | zero =>
    unfold dirLoop at h
    split at h
    · cases h
    · cases h; exact List.prefix_rfl
  | succ f ih =>
    unfold dirLoop at h
    split at h
    · exact (round_prefix c a n s).trans (ih h)
    · cases h; exact List.prefix_rfl

/-- Unless it is shorter than `tol`, the derivative at the point is a positive multiple of the first
direction. -/
theorem C55_first_direction {c : DirCfg K} {fuel : ℕ} {point : List K} {a : Csr K} {rows : List (List K)}
    (hc : c.Ok point.length) (hp : point ≠ []) (h : makeDirections c fuel point a = .ok (some rows))
    (hn : c.tol * c.tol ≤ (fun k : Fin point.length => a.mulVec (fun j => point.getD j 0) k) ⬝ᵥ
      (fun k : Fin point.length => a.mulVec (fun j => point.getD j 0) k)) :
    ∃ s : K, s > 0 ∧ (fun k : Fin point.length => a.mulVec (fun j => point.getD j 0) k) =
      s • vec point.length (rows.getD 0 []) := by
  obtain ⟨h1, h2, h3⟩ := makeDirections_ok.1 h
  have ha : a.nrows = point.length := by omega
  have hl : (a.applyTo point).length = point.length := by rw [applyTo_length, ha]
  rw [← vec_applyTo ha] at hn ⊢
  have hlt : ¬ c.norm (a.applyTo point) < c.tol := tol_le hc hl hn
  have hpos : 0 < c.norm (a.applyTo point) := lt_of_lt_of_le hc.tol (not_lt.1 hlt)
  have hlen := List.length_pos_of_ne_nil hp
  refine ⟨c.norm (a.applyTo point), hpos, ?_⟩
  cases fuel with
  | zero =>
    unfold dirLoop at h3
    rw [if_pos (by simpa using hlen)] at h3
    cases h3
  | succ f =>
    unfold dirLoop at h3
    rw [if_pos (by simpa using hlen)] at h3
    have e : (DirSt.round c a point.length { rv := [], cur := some point, k := 0 }).rv =
        [(a.applyTo point).map fun x => x / c.norm (a.applyTo point)] := by
      have hlt' : ¬ c.norm (projOut [] (DirSt.cand c a point.length { rv := [], cur := some point, k := 0 }).1)
          < c.tol := hlt
      unfold DirSt.round
      simp only
      rw [if_neg hlt']; rfl
    have hpre := dirLoop_prefix h3
    rw [e] at hpre
    obtain ⟨t, ht⟩ := hpre
    rw [← ht]
    simp only [List.cons_append, List.nil_append, List.getD_cons_zero]
    rw [vec_map_div, smul_smul, mul_inv_cancel₀ hpos.ne', one_smul]

/-- `make_direction_matrix` never gets stuck: whatever the first `N` random vectors were, there are further
ones with entries in `[0, 1)`, as `np.random.rand` draws them, with which it returns.  (Whether it returns
for a given infinite sequence of draws depends on the sequence.) -/
theorem C55_can_finish {c : DirCfg K} {point : List K} {a : Csr K} (hc : c.Ok point.length)
    (h4 : 4 * point.length * (c.tol * c.tol) ≤ 1) (h1 : c.tol ≤ 1) (hp : point.length = a.ncols)
    (ha : a.nrows = a.ncols) (N : ℕ) :
    ∃ (rand : ℕ → List K) (fuel : ℕ) (rows : List (List K)), (∀ j < N, rand j = c.rand j) ∧
      (∀ j, N ≤ j → rand j ≠ c.rand j → ∀ x ∈ rand j, 0 ≤ x ∧ x < 1) ∧
      makeDirections { c with rand := rand } fuel point a = .ok (some rows) := by
  obtain ⟨rand, fuel, rows, g1, -, g3, g4⟩ := dirLoop_can (a := a) (by omega) N _ c _ hc h4 h1
    (DirInv.init c point.length a point) (by simp) le_rfl
  exact ⟨rand, fuel, rows, fun j hj => g1 j (.inl hj), fun j hj => g3 j hj (Nat.zero_le _),
    makeDirections_ok.2 ⟨hp, ha, g4⟩⟩

/-! ### C56 -/

theorem reorthogonalize_ok {c : DirCfg K} {fuel k0 n : ℕ} {mat : List (List K)}
    {r : Option (List (List K) × List (List K))} :
    reorthogonalize c fuel k0 mat n = .ok r ↔ (∀ q ∈ mat, q.length = n) ∧
      (orthLoop c n fuel { rv := [], cur := none, mat := mat, next := 0, k := k0 }).map
        (fun s => (s.rv, s.mat)) = r := by
  simp only [reorthogonalize, bind_ok, pure_ok, assert_ok, exists_and_left, exists_const]

theorem OrthInv.init {n : ℕ} {mat : List (List K)} (h : ∀ q ∈ mat, q.length = n) (k0 : ℕ) :
    OrthInv n { rv := [], cur := none, mat := mat, next := 0, k := k0 } :=
  ⟨.nil n, h, fun hh => (by cases hh)⟩

/-- `reorthogonalize_matrix`, for every matrix: the number of rows is right and they are pairwise orthogonal,
but a row may be zero instead of having length 1 (see `C56_loses_direction`). -/
theorem C56_orthogonal_partial {c : DirCfg K} {fuel k0 n : ℕ} {mat rows mat' : List (List K)} (hc : c.Ok n)
    (h : reorthogonalize c fuel k0 mat n = .ok (some (rows, mat'))) :
    rows.length = n ∧ (∀ r ∈ rows, r.length = n) ∧
      (∀ i j (hi : i < rows.length) (hj : j < rows.length), i ≠ j → vec n rows[i] ⬝ᵥ vec n rows[j] = 0) ∧
      ∀ r ∈ rows, vec n r ⬝ᵥ vec n r = 1 ∨ vec n r = 0 := by
  obtain ⟨h1, h2⟩ := reorthogonalize_ok.1 h
  obtain ⟨s, hs, he⟩ := Option.map_eq_some_iff.1 h2
  cases he
  obtain ⟨g1, g2⟩ := orthLoop_inv hc (OrthInv.init h1 k0) (by simp) hs
  refine ⟨g2, g1.orth.len, fun i j hi hj hij => ?_, g1.orth.one⟩
  rcases lt_or_gt_of_ne hij with e | e
  · exact List.pairwise_iff_getElem.1 g1.orth.pw i j hi hj e
  · rw [dotProduct_comm]; exact List.pairwise_iff_getElem.1 g1.orth.pw j i hj hi e

/-- If the first `n` rows of the argument are independent (each at least `tol` away from the span of those
before), `reorthogonalize_matrix` returns after `n` rounds, without drawing random vectors, and its result is
what is documented: orthonormal rows, in the same order; the first `j` rows span what the first `j` rows of
the argument span, and each row points in the direction of the argument's row. -/
theorem C56_independent_partial {c : DirCfg K} {n : ℕ} (k0 : ℕ) {mat : List (List K)} (hc : c.Ok n)
    (hm : ∀ q ∈ mat, q.length = n) (hn : n ≤ mat.length)
    (hfar : ∀ i (hi : i < n), ∀ v ∈ rowSpan n (mat.take i),
      c.tol * c.tol ≤ (vec n (mat[i]'(by omega)) - v) ⬝ᵥ (vec n (mat[i]'(by omega)) - v)) :
    ∃ rows mat', reorthogonalize c n k0 mat n = .ok (some (rows, mat')) ∧ rows.length = n ∧
      Orthonormal n rows ∧ (∀ j ≤ n, rowSpan n (rows.take j) = rowSpan n (mat.take j)) ∧
      ∀ j (h : j < rows.length) (h' : j < mat.length), 0 < vec n rows[j] ⬝ᵥ vec n mat[j] := by
  have h0 : GsInv c n mat 0 { rv := [], cur := none, mat := mat, next := 0, k := k0 } :=
    ⟨OrthInv.init hm k0, by simp, rfl, rfl, rfl, fun j _ => rfl, fun j hj => by
      have : j = 0 := by omega
      subst this; simp, fun j h => absurd h (by simp)⟩
  obtain ⟨s, hs, hg⟩ := orthLoop_gs hc hn hfar n h0 (Nat.zero_le _) (by omega)
  exact ⟨s.rv, s.mat, reorthogonalize_ok.2 ⟨hm, by rw [hs]; rfl⟩, hg.len, hg.inv.orth.orthonormal hg.unit,
    hg.span, hg.pos⟩

/-- `reorthogonalize_matrix` never gets stuck either. -/
theorem C56_can_finish {c : DirCfg K} {n : ℕ} (hc : c.Ok n) (h4 : 4 * n * (c.tol * c.tol) ≤ 1)
    (h1 : c.tol ≤ 1) {mat : List (List K)} (hm : ∀ q ∈ mat, q.length = n) (N : ℕ) :
    ∃ (rand : ℕ → List K) (fuel : ℕ) (rows mat' : List (List K)), (∀ j < N, rand j = c.rand j) ∧
      (∀ j, N ≤ j → rand j ≠ c.rand j → ∀ x ∈ rand j, 0 ≤ x ∧ x < 1) ∧
      reorthogonalize { c with rand := rand } fuel 0 mat n = .ok (some (rows, mat')) := by
  obtain ⟨rand, fuel, s, g1, -, g3, g4⟩ := orthLoop_can N _ c _ hc h4 h1 (OrthInv.init hm 0) (by simp)
    (Nat.zero_le _) le_rfl
  exact ⟨rand, fuel, s.rv, s.mat, fun j hj => g1 j (.inl hj), fun j hj => g3 j hj (Nat.zero_le _),
    reorthogonalize_ok.2 ⟨hm, by rw [g4]; rfl⟩⟩

theorem sq_eq {c : DirCfg K} {n : ℕ} (hc : c.Ok n) {x y : K} (hy : 0 ≤ y) (h : y * y = x) : c.sq x = y := by
  have h1 := hc.sq x (by rw [← h]; exact mul_self_nonneg _)
  exact (mul_self_inj (hc.nonneg _) hy).1 (by rw [h1, h])

/-- The documented result is not always obtained: when a row is needed beyond those of the argument and no
unit vector qualifies, the direction found last is overwritten with zero.  Here the direction `(3, 4)` is lost:
the result is `[[0, 0], [1, 0]]`. -/
theorem C56_loses_direction {c : DirCfg K} (hc : c.Ok 2) (ht : c.tol ≤ 1) :
    reorthogonalize c 3 0 [[3, 4]] 2 = .ok (some ([[0, 0], [1, 0]], [[3, 4]])) := by
  have h5 : c.sq (3 * 3 + 4 * 4) = 5 := sq_eq hc (by norm_num) (by norm_num)
  have h0 : c.sq 0 = 0 := sq_eq hc le_rfl (by norm_num)
  have h1 : c.sq 1 = 1 := sq_eq hc zero_le_one (by norm_num)
  have t5 : ¬ (5 : K) < c.tol := by linarith
  have t1 : ¬ (1 : K) < c.tol := by linarith
  have hu : unitVec 2 0 (1 : K) = [1, 0] := by simp [unitVec, List.range_succ]
  refine reorthogonalize_ok.2 ⟨by simp, ?_⟩
  have r1 : OrthSt.round c 2 { rv := [], cur := none, mat := [[3, 4]], next := 0, k := 0 } =
      { rv := [[3 / 5, 4 / 5]], cur := some [3 / 5, 4 / 5], mat := [[3, 4]], next := 1, k := 0 } := by
    simp [OrthSt.round, OrthSt.finish, projOut, DirCfg.norm, dotDense, h5, t5]
  have f1 : freeDir 2 [[(3 / 5 : K), 4 / 5]] = none := by
    simp [freeDir, List.range_succ]
  have r2 : OrthSt.round c 2 { rv := [[3 / 5, 4 / 5]], cur := some [3 / 5, 4 / 5], mat := [[3, 4]], next := 1, k := 0 } =
      { rv := [[0, 0]], cur := none, mat := [[3, 4]], next := 1, k := 0 } := by
    have e : (3 / 5 : K) - 3 / 5 * (3 / 5 * (3 / 5) + 4 / 5 * (4 / 5)) = 0 := by norm_num
    have e' : (4 / 5 : K) - 4 / 5 * (3 / 5 * (3 / 5) + 4 / 5 * (4 / 5)) = 0 := by norm_num
    simp [OrthSt.round, OrthSt.finish, projOut, projOne, DirCfg.norm, dotDense, f1, e, e', h0, hc.tol]
  have f2 : freeDir 2 [[(0 : K), 0]] = some 0 := by
    simp [freeDir, List.range_succ]
  have r3 : OrthSt.round c 2 { rv := [[0, 0]], cur := none, mat := [[3, 4]], next := 1, k := 0 } =
      { rv := [[0, 0], [1, 0]], cur := some [1, 0], mat := [[3, 4]], next := 1, k := 0 } := by
    simp [OrthSt.round, OrthSt.finish, projOut, projOne, DirCfg.norm, dotDense, f2, hu, h1, t1]
  simp [orthLoop, r1, r2, r3]

/-- The argument is overwritten: an array `[[1, 0], [3, 4]]` is `[[1, 0], [0, 4]]` afterwards. -/
theorem C56_overwrites_argument {c : DirCfg K} (hc : c.Ok 2) (ht : c.tol ≤ 1) :
    reorthogonalize c 2 0 [[1, 0], [3, 4]] 2 = .ok (some ([[1, 0], [0, 1]], [[1, 0], [0, 4]])) := by
  have h4 : c.sq (4 * 4) = 4 := sq_eq hc (by norm_num) rfl
  have h1 : c.sq 1 = 1 := sq_eq hc zero_le_one (by norm_num)
  have t4 : ¬ (4 : K) < c.tol := by linarith
  have t1 : ¬ (1 : K) < c.tol := by linarith
  refine reorthogonalize_ok.2 ⟨by simp, ?_⟩
  have r1 : OrthSt.round c 2 { rv := [], cur := none, mat := [[1, 0], [3, 4]], next := 0, k := 0 } =
      { rv := [[1, 0]], cur := some [1, 0], mat := [[1, 0], [3, 4]], next := 1, k := 0 } := by
    simp [OrthSt.round, OrthSt.finish, projOut, DirCfg.norm, dotDense, h1, t1]
  have r2 : OrthSt.round c 2 { rv := [[1, 0]], cur := some [1, 0], mat := [[1, 0], [3, 4]], next := 1, k := 0 } =
      { rv := [[1, 0], [0, 1]], cur := some [0, 1], mat := [[1, 0], [0, 4]], next := 2, k := 0 } := by
    simp [OrthSt.round, OrthSt.finish, projOut, projOne, DirCfg.norm, dotDense, h4, t4]
  simp [orthLoop, r1, r2]

/-- The directions used for aggregation: as many as the target mode has dimensions, each of that many
entries. -/
theorem C56_arnoldi_dims {c c' : ℕ → DirCfg K} {fuel call n : ℕ} {center : List K} {pre : Mode K} {a : Csr K}
    {t : Tr K} {ds : List (List K)} (hc : (c call).Ok center.length) (hc' : (c' call).Ok n) (ha : pre.a = some a)
    (hn : t.reset = none → a.ncols = n)
    (h : arnoldiDirs c c' fuel call (some center) pre t n = .ok ds) :
    ds.length = n ∧ ∀ d ∈ ds, d.length = n := by
  unfold arnoldiDirs at h
  simp only [bind_ok, needSome_ok, ha] at h
  obtain ⟨p, hp, b, hb, r, hr, rows, hrows, h⟩ := h
  cases hp; cases hb; subst hrows
  have h1 := C55_orthonormal hc hr
  obtain ⟨h2, -, -⟩ := makeDirections_ok.1 hr
  cases ht : t.reset with
  | none =>
    rw [ht] at h
    cases h
    have := hn ht
    exact ⟨by omega, fun d hd => by rw [h1.2.len d hd]; omega⟩
  | some R =>
    rw [ht] at h
    simp only [bind_ok, needSome_ok, pure_ok] at h
    obtain ⟨q, hq, m, hm, rfl⟩ := h
    subst hm
    obtain ⟨g1, g2, -⟩ := C56_orthogonal_partial hc' hq
    exact ⟨g1, g2⟩

theorem getD_at {l : List (List K)} {i : ℕ} (h : i < l.length) : l.getD i [] = l[i] := by
  simp [List.getD_eq_getElem?_getD, List.getElem?_eq_getElem h]

/-- More rounds do not change the result. -/
theorem orthLoop_more {c : DirCfg K} {n : ℕ} : ∀ {f g : ℕ} {s s' : OrthSt K}, f ≤ g →
    orthLoop c n f s = some s' → orthLoop c n g s = some s'
  | 0, 0, _, _, _, h => h
  | 0, g + 1, s, s', _, h => by
    unfold orthLoop at h ⊢
    split at h
    · cases h
    · next hl => rw [if_neg hl]; exact h
  | f + 1, g + 1, s, s', hfg, h => by
    unfold orthLoop at h ⊢
    split at h
    · next hl => rw [if_pos hl]; exact orthLoop_more (by omega) h
    · next hl => rw [if_neg hl]; exact h

theorem rowSpan_take_map {n j : ℕ} {rows : List (List K)} {R : Csr K} (hR : R.nrows = n) (hj : j ≤ rows.length) :
    rowSpan n ((projectDirs R rows).take j) = Submodule.span K ((fun i => fun k : Fin n =>
      R.mulVec (fun l => (rows.getD i []).getD l 0) k) '' {i | i < j}) := by
  unfold rowSpan
  congr 1
  ext v
  simp only [Set.mem_setOf_eq, Set.mem_image, projectDirs]
  constructor
  · rintro ⟨r, hr, rfl⟩
    obtain ⟨i, hi, rfl⟩ := List.getElem_of_mem hr
    simp only [List.length_take, List.length_map] at hi
    refine ⟨i, by omega, ?_⟩
    simp only [List.getElem_take, List.getElem_map]
    rw [vec_applyTo hR, getD_at (by omega : i < rows.length)]
  · rintro ⟨i, hi, rfl⟩
    have hi' : i < rows.length := by omega
    refine ⟨R.applyTo rows[i], ?_, ?_⟩
    · rw [List.mem_iff_getElem]
      exact ⟨i, by simp; omega, by simp⟩
    · rw [vec_applyTo hR, getD_at hi']

/-- The directions used for aggregation through a reset: if the images under the reset of the directions in the
mode before are independent (each at least `tol` away from the span of those before), the directions are
orthonormal, the first `j` of them span the images of the first `j` directions of the mode before, and each
points in the direction of the image.  (Without independence: `C56_loses_direction`.) -/
theorem C56_through_reset_partial {c c' : ℕ → DirCfg K} {fuel call n : ℕ} {center : List K} {pre : Mode K}
    {a R : Csr K} {t : Tr K} {ds : List (List K)} (hc' : (c' call).Ok n)
    (ha : pre.a = some a) (ht : t.reset = some R) (hR : R.nrows = n)
    (h : arnoldiDirs c c' fuel call (some center) pre t n = .ok ds) :
    ∃ rows, makeDirections (c call) fuel center a = .ok (some rows) ∧
      ∀ img : ℕ → Fin n → K, (∀ i k, img i k = R.mulVec (fun l => (rows.getD i []).getD l 0) k) →
        n ≤ rows.length →
        (∀ i < n, ∀ v ∈ Submodule.span K (img '' {k | k < i}),
          (c' call).tol * (c' call).tol ≤ (img i - v) ⬝ᵥ (img i - v)) →
        Orthonormal n ds ∧ (∀ j ≤ n, rowSpan n (ds.take j) = Submodule.span K (img '' {k | k < j})) ∧
          ∀ j < n, 0 < vec n (ds.getD j []) ⬝ᵥ img j := by
  unfold arnoldiDirs at h
  simp only [bind_ok, needSome_ok, ha] at h
  obtain ⟨p, hp, b, hb, r, hr, rows, hrows, h⟩ := h
  cases hp; cases hb; subst hrows
  rw [ht] at h
  simp only [bind_ok, needSome_ok, pure_ok] at h
  obtain ⟨q, hq, m, hm, rfl⟩ := h
  subst hm
  refine ⟨rows, hr, fun img himg hn hfar => ?_⟩
  obtain rfl : img = fun i => fun k : Fin n => R.mulVec (fun l => (rows.getD i []).getD l 0) k :=
    funext fun i => funext fun k => himg i k
  obtain ⟨h1, h2⟩ := reorthogonalize_ok.1 hq
  have hlen : n ≤ (projectDirs R rows).length := by simpa [projectDirs] using hn
  have hv : ∀ i (hi : i < (projectDirs R rows).length), vec n (projectDirs R rows)[i] = fun k : Fin n =>
      R.mulVec (fun l => (rows.getD i []).getD l 0) k := fun i hi => by
    have hi' : i < rows.length := by simpa [projectDirs] using hi
    simp only [projectDirs, List.getElem_map]
    rw [vec_applyTo hR, getD_at hi']
  obtain ⟨rows', mat', g1, g2, g3, g4, g5⟩ := C56_independent_partial 0 hc' h1 hlen (fun i hi v hvm => by
    rw [rowSpan_take_map hR (by omega)] at hvm
    rw [hv]
    exact hfar i hi v hvm)
  obtain ⟨-, g1⟩ := reorthogonalize_ok.1 g1
  obtain ⟨s, hs, he⟩ := Option.map_eq_some_iff.1 h2
  obtain ⟨s', hs', he'⟩ := Option.map_eq_some_iff.1 g1
  have := (orthLoop_more (le_max_left fuel n) hs).symm.trans (orthLoop_more (le_max_right fuel n) hs')
  cases this
  cases he; cases he'
  refine ⟨g3, fun j hj => ?_, fun j hj => ?_⟩
  · rw [g4 j hj, rowSpan_take_map hR (by omega)]
  · have := g5 j (by omega) (by omega)
    rw [hv] at this
    dsimp only
    rw [getD_at (by omega)]
    exact this

/-! ### Examples -/

/-- The configuration of the code, with real numbers. -/
noncomputable def exDirCfg (n : ℕ) : DirCfg ℝ := ⟨Real.sqrt, 1 / 10 ^ 6, fun _ => List.replicate n (1 / 2)⟩

theorem exDirCfg_ok (n : ℕ) : (exDirCfg n).Ok n :=
  ⟨Real.sqrt_nonneg, fun _ h => Real.mul_self_sqrt h, by norm_num [exDirCfg], fun _ => by simp [exDirCfg]⟩

/-- A rotation at the point `(3, 4)`. -/
theorem rotation_directions : makeDirections (exDirCfg 2) 2 [3, 4] ⟨2, [[(1, 1)], [(0, -1)]]⟩ =
    .ok (some [[4 / 5, -(3 / 5)], [-(3 / 5), -(4 / 5)]]) := by
  have hc := exDirCfg_ok 2
  have h5 : (exDirCfg 2).sq (4 * 4 + 3 * 3) = 5 := sq_eq hc (by norm_num) (by norm_num)
  have h1 : (exDirCfg 2).sq 1 = 1 := sq_eq hc zero_le_one (by norm_num)
  have t5 : ¬ (5 : ℝ) < (exDirCfg 2).tol := by norm_num [exDirCfg]
  have t1 : ¬ (1 : ℝ) < (exDirCfg 2).tol := by norm_num [exDirCfg]
  refine makeDirections_ok.2 ⟨rfl, rfl, ?_⟩
  have r1 : DirSt.round (exDirCfg 2) ⟨2, [[(1, 1)], [(0, -1)]]⟩ 2 { rv := [], cur := some [3, 4], k := 0 } =
      { rv := [[4 / 5, -(3 / 5)]], cur := some [4 / 5, -(3 / 5)], k := 0 } := by
    simp [DirSt.round, DirSt.cand, Csr.applyTo, dot, projOut, DirCfg.norm, dotDense, h5, t5, neg_div]
  have r2 : DirSt.round (exDirCfg 2) ⟨2, [[(1, 1)], [(0, -1)]]⟩ 2
      { rv := [[4 / 5, -(3 / 5)]], cur := some [4 / 5, -(3 / 5)], k := 0 } =
      { rv := [[4 / 5, -(3 / 5)], [-(3 / 5), -(4 / 5)]], cur := some [-(3 / 5), -(4 / 5)], k := 0 } := by
    have e : (3 / 5 : ℝ) * (3 / 5) + 4 / 5 * (4 / 5) = 1 := by norm_num
    have e2 : -((4 / 5 : ℝ) * (3 / 5)) + 3 / 5 * (4 / 5) = 0 := by norm_num
    simp [DirSt.round, DirSt.cand, Csr.applyTo, dot, projOut, projOne, DirCfg.norm, dotDense, e, e2, h1, t1]
  simp [dirLoop, r1, r2]

/-- The rotation with a reset to one variable `x' = x` (the image of the first direction is `4/5`). -/
example : ∃ ds, arnoldiDirs (fun _ => exDirCfg 2) (fun _ => exDirCfg 1) 2 0 (some [3, 4])
      { name := "m", id := 0, a := some ⟨2, [[(1, 1)], [(0, -1)]]⟩ }
      { src := 0, dst := 1, index := 0, reset := some ⟨2, [[(0, 1)]]⟩ } 1 = .ok ds ∧
    ∃ img : ℕ → Fin 1 → ℝ, (∀ i k, img i k = (⟨2, [[(0, 1)]]⟩ : Csr ℝ).mulVec
        (fun l => (([[4 / 5, -(3 / 5)], [-(3 / 5), -(4 / 5)]] : List (List ℝ)).getD i []).getD l 0) k) ∧
      ∀ i < 1, ∀ v ∈ Submodule.span ℝ (img '' {k | k < i}),
        (exDirCfg 1).tol * (exDirCfg 1).tol ≤ (img i - v) ⬝ᵥ (img i - v) := by
  have h1 : (exDirCfg 1).sq (4 / 5 * (4 / 5)) = 4 / 5 := sq_eq (exDirCfg_ok 1) (by norm_num) rfl
  have t1 : ¬ (4 / 5 : ℝ) < (exDirCfg 1).tol := by norm_num [exDirCfg]
  have e : reorthogonalize (exDirCfg 1) 2 0
      (projectDirs ⟨2, [[(0, 1)]]⟩ [[4 / 5, -(3 / 5)], [-(3 / 5), -(4 / 5)]]) 1 =
        .ok (some ([[1]], [[4 / 5], [-(3 / 5)]])) := by
    refine reorthogonalize_ok.2 ⟨by simp [projectDirs, Csr.applyTo], ?_⟩
    simp [projectDirs, Csr.applyTo, dot, orthLoop, OrthSt.round, OrthSt.finish, projOut, DirCfg.norm, dotDense,
      h1, t1]
  refine ⟨[[1]], ?_, _, fun _ _ => rfl, fun i hi v hv => ?_⟩
  · simp only [arnoldiDirs, bind_ok, needSome_ok, pure_ok]
    exact ⟨_, rfl, _, rfl, _, rotation_directions, _, rfl, _, e, _, rfl, rfl⟩
  · obtain rfl : i = 0 := by omega
    have : v = 0 := by simpa using hv
    subst this
    norm_num [dotProduct, Csr.mulVec, Csr.row, dot, exDirCfg]

/-- The bound on `tol` of the claims about termination holds for up to 10^11 dimensions. -/
example (n : ℕ) (hn : n ≤ 10 ^ 11) : 4 * n * ((exDirCfg n).tol * (exDirCfg n).tol) ≤ 1 := by
  have : (n : ℝ) ≤ 10 ^ 11 := by exact_mod_cast hn
  simp only [exDirCfg]
  norm_num
  linarith

/-- Independent rows: the identity. -/
example (i : ℕ) (hi : i < 2) : ∀ v ∈ rowSpan 2 (([[1, 0], [0, 1]] : List (List ℝ)).take i),
    (exDirCfg 2).tol * (exDirCfg 2).tol ≤ (vec 2 (([[1, 0], [0, 1]] : List (List ℝ))[i]) - v) ⬝ᵥ
      (vec 2 (([[1, 0], [0, 1]] : List (List ℝ))[i]) - v) := by
  intro v hv
  have ht : (exDirCfg 2).tol * (exDirCfg 2).tol ≤ 1 := by norm_num [exDirCfg]
  have hi2 : i = 0 ∨ i = 1 := by omega
  rcases hi2 with rfl | rfl
  · have : v = 0 := by simpa [rowSpan] using hv
    subst this
    refine ht.trans ?_
    simp [dotProduct, Fin.sum_univ_two, vec]
  · have h1 : v 1 = 0 := by
      refine Submodule.span_induction (p := fun v _ => v 1 = 0) ?_ rfl ?_ ?_ hv
      · rintro v ⟨r, hr, rfl⟩
        simp at hr
        subst hr
        simp [vec]
      · intro x y _ _ hx hy; simp [hx, hy]
      · intro a x _ hx; simp [hx]
    refine ht.trans ?_
    simp [dotProduct, Fin.sum_univ_two, vec, h1]
    exact mul_self_nonneg _

end Hylaa
