import Verif.Model.Basic
import Mathlib.Algebra.BigOperators.Intervals
import Mathlib.Tactic.LinearCombination

/-! Lemmas about sparse rows. -/

set_option linter.unusedSectionVars false

namespace Hylaa
variable {K : Type} [Field K]

@[simp] theorem dot_nil (v : ℕ → K) : dot [] v = 0 := rfl

@[simp] theorem dot_cons (p : ℕ × K) (r : SRow K) (v : ℕ → K) :
    dot (p :: r) v = p.2 * v p.1 + dot r v := by simp [dot]

@[simp] theorem dot_append (r s : SRow K) (v : ℕ → K) : dot (r ++ s) v = dot r v + dot s v := by
  simp [dot]

theorem dot_congr {r : SRow K} {v w : ℕ → K} (h : ∀ p ∈ r, v p.1 = w p.1) :
    dot r v = dot r w := by
  induction r with
  | nil => rfl
  | cons p r ih =>
    simp only [dot_cons]
    rw [h p (by simp), ih fun q hq => h q (by simp [hq])]

@[simp] theorem dot_filter_ne [DecidableEq K] (r : SRow K) (v : ℕ → K) :
    dot (r.filter fun p => decide (p.2 ≠ 0)) v = dot r v := by
  induction r with
  | nil => rfl
  | cons p r ih =>
    by_cases h : p.2 = 0
    · have : decide (p.2 ≠ 0) = false := by simp [h]
      rw [List.filter_cons_of_neg (by simp [h]), ih]; simp [h]
    · rw [List.filter_cons_of_pos (by simp [h]), dot_cons, ih, dot_cons]

@[simp] theorem dot_shiftRow (o : ℕ) (r : SRow K) (v : ℕ → K) :
    dot (shiftRow o r) v = dot r fun j => v (o + j) := by
  induction r with
  | nil => rfl
  | cons p r ih =>
    simp only [shiftRow, List.map_cons, dot_cons] at *
    rw [ih]

@[simp] theorem dot_negRow (r : SRow K) (v : ℕ → K) : dot (negRow r) v = - dot r v := by
  induction r with
  | nil => simp [negRow]
  | cons p r ih =>
    simp only [negRow, List.map_cons, dot_cons] at *
    rw [ih]; ring

theorem dot_map_range (n : ℕ) (f : ℕ → ℕ) (g : ℕ → K) (v : ℕ → K) :
    dot ((List.range n).map fun j => (f j, g j)) v = ∑ j ∈ Finset.range n, g j * v (f j) := by
  induction n with
  | zero => simp
  | succ n ih => rw [List.range_succ, List.map_append, dot_append, ih, Finset.sum_range_succ]; simp

@[simp] theorem dot_rangeRow (n o : ℕ) (f : ℕ → K) (v : ℕ → K) :
    dot (rangeRow n o f) v = ∑ j ∈ Finset.range n, f j * v (o + j) :=
  dot_map_range n (fun j => o + j) f v

theorem dot_add (r : SRow K) (v w : ℕ → K) : dot r (fun j => v j + w j) = dot r v + dot r w := by
  induction r with
  | nil => simp
  | cons p r ih => simp only [dot_cons, ih]; ring

theorem dot_smul (r : SRow K) (a : K) (v : ℕ → K) : dot r (fun j => a * v j) = a * dot r v := by
  induction r with
  | nil => simp
  | cons p r ih => simp only [dot_cons, ih]; ring

theorem dot_zero (r : SRow K) : dot r (fun _ => (0 : K)) = 0 := by
  induction r with
  | nil => simp
  | cons p r ih => simp only [dot_cons, ih]; ring

theorem dot_sub (r : SRow K) (v w : ℕ → K) : dot r (fun j => v j - w j) = dot r v - dot r w := by
  induction r with
  | nil => simp
  | cons p r ih => simp only [dot_cons, ih]; ring

theorem dot_sum {ι : Type} (s : Finset ι) (r : SRow K) (f : ι → ℕ → K) :
    dot r (fun j => ∑ k ∈ s, f k j) = ∑ k ∈ s, dot r (f k) := by
  induction r with
  | nil => simp
  | cons p r ih => simp only [dot_cons, ih, Finset.sum_add_distrib, Finset.mul_sum]

@[simp] theorem coefAt_nil (j : ℕ) : coefAt ([] : SRow K) j = 0 := rfl

theorem coefAt_cons (p : ℕ × K) (r : SRow K) (j : ℕ) :
    coefAt (p :: r) j = (if p.1 = j then p.2 else 0) + coefAt r j := by
  unfold coefAt
  by_cases h : p.1 = j
  · rw [List.filter_cons_of_pos (by simp [h])]; simp [h]
  · rw [List.filter_cons_of_neg (by simp [h])]; simp [h]

@[simp] theorem coefAt_append (r s : SRow K) (j : ℕ) :
    coefAt (r ++ s) j = coefAt r j + coefAt s j := by
  simp [coefAt]

/-- The value of a row is the dense product with its coefficients. -/
theorem dot_eq_sum_coefAt {r : SRow K} {n : ℕ} (h : ∀ p ∈ r, p.1 < n) (v : ℕ → K) :
    dot r v = ∑ j ∈ Finset.range n, coefAt r j * v j := by
  induction r with
  | nil => simp
  | cons p r ih =>
    rw [dot_cons, ih fun q hq => h q (by simp [hq])]
    simp only [coefAt_cons, add_mul, Finset.sum_add_distrib]
    congr 1
    have hp : p.1 < n := h p (by simp)
    rw [Finset.sum_eq_single p.1]
    · simp
    · intro b _ hb; simp [Ne.symm hb]
    · intro hh; exact absurd (Finset.mem_range.2 hp) hh

theorem coefAt_filter_ne [DecidableEq K] (r : SRow K) (j : ℕ) :
    coefAt (r.filter fun p => decide (p.2 ≠ 0)) j = coefAt r j := by
  induction r with
  | nil => rfl
  | cons p r ih =>
    by_cases h : p.2 = 0
    · rw [List.filter_cons_of_neg (by simp [h]), ih, coefAt_cons]; simp [h]
    · rw [List.filter_cons_of_pos (by simp [h]), coefAt_cons, ih, coefAt_cons]

theorem coefAt_eq_dot (r : SRow K) (j : ℕ) :
    coefAt r j = dot r (fun k => if k = j then 1 else 0) := by
  induction r with
  | nil => rfl
  | cons p r ih => rw [coefAt_cons, dot_cons, ih]; simp

theorem coefAt_eq_zero {r : SRow K} {j : ℕ} (h : ∀ p ∈ r, p.1 ≠ j) : coefAt r j = 0 := by
  induction r with
  | nil => rfl
  | cons p r ih =>
    rw [coefAt_cons, ih fun q hq => h q (by simp [hq])]
    simp [h p (by simp)]

theorem dot_filter_col (r : SRow K) (j : ℕ) (v : ℕ → K) :
    dot (r.filter fun p => decide (p.1 ≠ j)) v = dot r (fun k => if k = j then 0 else v k) := by
  induction r with
  | nil => rfl
  | cons p r ih =>
    by_cases h : p.1 = j
    · rw [List.filter_cons_of_neg (by simp [h]), ih]; simp [h]
    · rw [List.filter_cons_of_pos (by simp [h]), dot_cons, ih, dot_cons]; simp [h]

theorem denseRow_dot_aux [DecidableEq K] (l : List K) (k : ℕ) (v : ℕ → K) :
    dot (((l.zipIdx k).map fun p => (p.2, p.1)).filter fun p => decide (p.2 ≠ 0)) v =
      ∑ j ∈ Finset.range l.length, l.getD j 0 * v (k + j) := by
  rw [dot_filter_ne]
  induction l generalizing k with
  | nil => simp
  | cons a l ih =>
    simp only [List.zipIdx_cons, List.map_cons, dot_cons, List.length_cons]
    rw [ih, Finset.sum_range_succ']
    simp only [List.getD_cons_succ, List.getD_cons_zero, Nat.add_zero]
    rw [add_comm]
    congr 1
    apply Finset.sum_congr rfl
    intro x _
    rw [show k + 1 + x = k + (x + 1) by omega]

theorem dot_denseRow [DecidableEq K] (l : List K) (v : ℕ → K) :
    dot (denseRow l) v = ∑ j ∈ Finset.range l.length, l.getD j 0 * v j := by
  have := denseRow_dot_aux l 0 v
  simpa [denseRow] using this

theorem denseRow_lt [DecidableEq K] (l : List K) : ∀ p ∈ denseRow l, p.1 < l.length := by
  intro p hp
  simp only [denseRow, List.mem_filter, List.mem_map] at hp
  obtain ⟨⟨q, hq, rfl⟩, _⟩ := hp
  have := List.snd_lt_of_mem_zipIdx hq
  simpa using this

@[simp] theorem Csr.row_lt {c : Csr K} {i : ℕ} (h : i < c.rows.length) : c.row i = c.rows[i] := by
  simp [Csr.row, h]

theorem Mat.mulVec_congr {m : Mat K} {x y : ℕ → K} (h : ∀ j < m.nc, x j = y j) (i : ℕ) :
    m.mulVec x i = m.mulVec y i :=
  Finset.sum_congr rfl fun j hj => by rw [h j (Finset.mem_range.1 hj)]

theorem Mat.id_mulVec {n : ℕ} (x : ℕ → K) {i : ℕ} (h : i < n) :
    (Mat.id n : Mat K).mulVec x i = x i := by
  simp only [Mat.mulVec, Mat.id]
  rw [Finset.sum_eq_single i]
  · simp
  · intro b _ hb; simp [Ne.symm hb]
  · intro hh; exact absurd (Finset.mem_range.2 h) hh

theorem Mat.mul_mulVec (m n : Mat K) (x : ℕ → K) (i : ℕ) :
    (m.mul n).mulVec x i = m.mulVec (n.mulVec x) i := by
  simp only [Mat.mulVec, Mat.mul, Finset.sum_mul, Finset.mul_sum]
  rw [Finset.sum_comm]
  refine Finset.sum_congr rfl fun j _ => Finset.sum_congr rfl fun k _ => by ring

end Hylaa
