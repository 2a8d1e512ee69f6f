import Verif.Spec.Hybrid
import Verif.Proofs.TimeElapse
import Verif.Proofs.Hist

/-! Flows in closed form: `z = E^k y + Σ_l E^l N v_l` with the inputs in reverse order. -/

set_option linter.unusedSectionVars false

namespace Hylaa
open Spec
variable {K : Type} [Field K] [LinearOrder K]

def zeroMat : Mat K := ⟨0, 0, fun _ _ => 0⟩

/-- Input effects matrices of steps `1 … k`. -/
def Dyn.iesTo (d : Dyn K) (k : ℕ) : List (Mat K) :=
  match d.nmat with
  | none => []
  | some _ => (List.range k).map fun l => ((d.at (l + 1)).2).getD zeroMat

def Dyn.val (d : Dyn K) (k : ℕ) (y : ℕ → K) (v : ℕ → ℕ → K) (i : ℕ) : K :=
  (∑ j ∈ Finset.range d.dims, (d.at k).1.e i j * y j) + inSum d.inputs (d.iesTo k) v i

/-- Put an input in front. -/
def consIn (u : ℕ → K) (v : ℕ → ℕ → K) : ℕ → ℕ → K
  | 0 => u
  | l + 1 => v l

theorem Dyn.val_zero (d : Dyn K) (y : ℕ → K) (v : ℕ → ℕ → K) {i : ℕ} (hi : i < d.dims) :
    d.val 0 y v i = y i := by
  unfold Dyn.val
  have h2 : inSum d.inputs (d.iesTo 0) v i = 0 := by
    unfold Dyn.iesTo inSum
    cases d.nmat <;> simp
  rw [h2, add_zero]
  simp only [Dyn.at, Mat.id, ite_mul, one_mul, zero_mul]
  rw [Finset.sum_ite_eq]
  simp [hi]

theorem Dyn.at_one_mul {d : Dyn K} (h : d.Laws) (k : ℕ) {i l : ℕ} (hi : i < d.dims)
    (hl : l < d.dims) :
    (d.at (k + 1)).1.e i l = ∑ j ∈ Finset.range d.dims, (d.ex 1).e i j * (d.at k).1.e j l := by
  cases k with
  | zero =>
    simp only [Dyn.at, Mat.id, mul_ite, mul_one, mul_zero]
    rw [Finset.sum_ite_eq']
    simp [hl]
  | succ k =>
    have : (d.at (k + 2)).1 = (d.ex 1).mul (d.ex (k + 1)) := (h.comm k).symm
    rw [this]
    have h2 : (d.at (k + 1)).1 = d.ex (k + 1) := by cases k <;> rfl
    rw [h2]
    simp [Mat.mul, (h.shape 0).2]

theorem Dyn.val_succ {d : Dyn K} (h : d.Laws) (k : ℕ) (y u : ℕ → K) (v : ℕ → ℕ → K) {i : ℕ}
    (hi : i < d.dims) :
    d.val (k + 1) y (consIn u v) i = mulV d.dims (d.ex 1).e (d.val k y v) i + inputPart d u i := by
  have hbase : (∑ j ∈ Finset.range d.dims, (d.at (k + 1)).1.e i j * y j) =
      ∑ j ∈ Finset.range d.dims, (d.ex 1).e i j *
        ∑ l ∈ Finset.range d.dims, (d.at k).1.e j l * y l := by
    rw [Finset.sum_congr rfl fun l hl => by
      rw [Dyn.at_one_mul h k hi (Finset.mem_range.1 hl), Finset.sum_mul]]
    rw [Finset.sum_comm]
    refine Finset.sum_congr rfl fun j _ => ?_
    rw [Finset.mul_sum]
    exact Finset.sum_congr rfl fun l _ => by ring
  unfold Dyn.val mulV
  simp only [mul_add, Finset.sum_add_distrib]
  rw [hbase, add_assoc]
  congr 1
  cases hN : d.nmat with
  | none => simp [Dyn.iesTo, hN, inSum, inputPart]
  | some N =>
    have hq : d.inputs = N.nc := by simp [Dyn.inputs, hN]
    simp only [Dyn.iesTo, hN, inSum, List.length_map, List.length_range, inputPart, mulV, hq]
    have hget : ∀ k l, l < k → ((List.range k).map fun l => ((d.at (l + 1)).2).getD zeroMat).getD l
        ⟨0, 0, fun _ _ => 0⟩ = ((d.at (l + 1)).2).getD zeroMat := by
      intro k l hl
      simp [List.getD_eq_getElem?_getD, List.getElem?_map, List.getElem?_range hl]
    rw [Finset.sum_range_succ', hget _ 0 (by omega)]
    have h1 : ((d.at (0 + 1)).2).getD zeroMat = N := by simp [Dyn.at, hN]
    rw [h1]
    congr 1
    have hr : ∀ x, (∑ l ∈ Finset.range k, ∑ c ∈ Finset.range N.nc,
        (((List.range k).map fun l => ((d.at (l + 1)).2).getD zeroMat).getD l
          ⟨0, 0, fun _ _ => 0⟩).e x c * v l c) =
        ∑ l ∈ Finset.range k, ∑ c ∈ Finset.range N.nc,
          (((d.at (l + 1)).2).getD zeroMat).e x c * v l c := by
      intro x
      refine Finset.sum_congr rfl fun l hl => ?_
      rw [hget k l (Finset.mem_range.1 hl)]
    simp only [hr]
    have hl : ∀ l ∈ Finset.range k, (∑ c ∈ Finset.range N.nc,
        (((List.range (k + 1)).map fun l => ((d.at (l + 1)).2).getD zeroMat).getD (l + 1)
          ⟨0, 0, fun _ _ => 0⟩).e i c * consIn u v (l + 1) c) =
        ∑ j ∈ Finset.range d.dims, (d.ex 1).e i j * ∑ c ∈ Finset.range N.nc,
          (((d.at (l + 1)).2).getD zeroMat).e j c * v l c := by
      intro l hl
      rw [hget (k + 1) (l + 1) (by have := Finset.mem_range.1 hl; omega)]
      obtain ⟨P, h1, h2, h3, h4⟩ := Dyn.at_ie_succ h hN l
      rw [h1, h4]
      simp only [Option.getD_some, Mat.mul, (h.shape 0).2, consIn, Finset.sum_mul, Finset.mul_sum]
      rw [Finset.sum_comm]
      exact Finset.sum_congr rfl fun _ _ => Finset.sum_congr rfl fun _ _ => by ring
    rw [Finset.sum_congr rfl hl, Finset.sum_comm]
    exact Finset.sum_congr rfl fun _ _ => (Finset.mul_sum _ _ _).symm

theorem Dyn.val_congr {d : Dyn K} {k : ℕ} {y y' : ℕ → K} {v w : ℕ → ℕ → K}
    (hy : ∀ j < d.dims, y j = y' j) (h : ∀ l < k, ∀ c < d.inputs, v l c = w l c) (i : ℕ) :
    d.val k y v i = d.val k y' w i := by
  unfold Dyn.val
  congr 1
  · exact Finset.sum_congr rfl fun j hj => by rw [hy j (Finset.mem_range.1 hj)]
  · apply inSum_congr
    intro l hl c hc
    refine h l ?_ c hc
    unfold Dyn.iesTo at hl
    cases hN : d.nmat <;> rw [hN] at hl <;> simp at hl
    exact hl

/-- The conditions of a mode are well-formed rows of the mode's dimension. -/
structure Mode.InvWF (m : Mode K) (n : ℕ) : Prop where
  ncols : ∀ lc ∈ m.inv, lc.ncols = n
  lt : ∀ lc ∈ m.inv, ∀ p ∈ lc.row, p.1 < n
  nodup : ∀ lc ∈ m.inv, (lc.row.map fun p => p.1).Nodup

theorem InvEps.congr {ε : K} {m : Mode K} {n : ℕ} (hwf : m.InvWF n) {x z : ℕ → K}
    (h : ∀ i < n, x i = z i) : InvEps ε m x ↔ InvEps ε m z := by
  unfold InvEps
  apply forall_congr'; intro lc
  apply imp_congr_right; intro hlc
  rw [dot_congr fun p hp => h p.1 (hwf.lt lc hlc p hp)]

theorem OneStep.congr_left {m : Mode K} {d : Dyn K} {x y z : ℕ → K} (h : ∀ i < d.dims, x i = y i)
    (hs : OneStep m d x z) : OneStep m d y z := by
  obtain ⟨u, hu, hz⟩ := hs
  refine ⟨u, hu, fun i hi => ?_⟩
  rw [hz i hi]
  congr 1
  exact Finset.sum_congr rfl fun j hj => by rw [h j (Finset.mem_range.1 hj)]

/-- Drop the `j` most recent inputs. -/
def dropIn (j : ℕ) (v : ℕ → ℕ → K) : ℕ → ℕ → K := fun l => v (l + j)

/-- **Closed form of flows.** -/
theorem flow_iff {ε : K} {m : Mode K} {d : Dyn K} (hd : d.Laws) (hwf : m.InvWF d.dims) (k : ℕ)
    (y z : ℕ → K) : Flow ε m d k y z ↔ ∃ v, (∀ l < k, Admissible m (v l)) ∧
      (∀ i < d.dims, z i = d.val k y v i) ∧
      ∀ j < k, InvEps ε m (d.val j y (dropIn (k - j) v)) := by
  induction k generalizing z with
  | zero =>
    constructor
    · rintro ⟨h⟩
      exact ⟨fun _ _ => 0, fun l hl => absurd hl (by omega),
        fun i hi => by rw [d.val_zero y _ hi]; exact h i hi, fun j hj => absurd hj (by omega)⟩
    · rintro ⟨v, -, h, -⟩
      exact .zero fun i hi => by rw [h i hi, d.val_zero y _ hi]
  | succ k ih =>
    constructor
    · intro h
      cases h with
      | @step _ _ w _ hf hi hs =>
      obtain ⟨v, h1, h2, h3⟩ := (ih w).1 hf
      obtain ⟨u, hu, hz⟩ := hs
      refine ⟨consIn u v, ?_, ?_, ?_⟩
      · intro l hl
        cases l with
        | zero => exact hu
        | succ l => exact h1 l (by omega)
      · intro i hi'
        rw [hz i hi', Dyn.val_succ hd k y u v hi']
        congr 1
        exact Finset.sum_congr rfl fun j hj => by rw [h2 j (Finset.mem_range.1 hj)]
      · intro j hj
        have he : dropIn (k + 1 - j) (consIn u v) = dropIn (k - j) v := by
          funext l
          unfold dropIn
          rw [show l + (k + 1 - j) = l + (k - j) + 1 by omega]
          rfl
        rw [he]
        by_cases hjk : j = k
        · subst hjk
          rw [InvEps.congr hwf (z := w)]
          · exact hi
          · intro i hi'
            rw [h2 i hi']
            refine Dyn.val_congr (fun _ _ => rfl) (fun l _ c _ => ?_) i
            simp [dropIn]
        · exact h3 j (by omega)
    · rintro ⟨v, h1, h2, h3⟩
      have hv : v = consIn (v 0) (dropIn 1 v) := by
        funext l
        cases l <;> rfl
      refine .step (y := d.val k y (dropIn 1 v)) ((ih _).2 ⟨dropIn 1 v, ?_, fun _ _ => rfl, ?_⟩) ?_
        ⟨v 0, h1 0 (by omega), fun i hi => ?_⟩
      · intro l hl; exact h1 (l + 1) (by omega)
      · intro j hj
        have := h3 j (by omega)
        have he : dropIn (k + 1 - j) v = dropIn (k - j) (dropIn 1 v) := by
          funext l
          unfold dropIn
          congr 1; omega
        rwa [he] at this
      · have := h3 k (by omega)
        rwa [show k + 1 - k = 1 by omega] at this
      · rw [h2 i hi, ← Dyn.val_succ hd k y (v 0) (dropIn 1 v) hi, ← hv]

end Hylaa
