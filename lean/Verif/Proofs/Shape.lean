import Verif.Proofs.Inv
import Verif.Proofs.LpBasic

/-!
# Layout invariant of an LP instance

`Shape s B X R`: the basis rows of `s` say `cur = B * init + X + (input part)`, the input rows say
`input part = R`, and no other row mentions the current-time or total-input columns.
-/

set_option linter.unusedSectionVars false

namespace Hylaa
variable {K : Type} [Field K] [LinearOrder K]

/-- Is row `i` one of the basis-matrix rows or the input-effects rows? -/
def Sys.special (s : Sys K) (i : ℕ) : Prop :=
  (s.bmPos.1 ≤ i ∧ i < s.bmPos.1 + s.dims) ∨ ∃ p, s.ie = some p ∧ p.1 ≤ i ∧ i < p.1 + s.dims

/-- Number of current-time and total-input columns. -/
def Sys.blockLen (s : Sys K) : ℕ := if s.ie.isSome then 2 * s.dims else s.dims

/-- Is column `j` a current-time or total-input column? -/
def Sys.inBlock (s : Sys K) (j : ℕ) : Prop := s.cur ≤ j ∧ j < s.cur + s.blockLen

instance (s : Sys K) (j : ℕ) : Decidable (s.inBlock j) := by unfold Sys.inBlock; infer_instance

/-- All rows except basis and input rows hold. -/
def Sys.Rest (s : Sys K) (v : ℕ → K) : Prop :=
  ∀ (i : ℕ) (r : LRow K), s.rows[i]? = some r → ¬ s.special i → r.holds v

/-- All stored column indices are in range. -/
def Sys.WF (s : Sys K) : Prop := ∀ r ∈ s.rows, ∀ p ∈ r.coefs, p.1 < s.numCols

structure Sys.Shape (s : Sys K) (B : ℕ → ℕ → K) (X R : ℕ → SRow K) : Prop where
  wf : s.WF
  rowsLe : s.bmPos.1 + s.dims ≤ s.numRows
  colsLe : s.bmPos.2 + s.dims ≤ s.cur
  curLe : s.cur + s.blockLen ≤ s.numCols
  iePos : ∀ p, s.ie = some p →
    p.2 = s.cur + s.dims ∧ p.1 + s.dims ≤ s.numRows ∧ s.bmPos.1 + s.dims ≤ p.1
  idx : s.bmIdx = mkBmIdx s.dims s.bmPos.2 s.cur s.ie
  basis : ∀ i < s.dims, ∃ r : LRow K, s.rows[s.bmPos.1 + i]? = some r ∧ r.ty = .fx ∧ r.rhs = 0 ∧
    ∀ v, dot r.coefs v = (∑ j ∈ Finset.range s.dims, B i j * v (s.bmPos.2 + j)) + dot (X i) v -
      v (s.cur + i) + (if s.ie.isSome then v (s.cur + s.dims + i) else 0)
  ieRows : ∀ p, s.ie = some p → ∀ i < s.dims, ∃ r : LRow K, s.rows[p.1 + i]? = some r ∧
    r.ty = .fx ∧ r.rhs = 0 ∧ ∀ v, dot r.coefs v = dot (R i) v - v (s.cur + s.dims + i)
  noIe : s.ie = none → ∀ i, R i = []
  xAvoid : ∀ i, ∀ q ∈ X i, ¬ s.inBlock q.1 ∧ q.1 < s.numCols
  rAvoid : ∀ i, ∀ q ∈ R i, ¬ s.inBlock q.1 ∧ q.1 < s.numCols
  others : ∀ (i : ℕ) (r : LRow K), s.rows[i]? = some r → ¬ s.special i →
    ∀ q ∈ r.coefs, ¬ s.inBlock q.1

theorem Sys.Rest.congr {s : Sys K} {B : ℕ → ℕ → K} {X R : ℕ → SRow K} (h : s.Shape B X R)
    {v w : ℕ → K} (hvw : ∀ j < s.numCols, ¬ s.inBlock j → v j = w j) : s.Rest v ↔ s.Rest w := by
  constructor
  · intro hr i r hi hs
    rw [← LRow.holds_congr (v := v)]
    · exact hr i r hi hs
    · intro p hp; exact hvw _ (h.wf r (List.mem_of_getElem? hi) p hp) (h.others i r hi hs p hp)
  · intro hr i r hi hs
    rw [LRow.holds_congr (w := w)]
    · exact hr i r hi hs
    · intro p hp; exact hvw _ (h.wf r (List.mem_of_getElem? hi) p hp) (h.others i r hi hs p hp)

/-- Every assignment of the other columns extends to a solution. -/
theorem Sys.Shape.lift {s : Sys K} {B : ℕ → ℕ → K} {X R : ℕ → SRow K} (h : s.Shape B X R)
    {v x : ℕ → K} (hv : s.Rest v) (hx : ∀ i < s.dims,
      x i = (∑ j ∈ Finset.range s.dims, B i j * v (s.bmPos.2 + j)) + dot (X i) v + dot (R i) v) :
    ∃ w, s.Sat w ∧ (∀ j, ¬ s.inBlock j → w j = v j) ∧ ∀ i < s.dims, w (s.cur + i) = x i := by
  -- put `x` into the current-time columns, the input effects into the total-input columns
  let w : ℕ → K := fun j => if s.inBlock j then
      (if j < s.cur + s.dims then x (j - s.cur) else dot (R (j - s.cur - s.dims)) v)
    else v j
  have hw : ∀ j, ¬ s.inBlock j → w j = v j := fun j hj => by simp only [w]; rw [if_neg hj]
  have hcur : ∀ i < s.dims, w (s.cur + i) = x i := by
    intro i hi
    have : s.inBlock (s.cur + i) := by
      unfold inBlock blockLen; split <;> omega
    simp only [w]; rw [if_pos this, if_pos (by omega)]; congr 1; omega
  have hti : s.ie.isSome → ∀ i < s.dims, w (s.cur + s.dims + i) = dot (R i) v := by
    intro hie i hi
    have : s.inBlock (s.cur + s.dims + i) := by
      unfold inBlock blockLen; rw [if_pos hie]; omega
    simp only [w]; rw [if_pos this, if_neg (by omega)]; congr 2; omega
  have hbc : ∀ j < s.dims, w (s.bmPos.2 + j) = v (s.bmPos.2 + j) := by
    intro j hj; apply hw; have := h.colsLe; unfold inBlock; omega
  have hX : ∀ i, dot (X i) w = dot (X i) v := fun i =>
    dot_congr fun q hq => hw _ (h.xAvoid i q hq).1
  have hR : ∀ i, dot (R i) w = dot (R i) v := fun i =>
    dot_congr fun q hq => hw _ (h.rAvoid i q hq).1
  refine ⟨w, ?_, hw, fun i hi => hcur i hi⟩
  rw [sat_iff]
  intro i r hir
  by_cases hs : s.special i
  · rcases hs with ⟨h1, h2⟩ | ⟨p, hp, h1, h2⟩
    · obtain ⟨r', hr', hty, hrhs, hdot⟩ := h.basis (i - s.bmPos.1) (by omega)
      rw [show s.bmPos.1 + (i - s.bmPos.1) = i by omega, hir] at hr'
      cases hr'
      have hlt : i - s.bmPos.1 < s.dims := by omega
      have hxi := hx _ hlt
      simp only [LRow.holds, hty, hrhs, hdot, hX, hcur _ hlt]
      rw [Finset.sum_congr rfl fun j hj => by rw [hbc j (Finset.mem_range.1 hj)]]
      rw [hxi]
      cases hie : s.ie with
      | none => rw [h.noIe hie]; simp
      | some p =>
        simp only [Option.isSome_some, if_true]
        rw [hti (by simp [hie]) _ hlt]; ring
    · obtain ⟨r', hr', hty, hrhs, hdot⟩ := h.ieRows p hp (i - p.1) (by omega)
      rw [show p.1 + (i - p.1) = i by omega, hir] at hr'
      cases hr'
      simp only [LRow.holds, hty, hrhs, hdot, hR]
      rw [hti (by simp [hp]) (i - p.1) (by omega)]; ring
  · exact (LRow.holds_congr (fun q hq => hw _ (h.others i r hir hs q hq))).2 (hv i r hir hs)

/-- The closed form of the represented set. -/
theorem Sys.Shape.mem_iff {s : Sys K} {B : ℕ → ℕ → K} {X R : ℕ → SRow K} (h : s.Shape B X R)
    (x : ℕ → K) :
    s.Mem x ↔ ∃ v, s.Rest v ∧ ∀ i < s.dims,
      x i = (∑ j ∈ Finset.range s.dims, B i j * v (s.bmPos.2 + j)) + dot (X i) v + dot (R i) v := by
  constructor
  · rintro ⟨v, hv, hx⟩
    refine ⟨v, fun i r hi _ => hv r (List.mem_of_getElem? hi), fun i hi => ?_⟩
    obtain ⟨r, hr, hty, hrhs, hdot⟩ := h.basis i hi
    have h1 := hv r (List.mem_of_getElem? hr)
    simp only [LRow.holds, hty, hrhs, hdot] at h1
    rw [← hx i hi]
    cases hie : s.ie with
    | none =>
      rw [h.noIe hie i]; simp only [hie, Option.isSome_none, dot_nil] at h1 ⊢
      simp only [Bool.false_eq_true, if_false] at h1
      linear_combination -h1
    | some p =>
      obtain ⟨r2, hr2, hty2, hrhs2, hdot2⟩ := h.ieRows p hie i hi
      have h2 := hv r2 (List.mem_of_getElem? hr2)
      simp only [LRow.holds, hty2, hrhs2, hdot2] at h2
      simp only [hie, Option.isSome_some, if_true] at h1
      linear_combination -h1 + -h2
  · rintro ⟨v, hv, hx⟩
    obtain ⟨w, hw, -, hcur⟩ := h.lift hv hx
    exact ⟨w, hw, hcur⟩

end Hylaa
