import Verif.Proofs.Inst
import Verif.Proofs.Zip

/-! # Typed rows as lists (for sums, hulls and input sets) -/

set_option linter.unusedSectionVars false

namespace Hylaa
variable {K : Type} [Field K] [LinearOrder K]

/-- All rows hold, recursively. -/
def satL : List RowType → List (SRow K) → List K → (ℕ → K) → Prop
  | t :: ts, r :: rs, b :: bs, x => t.rel (dot r x) b ∧ satL ts rs bs x
  | _, _, _, _ => True

theorem satL_cons (t : RowType) (ts : List RowType) (r : SRow K) (rs : List (SRow K)) (b : K)
    (bs : List K) (x : ℕ → K) :
    satL (t :: ts) (r :: rs) (b :: bs) x ↔ t.rel (dot r x) b ∧ satL ts rs bs x := Iff.rfl

theorem satTypes_iff_satL {n : ℕ} (ts : List RowType) (rs : List (SRow K)) (bs : List K)
    (h1 : ts.length = bs.length) (h2 : rs.length = bs.length) (x : ℕ → K) :
    (⟨n, rs⟩ : Csr K).satTypes ts bs x ↔ satL ts rs bs x := by
  induction bs generalizing ts rs with
  | nil =>
    obtain rfl : ts = [] := List.eq_nil_of_length_eq_zero (by simpa using h1)
    simp [Csr.satTypes, satL]
  | cons b bs ih =>
    obtain ⟨t, ts, rfl⟩ : ∃ t ts', ts = t :: ts' := by
      cases ts with
      | nil => simp at h1
      | cons t ts => exact ⟨t, ts, rfl⟩
    obtain ⟨r, rs, rfl⟩ : ∃ t ts', rs = t :: ts' := by
      cases rs with
      | nil => simp at h2
      | cons t ts => exact ⟨t, ts, rfl⟩
    rw [satL_cons, ← ih ts rs (by simpa using h1) (by simpa using h2)]
    unfold Csr.satTypes
    constructor
    · intro h
      refine ⟨h 0 (by simp), fun i hi => ?_⟩
      have := h (i + 1) (by simpa using hi)
      simp only [Csr.row, List.getD_cons_succ] at this
      exact this
    · rintro ⟨h0, h⟩ i hi
      cases i with
      | zero => exact h0
      | succ i =>
        have := h i (by simpa using hi)
        simp only [Csr.row, List.getD_cons_succ]
        exact this

theorem satL_append (ts ts' : List RowType) (rs rs' : List (SRow K)) (bs bs' : List K)
    (h1 : ts.length = bs.length) (h2 : rs.length = bs.length) (x : ℕ → K) :
    satL (ts ++ ts') (rs ++ rs') (bs ++ bs') x ↔ satL ts rs bs x ∧ satL ts' rs' bs' x := by
  induction bs generalizing ts rs with
  | nil =>
    obtain rfl : ts = [] := List.eq_nil_of_length_eq_zero (by simpa using h1)
    obtain rfl : rs = [] := List.eq_nil_of_length_eq_zero (by simpa using h2)
    simp [satL]
  | cons b bs ih =>
    cases ts with
    | nil => simp at h1
    | cons t ts =>
      cases rs with
      | nil => simp at h2
      | cons r rs =>
        simp only [List.cons_append, satL_cons]
        rw [ih ts rs (by simpa using h1) (by simpa using h2), and_assoc]

/-- A system without `GLP_LO` rows, read back and moved to other columns (rows transformed by
`f`). -/
theorem satL_sys_map {M : K} (rows : List (LRow K)) (f : LRow K → SRow K) (g : LRow K → K)
    (x y : ℕ → K) (h : ∀ r ∈ rows, (r.holds y ↔ r.ty.rel (dot (f r) x) (g r))) :
    satL (rows.map fun r => r.ty) (rows.map f) (rows.map g) x ↔ ∀ r ∈ rows, r.holds y := by
  induction rows with
  | nil => simp [satL]
  | cons r rows ih =>
    simp only [List.map_cons, satL_cons, List.forall_mem_cons]
    rw [ih (fun r hr => h r (by simp [hr])), h r (by simp)]

/-- No `GLP_LO` row. -/
def Sys.NoLo (s : Sys K) : Prop := ∀ r ∈ s.rows, r.ty ≠ .lo

theorem LRow.getRhs_eq {M : K} {r : LRow K} (h : r.ty ≠ .lo) : r.getRhs M = r.rhs := by
  unfold LRow.getRhs; split <;> simp_all

theorem satL_sys {M : K} (s : Sys K) (hs : s.NoLo) (off : ℕ) (x : ℕ → K) :
    satL s.getTypes (s.rows.map fun r => shiftRow off r.coefs) (s.getRhs M) x ↔
      s.Sat fun j => x (off + j) := by
  unfold Sys.getTypes Sys.getRhs Sys.Sat
  apply satL_sys_map (M := M)
  intro r hr
  rw [LRow.holds_iff, dot_shiftRow, LRow.getRhs_eq (hs r hr)]

theorem satL_fx_zero (n : ℕ) (f : ℕ → SRow K) (x : ℕ → K) :
    satL (List.replicate n .fx) ((List.range n).map f) (List.replicate n 0) x ↔
      ∀ i < n, dot (f i) x = 0 := by
  induction n generalizing f with
  | zero => simp [satL]
  | succ n ih =>
    rw [List.range_succ_eq_map, List.map_cons, List.map_map, List.replicate_succ,
      List.replicate_succ, satL_cons]
    have := ih (fun i => f (i + 1))
    rw [show (f ∘ Nat.succ) = fun i => f (i + 1) from rfl, this]
    constructor
    · rintro ⟨h0, h⟩ i hi
      cases i with
      | zero => exact h0
      | succ i => exact h i (by omega)
    · intro h
      exact ⟨h 0 (by omega), fun i hi => h (i + 1) (by omega)⟩

theorem satL_up (rs : List (SRow K)) (bs : List K) (h : rs.length = bs.length) (n : ℕ)
    (hn : n = bs.length) (x : ℕ → K) :
    satL (List.replicate n .up) rs bs x ↔ ∀ p ∈ rs.zip bs, dot p.1 x ≤ p.2 := by
  subst hn
  induction bs generalizing rs with
  | nil => simp [satL]
  | cons b bs ih =>
    cases rs with
    | nil => simp at h
    | cons r rs =>
      rw [List.length_cons, List.replicate_succ, satL_cons, ih rs (by simpa using h)]
      simp [RowType.rel]

end Hylaa
