import Verif.Model.Solver
import Verif.Proofs.Dot

/-! Lemmas about the row store. -/

set_option linter.unusedSectionVars false

namespace Hylaa
variable {K : Type} [Field K] [LinearOrder K]

@[simp] theorem dot_filter_ne' (r : SRow K) (v : ℕ → K) :
    dot (r.filter fun p => !decide (p.2 = 0)) v = dot r v := by
  have := dot_filter_ne r v
  simpa using this

/-- The new content of a row after `glp_set_mat_row`. -/
def LRow.withCoefs (r : LRow K) (c : SRow K) : LRow K :=
  { r with coefs := c.filter fun p => p.2 ≠ 0 }

@[simp] theorem LRow.withCoefs_ty (r : LRow K) (c : SRow K) : (r.withCoefs c).ty = r.ty := rfl
@[simp] theorem LRow.withCoefs_rhs (r : LRow K) (c : SRow K) : (r.withCoefs c).rhs = r.rhs := rfl
@[simp] theorem LRow.withCoefs_dot (r : LRow K) (c : SRow K) (v : ℕ → K) :
    dot (r.withCoefs c).coefs v = dot c v := dot_filter_ne c v

theorem LRow.withCoefs_mem {r : LRow K} {c : SRow K} {p : ℕ × K}
    (h : p ∈ (r.withCoefs c).coefs) : p ∈ c := (List.mem_filter.1 h).1

theorem LRow.holds_congr {r : LRow K} {v w : ℕ → K} (h : ∀ p ∈ r.coefs, v p.1 = w p.1) :
    r.holds v ↔ r.holds w := by
  unfold LRow.holds; rw [dot_congr h]

theorem Sys.sat_iff (s : Sys K) (v : ℕ → K) :
    s.Sat v ↔ ∀ (i : ℕ) (r : LRow K), s.rows[i]? = some r → r.holds v := by
  unfold Sys.Sat
  constructor
  · intro h i r hr; exact h r (List.mem_of_getElem? hr)
  · intro h r hr
    obtain ⟨i, hi, rfl⟩ := List.getElem_of_mem hr
    exact h i _ (List.getElem?_eq_getElem hi)

/-! ### setCsrLoop -/

theorem Sys.setCsrLoop_fields (s : Sys K) (rs : List (SRow K)) (r0 c0 : ℕ) :
    (s.setCsrLoop rs r0 c0).names = s.names ∧ (s.setCsrLoop rs r0 c0).dims = s.dims ∧
    (s.setCsrLoop rs r0 c0).bmPos = s.bmPos ∧ (s.setCsrLoop rs r0 c0).cur = s.cur ∧
    (s.setCsrLoop rs r0 c0).ie = s.ie ∧ (s.setCsrLoop rs r0 c0).bmIdx = s.bmIdx ∧
    (s.setCsrLoop rs r0 c0).rows.length = s.rows.length := by
  induction rs generalizing s r0 with
  | nil => simp [setCsrLoop]
  | cons r rs ih =>
    have := ih (s.setMatRow r0 (shiftRow c0 r)) (r0 + 1)
    simp only [setCsrLoop]
    simpa [setMatRow] using this

@[simp] theorem Sys.setCsrLoop_names (s : Sys K) (rs : List (SRow K)) (r0 c0 : ℕ) :
    (s.setCsrLoop rs r0 c0).names = s.names := (s.setCsrLoop_fields rs r0 c0).1
@[simp] theorem Sys.setCsrLoop_dims (s : Sys K) (rs : List (SRow K)) (r0 c0 : ℕ) :
    (s.setCsrLoop rs r0 c0).dims = s.dims := (s.setCsrLoop_fields rs r0 c0).2.1
@[simp] theorem Sys.setCsrLoop_bmPos (s : Sys K) (rs : List (SRow K)) (r0 c0 : ℕ) :
    (s.setCsrLoop rs r0 c0).bmPos = s.bmPos := (s.setCsrLoop_fields rs r0 c0).2.2.1
@[simp] theorem Sys.setCsrLoop_cur (s : Sys K) (rs : List (SRow K)) (r0 c0 : ℕ) :
    (s.setCsrLoop rs r0 c0).cur = s.cur := (s.setCsrLoop_fields rs r0 c0).2.2.2.1
@[simp] theorem Sys.setCsrLoop_ie (s : Sys K) (rs : List (SRow K)) (r0 c0 : ℕ) :
    (s.setCsrLoop rs r0 c0).ie = s.ie := (s.setCsrLoop_fields rs r0 c0).2.2.2.2.1
@[simp] theorem Sys.setCsrLoop_bmIdx (s : Sys K) (rs : List (SRow K)) (r0 c0 : ℕ) :
    (s.setCsrLoop rs r0 c0).bmIdx = s.bmIdx := (s.setCsrLoop_fields rs r0 c0).2.2.2.2.2.1
@[simp] theorem Sys.setCsrLoop_length (s : Sys K) (rs : List (SRow K)) (r0 c0 : ℕ) :
    (s.setCsrLoop rs r0 c0).rows.length = s.rows.length :=
  (s.setCsrLoop_fields rs r0 c0).2.2.2.2.2.2

theorem Sys.setCsrLoop_getElem? (s : Sys K) (rs : List (SRow K)) (r0 c0 i : ℕ) :
    (s.setCsrLoop rs r0 c0).rows[i]? =
      if r0 ≤ i ∧ i < r0 + rs.length then
        (s.rows[i]?).map fun r => r.withCoefs (shiftRow c0 (rs.getD (i - r0) []))
      else s.rows[i]? := by
  induction rs generalizing s r0 with
  | nil =>
    simp only [setCsrLoop, List.length_nil, Nat.add_zero]
    split
    · omega
    · rfl
  | cons r rs ih =>
    simp only [setCsrLoop]
    rw [ih]
    have hrow : (s.setMatRow r0 (shiftRow c0 r)).rows[i]? =
        if r0 = i then (s.rows[i]?).map fun q => q.withCoefs (shiftRow c0 r) else s.rows[i]? := by
      simp only [setMatRow, List.getElem?_modify]
      split <;> simp [LRow.withCoefs]
    rw [hrow]
    simp only [List.length_cons]
    by_cases h0 : r0 = i
    · subst h0
      rw [if_neg (by omega), if_pos rfl, if_pos (by omega)]
      simp
    · rw [if_neg h0]
      by_cases h1 : r0 + 1 ≤ i ∧ i < r0 + 1 + rs.length
      · rw [if_pos h1, if_pos (by omega)]
        have : i - r0 = (i - (r0 + 1)) + 1 := by omega
        rw [this, List.getD_cons_succ]
      · rw [if_neg h1, if_neg (by omega)]

/-- `setCsrLoop` on the block `l2` of a row store `l1 ++ l2 ++ l3`. -/
theorem Sys.setCsrLoop_rows_split (s : Sys K) (rs : List (SRow K)) (c0 : ℕ)
    (l1 l2 l3 : List (LRow K)) (h : s.rows = l1 ++ l2 ++ l3) (hl : l2.length = rs.length) :
    (s.setCsrLoop rs l1.length c0).rows =
      l1 ++ List.zipWith (fun r c => r.withCoefs (shiftRow c0 c)) l2 rs ++ l3 := by
  induction rs generalizing s l1 l2 with
  | nil =>
    have : l2 = [] := List.length_eq_zero_iff.1 (by simpa using hl)
    subst this
    simpa [setCsrLoop] using h
  | cons r rs ih =>
    match l2, hl with
    | q :: l2, hl =>
      simp only [setCsrLoop]
      have hmod : (s.setMatRow l1.length (shiftRow c0 r)).rows =
          (l1 ++ [q.withCoefs (shiftRow c0 r)]) ++ l2 ++ l3 := by
        simp only [setMatRow, h]
        rw [List.modify_eq_set_getElem?]
        simp [LRow.withCoefs]
      have := ih (s.setMatRow l1.length (shiftRow c0 r)) (l1 ++ [q.withCoefs (shiftRow c0 r)]) l2
        hmod (by simpa using hl)
      simp only [List.length_append, List.length_singleton] at this
      rw [this]
      simp

/-! ### setCscLoop -/

theorem Sys.setCscLoop_fields (s : Sys K) (cs : List (SRow K)) (r0 c0 : ℕ) :
    (s.setCscLoop cs r0 c0).names = s.names ∧ (s.setCscLoop cs r0 c0).dims = s.dims ∧
    (s.setCscLoop cs r0 c0).bmPos = s.bmPos ∧ (s.setCscLoop cs r0 c0).cur = s.cur ∧
    (s.setCscLoop cs r0 c0).ie = s.ie ∧ (s.setCscLoop cs r0 c0).bmIdx = s.bmIdx ∧
    (s.setCscLoop cs r0 c0).rows.length = s.rows.length := by
  induction cs generalizing s c0 with
  | nil => simp [setCscLoop]
  | cons c cs ih =>
    have := ih (s.setMatCol c0 (shiftRow r0 c)) (c0 + 1)
    simp only [setCscLoop]
    simpa [setMatCol] using this

@[simp] theorem Sys.setCscLoop_names (s : Sys K) (rs : List (SRow K)) (r0 c0 : ℕ) :
    (s.setCscLoop rs r0 c0).names = s.names := (s.setCscLoop_fields rs r0 c0).1
@[simp] theorem Sys.setCscLoop_dims (s : Sys K) (rs : List (SRow K)) (r0 c0 : ℕ) :
    (s.setCscLoop rs r0 c0).dims = s.dims := (s.setCscLoop_fields rs r0 c0).2.1
@[simp] theorem Sys.setCscLoop_bmPos (s : Sys K) (rs : List (SRow K)) (r0 c0 : ℕ) :
    (s.setCscLoop rs r0 c0).bmPos = s.bmPos := (s.setCscLoop_fields rs r0 c0).2.2.1
@[simp] theorem Sys.setCscLoop_cur (s : Sys K) (rs : List (SRow K)) (r0 c0 : ℕ) :
    (s.setCscLoop rs r0 c0).cur = s.cur := (s.setCscLoop_fields rs r0 c0).2.2.2.1
@[simp] theorem Sys.setCscLoop_ie (s : Sys K) (rs : List (SRow K)) (r0 c0 : ℕ) :
    (s.setCscLoop rs r0 c0).ie = s.ie := (s.setCscLoop_fields rs r0 c0).2.2.2.2.1
@[simp] theorem Sys.setCscLoop_bmIdx (s : Sys K) (rs : List (SRow K)) (r0 c0 : ℕ) :
    (s.setCscLoop rs r0 c0).bmIdx = s.bmIdx := (s.setCscLoop_fields rs r0 c0).2.2.2.2.2.1
@[simp] theorem Sys.setCscLoop_length (s : Sys K) (rs : List (SRow K)) (r0 c0 : ℕ) :
    (s.setCscLoop rs r0 c0).rows.length = s.rows.length :=
  (s.setCscLoop_fields rs r0 c0).2.2.2.2.2.2

/-- Row `i` of a csc block placed at row offset `r0`, column offset `c0`: what the block
contributes to LP row `i`. -/
def cscRow (cs : List (SRow K)) (r0 c0 i : ℕ) : SRow K :=
  match cs with
  | [] => []
  | c :: cs => ((shiftRow r0 c).filter fun p => p.1 = i ∧ p.2 ≠ 0).map (fun p => (c0, p.2)) ++
      cscRow cs r0 (c0 + 1) i

theorem cscRow_col {cs : List (SRow K)} {r0 c0 i : ℕ} {p : ℕ × K} (h : p ∈ cscRow cs r0 c0 i) :
    c0 ≤ p.1 ∧ p.1 < c0 + cs.length := by
  induction cs generalizing c0 with
  | nil => simp [cscRow] at h
  | cons c cs ih =>
    simp only [cscRow, List.mem_append, List.mem_map] at h
    rcases h with ⟨q, _, rfl⟩ | h
    · simp
    · have := ih h
      simp only [List.length_cons]; omega

theorem dot_filter_row (c : SRow K) (i c0 : ℕ) (v : ℕ → K) :
    dot ((c.filter fun p => p.1 = i ∧ p.2 ≠ 0).map fun p => (c0, p.2)) v = coefAt c i * v c0 := by
  induction c with
  | nil => simp
  | cons p c ih =>
    rw [coefAt_cons]
    by_cases h1 : p.1 = i
    · by_cases h2 : p.2 = 0
      · rw [List.filter_cons_of_neg (by simp [h2]), ih]; simp [h2]
      · rw [List.filter_cons_of_pos (by simp [h1, h2]), List.map_cons, dot_cons, ih]
        simp [h1]; ring
    · rw [List.filter_cons_of_neg (by simp [h1]), ih]; simp [h1]

theorem coefAt_shiftRow (r0 : ℕ) (c : SRow K) (i : ℕ) :
    coefAt (shiftRow r0 c) i = if r0 ≤ i then coefAt c (i - r0) else 0 := by
  induction c with
  | nil => simp [shiftRow]
  | cons p c ih =>
    simp only [shiftRow, List.map_cons] at *
    rw [coefAt_cons, ih, coefAt_cons]
    by_cases h : r0 ≤ i
    · simp only [if_pos h]
      congr 1
      by_cases h2 : r0 + p.1 = i
      · rw [if_pos h2, if_pos (by omega)]
      · rw [if_neg h2, if_neg (by omega)]
    · simp only [if_neg h]
      rw [if_neg (by omega)]; simp

theorem dot_cscRow (cs : List (SRow K)) (r0 c0 i : ℕ) (v : ℕ → K) :
    dot (cscRow cs r0 c0 i) v =
      ∑ c ∈ Finset.range cs.length, coefAt (shiftRow r0 (cs.getD c [])) i * v (c0 + c) := by
  induction cs generalizing c0 with
  | nil => simp [cscRow]
  | cons c cs ih =>
    simp only [cscRow, dot_append, dot_filter_row, ih, List.length_cons]
    rw [Finset.sum_range_succ']
    simp only [List.getD_cons_succ, List.getD_cons_zero, Nat.add_zero]
    rw [add_comm]
    congr 1
    apply Finset.sum_congr rfl
    intro x _
    rw [show c0 + 1 + x = c0 + (x + 1) by omega]

/-- After `set_constraints_csc` at column offset `c0` on rows that do not use these columns yet,
every row keeps its old coefficients and gets the block's. -/
theorem Sys.setCscLoop_getElem? (s : Sys K) (cs : List (SRow K)) (r0 c0 i : ℕ)
    (hfresh : ∀ r ∈ s.rows, ∀ p ∈ r.coefs, p.1 < c0) :
    (s.setCscLoop cs r0 c0).rows[i]? =
      (s.rows[i]?).map (fun r : LRow K => { r with coefs := r.coefs ++ cscRow cs r0 c0 i }) := by
  induction cs generalizing s c0 with
  | nil => simp [setCscLoop, cscRow]
  | cons c cs ih =>
    simp only [setCscLoop]
    have hrow : ∀ i, (s.setMatCol c0 (shiftRow r0 c)).rows[i]? =
        (s.rows[i]?).map (fun r : LRow K => { r with coefs := r.coefs ++
          ((shiftRow r0 c).filter fun p : ℕ × K => p.1 = i ∧ p.2 ≠ 0).map (fun p : ℕ × K => (c0, p.2)) }) := by
      intro i
      simp only [setMatCol, List.getElem?_mapIdx]
      cases hr : s.rows[i]? with
      | none => simp
      | some r =>
        simp only [Option.map_some]
        have : r.coefs.filter (fun p => decide (p.1 ≠ c0)) = r.coefs := by
          rw [List.filter_eq_self]
          intro p hp
          have := hfresh r (List.mem_of_getElem? hr) p hp
          simp; omega
        rw [this]
    rw [ih]
    · rw [hrow, Option.map_map]
      congr 1
      funext r
      simp [cscRow]
    · intro r hr p hp
      obtain ⟨j, hj, rfl⟩ := List.getElem_of_mem hr
      have h2 := hrow j
      rw [List.getElem?_eq_getElem hj] at h2
      cases hs : s.rows[j]? with
      | none => rw [hs] at h2; simp at h2
      | some q =>
        rw [hs] at h2
        simp only [Option.map_some, Option.some.injEq] at h2
        rw [h2] at hp
        simp only [List.mem_append, List.mem_map] at hp
        rcases hp with hp | ⟨_, _, rfl⟩
        · have := hfresh q (List.mem_of_getElem? hs) p hp; omega
        · simp

end Hylaa
