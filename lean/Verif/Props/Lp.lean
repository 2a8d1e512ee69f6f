import Verif.Proofs.Zip
import Verif.Proofs.Inst

/-! # C24, C25: constraint blocks are written and read back exactly -/

set_option linter.unusedSectionVars false

namespace Hylaa
open Spec
variable {K : Type} [Field K] [LinearOrder K] [IsStrictOrderedRing K]

/-! ### C25 -/

/-- **C25.** `set_constraints_csr` raises exactly when the block does not fit into the LP. -/
theorem C25_csr_refuses (s : Sys K) (c : Csr K) (off : ℕ × ℕ) :
    s.setCsr c off = .error .runtime ↔
      (s.rows.length < off.1 + c.rows.length ∨ s.names.length < off.2 + c.ncols) := by
  unfold Sys.setCsr Sys.numRows Sys.numCols
  split_ifs with h
  · simpa using h
  · simpa using h

/-- **C25.** `set_constraints_csc` raises exactly when the block does not fit into the LP. -/
theorem C25_csc_refuses (s : Sys K) (c : Csc K) (off : ℕ × ℕ) :
    s.setCsc c off = .error .runtime ↔
      (s.rows.length < off.1 + c.nrows ∨ s.names.length < off.2 + c.cols.length) := by
  unfold Sys.setCsc Sys.numRows Sys.numCols
  split_ifs with h
  · simpa using h
  · simpa using h

/-- **C25.** A fitting csr block: each addressed row keeps its type and bound and has exactly the
block's coefficients (nothing outside the block's columns); every other row, the columns and the
reach variables are untouched. -/
theorem C25_csr_block {s s' : Sys K} {c : Csr K} {off : ℕ × ℕ} (h : s.setCsr c off = .ok s') :
    s'.names = s.names ∧ s'.dims = s.dims ∧ s'.cur = s.cur ∧ s'.bmPos = s.bmPos ∧ s'.ie = s.ie ∧
    s'.rows.length = s.rows.length ∧
    (∀ i, i < off.1 ∨ off.1 + c.rows.length ≤ i → s'.rows[i]? = s.rows[i]?) ∧
    ∀ k < c.rows.length, ∃ r r', s.rows[off.1 + k]? = some r ∧ s'.rows[off.1 + k]? = some r' ∧
      r'.ty = r.ty ∧ r'.rhs = r.rhs ∧
      ∀ j, coefAt r'.coefs j = if off.2 ≤ j then coefAt (c.row k) (j - off.2) else 0 := by
  obtain ⟨⟨h1, h2⟩, rfl⟩ := setCsr_ok.1 h
  refine ⟨by simp, by simp, by simp, by simp, by simp, by simp, fun i hi => ?_, fun k hk => ?_⟩
  · rw [Sys.setCsrLoop_getElem?]
    rw [if_neg (by omega)]
  · unfold Sys.numRows at h1
    have hlt : off.1 + k < s.rows.length := by omega
    refine ⟨s.rows[off.1 + k], s.rows[off.1 + k].withCoefs (shiftRow off.2
      (c.rows.getD (off.1 + k - off.1) [])), List.getElem?_eq_getElem hlt, ?_⟩
    rw [Sys.setCsrLoop_getElem?, if_pos (by omega), List.getElem?_eq_getElem hlt]
    refine ⟨by simp only [Option.map_some], rfl, rfl, fun j => ?_⟩
    have hc : c.rows.getD (off.1 + k - off.1) [] = c.row k := by
      unfold Csr.row; congr 1; omega
    rw [← coefAt_shiftRow, LRow.withCoefs, ← hc]
    exact coefAt_filter_ne _ _

theorem coefAt_col (e : SRow K) (i j k : ℕ) :
    coefAt ((e.filter fun p : ℕ × K => p.1 = i ∧ p.2 ≠ 0).map fun p => (j, p.2)) k =
      if j = k then coefAt e i else 0 := by
  rw [coefAt_eq_dot, dot_filter_row]
  split_ifs with h <;> simp_all

theorem coefAt_filterCol (r : SRow K) (j k : ℕ) :
    coefAt (r.filter fun p => p.1 ≠ j) k = if j = k then 0 else coefAt r k := by
  split_ifs with h
  · subst h
    apply coefAt_eq_zero
    intro p hp
    simpa using (List.mem_filter.1 hp).2
  · unfold coefAt
    rw [List.filter_filter]
    congr 2
    apply List.filter_congr
    intro p _
    by_cases hp : p.1 = k
    · simp [hp]; omega
    · simp [hp]

theorem setCscLoop_coefAt (s : Sys K) (cs : List (SRow K)) (r0 c0 i : ℕ) :
    ∀ r, s.rows[i]? = some r → ∃ r', (s.setCscLoop cs r0 c0).rows[i]? = some r' ∧
      r'.ty = r.ty ∧ r'.rhs = r.rhs ∧ ∀ j, coefAt r'.coefs j =
        if c0 ≤ j ∧ j < c0 + cs.length then coefAt (shiftRow r0 (cs.getD (j - c0) [])) i
        else coefAt r.coefs j := by
  induction cs generalizing s c0 with
  | nil => intro r hr; exact ⟨r, hr, rfl, rfl, fun j => by rw [if_neg (by simp)]⟩
  | cons c cs ih =>
    intro r hr
    simp only [Sys.setCscLoop]
    have h1 : (s.setMatCol c0 (shiftRow r0 c)).rows[i]? = some { r with coefs :=
        (r.coefs.filter fun p => p.1 ≠ c0) ++ (((shiftRow r0 c).filter fun p =>
          p.1 = i ∧ p.2 ≠ 0).map fun p => (c0, p.2)) } := by
      simp only [Sys.setMatCol, List.getElem?_mapIdx, hr, Option.map_some]
    obtain ⟨r', hr', ht, hh, hc⟩ := ih (s.setMatCol c0 (shiftRow r0 c)) (c0 + 1) _ h1
    refine ⟨r', hr', ht, hh, fun j => ?_⟩
    rw [hc j]
    simp only [coefAt_append, coefAt_filterCol, coefAt_col, List.length_cons]
    by_cases hj : j = c0
    · subst hj
      rw [if_neg (by omega), if_pos (by omega)]; simp
    · by_cases hlt : c0 ≤ j ∧ j < c0 + (cs.length + 1)
      · rw [if_pos (by omega), if_pos hlt]
        rw [show j - c0 = (j - (c0 + 1)) + 1 by omega, List.getD_cons_succ]
      · rw [if_neg (by omega), if_neg hlt, if_neg (fun h => hj h.symm), if_neg (fun h => hj h.symm)]
        simp

/-- **C25.** A fitting csc block: in each addressed column every row has exactly the block's
coefficient (zero outside the block's rows); every other column of every row, the row types and
bounds are untouched. -/
theorem C25_csc_block {s s' : Sys K} {c : Csc K} {off : ℕ × ℕ} (h : s.setCsc c off = .ok s') :
    s'.names = s.names ∧ s'.dims = s.dims ∧ s'.cur = s.cur ∧ s'.bmPos = s.bmPos ∧ s'.ie = s.ie ∧
    s'.rows.length = s.rows.length ∧
    ∀ i r, s.rows[i]? = some r → ∃ r', s'.rows[i]? = some r' ∧ r'.ty = r.ty ∧ r'.rhs = r.rhs ∧
      (∀ j, j < off.2 ∨ off.2 + c.cols.length ≤ j → coefAt r'.coefs j = coefAt r.coefs j) ∧
      ∀ k < c.cols.length, coefAt r'.coefs (off.2 + k) =
        if off.1 ≤ i then coefAt (c.cols.getD k []) (i - off.1) else 0 := by
  obtain ⟨⟨h1, h2⟩, rfl⟩ := setCsc_ok.1 h
  refine ⟨by simp, by simp, by simp, by simp, by simp, by simp, fun i r hr => ?_⟩
  obtain ⟨r', hr', ht, hh, hc⟩ := setCscLoop_coefAt s c.cols off.1 off.2 i r hr
  refine ⟨r', hr', ht, hh, fun j hj => ?_, fun k hk => ?_⟩
  · rw [hc, if_neg (by omega)]
  · rw [hc, if_pos (by omega), coefAt_shiftRow]
    simp

/-- Non-vacuity: a 1x1 block written into a 2x2 LP, once fitting and once not. -/
example : ∃ s : Sys ℚ, (({} : Sys ℚ).addCols ["x", "y"]).addRowsLE [1, 2] = s ∧
    (∃ s', s.setCsr ⟨1, [[(0, 5)]]⟩ (1, 1) = .ok s') ∧
    s.setCsr ⟨1, [[(0, 5)]]⟩ (2, 1) = .error .runtime ∧
    (∃ s', s.setCsc ⟨1, [[(0, 5)]]⟩ (1, 1) = .ok s') ∧
    s.setCsc ⟨1, [[(0, 5)]]⟩ (1, 2) = .error .runtime :=
  ⟨_, rfl, ⟨_, rfl⟩, rfl, ⟨_, rfl⟩, rfl⟩

/-! ### C24 -/

/-- Rebuild an LP from what the getters return: new instance, `add_cols(get_names())`,
`add_rows_with_types(get_types(), get_rhs())`, `set_constraints_csr(get_full_constraints())`. -/
def rebuild (dblMax : K) (s : Sys K) : Except Err (Sys K) := do
  let t ← (({} : Sys K).addCols s.names).addRowsWithTypes s.getTypes (s.getRhs dblMax)
  t.setCsr s.getFull (0, 0)

theorem zip_map_map {α β γ : Type} (l : List α) (f : α → β) (g : α → γ) :
    (l.map f).zip (l.map g) = l.map fun a => (f a, g a) := by
  induction l with
  | nil => rfl
  | cons a l ih => simp [ih]

/-- The rows of the rebuilt LP. -/
theorem rebuild_rows (dblMax : K) (s : Sys K) : ∃ t, rebuild dblMax s = .ok t ∧ t.names = s.names ∧
    t.rows = s.rows.map fun r => ⟨r.ty, r.getRhs dblMax, r.coefs.filter fun p => p.2 ≠ 0⟩ := by
  unfold rebuild
  have hl : s.getTypes.length = (s.getRhs dblMax).length := by simp [Sys.getTypes, Sys.getRhs]
  simp only [Sys.addRowsWithTypes, if_pos hl, bind, Except.bind]
  refine ⟨_, setCsr_ok.2 ⟨⟨?_, ?_⟩, rfl⟩, ?_, ?_⟩
  · simp [Sys.getFull, Sys.numRows, Sys.addCols, Sys.getTypes, Sys.getRhs]
  · simp [Sys.getFull, Sys.numCols, Sys.addCols]
  · simp [Sys.addCols]
  · have hr : ((({} : Sys K).addCols s.names).rows ++ (s.getTypes.zip (s.getRhs dblMax)).map
        fun p => (⟨p.1, p.2, []⟩ : LRow K)) = [] ++ (s.rows.map fun r =>
          (⟨r.ty, r.getRhs dblMax, []⟩ : LRow K)) ++ [] := by
      simp [Sys.addCols, Sys.getTypes, Sys.getRhs, zip_map_map]
    have := Sys.setCsrLoop_rows_split { ({} : Sys K).addCols s.names with
      rows := (({} : Sys K).addCols s.names).rows ++ (s.getTypes.zip (s.getRhs dblMax)).map
        fun p => (⟨p.1, p.2, []⟩ : LRow K) } s.getFull.rows 0 [] _ [] hr (by simp [Sys.getFull])
    simp only [List.length_nil, List.nil_append, List.append_nil] at this
    rw [this]
    simp only [Sys.getFull]
    rw [List.zipWith_map]
    apply List.ext_getElem (by simp)
    intro i h1 h2
    simp [LRow.withCoefs, shiftRow]

/-- **C24** (partial: only for LPs without `>=` rows).  Rebuilding an LP from names, types, right
hand sides and the full constraint matrix gives an LP with the same columns and the same
solutions.  Missing: `>=` rows, for which the claim is false (`C24_lower_rows_lost`). -/
theorem C24_rebuild_partial (dblMax : K) (s : Sys K) (h : ∀ r ∈ s.rows, r.ty ≠ .lo) :
    ∃ t, rebuild dblMax s = .ok t ∧ t.names = s.names ∧ ∀ v, t.Sat v ↔ s.Sat v := by
  obtain ⟨t, ht, hn, hr⟩ := rebuild_rows dblMax s
  refine ⟨t, ht, hn, fun v => ?_⟩
  unfold Sys.Sat
  rw [hr]
  simp only [List.forall_mem_map]
  have key : ∀ r ∈ s.rows, ((⟨r.ty, r.getRhs dblMax, r.coefs.filter fun p => p.2 ≠ 0⟩ :
      LRow K).holds v ↔ r.holds v) := by
    intro r hrm
    have hd : dot (r.coefs.filter fun p => p.2 ≠ 0) v = dot r.coefs v := by
      simp
    have := h r hrm
    unfold LRow.holds LRow.getRhs
    cases hty : r.ty with
    | fx => simp only [hd]
    | up => simp only [hd]
    | lo => exact absurd hty this
  exact ⟨fun hs r hrm => (key r hrm).1 (hs r hrm), fun hs r hrm => (key r hrm).2 (hs r hrm)⟩

/-- **C24 is false for `>=` rows.**  `get_rhs` reads the upper bound of a `>=` row, which is not its
right-hand side: whatever finite value GLPK returns, a satisfiable LP with one row `x >= b` below it
changes its solutions when it is rebuilt. -/
theorem C24_lower_rows_lost (dblMax : ℚ) (b : ℚ) (hb : b < dblMax) :
    ∃ s t : Sys ℚ, rebuild dblMax s = .ok t ∧ s.rows = [⟨.lo, b, [(0, 1)]⟩] ∧
      s.Sat (fun _ => b) ∧ ¬ t.Sat (fun _ => b) := by
  obtain ⟨t, ht, -, hr⟩ := rebuild_rows dblMax
    ({ names := ["x"], rows := [⟨.lo, b, [(0, 1)]⟩] } : Sys ℚ)
  refine ⟨_, t, ht, rfl, ?_, ?_⟩
  · intro r hrm
    simp only [List.mem_singleton] at hrm
    subst hrm
    simp [LRow.holds]
  · intro hs
    have := hs ⟨.lo, dblMax, [(0, 1)]⟩ (by rw [hr]; simp [LRow.getRhs])
    simp [LRow.holds] at this
    exact absurd this (not_le.2 hb)

/-- **C24.** The dense getter and the row getter return what was set: after writing a csr block,
reading that block back gives the block's entries, and reading any of its rows gives a row with the
block's value at every point. -/
theorem C24_read_back {s s' : Sys K} {c : Csr K} {off : ℕ × ℕ} (h : s.setCsr c off = .ok s') :
    (∃ m, s'.getDense off.2 off.1 c.ncols c.rows.length = .ok m ∧ m.nr = c.rows.length ∧
      m.nc = c.ncols ∧ ∀ i < c.rows.length, ∀ j < c.ncols, m.e i j = coefAt (c.row i) j) ∧
    ∀ i < c.rows.length, ∃ r, s'.getRow (off.1 + i) = .ok r ∧
      ∀ v, dot r v = dot (c.row i) fun j => v (off.2 + j) := by
  obtain ⟨hn, -, -, -, -, hlen, -, hblk⟩ := C25_csr_block h
  obtain ⟨⟨h1, h2⟩, rfl⟩ := setCsr_ok.1 h
  constructor
  · unfold Sys.getDense
    rw [if_pos ⟨by simpa [Sys.numCols] using h2, by simpa [Sys.numRows] using h1⟩]
    refine ⟨_, rfl, rfl, rfl, fun i hi j hj => ?_⟩
    obtain ⟨r, r', -, hr', -, -, hc⟩ := hblk i hi
    simp only [hr', hi, hj, and_self, if_true]
    rw [hc, if_pos (by omega)]
    congr 1; omega
  · intro i hi
    obtain ⟨r, r', hr, hr', -, -, hc⟩ := hblk i hi
    refine ⟨r'.coefs, by simp [Sys.getRow, hr'], fun v => ?_⟩
    have := Sys.setCsrLoop_getElem? s c.rows off.1 off.2 (off.1 + i)
    rw [hr', if_pos (by omega), hr] at this
    simp only [Option.map_some, Option.some.injEq] at this
    rw [this]
    simp only [LRow.withCoefs_dot, dot_shiftRow, Csr.row]
    congr 2; omega

/-- Non-vacuity: an LP with an equality and an inequality is rebuilt; a block is read back. -/
example : (∃ t, rebuild (1000 : ℚ) ⟨["x", "y"], [⟨.fx, 1, [(0, 1)]⟩, ⟨.up, 2, [(1, 3)]⟩], 0, (0, 0),
      0, none, []⟩ = .ok t ∧ t.rows.length = 2) ∧
    ∃ s' : Sys ℚ, (⟨["x", "y"], [⟨.up, 2, []⟩], 0, (0, 0), 0, none, []⟩ : Sys ℚ).setCsr
      ⟨1, [[(0, 5)]]⟩ (0, 1) = .ok s' :=
  ⟨⟨_, rfl, rfl⟩, ⟨_, rfl⟩⟩

end Hylaa
