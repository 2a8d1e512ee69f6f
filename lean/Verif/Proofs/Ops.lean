import Verif.Proofs.Construct

/-! The instance operations preserve the layout; their effect in closed form. -/

set_option linter.unusedSectionVars false

namespace Hylaa
variable {K : Type} [Field K] [LinearOrder K]

/-- Same bookkeeping fields. -/
structure Sys.SameVars (s s' : Sys K) : Prop where
  dims : s'.dims = s.dims
  bmPos : s'.bmPos = s.bmPos
  cur : s'.cur = s.cur
  ie : s'.ie = s.ie
  bmIdx : s'.bmIdx = s.bmIdx

theorem Sys.SameVars.special {s s' : Sys K} (h : s.SameVars s') (i : ℕ) :
    s'.special i ↔ s.special i := by
  unfold Sys.special; rw [h.dims, h.bmPos, h.ie]

theorem Sys.SameVars.blockLen {s s' : Sys K} (h : s.SameVars s') : s'.blockLen = s.blockLen := by
  unfold Sys.blockLen; rw [h.dims, h.ie]

theorem Sys.SameVars.inBlock {s s' : Sys K} (h : s.SameVars s') (j : ℕ) :
    s'.inBlock j ↔ s.inBlock j := by
  unfold Sys.inBlock; rw [h.cur, h.blockLen]

/-! ### set_basis_matrix -/

theorem dot_bmRow {s : Sys K} (hidx : s.bmIdx = mkBmIdx s.dims s.bmPos.2 s.cur s.ie)
    (hie : ∀ p, s.ie = some p → p.2 = s.cur + s.dims)
    (m : Mat K) {i : ℕ} (hi : i < s.dims) (v : ℕ → K) :
    dot (bmRow s m i) v = (∑ j ∈ Finset.range s.dims, m.e i j * v (s.bmPos.2 + j)) -
      v (s.cur + i) + (if s.ie.isSome then v (s.cur + s.dims + i) else 0) := by
  unfold bmRow
  rw [hidx]
  have h1 : ((mkBmIdx s.dims s.bmPos.2 s.cur s.ie).getD i []) =
      (List.range s.dims).map (fun col => s.bmPos.2 + col) ++ [s.cur + i] ++
      (match s.ie with | none => [] | some p => [p.2 + i]) := by
    simp [mkBmIdx, List.getD_eq_getElem?_getD, hi]
    cases s.ie <;> rfl
  rw [h1]
  rw [List.zip_append (by simp), List.zip_append (by simp)]
  rw [dot_append, dot_append]
  have h2 : ((List.range s.dims).map (fun col => s.bmPos.2 + col)).zip
      ((List.range s.dims).map (fun j => m.e i j)) =
      (List.range s.dims).map fun j => (s.bmPos.2 + j, m.e i j) := by
    rw [List.zip_map']
  rw [h2, dot_map_range]
  cases h : s.ie with
  | none => simp; ring
  | some p => simp [hie p h]; ring

theorem setBasisMatrix_shape {s s' : Sys K} {m : Mat K} (h : setBasisMatrix s m = .ok s')
    {B : ℕ → ℕ → K} {X R : ℕ → SRow K} (hs : s.Shape B X R) :
    s'.Shape m.e (fun _ => []) R ∧ s.SameVars s' ∧ s'.names = s.names ∧ s'.numRows = s.numRows ∧
    (∀ v, s'.Rest v ↔ s.Rest v) ∧ m.nr = s.dims ∧ m.nc = s.dims ∧
    (∀ i, ¬ s.special i → s'.rows[i]? = s.rows[i]?) := by
  simp only [setBasisMatrix, bind_ok, assert_ok, pure_ok] at h
  obtain ⟨_, hm1, _, hm2, rfl⟩ := h
  have hsv : s.SameVars (s.setSwigRows ((List.range s.dims).map (bmRow s m)) s.bmPos.1) :=
    ⟨by simp [Sys.setSwigRows], by simp [Sys.setSwigRows], by simp [Sys.setSwigRows],
      by simp [Sys.setSwigRows], by simp [Sys.setSwigRows]⟩
  have hget : ∀ i, (s.setSwigRows ((List.range s.dims).map (bmRow s m)) s.bmPos.1).rows[i]? =
      if s.bmPos.1 ≤ i ∧ i < s.bmPos.1 + s.dims then
        (s.rows[i]?).map fun r => r.withCoefs (shiftRow 0 (bmRow s m (i - s.bmPos.1)))
      else s.rows[i]? := by
    intro i
    unfold Sys.setSwigRows
    rw [Sys.setCsrLoop_getElem?]
    simp only [List.length_map, List.length_range]
    split
    · rename_i hi
      have : i - s.bmPos.1 < s.dims := by omega
      simp [List.getD_eq_getElem?_getD, this]
    · rfl
  have hother : ∀ i, ¬ s.special i →
      (s.setSwigRows ((List.range s.dims).map (bmRow s m)) s.bmPos.1).rows[i]? = s.rows[i]? := by
    intro i hi
    rw [hget, if_neg]
    intro hc; exact hi (Or.inl hc)
  have hnr : (s.setSwigRows ((List.range s.dims).map (bmRow s m)) s.bmPos.1).numRows =
      s.numRows := by simp [Sys.numRows, Sys.setSwigRows]
  have hnc : (s.setSwigRows ((List.range s.dims).map (bmRow s m)) s.bmPos.1).numCols =
      s.numCols := by simp [Sys.numCols, Sys.setSwigRows]
  refine ⟨?_, hsv, by simp [Sys.setSwigRows], hnr, ?_, hm2, by omega, hother⟩
  · refine ⟨?_, ?_, ?_, ?_, ?_, ?_, ?_, ?_, ?_, ?_, ?_, ?_⟩
    · intro r hr p hp
      rw [hnc]
      obtain ⟨i, hir⟩ := List.getElem?_of_mem hr
      rw [hget] at hir
      split at hir
      · rename_i hi
        simp only [Option.map_eq_some_iff] at hir
        obtain ⟨r0, hr0, rfl⟩ := hir
        have hp2 := LRow.withCoefs_mem hp
        simp only [shiftRow, List.mem_map] at hp2
        obtain ⟨q, hq, rfl⟩ := hp2
        unfold bmRow at hq
        rw [hs.idx] at hq
        have hlt : i - s.bmPos.1 < s.dims := by omega
        have hq1 := (List.of_mem_zip hq).1
        simp only [mkBmIdx, List.getD_eq_getElem?_getD, List.getElem?_map,
          List.getElem?_range hlt, Option.map_some, Option.getD_some] at hq1
        have h3 := hs.colsLe
        have h4 := hs.curLe
        unfold Sys.blockLen at h4
        simp only [List.mem_append, List.mem_map, List.mem_range, List.mem_singleton] at hq1
        rcases hq1 with (⟨a, ha, hqa⟩ | hqa) | hqa
        · simp only; split at h4 <;> omega
        · simp only; split at h4 <;> omega
        · cases hie : s.ie with
          | none => rw [hie] at hqa; simp at hqa
          | some p =>
            rw [hie] at hqa
            have := (hs.iePos p hie).1
            simp at hqa
            simp only [hie, Option.isSome_some, if_true] at h4
            simp only; omega
      · exact hs.wf r (List.mem_of_getElem? hir) p hp
    · rw [hnr, hsv.bmPos, hsv.dims]; exact hs.rowsLe
    · rw [hsv.bmPos, hsv.dims, hsv.cur]; exact hs.colsLe
    · rw [hsv.cur, hsv.blockLen, hnc]; exact hs.curLe
    · intro p hp
      rw [hsv.ie] at hp
      rw [hsv.cur, hsv.dims, hnr, hsv.bmPos]; exact hs.iePos p hp
    · rw [hsv.bmIdx, hsv.dims, hsv.bmPos, hsv.cur, hsv.ie]; exact hs.idx
    · intro i hi
      rw [hsv.dims] at hi
      obtain ⟨r, hr, hty, hrhs, -⟩ := hs.basis i hi
      refine ⟨r.withCoefs (shiftRow 0 (bmRow s m i)), ?_, hty, hrhs, fun v => ?_⟩
      · rw [hsv.bmPos, hget, if_pos (by omega), hr]; simp
      · rw [LRow.withCoefs_dot, hsv.dims, hsv.bmPos, hsv.cur, hsv.ie]
        simp only [dot_shiftRow, Nat.zero_add, dot_nil, add_zero]
        exact dot_bmRow hs.idx (fun p hp => (hs.iePos p hp).1) m hi v
    · intro p hp i hi
      rw [hsv.ie] at hp
      rw [hsv.dims] at hi
      obtain ⟨r, hr, hty, hrhs, hdot⟩ := hs.ieRows p hp i hi
      refine ⟨r, ?_, hty, hrhs, fun v => ?_⟩
      · rw [hget, if_neg, hr]
        have := hs.iePos p hp; omega
      · rw [hsv.cur, hsv.dims]; exact hdot v
    · intro hn; rw [hsv.ie] at hn; exact hs.noIe hn
    · intro i q hq; simp at hq
    · intro i q hq; rw [hsv.inBlock, hnc]; exact hs.rAvoid i q hq
    · intro i r hir hsp q hq
      rw [hsv.special] at hsp
      rw [hsv.inBlock]
      rw [hother i hsp] at hir
      exact hs.others i r hir hsp q hq
  · intro v
    constructor
    · intro hr i r hir hsp
      exact hr i r (by rw [hother i hsp]; exact hir) (by rw [hsv.special]; exact hsp)
    · intro hr i r hir hsp
      rw [hsv.special] at hsp
      exact hr i r (by rw [← hother i hsp]; exact hir) hsp

/-! ### adding columns -/

theorem coefAt_map_range (n off : ℕ) (f : ℕ → K) (i : ℕ) :
    coefAt ((List.range n).map fun r => (r + off, f r)) i =
      if off ≤ i ∧ i < off + n then f (i - off) else 0 := by
  rw [coefAt_eq_dot, dot_map_range]
  simp only [mul_ite, mul_one, mul_zero]
  by_cases h : off ≤ i ∧ i < off + n
  · rw [if_pos h, Finset.sum_eq_single (i - off)]
    · rw [if_pos (by omega)]
    · intro b _ hb; rw [if_neg (by omega)]
    · intro hh; exact absurd (Finset.mem_range.2 (by omega)) hh
  · rw [if_neg h]
    apply Finset.sum_eq_zero
    intro x hx
    have := Finset.mem_range.1 hx
    rw [if_neg (by omega)]

theorem shiftRow_zero (r : SRow K) : shiftRow 0 r = r := by simp [shiftRow]

/-- Appending columns (`set_constraints_csc` on fresh columns) and `<=`/`=` rows over them. -/
theorem extend_shape {s : Sys K} {B : ℕ → ℕ → K} {X R : ℕ → SRow K} (hs : s.Shape B X R)
    (ns : List String) (extra : List (LRow K)) (cols : List (SRow K)) (P Q : ℕ → ℕ → K)
    (hextra : ∀ r ∈ extra, r.coefs = []) (hlen : cols.length = ns.length)
    (hns : ∀ i c, i < s.numRows → ¬ s.special i → coefAt (cols.getD c []) i = 0)
    (hP : ∀ i < s.dims, ∀ c < cols.length, coefAt (cols.getD c []) (s.bmPos.1 + i) = P i c)
    (hQ : ∀ p, s.ie = some p → ∀ i < s.dims, ∀ c < cols.length,
      coefAt (cols.getD c []) (p.1 + i) = Q i c) :
    let s' := ({ s with names := s.names ++ ns, rows := s.rows ++ extra } : Sys K).setCscLoop
      cols 0 s.numCols
    s'.Shape B (fun i => X i ++ rangeRow cols.length s.numCols (P i))
      (fun i => if s.ie.isSome then R i ++ rangeRow cols.length s.numCols (Q i) else []) ∧
    s.SameVars s' ∧ s'.numCols = s.numCols + ns.length ∧
    s'.numRows = s.numRows + extra.length ∧
    (∀ v, s'.Rest v ↔ s.Rest v ∧ ∀ (k : ℕ) (hk : k < extra.length), extra[k].ty.rel
      (∑ c ∈ Finset.range cols.length, coefAt (cols.getD c []) (s.numRows + k) *
        v (s.numCols + c)) extra[k].rhs) := by
  intro s'
  have hsv : s.SameVars s' := ⟨by simp [s'], by simp [s'], by simp [s'], by simp [s'], by simp [s']⟩
  have hnc : s'.numCols = s.numCols + ns.length := by simp [s', Sys.numCols]
  have hnr : s'.numRows = s.numRows + extra.length := by simp [s', Sys.numRows]
  have hget : ∀ i : ℕ, s'.rows[i]? = ((s.rows ++ extra)[i]?).map
      (fun r : LRow K => { r with coefs := r.coefs ++ cscRow cols 0 s.numCols i }) := by
    intro i
    refine Sys.setCscLoop_getElem? _ cols 0 s.numCols i ?_
    intro r hr p hp
    rcases List.mem_append.1 hr with hr | hr
    · exact hs.wf r hr p hp
    · rw [hextra r hr] at hp; simp at hp
  have hold : ∀ (i : ℕ) (r : LRow K), s.rows[i]? = some r →
      s'.rows[i]? = some { r with coefs := r.coefs ++ cscRow cols 0 s.numCols i } := by
    intro i r hi
    have hil : i < s.rows.length := by
      by_contra hc; rw [List.getElem?_eq_none (by omega)] at hi; cases hi
    rw [hget, List.getElem?_append_left hil, hi]; rfl
  have hnew : ∀ (k : ℕ) (hk : k < extra.length), s'.rows[s.numRows + k]? =
      some { extra[k] with coefs := cscRow cols 0 s.numCols (s.numRows + k) } := by
    intro k hk
    rw [hget, List.getElem?_append_right (by unfold Sys.numRows; omega)]
    have : s.numRows + k - s.rows.length = k := by unfold Sys.numRows; omega
    rw [this, List.getElem?_eq_getElem hk]
    simp [hextra _ (List.getElem_mem hk)]
  have hcase : ∀ (i : ℕ) (r : LRow K), s'.rows[i]? = some r →
      (∃ r0, s.rows[i]? = some r0 ∧ r = { r0 with coefs := r0.coefs ++ cscRow cols 0 s.numCols i }) ∨
      (∃ k, ∃ hk : k < extra.length, i = s.numRows + k ∧
        r = { extra[k] with coefs := cscRow cols 0 s.numCols (s.numRows + k) }) := by
    intro i r hi
    by_cases hil : i < s.rows.length
    · left
      refine ⟨s.rows[i], List.getElem?_eq_getElem hil, ?_⟩
      rw [hold i _ (List.getElem?_eq_getElem hil)] at hi
      exact (Option.some.inj hi).symm
    · right
      have : i < s'.rows.length := by
        by_contra hc; rw [List.getElem?_eq_none (by omega)] at hi; cases hi
      have h2 : s'.rows.length = s.rows.length + extra.length := hnr
      refine ⟨i - s.rows.length, by omega, by unfold Sys.numRows; omega, ?_⟩
      have h3 := hnew (i - s.rows.length) (by omega)
      rw [show s.numRows + (i - s.rows.length) = i by unfold Sys.numRows; omega, hi] at h3
      rw [show s.numRows + (i - s.rows.length) = i by unfold Sys.numRows; omega]
      exact Option.some.inj h3
  have hdotc : ∀ i (v : ℕ → K), dot (cscRow cols 0 s.numCols i) v =
      ∑ c ∈ Finset.range cols.length, coefAt (cols.getD c []) i * v (s.numCols + c) := by
    intro i v; rw [dot_cscRow]; simp only [shiftRow_zero]
  have hcb : s.cur + s.blockLen ≤ s.numCols := hs.curLe
  have hnb : ∀ j, s.numCols ≤ j → ¬ s.inBlock j := by
    intro j hj; unfold Sys.inBlock; omega
  have hspl : ∀ i, s.special i → i < s.numRows := by
    intro i hi
    have h1 := hs.rowsLe
    rcases hi with hi | ⟨p, hp, hi⟩
    · omega
    · have := hs.iePos p hp; omega
  refine ⟨⟨?_, ?_, ?_, ?_, ?_, ?_, ?_, ?_, ?_, ?_, ?_, ?_⟩, hsv, hnc, hnr, ?_⟩
  · intro r hr p hp
    rw [hnc]
    obtain ⟨i, hir⟩ := List.getElem?_of_mem hr
    rcases hcase i r hir with ⟨r0, hr0, rfl⟩ | ⟨k, hk, rfl, rfl⟩
    · simp only [List.mem_append] at hp
      rcases hp with hp | hp
      · have := hs.wf r0 (List.mem_of_getElem? hr0) p hp; omega
      · have := cscRow_col hp; omega
    · have := cscRow_col hp; omega
  · rw [hnr, hsv.bmPos, hsv.dims]; have := hs.rowsLe; omega
  · rw [hsv.bmPos, hsv.dims, hsv.cur]; exact hs.colsLe
  · rw [hsv.cur, hsv.blockLen, hnc]; omega
  · intro p hp
    rw [hsv.ie] at hp
    rw [hsv.cur, hsv.dims, hnr, hsv.bmPos]
    have := hs.iePos p hp; omega
  · rw [hsv.bmIdx, hsv.dims, hsv.bmPos, hsv.cur, hsv.ie]; exact hs.idx
  · intro i hi
    rw [hsv.dims] at hi
    obtain ⟨r, hr, hty, hrhs, hdot⟩ := hs.basis i hi
    have hh := hold _ r hr
    rw [← hsv.bmPos] at hh
    refine ⟨_, hh, hty, hrhs, fun v => ?_⟩
    rw [hsv.dims, hsv.bmPos, hsv.cur, hsv.ie]
    simp only [dot_append, hdot, hdotc, dot_rangeRow]
    have hsum : (∑ c ∈ Finset.range cols.length, coefAt (cols.getD c []) (s.bmPos.1 + i) *
        v (s.numCols + c)) = ∑ c ∈ Finset.range cols.length, P i c * v (s.numCols + c) :=
      Finset.sum_congr rfl fun c hc => by rw [hP i hi c (Finset.mem_range.1 hc)]
    rw [hsum]
    ring
  · intro p hp i hi
    rw [hsv.ie] at hp
    rw [hsv.dims] at hi
    obtain ⟨r, hr, hty, hrhs, hdot⟩ := hs.ieRows p hp i hi
    refine ⟨_, hold _ r hr, hty, hrhs, fun v => ?_⟩
    rw [hsv.dims, hsv.cur]
    have : s.ie.isSome = true := by simp [hp]
    simp only [dot_append, hdot, hdotc, this, if_true, dot_rangeRow]
    have hsum : (∑ c ∈ Finset.range cols.length, coefAt (cols.getD c []) (p.1 + i) *
        v (s.numCols + c)) = ∑ c ∈ Finset.range cols.length, Q i c * v (s.numCols + c) :=
      Finset.sum_congr rfl fun c hc => by rw [hQ p hp i hi c (Finset.mem_range.1 hc)]
    rw [hsum]
    ring
  · intro hn i
    rw [hsv.ie] at hn
    simp [hn]
  · intro i q hq
    rw [hsv.inBlock, hnc]
    rcases List.mem_append.1 hq with hq | hq
    · have := hs.xAvoid i q hq; exact ⟨this.1, by omega⟩
    · simp only [rangeRow, List.mem_map, List.mem_range] at hq
      obtain ⟨a, ha, rfl⟩ := hq
      exact ⟨hnb _ (by simp), by simp only; omega⟩
  · intro i q hq
    rw [hsv.inBlock, hnc]
    split at hq
    · rcases List.mem_append.1 hq with hq | hq
      · have := hs.rAvoid i q hq; exact ⟨this.1, by omega⟩
      · simp only [rangeRow, List.mem_map, List.mem_range] at hq
        obtain ⟨a, ha, rfl⟩ := hq
        exact ⟨hnb _ (by simp), by simp only; omega⟩
    · simp at hq
  · intro i r hir hsp q hq
    rw [hsv.special] at hsp
    rw [hsv.inBlock]
    rcases hcase i r hir with ⟨r0, hr0, rfl⟩ | ⟨k, hk, rfl, rfl⟩
    · simp only [List.mem_append] at hq
      rcases hq with hq | hq
      · exact hs.others i r0 hr0 hsp q hq
      · exact hnb _ (cscRow_col hq).1
    · exact hnb _ (cscRow_col hq).1
  · intro v
    have hrow : ∀ (i : ℕ) (r : LRow K), s.rows[i]? = some r → ¬ s.special i →
        (({ r with coefs := r.coefs ++ cscRow cols 0 s.numCols i } : LRow K).holds v ↔
          r.holds v) := by
      intro i r hir hsp
      have hil : i < s.numRows := by
        unfold Sys.numRows
        by_contra hc; rw [List.getElem?_eq_none (by omega)] at hir; cases hir
      rw [LRow.holds_iff, LRow.holds_iff, dot_append, hdotc]
      rw [Finset.sum_eq_zero fun c hc => by rw [hns i c hil hsp, zero_mul], add_zero]
    constructor
    · intro hr
      refine ⟨fun i r hir hsp => ?_, fun k hk => ?_⟩
      · exact (hrow i r hir hsp).1 (hr i _ (hold i r hir) (by rw [hsv.special]; exact hsp))
      · have := hr _ _ (hnew k hk) (by
          rw [hsv.special]; intro hc; have := hspl _ hc; omega)
        rw [LRow.holds_iff, hdotc] at this
        exact this
    · rintro ⟨hr, hk⟩ i r hir hsp
      rw [hsv.special] at hsp
      rcases hcase i r hir with ⟨r0, hr0, rfl⟩ | ⟨k, hk', rfl, rfl⟩
      · exact (hrow i r0 hr0 hsp).2 (hr i r0 hr0 hsp)
      · rw [LRow.holds_iff, hdotc]
        exact hk k hk'

end Hylaa
