import Verif.Proofs.Ops2

/-! `add_reset_variables` and `add_curtime_constraints`. -/

set_option linter.unusedSectionVars false

namespace Hylaa
variable {K : Type} [Field K] [LinearOrder K]

/-- The Minkowski part of a reset as passed to `add_reset_variables`. -/
structure MinkArgs (K : Type) where
  m : Csr K
  c : Csr K
  rhs : List K

/-- Effective Minkowski arguments (lputil.py:689-692). -/
def minkArgs (mink minkC : Option (Csr K)) (minkRhs : Option (List K)) : MinkArgs K :=
  match mink with
  | none => ⟨⟨0, []⟩, ⟨0, []⟩, []⟩
  | some m => ⟨m, minkC.getD ⟨0, []⟩, minkRhs.getD []⟩

/-- The block of rows `add_reset_variables` appends. -/
def resetBlock (C M N cur : ℕ) (b : Bool) (rs : Csr K) (ma : MinkArgs K) : List (LRow K) :=
  let z : LRow K := ⟨.fx, 0, []⟩
  ((List.range N).map fun dim => z.withCoefs (shiftRow 0 (shiftRow cur (rs.row dim) ++
    (if 0 < M then shiftRow C (ma.m.row dim) else []) ++ [(C + M + dim, -1)]))) ++
  (((List.range N).map fun dim => z.withCoefs (shiftRow 0 ([(C + M + dim, 1),
    (C + M + N + dim, -1)] ++ (if b then [(C + M + 2 * N + dim, 1)] else [])))) ++
  (List.zipWith (fun r c => LRow.withCoefs r (shiftRow 0 c))
    (ma.rhs.map fun x => (⟨.up, x, []⟩ : LRow K)) (ma.c.rows.map (shiftRow C)) ++
  (if b then (List.range N).map fun dim => z.withCoefs (shiftRow 0 [(C + M + 2 * N + dim, -1)])
   else [])))

theorem resetBlock_eq (C M N cur : ℕ) (b : Bool) (rs : Csr K) (ma : MinkArgs K)
    (hq : ma.c.rows.length = ma.rhs.length) :
    List.zipWith (fun r c => LRow.withCoefs r (shiftRow 0 c))
      (List.replicate (2 * N) (⟨.fx, 0, []⟩ : LRow K) ++ (ma.rhs.map fun x => ⟨.up, x, []⟩) ++
        (if b then List.replicate N ⟨.fx, 0, []⟩ else []))
      (((List.range N).map fun dim => shiftRow cur (rs.row dim) ++
        (if 0 < M then shiftRow C (ma.m.row dim) else []) ++ [(C + M + dim, -1)]) ++
       ((List.range N).map fun dim => [(C + M + dim, 1), (C + M + N + dim, -1)] ++
        (if b then [(C + M + 2 * N + dim, 1)] else [])) ++
       ma.c.rows.map (shiftRow C) ++
       (if b then (List.range N).map fun dim => [(C + M + 2 * N + dim, -1)] else [])) =
    resetBlock C M N cur b rs ma := by
  unfold resetBlock
  rw [show 2 * N = N + N by ring, List.replicate_add]
  cases b
  · simp only [Bool.false_eq_true, if_false, List.append_nil]
    rw [List.zipWith_append (by simp), List.zipWith_append (by simp), zipWith_replicate_map,
      zipWith_replicate_map, List.append_assoc]
  · simp only [if_true]
    rw [List.zipWith_append (by simp [hq]; omega), List.zipWith_append (by simp),
      List.zipWith_append (by simp), zipWith_replicate_map,
      zipWith_replicate_map, zipWith_replicate_map]
    simp only [List.append_assoc]

/-- Layout and meaning of a system extended by the reset block. -/
theorem resetBlock_shape {s s' : Sys K} {C M N q : ℕ} {b : Bool} {rs : Csr K} {ma : MinkArgs K}
    (hwf : s.WF) (hC : s.numCols = C) (hcur : s.cur + s.dims ≤ C) (hM : ma.m.ncols = M)
    (hq : ma.rhs.length = q) (hclen : ma.c.rows.length = q)
    (hMwf : ∀ i, ∀ p ∈ ma.m.row i, p.1 < M) (hCwf : ∀ r ∈ ma.c.rows, ∀ p ∈ r, p.1 < M)
    (hRwf : ∀ i < N, ∀ p ∈ rs.row i, p.1 < s.dims)
    (hnames : s'.names.length = C + M + 2 * N + (if b then N else 0))
    (hrows : s'.rows = s.rows ++ resetBlock C M N s.cur b rs ma) (hdims : s'.dims = N)
    (hbm : s'.bmPos = (s.numRows + N, C + M)) (hcur' : s'.cur = C + M + N)
    (hie : s'.ie = if b then some (s.numRows + 2 * N + q, C + M + 2 * N) else none)
    (hidx : s'.bmIdx = mkBmIdx s'.dims s'.bmPos.2 s'.cur s'.ie) :
    s'.Shape (fun i j => if i = j then 1 else 0) (fun _ => []) (fun _ => []) ∧
    (∀ v, s'.Rest v ↔ s.Sat v ∧ ma.c.le (fun j => v (C + j)) ma.rhs ∧
      ∀ i < N, v (C + M + i) =
        dot (rs.row i) (fun j => v (s.cur + j)) + dot (ma.m.row i) (fun j => v (C + j))) := by
  have hnr : s.rows.length = s.numRows := rfl
  -- rows by index
  have hzl : (List.zipWith (fun r c => LRow.withCoefs r (shiftRow 0 c))
      (ma.rhs.map fun x => (⟨.up, x, []⟩ : LRow K)) (ma.c.rows.map (shiftRow C))).length = q := by
    simp [hq, hclen]
  have h0 : ∀ i < s.numRows, s'.rows[i]? = s.rows[i]? := by
    intro i hi; rw [hrows]; exact List.getElem?_append_left hi
  have hT : ∀ k, s'.rows[s.numRows + k]? = (resetBlock C M N s.cur b rs ma)[k]? := by
    intro k
    rw [hrows, List.getElem?_append_right (by omega)]; congr 1; omega
  have h1 : ∀ i < N, s'.rows[s.numRows + i]? = some ((⟨.fx, 0, []⟩ : LRow K).withCoefs (shiftRow 0
      (shiftRow s.cur (rs.row i) ++
    (if 0 < M then shiftRow C (ma.m.row i) else []) ++ [(C + M + i, -1)]))) := by
    intro i hi
    rw [hT]; unfold resetBlock
    rw [List.getElem?_append_left (by simpa using hi)]
    simp [hi]
  have h2 : ∀ i < N, s'.rows[s.numRows + N + i]? = some ((⟨.fx, 0, []⟩ : LRow K).withCoefs
      (shiftRow 0 ([(C + M + i, 1),
    (C + M + N + i, -1)] ++ (if b then [(C + M + 2 * N + i, 1)] else [])))) := by
    intro i hi
    rw [Nat.add_assoc, hT]; unfold resetBlock
    rw [List.getElem?_append_right (by simp), List.getElem?_append_left (by simp [hi])]
    simp [hi]
  have h3 : ∀ (i : ℕ) (hi : i < ma.rhs.length), s'.rows[s.numRows + (2 * N + i)]? =
      some ((⟨.up, ma.rhs[i], []⟩ : LRow K).withCoefs (shiftRow 0 (shiftRow C (ma.c.row i)))) := by
    intro i hi
    have hi2 : i < ma.c.rows.length := by omega
    rw [hT]; unfold resetBlock
    rw [List.getElem?_append_right (by simp; omega), List.getElem?_append_right (by simp; omega),
      List.getElem?_append_left (by rw [hzl]; simp; omega)]
    have e : 2 * N + i - N - N = i := by omega
    simp [e, List.getElem?_zipWith, hi, hi2]
  have h4 : b = true → ∀ i < N, s'.rows[s.numRows + (2 * N + q + i)]? =
      some ((⟨.fx, 0, []⟩ : LRow K).withCoefs (shiftRow 0 [(C + M + 2 * N + i, -1)])) := by
    intro hb i hi
    rw [hT]; unfold resetBlock
    rw [List.getElem?_append_right (by simp; omega), List.getElem?_append_right (by simp; omega),
      List.getElem?_append_right (by rw [hzl]; simp; omega), hzl, if_pos hb]
    have e : 2 * N + q + i - N - N - q = i := by omega
    simp [e, hi]
  have hlen : s'.rows.length = s.numRows + 2 * N + q + (if b then N else 0) := by
    rw [hrows, List.length_append]; unfold resetBlock
    rw [List.length_append, List.length_append, List.length_append, hzl]
    cases b <;> simp <;> omega
  have hcases : ∀ (i : ℕ) (r : LRow K), s'.rows[i]? = some r → (i < s.numRows) ∨
      (∃ j < N, i = s.numRows + j) ∨ (∃ j < N, i = s.numRows + N + j) ∨
      (∃ j, ∃ hj : j < ma.rhs.length, i = s.numRows + (2 * N + j)) ∨
      (b = true ∧ ∃ j < N, i = s.numRows + (2 * N + q + j)) := by
    intro i r hi
    have hil : i < s'.rows.length := by
      by_contra hc
      rw [List.getElem?_eq_none (by omega)] at hi; cases hi
    rw [hlen] at hil
    by_cases hc0 : i < s.numRows
    · exact Or.inl hc0
    by_cases hc1 : i < s.numRows + N
    · exact Or.inr (Or.inl ⟨i - s.numRows, by omega, by omega⟩)
    by_cases hc2 : i < s.numRows + N + N
    · exact Or.inr (Or.inr (Or.inl ⟨i - (s.numRows + N), by omega, by omega⟩))
    by_cases hc3 : i < s.numRows + 2 * N + q
    · exact Or.inr (Or.inr (Or.inr (Or.inl ⟨i - (s.numRows + 2 * N), by omega, by omega⟩)))
    · right; right; right; right
      cases b
      · simp at hil; omega
      · simp at hil; exact ⟨rfl, i - (s.numRows + 2 * N + q), by omega, by omega⟩
  have hspec : ∀ i, s'.special i ↔ (s.numRows + N ≤ i ∧ i < s.numRows + N + N) ∨ (b = true ∧
      s.numRows + 2 * N + q ≤ i ∧ i < s.numRows + 2 * N + q + N) := by
    intro i
    unfold Sys.special
    rw [hbm, hdims, hie]
    cases b <;> simp
  have hblk : s'.blockLen = (if b then 2 * N else N) := by
    unfold Sys.blockLen; rw [hie, hdims]
    cases b <;> simp
  have hisS : s'.ie.isSome = b := by rw [hie]; cases b <;> simp
  have hd1 : ∀ i v, dot ((⟨.fx, 0, []⟩ : LRow K).withCoefs (shiftRow 0
      (shiftRow s.cur (rs.row i) ++
    (if 0 < M then shiftRow C (ma.m.row i) else []) ++ [(C + M + i, -1)]))).coefs v =
    dot (rs.row i) (fun j => v (s.cur + j)) + dot (ma.m.row i) (fun j => v (C + j)) -
      v (C + M + i) := by
    intro i v
    rw [LRow.withCoefs_dot]
    simp only [dot_shiftRow, Nat.zero_add, dot_append, dot_cons, dot_nil]
    split
    · rw [dot_shiftRow]; ring
    · rename_i hM0
      have : ma.m.row i = [] := by
        by_contra hcc
        obtain ⟨p, hp⟩ := List.exists_mem_of_ne_nil _ hcc
        have := hMwf i p hp; omega
      rw [this]; simp; ring
  refine ⟨⟨?_, ?_, ?_, ?_, ?_, hidx, ?_, ?_, ?_, ?_, ?_, ?_⟩, ?_⟩
  · intro r hr p hp
    obtain ⟨i, hir⟩ := List.getElem?_of_mem hr
    unfold Sys.numCols
    rw [hnames]
    rcases hcases i _ hir with hc | ⟨j, hj, rfl⟩ | ⟨j, hj, rfl⟩ | ⟨j, hj, rfl⟩ | ⟨hb, j, hj, rfl⟩
    · rw [h0 i hc] at hir
      have := hwf r (List.mem_of_getElem? hir) p hp; omega
    · rw [h1 j hj] at hir
      cases hir
      have hp2 := LRow.withCoefs_mem hp
      rw [shiftRow_zero] at hp2
      simp only [List.mem_append, List.mem_singleton] at hp2
      rcases hp2 with (hp2 | hp2) | rfl
      · simp only [shiftRow, List.mem_map] at hp2
        obtain ⟨a, ha, rfl⟩ := hp2
        have := hRwf j hj a ha
        simp only; omega
      · split at hp2
        · simp only [shiftRow, List.mem_map] at hp2
          obtain ⟨a, ha, rfl⟩ := hp2
          have := hMwf j a ha
          simp only; omega
        · simp at hp2
      · simp only; omega
    · rw [h2 j hj] at hir
      cases hir
      have hp2 := LRow.withCoefs_mem hp
      rw [shiftRow_zero] at hp2
      cases b <;> simp at hp2 ⊢
      · rcases hp2 with rfl | rfl <;> simp <;> omega
      · rcases hp2 with rfl | rfl | rfl <;> simp <;> omega
    · rw [h3 j hj] at hir
      cases hir
      have hp2 := LRow.withCoefs_mem hp
      rw [shiftRow_zero] at hp2
      simp only [shiftRow, List.mem_map] at hp2
      obtain ⟨a, ha, rfl⟩ := hp2
      have hj2 : j < ma.c.rows.length := by omega
      rw [Csr.row_lt hj2] at ha
      have := hCwf _ (List.getElem_mem hj2) a ha
      simp only; omega
    · rw [h4 hb j hj] at hir
      cases hir
      have hp2 := LRow.withCoefs_mem hp
      rw [shiftRow_zero] at hp2
      simp at hp2
      rw [if_pos hb, hp2]; simp only; omega
  · unfold Sys.numRows; rw [hlen, hbm, hdims]; simp only; omega
  · rw [hbm, hcur', hdims]
  · unfold Sys.numCols; rw [hnames, hblk, hcur']; cases b <;> simp <;> omega
  · intro p hp
    rw [hie] at hp
    cases b
    · simp at hp
    · simp at hp; subst hp
      rw [hcur', hdims, hbm]; unfold Sys.numRows at *
      rw [hlen]; simp; omega
  · intro i hi
    rw [hdims] at hi
    refine ⟨_, by rw [hbm]; exact h2 i hi, rfl, rfl, fun v => ?_⟩
    rw [LRow.withCoefs_dot, hbm, hcur', hdims, hisS]
    simp only [dot_shiftRow, Nat.zero_add, ite_mul, one_mul, zero_mul]
    rw [Finset.sum_ite_eq, if_pos (Finset.mem_range.2 hi)]
    cases b
    · simp; ring
    · simp
      rw [show C + M + N + N + i = C + M + 2 * N + i by ring]; ring
  · intro p hp i hi
    rw [hie] at hp
    cases b
    · simp at hp
    · simp at hp; subst hp
      rw [hdims] at hi
      refine ⟨_, by rw [show s.numRows + 2 * N + q + i = s.numRows + (2 * N + q + i) by ring]; exact h4 rfl i hi, rfl, rfl, fun v => ?_⟩
      rw [LRow.withCoefs_dot, hcur', hdims]
      simp
      rw [show C + M + N + N + i = C + M + 2 * N + i by ring]
  · intro _ _; rfl
  · intro i q hq; simp at hq
  · intro i q hq; simp at hq
  · intro i r hir hs p hp
    rw [hspec] at hs
    unfold Sys.inBlock; rw [hcur']
    rcases hcases i _ hir with hc | ⟨j, hj, rfl⟩ | ⟨j, hj, rfl⟩ | ⟨j, hj, rfl⟩ | ⟨hb, j, hj, rfl⟩
    · rw [h0 i hc] at hir
      have := hwf r (List.mem_of_getElem? hir) p hp; omega
    · rw [h1 j hj] at hir
      cases hir
      have hp2 := LRow.withCoefs_mem hp
      rw [shiftRow_zero] at hp2
      simp only [List.mem_append, List.mem_singleton] at hp2
      rcases hp2 with (hp2 | hp2) | rfl
      · simp only [shiftRow, List.mem_map] at hp2
        obtain ⟨a, ha, rfl⟩ := hp2
        have := hRwf j hj a ha
        simp only; omega
      · split at hp2
        · simp only [shiftRow, List.mem_map] at hp2
          obtain ⟨a, ha, rfl⟩ := hp2
          have := hMwf j a ha
          simp only; omega
        · simp at hp2
      · simp only; omega
    · exact absurd (Or.inl (by omega)) hs
    · rw [h3 j hj] at hir
      cases hir
      have hp2 := LRow.withCoefs_mem hp
      rw [shiftRow_zero] at hp2
      simp only [shiftRow, List.mem_map] at hp2
      obtain ⟨a, ha, rfl⟩ := hp2
      have hj2 : j < ma.c.rows.length := by omega
      rw [Csr.row_lt hj2] at ha
      have := hCwf _ (List.getElem_mem hj2) a ha
      simp only; omega
    · exact absurd (Or.inr ⟨hb, by omega, by omega⟩) hs
  · intro v
    constructor
    · intro hv
      refine ⟨?_, ?_, ?_⟩
      · rw [Sys.sat_iff]
        intro i r hir
        have hil : i < s.numRows := by
          by_contra hc
          rw [List.getElem?_eq_none (by omega)] at hir; cases hir
        exact hv i r (by rw [h0 i hil]; exact hir) (by rw [hspec]; omega)
      · intro i hi
        have := hv _ _ (h3 i hi) (by rw [hspec]; omega)
        rw [LRow.holds_iff, LRow.withCoefs_dot] at this
        simpa [RowType.rel] using this
      · intro i hi
        have := hv _ _ (h1 i hi) (by rw [hspec]; omega)
        rw [LRow.holds_iff, hd1] at this
        simp only [RowType.rel, LRow.withCoefs_ty, LRow.withCoefs_rhs] at this
        linear_combination -this
    · rintro ⟨hv1, hv2, hv3⟩ i r hir hs
      rw [hspec] at hs
      rcases hcases i _ hir with hc | ⟨j, hj, rfl⟩ | ⟨j, hj, rfl⟩ | ⟨j, hj, rfl⟩ | ⟨hb, j, hj, rfl⟩
      · rw [h0 i hc] at hir
        exact hv1 r (List.mem_of_getElem? hir)
      · rw [h1 j hj] at hir
        cases hir
        rw [LRow.holds_iff, hd1]
        simp only [RowType.rel, LRow.withCoefs_ty, LRow.withCoefs_rhs]
        rw [hv3 j hj]; ring
      · exact absurd (Or.inl (by omega)) hs
      · rw [h3 j hj] at hir
        cases hir
        rw [LRow.holds_iff, LRow.withCoefs_dot]
        simpa [RowType.rel] using hv2 j hj
      · exact absurd (Or.inr ⟨hb, by omega, by omega⟩) hs

theorem addResetVariables_shape {s s' : Sys K} {mid ti : ℕ} {reset mink minkC : Option (Csr K)}
    {minkRhs : Option (List K)} {b : Bool}
    (h : addResetVariables s mid ti reset mink minkC minkRhs b = .ok s') (hwf : s.WF)
    (hcur : s.cur + s.dims ≤ s.numCols) (hne : reset.isSome → (reset.getD ⟨0, []⟩).rows ≠ [])
    (hd : 0 < s.dims)
    (hrwf : ∀ r, reset = some r → r.WF)
    (hmwf : ∀ m, mink = some m → m.WF) (hcwf : ∀ m, minkC = some m → m.WF)
    (hmc : ∀ m c, mink = some m → minkC = some c → c.ncols = m.ncols) :
    let rs : Csr K := reset.getD (Csr.id s.dims)
    let ma := minkArgs mink minkC minkRhs
    s'.Shape (fun i j => if i = j then 1 else 0) (fun _ => []) (fun _ => []) ∧
    s'.dims = rs.rows.length ∧ s'.bmPos.2 = s.numCols + ma.m.ncols ∧
    s'.ie.isSome = b ∧ (rs.ncols = s.dims) ∧
    (∀ v, s'.Rest v ↔ s.Sat v ∧ ma.c.le (fun j => v (s.numCols + j)) ma.rhs ∧
      ∀ i < rs.rows.length, v (s.numCols + ma.m.ncols + i) =
        dot (rs.row i) (fun j => v (s.cur + j)) + dot (ma.m.row i) (fun j => v (s.numCols + j)))  ∧
    s'.numCols = s'.cur + s'.blockLen := by
  intro rs ma
  simp only [addResetVariables, bind_ok, assert_ok, need_ok, needSome_ok, setCsr_ok,
    setReachVars_ok] at h
  obtain ⟨_, hdim, mrhs, hmrhs, mc, hmc', _, hmrow, _, hcl, _, hmlt, s2, ⟨hsz, rfl⟩, ⟨_, hs'⟩⟩ := h
  -- identify the effective arguments
  have hma : mrhs = ma.rhs ∧ mc = ma.c ∧ (mink.getD ⟨0, []⟩) = ma.m := by
    simp only [ma, minkArgs]
    cases mink with
    | none => simp at hmrhs hmc'; simp [← hmrhs, ← hmc']
    | some m => simp at hmrhs hmc'; simp [hmrhs, hmc']
  have hMwf : ∀ i, ∀ q ∈ ma.m.row i, q.1 < ma.m.ncols := by
    intro i q hq
    simp only [ma, minkArgs] at hq ⊢
    cases mink with
    | none => simp [Csr.row] at hq
    | some m =>
      simp only at hq ⊢
      by_cases hi : i < m.rows.length
      · rw [Csr.row_lt hi] at hq; exact hmwf m rfl _ (List.getElem_mem hi) q hq
      · simp [Csr.row, List.getD_eq_getElem?_getD, hi] at hq
  have hCwf : ∀ r ∈ ma.c.rows, ∀ q ∈ r, q.1 < ma.m.ncols := by
    intro r hr q hq
    simp only [ma, minkArgs] at hr ⊢
    cases hmk : mink with
    | none => rw [hmk] at hr; simp at hr
    | some m =>
      rw [hmk] at hr
      simp only at hr ⊢
      cases hck : minkC with
      | none => rw [hck] at hr; simp at hr
      | some c =>
        rw [hck] at hr
        rw [← hmc m c hmk hck]
        exact hcwf c hck r hr q hq
  have hRwf : ∀ i < rs.rows.length, ∀ q ∈ rs.row i, q.1 < s.dims := by
    intro i hi q hq
    rw [Csr.row_lt hi] at hq
    have hdim' : rs.ncols = s.dims := hdim.symm
    have : rs.WF := by
      simp only [rs]
      cases reset with
      | none =>
        intro r hr p hp
        simp only [Option.getD_none, Csr.id, List.mem_map, List.mem_range] at hr
        obtain ⟨a, ha, rfl⟩ := hr
        simp at hp; subst hp; simpa [Csr.id] using ha
      | some r => simpa using hrwf r rfl
    rw [← hdim']; exact this _ (List.getElem_mem hi) q hq
  obtain ⟨rfl, rfl, hm⟩ := hma
  rw [hm] at hs'
  have hclen : ma.c.rows.length = ma.rhs.length := hcl
  have hnd : (reset.getD (Csr.id s.dims)).nrows = rs.rows.length := rfl
  have hndpos : 0 < rs.rows.length := by
    simp only [rs]
    cases reset with
    | none => simp [Csr.id]; exact hd
    | some r =>
      have := hne rfl
      simp at this
      exact List.length_pos_iff.2 this
  simp only [hnd, hm] at hsz hs'
  clear hmrhs hmc' hmlt hsz hcl hmrow hm
  generalize hN : rs.rows.length = N at *
  generalize hM : ma.m.ncols = M at *
  generalize hC : s.numCols = C at *
  generalize hq : ma.rhs.length = q at *
  have hnr : s.rows.length = s.numRows := rfl
  have hkey : ∀ (s1 : Sys K), s1.rows = s.rows ++ ((List.replicate (2 * N) (⟨.fx, 0, []⟩ : LRow K) ++ (ma.rhs.map fun x => ⟨.up, x, []⟩) ++
        (if b then List.replicate N ⟨.fx, 0, []⟩ else []))) →
      (s1.setCsrLoop (((List.range N).map fun dim => shiftRow s.cur (rs.row dim) ++
        (if 0 < M then shiftRow C (ma.m.row dim) else []) ++ [(C + M + dim, -1)]) ++
       ((List.range N).map fun dim => [(C + M + dim, 1), (C + M + N + dim, -1)] ++
        (if b then [(C + M + 2 * N + dim, 1)] else [])) ++
       ma.c.rows.map (shiftRow C) ++
       (if b then (List.range N).map fun dim => [(C + M + 2 * N + dim, -1)] else []))
        s.numRows 0).rows = s.rows ++ resetBlock C M N s.cur b rs ma := by
    intro s1 hs1
    rw [← resetBlock_eq _ _ _ _ _ _ _ (by omega)]
    have := Sys.setCsrLoop_rows_split s1 (((List.range N).map fun dim => shiftRow s.cur (rs.row dim) ++
        (if 0 < M then shiftRow C (ma.m.row dim) else []) ++ [(C + M + dim, -1)]) ++
       ((List.range N).map fun dim => [(C + M + dim, 1), (C + M + N + dim, -1)] ++
        (if b then [(C + M + 2 * N + dim, 1)] else [])) ++
       ma.c.rows.map (shiftRow C) ++
       (if b then (List.range N).map fun dim => [(C + M + 2 * N + dim, -1)] else [])) 0 s.rows _ []
      (by rw [hs1, List.append_nil]) (by cases b <;> simp <;> omega)
    rw [List.append_nil] at this
    exact this
  have hdims : s'.dims = N := by rw [← hs']
  have hbm : s'.bmPos = (s.numRows + N, C + M) := by rw [← hs']
  have hcur' : s'.cur = C + M + N := by rw [← hs']
  have hie : s'.ie = if b then some (s.numRows + 2 * N + q, C + M + 2 * N) else none := by
    rw [← hs']
  have hidx : s'.bmIdx = mkBmIdx s'.dims s'.bmPos.2 s'.cur s'.ie := by rw [← hs']
  have hrows : s'.rows = s.rows ++ resetBlock C M N s.cur b rs ma := by
    rw [← hs']
    have hcs : ∀ (x : Sys K), (if b = true then x.addRowsEqZero N else x).cur = x.cur := by
      intro x; split <;> rfl
    simp only [hcs]
    refine hkey _ ?_
    cases b <;> simp [Sys.addRowsEqZero, Sys.addRowsLE, Sys.addCols]
  have hnames : s'.names.length = C + M + 2 * N + (if b then N else 0) := by
    rw [← hs']
    have hCl : s.names.length = C := hC
    cases b <;> simp [Sys.addRowsEqZero, Sys.addRowsLE, Sys.addCols, hCl] <;> omega
  obtain ⟨hA, hB⟩ := resetBlock_shape (q := q) hwf hC hcur hM hq hclen hMwf hCwf hRwf hnames hrows hdims hbm hcur' hie hidx
  exact ⟨hA, hdims, by rw [hbm], by rw [hie]; cases b <;> rfl, hdim.symm, hB, by
    unfold Sys.numCols Sys.blockLen; rw [hnames, hcur', hie, hdims]; cases b <;> simp <;> omega⟩

/-- The represented set after `add_reset_variables` is the image of the current set. -/
theorem addResetVariables_mem {s s' : Sys K} {mid ti : ℕ} {reset mink minkC : Option (Csr K)}
    {minkRhs : Option (List K)} {b : Bool}
    (h : addResetVariables s mid ti reset mink minkC minkRhs b = .ok s') (hwf : s.WF)
    (hcur : s.cur + s.dims ≤ s.numCols) (hne : reset.isSome → (reset.getD ⟨0, []⟩).rows ≠ [])
    (hd : 0 < s.dims)
    (hrwf : ∀ r, reset = some r → r.WF)
    (hmwf : ∀ m, mink = some m → m.WF) (hcwf : ∀ m, minkC = some m → m.WF)
    (hmc : ∀ m c, mink = some m → minkC = some c → c.ncols = m.ncols) (x : ℕ → K) :
    let rs : Csr K := reset.getD (Csr.id s.dims)
    let ma := minkArgs mink minkC minkRhs
    s'.Mem x ↔ ∃ y m, s.Mem y ∧ ma.c.le m ma.rhs ∧ ∀ i < rs.rows.length,
      x i = dot (rs.row i) y + dot (ma.m.row i) m := by
  intro rs ma
  obtain ⟨hsh, hdims, hbm, -, hrd, hrest, -⟩ :=
    addResetVariables_shape h hwf hcur hne hd hrwf hmwf hcwf hmc
  have hRwf : ∀ i < rs.rows.length, ∀ q ∈ rs.row i, q.1 < s.dims := by
    intro i hi q hq
    rw [Csr.row_lt hi] at hq
    have : rs.WF := by
      simp only [rs]
      cases reset with
      | none =>
        intro r hr p hp
        simp only [Option.getD_none, Csr.id, List.mem_map, List.mem_range] at hr
        obtain ⟨a, ha, rfl⟩ := hr
        simp at hp; subst hp; simpa [Csr.id] using ha
      | some r => simpa using hrwf r rfl
    rw [← hrd]; exact this _ (List.getElem_mem hi) q hq
  rw [hsh.mem_iff]
  constructor
  · rintro ⟨v, hv, hx⟩
    rw [hrest] at hv
    obtain ⟨h1, h2, h3⟩ := hv
    refine ⟨fun j => v (s.cur + j), fun j => v (s.numCols + j), ⟨v, h1, fun _ _ => rfl⟩, h2, ?_⟩
    intro i hi
    have hxi := hx i (by rw [hdims]; exact hi)
    rw [hxi, hdims, hbm, ← h3 i hi]
    simp only [ite_mul, one_mul, zero_mul, dot_nil, add_zero]
    rw [Finset.sum_ite_eq, if_pos (Finset.mem_range.2 hi)]
  · rintro ⟨y, m, ⟨w, hw, hwy⟩, hm, hx⟩
    let v : ℕ → K := fun j => if j < s.numCols then w j else
      if j < s.numCols + ma.m.ncols then m (j - s.numCols) else x (j - (s.numCols + ma.m.ncols))
    have hv1 : ∀ j < s.numCols, v j = w j := fun j hj => by simp only [v]; rw [if_pos hj]
    have hv2 : ∀ j < ma.m.ncols, v (s.numCols + j) = m j := fun j hj => by
      simp only [v]; rw [if_neg (by omega), if_pos (by omega)]; congr 1; omega
    have hv3 : ∀ j, v (s.numCols + ma.m.ncols + j) = x j := fun j => by
      simp only [v]; rw [if_neg (by omega), if_neg (by omega)]; congr 1; omega
    refine ⟨v, ?_, ?_⟩
    · rw [hrest]
      refine ⟨?_, ?_, ?_⟩
      · intro r hr
        exact (LRow.holds_congr fun p hp => hv1 _ (hwf r hr p hp)).2 (hw r hr)
      · intro i hi
        have := hm i hi
        rwa [dot_congr]
        intro p hp
        apply hv2
        simp only [ma, minkArgs] at hp ⊢
        cases hmk : mink with
        | none => rw [hmk] at hp; simp [Csr.row] at hp
        | some mm =>
          rw [hmk] at hp
          simp only at hp ⊢
          cases hck : minkC with
          | none => rw [hck] at hp; simp [Csr.row] at hp
          | some c =>
            rw [hck] at hp
            rw [← hmc mm c hmk hck]
            simp only [Option.getD_some] at hp
            by_cases hi2 : i < c.rows.length
            · rw [Csr.row_lt hi2] at hp
              exact hcwf c hck _ (List.getElem_mem hi2) p hp
            · simp [Csr.row, List.getD_eq_getElem?_getD, hi2] at hp
      · intro i hi
        rw [hv3, hx i hi]
        congr 1
        · apply dot_congr
          intro p hp
          have := hRwf i hi p hp
          rw [hv1 _ (by omega), hwy _ this]
        · apply dot_congr
          intro p hp
          refine (hv2 _ ?_).symm
          simp only [ma, minkArgs] at hp ⊢
          cases hmk : mink with
          | none => rw [hmk] at hp; simp [Csr.row] at hp
          | some mm =>
            rw [hmk] at hp
            simp only at hp ⊢
            by_cases hi2 : i < mm.rows.length
            · rw [Csr.row_lt hi2] at hp
              exact hmwf mm hmk _ (List.getElem_mem hi2) p hp
            · simp [Csr.row, List.getD_eq_getElem?_getD, hi2] at hp
    · intro i hi
      rw [hdims] at hi
      rw [hbm, hdims]
      simp only [ite_mul, one_mul, zero_mul, dot_nil, add_zero]
      rw [Finset.sum_ite_eq, if_pos (Finset.mem_range.2 hi), hv3]

/-! ### add_curtime_constraints -/

theorem addCurtimeConstraints_ok {s s' : Sys K} {c : Csr K} {rhs : List K}
    (h : addCurtimeConstraints s c rhs = .ok s') (hlen : c.rows.length = rhs.length) (hc : c.WF)
    (hwf : s.WF) :
    s'.WF ∧ s.SameVars s' ∧ s'.names = s.names ∧
    (∀ v, s'.Sat v ↔ s.Sat v ∧ c.le (fun j => v (s.cur + j)) rhs) ∧ s.cur + c.ncols ≤ s.numCols := by
  simp only [addCurtimeConstraints, setCsr_ok] at h
  obtain ⟨⟨_, hcc⟩, rfl⟩ := h
  have hcc : s.cur + c.ncols ≤ s.numCols := hcc
  have hr := Sys.setCsrLoop_rows_split (s.addRowsLE rhs) c.rows s.cur s.rows
    (rhs.map fun b => (⟨.up, b, []⟩ : LRow K)) [] (by simp [Sys.addRowsLE]) (by simp [hlen])
  rw [List.append_nil] at hr
  change ((s.addRowsLE rhs).setCsrLoop c.rows s.numRows s.cur).rows = _ at hr
  have hmem : ∀ r ∈ List.zipWith (fun r c => LRow.withCoefs r (shiftRow s.cur c))
      (rhs.map fun b => (⟨.up, b, []⟩ : LRow K)) c.rows, ∃ i, ∃ hi : i < rhs.length,
      r = (⟨.up, rhs[i], []⟩ : LRow K).withCoefs (shiftRow s.cur (c.row i)) := by
    intro r hr
    obtain ⟨i, hi, rfl⟩ := List.getElem_of_mem hr
    simp only [List.length_zipWith, List.length_map] at hi
    exact ⟨i, by omega, by simp [Csr.row_lt (show i < c.rows.length by omega)]⟩
  refine ⟨?_, ⟨by simp [Sys.addRowsLE], by simp [Sys.addRowsLE], by simp [Sys.addRowsLE],
    by simp [Sys.addRowsLE], by simp [Sys.addRowsLE]⟩, by simp [Sys.addRowsLE], ?_, hcc⟩
  · intro r hr' p hp
    have hnc : ((s.addRowsLE rhs).setCsrLoop c.rows s.numRows s.cur).numCols = s.numCols := by
      simp [Sys.numCols, Sys.addRowsLE]
    rw [hnc]
    rw [hr] at hr'
    rcases List.mem_append.1 hr' with h1 | h1
    · exact hwf r h1 p hp
    · obtain ⟨i, hi, rfl⟩ := hmem r h1
      have hp2 := LRow.withCoefs_mem hp
      simp only [shiftRow, List.mem_map] at hp2
      obtain ⟨a, ha, rfl⟩ := hp2
      have hi2 : i < c.rows.length := by omega
      rw [Csr.row_lt hi2] at ha
      have := hc _ (List.getElem_mem hi2) a ha
      simp only; omega
  · intro v
    unfold Sys.Sat
    rw [hr]
    constructor
    · intro hv
      refine ⟨fun r hr => hv r (by simp [hr]), fun i hi => ?_⟩
      have hi2 : i < c.rows.length := by omega
      have := hv _ (List.mem_append_right _ (List.mem_iff_getElem.2
        ⟨i, by simp; omega, rfl⟩))
      simp only [List.getElem_zipWith, List.getElem_map] at this
      rw [LRow.holds_iff, LRow.withCoefs_dot] at this
      simpa [RowType.rel, Csr.row_lt hi2] using this
    · rintro ⟨hv1, hv2⟩ r hr'
      rcases List.mem_append.1 hr' with h1 | h1
      · exact hv1 r h1
      · obtain ⟨i, hi, rfl⟩ := hmem r h1
        rw [LRow.holds_iff, LRow.withCoefs_dot]
        simpa [RowType.rel] using hv2 i hi

/-- Guard intersection: the represented set is cut by `c x <= rhs`. -/
theorem addCurtimeConstraints_mem {s s' : Sys K} {c : Csr K} {rhs : List K}
    (h : addCurtimeConstraints s c rhs = .ok s') (hlen : c.rows.length = rhs.length) (hc : c.WF)
    (hcd : c.ncols ≤ s.dims) (hwf : s.WF) (x : ℕ → K) :
    s'.Mem x ↔ s.Mem x ∧ c.le x rhs := by
  obtain ⟨-, hsv, -, hsat, -⟩ := addCurtimeConstraints_ok h hlen hc hwf
  unfold Sys.Mem
  rw [hsv.dims, hsv.cur]
  have key : ∀ v : ℕ → K, (∀ i < s.dims, v (s.cur + i) = x i) →
      (c.le (fun j => v (s.cur + j)) rhs ↔ c.le x rhs) := by
    intro v hv
    have e : ∀ i, i < rhs.length → dot (c.row i) (fun j => v (s.cur + j)) = dot (c.row i) x := by
      intro i hi
      apply dot_congr
      intro p hp
      apply hv
      have hi2 : i < c.rows.length := by omega
      rw [Csr.row_lt hi2] at hp
      have := hc _ (List.getElem_mem hi2) p hp
      omega
    constructor
    · intro h i hi; rw [← e i hi]; exact h i hi
    · intro h i hi; rw [e i hi]; exact h i hi
  constructor
  · rintro ⟨v, hv, hx⟩
    rw [hsat] at hv
    exact ⟨⟨v, hv.1, hx⟩, (key v hx).1 hv.2⟩
  · rintro ⟨⟨v, hv, hx⟩, hle⟩
    exact ⟨v, (hsat v).2 ⟨hv, (key v hx).2 hle⟩, hx⟩

end Hylaa
