import Verif.Proofs.Ops2

/-! `add_input_effects_matrix` with the LGG bloating term. -/

set_option linter.unusedSectionVars false

namespace Hylaa
variable {K : Type} [Field K] [LinearOrder K]

/-- The `u_constraints` matrix has one row per right-hand side (asserted by `set_inputs`,
hybrid_automaton.py:229). -/
def Inputs.WF (inp : Inputs K) : Prop := ∀ col ∈ inp.uCsc.cols, ∀ p ∈ col, p.1 < inp.uRhs.length

theorem addInputEffects_lgg_shape {s s' : Sys K} {n : Mat K} {mode : Mode K} {inp : Inputs K}
    {β : K}
    (h : addInputEffects s n mode (some β) = .ok s') (hin : mode.inputs = some inp)
    (hwf : inp.WF)
    {B : ℕ → ℕ → K} {X R : ℕ → SRow K} (hs : s.Shape B X R) :
    s'.Shape B (fun i => X i ++ rangeRow (inp.b.ncols + s.dims) s.numCols (fun _ => 0))
      (fun i => R i ++ rangeRow (inp.b.ncols + s.dims) s.numCols (n.e i)) ∧
    s.SameVars s' ∧ s'.numCols = s.numCols + (inp.b.ncols + s.dims) ∧
    s'.numRows = s.numRows + (inp.uRhs.length + 2 * s.dims) ∧
    (∀ v, s'.Rest v ↔ s.Rest v ∧ (inp.Ok fun c => v (s.numCols + c)) ∧
      ∀ d < s.dims, v (s.numCols + inp.b.ncols + d) ≤ β ∧ -v (s.numCols + inp.b.ncols + d) ≤ β) ∧
    inp.b.ncols + s.dims ≤ n.nc ∧ n.nr = s.dims ∧ s.ie.isSome = true := by
  simp only [addInputEffects, bind_ok, assert_ok, need_ok, needSome_ok, setCsc_ok] at h
  obtain ⟨_, hie1, _, hin1, ie, hie, inp', hin', a, ha, _, -, _, hnr, _, hd, _, hnc,
    ⟨hsz, rfl⟩⟩ := h
  rw [hin] at hin'; cases hin'
  have hnc := hnc rfl
  simp only [Option.isSome_some, if_true] at hsz ⊢
  rw [← hd] at hnc hnr hsz
  simp only [← hd]
  have hip := hs.iePos ie hie
  have hbr := hs.rowsLe
  generalize hm : inp.b.ncols = m at *
  generalize hD : s.dims = D at *
  have hu : ∀ c i, inp.uRhs.length ≤ i → coefAt (inp.uCsc.cols.getD c []) i = 0 := by
    intro c i hi
    by_cases hc : c < inp.uCsc.cols.length
    · apply coefAt_eq_zero
      intro p hp
      have := hwf _ (List.getElem_mem hc) p (by simpa [List.getD_eq_getElem?_getD, hc] using hp)
      omega
    · simp [List.getD_eq_getElem?_getD, hc]
  set cols : List (SRow K) := ((List.range m).map fun c =>
      (List.range D).map (fun row => (row + ie.1, n.e row c)) ++
        (inp.uCsc.cols.getD c []).map (fun p => (s.numRows + p.1, p.2))) ++
      ((List.range D).map fun v => (List.range D).map (fun row => (row + ie.1, n.e row (m + v))) ++
        [(s.numRows + inp.uRhs.length + 2 * v, 1),
         (s.numRows + inp.uRhs.length + 2 * v + 1, -1)]) with hcols
  have hcl : cols.length = m + D := by simp [cols]
  have hlo : ∀ c < m, cols.getD c [] = (List.range D).map (fun row => (row + ie.1, n.e row c)) ++
        (inp.uCsc.cols.getD c []).map (fun p => (s.numRows + p.1, p.2)) := by
    intro c hc
    rw [hcols, List.getD_eq_getElem?_getD, List.getElem?_append_left (by simpa using hc)]
    simp [hc]
  have hhi : ∀ v < D, cols.getD (m + v) [] = (List.range D).map (fun row => (row + ie.1, n.e row (m + v))) ++
        [(s.numRows + inp.uRhs.length + 2 * v, 1),
         (s.numRows + inp.uRhs.length + 2 * v + 1, -1)] := by
    intro v hv
    rw [hcols, List.getD_eq_getElem?_getD, List.getElem?_append_right (by simp)]
    simp [hv]
  have hCrow : ∀ c i, c < m + D → i < s.numRows → coefAt (cols.getD c []) i =
      if ie.1 ≤ i ∧ i < ie.1 + D then n.e (i - ie.1) c else 0 := by
    intro c i hc hi
    by_cases hcm : c < m
    · rw [hlo c hcm, coefAt_append, coefAt_map_range, coefAt_map_add, if_neg (c := s.numRows ≤ i) (by omega),
        add_zero]
    · obtain ⟨v, rfl⟩ : ∃ v, c = m + v := ⟨c - m, by omega⟩
      rw [hhi v (by omega), coefAt_append, coefAt_map_range, coefAt_cons, coefAt_cons, coefAt_nil]
      simp only
      rw [if_neg (c := s.numRows + inp.uRhs.length + 2 * v = i) (by omega),
        if_neg (c := s.numRows + inp.uRhs.length + 2 * v + 1 = i) (by omega)]
      simp
  have hext := extend_shape hs (((List.range m).map fun i => s!"m{mode.id}_I{i}") ++
      ((List.range D).map fun i => s!"m{mode.id}_b{i}"))
    ((inp.uRhs.map fun b => (⟨.up, b, []⟩ : LRow K)) ++
      (List.replicate (2 * D) β).map fun b => (⟨.up, b, []⟩ : LRow K))
    cols (fun _ _ => 0) n.e
    (by
      intro r hr
      rcases List.mem_append.1 hr with hr | hr <;>
        (simp only [List.mem_map] at hr; obtain ⟨_, _, rfl⟩ := hr; rfl))
    (by simp [hcl])
    (by
      intro i c hi hsp
      by_cases hc : c < m + D
      · rw [hCrow c i hc hi, if_neg]
        intro hcc; exact hsp (Or.inr ⟨ie, hie, by omega⟩)
      · simp [List.getD_eq_getElem?_getD, hcl, hc])
    (by
      intro i hi c hc
      rw [hCrow c _ (by omega) (by omega), if_neg (by omega)])
    (by
      intro p hp i hi c hc
      rw [hie] at hp; cases hp
      rw [hCrow c _ (by omega) (by omega), if_pos (by omega)]
      congr 1; omega)
  obtain ⟨hshape, hsv, hncols, hnrows, hrest⟩ := hext
  simp only [hcl] at hshape hsv hncols hnrows hrest
  simp only [hie1, if_true] at hshape
  have e : (((s.addCols ((List.range m).map (fun i => s!"m{mode.id}_I{i}") ++
      (List.range D).map (fun i => s!"m{mode.id}_b{i}"))).addRowsLE inp.uRhs).addRowsLE
      (List.replicate (2 * D) β)) = { s with names := s.names ++ (((List.range m).map fun i => s!"m{mode.id}_I{i}") ++
      ((List.range D).map fun i => s!"m{mode.id}_b{i}")), rows := s.rows ++ ((inp.uRhs.map fun b => (⟨.up, b, []⟩ : LRow K)) ++
      (List.replicate (2 * D) β).map fun b => (⟨.up, b, []⟩ : LRow K)) } := by
    simp [Sys.addCols, Sys.addRowsLE]
  have edims : (((s.addCols ((List.range m).map (fun i => s!"m{mode.id}_I{i}") ++
      (List.range D).map (fun i => s!"m{mode.id}_b{i}"))).addRowsLE inp.uRhs).addRowsLE
      (List.replicate (2 * D) β)).dims = D := hD
  have enr : (s.addCols ((List.range m).map (fun i => s!"m{mode.id}_I{i}") ++
      (List.range D).map (fun i => s!"m{mode.id}_b{i}"))).numRows = s.numRows := rfl
  have enr2 : ((s.addCols ((List.range m).map (fun i => s!"m{mode.id}_I{i}") ++
      (List.range D).map (fun i => s!"m{mode.id}_b{i}"))).addRowsLE inp.uRhs).numRows =
      s.numRows + inp.uRhs.length := by simp [Sys.addRowsLE, Sys.addCols, Sys.numRows]
  simp only [edims, enr, enr2, e, hD] at hshape hsv hncols hnrows hrest ⊢
  rw [← hcols]
  refine ⟨hshape, hsv, by simpa using hncols, by simpa using hnrows, ?_, hnc, hnr, hie1⟩
  intro v
  refine (hrest v).trans (and_congr_right fun _ => ?_)
  have hsumsplit : ∀ i, (∑ c ∈ Finset.range (m + D), coefAt (cols.getD c []) i * v (s.numCols + c)) =
      (∑ c ∈ Finset.range m, coefAt (cols.getD c []) i * v (s.numCols + c)) +
      ∑ d ∈ Finset.range D, coefAt (cols.getD (m + d) []) i * v (s.numCols + m + d) := by
    intro i
    rw [Finset.sum_range_add]
    congr 1
    apply Finset.sum_congr rfl
    intro x _; rw [add_assoc]
  have hlow : ∀ k, (∑ c ∈ Finset.range m, coefAt (cols.getD c []) (s.numRows + k) * v (s.numCols + c)) =
      ∑ c ∈ Finset.range m, coefAt (inp.uCsc.cols.getD c []) k * v (s.numCols + c) := by
    intro k
    apply Finset.sum_congr rfl
    intro c hc
    rw [hlo c (Finset.mem_range.1 hc), coefAt_append, coefAt_map_range, coefAt_map_add,
      if_neg (by omega), if_pos (by omega), zero_add]
    congr 2; omega
  have hhigh : ∀ k d, d < D → coefAt (cols.getD (m + d) []) (s.numRows + k) =
      (if inp.uRhs.length + 2 * d = k then 1 else 0) +
      (if inp.uRhs.length + 2 * d + 1 = k then -1 else 0) := by
    intro k d hd
    rw [hhi d hd, coefAt_append, coefAt_map_range, if_neg (by omega), coefAt_cons, coefAt_cons,
      coefAt_nil]
    simp only [zero_add, add_zero]
    congr 1
    · by_cases hk : inp.uRhs.length + 2 * d = k
      · rw [if_pos hk, if_pos (by omega)]
      · rw [if_neg hk, if_neg (by omega)]
    · by_cases hk : inp.uRhs.length + 2 * d + 1 = k
      · rw [if_pos hk, if_pos (by omega)]
      · rw [if_neg hk, if_neg (by omega)]
  have hU : ∀ k < inp.uRhs.length, (∑ c ∈ Finset.range (m + D),
      coefAt (cols.getD c []) (s.numRows + k) * v (s.numCols + c)) =
      ∑ c ∈ Finset.range m, coefAt (inp.uCsc.cols.getD c []) k * v (s.numCols + c) := by
    intro k hk
    rw [hsumsplit, hlow]
    rw [Finset.sum_eq_zero (s := Finset.range D), add_zero]
    intro d hd
    rw [hhigh k d (Finset.mem_range.1 hd), if_neg (by omega), if_neg (by omega)]; simp
  have hP : ∀ d < D, (∑ c ∈ Finset.range (m + D),
      coefAt (cols.getD c []) (s.numRows + (inp.uRhs.length + 2 * d)) * v (s.numCols + c)) =
      v (s.numCols + m + d) := by
    intro k hk
    rw [hsumsplit, hlow, Finset.sum_eq_zero (s := Finset.range m), zero_add,
      Finset.sum_eq_single k]
    · rw [hhigh _ _ hk, if_pos rfl, if_neg (by omega)]; simp
    · intro d hd hne
      rw [hhigh _ d (Finset.mem_range.1 hd), if_neg (by omega), if_neg (by omega)]; simp
    · intro hh; exact absurd (Finset.mem_range.2 hk) hh
    · intro c _; rw [hu _ _ (by omega), zero_mul]
  have hN : ∀ d < D, (∑ c ∈ Finset.range (m + D),
      coefAt (cols.getD c []) (s.numRows + (inp.uRhs.length + (2 * d + 1))) * v (s.numCols + c)) =
      -v (s.numCols + m + d) := by
    intro k hk
    rw [hsumsplit, hlow, Finset.sum_eq_zero (s := Finset.range m), zero_add,
      Finset.sum_eq_single k]
    · rw [hhigh _ _ hk, if_neg (by omega), if_pos (by omega)]; simp
    · intro d hd hne
      rw [hhigh _ d (Finset.mem_range.1 hd), if_neg (by omega), if_neg (by omega)]; simp
    · intro hh; exact absurd (Finset.mem_range.2 hk) hh
    · intro c _; rw [hu _ _ (by omega), zero_mul]
  constructor
  · intro h
    refine ⟨fun i hi => ?_, fun d hd => ⟨?_, ?_⟩⟩
    · have := h i (by simp; omega)
      rw [hU i hi] at this
      rw [List.getElem_append_left (by simpa using hi)] at this
      rw [hm]
      simpa [RowType.rel] using this
    · have := h (inp.uRhs.length + 2 * d) (by simp; omega)
      rw [hP d hd, List.getElem_append_right (by simp)] at this
      simpa [RowType.rel] using this
    · have := h (inp.uRhs.length + (2 * d + 1)) (by simp; omega)
      rw [hN d hd, List.getElem_append_right (by simp)] at this
      simpa [RowType.rel] using this
  · rintro ⟨h1, h2⟩ k hk
    simp only [List.length_append, List.length_map, List.length_replicate] at hk
    by_cases hku : k < inp.uRhs.length
    · have := h1 k hku
      rw [hm] at this
      rw [hU k hku, List.getElem_append_left (by simpa using hku)]
      simpa [RowType.rel] using this
    · obtain ⟨j, rfl⟩ : ∃ j, k = inp.uRhs.length + j := ⟨k - inp.uRhs.length, by omega⟩
      rcases Nat.even_or_odd' j with ⟨d, rfl | rfl⟩
      · rw [hP d (by omega), List.getElem_append_right (by simp)]
        simpa [RowType.rel] using (h2 d (by omega)).1
      · rw [hN d (by omega), List.getElem_append_right (by simp)]
        simpa [RowType.rel] using (h2 d (by omega)).2

end Hylaa
