import Verif.Proofs.Ops

/-! Input effects, bloating, constraints over initial-time columns. -/

set_option linter.unusedSectionVars false

namespace Hylaa
variable {K : Type} [Field K] [LinearOrder K]

/-- `U u`: the input constraint system `u_constraints_csc * u <= u_constraints_rhs`
(hybrid_automaton.py:213-247), row by row. -/
def Inputs.Ok (inp : Inputs K) (u : ℕ → K) : Prop :=
  ∀ i (h : i < inp.uRhs.length),
    (∑ c ∈ Finset.range inp.b.ncols, coefAt (inp.uCsc.cols.getD c []) i * u c) ≤ inp.uRhs[i]

theorem Inputs.Ok.congr {inp : Inputs K} {u w : ℕ → K} (h : ∀ c < inp.b.ncols, u c = w c)
    (hu : inp.Ok u) : inp.Ok w := by
  intro i hi
  refine le_trans (le_of_eq (Finset.sum_congr rfl fun c hc => ?_)) (hu i hi)
  rw [h c (Finset.mem_range.1 hc)]

theorem getD_map_range {α : Type} (n : ℕ) (f : ℕ → α) (c : ℕ) (d : α) (h : c < n) :
    ((List.range n).map f).getD c d = f c := by simp [List.getD_eq_getElem?_getD, h]

theorem coefAt_map_add (off : ℕ) (r : SRow K) (i : ℕ) :
    coefAt (r.map fun p => (off + p.1, p.2)) i = if off ≤ i then coefAt r (i - off) else 0 :=
  coefAt_shiftRow off r i

theorem addInputEffects_shape {s s' : Sys K} {n : Mat K} {mode : Mode K} {inp : Inputs K}
    (h : addInputEffects s n mode none = .ok s') (hin : mode.inputs = some inp)
    {B : ℕ → ℕ → K} {X R : ℕ → SRow K} (hs : s.Shape B X R) :
    s'.Shape B (fun i => X i ++ rangeRow inp.b.ncols s.numCols (fun _ => 0))
      (fun i => R i ++ rangeRow inp.b.ncols s.numCols (n.e i)) ∧
    s.SameVars s' ∧ s'.numCols = s.numCols + inp.b.ncols ∧
    s'.numRows = s.numRows + inp.uRhs.length ∧
    (∀ v, s'.Rest v ↔ s.Rest v ∧ inp.Ok fun c => v (s.numCols + c)) ∧
    n.nc = inp.b.ncols ∧ n.nr = s.dims ∧ s.ie.isSome = true := by
  simp only [addInputEffects, bind_ok, assert_ok, need_ok, needSome_ok, setCsc_ok] at h
  obtain ⟨_, hie1, _, hin1, ie, hie, inp', hin', a, ha, _, hnc, _, hnr, _, hd, _, -,
    ⟨hsz, rfl⟩⟩ := h
  rw [hin] at hin'; cases hin'
  simp only [Option.isNone_none, if_true] at hnc
  simp only [Option.isSome_none, Bool.false_eq_true, if_false, List.append_nil]
  have hext := extend_shape hs ((List.range inp.b.ncols).map fun i => s!"m{mode.id}_I{i}")
    (inp.uRhs.map fun b => (⟨.up, b, []⟩ : LRow K))
    ((List.range inp.b.ncols).map fun c =>
    (List.range s.dims).map (fun row => (row + ie.1, n.e row c)) ++
      (inp.uCsc.cols.getD c []).map (fun p => (s.numRows + p.1, p.2)))
    (fun _ _ => 0) n.e
    (by intro r hr; simp only [List.mem_map] at hr; obtain ⟨_, _, rfl⟩ := hr; rfl)
    (by simp)
    (by
      intro i c hi hsp
      by_cases hc : c < inp.b.ncols
      · rw [getD_map_range _ _ _ _ hc, coefAt_append, coefAt_map_range, coefAt_map_add,
          if_neg, if_neg (by omega), add_zero]
        intro hcc; exact hsp (Or.inr ⟨ie, hie, hcc⟩)
      · simp [List.getD_eq_getElem?_getD, hc])
    (by
      intro i hi c hc
      simp only [List.length_map, List.length_range] at hc
      have := hs.iePos ie hie
      rw [getD_map_range _ _ _ _ hc, coefAt_append, coefAt_map_range, coefAt_map_add,
          if_neg (by omega), if_neg (by omega), add_zero])
    (by
      intro p hp i hi c hc
      rw [hie] at hp; cases hp
      simp only [List.length_map, List.length_range] at hc
      have := hs.iePos ie hie
      rw [getD_map_range _ _ _ _ hc, coefAt_append, coefAt_map_range, coefAt_map_add,
          if_pos (by omega), if_neg (by omega), add_zero]
      congr 1; omega)
  obtain ⟨hshape, hsv, hncols, hnrows, hrest⟩ := hext
  simp only [List.length_map, List.length_range] at hshape hsv hncols hnrows hrest
  simp only [hie1, if_true] at hshape
  refine ⟨hshape, hsv, hncols, hnrows, ?_, hnc, by omega, hie1⟩
  intro v
  refine (hrest v).trans (and_congr_right fun _ => ?_)
  constructor
  · intro h i hi
    have := h i hi
    simp only [List.getElem_map, RowType.rel] at this
    refine le_trans (le_of_eq (Finset.sum_congr rfl fun c hc => ?_)) this
    have hc := Finset.mem_range.1 hc
    have h2 := hs.iePos ie hie
    rw [getD_map_range _ _ _ _ hc, coefAt_append, coefAt_map_range, coefAt_map_add,
      if_neg (by omega), if_pos (by omega), zero_add]
    congr 2; omega
  · intro h i hi
    have := h i hi
    simp only [List.getElem_map, RowType.rel]
    refine le_trans (le_of_eq (Finset.sum_congr rfl fun c hc => ?_)) this
    have hc := Finset.mem_range.1 hc
    have h2 := hs.iePos ie hie
    rw [getD_map_range _ _ _ _ hc, coefAt_append, coefAt_map_range, coefAt_map_add,
      if_neg (by omega), if_pos (by omega), zero_add]
    congr 2; omega

/-! ### bloat -/

theorem bloat_shape {s s' : Sys K} {a : K} {pre : String} (h : bloat s a pre = .ok s')
    {B : ℕ → ℕ → K} {X R : ℕ → SRow K} (hs : s.Shape B X R) :
    s'.Shape B (fun i => X i ++ rangeRow s.dims s.numCols (fun j => if i = j then 1 else 0))
      (fun i => if s.ie.isSome then R i ++ rangeRow s.dims s.numCols (fun _ => 0) else []) ∧
    s.SameVars s' ∧ s'.numCols = s.numCols + s.dims ∧ s'.numRows = s.numRows + 2 * s.dims ∧
    (∀ v, s'.Rest v ↔ s.Rest v ∧ ∀ i < s.dims, v (s.numCols + i) ≤ a ∧ -v (s.numCols + i) ≤ a) ∧
    0 ≤ a := by
  simp only [bloat, bind_ok, assert_ok, setCsc_ok] at h
  obtain ⟨_, ha, ⟨_, rfl⟩⟩ := h
  have hcoef : ∀ c i : ℕ, c < s.dims → coefAt (((List.range s.dims).map fun n : ℕ =>
      ([(s.bmPos.1 + n, 1), (s.numRows + 2 * n, 1), (s.numRows + 2 * n + 1, -1)] : SRow K)).getD c [])
      i = (if s.bmPos.1 + c = i then 1 else 0) + ((if s.numRows + 2 * c = i then 1 else 0) +
        (if s.numRows + 2 * c + 1 = i then -1 else 0)) := by
    intro c i hc
    rw [getD_map_range _ _ _ _ hc]
    simp [coefAt_cons]
  have hext := extend_shape hs ((List.range s.dims).map fun n => s!"{pre}{n}")
    ((List.replicate (2 * s.dims) a).map fun b => (⟨.up, b, []⟩ : LRow K))
    ((List.range s.dims).map fun n =>
      [(s.bmPos.1 + n, 1), (s.numRows + 2 * n, 1), (s.numRows + 2 * n + 1, -1)])
    (fun i j => if i = j then 1 else 0) (fun _ _ => 0)
    (by intro r hr; simp only [List.mem_map] at hr; obtain ⟨_, _, rfl⟩ := hr; rfl)
    (by simp)
    (by
      intro i c hi hsp
      by_cases hc : c < s.dims
      · rw [hcoef c i hc, if_neg, if_neg (by omega), if_neg (by omega)]
        · simp
        · intro hcc; exact hsp (Or.inl (by omega))
      · simp [List.getD_eq_getElem?_getD, hc])
    (by
      intro i hi c hc
      simp only [List.length_map, List.length_range] at hc
      have := hs.rowsLe
      rw [hcoef c _ hc, if_neg (c := s.numRows + 2 * c = _) (by omega),
        if_neg (c := s.numRows + 2 * c + 1 = _) (by omega)]
      simp [eq_comm])
    (by
      intro p hp i hi c hc
      simp only [List.length_map, List.length_range] at hc
      have := hs.iePos p hp
      rw [hcoef c _ hc, if_neg (by omega), if_neg (by omega), if_neg (by omega)]
      simp)
  obtain ⟨hshape, hsv, hncols, hnrows, hrest⟩ := hext
  simp only [List.length_map, List.length_range, List.length_replicate] at hshape hsv hncols hnrows hrest
  have heq : ((s.addRowsLE (List.replicate (2 * s.dims) a)).addCols
      ((List.range s.dims).map fun n => s!"{pre}{n}")) =
      { s with names := s.names ++ (List.range s.dims).map fun n => s!"{pre}{n}",
               rows := s.rows ++ (List.replicate (2 * s.dims) a).map fun b => (⟨.up, b, []⟩ : LRow K) } := rfl
  rw [heq]
  refine ⟨hshape, hsv, hncols, hnrows, ?_, ha⟩
  intro v
  refine (hrest v).trans (and_congr_right fun _ => ?_)
  have hsum : ∀ k < s.dims, ∀ e : ℕ, (e = 0 ∨ e = 1) →
      (∑ c ∈ Finset.range s.dims, coefAt (((List.range s.dims).map fun n : ℕ =>
      ([(s.bmPos.1 + n, 1), (s.numRows + 2 * n, 1), (s.numRows + 2 * n + 1, -1)] : SRow K)).getD c [])
      (s.numRows + (2 * k + e)) * v (s.numCols + c)) =
      if e = 0 then v (s.numCols + k) else -v (s.numCols + k) := by
    intro k hk e he
    have := hs.rowsLe
    rw [Finset.sum_eq_single k]
    · rw [hcoef k _ hk, if_neg (by omega)]
      rcases he with rfl | rfl
      · rw [if_pos (by omega), if_neg (by omega)]; simp
      · rw [if_neg (by omega), if_pos (by omega)]; simp
    · intro b hb hne
      have hb := Finset.mem_range.1 hb
      rw [hcoef b _ hb, if_neg (by omega), if_neg (by omega), if_neg (by omega)]; simp
    · intro hh; exact absurd (Finset.mem_range.2 hk) hh
  constructor
  · intro h i hi
    have h0 := h (2 * i + 0) (by omega)
    have h1 := h (2 * i + 1) (by omega)
    rw [hsum i hi 0 (Or.inl rfl)] at h0
    rw [hsum i hi 1 (Or.inr rfl)] at h1
    simp [RowType.rel] at h0 h1
    exact ⟨h0, by simpa using h1⟩
  · intro h k hk
    have hk2 : k / 2 < s.dims := by omega
    have := h (k / 2) hk2
    rcases Nat.mod_two_eq_zero_or_one k with hm | hm
    · have e : k = 2 * (k / 2) + 0 := by omega
      have h2 := hsum (k / 2) hk2 0 (Or.inl rfl)
      rw [← e] at h2
      rw [h2]; simpa [RowType.rel] using this.1
    · have e : k = 2 * (k / 2) + 1 := by omega
      have h2 := hsum (k / 2) hk2 1 (Or.inr rfl)
      rw [← e] at h2
      rw [h2]; simpa [RowType.rel] using this.2

/-! ### add_init_constraint -/

theorem dot_iePart (vec : ℕ → K) (dims off m : ℕ) (ies : List (Mat K))
    (h : ∀ n ∈ ies, n.nc = m) (v : ℕ → K) :
    dot (iePart vec dims off ies) v = ∑ j ∈ Finset.range ies.length,
      ∑ c ∈ Finset.range m, (∑ k ∈ Finset.range dims, vec k * (ies.getD j ⟨0, 0, fun _ _ => 0⟩).e k c) *
        v (off + m * j + c) := by
  induction ies generalizing off with
  | nil => simp [iePart]
  | cons n ies ih =>
    simp only [iePart, dot_append, dot_rangeRow, List.length_cons]
    rw [ih _ (fun q hq => h q (by simp [hq])), Finset.sum_range_succ']
    rw [h n (by simp)]
    rw [add_comm]
    congr 1
    apply Finset.sum_congr rfl
    intro j _
    apply Finset.sum_congr rfl
    intro c _
    rw [show off + m + m * j + c = off + m * (j + 1) + c by ring]
    simp

theorem iePart_ge {vec : ℕ → K} {dims off : ℕ} {ies : List (Mat K)} {p : ℕ × K}
    (h : p ∈ iePart vec dims off ies) : off ≤ p.1 := by
  induction ies generalizing off with
  | nil => simp [iePart] at h
  | cons n ies ih =>
    simp only [iePart, List.mem_append, rangeRow, List.mem_map] at h
    rcases h with ⟨a, _, rfl⟩ | h
    · simp
    · have := ih h; omega

theorem rangeRow_nodup (n off : ℕ) (f : ℕ → K) :
    ((rangeRow n off f).map fun p => p.1).Nodup := by
  unfold rangeRow
  rw [List.map_map]
  refine List.Nodup.map ?_ List.nodup_range
  intro a b hab; simpa using hab

theorem iePart_nodup (vec : ℕ → K) (dims off : ℕ) (ies : List (Mat K)) :
    ((iePart vec dims off ies).map fun p => p.1).Nodup := by
  induction ies generalizing off with
  | nil => simp [iePart]
  | cons n ies ih =>
    simp only [iePart, List.map_append]
    refine List.Nodup.append (rangeRow_nodup _ _ _) (ih _) ?_
    intro a ha hb
    simp only [List.mem_map] at ha hb
    obtain ⟨p, hp, rfl⟩ := ha
    obtain ⟨q, hq, hpq⟩ := hb
    have := iePart_ge hq
    simp only [rangeRow, List.mem_map, List.mem_range] at hp
    obtain ⟨c, hc, rfl⟩ := hp
    simp only at hpq
    omega

/-- The row `add_init_constraint` writes. -/
structure InitRow (s : Sys K) (vec : List K) (bm : Mat K) (ies : Option (List (Mat K)))
    (c : SRow K) : Prop where
  lt : ∀ p ∈ c, p.1 < s.numCols
  avoid : bm.nr = s.dims → s.bmPos.2 + s.dims ≤ s.cur →
    (∀ p, s.ie = some p → p.2 = s.cur + s.dims) → ∀ p ∈ c, ¬ s.inBlock p.1
  nodup : bm.nr = s.dims → s.bmPos.2 + s.dims ≤ s.cur →
    (∀ p, s.ie = some p → p.2 = s.cur + s.dims) → (c.map fun p => p.1).Nodup
  dotNone : ies.getD [] = [] → ∀ v, dot c v = ∑ i ∈ Finset.range bm.nr,
    (∑ k ∈ Finset.range bm.nr, vec.getD k 0 * bm.e k i) * v (s.bmPos.2 + i)
  dotSome : ∀ n ns, ies = some (n :: ns) → (∀ q ∈ ns, q.nc = n.nc) ∧ ∃ p, s.ie = some p ∧
    ∀ v, dot c v = (∑ i ∈ Finset.range bm.nr,
      (∑ k ∈ Finset.range bm.nr, vec.getD k 0 * bm.e k i) * v (s.bmPos.2 + i)) +
      ∑ j ∈ Finset.range (ns.length + 1), ∑ c ∈ Finset.range n.nc,
        (∑ k ∈ Finset.range bm.nr, vec.getD k 0 *
          ((n :: ns).getD j ⟨0, 0, fun _ _ => 0⟩).e k c) * v (p.2 + bm.nr + n.nc * j + c)

theorem ieRow_initRow {s : Sys K} {vec : List K} {bm : Mat K} {ies : Option (List (Mat K))}
    {r : SRow K} (h : ieRowOf s.ie (fun k => vec.getD k 0) bm.nr ies = .ok r)
    (hlt : ∀ p ∈ rangeRow bm.nr s.bmPos.2 (fun i => ∑ k ∈ Finset.range bm.nr,
      vec.getD k 0 * bm.e k i) ++ r, p.1 < s.numCols) :
    InitRow s vec bm ies (rangeRow bm.nr s.bmPos.2 (fun i => ∑ k ∈ Finset.range bm.nr,
      vec.getD k 0 * bm.e k i) ++ r) := by
  refine ⟨hlt, ?_, ?_, ?_, ?_⟩
  rotate_left
  · intro hd hcol hie
    rw [List.map_append]
    have hr' : (r.map fun p => p.1).Nodup ∧ ∀ q ∈ r, s.bmPos.2 + bm.nr ≤ q.1 := by
      match ies, h with
      | none, h => simp [ieRowOf] at h; subst h; simp
      | some [], h => simp [ieRowOf] at h; subst h; simp
      | some (n :: ns), h =>
        simp only [ieRowOf, bind_ok, needSome_ok, assert_ok, pure_ok] at h
        obtain ⟨p, hp, _, hall, rfl⟩ := h
        refine ⟨iePart_nodup _ _ _ _, fun q hq => ?_⟩
        have := iePart_ge hq
        have := hie p hp
        omega
    refine List.Nodup.append (rangeRow_nodup _ _ _) hr'.1 ?_
    intro a ha hb
    simp only [List.mem_map] at ha hb
    obtain ⟨p, hp, rfl⟩ := ha
    obtain ⟨q, hq, hpq⟩ := hb
    have := hr'.2 q hq
    simp only [rangeRow, List.mem_map, List.mem_range] at hp
    obtain ⟨c, hc, rfl⟩ := hp
    simp only at hpq
    omega
  rotate_left
  rotate_left
  · intro hd hcol hie q hq
    unfold Sys.inBlock Sys.blockLen
    rcases List.mem_append.1 hq with hq | hq
    · simp only [rangeRow, List.mem_map, List.mem_range] at hq
      obtain ⟨a, ha, rfl⟩ := hq
      simp only; omega
    · match ies, h with
      | none, h => simp [ieRowOf] at h; subst h; simp at hq
      | some [], h => simp [ieRowOf] at h; subst h; simp at hq
      | some (n :: ns), h =>
        simp only [ieRowOf, bind_ok, needSome_ok, assert_ok, pure_ok] at h
        obtain ⟨p, hp, _, _, rfl⟩ := h
        have := iePart_ge hq
        have h2 := hie p hp
        simp only [hp, Option.isSome_some, if_true]; omega
  · intro hnil v
    match ies, h, hnil with
    | none, h, _ => simp [ieRowOf] at h; subst h; simp
    | some [], h, _ => simp [ieRowOf] at h; subst h; simp
  · rintro n ns rfl
    simp only [ieRowOf, bind_ok, needSome_ok, assert_ok, pure_ok] at h
    obtain ⟨p, hp, _, hall, rfl⟩ := h
    refine ⟨hall, p, hp, fun v => ?_⟩
    rw [dot_append, dot_rangeRow, dot_iePart (m := n.nc)]
    · simp
    · intro q hq
      rcases List.mem_cons.1 hq with rfl | hq
      · rfl
      · exact hall q hq

/-- `add_init_constraint` with a new row. -/
theorem addInitConstraint_none {s s' : Sys K} {vec : List K} {rhs : K} {bm : Mat K}
    {ies : Option (List (Mat K))} {row : ℕ}
    (h : addInitConstraint s vec rhs bm ies none = .ok (s', row)) :
    ∃ c, InitRow s vec bm ies c ∧ vec.length = bm.nr ∧ row = s.numRows ∧
      s' = { s with rows := s.rows ++ [(⟨.up, rhs, []⟩ : LRow K).withCoefs c] } := by
  simp only [addInitConstraint, bind_ok, need_ok, Except.ok.injEq, setCsr_ok, pure_ok,
    Prod.mk.injEq] at h
  obtain ⟨_, hv, s1, rfl, r, hr, _, hlt, s2, ⟨hsz, rfl⟩, rfl, rfl⟩ := h
  refine ⟨_, ieRow_initRow (s := s) hr hlt, hv, rfl, ?_⟩
  have := Sys.setCsrLoop_rows_split (s.addRowsLE [rhs]) [rangeRow bm.nr s.bmPos.2
      (fun i => ∑ k ∈ Finset.range bm.nr, vec.getD k 0 * bm.e k i) ++ r] 0 s.rows
      [⟨.up, rhs, []⟩] [] (by simp [Sys.addRowsLE]) rfl
  simp only [shiftRow_zero, List.zipWith_cons_cons, List.zipWith_nil_left, List.append_nil] at this
  simp only [Option.getD_none, Sys.numRows]
  have e2 : ∀ (a b : Sys K), a.names = b.names → a.rows = b.rows → a.dims = b.dims →
      a.bmPos = b.bmPos → a.cur = b.cur → a.ie = b.ie → a.bmIdx = b.bmIdx → a = b := by
    rintro ⟨⟩ ⟨⟩ h1 h2 h3 h4 h5 h6 h7; simp_all
  apply e2
  · simp [Sys.addRowsLE]
  · exact this
  · simp [Sys.addRowsLE]
  · simp [Sys.addRowsLE]
  · simp [Sys.addRowsLE]
  · simp [Sys.addRowsLE]
  · simp [Sys.addRowsLE]

/-- `add_init_constraint` overwriting row `i`. -/
theorem addInitConstraint_some {s s' : Sys K} {vec : List K} {rhs : K} {bm : Mat K}
    {ies : Option (List (Mat K))} {row i : ℕ}
    (h : addInitConstraint s vec rhs bm ies (some i) = .ok (s', row)) :
    ∃ c, InitRow s vec bm ies c ∧ vec.length = bm.nr ∧ row = i ∧ i < s.numRows ∧
      s'.names = s.names ∧ s.SameVars s' ∧ s'.numRows = s.numRows ∧
      (∀ j : ℕ, s'.rows[j]? = if j = i then (s.rows[j]?).map fun r =>
        (⟨r.ty, rhs, []⟩ : LRow K).withCoefs c else s.rows[j]?) := by
  simp only [addInitConstraint, bind_ok, need_ok, setCsr_ok, pure_ok,
    Prod.mk.injEq, Sys.setConstraintRhs] at h
  obtain ⟨_, hv, s1, hs1, r, hr, _, hlt, s2, ⟨hsz, rfl⟩, rfl, rfl⟩ := h
  split at hs1
  · rename_i hi
    cases hs1
    refine ⟨_, ieRow_initRow (s := s) hr hlt, hv, rfl, hi, by simp, ⟨by simp, by simp, by simp,
      by simp, by simp⟩, by simp [Sys.numRows], fun j => ?_⟩
    rw [Sys.setCsrLoop_getElem?]
    simp only [Option.getD_some, List.length_singleton, List.getElem?_modify]
    by_cases hj : j = i
    · subst hj
      rw [if_pos (by omega), if_pos rfl]
      cases hsj : s.rows[j]? <;>
        simp [shiftRow_zero, LRow.withCoefs]
    · rw [if_neg (by omega), if_neg hj]
      have : ¬ i = j := fun h => hj h.symm
      cases hsj : s.rows[j]? <;> simp [this]
  · cases hs1

/-- Appending a row that avoids the current-time block keeps the layout. -/
theorem appendRow_shape {s : Sys K} {B : ℕ → ℕ → K} {X R : ℕ → SRow K} (hs : s.Shape B X R)
    (r : LRow K) (hlt : ∀ p ∈ r.coefs, p.1 < s.numCols) (hav : ∀ p ∈ r.coefs, ¬ s.inBlock p.1) :
    let s' : Sys K := { s with rows := s.rows ++ [r] }
    s'.Shape B X R ∧ s.SameVars s' ∧ (∀ v, s'.Rest v ↔ s.Rest v ∧ r.holds v) := by
  intro s'
  have hold : ∀ i < s.numRows, s'.rows[i]? = s.rows[i]? := by
    intro i hi; exact List.getElem?_append_left hi
  have hnew : s'.rows[s.numRows]? = some r := by simp [s', Sys.numRows]
  have hnr : s'.numRows = s.numRows + 1 := by simp [s', Sys.numRows]
  have hlt' : ∀ (i : ℕ) (q : LRow K), s.rows[i]? = some q → i < s.numRows := by
    intro i q hq; unfold Sys.numRows
    by_contra hc; rw [List.getElem?_eq_none (by omega)] at hq; cases hq
  have hcase : ∀ (i : ℕ) (q : LRow K), s'.rows[i]? = some q →
      s.rows[i]? = some q ∨ (i = s.numRows ∧ q = r) := by
    intro i q hq
    by_cases hi : i < s.numRows
    · left; rw [← hold i hi]; exact hq
    · have : i < s'.numRows := by
        unfold Sys.numRows
        by_contra hc; rw [List.getElem?_eq_none (by omega)] at hq; cases hq
      have hi2 : i = s.numRows := by omega
      subst hi2
      rw [hnew] at hq; exact Or.inr ⟨rfl, (Option.some.inj hq).symm⟩
  have hspl : ¬ s.special s.numRows := by
    have h1 := hs.rowsLe
    rintro (hi | ⟨p, hp, hi⟩)
    · omega
    · have := hs.iePos p hp; omega
  have hsv : s.SameVars s' := ⟨rfl, rfl, rfl, rfl, rfl⟩
  refine ⟨⟨?_, ?_, hs.colsLe, hs.curLe, ?_, hs.idx, ?_, ?_, hs.noIe, hs.xAvoid, hs.rAvoid, ?_⟩,
    hsv, ?_⟩
  · intro q hq p hp
    rcases List.mem_append.1 hq with hq | hq
    · exact hs.wf q hq p hp
    · rw [List.mem_singleton] at hq; subst hq; exact hlt p hp
  · have := hs.rowsLe; show s.bmPos.1 + s.dims ≤ s'.numRows; omega
  · intro p hp
    have := hs.iePos p hp
    refine ⟨this.1, ?_, this.2.2⟩
    show p.1 + s.dims ≤ s'.numRows; omega
  · intro i hi
    obtain ⟨q, hq, h1, h2, h3⟩ := hs.basis i hi
    exact ⟨q, (hold _ (hlt' _ _ hq)).trans hq, h1, h2, h3⟩
  · intro p hp i hi
    obtain ⟨q, hq, h1, h2, h3⟩ := hs.ieRows p hp i hi
    exact ⟨q, (hold _ (hlt' _ _ hq)).trans hq, h1, h2, h3⟩
  · intro i q hq hsp
    rcases hcase i q hq with hq | ⟨rfl, rfl⟩
    · exact hs.others i q hq hsp
    · exact hav
  · intro v
    constructor
    · intro h
      exact ⟨fun i q hq hsp => h i q ((hold _ (hlt' _ _ hq)).trans hq) hsp, h _ _ hnew hspl⟩
    · rintro ⟨h1, h2⟩ i q hq hsp
      rcases hcase i q hq with hq | ⟨rfl, rfl⟩
      · exact h1 i q hq hsp
      · exact h2

/-- Replacing a non-special row by one that avoids the current-time block keeps the layout. -/
theorem replaceRow_shape {s s' : Sys K} {B : ℕ → ℕ → K} {X R : ℕ → SRow K} (hs : s.Shape B X R)
    {k : ℕ} (hk : ¬ s.special k) (hsv : s.SameVars s') (hnm : s'.names = s.names)
    (hnr : s'.numRows = s.numRows) {g : LRow K → LRow K}
    (hrow : ∀ j : ℕ, s'.rows[j]? = if j = k then (s.rows[j]?).map g else s.rows[j]?)
    (hg : ∀ r, ∀ p ∈ (g r).coefs, p.1 < s.numCols ∧ ¬ s.inBlock p.1) :
    s'.Shape B X R := by
  have hnc : s'.numCols = s.numCols := by unfold Sys.numCols; rw [hnm]
  have hne : ∀ j, s.special j → s'.rows[j]? = s.rows[j]? := by
    intro j hj
    rw [hrow, if_neg]; rintro rfl; exact hk hj
  refine ⟨?_, ?_, ?_, ?_, ?_, ?_, ?_, ?_, ?_, ?_, ?_, ?_⟩
  · intro r hr p hp
    rw [hnc]
    obtain ⟨i, hir⟩ := List.getElem?_of_mem hr
    rw [hrow] at hir
    split at hir
    · simp only [Option.map_eq_some_iff] at hir
      obtain ⟨r0, _, rfl⟩ := hir
      exact (hg r0 p hp).1
    · exact hs.wf r (List.mem_of_getElem? hir) p hp
  · rw [hsv.bmPos, hsv.dims, hnr]; exact hs.rowsLe
  · rw [hsv.bmPos, hsv.dims, hsv.cur]; exact hs.colsLe
  · rw [hsv.cur, hsv.blockLen, hnc]; exact hs.curLe
  · intro p hp; rw [hsv.ie] at hp; rw [hsv.cur, hsv.dims, hnr, hsv.bmPos]; exact hs.iePos p hp
  · rw [hsv.bmIdx, hsv.dims, hsv.bmPos, hsv.cur, hsv.ie]; exact hs.idx
  · intro i hi
    rw [hsv.dims] at hi
    rw [hsv.bmPos, hsv.dims, hsv.cur, hsv.ie, hne _ (Or.inl ⟨by omega, by omega⟩)]
    exact hs.basis i hi
  · intro p hp i hi
    rw [hsv.ie] at hp; rw [hsv.dims] at hi
    rw [hsv.dims, hsv.cur, hne _ (Or.inr ⟨p, hp, by omega, by omega⟩)]
    exact hs.ieRows p hp i hi
  · intro h; rw [hsv.ie] at h; exact hs.noIe h
  · intro i q hq; rw [hsv.inBlock, hnc]; exact hs.xAvoid i q hq
  · intro i q hq; rw [hsv.inBlock, hnc]; exact hs.rAvoid i q hq
  · intro i r hir hsp q hq
    rw [hsv.special] at hsp
    rw [hsv.inBlock]
    rw [hrow] at hir
    split at hir
    · simp only [Option.map_eq_some_iff] at hir
      obtain ⟨r0, _, rfl⟩ := hir
      exact (hg r0 q hq).2
    · exact hs.others i r hir hsp q hq

end Hylaa
