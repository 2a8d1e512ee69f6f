import Verif.Proofs.SatL
import Mathlib.Tactic.LinearCombination
import Mathlib.Tactic.FieldSimp

/-! # Hagemann's convex hull construction (lputil.py:447-561) -/

set_option linter.unusedSectionVars false

namespace Hylaa
variable {K : Type} [Field K] [LinearOrder K]

/-- Put `f` into the current-time block and `g` into the other columns. -/
def comb (cur n : ℕ) (f g : ℕ → K) (j : ℕ) : K :=
  if j < cur then g j else if j < cur + n then f (j - cur) else g (j - n)

theorem dot_slices (cur n : ℕ) (r : SRow K) (f g : ℕ → K) :
    dot (sliceCur cur n r) f + dot (sliceRest cur n r) g = dot r (comb cur n f g) := by
  induction r with
  | nil => simp [sliceCur, sliceRest]
  | cons p r ih =>
    rw [dot_cons, ← ih]
    unfold sliceCur sliceRest comb
    by_cases h1 : p.1 < cur
    · simp [h1, show ¬ cur ≤ p.1 by omega, show ¬ cur + n ≤ p.1 by omega, dot_append]; ring
    · by_cases h2 : p.1 < cur + n
      · simp [h1, h2, show cur ≤ p.1 by omega, show ¬ cur + n ≤ p.1 by omega, dot_append]; ring
      · simp [h1, h2, show cur + n ≤ p.1 by omega, dot_append]; ring

theorem comb_split (cur n : ℕ) (v : ℕ → K) :
    comb cur n (fun i => v (cur + i)) (fun j => if j < cur then v j else v (j + n)) = v := by
  funext j
  unfold comb
  by_cases h1 : j < cur
  · simp [h1]
  · by_cases h2 : j < cur + n
    · simp only [h1, h2, if_true, if_false]; congr 1; omega
    · simp only [h1, h2, if_false, show ¬ j - n < cur by omega]; congr 1; omega

/-- A row scaled by `t` holds. -/
def LRow.scaled (r : LRow K) (t : K) (v : ℕ → K) : Prop := r.ty.rel (dot r.coefs v) (t * r.rhs)

/-- All rows hold, scaled by `t`. -/
def Sys.Scaled (s : Sys K) (t : K) (v : ℕ → K) : Prop := ∀ r ∈ s.rows, r.scaled t v

theorem Sys.scaled_one (s : Sys K) (v : ℕ → K) : s.Scaled 1 v ↔ s.Sat v := by
  unfold Sys.Scaled Sys.Sat LRow.scaled
  simp only [one_mul, LRow.holds_iff]

theorem Sys.Scaled.congr {s : Sys K} (hwf : s.WF) {t : K} {v w : ℕ → K}
    (h : ∀ j < s.numCols, v j = w j) : s.Scaled t v ↔ s.Scaled t w := by
  unfold Sys.Scaled LRow.scaled
  refine forall_congr' fun r => forall_congr' fun hr => ?_
  rw [dot_congr fun p hp => h _ (hwf r hr p hp)]

section
variable [IsStrictOrderedRing K]

theorem RowType.rel_add {t : RowType} {a b c d : K} (h1 : t.rel a b) (h2 : t.rel c d) :
    t.rel (a + c) (b + d) := by
  cases t <;> simp only [RowType.rel] at * <;> linarith

theorem RowType.rel_mul {t : RowType} {a b c : K} (hc : 0 ≤ c) (h : t.rel a b) :
    t.rel (c * a) (c * b) := by
  cases t <;> simp only [RowType.rel] at *
  · rw [h]
  · exact mul_le_mul_of_nonneg_left h hc
  · exact mul_le_mul_of_nonneg_left h hc

theorem Sys.Scaled.add {s : Sys K} {t u : K} {v w : ℕ → K} (h1 : s.Scaled t v)
    (h2 : s.Scaled u w) : s.Scaled (t + u) (fun j => v j + w j) := by
  intro r hr
  have := RowType.rel_add (h1 r hr) (h2 r hr)
  unfold LRow.scaled
  rw [dot_add, add_mul]
  exact this

theorem Sys.Scaled.mul {s : Sys K} {t c : K} (hc : 0 ≤ c) {v : ℕ → K} (h : s.Scaled t v) :
    s.Scaled (c * t) (fun j => c * v j) := by
  intro r hr
  have := RowType.rel_mul hc (h r hr)
  unfold LRow.scaled
  rw [dot_smul, mul_assoc]
  exact this

end

/-- What the hull needs of its arguments. -/
structure HullArg (n : ℕ) (s : Sys K) : Prop where
  noLo : s.NoLo
  wf : s.WF
  dims : s.dims = n
  cur : s.cur + s.dims ≤ s.numCols

theorem sliceCur_lt {cur n : ℕ} {r : SRow K} : ∀ p ∈ sliceCur cur n r, p.1 < n := by
  intro p hp
  simp only [sliceCur, List.mem_map, List.mem_filter, Bool.and_eq_true, decide_eq_true_eq] at hp
  obtain ⟨q, ⟨-, h1, h2⟩, rfl⟩ := hp
  simp only; omega

theorem sliceRest_lt {cur n N : ℕ} {r : SRow K} (h : ∀ p ∈ r, p.1 < N) (hc : cur + n ≤ N) :
    ∀ p ∈ sliceRest cur n r, p.1 < N - n := by
  intro p hp
  simp only [sliceRest, List.mem_append, List.mem_map, List.mem_filter, decide_eq_true_eq] at hp
  rcases hp with ⟨_, h1⟩ | ⟨q, ⟨hq, h1⟩, rfl⟩
  · omega
  · have := h q hq; simp only; omega

section
variable [IsStrictOrderedRing K]

theorem RowType.rel_sub {t : RowType} {a a' b c : K} (h : a = a' + c) :
    t.rel a b ↔ t.rel a' (b - c) := by
  subst h
  cases t <;> simp only [RowType.rel]
  · exact eq_sub_iff_add_eq.symm
  · exact le_sub_iff_add_le.symm
  · exact sub_le_iff_le_add.symm

end

theorem twoBlocks (sa : Sys K) (A B : List (LRow K)) (fa fb : LRow K → LRow K)
    (ta tb : LRow K → SRow K) (h : sa.rows = A.map fa ++ B.map fb) :
    ((sa.setCsrLoop (A.map ta) 0 0).setCsrLoop (B.map tb) (A.map ta).length 0).rows =
      A.map (fun r => (fa r).withCoefs (shiftRow 0 (ta r))) ++
      B.map (fun r => (fb r).withCoefs (shiftRow 0 (tb r))) := by
  have e1 := Sys.setCsrLoop_rows_split sa (A.map ta) 0 [] (A.map fa) (B.map fb) (by simpa using h)
    (by simp)
  simp only [List.length_nil, List.nil_append] at e1
  have e2 := Sys.setCsrLoop_rows_split (sa.setCsrLoop (A.map ta) 0 0) (B.map tb) 0 _ (B.map fb) []
    (by rw [List.append_nil]; exact e1) (by simp)
  have hl : (List.zipWith (fun (r : LRow K) c => r.withCoefs (shiftRow 0 c)) (A.map fa)
      (A.map ta)).length = (A.map ta).length := by simp
  rw [hl, List.append_nil] at e2
  rw [e2]
  have z : ∀ (l : List (LRow K)) (f : LRow K → LRow K) (t : LRow K → SRow K),
      List.zipWith (fun (r : LRow K) c => r.withCoefs (shiftRow 0 c)) (l.map f) (l.map t) =
      l.map fun r => (f r).withCoefs (shiftRow 0 (t r)) := by
    intro l f t
    induction l with
    | nil => rfl
    | cons a l ih => simp [ih]
  rw [z, z]

theorem chullTwo_ok [IsStrictOrderedRing K] {M : K} {s1 s2 s : Sys K} {n : ℕ} (h1 : HullArg n s1) (h2 : HullArg n s2)
    (h : chullTwo M s1 s2 = .ok s) :
    s.NoLo ∧ s.WF ∧ s.dims = n ∧ s.numCols = 2 * n + (s1.numCols - n) + (s2.numCols - n) + 1 ∧
    ∀ z, s.Sat z ↔
      s1.Scaled (1 - z (2 * n + (s1.numCols - n) + (s2.numCols - n)))
        (comb s1.cur n (fun i => z i + z (n + i)) fun j => z (2 * n + j)) ∧
      s2.Scaled (z (2 * n + (s1.numCols - n) + (s2.numCols - n)))
        (comb s2.cur n (fun i => -z (n + i)) fun j => z (2 * n + (s1.numCols - n) + j)) := by
  simp only [chullTwo, bind_ok, assert_ok, pure_ok, addRowsWithTypes_ok, setCsr_ok] at h
  obtain ⟨_, hd, sa, ⟨hlen, hsa⟩, sb, ⟨-, rfl⟩, sc, ⟨-, rfl⟩, rfl⟩ := h
  have hc1 := h1.cur
  have hc2 := h2.cur
  simp only [h1.dims, h2.dims] at hc1 hc2 ⊢
  set n1 := s1.numCols - n with hn1
  set n2 := s2.numCols - n with hn2
  set last := 2 * n + n1 + n2 with hlast
  have hrows0 : sa.rows =
      s1.rows.map (fun r => (⟨r.ty, r.getRhs M, []⟩ : LRow K)) ++
      s2.rows.map (fun r => (⟨r.ty, 0, []⟩ : LRow K)) := by
    rw [← hsa]
    simp only [List.nil_append]
    unfold Sys.getTypes Sys.getRhs
    rw [List.zip_append (by simp), List.map_append]
    congr 1
    · rw [List.zip_map', List.map_map]; rfl
    · rw [List.length_map]
      clear * -
      induction s2.rows with
      | nil => rfl
      | cons r rs ih => simp [List.replicate_succ, ih]
  have hcols : sa.names = [] := by rw [← hsa]
  clear hsa
  have key := twoBlocks (sa.addCols ((List.range n).map (fun i => s!"A1_{i}") ++
    (List.range n).map (fun i => s!"A2_{i}") ++ (List.range n1).map (fun i => s!"L1_{i}") ++
    (List.range n2).map (fun i => s!"L2_{i}") ++ ["a"])) s1.rows s2.rows
    (fun r => (⟨r.ty, r.getRhs M, []⟩ : LRow K)) (fun r => (⟨r.ty, 0, []⟩ : LRow K))
    (fun r => sliceCur s1.cur n r.coefs ++ shiftRow n (sliceCur s1.cur n r.coefs) ++
      shiftRow (2 * n) (sliceRest s1.cur n r.coefs) ++ [(last, r.getRhs M)])
    (fun r => shiftRow n (negRow (sliceCur s2.cur n r.coefs)) ++
      shiftRow (2 * n + n1) (sliceRest s2.cur n r.coefs) ++ [(last, -(r.getRhs M))])
    (by simpa [Sys.addCols] using hrows0)
  have hnc : ((sa.addCols ((List.range n).map (fun i => s!"A1_{i}") ++
    (List.range n).map (fun i => s!"A2_{i}") ++ (List.range n1).map (fun i => s!"L1_{i}") ++
    (List.range n2).map (fun i => s!"L2_{i}") ++ ["a"])).names).length = last + 1 := by
    simp [Sys.addCols, hcols]; omega
  refine ⟨?_, ?_, trivial, ?_, fun z => ?_⟩
  · intro r hr
    simp only at hr
    rw [key] at hr
    rcases List.mem_append.1 hr with hr | hr
    · obtain ⟨q, hq, rfl⟩ := List.mem_map.1 hr; exact h1.noLo q hq
    · obtain ⟨q, hq, rfl⟩ := List.mem_map.1 hr; exact h2.noLo q hq
  · intro r hr p hp
    simp only at hr
    rw [key] at hr
    simp only [Sys.numCols, (Sys.setCsrLoop_fields _ _ _ _).1, hnc]
    rcases List.mem_append.1 hr with hr | hr
    · obtain ⟨q, hq, rfl⟩ := List.mem_map.1 hr
      have hp := LRow.withCoefs_mem hp
      have a1 := sliceCur_lt (cur := s1.cur) (n := n) (r := q.coefs)
      have a2 := sliceRest_lt (cur := s1.cur) (n := n) (r := q.coefs) (h1.wf q hq) hc1
      simp only [shiftRow, List.map_append, List.map_map, List.mem_append, List.mem_map,
        List.mem_singleton, List.map_cons, List.map_nil, Function.comp] at hp
      rcases hp with ((⟨u, hu, rfl⟩ | ⟨u, hu, rfl⟩) | ⟨u, hu, rfl⟩) | rfl
      · have := a1 u hu; simp only; omega
      · have := a1 u hu; simp only; omega
      · have := a2 u hu; simp only; omega
      · simp only; omega
    · obtain ⟨q, hq, rfl⟩ := List.mem_map.1 hr
      have hp := LRow.withCoefs_mem hp
      have a1 := sliceCur_lt (cur := s2.cur) (n := n) (r := q.coefs)
      have a2 := sliceRest_lt (cur := s2.cur) (n := n) (r := q.coefs) (h2.wf q hq) hc2
      simp only [shiftRow, negRow, List.map_append, List.map_map, List.mem_append, List.mem_map,
        List.mem_singleton, List.map_cons, List.map_nil, Function.comp] at hp
      rcases hp with (⟨u, hu, rfl⟩ | ⟨u, hu, rfl⟩) | rfl
      · have := a1 u hu; simp only; omega
      · have := a2 u hu; simp only; omega
      · simp only; omega
  · simp only [Sys.numCols, (Sys.setCsrLoop_fields _ _ _ _).1, hnc]
  · unfold Sys.Sat
    simp only
    rw [key]
    simp only [List.forall_mem_append, List.forall_mem_map, Sys.Scaled, LRow.scaled]
    apply and_congr
    · refine forall_congr' fun r => forall_congr' fun hr => ?_
      rw [LRow.holds_iff, LRow.withCoefs_ty, LRow.withCoefs_rhs, LRow.withCoefs_dot,
        LRow.getRhs_eq (h1.noLo r hr), ← dot_slices, dot_add]
      simp only [dot_shiftRow, dot_append, dot_cons, dot_nil, Nat.zero_add]
      rw [RowType.rel_sub (c := r.rhs * z last)]
      · rw [show r.rhs - r.rhs * z last = (1 - z last) * r.rhs by ring]
      · ring
    · refine forall_congr' fun r => forall_congr' fun hr => ?_
      rw [LRow.holds_iff, LRow.withCoefs_ty, LRow.withCoefs_rhs, LRow.withCoefs_dot,
        LRow.getRhs_eq (h2.noLo r hr), ← dot_slices]
      simp only [dot_shiftRow, dot_append, dot_cons, dot_nil, Nat.zero_add, dot_negRow]
      rw [RowType.rel_sub (c := -(r.rhs * z last)) (a' := dot (sliceCur s2.cur n r.coefs)
        (fun i => -z (n + i)) + dot (sliceRest s2.cur n r.coefs)
        fun j => z (2 * n + n1 + j))]
      · rw [show (0 : K) - -(r.rhs * z last) = z last * r.rhs by ring]
      · have : dot (sliceCur s2.cur n r.coefs) (fun i => -z (n + i)) =
            -dot (sliceCur s2.cur n r.coefs) (fun i => z (n + i)) := by
          have := dot_smul (sliceCur s2.cur n r.coefs) (-1) (fun i => z (n + i))
          simpa using this
        rw [this]; ring

/-- In an instance just built by `from_constraints` the left-most columns are the current values. -/
theorem fresh_cols [IsStrictOrderedRing K] {S : Solver K} {csr : Csr K} {rhs : List K}
    {mode : Mode K} {types : Option (List RowType)} {names : Option (List String)}
    {dims? : Option ℕ} {lp : Lp K}
    (hc : fromConstraints S csr rhs mode types names dims? = .ok lp)
    (hnames : ∀ ns, names = some ns → ns.length = csr.ncols) (hwf : csr.WF) :
    ∀ v, lp.Sat v → ∀ i < lp.dims, v i = v (lp.cur + i) := by
  obtain ⟨hsh, -⟩ := fromConstraints_shape hc hnames hwf
  obtain ⟨-, -, -, -, -, -, hbm, -⟩ := fromConstraints_ok hc hnames
  intro v hv i hi
  obtain ⟨r1, hr1, hty, hrhs, hdot⟩ := hsh.basis i hi
  have h1 := hv r1 (List.mem_of_getElem? hr1)
  simp only [LRow.holds, hty, hrhs, hdot, ite_mul, one_mul, zero_mul, dot_nil, hbm,
    Nat.zero_add] at h1
  rw [Finset.sum_ite_eq, if_pos (Finset.mem_range.2 hi)] at h1
  cases hie : lp.ie with
  | none => simp [hie] at h1; linarith
  | some p =>
    obtain ⟨r2, hr2, hty2, hrhs2, hdot2⟩ := hsh.ieRows p hie i hi
    have h2 := hv r2 (List.mem_of_getElem? hr2)
    simp only [LRow.holds, hty2, hrhs2, hdot2, dot_nil] at h2
    simp [hie] at h1
    linarith

theorem snapshot_ok [IsStrictOrderedRing K] {S : Solver K} {M : K} {s : Sys K} {mode : Mode K}
    {lp : Lp K} (hlo : s.NoLo) (hwf : s.WF) (h : snapshot S M s mode = .ok lp) :
    HullArg s.dims lp.toSys ∧ (∀ x, lp.Mem x ↔ ∃ z, s.Sat z ∧ ∀ i < s.dims, x i = z i) ∧
    ∀ v, lp.Sat v → ∀ i < lp.dims, v i = v (lp.cur + i) := by
  unfold snapshot at h
  have hnames : ∀ ns, some s.names = some ns → ns.length = s.getFull.ncols := by
    rintro ns ⟨⟩; rfl
  have hw : s.getFull.WF := by
    intro r hr p hp
    obtain ⟨q, hq, rfl⟩ := List.mem_map.1 hr
    exact hwf q hq p hp
  obtain ⟨hsh, -⟩ := fromConstraints_shape h hnames hw
  obtain ⟨-, -, -, -, -, hd, -, -, -, -, hrows, -⟩ := fromConstraints_ok h hnames
  simp only [Option.getD_some] at hd
  refine ⟨⟨?_, hsh.wf, hd, hsh.curLe'⟩, fun x => ?_, fresh_cols h hnames hw⟩
  · intro r hr
    rw [hrows] at hr
    rcases List.mem_append.1 hr with hr | hr
    · rcases List.mem_append.1 hr with hr | hr
      · obtain ⟨i, -, rfl⟩ := List.mem_map.1 hr; simp
      · obtain ⟨i, hi, rfl⟩ := List.getElem_of_mem hr
        rw [List.getElem_zipWith, LRow.withCoefs_ty]
        simp only [typesOr, Option.getD_some, List.getElem_map, List.getElem_zip, Sys.getTypes]
        exact hlo _ (List.getElem_mem _)
    · split at hr
      · obtain ⟨i, -, rfl⟩ := List.mem_map.1 hr; simp
      · simp at hr
  · rw [fromConstraints_mem h hnames hw]
    apply exists_congr
    intro z
    simp only [typesOr, Option.getD_some]
    apply and_congr_left
    intro _
    unfold Sys.getFull
    rw [satTypes_iff_satL _ _ _ (by simp [Sys.getTypes, Sys.getRhs]) (by simp [Sys.getRhs])]
    have := satL_sys (M := M) s hlo 0 z
    simp only [shiftRow_zero, Nat.zero_add] at this
    exact this

theorem comb_congr {cur n N : ℕ} (hc : cur + n ≤ N) {f f' g g' : ℕ → K}
    (hf : ∀ i < n, f i = f' i) (hg : ∀ j < N - n, g j = g' j) :
    ∀ j < N, comb cur n f g j = comb cur n f' g' j := by
  intro j hj
  unfold comb
  by_cases h1 : j < cur
  · simp only [h1, if_true]; exact hg _ (by omega)
  · by_cases h2 : j < cur + n
    · simp only [h1, h2, if_true, if_false]; exact hf _ (by omega)
    · simp only [h1, h2, if_false]; exact hg _ (by omega)

theorem comb_cur {cur n : ℕ} (f g : ℕ → K) {i : ℕ} (hi : i < n) :
    comb cur n f g (cur + i) = f i := by
  unfold comb
  simp only [show ¬ cur + i < cur by omega, show cur + i < cur + n by omega, if_true, if_false]
  congr 1; omega

/-- The set built from two instances: scaled solutions of both. -/
theorem pair_mem [IsStrictOrderedRing K] {S : Solver K} {M : K} {s1 s2 s : Sys K} {n : ℕ}
    {mode : Mode K} {lp : Lp K} (h1 : HullArg n s1) (h2 : HullArg n s2)
    (h : chullTwo M s1 s2 = .ok s) (hs : snapshot S M s mode = .ok lp) :
    HullArg n lp.toSys ∧ (∀ v, lp.Sat v → ∀ i < lp.dims, v i = v (lp.cur + i)) ∧
    ∀ x, lp.Mem x ↔ ∃ a v w, s1.Scaled (1 - a) v ∧ s2.Scaled a w ∧
      ∀ i < n, x i = v (s1.cur + i) + w (s2.cur + i) := by
  obtain ⟨k1, k2, k3, k4, k5⟩ := chullTwo_ok h1 h2 h
  obtain ⟨m1, m2, m3⟩ := snapshot_ok k1 k2 hs
  rw [k3] at m1 m2
  refine ⟨m1, m3, fun x => ?_⟩
  rw [m2]
  have hc1 := h1.cur; rw [h1.dims] at hc1
  have hc2 := h2.cur; rw [h2.dims] at hc2
  generalize hn1 : s1.numCols - n = n1 at *
  generalize hn2 : s2.numCols - n = n2 at *
  constructor
  · rintro ⟨z, hz, hx⟩
    obtain ⟨e1, e2⟩ := (k5 z).1 hz
    refine ⟨_, _, _, e1, e2, fun i hi => ?_⟩
    rw [comb_cur _ _ hi, comb_cur _ _ hi, hx i hi]; ring
  · rintro ⟨a, v, w, hv, hw, hx⟩
    set z : ℕ → K := fun j => if j < n then x j else if j < 2 * n then -w (s2.cur + (j - n)) else
      if j < 2 * n + n1 then (if j - 2 * n < s1.cur then v (j - 2 * n) else v (j - 2 * n + n)) else
      if j < 2 * n + n1 + n2 then (if j - (2 * n + n1) < s2.cur then w (j - (2 * n + n1)) else
        w (j - (2 * n + n1) + n)) else a with hz
    have z1 : ∀ i < n, z i = x i := fun i hi => by simp [hz, hi]
    have z2 : ∀ i < n, z (n + i) = -w (s2.cur + i) := fun i hi => by
      simp only [hz, show ¬ n + i < n by omega, show n + i < 2 * n by omega, if_true, if_false]
      congr 3; omega
    have z3 : ∀ j < n1, z (2 * n + j) = if j < s1.cur then v j else v (j + n) := fun j hj => by
      simp only [hz, show ¬ 2 * n + j < n by omega, show ¬ 2 * n + j < 2 * n by omega,
        show 2 * n + j < 2 * n + n1 by omega, if_true, if_false, Nat.add_sub_cancel_left]
    have z4 : ∀ j < n2, z (2 * n + n1 + j) = if j < s2.cur then w j else w (j + n) := fun j hj => by
      simp only [hz, show ¬ 2 * n + n1 + j < n by omega, show ¬ 2 * n + n1 + j < 2 * n by omega,
        show ¬ 2 * n + n1 + j < 2 * n + n1 by omega,
        show 2 * n + n1 + j < 2 * n + n1 + n2 by omega, if_true, if_false, Nat.add_sub_cancel_left]
    have z5 : z (2 * n + n1 + n2) = a := by
      simp only [hz, show ¬ 2 * n + n1 + n2 < n by omega, show ¬ 2 * n + n1 + n2 < 2 * n by omega,
        show ¬ 2 * n + n1 + n2 < 2 * n + n1 by omega,
        show ¬ 2 * n + n1 + n2 < 2 * n + n1 + n2 by omega, if_false]
    refine ⟨z, (k5 z).2 ⟨?_, ?_⟩, fun i hi => (z1 i hi).symm⟩
    · rw [z5]
      refine (Sys.Scaled.congr h1.wf fun j hj => ?_).2 hv
      rw [comb_congr hc1 (f' := fun i => v (s1.cur + i))
        (g' := fun j => if j < s1.cur then v j else v (j + n)) (fun i hi => ?_)
        (fun j hj => z3 j (by omega)) j hj, comb_split]
      rw [z1 i hi, z2 i hi, hx i hi]; ring
    · rw [z5]
      refine (Sys.Scaled.congr h2.wf fun j hj => ?_).2 hw
      rw [comb_congr hc2 (f' := fun i => w (s2.cur + i))
        (g' := fun j => if j < s2.cur then w j else w (j + n)) (fun i hi => ?_)
        (fun j hj => z4 j (by omega)) j hj, comb_split]
      rw [z2 i hi]; ring

theorem cloneComplete_ok {n : ℕ} {lp c : Lp K} (h : HullArg n lp.toSys)
    (hc : cloneComplete lp = .ok c) : HullArg n c.toSys ∧ c.cur = lp.cur ∧
    (∀ t v, c.Scaled t v ↔ lp.Scaled t v ∧ 0 ≤ t) := by
  simp only [cloneComplete, bind_ok, pure_ok] at hc
  obtain ⟨c0, h0, rfl⟩ := hc
  rw [clone_ok h0]
  refine ⟨⟨?_, ?_, h.dims, h.cur⟩, rfl, fun t v => ?_⟩
  · intro r hr
    simp only [Sys.addRowsLE, List.map_cons, List.map_nil, List.mem_append,
      List.mem_singleton] at hr
    rcases hr with hr | rfl
    · exact h.noLo r hr
    · simp
  · intro r hr p hp
    simp only [Sys.addRowsLE, List.map_cons, List.map_nil, List.mem_append,
      List.mem_singleton] at hr
    rcases hr with hr | rfl
    · exact h.wf r hr p hp
    · simp at hp
  · simp only [Sys.Scaled, Sys.addRowsLE, List.map_cons, List.map_nil, List.forall_mem_append,
      List.forall_mem_singleton, LRow.scaled, RowType.rel, dot_nil, mul_one]

end Hylaa
