import Verif.Proofs.Hist
import Verif.Proofs.Zip

/-! # C01, C02, C03: constructors are exact -/

set_option linter.unusedSectionVars false

namespace Hylaa
open Spec
variable {K : Type} [Field K] [LinearOrder K] [IsStrictOrderedRing K]

/-- A mode used in the examples. -/
def exMode : Mode ℚ := { name := "m", id := 0, a := some ⟨2, [[(0, 1)], [(1, 1)]]⟩ }

/-! ### from_box -/

theorem boxCsr_zip (box : List (K × K)) :
    ((List.range box.length).flatMap fun n => [[(n, (-1 : K))], [(n, 1)]]).zip
      (box.flatMap fun p => [-p.1, p.2]) =
    box.zipIdx.flatMap fun p => [([(p.2, -1)], -p.1.1), ([(p.2, 1)], p.1.2)] := by
  rw [flatMap_range_zipIdx, flatMap_zipIdx_fst box, zip_flatMap]
  · simp
  · intro a _; simp

theorem boxCsr_le (box : List (K × K)) (x : ℕ → K) :
    (⟨box.length, (List.range box.length).flatMap fun n => [[(n, -1)], [(n, 1)]]⟩ : Csr K).le x
      (box.flatMap fun p => [-p.1, p.2]) ↔ Box box x := by
  rw [le_iff_zip (by simp [List.length_flatMap])]
  simp only [boxCsr_zip, List.mem_flatMap]
  constructor
  · intro h i hi
    have h1 := h ([(i, -1)], -box[i].1) ⟨(box[i], i), mem_zipIdx_iff'.2 ⟨hi, rfl⟩, by simp⟩
    have h2 := h ([(i, 1)], box[i].2) ⟨(box[i], i), mem_zipIdx_iff'.2 ⟨hi, rfl⟩, by simp⟩
    simp at h1 h2
    exact ⟨by linarith, h2⟩
  · rintro h p ⟨q, hq, hp⟩
    obtain ⟨hi, hqe⟩ := mem_zipIdx_iff'.1 hq
    obtain ⟨h1, h2⟩ := h q.2 hi
    rw [← hqe] at h1 h2
    simp only [List.mem_cons, List.not_mem_nil, or_false] at hp
    rcases hp with rfl | rfl
    · simp; linarith
    · simp; exact h2

theorem boxCsr_wf (box : List (K × K)) :
    (⟨box.length, (List.range box.length).flatMap fun n => [[(n, -1)], [(n, 1)]]⟩ : Csr K).WF := by
  intro r hr p hp
  simp only [List.mem_flatMap, List.mem_range] at hr
  obtain ⟨n, hn, hr⟩ := hr
  simp only [List.mem_cons, List.not_mem_nil, or_false] at hr
  rcases hr with rfl | rfl <;> (simp at hp; subst hp; exact hn)

/-- **C01**: `from_box` returns exactly the box. -/
theorem C01_from_box {S : Solver K} {box : List (K × K)} {mode : Mode K} {lp : Lp K}
    (h : fromBox S box mode = .ok lp) (x : ℕ → K) : lp.Mem x ↔ Box box x := by
  simp only [fromBox, bind_ok, assert_ok] at h
  obtain ⟨_, -, h⟩ := h
  rw [fromConstraints_mem h (by simp) (boxCsr_wf box)]
  simp only [satTypes_up, boxCsr_le, Option.getD_none]
  constructor
  · rintro ⟨y, hy, hxy⟩ i hi
    rw [hxy i hi]; exact hy i hi
  · intro hx; exact ⟨x, hx, fun _ _ => rfl⟩

/-- **C01**: a box with some `lb > ub` is refused. -/
theorem C01_from_box_refuses (S : Solver K) {box : List (K × K)} (mode : Mode K)
    (h : ∃ p ∈ box, p.2 < p.1) : fromBox S box mode = .error .assertion := by
  unfold fromBox assert
  obtain ⟨p, hp, hlt⟩ := h
  rw [if_neg]
  · rfl
  · intro hc; exact absurd (hc p hp) (not_le.2 hlt)

/-- **C01**: every proper box is accepted (given a solver that solves what it is given). -/
theorem C01_from_box_accepts {S : Solver K} (hS : S.Complete) {box : List (K × K)} (mode : Mode K)
    (h : ∀ p ∈ box, p.1 ≤ p.2) : ∃ lp, fromBox S box mode = .ok lp := by
  have hlen : (⟨box.length, (List.range box.length).flatMap fun n => [[(n, -1)], [(n, 1)]]⟩ :
      Csr K).nrows = (box.flatMap fun p => [-p.1, p.2]).length := by
    simp [Csr.nrows, List.length_flatMap]
  obtain ⟨b, hb, hb2⟩ := isFeasibleCsr_complete hS hlen.symm
  have hf : b = true := hb2.2 ⟨fun i => (box.getD i (0, 0)).1, by
    rw [boxCsr_le]
    intro i hi
    simp only [List.getD_eq_getElem?_getD, List.getElem?_eq_getElem hi, Option.getD_some, le_refl,
      true_and]
    exact h _ (List.getElem_mem hi)⟩
  subst hf
  obtain ⟨lp, hlp⟩ := fromConstraints_accepts (mode := mode) (types := none) (names := none)
    (dims? := none) hlen hb rfl (le_refl _) (by simp) (by simp)
  refine ⟨lp, ?_⟩
  unfold fromBox
  have : assert (∀ p ∈ box, p.1 ≤ p.2) = .ok () := by rw [assert_ok]; exact h
  rw [this]; exact hlp

/-- Non-vacuity: the box `[0,1] × [-1,2]` is accepted and contains the right points. -/
example : ∃ lp, fromBox (idealSolver ℚ) [(0, 1), (-1, 2)] exMode = .ok lp ∧
    lp.Mem (fun i => if i = 0 then 1/2 else 2) ∧ ¬ lp.Mem (fun i => if i = 0 then 1/2 else 3) := by
  obtain ⟨lp, h⟩ := C01_from_box_accepts (idealSolver_complete (K := ℚ)) (box := [(0, 1), (-1, 2)])
    exMode (by norm_num)
  refine ⟨lp, h, (C01_from_box h _).2 ?_, fun hc => ?_⟩
  · intro i hi
    rcases i with _ | _ | i
    · norm_num
    · norm_num
    · simp at hi
  · have := (C01_from_box h _).1 hc 1 (by simp)
    norm_num at this

/-! ### from_zonotope -/

theorem dot_unitRow {dims k : ℕ} (hk : k < dims) (a : K) (v : ℕ → K) :
    dot (denseRow (unitRow dims k a)) v = a * v k := by
  rw [dot_denseRow]
  simp only [unitRow, List.length_map, List.length_range]
  rw [Finset.sum_eq_single k]
  · rw [getD_map_range _ _ _ _ hk, if_pos rfl]
  · intro b hb hne
    rw [getD_map_range _ _ _ _ (Finset.mem_range.1 hb), if_neg hne, zero_mul]
  · intro h; exact absurd (Finset.mem_range.2 hk) h

theorem dot_zonRow {cdims dim : ℕ} {gens : List (List K)} (hd : dim < cdims) (c : K) (v : ℕ → K) :
    dot (denseRow (zonRow cdims (cdims + 1 + gens.length) gens dim c)) v =
      -v dim + c * v cdims +
        ∑ k ∈ Finset.range gens.length, (gens.getD k []).getD dim 0 * v (cdims + 1 + k) := by
  rw [dot_denseRow]
  simp only [zonRow, List.length_map, List.length_range]
  rw [Finset.sum_range_add, Finset.sum_range_succ]
  congr 1
  · congr 1
    · rw [Finset.sum_eq_single dim]
      · rw [getD_map_range _ _ _ _ (by omega), if_neg (by omega), if_neg (by omega), if_pos rfl]
        ring
      · intro b hb hne
        have := Finset.mem_range.1 hb
        rw [getD_map_range _ _ _ _ (by omega), if_neg (by omega), if_neg (by omega), if_neg hne,
          zero_mul]
      · intro h; exact absurd (Finset.mem_range.2 hd) h
    · rw [getD_map_range _ _ _ _ (by omega), if_neg (by omega), if_pos rfl]
  · apply Finset.sum_congr rfl
    intro k hk
    have := Finset.mem_range.1 hk
    rw [getD_map_range _ _ _ _ (by omega), if_pos (by omega)]
    congr 4; omega

theorem dot_negDense (l : List K) (v : ℕ → K) :
    dot (denseRow (l.map fun x => -1 * x)) v = - dot (denseRow l) v := by
  rw [dot_denseRow, dot_denseRow, List.length_map, ← Finset.sum_neg_distrib]
  apply Finset.sum_congr rfl
  intro j hj
  have : j < l.length := Finset.mem_range.1 hj
  simp [List.getD_eq_getElem?_getD, this]

theorem zonRows_sat (center : List K) (gens : List (List K)) (v : ℕ → K) :
    (∀ r ∈ zonRows center gens, dot (denseRow r.1) v ≤ r.2) ↔
      v center.length = 1 ∧
      (∀ k < gens.length, -1 ≤ v (center.length + 1 + k) ∧ v (center.length + 1 + k) ≤ 1) ∧
      ∀ i < center.length, v i = center.getD i 0 * v center.length +
        ∑ k ∈ Finset.range gens.length, (gens.getD k []).getD i 0 * v (center.length + 1 + k) := by
  simp only [zonRows, List.mem_append, List.mem_flatMap, List.mem_range, List.mem_cons,
    List.not_mem_nil, or_false]
  constructor
  · intro h
    refine ⟨?_, ?_, ?_⟩
    · have h1 := h _ (Or.inl (Or.inl (Or.inl rfl)))
      have h2 := h _ (Or.inl (Or.inl (Or.inr rfl)))
      rw [dot_unitRow (by omega)] at h1 h2
      simp only at h1 h2
      linarith
    · intro k hk
      have h1 := h _ (Or.inl (Or.inr ⟨k, hk, Or.inl rfl⟩))
      have h2 := h _ (Or.inl (Or.inr ⟨k, hk, Or.inr rfl⟩))
      rw [dot_unitRow (by omega)] at h1 h2
      simp only at h1 h2
      constructor <;> linarith
    · intro i hi
      have h1 := h _ (Or.inr ⟨i, hi, Or.inl rfl⟩)
      have h2 := h _ (Or.inr ⟨i, hi, Or.inr rfl⟩)
      rw [dot_negDense] at h2
      simp only [dot_zonRow hi] at h1 h2
      linarith
  · rintro ⟨h1, h2, h3⟩ r hr
    rcases hr with ((rfl | rfl) | ⟨k, hk, rfl | rfl⟩) | ⟨i, hi, rfl | rfl⟩
    · rw [dot_unitRow (by omega)]; simp only; linarith
    · rw [dot_unitRow (by omega)]; simp only; linarith
    · rw [dot_unitRow (by omega)]; simp only; linarith [(h2 k hk).2]
    · rw [dot_unitRow (by omega)]; simp only; linarith [(h2 k hk).1]
    · simp only [dot_zonRow hi]; linarith [h3 i hi]
    · rw [dot_negDense]; simp only [dot_zonRow hi]; linarith [h3 i hi]

theorem zonCsr_le (center : List K) (gens : List (List K)) (v : ℕ → K) :
    (⟨center.length + 1 + gens.length, (zonRows center gens).map fun r => denseRow r.1⟩ :
      Csr K).le v ((zonRows center gens).map fun r => r.2) ↔
    ∀ r ∈ zonRows center gens, dot (denseRow r.1) v ≤ r.2 := by
  rw [le_iff_zip (by simp)]
  simp only [List.zip_map', List.mem_map]
  constructor
  · intro h r hr; exact h _ ⟨r, hr, rfl⟩
  · rintro h p ⟨r, hr, rfl⟩; exact h r hr

theorem zonRows_len (center : List K) (gens : List (List K)) :
    ∀ r ∈ zonRows center gens, r.1.length = center.length + 1 + gens.length := by
  intro r hr
  simp only [zonRows, List.mem_append, List.mem_flatMap, List.mem_range, List.mem_cons,
    List.not_mem_nil, or_false] at hr
  rcases hr with ((rfl | rfl) | ⟨k, hk, rfl | rfl⟩) | ⟨i, hi, rfl | rfl⟩ <;>
    simp [unitRow, zonRow]

theorem zonCsr_wf (center : List K) (gens : List (List K)) :
    (⟨center.length + 1 + gens.length, (zonRows center gens).map fun r => denseRow r.1⟩ :
      Csr K).WF := by
  intro r hr p hp
  simp only [List.mem_map] at hr
  obtain ⟨q, hq, rfl⟩ := hr
  have := denseRow_lt q.1 p hp
  rw [zonRows_len center gens q hq] at this; exact this

/-- **C02**: `from_zonotope` returns exactly the zonotope. -/
theorem C02_from_zonotope {S : Solver K} {center : List K} {gens : List (List K)} {mode : Mode K}
    {lp : Lp K} (h : fromZonotope S center gens mode = .ok lp) (x : ℕ → K) :
    lp.Mem x ↔ Zonotope center gens x := by
  simp only [fromZonotope, bind_ok, assert_ok] at h
  obtain ⟨_, -, h⟩ := h
  rw [fromConstraints_mem h (by simp) (zonCsr_wf center gens)]
  simp only [satTypes_up, zonCsr_le, Option.getD_some, zonRows_sat]
  constructor
  · rintro ⟨y, ⟨h1, h2, h3⟩, hxy⟩
    refine ⟨fun k => y (center.length + 1 + k), h2, fun i hi => ?_⟩
    rw [hxy i hi, h3 i hi, h1, mul_one]
    congr 1
    exact Finset.sum_congr rfl fun k _ => by ring
  · rintro ⟨a, ha, hx⟩
    have e : ∀ k, ¬ center.length + 1 + k < center.length := fun k => by omega
    have e2 : ∀ k, ¬ center.length + 1 + k = center.length := fun k => by omega
    have e3 : ∀ k, center.length + 1 + k - (center.length + 1) = k := fun k => by omega
    refine ⟨fun j => if j < center.length then x j else if j = center.length then 1
      else a (j - (center.length + 1)), ⟨by simp, ?_, ?_⟩, fun i hi => by simp [hi]⟩
    · intro k hk; simp only [e, e2, e3, if_false]; exact ha k hk
    · intro i hi
      simp only [hi, if_true, e, e2, e3, if_false, lt_irrefl]
      rw [hx i hi, mul_one]
      congr 1
      exact Finset.sum_congr rfl fun k _ => by ring

/-- **C02**: every center with generators of the same length is accepted. -/
theorem C02_from_zonotope_accepts {S : Solver K} (hS : S.Complete) {center : List K}
    {gens : List (List K)} (mode : Mode K) (h : ∀ g ∈ gens, g.length = center.length) :
    ∃ lp, fromZonotope S center gens mode = .ok lp := by
  obtain ⟨b, hb, hb2⟩ := isFeasibleCsr_complete hS
    (c := ⟨center.length + 1 + gens.length, (zonRows center gens).map fun r => denseRow r.1⟩)
    (rhs := (zonRows center gens).map fun r => r.2) (by simp [Csr.nrows])
  have e : ∀ k, ¬ center.length + 1 + k < center.length := fun k => by omega
  have e2 : ∀ k, ¬ center.length + 1 + k = center.length := fun k => by omega
  have hf : b = true := hb2.2 ⟨fun j => if j < center.length then center.getD j 0 else
      if j = center.length then 1 else 0, by
    rw [zonCsr_le, zonRows_sat]
    refine ⟨by simp, ?_, ?_⟩
    · intro k _; simp only [e, e2, if_false]
      constructor <;> linarith [zero_lt_one (α := K)]
    · intro i hi; simp only [hi, if_true, e, e2, if_false, lt_irrefl]; simp⟩
  subst hf
  obtain ⟨lp, hlp⟩ := fromConstraints_accepts (mode := mode) (types := none) (names := none)
    (dims? := some center.length) (by simp [Csr.nrows]) hb rfl (by simp; omega) (by simp) (by simp)
  refine ⟨lp, ?_⟩
  unfold fromZonotope
  have : assert (∀ g ∈ gens, g.length = center.length) = .ok () := by rw [assert_ok]; exact h
  rw [this]; exact hlp

/-- Non-vacuity: center `(1,0)`, generators `(1,1)`, `(0,2)`. -/
example : ∃ lp, fromZonotope (idealSolver ℚ) [1, 0] [[1, 1], [0, 2]] exMode = .ok lp ∧
    lp.Mem (fun i => if i = 0 then 2 else 3) ∧ ¬ lp.Mem (fun i => if i = 0 then 2 else -2) := by
  obtain ⟨lp, h⟩ := C02_from_zonotope_accepts (idealSolver_complete (K := ℚ)) (center := [1, 0])
    (gens := [[1, 1], [0, 2]]) exMode (by simp)
  refine ⟨lp, h, (C02_from_zonotope h _).2 ⟨fun _ => 1, by norm_num, ?_⟩, fun hc => ?_⟩
  · intro i hi
    rcases i with _ | _ | i
    · norm_num [Finset.sum_range_succ]
    · norm_num [Finset.sum_range_succ]
    · simp at hi
  · obtain ⟨a, ha, hx⟩ := (C02_from_zonotope h _).1 hc
    have h0 := hx 0 (by simp)
    have h1 := hx 1 (by simp)
    have := ha 1 (by simp)
    norm_num [Finset.sum_range_succ] at h0 h1
    linarith [this.1]

/-! ### from_constraints -/

/-- **C03** (exactness): the represented set is the projection of the typed constraints, for every
mixture of row types, every `dims`, and modes with or without inputs. -/
theorem C03_from_constraints_exact {S : Solver K} {csr : Csr K} {rhs : List K} {mode : Mode K}
    {types : Option (List RowType)} {names : Option (List String)} {dims? : Option ℕ} {lp : Lp K}
    (h : fromConstraints S csr rhs mode types names dims? = .ok lp)
    (hnames : ∀ ns, names = some ns → ns.length = csr.ncols) (hwf : csr.WF) (x : ℕ → K) :
    lp.Mem x ↔ ∃ y, Typed csr (types.getD (List.replicate rhs.length .up)) rhs y ∧
      EqOn (dims?.getD csr.ncols) x y := by
  rw [fromConstraints_mem h hnames hwf, satTypes_iff_typed]; rfl

/-- **C03** (acceptance), partial: proved when every row is a `<=` row (`types = None`); a
well-shaped system is then accepted iff it is feasible.  Missing: for `>=` and `==` rows the claim
is false, see `C03_refuses_feasible` and `C03_accepts_infeasible`. -/
theorem C03_from_constraints_feasible_partial {S : Solver K} (hS : S.Complete) {csr : Csr K}
    {rhs : List K} (mode : Mode K) {dims? : Option ℕ} (hl : csr.nrows = rhs.length)
    (hd : dims?.getD csr.ncols ≤ csr.ncols) :
    (∃ lp, fromConstraints S csr rhs mode none none dims? = .ok lp) ↔ ∃ x, csr.le x rhs := by
  obtain ⟨b, hb, hb2⟩ := isFeasibleCsr_complete hS hl.symm
  constructor
  · rintro ⟨lp, hlp⟩
    have := (fromConstraints_ok hlp (by simp)).2.2.1
    rw [hb] at this
    exact hb2.1 (by simpa using this)
  · intro hx
    have := hb2.2 hx
    subst this
    exact fromConstraints_accepts hl hb rfl hd (by simp) (by simp)

/-- The feasible system `x >= 1` (a `>=` row), `-x <= -2` is refused, whatever the solver. -/
theorem C03_refuses_feasible {S : Solver ℚ} (hS : S.Honest) (mode : Mode ℚ) (lp : Lp ℚ) :
    fromConstraints S ⟨1, [[(0, 1)], [(0, -1)]]⟩ [1, -2] mode (some [.lo, .up]) (some ["x"])
      ≠ .ok lp ∧
    Typed (⟨1, [[(0, 1)], [(0, -1)]]⟩ : Csr ℚ) [.lo, .up] [1, -2] (fun _ => 2) := by
  constructor
  · intro h
    have h1 := (fromConstraints_ok h (by simp)).2.2.1
    obtain ⟨x, hx⟩ := (isFeasibleCsr_spec hS h1).1 rfl
    have h2 := hx 0 (by simp)
    have h3 := hx 1 (by simp)
    simp [Csr.row] at h2 h3
    linarith
  · intro i hi
    rcases i with _ | _ | i
    · simp [Csr.row]
    · simp [Csr.row]
    · simp at hi

/-- The infeasible system `x == 1`, `x == 2` is accepted, as the empty set. -/
theorem C03_accepts_infeasible {S : Solver ℚ} (hS : S.Complete) (mode : Mode ℚ) :
    ∃ lp, fromConstraints S ⟨1, [[(0, 1)], [(0, 1)]]⟩ [1, 2] mode (some [.fx, .fx]) (some ["x"])
      = .ok lp ∧ ∀ x, ¬ lp.Mem x := by
  obtain ⟨b, hb, hb2⟩ := isFeasibleCsr_complete hS (c := ⟨1, [[(0, 1)], [(0, 1)]]⟩)
    (rhs := [(1 : ℚ), 2]) rfl
  have : b = true := hb2.2 ⟨fun _ => 0, by
    intro i hi
    rcases i with _ | _ | i
    · simp [Csr.row]
    · simp [Csr.row]
    · simp at hi⟩
  subst this
  obtain ⟨lp, h⟩ := fromConstraints_accepts (mode := mode) (types := some [.fx, .fx])
    (names := some ["x"]) (dims? := none) (csr := ⟨1, [[(0, 1)], [(0, 1)]]⟩)
    (rhs := [(1 : ℚ), 2]) rfl hb rfl (by simp) (by simp) (by simp)
  refine ⟨lp, h, fun x hx => ?_⟩
  obtain ⟨y, hy, -⟩ := (C03_from_constraints_exact h (by simp) (by
    intro r hr p hp; simp at hr; subst hr; simp at hp; subst hp; simp) x).1 hx
  have h1 := hy 0 (by simp)
  have h2 := hy 1 (by simp)
  simp [Csr.row] at h1 h2
  linarith

/-- Non-vacuity of the exactness theorem with mixed rows and a projection:
`x + y == 3`, `y <= 1`, keeping `x`. -/
example : ∃ lp, fromConstraints (idealSolver ℚ) ⟨2, [[(0, 1), (1, 1)], [(1, 1)]]⟩ [3, 1] exMode
    (some [.fx, .up]) (some ["x", "y"]) (some 1) = .ok lp ∧ lp.Mem (fun _ => 2) ∧
    ¬ lp.Mem (fun _ => 1) := by
  obtain ⟨b, hb, hb2⟩ := isFeasibleCsr_complete (idealSolver_complete (K := ℚ))
    (c := ⟨2, [[(0, 1), (1, 1)], [(1, 1)]]⟩) (rhs := [(3 : ℚ), 1]) rfl
  have : b = true := hb2.2 ⟨fun _ => 0, by
    intro i hi
    rcases i with _ | _ | i
    · simp [Csr.row]
    · simp [Csr.row]
    · simp at hi⟩
  subst this
  obtain ⟨lp, h⟩ := fromConstraints_accepts (mode := exMode) (types := some [.fx, .up])
    (names := some ["x", "y"]) (dims? := some 1) (csr := ⟨2, [[(0, 1), (1, 1)], [(1, 1)]]⟩)
    (rhs := [(3 : ℚ), 1]) rfl hb rfl (by simp) (by simp) (by simp)
  have hwf : (⟨2, [[(0, 1), (1, 1)], [(1, 1)]]⟩ : Csr ℚ).WF := by
    intro r hr p hp
    simp at hr
    rcases hr with rfl | rfl
    · simp at hp; rcases hp with rfl | rfl <;> simp
    · simp at hp; subst hp; simp
  refine ⟨lp, h, (C03_from_constraints_exact h (by simp) hwf _).2
    ⟨fun i => if i = 0 then 2 else 1, ?_, ?_⟩, fun hc => ?_⟩
  · intro i hi
    rcases i with _ | _ | i
    · simp [Csr.row]; norm_num
    · simp [Csr.row]
    · simp at hi
  · intro i hi; simp at hi; simp [hi]
  · obtain ⟨y, hy, hxy⟩ := (C03_from_constraints_exact h (by simp) hwf _).1 hc
    have h1 := hy 0 (by simp)
    have h2 := hy 1 (by simp)
    have h3 := hxy 0 (by simp)
    simp [Csr.row] at h1 h2
    linarith

end Hylaa
