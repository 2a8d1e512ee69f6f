import Verif.Proofs.Inst
import Verif.Proofs.Zip
import Verif.Spec.Ops
import Verif.Props.OpsEx

/-!
# Properties C18 – C22: queries on LP instances
-/

set_option linter.unusedSectionVars false

namespace Hylaa
open Spec
variable {K : Type} [Field K] [LinearOrder K] [IsStrictOrderedRing K]

/-! ### C18 compute_radius_inf -/

/-- The unit direction used by the queries. -/
theorem sum_unit_list (n i : ℕ) (hi : i < n) (a : K) (f : ℕ → K) :
    (∑ k ∈ Finset.range ((List.range n).map fun d => if i = d then a else 0).length,
      ((List.range n).map fun d => if i = d then a else 0).getD k 0 * f k) = a * f i := by
  simp only [List.length_map, List.length_range]
  rw [Finset.sum_eq_single i]
  · rw [getD_map_range _ _ _ _ hi, if_pos rfl]
  · intro b hb hne
    rw [getD_map_range _ _ _ _ (Finset.mem_range.1 hb), if_neg (fun h => hne h.symm), zero_mul]
  · intro h; exact absurd (Finset.mem_range.2 hi) h

theorem radiusLoop_spec {S : Solver K} (hS : S.Honest) {s : Sys K}
    (hcur : s.cur + s.dims ≤ s.numCols) {ds : List (ℕ × K)} (hds : ∀ d ∈ ds, d.1 < s.dims)
    {lp lp' : Lp K} {acc r : Option K} (hs : lp.toSys = s) (ho : lp.ObjInv)
    (h : radiusLoop S lp ds acc = .ok (lp', r)) :
    (∀ a, acc = some a → ∃ b, r = some b ∧ a ≤ b) ∧
    (∀ b, r = some b → acc = some b ∨ ∃ v n, s.Sat v ∧ n < s.dims ∧ b = |v n|) ∧
    (∀ d ∈ ds, ∃ v b, r = some b ∧ s.Sat v ∧ |v d.1| ≤ b ∧
      ∀ w, s.Sat w → d.2 * v (s.cur + d.1) ≤ d.2 * w (s.cur + d.1)) := by
  induction ds generalizing lp acc with
  | nil =>
    simp only [radiusLoop, Except.ok.injEq, Prod.mk.injEq] at h
    obtain ⟨rfl, rfl⟩ := h
    exact ⟨fun a ha => ⟨a, ha, le_refl a⟩, fun b hb => Or.inl hb, by simp⟩
  | cons d ds ih =>
    obtain ⟨n, sgn⟩ := d
    simp only [radiusLoop, bind_ok] at h
    obtain ⟨⟨lp1, l⟩, hm, h⟩ := h
    obtain ⟨hs1, ho1, hf, -, hsome⟩ := minimize_spec hS hm ho
    have hn : n < s.dims := hds (n, sgn) (by simp)
    obtain ⟨l, rfl⟩ : ∃ l', l = some l' := by
      cases l with
      | none => exact absurd rfl (hf rfl)
      | some l => exact ⟨l, rfl⟩
    obtain ⟨v, hv, hl, -, hmin⟩ := hsome l rfl
    rw [hs] at hv hmin
    have hmin := hmin _ rfl hcur
    have hx : (l.getD n 0) = v n := by
      rw [hl]
      simp only [colVals, hs]
      rw [getD_map_range _ _ _ _ (by omega)]
    simp only [Option.getD_some, hx] at h
    obtain ⟨i1, i2, i3⟩ := ih (fun d hd => hds d (by simp [hd])) (hs1.trans hs) ho1 h
    obtain ⟨b, hb, hb2⟩ := i1 _ rfl
    refine ⟨?_, ?_, ?_⟩
    · rintro a rfl
      exact ⟨b, hb, le_trans (le_max_left _ _) hb2⟩
    · intro b' hb'
      rcases i2 b' hb' with h1 | h1
      · simp only [Option.some.injEq] at h1
        cases acc with
        | none => exact Or.inr ⟨v, n, hv, hn, h1.symm⟩
        | some a =>
          simp only at h1
          rcases max_choice a |v n| with hc | hc
          · left; rw [← h1, hc]
          · right; exact ⟨v, n, hv, hn, by rw [← h1, hc]⟩
      · exact Or.inr h1
    · intro d hd
      rcases List.mem_cons.1 hd with rfl | hd
      · refine ⟨v, b, hb, hv, le_trans ?_ hb2, fun w hw => ?_⟩
        · cases acc with
          | none => exact le_refl _
          | some a => exact le_max_right _ _
        · have h1 := hmin w hw
          rw [sum_unit_list _ _ hn, sum_unit_list _ _ hn] at h1
          exact h1
      · exact i3 d hd

/-- `compute_radius_inf`, if the first `dims` columns carry the current-time values. -/
theorem radius_core {S : Solver K} (hS : S.Honest) {lp lp' : Lp K} (hcur : lp.cur + lp.dims ≤ lp.numCols)
    (ho : lp.ObjInv) (hd : 0 < lp.dims)
    (hcol : ∀ v, lp.Sat v → ∀ i < lp.dims, v i = v (lp.cur + i)) {r : Option K}
    (h : computeRadiusInf S lp = .ok (lp', r)) :
    ∃ b, r = some b ∧ (∃ x i, lp.Mem x ∧ i < lp.dims ∧ b = |x i|) ∧
      ∀ x i, lp.Mem x → i < lp.dims → |x i| ≤ b := by
  have hds : ∀ d ∈ radiusDirs (K := K) lp.dims, d.1 < lp.dims := by
    intro d hd
    simp only [radiusDirs, List.mem_flatMap, List.mem_range, List.mem_cons, List.not_mem_nil,
      or_false] at hd
    obtain ⟨n, hn, rfl | rfl⟩ := hd <;> exact hn
  obtain ⟨-, h2, h3⟩ := radiusLoop_spec hS hcur hds rfl ho h
  have hmem : ∀ i < lp.dims, (i, (1 : K)) ∈ radiusDirs (K := K) lp.dims ∧
      (i, (-1 : K)) ∈ radiusDirs (K := K) lp.dims := by
    intro i hi
    simp only [radiusDirs, List.mem_flatMap, List.mem_range, List.mem_cons, List.not_mem_nil,
      or_false]
    exact ⟨⟨i, hi, Or.inl rfl⟩, ⟨i, hi, Or.inr rfl⟩⟩
  obtain ⟨-, b, hb, -⟩ := h3 _ (hmem 0 hd).1
  refine ⟨b, hb, ?_, fun x i hx hi => ?_⟩
  · rcases h2 b hb with h4 | ⟨v, n, hv, hn, hbv⟩
    · cases h4
    · exact ⟨fun i => v (lp.cur + i), n, ⟨v, hv, fun _ _ => rfl⟩, hn, by
        rw [hbv, hcol v hv n hn]⟩
  · obtain ⟨w, hw, hxw⟩ := hx
    obtain ⟨v1, b1, hb1, hv1, hle1, hmin1⟩ := h3 _ (hmem i hi).1
    obtain ⟨v2, b2, hb2, hv2, hle2, hmin2⟩ := h3 _ (hmem i hi).2
    rw [hb] at hb1 hb2; cases hb1; cases hb2
    have e1 := hmin1 w hw
    have e2 := hmin2 w hw
    simp only [hxw i hi, ← hcol v1 hv1 i hi, ← hcol v2 hv2 i hi] at e1 e2 hle1 hle2
    rw [abs_le]
    have a1 := neg_abs_le (v1 i)
    have a2 := le_abs_self (v2 i)
    constructor <;> linarith

/-- **C18, partial.** If the first `dims` LP columns always carry the current-time values (this is
the case for freshly constructed instances, `C18_radius_fresh_partial`), `compute_radius_inf` returns
the largest `|x_i|` over the set.  Missing: instances where these differ; there the claim is false
(`C18_radius_wrong`). -/
theorem C18_radius_partial {S : Solver K} (hS : S.Honest) {lp lp' : Lp K} {live : Bool}
    (hlp : Inst S lp live) (hd : 0 < lp.dims)
    (hcol : ∀ v, lp.Sat v → ∀ i < lp.dims, v i = v (lp.cur + i)) {r : Option K}
    (h : computeRadiusInf S lp = .ok (lp', r)) :
    ∃ b, r = some b ∧ (∃ x i, lp.Mem x ∧ i < lp.dims ∧ b = |x i|) ∧
      ∀ x i, lp.Mem x → i < lp.dims → |x i| ≤ b := by
  obtain ⟨-, hcur, ho, -⟩ := hlp.inv hS
  exact radius_core hS hcur ho hd hcol h

/-- **C18, partial**: for every instance just built by `from_constraints` (boxes, zonotopes,
aggregates, ...) with at least one dimension. -/
theorem C18_radius_fresh_partial {S : Solver K} (hS : S.Honest) {csr : Csr K} {rhs : List K}
    {mode : Mode K} {types : Option (List RowType)} {names : Option (List String)}
    {dims? : Option ℕ} {lp lp' : Lp K}
    (hc : fromConstraints S csr rhs mode types names dims? = .ok lp)
    (hnames : ∀ ns, names = some ns → ns.length = csr.ncols) (hwf : csr.WF) (hd : 0 < lp.dims)
    {r : Option K} (h : computeRadiusInf S lp = .ok (lp', r)) :
    ∃ b, r = some b ∧ (∃ x i, lp.Mem x ∧ i < lp.dims ∧ b = |x i|) ∧
      ∀ x i, lp.Mem x → i < lp.dims → |x i| ≤ b := by
  have hH := Hist.construct hc hnames hwf
  refine C18_radius_partial hS (Inst.hist hH) hd ?_ h
  obtain ⟨hsh, -⟩ := fromConstraints_shape hc hnames hwf
  obtain ⟨-, -, -, -, -, -, hbm, -⟩ := fromConstraints_ok hc hnames
  intro v hv i hi
  obtain ⟨r1, hr1, hty, hrhs, hdot⟩ := hsh.basis i hi
  have h1 := hv r1 (List.mem_of_getElem? hr1)
  simp only [LRow.holds, hty, hrhs, hdot, ite_mul, one_mul, zero_mul, dot_nil, hbm,
    Nat.zero_add] at h1
  rw [Finset.sum_ite_eq, if_pos (Finset.mem_range.2 hi)] at h1
  cases hie : lp.ie with
  | none => simp [hie] at h1; linarith
  | some p =>
    obtain ⟨r2, hr2, hty2, hrhs2, hdot2⟩ := hsh.ieRows p hie i hi
    have h2 := hv r2 (List.mem_of_getElem? hr2)
    simp only [LRow.holds, hty2, hrhs2, hdot2, dot_nil] at h2
    simp [hie] at h1
    linarith

/-- **C18 is false in general.** The box `[1, 2]` under the basis matrix `2` is `[2, 4]`, but
whatever an honest solver does, a returned radius is at most 2: the code reads LP column `n`
instead of `cur_vars_offset + n`. -/
theorem C18_radius_wrong {S : Solver ℚ} (hS : S.Honest) {mode : Mode ℚ} {lp lp' : Lp ℚ} {s : Sys ℚ}
    (hbox : fromBox S [(1, 2)] mode = .ok lp) (hb : setBasisMatrix lp.toSys (mat1 2) = .ok s)
    {r : Option ℚ} (h : computeRadiusInf S { lp with toSys := s } = .ok (lp', r)) :
    r = some 2 ∧ s.Mem (fun _ => 4) ∧ ∀ x, s.Mem x → |x 0| ≤ 4 := by
  simp only [fromBox, bind_ok, assert_ok] at hbox
  obtain ⟨_, -, hbox⟩ := hbox
  have hwf := boxCsr_wf [((1 : ℚ), 2)]
  have hH := Hist.construct hbox (by simp) hwf
  obtain ⟨hsh, hrest⟩ := fromConstraints_shape hbox (by simp) hwf
  obtain ⟨-, -, -, -, -, hd, hbm, hcu, -⟩ := fromConstraints_ok hbox (by simp)
  obtain ⟨h1, hsv, -, -, hr, -⟩ := setBasisMatrix_shape hb hsh
  have hd' : s.dims = 1 := by rw [hsv.dims, hd]; rfl
  -- closed form of the solutions
  have hsol : ∀ v, s.Sat v → 1 ≤ v 0 ∧ v 0 ≤ 2 ∧ v (s.cur + 0) = 2 * v 0 := by
    intro v hv
    have hv1 : lp.Rest v := (hr v).1 fun i r hi _ => hv r (List.mem_of_getElem? hi)
    have hv2 := (hrest v).1 hv1
    have h3 := hv2 0 (by simp)
    have h4 := hv2 1 (by simp)
    simp [typesOr, Csr.row, RowType.rel] at h3 h4
    have h5 := (h1.mem_iff (fun i => v (s.cur + i))).1 ⟨v, hv, fun _ _ => rfl⟩
    obtain ⟨r1, hr1, hty, hrhs, hdot⟩ := h1.basis 0 (by omega)
    have h6 := hv r1 (List.mem_of_getElem? hr1)
    simp only [LRow.holds, hty, hrhs, hdot, dot_nil, hsv.bmPos, hbm, hd', mat1,
      Finset.range_one, Finset.sum_singleton] at h6
    have h7 : (if s.ie.isSome = true then v (s.cur + 1 + 0) else 0) = 0 := by
      cases hie : s.ie with
      | none => simp
      | some p =>
        obtain ⟨r2, hr2, hty2, hrhs2, hdot2⟩ := h1.ieRows p hie 0 (by omega)
        have h2 := hv r2 (List.mem_of_getElem? hr2)
        simp only [LRow.holds, hty2, hrhs2, hdot2, dot_nil, hd'] at h2
        simp; linarith
    rw [h7] at h6
    refine ⟨by linarith, h4, by simp at h6 ⊢; linarith⟩
  have hH1 : Hist S { lp with toSys := s } _ [] := Hist.setBasis hH hb
  obtain ⟨-, hcur, ho, -⟩ := (Inst.hist hH1).inv hS
  have hmem4 : s.Mem (fun _ => 4) := by
    refine (hH1.mem hS _).2 ⟨fun _ => 2, fun _ _ => 0, ⟨fun _ => 2, ?_, fun _ _ => rfl⟩, ?_⟩
    · intro i hi
      rcases i with _ | _ | i
      · simp [Csr.row]
      · simp [Csr.row]
      · simp at hi
    · intro i hi
      norm_num [Rep.setBasis, Rep.ofSet, Rep.val, inSum, mat1] 
  refine ⟨?_, hmem4, ?_⟩
  · simp only [computeRadiusInf] at h
    obtain ⟨-, h2, h3⟩ := radiusLoop_spec hS (s := s) hcur (by
      intro d hd
      simp only [radiusDirs, List.mem_flatMap, List.mem_range, List.mem_cons, List.not_mem_nil,
        or_false] at hd
      obtain ⟨n, hn, rfl | rfl⟩ := hd <;> exact hn) rfl ho h
    obtain ⟨v, b, hb, hv, hle, hmin⟩ := h3 (0, -1) (by
      simp only [radiusDirs, List.mem_flatMap, List.mem_range, List.mem_cons]
      exact ⟨0, by rw [hd']; omega, by simp⟩)
    obtain ⟨w, hw, hw4⟩ := hmem4
    have h5 := hmin w hw
    have h6 := hw4 0 (by omega)
    obtain ⟨a1, a2, a3⟩ := hsol v hv
    simp only [h6] at h5
    have h7 : v 0 = 2 := by
      have := a3; simp at this h5; linarith
    rw [hb]
    congr 1
    rw [h7] at hle
    simp at hle
    rcases h2 b hb with h8 | ⟨v', n, hv', hn, hbv⟩
    · cases h8
    · have hn0 : n = 0 := by omega
      subst hn0
      obtain ⟨c1, c2, -⟩ := hsol v' hv'
      rw [abs_of_nonneg (by linarith)] at hbv
      linarith
  · rintro x ⟨v, hv, hx⟩
    obtain ⟨c1, c2, c3⟩ := hsol v hv
    have := hx 0 (by omega)
    rw [← this, c3, abs_of_nonneg (by linarith)]; linarith

/-! ### C19 get_box_center -/

/-- `lo` is the least and `hi` the largest value of coordinate `i` over the set. -/
def IsRange (X : (ℕ → K) → Prop) (i : ℕ) (lo hi : K) : Prop :=
  (∃ x, X x ∧ x i = lo) ∧ (∃ x, X x ∧ x i = hi) ∧ ∀ x, X x → lo ≤ x i ∧ x i ≤ hi

theorem boxCenterLoop_spec {S : Solver K} (hS : S.Honest) {s : Sys K}
    (hcur : s.cur + s.dims ≤ s.numCols) {fuel dim : ℕ} (hfd : dim + fuel = s.dims)
    {lp lp' : Lp K} {r : Option (List K)} (hs : lp.toSys = s) (ho : lp.ObjInv)
    (h : boxCenterLoop S lp fuel dim = .ok (lp', r)) :
    (r = none → ∀ v, ¬ s.Sat v) ∧ (∀ l, r = some l → l.length = fuel ∧ (0 < fuel → ∃ v, s.Sat v) ∧
      ∀ i < fuel, ∃ lo hi, IsRange s.Mem (dim + i) lo hi ∧ l.getD i 0 = (lo + hi) / 2) := by
  induction fuel generalizing dim lp r with
  | zero =>
    simp only [boxCenterLoop, Except.ok.injEq, Prod.mk.injEq] at h
    obtain ⟨rfl, rfl⟩ := h
    exact ⟨by simp, fun l hl => by cases hl; simp⟩
  | succ fuel ih =>
    simp only [boxCenterLoop, bind_ok] at h
    obtain ⟨⟨lp1, r1⟩, hm1, ⟨lp2, r2⟩, hm2, h⟩ := h
    obtain ⟨hs1, ho1, -, hn1, hv1⟩ := minimize_spec hS hm1 ho
    obtain ⟨hs2, ho2, -, hn2, hv2⟩ := minimize_spec hS hm2 ho1
    have hs1' : lp1.toSys = s := hs1.trans hs
    simp only [hs, hs1] at hn1 hv1 hn2 hv2
    have hd : dim < s.dims := by omega
    have flip : ∀ a : K, ((List.range s.dims).map fun i => if i = dim then a else 0) =
        (List.range s.dims).map fun i => if dim = i then a else 0 := by
      intro a; congr 1; funext i; simp only [eq_comm]
    cases r1 with
    | none =>
      simp only [pure_ok, Prod.mk.injEq] at h
      obtain ⟨rfl, rfl⟩ := h
      exact ⟨fun _ => hn1 rfl, by simp⟩
    | some l1 =>
      cases r2 with
      | none =>
        simp only [pure_ok, Prod.mk.injEq] at h
        obtain ⟨rfl, rfl⟩ := h
        exact ⟨fun _ => hn2 rfl, by simp⟩
      | some l2 =>
        simp only [bind_ok, pure_ok, Prod.mk.injEq] at h
        obtain ⟨⟨lp3, rest⟩, hrec, rfl, rfl⟩ := h
        obtain ⟨i1, i2⟩ := ih (by omega) (hs2.trans hs1') ho2 hrec
        obtain ⟨v1, hsat1, hl1, -, hmin1⟩ := hv1 l1 rfl
        obtain ⟨v2, hsat2, hl2, -, hmin2⟩ := hv2 l2 rfl
        have hmin1 := hmin1 _ rfl hcur
        have hmin2 := hmin2 _ rfl hcur
        simp only [hs, flip, sum_unit_list _ _ hd] at hmin1 hmin2
        have hg1 : l1.getD 0 0 = v1 (s.cur + dim) := by rw [hl1]; simp [colVals]
        have hg2 : l2.getD 0 0 = v2 (s.cur + dim) := by rw [hl2]; simp [colVals]
        refine ⟨?_, ?_⟩
        · intro hr
          cases rest with
          | none => exact i1 rfl
          | some l => simp at hr
        · intro l hl
          cases rest with
          | none => simp at hl
          | some l' =>
            simp only [Option.map_some, Option.some.injEq] at hl
            subst hl
            obtain ⟨j1, j2, j3⟩ := i2 l' rfl
            refine ⟨by simp [j1], fun _ => ⟨v1, hsat1⟩, fun i hi => ?_⟩
            rcases i with _ | i
            · refine ⟨l1.getD 0 0, l2.getD 0 0, ⟨⟨fun i => v1 (s.cur + i), ⟨v1, hsat1, fun _ _ => rfl⟩,
                by simp only [hg1, Nat.add_zero]⟩, ⟨fun i => v2 (s.cur + i), ⟨v2, hsat2, fun _ _ => rfl⟩,
                by simp only [hg2, Nat.add_zero]⟩, ?_⟩, by simp⟩
              rintro x ⟨w, hw, hxw⟩
              have a1 := hmin1 w hw
              have a2 := hmin2 w hw
              simp only [Nat.add_zero]
              rw [hg1, hg2, ← hxw dim hd]
              constructor <;> linarith
            · obtain ⟨lo, hi', hrg, he⟩ := j3 i (by omega)
              exact ⟨lo, hi', by rw [show dim + (i + 1) = dim + 1 + i by omega]; exact hrg, by
                simpa using he⟩

/-- **C19.** `get_box_center` returns `None` only for the empty set, and otherwise the midpoint of
the range of every coordinate. -/
theorem C19_box_center {S : Solver K} (hS : S.Honest) {lp lp' : Lp K} {live : Bool}
    (hlp : Inst S lp live) (hd : 0 < lp.dims) {r : Option (List K)}
    (h : getBoxCenter S lp = .ok (lp', r)) :
    (r = none ↔ ∀ x, ¬ lp.Mem x) ∧ (∀ l, r = some l → l.length = lp.dims ∧
      ∀ i < lp.dims, ∃ lo hi, IsRange lp.Mem i lo hi ∧ l.getD i 0 = (lo + hi) / 2) := by
  obtain ⟨-, hcur, ho, -⟩ := hlp.inv hS
  obtain ⟨h1, h2⟩ := boxCenterLoop_spec hS hcur (by omega) rfl ho h
  refine ⟨⟨fun hr x ⟨v, hv, _⟩ => h1 hr v hv, fun he => ?_⟩, fun l hl => ?_⟩
  · cases r with
    | none => rfl
    | some l =>
      obtain ⟨-, hv, -⟩ := h2 l rfl
      obtain ⟨v, hv⟩ := hv hd
      exact absurd ⟨v, hv, fun _ _ => rfl⟩ (he fun i => v (lp.cur + i))
  · obtain ⟨h3, -, h4⟩ := h2 l hl
    exact ⟨h3, fun i hi => by simpa using h4 i hi⟩

/-! ### C20 is_point_in_lpi -/

theorem pointCsr_le (pt : List K) (x : ℕ → K) :
    (⟨pt.length, (List.range pt.length).flatMap fun i => [[(i, 1)], [(i, -1)]]⟩ : Csr K).le x
      (pt.flatMap fun a => [a, -a]) ↔ ∀ i (h : i < pt.length), x i = pt[i] := by
  rw [le_iff_zip (by simp [List.length_flatMap])]
  have hz : ((List.range pt.length).flatMap fun n => [[(n, (1 : K))], [(n, -1)]]).zip
      (pt.flatMap fun a => [a, -a]) =
      pt.zipIdx.flatMap fun p => [([(p.2, 1)], p.1), ([(p.2, -1)], -p.1)] := by
    rw [flatMap_range_zipIdx, flatMap_zipIdx_fst pt, zip_flatMap]
    · simp
    · intro a _; simp
  simp only [hz, List.mem_flatMap]
  constructor
  · intro h i hi
    have h1 := h ([(i, 1)], pt[i]) ⟨(pt[i], i), mem_zipIdx_iff'.2 ⟨hi, rfl⟩, by simp⟩
    have h2 := h ([(i, -1)], -pt[i]) ⟨(pt[i], i), mem_zipIdx_iff'.2 ⟨hi, rfl⟩, by simp⟩
    simp at h1 h2
    exact le_antisymm h1 h2
  · rintro h p ⟨q, hq, hp⟩
    obtain ⟨hi, hqe⟩ := mem_zipIdx_iff'.1 hq
    have h1 := h q.2 hi
    rw [← hqe] at h1
    simp only [List.mem_cons, List.not_mem_nil, or_false] at hp
    rcases hp with rfl | rfl <;> simp [h1]

/-- **C20.** `is_point_in_lpi` decides whether some point of the set starts with the given
coordinates. -/
theorem C20_is_point_in_lpi {S : Solver K} (hS : S.Honest) {lp : Lp K} {live : Bool}
    (hlp : Inst S lp live) {pt : List K} {b : Bool} (h : isPointInLpi S pt lp = .ok b) :
    b = true ↔ ∃ x, lp.Mem x ∧ ∀ i (hi : i < pt.length), x i = pt[i] := by
  simp only [isPointInLpi, bind_ok, assert_ok, pure_ok] at h
  obtain ⟨_, hlen, c, hc, s, hs, ⟨lp1, r⟩, hf, rfl⟩ := h
  obtain ⟨hwf, hcur, ho, -⟩ := (Inst.clone hlp hc).inv hS
  have hcc := clone_ok hc
  have hw : (⟨pt.length, (List.range pt.length).flatMap fun i => [[(i, 1)], [(i, -1)]]⟩ : Csr K).WF
      := by
    intro r hr p hp
    simp only [List.mem_flatMap, List.mem_range] at hr
    obtain ⟨n, hn, hr⟩ := hr
    simp only [List.mem_cons, List.not_mem_nil, or_false] at hr
    rcases hr with rfl | rfl <;> (simp at hp; subst hp; exact hn)
  have hmem : ∀ x, c.Mem x ↔ lp.Mem x := by intro x; rw [hcc]; rfl
  have hdims : c.dims = lp.dims := by rw [hcc]
  have h1 := addCurtimeConstraints_mem hs (by simp [List.length_flatMap]) hw
    (by rw [hdims]; exact hlen) hwf
  obtain ⟨-, -, h2⟩ := isFeasible_spec hS hf ho
  refine h2.trans ?_
  constructor
  · rintro ⟨v, hv⟩
    have := (h1 fun i => v (s.cur + i)).1 ⟨v, hv, fun _ _ => rfl⟩
    rw [pointCsr_le] at this
    exact ⟨_, (hmem _).1 this.1, this.2⟩
  · rintro ⟨x, hx, hp⟩
    obtain ⟨v, hv, -⟩ := (h1 x).2 ⟨(hmem x).2 hx, (pointCsr_le pt x).2 hp⟩
    exact ⟨v, hv⟩

/-! ### C21 objective history -/

/-- Histories of objective settings.  `d` is the direction asked for last, as a function of the LP
column.  Every operation on constraints, columns or reach variables is allowed in between
(`other`). -/
inductive DirHist (S : Solver K) : Lp K → (ℕ → K) → Prop
  | new : DirHist S Lp.new fun _ => 0
  | dense {lp lp' d v} : DirHist S lp d → lp.setMinDir v = .ok lp' →
      DirHist S lp' fun j => if lp.cur ≤ j ∧ j < lp.cur + v.length then v.getD (j - lp.cur) 0 else 0
  | csr {lp lp' d nc row off} : DirHist S lp d → (row.map fun p => p.1).Nodup →
      lp.setMinDirCsr nc row off = .ok lp' →
      DirHist S lp' fun j => if off.getD lp.cur ≤ j then coefAt row (j - off.getD lp.cur) else 0
  | other {lp d} (s : Sys K) : DirHist S lp d → DirHist S { lp with toSys := s } d
  | clone {lp lp' d} : DirHist S lp d → lp.clone = .ok lp' → DirHist S lp' d
  | minimize {lp lp' d columns f r} : DirHist S lp d →
      minimize S lp none columns f = .ok (lp', r) → DirHist S lp' d

/-- `minimize` without a direction keeps the objective. -/
theorem minimize_none_obj {S : Solver K} {lp lp' : Lp K} {columns : Option (List ℕ)} {f : Bool}
    {r : Option (List K)} (h : minimize S lp none columns f = .ok (lp', r)) :
    lp'.obj = lp.obj ∧ lp'.objCols = lp.objCols := by
  have once : ∀ {a b : Lp K} {q : Option (List K)}, minimizeOnce S a none columns = .ok (b, q) →
      b.obj = a.obj ∧ b.objCols = a.objCols := by
    intro a b q h
    unfold minimizeOnce at h
    simp only [setDirOpt] at h
    obtain ⟨_, _, _, _, hsp⟩ := solveRetry_spec S a
    split at h
    · cases h
    · simp only [Except.ok.injEq, Prod.mk.injEq] at h
      obtain ⟨rfl, -⟩ := h
      exact ⟨hsp.2.1.symm, hsp.2.2.symm⟩
  unfold minimize at h
  split at h
  · cases h
  · rename_i hm
    simp only [Except.ok.injEq, Prod.mk.injEq] at h
    obtain ⟨rfl, -⟩ := h; exact once hm
  · rename_i lp1 hm
    have h1 := once hm
    split at h
    · split at h
      · cases h
      · rename_i hm2
        simp only [Except.ok.injEq, Prod.mk.injEq] at h
        obtain ⟨rfl, -⟩ := h
        have h2 := once hm2
        exact ⟨h2.1.trans h1.1, h2.2.trans h1.2⟩
      · cases h
    · simp only [Except.ok.injEq, Prod.mk.injEq] at h
      obtain ⟨rfl, -⟩ := h; exact h1

/-- **C21.** After any history the objective is exactly the direction asked for last; no
coefficient of an earlier direction survives. -/
theorem C21_objective_is_last_direction {S : Solver K} {lp : Lp K} {d : ℕ → K}
    (h : DirHist S lp d) : ∀ j, lp.obj j = d j := by
  suffices hh : (∀ j, lp.obj j = d j) ∧ lp.ObjInv from hh.1
  induction h with
  | new => exact ⟨fun _ => rfl, fun j hj => absurd rfl hj⟩
  | dense _ hd ih =>
    obtain ⟨h1, h2⟩ := setMinDir_obj hd ih.2
    exact ⟨h2, h1⟩
  | csr _ hnd hd ih =>
    obtain ⟨h1, -, -, h2⟩ := setMinDirCsr_spec hd ih.2
    exact ⟨(h2 hnd).1, h1⟩
  | other s _ ih => exact ih
  | clone _ hc ih =>
    have := clone_ok hc; subst this; exact ih
  | minimize _ hm ih =>
    obtain ⟨h1, h2⟩ := minimize_none_obj hm
    exact ⟨fun j => by rw [h1]; exact ih.1 j, fun j hj => by rw [h2]; rw [h1] at hj; exact ih.2 j hj⟩

/-! ### C22 the decision logic of minimize, for an arbitrary (also dishonest) solver -/

/-- The solver reported infeasibility. -/
def SimplexOut.Infeasible (o : SimplexOut K) : Prop :=
  o.code = .enopfs ∨ (o.code = .ok ∧ o.status = .nofeas)

/-- The solver reported an optimum. -/
def SimplexOut.Optimal (o : SimplexOut K) : Prop := o.code = .ok ∧ o.status = .opt

/-- The calls one attempt of `minimize` makes, in order: at most three; each but the last returned
a non-zero code, and the last of three is the long one. -/
def Attempt (S : Solver K) (lp : Lp K) (outs : List (SimplexOut K)) : Prop :=
  ∃ o1 : SimplexOut K, o1 = S.run lp false ∧
    ((o1.code = .ok ∧ outs = [o1]) ∨
     (o1.code ≠ .ok ∧ o1.code ≠ .esing ∧
        outs = [o1, S.run { lp with ws := S.cpxBasis { lp with ws := o1.ws } } true]) ∨
     (o1.code = .esing ∧ ∃ o2, o2 = S.run { lp with ws := S.stdBasis { lp with ws := o1.ws } } false ∧
        ((o2.code = .ok ∧ outs = [o1, o2]) ∨
         (o2.code ≠ .ok ∧ outs = [o1, o2,
            S.run { lp with ws := S.cpxBasis { lp with ws := o2.ws } } true]))))

theorem solveRetry_attempt (S : Solver K) (lp : Lp K) :
    ∃ outs, Attempt S lp outs ∧ outs.getLast? = some (solveRetry S lp).1 := by
  unfold Attempt solveRetry Solver.simplex
  by_cases h1 : (S.run lp false).code = .ok
  · exact ⟨_, ⟨_, rfl, Or.inl ⟨h1, rfl⟩⟩, by simp [h1]⟩
  · by_cases h2 : (S.run lp false).code = .esing
    · by_cases h3 : (S.run { lp with ws := S.stdBasis { lp with ws := (S.run lp false).ws } }
        false).code = .ok
      · exact ⟨_, ⟨_, rfl, Or.inr (Or.inr ⟨h2, _, rfl, Or.inl ⟨h3, rfl⟩⟩)⟩, by simp [h2, h3]⟩
      · exact ⟨_, ⟨_, rfl, Or.inr (Or.inr ⟨h2, _, rfl, Or.inr ⟨h3, rfl⟩⟩)⟩, by simp [h2, h3]⟩
    · exact ⟨_, ⟨_, rfl, Or.inr (Or.inl ⟨h1, h2, rfl⟩)⟩, by simp [h1, h2]⟩

/-- One attempt of `minimize` with a legal direction and legal columns. -/
theorem minimizeOnce_cases {S : Solver K} {lp lp1 : Lp K} {dir : Option (List K)}
    {columns : Option (List ℕ)} (hd : setDirOpt lp dir = .ok lp1)
    (hc : ∀ cs, columns = some cs → ∀ c ∈ cs, c < lp.numCols) :
    ∃ outs o, Attempt S lp1 outs ∧ outs.getLast? = some o ∧
      ((o.Optimal ∧ minimizeOnce S lp dir columns =
          .ok ({ lp1 with ws := o.ws }, some (colVals lp columns o.prim))) ∨
       (o.Infeasible ∧ minimizeOnce S lp dir columns = .ok ({ lp1 with ws := o.ws }, none)) ∨
       (¬ o.Optimal ∧ ¬ o.Infeasible ∧ minimizeOnce S lp dir columns = .error .runtime)) := by
  obtain ⟨outs, ha, hl⟩ := solveRetry_attempt S lp1
  refine ⟨outs, _, ha, hl, ?_⟩
  have hws : (solveRetry S lp1).2 = { lp1 with ws := (solveRetry S lp1).1.ws } := by
    unfold solveRetry Solver.simplex
    simp only
    split_ifs <;> rfl
  have hcc : copyColumns (solveRetry S lp1).2 columns (solveRetry S lp1).1.prim =
      .ok (colVals lp columns (solveRetry S lp1).1.prim) := by
    rw [hws]
    have hsys := setDirOpt_toSys hd
    have hn : ({ lp1 with ws := (solveRetry S lp1).1.ws } : Lp K).numCols = lp.numCols := by
      unfold Sys.numCols; rw [← hsys]
    rw [copyColumns_of_lt (by rw [hn]; exact hc)]
    unfold colVals
    cases columns with
    | none => simp only [hn]
    | some cs => rfl
  have hm : minimizeOnce S lp dir columns = match processSimplex (solveRetry S lp1).2
      (solveRetry S lp1).1 columns with
      | .error e => .error e
      | .ok r => .ok ((solveRetry S lp1).2, r) := by
    simp only [minimizeOnce, hd]
    rfl
  generalize (solveRetry S lp1) = p at *
  obtain ⟨o, lp2⟩ := p
  simp only at *
  subst hws
  rw [hm]
  unfold SimplexOut.Optimal SimplexOut.Infeasible processSimplex
  cases ho : o.code with
  | esing => simp
  | enopfs => simp
  | other n => simp
  | ok => cases hst : o.status <;> simp [hcc]

/-- **C22.** For every solver, even a dishonest one, `minimize` called with a legal direction and
legal columns makes one attempt (two with `fail_on_unsat` when the first one says infeasible), and:
a point is returned only if the last call of the last attempt reported an optimum, and then it is
that optimum; `None` only if the last call reported infeasibility and `fail_on_unsat` is off;
`UnsatError` only with `fail_on_unsat` after two attempts that both ended infeasible; every other
outcome raises. -/
theorem C22_minimize_decides {S : Solver K} {lp lp1 : Lp K} {dir : Option (List K)}
    {columns : Option (List ℕ)} {f : Bool} (hd : setDirOpt lp dir = .ok lp1)
    (hc : ∀ cs, columns = some cs → ∀ c ∈ cs, c < lp.numCols) :
    ∃ outs o, Attempt S lp1 outs ∧ outs.getLast? = some o ∧
      ((o.Optimal ∧ minimize S lp dir columns f =
          .ok ({ lp1 with ws := o.ws }, some (colVals lp columns o.prim))) ∨
       (¬ o.Optimal ∧ ¬ o.Infeasible ∧ minimize S lp dir columns f = .error .runtime) ∨
       (o.Infeasible ∧ f = false ∧ minimize S lp dir columns f = .ok ({ lp1 with ws := o.ws }, none)) ∨
       (o.Infeasible ∧ f = true ∧ ∃ lp2 outs2 o2,
          setDirOpt { lp1 with ws := S.cpxBasis { lp1 with ws := o.ws } } dir = .ok lp2 ∧
          Attempt S lp2 outs2 ∧ outs2.getLast? = some o2 ∧
          ((o2.Optimal ∧ minimize S lp dir columns f =
              .ok ({ lp2 with ws := o2.ws }, some (colVals lp columns o2.prim))) ∨
           (o2.Infeasible ∧ minimize S lp dir columns f = .error .unsat) ∨
           (¬ o2.Optimal ∧ ¬ o2.Infeasible ∧
              minimize S lp dir columns f = .error .runtime)))) := by
  obtain ⟨outs, o, ha, hl, hcase⟩ := minimizeOnce_cases (S := S) hd hc
  refine ⟨outs, o, ha, hl, ?_⟩
  rcases hcase with ⟨h1, h2⟩ | ⟨h1, h2⟩ | ⟨h1, h2, h3⟩
  · left; exact ⟨h1, by unfold minimize; rw [h2]⟩
  · cases f with
    | false => right; right; left; exact ⟨h1, rfl, by unfold minimize; rw [h2]; simp⟩
    | true =>
      right; right; right
      refine ⟨h1, rfl, ?_⟩
      have hsys := setDirOpt_toSys hd
      have hd2 : ∃ lp2, setDirOpt { lp1 with ws := S.cpxBasis { lp1 with ws := o.ws } } dir
          = .ok lp2 := by
        cases dir with
        | none => exact ⟨_, rfl⟩
        | some d =>
          simp only [setDirOpt, Lp.setMinDir] at hd ⊢
          split at hd
          · rename_i hlen
            rw [if_pos (by rw [hsys]; exact hlen)]
            exact ⟨_, rfl⟩
          · cases hd
      obtain ⟨lp2, hd2⟩ := hd2
      have hn : ({ lp1 with ws := S.cpxBasis { lp1 with ws := o.ws } } : Lp K).numCols = lp.numCols
        := by unfold Sys.numCols; rw [← hsys]
      obtain ⟨outs2, o2, ha2, hl2, hcase2⟩ := minimizeOnce_cases (S := S) (columns := columns) hd2
        (by rw [hn]; exact hc)
      refine ⟨lp2, outs2, o2, hd2, ha2, hl2, ?_⟩
      have hcv : ∀ p, colVals { lp1 with ws := S.cpxBasis { lp1 with ws := o.ws } } columns p =
          colVals lp columns p := by
        intro p; unfold colVals
        cases columns with
        | none => simp only [hn]
        | some cs => rfl
      unfold minimize
      rw [h2]
      simp only [if_true]
      rcases hcase2 with ⟨k1, k2⟩ | ⟨k1, k2⟩ | ⟨k1, k2, k3⟩
      · left; rw [k2, hcv]; exact ⟨k1, rfl⟩
      · right; left; rw [k2]; exact ⟨k1, rfl⟩
      · right; right; rw [k3]; exact ⟨k1, k2, rfl⟩
  · right; left; exact ⟨h1, h2, by unfold minimize; rw [h3]⟩

/-! ### Non-vacuity -/

/-- A complete solver answers whenever the direction has a minimum. -/
theorem minimize_answers {S : Solver K} (hS : S.Complete) {lp : Lp K} (ho : lp.ObjInv)
    (hcur : lp.cur + lp.dims ≤ lp.numCols) {d : List K} (hd : d.length ≤ lp.dims)
    {columns : Option (List ℕ)} {f : Bool}
    (hc : ∀ cs, columns = some cs → ∀ c ∈ cs, c < lp.numCols) {v : ℕ → K} (hv : lp.Sat v)
    (hmin : ∀ w, lp.Sat w → (∑ i ∈ Finset.range d.length, d.getD i 0 * v (lp.cur + i)) ≤
      ∑ i ∈ Finset.range d.length, d.getD i 0 * w (lp.cur + i)) :
    ∃ lp' l, minimize S lp (some d) columns f = .ok (lp', some l) := by
  have hd1 : setDirOpt lp (some d) = .ok (lp.clearObj.setObjDenseLoop lp.cur d) := by
    simp [setDirOpt, Lp.setMinDir, hd]
  refine minimize_complete hS hd1 hc ⟨v, ?_, fun w hw => ?_⟩
  · rw [setDirOpt_toSys hd1]; exact hv
  · rw [setDirOpt_toSys hd1] at hw
    have e := setMinDir_objVal (lp := lp) (d := d) (lp1 := lp.clearObj.setObjDenseLoop lp.cur d)
      (by simpa [setDirOpt] using hd1) ho hcur
    rw [e, e]; exact hmin w hw

/-- The hypotheses of `C18_radius_wrong` can be met: the ideal solver returns 2 for a set whose
radius is 4. -/
example : ∃ (lp lp' : Lp ℚ) (s : Sys ℚ), fromBox (idealSolver ℚ) [(1, 2)] exModeU = .ok lp ∧
    setBasisMatrix lp.toSys (mat1 2) = .ok s ∧
    computeRadiusInf (idealSolver ℚ) { lp with toSys := s } = .ok (lp', some 2) ∧
    s.Mem (fun _ => 4) := by
  have hS := idealSolver_complete (K := ℚ)
  obtain ⟨lp, hbox⟩ := C01_from_box_accepts hS (box := [(1, 2)]) exModeU (by norm_num)
  have hbox' := hbox
  simp only [fromBox, bind_ok, assert_ok] at hbox'
  obtain ⟨_, -, hbox'⟩ := hbox'
  have hH := Hist.construct hbox' (by simp) (boxCsr_wf [((1 : ℚ), 2)])
  obtain ⟨-, -, -, -, -, hd, -⟩ := fromConstraints_ok hbox' (by simp)
  obtain ⟨s, hs⟩ := setBasisMatrix_accepts lp.toSys (m := mat1 2) (by rw [hd]; rfl)
    (by rw [hd]; rfl)
  have hH1 : Hist (idealSolver ℚ) { lp with toSys := s } _ [] := Hist.setBasis hH hs
  have hmem : ∀ x, s.Mem x ↔ 2 ≤ x 0 ∧ x 0 ≤ 4 := by
    intro x
    refine (hH1.mem hS.toHonest _).trans ?_
    unfold Rep.Mem Rep.val
    simp only [Rep.setBasis, Rep.ofSet, mat1, inSum]
    constructor
    · rintro ⟨y, u, ⟨z, hz, hyz⟩, hx⟩
      have h0 := hz 0 (by simp)
      have h1 := hz 1 (by simp)
      have h2 := hx 0 (by simp)
      have h3 := hyz 0 (by simp)
      simp [Csr.row] at h0 h1 h2
      rw [h2, h3]
      constructor <;> linarith
    · rintro ⟨h1, h2⟩
      refine ⟨fun _ => x 0 / 2, fun _ _ => 0, ⟨fun _ => x 0 / 2, ?_, fun _ _ => rfl⟩, ?_⟩
      · intro i hi
        rcases i with _ | _ | i
        · simp [Csr.row]; linarith
        · simp [Csr.row]; linarith
        · simp at hi
      · intro i hi
        simp at hi; subst hi; simp; ring
  have hdims : ∀ lp2 : Lp ℚ, lp2.toSys = s → lp2.dims = 1 := by
    intro lp2 h2
    have := ((hH1.inv hS.toHonest).1).n
    simp only at this
    rw [h2, this]; simp [Rep.setBasis, Rep.ofSet]
  obtain ⟨-, hcur, ho, -⟩ := (Inst.hist hH1).inv hS.toHonest
  have ans : ∀ lp2 : Lp ℚ, lp2.toSys = s → lp2.ObjInv → ∀ a : ℚ, a = 1 ∨ a = -1 →
      ∃ lp3 l, minimize (idealSolver ℚ) lp2 (some [a]) none true = .ok (lp3, some l) := by
    intro lp2 h2 ho2 a ha
    have hm2 : ∀ w, lp2.Sat w → 2 ≤ w (lp2.cur + 0) ∧ w (lp2.cur + 0) ≤ 4 := by
      intro w hw
      have := (hmem fun i => w (lp2.cur + i)).1 (by rw [← h2]; exact ⟨w, hw, fun _ _ => rfl⟩)
      exact this
    have hcur2 : lp2.cur + lp2.dims ≤ lp2.numCols := by rw [h2]; exact hcur
    rcases ha with rfl | rfl
    · obtain ⟨v, hv, hx⟩ := (hmem fun _ => 2).2 (by norm_num)
      refine minimize_answers hS ho2 hcur2 (by rw [hdims lp2 h2]; simp) (by simp) (v := v)
        (by rw [h2]; exact hv) fun w hw => ?_
      have := hm2 w hw
      have hx0 := hx 0 (by rw [← h2, hdims lp2 h2]; omega)
      rw [← h2] at hx0
      simp at hx0 this ⊢; rw [hx0]; exact this.1
    · obtain ⟨v, hv, hx⟩ := (hmem fun _ => 4).2 (by norm_num)
      refine minimize_answers hS ho2 hcur2 (by rw [hdims lp2 h2]; simp) (by simp) (v := v)
        (by rw [h2]; exact hv) fun w hw => ?_
      have := hm2 w hw
      have hx0 := hx 0 (by rw [← h2, hdims lp2 h2]; omega)
      rw [← h2] at hx0
      simp at hx0 this ⊢; rw [hx0]; exact this.2
  obtain ⟨lp1, l1, hm1⟩ := ans _ rfl ho 1 (Or.inl rfl)
  obtain ⟨e1, o1⟩ := minimize_keeps hm1
  obtain ⟨lp2, l2, hm2⟩ := ans lp1 (by rw [e1]) (o1 ho) (-1) (Or.inr rfl)
  have hr : ∃ lp' r, computeRadiusInf (idealSolver ℚ) { lp with toSys := s } = .ok (lp', r) := by
    unfold computeRadiusInf
    rw [hdims _ rfl]
    simp only [radiusDirs, List.range_one, List.flatMap_cons, List.flatMap_nil, List.append_nil,
      radiusLoop, hdims { lp with toSys := s } rfl, List.map_cons, List.map_nil, if_true, bind_ok]
    have hsd : s.dims = 1 := hdims { lp with toSys := s } rfl
    have hl1 : lp1.dims = 1 := hdims lp1 (by rw [e1])
    have e1' : minimize (idealSolver ℚ) { lp with toSys := s }
        (some (List.map (fun d => if 0 = d then 1 else 0) (List.range s.dims))) none true =
        .ok (lp1, some l1) := by
      simp only [hsd, List.range_one, List.map_cons, List.map_nil, if_true]
      exact hm1
    have e2' : minimize (idealSolver ℚ) lp1
        (some (List.map (fun d => if 0 = d then -1 else 0) (List.range lp1.dims))) none true =
        .ok (lp2, some l2) := by
      simp only [hl1, List.range_one, List.map_cons, List.map_nil, if_true]
      exact hm2
    exact ⟨_, _, _, e1', _, e2', rfl⟩
  obtain ⟨lp', r, hr⟩ := hr
  have := C18_radius_wrong hS.toHonest hbox hs hr
  rw [this.1] at hr
  exact ⟨lp, lp', s, hbox, hs, hr, this.2.1⟩

end Hylaa
