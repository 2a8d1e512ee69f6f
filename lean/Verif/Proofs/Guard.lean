import Verif.Model.Automaton
import Verif.Proofs.Hist
import Verif.Proofs.Zip

/-! Optimising one constraint row over an instance; invariant checks and guard intersection. -/

set_option linter.unusedSectionVars false

namespace Hylaa
open Spec
variable {K : Type} [Field K] [LinearOrder K]

theorem dotList_colVals (r : SRow K) (v : ℕ → K) (c : ℕ) :
    dotList r (r.map fun p => v (c + p.1)) = dot r fun j => v (c + j) := by
  unfold dotList dot
  rw [List.zipWith_map_right]
  congr 1
  induction r with
  | nil => rfl
  | cons p r ih => simp

/-- Setting a row as objective and minimising: the returned value is the minimum of the row over
the set. -/
theorem rowMin_spec {S : Solver K} (hS : S.Honest) {lp lp1 lp2 : Lp K} {nc : ℕ} {r : SRow K}
    {res : Option (List K)} (ho : lp.ObjInv) (hnd : (r.map fun p => p.1).Nodup)
    (hwf : ∀ p ∈ r, p.1 < nc) (hd : lp.setMinDirCsr nc r none = .ok lp1)
    (hm : minimize S lp1 none (some (r.map fun p => lp1.cur + p.1)) false = .ok (lp2, res)) :
    lp2.toSys = lp.toSys ∧ lp2.ObjInv ∧ nc ≤ lp.dims ∧ (res = none → ∀ x, ¬ lp.Mem x) ∧
    ∀ l, res = some l → (∃ x, lp.Mem x ∧ dotList r l = dot r x) ∧
      ∀ x, lp.Mem x → dotList r l ≤ dot r x := by
  have hdim : nc ≤ lp.dims := by
    unfold Lp.setMinDirCsr at hd
    by_contra hc
    simp [hc] at hd
  obtain ⟨ho1, hs1, -, hov⟩ := setMinDirCsr_spec hd ho
  have hov := (hov hnd).2
  simp only [Option.getD_none] at hov
  obtain ⟨hs2, ho2, -, hnone, hsome⟩ := minimize_spec hS hm ho1
  have hdot : ∀ v x : ℕ → K, (∀ i < lp.dims, v (lp.cur + i) = x i) →
      dot r (fun j => v (lp.cur + j)) = dot r x := fun v x hx =>
    dot_congr fun p hp => hx _ (lt_of_lt_of_le (hwf p hp) hdim)
  rw [hs1] at hnone hsome
  refine ⟨hs2.trans hs1, ho2, hdim, fun hr x ⟨v, hv, _⟩ => hnone hr v hv, fun l hl => ?_⟩
  obtain ⟨v, hv, hl, hmin, -⟩ := hsome l hl
  have hmin := hmin rfl
  simp only [hov] at hmin
  have hval : dotList r l = dot r fun j => v (lp.cur + j) := by
    rw [hl]
    simp only [colVals, List.map_map]
    exact dotList_colVals r v lp.cur
  refine ⟨⟨_, ⟨v, hv, fun _ _ => rfl⟩, hval⟩, ?_⟩
  rintro x ⟨w, hw, hx⟩
  rw [hval, ← hdot w x hx]; exact hmin w hw

theorem checkIntersection_spec [IsStrictOrderedRing K] {S : Solver K} (hS : S.Honest)
    {lp lp' : Lp K} {lc : LinCon K} {tol : K} {ans : Option Bool} (ho : lp.ObjInv)
    (hnd : (lc.row.map fun p => p.1).Nodup) (hwf : ∀ p ∈ lc.row, p.1 < lc.ncols)
    (h : checkIntersection S lp lc tol = .ok (lp', ans)) :
    lp'.toSys = lp.toSys ∧ lp'.ObjInv ∧ lc.ncols ≤ lp.dims ∧
    (ans = none → ∀ x, ¬ lp.Mem x) ∧
    (ans = some true ↔ ∃ x, lp.Mem x ∧ dot lc.row x + tol ≤ lc.rhs) ∧
    (ans = some false ↔ (∃ x, lp.Mem x) ∧ ∀ x, lp.Mem x → lc.rhs < dot lc.row x + tol) := by
  simp only [checkIntersection, bind_ok, pure_ok] at h
  obtain ⟨lp1, hd, ⟨lp2, res⟩, hm, heq⟩ := h
  simp only [Prod.mk.injEq] at heq
  obtain ⟨rfl, rfl⟩ := heq
  obtain ⟨h1, h2, h3, h4, h5⟩ := rowMin_spec hS ho hnd hwf hd hm
  refine ⟨h1, h2, h3, ?_⟩
  cases res with
  | none =>
    have he := h4 rfl
    refine ⟨fun _ => he, ?_, ?_⟩
    · simp; exact fun x hx => absurd hx (he x)
    · simp only [Option.map_none, reduceCtorEq, false_iff]
      rintro ⟨⟨x, hx⟩, _⟩; exact he x hx
  | some l =>
    obtain ⟨⟨z, hz, hval⟩, hle⟩ := h5 l rfl
    simp only [Option.map_some, Option.some.injEq, reduceCtorEq, decide_eq_true_eq,
      decide_eq_false_iff_not, not_le, false_implies, true_and]
    refine ⟨⟨fun h => ⟨z, hz, by rw [← hval]; exact h⟩, ?_⟩,
      ⟨fun h => ⟨⟨z, hz⟩, fun x hx => ?_⟩, ?_⟩⟩
    · rintro ⟨x, hx, hx2⟩
      exact le_trans (add_le_add_left (hle x hx) _) hx2
    · exact lt_of_lt_of_le h (add_le_add_left (hle x hx) _)
    · rintro ⟨-, h⟩; rw [hval]; exact h _ hz

/-- A guard as scipy holds it: one bound per row, indices in range and not repeated. -/
structure GuardOk (g : Csr K × List K) : Prop where
  len : g.1.rows.length = g.2.length
  wf : g.1.WF
  nodup : ∀ r ∈ g.1.rows, (r.map fun p => p.1).Nodup

theorem guardRowsLoop_spec {S : Solver K} (hS : S.Honest) {nc : ℕ} (rows : List (SRow K × K))
    (hwf : ∀ q ∈ rows, ∀ p ∈ q.1, p.1 < nc)
    (hnd : ∀ q ∈ rows, (q.1.map fun p => p.1).Nodup) :
    ∀ {lp lp' : Lp K} {b : Bool}, lp.ObjInv →
    guardRowsLoop S lp nc rows = .ok (lp', b) →
    lp'.toSys = lp.toSys ∧ lp'.ObjInv ∧ (rows ≠ [] → nc ≤ lp.dims) ∧
    (b = false → ∀ x, lp.Mem x → ∃ q ∈ rows, q.2 < dot q.1 x) := by
  induction rows with
  | nil =>
    intro lp lp' b ho h
    simp only [guardRowsLoop, Except.ok.injEq, Prod.mk.injEq] at h
    obtain ⟨rfl, rfl⟩ := h
    exact ⟨rfl, ho, by simp, by simp⟩
  | cons q rows ih =>
    obtain ⟨r, c⟩ := q
    intro lp lp' b ho h
    simp only [guardRowsLoop, bind_ok] at h
    obtain ⟨lp1, hd, ⟨lp2, res⟩, hm, h⟩ := h
    obtain ⟨h1, h2, h3, h4, h5⟩ := rowMin_spec hS ho (hnd (r, c) (by simp)) (hwf (r, c) (by simp))
      hd hm
    cases res with
    | none =>
      simp only [Except.ok.injEq, Prod.mk.injEq] at h
      obtain ⟨rfl, rfl⟩ := h
      exact ⟨h1, h2, fun _ => h3, fun _ x hx => absurd hx (h4 rfl x)⟩
    | some l =>
      simp only at h
      obtain ⟨-, hle⟩ := h5 l rfl
      split at h
      · rename_i hgt
        simp only [Except.ok.injEq, Prod.mk.injEq] at h
        obtain ⟨rfl, rfl⟩ := h
        exact ⟨h1, h2, fun _ => h3, fun _ x hx =>
          ⟨(r, c), by simp, lt_of_lt_of_le hgt (hle x hx)⟩⟩
      · obtain ⟨k1, k2, k3, k4⟩ := ih (fun q hq => hwf q (by simp [hq]))
          (fun q hq => hnd q (by simp [hq])) h2 h
        rw [h1] at k1 k4
        refine ⟨k1, k2, fun _ => h3, fun hb x hx => ?_⟩
        obtain ⟨q, hq, hlt⟩ := k4 hb x hx
        exact ⟨q, by simp [hq], hlt⟩

theorem mem_congr {s s' : Sys K} (h : s = s') (x : ℕ → K) : s.Mem x ↔ s'.Mem x := by rw [h]

theorem clone_bmIdx {S : Solver K} {lp lp' : Lp K} (h : lp.clone = .ok lp') :
    lp'.names = lp.names ∧ lp'.rows = lp.rows ∧ lp'.dims = lp.dims ∧ lp'.cur = lp.cur ∧
    lp'.bmPos = lp.bmPos ∧ lp'.ie = lp.ie ∧ lp'.obj = lp.obj ∧ lp'.objCols = lp.objCols := by
  rw [clone_ok h]; exact ⟨rfl, rfl, rfl, rfl, rfl, rfl, rfl, rfl⟩

/-- `get_guard_intersection` on any well-formed instance. -/
theorem guardIntersection_spec [IsStrictOrderedRing K] {S : Solver K} (hS : S.Honest)
    {lp lp' : Lp K} {g : Csr K × List K} {ans : Option (Lp K)} (ho : lp.ObjInv) (hw : lp.WF)
    (hg : GuardOk g) (h : guardIntersection S lp g = .ok (lp', ans)) :
    lp'.toSys = lp.toSys ∧ lp'.ObjInv ∧
    (ans = none → ∀ x, lp.Mem x → ¬ g.1.le x g.2) ∧
    (∀ t, ans = some t → ∃ c, lp'.clone = .ok c ∧ t.ObjInv ∧
      addCurtimeConstraints c.toSys g.1 g.2 = .ok t.toSys ∧ (∃ x, t.Mem x) ∧
      (g.1.rows ≠ [] → g.1.ncols ≤ lp.dims) ∧
      ∀ x, t.Mem x ↔ lp.Mem x ∧ g.1.le x g.2) := by
  simp only [guardIntersection, bind_ok, need_ok] at h
  obtain ⟨_, -, ⟨lp1, b⟩, hl, h⟩ := h
  have hzlen : (g.1.rows.zip g.2).length = g.1.rows.length := by rw [List.length_zip, hg.len]; simp
  obtain ⟨h1, h2, h3, h4⟩ := guardRowsLoop_spec hS (g.1.rows.zip g.2)
    (fun q hq p hp => hg.wf q.1 (List.of_mem_zip hq).1 p hp)
    (fun q hq => hg.nodup q.1 (List.of_mem_zip hq).1) ho hl
  have h3' : g.1.rows ≠ [] → g.1.ncols ≤ lp.dims := by
    intro hne
    apply h3
    intro hz
    apply hne
    rw [hz] at hzlen
    exact List.eq_nil_of_length_eq_zero hzlen.symm
  cases b with
  | false =>
    simp only [Bool.false_eq_true, if_false, pure_ok, Prod.mk.injEq] at h
    obtain ⟨rfl, rfl⟩ := h
    refine ⟨h1, h2, fun _ x hx hle => ?_, by simp⟩
    obtain ⟨q, hq, hlt⟩ := h4 rfl x hx
    exact absurd ((le_iff_zip hg.len x).1 hle q hq) (not_le.2 hlt)
  | true =>
    simp only [if_true, bind_ok, pure_ok, Prod.mk.injEq] at h
    obtain ⟨c, hc, s, hs, ⟨lf, bf⟩, hf, rfl, rfl⟩ := h
    have hcc := clone_ok hc
    have hcm : ∀ x, c.Mem x ↔ lp.Mem x := by
      intro x; rw [hcc, ← h1]; rfl
    have hcw : c.WF := by rw [hcc]; rw [← h1] at hw; exact hw
    have hco : c.ObjInv := by rw [hcc]; exact h2
    have hcd : c.dims = lp.dims := by rw [hcc, ← h1]
    have hmem : ∀ x, s.Mem x ↔ lp.Mem x ∧ g.1.le x g.2 := by
      intro x
      by_cases hne : g.1.rows = []
      · have hnil : g.2 = [] := by
          have := hg.len; rw [hne] at this; exact List.eq_nil_of_length_eq_zero this.symm
        obtain ⟨-, hsv, -, hsat, -⟩ := addCurtimeConstraints_ok hs hg.len hg.wf hcw
        have htriv : ∀ y, g.1.le y g.2 := by
          intro y i hi; rw [hnil] at hi; simp at hi
        rw [← hcm]
        unfold Sys.Mem
        rw [hsv.dims, hsv.cur]
        simp only [hsat, htriv, and_true]
      · rw [addCurtimeConstraints_mem hs hg.len hg.wf (by rw [hcd]; exact h3' hne) hcw, hcm]
    obtain ⟨f1, f2, f3⟩ := isFeasible_spec hS hf hco
    have hex : bf = true ↔ ∃ x, lp.Mem x ∧ g.1.le x g.2 := by
      rw [f3]
      constructor
      · rintro ⟨v, hv⟩
        exact ⟨fun i => v (s.cur + i), (hmem _).1 ⟨v, hv, fun _ _ => rfl⟩⟩
      · rintro ⟨x, hx⟩
        obtain ⟨v, hv, -⟩ := (hmem x).2 hx
        exact ⟨v, hv⟩
    cases bf with
    | false =>
      simp only [Bool.false_eq_true, false_iff] at hex
      exact ⟨h1, h2, fun _ x hx hle => hex ⟨x, hx, hle⟩, by simp⟩
    | true =>
      refine ⟨h1, h2, by simp, ?_⟩
      intro t ht
      simp only [if_true, Option.some.injEq] at ht
      subst ht
      refine ⟨c, hc, f2, by rw [f1]; exact hs, ?_, h3', fun x => ?_⟩
      · obtain ⟨x, hx⟩ := hex.1 rfl
        exact ⟨x, by rw [f1]; exact (hmem x).2 hx⟩
      · rw [f1]; exact hmem x

end Hylaa
