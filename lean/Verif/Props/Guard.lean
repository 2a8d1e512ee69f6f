import Verif.Proofs.Guard
import Verif.Proofs.Inst
import Verif.Props.OpsEx

/-!
# C11: guard intersection
-/

set_option linter.unusedSectionVars false

namespace Hylaa
open Spec
variable {K : Type} [Field K] [LinearOrder K] [IsStrictOrderedRing K]

/-- **C11.** For every instance the library can produce and every guard polyhedron
`G x <= h`: the argument instance still represents the same set; `None` is returned exactly when no
point of the set satisfies the guard; otherwise the returned instance is non-empty and its points
are exactly the points of the set inside the guard, and it can be used like any other instance
(`Inst`). -/
theorem C11_guard_intersection {S : Solver K} (hS : S.Honest) {lp lp' : Lp K} {live : Bool}
    (hlp : Inst S lp live) {g : Csr K × List K} (hg : GuardOk g) {ans : Option (Lp K)}
    (h : guardIntersection S lp g = .ok (lp', ans)) :
    (∀ x, lp'.Mem x ↔ lp.Mem x) ∧
    (ans = none ↔ ∀ x, lp.Mem x → ¬ g.1.le x g.2) ∧
    (∀ t, ans = some t → (∃ x, t.Mem x) ∧ ∀ x, t.Mem x ↔ lp.Mem x ∧ g.1.le x g.2) := by
  obtain ⟨hwf, -, ho, -⟩ := hlp.inv hS
  obtain ⟨h1, -, h2, h3⟩ := guardIntersection_spec hS ho hwf hg h
  refine ⟨fun x => by rw [h1], ⟨h2, fun hno => ?_⟩, fun t ht => ?_⟩
  · cases ans with
    | none => rfl
    | some t =>
      obtain ⟨c, -, -, -, ⟨x, hx⟩, -, hm⟩ := h3 t rfl
      obtain ⟨a, b⟩ := (hm x).1 hx
      exact absurd b (hno x a)
  · obtain ⟨c, -, -, -, he, -, hm⟩ := h3 t ht
    exact ⟨he, hm⟩

/-- A linear function attains its minimum over a set (true for every non-empty bounded
polyhedron). -/
def Spec.AttainsMin (r : SRow K) (X : (ℕ → K) → Prop) : Prop :=
  (∃ x, X x) → ∃ y, X y ∧ ∀ w, X w → dot r y ≤ dot r w

theorem setObjCsrLoop_accepts (r : SRow K) (off : ℕ) : ∀ lp : Lp K,
    (∀ p ∈ r, off + p.1 < lp.names.length) → ∃ lp', lp.setObjCsrLoop off r = .ok lp' := by
  induction r with
  | nil => intro lp _; exact ⟨lp, rfl⟩
  | cons p r ih =>
    intro lp h
    simp only [Lp.setObjCsrLoop]
    rw [if_pos (by have := h p (by simp); omega)]
    exact ih _ fun q hq => h q (by simp [hq])

theorem clearObj_names (lp : Lp K) : lp.clearObj.names = lp.names := by
  unfold Lp.clearObj; simp only [foldl_setObj_toSys]

/-- Optimising a row over the set succeeds if the minimum is attained. -/
theorem rowMin_accepts {S : Solver K} (hS : S.Complete) {lp : Lp K} (ho : lp.ObjInv)
    (hcur : lp.cur + lp.dims ≤ lp.numCols) {nc : ℕ} {r : SRow K} (hn : nc ≤ lp.dims)
    (hnd : (r.map fun p => p.1).Nodup) (hwf : ∀ p ∈ r, p.1 < nc) (hat : AttainsMin r lp.Mem) :
    ∃ lp1 lp2 res, lp.setMinDirCsr nc r none = .ok lp1 ∧
      minimize S lp1 none (some (r.map fun p => lp1.cur + p.1)) false = .ok (lp2, res) := by
  have hlt : ∀ p ∈ r, lp.cur + p.1 < lp.numCols := fun p hp => by
    have := hwf p hp; omega
  obtain ⟨lp1, h1⟩ : ∃ lp1, lp.setMinDirCsr nc r none = .ok lp1 := by
    unfold Lp.setMinDirCsr
    simp only [if_pos hn]
    exact setObjCsrLoop_accepts r lp.cur _ (by rw [clearObj_names]; exact hlt)
  obtain ⟨ho1, hs1, -, hov⟩ := setMinDirCsr_spec h1 ho
  have hov := (hov hnd).2
  simp only [Option.getD_none] at hov
  have hdot : ∀ v x : ℕ → K, (∀ i < lp.dims, v (lp.cur + i) = x i) →
      dot r (fun j => v (lp.cur + j)) = dot r x := fun v x hx =>
    dot_congr fun p hp => hx _ (lt_of_lt_of_le (hwf p hp) hn)
  refine ⟨lp1, ?_⟩
  by_cases hex : ∃ v, lp1.Sat v
  · obtain ⟨v, hv⟩ := hex
    rw [hs1] at hv
    obtain ⟨y, ⟨w, hw, hwy⟩, hmin⟩ := hat ⟨fun i => v (lp.cur + i), v, hv, fun _ _ => rfl⟩
    obtain ⟨lp2, l, hm⟩ := minimize_complete hS (f := false) (dir := none)
      (columns := some (r.map fun p => lp1.cur + p.1)) (show setDirOpt lp1 none = .ok lp1 from rfl)
      (by
        rintro cs ⟨⟩ c hc
        obtain ⟨p, hp, rfl⟩ := List.mem_map.1 hc
        rw [hs1]; exact hlt p hp)
      ⟨w, by rw [hs1]; exact hw, fun u hu => by
        rw [hov, hov, hdot w y hwy]
        rw [hs1] at hu
        exact hmin _ ⟨u, hu, fun _ _ => rfl⟩⟩
    exact ⟨lp2, some l, h1, hm⟩
  · have h := hS.nofeas_if lp1 false (by rintro v hv; exact hex ⟨v, hv⟩)
    refine ⟨{ lp1 with ws := (S.run lp1 false).ws }, none, h1, ?_⟩
    unfold minimize minimizeOnce
    simp only [setDirOpt, solveRetry_ok h.1]
    unfold processSimplex
    simp only [h.1, h.2]
    simp only [Bool.false_eq_true, if_false]

/-- `is_feasible` succeeds if the current objective attains its minimum. -/
theorem isFeasible_accepts {S : Solver K} (hS : S.Complete) {lp : Lp K}
    (hat : (∃ v, lp.Sat v) → ∃ v, lp.Sat v ∧ ∀ w, lp.Sat w → lp.objVal v ≤ lp.objVal w) :
    ∃ lp' b, isFeasible S lp = .ok (lp', b) := by
  by_cases hf : ∃ v, lp.Sat v
  · obtain ⟨lp', l, hm⟩ := minimize_complete hS (f := false) (columns := some [])
      (show setDirOpt lp none = .ok lp from rfl) (by intro cs hcs; cases hcs; simp) (hat hf)
    exact ⟨lp', true, by simp [isFeasible, hm]⟩
  · have h := hS.nofeas_if lp false (by rintro v hv; exact hf ⟨v, hv⟩)
    refine ⟨{ lp with ws := (S.run lp false).ws }, false, ?_⟩
    unfold isFeasible minimize minimizeOnce
    simp only [setDirOpt, solveRetry_ok h.1]
    unfold processSimplex
    simp only [h.1, h.2]
    simp only [Bool.false_eq_true, if_false, Option.isSome_none]


theorem minimize_obj {S : Solver K} (hS : S.Honest) {lp lp' : Lp K} {columns : Option (List ℕ)}
    {r : Option (List K)} (h : minimize S lp none columns false = .ok (lp', r)) :
    lp'.obj = lp.obj := by
  unfold minimize at h
  cases hm : minimizeOnce S lp none columns with
  | error e => rw [hm] at h; cases h
  | ok p =>
    obtain ⟨lp1, r1⟩ := p
    rw [hm] at h
    obtain ⟨lp2, hd, hsame, -⟩ := minimizeOnce_spec hS hm
    cases hd
    cases r1 <;> (simp only [Bool.false_eq_true, if_false, Except.ok.injEq, Prod.mk.injEq] at h
                  obtain ⟨rfl, -⟩ := h
                  exact hsame.2.1.symm)

theorem guardRowsLoop_accepts {S : Solver K} (hS : S.Complete) {nc : ℕ} (rows : List (SRow K × K))
    (hwf : ∀ q ∈ rows, ∀ p ∈ q.1, p.1 < nc)
    (hnd : ∀ q ∈ rows, (q.1.map fun p => p.1).Nodup) :
    ∀ {lp : Lp K}, lp.ObjInv → lp.cur + lp.dims ≤ lp.numCols → nc ≤ lp.dims →
    (∀ q ∈ rows, AttainsMin q.1 lp.Mem) →
    ∃ lp' b, guardRowsLoop S lp nc rows = .ok (lp', b) ∧
      (b = true → rows ≠ [] → ∃ q ∈ rows, ∀ v, lp'.objVal v = dot q.1 fun j => v (lp.cur + j)) := by
  induction rows with
  | nil => intro lp _ _ _ _; exact ⟨lp, true, rfl, by simp⟩
  | cons q rows ih =>
    obtain ⟨r, c⟩ := q
    intro lp ho hcur hn hat
    obtain ⟨lp1, lp2, res, hd, hm⟩ := rowMin_accepts hS ho hcur hn (hnd (r, c) (by simp))
      (hwf (r, c) (by simp)) (hat (r, c) (by simp))
    obtain ⟨h1, h2, -⟩ := rowMin_spec hS.toHonest ho (hnd (r, c) (by simp))
      (hwf (r, c) (by simp)) hd hm
    obtain ⟨-, hs1, -, hov⟩ := setMinDirCsr_spec hd ho
    have hov := (hov (hnd (r, c) (by simp))).2
    have hob := minimize_obj hS.toHonest hm
    simp only [guardRowsLoop, hd, bind, Except.bind, hm]
    cases res with
    | none => exact ⟨_, _, rfl, by simp⟩
    | some l =>
      simp only
      split
      · exact ⟨_, _, rfl, by simp⟩
      · obtain ⟨lp', b, hl, hb⟩ := ih (fun q hq => hwf q (by simp [hq]))
          (fun q hq => hnd q (by simp [hq])) h2 (by simp only [Sys.numCols]; rw [h1]; exact hcur)
          (by rw [h1]; exact hn) (fun q hq => by rw [h1]; exact hat q (by simp [hq]))
        refine ⟨lp', b, hl, fun hbt _ => ?_⟩
        by_cases hne : rows = []
        · subst hne
          simp only [guardRowsLoop, Except.ok.injEq, Prod.mk.injEq] at hl
          obtain ⟨rfl, -⟩ := hl
          refine ⟨(r, c), by simp, fun v => ?_⟩
          have := hov v
          simp only [Option.getD_none] at this
          rw [← this]
          unfold Lp.objVal Sys.numCols
          rw [h1, hs1, hob]
        · obtain ⟨q, hq, hv⟩ := hb hbt hne
          refine ⟨q, by simp [hq], fun v => ?_⟩
          rw [hv, h1]

/-- **C11**, acceptance: `get_guard_intersection` returns normally whenever the solver is
complete, the guard fits the variables and the minima involved are attained. -/
theorem C11_guard_intersection_accepts {S : Solver K} (hS : S.Complete) {lp : Lp K}
    (hlp : Inst S lp true) {g : Csr K × List K} (hg : GuardOk g) (hne : g.1.rows ≠ [])
    (hn : g.1.ncols ≤ lp.dims) (hat : ∀ r ∈ g.1.rows, AttainsMin r lp.Mem)
    (hat2 : ∀ r ∈ g.1.rows, AttainsMin r fun x => lp.Mem x ∧ g.1.le x g.2) :
    ∃ lp' ans, guardIntersection S lp g = .ok (lp', ans) := by
  obtain ⟨hwf, hcur, ho, hsh⟩ := hlp.inv hS.toHonest
  obtain ⟨B, X, R, hsh⟩ := hsh rfl
  have hw : ∀ q ∈ g.1.rows.zip g.2, ∀ p ∈ q.1, p.1 < g.1.ncols :=
    fun q hq p hp => hg.wf q.1 (List.of_mem_zip hq).1 p hp
  have hnd : ∀ q ∈ g.1.rows.zip g.2, (q.1.map fun p => p.1).Nodup :=
    fun q hq => hg.nodup q.1 (List.of_mem_zip hq).1
  obtain ⟨lp1, b, hl, hb⟩ := guardRowsLoop_accepts hS (g.1.rows.zip g.2) hw hnd ho hcur hn
    fun q hq => hat q.1 (List.of_mem_zip hq).1
  obtain ⟨h1, h2, -⟩ := guardRowsLoop_spec hS.toHonest (g.1.rows.zip g.2) hw hnd ho hl
  unfold guardIntersection
  have hle : g.1.rows.length ≤ g.2.length := le_of_eq hg.len
  simp only [need, Csr.nrows, hle, if_true, hl, bind, Except.bind]
  cases b with
  | false => exact ⟨_, _, rfl⟩
  | true =>
    simp only [if_true]
    obtain ⟨c, hc⟩ : ∃ c, lp1.clone = .ok c := by
      rw [← h1] at hsh
      unfold Lp.clone Sys.setReachVars
      have a1 := hsh.rowsLe
      have a2 := hsh.colsLe
      have a3 := hsh.curLe
      rw [if_pos]
      · exact ⟨_, rfl⟩
      · refine ⟨a1, ?_, ?_⟩
        · unfold Sys.blockLen at a3; split at a3 <;> omega
        · cases hie : lp1.ie with
          | none => rfl
          | some p =>
            have a4 := hsh.iePos p hie
            unfold Sys.blockLen at a3
            simp only [hie, Option.isSome_some, if_true] at a3
            simp only [ieFits, Bool.and_eq_true, decide_eq_true_eq]
            omega
    have hcc := clone_ok hc
    have e1 : c.cur = lp.cur ∧ c.dims = lp.dims ∧ c.numCols = lp.numCols := by
      rw [hcc]; simp only [Sys.numCols]; rw [← h1]; exact ⟨rfl, rfl, rfl⟩
    obtain ⟨s, hs⟩ : ∃ s, addCurtimeConstraints c.toSys g.1 g.2 = .ok s := by
      unfold addCurtimeConstraints Sys.setCsr
      rw [if_neg]
      · exact ⟨_, rfl⟩
      · simp only [Sys.addRowsLE, Sys.numRows, List.length_append, List.length_map, hg.len]
        have := e1.2.2
        simp only [Sys.numCols] at this ⊢
        rw [this, e1.1]
        simp only [Sys.numCols] at hcur
        omega
    simp only [hc, hs]
    have hcw : c.WF := by rw [hcc]; rw [← h1] at hwf; exact hwf
    have hmem := addCurtimeConstraints_mem hs hg.len hg.wf (by rw [e1.2.1]; exact hn) hcw
    obtain ⟨-, hsv, hsn, -⟩ := addCurtimeConstraints_ok hs hg.len hg.wf hcw
    have hcm : ∀ x, c.Mem x ↔ lp.Mem x := by intro x; rw [hcc, ← h1]; rfl
    obtain ⟨lpf, bf, hf⟩ := isFeasible_accepts hS (lp := { c with toSys := s }) (by
      rintro ⟨v, hv⟩
      obtain ⟨q, hq, hobj⟩ := hb rfl (by
        intro hz
        have : (g.1.rows.zip g.2).length = g.1.rows.length := by
          rw [List.length_zip, hg.len]; simp
        rw [hz] at this
        exact hne (List.eq_nil_of_length_eq_zero this.symm))
      have hobj' : ∀ v, ({ c with toSys := s } : Lp K).objVal v = dot q.1 fun j => v (lp.cur + j) := by
        intro v
        rw [← hobj v]
        unfold Lp.objVal Sys.numCols
        simp only
        rw [hsn, hcc]
      have hq1 := (List.of_mem_zip hq).1
      have hsm : ∀ x, s.Mem x ↔ lp.Mem x ∧ g.1.le x g.2 := fun x => by rw [hmem, hcm]
      have hscur : s.cur = lp.cur := hsv.cur.trans e1.1
      have hsd : s.dims = lp.dims := hsv.dims.trans e1.2.1
      obtain ⟨y, hy, hmin⟩ := hat2 q.1 hq1 ⟨_, (hsm _).1 ⟨v, hv, fun _ _ => rfl⟩⟩
      obtain ⟨w, hw', hwy⟩ := (hsm y).2 hy
      refine ⟨w, hw', fun u hu => ?_⟩
      rw [hobj', hobj']
      have e : dot q.1 (fun j => w (lp.cur + j)) = dot q.1 y := dot_congr fun p hp => by
        rw [← hscur]; exact hwy _ (by
          have := hw q hq p hp
          rw [hsd]; omega)
      rw [e]
      exact hmin _ ((hsm _).1 ⟨u, hu, fun i _ => by rw [hscur]⟩))
    rw [hf]
    exact ⟨_, _, rfl⟩

/-- C11 on the example: the set `[-1, 3]` meets the guard `-x <= -2` in `[2, 3]` and misses
`-x <= -4`. -/
example : ∃ (lp : Lp ℚ) (lp1 lp2 t : Lp ℚ), Inst (idealSolver ℚ) lp true ∧
    guardIntersection (idealSolver ℚ) lp (⟨1, [[(0, -1)]]⟩, [-2]) = .ok (lp1, some t) ∧
    t.Mem (fun _ => 5 / 2) ∧ ¬ t.Mem (fun _ => 1) ∧
    guardIntersection (idealSolver ℚ) lp (⟨1, [[(0, -1)]]⟩, [-4]) = .ok (lp2, none) := by
  obtain ⟨lp, ρ, hH, hd, -, -, -, -, hmem⟩ := exStep
  have hC := idealSolver_complete (K := ℚ)
  have hI := Inst.hist hH
  have hgo : ∀ b : ℚ, GuardOk ((⟨1, [[(0, -1)]]⟩, [b]) : Csr ℚ × List ℚ) := by
    intro b
    refine ⟨rfl, ?_, ?_⟩
    · intro r hr p hp; simp at hr; subst hr; simp at hp; subst hp; simp
    · intro r hr; simp at hr; subst hr; simp
  have hle : ∀ (b : ℚ) (x : ℕ → ℚ), (⟨1, [[(0, -1)]]⟩ : Csr ℚ).le x [b] ↔ - x 0 ≤ b := by
    intro b x
    constructor
    · intro h; simpa [Csr.row, dot] using h 0 (by simp)
    · intro h i hi; simp at hi; subst hi; simpa [Csr.row, dot] using h
  have acc : ∀ b : ℚ, ∃ lp' ans,
      guardIntersection (idealSolver ℚ) lp (⟨1, [[(0, -1)]]⟩, [b]) = .ok (lp', ans) := by
    intro b
    refine C11_guard_intersection_accepts hC hI (hgo b) (by simp) (by rw [hd]) ?_ ?_
    · intro r hr hx; simp at hr; subst hr
      refine ⟨fun _ => 3, (hmem _).2 (by norm_num), fun w hw => ?_⟩
      have := ((hmem w).1 hw).2
      simpa [dot] using this
    · rintro r hr ⟨x, hx, hg⟩; simp at hr; subst hr
      refine ⟨fun _ => 3, ⟨(hmem _).2 (by norm_num), ?_⟩, fun w hw => ?_⟩
      · rw [hle] at hg ⊢
        have := ((hmem x).1 hx).2
        linarith
      · have := ((hmem w).1 hw.1).2
        simpa [dot] using this
  obtain ⟨lp1, a1, h1⟩ := acc (-2)
  obtain ⟨lp2, a2, h2⟩ := acc (-4)
  obtain ⟨-, n1, s1⟩ := C11_guard_intersection hC.toHonest hI (hgo (-2)) h1
  obtain ⟨-, n2, -⟩ := C11_guard_intersection hC.toHonest hI (hgo (-4)) h2
  have ha2 : a2 = none := n2.2 (by
    intro x hx; rw [hle]; have := ((hmem x).1 hx).2; intro h; linarith)
  cases a1 with
  | none =>
    exact absurd ((hle (-2) (fun _ => 3)).2 (by norm_num))
      (n1.1 rfl (fun _ => 3) ((hmem _).2 (by norm_num)))
  | some t =>
    obtain ⟨-, hm⟩ := s1 t rfl
    refine ⟨lp, lp1, lp2, t, hI, h1, (hm _).2 ⟨(hmem _).2 (by norm_num), (hle _ _).2 (by norm_num)⟩,
      ?_, by rw [← ha2]; exact h2⟩
    intro h
    have := (hle _ _).1 ((hm _).1 h).2
    norm_num at this

end Hylaa
