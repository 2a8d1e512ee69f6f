import Verif.Proofs.Reset

/-! What `minimize` returns; the objective. -/

set_option linter.unusedSectionVars false

namespace Hylaa
variable {K : Type} [Field K] [LinearOrder K]

/-- Two instances that differ at most in the warm-start state. -/
def Lp.SameProb (a b : Lp K) : Prop := a.toSys = b.toSys ∧ a.obj = b.obj ∧ a.objCols = b.objCols

theorem Lp.SameProb.refl (a : Lp K) : a.SameProb a := ⟨rfl, rfl, rfl⟩
theorem Lp.SameProb.trans {a b c : Lp K} (h : a.SameProb b) (h' : b.SameProb c) : a.SameProb c :=
  ⟨h.1.trans h'.1, h.2.1.trans h'.2.1, h.2.2.trans h'.2.2⟩
theorem Lp.SameProb.objVal {a b : Lp K} (h : a.SameProb b) (v : ℕ → K) :
    a.objVal v = b.objVal v := by
  unfold Lp.objVal Sys.numCols; rw [h.1, h.2.1]

theorem solveRetry_spec (S : Solver K) (lp : Lp K) :
    ∃ lp1 b, lp.SameProb lp1 ∧ (solveRetry S lp).1 = S.run lp1 b ∧
      lp.SameProb (solveRetry S lp).2 := by
  unfold solveRetry Solver.simplex
  by_cases h1 : (S.run lp false).code = .ok
  · simp only [h1, if_true]
    exact ⟨lp, false, Lp.SameProb.refl _, rfl, ⟨rfl, rfl, rfl⟩⟩
  · simp only [h1, if_false]
    by_cases h2 : (S.run lp false).code = .esing
    · simp only [h2, if_true]
      split
      · refine ⟨_, false, ?_, rfl, ⟨rfl, rfl, rfl⟩⟩; exact ⟨rfl, rfl, rfl⟩
      · refine ⟨_, true, ?_, rfl, ⟨rfl, rfl, rfl⟩⟩; exact ⟨rfl, rfl, rfl⟩
    · simp only [h2, if_false, h1]
      refine ⟨_, true, ?_, rfl, ⟨rfl, rfl, rfl⟩⟩; exact ⟨rfl, rfl, rfl⟩

/-- The values `minimize` returns for the requested columns. -/
def colVals (lp : Lp K) (columns : Option (List ℕ)) (v : ℕ → K) : List K :=
  match columns with
  | none => (List.range lp.numCols).map v
  | some cs => cs.map v

theorem copyColumns_ok {lp : Lp K} {columns : Option (List ℕ)} {p : ℕ → K} {l : List K}
    (h : copyColumns lp columns p = .ok l) : l = colVals lp columns p := by
  unfold copyColumns at h
  unfold colVals
  cases columns with
  | none => simp at h; exact h.symm
  | some cs =>
    simp only at h
    split at h
    · simp at h; exact h.symm
    · cases h

/-- The three possible results of one attempt, for an honest solver: an optimum, or proven
infeasibility (or an exception). -/
theorem minimizeOnce_spec {S : Solver K} (hS : S.Honest) {lp lp' : Lp K} {dir : Option (List K)}
    {columns : Option (List ℕ)} {r : Option (List K)}
    (h : minimizeOnce S lp dir columns = .ok (lp', r)) :
    ∃ lp1, setDirOpt lp dir = .ok lp1 ∧ lp1.SameProb lp' ∧
      (r = none → ∀ w, ¬ lp1.Sat w) ∧
      (∀ l, r = some l → ∃ v, lp1.Sat v ∧ (∀ w, lp1.Sat w → lp1.objVal v ≤ lp1.objVal w) ∧
        l = colVals lp1 columns v) := by
  unfold minimizeOnce at h
  cases hd : setDirOpt lp dir with
  | error e => rw [hd] at h; cases h
  | ok lp1 =>
    rw [hd] at h
    simp only at h
    obtain ⟨lp2, b, hsame, hrun, hsame2⟩ := solveRetry_spec S lp1
    generalize solveRetry S lp1 = res at *
    obtain ⟨o, lp3⟩ := res
    simp only at hrun hsame2 h
    subst hrun
    refine ⟨lp1, rfl, ?_⟩
    have hsat : ∀ w, lp1.Sat w ↔ lp2.Sat w := fun w => by rw [hsame.1]
    unfold processSimplex at h
    cases hc : (S.run lp2 b).code with
    | esing => rw [hc] at h; cases h
    | other n => rw [hc] at h; cases h
    | enopfs =>
      rw [hc] at h
      simp only [Except.ok.injEq, Prod.mk.injEq] at h
      obtain ⟨rfl, rfl⟩ := h
      refine ⟨hsame2, fun _ w hw => hS.nopfs lp2 b hc w ((hsat w).1 hw), fun l hl => by cases hl⟩
    | ok =>
      rw [hc] at h
      simp only at h
      cases hst : (S.run lp2 b).status with
      | nofeas =>
        rw [hst] at h
        simp only [Except.ok.injEq, Prod.mk.injEq] at h
        obtain ⟨rfl, rfl⟩ := h
        exact ⟨hsame2, fun _ w hw => hS.nofeas lp2 b hc hst w ((hsat w).1 hw),
          fun l hl => by cases hl⟩
      | opt =>
        rw [hst] at h
        simp only at h
        cases hcc : copyColumns lp3 columns (S.run lp2 b).prim with
        | error e => rw [hcc] at h; cases h
        | ok l =>
          rw [hcc] at h
          simp only [Except.ok.injEq, Prod.mk.injEq] at h
          obtain ⟨rfl, rfl⟩ := h
          refine ⟨hsame2, (fun hh => nomatch hh), fun l' hl' => ?_⟩
          cases hl'
          refine ⟨(S.run lp2 b).prim, (hsat _).2 (hS.opt_sat lp2 b hc hst), fun w hw => ?_, ?_⟩
          · rw [hsame.objVal, hsame.objVal]
            exact hS.opt_min lp2 b hc hst w ((hsat w).1 hw)
          · rw [copyColumns_ok hcc]
            unfold colVals
            cases columns with
            | none => simp only [Sys.numCols]; rw [hsame2.1]
            | some cs => rfl
      | feas => rw [hst] at h; cases h
      | infeas => rw [hst] at h; cases h
      | unbnd => rw [hst] at h; cases h
      | undef => rw [hst] at h; cases h

/-- `setDirOpt` ignores the warm start. -/
theorem setObjDenseLoop_ws (lp : Lp K) (w : ℕ) (c : ℕ) (d : List K) :
    ({ lp with ws := w } : Lp K).setObjDenseLoop c d =
      { lp.setObjDenseLoop c d with ws := w } := by
  induction d generalizing lp c with
  | nil => rfl
  | cons a d ih =>
    simp only [Lp.setObjDenseLoop, Lp.setObj]
    exact ih { lp with objCols := lp.objCols ++ [c], obj := Function.update lp.obj c a } (c + 1)

theorem foldl_setObj_obj (l : List ℕ) (a b : Lp K) (h : a.obj = b.obj) :
    (l.foldl (fun l j => l.setObj j 0) a).obj = (l.foldl (fun l j => l.setObj j 0) b).obj := by
  induction l generalizing a b with
  | nil => exact h
  | cons x l ih => simp only [List.foldl_cons]; exact ih _ _ (by simp [Lp.setObj, h])

theorem foldl_setObj_toSys (l : List ℕ) (a : Lp K) :
    (l.foldl (fun l j => l.setObj j 0) a).toSys = a.toSys ∧
    (l.foldl (fun l j => l.setObj j 0) a).ws = a.ws := by
  induction l generalizing a with
  | nil => exact ⟨rfl, rfl⟩
  | cons x l ih => simp only [List.foldl_cons]; exact ih _

@[simp] theorem clearObj_toSys (a : Lp K) : a.clearObj.toSys = a.toSys :=
  (foldl_setObj_toSys a.objCols a).1

theorem setObjDenseLoop_toSys (lp : Lp K) (c : ℕ) (d : List K) :
    (lp.setObjDenseLoop c d).toSys = lp.toSys := by
  induction d generalizing lp c with
  | nil => rfl
  | cons a d ih => simp only [Lp.setObjDenseLoop]; rw [ih]; rfl

theorem setMinDir_toSys {lp lp1 : Lp K} {d : List K} (h : lp.setMinDir d = .ok lp1) :
    lp1.toSys = lp.toSys ∧ d.length ≤ lp.dims := by
  unfold Lp.setMinDir at h
  split at h
  · cases h; rw [setObjDenseLoop_toSys, clearObj_toSys]; exact ⟨rfl, by assumption⟩
  · cases h

theorem setDirOpt_toSys {lp lp1 : Lp K} {d : Option (List K)} (h : setDirOpt lp d = .ok lp1) :
    lp1.toSys = lp.toSys := by
  cases d with
  | none => cases h; rfl
  | some d => exact (setMinDir_toSys h).1

/-- Every column with a non-zero objective coefficient is remembered in `obj_cols`. -/
def Lp.ObjInv (lp : Lp K) : Prop := ∀ j, lp.obj j ≠ 0 → j ∈ lp.objCols

theorem foldl_setObj_zero (l : List ℕ) (a : Lp K) (j : ℕ)
    (h : a.obj j ≠ 0 → j ∈ l) : (l.foldl (fun l j => l.setObj j 0) a).obj j = 0 := by
  induction l generalizing a with
  | nil =>
    by_contra hc; exact absurd (h hc) (by simp)
  | cons x l ih =>
    simp only [List.foldl_cons]
    apply ih
    intro hx
    simp only [Lp.setObj, Function.update_apply] at hx
    split at hx
    · exact absurd rfl hx
    · rename_i hne
      rcases List.mem_cons.1 (h hx) with h1 | h1
      · exact absurd h1 hne
      · exact h1

theorem clearObj_obj {lp : Lp K} (h : lp.ObjInv) (j : ℕ) : lp.clearObj.obj j = 0 :=
  foldl_setObj_zero lp.objCols lp j (h j)

@[simp] theorem clearObj_objCols (lp : Lp K) : lp.clearObj.objCols = [] := rfl

theorem setObjDenseLoop_obj (lp : Lp K) (c : ℕ) (d : List K) (j : ℕ) :
    (lp.setObjDenseLoop c d).obj j = if c ≤ j ∧ j < c + d.length then d.getD (j - c) 0
      else lp.obj j := by
  induction d generalizing lp c with
  | nil => simp only [Lp.setObjDenseLoop, List.length_nil]; rw [if_neg (by omega)]
  | cons a d ih =>
    simp only [Lp.setObjDenseLoop]
    rw [ih]
    simp only [Lp.setObj, Function.update_apply, List.length_cons]
    by_cases h1 : c + 1 ≤ j ∧ j < c + 1 + d.length
    · rw [if_pos h1, if_pos (by omega), show j - c = (j - (c + 1)) + 1 by omega]; simp
    · rw [if_neg h1]
      by_cases h2 : j = c
      · subst h2; rw [if_pos rfl, if_pos (by omega)]; simp
      · rw [if_neg h2, if_neg (by omega)]

theorem setObjDenseLoop_inv (lp : Lp K) (c : ℕ) (d : List K) (h : lp.ObjInv) :
    (lp.setObjDenseLoop c d).ObjInv := by
  induction d generalizing lp c with
  | nil => exact h
  | cons a d ih =>
    simp only [Lp.setObjDenseLoop]
    apply ih
    intro j hj
    simp only [Lp.setObj, Function.update_apply] at hj ⊢
    split at hj
    · rename_i h1; simp [h1]
    · exact List.mem_append_left _ (h j hj)

/-- The objective after `set_minimize_direction(d)`. -/
theorem setMinDir_obj {lp lp1 : Lp K} {d : List K} (h : lp.setMinDir d = .ok lp1)
    (hinv : lp.ObjInv) : lp1.ObjInv ∧ ∀ j, lp1.obj j =
      if lp.cur ≤ j ∧ j < lp.cur + d.length then d.getD (j - lp.cur) 0 else 0 := by
  unfold Lp.setMinDir at h
  split at h
  · cases h
    refine ⟨setObjDenseLoop_inv _ _ _ fun j hj => absurd (clearObj_obj hinv j) hj, fun j => ?_⟩
    rw [setObjDenseLoop_obj, clearObj_obj hinv]
  · cases h

theorem sum_range_block (n c m : ℕ) (f : ℕ → K) (h : c + m ≤ n) :
    (∑ j ∈ Finset.range n, if c ≤ j ∧ j < c + m then f (j - c) else 0) =
      ∑ i ∈ Finset.range m, f i := by
  rw [← Finset.sum_filter]
  symm
  refine Finset.sum_bij (fun i _ => c + i) ?_ ?_ ?_ ?_
  · intro i hi; simp only [Finset.mem_range, Finset.mem_filter] at *; omega
  · intro a _ b _ hab; omega
  · intro b hb; simp only [Finset.mem_range, Finset.mem_filter] at *
    exact ⟨b - c, by omega, by omega⟩
  · intro i _; congr 1; omega

theorem setMinDir_objVal {lp lp1 : Lp K} {d : List K} (h : lp.setMinDir d = .ok lp1)
    (hinv : lp.ObjInv) (hcur : lp.cur + lp.dims ≤ lp.numCols) (v : ℕ → K) :
    lp1.objVal v = ∑ i ∈ Finset.range d.length, d.getD i 0 * v (lp.cur + i) := by
  have hsys := setMinDir_toSys h
  have hobj := (setMinDir_obj h hinv).2
  unfold Lp.objVal
  have hn : lp1.numCols = lp.numCols := by unfold Sys.numCols; rw [hsys.1]
  rw [hn]
  rw [← sum_range_block lp.numCols lp.cur d.length (fun i => d.getD i 0 * v (lp.cur + i))
    (by have := hsys.2; omega)]
  apply Finset.sum_congr rfl
  intro j _
  rw [hobj j]
  split
  · rename_i hj; rw [show lp.cur + (j - lp.cur) = j by omega]
  · ring

/-! csr directions -/

theorem setObjCsrLoop_spec {lp lp1 : Lp K} {o : ℕ} {r : SRow K}
    (h : lp.setObjCsrLoop o r = .ok lp1) (hinv : lp.ObjInv) :
    lp1.ObjInv ∧ lp1.toSys = lp.toSys ∧ (∀ p ∈ r, o + p.1 < lp.numCols) ∧
    ((r.map fun p => p.1).Nodup → ∀ j, lp1.obj j = if ∃ p ∈ r, o + p.1 = j then coefAt r (j - o)
      else lp.obj j) := by
  induction r generalizing lp with
  | nil => cases h; exact ⟨hinv, rfl, by simp, fun _ j => by simp⟩
  | cons p r ih =>
    simp only [Lp.setObjCsrLoop] at h
    split at h
    · rename_i hp
      have hi' : (({ lp with objCols := lp.objCols ++ [o + p.1] } : Lp K).setObj (o + p.1)
          p.2).ObjInv := by
        intro j hj
        simp only [Lp.setObj, Function.update_apply] at hj ⊢
        split at hj
        · rename_i h1; simp [h1]
        · exact List.mem_append_left _ (hinv j hj)
      obtain ⟨h1, h2, h3, h4⟩ := ih h hi'
      refine ⟨h1, h2, ?_, ?_⟩
      · intro q hq
        rcases List.mem_cons.1 hq with rfl | hq
        · unfold Sys.numCols; omega
        · exact h3 q hq
      · intro hnd j
        rw [List.map_cons, List.nodup_cons] at hnd
        rw [h4 hnd.2 j]
        by_cases hex : ∃ q ∈ r, o + q.1 = j
        · rw [if_pos hex, if_pos (by obtain ⟨q, hq, hqj⟩ := hex; exact ⟨q, by simp [hq], hqj⟩)]
          rw [coefAt_cons, if_neg, zero_add]
          obtain ⟨q, hq, hqj⟩ := hex
          intro hpj
          exact hnd.1 (List.mem_map.2 ⟨q, hq, by omega⟩)
        · rw [if_neg hex]
          simp only [Lp.setObj, Function.update_apply]
          by_cases hpj : j = o + p.1
          · rw [if_pos hpj, if_pos ⟨p, by simp, hpj.symm⟩, coefAt_cons, if_pos (by omega)]
            rw [coefAt_eq_zero, add_zero]
            intro q hq hqj
            exact hex ⟨q, hq, by omega⟩
          · rw [if_neg hpj, if_neg]
            rintro ⟨q, hq, hqj⟩
            rcases List.mem_cons.1 hq with rfl | hq
            · exact hpj hqj.symm
            · exact hex ⟨q, hq, hqj⟩
    · cases h

theorem setMinDirCsr_spec {lp lp1 : Lp K} {nc : ℕ} {r : SRow K} {off : Option ℕ}
    (h : lp.setMinDirCsr nc r off = .ok lp1) (hinv : lp.ObjInv) :
    lp1.ObjInv ∧ lp1.toSys = lp.toSys ∧
    (∀ p ∈ r, off.getD lp.cur + p.1 < lp.numCols) ∧
    ((r.map fun p => p.1).Nodup → (∀ j, lp1.obj j =
      if off.getD lp.cur ≤ j then coefAt r (j - off.getD lp.cur) else 0) ∧
      ∀ v, lp1.objVal v = dot r fun j => v (off.getD lp.cur + j)) := by
  have hcl : lp.clearObj.ObjInv := fun j hj => absurd (clearObj_obj hinv j) hj
  have main : ∀ o, lp.clearObj.setObjCsrLoop o r = .ok lp1 → lp1.ObjInv ∧ lp1.toSys = lp.toSys ∧
    (∀ p ∈ r, o + p.1 < lp.numCols) ∧
    ((r.map fun p => p.1).Nodup → (∀ j, lp1.obj j =
      if o ≤ j then coefAt r (j - o) else 0) ∧
      ∀ v, lp1.objVal v = dot r fun j => v (o + j)) := by
    intro o ho
    obtain ⟨h1, h2, h3, h4⟩ := setObjCsrLoop_spec ho hcl
    rw [clearObj_toSys] at h2
    have h3' : ∀ p ∈ r, o + p.1 < lp.numCols := by simpa using h3
    refine ⟨h1, h2, h3', fun hnd => ?_⟩
    have hobj : ∀ j, lp1.obj j = if o ≤ j then coefAt r (j - o) else 0 := by
      intro j
      rw [h4 hnd j, clearObj_obj hinv]
      by_cases hex : ∃ p ∈ r, o + p.1 = j
      · rw [if_pos hex, if_pos]; obtain ⟨p, _, hp⟩ := hex; omega
      · rw [if_neg hex]
        split
        · rw [coefAt_eq_zero]
          intro p hp hpj; exact hex ⟨p, hp, by omega⟩
        · rfl
    refine ⟨hobj, fun v => ?_⟩
    have hn : lp1.numCols = lp.numCols := by unfold Sys.numCols; rw [h2]
    unfold Lp.objVal
    rw [hn]
    have hdot : dot r (fun j => v (o + j)) = dot (shiftRow o r) v := (dot_shiftRow o r v).symm
    rw [hdot, dot_eq_sum_coefAt (n := lp.numCols)]
    · apply Finset.sum_congr rfl
      intro j _
      rw [hobj, coefAt_shiftRow]
    · intro p hp
      simp only [shiftRow, List.mem_map] at hp
      obtain ⟨q, hq, rfl⟩ := hp
      exact h3' q hq
  unfold Lp.setMinDirCsr at h
  cases off with
  | none =>
    simp only at h
    split at h
    · exact main _ h
    · cases h
  | some o =>
    simp only at h
    split at h
    · exact main _ h
    · cases h

/-- `minimize` for an honest solver. -/
theorem minimize_spec {S : Solver K} (hS : S.Honest) {lp lp' : Lp K} {dir : Option (List K)}
    {columns : Option (List ℕ)} {f : Bool} {r : Option (List K)}
    (h : minimize S lp dir columns f = .ok (lp', r)) (hinv : lp.ObjInv) :
    lp'.toSys = lp.toSys ∧ lp'.ObjInv ∧ (f = true → r ≠ none) ∧
      (r = none → ∀ w, ¬ lp.Sat w) ∧
      (∀ l, r = some l → ∃ v, lp.Sat v ∧ l = colVals lp columns v ∧
        (dir = none → ∀ w, lp.Sat w → lp.objVal v ≤ lp.objVal w) ∧
        (∀ d, dir = some d → lp.cur + lp.dims ≤ lp.numCols → ∀ w, lp.Sat w →
          (∑ i ∈ Finset.range d.length, d.getD i 0 * v (lp.cur + i)) ≤
          ∑ i ∈ Finset.range d.length, d.getD i 0 * w (lp.cur + i))) := by
  have key : ∀ (lpa lpb : Lp K) (q : Option (List K)), lpa.ObjInv → lpa.toSys = lp.toSys →
      (dir = none → lpa.obj = lp.obj) →
      minimizeOnce S lpa dir columns = .ok (lpb, q) →
      lpb.toSys = lp.toSys ∧ lpb.ObjInv ∧ (dir = none → lpb.obj = lp.obj) ∧
      (q = none → ∀ w, ¬ lp.Sat w) ∧
      (∀ l, q = some l → ∃ v, lp.Sat v ∧ l = colVals lp columns v ∧
        (dir = none → ∀ w, lp.Sat w → lp.objVal v ≤ lp.objVal w) ∧
        (∀ d, dir = some d → lp.cur + lp.dims ≤ lp.numCols → ∀ w, lp.Sat w →
          (∑ i ∈ Finset.range d.length, d.getD i 0 * v (lp.cur + i)) ≤
          ∑ i ∈ Finset.range d.length, d.getD i 0 * w (lp.cur + i))) := by
    intro lpa lpb q hia hsa hoa hm
    obtain ⟨lp1, hd, hsame, hnone, hsome⟩ := minimizeOnce_spec hS hm
    have hsys1 : lp1.toSys = lp.toSys := (setDirOpt_toSys hd).trans hsa
    have hinv1 : lp1.ObjInv := by
      cases dir with
      | none => cases hd; exact hia
      | some d => exact (setMinDir_obj hd hia).1
    have hobj1 : dir = none → lp1.obj = lp.obj := by
      rintro rfl; cases hd; exact hoa rfl
    refine ⟨hsame.1.symm.trans hsys1, ?_, ?_, ?_, ?_⟩
    · intro j hj; rw [← hsame.2.1] at hj; rw [← hsame.2.2]; exact hinv1 j hj
    · intro hdn; rw [← hsame.2.1]; exact hobj1 hdn
    · intro hq w hw; exact hnone hq w (by rw [hsys1]; exact hw)
    · intro l hl
      obtain ⟨v, hv, hmin, hlv⟩ := hsome l hl
      refine ⟨v, by rw [← hsys1]; exact hv, ?_, ?_, ?_⟩
      · rw [hlv]; unfold colVals Sys.numCols; rw [hsys1]
      · intro hdn w hw
        have := hmin w (by rw [hsys1]; exact hw)
        have e : ∀ u, lp1.objVal u = lp.objVal u := by
          intro u; unfold Lp.objVal Sys.numCols; rw [hsys1, hobj1 hdn]
        rwa [e, e] at this
      · rintro d rfl hcur w hw
        have := hmin w (by rw [hsys1]; exact hw)
        have hc : lpa.cur + lpa.dims ≤ lpa.numCols := by
          unfold Sys.numCols; rw [hsa]; exact hcur
        rw [setMinDir_objVal hd hia hc, setMinDir_objVal hd hia hc] at this
        have e : lpa.cur = lp.cur := by rw [hsa]
        rwa [e] at this
  unfold minimize at h
  cases hm : minimizeOnce S lp dir columns with
  | error e => rw [hm] at h; cases h
  | ok res =>
    obtain ⟨lpb, q⟩ := res
    have hk := key lp lpb q hinv rfl (fun _ => rfl) hm
    rw [hm] at h
    cases q with
    | some l =>
      simp only [Except.ok.injEq, Prod.mk.injEq] at h
      obtain ⟨rfl, rfl⟩ := h
      exact ⟨hk.1, hk.2.1, by simp, hk.2.2.2.1, hk.2.2.2.2⟩
    | none =>
      simp only at h
      split at h
      · rename_i hf
        cases hm2 : minimizeOnce S { lpb with ws := S.cpxBasis lpb } dir columns with
        | error e => rw [hm2] at h; cases h
        | ok res2 =>
          obtain ⟨lpc, q2⟩ := res2
          have hk2 := key { lpb with ws := S.cpxBasis lpb } lpc q2 hk.2.1 hk.1 hk.2.2.1 hm2
          rw [hm2] at h
          cases q2 with
          | none => cases h
          | some l =>
            simp only [Except.ok.injEq, Prod.mk.injEq] at h
            obtain ⟨rfl, rfl⟩ := h
            exact ⟨hk2.1, hk2.2.1, by simp, hk2.2.2.2.1, hk2.2.2.2.2⟩
      · rename_i hf
        simp only [Except.ok.injEq, Prod.mk.injEq] at h
        obtain ⟨rfl, rfl⟩ := h
        exact ⟨hk.1, hk.2.1, fun hh => absurd hh hf, hk.2.2.2.1, hk.2.2.2.2⟩

/-- `is_feasible` for an honest solver. -/
theorem isFeasible_spec {S : Solver K} (hS : S.Honest) {lp lp' : Lp K} {b : Bool}
    (h : isFeasible S lp = .ok (lp', b)) (hinv : lp.ObjInv) :
    lp'.toSys = lp.toSys ∧ lp'.ObjInv ∧ (b = true ↔ ∃ v, lp.Sat v) := by
  unfold isFeasible at h
  cases hm : minimize S lp none (some []) false with
  | error e => rw [hm] at h; cases h
  | ok res =>
    obtain ⟨lp1, r⟩ := res
    rw [hm] at h
    simp only [Except.ok.injEq, Prod.mk.injEq] at h
    obtain ⟨rfl, rfl⟩ := h
    obtain ⟨h1, h2, -, h4, h5⟩ := minimize_spec hS hm hinv
    refine ⟨h1, h2, ?_⟩
    cases r with
    | none => simp; exact h4 rfl
    | some l =>
      obtain ⟨v, hv, _⟩ := h5 l rfl
      simp; exact ⟨v, hv⟩

/-- A solver that always answers: the optimum if there is one, "no feasible solution" if the
problem is infeasible. -/
structure Solver.Complete (S : Solver K) : Prop extends S.Honest where
  opt_if : ∀ lp b, (∃ v, lp.Sat v ∧ ∀ w, lp.Sat w → lp.objVal v ≤ lp.objVal w) →
    (S.run lp b).code = .ok ∧ (S.run lp b).status = .opt
  nofeas_if : ∀ lp b, (∀ v, ¬ lp.Sat v) → (S.run lp b).code = .ok ∧ (S.run lp b).status = .nofeas

open Classical in
/-- An ideal LP solver (exists classically; used only to show that the hypotheses on solvers can
be met). -/
noncomputable def idealSolver (K : Type) [Field K] [LinearOrder K] : Solver K where
  run lp _ :=
    if h : ∃ v, lp.Sat v ∧ ∀ w, lp.Sat w → lp.objVal v ≤ lp.objVal w then
      ⟨.ok, .opt, h.choose, lp.ws + 1⟩
    else if ∃ v, lp.Sat v then ⟨.ok, .unbnd, fun _ => 0, lp.ws + 1⟩
    else ⟨.ok, .nofeas, fun _ => 0, lp.ws + 1⟩
  stdBasis _ := 0
  cpxBasis _ := 0

theorem idealSolver_complete : (idealSolver K).Complete where
  opt_sat := by
    intro lp b hc hs
    by_cases h : ∃ v, lp.Sat v ∧ ∀ w, lp.Sat w → lp.objVal v ≤ lp.objVal w
    · simp only [idealSolver, dif_pos h]; exact h.choose_spec.1
    · by_cases h2 : ∃ v, lp.Sat v
      · simp [idealSolver, dif_neg h, if_pos h2] at hs
      · simp [idealSolver, dif_neg h, if_neg h2] at hs
  opt_min := by
    intro lp b hc hs
    by_cases h : ∃ v, lp.Sat v ∧ ∀ w, lp.Sat w → lp.objVal v ≤ lp.objVal w
    · simp only [idealSolver, dif_pos h]; exact h.choose_spec.2
    · by_cases h2 : ∃ v, lp.Sat v
      · simp [idealSolver, dif_neg h, if_pos h2] at hs
      · simp [idealSolver, dif_neg h, if_neg h2] at hs
  nofeas := by
    intro lp b hc hs w hw
    by_cases h : ∃ v, lp.Sat v ∧ ∀ w, lp.Sat w → lp.objVal v ≤ lp.objVal w
    · simp [idealSolver, dif_pos h] at hs
    · simp [idealSolver, dif_neg h, if_pos (⟨w, hw⟩ : ∃ v, lp.Sat v)] at hs
  nopfs := by
    intro lp b hc w hw
    by_cases h : ∃ v, lp.Sat v ∧ ∀ w, lp.Sat w → lp.objVal v ≤ lp.objVal w
    · simp [idealSolver, dif_pos h] at hc
    · simp [idealSolver, dif_neg h, if_pos (⟨w, hw⟩ : ∃ v, lp.Sat v)] at hc
  opt_if := by
    intro lp b h
    simp only [idealSolver, dif_pos h]; exact ⟨trivial, trivial⟩
  nofeas_if := by
    intro lp b h
    have h1 : ¬ ∃ v, lp.Sat v ∧ ∀ w, lp.Sat w → lp.objVal v ≤ lp.objVal w := by
      rintro ⟨v, hv, _⟩; exact h v hv
    have h2 : ¬ ∃ v, lp.Sat v := by rintro ⟨v, hv⟩; exact h v hv
    simp only [idealSolver, dif_neg h1, if_neg h2]; exact ⟨trivial, trivial⟩

theorem solveRetry_ok {S : Solver K} {lp : Lp K} (h : (S.run lp false).code = .ok) :
    solveRetry S lp = (S.run lp false, { lp with ws := (S.run lp false).ws }) := by
  unfold solveRetry Solver.simplex
  simp [h]

theorem copyColumns_of_lt {lp : Lp K} {columns : Option (List ℕ)} {p : ℕ → K}
    (h : ∀ cs, columns = some cs → ∀ c ∈ cs, c < lp.numCols) :
    copyColumns lp columns p = .ok (colVals lp columns p) := by
  unfold copyColumns colVals
  cases columns with
  | none => rfl
  | some cs =>
    simp only
    rw [if_pos]
    simp; exact fun c hc => h cs rfl c hc

/-- A complete solver never makes `minimize` fail on a problem with an optimum or without
solution. -/
theorem minimize_complete {S : Solver K} (hS : S.Complete) {lp lp1 : Lp K} {dir : Option (List K)}
    {columns : Option (List ℕ)} {f : Bool} (hd : setDirOpt lp dir = .ok lp1)
    (hc : ∀ cs, columns = some cs → ∀ c ∈ cs, c < lp.numCols)
    (hopt : ∃ v, lp1.Sat v ∧ ∀ w, lp1.Sat w → lp1.objVal v ≤ lp1.objVal w) :
    ∃ lp' l, minimize S lp dir columns f = .ok (lp', some l) := by
  have h := hS.opt_if lp1 false hopt
  have hn : ({ lp1 with ws := (S.run lp1 false).ws } : Lp K).numCols = lp.numCols := by
    unfold Sys.numCols; rw [← setDirOpt_toSys hd]
  refine ⟨{ lp1 with ws := (S.run lp1 false).ws },
    colVals { lp1 with ws := (S.run lp1 false).ws } columns (S.run lp1 false).prim, ?_⟩
  unfold minimize minimizeOnce
  rw [hd]
  simp only [solveRetry_ok h.1]
  unfold processSimplex
  simp only [h.1, h.2]
  rw [copyColumns_of_lt (by rw [hn]; exact hc)]

/-- A complete solver decides feasibility. -/
theorem isFeasible_complete {S : Solver K} (hS : S.Complete) {lp : Lp K}
    (hobj : ∀ j, lp.obj j = 0) :
    ∃ lp' b, isFeasible S lp = .ok (lp', b) ∧ (b = true ↔ ∃ v, lp.Sat v) := by
  have hinv : lp.ObjInv := fun j hj => absurd (hobj j) hj
  by_cases hf : ∃ v, lp.Sat v
  · obtain ⟨v, hv⟩ := hf
    have : ∀ w, lp.objVal w = 0 := by intro w; simp [Lp.objVal, hobj]
    obtain ⟨lp', l, hm⟩ := minimize_complete hS (f := false) (columns := some [])
      (show setDirOpt lp none = .ok lp from rfl) (by intro cs hcs; cases hcs; simp)
      ⟨v, hv, fun w _ => by rw [this, this]⟩
    refine ⟨lp', true, by simp [isFeasible, hm], by simp; exact ⟨v, hv⟩⟩
  · have h := hS.nofeas_if lp false (by rintro v hv; exact hf ⟨v, hv⟩)
    refine ⟨{ lp with ws := (S.run lp false).ws }, false, ?_, by simpa using hf⟩
    · unfold isFeasible minimize minimizeOnce
      simp only [setDirOpt, solveRetry_ok h.1]
      unfold processSimplex
      simp only [h.1, h.2]
      simp only [Bool.false_eq_true, if_false, Option.isSome_none]

end Hylaa
