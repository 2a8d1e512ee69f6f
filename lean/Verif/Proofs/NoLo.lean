import Verif.Proofs.StateSet
import Verif.Proofs.SatL

/-! Row types: no operation of the reachability computation creates a `GLP_LO` row. -/

set_option linter.unusedSectionVars false

namespace Hylaa
open Spec
variable {K : Type} [Field K] [LinearOrder K]

theorem Sys.noLo_iff (s : Sys K) : s.NoLo ↔ RowType.lo ∉ s.getTypes := by
  simp [Sys.NoLo, Sys.getTypes]

theorem Sys.NoLo.of_types {s s' : Sys K} (h : s.NoLo) (he : ∀ t ∈ s'.getTypes, t ∈ s.getTypes ∨ t ≠ .lo) :
    s'.NoLo := by
  rw [Sys.noLo_iff] at *
  intro hm
  rcases he _ hm with h1 | h1
  · exact h h1
  · exact h1 rfl

theorem setMatRow_types (s : Sys K) (i : ℕ) (c : SRow K) : (s.setMatRow i c).getTypes = s.getTypes := by
  simp only [Sys.getTypes, Sys.setMatRow]
  apply List.ext_getElem?
  intro j
  simp only [List.getElem?_map, List.getElem?_modify]
  cases s.rows[j]? with
  | none => rfl
  | some r => by_cases h : i = j <;> simp [h]

theorem setCsrLoop_types (rows : List (SRow K)) : ∀ (s : Sys K) (r0 c0 : ℕ),
    (s.setCsrLoop rows r0 c0).getTypes = s.getTypes := by
  induction rows with
  | nil => intro s r0 c0; rfl
  | cons r rs ih => intro s r0 c0; rw [Sys.setCsrLoop, ih, setMatRow_types]

theorem setMatCol_types (s : Sys K) (j : ℕ) (c : SRow K) : (s.setMatCol j c).getTypes = s.getTypes := by
  simp only [Sys.getTypes, Sys.setMatCol]
  apply List.ext_getElem <;> simp

theorem setCscLoop_types (cols : List (SRow K)) : ∀ (s : Sys K) (r0 c0 : ℕ),
    (s.setCscLoop cols r0 c0).getTypes = s.getTypes := by
  induction cols with
  | nil => intro s r0 c0; rfl
  | cons r rs ih => intro s r0 c0; rw [Sys.setCscLoop, ih, setMatCol_types]

theorem setCsr_types {s s' : Sys K} {c : Csr K} {off : ℕ × ℕ} (h : s.setCsr c off = .ok s') :
    s'.getTypes = s.getTypes := by
  unfold Sys.setCsr at h
  split at h
  · cases h
  · cases h; exact setCsrLoop_types _ _ _ _

theorem setCsc_types {s s' : Sys K} {c : Csc K} {off : ℕ × ℕ} (h : s.setCsc c off = .ok s') :
    s'.getTypes = s.getTypes := by
  unfold Sys.setCsc at h
  split at h
  · cases h
  · cases h; exact setCscLoop_types _ _ _ _

theorem addRowsLE_types (s : Sys K) (rhs : List K) :
    (s.addRowsLE rhs).getTypes = s.getTypes ++ rhs.map fun _ => .up := by
  simp only [Sys.getTypes, Sys.addRowsLE, List.map_append, List.map_map]
  rfl

theorem addRowsEqZero_types (s : Sys K) (n : ℕ) :
    (s.addRowsEqZero n).getTypes = s.getTypes ++ List.replicate n .fx := by
  simp [Sys.getTypes, Sys.addRowsEqZero]

theorem setReachVars_types {s s' : Sys K} {d : ℕ} {b : ℕ × ℕ} {c : ℕ} {ie : Option (ℕ × ℕ)}
    (h : s.setReachVars d b c ie = .ok s') : s'.getTypes = s.getTypes := by
  unfold Sys.setReachVars at h
  split at h
  · cases h; rfl
  · cases h

theorem setMinDirCsr_toSys {lp lp1 : Lp K} {nc : ℕ} {r : SRow K} {off : Option ℕ}
    (h : lp.setMinDirCsr nc r off = .ok lp1) : lp1.toSys = lp.toSys := by
  have key : ∀ (r : SRow K) (a b : Lp K) (o : ℕ), a.setObjCsrLoop o r = .ok b → b.toSys = a.toSys := by
    intro r
    induction r with
    | nil => intro a b o h; cases h; rfl
    | cons p r ih =>
      intro a b o h
      unfold Lp.setObjCsrLoop at h
      split at h
      · exact (ih _ _ _ h).trans rfl
      · cases h
  unfold Lp.setMinDirCsr at h
  cases off with
  | none =>
    simp only at h
    split at h
    · exact (key _ _ _ _ h).trans (clearObj_toSys _)
    · cases h
  | some o =>
    simp only at h
    split at h
    · exact (key _ _ _ _ h).trans (clearObj_toSys _)
    · cases h

theorem setBasisMatrix_types {s s' : Sys K} {m : Mat K} (h : setBasisMatrix s m = .ok s') :
    s'.getTypes = s.getTypes := by
  simp only [setBasisMatrix, bind_ok, pure_ok] at h
  obtain ⟨_, -, _, -, rfl⟩ := h
  exact setCsrLoop_types _ _ _ _

theorem addInputEffects_noLo {s s' : Sys K} {n : Mat K} {m : Mode K} {b : Option K} (hs : s.NoLo)
    (h : addInputEffects s n m b = .ok s') : s'.NoLo := by
  simp only [addInputEffects, bind_ok] at h
  obtain ⟨_, -, _, -, ie, -, inp, -, a, -, _, -, _, -, _, -, _, -, h⟩ := h
  refine hs.of_types fun t ht => ?_
  rw [setCsc_types h] at ht
  cases b with
  | none =>
    simp only [addRowsLE_types, List.mem_append, List.mem_map] at ht
    rcases ht with ht | ⟨_, _, rfl⟩
    · exact .inl ht
    · exact .inr (by simp)
  | some b =>
    simp only [addRowsLE_types, List.mem_append, List.mem_map] at ht
    rcases ht with (ht | ⟨_, _, rfl⟩) | ⟨_, _, rfl⟩
    · exact .inl ht
    · exact .inr (by simp)
    · exact .inr (by simp)

theorem addInitConstraint_noLo {s s' : Sys K} {vec : List K} {rhs : K} {bm : Mat K}
    {ies : Option (List (Mat K))} {ri : Option ℕ} {row : ℕ} (hs : s.NoLo)
    (h : addInitConstraint s vec rhs bm ies ri = .ok (s', row)) : s'.NoLo := by
  simp only [addInitConstraint, bind_ok, pure_ok, Prod.mk.injEq] at h
  obtain ⟨_, -, s1, h1, ieRow, -, _, -, s2, h2, rfl, -⟩ := h
  have h2' := setCsr_types h2
  have : s1.NoLo := by
    cases ri with
    | none =>
      cases h1
      refine hs.of_types fun t ht => ?_
      rw [addRowsLE_types] at ht
      simp only [List.map_cons, List.map_nil, List.mem_append, List.mem_singleton] at ht
      rcases ht with ht | rfl
      · exact .inl ht
      · exact .inr (by simp)
    | some i =>
      simp only [Sys.setConstraintRhs] at h1
      split at h1
      swap
      · cases h1
      cases h1
      intro r hr
      simp only at hr
      obtain ⟨j, hj, rfl⟩ := List.getElem_of_mem hr
      rw [List.getElem_modify]
      have : (s.rows[j]'(by simpa using hj)).ty ≠ .lo := hs _ (List.getElem_mem _)
      by_cases hij : i = j
      · rw [if_pos hij]; exact this
      · rw [if_neg hij]; exact this
  rw [Sys.noLo_iff] at *
  rw [h2']; exact this

theorem tryReplace_noLo {S : Solver K} {M : K} {lp lp' : Lp K} {old : ℕ} {vec : List K} {rhs : K}
    {bm : Mat K} {ies : Option (List (Mat K))} {r : ℕ × Bool} (hs : lp.NoLo)
    (h : tryReplaceInitConstraint S M lp old vec rhs bm ies = .ok (lp', r)) : lp'.NoLo := by
  simp only [tryReplaceInitConstraint, bind_ok] at h
  obtain ⟨oldC, -, ⟨s1, row⟩, h1, lp2, h2, ⟨lp3, res⟩, h3, h⟩ := h
  have n1 := addInitConstraint_noLo hs h1
  have n3 : lp3.toSys = s1 := by
    rw [(minimize_keeps h3).1, setMinDirCsr_toSys h2]
  cases res with
  | none =>
    simp only [pure_ok, Prod.mk.injEq] at h
    obtain ⟨rfl, -⟩ := h
    rw [n3]; exact n1
  | some l =>
    simp only at h
    split at h
    · simp only [bind_ok, pure_ok, Prod.mk.injEq] at h
      obtain ⟨s2, h4, rfl, -⟩ := h
      simp only
      rw [Sys.noLo_iff, setCsr_types h4, addRowsLE_types, n3]
      rw [Sys.noLo_iff] at n1
      simpa using n1
    · simp only [pure_ok, Prod.mk.injEq] at h
      obtain ⟨rfl, -⟩ := h
      rw [n3]; exact n1

theorem addCurtime_noLo {s s' : Sys K} {c : Csr K} {rhs : List K} (hs : s.NoLo)
    (h : addCurtimeConstraints s c rhs = .ok s') : s'.NoLo := by
  rw [Sys.noLo_iff] at *
  rw [setCsr_types h, addRowsLE_types]
  simpa using hs

theorem addReset_noLo {s s' : Sys K} {mid ti : ℕ} {reset mink minkC : Option (Csr K)}
    {minkRhs : Option (List K)} {b : Bool} (hs : s.NoLo)
    (h : addResetVariables s mid ti reset mink minkC minkRhs b = .ok s') : s'.NoLo := by
  simp only [addResetVariables, bind_ok] at h
  obtain ⟨_, -, r1, -, c1, -, _, -, _, -, _, -, s2, h2, h3⟩ := h
  rw [Sys.noLo_iff] at *
  rw [setReachVars_types h3, setCsr_types h2]
  have e : ∀ l, (s.addCols l).getTypes = s.getTypes := fun _ => rfl
  cases b <;> simp [addRowsLE_types, addRowsEqZero_types, e, hs]

theorem clone_noLo {lp lp' : Lp K} (hs : lp.NoLo) (h : lp.clone = .ok lp') : lp'.NoLo := by
  rw [clone_ok h]; exact hs

theorem ieLoop_noLo {d : Dyn K} {m : Mode K} {lgg : Option K} : ∀ (ks : List ℕ) {te te' : TE K}
    {s s' : Sys K} {l l' : List (Mat K)}, s.NoLo → ieLoop d m lgg te s l ks = .ok (te', s', l') →
    s'.NoLo
  | [], te, te', s, s', l, l', hs, h => by cases h; exact hs
  | k :: ks, te, te', s, s', l, l', hs, h => by
    simp only [ieLoop, bind_ok] at h
    obtain ⟨r, -, ie, -, s1, h1, h2⟩ := h
    exact ieLoop_noLo ks (addInputEffects_noLo hs h1) h2

theorem step_noLo {d : Dyn K} {m : Mode K} {te te' : Option (TE K)} {st st' : SS K}
    {target : Option ℕ} (hs : st.lp.NoLo) (h : st.step d m te target = .ok (te', st')) :
    st'.lp.NoLo := by
  unfold SS.step at h
  simp only at h
  split at h
  · cases h
  · split at h
    · cases h; exact hs
    · simp only [bind_ok, pure_ok] at h
      obtain ⟨r, -, s, h1, ⟨q1, q2, q3⟩, h2, h3⟩ := h
      cases h3
      simp only
      have n1 : s.NoLo := by
        rw [Sys.noLo_iff] at *
        rw [setBasisMatrix_types h1]; exact hs
      unfold SS.stepInputs at h2
      cases hr : r.2.2 with
      | none => rw [hr] at h2; cases h2; exact n1
      | some ie =>
        rw [hr] at h2
        simp only [bind_ok, pure_ok, Prod.mk.injEq] at h2
        obtain ⟨ies, -, ⟨a, b, c⟩, h4, s2, h5, -, rfl, -⟩ := h2
        exact addInputEffects_noLo (ieLoop_noLo _ n1 h4) h5

theorem addInv_noLo {S : Solver K} {T : Tols K} {st st' : SS K} {idx : ℕ} {lc : LinCon K} {b : Bool}
    (hs : st.lp.NoLo) (h : st.addInv S T idx lc = .ok (st', b)) : st'.lp.NoLo := by
  simp only [SS.addInv, bind_ok] at h
  obtain ⟨old, -, bm, -, h⟩ := h
  cases old with
  | none =>
    simp only [bind_ok, pure_ok, Prod.mk.injEq] at h
    obtain ⟨⟨s, row⟩, h1, rfl, -⟩ := h
    exact addInitConstraint_noLo hs h1
  | some row =>
    simp only [bind_ok, pure_ok, Prod.mk.injEq] at h
    obtain ⟨⟨lp, r⟩, h1, rfl, -⟩ := h
    exact tryReplace_noLo hs h1

theorem checkIntersection_toSys {S : Solver K} {lp lp' : Lp K} {lc : LinCon K} {tol : K}
    {r : Option Bool} (h : checkIntersection S lp lc tol = .ok (lp', r)) : lp'.toSys = lp.toSys := by
  simp only [checkIntersection, bind_ok, pure_ok, Prod.mk.injEq] at h
  obtain ⟨lp1, h1, ⟨lp2, r2⟩, h2, rfl, -⟩ := h
  rw [(minimize_keeps h2).1, setMinDirCsr_toSys h1]

theorem isFeasible_toSys {S : Solver K} {lp lp' : Lp K} {b : Bool}
    (h : isFeasible S lp = .ok (lp', b)) : lp'.toSys = lp.toSys := by
  unfold isFeasible at h
  cases hm : minimize S lp none (some []) false with
  | error e => rw [hm] at h; cases h
  | ok res =>
    obtain ⟨lp1, r⟩ := res
    rw [hm] at h
    cases h
    exact (minimize_keeps hm).1

theorem invLoop_noLo {S : Solver K} {T : Tols K} : ∀ (lcs : List (LinCon K)) {st st' : SS K} {idx : ℕ}
    {ops ops' : List (ℕ × Bool)} {f : Bool}, st.lp.NoLo →
    invLoop S T st idx lcs ops = .ok (st', f, ops') → st'.lp.NoLo
  | [], st, st', idx, ops, ops', f, hs, h => by cases h; exact hs
  | lc :: lcs, st, st', idx, ops, ops', f, hs, h => by
    simp only [invLoop, bind_ok] at h
    obtain ⟨⟨lp1, r⟩, h1, h⟩ := h
    have e1 := checkIntersection_toSys h1
    have n1 : lp1.NoLo := by rw [e1]; exact hs
    split at h
    · simp only [bind_ok] at h
      obtain ⟨⟨q1, q2⟩, h2, ⟨f1, f2⟩, h3, h⟩ := h
      have n2 : q1.lp.NoLo := addInv_noLo (st := { st with lp := lp1 }) n1 h2
      have n3 : f1.NoLo := by rw [isFeasible_toSys h3]; exact n2
      split at h
      · exact invLoop_noLo lcs n3 h
      · simp only [pure_ok, Prod.mk.injEq] at h
        obtain ⟨rfl, -⟩ := h
        exact n3
    · exact invLoop_noLo lcs (st := { st with lp := lp1 }) n1 h

theorem fromConstraints_noLo {S : Solver K} {csr : Csr K} {rhs : List K} {mode : Mode K}
    {dims? : Option ℕ} {lp : Lp K}
    (h : fromConstraints S csr rhs mode none none dims? = .ok lp) : lp.NoLo := by
  obtain ⟨-, -, -, -, -, -, -, -, -, -, hrows, -⟩ := fromConstraints_ok h (by simp)
  intro r hr
  rw [hrows] at hr
  rcases List.mem_append.1 hr with hr | hr
  · rcases List.mem_append.1 hr with hr | hr
    · obtain ⟨i, -, rfl⟩ := List.mem_map.1 hr; simp
    · obtain ⟨i, hi, rfl⟩ := List.getElem_of_mem hr
      rw [List.getElem_zipWith, LRow.withCoefs_ty]
      simp [typesOr]
  · split at hr
    · obtain ⟨i, -, rfl⟩ := List.mem_map.1 hr; simp
    · simp at hr

end Hylaa
