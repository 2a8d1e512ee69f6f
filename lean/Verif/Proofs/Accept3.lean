import Verif.Props.Chull
import Verif.Proofs.Accept

/-! Convex hulls and Minkowski sums of non-empty sets are never refused. -/

set_option linter.unusedSectionVars false

namespace Hylaa
open Spec
variable {K : Type} [Field K] [LinearOrder K] [IsStrictOrderedRing K]

/-- `set_reach_vars` accepts the layout. -/
def Sys.Layout (s : Sys K) : Prop :=
  s.bmPos.1 + s.dims ≤ s.numRows ∧ s.bmPos.2 + 2 * s.dims ≤ s.numCols ∧
    ieFits s.ie s.dims s.numRows s.numCols = true

theorem Lp.clone_accepts {lp : Lp K} (h : lp.toSys.Layout) :
    lp.clone = .ok { lp with bmIdx := mkBmIdx lp.dims lp.bmPos.2 lp.cur lp.ie } := by
  unfold Lp.clone
  rw [setReachVars_ok.2 ⟨h, rfl⟩]

theorem Sys.Shape.layout {s : Sys K} {B : ℕ → ℕ → K} {X R : ℕ → SRow K} (h : s.Shape B X R) : s.Layout := by
  have h1 := h.rowsLe
  have h2 := h.colsLe
  have h3 := h.curLe
  unfold Sys.blockLen at h3
  refine ⟨h1, by split at h3 <;> omega, ?_⟩
  cases hie : s.ie with
  | none => rfl
  | some p =>
    obtain ⟨k1, k2, k3⟩ := h.iePos p hie
    rw [hie] at h3
    simp only [Option.isSome_some, if_true] at h3
    simp only [ieFits, Bool.and_eq_true, decide_eq_true_eq]
    omega

theorem cloneComplete_accepts {lp : Lp K} (h : lp.toSys.Layout) :
    ∃ c, cloneComplete lp = .ok c ∧ c.toSys.Layout := by
  unfold cloneComplete
  rw [Lp.clone_accepts h]
  refine ⟨_, rfl, ?_⟩
  obtain ⟨h1, h2, h3⟩ := h
  refine ⟨?_, h2, ?_⟩
  · simp only [Sys.addRowsLE, Sys.numRows, List.length_append] at h1 ⊢; omega
  · simp only [Sys.addRowsLE]
    cases hie : lp.ie with
    | none => rfl
    | some p =>
      rw [hie] at h3
      simp only [ieFits, Bool.and_eq_true, decide_eq_true_eq] at h3 ⊢
      simp only [Sys.numRows, Sys.numCols, List.length_append] at h3 ⊢
      omega

theorem satTypes_le {c : Csr K} {types : List RowType} {rhs : List K} {x : ℕ → K}
    (h : c.satTypes types rhs x) (hlo : RowType.lo ∉ types) : c.le x rhs := by
  intro i hi
  have := h i hi
  have hne : types.getD i .up ≠ .lo := by
    rw [List.getD_eq_getElem?_getD]
    cases hq : types[i]? with
    | none => simp
    | some t =>
      intro ht
      simp only [Option.getD_some] at ht
      exact hlo (ht ▸ List.mem_of_getElem? hq)
  generalize types.getD i .up = t at *
  cases t
  · simp only [RowType.rel] at this; exact this.le
  · exact this
  · exact absurd rfl hne

theorem snapshot_accepts {S : Solver K} (hS : S.Complete) (M : K) {s : Sys K} (mode : Mode K) (hlo : s.NoLo)
    (hd : s.dims ≤ s.numCols) (hz : ∃ z, s.Sat z) :
    ∃ lp, snapshot S M s mode = .ok lp ∧ lp.toSys.Layout := by
  unfold snapshot
  have hl : s.getFull.nrows = (s.getRhs M).length := by
    simp [Sys.getFull, Csr.nrows, Sys.getRhs]
  obtain ⟨z, hz⟩ := hz
  have hle : s.getFull.le z (s.getRhs M) := by
    refine satTypes_le (types := s.getTypes) ?_ ?_
    · unfold Sys.getFull
      rw [satTypes_iff_satL _ _ _ (by simp [Sys.getTypes, Sys.getRhs]) (by simp [Sys.getRhs])]
      have := satL_sys (M := M) s hlo 0 z
      simp only [shiftRow_zero, Nat.zero_add] at this
      exact this.2 hz
    · intro hc
      obtain ⟨r, hr, ht⟩ := List.mem_map.1 hc
      exact hlo r hr ht
  obtain ⟨b, hb, hb2⟩ := isFeasibleCsr_complete hS hl.symm
  obtain rfl := hb2.2 ⟨z, hle⟩
  obtain ⟨lp, h⟩ := fromConstraints_accepts (mode := mode) (types := some s.getTypes) (names := some s.names)
    (dims? := some s.dims) hl hb rfl hd (by rintro ns ⟨⟩; rfl) (by rintro ts ⟨⟩; simp [Sys.getTypes, Sys.getRhs])
  refine ⟨lp, h, ?_⟩
  obtain ⟨-, -, -, -, k1, k2, k3, k4, k5, -, k6, -⟩ := fromConstraints_ok h (by rintro ns ⟨⟩; rfl)
  simp only [Option.getD_some] at k1 k2 k5 k6
  have hnc : s.getFull.ncols = s.numCols := rfl
  have hr : s.dims + (if mode.inputs.isSome then s.dims + (s.getRhs M).length else 0) ≤ lp.rows.length := by
    rw [k6]
    have : s.getFull.rows.length = (s.getRhs M).length := hl
    split <;> simp [typesOr, Sys.getTypes, Sys.getRhs, Sys.getFull]
    omega
  refine ⟨?_, ?_, ?_⟩
  · rw [k2, k3]; simp only [Sys.numRows]; omega
  · rw [k2, k3]; simp only [Sys.numCols, k1]; rw [hnc]; omega
  · rw [k5, k2]
    split at hr
    · rename_i hi
      rw [if_pos hi] at k1
      simp only [hi, if_true, ieFits, Bool.and_eq_true, decide_eq_true_eq, Sys.numRows, Sys.numCols, Option.getD_some]
      constructor <;> exact decide_eq_true (by omega)
    · rename_i hi
      simp only [hi, if_false]; rfl

theorem chullTwo_accepts (M : K) {n : ℕ} {s1 s2 : Sys K} (h1 : HullArg n s1) (h2 : HullArg n s2)
    (hne : ∃ v, s1.Sat v) : ∃ s, chullTwo M s1 s2 = .ok s ∧ s.dims ≤ s.numCols ∧ ∃ z, s.Sat z := by
  have hok : ∃ s, chullTwo M s1 s2 = .ok s := by
    have hc1 := h1.cur
    have hc2 := h2.cur
    simp only [chullTwo, bind_ok, assert_ok, pure_ok, addRowsWithTypes_ok, setCsr_ok]
    refine ⟨_, (), by rw [h1.dims, h2.dims], _, ⟨?_, rfl⟩, _, ⟨⟨?_, ?_⟩, rfl⟩, _, ⟨⟨?_, ?_⟩, rfl⟩, rfl⟩
    · simp [Sys.getTypes, Sys.getRhs]
    · simp [Sys.numRows, Sys.addCols, Sys.getTypes, Sys.getRhs]
    · simp [Sys.numCols, Sys.addCols]; omega
    · simp [Sys.numRows, Sys.addCols, Sys.getTypes, Sys.getRhs]
    · simp [Sys.numCols, Sys.addCols]; omega
  obtain ⟨s, hs⟩ := hok
  obtain ⟨k1, k2, k3, k4, k5⟩ := chullTwo_ok h1 h2 hs
  refine ⟨s, hs, by omega, ?_⟩
  obtain ⟨v, hv⟩ := hne
  have hc1 := h1.cur; rw [h1.dims] at hc1
  have hc2 := h2.cur; rw [h2.dims] at hc2
  generalize hn1 : s1.numCols - n = n1 at *
  generalize hn2 : s2.numCols - n = n2 at *
  set z : ℕ → K := fun j => if j < n then v (s1.cur + j) else if j < 2 * n then 0 else
    if j < 2 * n + n1 then (if j - 2 * n < s1.cur then v (j - 2 * n) else v (j - 2 * n + n)) else 0 with hz
  have z1 : ∀ i < n, z i = v (s1.cur + i) := fun i hi => by simp [hz, hi]
  have z2 : ∀ i < n, z (n + i) = 0 := fun i hi => by
    simp only [hz, show ¬ n + i < n by omega, show n + i < 2 * n by omega, if_true, if_false]
  have z3 : ∀ j < n1, z (2 * n + j) = if j < s1.cur then v j else v (j + n) := fun j hj => by
    simp only [hz, show ¬ 2 * n + j < n by omega, show ¬ 2 * n + j < 2 * n by omega,
      show 2 * n + j < 2 * n + n1 by omega, if_true, if_false, Nat.add_sub_cancel_left]
  have z4 : ∀ j, z (2 * n + n1 + j) = 0 := fun j => by
    simp only [hz, show ¬ 2 * n + n1 + j < n by omega, show ¬ 2 * n + n1 + j < 2 * n by omega,
      show ¬ 2 * n + n1 + j < 2 * n + n1 by omega, if_false]
  refine ⟨z, (k5 z).2 ⟨?_, ?_⟩⟩
  · rw [z4, sub_zero]
    refine (Sys.Scaled.congr h1.wf fun j hj => ?_).2 ((Sys.scaled_one s1 v).2 hv)
    rw [comb_congr hc1 (f' := fun i => v (s1.cur + i))
      (g' := fun j => if j < s1.cur then v j else v (j + n)) (fun i hi => ?_)
      (fun j hj => z3 j (by omega)) j hj, comb_split]
    rw [z1 i hi, z2 i hi, add_zero]
  · rw [z4]
    refine (Sys.Scaled.congr h2.wf fun j hj => ?_).2 (Sys.scaled_zero_zero s2)
    rw [comb_congr hc2 (f' := fun _ => 0) (g' := fun _ => 0) (fun i hi => by rw [z2 i hi, neg_zero])
      (fun j hj => z4 j) j hj]
    simp [comb]

/-- **`aggregate_chull` never refuses non-empty sets.** -/
theorem aggregateChull_accepts {S : Solver K} (hS : S.Complete) (M : K) {n : ℕ} (mode : Mode K) (N : ℕ) :
    ∀ {lps : List (Lp K)}, lps.length ≤ N → lps ≠ [] →
    (∀ l ∈ lps, HullArg n l.toSys ∧ l.toSys.Layout ∧ ∃ x, l.Mem x) →
    ∃ rv, aggregateChull S M lps mode = .ok rv ∧ rv.toSys.Layout := by
  induction N with
  | zero =>
    intro lps hN hne
    exact absurd (List.eq_nil_of_length_eq_zero (Nat.le_zero.1 hN)) hne
  | succ N ih =>
    intro lps hN hne harg
    match lps, hN, hne, harg with
    | [], _, h, _ => exact absurd rfl h
    | [lp], _, _, harg =>
      rw [aggregateChull, Lp.clone_accepts (harg lp (by simp)).2.1]
      exact ⟨_, rfl, (harg lp (by simp)).2.1⟩
    | [l1, l2], _, _, harg =>
      obtain ⟨a1, a2, a3⟩ := harg l1 (by simp)
      obtain ⟨b1, b2, b3⟩ := harg l2 (by simp)
      obtain ⟨c1, hc1, -⟩ := cloneComplete_accepts a2
      obtain ⟨c2, hc2, -⟩ := cloneComplete_accepts b2
      have g1 := cloneComplete_ok a1 hc1
      have g2 := cloneComplete_ok b1 hc2
      have hne1 : ∃ v, c1.Sat v := by
        obtain ⟨x, v, hv, -⟩ := a3
        refine ⟨v, (Sys.scaled_one _ _).1 ((g1.2.2 1 v).2 ⟨(Sys.scaled_one _ _).2 hv, zero_le_one⟩)⟩
      obtain ⟨s, hs, hd, hz⟩ := chullTwo_accepts M g1.1 g2.1 hne1
      obtain ⟨rv, hrv, hl⟩ := snapshot_accepts hS M mode (chullTwo_ok g1.1 g2.1 hs).1 hd hz
      refine ⟨rv, ?_, hl⟩
      rw [aggregateChull]
      simp only [bind_ok]
      exact ⟨c1, hc1, c2, hc2, s, hs, hrv⟩
    | l1 :: l2 :: l3 :: rest, hN, _, harg =>
      rw [aggregateChull]
      set lps := l1 :: l2 :: l3 :: rest with hlps
      have hmap : ∀ L : List {x // x ∈ lps}, ∃ cs, L.mapM (fun x => cloneComplete x.1) = .ok cs := by
        intro L
        induction L with
        | nil => exact ⟨[], rfl⟩
        | cons x L ih =>
          obtain ⟨c, hc, -⟩ := cloneComplete_accepts (harg x.1 x.2).2.1
          obtain ⟨cs, hcs⟩ := ih
          exact ⟨c :: cs, by rw [List.mapM_cons, hc, hcs]; rfl⟩
      obtain ⟨cs, hcs⟩ := hmap lps.attach
      have hf := mapM_forall₂ cloneComplete _ cs hcs
      rw [List.attach_map_subtype_val] at hf
      have hlen : cs.length = lps.length := hf.length_eq.symm
      have hback : ∀ c ∈ cs, HullArg n c.toSys ∧ c.toSys.Layout ∧ ∃ x, c.Mem x := by
        intro c hc
        obtain ⟨i, hi, rfl⟩ := List.getElem_of_mem hc
        have hi' : i < lps.length := by rw [← hlen]; exact hi
        have := hf.get hi' hi
        have hl : lps[i] ∈ lps := List.getElem_mem hi'
        obtain ⟨k1, k2, x, k3⟩ := harg _ hl
        obtain ⟨c', hc', k4⟩ := cloneComplete_accepts k2
        have hcc : c' = cs[i] := by
          have h2 : cloneComplete lps[i] = .ok cs[i] := this
          rw [hc'] at h2; exact Except.ok.inj h2
        exact ⟨(cloneComplete_ok k1 this).1, hcc ▸ k4, x, (cloneComplete_mem k1 this x).2 k3⟩
      have hl3 : 3 ≤ cs.length := by rw [hlen, hlps]; simp
      have hN' : cs.length ≤ N + 1 := by rw [hlen]; exact hN
      have hna : cs.take (cs.length / 2) ≠ [] := by
        intro hc
        have := congrArg List.length hc
        rw [List.length_take, List.length_nil] at this; omega
      have hnb : cs.drop (cs.length / 2) ≠ [] := by
        intro hc
        have := congrArg List.length hc
        rw [List.length_drop, List.length_nil] at this; omega
      obtain ⟨a, ha, la⟩ := ih (lps := cs.take (cs.length / 2)) (by simp; omega) hna
        (fun l hl => hback l (List.mem_of_mem_take hl))
      obtain ⟨b, hb, lb⟩ := ih (lps := cs.drop (cs.length / 2)) (by simp; omega) hnb
        (fun l hl => hback l (List.mem_of_mem_drop hl))
      obtain ⟨ra, -⟩ := chull_res _ le_rfl (fun l hl => (hback l (List.mem_of_mem_take hl)).1) ha
      obtain ⟨rb, -⟩ := chull_res _ le_rfl (fun l hl => (hback l (List.mem_of_mem_drop hl)).1) hb
      have hmem : ∀ {L : List (Lp K)} {q : Lp K}, L ≠ [] → (∀ l ∈ L, ∃ x, l.Mem x) → HullRes n L q → ∃ x, q.Mem x := by
        intro L q hL hx hr
        obtain ⟨l, rest, rfl⟩ := List.exists_cons_of_ne_nil hL
        obtain ⟨x, hx⟩ := hx l (by simp)
        exact ⟨x, hr.sup l (by simp) x hx⟩
      have hab : ∀ l ∈ [a, b], HullArg n l.toSys ∧ l.toSys.Layout ∧ ∃ x, l.Mem x := by
        intro l hl
        simp only [List.mem_cons, List.not_mem_nil, or_false] at hl
        rcases hl with rfl | rfl
        · exact ⟨ra.arg, la, hmem hna (fun l hl => (hback l (List.mem_of_mem_take hl)).2.2) ra⟩
        · exact ⟨rb.arg, lb, hmem hnb (fun l hl => (hback l (List.mem_of_mem_drop hl)).2.2) rb⟩
      obtain ⟨r, hr, lr⟩ := ih (lps := [a, b]) (by simp; omega) (by simp) hab
      obtain ⟨rr, -⟩ := chull_res _ le_rfl (fun l hl => (hab l hl).1) hr
      obtain ⟨x, v, hv, -⟩ := hmem (by simp) (fun l hl => (hab l hl).2.2) rr
      have hcur := rr.arg.cur
      obtain ⟨rv, hrv, lrv⟩ := snapshot_accepts hS M mode rr.arg.noLo (s := r.toSys) (by omega) ⟨v, hv⟩
      refine ⟨rv, ?_, lrv⟩
      simp only [bind_ok]
      refine ⟨cs, hcs, ?_⟩
      rw [dif_pos hlen]
      simp only [bind_ok]
      exact ⟨a, ha, b, hb, r, hr, hrv⟩

end Hylaa
