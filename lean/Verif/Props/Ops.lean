import Verif.Proofs.Inst
import Verif.Spec.Ops
import Verif.Props.Build

/-!
# Properties C04, C05, C08, C09, C10, C12, C16: operations on LP instances
-/

set_option linter.unusedSectionVars false

namespace Hylaa
open Spec
variable {K : Type} [Field K] [LinearOrder K] [IsStrictOrderedRing K]

/-! ### C04 set_basis_matrix -/

theorem initPairs_iff {s : Sys K} {B : ℕ → ℕ → K} {X R : ℕ → SRow K} (h : s.Shape B X R)
    (y t : ℕ → K) : InitPairs s y t ↔ ∃ v, s.Rest v ∧ (∀ j < s.dims, v (s.bmPos.2 + j) = y j) ∧
      ∀ j < s.dims, t j = dot (R j) v := by
  constructor
  · rintro ⟨v, hv, hy, ht⟩
    refine ⟨v, fun i r hi _ => hv r (List.mem_of_getElem? hi), hy, fun j hj => ?_⟩
    rw [ht j hj]
    cases hie : s.ie with
    | none => rw [h.noIe hie]; simp
    | some p =>
      obtain ⟨r2, hr2, hty2, hrhs2, hdot2⟩ := h.ieRows p hie j hj
      have h2 := hv r2 (List.mem_of_getElem? hr2)
      simp only [LRow.holds, hty2, hrhs2, hdot2] at h2
      simp only [Option.isSome_some, if_true]
      linear_combination -h2
  · rintro ⟨v, hv, hy, ht⟩
    obtain ⟨w, hw, hag, -⟩ := h.lift (x := fun i => (∑ j ∈ Finset.range s.dims, B i j *
      v (s.bmPos.2 + j)) + dot (X i) v + dot (R i) v) hv (fun _ _ => rfl)
    have hc := h.colsLe
    refine ⟨w, hw, fun j hj => ?_, fun j hj => ?_⟩
    · rw [hag _ (by unfold Sys.inBlock; omega)]; exact hy j hj
    · rw [ht j hj]
      cases hie : s.ie with
      | none => rw [h.noIe hie]; simp
      | some p =>
        obtain ⟨r2, hr2, hty2, hrhs2, hdot2⟩ := h.ieRows p hie j hj
        have h2 := hw r2 (List.mem_of_getElem? hr2)
        simp only [LRow.holds, hty2, hrhs2, hdot2] at h2
        simp only [Option.isSome_some, if_true]
        rw [dot_congr fun q hq => hag _ (h.rAvoid j q hq).1] at h2
        linear_combination h2

/-- **C04.** After any non-empty sequence of `set_basis_matrix` calls on any instance the library
can produce, the set is exactly `{M y + t}` for the last matrix `M`, where `(y, t)` ranges over the
pairs (initial point, total input effect) of the original instance; these pairs are unchanged, and
`get_basis_matrix` returns `M`. -/
theorem C04_set_basis_matrix {S : Solver K} (hS : S.Honest) {lp : Lp K} (hlp : Inst S lp true)
    (Ms : List (Mat K)) (M : Mat K) {s : Sys K}
    (h : (Ms ++ [M]).foldlM setBasisMatrix lp.toSys = .ok s) :
    (∀ x, s.Mem x ↔ ∃ y t, InitPairs lp.toSys y t ∧ ∀ i < lp.dims, x i = mulV lp.dims M.e y i + t i)
      ∧ (∀ y t, InitPairs s y t ↔ InitPairs lp.toSys y t)
      ∧ ∃ G, getBasisMatrix s = .ok G ∧ G.nr = lp.dims ∧ G.nc = lp.dims ∧
        ∀ i < lp.dims, ∀ j < lp.dims, G.e i j = M.e i j := by
  obtain ⟨-, -, -, hsh⟩ := hlp.inv hS
  obtain ⟨B0, X0, R, hsh⟩ := hsh rfl
  generalize lp.toSys = s0 at *
  have key : ∀ (Ms : List (Mat K)) (s1 : Sys K) (B X), s1.Shape B X R → s0.SameVars s1 →
      (∀ v, s1.Rest v ↔ s0.Rest v) → (Ms ++ [M]).foldlM setBasisMatrix s1 = .ok s →
      s.Shape M.e (fun _ => []) R ∧ s0.SameVars s ∧ (∀ v, s.Rest v ↔ s0.Rest v) := by
    intro Ms
    induction Ms with
    | nil =>
      intro s1 B X hs1 hsv hr h
      simp only [List.nil_append, List.foldlM_cons, List.foldlM_nil, bind_pure] at h
      obtain ⟨h1, h2, -, -, h3, -⟩ := setBasisMatrix_shape h hs1
      exact ⟨h1, hsv.trans h2, fun v => (h3 v).trans (hr v)⟩
    | cons M1 Ms ih =>
      intro s1 B X hs1 hsv hr h
      simp only [List.cons_append, List.foldlM_cons, bind_ok] at h
      obtain ⟨s2, h2, h⟩ := h
      obtain ⟨h3, h4, -, -, h5, -⟩ := setBasisMatrix_shape h2 hs1
      exact ih s2 _ _ h3 (hsv.trans h4) (fun v => (h5 v).trans (hr v)) h
  obtain ⟨h1, hsv, hr⟩ := key Ms s0 B0 X0 hsh (Sys.SameVars.refl _) (fun _ => Iff.rfl) h
  refine ⟨fun x => ?_, fun y t => ?_, ?_⟩
  · rw [h1.mem_iff, hsv.dims, hsv.bmPos]
    constructor
    · rintro ⟨v, hv, hx⟩
      refine ⟨fun j => v (s0.bmPos.2 + j), fun j => dot (R j) v, (initPairs_iff hsh _ _).2
        ⟨v, (hr v).1 hv, fun _ _ => rfl, fun _ _ => rfl⟩, fun i hi => ?_⟩
      rw [hx i hi]; simp [mulV]
    · rintro ⟨y, t, hyt, hx⟩
      obtain ⟨v, hv, hy, ht⟩ := (initPairs_iff hsh _ _).1 hyt
      refine ⟨v, (hr v).2 hv, fun i hi => ?_⟩
      rw [hx i hi, ht i hi]
      simp only [mulV, dot_nil, add_zero]
      congr 1
      exact Finset.sum_congr rfl fun j hj => by rw [hy j (Finset.mem_range.1 hj)]
  · rw [initPairs_iff h1, initPairs_iff hsh, hsv.dims, hsv.bmPos]
    simp only [hr]
  · have hrow := h1.rowsLe
    have hcol := h1.colsLe
    have hcur := h1.curLe'
    rw [← hsv.dims]
    refine ⟨_, by unfold getBasisMatrix Sys.getDense; rw [if_pos ⟨by omega, by omega⟩], rfl, rfl,
      fun i hi j hj => ?_⟩
    obtain ⟨r, hr', -, -, hdot⟩ := h1.basis i hi
    simp only [hr', hi, hj, and_self, if_true]
    rw [coefAt_eq_dot, hdot]
    have e1 : (if s.cur + i = s.bmPos.2 + j then (1 : K) else 0) = 0 := if_neg (by omega)
    have e2 : (if s.cur + s.dims + i = s.bmPos.2 + j then (1 : K) else 0) = 0 := if_neg (by omega)
    simp only [dot_nil, e1, e2, ite_self, add_zero, sub_zero]
    rw [Finset.sum_eq_single j]
    · simp
    · intro b _ hb; rw [if_neg (by omega), mul_zero]
    · intro hc; exact absurd (Finset.mem_range.2 hj) hc

/-! ### C05 add_input_effects_matrix -/

theorem mem_extend {s s' : Sys K} {B : ℕ → ℕ → K} {X R X' R' : ℕ → SRow K} (h : s.Shape B X R)
    (h' : s'.Shape B X' R') (hsv : s.SameVars s') {m : ℕ} {F : ℕ → ℕ → K} {Q : (ℕ → K) → Prop}
    (hr : ∀ v, s'.Rest v ↔ s.Rest v ∧ Q fun c => v (s.numCols + c))
    (hd : ∀ i < s.dims, ∀ v, dot (X' i) v + dot (R' i) v = dot (X i) v + dot (R i) v +
      ∑ c ∈ Finset.range m, F i c * v (s.numCols + c)) (x : ℕ → K) :
    s'.Mem x ↔ AddImage s.dims m s.Mem F Q x := by
  rw [h'.mem_iff, hsv.dims, hsv.bmPos]
  unfold AddImage
  constructor
  · rintro ⟨v, hv, hx⟩
    obtain ⟨hv1, hv2⟩ := (hr v).1 hv
    refine ⟨fun i => (∑ j ∈ Finset.range s.dims, B i j * v (s.bmPos.2 + j)) + dot (X i) v +
      dot (R i) v, fun c => v (s.numCols + c), (h.mem_iff _).2 ⟨v, hv1, fun _ _ => rfl⟩, hv2,
      fun i hi => ?_⟩
    rw [hx i hi, add_assoc, hd i hi]; unfold mulV; ring
  · rintro ⟨z, u, hz, hu, hx⟩
    obtain ⟨v, hv, hz⟩ := (h.mem_iff _).1 hz
    let w : ℕ → K := fun j => if s.numCols ≤ j then u (j - s.numCols) else v j
    have hw : ∀ j < s.numCols, w j = v j := fun j hj => by simp only [w]; rw [if_neg (by omega)]
    have hwu : (fun c => w (s.numCols + c)) = u := by
      funext c; simp only [w]; rw [if_pos (by omega)]; congr 1; omega
    refine ⟨w, (hr w).2 ⟨(Sys.Rest.congr h fun j hj _ => hw j hj).2 hv, by rw [hwu]; exact hu⟩,
      fun i hi => ?_⟩
    rw [hx i hi, add_assoc, hd i hi, hz i hi]
    have hcl := h.colsLe
    have hcu := h.curLe'
    rw [dot_congr (w := v) fun q hq => hw _ (h.xAvoid i q hq).2,
      dot_congr (w := v) fun q hq => hw _ (h.rAvoid i q hq).2]
    have e1 : (∑ j ∈ Finset.range s.dims, B i j * w (s.bmPos.2 + j)) =
        ∑ j ∈ Finset.range s.dims, B i j * v (s.bmPos.2 + j) :=
      Finset.sum_congr rfl fun j hj => by
        rw [hw _ (by have := Finset.mem_range.1 hj; omega)]
    rw [e1]
    have : (∑ c ∈ Finset.range m, F i c * w (s.numCols + c)) = mulV m F u i := by
      unfold mulV
      exact Finset.sum_congr rfl fun c _ => by rw [← congrFun hwu c]
    rw [this]; ring

/-- **C05.** Each `add_input_effects_matrix` call changes the set of any instance by exactly one
Minkowski sum with `N U`, whatever was added before (each call uses fresh input variables). -/
theorem C05_add_input_effects {S : Solver K} (hS : S.Honest) {lp : Lp K} (hlp : Inst S lp true)
    {N : Mat K} {mode : Mode K} {inp : Inputs K} {s : Sys K} (hin : mode.inputs = some inp)
    (h : addInputEffects lp.toSys N mode none = .ok s) (x : ℕ → K) :
    s.Mem x ↔ AddImage lp.dims inp.b.ncols lp.Mem N.e (InputSet inp) x := by
  obtain ⟨B, X, R, hsh⟩ := (hlp.inv hS).2.2.2 rfl
  obtain ⟨h1, hsv, -, -, hr, -⟩ := addInputEffects_shape h hin hsh
  exact mem_extend hsh h1 hsv hr (fun i _ v => by simp; ring) x

/-- **C05 with the LGG term.** With `lgg_beta` the call adds exactly the inputs and the box
`[-β, β]^n`, entering through the first columns of the given matrix and the following `n`. -/
theorem C05_add_input_effects_lgg {S : Solver K} (hS : S.Honest) {lp : Lp K}
    (hlp : Inst S lp true) {N : Mat K} {mode : Mode K} {inp : Inputs K} {β : K} {s : Sys K}
    (hin : mode.inputs = some inp) (hwf : inp.WF)
    (h : addInputEffects lp.toSys N mode (some β) = .ok s) (x : ℕ → K) :
    s.Mem x ↔ AddImage lp.dims (inp.b.ncols + lp.dims) lp.Mem N.e (InputBoxSet inp lp.dims β) x := by
  obtain ⟨B, X, R, hsh⟩ := (hlp.inv hS).2.2.2 rfl
  obtain ⟨h1, hsv, -, -, hr, -⟩ := addInputEffects_lgg_shape h hin hwf hsh
  refine mem_extend hsh h1 hsv (fun v => (hr v).trans (and_congr_right fun _ => ?_))
    (fun i _ v => by simp; ring) x
  unfold InputBoxSet
  refine and_congr Iff.rfl (forall_congr' fun d => imp_congr_right fun _ => ?_)
  simp only [← add_assoc]; rw [and_comm, neg_le]

/-! ### C16 bloat -/

/-- **C16 (exactness).** `bloat` changes the set of any instance to exactly
`{s + e | |e_i| ≤ a}`. -/
theorem C16_bloat_exact {S : Solver K} (hS : S.Honest) {lp : Lp K} (hlp : Inst S lp true)
    {a : K} {pre : String} {s : Sys K} (h : bloat lp.toSys a pre = .ok s) (x : ℕ → K) :
    s.Mem x ↔ ∃ z e : ℕ → K, lp.Mem z ∧ (∀ i < lp.dims, -a ≤ e i ∧ e i ≤ a) ∧
      ∀ i < lp.dims, x i = z i + e i := by
  obtain ⟨B, X, R, hsh⟩ := (hlp.inv hS).2.2.2 rfl
  obtain ⟨h1, hsv, -, -, hr, -⟩ := bloat_shape h hsh
  refine (mem_extend (m := lp.dims) (F := fun i j => if i = j then 1 else 0)
    (Q := fun e => ∀ i < lp.dims, -a ≤ e i ∧ e i ≤ a) hsh h1 hsv (fun v => (hr v).trans
      (and_congr_right fun _ => ?_)) ?_ x).trans ?_
  · exact forall_congr' fun d => imp_congr_right fun _ => by rw [and_comm, neg_le]
  · intro i hi v
    cases hie : lp.ie with
    | none => rw [hsh.noIe hie]; simp
    | some p => simp; ring
  · unfold AddImage mulV
    refine exists_congr fun z => exists_congr fun e => and_congr_right fun _ =>
      and_congr_right fun _ => forall_congr' fun i => imp_congr_right fun hi => ?_
    simp [hi]

/-- **C16, the second half is false.** `set_basis_matrix` after `bloat` gives the same set as
`set_basis_matrix` without the bloating: the bloating columns are overwritten, for every instance,
amount and matrix. -/
theorem C16_set_basis_forgets_bloat {S : Solver K} (hS : S.Honest) {lp : Lp K}
    (hlp : Inst S lp true) {a : K} {pre : String} {M : Mat K} {s s1 s2 : Sys K}
    (h : bloat lp.toSys a pre = .ok s) (h1 : setBasisMatrix s M = .ok s1)
    (h2 : setBasisMatrix lp.toSys M = .ok s2) (x : ℕ → K) : s1.Mem x ↔ s2.Mem x := by
  obtain ⟨B, X, R, hsh⟩ := (hlp.inv hS).2.2.2 rfl
  obtain ⟨hb, hsv, hnc, -, hr, ha⟩ := bloat_shape h hsh
  obtain ⟨k1, sv1, -, -, r1, -⟩ := setBasisMatrix_shape h1 hb
  obtain ⟨k2, sv2, -, -, r2, -⟩ := setBasisMatrix_shape h2 hsh
  rw [k1.mem_iff, k2.mem_iff, sv1.dims, sv1.bmPos, hsv.dims, hsv.bmPos, sv2.dims, sv2.bmPos]
  have hR : ∀ i v, dot (if lp.ie.isSome then R i ++ rangeRow lp.dims lp.numCols (fun _ => 0)
      else []) v = dot (R i) v := by
    intro i v
    cases hie : lp.ie with
    | none => rw [hsh.noIe hie]; simp
    | some p => simp
  simp only [hR]
  constructor
  · rintro ⟨v, hv, hx⟩
    exact ⟨v, (r2 v).2 ((hr v).1 ((r1 v).1 hv)).1, hx⟩
  · rintro ⟨v, hv, hx⟩
    let w : ℕ → K := fun j => if lp.numCols ≤ j then 0 else v j
    have hw : ∀ j < lp.numCols, w j = v j := fun j hj => by simp only [w]; rw [if_neg (by omega)]
    refine ⟨w, (r1 w).2 ((hr w).2 ⟨(Sys.Rest.congr hsh fun j hj _ => hw j hj).2 ((r2 v).1 hv),
      fun i _ => ?_⟩), fun i hi => ?_⟩
    · simp only [w]; rw [if_pos (by omega)]; simpa using ha
    · have hcl := hsh.colsLe
      have hcu := hsh.curLe'
      rw [hx i hi, dot_congr (w := v) (v := w) fun q hq => hw _ (hsh.rAvoid i q hq).2]
      congr 2
      exact Finset.sum_congr rfl fun j hj => by
        rw [hw _ (by have := Finset.mem_range.1 hj; omega)]

/-! ### C08, C09 constraints on the initial variables -/

theorem addInit_mem {ρ : Rep K} {vec : List K} {rhs : K} {bm : Mat K}
    (hB : ∀ i < ρ.n, ∀ j < ρ.n, bm.e i j = ρ.B i j) (x : ℕ → K) :
    (ρ.addInit vec rhs bm ρ.Ns).Mem x ↔ ρ.Mem x ∧ dotN ρ.n vec x ≤ rhs := by
  unfold Rep.Mem
  have key : ∀ y u, (∀ i < ρ.n, x i = ρ.val y u i) →
      (∑ k ∈ Finset.range ρ.n, vec.getD k 0 *
        ((∑ i ∈ Finset.range ρ.n, bm.e k i * y i) + inSum ρ.m ρ.Ns u k)) = dotN ρ.n vec x := by
    intro y u hx
    unfold dotN
    apply Finset.sum_congr rfl
    intro k hk
    rw [hx k (Finset.mem_range.1 hk)]
    unfold Rep.val
    congr 2
    exact Finset.sum_congr rfl fun i hi => by
      rw [hB k (Finset.mem_range.1 hk) i (Finset.mem_range.1 hi)]
  constructor
  · rintro ⟨y, u, ⟨hP, hc⟩, hx⟩
    have hx' : ∀ i < ρ.n, x i = ρ.val y u i := hx
    exact ⟨⟨y, u, hP, hx'⟩, by rw [← key y u hx']; exact hc⟩
  · rintro ⟨⟨y, u, hP, hx⟩, hc⟩
    exact ⟨y, u, ⟨hP, by rw [key y u hx]; exact hc⟩, hx⟩

/-- **C08.** On an instance with any history, `add_init_constraint` with the current basis matrix
and all input effect matrices added so far cuts exactly the current-time half-space. -/
theorem C08_add_init_constraint {S : Solver K} (hS : S.Honest) {lp : Lp K} {ρ : Rep K}
    {rows : List ℕ} (hlp : Hist S lp ρ rows) {a : List K} {b : K} {bm : Mat K}
    {ies : Option (List (Mat K))} {s : Sys K} {row : ℕ} (hbm : bm.nr = ρ.n)
    (hB : ∀ i < ρ.n, ∀ j < ρ.n, bm.e i j = ρ.B i j) (hies : ies.getD [] = ρ.Ns)
    (hnc : ∀ N ∈ ρ.Ns, N.nc = ρ.m)
    (h : addInitConstraint lp.toSys a b bm ies none = .ok (s, row)) (x : ℕ → K) :
    s.Mem x ↔ lp.Mem x ∧ dotN ρ.n a x ≤ b := by
  have h1 := (Hist.addInit hlp h hbm (by rw [hies]; exact hnc) (by rw [hies])).mem hS x
  rw [hies, addInit_mem hB] at h1
  rw [h1, hlp.mem hS]

/-- **C09.** `try_replace_init_constraint` on a row returned by an earlier constraint call
describes exactly the same intersection as adding a row, whichever answer it reports. -/
theorem C09_try_replace_init_constraint {S : Solver K} (hS : S.Honest) {lp lp' : Lp K} {ρ : Rep K}
    {rows : List ℕ} (hlp : Hist S lp ρ rows) {dm : K} {old : ℕ} (hold : old ∈ rows) {a : List K}
    {b : K} {bm : Mat K} {ies : Option (List (Mat K))} {row : ℕ} {replaced : Bool}
    (hbm : bm.nr = ρ.n) (hB : ∀ i < ρ.n, ∀ j < ρ.n, bm.e i j = ρ.B i j)
    (hies : ies.getD [] = ρ.Ns) (hnc : ∀ N ∈ ρ.Ns, N.nc = ρ.m)
    (h : tryReplaceInitConstraint S dm lp old a b bm ies = .ok (lp', row, replaced)) (x : ℕ → K) :
    (lp'.Mem x ↔ lp.Mem x ∧ dotN ρ.n a x ≤ b) ∧
      lp'.numRows = lp.numRows + (if replaced then 0 else 1) ∧ row = old := by
  have hinv := hlp.inv hS
  have h0 := tryReplace_repr hS h hinv.1 hinv.2.1 (hinv.2.2 _ hold) hbm
    (by rw [hies]; exact hnc) (by rw [hies])
  have h1 := (Hist.tryReplace hlp h hold hbm (by rw [hies]; exact hnc) (by rw [hies])).mem hS x
  rw [hies, addInit_mem hB] at h1
  exact ⟨by rw [h1, hlp.mem hS], h0.2.2.2.2.1, h0.2.2.1⟩

/-! ### C10 check_intersection -/

theorem dotList_map (r : SRow K) (f : ℕ → K) :
    dotList r (r.map fun p => f p.1) = dot r f := by
  unfold dotList dot
  rw [List.zipWith_map_right]
  congr 1
  induction r with
  | nil => rfl
  | cons p r ih => simp [ih]

/-- **C10.** `check_intersection` leaves the set unchanged; it answers `None` only for an empty
set, `True` exactly when some point satisfies `a·x + tol <= rhs`, and `False` only when the set is
non-empty and every point violates it. -/
theorem C10_check_intersection {S : Solver K} (hS : S.Honest) {lp lp' : Lp K} {live : Bool}
    (hlp : Inst S lp live) {lc : LinCon K} {tol : K} {ans : Option Bool}
    (hnd : (lc.row.map fun p => p.1).Nodup) (hwf : ∀ p ∈ lc.row, p.1 < lc.ncols)
    (h : checkIntersection S lp lc tol = .ok (lp', ans)) :
    (∀ x, lp'.Mem x ↔ lp.Mem x) ∧
    (ans = none → ∀ x, ¬ lp.Mem x) ∧
    (ans = some true ↔ ∃ x, lp.Mem x ∧ dot lc.row x + tol ≤ lc.rhs) ∧
    (ans = some false ↔ (∃ x, lp.Mem x) ∧ ∀ x, lp.Mem x → lc.rhs < dot lc.row x + tol) := by
  obtain ⟨-, -, hobj, -⟩ := hlp.inv hS
  simp only [checkIntersection, bind_ok, pure_ok] at h
  obtain ⟨lp1, hd, ⟨lp2, res⟩, hm, heq⟩ := h
  simp only [Prod.mk.injEq] at heq
  obtain ⟨rfl, rfl⟩ := heq
  have hdim : lc.ncols ≤ lp.dims := by
    unfold Lp.setMinDirCsr at hd
    by_contra hc
    simp [hc] at hd
  obtain ⟨ho1, hs1, -, hov⟩ := setMinDirCsr_spec hd hobj
  have hov := (hov hnd).2
  simp only [Option.getD_none] at hov
  obtain ⟨hs2, -, -, hnone, hsome⟩ := minimize_spec hS hm ho1
  have hmem : ∀ x, lp2.Mem x ↔ lp.Mem x := by intro x; rw [hs2, hs1]
  have hdot : ∀ v x : ℕ → K, (∀ i < lp.dims, v (lp.cur + i) = x i) →
      dot lc.row (fun j => v (lp.cur + j)) = dot lc.row x := fun v x hx =>
    dot_congr fun p hp => hx _ (lt_of_lt_of_le (hwf p hp) hdim)
  rw [hs1] at hnone hsome
  cases res with
  | none =>
    have he : ∀ x, ¬ lp.Mem x := fun x ⟨v, hv, _⟩ => hnone rfl v hv
    refine ⟨hmem, fun _ => he, ?_, ?_⟩
    · simp; exact fun x hx => absurd hx (he x)
    · simp only [Option.map_none, reduceCtorEq, false_iff]
      rintro ⟨⟨x, hx⟩, _⟩; exact he x hx
  | some l =>
    obtain ⟨v, hv, hl, hmin, -⟩ := hsome l rfl
    have hmin := hmin rfl
    simp only [hov] at hmin
    have hval : dotList lc.row l = dot lc.row fun j => v (lp.cur + j) := by
      rw [hl]
      simp only [colVals, List.map_map]
      exact dotList_map lc.row fun j => v (lp.cur + j)
    have hvm : lp.Mem fun i => v (lp.cur + i) := ⟨v, hv, fun _ _ => rfl⟩
    have hle : ∀ x, lp.Mem x → dotList lc.row l ≤ dot lc.row x := by
      rintro x ⟨w, hw, hx⟩
      rw [hval, ← hdot w x hx]; exact hmin w hw
    simp only [Option.map_some, Option.some.injEq, reduceCtorEq, decide_eq_true_eq,
      decide_eq_false_iff_not, not_le, false_implies, true_and]
    refine ⟨hmem, ⟨fun h => ⟨_, hvm, by rw [← hval]; exact h⟩, ?_⟩,
      ⟨fun h => ⟨⟨_, hvm⟩, fun x hx => ?_⟩, ?_⟩⟩
    · rintro ⟨x, hx, hx2⟩
      exact le_trans (add_le_add_left (hle x hx) _) hx2
    · exact lt_of_lt_of_le h (add_le_add_left (hle x hx) _)
    · rintro ⟨-, h⟩; rw [hval]; exact h _ hvm

/-! ### C12 resets -/

/-- **C12, with a Minkowski part.** -/
theorem C12_reset_minkowski {S : Solver K} (hS : S.Honest) {lp : Lp K} {live : Bool}
    (hlp : Inst S lp live) {mid ti : ℕ} {R M C : Csr K} {d : List K} {inputs : Bool} {s : Sys K}
    (h : addResetVariables lp.toSys mid ti (some R) (some M) (some C) (some d) inputs = .ok s)
    (hd : 0 < lp.dims) (hR : R.rows ≠ []) (hRwf : R.WF) (hMwf : M.WF) (hCwf : C.WF)
    (hCM : C.ncols = M.ncols) (x : ℕ → K) :
    s.dims = R.nrows ∧ s.ie.isSome = inputs ∧ (s.Mem x ↔ ∃ y w, lp.Mem y ∧ C.le w d ∧
      ∀ i < R.nrows, x i = dot (R.row i) y + dot (M.row i) w) := by
  obtain ⟨hwf, hcur, -, -⟩ := hlp.inv hS
  have h1 := addResetVariables_shape h hwf hcur (fun _ => hR) hd (by rintro _ ⟨⟩; exact hRwf)
    (by rintro _ ⟨⟩; exact hMwf) (by rintro _ ⟨⟩; exact hCwf) (by rintro _ _ ⟨⟩ ⟨⟩; exact hCM)
  have h2 := addResetVariables_mem h hwf hcur (fun _ => hR) hd (by rintro _ ⟨⟩; exact hRwf)
    (by rintro _ ⟨⟩; exact hMwf) (by rintro _ ⟨⟩; exact hCwf) (by rintro _ _ ⟨⟩ ⟨⟩; exact hCM) x
  exact ⟨h1.2.1, h1.2.2.2.1, h2⟩

/-- **C12, without Minkowski part.** `x ↦ R x`. -/
theorem C12_reset {S : Solver K} (hS : S.Honest) {lp : Lp K} {live : Bool}
    (hlp : Inst S lp live) {mid ti : ℕ} {R : Csr K} {mc : Option (Csr K)} {md : Option (List K)}
    {inputs : Bool} {s : Sys K}
    (h : addResetVariables lp.toSys mid ti (some R) none mc md inputs = .ok s)
    (hd : 0 < lp.dims) (hR : R.rows ≠ []) (hRwf : R.WF) (hmc : ∀ m, mc = some m → m.WF)
    (x : ℕ → K) :
    s.dims = R.nrows ∧ s.ie.isSome = inputs ∧
      (s.Mem x ↔ ∃ y, lp.Mem y ∧ ∀ i < R.nrows, x i = dot (R.row i) y) := by
  obtain ⟨hwf, hcur, -, -⟩ := hlp.inv hS
  have h1 := addResetVariables_shape h hwf hcur (fun _ => hR) hd (by rintro _ ⟨⟩; exact hRwf)
    (by rintro _ ⟨⟩) hmc (by rintro _ _ ⟨⟩)
  have h2 := addResetVariables_mem h hwf hcur (fun _ => hR) hd (by rintro _ ⟨⟩; exact hRwf)
    (by rintro _ ⟨⟩) hmc (by rintro _ _ ⟨⟩) x
  refine ⟨h1.2.1, h1.2.2.2.1, h2.trans ?_⟩
  simp only [minkArgs, Csr.row, List.getD_nil, dot_nil, add_zero]
  constructor
  · rintro ⟨y, m, hy, -, hx⟩; exact ⟨y, hy, hx⟩
  · rintro ⟨y, hy, hx⟩; exact ⟨y, fun _ => 0, hy, by intro i hi; simp at hi, hx⟩

/-- **C12, identity reset** (`reset_csr = None`): the set is kept. -/
theorem C12_reset_identity {S : Solver K} (hS : S.Honest) {lp : Lp K} {live : Bool}
    (hlp : Inst S lp live) {mid ti : ℕ} {mc : Option (Csr K)} {md : Option (List K)}
    {inputs : Bool} {s : Sys K}
    (h : addResetVariables lp.toSys mid ti none none mc md inputs = .ok s)
    (hd : 0 < lp.dims) (hmc : ∀ m, mc = some m → m.WF) (x : ℕ → K) :
    s.dims = lp.dims ∧ s.ie.isSome = inputs ∧ (s.Mem x ↔ lp.Mem x) := by
  obtain ⟨hwf, hcur, -, -⟩ := hlp.inv hS
  have h1 := addResetVariables_shape h hwf hcur (by simp) hd (by rintro _ ⟨⟩)
    (by rintro _ ⟨⟩) hmc (by rintro _ _ ⟨⟩)
  have h2 := addResetVariables_mem h hwf hcur (by simp) hd (by rintro _ ⟨⟩)
    (by rintro _ ⟨⟩) hmc (by rintro _ _ ⟨⟩) x
  have hl : (Csr.id (K := K) lp.dims).rows.length = lp.dims := by simp [Csr.id]
  refine ⟨h1.2.1.trans hl, h1.2.2.2.1, h2.trans ?_⟩
  have hid : ∀ i < lp.dims, ∀ y : ℕ → K, dot ((Csr.id (K := K) lp.dims).row i) y = y i := by
    intro i hi y
    rw [Csr.row_lt (by rw [hl]; exact hi)]; simp [Csr.id]
  simp only [minkArgs, Option.getD_none, hl]
  constructor
  · rintro ⟨y, m, ⟨v, hv, hy⟩, -, hx⟩
    refine ⟨v, hv, fun i hi => ?_⟩
    rw [hx i hi, hid i hi, hy i hi]; simp [Csr.row]
  · intro hx
    exact ⟨x, fun _ => 0, hx, by intro i hi; simp at hi, fun i hi => by
      rw [hid i hi]; simp [Csr.row]⟩

end Hylaa
