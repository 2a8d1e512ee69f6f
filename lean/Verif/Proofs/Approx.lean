import Verif.Model.Approx
import Verif.Proofs.CoreLp
import Verif.Spec.Moves
import Verif.Proofs.Total
import Verif.Proofs.Lgg
import Verif.Props.Chull
import Verif.Props.Query
import Verif.Props.Sums

/-! The sets computed by `apply_approx_chull` and `apply_approx_lgg`. -/

set_option linter.unusedSectionVars false

namespace Hylaa
open Spec
variable {K : Type} [Field K] [LinearOrder K] [IsStrictOrderedRing K]

theorem Sys.Repr.hullArg {s : Sys K} {ρ : Rep K} (h : s.Repr ρ) (hlo : s.NoLo) : HullArg ρ.n s :=
  ⟨hlo, h.wf, h.n, h.curLe⟩

theorem fromConstraints_noLo' {S : Solver K} {csr : Csr K} {rhs : List K} {mode : Mode K}
    {types : Option (List RowType)} {names : Option (List String)} {dims? : Option ℕ} {lp : Lp K}
    (h : fromConstraints S csr rhs mode types names dims? = .ok lp)
    (hnames : ∀ ns, names = some ns → ns.length = csr.ncols) (hts : RowType.lo ∉ types.getD []) : lp.NoLo := by
  have hts : ∀ n, RowType.lo ∉ typesOr types n := by
    intro n
    cases types with
    | none => simp [typesOr]
    | some ts => simpa [typesOr] using hts
  obtain ⟨-, -, -, -, -, -, -, -, -, -, hrows, -⟩ := fromConstraints_ok h hnames
  intro r hr
  rw [hrows] at hr
  rcases List.mem_append.1 hr with hr | hr
  · rcases List.mem_append.1 hr with hr | hr
    · obtain ⟨i, -, rfl⟩ := List.mem_map.1 hr; simp
    · obtain ⟨i, hi, rfl⟩ := List.getElem_of_mem hr
      rw [List.getElem_zipWith, LRow.withCoefs_ty]
      simp only [List.getElem_map, List.getElem_zip]
      intro hc
      exact hts _ (hc ▸ List.getElem_mem _)
  · split at hr
    · obtain ⟨i, -, rfl⟩ := List.mem_map.1 hr; simp
    · simp at hr

/-- Instances just built by `from_constraints`. -/
theorem fromConstraints_objInv {S : Solver K} {csr : Csr K} {rhs : List K} {mode : Mode K}
    {types : Option (List RowType)} {names : Option (List String)} {dims? : Option ℕ} {lp : Lp K}
    (h : fromConstraints S csr rhs mode types names dims? = .ok lp)
    (hnames : ∀ ns, names = some ns → ns.length = csr.ncols) : lp.ObjInv := by
  obtain ⟨-, -, -, -, -, -, -, -, -, -, -, ho, -⟩ := fromConstraints_ok h hnames
  intro j hj; rw [ho] at hj; exact absurd rfl hj

/-- `minkowski_sum`: the result is a freshly built instance. -/
theorem minkowskiSum_fresh {S : Solver K} {M : K} {n : ℕ} {lps : List (Lp K)} {mode : Mode K} {lp : Lp K}
    (hin : ∀ l ∈ lps, HullArg n l.toSys) (h : minkowskiSum S M lps mode = .ok lp) :
    (∃ X, lp.Repr (Rep.ofSet n X)) ∧ lp.NoLo ∧ lp.ObjInv := by
  simp only [minkowskiSum, bind_ok, needSome_ok, assert_ok] at h
  obtain ⟨first, hfirst, _, hdims, h⟩ := h
  have hfm : first ∈ lps := List.mem_of_head? hfirst
  have hn : first.dims = n := (hin first hfm).dims
  set ss := lps.map fun lp => lp.toSys with hssdef
  have hss : ∀ s ∈ ss, SumArg first.dims s := by
    intro s hs
    obtain ⟨l, hl, rfl⟩ := List.mem_map.1 hs
    exact ⟨(hin l hl).noLo, (hin l hl).wf, hdims l hl, (hin l hl).cur⟩
  obtain ⟨w1, w2⟩ := minkBlocks_wf ss hss first.dims
  have hnames : ∀ ns, some ((List.range (first.dims + (ss.map Sys.numCols).sum)).map fun k => s!"c{k}") =
      some ns → ns.length = first.dims + (ss.map Sys.numCols).sum := by
    rintro ns ⟨⟩; simp
  have hw : (⟨first.dims + (ss.map Sys.numCols).sum, ((List.range first.dims).map fun d => (d, (1 : K)) ::
      minkSumRow first.dims ss d) ++ minkBlocks first.dims ss⟩ : Csr K).WF := by
    intro r hr p hp
    rcases List.mem_append.1 hr with hr | hr
    · obtain ⟨d, hd, rfl⟩ := List.mem_map.1 hr
      rcases List.mem_cons.1 hp with rfl | hp
      · have := List.mem_range.1 hd; simp only; omega
      · exact w2 d (List.mem_range.1 hd) p hp
    · exact w1 r hr p hp
  refine ⟨⟨_, hn ▸ fromConstraints_repr h hnames hw⟩, fromConstraints_noLo' h hnames ?_,
    fromConstraints_objInv h hnames⟩
  rw [Option.getD_some, List.mem_append]
  rintro (hc | hc)
  · simp at hc
  · obtain ⟨s, hs, hc⟩ := List.mem_flatMap.1 hc
    exact (Sys.noLo_iff s).1 (hss s hs).noLo hc

/-- The shape of inputs that `set_inputs` checks (hybrid_automaton.py:199-245). -/
structure Inputs.Shaped (inp : Inputs K) (n : ℕ) : Prop where
  b : inp.b.WF
  nr : inp.b.nrows = n
  cols : inp.uCsc.cols.length = inp.b.ncols
  rows : inp.WF

theorem toCsr_le {inp : Inputs K} (hc : inp.uCsc.cols.length = inp.b.ncols)
    (hr : inp.uCsc.nrows = inp.uRhs.length) (u : ℕ → K) :
    inp.uCsc.toCsr.le u inp.uRhs ↔ InputSet inp u := by
  unfold Csr.le InputSet
  refine forall_congr' fun i => forall_congr' fun hi => ?_
  have : inp.uCsc.toCsr.row i =
      (List.range inp.uCsc.cols.length).map fun j => (j, coefAt (inp.uCsc.cols.getD j []) i) := by
    unfold Csr.row Csc.toCsr
    rw [List.getD_eq_getElem?_getD, List.getElem?_map, List.getElem?_range (by omega)]
    rfl
  rw [this, hc]
  have key : ∀ (l : List ℕ) (f : ℕ → K), dot (l.map fun j => (j, f j)) u = (l.map fun j => f j * u j).sum := by
    intro l f
    induction l with
    | nil => simp
    | cons a l ih => simp [dot_cons, ih]
  have key2 : ∀ (n : ℕ) (f : ℕ → K), ((List.range n).map f).sum = ∑ c ∈ Finset.range n, f c := by
    intro n f
    induction n with
    | zero => simp
    | succ n ih => rw [List.range_succ, Finset.sum_range_succ, ← ih]; simp
  rw [key, key2]

/-- `from_input_constraints` for a mode's inputs: a freshly built instance of `{B u}`. -/
theorem fromInput_fresh {S : Solver K} {inp : Inputs K} {n : ℕ} (hs : inp.Shaped n) {mode : Mode K}
    {lp : Lp K} (h : fromInputConstraints S inp.b inp.uCsc.toCsr inp.uRhs mode = .ok lp) :
    (∃ X, lp.Repr (Rep.ofSet n X)) ∧ lp.NoLo ∧ lp.ObjInv ∧
    (∀ v, lp.Sat v → ∀ i < lp.dims, v i = v (lp.cur + i)) ∧
    inp.uCsc.nrows = inp.uRhs.length := by
  simp only [fromInputConstraints, bind_ok, need_ok] at h
  obtain ⟨_, hu, h⟩ := h
  rw [hs.nr] at h hu
  have hnames : ∀ ns, some ((List.range n).map (fun k => s!"c{k}") ++
      (List.range inp.b.ncols).map fun k => s!"u{k}") = some ns → ns.length = n + inp.b.ncols := by
    rintro ns ⟨⟩; simp
  have hlen : inp.uCsc.toCsr.rows.length = inp.uRhs.length := by
    have : (((List.range n).map fun k => ((k, (-1 : K)) :: shiftRow n (inp.b.row k))) ++
      inp.uCsc.toCsr.rows.map (shiftRow n)).length = (List.replicate n (0 : K) ++ inp.uRhs).length := by
        have h' := h
        simp only [fromConstraints, bind_ok, assert_ok] at h'
        exact h'.choose_spec.1
    simpa using this
  have hrow : ∀ i < n, ∀ p ∈ inp.b.row i, p.1 < inp.b.ncols := by
    intro i hi p hp
    have : i < inp.b.rows.length := by rw [← hs.nr] at hi; exact hi
    refine hs.b (inp.b.row i) ?_ p hp
    unfold Csr.row
    rw [List.getD_eq_getElem?_getD, List.getElem?_eq_getElem this]
    exact List.getElem_mem this
  have hw : (⟨n + inp.b.ncols, ((List.range n).map fun k => ((k, (-1 : K)) :: shiftRow n (inp.b.row k))) ++
      inp.uCsc.toCsr.rows.map (shiftRow n)⟩ : Csr K).WF := by
    intro r hr p hp
    rcases List.mem_append.1 hr with hr | hr
    · obtain ⟨k, hk, rfl⟩ := List.mem_map.1 hr
      have hk := List.mem_range.1 hk
      rcases List.mem_cons.1 hp with rfl | hp
      · simp only; omega
      · simp only [shiftRow, List.mem_map] at hp
        obtain ⟨q, hq, rfl⟩ := hp
        have := hrow k hk q hq
        simp only; omega
    · exact hu r hr p hp
  refine ⟨⟨_, fromConstraints_repr h hnames hw⟩, fromConstraints_noLo' h hnames (by simp),
    fromConstraints_objInv h hnames, fresh_cols h hnames hw, ?_⟩
  simpa [Csc.toCsr] using hlen

/-- `scale_with_bm` of a freshly built instance. -/
theorem scaleWithBm_mem {s s' : Sys K} {n : ℕ} {X : (ℕ → K) → Prop} {τ : K} (hs : s.Repr (Rep.ofSet n X))
    (h : scaleWithBm s τ = .ok s') :
    (∃ ρ, s'.Repr ρ ∧ ρ.n = n) ∧ (s.NoLo → s'.NoLo) ∧
    ∀ x, s.Mem x → s'.Mem fun i => τ * x i := by
  simp only [scaleWithBm, bind_ok] at h
  obtain ⟨G, hG, h⟩ := h
  obtain ⟨G', h1, -, -, hB⟩ := getBasisMatrix_repr hs
  rw [h1] at hG
  cases hG
  have hr := setBasisMatrix_repr h hs
  refine ⟨⟨_, hr, rfl⟩, fun hlo => ?_, fun x hx => ?_⟩
  · rw [Sys.noLo_iff] at *
    rw [setBasisMatrix_types h]; exact hlo
  · rw [hs.mem] at hx
    rw [hr.mem]
    obtain ⟨y, u, hp, hv⟩ := hx
    refine ⟨y, u, hp, fun i hi => ?_⟩
    have hv' := hv i hi
    simp only [Rep.val, Rep.setBasis, Rep.ofSet, inSum, List.length_nil, Finset.range_zero,
      Finset.sum_empty, add_zero, Mat.smul] at hv' ⊢
    rw [hv', Finset.mul_sum]
    refine Finset.sum_congr rfl fun j hj => ?_
    rw [hB i hi j (Finset.mem_range.1 hj), mul_assoc]
    rfl

theorem radiusLoop_keeps {S : Solver K} : ∀ {ds : List (ℕ × K)} {lp lp' : Lp K} {acc r : Option K},
    radiusLoop S lp ds acc = .ok (lp', r) → lp'.toSys = lp.toSys ∧ (lp.ObjInv → lp'.ObjInv)
  | [], lp, lp', acc, r, h => by
    simp only [radiusLoop, Except.ok.injEq, Prod.mk.injEq] at h
    obtain ⟨rfl, -⟩ := h
    exact ⟨rfl, id⟩
  | (n, sgn) :: ds, lp, lp', acc, r, h => by
    simp only [radiusLoop, bind_ok] at h
    obtain ⟨⟨lp1, l⟩, hm, h⟩ := h
    obtain ⟨a1, a2⟩ := radiusLoop_keeps h
    obtain ⟨b1, b2⟩ := minimize_keeps hm
    exact ⟨a1.trans b1, fun ho => a2 (b2 ho)⟩

theorem lggSum_spec {S : Solver K} (hS : S.Honest) {T : Tols K} {τ : K} {m : Mode K} {n : ℕ} (hn : 0 < n)
    (hin : ∀ inp, m.inputs = some inp → inp.Shaped n) {one : Lp K} {ρ : Rep K} (h1 : one.Repr ρ)
    (hρ : ρ.n = n) (hlo : one.NoLo) {q : Lp K × K} (h : lggSum S T τ m one = .ok q) :
    (∃ ρ', q.1.Repr ρ' ∧ ρ'.n = n) ∧ q.1.NoLo ∧ 0 ≤ q.2 ∧
    (∀ u, Admissible m u → ∀ i < n, |inputAt m u i| ≤ q.2) ∧
    ∀ x u, one.Mem x → Admissible m u → q.1.Mem fun i => x i + τ * inputAt m u i := by
  unfold lggSum at h
  cases hi : m.inputs with
  | none =>
    rw [hi] at h
    cases h
    refine ⟨⟨ρ, h1, hρ⟩, hlo, le_refl _, fun u _ i _ => by simp [inputAt, hi], fun x u hx _ => ?_⟩
    simpa [inputAt, hi] using hx
  | some inp =>
    rw [hi] at h
    have hsh := hin inp hi
    simp only [bind_ok, needSome_ok, pure_ok] at h
    obtain ⟨v, hv, ⟨v1, r1⟩, hr, r, hr1, s, hs, sum, hsum, rfl⟩ := h
    simp only at hr1 hs hsum
    subst hr1
    obtain ⟨⟨X, hX⟩, vlo, vo, vcol, hrows⟩ := fromInput_fresh hsh hv
    have hvd : v.dims = n := hX.n
    have hmem : ∀ u, Admissible m u → v.Mem fun i => inputAt m u i := by
      intro u hu
      have hk := (C17_from_input_constraints hsh.b hv).2
      rw [hk]
      refine ⟨u, (toCsr_le hsh.cols hrows u).2 (hu inp hi), fun i _ => by simp [inputAt, hi]⟩
    obtain ⟨b, hb, ⟨x0, i0, -, -, hb0⟩, hbd⟩ := radius_core hS hX.curLe vo (by rw [hvd]; exact hn) vcol hr
    cases hb
    obtain ⟨k1, k2⟩ := radiusLoop_keeps hr
    rw [k1] at hs
    obtain ⟨⟨ρ2, g1, g2⟩, g3, g4⟩ := scaleWithBm_mem hX hs
    have harg : ∀ l ∈ [one, { v1 with toSys := s }], HullArg n l.toSys := by
      intro l hl
      simp only [List.mem_cons, List.not_mem_nil, or_false] at hl
      rcases hl with rfl | rfl
      · exact hρ ▸ h1.hullArg hlo
      · exact g2 ▸ g1.hullArg (g3 vlo)
    obtain ⟨⟨Y, hY⟩, slo, -⟩ := minkowskiSum_fresh harg hsum
    refine ⟨⟨_, hY, rfl⟩, slo, hb0 ▸ abs_nonneg _, fun u hu i hi' => hbd _ i (hmem u hu) (by rw [hvd]; exact hi'),
      fun x u hx hu => ?_⟩
    rw [minkowskiSum_mem (fun l hl => (harg l hl).noLo) (fun l hl => ⟨(harg l hl).wf, (harg l hl).cur⟩) hsum]
    exact ⟨x, fun i => τ * inputAt m u i, hx, ⟨fun i => τ * inputAt m u i, fun _ => 0, g4 _ (hmem u hu),
      fun _ _ => rfl, fun i _ => by simp⟩, fun i _ => rfl⟩

/-- `bloat`. -/
theorem bloat_mem {s s' : Sys K} {ρ : Rep K} {a : K} (hs : s.Repr ρ) (hlo : s.NoLo) (h : bloat s a = .ok s') :
    HullArg ρ.n s' ∧ ∀ x (e : ℕ → K), s.Mem x → (∀ i < ρ.n, |e i| ≤ a) → s'.Mem fun i => x i + e i := by
  obtain ⟨X, R, hsh, -⟩ := hs.shape
  obtain ⟨h1, hsv, hnc, -, hr, -⟩ := bloat_shape h hsh
  refine ⟨⟨?_, h1.wf, by rw [hsv.dims]; exact hs.n, h1.curLe'⟩, fun x e hx he => ?_⟩
  · simp only [bloat, bind_ok, assert_ok] at h
    obtain ⟨_, -, h⟩ := h
    rw [Sys.noLo_iff] at *
    rw [setCsc_types h]
    simpa [Sys.getTypes, Sys.addCols, Sys.addRowsLE] using hlo
  · refine (mem_extend (m := s.dims) (F := fun i j => if i = j then 1 else 0)
      (Q := fun e => ∀ i < s.dims, -a ≤ e i ∧ e i ≤ a) hsh h1 hsv (fun v => (hr v).trans
        (and_congr_right fun _ => ?_)) ?_ _).2 ?_
    · exact forall_congr' fun d => imp_congr_right fun _ => by rw [and_comm, neg_le]
    · intro i hi v
      cases hie : s.ie with
      | none => rw [hsh.noIe hie]; simp
      | some p => simp; ring
    · refine ⟨x, e, hx, fun i hi => abs_le.1 (he i (by rw [← hs.n]; exact hi)), fun i hi => ?_⟩
      simp [mulV, hi]

/-- The step-1 request only depends on the one-step matrix. -/
theorem getBasis_one {d : Dyn K} {te : Option (TE K)} (ht : ∀ u, te = some u → u.one = d.ex 1)
    {g : TE K × (Mat K × Option (Mat K))} (hg : getBasis d te 1 = .ok g) :
    g.2.1 = d.ex 1 ∧ g.1.one = d.ex 1 := by
  have h1 : (te.getD (TE.init d)).one = d.ex 1 := by
    cases te with
    | none => rfl
    | some u => exact ht u rfl
  simp only [getBasis, bind_ok, pure_ok, TE.assign, one_ne_zero, if_false, if_true] at hg
  obtain ⟨t, ⟨ie, -, rfl⟩, r, hr, rfl⟩ := hg
  simp only [checkBasis, bind_ok, needSome_ok] at hr
  obtain ⟨b, hb, _, -, hr⟩ := hr
  cases hb
  refine ⟨?_, h1⟩
  split at hr
  · simp only [bind_ok, pure_ok] at hr
    obtain ⟨_, -, rfl⟩ := hr
    exact h1
  · simp only [bind_ok, pure_ok] at hr
    obtain ⟨_, -, _, -, rfl⟩ := hr
    exact h1

theorem lggBetaPart_lp {c : LggCfg K} {d : Dyn K} {m : Mode K} {a : Csr K} {rv : K} {te : TE K} {st st' : SS K}
    {te' : Option (TE K)} {lp : Lp K} (h : st.lggBetaPart c d m a rv te lp = .ok (te', st')) :
    st'.lp.toSys = lp.toSys ∧
    (if c.tol < aNorm a ∧ m.inputs.isSome = true then
      ∃ bt, d.bTau = some bt ∧ te' = some { te with lgg := true, oneIe := some bt } ∧
        st' = { st with lp := st'.lp, lggBeta := some (c.factor a * (rv / aNorm a)) }
     else te' = some te ∧ st' = { st with lp := lp }) := by
  unfold SS.lggBetaPart at h
  split at h
  · rename_i hc
    simp only [bind_ok, assert_ok, pure_ok, Prod.mk.injEq, useLgg, needSome_ok] at h
    obtain ⟨_, -, _, -, lp1, h1, t, ⟨t0, ht0, bt, hbt, rfl⟩, rfl, rfl⟩ := h
    cases ht0
    refine ⟨(setMinDir_toSys h1).1, ?_⟩
    rw [if_pos hc]
    exact ⟨bt, hbt, rfl, rfl⟩
  · rename_i hc
    cases h
    rw [if_neg hc]
    exact ⟨rfl, rfl, rfl⟩

theorem mem_combo {n : ℕ} {s : Sys K} (h : HullArg n s) {x z : ℕ → K} (hx : s.Mem x) (hz : s.Mem z) {l : K}
    (h0 : 0 ≤ l) (h1 : l ≤ 1) : s.Mem fun i => (1 - l) * x i + l * z i := by
  obtain ⟨y, hy, he⟩ := mem_convex h (x := fun i : Fin n => x i) ⟨x, hx, fun _ => rfl⟩
    (y := fun i : Fin n => z i) ⟨z, hz, fun _ => rfl⟩ (sub_nonneg.2 h1) h0 (by ring)
  refine hullArg_mem_congr h (fun i hi => ?_) hy
  have := he ⟨i, hi⟩
  simp only [Pi.add_apply, Pi.smul_apply, smul_eq_mul] at this
  exact this.symm

/-- A clone of an instance with a description is the same instance. -/
theorem clone_eq {lp c : Lp K} {ρ : Rep K} (hr : lp.Repr ρ) (h : lp.clone = .ok c) : c = lp := by
  rw [clone_ok h]
  obtain ⟨X, R, hsh, -⟩ := hr.shape
  have := hsh.idx
  obtain ⟨⟨⟩⟩ := lp
  simp_all

/-- The set entered with, one step later without inputs. -/
theorem SS.Sh.mem_one {d : Dyn K} {st : SS K} {ρ : Rep K} (h : st.Sh d ρ) (h0 : st.stepIn = 0) {s : Sys K}
    (hs : setBasisMatrix st.lp.toSys (d.ex 1) = .ok s) (x : ℕ → K) :
    s.Mem x ↔ ∃ z, st.lp.Mem z ∧ ∀ i < d.dims, x i = mulV d.dims (d.ex 1).e z i := by
  have hr := setBasisMatrix_repr hs h.repr
  have hNs : ρ.Ns = [] := by rw [h.Ns, h0]; unfold Dyn.iesTo; cases d.nmat <;> simp
  have hB : ∀ (y : ℕ → K), ∀ i < d.dims, (∑ j ∈ Finset.range d.dims, ρ.B i j * y j) = y i := by
    intro y i hi
    rw [h.B, h0]
    simp only [Dyn.at, Mat.id, ite_mul, one_mul, zero_mul]
    rw [Finset.sum_ite_eq, if_pos (Finset.mem_range.2 hi)]
  rw [hr.mem]
  unfold Rep.Mem
  simp only [Rep.val, Rep.setBasis, hNs, inSum, List.length_nil, Finset.range_zero, Finset.sum_empty,
    add_zero, h.n]
  constructor
  · rintro ⟨y, u, hp, hv⟩
    refine ⟨y, (h.repr.mem y).2 ⟨y, u, hp, fun i hi => ?_⟩, hv⟩
    rw [h.n] at hi
    simp only [Rep.val, hNs, inSum, List.length_nil, Finset.range_zero, Finset.sum_empty, add_zero, h.n]
    rw [hB y i hi]
  · rintro ⟨z, hz, hx⟩
    obtain ⟨y, u, hp, hv⟩ := (h.repr.mem z).1 hz
    refine ⟨y, u, hp, fun i hi => ?_⟩
    rw [hx i hi]
    refine Finset.sum_congr rfl fun j hj => ?_
    have hj' := Finset.mem_range.1 hj
    have := hv j (by rw [h.n]; exact hj')
    simp only [Rep.val, hNs, inSum, List.length_nil, Finset.range_zero, Finset.sum_empty, add_zero, h.n] at this
    rw [this, hB y j hj']

/-- **`apply_approx_lgg`.** -/
theorem approxLgg_spec {S : Solver K} (hS : S.Honest) {T : Tols K} {c : LggCfg K} {d : Dyn K} {m : Mode K}
    (hpos : 0 < d.dims) (hin : ∀ inp, m.inputs = some inp → inp.Shaped d.dims) {a : Csr K}
    (ha : m.a = some a) {te te' : Option (TE K)} (ht : ∀ u, te = some u → u.one = d.ex 1)
    {st st' : SS K} {ρ : Rep K} (h : st.Sh d ρ) (h0 : st.stepIn = 0) (hlo : st.lp.NoLo)
    (hcol : ∀ v, st.lp.Sat v → ∀ i < st.lp.dims, v i = v (st.lp.cur + i))
    (hs : st.approxLgg S T c d m te = .ok (te', st')) :
    ∃ rx rv lp te1, (∀ x i, st.lp.Mem x → i < d.dims → |x i| ≤ rx) ∧
      (∀ u, Admissible m u → ∀ i < d.dims, |inputAt m u i| ≤ rv) ∧ 0 ≤ rv ∧ 0 ≤ c.alpha a rx rv ∧
      te1.one = d.ex 1 ∧ (d.Laws → (∀ u, te = some u → u.Inv d) → te1.Inv d) ∧
      (∃ X, lp.Repr (Rep.ofSet d.dims X)) ∧ lp.NoLo ∧ lp.ObjInv ∧
      st.lggBetaPart c d m a rv te1 lp = .ok (te', st') ∧
      ∀ x u (e : ℕ → K) l, st.lp.Mem x → Admissible m u → (∀ i < d.dims, |e i| ≤ c.alpha a rx rv) →
        0 ≤ l → l ≤ 1 → lp.Mem fun i => (1 - l) * x i +
          l * (mulV d.dims (d.ex 1).e x i + c.tau * inputAt m u i + e i) := by
  simp only [SS.approxLgg, bind_ok, needSome_ok] at hs
  obtain ⟨a', ha', one, h1, g, hg, s, hsb, ⟨lp1, r1⟩, hrad, rx, hr1, q, hq, ms, hms, lp, hlp, hs⟩ := hs
  rw [ha] at ha'
  cases ha'
  simp only at hr1
  subst hr1
  rw [clone_eq h.repr h1] at hsb hq
  obtain ⟨hg1, hg2⟩ := getBasis_one ht hg
  rw [hg1] at hsb
  have hdim : st.lp.dims = d.dims := by rw [h.repr.n, h.n]
  obtain ⟨b, hb, -, hbd⟩ := radius_core hS h.repr.curLe h.obj (by rw [hdim]; exact hpos) hcol hrad
  cases hb
  obtain ⟨k1, k2⟩ := radiusLoop_keeps hrad
  have hrs := setBasisMatrix_repr hsb h.repr
  have slo : s.NoLo := by
    rw [Sys.noLo_iff] at *
    rw [setBasisMatrix_types hsb]; exact hlo
  obtain ⟨⟨ρ', q1, q2⟩, q3, q4, q5, q6⟩ := lggSum_spec hS hpos hin (one := { st.lp with toSys := s }) hrs
    (show ρ.n = d.dims from h.n) slo hq
  have hbl : 0 ≤ c.alpha a rx q.2 ∧ HullArg d.dims ms ∧ ∀ x (e : ℕ → K), q.1.Mem x →
      (∀ i < d.dims, |e i| ≤ c.alpha a rx q.2) → ms.Mem fun i => x i + e i := by
    split at hms
    · rename_i hz
      cases hms
      refine ⟨hz ▸ le_refl _, q2 ▸ q1.hullArg q3, fun x e hx he => ?_⟩
      refine hullArg_mem_congr (q2 ▸ q1.hullArg q3 : HullArg d.dims _) (fun i hi => ?_) hx
      have := he i hi
      rw [hz] at this
      rw [abs_nonpos_iff.1 this, add_zero]
    · obtain ⟨k1, k2⟩ := bloat_mem q1 q3 hms
      rw [q2] at k1 k2
      refine ⟨?_, k1, k2⟩
      simp only [bloat, bind_ok, assert_ok] at hms
      exact hms.choose_spec.1
  obtain ⟨b1, b2, b3⟩ := hbl
  have harg : ∀ l ∈ [lp1, { q.1 with toSys := ms }], HullArg d.dims l.toSys := by
    intro l hl
    simp only [List.mem_cons, List.not_mem_nil, or_false] at hl
    rcases hl with rfl | rfl
    · rw [k1]; exact h.n ▸ h.repr.hullArg hlo
    · exact b2
  obtain ⟨⟨X, hX⟩, ho, hl, hsub⟩ := chull_spec harg (by simp) hlp
  refine ⟨rx, q.2, lp, g.1, fun x i hx hi => hbd x i hx (by rw [hdim]; exact hi), q5, q4, b1, hg2,
    fun hl hi => (getBasis_ok hl hi hg).1, ⟨X, hX⟩, hl, ho,
    hs, fun x u e l hx hu he l0 l1 => ?_⟩
  have hx1 : lp.Mem x := hsub lp1 (by simp) x (by rw [k1]; exact hx)
  have hz : s.Mem fun i => mulV d.dims (d.ex 1).e x i := (h.mem_one h0 hsb _).2 ⟨x, hx, fun _ _ => rfl⟩
  have hz2 := hsub { q.1 with toSys := ms } (by simp) _ (b3 _ e (q6 _ u hz hu) he)
  exact mem_combo (hX.hullArg hl) hx1 hz2 l0 l1

/-- The second set of `apply_approx_chull`. -/
theorem chullSecond_spec {d : Dyn K} {m : Mode K} (hd : d.For m) {st : SS K} {ρ : Rep K} (h : st.Sh d ρ)
    (h0 : st.stepIn = 0) (hlo : st.lp.NoLo) {s s2 : Sys K} (hsb : setBasisMatrix st.lp.toSys (d.ex 1) = .ok s)
    (hs2 : addInputOpt s d.nmat m = .ok s2) :
    (∃ ρ', s2.Repr ρ' ∧ ρ'.n = ρ.n) ∧ HullArg d.dims s2 ∧ ∀ z, s2.Mem z ↔ ∃ x, st.lp.Mem x ∧ OneStep m d x z := by
  have hrs := setBasisMatrix_repr hsb h.repr
  have slo : s.NoLo := by
    rw [Sys.noLo_iff] at *
    rw [setBasisMatrix_types hsb]; exact hlo
  cases hN : d.nmat with
  | none =>
    rw [hN] at hs2
    cases hs2
    refine ⟨⟨_, hrs, rfl⟩, h.n ▸ hrs.hullArg slo, fun z => (h.mem_one h0 hsb z).trans ?_⟩
    have hno := hd.noInp hN
    constructor
    · rintro ⟨x, hx, hz⟩
      exact ⟨x, hx, fun _ => 0, fun inp hi => (by rw [hno] at hi; cases hi), fun i hi => by
        rw [hz i hi]; simp [inputPart, hN]⟩
    · rintro ⟨x, hx, u, -, hz⟩
      exact ⟨x, hx, fun i hi => by rw [hz i hi]; simp [inputPart, hN]⟩
  | some N =>
    rw [hN] at hs2
    obtain ⟨inp, hi, hc⟩ := hd.inp N hN
    have hNs : ρ.Ns = [] := by rw [h.Ns, h0]; unfold Dyn.iesTo; simp [hN]
    have hr2 := addInputEffects_repr (ρ := ρ.setBasis (d.ex 1)) hs2 hi (.inl hNs) hrs
    refine ⟨⟨_, hr2, rfl⟩, h.n ▸ hr2.hullArg (addInputEffects_noLo slo hs2), fun z => ?_⟩
    rw [hr2.mem]
    constructor
    · rintro ⟨y, u, ⟨hp, hu⟩, hv⟩
      obtain ⟨x, hx, hxe⟩ := (h.mem_one h0 hsb (fun i => (ρ.setBasis (d.ex 1)).val y u i)).1
        ((hrs.mem _).2 ⟨y, u, hp, fun _ _ => rfl⟩)
      refine ⟨x, hx, u 0, (admissible_iff hi _).2 (by simpa [Rep.setBasis, hNs] using hu), fun i hi' => ?_⟩
      rw [hv i (by rw [← h.n] at hi'; exact hi'), ← hxe i hi']
      simp [Rep.val, Rep.addInput, Rep.setBasis, hNs, inSum, inputPart, hN, mulV, hc]
    · rintro ⟨x, hx, u, hu, hz⟩
      obtain ⟨y, v, hp, hv⟩ := (hrs.mem _).1 ((h.mem_one h0 hsb (fun i => mulV d.dims (d.ex 1).e x i)).2
        ⟨x, hx, fun _ _ => rfl⟩)
      have hp' : (ρ.setBasis (d.ex 1)).P y fun _ => u := by
        obtain ⟨w, w1, w2, -⟩ := (hrs.par y v).1 hp
        exact (hrs.par y _).2 ⟨w, w1, w2, fun k hk => absurd hk (by simp [Rep.setBasis, hNs])⟩
      refine ⟨y, fun _ => u, ⟨hp', (admissible_iff hi _).1 hu⟩, fun i hi' => ?_⟩
      have hi2 : i < d.dims := by rw [← h.n]; exact hi'
      have hv' := hv i hi'
      simp only at hv'
      rw [hz i hi2, hv']
      simp [Rep.val, Rep.addInput, Rep.setBasis, hNs, inSum, inputPart, hN, mulV, hc]

/-- **`apply_approx_chull`.** -/
theorem approxChull_spec {S : Solver K} {T : Tols K} {d : Dyn K} {m : Mode K} (hd : d.For m)
    {te te' : Option (TE K)} (ht : ∀ u, te = some u → u.Inv d) {st st' : SS K} {ρ : Rep K} (h : st.Sh d ρ)
    (h0 : st.stepIn = 0) (hlo : st.lp.NoLo) (hs : st.approxChull S T d m te = .ok (te', st')) :
    (∀ u, te' = some u → u.Inv d) ∧ st' = { st with lp := st'.lp } ∧
    (∃ X, st'.lp.Repr (Rep.ofSet d.dims X)) ∧ st'.lp.NoLo ∧ st'.lp.ObjInv ∧
    ∃ l2 : Lp K, HullRes d.dims [st.lp, l2] st'.lp ∧
      ∀ z, l2.Mem z ↔ ∃ x, st.lp.Mem x ∧ OneStep m d x z := by
  simp only [SS.approxChull, bind_ok, pure_ok, Prod.mk.injEq] at hs
  obtain ⟨one, h1, g, hg, s, hsb, s2, hs2, lp, hlp, rfl, rfl⟩ := hs
  rw [clone_eq h.repr h1] at hsb hlp
  obtain ⟨g1, g2⟩ := getBasis_ok hd.laws ht hg
  rw [g2] at hsb hs2
  change setBasisMatrix st.lp.toSys (d.ex 1) = .ok s at hsb
  change addInputOpt s d.nmat m = .ok s2 at hs2
  obtain ⟨-, a1, a2⟩ := chullSecond_spec hd h h0 hlo hsb hs2
  have harg : ∀ l ∈ [st.lp, { st.lp with toSys := s2 }], HullArg d.dims l.toSys := by
    intro l hl
    simp only [List.mem_cons, List.not_mem_nil, or_false] at hl
    rcases hl with rfl | rfl
    · exact h.n ▸ h.repr.hullArg hlo
    · exact a1
  obtain ⟨⟨X, hX⟩, ho, hl, hsub⟩ := chull_spec harg (by simp) hlp
  exact ⟨fun u hu => by cases hu; exact g1, rfl, ⟨X, hX⟩, hl, ho, _, (chull_res 2 (by simp) harg hlp).1, a2⟩

end Hylaa
