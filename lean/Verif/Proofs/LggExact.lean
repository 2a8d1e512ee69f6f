import Verif.Proofs.Approx

/-!
# The set computed by the LGG model, exactly

`approxLgg_spec` (Proofs/Approx) says what the set contains; here: it contains nothing else.
-/

set_option linter.unusedSectionVars false

namespace Hylaa
open Spec
variable {K : Type} [Field K] [LinearOrder K] [IsStrictOrderedRing K]

/-- `scale_with_bm` of a freshly built instance. -/
theorem scaleWithBm_iff {s s' : Sys K} {n : ℕ} {X : (ℕ → K) → Prop} {τ : K} (hs : s.Repr (Rep.ofSet n X))
    (h : scaleWithBm s τ = .ok s') (z : ℕ → K) :
    s'.Mem z ↔ ∃ x, s.Mem x ∧ ∀ i < n, z i = τ * x i := by
  have h' := h
  simp only [scaleWithBm, bind_ok] at h
  obtain ⟨G, hG, h⟩ := h
  obtain ⟨G', h1, -, -, hB⟩ := getBasisMatrix_repr hs
  rw [h1] at hG
  cases hG
  have hr := setBasisMatrix_repr h hs
  rw [hr.mem]
  have key : ∀ (y : ℕ → K), ∀ i < n, (∑ j ∈ Finset.range n, (Mat.smul τ G).e i j * y j) =
      τ * ∑ j ∈ Finset.range n, (Rep.ofSet n X).B i j * y j := by
    intro y i hi
    rw [Finset.mul_sum]
    refine Finset.sum_congr rfl fun j hj => ?_
    rw [← hB i hi j (Finset.mem_range.1 hj), ← mul_assoc]
    rfl
  constructor
  · rintro ⟨y, u, hp, hv⟩
    refine ⟨fun i => ∑ j ∈ Finset.range n, (Rep.ofSet n X).B i j * y j, (hs.mem _).2 ⟨y, u, hp, fun i hi => ?_⟩,
      fun i hi => ?_⟩
    · simp [Rep.val, Rep.ofSet, inSum]
    · rw [hv i hi, ← key y i hi]
      simp [Rep.val, Rep.setBasis, Rep.ofSet, inSum]
  · rintro ⟨x, hx, hz⟩
    obtain ⟨y, u, hp, hv⟩ := (hs.mem x).1 hx
    refine ⟨y, u, hp, fun i hi => ?_⟩
    rw [hz i hi, hv i hi]
    have := key y i hi
    simp [Rep.val, Rep.setBasis, Rep.ofSet, inSum] at this ⊢
    exact this.symm

/-- The largest absolute value of a coordinate of a point of `X`. -/
def RadiusOf (n : ℕ) (X : (ℕ → K) → Prop) (r : K) : Prop :=
  IsGreatest {r | ∃ x i, X x ∧ i < n ∧ r = |x i|} r

/-- The Minkowski sum with `tau * V`, and the radius of `V`. -/
theorem lggSum_exact {S : Solver K} (hS : S.Honest) {T : Tols K} {τ : K} {m : Mode K} {n : ℕ} (hn : 0 < n)
    (hin : ∀ inp, m.inputs = some inp → inp.Shaped n) {one : Lp K} {ρ : Rep K} (h1 : one.Repr ρ)
    (hρ : ρ.n = n) (hlo : one.NoLo) {q : Lp K × K} (h : lggSum S T τ m one = .ok q) :
    RadiusOf n (fun v => ∃ u, Admissible m u ∧ ∀ i < n, v i = inputAt m u i) q.2 ∧
    ∀ z, q.1.Mem z ↔ ∃ x u, one.Mem x ∧ Admissible m u ∧ ∀ i < n, z i = x i + τ * inputAt m u i := by
  unfold lggSum at h
  cases hi : m.inputs with
  | none =>
    rw [hi] at h
    cases h
    have ha : ∀ u, Admissible m u := fun u inp hinp => by rw [hi] at hinp; cases hinp
    have hz : ∀ u i, inputAt m u i = 0 := fun u i => by simp [inputAt, hi]
    refine ⟨⟨⟨fun _ => 0, 0, ⟨fun _ => 0, ha _, fun i _ => (hz _ _).symm⟩, hn, by simp⟩, ?_⟩, fun z => ?_⟩
    · rintro _ ⟨v, i, ⟨u, -, hu⟩, hi', rfl⟩
      rw [hu i hi', hz]; simp
    · constructor
      · exact fun hz' => ⟨z, fun _ => 0, hz', ha _, fun i _ => by rw [hz]; simp⟩
      · rintro ⟨x, u, hx, -, he⟩
        refine hullArg_mem_congr (hρ ▸ h1.hullArg hlo : HullArg n one.toSys) (fun i hi' => ?_) hx
        rw [he i hi', hz]; simp
  | some inp =>
    rw [hi] at h
    have hsh := hin inp hi
    simp only [bind_ok, needSome_ok, pure_ok] at h
    obtain ⟨v, hv, ⟨v1, r1⟩, hr, r, hr1, s, hs, sum, hsum, rfl⟩ := h
    simp only at hr1 hs hsum
    subst hr1
    obtain ⟨⟨X, hX⟩, vlo, vo, vcol, hrows⟩ := fromInput_fresh hsh hv
    have hvd : v.dims = n := hX.n
    have hmem : ∀ x, v.Mem x ↔ ∃ u, Admissible m u ∧ ∀ i < n, x i = inputAt m u i := by
      intro x
      rw [(C17_from_input_constraints hsh.b hv).2]
      unfold ImageOf
      rw [hsh.nr]
      refine exists_congr fun u => and_congr ?_ (by simp [inputAt, hi])
      rw [toCsr_le hsh.cols hrows u]
      exact ⟨fun h inp' hi' => (by rw [hi] at hi'; cases hi'; exact h), fun h => h inp hi⟩
    obtain ⟨b, hb, ⟨x0, i0, hx0, hi0, hb0⟩, hbd⟩ := radius_core hS hX.curLe vo (by rw [hvd]; exact hn) vcol hr
    cases hb
    obtain ⟨k1, k2⟩ := radiusLoop_keeps hr
    rw [k1] at hs
    obtain ⟨⟨ρ2, g1, g2⟩, g3, -⟩ := scaleWithBm_mem hX hs
    have g4 := scaleWithBm_iff hX hs
    have harg : ∀ l ∈ [one, { v1 with toSys := s }], HullArg n l.toSys := by
      intro l hl
      simp only [List.mem_cons, List.not_mem_nil, or_false] at hl
      rcases hl with rfl | rfl
      · exact hρ ▸ h1.hullArg hlo
      · exact g2 ▸ g1.hullArg (g3 vlo)
    obtain ⟨⟨Y, hY⟩, -⟩ := minkowskiSum_fresh harg hsum
    have hsd : sum.dims = n := hY.n
    refine ⟨⟨⟨x0, i0, (hmem _).1 hx0, hvd ▸ hi0, hb0⟩, ?_⟩, fun z => ?_⟩
    · rintro _ ⟨x, i, hx, hi', rfl⟩
      exact hbd x i ((hmem x).2 hx) (by rw [hvd]; exact hi')
    rw [minkowskiSum_mem (fun l hl => (harg l hl).noLo) (fun l hl => ⟨(harg l hl).wf, (harg l hl).cur⟩) hsum, hsd]
    simp only [List.map_cons, List.map_nil, SumOf]
    constructor
    · rintro ⟨x, y, hx, ⟨y1, y2, hy, hy2, hyy⟩, he⟩
      obtain ⟨v', hv', hyv⟩ := (g4 y1).1 hy
      obtain ⟨u, hu, hvu⟩ := (hmem v').1 hv'
      refine ⟨x, u, hx, hu, fun i hi' => ?_⟩
      rw [he i hi', hyy i hi', hy2 i hi', hyv i hi', hvu i hi', add_zero]
    · rintro ⟨x, u, hx, hu, he⟩
      exact ⟨x, fun i => τ * inputAt m u i, hx, ⟨fun i => τ * inputAt m u i, fun _ => 0,
        (g4 _).2 ⟨_, (hmem _).2 ⟨u, hu, fun _ _ => rfl⟩, fun _ _ => rfl⟩, fun _ _ => rfl, fun i _ => by simp⟩, he⟩

theorem bloat_iff {s s' : Sys K} {ρ : Rep K} {a : K} (hs : s.Repr ρ) (h : bloat s a = .ok s') (z : ℕ → K) :
    s'.Mem z ↔ ∃ x, ∃ e : ℕ → K, s.Mem x ∧ (∀ i < ρ.n, |e i| ≤ a) ∧ ∀ i < ρ.n, z i = x i + e i := by
  obtain ⟨X, R, hsh, -⟩ := hs.shape
  obtain ⟨h1, hsv, hnc, -, hr, -⟩ := bloat_shape h hsh
  refine (mem_extend (m := s.dims) (F := fun i j => if i = j then 1 else 0)
      (Q := fun e => ∀ i < s.dims, -a ≤ e i ∧ e i ≤ a) hsh h1 hsv (fun v => (hr v).trans
        (and_congr_right fun _ => ?_)) ?_ z).trans ?_
  · exact forall_congr' fun d => imp_congr_right fun _ => by rw [and_comm, neg_le]
  · intro i hi v
    cases hie : s.ie with
    | none => rw [hsh.noIe hie]; simp
    | some p => simp; ring
  · rw [← hs.n]
    refine exists_congr fun x => exists_congr fun e => and_congr_right fun _ => and_congr ?_ ?_
    · exact forall_congr' fun i => imp_congr_right fun _ => abs_le.symm
    · refine forall_congr' fun i => imp_congr_right fun hi => ?_
      simp [mulV, hi]

/-- The states after one step: `e^{A tau} x + tau B u + e`, `|e| ≤ alpha`. -/
def LggSecond (d : Dyn K) (m : Mode K) (tau alpha : K) (X : (ℕ → K) → Prop) (z : ℕ → K) : Prop :=
  ∃ x u, ∃ e : ℕ → K, X x ∧ Admissible m u ∧ (∀ i < d.dims, |e i| ≤ alpha) ∧
    ∀ i < d.dims, z i = mulV d.dims (d.ex 1).e x i + tau * inputAt m u i + e i

theorem LggSecond.bounded {d : Dyn K} {m : Mode K} {tau alpha : K} {X : (ℕ → K) → Prop} {rx rv : K}
    (hx : ∀ x i, X x → i < d.dims → |x i| ≤ rx)
    (hv : ∀ u i, Admissible m u → i < d.dims → |inputAt m u i| ≤ rv) : Bounded d.dims (LggSecond d m tau alpha X) := by
  refine ⟨(∑ i ∈ Finset.range d.dims, ∑ j ∈ Finset.range d.dims, |(d.ex 1).e i j| * |rx|) + |tau| * rv + alpha, ?_⟩
  rintro z ⟨x, u, e, hX, hu, he, hz⟩ i hi
  rw [hz i hi]
  refine (abs_add_le _ _).trans (add_le_add ((abs_add_le _ _).trans (add_le_add ?_ ?_)) (he i hi))
  · refine (Finset.abs_sum_le_sum_abs _ _).trans (le_trans ?_ (Finset.single_le_sum
      (f := fun i => ∑ j ∈ Finset.range d.dims, |(d.ex 1).e i j| * |rx|)
      (fun i _ => Finset.sum_nonneg fun j _ => by positivity) (Finset.mem_range.2 hi)))
    refine Finset.sum_le_sum fun j hj => ?_
    rw [abs_mul]
    exact mul_le_mul_of_nonneg_left ((hx x j hX (Finset.mem_range.1 hj)).trans (le_abs_self _)) (abs_nonneg _)
  · rw [abs_mul]
    exact mul_le_mul_of_nonneg_left (hv u i hu hi) (abs_nonneg _)

/-- **`apply_approx_lgg`, exactly.** -/
theorem approxLgg_exact {S : Solver K} (hS : S.Honest) {T : Tols K} {c : LggCfg K} {d : Dyn K} {m : Mode K}
    (hpos : 0 < d.dims) (hin : ∀ inp, m.inputs = some inp → inp.Shaped d.dims) {a : Csr K}
    (ha : m.a = some a) {te te' : Option (TE K)} (ht : ∀ u, te = some u → u.one = d.ex 1)
    {st st' : SS K} {ρ : Rep K} (h : st.Sh d ρ) (h0 : st.stepIn = 0) (hlo : st.lp.NoLo)
    (hcol : ∀ v, st.lp.Sat v → ∀ i < st.lp.dims, v i = v (st.lp.cur + i))
    (hs : st.approxLgg S T c d m te = .ok (te', st')) :
    ∃ rx rv, RadiusOf d.dims st.lp.Mem rx ∧
      RadiusOf d.dims (fun v => ∃ u, Admissible m u ∧ ∀ i < d.dims, v i = inputAt m u i) rv ∧
      let U := Pts d.dims st.lp.Mem ∪ Pts d.dims (LggSecond d m c.tau (c.alpha a rx rv) st.lp.Mem)
      Pts d.dims st'.lp.Mem = convexHull K U := by
  simp only [SS.approxLgg, bind_ok, needSome_ok] at hs
  obtain ⟨a', ha', one, h1, g, hg, s, hsb, ⟨lp1, r1⟩, hrad, rx, hr1, q, hq, ms, hms, lp, hlp, hs⟩ := hs
  rw [ha] at ha'
  cases ha'
  simp only at hr1
  subst hr1
  rw [clone_eq h.repr h1] at hsb hq
  obtain ⟨hg1, hg2⟩ := getBasis_one ht hg
  rw [hg1] at hsb
  have hdim : st.lp.dims = d.dims := by rw [h.repr.n, h.n]
  obtain ⟨b, hb, ⟨x0, i0, hx0, hi0, hb0⟩, hbd⟩ := radius_core hS h.repr.curLe h.obj (by rw [hdim]; exact hpos) hcol hrad
  cases hb
  obtain ⟨k1, k2⟩ := radiusLoop_keeps hrad
  have hrs := setBasisMatrix_repr hsb h.repr
  have slo : s.NoLo := by
    rw [Sys.noLo_iff] at *
    rw [setBasisMatrix_types hsb]; exact hlo
  obtain ⟨⟨ρ', q1, q2⟩, q3, -⟩ := lggSum_spec hS hpos hin (one := { st.lp with toSys := s }) hrs
    (show ρ.n = d.dims from h.n) slo hq
  obtain ⟨e1, e2⟩ := lggSum_exact hS hpos hin (one := { st.lp with toSys := s }) hrs
    (show ρ.n = d.dims from h.n) slo hq
  have hbl : 0 ≤ c.alpha a rx q.2 ∧ HullArg d.dims ms ∧ ∀ z, ms.Mem z ↔ ∃ x, ∃ e : ℕ → K, q.1.Mem x ∧
      (∀ i < d.dims, |e i| ≤ c.alpha a rx q.2) ∧ ∀ i < d.dims, z i = x i + e i := by
    split at hms
    · rename_i hz
      cases hms
      have harg : HullArg d.dims q.1.toSys := q2 ▸ q1.hullArg q3
      refine ⟨hz ▸ le_refl _, harg, fun z => ⟨fun h => ⟨z, fun _ => 0, h, fun i _ => by simp [hz],
        fun i _ => by simp⟩, ?_⟩⟩
      rintro ⟨x, e, hx, he, hze⟩
      refine hullArg_mem_congr harg (fun i hi => ?_) hx
      have := he i hi
      rw [hz] at this
      rw [hze i hi, abs_nonpos_iff.1 this, add_zero]
    · obtain ⟨k1, -⟩ := bloat_mem q1 q3 hms
      have k2 := bloat_iff q1 hms
      rw [q2] at k1 k2
      refine ⟨?_, k1, k2⟩
      simp only [bloat, bind_ok, assert_ok] at hms
      exact hms.choose_spec.1
  obtain ⟨b1, b2, b3⟩ := hbl
  have harg : ∀ l ∈ [lp1, { q.1 with toSys := ms }], HullArg d.dims l.toSys := by
    intro l hl
    simp only [List.mem_cons, List.not_mem_nil, or_false] at hl
    rcases hl with rfl | rfl
    · rw [k1]; exact h.n ▸ h.repr.hullArg hlo
    · exact b2
  obtain ⟨hres, -⟩ := chull_res _ le_rfl harg hlp
  have hmem' : st'.lp.Mem = lp.Mem := by unfold Sys.Mem; rw [(lggBetaPart_lp hs).1]
  have hm1 : lp1.Mem = st.lp.Mem := by unfold Sys.Mem; rw [k1]
  have hm2 : ∀ z, ms.Mem z ↔ LggSecond d m c.tau (c.alpha a rx q.2) st.lp.Mem z := by
    intro z
    rw [b3]
    constructor
    · rintro ⟨y, e, hy, he, hz⟩
      obtain ⟨x1, u, hx1, hu, hy'⟩ := (e2 y).1 hy
      obtain ⟨x, hx, hxe⟩ := (h.mem_one h0 hsb x1).1 hx1
      exact ⟨x, u, e, hx, hu, he, fun i hi => by rw [hz i hi, hy' i hi, hxe i hi]⟩
    · rintro ⟨x, u, e, hx, hu, he, hz⟩
      exact ⟨fun i => mulV d.dims (d.ex 1).e x i + c.tau * inputAt m u i, e,
        (e2 _).2 ⟨fun i => mulV d.dims (d.ex 1).e x i, u, (h.mem_one h0 hsb _).2 ⟨x, hx, fun _ _ => rfl⟩, hu,
          fun _ _ => rfl⟩, he, hz⟩
  have hm2' : ({ q.1 with toSys := ms } : Lp K).Mem = LggSecond d m c.tau (c.alpha a rx q.2) st.lp.Mem :=
    funext fun z => propext (hm2 z)
  refine ⟨rx, q.2, ⟨⟨x0, i0, hx0, hdim ▸ hi0, hb0⟩, ?_⟩, e1, ?_⟩
  · rintro _ ⟨x, i, hx, hi, rfl⟩
    exact hbd x i hx (by rw [hdim]; exact hi)
  rw [hmem']
  intro U
  have hsup : convexHull K U ⊆ Pts d.dims lp.Mem := by
    refine convexHull_min ?_ (mem_convex hres.arg)
    rintro z (⟨x, hx, hz⟩ | ⟨x, hx, hz⟩)
    · exact ⟨x, hres.sup lp1 (by simp) x (by rw [hm1]; exact hx), hz⟩
    · exact ⟨x, hres.sup { q.1 with toSys := ms } (by simp) x (by rw [hm2']; exact hx), hz⟩
  have hb2 : Bounded d.dims (LggSecond d m c.tau (c.alpha a rx q.2) st.lp.Mem) :=
    LggSecond.bounded (fun x i hx hi => hbd x i hx (by rw [hdim]; exact hi))
      fun u i hu hi => e1.2 ⟨_, i, ⟨u, hu, fun _ _ => rfl⟩, hi, rfl⟩
  refine Set.Subset.antisymm (hres.sub ?_ _ (convex_convexHull K U) ?_) hsup
  · intro l hl
    simp only [List.mem_cons, List.not_mem_nil, or_false] at hl
    rcases hl with rfl | rfl
    · rw [hm1]; exact ⟨⟨x0, hx0⟩, rx, fun x hx i hi => hbd x i hx (by rw [hdim]; exact hi)⟩
    · rw [hm2']
      obtain ⟨⟨v, i, ⟨u, hu, -⟩, -⟩, -⟩ := e1
      exact ⟨⟨_, x0, u, fun _ => 0, hx0, hu, fun i _ => by rw [abs_zero]; exact b1, fun i _ => rfl⟩, hb2⟩
  · intro l hl
    simp only [List.mem_cons, List.not_mem_nil, or_false] at hl
    rcases hl with rfl | rfl
    · rw [hm1]; exact Set.subset_union_left.trans (subset_convexHull K U)
    · rw [hm2']; exact Set.subset_union_right.trans (subset_convexHull K U)

end Hylaa
