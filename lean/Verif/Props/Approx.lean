import Verif.Proofs.LggInv
import Verif.Props.RunEx

/-!
# C53, C54: the approximation models
-/

set_option linter.unusedSectionVars false

namespace Hylaa
open Spec

section
variable {K : Type} [Field K] [LinearOrder K] [IsStrictOrderedRing K]

/-- **C54.** The convex hull model replaces the set `X` with which a mode is entered by the convex hull of `X`
and the points reached from `X` in one step: always a superset, and exactly the hull for non-empty bounded sets. -/
theorem C54_chull {S : Solver K} (hS : S.Honest) {T : Tols K} {m : Mode K} {a : Csr K} {d : Dyn K}
    (hd : d.For m) (ha : m.a = some a) (had : a.nrows = d.dims) {lp : Lp K} {X : (ℕ → K) → Prop} {rows : List ℕ}
    (hH : Hist S lp (Rep.ofSet d.dims X) rows) (hlo : RowType.lo ∉ lp.getTypes)
    {mid : ℕ} {steps : ℕ × ℕ} {ol : List ℕ} {con : Bool} {st st' : SS K} {te te' : Option (TE K)}
    (hte : ∀ t, te = some t → t.Inv d) {c : LggCfg K}
    (hm : SS.make T m mid lp steps ol con = .ok st)
    (hap : st.applyApprox S T c d m .chull te = .ok (te', st')) :
    let U := Pts d.dims lp.Mem ∪ Pts d.dims (fun z => ∃ x, lp.Mem x ∧ OneStep m d x z)
    convexHull K U ⊆ Pts d.dims st'.lp.Mem ∧
    ((∃ x, lp.Mem x) → (∃ u, Admissible m u) → Bounded d.dims lp.Mem →
      Bounded d.dims (fun z => ∃ x, lp.Mem x ∧ OneStep m d x z) → Pts d.dims st'.lp.Mem = convexHull K U) := by
  obtain ⟨hst0, hok⟩ := SS.Ok.make (ε := 0) hd ha (hH.inv hS).1 (hH.inv hS).2.1 had hm
  obtain ⟨⟨ρ, hsh, -⟩, -⟩ := hok
  have hs0 : st.stepIn = 0 := by rw [hst0]
  have hslp : st.lp = lp := by rw [hst0]
  simp only [SS.applyApprox, bind_ok, assert_ok] at hap
  obtain ⟨_, -, hap⟩ := hap
  have hlo' : st.lp.NoLo := by
    rw [hslp]
    intro r hr ht
    exact hlo (List.mem_map.2 ⟨r, hr, ht⟩)
  obtain ⟨-, -, -, -, -, l2, hres, hl2⟩ := approxChull_spec hd hte hsh hs0 hlo' hap
  rw [hslp] at hres hl2
  have hsub2 : Pts d.dims l2.Mem = Pts d.dims (fun z => ∃ x, lp.Mem x ∧ OneStep m d x z) := by
    congr 1; funext z; exact propext (hl2 z)
  intro U
  have hsup : convexHull K U ⊆ Pts d.dims st'.lp.Mem := by
    refine convexHull_min ?_ (mem_convex hres.arg)
    rintro z (⟨x, hx, hz⟩ | ⟨x, hx, hz⟩)
    · exact ⟨x, hres.sup lp (by simp) x hx, hz⟩
    · exact ⟨x, hres.sup l2 (by simp) x ((hl2 x).2 hx), hz⟩
  refine ⟨hsup, fun ⟨x, hx⟩ ⟨u, hu⟩ hb hb2 => Set.Subset.antisymm (hres.sub ?_ _ (convex_convexHull K U) ?_) hsup⟩
  · intro l hl
    simp only [List.mem_cons, List.not_mem_nil, or_false] at hl
    rcases hl with rfl | rfl
    · exact ⟨⟨x, hx⟩, hb⟩
    · refine ⟨⟨_, (hl2 _).2 ⟨x, hx, u, hu, fun i _ => rfl⟩⟩, ?_⟩
      have : l.Mem = fun z => ∃ x, lp.Mem x ∧ OneStep m d x z := funext fun z => propext (hl2 z)
      rw [this]; exact hb2
  · intro l hl
    simp only [List.mem_cons, List.not_mem_nil, or_false] at hl
    rcases hl with rfl | rfl
    · exact Set.subset_union_left.trans (subset_convexHull K U)
    · rw [hsub2]; exact Set.subset_union_right.trans (subset_convexHull K U)

end

variable {m : Mode ℝ} {a : Csr ℝ}

/-- `k` steps. -/
theorem LggCov.steps {c : LggCfg ℝ} (hm : LggMode c m a) {X : (ℕ → ℝ) → Prop} {ε : ℝ} {n k : ℕ} 
    {te te' : Option (TE ℝ)} {st st' : SS ℝ} (h : LggCov c m a X ε n te st)
    (hs : takeSteps (dynOf a m.inputs c.tau) m te st (List.replicate k none) = .ok (te', st')) :
    LggCov c m a X ε n te' st' ∧ st'.stepIn = st.stepIn + k := by
  induction k generalizing te st with
  | zero =>
    simp only [List.replicate_zero, takeSteps, Except.ok.injEq, Prod.mk.injEq] at hs
    obtain ⟨rfl, rfl⟩ := hs
    exact ⟨h, rfl⟩
  | succ k ih =>
    simp only [List.replicate_succ, takeSteps, bind_ok] at hs
    obtain ⟨⟨te1, st1⟩, h1, hs⟩ := hs
    obtain ⟨a1, a2⟩ := h.step hm h1
    obtain ⟨b1, b2⟩ := ih a1 hs
    exact ⟨b1, by rw [b2, a2]; omega⟩

/-- A set constructed from constraints, as the initial set of a mode. -/
theorem fromConstraints_fresh {S : Solver ℝ} (hS : S.Honest) {T : Tols ℝ} {τ : ℝ} (hma : ModeReal m a) {csr : Csr ℝ}
    {rhs : List ℝ} {mode : Mode ℝ}
    {types : Option (List RowType)} {names : Option (List String)} {dims? : Option ℕ} {lp : Lp ℝ}
    (hc : fromConstraints S csr rhs mode types names dims? = .ok lp)
    (hnames : ∀ ns, names = some ns → ns.length = csr.ncols) (hwf : csr.WF)
    (hlo : RowType.lo ∉ types.getD []) (hdims : dims?.getD csr.ncols = a.nrows)
    {mid : ℕ} {steps : ℕ × ℕ} {ol : List ℕ} {con : Bool} {st : SS ℝ}
    (hm : SS.make T m mid lp steps ol con = .ok st) :
    LggFresh (dynOf a m.inputs τ) m lp.Mem st ∧ st.mode = mid ∧ st.steps = steps ∧ st.lp = lp := by
  have hfor : (dynOf a m.inputs τ).For m := hma.dyn τ
  have hlo' : lp.NoLo := fromConstraints_noLo' hc hnames hlo
  have hH := Hist.construct hc hnames hwf
  rw [hdims] at hH
  obtain ⟨hst0, hok⟩ := SS.Ok.make (ε := 0) hfor hma.dyns (hH.inv hS).1 (hH.inv hS).2.1 rfl hm
  obtain ⟨⟨ρ, hsh, -⟩, -⟩ := hok
  refine ⟨⟨⟨ρ, hsh⟩, by rw [hst0], by rw [hst0], by rw [hst0], by rw [hst0]; exact hlo',
    by rw [hst0]; exact fresh_cols hc hnames hwf, fun x hx => by rw [hst0]; exact hx⟩,
    by rw [hst0], by rw [hst0], by rw [hst0]⟩

/-- **C53, partial.** LGG model, then `k` steps: the set then contains the state at every time `t` of the `k`-th
interval `[k τ, (k+1) τ]`, of every motion that starts in the set entered with and follows
`x' = A x + B u(t)`, the admissible input `u(t)` varying arbitrarily in time.

Missing: sets entered by a transition (the radius is then read from wrong columns, `C18_radius_wrong`),
`0 < |A| <= 1e-7` (alpha is then 0), and steps with a target.  Whole runs, with invariants: C57. -/
theorem C53_lgg_covers_partial {S : Solver ℝ} (hS : S.Honest) {T : Tols ℝ} {c : LggCfg ℝ}
    (hexp : c.exp = Real.exp) (hτ : 0 < c.tau) (hma : ModeReal m a)
    (hin : ∀ inp, m.inputs = some inp → inp.Shaped a.nrows) (hinv : m.inv = [])
    (htol : aNorm a = 0 ∨ c.tol < aNorm a) {csr : Csr ℝ} {rhs : List ℝ} {mode : Mode ℝ}
    {types : Option (List RowType)} {names : Option (List String)} {dims? : Option ℕ} {lp : Lp ℝ}
    (hc : fromConstraints S csr rhs mode types names dims? = .ok lp)
    (hnames : ∀ ns, names = some ns → ns.length = csr.ncols) (hwf : csr.WF)
    (hlo : RowType.lo ∉ types.getD []) (hdims : dims?.getD csr.ncols = a.nrows)
    {mid : ℕ} {steps : ℕ × ℕ} {ol : List ℕ} {con : Bool} {st st1 st' : SS ℝ} {te1 te' : Option (TE ℝ)}
    (hm : SS.make T m mid lp steps ol con = .ok st)
    {te : Option (TE ℝ)} (hte : LggIdle c m a te)
    (hap : st.applyApprox S T c (dynOf a m.inputs c.tau) m .lgg te = .ok (te1, st1)) {k : ℕ}
    (hst : takeSteps (dynOf a m.inputs c.tau) m te1 st1 (List.replicate k none) = .ok (te', st'))
    {Tm : ℝ} {w u : ℝ → ℕ → ℝ} (hw : Moves m a Tm w u) (hw0 : lp.Mem (w 0)) {t : ℝ}
    (ht0 : k * c.tau ≤ t) (ht1 : t ≤ (k + 1) * c.tau) (htT : t ≤ Tm) : st'.lp.Mem (w t) := by
  have hmode : LggMode c m a := ⟨hma, hin, .inr hinv, htol⟩
  obtain ⟨hf, -⟩ := fromConstraints_fresh hS hma hc hnames hwf hlo hdims (τ := c.tau) hm
  obtain ⟨h0, lp', β, h0'⟩ := applyApprox_like hap
  obtain ⟨hcov, hk⟩ := (hf.approx hS hexp hτ hmode hte 0 hap).steps hmode hst
  have hk : st'.stepIn = k := by rw [hk, h0']; simp [h0]
  exact hcov.mem hexp hτ hmode ⟨hw, hw0, fun _ _ _ => by simp [InvEps, hinv]⟩ (by rw [hk]; exact ht0)
    (by rw [hk]; exact ht1) htT (Nat.zero_le _)

end Hylaa
