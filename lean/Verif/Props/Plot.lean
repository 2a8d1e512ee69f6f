import Verif.Model.Plot
import Verif.Proofs.PlotLp
import Verif.Props.OpsEx
import Verif.Props.Query
import Verif.Proofs.Total
import Mathlib.Algebra.Order.BigOperators.Group.Finset

/-!
# Property C50: plot vertices
-/

set_option linter.unusedSectionVars false

namespace Hylaa
variable {K : Type} [Field K] [LinearOrder K] [IsStrictOrderedRing K]

/-- Spec: the value of a plot dimension at a state `x` of dimension `n`. -/
def PlotDim.val (n : ℕ) (d : PlotDim K) (x : ℕ → K) : K :=
  match d with
  | .idx i => x i
  | .dir l => ∑ i ∈ Finset.range n, l.getD i 0 * x i
  | .time => 0

/-- Spec: the plot dimension makes sense for `n` variables. -/
def PlotDim.Valid (n : ℕ) (d : PlotDim K) : Prop :=
  match d with
  | .idx i => i < n
  | .dir l => l.length = n
  | .time => True

theorem zip_sum (a b : List K) (h : a.length = b.length) :
    ((a.zip b).map fun p => p.1 * p.2).sum =
      ∑ i ∈ Finset.range a.length, a.getD i 0 * b.getD i 0 := by
  induction a generalizing b with
  | nil => simp
  | cons x a ih =>
    cases b with
    | nil => simp at h
    | cons y b =>
      simp only [List.length_cons] at h ⊢
      rw [Finset.sum_range_succ', List.zip_cons_cons, List.map_cons, List.sum_cons,
        ih b (by omega)]
      simp [add_comm]

theorem minPoint_spec {S : Solver K} (hS : S.Honest) {s : Sys K}
    (hcur : s.cur + s.dims ≤ s.numCols) {lp lp' : Lp K} {d l : List K} (hp : PlotLp s lp)
    (h : minPoint S lp d = .ok (lp', l)) :
    PlotLp s lp' ∧ ∃ x, s.Mem x ∧ (l = (List.range s.dims).map x) ∧
      ∀ y, s.Mem y → (∑ i ∈ Finset.range d.length, d.getD i 0 * x i) ≤
        ∑ i ∈ Finset.range d.length, d.getD i 0 * y i := by
  obtain ⟨rfl, ho⟩ := hp
  simp only [minPoint, bind_ok] at h
  obtain ⟨lp1, h1, ⟨lp2, r⟩, h2, l', h3, h4⟩ := h
  simp only [pure_ok, Prod.mk.injEq] at h4
  obtain ⟨rfl, rfl⟩ := h4
  have hs1 := setMinDir_toSys h1
  have ho1 := (setMinDir_obj h1 ho).1
  obtain ⟨e1, e2, -, -, e5⟩ := minimize_spec hS h2 ho1
  obtain ⟨v, hv, hl, hmin, -⟩ := e5 _ (needSome_ok.1 h3)
  have hmin := hmin rfl
  rw [hs1.1] at hv hmin
  have hl2 : d.length ≤ lp.dims := hs1.2
  refine ⟨⟨e1.trans hs1.1, e2⟩, fun i => v (lp.cur + i), ⟨v, hv, fun _ _ => rfl⟩, ?_, ?_⟩
  · simp [hl, colVals, curColumns, Function.comp_def]
  · rintro y ⟨w, hw, hy⟩
    have := hmin w hw
    rw [setMinDir_objVal h1 ho hcur, setMinDir_objVal h1 ho hcur] at this
    refine this.trans (le_of_eq (Finset.sum_congr rfl fun i hi => ?_))
    rw [hy i (by have := Finset.mem_range.1 hi; omega)]

/-! ### Time plots -/

theorem plotDir_sum {n : ℕ} {d : PlotDim K} (hd : d.Valid n) (ht : d ≠ .time) (x : ℕ → K) :
    (plotDir n d).length = n ∧
      (∑ i ∈ Finset.range n, (plotDir n d).getD i 0 * x i) = d.val n x := by
  cases d with
  | idx i =>
    refine ⟨by simp [plotDir], ?_⟩
    simp only [plotDir, PlotDim.val]
    rw [Finset.sum_eq_single i]
    · rw [getD_map_range _ _ _ _ hd, if_pos rfl, one_mul]
    · intro b hb hne
      rw [getD_map_range _ _ _ _ (Finset.mem_range.1 hb), if_neg hne, zero_mul]
    · intro h; exact absurd (Finset.mem_range.2 hd) h
  | dir l => exact ⟨hd, rfl⟩
  | time => exact absurd rfl ht

theorem extremes_spec {S : Solver K} (hS : S.Honest) {s : Sys K}
    (hcur : s.cur + s.dims ≤ s.numCols) {lp lp' : Lp K} {d : PlotDim K} (hd : d.Valid s.dims)
    (ht : d ≠ .time) {lo hi : K} (hp : PlotLp s lp)
    (h : extremes S lp (plotDir lp.dims d) = .ok (lp', lo, hi)) :
    PlotLp s lp' ∧ IsLeast {v | ∃ x, s.Mem x ∧ v = d.val s.dims x} lo ∧
      IsGreatest {v | ∃ x, s.Mem x ∧ v = d.val s.dims x} hi := by
  have hlp : lp.dims = s.dims := by rw [← hp.sys]
  rw [hlp] at h
  simp only [extremes, bind_ok] at h
  obtain ⟨⟨lp1, l1⟩, h1, lo', h2, ⟨lp2, l2⟩, h3, hi', h4, h5⟩ := h
  simp only [pure_ok, Prod.mk.injEq] at h5
  obtain ⟨rfl, rfl, rfl⟩ := h5
  obtain ⟨p1, x1, m1, e1, q1⟩ := minPoint_spec hS hcur hp h1
  obtain ⟨p2, x2, m2, e2, q2⟩ := minPoint_spec hS hcur p1 h3
  obtain ⟨hlen, -⟩ := plotDir_sum hd ht x1
  simp only [List.length_map, hlen] at q1 q2
  have hval : ∀ (x : ℕ → K) (v : K), npDot (plotDir s.dims d) ((List.range s.dims).map x) = .ok v →
      v = d.val s.dims x := by
    intro x v hv
    unfold npDot at hv
    split at hv
    · next hl =>
      cases hv
      rw [zip_sum _ _ hl, hlen, ← (plotDir_sum hd ht x).2]
      refine Finset.sum_congr rfl fun i hi => ?_
      rw [getD_map_range _ _ _ _ (Finset.mem_range.1 hi)]
    · cases hv
  have hneg : ∀ x : ℕ → K, (∑ i ∈ Finset.range s.dims,
      ((plotDir s.dims d).map fun a => -1 * a).getD i 0 * x i) = -d.val s.dims x := by
    intro x
    rw [← (plotDir_sum hd ht x).2, ← Finset.sum_neg_distrib]
    refine Finset.sum_congr rfl fun i hi => ?_
    have : i < (plotDir s.dims d).length := by rw [hlen]; exact Finset.mem_range.1 hi
    simp only [List.getD_eq_getElem?_getD, List.getElem?_map, List.getElem?_eq_getElem this,
      Option.map_some, Option.getD_some]
    ring
  rw [e1] at h2; rw [e2] at h4
  have hv1 := hval _ _ h2
  have hv2 := hval _ _ h4
  refine ⟨p2, ⟨⟨x1, m1, hv1⟩, ?_⟩, ⟨x2, m2, hv2⟩, ?_⟩
  · rintro v ⟨y, hy, rfl⟩
    have := q1 y hy
    rw [(plotDir_sum hd ht x1).2, (plotDir_sum hd ht y).2] at this
    rw [hv1]; exact this
  · rintro v ⟨y, hy, rfl⟩
    have := q2 y hy
    rw [hneg, hneg] at this
    rw [hv2]; linarith

/-- Spec: `vs` traces the rectangle `[t0, t1] × [lo, hi]` up to `tol`: all vertices are corners of
the rectangle and every corner is within `tol` of a vertex; if neither side is degenerate, the
vertices are the four corners in order, wrapped around. -/
structure TracesRect {P : Type} (tol : K) (pt : K → K → P) (t0 t1 lo hi : K) (vs : List P) : Prop where
  corner : ∀ p ∈ vs, ∃ t v, (t = t0 ∨ t = t1) ∧ (v = lo ∨ v = hi) ∧ p = pt t v
  covered : ∀ t v, (t = t0 ∨ t = t1) → (v = lo ∨ v = hi) →
    ∃ t' v', pt t' v' ∈ vs ∧ |t - t'| ≤ tol ∧ |v - v'| ≤ tol
  full : tol < |lo - hi| → tol < |t0 - t1| →
    vs = [pt t0 lo, pt t0 hi, pt t1 hi, pt t1 lo, pt t0 lo]
  closed : vs.head? = vs.getLast?

theorem timeCorners_rect {P : Type} {tol : K} (htol : 0 ≤ tol) (pt : K → K → P) (t0 t1 lo hi : K)
    {vs : List P} (h : wrap (timeCorners tol pt t0 t1 lo hi) = .ok vs) :
    TracesRect tol pt t0 t1 lo hi vs := by
  unfold timeCorners at h
  by_cases h1 : tol < |lo - hi| <;> by_cases h2 : tol < |t0 - t1| <;>
    simp only [h1, h2, if_true, if_false, wrap, List.cons_append, List.nil_append,
      List.append_nil, List.head?_cons, needSome_ok, bind_ok, pure_ok, Option.some.injEq] at h <;>
    obtain ⟨_, rfl, rfl⟩ := h
  · refine ⟨?_, ?_, fun _ _ => rfl, by simp⟩
    · intro p hp
      simp only [List.mem_cons, List.not_mem_nil, or_false] at hp
      rcases hp with rfl | rfl | rfl | rfl | rfl
      exacts [⟨_, _, .inl rfl, .inl rfl, rfl⟩, ⟨_, _, .inl rfl, .inr rfl, rfl⟩,
        ⟨_, _, .inr rfl, .inr rfl, rfl⟩, ⟨_, _, .inr rfl, .inl rfl, rfl⟩,
        ⟨_, _, .inl rfl, .inl rfl, rfl⟩]
    · rintro t v (rfl | rfl) (rfl | rfl) <;>
        exact ⟨t, v, by simp, by simpa using htol, by simpa using htol⟩
  · have h2' : |t1 - t0| ≤ tol := by rw [abs_sub_comm]; exact not_lt.1 h2
    refine ⟨?_, ?_, fun _ h => absurd h h2, by simp⟩
    · intro p hp
      simp only [List.mem_cons, List.not_mem_nil, or_false] at hp
      rcases hp with rfl | rfl | rfl
      exacts [⟨_, _, .inl rfl, .inl rfl, rfl⟩, ⟨_, _, .inl rfl, .inr rfl, rfl⟩,
        ⟨_, _, .inl rfl, .inl rfl, rfl⟩]
    · rintro t v (rfl | rfl) (rfl | rfl)
      exacts [⟨t, v, by simp, by simpa using htol, by simpa using htol⟩,
        ⟨t, v, by simp, by simpa using htol, by simpa using htol⟩,
        ⟨t0, v, by simp, h2', by simpa using htol⟩, ⟨t0, v, by simp, h2', by simpa using htol⟩]
  · have h1' : |hi - lo| ≤ tol := by rw [abs_sub_comm]; exact not_lt.1 h1
    refine ⟨?_, ?_, fun h => absurd h h1, by simp⟩
    · intro p hp
      simp only [List.mem_cons, List.not_mem_nil, or_false] at hp
      rcases hp with rfl | rfl | rfl
      exacts [⟨_, _, .inl rfl, .inl rfl, rfl⟩, ⟨_, _, .inr rfl, .inl rfl, rfl⟩,
        ⟨_, _, .inl rfl, .inl rfl, rfl⟩]
    · rintro t v (rfl | rfl) (rfl | rfl)
      exacts [⟨t, v, by simp, by simpa using htol, by simpa using htol⟩,
        ⟨t, lo, by simp, by simpa using htol, h1'⟩,
        ⟨t, v, by simp, by simpa using htol, by simpa using htol⟩,
        ⟨t, lo, by simp, by simpa using htol, h1'⟩]
  · have h1' : |hi - lo| ≤ tol := by rw [abs_sub_comm]; exact not_lt.1 h1
    have h2' : |t1 - t0| ≤ tol := by rw [abs_sub_comm]; exact not_lt.1 h2
    refine ⟨?_, ?_, fun h => absurd h h1, by simp⟩
    · intro p hp
      simp only [List.mem_cons, List.not_mem_nil, or_false] at hp
      rcases hp with rfl | rfl
      exacts [⟨_, _, .inl rfl, .inl rfl, rfl⟩, ⟨_, _, .inl rfl, .inl rfl, rfl⟩]
    · rintro t v (rfl | rfl) (rfl | rfl)
      exacts [⟨t, v, by simp, by simpa using htol, by simpa using htol⟩,
        ⟨t, lo, by simp, by simpa using htol, h1'⟩,
        ⟨t0, v, by simp, h2', by simpa using htol⟩, ⟨t0, lo, by simp, h2', h1'⟩]

/-- **C50**, time on the x axis: the polygon is the rectangle spanned by the time interval and the
exact minimum and maximum of the plotted dimension (or direction) over the set. -/
theorem C50_time_on_x {S : Solver K} (hS : S.Honest) (G : Geom K) {lp lp' : Lp K} {live : Bool}
    (hlp : Inst S lp live) {y : PlotDim K} (hy : y ≠ .time) (hval : y.Valid lp.dims)
    {t : K × K} {tol small thousand : K} (htol : 0 ≤ tol) {fuel : ℕ} {vs : List (List K)}
    (h : getVerts S G lp .time y t tol small thousand fuel = .ok (lp', vs)) :
    ∃ lo hi, IsLeast {v | ∃ x, lp.Mem x ∧ v = y.val lp.dims x} lo ∧
      IsGreatest {v | ∃ x, lp.Mem x ∧ v = y.val lp.dims x} hi ∧
      TracesRect tol (fun a b => [a, b]) t.1 t.2 lo hi vs := by
  obtain ⟨-, hcur, ho, -⟩ := hlp.inv hS
  simp only [getVerts, bind_ok] at h
  obtain ⟨⟨lp1, vs1⟩, h1, vs', h2, h3⟩ := h
  simp only [pure_ok, Prod.mk.injEq] at h3
  obtain ⟨rfl, rfl⟩ := h3
  have h1 : (do
      let e ← extremes S lp (plotDir lp.dims y)
      return (e.1, timeCorners tol (fun a b => [a, b]) t.1 t.2 e.2.1 e.2.2) :
        Except Err (Lp K × List (List K))) = .ok (lp1, vs1) := by
    cases y with
    | idx i => exact h1
    | dir l => exact h1
    | time => exact absurd rfl hy
  simp only [bind_ok, pure_ok, Prod.mk.injEq] at h1
  obtain ⟨⟨lp2, lo, hi⟩, h4, -, rfl⟩ := h1
  obtain ⟨-, e1, e2⟩ := extremes_spec hS hcur hval hy ⟨rfl, ho⟩ h4
  exact ⟨lo, hi, e1, e2, timeCorners_rect htol _ _ _ _ _ h2⟩

/-- **C50**, time on the y axis. -/
theorem C50_time_on_y {S : Solver K} (hS : S.Honest) (G : Geom K) {lp lp' : Lp K} {live : Bool}
    (hlp : Inst S lp live) {x : PlotDim K} (hx : x ≠ .time) (hval : x.Valid lp.dims)
    {t : K × K} {tol small thousand : K} (htol : 0 ≤ tol) {fuel : ℕ} {vs : List (List K)}
    (h : getVerts S G lp x .time t tol small thousand fuel = .ok (lp', vs)) :
    ∃ lo hi, IsLeast {v | ∃ s, lp.Mem s ∧ v = x.val lp.dims s} lo ∧
      IsGreatest {v | ∃ s, lp.Mem s ∧ v = x.val lp.dims s} hi ∧
      TracesRect tol (fun a b => [b, a]) t.1 t.2 lo hi vs := by
  obtain ⟨-, hcur, ho, -⟩ := hlp.inv hS
  simp only [getVerts, bind_ok] at h
  obtain ⟨⟨lp1, vs1⟩, h1, vs', h2, h3⟩ := h
  simp only [pure_ok, Prod.mk.injEq] at h3
  obtain ⟨rfl, rfl⟩ := h3
  have h1 : (do
      let e ← extremes S lp (plotDir lp.dims x)
      return (e.1, timeCorners tol (fun a b => [b, a]) t.1 t.2 e.2.1 e.2.2) :
        Except Err (Lp K × List (List K))) = .ok (lp1, vs1) := by
    cases x with
    | idx i => exact h1
    | dir l => exact h1
    | time => exact absurd rfl hx
  simp only [bind_ok, pure_ok, Prod.mk.injEq] at h1
  obtain ⟨⟨lp2, lo, hi⟩, h4, -, rfl⟩ := h1
  obtain ⟨-, e1, e2⟩ := extremes_spec hS hcur hval hx ⟨rfl, ho⟩ h4
  exact ⟨lo, hi, e1, e2, timeCorners_rect htol _ _ _ _ _ h2⟩

/-! ### Two-dimensional plots -/

section kamenev
variable {σ : Type} {G : Geom K} {f : Supp K σ} {I : σ → Prop} {P : List K → Prop}
  (hf : ∀ s v s' p, I s → f s v = .ok (s', p) → I s' ∧ P p)
include hf

theorem twoPointsLoop_all {dims fuel d : ℕ} {s s' : σ} {pts pts' : List (List K)} (hs : I s)
    (hp : ∀ p ∈ pts, P p) (h : twoPointsLoop G dims f fuel d s pts = .ok (s', pts')) :
    I s' ∧ ∀ p ∈ pts', P p := by
  induction fuel generalizing d s pts with
  | zero => cases h; exact ⟨hs, hp⟩
  | succ n ih =>
    simp only [twoPointsLoop, bind_ok] at h
    obtain ⟨⟨s1, p1⟩, h1, _, -, ⟨s2, p2⟩, h2, h3⟩ := h
    obtain ⟨i1, q1⟩ := hf _ _ _ _ hs h1
    obtain ⟨i2, q2⟩ := hf _ _ _ _ i1 h2
    split at h3
    · exact ih i2 (by simpa using q1) h3
    · cases h3
      exact ⟨i2, by simpa using ⟨q1, q2⟩⟩

theorem simplexLoop_all {p0 : List K} {fuel : ℕ} {s s' : σ} {vecs pts pts' : List (List K)}
    (hs : I s) (hp : ∀ p ∈ pts, P p) (h : simplexLoop G f p0 fuel s vecs pts = .ok (s', pts')) :
    I s' ∧ ∀ p ∈ pts', P p := by
  have hap : ∀ (pts : List (List K)) q, (∀ p ∈ pts, P p) → P q → ∀ p ∈ pts ++ [q], P p := by
    intro pts q h1 h2 p hp
    rcases List.mem_append.1 hp with h | h
    · exact h1 p h
    · simp only [List.mem_singleton] at h; exact h ▸ h2
  induction fuel generalizing s vecs pts with
  | zero => cases h; exact ⟨hs, hp⟩
  | succ n ih =>
    simp only [simplexLoop, bind_ok] at h
    obtain ⟨⟨s1, p1⟩, h1, h⟩ := h
    obtain ⟨i1, q1⟩ := hf _ _ _ _ hs h1
    split at h
    · exact ih i1 (hap _ _ hp q1) h
    · simp only [bind_ok] at h
      obtain ⟨⟨s2, p2⟩, h2, h⟩ := h
      obtain ⟨i2, q2⟩ := hf _ _ _ _ i1 h2
      split at h
      · exact ih i2 (hap _ _ hp q2) h
      · exact ih i2 hp h

theorem facetLoop_all {eps : K} {k : ℕ} {fs : List (List ℕ × List K × K)} {s s' : σ}
    {pts pts' : List (List K)} (hs : I s) (hp : ∀ p ∈ pts, P p)
    (h : facetLoop G f eps k fs s pts = .ok (s', pts')) : I s' ∧ ∀ p ∈ pts', P p := by
  induction fs generalizing s pts with
  | nil => cases h; exact ⟨hs, hp⟩
  | cons a fs ih =>
    obtain ⟨sim, nrm, rhs⟩ := a
    simp only [facetLoop] at h
    split at h
    · exact ih hs hp h
    · simp only [bind_ok] at h
      obtain ⟨⟨s1, p1⟩, h1, _, -, h⟩ := h
      obtain ⟨i1, q1⟩ := hf _ _ _ _ hs h1
      split at h
      · refine ih i1 ?_ h
        intro p hp'
        rcases List.mem_append.1 hp' with h | h
        · exact hp p h
        · simp only [List.mem_singleton] at h; exact h ▸ q1
      · exact ih i1 hp h

theorem refineLoop_all {eps : K} {fuel : ℕ} {s s' : σ} {verts new vs : List (List K)} (hs : I s)
    (hv : ∀ p ∈ verts, P p) (hn : ∀ p ∈ new, P p)
    (h : refineLoop G f eps fuel s verts new = .ok (s', vs)) : I s' ∧ ∀ p ∈ vs, P p := by
  induction fuel generalizing s verts new with
  | zero =>
    cases new with
    | nil => simp only [refineLoop, Except.ok.injEq, Prod.mk.injEq] at h; obtain ⟨rfl, rfl⟩ := h; exact ⟨hs, hv⟩
    | cons a l => simp [refineLoop] at h
  | succ n ih =>
    cases new with
    | nil => simp only [refineLoop, Except.ok.injEq, Prod.mk.injEq] at h; obtain ⟨rfl, rfl⟩ := h; exact ⟨hs, hv⟩
    | cons a l =>
      simp only [refineLoop, bind_ok] at h
      obtain ⟨hh, -, ⟨s1, new1⟩, h2, h⟩ := h
      obtain ⟨i1, q1⟩ := facetLoop_all hf hs (by simp) h2
      refine ih i1 ?_ q1 h
      intro p hp
      rcases List.mem_append.1 hp with h | h
      · exact hv p h
      · exact hn p h

theorem kamenevVerts_all {dims fuel : ℕ} {eps : K} {s s' : σ} {vs : List (List K)} (hs : I s)
    (h : kamenevVerts G dims f eps fuel s = .ok (s', vs)) : I s' ∧ ∀ p ∈ vs, P p := by
  simp only [kamenevVerts, bind_ok] at h
  obtain ⟨⟨s1, pts⟩, h1, h2⟩ := h
  simp only [findInitSimplex, bind_ok] at h1
  obtain ⟨⟨s0, two⟩, h0, h1⟩ := h1
  obtain ⟨i0, q0⟩ := twoPointsLoop_all hf hs (by simp) h0
  have hinit : I s1 ∧ ∀ p ∈ pts, P p := by
    simp only at h1
    split at h1
    · next p0 p1 => exact simplexLoop_all hf i0 q0 h1
    · cases h1; exact ⟨i0, q0⟩
  split at h2
  · cases h2; exact hinit
  · exact refineLoop_all hf hinit.1 (by simp) hinit.2 h2

end kamenev

theorem suppPoint_spec {S : Solver K} (hS : S.Honest) {s : Sys K}
    (hcur : s.cur + s.dims ≤ s.numCols) {a b : ℕ} {lp lp' : Lp K} {vec p : List K}
    (hp : PlotLp s lp) (h : suppPoint S a b lp vec = .ok (lp', p)) :
    PlotLp s lp' ∧ ∃ x, s.Mem x ∧ p = [x a, x b] ∧
      (a ≠ b → ∀ y, s.Mem y → vec.getD 0 0 * y a + vec.getD 1 0 * y b ≤
        vec.getD 0 0 * x a + vec.getD 1 0 * x b) := by
  have hlp : lp.dims = s.dims := by rw [← hp.sys]
  simp only [suppPoint, bind_ok] at h
  obtain ⟨d, h1, ⟨lp1, l⟩, h2, u, h3, v, h4, h5⟩ := h
  simp only [pure_ok, Prod.mk.injEq] at h5
  obtain ⟨rfl, rfl⟩ := h5
  obtain ⟨p1, x, m, e, q⟩ := minPoint_spec hS hcur hp h2
  simp only [suppDir, bind_ok, assert_ok, pure_ok] at h1
  obtain ⟨_, hl2, _, ⟨ha, hb⟩, rfl⟩ := h1
  simp only at h3 h4
  rw [e] at h3 h4
  rw [hlp] at ha hb
  have hx : ∀ i < s.dims, ((List.range s.dims).map x)[i]? = some (x i) := by
    intro i hi; simp [hi]
  have h3   := needSome_ok.1 h3
  have h4   := needSome_ok.1 h4
  rw [hx a ha] at h3; rw [hx b hb] at h4
  cases h3; cases h4
  refine ⟨p1, x, m, rfl, fun hab y hy => ?_⟩
  have := q y hy
  simp only [List.length_set, List.length_replicate, hlp] at this
  have hsum : ∀ z : ℕ → K, (∑ i ∈ Finset.range s.dims,
      (((List.replicate s.dims (0 : K)).set a (-(vec.getD 0 0))).set b (-(vec.getD 1 0))).getD i 0
        * z i) = -(vec.getD 0 0) * z a + -(vec.getD 1 0) * z b := by
    intro z
    have : ∀ i ∈ Finset.range s.dims,
      (((List.replicate s.dims (0 : K)).set a (-(vec.getD 0 0))).set b (-(vec.getD 1 0))).getD i 0
        * z i = (if i = a then -(vec.getD 0 0) * z a else 0) +
          (if i = b then -(vec.getD 1 0) * z b else 0) := by
      intro i hi
      have hi := Finset.mem_range.1 hi
      by_cases h1 : i = b
      · subst h1
        rw [if_neg (fun h => hab h.symm), if_pos rfl, zero_add, List.getD_eq_getElem?_getD,
          List.getElem?_set_self (by simpa using hi), Option.getD_some]
      · rw [if_neg h1, add_zero, List.getD_eq_getElem?_getD, List.getElem?_set_ne (fun h => h1 h.symm)]
        by_cases h2 : i = a
        · subst h2
          rw [if_pos rfl, List.getElem?_set_self (by simpa using hi), Option.getD_some]
        · rw [if_neg h2, List.getElem?_set_ne (fun h => h2 h.symm)]
          simp [hi]
    rw [Finset.sum_congr rfl this, Finset.sum_add_distrib, Finset.sum_ite_eq', Finset.sum_ite_eq',
      if_pos (Finset.mem_range.2 ha), if_pos (Finset.mem_range.2 hb)]
  rw [hsum, hsum] at this
  linarith

theorem mapM_mem {vs ws : List (List K)} {is : List ℕ}
    (h : is.mapM (fun i => needSome vs[i]?) = Except.ok (ε := Err) ws) : ∀ w ∈ ws, w ∈ vs := by
  induction is generalizing ws with
  | nil => simp only [List.mapM_nil, pure_ok] at h; subst h; simp
  | cons i is ih =>
    simp only [List.mapM_cons, bind_ok, pure_ok] at h
    obtain ⟨a, h1, l, h2, rfl⟩ := h
    intro w hw
    rcases List.mem_cons.1 hw with rfl | hw
    · exact List.mem_of_getElem? (needSome_ok.1 h1)
    · exact ih h2 w hw

theorem wrap_spec {P : Type} {vs ws : List P} (h : wrap vs = .ok ws) :
    ws.head? = ws.getLast? ∧ (∀ w ∈ ws, w ∈ vs) ∧ 2 ≤ ws.length := by
  simp only [wrap, bind_ok, pure_ok] at h
  obtain ⟨a, h1, rfl⟩ := h
  have h1   := needSome_ok.1 h1
  cases vs with
  | nil => cases h1
  | cons b l =>
    cases h1
    refine ⟨?_, fun w hw => by simpa [or_comm] using hw, by simp⟩
    rw [List.getLast?_append]; simp

/-- **C50**, two-dimensional plots: whatever the hull and SVD routines answer, and however long the
refinement runs, every vertex returned is the projection of a state of the set, and the polygon
is closed. -/
theorem C50_vertices_in_set {S : Solver K} (hS : S.Honest) (G : Geom K) {lp lp' : Lp K}
    {live : Bool} (hlp : Inst S lp live) {a b : ℕ} {t : K × K} {tol small thousand : K}
    {fuel : ℕ} {vs : List (List K)}
    (h : getVerts S G lp (.idx a) (.idx b) t tol small thousand fuel = .ok (lp', vs)) :
    (∀ p ∈ vs, ∃ x, lp.Mem x ∧ p = [x a, x b]) ∧ vs.head? = vs.getLast? ∧ 2 ≤ vs.length := by
  obtain ⟨-, hcur, ho, -⟩ := hlp.inv hS
  simp only [getVerts, bind_ok] at h
  obtain ⟨⟨lp1, vs1⟩, h1, vs', h2, h3⟩ := h
  simp only [pure_ok, Prod.mk.injEq] at h3
  obtain ⟨rfl, rfl⟩ := h3
  obtain ⟨w1, w2, w3⟩ := wrap_spec h2
  refine ⟨fun p hp => ?_, w1, w3⟩
  have hp := w2 p hp
  simp only [vertsOpen, verts2d, bind_ok] at h1
  obtain ⟨⟨l1, d1⟩, b1, ⟨l2, d2⟩, b2, ⟨l3, ks⟩, hk, ws, hr, h5⟩ := h1
  simp only [pure_ok, Prod.mk.injEq] at h5
  obtain ⟨rfl, rfl⟩ := h5
  have hbb : ∀ {l l' : Lp K} {d : ℕ} {w : K}, PlotLp lp.toSys l →
      bboxWidth S l d small = .ok (l', w) → PlotLp lp.toSys l' := by
    intro l l' d w hl hb
    simp only [bboxWidth, bind_ok] at hb
    obtain ⟨⟨m1, r1⟩, c1, ⟨m2, r2⟩, c2, c3⟩ := hb
    simp only [pure_ok, Prod.mk.injEq] at c3
    obtain ⟨rfl, -⟩ := c3
    obtain ⟨g1, g2, -⟩ := minimize_spec hS c1 hl.obj
    obtain ⟨g3, g4, -⟩ := minimize_spec hS c2 g2
    exact ⟨g3.trans (g1.trans hl.sys), g4⟩
  have hl2 := hbb (hbb ⟨rfl, ho⟩ b1) b2
  obtain ⟨-, hall⟩ := kamenevVerts_all (I := PlotLp lp.toSys)
    (P := fun p => ∃ x, lp.Mem x ∧ p = [x a, x b])
    (fun s v s' p hs hh => by
      obtain ⟨q1, x, q2, q3, -⟩ := suppPoint_spec hS hcur hs hh
      exact ⟨q1, x, q2, q3⟩) hl2 hk
  unfold reorder at hr
  simp only at hr
  split at hr
  · simp only [bind_ok] at hr
    obtain ⟨hh, -, hm⟩ := hr
    exact hall p (mapM_mem hm p hp)
  · cases hr; exact hall p hp

/-! ### `pt_to_plot_xy` -/

/-- **C50**, simulation points: with integer or time dimensions the plotted pair is the pair of
coordinates (or the time), **except** that the integer `0` as y dimension is taken for "no
dimension". -/
theorem C50_point_xy {pt : List K} {x : PlotDim K} {j : ℕ} {t : K} {i : ℕ}
    (hi : i < pt.length) (hj : j < pt.length) (hj0 : j ≠ 0) :
    ptToPlotXy pt (.idx i) (.idx j) t = .ok (pt.getD i 0, pt.getD j 0) ∧
    ptToPlotXy pt .time (.idx j) t = .ok (t, pt.getD j 0) ∧
    ptToPlotXy pt (.idx i) .time t = .ok (pt.getD i 0, t) := by
  obtain ⟨k, rfl⟩ : ∃ k, j = k + 1 := ⟨j - 1, by omega⟩
  simp [ptToPlotXy, plotX, plotY, needSome, hi, hj, bind, Except.bind, pure, Except.pure,
    List.getElem?_eq_getElem]

/-- **C50 fails** for `ydim = 0`: the y coordinate plotted is the time instead of variable 0. -/
theorem C50_ydim_zero_wrong (pt : List K) {i : ℕ} (hi : i < pt.length) (t : K) :
    ptToPlotXy pt (.idx i) (.idx 0) t = .ok (pt.getD i 0, t) := by
  simp [ptToPlotXy, plotX, plotY, needSome, hi, bind, Except.bind, pure, Except.pure,
    List.getElem?_eq_getElem]

/-- **C50 fails** for direction arrays of at least two entries: `elif ydim` on an array raises. -/
theorem C50_direction_raises (pt : List K) (x : PlotDim K) (d : List K) (hd : 2 ≤ d.length) (t : K) :
    ∃ e, ptToPlotXy pt x (.dir d) t = .error e := by
  have hy : plotY pt (.dir d) t = .error .runtime := by
    match d, hd with
    | a :: b :: l, _ => rfl
  unfold ptToPlotXy
  cases hx : plotX pt x t with
  | error e => exact ⟨e, rfl⟩
  | ok v => exact ⟨.runtime, by simp [hy, bind, Except.bind]⟩

/-- **C50 fails** for `xdim = ydim = None`: `get_verts` always raises. -/
theorem C50_both_none_raises (S : Solver K) (G : Geom K) (lp : Lp K) (t : K × K)
    (tol small thousand : K) (fuel : ℕ) :
    getVerts S G lp .time .time t tol small thousand fuel = .error .runtime := rfl

/-! ### The plots exist: non-vacuity -/

theorem minPoint_accepts {S : Solver K} (hS : S.Complete) {s : Sys K} (hw : s.WF)
    (hcur : s.cur + s.dims ≤ s.numCols) {lp : Lp K} (hp : PlotLp s lp) {d : List K}
    (hd : d.length ≤ s.dims) (hne : ∃ x, s.Mem x) {B : K}
    (hB : ∀ x, s.Mem x → B ≤ ∑ i ∈ Finset.range d.length, d.getD i 0 * x i) :
    ∃ lp' l, minPoint S lp d = .ok (lp', l) := by
  obtain ⟨rfl, ho⟩ := hp
  have h1 : lp.setMinDir d = .ok (lp.clearObj.setObjDenseLoop lp.cur d) := by
    simp [Lp.setMinDir, hd]
  have hsys := (setMinDir_toSys h1).1
  obtain ⟨x, w, hw1, -⟩ := hne
  obtain ⟨lp2, l, h2⟩ := minimize_complete hS (lp := lp.clearObj.setObjDenseLoop lp.cur d)
    (dir := none) (columns := some (curColumns lp)) (f := true) rfl (by
      intro cs hcs c hc
      cases hcs
      simp only [curColumns, List.mem_map, List.mem_range] at hc
      obtain ⟨n, hn, rfl⟩ := hc
      rw [hsys]; omega)
    (Lp.attain (by rw [hsys]; exact hw) ⟨w, by rw [hsys]; exact hw1⟩ (B := B) (by
      intro v hv
      rw [setMinDir_objVal h1 ho hcur]
      rw [hsys] at hv
      exact hB _ ⟨v, hv, fun _ _ => rfl⟩))
  exact ⟨lp2, l, by simp [minPoint, h1, h2, needSome, bind, Except.bind, pure, Except.pure]⟩

/-- Time plots of non-empty sets that are bounded along the plotted direction succeed. -/
theorem C50_time_plot_exists {S : Solver K} (hS : S.Complete) (G : Geom K) {lp : Lp K}
    {live : Bool} (hlp : Inst S lp live) {y : PlotDim K} (hy : y ≠ .time)
    (hval : y.Valid lp.dims) (hne : ∃ x, lp.Mem x) {lo hi : K}
    (hb : ∀ x, lp.Mem x → lo ≤ y.val lp.dims x ∧ y.val lp.dims x ≤ hi)
    (t : K × K) (tol small thousand : K) (fuel : ℕ) :
    (∃ lp' vs, getVerts S G lp .time y t tol small thousand fuel = .ok (lp', vs)) ∧
    ∃ lp' vs, getVerts S G lp y .time t tol small thousand fuel = .ok (lp', vs) := by
  obtain ⟨hw, hcur, ho, -⟩ := hlp.inv hS.toHonest
  have hlen := fun x => plotDir_sum hval hy x
  obtain ⟨lp1, l1, h1⟩ := minPoint_accepts hS hw hcur (lp := lp) ⟨rfl, ho⟩
    (d := plotDir lp.dims y) (le_of_eq (hlen fun _ => 0).1) hne (B := lo) (by
      intro x hx; rw [(hlen x).1, (hlen x).2]; exact (hb x hx).1)
  obtain ⟨p1, x1, -, e1, -⟩ := minPoint_spec hS.toHonest hcur ⟨rfl, ho⟩ h1
  obtain ⟨lp2, l2, h2⟩ := minPoint_accepts hS hw hcur p1
    (d := (plotDir lp.dims y).map fun a => -1 * a)
    (by rw [List.length_map]; exact le_of_eq (hlen fun _ => 0).1) hne (B := -hi) (by
      intro x hx
      have : (∑ i ∈ Finset.range ((plotDir lp.dims y).map fun a => -1 * a).length,
          ((plotDir lp.dims y).map fun a => -1 * a).getD i 0 * x i) = -y.val lp.dims x := by
        rw [← (hlen x).2, ← Finset.sum_neg_distrib, List.length_map, (hlen x).1]
        refine Finset.sum_congr rfl fun i hi => ?_
        have : i < (plotDir lp.dims y).length := by rw [(hlen x).1]; exact Finset.mem_range.1 hi
        simp only [List.getD_eq_getElem?_getD, List.getElem?_map, List.getElem?_eq_getElem this,
          Option.map_some, Option.getD_some]
        ring
      rw [this]; linarith [(hb x hx).2])
  obtain ⟨-, x2, -, e2, -⟩ := minPoint_spec hS.toHonest hcur p1 h2
  have hE : ∃ e, extremes S lp (plotDir lp.dims y) = .ok e := by
    have hdot : ∀ x : ℕ → K, ∃ v, npDot (plotDir lp.dims y) ((List.range lp.dims).map x) = .ok v := by
      intro x
      unfold npDot
      rw [if_pos (by rw [(hlen x).1]; simp)]
      exact ⟨_, rfl⟩
    obtain ⟨v1, hv1⟩ := hdot x1
    obtain ⟨v2, hv2⟩ := hdot x2
    rw [← e1] at hv1; rw [← e2] at hv2
    exact ⟨(lp2, v1, v2), by simp only [extremes, bind_ok, pure_ok]; exact ⟨_, h1, _, hv1, _, h2, _, hv2, rfl⟩⟩
  obtain ⟨e, hE⟩ := hE
  constructor
  · cases y with
    | time => exact absurd rfl hy
    | idx i =>
      simp [getVerts, vertsOpen, hE, timeCorners, wrap, needSome, bind, Except.bind, pure,
        Except.pure]
    | dir d =>
      simp [getVerts, vertsOpen, hE, timeCorners, wrap, needSome, bind, Except.bind, pure,
        Except.pure]
  · cases y with
    | time => exact absurd rfl hy
    | idx i =>
      simp [getVerts, vertsOpen, hE, timeCorners, wrap, needSome, bind, Except.bind, pure,
        Except.pure]
    | dir d =>
      simp [getVerts, vertsOpen, hE, timeCorners, wrap, needSome, bind, Except.bind, pure,
        Except.pure]

/-- The time plot of the set `[-1, 3]` over `[0, 1]` is the rectangle one expects. -/
example (G : Geom ℚ) : ∃ lp lp' : Lp ℚ, (∀ x, lp.Mem x ↔ -1 ≤ x 0 ∧ x 0 ≤ 3) ∧
    getVerts (idealSolver ℚ) G lp .time (.idx 0) (0, 1) 0 0 1 0 =
      .ok (lp', [[0, -1], [0, 3], [1, 3], [1, -1], [0, -1]]) := by
  obtain ⟨lp, ρ, hH, hd, -, -, -, -, hm⟩ := exStep
  have hS := idealSolver_complete (K := ℚ)
  have hv : (PlotDim.idx 0 : PlotDim ℚ).Valid lp.dims := by
    simp only [PlotDim.Valid, hd]; norm_num
  obtain ⟨⟨lp', vs, h⟩, -⟩ := C50_time_plot_exists hS G (Inst.hist hH) (y := .idx 0) (by simp) hv
    ⟨fun _ => 0, (hm _).2 (by norm_num)⟩ (lo := -1) (hi := 3)
    (fun x hx => (hm x).1 hx) (0, 1) 0 0 1 0
  obtain ⟨lo, hi, h1, h2, h3⟩ := C50_time_on_x hS.toHonest G (Inst.hist hH) (by simp) hv (le_refl 0) h
  have hset : {v | ∃ x, lp.Mem x ∧ v = (PlotDim.idx 0 : PlotDim ℚ).val lp.dims x} =
      Set.Icc (-1) 3 := by
    ext v
    simp only [Set.mem_setOf_eq, PlotDim.val, Set.mem_Icc]
    constructor
    · rintro ⟨x, hx, rfl⟩; exact (hm x).1 hx
    · intro hv; exact ⟨fun _ => v, (hm _).2 hv, rfl⟩
  rw [hset] at h1 h2
  have e1 : lo = -1 := h1.unique (isLeast_Icc (by norm_num))
  have e2 : hi = 3 := h2.unique (isGreatest_Icc (by norm_num))
  subst e1 e2
  refine ⟨lp, lp', hm, ?_⟩
  rw [h, h3.full (by norm_num) (by norm_num)]

/-- The two-dimensional plot of a bounded non-empty set succeeds, e.g. with a trivial hull. -/
theorem C50_plot_exists {S : Solver K} (hS : S.Complete) {lp : Lp K}
    {live : Bool} (hlp : Inst S lp live) {a b : ℕ} (ha : a < lp.dims) (hb : b < lp.dims)
    (hne : ∃ x, lp.Mem x) {lo hi : K} (hbd : ∀ x i, i < lp.dims → lp.Mem x → lo ≤ x i ∧ x i ≤ hi)
    (t : K × K) (tol small thousand : K) :
    ∃ (G : Geom K) (lp' : Lp K) (vs : List (List K)),
      getVerts S G lp (.idx a) (.idx b) t tol small thousand 0 = .ok (lp', vs) := by
  obtain ⟨hw, hcur, ho, -⟩ := hlp.inv hS.toHonest
  let M := max |lo| |hi|
  have habs : ∀ x i, i < lp.dims → lp.Mem x → |x i| ≤ M := by
    intro x i hi' hx
    exact abs_le_max_abs_abs (hbd x i hi' hx).1 (hbd x i hi' hx).2
  have hbelow : ∀ (d : List K), d.length ≤ lp.dims → ∀ x, lp.Mem x →
      -(∑ i ∈ Finset.range d.length, |d.getD i 0| * M) ≤
        ∑ i ∈ Finset.range d.length, d.getD i 0 * x i := by
    intro d hd x hx
    rw [← Finset.sum_neg_distrib]
    refine Finset.sum_le_sum fun i hi' => ?_
    have hi' := Finset.mem_range.1 hi'
    have h1 : |d.getD i 0 * x i| ≤ |d.getD i 0| * M := by
      rw [abs_mul]; exact mul_le_mul_of_nonneg_left (habs x i (by omega) hx) (abs_nonneg _)
    linarith [(abs_le.1 h1).1]
  have hmin : ∀ (l : Lp K) (d : List K) (cols : List ℕ), PlotLp lp.toSys l → d.length ≤ lp.dims →
      (∀ c ∈ cols, c < lp.numCols) → ∃ l' r, minimize S l (some d) (some cols) true = .ok (l', some r)
      ∧ PlotLp lp.toSys l' := by
    intro l d cols hl hd hc
    have h1 : l.setMinDir d = .ok (l.clearObj.setObjDenseLoop l.cur d) := by
      simp [Lp.setMinDir, hl.sys, hd]
    have hsys := (setMinDir_toSys h1).1.trans hl.sys
    obtain ⟨x, w, hw1, -⟩ := hne
    obtain ⟨v, hv, hvm⟩ := Lp.attain (lp := l.clearObj.setObjDenseLoop l.cur d)
      (by rw [hsys]; exact hw) ⟨w, by rw [hsys]; exact hw1⟩
      (B := -(∑ i ∈ Finset.range d.length, |d.getD i 0| * M)) (by
      intro v hv
      rw [setMinDir_objVal h1 hl.obj (by rw [hl.sys]; exact hcur)]
      rw [hsys] at hv
      exact hbelow d hd _ ⟨v, hv, fun _ _ => by rw [hl.sys]⟩)
    obtain ⟨l', r, hr⟩ := minimize_answers hS hl.obj (by rw [hl.sys]; exact hcur)
      (by rw [hl.sys]; exact hd) (columns := some cols) (f := true)
      (by intro cs h; cases h; rw [hl.sys]; exact hc) (v := v) (by rw [hl.sys, ← hsys]; exact hv)
      (by
        intro w hw
        have := hvm w (by rw [hsys, ← hl.sys]; exact hw)
        rwa [setMinDir_objVal h1 hl.obj (by rw [hl.sys]; exact hcur),
          setMinDir_objVal h1 hl.obj (by rw [hl.sys]; exact hcur)] at this)
    obtain ⟨g1, g2, -⟩ := minimize_spec hS.toHonest hr hl.obj
    exact ⟨l', r, hr, g1.trans hl.sys, g2⟩
  have hbb : ∀ (l : Lp K) (d : ℕ), PlotLp lp.toSys l → d < lp.dims →
      ∃ l' w, bboxWidth S l d small = .ok (l', w) ∧ PlotLp lp.toSys l' := by
    intro l d hl hd
    have hld : l.dims = lp.dims := by rw [hl.sys]
    have hlc : l.cur = lp.cur := by rw [hl.sys]
    obtain ⟨l1, r1, q1, p1⟩ := hmin l (axis l.dims d 1) [l.cur + d] hl (by simp [axis, hld])
      (by simp only [List.mem_singleton, forall_eq, hlc]; omega)
    have hl1d : l1.dims = lp.dims := by rw [p1.sys]
    have hl1c : l1.cur = lp.cur := by rw [p1.sys]
    obtain ⟨l2, r2, q2, p2⟩ := hmin l1 (axis l.dims d (-1)) [l.cur + d] p1 (by simp [axis, hld])
      (by simp only [List.mem_singleton, forall_eq, hlc]; omega)
    exact ⟨l2, _, by simp only [bboxWidth, bind_ok, pure_ok]; exact ⟨_, q1, _, q2, rfl⟩, p2⟩
  have hsupp : ∀ (l : Lp K) (v : List K), PlotLp lp.toSys l → v.length = 2 →
      ∃ l' p, suppPoint S a b l v = .ok (l', p) ∧ PlotLp lp.toSys l' ∧ p.length = 2 := by
    intro l v hl hv
    have hld : l.dims = lp.dims := by rw [hl.sys]
    obtain ⟨l1, p, h1⟩ := minPoint_accepts hS hw hcur hl
      (d := ((List.replicate l.dims 0).set a (-(v.getD 0 0))).set b (-(v.getD 1 0)))
      (by simp [hld]) hne (hbelow _ (by simp [hld]))
    obtain ⟨q1, x, -, rfl, -⟩ := minPoint_spec hS.toHonest hcur hl h1
    refine ⟨l1, [x a, x b], ?_, q1, rfl⟩
    simp only [suppPoint, bind_ok, pure_ok]
    refine ⟨_, ?_, _, h1, x a, needSome_ok.2 (by simp [ha]), x b, needSome_ok.2 (by simp [hb]), rfl⟩
    simp only [suppDir, bind_ok, assert_ok, pure_ok]
    exact ⟨(), hv, (), ⟨by rw [hld]; exact ha, by rw [hld]; exact hb⟩, trivial⟩
  let G : Geom K := ⟨fun _ => ([0, 0], 0), fun _ => .error .runtime, fun _ _ => false⟩
  obtain ⟨l1, w1, b1, p1⟩ := hbb lp a ⟨rfl, ho⟩ ha
  obtain ⟨l2, w2, b2, p2⟩ := hbb l1 b p1 hb
  obtain ⟨l3, v3, s3, p3, n3⟩ := hsupp l2 (axis 2 0 (-1)) p2 (by simp [axis])
  obtain ⟨l4, v4, s4, p4, -⟩ := hsupp l3 (axis 2 0 1) p3 (by simp [axis])
  obtain ⟨l5, v5, s5, p5, -⟩ := hsupp l4 [0, 0] p4 rfl
  obtain ⟨l6, v6, s6, p6, -⟩ := hsupp l5 ([(0 : K), 0].map fun a => -1 * a) p5 rfl
  have htwo : findTwoPoints G 2 (suppPoint S a b) l2 = .ok (l4, [v3, v4]) := by
    simp [findTwoPoints, twoPointsLoop, s3, s4, n3, G, Hylaa.assert, bind, Except.bind, pure,
      Except.pure]
  have hinit : findInitSimplex G 2 (suppPoint S a b) l2 = .ok (l6, [v3, v4]) := by
    simp only [findInitSimplex, htwo, bind, Except.bind]
    simp only [simplexLoop, G, s5, bind, Except.bind, lt_irrefl, if_false, s6]
  refine ⟨G, l6, [v3, v4, v3], ?_⟩
  simp [getVerts, vertsOpen, verts2d, b1, b2, kamenevVerts, hinit, reorder, wrap, needSome, bind,
    Except.bind, pure, Except.pure]

end Hylaa
