import Verif.Props.Plot
import Verif.Props.RunEx
import Mathlib.Analysis.Convex.Hull
import Mathlib.Analysis.Convex.Combination

/-!
# C58: two-dimensional plots are accurate

The polygon drawn for a set is the intersection of half-planes none of which cuts off more than a thousandth of the
smaller side of the bounding box.
-/

set_option linter.unusedSectionVars false

namespace Hylaa

variable {K : Type} [Field K] [LinearOrder K] [IsStrictOrderedRing K]

/-- The points of a list of pairs. -/
def Corners (vs : List (List K)) : Set (K × K) := {z | [z.1, z.2] ∈ vs}

/-- `n · z` for a direction `n` of the plane. -/
def dot2 (n : List K) (z : K × K) : K := n.getD 0 0 * z.1 + n.getD 1 0 * z.2

/-- What Qhull computes, in exact arithmetic: the half-planes of the convex hull with outward unit normals and the
corners on each edge, the extreme points; an edge between old points of a larger set is an edge of the old
points. -/
structure Geom.HonestHull (G : Geom K) : Prop where
  edges : ∀ vs h, G.hull vs = .ok h → ∀ z, z ∈ convexHull K (Corners vs) ↔ ∀ f ∈ h.facets, dot2 f.2.1 z ≤ f.2.2
  unit : ∀ vs h, G.hull vs = .ok h → ∀ f ∈ h.facets, f.1 ≠ [] ∧ f.2.1.length = 2 ∧
    f.2.1.getD 0 0 ^ 2 + f.2.1.getD 1 0 ^ 2 = 1
  kept : ∀ vs new h0 h, G.hull vs = .ok h0 → G.hull (vs ++ new) = .ok h → ∀ f ∈ h.facets, (∀ i ∈ f.1, i < vs.length) →
    ∃ f0 ∈ h0.facets, f0.2 = f.2
  vertices : ∀ vs h ws, G.hull vs = .ok h → h.vertices.mapM (fun i => needSome vs[i]?) = Except.ok (ε := Err) ws →
    convexHull K (Corners ws) = convexHull K (Corners vs)

section
variable {σ : Type} {G : Geom K} {f : Supp K σ} {I : σ → Prop} {P : K × K → Prop} {eps : K}

/-- `f` answers with a point of `P` that is furthest in the given direction. -/
def SuppOf (f : Supp K σ) (I : σ → Prop) (P : K × K → Prop) : Prop :=
  ∀ s v s' p, I s → f s v = .ok (s', p) → I s' ∧ ∃ z, P z ∧ p = [z.1, z.2] ∧ ∀ y, P y → dot2 v y ≤ dot2 v z

theorem npDot_two {a b c : K} {n : List K} (h : npDot [a, b] n = .ok c) : c = dot2 n (a, b) := by
  unfold npDot at h
  split at h
  · next hl =>
    cases h
    match n, hl with
    | [x, y], _ => simp [dot2]; ring
  · cases h

theorem unit_lt {n0 n1 a b e : K} (h : n0 ^ 2 + n1 ^ 2 = 1) (hab : |a| + |b| < e) : n0 * a + n1 * b < e := by
  have h0 : |n0| ≤ 1 := by rw [← sq_le_one_iff_abs_le_one]; nlinarith [sq_nonneg n1]
  have h1 : |n1| ≤ 1 := by rw [← sq_le_one_iff_abs_le_one]; nlinarith [sq_nonneg n0]
  have a0 : n0 * a ≤ |a| := by
    refine (le_abs_self _).trans ?_
    rw [abs_mul]; nlinarith [abs_nonneg a]
  have a1 : n1 * b ≤ |b| := by
    refine (le_abs_self _).trans ?_
    rw [abs_mul]; nlinarith [abs_nonneg b]
  linarith

/-- One round: every new edge is accurate, or a point outside it is added. -/
theorem facetLoop_acc (hf : SuppOf f I P) (heps : 0 < eps)
    (hclose : ∀ y z, P y → P z → G.close [y.1, y.2] [z.1, z.2] = true → |z.1 - y.1| + |z.2 - y.2| < eps) {k : ℕ}
    {fs : List (List ℕ × List K × K)} (hu : ∀ g ∈ fs, g.2.1.getD 0 0 ^ 2 + g.2.1.getD 1 0 ^ 2 = 1) {s s' : σ}
    {new new' : List (List K)} (hs : I s) (hp : ∀ p ∈ new, ∃ z, P z ∧ p = [z.1, z.2])
    (h : facetLoop G f eps k fs s new = .ok (s', new')) :
    I s' ∧ (∀ p ∈ new', ∃ z, P z ∧ p = [z.1, z.2]) ∧ (∀ p ∈ new, p ∈ new') ∧
    ∀ g ∈ fs, ¬ (∀ i ∈ g.1, i < k) → (∀ y, P y → dot2 g.2.1 y < g.2.2 + eps) ∨
      ∃ z : K × K, [z.1, z.2] ∈ new' ∧ g.2.2 < dot2 g.2.1 z := by
  induction fs generalizing s new with
  | nil => cases h; exact ⟨hs, hp, fun _ h => h, by simp⟩
  | cons a fs ih =>
    obtain ⟨sim, nrm, rhs⟩ := a
    have hu' : ∀ g ∈ fs, g.2.1.getD 0 0 ^ 2 + g.2.1.getD 1 0 ^ 2 = 1 := fun g hg => hu g (List.mem_cons_of_mem _ hg)
    simp only [facetLoop] at h
    split at h
    · next hall =>
      obtain ⟨i1, i2, i3, i4⟩ := ih hu' hs hp h
      refine ⟨i1, i2, i3, fun g hg hn => ?_⟩
      rcases List.mem_cons.1 hg with rfl | hg
      · exact absurd (fun i hi => by simpa using List.all_eq_true.1 hall i hi) hn
      · exact i4 g hg hn
    · simp only [bind_ok] at h
      obtain ⟨⟨s1, p1⟩, h1, e, he, h⟩ := h
      obtain ⟨j1, z, hz, rfl, hmax⟩ := hf _ _ _ _ hs h1
      have he := npDot_two he
      simp only at h
      have hun := hu (sim, nrm, rhs) (List.mem_cons_self ..)
      simp only at hun
      split at h
      · next hc =>
        obtain ⟨i1, i2, i3, i4⟩ := ih hu' j1 (by
          intro p hp'
          rcases List.mem_append.1 hp' with h | h
          · exact hp p h
          · simp only [List.mem_singleton] at h; exact ⟨z, hz, h⟩) h
        refine ⟨i1, i2, fun p hp' => i3 p (List.mem_append_left _ hp'), fun g hg hn => ?_⟩
        rcases List.mem_cons.1 hg with rfl | hg
        · refine .inr ⟨z, i3 _ (by simp), ?_⟩
          show rhs < dot2 nrm z
          rw [he] at hc
          linarith [hc.1]
        · exact i4 g hg hn
      · next hc =>
        obtain ⟨i1, i2, i3, i4⟩ := ih hu' j1 hp h
        refine ⟨i1, i2, i3, fun g hg hn => ?_⟩
        rcases List.mem_cons.1 hg with rfl | hg
        · by_cases hlt : eps ≤ e - rhs
          · have hany : new.any (fun p => G.close p [z.1, z.2]) = true := by
              by_contra hne
              exact hc ⟨hlt, hne⟩
            simp only [List.any_eq_true] at hany
            obtain ⟨q, hq, hqc⟩ := hany
            obtain ⟨y, hy, rfl⟩ := hp q hq
            refine .inr ⟨y, i3 _ hq, ?_⟩
            have := unit_lt hun (hclose y z hy hz hqc)
            show rhs < dot2 nrm y
            rw [he] at hlt
            simp only [dot2] at hlt ⊢
            linarith
          · refine .inl fun y hy => ?_
            have := hmax y hy
            rw [he] at hlt
            show dot2 nrm y < rhs + eps
            simp only [not_le] at hlt
            have h2 : dot2 nrm z = dot2 nrm (z.1, z.2) := rfl
            linarith
        · exact i4 g hg hn

/-- What is known of the edges of the current corners. -/
def EdgesOk (G : Geom K) (P : K × K → Prop) (eps : K) (verts new : List (List K)) : Prop :=
  verts = [] ∨ ∃ h, G.hull verts = .ok h ∧ ∀ g ∈ h.facets, (∀ y, P y → dot2 g.2.1 y < g.2.2 + eps) ∨
    ∃ z : K × K, [z.1, z.2] ∈ new ∧ g.2.2 < dot2 g.2.1 z

theorem refineLoop_acc (hG : G.HonestHull) (hf : SuppOf f I P) (heps : 0 < eps)
    (hclose : ∀ y z, P y → P z → G.close [y.1, y.2] [z.1, z.2] = true → |z.1 - y.1| + |z.2 - y.2| < eps) {fuel : ℕ}
    {s s' : σ} {verts new vs : List (List K)} (hs : I s) (hn : ∀ p ∈ new, ∃ z, P z ∧ p = [z.1, z.2])
    (he : EdgesOk G P eps verts new) (h : refineLoop G f eps fuel s verts new = .ok (s', vs)) :
    vs = [] ∨ ∃ h, G.hull vs = .ok h ∧ ∀ g ∈ h.facets, ∀ y, P y → dot2 g.2.1 y < g.2.2 + eps := by
  have done : ∀ {verts : List (List K)}, EdgesOk G P eps verts [] →
      verts = [] ∨ ∃ h, G.hull verts = .ok h ∧ ∀ g ∈ h.facets, ∀ y, P y → dot2 g.2.1 y < g.2.2 + eps := by
    rintro verts (h | ⟨h, h1, h2⟩)
    · exact .inl h
    · refine .inr ⟨h, h1, fun g hg => ?_⟩
      rcases h2 g hg with h3 | ⟨z, hz, -⟩
      · exact h3
      · simp at hz
  induction fuel generalizing s verts new with
  | zero =>
    cases new with
    | nil => simp only [refineLoop, Except.ok.injEq, Prod.mk.injEq] at h; obtain ⟨rfl, rfl⟩ := h; exact done he
    | cons a l => simp [refineLoop] at h
  | succ n ih =>
    cases new with
    | nil => simp only [refineLoop, Except.ok.injEq, Prod.mk.injEq] at h; obtain ⟨rfl, rfl⟩ := h; exact done he
    | cons a l =>
      simp only [refineLoop, bind_ok] at h
      obtain ⟨hh, hhull, ⟨s1, new1⟩, h2, h⟩ := h
      obtain ⟨i1, i2, -, i4⟩ := facetLoop_acc hf heps hclose (fun g hg => (hG.unit _ _ hhull g hg).2.2) hs (by simp) h2
      refine ih i1 i2 (.inr ⟨hh, hhull, fun g hg => ?_⟩) h
      by_cases hold : ∀ i ∈ g.1, i < verts.length
      · rcases he with rfl | ⟨h0, hh0, h0f⟩
        · obtain ⟨i, hi⟩ := List.exists_mem_of_ne_nil _ (hG.unit _ _ hhull g hg).1
          exact absurd (hold i hi) (by simp)
        · obtain ⟨g0, hg0, e0⟩ := hG.kept _ _ _ _ hh0 hhull g hg hold
          rcases h0f g0 hg0 with h3 | ⟨z, hz, hlt⟩
          · left; rw [← e0]; exact h3
          · exfalso
            have := (hG.edges _ _ hhull z).1 (subset_convexHull _ _ (List.mem_append_right _ hz)) g hg
            rw [← e0] at this
            exact absurd this (not_le.2 hlt)
      · exact i4 g hg hold

end

theorem refineLoop_prefix {σ : Type} {G : Geom K} {f : Supp K σ} {eps : K} {fuel : ℕ} {s s' : σ}
    {verts new vs : List (List K)} (h : refineLoop G f eps fuel s verts new = .ok (s', vs)) : verts ++ new <+: vs := by
  induction fuel generalizing s verts new with
  | zero =>
    cases new with
    | nil => simp only [refineLoop, Except.ok.injEq, Prod.mk.injEq] at h; obtain ⟨rfl, rfl⟩ := h; simp
    | cons a l => simp [refineLoop] at h
  | succ n ih =>
    cases new with
    | nil => simp only [refineLoop, Except.ok.injEq, Prod.mk.injEq] at h; obtain ⟨rfl, rfl⟩ := h; simp
    | cons a l =>
      simp only [refineLoop, bind_ok] at h
      obtain ⟨hh, -, ⟨s1, new1⟩, -, h⟩ := h
      exact (List.prefix_append _ _).trans (ih h)

/-- The projection of a set to the plane. -/
def Proj (lp : Lp K) (a b : ℕ) (z : K × K) : Prop := ∃ x, lp.Mem x ∧ z = (x a, x b)

theorem axis_sum {n d : ℕ} (hd : d < n) (c : K) (x : ℕ → K) :
    (∑ i ∈ Finset.range (axis n d c).length, (axis n d c).getD i 0 * x i) = c * x d := by
  have hl : (axis n d c).length = n := by simp [axis]
  rw [hl, Finset.sum_eq_single d]
  · simp [axis, hd]
  · intro i hi hne
    simp [axis, Finset.mem_range.1 hi, hne]
  · intro h; exact absurd (Finset.mem_range.2 hd) h

/-- The sides of the bounding box. -/
theorem bboxWidth_spec {S : Solver K} (hS : S.Honest) {s : Sys K} (hcur : s.cur + s.dims ≤ s.numCols) {l l' : Lp K}
    {d : ℕ} (hd : d < s.dims) {small w : K} (hl : PlotLp s l) (h : bboxWidth S l d small = .ok (l', w)) :
    PlotLp s l' ∧ ∃ lo hi, IsLeast {r | ∃ x, s.Mem x ∧ r = x d} lo ∧ IsGreatest {r | ∃ x, s.Mem x ∧ r = x d} hi ∧
      w = max (hi - lo) small := by
  obtain ⟨rfl, ho⟩ := hl
  simp only [bboxWidth, bind_ok] at h
  obtain ⟨⟨m1, r1⟩, c1, ⟨m2, r2⟩, c2, c3⟩ := h
  simp only [pure_ok, Prod.mk.injEq] at c3
  obtain ⟨rfl, rfl⟩ := c3
  obtain ⟨g1, g2, g3, -, g4⟩ := minimize_spec hS c1 ho
  obtain ⟨k1, k2, k3, -, k4⟩ := minimize_spec hS c2 g2
  obtain ⟨q1, rfl⟩ := Option.ne_none_iff_exists'.1 (g3 rfl)
  obtain ⟨q2, rfl⟩ := Option.ne_none_iff_exists'.1 (k3 rfl)
  obtain ⟨v1, hv1, rfl, -, hm1⟩ := g4 q1 rfl
  obtain ⟨v2, hv2, rfl, -, hm2⟩ := k4 q2 rfl
  rw [g1] at hv2
  have hm1 := hm1 _ rfl hcur
  have hm2 := hm2 _ rfl (by rw [g1]; exact hcur)
  rw [g1] at hm2
  have e1 := fun v : ℕ → K => axis_sum hd (1 : K) (fun i => v (l.cur + i))
  have e2 := fun v : ℕ → K => axis_sum hd (-1 : K) (fun i => v (l.cur + i))
  simp only [e1] at hm1
  simp only [e2] at hm2
  refine ⟨⟨k1.trans g1, k2⟩, v1 (l.cur + d), v2 (l.cur + d), ⟨⟨fun i => v1 (l.cur + i), ⟨v1, hv1, fun _ _ => rfl⟩, rfl⟩, ?_⟩,
    ⟨⟨fun i => v2 (l.cur + i), ⟨v2, hv2, fun _ _ => rfl⟩, rfl⟩, ?_⟩, ?_⟩
  · rintro _ ⟨x, ⟨w, hw, hx⟩, rfl⟩
    have := hm1 w hw
    have := hx d hd
    linarith
  · rintro _ ⟨x, ⟨w, hw, hx⟩, rfl⟩
    have := hm2 w hw
    have := hx d hd
    linarith
  · simp only [Option.getD_some, colVals, List.map_cons, List.map_nil, List.getD_cons_zero]
    split
    · next h => exact (max_eq_right h.le).symm
    · next h => exact (max_eq_left (not_lt.1 h)).symm

theorem wrap_corners {vs ws : List (List K)} (h : wrap vs = .ok ws) : Corners ws = Corners vs ∧ ws.length = vs.length + 1 := by
  simp only [wrap, bind_ok, pure_ok] at h
  obtain ⟨a, h1, rfl⟩ := h
  have h1 := needSome_ok.1 h1
  refine ⟨?_, by simp⟩
  ext z
  simp only [Corners, Set.mem_setOf_eq, List.mem_append, List.mem_singleton]
  exact ⟨fun h => h.elim id fun h => h ▸ List.mem_of_mem_head? h1, .inl⟩

/-- What the SVD tells about one or two vectors of the plane, in exact arithmetic: a direction orthogonal to `u`, and
the rank grows only if the second vector is not a multiple of `u`. -/
def Geom.HonestOrth (G : Geom K) : Prop :=
  ∀ u : K × K, u ≠ 0 → ∃ v : K × K, (G.orth [[u.1, u.2]]).1 = [v.1, v.2] ∧ v ≠ 0 ∧ v.1 * u.1 + v.2 * u.2 = 0 ∧
    ∀ w : K × K, ¬ (G.orth [[u.1, u.2]]).2 < (G.orth [[u.1, u.2], [w.1, w.2]]).2 → u.1 * w.2 - u.2 * w.1 = 0

section
variable {σ : Type} {G : Geom K} {f : Supp K σ} {I : σ → Prop} {P : K × K → Prop} {eps : K}

/-- The initial corners: one point, two points, or at least three. -/
theorem findInitSimplex_acc (hf : SuppOf f I P)
    (hclose : ∀ y z, P y → P z → G.close [y.1, y.2] [z.1, z.2] = true → |z.1 - y.1| + |z.2 - y.2| < eps)
    {s s' : σ} {pts : List (List K)} (hs : I s) (h : findInitSimplex G 2 f s = .ok (s', pts)) :
    (∃ p : K × K, pts = [[p.1, p.2]] ∧ ∀ y, P y → |y.1 - p.1| < eps ∧ |y.2 - p.2| < eps) ∨
    (∃ p q : K × K, pts = [[p.1, p.2], [q.1, q.2]] ∧
      ((∀ y, P y → p.1 ≤ y.1 ∧ y.1 ≤ q.1) ∨ ∀ y, P y → p.2 ≤ y.2 ∧ y.2 ≤ q.2) ∧ ((∀ z, P z → G.close [z.1, z.2] [z.1, z.2] = true) → G.HonestOrth →
      p ≠ q ∧ ∀ y, P y → (q.1 - p.1) * (y.2 - p.2) = (q.2 - p.2) * (y.1 - p.1))) ∨ 2 < pts.length := by
  simp only [findInitSimplex, bind_ok] at h
  obtain ⟨⟨s0, two⟩, h0, h1⟩ := h
  simp only [findTwoPoints, twoPointsLoop, bind_ok] at h0
  obtain ⟨⟨s1, p1⟩, a1, _, -, ⟨s2, p2⟩, a2, h0⟩ := h0
  obtain ⟨i1, z1, q1, rfl, m1⟩ := hf _ _ _ _ hs a1
  obtain ⟨i2, z2, q2, rfl, m2⟩ := hf _ _ _ _ i1 a2
  -- two different points
  have line : ∀ {s0 : σ} {z1 z2 : K × K}, I s0 → P z1 → P z2 →
      ((∀ y, P y → z1.1 ≤ y.1 ∧ y.1 ≤ z2.1) ∨ ∀ y, P y → z1.2 ≤ y.2 ∧ y.2 ≤ z2.2) → ¬ G.close [z1.1, z1.2] [z2.1, z2.2] = true →
      simplexLoop G f [z1.1, z1.2] 1 s0 [vsub [z2.1, z2.2] [z1.1, z1.2]] [[z1.1, z1.2], [z2.1, z2.2]] = .ok (s', pts) →
      (∃ p q : K × K, pts = [[p.1, p.2], [q.1, q.2]] ∧
      ((∀ y, P y → p.1 ≤ y.1 ∧ y.1 ≤ q.1) ∨ ∀ y, P y → p.2 ≤ y.2 ∧ y.2 ≤ q.2) ∧ ((∀ z, P z → G.close [z.1, z.2] [z.1, z.2] = true) → G.HonestOrth →
        p ≠ q ∧ ∀ y, P y → (q.1 - p.1) * (y.2 - p.2) = (q.2 - p.2) * (y.1 - p.1))) ∨ 2 < pts.length := by
    intro s0 z1 z2 i0 q1 q2 hbd hnc h
    simp only [simplexLoop, bind_ok] at h
    obtain ⟨⟨s3, p3⟩, b1, h⟩ := h
    obtain ⟨i3, z3, q3, rfl, m3⟩ := hf _ _ _ _ i0 b1
    split at h
    · cases h; right; simp
    · next hr1 =>
      simp only [bind_ok] at h
      obtain ⟨⟨s4, p4⟩, b2, h⟩ := h
      obtain ⟨i4, z4, q4, rfl, m4⟩ := hf _ _ _ _ i3 b2
      split at h
      · cases h; right; simp
      · next hr2 =>
        cases h
        refine .inl ⟨z1, z2, rfl, hbd, fun hrefl hO => ?_⟩
        have hne : z1 ≠ z2 := by
          rintro rfl
          exact hnc (hrefl z1 q1)
        refine ⟨hne, fun y hy => ?_⟩
        have hu : (z2.1 - z1.1, z2.2 - z1.2) ≠ (0 : K × K) := by
          intro h
          simp only [Prod.mk_eq_zero, sub_eq_zero] at h
          exact hne (Prod.ext h.1 h.2).symm
        obtain ⟨v, hv, hv0, hvu, hw⟩ := hO _ hu
        simp only [vsub, List.zipWith_cons_cons, List.zipWith_nil_right, List.cons_append, List.nil_append] at hr1 hr2 m3 m4
        have c3 := hw (z3.1 - z1.1, z3.2 - z1.2) hr1
        have c4 := hw (z4.1 - z1.1, z4.2 - z1.2) hr2
        simp only at hvu c3 c4
        rw [hv] at m3 m4
        have m3 := m3 y hy
        have m4 := m4 y hy
        simp only [dot2, List.map_cons, List.map_nil, List.getD_cons_zero, List.getD_cons_succ] at m3 m4
        -- `v` is orthogonal to `u`, and `z3 - z1`, `z4 - z1` are multiples of `u`
        have key : ∀ w : K × K, (z2.1 - z1.1) * w.2 - (z2.2 - z1.2) * w.1 = 0 → v.1 * w.1 + v.2 * w.2 = 0 := by
          intro w hw0
          by_cases hx : z2.1 - z1.1 = 0
          · have hy : z2.2 - z1.2 ≠ 0 := by
              intro hy; exact hu (by rw [hx, hy]; rfl)
            have h1 : w.1 = 0 := by
              rw [hx] at hw0
              simpa [hy] using hw0
            have h2 : v.2 = 0 := by
              rw [hx] at hvu
              simpa [hy] using hvu
            rw [h1, h2]; ring
          · refine (mul_eq_zero.1 (?_ : (z2.1 - z1.1) * (v.1 * w.1 + v.2 * w.2) = 0)).resolve_left hx
            linear_combination v.2 * hw0 + w.1 * hvu
        have k3 := key (z3.1 - z1.1, z3.2 - z1.2) c3
        have k4 := key (z4.1 - z1.1, z4.2 - z1.2) c4
        simp only at k3 k4
        have hyv : v.1 * (y.1 - z1.1) + v.2 * (y.2 - z1.2) = 0 := by linarith
        -- hence so is `y - z1`
        by_cases hv1 : v.1 = 0
        · have hv2 : v.2 ≠ 0 := by
            intro h; exact hv0 (Prod.ext hv1 h)
          rw [hv1] at hyv hvu
          have e1 : y.2 - z1.2 = 0 := by simpa [hv2] using hyv
          have e2 : z2.2 - z1.2 = 0 := by simpa [hv2] using hvu
          rw [e1, e2]; ring
        · have : v.1 * ((z2.1 - z1.1) * (y.2 - z1.2) - (z2.2 - z1.2) * (y.1 - z1.1)) = 0 := by
            linear_combination (y.2 - z1.2) * hvu - (z2.2 - z1.2) * hyv
          exact sub_eq_zero.1 ((mul_eq_zero.1 this).resolve_left hv1)
  split at h0
  · next hc =>
    simp only [bind_ok] at h0
    obtain ⟨⟨s3, p3⟩, a3, _, -, ⟨s4, p4⟩, a4, h0⟩ := h0
    obtain ⟨i3, z3, q3, rfl, m3⟩ := hf _ _ _ _ i2 a3
    obtain ⟨i4, z4, q4, rfl, m4⟩ := hf _ _ _ _ i3 a4
    split at h0
    · next hc2 =>
      cases h0
      cases h1
      refine .inl ⟨z3, rfl, fun y hy => ?_⟩
      have e1 := hclose z1 z2 q1 q2 hc
      have e2 := hclose z3 z4 q3 q4 hc2
      have f1 := m1 y hy
      have f2 := m2 y hy
      have f3 := m3 y hy
      have f4 := m4 y hy
      have f5 := m1 z3 q3
      have f6 := m2 z3 q3
      simp [dot2, axis, List.range_succ] at f1 f2 f3 f4 f5 f6
      have g1 := le_abs_self (z2.1 - z1.1)
      have g2 := abs_nonneg (z2.2 - z1.2)
      have g3 := le_abs_self (z4.2 - z3.2)
      have g4 := abs_nonneg (z4.1 - z3.1)
      exact ⟨abs_lt.2 ⟨by linarith, by linarith⟩, abs_lt.2 ⟨by linarith, by linarith⟩⟩
    · next hc2 =>
      cases h0
      refine .inr (line i4 q3 q4 (.inr fun y hy => ?_) hc2 h1)
      have f3 := m3 y hy
      have f4 := m4 y hy
      simp [dot2, axis, List.range_succ] at f3 f4
      exact ⟨f3, f4⟩
  · next hc =>
    cases h0
    refine .inr (line i2 q1 q2 (.inl fun y hy => ?_) hc h1)
    have f3 := m1 y hy
    have f4 := m2 y hy
    simp [dot2, axis, List.range_succ] at f3 f4
    exact ⟨f3, f4⟩

end

/-- **C58** With `eps` a thousandth of the smaller side of the bounding box, and provided `np.allclose` identifies only
points of the set that are closer than `eps`: the polygon drawn for a set is an intersection of half-planes and no
state of the set is as far as `eps` outside any of them; or it is one point, and no state is as far as `eps` from
it in either coordinate; or it is a segment, all states lie on its line and between its ends in one of the two
coordinates. -/
theorem C58_accurate_partial {S : Solver K} (hS : S.Honest) {G : Geom K} (hG : G.HonestHull) {lp lp' : Lp K} {live : Bool}
    (hlp : Inst S lp live) {a b : ℕ} (hab : a ≠ b) (ha : a < lp.dims) (hb : b < lp.dims) {t : K × K}
    {tol small thousand : K} (hsmall : 0 < small) (hth : 0 < thousand) {fuel : ℕ} {vs : List (List K)}
    (h : getVerts S G lp (.idx a) (.idx b) t tol small thousand fuel = .ok (lp', vs)) :
    ∃ lo hi lo' hi', IsLeast {r | ∃ x, lp.Mem x ∧ r = x a} lo ∧ IsGreatest {r | ∃ x, lp.Mem x ∧ r = x a} hi ∧
      IsLeast {r | ∃ x, lp.Mem x ∧ r = x b} lo' ∧ IsGreatest {r | ∃ x, lp.Mem x ∧ r = x b} hi' ∧
      let eps := min (max (hi - lo) small) (max (hi' - lo') small) / thousand
      (∀ x y, lp.Mem x → lp.Mem y → G.close [x a, x b] [y a, y b] = true → |y a - x a| + |y b - x b| < eps) →
      (∃ H : List (List K × K), (∀ e ∈ H, e.1.getD 0 0 ^ 2 + e.1.getD 1 0 ^ 2 = 1) ∧
        (∀ z, z ∈ convexHull K (Corners vs) ↔ ∀ e ∈ H, dot2 e.1 z ≤ e.2) ∧
        ∀ x, lp.Mem x → ∀ e ∈ H, dot2 e.1 (x a, x b) < e.2 + eps) ∨
      (∃ p : K × K, vs = [[p.1, p.2], [p.1, p.2]] ∧ ∀ x, lp.Mem x → |x a - p.1| < eps ∧ |x b - p.2| < eps) ∨
      ∃ p q : K × K, vs = [[p.1, p.2], [q.1, q.2], [p.1, p.2]] ∧
        ((∀ x, lp.Mem x → p.1 ≤ x a ∧ x a ≤ q.1) ∨ ∀ x, lp.Mem x → p.2 ≤ x b ∧ x b ≤ q.2) ∧
        ((∀ z, Proj lp a b z → G.close [z.1, z.2] [z.1, z.2] = true) → G.HonestOrth →
          p ≠ q ∧ ∀ x, lp.Mem x → (q.1 - p.1) * (x b - p.2) = (q.2 - p.2) * (x a - p.1)) := by
  obtain ⟨-, hcur, ho, -⟩ := hlp.inv hS
  simp only [getVerts, bind_ok] at h
  obtain ⟨⟨lp1, vs1⟩, h1, vs', h2, h4⟩ := h
  simp only [pure_ok, Prod.mk.injEq] at h4
  obtain ⟨rfl, rfl⟩ := h4
  obtain ⟨w1, w2⟩ := wrap_corners h2
  simp only [vertsOpen, verts2d, bind_ok] at h1
  obtain ⟨⟨l1, d1⟩, b1, ⟨l2, d2⟩, b2, ⟨l3, ks⟩, hk, ws, hr, h5⟩ := h1
  simp only [pure_ok, Prod.mk.injEq] at h5
  obtain ⟨rfl, rfl⟩ := h5
  obtain ⟨p1, lo, hi, m1, m2, rfl⟩ := bboxWidth_spec hS hcur ha ⟨rfl, ho⟩ b1
  obtain ⟨p2, lo', hi', m3, m4, rfl⟩ := bboxWidth_spec hS hcur hb p1 b2
  refine ⟨lo, hi, lo', hi', m1, m2, m3, m4, ?_⟩
  intro eps hclose
  have heps : 0 < eps := by
    refine div_pos (lt_min ?_ ?_) hth
    · exact hsmall.trans_le (le_max_right _ _)
    · exact hsmall.trans_le (le_max_right _ _)
  have hsupp : SuppOf (suppPoint S a b) (PlotLp lp.toSys) (Proj lp a b) := by
    intro s v s' p hs hh
    obtain ⟨q1, x, q2, q3, q4⟩ := suppPoint_spec hS hcur hs hh
    refine ⟨q1, (x a, x b), ⟨x, q2, rfl⟩, q3, ?_⟩
    rintro _ ⟨y, hy, rfl⟩
    exact q4 hab y hy
  have hall : ∀ s v s' p, PlotLp lp.toSys s → suppPoint S a b s v = .ok (s', p) →
      PlotLp lp.toSys s' ∧ ∃ z, Proj lp a b z ∧ p = [z.1, z.2] := by
    intro s v s' p hs hh
    obtain ⟨q1, z, q2, q3, -⟩ := hsupp s v s' p hs hh
    exact ⟨q1, z, q2, q3⟩
  have hcl : ∀ y z, Proj lp a b y → Proj lp a b z → G.close [y.1, y.2] [z.1, z.2] = true →
      |z.1 - y.1| + |z.2 - y.2| < eps := by
    rintro _ _ ⟨x, hx, rfl⟩ ⟨y, hy, rfl⟩ hc
    exact hclose x y hx hy hc
  simp only [kamenevVerts, bind_ok] at hk
  obtain ⟨⟨s1, pts⟩, k1, k2⟩ := hk
  have hinit : PlotLp lp.toSys s1 ∧ ∀ p ∈ pts, ∃ z, Proj lp a b z ∧ p = [z.1, z.2] := by
    have k1 := k1
    simp only [findInitSimplex, bind_ok] at k1
    obtain ⟨⟨s0, two⟩, h0, k1⟩ := k1
    obtain ⟨i0, q0⟩ := twoPointsLoop_all hall p2 (by simp) h0
    simp only at k1
    split at k1
    · exact simplexLoop_all hall i0 q0 k1
    · cases k1; exact ⟨i0, q0⟩
  split at k2
  · next hlt =>
    cases k2
    simp only at hlt
    unfold reorder at hr
    rw [if_neg (by simp only; omega)] at hr
    cases hr
    right
    rcases findInitSimplex_acc hsupp hcl p2 k1 with ⟨p, rfl, hp⟩ | ⟨p, q, rfl, hpq, hp⟩ | hlen
    · left
      refine ⟨p, ?_, fun x hx => hp (x a, x b) ⟨x, hx, rfl⟩⟩
      simp only [wrap, needSome, List.head?_cons, bind, Except.bind, pure, Except.pure, Except.ok.injEq] at h2
      rw [← h2]; rfl
    · right
      refine ⟨p, q, ?_, hpq.imp (fun h x hx => h (x a, x b) ⟨x, hx, rfl⟩) fun h x hx => h (x a, x b) ⟨x, hx, rfl⟩, fun h1 h2 => ⟨(hp h1 h2).1, fun x hx => (hp h1 h2).2 (x a, x b) ⟨x, hx, rfl⟩⟩⟩
      simp only [wrap, needSome, List.head?_cons, bind, Except.bind, pure, Except.pure, Except.ok.injEq] at h2
      rw [← h2]; rfl
    · omega
  · next hge =>
    left
    simp only [not_lt] at hge
    rcases refineLoop_acc hG hsupp heps hcl hinit.1 hinit.2 (.inl rfl) k2 with h0 | ⟨hh, hhull, g2⟩
    · exfalso
      have hpre := refineLoop_prefix k2
      rw [h0] at hpre
      have := hpre.length_le
      simp at this
      simp [this] at hge
    · have hsame : convexHull K (Corners ws) = convexHull K (Corners ks) := by
        unfold reorder at hr
        simp only at hr
        split at hr
        · simp only [bind_ok] at hr
          obtain ⟨hh, g1, g2⟩ := hr
          exact hG.vertices _ _ _ g1 g2
        · cases hr; rfl
      refine ⟨hh.facets.map fun f => f.2, ?_, fun z => ?_, fun x hx e he => ?_⟩
      · intro e he
        obtain ⟨f, hf, rfl⟩ := List.mem_map.1 he
        exact (hG.unit _ _ hhull f hf).2.2
      · rw [w1, hsame, hG.edges _ _ hhull z, List.forall_mem_map]
      · obtain ⟨f, hf, rfl⟩ := List.mem_map.1 he
        exact g2 f hf _ ⟨x, hx, rfl⟩

/-! ### Far from the origin -/

/-- `np.allclose(p, q)` on points -/
def pointsClose (atol rtol : K) (p q : List K) : Bool :=
  (p.zip q).all fun z => decide (|z.1 - z.2| ≤ atol + rtol * |z.2|)

/-- **C58 is false far from the origin**: with `np.allclose`'s tolerances (`atol ≥ 0`, `rtol`), any set whose
coordinates lie in `[c, c + rtol * c]` is drawn as a single point, whatever its shape. -/
theorem C58_far_sets_collapse {S : Solver K} (hS : S.Honest) {G : Geom K} {atol rtol c : K}
    (hG : G.close = pointsClose atol rtol) (hat : 0 ≤ atol) (hrt : 0 ≤ rtol) (hc : 0 ≤ c) {lp lp' : Lp K} {live : Bool}
    (hlp : Inst S lp live) {a b : ℕ} (hset : ∀ x, lp.Mem x → (c ≤ x a ∧ x a ≤ c + rtol * c) ∧ c ≤ x b ∧ x b ≤ c + rtol * c)
    {t : K × K} {tol small thousand : K} {fuel : ℕ} {vs : List (List K)}
    (h : getVerts S G lp (.idx a) (.idx b) t tol small thousand fuel = .ok (lp', vs)) :
    ∃ x, lp.Mem x ∧ vs = [[x a, x b], [x a, x b]] := by
  obtain ⟨-, hcur, ho, -⟩ := hlp.inv hS
  simp only [getVerts, bind_ok] at h
  obtain ⟨⟨lp1, vs1⟩, h1, vs', h2, h4⟩ := h
  simp only [pure_ok, Prod.mk.injEq] at h4
  obtain ⟨rfl, rfl⟩ := h4
  simp only [vertsOpen, verts2d, bind_ok] at h1
  obtain ⟨⟨l1, d1⟩, b1, ⟨l2, d2⟩, b2, ⟨l3, ks⟩, hk, ws, hr, h5⟩ := h1
  simp only [pure_ok, Prod.mk.injEq] at h5
  obtain ⟨rfl, rfl⟩ := h5
  have hbb : ∀ {l l' : Lp K} {d : ℕ} {w : K}, PlotLp lp.toSys l →
      bboxWidth S l d small = .ok (l', w) → PlotLp lp.toSys l' := by
    intro l l' d w hl hb
    simp only [bboxWidth, bind_ok] at hb
    obtain ⟨⟨m1, r1⟩, c1, ⟨m2, r2⟩, c2, c3⟩ := hb
    simp only [pure_ok, Prod.mk.injEq] at c3
    obtain ⟨rfl, -⟩ := c3
    obtain ⟨g1, g2, -⟩ := minimize_spec hS c1 hl.obj
    obtain ⟨g3, g4, -⟩ := minimize_spec hS c2 g2
    exact ⟨g3.trans (g1.trans hl.sys), g4⟩
  have hl2 := hbb (hbb ⟨rfl, ho⟩ b1) b2
  have hcl : ∀ x y, lp.Mem x → lp.Mem y → G.close [x a, x b] [y a, y b] = true := by
    intro x y hx hy
    obtain ⟨⟨x1, x2⟩, x3, x4⟩ := hset x hx
    obtain ⟨⟨y1, y2⟩, y3, y4⟩ := hset y hy
    have k : ∀ u v, c ≤ u → u ≤ c + rtol * c → c ≤ v → v ≤ c + rtol * c → |u - v| ≤ atol + rtol * |v| := by
      intro u v u1 u2 v1 v2
      have e : rtol * c ≤ rtol * |v| := mul_le_mul_of_nonneg_left (v1.trans (le_abs_self v)) hrt
      exact abs_le.2 ⟨by linarith, by linarith⟩
    rw [hG]
    simp [pointsClose, k _ _ x1 x2 y1 y2, k _ _ x3 x4 y3 y4]
  simp only [kamenevVerts, bind_ok] at hk
  obtain ⟨⟨s1, pts⟩, k1, k2⟩ := hk
  simp only [findInitSimplex, bind_ok] at k1
  obtain ⟨⟨s0, two⟩, h0, k1⟩ := k1
  simp only [findTwoPoints, twoPointsLoop, bind_ok] at h0
  obtain ⟨⟨s1, p1⟩, a1, _, -, ⟨s2, p2⟩, a2, h0⟩ := h0
  obtain ⟨i1, z1, q1, rfl, -⟩ := suppPoint_spec hS hcur hl2 a1
  obtain ⟨i2, z2, q2, rfl, -⟩ := suppPoint_spec hS hcur i1 a2
  rw [if_pos (hcl z1 z2 q1 q2)] at h0
  simp only [bind_ok] at h0
  obtain ⟨⟨s3, p3⟩, a3, _, -, ⟨s4, p4⟩, a4, h0⟩ := h0
  obtain ⟨i3, z3, q3, rfl, -⟩ := suppPoint_spec hS hcur i2 a3
  obtain ⟨i4, z4, q4, rfl, -⟩ := suppPoint_spec hS hcur i3 a4
  rw [if_pos (hcl z3 z4 q3 q4)] at h0
  cases h0
  cases k1
  rw [if_pos (by simp)] at k2
  cases k2
  unfold reorder at hr
  rw [if_neg (by simp)] at hr
  cases hr
  refine ⟨z3, q3, ?_⟩
  simp only [wrap, needSome, List.head?_cons, bind, Except.bind, pure, Except.pure, Except.ok.injEq] at h2
  rw [← h2]; rfl

/-- geometry for the examples below; the far square needs neither `qhull` nor the singular value decomposition -/
def farG : Geom ℚ := ⟨fun _ => ([], 0), fun _ => .error .runtime, pointsClose (1 / 10 ^ 8) (1 / 10 ^ 5)⟩

/-- The unit square with corner `(10^6, 10^6)` is drawn as a single point. -/
def farRun : Except Err (Lp ℚ × List (List ℚ)) := do
  let lp ← fromBox (Simplex.solver 100) [(10 ^ 6, 10 ^ 6 + 1), (10 ^ 6, 10 ^ 6 + 1)] { name := "m", id := 0 }
  getVerts (Simplex.solver 100) farG lp (.idx 0) (.idx 1) (0, 0) (1 / 10 ^ 9) (1 / 10 ^ 5) 1000 10

set_option maxRecDepth 100000 in
example : okAnd farRun (fun r => decide (r.2.length = 2 ∧ r.2[0]? = r.2[1]?)) = true := by decide +kernel

/-! ### Example: the triangle `x ≥ 0, y ≥ 0, 3 x + 4 y ≤ 12` -/

def triMode : Mode ℚ := { name := "t", id := 0, a := some ⟨2, [[], []]⟩ }

def triLp : Except Err (Lp ℚ) :=
  fromConstraints (Simplex.solver 100) ⟨2, [[(0, -1)], [(1, -1)], [(0, 3), (1, 4)]]⟩ [0, 0, 12] triMode none none none

def triVs : List (List ℚ) := [[0, 0], [4, 0], [0, 3]]

def triHull : HullOut ℚ := ⟨[([0, 1], [0, -1], 0), ([0, 2], [-1, 0], 0), ([1, 2], [3 / 5, 4 / 5], 12 / 5)], [0, 1, 2]⟩

def triG : Geom ℚ :=
  ⟨fun vs => if vs.length = 1 then ([0, 1], 1) else ([], 2), fun vs => if vs = triVs then .ok triHull else .error .runtime,
    fun p q => decide (p = q)⟩

theorem triG_honest : triG.HonestHull := by
  have hh : ∀ vs h, triG.hull vs = .ok h → vs = triVs ∧ h = triHull := by
    intro vs h hv
    simp only [triG] at hv
    split at hv
    · next e => cases hv; exact ⟨e, rfl⟩
    · cases hv
  have hcor : Corners triVs = {((0 : ℚ), (0 : ℚ)), (4, 0), (0, 3)} := by
    ext ⟨x, y⟩
    simp [Corners, triVs]
  refine ⟨fun vs h hv z => ?_, fun vs h hv f hf => ?_, fun vs new h0 h h1 h2 f hf _ => ?_, fun vs h ws hv hm => ?_⟩
  · obtain ⟨rfl, rfl⟩ := hh vs h hv
    rw [hcor]
    constructor
    · intro hz
      have hsub : convexHull ℚ {((0 : ℚ), (0 : ℚ)), (4, 0), (0, 3)} ⊆ {z | ∀ f ∈ triHull.facets, dot2 f.2.1 z ≤ f.2.2} := by
        refine convexHull_min ?_ ?_
        · rintro z (rfl | rfl | rfl) <;> simp [triHull, dot2] <;> norm_num
        · rw [convex_iff_forall_pos]
          intro p hp q hq s t hs ht hst
          simp [triHull, dot2] at hp hq ⊢
          obtain ⟨p1, p2, p3⟩ := hp
          obtain ⟨q1, q2, q3⟩ := hq
          refine ⟨by nlinarith, by nlinarith, ?_⟩
          have : t = 1 - s := by linarith
          subst this
          nlinarith
      exact hsub hz
    · intro hz
      simp [triHull, dot2] at hz
      obtain ⟨h1, h2, h3⟩ := hz
      have := (convex_convexHull ℚ {((0 : ℚ), (0 : ℚ)), (4, 0), (0, 3)}).sum_mem (t := (Finset.univ : Finset (Fin 3)))
        (w := ![1 - z.1 / 4 - z.2 / 3, z.1 / 4, z.2 / 3]) (z := ![(0, 0), (4, 0), (0, 3)])
        (by intro i _; fin_cases i <;> simp <;> linarith)
        (by simp [Fin.sum_univ_three]; ring)
        (by intro i _; fin_cases i <;> exact subset_convexHull _ _ (by simp))
      rw [Fin.sum_univ_three] at this
      convert this using 1
      ext <;> simp
  · obtain ⟨rfl, rfl⟩ := hh vs h hv
    simp only [triHull, List.mem_cons, List.not_mem_nil, or_false] at hf
    rcases hf with rfl | rfl | rfl <;> refine ⟨by simp, rfl, by norm_num⟩
  · obtain ⟨rfl, rfl⟩ := hh _ _ h1
    obtain ⟨-, rfl⟩ := hh _ _ h2
    exact ⟨f, hf, rfl⟩
  · obtain ⟨rfl, rfl⟩ := hh vs h hv
    have : triHull.vertices.mapM (fun i => needSome triVs[i]?) = Except.ok (ε := Err) triVs := by decide +kernel
    rw [this] at hm
    cases hm
    rfl

def triRun : Except Err (Lp ℚ × Lp ℚ × List (List ℚ)) := do
  let lp ← triLp
  let r ← getVerts (Simplex.solver 100) triG lp (.idx 0) (.idx 1) (0, 0) (1 / 10 ^ 9) (1 / 10 ^ 5) 1000 10
  pure (lp, r)

set_option maxRecDepth 100000 in
theorem triRun_ok : okAnd triRun (fun r => decide (r.2.2 = [[0, 0], [4, 0], [0, 3], [0, 0]])) = true := by decide +kernel

/-- The hypotheses of `C58_accurate_partial` are met by the triangle, which is drawn exactly. -/
example : ∃ lp lp' : Lp ℚ, Inst (Simplex.solver 100) lp true ∧ triG.HonestHull ∧
    (∀ x, lp.Mem x ↔ 0 ≤ x 0 ∧ 0 ≤ x 1 ∧ 3 * x 0 + 4 * x 1 ≤ 12) ∧
    (∀ p q : List ℚ, triG.close p q = true → p = q) ∧
    getVerts (Simplex.solver 100) triG lp (.idx 0) (.idx 1) (0, 0) (1 / 10 ^ 9) (1 / 10 ^ 5) 1000 10 =
      .ok (lp', [[0, 0], [4, 0], [0, 3], [0, 0]]) := by
  obtain ⟨⟨lp, lp', vs⟩, h, hvs⟩ := okAnd_ok triRun_ok
  simp only [triRun, bind_ok, pure_ok] at h
  obtain ⟨lp0, h1, r, h2, h3⟩ := h
  cases h3
  simp only [decide_eq_true_eq] at hvs
  subst hvs
  have hwf : (⟨2, [[(0, -1)], [(1, -1)], [(0, 3), (1, 4)]]⟩ : Csr ℚ).WF := by
    simp [Csr.WF]
    rintro a b (⟨rfl, -⟩ | ⟨rfl, -⟩) <;> omega
  refine ⟨lp, lp', .hist (.construct h1 (by simp) hwf), triG_honest, fun x => ?_, fun p q hpq => ?_, h2⟩
  · rw [C03_from_constraints_exact h1 (by simp) hwf]
    constructor
    · rintro ⟨y, hy, e⟩
      have e0 := e 0 (by simp)
      have e1 := e 1 (by simp)
      have y0 := hy 0 (by simp)
      have y1 := hy 1 (by simp)
      have y2 := hy 2 (by simp)
      simp [Csr.row, dot] at y0 y1 y2
      rw [e0, e1]
      exact ⟨y0, y1, y2⟩
    · rintro ⟨y0, y1, y2⟩
      refine ⟨x, fun i hi => ?_, fun _ _ => rfl⟩
      simp at hi
      rcases (by omega : i = 0 ∨ i = 1 ∨ i = 2) with rfl | rfl | rfl <;> simp [Csr.row, dot] <;> assumption
  · simpa [triG] using hpq

end Hylaa
