import Verif.Model.Verts
import Verif.Props.Plot
import Verif.Props.RunEx

/-!
# C61: the vertices a state set answers are those of its current set, and asking does not change the set
-/

set_option linter.unusedSectionVars false

namespace Hylaa
variable {K : Type} [Field K] [LinearOrder K] [IsStrictOrderedRing K]

/-- Same constraints; a well-formed objective stays one. -/
def SameLp (a b : Lp K) : Prop := b.toSys = a.toSys ∧ (a.ObjInv → b.ObjInv)

theorem SameLp.trans {a b c : Lp K} (h : SameLp a b) (g : SameLp b c) : SameLp a c :=
  ⟨g.1.trans h.1, fun o => g.2 (h.2 o)⟩

theorem minPoint_same {S : Solver K} {lp lp' : Lp K} {d l : List K} (h : minPoint S lp d = .ok (lp', l)) :
    SameLp lp lp' := by
  simp only [minPoint, bind_ok, pure_ok, Prod.mk.injEq] at h
  obtain ⟨lp1, h1, r, h2, l', -, rfl, -⟩ := h
  have k := minimize_keeps (r := r.2) h2
  exact ⟨k.1.trans (setMinDir_toSys h1).1, fun o => k.2 (setMinDir_obj h1 o).1⟩

theorem extremes_same {S : Solver K} {lp : Lp K} {d : List K} {e : Lp K × K × K}
    (h : extremes S lp d = .ok e) : SameLp lp e.1 := by
  simp only [extremes, bind_ok, pure_ok] at h
  obtain ⟨r1, h1, lo, -, r2, h2, hi, -, rfl⟩ := h
  exact (minPoint_same h1).trans (minPoint_same h2)

theorem bboxWidth_same {S : Solver K} {lp : Lp K} {d : ℕ} {small : K} {e : Lp K × K}
    (h : bboxWidth S lp d small = .ok e) : SameLp lp e.1 := by
  simp only [bboxWidth, bind_ok, pure_ok] at h
  obtain ⟨r1, h1, r2, h2, rfl⟩ := h
  exact SameLp.trans (b := r1.1) (minimize_keeps (r := r1.2) h1) (minimize_keeps (r := r2.2) h2)

theorem suppPoint_same {S : Solver K} {x y : ℕ} {lp lp' : Lp K} {v p : List K}
    (h : suppPoint S x y lp v = .ok (lp', p)) : SameLp lp lp' := by
  simp only [suppPoint, bind_ok, pure_ok, Prod.mk.injEq] at h
  obtain ⟨d, -, r, h1, a, -, b, -, rfl, -⟩ := h
  exact minPoint_same h1

theorem getVerts_same {S : Solver K} {G : Geom K} {lp lp' : Lp K} {x y : PlotDim K} {t : K × K}
    {tol small thousand : K} {fuel : ℕ} {vs : List (List K)}
    (h : getVerts S G lp x y t tol small thousand fuel = .ok (lp', vs)) : SameLp lp lp' := by
  simp only [getVerts, bind_ok, pure_ok, Prod.mk.injEq] at h
  obtain ⟨r, h, vs', -, rfl, -⟩ := h
  unfold vertsOpen at h
  split at h
  · cases h
  · simp only [bind_ok, pure_ok] at h
    obtain ⟨e, h, rfl⟩ := h
    exact extremes_same h
  · simp only [bind_ok, pure_ok] at h
    obtain ⟨e, h, rfl⟩ := h
    exact extremes_same h
  · simp only [verts2d, bind_ok, pure_ok] at h
    obtain ⟨w1, h1, w2, h2, q, h3, vs', -, rfl⟩ := h
    have h4 := (bboxWidth_same h1).trans (bboxWidth_same h2)
    exact (kamenevVerts_all (I := fun l => SameLp lp l) (P := fun _ => True)
      (fun s v s' p hs hf => ⟨hs.trans (suppPoint_same hf), trivial⟩) h4 h3).1
  · cases h

/-- The two sets are equal except for the objective and the warm start of the linear program. -/
def SS.Same (a b : SS K) : Prop := a.lp.toSys = b.lp.toSys ∧ { a with lp := b.lp } = b

theorem SS.Same.refl (a : SS K) : a.Same a := ⟨rfl, rfl⟩

theorem SS.Same.lp {a : SS K} {lp : Lp K} (h : lp.toSys = a.lp.toSys) : ({ a with lp := lp } : SS K).Same a :=
  ⟨h, rfl⟩

theorem SS.Same.symm {a b : SS K} (h : a.Same b) : b.Same a := by
  obtain ⟨h1, h2⟩ := h
  refine ⟨h1.symm, ?_⟩
  rw [← h2]

theorem SS.Same.trans {a b c : SS K} (h : a.Same b) (g : b.Same c) : a.Same c := by
  refine ⟨h.1.trans g.1, ?_⟩
  rw [← g.2, ← h.2]

/-- `step` reads the constraints only. -/
theorem SS.Same.step {a b : SS K} (h : a.Same b) {d : Dyn K} {m : Mode K} {te : Option (TE K)} {t : Option ℕ}
    {r : Option (TE K) × SS K} (hs : a.step d m te t = .ok r) :
    ∃ b', b.step d m te t = .ok (r.1, b') ∧ r.2.Same b' := by
  obtain ⟨h1, h2⟩ := h
  obtain ⟨L, rfl⟩ : ∃ L, b = { a with lp := L } := ⟨b.lp, h2.symm⟩
  simp only at h1
  unfold SS.step at hs ⊢
  simp only [← h1]
  dsimp only at hs ⊢
  by_cases c1 : t.getD (a.stepIn + 1) < a.stepIn
  · rw [if_pos c1] at hs; cases hs
  rw [if_neg c1] at hs ⊢
  by_cases c2 : t.getD (a.stepIn + 1) = a.stepIn
  · rw [if_pos c2] at hs ⊢
    cases hs
    exact ⟨_, rfl, h1, rfl⟩
  rw [if_neg c2] at hs ⊢
  simp only [bind_ok, pure_ok] at hs
  obtain ⟨g, h3, s, h4, q, h5, rfl⟩ := hs
  simp only [bind_ok, pure_ok]
  exact ⟨_, ⟨g, h3, s, h4, q, h5, rfl⟩, rfl, rfl⟩

theorem SS.step_obj {a : SS K} {d : Dyn K} {m : Mode K} {te : Option (TE K)} {t : Option ℕ}
    {r : Option (TE K) × SS K} (hs : a.step d m te t = .ok r) (ho : a.lp.ObjInv) : r.2.lp.ObjInv := by
  unfold SS.step at hs
  dsimp only at hs
  split at hs
  · cases hs
  split at hs
  · cases hs; exact ho
  · simp only [bind_ok, pure_ok] at hs
    obtain ⟨g, h3, s, h4, q, h5, rfl⟩ := hs
    exact ho

/-- The vertices `v` are an answer for the current set `x`: a plot of a linear program with its constraints,
along the dimensions the settings give subplot `k` in this mode, over the time interval of the set. -/
def VertsOf (c : VertsCfg K) (mode : String) (x : SS K) (k : ℕ) (v : List (List K)) : Prop :=
  ∃ (p : DimSetting K × DimSetting K) (dx dy : PlotDim K) (lp lp' : Lp K), c.dims[k]? = some p ∧
    p.1.resolve mode = .ok dx ∧ p.2.resolve mode = .ok dy ∧ lp.toSys = x.lp.toSys ∧ lp.ObjInv ∧
    getVerts c.solver c.geom lp dx dy ((x.steps.1 : K) * c.step, (x.steps.2 : K) * c.step) c.tol c.small c.thousand c.fuel =
      .ok (lp', v)

theorem VertsOf.congr {c : VertsCfg K} {mode : String} {x y : SS K} {k : ℕ} {v : List (List K)}
    (h : VertsOf c mode x k v) (hs : x.Same y) : VertsOf c mode y k v := by
  obtain ⟨p, dx, dy, lp, lp', h1, h2, h3, h4, h5, h6⟩ := h
  have e : y.steps = x.steps := by rw [← hs.2]
  exact ⟨p, dx, dy, lp, lp', h1, h2, h3, h4.trans hs.1, h5, by rw [e]; exact h6⟩

/-- The invariant of the plotting variables. -/
structure PInv (c : VertsCfg K) (mode : String) (x : Plotted K) : Prop where
  obj : x.set.lp.ObjInv
  dims : ∀ ds, x.dims = some ds → resolveDims mode c.dims = .ok ds
  cache : ∀ l, x.cache = some l → ∀ (k : ℕ) (v : List (List K)), l[k]? = some (some v) → VertsOf c mode x.set k v

theorem mapM_get {α β : Type} {f : α → Except Err β} : ∀ {l : List α} {r : List β}, l.mapM f = .ok r →
    ∀ {k : ℕ} {b : β}, r[k]? = some b → ∃ a, l[k]? = some a ∧ f a = .ok b
  | [], r, h, k, b, hb => by
    simp [List.mapM_nil, pure, Except.pure] at h
    subst h; simp at hb
  | a :: l, r, h, k, b, hb => by
    simp only [List.mapM_cons, bind_ok, pure_ok] at h
    obtain ⟨b0, h0, r0, h1, rfl⟩ := h
    cases k with
    | zero => simp only [List.getElem?_cons_zero, Option.some.injEq] at hb; subst hb; exact ⟨a, rfl, h0⟩
    | succ k => exact mapM_get h1 (by simpa using hb)

theorem resolveDims_get {mode : String} {l : List (DimSetting K × DimSetting K)} {ds : List (PlotDim K × PlotDim K)}
    (h : resolveDims mode l = .ok ds) {k : ℕ} {d : PlotDim K × PlotDim K} (hk : ds[k]? = some d) :
    ∃ p, l[k]? = some p ∧ p.1.resolve mode = .ok d.1 ∧ p.2.resolve mode = .ok d.2 := by
  obtain ⟨p, h1, h2⟩ := mapM_get h hk
  simp only [bind_ok, pure_ok] at h2
  obtain ⟨x, h3, y, h4, rfl⟩ := h2
  exact ⟨p, h1, h3, h4⟩

/-- One call of `verts`. -/
theorem Plotted.verts_spec {c : VertsCfg K} {mode : String} {x x' : Plotted K} {k : ℕ} {v : List (List K)}
    (hi : PInv c mode x) (h : x.verts c mode k = .ok (x', v)) :
    PInv c mode x' ∧ VertsOf c mode x.set k v ∧ x'.set.Same x.set := by
  simp only [Plotted.verts, bind_ok] at h
  obtain ⟨e, h1, h2⟩ := h
  have h1 := needSome_ok.1 h1
  have hc : ∀ (k : ℕ) (v : List (List K)), (x.cache.getD (List.replicate c.dims.length none))[k]? = some (some v) →
      VertsOf c mode x.set k v := by
    intro k v hk
    cases hx : x.cache with
    | none =>
      rw [hx] at hk
      simp only [Option.getD_none, List.getElem?_replicate] at hk
      split at hk <;> cases hk
    | some l => rw [hx] at hk; exact hi.cache l hx k v hk
  cases e with
  | some w =>
    simp only at h2
    cases h2
    exact ⟨⟨hi.obj, hi.dims, fun l hl k v hk => by cases hl; exact hc k v hk⟩, hc k v h1, SS.Same.refl _⟩
  | none =>
    simp only [Plotted.compute, bind_ok, pure_ok, Prod.mk.injEq] at h2
    obtain ⟨ds, h3, d, h4, r, h5, rfl, rfl⟩ := h2
    have h4 := needSome_ok.1 h4
    have hds : resolveDims mode c.dims = .ok ds := by
      cases hx : x.dims with
      | none => rw [hx] at h3; exact h3
      | some l => rw [hx] at h3; cases h3; exact hi.dims _ hx
    obtain ⟨p, p1, p2, p3⟩ := resolveDims_get hds h4
    have hs := getVerts_same (vs := r.2) h5
    have hv : VertsOf c mode x.set k r.2 := ⟨p, d.1, d.2, x.set.lp, r.1, p1, p2, p3, rfl, hi.obj, h5⟩
    have hsame : ({ x.set with lp := r.1 } : SS K).Same x.set := SS.Same.lp hs.1
    refine ⟨⟨hs.2 hi.obj, fun ds' e => by cases e; exact hds, fun l hl j w hj => ?_⟩, hv, hsame⟩
    cases hl
    refine VertsOf.congr ?_ hsame.symm
    rw [List.getElem?_set] at hj
    split at hj
    · next e =>
      subst e
      split at hj
      · cases hj; exact hv
      · cases hj
    · exact hc j w hj

theorem Plotted.step_spec {c : VertsCfg K} {d : Dyn K} {m : Mode K} {te : Option (TE K)} {x : Plotted K}
    {t : Option ℕ} {r : Option (TE K) × Plotted K} (hi : PInv c m.name x) (h : x.step d m te t = .ok r) :
    PInv c m.name r.2 ∧ x.set.step d m te t = .ok (r.1, r.2.set) := by
  simp only [Plotted.step, bind_ok, pure_ok] at h
  obtain ⟨q, h1, rfl⟩ := h
  refine ⟨⟨SS.step_obj h1 hi.obj, hi.dims, ?_⟩, h1⟩
  intro l hl k v hk
  simp only at hl
  split at hl
  · next e =>
    have : q.2 = x.set := by
      unfold SS.step at h1
      dsimp only at h1
      rw [if_neg (by omega), if_pos e] at h1
      cases h1; rfl
    simp only [this]
    exact hi.cache l hl k v hk
  · cases hl

/-- The steps among the calls. -/
def VertsOp.isStep : VertsOp → Bool
  | .verts _ => false
  | .step _ => true

/-- The calls of a history applied to a set that is never plotted. -/
def stepsOnly (d : Dyn K) (m : Mode K) : Option (TE K) × SS K → List VertsOp → Except Err (Option (TE K) × SS K)
  | s, [] => .ok s
  | s, .verts _ :: os => stepsOnly d m s os
  | s, .step t :: os => do
    let r ← s.2.step d m s.1 t
    stepsOnly d m r os

theorem Plotted.run_spec {c : VertsCfg K} {d : Dyn K} {m : Mode K} : ∀ {ops : List VertsOp}
    {s r : Option (TE K) × Plotted K} {y : SS K}, PInv c m.name s.2 → s.2.set.Same y →
    Plotted.run c d m s ops = .ok r →
    PInv c m.name r.2 ∧ ∃ y', stepsOnly d m (s.1, y) ops = .ok (r.1, y') ∧ r.2.set.Same y'
  | [], s, r, y, hi, hs, h => by
    simp only [Plotted.run] at h; cases h
    exact ⟨hi, y, rfl, hs⟩
  | .verts k :: ops, s, r, y, hi, hs, h => by
    simp only [Plotted.run, Plotted.op, bind_ok, pure_ok] at h
    obtain ⟨q', ⟨q, h1, rfl⟩, h2⟩ := h
    obtain ⟨i1, -, i3⟩ := Plotted.verts_spec (v := q.2) hi h1
    have := Plotted.run_spec (ops := ops) (s := (s.1, q.1)) i1 (i3.trans hs) h2
    simpa only [stepsOnly] using this
  | .step t :: ops, s, r, y, hi, hs, h => by
    simp only [Plotted.run, Plotted.op, bind_ok, pure_ok] at h
    obtain ⟨_, ⟨q, h1, rfl⟩, h2⟩ := h
    obtain ⟨i1, i2⟩ := Plotted.step_spec hi h1
    obtain ⟨y1, e1, e2⟩ := hs.step i2
    obtain ⟨a, y', b1, b2⟩ := Plotted.run_spec i1 e2 h2
    refine ⟨a, y', ?_, b2⟩
    simp only [stepsOnly, bind_ok]
    exact ⟨_, e1, b1⟩

/-- **C61**: whatever vertices were asked for and whatever steps were made before, the vertices a state set answers are
those of its current set, over its current time interval; and asking for them does not change the set. -/
theorem C61_current_partial {c : VertsCfg K} {d : Dyn K} {m : Mode K} {st : SS K} (ho : st.lp.ObjInv) {te : Option (TE K)}
    {ops : List VertsOp} {r : Option (TE K) × Plotted K} (h : Plotted.run c d m (te, ⟨st, none, none⟩) ops = .ok r)
    {k : ℕ} {x' : Plotted K} {v : List (List K)} (hv : r.2.verts c m.name k = .ok (x', v)) :
    VertsOf c m.name r.2.set k v ∧ x'.set.Same r.2.set := by
  have h0 : PInv c m.name ⟨st, none, none⟩ := ⟨ho, fun _ h => (by cases h), fun _ h => (by cases h)⟩
  exact (Plotted.verts_spec (Plotted.run_spec (s := (te, ⟨st, none, none⟩)) h0 (SS.Same.refl _) h).1 hv).2

/-- **C61**: plotting is transparent: with the same steps but no plotting at all, the set (its constraints, step counts,
operations, invariant rows, ...) and the time-elapse cache come out the same. -/
theorem C61_plotting_transparent {c : VertsCfg K} {d : Dyn K} {m : Mode K} {st : SS K} (ho : st.lp.ObjInv)
    {te : Option (TE K)} {ops : List VertsOp} {r : Option (TE K) × Plotted K}
    (h : Plotted.run c d m (te, ⟨st, none, none⟩) ops = .ok r) :
    ∃ y', stepsOnly d m (te, st) ops = .ok (r.1, y') ∧ r.2.set.Same y' := by
  have h0 : PInv c m.name ⟨st, none, none⟩ := ⟨ho, fun _ h => (by cases h), fun _ h => (by cases h)⟩
  exact (Plotted.run_spec (s := (te, ⟨st, none, none⟩)) h0 (SS.Same.refl _) h).2

/-- **C61** for a plot against time: after any history, the rectangle answered is spanned by the current time interval and the
exact range of the plotted coordinate over the current set. -/
theorem C61_time_plot_partial {c : VertsCfg K} (hS : c.solver.Honest) (htol : 0 ≤ c.tol) {d : Dyn K} {m : Mode K} {st : SS K}
    (ho : st.lp.ObjInv) {te : Option (TE K)} {ops : List VertsOp} {r : Option (TE K) × Plotted K}
    (h : Plotted.run c d m (te, ⟨st, none, none⟩) ops = .ok r) (hcur : r.2.set.lp.cur + r.2.set.lp.dims ≤ r.2.set.lp.numCols)
    {k : ℕ} {i : ℕ} (hk : c.dims[k]? = some (.plain .time, .plain (.idx i))) (hid : i < r.2.set.lp.dims)
    {x' : Plotted K} {v : List (List K)} (hv : r.2.verts c m.name k = .ok (x', v)) :
    ∃ lo hi, IsLeast {a | ∃ x, r.2.set.lp.Mem x ∧ a = x i} lo ∧ IsGreatest {a | ∃ x, r.2.set.lp.Mem x ∧ a = x i} hi ∧
      TracesRect c.tol (fun a b => [a, b]) ((r.2.set.steps.1 : K) * c.step) ((r.2.set.steps.2 : K) * c.step) lo hi v := by
  obtain ⟨⟨p, dx, dy, lp, lp', h1, h2, h3, h4, h5, h6⟩, -⟩ := C61_current_partial ho h hv
  rw [hk] at h1; cases h1
  simp only [DimSetting.resolve] at h2 h3
  cases h2; cases h3
  simp only [getVerts, vertsOpen, bind_ok, pure_ok, Prod.mk.injEq] at h6
  obtain ⟨q, ⟨e, g1, rfl⟩, w, g2, -, rfl⟩ := h6
  obtain ⟨-, e1, e2⟩ := extremes_spec (s := r.2.set.lp.toSys) hS hcur (d := .idx i) hid (by simp) ⟨h4, h5⟩ g1
  exact ⟨_, _, e1, e2, timeCorners_rect htol _ _ _ _ _ g2⟩

/-! ### A concrete history -/

/-- The mode `x' = c` with invariant `x ≤ 1/2`. -/
def vMode : Mode ℚ := { name := "up", id := 0, a := some ⟨2, [[(1, 1)], []]⟩, inv := [⟨2, [(0, 1)], 1 / 2⟩] }

/-- One subplot: `x` against time. -/
def vCfg : VertsCfg ℚ :=
  { solver := Simplex.solver 100, geom := ⟨fun _ => ([], 0), fun _ => .error .runtime, fun _ _ => false⟩, step := 1 / 10
    dims := [(.plain .time, .byMode fun s => if s = "up" then some (.idx 0) else none)]
    tol := 1 / 10 ^ 9, small := 1 / 10 ^ 5, thousand := 1000, fuel := 10 }

def vSet : Except Err (SS ℚ) := do
  let lp ← fromBox (Simplex.solver 100) [(0, 1), (1, 1)] vMode
  SS.make (exEnv 1 0 none).T vMode 0 lp (0, 0) [] true

def vRun : Except Err (SS ℚ × Option (TE ℚ) × Plotted ℚ × Plotted ℚ × List (List ℚ)) := do
  let st ← vSet
  let r ← Plotted.run vCfg (exDyn 1) vMode (none, ⟨st, none, none⟩) [.verts 0, .step none, .verts 0]
  let q ← r.2.verts vCfg vMode.name 0
  return (st, r.1, r.2, q.1, q.2)

set_option maxRecDepth 100000 in
theorem vRun_ok : okAnd vRun (fun r => decide (r.2.2.2.2 = [[1 / 10, 1], [1 / 10, 2], [1 / 10, 1]])) = true := by decide +kernel

/-- The hypotheses of C61 are met: a set that is plotted, moved a step and plotted again answers the new vertices. -/
example : ∃ (st : SS ℚ) (r : Option (TE ℚ) × Plotted ℚ) (x' : Plotted ℚ), st.lp.ObjInv ∧
    Plotted.run vCfg (exDyn 1) vMode (none, ⟨st, none, none⟩) [.verts 0, .step none, .verts 0] = .ok r ∧
    r.2.verts vCfg vMode.name 0 = .ok (x', [[1 / 10, 1], [1 / 10, 2], [1 / 10, 1]]) := by
  obtain ⟨⟨st, te, x, x', v⟩, h, hv⟩ := okAnd_ok vRun_ok
  simp only [vRun, bind_ok, pure_ok] at h
  obtain ⟨st, h1, r, h2, q, h3, h4⟩ := h
  cases h4
  simp only [decide_eq_true_eq] at hv
  refine ⟨st, r, q.1, ?_, h2, by rw [h3, ← hv]⟩
  simp only [vSet, bind_ok] at h1
  obtain ⟨lp, h5, h6⟩ := h1
  have : st.lp = lp := by
    unfold SS.make at h6
    split at h6
    · cases h6; rfl
    · simp only [bind_ok, pure_ok] at h6
      obtain ⟨_, -, _, -, _, -, rfl⟩ := h6
      rfl
  rw [this]
  simp only [fromBox, bind_ok, assert_ok] at h5
  obtain ⟨_, -, h5⟩ := h5
  have ho := fromConstraints_ok h5 (by simp)
  intro j hj
  rw [ho.2.2.2.2.2.2.2.2.2.2.2.1] at hj
  exact absurd rfl hj

/-- Plot, intersect with the invariant, plot again; and plot the same set afresh. -/
def vStale : Except Err (List (List ℚ) × List (List ℚ) × List (List ℚ)) := do
  let st ← vSet
  let r ← (⟨st, none, none⟩ : Plotted ℚ).verts vCfg vMode.name 0
  let i ← r.1.intersect (Simplex.solver 100) (exEnv 1 0 none).T vMode
  let q ← i.1.verts vCfg vMode.name 0
  let f ← (⟨i.1.set, none, none⟩ : Plotted ℚ).verts vCfg vMode.name 0
  return (r.2, q.2, f.2)

set_option maxRecDepth 100000 in
/-- Only `step` drops the cached vertices: a set that was plotted and is then cut by the mode's invariant (or replaced by an
approximation model) still answers the vertices of the uncut set.  Here `x ∈ [0, 1]` is cut to `x ≤ 1/2`. -/
theorem C61_stale_after_invariant : okAnd vStale (fun r =>
    decide (r.1 = [[0, 0], [0, 1], [0, 0]]) && decide (r.2.1 = [[0, 0], [0, 1], [0, 0]]) &&
      decide (r.2.2 = [[0, 0], [0, 1 / 2], [0, 0]])) = true := by decide +kernel

end Hylaa
