import Verif.Model.Heap
import Verif.Proofs.Inv

/-! # C23: a clone is an independent equal copy -/

set_option linter.unusedSectionVars false

namespace Hylaa
variable {K : Type} [Field K] [LinearOrder K]

/-- No two objects share a mutable part, and all references are valid. -/
structure Heap.Sep (h : Heap K) : Prop where
  valid : ∀ (a : ℕ) (o : LpObj), h.objs[a]? = some o → o.prob < h.probs.length ∧ o.names < h.strs.length ∧
    o.objCols < h.ints.length ∧ o.bmIdx < h.idxs.length
  sep : ∀ (a b : ℕ) (oa ob : LpObj), h.objs[a]? = some oa → h.objs[b]? = some ob → a ≠ b →
    oa.prob ≠ ob.prob ∧ oa.names ≠ ob.names ∧ oa.objCols ≠ ob.objCols ∧ oa.bmIdx ≠ ob.bmIdx

theorem getElem?_append_one {α : Type} {l : List α} {x y : α} {a : ℕ} :
    (l ++ [x])[a]? = some y ↔ l[a]? = some y ∨ (a = l.length ∧ x = y) := by
  by_cases h : a < l.length
  · rw [List.getElem?_append_left h]
    constructor
    · exact Or.inl
    · rintro (h1 | h1)
      · exact h1
      · omega
  · rw [List.getElem?_append_right (by omega), List.getElem?_eq_none (by omega : l.length ≤ a)]
    rcases Nat.eq_or_lt_of_le (not_lt.1 h) with h2 | h2
    · subst h2; simp
    · rw [List.getElem?_eq_none (by simp; omega)]
      simp; omega

theorem getElem?_set_some {α : Type} {l : List α} {x y : α} {a b : ℕ} (hb : b < l.length) :
    (l.set b x)[a]? = some y ↔ (a = b ∧ x = y) ∨ (a ≠ b ∧ l[a]? = some y) := by
  rw [List.getElem?_set]
  by_cases h : b = a
  · subst h; simp [hb]
  · simp [h, Ne.symm h]

/-- Adding one object that refers to new cells only. -/
theorem Heap.Sep.extend {h : Heap K} (hs : h.Sep) (p : Prob K) (n : List String) (c : List ℕ)
    (i : List (List ℕ)) (o : LpObj) (h1 : o.prob = h.probs.length) (h2 : o.names = h.strs.length)
    (h3 : o.objCols = h.ints.length) (h4 : o.bmIdx = h.idxs.length) :
    Heap.Sep { probs := h.probs ++ [p], strs := h.strs ++ [n], ints := h.ints ++ [c],
               idxs := h.idxs ++ [i], objs := h.objs ++ [o] } := by
  constructor
  · intro a q hq
    simp only [getElem?_append_one] at hq
    simp only [List.length_append, List.length_singleton]
    rcases hq with hq | ⟨-, rfl⟩
    · have := hs.valid a q hq; omega
    · omega
  · intro a b oa ob ha hb hab
    simp only [getElem?_append_one] at ha hb
    rcases ha with ha | ⟨rfl, rfl⟩ <;> rcases hb with hb | ⟨rfl, rfl⟩
    · exact hs.sep a b oa ob ha hb hab
    · have := hs.valid a oa ha; omega
    · have := hs.valid b ob hb; omega
    · exact absurd rfl hab

theorem Heap.Sep.exec {h : Heap K} (hs : h.Sep) (a : ℕ) (p : Prim K) : (h.exec a p).Sep := by
  unfold Heap.exec
  cases ho : h.objs[a]? with
  | none => exact hs
  | some o =>
    have hlt : a < h.objs.length := (List.getElem?_eq_some_iff.1 ho).1
    cases p with
    | glpk f => exact ⟨by simpa using hs.valid, hs.sep⟩
    | namesExtend ns => exact ⟨by simpa using hs.valid, hs.sep⟩
    | objColsAppend c => exact ⟨by simpa using hs.valid, hs.sep⟩
    | objColsNew =>
      constructor
      · intro b q hq
        simp only [getElem?_set_some hlt] at hq
        simp only [List.length_append, List.length_singleton]
        rcases hq with ⟨rfl, rfl⟩ | ⟨-, hq⟩
        · have := hs.valid b o ho; simp only; omega
        · have := hs.valid b q hq; omega
      · intro b c ob oc hb hc hbc
        simp only [getElem?_set_some hlt] at hb hc
        rcases hb with ⟨rfl, rfl⟩ | ⟨hb', hb⟩ <;> rcases hc with ⟨rfl, rfl⟩ | ⟨hc', hc⟩
        · exact absurd rfl hbc
        · have := hs.sep b c o oc ho hc hbc
          have h2 := hs.valid c oc hc
          simp only; omega
        · have := hs.sep b c ob o hb ho hbc
          have h2 := hs.valid b ob hb
          simp only; omega
        · exact hs.sep b c ob oc hb hc hbc
    | reach dims bmPos cur ie =>
      constructor
      · intro b q hq
        simp only [getElem?_set_some hlt] at hq
        simp only [List.length_append, List.length_singleton]
        rcases hq with ⟨rfl, rfl⟩ | ⟨-, hq⟩
        · have := hs.valid b o ho; simp only; omega
        · have := hs.valid b q hq; omega
      · intro b c ob oc hb hc hbc
        simp only [getElem?_set_some hlt] at hb hc
        rcases hb with ⟨rfl, rfl⟩ | ⟨hb', hb⟩ <;> rcases hc with ⟨rfl, rfl⟩ | ⟨hc', hc⟩
        · exact absurd rfl hbc
        · have := hs.sep b c o oc ho hc hbc
          have h2 := hs.valid c oc hc
          simp only; omega
        · have := hs.sep b c ob o hb ho hbc
          have h2 := hs.valid b ob hb
          simp only; omega
        · exact hs.sep b c ob oc hb hc hbc

theorem Heap.clone_eq {h h' : Heap K} {a : ℕ} (hc : h.clone a = some h') :
    ∃ (o : LpObj) (p : Prob K) (n : List String) (c : List ℕ), h.objs[a]? = some o ∧ h.probs[o.prob]? = some p ∧ h.strs[o.names]? = some n ∧
      h.ints[o.objCols]? = some c ∧ (o.bmPos.1 + o.dims ≤ p.rows.length ∧
        o.bmPos.2 + 2 * o.dims ≤ n.length ∧ ieFits o.ie o.dims p.rows.length n.length = true) ∧
      h' = { probs := h.probs ++ [p], strs := h.strs ++ [n], ints := h.ints ++ [c],
             idxs := h.idxs ++ [mkBmIdx o.dims o.bmPos.2 o.cur o.ie],
             objs := h.objs ++ [⟨h.probs.length, h.strs.length, h.ints.length, h.idxs.length, o.dims,
               o.bmPos, o.cur, o.ie⟩] } := by
  simp only [Heap.clone, Option.bind_eq_bind, Option.bind_eq_some_iff] at hc
  obtain ⟨o, h1, p, h2, n, h3, c, h4, h5⟩ := hc
  split at h5
  · rename_i hcond
    cases h5
    exact ⟨o, p, n, c, h1, h2, h3, h4, hcond, rfl⟩
  · cases h5

theorem Heap.Sep.step {h : Heap K} (hs : h.Sep) (i : Instr K) : (h.step i).Sep := by
  cases i with
  | new => exact hs.extend _ _ _ _ _ rfl rfl rfl rfl
  | mutate a p => exact hs.exec a p
  | clone a =>
    simp only [Heap.step]
    cases hc : h.clone a with
    | none => exact hs
    | some h' =>
      obtain ⟨o, p, n, c, -, -, -, -, -, rfl⟩ := Heap.clone_eq hc
      exact hs.extend _ _ _ _ _ rfl rfl rfl rfl

theorem Heap.Sep.run {h : Heap K} (hs : h.Sep) (is : List (Instr K)) : (h.run is).Sep := by
  induction is generalizing h with
  | nil => exact hs
  | cons i is ih => exact ih (hs.step i)

theorem Heap.Sep.empty : ({} : Heap K).Sep := ⟨by simp, by simp⟩

/-- The parts of an object's view. -/
theorem Heap.view_eq {h : Heap K} {a : ℕ} {lp : Lp K} : h.view a = some lp ↔
    ∃ (o : LpObj) (p : Prob K) (n : List String) (c : List ℕ) (i : List (List ℕ)), h.objs[a]? = some o ∧ h.probs[o.prob]? = some p ∧ h.strs[o.names]? = some n ∧
      h.ints[o.objCols]? = some c ∧ h.idxs[o.bmIdx]? = some i ∧
      lp = { names := n, rows := p.rows, dims := o.dims, bmPos := o.bmPos, cur := o.cur, ie := o.ie,
             bmIdx := i, obj := p.obj, objCols := c, ws := p.ws } := by
  simp only [Heap.view, Option.bind_eq_bind, Option.bind_eq_some_iff, Option.pure_def,
    Option.some.injEq]
  constructor
  · rintro ⟨o, h1, p, h2, n, h3, c, h4, i, h5, rfl⟩
    exact ⟨o, p, n, c, i, h1, h2, h3, h4, h5, rfl⟩
  · rintro ⟨o, p, n, c, i, h1, h2, h3, h4, h5, rfl⟩
    exact ⟨o, h1, p, h2, n, h3, c, h4, i, h5, rfl⟩

/-- The view only depends on the cells it reads. -/
theorem Heap.view_congr {h h' : Heap K} {a : ℕ} {o : LpObj} (ho : h.objs[a]? = some o)
    (h0 : h'.objs[a]? = some o) (h1 : h'.probs[o.prob]? = h.probs[o.prob]?)
    (h2 : h'.strs[o.names]? = h.strs[o.names]?) (h3 : h'.ints[o.objCols]? = h.ints[o.objCols]?)
    (h4 : h'.idxs[o.bmIdx]? = h.idxs[o.bmIdx]?) : h'.view a = h.view a := by
  simp only [Heap.view, ho, h0, Option.bind_eq_bind, Option.bind_some, h1, h2, h3, h4]

/-- Mutating one object leaves every other object's view alone. -/
theorem Heap.exec_view_ne {h : Heap K} (hs : h.Sep) {a b : ℕ} (hab : b ≠ a) (hb : b < h.objs.length)
    (p : Prim K) : (h.exec a p).view b = h.view b ∧ b < (h.exec a p).objs.length := by
  unfold Heap.exec
  cases ho : h.objs[a]? with
  | none => exact ⟨rfl, hb⟩
  | some o =>
    have hlt : a < h.objs.length := (List.getElem?_eq_some_iff.1 ho).1
    obtain ⟨q, hq⟩ : ∃ q, h.objs[b]? = some q := ⟨_, List.getElem?_eq_getElem hb⟩
    obtain ⟨s1, s2, s3, s4⟩ := hs.sep b a q o hq ho hab
    obtain ⟨v1, v2, v3, v4⟩ := hs.valid b q hq
    cases p with
    | glpk f =>
      refine ⟨Heap.view_congr hq hq ?_ rfl rfl rfl, hb⟩
      simp [List.getElem?_modify, Ne.symm s1]
    | namesExtend ns =>
      refine ⟨Heap.view_congr hq hq rfl ?_ rfl rfl, hb⟩
      simp [List.getElem?_modify, Ne.symm s2]
    | objColsAppend c =>
      refine ⟨Heap.view_congr hq hq rfl rfl ?_ rfl, hb⟩
      simp [List.getElem?_modify, Ne.symm s3]
    | objColsNew =>
      refine ⟨Heap.view_congr hq ?_ rfl rfl ?_ rfl, by simpa using hb⟩
      · simp only [getElem?_set_some hlt]; exact Or.inr ⟨hab, hq⟩
      · simp only [List.getElem?_append_left v3]
    | reach dims bmPos cur ie =>
      refine ⟨Heap.view_congr hq ?_ rfl rfl rfl ?_, by simpa using hb⟩
      · simp only [getElem?_set_some hlt]; exact Or.inr ⟨hab, hq⟩
      · simp only [List.getElem?_append_left v4]

/-- Allocating a new object leaves every existing view alone. -/
theorem Heap.extend_view {h : Heap K} (hs : h.Sep) {b : ℕ} (hb : b < h.objs.length)
    (p : Prob K) (n : List String) (c : List ℕ) (i : List (List ℕ)) (o : LpObj) :
    Heap.view { probs := h.probs ++ [p], strs := h.strs ++ [n], ints := h.ints ++ [c],
                idxs := h.idxs ++ [i], objs := h.objs ++ [o] } b = h.view b := by
  obtain ⟨q, hq⟩ : ∃ q, h.objs[b]? = some q := ⟨_, List.getElem?_eq_getElem hb⟩
  obtain ⟨v1, v2, v3, v4⟩ := hs.valid b q hq
  refine Heap.view_congr hq ?_ ?_ ?_ ?_ ?_
  · simp only [List.getElem?_append_left hb, hq]
  · simp only [List.getElem?_append_left v1]
  · simp only [List.getElem?_append_left v2]
  · simp only [List.getElem?_append_left v3]
  · simp only [List.getElem?_append_left v4]

theorem Heap.step_view {h : Heap K} (hs : h.Sep) {b : ℕ} (hb : b < h.objs.length) (i : Instr K)
    (hi : ¬ i.mutates b) : (h.step i).view b = h.view b ∧ b < (h.step i).objs.length := by
  cases i with
  | new => exact ⟨Heap.extend_view hs hb _ _ _ _ _, by simp [Heap.step, Heap.new]; omega⟩
  | mutate a p =>
    have : b ≠ a := by rintro rfl; exact hi ⟨p, rfl⟩
    exact Heap.exec_view_ne hs this hb p
  | clone a =>
    simp only [Heap.step]
    cases hc : h.clone a with
    | none => exact ⟨rfl, hb⟩
    | some h' =>
      obtain ⟨o, p, n, c, -, -, -, -, -, rfl⟩ := Heap.clone_eq hc
      exact ⟨Heap.extend_view hs hb _ _ _ _ _, by simp; omega⟩

/-- **C23**, independence: in every program, an instance keeps its contents as long as the program
does not mutate that very instance, whatever it does with all other instances (in particular with
the ones it was cloned from or cloned into). -/
theorem C23_untouched_unchanged (before after : List (Instr K)) (b : ℕ)
    (hb : b < (({} : Heap K).run before).objs.length) (hi : ∀ i ∈ after, ¬ i.mutates b) :
    ((({} : Heap K).run before).run after).view b = (({} : Heap K).run before).view b := by
  have hs : (({} : Heap K).run before).Sep := Heap.Sep.empty.run before
  generalize ({} : Heap K).run before = h at *
  induction after generalizing h with
  | nil => rfl
  | cons i is ih =>
    obtain ⟨hv, hl⟩ := Heap.step_view hs hb i (hi i (by simp))
    exact (ih (fun j hj => hi j (List.mem_cons_of_mem _ hj)) (h.step i) hl (hs.step i)).trans hv

/-- **C23**, equality: in every program, a successful `clone` of instance `a` gives a new instance
with the same rows, columns, objective, `obj_cols`, solver state and reach variables as `a` (the
functional model's `clone`), and `a` itself is unchanged. -/
theorem C23_clone_equal (before : List (Instr K)) (a : ℕ) {h' : Heap K} {lp : Lp K}
    (hv : (({} : Heap K).run before).view a = some lp)
    (hc : (({} : Heap K).run before).clone a = some h') :
    ∃ lp', h'.view (({} : Heap K).run before).objs.length = some lp' ∧ lp.clone = .ok lp' ∧
      lp'.rows = lp.rows ∧ lp'.names = lp.names ∧ lp'.obj = lp.obj ∧ lp'.objCols = lp.objCols ∧
      lp'.ws = lp.ws ∧ lp'.dims = lp.dims ∧ lp'.bmPos = lp.bmPos ∧ lp'.cur = lp.cur ∧
      lp'.ie = lp.ie ∧ h'.view a = some lp := by
  have hs : (({} : Heap K).run before).Sep := Heap.Sep.empty.run before
  generalize ({} : Heap K).run before = h at *
  obtain ⟨o, p, n, c, i, h1, h2, h3, h4, h5, rfl⟩ := Heap.view_eq.1 hv
  obtain ⟨o', p', n', c', h1', h2', h3', h4', hcond, rfl⟩ := Heap.clone_eq hc
  obtain rfl : o = o' := by rw [h1] at h1'; cases h1'; rfl
  obtain rfl : p = p' := by rw [h2] at h2'; cases h2'; rfl
  obtain rfl : n = n' := by rw [h3] at h3'; cases h3'; rfl
  obtain rfl : c = c' := by rw [h4] at h4'; cases h4'; rfl
  have hal : a < h.objs.length := (List.getElem?_eq_some_iff.1 h1).1
  refine ⟨_, Heap.view_eq.2 ⟨_, p, n, c, mkBmIdx o.dims o.bmPos.2 o.cur o.ie,
    getElem?_append_one.2 (Or.inr ⟨rfl, rfl⟩), ?_, ?_, ?_, ?_, rfl⟩, ?_, rfl, rfl, rfl, rfl, rfl, rfl,
    rfl, rfl, rfl, ?_⟩
  · simp
  · simp
  · simp
  · simp
  · unfold Lp.clone
    rw [setReachVars_ok.2 ⟨hcond, rfl⟩]
  · rw [Heap.extend_view hs hal]; exact hv

/-- The functional effect of an elementary mutation. -/
def Prim.app (p : Prim K) (lp : Lp K) : Lp K :=
  match p with
  | .glpk f => { lp with rows := (f ⟨lp.rows, lp.obj, lp.ws⟩).rows,
                         obj := (f ⟨lp.rows, lp.obj, lp.ws⟩).obj,
                         ws := (f ⟨lp.rows, lp.obj, lp.ws⟩).ws }
  | .namesExtend ns => { lp with names := lp.names ++ ns }
  | .objColsNew => { lp with objCols := [] }
  | .objColsAppend c => { lp with objCols := lp.objCols ++ [c] }
  | .reach dims bmPos cur ie =>
    { lp with dims, bmPos, cur, ie, bmIdx := mkBmIdx dims bmPos.2 cur ie }

/-- A mutation through the references does to the instance what it does in the functional model. -/
theorem Heap.exec_view {h : Heap K} {a : ℕ} {lp : Lp K} (hv : h.view a = some lp) (p : Prim K) :
    (h.exec a p).view a = some (p.app lp) := by
  obtain ⟨o, q, n, c, i, h1, h2, h3, h4, h5, rfl⟩ := Heap.view_eq.1 hv
  have hlt : a < h.objs.length := (List.getElem?_eq_some_iff.1 h1).1
  rw [Heap.view_eq]
  simp only [Heap.exec, h1]
  cases p with
  | glpk f =>
    exact ⟨o, f q, n, c, i, h1, by simp [List.getElem?_modify, h2], h3, h4, h5, rfl⟩
  | namesExtend ns =>
    exact ⟨o, q, n ++ ns, c, i, h1, h2, by simp [List.getElem?_modify, h3], h4, h5, rfl⟩
  | objColsAppend k =>
    exact ⟨o, q, n, c ++ [k], i, h1, h2, h3, by simp [List.getElem?_modify, h4], h5, rfl⟩
  | objColsNew =>
    exact ⟨{ o with objCols := h.ints.length }, q, n, [], i,
      (getElem?_set_some hlt).2 (Or.inl ⟨rfl, rfl⟩), h2, h3, by simp, h5, rfl⟩
  | reach dims bmPos cur ie =>
    exact ⟨{ o with dims, bmPos, cur, ie, bmIdx := h.idxs.length }, q, n, c,
      mkBmIdx dims bmPos.2 cur ie, (getElem?_set_some hlt).2 (Or.inl ⟨rfl, rfl⟩), h2, h3, h4,
      by simp, rfl⟩

theorem Heap.execs_view {h : Heap K} {a : ℕ} {lp : Lp K} (hv : h.view a = some lp)
    (ps : List (Prim K)) :
    (h.execs a ps).view a = some (ps.foldl (fun lp p => p.app lp) lp) := by
  induction ps generalizing h lp with
  | nil => exact hv
  | cons p ps ih => exact ih (Heap.exec_view hv p)

theorem objCols_appends (l : List ℕ) (lp : Lp K) :
    (l.map Prim.objColsAppend).foldl (fun lp p => p.app lp) lp =
      { lp with objCols := lp.objCols ++ l } := by
  induction l generalizing lp with
  | nil => simp
  | cons c l ih => rw [List.map_cons, List.foldl_cons, ih]; simp [Prim.app]

/-- **C23**, coverage: every change of an instance the functional model makes (rows, objective,
solver state, added columns, objective columns, reach variables) is a sequence of the mutations the
independence theorem quantifies over. -/
theorem C23_mutations_cover {h : Heap K} {a : ℕ} {lp lp' : Lp K} (hv : h.view a = some lp)
    (hn : lp.names <+: lp'.names)
    (hr : (lp'.dims, lp'.bmPos, lp'.cur, lp'.ie, lp'.bmIdx) =
        (lp.dims, lp.bmPos, lp.cur, lp.ie, lp.bmIdx) ∨
      lp'.bmIdx = mkBmIdx lp'.dims lp'.bmPos.2 lp'.cur lp'.ie) :
    ∃ ps, (h.execs a ps).view a = some lp' := by
  obtain ⟨ns, hns⟩ := hn
  rcases hr with hr | hr
  · refine ⟨[.glpk fun _ => ⟨lp'.rows, lp'.obj, lp'.ws⟩, .namesExtend ns, .objColsNew] ++
      lp'.objCols.map .objColsAppend, ?_⟩
    rw [Heap.execs_view hv, List.foldl_append, objCols_appends]
    simp only [Prod.mk.injEq] at hr
    obtain ⟨r1, r2, r3, r4, r5⟩ := hr
    obtain ⟨⟨n, rw, d, b, c, i, bi⟩, ob, oc, w⟩ := lp'
    simp only at *
    subst r1 r2 r3 r4 r5 hns
    simp [Prim.app]
  · refine ⟨[.glpk fun _ => ⟨lp'.rows, lp'.obj, lp'.ws⟩, .namesExtend ns, .objColsNew,
      .reach lp'.dims lp'.bmPos lp'.cur lp'.ie] ++ lp'.objCols.map .objColsAppend, ?_⟩
    rw [Heap.execs_view hv, List.foldl_append, objCols_appends]
    obtain ⟨⟨n, rw, d, b, c, i, bi⟩, ob, oc, w⟩ := lp'
    simp only at *
    subst hr hns
    simp [Prim.app]

/-- Non-vacuity: an instance is created, given a column, cloned; then the original gets another
column and a new `obj_cols` entry; the clone keeps its contents. -/
example : ∃ before after : List (Instr ℚ), ∃ lp lp' : Lp ℚ,
    ((({} : Heap ℚ).run before).run after).view 1 = some lp ∧ lp.names = ["x"] ∧ lp.objCols = [] ∧
    ((({} : Heap ℚ).run before).run after).view 0 = some lp' ∧ lp'.names = ["x", "y"] ∧
    lp'.objCols = [0] ∧ ∀ i ∈ after, ¬ i.mutates 1 := by
  refine ⟨[.new, .mutate 0 (.namesExtend ["x"]), .clone 0],
    [.mutate 0 (.namesExtend ["y"]), .mutate 0 (.objColsAppend 0)], _, _, rfl, rfl, rfl, rfl, rfl, rfl,
    ?_⟩
  intro i hi
  simp only [List.mem_cons, List.not_mem_nil, or_false] at hi
  rintro ⟨p, rfl⟩
  rcases hi with hi | hi <;> cases hi

end Hylaa
