import Verif.Props.Sums

/-!
# Property C13: template aggregation
-/

set_option linter.unusedSectionVars false

namespace Hylaa

namespace Spec
variable {K : Type} [Field K] [LinearOrder K]

/-- Squared Euclidean norm of a direction. -/
def normSq (d : List K) : K := (d.map fun x => x * x).sum

/-- `d · x`. -/
def dotD (d : List K) (x : ℕ → K) : K := ∑ i ∈ Finset.range d.length, d.getD i 0 * x i

/-- The template polyhedron of the set `U` in the directions `dirs` (directions of squared norm below
`tol2` are skipped): in every direction `x` lies between two points of `U`. -/
def TemplateHull (tol2 : K) (dirs : List (List K)) (U : (ℕ → K) → Prop) (x : ℕ → K) : Prop :=
  ∀ d ∈ dirs, tol2 ≤ normSq d → (∃ y, U y ∧ dotD d x ≤ dotD d y) ∧ ∃ z, U z ∧ dotD d z ≤ dotD d x

/-- The union of the sets of a list of instances. -/
def UnionOf (lps : List (Lp K)) (x : ℕ → K) : Prop := ∃ lp ∈ lps, lp.Mem x

end Spec

open Spec
variable {K : Type} [Field K] [LinearOrder K] [IsStrictOrderedRing K]

theorem dotList_cols (d : List K) (lp : Lp K) (v : ℕ → K) :
    dotList (denseRow d) (colVals lp (some ((denseRow d).map fun p => lp.cur + p.1)) v) =
      dotD d fun i => v (lp.cur + i) := by
  simp only [colVals, List.map_map]
  have := dotList_map (denseRow d) (fun j => v (lp.cur + j))
  unfold dotD
  rw [← dot_denseRow, ← this]
  rfl

/-- Value of a direction on a solution of an instance. -/
def dirVal (d : List K) (lp : Lp K) (v : ℕ → K) : K := dotD d fun i => v (lp.cur + i)

theorem aggDirLoop_spec {S : Solver K} (hS : S.Honest) {dir : List K} {lps lps' : List (Lp K)}
    {acc acc' : Option (K × K)}
    (hin : ∀ l ∈ lps, l.ObjInv ∧ l.cur + l.dims ≤ l.numCols)
    (h : aggDirLoop S dir lps acc = .ok (lps', acc')) :
    (∀ l ∈ lps, dir.length = l.dims) ∧
    lps'.map (fun l => l.toSys) = lps.map (fun l => l.toSys) ∧ (∀ l ∈ lps', l.ObjInv) ∧
    (lps = [] → acc' = acc) ∧
    (∀ a, acc = some a → ∃ b, acc' = some b ∧ a.1 ≤ b.1 ∧ b.2 ≤ a.2) ∧
    (∀ l ∈ lps, ∃ b, acc' = some b ∧ ∀ w, l.Sat w → dirVal dir l w ≤ b.1 ∧ b.2 ≤ dirVal dir l w) ∧
    (∀ b, acc' = some b → ((∃ a, acc = some a ∧ a.1 = b.1) ∨
        ∃ l ∈ lps, ∃ v, l.Sat v ∧ dirVal dir l v = b.1) ∧
      ((∃ a, acc = some a ∧ a.2 = b.2) ∨ ∃ l ∈ lps, ∃ v, l.Sat v ∧ dirVal dir l v = b.2)) := by
  induction lps generalizing lps' acc with
  | nil =>
    simp only [aggDirLoop, Except.ok.injEq, Prod.mk.injEq] at h
    obtain ⟨rfl, rfl⟩ := h
    refine ⟨by simp, rfl, by simp, fun _ => rfl, fun a ha => ⟨a, ha, le_refl _, le_refl _⟩, by simp,
      fun b hb => ⟨Or.inl ⟨b, hb, rfl⟩, Or.inl ⟨b, hb, rfl⟩⟩⟩
  | cons lp rest ih =>
    simp only [aggDirLoop, bind_ok, assert_ok, pure_ok] at h
    obtain ⟨_, hlen, ⟨lp1, o1⟩, h1, ⟨lp2, o2⟩, h2, ⟨rest', acc1⟩, h3, h4⟩ := h
    obtain ⟨rfl, rfl⟩ := Prod.mk.inj h4
    obtain ⟨ho, hcur⟩ := hin lp (by simp)
    obtain ⟨hs1, ho1, hf1, -, hsome1⟩ := minimize_spec hS h1 ho
    obtain ⟨hs2, ho2, hf2, -, hsome2⟩ := minimize_spec hS h2 ho1
    obtain ⟨l1, rfl⟩ : ∃ l', o1 = some l' := by
      cases o1 with
      | none => exact absurd rfl (hf1 rfl)
      | some l => exact ⟨l, rfl⟩
    obtain ⟨l2, rfl⟩ : ∃ l', o2 = some l' := by
      cases o2 with
      | none => exact absurd rfl (hf2 rfl)
      | some l => exact ⟨l, rfl⟩
    obtain ⟨v1, hv1, hl1, -, hmin1⟩ := hsome1 l1 rfl
    obtain ⟨v2, hv2, hl2, -, hmin2⟩ := hsome2 l2 rfl
    have hmin1 := hmin1 _ rfl hcur
    rw [hs1] at hv2 hmin2
    have hmin2 := hmin2 _ rfl hcur
    have e1 : dotList (denseRow dir) ((some l1).getD []) = dirVal dir lp v1 := by
      rw [Option.getD_some, hl1]; exact dotList_cols dir lp v1
    have e2 : dotList (denseRow dir) ((some l2).getD []) = dirVal dir lp v2 := by
      rw [Option.getD_some, hl2]
      have : lp.cur = lp1.cur := by rw [hs1]
      rw [this, dotList_cols dir lp1 v2]; unfold dirVal; rw [this]
    rw [e1, e2] at h3
    have hneg : ∀ w : ℕ → K, (∑ i ∈ Finset.range (dir.map fun x => -x).length,
        (dir.map fun x => -x).getD i 0 * w (lp.cur + i)) = -dirVal dir lp w := by
      intro w
      unfold dirVal dotD
      rw [List.length_map, ← Finset.sum_neg_distrib]
      refine Finset.sum_congr rfl fun i hi => ?_
      have hi' := Finset.mem_range.1 hi
      simp [List.getElem?_eq_getElem hi']
    have hhi : ∀ w, lp.Sat w → dirVal dir lp w ≤ dirVal dir lp v1 := by
      intro w hw
      have := hmin1 w hw
      rw [hneg, hneg] at this
      linarith
    have hlo : ∀ w, lp.Sat w → dirVal dir lp v2 ≤ dirVal dir lp w := by
      intro w hw
      exact hmin2 w hw
    obtain ⟨i0, i1, i2, i3, i4, i5, i6⟩ := ih (fun l hl => hin l (by simp [hl])) h3
    have hmid : ∃ b, acc1 = some b ∧ dirVal dir lp v1 ≤ b.1 ∧ b.2 ≤ dirVal dir lp v2 ∧
        ∀ a, acc = some a → a.1 ≤ b.1 ∧ b.2 ≤ a.2 := by
      cases acc with
      | none =>
        obtain ⟨b, hb, hb1, hb2⟩ := i4 _ rfl
        exact ⟨b, hb, hb1, hb2, by simp⟩
      | some a =>
        obtain ⟨b, hb, hb1, hb2⟩ := i4 _ rfl
        refine ⟨b, hb, le_trans (le_max_right _ _) hb1, le_trans hb2 (min_le_right _ _), ?_⟩
        rintro _ ⟨⟩
        exact ⟨le_trans (le_max_left _ _) hb1, le_trans hb2 (min_le_left _ _)⟩
    obtain ⟨b, hb, hb1, hb2, hb3⟩ := hmid
    refine ⟨?_, ?_, ?_, by simp, fun a ha => ⟨b, hb, hb3 a ha⟩, ?_, ?_⟩
    · intro l hl
      rcases List.mem_cons.1 hl with rfl | hl
      · exact hlen
      · exact i0 l hl
    · simp only [List.map_cons, i1]
      rw [hs2, hs1]
    · intro l hl
      rcases List.mem_cons.1 hl with rfl | hl
      · exact ho2
      · exact i2 l hl
    · intro l hl
      rcases List.mem_cons.1 hl with rfl | hl
      · exact ⟨b, hb, fun w hw => ⟨le_trans (hhi w hw) hb1, le_trans hb2 (hlo w hw)⟩⟩
      · exact i5 l hl
    · intro b' hb'
      obtain ⟨j1, j2⟩ := i6 b' hb'
      constructor
      · rcases j1 with ⟨a, ha, ha2⟩ | ⟨l, hl, v, hv, hv2⟩
        · cases acc with
          | none =>
            obtain rfl := Option.some.inj ha
            exact Or.inr ⟨lp, by simp, v1, hv1, ha2⟩
          | some a0 =>
            obtain rfl := Option.some.inj ha
            simp only at ha2
            rcases max_choice a0.1 (dirVal dir lp v1) with hc | hc
            · rw [hc] at ha2; exact Or.inl ⟨a0, rfl, ha2⟩
            · rw [hc] at ha2; exact Or.inr ⟨lp, by simp, v1, hv1, ha2⟩
        · exact Or.inr ⟨l, by simp [hl], v, hv, hv2⟩
      · rcases j2 with ⟨a, ha, ha2⟩ | ⟨l, hl, v, hv, hv2⟩
        · cases acc with
          | none =>
            obtain rfl := Option.some.inj ha
            exact Or.inr ⟨lp, by simp, v2, hv2, ha2⟩
          | some a0 =>
            obtain rfl := Option.some.inj ha
            simp only at ha2
            rcases min_choice a0.2 (dirVal dir lp v2) with hc | hc
            · rw [hc] at ha2; exact Or.inl ⟨a0, rfl, ha2⟩
            · rw [hc] at ha2; exact Or.inr ⟨lp, by simp, v2, hv2, ha2⟩
        · exact Or.inr ⟨l, by simp [hl], v, hv, hv2⟩

theorem mem_of_toSys {lps lps' : List (Lp K)}
    (h : lps'.map (fun l => l.toSys) = lps.map (fun l => l.toSys)) (x : ℕ → K) :
    UnionOf lps' x ↔ UnionOf lps x := by
  unfold UnionOf
  have e : ∀ l : List (Lp K), (∃ lp ∈ l, lp.Mem x) ↔ ∃ s ∈ l.map (fun l => l.toSys), s.Mem x := by
    intro l; simp
  rw [e, e, h]

theorem objInv_cur_of_toSys {lps lps' : List (Lp K)}
    (h : lps'.map (fun l => l.toSys) = lps.map (fun l => l.toSys))
    (hin : ∀ l ∈ lps, l.ObjInv ∧ l.cur + l.dims ≤ l.numCols) (ho : ∀ l ∈ lps', l.ObjInv) :
    ∀ l ∈ lps', l.ObjInv ∧ l.cur + l.dims ≤ l.numCols := by
  intro l hl
  refine ⟨ho l hl, ?_⟩
  have : l.toSys ∈ lps.map (fun l => l.toSys) := by rw [← h]; exact List.mem_map_of_mem hl
  obtain ⟨m, hm, he⟩ := List.mem_map.1 this
  rw [← he]
  exact (hin m hm).2

theorem dotD_congr {d : List K} {x y : ℕ → K} (h : ∀ i < d.length, x i = y i) :
    dotD d x = dotD d y :=
  Finset.sum_congr rfl fun i hi => by rw [h i (Finset.mem_range.1 hi)]

theorem aggDirs_spec {S : Solver K} (hS : S.Honest) {tol2 : K} {dirs : List (List K)}
    {lps lps' : List (Lp K)} {rows : List (SRow K × K)}
    (hin : ∀ l ∈ lps, l.ObjInv ∧ l.cur + l.dims ≤ l.numCols)
    (h : aggDirs S tol2 dirs lps = .ok (lps', rows)) :
    lps'.map (fun l => l.toSys) = lps.map (fun l => l.toSys) ∧
    (∀ r ∈ rows, ∃ d ∈ dirs, ∀ p ∈ r.1, p.1 < d.length) ∧
    (∀ d ∈ dirs, tol2 ≤ normSq d →
      (∃ y, UnionOf lps y ∧ ∀ w, UnionOf lps w → dotD d w ≤ dotD d y) ∧
      ∃ y, UnionOf lps y ∧ ∀ w, UnionOf lps w → dotD d y ≤ dotD d w) ∧
    ∀ x, (∀ r ∈ rows, dot r.1 x ≤ r.2) ↔ TemplateHull tol2 dirs (UnionOf lps) x := by
  induction dirs generalizing lps lps' rows with
  | nil =>
    simp only [aggDirs, Except.ok.injEq, Prod.mk.injEq] at h
    obtain ⟨rfl, rfl⟩ := h
    exact ⟨rfl, by simp, by simp, by simp [TemplateHull]⟩
  | cons d ds ih =>
    simp only [aggDirs] at h
    by_cases hn : (d.map fun x => x * x).sum < tol2
    · rw [if_pos hn] at h
      obtain ⟨i1, i2, i4, i3⟩ := ih hin h
      have hn2 : ¬ tol2 ≤ normSq d := not_le.2 hn
      refine ⟨i1, fun r hr => ?_, fun e he hen => ?_, fun x => ?_⟩
      · obtain ⟨e, he, h⟩ := i2 r hr; exact ⟨e, by simp [he], h⟩
      · rcases List.mem_cons.1 he with rfl | he
        · exact absurd hen hn2
        · exact i4 e he hen
      · rw [i3 x]
        unfold TemplateHull
        rw [List.forall_mem_cons]
        have : ¬ tol2 ≤ normSq d := not_le.2 hn
        simp [this]
    · rw [if_neg hn] at h
      simp only [bind_ok, needSome_ok, pure_ok] at h
      obtain ⟨⟨lps1, acc⟩, h1, ⟨hi, lo⟩, hacc, ⟨lps2, rows2⟩, h2, h3⟩ := h
      obtain ⟨rfl, rfl⟩ := Prod.mk.inj h3
      simp only at hacc h2
      obtain ⟨a0, a1, a2, a3, -, a5, a6⟩ := aggDirLoop_spec hS hin h1
      obtain ⟨i1, i2, i4, i3⟩ := ih (objInv_cur_of_toSys a1 hin a2) h2
      obtain ⟨j1, j2⟩ := a6 _ hacc
      rcases j1 with ⟨_, hc, -⟩ | ⟨l1, hl1, v1, hv1, e1⟩
      · cases hc
      rcases j2 with ⟨_, hc, -⟩ | ⟨l2, hl2, v2, hv2, e2⟩
      · cases hc
      simp only at e1 e2
      have bound : ∀ y, UnionOf lps y → dotD d y ≤ hi ∧ lo ≤ dotD d y := by
        rintro y ⟨l, hl, w, hw, hyw⟩
        obtain ⟨b, hb, hb2⟩ := a5 l hl
        rw [hacc] at hb
        obtain rfl := Option.some.inj hb
        have := hb2 w hw
        have e : dirVal d l w = dotD d y := dotD_congr fun i hi => hyw i (by
          rw [← a0 l hl]; exact hi)
        rw [e] at this
        exact this
      have m1 : UnionOf lps (fun i => v1 (l1.cur + i)) := ⟨l1, hl1, v1, hv1, fun _ _ => rfl⟩
      have m2 : UnionOf lps (fun i => v2 (l2.cur + i)) := ⟨l2, hl2, v2, hv2, fun _ _ => rfl⟩
      refine ⟨i1.trans a1, fun r hr => ?_, fun e he hen => ?_, fun x => ?_⟩
      · rcases List.mem_cons.1 hr with rfl | hr
        · exact ⟨d, by simp, denseRow_lt d⟩
        rcases List.mem_cons.1 hr with rfl | hr
        · refine ⟨d, by simp, fun p hp => ?_⟩
          simp only [negRow, List.mem_map] at hp
          obtain ⟨q, hq, rfl⟩ := hp
          exact denseRow_lt d q hq
        · obtain ⟨e, he, h⟩ := i2 r hr; exact ⟨e, by simp [he], h⟩
      · rcases List.mem_cons.1 he with rfl | he
        · exact ⟨⟨_, m1, fun w hw => le_of_le_of_eq (bound w hw).1 e1.symm⟩,
            ⟨_, m2, fun w hw => le_of_eq_of_le e2 (bound w hw).2⟩⟩
        · have := i4 e he hen
          simpa only [mem_of_toSys a1] using this
      · simp only [List.forall_mem_cons, dot_negRow, dot_denseRow, i3 x]
        have hU : TemplateHull tol2 ds (UnionOf lps1) x ↔ TemplateHull tol2 ds (UnionOf lps) x := by
          unfold TemplateHull
          simp only [mem_of_toSys a1]
        rw [hU]
        unfold TemplateHull
        rw [List.forall_mem_cons]
        have hn' : tol2 ≤ normSq d := not_lt.1 hn
        rw [← and_assoc]
        apply and_congr_left
        intro _
        simp only [hn', true_imp_iff]
        change dotD d x ≤ hi ∧ -dotD d x ≤ -lo ↔ _
        constructor
        · rintro ⟨h1, h2⟩
          refine ⟨⟨_, m1, ?_⟩, ⟨_, m2, ?_⟩⟩
          · exact le_of_le_of_eq h1 e1.symm
          · exact le_of_eq_of_le e2 (by linarith)
        · rintro ⟨⟨y, hy, hxy⟩, ⟨z, hz, hzx⟩⟩
          have := (bound y hy).1
          have := (bound z hz).2
          constructor <;> linarith

/-- **C13.** For every list of instances with any history, any direction matrix and any honest
solver: `aggregate` returns the template polyhedron of the union of the input sets in the used
directions -- so it contains every input set, and its bounds in the directions `±d` are the extreme
values over the inputs, attained.  The inputs still represent the same sets. -/
theorem C13_aggregate {S : Solver K} (hS : S.Honest) {tol2 : K} {lps lps' : List (Lp K)}
    {dirs : List (List K)} {dims : ℕ} {mode : Mode K} {rv : Lp K}
    (hin : ∀ l ∈ lps, ∃ live, Inst S l live) (hdirs : ∀ d ∈ dirs, d.length = dims)
    (h : aggregate S tol2 lps dirs dims mode = .ok (lps', rv)) :
    (∀ x, rv.Mem x ↔ TemplateHull tol2 dirs (UnionOf lps) x) ∧
    (∀ l ∈ lps, ∀ x, l.Mem x → rv.Mem x) ∧
    (∀ d ∈ dirs, tol2 ≤ normSq d → ∃ l ∈ lps, ∃ y, l.Mem y ∧ ∀ x, rv.Mem x → dotD d x ≤ dotD d y) ∧
    (∀ d ∈ dirs, tol2 ≤ normSq d → ∃ l ∈ lps, ∃ y, l.Mem y ∧ ∀ x, rv.Mem x → dotD d y ≤ dotD d x) ∧
    lps'.map (fun l => l.toSys) = lps.map (fun l => l.toSys) := by
  simp only [aggregate, bind_ok, assert_ok, pure_ok] at h
  obtain ⟨_, hd1, _, hd2, ⟨lps1, rows⟩, h1, rv1, h2, h3⟩ := h
  obtain ⟨rfl, rfl⟩ := Prod.mk.inj h3
  obtain ⟨a1, a2, a4, a3⟩ := aggDirs_spec hS (fun l hl => by
    obtain ⟨live, hi⟩ := hin l hl
    exact ⟨(hi.inv hS).2.2.1, (hi.inv hS).2.1⟩) h1
  have hwf : (⟨dims, rows.map fun r => r.1⟩ : Csr K).WF := by
    intro r hr p hp
    obtain ⟨q, hq, rfl⟩ := List.mem_map.1 hr
    obtain ⟨d, hd, h⟩ := a2 q hq
    have := h p hp
    rwa [hdirs d hd] at this
  have key : ∀ x, rv1.Mem x ↔ TemplateHull tol2 dirs (UnionOf lps) x := by
    intro x
    rw [fromConstraints_mem h2 (by simp) hwf]
    have hz : ∀ y, (⟨dims, rows.map fun r => r.1⟩ : Csr K).satTypes
        (typesOr none (rows.map fun r => r.2).length) (rows.map fun r => r.2) y ↔
        TemplateHull tol2 dirs (UnionOf lps) y := by
      intro y
      rw [satTypes_up, le_iff_zip (by simp), ← a3 y]
      simp only
      rw [List.zip_map']
      simp
    simp only [hz, Option.getD_none]
    constructor
    · rintro ⟨y, hy, hxy⟩ d hd hdn
      rw [dotD_congr (d := d) (x := x) (y := y) fun i hi => hxy i (by rw [← hdirs d hd]; exact hi)]
      exact hy d hd hdn
    · intro hx; exact ⟨x, hx, fun _ _ => rfl⟩
  refine ⟨key, ?_, ?_, ?_, a1⟩
  · intro l hl x hx
    refine (key x).2 fun d _ _ => ⟨⟨x, ⟨l, hl, hx⟩, le_refl _⟩, ⟨x, ⟨l, hl, hx⟩, le_refl _⟩⟩
  · intro d hd hdn
    obtain ⟨⟨y, ⟨l, hl, hy⟩, hy2⟩, -⟩ := a4 d hd hdn
    refine ⟨l, hl, y, hy, fun x hx => ?_⟩
    obtain ⟨⟨w, hw, hxw⟩, -⟩ := (key x).1 hx d hd hdn
    exact le_trans hxw (hy2 w hw)
  · intro d hd hdn
    obtain ⟨-, ⟨y, ⟨l, hl, hy⟩, hy2⟩⟩ := a4 d hd hdn
    refine ⟨l, hl, y, hy, fun x hx => ?_⟩
    obtain ⟨-, ⟨w, hw, hxw⟩⟩ := (key x).1 hx d hd hdn
    exact le_trans (hy2 w hw) hxw

/-- Minimising a direction that has a minimum over the set succeeds. -/
theorem minimize_dir_accepts {S : Solver K} (hS : S.Complete) {lp : Lp K} (ho : lp.ObjInv)
    (hcur : lp.cur + lp.dims ≤ lp.numCols) {d : List K} (hd : d.length = lp.dims)
    {cs : List ℕ} (hcs : ∀ c ∈ cs, c < lp.numCols) {f : Bool}
    (hopt : ∃ y, lp.Mem y ∧ ∀ w, lp.Mem w → dotD d y ≤ dotD d w) :
    ∃ lp' l, minimize S lp (some d) (some cs) f = .ok (lp', some l) := by
  have hset : ∃ lp1, lp.setMinDir d = .ok lp1 := by
    unfold Lp.setMinDir; rw [if_pos (by omega)]; exact ⟨_, rfl⟩
  obtain ⟨lp1, h1⟩ := hset
  obtain ⟨y, ⟨v, hv, hvy⟩, hmin⟩ := hopt
  refine minimize_complete hS (lp1 := lp1) h1 (by rintro _ ⟨⟩; exact hcs) ⟨v, ?_, fun w hw => ?_⟩
  · rw [(setMinDir_toSys h1).1]; exact hv
  · rw [(setMinDir_toSys h1).1] at hw
    rw [setMinDir_objVal h1 ho hcur, setMinDir_objVal h1 ho hcur]
    have := hmin _ ⟨w, hw, fun _ _ => rfl⟩
    have e := dotD_congr (d := d) (x := y) (y := fun i => v (lp.cur + i)) fun i hi =>
      (hvy i (by rw [← hd]; exact hi)).symm
    rw [e] at this
    exact this

/-- The set has a largest and a smallest value in direction `d`. -/
def Spec.HasExtremes (d : List K) (X : (ℕ → K) → Prop) : Prop :=
  (∃ y, X y ∧ ∀ w, X w → dotD d w ≤ dotD d y) ∧ ∃ y, X y ∧ ∀ w, X w → dotD d y ≤ dotD d w

theorem dotD_neg (d : List K) (x : ℕ → K) : dotD (d.map fun a => -a) x = -dotD d x := by
  unfold dotD
  rw [List.length_map, ← Finset.sum_neg_distrib]
  refine Finset.sum_congr rfl fun i hi => ?_
  have hi' := Finset.mem_range.1 hi
  simp [List.getElem?_eq_getElem hi']

theorem aggDirLoop_accepts {S : Solver K} (hS : S.Complete) {dir : List K} {lps : List (Lp K)}
    {acc : Option (K × K)} (hin : ∀ l ∈ lps, l.ObjInv ∧ l.cur + l.dims ≤ l.numCols)
    (hl : ∀ l ∈ lps, dir.length = l.dims) (hex : ∀ l ∈ lps, HasExtremes dir l.Mem) :
    ∃ lps' acc', aggDirLoop S dir lps acc = .ok (lps', acc') ∧ (acc.isSome ∨ lps ≠ [] →
      acc'.isSome) := by
  induction lps generalizing acc with
  | nil => exact ⟨[], acc, rfl, by simp⟩
  | cons lp rest ih =>
    obtain ⟨ho, hcur⟩ := hin lp (by simp)
    have hlen := hl lp (by simp)
    obtain ⟨⟨y1, hy1, hm1⟩, hlow⟩ := hex lp (by simp)
    have hcs : ∀ c ∈ (denseRow dir).map fun p => lp.cur + p.1, c < lp.numCols := by
      intro c hc
      obtain ⟨q, hq, rfl⟩ := List.mem_map.1 hc
      have := denseRow_lt dir q hq
      omega
    obtain ⟨lp1, l1, h1⟩ := minimize_dir_accepts hS (f := true) ho hcur
      (d := dir.map fun x => -x) (by simpa using hlen) hcs
      ⟨y1, hy1, fun w hw => by rw [dotD_neg, dotD_neg]; linarith [hm1 w hw]⟩
    obtain ⟨hs1, ho1, -⟩ := minimize_spec hS.toHonest h1 ho
    obtain ⟨lp2, l2, h2⟩ := minimize_dir_accepts hS (lp := lp1) (f := true) ho1 (by rw [hs1]; exact hcur)
      (d := dir) (by rw [hs1]; exact hlen) (cs := (denseRow dir).map fun p => lp.cur + p.1)
      (by rw [hs1]; exact hcs) (by rw [hs1]; exact hlow)
    obtain ⟨rest', acc', h3, h4⟩ := ih (acc := some (match acc with
      | none => (dotList (denseRow dir) ((some l1).getD []),
          dotList (denseRow dir) ((some l2).getD []))
      | some (h, l) => (max h (dotList (denseRow dir) ((some l1).getD [])),
          min l (dotList (denseRow dir) ((some l2).getD [])))))
      (fun l hl => hin l (by simp [hl])) (fun l h => hl l (by simp [h]))
      (fun l h => hex l (by simp [h]))
    refine ⟨lp2 :: rest', acc', ?_, fun _ => h4 (Or.inl rfl)⟩
    simp only [aggDirLoop, bind_ok, assert_ok, pure_ok]
    refine ⟨(), hlen, (lp1, some l1), h1, (lp2, some l2), h2, (rest', acc'), ?_, rfl⟩
    rw [← h3]
    cases acc <;> rfl

theorem aggDirs_accepts {S : Solver K} (hS : S.Complete) {tol2 : K} {dirs : List (List K)} {n : ℕ}
    {lps : List (Lp K)} (hne : lps ≠ [])
    (hin : ∀ l ∈ lps, l.ObjInv ∧ l.cur + l.dims ≤ l.numCols) (hn : ∀ l ∈ lps, l.dims = n)
    (hdirs : ∀ d ∈ dirs, d.length = n)
    (hex : ∀ d ∈ dirs, ∀ l ∈ lps, HasExtremes d l.Mem) :
    ∃ lps' rows, aggDirs S tol2 dirs lps = .ok (lps', rows) := by
  induction dirs generalizing lps with
  | nil => exact ⟨lps, [], rfl⟩
  | cons d ds ih =>
    simp only [aggDirs]
    by_cases hd : (d.map fun x => x * x).sum < tol2
    · rw [if_pos hd]
      exact ih hne hin hn (fun d h => hdirs d (by simp [h])) (fun d h => hex d (by simp [h]))
    · rw [if_neg hd]
      obtain ⟨lps1, acc, h1, h2⟩ := aggDirLoop_accepts hS (acc := none) hin
        (fun l hl => by rw [hn l hl, hdirs d (by simp)]) (hex d (by simp))
      obtain ⟨p, hp⟩ := Option.isSome_iff_exists.1 (h2 (Or.inr hne))
      obtain ⟨-, a1, a2, -⟩ := aggDirLoop_spec hS.toHonest hin h1
      have back : ∀ l ∈ lps1, ∃ m ∈ lps, m.toSys = l.toSys := by
        intro l hl
        have : l.toSys ∈ lps.map (fun l => l.toSys) := by rw [← a1]; exact List.mem_map_of_mem hl
        obtain ⟨m, hm, he⟩ := List.mem_map.1 this
        exact ⟨m, hm, he⟩
      obtain ⟨lps2, rows, h3⟩ := ih (lps := lps1) (by
          rintro rfl
          have := congrArg List.length a1
          simp at this
          exact hne (List.eq_nil_of_length_eq_zero this.symm)) (objInv_cur_of_toSys a1 hin a2)
        (fun l hl => by obtain ⟨m, hm, he⟩ := back l hl; rw [← he]; exact hn m hm)
        (fun d h => hdirs d (by simp [h]))
        (fun d h l hl => by
          obtain ⟨m, hm, he⟩ := back l hl; rw [← he]; exact hex d (by simp [h]) m hm)
      simp only [bind_ok, needSome_ok, pure_ok]
      exact ⟨_, _, (lps1, acc), h1, p, hp, (lps2, rows), h3, rfl⟩

/-- **C13, acceptance.** With a solver that always answers, at least two instances of one dimension
that have extreme points in all directions are aggregated without failure. -/
theorem C13_accepts {S : Solver K} (hS : S.Complete) {tol2 : K} {lps : List (Lp K)}
    {dirs : List (List K)} {n : ℕ} {mode : Mode K} (h2 : 1 < lps.length) (hnd : n ≤ dirs.length)
    (hin : ∀ l ∈ lps, ∃ live, Inst S l live) (hn : ∀ l ∈ lps, l.dims = n)
    (hdirs : ∀ d ∈ dirs, d.length = n) (hex : ∀ d ∈ dirs, ∀ l ∈ lps, HasExtremes d l.Mem)
    (hne : ∃ l ∈ lps, ∃ x, l.Mem x) :
    ∃ lps' rv, aggregate S tol2 lps dirs n mode = .ok (lps', rv) := by
  have hin' : ∀ l ∈ lps, l.ObjInv ∧ l.cur + l.dims ≤ l.numCols := by
    intro l hl
    obtain ⟨live, hi⟩ := hin l hl
    exact ⟨(hi.inv hS.toHonest).2.2.1, (hi.inv hS.toHonest).2.1⟩
  obtain ⟨lps', rows, h1⟩ := aggDirs_accepts (tol2 := tol2) hS (by rintro rfl; simp at h2) hin' hn
    hdirs hex
  obtain ⟨-, a2, -, a3⟩ := aggDirs_spec hS.toHonest hin' h1
  obtain ⟨l, hl, x, hx⟩ := hne
  have hx2 := (a3 x).2 fun d _ _ => ⟨⟨x, ⟨l, hl, hx⟩, le_refl _⟩, ⟨x, ⟨l, hl, hx⟩, le_refl _⟩⟩
  obtain ⟨b, hb, hb2⟩ := isFeasibleCsr_complete hS (c := ⟨n, rows.map fun r => r.1⟩)
    (rhs := rows.map fun r => r.2) (by simp [Csr.nrows])
  have : b = true := hb2.2 ⟨x, by
    rw [le_iff_zip (by simp)]
    simp only
    rw [List.zip_map']
    simpa using hx2⟩
  subst this
  obtain ⟨rv, hrv⟩ := fromConstraints_accepts (mode := mode) (types := none) (names := none)
    (dims? := none) (by simp [Csr.nrows]) hb rfl (by simp) (by simp) (by simp)
  refine ⟨lps', rv, ?_⟩
  simp only [aggregate, bind_ok, assert_ok, pure_ok]
  exact ⟨(), hnd, (), h2, (lps', rows), h1, rv, hrv, rfl⟩

/-- C13 on an example: aggregating `[0, 1]` and `[-1, 3]` along the axis gives `[-1, 3]`; the
hypotheses are met. -/
example : ∃ (l1 l2 rv : Lp ℚ) (lps' : List (Lp ℚ)), (∃ live, Inst (idealSolver ℚ) l1 live) ∧
    (∃ live, Inst (idealSolver ℚ) l2 live) ∧
    aggregate (idealSolver ℚ) (1 / 1000) [l1, l2] [[1]] 1 exModeU = .ok (lps', rv) ∧
    rv.Mem (fun _ => 2) ∧ ¬ l1.Mem (fun _ => 2) ∧ ¬ rv.Mem (fun _ => 4) := by
  obtain ⟨l1, hH1, hd1, -, hm1⟩ := exBox
  obtain ⟨l2, ρ, hH2, hd2, -, -, -, -, hm2⟩ := exStep
  have hin : ∀ l ∈ [l1, l2], ∃ live, Inst (idealSolver ℚ) l live := by
    intro l hl
    simp at hl
    rcases hl with rfl | rfl
    · exact ⟨_, Inst.hist hH1⟩
    · exact ⟨_, Inst.hist hH2⟩
  have hdot : ∀ x : ℕ → ℚ, dotD [1] x = x 0 := by intro x; simp [dotD]
  obtain ⟨lps', rv, h⟩ := C13_accepts (idealSolver_complete (K := ℚ)) (tol2 := 1 / 1000)
    (lps := [l1, l2]) (dirs := [[1]]) (n := 1) (mode := exModeU) (by simp) (by simp) hin
    (by simp [hd1, hd2]) (by simp) (by
      intro d hd l hl
      simp at hd hl
      subst hd
      rcases hl with rfl | rfl
      · refine ⟨⟨fun _ => 1, (hm1 _).2 (by norm_num), fun w hw => ?_⟩,
          ⟨fun _ => 0, (hm1 _).2 (by norm_num), fun w hw => ?_⟩⟩
        · simp only [hdot]; exact ((hm1 w).1 hw).2
        · simp only [hdot]; exact ((hm1 w).1 hw).1
      · refine ⟨⟨fun _ => 3, (hm2 _).2 (by norm_num), fun w hw => ?_⟩,
          ⟨fun _ => -1, (hm2 _).2 (by norm_num), fun w hw => ?_⟩⟩
        · simp only [hdot]; exact ((hm2 w).1 hw).2
        · simp only [hdot]; exact ((hm2 w).1 hw).1)
    ⟨l1, by simp, fun _ => 0, (hm1 _).2 (by norm_num)⟩
  obtain ⟨c1, c2, c3, c4, c5⟩ := C13_aggregate (idealSolver_complete (K := ℚ)).toHonest hin
    (by simp) h
  refine ⟨l1, l2, rv, lps', hin l1 (by simp), hin l2 (by simp), h,
    c2 l2 (by simp) _ ((hm2 _).2 (by norm_num)), fun hc => ?_, fun hc => ?_⟩
  · have := ((hm1 _).1 hc).2; norm_num at this
  · obtain ⟨⟨y, ⟨l, hl, hy⟩, hle⟩, -⟩ := (c1 _).1 hc [1] (by simp) (by norm_num [normSq])
    simp only [hdot] at hle
    simp at hl
    rcases hl with rfl | rfl
    · have := ((hm1 _).1 hy).2; linarith
    · have := ((hm2 _).1 hy).2; linarith

end Hylaa
