import Verif.Proofs.Repr

/-! `try_replace_init_constraint`, transitions, and rows returned by `add_init_constraint`. -/

set_option linter.unusedSectionVars false

namespace Hylaa
open Spec
variable {K : Type} [Field K] [LinearOrder K]

/-- Row `i` is a `<=` row outside the basis/input rows, without repeated columns. -/
def Sys.UpRow (s : Sys K) (i : ℕ) : Prop :=
  ∃ r : LRow K, s.rows[i]? = some r ∧ r.ty = .up ∧ (r.coefs.map fun p => p.1).Nodup ∧ ¬ s.special i

theorem withCoefs_nodup {r : LRow K} {c : SRow K} (h : (c.map fun p => p.1).Nodup) :
    ((r.withCoefs c).coefs.map fun p => p.1).Nodup := by
  unfold LRow.withCoefs
  exact h.sublist ((List.filter_sublist).map _)

theorem sys_ext {a b : Sys K} (h1 : a.names = b.names) (h2 : a.rows = b.rows)
    (h3 : a.dims = b.dims) (h4 : a.bmPos = b.bmPos) (h5 : a.cur = b.cur) (h6 : a.ie = b.ie)
    (h7 : a.bmIdx = b.bmIdx) : a = b := by
  cases a; cases b; simp_all

/-- Appending one `<=` row. -/
theorem addRow_eq {s s' : Sys K} {b : K} {c : SRow K} {nc : ℕ}
    (h : (s.addRowsLE [b]).setCsr ⟨nc, [c]⟩ (s.numRows, 0) = .ok s') :
    s' = { s with rows := s.rows ++ [(⟨.up, b, []⟩ : LRow K).withCoefs c] } := by
  rw [setCsr_ok] at h
  obtain ⟨-, rfl⟩ := h
  have := Sys.setCsrLoop_rows_split (s.addRowsLE [b]) [c] 0 s.rows
      [⟨.up, b, []⟩] [] (by simp [Sys.addRowsLE]) rfl
  simp only [shiftRow_zero, List.zipWith_cons_cons, List.zipWith_nil_left, List.append_nil] at this
  apply sys_ext
  · simp [Sys.addRowsLE]
  · exact this
  all_goals simp [Sys.addRowsLE]

/-- Non-special rows are untouched by adding fresh columns whose entries avoid them. -/
theorem setCscLoop_keep {s : Sys K} {cols : List (SRow K)} {c0 i : ℕ} {r : LRow K}
    (hfresh : ∀ r ∈ s.rows, ∀ p ∈ r.coefs, p.1 < c0) (hi : s.rows[i]? = some r)
    (hn : ∀ col ∈ cols, ∀ p ∈ col, p.1 ≠ i) : (s.setCscLoop cols 0 c0).rows[i]? = some r := by
  rw [Sys.setCscLoop_getElem? s cols 0 c0 i hfresh, hi]
  have : ∀ c0, cscRow cols 0 c0 i = [] := by
    clear hfresh
    induction cols with
    | nil => intro c0; rfl
    | cons c cs ih =>
      intro c0
      simp only [cscRow, shiftRow_zero, List.append_eq_nil_iff, List.map_eq_nil_iff,
        List.filter_eq_nil_iff]
      refine ⟨fun p hp => ?_, ih (fun col hc => hn col (List.mem_cons_of_mem _ hc)) _⟩
      have := hn c (by simp) p hp
      simp [this]
  simp [this]

theorem addInputEffects_keep {s s' : Sys K} {n : Mat K} {mode : Mode K} {β : Option K}
    (h : addInputEffects s n mode β = .ok s') (hwf : s.WF) {i : ℕ} {r : LRow K}
    (hi : s.rows[i]? = some r) (hns : ¬ s.special i) :
    s'.rows[i]? = some r := by
  simp only [addInputEffects, bind_ok, assert_ok, need_ok, needSome_ok, setCsc_ok] at h
  obtain ⟨_, hie1, _, hin1, ie, hie, inp', hin', a, ha, _, -, _, hnr, _, hd, _, hnc,
    ⟨hsz, rfl⟩⟩ := h
  have hil : i < s.numRows := by
    unfold Sys.numRows
    by_contra hc; rw [List.getElem?_eq_none (by omega)] at hi; cases hi
  have hne : ∀ d < s.dims, d + ie.1 ≠ i := by
    intro d hd' hc
    exact hns (Or.inr ⟨ie, hie, by omega, by omega⟩)
  apply setCscLoop_keep
  · intro r hr p hp
    have hr' : r ∈ s.rows ∨ r.coefs = [] := by
      cases β
      · simp only [Sys.addRowsLE, Sys.addCols, List.mem_append, List.mem_map] at hr
        rcases hr with hr | ⟨_, _, rfl⟩
        · exact Or.inl hr
        · exact Or.inr rfl
      · simp only [Sys.addRowsLE, Sys.addCols, List.mem_append, List.mem_map] at hr
        rcases hr with (hr | ⟨_, _, rfl⟩) | ⟨_, _, rfl⟩
        · exact Or.inl hr
        · exact Or.inr rfl
        · exact Or.inr rfl
    rcases hr' with hr | hr
    · exact hwf r hr p hp
    · rw [hr] at hp; simp at hp
  · have hil' : i < s.rows.length := hil
    cases β
    · simp only [Sys.addRowsLE, Sys.addCols]
      rw [List.getElem?_append_left hil']; exact hi
    · simp only [Sys.addRowsLE, Sys.addCols]
      rw [List.getElem?_append_left (by simp; omega), List.getElem?_append_left hil']; exact hi
  · intro col hcol p hp
    have hcol' : p.1 ∈ (List.range s.dims).map (fun row => row + ie.1) ∨ s.numRows ≤ p.1 := by
      cases β with
      | none =>
        simp only [Option.isSome_none, Bool.false_eq_true, if_false, List.append_nil, List.mem_map,
          List.mem_range] at hcol
        obtain ⟨c, hc, rfl⟩ := hcol
        rcases List.mem_append.1 hp with hp | hp
        · simp only [List.mem_map, List.mem_range] at hp
          obtain ⟨d, hd', rfl⟩ := hp
          exact Or.inl (List.mem_map.2 ⟨d, List.mem_range.2 hd', rfl⟩)
        · simp only [List.mem_map] at hp
          obtain ⟨q, hq, rfl⟩ := hp
          right; simp [Sys.addCols, Sys.numRows]
      | some b =>
        simp only [Option.isSome_some, if_true] at hcol
        rcases List.mem_append.1 hcol with hcol | hcol
        · simp only [List.mem_map, List.mem_range] at hcol
          obtain ⟨c, hc, rfl⟩ := hcol
          rcases List.mem_append.1 hp with hp | hp
          · simp only [List.mem_map, List.mem_range] at hp
            obtain ⟨d, hd', rfl⟩ := hp
            exact Or.inl (List.mem_map.2 ⟨d, List.mem_range.2 hd', rfl⟩)
          · simp only [List.mem_map] at hp
            obtain ⟨q, hq, rfl⟩ := hp
            right; simp [Sys.addCols, Sys.numRows]
        · simp only [List.mem_map, List.mem_range] at hcol
          obtain ⟨c, hc, rfl⟩ := hcol
          rcases List.mem_append.1 hp with hp | hp
          · simp only [List.mem_map, List.mem_range] at hp
            obtain ⟨d, hd', rfl⟩ := hp
            exact Or.inl (List.mem_map.2 ⟨d, List.mem_range.2 (by omega), rfl⟩)
          · right
            simp [Sys.addCols, Sys.addRowsLE, Sys.numRows] at hp ⊢
            rcases hp with rfl | rfl <;> simp <;> omega
    rcases hcol' with hc | hc
    · simp only [List.mem_map, List.mem_range] at hc
      obtain ⟨d, hd', hd2⟩ := hc
      rw [← hd2]; exact hne d hd'
    · omega

theorem addInput_up {s s' : Sys K} {n : Mat K} {mode : Mode K} {β : Option K}
    (h : addInputEffects s n mode β = .ok s') (hwf : s.WF) (hsv : s.SameVars s') {i : ℕ}
    (hu : s.UpRow i) : s'.UpRow i := by
  obtain ⟨r, hr, h1, h2, h3⟩ := hu
  exact ⟨r, addInputEffects_keep h hwf hr h3, h1, h2, by rw [hsv.special]; exact h3⟩

theorem replaceRow_rest {s s' : Sys K} {k : ℕ} (hk : ¬ s.special k) (hsv : s.SameVars s')
    {g : LRow K → LRow K} {old : LRow K} (hold : s.rows[k]? = some old)
    (hrow : ∀ j : ℕ, s'.rows[j]? = if j = k then (s.rows[j]?).map g else s.rows[j]?) (v : ℕ → K) :
    s'.Rest v ↔ (∀ (i : ℕ) (r : LRow K), s.rows[i]? = some r → ¬ s.special i → i ≠ k → r.holds v) ∧
      (g old).holds v := by
  constructor
  · intro h
    refine ⟨fun i r hi hsp hne => h i r (by rw [hrow, if_neg hne]; exact hi)
      (by rw [hsv.special]; exact hsp), h k _ (by rw [hrow, if_pos rfl, hold]; rfl)
      (by rw [hsv.special]; exact hk)⟩
  · rintro ⟨h1, h2⟩ i r hi hsp
    rw [hsv.special] at hsp
    rw [hrow] at hi
    split at hi
    · rename_i he
      subst he
      rw [hold] at hi; simp only [Option.map_some, Option.some.injEq] at hi
      rw [← hi]; exact h2
    · rename_i hne
      exact h1 i r hi hsp hne

theorem rest_split {s : Sys K} {k : ℕ} (hk : ¬ s.special k) {old : LRow K}
    (hold : s.rows[k]? = some old) (v : ℕ → K) : s.Rest v ↔
    (∀ (i : ℕ) (r : LRow K), s.rows[i]? = some r → ¬ s.special i → i ≠ k → r.holds v) ∧
      old.holds v := by
  refine ⟨fun h => ⟨fun i r hi hsp _ => h i r hi hsp, h k old hold hk⟩, ?_⟩
  rintro ⟨h1, h2⟩ i r hi hsp
  by_cases he : i = k
  · subst he; rw [hold] at hi; cases hi; exact h2
  · exact h1 i r hi hsp he

/-- `s'` has the columns of `s` and the further columns `e`, and its solutions are solutions of `s`
(leaving the basis and input rows aside). -/
structure Sys.Grow (s s' : Sys K) (e : List String) : Prop where
  same : s.SameVars s'
  names : s'.names = s.names ++ e
  rest : ∀ v, s'.Rest v → s.Rest v

variable [IsStrictOrderedRing K]

/-- What `try_replace_init_constraint` does to the represented set and to the recorded rows. -/
theorem tryReplace_repr {S : Solver K} (hS : S.Honest) {dm : K} {lp lp' : Lp K} {old : ℕ}
    {vec : List K} {rhs : K} {bm : Mat K} {ies : Option (List (Mat K))} {row : ℕ} {rep : Bool}
    {ρ : Rep K}
    (h : tryReplaceInitConstraint S dm lp old vec rhs bm ies = .ok (lp', row, rep))
    (hs : lp.Repr ρ) (hinv : lp.ObjInv) (hup : lp.UpRow old) (hbm : bm.nr = ρ.n)
    (hnc : ∀ N ∈ ies.getD [], N.nc = ρ.m) (hlen : (ies.getD []).length ≤ ρ.Ns.length) :
    lp'.Repr (ρ.addInit vec rhs bm (ies.getD [])) ∧ lp'.ObjInv ∧ row = old ∧
      (∀ i, lp.UpRow i → lp'.UpRow i) ∧
      lp'.numRows = lp.numRows + (if rep then 0 else 1) ∧ lp.Grow lp'.toSys [] := by
  obtain ⟨orow, hor, hoty, hond, hospec⟩ := hup
  simp only [tryReplaceInitConstraint, bind_ok] at h
  obtain ⟨oldC, hget, ⟨s1, row1⟩, hadd, lp2, hdir, ⟨lp3, res⟩, hmin, h⟩ := h
  simp only [Sys.getRow, hor, Except.ok.injEq] at hget
  subst hget
  obtain ⟨X, R, hsh, hX, hR⟩ := hs.shape
  obtain ⟨c, hc, hvl, rfl, hlt, hnm, hsv, hnr, hrow⟩ := addInitConstraint_some hadd
  have hcol := hsh.colsLe
  have hiep : ∀ p, lp.ie = some p → p.2 = lp.cur + lp.dims := fun p hp => (hsh.iePos p hp).1
  have hav := hc.avoid (by rw [hbm, hs.n]) hcol hiep
  have hnd := hc.nodup (by rw [hbm, hs.n]) hcol hiep
  have hsh1 := replaceRow_shape hsh hospec hsv hnm hnr hrow (fun r p hp =>
    ⟨hc.lt p (LRow.withCoefs_mem hp), hav p (LRow.withCoefs_mem hp)⟩)
  have hrest1 := replaceRow_rest hospec hsv hor hrow
  have hrest0 := rest_split hospec hor
  have hup1 : ∀ i, lp.UpRow i → s1.UpRow i := by
    rintro i ⟨r, hr, h1, h2, h3⟩
    by_cases he : i = row1
    · subst he
      exact ⟨(⟨r.ty, rhs, []⟩ : LRow K).withCoefs c, by rw [hrow, if_pos rfl, hr]; rfl, h1,
        withCoefs_nodup hnd,
        by rw [hsv.special]; exact h3⟩
    · exact ⟨r, by rw [hrow, if_neg he]; exact hr, h1, h2, by rw [hsv.special]; exact h3⟩
  have hnew : ∀ v, ((⟨orow.ty, rhs, []⟩ : LRow K).withCoefs c).holds v ↔
      initCond ρ.n ρ.m vec rhs bm (ies.getD []) (fun j => v (lp.bmPos.2 + j))
        (fun k c => v (lp.inBase + ρ.m * k + c)) := by
    intro v
    rw [LRow.holds_iff, LRow.withCoefs_dot, hc.dot_eq hs hbm hnc]
    simp only [LRow.withCoefs_ty, LRow.withCoefs_rhs, hoty]
    rfl
  -- the objective is minus the old row
  have hinv1 : ({ lp with toSys := s1 } : Lp K).ObjInv := hinv
  obtain ⟨hinv2, hsys2, -, hobj2⟩ := setMinDirCsr_spec hdir hinv1
  have hndn : ((negRow orow.coefs).map fun p => p.1).Nodup := by
    simpa [negRow, List.map_map, Function.comp_def] using hond
  obtain ⟨-, hobjv⟩ := hobj2 hndn
  obtain ⟨hsys3, hinv3, -, hnone, hsome⟩ := minimize_spec hS hmin hinv2
  have hs3 : lp3.toSys = s1 := by rw [hsys3, hsys2]
  have hfin : ∀ s' : Sys K, s'.Shape ρ.B X R → lp.SameVars s' → s'.numCols = lp.numCols →
      (∀ v, s'.Rest v ↔ lp.Rest v ∧ initCond ρ.n ρ.m vec rhs bm (ies.getD [])
        (fun j => v (lp.bmPos.2 + j)) (fun k c => v (lp.inBase + ρ.m * k + c))) →
      s'.Repr (ρ.addInit vec rhs bm (ies.getD [])) := by
    intro s' h1 h2 h3 h4
    exact cond_repr hs hX hR h1 h2 h3 (Q := initCond ρ.n ρ.m vec rhs bm (ies.getD [])) rfl h4
      (fun y y' u u' hy hu hq => initCond_congr hlen hy hu hq)
  have hncs : s1.numCols = lp.numCols := by unfold Sys.numCols; rw [hnm]
  have holdholds : ∀ v, orow.holds v ↔ dot orow.coefs v ≤ orow.rhs := by
    intro v; rw [LRow.holds_iff, hoty]; rfl
  -- if every solution of the new system satisfies the old row, it may be dropped
  have hdrop : (∀ v, s1.Sat v → orow.holds v) →
      s1.Repr (ρ.addInit vec rhs bm (ies.getD [])) ∧ lp.Grow s1 [] := by
    intro himp
    suffices hh : ∀ v, s1.Rest v ↔ lp.Rest v ∧ initCond ρ.n ρ.m vec rhs bm (ies.getD [])
        (fun j => v (lp.bmPos.2 + j)) (fun k c => v (lp.inBase + ρ.m * k + c)) from
      ⟨hfin s1 hsh1 hsv hncs hh, hsv, by rw [hnm, List.append_nil], fun v hv => ((hh v).1 hv).1⟩
    intro v
    rw [hrest1, hrest0, hnew]
    constructor
    · rintro ⟨h1, h2⟩
      refine ⟨⟨h1, ?_⟩, h2⟩
      obtain ⟨w, hw, hwv, -⟩ := hsh1.lift (v := v) (x := fun i => _) ((hrest1 v).2
        ⟨h1, (hnew v).2 h2⟩) (fun i _ => rfl)
      refine (LRow.holds_congr fun p hp => ?_).1 (himp w hw)
      apply hwv
      rw [hsv.inBlock]
      exact hsh.others _ _ hor hospec p hp
    · rintro ⟨⟨h1, -⟩, h2⟩; exact ⟨h1, h2⟩
  cases res with
  | none =>
    simp only [pure_ok, Prod.mk.injEq] at h
    obtain ⟨rfl, rfl, rfl⟩ := h
    have hd := hdrop fun v hv => absurd (by rw [hsys2]; exact hv) (hnone rfl v)
    refine ⟨?_, hinv3, rfl, by rw [hs3]; exact hup1, by rw [hs3, hnr]; simp, ?_⟩
    · rw [hs3]; exact hd.1
    · rw [hs3]; exact hd.2
  | some l =>
    obtain ⟨v0, hv0, hl, hopt, -⟩ := hsome l rfl
    have hopt := hopt rfl
    have hresdot : dot orow.coefs (fun j => l.getD j 0) = dot orow.coefs v0 := by
      apply dot_congr
      intro p hp
      have hpl : p.1 < lp2.numCols := by
        have h1 := hsh.wf orow (List.mem_of_getElem? hor) p hp
        have : lp2.numCols = lp.numCols := by rw [hsys2]; exact hncs
        omega
      rw [hl]; simp [colVals, List.getD_eq_getElem?_getD, hpl]
    simp only [hresdot] at h
    split at h
    · -- re-add the old row
      simp only [bind_ok, pure_ok] at h
      obtain ⟨s4, hs4, h⟩ := h
      simp only [Prod.mk.injEq] at h
      obtain ⟨rfl, rfl, rfl⟩ := h
      have hnn : (lp3.toSys.addRowsLE [((lp.rows[row1]?).map (LRow.getRhs dm)).getD 0]).numRows - 1 =
          lp3.numRows := by simp [Sys.addRowsLE, Sys.numRows]
      rw [hnn] at hs4
      have hs4 := addRow_eq hs4
      have hrr : ((lp.rows[row1]?).map (LRow.getRhs dm)).getD 0 = orow.rhs := by
        rw [hor]; simp [LRow.getRhs, hoty]
      rw [hs3, hrr] at hs4
      obtain ⟨h1, h2, h3⟩ := appendRow_shape hsh1
        ((⟨.up, orow.rhs, []⟩ : LRow K).withCoefs orow.coefs)
        (fun p hp => by
          rw [hncs]; exact hsh.wf orow (List.mem_of_getElem? hor) p (LRow.withCoefs_mem hp))
        (fun p hp => by
          rw [hsv.inBlock]; exact hsh.others _ _ hor hospec p (LRow.withCoefs_mem hp))
      rw [← hs4] at h1 h2 h3
      have hsv4 : lp.SameVars s4 := ⟨h2.dims.trans hsv.dims, h2.bmPos.trans hsv.bmPos,
        h2.cur.trans hsv.cur, h2.ie.trans hsv.ie, h2.bmIdx.trans hsv.bmIdx⟩
      have hh : ∀ v, s4.Rest v ↔ lp.Rest v ∧ initCond ρ.n ρ.m vec rhs bm (ies.getD [])
          (fun j => v (lp.bmPos.2 + j)) (fun k c => v (lp.inBase + ρ.m * k + c)) := by
        intro v
        rw [h3, hrest1, hrest0, hnew, LRow.holds_iff, LRow.withCoefs_dot, holdholds]
        simp only [LRow.withCoefs_ty, LRow.withCoefs_rhs, RowType.rel]
        tauto
      refine ⟨hfin s4 h1 hsv4 ?_ hh, hinv3, rfl, ?_, ?_, hsv4, ?_, fun v hv => ((hh v).1 hv).1⟩
      · rw [hs4]; exact hncs
      · intro i hi
        obtain ⟨r, hr, h5, h6, h7⟩ := hup1 i hi
        have hil : i < s1.rows.length := by
          by_contra hcc; rw [List.getElem?_eq_none (by omega)] at hr; cases hr
        refine ⟨r, ?_, h5, h6, by rw [h2.special]; exact h7⟩
        show s4.rows[i]? = _
        rw [hs4]; simp only; rw [List.getElem?_append_left hil]; exact hr
      · show s4.numRows = _
        rw [hs4]
        have : s1.rows.length = lp.numRows := hnr
        simp [Sys.numRows, this] at *
      · show s4.names = _
        rw [hs4, List.append_nil]; exact hnm
    · rename_i hnle
      simp only [pure_ok, Prod.mk.injEq] at h
      obtain ⟨rfl, rfl, rfl⟩ := h
      suffices hd : s1.Repr (ρ.addInit vec rhs bm (ies.getD [])) ∧ lp.Grow s1 [] by
        refine ⟨?_, hinv3, rfl, by rw [hs3]; exact hup1, by rw [hs3, hnr]; simp, ?_⟩
        · rw [hs3]; exact hd.1
        · rw [hs3]; exact hd.2
      refine hdrop fun v hv => (holdholds v).2 ?_
      have h1 := hopt v (by rw [hsys2]; exact hv)
      rw [hobjv, hobjv] at h1
      simp only [Option.getD_some, zero_add, dot_negRow, neg_le_neg_iff] at h1
      have hrr : ((lp.rows[row1]?).map (LRow.getRhs dm)).getD 0 = orow.rhs := by
        rw [hor]; simp [LRow.getRhs, hoty]
      rw [hrr] at hnle
      exact le_trans h1 (le_of_lt (not_le.1 hnle))

end Hylaa
