import Verif.Proofs.CeSt

/-! The LP of a concrete state set records the whole path from an initial set. -/

set_option linter.unusedSectionVars false

namespace Hylaa
open Spec
variable {K : Type} [Field K] [LinearOrder K] [IsStrictOrderedRing K]

/-! ### Chains -/

/-- The segments lead to point `y` of mode `j`. -/
def TraceTo (H : Hyb K) (ε : K) (P : Prop) (X0 : ℕ → (ℕ → K) → Prop) (l : List (CeSeg K)) (j : ℕ)
    (y : ℕ → K) : Prop :=
  Chain H ε P X0 l ∧ (l = [] → X0 j y) ∧ ∀ s, l.getLast? = some s → Enters H s j y

theorem TraceTo.snoc {H : Hyb K} {ε : K} {P : Prop} {X0 : ℕ → (ℕ → K) → Prop} {l : List (CeSeg K)}
    {s : CeSeg K} (h : TraceTo H ε P X0 l s.mode (pt s.start)) (hs : SegOk H ε P s) :
    Chain H ε P X0 (l ++ [s]) := by
  obtain ⟨h1, h2, h3⟩ := h
  refine ⟨fun x hx => ?_, fun x hx => ?_, fun k a b ha hb => ?_⟩
  · rcases List.mem_append.1 hx with h | h
    · exact h1.seg x h
    · rw [List.mem_singleton] at h; subst h; exact hs
  · cases l with
    | nil => simp at hx; subst hx; exact h2 rfl
    | cons c l => simp at hx; subst hx; exact h1.first _ rfl
  · rcases append_inv ha with ⟨ha', hk⟩ | ⟨rfl, rfl⟩
    · rcases append_inv hb with ⟨hb, -⟩ | ⟨hk2, rfl⟩
      · exact h1.next k a b ha' hb
      · refine h3 a ?_
        rw [List.getLast?_eq_getElem?, ← ha', ← hk2, Nat.add_sub_cancel]
    · have := lt_of_getElem? hb
      simp at this

/-! ### Linked blocks -/

theorem LinkedFrom.append {ha : HA K} {l' : List Blk} : ∀ {l : List Blk} {mode : ℕ} {out : Option ℕ},
    LinkedFrom ha mode out (l ++ l') → LinkedFrom ha mode out l
  | [], _, _, _ => trivial
  | _ :: _, _, _, h => ⟨h.1, LinkedFrom.append h.2⟩

theorem BlkFollows.of_via {ha : HA K} {mode : ℕ} {out : Option ℕ} {b b' : Blk}
    (h : BlkFollows ha mode out b) (hv : b'.via = b.via) : BlkFollows ha mode out b' := by
  obtain ⟨t, ti, L, h1, h2⟩ := h
  exact ⟨t, ti, L, hv.trans h1, h2⟩

theorem LinkedFrom.last {ha : HA K} {b b' : Blk} {t : List Blk} (hv : b'.via = b.via)
    (ht : LinkedFrom ha b'.mode b'.out t) : ∀ {l : List Blk} {mode : ℕ} {out : Option ℕ},
    LinkedFrom ha mode out (l ++ [b]) → LinkedFrom ha mode out (l ++ b' :: t)
  | [], _, _, h => ⟨h.1.of_via hv, ht⟩
  | _ :: _, _, _, h => ⟨h.1, LinkedFrom.last hv ht h.2⟩

/-- The last block is closed and followed by others. -/
theorem Linked.last {ha : HA K} {b b' : Blk} {t l : List Blk} (h : Linked ha (l ++ [b]))
    (hv : b'.via = b.via) (ht : LinkedFrom ha b'.mode b'.out t) : Linked ha (l ++ b' :: t) := by
  cases l with
  | nil => exact ⟨hv.trans h.1, ht⟩
  | cons c l => exact ⟨h.1, LinkedFrom.last hv ht h.2⟩

/-! ### Trails -/

/-- The columns of `s` are those of a path `cl` followed by the current mode, and solutions of the
constraints of `s` other than those of the current point are runs along `cl`. -/
structure Trail (E : Env K) (P : Prop) (X0 : ℕ → (ℕ → K) → Prop) (mode : ℕ) (m : Mode K)
    (cl : List Blk) (via : Option ℕ) (w steps : ℕ) (s : Sys K) : Prop where
  names : s.names = namesOf (cl ++ [curBlk (E.dyn mode) mode m via w steps])
  off : s.bmPos.2 = (cl.map Blk.len).sum
  cur : s.cur = s.bmPos.2 + w
  ok : ∀ b ∈ cl ++ [curBlk (E.dyn mode) mode m via w steps], b.Ok E.ha
  linked : Linked E.ha (cl ++ [curBlk (E.dyn mode) mode m via w steps])
  trace : ∀ v, s.Rest v → ∀ y, (∀ i < s.dims, y i = v (s.bmPos.2 + i)) →
    TraceTo E.hyb E.T.inter P X0 (segsOf v cl 0) mode y

theorem namesOf_append (a b : List Blk) : namesOf (a ++ b) = namesOf a ++ namesOf b := by
  simp [namesOf]

theorem namesOf_single (b : Blk) : namesOf [b] = b.names := by simp [namesOf]

theorem curBlk_ok {d : Dyn K} {ha : HA K} {mode : ℕ} {m : Mode K} {via : Option ℕ} {w steps steps' : ℕ}
    (h : (curBlk d mode m via w steps).Ok ha) : (curBlk d mode m via w steps').Ok ha := by
  refine ⟨h.w, fun hk => ?_, h.find⟩
  by_contra hm
  have hm' : ¬ 0 < d.inputs := hm
  simp [curBlk, hm'] at hk

/-- The names of a block grow with the steps. -/
theorem curBlk_names {d : Dyn K} {mode : ℕ} {m : Mode K} (hd : d.For m) {via : Option ℕ} {w a b : ℕ}
    (hab : a ≤ b) : (curBlk d mode m via w b).names = (curBlk d mode m via w a).names ++
      (if m.inputs.isSome then insNames m.id d.inputs (b - a) else []) := by
  have key : insNames m.id d.inputs (if 0 < d.inputs then b else 0) =
      insNames m.id d.inputs (if 0 < d.inputs then a else 0) ++
        (if m.inputs.isSome then insNames m.id d.inputs (b - a) else []) := by
    by_cases hp : 0 < d.inputs
    · have : m.inputs.isSome = true := by
        rw [hd.inputs_isSome]
        cases hN : d.nmat with
        | none => simp [Dyn.inputs, hN] at hp
        | some N => rfl
      rw [if_pos hp, if_pos hp, if_pos this, ← insNames_add]
      congr 1; omega
    · have h0 : d.inputs = 0 := by omega
      have z : ∀ k, insNames m.id 0 k = [] := fun k =>
        List.length_eq_zero_iff.1 (by rw [insNames_length, Nat.zero_mul])
      rw [if_neg hp, if_neg hp, h0, z, z]
      split <;> rfl
  unfold Blk.names curBlk
  simp only [List.range_zero, List.map_nil, List.append_nil]
  rw [key]
  simp only [List.append_assoc]
  rfl

/-- Trails and growing systems. -/
theorem Trail.grow {E : Env K} {P : Prop} {X0 : ℕ → (ℕ → K) → Prop} {mode : ℕ} {m : Mode K}
    (hd : (E.dyn mode).For m) {cl : List Blk} {via : Option ℕ} {w a b : ℕ} {s s' : Sys K}
    (h : Trail E P X0 mode m cl via w a s) (hab : a ≤ b)
    (hg : s.Grow s' (if m.inputs.isSome then insNames m.id (E.dyn mode).inputs (b - a) else [])) :
    Trail E P X0 mode m cl via w b s' := by
  refine ⟨?_, ?_, ?_, ?_, ?_, ?_⟩
  · rw [hg.names, h.names, namesOf_append, namesOf_append, namesOf_single, namesOf_single,
      curBlk_names hd hab, List.append_assoc]
  · rw [hg.same.bmPos]; exact h.off
  · rw [hg.same.bmPos, hg.same.cur]; exact h.cur
  · intro x hx
    rcases List.mem_append.1 hx with hx | hx
    · exact h.ok x (by simp [hx])
    · rw [List.mem_singleton] at hx
      subst hx
      exact curBlk_ok (steps := a) (h.ok _ (by simp))
  · exact h.linked.last rfl trivial
  · intro v hv y hy
    rw [hg.same.bmPos, hg.same.dims] at hy
    exact h.trace v (hg.rest v hv) y hy

theorem Trail.grow0 {E : Env K} {P : Prop} {X0 : ℕ → (ℕ → K) → Prop} {mode : ℕ} {m : Mode K}
    (hd : (E.dyn mode).For m) {cl : List Blk} {via : Option ℕ} {w a : ℕ} {s s' : Sys K}
    (h : Trail E P X0 mode m cl via w a s) (hg : s.Grow s' []) :
    Trail E P X0 mode m cl via w a s' := by
  refine h.grow hd le_rfl ?_
  rw [Nat.sub_self]
  have : (if m.inputs.isSome = true then insNames m.id (E.dyn mode).inputs 0 else []) = [] := by
    split <;> rfl
  rw [this]; exact hg

/-! ### The end of a segment -/

/-- The current mode is closed: a run up to the guard. -/
theorem Trail.close {E : Env K} {P : Prop} {X0 : ℕ → (ℕ → K) → Prop} {st : SS K} {m : Mode K} {c w : ℕ}
    {cl : List Blk} {via : Option ℕ} (ht' : Trail E P X0 st.mode m cl via w st.stepIn st.lp.toSys)
    (hm : E.ha.modes[st.mode]? = some m) (he : m.isError = false) (hd : (E.dyn st.mode).For m)
    (hh : st.Hi m (E.dyn st.mode) (fun _ => True) E.T.inter c)
    (hP : P → m.Plain ∧ st.stepIn ≤ c ∧ (st.stepIn = 0 → E.set.urgent = true ∧ c = 1))
    {l : List ℕ} {ti : ℕ} {t : Tr K} {g : Csr K × List K}
    (hl : E.ha.out[st.mode]? = some l) (hti : ti ∈ l) (ht : E.ha.trans[ti]? = some t)
    (hgd : t.guard = some g) (hgo : GuardOk g) (hgn : g.1.ncols ≤ (E.dyn st.mode).dims)
    {v : ℕ → K} (hv : st.lp.Sat v) (hg : g.1.le (fun j => v (st.lp.cur + j)) g.2) (r : ℕ) :
    Chain E.hyb E.T.inter P X0 (segsOf v (cl ++
      [{ curBlk (E.dyn st.mode) st.mode m via w st.stepIn with r := r, out := some ti }]) 0) := by
  have hseg := segOk_of_sat (via := via) (r := r) hm he hd hh hP ht'.cur hl hti ht hgd hgo hgn hv hg
  rw [segsOf_append]
  simp only [segsOf, Nat.zero_add]
  rw [← ht'.off]
  refine TraceTo.snoc ?_ hseg
  have hw : st.lp.dims ≤ w := by
    obtain ⟨ρ, hs, -⟩ := hh
    obtain ⟨X, R, hsh, -⟩ := hs.repr.shape
    have := hsh.colsLe
    have := ht'.cur
    omega
  refine ht'.trace v hv.rest _ fun i hi => ?_
  show pt (vals v st.lp.bmPos.2 w) i = _
  exact pt_vals _ _ (by omega)

/-! ### Jumps -/

/-- The intersection of `lp` with a guard, as `get_guard_intersection` makes it. -/
def IsCut (S : Solver K) (g : Csr K × List K) (lp tlp : Lp K) : Prop :=
  ∃ c s, lp.clone = .ok c ∧ addCurtimeConstraints c.toSys g.1 g.2 = .ok s ∧
    isFeasible S { c with toSys := s } = .ok (tlp, true)

theorem guardRowsLoop_kept {S : Solver K} {n : ℕ} : ∀ (rows : List (SRow K × K)) {lp lp' : Lp K}
    {b : Bool}, guardRowsLoop S lp n rows = .ok (lp', b) → lp.Kept lp'
  | [], lp, lp', b, h => by cases h; exact .refl _
  | (r, q) :: rows, lp, lp', b, h => by
    simp only [guardRowsLoop, bind_ok] at h
    obtain ⟨lp1, h1, r1, h2, h⟩ := h
    have k1 : lp.Kept lp1 := ⟨setMinDirCsr_toSys h1, fun ho => (setMinDirCsr_spec h1 ho).1⟩
    have k2 : lp1.Kept r1.1 := minimize_keeps (r := r1.2) h2
    have k := k1.trans k2
    split at h
    · cases h; exact k
    · split at h
      · cases h; exact k
      · exact k.trans (guardRowsLoop_kept rows h)

/-- The result of `get_guard_intersection`. -/
theorem guardIntersection_cut {S : Solver K} {lp lp' tlp : Lp K} {g : Csr K × List K}
    (h : guardIntersection S lp g = .ok (lp', some tlp)) : lp.Kept lp' ∧ IsCut S g lp' tlp := by
  simp only [guardIntersection, bind_ok, need_ok] at h
  obtain ⟨_, -, ⟨lp1, b⟩, hl, h⟩ := h
  have k := guardRowsLoop_kept _ hl
  split at h
  · simp only [bind_ok, pure_ok, Prod.mk.injEq] at h
    obtain ⟨c, hc, s, hs, ⟨lf, bf⟩, hf, rfl, h2⟩ := h
    refine ⟨k, c, s, hc, hs, ?_⟩
    cases bf with
    | false => simp at h2
    | true => simp at h2; rw [← h2]; exact hf
  · cases h

theorem guardIntersection_kept {S : Solver K} {lp lp' : Lp K} {r : Option (Lp K)} {g : Csr K × List K}
    (h : guardIntersection S lp g = .ok (lp', r)) : lp.Kept lp' := by
  simp only [guardIntersection, bind_ok, need_ok] at h
  obtain ⟨_, -, ⟨lp1, b⟩, hl, h⟩ := h
  have k := guardRowsLoop_kept _ hl
  split at h
  · simp only [bind_ok, pure_ok, Prod.mk.injEq] at h
    obtain ⟨c, hc, s, hs, ⟨lf, bf⟩, hf, rfl, h2⟩ := h
    exact k
  · cases h; exact k

theorem IsCut.facts {S : Solver K} (hS : S.Honest) {lp tlp : Lp K} {g : Csr K × List K} {ρ : Rep K}
    (hr : lp.Repr ρ) (ho : lp.ObjInv) (hgo : GuardOk g) (h : IsCut S g lp tlp) :
    tlp.ObjInv ∧ tlp.WF ∧ lp.SameVars tlp.toSys ∧ tlp.names = lp.names ∧
    (∀ v, tlp.Sat v ↔ lp.Sat v ∧ g.1.le (fun j => v (lp.cur + j)) g.2) ∧ ∃ v, tlp.Sat v := by
  obtain ⟨c, s, hc, hs, hf⟩ := h
  have hce : c.toSys = lp.toSys := by
    have := clone_ok hc
    rw [this]
    obtain ⟨X, R, hsh, -⟩ := hr.shape
    have := hsh.idx
    cases hq : lp.toSys
    simp_all
  have hco : c.ObjInv := by
    have := clone_ok hc
    rw [this]; exact ho
  rw [hce] at hs
  obtain ⟨a1, a2, a3, a4, -⟩ := addCurtimeConstraints_ok hs hgo.len hgo.wf hr.wf
  obtain ⟨f1, f2, f3⟩ := isFeasible_spec hS hf hco
  have f1 : tlp.toSys = s := f1
  refine ⟨f2, by rw [f1]; exact a1, by rw [f1]; exact a2, by rw [f1]; exact a3, by rw [f1]; exact a4, ?_⟩
  obtain ⟨v, hv⟩ := f3.1 rfl
  exact ⟨v, by rw [f1]; exact hv⟩

/-- Identifiers are positions. -/
structure HA.Ids (ha : HA K) : Prop where
  mode : ∀ (i : ℕ) m, ha.modes[i]? = some m → m.id = i
  tr : ∀ (i : ℕ) L (ti : ℕ) t, ha.out[i]? = some L → ti ∈ L → ha.trans[ti]? = some t →
    L[t.index]? = some ti

theorem HA.Ids.find {ha : HA K} (h : ha.Ids) {i : ℕ} {m : Mode K} (hm : ha.modes[i]? = some m) :
    ha.modes.findIdx? (fun m' => decide (m'.id = m.id)) = some i := by
  rw [List.findIdx?_eq_some_iff_getElem]
  have hi := lt_of_getElem? hm
  refine ⟨hi, ?_, fun j hj => ?_⟩
  · rw [List.getElem?_eq_getElem hi] at hm
    cases hm; simp
  · have := h.mode j _ (List.getElem?_eq_getElem (hj.trans hi))
    rw [h.mode i m hm, this]
    simp; omega

theorem Csr.id_wf (n : ℕ) : (Csr.id (K := K) n).WF := by
  intro r hr p hp
  simp only [Csr.id, List.mem_map, List.mem_range] at hr
  obtain ⟨a, ha, rfl⟩ := hr
  simp at hp; subst hp; simpa [Csr.id] using ha

theorem resetBy_of {n : ℕ} {t : Tr K} {x w y : ℕ → K}
    (hc : (minkArgs t.mink t.minkC t.minkRhs).c.le w (minkArgs t.mink t.minkC t.minkRhs).rhs)
    (hy : ∀ i < (t.reset.getD (Csr.id n)).rows.length,
      y i = dot ((t.reset.getD (Csr.id n)).row i) x + dot ((minkArgs t.mink t.minkC t.minkRhs).m.row i) w) :
    ResetBy n t x w y := by
  have hm : ∀ i, dot ((minkArgs t.mink t.minkC t.minkRhs).m.row i) w =
      (match t.mink with | none => 0 | some M => dot (M.row i) w) := by
    intro i
    cases t.mink with
    | none => simp [minkArgs, Csr.row]
    | some M => rfl
  refine ⟨fun M hM => by simpa only [minkArgs, hM] using hc, ?_⟩
  simp only [hm] at hy
  cases hr : t.reset with
  | none =>
    rw [hr] at hy
    intro i hi
    have hl : (Csr.id (K := K) n).rows.length = n := by simp [Csr.id]
    have := hy i (by rw [Option.getD_none, hl]; exact hi)
    rw [Option.getD_none, Csr.row_lt (by rw [hl]; exact hi)] at this
    rw [this]
    have e : dot ((Csr.id (K := K) n).rows[i]'(by rw [hl]; exact hi)) x = x i := by simp [Csr.id]
    rw [e]
    rfl
  | some R =>
    rw [hr] at hy
    exact hy

theorem addReset_names {s s' : Sys K} {mid ti : ℕ} {reset mink minkC : Option (Csr K)}
    {minkRhs : Option (List K)} {b : Bool}
    (h : addResetVariables s mid ti reset mink minkC minkRhs b = .ok s') :
    s'.names = s.names ++ ((List.range (minkArgs mink minkC minkRhs).m.ncols).map (fun i => s!"reset{i}") ++
      ([s!"m{mid}_i0_t{ti}"] ++ ((List.range (s'.dims - 1)).map (fun d => s!"m{mid}_i{d + 1}") ++
      ((List.range s'.dims).map (fun d => s!"m{mid}_c{d}") ++
      (if b then (List.range s'.dims).map fun d => s!"m{mid}_ti{d}" else []))))) ∧
    s'.cur = s'.bmPos.2 + s'.dims := by
  simp only [addResetVariables, bind_ok, assert_ok, need_ok, needSome_ok, setCsr_ok,
    setReachVars_ok] at h
  obtain ⟨_, hdim, mrhs, hmrhs, mc, hmc', _, hmrow, _, hcl, _, hmlt, s2, ⟨hsz, rfl⟩, ⟨_, hs'⟩⟩ := h
  have hm : (minkArgs mink minkC minkRhs).m = mink.getD ⟨0, []⟩ := by
    cases mink <;> rfl
  have hn : ∀ (l : List (SRow K)) (s : Sys K) (a b : ℕ), (s.setCsrLoop l a b).names = s.names :=
    fun l s a b => s.setCsrLoop_names l a b
  subst hs'
  refine ⟨?_, by simp⟩
  rw [hm]
  simp only [hn]
  split <;> simp [Sys.addRowsEqZero, Sys.addRowsLE, Sys.addCols]

/-- **Taking a transition**: the path gets longer. -/
theorem Trail.jump {E : Env K} (hE : E.Base) (hids : E.ha.Ids) {P : Prop} {X0 : ℕ → (ℕ → K) → Prop}
    {st : SS K} {m : Mode K} {c w : ℕ}
    {cl : List Blk} {via : Option ℕ} (ht' : Trail E P X0 st.mode m cl via w st.stepIn st.lp.toSys)
    (hm : E.ha.modes[st.mode]? = some m) (he : m.isError = false)
    (hh : st.Hi m (E.dyn st.mode) (fun _ => True) E.T.inter c)
    (hP : P → m.Plain ∧ st.stepIn ≤ c ∧ (st.stepIn = 0 → E.set.urgent = true ∧ c = 1))
    {l : List ℕ} {ti : ℕ} {t : Tr K} {g : Csr K × List K}
    (hl : E.ha.out[st.mode]? = some l) (hti : ti ∈ l) (ht : E.ha.trans[ti]? = some t)
    (hgd : t.guard = some g) {tlp : Lp K} (hcut : IsCut E.S g st.lp tlp) {dst : Mode K}
    (hdst : E.ha.modes[t.dst]? = some dst) {s : Sys K}
    (hs : addResetVariables tlp.toSys dst.id t.index t.reset t.mink t.minkC t.minkRhs
      dst.inputs.isSome = .ok s) (hsd : s.dims = (E.dyn t.dst).dims) :
    Trail E P X0 t.dst dst (cl ++ [{ curBlk (E.dyn st.mode) st.mode m via w st.stepIn with
      r := (minkArgs t.mink t.minkC t.minkRhs).m.ncols, out := some ti }])
      (some t.index) s.dims 0 s := by
  have htr := hE.trs st.mode m l ti t hm he hl hti ht
  obtain ⟨hgo, hgn⟩ := htr.guard g hgd
  have hd := hE.dynFor _ _ hm he
  obtain ⟨ρ, hsh, hρ⟩ := id hh
  obtain ⟨c1, c2, c3, c4, c5, -⟩ := hcut.facts hE.honest hsh.repr hsh.obj hgo
  have hdim : tlp.dims = (E.dyn st.mode).dims := by rw [c3.dims, hsh.repr.n, hsh.n]
  have hcur : tlp.cur + tlp.dims ≤ tlp.numCols := by
    rw [c3.cur, c3.dims]; unfold Sys.numCols; rw [c4]; exact hsh.repr.curLe
  obtain ⟨a1, a2, a3, a4, a5, a6, a7⟩ := addResetVariables_shape hs c2 hcur htr.resetNe
    (by rw [hdim]; exact hd.pos) htr.resetWF htr.minkWF htr.minkCWF htr.minkDims
  obtain ⟨n1, n2⟩ := addReset_names hs
  have hpos : 0 < s.dims := by
    rw [a2]
    cases hr : t.reset with
    | none => simp [Csr.id, hdim]; exact hd.pos
    | some R =>
      have := htr.resetNe (by rw [hr]; rfl)
      rw [hr] at this
      exact List.length_pos_iff.2 this
  set M := (minkArgs t.mink t.minkC t.minkRhs).m.ncols with hM
  set cb := curBlk (E.dyn st.mode) st.mode m via w st.stepIn with hcb
  set nb : Blk := { cb with r := M, out := some ti } with hnb
  have hcbok := ht'.ok cb (by rw [hcb]; simp)
  have hnbok : nb.Ok E.ha := ⟨hcbok.w, hcbok.km, hcbok.find⟩
  have hnames : nb.names = cb.names ++ (List.range M).map fun i => s!"reset{i}" := by
    rw [hnb, hcb]
    unfold Blk.names curBlk
    simp only [List.range_zero, List.map_nil, List.append_nil, List.append_assoc]
    rfl
  have hnum : tlp.numCols = ((cl ++ [cb]).map Blk.len).sum := by
    unfold Sys.numCols
    rw [c4, ht'.names, namesOf_length ht'.ok]
  have hlen : ((cl ++ [nb]).map Blk.len).sum = tlp.numCols + M := by
    rw [hnum]
    simp only [List.map_append, List.sum_append, List.map_cons, List.map_nil, List.sum_cons, List.sum_nil]
    simp only [hnb, Blk.len, Blk.ino]
    rw [show cb.r = 0 from rfl]; omega
  refine ⟨?_, ?_, n2, ?_, ?_, ?_⟩
  · rw [n1, c4, ht'.names, List.append_assoc, namesOf_append, namesOf_append, namesOf_single]
    rw [namesOf_append [nb], namesOf_single, namesOf_single, hnames]
    rw [show (curBlk (E.dyn t.dst) t.dst dst (some t.index) s.dims 0).names =
      ([s!"m{dst.id}_i0_t{t.index}"] ++ ((List.range (s.dims - 1)).map (fun d => s!"m{dst.id}_i{d + 1}") ++
      ((List.range s.dims).map (fun d => s!"m{dst.id}_c{d}") ++
      (if dst.inputs.isSome then (List.range s.dims).map fun d => s!"m{dst.id}_ti{d}" else [])))) from ?_]
    · simp only [List.append_assoc, hcb]
    · unfold Blk.names curBlk
      rw [← hsd]
      have z : insNames dst.id (E.dyn t.dst).inputs 0 = [] := rfl
      simp only [ite_self, List.range_zero, List.map_nil, List.append_nil, List.append_assoc, z]
      rfl
  · rw [a3, hlen]
  · intro x hx
    rcases List.mem_append.1 hx with hx | hx
    · rcases List.mem_append.1 hx with hx | hx
      · exact ht'.ok x (by simp [hx])
      · rw [List.mem_singleton] at hx; rw [hx]; exact hnbok
    · rw [List.mem_singleton] at hx
      rw [hx]
      refine ⟨hpos, fun hk => ?_, hids.find hdst⟩
      simp [curBlk] at hk
  · rw [List.append_assoc]
    refine ht'.linked.last (b' := nb) rfl ⟨⟨t.index, ti, l, rfl, rfl, hl, hids.tr _ _ _ _ hl hti ht⟩, trivial⟩
  · intro v hv y hy
    obtain ⟨b1, b2, b3⟩ := (a6 v).1 hv
    obtain ⟨b4, b5⟩ := (c5 v).1 b1
    have hch := ht'.close hm he hd hh hP hl hti ht hgd hgo hgn b4 b5 M
    refine ⟨hch, fun h0 => ?_, fun sg hsg => ?_⟩
    · have := congrArg List.length h0
      rw [segsOf_length] at this; simp at this
    · rw [segsOf_append] at hsg
      simp only [segsOf, Nat.zero_add, List.getLast?_concat, Option.some.injEq] at hsg
      rw [← ht'.off] at hsg
      subst hsg
      have hofm : st.lp.bmPos.2 + (nb.ino + nb.m * nb.k) = tlp.numCols := by
        rw [hnum, ht'.off]
        simp only [List.map_append, List.sum_append, List.map_cons, List.map_nil, List.sum_cons,
          List.sum_nil]
        rfl
      have hmink : ∀ j < M, pt ((nb.seg v st.lp.bmPos.2).mink) j = v (tlp.numCols + j) := by
        intro j hj
        rw [← hofm]
        exact pt_vals v _ hj
      have hfin : ∀ j < (E.dyn st.mode).dims, pt ((nb.seg v st.lp.bmPos.2).fin) j = v (tlp.cur + j) := by
        intro j hj
        rw [c3.cur, ht'.cur]
        exact pt_vals v _ hj
      refine ⟨ti, t, rfl, ht, rfl, fun Mk hMk => ?_, resetBy_of ?_ ?_⟩
      · show (vals v _ M).length = _
        simp only [vals, List.length_map, List.length_range, hM, minkArgs, hMk]
      · refine (Csr.le_congr (n := M) ?_ ?_ hmink).2 b2
        · intro r hr p hp
          cases hk : t.mink with
          | none => simp [minkArgs, hk] at hr
          | some Mk =>
            simp only [minkArgs, hk] at hr ⊢
            cases hck : t.minkC with
            | none => rw [hck] at hr; simp at hr
            | some C => rw [hck] at hr; exact htr.minkCWF C hck r hr p hp
        · rw [hM]
          cases hk : t.mink with
          | none => simp [minkArgs]
          | some Mk =>
            simp only [minkArgs]
            cases hck : t.minkC with
            | none => simp
            | some C => exact (htr.minkDims Mk C hk hck).le
      · intro i hi
        change i < (t.reset.getD (Csr.id (E.dyn st.mode).dims)).rows.length at hi
        have hi' : i < (t.reset.getD (Csr.id tlp.dims)).rows.length := by rw [hdim]; exact hi
        rw [hy i (by rw [a2]; exact hi'), a3, b3 i hi', hdim]
        congr 1
        · refine dot_congr fun p hp => (hfin _ ?_).symm
          have hwf : (t.reset.getD (Csr.id (E.dyn st.mode).dims)).WF := by
            cases hr : t.reset with
            | none => exact Csr.id_wf _
            | some R => exact htr.resetWF R hr
          rw [Csr.row_lt hi] at hp
          have h5 := hwf _ (List.getElem_mem hi) p hp
          rw [hdim] at a5
          rwa [a5] at h5
        · refine dot_congr fun p hp => (hmink _ ?_).symm
          rw [hM]
          cases hk : t.mink with
          | none => simp [minkArgs, hk, Csr.row] at hp
          | some Mk =>
            simp only [minkArgs, hk] at hp ⊢
            by_cases hi2 : i < Mk.rows.length
            · rw [Csr.row_lt hi2] at hp
              exact htr.minkWF Mk hk _ (List.getElem_mem hi2) p hp
            · simp [Csr.row, List.getD_eq_getElem?_getD, hi2] at hp

end Hylaa
