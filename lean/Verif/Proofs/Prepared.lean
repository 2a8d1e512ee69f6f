import Verif.Proofs.Built

/-! # What `setup_ha` makes of a built automaton -/

set_option linter.unusedSectionVars false

namespace Hylaa
open Spec
variable {K : Type} [Field K] [LinearOrder K]

/-- Transition `t'` after the preparation of `t`. -/
structure PrepTr (modes : List (Mode K)) (t t' : Tr K) : Prop where
  same : ∃ g b, t' = { t with guard := g, tt := b }
  ok : TransOk modes t → TransOk modes t'
  more : ∀ x, GuardHolds t x → (t.reset = none → ∀ m, modes[t.dst]? = some m → InvHolds m x) → GuardHolds t' x
  less : t'.tt = false → ∀ x, GuardHolds t' x → GuardHolds t x

theorem PrepTr.refl (modes : List (Mode K)) (t : Tr K) : PrepTr modes t t :=
  ⟨⟨_, _, rfl⟩, id, fun _ h _ => h, fun _ _ h => h⟩

theorem PrepTr.src {modes : List (Mode K)} {t t' : Tr K} (h : PrepTr modes t t') : t'.src = t.src := by
  obtain ⟨g, b, rfl⟩ := h.same; rfl
theorem PrepTr.dst {modes : List (Mode K)} {t t' : Tr K} (h : PrepTr modes t t') : t'.dst = t.dst := by
  obtain ⟨g, b, rfl⟩ := h.same; rfl
theorem PrepTr.reset {modes : List (Mode K)} {t t' : Tr K} (h : PrepTr modes t t') : t'.reset = t.reset := by
  obtain ⟨g, b, rfl⟩ := h.same; rfl
theorem PrepTr.resetTo {modes : List (Mode K)} {t t' : Tr K} (h : PrepTr modes t t') (n : ℕ) (x y : ℕ → K) :
    ResetTo n t' x y ↔ ResetTo n t x y := by
  obtain ⟨g, b, rfl⟩ := h.same; rfl

theorem relaxTt_spec [IsStrictOrderedRing K] {modes : List (Mode K)} {inv : List (LinCon K)} {vars : List ℕ} {eps : K} {t t' : Tr K}
    (heps : 0 ≤ eps) (ht : TransOk modes t) (h : relaxTt inv vars eps t = .ok t') :
    PrepTr modes t t' ∧ (t' = t ∨ t'.tt = true) := by
  unfold relaxTt at h
  split at h
  · simp only [bind_ok, needSome_ok] at h
    obtain ⟨g, hg, h⟩ := h
    split at h
    · simp only [pure_ok] at h
      subst h
      obtain ⟨go, m, a, g1, g2, g3⟩ := ht.guard g hg
      have hlen : g.1.rows.length = (((g.1.rows.zip g.2).map (relaxRow inv vars g.1.ncols eps)).map fun r => r.1).length := by
        simp [go.len]
      refine ⟨⟨⟨_, _, rfl⟩, fun _ => ?_, fun x hx _ => ?_, fun h => by simp at h⟩, .inr rfl⟩
      · refine { ht with guard := fun g' hg' => ?_ }
        simp only [Option.some.injEq] at hg'
        subst hg'
        exact ⟨⟨hlen, go.wf, go.nodup⟩, m, a, g1, g2, g3⟩
      · obtain ⟨g', hg', hx⟩ := hx
        rw [hg] at hg'; cases hg'
        refine ⟨_, rfl, fun i hi => ?_⟩
        have hi' : i < g.2.length := by
          rw [← hlen, go.len] at hi; exact hi
        have hi'' : i < g.1.rows.length := by rw [go.len]; exact hi'
        simp only [List.getElem_map, List.getElem_zip]
        refine le_trans (hx i hi') ?_
        unfold relaxRow
        split
        · simp only; linarith
        · exact le_refl _
    · simp only [pure_ok] at h
      subst h
      exact ⟨.refl _ _, .inl rfl⟩
  · cases h
    exact ⟨.refl _ _, .inl rfl⟩

theorem strengthenTr_ok {tol : K} {ha : HA K} {t t' : Tr K} (hm : ∀ m ∈ ha.modes, ModeOk m) (ht : TransOk ha.modes t)
    (h : strengthenTr tol ha t = .ok t') : PrepTr ha.modes t t' ∧ t'.tt = t.tt := by
  have hlen : ∀ g, t.guard = some g → g.1.rows.length = g.2.length := fun g hg => (ht.guard g hg).1.len
  obtain ⟨⟨g0, e1⟩, e2, e3, e4, e5⟩ := strengthenTr_spec hlen h
  refine ⟨⟨⟨g0, t.tt, e1⟩, fun _ => ?_, fun x hx hi => ?_, fun _ => e3⟩, by rw [e1]⟩
  · unfold strengthenTr at h
    split at h
    · cases h; exact ht
    · rename_i hc
      simp only [bind_ok, needSome_ok] at h
      obtain ⟨m, hmm, h⟩ := h
      split at h
      · simp only [pure_ok] at h
        subst h; exact ht
      · simp only [bind_ok, needSome_ok, need_ok, pure_ok] at h
        obtain ⟨g, hg, add, hadd, _, hlt, rfl⟩ := h
        obtain ⟨go, m1, a1, g1, g2, g3⟩ := ht.guard g hg
        refine { ht with guard := fun g' hg' => ?_ }
        have hl5 := e5 g' hg'
        simp only [Option.some.injEq] at hg'
        subst hg'
        refine ⟨⟨hl5, fun r hr p hp => ?_, fun r hr => ?_⟩, m1, a1, g1, g2, g3⟩
        · simp only [List.mem_append, List.mem_map] at hr
          rcases hr with hr | ⟨lc, hlc, rfl⟩
          · exact go.wf r hr p hp
          · exact hlt lc hlc p hp
        · simp only [List.mem_append, List.mem_map] at hr
          rcases hr with hr | ⟨lc, hlc, rfl⟩
          · exact go.nodup r hr
          · have hin := missingInGuard_mem hadd lc hlc
            have hmo := hm m (List.mem_of_getElem? hmm)
            cases hma : m.a with
            | none => rw [(hmo.none_ hma).1] at hin; simp at hin
            | some a => exact (hmo.dyn a hma).2.2.2.nodup lc hin
  · by_cases hc : t.src = t.dst ∨ t.tt = true ∨ t.reset.isSome = true
    · rw [e2 hc]; exact hx
    · have hr : t.reset = none := by
        cases hr : t.reset with
        | none => rfl
        | some r => rw [hr] at hc; simp at hc
      cases hd : ha.modes[t.dst]? with
      | none =>
        unfold strengthenTr at h
        rw [if_neg hc, hd] at h
        simp only [bind_ok, needSome_ok] at h
        obtain ⟨m, hm, _⟩ := h
        cases hm
      | some m => exact e4 m x hd (hi hr m hd) hx

theorem PrepTr.trans {modes : List (Mode K)} {t t' t'' : Tr K} (h : PrepTr modes t t') (h' : PrepTr modes t' t'')
    (htt : t''.tt = false → t'.tt = false) : PrepTr modes t t'' := by
  refine ⟨?_, fun o => h'.ok (h.ok o), fun x hx hi => h'.more x (h.more x hx hi) ?_,
    fun o x hx => h.less (htt o) x (h'.less o x hx)⟩
  · obtain ⟨g, b, rfl⟩ := h.same
    obtain ⟨g', b', rfl⟩ := h'.same
    exact ⟨g', b', rfl⟩
  · rw [h.reset, h.dst]; exact hi

/-- What `setup_ha` makes of a built automaton. -/
structure Prepared (ha ha' : HA K) : Prop where
  modes : ha'.modes = ha.modes
  out : ha'.out = ha.out
  len : ha'.trans.length = ha.trans.length
  trans : ∀ (i : ℕ) (t t' : Tr K), ha.trans[i]? = some t → ha'.trans[i]? = some t' → PrepTr ha.modes t t'

theorem Prepared.refl (ha : HA K) : Prepared ha ha :=
  ⟨rfl, rfl, rfl, fun i t t' h h' => by rw [h] at h'; cases h'; exact .refl _ _⟩

theorem setupHa_spec [IsStrictOrderedRing K] {tt str : Bool} {eps tol : K} {ha ha' : HA K} (heps : 0 ≤ eps)
    (hb : BuiltOk ha) (h : ha.setupHa tt str eps tol = .ok ha') :
    Prepared ha ha' ∧ (∀ t ∈ ha'.trans, TransOk ha'.modes t) ∧ ha'.checkTransitions = .ok () := by
  simp only [HA.setupHa, bind_ok, pure_ok] at h
  obtain ⟨h1, e1, h2, e2, ⟨⟩, e3, rfl⟩ := h
  have p1 : Prepared ha h1 ∧ ∀ t ∈ h1.trans, TransOk h1.modes t := by
    split at e1
    · simp only [HA.detectTt, bind_ok, pure_ok] at e1
      obtain ⟨ts, hts, rfl⟩ := e1
      obtain ⟨l1, l2⟩ := mapM_getElem hts
      have hstep : ∀ (i : ℕ) (t t' : Tr K), ha.trans[i]? = some t → ts[i]? = some t' → PrepTr ha.modes t t' := by
        intro i t t' ht ht'
        have := l2 i t t' ht ht'
        simp only [bind_ok, needSome_ok] at this
        obtain ⟨m, hm, this⟩ := this
        split at this
        · cases this; exact .refl _ _
        · split at this
          · cases this; exact .refl _ _
          · exact (relaxTt_spec heps (hb.trans t (List.mem_of_getElem? ht)) this).1
      refine ⟨⟨rfl, rfl, l1, hstep⟩, fun t' ht' => ?_⟩
      obtain ⟨i, hi⟩ := List.mem_iff_getElem?.1 ht'
      have hlt : i < ha.trans.length := by rw [← l1]; exact lt_of_getElem? hi
      exact (hstep i _ t' (List.getElem?_eq_getElem hlt) hi).ok
        (hb.trans _ (List.getElem_mem hlt))
    · cases e1
      exact ⟨.refl _, hb.trans⟩
  obtain ⟨p1, p1'⟩ := p1
  have p2 : Prepared ha h2 ∧ ∀ t ∈ h2.trans, TransOk h2.modes t := by
    split at e2
    · simp only [HA.strengthen, bind_ok, pure_ok] at e2
      obtain ⟨ts, hts, rfl⟩ := e2
      obtain ⟨l1, l2⟩ := mapM_getElem hts
      have hm : ∀ m ∈ h1.modes, ModeOk m := by rw [p1.modes]; exact hb.modes
      refine ⟨⟨p1.modes, p1.out, by simp only [l1, p1.len], fun i t t'' ht ht'' => ?_⟩, fun t' ht' => ?_⟩
      · have hlt : i < h1.trans.length := by rw [← l1]; exact lt_of_getElem? ht''
        have hi := List.getElem?_eq_getElem hlt
        obtain ⟨q, qt⟩ := strengthenTr_ok hm (p1' _ (List.getElem_mem hlt)) (l2 i _ t'' hi ht'')
        rw [p1.modes] at q
        exact (p1.trans i t _ ht hi).trans q (by rw [qt]; exact id)
      · obtain ⟨i, hi⟩ := List.mem_iff_getElem?.1 ht'
        have hlt : i < h1.trans.length := by rw [← l1]; exact lt_of_getElem? hi
        exact (strengthenTr_ok hm (p1' _ (List.getElem_mem hlt)) (l2 i _ t' (List.getElem?_eq_getElem hlt) hi)).1.ok
          (p1' _ (List.getElem_mem hlt))
    · cases e2
      exact ⟨p1, p1'⟩
  exact ⟨p2.1, p2.2, e3⟩

theorem checkTransitions_spec {ha : HA K} (h : ha.checkTransitions = .ok ()) : ∀ t ∈ ha.trans, ∃ src dst a,
    ha.modes[t.src]? = some src ∧ ha.modes[t.dst]? = some dst ∧ src.a = some a ∧ t.guard.isSome = true ∧
      (∀ b, dst.a = some b → t.reset = none → b.nrows = a.nrows) := by
  intro t ht
  have : ha.checkTransition t = .ok () := by
    unfold HA.checkTransitions at h
    generalize ha.trans = l at h ht
    induction l with
    | nil => simp at ht
    | cons u l ih =>
      rw [show (u :: l).forM ha.checkTransition = (do ha.checkTransition u; l.forM ha.checkTransition) from rfl, bind_ok] at h
      obtain ⟨_, h1, h2⟩ := h
      rcases List.mem_cons.1 ht with rfl | ht
      · exact h1
      · exact ih h2 ht
  simp only [HA.checkTransition, bind_ok, needSome_ok, assert_ok] at this
  obtain ⟨src, hs, dst, hd, _, h1, _, h2, h3⟩ := this
  obtain ⟨a, ha⟩ := Option.isSome_iff_exists.1 h1
  refine ⟨src, dst, a, hs, hd, ha, h2, fun b hb hr => ?_⟩
  rcases h3 (by rw [hb]; rfl) with h | h
  · simp only [Mode.dims, ha, hb] at h
    exact h.symm
  · rw [hr] at h; simp at h

end Hylaa
