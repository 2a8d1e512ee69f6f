import Verif.Proofs.CoreLp

/-! Aggregation and creation of nodes. -/

set_option linter.unusedSectionVars false

namespace Hylaa
open Spec
variable {K : Type} [Field K] [LinearOrder K] [IsStrictOrderedRing K]

theorem mapM_needSome {α β : Type} {f : α → Option β} : ∀ {l : List α} {l' : List β},
    (l.mapM fun a => needSome (f a)) = .ok l' → List.Forall₂ (fun a b => f a = some b) l l'
  | [], l', h => by
    simp only [List.mapM_nil, pure_ok] at h; subst h; exact .nil
  | a :: l, l', h => by
    simp only [List.mapM_cons, bind_ok, needSome_ok, pure_ok] at h
    obtain ⟨b, hb, bs, hbs, rfl⟩ := h
    exact .cons hb (mapM_needSome hbs)

theorem Touched.trans {a b c : List (SS K)} (h : Touched a b) (h' : Touched b c) : Touched a c := by
  refine ⟨h'.1.trans h.1, fun i st hst => ?_⟩
  obtain ⟨lp1, h1, h2, h3⟩ := h.2 i st hst
  obtain ⟨lp2, k1, k2, k3⟩ := h'.2 i _ h1
  exact ⟨lp2, k1, k2.trans h2, fun ho => k3 (h3 ho)⟩

/-- Writing back instances that represent the same system. -/
theorem setLps_touched (orig : List (SS K)) : ∀ (l : List (ℕ × Lp K)) (ss : List (SS K)),
    Touched orig ss → (∀ p ∈ l, ∃ st, orig[p.1]? = some st ∧ p.2.toSys = st.lp.toSys ∧
      (st.lp.ObjInv → p.2.ObjInv)) →
    Touched orig (l.foldl (fun ss p => ss.modify p.1 fun st => { st with lp := p.2 }) ss)
  | [], ss, h, _ => h
  | p :: l, ss, h, hl => by
    rw [List.foldl_cons]
    refine setLps_touched orig l _ ⟨?_, fun i st hst => ?_⟩ fun q hq => hl q (by simp [hq])
    · rw [List.length_modify]; exact h.1
    · obtain ⟨lp1, h1, h2, h3⟩ := h.2 i st hst
      rw [List.getElem?_modify, h1]
      by_cases hp : p.1 = i
      · obtain ⟨st', k1, k2, k3⟩ := hl p (by simp)
        rw [hp, hst] at k1
        cases k1
        exact ⟨p.2, by simp [hp], k2, k3⟩
      · exact ⟨lp1, by simp [hp], h2, h3⟩

theorem min?_getD_le {l : List ℕ} {a : ℕ} (h : a ∈ l) : l.min?.getD 0 ≤ a := by
  cases hm : l.min? with
  | none => rw [List.min?_eq_none_iff] at hm; subst hm; simp at h
  | some b =>
    rw [List.min?_eq_some_iff] at hm
    exact hm.2 a h

theorem le_max?_getD {l : List ℕ} {a : ℕ} (h : a ∈ l) : a ≤ l.max?.getD 0 := by
  cases hm : l.max? with
  | none => rw [List.max?_eq_none_iff] at hm; subst hm; simp at h
  | some b =>
    rw [List.max?_eq_some_iff] at hm
    exact hm.2 a h

theorem templateDirs_len {E : Env K} {σ : Core K} {kind : AggKind} {ag : Bool} {o : OpTr K} {n : ℕ}
    {dirs : List (List K)} (h : templateDirs E σ kind ag o n = .ok dirs) :
    ∀ d ∈ dirs, d.length = n := by
  simp only [templateDirs, bind_ok, needSome_ok] at h
  obtain ⟨ti, -, t, -, ds, h1, h2⟩ := h
  have hbox : ∀ d ∈ (List.range n).map fun d => unitVec (K := K) n d 1, d.length = n := by
    intro d hd
    obtain ⟨i, -, rfl⟩ := List.mem_map.1 hd
    simp [unitVec]
  have hds : ∀ d ∈ ds, d.length = n := by
    split at h1
    · cases h1; exact hbox
    · simp only [bind_ok, needSome_ok, need_ok, pure_ok] at h1
      obtain ⟨pn, -, pnode, -, pst, -, pm, -, ds', -, _, hl, rfl⟩ := h1
      intro d hd
      rcases List.mem_append.1 hd with hd | hd
      · exact hl d hd
      · exact hbox d (List.mem_filter.1 hd).1
  split at h2
  · simp only [bind_ok, needSome_ok, need_ok, pure_ok] at h2
    obtain ⟨g, -, _, hl, rfl⟩ := h2
    intro d hd
    rcases List.mem_append.1 hd with hd | hd
    · exact hds d hd
    · exact hl d hd
  · cases h2; exact hds

/-- **Aggregation** of state sets of one mode. -/
theorem aggregateOps_spec {E : Env K} (hE : E.Sound) {i : ℕ} {m : Mode K}
    (hm : E.ha.modes[i]? = some m) (he : m.isError = false) {σ σ' : Core K} {ops : List ℕ}
    {os : List (OpTr K)} {sts : List (SS K)} {at_ : AggType} {st : SS K}
    (hsts : List.Forall₂ (fun o s => σ.states[o.post]? = some s) os sts)
    (hent : ∀ s ∈ sts, s.Entry E ∧ s.mode = i) (hlo : at_.kind = .chull → ∀ s ∈ sts, s.lp.NoLo)
    (hlen : 2 ≤ sts.length) (h : aggregateOps E σ ops os sts at_ = .ok (σ', st)) :
    (∃ ss, Touched σ.states ss ∧ σ' = { σ with states := ss }) ∧ st.Entry E ∧ st.mode = i ∧
    st.steps = stepInterval (sts.map fun s => s.steps) ∧ st.concrete = false ∧ st.lp.NoLo ∧
    ∀ s ∈ sts, ∀ x, s.lp.Mem x → st.lp.Mem x := by
  simp only [aggregateOps, bind_ok, needSome_ok] at h
  obtain ⟨st0, h0, m', hm', h⟩ := h
  have hmode : st0.mode = i := (hent st0 (List.mem_of_getElem? h0)).2
  rw [hmode] at hm' h
  rw [hm] at hm'; cases hm'
  have hdims : ∀ s ∈ sts, s.lp.dims = (E.dyn i).dims := by
    intro s hs
    obtain ⟨h1, h2⟩ := hent s hs
    have := (h1.ok m (by rw [h2]; exact hm) he).1
    rwa [h2] at this
  split at h
  · rename_i hk
    simp only [bind_ok, pure_ok, Prod.mk.injEq] at h
    obtain ⟨lp, h1, st1, h2, rfl, rfl⟩ := h
    obtain ⟨⟨X, a1⟩, a2, a3, a4⟩ := chull_spec (n := (E.dyn i).dims) (by
      intro l hl
      obtain ⟨s, hs, rfl⟩ := List.mem_map.1 hl
      have := (hent s hs).1
      exact ⟨hlo hk s hs, this.wf, hdims s hs, this.cur⟩) (by simpa using hlen) h1
    obtain ⟨q1, q2, q3, q4, q5⟩ := Repr.entry_ok hE.toBase hm a1 a2 h2
    refine ⟨⟨σ.states, Touched.refl _, rfl⟩, q1, q2, q4, q5, by rw [q3]; exact a3, ?_⟩
    intro s hs x hx
    rw [q3]
    exact a4 s.lp (List.mem_map.2 ⟨s, hs, rfl⟩) x hx
  · simp only [bind_ok, needSome_ok, pure_ok, Prod.mk.injEq] at h
    obtain ⟨a, ha, o, ho, dirs, hd, ⟨lps', lp⟩, h1, st1, h2, rfl, rfl⟩ := h
    have hin : ∀ l ∈ sts.map fun s => s.lp, l.ObjInv ∧ l.cur + l.dims ≤ l.numCols := by
      intro l hl
      obtain ⟨s, hs, rfl⟩ := List.mem_map.1 hl
      exact ⟨(hent s hs).1.obj, (hent s hs).1.cur⟩
    obtain ⟨⟨X, a1⟩, a2, a3, a4, a5, a6⟩ := aggregate_spec hE.honest hin (templateDirs_len hd) h1
    obtain ⟨q1, q2, q3, q4, q5⟩ := Repr.entry_ok hE.toBase hm a1 a2 h2
    refine ⟨⟨_, setLps_touched σ.states _ _ (Touched.refl _) ?_, rfl⟩, q1, q2, q4, q5,
      by rw [q3]; exact a3, ?_⟩
    · intro p hp
      obtain ⟨j, hj, rfl⟩ := List.getElem_of_mem hp
      have hll : lps'.length = sts.length := by
        have := congrArg List.length a5
        simpa using this
      have hl2 := hsts.length_eq
      simp only [List.length_zip, List.length_map] at hj
      have hjo : j < os.length := by omega
      have hjs : j < sts.length := by omega
      have hjl : j < lps'.length := by omega
      refine ⟨sts[j], ?_, ?_, ?_⟩
      · simp only [List.getElem_zip, List.getElem_map]
        exact hsts.get hjo hjs
      · have : (lps'.map fun l => l.toSys)[j]? = ((sts.map fun s => s.lp).map fun l => l.toSys)[j]? := by
          rw [a5]
        simp only [List.getElem?_map, List.getElem?_eq_getElem hjl, List.getElem?_eq_getElem hjs,
          Option.map_some, Option.some.injEq] at this
        simpa using this
      · simp only [List.getElem_zip]
        exact fun _ => a6 _ (List.getElem_mem _)
    · intro s hs x hx
      rw [q3]
      exact a4 s.lp (List.mem_map.2 ⟨s, hs, rfl⟩) x hx

end Hylaa
