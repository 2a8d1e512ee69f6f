import Verif.Spec.Script
import Verif.Model.Setup
import Verif.Props.Automaton2
import Verif.Proofs.CoreInv

/-! # What a script builds, and what `setup_ha` makes of it -/

set_option linter.unusedSectionVars false

namespace Hylaa
open Spec
variable {K : Type} [Field K] [LinearOrder K]

/-- A mode as a script leaves it. -/
structure ModeOk (m : Mode K) : Prop where
  none_ : m.a = none → m.inv = [] ∧ m.inputs = none
  dyn : ∀ a, m.a = some a → a.WF ∧ a.ncols = a.nrows ∧ 0 < a.nrows ∧ m.InvWF a.nrows
  inp : ∀ p, m.inputs = some p → 0 < p.b.ncols ∧ p.b.WF

/-- A transition as a script leaves it, in an automaton with the given modes. -/
structure TransOk (modes : List (Mode K)) (t : Tr K) : Prop where
  guard : ∀ g, t.guard = some g → GuardOk g ∧ ∃ m a, modes[t.src]? = some m ∧ m.a = some a ∧ g.1.ncols = a.nrows
  resetNe : ∀ r, t.reset = some r → r.rows ≠ [] ∧ r.WF
  noReset : t.reset = none → t.mink = none
  minkWF : ∀ r, t.mink = some r → r.WF
  minkCWF : ∀ r, t.minkC = some r → r.WF
  minkDims : ∀ m c, t.mink = some m → t.minkC = some c → c.ncols = m.ncols
  minkNe : ∀ m, t.mink = some m → ∃ w, (t.minkC.getD ⟨0, []⟩).le w (t.minkRhs.getD [])

structure BuiltOk (ha : HA K) : Prop where
  cons : Consistent ha
  modes : ∀ m ∈ ha.modes, ModeOk m
  trans : ∀ t ∈ ha.trans, TransOk ha.modes t

theorem TransOk.mono {modes modes' : List (Mode K)} {t : Tr K} (h : TransOk modes t)
    (hm : ∀ (i : ℕ) (m : Mode K) (a : Csr K), modes[i]? = some m → m.a = some a →
      ∃ m', modes'[i]? = some m' ∧ m'.a = some a) : TransOk modes' t := by
  refine { h with guard := fun g hg => ?_ }
  obtain ⟨h1, m, a, h2, h3, h4⟩ := h.guard g hg
  obtain ⟨m', h5, h6⟩ := hm _ m a h2 h3
  exact ⟨h1, m', a, h5, h6, h4⟩

theorem id_wf (n : ℕ) : (Csr.id n : Csr K).WF := by
  intro r hr p hp
  simp only [Csr.id, List.mem_map, List.mem_range] at hr
  obtain ⟨i, hi, rfl⟩ := hr
  simp at hp
  subst hp
  exact hi

theorem setGuard_ok {S : Solver K} {ha : HA K} {t t' : Tr K} {c : Csr K} {rhs : List K}
    (h : t.setGuard S ha c rhs = .ok t') : t' = { t with guard := some (c, rhs) } ∧
      c.rows.length = rhs.length ∧ ∃ m a, ha.modes[t.src]? = some m ∧ m.a = some a ∧
        (0 < c.nrows → c.ncols = a.nrows) := by
  simp only [Tr.setGuard, bind_ok, pure_ok, assert_ok, needSome_ok] at h
  obtain ⟨m, hm, _, _, a, ha, _, hc, _, _, _, _, _, h, rfl⟩ := h
  exact ⟨rfl, h.symm, m, a, hm, ha, hc⟩

theorem modTr_built {ha ha' : HA K} {k : ℕ} {f : Tr K → Except Err (Tr K)}
    (hf : ∀ t t', t ∈ ha.trans → TransOk ha.modes t → f t = .ok t' → TransOk ha.modes t')
    (ht : ∀ t ∈ ha.trans, TransOk ha.modes t) (h : ha.modTr k f = .ok ha') :
    ha'.modes = ha.modes ∧ ∀ t ∈ ha'.trans, TransOk ha'.modes t := by
  simp only [HA.modTr, bind_ok, needSome_ok, pure_ok] at h
  obtain ⟨t, h1, t', h2, rfl⟩ := h
  refine ⟨rfl, fun u hu => ?_⟩
  rcases List.mem_or_eq_of_mem_set hu with hu | rfl
  · exact ht u hu
  · exact hf t _ (List.mem_of_getElem? h1) (ht t (List.mem_of_getElem? h1)) h2

theorem getElem?_set_cases {α : Type} {l : List α} {i j : ℕ} {a b : α} (h : (l.set i a)[j]? = some b) :
    (i = j ∧ b = a) ∨ (i ≠ j ∧ l[j]? = some b) := by
  by_cases hij : i = j
  · subst hij
    left
    have hl : i < l.length := by
      have := lt_of_getElem? h
      simpa using this
    rw [List.getElem?_set_self hl] at h
    exact ⟨rfl, (Option.some.inj h).symm⟩
  · right
    rw [List.getElem?_set_ne hij] at h
    exact ⟨hij, h⟩

/-- What a script builds. -/
theorem build_ok {S : Solver K} (hS : S.Honest) {tol : K} (ops : List (BuildOp K)) (hops : ScriptOk ops) :
    BuiltOk (HA.build S tol ops) ∧ ∀ (i : ℕ) (m : Mode K), (HA.build S tol ops).modes[i]? = some m →
      m.a.isSome = true → i ∈ ops.filterMap dynTarget := by
  suffices H : (∀ m ∈ (HA.build S tol ops).modes, ModeOk m) ∧
      (∀ t ∈ (HA.build S tol ops).trans, TransOk (HA.build S tol ops).modes t) ∧
      ∀ (i : ℕ) (m : Mode K), (HA.build S tol ops).modes[i]? = some m →
        m.a.isSome = true → i ∈ ops.filterMap dynTarget from
    ⟨⟨(C26_construction S tol ops).1, H.1, H.2.1⟩, H.2.2⟩
  induction ops using List.reverseRecOn with
  | nil => simp [HA.build]
  | append_singleton ops op ih =>
    have hops' : ScriptOk ops := ⟨fun o ho => hops.calls o (by simp [ho]), by
      have := hops.once
      rw [List.filterMap_append] at this
      exact (List.nodup_append.1 this).1⟩
    have hop := hops.calls op (by simp)
    obtain ⟨i1, i2, i3⟩ := ih hops'
    have i3' : ∀ (i : ℕ) (m : Mode K), (HA.build S tol ops).modes[i]? = some m →
        m.a.isSome = true → i ∈ (ops ++ [op]).filterMap dynTarget := fun i m h1 h2 => by
      rw [List.filterMap_append]; exact List.mem_append_left _ (i3 i m h1 h2)
    have hb : HA.build S tol (ops ++ [op]) = (HA.build S tol ops).attempt S tol op := by
      simp [HA.build]
    rw [hb]
    unfold HA.attempt
    -- a change of one mode
    have mmode : ∀ {i : ℕ} {f : Mode K → Except Err (Mode K)} {ha' : HA K},
        (∀ m m', m ∈ (HA.build S tol ops).modes → ModeOk m → f m = .ok m' → ModeOk m' ∧ m'.a = m.a) →
        (HA.build S tol ops).modMode i f = .ok ha' → (∀ m ∈ ha'.modes, ModeOk m) ∧
          (∀ t ∈ ha'.trans, TransOk ha'.modes t) ∧ ∀ (j : ℕ) (m : Mode K), ha'.modes[j]? = some m →
            m.a.isSome = true → j ∈ (ops ++ [op]).filterMap dynTarget := by
      intro i f ha' hf h
      simp only [HA.modMode, bind_ok, needSome_ok, pure_ok] at h
      obtain ⟨m, h1, m', h2, rfl⟩ := h
      have hm := List.mem_of_getElem? h1
      obtain ⟨k1, k2⟩ := hf m m' hm (i1 m hm) h2
      refine ⟨fun u hu => ?_, fun t ht => (i2 t ht).mono fun j u a hj ha => ?_, fun j u hj hs => ?_⟩
      · rcases List.mem_or_eq_of_mem_set hu with hu | rfl
        · exact i1 u hu
        · exact k1
      · by_cases hij : i = j
        · subst hij
          rw [h1] at hj
          cases hj
          refine ⟨m', ?_, by rw [k2]; exact ha⟩
          rw [List.getElem?_set_self (lt_of_getElem? h1)]
        · exact ⟨u, by rw [List.getElem?_set_ne hij]; exact hj, ha⟩
      · rcases getElem?_set_cases hj with ⟨rfl, rfl⟩ | ⟨-, hj⟩
        · exact i3' i m h1 (by rw [← k2]; exact hs)
        · exact i3' j u hj hs
    cases h : (HA.build S tol ops).apply S tol op with
    | error e => exact ⟨i1, i2, i3'⟩
    | ok ha' =>
      simp only
      cases op with
      | newMode n =>
        simp only [HA.apply, HA.newMode, bind_ok, pure_ok] at h
        obtain ⟨_, -, rfl⟩ := h
        refine ⟨fun m hm => ?_, fun t ht => (i2 t ht).mono fun j u a hj ha => ⟨u, ?_, ha⟩, fun j m hj hs => ?_⟩
        · simp only [List.mem_append, List.mem_singleton] at hm
          rcases hm with hm | rfl
          · exact i1 m hm
          · exact ⟨fun _ => ⟨rfl, rfl⟩, by simp, by simp⟩
        · rw [List.getElem?_append_left (lt_of_getElem? hj)]; exact hj
        · simp only [List.getElem?_append] at hj
          split at hj
          · exact i3' j m hj hs
          · rw [List.getElem?_singleton] at hj
            split at hj
            · cases hj; simp at hs
            · cases hj
      | newTransition s d n =>
        simp only [HA.apply, HA.newTransition, bind_ok, pure_ok] at h
        obtain ⟨_, -, _, _, rfl⟩ := h
        refine ⟨i1, fun t ht => ?_, i3'⟩
        simp only [List.mem_append, List.mem_singleton] at ht
        rcases ht with ht | rfl
        · exact i2 t ht
        · exact ⟨by simp, by simp, by simp, by simp, by simp, by simp, by simp⟩
      | setDynamics i a =>
        obtain ⟨hca, hpos⟩ := hop
        have hnew : i ∉ ops.filterMap dynTarget := by
          have := hops.once
          rw [List.filterMap_append] at this
          intro hi
          exact (List.nodup_append.1 this).2.2 _ hi _ (by simp [dynTarget]) rfl
        simp only [HA.apply, HA.modMode, bind_ok, needSome_ok, pure_ok, Mode.setDynamics, assert_ok] at h
        obtain ⟨m, h1, m', ⟨_, hsq, rfl⟩, rfl⟩ := h
        have hno : m.a = none := by
          cases hma : m.a with
          | none => rfl
          | some b => exact absurd (i3 i m h1 (by rw [hma]; rfl)) hnew
        have hm := i1 m (List.mem_of_getElem? h1)
        obtain ⟨e1, e2⟩ := hm.none_ hno
        refine ⟨fun u hu => ?_, fun t ht => (i2 t ht).mono fun j u b hj hb => ?_, fun j u hj hs => ?_⟩
        · rcases List.mem_or_eq_of_mem_set hu with hu | rfl
          · exact i1 u hu
          · refine ⟨by simp, fun b hb => ?_, fun p hp => ?_⟩
            · simp only [Option.some.injEq] at hb
              subst hb
              exact ⟨hca.wf, hsq.symm, hpos, ⟨by simp [e1], by simp [e1], by simp [e1]⟩⟩
            · simp only [e2] at hp
              cases hp
        · have hij : i ≠ j := by
            rintro rfl
            rw [h1] at hj
            cases hj
            rw [hno] at hb; cases hb
          exact ⟨u, by rw [List.getElem?_set_ne hij]; exact hj, hb⟩
        · rcases getElem?_set_cases hj with ⟨rfl, rfl⟩ | ⟨-, hj⟩
          · simp [dynTarget]
          · exact i3' j u hj hs
      | setInvariant i c rhs =>
        refine mmode (fun m m' _ hm hf => ?_) h
        simp only [Mode.setInvariant, bind_ok, needSome_ok, pure_ok, assert_ok] at hf
        obtain ⟨_, _, a, ha, _, hnc, _, _, f, _, _, _, rfl⟩ := hf
        refine ⟨⟨fun hn => ?_, fun b hb => ?_, hm.inp⟩, rfl⟩
        · simp only at hn
          rw [ha] at hn; cases hn
        · simp only at hb
          rw [ha] at hb; cases hb
          obtain ⟨d1, d2, d3, d4⟩ := hm.dyn a ha
          have hmem : ∀ lc ∈ m.inv ++ (c.rows.zip rhs).map fun p => (⟨c.ncols, p.1, p.2⟩ : LinCon K),
              lc ∈ m.inv ∨ (lc.ncols = c.ncols ∧ lc.row ∈ c.rows) := by
            intro lc hlc
            rcases List.mem_append.1 hlc with hlc | hlc
            · exact .inl hlc
            · obtain ⟨p, hp, rfl⟩ := List.mem_map.1 hlc
              exact .inr ⟨rfl, (List.of_mem_zip hp).1⟩
          refine ⟨d1, d2, d3, fun lc hlc => ?_, fun lc hlc => ?_, fun lc hlc => ?_⟩
          · rcases hmem lc hlc with h | ⟨h, -⟩
            · exact d4.ncols lc h
            · rw [h, hnc]
          · rcases hmem lc hlc with h | ⟨-, h⟩
            · exact d4.lt lc h
            · intro p hp; rw [← hnc]; exact hop.wf _ h p hp
          · rcases hmem lc hlc with h | ⟨-, h⟩
            · exact d4.nodup lc h
            · exact hop.nodup _ h
      | setInputs i b u rhs al =>
        obtain ⟨hb, hpos⟩ := hop
        refine mmode (fun m m' _ hm hf => ?_) h
        simp only [Mode.setInputs, bind_ok, needSome_ok, pure_ok, assert_ok] at hf
        obtain ⟨_, _, a, ha, _, _, rfl⟩ := hf
        refine ⟨⟨fun hn => ?_, fun c hc => ?_, fun p hp => ?_⟩, rfl⟩
        · simp only at hn
          rw [ha] at hn; cases hn
        · obtain ⟨d1, d2, d3, d4⟩ := hm.dyn c hc
          exact ⟨d1, d2, d3, ⟨d4.ncols, d4.lt, d4.nodup⟩⟩
        · simp only [Option.some.injEq] at hp
          subst hp
          exact ⟨hpos, hb.wf⟩
      | setGuard k c rhs =>
        obtain ⟨hc, hne⟩ := hop
        obtain ⟨e1, e2⟩ := modTr_built (fun t t' _ ht hf => by
          obtain ⟨rfl, hl, m, a, h1, h2, h3⟩ := setGuard_ok hf
          refine { ht with guard := fun g hg => ?_ }
          simp only [Option.some.injEq] at hg
          subst hg
          exact ⟨⟨hl, hc.wf, hc.nodup⟩, m, a, h1, h2, h3 (List.length_pos_iff.2 hne)⟩) i2 h
        exact ⟨by rw [e1]; exact i1, e2, by rw [e1]; exact i3'⟩
      | setGuardTrue k =>
        obtain ⟨e1, e2⟩ := modTr_built (fun t t' _ ht hf => by
          simp only [Tr.setGuardTrue, bind_ok, needSome_ok] at hf
          obtain ⟨m, hm, _, _, a, ha, hf⟩ := hf
          obtain ⟨rfl, hl, -⟩ := setGuard_ok hf
          refine { ht with guard := fun g hg => ?_ }
          simp only [Option.some.injEq] at hg
          subst hg
          refine ⟨⟨hl, by intro r hr; simp at hr, by simp⟩, m, a, hm, ha, ?_⟩
          exact ((i1 m (List.mem_of_getElem? hm)).dyn a ha).2.1) i2 h
        exact ⟨by rw [e1]; exact i1, e2, by rw [e1]; exact i3'⟩
      | setReset k r mk c d =>
        obtain ⟨o1, o2, o3, o4⟩ := hop
        obtain ⟨e1, e2⟩ := modTr_built (fun t t' _ ht hf => by
          simp only [Tr.setReset, bind_ok, needSome_ok, pure_ok, assert_ok] at hf
          obtain ⟨src, hs, dst, hd, _, _, a, ha, _, _, _, hnc, _, hnr, M, hM, rfl⟩ := hf
          have hpa := ((i1 src (List.mem_of_getElem? hs)).dyn a ha).2.2.1
          have hpt : 0 < (dst.a.getD a).nrows := by
            cases hda : dst.a with
            | none => simpa using hpa
            | some b => simpa using ((i1 dst (List.mem_of_getElem? hd)).dyn b hda).2.2.1
          have hmk : ∀ N, M = some N → N.WF ∧ (∀ cc, c = some cc → cc.ncols = N.ncols) ∧ ∃ w, (c.getD ⟨0, []⟩).le w (d.getD []) := by
            intro N hN
            subst hN
            unfold checkMink at hM
            cases hdd : d with
            | none =>
              rw [hdd] at hM
              simp only [Except.ok.injEq] at hM
              rw [o4 hdd] at hM; cases hM
            | some rhs =>
              rw [hdd] at hM
              simp only [bind_ok, assert_ok, needSome_ok, pure_ok, Option.some.injEq] at hM
              obtain ⟨_, _, cc, hcc, _, _, _, _, _, hnn, _, hfe, _, hf, rfl⟩ := hM
              refine ⟨?_, fun cc' h' => ?_, ?_⟩
              · cases hmk : mk with
                | none => simp only [Option.getD_none]; exact id_wf _
                | some N => simp only [Option.getD_some]; exact (o2 N hmk).wf
              · rw [hcc] at h'; cases h'; exact hnn.symm
              · subst hf
                rw [hcc]
                exact ((isFeasibleCsr_spec hS hfe).1 rfl)
          refine { guard := ht.guard, resetNe := fun R hR => ?_, noReset := fun hn => by simp at hn,
                   minkWF := fun N hN => (hmk N hN).1, minkCWF := fun N hN => (o3 N hN).wf,
                   minkDims := fun N cc hN hcc => (hmk N hN).2.1 cc hcc,
                   minkNe := fun N hN => (hmk N hN).2.2 }
          simp only [Option.some.injEq] at hR
          subst hR
          refine ⟨fun he => ?_, ?_⟩
          · have : (r.getD (Csr.id a.nrows)).nrows = 0 := by
              show (r.getD (Csr.id a.nrows)).rows.length = 0
              rw [he]; rfl
            omega
          · cases hr : r with
            | none => simp only [Option.getD_none]; exact id_wf _
            | some R => simp only [Option.getD_some]; exact (o1 R hr).wf) i2 h
        exact ⟨by rw [e1]; exact i1, e2, by rw [e1]; exact i3'⟩

end Hylaa
