import Verif.Proofs.CorePop

/-! The invariant after `setup`. -/

set_option linter.unusedSectionVars false

namespace Hylaa
open Spec
variable {K : Type} [Field K] [LinearOrder K] [IsStrictOrderedRing K] [JumpAt K]

/-- The points of the initial sets. -/
def InitSet (l : List (SS K)) (i : ℕ) (x : ℕ → K) : Prop := ∃ st ∈ l, st.mode = i ∧ st.lp.Mem x

/-- An initial set as the user builds it: a new state set of a non-error mode. -/
structure InitOk (E : Env K) (st : SS K) : Prop where
  entry : st.Entry E
  steps : st.steps.1 = 0
  mode : ∃ m, E.ha.modes[st.mode]? = some m ∧ m.isError = false
  lo : E.chullOn → st.lp.NoLo

/-- While the initial sets are processed. -/
structure Setup (E : Env K) (X0 : ℕ → (ℕ → K) → Prop) (σ : Core K) (gh : Ghost K) : Prop where
  eq : σ = { states := σ.states, ops := σ.ops, waiting := List.range σ.ops.length }
  len : σ.states.length = σ.ops.length
  op : ∀ (o : ℕ) op, σ.ops[o]? = some op → op.parent = none ∧ op.child = none ∧ op.post = o
  mode : ∀ (o : ℕ) op, σ.ops[o]? = some op → ∃ m, E.ha.modes[gh.M o]? = some m ∧ m.isError = false
  fresh : ∀ (o : ℕ) op, σ.ops[o]? = some op → ∃ st, σ.states[o]? = some st ∧ FreshSt E gh o op st
  pend : ∀ i x m, X0 i x → E.ha.modes[i]? = some m → InvEps 0 m x →
    ∃ o < σ.ops.length, gh.G o x 0 ∧ gh.M o = i

theorem Setup.body {E : Env K} {X0 : ℕ → (ℕ → K) → Prop} {σ : Core K} {gh : Ghost K}
    (h : Setup E X0 σ gh) : Idle E X0 σ gh := by
  have hn : σ.nodes = [] := by rw [h.eq]
  have hw : σ.waiting = List.range σ.ops.length := by rw [h.eq]
  have hnn : ∀ (ν : ℕ) nd, σ.nodes[ν]? = some nd → False := by
    intro ν nd hν; rw [hn] at hν; simp at hν
  refine ⟨⟨?_, ?_, ?_, ?_, ?_, ?_, ?_, ?_, ?_, ?_, ?_, ?_, ?_, ?_, ?_, ?_, ?_, ?_, ?_, ?_, ?_, ?_, ?_,
    ?_, ?_, ?_, ?_⟩, by rw [h.eq], by rw [h.eq], by rw [h.eq], by rw [h.eq]⟩
  · rw [h.eq]; rintro (hf | ⟨hf, -⟩) <;> cases hf
  · intro i m u _ _ hu
    rw [h.eq] at hu; cases hu
  · intro o op ho
    rw [(h.op o op ho).2.2, h.len]; exact lt_of_getElem? ho
  · intro o op ν ho hp; rw [(h.op o op ho).1] at hp; cases hp
  · intro o op ν ho hp; rw [(h.op o op ho).2.1] at hp; cases hp
  · intro o op ν ho hp; rw [(h.op o op ho).1] at hp; cases hp
  · intro ν nd hν; exact (hnn ν nd hν).elim
  · intro ν nd hν; exact (hnn ν nd hν).elim
  · intro ν nd p hν; exact (hnn ν nd hν).elim
  · intro ν nd p op hν; exact (hnn ν nd hν).elim
  · intro _ ν nd p q op oq hν; exact (hnn ν nd hν).elim
  · intro ν nd hν; exact (hnn ν nd hν).elim
  · intro ν nd o hν; exact (hnn ν nd hν).elim
  · intro ν nd a hν; exact (hnn ν nd hν).elim
  · intro ν nd hν; exact (hnn ν nd hν).elim
  · intro o o' op op' ho ho' he
    rw [(h.op o op ho).2.2, (h.op o' op' ho').2.2] at he; exact he
  · intro ν μ nd md hν; exact (hnn ν nd hν).elim
  · intro o op ν nd _ _ hν; exact (hnn ν nd hν).elim
  · intro o op ho _
    obtain ⟨st, h1, h2⟩ := h.fresh o op ho
    exact ⟨st, by rw [(h.op o op ho).2.2]; exact h1, h2⟩
  · intro o op ν nd ti ho hp; rw [(h.op o op ho).1] at hp; cases hp
  · intro ν nd _ hν; exact (hnn ν nd hν).elim
  · intro o ho
    rw [hw, List.mem_range] at ho
    exact ⟨_, List.getElem?_eq_getElem ho, (h.op o _ (List.getElem?_eq_getElem ho)).2.1⟩
  · rw [hw]; exact List.nodup_range
  · intro o ho; simp at ho
  · intro o ho op st m hop _ hm he
    obtain ⟨m', h1, h2⟩ := h.mode o op hop
    rw [hm] at h1; cases h1
    rw [he] at h2; cases h2
  · refine ⟨fun o ho op ν hop hp => ?_, by simp, by simp⟩
    rw [(h.op o op hop).1] at hp; cases hp
  · rintro B hT ⟨i, x, m, h1, h2, h3, h4⟩
    obtain ⟨o, ho, hg, hm⟩ := h.pend i x m h1 h2 h3
    exact ⟨o, x, 0, hg, by rw [hm]; exact h4, .inl (by rw [hw, List.mem_range]; exact ho)⟩

theorem SS.Ok.absorb {m : Mode K} {d : Dyn K} (hd : d.For m) {X : (ℕ → K) → Prop} {ε : K}
    {hi : Prop} {st : SS K} (h : st.Ok m d X ε hi 1) (h0 : st.stepIn = 0) :
    ({ st with invRows := m.inv.map fun _ => none } : SS K).Ok m d
      (fun x => X x ∧ InvEps 0 m x) ε False 0 := by
  obtain ⟨⟨ρ, h1, h2, -⟩, h4⟩ := h
  refine ⟨⟨ρ, ⟨h1.repr, h1.obj, ?_, h1.lgg, h1.basis, h1.n, h1.B, h1.Ns, h1.ies, h1.m⟩,
    fun y v hx ha _ => h2 y v hx.1 ha fun j hj => ?_, fun hf => hf.elim⟩, by simp⟩
  · intro i r hr
    simp only [List.getElem?_map] at hr
    cases hq : m.inv[i]? <;> rw [hq] at hr <;> cases hr
  · obtain rfl : j = 0 := by omega
    obtain ⟨w, -, f2, -⟩ := (flow_iff (m := m) (ε := 0) hd.laws hd.wf 0 y y).1 (.zero fun _ _ => rfl)
    have := (InvEps.congr hd.wf (ε := 0) (x := y) (z := d.val 0 y w) f2).1 hx.2
    have he : d.val 0 y w = d.val 0 y fun _ _ => 0 := by
      funext i
      unfold Dyn.val
      cases hN : d.nmat with
      | none => rw [Dyn.iesTo_none hN]; simp [inSum]
      | some N => simp [Dyn.iesTo, hN, inSum]
    rw [← he]; exact this

theorem setupStates_spec {E : Env K} (hE : E.OkJ) : ∀ (l : List (SS K)) {X0 : ℕ → (ℕ → K) → Prop}
    {σ σ' : Core K} {gh : Ghost K}, (∀ st ∈ l, InitOk E st) → Setup E X0 σ gh →
    setupStates E σ l = .ok σ' →
    ∃ gh', Setup E (fun i x => X0 i x ∨ InitSet l i x) σ' gh'
  | [], X0, σ, σ', gh, _, hS, h => by
    cases h
    refine ⟨gh, ⟨hS.eq, hS.len, hS.op, hS.mode, hS.fresh, ?_⟩⟩
    rintro i x m (h1 | ⟨st, h1, -⟩) h2 h3
    · exact hS.pend i x m h1 h2 h3
    · simp at h1
  | st :: l, X0, σ, σ', gh, hl, hS, h => by
    have hst := hl st (by simp)
    have hl' : ∀ st ∈ l, InitOk E st := fun s hs => hl s (by simp [hs])
    simp only [setupStates, bind_ok, needSome_ok] at h
    obtain ⟨m, hm, ⟨lp1, f⟩, hf, h⟩ := h
    obtain ⟨m', hm', herr⟩ := hst.mode
    rw [hm] at hm'; cases hm'
    obtain ⟨hk, hko, hkf⟩ := isFeasible_spec hE.honest hf hst.entry.obj
    have drop : (∀ x, InvEps 0 m x → ¬ st.lp.Mem x) → setupStates E σ l = .ok σ' →
        ∃ gh', Setup E (fun i x => X0 i x ∨ InitSet (st :: l) i x) σ' gh' := by
      intro hno h
      obtain ⟨gh', hS'⟩ := setupStates_spec hE l hl' hS h
      refine ⟨gh', ⟨hS'.eq, hS'.len, hS'.op, hS'.mode, hS'.fresh, ?_⟩⟩
      rintro i x m2 (h1 | ⟨s, h1, h2, h3⟩) hm2 hi
      · exact hS'.pend i x m2 (.inl h1) hm2 hi
      · rcases List.mem_cons.1 h1 with rfl | h1
        · rw [h2] at hm
          rw [hm] at hm2; cases hm2
          exact (hno x hi h3).elim
        · exact hS'.pend i x m2 (.inr ⟨s, h1, h2, h3⟩) hm2 hi
    simp only at h
    split at h
    · rename_i hff
      refine drop (fun x _ hx => ?_) h
      obtain ⟨v, hv, -⟩ := hx
      have := hkf.2 ⟨v, hv⟩
      rw [hff] at this; cases this
    · simp only [bind_ok] at h
      obtain ⟨⟨st1, f1, qs⟩, hii, h⟩ := h
      obtain ⟨-, k3⟩ := hst.entry.ok m hm herr
      have k4 : ({ st with lp := lp1 } : SS K).Ok m (E.dyn st.mode) st.lp.Mem E.T.inter True 0 :=
        k3.withLp hk hko
      obtain ⟨a1, -, a3, a4⟩ := k4.intersectInvariant hE.honest hE.tol (hE.dynFor _ _ hm herr)
        (hE.plain _ _ hm herr) (by omega) hii
      have hz : st.stepIn = 0 := hst.entry.zero
      simp only at h
      split at h
      · rename_i hff
        refine drop (fun x hi hx => ?_) h
        refine a4 hff x x hx ?_ hi
        simp only [hz]
        exact .zero fun _ _ => rfl
      · have hmode : st1.mode = st.mode := by rw [a1]
        have hz1 : st1.stepIn = 0 := by rw [a1]; exact hz
        have a3' : st1.Ok m (E.dyn st.mode) st.lp.Mem E.T.inter
          (True ∧ (st.stepIn ≤ 0 ∨ m.inv = [])) 1 := by
          have : st.stepIn + 1 = 1 := by omega
          rw [← this]; exact a3
        have hab := a3'.absorb (hE.dynFor _ _ hm herr) hz1
        have hlen := hS.len
        -- the new ghost
        have hS1 : Setup E (fun i x => X0 i x ∨ (i = st.mode ∧ st.lp.Mem x))
            { σ with
              ops := σ.ops ++ [{ step := 0, parent := none, child := none, trans := none,
                                 post := σ.states.length }]
              states := σ.states ++ [{ st1 with invRows := m.inv.map fun _ => none }]
              waiting := σ.waiting ++ [σ.ops.length] }
            (gh.addOp σ.ops.length (fun x n => n = 0 ∧ st.lp.Mem x ∧ InvEps 0 m x) st.mode) := by
          have hold : ∀ o < σ.ops.length,
              (gh.addOp σ.ops.length (fun x n => n = 0 ∧ st.lp.Mem x ∧ InvEps 0 m x) st.mode).G o = gh.G o ∧
              (gh.addOp σ.ops.length (fun x n => n = 0 ∧ st.lp.Mem x ∧ InvEps 0 m x) st.mode).M o = gh.M o := by
            intro o ho
            unfold Ghost.addOp
            simp only
            rw [Function.update_of_ne (by omega), Function.update_of_ne (by omega)]
            exact ⟨rfl, rfl⟩
          have hnew : (gh.addOp σ.ops.length (fun x n => n = 0 ∧ st.lp.Mem x ∧ InvEps 0 m x) st.mode).G
                σ.ops.length = (fun x n => n = 0 ∧ st.lp.Mem x ∧ InvEps 0 m x) ∧
              (gh.addOp σ.ops.length (fun x n => n = 0 ∧ st.lp.Mem x ∧ InvEps 0 m x) st.mode).M
                σ.ops.length = st.mode := by
            unfold Ghost.addOp
            simp only [Function.update_self]
            exact ⟨trivial, trivial⟩
          refine ⟨?_, by simp [hlen], ?_, ?_, ?_, ?_⟩
          · rw [hS.eq]
            simp [List.range_succ]
          · intro o op ho
            rcases append_inv ho with ⟨ho, -⟩ | ⟨rfl, rfl⟩
            · exact hS.op o op ho
            · exact ⟨rfl, rfl, hlen⟩
          · intro o op ho
            rcases append_inv ho with ⟨ho, -⟩ | ⟨rfl, rfl⟩
            · rw [(hold o (lt_of_getElem? ho)).2]; exact hS.mode o op ho
            · rw [hnew.2]; exact ⟨m, hm, herr⟩
          · intro o op ho
            rcases append_inv ho with ⟨ho, -⟩ | ⟨rfl, rfl⟩
            · obtain ⟨s, h1, h2⟩ := hS.fresh o op ho
              refine ⟨s, append_keep h1, ?_⟩
              obtain ⟨e1, e2⟩ := hold o (lt_of_getElem? ho)
              exact ⟨h2.zero, by rw [e2]; exact h2.mode, by rw [e1]; exact h2.time,
                by rw [e1]; exact h2.init, by rw [e1]; exact h2.entry, h2.lo, h2.initMode⟩
            · refine ⟨{ st1 with invRows := m.inv.map fun _ => none },
                by rw [← hlen]; exact List.getElem?_concat_length .., hz1, ?_, ?_, ?_, ?_, ?_,
                fun _ => ⟨m, (congrArg (fun i => E.ha.modes[i]?) hmode).trans hm, herr⟩⟩
              · rw [hnew.2]; exact hmode
              · intro x n hx
                show st1.steps.1 ≤ n
                have : st1.steps = st.steps := by rw [a1]
                rw [this, hst.steps]; omega
              · intro _ m2 hm2 _
                have hm2' : E.ha.modes[st1.mode]? = some m2 := hm2
                rw [hmode, hm] at hm2'; cases hm2'
                rw [hnew.1]
                show SS.Ok m (E.dyn st1.mode) _ _ _ _ _
                rw [show E.dyn st1.mode = E.dyn st.mode by rw [hmode]]
                refine hab.anti ?_
                rintro x ⟨n, -, hx⟩; exact hx
              · intro hp; exact absurd rfl hp
              · intro hch
                have hlo1 : lp1.NoLo := by
                  have := hst.lo hch
                  unfold Sys.NoLo at this ⊢
                  rw [hk]; exact this
                have := invLoop_noLo (st := { st with lp := lp1 }) (st' := st1) _ hlo1 hii
                exact this
          · rintro i x m2 (h1 | ⟨rfl, h2⟩) hm2 hi
            · obtain ⟨o, q1, q2, q3⟩ := hS.pend i x m2 h1 hm2 hi
              obtain ⟨e1, e2⟩ := hold o q1
              exact ⟨o, by simp; omega, by rw [e1]; exact q2, by rw [e2]; exact q3⟩
            · rw [hm] at hm2; cases hm2
              exact ⟨σ.ops.length, by simp, by rw [hnew.1]; exact ⟨rfl, h2, hi⟩, hnew.2⟩
        obtain ⟨gh', hS'⟩ := setupStates_spec hE l hl' hS1 h
        refine ⟨gh', ⟨hS'.eq, hS'.len, hS'.op, hS'.mode, hS'.fresh, ?_⟩⟩
        rintro i x m2 (h1 | ⟨s, h1, h2, h3⟩) hm2 hi
        · exact hS'.pend i x m2 (.inl (.inl h1)) hm2 hi
        · rcases List.mem_cons.1 h1 with rfl | h1
          · exact hS'.pend i x m2 (.inl (.inr ⟨h2.symm, h3⟩)) hm2 hi
          · exact hS'.pend i x m2 (.inr ⟨s, h1, h2, h3⟩) hm2 hi

theorem setup_spec {E : Env K} (hE : E.OkJ) {init : List (SS K)} {σ : Core K}
    (hi : ∀ st ∈ init, InitOk E st) (h : setup E init = .ok σ) : ∃ gh, Idle E (InitSet init) σ gh := by
  simp only [setup, bind_ok, assert_ok, need_ok, pure_ok] at h
  obtain ⟨_, -, σ1, h1, _, -, rfl⟩ := h
  have h0 : Setup E (fun _ _ => False) ({} : Core K) ⟨fun _ _ _ => False, fun _ => 0, fun _ => 0⟩ := by
    refine ⟨rfl, rfl, ?_, ?_, ?_, ?_⟩ <;> intros <;> simp_all
  obtain ⟨gh, hS⟩ := setupStates_spec hE init hi h0 h1
  have hS' : Setup E (InitSet init) σ1 gh :=
    ⟨hS.eq, hS.len, hS.op, hS.mode, hS.fresh, fun i x m hx => hS.pend i x m (.inr hx)⟩
  exact ⟨gh, hS'.body⟩

end Hylaa
