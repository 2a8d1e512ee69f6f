import Verif.Proofs.CoreSetup

/-! The invariant of the main loop without deaggregation. -/

set_option linter.unusedSectionVars false

namespace Hylaa
open Spec
variable {K : Type} [Field K] [LinearOrder K] [IsStrictOrderedRing K] [JumpAt K]

theorem checkGuards_le {E : Env K} {σ σ' : Core K} (h : checkGuards E σ = .ok σ') : FlagLe σ σ' := by
  simp only [checkGuards, bind_ok, needSome_ok] at h
  obtain ⟨c, -, st, -, ts, -, h⟩ := h
  exact guardLoop_le ts h

theorem initReplay_le {σ : Core K} {i : Core K × Replay} (h : initReplay σ = .ok i) : FlagLe σ i.1 := by
  unfold initReplay at h
  split at h
  · cases h; exact FlagLe.refl _
  · cases h; exact ⟨id, id⟩
  · cases h

theorem replayTr_le {E : Env K} {σ : Core K} {kid oid : ℕ} {t : List ((ℕ × ℕ) × List ℕ)}
    {r : Core K × List ((ℕ × ℕ) × List ℕ)} (h : replayTr E σ kid oid t = .ok r) : FlagLe σ r.1 := by
  simp only [replayTr, bind_ok, needSome_ok] at h
  obtain ⟨n, -, o, -, σ1, h1, st, -, ti, -, tr, -, g, -, ⟨lp, tl⟩, -, h⟩ := h
  have l1 := stepState_le h1
  simp only at h
  split at h
  · cases h; exact ⟨l1.1, l1.2⟩
  · simp only [bind_ok, needSome_ok, pure_ok] at h
    obtain ⟨dst, -, ce, -, ⟨σ2, q⟩, h2, rfl⟩ := h
    have l2 := makeOp_le h2
    have l3 : FlagLe σ1 (if dst.isError = true then
        (σ1.setState n.state { st with lp := lp }).errorReached st.concrete ce
        else σ1.setState n.state { st with lp := lp }) := by
      split
      · have := errorReached_le (σ1.setState n.state { st with lp := lp }) st.concrete ce
        exact ⟨this.1, this.2⟩
      · exact ⟨id, id⟩
    have l4 : FlagLe σ σ2 := ⟨fun x => by rw [l2.1]; exact (l1.trans l3).1 x, fun x => by rw [l2.2]; exact (l1.trans l3).2 x⟩
    split
    · exact l4
    · split
      · exact ⟨l4.1, l4.2⟩
      · exact ⟨l4.1, l4.2⟩

theorem replayInv_le {E : Env K} {σ σ' : Core K} {kid s i : ℕ} (h : replayInv E σ kid s i = .ok σ') :
    FlagLe σ σ' := by
  simp only [replayInv, bind_ok, needSome_ok] at h
  obtain ⟨n, -, σ1, h1, st, -, m, -, lc, -, ⟨lp, r⟩, -, h⟩ := h
  have l1 := stepState_le h1
  simp only at h
  split at h
  · cases h; exact ⟨l1.1, l1.2⟩
  · cases h; exact ⟨l1.1, l1.2⟩
  · simp only [bind_ok, pure_ok] at h
    obtain ⟨q, -, f, -, rfl⟩ := h
    split
    · exact ⟨l1.1, l1.2⟩
    · exact ⟨l1.1, l1.2⟩

theorem replayOp_le {E : Env K} {σ : Core K} {kid : ℕ} {o : NOp} {t : List ((ℕ × ℕ) × List ℕ)}
    {r : Core K × List ((ℕ × ℕ) × List ℕ)} (h : replayOp E σ kid o t = .ok r) : FlagLe σ r.1 := by
  simp only [replayOp, bind_ok, needSome_ok] at h
  obtain ⟨n, -, h⟩ := h
  split at h
  · cases h; exact FlagLe.refl _
  · split at h
    · cases h; exact ⟨id, id⟩
    · exact replayTr_le h
    · simp only [bind_ok, pure_ok] at h
      obtain ⟨σ1, h1, rfl⟩ := h
      exact replayInv_le h1

theorem replayKids_le {E : Env K} {o : NOp} : ∀ (kids : List ℕ) {σ : Core K}
    {t : List ((ℕ × ℕ) × List ℕ)} {r : Core K × List ((ℕ × ℕ) × List ℕ)},
    replayKids E o σ kids t = .ok r → FlagLe σ r.1
  | [], σ, t, r, h => by cases h; exact FlagLe.refl _
  | k :: kids, σ, t, r, h => by
    simp only [replayKids, bind_ok] at h
    obtain ⟨q, h1, h⟩ := h
    exact (replayOp_le h1).trans (replayKids_le kids h)

theorem replayLoop_le {E : Env K} {kids : List ℕ} : ∀ (ops : List NOp) {σ : Core K} {cur : ℕ}
    {only lft : Bool} {k : ℕ} {t : List ((ℕ × ℕ) × List ℕ)}
    {r : Core K × (ℕ × Bool × ℕ × List ((ℕ × ℕ) × List ℕ))},
    replayLoop E kids σ ops cur only lft k t = .ok r → FlagLe σ r.1
  | [], σ, cur, only, lft, k, t, r, h => by cases h; exact FlagLe.refl _
  | o :: ops, σ, cur, only, lft, k, t, r, h => by
    simp only [replayLoop, bind_ok] at h
    obtain ⟨s, -, h⟩ := h
    generalize hc : (if (decide (s > cur) && !only) = true then cur + 1 else cur) = c' at h
    generalize ho : (only || (decide (s > cur) && !only)) = o' at h
    split at h
    · cases h; exact FlagLe.refl _
    · split at h
      · cases h; exact FlagLe.refl _
      · simp only [bind_ok] at h
        obtain ⟨q, h1, h⟩ := h
        exact (replayKids_le kids h1).trans (replayLoop_le ops h)

theorem advanceKids_le {E : Env K} {cur : ℕ} {chk : Bool} : ∀ (kids : List ℕ) {σ σ' : Core K},
    advanceKids E cur chk σ kids = .ok σ' → FlagLe σ σ'
  | [], σ, σ', h => by cases h; exact FlagLe.refl _
  | k :: kids, σ, σ', h => by
    simp only [advanceKids, bind_ok, needSome_ok] at h
    obtain ⟨n, -, σ1, h1, h⟩ := h
    refine FlagLe.trans ?_ (advanceKids_le kids h)
    split at h1
    · cases h1; exact FlagLe.refl _
    · simp only [bind_ok, needSome_ok, assert_ok, pure_ok] at h1
      obtain ⟨σ2, h2, st, -, _, -, rfl⟩ := h1
      exact stepState_le h2

theorem finishReplay_le {E : Env K} : ∀ (l : List ((ℕ × ℕ) × List ℕ)) {σ σ' : Core K},
    finishReplay E σ l = .ok σ' → FlagLe σ σ'
  | [], σ, σ', h => by cases h; exact FlagLe.refl _
  | ((a, c), ops) :: l, σ, σ', h => by
    simp only [finishReplay, bind_ok, needSome_ok] at h
    obtain ⟨n, -, st, -, ⟨σ1, ν⟩, h1, h⟩ := h
    have l1 := makeNode_le h1
    have l2 := finishReplay_le l h
    exact ⟨fun x => l2.1 (l1.1 x), fun x => l2.2 (l1.2 x)⟩

theorem splitNode_le {E : Env K} {σ : Core K} {nid : ℕ} {r : Core K × (ℕ × ℕ)}
    (h : splitNode E σ nid = .ok r) : FlagLe σ r.1 := by
  simp only [splitNode, bind_ok, needSome_ok, assert_ok, pure_ok] at h
  obtain ⟨n, -, _, -, st, -, ⟨σ1, a⟩, h1, ⟨σ2, b⟩, h2, rfl⟩ := h
  exact (makeNode_le h1).trans (makeNode_le h2)

theorem beginReplay_le {E : Env K} {σ σ' : Core K} {nid : ℕ} (h : beginReplay E σ nid = .ok σ') :
    FlagLe σ σ' := by
  simp only [beginReplay, bind_ok, pure_ok] at h
  obtain ⟨rm, -, r, h1, rfl⟩ := h
  have l1 := splitNode_le h1
  exact ⟨l1.1, l1.2⟩

theorem stepReplay_le {E : Env K} {σ σ' : Core K} (h : stepReplay E σ = .ok σ') : FlagLe σ σ' := by
  simp only [stepReplay, bind_ok, needSome_ok] at h
  obtain ⟨i, hi, pn, -, o, -, s, -, q, hq, σ1, h1, h⟩ := h
  have l := ((initReplay_le hi).trans (replayLoop_le _ hq)).trans (advanceKids_le _ h1)
  split at h
  · have := finishReplay_le _ h
    exact ⟨fun x => this.1 (l.1 x), fun x => this.2 (l.2 x)⟩
  · cases h; exact ⟨l.1, l.2⟩

/-- Errors once found stay found. -/
theorem doStep_le {E : Env K} {σ σ' : Core K} (h : doStep E σ = .ok σ') : FlagLe σ σ' := by
  unfold doStep at h
  split at h
  · cases h; exact FlagLe.refl _
  split at h
  · exact stepPost_le h
  split at h
  · exact stepReplay_le h
  · simp only [bind_ok] at h
    obtain ⟨d, -, h⟩ := h
    split at h
    · simp only [bind_ok] at h
      obtain ⟨σ1, h1, h⟩ := h
      exact (beginReplay_le h1).trans (stepReplay_le h)
    · simp only [bind_ok] at h
      obtain ⟨σ1, h1, h⟩ := h
      refine (stepPop_le h1).trans ?_
      split at h
      · exact checkGuards_le h
      · cases h; exact FlagLe.refl _

theorem getDeagg_off {E : Env K} (hd : ¬ E.deaggOn) (σ : Core K) : getDeaggNode E σ = .ok none := by
  unfold getDeaggNode
  cases hs : E.set.strat with
  | none => rfl
  | some s =>
    have : s.deagg = false := by
      by_contra hc
      exact hd ⟨s, hs, by simpa using hc⟩
    simp [this]

/-- Between rounds of the main loop. -/
def Good (E : Env K) (X0 : ℕ → (ℕ → K) → Prop) (σ : Core K) : Prop :=
  Flag E σ ∨ ∃ gh, Running E X0 σ gh ∨ Idle E X0 σ gh

theorem Running.cur {E : Env K} {X0 : ℕ → (ℕ → K) → Prop} {σ : Core K} {gh : Ghost K}
    (h : Running E X0 σ gh) : σ.curState.isSome := by
  obtain ⟨ν, nd, st, c, h1, -⟩ := h
  rw [curState_eq h1.cur h1.ready.node h1.ready.noLeft]; rfl

theorem Running.flag {E : Env K} {X0 : ℕ → (ℕ → K) → Prop} {σ : Core K} {gh : Ghost K}
    (h : Running E X0 σ gh) : ¬ Flag E σ := by
  obtain ⟨ν, nd, st, c, h1, -⟩ := h
  exact h1.body.noFlag

/-- The loop may only stop early if an error was found. -/
theorem isFinished_early {E : Env K} {σ : Core K} (h : σ.isFinished E = true) (hf : ¬ Flag E σ) :
    σ.curState = none ∧ σ.waiting = [] ∧ σ.doingReplay = false := by
  unfold Core.isFinished at h
  split at h
  · rename_i hs
    simp only [Bool.and_eq_true] at hs
    exact (hf (.inr ⟨hs.2, .inl hs.1⟩)).elim
  · split at h
    · rename_i hs
      simp only [Bool.and_eq_true] at hs
      exact (hf (.inl hs.2)).elim
    · simp only [Bool.and_eq_true, Option.isNone_iff_eq_none, List.isEmpty_iff, Bool.not_eq_true'] at h
      exact ⟨h.1.1, h.1.2, h.2⟩

theorem Idle.safe {E : Env K} {X0 : ℕ → (ℕ → K) → Prop} {σ : Core K} {gh : Ghost K}
    (h : Idle E X0 σ gh) (hw : σ.waiting = []) : E.hybJ.Safe X0 := by
  intro i x n m hr hm
  by_contra hc
  obtain ⟨o, y, k, -, -, h3⟩ := h.body.pend _ (Bad.tracked _) (Bad.of_reach hr (.err hm (by simpa using hc)))
  rw [hw] at h3
  simp at h3

theorem Good.safe {E : Env K} {X0 : ℕ → (ℕ → K) → Prop} {σ : Core K} (h : Good E X0 σ)
    (hf : σ.isFinished E = true) (hn : ¬ Flag E σ) : E.hybJ.Safe X0 := by
  obtain ⟨a, b, -⟩ := isFinished_early hf hn
  rcases h with h | ⟨gh, h | h⟩
  · exact (hn h).elim
  · have := h.cur
    rw [a] at this; cases this
  · exact h.safe b

theorem doStep_spec_off {E : Env K} (hE : E.OkJ) (hd : ¬ E.deaggOn) {X0 : ℕ → (ℕ → K) → Prop}
    {σ σ' : Core K} (h : Good E X0 σ) (hf1 : E.NoTt ∨ σ.TtFresh E) (hf2 : E.NoTt ∨ σ'.TtFresh E)
    (hs : doStep E σ = .ok σ') : Good E X0 σ' := by
  have hsp : E.SamePath := fun s h1 h2 => (hd ⟨s, h1, h2⟩).elim
  rcases h with h | ⟨gh, h⟩
  · exact .inl ((doStep_le hs).flag h)
  unfold doStep at hs
  split at hs
  · cases hs; exact .inr ⟨gh, h⟩
  split at hs
  · rename_i hcs
    rcases h with h | h
    · exact stepPost_spec hE h hf1 hf2 hs
    · unfold Core.curState at hcs
      rw [h.cur] at hcs; cases hcs
  rename_i hcs
  have hI : Idle E X0 σ gh := h.resolve_left fun hr => hcs hr.cur
  split at hs
  · rename_i hdr
    unfold Core.doingReplay at hdr
    rw [hI.queue, hI.rep] at hdr; cases hdr
  · rw [getDeagg_off hd] at hs
    simp only [bind_ok] at hs
    obtain ⟨dg, hdg, hs⟩ := hs
    cases hdg
    simp only [bind_ok] at hs
    obtain ⟨σ1, h1, h2⟩ := hs
    refine stepPop_spec hE hsp hI (fun o ho m hm => ?_) h1 h2
    by_contra hc
    obtain ⟨op, ho1, ho2⟩ := hI.body.wait o ho
    obtain ⟨st, q1, -⟩ := hI.body.fresh o op ho1 (.inl ho2)
    exact hd (hI.body.waitErr o ho op st m ho1 q1 hm (by simpa using hc)).1

/-- After each of the next `n` rounds the flag of a time-triggered transition belongs to the current
state set, and this is not at the time bound. -/
def Core.TtFreshFor (E : Env K) (n : ℕ) (σ : Core K) : Prop :=
  ∀ k ≤ n, ∀ σk, runSteps E k σ = .ok σk → σk.TtFresh E

theorem Core.TtFreshFor.now {E : Env K} {n : ℕ} {σ : Core K} (h : E.NoTt ∨ σ.TtFreshFor E n) :
    E.NoTt ∨ σ.TtFresh E :=
  h.imp id fun h => h 0 (Nat.zero_le _) σ rfl

theorem Core.TtFreshFor.next {E : Env K} {n : ℕ} {σ σ1 : Core K} (h : E.NoTt ∨ σ.TtFreshFor E (n + 1))
    (h1 : doStep E σ = .ok σ1) : E.NoTt ∨ σ1.TtFreshFor E n :=
  h.imp id fun h k hk σk hr => h (k + 1) (by omega) σk (by simp only [runSteps, h1]; exact hr)

theorem runSteps_off {E : Env K} (hE : E.OkJ) (hd : ¬ E.deaggOn) {X0 : ℕ → (ℕ → K) → Prop} :
    ∀ (n : ℕ) {σ σ' : Core K}, Good E X0 σ → (E.NoTt ∨ σ.TtFreshFor E n) → runSteps E n σ = .ok σ' →
      Good E X0 σ'
  | 0, σ, σ', h, hf, hr => by cases hr; exact h
  | n + 1, σ, σ', h, hf, hr => by
    simp only [runSteps, bind_ok] at hr
    obtain ⟨σ1, h1, h2⟩ := hr
    have hf' := Core.TtFreshFor.next hf h1
    exact runSteps_off hE hd n (doStep_spec_off hE hd h (Core.TtFreshFor.now hf)
      (Core.TtFreshFor.now hf') h1) hf' h2

end Hylaa
