import Verif.Proofs.Term2

/-! Termination with deaggregation: replaying a node. -/

set_option linter.unusedSectionVars false

namespace Hylaa
open Spec
variable {K : Type} [Field K] [LinearOrder K] [IsStrictOrderedRing K] [JumpAt K]

/-- One entry of `nodes_to_ops`; `b`: the budget of the node replayed. -/
structure Ent (σ : Core K) (g : Gt) (b : ℕ) (e : (ℕ × ℕ) × List ℕ) : Prop where
  node : ∃ nd, σ.nodes[e.1.2]? = some nd
  dead : ¬ NLive σ e.1.2
  ne : e.2 ≠ []
  ops : ∀ o ∈ e.2, g.hO o = g.hN e.1.2
  bud : g.hN e.1.2 + 1 = b

/-- The state of a replay of node `p`. -/
structure RS (E : Env K) (ρ : ℕ → ℕ) (σ : Core K) (g : Gt) (p : ℕ) (pn : Node) (kids : List ℕ)
    (toOps : List ((ℕ × ℕ) × List ℕ)) (A : List ℕ) : Prop where
  tree : Tree E ρ σ g (toOps.flatMap fun e => e.2) A
  par : σ.nodes[p]? = some pn
  dead : ¬ NLive σ p
  kids : ∀ k ∈ kids, k ∈ A ∧ g.hN k = g.hN p
  ents : ∀ e ∈ toOps, Ent σ g (g.hN p) e

theorem Ent.fr {σ σ' : Core K} {g g' : Gt} {b b' : ℕ} {T : List ℕ} {e : (ℕ × ℕ) × List ℕ} (h : Ent σ g b e)
    (hf : Fr T b' σ g σ' g') (hlt : ∀ o ∈ e.2, o < σ.ops.length) : Ent σ' g' b e := by
  obtain ⟨nd, hn⟩ := h.node
  obtain ⟨l, a1, -⟩ := hf.node _ _ hn
  refine ⟨⟨_, a1⟩, by rw [hf.live]; exact h.dead, h.ne, fun o ho => ?_, by rw [hf.hN]; exact h.bud⟩
  rw [hf.hO o (hlt o ho), hf.hN]; exact h.ops o ho

theorem RS.heldLt {E : Env K} {ρ : ℕ → ℕ} {σ : Core K} {g : Gt} {p : ℕ} {pn : Node} {kids A : List ℕ}
    {toOps : List ((ℕ × ℕ) × List ℕ)} (h : RS E ρ σ g p pn kids toOps A) {e : (ℕ × ℕ) × List ℕ} (he : e ∈ toOps) :
    ∀ o ∈ e.2, o < σ.ops.length := by
  intro o ho
  obtain ⟨⟨op, a1, -⟩, -⟩ := h.tree.held o (List.mem_flatMap.2 ⟨e, he, ho⟩)
  exact lt_of_getElem? a1

theorem RS.notA {E : Env K} {ρ : ℕ → ℕ} {σ : Core K} {g : Gt} {p : ℕ} {pn : Node} {kids A : List ℕ}
    {toOps : List ((ℕ × ℕ) × List ℕ)} (h : RS E ρ σ g p pn kids toOps A) : p ∉ A :=
  fun hc => h.dead (h.tree.live p (.inl hc))

/-- The same entries, a changed heap. -/
theorem RS.fr {E : Env K} {ρ : ℕ → ℕ} {σ σ' : Core K} {g g' : Gt} {p b : ℕ} {pn : Node} {kids A T : List ℕ}
    {toOps : List ((ℕ × ℕ) × List ℕ)} (h : RS E ρ σ g p pn kids toOps A) (hT : ∀ ν ∈ T, ν ∈ A)
    (hf : Fr T b σ g σ' g') (ht : Tree E ρ σ' g' (toOps.flatMap fun e => e.2) A) :
    RS E ρ σ' g' p pn kids toOps A := by
  refine ⟨ht, ?_, by rw [hf.live]; exact h.dead, fun k hk => by rw [hf.hN]; exact h.kids k hk,
    fun e he => by rw [hf.hN]; exact (h.ents e he).fr hf (h.heldLt he)⟩
  obtain ⟨l, a1, a2⟩ := hf.node p pn h.par
  rw [a1, a2 fun hc => h.notA (hT p hc)]
  simp

theorem RS.soft {E : Env K} {ρ : ℕ → ℕ} {σ σ' : Core K} {g : Gt} {p : ℕ} {pn : Node} {kids A T : List ℕ}
    {toOps : List ((ℕ × ℕ) × List ℕ)} (h : RS E ρ σ g p pn kids toOps A) (hT : ∀ ν ∈ T, ν ∈ A)
    (hs : Soft T σ σ') : RS E ρ σ' g p pn kids toOps A :=
  h.fr hT (hs.fr 0 g) (h.tree.soft hs)

theorem replayInv_soft {E : Env K} {σ σ' : Core K} {kid step idx : ℕ} (h : replayInv E σ kid step idx = .ok σ') :
    Soft [kid] σ σ' ∧ SameCtl σ σ' := by
  simp only [replayInv, bind_ok, needSome_ok] at h
  obtain ⟨n, hn, σ1, h1, st, hst, m, -, lc, -, r, -, h⟩ := h
  obtain ⟨st0, st1, -, s1, c1, -, -⟩ := stepState_soft h1
  have s1 : Soft [kid] σ σ1 := s1.mono (by simp)
  split at h
  · cases h
    refine ⟨(s1.trans (Soft.setState hst (.lp _ _))).trans (Soft.push _ _ rfl), ?_⟩
    exact c1.trans ⟨rfl, rfl, rfl⟩
  · cases h
    exact ⟨s1.trans (Soft.setState hst (.lp _ _)), c1.trans ⟨rfl, rfl, rfl⟩⟩
  · simp only [bind_ok, pure_ok] at h
    obtain ⟨⟨st2, b⟩, h2, f, -, rfl⟩ := h
    have e := addInv_like h2
    have hl : Later st { st2 with lp := f.1 } := by
      have q1 : st2.mode = st.mode := by rw [e]
      have q2 : st2.steps = st.steps := by rw [e]
      have q3 : st2.stepIn = st.stepIn := by rw [e]
      exact ⟨q1, by simp only [q2, q3], by simp only [q3]; exact le_rfl⟩
    have s2 := (s1.trans (Soft.setState hst hl)).trans
      (Soft.push (σ1.setState n.state { st2 with lp := f.1 }) kid (x := .inv step idx b) rfl)
    split
    · exact ⟨s2, c1.trans ⟨rfl, rfl, rfl⟩⟩
    · exact ⟨s2.trans (Soft.push _ _ rfl), c1.trans ⟨rfl, rfl, rfl⟩⟩

theorem replayTr_went {E : Env K} {ρ : ℕ → ℕ} {σ : Core K} {g : Gt} {p : ℕ} {pn : Node} {kids A : List ℕ}
    {toOps : List ((ℕ × ℕ) × List ℕ)} (h : RS E ρ σ g p pn kids toOps A) {kid oid : ℕ} (hk : kid ∈ kids)
    (ho : NOp.tr oid ∈ pn.ops) {r : Core K × List ((ℕ × ℕ) × List ℕ)}
    (hr : replayTr E σ kid oid toOps = .ok r) :
    ∃ g', RS E ρ r.1 g' p pn kids r.2 A ∧ Fr [kid] (g.hN p) σ g r.1 g' ∧ SameCtl σ r.1 := by
  obtain ⟨kA, kN⟩ := h.kids kid hk
  simp only [replayTr, bind_ok, needSome_ok] at hr
  obtain ⟨n, hn, o, hoo, σ1, h1, st, hst, ti, hti, t, ht, gd, -, ⟨lp, tl⟩, -, hr⟩ := hr
  obtain ⟨st0, st1, q1, s1, c1, n1, q2, q3, q4, q5⟩ := stepState_soft h1
  rw [hst] at q2; cases q2
  simp only at hr
  have s2 : Soft [] σ (σ1.setState n.state { st with lp := lp }) := s1.trans (.setState hst (.lp _ _))
  have c2 : SameCtl σ (σ1.setState n.state { st with lp := lp }) := c1.trans ⟨rfl, rfl, rfl⟩
  obtain ⟨op', ho1, hpar⟩ := h.tree.ndOps p pn oid h.par ho
  rw [hoo] at ho1; cases ho1
  have hbud := (h.tree.opPar oid o p hoo hpar).2
  split at hr
  · cases hr
    exact ⟨g, h.soft (by simp) s2, (s2.fr _ _).mono (by simp), c2⟩
  · simp only [bind_ok, needSome_ok, pure_ok] at hr
    obtain ⟨dst, -, ce, -, ⟨σ3, q⟩, hmk, rfl⟩ := hr
    generalize hσ2 : (if dst.isError = true then
        (σ1.setState n.state { st with lp := lp }).errorReached st.concrete ce
        else σ1.setState n.state { st with lp := lp }) = σ2 at hmk
    have k2 : Soft [] σ σ2 ∧ SameCtl σ σ2 ∧ σ2.states[n.state]? = some { st with lp := lp } ∧ σ2.nodes = σ.nodes := by
      have hs : (σ1.setState n.state { st with lp := lp }).states[n.state]? = some { st with lp := lp } :=
        List.getElem?_set_self (lt_of_getElem? hst)
      rw [← hσ2]
      split
      · refine ⟨s2.trans (errorReached_soft _ _ _).1, c2.trans (errorReached_soft _ _ _).2, ?_, ?_⟩
        · rw [← hs]; unfold Core.errorReached; split <;> rfl
        · rw [← n1]; unfold Core.errorReached; split <;> rfl
      · exact ⟨s2, c2, hs, n1⟩
    obtain ⟨s3, c3, e3, n3⟩ := k2
    have r3 := h.soft (by simp) s3
    have f3 : Fr [kid] (g.hN p) σ g σ2 g := (s3.fr _ _).mono (by simp)
    have hoo2 : σ2.ops[oid]? = some o := by rw [s3.ops]; exact hoo
    have hn2 : σ2.nodes[kid]? = some n := by rw [n3]; exact hn
    rcases makeOp_went r3.tree kA hn2 e3 ht (fun hu => by
        show 1 ≤ st.stepIn
        rw [q4]; exact r3.tree.opStep hu oid o hoo2 (by rw [hpar]; simp)) (by omega) (fun hu => by
        have := r3.tree.opFit hu oid o ti t hoo2 hti ht
        omega) hmk with ⟨rfl, rfl⟩ | ⟨rfl, w1, w2, w3, w4⟩
    · exact ⟨g, r3, f3, c3⟩
    · simp only
      have hkN : g.hN kid = g.hN p := kN
      cases hch : o.child with
      | none =>
        simp only
        obtain ⟨t4, f4, c4⟩ := w4 (σ3.waiting ++ [σ2.ops.length]) _ (.inl ⟨by rw [w2], rfl⟩)
        rw [hkN] at f4
        exact ⟨_, r3.fr (by simpa using kA) f4 (by rw [hkN] at t4; exact t4), f3.trans f4, c3.trans c4⟩
      | some c =>
        simp only
        obtain ⟨t4, f4, c4⟩ := w4 σ3.waiting _ (.inr ⟨w2, rfl⟩)
        rw [hkN] at f4 t4
        have hperm := addToOps_perm (kid, c) σ2.ops.length toOps
        have t5 : Tree E ρ (σ3.pushOp kid (.tr σ2.ops.length)) (g.addOp σ2.ops.length (g.hN p - 1))
            ((addToOps toOps (kid, c) σ2.ops.length).flatMap fun e => e.2) A :=
          t4.mono (fun o ho => hperm.mem_iff.1 ho) (hperm.nodup_iff.2 t4.heldNodup) fun _ h => h
        have t6 := t4.mono (L' := toOps.flatMap fun e => e.2) (fun o ho => List.mem_cons_of_mem _ ho)
          (List.nodup_cons.1 t4.heldNodup).2 fun _ h => h
        have r6 := r3.fr (by simpa using kA) f4 t6
        refine ⟨_, ⟨t5, r6.par, r6.dead, r6.kids, fun e he => ?_⟩, f3.trans f4, c3.trans c4⟩
        obtain ⟨nc, d1, d2⟩ := r3.tree.opChild oid o c hoo2 hch
        obtain ⟨-, -, d3, -⟩ := r3.tree.ndPar c nc oid d1 d2
        have hcb : (g.addOp σ2.ops.length (g.hN p - 1)).hN c = g.hN p - 1 := by
          show g.hN c = _
          omega
        have hlt : ∀ o' ∈ toOps.flatMap (fun e => e.2), o' ≠ σ2.ops.length := by
          intro o' ho'
          obtain ⟨⟨op', a1, -⟩, -⟩ := r3.tree.held o' ho'
          exact (lt_of_getElem? a1).ne
        rcases addToOps_mem (kid, c) σ2.ops.length toOps he with he | ⟨he1, he2, he3⟩
        · exact r6.ents e he
        · refine ⟨?_, ?_, he2, ?_, ?_⟩
          · rw [he1]
            obtain ⟨l, a1, -⟩ := f4.node c nc d1
            exact ⟨_, a1⟩
          · rw [he1]
            intro hl
            exact r6.dead (hl.up (.step (.refl _) (f4.node c nc d1).choose_spec.1 d2 (f4.ops oid o hoo2) hpar))
          · intro o' ho'
            rw [he1]
            rcases he3 o' ho' with rfl | ⟨e', k1, k2, k3⟩
            · rw [Gt.addOp_eq]; exact hcb.symm
            · have := (r6.ents e' k1).ops o' k3
              rw [k2] at this; exact this
          · rw [he1]
            show (g.addOp σ2.ops.length (g.hN p - 1)).hN c + 1 = g.hN p
            rw [hcb]; omega

theorem replayOp_went {E : Env K} {ρ : ℕ → ℕ} {σ : Core K} {g : Gt} {p : ℕ} {pn : Node} {kids A : List ℕ}
    {toOps : List ((ℕ × ℕ) × List ℕ)} (h : RS E ρ σ g p pn kids toOps A) {kid : ℕ} (hk : kid ∈ kids)
    {o : NOp} (ho : o ∈ pn.ops) {r : Core K × List ((ℕ × ℕ) × List ℕ)}
    (hr : replayOp E σ kid o toOps = .ok r) :
    ∃ g', RS E ρ r.1 g' p pn kids r.2 A ∧ Fr [kid] (g.hN p) σ g r.1 g' ∧ SameCtl σ r.1 := by
  obtain ⟨kA, kN⟩ := h.kids kid hk
  simp only [replayOp, bind_ok, needSome_ok] at hr
  obtain ⟨n, -, hr⟩ := hr
  split at hr
  · cases hr; exact ⟨g, h, .refl _ _ _ _, .refl _⟩
  split at hr
  · rename_i s0 b0
    cases hr
    have s := Soft.push σ kid (x := .left s0 b0) rfl
    exact ⟨g, h.soft (by simpa using kA) s, s.fr _ _, rfl, rfl, rfl⟩
  · exact replayTr_went h hk ho hr
  · simp only [bind_ok, pure_ok] at hr
    obtain ⟨σ1, h1, rfl⟩ := hr
    obtain ⟨s, c⟩ := replayInv_soft h1
    exact ⟨g, h.soft (by simpa using kA) s, s.fr _ _, c⟩

theorem replayKids_went {E : Env K} {ρ : ℕ → ℕ} {p : ℕ} {pn : Node} {kids A : List ℕ} {o : NOp}
    (ho : o ∈ pn.ops) : ∀ (ks : List ℕ) {σ : Core K} {g : Gt} {toOps : List ((ℕ × ℕ) × List ℕ)}
    {r : Core K × List ((ℕ × ℕ) × List ℕ)}, (∀ k ∈ ks, k ∈ kids) → RS E ρ σ g p pn kids toOps A →
    replayKids E o σ ks toOps = .ok r →
    ∃ g', RS E ρ r.1 g' p pn kids r.2 A ∧ Fr kids (g.hN p) σ g r.1 g' ∧ SameCtl σ r.1
  | [], σ, g, toOps, r, hk, h, hr => by cases hr; exact ⟨g, h, .refl _ _ _ _, .refl _⟩
  | k :: ks, σ, g, toOps, r, hk, h, hr => by
    simp only [replayKids, bind_ok] at hr
    obtain ⟨r1, h1, h2⟩ := hr
    obtain ⟨g1, a1, a2, a3⟩ := replayOp_went h (hk k List.mem_cons_self) ho h1
    obtain ⟨g2, b1, b2, b3⟩ := replayKids_went ho ks (fun k' hk' => hk k' (List.mem_cons_of_mem _ hk')) a1 h2
    rw [a2.hN] at b2
    exact ⟨g2, b1, (a2.mono (by simpa using hk k List.mem_cons_self)).trans b2, a3.trans b3⟩

theorem replayLoop_went {E : Env K} {ρ : ℕ → ℕ} {p : ℕ} {pn : Node} {kids A : List ℕ} :
    ∀ (ops : List NOp) {σ : Core K} {g : Gt} {toOps toOps' : List ((ℕ × ℕ) × List ℕ)} {cur cur' k k' : ℕ}
    {only lft lft' : Bool} {σ' : Core K}, (∀ o ∈ ops, o ∈ pn.ops) → RS E ρ σ g p pn kids toOps A →
    replayLoop E kids σ ops cur only lft k toOps = .ok (σ', (cur', lft', k', toOps')) →
    k ≤ k' ∧ (∀ o l, ops = o :: l → nopStep σ o = .ok cur → only = o.isTr → k < k') ∧
    ∃ g', RS E ρ σ' g' p pn kids toOps' A ∧ Fr kids (g.hN p) σ g σ' g' ∧ SameCtl σ σ'
  | [], σ, g, toOps, toOps', cur, cur', k, k', only, lft, lft', σ', ho, h, hr => by
    cases hr
    exact ⟨le_rfl, fun o l e => (by cases e), g, h, .refl _ _ _ _, .refl _⟩
  | o :: ops, σ, g, toOps, toOps', cur, cur', k, k', only, lft, lft', σ', ho, h, hr => by
    simp only [replayLoop, bind_ok] at hr
    obtain ⟨s, hs, hr⟩ := hr
    have stop : ∀ {c : ℕ} {b : Bool}, (∀ o' l, o :: ops = o' :: l → nopStep σ o' = .ok cur → only = o'.isTr → False) →
        (Except.ok (σ, (c, b, k, toOps)) : Except Err _) = .ok (σ', (cur', lft', k', toOps')) →
        k ≤ k' ∧ (∀ o' l, o :: ops = o' :: l → nopStep σ o' = .ok cur → only = o'.isTr → k < k') ∧
        ∃ g', RS E ρ σ' g' p pn kids toOps' A ∧ Fr kids (g.hN p) σ g σ' g' ∧ SameCtl σ σ' := by
      intro c b hno he
      cases he
      exact ⟨le_rfl, fun o' l e1 e2 e3 => (hno o' l e1 e2 e3).elim, g, h, .refl _ _ _ _, .refl _⟩
    have key : ∀ o' l, o :: ops = o' :: l → nopStep σ o' = .ok cur → only = o'.isTr → s = cur ∧ only = o.isTr := by
      intro o' l e1 e2 e3
      cases e1
      rw [hs] at e2; cases e2
      exact ⟨rfl, e3⟩
    generalize hadv : (decide (s > cur) && !only) = adv at hr
    generalize hcur : (if adv = true then cur + 1 else cur) = cur1 at hr
    have key2 : ∀ o' l, o :: ops = o' :: l → nopStep σ o' = .ok cur → only = o'.isTr →
        s = cur1 ∧ (only || adv) = o.isTr := by
      intro o' l e1 e2 e3
      obtain ⟨rfl, hq⟩ := key o' l e1 e2 e3
      have : adv = false := by rw [← hadv]; simp
      rw [this] at hcur ⊢
      exact ⟨by simpa using hcur, by rw [hq]; simp⟩
    split at hr
    · rename_i hc
      exact stop (fun o' l e1 e2 e3 => hc (key2 o' l e1 e2 e3).1) hr
    split at hr
    · rename_i hc
      refine stop (fun o' l e1 e2 e3 => ?_) hr
      rw [(key2 o' l e1 e2 e3).2] at hc
      simp at hc
    simp only [bind_ok] at hr
    obtain ⟨r1, h1, hr⟩ := hr
    obtain ⟨g1, a1, a2, a3⟩ := replayKids_went (ho o List.mem_cons_self) kids (fun _ h => h) h h1
    obtain ⟨b1, -, g2, b2, b3, b4⟩ := replayLoop_went ops (fun o' ho' => ho o' (List.mem_cons_of_mem _ ho')) a1 hr
    rw [a2.hN] at b3
    exact ⟨by omega, fun _ _ _ _ _ => by omega, g2, b2, a2.trans b3, a3.trans b4⟩

theorem advanceKids_soft {E : Env K} {cur : ℕ} {chk : Bool} : ∀ (ks : List ℕ) {σ σ' : Core K},
    advanceKids E cur chk σ ks = .ok σ' → Soft [] σ σ' ∧ SameCtl σ σ'
  | [], σ, σ', h => by cases h; exact ⟨.refl _ _, .refl _⟩
  | k :: ks, σ, σ', h => by
    simp only [advanceKids, bind_ok, needSome_ok] at h
    obtain ⟨n, -, σ1, h1, h2⟩ := h
    obtain ⟨b1, b2⟩ := advanceKids_soft ks h2
    split at h1
    · cases h1; exact ⟨b1, b2⟩
    · simp only [bind_ok, needSome_ok, assert_ok, pure_ok] at h1
      obtain ⟨σ2, h3, st, -, _, -, rfl⟩ := h1
      obtain ⟨_, _, -, s, c, -⟩ := stepState_soft h3
      exact ⟨s.trans b1, c.trans b2⟩

end Hylaa
