import Verif.Props.Viz
import Verif.Props.Dag

/-!
# C67: pictures drawn during a run

At every moment of every run without deaggregation the hypotheses of `C67_picture_partial` hold, and drawing never
fails an assertion.
-/

set_option linter.unusedSectionVars false

namespace Hylaa
open Spec
variable {K : Type} [Field K] [LinearOrder K] [IsStrictOrderedRing K]

/-- The DAG's links fit together. -/
structure VizOk (σ : Core K) : Prop where
  parOps : ∀ (i : ℕ) op p, σ.ops[i]? = some op → op.parent = some p →
    ∃ nd, σ.nodes[p]? = some nd ∧ NOp.tr i ∈ nd.ops
  opsPar : ∀ (n : ℕ) nd i, σ.nodes[n]? = some nd → NOp.tr i ∈ nd.ops →
    ∃ op, σ.ops[i]? = some op ∧ op.parent = some n
  childPar : ∀ (i : ℕ) op c, σ.ops[i]? = some op → op.child = some c →
    ∃ nd, σ.nodes[c]? = some nd ∧ i ∈ nd.parents
  par : ∀ (n : ℕ) nd p, σ.nodes[n]? = some nd → p ∈ nd.parents →
    ∃ op, σ.ops[p]? = some op ∧ op.child = some n
  wait : ∀ (w : ℕ) op, w ∈ σ.waiting → σ.ops[w]? = some op → op.child = none
  root : ∀ r ∈ σ.roots, ∃ nd, σ.nodes[r]? = some nd ∧
    ∀ p ∈ nd.parents, ∀ op, σ.ops[p]? = some op → op.parent = none
  rootsNd : σ.roots.Nodup
  reach : ∀ (n : ℕ) nd, σ.nodes[n]? = some nd → FromRoot σ n

theorem FromRoot.mono {σ σ' : Core K} (hr : ∀ r ∈ σ.roots, r ∈ σ'.roots)
    (hk : ∀ n c, IsKid σ n c → IsKid σ' n c) {n : ℕ} (h : FromRoot σ n) : FromRoot σ' n := by
  induction h with
  | root h => exact .root (hr _ h)
  | kid _ h ih => exact .kid ih (hk _ _ h)

/-- Nodes and operations are kept; new operations have no child; they are in their parent's list. -/
structure VGrows (σ σ' : Core K) : Prop where
  roots : σ'.roots = σ.roots
  fwd : ∀ (n : ℕ) nd, σ.nodes[n]? = some nd → ∃ nd', σ'.nodes[n]? = some nd' ∧ nd'.parents = nd.parents ∧
    ∀ o ∈ nd.ops, o ∈ nd'.ops
  bwd : ∀ (n : ℕ) nd', σ'.nodes[n]? = some nd' → ∃ nd, σ.nodes[n]? = some nd ∧ nd'.parents = nd.parents ∧
    ∀ i, .tr i ∈ nd'.ops → .tr i ∈ nd.ops ∨ ∃ op, σ'.ops[i]? = some op ∧ op.parent = some n
  ops : ∀ (i : ℕ) op, σ.ops[i]? = some op → σ'.ops[i]? = some op
  new : ∀ (i : ℕ) op, σ'.ops[i]? = some op → σ.ops[i]? = some op ∨ (op.child = none ∧ ∀ p, op.parent = some p →
    ∃ nd, σ'.nodes[p]? = some nd ∧ .tr i ∈ nd.ops)
  wait : ∀ w ∈ σ'.waiting, w ∈ σ.waiting ∨ σ.ops[w]? = none

theorem VGrows.ok {σ σ' : Core K} (h : VGrows σ σ') (hv : VizOk σ) : VizOk σ' := by
  have hkid : ∀ n c, IsKid σ n c → IsKid σ' n c := by
    rintro n c ⟨nd, i, op, h1, h2, h3, h4⟩
    obtain ⟨nd', a, -, b⟩ := h.fwd n nd h1
    exact ⟨nd', i, op, a, b _ h2, h.ops i op h3, h4⟩
  refine ⟨fun i op p h1 h2 => ?_, fun n nd i h1 h2 => ?_, fun i op c h1 h2 => ?_, fun n nd p h1 h2 => ?_,
    fun w op h1 h2 => ?_, fun r hr => ?_, by rw [h.roots]; exact hv.rootsNd, fun n nd h1 => ?_⟩
  · rcases h.new i op h1 with h1 | ⟨-, h1⟩
    · obtain ⟨nd, a, b⟩ := hv.parOps i op p h1 h2
      obtain ⟨nd', a', -, b'⟩ := h.fwd p nd a
      exact ⟨nd', a', b' _ b⟩
    · exact h1 p h2
  · obtain ⟨nd0, a, -, b⟩ := h.bwd n nd h1
    rcases b i h2 with b | b
    · obtain ⟨op, c, d⟩ := hv.opsPar n nd0 i a b
      exact ⟨op, h.ops i op c, d⟩
    · exact b
  · rcases h.new i op h1 with h1 | ⟨h1, -⟩
    · obtain ⟨nd, a, b⟩ := hv.childPar i op c h1 h2
      obtain ⟨nd', a', e, -⟩ := h.fwd c nd a
      exact ⟨nd', a', by rw [e]; exact b⟩
    · rw [h1] at h2; cases h2
  · obtain ⟨nd0, a, e, -⟩ := h.bwd n nd h1
    rw [e] at h2
    obtain ⟨op, c, d⟩ := hv.par n nd0 p a h2
    exact ⟨op, h.ops p op c, d⟩
  · rcases h.new w op h2 with h2 | ⟨h2, -⟩
    · rcases h.wait w h1 with h1 | h1
      · exact hv.wait w op h1 h2
      · rw [h1] at h2; cases h2
    · exact h2
  · rw [h.roots] at hr
    obtain ⟨nd, a, b⟩ := hv.root r hr
    obtain ⟨nd', a', e, -⟩ := h.fwd r nd a
    refine ⟨nd', a', fun p hp op ho => ?_⟩
    rw [e] at hp
    obtain ⟨op', c, -⟩ := hv.par r nd p a hp
    have := h.ops p op' c
    rw [ho] at this; cases this
    exact b p hp op c
  · obtain ⟨nd0, a, -⟩ := h.bwd n nd h1
    exact (hv.reach n nd0 a).mono (fun r hr => by rw [h.roots]; exact hr) hkid

theorem VGrows.same {σ σ' : Core K} (h1 : σ'.roots = σ.roots) (h2 : σ'.nodes = σ.nodes) (h3 : σ'.ops = σ.ops)
    (h4 : σ'.waiting = σ.waiting) : VGrows σ σ' :=
  ⟨h1, fun n nd h => ⟨nd, by rw [h2]; exact h, rfl, fun _ h => h⟩,
    fun n nd h => ⟨nd, by rw [h2] at h; exact h, rfl, fun _ h => .inl h⟩, fun i op h => by rw [h3]; exact h,
    fun i op h => .inl (by rw [h3] at h; exact h), fun w h => .inl (by rw [h4] at h; exact h)⟩

theorem Mild.vgrows {all : Bool} {σ σ' : Core K} (h : Mild all σ σ') : VGrows σ σ' := by
  cases h with
  | state h1 h2 => exact .same rfl rfl rfl rfl
  | misc => exact .same rfl rfl rfl rfl
  | push ν x hx =>
    unfold Core.pushOp
    refine ⟨rfl, fun n nd h => ?_, fun n nd h => ?_, fun _ _ h => h, fun _ _ h => .inl h, fun _ h => .inl h⟩
    · simp only [List.getElem?_modify, h]
      by_cases hn : ν = n
      · exact ⟨{ nd with ops := nd.ops ++ [x] }, by simp only [hn, if_true, Option.map_eq_map, Option.map_some],
          rfl, fun o ho => by simp [ho]⟩
      · exact ⟨nd, by simp only [hn, if_false, Option.map_eq_map, Option.map_some], rfl, fun o ho => ho⟩
    · simp only [List.getElem?_modify] at h
      cases hh : σ.nodes[n]? with
      | none => rw [hh] at h; cases h
      | some nd0 =>
        rw [hh] at h
        simp only [Option.map_eq_map, Option.map_some, Option.some.injEq] at h
        subst h
        refine ⟨nd0, rfl, ?_, fun i hi => .inl ?_⟩
        · split <;> rfl
        · split at hi
          · simp only [List.mem_append, List.mem_singleton] at hi
            rcases hi with hi | hi
            · exact hi
            · subst hi; cases hx
          · exact hi
  | @op ν nd st post ti c b h1 h2 h3 h4 h5 h6 =>
    unfold Core.pushOp
    refine ⟨rfl, fun n md h => ?_, fun n md h => ?_, fun _ _ h => append_keep h, fun i op h => ?_, fun w h => ?_⟩
    · simp only [List.getElem?_modify, h]
      by_cases hn : ν = n
      · exact ⟨{ md with ops := md.ops ++ [.tr σ.ops.length] }, by simp only [hn, if_true, Option.map_eq_map, Option.map_some],
          rfl, fun o ho => by simp [ho]⟩
      · exact ⟨md, by simp only [hn, if_false, Option.map_eq_map, Option.map_some], rfl, fun o ho => ho⟩
    · simp only [List.getElem?_modify] at h
      cases hh : σ.nodes[n]? with
      | none => rw [hh] at h; cases h
      | some nd0 =>
        rw [hh] at h
        simp only [Option.map_eq_map, Option.map_some, Option.some.injEq] at h
        subst h
        refine ⟨nd0, rfl, ?_, fun i hi => ?_⟩
        · split <;> rfl
        · split at hi
          · rename_i hn
            simp only [List.mem_append, List.mem_singleton, NOp.tr.injEq] at hi
            rcases hi with hi | hi
            · exact .inl hi
            · subst hi
              exact .inr ⟨_, by simp only [List.getElem?_concat_length]; rfl, by rw [hn]⟩
          · exact .inl hi
    · simp only [List.getElem?_append] at h
      split at h
      · exact .inl h
      · rename_i hi
        have hl := lt_of_getElem? h
        simp only [List.length_singleton] at hl
        have he : i = σ.ops.length := by omega
        subst he
        simp only [Nat.sub_self, List.getElem?_cons_zero, Option.some.injEq] at h
        subst h
        refine .inr ⟨rfl, fun p hp => ?_⟩
        cases hp
        exact ⟨_, by simp only [List.getElem?_modify, h1, if_true, Option.map_eq_map, Option.map_some]; rfl, by simp⟩
    · dsimp only at h
      split at h
      · simp only [List.mem_append, List.mem_singleton] at h
        rcases h with h | h
        · exact .inl h
        · subst h; exact .inr (by simp)
      · exact .inl h

theorem Milds.vizOk {all : Bool} {σ σ' : Core K} (h : Milds all σ σ') (hv : VizOk σ) : VizOk σ' := by
  induction h with
  | refl => exact hv
  | tail _ h2 ih => exact h2.vgrows.ok ih

theorem setupStates_vizOk {E : Env K} : ∀ (l : List (SS K)) {σ σ' : Core K},
    VizOk σ → setupStates E σ l = .ok σ' → VizOk σ'
  | [], σ, σ', hp, h => by cases h; exact hp
  | st :: l, σ, σ', hp, h => by
    simp only [setupStates, bind_ok, needSome_ok] at h
    obtain ⟨m, -, f, -, h⟩ := h
    split at h
    · exact setupStates_vizOk l hp h
    · simp only [bind_ok] at h
      obtain ⟨r, -, h⟩ := h
      split at h
      · exact setupStates_vizOk l hp h
      · refine setupStates_vizOk l (VGrows.ok ?_ hp) h
        refine ⟨rfl, fun n nd h => ⟨nd, h, rfl, fun _ h => h⟩, fun n nd h => ⟨nd, h, rfl, fun _ h => .inl h⟩,
          fun _ _ h => append_keep h, fun i op h => ?_, fun w h => ?_⟩
        · simp only [List.getElem?_append] at h
          split at h
          · exact .inl h
          · have hl := lt_of_getElem? h
            simp only [List.length_singleton] at hl
            have he : i = σ.ops.length := by omega
            subst he
            simp only [Nat.sub_self, List.getElem?_cons_zero, Option.some.injEq] at h
            subst h
            exact .inr ⟨rfl, fun p hp => by cases hp⟩
        · simp only [List.mem_append, List.mem_singleton] at h
          rcases h with h | h
          · exact .inl h
          · subst h; exact .inr (by simp)

theorem makeNode_roots {E : Env K} {σ σ' : Core K} {ids : List ℕ} {at_ : Option AggType}
    {s : Option String} {nid : ℕ} (h : makeNode E σ ids at_ s = .ok (σ', nid)) :
    ∃ os, List.Forall₂ (fun o op => σ.ops[o]? = some op) ids os ∧
      σ'.roots = if os.any (fun o => o.parent.isNone) then σ.roots ++ [σ.nodes.length] else σ.roots := by
  simp only [makeNode, bind_ok, needSome_ok, pure_ok, Prod.mk.injEq] at h
  obtain ⟨os, hos, sts, hsts, ⟨σ1, sid⟩, hns, st, hst, rfl, rfl⟩ := h
  refine ⟨os, mapM_needSome hos, ?_⟩
  unfold nodeState at hns
  split at hns
  · cases hns; rfl
  · simp only [bind_ok, needSome_ok, pure_ok, Prod.mk.injEq] at hns
    obtain ⟨at', -, ⟨σ2, st2⟩, hagg, rfl, rfl⟩ := hns
    obtain ⟨⟨ss, rfl, -, -⟩, -⟩ := aggregateOps_shape hagg
    rfl

theorem setChild_getV {c : ℕ} : ∀ (ids : List ℕ) (l : List (OpTr K)) (i : ℕ),
    (ids.foldl (fun l o => l.modify o fun x => { x with child := some c }) l)[i]? =
      if i ∈ ids then l[i]?.map fun x => { x with child := some c } else l[i]?
  | [], l, i => by simp
  | o :: ids, l, i => by
    rw [List.foldl_cons, setChild_getV ids, List.getElem?_modify]
    by_cases h1 : i ∈ ids <;> by_cases h2 : o = i
    · simp only [h1, h2, if_true, List.mem_cons, or_true]
      cases l[i]? <;> rfl
    · simp only [h1, h2, if_true, if_false, List.mem_cons, or_true]
      cases l[i]? <;> rfl
    · simp only [h1, h2, if_true, if_false, List.mem_cons, true_or, Option.map_eq_map]
    · have : i ≠ o := fun h => h2 h.symm
      simp only [h1, h2, this, if_false, List.mem_cons, or_self]
      cases l[i]? <;> rfl

theorem f2_right {α β : Type} {R : α → β → Prop} : ∀ {l : List α} {m : List β}, List.Forall₂ R l m →
    ∀ {b : β}, b ∈ m → ∃ a ∈ l, R a b
  | _, _, .nil, b, h => by cases h
  | _, _, .cons hab ht, b, h => by
    rcases List.mem_cons.1 h with rfl | h
    · exact ⟨_, by simp, hab⟩
    · obtain ⟨a, h1, h2⟩ := f2_right ht h
      exact ⟨a, List.mem_cons_of_mem _ h1, h2⟩

theorem f2_left {α β : Type} {R : α → β → Prop} : ∀ {l : List α} {m : List β}, List.Forall₂ R l m →
    ∀ {a : α}, a ∈ l → ∃ b ∈ m, R a b
  | _, _, .nil, a, h => by cases h
  | _, _, .cons hab ht, a, h => by
    rcases List.mem_cons.1 h with rfl | h
    · exact ⟨_, by simp, hab⟩
    · obtain ⟨b, h1, h2⟩ := f2_left ht h
      exact ⟨b, List.mem_cons_of_mem _ h1, h2⟩

theorem popWaiting_vizOk {E : Env K} {σ σ' : Core K} (h : popWaiting E σ = .ok σ') (hv : VizOk σ) : VizOk σ' := by
  obtain ⟨ids, nd, h1, h2, h3, h4, h5, -, h6⟩ := C36_pop h
  have hshape : σ'.ops = ids.foldl (fun l o => l.modify o fun x => { x with child := some σ.nodes.length }) σ.ops ∧
      ∃ os, List.Forall₂ (fun o op => σ.ops[o]? = some op) ids os ∧
        σ'.roots = if os.any (fun o => o.parent.isNone) then σ.roots ++ [σ.nodes.length] else σ.roots := by
    simp only [popWaiting, bind_ok, assert_ok, pure_ok] at h
    obtain ⟨items, hitems, l1, hl1, l, hl, _, -, at_, hat, ⟨σ1, nid⟩, hmk, rfl⟩ := h
    obtain ⟨ss, rts, sid, os, sts, e1, -⟩ := makeNode_shape hmk
    obtain ⟨os', ho, hr⟩ := makeNode_roots hmk
    have hids : (l.map fun w => w.oid) = ids := by
      rw [e1] at h5
      simp only [List.append_cancel_left_eq, List.cons.injEq, and_true] at h5
      rw [← h3, ← h5]
    rw [← hids]
    refine ⟨?_, os', ho, hr⟩
    rw [e1]
  obtain ⟨hops, os, hos, hroots⟩ := hshape
  set N := σ.nodes.length with hN
  have hget : ∀ i, σ'.ops[i]? = if i ∈ ids then σ.ops[i]?.map fun x => { x with child := some N } else σ.ops[i]? :=
    fun i => by rw [hops]; exact setChild_getV ids σ.ops i
  have hidw : ∀ i ∈ ids, ∀ op, σ.ops[i]? = some op → op.child = none := fun i hi op ho =>
    hv.wait i op (h2.subset hi) ho
  -- what an operation was before
  have hold : ∀ i op, σ'.ops[i]? = some op → ∃ op0, σ.ops[i]? = some op0 ∧ op.parent = op0.parent ∧
      ((i ∈ ids ∧ op.child = some N) ∨ (i ∉ ids ∧ op = op0)) := by
    intro i op ho
    rw [hget] at ho
    split at ho
    · rename_i hi
      obtain ⟨op0, a, rfl⟩ := Option.map_eq_some_iff.1 ho
      exact ⟨op0, a, rfl, .inl ⟨hi, rfl⟩⟩
    · rename_i hi
      exact ⟨op, ho, rfl, .inr ⟨hi, rfl⟩⟩
  have hnew : ∀ i op, σ.ops[i]? = some op → ∃ op', σ'.ops[i]? = some op' ∧ op'.parent = op.parent ∧
      ((i ∈ ids ∧ op'.child = some N) ∨ (i ∉ ids ∧ op' = op)) := by
    intro i op ho
    by_cases hi : i ∈ ids
    · exact ⟨{ op with child := some N }, by rw [hget, if_pos hi, ho]; rfl, rfl, .inl ⟨hi, rfl⟩⟩
    · exact ⟨op, by rw [hget, if_neg hi]; exact ho, rfl, .inr ⟨hi, rfl⟩⟩
  have hnd : ∀ n md, σ'.nodes[n]? = some md → σ.nodes[n]? = some md ∨ (n = N ∧ md = nd) := by
    intro n md hm
    rw [h5, List.getElem?_append] at hm
    split at hm
    · exact .inl hm
    · have hl := lt_of_getElem? hm
      simp only [List.length_singleton] at hl
      have he : n = N := by omega
      subst he
      simp only [hN, Nat.sub_self, List.getElem?_cons_zero, Option.some.injEq] at hm
      exact .inr ⟨rfl, hm.symm⟩
  have hkeep : ∀ n md, σ.nodes[n]? = some md → σ'.nodes[n]? = some md := fun n md hm => by
    rw [h5]; exact append_keep hm
  have hlast : σ'.nodes[N]? = some nd := by rw [h5, hN, List.getElem?_concat_length]
  have hndops : nd.ops = [] := by
    simp only [popWaiting, bind_ok, assert_ok, pure_ok] at h
    obtain ⟨items, hitems, l1, hl1, l, hl, _, -, at_, hat, ⟨σ1, nid⟩, hmk, rfl⟩ := h
    obtain ⟨ss, rts, sid, os, sts, e1, -⟩ := makeNode_shape hmk
    rw [e1] at h5
    simp only [List.append_cancel_left_eq, List.cons.injEq, and_true] at h5
    rw [← h5]
  have hkid : ∀ n c, IsKid σ n c → IsKid σ' n c := by
    rintro n c ⟨md, i, op, a1, a2, a3, a4⟩
    obtain ⟨op', b1, -, ⟨b2, -⟩ | ⟨-, rfl⟩⟩ := hnew i op a3
    · rw [hidw i b2 op a3] at a4; cases a4
    · exact ⟨md, i, op', hkeep _ _ a1, a2, b1, a4⟩
  have hrsub : ∀ r ∈ σ.roots, r ∈ σ'.roots := fun r hr => by
    rw [hroots]; split
    · exact List.mem_append_left _ hr
    · exact hr
  refine ⟨fun i op p a1 a2 => ?_, fun n md i a1 a2 => ?_, fun i op c a1 a2 => ?_, fun n md p a1 a2 => ?_,
    fun w op a1 a2 => ?_, fun r hr => ?_, ?_, fun n md a1 => ?_⟩
  · obtain ⟨op0, b1, b2, -⟩ := hold i op a1
    obtain ⟨md, c1, c2⟩ := hv.parOps i op0 p b1 (b2 ▸ a2)
    exact ⟨md, hkeep _ _ c1, c2⟩
  · rcases hnd n md a1 with a1 | ⟨-, rfl⟩
    · obtain ⟨op, b1, b2⟩ := hv.opsPar n md i a1 a2
      obtain ⟨op', c1, c2, -⟩ := hnew i op b1
      exact ⟨op', c1, c2.trans b2⟩
    · rw [hndops] at a2; cases a2
  · obtain ⟨op0, b1, -, ⟨b2, b3⟩ | ⟨-, rfl⟩⟩ := hold i op a1
    · rw [b3] at a2; cases a2
      exact ⟨nd, hlast, by rw [h3]; exact b2⟩
    · obtain ⟨md, c1, c2⟩ := hv.childPar i op c b1 a2
      exact ⟨md, hkeep _ _ c1, c2⟩
  · rcases hnd n md a1 with a1 | ⟨rfl, rfl⟩
    · obtain ⟨op, b1, b2⟩ := hv.par n md p a1 a2
      obtain ⟨op', c1, -, ⟨c2, -⟩ | ⟨-, rfl⟩⟩ := hnew p op b1
      · rw [hidw p c2 op b1] at b2; cases b2
      · exact ⟨op', c1, b2⟩
    · rw [h3] at a2
      obtain ⟨op, -, -, b1, -⟩ := h6 p a2
      obtain ⟨op', c1, -, ⟨-, c2⟩ | ⟨c2, -⟩⟩ := hnew p op b1
      · exact ⟨op', c1, c2⟩
      · exact absurd a2 c2
  · rw [h4, List.mem_filter] at a1
    obtain ⟨b1, b2⟩ := a1
    obtain ⟨op0, c1, -, ⟨c2, -⟩ | ⟨-, rfl⟩⟩ := hold w op a2
    · exact absurd c2 (of_decide_eq_true b2)
    · exact hv.wait w op b1 c1
  · have old : r ∈ σ.roots → ∃ md, σ'.nodes[r]? = some md ∧
        ∀ p ∈ md.parents, ∀ op, σ'.ops[p]? = some op → op.parent = none := by
      intro hr
      obtain ⟨md, b1, b2⟩ := hv.root r hr
      refine ⟨md, hkeep _ _ b1, fun p hp op ho => ?_⟩
      obtain ⟨op0, c1, c2, -⟩ := hold p op ho
      exact c2.trans (b2 p hp op0 c1)
    rw [hroots] at hr
    split at hr
    · rename_i hany
      rcases List.mem_append.1 hr with hr | hr
      · exact old hr
      · simp only [List.mem_singleton] at hr
        subst hr
        refine ⟨nd, hlast, fun p hp op ho => ?_⟩
        obtain ⟨q, hq, hqn⟩ := List.any_eq_true.1 hany
        obtain ⟨i, hi, hio⟩ := f2_right hos hq
        have hqn : q.parent = none := by simpa using hqn
        obtain ⟨q', st, m, b1, -, -, -, b2, -⟩ := h6 i hi
        rw [hio] at b1; cases b1
        have hone := b2 hqn
        rw [h3, hone] at hp
        simp only [List.mem_singleton] at hp
        subst hp
        obtain ⟨op0, c1, c2, -⟩ := hold p op ho
        rw [hio] at c1; cases c1
        exact c2.trans hqn
    · exact old hr
  · rw [hroots]
    split
    · rw [List.nodup_append]
      refine ⟨hv.rootsNd, by simp, fun a ha b hb => ?_⟩
      simp only [List.mem_singleton] at hb
      subst hb
      rintro rfl
      obtain ⟨md, b1, -⟩ := hv.root _ ha
      have := lt_of_getElem? b1
      omega
    · exact hv.rootsNd
  · rcases hnd n md a1 with a1 | ⟨rfl, rfl⟩
    · exact (hv.reach n md a1).mono hrsub hkid
    · obtain ⟨i, hi⟩ := List.exists_mem_of_ne_nil _ h1
      obtain ⟨op, -, -, b1, -⟩ := h6 i hi
      cases hp : op.parent with
      | none =>
        refine .root ?_
        obtain ⟨q, hq, hiq⟩ := f2_left hos hi
        rw [b1] at hiq; cases hiq
        rw [hroots, if_pos (List.any_eq_true.2 ⟨op, hq, by simp [hp]⟩)]
        simp
      | some p =>
        obtain ⟨md, c1, c2⟩ := hv.parOps i op p b1 hp
        obtain ⟨op', d1, -, ⟨-, d2⟩ | ⟨d2, -⟩⟩ := hnew i op b1
        · exact .kid ((hv.reach p md c1).mono hrsub hkid) ⟨md, i, op', hkeep _ _ c1, c2, d1, d2⟩
        · exact absurd hi d2

theorem stepPop_vizOk {E : Env K} {σ σ' : Core K} (h : stepPop E σ = .ok σ') (hp : VizOk σ) : VizOk σ' := by
  simp only [stepPop, bind_ok, needSome_ok] at h
  obtain ⟨σ1, h1, c, -, st, -, m, -, h⟩ := h
  have p1 := popWaiting_vizOk h1 hp
  split at h
  · exact (leftInvariant_mild (all := true) h).vizOk p1
  · simp only [bind_ok] at h
    obtain ⟨⟨σ2, f⟩, h2, h⟩ := h
    have p2 := (intersectCur_mild (all := true) h2).vizOk p1
    split at h
    · exact (approxCur_mild (all := true) h).vizOk p2
    · exact (leftInvariant_mild (all := true) h).vizOk p2

theorem runs_vizOk {E : Env K} (hd : ¬ E.deaggOn) {init : List (SS K)} {σ0 σ : Core K} {n : ℕ}
    (h0 : setup E init = .ok σ0) (hr : runSteps E n σ0 = .ok σ) : VizOk σ := by
  have hinit : VizOk σ0 ∧ σ0.queue = [] ∧ σ0.rep = none := by
    simp only [setup, bind_ok, assert_ok, need_ok, pure_ok] at h0
    obtain ⟨_, -, σ1, h1, _, -, rfl⟩ := h0
    have hq : ∀ (l : List (SS K)) {σ σ' : Core K}, setupStates E σ l = .ok σ' →
        σ'.queue = σ.queue ∧ σ'.rep = σ.rep := by
      intro l
      induction l with
      | nil => intro σ σ' h; cases h; exact ⟨rfl, rfl⟩
      | cons st l ih =>
        intro σ σ' h
        simp only [setupStates, bind_ok, needSome_ok] at h
        obtain ⟨m, -, f, -, h⟩ := h
        split at h
        · exact ih h
        · simp only [bind_ok] at h
          obtain ⟨r, -, h⟩ := h
          split at h
          · exact ih h
          · have := ih h; exact this
    have h00 : VizOk ({} : Core K) := by
      refine ⟨fun i op p h => ?_, fun n nd i h => ?_, fun i op c h => ?_, fun n nd p h => ?_, fun w op h => ?_,
        fun r h => ?_, List.nodup_nil, fun n nd h => ?_⟩ <;> simp at h
    exact ⟨setupStates_vizOk init h00 h1, (hq init h1).1, (hq init h1).2⟩
  obtain ⟨hp, hq, hrp⟩ := hinit
  clear h0
  induction n generalizing σ0 with
  | zero => cases hr; exact hp
  | succ n ih =>
    simp only [runSteps, bind_ok] at hr
    obtain ⟨σ1, h1, h2⟩ := hr
    have key : VizOk σ1 ∧ σ1.queue = [] ∧ σ1.rep = none := by
      have hnr : σ0.doingReplay = false := by unfold Core.doingReplay; rw [hq, hrp]; rfl
      unfold doStep at h1
      split at h1
      · cases h1; exact ⟨hp, hq, hrp⟩
      split at h1
      · have := stepPost_mild (all := true) h1
        exact ⟨this.vizOk hp, by rw [this.replay.1]; exact hq, by rw [this.replay.2]; exact hrp⟩
      rw [hnr, getDeagg_off hd] at h1
      simp only [Bool.false_eq_true, if_false, bind_ok] at h1
      obtain ⟨dg, hdg, h1⟩ := h1
      cases hdg
      simp only [bind_ok] at h1
      obtain ⟨σ2, h3, h4⟩ := h1
      have p2 := stepPop_vizOk h3 hp
      have q2 := stepPop_replay h3
      have m : Milds true σ2 σ1 := by
        split at h4
        · exact checkGuards_mild h4
        · cases h4; exact .refl
      exact ⟨m.vizOk p2, by rw [m.replay.1, q2.1]; exact hq, by rw [m.replay.2, q2.2]; exact hrp⟩
    exact ih h2 key.1 key.2.1 key.2.2

theorem VizOk.kid {σ : Core K} (hv : VizOk σ) {k c : ℕ} (h : IsKid σ k c) : c ∉ σ.roots := by
  intro hr
  obtain ⟨nd, i, op, h1, h2, h3, h4⟩ := h
  obtain ⟨md, h5, h6⟩ := hv.root c hr
  obtain ⟨md', h7, h8⟩ := hv.childPar i op c h3 h4
  rw [h5] at h7; cases h7
  obtain ⟨op', h9, h10⟩ := hv.opsPar k nd i h1 h2
  rw [h3] at h9; cases h9
  rw [h6 i h8 op h3] at h10
  cases h10

/-! ### No failed assertions -/

theorem drawGroups_noAssert {ha : HA K} {n : ℕ} : ∀ gs : List (VGroup K), drawGroups ha n gs ≠ .error .assertion
  | [], h => by cases h
  | g :: gs, h => by
    have := drawGroups_noAssert gs (ha := ha) (n := n)
    unfold drawGroups at h
    cases hd : drawGroup ha n g with
    | error e =>
      rw [hd] at h
      simp only [bind, Except.bind, Except.error.injEq] at h
      subst h
      obtain ⟨x, l⟩ := g
      unfold drawGroup at hd
      cases hh : l.head? <;> cases hla : l.getLast? <;> simp [hh, hla, needSome, bind, Except.bind] at hd
      rename_i a b
      cases x <;> simp [pure, Except.pure] at hd
      cases ht : a.trans <;> simp [ht] at hd
      rename_i t
      cases htr : ha.trans[t]? <;> simp [htr] at hd
    | ok d =>
      rw [hd] at h
      cases hr : drawGroups ha n gs with
      | error e =>
        rw [hr] at h
        simp only [bind, Except.bind, Except.error.injEq] at h
        subst h
        exact this hr
      | ok r => rw [hr] at h; cases h

theorem vizOps_noAssert {ha : HA K} {ops : List (OpTr K)} {n : ℕ} : ∀ (L : List NOp) (en : List (VGroup K))
    (out : List VDraw), vizOps ha ops n L en out ≠ .error .assertion
  | [], en, out, h => by cases h
  | o :: L, en, out, h => by
    have hp : ∀ s en out, pruneGroups ha n s en out ≠ .error .assertion := by
      intro s en out h
      unfold pruneGroups at h
      cases hd : drawGroups ha n (en.filter (oldGroup s)) with
      | error e =>
        rw [hd] at h
        simp only [bind, Except.bind, Except.error.injEq] at h
        subst h
        exact drawGroups_noAssert _ hd
      | ok d => rw [hd] at h; cases h
    have ho : vizOp ha ops n en out o ≠ .error .assertion := by
      intro h
      cases o with
      | tr i =>
        unfold vizOp at h
        cases hi : ops[i]? with
        | none => simp [hi, needSome, bind, Except.bind] at h
        | some op =>
          simp only [hi, needSome, bind, Except.bind] at h
          exact hp _ _ _ h
      | left s b =>
        unfold vizOp at h
        cases hd : drawGroups ha n en with
        | error e =>
          rw [hd] at h
          simp only [bind, Except.bind, Except.error.injEq] at h
          subst h
          exact drawGroups_noAssert _ hd
        | ok d =>
          rw [hd] at h
          exact hp s [] (out ++ d) h
      | inv s j b => exact hp _ _ _ h
    unfold vizOps at h
    cases hq : vizOp ha ops n en out o with
    | error e =>
      rw [hq] at h
      simp only [bind, Except.bind, Except.error.injEq] at h
      subst h
      exact ho hq
    | ok q =>
      rw [hq] at h
      exact vizOps_noAssert L q.1 q.2 h

theorem vizNode_noAssert {ha : HA K} {σ : Core K} (hv : VizOk σ) : ∀ {f n : ℕ} {D : List ℕ} {out : List VDraw},
    vizNode ha σ f n D out ≠ .error .assertion
  | 0, n, D, out, h => by cases h
  | f + 1, n, D, out, h => by
    have key : ∀ {l D' : List ℕ} {out' : List VDraw}, vizList (vizNode ha σ f) l D' out' ≠ .error .assertion := by
      intro l
      induction l with
      | nil => intro D' out' h; cases h
      | cons c l ih =>
        intro D' out' h
        unfold vizList at h
        split at h
        · exact ih h
        · cases hq : vizNode ha σ f c D' out' with
          | error e =>
            rw [hq] at h
            simp only [bind, Except.bind, Except.error.injEq] at h
            subst h
            exact vizNode_noAssert hv hq
          | ok q =>
            rw [hq] at h
            exact ih h
    rw [vizNode] at h
    cases hnd : σ.nodes[n]? with
    | none => simp [hnd, needSome, bind, Except.bind] at h
    | some nd =>
      have hA : ∀ p ∈ nd.parents, σ.ops[p]?.bind (fun op => op.child) = some n := by
        intro p hp
        obtain ⟨op, a, b⟩ := hv.par n nd p hnd hp
        rw [a]; exact b
      simp only [hnd, needSome, bind, Except.bind, assert] at h
      rw [if_pos hA] at h
      cases hs : σ.states[nd.state]? with
      | none => simp [hs] at h
      | some st =>
        simp only [hs] at h
        cases hq : vizOps ha σ.ops n nd.ops [] (out ++ [.full n st.mode (vizState nd st.stepIn)]) with
        | error e =>
          rw [hq] at h
          simp only [Except.error.injEq] at h
          subst h
          exact vizOps_noAssert _ _ _ hq
        | ok q =>
          rw [hq] at h
          exact key h

theorem vizRoots_noAssert {ha : HA K} {σ : Core K} (hv : VizOk σ) {f : ℕ} : ∀ {l : List ℕ} {i : ℕ} {D : List ℕ}
    {out : List VDraw}, vizRoots ha σ f i l D out ≠ .error .assertion
  | [], i, D, out, h => by cases h
  | x :: l, i, D, out, h => by
    unfold vizRoots at h
    cases hq : vizNode ha σ f x D (out ++ [.invis i, .edge (.pre i) (.node x) none]) with
    | error e =>
      rw [hq] at h
      simp only [bind, Except.bind, Except.error.injEq] at h
      subst h
      exact vizNode_noAssert hv hq
    | ok q =>
      rw [hq] at h
      exact vizRoots_noAssert hv h

/-- **C67** At no moment of a run without deaggregation does drawing the DAG fail an assertion: every node's
parent operations lead to it, and the nodes of all waiting operations are drawn. -/
theorem C67_no_assertion {E : Env K} (hd : ¬ E.deaggOn) {init : List (SS K)} {σ0 σ : Core K} {n : ℕ}
    (h0 : setup E init = .ok σ0) (hr : runSteps E n σ0 = .ok σ) (f : ℕ) :
    vizDag E.ha σ f ≠ .error .assertion := by
  have hv := runs_vizOk hd h0 hr
  intro h
  unfold vizDag at h
  cases hq : vizRoots E.ha σ f 0 σ.roots [] [] with
  | error e =>
    rw [hq] at h
    simp only [bind, Except.bind, Except.error.injEq] at h
    subst h
    exact vizRoots_noAssert hv hq
  | ok r =>
    have A := vizRoots_drew (ha := E.ha) hv.rootsNd (fun k c h => hv.kid h) (i := 0) (D := []) (out := [])
      (l := σ.roots) (by simp) ⟨rfl, by simp, by simp, by simp, fun j x hj => by omega, by simp,
        fun j x hj => by omega⟩ hq
    have hall : ∀ n, FromRoot σ n → n ∈ r.1 := by
      intro n hn
      induction hn with
      | root hx =>
        obtain ⟨j, hj⟩ := List.mem_iff_getElem?.1 hx
        exact A.here j _ (lt_of_getElem? hj) hj
      | kid _ hkid ih => exact (A.drawn _ ih).2 _ hkid
    have hw : ∀ w ∈ σ.waiting, ∀ op, σ.ops[w]? = some op → ∀ p, op.parent = some p → p ∈ r.1 := by
      intro w _ op ho p hp
      obtain ⟨nd, a, -⟩ := hv.parOps w op p ho hp
      exact hall p (hv.reach p nd a)
    rw [hq] at h
    simp only [bind, Except.bind, assert] at h
    rw [if_pos hw] at h
    cases h

/-- **C67** for runs: at every moment of a run without deaggregation, a picture that is drawn shows every node that
exists, each once and nothing else, with its mode and, when it is complete and its operations are in order, all its
transition operations; what it shows is right at the ends of every label; the nodes of the waiting operations are
there. -/
theorem C67_runs_partial {E : Env K} (hd : ¬ E.deaggOn) {init : List (SS K)} {σ0 σ : Core K} {n f : ℕ}
    {out : List VDraw} (h0 : setup E init = .ok σ0) (hr : runSteps E n σ0 = .ok σ)
    (h : vizDag E.ha σ f = .ok out) :
    (drawnNodes out).Nodup ∧ (∀ k, k ∈ drawnNodes out ↔ k < σ.nodes.length) ∧
      (∀ k < σ.nodes.length, NodeDrawn σ k out) ∧ (∀ e ∈ out, EventOk E.ha σ out e) ∧
      (∀ i x, σ.roots[i]? = some x → .invis i ∈ out ∧ .edge (.pre i) (.node x) none ∈ out) ∧
      ∀ w ∈ σ.waiting, ∀ op, σ.ops[w]? = some op → ∀ p, op.parent = some p → p ∈ drawnNodes out := by
  have hv := runs_vizOk hd h0 hr
  obtain ⟨h1, h2, h3, h4, h5⟩ := C67_picture_partial hv.rootsNd (fun k c h => hv.kid h) h
  have hreach : ∀ k < σ.nodes.length, FromRoot σ k := fun k hk =>
    hv.reach k _ (List.getElem?_eq_getElem hk)
  refine ⟨h1, fun k => ⟨fun hk => ?_, fun hk => (h2 k).2 (hreach k hk)⟩, fun k hk => h3 k (hreach k hk), h4, h5⟩
  obtain ⟨nd, -, a, -⟩ := h3 k ((h2 k).1 hk)
  exact lt_of_getElem? a

/-- The hypotheses are met by the run that is drawn in `errEx_draws`, in which something is drawn. -/
example : ∃ (E : Env ℚ) (init : List (SS ℚ)) (σ0 σ : Core ℚ) (n f : ℕ) (out : List VDraw), ¬ E.deaggOn ∧
    setup E init = .ok σ0 ∧ runSteps E n σ0 = .ok σ ∧ vizDag E.ha σ f = .ok out ∧ drawnNodes out = [0, 1] := by
  obtain ⟨r, h, hr⟩ := okAnd_ok errEx_draws
  simp only [drawAfter, analyse, bind_ok, pure_ok] at h
  obtain ⟨σ, ⟨init, hi, σ0, h1, h2⟩, d, h3, rfl⟩ := h
  simp only [Bool.and_eq_true, decide_eq_true_eq] at hr
  refine ⟨exEnv 3 1 none, init, σ0, σ, 8, 1000, d, ?_, h1, h2, h3, by rw [hr.2]; rfl⟩
  rintro ⟨s, hs, -⟩
  cases hs

end Hylaa
