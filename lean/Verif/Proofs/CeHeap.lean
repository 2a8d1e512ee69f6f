import Verif.Props.Dag

/-! The numbers of steps along a concrete path are those recorded in the transition operations. -/

set_option linter.unusedSectionVars false

namespace Hylaa
variable {K : Type} [Field K] [LinearOrder K] [IsStrictOrderedRing K]

/-- The numbers of steps of the operations leading to operation `o`. -/
inductive OPath (σ : Core K) : ℕ → List ℕ → Prop
  | root {o op} : σ.ops[o]? = some op → op.parent = none → OPath σ o []
  | step {o op ν nd o' π} : σ.ops[o]? = some op → op.parent = some ν → σ.nodes[ν]? = some nd →
      nd.parents[0]? = some o' → OPath σ o' π → OPath σ o (π ++ [op.step])

/-- The numbers of steps of the modes before a state set. -/
def SPath (σ : Core K) (st : SS K) (π : List ℕ) : Prop :=
  (st.opList = [] ∧ π = []) ∨ ∃ o, st.opList = [o] ∧ OPath σ o π

/-- Operations keep their origin, nodes their parts. -/
def Keep (σ σ' : Core K) : Prop :=
  (∀ (o : ℕ) op, σ.ops[o]? = some op → ∃ op', σ'.ops[o]? = some op' ∧ op'.parent = op.parent ∧
    op'.step = op.step) ∧
  ∀ (ν : ℕ) nd, σ.nodes[ν]? = some nd → ∃ nd', σ'.nodes[ν]? = some nd' ∧ nd'.parents = nd.parents

theorem Keep.refl (σ : Core K) : Keep σ σ :=
  ⟨fun _ op h => ⟨op, h, rfl, rfl⟩, fun _ nd h => ⟨nd, h, rfl⟩⟩

theorem Keep.trans {a b c : Core K} (h : Keep a b) (h' : Keep b c) : Keep a c := by
  refine ⟨fun o op ho => ?_, fun ν nd hν => ?_⟩
  · obtain ⟨p, p1, p2, p3⟩ := h.1 o op ho
    obtain ⟨q, q1, q2, q3⟩ := h'.1 o p p1
    exact ⟨q, q1, q2.trans p2, q3.trans p3⟩
  · obtain ⟨p, p1, p2⟩ := h.2 ν nd hν
    obtain ⟨q, q1, q2⟩ := h'.2 ν p p1
    exact ⟨q, q1, q2.trans p2⟩

theorem OPath.keep {σ σ' : Core K} (h : Keep σ σ') {o : ℕ} {π : List ℕ} (hp : OPath σ o π) :
    OPath σ' o π := by
  induction hp with
  | root h1 h2 =>
    obtain ⟨op', a1, a2, -⟩ := h.1 _ _ h1
    exact .root a1 (a2.trans h2)
  | step h1 h2 h3 h4 _ ih =>
    obtain ⟨op', a1, a2, a3⟩ := h.1 _ _ h1
    obtain ⟨nd', b1, b2⟩ := h.2 _ _ h3
    rw [← a3]
    exact .step a1 (a2.trans h2) b1 (by rw [b2]; exact h4) ih

theorem SPath.keep {σ σ' : Core K} (h : Keep σ σ') {st : SS K} {π : List ℕ} (hp : SPath σ st π) :
    SPath σ' st π := by
  rcases hp with hp | ⟨o, h1, h2⟩
  · exact .inl hp
  · exact .inr ⟨o, h1, h2.keep h⟩

theorem SPath.like {σ : Core K} {st st' : SS K} {π : List ℕ} (hp : SPath σ st π)
    (h : st'.opList = st.opList) : SPath σ st' π := by
  unfold SPath
  rw [h]; exact hp

theorem Mild.keep {all : Bool} {σ σ' : Core K} (h : Mild all σ σ') : Keep σ σ' := by
  refine ⟨?_, fun ν nd hν => by
    obtain ⟨l, hl⟩ := h.node hν
    exact ⟨_, hl, rfl⟩⟩
  cases h with
  | state h1 h2 => exact fun o op ho => ⟨op, ho, rfl, rfl⟩
  | misc => exact fun o op ho => ⟨op, ho, rfl, rfl⟩
  | push ν x => exact fun o op ho => ⟨op, ho, rfl, rfl⟩
  | op h1 h2 h3 h4 h5 h6 => exact fun o op ho => ⟨op, append_keep ho, rfl, rfl⟩

theorem makeNode_keep {E : Env K} {σ : Core K} {r : Core K × ℕ} {ids : List ℕ} {at_ : Option AggType}
    {s : Option String} (h : makeNode E σ ids at_ s = .ok r) : Keep σ r.1 := by
  obtain ⟨σ', nid⟩ := r
  obtain ⟨ss, rts, sid, os, sts, rfl, -⟩ := makeNode_shape h
  refine ⟨fun o op ho => ?_, fun ν nd hν => ⟨nd, append_keep hν, rfl⟩⟩
  obtain ⟨f, hf, he⟩ := setChild_get2 (c := σ.nodes.length) ids σ.ops o
  refine ⟨f op, ?_, (hf op).1, (hf op).2.2⟩
  simp only
  rw [he, ho]; rfl

theorem Micro.keep {E : Env K} {σ σ' : Core K} (h : Micro E σ σ') : Keep σ σ' := by
  cases h with
  | mild h => exact h.keep
  | node h => exact makeNode_keep h
  | unwait => exact ⟨fun _ op h => ⟨op, h, rfl, rfl⟩, fun _ nd h => ⟨nd, h, rfl⟩⟩

theorem Micros.keep {E : Env K} {σ σ' : Core K} (h : Micros E σ σ') : Keep σ σ' := by
  induction h with
  | refl => exact .refl _
  | tail _ h2 ih => exact ih.trans h2.keep

/-! ### The heap -/

structure HeapWit (σ : Core K) : Prop where
  conc : ConcInv σ
  child : ∀ (o : ℕ) op c, σ.ops[o]? = some op → op.child = some c →
    ∃ nd, σ.nodes[c]? = some nd ∧ o ∈ nd.parents
  opl : ∀ (o : ℕ) op st, σ.ops[o]? = some op → σ.states[op.post]? = some st →
    st.opList = [o] ∨ (st.opList = [] ∧ op.parent = none)

theorem Mild.heapWit {σ σ' : Core K} (h : Mild false σ σ') (hw : HeapWit σ) : HeapWit σ' := by
  refine ⟨h.conc hw.conc, ?_, ?_⟩
  · have hk := h.keep
    have old : ∀ (o : ℕ) op c, σ.ops[o]? = some op → op.child = some c →
        ∃ nd, σ'.nodes[c]? = some nd ∧ o ∈ nd.parents := by
      intro o op c h1 h2
      obtain ⟨nd, a1, a2⟩ := hw.child o op c h1 h2
      obtain ⟨nd', b1, b2⟩ := hk.2 c nd a1
      exact ⟨nd', b1, by rw [b2]; exact a2⟩
    cases h with
    | state h1 h2 => exact old
    | misc => exact old
    | push => exact old
    | op h1 h2 h3 h4 h5 h6 =>
      intro o op c ho hc
      rcases append_inv ho with ⟨h, -⟩ | ⟨rfl, rfl⟩
      · exact old o op c h hc
      · cases hc
  · cases h with
    | @state sid st st' h1 h2 =>
      intro o op s ho hs
      have hs' : (σ.states.set sid st')[op.post]? = some s := hs
      by_cases hk : sid = op.post
      · rw [← hk, List.getElem?_set_self (lt_of_getElem? h1)] at hs'
        cases hs'
        rw [h2.2.2]
        exact hw.opl o op st ho (by rw [← hk]; exact h1)
      · rw [List.getElem?_set_ne hk] at hs'
        exact hw.opl o op s ho hs'
    | misc => exact hw.opl
    | push => exact hw.opl
    | @op ν nd st post ti c b h1 h2 h3 h4 h5 h6 =>
      intro o op s ho hs
      have hs' : (σ.states ++ [post])[op.post]? = some s := hs
      rcases append_inv ho with ⟨h, -⟩ | ⟨rfl, rfl⟩
      · rw [List.getElem?_append_left (hw.conc.post o op h)] at hs'
        exact hw.opl o op s h hs'
      · simp only [List.getElem?_concat_length, Option.some.injEq] at hs'
        rw [← hs']; exact .inl h6

theorem setChild_child {c : ℕ} : ∀ (ids : List ℕ) (l : List (OpTr K)) (o : ℕ) (op' : OpTr K),
    (ids.foldl (fun l o => l.modify o fun x => { x with child := some c }) l)[o]? = some op' →
    ∃ op, l[o]? = some op ∧ op'.post = op.post ∧ op'.parent = op.parent ∧
      (op'.child = op.child ∨ (o ∈ ids ∧ op'.child = some c))
  | [], l, o, op', h => ⟨op', h, rfl, rfl, .inl rfl⟩
  | i :: ids, l, o, op', h => by
    rw [List.foldl_cons] at h
    obtain ⟨op1, h1, h2, h3, h4⟩ := setChild_child ids _ o op' h
    rw [List.getElem?_modify] at h1
    cases hl : l[o]? with
    | none => rw [hl] at h1; simp at h1
    | some op =>
      rw [hl] at h1
      have h1 : (if i = o then { op with child := some c } else op) = op1 := Option.some.inj h1
      refine ⟨op, rfl, ?_, ?_, ?_⟩
      · rw [h2, ← h1]; split <;> rfl
      · rw [h3, ← h1]; split <;> rfl
      · rcases h4 with h4 | ⟨h4, h5⟩
        · split at h1
          · rename_i hi
            exact .inr ⟨by simp [hi], by rw [h4, ← h1]⟩
          · exact .inl (by rw [h4, ← h1])
        · exact .inr ⟨by simp [h4], h5⟩

theorem makeNode_heapWit {E : Env K} {σ : Core K} {r : Core K × ℕ} {ids : List ℕ} {at_ : Option AggType}
    {s : Option String} (h : makeNode E σ ids at_ s = .ok r) (hw : HeapWit σ) : HeapWit r.1 := by
  refine ⟨makeNode_conc h hw.conc, ?_, ?_⟩
  · obtain ⟨σ', nid⟩ := r
    obtain ⟨ss, rts, sid, os, sts, rfl, -⟩ := makeNode_shape h
    intro o op' c ho hc
    obtain ⟨op, h1, -, -, h4⟩ := setChild_child ids σ.ops o op' ho
    rcases h4 with h4 | ⟨h4, h5⟩
    · rw [h4] at hc
      obtain ⟨nd, a1, a2⟩ := hw.child o op c h1 hc
      exact ⟨nd, append_keep a1, a2⟩
    · rw [h5] at hc
      cases hc
      exact ⟨_, List.getElem?_concat_length, h4⟩
  · obtain ⟨σ', nid⟩ := r
    obtain ⟨ss, rts, sid, os, sts, rfl, -, -, -, hk, -⟩ := makeNode_shape h
    intro o op' st ho hst
    obtain ⟨op, h1, h2, h3, -⟩ := setChild_child ids σ.ops o op' ho
    have hst' : ss[op.post]? = some st := by rw [← h2]; exact hst
    obtain ⟨st', b1, b2, -⟩ := hk op.post _ (List.getElem?_eq_getElem (hw.conc.post o op h1))
    rw [hst'] at b1
    cases b1
    rw [b2.2.2, h3]
    exact hw.opl o op _ h1 (List.getElem?_eq_getElem (hw.conc.post o op h1))

theorem Micros.heapWit {E : Env K} {σ σ' : Core K} (h : Micros E σ σ') (hw : HeapWit σ) : HeapWit σ' := by
  induction h with
  | refl => exact hw
  | tail h1 h2 ih =>
    cases h2 with
    | mild h => exact h.heapWit ih
    | node h => exact makeNode_heapWit h ih
    | unwait p =>
      exact ⟨Micros.conc (E := E) (.single (.unwait _ p)) ih.conc, ih.child, ih.opl⟩

theorem setupStates_heapWit {E : Env K} : ∀ (l : List (SS K)) {σ σ' : Core K},
    (∀ st ∈ l, st.opList = []) → HeapWit σ → σ.nodes = [] →
    (∀ (o : ℕ) op, σ.ops[o]? = some op → op.parent = none ∧ op.child = none) →
    setupStates E σ l = .ok σ' → HeapWit σ'
  | [], σ, σ', _, hp, _, _, h => by cases h; exact hp
  | st :: l, σ, σ', hl, hp, hn, hi, h => by
    have h' := h
    have hl' : ∀ st ∈ l, st.opList = [] := fun s hs => hl s (by simp [hs])
    simp only [setupStates, bind_ok, needSome_ok] at h
    obtain ⟨m, hm, f, hf, h⟩ := h
    split at h
    · exact setupStates_heapWit l hl' hp hn hi h
    · simp only [bind_ok] at h
      obtain ⟨r, hr, h⟩ := h
      split at h
      · exact setupStates_heapWit l hl' hp hn hi h
      · have hi' : ∀ (o : ℕ) (op : OpTr K), (σ.ops ++ [(OpTr.mk 0 none none none
            σ.states.length none : OpTr K)])[o]? = some op → op.parent = none ∧ op.child = none := by
          intro o op ho
          rcases append_inv ho with ⟨h, -⟩ | ⟨rfl, rfl⟩
          · exact hi o op h
          · exact ⟨rfl, rfl⟩
        refine setupStates_heapWit l hl' ?_ ?_ ?_ h
        rotate_left
        · exact hn
        · exact hi'
        refine ⟨⟨?_, ?_, ?_, ?_⟩, ?_, ?_⟩
        · intro o op ho
          simp only [List.length_append, List.length_singleton]
          rcases append_inv ho with ⟨h, -⟩ | ⟨rfl, rfl⟩
          · have := hp.conc.post o op h; omega
          · exact Nat.lt_succ_self _
        · intro o op s ho _ _
          exact .init ho (hi' o op ho).1
        · intro ν nd s hν
          simp only [hn] at hν
          cases hν
        · intro ν nd hν
          simp only [hn] at hν
          cases hν
        · intro o op c ho hc
          rw [(hi' o op ho).2] at hc; cases hc
        · intro o op s ho hs
          rcases append_inv ho with ⟨h, -⟩ | ⟨rfl, rfl⟩
          · simp only [List.getElem?_append_left (hp.conc.post o op h)] at hs
            exact hp.opl o op s h hs
          · refine .inr ⟨?_, rfl⟩
            simp only [List.getElem?_concat_length, Option.some.injEq] at hs
            have e := invLoop_like _ hr
            rw [← hs]
            simp only
            rw [e]
            exact hl st (by simp)

end Hylaa
