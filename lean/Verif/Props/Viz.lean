import Verif.Model.Viz
import Verif.Props.RunEx

/-!
# C67: the picture of the aggregation DAG
-/

set_option linter.unusedSectionVars false

namespace Hylaa
open Spec
section
variable {K : Type} [Field K] [LinearOrder K]

/-! ### Specification -/

/-- First and last number of steps of a label. -/
def VLabel.lo : VLabel → ℕ
  | .one s => s
  | .range a _ => a

def VLabel.hi : VLabel → ℕ
  | .one s => s
  | .range _ b => b

/-- In the list `L` of operations of node `n` there is a transition operation at step `s` to `x`. -/
def TakesAt (ops : List (OpTr K)) (L : List NOp) (n : ℕ) (x : VName) (s : ℕ) : Prop :=
  ∃ i op, .tr i ∈ L ∧ ops[i]? = some op ∧ childName n op = x ∧ op.step = s

/-- The step of an entry. -/
def NOp.stepAt (ops : List (OpTr K)) : NOp → Option ℕ
  | .tr i => ops[i]?.map fun op => op.step
  | .left s _ => some s
  | .inv s _ _ => some s

/-- The entries are in the order of their steps. -/
def StepsInOrder (ops : List (OpTr K)) (L : List NOp) : Prop :=
  L.Pairwise fun a b => ∀ s t, a.stepAt ops = some s → b.stepAt ops = some t → s ≤ t

/-- The nodes with a label, in the order in which they are drawn. -/
def drawnNodes (out : List VDraw) : List ℕ :=
  out.filterMap fun e => match e with
    | .full n _ _ => some n
    | _ => none

/-- `c` is a child of node `n`. -/
def IsKid (σ : Core K) (n c : ℕ) : Prop :=
  ∃ nd i op, σ.nodes[n]? = some nd ∧ .tr i ∈ nd.ops ∧ σ.ops[i]? = some op ∧ op.child = some c

/-- Node `n` can be reached from a root. -/
inductive FromRoot (σ : Core K) : ℕ → Prop
  | root {n} : n ∈ σ.roots → FromRoot σ n
  | kid {n c} : FromRoot σ n → IsKid σ n c → FromRoot σ c

/-! ### Groups -/

theorem drawGroup_ok {ha : HA K} {n : ℕ} {g : VGroup K} {d : List VDraw} (h : drawGroup ha n g = .ok d) :
    ∃ (a b : OpTr K) (l : VLabel), a ∈ g.2 ∧ b ∈ g.2 ∧ g.2.head? = some a ∧ g.2.getLast? = some b ∧
      l.lo = a.step ∧ l.hi = b.step ∧
      (((∀ k t, g.1 ≠ .out k t) ∧ d = [.edge (.node n) g.1 (some l)]) ∨
        ∃ t tr, a.trans = some t ∧ ha.trans[t]? = some tr ∧ (∃ k u, g.1 = .out k u) ∧
          d = [.dashed g.1 tr.dst, .edge (.node n) g.1 (some l)]) := by
  obtain ⟨x, l⟩ := g
  simp only [drawGroup, bind_ok, needSome_ok] at h
  obtain ⟨a, h1, b, h2, h⟩ := h
  refine ⟨a, b, if l.length = 1 then .one a.step else .range a.step b.step, List.mem_of_head? h1,
    List.mem_of_getLast? h2, h1, h2, ?_, ?_, ?_⟩
  · split <;> rfl
  · split
    · rename_i hl
      obtain ⟨y, rfl⟩ := List.length_eq_one_iff.1 hl
      simp at h1 h2
      rw [← h2, ← h1]; rfl
    · rfl
  · cases x with
    | out k u =>
      simp only [bind_ok, needSome_ok, pure_ok] at h
      obtain ⟨t, h3, tr, h4, rfl⟩ := h
      exact .inr ⟨t, tr, h3, h4, ⟨k, u, rfl⟩, rfl⟩
    | node c =>
      simp only [pure_ok] at h
      exact .inl ⟨by simp, h.symm⟩
    | pre c =>
      simp only [pure_ok] at h
      exact .inl ⟨by simp, h.symm⟩

theorem drawGroups_ok {ha : HA K} {n : ℕ} : ∀ {gs : List (VGroup K)} {d : List VDraw},
    drawGroups ha n gs = .ok d →
    (∀ g ∈ gs, ∃ e, drawGroup ha n g = .ok e ∧ e ⊆ d) ∧
      ∀ x ∈ d, ∃ g ∈ gs, ∃ e, drawGroup ha n g = .ok e ∧ x ∈ e
  | [], d, h => by cases h; simp
  | g :: gs, d, h => by
    simp only [drawGroups, bind_ok, pure_ok] at h
    obtain ⟨e, h1, r, h2, rfl⟩ := h
    obtain ⟨i1, i2⟩ := drawGroups_ok h2
    refine ⟨fun g' hg => ?_, fun x hx => ?_⟩
    · rcases List.mem_cons.1 hg with rfl | hg
      · exact ⟨e, h1, by simp⟩
      · obtain ⟨e', a, b⟩ := i1 g' hg
        exact ⟨e', a, fun x hx => List.mem_append_right _ (b hx)⟩
    · rcases List.mem_append.1 hx with hx | hx
      · exact ⟨g, by simp, e, h1, hx⟩
      · obtain ⟨g', a, b⟩ := i2 x hx
        exact ⟨g', by simp [a], b⟩

/-- Between two entries: `P` has been read, `en` is still to be drawn, `out` is drawn (`out0` before this node). -/
structure VInv (ha : HA K) (ops : List (OpTr K)) (n : ℕ) (out0 : List VDraw) (P : List NOp)
    (en : List (VGroup K)) (out : List VDraw) : Prop where
  groups : ∀ g ∈ en, ∀ op ∈ g.2, ∃ i, .tr i ∈ P ∧ ops[i]? = some op ∧ childName n op = g.1
  keep : out0 ⊆ out
  fulls : drawnNodes out = drawnNodes out0
  edges : ∀ a b l, .edge a b l ∈ out → .edge a b l ∈ out0 ∨ (a = .node n ∧ ∃ l', l = some l' ∧
    TakesAt ops P n b l'.lo ∧ TakesAt ops P n b l'.hi ∧ ((∃ k t, b = .out k t) → ∃ m, .dashed b m ∈ out))
  dash : ∀ b m, .dashed b m ∈ out → .dashed b m ∈ out0 ∨ ∃ i op t tr, .tr i ∈ P ∧ ops[i]? = some op ∧
    childName n op = b ∧ op.child = none ∧ op.trans = some t ∧ ha.trans[t]? = some tr ∧ tr.dst = m
  full : ∀ m md s, .full m md s ∈ out → .full m md s ∈ out0
  invis : ∀ i, .invis i ∈ out → .invis i ∈ out0
  sorted : StepsInOrder ops P → ∀ g ∈ en, g.2.Pairwise fun a b => a.step ≤ b.step
  compl : StepsInOrder ops P → ∀ i op, .tr i ∈ P → ops[i]? = some op →
    (∃ g ∈ en, g.1 = childName n op ∧ op ∈ g.2) ∨
      ∃ l, .edge (.node n) (childName n op) (some l) ∈ out ∧ l.lo ≤ op.step ∧ op.step ≤ l.hi

theorem TakesAt.mono {ops : List (OpTr K)} {P Q : List NOp} {n : ℕ} {x : VName} {s : ℕ} (h : TakesAt ops P n x s)
    (hs : P ⊆ Q) : TakesAt ops Q n x s := by
  obtain ⟨i, op, a, b⟩ := h
  exact ⟨i, op, hs a, b⟩

theorem childName_out {n k : ℕ} {t : Option ℕ} {op : OpTr K} (h : childName n op = .out k t) : op.child = none := by
  unfold childName at h
  cases hc : op.child with
  | none => rfl
  | some c => simp [hc] at h

theorem VInv.draw {ha : HA K} {ops : List (OpTr K)} {n : ℕ} {out0 : List VDraw} {P : List NOp}
    {en gs en' : List (VGroup K)} {out d : List VDraw} (h : VInv ha ops n out0 P en out)
    (hd : drawGroups ha n gs = .ok d) (h1 : ∀ g ∈ gs, g ∈ en) (h2 : ∀ g ∈ en', g ∈ en)
    (h3 : ∀ g ∈ en, g ∈ gs ∨ g ∈ en') : VInv ha ops n out0 P en' (out ++ d) := by
  obtain ⟨d1, d2⟩ := drawGroups_ok hd
  have hkind : ∀ x ∈ d, (∃ b m, x = .dashed b m) ∨ ∃ a b l, x = .edge a b l := by
    intro x hx
    obtain ⟨g, -, e, he, hx⟩ := d2 x hx
    obtain ⟨a, b, l, -, -, -, -, -, -, ⟨-, rfl⟩ | ⟨t, tr, -, -, -, rfl⟩⟩ := drawGroup_ok he
    · simp at hx; exact .inr ⟨_, _, _, hx⟩
    · simp at hx
      rcases hx with hx | hx
      · exact .inl ⟨_, _, hx⟩
      · exact .inr ⟨_, _, _, hx⟩
  refine ⟨fun g hg => h.groups g (h2 g hg), fun x hx => List.mem_append_left _ (h.keep hx), ?_, ?_, ?_, ?_, ?_,
    fun hs g hg => h.sorted hs g (h2 g hg), ?_⟩
  · have : drawnNodes d = [] := by
      unfold drawnNodes
      rw [List.filterMap_eq_nil_iff]
      intro x hx
      rcases hkind x hx with ⟨b, m, rfl⟩ | ⟨a, b, l, rfl⟩ <;> rfl
    rw [← h.fulls]
    unfold drawnNodes at this ⊢
    rw [List.filterMap_append, this, List.append_nil]
  · intro a b l hx
    rcases List.mem_append.1 hx with hx | hx
    · rcases h.edges a b l hx with hx | ⟨q1, l', q2, q3, q4, q5⟩
      · exact .inl hx
      · exact .inr ⟨q1, l', q2, q3, q4, fun hb => (q5 hb).imp fun m hm => List.mem_append_left _ hm⟩
    · obtain ⟨g, hg, e, he, hx⟩ := d2 _ hx
      obtain ⟨e', he', hsub⟩ := d1 g hg
      rw [he] at he'; cases he'
      obtain ⟨oa, ob, l', ha1, hb1, -, -, hlo, hhi, hcase⟩ := drawGroup_ok he
      obtain ⟨i, i1, i2, i3⟩ := h.groups g (h1 g hg) oa ha1
      obtain ⟨j, j1, j2, j3⟩ := h.groups g (h1 g hg) ob hb1
      have hT : ∀ l'' : VLabel, l'' = l' → TakesAt ops P n g.1 l''.lo ∧ TakesAt ops P n g.1 l''.hi := by
        rintro _ rfl
        exact ⟨⟨i, oa, i1, i2, i3, hlo.symm⟩, ⟨j, ob, j1, j2, j3, hhi.symm⟩⟩
      rcases hcase with ⟨hno, rfl⟩ | ⟨t, tr, -, -, -, rfl⟩
      · simp at hx
        obtain ⟨rfl, rfl, rfl⟩ := hx
        exact .inr ⟨rfl, l', rfl, (hT l' rfl).1, (hT l' rfl).2, fun ⟨k, u, hu⟩ => absurd hu (hno k u)⟩
      · simp at hx
        obtain ⟨rfl, rfl, rfl⟩ := hx
        exact .inr ⟨rfl, l', rfl, (hT l' rfl).1, (hT l' rfl).2, fun _ => ⟨tr.dst,
          List.mem_append_right _ (hsub (by simp))⟩⟩
  · intro b m hx
    rcases List.mem_append.1 hx with hx | hx
    · exact h.dash b m hx
    · obtain ⟨g, hg, e, he, hx⟩ := d2 _ hx
      obtain ⟨oa, ob, l', ha1, -, -, -, -, -, ⟨-, rfl⟩ | ⟨t, tr, q1, q2, ⟨k, u, q3⟩, rfl⟩⟩ := drawGroup_ok he
      · simp at hx
      · simp at hx
        obtain ⟨rfl, rfl⟩ := hx
        obtain ⟨i, i1, i2, i3⟩ := h.groups g (h1 g hg) oa ha1
        exact .inr ⟨i, oa, t, tr, i1, i2, i3, childName_out (i3.trans q3), q1, q2, rfl⟩
  · intro m md s hx
    rcases List.mem_append.1 hx with hx | hx
    · exact h.full m md s hx
    · rcases hkind _ hx with ⟨_, _, hk⟩ | ⟨_, _, _, hk⟩ <;> cases hk
  · intro i hx
    rcases List.mem_append.1 hx with hx | hx
    · exact h.invis i hx
    · rcases hkind _ hx with ⟨_, _, hk⟩ | ⟨_, _, _, hk⟩ <;> cases hk
  · intro hs i op hi ho
    rcases h.compl hs i op hi ho with ⟨g, hg, hn, hop⟩ | ⟨l, hl, hlh⟩
    · rcases h3 g hg with hgs | hgs
      · obtain ⟨e, he, hsub⟩ := d1 g hgs
        obtain ⟨oa, ob, l', -, -, hh, hla, hlo, hhi, hcase⟩ := drawGroup_ok he
        have hsort := h.sorted hs g hg
        refine .inr ⟨l', List.mem_append_right _ (hsub ?_), ?_, ?_⟩
        · rw [← hn]
          rcases hcase with ⟨-, rfl⟩ | ⟨t, tr, -, -, -, rfl⟩ <;> simp
        · rw [hlo]
          obtain ⟨r, hr⟩ := List.head?_eq_some_iff.1 hh
          rw [hr] at hsort hop
          rcases List.mem_cons.1 hop with rfl | hop
          · exact le_refl _
          · exact (List.pairwise_cons.1 hsort).1 op hop
        · rw [hhi]
          obtain ⟨r, hr⟩ := List.getLast?_eq_some_iff.1 hla
          rw [hr] at hsort hop
          rcases List.mem_append.1 hop with hop | hop
          · exact (List.pairwise_append.1 hsort).2.2 op hop ob (by simp)
          · simp at hop; subst hop; exact le_refl _
      · exact .inl ⟨g, hgs, hn, hop⟩
    · exact .inr ⟨l, List.mem_append_left _ hl, hlh⟩

theorem VInv.prune {ha : HA K} {ops : List (OpTr K)} {n s : ℕ} {out0 : List VDraw} {P : List NOp}
    {en : List (VGroup K)} {out : List VDraw} {r : List (VGroup K) × List VDraw}
    (h : VInv ha ops n out0 P en out) (hr : pruneGroups ha n s en out = .ok r) :
    VInv ha ops n out0 P r.1 r.2 := by
  simp only [pruneGroups, bind_ok, pure_ok] at hr
  obtain ⟨d, hd, rfl⟩ := hr
  refine h.draw hd (fun g hg => (List.mem_filter.1 hg).1) (fun g hg => (List.mem_filter.1 hg).1) fun g hg => ?_
  by_cases ho : oldGroup s g = true
  · exact .inl (List.mem_filter.2 ⟨hg, ho⟩)
  · exact .inr (List.mem_filter.2 ⟨hg, by simpa using ho⟩)

theorem mem_addGroup {en : List (VGroup K)} {x : VName} {op : OpTr K} {g : VGroup K} (h : g ∈ addGroup en x op) :
    g ∈ en ∨ (g.1 = x ∧ ((∃ l, (x, l) ∈ en ∧ g.2 = l ++ [op]) ∨ g.2 = [op])) := by
  unfold addGroup at h
  split at h
  · obtain ⟨g', hg, he⟩ := List.mem_map.1 h
    split at he
    · rename_i hx
      subst he
      exact .inr ⟨hx, .inl ⟨g'.2, by rw [← hx]; exact hg, rfl⟩⟩
    · subst he; exact .inl hg
  · rcases List.mem_append.1 h with h | h
    · exact .inl h
    · simp at h; subst h
      exact .inr ⟨rfl, .inr rfl⟩

theorem addGroup_keeps {en : List (VGroup K)} {x : VName} {op : OpTr K} {g : VGroup K} (h : g ∈ en) :
    ∃ g' ∈ addGroup en x op, g'.1 = g.1 ∧ g.2 ⊆ g'.2 := by
  unfold addGroup
  split
  · refine ⟨_, List.mem_map_of_mem h, ?_⟩
    split
    · exact ⟨rfl, by simp⟩
    · exact ⟨rfl, by simp⟩
  · exact ⟨g, List.mem_append_left _ h, rfl, by simp⟩

theorem addGroup_new (en : List (VGroup K)) (x : VName) (op : OpTr K) :
    ∃ g ∈ addGroup en x op, g.1 = x ∧ op ∈ g.2 := by
  unfold addGroup
  split
  · rename_i h
    obtain ⟨g, hg, hx⟩ := List.any_eq_true.1 h
    have hx := of_decide_eq_true hx
    refine ⟨_, List.mem_map_of_mem hg, ?_⟩
    rw [if_pos hx]
    exact ⟨hx, by simp⟩
  · exact ⟨(x, [op]), by simp, rfl, by simp⟩

theorem VInv.read {ha : HA K} {ops : List (OpTr K)} {n : ℕ} {out0 : List VDraw} {P : List NOp}
    {en : List (VGroup K)} {out : List VDraw} (h : VInv ha ops n out0 P en out) {o : NOp} (ho : ∀ i, o ≠ .tr i) :
    VInv ha ops n out0 (P ++ [o]) en out := by
  have hin : ∀ i, .tr i ∈ P ++ [o] → .tr i ∈ P := fun i hi => by
    rcases List.mem_append.1 hi with hi | hi
    · exact hi
    · simp at hi; exact absurd hi.symm (ho i)
  have hso : StepsInOrder ops (P ++ [o]) → StepsInOrder ops P := fun hs => (List.pairwise_append.1 hs).1
  refine ⟨fun g hg op hop => ?_, h.keep, h.fulls, fun a b l hx => ?_, fun b m hx => ?_, h.full, h.invis,
    fun hs => h.sorted (hso hs), fun hs i op hi => h.compl (hso hs) i op (hin i hi)⟩
  · obtain ⟨i, a, b⟩ := h.groups g hg op hop
    exact ⟨i, List.mem_append_left _ a, b⟩
  · rcases h.edges a b l hx with hx | ⟨q1, l', q2, q3, q4, q5⟩
    · exact .inl hx
    · exact .inr ⟨q1, l', q2, q3.mono (by simp), q4.mono (by simp), q5⟩
  · rcases h.dash b m hx with hx | ⟨i, op, t, tr, a, r⟩
    · exact .inl hx
    · exact .inr ⟨i, op, t, tr, List.mem_append_left _ a, r⟩

theorem VInv.add {ha : HA K} {ops : List (OpTr K)} {n : ℕ} {out0 : List VDraw} {P : List NOp}
    {en : List (VGroup K)} {out : List VDraw} (h : VInv ha ops n out0 P en out) {i : ℕ} {op : OpTr K}
    (ho : ops[i]? = some op) : VInv ha ops n out0 (P ++ [.tr i]) (addGroup en (childName n op) op) out := by
  have hso : StepsInOrder ops (P ++ [.tr i]) → StepsInOrder ops P := fun hs => (List.pairwise_append.1 hs).1
  refine ⟨fun g hg op' hop => ?_, h.keep, h.fulls, fun a b l hx => ?_, fun b m hx => ?_, h.full, h.invis, fun hs g hg => ?_,
    fun hs j op' hj hop => ?_⟩
  · have old : ∀ g ∈ en, ∀ op' ∈ g.2, ∃ i', .tr i' ∈ P ++ [.tr i] ∧ ops[i']? = some op' ∧ childName n op' = g.1 := by
      intro g hg op' hop
      obtain ⟨i', a, b⟩ := h.groups g hg op' hop
      exact ⟨i', List.mem_append_left _ a, b⟩
    rcases mem_addGroup hg with hg | ⟨hx, ⟨l, hl, he⟩ | he⟩
    · exact old g hg op' hop
    · rw [he] at hop
      rcases List.mem_append.1 hop with hop | hop
      · rw [hx]; exact old _ hl op' hop
      · simp at hop; subst hop
        exact ⟨i, by simp, ho, hx.symm⟩
    · rw [he] at hop
      simp at hop; subst hop
      exact ⟨i, by simp, ho, hx.symm⟩
  · rcases h.edges a b l hx with hx | ⟨q1, l', q2, q3, q4, q5⟩
    · exact .inl hx
    · exact .inr ⟨q1, l', q2, q3.mono (by simp), q4.mono (by simp), q5⟩
  · rcases h.dash b m hx with hx | ⟨i', op', t, tr, a, r⟩
    · exact .inl hx
    · exact .inr ⟨i', op', t, tr, List.mem_append_left _ a, r⟩
  · rcases mem_addGroup hg with hg | ⟨hx, ⟨l, hl, he⟩ | he⟩
    · exact h.sorted (hso hs) g hg
    · rw [he, List.pairwise_append]
      refine ⟨h.sorted (hso hs) _ hl, by simp, fun a ha b hb => ?_⟩
      simp at hb; subst hb
      obtain ⟨i', a1, a2, -⟩ := h.groups _ hl a ha
      exact (List.pairwise_append.1 hs).2.2 _ a1 (.tr i) (by simp) a.step b.step (by simp [NOp.stepAt, a2])
        (by simp [NOp.stepAt, ho])
    · rw [he]; simp
  · rcases List.mem_append.1 hj with hj | hj
    · rcases h.compl (hso hs) j op' hj hop with ⟨g, hg, hn, hm⟩ | hr
      · obtain ⟨g', a, b, c⟩ := addGroup_keeps (x := childName n op) (op := op) hg
        exact .inl ⟨g', a, by rw [b, hn], c hm⟩
      · exact .inr hr
    · simp at hj; subst hj
      rw [ho] at hop; cases hop
      exact .inl (addGroup_new ..)

theorem vizOps_inv {ha : HA K} {ops : List (OpTr K)} {n : ℕ} {out0 : List VDraw} :
    ∀ {L P : List NOp} {en : List (VGroup K)} {out : List VDraw} {r : List (VGroup K) × List VDraw},
      VInv ha ops n out0 P en out → vizOps ha ops n L en out = .ok r → VInv ha ops n out0 (P ++ L) r.1 r.2
  | [], P, en, out, r, h, hr => by
    cases hr
    simpa using h
  | o :: L, P, en, out, r, h, hr => by
    simp only [vizOps, bind_ok] at hr
    obtain ⟨q, h1, h2⟩ := hr
    have : VInv ha ops n out0 (P ++ [o]) q.1 q.2 := by
      cases o with
      | tr i =>
        simp only [vizOp, bind_ok, needSome_ok] at h1
        obtain ⟨op, ho, h1⟩ := h1
        exact (h.add ho).prune h1
      | left s b =>
        simp only [vizOp, bind_ok] at h1
        obtain ⟨d, hd, h1⟩ := h1
        exact ((h.read (by simp)).draw hd (fun _ hg => hg) (fun g hg => by simp at hg) fun _ hg => .inl hg).prune h1
      | inv s j b =>
        simp only [vizOp] at h1
        exact (h.read (by simp)).prune h1
    have := vizOps_inv this h2
    rwa [List.append_assoc] at this

theorem vizOps_end {ha : HA K} {ops : List (OpTr K)} {n s : ℕ} {b : Bool} :
    ∀ {L : List NOp} {en : List (VGroup K)} {out : List VDraw} {r : List (VGroup K) × List VDraw},
      L.getLast? = some (.left s b) → vizOps ha ops n L en out = .ok r → r.1 = []
  | [], en, out, r, hl, hr => by cases hl
  | [o], en, out, r, hl, hr => by
    simp at hl
    subst hl
    simp only [vizOps, vizOp, pruneGroups, bind_ok, pure_ok] at hr
    obtain ⟨q, ⟨d, -, e, -, rfl⟩, hq⟩ := hr
    cases hq
    rfl
  | o :: o' :: L, en, out, r, hl, hr => by
    rw [vizOps] at hr
    simp only [bind_ok] at hr
    obtain ⟨q, -, h2⟩ := hr
    exact vizOps_end (by simpa using hl) h2

/-! ### The whole picture -/

/-- Node `m` is drawn, with its mode, and its steps if it is complete; and, if it is complete and its operations
are in order, with an edge for each transition operation whose label covers its step. -/
def NodeDrawn (σ : Core K) (m : ℕ) (out : List VDraw) : Prop :=
  ∃ nd st, σ.nodes[m]? = some nd ∧ σ.states[nd.state]? = some st ∧
    .full m st.mode (match nd.ops.getLast? with
      | some (.left s b) => .steps s b
      | _ => .incomplete st.stepIn) ∈ out ∧
    ∀ s b, nd.ops.getLast? = some (.left s b) → StepsInOrder σ.ops nd.ops → ∀ i op, .tr i ∈ nd.ops →
      σ.ops[i]? = some op → ∃ l, .edge (.node m) (childName m op) (some l) ∈ out ∧ l.lo ≤ op.step ∧ op.step ≤ l.hi

/-- What is drawn is right: nodes with a label are nodes of the DAG with their modes; an edge with a label leaves
such a node, and at both ends of its label there are operations of that node leading along it; dashed nodes are
the target modes of operations that have not been processed. -/
def EventOk (ha : HA K) (σ : Core K) (out : List VDraw) : VDraw → Prop
  | .full m mode _ => ∃ nd st, σ.nodes[m]? = some nd ∧ σ.states[nd.state]? = some st ∧ st.mode = mode
  | .edge a b l => (∃ m nd l', m ∈ drawnNodes out ∧ σ.nodes[m]? = some nd ∧ a = .node m ∧ l = some l' ∧
      TakesAt σ.ops nd.ops m b l'.lo ∧ TakesAt σ.ops nd.ops m b l'.hi ∧
      (∀ c, b = .node c → c ∈ drawnNodes out) ∧ ((∃ k t, b = .out k t) → ∃ mode, .dashed b mode ∈ out)) ∨
    ∃ i x, a = .pre i ∧ σ.roots[i]? = some x ∧ b = .node x ∧ l = none
  | .dashed b mode => ∃ m nd i op t tr, m ∈ drawnNodes out ∧ σ.nodes[m]? = some nd ∧ .tr i ∈ nd.ops ∧
      σ.ops[i]? = some op ∧ childName m op = b ∧ op.child = none ∧ op.trans = some t ∧ ha.trans[t]? = some tr ∧
      tr.dst = mode
  | .invis i => ∃ x, σ.roots[i]? = some x

theorem NodeDrawn.mono {σ : Core K} {m : ℕ} {out out' : List VDraw} (h : NodeDrawn σ m out) (hs : out ⊆ out') :
    NodeDrawn σ m out' := by
  obtain ⟨nd, st, a, b, c, d⟩ := h
  refine ⟨nd, st, a, b, hs c, fun s b' h1 h2 i op h3 h4 => ?_⟩
  obtain ⟨l, q, r⟩ := d s b' h1 h2 i op h3 h4
  exact ⟨l, hs q, r⟩

theorem drawnNodes_mono {out out' : List VDraw} (hs : out ⊆ out') : drawnNodes out ⊆ drawnNodes out' := by
  intro x hx
  unfold drawnNodes at *
  obtain ⟨e, he, h⟩ := List.mem_filterMap.1 hx
  exact List.mem_filterMap.2 ⟨e, hs he, h⟩

theorem EventOk.mono {ha : HA K} {σ : Core K} {out out' : List VDraw} (hs : out ⊆ out') :
    ∀ {e : VDraw}, EventOk ha σ out e → EventOk ha σ out' e
  | .full .., h => h
  | .invis _, h => h
  | .dashed .., ⟨m, nd, i, op, t, tr, h1, h2⟩ => ⟨m, nd, i, op, t, tr, drawnNodes_mono hs h1, h2⟩
  | .edge .., h => by
    rcases h with ⟨m, nd, l', h1, h2, h3, h4, h5, h6, h7, h8⟩ | h
    · exact .inl ⟨m, nd, l', drawnNodes_mono hs h1, h2, h3, h4, h5, h6, fun c hc => drawnNodes_mono hs (h7 c hc),
        fun hb => (h8 hb).imp fun _ hm => hs hm⟩
    · exact .inr h

/-- What a call drawing the nodes `ns` (and what hangs on them) does. -/
structure Drew (ha : HA K) (σ : Core K) (ns : List ℕ) (D : List ℕ) (out : List VDraw) (D' : List ℕ)
    (out' : List VDraw) : Prop where
  keep : out ⊆ out'
  keepD : D ⊆ D'
  here : ∀ n ∈ ns, n ∈ D'
  fulls : drawnNodes out = D → drawnNodes out' = D'
  drawn : ∀ m ∈ D', m ∈ D ∨ (NodeDrawn σ m out' ∧ ∀ c, IsKid σ m c → c ∈ D')
  from_ : ∀ m ∈ D', m ∈ D ∨ ∃ n ∈ ns, Relation.ReflTransGen (IsKid σ) n m
  nodup : D.Nodup → D'.Nodup
  events : drawnNodes out = D → ∀ e ∈ out', e ∈ out ∨ EventOk ha σ out' e

theorem kid_iff {σ : Core K} {n : ℕ} {nd : Node} (h : σ.nodes[n]? = some nd) (c : ℕ) :
    c ∈ vizKids σ.ops nd ↔ IsKid σ n c := by
  unfold vizKids IsKid
  rw [List.mem_filterMap]
  constructor
  · rintro ⟨o, ho, hc⟩
    cases o with
    | tr i =>
      obtain ⟨op, h1, h2⟩ := Option.bind_eq_some_iff.1 hc
      exact ⟨nd, i, op, h, ho, h1, h2⟩
    | left s b => cases hc
    | inv s j b => cases hc
  · rintro ⟨nd', i, op, h1, h2, h3, h4⟩
    rw [h] at h1; cases h1
    exact ⟨.tr i, h2, Option.bind_eq_some_iff.2 ⟨op, h3, h4⟩⟩

theorem vizList_drew {ha : HA K} {σ : Core K} {go : ℕ → List ℕ → List VDraw → Except Err (List ℕ × List VDraw)}
    (hgo : ∀ n D out r, n ∉ D → go n D out = .ok r → Drew ha σ [n] D out r.1 r.2) :
    ∀ {l D : List ℕ} {out : List VDraw} {r : List ℕ × List VDraw}, vizList go l D out = .ok r →
      Drew ha σ l D out r.1 r.2
  | [], D, out, r, h => by
    cases h
    exact ⟨fun _ h => h, fun _ h => h, by simp, fun h => h, fun _ h => .inl h, fun _ h => .inl h, fun h => h,
      fun _ _ h => .inl h⟩
  | c :: l, D, out, r, h => by
    unfold vizList at h
    split at h
    · rename_i hc
      have := vizList_drew hgo h
      refine { this with here := fun n hn => ?_, from_ := fun m hm => ?_ }
      · rcases List.mem_cons.1 hn with rfl | hn
        · exact this.keepD hc
        · exact this.here n hn
      · rcases this.from_ m hm with h | ⟨k, hk, h⟩
        · exact .inl h
        · exact .inr ⟨k, by simp [hk], h⟩
    · rename_i hc
      simp only [bind_ok] at h
      obtain ⟨q, h1, h2⟩ := h
      have A := hgo c D out q hc h1
      have B := vizList_drew hgo h2
      refine ⟨fun x hx => B.keep (A.keep hx), fun x hx => B.keepD (A.keepD hx), fun n hn => ?_,
        fun h => B.fulls (A.fulls h), fun m hm => ?_, fun m hm => ?_, fun h => B.nodup (A.nodup h), fun hf e he => ?_⟩
      · rcases List.mem_cons.1 hn with rfl | hn
        · exact B.keepD (A.here n (by simp))
        · exact B.here n hn
      · rcases B.drawn m hm with h | h
        · rcases A.drawn m h with h | ⟨h, h'⟩
          · exact .inl h
          · exact .inr ⟨h.mono B.keep, fun c hc => B.keepD (h' c hc)⟩
        · exact .inr h
      · rcases B.from_ m hm with h | ⟨k, hk, h⟩
        · rcases A.from_ m h with h | ⟨k, hk, h⟩
          · exact .inl h
          · exact .inr ⟨k, by simp at hk; simp [hk], h⟩
        · exact .inr ⟨k, by simp [hk], h⟩
      · rcases B.events (A.fulls hf) e he with h | h
        · rcases A.events hf e h with h | h
          · exact .inl h
          · exact .inr (h.mono B.keep)
        · exact .inr h

theorem vizNode_drew {ha : HA K} {σ : Core K} : ∀ {f n : ℕ} {D : List ℕ} {out : List VDraw}
    {r : List ℕ × List VDraw}, n ∉ D → vizNode ha σ f n D out = .ok r → Drew ha σ [n] D out r.1 r.2
  | 0, n, D, out, r, hn, h => by cases h
  | f + 1, n, D, out, r, hn, h => by
    rw [vizNode] at h
    simp only [bind_ok, needSome_ok, assert_ok] at h
    obtain ⟨nd, h1, _, -, st, h2, q, h3, h4⟩ := h
    have B := vizList_drew (fun n D out r hn h => vizNode_drew hn h) h4
    set out0 := out ++ [VDraw.full n st.mode (vizState nd st.stepIn)] with hout0
    have V : VInv ha σ.ops n out0 ([] ++ nd.ops) q.1 q.2 :=
      vizOps_inv ⟨by simp, fun _ h => h, rfl, fun _ _ _ h => .inl h, fun _ _ h => .inl h, fun _ _ _ h => h,
        fun _ h => h, fun _ => by simp, fun _ => by simp⟩ h3
    rw [List.nil_append] at V
    have hsub : out0 ⊆ r.2 := fun x hx => B.keep (V.keep hx)
    have hfull0 : drawnNodes out0 = drawnNodes out ++ [n] := by simp [hout0, drawnNodes]
    have hnD : n ∈ r.1 := B.keepD (by simp)
    have hND : NodeDrawn σ n r.2 := by
      refine ⟨nd, st, h1, h2, hsub ?_, fun s b hl hs i op hi ho => ?_⟩
      · rw [hout0]
        refine List.mem_append_right _ (List.mem_singleton.2 ?_)
        rw [vizState]
        cases nd.ops.getLast? with
        | none => rfl
        | some o => cases o <;> rfl
      · rcases V.compl hs i op hi ho with ⟨g, hg, -⟩ | ⟨l, a, b⟩
        · rw [vizOps_end hl h3] at hg
          simp at hg
        · exact ⟨l, B.keep a, b⟩
    refine ⟨fun x hx => hsub (by simp [hout0, hx]), fun x hx => B.keepD (by simp [hx]), fun m hm => ?_, fun hf => ?_,
      fun m hm => ?_, fun m hm => ?_, fun h => ?_, fun hf e he => ?_⟩
    · simp at hm; subst hm; exact hnD
    · refine B.fulls ?_
      rw [V.fulls, hfull0, hf]
    · rcases B.drawn m hm with h | h
      · rcases List.mem_append.1 h with h | h
        · exact .inl h
        · simp at h; subst h
          exact .inr ⟨hND, fun c hc => B.here c ((kid_iff h1 c).2 hc)⟩
      · exact .inr h
    · rcases B.from_ m hm with h | ⟨k, hk, h⟩
      · rcases List.mem_append.1 h with h | h
        · exact .inl h
        · exact .inr ⟨n, by simp, by simp at h; rw [h]⟩
      · exact .inr ⟨n, by simp, .head ((kid_iff h1 k).1 hk) h⟩
    · refine B.nodup ?_
      rw [List.nodup_append]
      refine ⟨h, by simp, fun a ha b hb => ?_⟩
      simp at hb; subst hb
      rintro rfl; exact hn ha
    · have hq : drawnNodes q.2 = D ++ [n] := by rw [V.fulls, hfull0, hf]
      have hfr := B.fulls hq
      rcases B.events hq e he with h | h
      · have hold : ∀ e ∈ out0, e ∈ out ∨ EventOk ha σ r.2 e := by
          intro e h
          rw [hout0] at h
          rcases List.mem_append.1 h with h | h
          · exact .inl h
          · simp at h; subst h
            exact .inr ⟨nd, st, h1, h2, rfl⟩
        cases e with
        | full m md s => exact hold _ (V.full m md s h)
        | invis i =>
          by_cases hi : VDraw.invis i ∈ out
          · exact .inl hi
          · exact .inr (by
              have := V.invis i h
              rcases hold _ this with h | h
              · exact absurd h hi
              · exact h)
        | dashed b m =>
          rcases V.dash b m h with h | ⟨i, op, t, tr, a⟩
          · exact hold _ h
          · exact .inr ⟨n, nd, i, op, t, tr, by rw [hfr]; exact hnD, h1, a⟩
        | edge a b l =>
          rcases V.edges a b l h with h | ⟨rfl, l', rfl, t1, t2, t3⟩
          · exact hold _ h
          · refine .inr (.inl ⟨n, nd, l', by rw [hfr]; exact hnD, h1, rfl, rfl, t1, t2, fun c hc => ?_,
              fun hb => (t3 hb).imp fun _ hm => B.keep hm⟩)
            obtain ⟨i, op, i1, i2, i3, -⟩ := t1
            rw [hfr]
            refine B.here c ((kid_iff h1 c).2 ⟨nd, i, op, h1, i1, i2, ?_⟩)
            rw [hc] at i3
            unfold childName at i3
            cases ho : op.child with
            | none => simp [ho] at i3
            | some c' => simp [ho] at i3; rw [i3]
      · exact .inr h

/-- What holds after some of the roots. -/
structure RootsDrew (ha : HA K) (σ : Core K) (i : ℕ) (D : List ℕ) (out : List VDraw) : Prop where
  fulls : drawnNodes out = D
  nodup : D.Nodup
  drawn : ∀ m ∈ D, NodeDrawn σ m out ∧ ∀ c, IsKid σ m c → c ∈ D
  from_ : ∀ m ∈ D, ∃ j x, j < i ∧ σ.roots[j]? = some x ∧ Relation.ReflTransGen (IsKid σ) x m
  here : ∀ j x, j < i → σ.roots[j]? = some x → x ∈ D
  events : ∀ e ∈ out, EventOk ha σ out e
  arrows : ∀ j x, j < i → σ.roots[j]? = some x → .invis j ∈ out ∧ .edge (.pre j) (.node x) none ∈ out

theorem vizRoots_drew {ha : HA K} {σ : Core K} {f : ℕ} (hr : σ.roots.Nodup)
    (hk : ∀ k c, IsKid σ k c → c ∉ σ.roots) : ∀ {l : List ℕ} {i : ℕ} {D : List ℕ} {out : List VDraw}
      {r : List ℕ × List VDraw}, σ.roots.drop i = l → RootsDrew ha σ i D out → vizRoots ha σ f i l D out = .ok r →
      RootsDrew ha σ σ.roots.length r.1 r.2
  | [], i, D, out, r, hl, h, e => by
    cases e
    have : σ.roots.length ≤ i := List.drop_eq_nil_iff.1 hl
    exact { h with
      from_ := fun m hm => by
        obtain ⟨j, x, -, b, c⟩ := h.from_ m hm
        exact ⟨j, x, lt_of_getElem? b, b, c⟩
      here := fun j x hj => h.here j x (by omega)
      arrows := fun j x hj hx => h.arrows j x (lt_of_lt_of_le (lt_of_getElem? hx) this) hx }
  | x :: l, i, D, out, r, hl, h, e => by
    simp only [vizRoots, bind_ok] at e
    obtain ⟨q, h1, h2⟩ := e
    have hx : σ.roots[i]? = some x := by
      have := congrArg List.head? hl
      simpa [List.head?_drop] using this
    have hxr : x ∈ σ.roots := List.mem_of_getElem? hx
    have hnew : x ∉ D := by
      intro hD
      obtain ⟨j, y, hj, hy, hp⟩ := h.from_ x hD
      rcases Relation.ReflTransGen.cases_tail hp with rfl | ⟨k, -, hkid⟩
      · have := (List.getElem?_inj (lt_of_getElem? hy) hr).1 (hy.trans hx.symm)
        omega
      · exact hk k x hkid hxr
    have A := vizNode_drew hnew h1
    have hf : drawnNodes (out ++ [.invis i, .edge (.pre i) (.node x) none]) = D := by
      rw [← h.fulls]
      simp [drawnNodes]
    have hsub : out ⊆ q.2 := fun z hz => A.keep (by simp [hz])
    refine vizRoots_drew hr hk ?_ ⟨A.fulls hf, A.nodup h.nodup, fun m hm => ?_, fun m hm => ?_, fun j y hj hy => ?_,
      fun e he => ?_, fun j y hj hy => ?_⟩ h2
    · have := congrArg List.tail hl
      simpa [List.tail_drop] using this
    · rcases A.drawn m hm with hm | hm
      · obtain ⟨a, b⟩ := h.drawn m hm
        exact ⟨a.mono hsub, fun c hc => A.keepD (b c hc)⟩
      · exact hm
    · rcases A.from_ m hm with hm | ⟨n, hn, hp⟩
      · obtain ⟨j, y, a, b⟩ := h.from_ m hm
        exact ⟨j, y, by omega, b⟩
      · simp at hn; subst hn
        exact ⟨i, n, by omega, hx, hp⟩
    · rcases Nat.lt_succ_iff_lt_or_eq.1 hj with hj | rfl
      · exact A.keepD (h.here j y hj hy)
      · rw [hx] at hy; cases hy
        exact A.here x (by simp)
    · rcases A.events hf e he with he | he
      · rcases List.mem_append.1 he with he | he
        · exact (h.events e he).mono hsub
        · simp at he
          rcases he with rfl | rfl
          · exact ⟨x, hx⟩
          · exact .inr ⟨i, x, rfl, hx, rfl, rfl⟩
      · exact he
    · rcases Nat.lt_succ_iff_lt_or_eq.1 hj with hj | rfl
      · exact ⟨hsub (h.arrows j y hj hy).1, hsub (h.arrows j y hj hy).2⟩
      · rw [hx] at hy; cases hy
        exact ⟨A.keep (by simp), A.keep (by simp)⟩

/-- **C67**, if the roots are different nodes and no node's children: the picture shows every node that can be
reached from a root, each once and nothing else, with its mode and, when it is complete, all its transition
operations; what it shows is right at the ends of every label; an arrow from nowhere leads to each root; the nodes of the waiting
operations are there. -/
theorem C67_picture_partial {ha : HA K} {σ : Core K} {f : ℕ} {out : List VDraw} (hr : σ.roots.Nodup)
    (hk : ∀ k c, IsKid σ k c → c ∉ σ.roots) (h : vizDag ha σ f = .ok out) :
    (drawnNodes out).Nodup ∧ (∀ n, n ∈ drawnNodes out ↔ FromRoot σ n) ∧
      (∀ n, FromRoot σ n → NodeDrawn σ n out) ∧ (∀ e ∈ out, EventOk ha σ out e) ∧
      (∀ i x, σ.roots[i]? = some x → .invis i ∈ out ∧ .edge (.pre i) (.node x) none ∈ out) ∧
      ∀ w ∈ σ.waiting, ∀ op, σ.ops[w]? = some op → ∀ p, op.parent = some p → p ∈ drawnNodes out := by
  simp only [vizDag, bind_ok, assert_ok, pure_ok] at h
  obtain ⟨r, h1, _, hw, rfl⟩ := h
  have A := vizRoots_drew (ha := ha) hr hk (i := 0) (D := []) (out := []) (l := σ.roots) (by simp)
    ⟨rfl, by simp, by simp, by simp, fun j x hj => by omega, by simp, fun j x hj => by omega⟩ h1
  have hf := A.fulls
  have hall : ∀ n, FromRoot σ n → n ∈ r.1 := by
    intro n hn
    induction hn with
    | root hx =>
      obtain ⟨j, hj⟩ := List.mem_iff_getElem?.1 hx
      exact A.here j _ (lt_of_getElem? hj) hj
    | kid _ hkid ih => exact (A.drawn _ ih).2 _ hkid
  refine ⟨by rw [hf]; exact A.nodup, fun n => ?_, fun n hn => (A.drawn n (hall n hn)).1, A.events,
    fun i x hx => A.arrows i x (lt_of_getElem? hx) hx, ?_⟩
  · rw [hf]
    refine ⟨fun hn => ?_, hall n⟩
    obtain ⟨j, x, -, hx, hp⟩ := A.from_ n hn
    induction hp with
    | refl => exact .root (List.mem_of_getElem? hx)
    | tail h0 h1 ih => exact .kid (ih (by
        have : ∀ {b}, Relation.ReflTransGen (IsKid σ) x b → b ∈ r.1 := fun hb =>
          hall _ (by
            induction hb with
            | refl => exact .root (List.mem_of_getElem? hx)
            | tail _ h ih => exact .kid ih h)
        exact this h0)) h1
  · rw [hf]
    exact hw

/-! ### Recursion depth -/

theorem drawGroups_err {ha : HA K} {n : ℕ} : ∀ gs : List (VGroup K), drawGroups ha n gs ≠ .error .memory
  | [], h => by cases h
  | g :: gs, h => by
    have := drawGroups_err gs (ha := ha) (n := n)
    unfold drawGroups at h
    cases hd : drawGroup ha n g with
    | error e =>
      rw [hd] at h
      simp only [bind, Except.bind, Except.error.injEq] at h
      subst h
      obtain ⟨x, l⟩ := g
      unfold drawGroup at hd
      cases hh : l.head? <;> cases hla : l.getLast? <;> simp [hh, hla, needSome, bind, Except.bind] at hd
      rename_i a b
      cases x <;> simp [pure, Except.pure] at hd
      cases ht : a.trans <;> simp [ht] at hd
      rename_i t
      cases htr : ha.trans[t]? <;> simp [htr] at hd
    | ok d =>
      rw [hd] at h
      cases hr : drawGroups ha n gs with
      | error e =>
        rw [hr] at h
        simp only [bind, Except.bind, Except.error.injEq] at h
        subst h
        exact this hr
      | ok r => rw [hr] at h; cases h

theorem vizOps_err {ha : HA K} {ops : List (OpTr K)} {n : ℕ} : ∀ (L : List NOp) (en : List (VGroup K))
    (out : List VDraw), vizOps ha ops n L en out ≠ .error .memory
  | [], en, out, h => by cases h
  | o :: L, en, out, h => by
    have hp : ∀ s en out, pruneGroups ha n s en out ≠ .error .memory := by
      intro s en out h
      unfold pruneGroups at h
      cases hd : drawGroups ha n (en.filter (oldGroup s)) with
      | error e =>
        rw [hd] at h
        simp only [bind, Except.bind, Except.error.injEq] at h
        subst h
        exact drawGroups_err _ hd
      | ok d => rw [hd] at h; cases h
    have ho : vizOp ha ops n en out o ≠ .error .memory := by
      intro h
      cases o with
      | tr i =>
        unfold vizOp at h
        cases hi : ops[i]? with
        | none => simp [hi, needSome, bind, Except.bind] at h
        | some op =>
          simp only [hi, needSome, bind, Except.bind] at h
          exact hp _ _ _ h
      | left s b =>
        unfold vizOp at h
        cases hd : drawGroups ha n en with
        | error e =>
          rw [hd] at h
          simp only [bind, Except.bind, Except.error.injEq] at h
          subst h
          exact drawGroups_err _ hd
        | ok d =>
          rw [hd] at h
          exact hp s [] (out ++ d) h
      | inv s j b => exact hp _ _ _ h
    unfold vizOps at h
    cases hq : vizOp ha ops n en out o with
    | error e =>
      rw [hq] at h
      simp only [bind, Except.bind, Except.error.injEq] at h
      subst h
      exact ho hq
    | ok q =>
      rw [hq] at h
      exact vizOps_err L q.1 q.2 h

theorem vizNode_deep {ha : HA K} {σ : Core K} : ∀ {f n : ℕ} {D : List ℕ} {out : List VDraw},
    n ∉ D → D.Nodup → (∀ m ∈ D, m < σ.nodes.length) → σ.nodes.length < D.length + f →
    vizNode ha σ f n D out ≠ .error .memory
  | 0, n, D, out, hn, hd, hlt, hf, h => by
    have : D.length ≤ σ.nodes.length := by
      have := (List.subperm_of_subset hd (fun m hm => List.mem_range.2 (hlt m hm))).length_le
      simpa using this
    omega
  | f + 1, n, D, out, hn, hd, hlt, hf, h => by
    have key : ∀ {l D' : List ℕ} {out' : List VDraw}, D'.Nodup → (∀ m ∈ D', m < σ.nodes.length) →
        σ.nodes.length < D'.length + f → vizList (vizNode ha σ f) l D' out' ≠ .error .memory := by
      intro l
      induction l with
      | nil => intro D' out' _ _ _ h; cases h
      | cons c l ih =>
        intro D' out' h1 h2 h3 h
        unfold vizList at h
        split at h
        · exact ih h1 h2 h3 h
        · rename_i hc
          cases hq : vizNode ha σ f c D' out' with
          | error e =>
            rw [hq] at h
            simp only [bind, Except.bind, Except.error.injEq] at h
            subst h
            exact vizNode_deep hc h1 h2 h3 hq
          | ok q =>
            rw [hq] at h
            have A := vizNode_drew hc hq
            refine ih (A.nodup h1) (fun m hm => ?_) ?_ h
            · rcases A.drawn m hm with h | ⟨⟨nd, st, a, -⟩, -⟩
              · exact h2 m h
              · exact lt_of_getElem? a
            · have := (List.subperm_of_subset h1 A.keepD).length_le
              omega
    rw [vizNode] at h
    cases hnd : σ.nodes[n]? with
    | none => simp [hnd, needSome, bind, Except.bind] at h
    | some nd =>
      simp only [hnd, needSome, bind, Except.bind] at h
      unfold assert at h
      split at h
      · rename_i hA
        split at hA <;> cases hA
        cases h
      · rename_i hA
        cases hs : σ.states[nd.state]? with
        | none => simp [hs] at h
        | some st =>
          simp only [hs] at h
          cases hq : vizOps ha σ.ops n nd.ops [] (out ++ [.full n st.mode (vizState nd st.stepIn)]) with
          | error e =>
            rw [hq] at h
            simp only [Except.error.injEq] at h
            subst h
            exact vizOps_err _ _ _ hq
          | ok q =>
            rw [hq] at h
            refine key ?_ (fun m hm => ?_) ?_ h
            · rw [List.nodup_append]
              refine ⟨hd, by simp, fun a ha b hb => ?_⟩
              simp at hb; subst hb
              rintro rfl; exact hn ha
            · rcases List.mem_append.1 hm with hm | hm
              · exact hlt m hm
              · simp at hm; subst hm
                exact lt_of_getElem? hnd
            · simp; omega

/-- **C67** The drawing ends: calls are nested at most as deep as there are nodes. -/
theorem C67_recursion {ha : HA K} {σ : Core K} {f n : ℕ} (hf : σ.nodes.length < f) (out : List VDraw) :
    vizNode ha σ f n [] out ≠ .error .memory :=
  vizNode_deep (by simp) (by simp) (by simp) (by simpa using hf)

end

/-! ### Examples -/

/-- `p' = v, v' = a`: a ball thrown upwards. -/
def gapDyn : Dyn ℚ :=
  ⟨3, fun k => ⟨3, 3, fun i j => if i = j then 1 else if i = 0 ∧ j = 1 then k else if i = 1 ∧ j = 2 then k
    else if i = 0 ∧ j = 2 then k * k / 2 else 0⟩, none, none⟩

/-- It may be caught where `p ≤ 3/2`. -/
def gapHA : HA ℚ :=
  { modes := [{ name := "fly", id := 0, a := some ⟨3, [[(1, 1)], [(2, 1)], []]⟩ },
      { name := "stop", id := 1, a := some ⟨3, [[], [], []]⟩ }]
    out := [[0], []]
    trans := [{ src := 0, dst := 1, index := 0, guard := some (⟨3, [[(0, 1)]]⟩, [3 / 2]) }] }

def gapEnv : Env ℚ :=
  { exEnv 3 0 (some { kind := .box }) with
    ha := gapHA
    dyn := fun i => if i = 0 then gapDyn
      else { gapDyn with ex := fun _ => ⟨3, 3, fun i j => if i = j then 1 else 0⟩ } }

/-- Analyse, then draw. -/
def drawAfter (E : Env ℚ) (l : List (ℕ × List (ℚ × ℚ))) (n : ℕ) : Except Err (Core ℚ × List VDraw) := do
  let σ ← analyse E l n
  let d ← vizDag E.ha σ 1000
  return (σ, d)

/-- What is drawn while node 0 of the ball's analysis is incomplete, and what in the end. -/
theorem gapEx_draws : okAnd (do
      let a ← drawAfter gapEnv [(0, [(0, 0), (2, 2), (-1, -1)])] 4
      let b ← drawAfter gapEnv [(0, [(0, 0), (2, 2), (-1, -1)])] 8
      return (a, b)) (fun r => (decide (r.1.1.nodes.map (fun n => n.ops.length) = [2]) &&
        decide (r.1.2 = [.invis 0, .edge (.pre 0) (.node 0) none, .full 0 0 (.incomplete 3)])) &&
      (r.2.1.isFinished gapEnv && decide (r.2.2 = [.invis 0, .edge (.pre 0) (.node 0) none, .full 0 0 (.steps 3 true),
        .edge (.node 0) (.node 1) (some (.range 1 3)), .full 1 1 (.steps 1 false)]) &&
        r.2.1.nodes[0]?.any (fun nd => nd.ops.all fun o => decide (o.stepAt r.2.1.ops ≠ some 2)))) = true := by
  decide +kernel

/-- **C67, negative.** A label claims steps at which the transition could not be taken: the ball can be caught
after 1 and after 3 steps, but not after 2; the label is `[1, 3]`. -/
theorem C67_label_bridges_gap : ∃ (E : Env ℚ) (l : List (ℕ × List (ℚ × ℚ))) (n f : ℕ) (σ : Core ℚ)
    (out : List VDraw) (nd : Node), analyse E l n = .ok σ ∧ σ.isFinished E = true ∧ vizDag E.ha σ f = .ok out ∧
      .edge (.node 0) (.node 1) (some (.range 1 3)) ∈ out ∧ σ.nodes[0]? = some nd ∧
      ¬ TakesAt σ.ops nd.ops 0 (.node 1) 2 := by
  obtain ⟨r, h, hr⟩ := okAnd_ok gapEx_draws
  simp only [bind_ok, pure_ok] at h
  obtain ⟨a, -, b, hb, rfl⟩ := h
  simp only [drawAfter, bind_ok, pure_ok] at hb
  obtain ⟨σ, h1, d, h2, rfl⟩ := hb
  simp only [Bool.and_eq_true, decide_eq_true_eq] at hr
  obtain ⟨-, ⟨hf, hd⟩, hn⟩ := hr
  obtain ⟨nd, hnd, hn⟩ : ∃ nd, σ.nodes[0]? = some nd ∧
      (nd.ops.all fun o => decide (o.stepAt σ.ops ≠ some 2)) = true := by
    cases h0 : σ.nodes[0]? with
    | none => rw [h0] at hn; cases hn
    | some nd => rw [h0] at hn; exact ⟨nd, rfl, hn⟩
  refine ⟨_, _, _, _, σ, d, nd, h1, hf, h2, by rw [hd]; simp, hnd, ?_⟩
  rintro ⟨i, op, hi, ho, -, hs⟩
  have := List.all_eq_true.1 hn _ hi
  simp only [decide_eq_true_eq, NOp.stepAt, ho, Option.map_some, hs] at this
  exact this rfl

/-- **C67, negative.** While a node is incomplete, its last transitions are not drawn: two operations have been
recorded, and there is no edge from the node. -/
theorem C67_incomplete_loses_edges : ∃ (E : Env ℚ) (l : List (ℕ × List (ℚ × ℚ))) (n f : ℕ) (σ : Core ℚ)
    (out : List VDraw), analyse E l n = .ok σ ∧ vizDag E.ha σ f = .ok out ∧
      σ.nodes.map (fun n => n.ops.length) = [2] ∧ ∀ b l, .edge (.node 0) b l ∉ out := by
  obtain ⟨r, h, hr⟩ := okAnd_ok gapEx_draws
  simp only [bind_ok, pure_ok] at h
  obtain ⟨a, ha, b, -, rfl⟩ := h
  simp only [drawAfter, bind_ok, pure_ok] at ha
  obtain ⟨σ, h1, d, h2, rfl⟩ := ha
  simp only [Bool.and_eq_true, decide_eq_true_eq] at hr
  obtain ⟨⟨hn, hd⟩, -⟩ := hr
  exact ⟨_, _, _, _, σ, d, h1, h2, hn, fun b l => by rw [hd]; simp⟩

/-- `exRun` with the error mode behind `x ≥ 1`. -/
theorem errEx_draws : okAnd (drawAfter (exEnv 3 1 none) [(0, [(0, 0), (1, 1)])] 8) (fun r =>
    (r.1.isFinished (exEnv 3 1 none) && decide (r.1.verdict = .reachable)) &&
    (decide (r.1.roots = [0]) && (r.1.nodes.all fun nd => (vizKids r.1.ops nd).all fun c => decide (c ∉ r.1.roots))) &&
    decide (r.2 = [.invis 0, .edge (.pre 0) (.node 0) none, .full 0 0 (.steps 3 true),
      .edge (.node 0) (.node 1) (some (.one 2)), .dashed (.out 0 (some 0)) 1,
      .edge (.node 0) (.out 0 (some 0)) (some (.one 3)), .full 1 1 (.incomplete 1)])) = true := by
  decide +kernel

/-- **C67, negative.** When the analysis has stopped because an error mode is reachable, the picture need not show
any transition into an error mode. -/
theorem C67_error_not_drawn : ∃ (E : Env ℚ) (l : List (ℕ × List (ℚ × ℚ))) (n f : ℕ) (σ : Core ℚ)
    (out : List VDraw), analyse E l n = .ok σ ∧ σ.isFinished E = true ∧ σ.verdict = .reachable ∧
      vizDag E.ha σ f = .ok out ∧ (∃ m, E.ha.modes[2]? = some m ∧ m.isError = true) ∧
      ∀ i m, E.ha.modes[i]? = some m → m.isError = true → (∀ k s, .full k i s ∉ out) ∧ ∀ b, .dashed b i ∉ out := by
  obtain ⟨r, h, hr⟩ := okAnd_ok errEx_draws
  simp only [drawAfter, bind_ok, pure_ok] at h
  obtain ⟨σ, h1, d, h2, rfl⟩ := h
  simp only [Bool.and_eq_true, decide_eq_true_eq] at hr
  obtain ⟨⟨⟨hf, hv⟩, -⟩, hd⟩ := hr
  refine ⟨_, _, _, _, σ, d, h1, hf, hv, h2, ⟨_, rfl, rfl⟩, fun i m hm he => ?_⟩
  have hi : i ≠ 0 ∧ i ≠ 1 := by
    constructor <;> rintro rfl <;> simp [exEnv, exRunHA] at hm <;> subst hm <;> simp [Mode.isError] at he
  rw [hd]
  constructor
  · intro k s
    simp only [List.mem_cons, reduceCtorEq, VDraw.full.injEq, false_or, List.not_mem_nil, or_false]
    omega
  · intro b
    simp only [List.mem_cons, reduceCtorEq, VDraw.dashed.injEq, false_or, List.not_mem_nil, or_false]
    omega

/-- The same picture meets the hypotheses of `C67_picture_partial`. -/
example : ∃ (σ : Core ℚ) (out : List VDraw), σ.roots.Nodup ∧ (∀ k c, IsKid σ k c → c ∉ σ.roots) ∧
    vizDag (exEnv 3 1 none).ha σ 1000 = .ok out ∧ drawnNodes out = [0, 1] := by
  obtain ⟨r, h, hr⟩ := okAnd_ok errEx_draws
  simp only [drawAfter, bind_ok, pure_ok] at h
  obtain ⟨σ, h1, d, h2, rfl⟩ := h
  simp only [Bool.and_eq_true, decide_eq_true_eq] at hr
  obtain ⟨⟨-, hro, hk⟩, hd⟩ := hr
  refine ⟨σ, d, by simp [hro], fun k c hkc => ?_, h2, by rw [hd]; rfl⟩
  obtain ⟨nd, i, op, h3, -⟩ := id hkc
  have := List.all_eq_true.1 (List.all_eq_true.1 hk nd (List.mem_of_getElem? h3)) c ((kid_iff h3 c).2 hkc)
  exact of_decide_eq_true this

end Hylaa
