import Verif.Proofs.CoreReplay
import Verif.Proofs.CoreRun

/-! # A whole replay -/

namespace Hylaa

set_option linter.unusedSectionVars false

variable {K : Type} [Field K] [LinearOrder K] [IsStrictOrderedRing K] [JumpAt K]

/-- One operation for one child. -/
theorem replayOp_spec {E : Env K} (hE : E.OkJ) {X0 : ℕ → (ℕ → K) → Prop} {gh : Ghost K}
    {σ : Core K} {L A : List ℕ} (hB : Body E X0 σ gh L A) {old idx k : ℕ} {o : NOp}
    {ndo nd : Node} (hk : k ∈ A) (hoA : old ∉ A)
    (h : Kid E gh σ (fun o => o ∈ σ.waiting ∨ o ∈ L) old idx k ndo nd)
    (ho : ndo.ops[idx]? = some o) {t : List ((ℕ × ℕ) × List ℕ)}
    {r : Core K × List ((ℕ × ℕ) × List ℕ)} (hr : replayOp E σ k o t = .ok r) :
    Flag E r.1 ∨ ∃ gh' nd' L', Body E X0 r.1 gh' L' A ∧ Frm E gh σ gh' r.1 k ∧
      Kid E gh' r.1 (fun o => o ∈ r.1.waiting ∨ o ∈ L') old (idx + 1) k ndo nd' ∧
      ((r.2 = t ∧ L' = L ∧ (r.1.waiting = σ.waiting ∨ r.1.waiting = σ.waiting ++ [σ.ops.length])) ∨
        ∃ oid, o = .tr oid ∧ TrRes gh' σ r.1 L L' k oid t r.2) ∧
      (o.isLeft = true → LeftLast nd'.ops) := by
  have hok : old ≠ k := fun hc => hoA (hc ▸ hk)
  simp only [replayOp, bind_ok, needSome_ok] at hr
  obtain ⟨n, hn, hr⟩ := hr
  rw [h.nkid] at hn; cases hn
  rcases h.st with ⟨hl, hd⟩ | ⟨st, c, ha⟩
  · rw [if_pos (leftLast_left hl)] at hr
    cases hr
    exact .inr ⟨gh, nd, L, hB, Frm.refl _ _ _ _, ⟨h.nold, h.nkid, h.sub, h.mn, h.pend, .inl ⟨hl, hd⟩⟩,
      .inl ⟨rfl, rfl, .inl rfl⟩, fun _ => hl⟩
  · rw [if_neg (by rw [noLeft_left ha.node.noLeft]; simp)] at hr
    cases o with
    | left s b =>
      cases hr
      obtain ⟨hl, hdone⟩ := hB.done old ndo hoA h.nold
      have hd := Act.leaveLast hdone hl h.sub h.mn ha.done ho
      obtain ⟨b1, b2⟩ := Kid.left (idx := idx + 1) (s := s) (b := b) hB hk h.nold h.nkid hok h.sub h.mn
        h.pend ha.node.noLeft hd
      exact .inr ⟨gh, _, L, b1, Frm.push _ _ _ _ _, b2, .inl ⟨rfl, rfl, .inl rfl⟩,
        fun _ => ⟨nd.ops, s, b, rfl, ha.node.noLeft⟩⟩
    | tr oid =>
      rcases replayTr_spec hE hB hk hoA h ha ho hr with hf | ⟨gh', nd', L', b1, b2, b3, b4⟩
      · exact .inl hf
      · exact .inr ⟨gh', nd', L', b1, b2, b3, .inr ⟨oid, rfl, b4⟩, fun hc => by cases hc⟩
    | inv s i b =>
      simp only [bind_ok, pure_ok] at hr
      obtain ⟨σ', hi, rfl⟩ := hr
      obtain ⟨nd', b1, b2, b3, b4, b5⟩ := replayInv_spec hE hB hk hoA h ha ho hi
      refine .inr ⟨gh, nd', L, b1, b2, ?_, .inl ⟨rfl, rfl, .inl b4⟩, fun hc => by cases hc⟩
      simp only [b4]
      exact b3

/-! ### `nodes_to_ops` -/

theorem addToOps_perm (key : ℕ × ℕ) (o : ℕ) : ∀ l : List ((ℕ × ℕ) × List ℕ),
    ((addToOps l key o).flatMap fun e => e.2).Perm (o :: l.flatMap fun e => e.2)
  | [] => by simp [addToOps]
  | (k', os) :: l => by
    unfold addToOps
    split
    · simp only [List.flatMap_cons, List.append_assoc, List.singleton_append]
      exact List.perm_middle
    · simp only [List.flatMap_cons]
      exact ((addToOps_perm key o l).append_left os).trans List.perm_middle

theorem addToOps_mem (key : ℕ × ℕ) (o : ℕ) : ∀ (l : List ((ℕ × ℕ) × List ℕ)) {e},
    e ∈ addToOps l key o → e ∈ l ∨ (e.1 = key ∧ e.2 ≠ [] ∧
      ∀ o' ∈ e.2, o' = o ∨ ∃ e' ∈ l, e'.1 = key ∧ o' ∈ e'.2)
  | [], e, h => by
    simp only [addToOps, List.mem_singleton] at h
    subst h
    exact .inr ⟨rfl, by simp, fun o' ho' => .inl (by simpa using ho')⟩
  | (k', os) :: l, e, h => by
    unfold addToOps at h
    split at h
    · rename_i hk
      rcases List.mem_cons.1 h with rfl | h
      · refine .inr ⟨hk, by simp, fun o' ho' => ?_⟩
        rcases List.mem_append.1 ho' with q | q
        · exact .inr ⟨_, List.mem_cons_self, hk, q⟩
        · exact .inl (by simpa using q)
      · exact .inl (List.mem_cons_of_mem _ h)
    · rcases List.mem_cons.1 h with rfl | h
      · exact .inl List.mem_cons_self
      · rcases addToOps_mem key o l h with q | ⟨q1, q2, q3⟩
        · exact .inl (List.mem_cons_of_mem _ q)
        · refine .inr ⟨q1, q2, fun o' ho' => ?_⟩
          rcases q3 o' ho' with q | ⟨e', q⟩
          · exact .inl q
          · exact .inr ⟨e', List.mem_cons_of_mem _ q.1, q.2⟩

/-! ### The state of a replay -/

/-- One entry of `nodes_to_ops`: new operations of kid `e.1.1` for the refined old node `e.1.2`. -/
structure EntOk (gh : Ghost K) (σ : Core K) (lo B : ℕ) (e : (ℕ × ℕ) × List ℕ) : Prop where
  lo : lo ≤ e.1.2
  hi : e.1.2 < B
  kid : B ≤ e.1.1
  ne : e.2 ≠ []
  ops : ∃ ndc, σ.nodes[e.1.2]? = some ndc ∧ ∀ o ∈ e.2, ∃ op, σ.ops[o]? = some op ∧ op.child = none ∧
    op.parent = some e.1.1 ∧ o ∉ σ.waiting ∧ gh.M o = gh.MN e.1.2 ∧ ∀ x n, gh.G o x n → gh.GP ndc x n

/-- One child being replayed (or waiting for it): `(child, old node, operations done)`. -/
structure JobOk (E : Env K) (gh : Ghost K) (σ : Core K) (lo B : ℕ) (L : List ℕ) (j : ℕ × ℕ × ℕ) : Prop where
  lo : lo ≤ j.2.1
  hi : j.2.1 < B
  new : B ≤ j.1
  kid : ∃ ndo nd, Kid E gh σ (fun o => o ∈ σ.waiting ∨ o ∈ L) j.2.1 j.2.2 j.1 ndo nd ∧
    (j.2.2 = 0 → nd.ops = []) ∧ (j.2.2 < ndo.ops.length ∨ LeftLast nd.ops)

/-- **The state of a replay**: the old nodes `lo ≤ ν < B` are replaced by the children in `J`;
`T` is `nodes_to_ops`. -/
structure Rp (E : Env K) (X0 : ℕ → (ℕ → K) → Prop) (σ : Core K) (gh : Ghost K) (lo B : ℕ)
    (T : List ((ℕ × ℕ) × List ℕ)) (J : List (ℕ × ℕ × ℕ)) : Prop where
  body : Body E X0 σ gh (T.flatMap fun e => e.2) (J.map fun j => j.1)
  on : E.deaggOn
  len : B ≤ σ.nodes.length
  closed : ∀ (ν : ℕ) nd (o : ℕ) op c, lo ≤ ν → ν < B → σ.nodes[ν]? = some nd → NOp.tr o ∈ nd.ops →
    σ.ops[o]? = some op → op.child = some c → lo ≤ c ∧ c < B
  jobs : ∀ j ∈ J, JobOk E gh σ lo B (T.flatMap fun e => e.2) j
  nodup : (J.map fun j => j.1).Nodup
  ents : ∀ e ∈ T, EntOk gh σ lo B e
  tnodup : (T.flatMap fun e => e.2).Nodup
  cur : σ.cur = none
  tt : σ.tookTt = false

theorem Rp.oldA {E : Env K} {X0 : ℕ → (ℕ → K) → Prop} {σ : Core K} {gh : Ghost K} {lo B : ℕ}
    {T : List ((ℕ × ℕ) × List ℕ)} {J : List (ℕ × ℕ × ℕ)} (h : Rp E X0 σ gh lo B T J) {ν : ℕ}
    (hν : ν < B) : ν ∉ J.map fun j => j.1 := fun hc => by
  obtain ⟨j, hj, rfl⟩ := List.mem_map.1 hc
  have := (h.jobs j hj).new
  omega

theorem EntOk.frm {E : Env K} {X0 : ℕ → (ℕ → K) → Prop} {gh gh' : Ghost K} {σ σ' : Core K}
    {L A : List ℕ} (hB : Body E X0 σ gh L A) {lo B k : ℕ} {e : (ℕ × ℕ) × List ℕ}
    (h : EntOk gh σ lo B e) (hf : Frm E gh σ gh' σ' k) (hk : B ≤ k)
    (hw : σ'.waiting = σ.waiting ∨ σ'.waiting = σ.waiting ++ [σ.ops.length]) : EntOk gh' σ' lo B e := by
  obtain ⟨ndc, h1, h2⟩ := h.ops
  refine ⟨h.lo, h.hi, h.kid, h.ne, ndc, ?_, fun o ho => ?_⟩
  · rw [hf.node _ (by have := h.hi; omega)]; exact h1
  · obtain ⟨op, q1, q2, q3, q4, q5, q6⟩ := h2 o ho
    have hlt := lt_of_getElem? q1
    refine ⟨op, hf.keep _ _ q1, q2, q3, ?_, ?_, fun x n hx => ?_⟩
    · rcases hw with hw | hw
      · rw [hw]; exact q4
      · rw [hw]
        simp only [List.mem_append, List.mem_singleton, not_or]
        exact ⟨q4, by omega⟩
    · rw [hf.ext.M _ hlt, hf.ext.MN _ (lt_of_getElem? h1)]; exact q5
    · rw [hf.ext.G _ hlt] at hx
      exact (hf.ext.GP (nd := ndc) (l := ndc.ops) (hB.parlt h1) x n).2 (q6 x n hx)

theorem leftLast_lt {l : List NOp} (h : LeftLast l) {i : ℕ} {o : NOp} (ho : l[i]? = some o)
    (hn : o.isLeft = false) : i + 1 < l.length := by
  obtain ⟨l', s, b, rfl, -⟩ := h
  have h1 := lt_of_getElem? ho
  simp only [List.length_append, List.length_singleton] at h1 ⊢
  by_contra hc
  have : i = l'.length := by omega
  subst this
  rw [List.getElem?_concat_length] at ho
  cases ho; cases hn

/-- One operation for one child keeps the replay state. -/
theorem Rp.op {E : Env K} (hE : E.OkJ) {X0 : ℕ → (ℕ → K) → Prop} {σ : Core K} {gh : Ghost K} {lo B : ℕ}
    {T : List ((ℕ × ℕ) × List ℕ)} {J1 J2 : List (ℕ × ℕ × ℕ)} {k p i : ℕ}
    (h : Rp E X0 σ gh lo B T (J1 ++ (k, p, i) :: J2)) {pn : Node} (hp : σ.nodes[p]? = some pn) {o : NOp}
    (ho : pn.ops[i]? = some o) {r : Core K × List ((ℕ × ℕ) × List ℕ)}
    (hr : replayOp E σ k o T = .ok r) :
    Flag E r.1 ∨ ∃ gh', Rp E X0 r.1 gh' lo B r.2 (J1 ++ (k, p, i + 1) :: J2) ∧
      r.1.nodes[p]? = some pn ∧ r.1.queue = σ.queue ∧ r.1.rep = σ.rep := by
  have hj := h.jobs (k, p, i) (by simp)
  obtain ⟨ndo, nd, hkid, h0, hlen⟩ := hj.kid
  simp only at hkid h0 hlen
  obtain rfl : pn = ndo := Option.some.inj (hp.symm.trans hkid.nold)
  have hpB : p < B := hj.hi
  have hkB : B ≤ k := hj.new
  have hoA := h.oldA hpB
  have hkA : k ∈ (J1 ++ (k, p, i) :: J2).map fun j => j.1 := by simp
  have hA : ((J1 ++ (k, p, i + 1) :: J2).map fun j => j.1) = (J1 ++ (k, p, i) :: J2).map fun j => j.1 := by simp
  rcases replayOp_spec hE h.body hkA hoA hkid ho hr with hf | ⟨gh', nd', L', hB', hF, hK', hres, hleft⟩
  · exact .inl hf
  right
  have hkl : k < σ.nodes.length := lt_of_getElem? hkid.nkid
  have hwl : (∀ o, o ∈ L' ↔ o ∈ r.2.flatMap fun e => e.2) ∧ (∀ o ∈ T.flatMap (fun e => e.2), o ∈ L') ∧
      (r.1.waiting = σ.waiting ∨ r.1.waiting = σ.waiting ++ [σ.ops.length]) ∧
      (r.2.flatMap fun e => e.2).Nodup ∧ ∀ e ∈ r.2, EntOk gh' r.1 lo B e := by
    rcases hres with ⟨q1, q2, q3⟩ | ⟨oid, rfl, ⟨q1, q2, q3⟩ | ⟨c, opo, ndc, op, q1, q2, q3, q4, q5, q6, q7, q8, q9, q10, q11⟩⟩
    · rw [q1, q2]
      exact ⟨fun o => Iff.rfl, fun o ho => ho, q3, h.tnodup, fun e he => (h.ents e he).frm h.body hF hkB q3⟩
    · rw [q1, q2]
      exact ⟨fun o => Iff.rfl, fun o ho => ho, q3, h.tnodup, fun e he => (h.ents e he).frm h.body hF hkB q3⟩
    · have hperm := addToOps_perm (k, c) σ.ops.length T
      have hnew : σ.ops.length ∉ T.flatMap fun e => e.2 := fun hc => by
        obtain ⟨op', hop'⟩ := h.body.held _ hc
        have := lt_of_getElem? hop'
        omega
      have hnw : σ.ops.length ∉ σ.waiting := fun hc => by
        obtain ⟨op', hop', -⟩ := h.body.wait _ hc
        have := lt_of_getElem? hop'
        omega
      obtain ⟨c1, c2⟩ := h.closed p pn oid opo c hj.lo hpB hp (List.mem_of_getElem? ho) q1 q2
      rw [q4, q5]
      refine ⟨fun o => (hperm.mem_iff).symm, fun o ho => List.mem_cons_of_mem _ ho, .inl q6,
        hperm.nodup_iff.2 (List.nodup_cons.2 ⟨hnew, h.tnodup⟩), fun e he => ?_⟩
      rcases addToOps_mem _ _ _ he with he | ⟨e1, e2, e3⟩
      · exact (h.ents e he).frm h.body hF hkB (.inl q6)
      · have hnc : r.1.nodes[c]? = some ndc := by rw [hF.node _ (by omega)]; exact q3
        refine ⟨by rw [e1]; exact c1, by rw [e1]; exact c2, by rw [e1]; exact hkB, e2, ndc, by rw [e1]; exact hnc, fun o' ho' => ?_⟩
        rcases e3 o' ho' with rfl | ⟨e', r1, r2, r3⟩
        · rw [e1]
          exact ⟨op, q7, q8, q9, by rw [q6]; exact hnw, q10, q11⟩
        · obtain ⟨ndc', s1, s2⟩ := ((h.ents e' r1).frm h.body hF hkB (.inl q6)).ops
          rw [r2] at s1 s2
          simp only at s1 s2
          obtain rfl : ndc = ndc' := Option.some.inj (hnc.symm.trans s1)
          rw [e1]
          exact s2 o' r3
  obtain ⟨w1, w2, w3, w4, w5⟩ := hwl
  have hWW : ∀ o, (o ∈ σ.waiting ∨ o ∈ T.flatMap fun e => e.2) →
      (o ∈ r.1.waiting ∨ o ∈ r.2.flatMap fun e => e.2) := by
    intro o ho
    rcases ho with ho | ho
    · left
      rcases w3 with w3 | w3 <;> rw [w3]
      · exact ho
      · exact List.mem_append_left _ ho
    · exact .inr ((w1 o).1 (w2 o ho))
  refine ⟨gh', ⟨?_, h.on, ?_, ?_, ?_, ?_, w5, w4, ?_, ?_⟩, ?_, hF.queue, hF.rep⟩
  · rw [hA]
    exact hB'.congr (fun o => (w1 o).symm) fun _ => Iff.rfl
  · rw [hF.len]; exact h.len
  · intro ν nd0 o' op c h1 h2 h3 h4 h5 h6
    rw [hF.node ν (by omega)] at h3
    obtain ⟨op', g1, -⟩ := h.body.ndOps _ _ _ h3 h4
    have := hF.keep _ _ g1
    rw [h5] at this; cases this
    exact h.closed ν nd0 o' op c h1 h2 h3 h4 g1 h6
  · intro j hjm
    have hcase : j = (k, p, i + 1) ∨ (j ∈ J1 ++ (k, p, i) :: J2 ∧ j.1 ≠ k) := by
      have hnd := h.nodup
      simp only [List.map_append, List.map_cons, List.nodup_append, List.nodup_cons] at hnd
      obtain ⟨-, ⟨n2, -⟩, n3⟩ := hnd
      rcases List.mem_append.1 hjm with q | q
      · exact .inr ⟨by simp [q], fun hc => n3 j.1 (List.mem_map.2 ⟨j, q, rfl⟩) k (by simp) hc⟩
      · rcases List.mem_cons.1 q with q | q
        · exact .inl q
        · exact .inr ⟨by simp [q], fun hc => n2 (List.mem_map.2 ⟨j, q, hc⟩)⟩
    rcases hcase with rfl | ⟨q1, q2⟩
    · refine ⟨hj.lo, hj.hi, hj.new, pn, nd', ?_, fun hc => ?_, ?_⟩
      · simp only
        exact ⟨hK'.nold, hK'.nkid, hK'.sub, hK'.mn, fun o ho => (hK'.pend o ho).imp id (w1 o).1, hK'.st⟩
      · simp at hc
      · simp only
        cases hol : o.isLeft with
        | true => exact .inr (hleft hol)
        | false => exact .inl (leftLast_lt (h.body.done p pn hoA hp).1 ho hol)
    · have hj' := h.jobs j q1
      obtain ⟨ndo2, nd2, k1, k2, k3⟩ := hj'.kid
      exact ⟨hj'.lo, hj'.hi, hj'.new, ndo2, nd2,
        k1.other h.body hF q2 (by have := hj'.hi; omega) hWW, k2, k3⟩
  · rw [hA]; exact h.nodup
  · rw [hF.cur]; exact h.cur
  · rw [hF.tt]; exact h.tt
  · rw [hF.node p (by omega)]; exact hp

/-- One operation for all children. -/
theorem Rp.kids {E : Env K} (hE : E.OkJ) {X0 : ℕ → (ℕ → K) → Prop} {lo B : ℕ} {p i : ℕ} {pn : Node} {o : NOp}
    (ho : pn.ops[i]? = some o) : ∀ (ks : List ℕ) {σ : Core K} {gh : Ghost K}
    {T : List ((ℕ × ℕ) × List ℕ)} {J1 J2 : List (ℕ × ℕ × ℕ)}
    {r : Core K × List ((ℕ × ℕ) × List ℕ)},
    Rp E X0 σ gh lo B T (J1 ++ (ks.map fun k => (k, p, i)) ++ J2) → σ.nodes[p]? = some pn →
    replayKids E o σ ks T = .ok r →
    Flag E r.1 ∨ ∃ gh', Rp E X0 r.1 gh' lo B r.2 (J1 ++ (ks.map fun k => (k, p, i + 1)) ++ J2) ∧
      r.1.nodes[p]? = some pn ∧ r.1.queue = σ.queue ∧ r.1.rep = σ.rep
  | [], σ, gh, T, J1, J2, r, h, hp, hr => by
    cases hr
    exact .inr ⟨gh, by simpa using h, hp, rfl, rfl⟩
  | k :: ks, σ, gh, T, J1, J2, r, h, hp, hr => by
    simp only [replayKids, bind_ok] at hr
    obtain ⟨q, hq, hr⟩ := hr
    rw [List.map_cons, List.append_assoc, List.cons_append] at h
    rcases h.op hE hp ho hq with hf | ⟨gh1, h1, h2, h3, h4⟩
    · exact .inl ((replayKids_le ks hr).flag hf)
    · rw [show J1 ++ (k, p, i + 1) :: ((ks.map fun k => (k, p, i)) ++ J2) =
        (J1 ++ [(k, p, i + 1)]) ++ (ks.map fun k => (k, p, i)) ++ J2 by simp] at h1
      rcases Rp.kids hE ho ks h1 h2 hr with hf | ⟨gh2, g1, g2, g3, g4⟩
      · exact .inl hf
      · exact .inr ⟨gh2, by simpa using g1, g2, g3.trans h3, g4.trans h4⟩

/-- Operations are processed in order, none is skipped. -/
theorem Rp.loop {E : Env K} (hE : E.OkJ) {X0 : ℕ → (ℕ → K) → Prop} {lo B : ℕ} {p : ℕ} {pn : Node}
    {ks : List ℕ} {J2 : List (ℕ × ℕ × ℕ)} : ∀ (ops : List NOp) {σ : Core K} {gh : Ghost K}
    {T : List ((ℕ × ℕ) × List ℕ)} {i i0 cur k : ℕ} {only lft : Bool}
    {r : Core K × (ℕ × Bool × ℕ × List ((ℕ × ℕ) × List ℕ))},
    Rp E X0 σ gh lo B T ((ks.map fun k => (k, p, i)) ++ J2) → σ.nodes[p]? = some pn →
    ops = pn.ops.drop i → i = i0 + k →
    replayLoop E ks σ ops cur only lft k T = .ok r →
    Flag E r.1 ∨ ∃ gh', Rp E X0 r.1 gh' lo B r.2.2.2.2 ((ks.map fun k => (k, p, i0 + r.2.2.2.1)) ++ J2) ∧
      r.1.nodes[p]? = some pn ∧ r.1.queue = σ.queue ∧ r.1.rep = σ.rep
  | [], σ, gh, T, i, i0, cur, k, only, lft, r, h, hp, ho, hi, hr => by
    cases hr
    subst hi
    exact .inr ⟨gh, h, hp, rfl, rfl⟩
  | o :: ops, σ, gh, T, i, i0, cur, k, only, lft, r, h, hp, ho, hi, hr => by
    simp only [replayLoop, bind_ok] at hr
    obtain ⟨s, -, hr⟩ := hr
    have hoi : pn.ops[i]? = some o := by
      rw [← List.head?_drop, ← ho]; rfl
    have hops : ops = pn.ops.drop (i + 1) := by
      rw [← List.tail_drop, ← ho]; rfl
    generalize hc : (if (decide (s > cur) && !only) = true then cur + 1 else cur) = c' at hr
    generalize ho : (only || (decide (s > cur) && !only)) = o' at hr
    split at hr
    · cases hr
      subst hi
      exact .inr ⟨gh, h, hp, rfl, rfl⟩
    · split at hr
      · cases hr
        subst hi
        exact .inr ⟨gh, h, hp, rfl, rfl⟩
      · simp only [bind_ok] at hr
        obtain ⟨q, hq, hr⟩ := hr
        rcases Rp.kids hE (J1 := []) hoi ks (by simpa using h) hp hq with hf | ⟨gh1, h1, h2, h3, h4⟩
        · exact .inl ((replayLoop_le ops hr).flag hf)
        · rcases Rp.loop hE ops (i := i + 1) (i0 := i0) (by simpa using h1) h2 hops (by omega) hr with hf | ⟨gh2, g1, g2, g3, g4⟩
          · exact .inl hf
          · exact .inr ⟨gh2, g1, g2, g3.trans h3, g4.trans h4⟩

theorem Rp.advance1 {E : Env K} (hE : E.OkJ) {X0 : ℕ → (ℕ → K) → Prop} {σ σ' : Core K} {gh : Ghost K}
    {lo B : ℕ} {T : List ((ℕ × ℕ) × List ℕ)} {J : List (ℕ × ℕ × ℕ)} (h : Rp E X0 σ gh lo B T J) {k cur : ℕ}
    (hk : k ∈ J.map fun j => j.1) {n : Node} (hn : σ.nodes[k]? = some n) (hl : n.left = false)
    (hs : stepState E σ n.state (some cur) = .ok σ') :
    Rp E X0 σ' gh lo B T J ∧ σ'.nodes = σ.nodes ∧ σ'.queue = σ.queue ∧ σ'.rep = σ.rep := by
  obtain ⟨j, hj, rfl⟩ := List.mem_map.1 hk
  have hjo := h.jobs j hj
  obtain ⟨ndo, nd, k1, k2, k3⟩ := hjo.kid
  obtain rfl : n = nd := Option.some.inj (hn.symm.trans k1.nkid)
  have ⟨st, c, ha⟩ : ∃ st c, Act E gh σ ndo n j.2.2 j.1 st c := by
    rcases k1.st with q | q
    · rw [leftLast_left q.1] at hl; cases hl
    · exact q
  obtain ⟨te, st', rfl, b1, b2, -, -, b5, -⟩ := stepState_spec hE h.body ha.node hs
  have hF : Frm E gh σ gh { σ.setState n.state st' with te := te } j.1 := Frm.setSt h.body k1.nkid st' te
  refine ⟨⟨b1, h.on, h.len, h.closed, fun j' hj' => ?_, h.nodup, fun e he => ?_, h.tnodup, h.cur, h.tt⟩,
    rfl, rfl, rfl⟩
  · have hjo' := h.jobs j' hj'
    by_cases hjj : j'.1 = j.1
    · have : j' = j := List.inj_on_of_nodup_map h.nodup hj' hj hjj
      subst this
      exact ⟨hjo.lo, hjo.hi, hjo.new, ndo, n, ⟨k1.nold, k1.nkid, k1.sub, k1.mn, k1.pend,
        .inr ⟨st', c, b2, ha.cOk, ha.inv, ha.done⟩⟩, k2, k3⟩
    · obtain ⟨ndo2, nd2, m1, m2, m3⟩ := hjo'.kid
      refine ⟨hjo'.lo, hjo'.hi, hjo'.new, ndo2, nd2, m1.other h.body hF hjj ?_ (fun o ho => ho), m2, m3⟩
      have := hjo'.hi
      have := hjo.new
      omega
  · exact (h.ents e he).frm h.body hF hjo.new (.inl rfl)

theorem Rp.advance {E : Env K} (hE : E.OkJ) {X0 : ℕ → (ℕ → K) → Prop} {gh : Ghost K}
    {lo B : ℕ} {T : List ((ℕ × ℕ) × List ℕ)} {J : List (ℕ × ℕ × ℕ)} {cur : ℕ} {chk : Bool} : ∀ (ks : List ℕ)
    {σ σ' : Core K}, Rp E X0 σ gh lo B T J → (∀ k ∈ ks, k ∈ J.map fun j => j.1) →
    advanceKids E cur chk σ ks = .ok σ' →
    Rp E X0 σ' gh lo B T J ∧ σ'.nodes = σ.nodes ∧ σ'.queue = σ.queue ∧ σ'.rep = σ.rep
  | [], σ, σ', h, _, hr => by
    cases hr
    exact ⟨h, rfl, rfl, rfl⟩
  | k :: ks, σ, σ', h, hk, hr => by
    simp only [advanceKids, bind_ok, needSome_ok] at hr
    obtain ⟨n, hn, σ1, h1, hr⟩ := hr
    have : Rp E X0 σ1 gh lo B T J ∧ σ1.nodes = σ.nodes ∧ σ1.queue = σ.queue ∧ σ1.rep = σ.rep := by
      split at h1
      · cases h1; exact ⟨h, rfl, rfl, rfl⟩
      · rename_i hl
        simp only [bind_ok, needSome_ok, pure_ok] at h1
        obtain ⟨σ2, h2, st, -, -, -, rfl⟩ := h1
        exact h.advance1 hE (hk k (by simp)) hn (by simpa using hl) h2
    obtain ⟨a1, a2, a3, a4⟩ := this
    obtain ⟨b1, b2, b3, b4⟩ := Rp.advance hE ks a1 (fun k' hk' => hk k' (by simp [hk'])) hr
    exact ⟨b1, b2.trans a2, b3.trans a3, b4.trans a4⟩

/-! ### Finishing -/

/-- Children that have left are dropped. -/
theorem Rp.drop {E : Env K} {X0 : ℕ → (ℕ → K) → Prop} {σ : Core K} {gh : Ghost K}
    {lo B : ℕ} {T : List ((ℕ × ℕ) × List ℕ)} {J2 : List (ℕ × ℕ × ℕ)} {p i : ℕ} : ∀ (ks : List ℕ),
    Rp E X0 σ gh lo B T ((ks.map fun k => (k, p, i)) ++ J2) →
    (∀ k ∈ ks, ∀ nd, σ.nodes[k]? = some nd → nd.left = true) → Rp E X0 σ gh lo B T J2
  | [], h, _ => by simpa using h
  | k :: ks, h, hl => by
    rw [List.map_cons, List.cons_append] at h
    refine Rp.drop (p := p) (i := i) ks ?_ fun k' hk' => hl k' (by simp [hk'])
    obtain ⟨ndo, nd, k1, -, -⟩ := (h.jobs (k, p, i) (by simp)).kid
    simp only at k1
    have hst : LeftLast nd.ops ∧ Done E gh σ.ops k nd fun _ _ => True := by
      rcases k1.st with q | ⟨st, c, q⟩
      · exact q
      · have := hl k (by simp) nd k1.nkid
        rw [noLeft_left q.node.noLeft] at this; cases this
    have hb := h.body
    rw [List.map_cons] at hb
    have hnd := h.nodup
    rw [List.map_cons] at hnd
    exact ⟨hb.finish k1.nkid hst.1 hst.2 k1.pend, h.on, h.len, h.closed,
      fun j hj => h.jobs j (List.mem_cons_of_mem _ hj), (List.nodup_cons.1 hnd).2, h.ents, h.tnodup, h.cur, h.tt⟩

theorem Anchor.live {E : Env K} {X0 : ℕ → (ℕ → K) → Prop} {σ : Core K} {gh : Ghost K} {L A : List ℕ}
    (hB : Body E X0 σ gh L A) {a : ℕ} (h : Anchor σ L A a) : NLive σ a := by
  rcases h with h | ⟨o, op, h1 | h1, h2, h3⟩
  · exact hB.live.2.2 a h
  · exact hB.live.1 o h1 op a h2 h3
  · exact hB.live.2.1 o h1 op a h2 h3

theorem Kid.fresh {E : Env K} {gh : Ghost K} {σ : Core K} {W : ℕ → Prop} {old nid : ℕ} {ndo nd : Node}
    {st : SS K} (hn : NodeSt E gh σ nid nd st 0) (h0 : nd.ops = []) (hold : σ.nodes[old]? = some ndo)
    (hsub : ∀ x n, gh.GP nd x n → gh.GP ndo x n) (hmn : gh.MN nid = gh.MN old) :
    Kid E gh σ W old 0 nid ndo nd :=
  ⟨hold, hn.node, hsub, hmn, fun o ho => by simp [h0] at ho, .inr ⟨st, 0, hn, .inl rfl,
    fun s i b hb => by simp [h0] at hb, fun x n k ti j y _ _ _ hq => by
      obtain ⟨o, op, q, -⟩ := hq
      simp at q⟩⟩

/-- What making a node does to the rest. -/
structure Joined (E : Env K) (gh : Ghost K) (σ : Core K) (gh' : Ghost K) (σ' : Core K) (ids : List ℕ)
    (i : ℕ) : Prop where
  ext : Ext σ gh σ' gh'
  nodes : ∀ (μ : ℕ) nd, σ.nodes[μ]? = some nd → σ'.nodes[μ]? = some nd
  len : σ'.nodes.length = σ.nodes.length + 1
  keep : ∀ (o : ℕ) op, o ∉ ids → σ.ops[o]? = some op → σ'.ops[o]? = some op
  set : ∀ (o : ℕ) op, o ∈ ids → σ.ops[o]? = some op → σ'.ops[o]? = some { op with child := some σ.nodes.length }
  opLen : σ'.ops.length = σ.ops.length
  waiting : σ'.waiting = σ.waiting
  G : gh'.G = gh.G
  M : gh'.M = gh.M
  MN : gh'.MN σ.nodes.length = i
  st : ∀ (μ : ℕ) md st c, NodeSt E gh σ μ md st c → ∃ st', NodeSt E gh' σ' μ md st' c
  cur : σ'.cur = σ.cur
  tt : σ'.tookTt = σ.tookTt
  queue : σ'.queue = σ.queue
  rep : σ'.rep = σ.rep

theorem makeNode_joined {E : Env K} (hE : E.OkJ) {X0 : ℕ → (ℕ → K) → Prop} {σ σ' : Core K}
    {gh : Ghost K} {L A ids : List ℕ} (h : Body E X0 σ gh (ids ++ L) A) {i : ℕ}
    (hj : CanJoin E σ gh L A ids i) {at_ : Option AggType}
    (hat : ∀ a, at_ = some a → aggTypeOf E = .ok a) {s : Option String} {nid : ℕ}
    (hm : makeNode E σ ids at_ s = .ok (σ', nid)) :
    ∃ gh' nd st, Joined E gh σ gh' σ' ids i ∧ nid = σ.nodes.length ∧
      Body E X0 σ' gh' L (nid :: A) ∧ NodeSt E gh' σ' nid nd st 0 ∧ nd.ops = [] ∧ nd.parents = ids := by
  obtain ⟨ss, rts, sid, st, e1, e2, e3, e4, -, e6⟩ := makeNode_spec hE h hj hat hm
  have hget : ∀ o : ℕ, σ'.ops[o]? = if o ∈ ids then (σ.ops[o]?).map (fun x => { x with child := some σ.nodes.length })
      else σ.ops[o]? := fun o => by
    rw [e1]
    refine (setChild_get (K := K) ids σ.ops o).trans ?_
    by_cases ho : o ∈ ids <;> simp [ho]
  refine ⟨{ gh with MN := Function.update gh.MN σ.nodes.length i }, _, st,
    ⟨by rw [e1]; exact Ext.addNode _ _ _ _ _ _ _ _, ?_, by rw [e1]; simp, ?_, ?_, ?_, by rw [e1], rfl, rfl,
      Function.update_self _ _ _, ?_, by rw [e1], by rw [e1], by rw [e1], by rw [e1]⟩, e2, by rw [e2]; exact e3, e4, rfl, rfl⟩
  · intro μ nd hμ
    rw [e1]; exact append_keep hμ
  · intro o op ho hop
    rw [hget, if_neg ho]; exact hop
  · intro o op ho hop
    rw [hget, if_pos ho, hop]; rfl
  · rw [e1]
    show (ids.foldl _ σ.ops).length = _
    generalize σ.ops = l
    clear * -
    induction ids generalizing l with
    | nil => rfl
    | cons a ids ih => rw [List.foldl_cons, ih]; simp
  · intro μ md st0 c hμ
    obtain ⟨st', q, -⟩ := e6 μ md st0 c hμ
    exact ⟨st', q⟩

theorem Joined.GP {E : Env K} {gh gh' : Ghost K} {σ σ' : Core K} {ids : List ℕ} {i : ℕ}
    (h : Joined E gh σ gh' σ' ids i) (nd : Node) : gh'.GP nd = gh.GP nd := by
  unfold Ghost.GP; rw [h.G]

theorem Kid.joined {E : Env K} {X0 : ℕ → (ℕ → K) → Prop} {gh gh' : Ghost K} {σ σ' : Core K}
    {L A ids : List ℕ} {i : ℕ} (hB : Body E X0 σ gh L A) (hj : Joined E gh σ gh' σ' ids i)
    {W W' : ℕ → Prop} {old idx k : ℕ} {ndo nd : Node} (h : Kid E gh σ W old idx k ndo nd)
    (hW : ∀ o, NOp.tr o ∈ nd.ops → W o → W' o) : Kid E gh' σ' W' old idx k ndo nd := by
  have hkl := lt_of_getElem? h.nkid
  have hol := lt_of_getElem? h.nold
  refine ⟨hj.nodes _ _ h.nold, hj.nodes _ _ h.nkid, fun x n hx => ?_, ?_, fun o ho => hW o ho (h.pend o ho), ?_⟩
  · rw [hj.GP] at hx ⊢; exact h.sub x n hx
  · rw [hj.ext.MN _ hkl, hj.ext.MN _ hol]; exact h.mn
  · rcases h.st with ⟨q1, q2⟩ | ⟨st, c, q⟩
    · exact .inl ⟨q1, Done.same hj.ext hkl (hB.parlt h.nkid) q2⟩
    · obtain ⟨st', hst'⟩ := hj.st _ _ _ _ q.node
      refine .inr ⟨st', c, hst', q.cOk, q.inv, ?_⟩
      refine (Done.same hj.ext hkl (hB.parlt h.nkid) q.done).weaken fun k' ti hq => ?_
      obtain ⟨o, op, r1, r2, r3, r4⟩ := hq
      obtain ⟨op0, s1, -⟩ := hB.ndOps _ _ o h.nold (List.mem_of_mem_take r1)
      obtain ⟨c', s2⟩ := hj.ext.ops _ _ s1
      rw [r2] at s2; cases s2
      exact ⟨o, op0, r1, s1, r3, r4⟩

/-- One refined successor. -/
theorem Rp.join {E : Env K} (hE : E.OkJ) {X0 : ℕ → (ℕ → K) → Prop} {σ σ' : Core K} {gh : Ghost K}
    {lo B : ℕ} {e : (ℕ × ℕ) × List ℕ} {T : List ((ℕ × ℕ) × List ℕ)} {J : List (ℕ × ℕ × ℕ)}
    (h : Rp E X0 σ gh lo B (e :: T) J) (h0 : ∀ j ∈ J, j.2.2 = 0) {n : Node} (hn : σ.nodes[e.1.2]? = some n)
    {s : Option String} {nid : ℕ} (hm : makeNode E σ e.2 n.agg s = .ok (σ', nid)) :
    (∃ gh', Rp E X0 σ' gh' lo B T (J ++ [(nid, e.1.2, 0)])) ∧ σ'.queue = σ.queue ∧ σ'.rep = σ.rep := by
  have he := h.ents e (by simp)
  obtain ⟨ndc, hndc, hops⟩ := he.ops
  obtain rfl : n = ndc := Option.some.inj (hn.symm.trans hndc)
  have htn := h.tnodup
  rw [List.flatMap_cons] at htn
  have hB := h.body
  rw [List.flatMap_cons] at hB
  obtain ⟨m, hm1, hm2⟩ := hB.ndErr _ _ hn
  have hcj : CanJoin E σ gh (T.flatMap fun e => e.2) (J.map fun j => j.1) e.2 (gh.MN e.1.2) := by
    refine ⟨he.ne, (List.nodup_append.1 htn).1, ⟨m, hm1, hm2⟩, fun p hp => ?_, ?_, ?_, ?_⟩
    · obtain ⟨op, q1, q2, q3, q4, q5, q6⟩ := hops p hp
      exact ⟨op, q1, q5, .inl q2, fun _ => by rw [q3]; simp⟩
    · intro _ p hp q hq op oq h1 h2
      obtain ⟨op', q1, -, q3, -⟩ := hops p hp
      obtain ⟨oq', r1, -, r3, -⟩ := hops q hq
      rw [h1] at q1; cases q1
      rw [h2] at r1; cases r1
      rw [q3, r3]
    · intro p hp
      obtain ⟨op, q1, q2, q3, q4, -⟩ := hops p hp
      exact q4
    · intro a μ nd p ha hup hμ hp hpn
      obtain ⟨op, q1, q2, -⟩ := hops p hp
      have := (ha.live hB) μ nd p op hup hμ hpn q1
      rw [q2] at this; cases this
  obtain ⟨gh', nd, st, j1, j2, j3, j4, j5, j6⟩ := makeNode_joined hE hB hcj (hB.ndAgg _ _ · hn) hm
  refine ⟨⟨gh', ?_, h.on, ?_, ?_, ?_, ?_, ?_, (List.nodup_append.1 htn).2.1, by rw [j1.cur]; exact h.cur,
    by rw [j1.tt]; exact h.tt⟩, j1.queue, j1.rep⟩
  · exact j3.congr (fun _ => Iff.rfl) fun ν => by simp [or_comm]
  · rw [j1.len]; have := h.len; omega
  · intro ν nd0 o op c h1 h2 h3 h4 h5 h6
    have hνl : ν < σ.nodes.length := by have := h.len; omega
    have h3' : σ.nodes[ν]? = some nd0 := by
      rw [← h3, j1.nodes ν _ (List.getElem?_eq_getElem hνl)]; exact List.getElem?_eq_getElem hνl
    obtain ⟨op0, g1, g2⟩ := hB.ndOps _ _ _ h3' h4
    by_cases hoi : o ∈ e.2
    · -- new operations belong to a kid, not to an old node
      obtain ⟨op', q1, q2, q3, -⟩ := hops o hoi
      rw [g1] at q1; cases q1
      rw [g2] at q3
      have := he.kid
      cases q3; omega
    · have := j1.keep _ _ hoi g1
      rw [h5] at this; cases this
      exact h.closed ν nd0 o op c h1 h2 h3' h4 g1 h6
  · intro j hj
    rcases List.mem_append.1 hj with hj | hj
    · have hjo := h.jobs j hj
      obtain ⟨ndo2, nd2, k1, k2, k3⟩ := hjo.kid
      refine ⟨hjo.lo, hjo.hi, hjo.new, ndo2, nd2, k1.joined hB j1 fun o ho => ?_, k2, k3⟩
      rw [k2 (h0 j hj)] at ho; simp at ho
    · simp only [List.mem_singleton] at hj
      subst hj
      have hlen := h.len
      refine ⟨he.lo, he.hi, by simp only; omega, n, nd, Kid.fresh j4 j5 (j1.nodes _ _ hn) ?_ ?_, fun _ => j5, .inl ?_⟩
      · rintro x n' ⟨p, hp, hx⟩
        rw [j6] at hp
        rw [j1.G] at hx
        obtain ⟨op, q1, q2, q3, q4, q5, q6⟩ := hops p hp
        rw [j1.GP]
        exact q6 x n' hx
      · simp only
        rw [j2, j1.MN, j1.ext.MN _ (lt_of_getElem? hn)]
      · obtain ⟨l', s', b', q, -⟩ := (hB.done _ _ (h.oldA he.hi) hn).1
        simp [q]
  · rw [List.map_append, List.nodup_append]
    refine ⟨h.nodup, by simp, fun a ha b hb hab => ?_⟩
    simp only [List.map_cons, List.map_nil, List.mem_singleton] at hb
    subst hb hab
    obtain ⟨j, hj, rfl⟩ := List.mem_map.1 ha
    obtain ⟨ndo2, nd2, k1, -⟩ := (h.jobs j hj).kid
    have := lt_of_getElem? k1.nkid
    omega
  · intro e' he'
    have heo := h.ents e' (List.mem_cons_of_mem _ he')
    obtain ⟨ndc, q1, q2⟩ := heo.ops
    refine ⟨heo.lo, heo.hi, heo.kid, heo.ne, ndc, j1.nodes _ _ q1, fun o ho => ?_⟩
    obtain ⟨op, r1, r2, r3, r4, r5, r6⟩ := q2 o ho
    have hoi : o ∉ e.2 := fun hc => (List.nodup_append.1 htn).2.2 o hc o
      (List.mem_flatMap.2 ⟨e', he', ho⟩) rfl
    refine ⟨op, j1.keep _ _ hoi r1, r2, r3, by rw [j1.waiting]; exact r4, ?_, ?_⟩
    · rw [j1.M, j1.ext.MN _ (lt_of_getElem? q1)]; exact r5
    · rw [j1.G, j1.GP]; exact r6

end Hylaa
