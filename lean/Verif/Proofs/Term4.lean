import Verif.Proofs.Term3
import Mathlib.Data.Multiset.DershowitzManna
import Mathlib.Data.Prod.Lex
import Mathlib.Order.WellFounded

/-! Termination with deaggregation: the measure. -/

set_option linter.unusedSectionVars false

namespace Hylaa
open Spec
variable {K : Type} [Field K] [LinearOrder K] [IsStrictOrderedRing K] [JumpAt K]

/-- Triples of numbers, in lexicographic order. -/
abbrev Tri := ℕ ×ₗ (ℕ ×ₗ ℕ)

def tri (a b c : ℕ) : Tri := toLex (a, toLex (b, c))

theorem tri_lt {a b c a' b' c' : ℕ} (h : a < a' ∨ (a = a' ∧ (b < b' ∨ (b = b' ∧ c < c')))) :
    tri a b c < tri a' b' c' := by
  unfold tri
  rw [Prod.Lex.toLex_lt_toLex, Prod.Lex.toLex_lt_toLex]
  exact h

/-- `M'` is a part of `M`, and things below `z`. -/
def MAdds (z : Tri) (M M' : Multiset Tri) : Prop := ∃ Y, (∀ y ∈ Y, y < z) ∧ M' ≤ M + Y

theorem MAdds.of_le {z : Tri} {M M' : Multiset Tri} (h : M' ≤ M) : MAdds z M M' := ⟨0, by simp, by simpa using h⟩

theorem MAdds.trans {z : Tri} {M M' M'' : Multiset Tri} (h : MAdds z M M') (k : MAdds z M' M'') : MAdds z M M'' := by
  obtain ⟨Y, h1, h2⟩ := h
  obtain ⟨Y', k1, k2⟩ := k
  refine ⟨Y + Y', fun y hy => ?_, ?_⟩
  · rcases Multiset.mem_add.1 hy with hy | hy
    · exact h1 y hy
    · exact k1 y hy
  · rw [← add_assoc]
    exact k2.trans (by gcongr)

theorem MAdds.add {z : Tri} {M M' N N' : Multiset Tri} (h : MAdds z M M') (k : MAdds z N N') :
    MAdds z (M + N) (M' + N') := by
  obtain ⟨Y, h1, h2⟩ := h
  obtain ⟨Y', k1, k2⟩ := k
  refine ⟨Y + Y', fun y hy => ?_, ?_⟩
  · rcases Multiset.mem_add.1 hy with hy | hy
    · exact h1 y hy
    · exact k1 y hy
  · calc M' + N' ≤ (M + Y) + (N + Y') := by gcongr
      _ = M + N + (Y + Y') := by abel

theorem MAdds.one {z : Tri} (M : Multiset Tri) {y : Tri} (h : y < z) : MAdds z M (M + {y}) :=
  ⟨{y}, by simpa using h, le_rfl⟩

theorem MAdds.mono {z z' : Tri} {M M' : Multiset Tri} (h : MAdds z M M') (hz : z ≤ z') : MAdds z' M M' := by
  obtain ⟨Y, h1, h2⟩ := h
  exact ⟨Y, fun y hy => (h1 y hy).trans_le hz, h2⟩

theorem MAdds.lt {z : Tri} {R M M' : Multiset Tri} (hM : R + {z} ≤ M) (hR : M ≤ R + {z}) (h : MAdds z R M') :
    M'.IsDershowitzMannaLT M := by
  obtain ⟨Y, h1, h2⟩ := h
  have e : M = R + {z} := le_antisymm hR hM
  subst e
  refine ⟨M' ∩ R, M' - R, (R - M') + {z}, by simp, ?_, ?_, ?_⟩
  · rw [Multiset.add_comm, Multiset.sub_add_inter]
  · have : M' ∩ R + (R - M') = R := by
      rw [Multiset.inter_comm, Multiset.add_comm, Multiset.sub_add_inter]
    rw [← add_assoc, this]
  · intro y hy
    refine ⟨z, by simp, h1 y ?_⟩
    have : M' - R ≤ Y := by
      rw [Multiset.sub_le_iff_le_add, Multiset.add_comm]; exact h2
    exact Multiset.mem_of_le this hy

theorem MAdds.lt' {z : Tri} {R M M' : Multiset Tri} (hM : M = R + {z}) (h : MAdds z R M') :
    M'.IsDershowitzMannaLT M := MAdds.lt hM.ge hM.le h

/-! ### The parts of the measure -/

/-- Number of operations recorded in a node. -/
def Core.numOps (σ : Core K) (ν : ℕ) : ℕ :=
  match σ.nodes[ν]? with
  | some n => n.ops.length
  | none => 0

def mW (σ : Core K) (g : Gt) : Multiset Tri := (σ.waiting : Multiset ℕ).map fun o => tri (2 * g.hO o + 1) 0 0

def mN (σ : Core K) (g : Gt) : Multiset Tri :=
  ((Multiset.range σ.nodes.length).filter fun ν => ν ∉ g.D).map fun ν => tri (2 * g.hN ν) (σ.numParents ν) 0

def mQ (σ : Core K) (g : Gt) : Multiset Tri :=
  (σ.queue : Multiset (ℕ × List ℕ)).map fun e => tri (2 * g.hN e.1) 0 (σ.numOps e.1)

def mR (σ : Core K) (g : Gt) : Multiset Tri :=
  match σ.rep with
  | none => 0
  | some r => {tri (2 * g.hN r.parent) 0 (σ.numOps r.parent - r.idx)}

/-- Steps taken by a state set. -/
def Core.stepsOf (σ : Core K) (sid : ℕ) : ℕ :=
  match σ.states[sid]? with
  | some st => st.steps.1
  | none => 0

def mC (E : Env K) (σ : Core K) (g : Gt) : Multiset Tri :=
  match σ.curState with
  | none => 0
  | some c => {tri (2 * g.hN c.1) 0 (E.set.numSteps - σ.stepsOf c.2 + 1)}

def mes (E : Env K) (σ : Core K) (g : Gt) : Multiset Tri := mW σ g + mN σ g + mQ σ g + mR σ g + mC E σ g

theorem numParents_eq {σ : Core K} {ν : ℕ} {nd : Node} (h : σ.nodes[ν]? = some nd) :
    σ.numParents ν = nd.parents.length := by unfold Core.numParents; rw [h]

theorem numOps_eq {σ : Core K} {ν : ℕ} {nd : Node} (h : σ.nodes[ν]? = some nd) :
    σ.numOps ν = nd.ops.length := by unfold Core.numOps; rw [h]

theorem stepsOf_eq {σ : Core K} {ν : ℕ} {st : SS K} (h : σ.states[ν]? = some st) :
    σ.stepsOf ν = st.steps.1 := by unfold Core.stepsOf; rw [h]

/-- Frames and the measure. -/
theorem Fr.mW {E : Env K} {ρ : ℕ → ℕ} {σ σ' : Core K} {g g' : Gt} {L A T : List ℕ} {b : ℕ}
    (h : Tree E ρ σ g L A) (hf : Fr T b σ g σ' g') (i j : ℕ) :
    MAdds (tri (2 * b) i j) (Hylaa.mW σ g) (Hylaa.mW σ' g') := by
  obtain ⟨l, a1, a2⟩ := hf.wait
  refine ⟨(l : Multiset ℕ).map fun o => tri (2 * g'.hO o + 1) 0 0, ?_, ?_⟩
  · intro y hy
    obtain ⟨o, ho, rfl⟩ := Multiset.mem_map.1 hy
    have := (a2 o (by simpa using ho)).2
    exact tri_lt (.inl (by omega))
  · unfold Hylaa.mW
    rw [a1, ← Multiset.coe_add, Multiset.map_add]
    refine le_of_eq (congrArg (· + _) (Multiset.map_congr rfl fun o ho => ?_))
    obtain ⟨op, q, -⟩ := h.wait o (by simpa using ho)
    rw [hf.hO o (lt_of_getElem? q)]

theorem Fr.mN {σ σ' : Core K} {g g' : Gt} {T : List ℕ} {b : ℕ} (hf : Fr T b σ g σ' g') :
    Hylaa.mN σ' g' = Hylaa.mN σ g := by
  unfold Hylaa.mN
  rw [hf.len, hf.D, hf.hN]
  refine Multiset.map_congr rfl fun ν hν => ?_
  have hlt : ν < σ.nodes.length := Multiset.mem_range.1 (Multiset.mem_filter.1 hν).1
  obtain ⟨l, a1, -⟩ := hf.node ν _ (List.getElem?_eq_getElem hlt)
  rw [numParents_eq a1, numParents_eq (List.getElem?_eq_getElem hlt)]

theorem Fr.numOps {σ σ' : Core K} {g g' : Gt} {T : List ℕ} {b : ℕ} (hf : Fr T b σ g σ' g') {p : ℕ} {nd : Node}
    (h1 : σ.nodes[p]? = some nd) (h2 : p ∉ T) : σ'.numOps p = σ.numOps p := by
  obtain ⟨l, a1, a2⟩ := hf.node p nd h1
  rw [numOps_eq a1, numOps_eq h1, a2 h2]; simp

theorem Fr.mQ {σ σ' : Core K} {g g' : Gt} {T : List ℕ} {b : ℕ} (hf : Fr T b σ g σ' g')
    (hq : σ'.queue = σ.queue) (h : ∀ e ∈ σ.queue, (∃ nd, σ.nodes[e.1]? = some nd) ∧ e.1 ∉ T) :
    Hylaa.mQ σ' g' = Hylaa.mQ σ g := by
  unfold Hylaa.mQ
  rw [hq, hf.hN]
  refine Multiset.map_congr rfl fun e he => ?_
  obtain ⟨⟨nd, h1⟩, h2⟩ := h e (by simpa using he)
  rw [hf.numOps h1 h2]

theorem Fr.mR {σ σ' : Core K} {g g' : Gt} {T : List ℕ} {b : ℕ} (hf : Fr T b σ g σ' g')
    (hq : σ'.rep = σ.rep) (h : ∀ r, σ.rep = some r → (∃ nd, σ.nodes[r.parent]? = some nd) ∧ r.parent ∉ T) :
    Hylaa.mR σ' g' = Hylaa.mR σ g := by
  unfold Hylaa.mR
  rw [hq]
  cases hr : σ.rep with
  | none => rfl
  | some r =>
    obtain ⟨⟨nd, h1⟩, h2⟩ := h r hr
    simp only
    rw [hf.hN, hf.numOps h1 h2]

/-- A new node. -/
theorem NewNode.mN {E : Env K} {ρ : ℕ → ℕ} {σ σ' : Core K} {g : Gt} {L A ids : List ℕ} {nid b : ℕ} {new : Node}
    (h : Tree E ρ σ g L A) (hn : NewNode σ σ' ids nid new) :
    Hylaa.mN σ' (g.addNode nid b) = Hylaa.mN σ g + {tri (2 * b) ids.length 0} := by
  have hD : nid ∉ g.D := fun hc => by
    obtain ⟨nd, -, -, a1, -⟩ := h.dead nid hc
    have := lt_of_getElem? a1
    have := hn.hid
    omega
  unfold Hylaa.mN
  have hlen : σ'.nodes.length = σ.nodes.length + 1 := by rw [hn.nodes]; simp
  rw [hlen, Multiset.range_succ, ← hn.hid, Multiset.filter_cons_of_pos _ (by exact hD), Multiset.map_cons,
    ← Multiset.singleton_add, add_comm]
  congr 1
  · refine Multiset.map_congr rfl fun ν hν => ?_
    have hlt : ν < σ.nodes.length := hn.hid ▸ Multiset.mem_range.1 (Multiset.mem_filter.1 hν).1
    rw [g.addNode_ne (by rw [hn.hid]; omega), numParents_eq (hn.node_fwd (List.getElem?_eq_getElem hlt)),
      numParents_eq (List.getElem?_eq_getElem hlt)]
  · rw [g.addNode_eq, numParents_eq hn.node_new, hn.parents]

theorem NewNode.mW {σ σ' : Core K} {g : Gt} {ids : List ℕ} {nid b : ℕ} {new : Node}
    (hn : NewNode σ σ' ids nid new) : Hylaa.mW σ' (g.addNode nid b) = Hylaa.mW σ g := by
  unfold Hylaa.mW
  rw [hn.waiting]
  rfl

theorem NewNode.numOps {σ σ' : Core K} {ids : List ℕ} {nid : ℕ} {new : Node}
    (hn : NewNode σ σ' ids nid new) {p : ℕ} {nd : Node} (h : σ.nodes[p]? = some nd) : σ'.numOps p = σ.numOps p := by
  rw [numOps_eq (hn.node_fwd h), numOps_eq h]

theorem NewNode.mQ {σ σ' : Core K} {g : Gt} {ids : List ℕ} {nid b : ℕ} {new : Node}
    (hn : NewNode σ σ' ids nid new) (h : ∀ e ∈ σ.queue, ∃ nd, σ.nodes[e.1]? = some nd) :
    Hylaa.mQ σ' (g.addNode nid b) = Hylaa.mQ σ g := by
  unfold Hylaa.mQ
  rw [hn.ctl.2.1]
  refine Multiset.map_congr rfl fun e he => ?_
  obtain ⟨nd, h1⟩ := h e (by simpa using he)
  rw [hn.numOps h1, g.addNode_ne (by rw [hn.hid]; exact (lt_of_getElem? h1).ne)]

/-- A node is split. -/
theorem mN_insert {σ : Core K} {g : Gt} {ν : ℕ} (h1 : ν < σ.nodes.length) (h2 : ν ∉ g.D) :
    Hylaa.mN σ g = Hylaa.mN σ { g with D := insert ν g.D } + {tri (2 * g.hN ν) (σ.numParents ν) 0} := by
  unfold Hylaa.mN
  have : ((Multiset.range σ.nodes.length).filter fun μ => μ ∉ g.D) =
      ν ::ₘ ((Multiset.range σ.nodes.length).filter fun μ => μ ∉ insert ν g.D) := by
    refine (Multiset.Nodup.ext ((Multiset.nodup_range _).filter _) ?_).2 fun μ => ?_
    · refine Multiset.nodup_cons.2 ⟨?_, (Multiset.nodup_range _).filter _⟩
      simp
    · simp only [Multiset.mem_filter, Multiset.mem_range, Multiset.mem_cons, Finset.mem_insert, not_or]
      constructor
      · intro h
        by_cases hc : μ = ν
        · exact .inl hc
        · exact .inr ⟨h.1, hc, h.2⟩
      · rintro (rfl | h)
        · exact ⟨h1, h2⟩
        · exact ⟨h.1, h.2.2⟩
  rw [this, Multiset.map_cons, ← Multiset.singleton_add, add_comm]

end Hylaa
