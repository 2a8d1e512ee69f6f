import Verif.Proofs.CeBlk
import Verif.Proofs.Conc2
import Verif.Spec.Witness

/-! The LP of a concrete state set: every solution is a trajectory. -/

set_option linter.unusedSectionVars false

namespace Hylaa
open Spec
variable {K : Type} [Field K] [LinearOrder K] [IsStrictOrderedRing K]

theorem drive_val {d : Dyn K} (h : d.Laws) (u : ℕ → ℕ → K) (y : ℕ → K) : ∀ (k : ℕ) {i : ℕ}, i < d.dims →
    drive d u k y i = d.val k y (fun l => u (k - 1 - l)) i
  | 0, i, hi => by rw [d.val_zero y _ hi]; rfl
  | k + 1, i, hi => by
    have e : (fun l => u (k + 1 - 1 - l)) = consIn (u k) (fun l => u (k - 1 - l)) := by
      funext l
      cases l with
      | zero => simp [consIn]
      | succ l => simp only [consIn]; congr 1; omega
    rw [e, Dyn.val_succ h k y (u k) _ hi]
    show mulV d.dims (d.ex 1).e (drive d u k y) i + _ = _
    congr 1
    exact Finset.sum_congr rfl fun j hj => by rw [drive_val h u y k (Finset.mem_range.1 hj)]

theorem Sys.Sat.rest {s : Sys K} {v : ℕ → K} (h : s.Sat v) : s.Rest v :=
  fun _ r hi _ => h r (List.mem_of_getElem? hi)

theorem Sys.Repr.cur_eq {s : Sys K} {ρ : Rep K} (h : s.Repr ρ) {v : ℕ → K} (hv : s.Sat v) {i : ℕ}
    (hi : i < ρ.n) : v (s.cur + i) =
      ρ.val (fun j => v (s.bmPos.2 + j)) (fun k c => v (s.inBase + ρ.m * k + c)) i := by
  obtain ⟨X, R, hsh, hX, hR⟩ := h.shape
  have hi' : i < s.dims := by rw [h.n]; exact hi
  obtain ⟨r, hr, hty, hrhs, hdot⟩ := hsh.basis i hi'
  have h1 := hv r (List.mem_of_getElem? hr)
  simp only [LRow.holds, hty, hrhs, hdot] at h1
  rw [hX, add_zero, h.n] at h1
  unfold Rep.val
  rw [← hR i hi v]
  cases hie : s.ie with
  | none =>
    rw [hsh.noIe hie i]; simp only [hie, Option.isSome_none, Bool.false_eq_true, if_false] at h1
    simp only [dot_nil]
    linear_combination -h1
  | some p =>
    obtain ⟨r2, hr2, hty2, hrhs2, hdot2⟩ := hsh.ieRows p hie i hi'
    have h2 := hv r2 (List.mem_of_getElem? hr2)
    simp only [LRow.holds, hty2, hrhs2, hdot2, h.n] at h2
    simp only [hie, Option.isSome_some, if_true] at h1
    linear_combination -h1 + -h2

theorem pt_vals (v : ℕ → K) (off : ℕ) {n i : ℕ} (hi : i < n) : pt (vals v off n) i = v (off + i) := by
  unfold pt vals
  rw [List.getD_eq_getElem?_getD, List.getElem?_map, List.getElem?_range hi]
  rfl

theorem Csr.le_congr {c : Csr K} (hc : c.WF) {n : ℕ} (hn : c.ncols ≤ n) {x y : ℕ → K} {rhs : List K}
    (h : ∀ i < n, x i = y i) : c.le x rhs ↔ c.le y rhs := by
  unfold Csr.le
  refine forall_congr' fun i => forall_congr' fun hi => ?_
  rw [dot_congr (w := y) fun p hp => ?_]
  by_cases hl : i < c.rows.length
  · rw [Csr.row_lt hl] at hp
    exact h _ (lt_of_lt_of_le (hc _ (List.getElem_mem hl) p hp) hn)
  · simp [Csr.row, List.getD_eq_getElem?_getD, hl] at hp

/-- The block of the mode being traversed. -/
def curBlk (d : Dyn K) (mode : ℕ) (m : Mode K) (via : Option ℕ) (w steps : ℕ) : Blk :=
  { mode := mode, id := m.id, via := via, w := w, n := d.dims, ti := m.inputs.isSome, m := d.inputs
    k := if 0 < d.inputs then steps else 0, steps := steps }

theorem Dyn.For.inputs_isSome {d : Dyn K} {m : Mode K} (hd : d.For m) : m.inputs.isSome = d.nmat.isSome := by
  cases hN : d.nmat with
  | none => rw [hd.noInp hN]; rfl
  | some N =>
    obtain ⟨inp, hi, -⟩ := hd.inp N hN
    rw [hi]; rfl

/-- **One segment** read off a solution. -/
theorem segOk_of_sat {E : Env K} {P : Prop} {st : SS K} {m : Mode K} {c w r : ℕ} {via : Option ℕ}
    (hm : E.ha.modes[st.mode]? = some m) (he : m.isError = false) (hd : (E.dyn st.mode).For m)
    (hh : st.Hi m (E.dyn st.mode) (fun _ => True) E.T.inter c)
    (hP : P → m.Plain ∧ st.stepIn ≤ c ∧ (st.stepIn = 0 → E.set.urgent = true ∧ c = 1))
    (hcur : st.lp.cur = st.lp.bmPos.2 + w) {l : List ℕ} {ti : ℕ} {t : Tr K} {g : Csr K × List K}
    (hl : E.ha.out[st.mode]? = some l) (hti : ti ∈ l) (ht : E.ha.trans[ti]? = some t)
    (hgd : t.guard = some g) (hgo : GuardOk g) (hgn : g.1.ncols ≤ (E.dyn st.mode).dims)
    {v : ℕ → K} (hv : st.lp.Sat v) (hg : g.1.le (fun j => v (st.lp.cur + j)) g.2) :
    SegOk E.hyb E.T.inter P
      (({ curBlk (E.dyn st.mode) st.mode m via w st.stepIn with r := r, out := some ti } : Blk).seg v
        st.lp.bmPos.2) := by
  obtain ⟨ρ, hs, hρ⟩ := hh
  generalize hdd : E.dyn st.mode = d at *
  have hw : d.dims ≤ w := by
    obtain ⟨X, R, hsh, -⟩ := hs.repr.shape
    have := hsh.colsLe
    have := hs.repr.n
    have := hs.n
    omega
  set s := ({ curBlk d st.mode m via w st.stepIn with r := r, out := some ti } : Blk).seg v
        st.lp.bmPos.2 with hseg
  have s1 : s.mode = st.mode := rfl
  have s2 : s.steps = st.stepIn := rfl
  have s3 : s.start = vals v st.lp.bmPos.2 w := rfl
  have s4 : s.fin = vals v st.lp.cur d.dims := by rw [hcur]; rfl
  have s5 : s.inputs = ((List.range (if 0 < d.inputs then st.stepIn else 0)).map fun j =>
      vals v (st.lp.bmPos.2 + (w + d.dims + if m.inputs.isSome then d.dims else 0) + d.inputs * j)
        d.inputs).reverse := rfl
  have s6 : s.out = some ti := rfl
  clear_value s
  -- the inputs of the segment are the input columns in reverse order
  have hin : ∀ k < st.stepIn, ∀ c < d.inputs,
      v (st.lp.inBase + ρ.m * k + c) = ins s (st.stepIn - 1 - k) c := by
    intro k hk c hc
    have hpos : 0 < d.inputs := by omega
    have hN : ∃ N, d.nmat = some N := by
      cases hN : d.nmat with
      | none => simp [Dyn.inputs, hN] at hpos
      | some N => exact ⟨N, rfl⟩
    obtain ⟨N, hN⟩ := hN
    have hm' : ρ.m = d.inputs := by
      rcases hs.m with h | h
      · rw [hs.Ns] at h
        have := Dyn.iesTo_length hN st.stepIn
        rw [h] at this; simp at this; omega
      · exact h
    have hti' : m.inputs.isSome = true := by rw [hd.inputs_isSome, hN]; rfl
    unfold ins
    rw [s5, if_pos hpos, if_pos hti', List.getD_eq_getElem?_getD]
    rw [List.getElem?_reverse (by simp; omega), List.getElem?_map]
    simp only [List.length_map, List.length_range]
    rw [show st.stepIn - 1 - (st.stepIn - 1 - k) = k by omega, List.getElem?_range hk]
    simp only [Option.map_some, Option.getD_some]
    rw [pt_vals _ _ hc, hm']
    congr 1
    unfold Sys.inBase
    rw [hcur, hs.repr.n, hs.n]; omega
  have hNs : ρ.Ns.length ≤ st.stepIn := by
    rw [hs.Ns]
    cases hN : d.nmat with
    | none => simp [Dyn.iesTo_none hN]
    | some N => rw [Dyn.iesTo_length hN]
  have hpar : ρ.P (fun j => v (st.lp.bmPos.2 + j)) (fun k => ins s (st.stepIn - 1 - k)) := by
    rw [hs.repr.par]
    refine ⟨v, hv.rest, fun _ _ => rfl, fun k hk c hc => hin k (by omega) c ?_⟩
    rcases hs.m with h | h
    · rw [h] at hk; simp at hk
    · rw [← h]; exact hc
  obtain ⟨-, hadm, hinv⟩ := hρ _ _ hpar
  have hstart : ∀ j < d.dims, pt s.start j = v (st.lp.bmPos.2 + j) := fun j hj => by
    rw [s3, pt_vals _ _ (by omega)]
  have hfin : ∀ j < d.dims, pt s.fin j = v (st.lp.cur + j) := fun j hj => by
    rw [s4, pt_vals _ _ hj]
  have hdrive : ∀ k ≤ st.stepIn, ∀ i < d.dims, drive d (ins s) k (pt s.start) i =
      d.val k (fun j => v (st.lp.bmPos.2 + j)) (fun l => ins s (k - 1 - l)) i := by
    intro k _ i hi
    rw [drive_val hd.laws _ _ _ hi]
    exact Dyn.val_congr hstart (fun _ _ _ _ => rfl) i
  have hend : ∀ i < d.dims, pt s.fin i = drive d (ins s) s.steps (pt s.start) i := by
    intro i hi
    rw [hfin i hi, s2, hdrive _ le_rfl i hi, hs.repr.cur_eq hv (by rw [hs.n]; exact hi), hs.val]
    exact Dyn.val_congr (fun _ _ => rfl) (fun k hk c hc => hin k hk c hc) i
  refine ⟨m, l, ti, t, ?_, he, ?_, ?_, ?_, ?_, ?_, ?_, ?_, s6, ?_, hti, ht, g, hgd, ?_⟩
  · rw [s1]; exact hm
  · show (E.dyn s.mode).dims ≤ _
    rw [s1, hdd, s3]; simpa [vals] using hw
  · show _ = (E.dyn s.mode).dims
    rw [s1, hdd, s4]; simp [vals]
  · show _ = if 0 < (E.dyn s.mode).inputs then _ else _
    rw [s1, hdd, s2, s5]; simp
  · intro u hu
    show _ = (E.dyn s.mode).inputs
    rw [s1, hdd]
    rw [s5] at hu
    simp only [List.mem_reverse, List.mem_map] at hu
    obtain ⟨j, -, rfl⟩ := hu
    simp [vals]
  · intro k hk
    rw [s2] at hk
    have := hadm (st.stepIn - 1 - k) (by omega)
    rwa [show st.stepIn - 1 - (st.stepIn - 1 - k) = k by omega] at this
  · intro i hi
    have hi' : i < (E.dyn s.mode).dims := hi
    show _ = drive (E.dyn s.mode) _ _ _ i
    rw [s1, hdd] at hi' ⊢
    exact hend i hi'
  · intro hp
    obtain ⟨p1, p2, p3⟩ := hP hp
    have inv : ∀ k ≤ st.stepIn, k < c → InvEps E.T.inter m (drive d (ins s) k (pt s.start)) := by
      intro k hk hkc
      rw [InvEps.congr hd.wf (hdrive k hk), inv_indep hd p1 k _ _ fun _ _ => 0]
      exact hinv k hkc
    constructor
    · intro k hk
      rw [s2] at hk
      show InvEps _ m (drive (E.dyn s.mode) _ _ _)
      rw [s1, hdd]
      exact inv k (by omega) (by omega)
    · intro h0
      rw [s2] at h0
      obtain ⟨q1, q2⟩ := p3 h0
      refine ⟨q1, ?_⟩
      rw [InvEps.congr hd.wf hend, s2]
      exact inv _ le_rfl (by omega)
  · show E.ha.out[s.mode]? = _
    rw [s1]; exact hl
  · exact (Csr.le_congr hgo.wf hgn hfin).2 hg

end Hylaa
