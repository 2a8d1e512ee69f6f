import Verif.Proofs.Lgg
import Verif.Proofs.Reset
import Verif.Proofs.Accept
import Verif.Spec.Rep

/-! `s.Repr ρ`: the LP instance `s` represents the textbook description `ρ`. -/

set_option linter.unusedSectionVars false

namespace Hylaa
open Spec
variable {K : Type} [Field K] [LinearOrder K]

/-- First input column. -/
def Sys.inBase (s : Sys K) : ℕ := s.cur + 2 * s.dims

structure Sys.Repr (s : Sys K) (ρ : Rep K) : Prop where
  n : s.dims = ρ.n
  shape : ∃ X R, s.Shape ρ.B X R ∧ (∀ i v, dot (X i) v = 0) ∧
    (∀ i < ρ.n, ∀ v, dot (R i) v = inSum ρ.m ρ.Ns (fun k c => v (s.inBase + ρ.m * k + c)) i)
  cols : s.ie.isSome = true → s.numCols = s.inBase + ρ.m * ρ.Ns.length
  noIe : s.ie = none → ρ.Ns = []
  par : ∀ y u, ρ.P y u ↔ ∃ v, s.Rest v ∧ (∀ j < ρ.n, v (s.bmPos.2 + j) = y j) ∧
    ∀ k < ρ.Ns.length, ∀ c < ρ.m, v (s.inBase + ρ.m * k + c) = u k c

theorem inSum_congr {m : ℕ} {Ns : List (Mat K)} {u w : ℕ → ℕ → K} {i : ℕ}
    (h : ∀ k < Ns.length, ∀ c < m, u k c = w k c) : inSum m Ns u i = inSum m Ns w i := by
  unfold inSum
  apply Finset.sum_congr rfl
  intro k hk
  apply Finset.sum_congr rfl
  intro c hc
  rw [h k (Finset.mem_range.1 hk) c (Finset.mem_range.1 hc)]

/-- The LP's set is the described set. -/
theorem Sys.Repr.mem {s : Sys K} {ρ : Rep K} (h : s.Repr ρ) (x : ℕ → K) : s.Mem x ↔ ρ.Mem x := by
  obtain ⟨X, R, hsh, hX, hR⟩ := h.shape
  rw [hsh.mem_iff, h.n]
  unfold Rep.Mem Rep.val
  constructor
  · rintro ⟨v, hv, hx⟩
    refine ⟨fun j => v (s.bmPos.2 + j), fun k c => v (s.inBase + ρ.m * k + c),
      (h.par _ _).2 ⟨v, hv, fun _ _ => rfl, fun _ _ _ _ => rfl⟩, fun i hi => ?_⟩
    rw [hx i hi, hX, hR i hi, add_zero]
  · rintro ⟨y, u, hP, hx⟩
    obtain ⟨v, hv, hy, hu⟩ := (h.par y u).1 hP
    refine ⟨v, hv, fun i hi => ?_⟩
    rw [hx i hi, hX, hR i hi, add_zero]
    congr 1
    · apply Finset.sum_congr rfl
      intro j hj; rw [hy j (Finset.mem_range.1 hj)]
    · apply inSum_congr
      intro k hk c hc; rw [hu k hk c hc]

theorem Sys.Repr.wf {s : Sys K} {ρ : Rep K} (h : s.Repr ρ) : s.WF := by
  obtain ⟨X, R, hsh, -⟩ := h.shape; exact hsh.wf

theorem Sys.Repr.curLe {s : Sys K} {ρ : Rep K} (h : s.Repr ρ) : s.cur + s.dims ≤ s.numCols := by
  obtain ⟨X, R, hsh, -⟩ := h.shape
  have := hsh.curLe
  unfold blockLen at this
  split at this <;> omega

theorem Sys.Repr.inBase_eq {s s' : Sys K} (h : s.SameVars s') : s'.inBase = s.inBase := by
  unfold Sys.inBase; rw [h.cur, h.dims]

theorem EqOn.symm' {n : ℕ} {x y : ℕ → K} (h : EqOn n x y) : EqOn n y x := fun i hi => (h i hi).symm

theorem fromConstraints_repr {S : Solver K} {csr : Csr K} {rhs : List K} {mode : Mode K}
    {types : Option (List RowType)} {names : Option (List String)} {dims? : Option ℕ} {lp : Lp K}
    (h : fromConstraints S csr rhs mode types names dims? = .ok lp)
    (hnames : ∀ ns, names = some ns → ns.length = csr.ncols) (hwf : csr.WF) :
    lp.Repr (Rep.ofSet (dims?.getD csr.ncols)
      (csr.satTypes (typesOr types rhs.length) rhs)) := by
  obtain ⟨hsh, hrest⟩ := fromConstraints_shape h hnames hwf
  obtain ⟨hd, -, -, -, hnm, hdims, hbm, hcur, hie, -⟩ := fromConstraints_ok h hnames
  refine ⟨hdims, ⟨_, _, hsh, fun _ _ => rfl, fun i _ v => by simp [inSum, Rep.ofSet]⟩, ?_,
    fun _ => rfl, ?_⟩
  · intro hs
    have hin : mode.inputs.isSome = true := by
      by_contra hc
      rw [hie, if_neg hc] at hs; simp at hs
    unfold Sys.numCols Sys.inBase
    rw [hnm, hcur, hdims, if_pos hin]; simp [Rep.ofSet]; omega
  · intro y u
    simp only [Rep.ofSet, List.length_nil, hbm, zero_add]
    constructor
    · rintro ⟨z, hz, hyz⟩
      exact ⟨z, (hrest z).2 hz, fun j hj => (hyz j hj).symm, fun k hk => absurd hk (by omega)⟩
    · rintro ⟨v, hv, hy, -⟩
      exact ⟨v, (hrest v).1 hv, fun j hj => (hy j hj).symm⟩

theorem setBasisMatrix_repr {s s' : Sys K} {m : Mat K} {ρ : Rep K}
    (h : setBasisMatrix s m = .ok s') (hs : s.Repr ρ) : s'.Repr (ρ.setBasis m) := by
  obtain ⟨X, R, hsh, hX, hR⟩ := hs.shape
  obtain ⟨h1, hsv, hnm, hnr, hrest, -⟩ := setBasisMatrix_shape h hsh
  have hb := Sys.Repr.inBase_eq hsv
  refine ⟨by rw [hsv.dims]; exact hs.n, ⟨_, _, h1, fun _ _ => rfl, ?_⟩, ?_, ?_, ?_⟩
  · intro i hi v; rw [hb]; exact hR i hi v
  · intro hi; rw [hsv.ie] at hi; unfold Sys.numCols; rw [hnm, hb]; exact hs.cols hi
  · intro hi; rw [hsv.ie] at hi; exact hs.noIe hi
  · intro y u
    rw [hb, hsv.bmPos]
    refine (hs.par y u).trans ?_
    simp only [hrest]; rfl

/-- Adding one block of input columns. -/
theorem addInput_repr {s s' : Sys K} {ρ : Rep K} {N : Mat K} {m : ℕ} {U : (ℕ → K) → Prop}
    (hs : s.Repr ρ) (hie : s.ie.isSome = true) (hm : ρ.Ns = [] ∨ ρ.m = m)
    (hU : ∀ u w, (∀ c < m, u c = w c) → U u → U w) (hsv : s.SameVars s')
    (hnc : s'.numCols = s.numCols + m)
    (hsh : ∀ X R, s.Shape ρ.B X R →
      s'.Shape ρ.B (fun i => X i ++ rangeRow m s.numCols (fun _ => 0))
      (fun i => R i ++ rangeRow m s.numCols (N.e i)))
    (hrest : ∀ v, s'.Rest v ↔ s.Rest v ∧ U fun c => v (s.numCols + c)) :
    s'.Repr (ρ.addInput N m U) := by
  obtain ⟨X, R, hsh0, hX, hR⟩ := hs.shape
  have h1 := hsh X R hsh0
  have hb := Sys.Repr.inBase_eq hsv
  have hcols := hs.cols hie
  have hcm : s.numCols = s.inBase + m * ρ.Ns.length := by
    rcases hm with h | h
    · rw [hcols, h]; simp
    · rw [hcols, h]
  have hbound : ∀ k < ρ.Ns.length, ∀ c < ρ.m, s.inBase + ρ.m * k + c < s.numCols := by
    intro k hk c hc
    rw [hcols]
    have : ρ.m * k + ρ.m ≤ ρ.m * ρ.Ns.length := by
      rw [← Nat.mul_succ]; exact Nat.mul_le_mul_left _ hk
    omega
  refine ⟨by rw [hsv.dims]; exact hs.n, ⟨_, _, h1, ?_, ?_⟩, ?_, ?_, ?_⟩
  · intro i v; simp [hX]
  · intro i hi v
    rw [dot_append, hR i hi, dot_rangeRow, hb]
    simp only [Rep.addInput, inSum, List.length_append, List.length_singleton,
      Finset.sum_range_succ]
    congr 1
    · rcases hm with h | h
      · simp [h]
      · rw [h]
        apply Finset.sum_congr rfl
        intro k hk
        have hk := Finset.mem_range.1 hk
        apply Finset.sum_congr rfl
        intro c _
        rw [List.getD_eq_getElem?_getD, List.getD_eq_getElem?_getD, List.getElem?_append_left hk]
    · apply Finset.sum_congr rfl
      intro c _
      rw [hcm]
      simp [List.getD_eq_getElem?_getD]
  · intro _
    rw [hnc, hcm, hb]; simp [Rep.addInput, Nat.mul_add]; omega
  · intro hi; rw [hsv.ie] at hi; simp [hi] at hie
  · intro y u
    rw [hb, hsv.bmPos]
    have hnb : s.cur + s.blockLen ≤ s.numCols := hsh0.curLe
    have hcl := hsh0.colsLe
    simp only [Rep.addInput, List.length_append, List.length_singleton]
    constructor
    · rintro ⟨hP, hu⟩
      obtain ⟨v, hv, hy, hk⟩ := (hs.par y u).1 hP
      let w : ℕ → K := fun j => if s.numCols ≤ j then u ρ.Ns.length (j - s.numCols) else v j
      have hlt : ∀ j < s.numCols, w j = v j := fun j hj => by simp only [w]; rw [if_neg (by omega)]
      have hge : ∀ c, w (s.numCols + c) = u ρ.Ns.length c := fun c => by
        simp only [w]; rw [if_pos (by omega)]; congr 1; omega
      refine ⟨w, (hrest w).2 ⟨?_, ?_⟩, ?_, ?_⟩
      · exact (Sys.Rest.congr hsh0 fun j hj _ => hlt j hj).2 hv
      · exact hU _ _ (fun c _ => (hge c).symm) hu
      · intro j hj
        rw [hlt _ (by have := hs.n; omega)]; exact hy j hj
      · intro k hk' c hc
        by_cases hkl : k = ρ.Ns.length
        · subst hkl; rw [← hcm, hge]
        · rcases hm with h | h
          · rw [h] at hk' hkl; simp at hk' hkl; omega
          · have hk2 : k < ρ.Ns.length := by omega
            rw [← h] at hc ⊢
            rw [hlt _ (hbound k hk2 c hc)]; exact hk k hk2 c hc
    · rintro ⟨v, hv, hy, hk⟩
      obtain ⟨hv1, hv2⟩ := (hrest v).1 hv
      refine ⟨(hs.par y u).2 ⟨v, hv1, hy, ?_⟩, ?_⟩
      · intro k hk' c hc
        rcases hm with h | h
        · rw [h] at hk'; simp at hk'
        · rw [h] at hc ⊢; exact hk k (by omega) c hc
      · refine hU _ _ (fun c hc => ?_) hv2
        rw [hcm]; exact hk _ (by omega) c hc

theorem addInputEffects_repr {s s' : Sys K} {n : Mat K} {mode : Mode K} {inp : Inputs K}
    {ρ : Rep K} (h : addInputEffects s n mode none = .ok s') (hin : mode.inputs = some inp)
    (hm : ρ.Ns = [] ∨ ρ.m = inp.b.ncols) (hs : s.Repr ρ) :
    s'.Repr (ρ.addInput n inp.b.ncols inp.Ok) := by
  obtain ⟨X, R, hsh, -⟩ := hs.shape
  obtain ⟨-, hsv, hnc, -, hrest, -, -, hie⟩ := addInputEffects_shape h hin hsh
  exact addInput_repr hs hie hm (fun u w hc hu => hu.congr hc) hsv hnc
    (fun X R hX => (addInputEffects_shape h hin hX).1) hrest

/-- LGG inputs: an input vector plus a bloating vector in `[-β, β]^n`. -/
def Inputs.OkLgg (inp : Inputs K) (n : ℕ) (β : K) (u : ℕ → K) : Prop :=
  inp.Ok u ∧ ∀ d < n, u (inp.b.ncols + d) ≤ β ∧ -u (inp.b.ncols + d) ≤ β

theorem addInputEffects_lgg_repr {s s' : Sys K} {n : Mat K} {mode : Mode K} {inp : Inputs K}
    {ρ : Rep K} {β : K} (h : addInputEffects s n mode (some β) = .ok s')
    (hin : mode.inputs = some inp) (hwf : inp.WF)
    (hm : ρ.Ns = [] ∨ ρ.m = inp.b.ncols + ρ.n) (hs : s.Repr ρ) :
    s'.Repr (ρ.addInput n (inp.b.ncols + ρ.n) (inp.OkLgg ρ.n β)) := by
  obtain ⟨X, R, hsh, -⟩ := hs.shape
  obtain ⟨-, hsv, hnc, -, hrest, -, -, hie⟩ := addInputEffects_lgg_shape h hin hwf hsh
  rw [← hs.n] at hm ⊢
  refine addInput_repr hs hie hm ?_ hsv hnc
    (fun X R hX => (addInputEffects_lgg_shape h hin hwf hX).1) ?_
  · rintro u w hc ⟨h1, h2⟩
    refine ⟨h1.congr fun c hcc => hc c (by omega), fun d hd => ?_⟩
    rw [← hc _ (by omega)]; exact h2 d hd
  · intro v
    rw [hrest]; simp only [Inputs.OkLgg, add_assoc]

/-- The value of the row `add_init_constraint` writes. -/
theorem InitRow.dot_eq {s : Sys K} {ρ : Rep K} (hs : s.Repr ρ) {vec : List K} {bm : Mat K}
    {ies : Option (List (Mat K))} {c : SRow K} (hc : InitRow s vec bm ies c) (hbm : bm.nr = ρ.n)
    (hnc : ∀ N ∈ ies.getD [], N.nc = ρ.m) (v : ℕ → K) :
    dot c v = ∑ k ∈ Finset.range ρ.n, vec.getD k 0 *
      ((∑ i ∈ Finset.range ρ.n, bm.e k i * v (s.bmPos.2 + i)) +
        inSum ρ.m (ies.getD []) (fun k c => v (s.inBase + ρ.m * k + c)) k) := by
  have swap : ∀ f : ℕ → K, (∑ i ∈ Finset.range ρ.n,
      (∑ k ∈ Finset.range ρ.n, vec.getD k 0 * bm.e k i) * f i) =
      ∑ k ∈ Finset.range ρ.n, vec.getD k 0 * ∑ i ∈ Finset.range ρ.n, bm.e k i * f i := by
    intro f
    simp only [Finset.sum_mul, Finset.mul_sum]
    rw [Finset.sum_comm]
    exact Finset.sum_congr rfl fun k _ => Finset.sum_congr rfl fun i _ => by ring
  match ies, hc, hnc with
  | none, hc, _ =>
    rw [hc.dotNone rfl, hbm, swap]; simp [inSum]
  | some [], hc, _ =>
    rw [hc.dotNone rfl, hbm, swap]; simp [inSum]
  | some (N :: Ns), hc, hnc =>
    obtain ⟨-, p, hp, hdot⟩ := hc.dotSome N Ns rfl
    obtain ⟨X, R, hsh, -⟩ := hs.shape
    have hN : N.nc = ρ.m := hnc N (by simp)
    rw [hdot, hbm, swap, hN]
    simp only [Option.getD_some, inSum, mul_add, Finset.sum_add_distrib, List.length_cons]
    congr 1
    have hp2 : p.2 + ρ.n = s.inBase := by
      have := (hsh.iePos p hp).1
      unfold Sys.inBase; rw [this, hs.n]; omega
    simp only [hp2, Finset.mul_sum, Finset.sum_mul]
    conv_lhs => rw [Finset.sum_congr rfl fun j _ => Finset.sum_comm]
    rw [Finset.sum_comm]
    exact Finset.sum_congr rfl fun k _ => Finset.sum_congr rfl fun j _ =>
      Finset.sum_congr rfl fun c _ => by ring

/-- Adding an extra condition on the parameters. -/
theorem cond_repr {s s' : Sys K} {ρ ρ' : Rep K} (hs : s.Repr ρ) {X R : ℕ → SRow K}
    (hX : ∀ i v, dot (X i) v = 0)
    (hR : ∀ i < ρ.n, ∀ v, dot (R i) v = inSum ρ.m ρ.Ns (fun k c => v (s.inBase + ρ.m * k + c)) i)
    (hsh : s'.Shape ρ.B X R) (hsv : s.SameVars s') (hnm : s'.numCols = s.numCols)
    {Q : (ℕ → K) → (ℕ → ℕ → K) → Prop} (hρ : ρ' = { ρ with P := fun y u => ρ.P y u ∧ Q y u })
    (hrest : ∀ v, s'.Rest v ↔ s.Rest v ∧
      Q (fun j => v (s.bmPos.2 + j)) (fun k c => v (s.inBase + ρ.m * k + c)))
    (hQ : ∀ y y' u u', (∀ j < ρ.n, y j = y' j) → (∀ k < ρ.Ns.length, ∀ c < ρ.m, u k c = u' k c) →
      Q y u → Q y' u') : s'.Repr ρ' := by
  subst hρ
  have hb := Sys.Repr.inBase_eq hsv
  refine ⟨by rw [hsv.dims]; exact hs.n, ⟨X, R, hsh, hX, by rw [hb]; exact hR⟩, ?_, ?_, ?_⟩
  · intro hi; rw [hsv.ie] at hi; rw [hnm, hb]; exact hs.cols hi
  · intro hi; rw [hsv.ie] at hi; exact hs.noIe hi
  · intro y u
    rw [hb, hsv.bmPos]
    constructor
    · rintro ⟨hP, hq⟩
      obtain ⟨v, hv, hy, hk⟩ := (hs.par y u).1 hP
      refine ⟨v, (hrest v).2 ⟨hv, hQ _ _ _ _ (fun j hj => (hy j hj).symm)
        (fun k hk' c hc => (hk k hk' c hc).symm) hq⟩, hy, hk⟩
    · rintro ⟨v, hv, hy, hk⟩
      obtain ⟨h1, h2⟩ := (hrest v).1 hv
      exact ⟨(hs.par y u).2 ⟨v, h1, hy, hk⟩, hQ _ _ _ _ hy hk h2⟩

/-- The condition added by `add_init_constraint`. -/
def initCond (n m : ℕ) (vec : List K) (rhs : K) (bm : Mat K) (ies : List (Mat K)) (y : ℕ → K)
    (u : ℕ → ℕ → K) : Prop :=
  (∑ k ∈ Finset.range n, vec.getD k 0 *
      ((∑ i ∈ Finset.range n, bm.e k i * y i) + inSum m ies u k)) ≤ rhs

theorem initCond_congr {n m : ℕ} {vec : List K} {rhs : K} {bm : Mat K} {ies : List (Mat K)}
    {y y' : ℕ → K} {u u' : ℕ → ℕ → K} {l : ℕ} (hl : ies.length ≤ l)
    (hy : ∀ j < n, y j = y' j) (hu : ∀ k < l, ∀ c < m, u k c = u' k c)
    (h : initCond n m vec rhs bm ies y u) : initCond n m vec rhs bm ies y' u' := by
  unfold initCond at *
  refine le_trans (le_of_eq ?_) h
  apply Finset.sum_congr rfl
  intro k _
  rw [inSum_congr (u := u') (w := u) fun k hk c hc => (hu k (by omega) c hc).symm]
  congr 2
  exact Finset.sum_congr rfl fun i hi => by rw [hy i (Finset.mem_range.1 hi)]

theorem addInitConstraint_repr {s s' : Sys K} {vec : List K} {rhs : K} {bm : Mat K}
    {ies : Option (List (Mat K))} {row : ℕ} {ρ : Rep K}
    (h : addInitConstraint s vec rhs bm ies none = .ok (s', row)) (hs : s.Repr ρ)
    (hbm : bm.nr = ρ.n) (hnc : ∀ N ∈ ies.getD [], N.nc = ρ.m)
    (hlen : (ies.getD []).length ≤ ρ.Ns.length) :
    s'.Repr (ρ.addInit vec rhs bm (ies.getD [])) := by
  obtain ⟨X, R, hsh, hX, hR⟩ := hs.shape
  obtain ⟨c, hc, hvl, rfl, rfl⟩ := addInitConstraint_none h
  have hav := hc.avoid (by rw [hbm, hs.n]) hsh.colsLe fun p hp => (hsh.iePos p hp).1
  obtain ⟨h1, h2, h3⟩ := appendRow_shape hsh ((⟨.up, rhs, []⟩ : LRow K).withCoefs c)
    (fun p hp => hc.lt p (LRow.withCoefs_mem hp)) (fun p hp => hav p (LRow.withCoefs_mem hp))
  refine cond_repr hs hX hR h1 h2 rfl (Q := initCond ρ.n ρ.m vec rhs bm (ies.getD [])) rfl ?_ ?_
  · intro v
    rw [h3, LRow.holds_iff, LRow.withCoefs_dot, hc.dot_eq hs hbm hnc]
    rfl
  · intro y y' u u' hy hu hq
    exact initCond_congr hlen hy hu hq

end Hylaa
