import Verif.Proofs.StateSet
import Verif.Proofs.CeNames

/-! Column names and solutions of the LP of a state set under `step` and `intersect_invariant`. -/

set_option linter.unusedSectionVars false

namespace Hylaa
open Spec
variable {K : Type} [Field K] [LinearOrder K]

theorem Sys.SameVars.refl (s : Sys K) : s.SameVars s := ⟨rfl, rfl, rfl, rfl, rfl⟩

theorem Sys.SameVars.trans {a b c : Sys K} (h : a.SameVars b) (h' : b.SameVars c) : a.SameVars c :=
  ⟨h'.dims.trans h.dims, h'.bmPos.trans h.bmPos, h'.cur.trans h.cur, h'.ie.trans h.ie,
    h'.bmIdx.trans h.bmIdx⟩

theorem Sys.Grow.refl (s : Sys K) : s.Grow s [] := ⟨.refl s, (List.append_nil _).symm, fun _ h => h⟩

theorem Sys.Grow.trans {a b c : Sys K} {e f : List String} (h : a.Grow b e) (h' : b.Grow c f) :
    a.Grow c (e ++ f) :=
  ⟨h.same.trans h'.same, by rw [h'.names, h.names, List.append_assoc], fun v hv => h.rest v (h'.rest v hv)⟩

theorem Sys.Grow.of_eq {a b : Sys K} (h : b = a) : a.Grow b [] := by rw [h]; exact .refl a

theorem setBasis_grow {s s' : Sys K} {M : Mat K} {ρ : Rep K} (h : setBasisMatrix s M = .ok s')
    (hs : s.Repr ρ) : s.Grow s' [] := by
  obtain ⟨X, R, hsh, -⟩ := hs.shape
  obtain ⟨-, h1, h2, -, h3, -⟩ := setBasisMatrix_shape h hsh
  exact ⟨h1, by rw [h2, List.append_nil], fun v hv => (h3 v).1 hv⟩

theorem addInput_names {s s' : Sys K} {N : Mat K} {m : Mode K} {inp : Inputs K}
    (hi : m.inputs = some inp) (h : addInputEffects s N m none = .ok s') :
    s'.names = s.names ++ inNames m.id inp.b.ncols := by
  simp only [addInputEffects, bind_ok, assert_ok, need_ok, needSome_ok, setCsc_ok] at h
  obtain ⟨_, hie1, _, hin1, ie, hie, inp', hin', a, ha, _, hnc, _, hnr, _, hd, _, -, ⟨hsz, rfl⟩⟩ := h
  rw [hi] at hin'; cases hin'
  simp [Sys.addRowsLE, Sys.addCols, inNames]

theorem addInput_grow {s s' : Sys K} {N : Mat K} {m : Mode K} {inp : Inputs K} {ρ : Rep K}
    (hi : m.inputs = some inp) (h : addInputEffects s N m none = .ok s') (hs : s.Repr ρ) :
    s.Grow s' (inNames m.id inp.b.ncols) := by
  obtain ⟨X, R, hsh, -⟩ := hs.shape
  obtain ⟨-, h1, -, -, h3, -⟩ := addInputEffects_shape h hi hsh
  exact ⟨h1, addInput_names hi h, fun v hv => ((h3 v).1 hv).1⟩

/-- Names of the inputs of `k` steps. -/
def insNames (id m k : ℕ) : List String := (List.replicate k (inNames id m)).flatten

theorem insNames_succ (id m k : ℕ) : insNames id m (k + 1) = inNames id m ++ insNames id m k := by
  simp [insNames, List.replicate_succ]

theorem insNames_add (id m a b : ℕ) : insNames id m (a + b) = insNames id m a ++ insNames id m b := by
  unfold insNames
  rw [List.replicate_add, List.flatten_append]

theorem ieLoop_grow {d : Dyn K} {m : Mode K} (hd : d.For m) {N : Mat K} (hN : d.nmat = some N)
    (cnt k : ℕ) {te te' : TE K} (ht : te.Inv d) {s s' : Sys K} {ρ : Rep K} (h : Part d s ρ k)
    {l : List (Mat K)}
    (hl : ieLoop d m none te s (d.iesTo k) (List.range' (k + 1) cnt) = .ok (te', s', l)) :
    s.Grow s' (insNames m.id d.inputs cnt) := by
  induction cnt generalizing k te s ρ with
  | zero =>
    simp only [List.range'_zero, ieLoop, Except.ok.injEq, Prod.mk.injEq] at hl
    obtain ⟨rfl, rfl, rfl⟩ := hl
    exact .refl _
  | succ cnt ih =>
    simp only [List.range'_succ, ieLoop, bind_ok] at hl
    obtain ⟨r, hr, ie, hie, s1, hs1, hl⟩ := hl
    obtain ⟨h1, h2⟩ := getBasis_ok hd.laws (fun u hu => by cases hu; exact ht) hr
    rw [h2] at hie
    obtain ⟨P, hP, -⟩ := Dyn.at_ie_succ hd.laws hN k
    rw [hP] at hie
    simp only [needSome, Except.ok.injEq] at hie
    subst hie
    have hg : ((d.at (k + 1)).2).getD zeroMat = P := by rw [hP]; rfl
    rw [← hg] at hs1
    obtain ⟨ρ1, k1, k2, k3, k4⟩ := h.add hd hN hs1
    rw [← hg, ← Dyn.iesTo_succ hN] at hl
    obtain ⟨inp, hi, hc⟩ := hd.inp N hN
    have hq : d.inputs = inp.b.ncols := by simp [Dyn.inputs, hN, hc]
    rw [insNames_succ]
    refine Sys.Grow.trans ?_ (ih (k + 1) h1 k1 hl)
    rw [hq]
    exact addInput_grow hi hs1 h.repr

/-- **Stepping**: columns for the inputs of the steps taken. -/
theorem SS.Sh.step_grow {d : Dyn K} {m : Mode K} (hd : d.For m) {te te' : Option (TE K)}
    (ht : ∀ u, te = some u → u.Inv d) {st st' : SS K} {ρ : Rep K} (h : st.Sh d ρ)
    {target : Option ℕ} (hs : st.step d m te target = .ok (te', st')) :
    st.lp.Grow st'.lp.toSys
      (if m.inputs.isSome then insNames m.id d.inputs (st'.stepIn - st.stepIn) else []) := by
  have hin : m.inputs.isSome = d.nmat.isSome := by
    cases hN : d.nmat with
    | none => rw [hd.noInp hN]; rfl
    | some N =>
      obtain ⟨inp, hi, -⟩ := hd.inp N hN
      rw [hi]; rfl
  unfold SS.step at hs
  simp only at hs
  generalize hk : target.getD (st.stepIn + 1) = k at *
  split at hs
  · cases hs
  rename_i hlt
  split at hs
  · rename_i heq
    simp only [Except.ok.injEq, Prod.mk.injEq] at hs
    obtain ⟨rfl, rfl⟩ := hs
    rw [Nat.sub_self]
    have : (if m.inputs.isSome = true then insNames m.id d.inputs 0 else []) = [] := by
      split <;> rfl
    rw [this]
    exact .refl _
  rename_i hne
  simp only [bind_ok, pure_ok, Prod.mk.injEq] at hs
  obtain ⟨r, hr, s1, hs1, q, hq, rfl, rfl⟩ := hs
  obtain ⟨hti, hr2⟩ := getBasis_ok hd.laws ht hr
  rw [hr2] at hs1 hq
  have hR1 := setBasisMatrix_repr hs1 h.repr
  have g1 := setBasis_grow hs1 h.repr
  rw [hin]
  cases hN : d.nmat with
  | none =>
    have hnone : (d.at k).2 = none := by
      match k with
      | 0 => rfl
      | 1 => exact hN
      | k + 2 => simp [Dyn.at, hN]
    rw [hnone] at hq
    simp only [SS.stepInputs, Except.ok.injEq] at hq
    subst hq
    exact g1
  | some N =>
    obtain ⟨k, rfl⟩ : ∃ j, k = j + 1 := ⟨k - 1, by omega⟩
    obtain ⟨P, hP, -⟩ := Dyn.at_ie_succ hd.laws hN k
    rw [hP] at hq
    simp only [SS.stepInputs, bind_ok, pure_ok] at hq
    obtain ⟨ies, h1, ⟨te2, s2, l⟩, h2, s3, h3, rfl⟩ := hq
    rw [h.ies, hN] at h1
    simp only [needSome, Option.map_some, Except.ok.injEq] at h1
    subst h1
    rw [h.lgg] at h2 h3
    obtain ⟨-, rfl, ρ1, k1, k2, k3, k4⟩ := ieLoop_spec hd hN _ _ hti (ρ := ρ.setBasis (d.at (k + 1)).1)
        ⟨hR1, h.n, h.Ns, h.m⟩ h2
    have g2 := ieLoop_grow hd hN _ _ hti (ρ := ρ.setBasis (d.at (k + 1)).1)
        ⟨hR1, h.n, h.Ns, h.m⟩ h2
    obtain ⟨inp, hi, hc⟩ := hd.inp N hN
    have hq : d.inputs = inp.b.ncols := by simp [Dyn.inputs, hN, hc]
    have g3 := addInput_grow hi h3 k1.repr
    rw [← hq] at g3
    have := (g1.trans g2).trans g3
    simp only [Option.isSome_some, if_true]
    have e : insNames m.id d.inputs (k + 1 - st.stepIn) =
        ([] ++ insNames m.id d.inputs (k + 1 - (st.stepIn + 1))) ++ inNames m.id d.inputs := by
      have e1 : inNames m.id d.inputs = insNames m.id d.inputs 1 := by simp [insNames]
      rw [List.nil_append, e1, ← insNames_add]
      congr 1; omega
    rw [e]
    exact this

variable [IsStrictOrderedRing K]

theorem SS.Sh.addInv_grow {S : Solver K} (hS : S.Honest) {T : Tols K} {d : Dyn K} {m : Mode K}
    (hd : d.For m) {st st' : SS K} {ρ : Rep K} (h : st.Sh d ρ) {idx : ℕ} {lc : LinCon K} {b : Bool}
    (hs : st.addInv S T idx lc = .ok (st', b)) : st.lp.Grow st'.lp.toSys [] := by
  have hies : st.ies.getD [] = d.iesTo st.stepIn := by
    rw [h.ies]
    cases hN : d.nmat with
    | none => simp [Dyn.iesTo_none hN]
    | some N => simp
  have hncs : ∀ N ∈ st.ies.getD [], N.nc = ρ.m := by
    rw [hies]
    rcases h.m with h1 | h1
    · rw [← h.Ns, h1]; simp
    · rw [h1]; exact Dyn.iesTo_nc hd.laws _
  have hlen : (st.ies.getD []).length ≤ ρ.Ns.length := by rw [hies, h.Ns]
  have hbm : (d.at st.stepIn).1.nr = ρ.n := by rw [h.n]; exact (Dyn.at_shape hd.laws _).1
  simp only [SS.addInv, bind_ok, needSome_ok] at hs
  obtain ⟨old, ho, bm, hb, hs⟩ := hs
  rw [h.basis] at hb
  simp only [Option.some.injEq] at hb
  subst hb
  cases old with
  | none =>
    simp only [bind_ok, pure_ok, Prod.mk.injEq] at hs
    obtain ⟨⟨s', row⟩, ha, rfl, rfl⟩ := hs
    obtain ⟨X, R, hsh, -⟩ := h.repr.shape
    obtain ⟨c, hc, -, -, rfl⟩ := addInitConstraint_none ha
    refine ⟨⟨rfl, rfl, rfl, rfl, rfl⟩, (List.append_nil _).symm, fun v hv i r hi hns => ?_⟩
    exact hv i r (by simp only; rw [List.getElem?_append_left (List.getElem?_eq_some_iff.1 hi).1]; exact hi) hns
  | some row =>
    simp only [bind_ok, pure_ok, Prod.mk.injEq] at hs
    obtain ⟨⟨lp', row', rep⟩, ha, rfl, rfl⟩ := hs
    exact (tryReplace_repr hS ha h.repr h.obj (h.rows idx row ho) hbm hncs hlen).2.2.2.2.2

/-- **Intersection with the invariant**: the same columns. -/
theorem invLoop_grow {S : Solver K} (hS : S.Honest) {T : Tols K} {d : Dyn K}
    {m : Mode K} (hd : d.For m) (lcs : List (LinCon K)) (hlcs : ∀ lc ∈ lcs, lc ∈ m.inv)
    {st st' : SS K} {ρ : Rep K} (h : st.Sh d ρ) {idx : ℕ} {ops ops' : List (ℕ × Bool)} {f : Bool}
    (hl : invLoop S T st idx lcs ops = .ok (st', f, ops')) : st.lp.Grow st'.lp.toSys [] := by
  induction lcs generalizing st ρ idx ops with
  | nil =>
    simp only [invLoop, Except.ok.injEq, Prod.mk.injEq] at hl
    obtain ⟨rfl, rfl, rfl⟩ := hl
    exact .refl _
  | cons lc lcs ih =>
    simp only [invLoop, bind_ok] at hl
    obtain ⟨⟨lp1, ans⟩, hc, hl⟩ := hl
    have hlc : lc ∈ m.inv := hlcs lc (by simp)
    obtain ⟨c1, c2, -⟩ := checkIntersection_spec hS h.obj
      (by have := hd.wf.nodup lc hlc; simpa [LinCon.negate, negRow, Function.comp_def] using this)
      (by
        intro p hp
        simp only [LinCon.negate, negRow, List.mem_map] at hp
        obtain ⟨q, hq, rfl⟩ := hp
        simp only [LinCon.negate]
        rw [hd.wf.ncols lc hlc]; exact hd.wf.lt lc hlc q hq) hc
    have h1 := h.withLp c1 c2
    have g0 : st.lp.Grow lp1.toSys [] := .of_eq c1
    split at hl
    · simp only [bind_ok] at hl
      obtain ⟨⟨st2, b⟩, ha, ⟨lp3, f3⟩, hf, hl⟩ := hl
      obtain ⟨a1, a2, ρ2, a3, a4⟩ := h1.addInv hS hd hlc ha
      have g1 : lp1.toSys.Grow st2.lp.toSys [] := h1.addInv_grow hS hd ha
      obtain ⟨q1, q2, -⟩ := isFeasible_spec hS hf a3.obj
      have h3 := a3.withLp q1 q2
      have g2 : st2.lp.Grow lp3.toSys [] := .of_eq q1
      have g := (g0.trans g1).trans g2
      split at hl
      · exact g.trans (ih (fun q hq => hlcs q (by simp [hq])) h3 hl)
      · simp only [pure_ok, Prod.mk.injEq] at hl
        obtain ⟨rfl, -⟩ := hl
        exact g
    · exact g0.trans (ih (fun q hq => hlcs q (by simp [hq])) h1 hl)

end Hylaa
