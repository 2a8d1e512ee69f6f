import Verif.Proofs.PlotLp
import Verif.Props.OpsEx
import Verif.Props.Query
import Verif.Proofs.Total
import Mathlib.Algebra.Order.BigOperators.Group.Finset
import Verif.Model.Core

/-!
# What the run-time check of time-triggered transitions establishes
-/

set_option linter.unusedSectionVars false

namespace Hylaa
open Spec

variable {K : Type} [Field K] [LinearOrder K] [IsStrictOrderedRing K]

theorem affineLoop_sys {S : Solver K} (hS : S.Honest) {eps : K} {vars : List ℕ} {lp lp' : Lp K}
    {b : Bool} (ho : lp.ObjInv) (h : affineLoop S eps lp vars = .ok (lp', b)) :
    lp'.toSys = lp.toSys ∧ lp'.ObjInv := by
  induction vars generalizing lp with
  | nil => cases h; exact ⟨rfl, ho⟩
  | cons v vs ih =>
    simp only [affineLoop, bind_ok] at h
    obtain ⟨⟨l1, r1⟩, h1, _, -, ⟨l2, r2⟩, h2, _, -, h3⟩ := h
    obtain ⟨e1, o1, -⟩ := minimize_spec hS h1 ho
    obtain ⟨e2, o2, -⟩ := minimize_spec hS h2 o1
    split at h3
    · cases h3; exact ⟨e2.trans e1, o2⟩
    · obtain ⟨e3, o3⟩ := ih o2 h3
      exact ⟨e3.trans (e2.trans e1), o3⟩

theorem dotDense_range (n m : ℕ) (h : n ≤ m) (f x : ℕ → K) :
    dotDense ((List.range n).map f) ((List.range m).map x) = ∑ j ∈ Finset.range n, f j * x j := by
  have : List.zipWith (fun a b => a * b) ((List.range n).map f) ((List.range m).map x) =
      (List.range n).map fun j => f j * x j := by
    apply List.ext_getElem
    · simp [h]
    · intro i h1 h2; simp
  unfold dotDense
  rw [this]
  clear this h
  induction n with
  | zero => simp
  | succ n ih => rw [List.range_succ, List.map_append, List.sum_append, ih, Finset.sum_range_succ]; simp

/-- The guard row for which `was_tt_taken` answers true: it only involves time-triggered variables,
an invariant condition of the mode is (up to `eps`) its opposite, and on the whole set its value is
below `b + eps`. -/
def TtRow (eps : K) (a : Csr K) (inv : List (LinCon K)) (n : ℕ) (X : (ℕ → K) → Prop)
    (r : SRow K) (b : K) (lc : LinCon K) : Prop :=
  rowOnly (getTtVars a) r = true ∧ lc ∈ inv ∧ |lc.rhs + b| < eps ∧
    (∀ j < n, coefAt lc.row j = -coefAt r j) ∧
    ∀ x, X x → (∑ j ∈ Finset.range n, coefAt r j * x j) < b + eps

theorem ttLoop_spec {S : Solver K} (hS : S.Honest) {s : Sys K} (hcur : s.cur + s.dims ≤ s.numCols)
    {eps : K} {a : Csr K} {inv : List (LinCon K)} {n : ℕ} {rows : List (SRow K × K)} {lp lp' : Lp K}
    {acc : Bool} (hp : PlotLp s lp) (h : ttLoop S eps a inv n lp rows acc = .ok (lp', true)) :
    acc = true ∨ ∃ p ∈ rows, ∃ lc, TtRow eps a inv n s.Mem p.1 p.2 lc := by
  induction rows generalizing lp acc with
  | nil =>
    simp only [ttLoop, Except.ok.injEq, Prod.mk.injEq] at h
    exact .inl h.2
  | cons p rows ih =>
    obtain ⟨r, b⟩ := p
    simp only [ttLoop] at h
    have next : ∀ {l : Lp K} {ac : Bool}, PlotLp s l → ttLoop S eps a inv n l rows ac = .ok (lp', true) →
        ac = true ∨ ∃ p ∈ (r, b) :: rows, ∃ lc, TtRow eps a inv n s.Mem p.1 p.2 lc := by
      intro l ac hl hh
      rcases ih hl hh with h1 | ⟨p, hp, h1⟩
      · exact .inl h1
      · exact .inr ⟨p, by simp [hp], h1⟩
    split at h
    · next hc =>
      simp only [bind_ok] at h
      obtain ⟨⟨l1, q⟩, h1, h⟩ := h
      obtain ⟨e1, o1⟩ := affineLoop_sys hS hp.obj h1
      have p1 : PlotLp s l1 := ⟨e1.trans hp.sys, o1⟩
      have hd1 : l1.dims = s.dims := by rw [p1.sys]
      split at h
      · simp only [bind_ok] at h
        obtain ⟨⟨l2, r2⟩, h2, ⟨l3, r3⟩, h3, h⟩ := h
        obtain ⟨e2, o2, f2, -, g2⟩ := minimize_spec hS h2 p1.obj
        obtain ⟨e3, o3, f3, -, g3⟩ := minimize_spec hS h3 o2
        have p3 : PlotLp s l3 := ⟨e3.trans (e2.trans p1.sys), o3⟩
        rcases next p3 h with hacc | hrest
        · simp only [Bool.or_eq_true, Bool.and_eq_true, decide_eq_true_eq] at hacc
          rcases hacc with hacc | ⟨hflat, hle⟩
          · exact .inl hacc
          · right
            refine ⟨(r, b), by simp, ?_⟩
            simp only [Bool.and_eq_true, List.any_eq_true, decide_eq_true_eq, sub_neg_eq_add] at hc
            obtain ⟨hr, lc, hlc, habs, hopp⟩ := hc
            refine ⟨lc, hr, hlc, habs, ?_, ?_⟩
            · intro j hj
              simp only [oppositeRow, List.all_eq_true, List.mem_range, decide_eq_true_eq] at hopp
              have := hopp j hj
              linarith
            · cases r2 with
              | none => exact absurd rfl (f2 rfl)
              | some r2 =>
              cases r3 with
              | none => exact absurd rfl (f3 rfl)
              | some r3 =>
              obtain ⟨v2, -, c2, -, -⟩ := g2 r2 rfl
              obtain ⟨v3, -, c3, -, m3⟩ := g3 r3 rfl
              have hs2 : l2.toSys = s := e2.trans p1.sys
              have m3 := m3 _ rfl (by rw [hs2]; exact hcur)
              -- the direction fits
              have hn : n ≤ s.dims := by
                cases hh : setDirOpt l2 (some ((List.map (coefAt r) (List.range n)).map fun x => -x)) with
                | error e =>
                  exfalso
                  unfold minimize minimizeOnce at h3
                  simp only at h3
                  rw [hh] at h3
                  cases h3
                | ok l =>
                  have := (setMinDir_toSys (by simpa [setDirOpt] using hh)).2
                  simpa [hs2] using this
              intro x hx
              obtain ⟨w, hw, hxw⟩ := hx
              have hm := m3 w (by rw [hs2]; exact hw)
              simp only [List.length_map, List.length_range] at hm
              have hcv : ∀ (v : ℕ → K) (l : Lp K), l.toSys = s →
                  dotDense ((List.range n).map (coefAt r))
                    (colVals l (some ((List.range l1.dims).map fun n => l1.cur + n)) v) =
                  ∑ j ∈ Finset.range n, coefAt r j * v (s.cur + j) := by
                intro v l hl
                have : colVals l (some ((List.range l1.dims).map fun n => l1.cur + n)) v =
                    (List.range s.dims).map fun n => v (s.cur + n) := by
                  simp [colVals, p1.sys, Function.comp_def]
                rw [this, dotDense_range _ _ hn]
              simp only [Option.getD_some, c2, c3] at hflat hle
              rw [hcv v3 l2 hs2, hcv v2 l1 p1.sys] at hflat
              rw [hcv v2 l1 p1.sys] at hle
              have hneg : ∀ v : ℕ → K, (∑ i ∈ Finset.range n,
                  ((List.map (coefAt r) (List.range n)).map fun x => -x).getD i 0 * v (l2.cur + i)) =
                  -∑ j ∈ Finset.range n, coefAt r j * v (s.cur + j) := by
                intro v
                rw [← Finset.sum_neg_distrib]
                refine Finset.sum_congr rfl fun i hi => ?_
                rw [List.map_map, getD_map_range _ _ _ _ (Finset.mem_range.1 hi), hs2]
                simp
              rw [hneg, hneg] at hm
              have hx' : (∑ j ∈ Finset.range n, coefAt r j * x j) =
                  ∑ j ∈ Finset.range n, coefAt r j * w (s.cur + j) :=
                Finset.sum_congr rfl fun j hj => by
                  rw [hxw j (by have := Finset.mem_range.1 hj; omega)]
              simp only at hle ⊢
              rw [hx']
              have := (abs_lt.1 hflat).2
              linarith
        · exact .inr hrest
      · exact next p1 h
    · exact next hp h

/-- The same system; a stored objective stays consistent. -/
def Lp.Kept (a b : Lp K) : Prop := b.toSys = a.toSys ∧ (a.ObjInv → b.ObjInv)

theorem Lp.Kept.refl (a : Lp K) : a.Kept a := ⟨rfl, id⟩

theorem Lp.Kept.trans {a b c : Lp K} (h : a.Kept b) (h' : b.Kept c) : a.Kept c :=
  ⟨h'.1.trans h.1, fun x => h'.2 (h.2 x)⟩

theorem affineLoop_kept {S : Solver K} {eps : K} : ∀ (vars : List ℕ) {lp lp' : Lp K} {b : Bool},
    affineLoop S eps lp vars = .ok (lp', b) → lp.Kept lp'
  | [], lp, lp', b, h => by cases h; exact .refl _
  | var :: vars, lp, lp', b, h => by
    simp only [affineLoop, bind_ok] at h
    obtain ⟨r1, h1, v1, -, r2, h2, v2, -, h⟩ := h
    have k : lp.Kept r2.1 := .trans (minimize_keeps (r := r1.2) h1) (minimize_keeps (r := r2.2) h2)
    split at h
    · cases h; exact k
    · exact k.trans (affineLoop_kept vars h)

theorem ttLoop_kept {S : Solver K} {eps : K} {a : Csr K} {inv : List (LinCon K)} {n : ℕ} :
    ∀ (rows : List (SRow K × K)) {lp lp' : Lp K} {acc b : Bool},
    ttLoop S eps a inv n lp rows acc = .ok (lp', b) → lp.Kept lp'
  | [], lp, lp', acc, b, h => by cases h; exact .refl _
  | (r, q) :: rows, lp, lp', acc, b, h => by
    rw [ttLoop] at h
    split at h
    · simp only [bind_ok] at h
      obtain ⟨⟨lp1, f⟩, h1, h⟩ := h
      have k1 := affineLoop_kept _ h1
      simp only at h
      split at h
      · simp only [bind_ok] at h
        obtain ⟨r1, h2, r2, h3, h⟩ := h
        exact (k1.trans (.trans (minimize_keeps (r := r1.2) h2) (minimize_keeps (r := r2.2) h3))).trans
          (ttLoop_kept rows h)
      · exact k1.trans (ttLoop_kept rows h)
    · exact ttLoop_kept rows h

/-- The time-triggered check only optimises. -/
theorem ttCheck_kept {E : Env K} {σ σ' : Core K} {t : Tr K} {g : Csr K × List K} {sid : ℕ}
    (h : ttCheck E σ t g sid = .ok σ') : σ' = σ ∨ ∃ st lp b, σ.states[sid]? = some st ∧ st.lp.Kept lp ∧
      σ' = { σ.setState sid { st with lp := lp } with tookTt := b } := by
  unfold ttCheck at h
  split at h
  · simp only [bind_ok, needSome_ok, pure_ok] at h
    obtain ⟨st, hst, src, -, r, hr, rfl⟩ := h
    simp only [wasTtTaken, bind_ok, needSome_ok] at hr
    obtain ⟨a, -, hr⟩ := hr
    exact .inr ⟨st, r.1, _, hst, ttLoop_kept (b := r.2) _ hr, rfl⟩
  · cases h; exact .inl rfl

end Hylaa
