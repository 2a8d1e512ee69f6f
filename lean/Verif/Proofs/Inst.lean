import Verif.Proofs.Hist

/-!
# Every LP instance the library can produce

`Inst S lp live`: `lp` results from some sequence of library calls.  `live` says that no
current-time constraint was added since construction or the last reset, so the basis matrix may be
set again (this is how the library uses instances: guards are put on clones which then get a
reset).
-/

set_option linter.unusedSectionVars false

namespace Hylaa
open Spec
variable {K : Type} [Field K] [LinearOrder K]

inductive Inst (S : Solver K) : Lp K → Bool → Prop
  /-- everything of `Hist`: construction, optimisation, steps, inputs, invariant rows, resets -/
  | hist {lp ρ rows} : Hist S lp ρ rows → Inst S lp true
  | minimize {lp b dir columns f lp' r} : Inst S lp b →
      minimize S lp dir columns f = .ok (lp', r) → Inst S lp' b
  | direction {lp b nc row off lp'} : Inst S lp b → lp.setMinDirCsr nc row off = .ok lp' →
      Inst S lp' b
  | clone {lp b lp'} : Inst S lp b → lp.clone = .ok lp' → Inst S lp' b
  | setBasis {lp M s} : Inst S lp true → setBasisMatrix lp.toSys M = .ok s →
      Inst S { lp with toSys := s } true
  | addInput {lp N mode inp s} : Inst S lp true → addInputEffects lp.toSys N mode none = .ok s →
      mode.inputs = some inp → Inst S { lp with toSys := s } true
  | addInputLgg {lp N mode inp β s} : Inst S lp true →
      addInputEffects lp.toSys N mode (some β) = .ok s →
      mode.inputs = some inp → inp.WF → Inst S { lp with toSys := s } true
  | bloat {lp a pre s} : Inst S lp true → bloat lp.toSys a pre = .ok s →
      Inst S { lp with toSys := s } true
  | addInit {lp vec rhs bm ies s row} : Inst S lp true →
      addInitConstraint lp.toSys vec rhs bm ies none = .ok (s, row) → bm.nr = lp.dims →
      Inst S { lp with toSys := s } true
  /-- current-time constraints (guards) -/
  | cut {lp b c rhs s} : Inst S lp b → addCurtimeConstraints lp.toSys c rhs = .ok s →
      c.rows.length = rhs.length → c.WF → Inst S { lp with toSys := s } false
  /-- reset, with or without Minkowski sum -/
  | reset {lp b mid ti reset mink minkC minkRhs inputs s} : Inst S lp b →
      addResetVariables lp.toSys mid ti reset mink minkC minkRhs inputs = .ok s →
      (reset.isSome → (reset.getD ⟨0, []⟩).rows ≠ []) → 0 < lp.dims →
      (∀ r, reset = some r → r.WF) → (∀ m, mink = some m → m.WF) →
      (∀ m, minkC = some m → m.WF) →
      (∀ m c, mink = some m → minkC = some c → c.ncols = m.ncols) →
      Inst S { lp with toSys := s } true

theorem Sys.SameVars.refl (s : Sys K) : s.SameVars s := ⟨rfl, rfl, rfl, rfl, rfl⟩

theorem Sys.SameVars.trans {a b c : Sys K} (h : a.SameVars b) (h' : b.SameVars c) : a.SameVars c :=
  ⟨h'.dims.trans h.dims, h'.bmPos.trans h.bmPos, h'.cur.trans h.cur, h'.ie.trans h.ie,
    h'.bmIdx.trans h.bmIdx⟩

theorem Sys.Shape.curLe' {s : Sys K} {B : ℕ → ℕ → K} {X R : ℕ → SRow K} (h : s.Shape B X R) :
    s.cur + s.dims ≤ s.numCols := by
  have := h.curLe
  unfold blockLen at this
  split at this <;> omega

theorem Inst.inv [IsStrictOrderedRing K] {S : Solver K} (hS : S.Honest) {lp : Lp K} {b : Bool}
    (h : Inst S lp b) : lp.WF ∧ lp.cur + lp.dims ≤ lp.numCols ∧ lp.ObjInv ∧
      (b = true → ∃ B X R, lp.Shape B X R) := by
  have mk : ∀ {lp : Lp K}, (∃ B X R, lp.Shape B X R) → lp.ObjInv → lp.WF ∧
      lp.cur + lp.dims ≤ lp.numCols ∧ lp.ObjInv ∧ (true = true → ∃ B X R, lp.Shape B X R) := by
    intro lp h ho
    obtain ⟨B, X, R, hs⟩ := h
    exact ⟨hs.wf, hs.curLe', ho, fun _ => ⟨B, X, R, hs⟩⟩
  induction h with
  | hist h =>
    obtain ⟨h1, h2, -⟩ := h.inv hS
    obtain ⟨X, R, hsh, -⟩ := h1.shape
    exact mk ⟨_, X, R, hsh⟩ h2
  | minimize _ hm ih =>
    obtain ⟨h1, h2⟩ := minimize_keeps hm
    rw [h1]; exact ⟨ih.1, ih.2.1, h2 ih.2.2.1, ih.2.2.2⟩
  | direction _ hm ih =>
    obtain ⟨h1, h2, -⟩ := setMinDirCsr_spec hm ih.2.2.1
    rw [h2]; exact ⟨ih.1, ih.2.1, h1, ih.2.2.2⟩
  | @clone lp b lp' _ hc ih =>
    have hc := clone_ok hc
    subst hc
    refine ⟨ih.1, ih.2.1, ih.2.2.1, fun hb => ?_⟩
    obtain ⟨B, X, R, hsh⟩ := ih.2.2.2 hb
    refine ⟨B, X, R, ?_⟩
    have : ∀ (s : Sys K), s.bmIdx = mkBmIdx s.dims s.bmPos.2 s.cur s.ie →
        { s with bmIdx := mkBmIdx s.dims s.bmPos.2 s.cur s.ie } = s := by
      intro s hs; cases s; simp_all
    rw [this _ hsh.idx]; exact hsh
  | setBasis _ hb ih =>
    obtain ⟨B, X, R, hsh⟩ := ih.2.2.2 rfl
    exact mk ⟨_, _, _, (setBasisMatrix_shape hb hsh).1⟩ ih.2.2.1
  | addInput _ ha hin ih =>
    obtain ⟨B, X, R, hsh⟩ := ih.2.2.2 rfl
    exact mk ⟨_, _, _, (addInputEffects_shape ha hin hsh).1⟩ ih.2.2.1
  | addInputLgg _ ha hin hwf ih =>
    obtain ⟨B, X, R, hsh⟩ := ih.2.2.2 rfl
    exact mk ⟨_, _, _, (addInputEffects_lgg_shape ha hin hwf hsh).1⟩ ih.2.2.1
  | bloat _ hb ih =>
    obtain ⟨B, X, R, hsh⟩ := ih.2.2.2 rfl
    exact mk ⟨_, _, _, (bloat_shape hb hsh).1⟩ ih.2.2.1
  | addInit _ ha hbm ih =>
    obtain ⟨B, X, R, hsh⟩ := ih.2.2.2 rfl
    obtain ⟨c, hc, hvl, rfl, rfl⟩ := addInitConstraint_none ha
    have hav := hc.avoid hbm hsh.colsLe fun p hp => (hsh.iePos p hp).1
    exact mk ⟨_, _, _, (appendRow_shape hsh ((⟨.up, _, []⟩ : LRow K).withCoefs c)
      (fun p hp => hc.lt p (LRow.withCoefs_mem hp))
      (fun p hp => hav p (LRow.withCoefs_mem hp))).1⟩ ih.2.2.1
  | cut _ hg hl hwf ih =>
    obtain ⟨h1, h2, h3, -, -⟩ := addCurtimeConstraints_ok hg hl hwf ih.1
    refine ⟨h1, ?_, ih.2.2.1, by simp⟩
    simp only [Sys.numCols]
    rw [h2.cur, h2.dims, h3]; exact ih.2.1
  | reset _ hr hne hd hrwf hmwf hmcwf hmc ih =>
    exact mk ⟨_, _, _, (addResetVariables_shape hr ih.1 ih.2.1 hne hd hrwf hmwf hmcwf hmc).1⟩
      ih.2.2.1

end Hylaa
