import Verif.Proofs.SolverLemmas
import Verif.Proofs.Shape
import Mathlib.Tactic.Linarith
import Mathlib.Tactic.FieldSimp

/-! Fourier-Motzkin elimination: a feasible linear program that is bounded below has an optimum. -/

set_option linter.unusedSectionVars false

namespace Hylaa
variable {K : Type} [Field K] [LinearOrder K] [IsStrictOrderedRing K]

theorem exists_between_lists (lows ups : List K) (h : ∀ l ∈ lows, ∀ u ∈ ups, l ≤ u) :
    ∃ t, (∀ l ∈ lows, l ≤ t) ∧ ∀ u ∈ ups, t ≤ u := by
  induction lows with
  | nil =>
    clear h
    induction ups with
    | nil => exact ⟨0, by simp, by simp⟩
    | cons u us ih =>
      obtain ⟨t, -, ht⟩ := ih
      refine ⟨min u t, by simp, fun w hw => ?_⟩
      rcases List.mem_cons.1 hw with rfl | hw
      · exact min_le_left _ _
      · exact (min_le_right _ _).trans (ht w hw)
  | cons l ls ih =>
    obtain ⟨t, h1, h2⟩ := ih fun l hl => h l (by simp [hl])
    refine ⟨max l t, fun w hw => ?_, fun u hu => max_le (h l (by simp) u hu) (h2 u hu)⟩
    rcases List.mem_cons.1 hw with rfl | hw
    · exact le_max_left _ _
    · exact (h1 w hw).trans (le_max_right _ _)

/-- A half space: coefficients and bound. -/
abbrev Half (K : Type) := (ℕ → K) × K

def Half.lhs (n : ℕ) (p : Half K) (v : ℕ → K) : K := ∑ j ∈ Finset.range n, p.1 j * v j

theorem fm_step (n : ℕ) (L : List (Half K)) : ∃ L' : List (Half K), ∀ v,
    (∀ p ∈ L', p.lhs n v ≤ p.2) ↔ ∃ t, ∀ p ∈ L, p.lhs n v + p.1 n * t ≤ p.2 := by
  let zs := L.filter fun p => decide (p.1 n = 0)
  let ps := L.filter fun p => decide (0 < p.1 n)
  let ns := L.filter fun p => decide (p.1 n < 0)
  let comb : Half K → Half K → Half K := fun p q =>
    (fun j => -q.1 n * p.1 j + p.1 n * q.1 j, -q.1 n * p.2 + p.1 n * q.2)
  have hcomb : ∀ p q v, (comb p q).lhs n v = -q.1 n * p.lhs n v + p.1 n * q.lhs n v := by
    intro p q v
    simp only [Half.lhs, comb, Finset.mul_sum]
    rw [← Finset.sum_add_distrib]
    exact Finset.sum_congr rfl fun j _ => by ring
  refine ⟨zs ++ ps.flatMap fun p => ns.map fun q => comb p q, fun v => ⟨fun h => ?_, ?_⟩⟩
  · obtain ⟨t, h1, h2⟩ := exists_between_lists
      (ns.map fun q => (q.2 - q.lhs n v) / q.1 n) (ps.map fun p => (p.2 - p.lhs n v) / p.1 n) (by
        intro l hl u hu
        simp only [List.mem_map] at hl hu
        obtain ⟨q, hq, rfl⟩ := hl
        obtain ⟨p, hp, rfl⟩ := hu
        have hc := h (comb p q) (by
          simp only [List.mem_append, List.mem_flatMap, List.mem_map]
          exact .inr ⟨p, hp, q, hq, rfl⟩)
        rw [hcomb] at hc
        simp only [ns, ps, List.mem_filter, decide_eq_true_eq] at hq hp
        rw [div_le_iff_of_neg hq.2, div_mul_eq_mul_div, div_le_iff₀ hp.2]
        simp only [comb] at hc
        nlinarith)
    refine ⟨t, fun p hp => ?_⟩
    rcases lt_trichotomy (p.1 n) 0 with hs | hs | hs
    · have := h1 ((p.2 - p.lhs n v) / p.1 n) (by
        simp only [List.mem_map]
        exact ⟨p, by simp only [ns, List.mem_filter, decide_eq_true_eq]; exact ⟨hp, hs⟩, rfl⟩)
      rw [div_le_iff_of_neg hs] at this
      linarith
    · have := h p (by
        simp only [List.mem_append]
        exact .inl (by simp only [zs, List.mem_filter, decide_eq_true_eq]; exact ⟨hp, hs⟩))
      rw [hs]; linarith
    · have := h2 ((p.2 - p.lhs n v) / p.1 n) (by
        simp only [List.mem_map]
        exact ⟨p, by simp only [ps, List.mem_filter, decide_eq_true_eq]; exact ⟨hp, hs⟩, rfl⟩)
      rw [le_div_iff₀ hs] at this
      linarith
  · rintro ⟨t, ht⟩ p hp
    simp only [List.mem_append, List.mem_flatMap, List.mem_map] at hp
    rcases hp with hp | ⟨p', hp', q, hq, rfl⟩
    · simp only [zs, List.mem_filter, decide_eq_true_eq] at hp
      have := ht p hp.1
      rw [hp.2] at this; linarith
    · simp only [ps, ns, List.mem_filter, decide_eq_true_eq] at hp' hq
      have h1 := ht p' hp'.1
      have h2 := ht q hq.1
      rw [hcomb]
      simp only [comb]
      nlinarith [mul_le_mul_of_nonneg_left h1 (le_of_lt (neg_pos.2 hq.2)),
        mul_le_mul_of_nonneg_left h2 (le_of_lt hp'.2)]

/-- Eliminate all coordinates but the first. -/
theorem fm_all (n : ℕ) (L : List (Half K)) : ∃ L' : List (Half K), ∀ t : K,
    (∀ p ∈ L', p.1 0 * t ≤ p.2) ↔ ∃ v : ℕ → K, v 0 = t ∧ ∀ p ∈ L, p.lhs (n + 1) v ≤ p.2 := by
  induction n generalizing L with
  | zero =>
    refine ⟨L, fun t => ⟨fun h => ⟨fun _ => t, rfl, fun p hp => by simpa [Half.lhs] using h p hp⟩, ?_⟩⟩
    rintro ⟨v, rfl, h⟩ p hp
    simpa [Half.lhs] using h p hp
  | succ n ih =>
    obtain ⟨L1, h1⟩ := fm_step (n + 1) L
    obtain ⟨L2, h2⟩ := ih L1
    refine ⟨L2, fun t => (h2 t).trans ⟨?_, ?_⟩⟩
    · rintro ⟨v, rfl, hv⟩
      obtain ⟨s, hs⟩ := (h1 v).1 hv
      refine ⟨fun j => if j = n + 1 then s else v j, by simp, fun p hp => ?_⟩
      refine le_trans (le_of_eq ?_) (hs p hp)
      unfold Half.lhs
      rw [Finset.sum_range_succ]
      congr 1
      · refine Finset.sum_congr rfl fun j hj => ?_
        have := Finset.mem_range.1 hj
        simp only; rw [if_neg (by omega)]
      · simp
    · rintro ⟨v, rfl, hv⟩
      refine ⟨v, rfl, (h1 v).2 ⟨v (n + 1), fun p hp => ?_⟩⟩
      refine le_trans (le_of_eq ?_) (hv p hp)
      unfold Half.lhs
      rw [Finset.sum_range_succ _ (n + 1)]

theorem attain_one (L : List (Half K)) {t0 B : K} (h0 : ∀ p ∈ L, p.1 0 * t0 ≤ p.2)
    (hB : ∀ t, (∀ p ∈ L, p.1 0 * t ≤ p.2) → B ≤ t) :
    ∃ t, (∀ p ∈ L, p.1 0 * t ≤ p.2) ∧ ∀ s, (∀ p ∈ L, p.1 0 * s ≤ p.2) → t ≤ s := by
  let ns := L.filter fun p => decide (p.1 0 < 0)
  have hex : ∃ q ∈ ns, True := by
    by_contra hc
    push Not at hc
    have hpos : ∀ p ∈ L, 0 ≤ p.1 0 := by
      intro p hp
      by_contra hlt
      exact hc p (by simp only [ns, List.mem_filter, decide_eq_true_eq]; exact ⟨hp, not_le.1 hlt⟩)
    have := hB (min t0 (B - 1)) fun p hp =>
      (mul_le_mul_of_nonneg_left (min_le_left _ _) (hpos p hp)).trans (h0 p hp)
    have h2 := min_le_right t0 (B - 1)
    linarith
  obtain ⟨q, hq, -⟩ := hex
  have hmax : ∀ l : List (Half K), l ≠ [] → ∃ m ∈ l, ∀ p ∈ l, p.2 / p.1 0 ≤ m.2 / m.1 0 := by
    intro l
    induction l with
    | nil => simp
    | cons a l ih =>
      intro _
      by_cases hl : l = []
      · subst hl; exact ⟨a, by simp, by simp⟩
      · obtain ⟨m, hm, h⟩ := ih hl
        rcases le_total (m.2 / m.1 0) (a.2 / a.1 0) with h1 | h1
        · refine ⟨a, by simp, fun p hp => ?_⟩
          rcases List.mem_cons.1 hp with rfl | hp
          · exact le_refl _
          · exact (h p hp).trans h1
        · refine ⟨m, by simp [hm], fun p hp => ?_⟩
          rcases List.mem_cons.1 hp with rfl | hp
          · exact h1
          · exact h p hp
  obtain ⟨m, hm, hmx⟩ := hmax ns (List.ne_nil_of_mem hq)
  have hm' : m ∈ L ∧ m.1 0 < 0 := by
    simpa only [ns, List.mem_filter, decide_eq_true_eq] using hm
  have hlow : ∀ s, (∀ p ∈ L, p.1 0 * s ≤ p.2) → m.2 / m.1 0 ≤ s := by
    intro s hs
    rw [div_le_iff_of_neg hm'.2]
    linarith [hs m hm'.1]
  refine ⟨m.2 / m.1 0, fun p hp => ?_, hlow⟩
  rcases lt_or_ge (p.1 0) 0 with hs | hs
  · have := hmx p (by simp only [ns, List.mem_filter, decide_eq_true_eq]; exact ⟨hp, hs⟩)
    rw [div_le_iff_of_neg hs] at this
    linarith
  · exact (mul_le_mul_of_nonneg_left (hlow t0 h0) hs).trans (h0 p hp)

/-- Half spaces of a row over columns shifted by one. -/
def LRow.halves (r : LRow K) : List (Half K) :=
  let c : ℕ → K := fun j => match j with | 0 => 0 | j + 1 => coefAt r.coefs j
  let up : Half K := (c, r.rhs)
  let lo : Half K := (fun j => -c j, -r.rhs)
  match r.ty with
  | .fx => [up, lo]
  | .up => [up]
  | .lo => [lo]

theorem shift_lhs (c : ℕ → K) (n : ℕ) (v : ℕ → K) (b : K) :
    Half.lhs (n + 1) ((fun j => match j with | 0 => 0 | j + 1 => c j, b) : Half K) v =
      ∑ j ∈ Finset.range n, c j * v (j + 1) := by
  unfold Half.lhs
  rw [Finset.sum_range_succ']
  simp

theorem LRow.halves_iff {r : LRow K} {n : ℕ} (h : ∀ p ∈ r.coefs, p.1 < n) (v : ℕ → K) :
    (∀ p ∈ r.halves, p.lhs (n + 1) v ≤ p.2) ↔ r.holds fun j => v (j + 1) := by
  have h1 : ∀ b, Half.lhs (n + 1)
      ((fun j => match j with | 0 => 0 | j + 1 => coefAt r.coefs j, b) : Half K) v =
      dot r.coefs fun j => v (j + 1) := by
    intro b
    rw [shift_lhs, dot_eq_sum_coefAt h]
  have h2 : ∀ b, Half.lhs (n + 1)
      ((fun j => -(match j with | 0 => 0 | j + 1 => coefAt r.coefs j), b) : Half K) v =
      -dot r.coefs fun j => v (j + 1) := by
    intro b
    rw [← h1 b]
    unfold Half.lhs
    rw [← Finset.sum_neg_distrib]
    exact Finset.sum_congr rfl fun j _ => by ring
  unfold LRow.halves LRow.holds
  cases r.ty <;>
  simp only [List.mem_cons, List.not_mem_nil, or_false, forall_eq_or_imp, forall_eq, h1, h2,
    neg_le_neg_iff]
  exact ⟨fun h => le_antisymm h.1 h.2, fun h => ⟨h.le, h.ge⟩⟩

/-- **A feasible LP with bounded objective has an optimum.** -/
theorem Lp.attain {lp : Lp K} (hwf : lp.WF) (hf : ∃ v, lp.Sat v) {B : K}
    (hB : ∀ v, lp.Sat v → B ≤ lp.objVal v) :
    ∃ v, lp.Sat v ∧ ∀ w, lp.Sat w → lp.objVal v ≤ lp.objVal w := by
  let o1 : Half K := (fun j => match j with | 0 => 1 | j + 1 => -lp.obj j, 0)
  let o2 : Half K := (fun j => match j with | 0 => -1 | j + 1 => lp.obj j, 0)
  have ho1 : ∀ v : ℕ → K, o1.lhs (lp.numCols + 1) v = v 0 - lp.objVal fun j => v (j + 1) := by
    intro v
    simp only [Half.lhs, o1, Lp.objVal]
    rw [Finset.sum_range_succ']
    simp [sub_eq_add_neg, add_comm]
  have ho2 : ∀ v : ℕ → K, o2.lhs (lp.numCols + 1) v = (lp.objVal fun j => v (j + 1)) - v 0 := by
    intro v
    simp only [Half.lhs, o2, Lp.objVal]
    rw [Finset.sum_range_succ']
    simp [sub_eq_add_neg]
  obtain ⟨L, hL⟩ := fm_all lp.numCols (o1 :: o2 :: lp.rows.flatMap LRow.halves)
  have hL' : ∀ t, (∀ p ∈ L, p.1 0 * t ≤ p.2) ↔ ∃ v, lp.Sat v ∧ lp.objVal v = t := by
    intro t
    rw [hL]
    constructor
    · rintro ⟨v, rfl, hv⟩
      have e1 := hv o1 (by simp)
      have e2 := hv o2 (by simp)
      rw [ho1] at e1; rw [ho2] at e2
      simp only [o1, o2] at e1 e2
      refine ⟨fun j => v (j + 1), fun r hr => ?_, by linarith⟩
      rw [← LRow.halves_iff (hwf r hr)]
      exact fun p hp => hv p (by
        simp only [List.mem_cons, List.mem_flatMap]; exact .inr (.inr ⟨r, hr, hp⟩))
    · rintro ⟨v, hv, rfl⟩
      let w : ℕ → K := fun j => match j with | 0 => lp.objVal v | j + 1 => v j
      refine ⟨w, rfl, fun p hp => ?_⟩
      simp only [List.mem_cons, List.mem_flatMap] at hp
      rcases hp with rfl | rfl | ⟨r, hr, hp⟩
      · rw [ho1]; simp [w, o1]
      · rw [ho2]; simp [w, o2]
      · exact (LRow.halves_iff (hwf r hr) w).2 (hv r hr) p hp
  obtain ⟨v0, hv0⟩ := hf
  obtain ⟨t, ht, hmin⟩ := attain_one L (t0 := lp.objVal v0) (B := B) ((hL' _).2 ⟨v0, hv0, rfl⟩)
    (fun t ht => by obtain ⟨v, hv, rfl⟩ := (hL' t).1 ht; exact hB v hv)
  obtain ⟨v, hv, rfl⟩ := (hL' t).1 ht
  exact ⟨v, hv, fun w hw => hmin _ ((hL' _).2 ⟨w, hw, rfl⟩)⟩

end Hylaa
