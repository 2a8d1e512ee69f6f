import Verif.Proofs.Chull
import Verif.Props.Agg
import Mathlib.Analysis.Convex.Hull

/-!
# Property C14: convex-hull aggregation
-/

set_option linter.unusedSectionVars false

namespace Hylaa

namespace Spec
variable {K : Type} [Field K] [LinearOrder K] [IsStrictOrderedRing K]

/-- The points of a set, as vectors of length `n`. -/
def Pts (n : ℕ) (X : (ℕ → K) → Prop) : Set (Fin n → K) := {z | ∃ x, X x ∧ ∀ i : Fin n, z i = x i}

/-- All coordinates of all points are bounded. -/
def Bounded (n : ℕ) (X : (ℕ → K) → Prop) : Prop := ∃ b, ∀ x, X x → ∀ i < n, |x i| ≤ b

end Spec

open Spec
variable {K : Type} [Field K] [LinearOrder K] [IsStrictOrderedRing K]

theorem mapM_forall₂ {α β : Type} {P : α → Prop} (f : α → Except Err β) (l : List {x // P x})
    (cs : List β) (h : (l.mapM fun x => f x.1) = .ok cs) :
    List.Forall₂ (fun a c => f a = .ok c) (l.map Subtype.val) cs := by
  induction l generalizing cs with
  | nil => simp [pure, Except.pure] at h; subst h; simp
  | cons a l ih =>
    simp only [List.mapM_cons, bind_ok, pure_ok] at h
    obtain ⟨b, hb, bs, hbs, rfl⟩ := h
    exact List.Forall₂.cons hb (ih bs hbs)

theorem hullArg_mem_congr {n : ℕ} {s : Sys K} (h : HullArg n s) {x y : ℕ → K}
    (hxy : ∀ i < n, x i = y i) (hx : s.Mem x) : s.Mem y := by
  obtain ⟨v, hv, hvx⟩ := hx
  exact ⟨v, hv, fun i hi => by rw [hvx i hi, hxy i (by rw [← h.dims]; exact hi)]⟩

theorem cloneComplete_mem {n : ℕ} {lp c : Lp K} (h : HullArg n lp.toSys)
    (hc : cloneComplete lp = .ok c) (x : ℕ → K) : c.Mem x ↔ lp.Mem x := by
  obtain ⟨h1, h2, h3⟩ := cloneComplete_ok h hc
  unfold Sys.Mem
  rw [h2, h1.dims, h.dims]
  simp only [← Sys.scaled_one, h3, zero_le_one, and_true]

/-- The set of an instance is convex. -/
theorem mem_convex {n : ℕ} {s : Sys K} (h : HullArg n s) : Convex K (Pts n s.Mem) := by
  rintro z ⟨x, ⟨v, hv, hvx⟩, hz⟩ z' ⟨y, ⟨w, hw, hwy⟩, hz'⟩ a b ha hb hab
  refine ⟨fun i => a * x i + b * y i, ⟨fun j => a * v j + b * w j, ?_, ?_⟩, fun i => ?_⟩
  · rw [← Sys.scaled_one] at *
    have := (hv.mul ha).add (hw.mul hb)
    rwa [mul_one, mul_one, hab] at this
  · intro i hi; simp only; rw [hvx i hi, hwy i hi]
  · simp [hz i, hz' i]

/-- A direction in which one can go on for ever inside a bounded set is zero. -/
theorem bounded_dir {n : ℕ} {X : (ℕ → K) → Prop} (hb : Bounded n X) {q r : ℕ → K}
    (h : ∀ t : K, 0 ≤ t → X fun i => q i + t * r i) : ∀ i < n, r i = 0 := by
  obtain ⟨b, hb⟩ := hb
  intro i hi
  by_contra hr
  have h0 := hb _ (h 0 (le_refl _)) i hi
  simp only [zero_mul, add_zero] at h0
  have hpos : 0 < |r i| := abs_pos.2 hr
  have ht : 0 ≤ (2 * b + 1) / |r i| :=
    div_nonneg (by linarith [abs_nonneg (q i)]) (le_of_lt hpos)
  have h1 := hb _ (h _ ht) i hi
  have h2 : |(2 * b + 1) / |r i| * r i| = 2 * b + 1 := by
    rw [abs_mul, abs_of_nonneg ht]
    field_simp
  have h3 : |(2 * b + 1) / |r i| * r i| ≤ |q i + (2 * b + 1) / |r i| * r i| + |q i| := by
    have := abs_sub (q i + (2 * b + 1) / |r i| * r i) (q i)
    simpa using this
  linarith

theorem scaled_zero_dir {n : ℕ} {s : Sys K} (h : HullArg n s) (hb : Bounded n s.Mem) {q w : ℕ → K}
    (hq : s.Mem q) (hw : s.Scaled 0 w) : ∀ i < n, w (s.cur + i) = 0 := by
  obtain ⟨v, hv, hvq⟩ := hq
  refine bounded_dir (q := q) hb fun t ht => ⟨fun j => v j + t * w j, ?_, fun i hi => ?_⟩
  · rw [← Sys.scaled_one] at *
    have := hv.add (hw.mul ht)
    rwa [mul_zero, add_zero] at this
  · simp only; rw [hvq i hi]

theorem scaled_pos_mem {n : ℕ} {s : Sys K} {a : K} (ha : 0 < a) {w : ℕ → K}
    (hw : s.Scaled a w) : s.Mem fun i => a⁻¹ * w (s.cur + i) := by
  refine ⟨fun j => a⁻¹ * w j, ?_, fun i hi => rfl⟩
  rw [← Sys.scaled_one]
  have := hw.mul (le_of_lt (inv_pos.2 ha))
  rwa [inv_mul_cancel₀ (ne_of_gt ha)] at this

theorem Sys.scaled_zero_zero (s : Sys K) : s.Scaled 0 fun _ => 0 := by
  intro r _
  unfold LRow.scaled
  rw [dot_zero, zero_mul]
  cases r.ty <;> simp [RowType.rel]

/-- What is proved about `aggregate_chull` by induction. -/
structure HullRes (n : ℕ) (lps : List (Lp K)) (rv : Lp K) : Prop where
  arg : HullArg n rv.toSys
  sup : ∀ l ∈ lps, ∀ x, l.Mem x → rv.Mem x
  sub : (∀ l ∈ lps, (∃ x, l.Mem x) ∧ Bounded n l.Mem) → ∀ C : Set (Fin n → K), Convex K C →
    (∀ l ∈ lps, Pts n l.Mem ⊆ C) → Pts n rv.Mem ⊆ C

theorem HullRes.bounded {n : ℕ} {lps : List (Lp K)} {rv : Lp K} (h : HullRes n lps rv)
    (hne : lps ≠ []) (hl : ∀ l ∈ lps, (∃ x, l.Mem x) ∧ Bounded n l.Mem) :
    (∃ x, rv.Mem x) ∧ Bounded n rv.Mem := by
  constructor
  · obtain ⟨l, rest, rfl⟩ := List.exists_cons_of_ne_nil hne
    obtain ⟨x, hx⟩ := (hl l (by simp)).1
    exact ⟨x, h.sup l (by simp) x hx⟩
  · have hb : ∃ b, ∀ l ∈ lps, ∀ x, l.Mem x → ∀ i < n, |x i| ≤ b := by
      clear h hne
      induction lps with
      | nil => exact ⟨0, by simp⟩
      | cons l lps ih =>
        obtain ⟨b, hb⟩ := ih fun l hl' => hl l (by simp [hl'])
        obtain ⟨b', hb'⟩ := (hl l (by simp)).2
        refine ⟨max b b', fun m hm x hx i hi => ?_⟩
        rcases List.mem_cons.1 hm with rfl | hm
        · exact le_trans (hb' x hx i hi) (le_max_right _ _)
        · exact le_trans (hb m hm x hx i hi) (le_max_left _ _)
    obtain ⟨b, hb⟩ := hb
    have hconv : Convex K {z : Fin n → K | ∀ i, |z i| ≤ b} := by
      intro z hz z' hz' s t hs ht hst i
      have h1 := hz i
      have h2 := hz' i
      rw [abs_le] at *
      simp only [Pi.add_apply, Pi.smul_apply, smul_eq_mul]
      have e1 := mul_le_mul_of_nonneg_left h1.1 hs
      have e2 := mul_le_mul_of_nonneg_left h1.2 hs
      have e3 := mul_le_mul_of_nonneg_left h2.1 ht
      have e4 := mul_le_mul_of_nonneg_left h2.2 ht
      have e5 : s * b + t * b = b := by rw [← add_mul, hst, one_mul]
      constructor <;> linarith
    have := h.sub hl _ hconv (by
      rintro l hl z ⟨x, hx, hz⟩ i
      rw [hz i]; exact hb l hl x hx i i.2)
    refine ⟨b, fun x hx i hi => ?_⟩
    exact this (show (fun i : Fin n => x i) ∈ Pts n rv.Mem from ⟨x, hx, fun _ => rfl⟩) ⟨i, hi⟩

/-- Two instances. -/
theorem chull_pair {S : Solver K} {M : K} {n : ℕ} {l1 l2 c1 c2 : Lp K} {s : Sys K} {mode : Mode K}
    {rv : Lp K} (h1 : HullArg n l1.toSys) (h2 : HullArg n l2.toSys)
    (hc1 : cloneComplete l1 = .ok c1) (hc2 : cloneComplete l2 = .ok c2)
    (h : chullTwo M c1.toSys c2.toSys = .ok s) (hs : snapshot S M s mode = .ok rv) :
    HullRes n [l1, l2] rv ∧ ∀ v, rv.Sat v → ∀ i < rv.dims, v i = v (rv.cur + i) := by
  obtain ⟨a1, a2, a3⟩ := cloneComplete_ok h1 hc1
  obtain ⟨b1, b2, b3⟩ := cloneComplete_ok h2 hc2
  obtain ⟨p1, p2, p3⟩ := pair_mem a1 b1 h hs
  have p4 : ∀ x, rv.Mem x ↔ ∃ a v w, 0 ≤ a ∧ a ≤ 1 ∧ l1.Scaled (1 - a) v ∧ l2.Scaled a w ∧
      ∀ i < n, x i = v (l1.cur + i) + w (l2.cur + i) := by
    intro x
    rw [p3 x]
    simp only [a3, b3, a2, b2]
    constructor
    · rintro ⟨a, v, w, ⟨h1, h2⟩, ⟨h3, h4⟩, h5⟩
      exact ⟨a, v, w, h4, by linarith, h1, h3, h5⟩
    · rintro ⟨a, v, w, h1, h2, h3, h4, h5⟩
      exact ⟨a, v, w, ⟨h3, by linarith⟩, ⟨h4, h1⟩, h5⟩
  refine ⟨⟨p1, ?_, ?_⟩, p2⟩
  · intro l hl x hx
    rw [p4]
    simp only [List.mem_cons, List.not_mem_nil, or_false] at hl
    rcases hl with rfl | rfl
    · obtain ⟨v, hv, hvx⟩ := hx
      refine ⟨0, v, fun _ => 0, le_refl _, zero_le_one, by rwa [sub_zero, Sys.scaled_one],
        Sys.scaled_zero_zero _, fun i hi => ?_⟩
      rw [hvx i (by rw [h1.dims]; exact hi), add_zero]
    · obtain ⟨v, hv, hvx⟩ := hx
      refine ⟨1, fun _ => 0, v, zero_le_one, le_refl _, by rw [sub_self]; exact Sys.scaled_zero_zero _,
        by rwa [Sys.scaled_one], fun i hi => ?_⟩
      rw [hvx i (by rw [h2.dims]; exact hi), zero_add]
  · rintro hl C hC hsub z ⟨x, hx, hz⟩
    obtain ⟨⟨q1, hq1⟩, hb1⟩ := hl l1 (by simp)
    obtain ⟨⟨q2, hq2⟩, hb2⟩ := hl l2 (by simp)
    obtain ⟨a, v, w, ha0, ha1, hv, hw, hxi⟩ := (p4 x).1 hx
    rcases eq_or_lt_of_le ha0 with rfl | ha0
    · -- only the first set
      have hw0 := scaled_zero_dir h2 hb2 hq2 hw
      refine hsub l1 (by simp) ⟨x, ⟨v, ?_, fun i hi => ?_⟩, hz⟩
      · rwa [sub_zero, Sys.scaled_one] at hv
      · rw [h1.dims] at hi; rw [hxi i hi, hw0 i hi, add_zero]
    · rcases eq_or_lt_of_le ha1 with rfl | ha1
      · rw [sub_self] at hv
        have hv0 := scaled_zero_dir h1 hb1 hq1 hv
        refine hsub l2 (by simp) ⟨x, ⟨w, ?_, fun i hi => ?_⟩, hz⟩
        · rwa [Sys.scaled_one] at hw
        · rw [h2.dims] at hi; rw [hxi i hi, hv0 i hi, zero_add]
      · have ha1' : 0 < 1 - a := by linarith
        have m1 := scaled_pos_mem (n := n) ha1' hv
        have m2 := scaled_pos_mem (n := n) ha0 hw
        have i1 := hsub l1 (by simp) (show (fun i : Fin n => (1 - a)⁻¹ * v (l1.cur + i)) ∈ _ from
          ⟨_, m1, fun _ => rfl⟩)
        have i2 := hsub l2 (by simp) (show (fun i : Fin n => a⁻¹ * w (l2.cur + i)) ∈ _ from
          ⟨_, m2, fun _ => rfl⟩)
        have := hC i1 i2 (le_of_lt ha1') (le_of_lt ha0) (by ring)
        have e : z = (1 - a) • (fun i : Fin n => (1 - a)⁻¹ * v (l1.cur + i)) +
            a • (fun i : Fin n => a⁻¹ * w (l2.cur + i)) := by
          funext i
          simp only [Pi.add_apply, Pi.smul_apply, smul_eq_mul]
          rw [hz i, hxi i i.2, mul_inv_cancel_left₀ (ne_of_gt ha1'),
            mul_inv_cancel_left₀ (ne_of_gt ha0)]
        rw [e]; exact this

theorem chull_res {S : Solver K} {M : K} {n : ℕ} {mode : Mode K} (N : ℕ) :
    ∀ {lps : List (Lp K)} {rv : Lp K}, lps.length ≤ N → (∀ l ∈ lps, HullArg n l.toSys) →
    aggregateChull S M lps mode = .ok rv → HullRes n lps rv ∧
      (lps.length = 2 → ∀ v, rv.Sat v → ∀ i < rv.dims, v i = v (rv.cur + i)) := by
  induction N with
  | zero =>
    intro lps rv hN harg h
    obtain rfl := List.eq_nil_of_length_eq_zero (Nat.le_zero.1 hN)
    rw [aggregateChull] at h; cases h
  | succ N ih =>
    intro lps rv hN harg h
    match lps, hN, harg, h with
    | [], _, _, h => rw [aggregateChull] at h; cases h
    | [lp], _, harg, h =>
      rw [aggregateChull] at h
      rw [clone_ok h]
      have := harg lp (by simp)
      exact ⟨⟨⟨this.noLo, this.wf, this.dims, this.cur⟩, by
        intro l hl x hx; simp only [List.mem_singleton] at hl; subst hl; exact hx,
        fun _ C _ hsub => hsub lp (by simp)⟩, by simp⟩
    | [l1, l2], _, harg, h =>
      rw [aggregateChull] at h
      simp only [bind_ok] at h
      obtain ⟨c1, h1, c2, h2, s, h3, h4⟩ := h
      obtain ⟨r1, r2⟩ := chull_pair (harg l1 (by simp)) (harg l2 (by simp)) h1 h2 h3 h4
      exact ⟨r1, fun _ => r2⟩
    | l1 :: l2 :: l3 :: rest, hN, harg, h =>
      rw [aggregateChull] at h
      simp only [bind_ok] at h
      obtain ⟨cs, hcs, h⟩ := h
      have hf := mapM_forall₂ cloneComplete _ cs hcs
      rw [List.attach_map_subtype_val] at hf
      split at h
      swap
      · cases h
      rename_i hlen
      simp only [bind_ok] at h
      obtain ⟨a, ha, b, hb, r, hr, h⟩ := h
      set lps := l1 :: l2 :: l3 :: rest with hlps
      have hback : ∀ c ∈ cs, HullArg n c.toSys ∧ ∃ l ∈ lps, ∀ x, c.Mem x ↔ l.Mem x := by
        intro c hc
        obtain ⟨i, hi, rfl⟩ := List.getElem_of_mem hc
        have hi' : i < lps.length := by rw [← hlen]; exact hi
        have := hf.get hi' hi
        have hl : lps[i] ∈ lps := List.getElem_mem hi'
        exact ⟨(cloneComplete_ok (harg _ hl) this).1, lps[i], hl,
          cloneComplete_mem (harg _ hl) this⟩
      have hforth : ∀ l ∈ lps, ∃ c ∈ cs, ∀ x, c.Mem x ↔ l.Mem x := by
        intro l hl
        obtain ⟨i, hi, rfl⟩ := List.getElem_of_mem hl
        have hi' : i < cs.length := by rw [hlen]; exact hi
        exact ⟨cs[i], List.getElem_mem hi',
          cloneComplete_mem (harg _ hl) (hf.get hi hi')⟩
      have hl3 : 3 ≤ cs.length := by rw [hlen, hlps]; simp
      have hN' : cs.length ≤ N + 1 := by rw [hlen]; exact hN
      obtain ⟨ra, -⟩ := ih (lps := cs.take (cs.length / 2)) (by simp; omega)
        (fun l hl => (hback l (List.mem_of_mem_take hl)).1) ha
      obtain ⟨rb, -⟩ := ih (lps := cs.drop (cs.length / 2)) (by simp; omega)
        (fun l hl => (hback l (List.mem_of_mem_drop hl)).1) hb
      obtain ⟨rr, rfresh⟩ := ih (lps := [a, b]) (by simp; omega) (by
        intro l hl
        simp only [List.mem_cons, List.not_mem_nil, or_false] at hl
        rcases hl with rfl | rfl
        · exact ra.arg
        · exact rb.arg) hr
      have rfresh := rfresh rfl
      obtain ⟨k1, k2, k3⟩ := snapshot_ok rr.arg.noLo rr.arg.wf h
      rw [rr.arg.dims] at k1 k2
      have kmem : ∀ x, rv.Mem x ↔ r.Mem x := by
        intro x
        rw [k2]
        unfold Sys.Mem
        rw [rr.arg.dims]
        apply exists_congr
        intro z
        apply and_congr_right
        intro hz
        refine forall_congr' fun i => forall_congr' fun hi => ?_
        rw [← rfresh z hz i (by rw [rr.arg.dims]; exact hi)]
        exact eq_comm
      have hsplit : ∀ c ∈ cs, c ∈ cs.take (cs.length / 2) ∨ c ∈ cs.drop (cs.length / 2) := by
        intro c hc
        rw [← List.mem_append, List.take_append_drop]; exact hc
      refine ⟨⟨k1, ?_, ?_⟩, by rw [hlps]; simp⟩
      · intro l hl x hx
        rw [kmem]
        obtain ⟨c, hc, hcm⟩ := hforth l hl
        rcases hsplit c hc with hc | hc
        · exact rr.sup a (by simp) x (ra.sup c hc x ((hcm x).2 hx))
        · exact rr.sup b (by simp) x (rb.sup c hc x ((hcm x).2 hx))
      · intro hbd C hC hsub
        have hbc : ∀ c ∈ cs, (∃ x, c.Mem x) ∧ Bounded n c.Mem := by
          intro c hc
          obtain ⟨-, l, hl, hcm⟩ := hback c hc
          obtain ⟨⟨x, hx⟩, b, hb⟩ := hbd l hl
          exact ⟨⟨x, (hcm x).2 hx⟩, b, fun x hx => hb x ((hcm x).1 hx)⟩
        have hsc : ∀ c ∈ cs, Pts n c.Mem ⊆ C := by
          rintro c hc z ⟨x, hx, hz⟩
          obtain ⟨-, l, hl, hcm⟩ := hback c hc
          exact hsub l hl ⟨x, (hcm x).1 hx, hz⟩
        have hta : ∀ c ∈ cs.take (cs.length / 2), c ∈ cs := fun c hc => List.mem_of_mem_take hc
        have htb : ∀ c ∈ cs.drop (cs.length / 2), c ∈ cs := fun c hc => List.mem_of_mem_drop hc
        have hna : cs.take (cs.length / 2) ≠ [] := by
          intro hc
          have := congrArg List.length hc
          rw [List.length_take, List.length_nil] at this; omega
        have hnb : cs.drop (cs.length / 2) ≠ [] := by
          intro hc
          have := congrArg List.length hc
          rw [List.length_drop, List.length_nil] at this; omega
        have ba := ra.bounded hna fun c hc => hbc c (hta c hc)
        have bb := rb.bounded hnb fun c hc => hbc c (htb c hc)
        have sa := ra.sub (fun c hc => hbc c (hta c hc)) C hC fun c hc => hsc c (hta c hc)
        have sb := rb.sub (fun c hc => hbc c (htb c hc)) C hC fun c hc => hsc c (htb c hc)
        have := rr.sub (by
          intro l hl
          simp only [List.mem_cons, List.not_mem_nil, or_false] at hl
          rcases hl with rfl | rfl
          · exact ba
          · exact bb) C hC (by
          intro l hl
          simp only [List.mem_cons, List.not_mem_nil, or_false] at hl
          rcases hl with rfl | rfl
          · exact sa
          · exact sb)
        rintro z ⟨x, hx, hz⟩
        exact this ⟨x, (kmem x).1 hx, hz⟩

/-- **C14.** For any number of instances with any history (no `>=` rows), all of dimension `n`, the
result of `aggregate_chull` contains the convex hull of the union of their sets; if every set is
non-empty and bounded it is exactly the convex hull (Mathlib's `convexHull`). -/
theorem C14_aggregate_chull {S : Solver K} (hS : S.Honest) {M : K} {n : ℕ} {lps : List (Lp K)}
    {mode : Mode K} {rv : Lp K} (hin : ∀ l ∈ lps, ∃ live, Inst S l live)
    (hn : ∀ l ∈ lps, l.dims = n) (hlo : ∀ l ∈ lps, RowType.lo ∉ l.getTypes)
    (h : aggregateChull S M lps mode = .ok rv) :
    rv.dims = n ∧
    convexHull K (⋃ l ∈ lps, Pts n l.Mem) ⊆ Pts n rv.Mem ∧
    ((∀ l ∈ lps, (∃ x, l.Mem x) ∧ Bounded n l.Mem) →
      Pts n rv.Mem = convexHull K (⋃ l ∈ lps, Pts n l.Mem)) := by
  have harg : ∀ l ∈ lps, HullArg n l.toSys := by
    intro l hl
    obtain ⟨live, hi⟩ := hin l hl
    refine ⟨?_, (hi.inv hS).1, hn l hl, (hi.inv hS).2.1⟩
    intro r hr ht
    exact hlo l hl (List.mem_map.2 ⟨r, hr, ht⟩)
  obtain ⟨r, -⟩ := chull_res lps.length (le_refl _) harg h
  have hsup : convexHull K (⋃ l ∈ lps, Pts n l.Mem) ⊆ Pts n rv.Mem := by
    refine convexHull_min ?_ (mem_convex r.arg)
    intro z hz
    simp only [Set.mem_iUnion] at hz
    obtain ⟨l, hl, x, hx, hz⟩ := hz
    exact ⟨x, r.sup l hl x hx, hz⟩
  refine ⟨r.arg.dims, hsup, fun hb => Set.Subset.antisymm ?_ hsup⟩
  refine r.sub hb _ (convex_convexHull K _) fun l hl z hz => ?_
  exact subset_convexHull K _ (Set.mem_iUnion₂.2 ⟨l, hl, hz⟩)

end Hylaa
