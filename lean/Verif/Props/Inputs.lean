import Verif.Props.Automaton2
import Verif.Spec.Ops

/-!
# C52: `set_inputs` and its checks
-/

set_option linter.unusedSectionVars false

namespace Hylaa
open Spec
variable {K : Type} [Field K] [LinearOrder K]

/-- The csc conversion keeps all entries. -/
theorem toCsc_coef {c : Csr K} {i j : ℕ} (hj : j < c.ncols) :
    coefAt (c.toCsc.cols.getD j []) i = coefAt (c.row i) j := by
  have hcol : c.toCsc.cols.getD j [] = c.rows.zipIdx.flatMap fun (r, i) =>
      (r.filter fun p => p.1 = j).map fun p => (i, p.2) := by
    simp [Csr.toCsc, List.getD_eq_getElem?_getD, hj]
  rw [hcol]
  have gen : ∀ (rows : List (SRow K)) (k : ℕ),
      coefAt ((rows.zipIdx k).flatMap fun (r, i) =>
        (r.filter fun p => p.1 = j).map fun p => (i, p.2)) i =
      if k ≤ i then coefAt (rows.getD (i - k) []) j else 0 := by
    intro rows
    induction rows with
    | nil => intro k; simp [coefAt]
    | cons r rows ih =>
      intro k
      simp only [List.zipIdx_cons, List.flatMap_cons, coefAt_append, ih]
      have h1 : coefAt ((r.filter fun p => p.1 = j).map fun p => (k, p.2)) i =
          if k = i then coefAt r j else 0 := by
        unfold coefAt
        by_cases hk : k = i
        · subst hk
          simp [List.filter_map, Function.comp_def]
        · simp [List.filter_map, Function.comp_def, hk]
      rw [h1]
      by_cases hk : k = i
      · subst hk; simp
      · rw [if_neg hk, zero_add]
        by_cases hlt : k ≤ i
        · have e : i - k = (i - (k + 1)) + 1 := by omega
          rw [if_pos (by omega), if_pos hlt, e]
          simp
        · rw [if_neg (by omega), if_neg hlt]
  have := gen c.rows 0
  simpa [Csr.row] using this

theorem toCsc_row {c : Csr K} (hw : c.WF) (i : ℕ) (u : ℕ → K) :
    (∑ j ∈ Finset.range c.ncols, coefAt (c.toCsc.cols.getD j []) i * u j) = dot (c.row i) u := by
  rw [dot_eq_sum_coefAt (n := c.ncols)]
  · apply Finset.sum_congr rfl
    intro j hj
    rw [toCsc_coef (Finset.mem_range.1 hj)]
  · intro p hp
    unfold Csr.row at hp
    rw [List.getD_eq_getElem?_getD] at hp
    by_cases hi : i < c.rows.length
    · rw [List.getElem?_eq_getElem hi] at hp
      exact hw _ (List.getElem_mem hi) p hp
    · rw [List.getElem?_eq_none (by omega)] at hp
      simp at hp

/-- **C52**, effect of `set_inputs`: the mode stores `B`, and the stored input set is
`{u | C u <= d}`, which is non-empty; the shapes fit; nothing else changes. -/
theorem C52_set_inputs {S : Solver K} (hS : S.Honest) {tol : K} {m m' : Mode K} {b u : Csr K}
    {rhs : List K} {al : Bool} (hu : u.WF) (h : m.setInputs S tol b u rhs al = .ok m') :
    ∃ a inp, m.a = some a ∧ m'.inputs = some inp ∧ inp.b = b ∧ b.nrows = a.nrows ∧
      u.ncols = b.ncols ∧ (∀ v, InputSet inp v ↔ u.le v rhs) ∧ (∃ v, u.le v rhs) ∧
      m'.a = m.a ∧ m'.inv = m.inv ∧ m'.name = m.name ∧ m'.id = m.id := by
  simp only [Mode.setInputs, checkInputs, bind_ok, assert_ok, needSome_ok, pure_ok, need_ok] at h
  obtain ⟨_, -, a, ha, _, ⟨_, h1, _, h2, _, h3, f, hf, _, rfl, -⟩, rfl⟩ := h
  refine ⟨a, _, ha, rfl, rfl, h3, h2, fun v => ?_, (isFeasibleCsr_spec hS hf).1 rfl, rfl, rfl, rfl,
    rfl⟩
  unfold InputSet Csr.le
  simp only [← h2, toCsc_row hu]

/-- The last element of a list satisfying `P` has bound `q`. -/
def Spec.LastBound (P : SRow K → Prop) (l : List (SRow K × K)) (q : K) : Prop :=
  ∃ l1 r l2, l = l1 ++ (r, q) :: l2 ∧ P r ∧ ∀ x ∈ l2, ¬ P x.1

/-- Row `r` of width `n` is `c` times the `i`-th unit vector. -/
def Spec.UnitRow (n i : ℕ) (c : K) (r : SRow K) : Prop :=
  ∀ j < n, coefAt r j = if j = i then c else 0

/-- Input `i` looks fixed: it enters exactly one state variable, and among the constraints the last
`u_i <= p` and the last `-u_i <= q` leave less than `tol` room. -/
def Spec.LooksFixed (tol : K) (b u : Csr K) (rhs : List K) (i : ℕ) : Prop :=
  (b.rows.filter fun r => decide (coefAt r i ≠ 0)).length = 1 ∧
  ∃ p q, LastBound (UnitRow b.ncols i 1) (u.rows.zip rhs) p ∧
    LastBound (UnitRow b.ncols i (-1)) (u.rows.zip rhs) q ∧ |p + q| < tol

theorem isUnitRow_iff (n i : ℕ) (c : K) (r : SRow K) : isUnitRow n i c r = true ↔ UnitRow n i c r := by
  simp [isUnitRow, UnitRow]

theorem LastBound.cons {P : SRow K → Prop} {l : List (SRow K × K)} {x : SRow K × K} {q : K} :
    LastBound P (x :: l) q ↔ LastBound P l q ∨ ((∀ y ∈ l, ¬ P y.1) ∧ P x.1 ∧ x.2 = q) := by
  constructor
  · rintro ⟨l1, r, l2, he, hp, hn⟩
    cases l1 with
    | nil =>
      simp only [List.nil_append, List.cons.injEq] at he
      obtain ⟨rfl, rfl⟩ := he
      exact Or.inr ⟨hn, hp, rfl⟩
    | cons y l1 =>
      simp only [List.cons_append, List.cons.injEq] at he
      exact Or.inl ⟨l1, r, l2, he.2, hp, hn⟩
  · rintro (⟨l1, r, l2, rfl, hp, hn⟩ | ⟨hn, hp, rfl⟩)
    · exact ⟨x :: l1, r, l2, rfl, hp, hn⟩
    · exact ⟨[], x.1, l, rfl, hp, hn⟩

theorem inputBounds_spec [IsStrictOrderedRing K] {n i : ℕ} (hi : i < n) (l : List (SRow K × K)) :
    ∀ acc : Option K × Option K, (∀ p, (inputBounds n i l acc).1 = some p ↔
      LastBound (UnitRow n i 1) l p ∨ ((∀ y ∈ l, ¬ UnitRow n i 1 y.1) ∧ acc.1 = some p)) ∧
    (∀ p, (inputBounds n i l acc).2 = some p ↔
      LastBound (UnitRow n i (-1)) l (-p) ∨ ((∀ y ∈ l, ¬ UnitRow n i (-1) y.1) ∧ acc.2 = some p)) := by
  have nil : ∀ (P : SRow K → Prop) (q : K), ¬ LastBound P [] q := by
    rintro P q ⟨l1, r, l2, he, -⟩
    simp at he
  induction l with
  | nil => intro acc; simp [inputBounds, nil]
  | cons x l ih =>
    obtain ⟨r, b⟩ := x
    intro acc
    have excl : UnitRow n i 1 r → ¬ UnitRow n i (-1) r := by
      intro h1 h2
      have a := h1 i hi
      have c := h2 i hi
      rw [a] at c
      simp only [if_true] at c
      have : (1 : K) ≠ -1 := by
        intro h; have : (0 : K) < 1 := one_pos; linarith
      exact this c
    simp only [inputBounds]
    by_cases h1 : UnitRow n i 1 r
    · rw [if_pos ((isUnitRow_iff _ _ _ _).2 h1)]
      obtain ⟨ih1, ih2⟩ := ih (some b, acc.2)
      refine ⟨fun p => ?_, fun p => ?_⟩
      · rw [ih1, LastBound.cons]
        simp [h1]
      · rw [ih2, LastBound.cons]
        simp [excl h1]
    · have h1' : isUnitRow n i 1 r ≠ true := fun h => h1 ((isUnitRow_iff _ _ _ _).1 h)
      rw [if_neg h1']
      by_cases h2 : UnitRow n i (-1) r
      · rw [if_pos ((isUnitRow_iff _ _ _ _).2 h2)]
        obtain ⟨ih1, ih2⟩ := ih (acc.1, some (-b))
        refine ⟨fun p => ?_, fun p => ?_⟩
        · rw [ih1, LastBound.cons]
          simp [h1]
        · rw [ih2, LastBound.cons]
          simp only [h2, true_and, Option.some.injEq, List.mem_cons, forall_eq_or_imp,
            not_true_eq_false, false_and, or_false]
          rw [show (b = -p) ↔ (-b = p) from ⟨fun h => by rw [h, neg_neg], fun h => by rw [← h, neg_neg]⟩]
      · have h2' : isUnitRow n i (-1) r ≠ true := fun h => h2 ((isUnitRow_iff _ _ _ _).1 h)
        rw [if_neg h2']
        obtain ⟨ih1, ih2⟩ := ih acc
        refine ⟨fun p => ?_, fun p => ?_⟩
        · rw [ih1, LastBound.cons]
          simp [h1]
        · rw [ih2, LastBound.cons]
          simp [h2]

theorem inputFixed_iff [IsStrictOrderedRing K] {tol : K} {b u : Csr K} {rhs : List K} {i : ℕ}
    (hi : i < b.ncols) : inputFixed tol b u rhs i = true ↔ LooksFixed tol b u rhs i := by
  have nil : ∀ (P : Prop) (p : K), (P ∧ (none : Option K) = some p) ↔ False := by simp
  obtain ⟨s1, s2⟩ := inputBounds_spec hi (u.rows.zip rhs) (none, none)
  simp only [nil, or_false] at s1 s2
  unfold inputFixed LooksFixed colNonzeros
  by_cases hc : (b.rows.filter fun r => decide (coefAt r i ≠ 0)).length = 1
  · rw [if_neg (by simpa using hc)]
    simp only [hc, true_and]
    constructor
    · intro h
      rcases hb : inputBounds b.ncols i (u.rows.zip rhs) (none, none) with ⟨o1, o2⟩
      rw [hb] at h s1 s2
      cases o1 with
      | none => simp at h
      | some p =>
        cases o2 with
        | none => simp at h
        | some q =>
          simp only [decide_eq_true_eq] at h
          refine ⟨p, -q, (s1 p).1 rfl, (s2 q).1 rfl, ?_⟩
          rw [abs_sub_comm] at h
          rwa [← sub_eq_add_neg]
    · rintro ⟨p, q, hp, hq, hlt⟩
      have e1 := (s1 p).2 hp
      have e2 := (s2 (-q)).2 (by rw [neg_neg]; exact hq)
      rcases hb : inputBounds b.ncols i (u.rows.zip rhs) (none, none) with ⟨o1, o2⟩
      rw [hb] at e1 e2
      simp only at e1 e2
      subst e1 e2
      simp only [decide_eq_true_eq]
      rw [abs_sub_comm, sub_neg_eq_add]
      exact hlt
  · rw [if_pos (by simpa using hc)]
    exact ⟨fun h => (by cases h), fun h => absurd h.1 hc⟩

/-- **C52**, acceptance: with a complete solver, `set_inputs` succeeds exactly when the dynamics
are set, the shapes fit, the input constraints are satisfiable and, unless constants are allowed,
no input looks fixed. -/
theorem C52_accepts_iff [IsStrictOrderedRing K] {S : Solver K} (hS : S.Complete) {tol : K}
    {m : Mode K} {b u : Csr K} {rhs : List K} {al : Bool} :
    (∃ m', m.setInputs S tol b u rhs al = .ok m') ↔
    (∃ a, m.a = some a ∧ b.nrows = a.nrows) ∧ u.nrows = rhs.length ∧ u.ncols = b.ncols ∧
      (∃ v, u.le v rhs) ∧ (al = true ∨ ∀ i < b.ncols, ¬ LooksFixed tol b u rhs i) := by
  constructor
  · rintro ⟨m', h⟩
    simp only [Mode.setInputs, checkInputs, bind_ok, assert_ok, needSome_ok, pure_ok, need_ok] at h
    obtain ⟨_, -, a, ha, _, ⟨_, h1, _, h2, _, h3, f, hf, _, rfl, h4⟩, rfl⟩ := h
    refine ⟨⟨a, ha, h3⟩, h1, h2, (isFeasibleCsr_spec hS.toHonest hf).1 rfl, ?_⟩
    refine h4.imp id fun h i hi hc => ?_
    have := h i hi
    rw [(inputFixed_iff hi).2 hc] at this
    cases this
  · rintro ⟨⟨a, ha, h3⟩, h1, h2, hx, h4⟩
    obtain ⟨f, hf, hf2⟩ := isFeasibleCsr_complete hS (c := u) (rhs := rhs) h1.symm
    have : f = true := hf2.2 hx
    subst this
    have h4' : al = true ∨ ∀ i < b.ncols, inputFixed tol b u rhs i = false := by
      refine h4.imp id fun h i hi => ?_
      rw [Bool.eq_false_iff]
      exact fun hc => h i hi ((inputFixed_iff hi).1 hc)
    simp only [Mode.setInputs, checkInputs, assert, need, ha, Option.isSome_some, if_true, needSome,
      bind, Except.bind, if_pos h1, if_pos h2, if_pos h3, hf, if_pos h4', pure, Except.pure,
      Except.ok.injEq, exists_eq']

/-- **C52**, meaning: an input that looks fixed really is fixed up to `tol` over the whole input
set, so no genuinely uncertain input is refused. -/
theorem C52_fixed_is_fixed [IsStrictOrderedRing K] {tol : K} {b u : Csr K} {rhs : List K} {i : ℕ}
    (hi : i < b.ncols) (hw : u.WF) (hl : u.nrows = rhs.length) (hc : u.ncols = b.ncols)
    (h : LooksFixed tol b u rhs i) {v w : ℕ → K} (hv : u.le v rhs) (hw' : u.le w rhs) :
    |v i - w i| < tol := by
  obtain ⟨-, p, q, ⟨l1, r, l2, e1, hr, -⟩, ⟨l3, r', l4, e2, hr', -⟩, hlt⟩ := h
  have hl' : u.rows.length = rhs.length := hl
  have dotU : ∀ (c : K) (r : SRow K) (q : K), (r, q) ∈ u.rows.zip rhs → UnitRow b.ncols i c r →
      ∀ x : ℕ → K, dot r x = c * x i := by
    intro c r q hm hr x
    rw [dot_eq_sum_coefAt (n := b.ncols) (fun p hp => by
      rw [← hc]; exact hw r (List.of_mem_zip hm).1 p hp)]
    rw [Finset.sum_congr rfl fun j hj => by rw [hr j (Finset.mem_range.1 hj)]]
    simp [hi]
  have m1 : (r, p) ∈ u.rows.zip rhs := by rw [e1]; simp
  have m2 : (r', q) ∈ u.rows.zip rhs := by rw [e2]; simp
  have b1 : ∀ x, u.le x rhs → x i ≤ p := fun x hx => by
    have := (le_iff_zip hl' x).1 hx _ m1
    rw [dotU 1 r p m1 hr] at this; simpa using this
  have b2 : ∀ x, u.le x rhs → -x i ≤ q := fun x hx => by
    have := (le_iff_zip hl' x).1 hx _ m2
    rw [dotU (-1) r' q m2 hr'] at this; simpa using this
  have := (abs_lt.1 hlt).2
  rw [abs_lt]
  have v1 := b1 v hv; have v2 := b2 v hv; have w1 := b1 w hw'; have w2 := b2 w hw'
  constructor <;> linarith

/-- Non-vacuity: `u = 1` fixed by two rows is refused, `-1 <= u <= 1` is accepted. -/
example : (¬ ∃ m', Mode.setInputs (idealSolver ℚ) (1 / 10 ^ 9)
      { name := "m", id := 0, a := some ⟨1, [[]]⟩ } ⟨1, [[(0, 1)]]⟩ ⟨1, [[(0, 1)], [(0, -1)]]⟩ [1, -1]
        false = .ok m') ∧
    ∃ m', Mode.setInputs (idealSolver ℚ) (1 / 10 ^ 9)
      { name := "m", id := 0, a := some ⟨1, [[]]⟩ } ⟨1, [[(0, 1)]]⟩ ⟨1, [[(0, 1)], [(0, -1)]]⟩ [1, 1]
        false = .ok m' := by
  have key : ∀ q : ℚ, inputFixed (1 / 10 ^ 9) (⟨1, [[(0, 1)]]⟩ : Csr ℚ) ⟨1, [[(0, 1)], [(0, -1)]]⟩
      [1, q] 0 = decide (|-q - 1| < 1 / 10 ^ 9) := by
    intro q
    norm_num [inputFixed, colNonzeros, inputBounds, isUnitRow, coefAt]
  constructor
  · rw [C52_accepts_iff (idealSolver_complete (K := ℚ))]
    rintro ⟨-, -, -, -, h⟩
    rcases h with h | h
    · cases h
    · refine h 0 (by simp) ((inputFixed_iff (by simp)).1 ?_)
      rw [key]; norm_num
  · rw [C52_accepts_iff (idealSolver_complete (K := ℚ))]
    refine ⟨⟨_, rfl, rfl⟩, rfl, rfl, ⟨fun _ => 0, ?_⟩, Or.inr fun i hi hc => ?_⟩
    · intro i hi
      have : i = 0 ∨ i = 1 := by
        have : i < 2 := hi
        omega
      rcases this with rfl | rfl <;> norm_num [Csr.row, dot]
    · have : i = 0 := by
        have : i < 1 := hi
        omega
      subst this
      have := (inputFixed_iff (by simp)).2 hc
      rw [key] at this
      norm_num at this

/-- Finding: a constant input written with scaled rows (`2u <= 2, -2u <= -2`) is not noticed. -/
theorem C52_scaled_constant_accepted : ∃ m', Mode.setInputs (idealSolver ℚ) (1 / 10 ^ 9)
      { name := "m", id := 0, a := some ⟨1, [[]]⟩ } ⟨1, [[(0, 1)]]⟩ ⟨1, [[(0, 2)], [(0, -2)]]⟩ [2, -2]
        false = .ok m' := by
  rw [C52_accepts_iff (idealSolver_complete (K := ℚ))]
  refine ⟨⟨_, rfl, rfl⟩, rfl, rfl, ⟨fun _ => 1, ?_⟩, Or.inr fun i hi hc => ?_⟩
  · intro i hi
    have : i = 0 ∨ i = 1 := by
      have : i < 2 := hi
      omega
    rcases this with rfl | rfl <;> norm_num [Csr.row, dot]
  · have : i = 0 := by
      have : i < 1 := hi
      omega
    subst this
    have := (inputFixed_iff (by simp)).2 hc
    norm_num [inputFixed, colNonzeros, inputBounds, isUnitRow, coefAt] at this

end Hylaa
