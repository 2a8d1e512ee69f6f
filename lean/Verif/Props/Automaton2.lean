import Verif.Props.Automaton
import Verif.Proofs.Zip
import Verif.Proofs.Dot
import Verif.Spec.Hybrid

/-!
# C27, C28: meaning of invariants and guards, guard strengthening
-/

set_option linter.unusedSectionVars false

namespace Hylaa
open Spec
variable {K : Type} [Field K] [LinearOrder K]

/-- **C27**, points: `point_in_invariant` decides membership in the invariant. -/
theorem C27_point_in_invariant (m : Mode K) (x : ℕ → K) :
    m.pointInInvariant x = true ↔ InvHolds m x := by
  simp [Mode.pointInInvariant, LinCon.isTrue, InvHolds]

/-- **C27**, `set_invariant`: on success the new invariant is the old one (initially: everything)
intersected with `{x | M x <= rhs}`, that set is not empty, and nothing else of the mode changes. -/
theorem C27_set_invariant {S : Solver K} (hS : S.Honest) {m m' : Mode K} {c : Csr K} {rhs : List K}
    (h : m.setInvariant S c rhs = .ok m') :
    (∀ x, m'.pointInInvariant x = true ↔ m.pointInInvariant x = true ∧ c.le x rhs) ∧
    (∃ x, c.le x rhs) ∧ m'.inv.length = m.inv.length + c.nrows ∧
    m'.name = m.name ∧ m'.id = m.id ∧ m'.a = m.a ∧ m'.inputs = m.inputs := by
  simp only [Mode.setInvariant, bind_ok, assert_ok, needSome_ok, pure_ok] at h
  obtain ⟨_, -, a, ha, _, -, _, hl, f, hf, _, rfl, rfl⟩ := h
  have hl' : c.rows.length = rhs.length := hl
  refine ⟨fun x => ?_, (isFeasibleCsr_spec hS hf).1 rfl, ?_, rfl, rfl, rfl, rfl⟩
  · rw [C27_point_in_invariant, C27_point_in_invariant, le_iff_zip hl']
    unfold InvHolds
    constructor
    · intro hi
      refine ⟨fun lc hlc => hi lc (by simp [hlc]), fun q hq => ?_⟩
      exact hi ⟨c.ncols, q.1, q.2⟩ (by
        simp only [List.mem_append, List.mem_map]
        exact Or.inr ⟨q, hq, rfl⟩)
    · rintro ⟨h1, h2⟩ lc hlc
      simp only [List.mem_append, List.mem_map] at hlc
      rcases hlc with hlc | ⟨q, hq, rfl⟩
      · exact h1 lc hlc
      · exact h2 q hq
  · simp [Csr.nrows, hl']

/-- **C27**, acceptance: with a complete solver `set_invariant` succeeds exactly when the dynamics
are set, the shapes fit and the constraints are satisfiable. -/
theorem C27_set_invariant_accepts {S : Solver K} (hS : S.Complete) {m : Mode K} {c : Csr K}
    {rhs : List K} : (∃ m', m.setInvariant S c rhs = .ok m') ↔
    ∃ a, m.a = some a ∧ c.ncols = a.nrows ∧ c.nrows = rhs.length ∧ ∃ x, c.le x rhs := by
  constructor
  · rintro ⟨m', h⟩
    have hx := (C27_set_invariant hS.toHonest h).2.1
    simp only [Mode.setInvariant, bind_ok, assert_ok, needSome_ok, pure_ok] at h
    obtain ⟨_, -, a, ha, _, h1, _, hl, -⟩ := h
    exact ⟨a, ha, h1, hl, hx⟩
  · rintro ⟨a, ha, h1, hl, hx⟩
    obtain ⟨b, hb, hb2⟩ := isFeasibleCsr_complete hS (c := c) (rhs := rhs) hl.symm
    have : b = true := hb2.2 hx
    subst this
    have e : m.a.isSome = true := by rw [ha]; rfl
    simp only [Mode.setInvariant, assert, ha, Option.isSome_some, if_true, needSome, bind, Except.bind,
      if_pos h1, if_pos hl, hb, pure, Except.pure, Except.ok.injEq, exists_eq']

/-- **C27**, one constraint: `is_true_for_point` means `a · x <= b`, and the negated constraint
means `a · x >= b`. -/
theorem C27_negate [IsStrictOrderedRing K] (lc : LinCon K) (x : ℕ → K) :
    (lc.isTrue x = true ↔ dot lc.row x ≤ lc.rhs) ∧
    (lc.negate.isTrue x = true ↔ lc.rhs ≤ dot lc.row x) ∧
    lc.negate.negate.isTrue x = lc.isTrue x := by
  have hn : ∀ r : SRow K, dot (negRow r) x = - dot r x := by
    intro r; unfold dot negRow
    induction r with
    | nil => simp
    | cons p r ih => simp only [List.map_cons, List.sum_cons, ih]; ring
  refine ⟨by simp [LinCon.isTrue], by simp [LinCon.isTrue, LinCon.negate, hn], ?_⟩
  simp [LinCon.isTrue, LinCon.negate, hn]

/-- **C27**, guards: `is_guard_true_for_point` decides the guard. -/
theorem C27_guard_point {t : Tr K} {g : Csr K × List K} (hg : t.guard = some g)
    (hl : g.1.rows.length = g.2.length) (x : ℕ → K) :
    ∃ b, t.isGuardTrue x = .ok b ∧ (b = true ↔ GuardHolds t x) := by
  refine ⟨_, by simp only [Tr.isGuardTrue, hg, needSome, bind, Except.bind]; rfl, ?_⟩
  unfold GuardHolds
  rw [hg]
  constructor
  · intro h
    refine ⟨g, rfl, (le_iff_zip hl x).2 fun q hq => ?_⟩
    have := List.all_eq_true.1 h q hq
    simpa using this
  · rintro ⟨g', hg', h⟩
    cases hg'
    rw [List.all_eq_true]
    intro q hq
    have := (le_iff_zip hl x).1 h q hq
    simpa using this

/-- Non-vacuity of C27: `x0 <= 1` is accepted as an invariant and then excludes `2`. -/
example : ∃ m' : Mode ℚ, Mode.setInvariant (idealSolver ℚ)
      { name := "m", id := 0, a := some ⟨1, [[]]⟩ } ⟨1, [[(0, 1)]]⟩ [1] = .ok m' ∧
    m'.pointInInvariant (fun _ => 2) = false ∧ m'.pointInInvariant (fun _ => 1) = true := by
  obtain ⟨m', h⟩ := (C27_set_invariant_accepts (idealSolver_complete (K := ℚ))
    (m := { name := "m", id := 0, a := some ⟨1, [[]]⟩ }) (c := ⟨1, [[(0, 1)]]⟩) (rhs := [1])).2
    ⟨_, rfl, rfl, rfl, fun _ => 0, by intro i hi; simp at hi; subst hi; simp [Csr.row, dot]⟩
  have hm := (C27_set_invariant (idealSolver_complete (K := ℚ)).toHonest h).1
  refine ⟨m', h, ?_, ?_⟩
  · rw [Bool.eq_false_iff]
    intro hc
    have := ((hm _).1 hc).2 0 (by simp)
    norm_num [Csr.row, dot] at this
  · refine (hm _).2 ⟨rfl, ?_⟩
    intro i hi; simp at hi; subst hi; simp [Csr.row, dot]

/-! ## C28 -/

theorem missingInGuard_mem {tol : K} {nc : ℕ} {rows : List (SRow K × K)} :
    ∀ {inv add : List (LinCon K)}, missingInGuard tol nc rows inv = .ok add → ∀ lc ∈ add, lc ∈ inv
  | [], add, h => by cases h; simp
  | lc :: inv, add, h => by
    simp only [missingInGuard, bind_ok, pure_ok] at h
    obtain ⟨b, -, l, hl, rfl⟩ := h
    intro lc' hlc'
    have ih := missingInGuard_mem hl
    cases b with
    | true => exact List.mem_cons_of_mem _ (ih lc' (by simpa using hlc'))
    | false =>
      simp only [Bool.false_eq_true, if_false, List.mem_cons] at hlc'
      rcases hlc' with rfl | h
      · simp
      · exact List.mem_cons_of_mem _ (ih lc' h)

theorem mapM_getElem {α β : Type} {f : α → Except Err β} : ∀ {l : List α} {l' : List β},
    l.mapM f = .ok l' → l'.length = l.length ∧ ∀ (i : ℕ) a b, l[i]? = some a → l'[i]? = some b →
      f a = .ok b
  | [], l', h => by cases h; simp
  | a :: l, l', h => by
    rw [List.mapM_cons] at h
    simp only [bind_ok, pure_ok] at h
    obtain ⟨b, hb, l1, hl, rfl⟩ := h
    obtain ⟨h1, h2⟩ := mapM_getElem hl
    refine ⟨by simp [h1], fun i x y hx hy => ?_⟩
    cases i with
    | zero => simp at hx hy; subst hx hy; exact hb
    | succ i => simp at hx hy; exact h2 i x y hx hy

theorem strengthenTr_spec {tol : K} {ha : HA K} {t t' : Tr K}
    (hlen : ∀ g, t.guard = some g → g.1.rows.length = g.2.length)
    (h : strengthenTr tol ha t = .ok t') :
    (∃ g, t' = { t with guard := g }) ∧
    ((t.src = t.dst ∨ t.tt = true ∨ t.reset.isSome = true) → t' = t) ∧
    (∀ x, GuardHolds t' x → GuardHolds t x) ∧
    (∀ m x, ha.modes[t.dst]? = some m → InvHolds m x → GuardHolds t x → GuardHolds t' x) ∧
    (∀ g, t'.guard = some g → g.1.rows.length = g.2.length) := by
  unfold strengthenTr at h
  split at h
  · cases h
    exact ⟨⟨_, rfl⟩, fun _ => rfl, fun _ h => h, fun _ _ _ _ h => h, hlen⟩
  · rename_i hc
    simp only [bind_ok, needSome_ok] at h
    obtain ⟨m, hm, h⟩ := h
    split at h
    · simp only [pure_ok] at h
      subst h
      exact ⟨⟨_, rfl⟩, fun _ => rfl, fun _ h => h, fun _ _ _ _ h => h, hlen⟩
    · simp only [bind_ok, needSome_ok, need_ok, pure_ok] at h
      obtain ⟨g, hg, add, hadd, _, -, rfl⟩ := h
      have hl := hlen g hg
      have hl' : (g.1.rows ++ add.map fun lc => lc.row).length =
          (g.2 ++ add.map fun lc => lc.rhs).length := by simp [hl]
      have hz : (g.1.rows ++ add.map fun lc => lc.row).zip (g.2 ++ add.map fun lc => lc.rhs) =
          g.1.rows.zip g.2 ++ add.map fun lc => (lc.row, lc.rhs) := by
        rw [List.zip_append hl, List.zip_map']
      refine ⟨⟨_, rfl⟩, fun h => absurd h hc, ?_, ?_, ?_⟩
      · rintro x ⟨g', hg', hx⟩
        simp only [Option.some.injEq] at hg'
        subst hg'
        refine ⟨g, hg, (le_iff_zip hl x).2 fun q hq => ?_⟩
        exact (le_iff_zip hl' x).1 hx q (by rw [hz]; simp [hq])
      · rintro m' x hm' hinv ⟨g', hg', hx⟩
        rw [hg] at hg'
        simp only [Option.some.injEq] at hg'
        subst hg'
        rw [hm] at hm'
        cases hm'
        refine ⟨_, rfl, (le_iff_zip hl' x).2 fun q hq => ?_⟩
        simp only at hq
        rw [hz, List.mem_append, List.mem_map] at hq
        rcases hq with hq | ⟨lc, hlc, rfl⟩
        · exact (le_iff_zip hl x).1 hx q hq
        · exact hinv lc (missingInGuard_mem hadd lc hlc)
      · rintro g' hg'
        simp only [Option.some.injEq] at hg'
        subst hg'
        exact hl'

/-- **C28.** Guard strengthening keeps modes and the transition structure; only guards change, and
only of transitions with the identity reset that are neither self loops nor time-triggered; the
points from which the jump is possible and which lie in the target invariant (the jump does not
change the point) are the same before and after; the guard only shrinks. -/
theorem C28_strengthening {tol : K} {ha ha' : HA K}
    (hlen : ∀ t ∈ ha.trans, ∀ g, t.guard = some g → g.1.rows.length = g.2.length)
    (h : ha.strengthen tol = .ok ha') :
    ha'.modes = ha.modes ∧ ha'.out = ha.out ∧ ha'.trans.length = ha.trans.length ∧
    ∀ (k : ℕ) (t t' : Tr K), ha.trans[k]? = some t → ha'.trans[k]? = some t' →
      (∃ g, t' = { t with guard := g }) ∧
      ((t.src = t.dst ∨ t.tt = true ∨ t.reset.isSome = true) → t' = t) ∧
      (∀ m x, ha.modes[t.dst]? = some m →
        (GuardHolds t' x ∧ InvHolds m x ↔ GuardHolds t x ∧ InvHolds m x)) ∧
      ∀ x, GuardHolds t' x → GuardHolds t x := by
  simp only [HA.strengthen, bind_ok, pure_ok] at h
  obtain ⟨ts, hts, rfl⟩ := h
  obtain ⟨h1, h2⟩ := mapM_getElem hts
  refine ⟨rfl, rfl, h1, fun k t t' hk hk' => ?_⟩
  obtain ⟨a, b, c, d, -⟩ := strengthenTr_spec (hlen t (List.mem_of_getElem? hk)) (h2 k t t' hk hk')
  exact ⟨a, b, fun m x hm => ⟨fun ⟨p, q⟩ => ⟨c x p, q⟩, fun ⟨p, q⟩ => ⟨d m x hm q p, q⟩⟩, c⟩

/-- Two sparse rows have the same columns and coefficients that differ by at most `tol`. -/
def RowsClose (tol : K) (r q : SRow K) : Prop :=
  List.Forall₂ (fun p p' : ℕ × K => p.1 = p'.1 ∧ |p.2 - p'.2| ≤ tol) r q

theorem rowsClose_of {tol : K} : ∀ {r q : SRow K},
    (r.map fun p => p.1) = (q.map fun p => p.1) →
    dataClose tol (r.map fun p => p.2) (q.map fun p => p.2) = .ok true → RowsClose tol r q
  | [], [], _, _ => List.Forall₂.nil
  | [], _ :: _, h, _ => by simp at h
  | _ :: _, [], h, _ => by simp at h
  | p :: r, p' :: q, h, h' => by
    simp only [List.map_cons, List.cons.injEq] at h
    simp only [List.map_cons, dataClose] at h'
    split at h'
    · cases h'
    · rename_i hc
      exact List.Forall₂.cons ⟨h.1, not_lt.1 hc⟩ (rowsClose_of h.2 h')

theorem npAllEq_eq {a b : List ℕ} (hl : a.length = b.length) (h : npAllEq a b = .ok true) :
    a = b := by
  unfold npAllEq at h
  rw [if_pos hl] at h
  simpa using h

theorem almostEquals_spec {tol : K} {a b : LinCon K} (h : a.almostEquals b tol = .ok true) :
    |a.rhs - b.rhs| ≤ tol ∧ a.ncols = b.ncols ∧
      (a.row.length = b.row.length → RowsClose tol a.row b.row) := by
  unfold LinCon.almostEquals at h
  split at h
  · cases h
  · rename_i h1
    split at h
    · cases h
    · rename_i h2
      refine ⟨not_lt.1 h1, not_not.1 h2, fun hl => ?_⟩
      split at h
      · cases h
      · cases h
      · rename_i h3
        exact rowsClose_of (npAllEq_eq (by simpa using hl) h3) h

theorem inGuard_true {tol : K} {nc : ℕ} {lc : LinCon K} : ∀ {rows : List (SRow K × K)},
    inGuard tol nc rows lc = .ok true → ∃ q ∈ rows,
      (⟨nc, q.1, q.2⟩ : LinCon K).almostEquals lc tol = .ok true
  | [], h => by cases h
  | (r, b) :: rows, h => by
    simp only [inGuard, bind_ok] at h
    obtain ⟨e, he, h⟩ := h
    cases e with
    | true => exact ⟨(r, b), by simp, he⟩
    | false =>
      obtain ⟨q, hq, h'⟩ := inGuard_true (rows := rows) (by simpa using h)
      exact ⟨q, by simp [hq], h'⟩

theorem missingInGuard_complete {tol : K} {nc : ℕ} {rows : List (SRow K × K)} :
    ∀ {inv add : List (LinCon K)}, missingInGuard tol nc rows inv = .ok add → ∀ lc ∈ inv,
      lc ∈ add ∨ ∃ q ∈ rows, (⟨nc, q.1, q.2⟩ : LinCon K).almostEquals lc tol = .ok true
  | [], add, h => by simp
  | lc :: inv, add, h => by
    simp only [missingInGuard, bind_ok, pure_ok] at h
    obtain ⟨b, hb, l, hl, rfl⟩ := h
    intro lc' hlc'
    rcases List.mem_cons.1 hlc' with rfl | hlc'
    · cases b with
      | true => exact .inr (inGuard_true hb)
      | false => exact .inl (by simp)
    · rcases missingInGuard_complete hl lc' hlc' with h | h
      · left; cases b <;> simp [h]
      · exact .inr h

/-- **C28, the conditions added.** After strengthening, every condition of the target invariant of a
transition that is neither a self loop, nor time-triggered, nor resets, is a row of the guard, or
nearly is: a row of the original guard has the same bound up to `tol` and, if it stores as many
entries (see `C28_condition_left_out` for what happens otherwise), the same columns and the same
coefficients up to `tol`. -/
theorem C28_conditions_added {tol : K} {ha ha' : HA K} (h : ha.strengthen tol = .ok ha')
    {k : ℕ} {t t' : Tr K} (hk : ha.trans[k]? = some t) (hk' : ha'.trans[k]? = some t')
    {g g' : Csr K × List K} (hg : t.guard = some g) (hg' : t'.guard = some g')
    (hlen : g.1.rows.length = g.2.length)
    (h1 : t.src ≠ t.dst) (h2 : t.tt = false) (h3 : t.reset = none) {m : Mode K}
    (hm : ha.modes[t.dst]? = some m) : ∀ lc ∈ m.inv,
      (lc.row, lc.rhs) ∈ g'.1.rows.zip g'.2 ∨
      ∃ q ∈ g.1.rows.zip g.2, |q.2 - lc.rhs| ≤ tol ∧
        (q.1.length = lc.row.length → RowsClose tol q.1 lc.row) := by
  simp only [HA.strengthen, bind_ok, pure_ok] at h
  obtain ⟨ts, hts, rfl⟩ := h
  obtain ⟨-, hf⟩ := mapM_getElem hts
  have h := hf k t t' hk hk'
  unfold strengthenTr at h
  rw [if_neg (by simp [h1, h2, h3])] at h
  simp only [bind_ok, needSome_ok] at h
  obtain ⟨m', hm', h⟩ := h
  obtain rfl : m = m' := Option.some.inj (hm.symm.trans hm')
  split at h
  · rename_i hi
    simp [hi]
  · simp only [bind_ok, needSome_ok, need_ok, pure_ok] at h
    obtain ⟨g0, hg0, add, hadd, _, -, rfl⟩ := h
    obtain rfl : g = g0 := Option.some.inj (hg.symm.trans hg0)
    simp only [Option.some.injEq] at hg'
    subst hg'
    intro lc hlc
    rcases missingInGuard_complete hadd lc hlc with hin | ⟨q, hq, he⟩
    · left
      simp only
      rw [List.zip_append hlen, List.zip_map']
      exact List.mem_append_right _ (List.mem_map.2 ⟨lc, hin, rfl⟩)
    · obtain ⟨a, -, b⟩ := almostEquals_spec he
      exact .inr ⟨q, hq, a, b⟩

/-- Every guard of a built automaton has one bound per row, so C28 applies to it. -/
theorem build_guard_len (S : Solver K) (tol : K) (ops : List (BuildOp K)) :
    ∀ t ∈ (HA.build S tol ops).trans, ∀ g, t.guard = some g → g.1.rows.length = g.2.length := by
  induction ops using List.reverseRecOn with
  | nil => simp [HA.build]
  | append_singleton ops op ih =>
    have hb : HA.build S tol (ops ++ [op]) = (HA.build S tol ops).attempt S tol op := by
      simp [HA.build]
    rw [hb]
    unfold HA.attempt
    have setG : ∀ {ha : HA K} {t t' : Tr K} {c : Csr K} {rhs : List K},
        t.setGuard S ha c rhs = .ok t' → c.rows.length = rhs.length := by
      intro ha t t' c rhs h
      simp only [Tr.setGuard, bind_ok, pure_ok, assert_ok] at h
      obtain ⟨_, _, _, _, _, _, _, _, _, _, _, _, _, h, rfl⟩ := h
      exact h.symm
    have mtr : ∀ {ha ha' : HA K} {i : ℕ} {f : Tr K → Except Err (Tr K)},
        (∀ t ∈ ha.trans, ∀ g, t.guard = some g → g.1.rows.length = g.2.length) →
        (∀ t t', t ∈ ha.trans → f t = .ok t' → ∀ g, t'.guard = some g →
          g.1.rows.length = g.2.length) → ha.modTr i f = .ok ha' →
        ∀ t ∈ ha'.trans, ∀ g, t.guard = some g → g.1.rows.length = g.2.length := by
      intro ha ha' i f h0 hf hm
      simp only [HA.modTr, bind_ok, needSome_ok, pure_ok] at hm
      obtain ⟨m, hm, m', hm', rfl⟩ := hm
      intro t ht g hg
      rcases List.mem_or_eq_of_mem_set ht with ht | rfl
      · exact h0 t ht g hg
      · exact hf m _ (List.mem_of_getElem? hm) hm' g hg
    cases h : (HA.build S tol ops).apply S tol op with
    | error e => exact ih
    | ok ha' =>
      cases op with
      | newMode n =>
        simp only [HA.apply, HA.newMode, bind_ok, pure_ok] at h
        obtain ⟨_, -, rfl⟩ := h
        exact ih
      | newTransition s d n =>
        simp only [HA.apply, HA.newTransition, bind_ok, pure_ok] at h
        obtain ⟨_, -, _, _, rfl⟩ := h
        intro t ht
        simp only [List.mem_append, List.mem_singleton] at ht
        rcases ht with ht | rfl
        · exact ih t ht
        · simp
      | setDynamics m a =>
        simp only [HA.apply, HA.modMode, bind_ok, pure_ok] at h
        obtain ⟨_, -, _, -, rfl⟩ := h; exact ih
      | setInvariant m c rhs =>
        simp only [HA.apply, HA.modMode, bind_ok, pure_ok] at h
        obtain ⟨_, -, _, -, rfl⟩ := h; exact ih
      | setInputs m b u rhs al =>
        simp only [HA.apply, HA.modMode, bind_ok, pure_ok] at h
        obtain ⟨_, -, _, -, rfl⟩ := h; exact ih
      | setGuard t c rhs =>
        refine mtr ih (fun t t' _ ht g hg => ?_) h
        have := setG ht
        rw [setGuard_same ht] at hg
        simp only [Option.some.injEq] at hg
        subst hg; exact this
      | setGuardTrue t =>
        refine mtr ih (fun t t' _ ht g hg => ?_) h
        simp only [Tr.setGuardTrue, bind_ok] at ht
        obtain ⟨_, _, _, _, _, _, ht⟩ := ht
        have := setG ht
        rw [setGuard_same ht] at hg
        simp only [Option.some.injEq] at hg
        subst hg; exact this
      | setReset t r m c d =>
        refine mtr ih (fun t t' htm ht g hg => ?_) h
        simp only [Tr.setReset, bind_ok, pure_ok] at ht
        obtain ⟨_, _, _, _, _, _, _, _, _, _, _, _, _, _, _, _, rfl⟩ := ht
        exact ih t htm g hg

/-- Two modes, one transition with the given guard row into a mode with one invariant row. -/
def exHA (row : SRow ℚ) (b : ℚ) (irow : SRow ℚ) (ib : ℚ) : HA ℚ :=
  ⟨[⟨"a", 0, some ⟨1, [[]]⟩, none, []⟩, ⟨"b", 1, some ⟨1, [[]]⟩, none, [⟨1, irow, ib⟩]⟩],
    [[0], []], [{ src := 0, dst := 1, index := 0, guard := some (⟨1, [row]⟩, [b]) }]⟩

/-- Non-vacuity of C28: a guard `x >= 0` into a mode with invariant `x <= 1` becomes
`0 <= x <= 1`. -/
example : ∃ ha' : HA ℚ, (exHA [(0, -1)] 0 [(0, 1)] 1).strengthen (1 / 10 ^ 13) = .ok ha' ∧
    (ha'.trans.map fun t => (t.guard.map fun g => (g.1.rows, g.2))) =
        [some ([[(0, -1)], [(0, 1)]], [0, 1])] := by
  refine ⟨_, by
    norm_num [exHA, HA.strengthen, strengthenTr, needSome, need, missingInGuard, inGuard,
      LinCon.almostEquals, npAllEq, dataClose, bind, Except.bind, pure, Except.pure]; rfl, ?_⟩
  rfl

/-- Finding: a condition of the target invariant can be left out although no guard row implies it.
Comparing the invariant `x0 <= 1` with the guard row `0 <= 1` (no stored entry) compares index
arrays of lengths 0 and 1, which numpy broadcasts to an empty, hence "equal", comparison.  (The
claim of C28 still holds; the strengthened guard is just larger than intended.) -/
theorem C28_condition_left_out : ∃ (ha ha' : HA ℚ) (t' : Tr ℚ) (m : Mode ℚ),
    ha.strengthen (1 / 10 ^ 13) = .ok ha' ∧ ha'.trans = [t'] ∧ ha'.modes[t'.dst]? = some m ∧
    t'.src ≠ t'.dst ∧ t'.reset = none ∧ GuardHolds t' (fun _ => 5) ∧ ¬ InvHolds m (fun _ => 5) := by
  refine ⟨exHA [] 1 [(0, 1)] 1, exHA [] 1 [(0, 1)] 1,
    { src := 0, dst := 1, index := 0, guard := some (⟨1, [[]]⟩, [1]) },
    ⟨"b", 1, some ⟨1, [[]]⟩, none, [⟨1, [(0, 1)], 1⟩]⟩, ?_, rfl, rfl, by simp, rfl,
    ⟨_, rfl, ?_⟩, ?_⟩
  · norm_num [exHA, HA.strengthen, strengthenTr, needSome, need, missingInGuard, inGuard,
      LinCon.almostEquals, npAllEq, dataClose, bind, Except.bind, pure, Except.pure]
  · intro i hi
    have : i = 0 := by
      have : i < 1 := hi
      omega
    subst this
    norm_num [dot, Csr.row]
  · intro h
    have := h ⟨1, [(0, 1)], 1⟩ (by simp)
    norm_num [dot] at this

/-- Finding: strengthening can raise: the target invariant has an all-zero row and a guard row with
one entry has the same bound. -/
theorem C28_strengthening_raises : ∃ ha : HA ℚ,
    ha.strengthen (1 / 10 ^ 13) = .error .runtime :=
  ⟨exHA [(0, 1)] 1 [] 1, by
    norm_num [exHA, HA.strengthen, strengthenTr, needSome, need, missingInGuard, inGuard,
      LinCon.almostEquals, npAllEq, dataClose, bind, Except.bind, pure, Except.pure]⟩

end Hylaa
