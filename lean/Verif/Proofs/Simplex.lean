import Verif.Model.Solver
import Verif.Proofs.Dot

/-!
# A certifying linear programming solver

Used only in examples: a solver that is honest by construction, because it checks a certificate
(primal point and multipliers) before answering, and that can be run.  How the candidate is found (a
dictionary pivoting method, `solve`) does not matter for honesty.
-/

set_option linter.unusedSectionVars false

namespace Hylaa.Simplex
variable {K : Type} [Field K] [LinearOrder K]

/-- A column of the dictionary: a free variable or the slack of an inequality. -/
inductive V
  | x (j : ℕ)
  | s (i : ℕ)
  deriving DecidableEq

/-- `var = const + Σ coefs * nonbasic` -/
structure Row (K : Type) where
  var : V
  c : K
  a : List K

/-- Dictionary: nonbasic variables, rows, objective. -/
structure Dict (K : Type) where
  nb : List V
  rows : List (Row K)
  obj : Row K

/-- Substitute the pivot row (already solved for the entering variable, coefficients `p`, constant
`pc`) at column `j`. -/
def subst (j : ℕ) (p : List K) (pc : K) (r : Row K) : Row K :=
  let k := r.a.getD j 0
  if k = 0 then r
  else ⟨r.var, r.c + k * pc, (List.zipWith (fun a b => a + k * b) (r.a.set j 0) p)⟩

/-- Exchange the basic variable of row `i` with the nonbasic variable of column `j`. -/
def pivot (d : Dict K) (i j : ℕ) : Dict K :=
  match d.rows[i]? with
  | none => d
  | some r =>
    let k := r.a.getD j 0
    let p := (r.a.map fun a => -(a / k)).set j (1 / k)
    let pc := -(r.c / k)
    let new : Row K := ⟨d.nb.getD j (.x 0), pc, p⟩
    ⟨d.nb.set j r.var, (d.rows.map (subst j p pc)).set i new, subst j p pc d.obj⟩

/-- Position of the first element satisfying `p`. -/
def pos {α : Type} (p : α → Bool) (l : List α) : Option ℕ := l.findIdx? p

def V.isS : V → Bool
  | .s _ => true
  | _ => false

def V.num : V → ℕ
  | .s i => i
  | .x j => j

/-- Make the free variables basic. -/
def freeLoop (d : Dict K) (fuel j : ℕ) : Dict K :=
  match fuel with
  | 0 => d
  | fuel + 1 =>
    match pos (fun r : Row K => r.var.isS && decide (r.a.getD j 0 ≠ 0)) d.rows with
    | none => freeLoop d fuel (j + 1)
    | some i => freeLoop (pivot d i j) fuel (j + 1)

/-- Outcome of the search: optimal, infeasible with the row showing it, or nothing. -/
inductive Out (K : Type)
  | opt (d : Dict K)
  | inf (d : Dict K) (r : Row K)
  | none

/-- The pair with the least first component. -/
def best (l : List (ℕ × ℕ)) : Option (ℕ × ℕ) :=
  l.foldl (fun b p => match b with
    | some q => if p.1 < q.1 then some p else some q
    | none => some p) none

/-- Least slack index among the violated ones: rows with negative constant. -/
def badRow (d : Dict K) : Option (ℕ × ℕ) :=
  best ((d.rows.zipIdx.filter fun p => p.1.var.isS && decide (p.1.c < 0)).map fun p =>
    (p.1.var.num, p.2))

/-- Columns of a row satisfying a test. -/
def cols (d : Dict K) (a : List K) (t : K → Bool) : List (ℕ × ℕ) :=
  ((d.nb.zip a).zipIdx.filter fun p => p.1.1.isS && t p.1.2).map fun p => (p.1.1.num, p.2)

/-- Columns with negative cost. -/
def badCol (d : Dict K) : Option (ℕ × ℕ) := best (cols d d.obj.a fun a => decide (a < 0))

/-- Least-index column of a row with positive coefficient. -/
def enter (d : Dict K) (r : Row K) : Option ℕ :=
  (best (cols d r.a fun a => decide (0 < a))).map fun p => p.2

/-- Least-index row with negative coefficient in column `j`. -/
def leave (d : Dict K) (j : ℕ) : Option ℕ :=
  (best ((d.rows.zipIdx.filter fun p => p.1.var.isS && decide (p.1.a.getD j 0 < 0)).map fun p =>
    (p.1.var.num, p.2))).map fun p => p.2

/-- The least-index criss-cross method. -/
def loop (d : Dict K) (fuel : ℕ) : Out K :=
  match fuel with
  | 0 => .none
  | fuel + 1 =>
    match badRow d, badCol d with
    | .none, .none => .opt d
    | br, bc =>
      let rowFirst : Bool := match br, bc with
        | some (n, _), some (m, _) => decide (n < m)
        | some _, .none => true
        | _, _ => false
      if rowFirst then
        match br with
        | .none => .none
        | some (_, i) =>
          match d.rows[i]? with
          | .none => .none
          | some r => match enter d r with
            | .none => .inf d r
            | some j => loop (pivot d i j) fuel
      else
        match bc with
        | .none => .none
        | some (_, j) => match leave d j with
          | .none => .none
          | some i => loop (pivot d i j) fuel

/-- The rows as inequalities `coefs · x ≤ rhs`. -/
def ineqs (rows : List (LRow K)) : List (SRow K × K) :=
  rows.flatMap fun r => match r.ty with
    | .up => [(r.coefs, r.rhs)]
    | .lo => [(negRow r.coefs, -r.rhs)]
    | .fx => [(r.coefs, r.rhs), (negRow r.coefs, -r.rhs)]

/-- The starting dictionary. -/
def start (n : ℕ) (obj : ℕ → K) (g : List (SRow K × K)) : Dict K :=
  ⟨(List.range n).map V.x,
   g.zipIdx.map fun p => ⟨.s p.2, p.1.2, (List.range n).map fun j => -coefAt p.1.1 j⟩,
   ⟨.x n, 0, (List.range n).map obj⟩⟩

/-- Multipliers of the nonbasic slacks of a row. -/
def mults (d : Dict K) (a : List K) (m : ℕ) : List K :=
  (List.range m).map fun i => match (d.nb.zip a).find? (fun p => decide (p.1 = V.s i)) with
    | some p => p.2
    | none => 0

/-- The candidate point. -/
def point (d : Dict K) (n : ℕ) : List K :=
  (List.range n).map fun j => match d.rows.find? (fun r => decide (r.var = V.x j)) with
    | some r => r.c
    | none => 0

/-- Find a candidate: a point with multipliers, or multipliers showing infeasibility. -/
inductive Cand (K : Type)
  | opt (x y : List K)
  | inf (y : List K)
  | none

def solve (lp : Lp K) (fuel : ℕ) : Cand K :=
  let g := ineqs lp.rows
  let n := lp.numCols
  match loop (freeLoop (start n lp.obj g) n 0) fuel with
  | .opt d => .opt (point d n) (mults d d.obj.a g.length)
  | .inf d r => .inf ((mults d (r.a.map fun a => -a) g.length).set r.var.num 1)
  | .none => .none

/-- `Σ y_i g_i` at column `j`. -/
def comb (g : List (SRow K × K)) (y : List K) (j : ℕ) : K :=
  ((g.zip y).map fun p => p.2 * coefAt p.1.1 j).sum

/-- `Σ y_i h_i` -/
def combRhs (g : List (SRow K × K)) (y : List K) : K := ((g.zip y).map fun p => p.2 * p.1.2).sum

/-- All column indices of the rows are below `n`. -/
def inRange (g : List (SRow K × K)) (n : ℕ) : Bool :=
  g.all fun r => r.1.all fun p => decide (p.1 < n)

/-- Check an optimal candidate. -/
def checkOpt (lp : Lp K) (x y : List K) : Bool :=
  let g := ineqs lp.rows
  let n := lp.numCols
  inRange g n && y.all (fun a => decide (0 ≤ a)) &&
  g.all (fun r => decide (dot r.1 (fun j => x.getD j 0) ≤ r.2)) &&
  (List.range n).all (fun j => decide (lp.obj j = -comb g y j)) &&
  decide (((List.range n).map fun j => lp.obj j * x.getD j 0).sum = -combRhs g y)

/-- Check an infeasibility candidate. -/
def checkInf (lp : Lp K) (y : List K) : Bool :=
  let g := ineqs lp.rows
  let n := lp.numCols
  inRange g n && y.all (fun a => decide (0 ≤ a)) &&
  (List.range n).all (fun j => decide (comb g y j = 0)) && decide (combRhs g y < 0)

/-- The solver. -/
def answer (lp : Lp K) (fuel : ℕ) : SimplexOut K :=
  match solve lp fuel with
  | .opt x y => if checkOpt lp x y then ⟨.ok, .opt, fun j => x.getD j 0, lp.ws⟩
      else ⟨.other 1, .undef, fun _ => 0, lp.ws⟩
  | .inf y => if checkInf lp y then ⟨.ok, .nofeas, fun _ => 0, lp.ws⟩
      else ⟨.other 2, .undef, fun _ => 0, lp.ws⟩
  | .none => ⟨.other 3, .undef, fun _ => 0, lp.ws⟩

def solver (fuel : ℕ) : Solver K := ⟨fun lp _ => answer lp fuel, fun lp => lp.ws, fun lp => lp.ws⟩

/-! ### Honesty -/

variable [IsStrictOrderedRing K]

theorem ineqs_sat {rows : List (LRow K)} {w : ℕ → K} :
    (∀ r ∈ rows, r.holds w) ↔ ∀ p ∈ ineqs rows, dot p.1 w ≤ p.2 := by
  constructor
  · intro h p hp
    simp only [ineqs, List.mem_flatMap] at hp
    obtain ⟨r, hr, hp⟩ := hp
    have := h r hr
    rcases hty : r.ty with _ | _ | _ <;> simp only [hty, LRow.holds] at hp this <;>
      simp at hp
    · rcases hp with rfl | rfl
      · exact le_of_eq this
      · simp [this]
    · subst hp; exact this
    · subst hp; simpa using this
  · intro h r hr
    have : ∀ p, p ∈ (match r.ty with
      | .up => [(r.coefs, r.rhs)]
      | .lo => [(negRow r.coefs, -r.rhs)]
      | .fx => [(r.coefs, r.rhs), (negRow r.coefs, -r.rhs)]) → dot p.1 w ≤ p.2 :=
      fun p hp => h p (List.mem_flatMap.2 ⟨r, hr, hp⟩)
    rcases hty : r.ty with _ | _ | _ <;> simp only [hty, LRow.holds] at this ⊢
    · have h1 := this _ (by simp : (r.coefs, r.rhs) ∈ _)
      have h2 := this (negRow r.coefs, -r.rhs) (by simp)
      simp at h2
      exact le_antisymm h1 h2
    · exact this _ (by simp : (r.coefs, r.rhs) ∈ _)
    · have h2 := this (negRow r.coefs, -r.rhs) (by simp)
      simpa using h2

theorem comb_dot (n : ℕ) (w : ℕ → K) (g : List (SRow K × K)) (y : List K)
    (hr : inRange g n = true) :
    ∑ j ∈ Finset.range n, comb g y j * w j = ((g.zip y).map fun p => p.2 * dot p.1.1 w).sum := by
  induction g generalizing y with
  | nil => simp [comb]
  | cons r g ih =>
    cases y with
    | nil => simp [comb]
    | cons b y =>
      simp only [inRange, List.all_cons, Bool.and_eq_true] at hr
      have := ih y (by simpa [inRange] using hr.2)
      simp only [comb, List.zip_cons_cons, List.map_cons, List.sum_cons, add_mul,
        Finset.sum_add_distrib] at this ⊢
      rw [this]
      congr 1
      have hb : ∀ p ∈ r.1, p.1 < n := by simpa using hr.1
      rw [dot_eq_sum_coefAt hb, Finset.mul_sum]
      exact Finset.sum_congr rfl fun j _ => by ring

theorem weak (w : ℕ → K) (g : List (SRow K × K)) (y : List K) (hy : ∀ a ∈ y, 0 ≤ a)
    (hw : ∀ p ∈ g, dot p.1 w ≤ p.2) :
    ((g.zip y).map fun p => p.2 * dot p.1.1 w).sum ≤ combRhs g y := by
  induction g generalizing y with
  | nil => simp [combRhs]
  | cons r g ih =>
    cases y with
    | nil => simp [combRhs]
    | cons b y =>
      have := ih y (fun a ha => hy a (by simp [ha])) (fun p hp => hw p (by simp [hp]))
      simp only [combRhs, List.zip_cons_cons, List.map_cons, List.sum_cons] at this ⊢
      exact add_le_add (mul_le_mul_of_nonneg_left (hw r (by simp)) (hy b (by simp))) this

theorem sum_map_range (n : ℕ) (f : ℕ → K) :
    ((List.range n).map f).sum = ∑ j ∈ Finset.range n, f j := by
  induction n with
  | zero => simp
  | succ n ih => rw [List.range_succ, List.map_append, List.sum_append, ih,
      Finset.sum_range_succ]; simp

theorem checkOpt_sound {lp : Lp K} {x y : List K} (h : checkOpt lp x y = true) :
    lp.Sat (fun j => x.getD j 0) ∧
      ∀ w, lp.Sat w → lp.objVal (fun j => x.getD j 0) ≤ lp.objVal w := by
  simp only [checkOpt, Bool.and_eq_true, List.all_eq_true, decide_eq_true_eq, List.mem_range] at h
  obtain ⟨⟨⟨⟨hr, hy⟩, hs⟩, ho⟩, hv⟩ := h
  refine ⟨ineqs_sat.2 hs, fun w hw => ?_⟩
  have h1 := weak w _ y hy (ineqs_sat.1 hw)
  rw [← comb_dot lp.numCols w _ _ hr] at h1
  have h2 : lp.objVal w = -∑ j ∈ Finset.range lp.numCols, comb (ineqs lp.rows) y j * w j := by
    rw [Lp.objVal, ← Finset.sum_neg_distrib]
    exact Finset.sum_congr rfl fun j hj => by rw [ho j (Finset.mem_range.1 hj)]; ring
  have h3 : lp.objVal (fun j => x.getD j 0) = -combRhs (ineqs lp.rows) y := by
    rw [Lp.objVal, ← hv, sum_map_range]
  rw [h2, h3]
  exact neg_le_neg h1

theorem checkInf_sound {lp : Lp K} {y : List K} (h : checkInf lp y = true) (w : ℕ → K) :
    ¬ lp.Sat w := by
  intro hw
  simp only [checkInf, Bool.and_eq_true, List.all_eq_true, decide_eq_true_eq, List.mem_range] at h
  obtain ⟨⟨⟨hr, hy⟩, ho⟩, hv⟩ := h
  have h1 := weak w _ y hy (ineqs_sat.1 hw)
  rw [← comb_dot lp.numCols w _ _ hr] at h1
  rw [Finset.sum_eq_zero fun j hj => by rw [ho j (Finset.mem_range.1 hj), zero_mul]] at h1
  exact absurd h1 (not_le.2 hv)

/-- The solver is honest. -/
theorem honest (fuel : ℕ) : (solver fuel : Solver K).Honest := by
  have key : ∀ lp : Lp K, (∃ x y, checkOpt lp x y = true ∧
        answer lp fuel = ⟨.ok, .opt, fun j => x.getD j 0, lp.ws⟩) ∨
      (∃ y, checkInf lp y = true ∧ answer lp fuel = ⟨.ok, .nofeas, fun _ => 0, lp.ws⟩) ∨
      (∃ n, answer lp fuel = ⟨.other n, .undef, fun _ => 0, lp.ws⟩) := by
    intro lp
    unfold answer
    split
    · split
      · next h => exact .inl ⟨_, _, h, rfl⟩
      · exact .inr (.inr ⟨_, rfl⟩)
    · split
      · next h => exact .inr (.inl ⟨_, h, rfl⟩)
      · exact .inr (.inr ⟨_, rfl⟩)
    · exact .inr (.inr ⟨_, rfl⟩)
  refine ⟨fun lp b hc ho => ?_, fun lp b hc ho => ?_, fun lp b hc ho => ?_, fun lp b hc => ?_⟩ <;>
    simp only [solver] at * <;>
    rcases key lp with ⟨x, y, h, e⟩ | ⟨y, h, e⟩ | ⟨n, e⟩ <;> simp only [e] at * <;>
    first
    | exact (checkOpt_sound h).1
    | exact (checkOpt_sound h).2
    | exact checkInf_sound h
    | simp at *

end Hylaa.Simplex
