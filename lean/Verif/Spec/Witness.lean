import Verif.Model.Counterexample
import Verif.Spec.Run

/-!
# What a counterexample has to be

A list of segments, each with the mode, the start and end point, the inputs step by step, the transition
taken at the end and the second summand of its reset.
-/

namespace Hylaa.Spec
variable {K : Type} [Field K] [LinearOrder K]

/-- A list of numbers as a point. -/
def pt (l : List K) : ℕ → K := fun i => l.getD i 0

/-- The state after `k` steps from `x` under the inputs `u 0, u 1, …` -/
def drive (d : Dyn K) (u : ℕ → ℕ → K) : ℕ → (ℕ → K) → ℕ → K
  | 0, x => x
  | k + 1, x => fun i => mulV d.dims (d.ex 1).e (drive d u k x) i + inputPart d (u k) i

/-- The inputs of a segment, by step. -/
def ins (s : CeSeg K) : ℕ → ℕ → K := fun k => pt (s.inputs.getD k [])

/-- `y = R x + M w` with `C w ≤ d` (`ResetTo` with the second summand given). -/
def ResetBy (n : ℕ) (t : Tr K) (x w y : ℕ → K) : Prop :=
  (∀ M, t.mink = some M → (t.minkC.getD ⟨0, []⟩).le w (t.minkRhs.getD [])) ∧
    ∀ i < (match t.reset with | none => n | some R => R.nrows),
      y i = (match t.reset with | none => x i | some R => dot (R.row i) x) +
        (match t.mink with | none => 0 | some M => dot (M.row i) w)

/-- One segment: the end is reached from the start in the given number of steps under the given,
admissible, inputs, and satisfies the guard of a transition of the mode, the one reported.  With `inv`:
moreover the invariant holds (up to `ε`) at all steps before the last. -/
def SegOk (H : Hyb K) (ε : K) (inv : Prop) (s : CeSeg K) : Prop :=
  ∃ m l ti t, H.ha.modes[s.mode]? = some m ∧ m.isError = false ∧
    (H.dyn s.mode).dims ≤ s.start.length ∧ s.fin.length = (H.dyn s.mode).dims ∧
    s.inputs.length = (if 0 < (H.dyn s.mode).inputs then s.steps else 0) ∧
    (∀ u ∈ s.inputs, u.length = (H.dyn s.mode).inputs) ∧
    (∀ k < s.steps, Admissible m (ins s k)) ∧
    (∀ i < (H.dyn s.mode).dims, pt s.fin i = drive (H.dyn s.mode) (ins s) s.steps (pt s.start) i) ∧
    (inv → (∀ k < s.steps, InvEps ε m (drive (H.dyn s.mode) (ins s) k (pt s.start))) ∧
      (s.steps = 0 → H.urgent = true ∧ InvEps ε m (pt s.fin))) ∧
    s.out = some ti ∧ H.ha.out[s.mode]? = some l ∧ ti ∈ l ∧ H.ha.trans[ti]? = some t ∧
    GuardHolds t (pt s.fin)

/-- The transition at the end of a segment leads to point `y` of mode `j`. -/
def Enters (H : Hyb K) (s : CeSeg K) (j : ℕ) (y : ℕ → K) : Prop :=
  ∃ ti t, s.out = some ti ∧ H.ha.trans[ti]? = some t ∧ j = t.dst ∧
    (∀ M, t.mink = some M → s.mink.length = M.ncols) ∧
    ResetBy (H.dyn s.mode).dims t (pt s.fin) (pt s.mink) y

/-- Segments that follow each other, the first starting in `X0`. -/
structure Chain (H : Hyb K) (ε : K) (inv : Prop) (X0 : ℕ → (ℕ → K) → Prop) (l : List (CeSeg K)) :
    Prop where
  seg : ∀ s ∈ l, SegOk H ε inv s
  first : ∀ s, l.head? = some s → X0 s.mode (pt s.start)
  next : ∀ (k : ℕ) a b, l[k]? = some a → l[k + 1]? = some b → Enters H a b.mode (pt b.start)

/-- A counterexample: a chain of segments whose last transition leads to an error mode. -/
def IsTrace (H : Hyb K) (ε : K) (inv : Prop) (X0 : ℕ → (ℕ → K) → Prop) (l : List (CeSeg K)) : Prop :=
  Chain H ε inv X0 l ∧ ∃ s ti t m, l.getLast? = some s ∧ s.out = some ti ∧
    H.ha.trans[ti]? = some t ∧ H.ha.modes[t.dst]? = some m ∧ m.isError = true

end Hylaa.Spec
