import Verif.Proofs.Inst

/-!
# Linear programs that keep their constraints while being optimised
-/

set_option linter.unusedSectionVars false

namespace Hylaa
variable {K : Type} [Field K] [LinearOrder K] [IsStrictOrderedRing K]

/-- What the plotting code may assume of an instance. -/
structure PlotLp (s : Sys K) (lp : Lp K) : Prop where
  sys : lp.toSys = s
  obj : lp.ObjInv

end Hylaa
