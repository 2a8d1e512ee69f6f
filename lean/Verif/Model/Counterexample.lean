import Verif.Model.StateSet

/-!
# Reading a counterexample off an LP solution: hylaa/result.py

The columns of an LP instance are recognised by their names.  Strings are handled as lists of
characters.
-/

namespace Hylaa
variable {K : Type} [Field K] [LinearOrder K]

/-- `CounterExampleSegment`  result.py:115-132.  `mode`: position of the mode; `out`: position of the
outgoing transition; `inputs`: oldest step first. -/
structure CeSeg (K : Type) where
  mode : ℕ
  steps : ℕ
  start : List K := []
  fin : List K := []
  out : Option ℕ := none
  mink : List K := []
  inputs : List (List K) := []
  deriving DecidableEq

/-- `p in name` for strings. -/
def hasSub (p : List Char) : List Char → Bool
  | [] => p.isEmpty
  | c :: cs => p.isPrefixOf (c :: cs) || hasSub p cs

/-- `name.split(sep)` for a one-character separator. -/
def pySplit (sep : Char) : List Char → List (List Char)
  | [] => [[]]
  | c :: cs => if c = sep then [] :: pySplit sep cs else
    match pySplit sep cs with
    | [] => [[c]]
    | h :: t => (c :: h) :: t

/-- `int(s)` for decimal digits (Python also accepts signs, blanks and underscores inside; the names
read here have none).  Anything else raises ValueError. -/
def pyInt (cs : List Char) : Except Err ℕ :=
  if cs ≠ [] ∧ cs.all (fun c => c.isDigit) = true then .ok (Nat.ofDigitChars 10 cs 0) else .error .runtime

/-- Change the segment being filled (`seg`, the last one; unbound before the first). -/
def modLast (f : CeSeg K → Except Err (CeSeg K)) (segs : List (CeSeg K)) :
    Except Err (List (CeSeg K)) := do
  let s ← needSome segs.getLast?
  let s ← f s
  return segs.dropLast ++ [s]

/-- A name of a first initial variable opens a new segment.  result.py:163-187; `nums` is
`num_steps`. -/
def ceOpen (ha : HA K) (nums : List ℕ) (segs : List (CeSeg K)) (cs : List Char) :
    Except Err (List (CeSeg K)) :=
  if "m".toList.isPrefixOf cs && hasSub "_i0".toList cs then do
    let steps ← needSome nums[segs.length]?
    let parts := pySplit '_' cs
    let segs ← (if parts.length = 2 then do
        assert (segs.length = 0)
        return segs
      else do
        assert (parts.length = 3)
        let k ← pyInt ((parts.getD 2 []).drop 1)
        modLast (fun prev => do
          let l ← needSome ha.out[prev.mode]?
          let ti ← needSome l[k]?
          return { prev with out := some ti }) segs : Except Err (List (CeSeg K)))
    let id ← pyInt ((parts.getD 0 []).drop 1)
    let mode ← needSome (ha.modes.findIdx? fun m => decide (m.id = id))
    return segs ++ [{ mode := mode, steps := steps }]
  else .ok segs

/-- Store the value of a variable.  result.py:189-202 -/
def ceStore (segs : List (CeSeg K)) (cs : List Char) (v : K) : Except Err (List (CeSeg K)) :=
  if "m".toList.isPrefixOf cs then
    (if hasSub "_i".toList cs then modLast (fun s => .ok { s with start := s.start ++ [v] }) segs
     else if hasSub "_c".toList cs then modLast (fun s => .ok { s with fin := s.fin ++ [v] }) segs
     else if hasSub "_I".toList cs then
      modLast (fun s =>
        match (if hasSub "_I0".toList cs then [] :: s.inputs else s.inputs) with
        | [] => .error .runtime
        | h :: t => .ok { s with inputs := (h ++ [v]) :: t }) segs
     else .ok segs)
  else if "reset".toList.isPrefixOf cs then modLast (fun s => .ok { s with mink := s.mink ++ [v] }) segs
  else .ok segs

/-- The loop over names and values.  result.py:161-202 -/
def ceLoop (ha : HA K) (nums : List ℕ) (l : List (String × K)) (segs : List (CeSeg K)) :
    Except Err (List (CeSeg K)) :=
  match l with
  | [] => .ok segs
  | (name, v) :: l => do
    let segs ← ceOpen ha nums segs name.toList
    let segs ← ceStore segs name.toList v
    ceLoop ha nums l segs

end Hylaa
