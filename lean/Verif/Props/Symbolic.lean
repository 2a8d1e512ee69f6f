import Verif.Model.Symbolic
import Verif.Proofs.Inv

/-!
# C31: symbolic dynamics and conditions translate exactly
-/

set_option linter.unusedSectionVars false

namespace Hylaa
variable {K : Type} [Field K] [LinearOrder K] [IsStrictOrderedRing K]

/-! ### Specification -/

mutual
/-- The value of an expression. -/
def SymE.eval (ρ : String → K) : SymE K → K
  | .num v => v
  | .sym n => ρ n
  | .add args => SymE.sum ρ args
  | .mul args => SymE.prod ρ args
  | .other f => f ρ
/-- The sum of the values. -/
def SymE.sum (ρ : String → K) : List (SymE K) → K
  | [] => 0
  | e :: l => e.eval ρ + SymE.sum ρ l
/-- The product of the values. -/
def SymE.prod (ρ : String → K) : List (SymE K) → K
  | [] => 1
  | e :: l => e.eval ρ * SymE.prod ρ l
end

/-- Row times column vector. -/
def rowVal (row x : List K) : K := (List.zipWith (· * ·) row x).sum

/-- The state vector of a valuation: the variables, then 1 if there is an affine variable. -/
def stateVec (vars : List String) (aff : Bool) (ρ : String → K) : List K :=
  vars.map ρ ++ (if aff then [1] else [])

/-- The valuation with the constants' values. -/
def withConsts (consts : List (String × K)) (ρ : String → K) : String → K :=
  fun n => (consts.lookup n).getD (ρ n)

/-- What strings mean (`none`: not an expression). -/
abbrev Den (K : Type) := List Char → Option ((String → K) → K)

/-- `sympy` is right: the parsed expression, after substituting the constants, has the value of the
string. -/
def SymLib.Honest (L : SymLib K) (den : Den K) : Prop :=
  ∀ s vars consts e, L.parse s vars consts = .ok e →
    ∃ f, den s = some f ∧ ∀ ρ, e.eval ρ = f (withConsts consts ρ)

/-- `left - (right)` means the difference. -/
def Den.Diff (den : Den K) : Prop := ∀ l r fl fr, den l = some fl → den r = some fr →
  den (l ++ " - (".toList ++ r ++ ")".toList) = some fun ρ => fl ρ - fr ρ

/-- Sums of numbers, known variables and number-variable products. -/
inductive Flat (vars : List String) (aff : Bool) : SymE K → Prop
  | num (v) : (v ≠ 0 → aff = true) → Flat vars aff (.num v)
  | sym (n) : n ∈ vars → Flat vars aff (.sym n)
  | mul (v n) : n ∈ vars → Flat vars aff (.mul [.num v, .sym n])
  | mul' (v n) : n ∈ vars → Flat vars aff (.mul [.sym n, .num v])
  | add (args) : (∀ e ∈ args, Flat vars aff e) → Flat vars aff (.add args)

/-! ### Proofs -/

theorem rowVal_bump : ∀ (rv x : List K) (i : ℕ) (v : K), i < rv.length → rv.length = x.length →
    rowVal (bump rv i v) x = rowVal rv x + v * x.getD i 0
  | [], _, _, _, h, _ => by simp at h
  | a :: rv, [], _, _, _, h => by simp at h
  | a :: rv, b :: x, 0, v, _, _ => by
    simp only [rowVal, bump, List.modify_zero_cons, List.zipWith_cons_cons, List.sum_cons, List.getD_cons_zero]
    ring
  | a :: rv, b :: x, i + 1, v, h, hl => by
    have ih := rowVal_bump rv x i v (by simpa using h) (by simpa using hl)
    simp only [rowVal, bump, List.modify_succ_cons, List.zipWith_cons_cons, List.sum_cons,
      List.getD_cons_succ] at ih ⊢
    rw [ih]; ring

theorem bump_length (rv : List K) (i : ℕ) (v : K) : (bump rv i v).length = rv.length := by
  simp [bump]

theorem stateVec_length (vars : List String) (aff : Bool) (ρ : String → K) :
    (stateVec vars aff ρ).length = if aff then vars.length + 1 else vars.length := by
  cases aff <;> simp [stateVec]

theorem stateVec_idx {vars : List String} {n : String} (h : n ∈ vars) (aff : Bool) (ρ : String → K) :
    (stateVec vars aff ρ).getD (vars.idxOf n) 0 = ρ n := by
  have hlt := List.idxOf_lt_length_of_mem h
  rw [stateVec, List.getD_eq_getElem?_getD, List.getElem?_append_left (by simpa using hlt), List.getElem?_map,
    List.getElem?_eq_getElem hlt]
  simp

/-- What one extraction adds to the row. -/
def Adds (vars : List String) (aff : Bool) (e : SymE K) : Prop :=
  ∀ rv rv', extractRec vars aff rv e = .ok rv' →
    rv.length = (if aff then vars.length + 1 else vars.length) →
    rv'.length = rv.length ∧ ∀ ρ, rowVal rv' (stateVec vars aff ρ) = rowVal rv (stateVec vars aff ρ) + e.eval ρ

theorem adds_var {vars : List String} {aff : Bool} {n : String} {v : K} {rv rv' : List K}
    (h : (do let i ← varIndex vars n
             return bump rv i v) = .ok rv')
    (hl : rv.length = (if aff then vars.length + 1 else vars.length)) :
    rv'.length = rv.length ∧ ∀ ρ, rowVal rv' (stateVec vars aff ρ) =
      rowVal rv (stateVec vars aff ρ) + v * ρ n := by
  simp only [varIndex, bind_ok, need_ok, pure_ok] at h
  obtain ⟨i, ⟨_, hn, rfl⟩, rfl⟩ := h
  refine ⟨bump_length .., fun ρ => ?_⟩
  have hlt := List.idxOf_lt_length_of_mem hn
  rw [rowVal_bump _ _ _ _ (by rw [hl]; split <;> omega) (by rw [hl, stateVec_length]), stateVec_idx hn]

mutual
theorem adds (vars : List String) (aff : Bool) : ∀ e : SymE K, Adds vars aff e
  | .add args => by
    intro rv rv' h hl
    rw [extractRec] at h
    have := addsList vars aff args rv rv' h hl
    exact ⟨this.1, fun ρ => by rw [this.2 ρ]; rw [SymE.eval]⟩
  | .num v => by
    intro rv rv' h hl
    simp only [extractRec, extractLeaf] at h
    split at h
    · rename_i hv
      cases h
      exact ⟨rfl, fun ρ => by rw [SymE.eval, hv, add_zero]⟩
    · simp only [bind_ok, need_ok, pure_ok] at h
      obtain ⟨_, haff, rfl⟩ := h
      subst haff
      refine ⟨bump_length .., fun ρ => ?_⟩
      rw [if_pos rfl] at hl
      rw [rowVal_bump _ _ _ _ (by omega) (by rw [hl, stateVec_length]; rfl), SymE.eval, hl]
      have : (stateVec vars true ρ).getD (vars.length + 1 - 1) 0 = 1 := by
        simp [stateVec, List.getD_eq_getElem?_getD]
      rw [this, mul_one]
  | .sym n => by
    intro rv rv' h hl
    simp only [extractRec, extractLeaf] at h
    have := adds_var h hl
    exact ⟨this.1, fun ρ => by rw [this.2 ρ, SymE.eval, one_mul]⟩
  | .mul args => by
    intro rv rv' h hl
    simp only [extractRec, extractLeaf] at h
    split at h
    · have := adds_var h hl
      exact ⟨this.1, fun ρ => by rw [this.2 ρ]; simp [SymE.eval, SymE.prod]⟩
    · have := adds_var h hl
      exact ⟨this.1, fun ρ => by rw [this.2 ρ]; simp [SymE.eval, SymE.prod, mul_comm]⟩
    · cases h
  | .other f => by
    intro rv rv' h
    simp only [extractRec, extractLeaf] at h
    cases h
theorem addsList (vars : List String) (aff : Bool) : ∀ (l : List (SymE K)) (rv rv' : List K),
    extractList vars aff rv l = .ok rv' →
    rv.length = (if aff then vars.length + 1 else vars.length) →
    rv'.length = rv.length ∧ ∀ ρ, rowVal rv' (stateVec vars aff ρ) =
      rowVal rv (stateVec vars aff ρ) + SymE.sum ρ l
  | [], rv, rv', h, _ => by
    rw [extractList] at h
    cases h
    exact ⟨rfl, fun ρ => by rw [SymE.sum, add_zero]⟩
  | e :: l, rv, rv', h, hl => by
    simp only [extractList, bind_ok] at h
    obtain ⟨rv1, h1, h2⟩ := h
    obtain ⟨a1, a2⟩ := adds vars aff e rv rv1 h1 hl
    obtain ⟨b1, b2⟩ := addsList vars aff l rv1 rv' h2 (a1.trans hl)
    refine ⟨b1.trans a1, fun ρ => ?_⟩
    rw [b2, a2, SymE.sum]; ring
end

theorem rowVal_zero (n : ℕ) (x : List K) : rowVal (List.replicate n 0) x = 0 := by
  induction n generalizing x with
  | zero => simp [rowVal]
  | succ n ih =>
    cases x with
    | nil => simp [rowVal]
    | cons a x =>
      have := ih x
      simp only [rowVal, List.replicate_succ, List.zipWith_cons_cons, List.sum_cons, zero_mul, zero_add] at this ⊢
      exact this

/-- Extraction is exact: the row times the state vector is the value of the expression, for every
valuation. -/
theorem C31_extract {e : SymE K} {vars : List String} {aff : Bool} {row : List K}
    (h : extractLinear e vars aff = .ok row) :
    row.length = (if aff then vars.length + 1 else vars.length) ∧
      ∀ ρ, rowVal row (stateVec vars aff ρ) = e.eval ρ := by
  obtain ⟨h1, h2⟩ := adds vars aff e _ _ h (by simp)
  refine ⟨by rw [h1]; simp, fun ρ => ?_⟩
  rw [h2, rowVal_zero, zero_add]

theorem varIndex_total {vars : List String} {n : String} (h : n ∈ vars) : varIndex vars n = .ok (vars.idxOf n) := by
  unfold varIndex need
  rw [if_pos h]; rfl

/-- Every flat expression over known variables is accepted. -/
theorem C31_flat_accepted {e : SymE K} {vars : List String} {aff : Bool} (h : Flat vars aff e) :
    ∃ row, extractLinear e vars aff = .ok row := by
  unfold extractLinear
  generalize List.replicate _ (0 : K) = rv
  induction h generalizing rv with
  | num v hv =>
    simp only [extractRec, extractLeaf]
    by_cases h0 : v = 0
    · exact ⟨rv, if_pos h0⟩
    · rw [if_neg h0]
      unfold need
      rw [if_pos (hv h0)]
      exact ⟨_, rfl⟩
  | sym n hn =>
    simp only [extractRec, extractLeaf, varIndex_total hn]
    exact ⟨_, rfl⟩
  | mul v n hn =>
    simp only [extractRec, extractLeaf, varIndex_total hn]
    exact ⟨_, rfl⟩
  | mul' v n hn =>
    simp only [extractRec, extractLeaf, varIndex_total hn]
    exact ⟨_, rfl⟩
  | add args hfl ih =>
    rw [extractRec]
    induction args generalizing rv with
    | nil => exact ⟨rv, by rw [extractList]⟩
    | cons e l ihl =>
      obtain ⟨r1, h1⟩ := ih e List.mem_cons_self rv
      obtain ⟨r2, h2⟩ := ihl (fun e he => hfl e (List.mem_cons_of_mem _ he)) (fun e he => ih e (List.mem_cons_of_mem _ he)) r1
      refine ⟨r2, ?_⟩
      simp only [extractList, h1]
      exact h2

theorem mapM_forall {α β : Type} {f : α → Except Err β} : ∀ {l : List α} {l' : List β},
    l.mapM f = .ok l' → List.Forall₂ (fun a b => f a = .ok b) l l'
  | [], l', h => by cases h; exact .nil
  | a :: l, l', h => by
    rw [List.mapM_cons] at h
    simp only [bind_ok, pure_ok] at h
    obtain ⟨b, hb, bs, hbs, rfl⟩ := h
    exact .cons hb (mapM_forall hbs)

/-- The rows of the dynamics matrix are the derivatives, for every valuation of the variables; with an
affine variable the last row is zero. -/
theorem C31_dynamics {L : SymLib K} {den : Den K} (hL : L.Honest den) {vars : List String}
    {ders : List (List Char)} {consts : List (String × K)} {aff : Bool} {mat : List (List K)}
    (h : makeDynamicsMat L vars ders consts aff = .ok mat) :
    ∃ rows, mat = rows ++ (if aff then [List.replicate (vars.length + 1) 0] else []) ∧
      List.Forall₂ (fun d row => row.length = (if aff then vars.length + 1 else vars.length) ∧
        ∃ f, den d = some f ∧
          ∀ ρ, rowVal row (stateVec vars aff ρ) = f (withConsts consts ρ)) ders rows := by
  simp only [makeDynamicsMat, bind_ok, pure_ok] at h
  obtain ⟨rows, h1, rfl⟩ := h
  refine ⟨rows, by cases aff <;> simp, (mapM_forall h1).imp fun d row hd => ?_⟩
  simp only [bind_ok] at hd
  obtain ⟨e, he, hr⟩ := hd
  obtain ⟨a1, a2⟩ := C31_extract hr
  obtain ⟨f, hf, hv⟩ := hL _ _ _ _ he
  exact ⟨a1, f, hf, fun ρ => by rw [a2, hv]⟩

/-- The rows of the reset matrix are the reset expressions; with an affine variable the last row keeps
it. -/
theorem C31_reset {L : SymLib K} {den : Den K} (hL : L.Honest den) {vars : List String}
    {resets : List (List Char)} {consts : List (String × K)} {aff : Bool} {mat : List (List K)}
    (h : makeResetMat L vars resets consts aff = .ok mat) :
    ∃ rows last, mat = rows ++ (if aff then [last] else []) ∧
      (∀ ρ, rowVal last (stateVec vars true ρ) = 1) ∧
      List.Forall₂ (fun d row => row.length = (if aff then vars.length + 1 else vars.length) ∧
        ∃ f, den d = some f ∧
          ∀ ρ, rowVal row (stateVec vars aff ρ) = f (withConsts consts ρ)) resets rows := by
  simp only [makeResetMat, bind_ok, pure_ok] at h
  obtain ⟨mat0, h1, rfl⟩ := h
  obtain ⟨rows, rfl, hF⟩ := C31_dynamics hL h1
  refine ⟨rows, List.replicate vars.length 0 ++ [1], ?_, ?_, hF⟩
  · cases aff with
    | false => simp
    | true =>
      simp only [if_true]
      have e : (rows ++ [List.replicate (vars.length + 1) (0 : K)]).length - 1 = rows.length := by simp
      rw [e]
      have : ∀ (rows : List (List K)) (a : List K) (g : List K → List K),
          (rows ++ [a]).modify rows.length g = rows ++ [g a] := by
        intro rows a g
        induction rows with
        | nil => rfl
        | cons b rows ih => simp only [List.cons_append, List.length_cons, List.modify_succ_cons, ih]
      rw [this]
      congr 2
      simp only [List.length_replicate, Nat.add_sub_cancel]
      induction vars.length with
      | zero => rfl
      | succ n ih => rw [List.replicate_succ, List.set_cons_succ, ih]; rfl
  · intro ρ
    unfold stateVec rowVal
    rw [List.zipWith_append (by simp)]
    have := rowVal_zero vars.length (vars.map ρ)
    unfold rowVal at this
    simp [this]

theorem countPat_append_ge (c1 c2 : Char) : ∀ (l r : List Char), countPat c1 c2 (l ++ c1 :: c2 :: r) ≥ 1
  | [], r => by simp [countPat]
  | [a], r => by
    simp only [List.cons_append, List.nil_append, countPat, and_self, if_true]; omega
  | a :: b :: l, r => by
    have := countPat_append_ge c1 c2 (b :: l) r
    simp only [List.cons_append, countPat] at this ⊢
    omega

/-- With a single occurrence, splitting finds it. -/
theorem splitPat_spec {c1 c2 : Char} (hc : c1 ≠ c2) : ∀ (l r : List Char),
    countPat c1 c2 (l ++ c1 :: c2 :: r) = 1 → splitPat c1 c2 (l ++ c1 :: c2 :: r) = (l, r)
  | [], r, _ => by simp [splitPat]
  | [a], r, h => by
    simp only [List.cons_append, List.nil_append, countPat, and_self, if_true] at h
    have hn : ¬ (a = c1 ∧ c1 = c2) := fun h => hc h.2
    simp only [List.cons_append, List.nil_append, splitPat, if_neg hn, and_self, if_true]
  | a :: b :: l, r, h => by
    have hge := countPat_append_ge c1 c2 (b :: l) r
    have ih := splitPat_spec hc (b :: l) r
    simp only [List.cons_append, countPat] at h hge ih ⊢
    have hn : ¬ (a = c1 ∧ b = c2) := by
      intro h'
      rw [if_pos h'] at h
      omega
    rw [if_neg hn, zero_add] at h
    simp only [splitPat, if_neg hn]
    rw [ih h]

theorem extract_terms {e : SymE K} {vars : List String} {terms : List K}
    (h : extractLinear e vars true = .ok terms) :
    ∃ row b, terms = row ++ [b] ∧ row.length = vars.length ∧ ∀ ρ, e.eval ρ = rowVal row (vars.map ρ) + b := by
  obtain ⟨h1, h2⟩ := C31_extract h
  simp only [if_true] at h1
  have hne : terms ≠ [] := by intro hc; rw [hc] at h1; simp at h1
  refine ⟨terms.dropLast, terms.getLast hne, (List.dropLast_append_getLast hne).symm, by simp [h1], fun ρ => ?_⟩
  rw [← h2 ρ]
  conv_lhs => rw [← List.dropLast_append_getLast hne]
  unfold stateVec rowVal
  rw [List.zipWith_append (by simp [h1])]
  simp

theorem makeCondRow_spec {L : SymLib K} {den : Den K} (hL : L.Honest den) (hD : Den.Diff den)
    {vars : List String} {consts : List (String × K)} {aff : Bool} {cond : List Char} {r : List K × K}
    (h : makeCondRow L vars consts aff cond = .ok r) :
    (∀ l rt fl fr, (cond = l ++ "<=".toList ++ rt ∨ cond = rt ++ ">=".toList ++ l) → den l = some fl →
      den rt = some fr → ∀ (ρ : String → K) (z : List K), (aff = true ↔ z.length = 1) → (aff = false ↔ z = []) →
        (rowVal r.1 (vars.map ρ ++ z) ≤ r.2 ↔ fl (withConsts consts ρ) ≤ fr (withConsts consts ρ))) := by
  intro l rt fl fr hcond hl hr ρ z hz1 hz2
  simp only [makeCondRow, bind_ok, need_ok, pure_ok] at h
  obtain ⟨_, hcnt, e, he, terms, ht, rfl⟩ := h
  have hp : (if countPat '>' '=' cond = 1 then (splitPat '>' '=' cond).swap else splitPat '<' '=' cond) = (l, rt) := by
    rcases hcond with hcond | hcond
    · have e1 : "<=".toList = ['<', '='] := rfl
      rw [e1, List.append_assoc] at hcond
      have hge := countPat_append_ge '<' '=' l rt
      rw [if_neg (by rw [hcond] at hcnt ⊢; simp only [List.cons_append, List.nil_append] at hcnt ⊢; omega), hcond]
      exact splitPat_spec (by decide) l rt (by
        rw [hcond] at hcnt; simp only [List.cons_append, List.nil_append] at hcnt; 
        have h0 : countPat '<' '=' (l ++ '<' :: '=' :: rt) ≤ 1 := by omega
        omega)
    · have e1 : ">=".toList = ['>', '='] := rfl
      rw [e1, List.append_assoc] at hcond
      have hge := countPat_append_ge '>' '=' rt l
      have hone : countPat '>' '=' (rt ++ '>' :: '=' :: l) = 1 := by
        rw [hcond] at hcnt; simp only [List.cons_append, List.nil_append] at hcnt
        omega
      rw [hcond]
      simp only [List.cons_append, List.nil_append]
      rw [if_pos hone, splitPat_spec (by decide) rt l hone]
      rfl
  rw [hp] at he
  obtain ⟨f, hf, hv⟩ := hL _ _ _ _ he
  simp only at hf
  rw [hD l rt fl fr hl hr] at hf
  cases hf
  obtain ⟨row, b, rfl, hrl, hval⟩ := extract_terms ht
  have e2 := hval ρ
  rw [hv ρ] at e2
  have hlast : (row ++ [b]).getLastD 0 = b := by simp [List.getLastD_eq_getLast?]
  have hdrop : (row ++ [b]).dropLast = row := by simp
  have hrv : rowVal (if aff = true then row ++ [0] else row) (vars.map ρ ++ z) = rowVal row (vars.map ρ) := by
    cases aff with
    | false =>
      rw [hz2.1 rfl]; simp
    | true =>
      obtain ⟨a, rfl⟩ := List.length_eq_one_iff.1 (hz1.1 rfl)
      unfold rowVal
      rw [if_pos rfl, List.zipWith_append (by simp [hrl])]
      simp
  simp only [hdrop, hlast]
  rw [hrv]
  constructor <;> intro h <;> linarith

/-- Conditions translate exactly: for every condition `l <= r` or `r >= l` between expressions and for
every valuation, the row's inequality holds exactly if the condition does (the affine variable, if
any, has coefficient zero). -/
theorem C31_condition {L : SymLib K} {den : Den K} (hL : L.Honest den) (hD : Den.Diff den)
    {vars : List String} {conds : List (List Char)} {consts : List (String × K)} {aff : Bool}
    {mat : List (List K)} {rhs : List K} (h : makeCondition L vars conds consts aff = .ok (mat, rhs)) :
    mat.length = conds.length ∧ rhs.length = conds.length ∧
    ∀ (i : ℕ) cond row b, conds[i]? = some cond → mat[i]? = some row → rhs[i]? = some b →
      ∀ l r fl fr, (cond = l ++ "<=".toList ++ r ∨ cond = r ++ ">=".toList ++ l) →
        den l = some fl → den r = some fr → ∀ (ρ : String → K) (z : List K),
        (aff = true ↔ z.length = 1) → (aff = false ↔ z = []) →
        (rowVal row (vars.map ρ ++ z) ≤ b ↔ fl (withConsts consts ρ) ≤ fr (withConsts consts ρ)) := by
  simp only [makeCondition, bind_ok, pure_ok, Prod.mk.injEq] at h
  obtain ⟨rows, h1, rfl, rfl⟩ := h
  have hF := mapM_forall h1
  refine ⟨by simp [hF.length_eq], by simp [hF.length_eq], ?_⟩
  intro i cond row b hc hrow hb
  rw [List.getElem?_map] at hrow hb
  obtain ⟨p, hp, rfl⟩ := Option.map_eq_some_iff.1 hrow
  rw [hp] at hb
  simp only [Option.map_some, Option.some.injEq] at hb
  subst hb
  have key : makeCondRow L vars consts aff cond = .ok p := by
    clear h1 hrow
    induction hF generalizing i with
    | nil => cases hc
    | cons h1 h2 ih =>
      cases i with
      | zero => cases hc; cases hp; exact h1
      | succ i => exact ih i hc hp
  exact makeCondRow_spec hL hD key

/-- Non-linear input is refused: if the string's value is not an affine function of the variables,
extraction raises. -/
theorem C31_nonlinear_refused {L : SymLib K} {den : Den K} (hL : L.Honest den) {vars : List String}
    {s : List Char} {consts : List (String × K)} {aff : Bool} {f : (String → K) → K} (hf : den s = some f)
    (hnl : ¬ ∃ (c : List K) (b : K), ∀ ρ, f (withConsts consts ρ) = rowVal c (vars.map ρ) + b) :
    ∃ err, makeDynamicsMat L vars [s] consts aff = .error err := by
  cases h : makeDynamicsMat L vars [s] consts aff with
  | error e => exact ⟨e, rfl⟩
  | ok mat =>
    exfalso
    obtain ⟨rows, -, hF⟩ := C31_dynamics hL h
    cases hF with
    | @cons _ row _ _ h1 _ =>
      obtain ⟨hlen, g, hg, hv⟩ := h1
      rw [hf] at hg; cases hg
      apply hnl
      cases aff with
      | false =>
        refine ⟨row, 0, fun ρ => ?_⟩
        rw [← hv ρ]; simp [stateVec]
      | true =>
        simp only [if_true] at hlen
        have hne : row ≠ [] := by intro hc; rw [hc] at hlen; simp at hlen
        refine ⟨row.dropLast, row.getLast hne, fun ρ => ?_⟩
        rw [← hv ρ]
        conv_lhs => rw [← List.dropLast_append_getLast hne]
        unfold stateVec rowVal
        rw [List.zipWith_append (by simp [hlen])]
        simp

/-- `2*x - y + 3` over the variables `x, y`. -/
example : extractLinear (.add [.mul [.num 2, .sym "x"], .mul [.num (-1), .sym "y"], .num (3 : ℚ)]) ["x", "y"] true
    = .ok [2, -1, 3] := by
  simp [extractLinear, extractRec, extractList, extractLeaf, varIndex, need, bump, bind, Except.bind, pure,
    Except.pure, List.idxOf, List.findIdx_cons]

/-- `x*y` is refused. -/
example : extractLinear (K := ℚ) (.mul [.sym "x", .sym "y"]) ["x", "y"] true = .error .runtime := by
  simp [extractLinear, extractRec, extractLeaf]

/-- `2 >= x` with a parser that reads `x - ( 2)`-like text as the tree sympy returns. -/
example : makeCondRow (K := ℚ) ⟨fun s _ _ => if s = " x - (2 )".toList then .ok (.add [.num (-2), .sym "x"])
    else .error .runtime⟩ ["x"] [] false "2 >= x".toList = .ok ([1], 2) := by
  have h1 : countPat '<' '=' "2 >= x".toList = 0 := by decide
  have h2 : countPat '>' '=' "2 >= x".toList = 1 := by decide
  have h3 : splitPat '>' '=' "2 >= x".toList = ("2 ".toList, " x".toList) := by decide
  have h4 : (" x".toList ++ " - (".toList ++ "2 ".toList ++ ")".toList) = " x - (2 )".toList := by decide
  simp only [makeCondRow, h1, h2, h3, Prod.swap, if_true, h4]
  simp [extractLinear, extractRec, extractList, extractLeaf, varIndex, need, bump, bind, Except.bind, pure,
    Except.pure, List.idxOf, List.findIdx_cons]

end Hylaa
