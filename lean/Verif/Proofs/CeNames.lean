import Verif.Model.Counterexample
import Mathlib.Data.List.Basic

/-! Column names and how `make_counterexample` reads them. -/

set_option linter.unusedSectionVars false

namespace Hylaa
variable {K : Type} [Field K] [LinearOrder K]

theorem hasSub_nil_of {c : Char} {q : List Char} : ∀ {l : List Char}, c ∉ l → hasSub (c :: q) l = false
  | [], _ => rfl
  | a :: l, h => by
    simp only [List.mem_cons, not_or] at h
    simp only [hasSub, List.isPrefixOf, hasSub_nil_of h.2, Bool.or_false, Bool.and_eq_false_imp]
    intro e
    exact absurd (by simpa using e) h.1

theorem hasSub_skip {c : Char} {q b : List Char} : ∀ {a : List Char}, c ∉ a →
    hasSub (c :: q) (a ++ b) = hasSub (c :: q) b
  | [], _ => rfl
  | x :: a, h => by
    simp only [List.mem_cons, not_or] at h
    have : (c == x) = false := by simpa using h.1
    rw [List.cons_append]
    simp only [hasSub, List.isPrefixOf, this, Bool.false_and, Bool.false_or]
    exact hasSub_skip h.2

theorem hasSub_at {c : Char} {q s : List Char} (h : c ∉ s) :
    hasSub (c :: q) (c :: s) = q.isPrefixOf s := by
  simp [hasSub, List.isPrefixOf, hasSub_nil_of h]

theorem pySplit_none {c : Char} : ∀ {l : List Char}, c ∉ l → pySplit c l = [l]
  | [], _ => rfl
  | a :: l, h => by
    simp only [List.mem_cons, not_or] at h
    simp only [pySplit, pySplit_none h.2]
    rw [if_neg fun e => h.1 e.symm]

theorem pySplit_append {c : Char} {b : List Char} : ∀ {a : List Char}, c ∉ a →
    pySplit c (a ++ c :: b) = a :: pySplit c b
  | [], _ => by simp [pySplit]
  | x :: a, h => by
    simp only [List.mem_cons, not_or] at h
    rw [List.cons_append]
    simp only [pySplit, pySplit_append h.2]
    rw [if_neg fun e => h.1 e.symm]

/-- Decimal digits. -/
abbrev dig (n : ℕ) : List Char := Nat.toDigits 10 n

theorem us_dig (n : ℕ) : '_' ∉ dig n := Nat.underscore_not_in_toDigits

theorem dig_isDigit (n : ℕ) : ∀ c ∈ dig n, c.isDigit = true := fun c hc =>
  Nat.isDigit_of_mem_toDigits (by decide) (by decide) hc

theorem pyInt_dig (n : ℕ) : pyInt (dig n) = .ok n := by
  unfold pyInt
  rw [if_pos]
  · rw [Nat.ofDigitChars_toDigits (by decide) (by decide)]
  · exact ⟨Nat.toDigits_ne_nil, List.all_eq_true.2 (dig_isDigit n)⟩

theorem dig_head (n : ℕ) (h : 0 < n) : ['0'].isPrefixOf (dig n) = false := by
  induction n using Nat.strongRecOn with
  | _ n ih =>
    by_cases hn : n < 10
    · rw [dig, Nat.toDigits_of_lt_base hn]
      simp only [List.isPrefixOf, Bool.and_true, beq_eq_false_iff_ne, ne_eq, Nat.zero_eq_digitChar]
      omega
    · have h2 := ih (n / 10) (by omega) (by omega)
      rw [dig, Nat.toDigits_of_base_le (by decide) (by omega)]
      have hne : dig (n / 10) ≠ [] := Nat.toDigits_ne_nil
      cases hq : dig (n / 10) with
      | nil => exact absurd hq hne
      | cons a l =>
        rw [hq] at h2
        have : Nat.toDigits 10 (n / 10) = a :: l := hq
        rw [this]
        simpa [List.isPrefixOf] using h2

/-! ### The names as lists of characters -/

/-- The name of a variable of a mode. -/
def mName (a : ℕ) (suffix : List Char) : List Char := 'm' :: (dig a ++ '_' :: suffix)

theorem name_i (a b : ℕ) : (s!"m{a}_i{b}").toList = mName a ('i' :: dig b) := by
  simp only [toString, String.toList_append, Nat.toList_repr, mName]; simp

theorem name_c (a b : ℕ) : (s!"m{a}_c{b}").toList = mName a ('c' :: dig b) := by
  simp only [toString, String.toList_append, Nat.toList_repr, mName]; simp

theorem name_I (a b : ℕ) : (s!"m{a}_I{b}").toList = mName a ('I' :: dig b) := by
  simp only [toString, String.toList_append, Nat.toList_repr, mName]; simp

theorem name_ti (a b : ℕ) : (s!"m{a}_ti{b}").toList = mName a ('t' :: 'i' :: dig b) := by
  simp only [toString, String.toList_append, Nat.toList_repr, mName]; simp

theorem name_it (a b : ℕ) : (s!"m{a}_i0_t{b}").toList = mName a ('i' :: '0' :: '_' :: 't' :: dig b) := by
  simp only [toString, String.toList_append, Nat.toList_repr, mName]; simp

theorem name_reset (b : ℕ) : (s!"reset{b}").toList = 'r' :: 'e' :: 's' :: 'e' :: 't' :: dig b := by
  simp only [toString, String.toList_append, Nat.toList_repr]; simp

theorem mName_m (a : ℕ) (s : List Char) : "m".toList.isPrefixOf (mName a s) = true := by
  simp [mName, List.isPrefixOf]

theorem mName_sub (a : ℕ) {s q : List Char} (hs : '_' ∉ s) :
    hasSub ('_' :: q) (mName a s) = q.isPrefixOf s := by
  have : mName a s = ('m' :: dig a) ++ ('_' :: s) := by simp [mName]
  rw [this, hasSub_skip, hasSub_at hs]
  simp only [List.mem_cons, not_or]
  exact ⟨by decide, us_dig a⟩

theorem sub_it (a b : ℕ) (q : List Char) (hq : q.isPrefixOf ['t'] = false)
    (hq2 : '_' ∉ q) (h0 : ∀ l : List Char, q.isPrefixOf ('t' :: l) = false) :
    hasSub ('_' :: q) (mName a ('i' :: '0' :: '_' :: 't' :: dig b)) =
      q.isPrefixOf ('i' :: '0' :: '_' :: 't' :: dig b) := by
  have : mName a ('i' :: '0' :: '_' :: 't' :: dig b) =
      ('m' :: dig a) ++ ('_' :: 'i' :: '0' :: '_' :: 't' :: dig b) := by simp [mName]
  rw [this, hasSub_skip]
  · have h2 : hasSub ('_' :: q) ('i' :: '0' :: ('_' :: 't' :: dig b)) = false := by
      have := hasSub_skip (c := '_') (q := q) (b := '_' :: 't' :: dig b) (a := ['i', '0']) (by decide)
      simp only [List.cons_append, List.nil_append] at this
      rw [this, hasSub_at]
      · exact h0 _
      · simp only [List.mem_cons, not_or]; exact ⟨by decide, us_dig b⟩
    rw [hasSub, h2]
    simp [List.isPrefixOf]
  · simp only [List.mem_cons, not_or]; exact ⟨by decide, us_dig a⟩

/-! ### What one name does -/

theorem us_suffix (c : Char) (hc : c ≠ '_') (b : ℕ) : '_' ∉ c :: dig b := by
  simp only [List.mem_cons, not_or]; exact ⟨fun h => hc h.symm, us_dig b⟩

theorem sub_i0 : "_i0".toList = '_' :: ['i', '0'] := by simp
theorem sub_i : "_i".toList = '_' :: ['i'] := by simp
theorem sub_c : "_c".toList = '_' :: ['c'] := by simp
theorem sub_I : "_I".toList = '_' :: ['I'] := by simp
theorem sub_I0 : "_I0".toList = '_' :: ['I', '0'] := by simp

/-- A name that opens no segment. -/
theorem ceOpen_skip {ha : HA K} {nums : List ℕ} {segs : List (CeSeg K)} {cs : List Char}
    (h : hasSub "_i0".toList cs = false) : ceOpen ha nums segs cs = .ok segs := by
  unfold ceOpen
  rw [h, Bool.and_false]
  simp

theorem ceBind_ok {α β : Type} (a : α) (f : α → Except Err β) : (Except.ok a >>= f) = f a := rfl

theorem modLast_snoc (f : CeSeg K → Except Err (CeSeg K)) (l : List (CeSeg K)) (s : CeSeg K) :
    modLast f (l ++ [s]) = (f s).map fun s' => l ++ [s'] := by
  unfold modLast
  simp only [List.getLast?_append, List.getLast?_singleton, Option.some_or, needSome,
    List.dropLast_concat, ceBind_ok]
  cases f s <;> rfl

/-- One name and value. -/
def ceOne (ha : HA K) (nums : List ℕ) (segs : List (CeSeg K)) (cs : List Char) (v : K) :
    Except Err (List (CeSeg K)) := do
  let segs ← ceOpen ha nums segs cs
  ceStore segs cs v

theorem ceOne_i {ha : HA K} {nums : List ℕ} {l : List (CeSeg K)} {s : CeSeg K} (a b : ℕ) (v : K) :
    ceOne ha nums (l ++ [s]) (mName a ('i' :: dig (b + 1))) v =
      .ok (l ++ [{ s with start := s.start ++ [v] }]) := by
  have hu := us_suffix 'i' (by decide) (b + 1)
  have h1 : hasSub "_i0".toList (mName a ('i' :: dig (b + 1))) = false := by
    rw [sub_i0, mName_sub a hu]
    have := dig_head (b + 1) (by omega)
    simpa [List.isPrefixOf] using this
  have h2 : hasSub "_i".toList (mName a ('i' :: dig (b + 1))) = true := by
    rw [sub_i, mName_sub a hu]; simp [List.isPrefixOf]
  unfold ceOne
  rw [ceOpen_skip h1]
  rw [ceBind_ok]
  unfold ceStore
  rw [if_pos (mName_m _ _), if_pos h2, modLast_snoc]
  rfl

theorem ceOne_c {ha : HA K} {nums : List ℕ} {l : List (CeSeg K)} {s : CeSeg K} (a b : ℕ) (v : K) :
    ceOne ha nums (l ++ [s]) (mName a ('c' :: dig b)) v =
      .ok (l ++ [{ s with fin := s.fin ++ [v] }]) := by
  have hu := us_suffix 'c' (by decide) b
  have h1 : hasSub "_i0".toList (mName a ('c' :: dig b)) = false := by
    rw [sub_i0, mName_sub a hu]; simp [List.isPrefixOf]
  have h2 : hasSub "_i".toList (mName a ('c' :: dig b)) = false := by
    rw [sub_i, mName_sub a hu]; simp [List.isPrefixOf]
  have h3 : hasSub "_c".toList (mName a ('c' :: dig b)) = true := by
    rw [sub_c, mName_sub a hu]; simp [List.isPrefixOf]
  unfold ceOne
  rw [ceOpen_skip h1]
  rw [ceBind_ok]
  unfold ceStore
  rw [if_pos (mName_m _ _), h2, if_neg (by simp), if_pos h3, modLast_snoc]
  rfl

theorem ceOne_ti {ha : HA K} {nums : List ℕ} {l : List (CeSeg K)} (a b : ℕ) (v : K) :
    ceOne ha nums l (mName a ('t' :: 'i' :: dig b)) v = .ok l := by
  have hu : '_' ∉ 't' :: 'i' :: dig b := by
    simp only [List.mem_cons, not_or]; exact ⟨by decide, by decide, us_dig b⟩
  have h : ∀ q : List Char, ∀ c, c ≠ 't' → hasSub ('_' :: c :: q) (mName a ('t' :: 'i' :: dig b)) = false := by
    intro q c hc
    rw [mName_sub a hu]
    simp [List.isPrefixOf, hc]
  unfold ceOne
  rw [ceOpen_skip (by rw [sub_i0]; exact h _ _ (by decide))]
  rw [ceBind_ok]
  unfold ceStore
  rw [if_pos (mName_m _ _), sub_i, h _ _ (by decide), sub_c, h _ _ (by decide), sub_I, h _ _ (by decide)]
  simp

theorem ceOne_I0 {ha : HA K} {nums : List ℕ} {l : List (CeSeg K)} {s : CeSeg K} (a : ℕ) (v : K) :
    ceOne ha nums (l ++ [s]) (mName a ('I' :: dig 0)) v =
      .ok (l ++ [{ s with inputs := [v] :: s.inputs }]) := by
  have hu := us_suffix 'I' (by decide) 0
  have h : ∀ q : List Char, ∀ c, c ≠ 'I' → hasSub ('_' :: c :: q) (mName a ('I' :: dig 0)) = false := by
    intro q c hc
    rw [mName_sub a hu]
    simp [List.isPrefixOf, hc]
  have h3 : hasSub "_I".toList (mName a ('I' :: dig 0)) = true := by
    rw [sub_I, mName_sub a hu]; simp [List.isPrefixOf]
  have h4 : hasSub "_I0".toList (mName a ('I' :: dig 0)) = true := by
    rw [sub_I0, mName_sub a hu]; simp [List.isPrefixOf, dig]
  unfold ceOne
  rw [ceOpen_skip (by rw [sub_i0]; exact h _ _ (by decide))]
  rw [ceBind_ok]
  unfold ceStore
  rw [if_pos (mName_m _ _), sub_i, h _ _ (by decide), sub_c, h _ _ (by decide), if_neg (by simp),
    if_neg (by simp), if_pos h3, modLast_snoc, h4]
  simp only [if_true]
  rfl

theorem ceOne_I {ha : HA K} {nums : List ℕ} {l : List (CeSeg K)} {s : CeSeg K} {u : List K}
    {us : List (List K)} (hs : s.inputs = u :: us) (a b : ℕ) (v : K) :
    ceOne ha nums (l ++ [s]) (mName a ('I' :: dig (b + 1))) v =
      .ok (l ++ [{ s with inputs := (u ++ [v]) :: us }]) := by
  have hu := us_suffix 'I' (by decide) (b + 1)
  have h : ∀ q : List Char, ∀ c, c ≠ 'I' → hasSub ('_' :: c :: q) (mName a ('I' :: dig (b + 1))) = false := by
    intro q c hc
    rw [mName_sub a hu]
    simp [List.isPrefixOf, hc]
  have h3 : hasSub "_I".toList (mName a ('I' :: dig (b + 1))) = true := by
    rw [sub_I, mName_sub a hu]; simp [List.isPrefixOf]
  have h4 : hasSub "_I0".toList (mName a ('I' :: dig (b + 1))) = false := by
    rw [sub_I0, mName_sub a hu]
    have := dig_head (b + 1) (by omega)
    simpa [List.isPrefixOf] using this
  unfold ceOne
  rw [ceOpen_skip (by rw [sub_i0]; exact h _ _ (by decide))]
  rw [ceBind_ok]
  unfold ceStore
  rw [if_pos (mName_m _ _), sub_i, h _ _ (by decide), sub_c, h _ _ (by decide), if_neg (by simp),
    if_neg (by simp), if_pos h3, modLast_snoc, h4]
  simp only [Bool.false_eq_true, if_false, hs]
  rfl

theorem ceOne_reset {ha : HA K} {nums : List ℕ} {l : List (CeSeg K)} {s : CeSeg K} (b : ℕ) (v : K) :
    ceOne ha nums (l ++ [s]) ('r' :: 'e' :: 's' :: 'e' :: 't' :: dig b) v =
      .ok (l ++ [{ s with mink := s.mink ++ [v] }]) := by
  have h1 : "m".toList.isPrefixOf ('r' :: 'e' :: 's' :: 'e' :: 't' :: dig b) = false := by
    simp [List.isPrefixOf]
  have h2 : "reset".toList.isPrefixOf ('r' :: 'e' :: 's' :: 'e' :: 't' :: dig b) = true := by
    simp [List.isPrefixOf]
  unfold ceOne ceOpen
  rw [h1, Bool.false_and, if_neg (by simp), ceBind_ok]
  unfold ceStore
  rw [h1, if_neg (by simp), if_pos h2, modLast_snoc]
  rfl

theorem ceOne_open {ha : HA K} {nums : List ℕ} {a mode : ℕ}
    (hm : ha.modes.findIdx? (fun m => decide (m.id = a)) = some mode) (v : K) :
    ceOne ha nums [] (mName a ('i' :: dig 0)) v = (do
      let k ← needSome nums[0]?
      return [{ mode := mode, steps := k, start := [v] }]) := by
  have hd : dig 0 = ['0'] := Nat.toDigits_zero 10
  rw [hd]
  have hu : '_' ∉ ['i', '0'] := by decide
  have hs : pySplit '_' (mName a ['i', '0']) = ['m' :: dig a, ['i', '0']] := by
    have : mName a ['i', '0'] = ('m' :: dig a) ++ ('_' :: ['i', '0']) := by simp [mName]
    rw [this, pySplit_append, pySplit_none hu]
    simp only [List.mem_cons, not_or]; exact ⟨by decide, us_dig a⟩
  have h0 : hasSub "_i0".toList (mName a ['i', '0']) = true := by
    rw [sub_i0, mName_sub a hu]; simp [List.isPrefixOf]
  have h1 : hasSub "_i".toList (mName a ['i', '0']) = true := by
    rw [sub_i, mName_sub a hu]; simp [List.isPrefixOf]
  unfold ceOne ceOpen
  rw [mName_m, h0, Bool.and_self, if_pos rfl]
  simp only [hs, List.length_nil]
  cases nums[0]? with
  | none => rfl
  | some k =>
    simp only [needSome, ceBind_ok, List.length_cons, List.length_nil, Nat.zero_add, Nat.reduceAdd,
      if_true, assert, List.getD_cons_zero, List.drop_one, List.tail_cons, pyInt_dig, hm, pure,
      Except.pure, List.nil_append]
    unfold ceStore
    rw [if_pos (mName_m _ _), if_pos h1]
    exact modLast_snoc _ [] _

theorem ceOne_via {ha : HA K} {nums : List ℕ} {l : List (CeSeg K)} {p : CeSeg K} {a mode t ti : ℕ}
    {L : List ℕ} (hm : ha.modes.findIdx? (fun m => decide (m.id = a)) = some mode)
    (ho : ha.out[p.mode]? = some L) (ht : L[t]? = some ti) (v : K) :
    ceOne ha nums (l ++ [p]) (mName a ('i' :: '0' :: '_' :: 't' :: dig t)) v = (do
      let k ← needSome nums[l.length + 1]?
      return (l ++ [{ p with out := some ti }]) ++ [{ mode := mode, steps := k, start := [v] }]) := by
  have hs : pySplit '_' (mName a ('i' :: '0' :: '_' :: 't' :: dig t)) =
      ['m' :: dig a, ['i', '0'], 't' :: dig t] := by
    have : mName a ('i' :: '0' :: '_' :: 't' :: dig t) =
        ('m' :: dig a) ++ ('_' :: (['i', '0'] ++ '_' :: ('t' :: dig t))) := by simp [mName]
    rw [this, pySplit_append, pySplit_append, pySplit_none]
    · simp only [List.mem_cons, not_or]; exact ⟨by decide, us_dig t⟩
    · decide
    · simp only [List.mem_cons, not_or]; exact ⟨by decide, us_dig a⟩
  have h0 : hasSub "_i0".toList (mName a ('i' :: '0' :: '_' :: 't' :: dig t)) = true := by
    rw [sub_i0, sub_it a t _ (by simp [List.isPrefixOf]) (by decide) (by intro l; simp [List.isPrefixOf])]
    simp [List.isPrefixOf]
  have h1 : hasSub "_i".toList (mName a ('i' :: '0' :: '_' :: 't' :: dig t)) = true := by
    rw [sub_i, sub_it a t _ (by simp [List.isPrefixOf]) (by decide) (by intro l; simp [List.isPrefixOf])]
    simp [List.isPrefixOf]
  unfold ceOne ceOpen
  rw [mName_m, h0, Bool.and_self, if_pos rfl]
  simp only [hs, List.length_append, List.length_cons, List.length_nil, Nat.zero_add]
  cases nums[l.length + 1]? with
  | none => rfl
  | some k =>
    simp only [needSome, ceBind_ok, Nat.reduceAdd, assert, List.getD_cons_zero, List.drop_one,
      List.tail_cons, pyInt_dig, hm, pure, Except.pure, modLast_snoc, List.getD_cons_succ, ho, ht,
      Except.map, if_true]
    rw [if_neg (by decide)]
    simp only [ceBind_ok]
    unfold ceStore
    rw [if_pos (mName_m _ _), if_pos h1, modLast_snoc]
    rfl

/-! ### Runs of names -/

/-- Names with the values of their columns. -/
def tag : List String → (ℕ → K) → ℕ → List (String × K)
  | [], _, _ => []
  | s :: l, v, off => (s, v off) :: tag l v (off + 1)

theorem tag_append (v : ℕ → K) : ∀ (a b : List String) (off : ℕ),
    tag (a ++ b) v off = tag a v off ++ tag b v (off + a.length)
  | [], b, off => rfl
  | s :: a, b, off => by
    simp only [List.cons_append, tag, tag_append v a b (off + 1), List.length_cons]
    rw [Nat.add_right_comm, Nat.add_assoc]

theorem zip_tag (v : ℕ → K) : ∀ (l : List String) (off : ℕ),
    l.zip ((List.range l.length).map fun i => v (off + i)) = tag l v off
  | [], off => rfl
  | s :: l, off => by
    simp only [List.length_cons, List.range_succ_eq_map, List.map_cons, List.map_map, List.zip_cons_cons,
      tag, Nat.add_zero]
    congr 1
    rw [← zip_tag v l (off + 1)]
    congr 1
    apply List.map_congr_left
    intro i _
    simp only [Function.comp]
    congr 1; omega

theorem ceLoop_cons {ha : HA K} {nums : List ℕ} {s : String} {v : K} {l : List (String × K)}
    {segs : List (CeSeg K)} :
    ceLoop ha nums ((s, v) :: l) segs = (ceOne ha nums segs s.toList v >>= ceLoop ha nums l) := by
  simp only [ceLoop, ceOne]
  cases ceOpen ha nums segs s.toList <;> rfl

theorem ceLoop_append {ha : HA K} {nums : List ℕ} : ∀ (a b : List (String × K)) (segs : List (CeSeg K)),
    ceLoop ha nums (a ++ b) segs = (ceLoop ha nums a segs >>= ceLoop ha nums b)
  | [], b, segs => rfl
  | (s, v) :: a, b, segs => by
    rw [List.cons_append, ceLoop_cons, ceLoop_cons]
    cases ceOne ha nums segs s.toList v with
    | error e => rfl
    | ok r => exact ceLoop_append a b r

/-- The values of `c` columns. -/
def vals (v : ℕ → K) (off c : ℕ) : List K := (List.range c).map fun i => v (off + i)

theorem vals_succ (v : ℕ → K) (off c : ℕ) : vals v off (c + 1) = v off :: vals v (off + 1) c := by
  simp only [vals, List.range_succ_eq_map, List.map_cons, List.map_map, Nat.add_zero]
  congr 1
  apply List.map_congr_left
  intro i _
  simp only [Function.comp]
  congr 1; omega

theorem ceLoop_is {ha : HA K} {nums : List ℕ} {l : List (CeSeg K)} {v : ℕ → K} {a : ℕ} :
    ∀ (L : List String) (off : ℕ) (s : CeSeg K),
    (∀ x ∈ L, ∃ b, x.toList = mName a ('i' :: dig (b + 1))) →
    ceLoop ha nums (tag L v off) (l ++ [s]) =
      .ok (l ++ [{ s with start := s.start ++ vals v off L.length }])
  | [], off, s, _ => by simp [tag, ceLoop, vals]
  | x :: L, off, s, h => by
    obtain ⟨b, hb⟩ := h x (by simp)
    rw [tag, ceLoop_cons, hb, ceOne_i, ceBind_ok, ceLoop_is L _ _ fun y hy => h y (by simp [hy])]
    simp [vals_succ]

theorem ceLoop_cs {ha : HA K} {nums : List ℕ} {l : List (CeSeg K)} {v : ℕ → K} {a : ℕ} :
    ∀ (L : List String) (off : ℕ) (s : CeSeg K),
    (∀ x ∈ L, ∃ b, x.toList = mName a ('c' :: dig b)) →
    ceLoop ha nums (tag L v off) (l ++ [s]) =
      .ok (l ++ [{ s with fin := s.fin ++ vals v off L.length }])
  | [], off, s, _ => by simp [tag, ceLoop, vals]
  | x :: L, off, s, h => by
    obtain ⟨b, hb⟩ := h x (by simp)
    rw [tag, ceLoop_cons, hb, ceOne_c, ceBind_ok, ceLoop_cs L _ _ fun y hy => h y (by simp [hy])]
    simp [vals_succ]

theorem ceLoop_tis {ha : HA K} {nums : List ℕ} {l : List (CeSeg K)} {v : ℕ → K} {a : ℕ} :
    ∀ (L : List String) (off : ℕ), (∀ x ∈ L, ∃ b, x.toList = mName a ('t' :: 'i' :: dig b)) →
    ceLoop ha nums (tag L v off) l = .ok l
  | [], off, _ => rfl
  | x :: L, off, h => by
    obtain ⟨b, hb⟩ := h x (by simp)
    rw [tag, ceLoop_cons, hb, ceOne_ti, ceBind_ok, ceLoop_tis L _ fun y hy => h y (by simp [hy])]

theorem ceLoop_resets {ha : HA K} {nums : List ℕ} {l : List (CeSeg K)} {v : ℕ → K} :
    ∀ (L : List String) (off : ℕ) (s : CeSeg K),
    (∀ x ∈ L, ∃ b, x.toList = 'r' :: 'e' :: 's' :: 'e' :: 't' :: dig b) →
    ceLoop ha nums (tag L v off) (l ++ [s]) =
      .ok (l ++ [{ s with mink := s.mink ++ vals v off L.length }])
  | [], off, s, _ => by simp [tag, ceLoop, vals]
  | x :: L, off, s, h => by
    obtain ⟨b, hb⟩ := h x (by simp)
    rw [tag, ceLoop_cons, hb, ceOne_reset, ceBind_ok, ceLoop_resets L _ _ fun y hy => h y (by simp [hy])]
    simp [vals_succ]

theorem ceLoop_Itail {ha : HA K} {nums : List ℕ} {l : List (CeSeg K)} {v : ℕ → K} {a : ℕ} :
    ∀ (L : List String) (off : ℕ) (s : CeSeg K) (u : List K) (us : List (List K)), s.inputs = u :: us →
    (∀ x ∈ L, ∃ b, x.toList = mName a ('I' :: dig (b + 1))) →
    ceLoop ha nums (tag L v off) (l ++ [s]) =
      .ok (l ++ [{ s with inputs := (u ++ vals v off L.length) :: us }])
  | [], off, s, u, us, hs, _ => by simp [tag, ceLoop, vals, ← hs]
  | x :: L, off, s, u, us, hs, h => by
    obtain ⟨b, hb⟩ := h x (by simp)
    rw [tag, ceLoop_cons, hb, ceOne_I hs, ceBind_ok, ceLoop_Itail L _ _ (u ++ [v off]) us rfl
      fun y hy => h y (by simp [hy])]
    simp [vals_succ]

/-- Names of one step's inputs. -/
def inNames (a m : ℕ) : List String := (List.range m).map fun i => s!"m{a}_I{i}"

theorem ceLoop_in {ha : HA K} {nums : List ℕ} {l : List (CeSeg K)} {v : ℕ → K} {a m : ℕ} (off : ℕ)
    (s : CeSeg K) :
    ceLoop ha nums (tag (inNames a (m + 1)) v off) (l ++ [s]) =
      .ok (l ++ [{ s with inputs := vals v off (m + 1) :: s.inputs }]) := by
  have e : inNames a (m + 1) = s!"m{a}_I{0}" :: (List.range m).map fun i => s!"m{a}_I{i + 1}" := by
    simp only [inNames, List.range_succ_eq_map, List.map_cons, List.map_map]
    rfl
  rw [e, tag, ceLoop_cons, name_I, ceOne_I0, ceBind_ok, ceLoop_Itail _ _ _ [v off] s.inputs rfl]
  · simp [vals_succ]
  · intro x hx
    simp only [List.mem_map] at hx
    obtain ⟨b, -, rfl⟩ := hx
    exact ⟨b, name_I a (b + 1)⟩

theorem ceLoop_ins {ha : HA K} {nums : List ℕ} {l : List (CeSeg K)} {v : ℕ → K} {a m : ℕ} (hm : 0 < m) :
    ∀ (k off : ℕ) (s : CeSeg K),
    ceLoop ha nums (tag (List.replicate k (inNames a m)).flatten v off) (l ++ [s]) =
      .ok (l ++ [{ s with inputs := ((List.range k).map fun j => vals v (off + m * j) m).reverse ++
        s.inputs }])
  | 0, off, s => by simp [tag, ceLoop]
  | k + 1, off, s => by
    obtain ⟨m, rfl⟩ : ∃ j, m = j + 1 := ⟨m - 1, by omega⟩
    rw [List.replicate_succ, List.flatten_cons, tag_append, ceLoop_append, ceLoop_in, ceBind_ok,
      ceLoop_ins hm k]
    congr 3
    simp only [inNames, List.length_map, List.length_range]
    rw [show List.range (k + 1) = 0 :: (List.range k).map (· + 1) by rw [List.range_succ_eq_map]]
    simp only [List.map_cons, List.map_map, List.reverse_cons, List.append_assoc, Nat.mul_zero,
      Nat.add_zero, List.singleton_append]
    congr 3
    apply List.map_congr_left
    intro j _
    simp only [Function.comp]
    congr 1; ring

end Hylaa
