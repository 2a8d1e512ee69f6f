import Verif.Proofs.Grow

/-! The column names of an LP along a path of modes, and the segments read off a solution. -/

set_option linter.unusedSectionVars false

namespace Hylaa
variable {K : Type} [Field K] [LinearOrder K]

/-- The columns of one mode of a path: `w` initial variables, `n` current variables, `n` total-input
variables if `ti`, `m` inputs for each of `k` steps, `r` variables of the reset leaving the mode. -/
structure Blk where
  mode : ℕ
  id : ℕ
  via : Option ℕ
  w : ℕ
  n : ℕ
  ti : Bool
  m : ℕ
  k : ℕ
  r : ℕ := 0
  out : Option ℕ := none
  steps : ℕ := 0

def Blk.head (b : Blk) : String :=
  match b.via with
  | none => s!"m{b.id}_i{0}"
  | some t => s!"m{b.id}_i0_t{t}"

def Blk.names (b : Blk) : List String :=
  ([b.head] ++ (List.range (b.w - 1)).map (fun d => s!"m{b.id}_i{d + 1}")) ++
    ((List.range b.n).map (fun d => s!"m{b.id}_c{d}") ++
    ((if b.ti then (List.range b.n).map (fun d => s!"m{b.id}_ti{d}") else []) ++
    (insNames b.id b.m b.k ++ (List.range b.r).map fun d => s!"reset{d}")))

/-- First input column. -/
def Blk.ino (b : Blk) : ℕ := b.w + b.n + (if b.ti then b.n else 0)

def Blk.len (b : Blk) : ℕ := b.ino + b.m * b.k + b.r

def Blk.seg (b : Blk) (v : ℕ → K) (off : ℕ) : CeSeg K where
  mode := b.mode
  steps := b.steps
  start := vals v off b.w
  fin := vals v (off + b.w) b.n
  out := b.out
  mink := vals v (off + (b.ino + b.m * b.k)) b.r
  inputs := ((List.range b.k).map fun j => vals v (off + b.ino + b.m * j) b.m).reverse

structure Blk.Ok (ha : HA K) (b : Blk) : Prop where
  w : 0 < b.w
  km : 0 < b.k → 0 < b.m
  find : ha.modes.findIdx? (fun m => decide (m.id = b.id)) = some b.mode

theorem insNames_length (id m k : ℕ) : (insNames id m k).length = m * k := by
  induction k with
  | zero => rfl
  | succ k ih => rw [insNames_succ, List.length_append, ih]; simp [inNames]; ring

theorem Blk.names_length {ha : HA K} {b : Blk} (h : b.Ok ha) : b.names.length = b.len := by
  have := h.w
  unfold Blk.names Blk.len Blk.ino
  simp only [List.length_append, List.length_map, List.length_range, List.length_cons,
    List.length_nil, insNames_length]
  split <;> simp <;> omega

def namesOf (l : List Blk) : List String := l.flatMap Blk.names

def segsOf (v : ℕ → K) : List Blk → ℕ → List (CeSeg K)
  | [], _ => []
  | b :: l, off => b.seg v off :: segsOf v l (off + b.len)

theorem segsOf_append (v : ℕ → K) : ∀ (a b : List Blk) (off : ℕ),
    segsOf v (a ++ b) off = segsOf v a off ++ segsOf v b (off + (a.map Blk.len).sum)
  | [], b, off => by simp [segsOf]
  | x :: a, b, off => by
    simp only [List.cons_append, segsOf, segsOf_append v a b, List.map_cons, List.sum_cons]
    rw [Nat.add_assoc]

theorem segsOf_length (v : ℕ → K) : ∀ (a : List Blk) (off : ℕ), (segsOf v a off).length = a.length
  | [], _ => rfl
  | x :: a, off => by simp [segsOf, segsOf_length v a]

theorem namesOf_length {ha : HA K} {l : List Blk} (h : ∀ b ∈ l, b.Ok ha) :
    (namesOf l).length = (l.map Blk.len).sum := by
  induction l with
  | nil => rfl
  | cons b l ih =>
    simp only [namesOf, List.flatMap_cons, List.length_append, List.map_cons, List.sum_cons]
    rw [Blk.names_length (h b (by simp))]
    rw [← ih fun c hc => h c (by simp [hc])]
    rfl

/-- The last segment's transition is not known yet. -/
def openLast (l : List (CeSeg K)) : List (CeSeg K) :=
  match l.getLast? with
  | none => []
  | some s => l.dropLast ++ [{ s with out := none }]

theorem openLast_snoc (l : List (CeSeg K)) (s : CeSeg K) :
    openLast (l ++ [s]) = l ++ [{ s with out := none }] := by
  simp [openLast]

/-- The names of a block after its first. -/
theorem ceLoop_tail {ha : HA K} {nums : List ℕ} {l : List (CeSeg K)} {v : ℕ → K} {b : Blk}
    (hb : b.Ok ha) (off : ℕ) :
    ceLoop ha nums (tag ((List.range (b.w - 1)).map (fun d => s!"m{b.id}_i{d + 1}") ++
      ((List.range b.n).map (fun d => s!"m{b.id}_c{d}") ++
      ((if b.ti then (List.range b.n).map (fun d => s!"m{b.id}_ti{d}") else []) ++
      (insNames b.id b.m b.k ++ (List.range b.r).map fun d => s!"reset{d}")))) v (off + 1))
      (l ++ [{ mode := b.mode, steps := b.steps, start := [v off] }]) =
    .ok (l ++ [{ b.seg v off with out := none }]) := by
  have hw := hb.w
  have tl : ∀ (L : List String), (∀ x ∈ L, ∃ c, x.toList = mName b.id ('t' :: 'i' :: dig c)) →
      ∀ off segs, ceLoop ha nums (tag L v off) segs = .ok segs :=
    fun L h off segs => ceLoop_tis L off h
  rw [tag_append, ceLoop_append, ceLoop_is (a := b.id), ceBind_ok]
  · rw [tag_append, ceLoop_append, ceLoop_cs (a := b.id), ceBind_ok]
    · rw [tag_append, ceLoop_append, tl, ceBind_ok]
      · rw [tag_append, ceLoop_append]
        have hins : ∀ (o : ℕ) (s : CeSeg K), s.inputs = [] →
            ceLoop ha nums (tag (insNames b.id b.m b.k) v o) (l ++ [s]) =
            .ok (l ++ [{ s with inputs := ((List.range b.k).map fun j => vals v (o + b.m * j) b.m).reverse }]) := by
          intro o s hs
          by_cases hk : 0 < b.k
          · rw [insNames, ceLoop_ins (hb.km hk), hs, List.append_nil]
          · have : b.k = 0 := by omega
            rw [this]
            simp [insNames, tag, ceLoop]
            rw [← hs]
        rw [hins _ _ rfl, ceBind_ok, ceLoop_resets]
        · congr 3
          have e1 : 1 + (b.w - 1) = b.w := by omega
          simp only [Blk.seg, List.length_map, List.length_range, List.nil_append, insNames_length]
          obtain ⟨w, hw'⟩ : ∃ w, b.w = w + 1 := ⟨b.w - 1, by omega⟩
          have e2 : (if b.ti = true then (List.range b.n).map fun d => s!"m{b.id}_ti{d}" else []).length =
              if b.ti = true then b.n else 0 := by split <;> simp
          have e3 : off + 1 + (b.w - 1) = off + b.w := by omega
          have e4 : off + b.w + b.n + (if b.ti = true then b.n else 0) = off + b.ino := by
            unfold Blk.ino; omega
          rw [e2, e3, e4, Nat.add_assoc off b.ino]
          congr 1
          rw [hw', vals_succ]
          simp
        · intro x hx
          simp only [List.mem_map] at hx
          obtain ⟨c, -, rfl⟩ := hx
          exact ⟨c, name_reset c⟩
      · intro x hx
        split at hx
        · simp only [List.mem_map] at hx
          obtain ⟨c, -, rfl⟩ := hx
          exact ⟨c, name_ti _ c⟩
        · simp at hx
    · intro x hx
      simp only [List.mem_map] at hx
      obtain ⟨c, -, rfl⟩ := hx
      exact ⟨c, name_c _ c⟩
  · intro x hx
    simp only [List.mem_map] at hx
    obtain ⟨c, -, rfl⟩ := hx
    exact ⟨c, name_i _ (c + 1)⟩

/-- `b` follows the segment `s`. -/
def BlkFollows (ha : HA K) (mode : ℕ) (out : Option ℕ) (b : Blk) : Prop :=
  ∃ t ti L, b.via = some t ∧ out = some ti ∧ ha.out[mode]? = some L ∧ L[t]? = some ti

def LinkedFrom (ha : HA K) : ℕ → Option ℕ → List Blk → Prop
  | _, _, [] => True
  | mode, out, b :: l => BlkFollows ha mode out b ∧ LinkedFrom ha b.mode b.out l

/-- The first block has no transition before it, the others follow each other. -/
def Linked (ha : HA K) : List Blk → Prop
  | [] => True
  | b :: l => b.via = none ∧ LinkedFrom ha b.mode b.out l

theorem ceLoop_from {ha : HA K} {nums : List ℕ} {v : ℕ → K} : ∀ (l : List Blk) (off : ℕ)
    (acc : List (CeSeg K)) (p : CeSeg K), (∀ b ∈ l, b.Ok ha) → LinkedFrom ha p.mode p.out l →
    (∀ (i : ℕ) b, l[i]? = some b → nums[acc.length + 1 + i]? = some b.steps) →
    ceLoop ha nums (tag (namesOf l) v off) (openLast (acc ++ [p])) =
      .ok (openLast (acc ++ [p] ++ segsOf v l off))
  | [], off, acc, p, _, _, _ => by simp [namesOf, tag, ceLoop, segsOf]
  | b :: l, off, acc, p, hok, hl, hn => by
    obtain ⟨⟨t, ti, L, h1, h2, h3, h4⟩, hl'⟩ := hl
    have hb := hok b (by simp)
    have hlen : (namesOf (b :: l)) = b.names ++ namesOf l := by simp [namesOf]
    rw [hlen, tag_append, ceLoop_append, Blk.names_length hb, openLast_snoc]
    have hs := hn 0 b rfl
    rw [Nat.add_zero] at hs
    have key : ceLoop ha nums (tag b.names v off) (acc ++ [{ p with out := none }]) =
        .ok (openLast ((acc ++ [p]) ++ [b.seg v off])) := by
      unfold Blk.names
      rw [List.append_assoc, List.singleton_append, tag, ceLoop_cons]
      have hh : b.head.toList = mName b.id ('i' :: '0' :: '_' :: 't' :: dig t) := by
        unfold Blk.head; rw [h1]; exact name_it _ _
      rw [hh, ceOne_via hb.find (p := { p with out := none }) h3 h4, hs]
      simp only [needSome, ceBind_ok, pure, Except.pure]
      have := ceLoop_tail (nums := nums) (l := acc ++ [{ p with out := some ti }]) (v := v) hb off
      rw [this, openLast_snoc, ← h2]
    rw [key, ceBind_ok, ceLoop_from l (off + b.len) (acc ++ [p]) (b.seg v off)
      (fun c hc => hok c (by simp [hc])) hl']
    · simp [segsOf]
    · intro i c hc
      have := hn (i + 1) c hc
      rw [← this]; congr 1
      simp; omega

/-- **Reading a solution along a path.** -/
theorem ceLoop_path {ha : HA K} {nums : List ℕ} {v : ℕ → K} {l : List Blk} (hok : ∀ b ∈ l, b.Ok ha)
    (hl : Linked ha l) (hn : ∀ (i : ℕ) b, l[i]? = some b → nums[i]? = some b.steps) :
    ceLoop ha nums (tag (namesOf l) v 0) [] = .ok (openLast (segsOf v l 0)) := by
  cases l with
  | nil => rfl
  | cons b l =>
    have hb := hok b (by simp)
    obtain ⟨h1, hl'⟩ := hl
    have hlen : (namesOf (b :: l)) = b.names ++ namesOf l := by simp [namesOf]
    rw [hlen, tag_append, ceLoop_append, Blk.names_length hb]
    have hs := hn 0 b rfl
    have key : ceLoop ha nums (tag b.names v 0) [] = .ok (openLast ([] ++ [b.seg v 0])) := by
      unfold Blk.names
      rw [List.append_assoc, List.singleton_append, tag, ceLoop_cons]
      have hh : b.head.toList = mName b.id ('i' :: dig 0) := by
        unfold Blk.head; rw [h1]; exact name_i _ _
      rw [hh, ceOne_open hb.find, hs]
      simp only [needSome, ceBind_ok, pure, Except.pure]
      have := ceLoop_tail (nums := nums) (l := []) (v := v) hb 0
      rw [List.nil_append] at this
      rw [this, openLast_snoc]
      try rfl
    rw [key, ceBind_ok, ceLoop_from l (0 + b.len) [] (b.seg v 0) (fun c hc => hok c (by simp [hc])) hl']
    · simp [segsOf]
    · intro i c hc
      have := hn (i + 1) c hc
      rw [← this]; congr 1
      simp; omega

end Hylaa
