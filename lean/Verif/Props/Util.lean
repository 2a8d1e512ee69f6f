import Verif.Model.Util
import Verif.Proofs.Inv
import Mathlib.Algebra.Order.Floor.Ring
import Mathlib.Data.Rat.Floor
import Mathlib.Tactic.FieldSimp

/-!
# C30, C46–C49: settings, timers, frozen objects, leak accounting, stored plots
-/

set_option linter.unusedSectionVars false

namespace Hylaa

/-! ### C30 -/

section
variable {K : Type} [Field K] [LinearOrder K] [IsStrictOrderedRing K]

/-- The number of steps covers the time bound and no smaller number of steps does. -/
theorem C30_num_steps [FloorRing K] {h T : K} (hh : 0 < h) (hT : 0 ≤ T) :
    ∃ n : ℤ, numSteps h T = .ok n ∧ 0 ≤ n ∧ T ≤ n * h ∧ ∀ k : ℤ, T ≤ k * h → n ≤ k := by
  refine ⟨⌈T / h⌉, ?_, ?_, ?_, ?_⟩
  · unfold numSteps need
    rw [if_pos hh.ne']; rfl
  · exact Int.ceil_nonneg (div_nonneg hT hh.le)
  · have := Int.le_ceil (T / h)
    rwa [div_le_iff₀ hh] at this
  · intro k hk
    rw [Int.ceil_le, div_le_iff₀ hh]
    exact hk

example : numSteps (3 / 10 : ℚ) 1 = .ok 4 := by
  have : ⌈(1 : ℚ) / (3 / 10)⌉ = 4 := by rw [Int.ceil_eq_iff]; norm_num
  unfold numSteps need
  rw [if_pos (by norm_num), this]; rfl

/-! ### C46 -/

/-- The names on the call stack a well-behaved client sees: `toc` must name the innermost running
timer. -/
def callStack : List String → List (TimerCall K) → Option (List String)
  | st, [] => some st
  | st, .tic n _ :: l => callStack (n :: st) l
  | [], .toc _ _ :: _ => none
  | m :: st, .toc n _ :: l => if m = n then callStack st l else none

/-- Properly nested sequences of calls. -/
inductive Nested : List (TimerCall K) → Prop
  | nil : Nested []
  | wrap {n t t' l l'} : Nested l → Nested l' → Nested (.tic n t :: (l ++ .toc n t' :: l'))

/-- Reachable timer states: the running timers are those on the stack. -/
structure Timers.Inv (s : Timers K) : Prop where
  desc : s.stack.Pairwise fun a b => b < a
  lt : ∀ t ∈ s.stack, t < s.heap.length
  top : ∀ t, s.top = some t → t < s.heap.length
  kids : ∀ (t : ℕ) d, s.heap[t]? = some d → ∀ c ∈ d.children, t < c ∧ c < s.heap.length
  run : ∀ (t : ℕ) d, s.heap[t]? = some d → (d.start ≠ none ↔ t ∈ s.stack)

/-- The names of the running timers, innermost first. -/
def Timers.names (s : Timers K) : List (Option String) :=
  s.stack.map fun t => (s.heap[t]?).map fun d => d.name

theorem Timers.inv_init : ({} : Timers K).Inv := by
  refine ⟨List.Pairwise.nil, ?_, ?_, ?_, ?_⟩ <;> intros <;> simp_all

theorem Timers.lookup_spec {s : Timers K} (hs : s.Inv) {n : String} {t : ℕ} (h : s.lookup n = some t) :
    (∃ d, s.heap[t]? = some d ∧ d.name = n) ∧ ∀ p ∈ s.stack, p < t := by
  unfold Timers.lookup at h
  split at h
  · rename_i he
    rw [he]
    split at h
    · rename_i t' ht
      split at h
      · rename_i hn
        cases h
        cases hd : s.heap[t]? with
        | none => rw [hd] at hn; simp at hn
        | some d =>
          rw [hd] at hn
          exact ⟨⟨d, rfl, by simpa using hn⟩, by simp⟩
      · cases h
    · cases h
  · rename_i p l he
    unfold Timers.child at h
    split at h
    · cases h
    · rename_i td htd
      have h1 := List.find?_some h
      have h2 := List.mem_of_find?_eq_some h
      have hlt := (hs.kids p td htd t h2).1
      constructor
      · cases hd : s.heap[t]? with
        | none => rw [hd] at h1; simp at h1
        | some d =>
          rw [hd] at h1
          exact ⟨d, rfl, by simpa using h1⟩
      · intro q hq
        have hdesc := hs.desc
        rw [he] at hq hdesc
        rcases List.mem_cons.1 hq with rfl | hq
        · exact hlt
        · exact lt_trans ((List.pairwise_cons.1 hdesc).1 q hq) hlt

theorem Timers.start_spec {s : Timers K} (hs : s.Inv) {t : ℕ} {d : TimerData K} {now : K}
    (hd : s.heap[t]? = some d) (hlt : ∀ p ∈ s.stack, p < t) :
    d.start = none ∧ ({ s with
      heap := s.heap.modify t fun d => { d with calls := d.calls + 1, start := some now }
      stack := t :: s.stack } : Timers K).Inv := by
  have hn : t ∉ s.stack := fun h => lt_irrefl _ (hlt t h)
  constructor
  · by_contra hc
    exact hn ((hs.run t d hd).1 hc)
  have htl : t < s.heap.length := by
    rw [List.getElem?_eq_some_iff] at hd; exact hd.1
  refine ⟨List.pairwise_cons.2 ⟨hlt, hs.desc⟩, ?_, ?_, ?_, ?_⟩
  · intro p hp
    simp only [List.length_modify]
    rcases List.mem_cons.1 hp with rfl | hp
    · exact htl
    · exact hs.lt p hp
  · intro p hp
    simp only [List.length_modify]
    exact hs.top p hp
  · intro p e he c hc
    simp only [List.length_modify]
    simp only [List.getElem?_modify] at he
    cases hp : s.heap[p]? with
    | none => rw [hp] at he; simp at he
    | some e0 =>
      rw [hp] at he
      simp only [Option.map_eq_map, Option.map_some, Option.some.injEq] at he
      refine hs.kids p e0 hp c ?_
      rw [← he] at hc
      split at hc
      · exact hc
      · exact hc
  · intro p e he
    simp only [List.getElem?_modify] at he
    cases hp : s.heap[p]? with
    | none => rw [hp] at he; simp at he
    | some e0 =>
      rw [hp] at he
      simp only [Option.map_eq_map, Option.map_some, Option.some.injEq] at he
      by_cases hpt : t = p
      · subst hpt
        rw [if_pos rfl] at he
        subst he
        simp
      · rw [if_neg hpt] at he
        subst he
        rw [hs.run p _ hp, List.mem_cons]
        constructor
        · exact .inr
        · rintro (h | h)
          · exact absurd h.symm hpt
          · exact h

theorem Timers.names_modify {s : Timers K} {t : ℕ} {f : TimerData K → TimerData K}
    (hf : ∀ d, (f d).name = d.name) (l : List ℕ) :
    (l.map fun p => ((s.heap.modify t f)[p]?).map fun d => d.name) =
      l.map fun p => (s.heap[p]?).map fun d => d.name := by
  refine List.map_congr_left fun p _ => ?_
  simp only [List.getElem?_modify]
  cases s.heap[p]? with
  | none => rfl
  | some d =>
    simp only [Option.map_eq_map, Option.map_some, Option.some.injEq]
    split
    · exact hf d
    · rfl

theorem Timers.create_spec {s : Timers K} (hs : s.Inv) (n : String) :
    (s.create n).1.Inv ∧ (s.create n).1.stack = s.stack ∧
      (∃ d, (s.create n).1.heap[(s.create n).2]? = some d ∧ d.name = n) ∧
      (∀ p ∈ s.stack, p < (s.create n).2) ∧ (s.create n).1.names = s.names := by
  unfold Timers.create
  split
  · rename_i he
    refine ⟨⟨hs.desc, ?_, ?_, ?_, ?_⟩, rfl, ⟨_, List.getElem?_concat_length .., rfl⟩, ?_, ?_⟩
    · intro p hp; simp only [he] at hp; cases hp
    · intro t ht
      cases ht
      simp
    · intro t d hd c hc
      simp only [List.length_append, List.length_singleton]
      rw [List.getElem?_append] at hd
      split at hd
      · have := hs.kids t d hd c hc; omega
      · have : d.children = [] := by
          rw [List.getElem?_singleton] at hd
          split at hd
          · cases hd; rfl
          · cases hd
        rw [this] at hc; cases hc
    · intro t d hd
      rw [List.getElem?_append] at hd
      split at hd
      · exact hs.run t d hd
      · have : d.start = none := by
          rw [List.getElem?_singleton] at hd
          split at hd
          · cases hd; rfl
          · cases hd
        simp [this, he]
    · simp [he]
    · simp [Timers.names, he]
  · rename_i p l he
    refine ⟨⟨hs.desc, ?_, ?_, ?_, ?_⟩, rfl, ⟨⟨n, 0, 0, none, some p, []⟩, ?_, rfl⟩, hs.lt, ?_⟩
    · intro q hq
      have := hs.lt q hq
      simp only [List.length_append, List.length_modify, List.length_singleton]; omega
    · intro q hq
      have := hs.top q hq
      simp only [List.length_append, List.length_modify, List.length_singleton]; omega
    · intro t d hd c hc
      simp only [List.length_append, List.length_modify, List.length_singleton]
      rw [List.getElem?_append] at hd
      split at hd
      · rename_i ht
        rw [List.getElem?_modify] at hd
        cases h0 : s.heap[t]? with
        | none => rw [h0] at hd; simp at hd
        | some d0 =>
          rw [h0] at hd
          simp only [Option.map_eq_map, Option.map_some, Option.some.injEq] at hd
          rw [← hd] at hc
          rw [List.length_modify] at ht
          split at hc
          · rcases List.mem_append.1 hc with hc | hc
            · have := hs.kids t d0 h0 c hc; omega
            · rw [List.mem_singleton] at hc; omega
          · have := hs.kids t d0 h0 c hc; omega
      · have : d.children = [] := by
          rw [List.getElem?_singleton] at hd
          split at hd
          · cases hd; rfl
          · cases hd
        rw [this] at hc; cases hc
    · intro t d hd
      rw [List.getElem?_append] at hd
      split at hd
      · rw [List.getElem?_modify] at hd
        cases h0 : s.heap[t]? with
        | none => rw [h0] at hd; simp at hd
        | some d0 =>
          rw [h0] at hd
          simp only [Option.map_eq_map, Option.map_some, Option.some.injEq] at hd
          rw [← hs.run t d0 h0, ← hd]
          split <;> rfl
      · rename_i ht
        rw [List.length_modify] at ht
        have : d.start = none := by
          rw [List.getElem?_singleton] at hd
          split at hd
          · cases hd; rfl
          · cases hd
        have hn : t ∉ s.stack := fun h => by have := hs.lt t h; omega
        simp [this, hn]
    · simp only
      rw [List.getElem?_append_right (by simp)]; simp
    · unfold Timers.names
      refine List.map_congr_left fun q hq => ?_
      simp only
      rw [List.getElem?_append_left (by rw [List.length_modify]; exact hs.lt q hq), List.getElem?_modify]
      cases s.heap[q]? with
      | none => rfl
      | some d =>
        simp only [Option.map_eq_map, Option.map_some, Option.some.injEq]
        split <;> rfl

/-- `tic` always succeeds and pushes its name. -/
theorem Timers.tic_spec {s : Timers K} (hs : s.Inv) (n : String) (now : K) :
    ∃ s', s.tic n now = .ok s' ∧ s'.Inv ∧ s'.names = some n :: s.names ∧
      ∃ t, s'.stack = t :: s.stack := by
  have key : ∃ (r : Timers K × ℕ) (d : TimerData K), s.pick n = r ∧ r.1.Inv ∧ r.1.stack = s.stack ∧ r.1.heap[r.2]? = some d ∧
        d.name = n ∧ (∀ p ∈ s.stack, p < r.2) ∧ r.1.names = s.names := by
    unfold Timers.pick
    cases hl : s.lookup n with
    | some t =>
      obtain ⟨⟨d, h1, h2⟩, h3⟩ := Timers.lookup_spec hs hl
      exact ⟨(s, t), d, rfl, hs, rfl, h1, h2, h3, rfl⟩
    | none =>
      obtain ⟨h1, h2, ⟨d, h3, h4⟩, h5, h6⟩ := Timers.create_spec hs n
      exact ⟨s.create n, d, rfl, h1, h2, h3, h4, h5, h6⟩
  obtain ⟨r, d, hr, h1, h2, h3, h4, h5, h6⟩ := key
  obtain ⟨k1, k2⟩ := Timers.start_spec (now := now) h1 h3 (by rw [h2]; exact h5)
  refine ⟨_, ?_, k2, ?_, r.2, by rw [h2]⟩
  · unfold Timers.tic
    simp only [bind_ok, needSome_ok, need_ok, pure_ok, hr]
    exact ⟨d, h3, (), k1, trivial⟩
  · unfold Timers.names at h6 ⊢
    simp only [List.map_cons]
    rw [Timers.names_modify (s := r.1) (t := r.2)
      (f := fun d => { d with calls := d.calls + 1, start := some now }) (fun _ => rfl), h6]
    simp only [List.getElem?_modify, h3, Option.map_some, if_true, Option.map_eq_map, h4]

/-- `toc` succeeds exactly if it names the innermost running timer, which it pops. -/
theorem Timers.toc_spec {s : Timers K} (hs : s.Inv) (n : String) (now : K) :
    (∀ m l, s.names = m :: l → m = some n →
      ∃ s', s.toc n now = .ok s' ∧ s'.Inv ∧ s'.names = l ∧ s'.stack = s.stack.tail) ∧
    (s.names.head? ≠ some (some n) → ∃ e, s.toc n now = .error e) := by
  constructor
  · intro m l hm hmn
    subst hmn
    unfold Timers.names at hm
    cases hst : s.stack with
    | nil => rw [hst] at hm; cases hm
    | cons t st =>
      rw [hst, List.map_cons] at hm
      obtain ⟨e1, e2⟩ := List.cons.inj hm
      obtain ⟨d, hd, hdn⟩ := Option.map_eq_some_iff.1 e1
      have hrun := (hs.run t d hd).2 (by rw [hst]; exact List.mem_cons_self)
      obtain ⟨t0, ht0⟩ := Option.ne_none_iff_exists'.1 hrun
      refine ⟨{ s with
        heap := s.heap.modify t fun d => { d with total := d.total + (now - t0), start := none }
        stack := s.stack.tail }, ?_, ?_, ?_, by simp [hst]⟩
      · unfold Timers.toc
        simp only [bind_ok, needSome_ok, assert_ok, pure_ok]
        exact ⟨t, by rw [hst]; rfl, d, hd, (), hdn, t0, ht0, rfl⟩
      · have hdesc := hs.desc
        rw [hst] at hdesc
        obtain ⟨g1, g2⟩ := List.pairwise_cons.1 hdesc
        refine ⟨by rw [hst]; exact g2, ?_, ?_, ?_, ?_⟩
        · intro p hp
          simp only [List.length_modify]
          exact hs.lt p (List.mem_of_mem_tail hp)
        · intro p hp
          simp only [List.length_modify]
          exact hs.top p hp
        · intro p e he c hc
          simp only [List.length_modify]
          simp only [List.getElem?_modify] at he
          cases hp : s.heap[p]? with
          | none => rw [hp] at he; simp at he
          | some e0 =>
            rw [hp] at he
            simp only [Option.map_eq_map, Option.map_some, Option.some.injEq] at he
            refine hs.kids p e0 hp c ?_
            rw [← he] at hc
            split at hc
            · exact hc
            · exact hc
        · intro p e he
          simp only [List.getElem?_modify] at he
          cases hp : s.heap[p]? with
          | none => rw [hp] at he; simp at he
          | some e0 =>
            rw [hp] at he
            simp only [Option.map_eq_map, Option.map_some, Option.some.injEq] at he
            simp only [hst, List.tail_cons]
            by_cases hpt : t = p
            · subst hpt
              rw [if_pos rfl] at he
              subst he
              have : t ∉ st := fun h => lt_irrefl _ (g1 t h)
              simp [this]
            · rw [if_neg hpt] at he
              subst he
              rw [hs.run p _ hp, hst, List.mem_cons]
              constructor
              · rintro (h | h)
                · exact absurd h.symm hpt
                · exact h
              · exact .inr
      · unfold Timers.names
        simp only [hst, List.tail_cons]
        rw [Timers.names_modify (s := s) (t := t)
          (f := fun d => { d with total := d.total + (now - t0), start := none }) (fun _ => rfl)]
        exact e2
  · intro hne
    cases h : s.toc n now with
    | error e => exact ⟨e, rfl⟩
    | ok s' =>
      exfalso
      apply hne
      simp only [Timers.toc, bind_ok, needSome_ok, assert_ok, pure_ok] at h
      obtain ⟨t, ht, d, hd, _, hn, -⟩ := h
      unfold Timers.names
      rw [List.head?_map, ht]
      simp [hd, hn]

/-- Stack discipline: from every reachable state a sequence of calls succeeds exactly if every `toc`
names the innermost running timer, and then the running timers are what the calls say. -/
theorem C46_stack_discipline (l : List (TimerCall K)) {s : Timers K} (hs : s.Inv) {st : List String}
    (hst : s.names = st.map some) :
    (∀ st', callStack st l = some st' → ∃ s', s.run l = .ok s' ∧ s'.Inv ∧ s'.names = st'.map some) ∧
    (callStack st l = none → ∃ e, s.run l = .error e) := by
  induction l generalizing s st with
  | nil =>
    constructor
    · intro st' h
      cases h
      exact ⟨s, rfl, hs, hst⟩
    · intro h; cases h
  | cons c l ih =>
    cases c with
    | tic n t =>
      obtain ⟨s1, h1, h2, h3, -⟩ := Timers.tic_spec hs n t
      obtain ⟨ia, ib⟩ := ih (st := n :: st) h2 (by rw [h3, hst]; rfl)
      constructor
      · intro st' h
        obtain ⟨s', k1, k2⟩ := ia st' h
        refine ⟨s', ?_, k2⟩
        simp only [Timers.run, bind_ok]
        exact ⟨s1, h1, k1⟩
      · intro h
        obtain ⟨e, he⟩ := ib h
        refine ⟨e, ?_⟩
        simp only [Timers.run, h1]
        exact he
    | toc n t =>
      obtain ⟨t1, t2⟩ := Timers.toc_spec hs n t
      cases st with
      | nil =>
        constructor
        · intro st' h; cases h
        · intro _
          obtain ⟨e, he⟩ := t2 (by rw [hst]; simp)
          refine ⟨e, ?_⟩
          simp only [Timers.run, he]; rfl
      | cons m st =>
        by_cases hmn : m = n
        · subst hmn
          obtain ⟨s1, h1, h2, h3, -⟩ := t1 (some m) (st.map some) (by rw [hst]; rfl) rfl
          obtain ⟨ia, ib⟩ := ih (st := st) h2 h3
          constructor
          · intro st' h
            simp only [callStack, if_true] at h
            obtain ⟨s', k1, k2⟩ := ia st' h
            refine ⟨s', ?_, k2⟩
            simp only [Timers.run, bind_ok]
            exact ⟨s1, h1, k1⟩
          · intro h
            simp only [callStack, if_true] at h
            obtain ⟨e, he⟩ := ib h
            refine ⟨e, ?_⟩
            simp only [Timers.run, h1]
            exact he
        · constructor
          · intro st' h
            simp only [callStack, if_neg hmn] at h; cases h
          · intro _
            obtain ⟨e, he⟩ := t2 (by rw [hst]; simpa using hmn)
            refine ⟨e, ?_⟩
            simp only [Timers.run, he]; rfl

theorem callStack_append (l l' : List (TimerCall K)) (st : List String) :
    callStack st (l ++ l') = (callStack st l).bind fun st' => callStack st' l' := by
  induction l generalizing st with
  | nil => rfl
  | cons c l ih =>
    cases c with
    | tic n t => exact ih _
    | toc n t =>
      cases st with
      | nil => rfl
      | cons m st =>
        simp only [List.cons_append, callStack]
        split
        · exact ih _
        · rfl

theorem Nested.callStack {l : List (TimerCall K)} (h : Nested l) (st : List String) :
    callStack st l = some st := by
  induction h generalizing st with
  | nil => rfl
  | wrap _ _ ih1 ih2 =>
    simp only [Hylaa.callStack]
    rw [callStack_append, ih1]
    simp only [Option.bind_some, Hylaa.callStack, if_true]
    exact ih2 st

/-- Every properly nested sequence of calls succeeds from every state reached by earlier calls and
leaves the running timers as they were. -/
theorem C46_nested {l l0 : List (TimerCall K)} (h : Nested l) {s : Timers K}
    (h0 : ({} : Timers K).run l0 = .ok s) : ∃ s', s.run l = .ok s' ∧ s'.names = s.names := by
  have key : s.Inv ∧ ∃ st : List String, s.names = st.map some := by
    obtain ⟨a, b⟩ := C46_stack_discipline l0 (Timers.inv_init (K := K)) (st := []) rfl
    cases hc : callStack [] l0 with
    | none =>
      obtain ⟨e, he⟩ := b hc
      rw [h0] at he; cases he
    | some st =>
      obtain ⟨s', k1, k2, k3⟩ := a st hc
      rw [h0] at k1; cases k1
      exact ⟨k2, st, k3⟩
  obtain ⟨hs, st, hst⟩ := key
  obtain ⟨s', k1, -, k3⟩ := (C46_stack_discipline l hs hst).1 st (h.callStack st)
  exact ⟨s', k1, by rw [k3, hst]⟩

/-- A `toc` that does not name the innermost running timer raises. -/
theorem C46_mismatch {l0 : List (TimerCall K)} {s : Timers K} (h0 : ({} : Timers K).run l0 = .ok s)
    (n : String) (t : K) (hn : s.names.head? ≠ some (some n)) : ∃ e, s.toc n t = .error e := by
  obtain ⟨a, b⟩ := C46_stack_discipline l0 (Timers.inv_init (K := K)) (st := []) rfl
  cases hc : callStack [] l0 with
  | none =>
    obtain ⟨e, he⟩ := b hc
    rw [h0] at he; cases he
  | some st =>
    obtain ⟨s', k1, k2, -⟩ := a st hc
    rw [h0] at k1; cases k1
    exact (Timers.toc_spec k2 n t).2 hn

example : ∃ s', ({} : Timers ℚ).run [.tic "a" 0, .tic "b" 1, .toc "b" 2, .tic "b" 3, .toc "b" 4,
    .toc "a" 5] = .ok s' ∧ s'.names = [] :=
  C46_nested (l := [.tic "a" 0, .tic "b" 1, .toc "b" 2, .tic "b" 3, .toc "b" 4, .toc "a" 5])
    (.wrap (l := [.tic "b" 1, .toc "b" 2, .tic "b" 3, .toc "b" 4]) (l' := [])
      (.wrap (l := []) (l' := [.tic "b" 3, .toc "b" 4]) .nil (.wrap (l := []) (l' := []) .nil .nil)) .nil)
    (l0 := []) rfl

end

/-! ### C47 -/

section
variable {V : Type} {truthy : V → Bool}

/-- Assignment to an existing attribute works and changes only it; assignment to an unknown attribute
of a frozen object raises. -/
theorem C47_set {o : FObj V} {f : V} (hf : o.get "_frozen" = some f) (k : String) (v : V) :
    (o.has k = true ∨ truthy f = false → ∃ o', o.set truthy k v = .ok o' ∧ o'.get k = some v ∧
      ∀ j, j ≠ k → o'.get j = o.get j) ∧
    (o.has k = false → truthy f = true → ∃ e, o.set truthy k v = .error e) := by
  constructor
  · intro h
    refine ⟨o.put k v, ?_, ?_, ?_⟩
    · simp only [FObj.set, bind_ok, needSome_ok]
      refine ⟨f, hf, ?_⟩
      rw [if_neg]
      rcases h with h | h <;> simp [h]
    · simp [FObj.get, FObj.put]
    · intro j hj
      simp [FObj.get, FObj.put, Function.update_of_ne hj]
  · intro h1 h2
    refine ⟨.runtime, ?_⟩
    simp only [FObj.set, hf, needSome]
    show (if _ then _ else _) = _
    rw [if_pos (by simp [h1, h2])]

/-- After `freeze_attrs()` no sequence of assignments (to attributes other than `_frozen` itself)
adds an attribute. -/
theorem C47_frozen_never_grows {o o1 : FObj V} {f tt : V} (hf : o.get "_frozen" = some f)
    (htt : truthy tt = true) (h1 : o.freeze truthy tt = .ok o1) (l : List (String × V))
    (hl : ∀ p ∈ l, p.1 ≠ "_frozen") :
    (o1.sets truthy l).get "_frozen" = some tt ∧ ∀ k, (o1.sets truthy l).has k = o.has k := by
  have hfr : o1.get "_frozen" = some tt ∧ ∀ k, o1.has k = o.has k := by
    simp only [FObj.freeze, FObj.set, bind_ok, needSome_ok] at h1
    obtain ⟨f', hf', h1⟩ := h1
    split at h1
    · cases h1
    · cases h1
      refine ⟨by simp [FObj.get, FObj.put], fun k => ?_⟩
      by_cases hk : k = "_frozen"
      · subst hk
        have e : (o.put "_frozen" tt).get "_frozen" = some tt := by simp [FObj.get, FObj.put]
        rw [FObj.has, FObj.has, e, hf]; rfl
      · simp [FObj.has, FObj.get, FObj.put, Function.update_of_ne hk]
  obtain ⟨g1, g2⟩ := hfr
  clear h1
  induction l generalizing o1 with
  | nil => exact ⟨g1, g2⟩
  | cons p l ih =>
    unfold FObj.sets
    have hp : p.1 ≠ "_frozen" := hl p List.mem_cons_self
    refine ih (fun q hq => hl q (List.mem_cons_of_mem _ hq)) ?_ ?_
    · obtain ⟨a, b⟩ := C47_set (truthy := truthy) g1 p.1 p.2
      cases hh : o1.has p.1 with
      | true =>
        obtain ⟨o', h1, h2, h3⟩ := a (.inl hh)
        rw [h1]; simp only
        rw [h3 _ (Ne.symm hp)]; exact g1
      | false =>
        obtain ⟨e, he⟩ := b hh htt
        rw [he]; exact g1
    · obtain ⟨a, b⟩ := C47_set (truthy := truthy) g1 p.1 p.2
      intro k
      cases hh : o1.has p.1 with
      | true =>
        obtain ⟨o', h1, h2, h3⟩ := a (.inl hh)
        rw [h1]; simp only
        rw [← g2 k]
        by_cases hk : k = p.1
        · subst hk
          rw [hh, FObj.has, h2]; rfl
        · unfold FObj.has; rw [h3 k hk]
      | false =>
        obtain ⟨e, he⟩ := b hh htt
        rw [he]; exact g2 k

/-- The exception in the claim above is needed: `obj._frozen = False` unfreezes the object. -/
theorem C47_unfreeze {o : FObj V} {f ff : V} (hf : o.get "_frozen" = some f) (hff : truthy ff = false)
    (k : String) (v : V) (hk : k ≠ "_frozen") : (o.sets truthy [("_frozen", ff), (k, v)]).has k = true := by
  obtain ⟨o1, h1, h2, -⟩ := (C47_set (truthy := truthy) hf "_frozen" ff).1 (.inl (by rw [FObj.has, hf]; rfl))
  obtain ⟨o2, h3, h4, -⟩ := (C47_set (truthy := truthy) h2 k v).1 (.inr hff)
  simp only [FObj.sets, h1, h3, FObj.has, h4]
  rfl

example : ∃ o1, FObj.freeze (V := Bool) id true ⟨fun k => if k = "mode" then some false else none,
    fun k => if k = "_frozen" then some false else none⟩ = .ok o1 ∧
    (∃ e, o1.set id "mod" true = .error e) ∧ ∃ o2, o1.set id "mode" true = .ok o2 := by
  refine ⟨_, rfl, ?_, ?_⟩
  · refine (C47_set (f := true) ?_ "mod" true).2 ?_ rfl <;> simp [FObj.get, FObj.put, FObj.has]
  · obtain ⟨o2, h, -⟩ := (C47_set (truthy := id) (f := true) (o := FObj.put ⟨fun k => if k = "mode" then some false else none,
      fun k => if k = "_frozen" then some false else none⟩ "_frozen" true) (by simp [FObj.get, FObj.put]) "mode" true).1
      (.inl (by simp [FObj.get, FObj.put, FObj.has]))
    exact ⟨o2, h⟩

end

/-! ### C48 -/

section
variable {K : Type} [Field K] [LinearOrder K] [IsStrictOrderedRing K]

/-- The counter is 8 bytes per element of all allocations, and allocation `i` raises exactly if the
total including it is above the limit. -/
theorem C48_accounting (gb : K) (b : ℕ) (l : List ℕ) :
    (swigAllocs gb b l).1 = b + 8 * l.sum ∧ (swigAllocs gb b l).2.length = l.length ∧
    ∀ i (h : i < (swigAllocs gb b l).2.length), ((swigAllocs gb b l).2[i] = true ↔
      1024 ^ 3 * gb < ((b + 8 * (l.take (i + 1)).sum : ℕ) : K)) := by
  induction l generalizing b with
  | nil => exact ⟨by simp [swigAllocs], rfl, fun i h => absurd h (by simp [swigAllocs])⟩
  | cons n l ih =>
    obtain ⟨h1, h2, h3⟩ := ih (b + 8 * n)
    refine ⟨?_, ?_, ?_⟩
    · simp only [swigAllocs, swigAlloc, h1, List.sum_cons]; ring
    · simp only [swigAllocs, swigAlloc, List.length_cons, h2]
    · intro i hi
      cases i with
      | zero =>
        simp only [swigAllocs, swigAlloc, List.getElem_cons_zero, decide_eq_true_eq, List.take_succ_cons,
          List.take_zero, List.sum_cons, List.sum_nil, add_zero]
        norm_num
      | succ i =>
        simp only [swigAllocs, swigAlloc, List.getElem_cons_succ, List.take_succ_cons, List.sum_cons]
        rw [h3 i (by simpa [swigAllocs, swigAlloc] using hi)]
        rw [show b + 8 * n + 8 * (l.take (i + 1)).sum = b + 8 * (n + (l.take (i + 1)).sum) by ring]

/-- Fail-stop: once an allocation raised, all later ones raise. -/
theorem C48_fail_stop (gb : K) (b : ℕ) (l : List ℕ) {i j : ℕ} (hij : i ≤ j)
    (hj : j < (swigAllocs gb b l).2.length) (h : (swigAllocs gb b l).2[i] = true) :
    (swigAllocs gb b l).2[j] = true := by
  obtain ⟨-, -, h3⟩ := C48_accounting gb b l
  rw [h3] at h ⊢
  refine lt_of_lt_of_le h ?_
  norm_cast
  have : (l.take (i + 1)).sum ≤ (l.take (j + 1)).sum := by
    have e : l.take (j + 1) = l.take (i + 1) ++ (l.drop (i + 1)).take (j - i) := by
      rw [show j + 1 = (i + 1) + (j - i) by omega, List.take_add]
    rw [e, List.sum_append]; omega
  omega

example : (swigAllocs (1 / 1024 ^ 3 : ℚ) 0 [0, 0, 1, 5]).2 = [false, false, true, true] := by
  norm_num [swigAllocs, swigAlloc]

end

/-! ### C49 -/

section
variable {V : Type}

/-- All stored objects of a subplot and mode. -/
def PlotData.objs (p : PlotData V) (plot : ℕ) (mode : String) : List (PlotObj V) :=
  match p[plot]? with
  | some f => f mode
  | none => []

theorem PlotObj.isOf_iff {state step : ℕ} {o : PlotObj V} :
    PlotObj.isOf state step o = true ↔ o.state = state ∧ o.step = step := by
  simp only [PlotObj.isOf, Bool.and_eq_true, decide_eq_true_eq, @eq_comm _ step]

theorem remove_isOf {p q : PlotData V} {mode : String} {state step : ℕ}
    (h : p.remove mode state step = .ok q) :
    ∃ i, (p.objs i mode).any (PlotObj.isOf state step) = true ∧
      (∀ j < i, (p.objs j mode).any (PlotObj.isOf state step) = false) ∧
      q.objs i mode = (p.objs i mode).eraseP (PlotObj.isOf state step) ∧
      ∀ j m, (j ≠ i ∨ m ≠ mode) → q.objs j m = p.objs j m := by
  induction p generalizing q with
  | nil => cases h
  | cons f p ih =>
    unfold PlotData.remove at h
    split at h
    · rename_i hf
      cases h
      refine ⟨0, hf, fun j hj => absurd hj (Nat.not_lt_zero j), ?_, ?_⟩
      · simp [PlotData.objs]
      · intro j m hjm
        cases j with
        | zero =>
          have : m ≠ mode := by simpa using hjm
          simp [PlotData.objs, Function.update_of_ne this]
        | succ j => simp [PlotData.objs]
    · rename_i hf
      simp only [bind_ok, pure_ok] at h
      obtain ⟨q', h1, rfl⟩ := h
      obtain ⟨i, a, b, c, d⟩ := ih h1
      refine ⟨i + 1, by simpa [PlotData.objs] using a, ?_, by simpa [PlotData.objs] using c, ?_⟩
      · intro j hj
        cases j with
        | zero => simpa [PlotData.objs] using hf
        | succ j => simpa [PlotData.objs] using b j (by omega)
      · intro j m hjm
        cases j with
        | zero => simp [PlotData.objs]
        | succ j =>
          have := d j m (by simpa using hjm)
          simpa [PlotData.objs] using this

/-- Removal, as it is: exactly one object is removed, the first one of that state set and step in the first
subplot that has one; the objects of the other modes, of the other subplots and all other objects stay. -/
theorem C49_removes_one_partial {p q : PlotData V} {mode : String} {state step : ℕ}
    (h : p.remove mode state step = .ok q) :
    ∃ i l o l', p.objs i mode = l ++ o :: l' ∧ o.state = state ∧ o.step = step ∧
      (∀ x ∈ l, ¬ (x.state = state ∧ x.step = step)) ∧
      (∀ j < i, ∀ x ∈ p.objs j mode, ¬ (x.state = state ∧ x.step = step)) ∧
      q.objs i mode = l ++ l' ∧
      ∀ j m, (j ≠ i ∨ m ≠ mode) → q.objs j m = p.objs j m := by
  obtain ⟨i, a, b, c, d⟩ := remove_isOf h
  obtain ⟨o, ho, hi⟩ := List.any_eq_true.1 a
  obtain ⟨o, l, l', h1, h2, h3, h4⟩ := List.exists_of_eraseP ho hi
  obtain ⟨k1, k2⟩ := PlotObj.isOf_iff.1 h2
  refine ⟨i, l, o, l', h3, k1, k2, fun x hx hc => ?_, fun j hj x hx hc => ?_, by rw [c, h4], d⟩
  · exact h1 x hx (PlotObj.isOf_iff.2 hc)
  · have := List.any_eq_false.1 (b j hj) x hx
    exact this (PlotObj.isOf_iff.2 hc)

/-- With a single subplot, if the state set was stored at most once at that step, removal is
complete: it leaves exactly the other objects. -/
theorem C49_single_plot_partial {f : String → List (PlotObj V)} {q : PlotData V} {mode : String}
    {state step : ℕ} (hone : ((f mode).filter fun o => o.state = state ∧ o.step = step).length ≤ 1)
    (h : PlotData.remove mode state step [f] = .ok q) :
    q.objs 0 mode = (f mode).filter (fun o => ¬ (o.state = state ∧ o.step = step)) ∧
      ∀ m, m ≠ mode → q.objs 0 m = f m := by
  have hfun : (fun o : PlotObj V => decide (o.state = state ∧ o.step = step)) = PlotObj.isOf state step := by
    funext o
    rw [Bool.eq_iff_iff, decide_eq_true_eq, PlotObj.isOf_iff]
  rw [hfun] at hone
  have hfun2 : (fun o : PlotObj V => decide (¬ (o.state = state ∧ o.step = step))) =
      fun o => !PlotObj.isOf state step o := by
    funext o
    rw [← hfun, decide_not]
  rw [hfun2]
  obtain ⟨i, a, b, c, d⟩ := remove_isOf h
  have hi : i = 0 := by
    by_contra hc
    cases i with
    | zero => exact hc rfl
    | succ i => simp [PlotData.objs] at a
  subst hi
  refine ⟨?_, fun m hm => d 0 m (.inr hm)⟩
  rw [c]
  have key : ∀ l : List (PlotObj V), (l.filter (PlotObj.isOf state step)).length ≤ 1 →
      l.eraseP (PlotObj.isOf state step) = l.filter fun o => !PlotObj.isOf state step o := by
    intro l
    induction l with
    | nil => intro _; rfl
    | cons o l ih =>
      intro hl
      cases ho : PlotObj.isOf state step o with
      | true =>
        rw [List.eraseP_cons_of_pos ho, List.filter_cons_of_neg (by simp [ho])]
        rw [List.filter_cons_of_pos ho, List.length_cons] at hl
        have : l.filter (PlotObj.isOf state step) = [] := List.length_eq_zero_iff.1 (by omega)
        rw [List.filter_eq_nil_iff] at this
        symm
        rw [List.filter_eq_self]
        intro x hx
        simpa using this x hx
      | false =>
        rw [List.eraseP_cons_of_neg (by simp [ho]), List.filter_cons_of_pos (by simp [ho])]
        rw [List.filter_cons_of_neg (by simp [ho])] at hl
        rw [ih hl]
  exact key _ hone

/-- The claim is false with several subplots: a state set plotted in two subplots stays in the
second one after its removal. -/
theorem C49_kept_in_second_subplot (v : V) : ∃ (p q : PlotData V),
    (do let a ← PlotData.add [fun _ => [], fun _ => []] "m" ⟨v, 0, 3⟩ 0
        PlotData.add a "m" ⟨v, 0, 3⟩ 1) = .ok p ∧
    p.remove "m" 0 3 = .ok q ∧ (⟨v, 0, 3⟩ : PlotObj V) ∈ q.objs 1 "m" := by
  refine ⟨_, _, rfl, rfl, ?_⟩
  show _ ∈ Function.update (fun _ => []) "m" ([] ++ [_]) "m"
  simp

end

end Hylaa
