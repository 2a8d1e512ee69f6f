import Verif.Model.Report
import Verif.Proofs.Inv
import Verif.Props.Util
import Mathlib.Data.List.Nodup
import Mathlib.Algebra.Order.BigOperators.Group.List

/-!
# C64: the timing report

`TimeLog` is the specification: it reads a sequence of calls and writes down, for every nesting of names
(innermost first), when it was started and how long each completed interval took.
-/

set_option linter.unusedSectionVars false

namespace Hylaa

section
variable {K : Type} [Field K] [LinearOrder K]

/-- What a client who writes down its own `tic` and `toc` calls knows.  `running`: the open intervals,
innermost first, with their start; `root`: the name of the last outermost interval; `begun`: the nested
names (innermost first) of every interval started; `done`: those of every completed interval with its
length. -/
structure TimeLog (K : Type) where
  running : List (String × K) := []
  root : Option String := none
  begun : List (List String) := []
  done : List (List String × K) := []

/-- The names of the open intervals, innermost first. -/
def TimeLog.path (h : TimeLog K) : List String := h.running.map Prod.fst

/-- A new outermost name starts a new log. -/
def TimeLog.renew (h : TimeLog K) (n : String) : TimeLog K :=
  if h.running = [] ∧ h.root ≠ some n then { root := some n } else h

def TimeLog.call (h : TimeLog K) : TimerCall K → TimeLog K
  | .tic n t => { h.renew n with
      running := (n, t) :: (h.renew n).running
      begun := (n :: (h.renew n).path) :: (h.renew n).begun }
  | .toc _ t => match h.running with
    | [] => h
    | (_, t0) :: r => { h with running := r, done := (h.path, t - t0) :: h.done }

/-- The log of a sequence of calls. -/
def TimeLog.of (l : List (TimerCall K)) : TimeLog K := l.foldl TimeLog.call {}

/-- The time spent in intervals with these nested names. -/
def TimeLog.spent (h : TimeLog K) (p : List String) : K :=
  ((h.done.filter fun x => x.1 = p).map Prod.snd).sum

/-- The number of times an interval with these nested names was started. -/
def TimeLog.starts (h : TimeLog K) (p : List String) : ℕ := h.begun.count p

/-- Timer states a program can reach. -/
inductive Timers.Reached : Timers K → Prop
  | init : Timers.Reached {}
  | tic {s s' n t} : Timers.Reached s → s.tic n t = .ok s' → Timers.Reached s'
  | toc {s s' n t} : Timers.Reached s → s.toc n t = .ok s' → Timers.Reached s'
  | reset {s} : Timers.Reached s → Timers.Reached s.reset

/-- Timer `t` of the current report has these nested names. -/
inductive Timers.At (s : Timers K) : ℕ → List String → Prop
  | root {t d} : s.top = some t → s.heap[t]? = some d → Timers.At s t [d.name]
  | child {t p d c e} : Timers.At s t p → s.heap[t]? = some d → c ∈ d.children →
      s.heap[c]? = some e → Timers.At s c (e.name :: p)

theorem modify_some {α : Type} {l : List α} {t j : ℕ} {f : α → α} {e : α} :
    (l.modify t f)[j]? = some e ↔ ∃ d, l[j]? = some d ∧ e = if t = j then f d else d := by
  rw [List.getElem?_modify]
  cases l[j]? with
  | none => simp
  | some d => simp [eq_comm]

theorem Timers.At.heap {s : Timers K} {t : ℕ} {p : List String} (h : s.At t p) :
    ∃ d, s.heap[t]? = some d ∧ p.head? = some d.name := by
  cases h with
  | root h1 h2 => exact ⟨_, h2, rfl⟩
  | child h1 h2 h3 h4 => exact ⟨_, h4, rfl⟩

theorem Timers.At.lt {s : Timers K} {t : ℕ} {p : List String} (h : s.At t p) : t < s.heap.length := by
  obtain ⟨d, hd, -⟩ := h.heap
  exact (List.getElem?_eq_some_iff.1 hd).1

theorem Timers.At.ne_nil {s : Timers K} {t : ℕ} {p : List String} (h : s.At t p) : p ≠ [] := by
  cases h <;> simp

theorem Timers.At.up {s : Timers K} {t : ℕ} {n : String} {p : List String} (h : s.At t (n :: p))
    (hp : p ≠ []) : ∃ (t' : ℕ) (d e : TimerData K), s.At t' p ∧ s.heap[t']? = some d ∧ t ∈ d.children ∧ s.heap[t]? = some e ∧
      e.name = n := by
  cases h with
  | root h1 h2 => exact absurd rfl hp
  | child h1 h2 h3 h4 => exact ⟨_, _, _, h1, h2, h3, h4, rfl⟩

theorem Timers.At.mono {s s' : Timers K} (htop : s'.top = s.top)
    (h : ∀ (t : ℕ) (d : TimerData K), s.heap[t]? = some d → ∃ d' : TimerData K, s'.heap[t]? = some d' ∧ d'.name = d.name ∧
      ∀ c ∈ d.children, c ∈ d'.children) {t : ℕ} {p : List String} (ha : s.At t p) : s'.At t p := by
  induction ha with
  | root h1 h2 =>
    obtain ⟨d', k1, k2, -⟩ := h _ _ h2
    rw [← k2]
    exact .root (by rw [htop]; exact h1) k1
  | child h1 h2 h3 h4 ih =>
    obtain ⟨d', k1, k2, k3⟩ := h _ _ h2
    obtain ⟨e', l1, l2, -⟩ := h _ _ h4
    rw [← l2]
    exact .child ih k1 (k3 _ h3) l1

theorem Timers.At.modify_iff {s s' : Timers K} {t : ℕ} {f : TimerData K → TimerData K}
    (hf : ∀ d, (f d).name = d.name ∧ (f d).children = d.children) (htop : s'.top = s.top)
    (hheap : s'.heap = s.heap.modify t f) {u : ℕ} {p : List String} : s'.At u p ↔ s.At u p := by
  constructor
  · apply Timers.At.mono htop.symm
    intro v d' hd'
    rw [hheap, modify_some] at hd'
    obtain ⟨d, h1, h2⟩ := hd'
    refine ⟨d, h1, ?_, ?_⟩
    · rw [h2]; split
      · exact (hf d).1.symm
      · rfl
    · rw [h2]; intro c hc; split at hc
      · rw [← (hf d).2]; exact hc
      · exact hc
  · apply Timers.At.mono htop
    intro v d hd
    refine ⟨_, by rw [hheap]; exact modify_some.2 ⟨d, hd, rfl⟩, ?_, ?_⟩
    · split
      · exact (hf d).1
      · rfl
    · intro c hc; split
      · rw [(hf d).2]; exact hc
      · exact hc

/-- The running timers are those of the log, with their start. -/
inductive Timers.OnStack (s : Timers K) : List ℕ → List (String × K) → Prop
  | nil : Timers.OnStack s [] []
  | cons {t l n t0 r d} : Timers.OnStack s l r → s.At t (n :: r.map Prod.fst) → s.heap[t]? = some d →
      d.start = some t0 → Timers.OnStack s (t :: l) ((n, t0) :: r)

theorem Timers.OnStack.mem {s : Timers K} {l : List ℕ} {r : List (String × K)} (h : s.OnStack l r) {t : ℕ}
    (ht : t ∈ l) : ∃ (q : List String) (d : TimerData K) (t0 : K), s.At t q ∧ q.length ≤ r.length ∧ s.heap[t]? = some d ∧ d.start = some t0 := by
  induction h with
  | nil => cases ht
  | cons h1 h2 h3 h4 ih =>
    rcases List.mem_cons.1 ht with rfl | ht
    · exact ⟨_, _, _, h2, by simp, h3, h4⟩
    · obtain ⟨q, d, t0, k1, k2, k3, k4⟩ := ih ht
      exact ⟨q, d, t0, k1, by simp; omega, k3, k4⟩

theorem Timers.OnStack.mono {s s' : Timers K} {l : List ℕ} {r : List (String × K)} (h : s.OnStack l r)
    (hat : ∀ t p, s.At t p → s'.At t p)
    (hst : ∀ t ∈ l, ∀ d : TimerData K, s.heap[t]? = some d → ∃ d' : TimerData K, s'.heap[t]? = some d' ∧ d'.start = d.start) :
    s'.OnStack l r := by
  induction h with
  | nil => exact .nil
  | cons h1 h2 h3 h4 ih =>
    obtain ⟨d', k1, k2⟩ := hst _ (by simp) _ h3
    exact .cons (ih fun t ht => hst t (by simp [ht])) (hat _ _ h2) k1 (k2.trans h4)

/-- The timers agree with the log. -/
structure Timers.Acc (ex : Option ℕ) (s : Timers K) (h : TimeLog K) : Prop where
  kids : ∀ (t : ℕ) d, s.heap[t]? = some d → ∀ c ∈ d.children, t < c ∧ c < s.heap.length
  nodup : ∀ (t : ℕ) d, s.heap[t]? = some d → d.children.Nodup
  topSome : ∀ t, s.top = some t → ∃ d, s.heap[t]? = some d ∧ d.parent = none ∧ h.root = some d.name
  topNone : s.top = none → h.root = none
  stack : s.OnStack s.stack h.running
  idle : ∀ t p d, s.At t p → s.heap[t]? = some d → d.start ≠ none → t ∈ s.stack
  path_unique : ∀ t p q, s.At t p → s.At t q → p = q
  id_unique : ∀ t u p, s.At t p → s.At u p → t = u
  total : ∀ t p d, s.At t p → s.heap[t]? = some d → d.total = h.spent p
  calls : ∀ t p d, s.At t p → s.heap[t]? = some d → d.calls = h.starts p
  parent : ∀ t p d, s.At t p → s.heap[t]? = some d → (p.tail = [] → d.parent = none) ∧
    (p.tail ≠ [] → ∃ t', d.parent = some t' ∧ s.At t' p.tail)
  found : ∀ p ∈ h.begun, ∃ t, s.At t p
  began : ∀ t p, s.At t p → ex ≠ some t → p ∈ h.begun
  done_sub : ∀ x ∈ h.done, x.1 ∈ h.begun

/-- Starting a timer that is not running. -/
theorem Timers.Acc.start {ex : Option ℕ} {s : Timers K} {h : TimeLog K} {t : ℕ} {n : String}
    {d0 : TimerData K} {now : K} (ha : s.Acc ex h) (hex : ex = none ∨ ex = some t)
    (hat : s.At t (n :: h.path)) (hd : s.heap[t]? = some d0) (hs0 : d0.start = none) :
    ({ s with heap := s.heap.modify t fun d => { d with calls := d.calls + 1, start := some now }
              stack := t :: s.stack } : Timers K).Acc none
      { h with running := (n, now) :: h.running, begun := (n :: h.path) :: h.begun } := by
  set s' : Timers K := { s with
    heap := s.heap.modify t fun d => { d with calls := d.calls + 1, start := some now }
    stack := t :: s.stack } with hs'
  have hAt : ∀ {u p}, s'.At u p ↔ s.At u p := fun {u p} =>
    Timers.At.modify_iff (s := s) (s' := s') (t := t) (f := fun d : TimerData K => { d with calls := d.calls + 1, start := some now })
      (fun _ => ⟨rfl, rfl⟩) rfl rfl
  have hh : ∀ {u e}, s'.heap[u]? = some e → ∃ d, s.heap[u]? = some d ∧
      e = if t = u then { d with calls := d.calls + 1, start := some now } else d := fun {u e} h =>
    modify_some.1 h
  refine ⟨?_, ?_, ?_, ha.topNone, ?_, ?_, ?_, ?_, ?_, ?_, ?_, ?_, ?_, ?_⟩
  · intro u e he c hc
    obtain ⟨d, h1, rfl⟩ := hh he
    simp only [hs', List.length_modify]
    refine ha.kids u d h1 c ?_
    split at hc <;> exact hc
  · intro u e he
    obtain ⟨d, h1, rfl⟩ := hh he
    have := ha.nodup u d h1
    split <;> exact this
  · intro u hu
    obtain ⟨d, h1, h2, h3⟩ := ha.topSome u hu
    refine ⟨_, modify_some.2 ⟨d, h1, rfl⟩, ?_, ?_⟩
    · split <;> exact h2
    · simp only [h3]; split <;> rfl
  · refine .cons (d := { d0 with calls := d0.calls + 1, start := some now }) ?_ (hAt.2 hat)
      (modify_some.2 ⟨d0, hd, by simp⟩) rfl
    refine ha.stack.mono (fun _ _ => hAt.2) ?_
    intro u hu d h1
    have hne : t ≠ u := by
      rintro rfl
      obtain ⟨_, d', t0, -, -, k3, k4⟩ := ha.stack.mem hu
      rw [hd] at k3; cases k3
      rw [hs0] at k4; cases k4
    exact ⟨d, modify_some.2 ⟨d, h1, by rw [if_neg hne]⟩, rfl⟩
  · intro u p e hu he hne
    obtain ⟨d, h1, rfl⟩ := hh he
    by_cases htu : t = u
    · simp [hs', htu]
    · rw [if_neg htu] at hne
      simp only [hs']
      exact List.mem_cons_of_mem _ (ha.idle u p d (hAt.1 hu) h1 hne)
  · intro u p q h1 h2; exact ha.path_unique u p q (hAt.1 h1) (hAt.1 h2)
  · intro u v p h1 h2; exact ha.id_unique u v p (hAt.1 h1) (hAt.1 h2)
  · intro u p e hu he
    obtain ⟨d, h1, rfl⟩ := hh he
    have := ha.total u p d (hAt.1 hu) h1
    show _ = h.spent p
    rw [← this]; split <;> rfl
  · intro u p e hu he
    obtain ⟨d, h1, rfl⟩ := hh he
    have hc := ha.calls u p d (hAt.1 hu) h1
    simp only [TimeLog.starts, List.count_cons] at hc ⊢
    by_cases htu : t = u
    · subst htu
      rw [ha.path_unique t _ _ (hAt.1 hu) hat] at hc ⊢
      simp [hc]
    · have : p ≠ n :: h.path := by
        rintro rfl
        exact htu (ha.id_unique t u _ hat (hAt.1 hu))
      rw [if_neg htu, if_neg (by simpa using this.symm), hc]; rfl
  · intro u p e hu he
    obtain ⟨d, h1, rfl⟩ := hh he
    obtain ⟨a, b⟩ := ha.parent u p d (hAt.1 hu) h1
    constructor
    · intro hp; have := a hp; split <;> exact this
    · intro hp
      obtain ⟨t', k1, k2⟩ := b hp
      refine ⟨t', ?_, hAt.2 k2⟩
      split <;> exact k1
  · intro p hp
    rcases List.mem_cons.1 hp with rfl | hp
    · exact ⟨t, hAt.2 hat⟩
    · obtain ⟨u, hu⟩ := ha.found p hp
      exact ⟨u, hAt.2 hu⟩
  · intro u p hu _
    by_cases htu : t = u
    · subst htu
      rw [ha.path_unique t _ _ (hAt.1 hu) hat]; simp
    · refine List.mem_cons_of_mem _ (ha.began u p (hAt.1 hu) ?_)
      rcases hex with rfl | rfl
      · simp
      · simpa using htu
  · intro x hx; exact List.mem_cons_of_mem _ (ha.done_sub x hx)

/-- Stopping the innermost running timer. -/
theorem Timers.Acc.stop {s : Timers K} {h : TimeLog K} {t : ℕ} {st : List ℕ} {n : String} {t0 now : K}
    {r : List (String × K)} (ha : s.Acc none h) (hst : s.stack = t :: st) (hr : h.running = (n, t0) :: r) :
    ({ s with heap := s.heap.modify t fun d => { d with total := d.total + (now - t0), start := none }
              stack := st } : Timers K).Acc none
      { h with running := r, done := (h.path, now - t0) :: h.done } := by
  set s' : Timers K := { s with
    heap := s.heap.modify t fun d => { d with total := d.total + (now - t0), start := none }
    stack := st } with hs'
  have hAt : ∀ {u p}, s'.At u p ↔ s.At u p := fun {u p} =>
    Timers.At.modify_iff (s := s) (s' := s') (t := t) (f := fun d : TimerData K => { d with total := d.total + (now - t0), start := none })
      (fun _ => ⟨rfl, rfl⟩) rfl rfl
  have hh : ∀ {u e}, s'.heap[u]? = some e → ∃ d, s.heap[u]? = some d ∧
      e = if t = u then { d with total := d.total + (now - t0), start := none } else d := fun {u e} h =>
    modify_some.1 h
  have hon := ha.stack
  rw [hst, hr] at hon
  have hpath : h.path = n :: r.map Prod.fst := by rw [TimeLog.path, hr]; rfl
  obtain ⟨d0, hon', hat, hd, hs0⟩ : ∃ d0, s.OnStack st r ∧ s.At t (n :: r.map Prod.fst) ∧
      s.heap[t]? = some d0 ∧ d0.start = some t0 := by
    cases hon with
    | cons h1 h2 h3 h4 => exact ⟨_, h1, h2, h3, h4⟩
  rw [← hpath] at hat
  have hnot : ∀ u ∈ st, t ≠ u := by
    rintro u hu rfl
    obtain ⟨q, _, _, k1, k2, -, -⟩ := hon'.mem hu
    rw [ha.path_unique t _ _ k1 hat, hpath] at k2
    simp at k2
  refine ⟨?_, ?_, ?_, ha.topNone, ?_, ?_, ?_, ?_, ?_, ?_, ?_, ?_, ?_, ?_⟩
  · intro u e he c hc
    obtain ⟨d, h1, rfl⟩ := hh he
    simp only [hs', List.length_modify]
    refine ha.kids u d h1 c ?_
    split at hc <;> exact hc
  · intro u e he
    obtain ⟨d, h1, rfl⟩ := hh he
    have := ha.nodup u d h1
    split <;> exact this
  · intro u hu
    obtain ⟨d, h1, h2, h3⟩ := ha.topSome u hu
    refine ⟨_, modify_some.2 ⟨d, h1, rfl⟩, ?_, ?_⟩
    · split <;> exact h2
    · simp only [h3]; split <;> rfl
  · refine hon'.mono (fun _ _ => hAt.2) ?_
    intro u hu d h1
    exact ⟨d, modify_some.2 ⟨d, h1, by rw [if_neg (hnot u hu)]⟩, rfl⟩
  · intro u p e hu he hne
    obtain ⟨d, h1, rfl⟩ := hh he
    by_cases htu : t = u
    · rw [if_pos htu] at hne; exact absurd rfl hne
    · rw [if_neg htu] at hne
      have := ha.idle u p d (hAt.1 hu) h1 hne
      rw [hst] at this
      rcases List.mem_cons.1 this with e | e
      · exact absurd e.symm htu
      · exact e
  · intro u p q h1 h2; exact ha.path_unique u p q (hAt.1 h1) (hAt.1 h2)
  · intro u v p h1 h2; exact ha.id_unique u v p (hAt.1 h1) (hAt.1 h2)
  · intro u p e hu he
    obtain ⟨d, h1, rfl⟩ := hh he
    have hc := ha.total u p d (hAt.1 hu) h1
    simp only [TimeLog.spent, List.filter_cons] at hc ⊢
    by_cases htu : t = u
    · subst htu
      rw [ha.path_unique t _ _ (hAt.1 hu) hat] at hc ⊢
      simp only [if_true, decide_true, List.map_cons, List.sum_cons, hc]
      ring
    · have : h.path ≠ p := by
        rintro rfl
        exact htu (ha.id_unique t u _ hat (hAt.1 hu))
      rw [if_neg htu, if_neg (by simpa using this), hc]
  · intro u p e hu he
    obtain ⟨d, h1, rfl⟩ := hh he
    have := ha.calls u p d (hAt.1 hu) h1
    show _ = h.starts p
    rw [← this]; split <;> rfl
  · intro u p e hu he
    obtain ⟨d, h1, rfl⟩ := hh he
    obtain ⟨a, b⟩ := ha.parent u p d (hAt.1 hu) h1
    constructor
    · intro hp; have := a hp; split <;> exact this
    · intro hp
      obtain ⟨t', k1, k2⟩ := b hp
      refine ⟨t', ?_, hAt.2 k2⟩
      split <;> exact k1
  · intro p hp
    obtain ⟨u, hu⟩ := ha.found p hp
    exact ⟨u, hAt.2 hu⟩
  · intro u p hu hne; exact ha.began u p (hAt.1 hu) hne
  · intro x hx
    rcases List.mem_cons.1 hx with rfl | hx
    · exact ha.began t _ hat (by simp)
    · exact ha.done_sub x hx

theorem Timers.Acc.weaken {ex : Option ℕ} {s : Timers K} {h : TimeLog K} (ha : s.Acc none h) :
    s.Acc ex h := { ha with began := fun t p h _ => ha.began t p h (by simp) }

/-- The timer `tic` starts carries the nested names of the log. -/
theorem Timers.Acc.pick {s : Timers K} {h : TimeLog K} (ha : s.Acc none h) (n : String) :
    (s.pick n).1.Acc (some (s.pick n).2) (h.renew n) ∧ (s.pick n).1.At (s.pick n).2 (n :: (h.renew n).path) ∧
      (s.pick n).1.stack = s.stack := by
  unfold Timers.pick
  cases hst : s.stack with
  | nil =>
    have hrun : h.running = [] := by
      have := ha.stack
      rw [hst] at this
      generalize h.running = x at this
      cases this; rfl
    have hpath : h.path = [] := by rw [TimeLog.path, hrun]; rfl
    cases hl : s.lookup n with
    | some t =>
      obtain ⟨htop, d, hd, hn⟩ : s.top = some t ∧ ∃ d, s.heap[t]? = some d ∧ d.name = n := by
        unfold Timers.lookup at hl
        rw [hst] at hl
        simp only at hl
        cases htp : s.top with
        | none => rw [htp] at hl; cases hl
        | some u =>
          rw [htp] at hl
          simp only at hl
          split at hl
          · rename_i hn
            cases hl
            cases hd : s.heap[t]? with
            | none => rw [hd] at hn; cases hn
            | some d => rw [hd] at hn; exact ⟨rfl, d, rfl, by simpa using hn⟩
          · cases hl
      obtain ⟨d', k1, -, k3⟩ := ha.topSome t htop
      rw [hd] at k1; cases k1
      have hren : h.renew n = h := by
        unfold TimeLog.renew
        rw [if_neg (by rw [k3, hn]; simp)]
      rw [hren, hpath]
      refine ⟨ha.weaken, ?_, hst⟩
      rw [← hn]; exact .root htop hd
    | none =>
      have hroot : h.root ≠ some n := by
        intro hr
        unfold Timers.lookup at hl
        rw [hst] at hl
        simp only at hl
        cases htp : s.top with
        | none => rw [ha.topNone htp] at hr; cases hr
        | some u =>
          rw [htp] at hl
          obtain ⟨d, k1, -, k3⟩ := ha.topSome u htp
          rw [hr] at k3
          have hn : n = d.name := by simpa using k3
          simp [k1, hn] at hl
      have hren : h.renew n = { root := some n } := by
        unfold TimeLog.renew
        rw [if_pos ⟨hrun, hroot⟩]
      rw [hren]
      unfold Timers.create
      rw [hst]
      simp only
      have hnew : (s.heap ++ [({ name := n, total := 0 } : TimerData K)])[s.heap.length]? =
          some { name := n, total := 0 } := by
        rw [List.getElem?_append_right (le_refl _)]; simp
      have hold : ∀ {t : ℕ} {d}, (s.heap ++ [({ name := n, total := 0 } : TimerData K)])[t]? = some d →
          s.heap[t]? = some d ∨ (t = s.heap.length ∧ d = { name := n, total := 0 }) := by
        intro t d hd
        rw [List.getElem?_append] at hd
        split at hd
        · exact .inl hd
        · rw [List.getElem?_singleton] at hd
          split at hd
          · cases hd; exact .inr ⟨by omega, rfl⟩
          · cases hd
      have hAt : ∀ t p, ({ s with heap := s.heap ++ [({ name := n, total := 0 } : TimerData K)]
                                  top := some s.heap.length, stack := [] } : Timers K).At t p →
          t = s.heap.length ∧ p = [n] := by
        intro t p hp
        induction hp with
        | root h1 h2 =>
          cases h1
          simp only [hnew, Option.some.injEq] at h2
          subst h2
          exact ⟨rfl, rfl⟩
        | child h1 h2 h3 h4 ih =>
          obtain ⟨rfl, -⟩ := ih
          simp only [hnew, Option.some.injEq] at h2
          subst h2
          cases h3
      refine ⟨⟨?_, ?_, ?_, ?_, .nil, ?_, ?_, ?_, ?_, ?_, ?_, ?_, ?_, ?_⟩, ?_, trivial⟩
      · intro t d hd c hc
        simp only [List.length_append, List.length_singleton]
        rcases hold hd with hd | ⟨rfl, rfl⟩
        · have := ha.kids t d hd c hc; omega
        · cases hc
      · intro t d hd
        rcases hold hd with hd | ⟨rfl, rfl⟩
        · exact ha.nodup t d hd
        · exact List.nodup_nil
      · intro t ht
        cases ht
        exact ⟨_, hnew, rfl, rfl⟩
      · intro ht; cases ht
      · intro t p d hp hd hne
        obtain ⟨rfl, rfl⟩ := hAt t p hp
        simp only [hnew, Option.some.injEq] at hd
        subst hd
        exact absurd rfl hne
      · intro t p q hp hq
        rw [(hAt t p hp).2, (hAt t q hq).2]
      · intro t u p hp hq
        rw [(hAt t p hp).1, (hAt u p hq).1]
      · intro t p d hp hd
        obtain ⟨rfl, rfl⟩ := hAt t p hp
        simp only [hnew, Option.some.injEq] at hd
        subst hd
        rfl
      · intro t p d hp hd
        obtain ⟨rfl, rfl⟩ := hAt t p hp
        simp only [hnew, Option.some.injEq] at hd
        subst hd
        rfl
      · intro t p d hp hd
        obtain ⟨rfl, rfl⟩ := hAt t p hp
        simp only [hnew, Option.some.injEq] at hd
        subst hd
        exact ⟨fun _ => rfl, fun h => absurd rfl h⟩
      · intro p hp; cases hp
      · intro t p hp hne
        exact absurd (by rw [(hAt t p hp).1]) hne
      · intro x hx; cases hx
      · have e : ({ root := some n } : TimeLog K).path = [] := rfl
        rw [e]
        exact Timers.At.root (s := { heap := s.heap ++ [{ name := n, total := 0 }], top := some s.heap.length })
          (d := { name := n, total := 0 }) rfl hnew
  | cons p0 l0 =>
    obtain ⟨m, t0, r, d0, hrun, hon, hat, hd0, hs0⟩ : ∃ m t0 r d0, h.running = (m, t0) :: r ∧
        s.OnStack l0 r ∧ s.At p0 (m :: r.map Prod.fst) ∧ s.heap[p0]? = some d0 ∧ d0.start = some t0 := by
      have := ha.stack
      rw [hst] at this
      generalize h.running = x at this
      cases this with
      | cons h1 h2 h3 h4 => exact ⟨_, _, _, _, rfl, h1, h2, h3, h4⟩
    have hpath : h.path = m :: r.map Prod.fst := by rw [TimeLog.path, hrun]; rfl
    rw [← hpath] at hat
    have hren : h.renew n = h := by
      unfold TimeLog.renew
      rw [if_neg (by rw [hrun]; simp)]
    rw [hren]
    cases hl : s.lookup n with
    | some t =>
      unfold Timers.lookup at hl
      rw [hst] at hl
      simp only [Timers.child, hd0] at hl
      have h1 := List.find?_some hl
      have h2 := List.mem_of_find?_eq_some hl
      refine ⟨ha.weaken, ?_, hst⟩
      cases hd : s.heap[t]? with
      | none => rw [hd] at h1; cases h1
      | some d =>
        rw [hd] at h1
        have hn : d.name = n := by simpa using h1
        rw [← hn]; exact .child hat hd0 h2 hd
    | none =>
      have hfree : ∀ c ∈ d0.children, ∀ e, s.heap[c]? = some e → e.name ≠ n := by
        intro c hc e he hn
        unfold Timers.lookup at hl
        rw [hst] at hl
        simp only [Timers.child, hd0] at hl
        have := List.find?_eq_none.1 hl c hc
        rw [he] at this
        simp [hn] at this
      unfold Timers.create
      rw [hst]
      simp only
      set new : TimerData K := { name := n, total := 0, parent := some p0 } with hnewdef
      set f : TimerData K → TimerData K := fun d => { d with children := d.children ++ [s.heap.length] }
        with hf
      set s' : Timers K := { heap := s.heap.modify p0 f ++ [new], top := s.top, stack := p0 :: l0 } with hs'
      have hnew : s'.heap[s.heap.length]? = some new := by
        simp only [hs']
        rw [List.getElem?_append_right (by rw [List.length_modify])]; simp
      have hup : ∀ {t : ℕ} {d}, s.heap[t]? = some d → s'.heap[t]? = some (if p0 = t then f d else d) := by
        intro t d hd
        simp only [hs']
        rw [List.getElem?_append_left (by
          rw [List.length_modify]; exact (List.getElem?_eq_some_iff.1 hd).1)]
        exact modify_some.2 ⟨d, hd, rfl⟩
      have hold : ∀ {t : ℕ} {e}, s'.heap[t]? = some e →
          (∃ d, s.heap[t]? = some d ∧ e = if p0 = t then f d else d) ∨ (t = s.heap.length ∧ e = new) := by
        intro t d hd
        simp only [hs', List.getElem?_append, List.length_modify] at hd
        split at hd
        · exact .inl (modify_some.1 hd)
        · rw [List.getElem?_singleton] at hd
          split at hd
          · cases hd; exact .inr ⟨by omega, rfl⟩
          · cases hd
      have hAt1 : ∀ {t p}, s.At t p → s'.At t p := fun {t p} hp => by
        refine Timers.At.mono (s := s) (s' := s') rfl ?_ hp
        intro u d hd
        refine ⟨_, hup hd, ?_, ?_⟩
        · split <;> rfl
        · intro c hc; split
          · exact List.mem_append_left _ hc
          · exact hc
      have hAt2 : ∀ {t p}, s'.At t p → s.At t p ∨ (t = s.heap.length ∧ p = n :: h.path) := by
        intro t p hp
        induction hp with
        | @root t e h1 h2 =>
          obtain ⟨d, k1, -, -⟩ := ha.topSome _ h1
          have := hup k1
          rw [h2] at this
          cases this
          left
          have e : (if p0 = t then f d else d).name = d.name := by split <;> rfl
          rw [e]
          exact .root h1 k1
        | @child t p d c e h1 h2 h3 h4 ih =>
          rcases ih with ih | ⟨rfl, -⟩
          · obtain ⟨d1, k1, -⟩ := ih.heap
            have hd := hup k1
            rw [h2] at hd
            have hd' : d = if p0 = t then f d1 else d1 := by simpa using hd
            have hcase : c ∈ d1.children ∨ (p0 = t ∧ c = s.heap.length) := by
              rw [hd'] at h3
              split at h3
              · rename_i hpt
                rcases List.mem_append.1 h3 with h3 | h3
                · exact .inl h3
                · exact .inr ⟨hpt, by simpa using h3⟩
              · exact .inl h3
            rcases hcase with hc | ⟨rfl, rfl⟩
            · left
              rcases hold h4 with ⟨e1, l1, l2⟩ | ⟨rfl, -⟩
              · have : e.name = e1.name := by rw [l2]; split <;> rfl
                rw [this]
                exact .child ih k1 hc l1
              · exact absurd (ha.kids _ _ k1 _ hc).2 (lt_irrefl _)
            · right
              rw [hnew] at h4
              cases h4
              exact ⟨rfl, by rw [ha.path_unique _ _ _ ih hat]⟩
          · rw [hnew] at h2
            cases h2
            cases h3
      have hnoAt : ∀ t, ¬ s.At t (n :: h.path) := by
        intro t hc
        obtain ⟨t', d, e, k1, k2, k3, k4, k5⟩ := hc.up (by rw [hpath]; simp)
        have := ha.id_unique _ _ _ k1 hat
        subst this
        rw [hd0] at k2; cases k2
        exact hfree t k3 e k4 k5
      have hnb : n :: h.path ∉ h.begun := fun hc => by
        obtain ⟨t, ht⟩ := ha.found _ hc
        exact hnoAt t ht
      refine ⟨⟨?_, ?_, ?_, ha.topNone, ?_, ?_, ?_, ?_, ?_, ?_, ?_, ?_, ?_, ha.done_sub⟩, ?_, trivial⟩
      · intro t e he c hc
        have hlen : s'.heap.length = s.heap.length + 1 := by simp [hs']
        rw [hlen]
        rcases hold he with ⟨d, k1, rfl⟩ | ⟨rfl, rfl⟩
        · have hlt := (List.getElem?_eq_some_iff.1 k1).1
          split at hc
          · rcases List.mem_append.1 hc with hc | hc
            · have := ha.kids t d k1 c hc; omega
            · rw [List.mem_singleton] at hc; omega
          · have := ha.kids t d k1 c hc; omega
        · cases hc
      · intro t e he
        rcases hold he with ⟨d, k1, rfl⟩ | ⟨rfl, rfl⟩
        · have hn := ha.nodup t d k1
          split
          · simp only [hf]
            rw [List.nodup_append]
            refine ⟨hn, List.nodup_singleton _, ?_⟩
            intro a ha1 b hb
            rw [List.mem_singleton] at hb
            have := (ha.kids t d k1 a ha1).2
            omega
          · exact hn
        · exact List.nodup_nil
      · intro t ht
        obtain ⟨d, k1, k2, k3⟩ := ha.topSome t ht
        refine ⟨_, hup k1, ?_, ?_⟩
        · split <;> exact k2
        · rw [k3]; split <;> rfl
      · rw [hrun]
        refine .cons (d := f d0) ?_ (hAt1 (by rw [← hpath]; exact hat)) (by rw [hup hd0, if_pos rfl]) hs0
        refine hon.mono (fun _ _ => hAt1) ?_
        intro u _ d hd
        refine ⟨_, hup hd, ?_⟩
        split <;> rfl
      · intro t p e hp he hne
        rcases hold he with ⟨d, k1, rfl⟩ | ⟨rfl, rfl⟩
        · rcases hAt2 hp with hp | ⟨rfl, -⟩
          · have := ha.idle t p d hp k1 (by split at hne <;> exact hne)
            rw [hst] at this
            exact this
          · exact absurd (List.getElem?_eq_some_iff.1 k1).1 (lt_irrefl _)
        · exact absurd rfl hne
      · intro t p q hp hq
        rcases hAt2 hp with hp | ⟨rfl, rfl⟩ <;> rcases hAt2 hq with hq | ⟨e, rfl⟩
        · exact ha.path_unique t p q hp hq
        · have := hp.lt; omega
        · exact absurd hq.lt (lt_irrefl _)
        · rfl
      · intro t u p hp hq
        rcases hAt2 hp with hp | ⟨rfl, rfl⟩ <;> rcases hAt2 hq with hq | ⟨rfl, e⟩
        · exact ha.id_unique t u p hp hq
        · subst e; exact absurd hp (hnoAt _)
        · exact absurd hq (hnoAt _)
        · rfl
      · intro t p e hp he
        rcases hold he with ⟨d, k1, rfl⟩ | ⟨rfl, rfl⟩
        · rcases hAt2 hp with hp | ⟨rfl, -⟩
          · have := ha.total t p d hp k1
            rw [← this]; split <;> rfl
          · exact absurd (List.getElem?_eq_some_iff.1 k1).1 (lt_irrefl _)
        · rcases hAt2 hp with hp | ⟨-, rfl⟩
          · exact absurd hp.lt (lt_irrefl _)
          · have : (h.done.filter fun x => x.1 = n :: h.path) = [] := by
              rw [List.filter_eq_nil_iff]
              intro x hx hc
              have := ha.done_sub x hx
              rw [of_decide_eq_true hc] at this
              exact hnb this
            simp [TimeLog.spent, this, hnewdef]
      · intro t p e hp he
        rcases hold he with ⟨d, k1, rfl⟩ | ⟨rfl, rfl⟩
        · rcases hAt2 hp with hp | ⟨rfl, -⟩
          · have := ha.calls t p d hp k1
            rw [← this]; split <;> rfl
          · exact absurd (List.getElem?_eq_some_iff.1 k1).1 (lt_irrefl _)
        · rcases hAt2 hp with hp | ⟨-, rfl⟩
          · exact absurd hp.lt (lt_irrefl _)
          · simp [TimeLog.starts, List.count_eq_zero_of_not_mem hnb, hnewdef]
      · intro t p e hp he
        rcases hold he with ⟨d, k1, rfl⟩ | ⟨rfl, rfl⟩
        · rcases hAt2 hp with hp | ⟨rfl, -⟩
          · obtain ⟨a, b⟩ := ha.parent t p d hp k1
            constructor
            · intro hp; have := a hp; split <;> exact this
            · intro hp
              obtain ⟨t', j1, j2⟩ := b hp
              refine ⟨t', ?_, hAt1 j2⟩
              split <;> exact j1
          · exact absurd (List.getElem?_eq_some_iff.1 k1).1 (lt_irrefl _)
        · rcases hAt2 hp with hp | ⟨-, rfl⟩
          · exact absurd hp.lt (lt_irrefl _)
          · refine ⟨fun hc => ?_, fun _ => ⟨p0, rfl, hAt1 hat⟩⟩
            rw [List.tail_cons, hpath] at hc; cases hc
      · intro p hp
        obtain ⟨t, ht⟩ := ha.found p hp
        exact ⟨t, hAt1 ht⟩
      · intro t p hp hne
        rcases hAt2 hp with hp | ⟨rfl, -⟩
        · exact ha.began t p hp (by simp)
        · exact absurd rfl hne
      · exact .child (d := f d0) (hAt1 hat) (by rw [hup hd0, if_pos rfl])
          (List.mem_append_right _ (List.mem_singleton.2 rfl)) hnew

theorem Timers.Acc.tic {s s' : Timers K} {h : TimeLog K} (ha : s.Acc none h) {n : String} {t : K}
    (hs : s.tic n t = .ok s') : s'.Acc none (h.call (.tic n t)) := by
  obtain ⟨k1, k2, k3⟩ := ha.pick n
  simp only [Timers.tic, bind_ok, needSome_ok, need_ok, pure_ok] at hs
  obtain ⟨d, hd, _, hst, rfl⟩ := hs
  exact k1.start (now := t) (.inr rfl) k2 hd hst

theorem Timers.Acc.toc {s s' : Timers K} {h : TimeLog K} (ha : s.Acc none h) {n : String} {t : K}
    (hs : s.toc n t = .ok s') : s'.Acc none (h.call (.toc n t)) := by
  simp only [Timers.toc, bind_ok, needSome_ok, assert_ok, pure_ok] at hs
  obtain ⟨u, hu, d, hd, _, -, t0, ht0, rfl⟩ := hs
  cases hst : s.stack with
  | nil => rw [hst] at hu; cases hu
  | cons p l =>
    rw [hst] at hu; cases hu
    have := ha.stack
    rw [hst] at this
    cases hr : h.running with
    | nil => rw [hr] at this; cases this
    | cons x r =>
      obtain ⟨m, t1⟩ := x
      have : t1 = t0 := by
        rw [hr] at this
        cases this with
        | cons h1 h2 h3 h4 =>
          rw [hd] at h3; cases h3
          rw [ht0] at h4; cases h4; rfl
      subst this
      have := ha.stop (now := t) hst hr
      simp only [TimeLog.call, hr]
      exact this

theorem Timers.Acc.reset {s : Timers K} {h : TimeLog K} (ha : s.Acc none h) : s.reset.Acc none {} := by
  have hno : ∀ t p, ¬ s.reset.At t p := by
    intro t p hp
    induction hp with
    | root h1 h2 => cases h1
    | child h1 h2 h3 h4 ih => exact ih
  exact ⟨ha.kids, ha.nodup, by simp [Timers.reset], by simp, .nil,
    fun t p _ h => absurd h (hno t p), fun t p _ h => absurd h (hno t p),
    fun t _ p h => absurd h (hno t p), fun t p _ h => absurd h (hno t p),
    fun t p _ h => absurd h (hno t p), fun t p _ h => absurd h (hno t p), by simp,
    fun t p h => absurd h (hno t p), by simp⟩

theorem Timers.acc_init : ({} : Timers K).Acc none {} := by
  have hno : ∀ t p, ¬ ({} : Timers K).At t p := by
    intro t p hp
    induction hp with
    | root h1 h2 => cases h1
    | child h1 h2 h3 h4 ih => exact ih
  exact ⟨by simp, by simp, by simp, by simp, .nil,
    fun t p _ h => absurd h (hno t p), fun t p _ h => absurd h (hno t p),
    fun t _ p h => absurd h (hno t p), fun t p _ h => absurd h (hno t p),
    fun t p _ h => absurd h (hno t p), fun t p _ h => absurd h (hno t p), by simp,
    fun t p h => absurd h (hno t p), by simp⟩

/-- In every reachable state the timers agree with some log. -/
theorem Timers.Reached.acc {s : Timers K} (hs : s.Reached) : ∃ h, s.Acc none h := by
  induction hs with
  | init => exact ⟨{}, Timers.acc_init⟩
  | tic h1 h2 ih =>
    obtain ⟨h, ih⟩ := ih
    exact ⟨_, ih.tic h2⟩
  | toc h1 h2 ih =>
    obtain ⟨h, ih⟩ := ih
    exact ⟨_, ih.toc h2⟩
  | reset h1 ih =>
    obtain ⟨h, ih⟩ := ih
    exact ⟨_, ih.reset⟩

theorem Timers.Acc.run {l : List (TimerCall K)} {s s' : Timers K} {h : TimeLog K} (ha : s.Acc none h)
    (hs : s.run l = .ok s') : s'.Acc none (l.foldl TimeLog.call h) := by
  induction l generalizing s h with
  | nil => cases hs; exact ha
  | cons c l ih =>
    cases c with
    | tic n t =>
      simp only [Timers.run, bind_ok] at hs
      obtain ⟨s1, h1, h2⟩ := hs
      exact ih (ha.tic h1) h2
    | toc n t =>
      simp only [Timers.run, bind_ok] at hs
      obtain ⟨s1, h1, h2⟩ := hs
      exact ih (ha.toc h1) h2

/-- The timers agree with the log of the calls since the last reset. -/
theorem Timers.Reached.log {s s' : Timers K} {l : List (TimerCall K)} (hs : s.Reached)
    (hl : s.reset.run l = .ok s') : s'.Acc none (TimeLog.of l) := by
  obtain ⟨h, ha⟩ := hs.acc
  exact ha.reset.run hl

theorem TimeLog.renew_running (h : TimeLog K) (n : String) : (h.renew n).running = h.running := by
  unfold TimeLog.renew
  split
  · rename_i hc; rw [hc.1]
  · rfl

theorem Timers.Acc.tic_ok {s : Timers K} {h : TimeLog K} (ha : s.Acc none h) (n : String) (t : K) :
    ∃ s', s.tic n t = .ok s' := by
  obtain ⟨k1, k2, k3⟩ := ha.pick n
  obtain ⟨d, hd, -⟩ := k2.heap
  simp only [Timers.tic, bind_ok, needSome_ok, need_ok, pure_ok]
  refine ⟨_, d, hd, (), ?_, rfl⟩
  by_contra hc
  obtain ⟨q, _, _, j1, j2, -, -⟩ := k1.stack.mem (k1.idle _ _ d k2 hd hc)
  rw [k1.path_unique _ _ _ j1 k2, List.length_cons, TimeLog.path, List.length_map] at j2
  omega

theorem Timers.Acc.toc_ok {s : Timers K} {h : TimeLog K} (ha : s.Acc none h) {n : String} {q : List String}
    (hp : h.path = n :: q) (t : K) : ∃ s', s.toc n t = .ok s' := by
  have hon := ha.stack
  cases hr : h.running with
  | nil => rw [TimeLog.path, hr] at hp; cases hp
  | cons x r =>
    obtain ⟨m, t0⟩ := x
    have hm : m = n := by
      rw [TimeLog.path, hr] at hp
      exact (List.cons.inj hp).1
    subst hm
    rw [hr] at hon
    cases hst : s.stack with
    | nil => rw [hst] at hon; cases hon
    | cons u l =>
      rw [hst] at hon
      cases hon with
      | cons h1 h2 h3 h4 =>
        obtain ⟨d, hd, hn⟩ := h2.heap
        rw [h3] at hd; cases hd
        simp only [Timers.toc, bind_ok, needSome_ok, assert_ok, pure_ok]
        exact ⟨_, u, by rw [hst]; rfl, _, h3, (), by simpa using hn.symm, _, h4, rfl⟩

/-- After a reset, whatever was running before, every sequence of calls in which each `toc` names the
innermost interval opened since the reset succeeds. -/
theorem C46_after_reset {s : Timers K} (hs : s.Reached) {l : List (TimerCall K)} {st : List String}
    (hl : callStack [] l = some st) : ∃ s', s.reset.run l = .ok s' := by
  obtain ⟨h0, ha0⟩ := hs.acc
  have key : ∀ (l : List (TimerCall K)) (s : Timers K) (h : TimeLog K), s.Acc none h →
      callStack h.path l = some st → ∃ s', s.run l = .ok s' := by
    intro l
    induction l with
    | nil => intro s h _ _; exact ⟨s, rfl⟩
    | cons c l ih =>
      intro s h ha hc
      cases c with
      | tic n t =>
        obtain ⟨s1, h1⟩ := ha.tic_ok n t
        obtain ⟨s', h2⟩ := ih s1 _ (ha.tic h1) (by
          have : (h.call (.tic n t)).path = n :: h.path := by
            simp [TimeLog.call, TimeLog.path, TimeLog.renew_running]
          rw [this]; exact hc)
        exact ⟨s', by simp only [Timers.run, bind_ok]; exact ⟨s1, h1, h2⟩⟩
      | toc n t =>
        cases hp : h.path with
        | nil => rw [hp] at hc; cases hc
        | cons m q =>
          rw [hp] at hc
          by_cases hmn : m = n
          · subst hmn
            simp only [callStack, if_true] at hc
            obtain ⟨s1, h1⟩ := ha.toc_ok hp t
            obtain ⟨s', h2⟩ := ih s1 _ (ha.toc h1) (by
              have : (h.call (.toc m t)).path = q := by
                cases hr : h.running with
                | nil => rw [TimeLog.path, hr] at hp; cases hp
                | cons x r =>
                  obtain ⟨y, t0⟩ := x
                  rw [TimeLog.path, hr] at hp
                  simp only [TimeLog.call, TimeLog.path, hr]
                  exact (List.cons.inj hp).2
              rw [this]; exact hc)
            exact ⟨s', by simp only [Timers.run, bind_ok]; exact ⟨s1, h1, h2⟩⟩
          · simp only [callStack, if_neg hmn] at hc; cases hc
  exact key l _ _ ha0.reset hl

/-- Every kind of interval started since the reset (or since the last change of the outermost name) has
exactly one timer, which shows how often it was started and the total length of the completed intervals;
and there are no other timers. -/
theorem C64_each_timer_right {s s' : Timers K} {l : List (TimerCall K)} (hs : s.Reached)
    (hl : s.reset.run l = .ok s') :
    (∀ p ∈ (TimeLog.of l).begun, ∃! t, s'.At t p) ∧
    ∀ t p d, s'.At t p → s'.heap[t]? = some d → p ∈ (TimeLog.of l).begun ∧ p.head? = some d.name ∧
      d.calls = (TimeLog.of l).starts p ∧ d.total = (TimeLog.of l).spent p := by
  have ha := hs.log hl
  constructor
  · intro p hp
    obtain ⟨t, ht⟩ := ha.found p hp
    exact ⟨t, ht, fun u hu => ha.id_unique u t p hu ht⟩
  · intro t p d ht hd
    obtain ⟨d', k1, k2⟩ := ht.heap
    rw [hd] at k1; cases k1
    exact ⟨ha.began t p ht (by simp), k2, ha.calls t p d ht hd, ha.total t p d ht hd⟩

/-! ### Names and descendants -/

/-- Nested names, outermost first, separated by dots. -/
def dotted : List String → String
  | [] => ""
  | [n] => n
  | n :: p => dotted p ++ "." ++ n

theorem Timers.Acc.parent_lt {ex : Option ℕ} {s : Timers K} {h : TimeLog K} (ha : s.Acc ex h) {t t' : ℕ}
    {p : List String} (ht : s.At t p) (hp : p.tail ≠ []) (ht' : s.At t' p.tail) : t' < t := by
  cases p with
  | nil => exact absurd rfl ht.ne_nil
  | cons n q =>
    obtain ⟨u, d, e, k1, k2, k3, -, -⟩ := ht.up hp
    have := ha.id_unique _ _ _ k1 ht'
    subst this
    exact (ha.kids u d k2 t k3).1

theorem Timers.Acc.fullName {ex : Option ℕ} {s : Timers K} {h : TimeLog K} (ha : s.Acc ex h) {p : List String} :
    ∀ {t fuel : ℕ}, s.At t p → t < fuel → s.fullName fuel t = .ok (dotted p) := by
  induction p with
  | nil => intro t fuel ht; exact absurd rfl ht.ne_nil
  | cons n q ih =>
    intro t fuel ht hf
    obtain ⟨d, hd, hn⟩ := ht.heap
    have hnn : n = d.name := by simpa using hn
    obtain ⟨a, b⟩ := ha.parent t _ d ht hd
    cases fuel with
    | zero => omega
    | succ fuel =>
      simp only [Timers.fullName, bind_ok, needSome_ok]
      refine ⟨d, hd, ?_⟩
      cases q with
      | nil =>
        rw [a rfl]
        simp [dotted, hnn, pure_ok]
      | cons m q =>
        obtain ⟨t', k1, k2⟩ := b (by simp)
        rw [k1]
        simp only [bind_ok, pure_ok]
        have := ha.parent_lt ht (by simp) k2
        exact ⟨_, ih (by simpa using k2) (by omega), by simp [dotted, hnn]⟩

/-- `full_name` is the nested names separated by dots. -/
theorem C64_full_name {s s' : Timers K} {l : List (TimerCall K)} (hs : s.Reached)
    (hl : s.reset.run l = .ok s') {t : ℕ} {p : List String} (ht : s'.At t p) :
    s'.fullName s'.heap.length t = .ok (dotted p) := (hs.log hl).fullName ht ht.lt

theorem Timers.Acc.child {ex : Option ℕ} {s : Timers K} {h : TimeLog K} (ha : s.Acc ex h) {t : ℕ}
    {p : List String} {d : TimerData K} (ht : s.At t p) (hd : s.heap[t]? = some d) {c : ℕ}
    (hc : c ∈ d.children) : ∃ e, s.heap[c]? = some e ∧ s.At c (e.name :: p) ∧ t < c ∧ c < s.heap.length := by
  obtain ⟨h1, h2⟩ := ha.kids t d hd c hc
  obtain ⟨e, he⟩ : ∃ e, s.heap[c]? = some e := ⟨_, List.getElem?_eq_getElem h2⟩
  exact ⟨e, he, .child ht hd hc he, h1, h2⟩

/-- The names of a timer inside another pass through one of its children. -/
theorem Timers.Acc.below {ex : Option ℕ} {s : Timers K} {h : TimeLog K} (ha : s.Acc ex h) {t : ℕ}
    {p : List String} {d : TimerData K} (ht : s.At t p) (hd : s.heap[t]? = some d) {u : ℕ} {q : List String}
    (hu : s.At u q) (hpq : p <:+ q) :
    q = p ∨ ∃ c ∈ d.children, ∃ e, s.heap[c]? = some e ∧ (e.name :: p) <:+ q := by
  induction hu with
  | @root u e h1 h2 =>
    left
    have hne := ht.ne_nil
    rcases List.suffix_cons_iff.1 hpq with e | e
    · exact e.symm
    · exact absurd (List.suffix_nil.1 e) hne
  | @child u q f c e h1 h2 h3 h4 ih =>
    rcases List.suffix_cons_iff.1 hpq with e1 | e1
    · exact .inl e1.symm
    · right
      rcases ih e1 with rfl | ⟨c', k1, e', k2, k3⟩
      · have := ha.id_unique _ _ _ ht h1
        subst this
        rw [hd] at h2; cases h2
        exact ⟨c, h3, e, h4, List.suffix_rfl⟩
      · exact ⟨c', k1, e', k2, k3.trans (List.suffix_cons _ _)⟩

theorem cons_suffix_unique {α : Type} {a b : α} {p q : List α} (h1 : (a :: p) <:+ q) (h2 : (b :: p) <:+ q) :
    a = b := by
  have := List.suffix_of_suffix_length_le h1 h2 (by simp)
  have e := this.eq_of_length (by simp)
  cases e; rfl

theorem mapM_exists {α β : Type} {f : α → Except Err β} {P : α → β → Prop} : ∀ {l : List α},
    (∀ a ∈ l, ∃ b, f a = .ok b ∧ P a b) → ∃ bs, l.mapM f = .ok bs ∧ List.Forall₂ P l bs
  | [], _ => ⟨[], rfl, .nil⟩
  | a :: l, h => by
    obtain ⟨b, h1, h2⟩ := h a (by simp)
    obtain ⟨bs, h3, h4⟩ := mapM_exists (l := l) fun a ha => h a (by simp [ha])
    refine ⟨b :: bs, ?_, .cons h2 h4⟩
    simp only [List.mapM_cons, bind_ok, pure_ok]
    exact ⟨b, h1, bs, h3, rfl⟩

theorem flatten_forall₂ {α β : Type} {R : α → β → Prop} {l : List α} {bs : List (List β)}
    (h : List.Forall₂ (fun c b => b.Nodup ∧ ∀ u, u ∈ b ↔ R c u) l bs) (hl : l.Nodup)
    (hR : ∀ c ∈ l, ∀ c' ∈ l, ∀ u, R c u → R c' u → c = c') :
    bs.flatten.Nodup ∧ ∀ u, u ∈ bs.flatten ↔ ∃ c ∈ l, R c u := by
  induction h with
  | nil => simp
  | @cons c b l bs hb h ih =>
    obtain ⟨h1, h2⟩ := List.nodup_cons.1 hl
    obtain ⟨k1, k2⟩ := ih h2 fun c hc c' hc' => hR c (by simp [hc]) c' (by simp [hc'])
    rw [List.flatten_cons]
    refine ⟨List.nodup_append.2 ⟨hb.1, k1, ?_⟩, ?_⟩
    · rintro u hu _ hv rfl
      obtain ⟨c', l1, l2⟩ := (k2 u).1 hv
      have := hR c (by simp) c' (by simp [l1]) u ((hb.2 u).1 hu) l2
      subst this
      exact h1 l1
    · intro u
      rw [List.mem_append, hb.2, k2]
      simp

theorem Timers.Acc.descendants {ex : Option ℕ} {s : Timers K} {h : TimeLog K} (ha : s.Acc ex h) (name : String) :
    ∀ {fuel t : ℕ} {p : List String}, s.At t p → s.heap.length ≤ fuel + t →
      ∃ ids, s.descendants name fuel t = .ok ids ∧ ids.Nodup ∧
        ∀ u, u ∈ ids ↔ ∃ q, s.At u q ∧ p <:+ q ∧ q.head? = some name := by
  intro fuel
  induction fuel with
  | zero => intro t p ht hf; have := ht.lt; omega
  | succ fuel ih =>
    intro t p ht hf
    obtain ⟨d, hd, hn⟩ := ht.heap
    have key : ∀ c ∈ d.children, ∃ b, s.descendants name fuel c = .ok b ∧ (b.Nodup ∧ ∀ u, u ∈ b ↔
        ∃ e, s.heap[c]? = some e ∧ ∃ q, s.At u q ∧ (e.name :: p) <:+ q ∧ q.head? = some name) := by
      intro c hc
      obtain ⟨e, k1, k2, k3, -⟩ := ha.child ht hd hc
      obtain ⟨ids, j1, j2, j3⟩ := ih k2 (by omega)
      refine ⟨ids, j1, j2, fun u => ?_⟩
      rw [j3]
      constructor
      · rintro h; exact ⟨e, k1, h⟩
      · rintro ⟨e', g1, g2⟩
        rw [k1] at g1; cases g1; exact g2
    obtain ⟨bs, h1, h2⟩ := mapM_exists key
    obtain ⟨h3, h4⟩ := flatten_forall₂ h2 (ha.nodup t d hd) (by
      rintro c hc c' hc' u ⟨e, g1, q, g2, g3, -⟩ ⟨e', g1', q', g2', g3', -⟩
      have := ha.path_unique _ _ _ g2 g2'
      subst this
      have hnm := cons_suffix_unique g3 g3'
      obtain ⟨f, i1, i2, -⟩ := ha.child ht hd hc
      obtain ⟨f', i1', i2', -⟩ := ha.child ht hd hc'
      rw [g1] at i1; cases i1
      rw [g1'] at i1'; cases i1'
      rw [hnm] at i2
      exact ha.id_unique _ _ _ i2 i2')
    refine ⟨(if name = d.name then [t] else []) ++ bs.flatten, ?_, ?_, ?_⟩
    · simp only [Timers.descendants, bind_ok, needSome_ok, pure_ok]
      exact ⟨d, hd, bs, h1, rfl⟩
    · rw [List.nodup_append]
      refine ⟨by split <;> simp, h3, ?_⟩
      rintro u hu _ hv rfl
      have hut : u = t := by
        split at hu
        · simpa using hu
        · cases hu
      subst hut
      obtain ⟨c, hc, e, g1, q, g2, g3, -⟩ := (h4 u).1 hv
      have := ha.path_unique _ _ _ g2 ht
      subst this
      have := g3.length_le
      simp at this
    · intro u
      rw [List.mem_append, h4]
      constructor
      · rintro (hu | ⟨c, hc, e, g1, q, g2, g3, g4⟩)
        · split at hu
          · rename_i hname
            have : u = t := by simpa using hu
            subst this
            exact ⟨p, ht, List.suffix_rfl, by rw [hn, hname]⟩
          · cases hu
        · exact ⟨q, g2, (List.suffix_cons _ _).trans g3, g4⟩
      · rintro ⟨q, g1, g2, g3⟩
        rcases ha.below ht hd g1 g2 with rfl | ⟨c, k1, e, k2, k3⟩
        · left
          have := ha.id_unique _ _ _ g1 ht
          subst this
          rw [hn] at g3
          rw [if_pos (by simpa using g3.symm)]
          simp
        · exact .inr ⟨c, k1, e, k2, q, g1, k3, g3⟩

/-- `get_children_recursive` answers exactly the timers with that name in or below the timer, each once. -/
theorem C64_descendants {s s' : Timers K} {l : List (TimerCall K)} (hs : s.Reached)
    (hl : s.reset.run l = .ok s') {t : ℕ} {p : List String} (ht : s'.At t p) (name : String) :
    ∃ ids, s'.descendants name s'.heap.length t = .ok ids ∧ ids.Nodup ∧
      ∀ u, u ∈ ids ↔ ∃ q, s'.At u q ∧ p <:+ q ∧ q.head? = some name :=
  (hs.log hl).descendants name ht (by omega)

/-! ### The log: time inside never exceeds the time around it -/

/-- When a call is made. -/
def TimerCall.time : TimerCall K → K
  | .tic _ t => t
  | .toc _ t => t

/-- The time spent in intervals directly inside intervals with these nested names. -/
def TimeLog.inner (h : TimeLog K) (p : List String) : K :=
  ((h.done.filter fun x => x.1.tail = p).map Prod.snd).sum

/-- Time so far in open intervals with nested names `p`. -/
def openSum (p : List String) (now : K) : List (String × K) → K
  | [] => 0
  | (n, t0) :: r => (if n :: r.map Prod.fst = p then now - t0 else 0) + openSum p now r

/-- Time so far in open intervals directly inside nested names `p`. -/
def openInner (p : List String) (now : K) : List (String × K) → K
  | [] => 0
  | (_, t0) :: r => (if r.map Prod.fst = p then now - t0 else 0) + openInner p now r

theorem openSum_zero {p : List String} (now : K) : ∀ {r : List (String × K)}, r.length < p.length →
    openSum p now r = 0
  | [], _ => rfl
  | (n, t0) :: r, h => by
    simp only [List.length_cons] at h
    rw [openSum, openSum_zero now (by omega), if_neg, add_zero]
    intro e
    have := congrArg List.length e
    simp at this
    omega

theorem openInner_zero {p : List String} (now : K) : ∀ {r : List (String × K)}, r.length ≤ p.length →
    openInner p now r = 0
  | [], _ => rfl
  | (n, t0) :: r, h => by
    simp only [List.length_cons] at h
    rw [openInner, openInner_zero now (by omega), if_neg, add_zero]
    intro e
    have := congrArg List.length e
    simp at this
    omega

section
variable [IsStrictOrderedRing K]

/-- The state of the log at a moment. -/
structure TimeLog.Fits (h : TimeLog K) (now0 : K) : Prop where
  le : ∀ x ∈ h.running, x.2 ≤ now0
  inside : ∀ now, now0 ≤ now → ∀ p ≠ [], h.inner p + openInner p now h.running ≤
    h.spent p + openSum p now h.running

theorem TimeLog.Fits.mono {h : TimeLog K} {a b : K} (hf : h.Fits a) (hab : a ≤ b) : h.Fits b :=
  ⟨fun x hx => (hf.le x hx).trans hab, fun now hn => hf.inside now (hab.trans hn)⟩

theorem TimeLog.Fits.renew {h : TimeLog K} {now0 : K} (hf : h.Fits now0) (n : String) :
    (h.renew n).Fits now0 := by
  unfold TimeLog.renew
  split
  · refine ⟨by simp, fun now _ p _ => ?_⟩
    simp [TimeLog.inner, TimeLog.spent, openInner, openSum]
  · exact hf

theorem TimeLog.Fits.tic {h : TimeLog K} {now0 t : K} (hf : h.Fits now0) (ht : now0 ≤ t) (n : String) :
    (h.call (.tic n t)).Fits t := by
  have hr := (hf.renew n).mono ht
  simp only [TimeLog.call]
  generalize h.renew n = g at hr
  refine ⟨?_, ?_⟩
  · intro x hx
    rcases List.mem_cons.1 hx with rfl | hx
    · exact le_rfl
    · exact hr.le x hx
  · intro now hn p hp
    have h1 := hr.inside now hn p hp
    show g.inner p + ((if g.running.map Prod.fst = p then now - t else 0) + openInner p now g.running) ≤
      g.spent p + ((if n :: g.running.map Prod.fst = p then now - t else 0) + openSum p now g.running)
    have hnt : 0 ≤ now - t := sub_nonneg.2 hn
    by_cases hpath : g.running.map Prod.fst = p
    · have hlen : p.length = g.running.length := by rw [← hpath, List.length_map]
      have h2 := hr.inside t le_rfl p hp
      rw [if_pos hpath, if_neg (by
        intro e
        have := congrArg List.length e
        rw [List.length_cons, List.length_map] at this
        omega)]
      rw [openInner_zero _ (by omega)] at h2 ⊢
      cases hgr : g.running with
      | nil => rw [hgr] at hpath; exact absurd hpath.symm hp
      | cons x r =>
        obtain ⟨m, t1⟩ := x
        rw [hgr] at hpath h2 hlen
        rw [openSum, if_pos (by rw [← hpath]; rfl), openSum_zero _ (by simp at hlen; omega)] at h2 ⊢
        linarith
    · rw [if_neg hpath]
      split <;> linarith

theorem TimeLog.Fits.toc {h : TimeLog K} {now0 t : K} (hf : h.Fits now0) (ht : now0 ≤ t) (n : String) :
    (h.call (.toc n t)).Fits t := by
  have hr := hf.mono ht
  cases hrun : h.running with
  | nil =>
    simp only [TimeLog.call, hrun]; exact hr
  | cons x r =>
    obtain ⟨m, t1⟩ := x
    have hpath : h.path = m :: r.map Prod.fst := by rw [TimeLog.path, hrun]; rfl
    simp only [TimeLog.call, hrun]
    refine ⟨fun x hx => hr.le x (by rw [hrun]; simp [hx]), ?_⟩
    intro now hn p hp
    have h1 := hr.inside now hn p hp
    have h2 := hr.inside t le_rfl p hp
    rw [hrun] at h1 h2
    have hnt : 0 ≤ now - t := sub_nonneg.2 hn
    simp only [TimeLog.inner, TimeLog.spent, List.filter_cons, hpath, List.tail_cons] at h1 h2 ⊢
    simp only [openInner, openSum] at h1 h2
    by_cases hA : m :: r.map Prod.fst = p
    · have hB : r.map Prod.fst ≠ p := by
        intro e
        have e1 := congrArg List.length hA
        have e2 := congrArg List.length e
        simp only [List.length_cons, List.length_map] at e1 e2
        omega
      have hlen : p.length = r.length + 1 := by rw [← hA]; simp
      simp only [hA, hB, if_true, if_false, decide_true, decide_false, List.map_cons, List.sum_cons,
        Bool.false_eq_true] at h1 h2 ⊢
      rw [openInner_zero _ (by omega)] at h2 ⊢
      rw [openSum_zero _ (by omega)] at h2 ⊢
      linarith
    · by_cases hB : r.map Prod.fst = p
      · have hA' : ¬ m :: p = p := by rw [hB] at hA; exact hA
        simp only [hB, hA', if_true, if_false, decide_true, decide_false, List.map_cons, List.sum_cons,
          Bool.false_eq_true] at h1 h2 ⊢
        linarith
      · simp only [hA, hB, if_false, decide_false, Bool.false_eq_true] at h1 h2 ⊢
        linarith

theorem TimeLog.Fits.calls {l : List (TimerCall K)} : ∀ {h : TimeLog K} {now0 : K}, h.Fits now0 →
    (∀ c ∈ l, now0 ≤ c.time) → l.Pairwise (fun a b => a.time ≤ b.time) →
    ∃ now1, (l.foldl TimeLog.call h).Fits now1 := by
  induction l with
  | nil => intro h now0 hf _ _; exact ⟨_, hf⟩
  | cons c l ih =>
    intro h now0 hf hlo hp
    obtain ⟨p1, p2⟩ := List.pairwise_cons.1 hp
    have : (h.call c).Fits c.time := by
      cases c with
      | tic n t => exact hf.tic (hlo (.tic n t) (by simp)) n
      | toc n t => exact hf.toc (hlo (.toc n t) (by simp)) n
    exact ih this p1 p2

/-- If the clock never goes back and nothing is running, the time inside is at most the time around it. -/
theorem C64_inside_at_most {l : List (TimerCall K)} (hclock : l.Pairwise fun a b => a.time ≤ b.time)
    (hend : (TimeLog.of l).running = []) {p : List String} (hp : p ≠ []) :
    (TimeLog.of l).inner p ≤ (TimeLog.of l).spent p := by
  have h0 : ∀ a : K, ({} : TimeLog K).Fits a := fun a =>
    ⟨by simp, fun now _ p _ => by simp [TimeLog.inner, TimeLog.spent, openInner, openSum]⟩
  obtain ⟨now1, hf⟩ : ∃ now1, (TimeLog.of l).Fits now1 := by
    cases l with
    | nil => exact ⟨0, h0 0⟩
    | cons c l =>
      refine (h0 c.time).calls ?_ hclock
      intro c' hc'
      rcases List.mem_cons.1 hc' with rfl | hc'
      · exact le_rfl
      · exact (List.pairwise_cons.1 hclock).1 c' hc'
  have := hf.inside now1 le_rfl p hp
  rw [hend] at this
  simpa [openInner, openSum] using this

/-- Every interval started is open or was completed after a positive time. -/
structure TimeLog.Ran (h : TimeLog K) : Prop where
  pos : ∀ x ∈ h.done, 0 < x.2
  done : ∀ p ∈ h.begun, (∃ x ∈ h.done, x.1 = p) ∨ p <:+ h.path

theorem TimeLog.Ran.calls {l : List (TimerCall K)} : ∀ {h : TimeLog K}, h.Ran →
    (∀ c ∈ l, ∀ x ∈ h.running, x.2 < c.time) → l.Pairwise (fun a b => a.time < b.time) →
    (l.foldl TimeLog.call h).Ran := by
  induction l with
  | nil => intro h hf _ _; exact hf
  | cons c l ih =>
    intro h hf hlo hp
    obtain ⟨p1, p2⟩ := List.pairwise_cons.1 hp
    refine ih ?_ ?_ p2
    · cases c with
      | tic n t =>
        have hr : (h.renew n).Ran := by
          unfold TimeLog.renew; split
          · exact ⟨by simp, by simp⟩
          · exact hf
        simp only [TimeLog.call]
        generalize h.renew n = g at hr
        refine ⟨hr.pos, ?_⟩
        intro p hp
        show _ ∨ p <:+ n :: g.path
        rcases List.mem_cons.1 hp with rfl | hp
        · exact .inr List.suffix_rfl
        · exact (hr.done p hp).imp id fun h => h.trans (List.suffix_cons _ _)
      | toc n t =>
        cases hrun : h.running with
        | nil => simp only [TimeLog.call, hrun]; exact hf
        | cons x r =>
          obtain ⟨m, t1⟩ := x
          have hpath : h.path = m :: r.map Prod.fst := by rw [TimeLog.path, hrun]; rfl
          simp only [TimeLog.call, hrun]
          constructor
          · intro x hx
            rcases List.mem_cons.1 hx with rfl | hx
            · exact sub_pos.2 (hlo (.toc n t) (by simp) (m, t1) (by rw [hrun]; simp))
            · exact hf.pos x hx
          · intro p hp
            show (∃ x ∈ (h.path, t - t1) :: h.done, x.1 = p) ∨ p <:+ r.map Prod.fst
            rcases hf.done p hp with ⟨x, hx, rfl⟩ | hs
            · exact .inl ⟨x, by simp [hx], rfl⟩
            · rw [hpath] at hs
              rcases List.suffix_cons_iff.1 hs with rfl | hs
              · exact .inl ⟨(h.path, t - t1), by simp, hpath⟩
              · exact .inr hs
    · intro c' hc' x hx
      cases c with
      | tic n t =>
        have hx : x = (n, t) ∨ x ∈ (h.renew n).running := by simpa [TimeLog.call] using hx
        rcases hx with rfl | hx
        · exact p1 c' hc'
        · unfold TimeLog.renew at hx
          split at hx
          · cases hx
          · exact hlo c' (by simp [hc']) x hx
      | toc n t =>
        refine hlo c' (by simp [hc']) x ?_
        cases hrun : h.running with
        | nil => simp only [TimeLog.call, hrun] at hx; cases hx
        | cons y r =>
          obtain ⟨m, t1⟩ := y
          simp only [TimeLog.call, hrun] at hx
          simp [hx]

/-- If the clock advances between calls and nothing is running, everything started took time. -/
theorem C64_everything_took_time {l : List (TimerCall K)} (hclock : l.Pairwise fun a b => a.time < b.time)
    (hend : (TimeLog.of l).running = []) {p : List String} (hp : p ∈ (TimeLog.of l).begun) :
    0 < (TimeLog.of l).spent p := by
  have hr : (TimeLog.of l).Ran := by
    refine TimeLog.Ran.calls (h := {}) ⟨by simp, by simp⟩ (by simp) hclock
  have hne : p ≠ [] := by
    have : ∀ (l : List (TimerCall K)) (h : TimeLog K), [] ∉ h.begun → [] ∉ (l.foldl TimeLog.call h).begun := by
      intro l
      induction l with
      | nil => intro h hh; exact hh
      | cons c l ih =>
        intro h hh
        refine ih _ ?_
        cases c with
        | tic n t =>
          simp only [TimeLog.call, List.mem_cons, not_or]
          refine ⟨by simp, ?_⟩
          unfold TimeLog.renew; split
          · simp
          · exact hh
        | toc n t =>
          simp only [TimeLog.call]
          split
          · exact hh
          · exact hh
    rintro rfl
    exact this l {} (by simp) hp
  obtain ⟨x, hx, rfl⟩ : ∃ x ∈ (TimeLog.of l).done, x.1 = p := by
    rcases hr.done p hp with h | h
    · exact h
    · rw [TimeLog.path, hend] at h
      exact absurd (List.suffix_nil.1 h) hne
  unfold TimeLog.spent
  have hall : ∀ y ∈ ((TimeLog.of l).done.filter fun y => y.1 = x.1).map Prod.snd, 0 < y := by
    intro y hy
    obtain ⟨z, hz, rfl⟩ := List.mem_map.1 hy
    exact hr.pos z (List.mem_filter.1 hz).1
  refine List.sum_pos _ hall ?_
  intro e
  have : x.2 ∈ ((TimeLog.of l).done.filter fun y => y.1 = x.1).map Prod.snd :=
    List.mem_map.2 ⟨x, List.mem_filter.2 ⟨hx, by simp⟩, rfl⟩
  rw [e] at this
  cases this

/-! ### The printed lines -/

/-- Is this the line of a timer (rather than an `Other` line)? -/
def StatLine.isTimer : StatLine K → Bool
  | .timer .. => true
  | .other .. => false

/-- The colour of a percentage: bold above 50, grey below 5. -/
def colourOf (percent : K) : Shade :=
  if 50 < percent then .bold else if 5 ≤ percent then .normal else .grey

theorem colourOf_eq (x : K) : shadeOf x = colourOf x := by
  unfold shadeOf colourOf
  by_cases h : x < 5
  · rw [if_pos h, if_neg (by linarith), if_neg (not_le.2 h)]
  · rw [if_neg h, if_pos (not_lt.1 h)]

/-- The line the report should have for the nested names `p`, when `all` is the time of the outermost
timer. -/
def TimeLog.line (h : TimeLog K) (all : K) (p : List String) : StatLine K :=
  .timer (p.length - 1) (p.headD "") (h.starts p) (h.spent p)
    (if p.tail = [] then none else some (100 * h.spent p / h.spent p.tail)) (colourOf (100 * h.spent p / all))

/-- The `Other` line the report should have for the nested names `p`. -/
def TimeLog.otherLine (h : TimeLog K) (p : List String) : StatLine K :=
  .other p.length (h.spent p - h.inner p) (100 * (h.spent p - h.inner p) / h.spent p) .grey

theorem sum_single {α : Type} {g : ℕ → α} [DecidableEq α] {v : K} {x : α} : ∀ {cs : List ℕ}, cs.Nodup →
    (∀ c ∈ cs, ∀ c' ∈ cs, g c = g c' → c = c') →
    (cs.map fun c => if x = g c then v else 0).sum = if ∃ c ∈ cs, g c = x then v else 0
  | [], _, _ => by simp
  | c :: cs, hn, hg => by
    obtain ⟨h1, h2⟩ := List.nodup_cons.1 hn
    have ih := sum_single (v := v) (x := x) h2 fun c hc c' hc' => hg c (by simp [hc]) c' (by simp [hc'])
    rw [List.map_cons, List.sum_cons, ih]
    by_cases hx : x = g c
    · have : ¬ ∃ c' ∈ cs, g c' = x := by
        rintro ⟨c', h3, h4⟩
        have := hg c' (by simp [h3]) c (by simp) (h4.trans hx)
        subst this
        exact h1 h3
      rw [if_pos hx, if_neg this, if_pos ⟨c, by simp, hx.symm⟩, add_zero]
    · rw [if_neg hx, zero_add]
      congr 1
      simp only [List.mem_cons, exists_eq_or_imp, eq_iff_iff]
      constructor
      · exact .inr
      · rintro (h | h)
        · exact absurd h.symm hx
        · exact h

theorem sum_split {p : List String} {g : ℕ → List String} {cs : List ℕ} (hn : cs.Nodup)
    (hg : ∀ c ∈ cs, ∀ c' ∈ cs, g c = g c' → c = c') : ∀ {D : List (List String × K)},
    (∀ x ∈ D, x.1.tail = p ↔ ∃ c ∈ cs, g c = x.1) →
    (cs.map fun c => ((D.filter fun x => x.1 = g c).map Prod.snd).sum).sum =
      ((D.filter fun x => x.1.tail = p).map Prod.snd).sum
  | [], _ => by simp
  | x :: D, h => by
    have ih := sum_split hn hg (D := D) fun y hy => h y (by simp [hy])
    have e : ∀ c, (((x :: D).filter fun y => y.1 = g c).map Prod.snd).sum =
        (if x.1 = g c then x.2 else 0) + ((D.filter fun y => y.1 = g c).map Prod.snd).sum := by
      intro c
      rw [List.filter_cons]
      by_cases hx : x.1 = g c <;> simp [hx]
    simp only [e]
    rw [List.sum_map_add, ih, sum_single hn hg, List.filter_cons]
    by_cases hx : x.1.tail = p
    · have hx' : ∃ c ∈ cs, g c = x.1 := (h x (by simp)).1 hx
      rw [if_pos hx']
      simp [hx]
    · have hx' : ¬ ∃ c ∈ cs, g c = x.1 := fun hc => hx ((h x (by simp)).2 hc)
      rw [if_neg hx']
      simp [hx]

/-- The lines for `p` and everything below it. -/
def LinesFor (s : Timers K) (h : TimeLog K) (all : K) (R : List String → Prop) (lines : List (StatLine K)) : Prop :=
  ∃ ps : List (List String), ps.Nodup ∧ (∀ q, q ∈ ps ↔ R q) ∧
    lines.filter StatLine.isTimer = ps.map (h.line all) ∧
    ∀ x ∈ lines, x.isTimer = false → ∃ u q, s.At u q ∧ (∃ n v, s.At v (n :: q)) ∧ x = h.otherLine q

theorem lines_flatten {s : Timers K} {h : TimeLog K} {all : K} {R : ℕ → List String → Prop} {l : List ℕ}
    {bs : List (List (StatLine K))} (hb : List.Forall₂ (fun c b => LinesFor s h all (R c) b) l bs)
    (hl : l.Nodup) (hR : ∀ c ∈ l, ∀ c' ∈ l, ∀ q, R c q → R c' q → c = c') :
    LinesFor s h all (fun q => ∃ c ∈ l, R c q) bs.flatten := by
  induction hb with
  | nil => exact ⟨[], by simp, by simp, by simp, by simp⟩
  | @cons c b l bs hb _ ih =>
    obtain ⟨h1, h2⟩ := List.nodup_cons.1 hl
    obtain ⟨ps, a1, a2, a3, a4⟩ := hb
    obtain ⟨qs, b1, b2, b3, b4⟩ := ih h2 fun c hc c' hc' => hR c (by simp [hc]) c' (by simp [hc'])
    refine ⟨ps ++ qs, List.nodup_append.2 ⟨a1, b1, ?_⟩, ?_, ?_, ?_⟩
    · rintro u hu _ hv rfl
      obtain ⟨c', l1, l2⟩ := (b2 u).1 hv
      have := hR c (by simp) c' (by simp [l1]) u ((a2 u).1 hu) l2
      subst this
      exact h1 l1
    · intro q
      rw [List.mem_append, a2, b2]
      simp
    · rw [List.flatten_cons, List.filter_append, a3, b3, List.map_append]
    · intro x hx
      rw [List.flatten_cons] at hx
      rcases List.mem_append.1 hx with hx | hx
      · exact a4 x hx
      · exact b4 x hx

theorem forall₂_map {α β : Type} {f : α → β} {l : List α} {bs : List β}
    (h : List.Forall₂ (fun a b => b = f a) l bs) : bs = l.map f := by
  induction h with
  | nil => rfl
  | cons h _ ih => rw [h, ih]; rfl

theorem Timers.Acc.statLines {s : Timers K} {h : TimeLog K} (ha : s.Acc none h) {all : K} (hall : 0 < all)
    (hstop : ∀ t p d, s.At t p → s.heap[t]? = some d → d.start = none)
    (hpos : ∀ t p, s.At t p → 0 < h.spent p) (hle : ∀ t p, s.At t p → h.spent p ≤ all)
    (hin : ∀ p, 0 ≤ h.inner p) :
    ∀ {fuel t : ℕ} {p : List String} {level : ℕ} {total : K}, s.At t p → s.heap.length ≤ fuel + t →
      level + 1 = p.length → (if level = 0 then h.spent p else total) = all →
      ∃ lines, s.statLines fuel t level total = .ok lines ∧
        LinesFor s h all (fun q => (∃ u, s.At u q) ∧ p <:+ q) lines := by
  intro fuel
  induction fuel with
  | zero => intro t p _ _ ht hf; have := ht.lt; omega
  | succ fuel ih =>
    intro t p level total ht hf hlev hall'
    obtain ⟨d, hd, hn⟩ := ht.heap
    have htot := ha.total t p d ht hd
    have hpne := ht.ne_nil
    have hall2 : (if level = 0 then d.total else total) = all := by rw [htot]; exact hall'
    -- the percentage
    have hpc : s.percentOf d = .ok (if p.tail = [] then none else some (100 * h.spent p / h.spent p.tail)) := by
      obtain ⟨a, b⟩ := ha.parent t p d ht hd
      unfold Timers.percentOf
      by_cases hp : p.tail = []
      · rw [a hp, if_pos hp]
      · obtain ⟨t', k1, k2⟩ := b hp
        obtain ⟨e, he, -⟩ := k2.heap
        have het := ha.total _ _ _ k2 he
        rw [k1, if_neg hp]
        simp only [bind_ok, needSome_ok, need_ok, pure_ok]
        refine ⟨e, he, (), ?_, ?_⟩
        · rw [het]; exact (hpos _ _ k2).ne'
        · rw [htot, het]
    -- the children
    have key : ∀ c ∈ d.children, ∃ b, s.statLines fuel c (level + 1) all = .ok b ∧
        LinesFor s h all (fun q => ∃ e, s.heap[c]? = some e ∧ (∃ u, s.At u q) ∧ (e.name :: p) <:+ q) b := by
      intro c hc
      obtain ⟨e, k1, k2, k3, -⟩ := ha.child ht hd hc
      obtain ⟨b, j1, ps, j2, j3, j4⟩ := ih (level := level + 1) (total := all) k2 (by omega) (by simp; omega) (by simp)
      refine ⟨b, j1, ps, j2, fun q => ?_, j4⟩
      rw [j3]
      constructor
      · rintro h; exact ⟨e, k1, h⟩
      · rintro ⟨e', g1, g2⟩
        rw [k1] at g1; cases g1; exact g2
    obtain ⟨bs, h1, h2⟩ := mapM_exists key
    have hinj : ∀ c ∈ d.children, ∀ c' ∈ d.children, ∀ e e' : TimerData K, s.heap[c]? = some e →
        s.heap[c']? = some e' → e.name = e'.name → c = c' := by
      intro c hc c' hc' e e' he he' hnm
      obtain ⟨f, i1, i2, -⟩ := ha.child ht hd hc
      obtain ⟨f', i1', i2', -⟩ := ha.child ht hd hc'
      rw [he] at i1; cases i1
      rw [he'] at i1'; cases i1'
      rw [hnm] at i2
      exact ha.id_unique _ _ _ i2 i2'
    obtain ⟨ps, h3, h4, h5, h6⟩ := lines_flatten h2 (ha.nodup t d hd) (by
      rintro c hc c' hc' q ⟨e, g1, -, g3⟩ ⟨e', g1', -, g3'⟩
      exact hinj c hc c' hc' e e' g1 g1' (cons_suffix_unique g3 g3'))
    -- their times
    set g : ℕ → List String := fun c => (((s.heap[c]?).map fun e => e.name).getD "") :: p with hg
    have hsecs : ∀ c ∈ d.children, ∃ x, (do
        let e ← needSome s.heap[c]?
        return e.total : Except Err K) = .ok x ∧ x = h.spent (g c) := by
      intro c hc
      obtain ⟨e, k1, k2, -⟩ := ha.child ht hd hc
      refine ⟨e.total, ?_, ?_⟩
      · simp only [bind_ok, needSome_ok, pure_ok]; exact ⟨e, k1, rfl⟩
      · rw [ha.total _ _ _ k2 k1, hg]; simp [k1]
    obtain ⟨xs, h7, h8⟩ := mapM_exists hsecs
    have hsum : xs.sum = h.inner p := by
      rw [forall₂_map h8]
      refine sum_split (ha.nodup t d hd) ?_ ?_
      · intro c hc c' hc' hcc
        obtain ⟨e, k1, -⟩ := ha.child ht hd hc
        obtain ⟨e', k1', -⟩ := ha.child ht hd hc'
        refine hinj c hc c' hc' e e' k1 k1' ?_
        simpa [hg, k1, k1'] using hcc
      · intro x hx
        obtain ⟨u, hu⟩ := ha.found _ (ha.done_sub x hx)
        constructor
        · intro hxt
          obtain ⟨m, q, hxe⟩ : ∃ m q, x.1 = m :: q := List.exists_cons_of_ne_nil hu.ne_nil
          rw [hxe] at hu hxt ⊢
          have hxt : q = p := hxt
          subst hxt
          obtain ⟨t', d', e, k1, k2, k3, k4, k5⟩ := hu.up hpne
          have := ha.id_unique _ _ _ k1 ht
          subst this
          rw [hd] at k2; cases k2
          exact ⟨u, k3, by simp [hg, k4, k5]⟩
        · rintro ⟨c, -, hc⟩
          rw [← hc]; rfl
    -- the `Other` line
    have hoth : ∃ o, Hylaa.otherLine d level xs.sum all = .ok o ∧ ((d.children = [] ∧ o = []) ∨
        (d.children ≠ [] ∧ o = [h.otherLine p])) := by
      unfold Hylaa.otherLine
      by_cases hc : d.children = []
      · rw [if_pos hc]; exact ⟨[], rfl, .inl ⟨hc, rfl⟩⟩
      · rw [if_neg hc]
        refine ⟨[h.otherLine p], ?_, .inr ⟨hc, rfl⟩⟩
        simp only [bind_ok, need_ok, pure_ok]
        refine ⟨(), ?_, ?_⟩
        · rw [htot]; exact (hpos _ _ ht).ne'
        · rw [hsum, htot, hlev]
          unfold TimeLog.otherLine shadeOf
          rw [if_pos]
          rw [div_lt_iff₀ hall]
          have := hin p
          have := hle _ _ ht
          linarith
    obtain ⟨o, h9, h10⟩ := hoth
    have hname : d.name = p.headD "" := by
      cases p with
      | nil => exact absurd rfl hpne
      | cons n q => simpa using hn.symm
    have hoF : o.filter StatLine.isTimer = [] := by
      rcases h10 with ⟨-, rfl⟩ | ⟨-, rfl⟩
      · rfl
      · simp [TimeLog.otherLine, StatLine.isTimer]
    refine ⟨.timer level d.name d.calls d.total
      (if p.tail = [] then none else some (100 * h.spent p / h.spent p.tail))
      (shadeOf (100 * d.total / if level = 0 then d.total else total)) :: (bs.flatten ++ o),
      ?_, p :: ps, ?_, ?_, ?_, ?_⟩
    · simp only [Timers.statLines, bind_ok, needSome_ok, need_ok, pure_ok]
      refine ⟨d, hd, (), ?_, (), hstop t p d ht hd, _, hpc, bs, ?_, xs, h7, o, ?_, rfl⟩
      · rw [hall2]; exact hall.ne'
      · rw [hall2]; exact h1
      · rw [hall2]; exact h9
    · refine List.nodup_cons.2 ⟨?_, h3⟩
      intro hp
      obtain ⟨c, hc, e, -, -, k⟩ := (h4 p).1 hp
      have := k.length_le
      simp at this
    · intro q
      rw [List.mem_cons, h4]
      constructor
      · rintro (rfl | ⟨c, hc, e, g1, g2, g3⟩)
        · exact ⟨⟨t, ht⟩, List.suffix_rfl⟩
        · exact ⟨g2, (List.suffix_cons _ _).trans g3⟩
      · rintro ⟨⟨u, hu⟩, hpq⟩
        rcases ha.below ht hd hu hpq with rfl | ⟨c, k1, e, k2, k3⟩
        · exact .inl rfl
        · exact .inr ⟨c, k1, e, k2, ⟨u, hu⟩, k3⟩
    · rw [List.filter_cons, if_pos (by rfl), List.filter_append, h5, hoF, List.append_nil, List.map_cons]
      congr 1
      unfold TimeLog.line
      rw [hall2, htot, ha.calls t p d ht hd, hname, colourOf_eq]
      congr 1
      omega
    · intro x hx hxt
      rcases List.mem_cons.1 hx with rfl | hx
      · cases hxt
      rcases List.mem_append.1 hx with hx | hx
      · exact h6 x hx hxt
      · rcases h10 with ⟨-, rfl⟩ | ⟨hc, rfl⟩
        · cases hx
        · rw [List.mem_singleton] at hx
          obtain ⟨c, hc⟩ := List.exists_mem_of_ne_nil _ hc
          obtain ⟨e, k1, k2, -⟩ := ha.child ht hd hc
          exact ⟨t, p, ht, ⟨_, _, k2⟩, hx⟩

theorem sum_filter_le {α : Type} {P Q : α → Prop} [DecidablePred P] [DecidablePred Q] {f : α → K}
    (hPQ : ∀ x, P x → Q x) : ∀ {D : List α}, (∀ x ∈ D, 0 ≤ f x) →
    ((D.filter fun x => P x).map f).sum ≤ ((D.filter fun x => Q x).map f).sum
  | [], _ => by simp
  | x :: D, h => by
    have ih := sum_filter_le (f := f) hPQ (D := D) fun y hy => h y (by simp [hy])
    have hx := h x (by simp)
    rw [List.filter_cons, List.filter_cons]
    by_cases hP : P x
    · simp only [hP, hPQ x hP, decide_true, if_true, List.map_cons, List.sum_cons]
      linarith
    · by_cases hQ : Q x
      · simp only [hP, hQ, decide_true, decide_false, if_true, Bool.false_eq_true, if_false, List.map_cons,
          List.sum_cons]
        linarith
      · simp only [hP, hQ, decide_false, Bool.false_eq_true, if_false]
        exact ih

theorem TimeLog.of_ran {l : List (TimerCall K)} (hclock : l.Pairwise fun a b => a.time < b.time) :
    (TimeLog.of l).Ran := TimeLog.Ran.calls (h := {}) ⟨by simp, by simp⟩ (by simp) hclock

theorem TimeLog.inner_nonneg {h : TimeLog K} (hr : h.Ran) (p : List String) : 0 ≤ h.inner p := by
  unfold TimeLog.inner
  refine List.sum_nonneg ?_
  intro y hy
  obtain ⟨z, hz, rfl⟩ := List.mem_map.1 hy
  exact (hr.pos z (List.mem_filter.1 hz).1).le

theorem Timers.Acc.running_iff {ex : Option ℕ} {s : Timers K} {h : TimeLog K} (ha : s.Acc ex h) :
    s.stack = [] ↔ h.running = [] := by
  have := ha.stack
  generalize s.stack = a at this
  generalize h.running = b at this
  cases this <;> simp

/-- Every name begins with the outermost one. -/
theorem Timers.Acc.under_root {ex : Option ℕ} {s : Timers K} {h : TimeLog K} (ha : s.Acc ex h) {r : String}
    (hr : h.root = some r) {u : ℕ} {q : List String} (hu : s.At u q) : [r] <:+ q := by
  induction hu with
  | root h1 h2 =>
    obtain ⟨d, k1, -, k3⟩ := ha.topSome _ h1
    rw [h2] at k1; cases k1
    rw [hr] at k3
    have : r = _ := Option.some.inj k3
    rw [this]
  | child h1 h2 h3 h4 ih => exact ih.trans (List.suffix_cons _ _)

/-- The report.  If the clock advances between calls and every interval is closed, `print_stats` succeeds.
It prints one line per kind of interval started (since the reset or the last change of the outermost name),
with its depth, name, number of starts, total time and share of the time around it; the `Other` lines show
the time not spent inside, which is never negative, and are always grey. -/
theorem C64_report {s s' : Timers K} {l : List (TimerCall K)} (hs : s.Reached)
    (hl : s.reset.run l = .ok s') (hclock : l.Pairwise fun a b => a.time < b.time)
    (hend : (TimeLog.of l).running = []) {r : String} (hr : (TimeLog.of l).root = some r) :
    ∃ (lines : List (StatLine K)) (names : List (List String)), s'.printStats = .ok lines ∧ names.Nodup ∧ (∀ p, p ∈ names ↔ p ∈ (TimeLog.of l).begun) ∧
      lines.filter StatLine.isTimer = names.map ((TimeLog.of l).line ((TimeLog.of l).spent [r])) ∧
      ∀ x ∈ lines, x.isTimer = false → ∃ p ∈ (TimeLog.of l).begun, (∃ n, n :: p ∈ (TimeLog.of l).begun) ∧
        x = (TimeLog.of l).otherLine p ∧ 0 ≤ (TimeLog.of l).spent p - (TimeLog.of l).inner p := by
  have ha := hs.log hl
  have hran := TimeLog.of_ran hclock
  have hbegun : ∀ t p, s'.At t p → p ∈ (TimeLog.of l).begun := fun t p h => ha.began t p h (by simp)
  have hpos : ∀ t p, s'.At t p → 0 < (TimeLog.of l).spent p := fun t p h =>
    C64_everything_took_time hclock hend (hbegun t p h)
  have hstop : ∀ t p d, s'.At t p → s'.heap[t]? = some d → d.start = none := by
    intro t p d h1 h2
    by_contra hc
    have := ha.idle t p d h1 h2 hc
    rw [ha.running_iff.2 hend] at this
    cases this
  have hinside : ∀ {p}, p ≠ [] → (TimeLog.of l).inner p ≤ (TimeLog.of l).spent p := fun hp =>
    C64_inside_at_most (hclock.imp fun h => h.le) hend hp
  cases htop : s'.top with
  | none => rw [ha.topNone htop] at hr; cases hr
  | some t =>
    obtain ⟨d, hd, -, hroot⟩ := ha.topSome t htop
    rw [hr] at hroot
    have hrn : r = d.name := Option.some.inj hroot
    have ht : s'.At t [r] := by rw [hrn]; exact .root htop hd
    have hle : ∀ u p, s'.At u p → (TimeLog.of l).spent p ≤ (TimeLog.of l).spent [r] := by
      intro u p hu
      induction hu with
      | root h1 h2 =>
        rw [htop] at h1; cases h1
        rw [hd] at h2; cases h2
        rw [hrn]
      | @child u p d c e h1 h2 h3 h4 ih =>
        refine le_trans (sum_filter_le ?_ fun x hx => (hran.pos x hx).le) ((hinside h1.ne_nil).trans ih)
        intro x hx
        rw [hx]; rfl
    obtain ⟨lines, h1, ps, h2, h3, h4, h5⟩ := ha.statLines (hpos _ _ ht) hstop hpos hle
      (fun p => TimeLog.inner_nonneg hran p) (fuel := s'.heap.length + 1) (level := 0) (total := 0) ht
      (by omega) rfl (by simp)
    refine ⟨lines, ps, ?_, h2, ?_, h4, ?_⟩
    · unfold Timers.printStats
      simp only [bind_ok, needSome_ok]
      exact ⟨t, htop, h1⟩
    · intro p
      rw [h3]
      constructor
      · rintro ⟨⟨u, hu⟩, -⟩; exact hbegun u p hu
      · intro hp
        obtain ⟨u, hu⟩ := ha.found p hp
        exact ⟨⟨u, hu⟩, ha.under_root hr hu⟩
    · intro x hx hxt
      obtain ⟨u, q, k1, ⟨n, v, k2⟩, k3⟩ := h5 x hx hxt
      exact ⟨q, hbegun u q k1, ⟨n, hbegun v _ k2⟩, k3, sub_nonneg.2 (hinside k1.ne_nil)⟩

/-- A report while something is running, or before anything was started, is refused. -/
theorem C64_report_needs_closed {s s' : Timers K} {l : List (TimerCall K)} (hs : s.Reached)
    (hl : s.reset.run l = .ok s') (h : (TimeLog.of l).running ≠ [] ∨ (TimeLog.of l).root = none) :
    ∃ e, s'.printStats = .error e := by
  have ha := hs.log hl
  cases hp : s'.printStats with
  | error e => exact ⟨e, rfl⟩
  | ok lines =>
    exfalso
    simp only [Timers.printStats, Timers.statLines, bind_ok, needSome_ok, need_ok, pure_ok] at hp
    obtain ⟨t, htop, d, hd, _, -, _, hst, -⟩ := hp
    rcases h with h | h
    · obtain ⟨d', k1, k2, k3⟩ := ha.topSome t htop
      -- the outermost running timer is the top
      have key : ∀ {a : List ℕ} {b : List (String × K)}, s'.OnStack a b → b ≠ [] →
          ∃ u n t0 e, s'.At u [n] ∧ s'.heap[u]? = some e ∧ e.start = some t0 := by
        intro a b hab
        induction hab with
        | nil => intro h; exact absurd rfl h
        | @cons u l n t0 r e h1 h2 h3 h4 ih =>
          intro _
          by_cases hr : r = []
          · subst hr
            exact ⟨u, n, t0, e, h2, h3, h4⟩
          · exact ih hr
      obtain ⟨u, n, t0, e, j1, j2, j3⟩ := key ha.stack h
      have hsuf := ha.under_root k3 j1
      have hnn : d'.name = n := by
        have := hsuf.eq_of_length (by simp)
        simpa using this
      have hat : s'.At t [n] := by rw [← hnn]; exact .root htop k1
      have := ha.id_unique _ _ _ hat j1
      subst this
      rw [hd] at j2; cases j2
      rw [hst] at j3; cases j3
    · obtain ⟨d', k1, k2, k3⟩ := ha.topSome t htop
      rw [h] at k3; cases k3

/-- If the clock did not advance during the outermost intervals, the report is a division by zero. -/
theorem C64_report_needs_time {s s' : Timers K} {l : List (TimerCall K)} (hs : s.Reached)
    (hl : s.reset.run l = .ok s') {r : String} (hr : (TimeLog.of l).root = some r)
    (h0 : (TimeLog.of l).spent [r] = 0) : s'.printStats = .error .runtime := by
  have ha := hs.log hl
  cases htop : s'.top with
  | none => rw [ha.topNone htop] at hr; cases hr
  | some t =>
    obtain ⟨d, hd, -, hroot⟩ := ha.topSome t htop
    rw [hr] at hroot
    have hrn : r = d.name := Option.some.inj hroot
    have ht : s'.At t [r] := by rw [hrn]; exact .root htop hd
    have := ha.total t _ d ht hd
    rw [h0] at this
    simp [Timers.printStats, Timers.statLines, needSome, htop, hd, need, this, bind, Except.bind]

end

end

/-! ### An example -/

/-- `total` contains `lp` twice; the second one contains `glpk`. -/
def reportEx : List (TimerCall ℚ) :=
  [.tic "total" 0, .tic "lp" 1, .toc "lp" 3, .tic "lp" 4, .tic "glpk" 5, .toc "glpk" 7, .toc "lp" 8,
    .toc "total" 20]

theorem reportEx_clock : reportEx.Pairwise fun a b => a.time < b.time := by
  unfold reportEx TimerCall.time
  decide +kernel

theorem reportEx_log : (TimeLog.of reportEx).running = [] ∧ (TimeLog.of reportEx).root = some "total" ∧
    (TimeLog.of reportEx).spent ["lp", "total"] = 6 ∧ (TimeLog.of reportEx).starts ["lp", "total"] = 2 ∧
    (TimeLog.of reportEx).inner ["total"] = 6 ∧ (TimeLog.of reportEx).spent ["total"] = 20 := by
  decide +kernel

/-- The hypotheses of `C64_report` are met, here after an earlier use of the timers and a reset. -/
example : ∃ (s s' : Timers ℚ) (lines : List (StatLine ℚ)), s.Reached ∧ s.reset.run reportEx = .ok s' ∧
    s'.printStats = .ok lines ∧ ∃ x ∈ lines, x = .timer 1 "lp" 2 6 (some 30) .normal := by
  obtain ⟨s, h1⟩ : ∃ s, ({} : Timers ℚ).tic "old" 0 = .ok s := by
    obtain ⟨s, h, -⟩ := Timers.tic_spec (K := ℚ) Timers.inv_init "old" 0
    exact ⟨s, h⟩
  have hs : s.Reached := .tic .init h1
  obtain ⟨s', h2⟩ := C46_after_reset hs (l := reportEx) (st := []) (by decide +kernel)
  obtain ⟨lines, names, h3, -, h5, h6, -⟩ := C64_report hs h2 reportEx_clock reportEx_log.1 reportEx_log.2.1
  refine ⟨s, s', lines, hs, h2, h3, (TimeLog.of reportEx).line 20 ["lp", "total"], ?_, by decide +kernel⟩
  have hn : ["lp", "total"] ∈ names := (h5 _).2 (by decide +kernel)
  have : (TimeLog.of reportEx).line 20 ["lp", "total"] ∈ lines.filter StatLine.isTimer := by
    rw [h6, reportEx_log.2.2.2.2.2]
    exact List.mem_map.2 ⟨_, hn, rfl⟩
  exact (List.mem_filter.1 this).1

/-- The hypotheses of `C64_report_needs_time` are met by a section the clock is too coarse for. -/
example : ∃ s' : Timers ℚ, ({} : Timers ℚ).reset.run [.tic "total" 7, .toc "total" 7] = .ok s' ∧
    s'.printStats = .error .runtime := by
  obtain ⟨s', h⟩ := C46_after_reset (K := ℚ) .init (l := [.tic "total" 7, .toc "total" 7]) (st := [])
    (by decide +kernel)
  exact ⟨s', h, C64_report_needs_time .init h (r := "total") (by decide +kernel) (by decide +kernel)⟩

end Hylaa
