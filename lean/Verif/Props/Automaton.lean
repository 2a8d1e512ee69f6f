import Verif.Model.Build
import Verif.Proofs.Inv
import Verif.Proofs.Accept
import Verif.Props.Build
import Mathlib.Data.List.Basic

/-!
# C26: automaton construction
-/

set_option linter.unusedSectionVars false

namespace Hylaa
open Spec
variable {K : Type} [Field K] [LinearOrder K]

/-- What a consistent automaton is: mode `i` has id `i`; names are unique; every transition
connects existing modes and its source mode lists it exactly at its `transition_index`; everything a
mode lists is a transition leaving it with that index. -/
structure Spec.Consistent (ha : HA K) : Prop where
  ids : ∀ (i : ℕ) (m : Mode K), ha.modes[i]? = some m → m.id = i
  names : (ha.modes.map fun m => m.name).Nodup
  len : ha.out.length = ha.modes.length
  ends : ∀ t ∈ ha.trans, t.src < ha.modes.length ∧ t.dst < ha.modes.length
  listed : ∀ (k : ℕ) (t : Tr K), ha.trans[k]? = some t →
    ∃ l, ha.out[t.src]? = some l ∧ l[t.index]? = some k
  only : ∀ (i : ℕ) (l : List ℕ) (j k : ℕ), ha.out[i]? = some l → l[j]? = some k →
    ∃ t, ha.trans[k]? = some t ∧ t.src = i ∧ t.index = j

/-- Names asked for by the `new_mode` calls of a script. -/
def Spec.modeNames (ops : List (BuildOp K)) : List String :=
  ops.filterMap fun op => match op with | .newMode n => some n | _ => none

/-- `(from, to, name)` of the `new_transition` calls of a script whose modes exist at that moment
(the number of modes is the number of distinct names so far). -/
def Spec.transCalls (ops : List (BuildOp K)) : List (ℕ × ℕ × Option String) :=
  (ops.zipIdx.filterMap fun p => match p.1 with
    | .newTransition s d n =>
      if s < (modeNames (ops.take p.2)).eraseDups.length ∧
          d < (modeNames (ops.take p.2)).eraseDups.length then some (s, d, n) else none
    | _ => none)

theorem needSome_some {α : Type} {o : Option α} {a : α} (h : o = some a) : needSome o = .ok a := by
  rw [h]; rfl

theorem newMode_consistent {ha ha' : HA K} {n : String} (h : Consistent ha)
    (hn : ha.newMode n = .ok ha') : Consistent ha' ∧ n ∉ (ha.modes.map fun m => m.name) ∧
      (ha'.modes.map fun m => m.name) = (ha.modes.map fun m => m.name) ++ [n] ∧
      ha'.trans = ha.trans := by
  simp only [HA.newMode, bind_ok, assert_ok, pure_ok] at hn
  obtain ⟨_, hnot, rfl⟩ := hn
  refine ⟨⟨?_, ?_, ?_, ?_, ?_, ?_⟩, hnot, by simp, rfl⟩
  · intro i m hi
    simp only at hi
    rw [List.getElem?_append] at hi
    split at hi
    · exact h.ids i m hi
    · rename_i hlt
      rcases hk : i - ha.modes.length with _ | k
      · rw [hk] at hi; simp at hi; subst hi; simp; omega
      · rw [hk] at hi; simp at hi
  · simp only [List.map_append, List.map_cons, List.map_nil]
    exact List.Nodup.append h.names (by simp) (by simpa using hnot)
  · simp [h.len]
  · intro t ht
    have := h.ends t ht
    simp only [List.length_append, List.length_cons, List.length_nil]
    omega
  · intro k t ht
    obtain ⟨l, h1, h2⟩ := h.listed k t ht
    refine ⟨l, ?_, h2⟩
    simp only
    rw [List.getElem?_append_left]
    · exact h1
    · exact (List.getElem?_eq_some_iff.1 h1).1
  · intro i l j k hi hj
    simp only at hi
    rw [List.getElem?_append] at hi
    split at hi
    · exact h.only i l j k hi hj
    · rcases hk : i - ha.out.length with _ | q
      · rw [hk] at hi; simp at hi; subst hi; simp at hj
      · rw [hk] at hi; simp at hi

theorem newTransition_consistent {ha ha' : HA K} {s d : ℕ} {n : Option String} (h : Consistent ha)
    (hn : ha.newTransition s d n = .ok ha') : Consistent ha' ∧ ha'.modes = ha.modes ∧
      s < ha.modes.length ∧ d < ha.modes.length ∧
      ∃ t, ha'.trans = ha.trans ++ [t] ∧ t.src = s ∧ t.dst = d ∧ t.name = n := by
  simp only [HA.newTransition, bind_ok, need_ok, needSome_ok, pure_ok] at hn
  obtain ⟨_, ⟨hs, hd⟩, l, hl, rfl⟩ := hn
  have hls : s < ha.out.length := by rw [h.len]; exact hs
  refine ⟨⟨h.ids, h.names, by simp [h.len], ?_, ?_, ?_⟩, rfl, hs, hd, _, rfl, rfl, rfl, rfl⟩
  · intro t ht
    simp only [List.mem_append, List.mem_singleton] at ht
    rcases ht with ht | rfl
    · exact h.ends t ht
    · exact ⟨hs, hd⟩
  · intro k t ht
    simp only at ht
    rw [List.getElem?_append] at ht
    split at ht
    · obtain ⟨l', h1, h2⟩ := h.listed k t ht
      by_cases he : t.src = s
      · refine ⟨l ++ [ha.trans.length], by simp only; rw [he, List.getElem?_set_self hls], ?_⟩
        rw [he, hl] at h1
        cases h1
        rw [List.getElem?_append_left (List.getElem?_eq_some_iff.1 h2).1]; exact h2
      · exact ⟨l', by simp only; rw [List.getElem?_set_ne (Ne.symm he)]; exact h1, h2⟩
    · rename_i hlt
      rcases hk : k - ha.trans.length with _ | q
      · rw [hk] at ht
        simp only [List.getElem?_cons_zero, Option.some.injEq] at ht
        subst ht
        refine ⟨l ++ [ha.trans.length], by simp only; rw [List.getElem?_set_self hls], ?_⟩
        rw [List.getElem?_append_right (le_refl _)]
        simp; omega
      · rw [hk] at ht; simp at ht
  · intro i l' j k hi hj
    simp only at hi ⊢
    by_cases he : i = s
    · subst he
      rw [List.getElem?_set_self hls] at hi
      cases hi
      rw [List.getElem?_append] at hj
      split at hj
      · obtain ⟨t, h1, h2, h3⟩ := h.only i l j k hl hj
        exact ⟨t, by rw [List.getElem?_append_left (List.getElem?_eq_some_iff.1 h1).1]; exact h1, h2, h3⟩
      · rename_i hlt
        rcases hq : j - l.length with _ | q
        · rw [hq] at hj
          simp only [List.getElem?_cons_zero, Option.some.injEq] at hj
          subst hj
          refine ⟨_, by rw [List.getElem?_append_right (le_refl _)]; simp; rfl, rfl, ?_⟩
          simp only; omega
        · rw [hq] at hj; simp at hj
    · rw [List.getElem?_set_ne (Ne.symm he)] at hi
      obtain ⟨t, h1, h2, h3⟩ := h.only i l' j k hi hj
      exact ⟨t, by rw [List.getElem?_append_left (List.getElem?_eq_some_iff.1 h1).1]; exact h1, h2, h3⟩

theorem map_set_same {α β : Type} (f : α → β) {l : List α} {i : ℕ} {a b : α} (h : l[i]? = some a)
    (hf : f b = f a) : (l.set i b).map f = l.map f := by
  apply List.ext_getElem?
  intro j
  simp only [List.getElem?_map]
  by_cases hj : i = j
  · subst hj
    rw [List.getElem?_set_self (List.getElem?_eq_some_iff.1 h).1, h]
    simp [hf]
  · rw [List.getElem?_set_ne hj]

/-- Consistency only depends on names, ids, transition ends and the mode lists. -/
theorem Spec.Consistent.congr {ha ha' : HA K} (h : Consistent ha)
    (h1 : (ha'.modes.map fun m => (m.name, m.id)) = ha.modes.map fun m => (m.name, m.id))
    (h2 : (ha'.trans.map fun t => (t.src, t.dst, t.index)) =
      ha.trans.map fun t => (t.src, t.dst, t.index)) (h3 : ha'.out = ha.out) : Consistent ha' := by
  have hlen : ha'.modes.length = ha.modes.length := by
    have := congrArg List.length h1; simpa using this
  have hm : ∀ (i : ℕ) m, ha'.modes[i]? = some m → ∃ m0, ha.modes[i]? = some m0 ∧ m0.id = m.id := by
    intro i m hi
    have := congrArg (fun l => l[i]?) h1
    simp only [List.getElem?_map, hi, Option.map_some] at this
    obtain ⟨m0, ha0, hb0⟩ := Option.map_eq_some_iff.1 this.symm
    exact ⟨m0, ha0, (Prod.ext_iff.1 hb0).2⟩
  have ht : ∀ (l l' : List (Tr K)), (l'.map fun t => (t.src, t.dst, t.index)) =
      l.map (fun t => (t.src, t.dst, t.index)) → ∀ (i : ℕ) t, l'[i]? = some t →
      ∃ t0, l[i]? = some t0 ∧ t0.src = t.src ∧ t0.dst = t.dst ∧ t0.index = t.index := by
    intro l l' hl i t hi
    have := congrArg (fun l => l[i]?) hl
    simp only [List.getElem?_map, hi, Option.map_some] at this
    obtain ⟨t0, ha0, hb0⟩ := Option.map_eq_some_iff.1 this.symm
    simp only [Prod.mk.injEq] at hb0
    exact ⟨t0, ha0, hb0.1, hb0.2.1, hb0.2.2⟩
  refine ⟨?_, ?_, by rw [h3, hlen]; exact h.len, ?_, ?_, ?_⟩
  · intro i m hi
    obtain ⟨m0, ha0, hb0⟩ := hm i m hi
    rw [← hb0]; exact h.ids i m0 ha0
  · have : (ha'.modes.map fun m => m.name) = ha.modes.map fun m => m.name := by
      have := congrArg (List.map Prod.fst) h1
      simpa [List.map_map, Function.comp_def] using this
    rw [this]; exact h.names
  · intro t htm
    obtain ⟨i, hi⟩ := List.getElem?_of_mem htm
    obtain ⟨t0, a, b, c, -⟩ := ht _ _ h2 i t hi
    have := h.ends t0 (List.mem_of_getElem? a)
    rw [hlen, ← b, ← c]; exact this
  · intro k t hk
    obtain ⟨t0, a, b, -, d⟩ := ht _ _ h2 k t hk
    rw [h3, ← b, ← d]; exact h.listed k t0 a
  · intro i l j k hi hj
    rw [h3] at hi
    obtain ⟨t0, a, b, c⟩ := h.only i l j k hi hj
    obtain ⟨t, a', b', -, d'⟩ := ht _ _ h2.symm k t0 a
    exact ⟨t, a', b'.trans b, d'.trans c⟩

theorem modMode_same {ha ha' : HA K} {i : ℕ} {f : Mode K → Except Err (Mode K)}
    (hf : ∀ m m', f m = .ok m' → m'.name = m.name ∧ m'.id = m.id) (h : ha.modMode i f = .ok ha') :
    ((ha'.modes.map fun m => (m.name, m.id)) = ha.modes.map fun m => (m.name, m.id)) ∧
    ha'.trans = ha.trans ∧ ha'.out = ha.out := by
  simp only [HA.modMode, bind_ok, needSome_ok, pure_ok] at h
  obtain ⟨m, hm, m', hm', rfl⟩ := h
  obtain ⟨a, b⟩ := hf m m' hm'
  exact ⟨map_set_same _ hm (by simp [a, b]), rfl, rfl⟩

theorem modTr_same {ha ha' : HA K} {i : ℕ} {f : Tr K → Except Err (Tr K)}
    (hf : ∀ m m', f m = .ok m' → m'.src = m.src ∧ m'.dst = m.dst ∧ m'.index = m.index ∧
      m'.name = m.name)
    (h : ha.modTr i f = .ok ha') :
    ha'.modes = ha.modes ∧ ha'.out = ha.out ∧
    ((ha'.trans.map fun t => (t.src, t.dst, t.index)) =
      ha.trans.map fun t => (t.src, t.dst, t.index)) ∧
    (ha'.trans.map fun t => (t.src, t.dst, t.name)) =
      ha.trans.map fun t => (t.src, t.dst, t.name) := by
  simp only [HA.modTr, bind_ok, needSome_ok, pure_ok] at h
  obtain ⟨m, hm, m', hm', rfl⟩ := h
  obtain ⟨a, b, c, d⟩ := hf m m' hm'
  exact ⟨rfl, rfl, map_set_same _ hm (by simp [a, b, c]), map_set_same _ hm (by simp [a, b, d])⟩

theorem setGuard_same {S : Solver K} {ha : HA K} {t t' : Tr K} {c : Csr K} {rhs : List K}
    (h : t.setGuard S ha c rhs = .ok t') : t' = { t with guard := some (c, rhs) } := by
  simp only [Tr.setGuard, bind_ok, pure_ok] at h
  obtain ⟨_, _, _, _, _, _, _, _, _, _, _, _, _, _, rfl⟩ := h
  rfl

/-- One successful call: what happens to the parts C26 talks about. -/
theorem apply_spec {S : Solver K} {tol : K} {ha ha' : HA K} {op : BuildOp K} (h : Consistent ha)
    (ha1 : ha.apply S tol op = .ok ha') : Consistent ha' ∧
    ((ha'.modes.map fun m => m.name) = match op with
      | .newMode n => (ha.modes.map fun m => m.name) ++ [n]
      | _ => ha.modes.map fun m => m.name) ∧
    ((ha'.trans.map fun t => (t.src, t.dst, t.name)) = match op with
      | .newTransition s d n => (ha.trans.map fun t => (t.src, t.dst, t.name)) ++ [(s, d, n)]
      | _ => ha.trans.map fun t => (t.src, t.dst, t.name)) ∧
    (∀ n, op = .newMode n → n ∉ ha.modes.map fun m => m.name) ∧
    (∀ s d n, op = .newTransition s d n → s < ha.modes.length ∧ d < ha.modes.length) := by
  have mode : ∀ {i : ℕ} {f : Mode K → Except Err (Mode K)},
      (∀ m m', f m = .ok m' → m'.name = m.name ∧ m'.id = m.id) → ha.modMode i f = .ok ha' →
      Consistent ha' ∧ ((ha'.modes.map fun m => m.name) = ha.modes.map fun m => m.name) ∧
      (ha'.trans.map fun t => (t.src, t.dst, t.name)) =
        ha.trans.map fun t => (t.src, t.dst, t.name) := by
    intro i f hf hm
    obtain ⟨a, b, c⟩ := modMode_same hf hm
    refine ⟨h.congr a (by rw [b]) c, ?_, by rw [b]⟩
    have := congrArg (List.map Prod.fst) a
    simpa [List.map_map, Function.comp_def] using this
  have tr : ∀ {i : ℕ} {f : Tr K → Except Err (Tr K)},
      (∀ m m', f m = .ok m' → m'.src = m.src ∧ m'.dst = m.dst ∧ m'.index = m.index ∧
        m'.name = m.name) → ha.modTr i f = .ok ha' →
      Consistent ha' ∧ ((ha'.modes.map fun m => m.name) = ha.modes.map fun m => m.name) ∧
      (ha'.trans.map fun t => (t.src, t.dst, t.name)) =
        ha.trans.map fun t => (t.src, t.dst, t.name) := by
    intro i f hf hm
    obtain ⟨a, b, c, d⟩ := modTr_same hf hm
    exact ⟨h.congr (by rw [a]) c b, by rw [a], d⟩
  cases op with
  | newMode n =>
    obtain ⟨a, b, c, d⟩ := newMode_consistent h ha1
    exact ⟨a, c, by rw [d], by rintro _ ⟨⟩; exact b, by simp⟩
  | newTransition s d n =>
    obtain ⟨a, b, c, c', t, e, f, g, i⟩ := newTransition_consistent h ha1
    refine ⟨a, by rw [b], ?_, by simp, by rintro _ _ _ ⟨⟩; exact ⟨c, c'⟩⟩
    rw [e]; simp [f, g, i]
  | setDynamics m a =>
    obtain ⟨x, y, z⟩ := mode (fun m m' hm => by
      simp only [Mode.setDynamics, bind_ok, pure_ok] at hm
      obtain ⟨_, _, rfl⟩ := hm; exact ⟨rfl, rfl⟩) ha1
    exact ⟨x, y, z, by simp, by simp⟩
  | setInvariant m c rhs =>
    obtain ⟨x, y, z⟩ := mode (fun m m' hm => by
      simp only [Mode.setInvariant, bind_ok, pure_ok] at hm
      obtain ⟨_, _, _, _, _, _, _, _, _, _, _, _, rfl⟩ := hm; exact ⟨rfl, rfl⟩) ha1
    exact ⟨x, y, z, by simp, by simp⟩
  | setInputs m b u rhs al =>
    obtain ⟨x, y, z⟩ := mode (fun m m' hm => by
      simp only [Mode.setInputs, bind_ok, pure_ok] at hm
      obtain ⟨_, _, _, _, _, _, rfl⟩ := hm; exact ⟨rfl, rfl⟩) ha1
    exact ⟨x, y, z, by simp, by simp⟩
  | setGuard t c rhs =>
    obtain ⟨x, y, z⟩ := tr (fun m m' hm => by
      rw [setGuard_same hm]; exact ⟨rfl, rfl, rfl, rfl⟩) ha1
    exact ⟨x, y, z, by simp, by simp⟩
  | setGuardTrue t =>
    obtain ⟨x, y, z⟩ := tr (fun m m' hm => by
      simp only [Tr.setGuardTrue, bind_ok] at hm
      obtain ⟨_, _, _, _, _, _, hm⟩ := hm
      rw [setGuard_same hm]; exact ⟨rfl, rfl, rfl, rfl⟩) ha1
    exact ⟨x, y, z, by simp, by simp⟩
  | setReset t r m c d =>
    obtain ⟨x, y, z⟩ := tr (fun m m' hm => by
      simp only [Tr.setReset, bind_ok, pure_ok] at hm
      obtain ⟨_, _, _, _, _, _, _, _, _, _, _, _, _, _, _, _, rfl⟩ := hm
      exact ⟨rfl, rfl, rfl, rfl⟩) ha1
    exact ⟨x, y, z, by simp, by simp⟩

theorem eraseDups_snoc (l : List String) (a : String) :
    (l ++ [a]).eraseDups = if a ∈ l then l.eraseDups else l.eraseDups ++ [a] := by
  rw [List.eraseDups_append]
  by_cases h : a ∈ l
  · simp [h, List.removeAll]
  · simp [h, List.removeAll, List.eraseDups_cons]

theorem transCalls_snoc (ops : List (BuildOp K)) (op : BuildOp K) :
    transCalls (ops ++ [op]) = transCalls ops ++ (match op with
      | .newTransition s d n =>
        if s < (modeNames ops).eraseDups.length ∧ d < (modeNames ops).eraseDups.length
        then [(s, d, n)] else []
      | _ => []) := by
  unfold transCalls
  rw [List.zipIdx_append, List.filterMap_append]
  congr 1
  · apply List.filterMap_congr
    intro p hp
    have hp2 : p.2 ≤ ops.length := by
      have := (List.mem_zipIdx hp).2.1
      omega
    rw [List.take_append_of_le_length hp2]
  · simp only [List.zipIdx_cons, List.zipIdx_nil, zero_add]
    cases op <;> simp
    split <;> simp_all

/-- **C26.** After every script of building calls (calls that raise are skipped) the automaton is
consistent; its modes are, in order, the distinct names asked for; its transitions are, in order, the
`new_transition` calls whose modes existed. -/
theorem C26_construction (S : Solver K) (tol : K) (ops : List (BuildOp K)) :
    Consistent (HA.build S tol ops) ∧
    ((HA.build S tol ops).modes.map fun m => m.name) = (modeNames ops).eraseDups ∧
    ((HA.build S tol ops).trans.map fun t => (t.src, t.dst, t.name)) = transCalls ops := by
  induction ops using List.reverseRecOn with
  | nil =>
    refine ⟨⟨by simp [HA.build], by simp [HA.build], rfl, by simp [HA.build], by simp [HA.build],
      by simp [HA.build]⟩, by simp [HA.build, modeNames], by simp [HA.build, transCalls]⟩
  | append_singleton ops op ih =>
    obtain ⟨ih1, ih2, ih3⟩ := ih
    have hb : HA.build S tol (ops ++ [op]) = (HA.build S tol ops).attempt S tol op := by
      simp [HA.build]
    rw [hb]
    have hlen : (modeNames ops).eraseDups.length = (HA.build S tol ops).modes.length := by
      rw [← ih2]; simp
    unfold HA.attempt
    cases h : (HA.build S tol ops).apply S tol op with
    | ok ha' =>
      obtain ⟨a, b, c, d, e⟩ := apply_spec ih1 h
      refine ⟨a, ?_, ?_⟩
      · simp only [b]
        cases op with
        | newMode n =>
          have := d n rfl
          rw [ih2] at this
          simp only [ih2, modeNames, List.filterMap_append, List.filterMap_cons, List.filterMap_nil]
          rw [eraseDups_snoc, if_neg]
          intro hm
          exact this (List.mem_eraseDups.2 hm)
        | _ => simp [ih2, modeNames]
      · simp only [c]
        rw [transCalls_snoc]
        cases op with
        | newTransition s d' n =>
          simp only [ih3, hlen, if_pos (e s d' n rfl)]
        | _ => simp [ih3]
    | error er =>
      refine ⟨ih1, ?_, ?_⟩
      · simp only [ih2]
        cases op with
        | newMode n =>
          simp only [modeNames, List.filterMap_append, List.filterMap_cons, List.filterMap_nil]
          rw [eraseDups_snoc, if_pos]
          by_contra hn
          have : n ∉ (HA.build S tol ops).modes.map fun m => m.name := by
            rw [ih2]; intro hm; exact hn (List.mem_eraseDups.1 hm)
          simp only [HA.apply, HA.newMode, assert, this, not_false_eq_true, if_true, bind, Except.bind,
            pure, Except.pure, reduceCtorEq] at h
        | _ => simp [modeNames]
      · rw [transCalls_snoc]
        simp only [ih3]
        cases op with
        | newTransition s d n =>
          simp only
          rw [if_neg]
          · simp
          · rw [hlen]
            rintro ⟨hs, hd⟩
            have hso : s < (HA.build S tol ops).out.length := by rw [ih1.len]; exact hs
            simp [HA.apply, HA.newTransition, need, hs, hd, bind, Except.bind, pure, Except.pure,
              needSome, hso] at h
        | _ => simp

/-- **C26**, duplicates: `new_mode` raises exactly for a name that already exists. -/
theorem C26_duplicate_refused (ha : HA K) (n : String) :
    (∃ e, ha.newMode n = .error e) ↔ ∃ m ∈ ha.modes, m.name = n := by
  simp only [HA.newMode, assert, List.mem_map, not_exists, not_and]
  by_cases h : ∃ m ∈ ha.modes, m.name = n
  · rw [if_neg (by push Not; exact h)]
    simp only [bind, Except.bind]
    exact ⟨fun _ => h, fun _ => ⟨_, rfl⟩⟩
  · rw [if_pos (by push Not at h; exact h)]
    simp only [bind, Except.bind, pure, Except.pure]
    exact ⟨fun ⟨e, he⟩ => by simp at he, fun h' => absurd h' h⟩

/-- A script with a duplicate mode name and a transition between missing modes: both are skipped,
the rest is there. -/
example : ((HA.build (idealSolver ℚ) (1 / 10 ^ 9) [.newMode "a", .newMode "a", .newMode "b",
      .newTransition 0 1 none, .newTransition 0 7 none, .newTransition 0 0 (some "t")]).modes.map
        fun m => m.name) = ["a", "b"] ∧
    ((HA.build (idealSolver ℚ) (1 / 10 ^ 9) [.newMode "a", .newMode "a", .newMode "b",
      .newTransition 0 1 none, .newTransition 0 7 none, .newTransition 0 0 (some "t")]).trans.map
        fun t => (t.src, t.dst, t.name)) = [(0, 1, none), (0, 0, some "t")] := by
  obtain ⟨-, h1, h2⟩ := C26_construction (idealSolver ℚ) (1 / 10 ^ 9) [.newMode "a", .newMode "a",
    .newMode "b", .newTransition 0 1 none, .newTransition 0 7 none, .newTransition 0 0 (some "t")]
  rw [h1, h2]
  exact ⟨by decide, by decide⟩

end Hylaa
