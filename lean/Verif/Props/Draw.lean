import Verif.Model.Draw
import Verif.Props.Util

/-!
# C59, C60: what is drawn

C59: the drawing and the stored plot data show exactly the state sets that were plotted and not deleted since.
C60: the axes contain everything that was plotted.
-/

set_option linter.unusedSectionVars false

namespace Hylaa

/-! ### C59: specification -/

section
variable {K : Type} [Field K] [LinearOrder K]

/-- The state sets on display: a call plots sets, or deletes the set of that identity and step. -/
def DrawOp.effect (l : List (Shown K)) : DrawOp K → List (Shown K)
  | .current x _ => l ++ [x]
  | .add xs => l ++ xs
  | .delete s n => l.filter fun x => ¬ (x.state = s ∧ x.step = n)
  | .popped => l
  | .frame => l

/-- The sets on display after a history. -/
def onDisplay (ops : List (DrawOp K)) : List (Shown K) := ops.foldl DrawOp.effect []

/-- The sets plotted by a call. -/
def DrawOp.plotted : DrawOp K → List (Shown K)
  | .current x _ => [x]
  | .add xs => xs
  | _ => []

/-- The names under which a subplot keeps the highlighted sets. -/
def ReservedName (m : String) : Prop := m = "cur_state" ∨ m = "gray_state"

/-- The polygons of a mode one can see: those that have not been erased. -/
def Drawing.visible (d : Drawing K) (k : ℕ) (m : String) : List (List (K × K)) :=
  (d.polys k m).filter fun v => decide (v ≠ erasedPath)

/-- A set that is drawn as a polygon in every subplot, in a mode with an ordinary name. -/
def Shown.Ordinary (c : DrawCfg) (x : Shown K) : Prop :=
  ¬ ReservedName (c.mode x.state) ∧ ∀ k < c.nsub, 2 < (x.verts k).length

/-! ### Proof -/

/-- the path of an annotated slot -/
def slotOf (k : ℕ) (o : Option (Shown K)) : List (K × K) :=
  match o with
  | some x => x.verts k
  | none => erasedPath

structure DrawInv (c : DrawCfg) (d : Drawing K) (l : List (Shown K)) (A : String → List (Option (Shown K))) :
    Prop where
  polys : ∀ k < c.nsub, ∀ m, ¬ ReservedName m → d.polys k m = (A m).map (slotOf k)
  live : ∀ m, (A m).filterMap id = l.filter fun x => decide (c.mode x.state = m)
  paths : ∀ s n, (∀ x ∈ l, ¬ (x.state = s ∧ x.step = n)) → d.paths s n = none
  found : ∀ x ∈ l, ∃ i : ℕ, (A (c.mode x.state))[i]? = some (some x) ∧
    d.paths x.state x.step = some (List.replicate c.nsub (some (c.mode x.state, i)))
  nodup : (l.map fun x => (x.state, x.step)).Nodup
  ord : ∀ x ∈ l, x.Ordinary c

/-- The stored objects of a single subplot. -/
def DataInv (c : DrawCfg) (p : PlotData (List (K × K))) (l : List (Shown K)) : Prop :=
  ∃ f, p = [f] ∧ ∀ m, f m = (l.filter fun x => decide (c.mode x.state = m)).map fun x => ⟨x.verts 0, x.state, x.step⟩

theorem upd2_apply {α β γ : Type} [DecidableEq α] [DecidableEq β] (f : α → β → γ) (a : α) (b : β) (v : γ) (a' : α)
    (b' : β) : upd2 f a b v a' b' = if a' = a ∧ b' = b then v else f a' b' := by
  unfold upd2
  by_cases h : a' = a
  · subst h
    by_cases h2 : b' = b
    · subst h2; simp
    · simp [h2]
  · simp [h]

/-- `setNamed` with a reserved name does not touch the invariant. -/
theorem DrawInv.named {c : DrawCfg} {d : Drawing K} {l : List (Shown K)} {A : String → List (Option (Shown K))}
    (h : DrawInv c d l A) {k : ℕ} {name : String} (hn : ReservedName name) (vs : List (List (K × K))) :
    DrawInv c (d.setNamed k name vs) l A := by
  refine ⟨fun k' hk m hm => ?_, h.live, h.paths, h.found, h.nodup, h.ord⟩
  simp only [Drawing.setNamed, upd2_apply]
  rw [if_neg (by rintro ⟨-, rfl⟩; exact hm hn)]
  exact h.polys k' hk m hm

theorem DrawInv.foldl {c : DrawCfg} {l : List (Shown K)} {A : String → List (Option (Shown K))} {α : Type}
    {g : Drawing K → α → Drawing K} (hg : ∀ d a, DrawInv c d l A → DrawInv c (g d a) l A) :
    ∀ (as : List α) {d : Drawing K}, DrawInv c d l A → DrawInv c (as.foldl g d) l A
  | [], _, h => h
  | a :: as, _, h => DrawInv.foldl hg as (hg _ a h)

theorem DrawInv.foldlM {c : DrawCfg} {l : List (Shown K)} {A : String → List (Option (Shown K))} {α : Type}
    {g : Drawing K → α → Except Err (Drawing K)} (hg : ∀ d a d', DrawInv c d l A → g d a = .ok d' → DrawInv c d' l A) :
    ∀ (as : List α) {d d' : Drawing K}, DrawInv c d l A → as.foldlM g d = .ok d' → DrawInv c d' l A
  | [], _, _, h, e => by cases e; exact h
  | a :: as, _, _, h, e => by
    simp only [List.foldlM_cons, bind_ok] at e
    obtain ⟨d1, e1, e2⟩ := e
    exact DrawInv.foldlM hg as (hg _ a _ h e1) e2

theorem setPlotPath_none (e : String × ℕ) : setPlotPath none 0 e = List.replicate 1 (some e) := rfl

theorem setPlotPath_some (e : String × ℕ) (j : ℕ) :
    setPlotPath (some (List.replicate j (some e))) j e = List.replicate (j + 1) (some e) := by
  simp only [setPlotPath, Option.getD_some, List.length_replicate, Nat.add_sub_cancel_left]
  rw [List.set_append_right _ _ (by simp), List.replicate_succ' (n := j)]
  simp

/-- What plotting a polygon in the first `j` subplots changes. -/
theorem addReachable_spec {c : DrawCfg} {d : Drawing K} {x : Shown K} {i : ℕ}
    (hlen : ∀ k < c.nsub, (d.polys k (c.mode x.state)).length = i) (hv : ∀ k < c.nsub, 2 < (x.verts k).length)
    (hp : d.paths x.state x.step = none) : ∀ j ≤ c.nsub, ∃ d',
      (List.range j).foldlM (fun d k => d.addPoly c x k) d = .ok d' ∧
      (∀ k m, d'.polys k m = if k < j ∧ m = c.mode x.state then d.polys k m ++ [x.verts k] else d.polys k m) ∧
      (∀ s n, d'.paths s n = if (s = x.state ∧ n = x.step) ∧ 0 < j then
        some (List.replicate j (some (c.mode x.state, i))) else d.paths s n) ∧ d'.data = d.data
  | 0, _ => ⟨d, rfl, by simp, by simp, rfl⟩
  | j + 1, hj => by
    obtain ⟨d1, h1, h2, h3, h4⟩ := addReachable_spec hlen hv hp j (by omega)
    have hd : d1.addPoly c x j = .ok { d1 with
        polys := upd2 d1.polys j (c.mode x.state) (d1.polys j (c.mode x.state) ++ [x.verts j]),
        paths := upd2 d1.paths x.state x.step (some (setPlotPath (d1.paths x.state x.step) j
                   (c.mode x.state, (d1.polys j (c.mode x.state)).length))) } := by
      unfold Drawing.addPoly
      rw [if_neg (fun h => absurd h.1 (by have := hv j (by omega); omega))]
    refine ⟨_, Eq.trans ?_ hd, ?_, ?_, ?_⟩
    · rw [List.range_succ, List.foldlM_append, h1]
      show d1.addPoly c x j >>= pure = _
      rw [bind_pure]
    · intro k m
      simp only [upd2_apply, h2]
      by_cases hk : k = j
      · subst hk
        by_cases hm : m = c.mode x.state
        · subst hm; simp
        · simp [hm]
      · by_cases hm : m = c.mode x.state
        · subst hm
          have : k < j + 1 ↔ k < j := by omega
          simp [hk, this]
        · simp [hm]
    · intro s n
      simp only [upd2_apply, h2, h3]
      by_cases hs : s = x.state ∧ n = x.step
      · obtain ⟨rfl, rfl⟩ := hs
        simp only [and_self, true_and, if_true, lt_irrefl, false_and, if_false, Nat.zero_lt_succ]
        rw [hlen j (by omega)]
        by_cases hj0 : 0 < j
        · rw [if_pos hj0, setPlotPath_some]
        · have : j = 0 := by omega
          subst this
          rw [if_neg hj0, hp]; rfl
      · simp [hs]
    · exact h4

theorem DrawInv.addReachable {c : DrawCfg} (hn : 0 < c.nsub) {d d' : Drawing K} {l : List (Shown K)}
    {A : String → List (Option (Shown K))} (h : DrawInv c d l A) {x : Shown K} (hx : x.Ordinary c)
    (hfresh : (x.state, x.step) ∉ l.map fun x => (x.state, x.step)) (he : d.addReachable c x = .ok d') :
    (∃ A', DrawInv c d' (l ++ [x]) A') ∧ d'.data = d.data := by
  have hnl : ∀ y ∈ l, ¬ (y.state = x.state ∧ y.step = x.step) := by
    rintro y hy ⟨e1, e2⟩
    exact hfresh (List.mem_map.2 ⟨y, hy, by rw [e1, e2]⟩)
  obtain ⟨d1, h1, h2, h3, h4⟩ := addReachable_spec (c := c) (d := d) (x := x) (i := (A (c.mode x.state)).length)
    (fun k hk => by rw [h.polys k hk _ hx.1, List.length_map]) hx.2 (h.paths _ _ hnl) c.nsub le_rfl
  have : d1 = d' := by
    have := he
    simp only [Drawing.addReachable, h1] at this
    cases this; rfl
  subst this
  refine ⟨⟨fun m => if m = c.mode x.state then A m ++ [some x] else A m, fun k hk m hm => ?_, fun m => ?_,
    fun s n hs => ?_, fun y hy => ?_, ?_, fun y hy => ?_⟩, h4⟩
  · rw [h2]
    by_cases hmx : m = c.mode x.state
    · subst hmx
      simp [hk, h.polys k hk _ hm, slotOf]
    · simp [hmx, h.polys k hk _ hm]
  · by_cases hmx : m = c.mode x.state
    · subst hmx
      rw [if_pos rfl, List.filterMap_append, h.live, List.filter_append]
      simp
    · have : ¬ c.mode x.state = m := fun h => hmx h.symm
      rw [if_neg hmx, h.live, List.filter_append]
      simp [this]
  · rw [h3, if_neg]
    · exact h.paths s n fun y hy => hs y (by simp [hy])
    · rintro ⟨⟨rfl, rfl⟩, -⟩
      exact hs x (by simp) ⟨rfl, rfl⟩
  · rw [List.mem_append, List.mem_singleton] at hy
    rcases hy with hy | rfl
    · obtain ⟨i, g1, g2⟩ := h.found y hy
      refine ⟨i, ?_, ?_⟩
      · split
        · rw [List.getElem?_append_left (List.getElem?_eq_some_iff.1 g1).1]
          exact g1
        · exact g1
      · rw [h3, if_neg (fun hc => hnl y hy hc.1)]
        exact g2
    · refine ⟨(A (c.mode y.state)).length, by simp, ?_⟩
      rw [h3, if_pos ⟨⟨rfl, rfl⟩, hn⟩]

  · rw [List.map_append, List.nodup_append]
    refine ⟨h.nodup, by simp, fun a ha b hb hab => ?_⟩
    simp only [List.map_cons, List.map_nil, List.mem_singleton] at hb
    subst hb
    subst hab
    exact hfresh ha
  · rw [List.mem_append, List.mem_singleton] at hy
    rcases hy with hy | rfl
    · exact h.ord y hy
    · exact hx

/-- Stored data are no part of the invariant. -/
theorem DrawInv.withData {c : DrawCfg} {d : Drawing K} {l : List (Shown K)} {A : String → List (Option (Shown K))}
    (h : DrawInv c d l A) (p : PlotData (List (K × K))) : DrawInv c { d with data := p } l A :=
  ⟨h.polys, h.live, h.paths, h.found, h.nodup, h.ord⟩

theorem DrawInv.store {c : DrawCfg} {d d' : Drawing K} {l : List (Shown K)} {A : String → List (Option (Shown K))}
    (h : DrawInv c d l A) {x : Shown K} {k : ℕ} (he : d.store c x k = .ok d') : DrawInv c d' l A := by
  unfold Drawing.store at he
  split at he
  · simp only [bind_ok, pure_ok] at he
    obtain ⟨p, -, rfl⟩ := he
    exact h.withData p
  · cases he; exact h

/-- Storing a set in the only subplot. -/
theorem DataInv.store {c : DrawCfg} (hs : c.store = true) {d d' : Drawing K} {l : List (Shown K)}
    (h : DataInv c d.data l) {x : Shown K} (he : d.store c x 0 = .ok d') : DataInv c d'.data (l ++ [x]) := by
  obtain ⟨f, h1, h2⟩ := h
  unfold Drawing.store at he
  rw [if_pos hs] at he
  simp only [PlotData.add, bind_ok, pure_ok, h1] at he
  obtain ⟨p, ⟨_, -, rfl⟩, rfl⟩ := he
  refine ⟨Function.update f (c.mode x.state) (f (c.mode x.state) ++ [⟨x.verts 0, x.state, x.step⟩]), rfl, fun m => ?_⟩
  by_cases hm : m = c.mode x.state
  · subst hm
    simp [h2]
  · have : ¬ c.mode x.state = m := fun h => hm h.symm
    simp [hm, h2, this]

theorem erasePaths_spec {m : String} {i : ℕ} : ∀ (j k : ℕ) {d : Drawing K} {r : Drawing K × List (List (K × K))},
    Drawing.erasePaths d k (List.replicate j (some (m, i))) = .ok r →
      (∀ k' m', r.1.polys k' m' = if (k ≤ k' ∧ k' < k + j) ∧ m' = m then (d.polys k' m').set i erasedPath
        else d.polys k' m') ∧ r.1.paths = d.paths ∧ r.1.data = d.data
  | 0, k, d, r, h => by
    cases h
    refine ⟨fun k' m' => ?_, rfl, rfl⟩
    rw [if_neg (by omega)]
  | j + 1, k, d, r, h => by
    rw [List.replicate_succ] at h
    simp only [Drawing.erasePaths, bind_ok, pure_ok, needSome_ok] at h
    obtain ⟨p, hp, v, -, q, hq, rfl⟩ := h
    cases hp
    obtain ⟨h1, h2, h3⟩ := erasePaths_spec j (k + 1) hq
    refine ⟨fun k' m' => ?_, h2, h3⟩
    rw [h1]
    simp only [upd2_apply]
    by_cases hm : m' = m
    · subst hm
      by_cases hk : k' = k
      · subst hk
        simp
      · have : (k + 1 ≤ k' ∧ k' < k + 1 + j) ↔ (k ≤ k' ∧ k' < k + (j + 1)) := by omega
        simp [hk, this]
    · simp [hm]

theorem filterMap_set_none {α β : Type} [DecidableEq β] (key : α → β) {L : List (Option α)} {i : ℕ} {x : α}
    (h : L[i]? = some (some x)) (hn : ((L.filterMap id).map key).Nodup) :
    (L.set i none).filterMap id = (L.filterMap id).filter fun y => decide (key y ≠ key x) := by
  induction L generalizing i with
  | nil => simp at h
  | cons a L ih =>
    cases i with
    | zero =>
      simp only [List.getElem?_cons_zero, Option.some.injEq] at h
      subst h
      simp only [List.set_cons_zero, List.filterMap_cons, id] at hn ⊢
      rw [List.map_cons, List.nodup_cons] at hn
      rw [List.filter_cons_of_neg (by simp), eq_comm, List.filter_eq_self]
      intro y hy
      simp only [ne_eq, decide_not, Bool.not_eq_eq_eq_not, Bool.not_true, decide_eq_false_iff_not]
      intro e
      exact hn.1 (List.mem_map.2 ⟨y, hy, e⟩)
    | succ i =>
      simp only [List.getElem?_cons_succ] at h
      simp only [List.set_cons_succ, List.filterMap_cons, id] at hn ⊢
      cases a with
      | none => exact ih h hn
      | some a =>
        rw [List.map_cons, List.nodup_cons] at hn
        have hm : x ∈ L.filterMap id := List.mem_filterMap.2 ⟨some x, List.mem_of_getElem? h, rfl⟩
        have : key a ≠ key x := fun e => hn.1 (e ▸ List.mem_map.2 ⟨x, hm, rfl⟩)
        rw [List.filter_cons_of_pos (by simpa using this)]
        exact congrArg (a :: ·) (ih h hn.2)

theorem DrawInv.delPath {c : DrawCfg} {d : Drawing K} {l : List (Shown K)}
    {A : String → List (Option (Shown K))} (h : DrawInv c d l A) {s n : ℕ}
    {r : Drawing K × Option (List (List (K × K)))} (he : d.delPath s n = .ok r) :
    (∃ A', DrawInv c r.1 (l.filter fun x => ¬ (x.state = s ∧ x.step = n)) A') ∧ r.1.data = d.data ∧
      (r.2 = none → ∀ x ∈ l, ¬ (x.state = s ∧ x.step = n)) := by
  unfold Drawing.delPath at he
  split at he
  · next hp =>
    cases he
    have hno : ∀ x ∈ l, ¬ (x.state = s ∧ x.step = n) := by
      rintro x hx ⟨rfl, rfl⟩
      obtain ⟨i, -, g⟩ := h.found x hx
      rw [hp] at g
      cases g
    refine ⟨⟨A, ?_⟩, rfl, fun _ => hno⟩
    rw [List.filter_eq_self.2 (fun x hx => by simpa only [decide_eq_true_eq] using hno x hx)]
    exact h
  · next e hp =>
    simp only [bind_ok, pure_ok] at he
    obtain ⟨q, hq, rfl⟩ := he
    refine ⟨?_, ?_, fun hc => by cases hc⟩
    · have hex : ∃ x ∈ l, x.state = s ∧ x.step = n := by
        by_contra hc
        push Not at hc
        rw [h.paths s n fun x hx hh => hc x hx hh.1 hh.2] at hp
        cases hp
      obtain ⟨x, hx, rfl, rfl⟩ := hex
      obtain ⟨i, g1, g2⟩ := h.found x hx
      rw [hp] at g2
      cases g2
      obtain ⟨p1, p2, -⟩ := erasePaths_spec _ _ hq
      have hsub : ∀ m, ((l.filter fun y => decide (c.mode y.state = m)).map fun y => (y.state, y.step)).Nodup :=
        fun m => h.nodup.sublist ((List.filter_sublist).map _)
      have hinj : ∀ y ∈ l, y.state = x.state ∧ y.step = x.step → y = x := fun y hy hk =>
        List.inj_on_of_nodup_map h.nodup hy hx (by rw [hk.1, hk.2])
      refine ⟨fun m => if m = c.mode x.state then (A m).set i none else A m, fun k hk m hm => ?_, fun m => ?_,
        fun s n hs => ?_, fun y hy => ?_, ?_, fun y hy => ?_⟩
      · rw [p1]
        by_cases hmx : m = c.mode x.state
        · subst hmx
          simp [hk, h.polys k hk _ hm, slotOf, List.map_set]
        · simp [hmx, h.polys k hk _ hm]
      · rw [List.filter_filter]
        by_cases hmx : m = c.mode x.state
        · subst hmx
          have hn' := hsub (c.mode x.state)
          rw [← h.live] at hn'
          rw [if_pos rfl, filterMap_set_none (fun y : Shown K => (y.state, y.step)) g1 hn', h.live, List.filter_filter]
          refine List.filter_congr fun y hy => ?_
          simp [Bool.and_comm]
        · rw [if_neg hmx, h.live]
          refine List.filter_congr fun y hy => ?_
          have : c.mode y.state = m → ¬ (y.state = x.state ∧ y.step = x.step) := by
            rintro rfl ⟨e, -⟩
            exact hmx (by rw [e])
          rw [Bool.eq_iff_iff]
          simp only [Bool.and_eq_true, decide_eq_true_eq]
          tauto
      · rw [p2]
        simp only [upd2_apply]
        split
        · rfl
        · next hne =>
          refine h.paths s n fun y hy hk => hs y ?_ hk
          simp only [List.mem_filter, hy, true_and, decide_eq_true_eq]
          rintro ⟨e1, e2⟩
          exact hne ⟨hk.1.symm.trans e1, hk.2.symm.trans e2⟩
      · simp only [List.mem_filter, decide_eq_true_eq] at hy
        obtain ⟨j, j1, j2⟩ := h.found y hy.1
        refine ⟨j, ?_, ?_⟩
        · split
          · next hmy =>
            rw [List.getElem?_set_ne, j1]
            rintro rfl
            rw [hmy, g1] at j1
            cases j1
            exact hy.2 ⟨rfl, rfl⟩
          · exact j1
        · rw [p2]
          simp only [upd2_apply]
          rw [if_neg hy.2]
          exact j2
      · exact h.nodup.sublist ((List.filter_sublist).map _)
      · exact h.ord y (List.mem_of_mem_filter hy)
    · have hex : ∃ x ∈ l, x.state = s ∧ x.step = n := by
        by_contra hc
        push Not at hc
        rw [h.paths s n fun x hx hh => hc x hx hh.1 hh.2] at hp
        cases hp
      obtain ⟨x, hx, rfl, rfl⟩ := hex
      obtain ⟨i, g1, g2⟩ := h.found x hx
      rw [hp] at g2
      cases g2
      exact (erasePaths_spec _ _ hq).2.2

/-- The invariant of a drawing, with the stored data when they are kept for a single subplot. -/
def DrawOk (c : DrawCfg) (d : Drawing K) (l : List (Shown K)) : Prop :=
  (∃ A, DrawInv c d l A) ∧ (c.store = true → c.nsub = 1 → DataInv c d.data l)

theorem DrawOk.named {c : DrawCfg} {d : Drawing K} {l : List (Shown K)} (h : DrawOk c d l) {k : ℕ} {name : String}
    (hn : ReservedName name) (vs : List (List (K × K))) : DrawOk c (d.setNamed k name vs) l :=
  ⟨h.1.imp fun _ h => h.named hn vs, h.2⟩

theorem DrawOk.foldl {c : DrawCfg} {l : List (Shown K)} {α : Type} {g : Drawing K → α → Drawing K}
    (hg : ∀ d a, DrawOk c d l → DrawOk c (g d a) l) :
    ∀ (as : List α) {d : Drawing K}, DrawOk c d l → DrawOk c (as.foldl g d) l
  | [], _, h => h
  | a :: as, _, h => DrawOk.foldl hg as (hg _ a h)

theorem DrawOk.foldlM {c : DrawCfg} {l : List (Shown K)} {α : Type} {g : Drawing K → α → Except Err (Drawing K)}
    (hg : ∀ d a d', DrawOk c d l → g d a = .ok d' → DrawOk c d' l) :
    ∀ (as : List α) {d d' : Drawing K}, DrawOk c d l → as.foldlM g d = .ok d' → DrawOk c d' l
  | [], _, _, h, e => by cases e; exact h
  | a :: as, _, _, h, e => by
    simp only [List.foldlM_cons, bind_ok] at e
    obtain ⟨d1, e1, e2⟩ := e
    exact DrawOk.foldlM hg as (hg _ a _ h e1) e2

theorem filter_key_length {α β : Type} [DecidableEq β] (key : α → β) (k : β) {l : List α} (h : (l.map key).Nodup)
    {p : α → Bool} (hp : ∀ x, p x = true → key x = k) : (l.filter p).length ≤ 1 := by
  have h1 : ((l.filter p).map key).Nodup := h.sublist ((List.filter_sublist).map _)
  have h2 : (l.filter p).map key = List.replicate (l.filter p).length k :=
    List.eq_replicate_iff.2 ⟨by simp, fun b hb => by
      obtain ⟨x, hx, rfl⟩ := List.mem_map.1 hb
      exact hp x (List.mem_filter.1 hx).2⟩
  rw [h2, List.nodup_replicate] at h1
  exact h1

theorem DrawOk.current {c : DrawCfg} (hp : c.noPlot = false) (hn : 0 < c.nsub) {d d' : Drawing K} {l : List (Shown K)}
    (h : DrawOk c d l) {x : Shown K} (hx : x.Ordinary c) (hfresh : (x.state, x.step) ∉ l.map fun x => (x.state, x.step))
    {preds : List (ℕ → List (K × K))} (he : d.plotCurrent c x preds = .ok d') : DrawOk c d' (l ++ [x]) := by
  simp only [Drawing.plotCurrent, bind_ok] at he
  obtain ⟨d1, e1, e2⟩ := he
  rw [hp] at e2
  obtain ⟨⟨A, hA⟩, hD⟩ := h
  have h1 : DrawInv c d1 l A := by
    refine DrawInv.foldlM (fun d a d' hd hh => ?_) _ hA e1
    simp only [Drawing.showCur, bind_ok, pure_ok] at hh
    obtain ⟨d2, g1, rfl⟩ := hh
    rw [hp]
    exact (hd.store g1).named (.inl rfl) _
  obtain ⟨hA', hdat⟩ := h1.addReachable hn hx hfresh e2
  refine ⟨hA', fun hs hn1 => ?_⟩
  rw [hdat]
  rw [hn1] at e1
  simp only [List.range_succ, List.range_zero, List.nil_append, List.foldlM_cons, List.foldlM_nil, bind_ok,
    pure_ok, Drawing.showCur] at e1
  obtain ⟨_, ⟨d2, g1, rfl⟩, rfl⟩ := e1
  rw [hp]
  have := (hD hs hn1).store hs g1
  exact this

theorem DrawOk.addOne {c : DrawCfg} (hn : 0 < c.nsub) {d d' : Drawing K} {l : List (Shown K)}
    (h : DrawOk c d l) {x : Shown K} (hx : x.Ordinary c) (hfresh : (x.state, x.step) ∉ l.map fun x => (x.state, x.step))
    (he : d.addOne c x = .ok d') : DrawOk c d' (l ++ [x]) := by
  simp only [Drawing.addOne, bind_ok] at he
  obtain ⟨d1, e1, e2⟩ := he
  obtain ⟨⟨A, hA⟩, hD⟩ := h
  obtain ⟨⟨A', hA'⟩, hdat⟩ := hA.addReachable hn hx hfresh e1
  refine ⟨⟨A', DrawInv.foldlM (fun d a d' hd hh => hd.store hh) _ hA' e2⟩, fun hs h1 => ?_⟩
  rw [h1] at e2
  simp only [List.range_succ, List.range_zero, List.nil_append, List.foldlM_cons, List.foldlM_nil, bind_ok,
    pure_ok] at e2
  obtain ⟨d2, g1, rfl⟩ := e2
  exact DataInv.store hs (by rw [hdat]; exact hD hs h1) g1

theorem DrawOk.addMany {c : DrawCfg} (hn : 0 < c.nsub) : ∀ (xs : List (Shown K)) {d d' : Drawing K} {l : List (Shown K)},
    DrawOk c d l → (∀ x ∈ xs, x.Ordinary c) → ((l ++ xs).map fun x => (x.state, x.step)).Nodup →
    xs.foldlM (Drawing.addOne c) d = .ok d' → DrawOk c d' (l ++ xs)
  | [], d, d', l, h, _, _, e => by cases e; simpa using h
  | x :: xs, d, d', l, h, hx, hno, e => by
    simp only [List.foldlM_cons, bind_ok] at e
    obtain ⟨d1, e1, e2⟩ := e
    have hfresh : (x.state, x.step) ∉ l.map fun x => (x.state, x.step) := by
      rw [List.map_append, List.nodup_append] at hno
      intro hc
      exact hno.2.2 _ hc _ (by simp) rfl
    have h1 := h.addOne hn (hx x (by simp)) hfresh e1
    have := DrawOk.addMany hn xs h1 (fun y hy => hx y (by simp [hy])) (by simpa using hno) e2
    simpa using this

theorem DrawOk.delete {c : DrawCfg} (hp : c.noPlot = false) {d d' : Drawing K} {l : List (Shown K)}
    (h : DrawOk c d l) {s n : ℕ} (he : d.delete c s n = .ok d') :
    DrawOk c d' (l.filter fun x => ¬ (x.state = s ∧ x.step = n)) := by
  unfold Drawing.delete at he
  rw [hp] at he
  simp only [Bool.false_eq_true, if_false, bind_ok] at he
  obtain ⟨r, h1, h2⟩ := he
  obtain ⟨⟨A, hA⟩, hD⟩ := h
  obtain ⟨⟨A', hA'⟩, e1, e2⟩ := hA.delPath h1
  split at h2
  · next hr =>
    cases h2
    refine ⟨⟨A', hA'⟩, fun hs h1 => ?_⟩
    rw [e1, List.filter_eq_self.2 (fun x hx => by simpa only [decide_eq_true_eq] using e2 hr x hx)]
    exact hD hs h1
  · next vs hr =>
    simp only [bind_ok] at h2
    obtain ⟨p, p1, p2⟩ := h2
    have hgray : DrawOk c { r.1 with data := p } (l.filter fun x => ¬ (x.state = s ∧ x.step = n)) := by
      refine ⟨⟨A', hA'.withData p⟩, fun hs h1 => ?_⟩
      rw [if_pos hs, e1] at p1
      obtain ⟨f, rfl0, hf⟩ := hD hs h1
      rw [rfl0] at p1
      have hlen : ((f (c.mode s)).filter fun o => decide (o.state = s ∧ o.step = n)).length ≤ 1 := by
        rw [hf, List.filter_map, List.length_map, List.filter_filter]
        refine filter_key_length (fun x : Shown K => (x.state, x.step)) (s, n) hA.nodup fun x hx => ?_
        simp only [Function.comp, Bool.and_eq_true, decide_eq_true_eq] at hx
        rw [hx.1.1, hx.1.2]
      obtain ⟨q1, q2⟩ := C49_single_plot_partial hlen p1
      have hq : ∃ f', p = [f'] := by
        simp only [PlotData.remove] at p1
        split at p1
        · cases p1; exact ⟨_, rfl⟩
        · cases p1
      obtain ⟨f', rfl⟩ := hq
      refine ⟨f', rfl, fun m => ?_⟩
      by_cases hm : m = c.mode s
      · subst hm
        have : f' (c.mode s) = _ := q1
        rw [this, hf, List.filter_map, List.filter_filter, List.filter_filter]
        congr 1
        refine List.filter_congr fun y _ => ?_
        rw [Bool.eq_iff_iff]
        simp only [Function.comp, Bool.and_eq_true, decide_eq_true_eq]
        tauto
      · have : f' m = _ := q2 m hm
        rw [this, hf, List.filter_filter]
        congr 1
        refine List.filter_congr fun y _ => ?_
        have : c.mode y.state = m → ¬ (y.state = s ∧ y.step = n) := by
          rintro rfl ⟨e, -⟩
          exact hm (by rw [e])
        rw [Bool.eq_iff_iff]
        simp only [Bool.and_eq_true, decide_eq_true_eq]
        tauto
    unfold Drawing.highlightGray at p2
    split at p2
    · cases p2; exact hgray
    · refine DrawOk.foldlM (fun d a d' hd hh => ?_) _ hgray p2
      simp only [bind_ok, pure_ok] at hh
      obtain ⟨v, -, rfl⟩ := hh
      exact hd.named (.inr rfl) _

theorem drawOk_run {c : DrawCfg} (hp : c.noPlot = false) (hn : 0 < c.nsub) : ∀ (ops : List (DrawOp K)) {d d' : Drawing K}
    {l : List (Shown K)}, DrawOk c d l → (∀ op ∈ ops, ∀ x ∈ op.plotted, x.Ordinary c) →
    ((l ++ ops.flatMap DrawOp.plotted).map fun x => (x.state, x.step)).Nodup →
    d.run c ops = .ok d' → DrawOk c d' (ops.foldl DrawOp.effect l)
  | [], d, d', l, h, _, _, e => by cases e; exact h
  | op :: ops, d, d', l, h, hx, hno, e => by
    simp only [Drawing.run, List.foldlM_cons, bind_ok] at e
    obtain ⟨d1, e1, e2⟩ := e
    have hx' : ∀ op ∈ ops, ∀ x ∈ op.plotted, x.Ordinary c := fun o ho => hx o (by simp [ho])
    simp only [List.flatMap_cons] at hno
    rw [List.foldl_cons]
    cases op with
    | current x preds =>
      have hfresh : (x.state, x.step) ∉ l.map fun x => (x.state, x.step) := by
        rw [List.map_append, List.nodup_append] at hno
        intro hc
        exact hno.2.2 _ hc _ (by simp [DrawOp.plotted]) rfl
      have h1 := DrawOk.current hp hn h (hx (.current x preds) (by simp) x (by simp [DrawOp.plotted])) hfresh e1
      exact drawOk_run hp hn ops h1 hx' (by simpa [DrawOp.plotted, DrawOp.effect] using hno) e2
    | add xs =>
      simp only [Drawing.op, Drawing.addPlotted, hp, Bool.false_eq_true, if_false, bind_ok, pure_ok] at e1
      obtain ⟨d2, g1, rfl⟩ := e1
      have h1 := DrawOk.addMany hn xs h (hx (.add xs) (by simp)) (by
        rw [← List.append_assoc, List.map_append] at hno
        exact (List.nodup_append.1 hno).1) g1
      have h2 := DrawOk.foldl (g := fun d k => d.setNamed k "cur_state" (xs.map fun x => x.verts k))
        (fun d a hd => hd.named (.inl rfl) _) (List.range c.nsub) h1
      exact drawOk_run hp hn ops h2 hx' (by simpa [DrawOp.plotted, DrawOp.effect] using hno) e2
    | delete s n =>
      have h1 := DrawOk.delete hp h e1
      refine drawOk_run hp hn ops h1 hx' ?_ e2
      refine hno.sublist (List.Sublist.map _ ?_)
      exact (List.filter_sublist).append_right _
    | popped =>
      simp only [Drawing.op, Drawing.statePopped, hp, Bool.false_eq_true, if_false] at e1
      cases e1
      refine drawOk_run hp hn ops (DrawOk.foldl (fun d a hd => hd.named (.inl rfl) _) _ h) hx' hno e2
    | frame =>
      simp only [Drawing.op, Drawing.frame] at e1
      cases e1
      refine drawOk_run hp hn ops (DrawOk.foldl (fun d a hd => (hd.named (.inl rfl) _).named (.inr rfl) _) _ h) hx' hno e2

theorem drawOk_new (c : DrawCfg) : DrawOk c (Drawing.new c : Drawing K) [] := by
  refine ⟨⟨fun _ => [], ?_, ?_, ?_, ?_, ?_, ?_⟩, fun _ h => ⟨fun _ => [], ?_, fun m => rfl⟩⟩ <;> simp [Drawing.new]
  rw [h]; rfl

/-- **C59** With plotting on, whatever sequence of calls is made (each set plotted once per step): one sees in every
subplot, for every mode, exactly the polygons of the sets plotted and not deleted, in the order in which they were
plotted.  Partial: for sets drawn as polygons and modes with ordinary names. -/
theorem C59_drawn_partial {c : DrawCfg} (hp : c.noPlot = false) (hn : 0 < c.nsub) {ops : List (DrawOp K)}
    (hx : ∀ op ∈ ops, ∀ x ∈ op.plotted, x.Ordinary c)
    (hno : ((ops.flatMap DrawOp.plotted).map fun x => (x.state, x.step)).Nodup) {d : Drawing K}
    (h : (Drawing.new c).run c ops = .ok d) {k : ℕ} (hk : k < c.nsub) {m : String} (hm : ¬ ReservedName m) :
    d.visible k m = ((onDisplay ops).filter fun x => decide (c.mode x.state = m)).map fun x => x.verts k := by
  obtain ⟨⟨A, hA⟩, -⟩ := drawOk_run hp hn ops (drawOk_new c) hx (by simpa using hno) h
  have hord := hA.ord
  unfold Drawing.visible
  rw [hA.polys k hk m hm]
  have hlive := hA.live m
  rw [show ops.foldl DrawOp.effect [] = onDisplay ops from rfl] at hlive hord
  rw [← hlive]
  have hall : ∀ x : Shown K, some x ∈ A m → 2 < (x.verts k).length := by
    intro x hxA
    have : x ∈ (A m).filterMap id := List.mem_filterMap.2 ⟨_, hxA, rfl⟩
    rw [hlive] at this
    exact (hord x (List.mem_of_mem_filter this)).2 k hk
  generalize A m = L at hall
  induction L with
  | nil => rfl
  | cons o L ih =>
    have ih := ih fun x hx => hall x (by simp [hx])
    cases o with
    | none => simpa [slotOf] using ih
    | some x =>
      have hne : slotOf k (some x) ≠ erasedPath := by
        intro hc
        change x.verts k = _ at hc
        have := hall x (by simp)
        rw [hc] at this
        simp [erasedPath] at this
      rw [List.map_cons, List.filter_cons, if_pos (decide_eq_true hne), ih]
      rfl

/-- **C59** (stored data): with one subplot the stored plot data are, for every mode, exactly the sets plotted and not
deleted. -/
theorem C59_stored_partial {c : DrawCfg} (hp : c.noPlot = false) (hn : c.nsub = 1) (hs : c.store = true)
    {ops : List (DrawOp K)} (hx : ∀ op ∈ ops, ∀ x ∈ op.plotted, x.Ordinary c)
    (hno : ((ops.flatMap DrawOp.plotted).map fun x => (x.state, x.step)).Nodup) {d : Drawing K}
    (h : (Drawing.new c).run c ops = .ok d) (m : String) :
    d.data.objs 0 m = ((onDisplay ops).filter fun x => decide (c.mode x.state = m)).map
      fun x => ⟨x.verts 0, x.state, x.step⟩ := by
  obtain ⟨-, hD⟩ := drawOk_run hp (by omega) ops (drawOk_new c) hx (by simpa using hno) h
  obtain ⟨f, h1, h2⟩ := hD hs hn
  rw [h1]
  exact h2 m

/-! ### C59 is false in general -/

/-- Plotting an aggregated set, its two parts, and then deleting it (what a deaggregation does at a step). -/
def deaggOps (parent a b : Shown K) : List (DrawOp K) :=
  [.current parent [], .add [a, b], .delete parent.state parent.step]

/-- Small sets are drawn as markers, which are never deleted, and then the stored data are not deleted either. -/
theorem C59_small_sets_stay (p q r : K × K) (mode : String) :
    ∃ d : Drawing K, (Drawing.new ⟨false, false, true, true, 1, fun _ => mode⟩).run
        ⟨false, false, true, true, 1, fun _ => mode⟩
        (deaggOps ⟨0, 0, fun _ => [p, p]⟩ ⟨1, 0, fun _ => [q, q]⟩ ⟨2, 0, fun _ => [r, r]⟩) = .ok d ∧
      d.marks 0 ("mode_" ++ mode) = [p, q, r] ∧
      d.data.objs 0 mode = [⟨[p, p], 0, 0⟩, ⟨[q, q], 1, 0⟩, ⟨[r, r], 2, 0⟩] := by
  refine ⟨_, rfl, ?_, ?_⟩
  · simp [Drawing.setNamed, upd2, Drawing.new]
  · simp [PlotData.objs, Drawing.setNamed, Drawing.new]

/-- The polygons of a mode called `cur_state` vanish when the next set is popped. -/
theorem C59_reserved_name_vanishes (v : List (K × K)) (hv : 2 < v.length) (st : Bool) :
    ∃ d : Drawing K, (Drawing.new ⟨false, false, st, true, 1, fun _ => "cur_state"⟩).run
        ⟨false, false, st, true, 1, fun _ => "cur_state"⟩ [.current ⟨0, 0, fun _ => v⟩ [], .popped] = .ok d ∧
      d.visible 0 "cur_state" = [] ∧
      (onDisplay [.current ⟨0, 0, fun _ => v⟩ [], .popped] : List (Shown K)) = [⟨0, 0, fun _ => v⟩] := by
  have hn : ¬ v.length ≤ 2 := by omega
  cases st <;>
  refine ⟨_, by
    simp only [Drawing.run, Drawing.op, Drawing.plotCurrent, Drawing.showCur, Drawing.store, Drawing.addReachable,
      Drawing.addPoly, List.range_succ, List.range_zero, List.nil_append, List.foldlM_cons, List.foldlM_nil,
      Drawing.new, hn, PlotData.add, need, bind, Except.bind, pure, Except.pure]
    rfl, ?_, rfl⟩ <;>
  simp [Drawing.visible, Drawing.statePopped, Drawing.setNamed, upd2_apply]

/-- A set that is small in the first subplot and a polygon in the second cannot be deleted: the deletion raises. -/
theorem C59_mixed_subplots_raise (p u v w : K × K) (st : Bool) (mode : String) :
    ∃ e, (Drawing.new ⟨false, false, st, true, 2, fun _ => mode⟩ : Drawing K).run ⟨false, false, st, true, 2, fun _ => mode⟩
      [.current ⟨0, 0, fun k => if k = 0 then [p, p] else [u, v, w, u]⟩ [], .delete 0 0] = .error e := by
  cases st <;> exact ⟨_, rfl⟩

/-- Without plotting (`PLOT_NONE`) but with stored plot data, a deaggregation is not seen in the stored data: they keep the
aggregated set and lack its parts. -/
theorem C59_no_plot_keeps_aggregated (u v w : List (K × K)) (mode : String) :
    ∃ d : Drawing K, (Drawing.new ⟨true, false, true, true, 1, fun _ => mode⟩).run
        ⟨true, false, true, true, 1, fun _ => mode⟩
        (deaggOps ⟨0, 0, fun _ => u⟩ ⟨1, 0, fun _ => v⟩ ⟨2, 0, fun _ => w⟩) = .ok d ∧
      d.data.objs 0 mode = [⟨u, 0, 0⟩] ∧
      (onDisplay (deaggOps ⟨0, 0, fun _ => u⟩ ⟨1, 0, fun _ => v⟩ ⟨2, 0, fun _ => w⟩) : List (Shown K)) =
        [⟨1, 0, fun _ => v⟩, ⟨2, 0, fun _ => w⟩] := by
  refine ⟨_, rfl, ?_, by simp [onDisplay, deaggOps, DrawOp.effect]⟩
  simp [PlotData.objs, Drawing.new]

/-! ### C60: axis limits -/

section
variable {K : Type} [Field K] [LinearOrder K] [IsStrictOrderedRing K]

/-- `b` is the bounding box of the points. -/
def IsBBox (b : Limits K) (pts : List (K × K)) : Prop :=
  IsLeast {r | ∃ p ∈ pts, r = p.1} b.xmin ∧ IsGreatest {r | ∃ p ∈ pts, r = p.1} b.xmax ∧
    IsLeast {r | ∃ p ∈ pts, r = p.2} b.ymin ∧ IsGreatest {r | ∃ p ∈ pts, r = p.2} b.ymax

/-- The point lies within the limits. -/
def Limits.Has (b : Limits K) (p : K × K) : Prop := b.xmin ≤ p.1 ∧ p.1 ≤ b.xmax ∧ b.ymin ≤ p.2 ∧ p.2 ≤ b.ymax

theorem least_point {α : Type} {f : α → K} {pts : List α} {lo : K} (h : IsLeast {r | ∃ p ∈ pts, r = f p} lo) (p : α) :
    IsLeast {r | ∃ q ∈ pts ++ [p], r = f q} (if f p < lo then f p else lo) := by
  obtain ⟨⟨p1, m1, e1⟩, l1⟩ := h
  constructor
  · split
    · exact ⟨p, by simp, rfl⟩
    · exact ⟨p1, by simp [m1], e1⟩
  · rintro _ ⟨q, hq, rfl⟩
    simp only [List.mem_append, List.mem_singleton] at hq
    rcases hq with hq | rfl
    · have := l1 ⟨q, hq, rfl⟩
      split
      · next hlt => exact hlt.le.trans this
      · exact this
    · split
      · exact le_rfl
      · next hlt => exact not_lt.1 hlt

theorem greatest_point {α : Type} {f : α → K} {pts : List α} {lo hi : K} (h : IsGreatest {r | ∃ p ∈ pts, r = f p} hi)
    (h' : IsLeast {r | ∃ p ∈ pts, r = f p} lo) (p : α) :
    IsGreatest {r | ∃ q ∈ pts ++ [p], r = f q} (if f p < lo then hi else if hi < f p then f p else hi) := by
  obtain ⟨⟨p1, m1, e1⟩, l1⟩ := h
  have hlh : lo ≤ hi := h'.2 ⟨p1, m1, e1⟩
  constructor
  · split
    · exact ⟨p1, by simp [m1], e1⟩
    · split
      · exact ⟨p, by simp, rfl⟩
      · exact ⟨p1, by simp [m1], e1⟩
  · rintro _ ⟨q, hq, rfl⟩
    simp only [List.mem_append, List.mem_singleton] at hq
    rcases hq with hq | rfl
    · have := l1 ⟨q, hq, rfl⟩
      split
      · exact this
      · split
        · next hlt => exact this.trans hlt.le
        · exact this
    · split
      · next hlt => exact hlt.le.trans hlh
      · split
        · exact le_rfl
        · next hlt => exact not_lt.1 hlt

theorem IsBBox.point {b : Limits K} {pts : List (K × K)} (h : IsBBox b pts) (p : K × K) :
    IsBBox (b.point p) (pts ++ [p]) := by
  obtain ⟨h1, h2, h3, h4⟩ := h
  exact ⟨least_point h1 p, greatest_point h2 h1 p, least_point h3 p, greatest_point h4 h3 p⟩

theorem IsBBox.foldl : ∀ (l : List (K × K)) {b : Limits K} {pts : List (K × K)}, IsBBox b pts →
    IsBBox (l.foldl Limits.point b) (pts ++ l)
  | [], _, _, h => by simpa using h
  | p :: l, b, pts, h => by
    have := IsBBox.foldl l (h.point p)
    simpa using this

theorem IsBBox.congr {b : Limits K} {l l' : List (K × K)} (h : IsBBox b l) (he : ∀ p, p ∈ l ↔ p ∈ l') : IsBBox b l' := by
  simpa only [IsBBox, he] using h

theorem IsBBox.first {pts : List (K × K)} {p : K × K} (h : pts.head? = some p) :
    IsBBox (pts.foldl Limits.point ⟨p.1, p.1, p.2, p.2⟩) pts := by
  have h0 : IsBBox ⟨p.1, p.1, p.2, p.2⟩ [p] := by
    refine ⟨⟨⟨p, by simp, rfl⟩, ?_⟩, ⟨⟨p, by simp, rfl⟩, ?_⟩, ⟨⟨p, by simp, rfl⟩, ?_⟩, ⟨⟨p, by simp, rfl⟩, ?_⟩⟩ <;>
    · rintro _ ⟨q, hq, rfl⟩
      simp only [List.mem_singleton] at hq
      subst hq
      exact le_rfl
  refine (IsBBox.foldl pts h0).congr fun q => ?_
  have := List.mem_of_mem_head? h
  simp only [List.cons_append, List.nil_append, List.mem_cons]
  exact ⟨fun h => h.elim (fun h => h ▸ this) id, .inr⟩

/-- What is known of the axes between two calls. -/
structure AxesInv (a : Axes K) (pts : List (K × K)) : Prop where
  bbox : IsBBox a.lim pts
  shown : a.shown.xmin ≤ a.drawn.xmin ∧ a.drawn.xmax ≤ a.shown.xmax ∧ a.shown.ymin ≤ a.drawn.ymin ∧
    a.drawn.ymax ≤ a.shown.ymax
  inside : a.lim.xmin ≠ a.lim.xmax → a.lim.ymin ≠ a.lim.ymax → ¬ a.lim.outside a.drawn

theorem AxesInv.redraw {ratio pad : K} (hr : 0 ≤ ratio) (hpad : 0 ≤ pad) {lim : Limits K} {pts : List (K × K)}
    (h : IsBBox lim pts) : AxesInv (Axes.redraw ratio pad lim) pts := by
  have hx : lim.xmin ≤ lim.xmax := h.1.2 h.2.1.1
  have hy : lim.ymin ≤ lim.ymax := h.2.2.1.2 h.2.2.2.1
  have ex : 0 ≤ (lim.xmax - lim.xmin) * ratio := mul_nonneg (by linarith) hr
  have ey : 0 ≤ (lim.ymax - lim.ymin) * ratio := mul_nonneg (by linarith) hr
  refine ⟨h, ?_, fun _ _ => ?_⟩
  · simp only [Axes.redraw]
    refine ⟨?_, ?_, ?_, ?_⟩ <;> split <;> linarith
  · simp only [Axes.redraw, Limits.outside, not_or, not_lt]
    refine ⟨?_, ?_, ?_, ?_⟩ <;> linarith

theorem AxesInv.update {ratio pad : K} (hr : 0 ≤ ratio) (hpad : 0 ≤ pad) {a a' : Axes K} {pts l : List (K × K)}
    (h : AxesInv a pts) (he : updateAxes ratio pad (some a) l = .ok a') : AxesInv a' (pts ++ l) := by
  have hb := IsBBox.foldl l h.bbox
  simp only [updateAxes, Except.ok.injEq] at he
  split at he
  · subst he
    exact AxesInv.redraw hr hpad hb
  · next hc =>
    subst he
    refine ⟨hb, h.shown, fun h1 h2 => ?_⟩
    simp only at h1 h2 ⊢
    exact fun ho => hc ⟨ho, h1, h2⟩

theorem AxesInv.all {ratio pad : K} (hr : 0 ≤ ratio) (hpad : 0 ≤ pad) : ∀ (ls : List (List (K × K))) {a a' : Axes K}
    {pts : List (K × K)}, AxesInv a pts → updateAxesAll ratio pad (some a) ls = .ok (some a') →
    AxesInv a' (pts ++ ls.flatten)
  | [], a, a', pts, h, he => by cases he; simpa using h
  | l :: ls, a, a', pts, h, he => by
    simp only [updateAxesAll, bind_ok] at he
    obtain ⟨a1, e1, e2⟩ := he
    have := AxesInv.all hr hpad ls (h.update hr hpad e1) e2
    simpa using this

theorem axesInv_run {ratio pad : K} (hr : 0 ≤ ratio) (hpad : 0 ≤ pad) {ls : List (List (K × K))} {a : Axes K}
    (he : updateAxesAll ratio pad none ls = .ok (some a)) : AxesInv a ls.flatten := by
  cases ls with
  | nil => cases he
  | cons l ls =>
    simp only [updateAxesAll, bind_ok] at he
    obtain ⟨a1, e1, e2⟩ := he
    simp only [updateAxes, bind_ok, pure_ok, needSome_ok] at e1
    obtain ⟨p, hp, rfl⟩ := e1
    have := AxesInv.all hr hpad ls (AxesInv.redraw hr hpad (IsBBox.first hp)) e2
    simpa using this

/-- **C60** After any sequence of updates the recorded limits are exactly the bounding box of all points passed in, and
if that box is not flat, the axes show all of them. -/
theorem C60_axes_partial {ratio pad : K} (hr : 0 ≤ ratio) (hpad : 0 ≤ pad) {ls : List (List (K × K))} {a : Axes K}
    (he : updateAxesAll ratio pad none ls = .ok (some a)) :
    IsBBox a.lim ls.flatten ∧
      (a.lim.xmin ≠ a.lim.xmax → a.lim.ymin ≠ a.lim.ymax → ∀ l ∈ ls, ∀ p ∈ l, a.shown.Has p) := by
  have h := axesInv_run hr hpad he
  refine ⟨h.bbox, fun h1 h2 l hl p hp => ?_⟩
  have hi := h.inside h1 h2
  simp only [Limits.outside, not_or, not_lt] at hi
  have hm : p ∈ ls.flatten := List.mem_flatten.2 ⟨l, hl, hp⟩
  obtain ⟨b1, b2, b3, b4⟩ := h.bbox
  obtain ⟨s1, s2, s3, s4⟩ := h.shown
  obtain ⟨i1, i2, i3, i4⟩ := hi
  exact ⟨s1.trans (i1.trans (b1.2 ⟨p, hm, rfl⟩)), (b2.2 ⟨p, hm, rfl⟩).trans (i2.trans s2),
    s3.trans (i3.trans (b3.2 ⟨p, hm, rfl⟩)), (b4.2 ⟨p, hm, rfl⟩).trans (i4.trans s4)⟩

/-- **C60** (no call fails): the axes can be updated with every sequence of non-empty point lists. -/
theorem C60_total (ratio pad : K) (l : List (K × K)) (ls : List (List (K × K))) (h : l ≠ []) :
    ∃ a, updateAxesAll ratio pad none (l :: ls) = .ok (some a) := by
  have hall : ∀ (ls : List (List (K × K))) (a : Axes K), ∃ a', updateAxesAll ratio pad (some a) ls = .ok (some a') := by
    intro ls
    induction ls with
    | nil => exact fun a => ⟨a, rfl⟩
    | cons l ls ih =>
      intro a
      obtain ⟨a', h'⟩ := ih (if (l.foldl Limits.point a.lim).outside a.drawn ∧ (l.foldl Limits.point a.lim).xmin ≠
        (l.foldl Limits.point a.lim).xmax ∧ (l.foldl Limits.point a.lim).ymin ≠ (l.foldl Limits.point a.lim).ymax then
        Axes.redraw ratio pad (l.foldl Limits.point a.lim) else { a with lim := l.foldl Limits.point a.lim })
      exact ⟨a', h'⟩
  cases l with
  | nil => exact absurd rfl h
  | cons p l => exact hall ls _

/-- **C60 is false for flat plots**: if all points have the same `y` and the first call has a single point `(x, y)`, the
axes stay at `[x - pad, x + pad]` for ever. -/
theorem C60_flat_plot_never_extended {ratio pad x y : K} {ls : List (List (K × K))} (hflat : ∀ l ∈ ls, ∀ p ∈ l, p.2 = y)
    {a : Axes K} (he : updateAxesAll ratio pad none ([(x, y)] :: ls) = .ok (some a)) :
    a.shown = ⟨x - pad, x + pad, y - pad, y + pad⟩ := by
  have hall : ∀ (ls : List (List (K × K))) (a a' : Axes K), (∀ l ∈ ls, ∀ p ∈ l, p.2 = y) → a.lim.ymin = y →
      a.lim.ymax = y → updateAxesAll ratio pad (some a) ls = .ok (some a') → a'.shown = a.shown := by
    intro ls
    induction ls with
    | nil => intro a a' _ _ _ h; cases h; rfl
    | cons l ls ih =>
      intro a a' hf h1 h2 h
      have hl : ∀ (l : List (K × K)) (b : Limits K), (∀ p ∈ l, p.2 = y) → b.ymin = y → b.ymax = y →
          (l.foldl Limits.point b).ymin = y ∧ (l.foldl Limits.point b).ymax = y := by
        intro l
        induction l with
        | nil => exact fun b _ h1 h2 => ⟨h1, h2⟩
        | cons p l ih =>
          intro b hf h1 h2
          refine ih _ (fun q hq => hf q (by simp [hq])) ?_ ?_ <;>
            simp [Limits.point, h1, h2, hf p (by simp)]
      obtain ⟨g1, g2⟩ := hl l a.lim (hf l (by simp)) h1 h2
      simp only [updateAxesAll, updateAxes, bind_ok, Except.ok.injEq] at h
      obtain ⟨a1, rfl, e2⟩ := h
      rw [if_neg (by rw [g1, g2]; simp)] at e2
      have := ih _ a' (fun l hl => hf l (by simp [hl])) (by simpa using g1) (by simpa using g2) e2
      simpa using this
  simp only [updateAxesAll, updateAxes, bind_ok, pure_ok, needSome_ok, List.head?_cons, Option.some.injEq] at he
  obtain ⟨a1, ⟨p, rfl, rfl⟩, e2⟩ := he
  rw [hall ls _ a hflat (by simp [Limits.point, Axes.redraw]) (by simp [Limits.point, Axes.redraw]) e2]
  simp [Axes.redraw, Limits.point]

end

/-! ### Examples -/

/-- An aggregated set of two parts, plotted, and taken apart: the two parts are on display. -/
def exDraw : List (DrawOp ℚ) :=
  deaggOps ⟨0, 3, fun _ => [(0, 0), (2, 0), (2, 2), (0, 0)]⟩ ⟨1, 3, fun _ => [(0, 0), (1, 0), (1, 1), (0, 0)]⟩
    ⟨2, 3, fun _ => [(1, 1), (2, 1), (2, 2), (1, 1)]⟩

def exDrawCfg : DrawCfg := ⟨false, false, true, true, 1, fun _ => "m"⟩

example : (∀ op ∈ exDraw, ∀ x ∈ op.plotted, x.Ordinary exDrawCfg) ∧
    ((exDraw.flatMap DrawOp.plotted).map fun x => (x.state, x.step)).Nodup ∧
    ∃ d, (Drawing.new exDrawCfg).run exDrawCfg exDraw = .ok d ∧
      d.visible 0 "m" = [[(0, 0), (1, 0), (1, 1), (0, 0)], [(1, 1), (2, 1), (2, 2), (1, 1)]] := by
  have h1 : ∀ op ∈ exDraw, ∀ x ∈ op.plotted, x.Ordinary exDrawCfg := by
    intro op hop x hx
    simp only [exDraw, deaggOps, List.mem_cons, List.not_mem_nil, or_false] at hop
    rcases hop with rfl | rfl | rfl <;>
      simp only [DrawOp.plotted, List.mem_cons, List.not_mem_nil, or_false] at hx
    · subst hx; exact ⟨by simp [ReservedName, exDrawCfg], fun _ _ => by simp⟩
    · rcases hx with rfl | rfl <;> exact ⟨by simp [ReservedName, exDrawCfg], fun _ _ => by simp⟩
  have h2 : ((exDraw.flatMap DrawOp.plotted).map fun x => (x.state, x.step)).Nodup := by
    simp [exDraw, deaggOps, DrawOp.plotted]
  refine ⟨h1, h2, _, rfl, ?_⟩
  rw [C59_drawn_partial (c := exDrawCfg) rfl (by simp [exDrawCfg]) h1 h2 rfl (by simp [exDrawCfg]) (by simp [ReservedName])]
  simp [onDisplay, exDraw, deaggOps, DrawOp.effect, exDrawCfg]

/-- Axes after two updates. -/
example : ∃ a : Axes ℚ, updateAxesAll (1 / 10) (1 / 10) none [[(0, 0)], [(1, 1), (10, 5)]] = .ok (some a) ∧
    a.shown.Has (10, 5) := by
  obtain ⟨a, ha⟩ := C60_total (1 / 10 : ℚ) (1 / 10) [(0, 0)] [[(1, 1), (10, 5)]] (by simp)
  obtain ⟨⟨b1, b2, b3, b4⟩, h⟩ := C60_axes_partial (by norm_num) (by norm_num) ha
  have e1 : a.lim.xmin ≤ 0 := b1.2 ⟨(0, 0), by simp, rfl⟩
  have e2 : 10 ≤ a.lim.xmax := b2.2 ⟨(10, 5), by simp, rfl⟩
  have e3 : a.lim.ymin ≤ 0 := b3.2 ⟨(0, 0), by simp, rfl⟩
  have e4 : 5 ≤ a.lim.ymax := b4.2 ⟨(10, 5), by simp, rfl⟩
  exact ⟨a, ha, h (by linarith) (by linarith) [(1, 1), (10, 5)] (by simp) _ (by simp)⟩

end
end Hylaa
