import Verif.Model.Colors
import Verif.Proofs.Inv
import Mathlib.Data.List.Perm.Basic
import Mathlib.Tactic.Linarith
import Mathlib.Tactic.NormNum
import Mathlib.Tactic.IntervalCases

/-!
# C66: the colours of the modes
-/

set_option linter.unusedSectionVars false

namespace Hylaa
section
variable {K : Type} [Field K] [LinearOrder K] [IsStrictOrderedRing K]

/-- The colour with this name in the table. -/
def rgbOf (t : ColorTable K) (name : String) : Option (K × K × K) := (t.find? fun c => c.1 == name).map fun c => c.2

theorem colorOf_append (d e : List (String × String)) (m : String) :
    colorOf (d ++ e) m = (colorOf d m).or (colorOf e m) := by
  simp only [colorOf, List.find?_append]
  cases d.find? fun e => e.1 == m <;> rfl

theorem colorOf_none {d : List (String × String)} {m : String} : colorOf d m = none ↔ m ∉ d.map fun e => e.1 := by
  rw [colorOf, Option.map_eq_none_iff, List.find?_eq_none]
  simp only [beq_iff_eq, List.mem_map, not_exists, not_and]

/-- `mode_to_color`: every mode once, with the colours in turn. -/
structure ColInv (all : List String) (d : List (String × String)) : Prop where
  keys : (d.map fun e => e.1).Nodup
  val : ∀ i (h : i < d.length), all[i % all.length]? = some d[i].2

theorem pickColor_ok {all : List String} {d d' : List (String × String)} {m c : String} (hd : ColInv all d)
    (h : pickColor all d m = .ok (c, d')) : ColInv all d' ∧ colorOf d' m = some c ∧
      (∀ m' c', colorOf d m' = some c' → colorOf d' m' = some c') ∧
      (∀ x, x ∈ d'.map (fun e => e.1) ↔ x = m ∨ x ∈ d.map fun e => e.1) := by
  unfold pickColor at h
  split at h
  · next c' hc =>
    cases h
    refine ⟨hd, hc, fun _ _ h => h, fun x => ⟨.inr, ?_⟩⟩
    rintro (rfl | h)
    · by_contra hx
      rw [colorOf_none.2 hx] at hc
      cases hc
    · exact h
  · next hc =>
    simp only [bind_ok, need_ok, needSome_ok, pure_ok, exists_const] at h
    obtain ⟨-, c', hc', h⟩ := h
    cases h
    refine ⟨⟨?_, fun i hi => ?_⟩, ?_, fun m' c'' h' => ?_, fun x => ?_⟩
    · rw [List.map_append, List.nodup_append]
      refine ⟨hd.keys, by simp, fun a ha b hb hab => ?_⟩
      simp only [List.map_cons, List.map_nil, List.mem_singleton] at hb
      subst hb; subst hab
      exact colorOf_none.1 hc ha
    · by_cases hi' : i < d.length
      · rw [List.getElem_append_left hi']; exact hd.val i hi'
      · have : i = d.length := by simp at hi; omega
        subst this
        simpa using hc'
    · rw [colorOf_append, hc]
      simp [colorOf]
    · rw [colorOf_append, h']; rfl
    · simp [or_comm]

/-- What a sequence of calls does. -/
theorem edgeFaces_inv {t : ColorTable K} {all : List String} : ∀ {ms : List String} {d d' : List (String × String)}
    {r : List ((K × K × K) × (K × K × K))}, ColInv all d → edgeFaces t all d ms = .ok (r, d') →
    ColInv all d' ∧ (∀ m' c', colorOf d m' = some c' → colorOf d' m' = some c') ∧
      (∀ x, x ∈ d'.map (fun e => e.1) ↔ x ∈ ms ∨ x ∈ d.map fun e => e.1) ∧
      List.Forall₂ (fun m p => ∃ c, colorOf d' m = some c ∧ rgbOf t c = some p.2 ∧ p.1 = lighter p.2) ms r
  | [], d, d', r, hd, h => by
    cases h
    exact ⟨hd, fun _ _ h => h, by simp, .nil⟩
  | m :: ms, d, d', r, hd, h => by
    simp only [edgeFaces, edgeFace, bind_ok, needSome_ok, pure_ok] at h
    obtain ⟨q, ⟨⟨c, d1⟩, h1, e, he, rfl⟩, ⟨rs, d2⟩, h2, h3⟩ := h
    cases h3
    obtain ⟨g1, g2, g3, g4⟩ := pickColor_ok hd h1
    obtain ⟨k1, k2, k3, k4⟩ := edgeFaces_inv g1 h2
    refine ⟨k1, fun m' c' h => k2 m' c' (g3 m' c' h), fun x => ?_, .cons ⟨c, k2 _ _ g2, he, rfl⟩ k4⟩
    rw [k3, g4, List.mem_cons]
    tauto

theorem ColInv.nil (all : List String) : ColInv all [] := ⟨List.nodup_nil, fun i h => absurd h (by simp)⟩

/-- **C66** Whatever is plotted, a mode keeps its colours. -/
theorem C66_keeps_colour {t : ColorTable K} {all ms : List String} {r : List ((K × K × K) × (K × K × K))}
    {d : List (String × String)} (h : edgeFaces t all [] ms = .ok (r, d)) {i j : ℕ} {p q : (K × K × K) × (K × K × K)}
    (hij : ms[i]? = ms[j]?) (hi : r[i]? = some p) (hj : r[j]? = some q) : p = q := by
  obtain ⟨-, -, -, h4⟩ := edgeFaces_inv (ColInv.nil all) h
  have key : ∀ {i : ℕ} {p}, r[i]? = some p → ∃ m, ms[i]? = some m ∧ ∃ c, colorOf d m = some c ∧
      rgbOf t c = some p.2 ∧ p.1 = lighter p.2 := fun {i p} hp => by
    obtain ⟨hi, rfl⟩ := List.getElem?_eq_some_iff.1 hp
    have hi' : i < ms.length := by rw [h4.length_eq]; exact hi
    exact ⟨ms[i], List.getElem?_eq_getElem hi', (List.forall₂_iff_get.1 h4).2 i hi' hi⟩
  obtain ⟨m, a1, c, a2, a3, a4⟩ := key hi
  obtain ⟨m', b1, c', b2, b3, b4⟩ := key hj
  rw [a1, b1] at hij
  cases hij
  rw [a2] at b2
  cases b2
  have he : p.2 = q.2 := Option.some.inj (a3.symm.trans b3)
  exact Prod.ext (by rw [a4, b4, he]) he

/-- **C66** Different modes have different colours, as long as there are not more modes than colours and the table does not
give two of the colours used the same red, green and blue (`C66_two_modes_one_colour`). -/
theorem C66_different_modes_partial {t : ColorTable K} {all ms : List String} {r : List ((K × K × K) × (K × K × K))}
    {d : List (String × String)} (h : edgeFaces t all [] ms = .ok (r, d)) {N : ℕ} (hN : N ≤ all.length)
    (hm : ms.dedup.length ≤ N)
    (hdiff : ∀ a b (ha : a < b) (hb : b < N), rgbOf t all[a] ≠ rgbOf t all[b])
    {i j : ℕ} {p q : (K × K × K) × (K × K × K)}
    (hij : ms[i]? ≠ ms[j]?) (hi : r[i]? = some p) (hj : r[j]? = some q) : p.2 ≠ q.2 := by
  obtain ⟨h1, -, h3, h4⟩ := edgeFaces_inv (ColInv.nil all) h
  have hlen : d.length ≤ N := by
    refine le_trans ?_ hm
    have : (d.map fun e => e.1).length ≤ ms.dedup.length :=
      (h1.keys.subperm fun x hx => by
        rw [List.mem_dedup]
        have := (h3 x).1 hx
        simpa using this).length_le
    simpa using this
  have key : ∀ {i : ℕ} {p}, r[i]? = some p → ∃ m, ms[i]? = some m ∧ ∃ k, ∃ hk : k < d.length, d[k].1 = m ∧
      rgbOf t (all[k]'(by omega)) = some p.2 := fun {i p} hp => by
    obtain ⟨hi, rfl⟩ := List.getElem?_eq_some_iff.1 hp
    have hi' : i < ms.length := by rw [h4.length_eq]; exact hi
    obtain ⟨c, g1, g2, -⟩ := (List.forall₂_iff_get.1 h4).2 i hi' hi
    obtain ⟨e, he, rfl⟩ := Option.map_eq_some_iff.1 g1
    have hmem := List.mem_of_find?_eq_some he
    have hkey := List.find?_some he
    simp only [beq_iff_eq] at hkey
    obtain ⟨k, hk, rfl⟩ := List.getElem_of_mem hmem
    have hv := h1.val k hk
    rw [Nat.mod_eq_of_lt (by omega), List.getElem?_eq_getElem (by omega)] at hv
    refine ⟨ms[i], List.getElem?_eq_getElem hi', k, hk, hkey, ?_⟩
    rw [Option.some_inj.1 hv]
    exact g2
  obtain ⟨m, a1, k, hk, a2, a3⟩ := key hi
  obtain ⟨m', b1, l, hl, b2, b3⟩ := key hj
  intro hpq
  have hkl : k ≠ l := by
    rintro rfl
    exact hij (by rw [a1, b1, ← a2, ← b2])
  rcases lt_or_gt_of_ne hkl with hlt | hlt
  · exact hdiff k l hlt (by omega) (by rw [a3, b3, hpq])
  · exact hdiff l k hlt (by omega) (by rw [a3, b3, hpq])

/-- **C66** The face of a shape is a lighter version of its edge. -/
theorem C66_lighter {t : ColorTable K} {all ms : List String} {r : List ((K × K × K) × (K × K × K))}
    {d : List (String × String)} (h : edgeFaces t all [] ms = .ok (r, d)) {p : (K × K × K) × (K × K × K)} (hp : p ∈ r) :
    (∃ name, rgbOf t name = some p.2) ∧
    ∀ f e : K, (f, e) ∈ [(p.1.1, p.2.1), (p.1.2.1, p.2.2.1), (p.1.2.2, p.2.2.2)] → 0 ≤ e → e ≤ 1 →
      e ≤ f ∧ 2 / 3 ≤ f ∧ f ≤ 1 ∧ (e < 1 → e < f) := by
  obtain ⟨-, -, -, h4⟩ := edgeFaces_inv (ColInv.nil all) h
  obtain ⟨i, hi, rfl⟩ := List.getElem_of_mem hp
  have hi' : i < ms.length := by rw [h4.length_eq]; exact hi
  obtain ⟨c, -, g2, g3⟩ := (List.forall₂_iff_get.1 h4).2 i hi' hi
  refine ⟨⟨c, g2⟩, fun f e hfe he0 he1 => ?_⟩
  simp only [List.get_eq_getElem] at g3
  rw [g3] at hfe
  have hf : f = (2 + e) / 3 := by
    simp only [lighter, List.mem_cons, Prod.mk.injEq, List.not_mem_nil, or_false] at hfe
    rcases hfe with ⟨rfl, rfl⟩ | ⟨rfl, rfl⟩ | ⟨rfl, rfl⟩ <;> rfl
  subst hf
  refine ⟨?_, ?_, ?_, fun h => ?_⟩
  · rw [le_div_iff₀ (by norm_num)]; linarith
  · rw [div_le_div_iff_of_pos_right (by norm_num)]; linarith
  · rw [div_le_one (by norm_num)]; linarith
  · rw [lt_div_iff₀ (by norm_num)]; linarith

theorem removeAll_ok : ∀ {xs l r : List String}, removeAll l xs = .ok r → l.Perm (xs ++ r)
  | [], l, r, h => by cases h; exact .refl _
  | x :: xs, l, r, h => by
    simp only [removeAll, bind_ok, need_ok, exists_const] at h
    obtain ⟨hx, h⟩ := h
    exact (List.perm_cons_erase hx).trans ((removeAll_ok h).cons x)

/-- **C66** The colours used for modes: first lime, orange, cyan, magenta and green, then the others; each allowed name once.
None of them is black, red or blue, has white or yellow in its name, or is too light. -/
theorem C66_colours {shuffle : List String → List String} (hs : ∀ l, (shuffle l).Perm l) {t : ColorTable K}
    (ht : (t.map fun c => c.1).Nodup) {all : List String} (h : initColors shuffle t = .ok all) :
    all.Nodup ∧ all.take 5 = ["lime", "orange", "cyan", "magenta", "green"] ∧
      ∀ name, name ∈ all ↔ ∃ r g b, (name, r, g, b) ∈ t ∧ (r + g + b) / 3 ≤ 3 / 4 ∧
        ¬ "white".toList <:+: name.toList ∧ ¬ "yellow".toList <:+: name.toList ∧
        name ≠ "black" ∧ name ≠ "red" ∧ name ≠ "blue" := by
  simp only [initColors, bind_ok, pure_ok] at h
  obtain ⟨r, hr, rfl⟩ := h
  have hp : (firstColors ++ shuffle r).Perm ((t.filter useColor).map fun c => c.1) :=
    ((hs r).append_left firstColors).trans (removeAll_ok hr).symm
  refine ⟨hp.nodup_iff.2 (ht.sublist (List.filter_sublist.map _)), rfl, fun name => ?_⟩
  rw [hp.mem_iff, List.mem_map]
  constructor
  · rintro ⟨⟨n, a, b, c⟩, hc, rfl⟩
    obtain ⟨h1, h2⟩ := List.mem_filter.1 hc
    simp only [useColor, inName, List.any_cons, List.any_nil, List.contains_cons, List.contains_nil] at h2
    simp at h2
    exact ⟨a, b, c, h1, h2.1.1, h2.1.2.1, h2.1.2.2, h2.2.1, h2.2.2.1, h2.2.2.2⟩
  · rintro ⟨a, b, c, h1, h2, h3, h4, h5, h6, h7⟩
    refine ⟨(name, a, b, c), List.mem_filter.2 ⟨h1, ?_⟩, rfl⟩
    simp only [useColor, inName, List.any_cons, List.any_nil, List.contains_cons, List.contains_nil]
    simp
    exact ⟨⟨h2, h3, h4⟩, h5, h6, h7⟩

theorem pickColor_runs {all : List String} (h : all ≠ []) (d : List (String × String)) (hd : ∀ e ∈ d, e.2 ∈ all)
    (m : String) : ∃ c d', pickColor all d m = .ok (c, d') ∧ c ∈ all ∧ ∀ e ∈ d', e.2 ∈ all := by
  unfold pickColor
  split
  · next c hc =>
    obtain ⟨e, he, rfl⟩ := Option.map_eq_some_iff.1 hc
    exact ⟨_, d, rfl, hd _ (List.mem_of_find?_eq_some he), hd⟩
  · have hl : d.length % all.length < all.length := Nat.mod_lt _ (List.length_pos_iff.2 h)
    refine ⟨all[d.length % all.length], d ++ [(m, all[d.length % all.length])], ?_, List.getElem_mem _, ?_⟩
    · simp only [bind_ok, need_ok, needSome_ok, pure_ok, exists_const]
      exact ⟨h, _, List.getElem?_eq_getElem hl, rfl⟩
    · intro e he
      rcases List.mem_append.1 he with he | he
      · exact hd e he
      · rw [List.mem_singleton] at he
        subst he
        exact List.getElem_mem _

/-- **C66** There is always a colour, however many modes there are. -/
theorem C66_never_raises {shuffle : List String → List String} (hs : ∀ l, (shuffle l).Perm l) {t : ColorTable K}
    (ht : (t.map fun c => c.1).Nodup) {all : List String} (h : initColors shuffle t = .ok all) (ms : List String) :
    ∃ r d, edgeFaces t all [] ms = .ok (r, d) ∧ r.length = ms.length := by
  obtain ⟨-, h2, h3⟩ := C66_colours hs ht h
  have hne : all ≠ [] := by rintro rfl; simp at h2
  have key : ∀ (ms : List String) (d : List (String × String)), (∀ e ∈ d, e.2 ∈ all) →
      ∃ r d', edgeFaces t all d ms = .ok (r, d') ∧ r.length = ms.length := by
    intro ms
    induction ms with
    | nil => exact fun d _ => ⟨[], d, rfl, rfl⟩
    | cons m ms ih =>
      intro d hd
      obtain ⟨c, d1, g1, g2, g3⟩ := pickColor_runs hne d hd m
      obtain ⟨r, d2, k1, k2⟩ := ih d1 g3
      obtain ⟨a, b, e, hm, -⟩ := (h3 c).1 g2
      have hf : (t.find? fun x => x.1 == c).isSome := by
        rw [List.find?_isSome]
        exact ⟨_, hm, by simp⟩
      obtain ⟨x, hx⟩ := Option.isSome_iff_exists.1 hf
      refine ⟨(lighter x.2, x.2) :: r, d2, ?_, by simp [k2]⟩
      simp only [edgeFaces, edgeFace, bind_ok, needSome_ok, pure_ok]
      exact ⟨((lighter x.2, x.2), d1), ⟨_, g1, x.2, by rw [hx]; rfl, rfl⟩, _, k1, rfl⟩
  exact key ms [] (by simp)

/-- **C66** When there are more modes than colours, the colours are used again in the same order. -/
theorem C66_colours_again {t : ColorTable K} {all ms : List String} {r : List ((K × K × K) × (K × K × K))}
    {d : List (String × String)} (hms : ms.Nodup) (h : edgeFaces t all [] ms = .ok (r, d)) {i j : ℕ}
    {p q : (K × K × K) × (K × K × K)} (hij : i % all.length = j % all.length) (hi : r[i]? = some p)
    (hj : r[j]? = some q) : p = q := by
  have hrun : ∀ {ms : List String} {d d' : List (String × String)} {r : List ((K × K × K) × (K × K × K))},
      ms.Nodup → (∀ m ∈ ms, m ∉ d.map fun e => e.1) → edgeFaces t all d ms = .ok (r, d') →
      ∀ (i : ℕ) p, r[i]? = some p → ∃ c, all[(d.length + i) % all.length]? = some c ∧ rgbOf t c = some p.2 ∧
        p.1 = lighter p.2 := by
    intro ms
    induction ms with
    | nil =>
      intro d d' r _ _ h i p hp
      cases h
      simp at hp
    | cons m ms ih =>
      intro d d' r hn hd h i p hp
      simp only [edgeFaces, edgeFace, bind_ok, needSome_ok, pure_ok] at h
      obtain ⟨q, ⟨⟨c, d1⟩, h1, e, he, rfl⟩, ⟨rs, d2⟩, h2, h3⟩ := h
      cases h3
      unfold pickColor at h1
      rw [colorOf_none.2 (hd m (by simp))] at h1
      simp only [bind_ok, need_ok, needSome_ok, pure_ok, exists_const] at h1
      obtain ⟨-, c', hc', h1⟩ := h1
      cases h1
      cases i with
      | zero =>
        simp only [List.getElem?_cons_zero, Option.some.injEq] at hp
        subst hp
        exact ⟨c, hc', he, rfl⟩
      | succ i =>
        obtain ⟨hm, hn⟩ := List.nodup_cons.1 hn
        obtain ⟨c'', g1, g2⟩ := ih hn (fun m' hm' => by
          rw [List.map_append, List.mem_append]
          rintro (h | h)
          · exact hd m' (by simp [hm']) h
          · simp only [List.map_cons, List.map_nil, List.mem_singleton] at h
            exact hm (h ▸ hm')) h2 i p (by simpa using hp)
        refine ⟨c'', ?_, g2⟩
        rw [← g1]
        congr 2
        simp
        omega
  obtain ⟨c, g1, g2, g3⟩ := hrun hms (by simp) h i p hi
  obtain ⟨c', k1, k2, k3⟩ := hrun hms (by simp) h j q hj
  simp only [List.length_nil, Nat.zero_add] at g1 k1
  rw [hij, k1] at g1
  cases g1
  have he : p.2 = q.2 := Option.some.inj (g2.symm.trans k2)
  exact Prod.ext (by rw [g3, k3, he]) he

end

/-! ### Examples -/

/-- A table with matplotlib's values for a few names. -/
def exTable : ColorTable ℚ :=
  [("aqua", 0, 1, 1), ("black", 0, 0, 0), ("cyan", 0, 1, 1), ("green", 0, 1 / 2, 0), ("lime", 0, 1, 0),
    ("magenta", 1, 0, 1), ("orange", 1, 11 / 17, 0), ("white", 1, 1, 1), ("red", 1, 0, 0), ("yellowgreen", 3 / 5, 4 / 5, 1 / 5)]

example : (exTable.map fun c => c.1).Nodup := by decide +kernel

theorem exTable_colors : (initColors id exTable).toOption = some ["lime", "orange", "cyan", "magenta", "green", "aqua"] := by
  decide +kernel

/-- The first five modes have different colours. -/
example : ∀ a b (_ : a < b) (_ : b < 5), rgbOf exTable (["lime", "orange", "cyan", "magenta", "green"].getD a "") ≠
    rgbOf exTable (["lime", "orange", "cyan", "magenta", "green"].getD b "") := by
  intro a b ha hb
  have : a < 5 := by omega
  interval_cases b <;> interval_cases a <;> decide +kernel

/-- **C66** matplotlib has two names for some colours: a sixth mode may look exactly like the third although there are
unused colours. -/
theorem C66_two_modes_one_colour : ∃ (t : ColorTable ℚ) (all : List String) (r : List ((ℚ × ℚ × ℚ) × (ℚ × ℚ × ℚ)))
    (d : List (String × String)), (t.map fun c => c.1).Nodup ∧ initColors id t = .ok all ∧ all.Nodup ∧ all.length = 6 ∧
      edgeFaces t all [] ["a", "b", "c", "d", "e", "f"] = .ok (r, d) ∧ r[2]? = r[5]? ∧ r.length = 6 := by
  obtain ⟨all, h1, h2⟩ : ∃ all, initColors id exTable = .ok all ∧
      all = ["lime", "orange", "cyan", "magenta", "green", "aqua"] := by
    have := exTable_colors
    cases h : initColors id exTable with
    | error e => rw [h] at this; cases this
    | ok all => rw [h] at this; exact ⟨all, rfl, Option.some.inj this⟩
  have hn : (exTable.map fun c => c.1).Nodup := by decide +kernel
  obtain ⟨r, d, h3, h4⟩ := C66_never_raises (fun l => .refl l) hn h1 ["a", "b", "c", "d", "e", "f"]
  subst h2
  refine ⟨exTable, _, r, d, hn, h1, by decide, rfl, h3, ?_, h4⟩
  have h5 : ((edgeFaces exTable ["lime", "orange", "cyan", "magenta", "green", "aqua"] []
      ["a", "b", "c", "d", "e", "f"]).toOption.map fun q => (q.1[2]? == q.1[5]?)) = some true := by decide +kernel
  rw [h3] at h5
  have h6 : (r[2]? == r[5]?) = true := Option.some.inj h5
  simpa using h6

end Hylaa
