import Verif.Model.Click
import Verif.Proofs.Inv
import Mathlib.Tactic.Linarith
import Mathlib.Tactic.FieldSimp

/-!
# C65: looking up plotted sets
-/

set_option linter.unusedSectionVars false

namespace Hylaa

section
variable {K : Type} [Field K] [LinearOrder K] [IsStrictOrderedRing K]

/-- The point is in every half-plane that contains the corners: it belongs to the drawn shape. -/
def InShape (vs : List (K × K)) (p : K × K) : Prop :=
  ∀ n : K × K, ∀ c : K, (∀ v ∈ vs, n.1 * v.1 + n.2 * v.2 ≤ c) → n.1 * p.1 + n.2 * p.2 ≤ c

/-- The point is strictly on the left of every side: the inside of a shape drawn counterclockwise. -/
def StrictlyInside (vs : List (K × K)) (p : K × K) : Prop := ∀ s ∈ sidesOf vs, 0 < crossAt p s.1 s.2

/-- All corners are on one line. -/
def FlatShape (vs : List (K × K)) : Prop := ∃ n : K × K, n ≠ 0 ∧ ∃ c : K, ∀ v ∈ vs, n.1 * v.1 + n.2 * v.2 = c

theorem zip_tail_pairwise {α : Type} {R : α → α → Prop} (hR : ∀ a b c, R a b → R b c → R a c) :
    ∀ {l : List α}, (∀ s ∈ l.zip l.tail, R s.1 s.2) → l.Pairwise R
  | [], _ => .nil
  | [_], _ => List.pairwise_singleton ..
  | a :: b :: l, h => by
    have ih := zip_tail_pairwise hR (l := b :: l) fun s hs => h s (by
      simp only [List.tail_cons] at hs ⊢
      rw [List.zip_cons_cons]
      exact List.mem_cons_of_mem _ hs)
    have hab : R a b := h (a, b) (by simp)
    refine List.pairwise_cons.2 ⟨?_, ih⟩
    intro c hc
    rcases List.mem_cons.1 hc with rfl | hc
    · exact hab
    · exact hR _ _ _ hab ((List.pairwise_cons.1 ih).1 c hc)

/-- A function that never decreases along the sides is constant. -/
theorem around_const {vs : List (K × K)} {s : K × K → K} (h : ∀ e ∈ sidesOf vs, s e.1 ≤ s e.2) :
    ∀ v ∈ vs, ∀ w ∈ vs, s v = s w := by
  cases vs with
  | nil => intro v hv; cases hv
  | cons x l =>
    have hp : (x :: l ++ [x]).Pairwise fun a b => s a ≤ s b :=
      zip_tail_pairwise (fun a b c h1 h2 => h1.trans h2) (by simpa [sidesOf] using h)
    have key : ∀ v ∈ x :: l, s v = s x := by
      intro v hv
      rcases List.mem_cons.1 hv with rfl | hv
      · rfl
      · rw [List.cons_append, List.pairwise_cons] at hp
        have h1 := hp.1 v (by simp [hv])
        have h2 := (List.pairwise_append.1 hp.2).2.2 v hv x (by simp)
        exact le_antisymm h2 h1
    intro v hv w hw
    rw [key v hv, key w hw]

theorem sides_mem {vs : List (K × K)} {s : (K × K) × (K × K)} (h : s ∈ sidesOf vs) : s.1 ∈ vs ∧ s.2 ∈ vs := by
  have h1 := (List.of_mem_zip h).1
  have h2 := List.mem_of_mem_tail (List.of_mem_zip h).2
  have key : ∀ x, x ∈ vs ++ vs.head?.toList → x ∈ vs := by
    intro x hx
    rcases List.mem_append.1 hx with hx | hx
    · exact hx
    · cases vs with
      | nil => cases hx
      | cons a l => simp at hx; simp [hx]
  exact ⟨key _ h1, key _ h2⟩

/-- A point all sides turn around the same way is in the shape. -/
theorem inShape_of_turn {vs : List (K × K)} {p : K × K} (hne : vs ≠ []) (hflat : ¬ FlatShape vs)
    (h : (∀ s ∈ sidesOf vs, 0 ≤ crossAt p s.1 s.2) ∨ ∀ s ∈ sidesOf vs, crossAt p s.1 s.2 ≤ 0) :
    InShape vs p := by
  intro n c hc
  by_contra hlt
  rw [not_le] at hlt
  -- how far below the half-plane's border, and how far along it
  set f : K × K → K := fun v => n.1 * (p.1 - v.1) + n.2 * (p.2 - v.2) with hf
  set g : K × K → K := fun v => n.1 * (v.2 - p.2) - n.2 * (v.1 - p.1) with hg
  have hfpos : ∀ v ∈ vs, 0 < f v := fun v hv => by
    have := hc v hv
    simp only [hf]; linarith
  have hn : 0 < n.1 ^ 2 + n.2 ^ 2 := by
    obtain ⟨v, hv⟩ := List.exists_mem_of_ne_nil _ hne
    have := hfpos v hv
    rcases lt_or_eq_of_le (by positivity : 0 ≤ n.1 ^ 2 + n.2 ^ 2) with h0 | h0
    · exact h0
    · have h1 : n.1 = 0 := by nlinarith [sq_nonneg n.1, sq_nonneg n.2]
      have h2 : n.2 = 0 := by nlinarith [sq_nonneg n.1, sq_nonneg n.2]
      simp only [hf, h1, h2] at this
      linarith
  have hid : ∀ a b : K × K, (n.1 ^ 2 + n.2 ^ 2) * crossAt p a b = g a * f b - g b * f a := by
    intro a b
    simp only [hf, hg, crossAt]; ring
  have hconst : ∀ v ∈ vs, ∀ w ∈ vs, g v / f v = g w / f w := by
    rcases h with h | h
    · intro v hv w hw
      have := around_const (vs := vs) (s := fun v => - (g v / f v)) (by
        intro e he
        obtain ⟨h1, h2⟩ := sides_mem he
        have hc := hid e.1 e.2
        have := mul_nonneg hn.le (h e he)
        simp only [neg_le_neg_iff]
        rw [div_le_div_iff₀ (hfpos _ h2) (hfpos _ h1)]
        linarith) v hv w hw
      exact neg_injective this
    · exact around_const (vs := vs) (s := fun v => g v / f v) (by
        intro e he
        obtain ⟨h1, h2⟩ := sides_mem he
        have hc := hid e.1 e.2
        have := mul_nonneg hn.le (neg_nonneg.2 (h e he))
        rw [div_le_div_iff₀ (hfpos _ h1) (hfpos _ h2)]
        linarith)
  obtain ⟨v0, hv0⟩ := List.exists_mem_of_ne_nil _ hne
  set k := g v0 / f v0 with hk
  -- every corner satisfies g v = k * f v, a line
  apply hflat
  refine ⟨(- n.2 + k * n.1, n.1 + k * n.2), ?_, (n.1 * p.2 - n.2 * p.1) + k * (n.1 * p.1 + n.2 * p.2), ?_⟩
  · intro h0
    have e1 : - n.2 + k * n.1 = 0 := congrArg Prod.fst h0
    have e2 : n.1 + k * n.2 = 0 := congrArg Prod.snd h0
    have e3 : n.2 = k * n.1 := by linarith
    have e4 : n.1 * (1 + k ^ 2) = 0 := by rw [e3] at e2; linarith
    have e5 : n.1 = 0 := by
      rcases mul_eq_zero.1 e4 with h | h
      · exact h
      · nlinarith [sq_nonneg k]
    rw [e3, e5] at hn
    simp at hn
  · intro v hv
    have := hconst v hv v0 hv0
    rw [← hk, div_eq_iff (hfpos v hv).ne'] at this
    simp only [hf, hg] at this
    linarith

theorem sideNonempty {vs : List (K × K)} (h : vs ≠ []) : sidesOf vs ≠ [] := by
  cases vs with
  | nil => exact absurd rfl h
  | cons a l => cases l <;> simp [sidesOf]

theorem polyEncloses_shape {vs : List (K × K)} {p : K × K} (hne : vs ≠ []) (hflat : ¬ FlatShape vs)
    (h : polyEncloses vs p = true) : InShape vs p := by
  simp only [polyEncloses, Bool.and_eq_true, Bool.or_eq_true, List.all_eq_true, decide_eq_true_eq,
    Bool.not_eq_true', decide_eq_false_iff_not, not_lt] at h
  exact inShape_of_turn hne hflat (h.2.symm.imp id fun h s hs => (h s hs).le)

theorem polyEncloses_inside {vs : List (K × K)} {p : K × K} (h : StrictlyInside vs p) :
    polyEncloses vs p = true := by
  simp only [polyEncloses, Bool.and_eq_true, Bool.or_eq_true, List.all_eq_true, decide_eq_true_eq,
    Bool.not_eq_true', decide_eq_false_iff_not, not_lt, List.any_eq_false, onSide]
  refine ⟨?_, .inr fun s hs => (h s hs).le⟩
  rintro s hs ⟨h1, -⟩
  exact absurd h1 (h s hs).ne'

theorem clickModes_some {p : K × K} : ∀ {d : List (String × List (PlotObj (List (K × K))))} {o},
    clickModes p d = some o → ∃ m ∈ d, o ∈ m.2 ∧ clickTakes p o = true
  | [], _, h => by cases h
  | m :: l, o, h => by
    unfold clickModes at h
    split at h
    · rename_i o' ho
      cases h
      exact ⟨m, by simp, List.mem_of_find?_eq_some ho, List.find?_some ho⟩
    · obtain ⟨m', h1, h2⟩ := clickModes_some h
      exact ⟨m', by simp [h1], h2⟩

theorem clickModes_none {p : K × K} : ∀ {d : List (String × List (PlotObj (List (K × K))))},
    clickModes p d = none → ∀ m ∈ d, ∀ o ∈ m.2, clickTakes p o = false
  | [], _ => by simp
  | m :: l, h => by
    unfold clickModes at h
    split at h
    · cases h
    · rename_i hn
      intro m' hm o ho
      rcases List.mem_cons.1 hm with rfl | hm
      · simpa using List.find?_eq_none.1 hn o ho
      · exact clickModes_none h m' hm o ho

/-- The object found was plotted in the subplot, and the point belongs to its shape. -/
theorem C65_found_contains {data : List (List (String × List (PlotObj (List (K × K)))))} {p : K × K} {plot : ℕ}
    {o : PlotObj (List (K × K))} (h : getPlotData data p plot = .ok (some o)) :
    (∃ d m, data[plot]? = some d ∧ m ∈ d ∧ o ∈ m.2) ∧ (¬ FlatShape o.verts.tail → InShape o.verts p) := by
  simp only [getPlotData, bind_ok, needSome_ok, pure_ok] at h
  obtain ⟨d, hd, h⟩ := h
  obtain ⟨m, h1, h2, h3⟩ := clickModes_some h
  refine ⟨⟨d, m, hd, h1, h2⟩, fun hflat n c hc => ?_⟩
  simp only [clickTakes, Bool.and_eq_true, decide_eq_true_eq] at h3
  refine polyEncloses_shape ?_ hflat h3.2 n c fun v hv => hc v (List.mem_of_mem_tail hv)
  intro he
  have := congrArg List.length he
  simp at this
  omega

/-- A point strictly inside some shape plotted in the subplot is always found. -/
theorem C65_inside_found {data : List (List (String × List (PlotObj (List (K × K)))))} {p : K × K} {plot : ℕ}
    {d} (hd : data[plot]? = some d) {m} (hm : m ∈ d) {o : PlotObj (List (K × K))} (ho : o ∈ m.2)
    (hlen : 4 ≤ o.verts.length) (hin : StrictlyInside o.verts.tail p) :
    ∃ o', getPlotData data p plot = .ok (some o') := by
  cases hc : clickModes p d with
  | some o' =>
    refine ⟨o', ?_⟩
    simp only [getPlotData, bind_ok, needSome_ok, pure_ok]
    exact ⟨d, hd, hc⟩
  | none =>
    have := clickModes_none hc m hm o ho
    rw [clickTakes, polyEncloses_inside hin] at this
    simp [hlen] at this

/-- If only one plotted shape may contain the point, that one is found.  The claim "the click tells the set under
the pointer" is false for overlapping shapes: the one plotted first in the first mode is answered, not the one drawn
on top (`C65_first_not_top`). -/
theorem C65_click_unique_partial {data : List (List (String × List (PlotObj (List (K × K)))))} {p : K × K} {plot : ℕ}
    {d} (hd : data[plot]? = some d) {m} (hm : m ∈ d) {o : PlotObj (List (K × K))} (ho : o ∈ m.2)
    (hlen : 4 ≤ o.verts.length) (hin : StrictlyInside o.verts.tail p)
    (hone : ∀ m' ∈ d, ∀ o' ∈ m'.2, ¬ FlatShape o'.verts.tail ∧ (InShape o'.verts p → o' = o)) :
    onClick data p (some plot) = .ok (some o) := by
  obtain ⟨o', h⟩ := C65_inside_found hd hm ho hlen hin
  obtain ⟨⟨d', m', h1, h2, h3⟩, h4⟩ := C65_found_contains h
  rw [hd] at h1; cases h1
  obtain ⟨g1, g2⟩ := hone m' h2 o' h3
  have := g2 (h4 g1)
  subst this
  simp only [onClick, bind_ok, needSome_ok, pure_ok]
  exact ⟨_, h, o', rfl, rfl⟩

/-- A click in a subplot on a point that belongs to no shape raises an exception in the listener. -/
theorem C65_click_on_empty_raises {data : List (List (String × List (PlotObj (List (K × K)))))} {p : K × K} {plot : ℕ}
    {d} (hd : data[plot]? = some d)
    (hout : ∀ m ∈ d, ∀ o ∈ m.2, ¬ FlatShape o.verts.tail ∧ ¬ InShape o.verts p) :
    onClick data p (some plot) = .error .runtime := by
  have hc : clickModes p d = none := by
    cases hc : clickModes p d with
    | none => rfl
    | some o =>
      exfalso
      have h : getPlotData data p plot = .ok (some o) := by
        simp only [getPlotData, bind_ok, needSome_ok, pure_ok]
        exact ⟨d, hd, hc⟩
      obtain ⟨⟨d', m', h1, h2, h3⟩, h4⟩ := C65_found_contains h
      rw [hd] at h1; cases h1
      obtain ⟨g1, g2⟩ := hout m' h2 o h3
      exact g2 (h4 g1)
  simp [onClick, getPlotData, needSome, hd, hc, bind, Except.bind, pure, Except.pure]

/-- `get_verts_list` does not answer the list of the mode's vertex lists but the first stored object, with no
others, and it raises if the mode has none. -/
theorem C65_verts_list_is_first_object {V : Type} {data : List (List (String × List (PlotObj V)))} {mode : String}
    {plot : ℕ} {d} (hd : data[plot]? = some d) :
    (∀ l, d.find? (fun m => m.1 == mode) = some (mode, l) →
      getVertsList data mode plot = (match l with | [] => .error .runtime | o :: _ => .ok o)) ∧
    (d.find? (fun m => m.1 == mode) = none → getVertsList data mode plot = .error .runtime) := by
  constructor
  · intro l hl
    cases l <;> simp [getVertsList, needSome, hd, hl, bind, Except.bind]
  · intro hl
    simp [getVertsList, needSome, hd, hl, bind, Except.bind]

end

/-! ### Examples -/

/-- Two squares, the second one inside the first and drawn on top of it. -/
def clickEx : List (List (String × List (PlotObj (List (ℚ × ℚ))))) :=
  [[("m", [⟨[(0, 0), (4, 0), (4, 4), (0, 4), (0, 0)], 0, 0⟩, ⟨[(1, 1), (2, 1), (2, 2), (1, 2), (1, 1)], 1, 5⟩])]]

/-- The set plotted last, on top, is under the pointer, but the first one is answered. -/
theorem C65_first_not_top : StrictlyInside (K := ℚ) [(2, 1), (2, 2), (1, 2), (1, 1)] (3 / 2, 3 / 2) ∧
    (onClick clickEx (3 / 2, 3 / 2) (some 0)).toOption.bind (fun o => o.map fun o => (o.state, o.step)) =
      some (0, 0) := by
  constructor
  · unfold StrictlyInside; decide +kernel
  · decide +kernel

/-- The hypotheses of `C65_inside_found` are met. -/
example : ∃ o', getPlotData clickEx (3, 3) 0 = .ok (some o') :=
  C65_inside_found (o := ⟨[(0, 0), (4, 0), (4, 4), (0, 4), (0, 0)], 0, 0⟩) rfl (List.mem_singleton.2 rfl) (by simp)
    (by simp) (by unfold StrictlyInside; decide +kernel)

theorem clickEx_square : ¬ FlatShape (K := ℚ) [(4, 0), (4, 4), (0, 4), (0, 0)] := by
  rintro ⟨n, hn, c, h⟩
  have h1 := h (4, 0) (by simp)
  have h2 := h (0, 4) (by simp)
  have h3 := h (0, 0) (by simp)
  apply hn
  simp only at h1 h2 h3
  exact Prod.ext (by simp; linarith) (by simp; linarith)

/-- A click outside a square raises. -/
example : onClick (K := ℚ) [[("m", [⟨[(0, 0), (4, 0), (4, 4), (0, 4), (0, 0)], 0, 0⟩])]] (5, 1) (some 0) =
    .error .runtime := by
  refine C65_click_on_empty_raises rfl ?_
  intro m hm o ho
  rw [List.mem_singleton] at hm; subst hm
  simp only [List.mem_singleton] at ho; subst ho
  refine ⟨clickEx_square, fun h => ?_⟩
  have := h (1, 0) 4 (by decide +kernel)
  norm_num at this

end Hylaa
