import Verif.Proofs.SatL
import Verif.Props.Query
import Mathlib.Tactic.LinearCombination

/-!
# Properties C15, C17: Minkowski sums and input sets
-/

set_option linter.unusedSectionVars false

namespace Hylaa

namespace Spec
variable {K : Type} [Field K] [LinearOrder K]

/-- `A₁ ⊕ ... ⊕ A_k` in dimension `n` (the empty sum is the origin). -/
def SumOf (n : ℕ) : List ((ℕ → K) → Prop) → (ℕ → K) → Prop
  | [], x => ∀ i < n, x i = 0
  | A :: As, x => ∃ a b, A a ∧ SumOf n As b ∧ ∀ i < n, x i = a i + b i

/-- The image `{B w | C w ≤ d}` in dimension `B.nrows`. -/
def ImageOf (B C : Csr K) (d : List K) (x : ℕ → K) : Prop :=
  ∃ w, C.le w d ∧ ∀ i < B.nrows, x i = dot (B.row i) w

end Spec

open Spec
variable {K : Type} [Field K] [LinearOrder K]

theorem Sys.Sat.congr {s : Sys K} (hwf : s.WF) {v w : ℕ → K} (h : ∀ j < s.numCols, v j = w j) :
    s.Sat v ↔ s.Sat w := by
  unfold Sys.Sat
  refine forall_congr' fun r => forall_congr' fun hr => ?_
  exact LRow.holds_congr fun p hp => h _ (hwf r hr p hp)

theorem getRhs_length {M : K} (s : Sys K) : (s.getRhs M).length = s.rows.length := by
  simp [Sys.getRhs]

theorem getTypes_length (s : Sys K) : s.getTypes.length = s.rows.length := by simp [Sys.getTypes]

theorem minkBlocks_length (off : ℕ) (ss : List (Sys K)) {M : K} :
    (minkBlocks off ss).length = (ss.flatMap (Sys.getRhs M)).length := by
  induction ss generalizing off with
  | nil => rfl
  | cons s ss ih => simp [minkBlocks, ih, getRhs_length]

theorem minkTypes_length (ss : List (Sys K)) {M : K} :
    (ss.flatMap Sys.getTypes).length = (ss.flatMap (Sys.getRhs M)).length := by
  induction ss with
  | nil => rfl
  | cons s ss ih => simp only [List.flatMap_cons, List.length_append, ih, getRhs_length,
      getTypes_length]

/-- What the sum needs of its arguments. -/
structure SumArg (n : ℕ) (s : Sys K) : Prop where
  noLo : s.NoLo
  wf : s.WF
  dims : s.dims = n
  cur : s.cur + s.dims ≤ s.numCols

theorem minkBlocks_sat {M : K} {n : ℕ} (ss : List (Sys K)) (hss : ∀ s ∈ ss, SumArg n s) (off : ℕ)
    (y0 t : ℕ → K) :
    (∃ y, (∀ j < off, y j = y0 j) ∧
      satL (ss.flatMap Sys.getTypes) (minkBlocks off ss) (ss.flatMap (Sys.getRhs M)) y ∧
      ∀ d < n, t d = -dot (minkSumRow off ss d) y) ↔ SumOf n (ss.map fun s => s.Mem) t := by
  induction ss generalizing off y0 t with
  | nil =>
    simp only [List.flatMap_nil, minkBlocks, satL, minkSumRow, dot_nil, neg_zero, true_and,
      List.map_nil, SumOf]
    exact ⟨fun ⟨_, _, h⟩ => h, fun h => ⟨y0, fun _ _ => rfl, h⟩⟩
  | cons s ss ih =>
    have hs := hss s (by simp)
    have ih := ih (fun s hs => hss s (by simp [hs]))
    have happ : ∀ y, satL ((s :: ss).flatMap Sys.getTypes) (minkBlocks off (s :: ss))
        ((s :: ss).flatMap (Sys.getRhs M)) y ↔ (s.Sat fun j => y (off + j)) ∧
        satL (ss.flatMap Sys.getTypes) (minkBlocks (off + s.numCols) ss)
          (ss.flatMap (Sys.getRhs M)) y := by
      intro y
      simp only [List.flatMap_cons, minkBlocks]
      rw [satL_append _ _ _ _ _ _ (by simp [getRhs_length, getTypes_length])
        (by simp [getRhs_length]), satL_sys s hs.noLo]
    simp only [List.map_cons, SumOf, happ]
    constructor
    · rintro ⟨y, hy0, ⟨hy1, hy2⟩, hy3⟩
      refine ⟨fun i => y (off + s.cur + i), fun d => -dot (minkSumRow (off + s.numCols) ss d) y,
        ⟨_, hy1, fun i _ => by simp only [Nat.add_assoc]⟩,
        (ih (off + s.numCols) y _).1 ⟨y, fun _ _ => rfl, hy2, fun _ _ => rfl⟩, fun i hi => ?_⟩
      rw [hy3 i hi]
      simp only [minkSumRow, dot_cons]
      ring
    · rintro ⟨a, b, ⟨v, hv, hva⟩, hb, ht⟩
      obtain ⟨y, hy0, hy1, hy2⟩ := (ih (off + s.numCols)
        (fun j => if j < off then y0 j else v (j - off)) b).2 hb
      have hyv : ∀ j < s.numCols, y (off + j) = v j := by
        intro j hj
        rw [hy0 _ (by omega), if_neg (by omega)]
        congr 1; omega
      refine ⟨y, fun j hj => ?_, ⟨(Sys.Sat.congr hs.wf hyv).2 hv, hy1⟩, fun d hd => ?_⟩
      · rw [hy0 j (by omega), if_pos hj]
      · have hd' : s.cur + d < s.numCols := by have := hs.cur; rw [hs.dims] at this; omega
        have e : y (off + s.cur + d) = a d := by
          rw [Nat.add_assoc, hyv _ hd', hva d (by rw [hs.dims]; exact hd)]
        rw [ht d hd, hy2 d hd]
        simp only [minkSumRow, dot_cons, e]
        ring

theorem minkBlocks_wf {n : ℕ} (ss : List (Sys K)) (hss : ∀ s ∈ ss, SumArg n s) (off : ℕ) :
    (∀ r ∈ minkBlocks off ss, ∀ p ∈ r, p.1 < off + (ss.map Sys.numCols).sum) ∧
    ∀ d < n, ∀ p ∈ minkSumRow off ss d, p.1 < off + (ss.map Sys.numCols).sum := by
  induction ss generalizing off with
  | nil => simp [minkBlocks, minkSumRow]
  | cons s ss ih =>
    have hs := hss s (by simp)
    obtain ⟨i1, i2⟩ := ih (fun s hs => hss s (by simp [hs])) (off + s.numCols)
    constructor
    · intro r hr p hp
      simp only [minkBlocks, List.mem_append, List.mem_map] at hr
      simp only [List.map_cons, List.sum_cons]
      rcases hr with ⟨r', hr', rfl⟩ | hr
      · simp only [shiftRow, List.mem_map] at hp
        obtain ⟨q, hq, rfl⟩ := hp
        have := hs.wf r' hr' q hq
        simp only; omega
      · have := i1 r hr p hp; omega
    · intro d hd p hp
      simp only [minkSumRow, List.mem_cons] at hp
      simp only [List.map_cons, List.sum_cons]
      rcases hp with rfl | hp
      · have := hs.cur; rw [hs.dims] at this; simp only; omega
      · have := i2 d hd p hp; omega

/-- The result of `minkowski_sum` on well-formed instances. -/
theorem minkowskiSum_mem {S : Solver K} {M : K} {lps : List (Lp K)} {mode : Mode K} {lp : Lp K}
    (hlo : ∀ l ∈ lps, l.NoLo) (hwf : ∀ l ∈ lps, l.WF ∧ l.cur + l.dims ≤ l.numCols)
    (h : minkowskiSum S M lps mode = .ok lp) (x : ℕ → K) :
    lp.Mem x ↔ SumOf lp.dims (lps.map fun l => l.Mem) x := by
  simp only [minkowskiSum, bind_ok, needSome_ok, assert_ok] at h
  obtain ⟨first, hfirst, _, hdims, h⟩ := h
  set n := first.dims with hn
  set ss := lps.map fun lp => lp.toSys with hssdef
  have hss : ∀ s ∈ ss, SumArg n s := by
    intro s hs
    obtain ⟨l, hl, rfl⟩ := List.mem_map.1 hs
    exact ⟨hlo l hl, (hwf l hl).1, hdims l hl, (hwf l hl).2⟩
  obtain ⟨w1, w2⟩ := minkBlocks_wf ss hss n
  have hnames : ∀ ns, some ((List.range (n + (ss.map Sys.numCols).sum)).map fun k => s!"c{k}") =
      some ns → ns.length = n + (ss.map Sys.numCols).sum := by
    rintro ns ⟨⟩; simp
  have hw : (⟨n + (ss.map Sys.numCols).sum, ((List.range n).map fun d => (d, (1 : K)) ::
      minkSumRow n ss d) ++ minkBlocks n ss⟩ : Csr K).WF := by
    intro r hr p hp
    rcases List.mem_append.1 hr with hr | hr
    · obtain ⟨d, hd, rfl⟩ := List.mem_map.1 hr
      rcases List.mem_cons.1 hp with rfl | hp
      · have := List.mem_range.1 hd; simp only; omega
      · exact w2 d (List.mem_range.1 hd) p hp
    · exact w1 r hr p hp
  have hd : lp.dims = n := by
    obtain ⟨-, -, -, -, -, hd, -⟩ := fromConstraints_ok h hnames
    simpa using hd
  rw [fromConstraints_mem h hnames hw, hd]
  simp only [Option.getD_some, typesOr]
  have hm : (lps.map fun l => l.Mem) = ss.map fun s => s.Mem := by simp [hssdef]
  rw [hm, ← minkBlocks_sat (M := M) ss hss n x x]
  apply exists_congr
  intro y
  have l1 := minkTypes_length ss (M := M)
  have l2 := minkBlocks_length n ss (M := M)
  have l3 : (List.replicate n RowType.fx ++ ss.flatMap Sys.getTypes).length =
      (List.replicate n (0 : K) ++ ss.flatMap (Sys.getRhs M)).length := by
    rw [List.length_append, List.length_append, l1]; simp
  have l4 : (((List.range n).map fun d => (d, (1 : K)) :: minkSumRow n ss d) ++
      minkBlocks n ss).length = (List.replicate n (0 : K) ++ ss.flatMap (Sys.getRhs M)).length := by
    rw [List.length_append, List.length_append, l2]; simp
  rw [satTypes_iff_satL _ _ _ l3 l4, satL_append _ _ _ _ _ _ (by simp) (by simp), satL_fx_zero]
  simp only [dot_cons]
  constructor
  · rintro ⟨⟨h1, h2⟩, h3⟩
    exact ⟨fun j hj => (h3 j hj).symm, h2, fun d hd => by
      have := h1 d hd; rw [h3 d hd]; linear_combination this⟩
  · rintro ⟨h1, h2, h3⟩
    exact ⟨⟨fun i hi => by have := h3 i hi; rw [← h1 i hi] at this; linear_combination this, h2⟩,
      fun i hi => (h1 i hi).symm⟩

theorem satL_le {ts : List RowType} {rs : List (SRow K)} {bs : List K} (h1 : ts.length = bs.length)
    (h2 : rs.length = bs.length) (hlo : RowType.lo ∉ ts) {y : ℕ → K} (h : satL ts rs bs y) :
    ∀ p ∈ rs.zip bs, dot p.1 y ≤ p.2 := by
  induction bs generalizing ts rs with
  | nil => simp
  | cons b bs ih =>
    cases ts with
    | nil => simp at h1
    | cons t ts =>
      cases rs with
      | nil => simp at h2
      | cons r rs =>
        rw [satL_cons] at h
        intro p hp
        rcases List.mem_cons.1 hp with rfl | hp
        · cases t with
          | fx => exact le_of_eq h.1
          | up => exact h.1
          | lo => simp at hlo
        · exact ih (by simpa using h1) (by simpa using h2) (fun hc => hlo (by simp [hc])) h.2 p hp

/-- With a solver that always answers, `from_constraints` accepts every satisfiable system without
`>=` rows. -/
theorem fromConstraints_accepts_sat {S : Solver K} (hS : S.Complete) {n d : ℕ}
    {ts : List RowType} {rs : List (SRow K)} {bs : List K} {names : List String} {mode : Mode K}
    (h1 : ts.length = bs.length) (h2 : rs.length = bs.length) (hlo : RowType.lo ∉ ts)
    (hn : names.length = n) (hd : d ≤ n) {y : ℕ → K} (h : satL ts rs bs y) :
    ∃ lp, fromConstraints S ⟨n, rs⟩ bs mode (some ts) (some names) (some d) = .ok lp := by
  obtain ⟨b, hb, hb2⟩ := isFeasibleCsr_complete hS (c := ⟨n, rs⟩) (rhs := bs) h2.symm
  have : b = true := hb2.2 ⟨y, by
    rw [le_iff_zip h2]; exact satL_le h1 h2 hlo h⟩
  subst this
  exact fromConstraints_accepts h2 hb rfl hd (by rintro ns ⟨⟩; exact hn) (by rintro t ⟨⟩; exact h1)

variable [IsStrictOrderedRing K]

theorem minkowskiSum_accepts {S : Solver K} (hS : S.Complete) {M : K} {lps : List (Lp K)}
    {mode : Mode K} (hne : lps ≠ []) {n : ℕ} (hin : ∀ l ∈ lps, SumArg n l.toSys)
    (hmem : ∀ l ∈ lps, ∃ x, l.Mem x) : ∃ lp, minkowskiSum S M lps mode = .ok lp := by
  obtain ⟨first, rest, rfl⟩ : ∃ a b, lps = a :: b := by
    cases lps with
    | nil => exact absurd rfl hne
    | cons a b => exact ⟨a, b, rfl⟩
  have hfd : first.dims = n := (hin first (by simp)).dims
  set lps := first :: rest with hl
  simp only [minkowskiSum, bind_ok, needSome_ok, assert_ok]
  set ss := lps.map fun lp => lp.toSys with hssdef
  have hss : ∀ s ∈ ss, SumArg n s := by
    intro s hs
    obtain ⟨l, hl, rfl⟩ := List.mem_map.1 hs
    exact hin l hl
  have hsum : ∀ ss : List (Sys K), (∀ s ∈ ss, ∃ x, s.Mem x) →
      ∃ x, SumOf n (ss.map fun s => s.Mem) x := by
    intro ss
    induction ss with
    | nil => intro _; exact ⟨fun _ => 0, by simp [SumOf]⟩
    | cons s ss ih =>
      intro h
      obtain ⟨a, ha⟩ := h s (by simp)
      obtain ⟨b, hb⟩ := ih fun s hs => h s (by simp [hs])
      exact ⟨fun i => a i + b i, a, b, ha, hb, fun _ _ => rfl⟩
  obtain ⟨t, ht⟩ := hsum ss (by
    intro s hs
    obtain ⟨l, hl, rfl⟩ := List.mem_map.1 hs
    exact hmem l hl)
  obtain ⟨y, hy0, hy1, hy2⟩ := (minkBlocks_sat (M := M) ss hss n t t).2 ht
  have l1 := minkTypes_length ss (M := M)
  have l2 := minkBlocks_length n ss (M := M)
  have l3 : (List.replicate n RowType.fx ++ ss.flatMap Sys.getTypes).length =
      (List.replicate n (0 : K) ++ ss.flatMap (Sys.getRhs M)).length := by
    rw [List.length_append, List.length_append, l1]; simp
  have l4 : (((List.range n).map fun d => (d, (1 : K)) :: minkSumRow n ss d) ++
      minkBlocks n ss).length = (List.replicate n (0 : K) ++ ss.flatMap (Sys.getRhs M)).length := by
    rw [List.length_append, List.length_append, l2]; simp
  obtain ⟨lp, hlp⟩ := fromConstraints_accepts_sat (n := n + (ss.map Sys.numCols).sum) (d := n)
    (names := (List.range (n + (ss.map Sys.numCols).sum)).map fun k => s!"c{k}") (mode := mode)
    hS l3 l4 (by
      rw [List.mem_append]
      rintro (hc | hc)
      · simp at hc
      · obtain ⟨s, hs, hc⟩ := List.mem_flatMap.1 hc
        obtain ⟨l, hl, rfl⟩ := List.mem_map.1 hs
        obtain ⟨r, hr, ht⟩ := List.mem_map.1 hc
        exact (hin l hl).noLo r hr ht) (by simp) (by omega) (y := y) (by
      rw [satL_append _ _ _ _ _ _ (by simp) (by simp), satL_fx_zero]
      refine ⟨fun i hi => ?_, hy1⟩
      simp only [dot_cons]
      have e1 := hy2 i hi
      have e2 := hy0 i hi
      rw [e2]
      linear_combination e1)
  refine ⟨lp, first, rfl, (), ?_, ?_⟩
  · intro l hl; rw [(hin l hl).dims, hfd]
  · rw [hfd]; exact hlp

/-- **C15, acceptance.** With a solver that always answers, `minkowski_sum` of a non-empty list of
non-empty sets of one dimension does not fail. -/
theorem C15_accepts {S : Solver K} (hS : S.Complete) {M : K} {lps : List (Lp K)}
    {mode : Mode K} (hne : lps ≠ []) {n : ℕ} (hdim : ∀ l ∈ lps, l.dims = n)
    (hin : ∀ l ∈ lps, ∃ live, Inst S l live) (hlo : ∀ l ∈ lps, RowType.lo ∉ l.getTypes)
    (hmem : ∀ l ∈ lps, ∃ x, l.Mem x) : ∃ lp, minkowskiSum S M lps mode = .ok lp := by
  refine minkowskiSum_accepts hS hne (n := n) (fun l hl => ?_) hmem
  obtain ⟨live, hi⟩ := hin l hl
  refine ⟨?_, (hi.inv hS.toHonest).1, hdim l hl, (hi.inv hS.toHonest).2.1⟩
  intro r hr ht
  exact hlo l hl (List.mem_map.2 ⟨r, hr, ht⟩)

/-- **C15.** For any number of instances built by any sequence of library calls (none with a `>=`
row), `minkowski_sum` returns an instance of exactly the Minkowski sum of their sets, in their
common dimension. -/
theorem C15_minkowski_sum {S : Solver K} (hS : S.Honest) {M : K} {lps : List (Lp K)}
    {mode : Mode K} {lp : Lp K} (hin : ∀ l ∈ lps, ∃ live, Inst S l live)
    (hlo : ∀ l ∈ lps, RowType.lo ∉ l.getTypes) (h : minkowskiSum S M lps mode = .ok lp) :
    (∀ l ∈ lps, l.dims = lp.dims) ∧
    ∀ x, lp.Mem x ↔ SumOf lp.dims (lps.map fun l => l.Mem) x := by
  have hlo' : ∀ l ∈ lps, l.NoLo := by
    intro l hl r hr ht
    exact hlo l hl (List.mem_map.2 ⟨r, hr, ht⟩)
  have hwf : ∀ l ∈ lps, l.WF ∧ l.cur + l.dims ≤ l.numCols := by
    intro l hl
    obtain ⟨live, hi⟩ := hin l hl
    exact ⟨(hi.inv hS).1, (hi.inv hS).2.1⟩
  refine ⟨?_, minkowskiSum_mem hlo' hwf h⟩
  have h' := h
  simp only [minkowskiSum, bind_ok, needSome_ok, assert_ok] at h
  obtain ⟨first, hfirst, _, hdims, h⟩ := h
  obtain ⟨-, -, -, -, -, hd, -⟩ := fromConstraints_ok h (by rintro ns ⟨⟩; simp)
  simp only [Option.getD_some] at hd
  intro l hl
  rw [hd, hdims l hl]

/-- **C17.** `from_input_constraints` represents exactly `{B w | C w ≤ d}`, for all shapes. -/
theorem C17_from_input_constraints {S : Solver K} {B C : Csr K} {d : List K} {mode : Mode K}
    {lp : Lp K} (hB : B.WF) (h : fromInputConstraints S B C d mode = .ok lp) :
    lp.dims = B.nrows ∧ ∀ x, lp.Mem x ↔ ImageOf B C d x := by
  simp only [fromInputConstraints, bind_ok, need_ok] at h
  obtain ⟨_, hu, h⟩ := h
  set n := B.nrows with hn
  have hnames : ∀ ns, some ((List.range n).map (fun k => s!"c{k}") ++
      (List.range B.ncols).map fun k => s!"u{k}") = some ns → ns.length = n + B.ncols := by
    rintro ns ⟨⟩; simp
  have hlen : C.rows.length = d.length := by
    have : (((List.range n).map fun k => ((k, (-1 : K)) :: shiftRow n (B.row k))) ++
      C.rows.map (shiftRow n)).length = (List.replicate n (0 : K) ++ d).length := by
        simp only [fromConstraints, bind_ok, assert_ok] at h
        exact h.choose_spec.1
    simpa using this
  have hrow : ∀ i < n, ∀ p ∈ B.row i, p.1 < B.ncols := by
    intro i hi p hp
    have : i < B.rows.length := hi
    refine hB (B.row i) ?_ p hp
    unfold Csr.row
    rw [List.getD_eq_getElem?_getD, List.getElem?_eq_getElem this]
    exact List.getElem_mem this
  have hw : (⟨n + B.ncols, ((List.range n).map fun k => ((k, (-1 : K)) :: shiftRow n (B.row k))) ++
      C.rows.map (shiftRow n)⟩ : Csr K).WF := by
    intro r hr p hp
    rcases List.mem_append.1 hr with hr | hr
    · obtain ⟨k, hk, rfl⟩ := List.mem_map.1 hr
      have hk := List.mem_range.1 hk
      rcases List.mem_cons.1 hp with rfl | hp
      · simp only; omega
      · simp only [shiftRow, List.mem_map] at hp
        obtain ⟨q, hq, rfl⟩ := hp
        have := hrow k hk q hq
        simp only; omega
    · exact hu r hr p hp
  refine ⟨?_, fun x => ?_⟩
  · obtain ⟨-, -, -, -, -, hd, -⟩ := fromConstraints_ok h hnames
    simpa using hd
  rw [fromConstraints_mem h hnames hw]
  simp only [Option.getD_some, typesOr]
  have key : ∀ y, (⟨n + B.ncols, ((List.range n).map fun k => ((k, (-1 : K)) ::
      shiftRow n (B.row k))) ++ C.rows.map (shiftRow n)⟩ : Csr K).satTypes
      (List.replicate n .fx ++ List.replicate C.nrows .up) (List.replicate n 0 ++ d) y ↔
      (∀ i < n, y i = dot (B.row i) fun j => y (n + j)) ∧ C.le (fun j => y (n + j)) d := by
    intro y
    rw [satTypes_iff_satL _ _ _ (by simp [Csr.nrows, hlen]) (by simp [hlen]),
      satL_append _ _ _ _ _ _ (by simp) (by simp), satL_fx_zero,
      satL_up _ _ (by simp [hlen]) _ (by simp [Csr.nrows, hlen]), le_iff_zip hlen]
    apply and_congr
    · refine forall_congr' fun i => forall_congr' fun hi => ?_
      simp only [dot_cons, dot_shiftRow]
      constructor <;> intro h <;> linarith
    · rw [List.zip_map_left]
      simp only [List.mem_map, forall_exists_index, and_imp, forall_apply_eq_imp_iff₂]
      refine forall_congr' fun p => forall_congr' fun hp => ?_
      simp
  simp only [key]
  constructor
  · rintro ⟨y, ⟨h1, h2⟩, h3⟩
    exact ⟨fun j => y (n + j), h2, fun i hi => by rw [h3 i hi, h1 i hi]⟩
  · rintro ⟨w, hw, hx⟩
    refine ⟨fun j => if j < n then x j else w (j - n), ⟨fun i hi => ?_, ?_⟩, fun i hi => ?_⟩
    · simp only [if_pos hi]
      rw [hx i hi]
      apply dot_congr; intro p _; simp
    · have : (fun j => if n + j < n then x (n + j) else w (n + j - n)) = w := by
        funext j; simp
      simpa [this] using hw
    · simp [if_pos hi]

/-- **C17, acceptance.** With a solver that always answers, a non-empty input set of matching shape
is accepted. -/
theorem C17_accepts {S : Solver K} (hS : S.Complete) {B C : Csr K} {d : List K} {mode : Mode K}
    (hC : C.WF) (hn : C.ncols = B.ncols) (hlen : C.nrows = d.length) (hne : ∃ w, C.le w d) :
    ∃ lp, fromInputConstraints S B C d mode = .ok lp := by
  obtain ⟨w, hw⟩ := hne
  have hlen' : C.rows.length = d.length := hlen
  simp only [fromInputConstraints, bind_ok, need_ok]
  set n := B.nrows with hnn
  obtain ⟨lp, hlp⟩ := fromConstraints_accepts_sat (n := n + B.ncols) (d := n)
    (ts := List.replicate n .fx ++ List.replicate C.nrows .up)
    (rs := ((List.range n).map fun k => ((k, (-1 : K)) :: shiftRow n (B.row k))) ++
      C.rows.map (shiftRow n)) (bs := List.replicate n 0 ++ d)
    (names := (List.range n).map (fun k => s!"c{k}") ++ (List.range B.ncols).map fun k => s!"u{k}")
    (mode := mode) hS (by simp [hlen]) (by simp [hlen']) (by simp) (by simp) (by omega)
    (y := fun j => if j < n then dot (B.row j) w else w (j - n)) (by
      rw [satL_append _ _ _ _ _ _ (by simp) (by simp), satL_fx_zero,
        satL_up _ _ (by simp [hlen']) _ (by simp [hlen])]
      constructor
      · intro i hi
        simp only [dot_cons, dot_shiftRow, if_pos hi]
        have : (fun j => if n + j < n then dot (B.row (n + j)) w else w (n + j - n)) = w := by
          funext j; simp
        rw [this]; ring
      · rw [le_iff_zip hlen'] at hw
        rw [List.zip_map_left]
        simp only [List.mem_map, forall_exists_index, and_imp, forall_apply_eq_imp_iff₂]
        intro p hp
        have := hw p hp
        simpa using this)
  refine ⟨lp, (), ?_, hlp⟩
  intro r hr p hp
  obtain ⟨r', hr', rfl⟩ := List.mem_map.1 hr
  simp only [shiftRow, List.mem_map] at hp
  obtain ⟨q, hq, rfl⟩ := hp
  have := hC r' hr' q hq
  simp only; omega

/-- C15 on an example: `[0, 1] ⊕ [0, 1]` is `[0, 2]`. -/
example : ∃ lp l : Lp ℚ, minkowskiSum (idealSolver ℚ) 0 [l, l] exModeU = .ok lp ∧
    (∀ x, l.Mem x ↔ 0 ≤ x 0 ∧ x 0 ≤ 1) ∧ lp.Mem (fun _ => 2) ∧ ¬ lp.Mem (fun _ => 3) := by
  obtain ⟨l, h⟩ := C01_from_box_accepts (idealSolver_complete (K := ℚ)) (box := [(0, 1)])
    exModeU (by norm_num)
  have hm : ∀ x, l.Mem x ↔ 0 ≤ x 0 ∧ x 0 ≤ 1 := by
    intro x
    refine (C01_from_box h x).trans ⟨fun h => h 0 (by simp), fun h i hi => ?_⟩
    simp at hi; subst hi; exact h
  simp only [fromBox, bind_ok, assert_ok] at h
  obtain ⟨_, -, h⟩ := h
  have hI := Inst.hist (Hist.construct h (by simp) (boxCsr_wf [((0 : ℚ), 1)]))
  have hlo : RowType.lo ∉ l.getTypes := by
    obtain ⟨-, -, -, -, -, -, -, -, -, -, hr, -⟩ := fromConstraints_ok h (by simp)
    unfold Sys.getTypes
    rw [hr]
    simp [exModeU, typesOr, List.range_succ]
  have hd : l.dims = 1 := by
    obtain ⟨-, -, -, -, -, hd, -⟩ := fromConstraints_ok h (by simp)
    simpa using hd
  have hne : ∃ x, l.Mem x := ⟨fun _ => 0, (hm _).2 (by norm_num)⟩
  obtain ⟨lp, hlp⟩ := C15_accepts idealSolver_complete (M := 0) (lps := [l, l]) (mode := exModeU)
    (by simp) (n := 1) (by simp [hd]) (by simpa using Or.inr hI) (by simpa using hlo)
    (by simpa using hne)
  obtain ⟨hd2, hC⟩ := C15_minkowski_sum (idealSolver_complete (K := ℚ)).toHonest
    (by simpa using Or.inr hI) (by simpa using hlo) hlp
  have hdl : lp.dims = 1 := by rw [← hd2 l (by simp), hd]
  refine ⟨lp, l, hlp, hm, (hC _).2 ?_, fun hc => ?_⟩
  · exact ⟨fun _ => 1, fun _ => 1, (hm _).2 (by norm_num),
      ⟨fun _ => 1, fun _ => 0, (hm _).2 (by norm_num), fun _ _ => rfl, fun _ _ => by norm_num⟩,
      fun _ _ => by norm_num⟩
  · obtain ⟨a, b, ha, ⟨c, e, hc, he, hb⟩, hx⟩ := (hC _).1 hc
    have h1 := hx 0 (by omega)
    have h2 := hb 0 (by omega)
    have h3 := he 0 (by omega)
    have h4 := (hm a).1 ha
    have h5 := (hm c).1 hc
    linarith [h4.2, h5.2]

/-- C17 on an example: two inputs in `[-1, 1]` (as `w₀ ≤ 1, -w₀ ≤ 1, ...`), `B = [1 2]`. -/
example : ∃ lp : Lp ℚ, fromInputConstraints (idealSolver ℚ) ⟨2, [[(0, 1), (1, 2)]]⟩
    ⟨2, [[(0, 1)], [(0, -1)], [(1, 1)], [(1, -1)]]⟩ [1, 1, 1, 1] exModeU = .ok lp ∧
    lp.Mem (fun _ => 3) ∧ ¬ lp.Mem (fun _ => 4) := by
  have hC : (⟨2, [[(0, 1)], [(0, -1)], [(1, 1)], [(1, -1)]]⟩ : Csr ℚ).WF := by
    intro r hr p hp
    simp at hr
    rcases hr with rfl | rfl | rfl | rfl <;> simp at hp <;> subst hp <;> simp
  have hB : (⟨2, [[(0, 1), (1, 2)]]⟩ : Csr ℚ).WF := by
    intro r hr p hp
    simp at hr
    subst hr
    simp at hp
    rcases hp with rfl | rfl <;> simp
  have hle : ∀ w : ℕ → ℚ, (⟨2, [[(0, 1)], [(0, -1)], [(1, 1)], [(1, -1)]]⟩ : Csr ℚ).le w
      [1, 1, 1, 1] ↔ w 0 ≤ 1 ∧ -w 0 ≤ 1 ∧ w 1 ≤ 1 ∧ -w 1 ≤ 1 := by
    intro w
    rw [le_iff_zip rfl]
    simp
  obtain ⟨lp, hlp⟩ := C17_accepts (idealSolver_complete (K := ℚ)) (B := ⟨2, [[(0, 1), (1, 2)]]⟩)
    (mode := exModeU) (d := [1, 1, 1, 1]) hC rfl rfl ⟨fun _ => 0, (hle _).2 (by norm_num)⟩
  have hm := (C17_from_input_constraints hB hlp).2
  refine ⟨lp, hlp, (hm _).2 ⟨fun _ => 1, (hle _).2 (by norm_num), ?_⟩, fun hc => ?_⟩
  · intro i hi
    simp [Csr.nrows] at hi
    subst hi
    norm_num [Csr.row]
  · obtain ⟨w, hw, hx⟩ := (hm _).1 hc
    have h1 := hx 0 (by simp [Csr.nrows])
    have h2 := (hle w).1 hw
    simp [Csr.row] at h1
    linarith [h2.1, h2.2.2.1]

end Hylaa
