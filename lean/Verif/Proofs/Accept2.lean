import Verif.Proofs.Inst

/-! Calls with matching shapes succeed. -/

set_option linter.unusedSectionVars false

namespace Hylaa
open Spec
variable {K : Type} [Field K] [LinearOrder K]

theorem setBasisMatrix_accepts (s : Sys K) {m : Mat K} (h1 : m.nr = s.dims) (h2 : m.nc = s.dims) :
    ∃ s', setBasisMatrix s m = .ok s' := by
  simp only [setBasisMatrix, bind_ok, assert_ok, pure_ok]
  exact ⟨_, (), by omega, (), h1, rfl⟩

theorem addInputEffects_accepts {s : Sys K} {n : Mat K} {mode : Mode K} {inp : Inputs K}
    {a : Csr K} (hie : s.ie.isSome = true) (hin : mode.inputs = some inp) (ha : mode.a = some a)
    (h1 : n.nc = inp.b.ncols) (h2 : n.nr = s.dims) (h3 : a.ncols = s.dims) :
    ∃ s', addInputEffects s n mode none = .ok s' := by
  obtain ⟨p, hp⟩ := Option.isSome_iff_exists.1 hie
  simp only [addInputEffects, bind_ok, assert_ok, need_ok, needSome_ok, setCsc_ok]
  refine ⟨_, (), hie, (), by rw [hin]; rfl, p, hp, inp, hin, a, ha, (), by simpa using h1, (),
    by omega, (), by omega, (), by simp, ⟨⟨?_, ?_⟩, rfl⟩⟩
  · simp [Sys.numRows, Sys.addRowsLE, Sys.addCols]
  · simp [Sys.numCols, Sys.addRowsLE, Sys.addCols]

theorem bloat_accepts (s : Sys K) {a : K} (h : 0 ≤ a) (pre : String) :
    ∃ s', bloat s a pre = .ok s' := by
  simp only [bloat, bind_ok, assert_ok, setCsc_ok]
  refine ⟨_, (), h, ⟨⟨?_, ?_⟩, rfl⟩⟩
  · simp [Sys.numRows, Sys.addRowsLE, Sys.addCols]
  · simp [Sys.numCols, Sys.addRowsLE, Sys.addCols]

theorem iePart_lt {vec : ℕ → K} {dims off m : ℕ} {ies : List (Mat K)} (h : ∀ n ∈ ies, n.nc = m)
    {p : ℕ × K} (hp : p ∈ iePart vec dims off ies) : p.1 < off + m * ies.length := by
  induction ies generalizing off with
  | nil => simp [iePart] at hp
  | cons n ns ih =>
    have hn := h n (by simp)
    simp only [iePart, List.mem_append] at hp
    rw [List.length_cons, Nat.mul_succ]
    rcases hp with hp | hp
    · simp only [rangeRow, List.mem_map, List.mem_range] at hp
      obtain ⟨a, ha, rfl⟩ := hp
      simp only; have := Nat.zero_le (m * ns.length); omega
    · have := ih (fun q hq => h q (by simp [hq])) hp
      omega

theorem addInitConstraint_accepts {s : Sys K} {ρ : Rep K} (hs : s.Repr ρ) {vec : List K} {rhs : K}
    {bm : Mat K} {ies : Option (List (Mat K))} (hv : vec.length = ρ.n) (hbm : bm.nr = ρ.n)
    (hnc : ∀ N ∈ ies.getD [], N.nc = ρ.m) (hlen : (ies.getD []).length ≤ ρ.Ns.length) :
    ∃ s' row, addInitConstraint s vec rhs bm ies none = .ok (s', row) := by
  obtain ⟨X, R, hsh, -⟩ := hs.shape
  have hc1 := hsh.colsLe
  have hc2 := hsh.curLe'
  have hn := hs.n
  have hie : ∃ r, ieRowOf s.ie (fun k => vec.getD k 0) bm.nr ies = .ok r ∧
      ∀ p ∈ r, p.1 < s.numCols := by
    match ies, hnc, hlen with
    | none, _, _ => exact ⟨[], rfl, by simp⟩
    | some [], _, _ => exact ⟨[], rfl, by simp⟩
    | some (n :: ns), hnc, hlen =>
      cases hie : s.ie with
      | none =>
        have := hs.noIe hie
        rw [this] at hlen; simp at hlen
      | some p =>
        simp only [Option.getD_some] at hnc hlen
        refine ⟨iePart (fun k => vec.getD k 0) bm.nr (p.2 + bm.nr) (n :: ns), ?_, fun q hq => ?_⟩
        · simp only [ieRowOf, bind_ok, needSome_ok, assert_ok, pure_ok]
          exact ⟨p, rfl, (), fun m hm => by
            rw [hnc m (by simp [hm]), hnc n (by simp)], rfl⟩
        · have h1 := iePart_lt hnc hq
          have h2 := hs.cols (by rw [hie]; rfl)
          have h3 := (hsh.iePos p hie).1
          have h4 : ρ.m * (n :: ns).length ≤ ρ.m * ρ.Ns.length := Nat.mul_le_mul_left _ hlen
          unfold Sys.inBase at h2
          omega
  obtain ⟨r, hr, hrl⟩ := hie
  simp only [addInitConstraint, bind_ok, need_ok, Except.ok.injEq, setCsr_ok, pure_ok,
    Prod.mk.injEq]
  refine ⟨_, _, (), by omega, _, rfl, r, hr, (), ?_, _, ⟨⟨?_, ?_⟩, rfl⟩, rfl, rfl⟩
  · intro p hp
    rcases List.mem_append.1 hp with hp | hp
    · simp only [rangeRow, List.mem_map, List.mem_range] at hp
      obtain ⟨a, ha, rfl⟩ := hp
      simp only [Sys.addRowsLE]; omega
    · exact hrl p hp
  · simp [Sys.numRows, Sys.addRowsLE]
  · simp [Sys.numCols, Sys.addRowsLE]

end Hylaa
