import Verif.Proofs.Accept

/-! Row lists as lists of (row, bound) pairs. -/

set_option linter.unusedSectionVars false

namespace Hylaa

variable {K : Type} [Field K] [LinearOrder K]

theorem zip_flatMap {α β γ : Type} (l : List α) (f : α → List β) (g : α → List γ)
    (h : ∀ a ∈ l, (f a).length = (g a).length) :
    (l.flatMap f).zip (l.flatMap g) = l.flatMap fun a => (f a).zip (g a) := by
  induction l with
  | nil => rfl
  | cons a l ih =>
    simp only [List.flatMap_cons]
    rw [List.zip_append (h a (by simp)), ih fun b hb => h b (by simp [hb])]

theorem le_iff_zip {c : Csr K} {rhs : List K} (hl : c.rows.length = rhs.length) (x : ℕ → K) :
    c.le x rhs ↔ ∀ p ∈ c.rows.zip rhs, dot p.1 x ≤ p.2 := by
  constructor
  · intro h p hp
    obtain ⟨i, hi, rfl⟩ := List.getElem_of_mem hp
    simp only [List.length_zip] at hi
    have := h i (by omega)
    rw [Csr.row_lt (by omega)] at this
    simpa using this
  · intro h i hi
    have hi2 : i < c.rows.length := by omega
    rw [Csr.row_lt hi2]
    exact h (c.rows[i], rhs[i]) (by
      rw [List.mem_iff_getElem]
      exact ⟨i, by simp; omega, by simp⟩)

theorem satTypes_up {c : Csr K} {rhs : List K} (x : ℕ → K) :
    c.satTypes (typesOr none rhs.length) rhs x ↔ c.le x rhs := by
  unfold Csr.satTypes Csr.le
  apply forall_congr'; intro i
  apply forall_congr'; intro hi
  have : (typesOr none rhs.length).getD i .up = .up := by
    simp [typesOr, List.getD_eq_getElem?_getD, hi]
  rw [this]; rfl

theorem flatMap_range_zipIdx {α β : Type} (l : List α) (f : ℕ → List β) :
    (List.range l.length).flatMap f = l.zipIdx.flatMap fun p => f p.2 := by
  have : List.range l.length = l.zipIdx.map Prod.snd := by
    simp [List.zipIdx_map_snd, List.range_eq_range']
  rw [this, List.flatMap_map]

theorem flatMap_zipIdx_fst {α β : Type} (l : List α) (f : α → List β) :
    l.flatMap f = l.zipIdx.flatMap fun p => f p.1 := by
  conv_lhs => rw [show l = l.zipIdx.map Prod.fst by simp [List.zipIdx_map_fst]]
  rw [List.flatMap_map]

theorem mem_zipIdx_iff' {α : Type} {l : List α} {p : α × ℕ} :
    p ∈ l.zipIdx ↔ ∃ h : p.2 < l.length, p.1 = l[p.2] := by
  constructor
  · intro h
    have := List.mem_zipIdx' h
    exact ⟨this.1, this.2⟩
  · rintro ⟨h, hp⟩
    rw [List.mem_iff_getElem]
    refine ⟨p.2, by simpa using h, ?_⟩
    cases p; simp_all

end Hylaa
