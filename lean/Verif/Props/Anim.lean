import Verif.Model.Anim
import Verif.Model.Core
import Verif.Model.Sim
import Verif.Proofs.Inv

/-!
# C63: how an analysis is displayed does not change what it computes
-/

set_option linter.unusedSectionVars false

namespace Hylaa
variable {σ : Type}

/-- `n` steps. -/
def Machine.iter (M : Machine σ) : ℕ → σ → Except Err σ
  | 0, s => .ok s
  | n + 1, s => do
    let s ← M.step s
    M.iter n s

/-- Once finished, `do_step` does nothing. -/
def Machine.Rests (M : Machine σ) : Prop := ∀ s, M.fin s = true → M.step s = .ok s

theorem Machine.iter_add (M : Machine σ) : ∀ (m n : ℕ) {s : σ},
    M.iter (m + n) s = (do let s ← M.iter m s; M.iter n s)
  | 0, n, s => by rw [Nat.zero_add]; rfl
  | m + 1, n, s => by
    rw [Nat.add_right_comm]
    simp only [Machine.iter]
    cases M.step s with
    | error e => rfl
    | ok s1 => exact Machine.iter_add M m n

theorem strideLoop_iter {M : Machine σ} {md : Animated} : ∀ (n : ℕ) {a a' : Anim σ}, strideLoop M md n a = .ok a' →
    ∃ k, k ≤ n ∧ (0 < n → 0 < k) ∧ M.iter k a.core = .ok a'.core
  | 0, a, a', h => by cases h; exact ⟨0, le_rfl, id, rfl⟩
  | n + 1, a, a', h => by
    simp only [strideLoop, bind_ok] at h
    obtain ⟨s, h1, h2⟩ := h
    split at h2
    · cases h2
      exact ⟨1, by omega, fun _ => one_pos, by simp [Machine.iter, h1, bind, Except.bind, Anim.afterStep]⟩
    · obtain ⟨k, hk, -, h3⟩ := strideLoop_iter n h2
      exact ⟨k + 1, by omega, fun _ => by omega, by simpa [Machine.iter, h1, bind, Except.bind, Anim.afterStep] using h3⟩

theorem frame_iter {M : Machine σ} {c : AnimSet} {md : Animated} {a a' : Anim σ} (h : frame M c md a = .ok a') :
    ∃ k, k ≤ c.stride ∧ M.iter k a.core = .ok a'.core := by
  unfold frame at h
  split at h
  · cases h
    refine ⟨0, Nat.zero_le _, ?_⟩
    split <;> rfl
  split at h
  · cases h
    refine ⟨0, Nat.zero_le _, ?_⟩
    split
    · rfl
    · split <;> rfl
  · obtain ⟨k, h1, -, h2⟩ := strideLoop_iter _ h
    exact ⟨k, h1, h2⟩

theorem onEvent_iter {M : Machine σ} {c : AnimSet} {md : Animated} {a a' : Anim σ} {e : AnimEv}
    (h : onEvent M c md a e = .ok a') : ∃ k, k ≤ c.stride ∧ M.iter k a.core = .ok a'.core := by
  cases e with
  | frame =>
    simp only [onEvent] at h
    split at h
    · cases h; exact ⟨0, Nat.zero_le _, rfl⟩
    · exact frame_iter h
  | next => cases h; exact ⟨0, Nat.zero_le _, rfl⟩
  | step => cases h; exact ⟨0, Nat.zero_le _, rfl⟩

theorem events_iter {M : Machine σ} {c : AnimSet} {md : Animated} : ∀ (es : List AnimEv) {a a' : Anim σ},
    events M c md es a = .ok a' → ∃ k, k ≤ c.stride * es.length ∧ M.iter k a.core = .ok a'.core
  | [], a, a', h => by cases h; exact ⟨0, Nat.zero_le _, rfl⟩
  | e :: es, a, a', h => by
    simp only [events, bind_ok] at h
    obtain ⟨a1, h1, h2⟩ := h
    obtain ⟨k, hk, h3⟩ := onEvent_iter h1
    obtain ⟨m, hm, h4⟩ := events_iter es h2
    refine ⟨k + m, ?_, by rw [Machine.iter_add, h3]; exact h4⟩
    rw [List.length_cons, Nat.mul_succ]
    omega

theorem complete_of_iter {M : Machine σ} (hM : M.Rests) : ∀ (n : ℕ) {s s' : σ}, M.iter n s = .ok s' → M.fin s' = true →
    complete M n s = .ok (some s')
  | 0, s, s', h, hf => by cases h; simp [complete, hf]
  | n + 1, s, s', h, hf => by
    simp only [Machine.iter, bind_ok] at h
    obtain ⟨s1, h1, h2⟩ := h
    have ih := complete_of_iter hM n h2 hf
    by_cases hs : M.fin s = true
    · rw [hM s hs] at h1
      cases h1
      cases n with
      | zero => cases h2; simp [complete, hs]
      | succ n => simpa [complete, hs] using ih
    · simp only [complete, if_neg hs, h1]
      exact ih

/-- **C63** Whatever frames are drawn and buttons are pressed, before the window is closed (in a live or interactive plot)
the computation makes the same steps as one without plotting, at most `draw_stride` per frame. -/
theorem C63_window_same_steps {M : Machine σ} {c : AnimSet} {md : Animated} {skip : ℕ} {es : List AnimEv} {s s' : σ}
    (h : showWindow M c md skip es s = .ok s') : ∃ n, n ≤ c.stride * es.length ∧ M.iter n s = .ok s' := by
  simp only [showWindow, bind_ok, pure_ok] at h
  obtain ⟨a, h1, rfl⟩ := h
  obtain ⟨k, h2, h3⟩ := events_iter es h1
  exact ⟨k, h2, h3⟩

/-- **C63** If the computation has finished when the window is closed, the result is the one of a run without plotting. -/
theorem C63_window_same_result_partial {M : Machine σ} (hM : M.Rests) {c : AnimSet} {md : Animated} {skip : ℕ}
    {es : List AnimEv} {s s' : σ} (h : showWindow M c md skip es s = .ok s') (hf : M.fin s' = true) :
    ∃ n, complete M n s = .ok (some s') := by
  obtain ⟨n, -, h1⟩ := C63_window_same_steps h
  exact ⟨n, complete_of_iter hM n h1 hf⟩

theorem extraFrames_iter {M : Machine σ} {c : AnimSet} : ∀ (n : ℕ) {a a' : Anim σ},
    extraFrames M c n a = .ok a' → ∃ k, M.iter k a.core = .ok a'.core
  | 0, a, a', h => by cases h; exact ⟨0, rfl⟩
  | n + 1, a, a', h => by
    simp only [extraFrames, bind_ok] at h
    obtain ⟨a1, h1, h2⟩ := h
    obtain ⟨k, -, h3⟩ := frame_iter h1
    obtain ⟨m, h4⟩ := extraFrames_iter n h2
    exact ⟨k + m, by rw [Machine.iter_add, h3]; exact h4⟩

theorem videoLoop_iter {M : Machine σ} {c : AnimSet} : ∀ (n : ℕ) {a : Anim σ} {s' : σ},
    videoLoop M c n a = .ok (some s') → M.fin s' = true ∧ ∃ k, M.iter k a.core = .ok s' := by
  have hend : ∀ {a : Anim σ} {s' : σ}, (do
      let a ← extraFrames M c c.extra a
      if M.fin a.core then .ok (some a.core) else .error .runtime : Except Err (Option σ)) = .ok (some s') →
      M.fin s' = true ∧ ∃ k, M.iter k a.core = .ok s' := by
    intro a s' h
    simp only [bind_ok] at h
    obtain ⟨a1, h1, h2⟩ := h
    split at h2
    · rename_i hf
      cases h2
      exact ⟨hf, extraFrames_iter _ h1⟩
    · cases h2
  intro n
  induction n with
  | zero =>
    intro a s' h
    unfold videoLoop at h
    split at h
    · exact hend h
    · cases h
  | succ n ih =>
    intro a s' h
    unfold videoLoop at h
    split at h
    · exact hend h
    · simp only [bind_ok] at h
      obtain ⟨a1, h1, h2⟩ := h
      obtain ⟨hf, m, hm⟩ := ih h2
      obtain ⟨k, -, h3⟩ := frame_iter h1
      exact ⟨hf, k + m, by rw [Machine.iter_add, h3]; exact hm⟩

/-- **C63** A video that is saved shows a finished computation, and the result is the one of a run without plotting. -/
theorem C63_video_same_result {M : Machine σ} (hM : M.Rests) {c : AnimSet} {n : ℕ} {s s' : σ}
    (h : video M c n s = .ok (some s')) : M.fin s' = true ∧ ∃ m, complete M m s = .ok (some s') := by
  obtain ⟨hf, k, hk⟩ := videoLoop_iter n h
  exact ⟨hf, k, complete_of_iter hM k hk hf⟩

/-! ### The display does not keep the computation from finishing -/

theorem complete_mono {M : Machine σ} : ∀ (n : ℕ) {s : σ} {r : Except Err (Option σ)}, complete M n s = r → r ≠ .ok none →
    complete M (n + 1) s = r
  | 0, s, r, h, hr => by
    by_cases hs : M.fin s = true
    · simpa [complete, hs] using h
    · exact absurd (by simpa [complete, hs] using h.symm) hr
  | n + 1, s, r, h, hr => by
    rw [complete] at h ⊢
    split
    · rename_i hs; rw [if_pos hs] at h; exact h
    · rename_i hs
      rw [if_neg hs] at h
      cases h1 : M.step s with
      | error e => rw [h1] at h; exact h
      | ok s1 => rw [h1] at h; exact complete_mono n h hr

theorem complete_mono' {M : Machine σ} {n m : ℕ} (hnm : n ≤ m) {s : σ} {r : Except Err (Option σ)} (h : complete M n s = r)
    (hr : r ≠ .ok none) : complete M m s = r := by
  induction hnm with
  | refl => exact h
  | step _ ih => exact complete_mono _ ih hr

/-- **C63** A computation has only one result. -/
theorem C63_result_unique {M : Machine σ} {n m : ℕ} {s s1 s2 : σ} (h1 : complete M n s = .ok (some s1))
    (h2 : complete M m s = .ok (some s2)) : s1 = s2 := by
  have a := complete_mono' (Nat.le_max_left n m) h1 (by simp)
  have b := complete_mono' (Nat.le_max_right n m) h2 (by simp)
  rw [a] at b
  cases b
  rfl

theorem complete_step {M : Machine σ} (hM : M.Rests) {n : ℕ} {s : σ} {r : Except Err (Option σ)} (h : complete M n s = r)
    (hr : r ≠ .ok none) : (∀ s1, M.step s = .ok s1 → complete M n s1 = r) ∧ (∀ e, M.step s = .error e → r = .error e) := by
  by_cases hs : M.fin s = true
  · rw [hM s hs]
    exact ⟨fun s1 h1 => by cases h1; exact h, fun e h1 => by cases h1⟩
  · cases n with
    | zero => exact absurd (by simpa [complete, hs] using h.symm) hr
    | succ n =>
      rw [complete, if_neg hs] at h
      refine ⟨fun s1 h1 => ?_, fun e h1 => ?_⟩
      · rw [h1] at h; exact complete_mono n h hr
      · rw [h1] at h; exact h.symm

theorem strideLoop_complete {M : Machine σ} (hM : M.Rests) {md : Animated} {n : ℕ} {r : Except Err (Option σ)}
    (hr : r ≠ .ok none) : ∀ (k : ℕ) {a : Anim σ}, complete M n a.core = r →
    (∀ a', strideLoop M md k a = .ok a' → complete M n a'.core = r) ∧
      (∀ e, strideLoop M md k a = .error e → r = .error e)
  | 0, a, h => ⟨fun a' h' => by cases h'; exact h, fun e h' => by cases h'⟩
  | k + 1, a, h => by
    obtain ⟨h1, h2⟩ := complete_step hM h hr
    simp only [strideLoop]
    cases hs : M.step a.core with
    | error e => exact ⟨fun a' h' => (by cases h'), fun e' h' => by cases h'; exact h2 e hs⟩
    | ok s1 =>
      simp only [bind, Except.bind]
      split
      · exact ⟨fun a' h' => by cases h'; exact h1 s1 hs, fun e h' => by cases h'⟩
      · exact strideLoop_complete hM hr k (h1 s1 hs)

/-- With at least one step per frame, a frame that is not paused makes progress. -/
theorem strideLoop_progress {M : Machine σ} (hM : M.Rests) {md : Animated} {n : ℕ} {r : Except Err (Option σ)}
    (hr : r ≠ .ok none) {k : ℕ} (hk : 0 < k) {a : Anim σ} (h : complete M (n + 1) a.core = r) (hf : M.fin a.core = false) :
    (∀ a', strideLoop M md k a = .ok a' → complete M n a'.core = r) ∧
      (∀ e, strideLoop M md k a = .error e → r = .error e) := by
  obtain ⟨k, rfl⟩ := Nat.exists_eq_succ_of_ne_zero (Nat.ne_of_gt hk)
  rw [complete, if_neg (by simp [hf])] at h
  simp only [Nat.succ_eq_add_one, strideLoop]
  cases hs : M.step a.core with
  | error e =>
    rw [hs] at h
    exact ⟨fun a' h' => (by cases h'), fun e' h' => by cases h'; exact h.symm⟩
  | ok s1 =>
    rw [hs] at h
    simp only [bind, Except.bind] at h ⊢
    split
    · exact ⟨fun a' h' => by cases h'; exact h, fun e h' => by cases h'⟩
    · exact strideLoop_complete hM hr k h

theorem extraFrames_fin {M : Machine σ} (hM : M.Rests) {c : AnimSet} : ∀ (n : ℕ) {a : Anim σ}, M.fin a.core = true →
    ∃ a', extraFrames M c n a = .ok a' ∧ a'.core = a.core := by
  have hs : ∀ (md : Animated) (k : ℕ) (a : Anim σ), M.fin a.core = true →
      ∃ a', strideLoop M md k a = .ok a' ∧ a'.core = a.core := by
    intro md k
    induction k with
    | zero => exact fun a _ => ⟨a, rfl, rfl⟩
    | succ k ih =>
      intro a hf
      simp only [strideLoop, hM _ hf, bind, Except.bind]
      split
      · exact ⟨_, rfl, rfl⟩
      · exact ih (a.afterStep M a.core) hf
  have hfr : ∀ a : Anim σ, M.fin a.core = true → ∃ a', frame M c .video a = .ok a' ∧ a'.core = a.core := by
    intro a hf
    unfold frame
    split
    · refine ⟨_, rfl, ?_⟩
      split <;> rfl
    split
    · refine ⟨_, rfl, ?_⟩
      split
      · rfl
      · split <;> rfl
    · exact hs _ _ _ hf
  intro n
  induction n with
  | zero => exact fun _ => ⟨_, rfl, rfl⟩
  | succ n ih =>
    intro a hf
    obtain ⟨a1, h1, e1⟩ := hfr a hf
    obtain ⟨a2, h2, e2⟩ := ih (a := a1) (by rw [e1]; exact hf)
    exact ⟨a2, by simp only [extraFrames, h1]; exact h2, by rw [e2, e1]⟩

theorem videoLoop_fin {M : Machine σ} (hM : M.Rests) {c : AnimSet} (n : ℕ) {a : Anim σ} (hf : M.fin a.core = true) :
    videoLoop M c n a = .ok (some a.core) := by
  obtain ⟨a', h1, h2⟩ := extraFrames_fin (c := c) hM c.extra hf
  unfold videoLoop
  rw [if_pos hf, h1]
  simp [bind, Except.bind, h2, hf]

theorem videoLoop_succ {M : Machine σ} {c : AnimSet} {n : ℕ} {a : Anim σ} (hf : M.fin a.core = false) :
    videoLoop M c (n + 1) a = (do let a ← frame M c .video a; videoLoop M c n a) := by
  rw [videoLoop, if_neg (by simp [hf])]

/-- A paused video goes on after finitely many frames. -/
theorem video_unpause {M : Machine σ} {c : AnimSet} {a : Anim σ} (hf : M.fin a.core = false) (hp : a.paused = true) :
    ∃ (m : ℕ) (a1 : Anim σ), a1.core = a.core ∧ a1.paused = false ∧ m ≤ max c.pauseFrames (a.left.getD 0) + 2 ∧
      ∀ n, videoLoop M c (n + m) a = videoLoop M c n a1 := by
  have hk : ∀ (k : ℕ) (a : Anim σ), M.fin a.core = false → a.paused = true → a.left = some k →
      ∃ (m : ℕ) (a1 : Anim σ), a1.core = a.core ∧ a1.paused = false ∧ m ≤ k + 1 ∧
        ∀ n, videoLoop M c (n + m) a = videoLoop M c n a1 := by
    intro k
    induction k with
    | zero =>
      intro a hf hp hl
      refine ⟨1, { a with left := none, paused := false }, rfl, rfl, by omega, fun n => ?_⟩
      rw [videoLoop_succ hf]
      simp [frame, hp, hl, bind, Except.bind]
    | succ k ih =>
      intro a hf hp hl
      by_cases e : k = 0
      · subst e
        refine ⟨1, { a with left := none, paused := false }, rfl, rfl, by omega, fun n => ?_⟩
        rw [videoLoop_succ hf]
        simp [frame, hp, hl, bind, Except.bind]
      · obtain ⟨m, a1, h1, h2, h3, h4⟩ := ih { a with left := some k } hf hp rfl
        refine ⟨m + 1, a1, h1, h2, by omega, fun n => ?_⟩
        rw [← Nat.add_assoc, videoLoop_succ hf]
        simp [frame, hp, hl, bind, Except.bind, e, ← h4]
  cases hl : a.left with
  | some k =>
    obtain ⟨m, a1, h1, h2, h3, h4⟩ := hk k a hf hp hl
    exact ⟨m, a1, h1, h2, by simp only [Option.getD_some]; omega, h4⟩
  | none =>
    obtain ⟨m, a1, h1, h2, h3, h4⟩ := hk c.pauseFrames { a with left := some c.pauseFrames } hf hp rfl
    refine ⟨m + 1, a1, h1, h2, by omega, fun n => ?_⟩
    rw [← Nat.add_assoc, videoLoop_succ hf]
    simp [frame, hp, hl, bind, Except.bind, ← h4]

theorem videoLoop_complete {M : Machine σ} (hM : M.Rests) {c : AnimSet} (hc : 0 < c.stride) {r : Except Err (Option σ)}
    (hr : r ≠ .ok none) : ∀ (n : ℕ) {a : Anim σ}, complete M n a.core = r → ∃ m, videoLoop M c m a = r := by
  have hfin : ∀ (n : ℕ) {a : Anim σ}, complete M n a.core = r → M.fin a.core = true → ∃ m, videoLoop M c m a = r := by
    intro n a h hf
    refine ⟨0, ?_⟩
    rw [videoLoop_fin hM 0 hf, ← h]
    cases n <;> simp [complete, hf]
  intro n
  induction n with
  | zero =>
    intro a h
    by_cases hf : M.fin a.core = true
    · exact hfin 0 h hf
    · exact absurd (by simpa [complete, hf] using h.symm) hr
  | succ n ih =>
    intro a h
    by_cases hf : M.fin a.core = true
    · exact hfin (n + 1) h hf
    have hf : M.fin a.core = false := by simpa using hf
    have main : ∀ a1 : Anim σ, complete M (n + 1) a1.core = r → M.fin a1.core = false → a1.paused = false →
        ∃ m, videoLoop M c m a1 = r := by
      intro a1 h hf hp
      obtain ⟨p1, p2⟩ := strideLoop_progress hM (md := .video) hr hc h hf
      have hfr : frame M c .video a1 = strideLoop M .video c.stride a1 := by simp [frame, hp]
      cases hs : strideLoop M .video c.stride a1 with
      | error e =>
        refine ⟨1, ?_⟩
        rw [videoLoop_succ hf, hfr, hs, p2 e hs]
        rfl
      | ok a2 =>
        obtain ⟨m, hm⟩ := ih (p1 a2 hs)
        refine ⟨m + 1, ?_⟩
        rw [videoLoop_succ hf, hfr, hs]
        exact hm
    by_cases hp : a.paused = true
    · obtain ⟨m, a1, h1, h2, -, h4⟩ := video_unpause (c := c) hf hp
      obtain ⟨k, hk⟩ := main a1 (by rw [h1]; exact h) (by rw [h1]; exact hf) h2
      exact ⟨k + m, by rw [h4]; exact hk⟩
    · exact main a h hf (by simpa using hp)

/-- **C63** With at least one step per frame, a video gets finished if a run without plotting finishes, with the same
result; if that run raises, making the video raises the same. -/
theorem C63_video_finishes {M : Machine σ} (hM : M.Rests) {c : AnimSet} (hc : 0 < c.stride) {n : ℕ} {s : σ}
    {r : Except Err (Option σ)} (hr : r ≠ .ok none) (h : complete M n s = r) : ∃ m, video M c m s = r :=
  videoLoop_complete hM hc hr n (a := { core := s }) h

theorem events_complete {M : Machine σ} (hM : M.Rests) {c : AnimSet} {md : Animated} (hmd : md ≠ .video) (hc : 0 < c.stride)
    {s' : σ} : ∀ (n : ℕ) {a : Anim σ}, complete M n a.core = .ok (some s') →
    ∃ a', events M c md (List.replicate n [AnimEv.next, AnimEv.frame]).flatten a = .ok a' ∧ a'.core = s'
  | 0, a, h => by
    refine ⟨a, rfl, ?_⟩
    simp only [complete] at h
    split at h
    · cases h; rfl
    · cases h
  | n + 1, a, h => by
    simp only [List.replicate_succ, List.flatten_cons, List.cons_append, List.nil_append, events, onEvent, bind, Except.bind]
    by_cases hf : M.fin a.core = true
    · rw [if_pos hf]
      refine events_complete hM hmd hc n (a := { a with paused := false }) ?_
      have e : a.core = s' := by
        rw [complete, if_pos hf] at h
        cases h; rfl
      rw [e] at hf
      cases n <;> simp [complete, hf, e]
    · rw [if_neg hf]
      have hfr : frame M c md { a with paused := false } = strideLoop M md c.stride { a with paused := false } := by
        simp [frame]
      obtain ⟨p1, p2⟩ := strideLoop_progress hM (md := md) (a := { a with paused := false }) (by simp) hc h (by simpa using hf)
      rw [hfr]
      cases hs : strideLoop M md c.stride { a with paused := false } with
      | error e => exact absurd (p2 e hs) (by simp)
      | ok a2 => exact events_complete hM hmd hc n (p1 a2 hs)

/-- **C63** In a window, whoever keeps pressing "Next" gets the result of the run without plotting. -/
theorem C63_window_can_finish {M : Machine σ} (hM : M.Rests) {c : AnimSet} {md : Animated} (hmd : md ≠ .video)
    (hc : 0 < c.stride) {n : ℕ} {s s' : σ} {skip : ℕ} (h : complete M n s = .ok (some s')) :
    showWindow M c md skip (List.replicate n [AnimEv.next, AnimEv.frame]).flatten s = .ok s' := by
  obtain ⟨a', h1, h2⟩ := events_complete hM hmd hc n
    (a := { core := s, stepping := decide (md = .interactive), skip := skip }) h
  simp [showWindow, h1, bind, Except.bind, pure, Except.pure, h2]

/-- **C63** With `draw_stride = 0` a video never gets finished, unless there is nothing to do. -/
theorem C63_stride_zero_never_ends {M : Machine σ} {c : AnimSet} (hc : c.stride = 0) {s : σ} (hf : M.fin s = false) (n : ℕ) :
    video M c n s = .ok none := by
  have : ∀ (n : ℕ) (a : Anim σ), a.core = s → a.paused = false → videoLoop M c n a = .ok none := by
    intro n
    induction n with
    | zero => intro a ha hp; unfold videoLoop; simp [ha, hf]
    | succ n ih =>
      intro a ha hp
      rw [videoLoop_succ (by rw [ha]; exact hf)]
      simp only [frame, hp, hc, strideLoop, bind, Except.bind]
      exact ih a ha hp
  exact this n _ rfl rfl

/-! ### Reachability and simulation -/

section
variable {K : Type} [Field K] [LinearOrder K] [IsStrictOrderedRing K]

/-- The reachability analysis; which steps pause (pops and replays) does not matter. -/
def coreMachine (E : Env K) (pauses : Core K → Bool) : Machine (Core K) := ⟨doStep E, fun σ => σ.isFinished E, pauses⟩

/-- The simulation. -/
def simMachine (C : SimEnv K) (pauses : SimSt K → Bool) : Machine (SimSt K) :=
  ⟨simStep C, fun σ => σ.cur.isEmpty && σ.waiting.isEmpty, pauses⟩

theorem coreMachine_rests (E : Env K) (p : Core K → Bool) : (coreMachine E p).Rests := by
  intro s hs
  simp only [coreMachine] at hs ⊢
  simp [doStep, hs]

theorem simMachine_rests (C : SimEnv K) (p : SimSt K → Bool) : (simMachine C p).Rests := by
  intro s hs
  simp only [simMachine, Bool.and_eq_true, List.isEmpty_iff] at hs ⊢
  unfold simStep
  rw [hs.1, hs.2]
  rfl

theorem coreMachine_iter (E : Env K) (p : Core K → Bool) : ∀ (n : ℕ) (s : Core K), (coreMachine E p).iter n s = runSteps E n s
  | 0, _ => rfl
  | n + 1, s => by
    simp only [Machine.iter, runSteps]
    cases h : doStep E s with
    | error e => simp [coreMachine, h, bind, Except.bind]
    | ok s1 => simpa [coreMachine, h, bind, Except.bind] using coreMachine_iter E p n s1

/-- **C63** for the reachability analysis: the verdict of a finished display (window or video) is the one of a run without plotting. -/
theorem C63_same_verdict_partial {E : Env K} {p : Core K → Bool} {c : AnimSet} {s s1 s2 : Core K} {n : ℕ}
    (h : complete (coreMachine E p) n s = .ok (some s1))
    (h2 : (∃ md skip es, showWindow (coreMachine E p) c md skip es s = .ok s2 ∧ s2.isFinished E = true) ∨
      ∃ m, video (coreMachine E p) c m s = .ok (some s2)) : s2.verdict = s1.verdict := by
  have hM := coreMachine_rests E p
  rcases h2 with ⟨md, skip, es, h2, hf⟩ | ⟨m, h2⟩
  · obtain ⟨m, h3⟩ := C63_window_same_result_partial hM h2 hf
    rw [C63_result_unique h h3]
  · obtain ⟨-, m, h3⟩ := C63_video_same_result hM h2
    rw [C63_result_unique h h3]

end

/-! ### A small example -/

/-- Counts up to 3; every step pauses. -/
def countUp : Machine ℕ := ⟨fun n => .ok (if n < 3 then n + 1 else n), fun n => decide (3 ≤ n), fun _ => true⟩

theorem countUp_rests : countUp.Rests := by
  intro s hs
  simp only [countUp, decide_eq_true_eq] at hs ⊢
  rw [if_neg (by omega)]

example : complete countUp 5 0 = .ok (some 3) := by decide +kernel
example : video countUp ⟨2, 4, 40⟩ 20 0 = .ok (some 3) := by decide +kernel
example : showWindow countUp ⟨2, 4, 40⟩ .interactive 1 [.frame, .frame, .frame, .frame, .next, .frame, .frame] 0 = .ok 3 := by
  decide +kernel
example : showWindow countUp ⟨2, 4, 40⟩ .interactive 1 [.frame, .frame, .frame, .frame] 0 = .ok 2 := by decide +kernel

end Hylaa
