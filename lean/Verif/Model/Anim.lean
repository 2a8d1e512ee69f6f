import Verif.Model.Basic

/-!
# Running an analysis under a display (hylaa/plotutil.py:773-981, core.py:380-434)

The plot modes, the frames of the animation, pausing and the buttons.  The computation is any machine whose steps may ask
for a pause (`do_step`).  Drawing is left out: it does not change the state sets (C61); that it leaves another
warm-start basis in the solver is not modelled here.
-/

namespace Hylaa

/-- The computation as the plot manager sees it: `do_step`, `is_finished`, and whether the step from this state calls
`plotman.pause()`.  core.py:81-97, 282, 286-292, 515, deaggregation.py:90 -/
structure Machine (σ : Type) where
  step : σ → Except Err σ
  fin : σ → Bool
  pauses : σ → Bool

/-- The animated plot modes (`PLOT_NONE` and `PLOT_IMAGE` use `run_to_completion`).  settings.py:62-66 -/
inductive Animated
  | live
  | interactive
  | video
  deriving DecidableEq

/-- `draw_stride`, `video_pause_frames`, `video_extra_frames`  settings.py:85, 104, 105 -/
structure AnimSet where
  stride : ℕ
  pauseFrames : ℕ
  extra : ℕ

/-- The computation, `InteractiveState`, `pause_frames` and `interactive_skip_count`.  plotutil.py:43-45, 368-395, settings.py:101 -/
structure Anim (σ : Type) where
  core : σ
  paused : Bool := false
  stepping : Bool := false
  left : Option ℕ := none
  skip : ℕ := 0

section
variable {σ : Type}

/-- `while not is_finished(): do_step()` within `n` rounds; `none`: not finished by then.  plotutil.py:963-981 -/
def complete (M : Machine σ) : ℕ → σ → Except Err (Option σ)
  | 0, s => .ok (if M.fin s then some s else none)
  | n + 1, s => if M.fin s then .ok (some s) else do
    let s ← M.step s
    complete M n s

/-- A step that pauses also forgets that a single step was asked for (`pause`).  plotutil.py:397-401 -/
def Anim.afterStep (M : Machine σ) (a : Anim σ) (s : σ) : Anim σ :=
  { a with core := s, paused := a.paused || M.pauses a.core, stepping := a.stepping && !M.pauses a.core }

/-- The loop over `draw_stride`, plotutil.py:805-815: except in a live plot, it is left when the plot is (or becomes) paused
or a single step was asked for. -/
def strideLoop (M : Machine σ) (md : Animated) : ℕ → Anim σ → Except Err (Anim σ)
  | 0, a => .ok a
  | n + 1, a => do
    let s ← M.step a.core
    (if ((a.afterStep M s).stepping || (a.afterStep M s).paused) && decide (md ≠ .live) then
      .ok { a.afterStep M s with paused := true, stepping := false }
     else strideLoop M md n (a.afterStep M s))

/-- `anim_func`  plotutil.py:773-843 -/
def frame (M : Machine σ) (c : AnimSet) (md : Animated) (a : Anim σ) : Except Err (Anim σ) :=
  if a.paused = true ∧ md = .interactive then
    .ok (if a.skip > 0 then { a with skip := a.skip - 1, paused := false } else a)
  else if a.paused = true ∧ md = .video then
    .ok (match a.left with
      | none => { a with left := some c.pauseFrames }
      | some k => if k - 1 = 0 then { a with left := none, paused := false } else { a with left := some (k - 1) })
  else strideLoop M md c.stride a

/-- What can happen to a window: the animation asks for the next frame, or a button is pressed
(a live plot has no buttons). -/
inductive AnimEv
  | frame
  | next
  | step

/-- One event, plotutil.py:884-898 (buttons), 859-871 (no frames after the computation has finished) -/
def onEvent (M : Machine σ) (c : AnimSet) (md : Animated) (a : Anim σ) : AnimEv → Except Err (Anim σ)
  | .frame => if M.fin a.core then .ok a else frame M c md a
  | .next => .ok { a with paused := false }
  | .step => .ok { a with paused := false, stepping := true }

/-- The events until the window is closed. -/
def events (M : Machine σ) (c : AnimSet) (md : Animated) : List AnimEv → Anim σ → Except Err (Anim σ)
  | [], a => .ok a
  | e :: es, a => do
    let a ← onEvent M c md a e
    events M c md es a

/-- `compute_and_animate` in a window (a live or interactive plot), plotutil.py:923-926, 947-961: `plt.show` returns when
the window is closed, and nothing is checked then. -/
def showWindow (M : Machine σ) (c : AnimSet) (md : Animated) (skip : ℕ) (es : List AnimEv) (s : σ) : Except Err σ := do
  let a ← events M c md es { core := s, stepping := decide (md = .interactive), skip := skip }
  return a.core

/-- The additional frames at the end of a video, plotutil.py:873-876 -/
def extraFrames (M : Machine σ) (c : AnimSet) : ℕ → Anim σ → Except Err (Anim σ)
  | 0, a => .ok a
  | n + 1, a => do
    let a ← frame M c .video a
    extraFrames M c n a

/-- The frames of a video within `n` frames (`none`: not done by then), plotutil.py:859-878, and the check in `save_video`,
plotutil.py:983-993. -/
def videoLoop (M : Machine σ) (c : AnimSet) : ℕ → Anim σ → Except Err (Option σ)
  | n, a => if M.fin a.core then do
      let a ← extraFrames M c c.extra a
      (if M.fin a.core then .ok (some a.core) else .error .runtime)
    else match n with
      | 0 => .ok none
      | n + 1 => do
        let a ← frame M c .video a
        videoLoop M c n a

/-- `compute_and_animate` for a video, plotutil.py:944-957 -/
def video (M : Machine σ) (c : AnimSet) (n : ℕ) (s : σ) : Except Err (Option σ) := videoLoop M c n { core := s }

end

end Hylaa
