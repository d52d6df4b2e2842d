/-
C109: after a failure without `/K` jom starts nothing and ends when everything that is running has ended.
-/
import Verif.Spec.Abort
import Verif.Proofs.Abort

namespace Jom.Props

open Jom.Abort Jom.Spec.Abort

/-- The commands that were running when the first command failed have ended when jom ends, whatever happens in the nested event loops (further failures, further
commands, requests for tokens).

Partial: C109 is about all processes, and jom does start the next commands of the targets that are being built (`C109_refuted`). -/
theorem C109_first_partial (jobs : Nat) (es : List Event) (s : St) (h : Run jobs init es s) : FirstWaited s.log := by
  intro l1 l2 l3 p hlog hno hp
  have hex : Ev.exit ∈ s.log := by simp [hlog]
  rcases run_good (init_good jobs) h with ⟨hi, -⟩ | ho
  · exact absurd hex hi.noExit
  · obtain ⟨l, n, hl, hnx, hold, -⟩ := ho.shape
    have hm : Ev.ended p ∈ l := hold p (by
      rw [hlog, List.append_assoc, List.cons_append, old_first hno]
      exact hp)
    have hpre : l <+: l1 ++ Ev.failed :: l2 := exit_prefix hl hnx hlog
    have := hpre.subset hm
    simpa using this

/-- If each target has at most one command that is a process, nothing is started after a failure, and jom ends when all processes have ended. -/
theorem C109_single_partial (jobs : Nat) (es : List Event) (s : St) (h : Run jobs init es s)
    (hone : ∀ e cmds, Event.target e cmds ∈ es → OneProcess cmds) : StartsNothing s.log ∧ NothingLeft s.log := by
  have hs := run_single (init_good jobs) (t := s) ⟨by simp [init], by simp [init]⟩ h hone
  refine ⟨hs.2, ?_⟩
  intro l1 l2 p hlog hp
  have hex : Ev.exit ∈ s.log := by simp [hlog]
  rcases run_good (init_good jobs) h with ⟨hi, -⟩ | ho
  · exact absurd hex hi.noExit
  · obtain ⟨l, n, hl, hnx, hold, -⟩ := ho.shape
    obtain ⟨a, b, hab, hna⟩ := List.eq_append_cons_of_mem ho.failed
    have hm : Ev.ended p ∈ l := hold p (by
      rw [hab, old_first hna]
      rw [hab] at hp
      rcases List.mem_append.mp hp with hp | hp
      · exact hp
      · rcases List.mem_cons.mp hp with hp | hp
        · cases hp
        · exact absurd hp (hs.2 a b p hab))
    have hpre : l <+: l1 := exit_prefix hl hnx hlog
    exact hpre.subset hm

/-- After a failure jom comes to its end: the number of further events is bounded, and until jom calls `exit` it waits for a process that is running or for a
token that it has asked for. -/
theorem C109_ends (jobs : Nat) (es : List Event) (s : St) (h : Run jobs init es s) (hf : Ev.failed ∈ s.log) :
    ∃ n, ∀ es' t, Run jobs s es' t → es'.length ≤ n ∧
      (Ev.exit ∈ t.log ∨ (∃ e p, t.proc e = some p ∧ ∀ failed, ∃ t', step jobs t (.ends e failed) = some t') ∨
        (t.acquiring = true ∧ ∃ t', step jobs t .acquired = some t')) := by
  have hg := run_good (init_good jobs) h
  have ha : s.aborted = true := by
    rcases hg with ⟨hi, -⟩ | ho
    · have := hi.frames.mp hf
      simp [St.aborted, this]
    · simp [St.aborted, ho.exited]
  have hb := run_bound (by simp [init]) h
  refine ⟨total jobs s, fun es' t hr => ?_⟩
  obtain ⟨h1, h2⟩ := run_total hb ha hr
  refine ⟨by omega, ?_⟩
  by_cases hx : Ev.exit ∈ t.log
  · exact Or.inl hx
  · rcases good_next (run_good hg hr) h1 hx with ⟨e, p, hp, -, hs⟩ | hs
    · exact Or.inr (Or.inl ⟨e, p, hp, hs⟩)
    · exact Or.inr (Or.inr hs)

/-- Every failure is noticed: after a process has ended with an exit code that counts as failure, or a target has been begun whose first commands are done by jom itself
and fail, there is a failure in the log. -/
theorem C109_noticed (jobs : Nat) (es : List Event) (s : St) (h : Run jobs init es s)
    (hev : (∃ e, Event.ends e true ∈ es) ∨ ∃ e pre post, Event.target e (pre ++ Cmd.inner true :: post) ∈ es ∧ ∀ c ∈ pre, c = Cmd.inner false) :
    Ev.failed ∈ s.log := by
  refine run_failed (init_good jobs) h ?_
  rcases hev with ⟨e, he⟩ | ⟨e, pre, post, he, hp⟩
  · exact ⟨_, he, Or.inl ⟨e, rfl⟩⟩
  · exact ⟨_, he, Or.inr ⟨e, _, rfl, pre, post, rfl, hp⟩⟩

/-- C109, what is started after a failure: only the next command of a target whose process has just ended, so that there are never more processes than at the failure.

Partial: C109 says that nothing is started. -/
theorem C109_takes_over_partial (jobs : Nat) (es : List Event) (s : St) (h : Run jobs init es s) :
    TakesOver s.log ∧ ∀ l1 l2, s.log = l1 ++ Ev.failed :: l2 → l2.countP isStart ≤ l2.countP isEnd := by
  have ht := run_takesOver (init_good jobs) (by intro l1 l2 p he; simp [init] at he) h
  exact ⟨ht, fun l1 l2 hl => (takesOver_count _ ht hl rfl).1⟩

namespace AbortCase

/-! `jom /J 2 a b` with

```
all: a b
a:
	fails
b:
	first
	second
```

While jom waits for `first`, the signal of its end starts `second`, and then ends the wait. -/

def events : List Event := [.target 0 [.process], .target 1 [.process, .process], .ends 0 true, .ends 1 false]

/-- One step after the other. -/
def after (jobs : Nat) (s : St) : List Event → Option St
  | [] => some s
  | e :: es => (step jobs s e).bind fun s' => after jobs s' es

theorem after_run {jobs : Nat} {s t : St} {es : List Event} (h : after jobs s es = some t) : Run jobs s es t := by
  induction es generalizing s with
  | nil =>
    cases h
    exact .nil _
  | cons e es ih =>
    simp only [after] at h
    cases hs : step jobs s e with
    | none => simp [hs] at h
    | some s' =>
      rw [hs] at h
      exact .cons hs (ih h)

def logOf (jobs : Nat) (es : List Event) : Option (List Ev) := (after jobs init es).map St.log

theorem log_run {jobs : Nat} {es : List Event} {l : List Ev} (h : logOf jobs es = some l) : ∃ s, Run jobs init es s ∧ s.log = l := by
  unfold logOf at h
  cases ha : after jobs init es with
  | none => simp [ha] at h
  | some s =>
    rw [ha] at h
    exact ⟨s, after_run ha, by simpa using h⟩

theorem events_log : logOf 2 events = some [.started 0, .started 1, .ended 0, .failed, .ended 1, .started 2, .exit] := by decide +kernel

/-- The same with one command in `b`, a token that jom has asked for and a second failure inside the wait for the first one. -/
def single : List Event :=
  [.target 0 [.inner false, .process], .target 2 [.process], .target 1 [.process, .inner true], .ask, .ends 0 true, .ends 1 false, .acquired, .ends 2 false]

theorem single_log : logOf 3 single =
    some [.started 0, .started 1, .started 2, .ended 0, .failed, .ended 2, .failed, .ended 1, .exit, .exit] := by decide +kernel

example : ∃ s, Run 3 init single s ∧ Ev.exit ∈ s.log ∧ StartsNothing s.log ∧ NothingLeft s.log := by
  obtain ⟨s, hr, hl⟩ := log_run single_log
  refine ⟨s, hr, by simp [hl], C109_single_partial 3 single s hr ?_⟩
  intro e cmds hm
  simp only [single, List.mem_cons, Event.target.injEq, reduceCtorEq, List.not_mem_nil, or_false] at hm
  rcases hm with ⟨-, rfl⟩ | ⟨-, rfl⟩ | ⟨-, rfl⟩ <;> simp [OneProcess]

example : ∃ s, Run 2 init events s ∧ FirstWaited s.log ∧ Ev.failed ∈ s.log ∧ Ev.exit ∈ s.log := by
  obtain ⟨s, hr, hl⟩ := log_run events_log
  exact ⟨s, hr, C109_first_partial 2 events s hr, by simp [hl], by simp [hl]⟩

/-- The second command of `b` is started after the failure, in place of the first one. -/
example : ∃ s, Run 2 init events s ∧ TakesOver s.log ∧ s.log = [.started 0, .started 1, .ended 0, .failed] ++ [.ended 1] ++ [.started 2, .exit] := by
  obtain ⟨s, hr, hl⟩ := log_run events_log
  exact ⟨s, hr, (C109_takes_over_partial 2 events s hr).1, hl⟩

/-- From the failure on the number of events is bounded. -/
example : ∃ s n, Run 2 init [.target 0 [.process], .target 1 [.process, .process], .ends 0 true] s ∧
    ∀ es' t, Run 2 s es' t → es'.length ≤ n := by
  obtain ⟨s, hr, -⟩ := log_run (jobs := 2) (es := [.target 0 [.process], .target 1 [.process, .process], .ends 0 true])
    (l := [.started 0, .started 1, .ended 0, .failed]) (by decide +kernel)
  obtain ⟨n, hn⟩ := C109_ends 2 _ s hr (C109_noticed 2 _ s hr (Or.inl ⟨0, by simp⟩))
  exact ⟨s, n, hr, fun es' t h => (hn es' t h).1⟩

end AbortCase

/-- C109 does not hold: with two commands in a target, jom starts the second one after the failure of another target, and does not wait for its end. -/
theorem C109_refuted : ∃ es s, Run 2 init es s ∧ ¬ StartsNothing s.log ∧ ¬ NothingLeft s.log := by
  obtain ⟨s, hr, hl⟩ := AbortCase.log_run AbortCase.events_log
  refine ⟨_, s, hr, ?_, ?_⟩
  · intro h
    exact h [.started 0, .started 1, .ended 0] [.ended 1, .started 2, .exit] 2 (by rw [hl]; rfl) (by simp)
  · intro h
    have := h [.started 0, .started 1, .ended 0, .failed, .ended 1, .started 2] [] 2 (by rw [hl]; rfl) (by rw [hl]; simp)
    simp at this

end Jom.Props
