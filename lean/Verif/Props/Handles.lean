/- C108: jom keeps no handles of commands that have ended, and a command inherits no handle but its standard handles. -/
import Verif.Proofs.Handles

namespace Jom.Props

open Jom.Handles Jom.Spec.Handles

/-- C108, order: a handle is closed at most once, and only after it was opened (so jom never closes a handle that belongs to something
else). -/
theorem C108_closed_once (jobs : Nat) (s : Sys) (h : Reachable jobs s) (x : Nat) :
    s.w.log.count (.closed x) ≤ 1 ∧ (Os.closed x ∈ s.w.log → ∃ i, Os.opened x i ∈ s.w.log) :=
  ⟨h.inv.w.once x, fun hc => (h.inv.w.gone x hc).1⟩

/-- C108, number: as long as jom has not given up, at most four handles are open for every running command, and six for every command
that could not be started directly. -/
theorem C108_open (jobs : Nat) (s : Sys) (h : Reachable jobs s) (hf : Os.fatal ∉ s.w.log) :
    ((openIn s.w.log).length : Int) ≤ 4 * runningIn s.w.log + 6 * failures s.w.log ∧ runningIn s.w.log ≤ jobs := by
  have hi := h.inv
  have hff : s.fatal = false ∧ s.procs.length = jobs := by
    obtain ⟨es, he⟩ := h
    have key : ∀ (es : List Event) (s s' : Sys), (s.fatal = true → Os.fatal ∈ s.w.log) ∧ s.procs.length = jobs →
        run s es = some s' → (s'.fatal = true → Os.fatal ∈ s'.w.log) ∧ s'.procs.length = jobs := by
      intro es
      induction es with
      | nil => intro s s' h hr; simp only [run, Option.some.injEq] at hr; subst hr; exact h
      | cons e es ih =>
        intro s s' h hr
        simp only [run, Option.bind_eq_some_iff] at hr
        obtain ⟨s1, h1, h2⟩ := hr
        refine ih s1 s' ?_ h2
        cases e <;> simp only [step] at h1 <;> split at h1 <;> try cases h1
        all_goals split at h1 <;> try cases h1
        · next hc =>
          split at h1 <;> cases h1
          · exact ⟨fun _ => List.mem_cons_self, h.2⟩
          · refine ⟨fun hh => ?_, by simpa using h.2⟩
            simp only at hh
            simp [hh] at hc
        · next hc =>
          refine ⟨fun hh => ?_, by simpa using h.2⟩
          simp only at hh
          simp [hh] at hc
    obtain ⟨k1, k2⟩ := key es _ s ⟨(fun hh => by cases hh), by simp [init]⟩ he
    refine ⟨?_, k2⟩
    cases hc : s.fatal with
    | false => rfl
    | true => exact absurd (k1 hc) hf
  obtain ⟨L, h1, h2⟩ := hi.open_ hff.1
  have h3 := hi.running hff.1
  have h4 : (s.procs.flatMap Proc.held).length ≤ 4 * s.procs.countP (·.running) := by
    have hp := hi.procs hff.1
    generalize s.procs = ps at hp
    induction ps with
    | nil => simp
    | cons p ps ih =>
      have := ih fun q hq => hp q (List.mem_cons_of_mem _ hq)
      have hpi := hp p List.mem_cons_self
      rw [List.flatMap_cons, List.length_append, List.countP_cons]
      by_cases hr : p.running = true
      · have := hpi.four
        simp only [hr, if_true]
        omega
      · have := hpi.idle (by simpa using hr)
        subst this
        simp only [Proc.held, Pipe.held, Option.toList_none, List.append_nil, List.length_nil]
        omega
  have h5 := h2.length_eq
  rw [List.length_append] at h5
  have h6 : s.procs.countP (·.running) ≤ s.procs.length := List.countP_le_length
  omega

/-- C108 (partial: as long as every command could be started directly or was given to the shell at once): whenever no command is running, no handle is open;
at most four are open for every running command; a process inherits nothing but its standard handles. -/
theorem C108_partial (jobs : Nat) (s : Sys) (h : Reachable jobs s) (hok : failures s.w.log = 0) :
    (Os.fatal ∉ s.w.log → ((openIn s.w.log).length : Int) ≤ 4 * runningIn s.w.log ∧
      (runningIn s.w.log = 0 → openIn s.w.log = [])) ∧
    ∀ later before k stdin stdout stderr, s.w.log = later ++ .created k stdin stdout stderr :: before →
      ∀ x ∈ openIn before, Os.opened x true ∈ before → some x = stdin ∨ some x = stdout ∨ some x = stderr := by
  refine ⟨fun hf => ?_, ?_⟩
  · have h1 := (C108_open jobs s h hf).1
    rw [hok] at h1
    refine ⟨by omega, fun h0 => ?_⟩
    rw [h0] at h1
    exact List.length_eq_zero_iff.1 (by omega)
  · intro l2 l1 k i o e he
    refine h.inv.w.own l2 l1 k i o e he ?_
    rw [he] at hok
    simp only [failures, List.countP_append, List.countP_cons] at hok ⊢
    omega

/-! ### A command that cannot be started directly -/

/-- The command is simple but no program (e.g. a batch file called without its extension): `CreateProcess` fails, the shell runs it. -/
def viaShell : List Event := [.command 0 (some { create := false }) {}, .finished 0]

theorem viaShell_leaks {s : Sys} (h : SInv s) (hp : s.procs = [{}]) (hf : s.fatal = false) :
    ∃ s', run s viaShell = some s' ∧ s'.procs = [{}] ∧ s'.fatal = false ∧
      (openIn s'.w.log).length = (openIn s.w.log).length + 6 ∧ endedIn s'.w.log = endedIn s.w.log + 1 ∧
      createdIn s'.w.log = createdIn s.w.log + 1 ∧ (Os.fatal ∉ s.w.log → Os.fatal ∉ s'.w.log) := by
  obtain ⟨ps, ⟨next, log⟩, f⟩ := s
  simp only at hp hf
  subst hp hf
  have hstep : ∀ s', run ⟨[{}], ⟨next, log⟩, false⟩ viaShell = some s' → SInv s' := by
    intro s' hs
    simp only [viaShell, run, Option.bind_eq_some_iff, Option.some.injEq] at hs
    obtain ⟨a, h1, b, h2, rfl⟩ := hs
    exact (h.step h1).step h2
  refine ⟨_, rfl, rfl, rfl, ?_, ?_, ?_, ?_⟩
  · have h1 := (hstep _ rfl).w.count
    have h0 := h.w.count
    generalize hL : openIn _ = A at h1 ⊢
    clear hL
    simp [closedIn, openedIn, finished, closeHandle, openHandle] at h1 h0 ⊢
    omega
  · simp [endedIn, finished, closeHandle, openHandle]
  · simp [createdIn, finished, closeHandle, openHandle]
  · intro hn
    simpa [finished, closeHandle, openHandle] using hn

/-- C108 is false: every command that cannot be started directly leaves six handles open, without bound, also when nothing is running
any more. -/
theorem C108_leak_refuted (n : Nat) : ∃ s, Reachable 1 s ∧ Os.fatal ∉ s.w.log ∧ runningIn s.w.log = 0 ∧ endedIn s.w.log = n ∧
    (openIn s.w.log).length = 6 * n := by
  have key : ∃ s, Reachable 1 s ∧ Os.fatal ∉ s.w.log ∧ s.procs = [{}] ∧ s.fatal = false ∧ createdIn s.w.log = n ∧
      endedIn s.w.log = n ∧ (openIn s.w.log).length = 6 * n := by
    induction n with
    | zero => exact ⟨init 1, ⟨[], rfl⟩, (fun hh => by cases hh), rfl, rfl, rfl, rfl, rfl⟩
    | succ n ih =>
      obtain ⟨s, h1, h2, h3, h4, h5, h6, h7⟩ := ih
      obtain ⟨s', k1, k2, k3, k4, k5, k6, k7⟩ := viaShell_leaks h1.inv h3 h4
      refine ⟨s', ?_, k7 h2, k2, k3, by omega, by omega, by omega⟩
      obtain ⟨es, he⟩ := h1
      refine ⟨es ++ viaShell, ?_⟩
      have app : ∀ (es : List Event) (s s1 : Sys), run s es = some s1 → run s (es ++ viaShell) = run s1 viaShell := by
        intro es
        induction es with
        | nil => intro s s1 h; simp only [run, Option.some.injEq] at h; subst h; rfl
        | cons e es ih =>
          intro s s1 h
          simp only [run, Option.bind_eq_some_iff, List.cons_append] at h ⊢
          obtain ⟨s2, q1, q2⟩ := h
          rw [q1, Option.bind_some]
          exact ih s2 s1 q2
      rw [app es _ s he, k1]
  obtain ⟨s, h1, h2, _, _, h5, h6, h7⟩ := key
  exact ⟨s, h1, h2, by simp only [runningIn]; omega, h6, h7⟩

/-- C108 is false: the shell that runs a command which could not be started directly inherits ends of pipes that are not its own. -/
theorem C108_inherit_refuted : ∃ s later before k stdin stdout stderr x, Reachable 1 s ∧
    s.w.log = later ++ .created k stdin stdout stderr :: before ∧ x ∈ openIn before ∧ Os.opened x true ∈ before ∧
    some x ≠ stdin ∧ some x ≠ stdout ∧ some x ≠ stderr := by
  refine ⟨_, [.closed 11, .closed 9, .closed 7, .closed 6, .opened 13 false, .opened 12 false],
    [.opened 11 true, .opened 10 false, .opened 9 true, .opened 8 false, .opened 7 false, .opened 6 true, .notCreated 0,
      .opened 5 true, .opened 4 false, .opened 3 true, .opened 2 false, .opened 1 false, .opened 0 true],
    0, some 6, some 9, some 11, 3, ⟨viaShell.take 1, rfl⟩, rfl, by decide, by decide, by decide⟩

namespace HandlesCase

/-- Two executors: a command that is started directly, one that is given to the shell, and one more when the first has ended. -/
def es : List Event :=
  [.command 0 (some {}) {}, .command 1 none { stdout := { attempts := [.busy, .ok] } }, .finished 0, .command 0 (some {}) {}]

theorem seen : (run (init 2) es).map (fun s => (openIn s.w.log, runningIn s.w.log, failures s.w.log)) =
    some ([23, 22, 20, 18, 15, 14, 12, 10], 2, 0) := by decide +kernel

/-- The theorems apply: all processes have inherited their standard handles only. -/
example : ∃ s, run (init 2) es = some s ∧ ((openIn s.w.log).length : Int) ≤ 4 * runningIn s.w.log ∧
    ∀ later before k stdin stdout stderr, s.w.log = later ++ .created k stdin stdout stderr :: before →
      ∀ x ∈ openIn before, Os.opened x true ∈ before → some x = stdin ∨ some x = stdout ∨ some x = stderr := by
  have hn : (run (init 2) es).map (fun s => decide (Os.fatal ∈ s.w.log)) = some false := by decide +kernel
  obtain ⟨s, h1, h2⟩ := Option.map_eq_some_iff.1 seen
  simp only [Prod.mk.injEq] at h2
  rw [h1] at hn
  obtain ⟨k1, k2⟩ := C108_partial 2 s ⟨es, h1⟩ h2.2.2
  exact ⟨s, h1, (k1 (by simpa using hn)).1, k2⟩

/-- When both commands have ended nothing is open. -/
example : (run (init 2) (es ++ [.finished 1, .finished 0])).map (fun s => (openIn s.w.log, runningIn s.w.log)) = some ([], 0) := by
  decide +kernel

end HandlesCase

end Jom.Props
