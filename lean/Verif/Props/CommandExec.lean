/-
Properties of the execution of commands: C42, C43, C45, C59, C60.
-/
import Verif.Proofs.CommandExec

namespace Jom.Props
open Jom.Exec Spec.Exec
open Inference (Command InlineFile)

/-- `start` with at least one command. -/
theorem start_eq (w : World) (o : Opts) (writable : Str → Bool) (native : Str → Str) (cand : Nat → Str) (fuel : Nat)
    (expand : List Command → List Command) (cmds : List Command) (fs : FS) (s s1 : St) (fs1 : FS) (hne : cmds ≠ [])
    (h : start w o writable native cand fuel expand cmds fs s = .ok (s1, fs1)) :
    ∃ cmds' t, createTemps writable native cand fuel (expand cmds) { fs := cleanup s.temps fs, next := 0, temps := [] } =
        .ok (cmds', t) ∧ fs1 = t.fs ∧
      s1 = execute w o cmds' { s with active := true, log := [], idx := 0, temps := t.temps, nextDir := [], dir := [] } := by
  unfold start at h
  have : cmds.isEmpty = false := by cases cmds <;> simp_all
  simp only [this, Bool.false_eq_true, if_false] at h
  generalize hx : createTemps writable native cand fuel (expand cmds) { fs := cleanup s.temps fs, next := 0, temps := [] } = x at h ⊢
  cases x with
  | error e => simp [bind, Except.bind] at h
  | ok r =>
    obtain ⟨cmds', t⟩ := r
    simp only [bind, Except.bind, Except.ok.injEq, Prod.mk.injEq] at h
    exact ⟨cmds', t, rfl, h.2.symm, h.1.symm⟩

/-- Writing inline files changes only the texts of commands. -/
theorem createTemps_limits (writable : Str → Bool) (native : Str → Str) (cand : Nat → Str) (fuel : Nat) :
    ∀ (cmds : List Command) (t : TempSt) (cmds' : List Command) (t' : TempSt),
      createTemps writable native cand fuel cmds t = .ok (cmds', t') →
      cmds'.map (fun c => (c.cmd.maxExitCode, c.cmd.silent)) = cmds.map fun c => (c.cmd.maxExitCode, c.cmd.silent) := by
  intro cmds
  induction cmds with
  | nil => intro t cmds' t' h; cases h; rfl
  | cons c cmds ih =>
    intro t cmds' t' h
    unfold createTemps at h
    generalize createTempsOf writable native cand fuel c.files c.cmd.line t = x at h
    cases x with
    | error e => simp [bind, Except.bind] at h
    | ok r =>
      obtain ⟨line, t1⟩ := r
      simp only [bind, Except.bind] at h
      generalize hy : createTemps writable native cand fuel cmds t1 = y at h
      cases y with
      | error e => simp at h
      | ok r =>
        obtain ⟨cmds2, t2⟩ := r
        simp only [Except.ok.injEq, Prod.mk.injEq] at h
        rw [← h.1]
        simp [ih _ _ _ hy]

/-! ### C42: order of commands -/

/-- **C42**, as far as it holds: a target with commands is started; its processes end with the exit codes `codes` in this order.
Then the commands are executed one at a time in order, up to the first one whose code exceeds its limit; if there is none,
the target is finished successfully after the last one (`Spec.Exec.Trace`).
Missing: a process with exit code 259 is never noticed to have ended (`C42_259_refuted`); a list of commands that is empty
after the expansion of `!` is undefined behaviour (excluded by `hexp`). -/
theorem C42_order_partial (w : World) (o : Opts) (writable : Str → Bool) (native : Str → Str) (cand : Nat → Str) (fuel : Nat)
    (expand : List Command → List Command) (cmds : List Command) (fs : FS) (s s1 : St) (fs1 : FS) (hidle : s.running = false)
    (hne : cmds ≠ []) (hexp : expand cmds ≠ []) (codes : List Nat)
    (h : start w o writable native cand fuel expand cmds fs s = .ok (s1, fs1)) :
    ∃ cmds', cmds'.map (fun c => (c.cmd.maxExitCode, c.cmd.silent)) =
        (expand cmds).map (fun c => (c.cmd.maxExitCode, c.cmd.silent)) ∧
      Trace w 0 cmds' (codes.filter (· ≠ 259)) (ends w o codes s1).log := by
  obtain ⟨cmds', t, h1, _, rfl⟩ := start_eq _ _ _ _ _ _ _ _ _ _ _ _ hne h
  have hl := createTemps_limits _ _ _ _ _ _ _ _ h1
  refine ⟨cmds', hl, ?_⟩
  have hne' : cmds' ≠ [] := by
    rintro rfl
    simp only [List.map_nil] at hl
    exact hexp (List.map_eq_nil_iff.1 hl.symm)
  obtain ⟨t', e1, e2⟩ := execute_trace w o cmds' hne'
    { s with active := true, log := [], idx := 0, temps := t.temps, nextDir := [], dir := [] } codes hidle
  rw [e1]
  exact e2

/-- A makefile world: everything can be started, the directory `a` exists. -/
def easy : World where
  starts := fun _ _ _ => true
  abs := fun a => if a = c!"a" then some c!"C:/p/a" else none
  cwd := c!"C:/p"
  comSpec := c!"cmd"

/-- A command. -/
def command (line : Str) (limit : Nat := 0) : Command := { cmd := { line := line, maxExitCode := limit } }

/-- Three commands; the second may fail with up to 5, the third fails. -/
example : (start easy {} (fun _ => true) id (fun _ => []) 1 id [command c!"cl a.c", command c!"copy x y" 5, command c!"link b",
      command c!"del b"] (fun _ => none) { env := [] }).toOption.map
      (fun r => (ends easy {} [0, 259, 5, 1, 0] r.1).log) =
    some [.begin 0, .print c!"cl a.c", .run c!"cl a.c" [] [], .ended 0 0,
      .begin 1, .print c!"copy x y", .run c!"cmd /C copy x y" [] [], .ended 1 5,
      .begin 2, .print c!"link b", .run c!"link b" [] [], .ended 2 1, .error [], .finished true] := by decide +kernel

/-- If the shell can always be started, executing commands neither ends jom nor has undefined behaviour. -/
theorem C42_alive (w : World) (o : Opts) (hs : ∀ n d l, w.starts n d (viaShell w.comSpec l) = true) (cmds : List Command)
    (hne : cmds ≠ []) (s : St) (codes : List Nat) (hf : s.fatal = false) (hu : s.ub = false) (hr : s.running = false) :
    (ends w o codes (execute w o cmds s)).fatal = false ∧ (ends w o codes (execute w o cmds s)).ub = false := by
  -- a running executor has commands
  have key : ∀ (cmds : List Command), cmds ≠ [] → ∀ s : St, s.fatal = false → s.ub = false → s.running = false →
      (execute w o cmds s).fatal = false ∧ (execute w o cmds s).ub = false ∧
        ((execute w o cmds s).running = true → (execute w o cmds s).cmds ≠ []) := by
    intro cmds
    induction cmds with
    | nil => intro h; exact absurd rfl h
    | cons c later ih =>
      intro _ s hf hu hr
      have ha := attempt_spec w o c ({ s with cmds := c :: later }.say [.begin s.idx])
      obtain ⟨mid, hm⟩ := attempted ha
      rw [execute_cons]
      generalize attempt w o c ({ s with cmds := c :: later }.say [.begin s.idx]) = res at ha hm ⊢
      obtain ⟨s1, r⟩ := res
      simp only at ha hm
      have h1 : s1.fatal = false := by rw [hm.fatal]; exact hf
      have h2 : s1.ub = false := by rw [hm.ub]; exact hu
      have h3 : s1.cmds = c :: later := hm.cmds
      cases r with
      | over code =>
        have hr1 : s1.running = false := by rw [(hm.over code rfl).1]; exact hr
        simp only [onFinished]
        split
        · exact ⟨h1, h2, fun h => by simp [finish, hr1] at h⟩
        · split
          · exact ⟨h1, h2, fun h => by simp [finish, hr1] at h⟩
          · rename_i hl
            exact ih (by intro e; subst e; simp at hl) _ h1 h2 hr1
      | running => exact ⟨h1, h2, fun _ => by rw [h3]; simp⟩
      | notStarted =>
        cases ha with
        | nothing n _ _ _ _ _ h => rw [hs] at h; cases h
  have step : ∀ (codes : List Nat) (s : St), s.fatal = false → s.ub = false → (s.running = true → s.cmds ≠ []) →
      (ends w o codes s).fatal = false ∧ (ends w o codes s).ub = false := by
    intro codes
    induction codes with
    | nil => intro s h1 h2 _; exact ⟨h1, h2⟩
    | cons x codes ih =>
      intro s h1 h2 h3
      show (ends w o codes (processEnded w o x s)).fatal = false ∧ (ends w o codes (processEnded w o x s)).ub = false
      unfold processEnded
      split
      · exact ih s h1 h2 h3
      · rename_i hr
        have hr : s.running = true := by
          cases h : s.running
          · simp [h] at hr
          · rfl
        split
        · rename_i hc; exact absurd hc (h3 hr)
        · rename_i c later hc
          simp only [onFinished]
          split
          · exact ih _ h1 h2 fun h => by simp [finish] at h
          · split
            · exact ih _ h1 h2 fun h => by simp [finish] at h
            · rename_i hl
              obtain ⟨k1, k2, k3⟩ := key later (by intro e; subst e; simp at hl)
                { ({ s with running := false } : St).say [.ended s.idx (effectiveCode x)] with idx := s.idx + 1 } h1 h2 rfl
              exact ih _ k1 k2 k3
  obtain ⟨k1, k2, k3⟩ := key cmds hne s hf hu hr
  exact step codes _ k1 k2 k3

example : ∀ n d l, easy.starts n d (viaShell easy.comSpec l) = true := fun _ _ _ => rfl

/-- **C42 refuted**: a command that ends with 259 (`STILL_ACTIVE`) is asked for its exit code forever: however often jom asks,
the target is not finished. -/
theorem C42_259_refuted : ∃ s : St, s.running = true ∧ s = execute easy {} [command c!"cl a.c" 0] { env := [] } ∧
    ∀ n, ends easy {} (List.replicate n 259) s = s := by
  refine ⟨_, ?_, rfl, ?_⟩
  · decide +kernel
  · intro n
    induction n with
    | zero => rfl
    | succ n ih =>
      have : processEnded easy {} 259 (execute easy {} [command c!"cl a.c" 0] { env := [] }) =
          execute easy {} [command c!"cl a.c" 0] { env := [] } := by
        unfold processEnded; rw [if_pos (by simp)]
      show ends easy {} (List.replicate n 259) (processEnded easy {} 259 _) = _
      rw [this, ih]

/-! ### C43: dry run -/

/-- What a dry run shows. -/
def dryLog : Nat → List Command → List Ev
  | _, [] => [.finished false]
  | i, c :: cmds => [.begin i, .print c.cmd.line, .ended i 0] ++ dryLog (i + 1) cmds

theorem execute_dry (w : World) (o : Opts) (ho : o.dryRun = true) : ∀ (cmds : List Command), cmds ≠ [] → ∀ s : St,
    ∃ cs i, execute w o cmds s = { s with cmds := cs, idx := i, active := false, log := s.log ++ dryLog s.idx cmds } := by
  intro cmds
  induction cmds with
  | nil => intro h; exact absurd rfl h
  | cons c later ih =>
    intro _ s
    have e : attempt w o c ({ s with cmds := c :: later }.say [.begin s.idx]) =
        ({ s with cmds := c :: later }.say [.begin s.idx, .print c.cmd.line], .over 0) := by
      unfold attempt
      simp [ho, St.say]
    rw [execute_cons, e]
    simp only [onFinished, Nat.not_lt_zero, gt_iff_lt, if_false]
    by_cases hl : later = []
    · subst hl
      refine ⟨[c], s.idx + 1, ?_⟩
      simp [finish, St.say, dryLog]
    · have : later.isEmpty = false := by cases later <;> simp_all
      simp only [this, Bool.false_eq_true, if_false]
      obtain ⟨cs, i, h⟩ := ih hl
        { ({ s with cmds := c :: later }.say [.begin s.idx, .print c.cmd.line]).say [.ended s.idx 0] with idx := s.idx + 1 }
      refine ⟨cs, i, ?_⟩
      have h' := h
      simp only [say_idx] at h' ⊢
      rw [h']
      simp [St.say, dryLog]

/-- **C43**: with /N, a target with commands shows every command and is finished successfully; no process is started, neither the
environment nor the working directory changes. -/
theorem C43_dry_run (w : World) (o : Opts) (ho : o.dryRun = true) (writable : Str → Bool) (native : Str → Str) (cand : Nat → Str)
    (fuel : Nat) (expand : List Command → List Command) (cmds : List Command) (fs : FS) (s s1 : St) (fs1 : FS)
    (hne : cmds ≠ []) (hexp : expand cmds ≠ []) (h : start w o writable native cand fuel expand cmds fs s = .ok (s1, fs1)) :
    ∃ cmds', cmds'.length = (expand cmds).length ∧ s1.log = dryLog 0 cmds' ∧ s1.attempts = s.attempts ∧ s1.running = s.running ∧
      s1.env = s.env ∧ s1.dir = [] ∧ s1.nextDir = [] ∧ s1.active = false ∧ s1.fatal = s.fatal ∧ s1.ub = s.ub := by
  obtain ⟨cmds', t, h1, _, rfl⟩ := start_eq _ _ _ _ _ _ _ _ _ _ _ _ hne h
  have hl := createTemps_limits _ _ _ _ _ _ _ _ h1
  have hlen : cmds'.length = (expand cmds).length := by simpa using congrArg List.length hl
  have hne' : cmds' ≠ [] := by
    rintro rfl
    exact hexp (List.length_eq_zero_iff.1 hlen.symm)
  obtain ⟨cs, i, e⟩ := execute_dry w o ho cmds' hne'
    { s with active := true, log := [], idx := 0, temps := t.temps, nextDir := [], dir := [] }
  rw [e]
  exact ⟨cmds', hlen, by simp, rfl, rfl, rfl, rfl, rfl, rfl, rfl, rfl⟩

/-- The commands `set`, `cd` and a program in a dry run. -/
example : (start easy { dryRun := true } (fun _ => true) id (fun _ => []) 1 id [command c!"set X=1", command c!"cd a",
      command c!"cl a.c"] (fun _ => none) { env := [] }).toOption.map (fun r => r.1.log) =
    some (dryLog 0 [command c!"set X=1", command c!"cd a", command c!"cl a.c"]) := by decide +kernel

/-- Finding: a dry run still writes inline files, even over an existing file that is kept. -/
theorem C43_inline_files : (start easy { dryRun := true } (fun _ => true) id (fun _ => []) 1 id
      [{ cmd := { line := c!"cl @<<" }, files := [{ filename := c!"notes.txt", keep := true, content := c!"new" }] }]
      (fun x => if x = c!"notes.txt" then some c!"old" else none) { env := [] }).toOption.map (fun r => r.2 c!"notes.txt") =
    some (some c!"new") := by decide +kernel

/-! ### C60: which command line is started -/

theorem enterDir_dir (s : St) : (enterDir s).dir = curDir s := by
  unfold enterDir curDir; split <;> rfl

/-- The text of the command as it is executed. -/
def text (c : Command) : Str := unescape c.cmd.line

/-- **C60**: a command that is neither a comment nor one of jom's builtins `cd` and `set` is shown (unless it is silent) and
started: directly if it has no shell syntax, is no internal command of the shell, and can be started; otherwise by the
shell. Nothing else happens before the process ends. -/
theorem C60_started (w : World) (o : Opts) (c : Command) (later : List Command) (s : St) (hd : o.dryRun = false)
    (hc : ¬ Comment (text c)) (hb : Plain (text c) → ¬ FirstWord c!"cd" (text c) ∧ ¬ FirstWord c!"set" (text c)) :
    (Plain (text c) → ¬ Internal (text c) → w.starts s.attempts (curDir s) (text c) = true →
      (execute w o (c :: later) s).running = true ∧
      (execute w o (c :: later) s).log = s.log ++ .begin s.idx :: (shown o c ++ [.run (text c) (curDir s) s.env])) ∧
    ((¬ Plain (text c) ∨ Internal (text c)) → w.starts s.attempts (curDir s) (viaShell w.comSpec (text c)) = true →
      (execute w o (c :: later) s).running = true ∧
      (execute w o (c :: later) s).log =
        s.log ++ .begin s.idx :: (shown o c ++ [.run (viaShell w.comSpec (text c)) (curDir s) s.env])) ∧
    (Plain (text c) → ¬ Internal (text c) → w.starts s.attempts (curDir s) (text c) = false →
      w.starts (s.attempts + 1) (curDir s) (viaShell w.comSpec (text c)) = true →
      (execute w o (c :: later) s).running = true ∧
      (execute w o (c :: later) s).log =
        s.log ++ .begin s.idx :: (shown o c ++ [.run (viaShell w.comSpec (text c)) (curDir s) s.env])) := by
  rw [execute_cons]
  have ha := attempt_spec w o c ({ s with cmds := c :: later }.say [.begin s.idx])
  have hcur : (enterDir ({ s with cmds := c :: later }.say [.begin s.idx])).dir = curDir s := by rw [enterDir_dir]; rfl
  generalize attempt w o c ({ s with cmds := c :: later }.say [.begin s.idx]) = res at ha ⊢
  obtain ⟨s1, r⟩ := res
  simp only at ha
  unfold text at *
  cases ha with
  | skipped h =>
    rcases h with h | h
    · rw [hd] at h; cases h
    · exact absurd h hc
  | cd _ ok hd hc hp hw h => exact absurd hw (hb hp).1
  | set hd hc hp hn hw => exact absurd hw (hb hp).2
  | direct hd hc hp hn hs hi h =>
    rw [hcur] at h ⊢
    refine ⟨fun _ _ _ => ⟨rfl, by simp⟩, fun h1 => ?_, fun _ _ h1 => ?_⟩
    · rcases h1 with h1 | h1
      · exact absurd hp h1
      · exact absurd h1 hi
    · simp only [say_attempts] at h
      rw [h] at h1; cases h1
  | shell n hd hc hn hs hw h =>
    rw [hcur] at h hw ⊢
    simp only [say_attempts] at hw
    refine ⟨fun hp hi h1 => ?_, fun _ _ => ⟨rfl, by simp⟩, fun _ _ _ _ => ⟨rfl, by simp⟩⟩
    rcases hw with ⟨hw, _⟩ | ⟨_, _, hw, _⟩
    · rcases hw with hw | hw
      · exact absurd hp hw
      · exact absurd hw hi
    · rw [h1] at hw; cases hw
  | nothing n hd hc hn hs hw h =>
    rw [hcur] at h hw
    simp only [say_attempts] at hw
    refine ⟨fun hp hi h1 => ?_, fun h1 h2 => ?_, fun hp hi h1 h2 => ?_⟩
    · rcases hw with ⟨hw, _⟩ | ⟨_, _, hw, _⟩
      · rcases hw with hw | hw
        · exact absurd hp hw
        · exact absurd hw hi
      · rw [h1] at hw; cases hw
    · rcases hw with ⟨_, rfl⟩ | ⟨hp, hi, _, _⟩
      · rw [h2] at h; cases h
      · rcases h1 with h1 | h1
        · exact absurd hp h1
        · exact absurd h1 hi
    · rcases hw with ⟨hw, _⟩ | ⟨_, _, _, rfl⟩
      · rcases hw with hw | hw
        · exact absurd hp hw
        · exact absurd hw hi
      · rw [h2] at h; cases h

/-- Executing commands only adds to the log. -/
theorem execute_extends (w : World) (o : Opts) (cmds : List Command) (s : St) : ∃ t, (execute w o cmds s).log = s.log ++ t := by
  obtain ⟨new, h, _⟩ := kept_execute (kept_env w s.env s.log) o cmds s ⟨[], by simp, rfl, fun pre _ _ _ _ h => by
    cases pre <;> cases h⟩
  exact ⟨new, h⟩

/-- A command that is over at once. -/
theorem execute_over {w : World} {o : Opts} {c : Command} {s s1 : St} {code : Nat} {mid : List Ev} (later : List Command)
    (h : attempt w o c ({ s with cmds := c :: later }.say [.begin s.idx]) = (s1, .over code))
    (hl : s1.log = s.log ++ .begin s.idx :: mid) :
    ∃ t, (execute w o (c :: later) s).log = s.log ++ .begin s.idx :: (mid ++ .ended s.idx code :: t) := by
  have ha := attempt_spec w o c ({ s with cmds := c :: later }.say [.begin s.idx])
  obtain ⟨_, hm⟩ := attempted ha
  have hidx : s1.idx = s.idx := by have := hm.idx; rw [h] at this; exact this
  rw [execute_cons, h]
  simp only [onFinished, hidx]
  split
  · exact ⟨_, by simp [finish, hl]; rfl⟩
  · split
    · exact ⟨_, by simp [finish, hl]; rfl⟩
    · exact (execute_extends w o later _).elim fun t e => ⟨t, e.trans (by simp [hl])⟩

/-- **C60**, comments: they are shown and do nothing. -/
theorem C60_comment (w : World) (o : Opts) (c : Command) (later : List Command) (s : St) (hc : Comment (text c)) :
    ∃ t, (execute w o (c :: later) s).log = s.log ++ .begin s.idx :: (shown o c ++ .ended s.idx 0 :: t) := by
  have ha := attempt_spec w o c ({ s with cmds := c :: later }.say [.begin s.idx])
  generalize hx : attempt w o c ({ s with cmds := c :: later }.say [.begin s.idx]) = res at ha
  obtain ⟨s1, r⟩ := res
  simp only at ha
  unfold text at hc
  cases ha with
  | skipped h => exact execute_over later hx (by simp)
  | cd _ ok hd hc' hp hw h => exact absurd hc hc'
  | set hd hc' hp hn hw => exact absurd hc hc'
  | direct hd hc' hp hn hs hi h => exact absurd hc hc'
  | shell n hd hc' hn hs hw h => exact absurd hc hc'
  | nothing n hd hc' hn hs hw h => exact absurd hc hc'

example : Comment (text (command c!"REM 100%% done")) := .inr ⟨c!"REM", ' ', c!"100% done", by decide +kernel, rfl, by decide⟩

/-- A redirection, a program, an internal command with quotes. -/
example : (execute easy {} [command c!"dir > x"] { env := [] }).log =
      [.begin 0, .print c!"dir > x", .run c!"cmd /C dir > x" [] []] ∧
    (execute easy {} [command c!"moc a.h"] { env := [] }).log = [.begin 0, .print c!"moc a.h", .run c!"moc a.h" [] []] ∧
    (execute easy { silent := true } [command c!"ECHO \"50%%\""] { env := [] }).log =
      [.begin 0, .run c!"cmd /C \"ECHO \"50%\"\"" [] []] := by
  repeat' apply And.intro
  all_goals decide +kernel

/-! ### C59: the builtin `cd` -/

theorem firstWord_head {x : Char} {word line : Str} (h : FirstWord (x :: word) line) : ∃ ch r, line = ch :: r ∧ toLowerC ch = x := by
  obtain ⟨w, b, rest, rfl, _, hw⟩ := h
  cases w with
  | nil => simp [toLower] at hw
  | cons ch w =>
    simp only [toLower, List.map_cons, List.cons.injEq] at hw
    exact ⟨ch, w ++ b :: rest, rfl, hw.1⟩

theorem firstWord_ne {x y : Char} {a b line : Str} (hxy : x ≠ y) (h1 : FirstWord (x :: a) line) : ¬ FirstWord (y :: b) line := by
  intro h2
  obtain ⟨c, r, e, h⟩ := firstWord_head h1
  obtain ⟨c', r', e', h'⟩ := firstWord_head h2
  rw [e] at e'
  cases e'
  exact hxy (h.symm.trans h')

theorem firstWord_no_comment {x : Char} {a line : Str} (h1 : FirstWord (x :: a) line) (hr : x ≠ 'r') (hc : x ≠ ':') :
    ¬ Comment line := by
  rintro (h | h)
  · obtain ⟨c, r, e, h'⟩ := firstWord_head h1
    rw [e] at h
    simp only [List.head?_cons, Option.some.injEq] at h
    subst h
    exact hc (by rw [← h']; decide)
  · exact firstWord_ne hr h1 h

/-- The argument `a` names the directory `d`, possibly in double quotes. -/
def Names (a d : Str) : Prop := (a = d ∧ d ≠ [] ∧ d.head? ≠ some '"') ∨ a = '"' :: (d ++ ['"'])

/-- The text behind `cd` names the directory `d`: `cd d` or `cd /d d`. -/
def CdArg (rest d : Str) : Prop :=
  (toLower ((trimmed rest).take 2) ≠ c!"/d" ∧ Names (trimmed rest) d) ∨
  ∃ x b r, trimmed rest = '/' :: x :: b :: r ∧ (x = 'd' ∨ x = 'D') ∧ isSpace b = true ∧ Names (trimmed r) d

theorem names_unquote {a d : Str} (h : Names a d) : removeDoubleQuotes a = d ∧ a ≠ [] := by
  rcases h with ⟨rfl, h1, h2⟩ | rfl
  · refine ⟨?_, h1⟩
    unfold removeDoubleQuotes
    cases a with
    | nil => exact absurd rfl h1
    | cons c a =>
      have : startsWith (c :: a) ['"'] = false := by
        simp only [startsWith, List.isPrefixOf, Bool.and_true, beq_eq_false_iff_ne]
        intro e; subst e; simp at h2
      rw [this]; simp
  · refine ⟨?_, by simp⟩
    unfold removeDoubleQuotes
    have h1 : startsWith ('"' :: (d ++ ['"'])) ['"'] = true := by simp [startsWith]
    have h2 : endsWith ('"' :: (d ++ ['"'])) ['"'] = true := by
      rw [endsWith, List.isSuffixOf_iff_suffix]
      exact ⟨'"' :: d, by simp⟩
    rw [h1, h2]
    simp only [Bool.and_self, if_true]
    rw [show '"' :: (d ++ ['"']) = ('"' :: d) ++ ['"'] by simp, List.dropLast_concat]
    rfl

theorem execCd_arg {w : World} {line rest d : Str} {s : St} (hl : line.drop 3 = rest) (ha : CdArg rest d) :
    execCd w line s = (match w.abs d with
      | none => (s.say [.error d], false)
      | some p => ({ s with nextDir := p }.say [.chdir p], true)) := by
  unfold execCd
  rw [hl]
  simp only
  rcases ha with ⟨h1, h2⟩ | ⟨x, b, r, h1, hx, hb, h2⟩
  · obtain ⟨u1, u2⟩ := names_unquote h2
    have e1 : List.isEmpty (trimmed rest) = false := by cases h : trimmed rest <;> simp_all
    have e2 : startsWith (toLower (trimmed rest)) c!"/d" = false := by
      rw [← Bool.not_eq_true]
      intro h
      apply h1
      obtain ⟨t, ht⟩ := List.isPrefixOf_iff_prefix.1 h
      have : toLower ((trimmed rest).take 2) = (toLower (trimmed rest)).take 2 := by simp [toLower, List.map_take]
      rw [this, ← ht]; rfl
    simp only [e1, e2, Bool.false_and, Bool.false_eq_true, if_false, u1]
    cases w.abs d <;> rfl
  · obtain ⟨u1, u2⟩ := names_unquote h2
    rw [h1]
    have e2 : startsWith (toLower ('/' :: x :: b :: r)) c!"/d" = true := by
      rcases hx with rfl | rfl <;> rfl
    have e1 : List.isEmpty (trimmed r) = false := by cases h : trimmed r <;> simp_all
    simp only [e2, List.isEmpty_cons, Bool.false_eq_true, if_false, if_true, List.drop_succ_cons, List.drop_zero, e1, Bool.and_false,
      u1]
    cases w.abs d <;> rfl

/-- **C59**, one command: `cd DIR` and `cd /d DIR` choose an existing directory for the later commands and fail for a missing one.
The text must not have shell syntax. -/
theorem C59_cd (w : World) (o : Opts) (c : Command) (later : List Command) (s : St) (hd : o.dryRun = false) (hp : Plain (text c))
    (cd : Str) (b : Char) (rest d : Str) (ht : text c = cd ++ b :: rest) (hcd : toLower cd = c!"cd") (hb : isSpace b = true)
    (ha : CdArg rest d) :
    (∀ p, w.abs d = some p →
      ∃ t, (execute w o (c :: later) s).log = s.log ++ .begin s.idx :: (shown o c ++ .chdir p :: .ended s.idx 0 :: t)) ∧
    (w.abs d = none →
      ∃ t, (execute w o (c :: later) s).log = s.log ++ .begin s.idx :: (shown o c ++ .error d :: .ended s.idx 1 :: t)) := by
  have hw : FirstWord c!"cd" (unescape c.cmd.line) := ⟨cd, b, rest, ht, hb, hcd⟩
  have hnc := firstWord_no_comment hw (by decide) (by decide)
  have hrest : (unescape c.cmd.line).drop 3 = rest := by
    have hl : cd.length = 2 := by simpa [toLower] using congrArg List.length hcd
    show (text c).drop 3 = rest
    rw [ht]
    match cd, hl with
    | [_, _], _ => rfl
  have hat := attempt_spec w o c ({ s with cmds := c :: later }.say [.begin s.idx])
  generalize hx : attempt w o c ({ s with cmds := c :: later }.say [.begin s.idx]) = res at hat
  obtain ⟨s1, r⟩ := res
  simp only at hat
  cases hat with
  | skipped h =>
    rcases h with h | h
    · rw [hd] at h; cases h
    · exact absurd h hnc
  | cd _ ok hd hc hp hw h =>
    rw [execCd_arg hrest ha] at h
    constructor
    · intro p hpa
      rw [hpa] at h
      cases h
      obtain ⟨t, ht⟩ := execute_over (mid := shown o c ++ [.chdir p]) later hx (by simp)
      exact ⟨t, by rw [ht]; simp⟩
    · intro hpa
      rw [hpa] at h
      cases h
      obtain ⟨t, ht⟩ := execute_over (mid := shown o c ++ [.error d]) later hx (by simp)
      exact ⟨t, by rw [ht]; simp⟩
  | set hd hc hp hn hw' => exact absurd hw hn
  | direct hd hc hp hn hs hi h => exact absurd hw hn
  | shell n hd hc hn hs hw' h => exact absurd ⟨hp, hw⟩ hn
  | nothing n hd hc hn hs hw' h => exact absurd ⟨hp, hw⟩ hn

/-- The theorem applies to a directory that exists and to one that does not, whatever follows. -/
example (later : List Command) (s : St) :
    (∃ t, (execute easy {} (command c!"CD /D \"a\"" :: later) s).log =
      s.log ++ .begin s.idx :: (shown {} (command c!"CD /D \"a\"") ++ .chdir c!"C:/p/a" :: .ended s.idx 0 :: t)) ∧
    ∃ t, (execute easy {} (command c!"cd b" :: later) s).log =
      s.log ++ .begin s.idx :: (shown {} (command c!"cd b") ++ .error c!"b" :: .ended s.idx 1 :: t) :=
  ⟨(C59_cd easy {} (command c!"CD /D \"a\"") later s rfl (by unfold Plain; decide) c!"CD" ' ' c!"/D \"a\"" c!"a" (by decide) (by decide) (by decide)
      (.inr ⟨'D', ' ', c!"\"a\"", by decide, .inr rfl, by decide, .inr (by decide)⟩)).1 _ (by decide),
    (C59_cd easy {} (command c!"cd b") later s rfl (by unfold Plain; decide) c!"cd" ' ' c!"b" c!"b" (by decide) (by decide) (by decide)
      (.inl ⟨by decide, .inl (by decide)⟩)).2 (by decide)⟩

/-- **C59**, all commands of a target, as far as it holds: every process is started in the directory that was chosen last by the
commands of the same target; at first it is the current directory of jom. -/
theorem C59_dir_partial (w : World) (o : Opts) (writable : Str → Bool) (native : Str → Str) (cand : Nat → Str) (fuel : Nat)
    (expand : List Command → List Command) (cmds : List Command) (fs : FS) (s s1 : St) (fs1 : FS) (hne : cmds ≠ [])
    (habs : ∀ a p, w.abs a = some p → p ≠ []) (codes : List Nat)
    (h : start w o writable native cand fuel expand cmds fs s = .ok (s1, fs1)) : DirLog (ends w o codes s1).log := by
  obtain ⟨cmds', t, h1, _, rfl⟩ := start_eq _ _ _ _ _ _ _ _ _ _ _ _ hne h
  have k := kept_dir w habs
  refine (kept_ends k o codes _ (kept_execute k o cmds' _ ⟨rfl, ?_⟩)).2
  intro pre line d e post h
  cases pre <;> cases h

example : easy.abs c!"a" = some c!"C:/p/a" ∧ (∀ a p, easy.abs a = some p → p ≠ []) ∧
    (ends easy {} [0, 0] (execute easy {} [command c!"CD /D \"a\"", command c!"cl a.c", command c!"dir x"] { env := [] })).log =
      [.begin 0, .print c!"CD /D \"a\"", .chdir c!"C:/p/a", .ended 0 0, .begin 1, .print c!"cl a.c", .run c!"cl a.c" c!"C:/p/a" [],
        .ended 1 0, .begin 2, .print c!"dir x", .run c!"cmd /C dir x" c!"C:/p/a" [], .ended 2 0, .finished false] := by
  refine ⟨by decide, ?_, by decide +kernel⟩
  intro a p h
  simp only [easy] at h
  split at h
  · cases h; simp
  · cases h

/-- Directories `a` and `docs`, a file `notes.txt`; every process that is not started in a directory fails. -/
def tree : World where
  starts := fun _ d _ => d ≠ c!"C:/p/notes.txt"
  abs := fun x => if x = c!"a" then some c!"C:/p/a" else if x = c!"/docs" then some c!"C:/docs"
    else if x = c!"notes.txt" then some c!"C:/p/notes.txt" else none
  cwd := c!"C:/p"
  comSpec := c!"cmd"

/-- **C59 refuted**, relative directories: the second `cd` is relative to the current directory of jom, not to the directory chosen
by the first one. -/
theorem C59_relative_refuted : (execute tree {} [command c!"cd a", command c!"cd a", command c!"cl"] { env := [] }).log =
    [.begin 0, .print c!"cd a", .chdir c!"C:/p/a", .ended 0 0, .begin 1, .print c!"cd a", .chdir c!"C:/p/a", .ended 1 0,
      .begin 2, .print c!"cl", .run c!"cl" c!"C:/p/a" []] := by decide +kernel

/-- **C59 refuted**, directories whose name begins with `/d`: `cd /docs` is read as `cd /d cs`. -/
theorem C59_docs_refuted : tree.abs c!"/docs" = some c!"C:/docs" ∧
    (execute tree {} [command c!"cd /docs"] { env := [] }).log =
      [.begin 0, .print c!"cd /docs", .error c!"cs", .ended 0 1, .error [], .finished true] := by
  constructor
  · decide
  · decide +kernel

/-- **C59 refuted**, files: `cd notes.txt` succeeds although `notes.txt` is no directory; the next command then ends jom. -/
theorem C59_file_refuted : (execute tree {} [command c!"cd notes.txt", command c!"cl"] { env := [] }).log =
      [.begin 0, .print c!"cd notes.txt", .chdir c!"C:/p/notes.txt", .ended 0 0, .begin 1, .print c!"cl", .ended 1 2, .error [],
        .finished true] ∧
    (execute tree {} [command c!"cd notes.txt", command c!"cl"] { env := [] }).fatal = true := by
  constructor <;> decide +kernel

/-! ### C45: the builtin `set` -/

/-- **C45**, one command: `set NAME=VALUE` assigns the value; blanks around the whole assignment do not count. -/
theorem C45_set (w : World) (o : Opts) (c : Command) (later : List Command) (s : St) (hd : o.dryRun = false) (hp : Plain (text c))
    (set : Str) (b : Char) (rest n v : Str) (ht : text c = set ++ b :: rest) (hset : toLower set = c!"set") (hb : isSpace b = true)
    (ha : trimmed rest = n ++ '=' :: v) (hn : '=' ∉ n) :
    ∃ t, (execute w o (c :: later) s).log = s.log ++ .begin s.idx :: (shown o c ++ .assign n v :: .ended s.idx 0 :: t) := by
  have hw : FirstWord c!"set" (unescape c.cmd.line) := ⟨set, b, rest, ht, hb, hset⟩
  have hnc := firstWord_no_comment hw (by decide) (by decide)
  have hcd : ¬ FirstWord c!"cd" (unescape c.cmd.line) := firstWord_ne (by decide) hw
  have hrest : (unescape c.cmd.line).drop 4 = rest := by
    have hl : set.length = 3 := by simpa [toLower] using congrArg List.length hset
    show (text c).drop 4 = rest
    rw [ht]
    match set, hl with
    | [_, _, _], _ => rfl
  have hat := attempt_spec w o c ({ s with cmds := c :: later }.say [.begin s.idx])
  generalize hx : attempt w o c ({ s with cmds := c :: later }.say [.begin s.idx]) = res at hat
  obtain ⟨s1, r⟩ := res
  simp only at hat
  cases hat with
  | skipped h =>
    rcases h with h | h
    · rw [hd] at h; cases h
    · exact absurd h hnc
  | cd _ ok hd hc hp hw h => exact absurd hw hcd
  | set hd hc hp hn hw' =>
    have e : ∀ s : St, execSet (unescape c.cmd.line) s = { s with env := envSet n v s.env }.say [.assign n v] := by
      intro s
      unfold execSet
      rw [hrest, ha]
      simp only [indexOf?_char (p := n) (q := v) (by assumption)]
      simp
    obtain ⟨t, ht⟩ := execute_over (mid := shown o c ++ [.assign n v]) later hx (by rw [e]; simp)
    exact ⟨t, by rw [ht]; simp⟩
  | direct hd hc hp hn hs hi h => exact absurd hw hs
  | shell n hd hc hn hs hw' h => exact absurd ⟨hp, hw⟩ hs
  | nothing n hd hc hn hs hw' h => exact absurd ⟨hp, hw⟩ hs

theorem envAfter_noAssign (env : List (Str × Str)) : ∀ l : List Ev, assigns l = [] → envAfter env l = env := by
  intro l
  induction l with
  | nil => intro _; rfl
  | cons e l ih =>
    intro h
    cases e <;> first | exact ih h | simp [assigns] at h

theorem envLog_append {env : List (Str × Str)} {a b : List Ev} (ha : EnvLog env a) (hb : EnvLog (envAfter env a) b) :
    EnvLog env (a ++ b) := by
  intro pre line d e post h
  rcases List.append_eq_append_iff.1 h with ⟨x, h1, h2⟩ | ⟨x, h1, h2⟩
  · rw [h1, envAfter_append]
    exact hb _ _ _ _ _ h2
  · cases x with
    | nil =>
      simp only [List.append_nil] at h1
      rw [← h1]
      have := hb [] line d e post (by simpa using h2.symm)
      simpa [envAfter] using this
    | cons y x =>
      simp only [List.cons_append, List.cons.injEq] at h2
      obtain ⟨rfl, h2⟩ := h2
      exact ha _ _ _ _ _ h1

/-- All executors have the same environment, and every process has got the environment after all assignments before it. -/
structure Shared (env : List (Str × Str)) (t : Team) : Prop where
  same : ∀ s ∈ t.execs, s.env = envAfter env (t.trace.map (·.2))
  log : EnvLog env (t.trace.map (·.2))

theorem shared_update {env : List (Str × Str)} {t : Team} (h : Shared env t) (k : Nat) (s' : St) (new : List Ev)
    (he : s'.env = envAfter (envAfter env (t.trace.map (·.2))) new) (hn : EnvLog (envAfter env (t.trace.map (·.2))) new) :
    Shared env (t.update k s' new) := by
  have hm : (t.update k s' new).trace.map (·.2) = t.trace.map (·.2) ++ new := by
    simp [Team.update, Function.comp_def]
  refine ⟨?_, ?_⟩
  · rw [hm, envAfter_append]
    intro s hs
    simp only [Team.update] at hs
    rcases List.mem_or_eq_of_mem_set hs with hs | hs
    · split at hs
      · rename_i ha
        rw [envAfter_noAssign _ new (List.isEmpty_iff.1 ha)]
        exact h.same s hs
      · obtain ⟨x, _, rfl⟩ := List.mem_map.1 hs
        exact he
    · rw [hs]; exact he
  · rw [hm]
    exact envLog_append h.log hn

/-- **C45**, all executors: if all executors begin with the same environment, then after any targets and any exit codes on any
executors they have the same environment — the first one with all assignments done so far by any of them — and every
process was started with the environment after all assignments before. -/
theorem C45_shared (w : World) (o : Opts) (env : List (Str × Str)) (execs : List St) (h : ∀ s ∈ execs, s.env = env)
    (evs : List TeamEv) :
    (∀ s ∈ (Team.run w o { execs := execs } evs).execs,
      s.env = envAfter env ((Team.run w o { execs := execs } evs).trace.map (·.2))) ∧
    EnvLog env ((Team.run w o { execs := execs } evs).trace.map (·.2)) := by
  have step : ∀ (t : Team) (ev : TeamEv), Shared env t → Shared env (t.step w o ev) := by
    intro t ev ht
    cases ev with
    | start k cmds =>
      simp only [Team.step]
      split
      · exact ht
      · rename_i s hs
        split
        · exact ht
        · have hse : s.env = _ := ht.same s (List.mem_of_getElem? hs)
          obtain ⟨new, h1, h2, h3⟩ := kept_execute (kept_env w (envAfter env (t.trace.map fun (e : Nat × Ev) => e.2)) []) o cmds
            { s with active := true, log := [], idx := 0, dir := [], nextDir := [] }
            ⟨[], rfl, hse, fun pre _ _ _ _ h => by cases pre <;> cases h⟩
          rw [List.nil_append] at h1
          exact shared_update ht k _ _ (by rw [h1]; exact h2) (by rw [h1]; exact h3)
    | exited k code =>
      simp only [Team.step]
      split
      · exact ht
      · rename_i s hs
        have hse : s.env = _ := ht.same s (List.mem_of_getElem? hs)
        obtain ⟨new, h1, h2, h3⟩ := kept_processEnded (kept_env w (envAfter env (t.trace.map fun (e : Nat × Ev) => e.2)) s.log) o code s
          ⟨[], by simp, hse, fun pre _ _ _ _ h => by cases pre <;> cases h⟩
        have hnew : (processEnded w o code s).log.drop s.log.length = new := by rw [h1]; simp
        rw [hnew]
        exact shared_update ht k _ _ h2 h3
  have run : ∀ (evs : List TeamEv) (t : Team), Shared env t → Shared env (Team.run w o t evs) := by
    intro evs
    induction evs with
    | nil => intro t h; exact h
    | cons ev evs ih => intro t h; exact ih _ (step t ev h)
  have := run evs { execs := execs } ⟨h, fun pre _ _ _ _ h => by cases pre <;> cases h⟩
  exact ⟨this.same, this.log⟩

/-- Two executors; the second one sees the assignment of the first one. -/
example : (Team.run easy {} { execs := [{ env := [] }, { env := [] }] }
      [.start 0 [command c!"cl x", command c!"set CL=/O2"], .exited 0 0, .start 1 [command c!"cl y"]]).trace =
    [(0, .begin 0), (0, .print c!"cl x"), (0, .run c!"cl x" [] []), (0, .ended 0 0), (0, .begin 1), (0, .print c!"set CL=/O2"),
      (0, .assign c!"CL" c!"/O2"), (0, .ended 1 0), (0, .finished false),
      (1, .begin 0), (1, .print c!"cl y"), (1, .run c!"cl y" [] [(c!"CL", c!"/O2")])] := by decide +kernel

/-- **C45 refuted** for the form `set "NAME=VALUE"` of the shell: the quotes become part of the name and of the value. -/
theorem C45_quoted_refuted : (execute easy {} [command c!"set \"CL=/O2\""] { env := [] }).log =
    [.begin 0, .print c!"set \"CL=/O2\"", .assign c!"\"CL" c!"/O2\"", .ended 0 0, .finished false] := by decide +kernel

/-- **C45 refuted** for values with variables: `set PATH=%PATH%;C:\bin` gives `PATH` the text `%PATH%;C:\bin`. -/
theorem C45_percent_refuted :
    (execute easy {} [command c!"set PATH=%PATH%;C:\\bin", command c!"cl"] { env := [(c!"PATH", c!"C:\\vc")] }).log =
    [.begin 0, .print c!"set PATH=%PATH%;C:\\bin", .assign c!"PATH" c!"%PATH%;C:\\bin", .ended 0 0,
      .begin 1, .print c!"cl", .run c!"cl" [] [(c!"PATH", c!"%PATH%;C:\\bin")]] := by decide +kernel

end Jom.Props
