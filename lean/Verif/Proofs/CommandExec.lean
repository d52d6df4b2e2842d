/-
Lemmas on the execution of commands.
-/
import Verif.Spec.CommandExec
import Verif.Proofs.StrLemmas

namespace Jom.Exec
open Spec.Exec
open Inference (Command)

/-! ### Texts -/

theorem replaceGo_unescape : ∀ (n : Nat) (s : Str), s.length ≤ n → replaceGo c!"%%" c!"%" 0 s = unescape s := by
  intro n
  induction n with
  | zero =>
    intro s h
    have : s = [] := List.length_eq_zero_iff.1 (by omega)
    subst this; rfl
  | succ n ih =>
    intro s h
    match s with
    | [] => rfl
    | [c] =>
      by_cases hc : c = '%'
      · subst hc; rfl
      · simp [replaceGo, unescape, hc, List.isPrefixOf]
    | c :: d :: s =>
      simp only [List.length_cons] at h
      by_cases hc : c = '%'
      · subst hc
        by_cases hd : d = '%'
        · subst hd
          simp [replaceGo, unescape, List.isPrefixOf, ih s (by omega)]
        · have e : unescape ('%' :: d :: s) = '%' :: unescape (d :: s) := by
            rw [unescape.eq_def]
            simp only [if_true]
            split
            · rename_i h; cases h; exact absurd rfl hd
            · rfl
          rw [e, ← ih (d :: s) (by simp; omega), replaceGo]
          have : ¬ (['%', '%'].isPrefixOf ('%' :: d :: s) = true) := by
            simp [List.isPrefixOf]; exact fun e => hd e.symm
          rw [if_neg this]
      · have e : unescape (c :: d :: s) = c :: unescape (d :: s) := by
          rw [unescape.eq_def]; simp [hc]
        rw [e, ← ih (d :: s) (by simp; omega), replaceGo]
        have : ¬ (['%', '%'].isPrefixOf (c :: d :: s) = true) := by
          simp [List.isPrefixOf]; intro e; exact absurd e.symm hc
        rw [if_neg this]

theorem replaceAll_unescape (s : Str) : replaceAll c!"%%" c!"%" s = unescape s := by
  have : replaceAll c!"%%" c!"%" s = replaceGo c!"%%" c!"%" 0 s := rfl
  rw [this, replaceGo_unescape _ s (Nat.le_refl _)]

theorem firstWord_iff (line word : Str) : startsWithCommand line word = true ↔ FirstWord word line := by
  unfold startsWithCommand FirstWord
  constructor
  · intro h
    cases hd : line.drop word.length with
    | nil => rw [hd] at h; simp at h
    | cons b rest =>
      rw [hd] at h
      simp only [Bool.and_eq_true, startsWith, List.isPrefixOf_iff_prefix] at h
      refine ⟨line.take word.length, b, rest, ?_, h.1, ?_⟩
      · rw [← hd, List.take_append_drop]
      · obtain ⟨t, ht⟩ := h.2
        have e : toLower (line.take word.length) = (toLower line).take word.length := by simp [toLower, List.map_take]
        rw [e, ← ht]; simp
  · rintro ⟨w, b, rest, rfl, hb, hw⟩
    have hl : word.length = w.length := by rw [← hw]; simp [toLower]
    rw [hl, List.drop_left]
    simp only [hb, Bool.true_and, startsWith, List.isPrefixOf_iff_prefix]
    exact ⟨toLower (b :: rest), by simp [toLower, ← hw]⟩

theorem isComment_iff (line : Str) : isComment line = true ↔ Comment line := by
  unfold isComment Comment
  rw [Bool.or_eq_true, firstWord_iff]
  refine or_congr ?_ Iff.rfl
  cases line with
  | nil => simp [startsWith]
  | cons c s => simp [startsWith, List.isPrefixOf]; exact eq_comm

theorem isSimple_iff (line : Str) : isSimple line = true ↔ Plain line := by
  unfold isSimple Plain
  simp only [Bool.not_eq_true', List.any_eq_false, Bool.or_eq_true, beq_iff_eq, List.mem_cons, List.not_mem_nil, or_false]
  constructor <;> intro h c hc <;> have := h c hc <;> grind

theorem builtin_iff (line : Str) : startsWithShellBuiltin line = true ↔ Internal line := by
  unfold startsWithShellBuiltin Internal shellBuiltins
  rw [List.any_eq_true]
  constructor
  · rintro ⟨w, hw, h⟩; exact ⟨w, hw, (firstWord_iff _ _).1 h⟩
  · rintro ⟨w, hw, h⟩; exact ⟨w, hw, (firstWord_iff _ _).2 h⟩

theorem shellLine_eq (w : World) (line : Str) : shellLine w line = viaShell w.comSpec line := by
  unfold shellLine viaShell
  simp only [List.contains_iff_mem, List.isEmpty_iff]

theorem effectiveCode_of (x : Nat) : CodeOf x (effectiveCode x) := by
  unfold effectiveCode CodeOf
  split <;> omega

/-! ### One command -/

@[simp] theorem say_log (s : St) (l : List Ev) : (s.say l).log = s.log ++ l := rfl
@[simp] theorem say_env (s : St) (l : List Ev) : (s.say l).env = s.env := rfl
@[simp] theorem say_cmds (s : St) (l : List Ev) : (s.say l).cmds = s.cmds := rfl
@[simp] theorem say_idx (s : St) (l : List Ev) : (s.say l).idx = s.idx := rfl
@[simp] theorem say_dir (s : St) (l : List Ev) : (s.say l).dir = s.dir := rfl
@[simp] theorem say_nextDir (s : St) (l : List Ev) : (s.say l).nextDir = s.nextDir := rfl
@[simp] theorem say_running (s : St) (l : List Ev) : (s.say l).running = s.running := rfl
@[simp] theorem say_fatal (s : St) (l : List Ev) : (s.say l).fatal = s.fatal := rfl
@[simp] theorem say_ub (s : St) (l : List Ev) : (s.say l).ub = s.ub := rfl
@[simp] theorem say_attempts (s : St) (l : List Ev) : (s.say l).attempts = s.attempts := rfl
@[simp] theorem say_temps (s : St) (l : List Ev) : (s.say l).temps = s.temps := rfl
@[simp] theorem say_active (s : St) (l : List Ev) : (s.say l).active = s.active := rfl

/-- The state after `setWorkingDirectory`. -/
def enterDir (s : St) : St := if s.nextDir.isEmpty then s else { s with dir := s.nextDir, nextDir := [] }

/-- All that a single attempt can do. -/
inductive Attempt (w : World) (o : Opts) (c : Command) (s : St) : St → Res → Prop
  | skipped (h : o.dryRun = true ∨ Comment (unescape c.cmd.line)) : Attempt w o c s (s.say (shown o c)) (.over 0)
  | cd (s' : St) (ok : Bool) (hd : o.dryRun = false) (hc : ¬ Comment (unescape c.cmd.line)) (hp : Plain (unescape c.cmd.line))
      (hw : FirstWord c!"cd" (unescape c.cmd.line))
      (h : execCd w (unescape c.cmd.line) (enterDir (s.say (shown o c))) = (s', ok)) :
      Attempt w o c s s' (.over (if ok then 0 else 1))
  | set (hd : o.dryRun = false) (hc : ¬ Comment (unescape c.cmd.line)) (hp : Plain (unescape c.cmd.line))
      (hn : ¬ FirstWord c!"cd" (unescape c.cmd.line)) (hw : FirstWord c!"set" (unescape c.cmd.line)) :
      Attempt w o c s (execSet (unescape c.cmd.line) (enterDir (s.say (shown o c)))) (.over 0)
  | direct (hd : o.dryRun = false) (hc : ¬ Comment (unescape c.cmd.line)) (hp : Plain (unescape c.cmd.line))
      (hn : ¬ FirstWord c!"cd" (unescape c.cmd.line)) (hs : ¬ FirstWord c!"set" (unescape c.cmd.line))
      (hi : ¬ Internal (unescape c.cmd.line))
      (h : w.starts s.attempts (enterDir s).dir (unescape c.cmd.line) = true) :
      Attempt w o c s
        ({ enterDir (s.say (shown o c)) with attempts := s.attempts + 1, running := true }.say
          [.run (unescape c.cmd.line) (enterDir s).dir s.env]) .running
  | shell (n : Nat) (hd : o.dryRun = false) (hc : ¬ Comment (unescape c.cmd.line))
      (hn : ¬ (Plain (unescape c.cmd.line) ∧ FirstWord c!"cd" (unescape c.cmd.line)))
      (hs : ¬ (Plain (unescape c.cmd.line) ∧ FirstWord c!"set" (unescape c.cmd.line)))
      (hw : ((¬ Plain (unescape c.cmd.line) ∨ Internal (unescape c.cmd.line)) ∧ n = s.attempts) ∨
        (Plain (unescape c.cmd.line) ∧ ¬ Internal (unescape c.cmd.line) ∧
          w.starts s.attempts (enterDir s).dir (unescape c.cmd.line) = false ∧ n = s.attempts + 1))
      (h : w.starts n (enterDir s).dir (viaShell w.comSpec (unescape c.cmd.line)) = true) :
      Attempt w o c s
        ({ enterDir (s.say (shown o c)) with attempts := n + 1, running := true }.say
          [.run (viaShell w.comSpec (unescape c.cmd.line)) (enterDir s).dir s.env]) .running
  | nothing (n : Nat) (hd : o.dryRun = false) (hc : ¬ Comment (unescape c.cmd.line))
      (hn : ¬ (Plain (unescape c.cmd.line) ∧ FirstWord c!"cd" (unescape c.cmd.line)))
      (hs : ¬ (Plain (unescape c.cmd.line) ∧ FirstWord c!"set" (unescape c.cmd.line)))
      (hw : ((¬ Plain (unescape c.cmd.line) ∨ Internal (unescape c.cmd.line)) ∧ n = s.attempts) ∨
        (Plain (unescape c.cmd.line) ∧ ¬ Internal (unescape c.cmd.line) ∧
          w.starts s.attempts (enterDir s).dir (unescape c.cmd.line) = false ∧ n = s.attempts + 1))
      (h : w.starts n (enterDir s).dir (viaShell w.comSpec (unescape c.cmd.line)) = false) :
      Attempt w o c s { enterDir (s.say (shown o c)) with attempts := n + 1 } .notStarted

theorem enterDir_say (s : St) (l : List Ev) : enterDir (s.say l) = (enterDir s).say l := by
  unfold enterDir
  by_cases h : s.nextDir.isEmpty = true <;> simp [h, St.say]

@[simp] theorem enterDir_attempts (s : St) : (enterDir s).attempts = s.attempts := by
  unfold enterDir; split <;> rfl
@[simp] theorem enterDir_env (s : St) : (enterDir s).env = s.env := by
  unfold enterDir; split <;> rfl
@[simp] theorem enterDir_temps (s : St) : (enterDir s).temps = s.temps := by
  unfold enterDir; split <;> rfl
@[simp] theorem enterDir_log (s : St) : (enterDir s).log = s.log := by
  unfold enterDir; split <;> rfl
@[simp] theorem enterDir_cmds (s : St) : (enterDir s).cmds = s.cmds := by
  unfold enterDir; split <;> rfl
@[simp] theorem enterDir_idx (s : St) : (enterDir s).idx = s.idx := by
  unfold enterDir; split <;> rfl
@[simp] theorem enterDir_running (s : St) : (enterDir s).running = s.running := by
  unfold enterDir; split <;> rfl
@[simp] theorem enterDir_fatal (s : St) : (enterDir s).fatal = s.fatal := by
  unfold enterDir; split <;> rfl
@[simp] theorem enterDir_ub (s : St) : (enterDir s).ub = s.ub := by
  unfold enterDir; split <;> rfl
@[simp] theorem enterDir_nextDir (s : St) : (enterDir s).nextDir = [] := by
  unfold enterDir
  by_cases h : s.nextDir.isEmpty = true
  · rw [if_pos h]; exact List.isEmpty_iff.1 h
  · rw [if_neg h]

theorem attempt_spec (w : World) (o : Opts) (c : Command) (s : St) :
    Attempt w o c s (attempt w o c s).1 (attempt w o c s).2 := by
  have e0 : (if (o.dryRun || (!c.cmd.silent && !o.silent)) = true then s.say [.print c.cmd.line] else s) =
      s.say (shown o c) := by
    unfold shown
    simp only [Bool.or_eq_true, Bool.and_eq_true, Bool.not_eq_true']
    split
    · rfl
    · simp [St.say]
  unfold attempt
  simp only [e0, replaceAll_unescape]
  have eD : (if (s.say (shown o c)).nextDir.isEmpty then s.say (shown o c)
      else { s.say (shown o c) with dir := (s.say (shown o c)).nextDir, nextDir := [] }) =
      enterDir (s.say (shown o c)) := rfl
  simp only [eD]
  by_cases h1 : (o.dryRun || isComment (unescape c.cmd.line)) = true
  · rw [if_pos h1]
    rw [Bool.or_eq_true, isComment_iff] at h1
    exact .skipped h1
  · rw [if_neg h1]
    rw [Bool.or_eq_true, isComment_iff, not_or] at h1
    obtain ⟨hd, hc⟩ := h1
    have hd : o.dryRun = false := by simpa using hd
    by_cases h2 : (isSimple (unescape c.cmd.line) && startsWithCommand (unescape c.cmd.line) c!"cd") = true
    · rw [if_pos h2]
      rw [Bool.and_eq_true, isSimple_iff, firstWord_iff] at h2
      exact .cd _ _ hd hc h2.1 h2.2 rfl
    · rw [if_neg h2]
      have h2' := h2
      rw [Bool.and_eq_true, isSimple_iff, firstWord_iff] at h2'
      by_cases h3 : (isSimple (unescape c.cmd.line) && startsWithCommand (unescape c.cmd.line) c!"set") = true
      · rw [if_pos h3]
        rw [Bool.and_eq_true, isSimple_iff, firstWord_iff] at h3
        exact .set hd hc h3.1 (fun h => h2' ⟨h3.1, h⟩) h3.2
      · rw [if_neg h3]
        rw [Bool.and_eq_true, isSimple_iff, firstWord_iff] at h3
        by_cases h4 : (isSimple (unescape c.cmd.line) && !startsWithShellBuiltin (unescape c.cmd.line)) = true
        · simp only [h4, if_true]
          rw [Bool.and_eq_true, isSimple_iff, Bool.not_eq_true', ← Bool.not_eq_true, builtin_iff] at h4
          by_cases h5 : w.starts s.attempts (enterDir s).dir (unescape c.cmd.line) = true
          · have : tryStart w (unescape c.cmd.line) (enterDir (s.say (shown o c))) =
                ({ enterDir (s.say (shown o c)) with attempts := s.attempts + 1, running := true }.say
                  [.run (unescape c.cmd.line) (enterDir s).dir s.env], true) := by
              unfold tryStart
              simp only [enterDir_attempts, say_attempts, enterDir_env, say_env, enterDir_say, say_dir, h5, if_true]
            simp only [this, if_true]
            exact .direct hd hc h4.1 (fun h => h2' ⟨h4.1, h⟩) (fun h => h3 ⟨h4.1, h⟩) h4.2 h5
          · have : tryStart w (unescape c.cmd.line) (enterDir (s.say (shown o c))) =
                ({ enterDir (s.say (shown o c)) with attempts := s.attempts + 1 }, false) := by
              unfold tryStart
              simp only [enterDir_attempts, say_attempts, enterDir_env, say_env, enterDir_say, say_dir, h5, Bool.false_eq_true,
                if_false]
            simp only [this, Bool.false_eq_true, if_false]
            have h5 : w.starts s.attempts (enterDir s).dir (unescape c.cmd.line) = false := by simpa using h5
            by_cases h6 : w.starts (s.attempts + 1) (enterDir s).dir (viaShell w.comSpec (unescape c.cmd.line)) = true
            · unfold tryStart
              simp only [shellLine_eq, enterDir_env, say_env, enterDir_say, say_dir, h6, if_true]
              have := Attempt.shell (w := w) (o := o) (c := c) (s := s) (s.attempts + 1) hd hc h2' h3
                (.inr ⟨h4.1, h4.2, h5, rfl⟩) h6
              simpa only [enterDir_say, say_env, say_dir, enterDir_env] using this
            · unfold tryStart
              simp only [shellLine_eq, enterDir_env, say_env, enterDir_say, say_dir, h6, Bool.false_eq_true, if_false]
              have := Attempt.nothing (w := w) (o := o) (c := c) (s := s) (s.attempts + 1) hd hc h2' h3
                (.inr ⟨h4.1, h4.2, h5, rfl⟩) (by simpa using h6)
              simpa only [enterDir_say, say_env, say_dir, enterDir_env] using this
        · simp only [h4, Bool.false_eq_true, if_false]
          have h4' : ¬ Plain (unescape c.cmd.line) ∨ Internal (unescape c.cmd.line) := by
            rw [Bool.and_eq_true, isSimple_iff, Bool.not_eq_true', ← Bool.not_eq_true, builtin_iff] at h4
            grind
          by_cases h6 : w.starts s.attempts (enterDir s).dir (viaShell w.comSpec (unescape c.cmd.line)) = true
          · unfold tryStart
            simp only [shellLine_eq, enterDir_env, say_env, enterDir_say, say_dir, enterDir_attempts, say_attempts, h6, if_true]
            have := Attempt.shell (w := w) (o := o) (c := c) (s := s) s.attempts hd hc h2' h3 (.inl ⟨h4', rfl⟩) h6
            simpa only [enterDir_say, say_env, say_dir, enterDir_env] using this
          · unfold tryStart
            simp only [shellLine_eq, enterDir_env, say_env, enterDir_say, say_dir, enterDir_attempts, say_attempts, h6,
              Bool.false_eq_true, if_false]
            have := Attempt.nothing (w := w) (o := o) (c := c) (s := s) s.attempts hd hc h2' h3 (.inl ⟨h4', rfl⟩) (by simpa using h6)
            simpa only [enterDir_say, say_env, say_dir, enterDir_env] using this

/-- `exec_cd` changes only the directory for later commands and the log. -/
theorem execCd_frame (w : World) (line : Str) (s s' : St) (ok : Bool) (h : execCd w line s = (s', ok)) :
    ∃ mid nd, s' = { s with nextDir := nd, log := s.log ++ mid } ∧ (∀ e ∈ mid, Inner e) ∧ mid.countP isRun = 0 := by
  unfold execCd at h
  simp only at h
  split at h
  · cases h; exact ⟨_, s.nextDir, rfl, by simp [Inner], by simp [isRun]⟩
  · generalize (if startsWith (toLower (trimmed (line.drop 3))) c!"/d" = true then trimmed ((trimmed (line.drop 3)).drop 3)
      else trimmed (line.drop 3)) = a at h
    split at h
    · cases h; exact ⟨[], s.nextDir, by simp, by simp, rfl⟩
    · split at h
      · cases h; exact ⟨_, s.nextDir, rfl, by simp [Inner], by simp [isRun]⟩
      · cases h; exact ⟨_, _, rfl, by simp [Inner], by simp [isRun]⟩

theorem execSet_frame (line : Str) (s : St) :
    ∃ mid env, execSet line s = { s with env := env, log := s.log ++ mid } ∧ (∀ e ∈ mid, Inner e) ∧ mid.countP isRun = 0 := by
  unfold execSet
  simp only
  split
  · exact ⟨[], s.env, by simp, by simp, rfl⟩
  · exact ⟨_, _, rfl, by simp [Inner], by simp [isRun]⟩

theorem shown_inner (o : Opts) (c : Command) : (∀ e ∈ shown o c, Inner e) ∧ (shown o c).countP isRun = 0 := by
  unfold shown
  split <;> simp [Inner, isRun]

/-- What an attempt leaves alone, and what it says. -/
structure Attempted (w : World) (c : Command) (s s' : St) (r : Res) (mid : List Ev) : Prop where
  log : s'.log = s.log ++ mid
  cmds : s'.cmds = s.cmds
  idx : s'.idx = s.idx
  fatal : s'.fatal = s.fatal
  ub : s'.ub = s.ub
  running : r = .running → s'.running = true ∧ OneProcess mid
  over : ∀ code, r = .over code → s'.running = s.running ∧ NoProcess w c mid code
  not : r = .notStarted → s'.running = s.running ∧ NoProcess w c mid 2

theorem attempted {w : World} {o : Opts} {c : Command} {s s' : St} {r : Res} (h : Attempt w o c s s' r) :
    ∃ mid, Attempted w c s s' r mid := by
  obtain ⟨i1, i2⟩ := shown_inner o c
  cases h with
  | skipped h =>
    refine ⟨shown o c, rfl, rfl, rfl, rfl, rfl, by simp, ?_, by simp⟩
    intro code e
    cases e
    exact ⟨rfl, i1, i2, .inl rfl⟩
  | cd _ ok hd hc hp hw h =>
    obtain ⟨mid, nd, rfl, m1, m2⟩ := execCd_frame _ _ _ _ _ h
    refine ⟨shown o c ++ mid, by simp, by simp, by simp, by simp, by simp, by simp, ?_, by simp⟩
    intro code e
    cases e
    refine ⟨by simp, ?_, by simp [i2, m2], ?_⟩
    · intro e he; rcases List.mem_append.1 he with he | he
      · exact i1 e he
      · exact m1 e he
    · cases ok
      · exact .inr (.inl ⟨rfl, hw⟩)
      · exact .inl rfl
  | set hd hc hp hn hw =>
    obtain ⟨mid, env, e1, m1, m2⟩ := execSet_frame (unescape c.cmd.line) (enterDir (s.say (shown o c)))
    rw [e1]
    refine ⟨shown o c ++ mid, by simp, by simp, by simp, by simp, by simp, by simp, ?_, by simp⟩
    intro code e
    cases e
    refine ⟨by simp, ?_, by simp [i2, m2], .inl rfl⟩
    intro e he; rcases List.mem_append.1 he with he | he
    · exact i1 e he
    · exact m1 e he
  | direct hd hc hp hn hs hi h =>
    refine ⟨shown o c ++ [.run (unescape c.cmd.line) (enterDir s).dir s.env], by simp, by simp, by simp, by simp, by simp, ?_,
      by simp, by simp⟩
    intro _
    refine ⟨rfl, ?_, by simp [i2, isRun]⟩
    intro e he; rcases List.mem_append.1 he with he | he
    · exact i1 e he
    · rw [List.mem_singleton.1 he]; trivial
  | shell n hd hc hn hs hw h =>
    refine ⟨shown o c ++ [.run (viaShell w.comSpec (unescape c.cmd.line)) (enterDir s).dir s.env], by simp, by simp, by simp,
      by simp, by simp, ?_, by simp, by simp⟩
    intro _
    refine ⟨rfl, ?_, by simp [i2, isRun]⟩
    intro e he; rcases List.mem_append.1 he with he | he
    · exact i1 e he
    · rw [List.mem_singleton.1 he]; trivial
  | nothing n hd hc hn hs hw h =>
    refine ⟨shown o c, by simp, by simp, by simp, by simp, by simp, by simp, by simp, ?_⟩
    intro _
    exact ⟨by simp, i1, i2, .inr (.inr ⟨rfl, _, _, h⟩)⟩

/-! ### All commands -/

/-- The process of the executor ends several times. -/
def ends (w : World) (o : Opts) (codes : List Nat) (s : St) : St := codes.foldl (fun s x => processEnded w o x s) s

theorem ends_idle (w : World) (o : Opts) (codes : List Nat) : ∀ s : St, s.running = false → ends w o codes s = s := by
  induction codes with
  | nil => intro s _; rfl
  | cons x codes ih =>
    intro s h
    have : processEnded w o x s = s := by unfold processEnded; rw [if_pos (by simp [h])]
    show ends w o codes (processEnded w o x s) = s
    rw [this, ih s h]

/-- `onProcessFinished` and what follows, given what happens with the later commands. -/
theorem onFinished_trace (w : World) (o : Opts) (c : Command) (later : List Command) (code : Nat) (codes : List Nat) (s : St)
    (hr : s.running = false)
    (ih : later ≠ [] → ∀ s : St, s.running = false →
      ∃ t, (ends w o codes (execute w o later s)).log = s.log ++ t ∧ Trace w s.idx later (codes.filter (· ≠ 259)) t) :
    ∃ t, (ends w o codes (onFinished c later code (execute w o later) s)).log = s.log ++ t ∧
      ((c.cmd.maxExitCode < code ∧ t = [.ended s.idx code, .error [], .finished true]) ∨
       (code ≤ c.cmd.maxExitCode ∧ later = [] ∧ t = [.ended s.idx code, .finished false]) ∨
       (code ≤ c.cmd.maxExitCode ∧ later ≠ [] ∧
          ∃ t', t = .ended s.idx code :: t' ∧ Trace w (s.idx + 1) later (codes.filter (· ≠ 259)) t')) := by
  unfold onFinished
  simp only
  by_cases h : code > c.cmd.maxExitCode
  · rw [if_pos h, ends_idle _ _ _ _ (by simp [finish, hr])]
    exact ⟨_, by simp [finish], .inl ⟨h, rfl⟩⟩
  · rw [if_neg h]
    by_cases hl : later = []
    · subst hl
      simp only [List.isEmpty_nil, if_true]
      rw [ends_idle _ _ _ _ (by simp [finish, hr])]
      exact ⟨_, by simp [finish], .inr (.inl ⟨by omega, trivial, rfl⟩)⟩
    · have : later.isEmpty = false := by cases later <;> simp_all
      simp only [this, Bool.false_eq_true, if_false]
      obtain ⟨t, h1, h2⟩ := ih hl { s.say [.ended s.idx code] with idx := s.idx + 1 } hr
      exact ⟨_, by simpa using h1, .inr (.inr ⟨by omega, hl, t, rfl, h2⟩)⟩

theorem onFinished_step {w : World} {c : Command} {later : List Command} {codes codes' : List Nat} {mid t : List Ev} {code i : Nat}
    (hs : Step w c codes mid code codes')
    (h : (c.cmd.maxExitCode < code ∧ t = [.ended i code, .error [], .finished true]) ∨
       (code ≤ c.cmd.maxExitCode ∧ later = [] ∧ t = [.ended i code, .finished false]) ∨
       (code ≤ c.cmd.maxExitCode ∧ later ≠ [] ∧ ∃ t', t = .ended i code :: t' ∧ Trace w (i + 1) later codes' t')) :
    Trace w i (c :: later) codes (.begin i :: (mid ++ t)) := by
  rcases h with ⟨h1, rfl⟩ | ⟨h1, rfl, rfl⟩ | ⟨h1, h2, t', rfl, h3⟩
  · exact .fails hs h1
  · exact .last hs h1
  · exact .next hs h1 h2 h3

theorem ends_fatal (w : World) (o : Opts) (codes : List Nat) (s : St) :
    (ends w o codes (if s.running then s else { s with fatal := true })).log = (ends w o codes s).log := by
  by_cases h : s.running = true
  · rw [if_pos h]
  · rw [if_neg h]
    have h : s.running = false := by simpa using h
    rw [ends_idle _ _ _ _ h, ends_idle _ _ _ { s with fatal := true } h]

theorem execute_cons (w : World) (o : Opts) (c : Command) (later : List Command) (s : St) :
    execute w o (c :: later) s =
      match attempt w o c ({ s with cmds := c :: later }.say [.begin s.idx]) with
      | (s, .over code) => onFinished c later code (execute w o later) s
      | (s, .running) => s
      | (s, .notStarted) =>
        if (onFinished c later 2 (execute w o later) s).running then onFinished c later 2 (execute w o later) s
        else { onFinished c later 2 (execute w o later) s with fatal := true } := rfl

theorem execute_trace (w : World) (o : Opts) : ∀ (cmds : List Command), cmds ≠ [] → ∀ (s : St) (codes : List Nat),
    s.running = false →
    ∃ t, (ends w o codes (execute w o cmds s)).log = s.log ++ t ∧ Trace w s.idx cmds (codes.filter (· ≠ 259)) t := by
  intro cmds
  induction cmds with
  | nil => intro h; exact absurd rfl h
  | cons c later ih =>
    intro _ s codes hr
    have ih' : ∀ codes, later ≠ [] → ∀ s : St, s.running = false →
        ∃ t, (ends w o codes (execute w o later s)).log = s.log ++ t ∧ Trace w s.idx later (codes.filter (· ≠ 259)) t :=
      fun codes hl s hr => ih hl s codes hr
    obtain ⟨mid, ha⟩ := attempted (attempt_spec w o c ({ s with cmds := c :: later }.say [.begin s.idx]))
    rw [execute_cons]
    generalize attempt w o c ({ s with cmds := c :: later }.say [.begin s.idx]) = res at ha ⊢
    obtain ⟨s1, r⟩ := res
    simp only at ha
    have hlog : s1.log = s.log ++ .begin s.idx :: mid := by rw [ha.log]; simp
    have hidx : s1.idx = s.idx := by rw [ha.idx]; rfl
    cases r with
    | over code =>
      obtain ⟨r1, r2⟩ := ha.over code rfl
      obtain ⟨t, h1, h2⟩ := onFinished_trace w o c later code codes s1 (by rw [r1]; exact hr) (ih' codes)
      rw [hidx] at h2
      refine ⟨.begin s.idx :: (mid ++ t), ?_, onFinished_step (.builtin r2) h2⟩
      simp only [h1, hlog]; simp
    | notStarted =>
      obtain ⟨r1, r2⟩ := ha.not rfl
      obtain ⟨t, h1, h2⟩ := onFinished_trace w o c later 2 codes s1 (by rw [r1]; exact hr) (ih' codes)
      rw [hidx] at h2
      refine ⟨.begin s.idx :: (mid ++ t), ?_, onFinished_step (.builtin r2) h2⟩
      simp only [ends_fatal, h1, hlog]; simp
    | running =>
      obtain ⟨r1, r2⟩ := ha.running rfl
      have hcmds : s1.cmds = c :: later := by rw [ha.cmds]; rfl
      simp only
      clear ha
      induction codes with
      | nil =>
        exact ⟨.begin s.idx :: mid, by simp [ends, hlog], .waiting r2⟩
      | cons x codes ihc =>
        by_cases hx : x = 259
        · subst hx
          have e : ends w o (259 :: codes) s1 = ends w o codes s1 := by
            show ends w o codes (processEnded w o 259 s1) = _
            unfold processEnded
            rw [if_pos (by simp)]
          rw [e]
          simpa using ihc
        · have e : ends w o (x :: codes) s1 =
              ends w o codes (onFinished c later (effectiveCode x) (execute w o later) { s1 with running := false }) := by
            show ends w o codes (processEnded w o x s1) = _
            unfold processEnded
            rw [if_neg (by simp [r1, hx]), hcmds]
          have hf : (x :: codes).filter (· ≠ 259) = x :: codes.filter (· ≠ 259) := by simp [hx]
          rw [e, hf]
          obtain ⟨t, h1, h2⟩ := onFinished_trace w o c later (effectiveCode x) codes { s1 with running := false } rfl (ih' codes)
          have hidx' : ({ s1 with running := false } : St).idx = s.idx := hidx
          rw [hidx'] at h2
          refine ⟨.begin s.idx :: (mid ++ t), ?_, onFinished_step (.process r2 (effectiveCode_of x)) h2⟩
          rw [h1]
          show s1.log ++ t = _
          rw [hlog]; simp

/-! ### Invariants -/

/-- Events that say nothing about directories and environments. -/
def Quiet : Ev → Prop
  | .run _ _ _ | .chdir _ | .assign _ _ => False
  | _ => True

/-- What a property of states must satisfy to be preserved by everything an executor does. -/
structure Kept (w : World) (P : St → Prop) : Prop where
  same : ∀ s s' : St, s'.log = s.log → s'.env = s.env → s'.dir = s.dir → s'.nextDir = s.nextDir → s'.temps = s.temps →
    P s → P s'
  quiet : ∀ s e, Quiet e → P s → P (s.say [e])
  enter : ∀ s, P s → P (enterDir s)
  chdir : ∀ s a p, w.abs a = some p → P s → P ({ s with nextDir := p }.say [.chdir p])
  assign : ∀ s n v, P s → P ({ s with env := envSet n v s.env }.say [.assign n v])
  run : ∀ s line, s.nextDir = [] → P s → P (s.say [.run line s.dir s.env])

theorem Kept.to {w : World} {P : St → Prop} (k : Kept w P) {s : St} (h : P s) {s' : St} (h1 : s'.log = s.log) (h2 : s'.env = s.env)
    (h3 : s'.dir = s.dir) (h4 : s'.nextDir = s.nextDir) (h5 : s'.temps = s.temps) : P s' :=
  k.same s s' h1 h2 h3 h4 h5 h

theorem kept_execCd {w : World} {P : St → Prop} (k : Kept w P) (line : Str) (s : St) (h : P s) : P (execCd w line s).1 := by
  unfold execCd
  simp only
  split
  · exact k.quiet _ _ trivial h
  · generalize (if startsWith (toLower (trimmed (line.drop 3))) c!"/d" = true then trimmed ((trimmed (line.drop 3)).drop 3)
      else trimmed (line.drop 3)) = a
    split
    · exact h
    · split
      · exact k.quiet _ _ trivial h
      · rename_i hp
        exact k.chdir _ _ _ hp h

theorem kept_execSet {w : World} {P : St → Prop} (k : Kept w P) (line : Str) (s : St) (h : P s) : P (execSet line s) := by
  unfold execSet
  simp only
  split
  · exact h
  · exact k.assign _ _ _ h

theorem kept_attempt {w : World} {P : St → Prop} (k : Kept w P) {o : Opts} {c : Command} {s s' : St} {r : Res}
    (h : Attempt w o c s s' r) (hp : P s) : P s' := by
  have h0 : P (s.say (shown o c)) := by
    unfold shown
    split
    · exact k.quiet _ _ trivial hp
    · exact k.same s _ (by simp) rfl rfl rfl rfl hp
  cases h with
  | skipped h => exact h0
  | cd _ ok hd hc hp hw h =>
    have := kept_execCd k (unescape c.cmd.line) _ (k.enter _ h0)
    rw [h] at this
    exact this
  | set => exact kept_execSet k _ _ (k.enter _ h0)
  | direct =>
    have h1 := k.run _ (unescape c.cmd.line) (by simp) (k.enter _ h0)
    exact k.same _ _ (by simp [enterDir_say]) (by simp) (by simp) (by simp) (by simp) h1
  | shell n =>
    have h1 := k.run _ (viaShell w.comSpec (unescape c.cmd.line)) (by simp) (k.enter _ h0)
    exact k.same _ _ (by simp [enterDir_say]) (by simp) (by simp) (by simp) (by simp) h1
  | nothing n => exact k.to (k.enter _ h0) rfl rfl rfl rfl rfl

theorem kept_onFinished {w : World} {P : St → Prop} (k : Kept w P) (c : Command) (later : List Command) (code : Nat)
    (f : St → St) (hf : ∀ s, P s → P (f s)) (s : St) (h : P s) : P (onFinished c later code f s) := by
  unfold onFinished finish
  simp only
  have h1 := k.quiet s (.ended s.idx code) trivial h
  split
  · have h2 := k.quiet _ (.error []) trivial h1
    exact k.quiet _ _ trivial (k.to h2 rfl rfl rfl rfl rfl)
  · split
    · exact k.quiet _ _ trivial (k.to h1 rfl rfl rfl rfl rfl)
    · exact hf _ (k.to h1 rfl rfl rfl rfl rfl)

theorem kept_execute {w : World} {P : St → Prop} (k : Kept w P) (o : Opts) :
    ∀ (cmds : List Command) (s : St), P s → P (execute w o cmds s) := by
  intro cmds
  induction cmds with
  | nil => intro s h; exact k.to h rfl rfl rfl rfl rfl
  | cons c later ih =>
    intro s h
    rw [execute_cons]
    have ha := attempt_spec w o c ({ s with cmds := c :: later }.say [.begin s.idx])
    have h0 : P ({ s with cmds := c :: later }.say [.begin s.idx]) :=
      k.quiet _ _ trivial (k.to h rfl rfl rfl rfl rfl)
    have h1 := kept_attempt k ha h0
    generalize attempt w o c ({ s with cmds := c :: later }.say [.begin s.idx]) = res at h1 ⊢
    obtain ⟨s1, r⟩ := res
    simp only at h1
    cases r with
    | over code => exact kept_onFinished k _ _ _ _ ih _ h1
    | running => exact h1
    | notStarted =>
      have h2 := kept_onFinished k c later 2 _ ih _ h1
      simp only
      split
      · exact h2
      · exact k.to h2 rfl rfl rfl rfl rfl

theorem kept_processEnded {w : World} {P : St → Prop} (k : Kept w P) (o : Opts) (x : Nat) (s : St) (h : P s) :
    P (processEnded w o x s) := by
  unfold processEnded
  split
  · exact h
  · split
    · exact k.to h rfl rfl rfl rfl rfl
    · exact kept_onFinished k _ _ _ _ (kept_execute k o _) _ (k.to h rfl rfl rfl rfl rfl)

theorem kept_ends {w : World} {P : St → Prop} (k : Kept w P) (o : Opts) (codes : List Nat) : ∀ (s : St), P s → P (ends w o codes s) := by
  induction codes with
  | nil => intro s h; exact h
  | cons x codes ih => intro s h; exact ih _ (kept_processEnded k o x s h)

theorem lastDir_snoc (l : List Ev) (e : Ev) : lastDir (l ++ [e]) = (match e with | .chdir x => x | _ => lastDir l) := by
  simp only [lastDir, List.foldl_append, List.foldl_cons, List.foldl_nil]
  cases e <;> rfl

theorem envAfter_append (env : List (Str × Str)) (a b : List Ev) : envAfter env (a ++ b) = envAfter (envAfter env a) b := by
  simp [envAfter]

/-- A property of every `run` and what is before it, after one more event. -/
theorem runs_snoc {P : List Ev → Str → Str → List (Str × Str) → Prop} {l : List Ev} {x : Ev}
    (h : ∀ pre line d e post, l = pre ++ .run line d e :: post → P pre line d e)
    (hx : ∀ line d e, x = .run line d e → P l line d e) :
    ∀ pre line d e post, l ++ [x] = pre ++ .run line d e :: post → P pre line d e := by
  intro pre line d e post he
  rcases List.eq_nil_or_concat post with rfl | ⟨post', y, rfl⟩
  · obtain ⟨h1, h2⟩ := List.append_inj' he (by simp)
    subst h1
    simp only [List.cons.injEq, and_true] at h2
    exact hx _ _ _ h2
  · rw [show pre ++ Ev.run line d e :: post'.concat y = (pre ++ Ev.run line d e :: post') ++ [y] by simp] at he
    obtain ⟨h1, _⟩ := List.append_inj' he rfl
    exact h _ _ _ _ _ h1

/-- The directory of the next command. -/
def curDir (s : St) : Str := if s.nextDir.isEmpty then s.dir else s.nextDir

theorem kept_dir (w : World) (habs : ∀ a p, w.abs a = some p → p ≠ []) :
    Kept w fun s => lastDir s.log = curDir s ∧ DirLog s.log where
  same := by
    intro s s' h1 h2 h3 h4 _ h
    unfold curDir
    rw [h1, h3, h4]; exact h
  quiet := by
    intro s e he h
    refine ⟨?_, runs_snoc h.2 ?_⟩
    · rw [say_log, lastDir_snoc]
      cases e <;> first | exact h.1 | exact absurd he id
    · intro line d e1 e2; subst e2; exact absurd he id
  enter := by
    intro s h
    refine ⟨?_, ?_⟩
    · rw [enterDir_log, h.1]
      unfold curDir
      rw [enterDir_nextDir]
      simp only [List.isEmpty_nil, if_true]
      unfold enterDir
      split <;> rfl
    · rw [enterDir_log]; exact h.2
  chdir := by
    intro s a p hp h
    refine ⟨?_, runs_snoc h.2 ?_⟩
    · rw [say_log, lastDir_snoc]
      unfold curDir
      have : p.isEmpty = false := by
        have := habs _ _ hp
        cases p <;> simp_all
      simp [this]
    · intro line d e1 e2; cases e2
  assign := by
    intro s n v h
    refine ⟨?_, runs_snoc h.2 ?_⟩
    · rw [say_log, lastDir_snoc]; exact h.1
    · intro line d e1 e2; cases e2
  run := by
    intro s line hn h
    have hc : curDir s = s.dir := by simp [curDir, hn]
    refine ⟨?_, runs_snoc h.2 ?_⟩
    · rw [say_log, lastDir_snoc]; exact h.1
    · intro line d e1 e2; cases e2
      rw [h.1, hc]

theorem kept_env (w : World) (env : List (Str × Str)) (l0 : List Ev) :
    Kept w fun s => ∃ new, s.log = l0 ++ new ∧ s.env = envAfter env new ∧ EnvLog env new where
  same := by
    intro s s' h1 h2 h3 h4 _ ⟨new, h⟩
    exact ⟨new, by rw [h1, h2]; exact h⟩
  quiet := by
    rintro s e he ⟨new, h1, h2, h3⟩
    refine ⟨new ++ [e], by simp [h1], ?_, runs_snoc h3 ?_⟩
    · rw [envAfter_append, say_env, h2]
      cases e <;> first | rfl | exact absurd he id
    · intro line d e1 e2; subst e2; exact absurd he id
  enter := by
    rintro s ⟨new, h⟩
    exact ⟨new, by simpa using h⟩
  chdir := by
    rintro s a p hp ⟨new, h1, h2, h3⟩
    refine ⟨new ++ [.chdir p], by simp [h1], ?_, runs_snoc h3 ?_⟩
    · rw [envAfter_append, say_env]; exact h2
    · intro line d e1 e2; cases e2
  assign := by
    rintro s n v ⟨new, h1, h2, h3⟩
    refine ⟨new ++ [.assign n v], by simp [h1], ?_, runs_snoc h3 ?_⟩
    · rw [envAfter_append, say_env]
      show envSet n v s.env = _
      rw [h2]; rfl
    · intro line d e1 e2; cases e2
  run := by
    rintro s line hn ⟨new, h1, h2, h3⟩
    refine ⟨new ++ [.run line s.dir s.env], by simp [h1], ?_, runs_snoc h3 ?_⟩
    · rw [envAfter_append, say_env]; exact h2
    · intro line d e1 e2; cases e2; exact h2

/-- Executing commands does not change the list of temporary files. -/
theorem kept_temps (w : World) (l : List (Str × Bool)) : Kept w fun s => s.temps = l where
  same := fun _ _ _ _ _ _ h5 h => h5.trans h
  quiet := fun _ _ _ h => h
  enter := fun s h => (enterDir_temps s).trans h
  chdir := fun _ _ _ _ h => h
  assign := fun _ _ _ h => h
  run := fun _ _ _ h => h

end Jom.Exec
