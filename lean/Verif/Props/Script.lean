/-
The recipe of a target as a script: C87.
-/
import Verif.Spec.Script
import Verif.Props.CommandExec
import Verif.Props.FileMacros
import Verif.Props.InlineFiles

namespace Jom.Props
open Jom.Exec Spec.Exec
open Inference (Command InlineFile)

/-- How the execution of commands ends: `none` = a process is running. -/
def EndsAs (s : St) (new : List Ev) : Option Bool → Prop
  | none => s.running = true ∧ s.active = true
  | some b => s.running = false ∧ s.active = false ∧ new.getLast? = some (.finished b)

theorem seen_append (a b : List Ev) : seen (a ++ b) = seen a ++ seen b := by simp [seen]

theorem seen_shown (o : Opts) (hd : o.dryRun = false) (c : Command) : seen (shown o c) = echo o.silent c := by
  unfold shown echo seen
  cases h1 : c.cmd.silent <;> cases h2 : o.silent <;> simp [hd]

theorem endsAs_append {s : St} {a b : List Ev} {r : Option Bool} (h : EndsAs s b r) : EndsAs s (a ++ b) r := by
  cases r with
  | none => exact h
  | some x =>
    obtain ⟨h1, h2, h3⟩ := h
    refine ⟨h1, h2, ?_⟩
    rw [List.getLast?_append, h3]; rfl

/-- What is to be shown for a list of commands. -/
def ScriptOk (w : World) (o : Opts) (cs : List Command) (codes : List Nat) (s : St) : Prop :=
  ∃ new r, (ends w o codes (execute w o cs s)).log = s.log ++ new ∧ EndsAs (ends w o codes (execute w o cs s)) new r ∧
    Script w o.silent (curDir s) s.env cs (codes.filter (· ≠ 259)) (seen new) r

theorem onFinished_script (w : World) (o : Opts) (c : Command) (later : List Command) (code : Nat) (codes : List Nat) (s : St)
    (hr : s.running = false) (ha : s.active = true)
    (ih : later ≠ [] → ∀ s : St, s.running = false → s.active = true → ScriptOk w o later codes s) :
    ∃ new r, (ends w o codes (onFinished c later code (execute w o later) s)).log = s.log ++ new ∧
      EndsAs (ends w o codes (onFinished c later code (execute w o later) s)) new r ∧
      ((c.cmd.maxExitCode < code ∧ seen new = [] ∧ r = some true) ∨
       (code ≤ c.cmd.maxExitCode ∧ Script w o.silent (curDir s) s.env later (codes.filter (· ≠ 259)) (seen new) r)) := by
  unfold onFinished
  simp only
  by_cases h : code > c.cmd.maxExitCode
  · rw [if_pos h, ends_idle _ _ _ _ (by simp [finish, hr])]
    exact ⟨[.ended s.idx code, .error [], .finished true], some true, by simp [finish, St.say], ⟨by simp [finish, St.say, hr], by simp [finish, St.say], rfl⟩,
      .inl ⟨h, rfl, rfl⟩⟩
  · rw [if_neg h]
    by_cases hl : later = []
    · subst hl
      simp only [List.isEmpty_nil, if_true]
      rw [ends_idle _ _ _ _ (by simp [finish, hr])]
      exact ⟨[.ended s.idx code, .finished false], some false, by simp [finish, St.say], ⟨by simp [finish, St.say, hr], by simp [finish, St.say], rfl⟩,
        .inr ⟨by omega, .done⟩⟩
    · have : later.isEmpty = false := by cases later <;> simp_all
      simp only [this, Bool.false_eq_true, if_false]
      obtain ⟨new, r, h1, h2, h3⟩ := ih hl { s.say [.ended s.idx code] with idx := s.idx + 1 } hr ha
      refine ⟨.ended s.idx code :: new, r, by simpa [St.say] using h1, endsAs_append (a := [.ended s.idx code]) h2, .inr ⟨by omega, ?_⟩⟩
      rw [show (Ev.ended s.idx code :: new) = [Ev.ended s.idx code] ++ new from rfl, seen_append]
      exact h3

theorem says_drop {word line rest : Str} (h : Says word line rest) : line.drop (word.length + 1) = rest := by
  obtain ⟨u, b, rfl, _, rfl⟩ := h
  have : (toLower u).length = u.length := by simp [toLower]
  rw [this, show u ++ b :: rest = (u ++ [b]) ++ rest by simp, List.drop_left' (by simp)]

theorem says_firstWord {word line rest : Str} (h : Says word line rest) : FirstWord word line := by
  obtain ⟨u, b, h1, h2, h3⟩ := h
  exact ⟨u, b, rest, h1, h2, h3⟩

theorem firstWord_says {word line : Str} (h : FirstWord word line) : ∃ rest, Says word line rest := by
  obtain ⟨u, b, rest, h1, h2, h3⟩ := h
  exact ⟨rest, u, b, h1, h2, h3⟩

theorem execCd_asks {w : World} {line : Str} (s : St) (h : AsksDir line) :
    execCd w line s = (s.say [.print (if s.dir = [] then w.cwd else s.dir)], true) := by
  obtain ⟨rest, h1, h2⟩ := h
  have := says_drop h1
  unfold execCd
  rw [show (3 : Nat) = (c!"cd").length + 1 from rfl, this, h2]
  simp

theorem execCd_says {w : World} {line d : Str} (s : St) (h : SaysCd line d) :
    execCd w line s = (match w.abs d with
      | none => (s.say [.error d], false)
      | some p => ({ s with nextDir := p }.say [.chdir p], true)) := by
  obtain ⟨rest, h1, h2⟩ := h
  exact execCd_arg (says_drop h1) h2

theorem execSet_says {line n v : Str} (s : St) (h : SaysSet line n v) :
    execSet line s = { s with env := envSet n v s.env }.say [.assign n v] := by
  obtain ⟨rest, h1, h2, h3⟩ := h
  have := says_drop h1
  unfold execSet
  rw [show (4 : Nat) = (c!"set").length + 1 from rfl, this, h2]
  simp only
  rw [indexOf?_char h3]
  simp

theorem execSet_asks {line : Str} (s : St) (h : AsksVariable line) : execSet line s = s := by
  obtain ⟨rest, h1, h2⟩ := h
  have := says_drop h1
  unfold execSet
  rw [show (4 : Nat) = (c!"set").length + 1 from rfl, this]
  simp only
  rw [indexOf?_char_none h2]

theorem set_cases {line : Str} (h : FirstWord c!"set" line) : (∃ n v, SaysSet line n v) ∨ AsksVariable line := by
  obtain ⟨rest, hr⟩ := firstWord_says h
  by_cases he : '=' ∈ trimmed rest
  · obtain ⟨n, v, h1, h2⟩ := List.eq_append_cons_of_mem he
    exact .inl ⟨n, v, rest, hr, h1, h2⟩
  · exact .inr ⟨rest, hr, he⟩

theorem curDir_say (s : St) (l : List Ev) : curDir (s.say l) = curDir s := rfl

theorem curDir_enterDir (s : St) : curDir (enterDir s) = curDir s := by
  unfold enterDir curDir
  by_cases h : s.nextDir.isEmpty = true <;> simp [h]

/-- The executor carries out the script. -/
theorem execute_script (w : World) (o : Opts) (hd : o.dryRun = false) (habs : ∀ a p, w.abs a = some p → p ≠ [])
    (hsh : ∀ n d l, w.starts n d (viaShell w.comSpec l) = true) :
    ∀ (cmds : List Command), cmds ≠ [] → CdsFine cmds → ∀ (s : St) (codes : List Nat), s.running = false → s.active = true →
      ScriptOk w o cmds codes s := by
  intro cmds
  induction cmds with
  | nil => intro h; exact absurd rfl h
  | cons c later ih =>
    intro _ hcd s codes hr hact
    have ih' : ∀ codes, later ≠ [] → ∀ s : St, s.running = false → s.active = true → ScriptOk w o later codes s :=
      fun codes hl s hr ha => ih hl (fun c hc => hcd c (by simp [hc])) s codes hr ha
    have fin : ∀ (s1 : St) (mid : List Ev) (code : Nat) (codes codes0 : List Nat), s1.log = s.log ++ mid → s1.running = false →
        s1.active = true →
        (code ≤ c.cmd.maxExitCode → ∀ out r, Script w o.silent (curDir s1) s1.env later (codes.filter (· ≠ 259)) out r →
          Script w o.silent (curDir s) s.env (c :: later) codes0 (seen mid ++ out) r) →
        (c.cmd.maxExitCode < code → Script w o.silent (curDir s) s.env (c :: later) codes0 (seen mid) (some true)) →
        ∃ new r, (ends w o codes (onFinished c later code (execute w o later) s1)).log = s.log ++ new ∧
          EndsAs (ends w o codes (onFinished c later code (execute w o later) s1)) new r ∧
          Script w o.silent (curDir s) s.env (c :: later) codes0 (seen new) r := by
      intro s1 mid code codes codes0 hlog hrun ha1 hok hfail
      obtain ⟨new, r, h1, h2, h3⟩ := onFinished_script w o c later code codes s1 hrun ha1 (ih' codes)
      refine ⟨mid ++ new, r, by rw [h1, hlog]; simp, endsAs_append h2, ?_⟩
      rw [seen_append]
      rcases h3 with ⟨h3, h4, h5⟩ | ⟨h3, h4⟩
      · rw [h4, h5, List.append_nil]; exact hfail h3
      · exact hok h3 _ _ h4
    -- a process has been started
    have proc : ∀ (s1 : St) (p : Str), s1.log = s.log ++ .begin s.idx :: (shown o c ++ [.run p (curDir s) s.env]) → s1.running = true →
        s1.active = true → s1.cmds = c :: later → curDir s1 = curDir s → s1.env = s.env →
        ¬ Comment (unescape c.cmd.line) → ¬ Own (unescape c.cmd.line) → ProcessOf w (curDir s) (unescape c.cmd.line) p →
        ∃ new r, (ends w o codes s1).log = s.log ++ new ∧ EndsAs (ends w o codes s1) new r ∧
          Script w o.silent (curDir s) s.env (c :: later) (codes.filter (· ≠ 259)) (seen new) r := by
      intro s1 p hlog hrun ha1 hcmds hdir henv hc ho hp
      have hseen : seen (.begin s.idx :: (shown o c ++ [.run p (curDir s) s.env])) = echo o.silent c ++ [.run p (curDir s) s.env] := by
        rw [show (Ev.begin s.idx :: (shown o c ++ [Ev.run p (curDir s) s.env])) = [Ev.begin s.idx] ++ (shown o c ++ [Ev.run p (curDir s) s.env]) from rfl,
          seen_append, seen_append, seen_shown o hd]
        rfl
      induction codes with
      | nil => exact ⟨_, none, hlog, ⟨hrun, ha1⟩, by rw [hseen]; exact .waits hc ho hp⟩
      | cons x codes ihc =>
        by_cases hx : x = 259
        · subst hx
          have e : ends w o (259 :: codes) s1 = ends w o codes s1 := by
            show ends w o codes (processEnded w o 259 s1) = _
            unfold processEnded
            rw [if_pos (by simp)]
          rw [e]
          simpa using ihc
        · have e : ends w o (x :: codes) s1 =
              ends w o codes (onFinished c later (effectiveCode x) (execute w o later) { s1 with running := false }) := by
            show ends w o codes (processEnded w o x s1) = _
            unfold processEnded
            rw [if_neg (by simp [hrun, hx]), hcmds]
          have hf : (x :: codes).filter (· ≠ 259) = x :: codes.filter (· ≠ 259) := by simp [hx]
          rw [e, hf]
          apply fin { s1 with running := false } _ (effectiveCode x) codes _ hlog rfl ha1
          · intro hle out r hs
            have hdir' : curDir { s1 with running := false } = curDir s := hdir
            rw [hdir', show ({ s1 with running := false } : St).env = s.env from henv] at hs
            rw [hseen, List.append_assoc]
            exact .process hc ho hp (effectiveCode_of x) hle hs
          · intro hlt
            rw [hseen]
            exact .processFails hc ho hp (effectiveCode_of x) hlt
    unfold ScriptOk
    rw [execute_cons]
    have ha := attempt_spec w o c ({ s with cmds := c :: later }.say [.begin s.idx])
    have hcur : (enterDir ({ s with cmds := c :: later }.say [.begin s.idx])).dir = curDir s := by rw [enterDir_dir]; rfl
    have hcur' : curDir (({ s with cmds := c :: later } : St).say [.begin s.idx]) = curDir s := rfl
    generalize hx : attempt w o c ({ s with cmds := c :: later }.say [.begin s.idx]) = res at ha ⊢
    obtain ⟨s1, r⟩ := res
    simp only at ha
    have hseen0 : ∀ l, seen (.begin s.idx :: (shown o c ++ l)) = echo o.silent c ++ seen l := by
      intro l
      rw [show (Ev.begin s.idx :: (shown o c ++ l)) = [Ev.begin s.idx] ++ (shown o c ++ l) from rfl, seen_append, seen_append, seen_shown o hd]
      rfl
    have hseen1 : seen (.begin s.idx :: shown o c) = echo o.silent c := by
      have := hseen0 []
      simpa [seen] using this
    generalize hs0 : (({ s with cmds := c :: later } : St).say [.begin s.idx]) = s0 at ha hcur hcur'
    have l0 : s0.log = s.log ++ [.begin s.idx] := by rw [← hs0]; rfl
    have r0 : s0.running = false := by rw [← hs0]; exact hr
    have a0 : s0.active = true := by rw [← hs0]; exact hact
    have c0 : s0.cmds = c :: later := by rw [← hs0]; rfl
    have e0 : s0.env = s.env := by rw [← hs0]; rfl
    -- after the line has been shown and the directory has been entered
    have l1 : (enterDir (s0.say (shown o c))).log = s.log ++ .begin s.idx :: shown o c := by simp [l0]
    have r1 : (enterDir (s0.say (shown o c))).running = false := by simp [r0]
    have a1 : (enterDir (s0.say (shown o c))).active = true := by
      have : ∀ x : St, (enterDir x).active = x.active := by intro x; unfold enterDir; split <;> rfl
      rw [this]; exact a0
    have c1 : (enterDir (s0.say (shown o c))).cmds = c :: later := by simp [c0]
    have e1 : (enterDir (s0.say (shown o c))).env = s.env := by simp [e0]
    have d1 : curDir (enterDir (s0.say (shown o c))) = curDir s := by rw [curDir_enterDir, curDir_say, hcur']
    have n1 : (enterDir (s0.say (shown o c))).nextDir = [] := by
      have : ∀ x : St, (enterDir x).nextDir = [] := by
        intro x
        unfold enterDir
        by_cases h : x.nextDir.isEmpty = true
        · rw [if_pos h]; simpa using h
        · rw [if_neg h]
      exact this _
    have d2 : (enterDir (s0.say (shown o c))).dir = curDir s := by
      rw [← d1]; unfold curDir; simp [n1]
    generalize hs2 : enterDir (s0.say (shown o c)) = s2 at *
    cases ha with
    | skipped h =>
      have h : Comment (unescape c.cmd.line) := by
        rcases h with h | h
        · rw [hd] at h; cases h
        · exact h
      refine fin (s0.say (shown o c)) (.begin s.idx :: shown o c) 0 codes _ (by simp [l0]) r0 a0 ?_ (by omega)
      intro _ out r hs
      rw [hseen1]
      rw [curDir_say, hcur', say_env, e0] at hs
      exact .comment h hs
    | cd _ ok hd' hc hp hw h =>
      rw [hs2] at h
      rcases hcd c (by simp) hp hw with hq | ⟨d, hq⟩
      · rw [execCd_asks _ hq] at h
        cases h
        refine fin (s2.say [.print (if s2.dir = [] then w.cwd else s2.dir)])
          (.begin s.idx :: (shown o c ++ [.print (if curDir s = [] then w.cwd else curDir s)])) 0 codes _ (by simp [l1, d2]) r1 a1 ?_ (by omega)
        intro _ out r hs
        rw [hseen0, List.append_assoc]
        rw [curDir_say, d1, say_env, e1] at hs
        exact .askDir hp hq hs
      · rw [execCd_says _ hq] at h
        cases hd1 : w.abs d with
        | none =>
          rw [hd1] at h
          cases h
          refine fin (s2.say [.error d]) (.begin s.idx :: (shown o c ++ [.error d])) 1 codes _ (by simp [l1]) r1 a1 ?_ ?_
          · intro hl out r hs
            rw [hseen0, List.append_assoc]
            rw [curDir_say, d1, say_env, e1] at hs
            exact .noDir hp hq hd1 hl hs
          · intro hl
            rw [hseen0]
            show Script w o.silent (curDir s) s.env (c :: later) _ (echo o.silent c ++ []) (some true)
            rw [List.append_nil]
            exact .noDirFails hp hq hd1 hl
        | some p =>
          rw [hd1] at h
          cases h
          refine fin ({ s2 with nextDir := p }.say [.chdir p]) (.begin s.idx :: (shown o c ++ [.chdir p])) 0 codes _ (by simp [l1]) r1 a1 ?_ (by omega)
          intro _ out r hs
          rw [hseen0, List.append_assoc]
          have hcd : curDir ({ s2 with nextDir := p }.say [.chdir p]) = p := by
            have := habs _ _ hd1
            show (if p.isEmpty = true then s2.dir else p) = p
            rw [if_neg (by cases p <;> simp_all)]
          rw [hcd] at hs
          have hs : Script w o.silent p s2.env later (codes.filter (· ≠ 259)) out r := hs
          rw [e1] at hs
          exact .cd hp hq hd1 hs
    | set hd' hc hp hn hw =>
      rw [hs2]
      rcases set_cases hw with ⟨n, v, hq⟩ | hq
      · rw [execSet_says _ hq]
        refine fin ({ s2 with env := envSet n v s2.env }.say [.assign n v]) (.begin s.idx :: (shown o c ++ [.assign n v])) 0 codes _ (by simp [l1]) r1 a1 ?_ (by omega)
        intro _ out r hs
        rw [hseen0, List.append_assoc]
        have hs : Script w o.silent (curDir s2) (envSet n v s2.env) later (codes.filter (· ≠ 259)) out r := hs
        rw [d1, e1] at hs
        exact .set hp hq hs
      · rw [execSet_asks _ hq]
        refine fin s2 (.begin s.idx :: shown o c) 0 codes _ l1 r1 a1 ?_ (by omega)
        intro _ out r hs
        rw [hseen1]
        rw [d1, e1] at hs
        exact .askVariable hp hq hs
    | direct hd' hc hp hn hs hi h =>
      rw [hs2, hcur] at *
      refine proc ({ s2 with attempts := s0.attempts + 1, running := true }.say [.run (unescape c.cmd.line) (curDir s) s0.env]) _
        (by simp [l1, e0]) rfl a1 c1 d1 e1 hc (fun hq => ?_) (.inl ⟨hp, hi, ⟨_, h⟩, rfl⟩)
      rcases hq.2 with hq | hq
      · exact hn hq
      · exact hs hq
    | shell n hd' hc hn hs hw h =>
      rw [hs2, hcur] at *
      refine proc ({ s2 with attempts := n + 1, running := true }.say [.run (viaShell w.comSpec (unescape c.cmd.line)) (curDir s) s0.env]) _
        (by simp [l1, e0]) rfl a1 c1 d1 e1 hc (fun hq => ?_) (.inr ⟨?_, rfl⟩)
      · rcases hq.2 with hq' | hq'
        · exact hn ⟨hq.1, hq'⟩
        · exact hs ⟨hq.1, hq'⟩
      · rcases hw with ⟨hw | hw, _⟩ | ⟨_, _, hw, _⟩
        · exact .inl hw
        · exact .inr (.inl hw)
        · exact .inr (.inr ⟨_, hw⟩)
    | nothing n hd' hc hn hs hw h =>
      rw [hsh] at h; cases h

/-! ### The script determines what is to be seen -/

/-- What a line asks for. -/
inductive Asked where
  | nothing
  | dir
  | cd (d : Str)
  | set (n v : Str)
  | listing
  | process

/-- The line asks for this. -/
def Asks (line : Str) : Asked → Prop
  | .nothing => Comment line
  | .dir => Plain line ∧ AsksDir line
  | .cd d => Plain line ∧ SaysCd line d
  | .set n v => Plain line ∧ SaysSet line n v
  | .listing => Plain line ∧ AsksVariable line
  | .process => ¬ Comment line ∧ ¬ Own line

/-- A state to try lines in. -/
def noDirs : World := { starts := fun _ _ _ => true, abs := fun _ => none, cwd := [], comSpec := [] }

theorem asks_cd {line : Str} {k : Asked} (h : Asks line k) (hp : Plain line) (hw : FirstWord c!"cd" line) : k = .dir ∨ ∃ d, k = .cd d := by
  have hc := firstWord_no_comment hw (by decide) (by decide)
  cases k with
  | nothing => exact absurd h hc
  | dir => exact .inl rfl
  | cd d => exact .inr ⟨d, rfl⟩
  | set n v =>
    obtain ⟨_, _, h, _⟩ := h
    exact absurd (says_firstWord h) (firstWord_ne (by decide) hw)
  | listing =>
    obtain ⟨_, _, h, _⟩ := h
    exact absurd (says_firstWord h) (firstWord_ne (by decide) hw)
  | process => exact absurd ⟨hp, .inl hw⟩ h.2

theorem asks_unique {line : Str} {a b : Asked} (ha : Asks line a) (hb : Asks line b) : a = b := by
  have cdcase : ∀ {a b : Asked}, Asks line a → Asks line b → Plain line → FirstWord c!"cd" line → a = b := by
    intro a b ha hb hp hw
    have none_ne : ∀ d, SaysCd line d → ¬ AsksDir line := by
      intro d h1 h2
      have := (execCd_says (w := noDirs) { env := [] } h1).symm.trans (execCd_asks { env := [] } h2)
      simp [noDirs] at this
    rcases asks_cd ha hp hw with rfl | ⟨d, rfl⟩ <;> rcases asks_cd hb hp hw with rfl | ⟨d', rfl⟩
    · rfl
    · exact absurd ha.2 (none_ne _ hb.2)
    · exact absurd hb.2 (none_ne _ ha.2)
    · have := (execCd_says (w := noDirs) { env := [] } ha.2).symm.trans (execCd_says { env := [] } hb.2)
      simp [noDirs, St.say] at this
      rw [this]
  have cw : ∀ {rest}, Says c!"cd" line rest → FirstWord c!"cd" line := fun h => says_firstWord h
  have setcase : ∀ {a b : Asked}, Asks line a → Asks line b → Plain line → FirstWord c!"set" line → a = b := by
    intro a b ha hb hp hw
    have hc := firstWord_no_comment hw (by decide) (by decide)
    have hn : ¬ FirstWord c!"cd" line := firstWord_ne (by decide) hw
    have only : ∀ {k}, Asks line k → k = .listing ∨ ∃ n v, k = .set n v := by
      intro k h
      cases k with
      | nothing => exact absurd h hc
      | dir => obtain ⟨_, _, h, _⟩ := h; exact absurd (says_firstWord h) hn
      | cd d => obtain ⟨_, _, h, _⟩ := h; exact absurd (says_firstWord h) hn
      | set n v => exact .inr ⟨n, v, rfl⟩
      | listing => exact .inl rfl
      | process => exact absurd ⟨hp, .inr hw⟩ h.2
    have none_ne : ∀ n v, SaysSet line n v → ¬ AsksVariable line := by
      intro n v h1 h2
      have := congrArg St.log ((execSet_says { env := [] } h1).symm.trans (execSet_asks { env := [] } h2))
      simp at this
    rcases only ha with rfl | ⟨n, v, rfl⟩ <;> rcases only hb with rfl | ⟨n', v', rfl⟩
    · rfl
    · exact absurd ha.2 (none_ne _ _ hb.2)
    · exact absurd hb.2 (none_ne _ _ ha.2)
    · have := congrArg St.log ((execSet_says { env := [] } ha.2).symm.trans (execSet_says { env := [] } hb.2))
      simp at this
      rw [this.1, this.2]
  have own : ∀ {k}, Asks line k → k = .nothing ∨ k = .process ∨ (Plain line ∧ FirstWord c!"cd" line) ∨ (Plain line ∧ FirstWord c!"set" line) := by
    intro k h
    cases k with
    | nothing => exact .inl rfl
    | dir => obtain ⟨hp, _, h, _⟩ := h; exact .inr (.inr (.inl ⟨hp, says_firstWord h⟩))
    | cd d => obtain ⟨hp, _, h, _⟩ := h; exact .inr (.inr (.inl ⟨hp, says_firstWord h⟩))
    | set n v => obtain ⟨hp, _, h, _⟩ := h; exact .inr (.inr (.inr ⟨hp, says_firstWord h⟩))
    | listing => obtain ⟨hp, _, h, _⟩ := h; exact .inr (.inr (.inr ⟨hp, says_firstWord h⟩))
    | process => exact .inr (.inl rfl)
  rcases own ha with ha' | ha' | ⟨hp, hw⟩ | ⟨hp, hw⟩
  · rcases own hb with hb' | hb' | ⟨hp, hw⟩ | ⟨hp, hw⟩
    · rw [ha', hb']
    · subst ha' hb'
      exact absurd ha hb.1
    · exact cdcase ha hb hp hw
    · exact setcase ha hb hp hw
  · rcases own hb with hb' | hb' | ⟨hp, hw⟩ | ⟨hp, hw⟩
    · subst ha' hb'
      exact absurd hb ha.1
    · rw [ha', hb']
    · exact cdcase ha hb hp hw
    · exact setcase ha hb hp hw
  · exact cdcase ha hb hp hw
  · exact setcase ha hb hp hw

/-- The first command of a script. -/
theorem script_cons {w : World} {q : Bool} {dir : Str} {env : Env} {c : Command} {cs : List Command} {codes : List Nat} {out : List Ev}
    {r : Option Bool} (h : Script w q dir env (c :: cs) codes out r) :
    ∃ k, Asks (unescape c.cmd.line) k ∧
      match k with
      | .nothing | .listing => ∃ out', out = echo q c ++ out' ∧ Script w q dir env cs codes out' r
      | .dir => ∃ out', out = echo q c ++ .print (if dir = [] then w.cwd else dir) :: out' ∧ Script w q dir env cs codes out' r
      | .cd d =>
        match w.abs d with
        | some p => ∃ out', out = echo q c ++ out' ∧ Script w q p env cs codes out' r
        | none => if 1 ≤ c.cmd.maxExitCode then ∃ out', out = echo q c ++ out' ∧ Script w q dir env cs codes out' r
          else out = echo q c ∧ r = some true
      | .set n v => ∃ out', out = echo q c ++ out' ∧ Script w q dir (envSet n v env) cs codes out' r
      | .process => ∃ p, ProcessOf w dir (unescape c.cmd.line) p ∧
        match codes with
        | [] => out = echo q c ++ [.run p dir env] ∧ r = none
        | x :: codes => ∃ code, CodeOf x code ∧
          if code ≤ c.cmd.maxExitCode then ∃ out', out = echo q c ++ .run p dir env :: out' ∧ Script w q dir env cs codes out' r
          else out = echo q c ++ [.run p dir env] ∧ r = some true := by
  cases h with
  | comment h ht => exact ⟨.nothing, h, _, rfl, ht⟩
  | askDir hp h ht => exact ⟨.dir, ⟨hp, h⟩, _, rfl, ht⟩
  | @cd _ _ _ _ _ _ _ d p hp h hd ht => exact ⟨.cd d, ⟨hp, h⟩, by simp only [hd]; exact ⟨_, rfl, ht⟩⟩
  | @noDir _ _ _ _ _ _ _ d hp h hd hl ht => exact ⟨.cd d, ⟨hp, h⟩, by simp only [hd]; rw [if_pos hl]; exact ⟨_, rfl, ht⟩⟩
  | @noDirFails _ _ _ _ _ d hp h hd hl => exact ⟨.cd d, ⟨hp, h⟩, by simp only [hd]; rw [if_neg (by omega)]; simp⟩
  | @set _ _ _ _ _ _ _ n v hp h ht => exact ⟨.set n v, ⟨hp, h⟩, _, rfl, ht⟩
  | askVariable hp h ht => exact ⟨.listing, ⟨hp, h⟩, _, rfl, ht⟩
  | waits hc ho hp => exact ⟨.process, ⟨hc, ho⟩, _, hp, rfl, rfl⟩
  | process hc ho hp hx hl ht => exact ⟨.process, ⟨hc, ho⟩, _, hp, _, hx, by rw [if_pos hl]; exact ⟨_, rfl, ht⟩⟩
  | processFails hc ho hp hx hl => exact ⟨.process, ⟨hc, ho⟩, _, hp, _, hx, by rw [if_neg (by omega)]; simp⟩

theorem codeOf_unique {x a b : Nat} (ha : CodeOf x a) (hb : CodeOf x b) : a = b := by
  unfold CodeOf at ha hb; omega

theorem processOf_unique {w : World} (hw : ∀ n m d l, w.starts n d l = w.starts m d l) {dir line p q : Str} (hp : ProcessOf w dir line p)
    (hq : ProcessOf w dir line q) : p = q := by
  rcases hp with ⟨a1, a2, ⟨n, a3⟩, rfl⟩ | ⟨a, rfl⟩ <;> rcases hq with ⟨b1, b2, ⟨m, b3⟩, rfl⟩ | ⟨b, rfl⟩
  · rfl
  · rcases b with b | b | ⟨m, b⟩
    · exact absurd a1 b
    · exact absurd b a2
    · rw [hw m n] at b; rw [a3] at b; cases b
  · rcases a with a | a | ⟨n, a⟩
    · exact absurd b1 a
    · exact absurd a b2
    · rw [hw n m] at a; rw [b3] at a; cases a
  · rfl

/-- **C87.** If programs do not appear or vanish meanwhile, a script determines what is to be seen, and how it ends. -/
theorem C87_determined {w : World} (hw : ∀ n m d l, w.starts n d l = w.starts m d l) {q : Bool} :
    ∀ {cs : List Command} {dir : Str} {env : Env} {codes : List Nat} {out out' : List Ev} {r r' : Option Bool},
    Script w q dir env cs codes out r → Script w q dir env cs codes out' r' → out = out' ∧ r = r' := by
  intro cs
  induction cs with
  | nil => intro dir env codes out out' r r' h h'; cases h; cases h'; exact ⟨rfl, rfl⟩
  | cons c cs ih =>
    intro dir env codes out out' r r' h h'
    obtain ⟨k, hk, h⟩ := script_cons h
    obtain ⟨k', hk', h'⟩ := script_cons h'
    have := asks_unique hk hk'
    subst this
    have go : ∀ {dir env codes}, (∃ o, out = echo q c ++ o ∧ Script w q dir env cs codes o r) →
        (∃ o, out' = echo q c ++ o ∧ Script w q dir env cs codes o r') → out = out' ∧ r = r' := by
      rintro dir env codes ⟨o1, rfl, h1⟩ ⟨o2, rfl, h2⟩
      obtain ⟨rfl, e⟩ := ih h1 h2
      exact ⟨rfl, e⟩
    cases k with
    | nothing => exact go h h'
    | listing => exact go h h'
    | set n v => exact go h h'
    | dir =>
      obtain ⟨o1, rfl, h1⟩ := h
      obtain ⟨o2, rfl, h2⟩ := h'
      obtain ⟨rfl, e⟩ := ih h1 h2
      exact ⟨rfl, e⟩
    | cd d =>
      simp only at h h'
      cases hd : w.abs d with
      | some p => rw [hd] at h h'; exact go h h'
      | none =>
        rw [hd] at h h'
        simp only at h h'
        by_cases hl : 1 ≤ c.cmd.maxExitCode
        · rw [if_pos hl] at h h'; exact go h h'
        · rw [if_neg hl] at h h'; exact ⟨h.1.trans h'.1.symm, h.2.trans h'.2.symm⟩
    | process =>
      obtain ⟨p, hp, h⟩ := h
      obtain ⟨p', hp', h'⟩ := h'
      have := processOf_unique hw hp hp'
      subst this
      cases codes with
      | nil => exact ⟨h.1.trans h'.1.symm, h.2.trans h'.2.symm⟩
      | cons x codes =>
        obtain ⟨code, hx, h⟩ := h
        obtain ⟨code', hx', h'⟩ := h'
        have := codeOf_unique hx hx'
        subst this
        by_cases hl : code ≤ c.cmd.maxExitCode
        · rw [if_pos hl] at h h'
          obtain ⟨o1, rfl, h1⟩ := h
          obtain ⟨o2, rfl, h2⟩ := h'
          obtain ⟨rfl, e⟩ := ih h1 h2
          exact ⟨rfl, e⟩
        · rw [if_neg hl] at h h'; exact ⟨h.1.trans h'.1.symm, h.2.trans h'.2.symm⟩

/-! ### From the commands of a target to the script -/

open FileMacro Spec.FileMacro

/-- The marks `<<` in the lines of commands are replaced by the names of their inline files. -/
inductive Filled (native : Str → Str) : List Command → List Str → List Command → Prop
  | nil : Filled native [] [] []
  | cons {c : Command} {cs cs' : List Command} {names rest : List Str} (h : names.length = c.files.length) (ht : Filled native cs rest cs') :
      Filled native (c :: cs) (names ++ rest)
        ({ c with cmd := { c.cmd with line := fill c.cmd.line (names.map fun n => inLine (native n)) } } :: cs')

theorem createTemps_filled {writable : Str → Bool} {native : Str → Str} {cand : Nat → Str} {fuel : Nat} :
    ∀ (cmds cmds' : List Command) (t t' : TempSt), (∀ c ∈ cmds, ¬ ∃ b, c.cmd.line = '<' :: '<' :: b) →
      createTemps writable native cand fuel cmds t = .ok (cmds', t') →
      ∃ names, Created t.fs (cmds.flatMap (·.files)) names t'.fs ∧ ((∀ n ∈ names, '<' ∉ native n) → Filled native cmds names cmds') := by
  intro cmds
  induction cmds with
  | nil => intro cmds' t t' _ h; cases h; exact ⟨[], .nil _, fun _ => .nil⟩
  | cons c cmds ih =>
    intro cmds' t t' hl h
    unfold createTemps at h
    generalize hx : createTempsOf writable native cand fuel c.files c.cmd.line t = x at h
    cases x with
    | error e => simp [bind, Except.bind] at h
    | ok r =>
      obtain ⟨line, t1⟩ := r
      simp only [bind, Except.bind] at h
      generalize hy : createTemps writable native cand fuel cmds t1 = y at h
      cases y with
      | error e => simp at h
      | ok r =>
        obtain ⟨cmds2, t2⟩ := r
        simp only [Except.ok.injEq, Prod.mk.injEq] at h
        obtain ⟨rfl, rfl⟩ := h
        obtain ⟨names, n1, n2, n3, n4⟩ := createTempsOf_ok _ _ _ _ _ hx
        obtain ⟨rest, m1, m2⟩ := ih _ _ _ (fun c hc => hl c (by simp [hc])) hy
        refine ⟨names ++ rest, by rw [List.flatMap_cons]; exact created_append n2 m1, fun hn => ?_⟩
        have e : line = fill c.cmd.line (names.map fun n => inLine (native n)) := by
          rw [n4, fillFirst_all _ _ _ (hl c (by simp))]
          · simp [Function.comp_def]
          · intro n hx
            obtain ⟨m, hm, rfl⟩ := List.mem_map.1 hx
            exact hn m (by simp [hm])
        rw [e]
        exact .cons n1 (m2 fun n hx => hn n (by simp [hx]))

/-- A command of a recipe: its modifiers, and its texts with references to file name macros. -/
structure Step where
  modifiers : Cmd
  text : Written

/-- The command after the makefile has been read. -/
def Step.raw (r : Step) : Command := { cmd := { r.modifiers with line := render magicEscape r.text.line }, files := r.text.raw }

/-- The commands that are meant for the target: with `!` one for each dependent. -/
def Step.meant (r : Step) (t : Target) : List Command :=
  if r.modifiers.singleExecution then
    t.deps.map fun d => { cmd := { r.modifiers with line := meaning t (some d) r.text.line, singleExecution := false }, files := r.text.meant t (some d) }
  else [{ cmd := { r.modifiers with line := meaning t none r.text.line }, files := r.text.meant t none }]

/-- The texts can be expanded (C51, C61). -/
def Step.Fine (r : Step) (t : Target) (n : Nat) : Prop :=
  if r.modifiers.singleExecution then ∀ d ∈ t.deps, ∀ ps ∈ r.text.texts, refs ps < n ∧ Spec.FileMacro.Fine magicEscape t (some d) [] ps
  else ∀ ps ∈ r.text.texts, refs ps < n ∧ Spec.FileMacro.Fine magicEscape t none [] ps

theorem recipe_expand (t : Target) (n : Nat) : ∀ (rs : List Step), (∀ r ∈ rs, r.Fine t n) →
    expandCommands (tgt t) n (rs.map Step.raw) = .ok (rs.flatMap fun r => r.meant t) := by
  intro rs
  induction rs with
  | nil => intro _; rfl
  | cons r rs ih =>
    intro h
    have h1 := h r (by simp)
    rw [List.map_cons, ← List.singleton_append, C61_append, ih fun r hr => h r (by simp [hr])]
    have : expandCommands (tgt t) n [r.raw] = .ok (r.meant t) := by
      unfold Step.Fine at h1
      unfold Step.meant
      by_cases hs : r.modifiers.singleExecution = true
      · rw [if_pos hs] at h1 ⊢
        exact C61_each_partial t n r.raw r.text hs rfl rfl h1
      · rw [if_neg hs] at h1 ⊢
        exact C61_other t n r.raw r.text (by simpa [Step.raw] using hs) rfl rfl h1
    rw [this]
    simp [bind, Except.bind]

/-- **C87**, as far as it holds: the executor is started for a target with commands. Then the inline files are created, and what is to be
seen of its commands, and how they end, is what the script says that consists of their meaning, with the names of the inline files in
the place of `<<`. Missing: processes with exit code 259 (C42), directories behind `cd` that begin with `/d` (C59), lines that begin with
`<<` (C44), relative directories behind `cd` are taken relative to the directory of jom (C59: `World.abs`). -/
theorem C87_recipe_partial {w : World} {o : Opts} (hd : o.dryRun = false) (habs : ∀ a p, w.abs a = some p → p ≠ [])
    (hsh : ∀ n d l, w.starts n d (viaShell w.comSpec l) = true) {writable : Str → Bool} {native : Str → Str} {cand : Nat → Str} {fuel n : Nat}
    {t : Target} {rs : List Step} (hf : ∀ r ∈ rs, r.Fine t n) (hne : (rs.flatMap fun r => r.meant t) ≠ [])
    (hl : ∀ c ∈ rs.flatMap (fun r => r.meant t), ¬ ∃ b, c.cmd.line = '<' :: '<' :: b) {fs fs1 : FS} {s s1 : St} (hidle : s.running = false)
    (h : start w o writable native cand fuel (fun cs => (expandCommands (tgt t) n cs).toOption.getD cs) (rs.map Step.raw) fs s = .ok (s1, fs1)) :
    ∃ names cmds, Created (fun x => if (x, false) ∈ s.temps then none else fs x) ((rs.flatMap fun r => r.meant t).flatMap (·.files)) names fs1 ∧
      ((∀ x ∈ names, '<' ∉ native x) → Filled native (rs.flatMap fun r => r.meant t) names cmds) ∧
      (CdsFine cmds → ∀ codes, ∃ r, EndsAs (ends w o codes s1) (ends w o codes s1).log r ∧
        Script w o.silent [] s.env cmds (codes.filter (· ≠ 259)) (seen (ends w o codes s1).log) r) := by
  have hne' : rs.map Step.raw ≠ [] := by
    rintro e
    rw [List.map_eq_nil_iff] at e
    subst e
    exact hne rfl
  obtain ⟨cmds, t1, h1, rfl, rfl⟩ := start_eq _ _ _ _ _ _ _ _ _ _ _ _ hne' h
  rw [recipe_expand t n rs hf] at h1
  simp only [Except.toOption, Option.getD_some] at h1
  obtain ⟨names, m1, m2⟩ := createTemps_filled _ _ _ _ hl h1
  have hcl : cleanup s.temps fs = fun x => if (x, false) ∈ s.temps then none else fs x := funext fun x => cleanup_eq _ _ _
  refine ⟨names, cmds, hcl ▸ m1, m2, fun hcd codes => ?_⟩
  have hc : cmds ≠ [] := by
    rintro rfl
    have := congrArg List.length (createTemps_limits _ _ _ _ _ _ _ _ h1)
    simp only [List.map_nil, List.length_nil, List.length_map] at this
    exact hne (List.length_eq_zero_iff.1 this.symm)
  obtain ⟨new, r, k1, k2, k3⟩ := execute_script w o hd habs hsh cmds hc hcd
    { s with active := true, log := [], idx := 0, temps := t1.temps, nextDir := [], dir := [] } codes hidle rfl
  simp only [List.nil_append] at k1
  rw [k1]
  exact ⟨r, k2, k3⟩

/-! A case: `@cd a`, `set CL=/O2`, `!cl $**`, `-link /out:$@ $**` for `p.exe: a.c b.c`. -/

def exSteps : List Step :=
  [⟨{ line := [], silent := true }, ⟨[.text c!"cd a"], []⟩⟩, ⟨{ line := [] }, ⟨[.text c!"set CL=/O2"], []⟩⟩,
   ⟨{ line := [], singleExecution := true }, ⟨[.text c!"cl ", .ref (.bare .all)], []⟩⟩,
   ⟨{ line := [], maxExitCode := uintMax }, ⟨[.text c!"link /out:", .ref (.bare .target), .text c!" ", .ref (.bare .all)], []⟩⟩]

def exMade : Target := ⟨c!"p.exe", [c!"a.c", c!"b.c"], fun _ => 0⟩

example : (exSteps.flatMap fun r => r.meant exMade).map (fun c => (c.cmd.line, c.cmd.maxExitCode)) =
    [(c!"cd a", 0), (c!"set CL=/O2", 0), (c!"cl a.c", 0), (c!"cl b.c", 0), (c!"link /out:p.exe a.c b.c", uintMax)] := by decide +kernel

/-- The first compiler ends with 0, the second one with 2. -/
example : (start easy {} (fun _ => true) id (fun _ => []) 1 (fun cs => (expandCommands (tgt exMade) 3 cs).toOption.getD cs)
      (exSteps.map Step.raw) (fun _ => none) { env := [] }).toOption.map (fun r => seen (ends easy {} [0, 2] r.1).log) =
    some [.print c!"set CL=/O2", .print c!"cl a.c", .run c!"cl a.c" c!"C:/p/a" [(c!"CL", c!"/O2")],
      .print c!"cl b.c", .run c!"cl b.c" c!"C:/p/a" [(c!"CL", c!"/O2")]] := by decide +kernel

/-- Both end with 0, and the linker with 7, which is ignored. -/
example : (start easy {} (fun _ => true) id (fun _ => []) 1 (fun cs => (expandCommands (tgt exMade) 3 cs).toOption.getD cs)
      (exSteps.map Step.raw) (fun _ => none) { env := [] }).toOption.map (fun r => (ends easy {} [0, 0, 7] r.1).log.getLast?) =
    some (some (.finished false)) := by decide +kernel

theorem exSteps_fine : ∀ r ∈ exSteps, r.Fine exMade 3 := by
  intro r hr
  simp only [exSteps, List.mem_cons, List.not_mem_nil, or_false] at hr
  rcases hr with rfl | rfl | rfl | rfl
  all_goals
    simp only [Step.Fine, Written.texts, List.flatMap_nil, List.mem_cons, List.not_mem_nil, or_false, Bool.false_eq_true, if_false, if_true,
      forall_eq]
  · exact ⟨by decide, by simp [Spec.FileMacro.Fine]; decide⟩
  · exact ⟨by decide, by simp [Spec.FileMacro.Fine]; decide⟩
  · intro d hd
    simp only [exMade, List.mem_cons, List.not_mem_nil, or_false] at hd
    refine ⟨by decide, ?_⟩
    simp only [Spec.FileMacro.Fine, and_true]
    rcases hd with rfl | rfl
    all_goals
      exact ⟨by decide, by decide, trivial, by decide +kernel, fun h => (by cases h), fun k h => (by cases h), fun k p s h => (by cases h),
        fun h => absurd h (by decide +kernel)⟩
  · refine ⟨by decide, ?_⟩
    simp only [Spec.FileMacro.Fine, and_true]
    exact ⟨by decide, ⟨by decide, trivial, by decide +kernel, fun h => (by cases h), fun k h => (by cases h), fun k p s h => (by cases h),
        fun h => absurd h (by decide +kernel), by decide, by decide +kernel, trivial, by decide +kernel, fun h => (by cases h), fun k h => (by cases h),
        fun k p s h => (by cases h), fun h => absurd h (by decide +kernel)⟩⟩

theorem exSteps_cds : CdsFine (exSteps.flatMap fun r => r.meant exMade) := by
  intro c hc hp hw
  have e : (exSteps.flatMap fun r => r.meant exMade).map (fun c => unescape c.cmd.line) =
    [c!"cd a", c!"set CL=/O2", c!"cl a.c", c!"cl b.c", c!"link /out:p.exe a.c b.c"] := by decide +kernel
  have hm : unescape c.cmd.line ∈ (exSteps.flatMap fun r => r.meant exMade).map (fun c => unescape c.cmd.line) := List.mem_map_of_mem hc
  rw [e] at hm
  have hw' := (firstWord_iff _ _).2 hw
  simp only [List.mem_cons, List.not_mem_nil, or_false] at hm
  rcases hm with h | h | h | h | h <;> rw [h] at hw' ⊢
  · exact .inr ⟨c!"a", c!"a", ⟨c!"cd", ' ', rfl, by decide, by decide⟩, .inl ⟨by decide, .inl ⟨by decide, by decide, by decide⟩⟩⟩
  all_goals exact absurd hw' (by decide +kernel)

/-- The theorem for this recipe: whatever codes the processes end with, the script of the five commands says what is to be seen. -/
example : ∃ s1 fs1 cmds, start easy {} (fun _ => true) id (fun _ => []) 1 (fun cs => (expandCommands (tgt exMade) 3 cs).toOption.getD cs)
      (exSteps.map Step.raw) (fun _ => none) { env := [] } = .ok (s1, fs1) ∧
    Filled id (exSteps.flatMap fun r => r.meant exMade) [] cmds ∧
    (CdsFine cmds → ∀ codes, ∃ r, EndsAs (ends easy {} codes s1) (ends easy {} codes s1).log r ∧
      Script easy false [] [] cmds (codes.filter (· ≠ 259)) (seen (ends easy {} codes s1).log) r) := by
  have hok : (start easy {} (fun _ => true) id (fun _ => []) 1 (fun cs => (expandCommands (tgt exMade) 3 cs).toOption.getD cs)
      (exSteps.map Step.raw) (fun _ => none) { env := [] }).toOption.isSome = true := by decide +kernel
  cases h : start easy {} (fun _ => true) id (fun _ => []) 1 (fun cs => (expandCommands (tgt exMade) 3 cs).toOption.getD cs)
      (exSteps.map Step.raw) (fun _ => none) { env := [] } with
  | error e => rw [h] at hok; cases hok
  | ok r =>
    obtain ⟨s1, fs1⟩ := r
    have hlines : ∀ c ∈ exSteps.flatMap (fun r => r.meant exMade), c.cmd.line.head? ≠ some '<' := by decide +kernel
    obtain ⟨names, cmds, h1, h2, h3⟩ := C87_recipe_partial (w := easy) (o := {}) rfl
      (by intro a p hp; simp only [easy] at hp; split at hp
          · injection hp with hp; rw [← hp]; decide
          · cases hp)
      (fun _ _ _ => rfl) exSteps_fine (by decide +kernel)
      (by rintro c hc ⟨b, hb⟩; exact hlines c hc (by rw [hb]; rfl)) rfl h
    have hn : names = [] := by
      rw [show (exSteps.flatMap fun r => r.meant exMade).flatMap (·.files) = [] by decide +kernel] at h1
      cases h1
      rfl
    subst hn
    exact ⟨s1, fs1, cmds, rfl, h2 (by simp), h3⟩

end Jom.Props
