/- A target that ends before `CommandExecutor::start` returns can be taken for one whose process writes the same files and ends at once. -/
import Verif.Proofs.MakeSecondRun

namespace Jom.Make

open Jom.Graph Jom.Sched Jom.UpToDate Jom.Spec Jom.Spec.Build Relation

variable {env : Env} {cfg : Cfg} {disk0 : Str → Option Nat} {info : Nat → TInfo} {j j' : J}

/-- The same outcome, but the target goes on running. -/
def runs : StartRes → StartRes
  | .sync _ => .running
  | r => r

/-- The same event, but nothing ends at once. -/
def unsync : Event → Event
  | .startProcesses a => .startProcesses { a with res := runs a.res, writes := [] }
  | .acquired asked res _ w => .acquired asked (runs res) [] w
  | e => e

/-- What jom does itself during an event. -/
def syncPart : Event → Option (Bool × List (Str × Option Nat))
  | .startProcesses a => match a.res with
    | .sync f => some (f, a.writes)
    | _ => none
  | .acquired _ res writes _ => match res with
    | .sync f => some (f, writes)
    | _ => none
  | _ => none

/-! ### One step -/

/-- Other target chosen next, other numbers of queued calls and of tokens released while waiting. -/
def shift (n : Option Nat) (q w : Nat) (s : St) : St := { s with next := n, queued := s.queued + q, relWait := s.relWait + w }

theorem handOver_shift (e : Nat) (n : Option Nat) (q w : Nat) (s : St) : handOver e (shift n q w s) = shift n q w (handOver e s) := by
  unfold handOver shift
  simp only
  split
  · rfl
  · split
    · split <;> rfl
    · rfl

/-- `childFinished` does not depend on these. -/
theorem child_shift (cfg : Cfg) (e t : Nat) (f : Bool) (n : Option Nat) (q w : Nat) (s : St) :
    childFinished cfg e t f (shift n q w s) = shift n q w (childFinished cfg e t f s) := by
  have hq : ∀ s' : St, ({ shift n q w s' with queued := (shift n q w s').queued + 1 } : St) = shift n q w { s' with queued := s'.queued + 1 } := by
    intro s'
    simp only [shift, Nat.add_right_comm]
  have hj : ∀ s' : St, (if (shift n q w s').jobAcq > 0 then
      { shift n q w s' with relChild := (shift n q w s').relChild + 1, jobAcq := (shift n q w s').jobAcq - 1 } else shift n q w s') =
      shift n q w (if s'.jobAcq > 0 then { s' with relChild := s'.relChild + 1, jobAcq := s'.jobAcq - 1 } else s') := by
    intro s'
    by_cases h : s'.jobAcq > 0
    · rw [if_pos h, if_pos (show (shift n q w s').jobAcq > 0 from h)]; rfl
    · rw [if_neg h, if_neg (show ¬ (shift n q w s').jobAcq > 0 from h)]
  unfold childFinished
  extract_lets a1 a2 a3 a4 a5 a6 b1 b2 b3 b4 b5 b6
  have h1 : a1 = shift n q w b1 := by cases f <;> rfl
  have h2 : a2 = shift n q w b2 := by
    simp only [a2, b2, h1]
    cases (f && cfg.keepGoing) <;> rfl
  have h3 : a3 = shift n q w b3 := by simp only [a3, b3, h2]; rfl
  have h4 : a4 = shift n q w b4 := by simp only [a4, b4, h3]; exact hj b3
  have h5 : a5 = shift n q w b5 := by simp only [a5, b5, h4]; rfl
  have h6 : a6 = shift n q w b6 := by simp only [a6, b6, h5]; exact handOver_shift ..
  rw [h6]
  cases (f && !cfg.keepGoing)
  · exact hq b6
  · rfl

theorem child_next (cfg : Cfg) (e t : Nat) (f : Bool) (s : St) : (childFinished cfg e t f s).next = s.next := by
  have h := child_shift cfg e t f s.next 0 0 s
  exact (congrArg St.next h).trans rfl

theorem child_wait (cfg : Cfg) (e t : Nat) (f : Bool) (s : St) :
    childFinished cfg e t f { s with relWait := s.relWait + 1 } = { childFinished cfg e t f s with relWait := (childFinished cfg e t f s).relWait + 1 } := by
  have h := child_shift cfg e t f s.next 0 1 s
  have hn := child_next cfg e t f s
  rw [← hn] at h
  rw [show shift (childFinished cfg e t f s).next 0 1 s = { s with relWait := s.relWait + 1 } by rw [hn]; rfl] at h
  exact h

theorem writes_info (ws : List (Str × Option Nat)) (m : Mem) : (ws.foldl Make.write m).info = m.info := by
  induction ws generalizing m with
  | nil => rfl
  | cons w ws ih => rw [List.foldl_cons, ih]; rfl

theorem forget_writes (t : Nat) (ws : List (Str × Option Nat)) (m : Mem) :
    forget t (ws.foldl Make.write m) = { forget t (ws.foldl Make.write m) with info := m.info } := by
  unfold forget
  rw [writes_info]

/-- The target that ends at once: it is started, writes its files, and ends. -/
theorem build_split (asked : Str → Bool) (f : Bool) (writes : List (Str × Option Nat)) {e t : Nat} {rest : List Nat}
    (hn : j.s.next = some t) (hab : j.s.aborted = false) (hav : j.s.avail = e :: rest) :
    ∃ j1, buildNextTarget env cfg asked .running [] j = j1 ∧ j1.s = begun (begin e t rest j.s) ∧ j1.m.files.disk = j.m.files.disk ∧
      buildNextTarget env cfg asked (.sync f) writes j =
        { s := childFinished cfg e t f j1.s, m := forget t (writes.foldl Make.write j1.m) } := by
  refine ⟨_, rfl, ?_, ?_, ?_⟩
  · unfold buildNextTarget Sched.buildNextTarget
    simp only [hn, hab, hav, Bool.false_eq_true, if_false]
  · unfold buildNextTarget
    simp only [hn, hab, Bool.false_eq_true, if_false, remember_disk]
  · unfold buildNextTarget Sched.buildNextTarget
    simp only [hn, hab, hav, Bool.false_eq_true, if_false]
    have := child_shift cfg e t f none 1 0 (begin e t rest j.s)
    exact congrArg (J.mk · _) this.symm

/-- Which target is chosen does not depend on what happens when it is started. -/
theorem findNext_res (a : Answers) (res : StartRes) (ws : List (Str × Option Nat)) : ∀ i (j : J),
    findNextTarget env cfg { a with res := res, writes := ws } i j = findNextTarget env cfg a i j := by
  intro i
  induction i with
  | zero => intro j; rfl
  | succ i ih =>
    intro j
    simp only [findNextTarget, ih]

/-- Only if the target ends at once, jom itself changes files. -/
theorem build_runs (asked : Str → Bool) (res : StartRes) (writes : List (Str × Option Nat)) (h : ∀ f, res ≠ .sync f) :
    buildNextTarget env cfg asked (runs res) [] j = buildNextTarget env cfg asked res writes j := by
  cases res with
  | throws => rfl
  | running => rfl
  | sync f => exact absurd rfl (h f)

/-- What an event does that makes a target at once. -/
structure Splits (env : Env) (cfg : Cfg) (j : J) (e : Event) (j' : J) (f : Bool) (writes : List (Str × Option Nat)) (ex t : Nat) (j1 : J) : Prop where
  part : syncPart e = some (f, writes)
  first : step env cfg j (unsync e) = some j1
  alive : j1.s.dead = false
  busy : j1.s.busy = (ex, t) :: j.s.busy
  disk : j1.m.files.disk = j.m.files.disk
  build : j1.s.build = j.s.build
  started : Ev.started j.s.build t ∈ j1.s.log
  fresh : Ev.started j.s.build t ∉ j.s.log
  last : j' = { s := childFinished cfg ex t f j1.s, m := forget t (writes.foldl Make.write j1.m) }

/-- An event that makes a target at once: the target is started, writes its files, and ends. -/
theorem step_split (hi : Inv cfg j.s) {e : Event} (hs : step env cfg j e = some j') :
    (step env cfg j (unsync e) = some j' ∧ (syncPart e = none ∨ ∀ b t, Ev.started b t ∈ j'.s.log → Ev.started b t ∈ j.s.log)) ∨ ∃ f writes ex t j1, Splits env cfg j e j' f writes ex t j1 := by
  cases e with
  | grant => exact .inl ⟨hs, .inl rfl⟩
  | childFinished ex f => exact .inl ⟨hs, .inl rfl⟩
  | abortDone => exact .inl ⟨hs, .inl rfl⟩
  | write f v => exact .inl ⟨hs, .inl rfl⟩
  | acquired asked res writes w =>
    by_cases hres : ∀ f, res ≠ .sync f
    · left
      refine ⟨?_, .inl (by cases res <;> first | rfl | exact absurd rfl (hres _))⟩
      simp only [unsync, step] at hs ⊢
      rw [build_runs asked res writes hres]
      exact hs
    · have ⟨f, hf⟩ : ∃ f, res = .sync f := Classical.byContradiction fun h => hres fun f hf => h ⟨f, hf⟩
      subst hf
      have hs0 := hs
      simp only [unsync, runs, step] at hs ⊢
      split at hs
      · next hc =>
        rw [if_pos hc]
        cases hn : j.s.next with
        | none =>
          left
          rw [← hs]
          unfold buildNextTarget Sched.buildNextTarget
          simp only [hn]
          refine ⟨trivial, .inr ?_⟩
          injection hs with hs
          rw [← hs]
          unfold buildNextTarget Sched.buildNextTarget
          simp only [hn]
          cases w <;> exact fun _ _ h => h
        | some t =>
          by_cases hab : j.s.aborted = true
          · left
            rw [← hs]
            unfold buildNextTarget Sched.buildNextTarget
            simp only [hn, hab, if_true]
            refine ⟨trivial, .inr ?_⟩
            injection hs with hs
            rw [← hs]
            unfold buildNextTarget Sched.buildNextTarget
            simp only [hn, hab, if_true]
            cases w <;> exact fun _ _ h => h
          · have hab : j.s.aborted = false := by simpa using hab
            right
            have hne := hi.ex.acqAvail (hi.ex.gr hc.2.1)
            cases hav : j.s.avail with
            | nil => exact absurd hav hne
            | cons ex rest =>
              obtain ⟨j1, h1, h2, h3, h4⟩ := build_split (env := env) (cfg := cfg) (j := { j with s := { j.s with acquiring := false, granted := false } })
                asked f writes hn hab hav
              refine ⟨f, writes, ex, t, (if w then { j1 with s := { j1.s with relWait := j1.s.relWait + 1 } } else j1), rfl, ?_, ?_, ?_, ?_, ?_, ?_, ?_, ?_⟩
              · simp only [unsync, runs, step]
                rw [if_pos hc, h1]
              · have : j1.s.dead = false := by rw [h2]; exact hc.1
                cases w <;> exact this
              · have : j1.s.busy = (ex, t) :: j.s.busy := by rw [h2]; rfl
                cases w <;> exact this
              · cases w <;> exact h3
              · have : j1.s.build = j.s.build := by rw [h2]; rfl
                cases w <;> exact this
              · have : Ev.started j.s.build t ∈ j1.s.log := by rw [h2]; simp [begun, begin]
                cases w <;> exact this
              · exact next_fresh hi.lg hab hn
              · rw [h4] at hs
                injection hs with hs
                rw [← hs]
                cases w with
                | false => rfl
                | true =>
                  exact congrArg (J.mk · _) (child_wait cfg ex t f j1.s).symm
      · cases hs
  | startProcesses a =>
    by_cases hres : ∀ f, a.res ≠ .sync f
    · left
      refine ⟨?_, .inl (by
        simp only [syncPart])⟩
      simp only [unsync, step, startProcesses] at hs ⊢
      simp only [findNext_res, build_runs a.asked a.res a.writes hres]
      exact hs
    · have ⟨f, hf⟩ : ∃ f, a.res = .sync f := Classical.byContradiction fun h => hres fun f hf => h ⟨f, hf⟩
      have hs0 := hs
      simp only [step] at hs
      split at hs
      · next hc =>
        injection hs with hs
        have hgoal : step env cfg j (unsync (.startProcesses a)) =
            some (startProcesses env cfg { a with res := .running, writes := [] } { j with s := { j.s with queued := j.s.queued - 1 } }) := by
          simp only [unsync, step]
          rw [if_pos hc, hf]
          rfl
        rw [hgoal]
        unfold startProcesses at hs
        split at hs
        · next hcond =>
          left
          unfold startProcesses
          rw [if_pos hcond, hs]
          exact ⟨rfl, .inr (by rw [← hs]; exact fun _ _ h => h)⟩
        · next hcond =>
          have hcond0 := hcond
          simp only [Bool.or_eq_true, List.isEmpty_iff, not_or, Bool.not_eq_true] at hcond
          obtain ⟨⟨hab, hacq⟩, hav⟩ := hcond
          have hab : j.s.aborted = false := hab
          have hav : j.s.avail ≠ [] := hav
          have hn : j.s.next = none := hi.idle hab hacq
          have hl0 : LogInv cfg { j.s with queued := j.s.queued - 1 } := hi.lg.congr rfl rfl rfl id id rfl rfl rfl rfl (fun _ => rfl)
          obtain ⟨o, ho⟩ := findNext_refine env cfg a (j.s.g.ids.length + 1) { j with s := { j.s with queued := j.s.queued - 1 } } hl0.ginv
          have ho := ho o fun _ _ => ⟨rfl, rfl, rfl⟩
          have hfs := findNext_spec cfg o (j.s.g.ids.length + 1) { j.s with queued := j.s.queued - 1 } hl0 hab hn
          rw [show Sched.findNextTarget cfg o (j.s.g.ids.length + 1) { j.s with queued := j.s.queued - 1 } = _ from ho] at hfs
          have hnn : ({ j.s with queued := j.s.queued - 1 } : St).next.isNone = true := by show j.s.next.isNone = true; rw [hn]; rfl
          have hgrow : ∀ b t, Ev.started b t ∈ (outcome (findNextTarget env cfg a (j.s.g.ids.length + 1)
              { j with s := { j.s with queued := j.s.queued - 1 } })).s.log → Ev.started b t ∈ j.s.log := by
            obtain ⟨evs, hev, hl⟩ := findNext_log cfg o (j.s.g.ids.length + 1) { j.s with queued := j.s.queued - 1 }
            rw [show Sched.findNextTarget cfg o (j.s.g.ids.length + 1) { j.s with queued := j.s.queued - 1 } = _ from ho] at hl
            intro b t h
            have hl : (outcome (findNextTarget env cfg a (j.s.g.ids.length + 1) { j with s := { j.s with queued := j.s.queued - 1 } })).s.log =
                j.s.log ++ evs := by
              rw [← hl]
              cases findNextTarget env cfg a (j.s.g.ids.length + 1) { j with s := { j.s with queued := j.s.queued - 1 } } <;> rfl
            rw [hl] at h
            refine (List.mem_append.1 h).elim id fun h => ?_
            have := hev _ h
            simp [quietEv, isStart] at this
          have hon := findNext_onward env cfg a (j.s.g.ids.length + 1) { j with s := { j.s with queued := j.s.queued - 1 } }
          have hgoal2 : startProcesses env cfg { a with res := .running, writes := [] } { j with s := { j.s with queued := j.s.queued - 1 } } =
              (match findNextTarget env cfg a (j.s.g.ids.length + 1) { j with s := { j.s with queued := j.s.queued - 1 } } with
              | .error j => { j with s := onException cfg j.s }
              | .ok j =>
                if j.s.next.isSome then
                  if j.s.running cfg = 0 then buildNextTarget env cfg a.asked .running [] j
                  else { j with s := { j.s with jobAcq := j.s.jobAcq + 1, acquiring := true } }
                else if j.s.running cfg = 0 then
                  match j.s.pending with
                  | [] => { j with s := finishBuild cfg 0 j.s }
                  | t :: rest => { s := rebuild cfg (j.s.build + 1) t rest j.s, m := invalidate j.m }
                else j) := by
            unfold startProcesses
            rw [if_neg hcond0, if_pos hnn, findNext_res]
            rfl
          rw [if_pos hnn] at hs
          generalize hfn : findNextTarget env cfg a (j.s.g.ids.length + 1) { j with s := { j.s with queued := j.s.queued - 1 } } = res
            at hfs hon hs hgoal2 hgrow
          cases res with
          | error j2 =>
            left
            rw [hgoal2]
            refine ⟨congrArg some hs, .inr ?_⟩
            rw [← hs]
            intro b t h
            refine (List.mem_append.1 h).elim (hgrow b t) fun h => ?_
            simp at h
          | ok j2 =>
            simp only at hs hgoal2
            obtain ⟨⟨f1, f2, _⟩, _⟩ := hfs
            have f2 : LogInv cfg j2.s := f2
            have e1 : j2.s.build = j.s.build := by rw [f1]
            have e2 : j2.s.aborted = false := by rw [f1]; exact hab
            have e3 : j2.s.dead = false := by rw [f1]; exact hc.1
            have e5 : j2.s.avail = j.s.avail := by rw [f1]
            have e6 : j2.s.busy = j.s.busy := by rw [f1]
            cases hnx : j2.s.next with
            | none =>
              left
              simp only [hnx] at hs hgoal2
              rw [hgoal2]
              refine ⟨congrArg some hs, .inr ?_⟩
              rw [← hs]
              intro b t h
              refine hgrow b t ?_
              show _ ∈ j2.s.log
              simp only [Option.isSome_none, Bool.false_eq_true, if_false] at h
              split at h
              · split at h
                · exact h
                · next x rest _ =>
                  simp only [Sched.rebuild] at h
                  split at h <;> exact h
              · exact h
            | some t =>
              simp only [hnx, Option.isSome_some, if_true] at hs hgoal2
              by_cases hrun : j2.s.running cfg = 0
              · right
                rw [if_pos hrun] at hs hgoal2
                cases hv : j2.s.avail with
                | nil => exact absurd (e5 ▸ hv) hav
                | cons ex rest =>
                  obtain ⟨j1, h1, h2, h3, h4⟩ := build_split (env := env) (cfg := cfg) a.asked f a.writes hnx e2 hv
                  refine ⟨f, a.writes, ex, t, j1, ?_, ?_, ?_, ?_, ?_, ?_, ?_, ?_, ?_⟩
                  · simp only [syncPart, hf]
                  · rw [hgoal, hgoal2, h1]
                  · rw [h2]; exact e3
                  · rw [h2, ← e6]; rfl
                  · rw [h3]; exact hon.disk
                  · rw [h2]; exact e1
                  · rw [h2, ← e1]; simp [begun, begin]
                  · rw [← e1]
                    exact fun h => next_fresh f2 e2 hnx (hon.log _ h)
                  · rw [← hs, ← h4, hf]
              · left
                rw [if_neg hrun] at hs hgoal2
                rw [hgoal2]
                refine ⟨congrArg some hs, .inr ?_⟩
                rw [← hs]
                exact hgrow
      · cases hs

theorem Splits.starts {e : Event} {f : Bool} {writes : List (Str × Option Nat)} {ex t : Nat} {j1 : J} (h : Splits env cfg j e j' f writes ex t j1)
    (hs : step env cfg j e = some j') : Starts env cfg j e t := by
  refine ⟨j', j.s.build, hs, ?_, h.fresh⟩
  rw [h.last]
  show _ ∈ (childFinished cfg ex t f j1.s).log
  rw [(childFinished_fields cfg ex t f j1.s).log, List.mem_append]
  exact .inl h.started

theorem Splits.writes {e : Event} {f : Bool} {writes : List (Str × Option Nat)} {ex t : Nat} {j1 : J} (h : Splits env cfg j e j' f writes ex t j1)
    {w : Str × Option Nat} (hw : w ∈ writes) : Writes w.1 w.2 e := by
  have hp := h.part
  cases e with
  | startProcesses a =>
    simp only [syncPart] at hp
    split at hp
    · next f' hf => cases hp; exact ⟨⟨_, hf⟩, hw⟩
    · cases hp
  | acquired asked res ws b =>
    simp only [syncPart] at hp
    split at hp
    · next f' => cases hp; exact ⟨⟨_, rfl⟩, hw⟩
    · cases hp
  | grant => cases hp
  | childFinished _ _ => cases hp
  | abortDone => cases hp
  | write _ _ => cases hp

/-- The last part is a process that ends. -/
theorem Splits.ends {e : Event} {f : Bool} {writes : List (Str × Option Nat)} {ex t : Nat} {j1 : J} (h : Splits env cfg j e j' f writes ex t j1) :
    step env cfg { j1 with m := writes.foldl Make.write j1.m } (.childFinished ex f) = some j' := by
  simp only [step, h.alive, h.busy, Bool.false_eq_true, if_false]
  rw [List.find?_cons_of_pos (by simp)]
  rw [h.last]

theorem same_build {j j' : J} (asked : List Str) (h : j'.s.build = j.s.build) :
    (if j'.s.build ≠ j.s.build then ({ j' with m := buildAsked env asked j'.m } : J) else j') = j' := if_neg (by simp [h])

theorem Splits.build' {e : Event} {f : Bool} {writes : List (Str × Option Nat)} {ex t : Nat} {j1 : J} (h : Splits env cfg j e j' f writes ex t j1) :
    j'.s.build = j1.s.build := by
  rw [h.last]
  exact (childFinished_fields cfg ex t f j1.s).build

/-- Runs are runs in which jom does nothing itself. -/
theorem Run.split {ok ok' : J → Event → Prop} (hu : ∀ j e, ok j e → ok' j (unsync e))
    (hw : ∀ j e j' f writes ex t j1 w m, ok j e → Make.step env cfg j e = some j' → Splits env cfg j e j' f writes ex t j1 → w ∈ writes →
      ok' { j1 with m := m } (.write w.1 w.2))
    (hf : ∀ j e j' f writes ex t j1, ok j e → Make.step env cfg j e = some j' → Splits env cfg j e j' f writes ex t j1 → Inv cfg j1.s →
      ok' { j1 with m := writes.foldl Make.write j1.m } (.childFinished ex f))
    (h : Run env cfg info disk0 ok j) : Run env cfg info disk0 ok' j := by
  induction h with
  | start asked hd ha => exact .start asked hd ha
  | @step j j' e asked hr hok hs hdn ha ih =>
    rcases step_split hr.reachable.inv hs with h1 | ⟨f, writes, ex, t, j1, h1⟩
    · exact .step asked ih (hu _ _ hok) h1.1 hdn ha
    · have hb : j'.s.build = j.s.build := h1.build'.trans h1.build
      have g1 : Run env cfg info disk0 ok' j1 := by
        have := Run.step [] ih (hu _ _ hok) h1.first (fun h => absurd h1.build h) (fun _ h => by cases h)
        rwa [same_build [] h1.build] at this
      have g2 : ∀ (ws : List (Str × Option Nat)) (m : Mem), (∀ w ∈ ws, w ∈ writes) → Run env cfg info disk0 ok' { j1 with m := m } →
          Run env cfg info disk0 ok' { j1 with m := ws.foldl Make.write m } := by
        intro ws
        induction ws with
        | nil => exact fun _ _ h => h
        | cons w ws ih2 =>
          intro m hsub hm
          refine ih2 (Make.write m w) (fun w' h => hsub w' (List.mem_cons_of_mem _ h)) ?_
          have := Run.step [] hm (hw _ _ _ _ _ _ _ _ w m hok hs h1 (hsub w (.head _))) (j' := { j1 with m := Make.write m w }) rfl
            (fun h => absurd rfl h) (fun _ h => by cases h)
          rwa [same_build (env := env) (j := { j1 with m := m }) (j' := { j1 with m := Make.write m w }) [] rfl] at this
      have g3 := Run.step [] (g2 writes j1.m (fun _ h => h) g1) (hf _ _ _ _ _ _ _ _ hok hs h1 g1.reachable.inv) h1.ends (fun h => absurd h1.build' h) (fun _ h => by cases h)
      rw [same_build (env := env) (j := { j1 with m := writes.foldl Make.write j1.m }) [] h1.build'] at g3
      rwa [same_build asked hb]

theorem runs_sync {r : StartRes} {f : Bool} : runs r ≠ .sync f := by cases r <;> simp [runs]

theorem MayWrite.more {abs : Str → Str} {db : Db} {requested : List Nat} {busy busy' : List Nat} {file : Str} {value : Option Nat}
    (h : MayWrite abs db requested busy file value) (hs : ∀ t ∈ busy, t ∈ busy') : MayWrite abs db requested busy' file value :=
  ⟨h.1, h.2.imp (fun ⟨t, h1, h2⟩ => ⟨t, hs t h1, h2⟩) id⟩

variable {db : Db} {idle : Nat → Prop}

/-- What jom does itself during an event that splits. -/
theorem _root_.Jom.Spec.Build.BehavesBut.part {e : Event} {f : Bool} {writes : List (Str × Option Nat)} {ex t : Nat} {j1 : J} (h : BehavesBut env cfg db idle j e)
    (hs : step env cfg j e = some j') (hp : Splits env cfg j e j' f writes ex t j1) :
    (∀ w ∈ writes, MayWrite env.abs db cfg.targets [t] w.1 w.2) ∧
    (f = false → ¬ idle t → DidWork (fun n => changed j.m.files.disk writes (env.abs n)) db t) := by
  have hst := hp.starts hs
  have hpp := hp.part
  cases e with
  | startProcesses a =>
    simp only [syncPart] at hpp
    split at hpp
    · next f' hf => cases hpp; exact h.2 _ hf t hst
    · cases hpp
  | acquired asked res ws b =>
    simp only [syncPart] at hpp
    split at hpp
    · next f' => cases hpp; exact h _ rfl t hst
    · cases hpp
  | grant => cases hpp
  | childFinished _ _ => cases hpp
  | abortDone => cases hpp
  | write _ _ => cases hpp

theorem _root_.Jom.Spec.Build.Behaves.noneIdle {e : Event} (h : Behaves env cfg db j e) : BehavesBut env cfg db (fun _ => False) j e := by
  cases e with
  | startProcesses a => exact h
  | acquired asked res ws b => exact h
  | grant => trivial
  | childFinished ex f => exact fun hf t ht _ => h hf t ht
  | abortDone => trivial
  | write _ _ => exact h

/-- No target ends at once. -/
def NoSync : Event → Prop
  | .startProcesses a => ∀ f, a.res ≠ .sync f
  | .acquired _ res _ _ => ∀ f, res ≠ .sync f
  | _ => True

theorem unsync_noSync (e : Event) : NoSync (unsync e) := by
  cases e <;> simp only [unsync, NoSync] <;> first | trivial | exact fun _ => runs_sync

theorem NoSync.clean {e : Event} (h : NoSync e) : FailsClean env cfg db e := by
  cases e with
  | startProcesses a => exact fun hf => absurd hf (h _)
  | acquired asked res ws b => exact fun hf => absurd hf (h _)
  | _ => trivial

theorem NoSync.plainBut {e : Event} (hn : NoSync e) (h : BehavesBut env cfg db idle j e) : PlainBut env cfg db idle j e := by
  cases e with
  | startProcesses a => exact ⟨h.1, fun hf => absurd hf (hn _)⟩
  | acquired asked res ws b => exact fun hf => absurd hf (hn _)
  | grant => trivial
  | childFinished ex f => exact h
  | abortDone => trivial
  | write _ _ => exact h

theorem NoSync.plain {e : Event} (hn : NoSync e) (h : BehavesBut env cfg db (fun _ => False) j e) : PlainBehaves env cfg db j e := by
  cases e with
  | startProcesses a => exact ⟨h.1, hn _⟩
  | acquired asked res ws b => exact hn _
  | grant => trivial
  | childFinished ex f => exact fun hf t ht => h hf t ht id
  | abortDone => trivial
  | write _ _ => exact h

theorem unsync_behaves {e : Event} (h : BehavesBut env cfg db idle j e) : BehavesBut env cfg db idle j (unsync e) := by
  cases e with
  | startProcesses a => exact ⟨h.1, fun f hf => absurd hf runs_sync⟩
  | acquired asked res ws b => exact fun f hf => absurd hf runs_sync
  | grant => trivial
  | childFinished ex f => exact h
  | abortDone => trivial
  | write _ _ => exact h

/-- Runs in which the world behaves, and an additional condition `X`. -/
theorem Run.splitBut {X : J → Event → Prop} {X' : J → Event → Prop} (hu : ∀ j e, X j e → X' j (unsync e))
    (hw : ∀ j e j' f writes ex t j1 w m, X j e → Make.step env cfg j e = some j' → Splits env cfg j e j' f writes ex t j1 → w ∈ writes →
      X' { j1 with m := m } (.write w.1 w.2))
    (hf : ∀ j ex f, X' j (.childFinished ex f))
    (h : Run env cfg info disk0 (fun j e => BehavesBut env cfg db idle j e ∧ X j e) j) :
    Run env cfg info disk0 (fun j e => (BehavesBut env cfg db idle j e ∧ NoSync e) ∧ X' j e) j := by
  refine h.split (fun j e h => ⟨⟨unsync_behaves h.1, unsync_noSync e⟩, hu j e h.2⟩) (fun j e j' f writes ex t j1 w m h hs hp hm => ?_)
    (fun j e j' f writes ex t j1 h hs hp hi => ?_)
  · refine ⟨⟨MayWrite.more ((h.1.part hs hp).1 w hm) ?_, trivial⟩, hw j e j' f writes ex t j1 w m h.2 hs hp hm⟩
    intro t' ht'
    rw [List.mem_singleton.1 ht']
    show t ∈ j1.s.busy.map (·.2)
    rw [hp.busy]
    exact .head _
  · refine ⟨⟨fun hff t' ht' hid => ?_, trivial⟩, hf _ _ _⟩
    have ht' : (ex, t') ∈ j1.s.busy := ht'
    have hb : (ex, t) ∈ j1.s.busy := by rw [hp.busy]; exact .head _
    have := busy_unique1 hi.ex.busyFst ht' hb rfl
    cases this
    show DidWork (fun n => (writes.foldl Make.write j1.m).files.disk (env.abs n)) db t
    rw [writes_disk, hp.disk]
    exact (h.1.part hs hp).2 hff hid

/-- C95: runs in which idle targets need not do any work. -/
theorem Run.plainBut (h : Run env cfg info disk0 (BehavesBut env cfg db idle) j) :
    Run env cfg info disk0 (fun j e => PlainBut env cfg db idle j e ∧ FailsClean env cfg db e) j := by
  have := Run.splitBut (X := fun _ _ => True) (X' := fun _ _ => True) (fun _ _ _ => trivial) (fun _ _ _ _ _ _ _ _ _ _ _ _ _ _ => trivial)
    (fun _ _ _ => trivial) (h.mono fun _ _ h => ⟨h, trivial⟩)
  exact this.mono fun _ _ h => ⟨h.1.2.plainBut h.1.1, h.1.2.clean⟩

theorem Run.plain (h : Run env cfg info disk0 (Behaves env cfg db) j) :
    Run env cfg info disk0 (fun j e => PlainBehaves env cfg db j e ∧ FailsClean env cfg db e) j := by
  have := Run.splitBut (idle := fun _ => False) (X := fun _ _ => True) (X' := fun _ _ => True) (fun _ _ _ => trivial)
    (fun _ _ _ _ _ _ _ _ _ _ _ _ _ _ => trivial) (fun _ _ _ => trivial) (h.mono fun _ _ h => ⟨h.noneIdle, trivial⟩)
  exact this.mono fun _ _ h => ⟨h.1.2.plain h.1.1, h.1.2.clean⟩

theorem Run.plainLater {disk1 : Str → Option Nat} (h : Run env cfg info disk0 (fun j e => Behaves env cfg db j e ∧ WritesLater disk1 e) j) :
    Run env cfg info disk0 (fun j e => (PlainBehaves env cfg db j e ∧ FailsClean env cfg db e) ∧ PlainLater disk1 e) j := by
  have := Run.splitBut (idle := fun _ => False) (X := fun _ e => WritesLater disk1 e) (X' := fun _ e => PlainLater disk1 e)
    (fun j e h => by
      intro file τ he
      cases e with
      | write f v => cases he; exact h file τ ⟨rfl, rfl⟩
      | _ => cases he)
    (fun j e j' f writes ex t j1 w m h hs hp hm => by
      intro file τ he
      have := hp.writes hm
      obtain ⟨wf, wv⟩ := w
      cases he
      exact h _ _ this)
    (fun _ _ _ _ _ h => by cases h) (h.mono fun _ _ h => ⟨h.1.noneIdle, h.2⟩)
  exact this.mono fun _ _ h => ⟨⟨h.1.2.plain h.1.1, h.1.2.clean⟩, h.2⟩

/-! ### For concrete runs -/

/-- The event writes nothing. -/
def writesNothing : Event → Bool
  | .startProcesses a => match a.res with
    | .sync _ => false
    | _ => true
  | .acquired _ res _ _ => match res with
    | .sync _ => false
    | _ => true
  | .write _ _ => false
  | _ => true

theorem not_writes {e : Event} (h : writesNothing e = true) {file : Str} {value : Option Nat} : ¬ Writes file value e := by
  intro hw
  cases e with
  | startProcesses a => obtain ⟨⟨f, hf⟩, _⟩ := hw; simp [writesNothing, hf] at h
  | acquired asked res ws w => obtain ⟨⟨f, hf⟩, _⟩ := hw; simp [writesNothing, hf] at h
  | write f v => cases h
  | grant => exact hw
  | childFinished _ _ => exact hw
  | abortDone => exact hw

theorem later_quiet {disk1 : Str → Option Nat} {e : Event} (h : writesNothing e = true) : WritesLater disk1 e := fun _ _ hw => absurd hw (not_writes h)

theorem works_running {e : Event} {ws : List (Str × Option Nat)} : SyncWorks env cfg db idle j e .running ws := fun _ h => by cases h

theorem not_touched {e : Event} {x : Str} (h : ¬ Touches env cfg j e x) (value : Option Nat) : e ≠ .write x value := fun he => h (.inl ⟨value, he⟩)

/-! ### Contents -/

variable {C : Type} {recipe : Nat → (Str → C → Prop) → C} {c0 c : Str → C}

theorem _root_.Jom.Spec.Build.Traced.toRun {ok : J → (Str → C) → Event → Prop} {ok' : J → Event → Prop} (hok : ∀ j c e, ok j c e → ok' j e)
    (h : Traced env cfg info disk0 c0 ok j c) : Run env cfg info disk0 ok' j := by
  induction h with
  | start asked hd ha => exact .start asked hd ha
  | step asked _ hw hs _ hdn ha ih => exact .step asked ih (hok _ _ _ hw) hs hdn ha

/-- The contents after the changes `done`. -/
def mixed (done : List (Str × Option Nat)) (c' c : Str → C) (x : Str) : C := if x ∈ done.map (fun w => w.1) then c' x else c x

/-- Runs with contents are runs in which jom does nothing itself. -/
theorem _root_.Jom.Spec.Build.Traced.split {ok ok' : J → (Str → C) → Event → Prop}
    (hu : ∀ j c c' e, ok j c' e → (∀ x, ¬ Touches env cfg j e x → c' x = c x) → ok' j c (unsync e))
    (hw : ∀ j c' e j' f writes ex t j1 w m c, ok j c' e → Make.step env cfg j e = some j' → Splits env cfg j e j' f writes ex t j1 → w ∈ writes →
      ok' { j1 with m := m } c (.write w.1 w.2))
    (hf : ∀ j c' e j' f writes ex t j1, ok j c' e → Make.step env cfg j e = some j' → Splits env cfg j e j' f writes ex t j1 → Inv cfg j1.s →
      ok' { j1 with m := writes.foldl Make.write j1.m } c' (.childFinished ex f))
    (h : Traced env cfg info disk0 c0 ok j c) : PlainTraced env cfg info disk0 c0 ok' j c := by
  induction h with
  | start asked hd ha => exact .start asked hd ha
  | @step j j' c c' e asked hr hok hs hc hdn ha ih =>
    have hinv := (hr.toRun (ok' := fun _ _ => True) fun _ _ _ _ => trivial).reachable.inv
    rcases step_split hinv hs with ⟨h1, h2⟩ | ⟨f, writes, ex, t, j1, h1⟩
    · refine .step asked ih (hu _ _ _ _ hok hc) h1 (fun x hx => hc x ?_) hdn ha
      rintro (⟨value, rfl⟩ | ⟨value, t, hwr, j'', b, g1, g2, g3⟩)
      · exact hx value rfl
      · rw [hs] at g1
        cases g1
        rcases h2 with h2 | h2
        · cases e with
          | startProcesses a => obtain ⟨⟨f, hf⟩, _⟩ := hwr; simp [syncPart, hf] at h2
          | acquired asked res ws w => obtain ⟨⟨f, hf⟩, _⟩ := hwr; simp [syncPart, hf] at h2
          | write f v => obtain ⟨rfl, rfl⟩ := hwr; exact hx v rfl
          | grant => exact hwr
          | childFinished _ _ => exact hwr
          | abortDone => exact hwr
        · exact g3 (h2 _ _ g2)
    · have hb : j'.s.build = j.s.build := h1.build'.trans h1.build
      have g1 : PlainTraced env cfg info disk0 c0 ok' j1 c := by
        have := PlainTraced.step (c' := c) [] ih (hu _ _ _ _ hok hc) h1.first (fun _ _ => rfl) (fun h => absurd h1.build h) (fun _ h => by cases h)
        rwa [same_build [] h1.build] at this
      have hi1 : Inv cfg j1.s := by
        have hrun := hr.toRun (ok' := fun _ _ => True) fun _ _ _ _ => trivial
        have := Run.step [] hrun trivial h1.first (fun h => absurd h1.build h) (fun _ h => by cases h)
        rw [same_build [] h1.build] at this
        exact this.reachable.inv
      have g2 : ∀ (ws done : List (Str × Option Nat)) (m : Mem), (∀ w ∈ ws, w ∈ writes) →
          PlainTraced env cfg info disk0 c0 ok' { j1 with m := m } (mixed done c' c) →
          PlainTraced env cfg info disk0 c0 ok' { j1 with m := ws.foldl Make.write m } (mixed (done ++ ws) c' c) := by
        intro ws
        induction ws with
        | nil => intro done m _ h; rw [List.append_nil]; exact h
        | cons w ws ih2 =>
          intro done m hsub hm
          have := PlainTraced.step (c' := mixed (done ++ [w]) c' c) [] hm
            (hw _ _ _ _ _ _ _ _ _ w m _ hok hs h1 (hsub w (.head _))) (j' := { j1 with m := Make.write m w }) rfl
            (fun x hx => by
              have hne : x ≠ w.1 := fun h => hx w.2 (by rw [h])
              have hiff : x ∈ (done ++ [w]).map (fun w => w.1) ↔ x ∈ done.map (fun w => w.1) := by
                rw [List.map_append, List.mem_append]
                exact ⟨fun h => h.elim id fun h => absurd (List.mem_singleton.1 h) hne, .inl⟩
              unfold mixed
              by_cases h : x ∈ done.map (fun w => w.1)
              · rw [if_pos (hiff.2 h), if_pos h]
              · rw [if_neg (fun h' => h (hiff.1 h')), if_neg h]) (fun h => absurd rfl h) (fun _ h => by cases h)
          rw [same_build (env := env) (j := { j1 with m := m }) (j' := { j1 with m := Make.write m w }) [] rfl] at this
          have := ih2 (done ++ [w]) (Make.write m w) (fun w' h => hsub w' (List.mem_cons_of_mem _ h)) this
          rwa [List.append_assoc] at this
      have g2' := g2 writes [] j1.m (fun _ h => h) g1
      have hcc : mixed ([] ++ writes) c' c = c' := by
        funext x
        unfold mixed
        split
        · rfl
        · next hx =>
          refine (hc x ?_).symm
          rintro (⟨value, rfl⟩ | ⟨value, t', hwr, _⟩)
          · have := h1.part
            cases this
          · refine hx ?_
            have hmem : (x, value) ∈ writes := by
              have hp := h1.part
              cases e with
              | startProcesses a => obtain ⟨⟨f', hf'⟩, hm⟩ := hwr; simp only [syncPart, hf'] at hp; cases hp; exact hm
              | acquired asked res ws w => obtain ⟨⟨f', hf'⟩, hm⟩ := hwr; simp only [syncPart, hf'] at hp; cases hp; exact hm
              | write f v => cases hp
              | grant => exact hwr.elim
              | childFinished _ _ => exact hwr.elim
              | abortDone => exact hwr.elim
            rw [List.nil_append]
            exact List.mem_map.2 ⟨_, hmem, rfl⟩
      rw [hcc] at g2'
      have g3 := PlainTraced.step (c' := c') [] g2' (hf _ _ _ _ _ _ _ _ _ hok hs h1 hi1) h1.ends (fun _ _ => rfl) (fun h => absurd h1.build' h) (fun _ h => by cases h)
      rw [same_build (env := env) (j := { j1 with m := writes.foldl Make.write j1.m }) [] h1.build'] at g3
      rwa [same_build asked hb]

theorem _root_.Jom.Spec.Build.FollowsRecipes.part {e : Event} {f : Bool} {writes : List (Str × Option Nat)} {ex t : Nat} {j1 : J}
    (h : FollowsRecipes env cfg db recipe j c e) (hs : step env cfg j e = some j') (hp : Splits env cfg j e j' f writes ex t j1) (hf : f = false) :
    Correct recipe (fun n => changed j.m.files.disk writes (env.abs n)) (fun n => c (env.abs n)) db t := by
  have hst := hp.starts hs
  have hpp := hp.part
  subst hf
  cases e with
  | startProcesses a =>
    simp only [syncPart] at hpp
    split at hpp
    · next f' hf => cases hpp; exact h.2 t _ ⟨hf, hst, rfl⟩
    · cases hpp
  | acquired asked res ws b =>
    simp only [syncPart] at hpp
    split at hpp
    · next f' => cases hpp; exact h.2 t _ ⟨rfl, hst, rfl⟩
    · cases hpp
  | grant => cases hpp
  | childFinished _ _ => cases hpp
  | abortDone => cases hpp
  | write _ _ => cases hpp

/-- The first part of an event. -/
theorem follows_unsync {disk1 : Str → Option Nat} {c' : Str → C} {e : Event} (hok : FollowsRecipes env cfg db recipe j c' e ∧ WritesLater disk1 e)
    (hc : ∀ x, ¬ Touches env cfg j e x → c' x = c x) :
    (PlainFollows env cfg db recipe j c (unsync e) ∧ FailsClean env cfg db (unsync e)) ∧ PlainLater disk1 (unsync e) := by
  have hn := unsync_noSync e
  refine ⟨⟨⟨hn.plain (unsync_behaves hok.1.1.noneIdle), ?_⟩, hn.clean⟩, ?_⟩
  · intro ex he t ht
    cases e with
    | childFinished ex' f =>
      cases he
      have hcc : c = c' := by
        funext x
        refine (hc x ?_).symm
        rintro (⟨_, h⟩ | ⟨_, _, h, _⟩)
        · cases h
        · exact h
      rw [hcc]
      exact hok.1.2 t _ ⟨rfl, ht, rfl⟩
    | _ => cases he
  · intro file τ he
    cases e with
    | write f v => cases he; exact hok.2 file τ ⟨rfl, rfl⟩
    | _ => cases he

/-- What jom writes itself. -/
theorem follows_write {disk1 : Str → Option Nat} {c' : Str → C} {e : Event} {f : Bool} {writes : List (Str × Option Nat)} {ex t : Nat} {j1 : J}
    {w : Str × Option Nat} (m : Mem) (hok : FollowsRecipes env cfg db recipe j c' e ∧ WritesLater disk1 e) (hs : Make.step env cfg j e = some j')
    (hp : Splits env cfg j e j' f writes ex t j1) (hm : w ∈ writes) :
    (PlainFollows env cfg db recipe { j1 with m := m } c (.write w.1 w.2) ∧ FailsClean env cfg db (.write w.1 w.2)) ∧
      PlainLater disk1 (.write w.1 w.2) := by
  refine ⟨⟨⟨MayWrite.more ((hok.1.1.noneIdle.part hs hp).1 w hm) ?_, fun _ h => by cases h⟩, trivial⟩, ?_⟩
  · intro t' ht'
    rw [List.mem_singleton.1 ht']
    show t ∈ j1.s.busy.map (·.2)
    rw [hp.busy]
    exact .head _
  · intro file τ he
    have := hp.writes hm
    obtain ⟨wf, wv⟩ := w
    cases he
    exact hok.2 _ _ this

theorem Splits.unique {e : Event} {f : Bool} {writes : List (Str × Option Nat)} {ex t : Nat} {j1 : J} (hp : Splits env cfg j e j' f writes ex t j1)
    (hi : Inv cfg j1.s) : ∀ t', (ex, t') ∈ j1.s.busy → t' = t := by
  intro t' ht'
  have hb : (ex, t) ∈ j1.s.busy := by rw [hp.busy]; exact .head _
  have := busy_unique1 hi.ex.busyFst ht' hb rfl
  cases this
  rfl

theorem Splits.after {e : Event} {f : Bool} {writes : List (Str × Option Nat)} {ex t : Nat} {j1 : J} (hp : Splits env cfg j e j' f writes ex t j1) :
    (writes.foldl Make.write j1.m).files.disk = changed j.m.files.disk writes := by rw [writes_disk, hp.disk]

/-- The end of what jom does itself. -/
theorem follows_end {disk1 : Str → Option Nat} {c' : Str → C} {e : Event} {f : Bool} {writes : List (Str × Option Nat)} {ex t : Nat} {j1 : J}
    (hok : FollowsRecipes env cfg db recipe j c' e ∧ WritesLater disk1 e) (hs : Make.step env cfg j e = some j')
    (hp : Splits env cfg j e j' f writes ex t j1) (hi : Inv cfg j1.s) :
    (PlainFollows env cfg db recipe { j1 with m := writes.foldl Make.write j1.m } c' (.childFinished ex f) ∧
      FailsClean env cfg db (.childFinished ex f)) ∧ PlainLater disk1 (.childFinished ex f) := by
  have huni := hp.unique hi
  have hdisk := hp.after
  refine ⟨⟨⟨fun hff t' ht' => ?_, fun ex' he t' ht' => ?_⟩, trivial⟩, fun _ _ h => by cases h⟩
  · cases huni t' ht'
    show DidWork (fun n => (writes.foldl Make.write j1.m).files.disk (env.abs n)) db t
    rw [hdisk]
    exact (hok.1.1.noneIdle.part hs hp).2 hff id
  · cases he
    cases huni t' ht'
    show Correct recipe (fun n => (writes.foldl Make.write j1.m).files.disk (env.abs n)) _ db t
    rw [hdisk]
    exact hok.1.part hs hp rfl

theorem _root_.Jom.Spec.Build.Traced.plain {disk1 : Str → Option Nat}
    (h : Traced env cfg info disk0 c0 (fun j c e => FollowsRecipes env cfg db recipe j c e ∧ WritesLater disk1 e) j c) :
    PlainTraced env cfg info disk0 c0 (fun j c e => (PlainFollows env cfg db recipe j c e ∧ FailsClean env cfg db e) ∧ PlainLater disk1 e) j c :=
  h.split (fun _ _ _ _ hok hc => follows_unsync hok hc) (fun _ _ _ _ _ _ _ _ _ _ m _ hok hs hp hm => follows_write m hok hs hp hm)
    (fun _ _ _ _ _ _ _ _ _ hok hs hp hi => follows_end hok hs hp hi)

/-- Whether with the event no commands end successfully. -/
def endsNothing : Make.Event → Bool
  | .childFinished _ failed => failed
  | .startProcesses a => a.res != .sync false
  | .acquired _ res _ _ => res != .sync false
  | _ => true

theorem no_success {cfg : Cfg} {env : Env} {j : J} {e : Make.Event} {P : Nat → (Str → Option Nat) → Prop} (h : endsNothing e = true) :
    ∀ t disk, Succeeds env cfg j t disk e → P t disk := by
  intro t disk hs
  cases e with
  | childFinished ex f => obtain ⟨rfl, _⟩ := hs; cases h
  | startProcesses a => simp [endsNothing, hs.1] at h
  | acquired _ res _ _ => simp [endsNothing, hs.1] at h
  | _ => exact hs.elim

theorem succeeds_child {cfg : Cfg} {env : Env} {j : J} {ex : Nat} {P : Nat → (Str → Option Nat) → Prop}
    (h : ∀ t, (ex, t) ∈ j.s.busy → P t j.m.files.disk) : ∀ t disk, Succeeds env cfg j t disk (.childFinished ex false) → P t disk := by
  rintro t disk ⟨_, ht, rfl⟩
  exact h t ht

end Jom.Make
