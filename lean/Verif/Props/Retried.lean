/- What `/K` does not do if several targets are requested: what is needed by a target requested later is looked at anew, and then a target whose commands have
failed counts as up to date if they have left a new file (C36, C106). -/
import Verif.Props.Failures

namespace Jom.Props

open Jom.Graph Jom.Sched Jom.UpToDate Jom.Spec.Build Jom.Make Relation

/-! ### `jom /K a.o app` with `app: a.o b.o`, `a.o: a.c` (to be made, and its commands fail) and `b.o: b.c` (up to date). -/

namespace AgainCase

open RebuildCase (db env disk disk_lt resolves deps rules needs cmds)
open FailCase (only)

def cfg : Cfg := { RebuildCase.cfg with jobs := 1, keepGoing := true, targets := [1, 0] }

def runs (now : Nat) : Answers := { NullCase.answers with now := now }

/-- The commands for `a.o` fail, all others succeed. (Contents play no role.) -/
def works (t : Nat) (_ : Str → Unit → Prop) : Prop := t ≠ 1

def recipe (_ : Nat) (_ : Str → Unit → Prop) : Unit := ()

def content : Str → Unit := fun _ => ()

theorem wanted {t : Nat} (h : Wanted db cfg.targets t) : t = 0 ∨ t = 1 ∨ t = 2 := by
  obtain ⟨r, hr, h⟩ := h
  have hr : r = 1 ∨ r = 0 := by simpa [cfg] using hr
  cases h with
  | refl => omega
  | tail _ h =>
    obtain ⟨d, _, h⟩ := h
    exact (resolves h).1

theorem unambiguous : Unambiguous env.abs (fun n => disk (env.abs n)) db cfg.targets where
  names := by
    intro t ht n hn k hk
    constructor
    · exact fun h => (resolves h).2
    · intro h
      have h : n = (db.target k).name := h
      rcases wanted hk with rfl | rfl | rfl <;> exact .inl (by rw [h]; rfl)
  distinct := by
    intro k l hk hl
    rcases wanted hk with rfl | rfl | rfl <;> rcases wanted hl with rfl | rfl | rfl <;> simp [db, env]
  inferred := fun t _ r hr => (rules hr).elim
  viaDir := fun t _ n _ _ k _ => cmds k
  acyclic := by
    intro t _ h
    have key : ∀ {a b : Nat}, Relation.TransGen (Needs db) a b → a = 0 ∧ b ≠ 0 := by
      intro a b h
      induction h with
      | single h => exact needs h
      | tail _ h ih => exact ⟨ih.1, (needs h).2⟩
    obtain ⟨h1, h2⟩ := key h
    exact h2 h1
  oneRule := fun t _ r hr => (rules hr).elim
  filled := fun t _ => .inr (.inl (cmds t))
  times := fun n s h => (disk_lt h).2

theorem correct (f : Files) (c : Str → Unit) (t : Nat) : Correct recipe f c db t := rfl

theorem few : FewerThan db cfg.targets cfg.fuel := by
  refine ⟨[0, 1, 2], by simp [cfg], fun x _ y hy => ?_, by decide⟩
  obtain ⟨d, _, h⟩ := hy
  rcases (resolves h).1 with rfl | rfl | rfl <;> simp

theorem plain (k : Nat) (_ : Wanted db cfg.targets k) (hd : ¬ Derived (fun n => disk (env.abs n)) db k) (_ : disk (env.abs (db.target k).name) ≠ none) (y : Nat) :
    ¬ Needs db k y := absurd (.commands (cmds k)) hd

abbrev OK (j : J) (c : Str → Unit) (e : Make.Event) : Prop :=
  (FollowsRecipes env cfg db recipe j c e ∧ WritesLater disk e) ∧ Decides env cfg db works j c e

abbrev Traces (j : J) : Prop := Traced env cfg (fun k => fresh (db.target k)) disk content OK j content

def after (j : J) (e : Make.Event) : J :=
  let j' := (Make.step env cfg j e).getD j
  if j'.s.build ≠ j.s.build then { j' with m := buildAsked env [] j'.m } else j'

theorem next {j : J} (e : Make.Event) (h : Traces j) (hb : Behaves env cfg db j e) (hw : WritesLater disk e) (hd : Decides env cfg db works j content e)
    (hs : (Make.step env cfg j e).isSome = true)
    (hn : ((Make.step env cfg j e).getD j).s.build = j.s.build ∨
      DepsNow env cfg ((Make.step env cfg j e).getD j).m ((Make.step env cfg j e).getD j).s.build) : Traces (after j e) := by
  obtain ⟨x, hx⟩ := Option.isSome_iff_exists.1 hs
  unfold after
  rw [hx] at hn ⊢
  refine Traced.step (e := e) (j' := x) [] h ⟨⟨⟨hb, fun t d _ => correct _ _ t⟩, hw⟩, hd⟩ hx (fun _ _ => rfl) (fun hne => ?_) (fun n hn => by cases hn)
  rcases hn with hn | hn
  · exact absurd hn hne
  · exact hn

theorem quiet_start {j : J} {n : Nat} : Decides env cfg db works j content (.startProcesses (runs n)) := by
  rintro _ t failed d ⟨h, _⟩
  cases h

theorem quiet_write {j : J} {x : Str} {v : Option Nat} : Decides env cfg db works j content (.write x v) := by
  rintro _ t failed d h
  cases h

theorem ends {j : J} {ex t : Nat} {failed : Bool} (hb : j.s.busy = [(ex, t)]) (h : failed = false ↔ t ≠ 1) :
    Decides env cfg db works j content (.childFinished ex failed) := by
  rintro _ t' failed' d ⟨rfl, ht, rfl⟩
  rw [hb] at ht
  cases List.mem_singleton.1 ht
  exact h

theorem later {x : Str} {τ : Nat} (h : 11 ≤ τ) : WritesLater disk (.write x (some τ)) := by
  rintro _ _ ⟨_, h2⟩ y s hs
  cases h2
  exact Nat.lt_of_lt_of_le (disk_lt hs).1 h

theorem begins {j : J} {n : Nat} (h : ∀ x s, j.m.files.disk x = some s → s ≤ n) : Behaves env cfg db j (.startProcesses (runs n)) := ⟨h, works_running⟩

def j0 : J :=
  { s := Sched.init cfg
    m := buildAsked env [] { info := fun k => fresh (db.target k), files := { disk := disk, cache := [] } } }

theorem run0 : Traces j0 := Traced.start [] (fun t => rfl) (fun n hn => by cases hn)

def j1 : J := after j0 (.startProcesses (runs 11))

theorem run1 : Traces j1 :=
  next _ run0 (begins fun x s h => Nat.le_of_lt (disk_lt h).1) (later_quiet rfl) quiet_start (by decide +kernel) (.inl (by decide +kernel))

/-! #### The commands for `a.o` write a file and fail. -/

def a2 : J := after j1 (.write c!"a.o" (some 12))
def a3 : J := after a2 (.childFinished 0 true)
def a4 : J := after a3 (.startProcesses (runs 13))
def a5 : J := after a4 (.startProcesses (runs 13))
def a6 : J := after a5 (.write c!"app" (some 14))
def a7 : J := after a6 (.childFinished 0 false)
def a8 : J := after a7 (.startProcesses (runs 15))

theorem diskA : a3.m.files.disk = fun x => if x = c!"a.o" then some 12 else disk x := rfl
theorem diskA4 : a4.m.files.disk = fun x => if x = c!"a.o" then some 12 else disk x := rfl
theorem diskA6 : a6.m.files.disk = fun x => if x = c!"app" then some 14 else if x = c!"a.o" then some 12 else disk x := rfl
theorem diskA7 : a7.m.files.disk = fun x => if x = c!"app" then some 14 else if x = c!"a.o" then some 12 else disk x := rfl

theorem logA : a8.s.log = [.started 0 1, .failed 0 1, .upToDate 1 1, .upToDate 1 2, .started 1 0, .succeeded 1 0] ∧ a8.s.exits = [1] := by decide +kernel

theorem leA {x : Str} {s : Nat} (h : (if x = c!"a.o" then some 12 else disk x) = some s) : s ≤ 13 := by
  split at h
  · cases h; decide
  · exact Nat.le_trans (Nat.le_of_lt (disk_lt h).1) (by decide)

theorem work : DidWork (fun n => a6.m.files.disk (env.abs n)) db 0 := by
  refine ⟨14, rfl, fun d hd s hs => ?_⟩
  have hd : d = c!"a.o" ∨ d = c!"b.o" := by
    rcases hd with hd | ⟨hd, _⟩
    · rcases deps hd with ⟨_, h⟩ | ⟨h, _⟩ | ⟨h, _⟩
      · exact h
      · exact absurd h (by decide)
      · exact absurd h (by decide)
    · exact (rules hd).elim
  rcases hd with rfl | rfl
  · rw [behind_of_file (s := 12) rfl hs]; decide
  · rw [behind_of_file (s := 2) rfl hs]; decide

theorem runA : Traces a8 := by
  have h2 : Traces a2 := next _ run1 ⟨by decide, .inl ⟨1, by decide +kernel, rfl, by decide⟩⟩ (later (by decide)) quiet_write (by decide +kernel) (.inl (by decide +kernel))
  have h3 : Traces a3 := next _ h2 (fun h => by cases h) (later_quiet rfl) (ends (t := 1) (by decide +kernel) (by decide)) (by decide +kernel) (.inl (by decide +kernel))
  have h4 : Traces a4 := next _ h3 (begins fun x s h => leA (by rw [diskA] at h; exact h)) (later_quiet rfl) quiet_start (by decide +kernel)
    (.inr fun t => by
      match t with
      | 0 => rfl
      | 1 => rfl
      | 2 => rfl
      | n + 3 => rfl)
  have h5 : Traces a5 := next _ h4 (begins fun x s h => leA (by rw [diskA4] at h; exact h)) (later_quiet rfl) quiet_start (by decide +kernel) (.inl (by decide +kernel))
  have h6 : Traces a6 := next _ h5 ⟨by decide, .inl ⟨0, by decide +kernel, rfl, by decide⟩⟩ (later (by decide)) quiet_write (by decide +kernel) (.inl (by decide +kernel))
  have hb : a6.s.busy = [(0, 0)] := by decide +kernel
  have h7 : Traces a7 := next _ h6 (fun _ t ht => by
    rw [hb] at ht
    cases List.mem_singleton.1 ht
    exact work) (later_quiet rfl) (ends (t := 0) hb (by decide)) (by decide +kernel) (.inl (by decide +kernel))
  exact next _ h7 (begins fun x s h => by
    rw [diskA7] at h
    simp only at h
    split at h
    · cases h; decide
    · exact Nat.le_trans (leA h) (by decide)) (later_quiet rfl) quiet_start (by decide +kernel) (.inl (by decide +kernel))

/-! #### The commands for `a.o` fail without leaving a new file. -/

def b2 : J := after j1 (.childFinished 0 true)
def b3 : J := after b2 (.startProcesses (runs 12))
def b4 : J := after b3 (.startProcesses (runs 12))
def b5 : J := after b4 (.childFinished 0 true)
def b6 : J := after b5 (.startProcesses (runs 12))

theorem logB : b6.s.log = [.started 0 1, .failed 0 1, .upToDate 1 2, .started 1 1, .failed 1 1, .upToDate 1 0] ∧ b6.s.exits = [1] := by decide +kernel

theorem diskB2 : b2.m.files.disk = disk := rfl
theorem diskB3 : b3.m.files.disk = disk := rfl
theorem diskB5 : b5.m.files.disk = disk := rfl

theorem leB {x : Str} {s : Nat} (h : disk x = some s) : s ≤ 12 := Nat.le_trans (Nat.le_of_lt (disk_lt h).1) (by decide)

theorem runB : Traces b6 := by
  have h2 : Traces b2 := next _ run1 (fun h => by cases h) (later_quiet rfl) (ends (t := 1) (by decide +kernel) (by decide)) (by decide +kernel) (.inl (by decide +kernel))
  have h3 : Traces b3 := next _ h2 (begins fun x s h => leB (diskB2 ▸ h)) (later_quiet rfl) quiet_start (by decide +kernel)
    (.inr fun t => by
      match t with
      | 0 => rfl
      | 1 => rfl
      | 2 => rfl
      | n + 3 => rfl)
  have h4 : Traces b4 := next _ h3 (begins fun x s h => leB (diskB3 ▸ h)) (later_quiet rfl) quiet_start (by decide +kernel) (.inl (by decide +kernel))
  have h5 : Traces b5 := next _ h4 (fun h => by cases h) (later_quiet rfl) (ends (t := 1) (by decide +kernel) (by decide)) (by decide +kernel) (.inl (by decide +kernel))
  exact next _ h5 (begins fun x s h => leB (diskB5 ▸ h)) (later_quiet rfl) quiet_start (by decide +kernel) (.inl (by decide +kernel))

end AgainCase

theorem traced_run {C : Type} {env : Env} {cfg : Cfg} {info : Nat → TInfo} {disk : Str → Option Nat} {c0 c : Str → C} {j : J}
    {ok : J → (Str → C) → Make.Event → Prop} {ok' : J → Make.Event → Prop} (hok : ∀ j c e, ok j c e → ok' j e) (h : Traced env cfg info disk c0 ok j c) :
    Run env cfg info disk ok' j := by
  induction h with
  | start asked hd ha => exact .start asked hd ha
  | step asked _ hw hs _ hdn ha ih => exact .step asked ih (hok _ _ _ hw) hs hdn ha

/-- C36_across_partial applies: `app` is started although `a.o` has failed. -/
example := C36_across_partial AgainCase.cfg AgainCase.a8.s
  (traced_run (ok' := fun _ _ => True) (fun _ _ _ _ => trivial) AgainCase.runA).reachable
  (fun _ => (traced_run (ok' := fun _ _ => True) (fun _ _ _ _ => trivial) AgainCase.runA).acyclic ⟨rfl, rfl, rfl, fun _ _ h => h, AgainCase.unambiguous⟩)
  [.started 0 1, .failed 0 1, .upToDate 1 1, .upToDate 1 2] [.succeeded 1 0] 1 0 AgainCase.logA.1 0 1 (by rw [AgainCase.logA.1]; simp)
  (.single (by decide +kernel : Dep.node 1 ∈ AgainCase.cfg.deps 1 0))

open AgainCase in
open RebuildCase (db env disk) in
/-- C36 holds for each requested target, not across them. `jom /K a.o app`: the commands for `a.o` write a file and fail. For `app` jom looks at `a.o` anew and takes
it for up to date, so the commands for `app`, which needs `a.o`, are executed (with the file that failed commands have left). The exit code is 1. -/
theorem C36_across_refuted : ∃ (env : Env) (cfg : Cfg) (db : Db) (disk : Str → Option Nat) (j : J) (z p : Nat),
    env.lookup = db.lookup ∧ env.key = db.lookup ∧ env.dir = db.dir ∧ cfg.keepGoing = true ∧ cfg.buildAll = false ∧
    Unambiguous env.abs (fun n => disk (env.abs n)) db cfg.targets ∧
    Run env cfg (fun k => fresh (db.target k)) disk (fun j e => Behaves env cfg db j e ∧ WritesLater disk e) j ∧ Sched.Reachable cfg j.s ∧
    j.s.exits = [1] ∧ Ev.exception ∉ j.s.log ∧
    Ev.failed 0 z ∈ j.s.log ∧ Needs db p z ∧ Jom.Spec.DependsTrans (cfg.deps 1) p z ∧ Ev.upToDate 1 z ∈ j.s.log ∧ Ev.started 1 p ∈ j.s.log := by
  have hr : Run env cfg (fun k => fresh (db.target k)) disk (fun j e => Behaves env cfg db j e ∧ WritesLater disk e) a8 :=
    traced_run (fun _ _ _ h => ⟨h.1.1.1, h.1.2⟩) runA
  refine ⟨env, cfg, db, disk, a8, 1, 0, rfl, rfl, rfl, rfl, rfl, unambiguous, hr, hr.reachable, logA.2, by rw [logA.1]; simp, by rw [logA.1]; simp, ?_, ?_,
    by rw [logA.1]; simp, by rw [logA.1]; simp⟩
  · exact ⟨c!"a.o", by simp [db], .inl rfl⟩
  · exact .single (by decide +kernel : Dep.node 1 ∈ cfg.deps 1 0)

open AgainCase in
open RebuildCase (db env disk) in
/-- C106 needs "no target that has failed is needed by a target that was requested later": whether the commands of `app` are executed depends on what the failed
commands for `a.o` have left. -/
theorem C106_retried_refuted : ∃ (env : Env) (cfg : Cfg) (db : Db) (disk : Str → Option Nat) (recipe : Nat → (Str → Unit → Prop) → Unit)
    (works : Nat → (Str → Unit → Prop) → Prop) (content new new' : Str → Unit) (j j' : J) (t : Nat),
    env.lookup = db.lookup ∧ (∀ r k, env.key r = some k → db.lookup r = some k) ∧ env.dir = db.dir ∧ cfg.buildAll = false ∧ cfg.keepGoing = true ∧
    FewerThan db cfg.targets cfg.fuel ∧ Unambiguous env.abs (fun n => disk (env.abs n)) db cfg.targets ∧
    StartsCorrect recipe (fun n => disk (env.abs n)) (fun n => content (env.abs n)) db cfg.targets ∧
    (∀ k, Wanted db cfg.targets k → ¬ Derived (fun n => disk (env.abs n)) db k → disk (env.abs (db.target k).name) ≠ none → ∀ y, ¬ Needs db k y) ∧
    Traced env cfg (fun k => fresh (db.target k)) disk content
      (fun j c e => (FollowsRecipes env cfg db recipe j c e ∧ WritesLater disk e) ∧ Decides env cfg db works j c e) j new ∧
    Traced env cfg (fun k => fresh (db.target k)) disk content
      (fun j c e => (FollowsRecipes env cfg db recipe j c e ∧ WritesLater disk e) ∧ Decides env cfg db works j c e) j' new' ∧
    j.s.exits = [1] ∧ j'.s.exits = [1] ∧ Ev.exception ∉ j.s.log ∧ Ev.exception ∉ j'.s.log ∧
    (∃ b, Ev.started b t ∈ j.s.log) ∧ ¬ ∃ b, Ev.started b t ∈ j'.s.log :=
  ⟨env, cfg, db, disk, recipe, works, content, content, content, a8, b6, 0, rfl, fun _ _ h => h, rfl, rfl, rfl, few, unambiguous,
    fun x _ _ _ => correct _ _ x, plain, runA, runB, logA.2, logB.2, by rw [logA.1]; simp, by rw [logB.1]; simp, ⟨1, by rw [logA.1]; simp⟩,
    fun ⟨b, h⟩ => by rw [logB.1] at h; simp at h⟩

end Jom.Props
