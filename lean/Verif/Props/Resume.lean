/- C96: a build that has failed or was interrupted can be resumed. -/
import Verif.Proofs.MakeKept
import Verif.Proofs.MakeResumeKeep
import Verif.Props.Content

namespace Jom.Props

open Jom.Graph Jom.Sched Jom.UpToDate Jom.Spec.Build Jom.Make

variable {C : Type}

/-- C96. Stop a build at any moment (the state `j`): jom was killed, it has aborted because of a failure, or it has ended. If the targets that
are being made at that moment and those whose commands have failed still have the files that they had before the build (or still have none), then
everything that looks up to date has the right content. With `/K`: if no target that was requested later needs a target that has failed; this is so if
only one target was requested. -/
theorem C96_trustworthy_partial {env : Env} {cfg : Cfg} {db : Db} {disk : Str → Option Nat} {recipe : Nat → (Str → C → Prop) → C}
    {content content' : Str → C} {j : J}
    (hlookup : env.lookup = db.lookup) (hkey : ∀ r k, env.key r = some k → db.lookup r = some k) (hdir : env.dir = db.dir)
    (hall : cfg.buildAll = false) (hone : cfg.keepGoing = false ∨ NotRetried db cfg.targets j.s)
    (hun : Unambiguous env.abs (fun n => disk (env.abs n)) db cfg.targets)
    (hstart : StartsCorrect recipe (fun n => disk (env.abs n)) (fun n => content (env.abs n)) db cfg.targets)
    (hrun : Traced env cfg (fun k => fresh (db.target k)) disk content
      (fun j c e => FollowsRecipes env cfg db recipe j c e ∧ WritesLater disk e) j content')
    (huntouched : ∀ t, Wanted db cfg.targets t → Unfinished j.s t →
      j.m.files.disk (env.abs (db.target t).name) = disk (env.abs (db.target t).name) ∧
      content' (env.abs (db.target t).name) = content (env.abs (db.target t).name)) :
    StartsCorrect recipe (fun n => j.m.files.disk (env.abs n)) (fun n => content' (env.abs n)) db cfg.targets :=
  let p : Plan env cfg db disk := ⟨hlookup, hdir, hall, hkey, hun⟩
  (hrun.plain.resume p hstart hone).startsCorrect p hstart huntouched

/-- C96. However a build ends or is stopped, the makefile stays unambiguous: nothing that matters has vanished, and only files of wanted targets are new. -/
theorem C96_unambiguous {env : Env} {cfg : Cfg} {db : Db} {disk : Str → Option Nat}
    (hlookup : env.lookup = db.lookup) (hkey : ∀ r k, env.key r = some k → db.lookup r = some k) (hdir : env.dir = db.dir)
    (hall : cfg.buildAll = false) (hun : Unambiguous env.abs (fun n => disk (env.abs n)) db cfg.targets) {j : J}
    (hrun : Run env cfg (fun k => fresh (db.target k)) disk (Behaves env cfg db) j) :
    Unambiguous env.abs (fun n => j.m.files.disk (env.abs n)) db cfg.targets :=
  let p : Plan env cfg db disk := ⟨hlookup, hdir, hall, hkey, hun⟩
  (Run.kept p hrun.plain).unambiguous p

/-- C96. Then the next build, for the same targets or for targets that these need, leaves the right contents in all wanted targets for which there are
commands if it ends with exit code 0. -/
theorem C96_next_build_partial {env : Env} {cfg cfg' : Cfg} {db : Db} {disk : Str → Option Nat} {recipe : Nat → (Str → C → Prop) → C}
    {content content' content'' : Str → C} {j j' : J}
    (hlookup : env.lookup = db.lookup) (hkey : ∀ r k, env.key r = some k → db.lookup r = some k) (hdir : env.dir = db.dir)
    (hall : cfg.buildAll = false) (hone : cfg.keepGoing = false ∨ NotRetried db cfg.targets j.s)
    (hun : Unambiguous env.abs (fun n => disk (env.abs n)) db cfg.targets)
    (hstart : StartsCorrect recipe (fun n => disk (env.abs n)) (fun n => content (env.abs n)) db cfg.targets)
    (hrun : Traced env cfg (fun k => fresh (db.target k)) disk content
      (fun j c e => FollowsRecipes env cfg db recipe j c e ∧ WritesLater disk e) j content')
    (huntouched : ∀ t, Wanted db cfg.targets t → Unfinished j.s t →
      j.m.files.disk (env.abs (db.target t).name) = disk (env.abs (db.target t).name) ∧
      content' (env.abs (db.target t).name) = content (env.abs (db.target t).name))
    (hall' : cfg'.buildAll = false) (hsub : ∀ r ∈ cfg'.targets, Wanted db cfg.targets r)
    (hrun' : Traced env cfg' (fun k => fresh (db.target k)) j.m.files.disk content'
      (fun j' c e => FollowsRecipes env cfg' db recipe j' c e ∧ WritesLater j.m.files.disk e) j' content'') (h0 : 0 ∈ j'.s.exits) :
    ∀ t, Wanted db cfg'.targets t → Buildable (fun n => j'.m.files.disk (env.abs n)) db t →
      Correct recipe (fun n => j'.m.files.disk (env.abs n)) (fun n => content'' (env.abs n)) db t := by
  have h := C96_trustworthy_partial hlookup hkey hdir hall hone hun hstart hrun huntouched
  refine C74_content_partial hlookup hkey hdir hall' (Unambiguous.sub (C96_unambiguous hlookup hkey hdir hall hun
    (hrun.toRun fun _ _ _ h => h.1.1)) hsub) (fun x hx => h x ?_) hrun' h0
  obtain ⟨r, hr, hrx⟩ := hx
  obtain ⟨r', hr', h'⟩ := hsub r hr
  exact ⟨r', hr', h'.trans hrx⟩

/-- C96. An interrupted build that is resumed leaves the same contents as one that was not interrupted (`cfg₂`) from the same sources. With `/K`: if no target
that was requested later needs a target that has failed. -/
theorem C96_same_result_partial {env : Env} {cfg cfg' cfg₂ : Cfg} {db : Db} {disk disk₂ : Str → Option Nat}
    {recipe : Nat → (Str → C → Prop) → C} {content content' content'' old₂ new₂ : Str → C}
    (hlookup : env.lookup = db.lookup) (hkey : ∀ r k, env.key r = some k → db.lookup r = some k) (hdir : env.dir = db.dir)
    (hall : cfg.buildAll = false)
    (hun : Unambiguous env.abs (fun n => disk (env.abs n)) db cfg.targets)
    (hstart : StartsCorrect recipe (fun n => disk (env.abs n)) (fun n => content (env.abs n)) db cfg.targets) {j j' j₂ : J} (hone : cfg.keepGoing = false ∨ NotRetried db cfg.targets j.s)
    (hrun : Traced env cfg (fun k => fresh (db.target k)) disk content
      (fun j c e => FollowsRecipes env cfg db recipe j c e ∧ WritesLater disk e) j content')
    (huntouched : ∀ t, Wanted db cfg.targets t → Unfinished j.s t →
      j.m.files.disk (env.abs (db.target t).name) = disk (env.abs (db.target t).name) ∧
      content' (env.abs (db.target t).name) = content (env.abs (db.target t).name))
    (hall' : cfg'.buildAll = false) (htargets : cfg'.targets = cfg.targets)
    (hrun' : Traced env cfg' (fun k => fresh (db.target k)) j.m.files.disk content'
      (fun j' c e => FollowsRecipes env cfg' db recipe j' c e ∧ WritesLater j.m.files.disk e) j' content'') (h0 : 0 ∈ j'.s.exits)
    (hall₂ : cfg₂.buildAll = false) (htargets₂ : cfg₂.targets = cfg.targets) (hfew : FewerThan db cfg.targets cfg₂.fuel)
    (hsources : SameSources env.abs db cfg.targets disk₂ disk old₂ content)
    (hun₂ : Unambiguous env.abs (fun n => disk₂ (env.abs n)) db cfg₂.targets)
    (hstart₂ : StartsCorrect recipe (fun n => disk₂ (env.abs n)) (fun n => old₂ (env.abs n)) db cfg₂.targets)
    (hrun₂ : Traced env cfg₂ (fun k => fresh (db.target k)) disk₂ old₂
      (fun j c e => FollowsRecipes env cfg₂ db recipe j c e ∧ WritesLater disk₂ e) j₂ new₂) (h0₂ : 0 ∈ j₂.s.exits) :
    ∀ t, Wanted db cfg.targets t → Derived (fun n => disk₂ (env.abs n)) db t →
      j'.m.files.disk (env.abs (db.target t).name) ≠ none ∧
      content'' (env.abs (db.target t).name) = new₂ (env.abs (db.target t).name) := by
  intro t ht hd
  let p : Plan env cfg db disk := ⟨hlookup, hdir, hall, hkey, hun⟩
  have hsame := (hrun.plain.onlyDerived hfew p hstart hone).sameSources
  have hall3 : SameSources env.abs db cfg₂.targets disk₂ j.m.files.disk old₂ content' := by
    rw [htargets₂]
    intro n hn hno
    obtain ⟨h1, h2⟩ := hsources n hn hno
    obtain ⟨h3, h4⟩ := hsame n hn fun k hk ha hdk =>
      hno k hk ha (derived_back (cfg := cfg) (disk := disk₂) p rfl rfl hsources hdk hk)
    exact ⟨h1.trans h3, h2.trans h4⟩
  have htr : StartsCorrect recipe (fun n => j.m.files.disk (env.abs n)) (fun n => content' (env.abs n)) db cfg'.targets := by
    rw [htargets]
    exact C96_trustworthy_partial hlookup hkey hdir hall hone hun hstart hrun huntouched
  have hun' : Unambiguous env.abs (fun n => j.m.files.disk (env.abs n)) db cfg'.targets := by
    rw [htargets]
    exact C96_unambiguous hlookup hkey hdir hall hun (hrun.toRun fun _ _ _ h => h.1.1)
  have := C74_same_result_partial (cfg := cfg₂) (cfg' := cfg') hlookup hkey hdir (htargets₂ ▸ hfew) (htargets.trans htargets₂.symm) hall3
    hall₂ hun₂ hstart₂ hrun₂ h0₂ hall' hun' htr hrun' h0 t (htargets₂ ▸ ht) hd
  exact ⟨this.2.1, this.2.2.symm⟩

/-! ### The makefile of C74: `a.o` is made, and the commands for `app` fail; or the commands for `a.o` fail after having written it -/

namespace ResumeCase

open NullCase (db env)
open ContentCase

/-- Before: `a.c` is there and nothing else. -/
abbrev first : Str → Option Nat := start false

/-- After the first run in both cases: `a.c` and `a.o`. -/
def second : Str → Option Nat := disk 4 (some 5) none

abbrev OK (j : J) (c : Str → Prop) (e : Make.Event) : Prop :=
  FollowsRecipes env (cfg first) db recipe j c e ∧ WritesLater first e

def j1 : J := after first (j0 first) (.startProcesses (answers 4))
def j2 : J := after first j1 (.write c!"a.o" (some 5))

theorem later {file : Str} {n : Nat} (hn : 4 < n) : WritesLater first (.write file (some n)) := by
  intro f τ he x s hs
  cases he.2
  exact Nat.lt_of_le_of_lt (start_le hs) hn

/-- `a.o` is written with whatever content. -/
theorem run2 (c : Str → Prop) (hc : ∀ x, x ≠ c!"a.o" → c x = content x) :
    Traced env (cfg first) (fun k => fresh (db.target k)) first content OK j2 c := by
  have h0 : Traced env (cfg first) (fun k => fresh (db.target k)) first content OK (j0 first) content :=
    Traced.start [] (fun t => rfl) (fun n hn => by cases hn)
  have h1 : Traced _ _ _ _ _ _ j1 _ := next (.startProcesses (answers 4)) content h0
    ⟨⟨⟨fun x s h => start_le (old := false) h, works_running⟩, no_success rfl⟩, later_quiet rfl⟩
    (by decide +kernel) (by decide +kernel) (fun _ _ => rfl)
  exact next (.write c!"a.o" (some 5)) c h1
    ⟨⟨⟨by decide, .inl ⟨1, by decide +kernel, rfl, by decide⟩⟩, no_success rfl⟩, later (by decide)⟩
    (by decide +kernel) (by decide +kernel) fun x hx => hc x fun he => hx (some 5) (by rw [he])

/-! #### The commands for `app` fail -/

def j3 : J := after first j2 (.childFinished 0 false)
def j4 : J := after first j3 (.startProcesses (answers 5))
def j5 : J := after first j4 (.childFinished 1 true)

theorem disk3 : j3.m.files.disk = fun x => if x = c!"a.o" then some 5 else first x := rfl

theorem run5 : Traced env (cfg first) (fun k => fresh (db.target k)) first content OK j5 (made c!"a.o" content) := by
  have h2 := run2 (made c!"a.o" content) fun x hx => by simp [made, hx]
  have h3 : Traced _ _ _ _ _ _ j3 _ := next (.childFinished 0 false) (made c!"a.o" content) h2
    ⟨⟨fun _ => only (t' := 1) (by decide +kernel) (did1 (s := 4) (o := 5) rfl rfl (by decide)),
      by
        refine succeeds_child ?_
        refine only (t' := 1) (by decide +kernel) ((correct1 ?_).2 ?_)
        · show first c!"a.c" ≠ none
          decide +kernel
        · simp [made, content, env]⟩, later_quiet rfl⟩
    (by decide +kernel) (by decide +kernel) (fun _ _ => rfl)
  have h4 : Traced _ _ _ _ _ _ j4 _ := next (.startProcesses (answers 5)) (made c!"a.o" content) h3
    ⟨⟨⟨fun x s h => by
        rw [disk3] at h
        simp only at h
        show s ≤ 5
        split at h
        · cases h; decide
        · exact Nat.le_trans (start_le h) (by decide), works_running⟩, no_success rfl⟩, later_quiet rfl⟩
    (by decide +kernel) (by decide +kernel) (fun _ _ => rfl)
  exact next (.childFinished 1 true) _ h4 ⟨⟨(fun h => by cases h), no_success rfl⟩, later_quiet rfl⟩
    (by decide +kernel) (by decide +kernel) (fun _ _ => rfl)

theorem after_first : (fun x => if x = c!"a.o" then some 5 else first x) = second := by
  funext x
  by_cases h1 : x = c!"a.o"
  · subst h1; decide +kernel
  · simp only [h1, if_false]
    simp only [start, second, disk, h1, if_false, Bool.false_eq_true]

theorem disk5 : j5.m.files.disk = second := after_first

theorem untouched5 (t : Nat) (_ : Wanted db (cfg first).targets t) (hu : Unfinished j5.s t) :
    j5.m.files.disk (env.abs (db.target t).name) = first (env.abs (db.target t).name) ∧
    made c!"a.o" content (env.abs (db.target t).name) = content (env.abs (db.target t).name) := by
  have hb : j5.s.busy = [] := by decide +kernel
  have hl : ∀ b x, Ev.failed b x ∈ j5.s.log → x = 0 := by
    have : j5.s.log = [.started 0 1, .succeeded 0 1, .started 0 0, .failed 0 0] := by decide +kernel
    rw [this]
    simp
  have ht : t = 0 := by
    rcases hu with h | ⟨b, h⟩
    · rw [hb] at h; cases h
    · exact hl b t h
  subst ht
  exact ⟨by decide +kernel, by simp [made, env, db]⟩

/-! #### The next run makes `app` only -/

def r1 : J := after second (j0 second) (.startProcesses (answers 6))
def r2 : J := after second r1 (.write c!"app" (some 7))
def r3 : J := after second r2 (.childFinished 0 false)
def r4 : J := after second r3 (.startProcesses (answers 9))

theorem second_le {x : Str} {τ : Nat} (h : second x = some τ) : τ ≤ 5 :=
  disk_le (by decide) (fun _ h => by cases h; decide) (fun _ h => by cases h) h

/-- `app` becomes a copy of `a.o`. -/
def copied (c : Str → Prop) : Str → Prop := fun n => if n = c!"app" then c c!"a.o" else c n

theorem next_run (c : Str → Prop) : Traced env (cfg second) (fun k => fresh (db.target k)) second c
    (fun j c e => FollowsRecipes env (cfg second) db recipe j c e ∧ WritesLater second e) r4 (copied c) := by
  have h0 : Traced env (cfg second) (fun k => fresh (db.target k)) second c
      (fun j c e => FollowsRecipes env (cfg second) db recipe j c e ∧ WritesLater second e) (j0 second) c :=
    Traced.start [] (fun t => rfl) (fun n hn => by cases hn)
  have h1 : Traced _ _ _ _ _ _ r1 _ := next (.startProcesses (answers 6)) c h0
    ⟨⟨⟨fun x s h => Nat.le_trans (second_le h) (by decide), works_running⟩, no_success rfl⟩, later_quiet rfl⟩
    (by decide +kernel) (by decide +kernel) (fun _ _ => rfl)
  have h2 : Traced _ _ _ _ _ _ r2 _ := next (.write c!"app" (some 7)) (copied c) h1
    ⟨⟨⟨by decide, .inl ⟨0, by decide +kernel, rfl, by decide⟩⟩, no_success rfl⟩,
      fun f τ he x s hs => by cases he.2; exact Nat.lt_of_le_of_lt (second_le hs) (by decide)⟩
    (by decide +kernel) (by decide +kernel) fun x hx => by
      have : x ≠ c!"app" := by rintro rfl; exact hx _ rfl
      simp [copied, this]
  have h3 : Traced _ _ _ _ _ _ r3 _ := next (.childFinished 0 false) (copied c) h2
    ⟨⟨fun _ => only (t' := 0) (by decide +kernel) (did0 (o := 5) (p := 7) rfl rfl (by decide)),
      by
        refine succeeds_child ?_
        refine only (t' := 0) (by decide +kernel) ((correct0 ?_).2 ?_)
        · show second c!"a.o" ≠ none
          decide +kernel
        · simp [copied, env]⟩, later_quiet rfl⟩
    (by decide +kernel) (by decide +kernel) (fun _ _ => rfl)
  have hd : r3.m.files.disk = fun x => if x = c!"app" then some 7 else second x := rfl
  exact next (.startProcesses (answers 9)) _ h3
    ⟨⟨⟨fun x s h => by
        rw [hd] at h
        simp only at h
        show s ≤ 9
        split at h
        · cases h; decide
        · exact Nat.le_trans (second_le h) (by decide), works_running⟩, no_success rfl⟩, later_quiet rfl⟩
    (by decide +kernel) (by decide +kernel) (fun _ _ => rfl)

theorem unambiguous2 : Unambiguous env.abs (fun n => second (env.abs n)) db (cfg second).targets :=
  unambiguous 4 (some 5) none (by decide) (by decide) (by decide)

/-- A case of the theorems: the first run has made `a.o` and ends with exit code 2 because of `app`; the second one makes `app`. -/
example : StartsCorrect recipe (fun n => j5.m.files.disk (env.abs n)) (fun n => made c!"a.o" content (env.abs n)) db (cfg first).targets :=
  C96_trustworthy_partial rfl (fun _ _ h => h) rfl rfl (.inl rfl) (unambiguous' false) (startsCorrect false) run5 untouched5

example : Correct recipe (fun n => r4.m.files.disk (env.abs n)) (fun n => copied (made c!"a.o" content) (env.abs n)) db 0 :=
  C96_next_build_partial (cfg' := cfg second) rfl (fun _ _ h => h) rfl rfl (.inl rfl) (unambiguous' false) (startsCorrect false) run5 untouched5 rfl
    (fun r hr => ⟨r, hr, .refl⟩) (by rw [disk5]; exact next_run _) (by decide +kernel) 0 ⟨0, by decide +kernel, .refl⟩ (.inl rfl)

/-- Compared with the run that was not interrupted. -/
example := C96_same_result_partial (cfg' := cfg second) (cfg₂ := cfg first) rfl (fun _ _ h => h) rfl rfl (unambiguous' false) (startsCorrect false) (.inl rfl)
  run5 untouched5 rfl rfl (by rw [disk5]; exact next_run _) (by decide +kernel) rfl rfl NullCase.few
  (fun _ _ _ => ⟨Iff.rfl, rfl⟩) (unambiguous' false) (startsCorrect false) (run7 false) (by decide +kernel) 1
  ⟨0, by decide +kernel, .single ⟨c!"a.o", by simp [db], .inl rfl⟩⟩ (derived1 false)

/-! #### The commands for `a.o` write it and fail -/

def f3 : J := after first j2 (.childFinished 0 true)
def f4 : J := after first f3 .abortDone

/-- Nothing useful was written. -/
theorem failed_run : Traced env (cfg first) (fun k => fresh (db.target k)) first content OK f4 content := by
  have h3 : Traced _ _ _ _ _ _ f3 _ := next (.childFinished 0 true) content (run2 content fun _ _ => rfl)
    ⟨⟨(fun h => by cases h), no_success rfl⟩, later_quiet rfl⟩
    (by decide +kernel) (by decide +kernel) (fun _ _ => rfl)
  exact next .abortDone _ h3 ⟨⟨trivial, no_success rfl⟩, later_quiet rfl⟩
    (by decide +kernel) (by decide +kernel) (fun _ _ => rfl)

theorem disk4 : f4.m.files.disk = second := after_first

end ResumeCase

/-- C96 needs "untouched": jom does not delete the file of a target whose commands have failed. The commands for `a.o` write a file and fail, jom
ends with exit code 2; the next build takes `a.o` for up to date, makes `app` of it and ends with exit code 0. -/
theorem C96_failed_file_stays : ∃ (env : Env) (cfg cfg' : Cfg) (db : Db) (disk : Str → Option Nat) (recipe : Nat → (Str → Prop → Prop) → Prop)
    (content content' content'' : Str → Prop) (j j' : J) (t : Nat),
    env.lookup = db.lookup ∧ (∀ r k, env.key r = some k → db.lookup r = some k) ∧ env.dir = db.dir ∧ cfg.buildAll = false ∧
    cfg.keepGoing = false ∧ Unambiguous env.abs (fun n => disk (env.abs n)) db cfg.targets ∧
    StartsCorrect recipe (fun n => disk (env.abs n)) (fun n => content (env.abs n)) db cfg.targets ∧
    Traced env cfg (fun k => fresh (db.target k)) disk content
      (fun j c e => FollowsRecipes env cfg db recipe j c e ∧ WritesLater disk e) j content' ∧
    j.s.exits = [2] ∧ j.s.busy = [] ∧ cfg'.buildAll = false ∧ cfg'.targets = cfg.targets ∧
    Unambiguous env.abs (fun n => j.m.files.disk (env.abs n)) db cfg'.targets ∧
    Traced env cfg' (fun k => fresh (db.target k)) j.m.files.disk content'
      (fun j' c e => FollowsRecipes env cfg' db recipe j' c e ∧ WritesLater j.m.files.disk e) j' content'' ∧
    j'.s.exits = [0] ∧ Wanted db cfg.targets t ∧ Buildable (fun n => j'.m.files.disk (env.abs n)) db t ∧
    ¬ Correct recipe (fun n => j'.m.files.disk (env.abs n)) (fun n => content'' (env.abs n)) db t := by
  refine ⟨NullCase.env, ContentCase.cfg ResumeCase.first, ContentCase.cfg ResumeCase.second, NullCase.db, ResumeCase.first, ContentCase.recipe,
    ContentCase.content, ContentCase.content, _, ResumeCase.f4, ResumeCase.r4, 1, rfl, fun _ _ h => h, rfl, rfl, rfl,
    ContentCase.unambiguous' false, ContentCase.startsCorrect false, ResumeCase.failed_run, by decide +kernel, by decide +kernel, rfl, rfl,
    by rw [ResumeCase.disk4]; exact ResumeCase.unambiguous2, by rw [ResumeCase.disk4]; exact ResumeCase.next_run _, by decide +kernel,
    ⟨0, by decide +kernel, .single ⟨c!"a.o", by simp [NullCase.db], .inl rfl⟩⟩, .inr ⟨c!"a.c", by simp [NullCase.db], 4, by decide +kernel⟩,
    fun h => ?_⟩
  have := (ContentCase.correct1 (by decide +kernel)).1 h
  simp [ResumeCase.copied, ContentCase.content, NullCase.env] at this

/-! #### With `/K`: `a` and `b` are requested; the commands for `a` fail, `b` is made -/

namespace RetryCase

def db : Db where
  lookup := fun n => if n = c!"a" then some 0 else if n = c!"b" then some 1 else none
  dir := c!"d"
  target := fun k => { name := if k = 0 then c!"a" else c!"b", deps := [], hasCmds := true, rules := [] }

def env : Env := { lookup := db.lookup, key := db.lookup, dir := db.dir, abs := id }

def disk : Str → Option Nat := fun _ => none

def cfg : Cfg :=
  { jobs := 1, keepGoing := true, buildAll := false, dumpGraph := false, targets := [0, 1],
    deps := fun _ k => (db.target k).deps.map (resolve env { disk := disk, cache := [] }), fuel := 5 }

/-- Both files have to contain 1. -/
def recipe (_ : Nat) (_ : Str → Prop → Prop) : Prop := True

def content : Str → Prop := fun _ => False

def after (j : J) (e : Make.Event) : J := (Make.step env cfg j e).getD j

def answers (now : Nat) : Answers := { NullCase.answers with now := now }

def j0 : J := { s := Sched.init cfg, m := buildAsked env [] { info := fun k => fresh (db.target k), files := { disk := disk, cache := [] } } }
def j1 : J := after j0 (.startProcesses (answers 1))
def j2 : J := after j1 (.childFinished 0 true)
def j3 : J := after j2 (.startProcesses (answers 1))
def j4 : J := after j3 (.startProcesses (answers 1))
def j5 : J := after j4 (.write c!"b" (some 2))
def j6 : J := after j5 (.childFinished 0 false)

theorem needs {t k : Nat} : ¬ Needs db t k := by rintro ⟨d, hd, _⟩; simp [db] at hd

theorem wanted {t : Nat} (h : Wanted db cfg.targets t) : t = 0 ∨ t = 1 := by
  obtain ⟨r, hr, h⟩ := h
  have hr : r = 0 ∨ r = 1 := by simpa [cfg] using hr
  cases h with
  | refl => exact hr
  | tail _ h => exact absurd h needs

theorem unambiguous : Unambiguous env.abs (fun n => disk (env.abs n)) db cfg.targets where
  names := fun t _ n h => by simp [db] at h
  distinct := by
    intro k l hk hl h
    rcases wanted hk with rfl | rfl <;> rcases wanted hl with rfl | rfl
    · rfl
    · exact absurd h (by decide)
    · exact absurd h (by decide)
    · rfl
  inferred := fun t _ r h => by simp [db] at h
  viaDir := fun t _ n h => by simp [db] at h
  acyclic := by
    intro t _ h
    cases h with
    | single h => exact needs h
    | tail _ h => exact needs h
  oneRule := fun t _ r h => by simp [db] at h
  filled := fun t _ => .inr (.inl rfl)
  times := fun n s h => by cases h

theorem startsCorrect : StartsCorrect recipe (fun n => disk (env.abs n)) (fun n => content (env.abs n)) db cfg.targets := by
  rintro x _ _ ⟨T, hT, _⟩
  cases hT

theorem step {ok : J → (Str → Prop) → Make.Event → Prop} {j : J} {c : Str → Prop} (e : Make.Event) (c' : Str → Prop)
    (h : Traced env cfg (fun k => fresh (db.target k)) disk content ok j c) (hok : ok j c' e) (hs : (Make.step env cfg j e).isSome = true)
    (hc : ∀ x, (∀ value, e ≠ .write x value) → c' x = c x) :
    Traced env cfg (fun k => fresh (db.target k)) disk content ok
      (if (after j e).s.build ≠ j.s.build then { after j e with m := buildAsked env [] (after j e).m } else after j e) c' := by
  obtain ⟨x, hx⟩ := Option.isSome_iff_exists.1 hs
  have ha : after j e = x := by unfold after; rw [hx]; rfl
  rw [ha]
  refine Traced.step (e := e) (j' := x) [] h hok hx (fun x hx => hc x (not_touched hx)) (fun _ t => ?_) (fun n hn => by cases hn)
  have hr := (h.toRun (ok' := fun _ _ => True) fun _ _ _ _ => trivial).recorded
  have hd : (x.m.info t).deps = [] := by
    rcases ((hr.grown t).trans ((step_armed hr.armed hx).1 t)).2 with ⟨h1, _⟩ | ⟨r, h1, _⟩
    · exact h1
    · cases h1
  rw [hd]
  rfl

abbrev OK (j : J) (c : Str → Prop) (e : Make.Event) : Prop :=
  FollowsRecipes env cfg db recipe j c e ∧ WritesLater disk e

/-- The run up to the end of `b`. -/
theorem run6 : Traced env cfg (fun k => fresh (db.target k)) disk content OK j6 (fun n => n = c!"b") := by
  have h0 : Traced env cfg (fun k => fresh (db.target k)) disk content OK j0 content := Traced.start [] (fun t => rfl) (fun n hn => by cases hn)
  have hno : ∀ now : Nat, WritesLater disk (.startProcesses (answers now)) := fun _ => later_quiet rfl
  have hst : ∀ {j : J} {now : Nat} {c : Str → Prop}, (∀ x s, j.m.files.disk x = some s → s ≤ now) → OK j c (.startProcesses (answers now)) :=
    fun h => ⟨⟨⟨h, works_running⟩, no_success rfl⟩, hno _⟩
  have h1 : Traced env cfg (fun k => fresh (db.target k)) disk content OK j1 content := by
    have := step (.startProcesses (answers 1)) content h0 (hst fun _ _ h => by cases h) (by decide +kernel) (fun _ _ => rfl)
    rwa [if_neg (by decide +kernel)] at this
  have h2 : Traced env cfg (fun k => fresh (db.target k)) disk content OK j2 content := by
    have := step (.childFinished 0 true) content h1
      ⟨⟨(fun h => by cases h), no_success rfl⟩, later_quiet rfl⟩ (by decide +kernel) (fun _ _ => rfl)
    rwa [if_neg (by decide +kernel)] at this
  have h3 : Traced env cfg (fun k => fresh (db.target k)) disk content OK j3 content := by
    have := step (.startProcesses (answers 1)) content h2 (hst fun _ _ h => by cases h) (by decide +kernel) (fun _ _ => rfl)
    rw [if_pos (by decide +kernel)] at this
    exact this
  have h4 : Traced env cfg (fun k => fresh (db.target k)) disk content OK j4 content := by
    have := step (.startProcesses (answers 1)) content h3 (hst fun _ _ h => by cases h) (by decide +kernel) (fun _ _ => rfl)
    rwa [if_neg (by decide +kernel)] at this
  have h5 : Traced env cfg (fun k => fresh (db.target k)) disk content OK j5 (fun n => n = c!"b") := by
    have := step (.write c!"b" (some 2)) (fun n => n = c!"b") h4
      ⟨⟨⟨by decide, .inl ⟨1, by decide +kernel, rfl, by decide⟩⟩, no_success rfl⟩, fun f τ he x s hs => by cases hs⟩
      (by decide +kernel) (fun x hx => by
        have : x ≠ c!"b" := by rintro rfl; exact hx _ rfl
        simp [content, this])
    rwa [if_neg (by decide +kernel)] at this
  have := step (.childFinished 0 false) (fun n => n = c!"b") h5
    ⟨⟨fun _ => ContentCase.only (t' := 1) (by decide +kernel) ⟨2, rfl, fun d hd => by rcases hd with h | ⟨h, _⟩ <;> simp [db] at h⟩,
      by
        refine succeeds_child ?_
        refine ContentCase.only (t' := 1) (by decide +kernel) ?_
        simp [Correct, recipe, env, db]⟩, later_quiet rfl⟩ (by decide +kernel) (fun _ _ => rfl)
  rwa [if_neg (by decide +kernel)] at this

theorem log6 : j6.s.log = [.started 0 0, .failed 0 0, .started 1 1, .succeeded 1 1] ∧ j6.s.busy = [] := by decide +kernel

/-- A case of the theorem with `/K`: `b` does not need `a`, which has failed. -/
example : StartsCorrect recipe (fun n => j6.m.files.disk (env.abs n)) (fun n => env.abs n = c!"b") db cfg.targets := by
  refine C96_trustworthy_partial rfl (fun _ _ h => h) rfl rfl (.inr ?_) unambiguous startsCorrect run6 ?_
  · intro b t hf b' r hb hb' hr hn
    rw [log6.1] at hf
    have ht : b = 0 ∧ t = 0 := by simpa using hf
    obtain ⟨rfl, rfl⟩ := ht
    have hb' : b' ≤ 1 := hb'
    have : b' = 1 := by omega
    subst this
    cases hr
    rcases hn.cases_head with h | ⟨z, h, _⟩
    · cases h
    · exact needs h
  · intro t _ hu
    have ht : t = 0 := by
      rcases hu with h | ⟨b, h⟩
      · rw [log6.2] at h; cases h
      · rw [log6.1] at h; simp at h; exact h.2
    subst ht
    exact ⟨by decide +kernel, by simp [content, env, db]⟩

end RetryCase

end Jom.Props
