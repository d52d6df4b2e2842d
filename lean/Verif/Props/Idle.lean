/- Property C101: makefiles with targets whose commands make no file. -/
import Verif.Proofs.MakeIdle
import Verif.Proofs.MakePhony
import Verif.Props.EndFailures

namespace Jom.Props

open Jom.Blocks Jom.Inference Jom.Prepare Jom.Graph Jom.Sched Jom.Make Jom.Parse Jom.Whole Relation
open Jom.Spec
open Jom.Spec.Blocks (canon Enclosed Described)
open Jom.Spec.Setup hiding Means
open Jom.Spec.Build
open Jom.Spec.Makefile (Flags)

section

variable {env : Make.Env} {cfg cfg' : Sched.Cfg} {db : Db} {disk : Str → Option Nat} {j j' : J} {idle : Nat → Prop}

/-- C101. When jom has ended with exit code 0 or 1 without an exception, every target that is needed and can be made is up to date, unless it or a target
that it needs is idle (its commands make no file) or has failed. -/
theorem C101_up_to_date_partial
    (hlookup : env.lookup = db.lookup) (hkey : ∀ r k, env.key r = some k → db.lookup r = some k) (hdir : env.dir = db.dir)
    (hall : cfg.buildAll = false) (hun : Unambiguous env.abs (fun n => disk (env.abs n)) db cfg.targets)
    (hrun : Run env cfg (fun k => fresh (db.target k)) disk
      (BehavesBut env cfg db idle) j)
    {c : Nat} (hx : c ∈ j.s.exits) (hc : c < 2) (hex : Ev.exception ∉ j.s.log)
    {x : Nat} (hw : Wanted db cfg.targets x) (hok : ∀ y, ReflTransGen (Spec.Build.Needs db) x y → ¬ idle y ∧ ∀ b, Ev.failed b y ∉ j.s.log)
    (hb : Buildable (fun n => j.m.files.disk (env.abs n)) db x) : UpToDate (fun n => j.m.files.disk (env.abs n)) db x :=
  (Run.soundBut ⟨hlookup, hdir, hall, hkey, hun⟩ hrun.decent (ended_complete hrun.reachable.inv hx hc hex)).2 x hw hok hb

/-- C101. A target is started only if it is needed and it, or a target that it needs, was out of date when jom began; whether or not the commands of
targets do their work. -/
theorem C101_only_what_depends_on_stale_partial
    (hlookup : env.lookup = db.lookup) (hkey : ∀ r k, env.key r = some k → db.lookup r = some k) (hdir : env.dir = db.dir)
    (hall : cfg.buildAll = false) (hun : Unambiguous env.abs (fun n => disk (env.abs n)) db cfg.targets)
    (hrun : Run env cfg (fun k => fresh (db.target k)) disk
      (BehavesBut env cfg db idle) j)
    {b x : Nat} (hx : Ev.started b x ∈ j.s.log) :
    Wanted db cfg.targets x ∧
    ∃ y, ReflTransGen (Spec.Build.Needs db) x y ∧ Buildable (fun n => disk (env.abs n)) db y ∧ ¬ UpToDate (fun n => disk (env.abs n)) db y := by
  have hsp := Run.sparedBut ⟨hlookup, hdir, hall, hkey, hun⟩ hrun.decent b x hx
  refine ⟨hsp.1, ?_⟩
  apply Classical.byContradiction
  intro hno
  refine hsp.2 fun y hy hb => ?_
  apply Classical.byContradiction
  intro hu
  exact hno ⟨y, hy, hb, hu⟩

/-- C101. The next run of jom, for the same targets or for targets that these need, starts a target only if it, or a target that it needs, is idle
or has failed before. -/
theorem C101_next_build_partial {idle' : Nat → Prop}
    (hlookup : env.lookup = db.lookup) (hkey : ∀ r k, env.key r = some k → db.lookup r = some k) (hdir : env.dir = db.dir)
    (hall : cfg.buildAll = false) (hun : Unambiguous env.abs (fun n => disk (env.abs n)) db cfg.targets)
    (hrun : Run env cfg (fun k => fresh (db.target k)) disk
      (BehavesBut env cfg db idle) j)
    {c : Nat} (hx : c ∈ j.s.exits) (hc : c < 2) (hex : Ev.exception ∉ j.s.log)
    (hall' : cfg'.buildAll = false) (hsub : ∀ r ∈ cfg'.targets, Wanted db cfg.targets r)
    (hrun' : Run env cfg' (fun k => fresh (db.target k)) j.m.files.disk
      (BehavesBut env cfg' db idle') j')
    {b x : Nat} (hs : Ev.started b x ∈ j'.s.log) :
    ∃ y, ReflTransGen (Spec.Build.Needs db) x y ∧ (idle y ∨ ∃ b', Ev.failed b' y ∈ j.s.log) := by
  obtain ⟨h1, h2⟩ := Run.soundBut ⟨hlookup, hdir, hall, hkey, hun⟩ hrun.decent (ended_complete hrun.reachable.inv hx hc hex)
  obtain ⟨⟨r, hr, hrx⟩, y, hy, hb, hu⟩ := C101_only_what_depends_on_stale_partial hlookup hkey hdir hall' (Unambiguous.sub h1 hsub) hrun' hs
  apply Classical.byContradiction
  intro hno
  obtain ⟨r', hr', hrr⟩ := hsub r hr
  refine hu (h2 y ⟨r', hr', hrr.trans (hrx.trans hy)⟩ (fun z hz => ⟨fun hi => hno ⟨z, hy.trans hz, .inl hi⟩, fun b' hf => hno ⟨z, hy.trans hz, .inr ⟨b', hf⟩⟩⟩) hb)

end

section

variable {w : PP.World} {fuel : Nat} {entries : Str → Str → List Str} {fl : Flags} {active active' : List Str} {s : PP.St}
  {p : PSt PP.St} {order : List (Str × List Str)} {keys : List Str} {t : Tab} {ids : List Nat}
  {dir : Str} {abs : Str → Str} {cfg cfg' : Sched.Cfg} {disk : Str → Option Nat} {j j' : J} {idle : Nat → Prop}

/-- C101, from the text of a makefile. -/
theorem C101_makefile_partial (h : Loaded w fuel entries dir fl active s p order keys t ids) (hdot : NoDot t) (ht : cfg.targets = ids)
    (hall : cfg.buildAll = false) (hun : Unambiguous abs (fun n => disk (abs n)) (dbOf t dir) ids)
    (hrun : Run (env t dir abs) cfg (info t) disk
      (BehavesBut (env t dir abs) cfg (dbOf t dir) idle) j) :
    (∀ b x, Ev.started b x ∈ j.s.log → Wanted (dbOf t dir) ids x ∧ ∃ y, ReflTransGen (Spec.Build.Needs (dbOf t dir)) x y ∧
      Buildable (fun n => disk (abs n)) (dbOf t dir) y ∧ ¬ UpToDate (fun n => disk (abs n)) (dbOf t dir) y) ∧
    ∀ c ∈ j.s.exits, c < 2 → Ev.exception ∉ j.s.log →
      ∀ x, Wanted (dbOf t dir) ids x → (∀ y, ReflTransGen (Spec.Build.Needs (dbOf t dir)) x y → ¬ idle y ∧ ∀ b, Ev.failed b y ∉ j.s.log) →
        Buildable (fun n => j.m.files.disk (abs n)) (dbOf t dir) x → UpToDate (fun n => j.m.files.disk (abs n)) (dbOf t dir) x := by
  subst ht
  rw [info_fresh t dir] at hrun
  have hk := loaded_key h hdot (abs := abs)
  exact ⟨fun b x hx => C101_only_what_depends_on_stale_partial (env := env t dir abs) (db := dbOf t dir) rfl hk rfl hall hun hrun hx,
    fun c hx hc hex x hw hok hb => C101_up_to_date_partial (env := env t dir abs) (db := dbOf t dir) rfl hk rfl hall hun hrun hx hc hex hw hok hb⟩

/-- C101, from the text of a makefile: the next run of jom. -/
theorem C101_makefile_next_partial {idle' : Nat → Prop} (h : Loaded w fuel entries dir fl active s p order keys t ids) (hdot : NoDot t)
    (ht : cfg.targets = ids) (ht' : cfg'.targets = ids) (hall : cfg.buildAll = false) (hall' : cfg'.buildAll = false)
    (hun : Unambiguous abs (fun n => disk (abs n)) (dbOf t dir) ids)
    (hrun : Run (env t dir abs) cfg (info t) disk
      (BehavesBut (env t dir abs) cfg (dbOf t dir) idle) j)
    {c : Nat} (hx : c ∈ j.s.exits) (hc : c < 2) (hex : Ev.exception ∉ j.s.log)
    (hrun' : Run (env t dir abs) cfg' (info t) j.m.files.disk
      (BehavesBut (env t dir abs) cfg' (dbOf t dir) idle') j')
    {b x : Nat} (hs : Ev.started b x ∈ j'.s.log) :
    ∃ y, ReflTransGen (Spec.Build.Needs (dbOf t dir)) x y ∧ (idle y ∨ ∃ b', Ev.failed b' y ∈ j.s.log) := by
  subst ht
  rw [info_fresh t dir] at hrun hrun'
  exact C101_next_build_partial (env := env t dir abs) (db := dbOf t dir) rfl (loaded_key h hdot) rfl hall hun hrun hx hc hex hall'
    (fun r hr => ⟨r, ht' ▸ hr, .refl⟩) hrun' hs

/-- C101: a target with commands whose file never exists is made by every build that needs it and ends with exit code 0. -/
theorem C101_always_made_partial (h : Loaded w fuel entries dir fl active s p order keys t ids) (ht : cfg.targets = ids) (hd : NoDir t dir)
    (hdecl : SourcesDeclared t.target t.candidates dir (wanted p.table active))
    {b : Nat} {a n : Str} {d : Described} (ha : (wanted p.table active)[b]? = some a) (hn : Named t.target [a] n) (hd' : t.target n = some d)
    (hcmds : d.cmds ≠ []) (hno : disk (abs d.name) = none)
    (hrun : Run (env t dir abs) cfg (info t) disk (fun _ e => LeavesAway (abs d.name) e) j) (h0 : 0 ∈ j.s.exits) :
    ∃ k, t.entry k = some d ∧ Ev.started b k ∈ j.s.log ∧ Ev.succeeded b k ∈ j.s.log := by
  obtain ⟨_, _, _, _, _, _, _, _, hp⟩ := C76_prepared h
  obtain ⟨_, _, h3⟩ := C73_exit_zero_partial hp ht hd hdecl hrun h0
  obtain ⟨k, hk, hdone⟩ := h3 b a n d ha hn hd'
  refine ⟨k, hk, ?_⟩
  have hs : Ev.succeeded b k ∈ j.s.log := by
    obtain ⟨e, he, rfl⟩ := entry_iff.1 hk
    have hi := info_entry he
    have hb := hrun.busy (F := abs (describe e.2).name) (x := k) (fun _ _ h => h) (by rw [hi]; rfl) hno (by rw [hi]) (by
      rw [hi]
      simpa [describe] using hcmds)
    exact hdone.elim id fun hx => hx.elim (fun h => absurd h (hb.log b).1) fun h => absurd h (hb.log b).2
  exact ⟨hrun.reachable.inv.lg.ran b k (.inl hs), hs⟩

end

/-! ### The makefile of C98: `app: foo.obj` with a command that makes no file, and the rule `.c.obj`; only `foo.c` exists -/

namespace IdleCase

open MainCase (disk b)
open EndCase (tab db e0 unambiguous loaded noDot disk_le answers tidy)
open EndFailCase (cfg after j0 j1 j2 j3 shows next second second_le disk3 disk2 work1 wanted1 cone1)

abbrev idle (t : Nat) : Prop := t = 0

def j4 : J := after false disk (j3 false) (.startProcesses (shows 5))
def j5 : J := after false disk j4 (.startProcesses (answers 6))

theorem logs : (j3 false).s.log = [.started 0 1, .succeeded 0 1] ∧ j4.s.log = [.started 0 1, .succeeded 0 1, .started 0 0, .succeeded 0 0] ∧
    j5.s.log = j4.s.log ∧ j5.s.exits = [0] ∧ (j0 false disk).s.log = [] := by decide +kernel

theorem disk5 : j5.m.files.disk = second := rfl
theorem disk4 : j4.m.files.disk = second := rfl

abbrev OK (d : Str → Option Nat) (j : J) (e : Make.Event) : Prop :=
  BehavesBut e0 (cfg false d) db idle j e ∧ LeavesAway c!"app" e

theorem notSync {d : Str → Option Nat} {j : J} {e : Make.Event} {ws : List (Str × Option Nat)} : SyncWorks e0 (cfg false d) db idle j e BuildCase.answers.res ws :=
  works_running

theorem run5 : Run e0 (cfg false disk) (info tab) disk (OK disk) j5 := by
  have h0 : Run e0 (cfg false disk) (info tab) disk (OK disk) (j0 false disk) := Run.start [] (fun t => rfl) (fun n hn => by cases hn)
  have h1 : Run _ _ _ _ _ (j1 false) := next h0 ⟨⟨fun x s h => by rw [disk_le h]; decide, notSync⟩, fun w hw => by cases hw⟩
    (by decide +kernel) (by decide +kernel)
  have h2 : Run _ _ _ _ _ (j2 false) := next h1 ⟨⟨by decide, .inl ⟨1, by decide +kernel, rfl, by decide⟩⟩, fun h => absurd h (by decide)⟩
    (by decide +kernel) (by decide +kernel)
  have h3 : Run _ _ _ _ _ (j3 false) := next h2 ⟨fun _ t ht _ => ContentCase.only (t' := 1) (by decide +kernel) (by rw [disk2]; exact work1) t ht, trivial⟩ (by decide +kernel) (by decide +kernel)
  have h4 : Run _ _ _ _ _ j4 := next h3 ⟨⟨fun x s h => by rw [disk3] at h; exact second_le h, fun _ _ t ht => ⟨fun w hw => (by cases hw), fun _ hne => by
      obtain ⟨j', b, hs, h1, h2⟩ := ht
      have hj : j' = j4 := by unfold j4 after; rw [hs]; rfl
      rw [hj, logs.2.1] at h1
      rw [logs.1] at h2
      exact absurd (show t = 0 by simp at h1 h2; grind) hne⟩⟩, fun w hw => by cases hw⟩
    (by decide +kernel) (by decide +kernel)
  exact next h4 ⟨⟨fun x s h => by rw [disk4] at h; exact Nat.le_trans (second_le h) (by decide), notSync⟩, fun w hw => by cases hw⟩
    (by decide +kernel) (by decide +kernel)

/-- `foo.obj` is up to date; nothing is said about `app`, which does not exist. -/
example : UpToDate (fun n => j5.m.files.disk (toLower n)) db 1 ∧ j5.m.files.disk c!"app" = none := by
  obtain ⟨_, _, hl⟩ := loaded
  refine ⟨(C101_makefile_partial (cfg := cfg false disk) hl noDot rfl rfl unambiguous (run5.mono fun _ _ h => h.1)).2 0
    (by rw [logs.2.2.2.1]; simp) (by decide) (by rw [logs.2.2.1, logs.2.1]; simp) 1 wanted1 (fun y hy => ?_)
    (.inr ⟨c!"foo.c", by rw [disk5, EndCase.rules1]; exact ⟨by simp, 1, by decide +kernel⟩⟩), by decide +kernel⟩
  rw [cone1 hy, logs.2.2.1, logs.2.1]
  exact ⟨by decide, fun b => by simp⟩

/-- `app` has been made, whatever happens. -/
example : ∃ k, tab.entry k = some (describe EndCase.app) ∧ Ev.started 0 k ∈ j5.s.log ∧ Ev.succeeded 0 k ∈ j5.s.log := by
  obtain ⟨_, _, hl⟩ := loaded
  exact C101_always_made_partial (cfg := cfg false disk) (b := 0) (a := c!"app") (n := c!"app") (abs := toLower) hl rfl
    (noDir tidy.choose_spec _ (by decide +kernel)) (sourcesDeclared tidy.choose_spec _ _ (by decide +kernel))
    (by decide +kernel) (.requested (by simp)) (by decide +kernel) (by decide +kernel) (by decide +kernel) (run5.mono fun _ _ h => h.2)
    (by rw [logs.2.2.2.1]; simp)

/-! #### The next run makes `app` again, and only `app` -/

def r1 : J := after false second (j0 false second) (.startProcesses (shows 7))
def r2 : J := after false second r1 (.startProcesses (answers 8))

theorem logs2 : r1.s.log = [.upToDate 0 1, .started 0 0, .succeeded 0 0] ∧ r2.s.log = r1.s.log ∧ r2.s.exits = [0] ∧ (j0 false second).s.log = [] := by
  decide +kernel

theorem run2 : Run e0 (cfg false second) (info tab) second (OK second) r2 := by
  have h0 : Run e0 (cfg false second) (info tab) second (OK second) (j0 false second) := Run.start [] (fun t => rfl) (fun n hn => by cases hn)
  have h1 : Run _ _ _ _ _ r1 := next h0 ⟨⟨fun x s h => Nat.le_trans (second_le h) (by decide), fun _ _ t ht => ⟨fun w hw => (by cases hw), fun _ hne => by
      obtain ⟨j', b, hs, h1, h2⟩ := ht
      have hj : j' = r1 := by unfold r1 after; rw [hs]; rfl
      rw [hj, logs2.1] at h1
      exact absurd (show t = 0 by simp at h1; exact h1.2) hne⟩⟩, fun w hw => by cases hw⟩
    (by decide +kernel) (by decide +kernel)
  exact next h1 ⟨⟨fun x s h => Nat.le_trans (second_le (show second x = some s from h)) (by decide), notSync⟩, fun w hw => by cases hw⟩
    (by decide +kernel) (by decide +kernel)

example : ∃ y, ReflTransGen (Spec.Build.Needs db) 0 y ∧ (idle y ∨ ∃ b', Ev.failed b' y ∈ j5.s.log) := by
  obtain ⟨_, _, hl⟩ := loaded
  exact C101_makefile_next_partial (cfg := cfg false disk) (cfg' := cfg false second) hl noDot rfl rfl rfl rfl unambiguous (run5.mono fun _ _ h => h.1) (c := 0)
    (by rw [logs.2.2.2.1]; simp) (by decide) (by rw [logs.2.2.1, logs.2.1]; simp) (j' := r2) (b := 0) (run2.mono fun _ _ h => h.1)
    (by rw [logs2.2.1, logs2.1]; simp)

/-- The theorem says that `foo.obj` is not made again. -/
example : ∀ b, Ev.started b 1 ∉ r2.s.log := by
  obtain ⟨_, _, hl⟩ := loaded
  intro b hb
  obtain ⟨y, hy, h⟩ := C101_makefile_next_partial (cfg := cfg false disk) (cfg' := cfg false second) hl noDot rfl rfl rfl rfl unambiguous
    (run5.mono fun _ _ h => h.1) (c := 0)
    (by rw [logs.2.2.2.1]; simp) (by decide) (by rw [logs.2.2.1, logs.2.1]; simp) (j' := r2) (run2.mono fun _ _ h => h.1) hb
  rw [cone1 hy, logs.2.2.1, logs.2.1] at h
  simp at h

end IdleCase

end Jom.Props
