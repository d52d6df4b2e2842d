/- Property C100: dry runs, failures and interrupted builds, from the text of a makefile. -/
import Verif.Props.EndToEnd
import Verif.Props.DryRun
import Verif.Props.KeepGoing
import Verif.Props.Resume
import Verif.Props.Batch

namespace Jom.Props

open Jom.Blocks Jom.Inference Jom.Prepare Jom.Graph Jom.Sched Jom.Make Jom.Parse Jom.Whole Relation
open Jom.Spec
open Jom.Spec.Blocks (canon Enclosed Described)
open Jom.Spec.Setup hiding Means
open Jom.Spec.Build
open Jom.Spec.Makefile (Flags)

section

variable {w : PP.World} {fuel : Nat} {entries : Str → Str → List Str} {fl : Flags} {active : List Str} {s : PP.St}
  {p : PSt PP.St} {order : List (Str × List Str)} {keys : List Str} {t : Tab} {ids : List Nat}
  {dir : Str} {abs : Str → Str} {cfg cfg' : Sched.Cfg} {disk : Str → Option Nat} {j j' : J}

theorem loaded_key (h : Loaded w fuel entries dir fl active s p order keys t ids) (hdot : NoDot t) :
    ∀ r k, (env t dir abs).key r = some k → (dbOf t dir).lookup r = some k := by
  obtain ⟨_, _, _, _, _, _, _, _, hp⟩ := C76_prepared h
  exact dbOf_key hp.known.tidy hdot dir abs

theorem loaded_few (h : Loaded w fuel entries dir fl active s p order keys t ids) {n : Nat} (hn : t.table.targets.length < n) :
    FewerThan (dbOf t dir) ids n := by
  obtain ⟨_, _, _, _, _, _, _, _, hp⟩ := C76_prepared h
  refine dbOf_few hp.known.tidy (fun r hr => ?_) hn
  obtain ⟨b, hb⟩ := List.getElem?_of_mem hr
  obtain ⟨a, d, _, h2, _⟩ := hp.known.root b r hb
  obtain ⟨e, h1, _⟩ := entry_iff.1 h2
  exact (List.getElem?_eq_some_iff.1 h1).1

/-- C100: `jom /N` for a makefile shows the commands of exactly those targets that are needed, can be made and are not up to date; it changes no file and
nothing fails. -/
theorem C100_dry_run_partial (h : Loaded w fuel entries dir fl active s p order keys t ids) (hdot : NoDot t) (ht : cfg.targets = ids)
    (hall : cfg.buildAll = false) (hun : Unambiguous abs (fun n => disk (abs n)) (dbOf t dir) ids)
    (hrun : Run (env t dir abs) cfg (info t) disk (OnlyShows disk) j) :
    (∀ b x, Ev.started b x ∈ j.s.log → (∃ r, ids[b]? = some r ∧ ReflTransGen (Spec.Build.Needs (dbOf t dir)) r x) ∧
      Buildable (fun n => disk (abs n)) (dbOf t dir) x ∧ ¬ UpToDate (fun n => disk (abs n)) (dbOf t dir) x) ∧
    j.m.files.disk = disk ∧ (∀ b x, Ev.failed b x ∉ j.s.log) ∧
    (0 ∈ j.s.exits → ∀ b r x, ids[b]? = some r → ReflTransGen (Spec.Build.Needs (dbOf t dir)) r x →
      Buildable (fun n => disk (abs n)) (dbOf t dir) x → ¬ UpToDate (fun n => disk (abs n)) (dbOf t dir) x → Ev.started b x ∈ j.s.log) := by
  subst ht
  rw [info_fresh t dir] at hrun
  exact C93_shown (env := env t dir abs) (db := dbOf t dir) rfl (loaded_key h hdot) rfl hall hun hrun

/-- C100: what `jom /N` shows is made by every build of this makefile, with the same files at the beginning, that ends with exit code 0; and what a
build makes depends on something that `jom /N` shows. -/
theorem C100_dry_run_tells_partial (h : Loaded w fuel entries dir fl active s p order keys t ids) (hdot : NoDot t) (ht : cfg.targets = ids)
    (ht' : cfg'.targets = ids) (hall : cfg.buildAll = false) (hall' : cfg'.buildAll = false)
    (hun : Unambiguous abs (fun n => disk (abs n)) (dbOf t dir) ids)
    (hrun : Run (env t dir abs) cfg (info t) disk (OnlyShows disk) j) (h0 : 0 ∈ j.s.exits)
    (hrun' : Run (env t dir abs) cfg' (info t) disk
      (fun j e => Behaves (env t dir abs) cfg' (dbOf t dir) j e ∧ WritesLater disk e) j') :
    (0 ∈ j'.s.exits → ∀ b x, Ev.started b x ∈ j.s.log → ∃ b', Ev.started b' x ∈ j'.s.log) ∧
    ((cfg'.keepGoing = false ∨ ∀ b x, Ev.failed b x ∉ j'.s.log) → ∀ b x, Ev.started b x ∈ j'.s.log →
      ∃ b' y, ReflTransGen (Spec.Build.Needs (dbOf t dir)) x y ∧ Ev.started b' y ∈ j.s.log) := by
  subst ht
  rw [info_fresh t dir] at hrun hrun'
  have hk := loaded_key h hdot (abs := abs)
  refine ⟨fun h0' b x hx => C93_shown_is_made (env := env t dir abs) (db := dbOf t dir) rfl hk rfl hall hall' ht' hun hrun hrun' h0' hx, ?_⟩
  intro hok b x hx
  exact C93_made_depends_on_shown (env := env t dir abs) (db := dbOf t dir) rfl hk rfl hall hall' ht' hun hrun h0
    (hrun'.mono fun _ _ h => h.1) hok hx

/-- C100: `jom /K` for a makefile, ended with exit code 0 or 1: every needed target that can be made, has not failed and needs no target that has failed
is up to date. -/
theorem C100_keep_going_partial (h : Loaded w fuel entries dir fl active s p order keys t ids) (hdot : NoDot t) (ht : cfg.targets = ids)
    (hall : cfg.buildAll = false) (hun : Unambiguous abs (fun n => disk (abs n)) (dbOf t dir) ids)
    (hrun : Run (env t dir abs) cfg (info t) disk
      (Behaves (env t dir abs) cfg (dbOf t dir)) j)
    {c : Nat} (hx : c ∈ j.s.exits) (hc : c < 2) (hex : Ev.exception ∉ j.s.log)
    {x : Nat} (hw : Wanted (dbOf t dir) ids x)
    (hok : ∀ y, ReflTransGen (Spec.Build.Needs (dbOf t dir)) x y → ∀ b, Ev.failed b y ∉ j.s.log)
    (hb : Buildable (fun n => j.m.files.disk (abs n)) (dbOf t dir) x) : UpToDate (fun n => j.m.files.disk (abs n)) (dbOf t dir) x := by
  subst ht
  rw [info_fresh t dir] at hrun
  exact C95_all_but_what_failed_partial (env := env t dir abs) (db := dbOf t dir) rfl (loaded_key h hdot) rfl hall hun hrun hx hc hex hw hok hb

/-- C100: a build of a makefile that was stopped at any moment, and the next one that ends with exit code 0. -/
theorem C100_resume_partial {C : Type} {recipe : Nat → (Str → C → Prop) → C} {content content' content'' : Str → C}
    (h : Loaded w fuel entries dir fl active s p order keys t ids) (hdot : NoDot t) (ht : cfg.targets = ids)
    (hsub : ∀ r ∈ cfg'.targets, Wanted (dbOf t dir) ids r) (hall : cfg.buildAll = false) (hall' : cfg'.buildAll = false) (hone : cfg.keepGoing = false ∨ NotRetried (dbOf t dir) ids j.s)
    (hun : Unambiguous abs (fun n => disk (abs n)) (dbOf t dir) ids)
    (hstart : StartsCorrect recipe (fun n => disk (abs n)) (fun n => content (abs n)) (dbOf t dir) ids)
    (hrun : Traced (env t dir abs) cfg (info t) disk content
      (fun j c e => FollowsRecipes (env t dir abs) cfg (dbOf t dir) recipe j c e ∧ WritesLater disk e) j content')
    (huntouched : ∀ x, Wanted (dbOf t dir) ids x → Unfinished j.s x →
      j.m.files.disk (abs ((dbOf t dir).target x).name) = disk (abs ((dbOf t dir).target x).name) ∧
      content' (abs ((dbOf t dir).target x).name) = content (abs ((dbOf t dir).target x).name))
    (hrun' : Traced (env t dir abs) cfg' (info t) j.m.files.disk content'
      (fun j' c e => FollowsRecipes (env t dir abs) cfg' (dbOf t dir) recipe j' c e ∧ WritesLater j.m.files.disk e) j' content'')
    (h0 : 0 ∈ j'.s.exits) :
    ∀ x, Wanted (dbOf t dir) cfg'.targets x → Buildable (fun n => j'.m.files.disk (abs n)) (dbOf t dir) x →
      Spec.Build.Correct recipe (fun n => j'.m.files.disk (abs n)) (fun n => content'' (abs n)) (dbOf t dir) x := by
  subst ht
  rw [info_fresh t dir] at hrun hrun'
  exact C96_next_build_partial (env := env t dir abs) (db := dbOf t dir) rfl (loaded_key h hdot) rfl hall hone hun hstart hrun huntouched hall' hsub
    hrun' h0

end

/-! ### The makefile of C98: `app: foo.obj` with the command `link`, and the rule `.c.obj`; only `foo.c` exists -/

namespace EndFailCase

open MainCase (disk)
open EndCase (tab db e0 recipe content unambiguous loaded noDot disk_le answers startsCorrect)

def cfg (k : Bool) (d : Str → Option Nat) : Sched.Cfg := { EndCase.cfg with keepGoing := k, deps := fun _ => firstDeps tab c!"c:/d" d }

def shows (now : Nat) : Answers := { answers now with res := .sync false }

def after (k : Bool) (d : Str → Option Nat) (j : J) (e : Make.Event) : J := (Make.step e0 (cfg k d) j e).getD j

def j0 (k : Bool) (d : Str → Option Nat) : J :=
  { s := Sched.init (cfg k d), m := buildAsked e0 [] { info := info tab, files := { disk := d, cache := [] } } }

theorem next {k : Bool} {d : Str → Option Nat} {ok : J → Make.Event → Prop} {j : J} {e : Make.Event} (h : Run e0 (cfg k d) (info tab) d ok j)
    (hok : ok j e) (hs : (Make.step e0 (cfg k d) j e).isSome = true) (hb : (after k d j e).s.build = j.s.build) :
    Run e0 (cfg k d) (info tab) d ok (after k d j e) := by
  obtain ⟨x, hx⟩ := Option.isSome_iff_exists.1 hs
  have ha : after k d j e = x := by unfold after; rw [hx]; rfl
  rw [ha] at hb ⊢
  have := Run.step (e := e) (j' := x) [] h hok hx (fun hne => absurd hb hne) (fun n hn => by cases hn)
  rwa [if_neg (by simp [hb])] at this

theorem trace {k : Bool} {d : Str → Option Nat} {ok : J → (Str → Prop) → Make.Event → Prop} {j : J} {c₀ c : Str → Prop} (e : Make.Event)
    (c' : Str → Prop) (h : Traced e0 (cfg k d) (info tab) d c₀ ok j c) (hok : ok j c' e)
    (hs : (Make.step e0 (cfg k d) j e).isSome = true) (hb : (after k d j e).s.build = j.s.build)
    (hc : ∀ x, (∀ value, e ≠ .write x value) → c' x = c x) : Traced e0 (cfg k d) (info tab) d c₀ ok (after k d j e) c' := by
  obtain ⟨x, hx⟩ := Option.isSome_iff_exists.1 hs
  have ha : after k d j e = x := by unfold after; rw [hx]; rfl
  rw [ha] at hb ⊢
  have := Traced.step (e := e) (j' := x) [] h hok hx (fun x hx => hc x (not_touched hx)) (fun hne => absurd hb hne) (fun n hn => by cases hn)
  rwa [if_neg (by simp [hb])] at this

/-! #### The dry run shows both -/

def d1 : J := after false disk (j0 false disk) (.startProcesses (shows 2))
def d2 : J := after false disk d1 (.startProcesses (shows 3))
def d3 : J := after false disk d2 (.startProcesses (shows 4))

theorem dryLog : d3.s.log = [.started 0 1, .succeeded 0 1, .started 0 0, .succeeded 0 0] ∧ d3.s.exits = [0] := by decide +kernel

theorem dry : Run e0 (cfg false disk) (info tab) disk (OnlyShows disk) d3 := by
  have h0 : Run e0 (cfg false disk) (info tab) disk (OnlyShows disk) (j0 false disk) := Run.start [] (fun t => rfl) (fun n hn => by cases hn)
  have h1 : Run _ _ _ _ _ d1 := next h0 ⟨rfl, rfl, fun x s h => by rw [disk_le h]; decide⟩ (by decide +kernel) (by decide +kernel)
  have h2 : Run _ _ _ _ _ d2 := next h1 ⟨rfl, rfl, fun x s h => by rw [disk_le h]; decide⟩ (by decide +kernel) (by decide +kernel)
  exact next h2 ⟨rfl, rfl, fun x s h => by rw [disk_le h]; decide⟩ (by decide +kernel) (by decide +kernel)

/-- The theorem about dry runs applies: what is shown is out of date. -/
example : ¬ UpToDate (fun n => disk (toLower n)) db 0 ∧ d3.m.files.disk = disk := by
  obtain ⟨_, _, hl⟩ := loaded
  have := C100_dry_run_partial hl noDot rfl rfl unambiguous dry
  exact ⟨(this.1 0 0 (by rw [dryLog.1]; simp)).2.2, this.2.1⟩

/-! #### `foo.obj` is made and the commands for `app` fail -/

def j1 (k : Bool) : J := after k disk (j0 k disk) (.startProcesses (answers 2))
def j2 (k : Bool) : J := after k disk (j1 k) (.write c!"foo.obj" (some 5))
def j3 (k : Bool) : J := after k disk (j2 k) (.childFinished 0 false)
def j4 (k : Bool) : J := after k disk (j3 k) (.startProcesses (answers 5))
def j5 (k : Bool) : J := after k disk (j4 k) (.childFinished 1 true)
def j6 (k : Bool) : J := after k disk (j5 k) (if k then .startProcesses (answers 6) else .abortDone)

theorem logs (k : Bool) : (j6 k).s.log = [.started 0 1, .succeeded 0 1, .started 0 0, .failed 0 0] ∧ (j6 k).s.exits = [if k then 1 else 2] ∧
    (j6 k).s.busy = [] := by
  cases k <;> decide +kernel

/-- After this run. -/
def second : Str → Option Nat := fun x => if x = c!"foo.obj" then some 5 else disk x

theorem disk6 (k : Bool) : (j6 k).m.files.disk = second := by cases k <;> rfl
theorem disk3 (k : Bool) : (j3 k).m.files.disk = second := by cases k <;> rfl
theorem disk5 (k : Bool) : (j5 k).m.files.disk = second := by cases k <;> rfl
theorem disk2 (k : Bool) : (j2 k).m.files.disk = second := by cases k <;> rfl

theorem second_le {x : Str} {s : Nat} (h : second x = some s) : s ≤ 5 := by
  unfold second at h
  split at h
  · cases h; decide
  · rw [disk_le h]; decide

abbrev OK (k : Bool) (j : J) (c : Str → Prop) (e : Make.Event) : Prop :=
  FollowsRecipes e0 (cfg k disk) db recipe j c e ∧ WritesLater disk e

theorem work1 : DidWork (fun n => second (toLower n)) db 1 := EndCase.work1

theorem run6 (k : Bool) : Traced e0 (cfg k disk) (info tab) disk content (OK k) (j6 k) (ContentCase.made c!"foo.obj" content) := by
  have h0 : Traced e0 (cfg k disk) (info tab) disk content (OK k) (j0 k disk) content :=
    Traced.start [] (fun t => rfl) (fun n hn => by cases hn)
  have h1 : Traced _ _ _ _ _ _ (j1 k) _ := trace (.startProcesses (answers 2)) content h0
    ⟨⟨⟨fun x s h => by rw [disk_le h]; decide, works_running⟩, no_success rfl⟩, later_quiet rfl⟩
    (by cases k <;> decide +kernel) (by cases k <;> decide +kernel) (fun _ _ => rfl)
  have h2 : Traced _ _ _ _ _ _ (j2 k) _ := trace (.write c!"foo.obj" (some 5)) (ContentCase.made c!"foo.obj" content) h1
    ⟨⟨⟨by decide, .inl ⟨1, by cases k <;> decide +kernel, rfl, by decide⟩⟩, no_success rfl⟩, fun f τ he x s hs => by
      cases he.2; rw [disk_le hs]; decide⟩
    (by cases k <;> decide +kernel) (by cases k <;> decide +kernel) ContentCase.made_other
  have h3 : Traced _ _ _ _ _ _ (j3 k) _ := trace (.childFinished 0 false) _ h2
    ⟨⟨fun _ => ContentCase.only (t' := 1) (by cases k <;> decide +kernel) (by rw [disk2]; exact work1), by
      refine succeeds_child ?_
      refine ContentCase.only (t' := 1) (by cases k <;> decide +kernel) ?_
      rw [disk2]
      exact EndCase.correct1 (by decide +kernel) (by
        show ContentCase.made c!"foo.obj" content c!"foo.obj" ↔ ContentCase.made c!"foo.obj" content c!"foo.c"
        simp [ContentCase.made, content])⟩, later_quiet rfl⟩
    (by cases k <;> decide +kernel) (by cases k <;> decide +kernel) (fun _ _ => rfl)
  have h4 : Traced _ _ _ _ _ _ (j4 k) _ := trace (.startProcesses (answers 5)) _ h3
    ⟨⟨⟨fun x s h => by rw [disk3] at h; exact second_le h, works_running⟩, no_success rfl⟩, later_quiet rfl⟩
    (by cases k <;> decide +kernel) (by cases k <;> decide +kernel) (fun _ _ => rfl)
  have h5 : Traced _ _ _ _ _ _ (j5 k) _ := trace (.childFinished 1 true) _ h4
    ⟨⟨(fun h => by cases h), no_success rfl⟩, later_quiet rfl⟩
    (by cases k <;> decide +kernel) (by cases k <;> decide +kernel) (fun _ _ => rfl)
  cases k with
  | true =>
    exact trace (.startProcesses (answers 6)) _ h5
      ⟨⟨⟨fun x s h => by rw [disk5] at h; exact Nat.le_trans (second_le h) (by decide), works_running⟩, no_success rfl⟩, later_quiet rfl⟩
      (by decide +kernel) (by decide +kernel) (fun _ _ => rfl)
  | false =>
    exact trace .abortDone _ h5 ⟨⟨trivial, no_success rfl⟩, later_quiet rfl⟩
      (by decide +kernel) (by decide +kernel) (fun _ _ => rfl)

/-- The dry run has told what this build makes: `foo.obj` depends on something that was shown. -/
example : ∃ b' y, ReflTransGen (Spec.Build.Needs db) 1 y ∧ Ev.started b' y ∈ d3.s.log := by
  obtain ⟨_, _, hl⟩ := loaded
  exact (C100_dry_run_tells_partial (cfg := cfg false disk) (cfg' := cfg false disk) hl noDot rfl rfl rfl rfl unambiguous dry (by rw [dryLog.2]; simp)
    ((run6 false).toRun fun _ _ _ h => ⟨h.1.1, h.2⟩)).2 (.inl rfl) 0 1 (by rw [(logs false).1]; simp)

theorem wanted1 : Wanted db [0] 1 := ⟨0, by simp, .single ⟨c!"foo.obj", by rw [EndCase.deps0]; simp, .inl (by decide +kernel)⟩⟩

theorem cone1 {y : Nat} (hy : ReflTransGen (Spec.Build.Needs db) 1 y) : y = 1 := by
  rcases ReflTransGen.cases_head hy with h | ⟨c, h, _⟩
  · exact h.symm
  · exact absurd (EndCase.needs_inv (.inr rfl) h).1 (by decide)

/-- The theorem about `/K` applies to `foo.obj`. -/
example : UpToDate (fun n => (j6 true).m.files.disk (toLower n)) db 1 := by
  obtain ⟨_, _, hl⟩ := loaded
  refine C100_keep_going_partial (cfg := cfg true disk) hl noDot rfl rfl unambiguous ((run6 true).toRun fun _ _ _ h => h.1.1)
    (c := 1) (by rw [(logs true).2.1]; simp) (by decide) (by rw [(logs true).1]; simp) wanted1 (fun y hy b => ?_) (.inr ⟨c!"foo.c", ?_⟩)
  · rw [cone1 hy, (logs true).1]
    simp
  · rw [disk6, EndCase.rules1]
    exact ⟨by simp, 1, by decide +kernel⟩

theorem untouched (t : Nat) (_ : Wanted db [0] t) (hu : Unfinished (j6 false).s t) :
    (j6 false).m.files.disk (toLower (db.target t).name) = disk (toLower (db.target t).name) ∧
    ContentCase.made c!"foo.obj" content (toLower (db.target t).name) = content (toLower (db.target t).name) := by
  have ht : t = 0 := by
    rcases hu with h | ⟨b, h⟩
    · rw [(logs false).2.2] at h; cases h
    · rw [(logs false).1] at h
      simp at h
      exact h.2
  subst ht
  have hl : toLower c!"app" = c!"app" := by decide +kernel
  rw [EndCase.name0, disk6, hl]
  exact ⟨by decide +kernel, by simp [ContentCase.made]⟩

/-! #### The next run makes `app` only -/

def r1 : J := after false second (j0 false second) (.startProcesses (answers 6))
def r2 : J := after false second r1 (.write c!"app" (some 7))
def r3 : J := after false second r2 (.childFinished 0 false)
def r4 : J := after false second r3 (.startProcesses (answers 9))

theorem log4 : r4.s.log = [.upToDate 0 1, .started 0 0, .succeeded 0 0] ∧ r4.s.exits = [0] := by decide +kernel

/-- `app` becomes a copy of `foo.obj`. -/
def copied (c : Str → Prop) : Str → Prop := fun n => if n = c!"app" then c c!"foo.obj" else c n

theorem work0 : DidWork (fun n => r2.m.files.disk (toLower n)) db 0 := by
  refine ⟨7, rfl, fun d hd s hs => ?_⟩
  have hd : d = c!"foo.obj" := by
    rcases hd with hd | ⟨hd, _⟩
    · rw [EndCase.deps0] at hd; simpa using hd
    · rw [EndCase.rules0] at hd; cases hd
  subst hd
  rw [behind_of_file (f := fun n => r2.m.files.disk (toLower n)) (s := 5) rfl hs]
  decide

theorem next_run (c : Str → Prop) : Traced e0 (cfg false second) (info tab) second c
    (fun j c e => FollowsRecipes e0 (cfg false second) db recipe j c e ∧ WritesLater second e) r4 (copied c) := by
  have h0 : Traced e0 (cfg false second) (info tab) second c
      (fun j c e => FollowsRecipes e0 (cfg false second) db recipe j c e ∧ WritesLater second e) (j0 false second) c :=
    Traced.start [] (fun t => rfl) (fun n hn => by cases hn)
  have h1 : Traced _ _ _ _ _ _ r1 _ := trace (.startProcesses (answers 6)) c h0
    ⟨⟨⟨fun x s h => Nat.le_trans (second_le h) (by decide), works_running⟩, no_success rfl⟩, later_quiet rfl⟩
    (by decide +kernel) (by decide +kernel) (fun _ _ => rfl)
  have h2 : Traced _ _ _ _ _ _ r2 _ := trace (.write c!"app" (some 7)) (copied c) h1
    ⟨⟨⟨by decide, .inl ⟨0, by decide +kernel, rfl, by decide⟩⟩, no_success rfl⟩,
      fun f τ he x s hs => by cases he.2; exact Nat.lt_of_le_of_lt (second_le hs) (by decide)⟩
    (by decide +kernel) (by decide +kernel) fun x hx => by
      have : x ≠ c!"app" := by rintro rfl; exact hx _ rfl
      simp [copied, this]
  have h3 : Traced _ _ _ _ _ _ r3 _ := trace (.childFinished 0 false) (copied c) h2
    ⟨⟨fun _ => ContentCase.only (t' := 0) (by decide +kernel) work0, by
        refine succeeds_child ?_
        exact ContentCase.only (t' := 0) (by decide +kernel) (EndCase.correct0 (by decide +kernel) (by
          show copied c c!"app" ↔ copied c c!"foo.obj"
          simp [copied]))⟩, later_quiet rfl⟩
    (by decide +kernel) (by decide +kernel) (fun _ _ => rfl)
  have hd : r3.m.files.disk = fun x => if x = c!"app" then some 7 else second x := rfl
  exact trace (.startProcesses (answers 9)) _ h3
    ⟨⟨⟨fun x s h => by
        rw [hd] at h
        simp only at h
        show s ≤ 9
        split at h
        · cases h; decide
        · exact Nat.le_trans (second_le h) (by decide), works_running⟩, no_success rfl⟩, later_quiet rfl⟩
    (by decide +kernel) (by decide +kernel) (fun _ _ => rfl)

/-- The theorem about interrupted builds applies. -/
example : Spec.Build.Correct recipe (fun n => r4.m.files.disk (toLower n)) (fun n => copied (ContentCase.made c!"foo.obj" content) (toLower n)) db 0 := by
  obtain ⟨_, _, hl⟩ := loaded
  refine C100_resume_partial (cfg := cfg false disk) (cfg' := cfg false second) hl noDot rfl (fun r hr => ⟨r, hr, .refl⟩) rfl rfl (.inl rfl) unambiguous startsCorrect
    (run6 false) untouched ?_ (by rw [log4.2]; simp) 0 ⟨0, List.mem_singleton.2 rfl, .refl⟩ (.inl EndCase.cmds0)
  rw [disk6]; exact next_run _

end EndFailCase

end Jom.Props
