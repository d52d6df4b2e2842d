/- C106 from the text of a makefile. -/
import Verif.Props.Failures
import Verif.Props.EndJobs

namespace Jom.Props

open Jom.Blocks Jom.Inference Jom.Prepare Jom.Graph Jom.Sched Jom.Make Jom.Parse Jom.Whole Relation
open Jom.Spec
open Jom.Spec.Blocks (canon Enclosed Described)
open Jom.Spec.Setup hiding Means
open Jom.Spec.Build
open Jom.Spec.Makefile (Flags)

section

variable {w : PP.World} {fuel : Nat} {entries : Str → Str → List Str} {fl : Flags} {active : List Str} {s : PP.St}
  {p : PSt PP.St} {order : List (Str × List Str)} {keys : List Str} {t : Tab} {ids : List Nat}
  {dir : Str} {abs : Str → Str} {cfg cfg' : Sched.Cfg} {disk : Str → Option Nat} {j j' : J}

/-- C106 for what the text of a makefile describes (C76, C98): two builds of it with `/K` from the same files, with whatever numbers of jobs, end with the same exit
code; if it is 0 or 1, the commands of the same targets have been executed and have failed, and what does not depend on a failure has the same content. -/
theorem C106_text_partial {C : Type} {recipe : Nat → (Str → C → Prop) → C} {works : Nat → (Str → C → Prop) → Prop} {old new new' : Str → C}
    (h : Loaded w fuel entries dir fl active s p order keys t ids) (hdot : NoDot t) (ht : cfg.targets = ids) (ht' : cfg'.targets = ids)
    (hfuel : t.table.targets.length < cfg.fuel) (hfuel' : t.table.targets.length < cfg'.fuel)
    (hall : cfg.buildAll = false) (hall' : cfg'.buildAll = false) (hkeep : cfg.keepGoing = true) (hkeep' : cfg'.keepGoing = true)
    (hun : Unambiguous abs (fun n => disk (abs n)) (dbOf t dir) ids)
    (hstart : StartsCorrect recipe (fun n => disk (abs n)) (fun n => old (abs n)) (dbOf t dir) ids)
    (hplain : ∀ k, Wanted (dbOf t dir) ids k → ¬ Derived (fun n => disk (abs n)) (dbOf t dir) k → disk (abs ((dbOf t dir).target k).name) ≠ none →
      ∀ y, ¬ Spec.Build.Needs (dbOf t dir) k y)
    (hrun : Traced (env t dir abs) cfg (info t) disk old
      (fun j c e => (FollowsRecipes (env t dir abs) cfg (dbOf t dir) recipe j c e ∧ WritesLater disk e) ∧
        Decides (env t dir abs) cfg (dbOf t dir) works j c e) j new)
    {code : Nat} (hx : code ∈ j.s.exits) (hexc : Ev.exception ∉ j.s.log) (hone : NotRetried (dbOf t dir) ids j.s)
    (hrun' : Traced (env t dir abs) cfg' (info t) disk old
      (fun j c e => (FollowsRecipes (env t dir abs) cfg' (dbOf t dir) recipe j c e ∧ WritesLater disk e) ∧
        Decides (env t dir abs) cfg' (dbOf t dir) works j c e) j' new')
    {code' : Nat} (hx' : code' ∈ j'.s.exits) (hexc' : Ev.exception ∉ j'.s.log) (hone' : NotRetried (dbOf t dir) ids j'.s) :
    code = code' ∧ (code < 2 →
      (∀ x, (∃ b, Ev.started b x ∈ j.s.log) ↔ ∃ b, Ev.started b x ∈ j'.s.log) ∧
      (∀ x, (∃ b, Ev.failed b x ∈ j.s.log) ↔ ∃ b, Ev.failed b x ∈ j'.s.log) ∧
      ∀ x, Wanted (dbOf t dir) ids x → (∀ y, ReflTransGen (Spec.Build.Needs (dbOf t dir)) x y → ∀ b, Ev.failed b y ∉ j.s.log) →
        Derived (fun n => disk (abs n)) (dbOf t dir) x →
        j.m.files.disk (abs ((dbOf t dir).target x).name) ≠ none ∧ j'.m.files.disk (abs ((dbOf t dir).target x).name) ≠ none ∧
        new (abs ((dbOf t dir).target x).name) = new' (abs ((dbOf t dir).target x).name)) := by
  subst ht
  rw [info_fresh t dir] at hrun hrun'
  exact C106_exit_partial (env := env t dir abs) (db := dbOf t dir) rfl (loaded_key h hdot) rfl ht' hall hall' hkeep hkeep'
    (loaded_few h hfuel) (ht'.symm ▸ loaded_few h hfuel') hun hstart hplain hrun hx hexc hone hrun' hx' hexc' (ht'.symm ▸ hone')

end

/-! ### The makefile of C98 (`app: foo.obj` and the rule `.c.obj`), with `/K` and one or three jobs; the commands for `foo.obj` fail because of what is in `foo.c` -/

namespace EndFailJobsCase

open MainCase (disk)
open EndCase (tab db e0 answers recipe disk_le unambiguous noDot loaded)

def cfg (one : Bool) : Sched.Cfg := { EndCase.cfg with jobs := if one then 1 else 3, keepGoing := true }

def works (t : Nat) (s : Str → Prop → Prop) : Prop := recipe t s

def content : Str → Prop := fun _ => False

def after (one : Bool) (j : J) (e : Make.Event) : J := (Make.step e0 (cfg one) j e).getD j

def j0 (one : Bool) : J :=
  { s := Sched.init (cfg one), m := buildAsked e0 [] { info := info tab, files := { disk := disk, cache := [] } } }

def j1 (one : Bool) : J := after one (j0 one) (.startProcesses (answers 1))
def j2 (one : Bool) : J := after one (j1 one) (.childFinished 0 true)
def j3 (one : Bool) : J := after one (j2 one) (.startProcesses (answers 5))

theorem disk2 (one : Bool) : (j2 one).m.files.disk = disk := by cases one <;> rfl

theorem logs (one : Bool) : (j3 one).s.log = [.started 0 1, .failed 0 1, .unbuildable 0 0] ∧ (j3 one).s.exits = [1] ∧ (j1 one).s.busy = [(0, 1)] := by
  cases one <;> decide +kernel

abbrev Traces (one : Bool) (j : J) (c : Str → Prop) : Prop :=
  Traced e0 (cfg one) (info tab) disk content
    (fun j c e => (FollowsRecipes e0 (cfg one) db recipe j c e ∧ WritesLater disk e) ∧ Decides e0 (cfg one) db works j c e) j c

theorem nextTrace {one : Bool} {j : J} (e : Make.Event) (h : Traces one j content)
    (hok : (FollowsRecipes e0 (cfg one) db recipe j content e ∧ WritesLater disk e) ∧ Decides e0 (cfg one) db works j content e)
    (hs : (Make.step e0 (cfg one) j e).isSome = true) (hb : (after one j e).s.build = j.s.build) : Traces one (after one j e) content := by
  obtain ⟨x, hx⟩ := Option.isSome_iff_exists.1 hs
  have ha : after one j e = x := by unfold after; rw [hx]; rfl
  rw [ha] at hb ⊢
  have := Traced.step (e := e) (j' := x) (c' := content) [] h hok hx (fun x _ => rfl) (fun hne => absurd hb hne) (fun n hn => by cases hn)
  rwa [if_neg (by simp [hb])] at this

theorem quiet_start {one : Bool} {j : J} {c : Str → Prop} {n : Nat} : Decides e0 (cfg one) db works j c (.startProcesses (answers n)) := by
  rintro _ t failed d ⟨h, _⟩
  cases h

theorem trace3 (one : Bool) : Traces one (j3 one) content := by
  have h0 : Traces one (j0 one) content := Traced.start [] (fun t => rfl) (fun n hn => by cases hn)
  have h1 : Traces one (j1 one) content := nextTrace (.startProcesses (answers 1)) h0
    ⟨⟨⟨⟨fun x s h => by rw [disk_le h]; exact Nat.le_refl 1, works_running⟩, no_success rfl⟩, later_quiet rfl⟩, quiet_start⟩
    (by cases one <;> decide +kernel) (by cases one <;> decide +kernel)
  have h2 : Traces one (j2 one) content := nextTrace (.childFinished 0 true) h1
    ⟨⟨⟨(fun h => by cases h), no_success rfl⟩, later_quiet rfl⟩, by
      rintro _ t failed d ⟨rfl, ht, rfl⟩
      rw [(logs one).2.2] at ht
      have : t = 1 := by simpa using ht
      subst this
      simp [works, recipe, content]⟩
    (by cases one <;> decide +kernel) (by cases one <;> decide +kernel)
  exact nextTrace (.startProcesses (answers 5)) h2
    ⟨⟨⟨⟨fun x s h => by
      rw [disk2] at h
      rw [disk_le h]
      show 1 ≤ 5
      decide, works_running⟩, no_success rfl⟩, later_quiet rfl⟩, quiet_start⟩
    (by cases one <;> decide +kernel) (by cases one <;> decide +kernel)

theorem startsCorrect : StartsCorrect recipe (fun n => disk (toLower n)) (fun n => content (toLower n)) db [0] := by
  intro x hx _ ⟨T, hT, _⟩
  rcases EndCase.wanted hx with rfl | rfl <;> cases hT

/-- The theorem applies. -/
example : ∀ x, (∃ b, Ev.failed b x ∈ (j3 true).s.log) ↔ ∃ b, Ev.failed b x ∈ (j3 false).s.log := by
  obtain ⟨_, _, hl⟩ := loaded
  exact ((C106_text_partial (cfg := cfg true) (cfg' := cfg false) hl noDot rfl rfl (by decide +kernel) (by decide +kernel) rfl rfl rfl rfl
    unambiguous startsCorrect EndJobsCase.plain (trace3 true)
    (code := 1) (by rw [(logs true).2.1]; simp) (by rw [(logs true).1]; simp) (notRetried_one (by decide) _) (trace3 false)
    (code' := 1) (by rw [(logs false).2.1]; simp) (by rw [(logs false).1]; simp) (notRetried_one (by decide) _)).2 (by decide)).2.1

end EndFailJobsCase

end Jom.Props
