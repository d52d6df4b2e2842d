/- C105 from the text of a makefile. -/
import Verif.Props.Jobs
import Verif.Props.EndFailures

namespace Jom.Props

open Jom.Blocks Jom.Inference Jom.Prepare Jom.Graph Jom.Sched Jom.Make Jom.Parse Jom.Whole Relation
open Jom.Spec
open Jom.Spec.Blocks (canon Enclosed Described)
open Jom.Spec.Setup hiding Means
open Jom.Spec.Build
open Jom.Spec.Makefile (Flags)

section

variable {w : PP.World} {fuel : Nat} {entries : Str → Str → List Str} {fl : Flags} {active : List Str} {s : PP.St}
  {p : PSt PP.St} {order : List (Str × List Str)} {keys : List Str} {t : Tab} {ids : List Nat}
  {dir : Str} {abs : Str → Str} {cfg cfg' : Sched.Cfg} {disk : Str → Option Nat} {j j' : J}

/-- C105 for what the text of a makefile describes (C76, C98): if one build of it ends with exit code 0, then every other one that ends, with another number of
jobs or with `/K`, executes the commands of the same targets, ends with exit code 0 and leaves the same contents. -/
theorem C105_text_partial {C : Type} {recipe : Nat → (Str → C → Prop) → C} {works : Nat → (Str → C → Prop) → Prop} {old new new' : Str → C}
    (h : Loaded w fuel entries dir fl active s p order keys t ids) (hdot : NoDot t) (ht : cfg.targets = ids) (ht' : cfg'.targets = ids)
    (hfuel : t.table.targets.length < cfg.fuel) (hfuel' : t.table.targets.length < cfg'.fuel)
    (hall : cfg.buildAll = false) (hall' : cfg'.buildAll = false)
    (hun : Unambiguous abs (fun n => disk (abs n)) (dbOf t dir) ids)
    (hstart : StartsCorrect recipe (fun n => disk (abs n)) (fun n => old (abs n)) (dbOf t dir) ids)
    (hplain : ∀ k, Wanted (dbOf t dir) ids k → ¬ Derived (fun n => disk (abs n)) (dbOf t dir) k → disk (abs ((dbOf t dir).target k).name) ≠ none →
      ∀ y, ¬ Spec.Build.Needs (dbOf t dir) k y)
    (hrun : Traced (env t dir abs) cfg (info t) disk old
      (fun j c e => (FollowsRecipes (env t dir abs) cfg (dbOf t dir) recipe j c e ∧ WritesLater disk e) ∧
        Decides (env t dir abs) cfg (dbOf t dir) works j c e) j new) (h0 : 0 ∈ j.s.exits)
    (hrun' : Traced (env t dir abs) cfg' (info t) disk old
      (fun j c e => (FollowsRecipes (env t dir abs) cfg' (dbOf t dir) recipe j c e ∧ WritesLater disk e) ∧
        Decides (env t dir abs) cfg' (dbOf t dir) works j c e) j' new')
    (hexc : Ev.exception ∉ j'.s.log) (hends : j'.s.exits ≠ []) :
    0 ∈ j'.s.exits ∧ (∀ x, (∃ b, Ev.started b x ∈ j.s.log) ↔ ∃ b, Ev.started b x ∈ j'.s.log) ∧
    ∀ x, Wanted (dbOf t dir) ids x → Derived (fun n => disk (abs n)) (dbOf t dir) x →
      j.m.files.disk (abs ((dbOf t dir).target x).name) ≠ none ∧ j'.m.files.disk (abs ((dbOf t dir).target x).name) ≠ none ∧
      new (abs ((dbOf t dir).target x).name) = new' (abs ((dbOf t dir).target x).name) := by
  subst ht
  rw [info_fresh t dir] at hrun hrun'
  exact C105_same_build_partial (env := env t dir abs) (db := dbOf t dir) rfl (loaded_key h hdot) rfl ht' hall hall' (loaded_few h hfuel)
    (ht' ▸ loaded_few h hfuel') hun hstart hplain hrun h0 hrun' hexc hends

end

/-! ### The makefile of C98: `app: foo.obj` with the command `link`, and the rule `.c.obj`; only `foo.c` exists; with one job, and with three and `/K` -/

namespace EndJobsCase

open MainCase (disk)
open EndCase (tab db e0 answers recipe content correct0 correct1 disk_le unambiguous startsCorrect noDot loaded deps0 deps1 rules0 rules1)

def cfg (one : Bool) : Sched.Cfg := { EndCase.cfg with jobs := if one then 1 else 3, keepGoing := !one }

def works (t : Nat) (s : Str → Prop → Prop) : Prop := recipe t s

def after (one : Bool) (j : J) (e : Make.Event) : J := (Make.step e0 (cfg one) j e).getD j

def second (one : Bool) : Nat := if one then 0 else 1

def j0 (one : Bool) : J :=
  { s := Sched.init (cfg one), m := buildAsked e0 [] { info := info tab, files := { disk := disk, cache := [] } } }

def j1 (one : Bool) : J := after one (j0 one) (.startProcesses (answers 1))
def j2 (one : Bool) : J := after one (j1 one) (.write c!"foo.obj" (some 5))
def j3 (one : Bool) : J := after one (j2 one) (.childFinished 0 false)
def j4 (one : Bool) : J := after one (j3 one) (.startProcesses (answers 5))
def j5 (one : Bool) : J := after one (j4 one) (.write c!"app" (some 6))
def j6 (one : Bool) : J := after one (j5 one) (.childFinished (second one) false)
def j7 (one : Bool) : J := after one (j6 one) (.startProcesses (answers 9))

theorem disk2 (one : Bool) : (j2 one).m.files.disk = EndCase.j2.m.files.disk := by cases one <;> rfl
theorem disk3 (one : Bool) : (j3 one).m.files.disk = EndCase.j2.m.files.disk := by cases one <;> rfl
theorem disk5 (one : Bool) : (j5 one).m.files.disk = EndCase.j5.m.files.disk := by cases one <;> rfl
theorem disk6 (one : Bool) : (j6 one).m.files.disk = EndCase.j5.m.files.disk := by cases one <;> rfl

theorem work1 (one : Bool) : DidWork (fun n => (j2 one).m.files.disk (toLower n)) db 1 := by rw [disk2]; exact EndCase.work1
theorem work0 (one : Bool) : DidWork (fun n => (j5 one).m.files.disk (toLower n)) db 0 := by rw [disk5]; exact EndCase.work0

abbrev Traces (one : Bool) (j : J) (c : Str → Prop) : Prop :=
  Traced e0 (cfg one) (info tab) disk content
    (fun j c e => (FollowsRecipes e0 (cfg one) db recipe j c e ∧ WritesLater disk e) ∧ Decides e0 (cfg one) db works j c e) j c

theorem nextTrace {one : Bool} {j : J} {c : Str → Prop} (e : Make.Event) (c' : Str → Prop) (h : Traces one j c)
    (hok : (FollowsRecipes e0 (cfg one) db recipe j c' e ∧ WritesLater disk e) ∧ Decides e0 (cfg one) db works j c' e)
    (hs : (Make.step e0 (cfg one) j e).isSome = true)
    (hb : (after one j e).s.build = j.s.build) (hc : ∀ x, (∀ value, e ≠ .write x value) → c' x = c x) : Traces one (after one j e) c' := by
  obtain ⟨x, hx⟩ := Option.isSome_iff_exists.1 hs
  have ha : after one j e = x := by unfold after; rw [hx]; rfl
  rw [ha] at hb ⊢
  have := Traced.step (e := e) (j' := x) [] h hok hx (fun x hx => hc x (not_touched hx)) (fun hne => absurd hb hne) (fun n hn => by cases hn)
  rwa [if_neg (by simp [hb])] at this

theorem quiet_start {one : Bool} {j : J} {c : Str → Prop} {n : Nat} : Decides e0 (cfg one) db works j c (.startProcesses (answers n)) := by
  rintro _ t failed d ⟨h, _⟩
  cases h

theorem quiet_write {one : Bool} {j : J} {c : Str → Prop} {x : Str} {n : Nat} : Decides e0 (cfg one) db works j c (.write x (some n)) := by
  rintro _ t failed d h
  cases h

theorem ends {one : Bool} {j : J} {c : Str → Prop} {ex : Nat}
    (h : ∀ t, (ex, t) ∈ j.s.busy → works t fun n v => MadeFrom (fun n => j.m.files.disk (toLower n)) db t n ∧ c (toLower n) = v) :
    Decides e0 (cfg one) db works j c (.childFinished ex false) := by
  rintro _ t failed d ⟨rfl, ht, rfl⟩
  exact ⟨fun _ => h t ht, fun _ => rfl⟩

theorem works1 {f : Files} {c : Str → Prop} (h1 : f c!"foo.c" ≠ none) (h2 : c c!"foo.c") : works 1 fun n v => MadeFrom f db 1 n ∧ c n = v :=
  ⟨⟨_, .inr ⟨by rw [rules1]; simp, Option.ne_none_iff_exists'.1 h1⟩, .file h1⟩, by simp [h2]⟩

theorem works0 {f : Files} {c : Str → Prop} (h1 : f c!"foo.obj" ≠ none) (h2 : c c!"foo.obj") : works 0 fun n v => MadeFrom f db 0 n ∧ c n = v :=
  ⟨⟨_, .inl (by rw [deps0]; simp), .file h1⟩, by simp [h2]⟩

theorem trace7 (one : Bool) : Traces one (j7 one) (ContentCase.made c!"app" (ContentCase.made c!"foo.obj" content)) := by
  have hw : ∀ file (n : Nat), 1 < n → WritesLater disk (.write file (some n)) := by
    intro file n hn f τ he x s hs
    cases he.2
    rw [disk_le hs]
    exact hn
  have h0 : Traces one (j0 one) content := Traced.start [] (fun t => rfl) (fun n hn => by cases hn)
  have h1 : Traces one (j1 one) content := nextTrace (.startProcesses (answers 1)) content h0
    ⟨⟨⟨⟨fun x s h => by rw [disk_le h]; exact Nat.le_refl 1, works_running⟩, no_success rfl⟩, later_quiet rfl⟩, quiet_start⟩
    (by cases one <;> decide +kernel) (by cases one <;> decide +kernel) (fun _ _ => rfl)
  have h2 : Traces one (j2 one) (ContentCase.made c!"foo.obj" content) := nextTrace (.write c!"foo.obj" (some 5)) _ h1
    ⟨⟨⟨⟨by decide, .inl ⟨1, by cases one <;> decide +kernel, rfl, by decide⟩⟩, no_success rfl⟩, hw _ 5 (by decide)⟩, quiet_write⟩
    (by cases one <;> decide +kernel) (by cases one <;> decide +kernel) ContentCase.made_other
  have h3 : Traces one (j3 one) (ContentCase.made c!"foo.obj" content) := nextTrace (.childFinished 0 false) _ h2
    ⟨⟨⟨fun _ => ContentCase.only (t' := 1) (by cases one <;> decide +kernel) (work1 one), by
      refine succeeds_child ?_
      exact ContentCase.only (t' := 1) (by cases one <;> decide +kernel) (correct1 (disk2 one ▸ by decide +kernel) (by
        show ContentCase.made c!"foo.obj" content c!"foo.obj" ↔ ContentCase.made c!"foo.obj" content c!"foo.c"
        simp [ContentCase.made, content]))⟩, later_quiet rfl⟩, ends (ContentCase.only (t' := 1) (by cases one <;> decide +kernel) (works1 (disk2 one ▸ by decide +kernel) (by simp [ContentCase.made, content, toLower]; decide)))⟩
    (by cases one <;> decide +kernel) (by cases one <;> decide +kernel) (fun _ _ => rfl)
  have h4 : Traces one (j4 one) (ContentCase.made c!"foo.obj" content) := nextTrace (.startProcesses (answers 5)) _ h3
    ⟨⟨⟨⟨fun x s h => by
      rw [disk3, EndCase.disk2] at h
      simp only at h
      split at h
      · cases h; exact Nat.le_refl 5
      · rw [disk_le h]; show 1 ≤ 5; decide, works_running⟩, no_success rfl⟩, later_quiet rfl⟩, quiet_start⟩
    (by cases one <;> decide +kernel) (by cases one <;> decide +kernel) (fun _ _ => rfl)
  have h5 : Traces one (j5 one) _ := nextTrace (.write c!"app" (some 6)) (ContentCase.made c!"app" (ContentCase.made c!"foo.obj" content)) h4
    ⟨⟨⟨⟨by decide, .inl ⟨0, by cases one <;> decide +kernel, rfl, by decide⟩⟩, no_success rfl⟩, hw _ 6 (by decide)⟩, quiet_write⟩
    (by cases one <;> decide +kernel) (by cases one <;> decide +kernel) ContentCase.made_other
  have h6 : Traces one (j6 one) _ := nextTrace (.childFinished (second one) false) _ h5
    ⟨⟨⟨fun _ => ContentCase.only (t' := 0) (by cases one <;> decide +kernel) (work0 one), by
      refine succeeds_child ?_
      exact ContentCase.only (t' := 0) (by cases one <;> decide +kernel) (correct0 (disk5 one ▸ by decide +kernel) (by
        show ContentCase.made c!"app" (ContentCase.made c!"foo.obj" content) c!"app" ↔
          ContentCase.made c!"app" (ContentCase.made c!"foo.obj" content) c!"foo.obj"
        simp [ContentCase.made, content]))⟩, later_quiet rfl⟩, ends (ContentCase.only (t' := 0) (by cases one <;> decide +kernel) (works0 (disk5 one ▸ by decide +kernel) (by simp [ContentCase.made, content, toLower]; decide)))⟩
    (by cases one <;> decide +kernel) (by cases one <;> decide +kernel) (fun _ _ => rfl)
  exact nextTrace (.startProcesses (answers 9)) _ h6
    ⟨⟨⟨⟨fun x s h => by
      show s ≤ 9
      rw [disk6, EndCase.disk5] at h
      simp only at h
      split at h
      · cases h; decide
      · split at h
        · cases h; decide
        · rw [disk_le h]; decide, works_running⟩, no_success rfl⟩, later_quiet rfl⟩, quiet_start⟩
    (by cases one <;> decide +kernel) (by cases one <;> decide +kernel) (fun _ _ => rfl)

theorem plain (k : Nat) (hk : Wanted db [0] k) (_ : ¬ Derived (fun n => disk (toLower n)) db k)
    (hf : disk (toLower (db.target k).name) ≠ none) (y : Nat) : ¬ Spec.Build.Needs db k y := by
  rcases EndCase.wanted hk with rfl | rfl
  · exact absurd (by decide +kernel) hf
  · exact absurd (by decide +kernel) hf

/-- The theorem applies. -/
example : 0 ∈ (j7 false).s.exits ∧ ∀ x, (∃ b, Ev.started b x ∈ (j7 true).s.log) ↔ ∃ b, Ev.started b x ∈ (j7 false).s.log := by
  obtain ⟨_, _, hl⟩ := loaded
  have := C105_text_partial (cfg := cfg true) (cfg' := cfg false) hl noDot rfl rfl (by decide) (by decide) rfl rfl unambiguous startsCorrect plain (trace7 true)
    (by decide +kernel) (trace7 false) (by decide +kernel) (by decide +kernel)
  exact ⟨this.1, this.2.1⟩

end EndJobsCase

end Jom.Props
