/- C74: after exit code 0 the files contain what they should; old files of targets do not matter. -/
import Verif.Proofs.MakeSame
import Verif.Proofs.MakeResume
import Verif.Proofs.MakeSplit
import Verif.Props.SecondBuild

namespace Jom.Props

open Jom.Graph Jom.Sched Jom.UpToDate Jom.Spec.Build Jom.Make

variable {C : Type}

/-- C74, first half. If the makefile is unambiguous, the commands follow their recipes, what is written is newer than what was there, and what
looked up to date at the start had the right content, then an exit code 0 means that every wanted target for which there are commands has the
content that its recipe gives for the files from which it is made as they are then. -/
theorem C74_content_partial {env : Env} {cfg : Cfg} {db : Db} {disk : Str → Option Nat} {recipe : Nat → (Str → C → Prop) → C}
    {content content' : Str → C}
    (hlookup : env.lookup = db.lookup) (hkey : ∀ r k, env.key r = some k → db.lookup r = some k) (hdir : env.dir = db.dir)
    (hall : cfg.buildAll = false) (hun : Unambiguous env.abs (fun n => disk (env.abs n)) db cfg.targets)
    (hstart : StartsCorrect recipe (fun n => disk (env.abs n)) (fun n => content (env.abs n)) db cfg.targets) {j : J}
    (hrun : Traced env cfg (fun k => fresh (db.target k)) disk content
      (fun j c e => FollowsRecipes env cfg db recipe j c e ∧ WritesLater disk e) j content') (h0 : 0 ∈ j.s.exits) :
    ∀ t, Wanted db cfg.targets t → Buildable (fun n => j.m.files.disk (env.abs n)) db t →
      Correct recipe (fun n => j.m.files.disk (env.abs n)) (fun n => content' (env.abs n)) db t :=
  fun t ht hb => (((hrun.plain.mono fun _ _ _ h => ⟨h.1.1, h.2⟩).finished ⟨hlookup, hdir, hall, hkey, hun⟩ hstart h0).made t ht hb).2

/-- C74. Two such builds that start from the same sources, e.g. an incremental one and one from scratch, with whatever numbers of jobs and
orders of events, leave the same contents in all wanted targets that can be made. -/
theorem C74_same_result_partial {env : Env} {cfg cfg' : Cfg} {db : Db} {disk disk' : Str → Option Nat}
    {recipe : Nat → (Str → C → Prop) → C} {old old' new new' : Str → C}
    (hlookup : env.lookup = db.lookup) (hkey : ∀ r k, env.key r = some k → db.lookup r = some k) (hdir : env.dir = db.dir)
    (hfew : FewerThan db cfg.targets cfg.fuel) (htargets : cfg'.targets = cfg.targets)
    (hsources : SameSources env.abs db cfg.targets disk disk' old old')
    (hall : cfg.buildAll = false) (hun : Unambiguous env.abs (fun n => disk (env.abs n)) db cfg.targets)
    (hstart : StartsCorrect recipe (fun n => disk (env.abs n)) (fun n => old (env.abs n)) db cfg.targets) {j : J}
    (hrun : Traced env cfg (fun k => fresh (db.target k)) disk old
      (fun j c e => FollowsRecipes env cfg db recipe j c e ∧ WritesLater disk e) j new) (h0 : 0 ∈ j.s.exits)
    (hall' : cfg'.buildAll = false) (hun' : Unambiguous env.abs (fun n => disk' (env.abs n)) db cfg'.targets)
    (hstart' : StartsCorrect recipe (fun n => disk' (env.abs n)) (fun n => old' (env.abs n)) db cfg'.targets) {j' : J}
    (hrun' : Traced env cfg' (fun k => fresh (db.target k)) disk' old'
      (fun j c e => FollowsRecipes env cfg' db recipe j c e ∧ WritesLater disk' e) j' new') (h0' : 0 ∈ j'.s.exits) :
    ∀ t, Wanted db cfg.targets t → Derived (fun n => disk (env.abs n)) db t →
      j.m.files.disk (env.abs (db.target t).name) ≠ none ∧ j'.m.files.disk (env.abs (db.target t).name) ≠ none ∧
      new (env.abs (db.target t).name) = new' (env.abs (db.target t).name) :=
  let p : Plan env cfg db disk := ⟨hlookup, hdir, hall, hkey, hun⟩
  let p' : Plan env cfg' db disk' := ⟨hlookup, hdir, hall', hkey, hun'⟩
  Finished.agree hfew p p' rfl htargets hsources ((hrun.plain.mono fun _ _ _ h => ⟨h.1.1, h.2⟩).finished p hstart h0)
    ((hrun'.plain.mono fun _ _ _ h => ⟨h.1.1, h.2⟩).finished p' hstart' h0')

/-! ### The makefile of C68; the commands copy what they read -/

namespace ContentCase

open NullCase (db env)
open SecondCase (deps rules resolves)

/-- `a.c` has the time `s`, `a.o` and `app` have the times `o` and `p` if they exist. -/
def disk (s : Nat) (o p : Option Nat) : Str → Option Nat :=
  fun n => if n = c!"a.c" then some s else if n = c!"a.o" then o else if n = c!"app" then p else none

def cfg (d : Str → Option Nat) : Cfg :=
  { NullCase.cfg with deps := fun _ k => (db.target k).deps.map (resolve env { disk := d, cache := [] }) }

def answers (now : Nat) : Answers := { NullCase.answers with now := now }

/-- The content of a file is one bit. `a.o` is a copy of `a.c`, `app` one of `a.o`. -/
def recipe (t : Nat) (s : Str → Prop → Prop) : Prop := if t = 0 then s c!"a.o" True else s c!"a.c" True

/-- `a.c` was changed: its content is 1, the old ones are 0. -/
def content : Str → Prop := fun n => n = c!"a.c"

def j0 (d : Str → Option Nat) : J :=
  { s := Sched.init (cfg d)
    m := buildAsked env [] { info := fun k => fresh (db.target k), files := { disk := d, cache := [] } } }

def after (d : Str → Option Nat) (j : J) (e : Make.Event) : J := (Make.step env (cfg d) j e).getD j

theorem wanted {d : Str → Option Nat} {t : Nat} (h : Wanted db (cfg d).targets t) : t = 0 ∨ t = 1 := NullCase.wanted h

theorem unambiguous (s : Nat) (o p : Option Nat) (hs : s ≠ 0) (ho : o ≠ some 0) (hp : p ≠ some 0) :
    Unambiguous env.abs (fun n => disk s o p (env.abs n)) db (cfg (disk s o p)).targets where
  names := SecondCase.unambiguous.names
  distinct := SecondCase.unambiguous.distinct
  inferred := SecondCase.unambiguous.inferred
  viaDir := SecondCase.unambiguous.viaDir
  acyclic := SecondCase.unambiguous.acyclic
  oneRule := fun t _ r hr r' hr' _ _ => by rw [(rules hr).2, (rules hr').2]
  filled := by
    intro t ht
    rcases wanted ht with rfl | rfl
    · exact .inl (by simp [db])
    · exact .inr (.inr (.inr ⟨c!"a.c", by simp [db], by simp [disk, env]⟩))
  times := by
    intro n τ h
    simp only [disk] at h
    rintro rfl
    split at h
    · cases h; exact hs rfl
    · split at h
      · exact ho h
      · split at h
        · exact hp h
        · cases h

/-- What `a.o` and `app` are made from. -/
theorem counts1 {f : Files} {d : Str} (h : Counts f db 1 d) : d = c!"a.c" := by
  rcases h with h | ⟨h, _⟩
  · exact absurd (deps h).1 (by decide)
  · exact (rules h).2

theorem counts0 {f : Files} {d : Str} (h : Counts f db 0 d) : d = c!"a.o" := by
  rcases h with h | ⟨h, _⟩
  · exact (deps h).2
  · exact absurd rfl (rules h).1

theorem did1 {f : Files} {s o : Nat} (h1 : f c!"a.c" = some s) (h2 : f c!"a.o" = some o) (h : s ≤ o) : DidWork f db 1 := by
  refine ⟨o, h2, fun d hd τ hτ => ?_⟩
  rw [counts1 hd] at hτ
  rw [behind_of_file h1 hτ]
  exact h

theorem did0 {f : Files} {o p : Nat} (h1 : f c!"a.o" = some o) (h2 : f c!"app" = some p) (h : o ≤ p) : DidWork f db 0 := by
  refine ⟨p, h2, fun d hd τ hτ => ?_⟩
  rw [counts0 hd] at hτ
  rw [behind_of_file h1 hτ]
  exact h

theorem correct1 {f : Files} {c : Str → Prop} (h1 : f c!"a.c" ≠ none) : Correct recipe f c db 1 ↔ (c c!"a.o" ↔ c c!"a.c") := by
  have hm : MadeFrom f db 1 c!"a.c" := ⟨_, .inr ⟨by simp [db], Option.ne_none_iff_exists'.1 h1⟩, .file h1⟩
  show c c!"a.o" = (MadeFrom f db 1 c!"a.c" ∧ c c!"a.c" = True) ↔ _
  simp [hm]

theorem correct0 {f : Files} {c : Str → Prop} (h1 : f c!"a.o" ≠ none) : Correct recipe f c db 0 ↔ (c c!"app" ↔ c c!"a.o") := by
  have hm : MadeFrom f db 0 c!"a.o" := ⟨_, .inl (by simp [db]), .file h1⟩
  show c c!"app" = (MadeFrom f db 0 c!"a.o" ∧ c c!"a.o" = True) ↔ _
  simp [hm]

/-- One step of a traced run that does not begin a new build. -/
theorem next {d : Str → Option Nat} {c0 : Str → Prop} {ok : J → (Str → Prop) → Make.Event → Prop} {j : J} {c : Str → Prop} (e : Make.Event) (c' : Str → Prop)
    (h : Traced env (cfg d) (fun k => fresh (db.target k)) d c0 ok j c)
    (hok : ok j c' e) (hs : (Make.step env (cfg d) j e).isSome = true) (hb : (after d j e).s.build = j.s.build)
    (hc : ∀ x, (∀ value, e ≠ .write x value) → c' x = c x) :
    Traced env (cfg d) (fun k => fresh (db.target k)) d c0 ok (after d j e) c' := by
  obtain ⟨x, hx⟩ := Option.isSome_iff_exists.1 hs
  have ha : after d j e = x := by unfold after; rw [hx]; rfl
  rw [ha] at hb ⊢
  have := Traced.step (e := e) (j' := x) [] h hok hx (fun x hx => hc x (not_touched hx)) (fun hne => absurd hb hne) (fun n hn => by cases hn)
  rwa [if_neg (by simp [hb])] at this

/-- The contents after `file` has been made. -/
def made (file : Str) (c : Str → Prop) : Str → Prop := fun n => n = file ∨ c n

theorem made_other {file : Str} {c : Str → Prop} {v : Option Nat} (x : Str)
    (h : ∀ value, Make.Event.write file v ≠ .write x value) : made file c x = c x := by
  have : x ≠ file := by rintro rfl; exact h v rfl
  simp [made, this]

/-- The disk at the start: with old files of the targets, or without. -/
def start (old : Bool) : Str → Option Nat := if old then disk 4 (some 2) (some 3) else disk 4 none none

def j1 (old : Bool) : J := after (start old) (j0 (start old)) (.startProcesses (answers 4))
def j2 (old : Bool) : J := after (start old) (j1 old) (.write c!"a.o" (some 5))
def j3 (old : Bool) : J := after (start old) (j2 old) (.childFinished 0 false)
def j4 (old : Bool) : J := after (start old) (j3 old) (.startProcesses (answers 5))
def j5 (old : Bool) : J := after (start old) (j4 old) (.write c!"app" (some 6))
def j6 (old : Bool) : J := after (start old) (j5 old) (.childFinished 1 false)
def j7 (old : Bool) : J := after (start old) (j6 old) (.startProcesses (answers 9))

theorem disk_le {s : Nat} {o p : Option Nat} {b : Nat} (hs : s ≤ b) (ho : ∀ τ, o = some τ → τ ≤ b) (hp : ∀ τ, p = some τ → τ ≤ b)
    {x : Str} {τ : Nat} (h : disk s o p x = some τ) : τ ≤ b := by
  simp only [disk] at h
  split at h
  · cases h; exact hs
  · split at h
    · exact ho _ h
    · split at h
      · exact hp _ h
      · cases h

theorem start_le {old : Bool} {x : Str} {τ : Nat} (h : start old x = some τ) : τ ≤ 4 := by
  cases old
  · exact disk_le (Nat.le_refl 4) (fun _ h => by cases h) (fun _ h => by cases h) h
  · exact disk_le (Nat.le_refl 4) (fun _ h => by cases h; decide) (fun _ h => by cases h; decide) h

theorem disk1 (old : Bool) : (j1 old).m.files.disk = start old := by cases old <;> rfl
theorem disk3 (old : Bool) : (j3 old).m.files.disk = fun x => if x = c!"a.o" then some 5 else start old x := by cases old <;> rfl
theorem disk2 (old : Bool) : (j2 old).m.files.disk = fun x => if x = c!"a.o" then some 5 else start old x := by cases old <;> rfl
theorem disk5 (old : Bool) : (j5 old).m.files.disk =
    fun x => if x = c!"app" then some 6 else if x = c!"a.o" then some 5 else start old x := by cases old <;> rfl
theorem disk6 (old : Bool) : (j6 old).m.files.disk =
    fun x => if x = c!"app" then some 6 else if x = c!"a.o" then some 5 else start old x := by cases old <;> rfl

theorem start_c (old : Bool) : start old c!"a.c" = some 4 := by cases old <;> rfl

theorem only {j : J} {e t' : Nat} {Q : Nat → Prop} (hb : j.s.busy = [(e, t')]) (hw : Q t') : ∀ t, (e, t) ∈ j.s.busy → Q t := by
  intro t ht
  rw [hb] at ht
  have : t = t' := by simpa using ht
  rwa [this]

abbrev OK (old : Bool) (j : J) (c : Str → Prop) (e : Make.Event) : Prop :=
  FollowsRecipes env (cfg (start old)) db recipe j c e ∧ WritesLater (start old) e

/-- `a.o` is made, then `app`. -/
theorem run7 (old : Bool) : Traced env (cfg (start old)) (fun k => fresh (db.target k)) (start old) content (OK old) (j7 old)
    (made c!"app" (made c!"a.o" content)) := by
  have hw : ∀ file (n : Nat), 4 < n → WritesLater (start old) (.write file (some n)) := by
    intro file n hn f τ he x s hs
    cases he.2
    exact Nat.lt_of_le_of_lt (start_le hs) hn
  have h0 : Traced env (cfg (start old)) (fun k => fresh (db.target k)) (start old) content (OK old) (j0 (start old)) content :=
    Traced.start [] (fun t => rfl) (fun n hn => by cases hn)
  have h1 : Traced _ _ _ _ _ _ (j1 old) _ := next (.startProcesses (answers 4)) content h0
    ⟨⟨⟨fun x s h => start_le h, works_running⟩, no_success rfl⟩, later_quiet rfl⟩
    (by cases old <;> decide +kernel) (by cases old <;> decide +kernel) (fun _ _ => rfl)
  have h2 : Traced _ _ _ _ _ _ (j2 old) _ := next (.write c!"a.o" (some 5)) (made c!"a.o" content) h1
    ⟨⟨⟨by decide, .inl ⟨1, by cases old <;> decide +kernel, rfl, by decide⟩⟩, no_success rfl⟩, hw _ 5 (by decide)⟩
    (by cases old <;> decide +kernel) (by cases old <;> decide +kernel) made_other
  have h3 : Traced _ _ _ _ _ _ (j3 old) _ := next (.childFinished 0 false) (made c!"a.o" content) h2
    ⟨⟨fun _ => only (t' := 1) (by cases old <;> decide +kernel) (did1 (s := 4) (o := 5)
        (by show (j2 old).m.files.disk c!"a.c" = _; rw [disk2]; exact start_c old)
        (by show (j2 old).m.files.disk c!"a.o" = _; rw [disk2]; rfl) (by decide)),
      by
        refine succeeds_child ?_
        refine only (t' := 1) (by cases old <;> decide +kernel) ((correct1 ?_).2 ?_)
        · show (j2 old).m.files.disk c!"a.c" ≠ none
          rw [disk2]
          show start old c!"a.c" ≠ none
          rw [start_c]
          simp
        · simp [made, content, env]⟩, later_quiet rfl⟩
    (by cases old <;> decide +kernel) (by cases old <;> decide +kernel) (fun _ _ => rfl)
  have h4 : Traced _ _ _ _ _ _ (j4 old) _ := next (.startProcesses (answers 5)) (made c!"a.o" content) h3
    ⟨⟨⟨fun x s h => by
        rw [disk3] at h
        simp only at h
        show s ≤ 5
        split at h
        · cases h; decide
        · exact Nat.le_trans (start_le h) (by decide), works_running⟩, no_success rfl⟩, later_quiet rfl⟩
    (by cases old <;> decide +kernel) (by cases old <;> decide +kernel) (fun _ _ => rfl)
  have h5 : Traced _ _ _ _ _ _ (j5 old) _ := next (.write c!"app" (some 6)) (made c!"app" (made c!"a.o" content)) h4
    ⟨⟨⟨by decide, .inl ⟨0, by cases old <;> decide +kernel, rfl, by decide⟩⟩, no_success rfl⟩, hw _ 6 (by decide)⟩
    (by cases old <;> decide +kernel) (by cases old <;> decide +kernel) made_other
  have h6 : Traced _ _ _ _ _ _ (j6 old) _ := next (.childFinished 1 false) (made c!"app" (made c!"a.o" content)) h5
    ⟨⟨fun _ => only (t' := 0) (by cases old <;> decide +kernel) (did0 (o := 5) (p := 6)
        (by show (j5 old).m.files.disk c!"a.o" = _; rw [disk5]; rfl)
        (by show (j5 old).m.files.disk c!"app" = _; rw [disk5]; rfl) (by decide)),
      by
        refine succeeds_child ?_
        refine only (t' := 0) (by cases old <;> decide +kernel) ((correct0 ?_).2 ?_)
        · show (j5 old).m.files.disk c!"a.o" ≠ none
          rw [disk5]
          simp
        · simp [made, content, env]⟩, later_quiet rfl⟩
    (by cases old <;> decide +kernel) (by cases old <;> decide +kernel) (fun _ _ => rfl)
  exact next (.startProcesses (answers 9)) _ h6
    ⟨⟨⟨fun x s h => by
        rw [disk6] at h
        simp only at h
        show s ≤ 9
        split at h
        · cases h; decide
        · split at h
          · cases h; decide
          · exact Nat.le_trans (start_le h) (by decide), works_running⟩, no_success rfl⟩, later_quiet rfl⟩
    (by cases old <;> decide +kernel) (by cases old <;> decide +kernel) (fun _ _ => rfl)

theorem unambiguous' (old : Bool) : Unambiguous env.abs (fun n => start old (env.abs n)) db (cfg (start old)).targets := by
  cases old
  · exact unambiguous 4 none none (by decide) (by decide) (by decide)
  · exact unambiguous 4 (some 2) (some 3) (by decide) (by decide) (by decide)

/-- At the start `a.o` is out of date or does not exist; `app` is up to date with regard to the old `a.o`, and a copy of it. -/
theorem startsCorrect (old : Bool) : StartsCorrect recipe (fun n => start old (env.abs n)) (fun n => content (env.abs n)) db (cfg (start old)).targets := by
  intro x hx _ hu
  obtain ⟨T, hT, hu⟩ := hu
  rcases wanted hx with rfl | rfl
  · cases old
    · cases hT
    · exact (correct0 (show start true c!"a.o" ≠ none by decide +kernel)).2 (by simp [content, env])
  · exfalso
    cases old
    · cases hT
    · cases hT
      have := (hu c!"a.c" (.inr ⟨by simp [db], 4, rfl⟩)).2 4 (.file rfl)
      omega

/-- A case of the first theorem: the incremental build. -/
example := C74_content_partial rfl (fun _ _ h => h) rfl rfl (unambiguous' true) (startsCorrect true) (run7 true) (by decide +kernel) 0
  ⟨0, by decide +kernel, .refl⟩ (.inl rfl)

theorem derived1 (old : Bool) : Derived (fun n => start old (env.abs n)) db 1 := by
  refine .source (r := c!"a.c") (by simp [db]) ?_
  show start old c!"a.c" ≠ none
  rw [start_c]
  simp

theorem sameSources : SameSources env.abs db (cfg (start true)).targets (start true) (start false) content content := by
  intro n hn hk
  rcases SecondCase.mentioned hn with rfl | rfl | rfl
  · exact absurd (.commands rfl) (hk 0 ⟨0, by decide +kernel, .refl⟩ rfl)
  · exact absurd (derived1 true) (hk 1 ⟨0, by decide +kernel, .single ⟨c!"a.o", by simp [db], .inl rfl⟩⟩ rfl)
  · exact ⟨by simp only [env, id_eq, start_c], rfl⟩

/-- A case of the second theorem: the incremental build and the one from scratch. -/
example := C74_same_result_partial (cfg := cfg (start true)) (cfg' := cfg (start false)) rfl (fun _ _ h => h) rfl NullCase.few rfl sameSources
  rfl (unambiguous' true) (startsCorrect true) (run7 true) (by decide +kernel)
  rfl (unambiguous' false) (startsCorrect false) (run7 false) (by decide +kernel) 1
  ⟨0, by decide +kernel, .single ⟨c!"a.o", by simp [db], .inl rfl⟩⟩ (derived1 true)

end ContentCase

/-! ### The same with `a.o` written in the same instant as the old `app` -/

namespace InstantCase

open NullCase (db env)
open ContentCase

/-- `app` was made, then in the same instant `a.c` was changed. -/
def start : Str → Option Nat := disk 6 (some 5) (some 6)

def j1 : J := after start (ContentCase.j0 start) (.startProcesses (ContentCase.answers 6))
def j2 : J := after start j1 (.write c!"a.o" (some 6))
def j3 : J := after start j2 (.childFinished 0 false)
def j4 : J := after start j3 (.startProcesses (ContentCase.answers 6))

theorem start_le {x : Str} {τ : Nat} (h : start x = some τ) : τ ≤ 6 :=
  ContentCase.disk_le (Nat.le_refl 6) (fun _ h => by cases h; decide) (fun _ h => by cases h; decide) h

theorem disk3 : j3.m.files.disk = fun x => if x = c!"a.o" then some 6 else start x := rfl

abbrev OK (j : J) (c : Str → Prop) (e : Make.Event) : Prop :=
  FollowsRecipes env (ContentCase.cfg start) db recipe j c e ∧ ∀ file τ, Writes file (some τ) e → ∀ x s, start x = some s → s ≤ τ

theorem run4 : Traced env (ContentCase.cfg start) (fun k => fresh (db.target k)) start content OK j4 (made c!"a.o" content) := by
  have h0 : Traced env (ContentCase.cfg start) (fun k => fresh (db.target k)) start content OK (ContentCase.j0 start) content :=
    Traced.start [] (fun t => rfl) (fun n hn => by cases hn)
  have h1 : Traced _ _ _ _ _ _ j1 _ := ContentCase.next (.startProcesses (ContentCase.answers 6)) content h0
    ⟨⟨⟨fun x s h => start_le h, works_running⟩, no_success rfl⟩, fun _ _ h => absurd h (not_writes rfl)⟩
    (by decide +kernel) (by decide +kernel) (fun _ _ => rfl)
  have h2 : Traced _ _ _ _ _ _ j2 _ := ContentCase.next (.write c!"a.o" (some 6)) (made c!"a.o" content) h1
    ⟨⟨⟨by decide, .inl ⟨1, by decide +kernel, rfl, by decide⟩⟩, no_success rfl⟩, fun f τ he x s hs => by cases he.2; exact start_le hs⟩
    (by decide +kernel) (by decide +kernel) made_other
  have h3 : Traced _ _ _ _ _ _ j3 _ := ContentCase.next (.childFinished 0 false) (made c!"a.o" content) h2
    ⟨⟨fun _ => only (t' := 1) (by decide +kernel) (did1 (s := 6) (o := 6) rfl rfl (by decide)),
      by
        refine succeeds_child ?_
        refine only (t' := 1) (by decide +kernel) ((correct1 ?_).2 ?_)
        · show start c!"a.c" ≠ none
          decide +kernel
        · simp [made, content, env]⟩,
      fun _ _ h => absurd h (not_writes rfl)⟩
    (by decide +kernel) (by decide +kernel) (fun _ _ => rfl)
  exact ContentCase.next (.startProcesses (ContentCase.answers 6)) _ h3
    ⟨⟨⟨fun x s h => by
        rw [disk3] at h
        simp only at h
        show s ≤ 6
        split at h
        · cases h; decide
        · exact start_le h, works_running⟩, no_success rfl⟩, fun _ _ h => absurd h (not_writes rfl)⟩
    (by decide +kernel) (by decide +kernel) (fun _ _ => rfl)

theorem startsCorrect : StartsCorrect recipe (fun n => start (env.abs n)) (fun n => content (env.abs n)) db (ContentCase.cfg start).targets := by
  intro x hx _ hu
  obtain ⟨T, hT, hu⟩ := hu
  rcases ContentCase.wanted hx with rfl | rfl
  · exact (correct0 (show start c!"a.o" ≠ none by decide +kernel)).2 (by simp [content, env])
  · exfalso
    cases hT
    have := (hu c!"a.c" (.inr ⟨by simp [db], 6, rfl⟩)).2 6 (.file rfl)
    omega

end InstantCase

/-- C74 needs "newer": if files may also get the time of the newest file that was there before, jom can end with exit code 0 although `app` was
not made again and still contains what was made from the old `a.o`. -/
theorem C74_same_instant : ∃ (env : Env) (cfg : Cfg) (db : Db) (disk : Str → Option Nat) (recipe : Nat → (Str → Prop → Prop) → Prop)
    (content content' : Str → Prop) (j : J) (t : Nat),
    env.lookup = db.lookup ∧ (∀ r k, env.key r = some k → db.lookup r = some k) ∧ env.dir = db.dir ∧ cfg.buildAll = false ∧
    Unambiguous env.abs (fun n => disk (env.abs n)) db cfg.targets ∧
    StartsCorrect recipe (fun n => disk (env.abs n)) (fun n => content (env.abs n)) db cfg.targets ∧
    Traced env cfg (fun k => fresh (db.target k)) disk content
      (fun j c e => FollowsRecipes env cfg db recipe j c e ∧ ∀ file τ, Writes file (some τ) e → ∀ x s, disk x = some s → s ≤ τ) j content' ∧
    j.s.exits = [0] ∧ Wanted db cfg.targets t ∧ Buildable (fun n => j.m.files.disk (env.abs n)) db t ∧
    ¬ Correct recipe (fun n => j.m.files.disk (env.abs n)) (fun n => content' (env.abs n)) db t := by
  refine ⟨NullCase.env, ContentCase.cfg InstantCase.start, NullCase.db, InstantCase.start, ContentCase.recipe, ContentCase.content, _,
    InstantCase.j4, 0, rfl, fun _ _ h => h, rfl, rfl, ContentCase.unambiguous 6 (some 5) (some 6) (by decide) (by decide) (by decide),
    InstantCase.startsCorrect, InstantCase.run4, by decide +kernel, ⟨0, by decide +kernel, .refl⟩, .inl rfl, fun h => ?_⟩
  have := (ContentCase.correct0 (by decide +kernel)).1 h
  simp [ContentCase.made, ContentCase.content, NullCase.env] at this

/-! ### The same makefile; jom makes both targets itself, without a process -/

namespace SyncCase

open NullCase (db env)
open ContentCase

/-- `file` is written before jom goes on. -/
def writes (now : Nat) (file : Str) (τ : Nat) : Answers := { answers now with res := .sync false, writes := [(file, some τ)] }

abbrev first : Str → Option Nat := start false

def j1 : J := after first (j0 first) (.startProcesses (writes 4 c!"a.o" 5))
def j2 : J := after first j1 (.startProcesses (writes 5 c!"app" 6))
def j3 : J := after first j2 (.startProcesses (answers 9))

theorem log3 : j3.s.log = [.started 0 1, .succeeded 0 1, .started 0 0, .succeeded 0 0] ∧ j3.s.exits = [0] := by decide +kernel

theorem disk1 : j1.m.files.disk = fun x => if x = c!"a.o" then some 5 else first x := rfl
theorem disk2 : j2.m.files.disk = fun x => if x = c!"app" then some 6 else if x = c!"a.o" then some 5 else first x := rfl

theorem does {j : J} {e : Make.Event} {b t : Nat} (hs : (Make.step env (cfg first) j e).isSome = true)
    (h1 : Ev.started b t ∈ (after first j e).s.log) (h2 : Ev.started b t ∉ j.s.log) : Starts env (cfg first) j e t := by
  obtain ⟨x, hx⟩ := Option.isSome_iff_exists.1 hs
  have ha : after first j e = x := by unfold after; rw [hx]; rfl
  exact ⟨x, b, hx, ha ▸ h1, h2⟩

theorem starts {j : J} {e : Make.Event} {u t : Nat}
    (hl : ∀ b x, Ev.started b x ∈ (after first j e).s.log → Ev.started b x ∉ j.s.log → x = u) (h : Starts env (cfg first) j e t) : t = u := by
  obtain ⟨j', b, h1, h2, h3⟩ := h
  have : after first j e = j' := by unfold after; rw [h1]; rfl
  exact hl b t (this ▸ h2) h3

theorem starts1 {t : Nat} (h : Starts env (cfg first) (j0 first) (.startProcesses (writes 4 c!"a.o" 5)) t) : t = 1 := by
  refine starts (fun b x hx _ => ?_) h
  have hl : j1.s.log = [.started 0 1, .succeeded 0 1] := by decide +kernel
  have hx : Ev.started b x ∈ j1.s.log := hx
  rw [hl] at hx
  simp at hx
  exact hx.2

theorem starts0 {t : Nat} (h : Starts env (cfg first) j1 (.startProcesses (writes 5 c!"app" 6)) t) : t = 0 := by
  refine starts (fun b x hx hn => ?_) h
  have hl : j1.s.log = [.started 0 1, .succeeded 0 1] := by decide +kernel
  have hl2 : j2.s.log = [.started 0 1, .succeeded 0 1, .started 0 0, .succeeded 0 0] := by decide +kernel
  have hx : Ev.started b x ∈ j2.s.log := hx
  rw [hl2] at hx
  rw [hl] at hn
  simp at hx hn
  omega

abbrev OK (j : J) (c : Str → Prop) (e : Make.Event) : Prop :=
  FollowsRecipes env (cfg first) db recipe j c e ∧ WritesLater first e

theorem step {j : J} {c : Str → Prop} (e : Make.Event) (c' : Str → Prop)
    (h : Traced env (cfg first) (fun k => fresh (db.target k)) first content OK j c)
    (hok : OK j c' e) (hs : (Make.step env (cfg first) j e).isSome = true) (hb : (after first j e).s.build = j.s.build)
    (hc : ∀ x, ¬ Touches env (cfg first) j e x → c' x = c x) :
    Traced env (cfg first) (fun k => fresh (db.target k)) first content OK (after first j e) c' := by
  obtain ⟨x, hx⟩ := Option.isSome_iff_exists.1 hs
  have ha : after first j e = x := by unfold after; rw [hx]; rfl
  rw [ha] at hb ⊢
  have := Traced.step (e := e) (j' := x) [] h hok hx hc (fun hne => absurd hb hne) (fun n hn => by cases hn)
  rwa [if_neg (by simp [hb])] at this

theorem later {now : Nat} {file : Str} {τ : Nat} (h : 4 < τ) : WritesLater first (.startProcesses (writes now file τ)) := by
  rintro f v ⟨_, hm⟩ x s hs
  have hm := List.mem_singleton.1 hm
  cases hm
  exact Nat.lt_of_le_of_lt (start_le hs) h

theorem run3 : Traced env (cfg first) (fun k => fresh (db.target k)) first content OK j3 (made c!"app" (made c!"a.o" content)) := by
  have h0 : Traced env (cfg first) (fun k => fresh (db.target k)) first content OK (j0 first) content :=
    Traced.start [] (fun t => rfl) (fun n hn => by cases hn)
  have h1 : Traced _ _ _ _ _ _ j1 _ := step (.startProcesses (writes 4 c!"a.o" 5)) (made c!"a.o" content) h0
    ⟨⟨⟨fun x s h => start_le (old := false) h, fun _ _ t ht => by
        cases starts1 ht
        refine ⟨fun w hw => ?_, fun _ _ => did1 (s := 4) (o := 5) rfl rfl (by decide)⟩
        cases List.mem_singleton.1 hw
        exact ⟨by decide, .inl ⟨1, by simp, rfl, by decide⟩⟩⟩,
      fun t d h => by
        obtain ⟨_, h1, rfl⟩ := h
        cases starts1 h1
        refine (correct1 ?_).2 ?_
        · show first c!"a.c" ≠ none
          decide +kernel
        · simp [made, content, env]⟩, later (by decide)⟩
    (by decide +kernel) (by decide +kernel) fun x hx => by
      have : x ≠ c!"a.o" := by
        rintro rfl
        exact hx (.inr ⟨some 5, 1, ⟨⟨_, rfl⟩, .head _⟩, does (b := 0) (by decide +kernel) (by decide +kernel) (by decide +kernel)⟩)
      simp [made, this]
  have h2 : Traced _ _ _ _ _ _ j2 _ := step (.startProcesses (writes 5 c!"app" 6)) (made c!"app" (made c!"a.o" content)) h1
    ⟨⟨⟨fun x s h => by
        rw [disk1] at h
        simp only at h
        show s ≤ 5
        split at h
        · cases h; decide
        · exact Nat.le_trans (start_le h) (by decide), fun _ _ t ht => by
        cases starts0 ht
        refine ⟨fun w hw => ?_, fun _ _ => did0 (o := 5) (p := 6) rfl rfl (by decide)⟩
        cases List.mem_singleton.1 hw
        exact ⟨by decide, .inl ⟨0, by simp, rfl, by decide⟩⟩⟩,
      fun t d h => by
        obtain ⟨_, h1, rfl⟩ := h
        cases starts0 h1
        refine (correct0 ?_).2 ?_
        · show some 5 ≠ none
          simp
        · simp [made, content, env]⟩, later (by decide)⟩
    (by decide +kernel) (by decide +kernel) fun x hx => by
      have : x ≠ c!"app" := by
        rintro rfl
        exact hx (.inr ⟨some 6, 0, ⟨⟨_, rfl⟩, .head _⟩, does (b := 0) (by decide +kernel) (by decide +kernel) (by decide +kernel)⟩)
      simp [made, this]
  exact step (.startProcesses (answers 9)) _ h2
    ⟨⟨⟨fun x s h => by
        rw [disk2] at h
        simp only at h
        show s ≤ 9
        split at h
        · cases h; decide
        · split at h
          · cases h; decide
          · exact Nat.le_trans (start_le h) (by decide), works_running⟩, no_success rfl⟩, later_quiet rfl⟩
    (by decide +kernel) (by decide +kernel) (fun _ _ => rfl)

/-- The theorem applies: `app` contains what its recipe says. -/
example : Correct recipe (fun n => j3.m.files.disk (env.abs n)) (fun n => made c!"app" (made c!"a.o" content) (env.abs n)) db 0 :=
  C74_content_partial rfl (fun _ _ h => h) rfl rfl (unambiguous' false) (startsCorrect false) run3 (by rw [log3.2]; simp) 0
    ⟨0, by decide +kernel, .refl⟩ (.inl rfl)

end SyncCase

end Jom.Props
