/- C105: whether a build succeeds depends neither on the number of jobs nor on the order in which processes end. -/
import Verif.Proofs.MakeJobs
import Verif.Props.Content
import Verif.Props.Rebuild

namespace Jom.Props

open Jom.Graph Jom.Sched Jom.UpToDate Jom.Spec.Build Jom.Make Relation

variable {C : Type}

/-- C105. Suppose a makefile is unambiguous, the commands follow their recipes, and whether they succeed is determined by the names and contents of
the files their targets are made from. If a build ends with exit code 0, then no command fails in any other build of the same targets from
the same files, with whatever number of jobs, order of events, with or without `/K`; such a build is never aborted, and if it ends, then
with exit code 0. (Targets without commands that have a file must not need other targets: the file would count instead of what
stands behind it. Exceptions, e.g. a process that cannot be started, are excluded.) -/
theorem C105_success_partial {env : Env} {cfg cfg' : Cfg} {db : Db} {disk : Str → Option Nat}
    {recipe : Nat → (Str → C → Prop) → C} {works : Nat → (Str → C → Prop) → Prop} {old new new' : Str → C}
    (hlookup : env.lookup = db.lookup) (hkey : ∀ r k, env.key r = some k → db.lookup r = some k) (hdir : env.dir = db.dir)
    (htargets : cfg'.targets = cfg.targets) (hall : cfg.buildAll = false) (hall' : cfg'.buildAll = false)
    (hfew : FewerThan db cfg'.targets cfg'.fuel) (hun : Unambiguous env.abs (fun n => disk (env.abs n)) db cfg.targets)
    (hstart : StartsCorrect recipe (fun n => disk (env.abs n)) (fun n => old (env.abs n)) db cfg.targets)
    (hplain : ∀ k, Wanted db cfg.targets k → ¬ Derived (fun n => disk (env.abs n)) db k → disk (env.abs (db.target k).name) ≠ none →
      ∀ y, ¬ Needs db k y) {j : J}
    (hrun : Traced env cfg (fun k => fresh (db.target k)) disk old
      (fun j c e => (FollowsRecipes env cfg db recipe j c e ∧ WritesLater disk e) ∧ Decides env cfg db works j c e) j new) (h0 : 0 ∈ j.s.exits) {j' : J}
    (hrun' : Traced env cfg' (fun k => fresh (db.target k)) disk old
      (fun j c e => (FollowsRecipes env cfg' db recipe j c e ∧ WritesLater disk e) ∧ Decides env cfg' db works j c e) j' new')
    (hexc : Ev.exception ∉ j'.s.log) :
    (∀ b t, Ev.failed b t ∉ j'.s.log) ∧ j'.s.aborted = false ∧ ∀ code ∈ j'.s.exits, code = 0 := by
  have p : Plan env cfg db disk := ⟨hlookup, hdir, hall, hkey, hun⟩
  have p' : Plan env cfg' db disk := ⟨hlookup, hdir, hall', hkey, htargets ▸ hun⟩
  have h : Tells env cfg db recipe works disk old j new := hrun.plainPlays
  have h' : Tells env cfg' db recipe works disk old j' new' := hrun'.plainPlays
  obtain ⟨h1, h2⟩ := h.again (htargets ▸ hfew) p p' rfl htargets hstart hplain h0 h' hexc
  exact ⟨h1, h2, h.codes (htargets ▸ hfew) hfew p p' rfl htargets hstart hplain h0 h' hexc⟩

/-- C105. Two builds of the same targets from the same files that both end with exit code 0 execute the commands of the same targets. -/
theorem C105_same_targets_partial {env : Env} {cfg cfg' : Cfg} {db : Db} {disk : Str → Option Nat}
    {recipe : Nat → (Str → C → Prop) → C} {old new new' : Str → C}
    (hlookup : env.lookup = db.lookup) (hkey : ∀ r k, env.key r = some k → db.lookup r = some k) (hdir : env.dir = db.dir)
    (htargets : cfg'.targets = cfg.targets) (hall : cfg.buildAll = false) (hall' : cfg'.buildAll = false)
    (hfew : FewerThan db cfg'.targets cfg'.fuel) (hun : Unambiguous env.abs (fun n => disk (env.abs n)) db cfg.targets)
    (hstart : StartsCorrect recipe (fun n => disk (env.abs n)) (fun n => old (env.abs n)) db cfg.targets)
    (hplain : ∀ k, Wanted db cfg.targets k → ¬ Derived (fun n => disk (env.abs n)) db k → disk (env.abs (db.target k).name) ≠ none →
      ∀ y, ¬ Needs db k y) {j : J}
    (hrun : Traced env cfg (fun k => fresh (db.target k)) disk old
      (fun j c e => FollowsRecipes env cfg db recipe j c e ∧ WritesLater disk e) j new) (h0 : 0 ∈ j.s.exits) {j' : J}
    (hrun' : Traced env cfg' (fun k => fresh (db.target k)) disk old
      (fun j c e => FollowsRecipes env cfg' db recipe j c e ∧ WritesLater disk e) j' new') (h0' : 0 ∈ j'.s.exits) (t : Nat) :
    (∃ b, Ev.started b t ∈ j.s.log) ↔ ∃ b, Ev.started b t ∈ j'.s.log := by
  have p : Plan env cfg db disk := ⟨hlookup, hdir, hall, hkey, hun⟩
  have p' : Plan env cfg' db disk := ⟨hlookup, hdir, hall', hkey, htargets ▸ hun⟩
  have hfew1 : FewerThan db cfg.targets cfg'.fuel := htargets ▸ hfew
  have hfin := (hrun.plain.mono fun _ _ _ h => ⟨h.1.1, h.2⟩).finished p hstart h0
  have hfin' := (hrun'.plain.mono fun _ _ _ h => ⟨h.1.1, h.2⟩).finished p' (htargets ▸ hstart) h0'
  have hb := hfin.buildable hfew1 p rfl rfl (same_refl (db := db) (disk := disk) (c0 := old) env.abs cfg.targets)
  have hb' := hfin'.buildable hfew1 p' rfl htargets (same_refl (db := db) (disk := disk) (c0 := old) env.abs cfg.targets)
  have hiff : ∀ k, Wanted db cfg.targets k → (Buildable (fm env j.m) db k ↔ Buildable (fm env j'.m) db k) := fun k hk =>
    ⟨fun h => hb' k hk (hfin.honest.source p hk h), fun h => hb k hk (hfin'.honest.source p' (htargets ▸ hk) h)⟩
  have hr := (hrun.plain.run (ok' := fun j e => PlainBehaves env cfg db j e ∧ PlainLater disk e) fun _ _ _ h => ⟨h.1.1.1, h.2⟩).exactly p h0
    (fun k hk hnb => hplain k hk fun hd => hnb (hb k hk hd)) t
  have hr' := (hrun'.plain.run (ok' := fun j e => PlainBehaves env cfg' db j e ∧ PlainLater disk e) fun _ _ _ h => ⟨h.1.1.1, h.2⟩).exactly p' h0'
    (fun k hk hnb => hplain k (htargets ▸ hk) fun hd => hnb (hb' k (htargets ▸ hk) hd)) t
  rw [hr, hr', htargets]
  constructor
  · rintro ⟨hw, h1, y, hy, h2, h3⟩
    exact ⟨hw, (hiff t hw).1 h1, y, hy, (hiff y (hw.down hy)).1 h2, h3⟩
  · rintro ⟨hw, h1, y, hy, h2, h3⟩
    exact ⟨hw, (hiff t hw).2 h1, y, hy, (hiff y (hw.down hy)).2 h2, h3⟩

/-- C105. Altogether: after a build that ended with exit code 0, any other build of the same targets from the same files that ends (without an exception)
has executed the commands of the same targets, successfully, and left the same contents. -/
theorem C105_same_build_partial {env : Env} {cfg cfg' : Cfg} {db : Db} {disk : Str → Option Nat}
    {recipe : Nat → (Str → C → Prop) → C} {works : Nat → (Str → C → Prop) → Prop} {old new new' : Str → C}
    (hlookup : env.lookup = db.lookup) (hkey : ∀ r k, env.key r = some k → db.lookup r = some k) (hdir : env.dir = db.dir)
    (htargets : cfg'.targets = cfg.targets) (hall : cfg.buildAll = false) (hall' : cfg'.buildAll = false)
    (hfew : FewerThan db cfg.targets cfg.fuel) (hfew' : FewerThan db cfg'.targets cfg'.fuel)
    (hun : Unambiguous env.abs (fun n => disk (env.abs n)) db cfg.targets)
    (hstart : StartsCorrect recipe (fun n => disk (env.abs n)) (fun n => old (env.abs n)) db cfg.targets)
    (hplain : ∀ k, Wanted db cfg.targets k → ¬ Derived (fun n => disk (env.abs n)) db k → disk (env.abs (db.target k).name) ≠ none →
      ∀ y, ¬ Needs db k y) {j : J}
    (hrun : Traced env cfg (fun k => fresh (db.target k)) disk old
      (fun j c e => (FollowsRecipes env cfg db recipe j c e ∧ WritesLater disk e) ∧ Decides env cfg db works j c e) j new) (h0 : 0 ∈ j.s.exits) {j' : J}
    (hrun' : Traced env cfg' (fun k => fresh (db.target k)) disk old
      (fun j c e => (FollowsRecipes env cfg' db recipe j c e ∧ WritesLater disk e) ∧ Decides env cfg' db works j c e) j' new')
    (hexc : Ev.exception ∉ j'.s.log) (hends : j'.s.exits ≠ []) :
    0 ∈ j'.s.exits ∧ (∀ t, (∃ b, Ev.started b t ∈ j.s.log) ↔ ∃ b, Ev.started b t ∈ j'.s.log) ∧
    ∀ t, Wanted db cfg.targets t → Derived (fun n => disk (env.abs n)) db t →
      j.m.files.disk (env.abs (db.target t).name) ≠ none ∧ j'.m.files.disk (env.abs (db.target t).name) ≠ none ∧
      new (env.abs (db.target t).name) = new' (env.abs (db.target t).name) := by
  obtain ⟨_, _, h1⟩ := C105_success_partial hlookup hkey hdir htargets hall hall' hfew' hun hstart hplain hrun h0 hrun' hexc
  have h0' : 0 ∈ j'.s.exits := by
    cases hx : j'.s.exits with
    | nil => exact absurd hx hends
    | cons a l =>
      have := h1 a (by rw [hx]; exact List.mem_cons_self)
      rw [this]
      exact List.mem_cons_self
  have hrun1 := hrun.mono (ok' := fun j c e => FollowsRecipes env cfg db recipe j c e ∧ WritesLater disk e) fun _ _ _ h => h.1
  have hrun1' := hrun'.mono (ok' := fun j c e => FollowsRecipes env cfg' db recipe j c e ∧ WritesLater disk e) fun _ _ _ h => h.1
  exact ⟨h0', C105_same_targets_partial hlookup hkey hdir htargets hall hall' hfew' hun hstart hplain hrun1 h0 hrun1' h0',
    C74_same_result_partial hlookup hkey hdir hfew htargets (same_refl (db := db) (disk := disk) (c0 := old) env.abs cfg.targets) hall hun hstart hrun1 h0 hall'
      (htargets ▸ hun) (htargets ▸ hstart) hrun1' h0'⟩

/-- C105. Of two builds of the same targets from the same files that have ended (without exceptions), either both have ended with exit code 0 or neither. -/
theorem C105_exit_partial {env : Env} {cfg cfg' : Cfg} {db : Db} {disk : Str → Option Nat}
    {recipe : Nat → (Str → C → Prop) → C} {works : Nat → (Str → C → Prop) → Prop} {old new new' : Str → C}
    (hlookup : env.lookup = db.lookup) (hkey : ∀ r k, env.key r = some k → db.lookup r = some k) (hdir : env.dir = db.dir)
    (htargets : cfg'.targets = cfg.targets) (hall : cfg.buildAll = false) (hall' : cfg'.buildAll = false)
    (hfew : FewerThan db cfg.targets cfg.fuel) (hfew' : FewerThan db cfg'.targets cfg'.fuel)
    (hun : Unambiguous env.abs (fun n => disk (env.abs n)) db cfg.targets)
    (hstart : StartsCorrect recipe (fun n => disk (env.abs n)) (fun n => old (env.abs n)) db cfg.targets)
    (hplain : ∀ k, Wanted db cfg.targets k → ¬ Derived (fun n => disk (env.abs n)) db k → disk (env.abs (db.target k).name) ≠ none →
      ∀ y, ¬ Needs db k y) {j : J}
    (hrun : Traced env cfg (fun k => fresh (db.target k)) disk old
      (fun j c e => (FollowsRecipes env cfg db recipe j c e ∧ WritesLater disk e) ∧ Decides env cfg db works j c e) j new)
    (hexc : Ev.exception ∉ j.s.log) (hends : j.s.exits ≠ []) {j' : J}
    (hrun' : Traced env cfg' (fun k => fresh (db.target k)) disk old
      (fun j c e => (FollowsRecipes env cfg' db recipe j c e ∧ WritesLater disk e) ∧ Decides env cfg' db works j c e) j' new')
    (hexc' : Ev.exception ∉ j'.s.log) (hends' : j'.s.exits ≠ []) : 0 ∈ j.s.exits ↔ 0 ∈ j'.s.exits :=
  ⟨fun h0 => (C105_same_build_partial hlookup hkey hdir htargets hall hall' hfew hfew' hun hstart hplain hrun h0 hrun' hexc' hends').1,
    fun h0 => (C105_same_build_partial hlookup hkey hdir htargets.symm hall' hall hfew' hfew (htargets ▸ hun) (htargets ▸ hstart) (htargets ▸ hplain)
      hrun' h0 hrun hexc hends).1⟩

/-! ### The makefile of C68 with one job, and with three jobs and `/K`; the commands copy what they read, and fail if it is 0 -/

namespace JobsCase

open NullCase (db env)
open ContentCase (disk recipe content answers made made_other did0 did1 correct0 correct1 only start start_le start_c)

def cfg (one : Bool) : Cfg :=
  { ContentCase.cfg (start true) with jobs := if one then 1 else 3, keepGoing := !one }

def works (t : Nat) (s : Str → Prop → Prop) : Prop := recipe t s

def j0 (one : Bool) : J :=
  { s := Sched.init (cfg one)
    m := buildAsked env [] { info := fun k => fresh (db.target k), files := { disk := start true, cache := [] } } }

def after (one : Bool) (j : J) (e : Make.Event) : J := (Make.step env (cfg one) j e).getD j

def second (one : Bool) : Nat := if one then 0 else 1

def j1 (one : Bool) : J := after one (j0 one) (.startProcesses (answers 4))
def j2 (one : Bool) : J := after one (j1 one) (.write c!"a.o" (some 5))
def j3 (one : Bool) : J := after one (j2 one) (.childFinished 0 false)
def j4 (one : Bool) : J := after one (j3 one) (.startProcesses (answers 5))
def j5 (one : Bool) : J := after one (j4 one) (.write c!"app" (some 6))
def j6 (one : Bool) : J := after one (j5 one) (.childFinished (second one) false)
def j7 (one : Bool) : J := after one (j6 one) (.startProcesses (answers 9))

abbrev OK (one : Bool) (j : J) (c : Str → Prop) (e : Make.Event) : Prop :=
  (FollowsRecipes env (cfg one) db recipe j c e ∧ WritesLater (start true) e) ∧ Decides env (cfg one) db works j c e

theorem next {one : Bool} {j : J} {c : Str → Prop} (e : Make.Event) (c' : Str → Prop)
    (h : Traced env (cfg one) (fun k => fresh (db.target k)) (start true) content (OK one) j c)
    (hok : OK one j c' e) (hs : (Make.step env (cfg one) j e).isSome = true) (hb : (after one j e).s.build = j.s.build)
    (hc : ∀ x, (∀ value, e ≠ .write x value) → c' x = c x) :
    Traced env (cfg one) (fun k => fresh (db.target k)) (start true) content (OK one) (after one j e) c' := by
  obtain ⟨x, hx⟩ := Option.isSome_iff_exists.1 hs
  have ha : after one j e = x := by unfold after; rw [hx]; rfl
  rw [ha] at hb ⊢
  have := Traced.step (e := e) (j' := x) [] h hok hx (fun x hx => hc x (not_touched hx)) (fun hne => absurd hb hne) (fun n hn => by cases hn)
  rwa [if_neg (by simp [hb])] at this

theorem quiet_start {one : Bool} {j : J} {c : Str → Prop} {n : Nat} : Decides env (cfg one) db works j c (.startProcesses (answers n)) := by
  rintro _ t failed d ⟨h, _⟩
  cases h

theorem quiet_write {one : Bool} {j : J} {c : Str → Prop} {x : Str} {n : Nat} : Decides env (cfg one) db works j c (.write x (some n)) := by
  rintro _ t failed d h
  cases h

theorem ends {one : Bool} {j : J} {c : Str → Prop} {ex : Nat}
    (h : ∀ t, (ex, t) ∈ j.s.busy → works t fun n v => MadeFrom (fun n => j.m.files.disk (env.abs n)) db t n ∧ c (env.abs n) = v) :
    Decides env (cfg one) db works j c (.childFinished ex false) := by
  rintro _ t failed d ⟨rfl, ht, rfl⟩
  exact ⟨fun _ => h t ht, fun _ => rfl⟩

theorem disk2 (one : Bool) : (j2 one).m.files.disk = fun x => if x = c!"a.o" then some 5 else start true x := by cases one <;> rfl
theorem disk3 (one : Bool) : (j3 one).m.files.disk = fun x => if x = c!"a.o" then some 5 else start true x := by cases one <;> rfl
theorem disk5 (one : Bool) : (j5 one).m.files.disk =
    fun x => if x = c!"app" then some 6 else if x = c!"a.o" then some 5 else start true x := by cases one <;> rfl
theorem disk6 (one : Bool) : (j6 one).m.files.disk =
    fun x => if x = c!"app" then some 6 else if x = c!"a.o" then some 5 else start true x := by cases one <;> rfl

theorem works1 {f : Files} {c : Str → Prop} (h1 : f c!"a.c" ≠ none) (h2 : c c!"a.c") : works 1 fun n v => MadeFrom f db 1 n ∧ c n = v :=
  ⟨⟨_, .inr ⟨by simp [db], Option.ne_none_iff_exists'.1 h1⟩, .file h1⟩, by simp [h2]⟩

theorem works0 {f : Files} {c : Str → Prop} (h1 : f c!"a.o" ≠ none) (h2 : c c!"a.o") : works 0 fun n v => MadeFrom f db 0 n ∧ c n = v :=
  ⟨⟨_, .inl (by simp [db]), .file h1⟩, by simp [h2]⟩

theorem run7 (one : Bool) : Traced env (cfg one) (fun k => fresh (db.target k)) (start true) content (OK one) (j7 one)
    (made c!"app" (made c!"a.o" content)) := by
  have hw : ∀ file (n : Nat), 4 < n → WritesLater (start true) (.write file (some n)) := by
    intro file n hn f τ he x s hs
    cases he.2
    exact Nat.lt_of_le_of_lt (start_le hs) hn
  have hc2 : (j2 one).m.files.disk c!"a.c" ≠ none := by
    rw [disk2]
    show start true c!"a.c" ≠ none
    rw [start_c]
    simp
  have ho5 : (j5 one).m.files.disk c!"a.o" ≠ none := by rw [disk5]; simp
  have h0 : Traced env (cfg one) (fun k => fresh (db.target k)) (start true) content (OK one) (j0 one) content :=
    Traced.start [] (fun t => rfl) (fun n hn => by cases hn)
  have h1 : Traced _ _ _ _ _ _ (j1 one) _ := next (.startProcesses (answers 4)) content h0
    ⟨⟨⟨⟨fun x s h => start_le (old := true) h, works_running⟩, no_success rfl⟩, later_quiet rfl⟩, quiet_start⟩
    (by cases one <;> decide +kernel) (by cases one <;> decide +kernel) (fun _ _ => rfl)
  have h2 : Traced _ _ _ _ _ _ (j2 one) _ := next (.write c!"a.o" (some 5)) (made c!"a.o" content) h1
    ⟨⟨⟨⟨by decide, .inl ⟨1, by cases one <;> decide +kernel, rfl, by decide⟩⟩, no_success rfl⟩, hw _ 5 (by decide)⟩, quiet_write⟩
    (by cases one <;> decide +kernel) (by cases one <;> decide +kernel) made_other
  have h3 : Traced _ _ _ _ _ _ (j3 one) _ := next (.childFinished 0 false) (made c!"a.o" content) h2
    ⟨⟨⟨fun _ => only (t' := 1) (by cases one <;> decide +kernel) (did1 (s := 4) (o := 5)
        (by show (j2 one).m.files.disk c!"a.c" = _; rw [disk2]; exact start_c true)
        (by show (j2 one).m.files.disk c!"a.o" = _; rw [disk2]; rfl) (by decide)),
      succeeds_child (only (t' := 1) (by cases one <;> decide +kernel) ((correct1 hc2).2 (by simp [made, content, env])))⟩, later_quiet rfl⟩,
      ends (only (t' := 1) (by cases one <;> decide +kernel) (works1 hc2 (by simp [made, content, env])))⟩
    (by cases one <;> decide +kernel) (by cases one <;> decide +kernel) (fun _ _ => rfl)
  have h4 : Traced _ _ _ _ _ _ (j4 one) _ := next (.startProcesses (answers 5)) (made c!"a.o" content) h3
    ⟨⟨⟨⟨fun x s h => by
        rw [disk3] at h
        simp only at h
        show s ≤ 5
        split at h
        · cases h; decide
        · exact Nat.le_trans (start_le (old := true) h) (by decide), works_running⟩, no_success rfl⟩, later_quiet rfl⟩, quiet_start⟩
    (by cases one <;> decide +kernel) (by cases one <;> decide +kernel) (fun _ _ => rfl)
  have h5 : Traced _ _ _ _ _ _ (j5 one) _ := next (.write c!"app" (some 6)) (made c!"app" (made c!"a.o" content)) h4
    ⟨⟨⟨⟨by decide, .inl ⟨0, by cases one <;> decide +kernel, rfl, by decide⟩⟩, no_success rfl⟩, hw _ 6 (by decide)⟩, quiet_write⟩
    (by cases one <;> decide +kernel) (by cases one <;> decide +kernel) made_other
  have h6 : Traced _ _ _ _ _ _ (j6 one) _ := next (.childFinished (second one) false) (made c!"app" (made c!"a.o" content)) h5
    ⟨⟨⟨fun _ => only (t' := 0) (by cases one <;> decide +kernel) (did0 (o := 5) (p := 6)
        (by show (j5 one).m.files.disk c!"a.o" = _; rw [disk5]; rfl)
        (by show (j5 one).m.files.disk c!"app" = _; rw [disk5]; rfl) (by decide)),
      succeeds_child (only (t' := 0) (by cases one <;> decide +kernel) ((correct0 ho5).2 (by simp [made, content, env])))⟩, later_quiet rfl⟩,
      ends (only (t' := 0) (by cases one <;> decide +kernel) (works0 ho5 (by simp [made, content, env])))⟩
    (by cases one <;> decide +kernel) (by cases one <;> decide +kernel) (fun _ _ => rfl)
  exact next (.startProcesses (answers 9)) _ h6
    ⟨⟨⟨⟨fun x s h => by
        rw [disk6] at h
        simp only at h
        show s ≤ 9
        split at h
        · cases h; decide
        · split at h
          · cases h; decide
          · exact Nat.le_trans (start_le (old := true) h) (by decide), works_running⟩, no_success rfl⟩, later_quiet rfl⟩, quiet_start⟩
    (by cases one <;> decide +kernel) (by cases one <;> decide +kernel) (fun _ _ => rfl)

/-- Both targets can be made. -/
theorem plain (k : Nat) (hk : Wanted db (cfg true).targets k) (hd : ¬ Derived (fun n => start true (env.abs n)) db k)
    (_ : start true (env.abs (db.target k).name) ≠ none) (y : Nat) : ¬ Needs db k y := by
  rcases NullCase.wanted hk with rfl | rfl
  · exact absurd (.commands rfl) hd
  · exact absurd (ContentCase.derived1 true) hd

/-- A case of the theorems: the first build with one job, the second with three and `/K`. -/
example := C105_same_build_partial (cfg := cfg true) (cfg' := cfg false) rfl (fun _ _ h => h) rfl rfl rfl rfl NullCase.few NullCase.few
  (ContentCase.unambiguous' true) (ContentCase.startsCorrect true) plain (run7 true) (by decide +kernel) (run7 false) (by decide +kernel) (by decide +kernel)

/-- Indeed two targets are made. -/
example : Ev.started 0 0 ∈ (j7 false).s.log ∧ Ev.started 0 1 ∈ (j7 false).s.log := by decide +kernel

end JobsCase

end Jom.Props
