/- C106: which commands fail with `/K` depends neither on the number of jobs nor on the order in which processes end. -/
import Verif.Proofs.MakeFailures
import Verif.Props.KeepGoing
import Verif.Props.Jobs

namespace Jom.Props

open Jom.Graph Jom.Sched Jom.UpToDate Jom.Spec.Build Jom.Make Relation

variable {C : Type}

/-- A build that has ended with exit code 0 or 1, without an exception, has this exit code only. -/
theorem complete_code {cfg : Cfg} {s : St} (hi : Sched.Inv cfg s) (hc : Complete s) {code : Nat} (hx : code ∈ s.exits) :
    code = if s.allOk then 0 else 1 := by
  rcases hi.codes code hx with ⟨_, h⟩ | ⟨h, _⟩ | ⟨_, h⟩
  · rw [hc.dead] at h; cases h
  · rw [hc.ab] at h; cases h
  · exact h

/-- C106. Suppose a makefile is unambiguous, the commands follow their recipes, and whether they succeed is determined by the names and contents of
the files their targets are made from. Take two builds of the same targets from the same files, with whatever numbers of jobs and orders of events, which have
both ended with exit code 0 or 1 and without an exception, as they do with `/K` even if commands have failed. Then the commands of the same targets have been
executed, those of the same targets have failed, the exit codes are the same, and every target that can be made, has not failed and needs no target that has
failed has the same content. (Targets without commands that have a file must not need other targets, and no target that has failed is needed by a target that was
requested later.) -/
theorem C106_same_outcome_partial {env : Env} {cfg cfg' : Cfg} {db : Db} {disk : Str → Option Nat}
    {recipe : Nat → (Str → C → Prop) → C} {works : Nat → (Str → C → Prop) → Prop} {old new new' : Str → C}
    (hlookup : env.lookup = db.lookup) (hkey : ∀ r k, env.key r = some k → db.lookup r = some k) (hdir : env.dir = db.dir)
    (htargets : cfg'.targets = cfg.targets) (hall : cfg.buildAll = false) (hall' : cfg'.buildAll = false) {N : Nat}
    (hfew : FewerThan db cfg.targets N) (hun : Unambiguous env.abs (fun n => disk (env.abs n)) db cfg.targets)
    (hstart : StartsCorrect recipe (fun n => disk (env.abs n)) (fun n => old (env.abs n)) db cfg.targets)
    (hplain : ∀ k, Wanted db cfg.targets k → ¬ Derived (fun n => disk (env.abs n)) db k → disk (env.abs (db.target k).name) ≠ none →
      ∀ y, ¬ Needs db k y) {j : J}
    (hrun : Traced env cfg (fun k => fresh (db.target k)) disk old
      (fun j c e => (FollowsRecipes env cfg db recipe j c e ∧ WritesLater disk e) ∧ Decides env cfg db works j c e) j new)
    {code : Nat} (hx : code ∈ j.s.exits) (hc : code < 2) (hexc : Ev.exception ∉ j.s.log) (hone : NotRetried db cfg.targets j.s) {j' : J}
    (hrun' : Traced env cfg' (fun k => fresh (db.target k)) disk old
      (fun j c e => (FollowsRecipes env cfg' db recipe j c e ∧ WritesLater disk e) ∧ Decides env cfg' db works j c e) j' new')
    {code' : Nat} (hx' : code' ∈ j'.s.exits) (hc' : code' < 2) (hexc' : Ev.exception ∉ j'.s.log) (hone' : NotRetried db cfg'.targets j'.s) :
    (∀ t, (∃ b, Ev.started b t ∈ j.s.log) ↔ ∃ b, Ev.started b t ∈ j'.s.log) ∧
    (∀ t, (∃ b, Ev.failed b t ∈ j.s.log) ↔ ∃ b, Ev.failed b t ∈ j'.s.log) ∧ code = code' ∧
    ∀ t, Wanted db cfg.targets t → (∀ y, ReflTransGen (Needs db) t y → ∀ b, Ev.failed b y ∉ j.s.log) → Derived (fun n => disk (env.abs n)) db t →
      j.m.files.disk (env.abs (db.target t).name) ≠ none ∧ j'.m.files.disk (env.abs (db.target t).name) ≠ none ∧
      new (env.abs (db.target t).name) = new' (env.abs (db.target t).name) := by
  have p : Plan env cfg db disk := ⟨hlookup, hdir, hall, hkey, hun⟩
  have p' : Plan env cfg' db disk := ⟨hlookup, hdir, hall', hkey, htargets ▸ hun⟩
  have h : Tells env cfg db recipe works disk old j new := hrun.plainPlays
  have h' : Tells env cfg' db recipe works disk old j' new' := hrun'.plainPlays
  have hi := h.behaves.reachable.inv
  have hi' := h'.behaves.reachable.inv
  have hcp := ended_complete hi hx hc hexc
  have hcp' := ended_complete hi' hx' hc' hexc'
  have hfail := h.sameFailures hfew p p' htargets hstart hplain hone hcp h' hone' hcp'
  refine ⟨fun t => ⟨h.sameStarts hfew p p' htargets hstart hplain hone hcp h' hone' hcp',
    h'.sameStarts (htargets ▸ hfew) p' p htargets.symm (htargets ▸ hstart) (htargets ▸ hplain) hone' hcp' h hone hcp⟩, hfail, ?_,
    fun t hw hu hd => h.sameContents hfew p p' htargets hstart hplain hone hcp h' hone' hcp' hw hu hd⟩
  rw [complete_code hi hcp hx, complete_code hi' hcp' hx']
  have hok : j.s.allOk = false ↔ j'.s.allOk = false := by
    rw [hi.lg.allOk, hi'.lg.allOk]
    constructor
    · rintro ⟨b, z, hz⟩
      obtain ⟨b', hb'⟩ := (hfail z).1 ⟨b, hz⟩
      exact ⟨b', z, hb'⟩
    · rintro ⟨b, z, hz⟩
      obtain ⟨b', hb'⟩ := (hfail z).2 ⟨b, hz⟩
      exact ⟨b', z, hb'⟩
  cases h1 : j.s.allOk <;> cases h2 : j'.s.allOk
  · rfl
  · rw [h1, h2] at hok; simp at hok
  · rw [h1, h2] at hok; simp at hok
  · rfl

/-- With `/K` and without exceptions a build ends in one of two ways: everything has been dealt with, or a graph could not be built. -/
theorem kept_going {cfg : Cfg} {s : St} (hi : Sched.Inv cfg s) (hk : cfg.keepGoing = true) (hexc : Ev.exception ∉ s.log) {code : Nat} (hx : code ∈ s.exits) :
    (Complete s ∧ code < 2) ∨ (s.dead = true ∧ code = 2) := by
  have hab := hi.notAborted hk hexc
  rcases hi.codes code hx with ⟨h1, h2⟩ | ⟨h, _⟩ | ⟨h, rfl⟩
  · exact .inr ⟨h2, h1⟩
  · rw [hab] at h; cases h
  · refine .inl ⟨h, ?_⟩
    split <;> decide

/-- C106. Two builds with `/K` that have ended (without exceptions) have ended with the same exit code. If it is 0 or 1, the commands of the same targets have been
executed and have failed. (The exit code is 2 if a dependent is missing that nothing can make.) -/
theorem C106_exit_partial {env : Env} {cfg cfg' : Cfg} {db : Db} {disk : Str → Option Nat}
    {recipe : Nat → (Str → C → Prop) → C} {works : Nat → (Str → C → Prop) → Prop} {old new new' : Str → C}
    (hlookup : env.lookup = db.lookup) (hkey : ∀ r k, env.key r = some k → db.lookup r = some k) (hdir : env.dir = db.dir)
    (htargets : cfg'.targets = cfg.targets) (hall : cfg.buildAll = false) (hall' : cfg'.buildAll = false)
    (hkeep : cfg.keepGoing = true) (hkeep' : cfg'.keepGoing = true)
    (hfew : FewerThan db cfg.targets cfg.fuel) (hfew' : FewerThan db cfg'.targets cfg'.fuel)
    (hun : Unambiguous env.abs (fun n => disk (env.abs n)) db cfg.targets)
    (hstart : StartsCorrect recipe (fun n => disk (env.abs n)) (fun n => old (env.abs n)) db cfg.targets)
    (hplain : ∀ k, Wanted db cfg.targets k → ¬ Derived (fun n => disk (env.abs n)) db k → disk (env.abs (db.target k).name) ≠ none →
      ∀ y, ¬ Needs db k y) {j : J}
    (hrun : Traced env cfg (fun k => fresh (db.target k)) disk old
      (fun j c e => (FollowsRecipes env cfg db recipe j c e ∧ WritesLater disk e) ∧ Decides env cfg db works j c e) j new)
    {code : Nat} (hx : code ∈ j.s.exits) (hexc : Ev.exception ∉ j.s.log) (hone : NotRetried db cfg.targets j.s) {j' : J}
    (hrun' : Traced env cfg' (fun k => fresh (db.target k)) disk old
      (fun j c e => (FollowsRecipes env cfg' db recipe j c e ∧ WritesLater disk e) ∧ Decides env cfg' db works j c e) j' new')
    {code' : Nat} (hx' : code' ∈ j'.s.exits) (hexc' : Ev.exception ∉ j'.s.log) (hone' : NotRetried db cfg'.targets j'.s) :
    code = code' ∧ (code < 2 →
      (∀ t, (∃ b, Ev.started b t ∈ j.s.log) ↔ ∃ b, Ev.started b t ∈ j'.s.log) ∧
      (∀ t, (∃ b, Ev.failed b t ∈ j.s.log) ↔ ∃ b, Ev.failed b t ∈ j'.s.log) ∧
      ∀ t, Wanted db cfg.targets t → (∀ y, ReflTransGen (Needs db) t y → ∀ b, Ev.failed b y ∉ j.s.log) → Derived (fun n => disk (env.abs n)) db t →
        j.m.files.disk (env.abs (db.target t).name) ≠ none ∧ j'.m.files.disk (env.abs (db.target t).name) ≠ none ∧
        new (env.abs (db.target t).name) = new' (env.abs (db.target t).name)) := by
  have p : Plan env cfg db disk := ⟨hlookup, hdir, hall, hkey, hun⟩
  have p' : Plan env cfg' db disk := ⟨hlookup, hdir, hall', hkey, htargets ▸ hun⟩
  have h : Tells env cfg db recipe works disk old j new := hrun.plainPlays
  have h' : Tells env cfg' db recipe works disk old j' new' := hrun'.plainPlays
  rcases kept_going h.behaves.reachable.inv hkeep hexc hx with ⟨hc, hlt⟩ | ⟨hd, rfl⟩ <;>
    rcases kept_going h'.behaves.reachable.inv hkeep' hexc' hx' with ⟨hc', hlt'⟩ | ⟨hd', rfl⟩
  · obtain ⟨h1, h2, h3, h4⟩ := C106_same_outcome_partial hlookup hkey hdir htargets hall hall' hfew hun hstart hplain hrun hx hlt hexc hone hrun' hx' hlt' hexc' hone'
    exact ⟨h3, fun _ => ⟨h1, h2, h4⟩⟩
  · have hprov : Provided env cfg' db disk := by
      have := h.providedAll p hc
      unfold Provided
      rw [htargets]
      exact this
    have := h'.aliveAll hfew' p' hprov hkeep' hone' hexc'
    rw [hd'] at this
    cases this
  · have hprov : Provided env cfg db disk := by
      have := h'.providedAll p' hc'
      unfold Provided at this
      rw [htargets] at this
      exact this
    have := h.aliveAll hfew p hprov hkeep hone hexc
    rw [hd] at this
    cases this
  · exact ⟨rfl, fun h => absurd h (by decide)⟩

/-- With at most one requested target nothing is requested later. -/
theorem notRetried_one {db : Db} {requested : List Nat} (h : requested.length ≤ 1) (s : St) : NotRetried db requested s := by
  intro b t _ b' r hb _ hr
  have := (List.getElem?_eq_some_iff.1 hr).1
  omega

/-- C106 if one target is requested. -/
theorem C106_one_target_partial {env : Env} {cfg cfg' : Cfg} {db : Db} {disk : Str → Option Nat}
    {recipe : Nat → (Str → C → Prop) → C} {works : Nat → (Str → C → Prop) → Prop} {old new new' : Str → C}
    (hlookup : env.lookup = db.lookup) (hkey : ∀ r k, env.key r = some k → db.lookup r = some k) (hdir : env.dir = db.dir)
    {r : Nat} (hr : cfg.targets = [r]) (hr' : cfg'.targets = [r]) (hall : cfg.buildAll = false) (hall' : cfg'.buildAll = false) {N : Nat}
    (hfew : FewerThan db [r] N) (hun : Unambiguous env.abs (fun n => disk (env.abs n)) db [r])
    (hstart : StartsCorrect recipe (fun n => disk (env.abs n)) (fun n => old (env.abs n)) db [r])
    (hplain : ∀ k, Wanted db [r] k → ¬ Derived (fun n => disk (env.abs n)) db k → disk (env.abs (db.target k).name) ≠ none → ∀ y, ¬ Needs db k y) {j : J}
    (hrun : Traced env cfg (fun k => fresh (db.target k)) disk old
      (fun j c e => (FollowsRecipes env cfg db recipe j c e ∧ WritesLater disk e) ∧ Decides env cfg db works j c e) j new)
    {code : Nat} (hx : code ∈ j.s.exits) (hc : code < 2) (hexc : Ev.exception ∉ j.s.log) {j' : J}
    (hrun' : Traced env cfg' (fun k => fresh (db.target k)) disk old
      (fun j c e => (FollowsRecipes env cfg' db recipe j c e ∧ WritesLater disk e) ∧ Decides env cfg' db works j c e) j' new')
    {code' : Nat} (hx' : code' ∈ j'.s.exits) (hc' : code' < 2) (hexc' : Ev.exception ∉ j'.s.log) :
    (∀ t, (∃ b, Ev.started b t ∈ j.s.log) ↔ ∃ b, Ev.started b t ∈ j'.s.log) ∧
    (∀ t, (∃ b, Ev.failed b t ∈ j.s.log) ↔ ∃ b, Ev.failed b t ∈ j'.s.log) ∧ code = code' := by
  have h := C106_same_outcome_partial hlookup hkey hdir (hr'.trans hr.symm) hall hall' (hr ▸ hfew) (hr ▸ hun) (hr ▸ hstart) (hr ▸ hplain) hrun hx hc hexc
    (notRetried_one (by rw [hr]; exact Nat.le_refl 1) _) hrun' hx' hc' hexc' (notRetried_one (by rw [hr']; exact Nat.le_refl 1) _)
  exact ⟨h.1, h.2.1, h.2.2.1⟩

/-! ### `app: a.o b.o`, `a.o: a.c`, `b.o: b.c` with `/K`; the content of `a.c` is 0, and the commands copy what they read and fail if it is 0. With one job `a.o` fails
before `b.o` is made, with two jobs afterwards. -/

namespace FailCase

open RebuildCase (db env lookup_inv resolves deps rules needs cmds)
open KeepCase (disk runs disk_lt unambiguous later wanted)
open ContentCase (made made_other)

def cfg (one : Bool) : Cfg := { KeepCase.cfg with jobs := if one then 1 else 2 }

def recipe (t : Nat) (s : Str → Prop → Prop) : Prop :=
  if t = 0 then s c!"a.o" True ∧ s c!"b.o" True else if t = 1 then s c!"a.c" True else s c!"b.c" True

def works (t : Nat) (s : Str → Prop → Prop) : Prop := recipe t s

def content : Str → Prop := fun n => n = c!"b.c"

def after (one : Bool) (j : J) (e : Make.Event) : J := (Make.step env (cfg one) j e).getD j

def j0 (one : Bool) : J :=
  { s := Sched.init (cfg one)
    m := buildAsked env [] { info := fun k => fresh (db.target k), files := { disk := disk, cache := [] } } }

abbrev OK (one : Bool) (j : J) (c : Str → Prop) (e : Make.Event) : Prop :=
  (FollowsRecipes env (cfg one) db recipe j c e ∧ WritesLater disk e) ∧ Decides env (cfg one) db works j c e

abbrev Traces (one : Bool) (j : J) (c : Str → Prop) : Prop := Traced env (cfg one) (fun k => fresh (db.target k)) disk content (OK one) j c

theorem next {one : Bool} {j : J} {c : Str → Prop} (e : Make.Event) (c' : Str → Prop) (h : Traces one j c)
    (hok : OK one j c' e) (hs : (Make.step env (cfg one) j e).isSome = true) (hb : (after one j e).s.build = j.s.build)
    (hc : ∀ x, (∀ value, e ≠ .write x value) → c' x = c x) : Traces one (after one j e) c' := by
  obtain ⟨x, hx⟩ := Option.isSome_iff_exists.1 hs
  have ha : after one j e = x := by unfold after; rw [hx]; rfl
  rw [ha] at hb ⊢
  have := Traced.step (e := e) (j' := x) [] h hok hx (fun x hx => hc x (not_touched hx)) (fun hne => absurd hb hne) (fun n hn => by cases hn)
  rwa [if_neg (by simp [hb])] at this

theorem quiet_start {one : Bool} {j : J} {c : Str → Prop} {n : Nat} : Decides env (cfg one) db works j c (.startProcesses (runs n)) := by
  rintro _ t failed d ⟨h, _⟩
  cases h

theorem quiet_write {one : Bool} {j : J} {c : Str → Prop} {x : Str} {v : Option Nat} : Decides env (cfg one) db works j c (.write x v) := by
  rintro _ t failed d h
  cases h

theorem ends {one : Bool} {j : J} {c : Str → Prop} {ex t : Nat} {failed : Bool} (hb : ∀ t', (ex, t') ∈ j.s.busy → t' = t)
    (h : failed = false ↔ works t fun n v => MadeFrom (fun n => j.m.files.disk (env.abs n)) db t n ∧ c (env.abs n) = v) :
    Decides env (cfg one) db works j c (.childFinished ex failed) := by
  rintro _ t' failed' d ⟨rfl, ht, rfl⟩
  rw [hb t' ht]
  exact h

theorem madeFrom2 {f : Files} (h : f c!"b.c" ≠ none) : MadeFrom f db 2 c!"b.c" := ⟨_, .inl (by simp [db]), .file h⟩

theorem correct2 {f : Files} {c : Str → Prop} (h : f c!"b.c" ≠ none) (h1 : c c!"b.o") (h2 : c c!"b.c") : Correct recipe f c db 2 := by
  show c c!"b.o" = (MadeFrom f db 2 c!"b.c" ∧ c c!"b.c" = True)
  simp [madeFrom2 h, h1, h2]

theorem works2 {f : Files} {c : Str → Prop} (h : f c!"b.c" ≠ none) (h2 : c c!"b.c") :
    (false = false) ↔ works 2 fun n v => MadeFrom f db 2 n ∧ c n = v := by
  show _ ↔ (MadeFrom f db 2 c!"b.c" ∧ c c!"b.c" = True)
  simp [madeFrom2 h, h2]

theorem works1 {f : Files} {c : Str → Prop} (h2 : ¬ c c!"a.c") : (true = false) ↔ works 1 fun n v => MadeFrom f db 1 n ∧ c n = v := by
  show _ ↔ (MadeFrom f db 1 c!"a.c" ∧ c c!"a.c" = True)
  simp [h2]

theorem startsCorrect : StartsCorrect recipe (fun n => disk (env.abs n)) (fun n => content (env.abs n)) db [0] := by
  intro x hx _ hu
  rcases wanted hx with rfl | rfl | rfl
  · show content c!"app" = (_ ∧ _ ∧ content c!"b.o" = True)
    simp [content]
  · show content c!"a.o" = (_ ∧ content c!"a.c" = True)
    simp [content]
  · obtain ⟨T, hT, h⟩ := hu
    have hT : some 2 = some T := hT
    cases hT
    exact absurd ((h c!"b.c" (.inl (by simp [db]))).2 9 (.file rfl)) (by decide)

theorem plain (k : Nat) (_ : Wanted db [0] k) (hd : ¬ Derived (fun n => disk (env.abs n)) db k) (_ : disk (env.abs (db.target k).name) ≠ none) (y : Nat) :
    ¬ Needs db k y := absurd (.commands (cmds k)) hd

theorem few : FewerThan db [0] 9 := by
  refine ⟨[0, 1, 2], by simp, fun x _ y hy => ?_, by decide⟩
  obtain ⟨d, _, h⟩ := hy
  rcases (resolves h).1 with rfl | rfl | rfl <;> simp

/-! #### One job -/

def a1 : J := after true (j0 true) (.startProcesses (runs 11))
def a2 : J := after true a1 (.write c!"a.o" (some 12))
def a3 : J := after true a2 (.childFinished 0 true)
def a4 : J := after true a3 (.startProcesses (runs 13))
def a5 : J := after true a4 (.write c!"b.o" (some 14))
def a6 : J := after true a5 (.childFinished 0 false)
def a7 : J := after true a6 (.startProcesses (runs 15))

theorem disk3 : a3.m.files.disk = fun x => if x = c!"a.o" then some 12 else disk x := rfl
theorem disk5 : a5.m.files.disk = fun x => if x = c!"b.o" then some 14 else if x = c!"a.o" then some 12 else disk x := rfl
theorem disk6 : a6.m.files.disk = fun x => if x = c!"b.o" then some 14 else if x = c!"a.o" then some 12 else disk x := rfl

theorem work2 {f : Files} {o : Nat} (h1 : f c!"b.o" = some o) (h2 : f c!"b.c" = some 9) (h : 9 ≤ o) : DidWork f db 2 := by
  refine ⟨o, h1, fun d hd s hs => ?_⟩
  have hd : d = c!"b.c" := by
    rcases hd with hd | ⟨hd, _⟩
    · rcases deps hd with ⟨h, _⟩ | ⟨h, _⟩ | ⟨_, h⟩
      · cases h
      · cases h
      · exact h
    · exact (rules hd).elim
  subst hd
  rw [behind_of_file h2 hs]
  exact h

theorem only {j : J} {e t t' : Nat} {l : List (Nat × Nat)} (hb : j.s.busy = l) (hl : ∀ q ∈ l, q.1 = e → q.2 = t) (ht : (e, t') ∈ j.s.busy) : t' = t := by
  rw [hb] at ht
  exact hl _ ht rfl

theorem trace_one : Traces true a7 (made c!"b.o" (made c!"a.o" content)) := by
  have h0 : Traces true (j0 true) content := Traced.start [] (fun t => rfl) (fun n hn => by cases hn)
  have h1 : Traces true a1 content := next (.startProcesses (runs 11)) content h0
    ⟨⟨⟨⟨fun x s h => Nat.le_of_lt (disk_lt h).1, works_running⟩, no_success rfl⟩, later_quiet rfl⟩, quiet_start⟩
    (by decide +kernel) (by decide +kernel) (fun _ _ => rfl)
  have h2 : Traces true a2 (made c!"a.o" content) := next (.write c!"a.o" (some 12)) _ h1
    ⟨⟨⟨⟨by decide, .inl ⟨1, by decide +kernel, rfl, by decide⟩⟩, no_success rfl⟩, later (by decide)⟩, quiet_write⟩
    (by decide +kernel) (by decide +kernel) made_other
  have h3 : Traces true a3 (made c!"a.o" content) := next (.childFinished 0 true) _ h2
    ⟨⟨⟨(fun h => by cases h), no_success rfl⟩, later_quiet rfl⟩,
      ends (t := 1) (fun t' => only (l := [(0, 1)]) (by decide +kernel) (by decide)) (works1 (by simp [made, content, env]))⟩
    (by decide +kernel) (by decide +kernel) (fun _ _ => rfl)
  have h4 : Traces true a4 (made c!"a.o" content) := next (.startProcesses (runs 13)) _ h3
    ⟨⟨⟨⟨fun x s h => by
        rw [disk3] at h
        show s ≤ 13
        simp only at h
        split at h
        · cases h; decide
        · exact Nat.le_trans (Nat.le_of_lt (disk_lt h).1) (by decide), works_running⟩, no_success rfl⟩, later_quiet rfl⟩, quiet_start⟩
    (by decide +kernel) (by decide +kernel) (fun _ _ => rfl)
  have h5 : Traces true a5 (made c!"b.o" (made c!"a.o" content)) := next (.write c!"b.o" (some 14)) _ h4
    ⟨⟨⟨⟨by decide, .inl ⟨2, by decide +kernel, rfl, by decide⟩⟩, no_success rfl⟩, later (by decide)⟩, quiet_write⟩
    (by decide +kernel) (by decide +kernel) made_other
  have h6 : Traces true a6 (made c!"b.o" (made c!"a.o" content)) := next (.childFinished 0 false) _ h5
    ⟨⟨⟨fun _ t ht => by
        rw [only (t := 2) (l := [(0, 2)]) (by decide +kernel) (by decide) ht]
        exact work2 (o := 14) rfl rfl (by decide),
      succeeds_child fun t ht => by
        rw [only (t := 2) (l := [(0, 2)]) (by decide +kernel) (by decide) ht]
        exact correct2 (by show a5.m.files.disk _ ≠ none; rw [disk5]; decide +kernel) (by simp [made, content, env]) (by simp [made, content, env])⟩, later_quiet rfl⟩,
      ends (t := 2) (fun t' => only (l := [(0, 2)]) (by decide +kernel) (by decide))
        (works2 (by show a5.m.files.disk _ ≠ none; rw [disk5]; decide +kernel) (by simp [made, content, env]))⟩
    (by decide +kernel) (by decide +kernel) (fun _ _ => rfl)
  exact next (.startProcesses (runs 15)) _ h6
    ⟨⟨⟨⟨fun x s h => by
        show s ≤ 15
        rw [disk6] at h
        simp only at h
        split at h
        · cases h; decide
        · split at h
          · cases h; decide
          · exact Nat.le_trans (Nat.le_of_lt (disk_lt h).1) (by decide), works_running⟩, no_success rfl⟩, later_quiet rfl⟩, quiet_start⟩
    (by decide +kernel) (by decide +kernel) (fun _ _ => rfl)

/-! #### Two jobs -/

def b1 : J := after false (j0 false) (.startProcesses (runs 11))
def b2 : J := after false b1 (.startProcesses (runs 11))
def b3 : J := after false b2 .grant
def b4 : J := after false b3 (.acquired (fun _ => false) .running [] false)
def b5 : J := after false b4 (.write c!"b.o" (some 12))
def b6 : J := after false b5 (.childFinished 1 false)
def b7 : J := after false b6 (.childFinished 0 true)
def b8 : J := after false b7 (.startProcesses (runs 13))

theorem disk1' : b1.m.files.disk = disk := rfl
theorem disk5' : b5.m.files.disk = fun x => if x = c!"b.o" then some 12 else disk x := rfl
theorem disk7' : b7.m.files.disk = fun x => if x = c!"b.o" then some 12 else disk x := rfl

theorem trace_two : Traces false b8 (made c!"b.o" content) := by
  have h0 : Traces false (j0 false) content := Traced.start [] (fun t => rfl) (fun n hn => by cases hn)
  have h1 : Traces false b1 content := next (.startProcesses (runs 11)) content h0
    ⟨⟨⟨⟨fun x s h => Nat.le_of_lt (disk_lt h).1, works_running⟩, no_success rfl⟩, later_quiet rfl⟩, quiet_start⟩
    (by decide +kernel) (by decide +kernel) (fun _ _ => rfl)
  have h2 : Traces false b2 content := next (.startProcesses (runs 11)) content h1
    ⟨⟨⟨⟨fun x s h => Nat.le_of_lt (disk_lt (disk1' ▸ h)).1, works_running⟩, no_success rfl⟩, later_quiet rfl⟩, quiet_start⟩
    (by decide +kernel) (by decide +kernel) (fun _ _ => rfl)
  have h3 : Traces false b3 content := next .grant content h2
    ⟨⟨⟨trivial, no_success rfl⟩, later_quiet rfl⟩, fun _ _ _ _ h => by cases h⟩
    (by decide +kernel) (by decide +kernel) (fun _ _ => rfl)
  have h4 : Traces false b4 content := next (.acquired (fun _ => false) .running [] false) content h3
    ⟨⟨⟨works_running, no_success rfl⟩, later_quiet rfl⟩, fun _ _ _ _ h => by cases h.1⟩
    (by decide +kernel) (by decide +kernel) (fun _ _ => rfl)
  have h5 : Traces false b5 (made c!"b.o" content) := next (.write c!"b.o" (some 12)) _ h4
    ⟨⟨⟨⟨by decide, .inl ⟨2, by decide +kernel, rfl, by decide⟩⟩, no_success rfl⟩, later (by decide)⟩, quiet_write⟩
    (by decide +kernel) (by decide +kernel) made_other
  have h6 : Traces false b6 (made c!"b.o" content) := next (.childFinished 1 false) _ h5
    ⟨⟨⟨fun _ t ht => by
        rw [only (t := 2) (l := [(1, 2), (0, 1)]) (by decide +kernel) (by decide) ht]
        exact work2 (o := 12) rfl rfl (by decide),
      succeeds_child fun t ht => by
        rw [only (t := 2) (l := [(1, 2), (0, 1)]) (by decide +kernel) (by decide) ht]
        exact correct2 (by show b5.m.files.disk _ ≠ none; rw [disk5']; decide +kernel) (by simp [made, content, env]) (by simp [made, content, env])⟩, later_quiet rfl⟩,
      ends (t := 2) (fun t' => only (l := [(1, 2), (0, 1)]) (by decide +kernel) (by decide))
        (works2 (by show b5.m.files.disk _ ≠ none; rw [disk5']; decide +kernel) (by simp [made, content, env]))⟩
    (by decide +kernel) (by decide +kernel) (fun _ _ => rfl)
  have h7 : Traces false b7 (made c!"b.o" content) := next (.childFinished 0 true) _ h6
    ⟨⟨⟨(fun h => by cases h), no_success rfl⟩, later_quiet rfl⟩,
      ends (t := 1) (fun t' => only (l := [(0, 1)]) (by decide +kernel) (by decide)) (works1 (by simp [made, content, env]))⟩
    (by decide +kernel) (by decide +kernel) (fun _ _ => rfl)
  exact next (.startProcesses (runs 13)) _ h7
    ⟨⟨⟨⟨fun x s h => by
        show s ≤ 13
        rw [disk7'] at h
        simp only at h
        split at h
        · cases h; decide
        · exact Nat.le_trans (Nat.le_of_lt (disk_lt h).1) (by decide), works_running⟩, no_success rfl⟩, later_quiet rfl⟩, quiet_start⟩
    (by decide +kernel) (by decide +kernel) (fun _ _ => rfl)

/-- The orders differ. -/
theorem logs : a7.s.log = [.started 0 1, .failed 0 1, .started 0 2, .succeeded 0 2, .unbuildable 0 0] ∧ a7.s.exits = [1] ∧
    b8.s.log = [.started 0 1, .started 0 2, .succeeded 0 2, .failed 0 1, .unbuildable 0 0] ∧ b8.s.exits = [1] := by decide +kernel

/-- The theorems apply. -/
example := C106_same_outcome_partial (env := env) (cfg := cfg true) (cfg' := cfg false) rfl (fun _ _ h => h) rfl rfl rfl rfl few unambiguous startsCorrect plain
  trace_one (code := 1) (by rw [logs.2.1]; simp) (by decide) (by rw [logs.1]; simp) (notRetried_one (by decide) _)
  trace_two (code' := 1) (by rw [logs.2.2.2]; simp) (by decide) (by rw [logs.2.2.1]; simp) (notRetried_one (by decide) _)

example := C106_exit_partial (env := env) (cfg := cfg true) (cfg' := cfg false) rfl (fun _ _ h => h) rfl rfl rfl rfl rfl rfl few few unambiguous startsCorrect plain
  trace_one (code := 1) (by rw [logs.2.1]; simp) (by rw [logs.1]; simp) (notRetried_one (by decide) _)
  trace_two (code' := 1) (by rw [logs.2.2.2]; simp) (by rw [logs.2.2.1]; simp) (notRetried_one (by decide) _)

example := C106_one_target_partial (env := env) (cfg := cfg true) (cfg' := cfg false) (r := 0) rfl (fun _ _ h => h) rfl rfl rfl rfl rfl few unambiguous startsCorrect
  plain trace_one (code := 1) (by rw [logs.2.1]; simp) (by decide) (by rw [logs.1]; simp)
  trace_two (code' := 1) (by rw [logs.2.2.2]; simp) (by decide) (by rw [logs.2.2.1]; simp)

end FailCase

end Jom.Props
