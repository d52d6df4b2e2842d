/- C68: if everything is in order, jom starts nothing and ends with exit code 0. -/
import Verif.Proofs.MakeNull
import Verif.Spec.MakeRun

namespace Jom.Props

open Jom.Graph Jom.Sched Jom.UpToDate Jom.Spec.Build Jom.Make

/-- The record of a target that has not been looked at. -/
def fresh (d : Decl) : TInfo :=
  { name := d.name, fileExists := false, time := 0, deps := d.deps, hasCmds := d.hasCmds, rules := d.rules }

/-- C68. If everything that is wanted and can be made is up to date then, whatever the order of events, jom does not
start any command, prints no error, leaves the files alone, and every exit code is 0; until there is an exit code jom
goes on by itself. -/
theorem C68_null_build_partial {env : Env} {cfg : Cfg} {db : Db} {disk : Str → Option Nat}
    (hlookup : env.lookup = db.lookup) (hkey : ∀ r k, env.key r = some k → db.lookup r = some k) (hdir : env.dir = db.dir) (hall : cfg.buildAll = false)
    (hreg : Regular (fun n => disk (env.abs n)) db cfg.targets) (hord : InOrder (fun n => disk (env.abs n)) db cfg.targets)
    (hfew : FewerThan db cfg.targets cfg.fuel) {j : J}
    (hrun : Run env cfg (fun k => fresh (db.target k)) disk NobodyWrites j) :
    (∀ b t, Ev.started b t ∉ j.s.log) ∧ j.s.busy = [] ∧ (∀ b t, Ev.failed b t ∉ j.s.log) ∧ Ev.exception ∉ j.s.log ∧
    j.m.files.disk = disk ∧ (∀ c ∈ j.s.exits, c = 0) ∧ (0 < cfg.jobs → j.s.exits = [] → 0 < j.s.queued) := by
  have ha : Assum env cfg db disk := by
    refine ⟨hlookup, hdir, hall, hkey, hreg.spelling, fun n => hreg.times n, ?_, hreg.sources, hord, hfew⟩
    intro t ht d hd s hs k hk
    exact hreg.inferred t ht d hd (by simp only [hs]; simp) k hk
  have hc := Run.calm ha hrun
  have hno : ∀ e ∈ j.s.log, calm e = true := hc.log
  refine ⟨fun b t h => ?_, hc.busy, fun b t h => ?_, fun h => ?_, hc.ninv.mem.diskEq, hc.exits, fun hj hx => ?_⟩
  · exact absurd (hno _ h) (by simp [calm])
  · exact absurd (hno _ h) (by simp [calm])
  · exact absurd (hno _ h) (by simp [calm])
  · have hi := hrun.reachable.inv
    rcases hi.live hj hc.dead hc.ab hx with h | h | h
    · exact h
    · exact absurd hc.busy h
    · rw [hc.acq] at h; cases h

/-! ### A makefile: `app: a.o` with commands, `a.o:` made by an inference rule from `a.c` -/

namespace NullCase

def db : Db where
  lookup := fun n => if n = c!"app" then some 0 else if n = c!"a.o" then some 1 else none
  dir := c!"d"
  target := fun k =>
    if k = 0 then { name := c!"app", deps := [c!"a.o"], hasCmds := true, rules := [] }
    else { name := c!"a.o", deps := [], hasCmds := false, rules := [c!"a.c"] }

def env : Env := { lookup := db.lookup, key := db.lookup, dir := db.dir, abs := id }

def disk : Str → Option Nat := fun n =>
  if n = c!"app" then some 3 else if n = c!"a.o" then some 2 else if n = c!"a.c" then some 1 else none

def cfg : Cfg :=
  { jobs := 2, keepGoing := false, buildAll := false, dumpGraph := false, targets := [0],
    deps := fun _ k => (db.target k).deps.map (resolve env { disk := disk, cache := [] }), fuel := 5 }

def answers : Answers :=
  { now := 9, asked := fun _ => true, choose := fun _ => [], throws := fun _ => false, res := .running, writes := [] }

def j0 : J :=
  { s := Sched.init cfg
    m := buildAsked env [] { info := fun k => fresh (db.target k), files := { disk := disk, cache := [] } } }

def j1 : J := (Make.step env cfg j0 (.startProcesses answers)).getD j0

theorem needs : ∀ t k, Needs db t k → t = 0 ∧ k = 1 := by
  rintro t k ⟨d, hd, h⟩
  unfold db at hd h
  simp only at hd h
  by_cases ht : t = 0
  · subst ht
    refine ⟨rfl, ?_⟩
    simp only [if_true, List.mem_singleton] at hd
    subst hd
    rcases h with h | ⟨h, _⟩
    · revert h; simp; exact Eq.symm
    · revert h; simp
  · rw [if_neg ht] at hd; simp at hd

theorem wanted {t : Nat} (h : Wanted db cfg.targets t) : t = 0 ∨ t = 1 := by
  obtain ⟨r, hr, h⟩ := h
  have hr : r = 0 := by simpa [cfg] using hr
  subst hr
  cases h with
  | refl => exact .inl rfl
  | tail _ h => exact .inr (needs _ _ h).2

theorem lookup_inv {d : Str} {k : Nat} (h : db.lookup d = some k) : (d = c!"app" ∧ k = 0) ∨ (d = c!"a.o" ∧ k = 1) := by
  unfold db at h
  simp only at h
  split at h
  · next hd => cases h; exact .inl ⟨hd, rfl⟩
  · split at h
    · next hd => cases h; exact .inr ⟨hd, rfl⟩
    · cases h

theorem regular : Regular disk db cfg.targets where
  spelling := by
    intro t _ d _ k h
    rcases lookup_inv h with ⟨rfl, rfl⟩ | ⟨rfl, rfl⟩ <;> rfl
  times := by
    intro d s h
    unfold disk at h
    split at h
    · cases h; decide
    · split at h
      · cases h; decide
      · split at h
        · cases h; decide
        · cases h
  sources := by
    intro t ht d hd h1 _
    rcases wanted ht with rfl | rfl
    · have : d = c!"a.o" := by simpa [db] using hd
      subst this
      exact absurd h1 (by decide +kernel)
    · exact absurd hd (by simp [db])
  inferred := by
    intro t ht d hd _ k hk
    rcases wanted ht with rfl | rfl
    · exact absurd hd (by simp [db])
    · have : d = c!"a.c" := by simpa [db] using hd
      subst this
      exact absurd hk (by simp [db])

theorem inOrder : InOrder disk db cfg.targets := by
  intro t ht _
  rcases wanted ht with rfl | rfl
  · refine ⟨3, rfl, fun d hd => ?_⟩
    have : d = c!"a.o" := by
      rcases hd with hd | ⟨hd, _⟩
      · simpa [db] using hd
      · simp [db] at hd
    subst this
    have hf : disk c!"a.o" = some 2 := rfl
    exact ⟨not_missing_of_file hf, fun s hs => by rw [behind_of_file hf hs]; decide⟩
  · refine ⟨2, rfl, fun d hd => ?_⟩
    have : d = c!"a.c" := by
      rcases hd with hd | ⟨hd, _⟩
      · simp [db] at hd
      · simpa [db] using hd
    subst this
    have hf : disk c!"a.c" = some 1 := rfl
    exact ⟨not_missing_of_file hf, fun s hs => by rw [behind_of_file hf hs]; decide⟩

theorem few : FewerThan db cfg.targets cfg.fuel :=
  ⟨[0, 1], by simp [cfg], fun _ _ k hk => by simp [(needs _ _ hk).2], by decide⟩

theorem run1 : Run env cfg (fun k => fresh (db.target k)) disk NobodyWrites j1 := by
  have h0 : Run env cfg (fun k => fresh (db.target k)) disk NobodyWrites j0 := Run.start [] (fun t => rfl) (fun n hn => by cases hn)
  have hb : j1.s.build = j0.s.build := by decide +kernel
  have h1 := Run.step (e := .startProcesses answers) (j' := j1) [] h0 (fun _ _ => by simp) (by
    have : (Make.step env cfg j0 (.startProcesses answers)).isSome = true := by decide +kernel
    obtain ⟨x, hx⟩ := Option.isSome_iff_exists.1 this
    unfold j1
    rw [hx]
    rfl) (fun hne => absurd hb hne)
    (fun n hn => by cases hn)
  rwa [if_neg (by simp [hb])] at h1

/-- Both targets are found to be up to date. -/
example : j1.s.log = [.upToDate 0 1, .upToDate 0 0] ∧ j1.s.exits = [0] := by decide +kernel

/-- The theorem applies to this run. -/
example : ∀ b t, Ev.started b t ∉ j1.s.log := (C68_null_build_partial rfl (fun _ _ h => h) rfl rfl regular inOrder few run1).1

end NullCase

/-! ### A makefile for which `Regular.inferred` does not hold: `b.o:` is made by an inference rule from `b.c`, and `b.c` is
a target with commands but no declared dependent of `b.o` -/

namespace Inferred

def db : Db where
  lookup := fun n => if n = c!"b.o" then some 0 else if n = c!"b.c" then some 1 else none
  dir := c!"d"
  target := fun k =>
    if k = 0 then { name := c!"b.o", deps := [], hasCmds := false, rules := [c!"b.c"] }
    else { name := c!"b.c", deps := [], hasCmds := true, rules := [] }

def env : Env := { lookup := db.lookup, key := db.lookup, dir := db.dir, abs := id }

def disk : Str → Option Nat := fun n => if n = c!"b.o" then some 2 else if n = c!"b.c" then some 1 else none

def cfg : Cfg :=
  { jobs := 2, keepGoing := false, buildAll := false, dumpGraph := false, targets := [0],
    deps := fun _ k => (db.target k).deps.map (resolve env { disk := disk, cache := [] }), fuel := 5 }

def j0 : J :=
  { s := Sched.init cfg
    m := buildAsked env [] { info := fun k => fresh (db.target k), files := { disk := disk, cache := [] } } }

def j1 : J := (Make.step env cfg j0 (.startProcesses NullCase.answers)).getD j0

theorem wanted {t : Nat} (h : Wanted db cfg.targets t) : t = 0 := by
  obtain ⟨r, hr, h⟩ := h
  have hr : r = 0 := by simpa [cfg] using hr
  subst hr
  cases h with
  | refl => rfl
  | tail _ h =>
    obtain ⟨d, hd, _⟩ := h
    unfold db at hd
    simp only at hd
    split at hd <;> simp at hd

theorem inOrder : InOrder disk db cfg.targets := by
  intro t ht _
  rw [wanted ht]
  refine ⟨2, rfl, fun d hd => ?_⟩
  have : d = c!"b.c" := by
    rcases hd with hd | ⟨hd, _⟩
    · simp [db] at hd
    · simpa [db] using hd
  subst this
  have hf : disk c!"b.c" = some 1 := rfl
  exact ⟨not_missing_of_file hf, fun s hs => by rw [behind_of_file hf hs]; decide⟩

theorem run1 : Run env cfg (fun k => fresh (db.target k)) disk NobodyWrites j1 := by
  have h0 : Run env cfg (fun k => fresh (db.target k)) disk NobodyWrites j0 := Run.start [] (fun t => rfl) (fun n hn => by cases hn)
  have hb : j1.s.build = j0.s.build := by decide +kernel
  have h1 := Run.step (e := .startProcesses NullCase.answers) (j' := j1) [] h0 (fun _ _ => by simp) (by
    have : (Make.step env cfg j0 (.startProcesses NullCase.answers)).isSome = true := by decide +kernel
    obtain ⟨x, hx⟩ := Option.isSome_iff_exists.1 this
    unfold j1
    rw [hx]
    rfl) (fun hne => absurd hb hne)
    (fun n hn => by cases hn)
  rwa [if_neg (by simp [hb])] at h1

end Inferred

/-- Without `Regular.inferred` C68 is false: `b.o` is newer than `b.c` and everything is in order, but jom makes `b.o`
again, in every run.  (`isTargetUpToDate` takes a dependent with commands whose record says "no file" for one that
has just been made; the record of `b.c` says so because `b.c` is not in the graph and was never looked at.) -/
theorem C68_inferred_target_is_remade :
    InOrder (fun n => Inferred.disk (Inferred.env.abs n)) Inferred.db Inferred.cfg.targets ∧
    Run Inferred.env Inferred.cfg (fun k => fresh (Inferred.db.target k)) Inferred.disk NobodyWrites Inferred.j1 ∧
    Ev.started 0 0 ∈ Inferred.j1.s.log :=
  ⟨Inferred.inOrder, Inferred.run1, by decide +kernel⟩

end Jom.Props
