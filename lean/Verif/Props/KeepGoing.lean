/- C95: with `/K`, everything that does not depend on a failed target is made. -/
import Verif.Props.Rebuild

namespace Jom.Props

open Jom.Graph Jom.Sched Jom.UpToDate Jom.Spec.Build Jom.Make Jom.Spec Relation

/-- jom has ended, with exit code 0 or 1, and no exception has been thrown. -/
theorem ended_complete {cfg : Cfg} {s : St} (hi : Sched.Inv cfg s) {c : Nat} (hx : c ∈ s.exits) (hc : c < 2)
    (hex : Ev.exception ∉ s.log) : Complete s := by
  rcases hi.codes c hx with ⟨h, _⟩ | ⟨_, ⟨_, h⟩ | ⟨h, _⟩⟩ | ⟨h, _⟩
  · omega
  · exact absurd h hex
  · omega
  · exact h

/-- C95. When jom has ended with exit code 0 or 1 without an exception (which with `/K` also happens after commands have failed), every target
that is needed, can be made, has not failed and needs no target that has failed is up to date. -/
theorem C95_all_but_what_failed_partial {env : Env} {cfg : Cfg} {db : Db} {disk : Str → Option Nat}
    (hlookup : env.lookup = db.lookup) (hkey : ∀ r k, env.key r = some k → db.lookup r = some k) (hdir : env.dir = db.dir)
    (hall : cfg.buildAll = false) (hun : Unambiguous env.abs (fun n => disk (env.abs n)) db cfg.targets) {j : J}
    (hrun : Run env cfg (fun k => fresh (db.target k)) disk (Behaves env cfg db) j)
    {c : Nat} (hx : c ∈ j.s.exits) (hc : c < 2) (hex : Ev.exception ∉ j.s.log)
    {x : Nat} (hw : Wanted db cfg.targets x) (hok : ∀ y, ReflTransGen (Needs db) x y → ∀ b, Ev.failed b y ∉ j.s.log)
    (hb : Buildable (fun n => j.m.files.disk (env.abs n)) db x) : UpToDate (fun n => j.m.files.disk (env.abs n)) db x :=
  Run.sound ⟨hlookup, hdir, hall, hkey, hun⟩ hrun.plain (ended_complete hrun.reachable.inv hx hc hex) hw hok hb

/-- C94, with failures: a target is made only if it, or a target that it needs, was out of date when jom began. -/
theorem C94_only_what_depends_on_stale_keep_going_partial {env : Env} {cfg : Cfg} {db : Db} {disk : Str → Option Nat}
    (hlookup : env.lookup = db.lookup) (hkey : ∀ r k, env.key r = some k → db.lookup r = some k) (hdir : env.dir = db.dir)
    (hall : cfg.buildAll = false) (hun : Unambiguous env.abs (fun n => disk (env.abs n)) db cfg.targets) {j : J}
    (hrun : Run env cfg (fun k => fresh (db.target k)) disk (Behaves env cfg db) j)
    {b x : Nat} (hx : Ev.started b x ∈ j.s.log) :
    Wanted db cfg.targets x ∧
    ∃ y, ReflTransGen (Needs db) x y ∧ Buildable (fun n => disk (env.abs n)) db y ∧ ¬ UpToDate (fun n => disk (env.abs n)) db y := by
  have hsp := Run.sparedClean ⟨hlookup, hdir, hall, hkey, hun⟩ hrun.plain b x hx
  refine ⟨hsp.1, ?_⟩
  apply Classical.byContradiction
  intro hno
  refine hsp.2 fun y hy hb => ?_
  apply Classical.byContradiction
  intro hu
  exact hno ⟨y, hy, hb, hu⟩

/-- C94, with failures: what is out of date when jom begins has been made when jom ends, unless it needs something that has failed. -/
theorem C94_all_that_is_stale_keep_going_partial {env : Env} {cfg : Cfg} {db : Db} {disk : Str → Option Nat}
    (hlookup : env.lookup = db.lookup) (hkey : ∀ r k, env.key r = some k → db.lookup r = some k) (hdir : env.dir = db.dir)
    (hall : cfg.buildAll = false) (hun : Unambiguous env.abs (fun n => disk (env.abs n)) db cfg.targets) {j : J}
    (hrun : Run env cfg (fun k => fresh (db.target k)) disk
      (fun j e => Behaves env cfg db j e ∧ WritesLater disk e) j)
    {c : Nat} (hx : c ∈ j.s.exits) (hc : c < 2) (hex : Ev.exception ∉ j.s.log)
    {x : Nat} (hw : Wanted db cfg.targets x) (hok : ∀ y, TransGen (Needs db) x y → ∀ b, Ev.failed b y ∉ j.s.log)
    (hb : Buildable (fun n => disk (env.abs n)) db x) (hu : ¬ UpToDate (fun n => disk (env.abs n)) db x) :
    ∃ b, Ev.started b x ∈ j.s.log := by
  have p : Plan env cfg db disk := ⟨hlookup, hdir, hall, hkey, hun⟩
  have hi := hrun.reachable.inv
  have hcp := ended_complete hi hx hc hex
  apply Classical.byContradiction
  intro hno
  refine hno ((Run.movedClean p hrun.plainLater hcp.ab hcp.dead).started p hw hb hu ?_)
  refine Run.sound p (hrun.plainLater.mono fun _ _ h => h.1) hcp hw fun y hy b hf => ?_
  rcases ReflTransGen.cases_head hy with rfl | ⟨k, h1, h2⟩
  · exact hno ⟨b, hi.lg.ran b _ (.inr hf)⟩
  · exact hok y (.head' h1 h2) b hf

/-! ### `app: a.o b.o`, `a.o: a.c`, `b.o: b.c`, all with commands; both objects are out of date and the commands of `a.o` fail -/

namespace KeepCase

open RebuildCase (db env lookup_inv resolves deps rules needs cmds)

def disk : Str → Option Nat := fun n =>
  if n = c!"app" then some 7 else if n = c!"a.o" then some 5 else if n = c!"b.o" then some 2 else if n = c!"a.c" then some 10
  else if n = c!"b.c" then some 9 else none

def cfg : Cfg :=
  { jobs := 1, keepGoing := true, buildAll := false, dumpGraph := false, targets := [0],
    deps := fun _ k => (db.target k).deps.map (resolve env { disk := disk, cache := [] }), fuel := 9 }

def runs (now : Nat) : Answers := { NullCase.answers with now := now }

def j0 : J :=
  { s := Sched.init cfg
    m := buildAsked env [] { info := fun k => fresh (db.target k), files := { disk := disk, cache := [] } } }

def after (j : J) (e : Make.Event) : J := (Make.step env cfg j e).getD j

def j1 : J := after j0 (.startProcesses (runs 11))
def j2 : J := after j1 (.write c!"a.o" (some 12))
def j3 : J := after j2 (.childFinished 0 true)
def j4 : J := after j3 (.startProcesses (runs 13))
def j5 : J := after j4 (.write c!"b.o" (some 14))
def j6 : J := after j5 (.childFinished 0 false)
def j7 : J := after j6 (.startProcesses (runs 15))

/-- `b.o` is made although `a.o` has failed, `app` is not, and the exit code is 1. -/
theorem logs : j7.s.log = [.started 0 1, .failed 0 1, .started 0 2, .succeeded 0 2, .unbuildable 0 0] ∧ j7.s.exits = [1] ∧
    j2.s.busy = [(0, 1)] ∧ j5.s.busy = [(0, 2)] := by decide +kernel

theorem disk_lt {x : Str} {s : Nat} (h : disk x = some s) : s < 11 ∧ s ≠ 0 := by
  unfold disk at h
  repeat' split at h
  all_goals first | (cases h; done) | (cases h; decide)

theorem wanted {t : Nat} (h : Wanted db cfg.targets t) : t = 0 ∨ t = 1 ∨ t = 2 := by
  obtain ⟨r, hr, h⟩ := h
  have hr : r = 0 := by simpa [cfg] using hr
  subst hr
  cases h with
  | refl => exact .inl rfl
  | tail _ h =>
    obtain ⟨d, _, h⟩ := h
    exact (resolves h).1

theorem unambiguous : Unambiguous env.abs (fun n => disk (env.abs n)) db cfg.targets where
  names := by
    intro t ht n hn k hk
    constructor
    · exact fun h => (resolves h).2
    · intro h
      have h : n = (db.target k).name := h
      rcases wanted hk with rfl | rfl | rfl <;> exact .inl (by rw [h]; rfl)
  distinct := by
    intro k l hk hl
    rcases wanted hk with rfl | rfl | rfl <;> rcases wanted hl with rfl | rfl | rfl <;> simp [db, env]
  inferred := fun t _ r hr => (rules hr).elim
  viaDir := fun t _ n _ _ k _ => cmds k
  acyclic := by
    intro t _ h
    have key : ∀ {a b : Nat}, Relation.TransGen (Needs db) a b → a = 0 ∧ b ≠ 0 := by
      intro a b h
      induction h with
      | single h => exact needs h
      | tail _ h ih => exact ⟨ih.1, (needs h).2⟩
    obtain ⟨h1, h2⟩ := key h
    exact h2 h1
  oneRule := fun t _ r hr => (rules hr).elim
  filled := fun t _ => .inr (.inl (cmds t))
  times := fun n s h => (disk_lt h).2

theorem next {ok : J → Make.Event → Prop} {j : J} {e : Make.Event} (h : Run env cfg (fun k => fresh (db.target k)) disk ok j)
    (hok : ok j e) (hs : (Make.step env cfg j e).isSome = true) (hb : (after j e).s.build = j.s.build) :
    Run env cfg (fun k => fresh (db.target k)) disk ok (after j e) := by
  obtain ⟨x, hx⟩ := Option.isSome_iff_exists.1 hs
  have ha : after j e = x := by unfold after; rw [hx]; rfl
  rw [ha] at hb ⊢
  have := Run.step (e := e) (j' := x) [] h hok hx (fun hne => absurd hb hne) (fun n hn => by cases hn)
  rwa [if_neg (by simp [hb])] at this

theorem disk2 : j2.m.files.disk = fun x => if x = c!"a.o" then some 12 else disk x := rfl
theorem disk3 : j3.m.files.disk = j2.m.files.disk := rfl
theorem disk5 : j5.m.files.disk = fun x => if x = c!"b.o" then some 14 else if x = c!"a.o" then some 12 else disk x := rfl
theorem disk6 : j6.m.files.disk = j5.m.files.disk := rfl

theorem work6 : DidWork (fun n => j5.m.files.disk (env.abs n)) db 2 := by
  refine ⟨14, rfl, fun d hd s hs => ?_⟩
  have hd : d = c!"b.c" := by
    rcases hd with hd | ⟨hd, _⟩
    · rcases deps hd with ⟨h, _⟩ | ⟨h, _⟩ | ⟨_, h⟩
      · cases h
      · cases h
      · exact h
    · exact (rules hd).elim
  subst hd
  rw [behind_of_file (show j5.m.files.disk (env.abs c!"b.c") = some 9 from rfl) hs]
  decide

theorem later {file : Str} {t : Nat} (ht : 11 ≤ t) : WritesLater disk (.write file (some t)) := by
  intro f τ hf x s hx
  cases hf.2
  exact Nat.lt_of_lt_of_le (disk_lt hx).1 ht

theorem run7 : Run env cfg (fun k => fresh (db.target k)) disk
    (fun j e => Behaves env cfg db j e ∧ WritesLater disk e) j7 := by
  have h0 : Run env cfg (fun k => fresh (db.target k)) disk
      (fun j e => Behaves env cfg db j e ∧ WritesLater disk e) j0 :=
    Run.start [] (fun t => rfl) (fun n hn => by cases hn)
  have h1 : Run _ _ _ _ _ j1 := next h0 ⟨⟨fun x s h => Nat.le_of_lt (disk_lt h).1, works_running⟩, later_quiet rfl⟩ (by decide +kernel) (by decide +kernel)
  have h2 : Run _ _ _ _ _ j2 := next h1 ⟨⟨by decide, .inl ⟨1, by decide +kernel, rfl, by decide⟩⟩, later (by decide)⟩
    (by decide +kernel) (by decide +kernel)
  have h3 : Run _ _ _ _ _ j3 := next h2 ⟨fun h => (by cases h), later_quiet rfl⟩ (by decide +kernel) (by decide +kernel)
  have h4 : Run _ _ _ _ _ j4 := next h3 ⟨⟨fun x s h => by
    rw [disk3, disk2] at h
    show s ≤ 13
    simp only at h
    split at h
    · cases h; decide
    · exact Nat.le_trans (Nat.le_of_lt (disk_lt h).1) (by decide), works_running⟩, later_quiet rfl⟩ (by decide +kernel) (by decide +kernel)
  have h5 : Run _ _ _ _ _ j5 := next h4 ⟨⟨by decide, .inl ⟨2, by decide +kernel, rfl, by decide⟩⟩, later (by decide)⟩
    (by decide +kernel) (by decide +kernel)
  have h6 : Run _ _ _ _ _ j6 := next h5 ⟨fun _ t ht => by
    rw [logs.2.2.2] at ht
    have : t = 2 := by simpa using ht
    subst this
    exact work6, later_quiet rfl⟩ (by decide +kernel) (by decide +kernel)
  exact next h6 ⟨⟨fun x s h => by
    show s ≤ 15
    rw [disk6, disk5] at h
    simp only at h
    split at h
    · cases h; decide
    · split at h
      · cases h; decide
      · exact Nat.le_trans (Nat.le_of_lt (disk_lt h).1) (by decide), works_running⟩, later_quiet rfl⟩ (by decide +kernel) (by decide +kernel)

theorem wanted2 : Wanted db cfg.targets 2 := ⟨0, by simp [cfg], .single ⟨c!"b.o", by simp [db], .inl (by decide +kernel)⟩⟩

theorem cone2 {y : Nat} (hy : ReflTransGen (Needs db) 2 y) : y = 2 := by
  rcases ReflTransGen.cases_head hy with h | ⟨c, h, _⟩
  · exact h.symm
  · exact absurd (needs h).1 (by decide)

/-- The theorems apply to `b.o`. -/
example : UpToDate (fun n => j7.m.files.disk (env.abs n)) db 2 := by
  refine C95_all_but_what_failed_partial rfl (fun _ _ h => h) rfl rfl unambiguous (run7.mono fun _ _ h => h.1)
    (c := 1) (by rw [logs.2.1]; simp) (by decide) (by rw [logs.1]; simp) wanted2 (fun y hy b => ?_) (.inl rfl)
  rw [cone2 hy, logs.1]
  simp

example : ∃ b, Ev.started b 2 ∈ j7.s.log := by
  refine C94_all_that_is_stale_keep_going_partial rfl (fun _ _ h => h) rfl rfl unambiguous run7
    (c := 1) (by rw [logs.2.1]; simp) (by decide) (by rw [logs.1]; simp) wanted2 (fun y hy b => ?_) (.inl rfl) ?_
  · rw [cone2 hy.to_reflTransGen, logs.1]
    simp
  · rintro ⟨T, hT, h⟩
    have hT : some 2 = some T := hT
    cases hT
    exact absurd ((h c!"b.c" (.inl (by simp [db]))).2 9 (.file rfl)) (by decide)

/-- What was made depends on something that was out of date. -/
example : ∃ y, ReflTransGen (Needs db) 2 y ∧ Buildable (fun n => disk (env.abs n)) db y ∧ ¬ UpToDate (fun n => disk (env.abs n)) db y :=
  (C94_only_what_depends_on_stale_keep_going_partial rfl (fun _ _ h => h) rfl rfl unambiguous (run7.mono fun _ _ h => h.1)
    (b := 0) (by rw [logs.1]; simp)).2

end KeepCase

end Jom.Props
