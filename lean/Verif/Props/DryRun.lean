/- C93: what a dry run (`/N`) shows, and what a build would do. -/
import Verif.Proofs.DryRunRun
import Verif.Proofs.MakeStale
import Verif.Props.Scheduler
import Verif.Props.SecondBuild

namespace Jom.Props

open Jom.Graph Jom.Sched Jom.UpToDate Jom.Spec.Build Jom.Make Jom.Spec Relation

/-- C93. A dry run shows the commands of a target only if it is needed by a requested target, can be made and is not up to date; it
changes no file and nothing fails; and if it ends with exit code 0, it has shown all targets of which this is true. -/
theorem C93_shown {env : Env} {cfg : Cfg} {db : Db} {disk : Str → Option Nat}
    (hlookup : env.lookup = db.lookup) (hkey : ∀ r k, env.key r = some k → db.lookup r = some k) (hdir : env.dir = db.dir)
    (hall : cfg.buildAll = false) (hun : Unambiguous env.abs (fun n => disk (env.abs n)) db cfg.targets) {j : J}
    (hrun : Run env cfg (fun k => fresh (db.target k)) disk (OnlyShows disk) j) :
    (∀ b t, Ev.started b t ∈ j.s.log → (∃ r, cfg.targets[b]? = some r ∧ ReflTransGen (Needs db) r t) ∧
      Buildable (fun n => disk (env.abs n)) db t ∧ ¬ UpToDate (fun n => disk (env.abs n)) db t) ∧
    j.m.files.disk = disk ∧ (∀ b t, Ev.failed b t ∉ j.s.log) ∧
    (0 ∈ j.s.exits → ∀ b r t, cfg.targets[b]? = some r → ReflTransGen (Needs db) r t →
      Buildable (fun n => disk (env.abs n)) db t → ¬ UpToDate (fun n => disk (env.abs n)) db t → Ev.started b t ∈ j.s.log) := by
  have p : Plan env cfg db disk := ⟨hlookup, hdir, hall, hkey, hun⟩
  have hd := Run.dry p hrun
  refine ⟨fun b t h => ?_, hd.mem.diskEq, fun b t h => hd.log _ h, fun h0 b r t hr ht hb hu => ?_⟩
  · obtain ⟨h1, h2, h3⟩ := hd.log _ h
    exact ⟨h1, h3, h2⟩
  · have hbb : b ≤ j.s.build := by
      have hi := hrun.reachable.inv
      have hlt : b < cfg.targets.length := (List.getElem?_eq_some_iff.1 hr).1
      rcases hi.codes 0 h0 with ⟨h, _⟩ | ⟨_, ⟨h, _⟩ | ⟨h, _⟩⟩ | ⟨hc, _⟩
      · cases h
      · cases h
      · cases h
      · have := hi.lg.pend hc.ab
        rw [hc.pending] at this
        have := List.drop_eq_nil_iff.1 this.symm
        omega
    have hrt : Reaches (cfg.deps b) r t := (edges_reach (hd.edges b hbb) hr).2 ht
    rcases (C37_exit_zero cfg j.s hrun.reachable (hd.acyclic p) h0).2.2 b r t hr hrt with h | h | h
    · exact hrun.reachable.inv.lg.ran b t (.inl h)
    · exact absurd (hd.log _ h).2 hu
    · exact absurd hb (hd.log _ h).2.2

/-- C93. Everything that a dry run shows is made by every build, with the same files at the beginning and for the same targets, that ends with
exit code 0, if the commands do their work and the files they write get times after the beginning. -/
theorem C93_shown_is_made {env : Env} {cfg cfg' : Cfg} {db : Db} {disk : Str → Option Nat}
    (hlookup : env.lookup = db.lookup) (hkey : ∀ r k, env.key r = some k → db.lookup r = some k) (hdir : env.dir = db.dir)
    (hall : cfg.buildAll = false) (hall' : cfg'.buildAll = false) (hsame : cfg'.targets = cfg.targets)
    (hun : Unambiguous env.abs (fun n => disk (env.abs n)) db cfg.targets) {j j' : J}
    (hrun : Run env cfg (fun k => fresh (db.target k)) disk (OnlyShows disk) j)
    (hrun' : Run env cfg' (fun k => fresh (db.target k)) disk (fun j e => Behaves env cfg' db j e ∧ WritesLater disk e) j')
    (h0 : 0 ∈ j'.s.exits) {b t : Nat} (h : Ev.started b t ∈ j.s.log) : ∃ b', Ev.started b' t ∈ j'.s.log := by
  obtain ⟨⟨r, hr, h1⟩, h2, h3⟩ := (C93_shown hlookup hkey hdir hall hun hrun).1 b t h
  have p : Plan env cfg' db disk := ⟨hlookup, hdir, hall', hkey, hsame ▸ hun⟩
  exact Run.stale p (hrun'.plainLater.mono fun _ _ h => ⟨h.1.1, h.2⟩) h0 ⟨r, by rw [hsame]; exact List.mem_of_getElem? hr, h1⟩ h2 h3

/-- C93. If a dry run ends with exit code 0 and shows nothing, a build with the same files starts nothing. -/
theorem C93_nothing_shown {env : Env} {cfg cfg' : Cfg} {db : Db} {disk : Str → Option Nat}
    (hlookup : env.lookup = db.lookup) (hkey : ∀ r k, env.key r = some k → db.lookup r = some k) (hdir : env.dir = db.dir)
    (hall : cfg.buildAll = false) (hall' : cfg'.buildAll = false) (hsame : cfg'.targets = cfg.targets)
    (hun : Unambiguous env.abs (fun n => disk (env.abs n)) db cfg.targets)
    (hreg : Regular (fun n => disk (env.abs n)) db cfg.targets) (hfew : FewerThan db cfg.targets cfg'.fuel) {j j' : J}
    (hrun : Run env cfg (fun k => fresh (db.target k)) disk (OnlyShows disk) j) (h0 : 0 ∈ j.s.exits)
    (hno : ∀ b t, Ev.started b t ∉ j.s.log)
    (hrun' : Run env cfg' (fun k => fresh (db.target k)) disk NobodyWrites j') :
    (∀ b t, Ev.started b t ∉ j'.s.log) ∧ (∀ c ∈ j'.s.exits, c = 0) := by
  have hord : InOrder (fun n => disk (env.abs n)) db cfg'.targets := by
    rw [hsame]
    rintro t ⟨r, hr, ht⟩ hb
    obtain ⟨b, hbl, rfl⟩ := List.mem_iff_getElem.1 hr
    apply Classical.byContradiction
    intro hu
    exact hno _ _ ((C93_shown hlookup hkey hdir hall hun hrun).2.2.2 h0 b _ t (List.getElem?_eq_getElem hbl) ht hb hu)
  have := C68_null_build_partial hlookup hkey hdir hall' (hsame ▸ hreg) hord (hsame ▸ hfew) hrun'
  exact ⟨this.1, this.2.2.2.2.2.1⟩

/-! ### The makefile of C68 with `a.o` older than `a.c` and `app` newer than `a.o` -/

namespace DryCase

open NullCase (db env)

def disk : Str → Option Nat := fun n =>
  if n = c!"app" then some 7 else if n = c!"a.o" then some 5 else if n = c!"a.c" then some 10 else none

def cfg : Cfg := { NullCase.cfg with deps := fun _ k => (db.target k).deps.map (resolve env { disk := disk, cache := [] }) }

def shows (now : Nat) : Answers := { NullCase.answers with now := now, res := .sync false }
def runs (now : Nat) : Answers := { NullCase.answers with now := now }

def j0 : J :=
  { s := Sched.init cfg
    m := buildAsked env [] { info := fun k => fresh (db.target k), files := { disk := disk, cache := [] } } }

def after (j : J) (e : Make.Event) : J := (Make.step env cfg j e).getD j

/-- The dry run. -/
def d1 : J := after j0 (.startProcesses (shows 11))
def d2 : J := after d1 (.startProcesses (shows 12))

/-- The build. -/
def j1 : J := after j0 (.startProcesses (runs 11))
def j2 : J := after j1 (.write c!"a.o" (some 12))
def j3 : J := after j2 (.childFinished 0 false)
def j4 : J := after j3 (.startProcesses (runs 13))
def j5 : J := after j4 (.write c!"app" (some 14))
def j6 : J := after j5 (.childFinished 1 false)
def j7 : J := after j6 (.startProcesses (runs 15))

/-- The dry run shows `a.o` only, the build makes `a.o` and `app`. -/
theorem logs : d2.s.log = [.started 0 1, .succeeded 0 1, .upToDate 0 0] ∧ d2.s.exits = [0] ∧
    j7.s.log = [.started 0 1, .succeeded 0 1, .started 0 0, .succeeded 0 0] ∧ j7.s.exits = [0] := by decide +kernel

theorem disk_inv {x : Str} {s : Nat} (h : disk x = some s) : s = 7 ∨ s = 5 ∨ s = 10 := by
  unfold disk at h
  split at h
  · cases h; exact .inl rfl
  · split at h
    · cases h; exact .inr (.inl rfl)
    · split at h
      · cases h; exact .inr (.inr rfl)
      · cases h

theorem disk_lt {x : Str} {s : Nat} (h : disk x = some s) : s < 11 := by
  rcases disk_inv h with rfl | rfl | rfl <;> decide

theorem unambiguous : Unambiguous env.abs (fun n => disk (env.abs n)) db cfg.targets :=
  ⟨SecondCase.unambiguous.names, SecondCase.unambiguous.distinct, SecondCase.unambiguous.inferred, SecondCase.unambiguous.viaDir,
    SecondCase.unambiguous.acyclic, fun t _ r hr r' hr' _ _ => by rw [(SecondCase.rules hr).2, (SecondCase.rules hr').2],
    fun t ht => by
      rcases SecondCase.wanted ht with rfl | rfl
      · exact .inl (by simp [db])
      · exact .inr (.inr (.inr ⟨c!"a.c", by simp [db], by decide +kernel⟩)),
    fun n s h => by rcases disk_inv h with rfl | rfl | rfl <;> decide⟩

theorem next {ok : J → Make.Event → Prop} {j : J} {e : Make.Event} (h : Run env cfg (fun k => fresh (db.target k)) disk ok j)
    (hok : ok j e) (hs : (Make.step env cfg j e).isSome = true) (hb : (after j e).s.build = j.s.build) :
    Run env cfg (fun k => fresh (db.target k)) disk ok (after j e) := by
  obtain ⟨x, hx⟩ := Option.isSome_iff_exists.1 hs
  have ha : after j e = x := by unfold after; rw [hx]; rfl
  rw [ha] at hb ⊢
  have := Run.step (e := e) (j' := x) [] h hok hx (fun hne => absurd hb hne) (fun n hn => by cases hn)
  rwa [if_neg (by simp [hb])] at this

theorem begun (ok : J → Make.Event → Prop) : Run env cfg (fun k => fresh (db.target k)) disk ok j0 :=
  Run.start [] (fun t => rfl) (fun n hn => by cases hn)

theorem dry2 : Run env cfg (fun k => fresh (db.target k)) disk (OnlyShows disk) d2 := by
  have h1 : Run _ _ _ _ (OnlyShows disk) d1 := next (begun _) ⟨rfl, rfl, fun x s h => disk_lt h⟩ (by decide +kernel) (by decide +kernel)
  exact next h1 ⟨rfl, rfl, fun x s h => Nat.lt_of_lt_of_le (disk_lt h) (by decide)⟩ (by decide +kernel) (by decide +kernel)

theorem disk2 : j2.m.files.disk = fun x => if x = c!"a.o" then some 12 else disk x := rfl
theorem disk3 : j3.m.files.disk = j2.m.files.disk := rfl
theorem disk5 : j5.m.files.disk = fun x => if x = c!"app" then some 14 else if x = c!"a.o" then some 12 else disk x := rfl
theorem disk6 : j6.m.files.disk = j5.m.files.disk := rfl

theorem work3 : DidWork (fun n => j2.m.files.disk (env.abs n)) db 1 := by
  refine ⟨12, rfl, fun d hd s hs => ?_⟩
  have hd : d = c!"a.c" := by
    rcases hd with hd | ⟨hd, _⟩
    · exact absurd (SecondCase.deps hd).1 (by decide)
    · exact (SecondCase.rules hd).2
  subst hd
  rw [behind_of_file (show j2.m.files.disk (env.abs c!"a.c") = some 10 from rfl) hs]
  decide

theorem work6 : DidWork (fun n => j5.m.files.disk (env.abs n)) db 0 := by
  refine ⟨14, rfl, fun d hd s hs => ?_⟩
  have hd : d = c!"a.o" := by
    rcases hd with hd | ⟨hd, _⟩
    · exact (SecondCase.deps hd).2
    · exact absurd rfl (SecondCase.rules hd).1
  subst hd
  rw [behind_of_file (show j5.m.files.disk (env.abs c!"a.o") = some 12 from rfl) hs]
  decide

theorem later {file : Str} {t : Nat} (ht : 11 ≤ t) : WritesLater disk (.write file (some t)) := by
  intro f τ hf x s hx
  cases hf.2
  exact Nat.lt_of_lt_of_le (disk_lt hx) ht

theorem run7 : Run env cfg (fun k => fresh (db.target k)) disk (fun j e => Behaves env cfg db j e ∧ WritesLater disk e) j7 := by
  have h1 : Run _ _ _ _ (fun j e => Behaves env cfg db j e ∧ WritesLater disk e) j1 := next (begun _) ⟨⟨fun x s h => Nat.le_of_lt (disk_lt h), works_running⟩, later_quiet rfl⟩ (by decide +kernel) (by decide +kernel)
  have h2 : Run _ _ _ _ _ j2 := next h1 ⟨⟨by decide, .inl ⟨1, by decide +kernel, rfl, by decide⟩⟩, later (by decide)⟩ (by decide +kernel) (by decide +kernel)
  have h3 : Run _ _ _ _ _ j3 := next h2 ⟨fun _ t ht => by
    have hb : j2.s.busy = [(0, 1)] := by decide +kernel
    rw [hb] at ht
    have : t = 1 := by simpa using ht
    subst this
    exact work3, later_quiet rfl⟩ (by decide +kernel) (by decide +kernel)
  have h4 : Run _ _ _ _ _ j4 := next h3 ⟨⟨fun x s h => by
    rw [disk3, disk2] at h
    show s ≤ 13
    simp only at h
    split at h
    · cases h; decide
    · exact Nat.le_trans (Nat.le_of_lt (disk_lt h)) (by decide), works_running⟩, later_quiet rfl⟩ (by decide +kernel) (by decide +kernel)
  have h5 : Run _ _ _ _ _ j5 := next h4 ⟨⟨by decide, .inl ⟨0, by decide +kernel, rfl, by decide⟩⟩, later (by decide)⟩ (by decide +kernel) (by decide +kernel)
  have h6 : Run _ _ _ _ _ j6 := next h5 ⟨fun _ t ht => by
    have hb : j5.s.busy = [(1, 0)] := by decide +kernel
    rw [hb] at ht
    have : t = 0 := by simpa using ht
    subst this
    exact work6, later_quiet rfl⟩ (by decide +kernel) (by decide +kernel)
  exact next h6 ⟨⟨fun x s h => by
    show s ≤ 15
    rw [disk6, disk5] at h
    simp only at h
    split at h
    · cases h; decide
    · split at h
      · cases h; decide
      · exact Nat.le_trans (Nat.le_of_lt (disk_lt h)) (by decide), works_running⟩, later_quiet rfl⟩ (by decide +kernel) (by decide +kernel)

/-- The theorems apply: `a.o` is out of date, and every successful build makes it. -/
example : ¬ UpToDate (fun n => disk (env.abs n)) db 1 :=
  ((C93_shown rfl (fun _ _ h => h) rfl rfl unambiguous dry2).1 0 1 (by rw [logs.1]; simp)).2.2

example : ∃ b, Ev.started b 1 ∈ j7.s.log :=
  C93_shown_is_made rfl (fun _ _ h => h) rfl rfl rfl rfl unambiguous dry2 run7 (by rw [logs.2.2.2]; simp) (b := 0)
    (by rw [logs.1]; simp)

/-- Everything in order: nothing is shown, nothing is made. -/
example {j' : J} (h : Run NullCase.env NullCase.cfg (fun k => fresh (NullCase.db.target k)) NullCase.disk NobodyWrites j') :
    ∀ b t, Ev.started b t ∉ j'.s.log := by
  let d : J := (Make.step NullCase.env NullCase.cfg NullCase.j0 (.startProcesses (shows 9))).getD NullCase.j0
  have hd : Run NullCase.env NullCase.cfg (fun k => fresh (NullCase.db.target k)) NullCase.disk (OnlyShows NullCase.disk) d := by
    have h0 : Run NullCase.env NullCase.cfg (fun k => fresh (NullCase.db.target k)) NullCase.disk (OnlyShows NullCase.disk) NullCase.j0 :=
      Run.start [] (fun t => rfl) (fun n hn => by cases hn)
    have hb : d.s.build = NullCase.j0.s.build := by decide +kernel
    have h1 := Run.step (e := .startProcesses (shows 9)) (j' := d) [] h0 ⟨rfl, rfl, fun x s h => by
      show s < 9
      unfold NullCase.disk at h
      split at h
      · cases h; decide
      · split at h
        · cases h; decide
        · split at h
          · cases h; decide
          · cases h⟩ (by
      have : (Make.step NullCase.env NullCase.cfg NullCase.j0 (.startProcesses (shows 9))).isSome = true := by decide +kernel
      obtain ⟨x, hx⟩ := Option.isSome_iff_exists.1 this
      show _ = some ((Make.step NullCase.env NullCase.cfg NullCase.j0 (.startProcesses (shows 9))).getD NullCase.j0)
      rw [hx]
      rfl) (fun hne => absurd hb hne) (fun n hn => by cases hn)
    rwa [if_neg (by simp [hb])] at h1
  have hun : Unambiguous NullCase.env.abs (fun n => NullCase.disk (NullCase.env.abs n)) NullCase.db NullCase.cfg.targets :=
    ⟨SecondCase.unambiguous.names, SecondCase.unambiguous.distinct, SecondCase.unambiguous.inferred, SecondCase.unambiguous.viaDir,
      SecondCase.unambiguous.acyclic, fun t _ r hr r' hr' _ _ => by rw [(SecondCase.rules hr).2, (SecondCase.rules hr').2],
      fun t ht => by
        rcases SecondCase.wanted ht with rfl | rfl
        · exact .inl (by simp [db])
        · exact .inr (.inr (.inr ⟨c!"a.c", by simp [db], by decide +kernel⟩)),
      NullCase.regular.times⟩
  have hlog : d.s.log = [.upToDate 0 1, .upToDate 0 0] ∧ d.s.exits = [0] := by decide +kernel
  exact (C93_nothing_shown rfl (fun _ _ h => h) rfl rfl rfl rfl hun NullCase.regular NullCase.few hd (by rw [hlog.2]; simp)
    (by rw [hlog.1]; simp) h).1

end DryCase

/-- A dry run does not show all that a build makes: `a.c` is newer than `a.o`, `a.o` is older than `app`. The dry run shows the commands of
`a.o` and finds `app` up to date; the build makes `a.o` and then `app`. -/
theorem C93_made_is_shown_refuted :
    ∃ (d j : J), Run NullCase.env DryCase.cfg (fun k => fresh (NullCase.db.target k)) DryCase.disk (OnlyShows DryCase.disk) d ∧
      Run NullCase.env DryCase.cfg (fun k => fresh (NullCase.db.target k)) DryCase.disk
        (fun j e => Behaves NullCase.env DryCase.cfg NullCase.db j e ∧ WritesLater DryCase.disk e) j ∧
      0 ∈ d.s.exits ∧ 0 ∈ j.s.exits ∧ Ev.upToDate 0 0 ∈ d.s.log ∧ (∀ b, Ev.started b 0 ∉ d.s.log) ∧ Ev.started 0 0 ∈ j.s.log := by
  refine ⟨DryCase.d2, DryCase.j7, DryCase.dry2, DryCase.run7, ?_⟩
  obtain ⟨h1, h2, h3, h4⟩ := DryCase.logs
  rw [h1, h2, h3, h4]
  simp

end Jom.Props
