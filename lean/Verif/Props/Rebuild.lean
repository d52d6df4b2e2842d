/- C94: a build makes what is out of date and what depends on it, and nothing else. -/
import Verif.Proofs.MakeStale
import Verif.Proofs.MakeSpare
import Verif.Proofs.MakeExact
import Verif.Props.DryRun

namespace Jom.Props

open Jom.Graph Jom.Sched Jom.UpToDate Jom.Spec.Build Jom.Make Jom.Spec Relation

/-- C94. As long as no command has failed (without `/K`: always), a target is made only if it is needed by a requested target and it, or a target
that it needs, directly or indirectly, was out of date when jom began. -/
theorem C94_only_what_depends_on_stale_partial {env : Env} {cfg : Cfg} {db : Db} {disk : Str → Option Nat}
    (hlookup : env.lookup = db.lookup) (hkey : ∀ r k, env.key r = some k → db.lookup r = some k) (hdir : env.dir = db.dir)
    (hall : cfg.buildAll = false) (hun : Unambiguous env.abs (fun n => disk (env.abs n)) db cfg.targets) {j : J}
    (hrun : Run env cfg (fun k => fresh (db.target k)) disk (Behaves env cfg db) j)
    (hok : cfg.keepGoing = false ∨ ∀ b t, Ev.failed b t ∉ j.s.log) {b x : Nat} (hx : Ev.started b x ∈ j.s.log) :
    Wanted db cfg.targets x ∧
    ∃ y, ReflTransGen (Needs db) x y ∧ Buildable (fun n => disk (env.abs n)) db y ∧ ¬ UpToDate (fun n => disk (env.abs n)) db y := by
  have p : Plan env cfg db disk := ⟨hlookup, hdir, hall, hkey, hun⟩
  have hok' : cfg.keepGoing = false ∨ j.s.allOk = true := by
    refine hok.imp id fun h => ?_
    cases ho : j.s.allOk with
    | true => rfl
    | false =>
      obtain ⟨b, z, hz⟩ := hrun.reachable.inv.lg.allOk.1 ho
      exact absurd hz (h b z)
  have hsp := Run.spared p (hrun.plain.mono fun _ _ h => h.1) hok' b x hx
  refine ⟨hsp.1, ?_⟩
  apply Classical.byContradiction
  intro hno
  refine hsp.2 fun y hy hb => ?_
  apply Classical.byContradiction
  intro hu
  exact hno ⟨y, hy, hb, hu⟩

/-- C94. Every target that is needed, can be made and is out of date when jom begins has been made when jom ends with exit code 0. -/
theorem C94_all_that_is_stale_partial {env : Env} {cfg : Cfg} {db : Db} {disk : Str → Option Nat}
    (hlookup : env.lookup = db.lookup) (hkey : ∀ r k, env.key r = some k → db.lookup r = some k) (hdir : env.dir = db.dir)
    (hall : cfg.buildAll = false) (hun : Unambiguous env.abs (fun n => disk (env.abs n)) db cfg.targets) {j : J}
    (hrun : Run env cfg (fun k => fresh (db.target k)) disk (fun j e => Behaves env cfg db j e ∧ WritesLater disk e) j)
    (h0 : 0 ∈ j.s.exits) {x : Nat} (hx : Wanted db cfg.targets x) (hb : Buildable (fun n => disk (env.abs n)) db x)
    (hu : ¬ UpToDate (fun n => disk (env.abs n)) db x) : ∃ b, Ev.started b x ∈ j.s.log :=
  Run.stale ⟨hlookup, hdir, hall, hkey, hun⟩ (hrun.plainLater.mono fun _ _ h => ⟨h.1.1, h.2⟩) h0 hx hb hu

/-- C94. A build that ends with exit code 0 makes exactly the targets that are needed, can be made, and are out of date when jom begins or need, directly or
indirectly, one that is; provided that targets without commands that have a file need no other targets (the file would count instead
of what stands behind it). -/
theorem C94_exactly_partial {env : Env} {cfg : Cfg} {db : Db} {disk : Str → Option Nat}
    (hlookup : env.lookup = db.lookup) (hkey : ∀ r k, env.key r = some k → db.lookup r = some k) (hdir : env.dir = db.dir)
    (hall : cfg.buildAll = false) (hun : Unambiguous env.abs (fun n => disk (env.abs n)) db cfg.targets) {j : J}
    (hrun : Run env cfg (fun k => fresh (db.target k)) disk (fun j e => Behaves env cfg db j e ∧ WritesLater disk e) j)
    (h0 : 0 ∈ j.s.exits)
    (hplain : ∀ k, Wanted db cfg.targets k → ¬ Buildable (fun n => j.m.files.disk (env.abs n)) db k →
      disk (env.abs (db.target k).name) ≠ none → ∀ y, ¬ Needs db k y) (x : Nat) :
    (∃ b, Ev.started b x ∈ j.s.log) ↔ Wanted db cfg.targets x ∧ Buildable (fun n => j.m.files.disk (env.abs n)) db x ∧
      ∃ y, ReflTransGen (Needs db) x y ∧ Buildable (fun n => j.m.files.disk (env.abs n)) db y ∧
        ¬ UpToDate (fun n => disk (env.abs n)) db y :=
  Run.exactly ⟨hlookup, hdir, hall, hkey, hun⟩ (hrun.plainLater.mono fun _ _ h => ⟨h.1.1, h.2⟩) h0 hplain x

/-- C93. What a build makes depends on something that a dry run shows. -/
theorem C93_made_depends_on_shown {env : Env} {cfg cfg' : Cfg} {db : Db} {disk : Str → Option Nat}
    (hlookup : env.lookup = db.lookup) (hkey : ∀ r k, env.key r = some k → db.lookup r = some k) (hdir : env.dir = db.dir)
    (hall : cfg.buildAll = false) (hall' : cfg'.buildAll = false) (hsame : cfg'.targets = cfg.targets)
    (hun : Unambiguous env.abs (fun n => disk (env.abs n)) db cfg.targets) {j j' : J}
    (hrun : Run env cfg (fun k => fresh (db.target k)) disk (OnlyShows disk) j) (h0 : 0 ∈ j.s.exits)
    (hrun' : Run env cfg' (fun k => fresh (db.target k)) disk (Behaves env cfg' db) j')
    (hok : cfg'.keepGoing = false ∨ ∀ b t, Ev.failed b t ∉ j'.s.log) {b x : Nat} (hx : Ev.started b x ∈ j'.s.log) :
    ∃ b' y, ReflTransGen (Needs db) x y ∧ Ev.started b' y ∈ j.s.log := by
  obtain ⟨⟨r, hr, hrx⟩, y, h1, h2, h3⟩ := C94_only_what_depends_on_stale_partial hlookup hkey hdir hall' (hsame ▸ hun) hrun' hok hx
  rw [hsame] at hr
  obtain ⟨i, hi, rfl⟩ := List.mem_iff_getElem.1 hr
  exact ⟨i, y, h1, (C93_shown hlookup hkey hdir hall hun hrun).2.2.2 h0 i _ y (List.getElem?_eq_getElem hi) (hrx.trans h1) h2 h3⟩

/-! ### `app: a.o b.o`, `a.o: a.c`, `b.o: b.c`, all with commands; only `a.c` is newer than what is made of it -/

namespace RebuildCase

def db : Db where
  lookup := fun n => if n = c!"app" then some 0 else if n = c!"a.o" then some 1 else if n = c!"b.o" then some 2 else none
  dir := c!"d"
  target := fun k =>
    if k = 0 then { name := c!"app", deps := [c!"a.o", c!"b.o"], hasCmds := true, rules := [] }
    else if k = 1 then { name := c!"a.o", deps := [c!"a.c"], hasCmds := true, rules := [] }
    else { name := c!"b.o", deps := [c!"b.c"], hasCmds := true, rules := [] }

def env : Env := { lookup := db.lookup, key := db.lookup, dir := db.dir, abs := id }

def disk : Str → Option Nat := fun n =>
  if n = c!"app" then some 7 else if n = c!"a.o" then some 5 else if n = c!"b.o" then some 2 else if n = c!"a.c" then some 10
  else if n = c!"b.c" then some 1 else none

def cfg : Cfg :=
  { jobs := 2, keepGoing := false, buildAll := false, dumpGraph := false, targets := [0],
    deps := fun _ k => (db.target k).deps.map (resolve env { disk := disk, cache := [] }), fuel := 9 }

def runs (now : Nat) : Answers := { NullCase.answers with now := now }

def j0 : J :=
  { s := Sched.init cfg
    m := buildAsked env [] { info := fun k => fresh (db.target k), files := { disk := disk, cache := [] } } }

def after (j : J) (e : Make.Event) : J := (Make.step env cfg j e).getD j

def j1 : J := after j0 (.startProcesses (runs 11))
def j2 : J := after j1 (.write c!"a.o" (some 12))
def j3 : J := after j2 (.childFinished 0 false)
def j4 : J := after j3 (.startProcesses (runs 13))
def j5 : J := after j4 (.write c!"app" (some 14))
def j6 : J := after j5 (.childFinished 1 false)
def j7 : J := after j6 (.startProcesses (runs 15))

/-- `b.o` is left alone. -/
theorem logs : j7.s.log = [.upToDate 0 2, .started 0 1, .succeeded 0 1, .started 0 0, .succeeded 0 0] ∧ j7.s.exits = [0] ∧
    j2.s.busy = [(0, 1)] ∧ j5.s.busy = [(1, 0)] := by decide +kernel

theorem disk_lt {x : Str} {s : Nat} (h : disk x = some s) : s < 11 ∧ s ≠ 0 := by
  unfold disk at h
  repeat' split at h
  all_goals first | (cases h; done) | (cases h; decide)

theorem lookup_inv {d : Str} {k : Nat} (h : db.lookup d = some k) : (k = 0 ∨ k = 1 ∨ k = 2) ∧ d = (db.target k).name := by
  unfold db at h
  simp only at h
  repeat' split at h
  all_goals first | (cases h; done) | (next hd => cases h; subst hd; decide)

theorem resolves {d : Str} {k : Nat} (h : Resolves db d k) : (k = 0 ∨ k = 1 ∨ k = 2) ∧ d = (db.target k).name := by
  rcases h with h | ⟨_, h⟩
  · exact lookup_inv h
  · obtain ⟨h1, h2⟩ := lookup_inv h
    rcases h1 with rfl | rfl | rfl <;> exact absurd h2 (by simp [db])

theorem wanted {t : Nat} (h : Wanted db cfg.targets t) : t = 0 ∨ t = 1 ∨ t = 2 := by
  obtain ⟨r, hr, h⟩ := h
  have hr : r = 0 := by simpa [cfg] using hr
  subst hr
  cases h with
  | refl => exact .inl rfl
  | tail _ h =>
    obtain ⟨d, _, h⟩ := h
    exact (resolves h).1

theorem deps {t : Nat} {d : Str} (h : d ∈ (db.target t).deps) :
    (t = 0 ∧ (d = c!"a.o" ∨ d = c!"b.o")) ∨ (t = 1 ∧ d = c!"a.c") ∨ (t ≠ 0 ∧ d = c!"b.c") := by
  unfold db at h
  simp only at h
  split at h
  · next ht => exact .inl ⟨ht, by simpa using h⟩
  · next ht =>
    split at h
    · next ht' => exact .inr (.inl ⟨ht', by simpa using h⟩)
    · exact .inr (.inr ⟨ht, by simpa using h⟩)

theorem rules {t : Nat} {r : Str} (h : r ∈ (db.target t).rules) : False := by
  unfold db at h
  simp only at h
  repeat' split at h
  all_goals simp at h

theorem needs {t k : Nat} (h : Needs db t k) : t = 0 ∧ k ≠ 0 := by
  obtain ⟨d, hd, h⟩ := h
  obtain ⟨h1, h2⟩ := resolves h
  rcases deps hd with ⟨h3, h4⟩ | ⟨h3, h4⟩ | ⟨h3, h4⟩
  · refine ⟨h3, ?_⟩
    rintro rfl
    rw [h2] at h4
    exact absurd h4 (by decide)
  · rw [h2] at h4
    rcases h1 with rfl | rfl | rfl <;> exact absurd h4 (by decide)
  · rw [h2] at h4
    rcases h1 with rfl | rfl | rfl <;> exact absurd h4 (by decide)

theorem cmds (t : Nat) : (db.target t).hasCmds = true := by
  unfold db
  simp only
  repeat' split
  all_goals rfl

theorem unambiguous : Unambiguous env.abs (fun n => disk (env.abs n)) db cfg.targets where
  names := by
    intro t ht n hn k hk
    constructor
    · exact fun h => (resolves h).2
    · intro h
      have h : n = (db.target k).name := h
      rcases wanted hk with rfl | rfl | rfl <;> exact .inl (by rw [h]; rfl)
  distinct := by
    intro k l hk hl
    rcases wanted hk with rfl | rfl | rfl <;> rcases wanted hl with rfl | rfl | rfl <;> simp [db, env]
  inferred := fun t _ r hr => (rules hr).elim
  viaDir := fun t _ n _ _ k _ => cmds k
  acyclic := by
    intro t _ h
    have key : ∀ {a b : Nat}, Relation.TransGen (Needs db) a b → a = 0 ∧ b ≠ 0 := by
      intro a b h
      induction h with
      | single h => exact needs h
      | tail _ h ih => exact ⟨ih.1, (needs h).2⟩
    obtain ⟨h1, h2⟩ := key h
    exact h2 h1
  oneRule := fun t _ r hr => (rules hr).elim
  filled := fun t _ => .inr (.inl (cmds t))
  times := fun n s h => (disk_lt h).2

theorem next {ok : J → Make.Event → Prop} {j : J} {e : Make.Event} (h : Run env cfg (fun k => fresh (db.target k)) disk ok j)
    (hok : ok j e) (hs : (Make.step env cfg j e).isSome = true) (hb : (after j e).s.build = j.s.build) :
    Run env cfg (fun k => fresh (db.target k)) disk ok (after j e) := by
  obtain ⟨x, hx⟩ := Option.isSome_iff_exists.1 hs
  have ha : after j e = x := by unfold after; rw [hx]; rfl
  rw [ha] at hb ⊢
  have := Run.step (e := e) (j' := x) [] h hok hx (fun hne => absurd hb hne) (fun n hn => by cases hn)
  rwa [if_neg (by simp [hb])] at this

theorem disk2 : j2.m.files.disk = fun x => if x = c!"a.o" then some 12 else disk x := rfl
theorem disk3 : j3.m.files.disk = j2.m.files.disk := rfl
theorem disk5 : j5.m.files.disk = fun x => if x = c!"app" then some 14 else if x = c!"a.o" then some 12 else disk x := rfl
theorem disk6 : j6.m.files.disk = j5.m.files.disk := rfl

theorem work3 : DidWork (fun n => j2.m.files.disk (env.abs n)) db 1 := by
  refine ⟨12, rfl, fun d hd s hs => ?_⟩
  have hd : d = c!"a.c" := by
    rcases hd with hd | ⟨hd, _⟩
    · rcases deps hd with ⟨h, _⟩ | ⟨_, h⟩ | ⟨_, h⟩
      · cases h
      · exact h
      · rw [h] at hd; exact absurd hd (by decide +kernel)
    · exact (rules hd).elim
  subst hd
  rw [behind_of_file (show j2.m.files.disk (env.abs c!"a.c") = some 10 from rfl) hs]
  decide

theorem work6 : DidWork (fun n => j5.m.files.disk (env.abs n)) db 0 := by
  refine ⟨14, rfl, fun d hd s hs => ?_⟩
  have hd : d = c!"a.o" ∨ d = c!"b.o" := by
    rcases hd with hd | ⟨hd, _⟩
    · rcases deps hd with ⟨_, h⟩ | ⟨h, _⟩ | ⟨h, _⟩
      · exact h
      · cases h
      · exact absurd rfl h
    · exact (rules hd).elim
  rcases hd with rfl | rfl
  · rw [behind_of_file (show j5.m.files.disk (env.abs c!"a.o") = some 12 from rfl) hs]
    decide
  · rw [behind_of_file (show j5.m.files.disk (env.abs c!"b.o") = some 2 from rfl) hs]
    decide

theorem later {file : Str} {t : Nat} (ht : 11 ≤ t) : WritesLater disk (.write file (some t)) := by
  intro f τ hf x s hx
  cases hf.2
  exact Nat.lt_of_lt_of_le (disk_lt hx).1 ht

theorem run7 : Run env cfg (fun k => fresh (db.target k)) disk (fun j e => Behaves env cfg db j e ∧ WritesLater disk e) j7 := by
  have h0 : Run env cfg (fun k => fresh (db.target k)) disk (fun j e => Behaves env cfg db j e ∧ WritesLater disk e) j0 :=
    Run.start [] (fun t => rfl) (fun n hn => by cases hn)
  have h1 : Run _ _ _ _ _ j1 := next h0 ⟨⟨fun x s h => Nat.le_of_lt (disk_lt h).1, works_running⟩, later_quiet rfl⟩ (by decide +kernel) (by decide +kernel)
  have h2 : Run _ _ _ _ _ j2 := next h1 ⟨⟨by decide, .inl ⟨1, by decide +kernel, rfl, by decide⟩⟩, later (by decide)⟩ (by decide +kernel) (by decide +kernel)
  have h3 : Run _ _ _ _ _ j3 := next h2 ⟨fun _ t ht => by
    rw [logs.2.2.1] at ht
    have : t = 1 := by simpa using ht
    subst this
    exact work3, later_quiet rfl⟩ (by decide +kernel) (by decide +kernel)
  have h4 : Run _ _ _ _ _ j4 := next h3 ⟨⟨fun x s h => by
    rw [disk3, disk2] at h
    show s ≤ 13
    simp only at h
    split at h
    · cases h; decide
    · exact Nat.le_trans (Nat.le_of_lt (disk_lt h).1) (by decide), works_running⟩, later_quiet rfl⟩ (by decide +kernel) (by decide +kernel)
  have h5 : Run _ _ _ _ _ j5 := next h4 ⟨⟨by decide, .inl ⟨0, by decide +kernel, rfl, by decide⟩⟩, later (by decide)⟩ (by decide +kernel) (by decide +kernel)
  have h6 : Run _ _ _ _ _ j6 := next h5 ⟨fun _ t ht => by
    rw [logs.2.2.2] at ht
    have : t = 0 := by simpa using ht
    subst this
    exact work6, later_quiet rfl⟩ (by decide +kernel) (by decide +kernel)
  exact next h6 ⟨⟨fun x s h => by
    show s ≤ 15
    rw [disk6, disk5] at h
    simp only at h
    split at h
    · cases h; decide
    · split at h
      · cases h; decide
      · exact Nat.le_trans (Nat.le_of_lt (disk_lt h).1) (by decide), works_running⟩, later_quiet rfl⟩ (by decide +kernel) (by decide +kernel)

theorem fresh_b : UpToDate (fun n => disk (env.abs n)) db 2 := by
  refine ⟨2, rfl, fun d hd => ?_⟩
  have hd : d = c!"b.c" := by
    rcases hd with hd | ⟨hd, _⟩
    · rcases deps hd with ⟨h, _⟩ | ⟨h, _⟩ | ⟨_, h⟩
      · cases h
      · cases h
      · exact h
    · exact (rules hd).elim
  subst hd
  have hf : disk (env.abs c!"b.c") = some 1 := rfl
  exact ⟨not_missing_of_file hf, fun s hs => by rw [behind_of_file hf hs]; decide⟩

/-- The theorem applies: no run of jom with these files makes `b.o`. -/
example {j : J} (h : Run env cfg (fun k => fresh (db.target k)) disk (Behaves env cfg db) j) (b : Nat) : Ev.started b 2 ∉ j.s.log := by
  intro hx
  obtain ⟨_, y, hy, _, hu⟩ := C94_only_what_depends_on_stale_partial rfl (fun _ _ h => h) rfl rfl unambiguous h (.inl rfl) hx
  have : y = 2 := by
    rcases ReflTransGen.cases_head hy with h | ⟨c, h, _⟩
    · exact h.symm
    · exact absurd (needs h).1 (by decide)
  subst this
  exact hu fresh_b

/-- There are such runs, and `a.o` is made in those that succeed. -/
example : Run env cfg (fun k => fresh (db.target k)) disk (Behaves env cfg db) j7 ∧ 0 ∈ j7.s.exits ∧ Ev.started 0 1 ∈ j7.s.log :=
  ⟨run7.mono fun _ _ h => h.1, by rw [logs.2.1]; simp, by rw [logs.1]; simp⟩

example : ∃ b, Ev.started b 1 ∈ j7.s.log := by
  refine C94_all_that_is_stale_partial rfl (fun _ _ h => h) rfl rfl unambiguous run7 (by rw [logs.2.1]; simp)
    ⟨0, by simp [cfg], .single ⟨c!"a.o", by simp [db], .inl (by decide +kernel)⟩⟩ (.inl rfl) ?_
  rintro ⟨T, hT, h⟩
  have hT : some 5 = some T := hT
  cases hT
  exact absurd ((h c!"a.c" (.inl (by simp [db]))).2 10 (.file rfl)) (by decide)

/-- `app` is made because it needs `a.o`, which is out of date. -/
example : ∃ b, Ev.started b 0 ∈ j7.s.log := by
  refine (C94_exactly_partial rfl (fun _ _ h => h) rfl rfl unambiguous run7 (by rw [logs.2.1]; simp) (fun k _ hb => absurd (.inl (cmds k)) hb) 0).2
    ⟨⟨0, by simp [cfg], .refl⟩, .inl rfl, 1, .single ⟨c!"a.o", by simp [db], .inl (by decide +kernel)⟩, .inl rfl, ?_⟩
  rintro ⟨T, hT, h⟩
  have hT : some 5 = some T := hT
  cases hT
  exact absurd ((h c!"a.c" (.inl (by simp [db]))).2 10 (.file rfl)) (by decide)

end RebuildCase

/-- Applies to the dry run and the build of `DryCase`: `app` depends on `a.o`, which is shown. -/
example : ∃ b' y, ReflTransGen (Needs NullCase.db) 0 y ∧ Ev.started b' y ∈ DryCase.d2.s.log :=
  C93_made_depends_on_shown rfl (fun _ _ h => h) rfl rfl rfl rfl DryCase.unambiguous DryCase.dry2 (by rw [DryCase.logs.2.1]; simp)
    (DryCase.run7.mono fun _ _ h => h.1) (.inl rfl) (b := 0) (by rw [DryCase.logs.2.2.1]; simp)

end Jom.Props
