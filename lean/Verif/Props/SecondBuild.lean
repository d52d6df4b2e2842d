/- C69: after a build that ended with exit code 0, everything is in order; a second run starts nothing. -/
import Verif.Proofs.MakeSplit
import Verif.Props.NullBuild

namespace Jom.Props

open Jom.Graph Jom.Sched Jom.UpToDate Jom.Spec.Build Jom.Make

/-- C69, first half. If the makefile is unambiguous and the commands do their work, then an exit code 0 means that every
wanted target is up to date with regard to the files as they are then. -/
theorem C69_exit_zero_means_up_to_date_partial {env : Env} {cfg : Cfg} {db : Db} {disk : Str → Option Nat}
    (hlookup : env.lookup = db.lookup) (hkey : ∀ r k, env.key r = some k → db.lookup r = some k) (hdir : env.dir = db.dir)
    (hall : cfg.buildAll = false) (hun : Unambiguous env.abs (fun n => disk (env.abs n)) db cfg.targets) {j : J}
    (hrun : Run env cfg (fun k => fresh (db.target k)) disk (Behaves env cfg db) j) (h0 : 0 ∈ j.s.exits) :
    InOrder (fun n => j.m.files.disk (env.abs n)) db cfg.targets :=
  (Run.inOrder ⟨hlookup, hdir, hall, hkey, hun⟩ (hrun.plain.mono fun _ _ h => h.1) h0).1

theorem Wanted.sub {db : Db} {rs rs' : List Nat} (h : ∀ r ∈ rs', Wanted db rs r) {t : Nat} (ht : Wanted db rs' t) :
    Wanted db rs t := by
  obtain ⟨r, hr, ht⟩ := ht
  obtain ⟨r', hr', h'⟩ := h r hr
  exact ⟨r', hr', h'.trans ht⟩

/-- C69. If the makefile is unambiguous, the commands do their work and jom ended with exit code 0, then a second run of
jom for these targets, or for some of the targets needed by them, starts no command, whatever the order of events, and
ends with exit code 0. -/
theorem C69_second_build_partial {env : Env} {cfg cfg' : Cfg} {db : Db} {disk : Str → Option Nat}
    (hlookup : env.lookup = db.lookup) (hkey : ∀ r k, env.key r = some k → db.lookup r = some k) (hdir : env.dir = db.dir)
    (hall : cfg.buildAll = false) (hun : Unambiguous env.abs (fun n => disk (env.abs n)) db cfg.targets) {j : J}
    (hrun : Run env cfg (fun k => fresh (db.target k)) disk (Behaves env cfg db) j) (h0 : 0 ∈ j.s.exits)
    (hall' : cfg'.buildAll = false) (hsub : ∀ r ∈ cfg'.targets, Wanted db cfg.targets r)
    (hfew : FewerThan db cfg'.targets cfg'.fuel) {j' : J}
    (hrun' : Run env cfg' (fun k => fresh (db.target k)) j.m.files.disk NobodyWrites j') :
    (∀ b t, Ev.started b t ∉ j'.s.log) ∧ (∀ b t, Ev.failed b t ∉ j'.s.log) ∧ Ev.exception ∉ j'.s.log ∧
    j'.m.files.disk = j.m.files.disk ∧ (∀ c ∈ j'.s.exits, c = 0) ∧ (0 < cfg'.jobs → j'.s.exits = [] → 0 < j'.s.queued) := by
  obtain ⟨hord, hreg⟩ := Run.inOrder ⟨hlookup, hdir, hall, hkey, hun⟩ (hrun.plain.mono fun _ _ h => h.1) h0
  have hord' : InOrder (fun n => j.m.files.disk (env.abs n)) db cfg'.targets := fun t ht => hord t (Wanted.sub hsub ht)
  have hreg' : Regular (fun n => j.m.files.disk (env.abs n)) db cfg'.targets :=
    ⟨fun t ht => hreg.spelling t (Wanted.sub hsub ht), hreg.times, fun t ht => hreg.sources t (Wanted.sub hsub ht),
      fun t ht => hreg.inferred t (Wanted.sub hsub ht)⟩
  have h := C68_null_build_partial hlookup hkey hdir hall' hreg' hord' hfew hrun'
  exact ⟨h.1, h.2.2.1, h.2.2.2.1, h.2.2.2.2.1, h.2.2.2.2.2.1, h.2.2.2.2.2.2⟩

/-! ### The makefile of C68, built from scratch: only `a.c` exists -/

namespace SecondCase

open NullCase (db env)

def disk : Str → Option Nat := fun n => if n = c!"a.c" then some 1 else none

def cfg : Cfg := { NullCase.cfg with deps := fun _ k => (db.target k).deps.map (resolve env { disk := disk, cache := [] }) }

def answers (now : Nat) : Answers := { NullCase.answers with now := now }

def j0 : J :=
  { s := Sched.init cfg
    m := buildAsked env [] { info := fun k => fresh (db.target k), files := { disk := disk, cache := [] } } }

/-- The next state. -/
def after (j : J) (e : Make.Event) : J := (Make.step env cfg j e).getD j

def j1 : J := after j0 (.startProcesses (answers 1))
def j2 : J := after j1 (.write c!"a.o" (some 5))
def j3 : J := after j2 (.childFinished 0 false)
def j4 : J := after j3 (.startProcesses (answers 5))
def j5 : J := after j4 (.write c!"app" (some 6))
def j6 : J := after j5 (.write c!"app.pdb" (some 6))
def j7 : J := after j6 (.childFinished 1 false)
def j8 : J := after j7 (.startProcesses (answers 9))

/-- `a.o` is made, then `app`, then there is nothing left to do. -/
example : j1.s.busy = [(0, 1)] ∧ j4.s.busy = [(1, 0)] ∧ j8.s.exits = [0] ∧
    j8.s.log = [.started 0 1, .succeeded 0 1, .started 0 0, .succeeded 0 0] := by decide +kernel

theorem disk1 : j1.m.files.disk = disk := rfl
theorem disk2 : j2.m.files.disk = fun x => if x = c!"a.o" then some 5 else disk x := rfl
theorem disk3 : j3.m.files.disk = j2.m.files.disk := rfl
theorem disk6 : j6.m.files.disk =
    fun x => if x = c!"app.pdb" then some 6 else if x = c!"app" then some 6 else if x = c!"a.o" then some 5 else disk x := rfl
theorem disk7 : j7.m.files.disk = j6.m.files.disk := rfl

theorem disk_le {x : Str} {s : Nat} (h : disk x = some s) : s = 1 := by
  unfold disk at h
  split at h
  · cases h; rfl
  · cases h

theorem wanted {t : Nat} (h : Wanted db cfg.targets t) : t = 0 ∨ t = 1 := NullCase.wanted h

theorem resolves {d : Str} {k : Nat} (h : Resolves db d k) : (d = c!"app" ∧ k = 0) ∨ (d = c!"a.o" ∧ k = 1) := by
  rcases h with h | ⟨_, h⟩
  · exact NullCase.lookup_inv h
  · rcases NullCase.lookup_inv h with h | h
    · exact absurd h.1 (by simp [db])
    · exact absurd h.1 (by simp [db])

theorem rules {t : Nat} {r : Str} (h : r ∈ (db.target t).rules) : t ≠ 0 ∧ r = c!"a.c" := by
  unfold db at h
  simp only at h
  split at h
  · simp at h
  · next ht => exact ⟨ht, by simpa using h⟩

theorem deps {t : Nat} {d : Str} (h : d ∈ (db.target t).deps) : t = 0 ∧ d = c!"a.o" := by
  unfold db at h
  simp only at h
  split at h
  · next ht => exact ⟨ht, by simpa using h⟩
  · simp at h

theorem unambiguous : Unambiguous env.abs (fun n => disk (env.abs n)) db cfg.targets where
  names := by
    intro t ht n hn k hk
    constructor
    · intro h
      rcases resolves h with ⟨rfl, rfl⟩ | ⟨rfl, rfl⟩ <;> rfl
    · intro h
      have h : n = (db.target k).name := h
      rcases wanted hk with rfl | rfl
      · exact .inl (by rw [h]; rfl)
      · exact .inl (by rw [h]; rfl)
  distinct := by
    intro k l hk hl
    rcases wanted hk with rfl | rfl <;> rcases wanted hl with rfl | rfl <;> simp [db, env]
  inferred := by
    intro t _ r hr k hk
    obtain ⟨_, rfl⟩ := rules hr
    rcases resolves hk with ⟨h, _⟩ | ⟨h, _⟩
    · exact absurd h (by decide)
    · exact absurd h (by decide)
  viaDir := by
    intro t _ n hn h
    obtain ⟨_, rfl⟩ := deps hn
    exact absurd h (by decide +kernel)
  acyclic := by
    intro t _ h
    have key : ∀ {a b : Nat}, Relation.TransGen (Needs db) a b → a = 0 ∧ b = 1 := by
      intro a b h
      induction h with
      | single h => exact NullCase.needs _ _ h
      | tail _ h ih => exact ⟨ih.1, (NullCase.needs _ _ h).2⟩
    obtain ⟨h1, h2⟩ := key h
    omega
  oneRule := by
    intro t _ r hr r' hr' _ _
    rw [(rules hr).2, (rules hr').2]
  filled := by
    intro t ht
    rcases wanted ht with rfl | rfl
    · exact .inl (by simp [db])
    · exact .inr (.inr (.inr ⟨c!"a.c", by simp [db], by decide +kernel⟩))
  times := by
    intro n s h
    rw [disk_le h]
    decide

theorem work3 : DidWork (fun n => j2.m.files.disk (env.abs n)) db 1 := by
  refine ⟨5, rfl, fun d hd s hs => ?_⟩
  have hd : d = c!"a.c" := by
    rcases hd with hd | ⟨hd, _⟩
    · exact absurd (deps hd).1 (by decide)
    · exact (rules hd).2
  subst hd
  rw [behind_of_file (show j2.m.files.disk (env.abs c!"a.c") = some 1 from rfl) hs]
  decide

theorem work7 : DidWork (fun n => j6.m.files.disk (env.abs n)) db 0 := by
  refine ⟨6, rfl, fun d hd s hs => ?_⟩
  have hd : d = c!"a.o" := by
    rcases hd with hd | ⟨hd, _⟩
    · exact (deps hd).2
    · exact absurd rfl (rules hd).1
  subst hd
  rw [behind_of_file (show j6.m.files.disk (env.abs c!"a.o") = some 5 from rfl) hs]
  decide

theorem mentioned {n : Str} (h : Mentioned db cfg.targets n) : n = c!"app" ∨ n = c!"a.o" ∨ n = c!"a.c" := by
  obtain ⟨t, ht, h | h | h⟩ := h
  · rcases wanted ht with rfl | rfl
    · exact .inl h
    · exact .inr (.inl h)
  · exact .inr (.inl (deps h).2)
  · exact .inr (.inr (rules h).2)

theorem next {j : J} {e : Make.Event} (h : Run env cfg (fun k => fresh (db.target k)) disk (Behaves env cfg db) j)
    (hok : Behaves env cfg db j e) (hs : (Make.step env cfg j e).isSome = true) (hb : (after j e).s.build = j.s.build) :
    Run env cfg (fun k => fresh (db.target k)) disk (Behaves env cfg db) (after j e) := by
  obtain ⟨x, hx⟩ := Option.isSome_iff_exists.1 hs
  have ha : after j e = x := by unfold after; rw [hx]; rfl
  rw [ha] at hb ⊢
  have := Run.step (e := e) (j' := x) [] h hok hx (fun hne => absurd hb hne) (fun n hn => by cases hn)
  rwa [if_neg (by simp [hb])] at this

theorem run8 : Run env cfg (fun k => fresh (db.target k)) disk (Behaves env cfg db) j8 := by
  have h0 : Run env cfg (fun k => fresh (db.target k)) disk (Behaves env cfg db) j0 :=
    Run.start [] (fun t => rfl) (fun n hn => by cases hn)
  have h1 : Run _ _ _ _ _ j1 := next h0 ⟨fun x s h => by rw [disk_le h]; exact Nat.le_refl 1, works_running⟩ (by decide +kernel) (by decide +kernel)
  have h2 : Run _ _ _ _ _ j2 := next h1 ⟨by decide, .inl ⟨1, by decide +kernel, rfl, by decide⟩⟩ (by decide +kernel) (by decide +kernel)
  have h3 : Run _ _ _ _ _ j3 := next h2 (fun _ t ht => by
    have hb : j2.s.busy = [(0, 1)] := by decide +kernel
    rw [hb] at ht
    have : t = 1 := by simpa using ht
    subst this
    exact work3) (by decide +kernel) (by decide +kernel)
  have h4 : Run _ _ _ _ _ j4 := next h3 ⟨fun x s h => by
    rw [disk3, disk2] at h
    simp only at h
    split at h
    · cases h; exact Nat.le_refl 5
    · rw [disk_le h]; show 1 ≤ 5; decide, works_running⟩ (by decide +kernel) (by decide +kernel)
  have h5 : Run _ _ _ _ _ j5 := next h4 ⟨by decide, .inl ⟨0, by decide +kernel, rfl, by decide⟩⟩ (by decide +kernel) (by decide +kernel)
  have h6 : Run _ _ _ _ _ j6 := next h5 ⟨by decide, .inr fun n hn => by
    rcases mentioned hn with rfl | rfl | rfl <;> decide⟩ (by decide +kernel) (by decide +kernel)
  have h7 : Run _ _ _ _ _ j7 := next h6 (fun _ t ht => by
    have hb : j6.s.busy = [(1, 0)] := by decide +kernel
    rw [hb] at ht
    have : t = 0 := by simpa using ht
    subst this
    exact work7) (by decide +kernel) (by decide +kernel)
  exact next h7 ⟨fun x s h => by
    show s ≤ 9
    rw [disk7, disk6] at h
    simp only at h
    split at h
    · cases h; decide
    · split at h
      · cases h; decide
      · split at h
        · cases h; decide
        · rw [disk_le h]; decide, works_running⟩ (by decide +kernel) (by decide +kernel)

/-- The second run. -/
def cfg' : Cfg := { NullCase.cfg with
  deps := fun _ k => (db.target k).deps.map (resolve env { disk := j8.m.files.disk, cache := [] }) }

/-- The theorem applies: every second run of jom after this one starts nothing. -/
example {j' : J} (h : Run env cfg' (fun k => fresh (db.target k)) j8.m.files.disk NobodyWrites j') :
    ∀ b t, Ev.started b t ∉ j'.s.log :=
  (C69_second_build_partial (cfg' := cfg') rfl (fun _ _ h => h) rfl rfl unambiguous run8 (by decide +kernel) rfl
    (fun r hr => ⟨r, hr, .refl⟩) NullCase.few h).1

/-- There is such a run. -/
example : Run env cfg' (fun k => fresh (db.target k)) j8.m.files.disk NobodyWrites
    { s := Sched.init cfg'
      m := buildAsked env [] { info := fun k => fresh (db.target k), files := { disk := j8.m.files.disk, cache := [] } } } :=
  Run.start [] (fun _ => rfl) (fun n hn => by cases hn)

end SecondCase

/-! ### `jom /A p x` for the makefile `p: x` (both with commands) -/

namespace BuildAll

def db : Db where
  lookup := fun n => if n = c!"p" then some 0 else if n = c!"x" then some 1 else none
  dir := c!"d"
  target := fun k =>
    if k = 0 then { name := c!"p", deps := [c!"x"], hasCmds := true, rules := [] }
    else { name := c!"x", deps := [], hasCmds := true, rules := [] }

def env : Env := { lookup := db.lookup, key := db.lookup, dir := db.dir, abs := id }

def cfg : Cfg :=
  { jobs := 2, keepGoing := false, buildAll := true, dumpGraph := false, targets := [0, 1],
    deps := fun _ k => (db.target k).deps.map (resolve env { disk := fun _ => none, cache := [] }), fuel := 5 }

def answers (now : Nat) : Answers := { NullCase.answers with now := now }

def j0 : J :=
  { s := Sched.init cfg
    m := buildAsked env [] { info := fun k => fresh (db.target k), files := { disk := fun _ => none, cache := [] } } }

def after (j : J) (e : Make.Event) : J := (Make.step env cfg j e).getD j

def j1 : J := after j0 (.startProcesses (answers 1))
def j2 : J := after j1 (.write c!"x" (some 5))
def j3 : J := after j2 (.childFinished 0 false)
def j4 : J := after j3 (.startProcesses (answers 5))
def j5 : J := after j4 (.write c!"p" (some 6))
def j6 : J := after j5 (.childFinished 1 false)
def j7 : J := after j6 (.startProcesses (answers 6))
def j8 : J := after j7 (.startProcesses (answers 6))
def j9 : J := after j8 (.write c!"x" (some 7))
def j10 : J := after j9 (.childFinished 0 false)
def j11 : J := after j10 (.startProcesses (answers 7))

theorem next {j : J} {e : Make.Event} (h : Run env cfg (fun k => fresh (db.target k)) (fun _ => none) (Behaves env cfg db) j)
    (hok : Behaves env cfg db j e) (hs : (Make.step env cfg j e).isSome = true)
    (hb : (after j e).s.build ≠ j.s.build → DepsNow env cfg (after j e).m (after j e).s.build) :
    ∃ asked, Run env cfg (fun k => fresh (db.target k)) (fun _ => none) (Behaves env cfg db)
      (if (after j e).s.build ≠ j.s.build then { after j e with m := buildAsked env asked (after j e).m } else after j e) ∧
      asked = [] := by
  obtain ⟨x, hx⟩ := Option.isSome_iff_exists.1 hs
  have ha : after j e = x := by unfold after; rw [hx]; rfl
  rw [ha] at hb ⊢
  exact ⟨[], Run.step (e := e) (j' := x) [] h hok hx hb (fun n hn => by cases hn), rfl⟩

theorem stay {j : J} {e : Make.Event} (h : Run env cfg (fun k => fresh (db.target k)) (fun _ => none) (Behaves env cfg db) j)
    (hok : Behaves env cfg db j e) (hs : (Make.step env cfg j e).isSome = true) (hb : (after j e).s.build = j.s.build) :
    Run env cfg (fun k => fresh (db.target k)) (fun _ => none) (Behaves env cfg db) (after j e) := by
  obtain ⟨asked, h', _⟩ := next h hok hs (fun hne => absurd hb hne)
  rwa [if_neg (by simp [hb])] at h'

theorem disk2 : j2.m.files.disk = fun n => if n = c!"x" then some 5 else none := rfl
theorem disk5 : j5.m.files.disk = fun n => if n = c!"p" then some 6 else if n = c!"x" then some 5 else none := rfl
theorem disk9 : j9.m.files.disk =
    fun n => if n = c!"x" then some 7 else if n = c!"p" then some 6 else if n = c!"x" then some 5 else none := rfl

theorem deps {t : Nat} {d : Str} (h : d ∈ (db.target t).deps) : t = 0 ∧ d = c!"x" := by
  unfold db at h
  simp only at h
  split at h
  · next ht => exact ⟨ht, by simpa using h⟩
  · simp at h

theorem noRules {t : Nat} {d : Str} (h : d ∈ (db.target t).rules) : False := by
  unfold db at h
  simp only at h
  split at h <;> simp at h

theorem workX {f : Files} {T : Nat} (h : f c!"x" = some T) : DidWork f db 1 := by
  refine ⟨T, h, fun d hd s hs => ?_⟩
  rcases hd with hd | ⟨hd, _⟩
  · exact absurd (deps hd).1 (by decide)
  · exact (noRules hd).elim

theorem workP : DidWork (fun n => j5.m.files.disk (env.abs n)) db 0 := by
  refine ⟨6, rfl, fun d hd s hs => ?_⟩
  rcases hd with hd | ⟨hd, _⟩
  · obtain ⟨_, rfl⟩ := deps hd
    rw [behind_of_file (show j5.m.files.disk (env.abs c!"x") = some 5 from rfl) hs]
    decide
  · exact (noRules hd).elim

theorem busy1 {j : J} {e t' : Nat} (hb : j.s.busy = [(e, t')]) {f : Files} (hw : DidWork f db t') :
    ∀ t, (e, t) ∈ j.s.busy → DidWork f db t := by
  intro t ht
  rw [hb] at ht
  have : t = t' := by simpa using ht
  rwa [this]

theorem run11 : Run env cfg (fun k => fresh (db.target k)) (fun _ => none) (Behaves env cfg db) j11 := by
  have h0 : Run env cfg (fun k => fresh (db.target k)) (fun _ => none) (Behaves env cfg db) j0 :=
    Run.start [] (fun t => rfl) (fun n hn => by cases hn)
  have c5 : ∀ x s, j5.m.files.disk x = some s → s ≤ 6 := by
    intro x s h
    rw [disk5] at h
    simp only at h
    split at h
    · cases h; decide
    · split at h <;> cases h; decide
  have h1 : Run _ _ _ _ _ j1 := stay h0 ⟨fun x s h => (by cases h), works_running⟩ (by decide +kernel) (by decide +kernel)
  have h2 : Run _ _ _ _ _ j2 := stay h1 ⟨by decide, .inl ⟨1, by decide +kernel, rfl, by decide⟩⟩ (by decide +kernel) (by decide +kernel)
  have h3 : Run _ _ _ _ _ j3 := stay h2 (fun _ => busy1 (by decide +kernel) (workX (T := 5) rfl)) (by decide +kernel) (by decide +kernel)
  have h4 : Run _ _ _ _ _ j4 := stay h3 ⟨fun x s h => by
    show s ≤ 5
    have h : j2.m.files.disk x = some s := h
    rw [disk2] at h
    simp only at h
    split at h <;> cases h
    decide, works_running⟩ (by decide +kernel) (by decide +kernel)
  have h5 : Run _ _ _ _ _ j5 := stay h4 ⟨by decide, .inl ⟨0, by decide +kernel, rfl, by decide⟩⟩ (by decide +kernel) (by decide +kernel)
  have h6 : Run _ _ _ _ _ j6 := stay h5 (fun _ => busy1 (by decide +kernel) workP) (by decide +kernel) (by decide +kernel)
  have h7 : Run env cfg (fun k => fresh (db.target k)) (fun _ => none) (Behaves env cfg db) j7 := by
    obtain ⟨asked, h7, ha⟩ := next h6 (e := .startProcesses (answers 6)) ⟨c5, works_running⟩ (by decide +kernel) (fun _ t => by
      rcases t with _ | t <;> rfl)
    rw [if_pos (by decide +kernel), ha] at h7
    exact h7
  have h8 : Run _ _ _ _ _ j8 := stay h7 ⟨c5, works_running⟩ (by decide +kernel) (by decide +kernel)
  have h9 : Run _ _ _ _ _ j9 := stay h8 ⟨by decide, .inl ⟨1, by decide +kernel, rfl, by decide⟩⟩ (by decide +kernel) (by decide +kernel)
  have h10 : Run _ _ _ _ _ j10 := stay h9 (fun _ => busy1 (by decide +kernel) (workX (T := 7) rfl)) (by decide +kernel) (by decide +kernel)
  exact stay h10 ⟨fun x s h => (by
    show s ≤ 7
    have h : j9.m.files.disk x = some s := h
    rw [disk9] at h
    simp only at h
    split at h
    · cases h; decide
    · split at h
      · cases h; decide
      · cases h), works_running⟩ (by decide +kernel) (by decide +kernel)

end BuildAll

/-- Without `buildAll = false` C69 is false: `jom /A p x` makes `x`, `p` and then `x` again, ends with exit code 0, and
leaves `p` older than `x`. -/
theorem C69_build_all_leaves_stale :
    Run BuildAll.env BuildAll.cfg (fun k => fresh (BuildAll.db.target k)) (fun _ => none)
      (Behaves BuildAll.env BuildAll.cfg BuildAll.db) BuildAll.j11 ∧ 0 ∈ BuildAll.j11.s.exits ∧
    ¬ InOrder (fun n => BuildAll.j11.m.files.disk (BuildAll.env.abs n)) BuildAll.db BuildAll.cfg.targets := by
  refine ⟨BuildAll.run11, by decide +kernel, fun h => ?_⟩
  obtain ⟨T, hT, h⟩ := h 0 ⟨0, by decide, .refl⟩ (.inl rfl)
  have hT : some 6 = some T := hT
  cases hT
  have := (h c!"x" (.inl (by decide +kernel))).2 7 (.file rfl)
  omega

/-! ### Two files from which a target can be inferred: `r: p q`, `p: x`, and `q` from `q.c` or `q.cpp` -/

namespace TwoSources

def db : Db where
  lookup := fun n => if n = c!"r" then some 0 else if n = c!"p" then some 1 else if n = c!"x" then some 2
    else if n = c!"q" then some 3 else none
  dir := c!"d"
  target := fun k =>
    if k = 0 then { name := c!"r", deps := [c!"p", c!"q"], hasCmds := true, rules := [] }
    else if k = 1 then { name := c!"p", deps := [c!"x"], hasCmds := true, rules := [] }
    else if k = 2 then { name := c!"x", deps := [], hasCmds := true, rules := [] }
    else { name := c!"q", deps := [], hasCmds := false, rules := [c!"q.c", c!"q.cpp"] }

/-- `q.cpp` has been changed since `q` was made. -/
def disk : Str → Option Nat := fun n =>
  if n = c!"r" then some 9 else if n = c!"p" then some 9 else if n = c!"q" then some 5
  else if n = c!"q.c" then some 3 else if n = c!"q.cpp" then some 9 else none

def env : Env := { lookup := db.lookup, key := db.lookup, dir := db.dir, abs := id }

/-- `jom /J jobs r`. -/
def cfg (jobs : Nat) : Cfg :=
  { jobs := jobs, keepGoing := false, buildAll := false, dumpGraph := false, targets := [0],
    deps := fun _ k => (db.target k).deps.map (resolve env { disk := disk, cache := [] }), fuel := 9 }

/-- The rule for `q.c` comes first in `.SUFFIXES`. -/
def answers : Answers := { NullCase.answers with choose := fun _ => c!"q.c" }

def j0 (jobs : Nat) : J :=
  { s := Sched.init (cfg jobs)
    m := buildAsked env [] { info := fun k => fresh (db.target k), files := { disk := disk, cache := [] } } }

def after (jobs : Nat) (j : J) (e : Make.Event) : J := (Make.step env (cfg jobs) j e).getD j

def j1 (jobs : Nat) : J := after jobs (j0 jobs) (.startProcesses answers)
def j2 : J := after 1 (j1 1) (.write c!"x" (some 9))
def j3 : J := after 1 j2 (.childFinished 0 false)
def j4 : J := after 1 j3 (.startProcesses answers)

/-- With two jobs `q` is taken while `x` is being made. -/
def k1 : J := after 2 (j1 2) (.startProcesses answers)
def k2 : J := after 2 k1 .grant
def k3 : J := after 2 k2 (.acquired (fun _ => true) .running [] false)

theorem start (jobs : Nat) : Run env (cfg jobs) (fun k => fresh (db.target k)) disk (Behaves env (cfg jobs) db) (j0 jobs) :=
  Run.start [] (fun _ => rfl) (fun n hn => by cases hn)

theorem stay {jobs : Nat} {j : J} {e : Make.Event}
    (h : Run env (cfg jobs) (fun k => fresh (db.target k)) disk (Behaves env (cfg jobs) db) j)
    (hok : Behaves env (cfg jobs) db j e) (hs : (Make.step env (cfg jobs) j e).isSome = true)
    (hb : (after jobs j e).s.build = j.s.build) :
    Run env (cfg jobs) (fun k => fresh (db.target k)) disk (Behaves env (cfg jobs) db) (after jobs j e) := by
  obtain ⟨x, hx⟩ := Option.isSome_iff_exists.1 hs
  have ha : after jobs j e = x := by unfold after; rw [hx]; rfl
  rw [ha] at hb ⊢
  have := Run.step (e := e) (j' := x) [] h hok hx (fun hne => absurd hb hne) (fun n hn => by cases hn)
  rwa [if_neg (by simp [hb])] at this

theorem disk_le {n : Str} {s : Nat} (h : disk n = some s) : s ≤ 9 := by
  unfold disk at h
  repeat (split at h; · cases h; decide)
  cases h

theorem disk2 : j2.m.files.disk = fun n => if n = c!"x" then some 9 else disk n := rfl

theorem run4 : Run env (cfg 1) (fun k => fresh (db.target k)) disk (Behaves env (cfg 1) db) j4 := by
  have h1 : Run _ _ _ _ _ (j1 1) := stay (start 1) ⟨fun x s h => disk_le h, works_running⟩ (by decide +kernel) (by decide +kernel)
  have h2 : Run _ _ _ _ _ j2 := stay h1 ⟨by decide, .inl ⟨2, by decide +kernel, rfl, by decide⟩⟩ (by decide +kernel) (by decide +kernel)
  have h3 : Run _ _ _ _ _ j3 := stay h2 (fun _ t ht => by
    have hb : j2.s.busy = [(0, 2)] := by decide +kernel
    rw [hb] at ht
    have : t = 2 := by simpa using ht
    subst this
    refine ⟨9, rfl, fun d hd s hs => ?_⟩
    rcases hd with hd | ⟨hd, _⟩
    · exact absurd (show d ∈ ([] : List Str) from hd) (by simp)
    · exact absurd (show d ∈ ([] : List Str) from hd) (by simp)) (by decide +kernel) (by decide +kernel)
  exact stay h3 ⟨fun x s h => by
    show s ≤ 9
    have h : j2.m.files.disk x = some s := h
    rw [disk2] at h
    simp only at h
    split at h
    · cases h; decide
    · exact disk_le h, works_running⟩ (by decide +kernel) (by decide +kernel)

theorem run3 : Run env (cfg 2) (fun k => fresh (db.target k)) disk (Behaves env (cfg 2) db) k3 := by
  have h1 : Run _ _ _ _ _ (j1 2) := stay (start 2) ⟨fun x s h => disk_le h, works_running⟩ (by decide +kernel) (by decide +kernel)
  have h1' : Run _ _ _ _ _ k1 := stay h1 ⟨fun x s h => disk_le h, works_running⟩ (by decide +kernel) (by decide +kernel)
  have h2 : Run _ _ _ _ _ k2 := stay h1' trivial (by decide +kernel) (by decide +kernel)
  exact stay h2 works_running (by decide +kernel) (by decide +kernel)

end TwoSources

/-- Without the condition that at most one of the files from which a target could be inferred exists, C69 is false.
`q` (time 5) can be made from `q.c` (time 3) and from `q.cpp` (time 9). `jom /J 1 r` finds `q` out of date because of
`q.cpp`, applies the rule for `q.c`, which has priority, and makes `x` first. After that `q` is looked at again, now only
with `q.c`, and is dropped as being up to date: jom ends with exit code 0, and `q` is older than `q.cpp`. -/
theorem C69_two_sources_leave_stale :
    Run TwoSources.env (TwoSources.cfg 1) (fun k => fresh (TwoSources.db.target k)) TwoSources.disk
      (Behaves TwoSources.env (TwoSources.cfg 1) TwoSources.db) TwoSources.j4 ∧ 0 ∈ TwoSources.j4.s.exits ∧
    (∀ b, Ev.started b 3 ∉ TwoSources.j4.s.log) ∧
    ¬ InOrder (fun n => TwoSources.j4.m.files.disk (TwoSources.env.abs n)) TwoSources.db (TwoSources.cfg 1).targets := by
  refine ⟨TwoSources.run4, by decide +kernel, fun b hb => ?_, fun h => ?_⟩
  · rw [show TwoSources.j4.s.log = [.started 0 2, .succeeded 0 2, .upToDate 0 3, .upToDate 0 1, .upToDate 0 0] by decide +kernel] at hb
    simp at hb
  · have hw : Wanted TwoSources.db (TwoSources.cfg 1).targets 3 :=
      ⟨0, by decide, .single ⟨c!"q", by decide +kernel, .inl (by decide +kernel)⟩⟩
    obtain ⟨T, hT, h⟩ := h 3 hw (.inr ⟨c!"q.cpp", by decide +kernel, 9, rfl⟩)
    have hT : some 5 = some T := hT
    cases hT
    have := (h c!"q.cpp" (.inr ⟨by decide +kernel, 9, rfl⟩)).2 9 (.file rfl)
    omega

/-- In the same situation, with the same makefile and files, `jom /J 2 r` makes `q`: what is made depends on the number
of jobs. -/
theorem C69_two_sources_jobs :
    Run TwoSources.env (TwoSources.cfg 2) (fun k => fresh (TwoSources.db.target k)) TwoSources.disk
      (Behaves TwoSources.env (TwoSources.cfg 2) TwoSources.db) TwoSources.k3 ∧ Ev.started 0 3 ∈ TwoSources.k3.s.log :=
  ⟨TwoSources.run3, by decide +kernel⟩

end Jom.Props
