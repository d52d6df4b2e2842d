/- C97: inference rules in batch mode. -/
import Verif.Proofs.MakeBatch
import Verif.Props.SecondBuild

namespace Jom.Props

open Jom.Graph Jom.Sched Jom.UpToDate Jom.Spec.Build Jom.Make

/-- C97. If fewer than one and a half times as many targets as jobs can be made by each rule in batch mode, then jom does with
batch mode exactly what it does without (option `/Y`). Everything that is proved about builds without batch mode holds. -/
theorem C97_same_runs_partial {env : Env} {cfg : Cfg} {rule : Nat → Str → Option Nat} {db : Db} {disk : Str → Option Nat}
    {ok : J → Make.Event → Prop} (hfew : FewPerRule rule cfg.jobs db) (j : J) :
    MakeBatch.Run env cfg rule (fun k => fresh (db.target k)) disk ok j ↔ Run env cfg (fun k => fresh (db.target k)) disk ok j :=
  have hf : MakeBatch.FewPerRule rule cfg.jobs (fun k => fresh (db.target k)) := hfew
  ⟨fun h => h.plain hf, fun h => MakeBatch.Run.batch hf h⟩

/-- C97. Under this condition an exit code 0 means that every wanted target is up to date (cf. C69). -/
theorem C97_exit_zero_partial {env : Env} {cfg : Cfg} {rule : Nat → Str → Option Nat} {db : Db} {disk : Str → Option Nat}
    (hfew : FewPerRule rule cfg.jobs db)
    (hlookup : env.lookup = db.lookup) (hkey : ∀ r k, env.key r = some k → db.lookup r = some k) (hdir : env.dir = db.dir)
    (hall : cfg.buildAll = false) (hun : Unambiguous env.abs (fun n => disk (env.abs n)) db cfg.targets) {j : J}
    (hrun : MakeBatch.Run env cfg rule (fun k => fresh (db.target k)) disk (Behaves env cfg db) j) (h0 : 0 ∈ j.s.exits) :
    InOrder (fun n => j.m.files.disk (env.abs n)) db cfg.targets :=
  C69_exit_zero_means_up_to_date_partial hlookup hkey hdir hall hun ((C97_same_runs_partial hfew j).1 hrun) h0

/-- C97. A build of something that is up to date does nothing with rules in batch mode either, however many targets they have
(cf. C68). -/
theorem C97_null_build_partial {env : Env} {cfg : Cfg} {rule : Nat → Str → Option Nat} {db : Db} {disk : Str → Option Nat}
    (hlookup : env.lookup = db.lookup) (hkey : ∀ r k, env.key r = some k → db.lookup r = some k) (hdir : env.dir = db.dir) (hall : cfg.buildAll = false)
    (hreg : Regular (fun n => disk (env.abs n)) db cfg.targets) (hord : InOrder (fun n => disk (env.abs n)) db cfg.targets)
    (hfew : FewerThan db cfg.targets cfg.fuel) {j : J}
    (hrun : MakeBatch.Run env cfg rule (fun k => fresh (db.target k)) disk NobodyWrites j) :
    (∀ b t, Ev.started b t ∉ j.s.log) ∧ j.s.busy = [] ∧ (∀ b t, Ev.failed b t ∉ j.s.log) ∧ Ev.exception ∉ j.s.log ∧
    j.m.files.disk = disk ∧ (∀ c ∈ j.s.exits, c = 0) ∧ (0 < cfg.jobs → j.s.exits = [] → 0 < j.s.queued) := by
  have ha : Assum env cfg db disk := by
    refine ⟨hlookup, hdir, hall, hkey, hreg.spelling, fun n => hreg.times n, ?_, hreg.sources, hord, hfew⟩
    intro t ht d hd s hs k hk
    exact hreg.inferred t ht d hd (by simp only [hs]; simp) k hk
  exact C68_null_build_partial hlookup hkey hdir hall hreg hord hfew (MakeBatch.Run.calm ha hrun)

/-! ### `all: a.o tool`, `tool: b.o`, and a rule `.c.o::` -/

namespace BatchCase

def db : Db where
  lookup := fun n => if n = c!"all" then some 0 else if n = c!"tool" then some 1
    else if n = c!"a.o" then some 2 else if n = c!"b.o" then some 3 else none
  dir := c!"d"
  target := fun k =>
    if k = 0 then { name := c!"all", deps := [c!"a.o", c!"tool"], hasCmds := false, rules := [] }
    else if k = 1 then { name := c!"tool", deps := [c!"b.o"], hasCmds := true, rules := [] }
    else if k = 2 then { name := c!"a.o", deps := [], hasCmds := false, rules := [c!"a.c"] }
    else if k = 3 then { name := c!"b.o", deps := [], hasCmds := false, rules := [c!"b.c"] }
    else { name := [], deps := [], hasCmds := false, rules := [] }

def env : Env := { lookup := db.lookup, key := db.lookup, dir := db.dir, abs := id }

/-- Both sources have been changed. -/
def disk : Str → Option Nat := fun n =>
  if n = c!"tool" then some 3 else if n = c!"a.o" ∨ n = c!"b.o" then some 2
  else if n = c!"a.c" ∨ n = c!"b.c" then some 4 else none

def cfg (jobs : Nat) : Cfg :=
  { jobs := jobs, keepGoing := false, buildAll := false, dumpGraph := false, targets := [0],
    deps := fun _ k => (db.target k).deps.map (resolve env { disk := disk, cache := [] }), fuel := 9 }

def rule : Nat → Str → Option Nat := fun _ _ => some 0

def answers (now : Nat) : Answers :=
  { now := now, asked := fun _ => true, choose := fun _ => [], throws := fun _ => false, res := .running, writes := [] }

def j0 : J :=
  { s := Sched.init (cfg 1)
    m := buildAsked env [] { info := fun k => fresh (db.target k), files := { disk := disk, cache := [] } } }

/-- The next state. -/
def after (j : J) (e : Make.Event) : J := (MakeBatch.step env (cfg 1) rule j e).getD j

def j1 : J := after j0 (.startProcesses (answers 4))
def j2 : J := after j1 (.write c!"a.o" (some 5))
def j3 : J := after j2 (.write c!"b.o" (some 5))
def j4 : J := after j3 (.childFinished 0 false)
def j5 : J := after j4 (.startProcesses (answers 5))

/-- One command makes both object files; `tool` is then taken for up to date. -/
example : (j1.m.info 2).deps = [c!"a.c", c!"b.c"] ∧ j1.s.busy = [(0, 2)] ∧ j5.s.exits = [0] ∧
    j5.s.log = [.started 0 2, .succeeded 0 2, .noCommands 0 3, .upToDate 0 1, .noCommands 0 0] := by decide +kernel

theorem lookup_inv {d : Str} {k : Nat} (h : db.lookup d = some k) :
    (d = c!"all" ∧ k = 0) ∨ (d = c!"tool" ∧ k = 1) ∨ (d = c!"a.o" ∧ k = 2) ∨ (d = c!"b.o" ∧ k = 3) := by
  unfold db at h
  simp only at h
  split at h
  · next hd => cases h; exact .inl ⟨hd, rfl⟩
  · split at h
    · next hd => cases h; exact .inr (.inl ⟨hd, rfl⟩)
    · split at h
      · next hd => cases h; exact .inr (.inr (.inl ⟨hd, rfl⟩))
      · split at h
        · next hd => cases h; exact .inr (.inr (.inr ⟨hd, rfl⟩))
        · cases h

theorem resolves {d : Str} {k : Nat} (h : Resolves db d k) :
    (d = c!"all" ∧ k = 0) ∨ (d = c!"tool" ∧ k = 1) ∨ (d = c!"a.o" ∧ k = 2) ∨ (d = c!"b.o" ∧ k = 3) := by
  rcases h with h | ⟨_, h⟩
  · exact lookup_inv h
  · rcases lookup_inv h with h | h | h | h <;> exact absurd h.1 (by simp [db])

theorem rules {t : Nat} {r : Str} (h : r ∈ (db.target t).rules) : (t = 2 ∧ r = c!"a.c") ∨ (t = 3 ∧ r = c!"b.c") := by
  unfold db at h
  simp only at h
  split at h
  · simp at h
  · split at h
    · simp at h
    · split at h
      · next ht => exact .inl ⟨ht, by simpa using h⟩
      · split at h
        · next ht => exact .inr ⟨ht, by simpa using h⟩
        · simp at h

theorem deps {t : Nat} {d : Str} (h : d ∈ (db.target t).deps) :
    (t = 0 ∧ (d = c!"a.o" ∨ d = c!"tool")) ∨ (t = 1 ∧ d = c!"b.o") := by
  unfold db at h
  simp only at h
  split at h
  · next ht => exact .inl ⟨ht, by simpa using h⟩
  · split at h
    · next ht => exact .inr ⟨ht, by simpa using h⟩
    · split at h
      · simp at h
      · split at h <;> simp at h

theorem needs {t k : Nat} (h : Needs db t k) : t < k ∧ k < 4 ∧ t < 2 := by
  obtain ⟨d, hd, h⟩ := h
  have hr := resolves h
  rcases deps hd with ⟨rfl, rfl | rfl⟩ | ⟨rfl, rfl⟩ <;> rcases hr with h | h | h | h <;>
    first
    | exact absurd h.1 (by decide)
    | (obtain ⟨_, rfl⟩ := h; decide)

theorem wanted {t : Nat} (h : Wanted db [0] t) : t = 0 ∨ t = 1 ∨ t = 2 ∨ t = 3 := by
  obtain ⟨r, hr, h⟩ := h
  have hr : r = 0 := by simpa using hr
  subst hr
  cases h with
  | refl => exact .inl rfl
  | tail _ h => have := needs h; omega

theorem disk_le {x : Str} {s : Nat} (h : disk x = some s) : s ≠ 0 ∧ s ≤ 4 := by
  unfold disk at h
  split at h
  · cases h; decide
  · split at h
    · cases h; decide
    · split at h
      · cases h; decide
      · cases h

theorem unambiguous : Unambiguous env.abs (fun n => disk (env.abs n)) db [0] where
  names := by
    intro t ht n hn k hk
    constructor
    · intro h
      rcases resolves h with ⟨rfl, rfl⟩ | ⟨rfl, rfl⟩ | ⟨rfl, rfl⟩ | ⟨rfl, rfl⟩ <;> rfl
    · intro h
      have h : n = (db.target k).name := h
      rcases wanted hk with rfl | rfl | rfl | rfl <;> exact .inl (by rw [h]; rfl)
  distinct := by
    intro k l hk hl
    rcases wanted hk with rfl | rfl | rfl | rfl <;> rcases wanted hl with rfl | rfl | rfl | rfl <;> simp [db, env]
  inferred := by
    intro t _ r hr k hk
    rcases rules hr with ⟨_, rfl⟩ | ⟨_, rfl⟩ <;> rcases resolves hk with h | h | h | h <;> exact absurd h.1 (by decide)
  viaDir := by
    intro t _ n hn h
    rcases deps hn with ⟨_, rfl | rfl⟩ | ⟨_, rfl⟩ <;> exact absurd h (by decide +kernel)
  acyclic := by
    intro t _ h
    have key : ∀ {a b : Nat}, Relation.TransGen (Needs db) a b → a < b := by
      intro a b h
      induction h with
      | single h => exact (needs h).1
      | tail _ h ih => exact Nat.lt_trans ih (needs h).1
    exact Nat.lt_irrefl t (key h)
  oneRule := by
    intro t _ r hr r' hr' _ _
    rcases rules hr with ⟨rfl, rfl⟩ | ⟨rfl, rfl⟩ <;> rcases rules hr' with ⟨h, rfl⟩ | ⟨h, rfl⟩ <;>
      first | rfl | exact absurd h (by decide)
  filled := by
    intro t ht
    rcases wanted ht with rfl | rfl | rfl | rfl
    · exact .inl (by simp [db])
    · exact .inl (by simp [db])
    · exact .inr (.inr (.inr ⟨c!"a.c", by simp [db], by decide +kernel⟩))
    · exact .inr (.inr (.inr ⟨c!"b.c", by simp [db], by decide +kernel⟩))
  times := fun n s h => (disk_le h).1

/-- With two jobs the makefile meets the condition: two targets have the rule. -/
theorem few : FewPerRule rule 2 db := by
  intro k ts hn h
  have hsub : ts ⊆ [2, 3] := by
    intro t ht
    obtain ⟨r, hr, _⟩ := h t ht
    rcases rules hr with ⟨rfl, _⟩ | ⟨rfl, _⟩ <;> simp
  have := List.Nodup.length_le_of_subset hn hsub
  simp at this
  omega

example {disk' : Str → Option Nat} {ok : J → Make.Event → Prop} (j : J) :
    MakeBatch.Run env (cfg 2) rule (fun k => fresh (db.target k)) disk' ok j ↔ Run env (cfg 2) (fun k => fresh (db.target k)) disk' ok j :=
  C97_same_runs_partial few j

theorem next {j : J} {e : Make.Event}
    (h : MakeBatch.Run env (cfg 1) rule (fun k => fresh (db.target k)) disk (BatchBehaves env (cfg 1) db) j)
    (hok : BatchBehaves env (cfg 1) db j e) (hs : (MakeBatch.step env (cfg 1) rule j e).isSome = true)
    (hb : (after j e).s.build = j.s.build) :
    MakeBatch.Run env (cfg 1) rule (fun k => fresh (db.target k)) disk (BatchBehaves env (cfg 1) db) (after j e) := by
  obtain ⟨x, hx⟩ := Option.isSome_iff_exists.1 hs
  have ha : after j e = x := by unfold after; rw [hx]; rfl
  rw [ha] at hb ⊢
  have := MakeBatch.Run.step (e := e) (j' := x) [] h hok hx (fun hne => absurd hb hne) (fun n hn => by cases hn)
  rwa [if_neg (by simp [hb])] at this

theorem disk3 : j3.m.files.disk = fun x => if x = c!"b.o" then some 5 else if x = c!"a.o" then some 5 else disk x := rfl

theorem disk3_le {x : Str} {s : Nat} (h : j3.m.files.disk x = some s) : s ≤ 5 := by
  rw [disk3] at h
  simp only at h
  split at h
  · cases h; decide
  · split at h
    · cases h; decide
    · have := (disk_le h).2; omega

/-- The command has done its work for `a.o` and `b.o`. -/
theorem work {t : Nat} (ht : t = 2 ∨ t = 3) : DidWork (fun n => j3.m.files.disk (env.abs n)) db t := by
  refine ⟨5, by rcases ht with rfl | rfl <;> rfl, fun d hd s hs => ?_⟩
  obtain ⟨e, he⟩ := behind_file hs
  exact disk3_le he

theorem made {x : Nat} (hx : Wanted db [0] x) (h : MadeWith db j3 2 x) : x = 2 ∨ x = 3 := by
  rcases h with rfl | ⟨d, _, hd⟩
  · exact .inl rfl
  · rcases rules hd with ⟨h, _⟩ | ⟨h, _⟩
    · exact .inl h
    · exact .inr h

theorem run5 : MakeBatch.Run env (cfg 1) rule (fun k => fresh (db.target k)) disk (BatchBehaves env (cfg 1) db) j5 := by
  have h0 : MakeBatch.Run env (cfg 1) rule (fun k => fresh (db.target k)) disk (BatchBehaves env (cfg 1) db) j0 :=
    .start [] (fun t => rfl) (fun n hn => by cases hn)
  have hres : (answers 0).res ≠ .sync false := by decide
  have h1 : MakeBatch.Run _ _ _ _ _ _ j1 := next h0 ⟨fun x s h => (disk_le h).2, hres⟩ (by decide +kernel) (by decide +kernel)
  have h2 : MakeBatch.Run _ _ _ _ _ _ j2 := next h1
    ⟨[2], fun x hx => ⟨(0, 2), by decide +kernel, .inl (by simpa using hx)⟩, by decide, .inl ⟨2, by simp, rfl, by decide⟩⟩
    (by decide +kernel) (by decide +kernel)
  have h3 : MakeBatch.Run _ _ _ _ _ _ j3 := next h2
    ⟨[3], fun x hx => ⟨(0, 2), by decide +kernel, .inr ⟨c!"b.c", by decide +kernel, by
      obtain rfl : x = 3 := by simpa using hx
      decide +kernel⟩⟩, by decide, .inl ⟨3, by simp, rfl, by decide⟩⟩
    (by decide +kernel) (by decide +kernel)
  have h4 : MakeBatch.Run _ _ _ _ _ _ j4 := next h3 (fun _ t ht x hw hx => by
    have hb : j3.s.busy = [(0, 2)] := by decide +kernel
    rw [hb] at ht
    obtain rfl : t = 2 := by simpa using ht
    exact work (made hw hx)) (by decide +kernel) (by decide +kernel)
  exact next h4 ⟨fun x s h => disk3_le h, hres⟩ (by decide +kernel) (by decide +kernel)

/-! #### With two jobs everything is up to date in the end, and the next build does nothing -/

def start2 (d : Str → Option Nat) : J :=
  { s := Sched.init (cfg 2)
    m := buildAsked env [] { info := fun k => fresh (db.target k), files := { disk := d, cache := [] } } }

def after2 (j : J) (e : Make.Event) : J := (MakeBatch.step env (cfg 2) rule j e).getD j

theorem next2 {d : Str → Option Nat} {ok : J → Make.Event → Prop} {j : J} {e : Make.Event}
    (h : MakeBatch.Run env (cfg 2) rule (fun k => fresh (db.target k)) d ok j)
    (hok : ok j e) (hs : (MakeBatch.step env (cfg 2) rule j e).isSome = true) (hb : (after2 j e).s.build = j.s.build) :
    MakeBatch.Run env (cfg 2) rule (fun k => fresh (db.target k)) d ok (after2 j e) := by
  obtain ⟨x, hx⟩ := Option.isSome_iff_exists.1 hs
  have ha : after2 j e = x := by unfold after2; rw [hx]; rfl
  rw [ha] at hb ⊢
  have := MakeBatch.Run.step (e := e) (j' := x) [] h hok hx (fun hne => absurd hb hne) (fun n hn => by cases hn)
  rwa [if_neg (by simp [hb])] at this

def k1 : J := after2 (start2 disk) (.startProcesses (answers 4))
def k2 : J := after2 k1 (.write c!"a.o" (some 5))
def k3 : J := after2 k2 (.childFinished 0 false)
def k4 : J := after2 k3 (.startProcesses (answers 5))
def k5 : J := after2 k4 (.write c!"b.o" (some 6))
def k6 : J := after2 k5 (.childFinished 1 false)
def k7 : J := after2 k6 (.startProcesses (answers 6))
def k8 : J := after2 k7 (.write c!"tool" (some 7))
def k9 : J := after2 k8 (.childFinished 0 false)
def k10 : J := after2 k9 (.startProcesses (answers 7))

theorem logs2 : k10.s.log = [.started 0 2, .succeeded 0 2, .started 0 3, .succeeded 0 3, .started 0 1, .succeeded 0 1, .noCommands 0 0] ∧
    k10.s.exits = [0] := by decide +kernel

/-- The files after this build. -/
def disk2 : Str → Option Nat := fun x => if x = c!"tool" then some 7 else if x = c!"b.o" then some 6 else if x = c!"a.o" then some 5 else disk x

theorem disk2_le {x : Str} {s : Nat} (h : disk2 x = some s) : s ≠ 0 ∧ s ≤ 7 := by
  unfold disk2 at h
  split at h
  · cases h; decide
  · split at h
    · cases h; decide
    · split at h
      · cases h; decide
      · have := disk_le h; omega

theorem k10_disk : k10.m.files.disk = disk2 := rfl

theorem upTo {t now : Nat} {d : Str → Option Nat} (h : d (db.target t).name = some now) (hle : ∀ x s, d x = some s → s ≤ now) :
    DidWork (fun n => d (env.abs n)) db t := by
  refine ⟨now, h, fun x hx s hs => ?_⟩
  obtain ⟨e, he⟩ := behind_file hs
  exact hle _ _ he

theorem le5 {x : Str} {s : Nat} (h : k2.m.files.disk x = some s) : s ≤ 5 := by
  have e : k2.m.files.disk = fun x => if x = c!"a.o" then some 5 else disk x := rfl
  rw [e] at h
  simp only at h
  split at h
  · cases h; decide
  · have := disk_le h; omega

theorem le6 {x : Str} {s : Nat} (h : k5.m.files.disk x = some s) : s ≤ 6 := by
  have e : k5.m.files.disk = fun x => if x = c!"b.o" then some 6 else k2.m.files.disk x := rfl
  rw [e] at h
  simp only at h
  split at h
  · cases h; decide
  · have := le5 h; omega

theorem single {j : J} {e t' : Nat} {Q : Nat → Prop} (hb : j.s.busy = [(e, t')]) (hw : Q t') : ∀ t, (e, t) ∈ j.s.busy → Q t := by
  intro t ht
  rw [hb] at ht
  obtain rfl : t = t' := by simpa using ht
  exact hw

theorem run10 : MakeBatch.Run env (cfg 2) rule (fun k => fresh (db.target k)) disk (Behaves env (cfg 2) db) k10 := by
  have h0 : MakeBatch.Run env (cfg 2) rule (fun k => fresh (db.target k)) disk (Behaves env (cfg 2) db) (start2 disk) :=
    .start [] (fun t => rfl) (fun n hn => by cases hn)
  have h1 : MakeBatch.Run _ _ _ _ _ _ k1 := next2 h0 ⟨fun x s h => (disk_le h).2, works_running⟩ (by decide +kernel) (by decide +kernel)
  have h2 : MakeBatch.Run _ _ _ _ _ _ k2 := next2 h1 ⟨by decide, .inl ⟨2, by decide +kernel, rfl, by decide⟩⟩ (by decide +kernel) (by decide +kernel)
  have h3 : MakeBatch.Run _ _ _ _ _ _ k3 := next2 h2 (fun _ => single (t' := 2) (by decide +kernel) (upTo (by decide +kernel) fun _ _ => le5))
    (by decide +kernel) (by decide +kernel)
  have h4 : MakeBatch.Run _ _ _ _ _ _ k4 := next2 h3 ⟨fun x s h => le5 h, works_running⟩ (by decide +kernel) (by decide +kernel)
  have h5 : MakeBatch.Run _ _ _ _ _ _ k5 := next2 h4 ⟨by decide, .inl ⟨3, by decide +kernel, rfl, by decide⟩⟩ (by decide +kernel) (by decide +kernel)
  have h6 : MakeBatch.Run _ _ _ _ _ _ k6 := next2 h5 (fun _ => single (t' := 3) (by decide +kernel) (upTo (by decide +kernel) fun _ _ => le6))
    (by decide +kernel) (by decide +kernel)
  have h7 : MakeBatch.Run _ _ _ _ _ _ k7 := next2 h6 ⟨fun x s h => le6 h, works_running⟩ (by decide +kernel) (by decide +kernel)
  have h8 : MakeBatch.Run _ _ _ _ _ _ k8 := next2 h7 ⟨by decide, .inl ⟨1, by decide +kernel, rfl, by decide⟩⟩ (by decide +kernel) (by decide +kernel)
  have h9 : MakeBatch.Run _ _ _ _ _ _ k9 := next2 h8 (fun _ => single (t' := 1) (by decide +kernel)
      (upTo (by decide +kernel) fun x s h => (disk2_le (show disk2 x = some s from h)).2))
    (by decide +kernel) (by decide +kernel)
  exact next2 h9 ⟨fun x s h => (disk2_le (show disk2 x = some s from h)).2, works_running⟩ (by decide +kernel) (by decide +kernel)

theorem inOrder : InOrder (fun n => disk2 (env.abs n)) db [0] :=
  C97_exit_zero_partial (cfg := cfg 2) few rfl (fun _ _ h => h) rfl rfl unambiguous run10 (by rw [logs2.2]; simp)

/-- The next build starts nothing. -/
example {j : J} (h : MakeBatch.Run env (cfg 2) rule (fun k => fresh (db.target k)) disk2 NobodyWrites j) : ∀ b t, Ev.started b t ∉ j.s.log := by
  refine (C97_null_build_partial (cfg := cfg 2) rfl (fun _ _ h => h) rfl rfl ⟨?_, fun d s h => (disk2_le h).1, ?_, ?_⟩ inOrder ⟨[0, 1, 2, 3], by decide, ?_, by decide⟩ h).1
  · intro t _ d hd k hk
    rcases lookup_inv hk with ⟨rfl, rfl⟩ | ⟨rfl, rfl⟩ | ⟨rfl, rfl⟩ | ⟨rfl, rfl⟩ <;> rfl
  · intro t _ d hd h
    rcases deps hd with ⟨_, rfl | rfl⟩ | ⟨_, rfl⟩ <;> exact absurd h (by decide +kernel)
  · intro t _ d hd _ k hk
    rcases rules hd with ⟨_, rfl⟩ | ⟨_, rfl⟩ <;> rcases lookup_inv hk with h | h | h | h <;> exact absurd h.1 (by decide)
  · intro x _ k hk
    have := needs hk
    simp; omega

end BatchCase

/-- Without the condition C97 is false, already with one job: the makefile is unambiguous and all commands do their work, but jom
ends with exit code 0 although `tool` is older than `b.o`, which has just been made. jom notes the end of the command only for the
first target of the group; for `b.o` it still has the time of the old file. -/
theorem C97_stale_refuted :
    Unambiguous BatchCase.env.abs (fun n => BatchCase.disk (BatchCase.env.abs n)) BatchCase.db (BatchCase.cfg 1).targets ∧
    MakeBatch.Run BatchCase.env (BatchCase.cfg 1) BatchCase.rule (fun k => fresh (BatchCase.db.target k)) BatchCase.disk
      (BatchBehaves BatchCase.env (BatchCase.cfg 1) BatchCase.db) BatchCase.j5 ∧ 0 ∈ BatchCase.j5.s.exits ∧
    ¬ InOrder (fun n => BatchCase.j5.m.files.disk (BatchCase.env.abs n)) BatchCase.db (BatchCase.cfg 1).targets := by
  refine ⟨BatchCase.unambiguous, BatchCase.run5, by decide +kernel, fun h => ?_⟩
  have hw : Wanted BatchCase.db (BatchCase.cfg 1).targets 1 :=
    ⟨0, by decide, .single ⟨c!"tool", by decide +kernel, .inl (by decide +kernel)⟩⟩
  obtain ⟨T, hT, h⟩ := h 1 hw (.inl rfl)
  have hT : some 3 = some T := hT
  cases hT
  have := (h c!"b.o" (.inl (by decide +kernel))).2 5 (.file rfl)
  omega

end Jom.Props
