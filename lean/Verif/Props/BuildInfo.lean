/- Property C103: what `/D` prints. -/
import Verif.Proofs.BuildInfo
import Verif.Props.SecondBuild
import Verif.Props.KeepGoing
import Verif.Props.Scheduler
import Verif.Props.Options

namespace Jom.Props

open Jom.Graph Jom.Make Jom.Sched Jom.UpToDate Jom.Spec Jom.Spec.Build Jom.Spec.BuildInfo Relation

/-! ### The lines -/

/-- C103: without `/A` the lines are exactly what happens, in the same order: a blank for each target that is found up to date, a star for each
target that is chosen because it is not. -/
theorem C103_lines {env : Env} {cfg : Sched.Cfg} {info : Nat → TInfo} {disk : Str → Option Nat} {ok : J → Make.Event → Prop} (hall : cfg.buildAll = false)
    {j : J} {lines : List Line} (h : Prints env cfg info disk ok j lines) :
    lines.map (fun l => (l.upToDate, l.target)) = verdicts j.s.log j.s.next := by
  have := h.lines (f := id) (.inl hall)
  rw [List.map_id] at this
  exact this

/-- C103: with or without `/A` there is one line for each target, in the order in which they are dealt with. -/
theorem C103_targets {env : Env} {cfg : Sched.Cfg} {info : Nat → TInfo} {disk : Str → Option Nat} {ok : J → Make.Event → Prop}
    {j : J} {lines : List Line} (h : Prints env cfg info disk ok j lines) :
    lines.map (·.target) = (verdicts j.s.log j.s.next).map (·.2) :=
  h.lines (f := (·.2)) (.inr fun _ _ => rfl)

/-- C103: each run of jom can be watched with `/D`. -/
theorem C103_runs {env : Env} {cfg : Sched.Cfg} {info : Nat → TInfo} {disk : Str → Option Nat} {ok : J → Make.Event → Prop}
    {j : J} : Run env cfg info disk ok j ↔ ∃ lines, Prints env cfg info disk ok j lines := by
  constructor
  · intro h
    induction h with
    | start asked h1 h2 => exact ⟨_, .start asked h1 h2⟩
    | step asked _ hok hs hd ha ih =>
      obtain ⟨lines, ih⟩ := ih
      exact ⟨_, .step asked ih hok hs hd ha⟩
  · rintro ⟨_, h⟩
    exact h.toRun

/-- C103: when jom ends with exit code 0 (and the dependencies have no cycle), every target that is needed has a line. -/
theorem C103_all_shown {env : Env} {cfg : Sched.Cfg} {info : Nat → TInfo} {disk : Str → Option Nat} {ok : J → Make.Event → Prop}
    {j : J} {lines : List Line} (h : Prints env cfg info disk ok j lines) (hac : AcTo cfg j.s.build) (h0 : 0 ∈ j.s.exits)
    {b r x : Nat} (hr : cfg.targets[b]? = some r) (hx : Reaches (cfg.deps b) r x) : ∃ l ∈ lines, l.target = x := by
  have hi := h.toRun.reachable
  have hv : ∀ e v, e ∈ j.s.log → verdict e = some (v, x) → ∃ l ∈ lines, l.target = x := by
    intro e v he hv
    have : x ∈ lines.map (·.target) := by
      rw [C103_targets h]
      refine List.mem_map.2 ⟨(v, x), ?_, rfl⟩
      exact List.mem_append_left _ (List.mem_filterMap.2 ⟨e, he, hv⟩)
    obtain ⟨l, hl, rfl⟩ := List.mem_map.1 this
    exact ⟨l, hl, rfl⟩
  rcases (C37_exit_zero cfg j.s hi hac h0).2.2 b r x hr hx with h1 | h1 | h1
  · exact hv _ _ (hi.inv.lg.ran b x (.inl h1)) rfl
  · exact hv _ _ h1 rfl
  · exact hv _ _ h1 rfl

/-! ### The times -/

/-- C103: for an unambiguous makefile (see C69) a blank is printed only for targets that are up to date, with the time of the file; a star is
printed with time 0 if the file exists. With `/K`: unless the target has failed or needs a target that has failed. -/
theorem C103_time_partial {env : Env} {cfg : Sched.Cfg} {db : Db} {disk : Str → Option Nat}
    (hlookup : env.lookup = db.lookup) (hkey : ∀ r k, env.key r = some k → db.lookup r = some k) (hdir : env.dir = db.dir)
    (hall : cfg.buildAll = false) (hun : Unambiguous env.abs (fun n => disk (env.abs n)) db cfg.targets) {j : J}
    (hrun : Run env cfg (fun k => fresh (db.target k)) disk (Behaves env cfg db) j) {e : Make.Event} (he : Behaves env cfg db j e)
    {l : Line} (hl : l ∈ printed env cfg j e)
    (hok : cfg.keepGoing = false ∨ ∀ y, Relation.ReflTransGen (Spec.Build.Needs db) l.target y → ∀ b, Ev.failed b y ∉ j.s.log) :
    (l.upToDate = true → UpToDate (fun n => j.m.files.disk (env.abs n)) db l.target ∧
      j.m.files.disk (env.abs (db.target l.target).name) = some l.time) ∧
    (l.upToDate = false → j.m.files.disk (env.abs (db.target l.target).name) ≠ none → l.time = 0) := by
  have p : Plan env cfg db disk := ⟨hlookup, hdir, hall, hkey, hun⟩
  obtain ⟨hab, hd⟩ := printed_alive hl
  have hok : ∀ y, Relation.ReflTransGen (Spec.Build.Needs db) l.target y → ∀ b, Ev.failed b y ∉ j.s.log := by
    rcases hok with hk | h
    · intro y _ b hz
      have := hrun.reachable.inv.lg.failAb hk b y hz
      rw [hab] at this
      cases this
    · exact h
  have hp := Run.fine (H := fun x => ¬ ∀ y, Relation.ReflTransGen (Spec.Build.Needs db) x y → ∀ b, Ev.failed b y ∉ j.s.log) p sure_none
    (fun q k hn hk hq => hk fun y hy => hq y (.head hn hy)) (hrun.plain.mono fun _ _ h => ⟨h.1, .inr h.2⟩) hab hd
    fun b t ht => .inl fun hu => hu t .refl b ht
  exact hp.printed p (e := e) (fun a h => by subst h; exact he.1) l hl (fun h => h hok)

/-! ### The text -/

theorem decimal_text_inj {m n : Nat} (h : Nat.toDigits 10 m = Nat.toDigits 10 n) : m = n := by
  have h1 := (Cmd.decimal_iff.1 (digits_number m)).2.2
  rw [h] at h1
  exact h1.trans (Cmd.decimal_iff.1 (digits_number n)).2.2.symm

theorem digits_digits (n : Nat) : ∀ c ∈ Nat.toDigits 10 n, isDigit c = true := by
  have := (Cmd.decimal_iff.1 (digits_number n)).2.1
  rw [List.all_eq_true] at this
  exact this

theorem two_digits (n : Nat) : ∀ c ∈ two n, isDigit c = true := by
  unfold two
  split
  · intro c hc
    rcases List.mem_cons.1 hc with rfl | hc
    · decide
    · exact digits_digits n c hc
  · exact digits_digits n

theorem two_inj {m n : Nat} (h : two m = two n) : m = n := by
  have hv : ∀ n, two n = Nat.toDigits 10 n ∨ two n = '0' :: Nat.toDigits 10 n := by
    intro n; unfold two; split <;> simp
  have hz : ∀ k, Cmd.digitsValue (two k) = k := by
    intro k
    have := (Cmd.decimal_iff.1 (digits_number k)).2.2
    rcases hv k with h | h
    · rw [h, ← this]
    · rw [h]
      exact this.symm
  rw [← hz m, h, hz n]

/-- A number ends where something else begins. -/
theorem digits_split {c : Char} (hc : isDigit c = false) : ∀ {a b r s : Str}, (∀ x ∈ a, isDigit x = true) → (∀ x ∈ b, isDigit x = true) →
    a ++ c :: r = b ++ c :: s → a = b ∧ r = s := by
  intro a
  induction a with
  | nil =>
    intro b r s _ hb h
    cases b with
    | nil => simpa using h
    | cons x b =>
      simp only [List.nil_append, List.cons_append, List.cons.injEq] at h
      have := hb x List.mem_cons_self
      rw [← h.1, hc] at this
      cases this
  | cons y a ih =>
    intro b r s ha hb h
    cases b with
    | nil =>
      simp only [List.nil_append, List.cons_append, List.cons.injEq] at h
      have := ha y List.mem_cons_self
      rw [h.1, hc] at this
      cases this
    | cons x b =>
      simp only [List.cons_append, List.cons.injEq] at h
      obtain ⟨rfl, h⟩ := h
      obtain ⟨rfl, rfl⟩ := ih (fun z hz => ha z (List.mem_cons_of_mem _ hz)) (fun z hz => hb z (List.mem_cons_of_mem _ hz)) h
      exact ⟨rfl, rfl⟩

/-- C103: mark, date and name can be read off a line, whatever the name of the target is (it may contain blanks). -/
theorem C103_text {stamp stamp' : Nat → Stamp} {name name' : Nat → Str} {l l' : Line} (h : l.text stamp name = l'.text stamp' name') :
    l.upToDate = l'.upToDate ∧ stamp l.time = stamp' l'.time ∧ name l.target = name' l'.target := by
  unfold Line.text Stamp.text at h
  rw [List.cons.injEq] at h
  obtain ⟨h0, h⟩ := h
  simp only [List.append_assoc, List.cons_append] at h
  obtain ⟨h1, h⟩ := digits_split (by decide) (two_digits _) (two_digits _) h
  obtain ⟨h2, h⟩ := digits_split (by decide) (two_digits _) (two_digits _) h
  obtain ⟨h3, h⟩ := digits_split (by decide) (digits_digits _) (digits_digits _) h
  obtain ⟨h4, h⟩ := digits_split (by decide) (two_digits _) (two_digits _) h
  obtain ⟨h5, h⟩ := digits_split (by decide) (two_digits _) (two_digits _) h
  obtain ⟨h6, h⟩ := digits_split (by decide) (two_digits _) (two_digits _) h
  refine ⟨?_, ?_, h⟩
  · generalize l.upToDate = x at h0 ⊢
    generalize l'.upToDate = y at h0 ⊢
    revert h0
    cases x <;> cases y <;> simp
  · have e1 := two_inj h1
    have e2 := two_inj h2
    have e3 := decimal_text_inj h3
    have e4 := two_inj h4
    have e5 := two_inj h5
    have e6 := two_inj h6
    generalize stamp l.time = x at *
    generalize stamp' l'.time = y at *
    cases x
    cases y
    simp only at e1 e2 e3 e4 e5 e6
    subst e1 e2 e3 e4 e5 e6
    rfl

/-- The invalid time is shown as the first of January 1601. -/
example : (Line.mk false 0 0).text (fun _ => ⟨1, 1, 1601, 0, 0, 0⟩) (fun _ => c!"my app") = c!"*01.01.1601 00:00:00 my app" := by decide +kernel

/-! ### The makefile of C68: `a.o` is up to date, `app` is older than `a.o` -/

namespace InfoCase

open NullCase (db env answers)

def disk : Str → Option Nat := fun n =>
  if n = c!"app" then some 3 else if n = c!"a.o" then some 5 else if n = c!"a.c" then some 1 else none

def cfg (all : Bool) : Sched.Cfg := { NullCase.cfg with
  buildAll := all
  deps := fun _ k => (db.target k).deps.map (resolve env { disk := disk, cache := [] }) }

def j0 (all : Bool) : J :=
  { s := Sched.init (cfg all)
    m := buildAsked env [] { info := fun k => fresh (db.target k), files := { disk := disk, cache := [] } } }

def j1 (all : Bool) : J := (Make.step env (cfg all) (j0 all) (.startProcesses answers)).getD (j0 all)

theorem start (all : Bool) (ok : J → Make.Event → Prop) : Prints env (cfg all) (fun k => fresh (db.target k)) disk ok (j0 all) [] :=
  .start [] (fun t => rfl) (fun n hn => by cases hn)

theorem disk_le {x : Str} {s : Nat} (h : disk x = some s) : s ≤ 9 ∧ s ≠ 0 := by
  unfold disk at h
  repeat' split at h
  all_goals first
    | cases h; decide
    | cases h

theorem first (all : Bool) : Prints env (cfg all) (fun k => fresh (db.target k)) disk (Behaves env (cfg all) db) (j1 all)
    (printed env (cfg all) (j0 all) (.startProcesses answers)) := by
  have hs : Make.step env (cfg all) (j0 all) (.startProcesses answers) = some (j1 all) := by
    unfold j1
    have : (Make.step env (cfg all) (j0 all) (.startProcesses answers)).isSome = true := by cases all <;> decide +kernel
    obtain ⟨x, hx⟩ := Option.isSome_iff_exists.1 this
    rw [hx]; rfl
  have hb : (j1 all).s.build = (j0 all).s.build := by cases all <;> decide +kernel
  have := Prints.step (e := .startProcesses answers) [] (start all (Behaves env (cfg all) db))
    ⟨fun x s h => (disk_le h).1, works_running⟩ hs (fun hne => absurd hb hne) (fun n hn => by cases hn)
  rwa [if_neg (by simp [hb])] at this

/-- What is printed: a blank and the time of `a.o`; a star and no time for `app`. -/
theorem shown : printed env (cfg false) (j0 false) (.startProcesses answers) = [⟨true, 5, 1⟩, ⟨false, 0, 0⟩] := by decide +kernel

/-- `C103_lines` applies. -/
example : verdicts (j1 false).s.log (j1 false).s.next = [(true, 1), (false, 0)] := by
  rw [← C103_lines rfl (first false), shown]; rfl

theorem unambiguous : Unambiguous env.abs (fun n => disk (env.abs n)) db (cfg false).targets where
  names := SecondCase.unambiguous.names
  distinct := SecondCase.unambiguous.distinct
  inferred := SecondCase.unambiguous.inferred
  viaDir := SecondCase.unambiguous.viaDir
  acyclic := SecondCase.unambiguous.acyclic
  oneRule := by
    intro t _ r hr r' hr' _ _
    rw [(SecondCase.rules hr).2, (SecondCase.rules hr').2]
  filled := by
    intro t ht
    rcases SecondCase.wanted ht with rfl | rfl
    · exact .inl (by simp [db])
    · exact .inr (.inr (.inr ⟨c!"a.c", by simp [db], by decide +kernel⟩))
  times := fun n s h => (disk_le h).2

/-- `C103_time_partial` applies. -/
example : UpToDate (fun n => (j0 false).m.files.disk (env.abs n)) db 1 :=
  ((C103_time_partial (l := ⟨true, 5, 1⟩) (e := .startProcesses answers) rfl (fun _ _ h => h) rfl rfl unambiguous (start false _).toRun
    ⟨fun x s h => (disk_le h).1, works_running⟩ (by rw [shown]; exact List.mem_cons_self) (.inl rfl)).1 rfl).1

def after (j : J) (e : Make.Event) : J := (Make.step env (cfg false) j e).getD j

/-- The whole build with exit code 0: `app` is made. -/
def j2 : J := after (j1 false) (.write c!"app" (some 6))
def j3 : J := after j2 (.childFinished 0 false)
def j4 : J := after j3 (.startProcesses answers)

example : j4.s.exits = [0] ∧ j4.s.log = [.upToDate 0 1, .started 0 0, .succeeded 0 0] := by decide +kernel

theorem next {j : J} {e : Make.Event} {lines : List Line}
    (h : Prints env (cfg false) (fun k => fresh (db.target k)) disk (fun _ _ => True) j lines)
    (hs : (Make.step env (cfg false) j e).isSome = true) (hb : (after j e).s.build = j.s.build) :
    Prints env (cfg false) (fun k => fresh (db.target k)) disk (fun _ _ => True) (after j e) (lines ++ printed env (cfg false) j e) := by
  obtain ⟨x, hx⟩ := Option.isSome_iff_exists.1 hs
  have ha : after j e = x := by unfold after; rw [hx]; rfl
  rw [ha] at hb ⊢
  have := Prints.step (e := e) (j' := x) [] h trivial hx (fun hne => absurd hb hne) (fun n hn => by cases hn)
  rwa [if_neg (by simp [hb])] at this

theorem whole : Prints env (cfg false) (fun k => fresh (db.target k)) disk (fun _ _ => True) j4 [⟨true, 5, 1⟩, ⟨false, 0, 0⟩] := by
  have h1 : Prints _ _ _ _ _ (j1 false) _ := next (e := .startProcesses answers) (start false _) (by decide +kernel) (by decide +kernel)
  have h2 : Prints _ _ _ _ _ j2 _ := next (e := .write c!"app" (some 6)) h1 (by decide +kernel) (by decide +kernel)
  have h3 : Prints _ _ _ _ _ j3 _ := next (e := .childFinished 0 false) h2 (by decide +kernel) (by decide +kernel)
  have h4 : Prints _ _ _ _ _ j4 _ := next (e := .startProcesses answers) h3 (by decide +kernel) (by decide +kernel)
  have e4 : printed env (cfg false) j3 (.startProcesses answers) = [] := by decide +kernel
  rw [shown, e4] at h4
  exact h4

theorem edge {x c : Nat} (h : DependsOn ((cfg false).deps 0) x c) : x = 0 ∧ c = 1 := by
  unfold DependsOn cfg db at h
  simp only at h
  split at h
  · next hx =>
    refine ⟨hx, ?_⟩
    have : ([c!"a.o"].map (resolve env { disk := disk, cache := [] })) = [.node 1] := by decide +kernel
    rw [this] at h
    simpa using h
  · simp at h

theorem acyclic : AcTo (cfg false) 0 := by
  intro b hb r _ x _ h
  obtain rfl : b = 0 := by omega
  have key : ∀ {a b : Nat}, Relation.TransGen (DependsOn ((cfg false).deps 0)) a b → a = 0 ∧ b = 1 := by
    intro a b h
    induction h with
    | single h => exact edge h
    | tail _ h ih => exact ⟨ih.1, (edge h).2⟩
  obtain ⟨h1, h2⟩ := key h
  omega

/-- `C103_all_shown` applies: `a.o` has a line. -/
example : ∃ l ∈ [Line.mk true 5 1, Line.mk false 0 0], l.target = 1 :=
  C103_all_shown (b := 0) (r := 0) (x := 1) whole acyclic (by decide +kernel) rfl (.single (show Dep.node 1 ∈ (cfg false).deps 0 0 by decide +kernel))

theorem shownAll : printed env (cfg true) (j0 true) (.startProcesses answers) = [⟨true, 5, 1⟩] := by decide +kernel

end InfoCase

/-! ### `/K`: `a.o` has failed, a star and no time is printed for `b.o`, which has an older file -/

namespace InfoKeepCase

open RebuildCase (db env)
open KeepCase (cfg disk runs j0 j1 j2 j3 next disk_lt disk2 disk3 cone2 unambiguous)

theorem run3 : Run env cfg (fun k => fresh (db.target k)) disk (Behaves env cfg db) j3 := by
  have h0 : Run env cfg (fun k => fresh (db.target k)) disk (Behaves env cfg db) j0 := Run.start [] (fun t => rfl) (fun n hn => by cases hn)
  have h1 : Run _ _ _ _ _ j1 := next h0 ⟨fun x s h => Nat.le_of_lt (disk_lt h).1, works_running⟩ (by decide +kernel) (by decide +kernel)
  have h2 : Run _ _ _ _ _ j2 := next h1 ⟨by decide, .inl ⟨1, by decide +kernel, rfl, by decide⟩⟩ (by decide +kernel) (by decide +kernel)
  exact next h2 (fun h => (by cases h)) (by decide +kernel) (by decide +kernel)

theorem shown : j3.s.log = [.started 0 1, .failed 0 1] ∧ ⟨false, 0, 2⟩ ∈ printed env cfg j3 (.startProcesses (runs 13)) := by decide +kernel

example : (⟨false, 0, 2⟩ : Line).time = 0 :=
  (C103_time_partial (l := ⟨false, 0, 2⟩) (e := .startProcesses (runs 13)) rfl (fun _ _ h => h) rfl rfl unambiguous run3
    ⟨fun x s h => by
      rw [disk3, disk2] at h
      show s ≤ 13
      simp only at h
      split at h
      · cases h; decide
      · exact Nat.le_trans (Nat.le_of_lt (disk_lt h).1) (by decide), works_running⟩ shown.2
    (.inr fun y hy b => by rw [cone2 hy, shown.1]; simp)).2 rfl (by decide +kernel)

end InfoKeepCase

/-- C103 is false with `/A`: `a.o` has a blank although its commands are started. -/
theorem C103_all_refuted : ∃ (env : Env) (cfg : Sched.Cfg) (db : Db) (disk : Str → Option Nat) (j : J) (lines : List Line) (l : Line),
    Prints env cfg (fun k => fresh (db.target k)) disk (Behaves env cfg db) j lines ∧ l ∈ lines ∧ l.upToDate = true ∧
    Ev.started 0 l.target ∈ j.s.log ∧ (∀ b, Ev.upToDate b l.target ∉ j.s.log) := by
  refine ⟨NullCase.env, InfoCase.cfg true, NullCase.db, InfoCase.disk, InfoCase.j1 true, _, ⟨true, 5, 1⟩, InfoCase.first true, ?_,
    rfl, by decide +kernel, ?_⟩
  · rw [InfoCase.shownAll]; exact List.mem_singleton.2 rfl
  · have : (InfoCase.j1 true).s.log = [.started 0 1] := by decide +kernel
    rw [this]
    intro b h
    simp at h

/-- C103: it is false that the time of the file is printed if there is a file: `app` exists, its time is 3, the invalid time is printed. -/
theorem C103_time_refuted : ∃ (env : Env) (cfg : Sched.Cfg) (db : Db) (disk : Str → Option Nat) (j : J) (e : Make.Event) (l : Line),
    cfg.buildAll = false ∧ Unambiguous env.abs (fun n => disk (env.abs n)) db cfg.targets ∧
    Run env cfg (fun k => fresh (db.target k)) disk (Behaves env cfg db) j ∧ Behaves env cfg db j e ∧ l ∈ printed env cfg j e ∧
    j.m.files.disk (env.abs (db.target l.target).name) = some 3 ∧ l.time = 0 := by
  refine ⟨NullCase.env, InfoCase.cfg false, NullCase.db, InfoCase.disk, InfoCase.j0 false, .startProcesses NullCase.answers, ⟨false, 0, 0⟩, rfl,
    InfoCase.unambiguous, (InfoCase.start false _).toRun, ⟨fun x s h => (InfoCase.disk_le h).1, works_running⟩, ?_, by decide +kernel, rfl⟩
  rw [InfoCase.shown]
  exact List.mem_cons_of_mem _ List.mem_cons_self

end Jom.Props
