/- Property C101: targets that depend on a target whose commands make no file. -/
import Verif.Proofs.MakeParent
import Verif.Props.Idle

namespace Jom.Props

open Jom.Blocks Jom.Inference Jom.Prepare Jom.Graph Jom.Sched Jom.Make Jom.Parse Jom.Whole Relation
open Jom.Spec
open Jom.Spec.Blocks (canon Enclosed Described)
open Jom.Spec.Setup hiding Means
open Jom.Spec.Build
open Jom.Spec.Makefile (Flags)

section

variable {w : PP.World} {fuel : Nat} {entries : Str → Str → List Str} {fl : Flags} {active : List Str} {s : PP.St}
  {p : PSt PP.St} {order : List (Str × List Str)} {keys : List Str} {t : Tab} {ids : List Nat}
  {dir : Str} {abs : Str → Str} {cfg : Sched.Cfg} {disk : Str → Option Nat} {j : J}

/-- C101: a target with commands that has, among its dependents, a target with commands whose file never exists is made by every build that needs it and ends
with exit code 0, whatever the times of the files. `T` is the time of the beginning: the file of the target is not younger, the clock later shows later times,
and the file is not changed before its commands have been started. -/
theorem C101_parent_made_partial (h : Loaded w fuel entries dir fl active s p order keys t ids) (ht : cfg.targets = ids) (hd : NoDir t dir)
    (hdecl : SourcesDeclared t.target t.candidates dir (wanted p.table active))
    {b k T : Nat} {a n y : Str} {d e : Described} (ha : (wanted p.table active)[b]? = some a) (hn : Named t.target [a] n) (hd' : t.target n = some d)
    (hk : t.entry k = some d) (hcmds : d.cmds ≠ []) (hy : y ∈ d.deps) (he : t.target y = some e) (hecmds : e.cmds ≠ []) (hno : disk (abs e.name) = none)
    (hT : ∀ τ, disk (abs d.name) = some τ → τ ≤ T)
    (hrun : Run (env t dir abs) cfg (info t) disk
      (fun j ev => LeavesAway (abs e.name) ev ∧ Since T ev ∧ OnlyAfterStart (env t dir abs) cfg k (abs d.name) j ev) j) (h0 : 0 ∈ j.s.exits) :
    ∃ b', Ev.started b' k ∈ j.s.log ∧ Ev.succeeded b' k ∈ j.s.log := by
  obtain ⟨_, _, _, _, _, _, _, _, hp⟩ := C76_prepared h
  have hkn := hp.known
  have hac := hkn.acTo ht hd hdecl hrun
  obtain ⟨_, _, g3⟩ := C37_exit_zero cfg j.s hrun.reachable hac h0
  have hinv := hrun.reachable.inv
  obtain ⟨ep, hep, rfl⟩ := entry_iff.1 hk
  have hip := info_entry hep
  obtain ⟨x, ex, hex, hx1, rfl⟩ := hkn.tidy.find_entry he
  have hix := info_entry hex
  have hl : (env t dir abs).lookup y = some x := (env_lookup hkn.tidy dir abs y x).2 ⟨ex, hex, hx1⟩
  rcases hrun.due (x := x) (p := k) (F := abs (describe ex.2).name) (G := abs (describe ep.2).name) (T := T) (d := y) (fun _ _ h => h)
    (by rw [hix]; rfl) hno (by rw [hix]) (by rw [hix]; simpa [describe] using hecmds) (by rw [hip]; rfl) hT (by rw [hip])
    (by rw [hip]; simpa [describe] using hcmds) (by rw [hip]; exact hy) hl with ⟨b', hb'⟩ | hdue
  · obtain ⟨r, hr, hrt⟩ := hinv.lg.startReach _ _ hb'
    obtain ⟨n1, n2, _⟩ := hinv.lg.notRan _ _ hb'
    exact ⟨b', hb', (g3 b' r k hr hrt).elim id fun h => h.elim (fun h => absurd h n1) fun h => absurd h n2⟩
  · have hb : b < ids.length := by rw [hkn.length]; exact (List.getElem?_eq_some_iff.1 ha).1
    have hr : ids[b]? = some ids[b] := List.getElem?_eq_getElem hb
    obtain ⟨a', d0, h1, h2, h3⟩ := hkn.root b _ hr
    rw [ha] at h1
    cases h1
    have hr' : cfg.targets[b]? = some ids[b] := by rw [ht]; exact hr
    obtain ⟨m, hm1, hm2⟩ := hrun.recorded.graphs b (all_built hrun.reachable h0 hr')
    have hs : Ev.succeeded b k ∈ j.s.log := (g3 b _ k hr' (named_reaches hkn.tidy hm1 hm2 h2 h3 hn hk hd')).elim id fun h =>
      h.elim (fun h => absurd h (hdue.log b).1) fun h => absurd h (hdue.log b).2
    exact ⟨b, hinv.lg.ran b k (.inl hs), hs⟩

end

/-! ### A makefile whose target `app` depends on `gen`, whose commands make no file; `app` exists -/

namespace ParentCase

def text : Str := c!"app: gen\n\tlink\ngen:\n\tprepare\n"

def entries (_path _pattern : Str) : List Str := []

def start : PP.St := { files := [{ name := c!"m", dir := c!"c:/d", rest := text }] }

def p : PSt PP.St :=
  match Whole.read ppWorld 60 entries c!"c:/d" false true start with
  | .ok p => p
  | .error _ => { src := start }

def result : Option (Tab × List Nat) := (setup p.rules p.suffixes p.table.sync [] [] p.table).toOption

def tab : Tab := (result.map (·.1)).getD { table := {} }

theorem loaded : Loaded ppWorld 60 entries c!"c:/d" {} [] start p p.table.sync [] tab [0] where
  loads := by
    refine ⟨id, fun _ => [], rfl, rfl, ?_⟩
    have h1 : Whole.read ppWorld 60 entries c!"c:/d" false true start = .ok p := by
      have : (match Whole.read ppWorld 60 entries c!"c:/d" false true start with | .ok _ => true | .error _ => false) = true := by decide +kernel
      unfold p
      split at this
      · rename_i h; rw [h]
      · cases this
    have h2 : setup p.rules p.suffixes p.table.sync [] [] p.table = .ok (tab, [0]) := by decide +kernel
    simp only [load, Bool.not_false, h1, id, h2]
  perm := .refl _
  hash := by
    have : p.rules.map (·.toExt) = [] := by decide +kernel
    refine ⟨by decide +kernel, fun k => ?_⟩
    rw [← this]
    simp
  nonempty := by decide +kernel
  quotes := fun n d h x hx => (BuildCase.entries (by decide +kernel) n d h x hx).2

def disk : Str → Option Nat := fun n => if n = c!"app" then some 3 else none

def cfg : Sched.Cfg :=
  { jobs := 2, keepGoing := false, buildAll := false, dumpGraph := false, targets := [0], deps := fun _ => firstDeps tab c!"c:/d" disk, fuel := 5 }

abbrev e0 : Env := env tab c!"c:/d" toLower

def j0 : J := { s := Sched.init cfg, m := buildAsked e0 [] { info := info tab, files := { disk := disk, cache := [] } } }

def after (j : J) (e : Make.Event) : J := (Make.step e0 cfg j e).getD j

def answers (now : Nat) : Answers := { EndCase.answers now with choose := fun _ => [] }

def j1 : J := after j0 (.startProcesses (answers 5))
def j2 : J := after j1 (.childFinished 0 false)
def j3 : J := after j2 (.startProcesses (answers 6))
def j4 : J := after j3 (.write c!"app" (some 7))
def j5 : J := after j4 (.childFinished 1 false)
def j6 : J := after j5 (.startProcesses (answers 8))

theorem logs : j3.s.log = [.started 0 1, .succeeded 0 1, .started 0 0] ∧ j4.s.log = j3.s.log ∧
    j6.s.log = [.started 0 1, .succeeded 0 1, .started 0 0, .succeeded 0 0] ∧ j6.s.exits = [0] ∧ j6.m.files.disk c!"app" = some 7 := by decide +kernel

abbrev OK (T : Nat) (j : J) (e : Make.Event) : Prop := LeavesAway c!"gen" e ∧ Since T e ∧ OnlyAfterStart e0 cfg 0 c!"app" j e

theorem next {ok : J → Make.Event → Prop} {j : J} {e : Make.Event} (h : Run e0 cfg (info tab) disk ok j)
    (hok : ok j e) (hs : (Make.step e0 cfg j e).isSome = true) (hb : (after j e).s.build = j.s.build) : Run e0 cfg (info tab) disk ok (after j e) := by
  obtain ⟨x, hx⟩ := Option.isSome_iff_exists.1 hs
  have ha : after j e = x := by unfold after; rw [hx]; rfl
  rw [ha] at hb ⊢
  have := Run.step (e := e) (j' := x) [] h hok hx (fun hne => absurd hb hne) (fun n hn => by cases hn)
  rwa [if_neg (by simp [hb])] at this

theorem looks {T now : Nat} {j : J} (h : T < now) : OK T j (.startProcesses (answers now)) :=
  ⟨(fun w hw => by cases hw), h, (fun hc => by obtain ⟨w, hw, _⟩ := hc; cases hw)⟩

theorem run6 : Run e0 cfg (info tab) disk (OK 3) j6 := by
  have h0 : Run e0 cfg (info tab) disk (OK 3) j0 := Run.start [] (fun t => rfl) (fun n hn => by cases hn)
  have h1 : Run _ _ _ _ _ j1 := next h0 (looks (by decide)) (by decide +kernel) (by decide +kernel)
  have h2 : Run _ _ _ _ _ j2 := next h1 ⟨trivial, trivial, fun hc => hc.elim⟩ (by decide +kernel) (by decide +kernel)
  have h3 : Run _ _ _ _ _ j3 := next h2 (looks (by decide)) (by decide +kernel) (by decide +kernel)
  have h4 : Run _ _ _ _ _ j4 := next h3 ⟨fun h => absurd h (by decide), trivial, fun _ j' hj => by
    refine ⟨0, ?_⟩
    have : j' = j4 := by unfold j4 after; rw [hj]; rfl
    rw [this, logs.2.1, logs.1]
    simp⟩ (by decide +kernel) (by decide +kernel)
  have h5 : Run _ _ _ _ _ j5 := next h4 ⟨trivial, trivial, fun hc => hc.elim⟩ (by decide +kernel) (by decide +kernel)
  exact next h5 (looks (by decide)) (by decide +kernel) (by decide +kernel)

def app : Described := describe { name := c!"app", deps := [c!"gen"], cmds := [{ cmd := { line := c!"link" } }], enabled := false }
def gen : Described := describe { name := c!"gen", deps := [], cmds := [{ cmd := { line := c!"prepare" } }], enabled := false }

theorem tidy : ∃ f, Tidy tab f := by
  obtain ⟨_, _, _, _, _, _, _, _, hp⟩ := C76_prepared loaded
  exact ⟨_, hp.known.tidy⟩

/-- `app` exists and `gen` does not; the theorem says that `app` is made. -/
example : ∃ b, Ev.started b 0 ∈ j6.s.log ∧ Ev.succeeded b 0 ∈ j6.s.log :=
  C101_parent_made_partial (b := 0) (T := 3) (a := c!"app") (n := c!"app") (y := c!"gen") (d := app) (e := gen) (abs := toLower) loaded rfl
    (noDir tidy.choose_spec _ (by decide +kernel)) (sourcesDeclared tidy.choose_spec _ _ (by decide +kernel))
    (by decide +kernel) (.requested (by simp)) (by decide +kernel) (by decide +kernel) (by decide +kernel) (by decide +kernel) (by decide +kernel)
    (by decide +kernel) (by decide +kernel) (fun τ h => by
      have : disk c!"app" = some 3 := by decide +kernel
      have h : disk c!"app" = some τ := h
      rw [this] at h
      cases h
      decide) run6 (by rw [logs.2.2.2.1]; simp)

/-! #### The file `app` is from the future -/

def disk' : Str → Option Nat := fun n => if n = c!"app" then some 9 else none

def cfg' : Sched.Cfg := { cfg with deps := fun _ => firstDeps tab c!"c:/d" disk' }

def k0 : J := { s := Sched.init cfg', m := buildAsked e0 [] { info := info tab, files := { disk := disk', cache := [] } } }

def k1 : J := play e0 cfg' k0 [.startProcesses (answers 5), .childFinished 0 false, .startProcesses (answers 6)]

theorem run' : Run e0 cfg' (info tab) disk' NobodyWrites k1 :=
  play_run _ (Run.start [] (fun t => rfl) (fun n hn => by cases hn)) (by decide +kernel)

theorem logs' : k1.s.log = [.started 0 1, .succeeded 0 1, .upToDate 0 0] ∧ k1.s.exits = [0] := by decide +kernel

end ParentCase

/-- C101: without the assumption about the time of its file such a target need not be made: its file has a time in the future. -/
theorem C101_parent_future_refuted : ∃ (t : Tab) (cfg : Sched.Cfg) (disk : Str → Option Nat) (j : J) (d e : Described) (y : Str),
    (∃ s p, Loaded ppWorld 60 ParentCase.entries c!"c:/d" {} [] s p p.table.sync [] t cfg.targets) ∧
    t.entry 0 = some d ∧ d.cmds ≠ [] ∧ y ∈ d.deps ∧ t.target y = some e ∧ e.cmds ≠ [] ∧ disk (toLower e.name) = none ∧
    Run (env t c!"c:/d" toLower) cfg (info t) disk NobodyWrites j ∧ j.s.exits = [0] ∧ ∀ b, Ev.started b 0 ∉ j.s.log :=
  ⟨ParentCase.tab, ParentCase.cfg', ParentCase.disk', ParentCase.k1, ParentCase.app, ParentCase.gen, c!"gen", ⟨_, _, ParentCase.loaded⟩,
    by decide +kernel, by decide +kernel, by decide +kernel, by decide +kernel, by decide +kernel, by decide +kernel, ParentCase.run', ParentCase.logs'.2,
    fun b => by rw [ParentCase.logs'.1]; simp⟩

end Jom.Props
