/- C107 from the text of a makefile. -/
import Verif.Props.Speed
import Verif.Model.TimedMake
import Verif.Props.EndJobs

namespace Jom.Make

open Jom.Sched Jom.UpToDate

variable {env : Env} {cfg : Cfg} {info : Nat → TInfo} {disk : Str → Option Nat} {ok : J → Event → Prop}
  {dur : Nat → Nat → Nat} {j : J} {spent : Nat → Nat → Nat} {time : Nat}

theorem TimedRun.run (h : TimedRun env cfg info disk ok dur j spent time) : Run env cfg info disk ok j := by
  induction h with
  | start asked h1 h2 => exact .start asked h1 h2
  | step asked _ h1 h2 h3 h4 ih => exact .step asked ih h1 h2 h3 h4
  | tick _ _ _ _ ih => exact ih

theorem TimedRun.timed (h : TimedRun env cfg info disk ok dur j spent time) : Timed cfg dur j.s spent time := by
  induction h with
  | start asked h1 h2 => exact .init
  | @step j j' spent time e asked hrun h1 hs h3 h4 ih =>
    have hr : Timed cfg dur j'.s spent time := by
      rcases step_refine hrun.run.reachable.inv hs with h5 | ⟨ev, h5⟩
      · rw [h5]; exact ih
      · exact .act ih h5
    split
    · exact hr
    · exact hr
  | tick _ h1 h2 h3 ih => exact .tick ih h1 h2 h3

end Jom.Make

namespace Jom.Props

open Jom.Blocks Jom.Inference Jom.Prepare Jom.Graph Jom.Sched Jom.Make Jom.Parse Jom.Whole Relation
open Jom.Spec
open Jom.Spec.Blocks (canon Enclosed Described)
open Jom.Spec.Setup hiding Means
open Jom.Spec.Build
open Jom.Spec.Makefile (Flags)

section

variable {w : PP.World} {fuel : Nat} {entries : Str → Str → List Str} {fl : Flags} {active : List Str} {s : PP.St}
  {p : PSt PP.St} {order : List (Str × List Str)} {keys : List Str} {t : Tab} {ids : List Nat}
  {dir : Str} {abs : Str → Str} {cfg : Sched.Cfg} {disk : Str → Option Nat} {j : J} {ok : J → Make.Event → Prop}

theorem needs_reaches {db : Db} {b x y : Nat} (hedges : ∀ t, Wanted db cfg.targets t → ∀ k, DependsOn (cfg.deps b) t k ↔ Spec.Build.Needs db t k)
    (hx : Wanted db cfg.targets x) : ReflTransGen (Spec.Build.Needs db) x y → Reaches (cfg.deps b) x y := by
  intro h
  induction h with
  | refl => exact .refl
  | @tail u v h1 h2 ih =>
    obtain ⟨r, hr, hrx⟩ := hx
    exact ih.tail ((hedges u ⟨r, hr, hrx.trans h1⟩ v).2 h2)

theorem reaches_needs {db : Db} {b x y : Nat} (hedges : ∀ t, Wanted db cfg.targets t → ∀ k, DependsOn (cfg.deps b) t k ↔ Spec.Build.Needs db t k)
    (hx : Wanted db cfg.targets x) : Reaches (cfg.deps b) x y → ReflTransGen (Spec.Build.Needs db) x y := by
  intro h
  induction h with
  | refl => exact .refl
  | @tail u v h1 h2 ih =>
    obtain ⟨r, hr, hrx⟩ := hx
    exact ih.tail ((hedges u ⟨r, hr, hrx.trans ih⟩ v).1 h2)

theorem chain_needs {db : Db} {b x : Nat} {c : List Nat}
    (hedges : ∀ t, Wanted db cfg.targets t → ∀ k, DependsOn (cfg.deps b) t k ↔ Spec.Build.Needs db t k)
    (hx : Wanted db cfg.targets x) (h : Chain (DependsOn (cfg.deps b)) x c) : Chain (Spec.Build.Needs db) x c := by
  induction h with
  | last x => exact .last x
  | cons h1 _ ih =>
    have h2 := (hedges _ hx _).1 h1
    obtain ⟨r, hr, hrx⟩ := hx
    exact .cons h2 (ih ⟨r, hr, hrx.tail h2⟩)

/-- C107 for what the text of a makefile describes (C76, C98), jobs (partial, with the restrictions of C98): whenever jom only waits for
the end of a process, `-j` targets are being made, or everything needed for the present requested target has been dealt with, is
being made or needs something that is being made. -/
theorem C107_text_partial (h : Loaded w fuel entries dir fl active s p order keys t ids) (hdot : NoDot t) (ht : cfg.targets = ids)
    (hall : cfg.buildAll = false) (hun : Unambiguous abs (fun n => disk (abs n)) (dbOf t dir) ids)
    (hrun : Run (env t dir abs) cfg (info t) disk ok j) (hx : j.s.exits = []) (hg : GoesOn cfg j.s.log) (hw : Waits cfg j.s) :
    running j.s.log = cfg.jobs ∨
    ∀ r, ids[j.s.build]? = some r → ∀ x, ReflTransGen (Spec.Build.Needs (dbOf t dir)) r x → Dealt j.s.log j.s.build x ∨
      ∃ y, ReflTransGen (Spec.Build.Needs (dbOf t dir)) x y ∧ InWork j.s.log j.s.build y := by
  subst ht
  rw [info_fresh t dir] at hrun
  have pl : Plan (env t dir abs) cfg (dbOf t dir) disk := ⟨rfl, rfl, hall, loaded_key h hdot, hun⟩
  refine (C107_no_idle_job cfg j.s hrun.reachable hx hg (hrun.acyclic pl) hw).imp id fun hn r hr x hrx => ?_
  have hed := hrun.edges pl (Nat.le_refl _)
  have hwr : Wanted (dbOf t dir) cfg.targets r := ⟨r, List.mem_of_getElem? hr, .refl⟩
  refine (hn r hr x (needs_reaches hed hwr hrx)).imp id ?_
  rintro ⟨y, hxy, hy⟩
  exact ⟨y, reaches_needs hed ⟨r, List.mem_of_getElem? hr, hrx⟩ hxy, hy⟩

/-- C107 for what the text of a makefile describes, time. -/
theorem C107_text_time_partial {dur : Nat → Nat → Nat} {spent : Nat → Nat → Nat} {time : Nat}
    (h : Loaded w fuel entries dir fl active s p order keys t ids) (hdot : NoDot t) (ht : cfg.targets = ids)
    (hall : cfg.buildAll = false) (hun : Unambiguous abs (fun n => disk (abs n)) (dbOf t dir) ids)
    (hrun : TimedRun (env t dir abs) cfg (info t) disk ok dur j spent time) (hg : GoesOn cfg j.s.log) :
    ∃ chains : Nat → List Nat, (∀ b r, ids[b]? = some r → Chain (Spec.Build.Needs (dbOf t dir)) r (chains b)) ∧
      cfg.jobs * time ≤
        work dur j.s.log + (cfg.jobs - 1) * total (fun b => total (dur b) (chains b)) (List.range (j.s.build + 1)) := by
  subst ht
  have hrun' := hrun.run
  rw [info_fresh t dir] at hrun'
  have pl : Plan (env t dir abs) cfg (dbOf t dir) disk := ⟨rfl, rfl, hall, loaded_key h hdot, hun⟩
  obtain ⟨chains, h1, h2⟩ := C107_time cfg dur j.s spent time hrun.timed hg (hrun'.acyclic pl)
  refine ⟨fun b => if b ≤ j.s.build then chains b else (cfg.targets[b]?).toList, fun b r hb => ?_, Nat.le_trans h2 ?_⟩
  · simp only
    split
    · next hle => exact chain_needs (hrun'.edges pl hle) ⟨r, List.mem_of_getElem? hb, .refl⟩ (h1 b r hb)
    · rw [hb]; exact .last r
  · refine Nat.add_le_add_left (Nat.mul_le_mul_left _ (Nat.le_of_eq ?_)) _
    have key : ∀ l : List Nat, (∀ b ∈ l, b ≤ j.s.build) → total (fun b => total (dur b) (chains b)) l =
        total (fun b => total (dur b) (if b ≤ j.s.build then chains b else (cfg.targets[b]?).toList)) l := by
      intro l
      induction l with
      | nil => intro _; rfl
      | cons b l ih =>
        intro hl
        simp only [total]
        rw [if_pos (hl b List.mem_cons_self), ih (fun c hc => hl c (List.mem_cons_of_mem _ hc))]
    exact key _ (fun b hb => by have := List.mem_range.1 hb; omega)

end

/-! ### The makefile of C98 with three jobs: while `foo.obj` is compiled `app` has to wait -/

namespace EndSpeedCase

open MainCase (disk)
open EndCase (tab db e0 answers unambiguous noDot loaded)
open EndJobsCase (cfg after j0)

def j1 : J := after false (j0 false) (.startProcesses (answers 1))
def j2 : J := after false j1 (.startProcesses (answers 2))
def j3 : J := after false j2 (.startProcesses (answers 3))

/-- Every target needs four units of time. -/
def dur : Nat → Nat → Nat := fun _ _ => 4

abbrev Runs (j : J) (sp : Nat → Nat → Nat) (n : Nat) : Prop := TimedRun e0 (cfg false) (info tab) disk (fun _ _ => True) dur j sp n

theorem next {j : J} {sp : Nat → Nat → Nat} {n : Nat} (e : Make.Event) (h : Runs j sp n)
    (hs : (Make.step e0 (cfg false) j e).isSome = true) (hb : (after false j e).s.build = j.s.build) : Runs (after false j e) sp n := by
  obtain ⟨x, hx⟩ := Option.isSome_iff_exists.1 hs
  have ha : after false j e = x := by unfold after; rw [hx]; rfl
  rw [ha] at hb ⊢
  have := TimedRun.step (e := e) (j' := x) [] h trivial hx (fun hne => absurd hb hne) (fun n hn => by cases hn)
  rwa [if_neg (by simp [hb])] at this

theorem state : j3.s.queued = 0 ∧ j3.s.acquiring = false ∧ j3.s.granted = false ∧ j3.s.frames = 0 ∧ j3.s.busy = [(0, 1)] ∧
    j3.s.log = [.started 0 1] ∧ j3.s.exits = [] ∧ j3.s.build = 0 := by decide +kernel

theorem waits : Waits (cfg false) j3.s := waits_of state.1 state.2.1 state.2.2.1 state.2.2.2.1

theorem goesOn : GoesOn (cfg false) j3.s.log := by
  rw [state.2.2.2.2.2.1]
  exact ⟨by decide, Or.inr (by simp)⟩

theorem run3 : Runs j3 (fun _ _ => 0) 0 := by
  have h0 : Runs (j0 false) (fun _ _ => 0) 0 := TimedRun.start [] (fun t => rfl) (fun n hn => by cases hn)
  have h1 : Runs j1 (fun _ _ => 0) 0 := next _ h0 (by decide +kernel) (by decide +kernel)
  have h2 : Runs j2 (fun _ _ => 0) 0 := next _ h1 (by decide +kernel) (by decide +kernel)
  exact next _ h2 (by decide +kernel) (by decide +kernel)

/-- One unit of time has passed. -/
theorem tick3 : Runs j3 (clock j3.s fun _ _ => 0) 1 :=
  .tick run3 (by rw [state.2.2.2.2.1]; simp) waits (fun p _ => by show 0 < 4; decide)

/-- Two jobs are unused, but `app` needs `foo.obj`, which is being made. -/
example : Dealt j3.s.log 0 0 ∨ ∃ y, ReflTransGen (Spec.Build.Needs db) 0 y ∧ InWork j3.s.log 0 y := by
  obtain ⟨_, _, hload⟩ := loaded
  have hn := C107_text_partial (ids := [0]) hload noDot rfl rfl unambiguous run3.run state.2.2.2.2.2.2.1 goesOn waits
  rw [state.2.2.2.2.2.2.2] at hn
  refine hn.resolve_left ?_ 0 rfl 0 .refl
  rw [state.2.2.2.2.2.1]
  decide

/-- `3 * 1` is at most `4` plus twice the work of a chain. -/
example : ∃ chain, Chain (Spec.Build.Needs db) 0 chain ∧ 3 * 1 ≤ 4 + 2 * total (dur 0) chain := by
  obtain ⟨_, _, hload⟩ := loaded
  obtain ⟨chains, h1, h2⟩ := C107_text_time_partial (ids := [0]) hload noDot rfl rfl unambiguous tick3 goesOn
  refine ⟨chains 0, h1 0 0 rfl, ?_⟩
  rw [state.2.2.2.2.2.2.2, state.2.2.2.2.2.1] at h2
  simpa [work, total, dur, cfg] using h2

end EndSpeedCase

end Jom.Props
