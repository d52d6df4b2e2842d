/- C110 from the text of a makefile. -/
import Verif.Props.EndSpeed
import Verif.Props.MoreJobs

namespace Jom.Sched

/-- Nothing has been spent on requested targets that have not had their turn. -/
theorem Timed.spent_later {cfg dur s spent time} (h : Timed cfg dur s spent time) : ∀ b, s.build < b → ∀ x, spent b x = 0 := by
  induction h with
  | init => intro b _ x; rfl
  | act ht hs ih =>
    obtain ⟨hm, _⟩ := Advances.step ht.reachable.inv hs
    exact fun b hb => ih b (by rcases hm.build with h | h <;> omega)
  | tick _ _ _ _ ih =>
    intro b hb x
    unfold clock
    rw [if_neg fun hh => by omega]
    exact ih b hb x

end Jom.Sched

namespace Jom.Props

open Jom.Blocks Jom.Inference Jom.Prepare Jom.Graph Jom.Sched Jom.Make Jom.Parse Jom.Whole Relation
open Jom.Spec
open Jom.Spec.Blocks (canon Enclosed Described)
open Jom.Spec.Setup hiding Means
open Jom.Spec.Build
open Jom.Spec.Makefile (Flags)

section

variable {w : PP.World} {fuel : Nat} {entries : Str → Str → List Str} {fl : Flags} {active : List Str} {s : PP.St}
  {p : PSt PP.St} {order : List (Str × List Str)} {keys : List Str} {t : Tab} {ids : List Nat}
  {dir : Str} {abs : Str → Str} {cfg cfg' : Sched.Cfg} {disk : Str → Option Nat} {j j' : J} {ok ok' : J → Make.Event → Prop}

theorem chain_depends {db : Db} {b x : Nat} {c : List Nat}
    (hedges : ∀ t, Wanted db cfg.targets t → ∀ k, DependsOn (cfg.deps b) t k ↔ Spec.Build.Needs db t k)
    (hx : Wanted db cfg.targets x) (h : Chain (Spec.Build.Needs db) x c) : Chain (DependsOn (cfg.deps b)) x c := by
  induction h with
  | last x => exact .last x
  | cons h1 _ ih =>
    have h2 := (hedges _ hx _).2 h1
    obtain ⟨r, hr, hrx⟩ := hx
    exact .cons h2 (ih ⟨r, hr, hrx.tail h1⟩)

theorem chain_within {N : Nat → Nat → Prop} {x : Nat} {c : List Nat} (h : Chain N x c) : ∀ y ∈ c, ReflTransGen N x y := by
  induction h with
  | last x =>
    intro y hy
    rw [List.mem_singleton.1 hy]
  | cons h1 _ ih =>
    intro y hy
    rcases List.mem_cons.1 hy with rfl | hy
    · exact .refl
    · exact .head h1 (ih y hy)

/-- C110 for what the text of a makefile describes (partial, with the restrictions of C98 and C110): if one build of this makefile takes the time `T` with `m` jobs, another one
with the same files at the beginning takes no more than `(m + n - 1) / n * T` with `n` jobs. -/
theorem C110_text_partial {dur spent spent' : Nat → Nat → Nat} {time time' : Nat}
    (h : Loaded w fuel entries dir fl active s p order keys t ids) (hdot : NoDot t) (ht : cfg.targets = ids) (ht' : cfg'.targets = ids)
    (hall : cfg.buildAll = false) (hall' : cfg'.buildAll = false) (hun : Unambiguous abs (fun n => disk (abs n)) (dbOf t dir) ids)
    (hrun : TimedRun (env t dir abs) cfg (info t) disk ok dur j spent time)
    (hex : ∀ b r x, ids[b]? = some r → ReflTransGen (Spec.Build.Needs (dbOf t dir)) r x → spent b x = dur b x)
    (hrun' : TimedRun (env t dir abs) cfg' (info t) disk ok' dur j' spent' time') (hg : GoesOn cfg' j'.s.log) :
    cfg'.jobs * time' ≤ (cfg.jobs + (cfg'.jobs - 1)) * time := by
  have hr := hrun.run
  have hr' := hrun'.run
  rw [info_fresh t dir] at hr hr'
  have pl : Plan (env t dir abs) cfg (dbOf t dir) disk := ⟨rfl, rfl, hall, loaded_key h hdot, ht ▸ hun⟩
  have pl' : Plan (env t dir abs) cfg' (dbOf t dir) disk := ⟨rfl, rfl, hall', loaded_key h hdot, ht' ▸ hun⟩
  have hT := hrun.timed
  have hT' := hrun'.timed
  obtain ⟨idle, hi⟩ := hT'.inv (hg.alive hT'.reachable.inv) (hr'.acyclic pl')
  -- the work
  have h1 : done spent' (j'.s.log.filterMap startKey) ≤ cfg.jobs * time := by
    refine Nat.le_trans (done_le hi.le _) ?_
    refine Nat.le_trans (Nat.le_of_eq ?_) (hT.done_le _ hT'.reachable.inv.lg.startOnce)
    have hk : ∀ k ∈ j'.s.log.filterMap startKey, dur k.1 k.2 = spent k.1 k.2 := by
      intro k hk
      obtain ⟨e, he, hek⟩ := List.mem_filterMap.1 hk
      cases e <;> simp only [startKey, Option.some.injEq, reduceCtorEq] at hek
      subst hek
      obtain ⟨r, hr1, hr2⟩ := hT'.reachable.inv.lg.startReach _ _ he
      have hb := hT'.reachable.inv.lg.logT _ _ he
      exact (hex _ r _ (ht' ▸ hr1) (reaches_needs (hr'.edges pl' hb) ⟨r, List.mem_of_getElem? hr1, .refl⟩ hr2)).symm
    generalize j'.s.log.filterMap startKey = ks at hk
    induction ks with
    | nil => rfl
    | cons k ks ih =>
      simp only [done, hk k List.mem_cons_self, ih fun k' hk' => hk k' (List.mem_cons_of_mem _ hk')]
  -- the chains
  have hc : ∀ b, ∃ c, (c = [] ∨ ∃ x, Chain (DependsOn (cfg.deps b)) x c) ∧ idle b ≤ total (spent b) c := by
    intro b
    by_cases hb' : b ≤ j'.s.build
    · cases hb : cfg'.targets[b]? with
      | none => exact ⟨[], Or.inl rfl, by rw [hi.other b hb]; exact Nat.zero_le _⟩
      | some r =>
        obtain ⟨c, hc, hle⟩ := hi.root b r hb
        have hcn := chain_needs (hr'.edges pl' hb') ⟨r, List.mem_of_getElem? hb, .refl⟩ hc
        have hle2 : idle b ≤ total (spent b) c := by
          refine Nat.le_trans hle (Nat.le_trans (total_le (fun t => hi.le b t) c) (Nat.le_of_eq ?_))
          exact total_congr fun x hx => (hex b r x (ht' ▸ hb) (chain_within hcn x hx)).symm
        by_cases hbs : b ≤ j.s.build
        · have hb1 : cfg.targets[b]? = some r := by rw [ht, ← ht']; exact hb
          exact ⟨c, Or.inr ⟨r, chain_depends (hr.edges pl hbs) ⟨r, List.mem_of_getElem? hb1, .refl⟩ hcn⟩, hle2⟩
        · refine ⟨[], Or.inl rfl, Nat.le_trans hle2 (Nat.le_of_eq ?_)⟩
          rw [total_congr (w' := fun _ => 0) fun x _ => hT.spent_later b (by omega) x]
          clear hle hle2 hc hcn
          induction c with
          | nil => rfl
          | cons x c ih => simpa [total] using ih
    · exact ⟨[], Or.inl rfl, by rw [hi.fresh b (by omega)]; exact Nat.zero_le _⟩
  have h2 : total idle (List.range (j'.s.build + 1)) ≤ time := by
    refine Nat.le_trans (total_le (fun b => (hc b).choose_spec.2) _) ?_
    exact hT.chains (fun _ => hr.acyclic pl) (fun b => (hc b).choose) (fun b => (hc b).choose_spec.1) _
  have h3 := Nat.mul_le_mul_left (cfg'.jobs - 1) h2
  have h4 := hi.work
  rw [Nat.add_mul]
  omega

end

/-! ### The makefile of C98 with one job and with three -/

namespace EndMoreJobsCase

open MainCase (disk)
open EndCase (tab db e0 answers unambiguous noDot loaded)
open EndJobsCase (cfg after j0)

/-- Each of the two targets needs five units of time. -/
def dur : Nat → Nat → Nat := fun b x => if b = 0 ∧ x < 2 then 5 else 0

abbrev Runs (j : J) (sp : Nat → Nat → Nat) (n : Nat) : Prop := TimedRun e0 (cfg true) (info tab) disk (fun _ _ => True) dur j sp n

theorem next {j : J} {sp : Nat → Nat → Nat} {n : Nat} (e : Make.Event) (h : Runs j sp n)
    (hs : (Make.step e0 (cfg true) j e).isSome = true) (hb : (after true j e).s.build = j.s.build) : Runs (after true j e) sp n := by
  obtain ⟨x, hx⟩ := Option.isSome_iff_exists.1 hs
  have ha : after true j e = x := by unfold after; rw [hx]; rfl
  rw [ha] at hb ⊢
  have := TimedRun.step (e := e) (j' := x) [] h trivial hx (fun hne => absurd hb hne) (fun n hn => by cases hn)
  rwa [if_neg (by simp [hb])] at this

/-- The time spent after `a` units for `foo.obj` and `b` units for `app`. -/
def sp (a b : Nat) : Nat → Nat → Nat := fun k x => if k = 0 ∧ x = 1 then a else if k = 0 ∧ x = 0 then b else 0

def j1 : J := after true (j0 true) (.startProcesses (answers 1))
def j2 : J := after true j1 (.startProcesses (answers 1))
def j3 : J := after true j2 (.startProcesses (answers 1))
def j4 : J := after true j3 (.write c!"foo.obj" (some 5))
def j5 : J := after true j4 (.childFinished 0 false)
def j5a : J := after true j5 (.startProcesses (answers 5))
def j6 : J := after true j5a (.startProcesses (answers 5))
def j7 : J := after true j6 (.write c!"app" (some 6))
def j8 : J := after true j7 (.childFinished 0 false)
def j9 : J := after true j8 (.startProcesses (answers 9))

theorem state3 : j3.s.queued = 0 ∧ j3.s.acquiring = false ∧ j3.s.granted = false ∧ j3.s.frames = 0 ∧ j3.s.busy = [(0, 1)] ∧ j3.s.build = 0 := by
  decide +kernel

theorem state6 : j6.s.queued = 0 ∧ j6.s.acquiring = false ∧ j6.s.granted = false ∧ j6.s.frames = 0 ∧ j6.s.busy = [(0, 0)] ∧ j6.s.build = 0 := by
  decide +kernel

theorem ticks3 {n : Nat} (hn : n ≤ 5) (h : Runs j3 (sp 0 0) 0) : Runs j3 (sp n 0) n := by
  induction n with
  | zero => exact h
  | succ n ih =>
    have := TimedRun.tick (ih (by omega)) (by rw [state3.2.2.2.2.1]; simp) (waits_of state3.1 state3.2.1 state3.2.2.1 state3.2.2.2.1) (fun p hp => by
      rw [state3.2.2.2.2.1] at hp
      rw [List.mem_singleton.1 hp, state3.2.2.2.2.2]
      simp [sp, dur]
      omega)
    have he : clock j3.s (sp n 0) = sp (n + 1) 0 := by
      funext k x
      unfold clock sp
      rw [state3.2.2.2.2.1, state3.2.2.2.2.2]
      by_cases hk : k = 0 <;> by_cases hx : x = 1 <;> simp [hk, hx]
    rwa [he] at this

theorem ticks6 {n : Nat} (hn : n ≤ 5) (h : Runs j6 (sp 5 0) 5) : Runs j6 (sp 5 n) (5 + n) := by
  induction n with
  | zero => exact h
  | succ n ih =>
    have := TimedRun.tick (ih (by omega)) (by rw [state6.2.2.2.2.1]; simp) (waits_of state6.1 state6.2.1 state6.2.2.1 state6.2.2.2.1) (fun p hp => by
      rw [state6.2.2.2.2.1] at hp
      rw [List.mem_singleton.1 hp, state6.2.2.2.2.2]
      simp [sp, dur]
      omega)
    have he : clock j6.s (sp 5 n) = sp 5 (n + 1) := by
      funext k x
      unfold clock sp
      rw [state6.2.2.2.2.1, state6.2.2.2.2.2]
      by_cases hk : k = 0 <;> by_cases hx : x = 1 <;> by_cases hx0 : x = 0 <;> simp [hk, hx, hx0]
    rwa [he] at this

theorem run : Runs j9 (sp 5 5) 10 := by
  have h0 : Runs (j0 true) (fun _ _ => 0) 0 := TimedRun.start [] (fun t => rfl) (fun n hn => by cases hn)
  have hz : (fun _ _ => 0) = sp 0 0 := by
    funext k x
    simp [sp]
  rw [hz] at h0
  have h1 : Runs j1 (sp 0 0) 0 := next _ h0 (by decide +kernel) (by decide +kernel)
  have h2 : Runs j2 (sp 0 0) 0 := next _ h1 (by decide +kernel) (by decide +kernel)
  have h3 : Runs j3 (sp 5 0) 5 := ticks3 (by omega) (next _ h2 (by decide +kernel) (by decide +kernel))
  have h4 : Runs j4 (sp 5 0) 5 := next _ h3 (by decide +kernel) (by decide +kernel)
  have h5 : Runs j5 (sp 5 0) 5 := next _ h4 (by decide +kernel) (by decide +kernel)
  have h5a : Runs j5a (sp 5 0) 5 := next _ h5 (by decide +kernel) (by decide +kernel)
  have h6 : Runs j6 (sp 5 5) 10 := ticks6 (n := 5) (by omega) (next _ h5a (by decide +kernel) (by decide +kernel))
  have h7 : Runs j7 (sp 5 5) 10 := next _ h6 (by decide +kernel) (by decide +kernel)
  have h8 : Runs j8 (sp 5 5) 10 := next _ h7 (by decide +kernel) (by decide +kernel)
  exact next _ h8 (by decide +kernel) (by decide +kernel)

/-- The one job takes ten units, so no build of this makefile with three jobs takes longer. -/
example : j9.s.exits = [0] ∧ ∀ j' spent' time', TimedRun e0 (cfg false) (info tab) disk (fun _ _ => True) dur j' spent' time' →
    GoesOn (cfg false) j'.s.log → time' ≤ 10 := by
  refine ⟨by decide +kernel, fun j' spent' time' h' hg => ?_⟩
  obtain ⟨_, _, hload⟩ := loaded
  have := C110_text_partial (cfg := cfg true) (ids := [0]) hload noDot rfl rfl rfl rfl unambiguous run (fun b r x hb hx => ?_) h' hg
  · simp only [cfg] at this
    simp at this
    omega
  · have hb0 : b = 0 ∧ r = 0 := by
      cases b with
      | zero => simpa using hb.symm
      | succ b => simp at hb
    obtain ⟨rfl, rfl⟩ := hb0
    rcases EndCase.wanted ⟨0, List.mem_singleton.2 rfl, hx⟩ with rfl | rfl <;> rfl

/-- There is such a build. -/
example : TimedRun e0 (cfg false) (info tab) disk (fun _ _ => True) dur (j0 false) (fun _ _ => 0) 0 ∧ GoesOn (cfg false) (j0 false).s.log := by
  refine ⟨TimedRun.start [] (fun t => rfl) (fun n hn => by cases hn), ?_⟩
  rw [show (j0 false).s.log = [] by decide +kernel]
  exact ⟨by decide, Or.inr (by simp)⟩

end EndMoreJobsCase

end Jom.Props
