import Verif.Model.Scheduler

/-! The scheduler with and without `/DUMPGRAPH`: the same steps, with one more call of `startProcesses` in the queue without. -/

namespace Jom.Sched

open Jom.Graph

/-- One more call of `startProcesses` in the queue. -/
def more (s : St) : St := { s with queued := s.queued + 1 }

/-- The same settings without `/DUMPGRAPH`. -/
def Cfg.silent (cfg : Cfg) : Cfg := { cfg with dumpGraph := false }

theorem handOver_more (e : Nat) (s : St) : handOver e (more s) = more (handOver e s) := by
  unfold handOver more
  dsimp only
  split
  · rfl
  · split
    · split <;> rfl
    · rfl

/-- `childFinished` before the output is handed over. -/
def noted (keep : Bool) (executor t : Nat) (failed : Bool) (s : St) : St :=
  let s := if failed then { s with allOk := false } else s
  let s := if failed && keep then
      { s with g := markParents (s.g.ids.length + 1) s.g t, ub := s.ub || decide (t ∉ s.g.ids) } else s
  let s := { s with
    ub := s.ub || decide (t ∈ s.g.ids ∧ s.g.children t ≠ [])
    g := removeLeaf s.g t
    log := s.log ++ [if failed then Ev.failed s.build t else Ev.succeeded s.build t] }
  let s := if s.jobAcq > 0 then { s with relChild := s.relChild + 1, jobAcq := s.jobAcq - 1 } else s
  { s with busy := s.busy.filter (·.1 ≠ executor), avail := s.avail ++ [executor] }

theorem childFinished_noted (cfg : Cfg) (e t : Nat) (failed : Bool) (s : St) :
    childFinished cfg e t failed s =
      (fun s : St => if failed && !cfg.keepGoing then { s with aborted := true, g := clear s.g, pending := [], frames := s.frames + 1 }
        else { s with queued := s.queued + 1 }) (handOver e (noted cfg.keepGoing e t failed s)) := rfl

theorem noted_more (keep : Bool) (e t : Nat) (failed : Bool) (s : St) : noted keep e t failed (more s) = more (noted keep e t failed s) := by
  unfold noted more
  by_cases hj : s.jobAcq > 0 <;> cases failed <;> cases keep <;>
    simp only [Bool.false_and, Bool.true_and, Bool.false_eq_true, if_true, if_false, hj]

theorem childFinished_more (cfg : Cfg) (e t : Nat) (failed : Bool) (s : St) :
    childFinished cfg.silent e t failed (more s) = more (childFinished cfg e t failed s) := by
  have hk : cfg.silent.keepGoing = cfg.keepGoing := rfl
  rw [childFinished_noted, childFinished_noted, hk, noted_more, handOver_more]
  dsimp only
  split <;> rfl

theorem finishBuild_more (cfg : Cfg) (code : Nat) (s : St) : finishBuild cfg.silent code (more s) = more (finishBuild cfg code s) := rfl

theorem onException_more (cfg : Cfg) (s : St) : onException cfg.silent (more s) = more (onException cfg s) := rfl

theorem buildNextTarget_more (cfg : Cfg) (res : StartRes) (s : St) : buildNextTarget cfg.silent res (more s) = more (buildNextTarget cfg res s) := by
  have hn : (more s).next = s.next := rfl
  have ha : (more s).aborted = s.aborted := rfl
  have hv : (more s).avail = s.avail := rfl
  unfold buildNextTarget
  rw [hn, ha, hv]
  cases s.next with
  | none => rfl
  | some t =>
    cases h : s.aborted with
    | true => rfl
    | false =>
      cases h' : s.avail with
      | nil => simp only [Bool.false_eq_true, if_false]; rw [more, h, h']; rfl
      | cons e avail =>
        simp only [Bool.false_eq_true, if_false]
        cases res with
        | throws => simp only [more, h]; rfl
        | running => rfl
        | sync failed => exact (congrArg begun (childFinished_more cfg e t failed (begin e t avail s)) :)

theorem findNextTarget_more (cfg : Cfg) (o : Oracle) : ∀ (n : Nat) (s : St),
    findNextTarget cfg.silent o n (more s) = match findNextTarget cfg o n s with
      | .ok s => .ok (more s)
      | .error s => .error (more s)
  | 0, s => rfl
  | i + 1, s => by
    have hk : cfg.silent.keepGoing = cfg.keepGoing := rfl
    have hb : cfg.silent.buildAll = cfg.buildAll := rfl
    have ih := findNextTarget_more cfg o i
    simp only [more] at ih
    unfold findNextTarget
    simp only [hk, hb, more]
    by_cases h1 : s.g.leaves.isEmpty
    · simp only [h1, if_true]
    · simp only [h1, if_false, Bool.false_eq_true]
      by_cases h2 : o.throws i
      · simp only [h2, if_true]
      · simp only [h2, if_false, Bool.false_eq_true]
        cases h3 : (pick (prune cfg.buildAll (o.upToDate i) s.g).1).2 with
        | none => rfl
        | some t =>
          dsimp only
          split
          · exact ih { s with g := removeLeaf (pick (prune cfg.buildAll (o.upToDate i) s.g).1).1 t, next := none, log := s.log ++ List.map (.upToDate s.build ·) (prune cfg.buildAll (o.upToDate i) s.g).2 ++ [.noCommands s.build t] }
          · split
            · exact ih { s with g := removeLeaf (pick (prune cfg.buildAll (o.upToDate i) s.g).1).1 t, next := none, log := s.log ++ List.map (.upToDate s.build ·) (prune cfg.buildAll (o.upToDate i) s.g).2 ++ [.unbuildable s.build t] }
            · rfl

theorem rebuild_more (cfg : Cfg) (b t : Nat) (rest : List Nat) (s : St) : rebuild cfg.silent b t rest (more s) = more (rebuild cfg b t rest s) := by
  have hd : cfg.silent.deps = cfg.deps := rfl
  have hf : cfg.silent.fuel = cfg.fuel := rfl
  unfold rebuild
  rw [hd, hf]
  split <;> rfl

theorem startProcesses_more (cfg : Cfg) (o : Oracle) (s : St) : startProcesses cfg.silent o (more s) = more (startProcesses cfg o s) := by
  have key : ∀ s : St, (if s.next.isSome then
        if s.running cfg = 0 then buildNextTarget cfg.silent o.res (more s)
        else { more s with jobAcq := (more s).jobAcq + 1, acquiring := true }
      else if s.running cfg = 0 then
        match s.pending with
        | [] => finishBuild cfg.silent 0 (more s)
        | t :: rest => rebuild cfg.silent (s.build + 1) t rest (more s)
      else more s) = more (if s.next.isSome then
        if s.running cfg = 0 then buildNextTarget cfg o.res s
        else { s with jobAcq := s.jobAcq + 1, acquiring := true }
      else if s.running cfg = 0 then
        match s.pending with
        | [] => finishBuild cfg 0 s
        | t :: rest => rebuild cfg (s.build + 1) t rest s
      else s) := by
    intro s
    split
    · split
      · exact buildNextTarget_more cfg o.res s
      · rfl
    · split
      · split
        · rfl
        · exact rebuild_more cfg _ _ _ s
      · rfl
  unfold startProcesses
  have hn : (more s).next = s.next := rfl
  have hg : (more s).g = s.g := rfl
  have hc : ((more s).aborted || (more s).acquiring || (more s).avail.isEmpty) = (s.aborted || s.acquiring || s.avail.isEmpty) := rfl
  rw [hc, hn, hg]
  split
  · rfl
  · by_cases h : s.next.isNone
    · simp only [h, if_true]
      rw [findNextTarget_more]
      cases findNextTarget cfg o (s.g.ids.length + 1) s with
      | error s => rfl
      | ok s => exact key s
    · simp only [h, if_false, Bool.false_eq_true]
      exact key s

theorem step_more {cfg : Cfg} {s s' : St} {e : Event} (h : step cfg s e = some s') : step cfg.silent (more s) e = some (more s') := by
  unfold step at h ⊢
  cases e with
  | startProcesses o =>
    simp only [Option.ite_none_right_eq_some, Option.some.injEq] at h ⊢
    obtain ⟨⟨h1, h2⟩, rfl⟩ := h
    refine ⟨⟨h1, Nat.succ_pos _⟩, ?_⟩
    rw [← startProcesses_more]
    congr 1
    show { s with queued := s.queued + 1 - 1 } = { s with queued := s.queued - 1 + 1 }
    congr 1
    omega
  | grant =>
    simp only [Option.ite_none_right_eq_some, Option.some.injEq] at h ⊢
    obtain ⟨h1, rfl⟩ := h
    exact ⟨h1, rfl⟩
  | acquired res inWait =>
    simp only [Option.ite_none_right_eq_some, Option.some.injEq] at h ⊢
    obtain ⟨h1, rfl⟩ := h
    refine ⟨h1, ?_⟩
    have := buildNextTarget_more cfg res { s with acquiring := false, granted := false }
    cases inWait
    · exact this
    · exact congrArg (fun s : St => { s with relWait := s.relWait + 1 }) this
  | childFinished e failed =>
    simp only at h ⊢
    have hd : (more s).dead = s.dead := rfl
    have hb : (more s).busy = s.busy := rfl
    rw [hd, hb]
    split at h
    · cases h
    · rw [if_neg ‹_›]
      split at h
      · cases h
        exact congrArg some (childFinished_more cfg _ _ _ _)
      · cases h
  | abortDone =>
    simp only [Option.ite_none_right_eq_some, Option.some.injEq] at h ⊢
    obtain ⟨h1, rfl⟩ := h
    exact ⟨h1, rfl⟩

theorem run_more {cfg : Cfg} : ∀ {es : List Event} {s s' : St}, run cfg s es = some s' → run cfg.silent (more s) es = some (more s')
  | [], s, s', h => by cases h; rfl
  | e :: es, s, s', h => by
    simp only [run, Option.bind_eq_some_iff] at h ⊢
    obtain ⟨s1, h1, h2⟩ := h
    exact ⟨more s1, step_more h1, run_more h2⟩

theorem init_more {cfg : Cfg} (hd : cfg.dumpGraph = true) (ht : cfg.targets ≠ []) : init cfg.silent = more (init cfg) := by
  unfold init
  have hs : cfg.silent.targets = cfg.targets := rfl
  have hf : cfg.silent.dumpGraph = false := rfl
  have hj : cfg.silent.jobs = cfg.jobs := rfl
  rw [hs, hf, hj, hd]
  cases h : cfg.targets with
  | nil => exact absurd h ht
  | cons t rest => exact rebuild_more cfg 0 t rest _

end Jom.Sched
