import Verif.Model.TempFiles
import Verif.Props.InlineFiles
import Verif.Model.Scheduler

/-!
C92: no temporary file survives jom.
-/

namespace Jom.Spec.Temp
open Jom.Temp Jom.Exec

/-- The file exists because of this step and is to stay. -/
def Makes (x : Str) : Op → Prop
  | .creates _ n _ keep => n = x ∧ keep = true
  | .writes n c => n = x ∧ c ≠ none
  | .begins _ => False

/-- The step concerns the file. -/
def Touches (x : Str) : Op → Prop
  | .creates _ n _ _ => n = x
  | .writes n _ => n = x
  | .begins _ => False

/-- The step writes the file as a temporary one. -/
def MakesTemp (x : Str) : Op → Prop
  | .creates _ n _ keep => n = x ∧ keep = false
  | _ => False

/-- What the file contains if jom does nothing. -/
def othersWrite (x : Str) : Option Str → List Op → Option Str
  | v, [] => v
  | v, .writes n c :: ops => othersWrite x (if n = x then c else v) ops
  | v, _ :: ops => othersWrite x v ops

/-- All executors are among the first `jobs`. -/
def Within (jobs : Nat) (op : Op) : Prop :=
  match op with
  | .creates e _ _ _ => e < jobs
  | .begins e => e < jobs
  | .writes _ _ => True

end Jom.Spec.Temp

namespace Jom.Props
open Jom.Temp Jom.Exec Jom.Spec.Temp Jom.Spec.Exec
open Inference (Command InlineFile)

theorem removeAll_eq (jobs : Nat) (s : Temp.St) (x : Str) :
    removeAll jobs s x = if ∃ e < jobs, (x, false) ∈ s.temps e then none else s.fs x := by
  have key : ∀ (l : List Nat) (fs : FS), l.foldl (fun fs e => cleanup (s.temps e) fs) fs x =
      if ∃ e ∈ l, (x, false) ∈ s.temps e then none else fs x := by
    intro l
    induction l with
    | nil => intro fs; simp
    | cons e l ih =>
      intro fs
      rw [List.foldl_cons, ih, cleanup_eq]
      by_cases h1 : ∃ e ∈ l, (x, false) ∈ s.temps e
      · have h2 : ∃ e' ∈ e :: l, (x, false) ∈ s.temps e' := by
          obtain ⟨a, b, c⟩ := h1
          exact ⟨a, by simp [b], c⟩
        rw [if_pos h1, if_pos h2]
      · rw [if_neg h1]
        by_cases h3 : (x, false) ∈ s.temps e
        · rw [if_pos h3, if_pos ⟨e, by simp, h3⟩]
        · rw [if_neg h3, if_neg]
          rintro ⟨a, b, c⟩
          rcases List.mem_cons.1 b with rfl | b
          · exact h3 c
          · exact h1 ⟨a, b, c⟩
  unfold removeAll
  rw [key]
  simp only [List.mem_range]

/-- The file does not exist or somebody is going to remove it. -/
def Doomed (jobs : Nat) (x : Str) (s : Temp.St) : Prop := s.fs x = none ∨ ∃ e < jobs, (x, false) ∈ s.temps e

theorem doomed_step {jobs : Nat} {x : Str} {s : Temp.St} {op : Op} (hw : Within jobs op) (hm : ¬ Makes x op) (h : Doomed jobs x s) :
    Doomed jobs x (Temp.step s op) := by
  cases op with
  | begins e =>
    unfold Doomed Temp.step
    simp only [cleanup_eq]
    by_cases hx : (x, false) ∈ s.temps e
    · exact .inl (by rw [if_pos hx])
    · rw [if_neg hx]
      rcases h with h | ⟨e', h1, h2⟩
      · exact .inl h
      · refine .inr ⟨e', h1, ?_⟩
        have : e' ≠ e := by rintro rfl; exact hx h2
        rw [if_neg this]
        exact h2
  | creates e n c k =>
    unfold Doomed Temp.step
    simp only
    by_cases hn : n = x
    · subst hn
      cases k with
      | true => exact absurd ⟨rfl, rfl⟩ hm
      | false => exact .inr ⟨e, hw, by simp⟩
    · rw [if_neg (fun h => hn h.symm)]
      rcases h with h | ⟨e', h1, h2⟩
      · exact .inl h
      · refine .inr ⟨e', h1, ?_⟩
        split
        · next h => subst h; simp [h2]
        · exact h2
  | writes n c =>
    unfold Doomed Temp.step
    simp only
    by_cases hn : n = x
    · subst hn
      cases c with
      | some c => exact absurd ⟨rfl, by simp⟩ hm
      | none => exact .inl (by simp)
    · rw [if_neg (fun h => hn h.symm)]
      exact h

/-- **C92**: whatever happens before and after: an inline file that was written without KEEP does not exist any more when jom has returned from
`main` or was ended by Ctrl-C, unless somebody else has written it again, or it was written again with KEEP. -/
theorem C92_removed {jobs : Nat} {fs : FS} {before after : List Op} {e : Nat} {x c : Str} {how : Ending} (hhow : how ≠ .exits)
    (hw : ∀ op ∈ before ++ .creates e x c false :: after, Within jobs op) (hno : ∀ op ∈ after, ¬ Makes x op) :
    leaves jobs (Temp.run (Temp.init fs) (before ++ .creates e x c false :: after)) how x = none := by
  have h1 : Doomed jobs x (Temp.step (Temp.run (Temp.init fs) before) (.creates e x c false)) := by
    refine .inr ⟨e, ?_, by simp [Temp.step]⟩
    exact hw (.creates e x c false) (by simp)
  have h2 : ∀ (ops : List Op) (s : Temp.St), (∀ op ∈ ops, Within jobs op ∧ ¬ Makes x op) → Doomed jobs x s → Doomed jobs x (Temp.run s ops) := by
    intro ops
    induction ops with
    | nil => intro s _ h; exact h
    | cons op ops ih =>
      intro s ho h
      exact ih _ (fun o h' => ho o (by simp [h'])) (doomed_step (ho op (by simp)).1 (ho op (by simp)).2 h)
  have h3 := h2 after _ (fun op hop => ⟨hw op (by simp [hop]), hno op hop⟩) h1
  have h4 : Temp.run (Temp.init fs) (before ++ .creates e x c false :: after) =
      Temp.run (Temp.step (Temp.run (Temp.init fs) before) (.creates e x c false)) after := by
    simp [Temp.run]
  rw [h4]
  have h5 : ∀ s : Temp.St, leaves jobs s how = removeAll jobs s := by
    intro s
    cases how <;> first | rfl | exact absurd rfl hhow
  rw [h5, removeAll_eq]
  split
  · rfl
  · next hn =>
    rcases h3 with h | h
    · exact h
    · exact absurd h hn

theorem temps_origin (x : Str) : ∀ (ops : List Op), (∀ op ∈ ops, ¬ MakesTemp x op) → ∀ (s : Temp.St), (∀ e, (x, false) ∉ s.temps e) →
    ∀ e, (x, false) ∉ (Temp.run s ops).temps e := by
  intro ops
  induction ops with
  | nil => intro _ s h; exact h
  | cons op ops ih =>
    intro ho s h
    refine ih (fun o h' => ho o (by simp [h'])) _ fun e => ?_
    have hop := ho op (by simp)
    cases op with
    | begins k =>
      simp only [Temp.step]
      split
      · simp
      · exact h e
    | creates k n c keep =>
      simp only [Temp.step]
      split
      · simp only [List.mem_append, List.mem_singleton, Prod.mk.injEq, not_or]
        refine ⟨h k, fun hh => hop ⟨hh.1.symm, hh.2.symm⟩⟩
      · exact h e
    | writes n c => exact h e

theorem run_others {x : Str} : ∀ (ops : List Op), (∀ op ∈ ops, ∀ e c k, op ≠ .creates e x c k) → ∀ (s : Temp.St), (∀ e, (x, false) ∉ s.temps e) →
    (Temp.run s ops).fs x = othersWrite x (s.fs x) ops := by
  intro ops
  induction ops with
  | nil => intro _ s _; rfl
  | cons op ops ih =>
    intro ho s h
    have hop := ho op (by simp)
    have h' : ∀ e, (x, false) ∉ (Temp.run s [op]).temps e := temps_origin x [op] (by
      intro o hm
      rw [List.mem_singleton.1 hm]
      cases op with
      | creates k n c keep =>
        intro hh
        exact hop k c keep (by rw [hh.1])
      | begins k => intro hh; exact hh
      | writes n c => intro hh; exact hh) s h
    have := ih (fun o hm => ho o (by simp [hm])) (Temp.step s op) h'
    show (Temp.run (Temp.step s op) ops).fs x = _
    rw [this]
    cases op with
    | begins k =>
      simp only [Temp.step, othersWrite, cleanup_eq, if_neg (h k)]
    | creates k n c keep =>
      have hn : n ≠ x := fun e => hop k c keep (by rw [e])
      simp only [Temp.step, othersWrite, if_neg (fun e : x = n => hn e.symm)]
    | writes n c =>
      simp only [Temp.step, othersWrite]
      by_cases hn : n = x
      · subst hn; simp
      · rw [if_neg hn, if_neg (fun e : x = n => hn e.symm)]

/-- C92, KEEP: a file written with KEEP is there in the end with its content, however jom ends, if nobody writes it afterwards and no inline file
without KEEP has the same name (`C44_shared_refuted`). -/
theorem C92_kept {jobs : Nat} {fs : FS} {before after : List Op} {e : Nat} {x c : Str} (how : Ending)
    (hno : ∀ op ∈ after, ¬ Touches x op) (ht : ∀ op ∈ before, ¬ MakesTemp x op) :
    leaves jobs (Temp.run (Temp.init fs) (before ++ .creates e x c true :: after)) how x = some c := by
  have hall : ∀ op ∈ before ++ .creates e x c true :: after, ¬ MakesTemp x op := by
    intro op hop
    simp only [List.mem_append, List.mem_cons] at hop
    rcases hop with h | rfl | h
    · exact ht op h
    · rintro ⟨_, h⟩; cases h
    · intro hm
      refine hno op h ?_
      cases op with
      | creates k n c keep => exact hm.1
      | begins k => exact hm
      | writes n c => exact hm.elim
  have h1 := temps_origin x _ hall (Temp.init fs) (by simp [Temp.init])
  have h2 : (Temp.run (Temp.init fs) (before ++ .creates e x c true :: after)).fs x = some c := by
    have h4 : Temp.run (Temp.init fs) (before ++ .creates e x c true :: after) =
        Temp.run (Temp.run (Temp.init fs) (before ++ [.creates e x c true])) after := by
      simp [Temp.run]
    have h5 := temps_origin x (before ++ [.creates e x c true]) (fun op hop => hall op (by
      simp only [List.mem_append, List.mem_singleton] at hop
      rcases hop with h | h <;> simp [h])) (Temp.init fs) (by simp [Temp.init])
    rw [h4, run_others after (fun op hop k c' keep e' => hno op hop (by rw [e']; rfl)) _ h5]
    have h6 : ∀ (ops : List Op) v, (∀ op ∈ ops, ¬ Touches x op) → othersWrite x v ops = v := by
      intro ops
      induction ops with
      | nil => intro v _; rfl
      | cons op ops ih =>
        intro v ho
        have := ih v fun o h => ho o (by simp [h])
        cases op with
        | begins k => exact this
        | creates k n c keep => exact this
        | writes n c =>
          simp only [othersWrite]
          rw [if_neg (show ¬ n = x from ho (.writes n c) (by simp))]
          exact this
    rw [h6 after _ hno]
    simp [Temp.run, Temp.step]
  have h3 : removeAll jobs (Temp.run (Temp.init fs) (before ++ .creates e x c true :: after)) x = some c := by
    rw [removeAll_eq, if_neg, h2]
    rintro ⟨k, _, h⟩
    exact h1 k h
  cases how
  · exact h3
  · exact h3
  · exact h2

/-- C92, other files: a file that is not written as an inline file is left as the processes (and others) have made it, however jom ends. -/
theorem C92_others {jobs : Nat} {fs : FS} {ops : List Op} {x : Str} (how : Ending) (hno : ∀ op ∈ ops, ∀ e c k, op ≠ .creates e x c k) :
    leaves jobs (Temp.run (Temp.init fs) ops) how x = othersWrite x (fs x) ops := by
  have h0 : ∀ e, (x, false) ∉ (Temp.init fs).temps e := by simp [Temp.init]
  have h1 := run_others ops hno (Temp.init fs) h0
  have h2 := temps_origin x ops (fun op hop hm => by
    cases op with
    | creates k n c keep => exact hno _ hop k c keep (by rw [hm.1])
    | begins k => exact hm
    | writes n c => exact hm) (Temp.init fs) h0
  have h3 : removeAll jobs (Temp.run (Temp.init fs) ops) x = othersWrite x (fs x) ops := by
    rw [removeAll_eq, if_neg, h1]
    · rfl
    · rintro ⟨k, _, h⟩
      exact h2 k h
  cases how
  · exact h3
  · exact h3
  · exact h1

/-- The steps of `createTempFiles`. -/
def createOps (e : Nat) (files : List InlineFile) (names : List Str) : List Op :=
  (files.zip names).map fun p => .creates e p.2 p.1.content p.1.keep

theorem created_ops {e : Nat} {fs fs' : FS} {files : List InlineFile} {names : List Str} (h : Created fs files names fs') : ∀ (s : Temp.St), s.fs = fs →
    (Temp.run s (createOps e files names)).fs = fs' ∧
    (Temp.run s (createOps e files names)).temps e = s.temps e ++ names.zip (files.map (·.keep)) ∧
    ∀ k, k ≠ e → (Temp.run s (createOps e files names)).temps k = s.temps k := by
  induction h with
  | nil => intro s hs; exact ⟨hs, by simp [createOps, Temp.run], fun k _ => rfl⟩
  | @named fs fs' f files names hn ht ih =>
    intro s hs
    have := ih (Temp.step s (.creates e f.filename f.content f.keep)) (by subst hs; rfl)
    obtain ⟨h1, h2, h3⟩ := this
    refine ⟨h1, ?_, fun k hk => ?_⟩
    · refine h2.trans ?_
      simp [Temp.step]
    · refine (h3 k hk).trans ?_
      simp [Temp.step, hk]
  | @unnamed fs fs' f files names name hf hn ht ih =>
    intro s hs
    have := ih (Temp.step s (.creates e name f.content f.keep)) (by subst hs; rfl)
    obtain ⟨h1, h2, h3⟩ := this
    refine ⟨h1, ?_, fun k hk => ?_⟩
    · refine h2.trans ?_
      simp [Temp.step]
    · refine (h3 k hk).trans ?_
      simp [Temp.step, hk]

/-- The steps are those of the executor of `Model/CommandExec.lean`: its `start` for a target with commands does the same to the disk and to the list of
temporary files as `begins` and one step `creates` for every inline file. -/
theorem C92_start {w : World} {o : Opts} {writable : Str → Bool} {native : Str → Str} {cand : Nat → Str} {fuel : Nat}
    {expand : List Command → List Command} {cmds : List Command} {s s1 : Exec.St} {fs1 : FS} (hc : cmds ≠ []) (e : Nat) (t : Temp.St)
    (ht : t.temps e = s.temps) (h : Exec.start w o writable native cand fuel expand cmds t.fs s = .ok (s1, fs1)) (codes : List Nat) :
    ∃ names : List Str, names.length = ((expand cmds).flatMap (·.files)).length ∧
      (Temp.run t (.begins e :: createOps e ((expand cmds).flatMap (·.files)) names)).fs = fs1 ∧
      (Temp.run t (.begins e :: createOps e ((expand cmds).flatMap (·.files)) names)).temps e = (ends w o codes s1).temps := by
  unfold Exec.start at h
  rw [if_neg (by cases cmds <;> simp_all)] at h
  generalize hx : createTemps writable native cand fuel (expand cmds)
    { fs := cleanup s.temps t.fs, next := 0, temps := [] } = x at h
  cases x with
  | error e => simp [bind, Except.bind] at h
  | ok r =>
    obtain ⟨cmds', t'⟩ := r
    simp only [bind, Except.bind, Except.ok.injEq, Prod.mk.injEq] at h
    obtain ⟨rfl, rfl⟩ := h
    obtain ⟨names, n1, n2, n3⟩ := C44_created _ _ _ _ hx
    obtain ⟨k1, k2, _⟩ := created_ops (e := e) n2 (Temp.step t (.begins e)) (by simp [Temp.step, ht])
    refine ⟨names, n1, k1, ?_⟩
    have : ∀ s0 : Exec.St, s0.temps = t'.temps → (ends w o codes (execute w o cmds' s0)).temps = t'.temps := fun s0 h0 =>
      kept_ends (kept_temps w t'.temps) o codes _ (kept_execute (kept_temps w t'.temps) o _ _ h0)
    rw [this _ rfl, n3]
    refine k2.trans ?_
    simp [Temp.step]

/-! ### Cases -/

def tempOps : List Op :=
  [.begins 0, .creates 0 c!"n1" c!"a" false, .begins 1, .creates 1 c!"k" c!"b" true, .writes c!"x.obj" (some c!"o"), .begins 0,
    .creates 0 c!"n2" c!"c" false]

example : [c!"n1", c!"n2", c!"k", c!"x.obj"].map (leaves 2 (Temp.run (Temp.init fun _ => none) tempOps) .ctrlC) = [none, none, some c!"b", some c!"o"] := by
  decide +kernel

example := C92_removed (jobs := 2) (fs := fun _ => none) (how := .returns) (before := tempOps.take 1) (after := tempOps.drop 2) (e := 0) (x := c!"n1")
  (c := c!"a") (by decide) (by
    intro op h
    simp only [tempOps, List.take, List.drop, List.mem_append, List.mem_cons, List.not_mem_nil, or_false] at h
    rcases h with rfl | rfl | rfl | rfl | rfl | rfl | rfl <;> simp [Within]) (by
    intro op h
    simp only [tempOps, List.drop, List.mem_cons, List.not_mem_nil, or_false] at h
    rcases h with rfl | rfl | rfl | rfl | rfl <;> simp [Makes])

/-- The file written with KEEP, however jom ends. -/
example (how : Ending) : leaves 2 (Temp.run (Temp.init fun _ => none) tempOps) how c!"k" = some c!"b" :=
  C92_kept (before := tempOps.take 3) (after := tempOps.drop 4) (e := 1) how (by
    intro op h
    simp only [tempOps, List.drop, List.mem_cons, List.not_mem_nil, or_false] at h
    rcases h with rfl | rfl | rfl <;> simp [Touches]) (by
    intro op h
    simp only [tempOps, List.take, List.mem_cons, List.not_mem_nil, or_false] at h
    rcases h with rfl | rfl | rfl <;> simp [MakesTemp])

/-- The file written by a command. -/
example (how : Ending) : leaves 2 (Temp.run (Temp.init fun _ => none) tempOps) how c!"x.obj" = some c!"o" :=
  C92_others how (by
    intro op h e c k
    simp only [tempOps, List.mem_cons, List.not_mem_nil, or_false] at h
    rcases h with rfl | rfl | rfl | rfl | rfl | rfl | rfl <;> simp)

/-- Two requested targets: the first is made by a process, the second has a dependent that does not exist. -/
def exitCfg : Sched.Cfg :=
  { jobs := 1, keepGoing := false, buildAll := false, dumpGraph := false, targets := [0, 1],
    deps := fun _ t => if t = 1 then [.missing] else [], fuel := 3 }

def exitEvents : List Sched.Event :=
  let o : Sched.Oracle := ⟨fun _ _ _ => false, fun _ _ => true, fun _ => false, .running⟩
  [.startProcesses o, .startProcesses o, .childFinished 0 false, .startProcesses o]

/-- The claim is false for the end by `exit(2)`: jom has made the first requested target with a temporary file; the second requested target has a dependent that
does not exist, so jom ends in the construction of the graph, and the file stays. -/
theorem C92_exit_refuted : (∃ (es : List Sched.Event) (s : Sched.St), Sched.run exitCfg (Sched.init exitCfg) es = some s ∧
      Sched.Ev.started 0 0 ∈ s.log ∧ s.dead = true ∧ s.exits = [2]) ∧
    ∃ x, leaves 1 (Temp.run (Temp.init fun _ => none) [.begins 0, .creates 0 x c!"a" false]) .exits x = some c!"a" := by
  refine ⟨?_, c!"n", by decide +kernel⟩
  have h : (Sched.run exitCfg (Sched.init exitCfg) exitEvents).map (fun s => (decide (Sched.Ev.started 0 0 ∈ s.log), s.dead, s.exits)) =
      some (true, true, [2]) := by decide +kernel
  obtain ⟨s, h1, h2⟩ := Option.map_eq_some_iff.1 h
  simp only [Prod.mk.injEq, decide_eq_true_eq] at h2
  exact ⟨_, s, h1, h2.1, h2.2.1, h2.2.2⟩

end Jom.Props
