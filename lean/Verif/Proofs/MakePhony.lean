/- Targets with commands whose file never exists. -/
import Verif.Proofs.MakeDisk
import Verif.Proofs.SchedExtra
import Verif.Proofs.MakePlain

namespace Jom.Make

open Jom.Graph Jom.Sched Jom.UpToDate Jom.Spec Jom.Spec.Build Relation

variable {env : Env} {cfg : Cfg} {x : Nat} {F : Str}

/-- There is no file `F`, and jom does not think so. -/
structure NoFile (env : Env) (F : Str) (f : FileInfo.St) : Prop where
  disk : f.disk F = none
  cache : ∀ n τ, FileInfo.cached n f.cache = some τ → env.abs n ≠ F

theorem NoFile.query {f : FileInfo.St} (h : NoFile env F f) (n : Str) : NoFile env F (FileInfo.query env.abs n f).1 := by
  unfold FileInfo.query
  split
  · exact h
  · split
    · exact h
    · next t hd =>
      refine ⟨h.disk, fun m τ hm => ?_⟩
      unfold FileInfo.cached at hm
      split at hm
      · next he =>
        subst he
        intro hF
        rw [hF, h.disk] at hd
        cases hd
      · exact h.cache m τ hm

theorem NoFile.remember {asked : Str → Bool} {names : List Str} {f : FileInfo.St} (h : NoFile env F f) :
    NoFile env F (remember env asked names f) := by
  unfold Make.remember
  induction names.filter asked generalizing f with
  | nil => exact h
  | cons n ns ih => exact ih (h.query n)

theorem NoFile.answer {f : FileInfo.St} (h : NoFile env F f) {n : Str} (hn : env.abs n = F) : (FileInfo.query env.abs n f).2 = none := by
  unfold FileInfo.query
  split
  · next t ht => exact absurd hn (h.cache n t ht)
  · rw [hn, h.disk]

/-- A test only changes the record of its target. -/
theorem test_info_other {w : World} {t k : Nat} {info : Nat → TInfo} (hk : k ≠ t) : (isTargetUpToDate w t info).1 k = info k := by
  have hcmp : ∀ info : Nat → TInfo, (compareTimes w t info).1 k = info k := by
    intro info
    unfold compareTimes
    simp only
    split
    · rfl
    · exact upd_other _ _ hk
  have hfin : ∀ r : (Nat → TInfo) × Bool, (finish t r).1 k = r.1 k := by
    intro r
    unfold finish
    simp only
    split
    · exact upd_other _ _ hk
    · rfl
  unfold isTargetUpToDate
  rw [hfin]
  rcases checkInferred_cases w t (compareTimes w t (readFile w t info)) with h | ⟨deps, h⟩
  · rw [h, hcmp, readFile_other w t info hk]
  · rw [h]
    simp only
    rw [upd_other _ _ hk, (plain_effect w t _).1 k hk, upd_other _ _ hk, hcmp, readFile_other w t info hk]

/-- What is known about a target with commands and without file. -/
structure Phony (env : Env) (F : Str) (x : Nat) (m : Mem) : Prop where
  files : NoFile env F m.files
  name : env.abs (m.info x).name = F
  away : (m.info x).fileExists = false
  cmds : (m.info x).hasCmds = true

theorem Phony.test {m : Mem} (h : Phony env F x m) (now : Nat) (asked : Str → Bool) (t : Nat) :
    Phony env F x (test env now asked t m).1 ∧ (t = x → (test env now asked t m).2 = false) := by
  have hg := test_static (world env now m.files) t m.info x
  have hfi : (world env now m.files).fi (m.info x).name = none := h.files.answer h.name
  refine ⟨⟨h.files.remember, ?_, ?_, hg.cmds h.cmds⟩, ?_⟩
  · show env.abs ((isTargetUpToDate _ t m.info).1 x).name = F
    rw [hg.1]
    exact h.name
  · show ((isTargetUpToDate (world env now m.files) t m.info).1 x).fileExists = false
    by_cases hx : x = t
    · subst hx
      rw [(effect_noFile _ _ _ hfi h.away).2, upd_same]
      exact h.away
    · rw [test_info_other hx]
      exact h.away
  · rintro rfl
    exact (effect_noFile _ _ _ hfi h.away).1

theorem Phony.checkLeaves {now : Nat} {asked : Str → Bool} {state : Nat → NState} : ∀ (ls : List Nat) {m : Mem}, Phony env F x m →
    Phony env F x (checkLeaves env now asked state ls m).1 ∧ x ∉ (Make.checkLeaves env now asked state ls m).2 := by
  intro ls
  induction ls with
  | nil => intro m h; exact ⟨h, by simp [Make.checkLeaves]⟩
  | cons l ls ih =>
    intro m h
    simp only [Make.checkLeaves]
    split
    · exact ih h
    · obtain ⟨h1, h2⟩ := h.test now asked l
      obtain ⟨h3, h4⟩ := ih h1
      refine ⟨h3, ?_⟩
      split
      · next hb =>
        intro hx
        rcases List.mem_cons.1 hx with hx | hx
        · rw [h2 hx.symm] at hb; cases hb
        · exact h4 hx
      · exact h4

theorem Phony.dirtyLoop {now : Nat} {asked : Str → Bool} : ∀ (fuel : Nat) (g : Graph) {m : Mem}, Phony env F x m →
    Phony env F x (dirtyLoop env now asked fuel g m).2.1 ∧ x ∉ (Make.dirtyLoop env now asked fuel g m).2.2 := by
  intro fuel
  induction fuel with
  | zero => intro g m h; exact ⟨h, by simp [Make.dirtyLoop]⟩
  | succ n ih =>
    intro g m h
    simp only [Make.dirtyLoop]
    split
    · obtain ⟨h1, h2⟩ := h.checkLeaves (now := now) (asked := asked) (state := g.state) g.leaves
      obtain ⟨h3, h4⟩ := ih ((Make.checkLeaves env now asked g.state g.leaves m).2.foldl removeLeafNode { g with dirty := false }) h1
      exact ⟨h3, by simp only [List.mem_append, not_or]; exact ⟨h2, h4⟩⟩
    · exact ⟨h, by simp⟩

theorem Phony.prune {now : Nat} {asked : Str → Bool} {ig : Bool} {g : Graph} {m : Mem} (h : Phony env F x m) :
    Phony env F x (prune env now asked ig g m).2.1 ∧ x ∉ (Make.prune env now asked ig g m).2.2 := by
  unfold Make.prune
  split
  · exact ⟨h, by simp⟩
  · exact h.dirtyLoop _ g

theorem Phony.applyRule {choose : Nat → Str} {m : Mem} (h : Phony env F x m) (l : Nat) : Phony env F x (applyRule env choose m l) := by
  have hg := applyRule_grow env choose m l x
  refine ⟨?_, by rw [hg.1]; exact h.name, ?_, hg.cmds h.cmds⟩
  · unfold Make.applyRule
    split <;> exact h.files
  · unfold Make.applyRule
    split
    · exact h.away
    · by_cases hx : x = l
      · subst hx; simp only [upd_same]; exact h.away
      · simp only [upd_other _ _ hx]; exact h.away

theorem Phony.applyRules {choose : Nat → Str} : ∀ (ls : List Nat) {m : Mem}, Phony env F x m → Phony env F x (ls.foldl (Make.applyRule env choose) m) := by
  intro ls
  induction ls with
  | nil => intro m h; exact h
  | cons l ls ih => intro m h; exact ih (h.applyRule l)

/-- It has not been found up to date, nor without commands. -/
structure Busy (env : Env) (F : Str) (x : Nat) (j : J) : Prop where
  mem : Phony env F x j.m
  log : ∀ b, Ev.upToDate b x ∉ j.s.log ∧ Ev.noCommands b x ∉ j.s.log

theorem Busy.findNext (cfg : Cfg) (a : Answers) : ∀ i {j : J}, Busy env F x j → Busy env F x (outcome (findNextTarget env cfg a i j)) := by
  intro i
  induction i with
  | zero => intro j h; exact h
  | succ i ih =>
    intro j h
    simp only [findNextTarget]
    split
    · exact ⟨h.mem, h.log⟩
    · have hp := h.mem.prune (now := a.now) (asked := a.asked) (ig := cfg.buildAll) (g := j.s.g)
      generalize prune env a.now a.asked cfg.buildAll j.s.g j.m = pr at hp ⊢
      obtain ⟨g, m, gone⟩ := pr
      simp only at hp ⊢
      have hl : ∀ b, Ev.upToDate b x ∉ j.s.log ++ gone.map (.upToDate j.s.build ·) ∧ Ev.noCommands b x ∉ j.s.log ++ gone.map (.upToDate j.s.build ·) := by
        intro b
        simp only [List.mem_append, List.mem_map, not_or, Ev.upToDate.injEq, reduceCtorEq, and_false, exists_false, not_false_eq_true, and_true]
        refine ⟨⟨(h.log b).1, ?_⟩, (h.log b).2⟩
        rintro ⟨y, hy, _, rfl⟩
        exact hp.2 hy
      split
      · exact ⟨hp.1, hl⟩
      · have hr := hp.1.applyRules (choose := a.choose) g.leaves
        generalize List.foldl (Make.applyRule env a.choose) m g.leaves = m1 at hr ⊢
        generalize pick g = pk
        obtain ⟨g1, r⟩ := pk
        cases r with
        | none => exact ⟨hr, hl⟩
        | some t =>
          simp only
          have h2 : Phony env F x (if cfg.buildAll = true then (Make.test env a.now a.asked t m1).1 else m1) := by
            split
            · exact (hr.test a.now a.asked t).1
            · exact hr
          generalize (if cfg.buildAll = true then (Make.test env a.now a.asked t m1).1 else m1) = m2 at h2 ⊢
          split
          · next hc =>
            refine ih ⟨h2, fun b => ?_⟩
            refine ⟨fun hx => (List.mem_append.1 hx).elim (hl b).1 (by simp), fun hx => (List.mem_append.1 hx).elim (hl b).2 fun hx => ?_⟩
            rw [List.mem_singleton] at hx
            cases hx
            rw [h2.cmds] at hc
            cases hc
          · split
            · refine ih ⟨h2, fun b => ?_⟩
              exact ⟨fun hx => (List.mem_append.1 hx).elim (hl b).1 (by simp), fun hx => (List.mem_append.1 hx).elim (hl b).2 (by simp)⟩
            · exact ⟨h2, hl⟩

theorem Phony.writes : ∀ (ws : List (Str × Option Nat)) {m : Mem}, Phony env F x m → (∀ w ∈ ws, w.1 = F → w.2 = none) →
    Phony env F x (ws.foldl write m) := by
  intro ws
  induction ws with
  | nil => intro m h _; exact h
  | cons w ws ih =>
    intro m h hw
    refine ih ⟨⟨?_, h.files.cache⟩, h.name, h.away, h.cmds⟩ fun w' hw' => hw w' (List.mem_cons_of_mem _ hw')
    show (if F = w.1 then w.2 else m.files.disk F) = none
    split
    · next he => exact hw w List.mem_cons_self he.symm
    · exact h.files.disk

theorem Phony.forget {m : Mem} (h : Phony env F x m) (t : Nat) : Phony env F x (forget t m) := by
  refine ⟨⟨h.files.disk, fun n τ hn => ?_⟩, h.name, h.away, h.cmds⟩
  have hn : FileInfo.cached n (m.files.cache.filter (·.1 ≠ (m.info t).name)) = some τ := hn
  have key : ∀ l : List (Str × Nat), FileInfo.cached n (l.filter (·.1 ≠ (m.info t).name)) = some τ → FileInfo.cached n l = some τ ∨ n = (m.info t).name := by
    intro l
    induction l with
    | nil => intro h; cases h
    | cons e l ih =>
      intro h
      rw [List.filter_cons] at h
      split at h
      · unfold FileInfo.cached at h ⊢
        split at h
        · next he => rw [if_pos he]; exact .inl h
        · next he => rw [if_neg he]; exact ih h
      · next he =>
        by_cases hne : e.1 = n
        · right
          rw [← hne]
          simpa using he
        · unfold FileInfo.cached
          rw [if_neg hne]
          exact ih h
  rcases key _ hn with h1 | h1
  · exact h.files.cache n τ h1
  · exfalso
    subst h1
    have : ∀ l : List (Str × Nat), FileInfo.cached (m.info t).name (l.filter (·.1 ≠ (m.info t).name)) = none := by
      intro l
      induction l with
      | nil => rfl
      | cons e l ih =>
        rw [List.filter_cons]
        split
        · next he =>
          unfold FileInfo.cached
          rw [if_neg (by simpa using he)]
          exact ih
        · exact ih
    rw [this] at hn
    cases hn

theorem Busy.build {asked : Str → Bool} {res : StartRes} {writes : List (Str × Option Nat)} {j : J} (h : Busy env F x j)
    (hw : ∀ w ∈ writes, w.1 = F → w.2 = none) : Busy env F x (buildNextTarget env cfg asked res writes j) := by
  constructor
  · unfold Make.buildNextTarget
    simp only
    split
    · exact h.mem
    · split
      · exact h.mem
      · have h1 : ∀ names, Phony env F x { j.m with files := Make.remember env asked names j.m.files } :=
          fun names => ⟨h.mem.files.remember, h.mem.name, h.mem.away, h.mem.cmds⟩
        split
        · exact ((h1 _).writes writes hw).forget _
        · exact h1 _
  · intro b
    show Ev.upToDate b x ∉ (Sched.buildNextTarget cfg res j.s).log ∧ Ev.noCommands b x ∉ (Sched.buildNextTarget cfg res j.s).log
    unfold Sched.buildNextTarget
    split
    · exact h.log b
    · split
      · exact h.log b
      · split
        · exact h.log b
        · split
          · simpa [onException, finishBuild] using h.log b
          · simpa [begun, begin] using h.log b
          · next f =>
            simp only [begun]
            rw [(childFinished_fields cfg _ _ f _).log]
            cases f <;> simpa [begin] using h.log b

theorem Busy.step {j j' : J} {e : Event} (h : Busy env F x j) (hl : LeavesAway F e) (hs : Make.step env cfg j e = some j') : Busy env F x j' := by
  cases e with
  | startProcesses a =>
    simp only [Make.step] at hs
    split at hs
    · cases hs
      have h0 : Busy env F x { j with s := { j.s with queued := j.s.queued - 1 } } := ⟨h.mem, h.log⟩
      generalize { j with s := { j.s with queued := j.s.queued - 1 } } = j0 at h0
      unfold Make.startProcesses
      split
      · exact h0
      · have hf : Busy env F x (outcome (if j0.s.next.isNone then findNextTarget env cfg a (j0.s.g.ids.length + 1) j0 else .ok j0)) := by
          split
          · exact h0.findNext cfg a _
          · exact h0
        revert hf
        generalize (if j0.s.next.isNone then findNextTarget env cfg a (j0.s.g.ids.length + 1) j0 else .ok j0) = r
        cases r with
        | error j1 =>
          intro hf
          have hf : Busy env F x j1 := hf
          exact ⟨hf.mem, by simpa [onException, finishBuild] using hf.log⟩
        | ok j1 =>
          intro hf
          have hf : Busy env F x j1 := hf
          simp only
          split
          · split
            · exact hf.build hl
            · exact ⟨hf.mem, hf.log⟩
          · split
            · split
              · exact ⟨hf.mem, hf.log⟩
              · refine ⟨⟨⟨hf.mem.files.disk, hf.mem.files.cache⟩, hf.mem.name, rfl, hf.mem.cmds⟩, ?_⟩
                intro b
                show Ev.upToDate b x ∉ (rebuild ..).log ∧ Ev.noCommands b x ∉ (rebuild ..).log
                unfold rebuild
                split <;> exact hf.log b
            · exact hf
    · cases hs
  | grant =>
    simp only [Make.step] at hs
    split at hs
    · cases hs; exact ⟨h.mem, h.log⟩
    · cases hs
  | acquired asked res writes inWait =>
    simp only [Make.step] at hs
    split at hs
    · cases hs
      have := Busy.build (cfg := cfg) (asked := asked) (res := res) (j := { j with s := { j.s with acquiring := false, granted := false } }) ⟨h.mem, h.log⟩ hl
      split
      · exact ⟨this.mem, this.log⟩
      · exact this
    · cases hs
  | childFinished e failed =>
    simp only [Make.step] at hs
    split at hs
    · cases hs
    · split at hs
      · next t _ =>
        cases hs
        refine ⟨h.mem.forget t, fun b => ?_⟩
        simp only
        rw [(childFinished_fields cfg e t failed j.s).log]
        cases failed <;> simpa using h.log b
      · cases hs
  | abortDone =>
    simp only [Make.step] at hs
    split at hs
    · cases hs; exact ⟨h.mem, h.log⟩
    · cases hs
  | write file value =>
    cases hs
    exact ⟨Phony.writes [(file, value)] h.mem fun w hw => by rw [List.mem_singleton.1 hw]; exact hl, h.log⟩

theorem Run.busy {info : Nat → TInfo} {disk : Str → Option Nat} {ok : J → Event → Prop} {j : J} (h : Run env cfg info disk ok j)
    (hok : ∀ j e, ok j e → LeavesAway F e) (hF : env.abs (info x).name = F) (hd : disk F = none) (he : (info x).fileExists = false)
    (hc : (info x).hasCmds = true) : Busy env F x j := by
  have asked : ∀ {j : J} (names : List Str), Busy env F x j → Busy env F x { j with m := buildAsked env names j.m } :=
    fun names h => ⟨⟨h.mem.files.remember, h.mem.name, h.mem.away, h.mem.cmds⟩, h.log⟩
  induction h with
  | start names _ _ =>
    refine asked (j := { s := Sched.init cfg, m := { info := info, files := { disk := disk, cache := [] } } }) names
      ⟨⟨⟨hd, fun n τ h => by cases h⟩, hF, he, hc⟩, fun b => ?_⟩
    simp [(init_log cfg).1]
  | step names _ hw hs _ _ ih =>
    have := ih.step (hok _ _ hw) hs
    split
    · exact asked names this
    · exact this

end Jom.Make
