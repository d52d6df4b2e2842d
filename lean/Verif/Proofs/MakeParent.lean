/- Targets that depend on a target with commands whose file never exists. -/
import Verif.Proofs.MakePhony

namespace Jom.Make

open Jom.Graph Jom.Sched Jom.UpToDate Jom.Spec Jom.Spec.Build Relation

variable {env : Env} {cfg : Cfg} {x p : Nat} {F G : Str} {T : Nat}

/-! ### Nothing is removed from the log -/

theorem childFinished_keeps (cfg : Cfg) (e t : Nat) (f : Bool) (s : St) : ∀ ev ∈ s.log, ev ∈ (childFinished cfg e t f s).log := by
  intro ev h
  rw [(childFinished_fields cfg e t f s).log]
  exact List.mem_append_left _ h

theorem schedBuild_log (cfg : Cfg) (res : StartRes) (s : St) : ∀ ev ∈ s.log, ev ∈ (Sched.buildNextTarget cfg res s).log := by
  intro ev h
  unfold Sched.buildNextTarget
  split
  · exact h
  · split
    · exact h
    · split
      · exact h
      · split
        · simpa [onException, finishBuild] using Or.inl h
        · simpa [begun, begin] using Or.inl h
        · next f =>
          simp only [begun]
          refine childFinished_keeps cfg _ _ f _ ev ?_
          simpa [begin] using Or.inl h

theorem step_log {j j' : J} {e : Event} (hs : Make.step env cfg j e = some j') : ∀ ev ∈ j.s.log, ev ∈ j'.s.log := by
  intro ev h
  cases e with
  | startProcesses a =>
    simp only [Make.step] at hs
    split at hs
    · cases hs
      have h0 : ev ∈ ({ j with s := { j.s with queued := j.s.queued - 1 } } : J).s.log := h
      generalize { j with s := { j.s with queued := j.s.queued - 1 } } = j0 at h0
      unfold Make.startProcesses
      split
      · exact h0
      · have hf : ev ∈ (outcome (if j0.s.next.isNone then findNextTarget env cfg a (j0.s.g.ids.length + 1) j0 else .ok j0)).s.log := by
          split
          · exact (findNext_onward env cfg a _ j0).log ev h0
          · exact h0
        revert hf
        generalize (if j0.s.next.isNone then findNextTarget env cfg a (j0.s.g.ids.length + 1) j0 else .ok j0) = r
        cases r with
        | error j1 =>
          intro hf
          have hf : ev ∈ j1.s.log := hf
          simpa [onException, finishBuild] using Or.inl hf
        | ok j1 =>
          intro hf
          have hf : ev ∈ j1.s.log := hf
          simp only
          split
          · split
            · exact schedBuild_log cfg _ _ ev hf
            · exact hf
          · split
            · split
              · simpa [finishBuild] using hf
              · show ev ∈ (rebuild ..).log
                unfold rebuild
                split <;> exact hf
            · exact hf
    · cases hs
  | grant =>
    simp only [Make.step] at hs
    split at hs
    · cases hs; exact h
    · cases hs
  | acquired asked res writes inWait =>
    simp only [Make.step] at hs
    split at hs
    · cases hs
      have := schedBuild_log cfg res { j.s with acquiring := false, granted := false } ev h
      split <;> exact this
    · cases hs
  | childFinished e failed =>
    simp only [Make.step] at hs
    split at hs
    · cases hs
    · split at hs
      · cases hs
        exact childFinished_keeps cfg _ _ _ _ ev h
      · cases hs
  | abortDone =>
    simp only [Make.step] at hs
    split at hs
    · cases hs; exact h
    · cases hs
  | write file value =>
    cases hs
    exact h

/-! ### The file of the parent -/

/-- The file `G` is not younger than `T`, and jom does not think so. -/
structure OldFile (env : Env) (G : Str) (T : Nat) (f : FileInfo.St) : Prop where
  disk : ∀ τ, f.disk G = some τ → τ ≤ T
  cache : ∀ n τ, FileInfo.cached n f.cache = some τ → env.abs n = G → τ ≤ T

theorem OldFile.query {f : FileInfo.St} (h : OldFile env G T f) (n : Str) : OldFile env G T (FileInfo.query env.abs n f).1 := by
  unfold FileInfo.query
  split
  · exact h
  · split
    · exact h
    · next t hd =>
      refine ⟨h.disk, fun m τ hm hG => ?_⟩
      unfold FileInfo.cached at hm
      split at hm
      · next he =>
        have he : n = m := he
        subst he
        cases hm
        rw [hG] at hd
        exact h.disk _ hd
      · exact h.cache m τ hm hG

theorem OldFile.remember {asked : Str → Bool} {names : List Str} {f : FileInfo.St} (h : OldFile env G T f) :
    OldFile env G T (remember env asked names f) := by
  unfold Make.remember
  induction names.filter asked generalizing f with
  | nil => exact h
  | cons n ns ih => exact ih (h.query n)

theorem OldFile.answer {f : FileInfo.St} (h : OldFile env G T f) {n : Str} (hn : env.abs n = G) {τ : Nat}
    (hq : (FileInfo.query env.abs n f).2 = some τ) : τ ≤ T := by
  unfold FileInfo.query at hq
  split at hq
  · next t ht => cases hq; exact h.cache n _ ht hn
  · split at hq
    · cases hq
    · next t hd => cases hq; rw [hn] at hd; exact h.disk _ hd

theorem cached_of_filter {n m : Str} {τ : Nat} : ∀ l : List (Str × Nat), FileInfo.cached n (l.filter (·.1 ≠ m)) = some τ → FileInfo.cached n l = some τ := by
  intro l
  by_cases hnm : n = m
  · subst hnm
    intro h
    exfalso
    induction l with
    | nil => cases h
    | cons e l ih =>
      rw [List.filter_cons] at h
      split at h
      · next he =>
        unfold FileInfo.cached at h
        rw [if_neg (by simpa using he)] at h
        exact ih h
      · exact ih h
  · induction l with
    | nil => exact id
    | cons e l ih =>
      intro h
      rw [List.filter_cons] at h
      split at h
      · unfold FileInfo.cached at h ⊢
        split at h
        · next he => rw [if_pos he]; exact h
        · next he => rw [if_neg he]; exact ih h
      · next he =>
        have he : e.1 = m := by simpa using he
        unfold FileInfo.cached
        rw [if_neg (fun h' => hnm (h'.symm.trans he))]
        exact ih h

/-- Reading the times of the dependents ends with the present time if a dependent has commands and no file. -/
theorem latest_now {w : World} {info : Nat → TInfo} {d : Str} (hl : w.lookup d = some x) (he : (info x).fileExists = false) (hc : (info x).hasCmds = true) :
    ∀ (ds : List Str) (l : Nat), d ∈ ds → latestTime w info ds l = w.now := by
  intro ds
  induction ds with
  | nil => intro l h; cases h
  | cons e ds ih =>
    intro l h
    unfold latestTime
    simp only
    split
    · rfl
    · next hn =>
      have hne : e ≠ d := by
        rintro rfl
        apply hn
        simp [hl, he, hc]
      have hd : d ∈ ds := (List.mem_cons.1 h).elim (fun h => absurd h.symm hne) id
      have key : ∀ ts l' : Nat, (if ts = 0 then w.now else latestTime w info ds l') = w.now := by
        intro ts l'
        by_cases hts : ts = 0
        · rw [if_pos hts]
        · rw [if_neg hts]
          exact ih _ hd
      exact key _ _

/-- What is known about a target with commands that depends on one without file. -/
structure Parent (env : Env) (F : Str) (x : Nat) (G : Str) (p T : Nat) (m : Mem) : Prop where
  phony : Phony env F x m
  old : OldFile env G T m.files
  name : env.abs (m.info p).name = G
  dep : ∃ d ∈ (m.info p).deps, env.lookup d = some x
  cmds : (m.info p).hasCmds = true
  young : (m.info p).fileExists = true → (m.info p).time ≤ T

theorem Parent.tested {m : Mem} (h : Parent env F x G p T m) {now : Nat} (hnow : T < now) :
    (isTargetUpToDate (world env now m.files) p m.info).2 = false ∧
    (((isTargetUpToDate (world env now m.files) p m.info).1 p).fileExists = true →
      ((isTargetUpToDate (world env now m.files) p m.info).1 p).time ≤ T) := by
  let w := world env now m.files
  obtain ⟨d, hd, hl⟩ := h.dep
  obtain ⟨hr1, hr2, hr3, hr4⟩ := readFile_deps w p m.info p
  have hx : (readFile w p m.info x).fileExists = false ∧ (readFile w p m.info x).hasCmds = true := by
    by_cases hxp : x = p
    · subst hxp
      have : readFile w x m.info = m.info := by
        unfold readFile
        rw [show w.fi (m.info x).name = none from h.phony.files.answer h.phony.name]
      rw [this]
      exact ⟨h.phony.away, h.phony.cmds⟩
    · rw [readFile_other w p m.info hxp]
      exact ⟨h.phony.away, h.phony.cmds⟩
  have hy : (readFile w p m.info p).fileExists = true → (readFile w p m.info p).time ≤ T := by
    unfold readFile
    cases hfi : w.fi (m.info p).name with
    | none => exact h.young
    | some τ =>
      simp only [upd_same]
      exact fun _ => h.old.answer h.name hfi
  have hne : (readFile w p m.info p).deps.isEmpty = false := by
    rw [hr1]
    cases hds : (m.info p).deps with
    | nil => rw [hds] at hd; cases hd
    | cons => rfl
  have hlat : latestTime w (readFile w p m.info) (readFile w p m.info p).deps 0 = now :=
    latest_now (w := w) hl hx.1 hx.2 _ _ (by rw [hr1]; exact hd)
  have hcmp : (compareTimes w p (readFile w p m.info)).2 = false ∧
      (((compareTimes w p (readFile w p m.info)).1 p).fileExists = true → ((compareTimes w p (readFile w p m.info)).1 p).time ≤ T) := by
    unfold compareTimes
    simp only [hne, Bool.false_eq_true, if_false, hlat, upd_same]
    cases he : (readFile w p m.info p).fileExists with
    | false => simp
    | true =>
      have := hy he
      simp only [if_true, he, Bool.true_and, decide_eq_false_iff_not, Nat.not_le]
      exact ⟨by omega, fun _ => this⟩
  have hchk : checkInferred w p (compareTimes w p (readFile w p m.info)) = compareTimes w p (readFile w p m.info) := by
    unfold checkInferred
    simp [hcmp.1]
  show (isTargetUpToDate w p m.info).2 = false ∧ (((isTargetUpToDate w p m.info).1 p).fileExists = true → ((isTargetUpToDate w p m.info).1 p).time ≤ T)
  unfold isTargetUpToDate
  rw [hchk]
  unfold finish
  refine ⟨hcmp.1, ?_⟩
  simp only [hcmp.1, Bool.not_false, Bool.true_and]
  split
  · simp [upd_same]
  · exact hcmp.2

theorem Parent.test {m : Mem} (h : Parent env F x G p T m) {now : Nat} (hnow : T < now) (asked : Str → Bool) (t : Nat) :
    Parent env F x G p T (test env now asked t m).1 ∧ (t = p → (test env now asked t m).2 = false) := by
  have hg := test_static (world env now m.files) t m.info p
  obtain ⟨d, hd, hl⟩ := h.dep
  refine ⟨⟨(h.phony.test now asked t).1, h.old.remember, ?_, ⟨d, hg.deps hd, hl⟩, hg.cmds h.cmds, ?_⟩, ?_⟩
  · show env.abs ((isTargetUpToDate _ t m.info).1 p).name = G
    rw [hg.1]
    exact h.name
  · show ((isTargetUpToDate (world env now m.files) t m.info).1 p).fileExists = true → ((isTargetUpToDate (world env now m.files) t m.info).1 p).time ≤ T
    by_cases hp : p = t
    · subst hp
      exact (h.tested hnow).2
    · rw [test_info_other hp]
      exact h.young
  · rintro rfl
    exact (h.tested hnow).1

theorem Parent.checkLeaves {now : Nat} (hnow : T < now) {asked : Str → Bool} {state : Nat → NState} : ∀ (ls : List Nat) {m : Mem}, Parent env F x G p T m →
    Parent env F x G p T (checkLeaves env now asked state ls m).1 ∧ p ∉ (Make.checkLeaves env now asked state ls m).2 := by
  intro ls
  induction ls with
  | nil => intro m h; exact ⟨h, by simp [Make.checkLeaves]⟩
  | cons l ls ih =>
    intro m h
    simp only [Make.checkLeaves]
    split
    · exact ih h
    · obtain ⟨h1, h2⟩ := h.test hnow asked l
      obtain ⟨h3, h4⟩ := ih h1
      refine ⟨h3, ?_⟩
      split
      · next hb =>
        intro hx
        rcases List.mem_cons.1 hx with hx | hx
        · rw [h2 hx.symm] at hb; cases hb
        · exact h4 hx
      · exact h4

theorem Parent.dirtyLoop {now : Nat} (hnow : T < now) {asked : Str → Bool} : ∀ (fuel : Nat) (g : Graph) {m : Mem}, Parent env F x G p T m →
    Parent env F x G p T (dirtyLoop env now asked fuel g m).2.1 ∧ p ∉ (Make.dirtyLoop env now asked fuel g m).2.2 := by
  intro fuel
  induction fuel with
  | zero => intro g m h; exact ⟨h, by simp [Make.dirtyLoop]⟩
  | succ n ih =>
    intro g m h
    simp only [Make.dirtyLoop]
    split
    · obtain ⟨h1, h2⟩ := h.checkLeaves hnow (asked := asked) (state := g.state) g.leaves
      obtain ⟨h3, h4⟩ := ih ((Make.checkLeaves env now asked g.state g.leaves m).2.foldl removeLeafNode { g with dirty := false }) h1
      exact ⟨h3, by simp only [List.mem_append, not_or]; exact ⟨h2, h4⟩⟩
    · exact ⟨h, by simp⟩

theorem Parent.prune {now : Nat} (hnow : T < now) {asked : Str → Bool} {ig : Bool} {g : Graph} {m : Mem} (h : Parent env F x G p T m) :
    Parent env F x G p T (prune env now asked ig g m).2.1 ∧ p ∉ (Make.prune env now asked ig g m).2.2 := by
  unfold Make.prune
  split
  · exact ⟨h, by simp⟩
  · exact h.dirtyLoop hnow _ g

theorem Parent.applyRule {choose : Nat → Str} {m : Mem} (h : Parent env F x G p T m) (l : Nat) : Parent env F x G p T (applyRule env choose m l) := by
  have hg := applyRule_grow env choose m l p
  obtain ⟨d, hd, hl⟩ := h.dep
  refine ⟨h.phony.applyRule l, ?_, by rw [hg.1]; exact h.name, ⟨d, hg.deps hd, hl⟩, hg.cmds h.cmds, ?_⟩
  · unfold Make.applyRule
    split <;> exact h.old
  · unfold Make.applyRule
    split
    · exact h.young
    · by_cases hx : p = l
      · subst hx; simp only [upd_same]; exact h.young
      · simp only [upd_other _ _ hx]; exact h.young

theorem Parent.applyRules {choose : Nat → Str} : ∀ (ls : List Nat) {m : Mem}, Parent env F x G p T m → Parent env F x G p T (ls.foldl (Make.applyRule env choose) m) := by
  intro ls
  induction ls with
  | nil => intro m h; exact h
  | cons l ls ih => intro m h; exact ih (h.applyRule l)

/-- It has not been found up to date, nor without commands. -/
structure Due (env : Env) (F : Str) (x : Nat) (G : Str) (p T : Nat) (j : J) : Prop where
  mem : Parent env F x G p T j.m
  log : ∀ b, Ev.upToDate b p ∉ j.s.log ∧ Ev.noCommands b p ∉ j.s.log

theorem Due.findNext (cfg : Cfg) {a : Answers} (hnow : T < a.now) : ∀ i {j : J}, Due env F x G p T j → Due env F x G p T (outcome (findNextTarget env cfg a i j)) := by
  intro i
  induction i with
  | zero => intro j h; exact h
  | succ i ih =>
    intro j h
    simp only [findNextTarget]
    split
    · exact ⟨h.mem, h.log⟩
    · have hp := h.mem.prune hnow (asked := a.asked) (ig := cfg.buildAll) (g := j.s.g)
      generalize prune env a.now a.asked cfg.buildAll j.s.g j.m = pr at hp ⊢
      obtain ⟨g, m, gone⟩ := pr
      simp only at hp ⊢
      have hl : ∀ b, Ev.upToDate b p ∉ j.s.log ++ gone.map (.upToDate j.s.build ·) ∧ Ev.noCommands b p ∉ j.s.log ++ gone.map (.upToDate j.s.build ·) := by
        intro b
        simp only [List.mem_append, List.mem_map, not_or, Ev.upToDate.injEq, reduceCtorEq, and_false, exists_false, not_false_eq_true, and_true]
        refine ⟨⟨(h.log b).1, ?_⟩, (h.log b).2⟩
        rintro ⟨y, hy, _, rfl⟩
        exact hp.2 hy
      split
      · exact ⟨hp.1, hl⟩
      · have hr := hp.1.applyRules (choose := a.choose) g.leaves
        generalize List.foldl (Make.applyRule env a.choose) m g.leaves = m1 at hr ⊢
        generalize pick g = pk
        obtain ⟨g1, r⟩ := pk
        cases r with
        | none => exact ⟨hr, hl⟩
        | some t =>
          simp only
          have h2 : Parent env F x G p T (if cfg.buildAll = true then (Make.test env a.now a.asked t m1).1 else m1) := by
            split
            · exact (hr.test hnow a.asked t).1
            · exact hr
          generalize (if cfg.buildAll = true then (Make.test env a.now a.asked t m1).1 else m1) = m2 at h2 ⊢
          split
          · next hc =>
            refine ih ⟨h2, fun b => ?_⟩
            refine ⟨fun hx => (List.mem_append.1 hx).elim (hl b).1 (by simp), fun hx => (List.mem_append.1 hx).elim (hl b).2 fun hx => ?_⟩
            rw [List.mem_singleton] at hx
            cases hx
            rw [h2.cmds] at hc
            cases hc
          · split
            · refine ih ⟨h2, fun b => ?_⟩
              exact ⟨fun hx => (List.mem_append.1 hx).elim (hl b).1 (by simp), fun hx => (List.mem_append.1 hx).elim (hl b).2 (by simp)⟩
            · exact ⟨h2, hl⟩

theorem Parent.writes : ∀ (ws : List (Str × Option Nat)) {m : Mem}, Parent env F x G p T m → (∀ w ∈ ws, w.1 = F → w.2 = none) → (∀ w ∈ ws, w.1 ≠ G) →
    Parent env F x G p T (ws.foldl write m) := by
  intro ws
  induction ws with
  | nil => intro m h _ _; exact h
  | cons w ws ih =>
    intro m h hw hG
    refine ih ⟨Phony.writes [w] h.phony fun w' hw' => by rw [List.mem_singleton.1 hw']; exact hw w List.mem_cons_self, ⟨fun τ hτ => ?_, h.old.cache⟩,
      h.name, h.dep, h.cmds, h.young⟩ (fun w' hw' => hw w' (List.mem_cons_of_mem _ hw')) fun w' hw' => hG w' (List.mem_cons_of_mem _ hw')
    have hτ : (if G = w.1 then w.2 else m.files.disk G) = some τ := hτ
    rw [if_neg fun he => hG w List.mem_cons_self he.symm] at hτ
    exact h.old.disk τ hτ

theorem Parent.forget {m : Mem} (h : Parent env F x G p T m) (t : Nat) : Parent env F x G p T (forget t m) :=
  ⟨h.phony.forget t, ⟨h.old.disk, fun n τ hn hG => h.old.cache n τ (cached_of_filter _ hn) hG⟩, h.name, h.dep, h.cmds, h.young⟩

theorem Due.build {asked : Str → Bool} {res : StartRes} {writes : List (Str × Option Nat)} {j : J} (h : Due env F x G p T j)
    (hw : ∀ w ∈ writes, w.1 = F → w.2 = none) (hG : ∀ w ∈ writes, w.1 ≠ G) : Due env F x G p T (buildNextTarget env cfg asked res writes j) := by
  constructor
  · unfold Make.buildNextTarget
    simp only
    split
    · exact h.mem
    · split
      · exact h.mem
      · have h1 : ∀ names, Parent env F x G p T { j.m with files := Make.remember env asked names j.m.files } :=
          fun names => ⟨⟨h.mem.phony.files.remember, h.mem.phony.name, h.mem.phony.away, h.mem.phony.cmds⟩, h.mem.old.remember, h.mem.name, h.mem.dep,
            h.mem.cmds, h.mem.young⟩
        split
        · exact ((h1 _).writes writes hw hG).forget _
        · exact h1 _
  · intro b
    show Ev.upToDate b p ∉ (Sched.buildNextTarget cfg res j.s).log ∧ Ev.noCommands b p ∉ (Sched.buildNextTarget cfg res j.s).log
    unfold Sched.buildNextTarget
    split
    · exact h.log b
    · split
      · exact h.log b
      · split
        · exact h.log b
        · split
          · simpa [onException, finishBuild] using h.log b
          · simpa [begun, begin] using h.log b
          · next f =>
            simp only [begun]
            rw [(childFinished_fields cfg _ _ f _).log]
            cases f <;> simpa [begin] using h.log b

theorem Due.step {j j' : J} {e : Event} (h : Due env F x G p T j) (hl : LeavesAway F e) (hn : Since T e) (hG : ¬ Changes G e)
    (hs : Make.step env cfg j e = some j') : Due env F x G p T j' := by
  cases e with
  | startProcesses a =>
    simp only [Make.step] at hs
    split at hs
    · cases hs
      have h0 : Due env F x G p T { j with s := { j.s with queued := j.s.queued - 1 } } := ⟨h.mem, h.log⟩
      generalize { j with s := { j.s with queued := j.s.queued - 1 } } = j0 at h0
      unfold Make.startProcesses
      split
      · exact h0
      · have hf : Due env F x G p T (outcome (if j0.s.next.isNone then findNextTarget env cfg a (j0.s.g.ids.length + 1) j0 else .ok j0)) := by
          split
          · exact h0.findNext cfg hn _
          · exact h0
        revert hf
        generalize (if j0.s.next.isNone then findNextTarget env cfg a (j0.s.g.ids.length + 1) j0 else .ok j0) = r
        cases r with
        | error j1 =>
          intro hf
          have hf : Due env F x G p T j1 := hf
          exact ⟨hf.mem, by simpa [onException, finishBuild] using hf.log⟩
        | ok j1 =>
          intro hf
          have hf : Due env F x G p T j1 := hf
          simp only
          split
          · split
            · exact hf.build hl fun w hw he => hG ⟨w, hw, he⟩
            · exact ⟨hf.mem, hf.log⟩
          · split
            · split
              · exact ⟨hf.mem, hf.log⟩
              · refine ⟨⟨⟨⟨hf.mem.phony.files.disk, hf.mem.phony.files.cache⟩, hf.mem.phony.name, rfl, hf.mem.phony.cmds⟩,
                  ⟨hf.mem.old.disk, hf.mem.old.cache⟩, hf.mem.name, hf.mem.dep, hf.mem.cmds, fun h => by cases h⟩, ?_⟩
                intro b
                show Ev.upToDate b p ∉ (rebuild ..).log ∧ Ev.noCommands b p ∉ (rebuild ..).log
                unfold rebuild
                split <;> exact hf.log b
            · exact hf
    · cases hs
  | grant =>
    simp only [Make.step] at hs
    split at hs
    · cases hs; exact ⟨h.mem, h.log⟩
    · cases hs
  | acquired asked res writes inWait =>
    simp only [Make.step] at hs
    split at hs
    · cases hs
      have := Due.build (cfg := cfg) (asked := asked) (res := res) (j := { j with s := { j.s with acquiring := false, granted := false } }) ⟨h.mem, h.log⟩ hl
        fun w hw he => hG ⟨w, hw, he⟩
      split
      · exact ⟨this.mem, this.log⟩
      · exact this
    · cases hs
  | childFinished e failed =>
    simp only [Make.step] at hs
    split at hs
    · cases hs
    · split at hs
      · next t _ =>
        cases hs
        refine ⟨h.mem.forget t, fun b => ?_⟩
        simp only
        rw [(childFinished_fields cfg e t failed j.s).log]
        cases failed <;> simpa using h.log b
      · cases hs
  | abortDone =>
    simp only [Make.step] at hs
    split at hs
    · cases hs; exact ⟨h.mem, h.log⟩
    · cases hs
  | write file value =>
    cases hs
    exact ⟨Parent.writes [(file, value)] h.mem (fun w hw => by rw [List.mem_singleton.1 hw]; exact hl)
      (fun w hw => by rw [List.mem_singleton.1 hw]; exact hG), h.log⟩

/-- The parent has been started, or it has not been found up to date so far. -/
theorem Run.due {info : Nat → TInfo} {disk : Str → Option Nat} {ok : J → Event → Prop} {j : J} (h : Run env cfg info disk ok j)
    (hok : ∀ j e, ok j e → LeavesAway F e ∧ Since T e ∧ OnlyAfterStart env cfg p G j e)
    (hF : env.abs (info x).name = F) (hd : disk F = none) (he : (info x).fileExists = false) (hc : (info x).hasCmds = true)
    (hG : env.abs (info p).name = G) (hT : ∀ τ, disk G = some τ → τ ≤ T) (hpe : (info p).fileExists = false) (hpc : (info p).hasCmds = true)
    {d : Str} (hpd : d ∈ (info p).deps) (hl : env.lookup d = some x) :
    (∃ b, Ev.started b p ∈ j.s.log) ∨ Due env F x G p T j := by
  have asked : ∀ {j : J} (names : List Str), Due env F x G p T j → Due env F x G p T { j with m := buildAsked env names j.m } :=
    fun names h => ⟨⟨⟨h.mem.phony.files.remember, h.mem.phony.name, h.mem.phony.away, h.mem.phony.cmds⟩, h.mem.old.remember, h.mem.name, h.mem.dep, h.mem.cmds,
      h.mem.young⟩, h.log⟩
  induction h with
  | start names _ _ =>
    refine .inr (asked (j := { s := Sched.init cfg, m := { info := info, files := { disk := disk, cache := [] } } }) names
      ⟨⟨⟨⟨hd, fun n τ h => by cases h⟩, hF, he, hc⟩, ⟨hT, fun n τ h => by cases h⟩, hG, ⟨d, hpd, hl⟩, hpc, fun h => ?_⟩, fun b => ?_⟩)
    · exact absurd (hpe.symm.trans h) (by decide)
    · simp [(init_log cfg).1]
  | @step j0 j' e names _ hw hs _ _ ih =>
    obtain ⟨h1, h2, h3⟩ := hok _ _ hw
    have key : (∃ b, Ev.started b p ∈ j'.s.log) ∨ Due env F x G p T j' := by
      rcases ih with ⟨b, hb⟩ | hdue
      · exact .inl ⟨b, step_log hs _ hb⟩
      · by_cases hch : Changes G e
        · exact .inl (h3 hch j' hs)
        · exact .inr (hdue.step h1 h2 hch hs)
    rcases key with ⟨b, hb⟩ | hdue
    · refine .inl ⟨b, ?_⟩
      split <;> exact hb
    · refine .inr ?_
      split
      · exact asked names hdue
      · exact hdue

end Jom.Make
