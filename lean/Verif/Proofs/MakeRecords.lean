/- How the records of the targets change during a build, and what the dependents of the graphs are. -/
import Verif.Proofs.MakeSecond

namespace Jom.Make

open Jom.Graph Jom.Sched Jom.UpToDate

/-- The record is the same but for the file, or an inference rule has been applied. -/
def Grown (x x' : TInfo) : Prop :=
  x'.name = x.name ∧
  ((x'.deps = x.deps ∧ x'.hasCmds = x.hasCmds ∧ x'.rules = x.rules) ∨
    ∃ r ∈ x.rules, x'.rules = [] ∧ x'.hasCmds = true ∧ ∀ d, d ∈ x'.deps ↔ d ∈ x.deps ∨ d = r)

theorem Grown.refl (x : TInfo) : Grown x x := ⟨rfl, .inl ⟨rfl, rfl, rfl⟩⟩

theorem Grown.trans {x y z : TInfo} (h : Grown x y) (h' : Grown y z) : Grown x z := by
  obtain ⟨n, h⟩ := h
  obtain ⟨n', h'⟩ := h'
  refine ⟨n'.trans n, ?_⟩
  rcases h with ⟨a, b, c⟩ | ⟨r, hr, a, b, c⟩
  · rcases h' with ⟨a', b', c'⟩ | ⟨r, hr, a', b', c'⟩
    · exact .inl ⟨a'.trans a, b'.trans b, c'.trans c⟩
    · exact .inr ⟨r, c ▸ hr, a', b', fun d => by rw [c' d, a]⟩
  · rcases h' with ⟨a', b', c'⟩ | ⟨r', hr', _⟩
    · exact .inr ⟨r, hr, by rw [c', a], by rw [b', b], fun d => by rw [a', c d]⟩
    · rw [a] at hr'; cases hr'

theorem Grown.cmds {x x' : TInfo} (h : Grown x x') (hc : x.hasCmds = true) : x'.hasCmds = true := by
  rcases h.2 with ⟨_, b, _⟩ | ⟨_, _, _, b, _⟩
  · rw [b, hc]
  · exact b

theorem Grown.deps {x x' : TInfo} (h : Grown x x') {d : Str} (hd : d ∈ x.deps) : d ∈ x'.deps := by
  rcases h.2 with ⟨a, _⟩ | ⟨_, _, _, _, c⟩
  · rw [a]; exact hd
  · exact (c d).2 (.inl hd)

theorem Grown.inferred {x x' : TInfo} (h : Grown x x') {d : Str} (hd : d ∈ x'.deps) : d ∈ x.deps ∨ d ∈ x.rules := by
  rcases h.2 with ⟨a, _⟩ | ⟨r, hr, _, _, c⟩
  · rw [a] at hd; exact .inl hd
  · exact ((c d).1 hd).imp id fun e => by rw [e]; exact hr

/-- The fields that a test does not touch. -/
theorem test_static (w : World) (t : Nat) (info : Nat → TInfo) (k : Nat) : Grown (info k) ((isTargetUpToDate w t info).1 k) := by
  have hsame : ∀ x y : TInfo, y.name = x.name → y.deps = x.deps → y.hasCmds = x.hasCmds → y.rules = x.rules → Grown x y :=
    fun x y h1 h2 h3 h4 => ⟨h1, .inl ⟨h2, h3, h4⟩⟩
  have hread : Grown (info k) (readFile w t info k) := by
    obtain ⟨h1, h2, h3, h4⟩ := readFile_deps w t info k
    exact hsame _ _ h3 h1 h4 h2
  have hcmp : ∀ info : Nat → TInfo, Grown (info k) ((compareTimes w t info).1 k) := by
    intro info
    unfold compareTimes
    simp only
    split
    · exact .refl _
    · by_cases hk : k = t
      · subst hk
        simp only [upd_same]
        split
        · exact .refl _
        · exact hsame _ _ rfl rfl rfl rfl
      · simp only
        rw [upd_other _ _ hk]; exact .refl _
  have hfin : ∀ r : (Nat → TInfo) × Bool, Grown (r.1 k) ((finish t r).1 k) := by
    intro r
    unfold finish
    simp only
    split
    · by_cases hk : k = t
      · subst hk; rw [upd_same]; exact hsame _ _ rfl rfl rfl rfl
      · rw [upd_other _ _ hk]; exact .refl _
    · exact .refl _
  have hchk : ∀ r : (Nat → TInfo) × Bool, Grown (r.1 k) ((checkInferred w t r).1 k) := by
    intro r
    rcases checkInferred_cases w t r with h | ⟨deps, h⟩
    · rw [h]; exact .refl _
    · rw [h]
      obtain ⟨h1, h2⟩ := plain_effect w t (upd r.1 t { r.1 t with deps := deps, rules := [] })
      by_cases hk : k = t
      · subst hk
        simp only [upd_same]
        simp only [upd_same] at h2
        rw [h2]
        exact hsame _ _ rfl rfl rfl rfl
      · simp only
        rw [upd_other _ _ hk, h1 k hk, upd_other _ _ hk]; exact .refl _
  unfold isTargetUpToDate
  exact ((hread.trans (hcmp _)).trans (hchk _)).trans (hfin _)

/-- Records of all targets. -/
def Grow (m m' : Mem) : Prop := ∀ k, Grown (m.info k) (m'.info k)

theorem Grow.refl (m : Mem) : Grow m m := fun _ => .refl _

theorem Grow.trans {m m' m'' : Mem} (h : Grow m m') (h' : Grow m' m'') : Grow m m'' := fun k => (h k).trans (h' k)

theorem Grow.same {m m' : Mem} (h : m'.info = m.info) : Grow m m' := fun k => by rw [h]; exact .refl _

theorem checkLeaves_grow (env : Env) (now : Nat) (asked : Str → Bool) (state : Nat → NState) : ∀ ls m,
    Grow m (checkLeaves env now asked state ls m).1 := by
  intro ls
  induction ls with
  | nil => intro m; exact .refl _
  | cons l ls ih =>
    intro m
    simp only [checkLeaves]
    split
    · exact ih m
    · exact Grow.trans (fun k => test_static _ l m.info k) (ih _)

theorem dirtyLoop_grow (env : Env) (now : Nat) (asked : Str → Bool) : ∀ fuel g m, Grow m (dirtyLoop env now asked fuel g m).2.1 := by
  intro fuel
  induction fuel with
  | zero => intro g m; exact .refl _
  | succ n ih =>
    intro g m
    simp only [dirtyLoop]
    split
    · exact (checkLeaves_grow env now asked g.state g.leaves m).trans (ih _ _)
    · exact .refl _

theorem prune_grow (env : Env) (now : Nat) (asked : Str → Bool) (ig : Bool) (g : Graph) (m : Mem) :
    Grow m (prune env now asked ig g m).2.1 := by
  unfold prune
  split
  · exact .refl _
  · exact dirtyLoop_grow env now asked _ g m

theorem applyRule_grow (env : Env) (choose : Nat → Str) (m : Mem) (l : Nat) : Grow m (applyRule env choose m l) := by
  rcases applyRule_cases env choose m l with ⟨h, _⟩ | ⟨d, hd, _, h1, ds, h2, h3⟩
  · rw [h]; exact .refl _
  · intro k
    by_cases hk : k = l
    · subst hk
      rw [h2]
      exact ⟨rfl, .inr ⟨d, (List.mem_filter.1 hd).1, rfl, rfl, h3⟩⟩
    · rw [h1 k hk]; exact .refl _

theorem applyRules_grow (env : Env) (choose : Nat → Str) : ∀ (ls : List Nat) m, Grow m (ls.foldl (applyRule env choose) m) := by
  intro ls
  induction ls with
  | nil => intro m; exact .refl _
  | cons l ls ih => intro m; exact (applyRule_grow env choose m l).trans (ih _)

/-- The next target and everything that was started has commands. -/
def Armed (m : Mem) (s : St) : Prop :=
  (∀ t, s.next = some t → (m.info t).hasCmds = true) ∧ ∀ b t, Ev.started b t ∈ s.log → (m.info t).hasCmds = true

theorem Armed.grow {m m' : Mem} {s : St} (h : Armed m s) (hg : Grow m m') : Armed m' s :=
  ⟨fun t ht => (hg t).cmds (h.1 t ht), fun b t ht => (hg t).cmds (h.2 b t ht)⟩

theorem Armed.log {m : Mem} {s s' : St} (h : Armed m s) (hn : ∀ t, s'.next = some t → (m.info t).hasCmds = true)
    (hl : ∀ b t, Ev.started b t ∈ s'.log → Ev.started b t ∈ s.log) : Armed m s' :=
  ⟨hn, fun b t ht => h.2 b t (hl b t ht)⟩

/-- The state after a call that may throw. -/
def outcome : Except J J → J
  | .ok j => j
  | .error j => j

theorem findNext_armed (env : Env) (cfg : Cfg) (a : Answers) : ∀ i (j : J), Armed j.m j.s → j.s.next = none →
    Grow j.m (outcome (findNextTarget env cfg a i j)).m ∧
    Armed (outcome (findNextTarget env cfg a i j)).m (outcome (findNextTarget env cfg a i j)).s ∧
    (outcome (findNextTarget env cfg a i j)).s.build = j.s.build := by
  intro i
  induction i with
  | zero => intro j h _; exact ⟨.refl _, h, rfl⟩
  | succ i ih =>
    intro j h hnone
    simp only [findNextTarget]
    split
    · exact ⟨.refl _, h.log (by simp [outcome]) fun _ _ h => h, rfl⟩
    · have hp := prune_grow env a.now a.asked cfg.buildAll j.s.g j.m
      generalize prune env a.now a.asked cfg.buildAll j.s.g j.m = pr at hp ⊢
      obtain ⟨g, m, gone⟩ := pr
      simp only at hp ⊢
      split
      · refine ⟨hp, (h.grow hp).log (by simp [hnone, outcome]) ?_, rfl⟩
        intro b t ht; simpa [outcome] using ht
      · have hr := hp.trans (applyRules_grow env a.choose g.leaves m)
        generalize List.foldl (applyRule env a.choose) m g.leaves = m1 at hr ⊢
        generalize pick g = pk
        obtain ⟨g1, r⟩ := pk
        cases r with
        | none =>
          refine ⟨hr, (h.grow hr).log (by simp [outcome]) ?_, rfl⟩
          intro b t ht; simpa [outcome] using ht
        | some t =>
          simp only
          have h2 : Grow j.m (if cfg.buildAll = true then (test env a.now a.asked t m1).1 else m1) := by
            split
            · exact hr.trans fun k => test_static _ t m1.info k
            · exact hr
          generalize (if cfg.buildAll = true then (test env a.now a.asked t m1).1 else m1) = m2 at h2 ⊢
          split
          · have hA : Armed m2 { j.s with
                g := removeLeaf g1 t, next := none, log := (j.s.log ++ gone.map (.upToDate j.s.build ·)) ++ [.noCommands j.s.build t] } :=
              (h.grow h2).log (by simp) (by intro b t ht; simpa using ht)
            have := ih { s := { j.s with
                g := removeLeaf g1 t, next := none, log := (j.s.log ++ gone.map (.upToDate j.s.build ·)) ++ [.noCommands j.s.build t] }, m := m2 } hA rfl
            obtain ⟨h3, h4, h5⟩ := this
            exact ⟨h2.trans h3, h4, h5⟩
          · next hc =>
            split
            · have hA : Armed m2 { j.s with
                  g := removeLeaf g1 t, next := none, log := (j.s.log ++ gone.map (.upToDate j.s.build ·)) ++ [.unbuildable j.s.build t] } :=
                (h.grow h2).log (by simp) (by intro b t ht; simpa using ht)
              have := ih { s := { j.s with
                  g := removeLeaf g1 t, next := none, log := (j.s.log ++ gone.map (.upToDate j.s.build ·)) ++ [.unbuildable j.s.build t] }, m := m2 } hA rfl
              obtain ⟨h3, h4, h5⟩ := this
              exact ⟨h2.trans h3, h4, h5⟩
            · refine ⟨h2, (h.grow h2).log ?_ ?_, rfl⟩
              · intro t' ht'
                cases ht'
                cases hb : (m2.info t).hasCmds with
                | true => rfl
                | false => exact absurd hb hc
              · intro b t ht; simpa [outcome] using ht

theorem handOver_log (e : Nat) (s : St) : (handOver e s).log = s.log ∧ (handOver e s).next = s.next ∧
    (handOver e s).build = s.build := by
  unfold handOver
  split
  · exact ⟨rfl, rfl, rfl⟩
  · simp only
    split
    · split <;> exact ⟨rfl, rfl, rfl⟩
    · exact ⟨rfl, rfl, rfl⟩

theorem childFinished_log (cfg : Cfg) (e t : Nat) (failed : Bool) (s : St) :
    (∀ b k, Ev.started b k ∈ (childFinished cfg e t failed s).log → Ev.started b k ∈ s.log) ∧
    (childFinished cfg e t failed s).next = s.next ∧ (childFinished cfg e t failed s).build = s.build := by
  unfold childFinished
  simp only
  refine ⟨?_, ?_, ?_⟩
  · intro b k h
    split at h <;> simp only [(handOver_log _ _).1] at h <;> (repeat' split at h) <;> simpa using h
  · split <;> simp only [(handOver_log _ _).2.1] <;> (repeat' split) <;> rfl
  · split <;> simp only [(handOver_log _ _).2.2] <;> (repeat' split) <;> rfl

theorem build_armed (env : Env) (cfg : Cfg) (asked : Str → Bool) (res : StartRes) (writes : List (Str × Option Nat)) (j : J)
    (h : Armed j.m j.s) : Grow j.m (buildNextTarget env cfg asked res writes j).m ∧
      Armed (buildNextTarget env cfg asked res writes j).m (buildNextTarget env cfg asked res writes j).s ∧
      (buildNextTarget env cfg asked res writes j).s.build = j.s.build := by
  have hinfo : (buildNextTarget env cfg asked res writes j).m.info = j.m.info := by
    have hw : ∀ (ws : List (Str × Option Nat)) (m : Mem), (ws.foldl write m).info = m.info := by
      intro ws
      induction ws with
      | nil => intro m; rfl
      | cons w ws ih => intro m; rw [List.foldl_cons, ih]; rfl
    unfold buildNextTarget
    simp only
    split
    · rfl
    · split
      · rfl
      · split
        · simp only [forget]; rw [hw]
        · rfl
  have hg : Grow j.m (buildNextTarget env cfg asked res writes j).m := .same hinfo
  refine ⟨hg, ?_⟩
  have h' := h.grow hg
  generalize (buildNextTarget env cfg asked res writes j).m = m' at h' ⊢
  rw [build_sched]
  unfold Sched.buildNextTarget
  split
  · exact ⟨⟨h'.1, h'.2⟩, rfl⟩
  · next t ht =>
    have hT := h'.1 t ht
    have hbegin : ∀ e rest b k, Ev.started b k ∈ (begin e t rest j.s).log → (m'.info k).hasCmds = true := by
      intro e rest b k hk
      simp only [begin, List.mem_append, List.mem_singleton, Ev.started.injEq] at hk
      rcases hk with hk | ⟨_, rfl⟩
      · exact h'.2 b k hk
      · exact hT
    split
    · exact ⟨h', rfl⟩
    · split
      · exact ⟨⟨h'.1, h'.2⟩, rfl⟩
      · next e avail _ =>
        split
        · refine ⟨h'.log ?_ ?_, rfl⟩
          · intro t' ht'; exact h'.1 t' ht'
          · intro b k hk
            simpa [onException, finishBuild] using hk
        · exact ⟨⟨by simp [begun], hbegin e avail⟩, rfl⟩
        · exact ⟨⟨by simp [begun], fun b k hk => hbegin _ _ b k ((childFinished_log cfg _ t _ _).1 b k hk)⟩,
            (childFinished_log cfg _ t _ _).2.2⟩

theorem start_armed (env : Env) (cfg : Cfg) (a : Answers) (j : J) (h : Armed j.m j.s) :
    Grow j.m (startProcesses env cfg a j).m ∧ Armed (startProcesses env cfg a j).m (startProcesses env cfg a j).s ∧
    (startProcesses env cfg a j).s.build ≤ j.s.build + 1 ∧ j.s.build ≤ (startProcesses env cfg a j).s.build := by
  unfold startProcesses
  split
  · exact ⟨.refl _, h, by omega, by omega⟩
  · have hf : Grow j.m (outcome (if j.s.next.isNone then findNextTarget env cfg a (j.s.g.ids.length + 1) j else .ok j)).m ∧
        Armed (outcome (if j.s.next.isNone then findNextTarget env cfg a (j.s.g.ids.length + 1) j else .ok j)).m
          (outcome (if j.s.next.isNone then findNextTarget env cfg a (j.s.g.ids.length + 1) j else .ok j)).s ∧
        (outcome (if j.s.next.isNone then findNextTarget env cfg a (j.s.g.ids.length + 1) j else .ok j)).s.build = j.s.build := by
      by_cases hn : j.s.next.isNone = true
      · rw [if_pos hn]
        exact findNext_armed env cfg a _ j h (by simpa using hn)
      · rw [if_neg hn]; exact ⟨.refl _, h, rfl⟩
    revert hf
    generalize (if j.s.next.isNone then findNextTarget env cfg a (j.s.g.ids.length + 1) j else .ok j) = r
    cases r with
    | error j' =>
      simp only [outcome]
      rintro ⟨h1, h2, h3⟩
      refine ⟨h1, h2.log h2.1 ?_, by simp only [onException, finishBuild]; omega, by simp only [onException, finishBuild]; omega⟩
      intro b k hk
      simpa [onException, finishBuild] using hk
    | ok j' =>
      simp only [outcome]
      rintro ⟨h1, h2, hb⟩
      split
      · split
        · obtain ⟨h3, h4, h5⟩ := build_armed env cfg a.asked a.res a.writes j' h2
          exact ⟨h1.trans h3, h4, by omega, by omega⟩
        · exact ⟨h1, ⟨h2.1, h2.2⟩, by simp only; omega, by simp only; omega⟩
      · split
        · split
          · exact ⟨h1, ⟨h2.1, h2.2⟩, by simp only [finishBuild]; omega, by simp only [finishBuild]; omega⟩
          · next t rest _ =>
            have h3 : Grow j'.m (invalidate j'.m) := fun k => ⟨rfl, .inl ⟨rfl, rfl, rfl⟩⟩
            have h4 := h2.grow h3
            refine ⟨h1.trans h3, ?_⟩
            simp only
            unfold rebuild
            split <;> exact ⟨⟨h4.1, h4.2⟩, by simp only; omega, by simp only; omega⟩
        · exact ⟨h1, h2, by omega, by omega⟩

theorem step_armed {env : Env} {cfg : Cfg} {j j' : J} {e : Event} (h : Armed j.m j.s) (hs : step env cfg j e = some j') :
    Grow j.m j'.m ∧ Armed j'.m j'.s ∧ j'.s.build ≤ j.s.build + 1 ∧ j.s.build ≤ j'.s.build := by
  cases e with
  | startProcesses a =>
    simp only [step] at hs
    split at hs
    · cases hs
      exact start_armed env cfg a { j with s := { j.s with queued := j.s.queued - 1 } } ⟨h.1, h.2⟩
    · cases hs
  | grant =>
    simp only [step] at hs
    split at hs
    · cases hs; exact ⟨.refl _, ⟨h.1, h.2⟩, by simp, by simp⟩
    · cases hs
  | acquired asked res writes inWait =>
    simp only [step] at hs
    split at hs
    · cases hs
      obtain ⟨h1, h2, h3⟩ := build_armed env cfg asked res writes { j with s := { j.s with acquiring := false, granted := false } } ⟨h.1, h.2⟩
      split
      · exact ⟨h1, ⟨h2.1, h2.2⟩, by simp only [h3]; omega, by simp only [h3]; omega⟩
      · exact ⟨h1, h2, by simp only [h3]; omega, by simp only [h3]; omega⟩
    · cases hs
  | childFinished e failed =>
    simp only [step] at hs
    split at hs
    · cases hs
    · split at hs
      · next t _ =>
        cases hs
        obtain ⟨h1, h2, h3⟩ := childFinished_log cfg e t failed j.s
        refine ⟨.refl _, h.log ?_ h1, by simp only [h3]; omega, by simp only [h3]; omega⟩
        rw [h2]; exact h.1
      · cases hs
  | abortDone =>
    simp only [step] at hs
    split at hs
    · cases hs; exact ⟨.refl _, ⟨h.1, h.2⟩, by simp [finishBuild], by simp [finishBuild]⟩
    · cases hs
  | write file value => cases hs; exact ⟨.refl _, ⟨h.1, h.2⟩, by simp, by simp⟩

/-- What is known about a run: the records, what was started, and the dependents of all graphs so far. -/
structure Recorded (env : Env) (cfg : Cfg) (info : Nat → TInfo) (j : J) : Prop where
  grown : ∀ k, Grown (info k) (j.m.info k)
  armed : Armed j.m j.s
  graphs : ∀ b ≤ j.s.build, ∃ m, (∀ k, Grown (info k) (m.info k)) ∧ DepsNow env cfg m b

theorem init_log (cfg : Cfg) : (Sched.init cfg).log = [] ∧ (Sched.init cfg).next = none ∧ (Sched.init cfg).build = 0 := by
  unfold Sched.init
  simp only
  split
  · exact ⟨rfl, rfl, rfl⟩
  · unfold rebuild
    split <;> split <;> exact ⟨rfl, rfl, rfl⟩

theorem buildAsked_info (env : Env) (names : List Str) (m : Mem) : (buildAsked env names m).info = m.info := rfl

theorem Run.recorded {env : Env} {cfg : Cfg} {info : Nat → TInfo} {disk : Str → Option Nat} {ok : J → Event → Prop} {j : J}
    (h : Run env cfg info disk ok j) : Recorded env cfg info j := by
  induction h with
  | start asked hd _ =>
    obtain ⟨h1, h2, h3⟩ := init_log cfg
    refine ⟨fun k => .refl _, ⟨by simp [h2], by simp [h1]⟩, fun b hb => ?_⟩
    simp only [h3, Nat.le_zero] at hb
    subst hb
    exact ⟨_, fun k => .refl _, hd⟩
  | @step j j' e asked _ _ hs hd _ ih =>
    obtain ⟨h1, h2, h3, h4⟩ := step_armed ih.armed hs
    have hg : ∀ k, Grown (info k) (j'.m.info k) := fun k => (ih.grown k).trans (h1 k)
    have : Recorded env cfg info j' := by
      refine ⟨hg, h2, fun b hb => ?_⟩
      by_cases hb' : b ≤ j.s.build
      · exact ih.graphs b hb'
      · have : b = j'.s.build := by omega
        subst this
        exact ⟨_, hg, hd (by omega)⟩
    split
    · exact ⟨this.grown, this.armed, this.graphs⟩
    · exact this

end Jom.Make
