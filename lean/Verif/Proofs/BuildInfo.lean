/- The lines of `/D` and the log of the scheduler. -/
import Verif.Spec.BuildInfo
import Verif.Proofs.MakeSplit

namespace Jom.Make

open Jom.Graph Jom.Sched Jom.UpToDate Jom.Spec.Build Jom.Spec.BuildInfo

variable {env : Env} {cfg : Cfg} {db : Db} {disk0 : Str → Option Nat}

/-! ### The lines and the log -/

/-- What a line says. -/
def says' (l : Line) : Bool × Nat := (l.upToDate, l.target)

theorem dirtyLines_says (env : Env) (now : Nat) (asked : Str → Bool) : ∀ fuel (g : Graph) (m : Mem),
    (dirtyLines env now asked fuel g m).map says' = (dirtyLoop env now asked fuel g m).2.2.map (true, ·) := by
  intro fuel
  induction fuel with
  | zero => intro g m; rfl
  | succ fuel ih =>
    intro g m
    simp only [dirtyLines, dirtyLoop]
    split
    · simp only [List.map_append, List.map_map, ih]
      rfl
    · rfl

theorem pruneLines_says (env : Env) (now : Nat) (asked : Str → Bool) (b : Bool) (g : Graph) (m : Mem) :
    (pruneLines env now asked b g m).map says' = (prune env now asked b g m).2.2.map (true, ·) := by
  unfold pruneLines prune
  split
  · rfl
  · exact dirtyLines_says ..

/-- The verdicts of a state. -/
def toldOf (s : Sched.St) : List (Bool × Nat) := verdicts s.log s.next

theorem verdicts_gone (b : Nat) (gone : List Nat) : gone.filterMap (verdict ∘ (Ev.upToDate b ·)) = gone.map (true, ·) := by
  induction gone with
  | nil => rfl
  | cons x xs ih => simp only [List.map_cons, List.filterMap_cons, Function.comp, verdict, ih]

/-- `f` looks at the whole verdict, or (with `/A`) only at the target. -/
theorem findLines_told {β : Type} {f : Bool × Nat → β} (hf : cfg.buildAll = false ∨ ∀ b t, f (b, t) = f (false, t)) (a : Answers) :
    ∀ i (j : J), j.s.next = none →
      (toldOf (outcome (findNextTarget env cfg a i j)).s).map f = (toldOf j.s).map f ++ (findLines env cfg a i j).map (f ∘ says') := by
  intro i
  induction i with
  | zero => intro j _; simp [findNextTarget, findLines, outcome]
  | succ i ih =>
    intro j hn
    simp only [findNextTarget, findLines]
    split
    · simp [outcome, toldOf, hn]
    · have hs := congrArg (List.map f) (pruneLines_says env a.now a.asked cfg.buildAll j.s.g j.m)
      rw [List.map_map, List.map_map] at hs
      generalize pruneLines env a.now a.asked cfg.buildAll j.s.g j.m = lines at hs ⊢
      generalize prune env a.now a.asked cfg.buildAll j.s.g j.m = pr at hs ⊢
      obtain ⟨g, m, gone⟩ := pr
      simp only at hs ⊢
      split
      · simp [outcome, toldOf, verdicts, hn, hs, verdicts_gone]
      · generalize g.leaves.foldl (applyRule env a.choose) m = m1
        generalize pick g = pk
        obtain ⟨g2, r⟩ := pk
        cases r with
        | none => simp [outcome, toldOf, verdicts, hn, hs, verdicts_gone]
        | some t =>
          have hm : (if cfg.buildAll = true then (test env a.now a.asked t m1).1 else m1) =
              (if cfg.buildAll = true then test env a.now a.asked t m1 else (m1, false)).1 := by split <;> rfl
          have hfb : f ((if cfg.buildAll = true then test env a.now a.asked t m1 else (m1, false)).2, t) = f (false, t) := by
            rcases hf with h | h
            · simp [h]
            · exact h _ _
          simp only [hm]
          generalize (if cfg.buildAll = true then test env a.now a.asked t m1 else (m1, false)) = r at hfb ⊢
          split
          · rw [ih _ rfl]
            simp [toldOf, verdicts, hn, hs, verdicts_gone, verdict, says', hfb]
          · split
            · rw [ih _ rfl]
              simp [toldOf, verdicts, hn, hs, verdicts_gone, verdict, says', hfb]
            · simp [outcome, toldOf, verdicts, hn, hs, verdicts_gone, says', hfb]

theorem childFinished_told (cfg : Cfg) (e t : Nat) (failed : Bool) (s : Sched.St) :
    (Sched.childFinished cfg e t failed s).log.filterMap verdict = s.log.filterMap verdict ∧
    (Sched.childFinished cfg e t failed s).next = s.next := by
  refine ⟨?_, (childFinished_log ..).2.1⟩
  unfold Sched.childFinished
  simp only
  split <;> simp only [(handOver_log _ _).1] <;> (repeat' split) <;> simp [verdict]

theorem buildNext_told (cfg : Cfg) (res : StartRes) (s : Sched.St) : toldOf (Sched.buildNextTarget cfg res s) = toldOf s := by
  unfold Sched.buildNextTarget
  split
  · rfl
  · next t hn =>
    split
    · rfl
    · split
      · rfl
      · next e avail _ =>
        cases res with
        | throws => simp [onException, finishBuild, toldOf, verdicts, verdict]
        | running => simp [begun, begin, toldOf, verdicts, verdict, hn]
        | sync failed =>
          simp only [begun, toldOf, verdicts, (childFinished_told ..).1]
          simp [begin, verdict, hn]

theorem rebuild_told (cfg : Cfg) (b t : Nat) (rest : List Nat) (s : Sched.St) : toldOf (rebuild cfg b t rest s) = toldOf s := by
  unfold rebuild
  split <;> rfl

theorem startProcesses_told {β : Type} {f : Bool × Nat → β} (hf : cfg.buildAll = false ∨ ∀ b t, f (b, t) = f (false, t)) (a : Answers) (j : J) :
    (toldOf (startProcesses env cfg a j).s).map f = (toldOf j.s).map f ++
      (if j.s.aborted || j.s.acquiring || j.s.avail.isEmpty then []
       else if j.s.next.isNone then findLines env cfg a (j.s.g.ids.length + 1) j else []).map (f ∘ says') := by
  unfold startProcesses
  split
  · simp
  · have hj : (toldOf (outcome (if j.s.next.isNone then findNextTarget env cfg a (j.s.g.ids.length + 1) j else .ok j)).s).map f =
        (toldOf j.s).map f ++ (if j.s.next.isNone then findLines env cfg a (j.s.g.ids.length + 1) j else []).map (f ∘ says') := by
      split
      · next hn => exact findLines_told hf a _ j (by simpa using hn)
      · simp [outcome]
    generalize (if j.s.next.isNone then findLines env cfg a (j.s.g.ids.length + 1) j else []) = lines at hj ⊢
    generalize (if j.s.next.isNone then findNextTarget env cfg a (j.s.g.ids.length + 1) j else .ok j) = r at hj ⊢
    rw [← hj]
    cases r with
    | error j => simp [outcome, onException, finishBuild, toldOf, verdicts, verdict]
    | ok j =>
      simp only [outcome]
      split
      · split
        · rw [build_sched, buildNext_told]
        · rfl
      · split
        · split
          · rfl
          · rw [rebuild_told]
        · rfl

theorem step_told {β : Type} {f : Bool × Nat → β} (hf : cfg.buildAll = false ∨ ∀ b t, f (b, t) = f (false, t)) {j j' : J} {e : Event}
    (hs : Make.step env cfg j e = some j') : (toldOf j'.s).map f = (toldOf j.s).map f ++ (printed env cfg j e).map (f ∘ says') := by
  cases e with
  | startProcesses a =>
    simp only [Make.step] at hs
    split at hs
    · next h =>
      cases hs
      rw [startProcesses_told hf]
      simp only [printed, h, and_self, if_true]
      rfl
    · cases hs
  | grant =>
    simp only [Make.step] at hs
    split at hs <;> cases hs
    simp [printed, toldOf]
  | acquired asked res writes inWait =>
    simp only [Make.step] at hs
    split at hs
    · cases hs
      have : ∀ j : J, toldOf (if inWait then { j with s := { j.s with relWait := j.s.relWait + 1 } } else j).s = toldOf j.s := by
        intro j; split <;> rfl
      rw [this, build_sched, buildNext_told]
      simp [printed, toldOf]
    · cases hs
  | childFinished e failed =>
    simp only [Make.step] at hs
    split at hs
    · cases hs
    · split at hs
      · cases hs
        simp [printed, toldOf, verdicts, (childFinished_told ..).1, (childFinished_told ..).2]
      · cases hs
  | abortDone =>
    simp only [Make.step] at hs
    split at hs <;> cases hs
    simp [printed, toldOf, finishBuild]
  | write file value =>
    simp only [Make.step] at hs
    cases hs
    simp [printed]

theorem _root_.Jom.Spec.BuildInfo.Prints.lines {info : Nat → TInfo} {ok : J → Event → Prop} {β : Type} {f : Bool × Nat → β}
    (hf : cfg.buildAll = false ∨ ∀ b t, f (b, t) = f (false, t)) {j : J} {lines : List Line} (h : Prints env cfg info disk0 ok j lines) :
    lines.map (f ∘ says') = (toldOf j.s).map f := by
  induction h with
  | start asked _ _ =>
    unfold Sched.init toldOf
    simp only
    split
    · rfl
    · change _ = (toldOf _).map f
      rw [rebuild_told]
      split <;> rfl
  | step asked _ _ hs _ _ ih =>
    have hif : ∀ (j' j : J) (m : Mem), (toldOf (if j'.s.build ≠ j.s.build then { j' with m := m } else j').s) = toldOf j'.s := by
      intro j' j m; split <;> rfl
    rw [hif, step_told hf hs, List.map_append, ih]

theorem _root_.Jom.Spec.BuildInfo.Prints.toRun {info : Nat → TInfo} {ok : J → Event → Prop} {j : J} {lines : List Line}
    (h : Prints env cfg info disk0 ok j lines) : Run env cfg info disk0 ok j := by
  induction h with
  | start asked h1 h2 => exact .start asked h1 h2
  | step asked _ hok hs hd ha ih => exact .step asked ih hok hs hd ha

/-! ### The times -/

section
variable {Q H : Nat → Prop} {b : Nat} {g : Graph} {m : Mem}

theorem test_time {w : World} {t : Nat} {info : Nat → TInfo} (hself : w.fi (info t).name = none → (info t).fileExists = false)
    (hb : (isTargetUpToDate w t info).2 = true) : w.fi (info t).name = some ((isTargetUpToDate w t info).1 t).time := by
  cases hf : w.fi (info t).name with
  | none =>
    have := (effect_noFile w t info hf (hself hf)).1
    rw [hb] at this
    cases this
  | some T =>
    rw [effect_file w t info hf, hb]
    simp

theorem PCore.testTime (p : Plan env cfg db disk0) (h : PCore env cfg db Q H disk0 b g m) {now : Nat} (asked : Str → Bool) {l : Nat}
    (hl : l ∈ g.leaves) (he : g.state l ≠ .executing) (hH : ¬ H l) (hb : (Make.test env now asked l m).2 = true) :
    fm env m (db.target l).name = some ((Make.test env now asked l m).1.info l).time := by
  obtain ⟨hli, _⟩ := (h.ginv.lv l).1 hl
  have hst : Still cfg db Q H b g l := .inr ⟨hl, he, hH⟩
  have hv := h.view p now
  have hname : (m.info l).name = (db.target l).name := (h.stat l (h.idReach hli).wanted hH).1
  have := test_time (w := world env now m.files) (t := l) (info := m.info) (by
    rw [hname, hv.name l hst]; exact h.self l hli hH) hb
  rw [hname, hv.name l hst] at this
  exact this

/-- What a line says about the target is right. -/
def Right (db : Db) (H : Nat → Prop) (f : Files) (l : Line) : Prop :=
  ¬ H l.target → (l.upToDate = true → UpToDate f db l.target ∧ f (db.target l.target).name = some l.time) ∧
    (l.upToDate = false → f (db.target l.target).name ≠ none → l.time = 0)

theorem PCore.leavesTime (p : Plan env cfg db disk0) {now : Nat} (asked : Str → Bool) : ∀ (ls : List Nat) (m : Mem),
    PCore env cfg db Q H disk0 b g m → (∀ x s, m.files.disk x = some s → s ≤ now) → ls.Nodup → (∀ l ∈ ls, l ∈ g.leaves) →
    ∀ l ∈ (Make.checkLeaves env now asked g.state ls m).2, ¬ H l →
      fm env m (db.target l).name = some ((Make.checkLeaves env now asked g.state ls m).1.info l).time := by
  intro ls
  induction ls with
  | nil => intro m _ _ _ _ l hl; cases hl
  | cons l ls ih =>
    intro m h hclock hnd hls
    obtain ⟨hnl, hnd⟩ := List.nodup_cons.1 hnd
    have hls' := fun x hx => hls x (List.mem_cons_of_mem _ hx)
    simp only [Make.checkLeaves]
    split
    · exact ih m h hclock hnd hls'
    · next hex =>
      have ht : PCore env cfg db Q H disk0 b g (Make.test env now asked l m).1 ∧
          (Make.test env now asked l m).1.files.disk = m.files.disk := by
        by_cases hH : H l
        · obtain ⟨t1, t2, _⟩ := h.testHurt p now asked (hls l List.mem_cons_self) hH
          exact ⟨t1, t2⟩
        · obtain ⟨t1, t2, _⟩ := h.test p hclock asked (hls l List.mem_cons_self) hex hH
          exact ⟨t1, t2⟩
      have htt := fun hH => h.testTime p (now := now) asked (hls l List.mem_cons_self) hex hH
      obtain ⟨t1, t2⟩ := ht
      generalize Make.test env now asked l m = r at t1 t2 htt
      obtain ⟨m1, bo⟩ := r
      simp only at t1 t2 htt ⊢
      have hf : fm env m1 = fm env m := by unfold fm; rw [t2]
      have a := ih m1 t1 (by rw [t2]; exact hclock) hnd hls'
      obtain ⟨_, _, a3, _⟩ := PCore.checkLeaves p asked ls m1 t1 (by rw [t2]; exact hclock) hnd hls'
      generalize Make.checkLeaves env now asked g.state ls m1 = r at a a3
      obtain ⟨m2, gone⟩ := r
      simp only at a a3 ⊢
      rw [hf] at a
      intro x hx hH
      cases bo with
      | false => exact a x hx hH
      | true =>
        simp only [if_true] at hx
        rcases List.mem_cons.1 hx with rfl | hx
        · rw [a3 x hnl]; exact htt hH rfl
        · exact a x hx hH

theorem PInv.dirtyLines (p : Plan env cfg db disk0) {now : Nat} (asked : Str → Bool) : ∀ fuel (g : Graph) (m : Mem),
    PInv env cfg db Q H disk0 b g m → (∀ x s, m.files.disk x = some s → s ≤ now) →
    ∀ l ∈ Make.dirtyLines env now asked fuel g m, Right db H (fm env m) l := by
  intro fuel
  induction fuel with
  | zero => intro g m _ _ l hl; cases hl
  | succ fuel ih =>
    intro g m h hc l hl
    simp only [Make.dirtyLines] at hl
    split at hl
    · obtain ⟨h1, h2⟩ := h.core.round p asked hc
      rw [List.mem_append] at hl
      rcases hl with hl | hl
      · obtain ⟨x, hx, rfl⟩ := List.mem_map.1 hl
        intro hH
        refine ⟨fun _ => ⟨?_, ?_⟩, (fun h => by cases h)⟩
        · exact ((PCore.checkLeaves p asked g.leaves m h.core hc h.core.ginv.lvNodup (fun _ hl => hl)).2.2.2.1 x hx).2 hH
        · exact PCore.leavesTime p asked g.leaves m h.core hc h.core.ginv.lvNodup (fun _ hl => hl) x hx hH
      · have := ih _ _ h1 (by rw [h2]; exact hc) l hl
        unfold fm at this ⊢
        rw [h2] at this
        exact this
    · cases hl

theorem PInv.findLines (p : Plan env cfg db disk0) (a : Answers) : ∀ i (j : J), PInv env cfg db Q H disk0 b j.s.g j.m →
    (∀ x s, j.m.files.disk x = some s → s ≤ a.now) → ∀ l ∈ Make.findLines env cfg a i j, Right db H (fm env j.m) l := by
  intro i
  induction i with
  | zero => intro j _ _ l hl; cases hl
  | succ i ih =>
    intro j h hclock
    simp only [Make.findLines]
    split
    · intro l hl; cases hl
    · rw [p.all]
      have hL : ∀ l ∈ pruneLines env a.now a.asked false j.s.g j.m, Right db H (fm env j.m) l := by
        simp only [pruneLines, Bool.false_eq_true, if_false]
        exact h.dirtyLines p a.asked _ _ _ hclock
      generalize pruneLines env a.now a.asked false j.s.g j.m = lines at hL
      obtain ⟨h1, h2, h3⟩ := h.prune p a.asked hclock
      generalize Make.prune env a.now a.asked false j.s.g j.m = pr at h1 h2 h3
      obtain ⟨g, m, gone⟩ := pr
      simp only at h1 h2 h3 ⊢
      split
      · exact hL
      · obtain ⟨c1, c2, c3⟩ := h1.applyRules p a.choose h3
        generalize g.leaves.foldl (Make.applyRule env a.choose) m = m1 at c1 c2 c3
        have hdisk : m1.files.disk = j.m.files.disk := by rw [c2]; exact h2
        have hfm : fm env m1 = fm env j.m := by unfold fm; rw [hdisk]
        generalize hpk : pick g = pk
        obtain ⟨g2, r⟩ := pk
        obtain ⟨_, _, _, _, _, p6, p7⟩ := pick_spec h1.core.ginv
        rw [hpk] at p6 p7
        simp only at p6 p7 ⊢
        cases r with
        | none => exact hL
        | some t =>
          obtain ⟨t1, t2, t3, _⟩ := p7 t rfl
          have htl : t ∈ g.leaves := (h1.core.ginv.lv t).2 ⟨t1, t2⟩
          have hT : Right db H (fm env j.m) ⟨false, (m1.info t).time, t⟩ := by
            intro hH
            refine ⟨(fun h => by cases h), fun _ hne => ?_⟩
            obtain ⟨q1, q2, _⟩ := c1.leaf h3 t htl t3 hH
            apply q2
            rw [← hfm] at hne
            obtain ⟨τ, hτ⟩ := Option.ne_none_iff_exists'.1 hne
            exact (q1.1.1 τ hτ).1
          have hL' : ∀ l ∈ lines ++ [⟨false, (m1.info t).time, t⟩], Right db H (fm env j.m) l := by
            intro l hl
            rcases List.mem_append.1 hl with hl | hl
            · exact hL l hl
            · rw [List.mem_singleton] at hl; subst hl; exact hT
          simp only [Bool.false_eq_true, if_false]
          split
          · next hc =>
            intro l hl
            rcases List.mem_append.1 hl with hl | hl
            · exact hL' l hl
            · rw [← hfm]
              refine ih _ ?_ ?_ l hl
              · exact c1.skip p h3 hpk (c3 t htl hc)
              · rw [hdisk]; exact hclock
          · next hc =>
            have hc : (m1.info t).hasCmds = true := by simpa using hc
            have htk := c1.take h3 hpk hc
            obtain ⟨p1, _⟩ := pick_spec h1.core.ginv
            rw [hpk] at p1
            split
            · next hub =>
              have hH : H t := by
                apply Classical.byContradiction
                intro hH
                have := htk.core.able t (by rw [p1]; exact t1) hH
                simp only [Bool.and_eq_true, beq_iff_eq] at hub
                exact this hub.2
              intro l hl
              rcases List.mem_append.1 hl with hl | hl
              · exact hL' l hl
              · rw [← hfm]
                refine ih _ ?_ ?_ l hl
                · exact c1.skip p h3 hpk fun hn => absurd hH hn
                · rw [hdisk]; exact hclock
            · exact hL'

theorem PInv.printed {j : J} (p : Plan env cfg db disk0) (h : PInv env cfg db Q H disk0 b j.s.g j.m) {e : Event}
    (hclock : ∀ a, e = .startProcesses a → ∀ x s, j.m.files.disk x = some s → s ≤ a.now) :
    ∀ l ∈ Make.printed env cfg j e, Right db H (fm env j.m) l := by
  intro l hl
  cases e with
  | startProcesses a =>
    simp only [Make.printed] at hl
    repeat' split at hl
    all_goals first
      | cases hl
      | exact PInv.findLines (b := b) p a _ { j with s := { j.s with queued := j.s.queued - 1 } } h (hclock a rfl) l hl
  | _ => cases hl

/-- Lines are only printed as long as nothing has happened that ends the build. -/
theorem printed_alive {j : J} {e : Event} {l : Line} (h : l ∈ Make.printed env cfg j e) : j.s.aborted = false ∧ j.s.dead = false := by
  cases e with
  | startProcesses a =>
    simp only [Make.printed] at h
    split at h
    · next hd =>
      split at h
      · cases h
      · next ha =>
        simp only [Bool.or_eq_true, not_or, Bool.not_eq_true] at ha
        exact ⟨ha.1.1, hd.1⟩
    · cases h
  | _ => cases h

end

end Jom.Make
