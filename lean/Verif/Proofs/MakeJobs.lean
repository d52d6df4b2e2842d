/- Builds in which the success of commands depends on what they read: the order of events does not matter. -/
import Verif.Proofs.MakeExact
import Verif.Proofs.MakeSame
import Verif.Proofs.MakeSplit
import Verif.Proofs.MakeResume
import Verif.Spec.Jobs

namespace Jom.Make

open Jom.Graph Jom.Sched Jom.UpToDate Jom.Spec Jom.Spec.Build Relation

variable {env : Env} {cfg cfg' : Cfg} {db : Db} {disk0 : Str → Option Nat} {j j' : J}

/-! ### Only processes end -/

/-- No target ends, and only an exception stops the build. -/
structure Smooth (j j' : J) : Prop where
  log : ∀ ev ∈ j'.s.log, ev ∈ j.s.log ∨ ∀ b t, ev ≠ Ev.succeeded b t ∧ ev ≠ Ev.failed b t
  ab : j'.s.aborted = true → j.s.aborted = true ∨ Ev.exception ∈ j'.s.log
  keep : ∀ ev ∈ j.s.log, ev ∈ j'.s.log
  stay : j.s.aborted = true → j'.s.aborted = true

theorem Smooth.same (h1 : j'.s.log = j.s.log) (h2 : j'.s.aborted = j.s.aborted) : Smooth j j' :=
  ⟨fun _ h => .inl (h1 ▸ h), fun h => .inl (h2 ▸ h), fun _ h => h1.symm ▸ h, fun h => h2.symm ▸ h⟩

theorem Smooth.trans {j'' : J} (h : Smooth j j') (h' : Smooth j' j'') : Smooth j j'' := by
  refine ⟨fun ev he => ?_, fun ha => ?_, fun ev he => h'.keep ev (h.keep ev he), fun h0 => h'.stay (h.stay h0)⟩
  · rcases h'.log ev he with h1 | h1
    · exact h.log ev h1
    · exact .inr h1
  · rcases h'.ab ha with h1 | h1
    · exact (h.ab h1).imp id (h'.keep _)
    · exact .inr h1

theorem Smooth.more {evs : List Ev} (h1 : j'.s.log = j.s.log ++ evs) (h2 : j'.s.aborted = j.s.aborted)
    (h3 : ∀ ev ∈ evs, ∀ b t, ev ≠ Ev.succeeded b t ∧ ev ≠ Ev.failed b t) : Smooth j j' := by
  refine ⟨fun ev h => ?_, fun h => .inl (h2 ▸ h), fun ev h => by rw [h1]; exact List.mem_append_left _ h, fun h => h2.symm ▸ h⟩
  rw [h1, List.mem_append] at h
  exact h.imp id (h3 ev)

theorem findNext_smooth (env : Env) (cfg : Cfg) (a : Answers) : ∀ i (j : J), Smooth j (outcome (findNextTarget env cfg a i j)) := by
  intro i
  induction i with
  | zero => intro j; exact .same rfl rfl
  | succ i ih =>
    intro j
    simp only [findNextTarget]
    split
    · exact .same rfl rfl
    · generalize prune env a.now a.asked cfg.buildAll j.s.g j.m = pr
      obtain ⟨g, m, gone⟩ := pr
      have hgone : ∀ ev ∈ gone.map (Ev.upToDate j.s.build ·), ∀ b t, ev ≠ Ev.succeeded b t ∧ ev ≠ Ev.failed b t := by
        intro ev hev b t
        obtain ⟨x, _, rfl⟩ := List.mem_map.1 hev
        simp
      simp only
      split
      · exact .more rfl rfl hgone
      · generalize List.foldl (applyRule env a.choose) m g.leaves = m1
        generalize pick g = pk
        obtain ⟨g1, r⟩ := pk
        cases r with
        | none => exact .more rfl rfl hgone
        | some t =>
          simp only
          generalize (if cfg.buildAll = true then (test env a.now a.asked t m1).1 else m1) = m2
          split
          · refine Smooth.trans ?_ (ih _)
            refine .more (evs := gone.map (Ev.upToDate j.s.build ·) ++ [Ev.noCommands j.s.build t]) (by simp) rfl ?_
            intro ev hev
            rcases List.mem_append.1 hev with h | h
            · exact hgone ev h
            · rw [List.mem_singleton.1 h]; simp
          · split
            · refine Smooth.trans ?_ (ih _)
              refine .more (evs := gone.map (Ev.upToDate j.s.build ·) ++ [Ev.unbuildable j.s.build t]) (by simp) rfl ?_
              intro ev hev
              rcases List.mem_append.1 hev with h | h
              · exact hgone ev h
              · rw [List.mem_singleton.1 h]; simp
            · exact .more rfl rfl hgone

theorem except_smooth : Smooth j { j with s := onException cfg j.s } := by
  refine ⟨fun ev h => ?_, fun _ => .inr ?_, fun ev h => ?_, fun _ => rfl⟩
  · have h : ev ∈ j.s.log ++ [Ev.exception] := h
    rcases List.mem_append.1 h with h | h
    · exact .inl h
    · rw [List.mem_singleton.1 h]; simp
  · show _ ∈ j.s.log ++ [Ev.exception]
    simp
  · show ev ∈ j.s.log ++ [Ev.exception]
    exact List.mem_append_left _ h

theorem build_smooth (asked : Str → Bool) {res : StartRes} {writes : List (Str × Option Nat)} (hres : ∀ f, res ≠ .sync f) :
    Smooth j (buildNextTarget env cfg asked res writes j) := by
  unfold Make.buildNextTarget Sched.buildNextTarget
  cases hn : j.s.next with
  | none => exact .same rfl rfl
  | some t =>
    simp only
    cases hab : j.s.aborted with
    | true => exact .same (by simp) (by simp [hab])
    | false =>
      simp only [Bool.false_eq_true, if_false]
      cases hav : j.s.avail with
      | nil => exact .same rfl (by simp [hab])
      | cons e rest =>
        simp only
        cases res with
        | throws =>
          refine ⟨fun ev h => ?_, fun _ => .inr ?_, fun ev h => ?_, fun _ => rfl⟩
          · have h : ev ∈ j.s.log ++ [Ev.exception] := h
            rcases List.mem_append.1 h with h | h
            · exact .inl h
            · rw [List.mem_singleton.1 h]; simp
          · show _ ∈ j.s.log ++ [Ev.exception]
            simp
          · show ev ∈ j.s.log ++ [Ev.exception]
            exact List.mem_append_left _ h
        | running => exact .more (evs := [Ev.started j.s.build t]) rfl (by simp [hab, begun, begin]) (by simp)
        | sync failed => exact absurd rfl (hres failed)

theorem start_smooth (a : Answers) (hres : ∀ f, a.res ≠ .sync f) : Smooth j (startProcesses env cfg a j) := by
  unfold startProcesses
  split
  · exact .same rfl rfl
  · have hf : Smooth j (outcome (if j.s.next.isNone then findNextTarget env cfg a (j.s.g.ids.length + 1) j else .ok j)) := by
      split
      · exact findNext_smooth env cfg a _ j
      · exact .same rfl rfl
    revert hf
    generalize (if j.s.next.isNone then findNextTarget env cfg a (j.s.g.ids.length + 1) j else .ok j) = r
    cases r with
    | error j' =>
      simp only [outcome]
      exact fun h1 => h1.trans except_smooth
    | ok j' =>
      simp only [outcome]
      intro h1
      split
      · split
        · exact h1.trans (build_smooth a.asked hres)
        · exact h1.trans (.same rfl rfl)
      · split
        · split
          · exact h1.trans (.same rfl rfl)
          · refine h1.trans ?_
            unfold rebuild
            split <;> exact .same rfl rfl
        · exact h1

theorem step_smooth {e : Event} (hn : NoSync e) (hnc : ∀ ex failed, e ≠ .childFinished ex failed) (hs : step env cfg j e = some j') : Smooth j j' := by
  cases e with
  | startProcesses a =>
    simp only [step] at hs
    split at hs
    · cases hs
      have := start_smooth (env := env) (cfg := cfg) (j := { j with s := { j.s with queued := j.s.queued - 1 } }) a hn
      exact ⟨this.log, this.ab, this.keep, this.stay⟩
    · cases hs
  | grant =>
    simp only [step] at hs
    split at hs
    · cases hs; exact .same rfl rfl
    · cases hs
  | acquired asked res writes inWait =>
    simp only [step] at hs
    split at hs
    · cases hs
      have := build_smooth (env := env) (cfg := cfg) (j := { j with s := { j.s with acquiring := false, granted := false } }) asked (writes := writes) hn
      split
      · exact ⟨this.log, this.ab, this.keep, this.stay⟩
      · exact ⟨this.log, this.ab, this.keep, this.stay⟩
    · cases hs
  | childFinished e failed => exact absurd rfl (hnc _ _)
  | abortDone =>
    simp only [step] at hs
    split at hs
    · cases hs; exact .same rfl rfl
    · cases hs
  | write file value => cases hs; exact .same rfl rfl

/-! ### Whether commands succeed -/

variable {C : Type} {recipe : Nat → (Str → C → Prop) → C} {works : Nat → (Str → C → Prop) → Prop} {c0 c : Str → C}

/-- What the commands of `t` read. -/
abbrev Inputs (env : Env) (db : Db) (m : Mem) (c : Str → C) (t : Nat) (n : Str) (v : C) : Prop := MadeFrom (fm env m) db t n ∧ c (env.abs n) = v

/-- Cf. `Decides`, for processes. -/
def PlainDecides (env : Env) (db : Db) (works : Nat → (Str → C → Prop) → Prop) (j : J) (c : Str → C) (e : Make.Event) : Prop :=
  j.s.aborted = false → ∀ ex failed, e = .childFinished ex failed → ∀ t, (ex, t) ∈ j.s.busy → (failed = false ↔ works t (Inputs env db j.m c t))

/-- What is assumed of the events. -/
def Plays (env : Env) (cfg : Cfg) (db : Db) (recipe : Nat → (Str → C → Prop) → C) (works : Nat → (Str → C → Prop) → Prop)
    (disk : Str → Option Nat) (j : J) (c : Str → C) (e : Make.Event) : Prop :=
  (FollowsRecipes env cfg db recipe j c e ∧ WritesLater disk e) ∧ Decides env cfg db works j c e

def PlainPlays (env : Env) (cfg : Cfg) (db : Db) (recipe : Nat → (Str → C → Prop) → C) (works : Nat → (Str → C → Prop) → Prop)
    (disk : Str → Option Nat) (j : J) (c : Str → C) (e : Make.Event) : Prop :=
  ((PlainFollows env cfg db recipe j c e ∧ FailsClean env cfg db e) ∧ PlainLater disk e) ∧ NoSync e ∧ PlainDecides env db works j c e

theorem unsync_child {e : Event} {q : Bool × List (Str × Option Nat)} (h : syncPart e = some q) : ∀ ex failed, unsync e ≠ .childFinished ex failed := by
  intro ex failed he
  cases e with
  | childFinished _ _ => cases h
  | _ => cases he

theorem _root_.Jom.Spec.Build.Traced.plainPlays {info : Nat → TInfo} (h : Traced env cfg info disk0 c0 (Plays env cfg db recipe works disk0) j c) :
    PlainTraced env cfg info disk0 c0 (PlainPlays env cfg db recipe works disk0) j c := by
  refine h.split (fun j c c' e hok hc => ⟨follows_unsync hok.1 hc, unsync_noSync e, ?_⟩)
    (fun j c' e j' f writes ex t j1 w m c hok hs hp hm => ⟨follows_write m hok.1 hs hp hm, trivial, fun _ _ _ h => by cases h⟩)
    (fun j c' e j' f writes ex t j1 hok hs hp hi => ⟨follows_end hok.1 hs hp hi, trivial, ?_⟩)
  · intro hab ex failed he t ht
    cases e with
    | childFinished ex' f =>
      cases he
      have hcc : c = c' := by
        funext x
        refine (hc x ?_).symm
        rintro (⟨_, h⟩ | ⟨_, _, h, _⟩)
        · cases h
        · exact h
      rw [hcc]
      exact hok.2 hab t failed _ ⟨rfl, ht, rfl⟩
    | _ => cases he
  · intro hab ex' failed he t' ht'
    cases he
    cases hp.unique hi t' ht'
    have hst := hp.starts hs
    have hpp := hp.part
    have hab0 : j.s.aborted = false := by
      cases h0 : j.s.aborted with
      | false => rfl
      | true =>
        have := (step_smooth (unsync_noSync e) (unsync_child hpp) hp.first).stay h0
        rw [show j1.s.aborted = false from hab] at this
        cases this
    show f = false ↔ works t fun n v => MadeFrom (fun n => (writes.foldl Make.write j1.m).files.disk (env.abs n)) db t n ∧ c' (env.abs n) = v
    rw [hp.after]
    cases e with
    | startProcesses a =>
      simp only [syncPart] at hpp
      split at hpp
      · next f' hf => cases hpp; exact hok.2 hab0 t _ _ ⟨hf, hst, rfl⟩
      · cases hpp
    | acquired asked res ws b =>
      simp only [syncPart] at hpp
      split at hpp
      · next f' => cases hpp; exact hok.2 hab0 t _ _ ⟨rfl, hst, rfl⟩
      · cases hpp
    | grant => cases hpp
    | childFinished _ _ => cases hpp
    | abortDone => cases hpp
    | write _ _ => cases hpp

/-! ### What commands read does not change after they have succeeded -/

variable {c' : Str → C}

theorem Plan.inputs (p : Plan env cfg db disk0) {f f' : Files} {c c' : Str → C} {x : Nat} (hx : Wanted db cfg.targets x)
    (h : ∀ y n, ReflTransGen (Needs db) x y → Says db y n → (f n = none ↔ f' n = none) ∧ (f n ≠ none → c n = c' n)) :
    (fun n v => MadeFrom f db x n ∧ c n = v) = fun n v => MadeFrom f' db x n ∧ c' n = v := by
  have key : ∀ {f f' : Files}, (∀ y n, ReflTransGen (Needs db) x y → Says db y n → (f n = none ↔ f' n = none)) → ∀ n, MadeFrom f db x n →
      MadeFrom f' db x n := by
    rintro f f' h n ⟨d, hd, hs⟩
    refine ⟨d, hd.imp id fun h1 => ⟨h1.1, ?_⟩, ?_⟩
    · refine Option.ne_none_iff_exists'.1 fun h0 => ?_
      obtain ⟨s, hs⟩ := h1.2
      rw [(h x d .refl (.inr h1.1)).2 h0] at hs
      cases hs
    · refine stands_exists (P := fun d => ∃ y, ReflTransGen (Needs db) x y ∧ Says db y d) (fun d hd => ?_) ?_ hs ⟨x, .refl, counts_says hd⟩
      · obtain ⟨y, hy, hd⟩ := hd
        exact h y d hy hd
      · rintro d k e ⟨y, hy, hd⟩ hk he
        exact ⟨k, hy.tail (p.needs (hx.down hy) hd (.inl hk)), .inl he⟩
  have hc : ∀ n, MadeFrom f db x n → c n = c' n := by
    intro n hm
    obtain ⟨y, hy, hn⟩ := p.madeFrom hx hm
    obtain ⟨d, _, hs⟩ := hm
    exact (h y n hy hn).2 hs.exists
  funext n v
  apply propext
  constructor
  · rintro ⟨h1, rfl⟩
    exact ⟨key (fun y n hy hn => (h y n hy hn).1) n h1, (hc n h1).symm⟩
  · rintro ⟨h1, rfl⟩
    have h2 := key (fun y n hy hn => (h y n hy hn).1.symm) n h1
    exact ⟨h2, hc n h2⟩

/-- The commands that have succeeded would do so with what the files contain now. -/
def Worked (env : Env) (db : Db) (works : Nat → (Str → C → Prop) → Prop) (j : J) (c : Str → C) : Prop :=
  ∀ b x, Ev.succeeded b x ∈ j.s.log → works x (Inputs env db j.m c x)

theorem inputs_disk {m m' : Mem} (h : m'.files.disk = m.files.disk) (x : Nat) : Inputs env db m' c x = Inputs env db m c x := by
  unfold Inputs fm; rw [h]

/-- What has succeeded is settled, with all it needs. -/
theorem succeeded_settled (hi : Inv cfg j.s) (hp : PInv env cfg db (fun _ => False) (fun _ => False) disk0 j.s.build j.s.g j.m)
    (hplaces : Spared (fun b x => Reach cfg db b x) j) {b x : Nat} (h : Ev.succeeded b x ∈ j.s.log) {z : Nat} (hz : ReflTransGen (Needs db) x z) :
    Settled cfg db (fun _ => False) (fun _ => False) j.s.build j.s.g z := by
  have hs := hi.lg.ran b x (.inl h)
  have hr := hplaces b x hs
  induction hz with
  | refl =>
    refine ⟨?_, fun h => h⟩
    rcases Nat.lt_or_ge b j.s.build with hlt | hge
    · exact .inl (.inr ⟨b, hlt, hr⟩)
    · have : b = j.s.build := Nat.le_antisymm (hi.lg.logT b x hs) hge
      subst this
      exact .inr ⟨hr, fun h2 => hi.lg.notSettled x h2 (mem_settled.2 (.inr (.inr (.inr (.inl h)))))⟩
  | tail _ hn ih => exact hp.core.settledNeeds ih hn

theorem Worked.write (p : Plan env cfg db disk0) (h : Worked env db works j c) (hi : Inv cfg j.s) (hab : j.s.aborted = false)
    (hp : PInv env cfg db (fun _ => False) (fun _ => False) disk0 j.s.build j.s.g j.m) (hplaces : Spared (fun b x => Reach cfg db b x) j)
    {file : Str} {value : Option Nat} (hw : MayWrite env.abs db cfg.targets (j.s.busy.map (·.2)) file value)
    (hc : ∀ x, x ≠ file → c' x = c x) : Worked env db works { j with m := Make.write j.m (file, value) } c' := by
  intro b x hx
  have hbusy := busy_exec hi hab
  have hxw : Wanted db cfg.targets x := (hplaces b x (hi.lg.ran b x (.inl hx))).wanted
  have hne : ∀ y n, ReflTransGen (Needs db) x y → Says db y n → env.abs n ≠ file := by
    intro y n hy hn he
    rcases hw.2 with ⟨t, ht, h1, _⟩ | hw
    · obtain ⟨ht1, ht2⟩ := hbusy t ht
      have htw := (hp.core.idReach ht1).wanted
      have hyt := p.needs (hxw.down hy) hn ((p.un.names y (hxw.down hy) n hn t htw).2 (he.trans h1))
      exact hp.core.execNot ht1 ht2 (.inl (succeeded_settled hi hp hplaces hx (hy.tail hyt)))
    · exact hw n (says_mentioned hxw hy hn) he.symm
  have := p.inputs (f := fm env (Make.write j.m (file, value))) (f' := fm env j.m) (c := fun n => c' (env.abs n)) (c' := fun n => c (env.abs n)) hxw
    (fun y n hy hn => by
      have h1 := hne y n hy hn
      have h2 : fm env (Make.write j.m (file, value)) n = fm env j.m n := by
        show (if env.abs n = file then value else fm env j.m n) = _
        rw [if_neg h1]
      rw [h2]
      exact ⟨Iff.rfl, fun _ => hc _ h1⟩)
  show works x (fun n v => MadeFrom (fm env (Make.write j.m (file, value))) db x n ∧ c' (env.abs n) = v)
  rw [this]
  exact h b x hx

def WFine (env : Env) (db : Db) (works : Nat → (Str → C → Prop) → Prop) (j : J) (c : Str → C) : Prop :=
  j.s.aborted = false → j.s.dead = false → j.s.allOk = true → Worked env db works j c

theorem WFine.step (p : Plan env cfg db disk0) (h : WFine env db works j c) (hi : Inv cfg j.s)
    (hf : j.s.aborted = false → j.s.dead = false → j.s.allOk = true → PInv env cfg db (fun _ => False) (fun _ => False) disk0 j.s.build j.s.g j.m)
    (hplaces : Spared (fun b x => Reach cfg db b x) j)
    {e : Make.Event} (hw : PlainBehaves env cfg db j e) (hn : NoSync e) (hdec : PlainDecides env db works j c e) (hs : Make.step env cfg j e = some j')
    (hc : ∀ x, (∀ value, e ≠ .write x value) → c' x = c x) : WFine env db works j' c' := by
  intro hab hd ho
  by_cases hwr : ∃ file value, e = .write file value
  · obtain ⟨file, value, rfl⟩ := hwr
    cases hs
    exact (h hab hd ho).write p hi hab (hf hab hd ho) hplaces hw fun x hx => hc x fun v hv => hx (by cases hv; rfl)
  · have hcc : c' = c := funext fun x => hc x fun v hv => hwr ⟨x, v, hv⟩
    subst hcc
    by_cases hch : ∃ ex failed, e = .childFinished ex failed
    · obtain ⟨ex, failed, rfl⟩ := hch
      simp only [Make.step] at hs
      split at hs
      · cases hs
      · next hd0 =>
        split at hs
        · next e' t hfd =>
          cases hs
          have hcf := childFinished_fields cfg ex t failed j.s
          have hmem := List.mem_of_find?_eq_some hfd
          have hex : e' = ex := by simpa using List.find?_some hfd
          subst hex
          simp only at hab ho
          rw [hcf.aborted, Bool.or_eq_false_iff] at hab
          rw [hcf.allOk, Bool.and_eq_true, Bool.not_eq_true'] at ho
          obtain ⟨ho, rfl⟩ := ho
          intro b x hx
          have hx : Ev.succeeded b x ∈ (childFinished cfg e' t false j.s).log := hx
          rw [hcf.log, List.mem_append] at hx
          show works x (Inputs env db (forget t j.m) c' x)
          rw [inputs_disk (m := j.m) (m' := forget t j.m) rfl]
          rcases hx with hx | hx
          · exact h hab.1 (by simpa using hd0) ho b x hx
          · have hx : Ev.succeeded b x = Ev.succeeded j.s.build t := by simpa using hx
            cases hx
            exact (hdec hab.1 e' false rfl t hmem).1 rfl
        · cases hs
    · obtain ⟨h1, h2⟩ := step_onward hi db hw (fun f v he => hwr ⟨f, v, he⟩) (fun x f he => hch ⟨x, f, he⟩) hs ho hab
      have hsm := step_smooth hn (fun x f he => hch ⟨x, f, he⟩) hs
      intro b x hx
      rw [inputs_disk h1.disk]
      rcases hsm.log _ hx with hx | hx
      · exact h (h1.aborted hab) h2 (h1.allOk ho) b x hx
      · exact absurd rfl (hx b x).1

/-- What is assumed of the runs. -/
abbrev Tells (env : Env) (cfg : Cfg) (db : Db) (recipe : Nat → (Str → C → Prop) → C) (works : Nat → (Str → C → Prop) → Prop)
    (disk0 : Str → Option Nat) (c0 : Str → C) (j : J) (c : Str → C) : Prop :=
  PlainTraced env cfg (fun k => record (db.target k)) disk0 c0 (PlainPlays env cfg db recipe works disk0) j c

theorem Tells.clean (h : Tells env cfg db recipe works disk0 c0 j c) :
    Run env cfg (fun k => record (db.target k)) disk0 (fun j e => PlainBehaves env cfg db j e ∧ FailsClean env cfg db e) j :=
  PlainTraced.run (fun _ _ _ h => ⟨h.1.1.1.1, h.1.1.2⟩) h

theorem Tells.behaves (h : Tells env cfg db recipe works disk0 c0 j c) :
    Run env cfg (fun k => record (db.target k)) disk0 (PlainBehaves env cfg db) j := h.clean.mono fun _ _ h => h.1

theorem Tells.worked (p : Plan env cfg db disk0) (h : Tells env cfg db recipe works disk0 c0 j c) : WFine env db works j c := by
  induction h with
  | start asked hd ha =>
    intro _ _ _ b x hx
    have : (Sched.init cfg).log = [] := (init_log cfg).1
    have hx : Ev.succeeded b x ∈ (Sched.init cfg).log := hx
    rw [this] at hx
    cases hx
  | @step j j' c c' e asked hr hw hs hc hdn ha ih =>
    have hr : Tells env cfg db recipe works disk0 c0 j c := hr
    have := ih.step p hr.behaves.reachable.inv (hr.behaves.fineOk p sure_none) (fun b x hx => (hr.clean.places p b x hx).2) hw.1.1.1.1 hw.2.1 hw.2.2 hs hc
    split
    · intro h1 h2 h3 b x hx
      rw [inputs_disk (buildAsked_disk ..)]
      exact this h1 h2 h3 b x hx
    · exact this

/-- After exit code 0 everything that was started has succeeded. -/
theorem Tells.ended (p : Plan env cfg db disk0) (h : Tells env cfg db recipe works disk0 c0 j c) (h0 : 0 ∈ j.s.exits) {b x : Nat}
    (hs : Ev.started b x ∈ j.s.log) : Ev.succeeded b x ∈ j.s.log := by
  have hi := h.behaves.reachable.inv
  obtain ⟨hc, hok⟩ := complete_zero hi h0
  have hset : (b, x) ∈ j.s.settled := by
    rcases Nat.lt_or_ge b j.s.build with hlt | hge
    · obtain ⟨r, hr, hx⟩ := hi.lg.startReach b x hs
      exact hi.lg.past (h.behaves.acyclic p) b hlt r hr x hx
    · have : b = j.s.build := Nat.le_antisymm (hi.lg.logT b x hs) hge
      subst this
      rcases hi.lg.startBusy x hs with h1 | h1
      · rw [hc.busy] at h1; cases h1
      · exact h1
  obtain ⟨n1, n2, n3⟩ := hi.lg.notRan b x hs
  rcases mem_settled.1 hset with h1 | h1 | h1 | h1 | h1
  · exact absurd h1 n1
  · exact absurd h1 n2
  · exact absurd h1 n3
  · exact h1
  · have := hi.lg.allOk.2 ⟨b, x, h1⟩
    rw [hok] at this
    cases this

/-! ### Two builds agree on what has been made in both -/

/-- The files `f` with the contents `v` come from `disk0` and `c0` by making derived targets; those of `S` have been made. -/
structure Half (env : Env) (cfg : Cfg) (db : Db) (recipe : Nat → (Str → C → Prop) → C) (disk0 : Str → Option Nat) (c0 : Str → C)
    (S : Nat → Prop) (f : Files) (v : Str → C) : Prop where
  kept : ∀ x, Wanted db cfg.targets x → S x → (f (db.target x).name = disk0 (env.abs (db.target x).name) ∧ v (db.target x).name = c0 (env.abs (db.target x).name)) ∨
    Derived (fun n => disk0 (env.abs n)) db x
  plain : ∀ n, Mentioned db cfg.targets n → (∀ k, Wanted db cfg.targets k → env.abs n ≠ env.abs (db.target k).name) →
    f n = disk0 (env.abs n) ∧ v n = c0 (env.abs n)
  cong : ∀ n n', env.abs n = env.abs n' → f n = f n' ∧ v n = v n'
  mono : ∀ n, Mentioned db cfg.targets n → disk0 (env.abs n) ≠ none → f n ≠ none
  made : ∀ x, S x → Buildable f db x → f (db.target x).name ≠ none ∧ Correct recipe f v db x

variable {S : Nat → Prop} {f f' : Files} {v v' : Str → C}

theorem Half.subset {S' : Nat → Prop} (h : Half env cfg db recipe disk0 c0 S f v) (hs : ∀ x, S' x → S x) :
    Half env cfg db recipe disk0 c0 S' f v := ⟨fun x hx hxs => h.kept x hx (hs x hxs), h.plain, h.cong, h.mono, fun x hx => h.made x (hs x hx)⟩

theorem Half.same (h : Half env cfg db recipe disk0 c0 S f v) {n : Str} (hn : Mentioned db cfg.targets n) (hp : ¬ Product env cfg db disk0 n)
    (hS : ∀ k, Wanted db cfg.targets k → env.abs n = env.abs (db.target k).name → S k) : f n = disk0 (env.abs n) ∧ v n = c0 (env.abs n) := by
  by_cases hk : ∃ k, Wanted db cfg.targets k ∧ env.abs n = env.abs (db.target k).name
  · obtain ⟨k, hk, ha⟩ := hk
    rcases h.kept k hk (hS k hk ha) with ⟨h1, h2⟩ | h1
    · rw [(h.cong _ _ ha).1, (h.cong _ _ ha).2, h1, h2, ha]
      exact ⟨rfl, rfl⟩
    · exact absurd ⟨k, hk, ha, h1⟩ hp
  · exact h.plain n hn fun k hkw ha => hk ⟨k, hkw, ha⟩

theorem Half.buildable {N : Nat} (hfew : FewerThan db cfg.targets N) (p : Plan env cfg db disk0) (h : Half env cfg db recipe disk0 c0 S f v)
    (hdown : ∀ x y, S x → Needs db x y → S y) : ∀ k, Wanted db cfg.targets k → S k → Derived (fun n => disk0 (env.abs n)) db k → Buildable f db k := by
  refine needs_induct (Q := fun k => S k → Derived (fun n => disk0 (env.abs n)) db k → Buildable f db k) hfew p.un.acyclic ?_
  intro k hk ih hkS hd
  have hex : ∀ r l, r ∈ (db.target k).rules → Resolves db r l → Derived (fun n => disk0 (env.abs n)) db l → ∃ s, f r = some s := by
    intro r l hr hl hld
    have hn := p.un.inferred k hk r hr l hl
    have ha := (p.un.names k hk r (.inr hr) l (hk.tail hn)).1 hl
    have := (h.made l (hdown _ _ hkS hn) (ih l hn (hdown _ _ hkS hn) hld)).1
    rw [← (h.cong _ _ ha).1] at this
    exact Option.ne_none_iff_exists'.1 this
  cases hd with
  | commands h => exact .inl h
  | @source _ r hr h0 => exact .inr ⟨r, hr, Option.ne_none_iff_exists'.1 (h.mono r ⟨k, hk, .inr (.inr hr)⟩ h0)⟩
  | @made _ r l hr hl hld => exact .inr ⟨r, hr, hex r l hr hl hld⟩

/-- A name said by something of which all dependents are in `S`. -/
theorem Half.names {N : Nat} (hfew : FewerThan db cfg.targets N) (p : Plan env cfg db disk0) (h : Half env cfg db recipe disk0 c0 S f v)
    (h' : Half env cfg db recipe disk0 c0 S f' v') (hdown : ∀ x y, S x → Needs db x y → S y) {y : Nat} {n : Str} (hy : Wanted db cfg.targets y)
    (hyS : ∀ z, Needs db y z → S z) (hn : Says db y n)
    (hv : ∀ z, Needs db y z → Derived (fun n => disk0 (env.abs n)) db z → v (db.target z).name = v' (db.target z).name) :
    (f n = none ↔ f' n = none) ∧ (f n ≠ none → v n = v' n) := by
  by_cases hp : Product env cfg db disk0 n
  · obtain ⟨z, hz, ha, hzd⟩ := hp
    have hyz := p.needs hy hn ((p.un.names y hy n hn z hz).2 ha)
    have hzS := hyS z hyz
    have e1 := (h.made z hzS (h.buildable hfew p hdown z hz hzS hzd)).1
    have e2 := (h'.made z hzS (h'.buildable hfew p hdown z hz hzS hzd)).1
    rw [(h.cong _ _ ha).1, (h'.cong _ _ ha).1, (h.cong _ _ ha).2, (h'.cong _ _ ha).2]
    exact ⟨⟨fun h => absurd h e1, fun h => absurd h e2⟩, fun _ => hv z hyz hzd⟩
  · have hm : Mentioned db cfg.targets n := ⟨y, hy, .inr hn⟩
    have hk : ∀ k, Wanted db cfg.targets k → env.abs n = env.abs (db.target k).name → S k := fun k hk ha =>
      hyS k (p.needs hy hn ((p.un.names y hy n hn k hk).2 ha))
    obtain ⟨a1, a2⟩ := h.same hm hp hk
    obtain ⟨b1, b2⟩ := h'.same hm hp hk
    rw [a1, a2, b1, b2]
    exact ⟨Iff.rfl, fun _ => rfl⟩

/-- What has been made has the same content in both. -/
theorem Half.content {N : Nat} (hfew : FewerThan db cfg.targets N) (p : Plan env cfg db disk0) (h : Half env cfg db recipe disk0 c0 S f v)
    (h' : Half env cfg db recipe disk0 c0 S f' v') (hdown : ∀ x y, S x → Needs db x y → S y) :
    ∀ k, Wanted db cfg.targets k → ∀ l, ReflTransGen (Needs db) k l → S l → Derived (fun n => disk0 (env.abs n)) db l →
      v (db.target l).name = v' (db.target l).name := by
  have hS : ∀ k l, ReflTransGen (Needs db) k l → S k → S l := by
    intro k l hkl hk
    induction hkl with
    | refl => exact hk
    | tail _ h1 ih => exact hdown _ _ ih h1
  refine needs_induct hfew p.un.acyclic ?_
  intro k hk ih l hkl hlS hd
  rcases ReflTransGen.cases_head hkl with rfl | ⟨m, hkm, hml⟩
  · have h1 := (h.made k hlS (h.buildable hfew p hdown k hk hlS hd)).2
    have h2 := (h'.made k hlS (h'.buildable hfew p hdown k hk hlS hd)).2
    unfold Correct at h1 h2
    rw [h1, h2]
    congr 1
    refine p.inputs hk fun y n hy hn => Half.names hfew p h h' hdown (hk.down hy) (fun z hz => hdown _ _ (hS _ _ hy hlS) hz) hn fun z hz hzd => ?_
    rcases ReflTransGen.cases_head (hy.tail hz) with h3 | ⟨m, h3, h4⟩
    · subst h3
      exact absurd (TransGen.tail' hy hz) (p.un.acyclic k hk)
    · exact ih m h3 z h4 (hdown _ _ (hS _ _ hy hlS) hz) hzd
  · exact ih m hkm l hml hlS hd

/-- What is read to make `x` is the same in both. -/
theorem Half.inputs {N : Nat} (hfew : FewerThan db cfg.targets N) (p : Plan env cfg db disk0) (h : Half env cfg db recipe disk0 c0 S f v)
    (h' : Half env cfg db recipe disk0 c0 S f' v') (hdown : ∀ x y, S x → Needs db x y → S y) {x : Nat} (hx : Wanted db cfg.targets x)
    (hxS : ∀ y, Needs db x y → S y) : (fun n w => MadeFrom f db x n ∧ v n = w) = fun n w => MadeFrom f' db x n ∧ v' n = w := by
  have hS : ∀ k l, ReflTransGen (Needs db) k l → S k → S l := by
    intro k l hkl hk
    induction hkl with
    | refl => exact hk
    | tail _ h1 ih => exact hdown _ _ ih h1
  refine p.inputs hx fun y n hy hn => ?_
  have hyS : ∀ z, Needs db y z → S z := by
    rcases ReflTransGen.cases_head hy with rfl | ⟨m, h3, h4⟩
    · exact hxS
    · exact fun z hz => hdown _ _ (hS _ _ h4 (hxS m h3)) hz
  exact Half.names hfew p h h' hdown (hx.down hy) hyS hn fun z hz hzd =>
    Half.content hfew p h h' hdown z ((hx.down hy).tail hz) z .refl (hyS z hz) hzd

theorem Honest.half (h : Honest env cfg db recipe disk0 c0 j c) (hmono : ∀ n, Mentioned db cfg.targets n → disk0 (env.abs n) ≠ none → fm env j.m n ≠ none)
    (hmade : ∀ x, S x → Buildable (fm env j.m) db x → fm env j.m (db.target x).name ≠ none ∧ Correct recipe (fm env j.m) (fun n => c (env.abs n)) db x) :
    Half env cfg db recipe disk0 c0 S (fm env j.m) (fun n => c (env.abs n)) where
  kept := fun x hx _ => (h.kept x hx).imp id fun h => h.1
  plain := h.plain
  cong := fun n n' ha => ⟨by show j.m.files.disk (env.abs n) = j.m.files.disk (env.abs n'); rw [ha], by show c (env.abs n) = c (env.abs n'); rw [ha]⟩
  mono := hmono
  made := hmade

theorem _root_.Jom.Spec.Build.UpToDate.there {x : Nat} (h : UpToDate f db x) : f (db.target x).name ≠ none := by
  obtain ⟨T, hT, _⟩ := h
  rw [hT]
  exact fun h => by cases h

theorem Finished.half (h : Finished env cfg db recipe disk0 c0 j c) :
    Half env cfg db recipe disk0 c0 (Wanted db cfg.targets) (fm env j.m) (fun n => c (env.abs n)) :=
  h.honest.half h.mono fun x hx hb => ⟨(h.made x hx hb).1.there, (h.made x hx hb).2⟩

/-- While commands run, everything below has been made. -/
theorem Honest.during (h : Honest env cfg db recipe disk0 c0 j c) (hi : Inv cfg j.s) (hab : j.s.aborted = false)
    (hp : PInv env cfg db (fun _ => False) (fun _ => False) disk0 j.s.build j.s.g j.m) :
    Half env cfg db recipe disk0 c0 (Settled cfg db (fun _ => False) (fun _ => False) j.s.build j.s.g) (fm env j.m) (fun n => c (env.abs n)) := by
  refine h.half hp.core.mono fun x hx hb => ?_
  have hu := (hp.core.good x hx).1 hb
  refine ⟨hu.there, h.right x hx.wanted (fun hm => ?_) hb hu⟩
  obtain ⟨h1, h2⟩ := busy_exec hi hab x hm
  exact hp.core.execNot h1 h2 (.inl hx)

theorem busy_below (hi : Inv cfg j.s) (hab : j.s.aborted = false)
    (hp : PInv env cfg db (fun _ => False) (fun _ => False) disk0 j.s.build j.s.g j.m) {x : Nat} (hx : x ∈ j.s.busy.map (·.2)) {y : Nat}
    (hy : Needs db x y) : Settled cfg db (fun _ => False) (fun _ => False) j.s.build j.s.g y := by
  obtain ⟨h1, h2⟩ := busy_exec hi hab x hx
  have hr := hp.core.idReach h1
  refine ⟨.inr ⟨hr.tail hy, fun hyi => ?_⟩, fun h => h⟩
  have := (hp.core.ginv.ch x h1 y).2 ⟨(hp.core.edges x hr.wanted y).2 hy, hyi⟩
  rw [hi.lg.execLeaf x h1 h2] at this
  cases this

/-! ### A second run -/

variable {env' : Env} {cfg' : Cfg}

theorem Half.move (habs : env'.abs = env.abs) (ht : cfg'.targets = cfg.targets) (h : Half env' cfg' db recipe disk0 c0 S f v) :
    Half env cfg db recipe disk0 c0 S f v where
  kept := by rw [← habs, ← ht]; exact h.kept
  plain := by rw [← habs, ← ht]; exact h.plain
  cong := by rw [← habs]; exact h.cong
  mono := by rw [← habs, ← ht]; exact h.mono
  made := h.made

theorem Tells.follows (h : Tells env cfg db recipe works disk0 c0 j c) :
    PlainTraced env cfg (fun k => record (db.target k)) disk0 c0 (fun j c e => PlainFollows env cfg db recipe j c e ∧ PlainLater disk0 e) j c := by
  induction h with
  | start asked hd ha => exact .start asked hd ha
  | step asked _ hw hs hc hdn ha ih => exact .step asked ih ⟨hw.1.1.1, hw.1.2⟩ hs hc hdn ha

theorem Tells.later (h : Tells env cfg db recipe works disk0 c0 j c) :
    Run env cfg (fun k => record (db.target k)) disk0 (fun j e => PlainBehaves env cfg db j e ∧ PlainLater disk0 e) j :=
  PlainTraced.run (fun _ _ _ h => ⟨h.1.1.1.1, h.1.2⟩) h

/-- The commands that run in the second build succeed. -/
theorem Tells.succeeds {N : Nat} (hfew : FewerThan db cfg.targets N) (p : Plan env cfg db disk0) (p' : Plan env' cfg' db disk0)
    (habs : env'.abs = env.abs) (ht : cfg'.targets = cfg.targets)
    (h0 : StartsCorrect recipe (fun n => disk0 (env.abs n)) (fun n => c0 (env.abs n)) db cfg.targets)
    (hplain : ∀ k, Wanted db cfg.targets k → ¬ Derived (fun n => disk0 (env.abs n)) db k → disk0 (env.abs (db.target k).name) ≠ none →
      ∀ y, ¬ Needs db k y)
    (h : Tells env cfg db recipe works disk0 c0 j c) (hx : 0 ∈ j.s.exits) (h' : Tells env' cfg' db recipe works disk0 c0 j' c')
    (hab : j'.s.aborted = false) (hd : j'.s.dead = false) (hok : j'.s.allOk = true) {x : Nat} (hb : x ∈ j'.s.busy.map (·.2)) :
    works x (Inputs env' db j'.m c' x) := by
  have h0' : StartsCorrect recipe (fun n => disk0 (env'.abs n)) (fun n => c0 (env'.abs n)) db cfg'.targets := by rw [habs, ht]; exact h0
  have hi := h.behaves.reachable.inv
  have hi' := h'.behaves.reachable.inv
  obtain ⟨hc, hok1⟩ := complete_zero hi hx
  have hfin := h.follows.finished p h0 hx
  have hpi' := h'.behaves.fineOk p' sure_none hab hd hok
  have hh' := h'.follows.honest p' h0' hab hd hok
  have hm := h.later.moved p hc.ab hc.dead hok1
  have hbk := hfin.buildable hfew p rfl rfl (same_refl (db := db) (disk := disk0) (c0 := c0) env.abs cfg.targets)
  obtain ⟨q, hq, rfl⟩ := List.mem_map.1 hb
  have hstart := hi'.lg.busyStart q hq
  obtain ⟨hw', hne⟩ := h'.behaves.spared p' (.inr hok) _ _ hstart
  have hw : Wanted db cfg.targets q.2 := ht ▸ hw'
  -- it is made in the first run, too
  have hbx : Buildable (fm env j.m) db q.2 := by
    have hcm := h'.behaves.recorded.armed.2 _ _ hstart
    have hb' : Buildable (fm env' j'.m) db q.2 := by
      rcases (hpi'.core.stat q.2 hw' (fun h => h)).2 with ⟨_, h1, _⟩ | ⟨r, hr, h1, _⟩
      · exact .inl (h1.symm.trans hcm)
      · exact .inr ⟨r, hr, h1⟩
    have := hh'.source p' hw' hb'
    rw [habs] at this
    exact hbk _ hw this
  obtain ⟨b, hst⟩ : ∃ b, Ev.started b q.2 ∈ j.s.log := by
    have hst : ∃ y, ReflTransGen (Needs db) q.2 y ∧ Buildable (fun n => disk0 (env.abs n)) db y ∧ ¬ UpToDate (fun n => disk0 (env.abs n)) db y := by
      apply Classical.byContradiction
      intro hno
      refine hne fun y hy hby => ?_
      rw [habs] at hby ⊢
      apply Classical.byContradiction
      intro hu
      exact hno ⟨y, hy, hby, hu⟩
    obtain ⟨y, hy, hby, hu⟩ := hst
    have hby' : Buildable (fm env j.m) db y := by
      refine stale_buildable (f := fun n => disk0 (env.abs n)) (cfg := cfg) (fun n hn => ?_) (hw.down hy) hby
      refine (hm n hn).imp id ?_
      rintro ⟨τ, _, _, h1, h2, _⟩
      exact ⟨τ, h1, fun x s => h2 _ s⟩
    obtain ⟨_, b, _, _, h1⟩ := (hm.spread p (fun k hk => (h.behaves.inOrder p hx).1 k (hw.down hk))
      (fun k hk hnb hex => hplain k (hw.down hk) (fun hd => hnb (hbk k (hw.down hk) hd)) hex) hw hy hby' hu).1 hbx
    exact ⟨b, h1⟩
  have hworks := h.worked p hc.ab hc.dead hok1 b _ (h.ended p hx hst)
  -- and reads the same
  have hS := hh'.during hi' hab hpi'
  have heq := Half.inputs hfew p (hfin.half.subset fun y (hy : Settled cfg' db (fun _ => False) (fun _ => False) j'.s.build j'.s.g y) => ht ▸ hy.wanted)
    (hS.move habs ht) (fun _ _ hy hn => hpi'.core.settledNeeds hy hn) hw (fun y hy => busy_below hi' hab hpi' hb hy)
  have heq : Inputs env db j.m c q.2 = Inputs env' db j'.m c' q.2 := heq
  rw [← heq]
  exact hworks

/-- In the second build nothing fails, and it is not aborted. -/
theorem Tells.again {N : Nat} (hfew : FewerThan db cfg.targets N) (p : Plan env cfg db disk0) (p' : Plan env' cfg' db disk0)
    (habs : env'.abs = env.abs) (ht : cfg'.targets = cfg.targets)
    (h0 : StartsCorrect recipe (fun n => disk0 (env.abs n)) (fun n => c0 (env.abs n)) db cfg.targets)
    (hplain : ∀ k, Wanted db cfg.targets k → ¬ Derived (fun n => disk0 (env.abs n)) db k → disk0 (env.abs (db.target k).name) ≠ none →
      ∀ y, ¬ Needs db k y)
    (h : Tells env cfg db recipe works disk0 c0 j c) (hx : 0 ∈ j.s.exits) (h' : Tells env' cfg' db recipe works disk0 c0 j' c') :
    Ev.exception ∉ j'.s.log → (∀ b t, Ev.failed b t ∉ j'.s.log) ∧ j'.s.aborted = false := by
  induction h' with
  | start asked hd ha =>
    intro _
    have : (Sched.init cfg').log = [] := (init_log cfg').1
    refine ⟨fun b t h => ?_, ?_⟩
    · have h : Ev.failed b t ∈ (Sched.init cfg').log := h
      rw [this] at h
      cases h
    · show (Sched.init cfg').aborted = false
      unfold Sched.init
      simp only
      split
      · rfl
      · unfold rebuild
        split <;> split <;> rfl
  | @step j' j2 c' c2 e asked hr hw hs hc hdn ha ih =>
    have hr : Tells env' cfg' db recipe works disk0 c0 j' c' := hr
    intro hexc
    suffices hgoal : (∀ b t, Ev.failed b t ∉ j2.s.log) ∧ j2.s.aborted = false by
      split
      · exact hgoal
      · exact hgoal
    have hexc : Ev.exception ∉ j2.s.log := by
      split at hexc
      · exact hexc
      · exact hexc
    by_cases hch : ∃ ex failed, e = .childFinished ex failed
    · obtain ⟨ex, failed, rfl⟩ := hch
      simp only [Make.step] at hs
      split at hs
      · cases hs
      · next hd0 =>
        split at hs
        · next e' t hfd =>
          cases hs
          have hcf := childFinished_fields cfg' ex t failed j'.s
          have hmem := List.mem_of_find?_eq_some hfd
          have hex : e' = ex := by simpa using List.find?_some hfd
          subst hex
          simp only at hexc
          rw [hcf.log, List.mem_append, not_or] at hexc
          obtain ⟨h1, h2⟩ := ih hexc.1
          have hok : j'.s.allOk = true := by
            cases hk : j'.s.allOk with
            | true => rfl
            | false =>
              obtain ⟨b, z, hz⟩ := hr.behaves.reachable.inv.lg.allOk.1 hk
              exact absurd hz (h1 b z)
          have hwk := h.succeeds hfew p p' habs ht h0 hplain hx hr h2 (by simpa using hd0) hok (List.mem_map.2 ⟨_, hmem, rfl⟩)
          have hf : failed = false := (hw.2.2 h2 e' failed rfl t hmem).2 hwk
          subst hf
          simp only
          rw [hcf.log, hcf.aborted]
          refine ⟨fun b x hbx => ?_, by simp [h2]⟩
          rcases List.mem_append.1 hbx with hbx | hbx
          · exact h1 b x hbx
          · simp at hbx
        · cases hs
    · have hsm := step_smooth hw.2.1 (fun x f he => hch ⟨x, f, he⟩) hs
      obtain ⟨h1, h2⟩ := ih fun h => hexc (hsm.keep _ h)
      refine ⟨fun b t hbt => ?_, ?_⟩
      · rcases hsm.log _ hbt with h3 | h3
        · exact h1 b t h3
        · exact (h3 b t).2 rfl
      · cases hk : j2.s.aborted with
        | false => rfl
        | true =>
          rcases hsm.ab hk with h3 | h3
          · rw [h2] at h3; cases h3
          · exact absurd h3 hexc

/-! ### All graphs can be built -/

theorem resolve_missing_disk {fi : FileInfo.St} {d : Str} (h : resolve env fi d = .missing) :
    env.lookup d = none ∧ env.lookup (env.dir ++ '\\' :: d) = none ∧ fi.disk (env.abs d) = none := by
  unfold resolve at h
  cases h1 : env.lookup d with
  | some k => rw [h1] at h; cases h
  | none =>
    rw [h1] at h
    simp only at h
    cases h2 : env.lookup (env.dir ++ '\\' :: d) with
    | some k => rw [h2] at h; cases h
    | none =>
      rw [h2] at h
      simp only at h
      refine ⟨rfl, rfl, ?_⟩
      unfold FileInfo.query at h
      cases h3 : FileInfo.cached d fi.cache with
      | some τ => rw [h3] at h; simp at h
      | none =>
        rw [h3] at h
        cases h4 : fi.disk (env.abs d) with
        | none => rfl
        | some τ => rw [h4] at h; simp at h

/-- The sources exist at the beginning. -/
def Provided (env : Env) (cfg : Cfg) (db : Db) (disk0 : Str → Option Nat) : Prop :=
  ∀ t, Wanted db cfg.targets t → ∀ d ∈ (db.target t).deps, db.lookup d = none → db.lookup (db.dir ++ '\\' :: d) = none → disk0 (env.abs d) ≠ none

theorem Tells.provided (p : Plan env cfg db disk0) (h : Tells env cfg db recipe works disk0 c0 j c) (hx : 0 ∈ j.s.exits) :
    Provided env cfg db disk0 := by
  intro t ht d hd h1 h2
  obtain ⟨hc, hok⟩ := complete_zero h.behaves.reachable.inv hx
  have hpi := h.behaves.fineOk p sure_none hc.ab hc.dead hok
  have hex := (h.behaves.inOrder p hx).2.sources t ht d hd h1 h2
  rcases hpi.core.new d ⟨t, ht, .inr (.inl hd)⟩ hex with h3 | ⟨k, hk, ha⟩
  · exact h3
  · rcases (p.un.names t ht d (.inl hd) k hk).2 ha with h4 | ⟨_, h4⟩
    · rw [h1] at h4; cases h4
    · rw [h2] at h4; cases h4

theorem Plan.builds (p : Plan env cfg db disk0) (hfew : FewerThan db cfg.targets cfg.fuel) (hprov : Provided env cfg db disk0) {m : Mem} {b r : Nat}
    (hstat : ∀ k, Reach cfg db b k → Static (fm env m) db k (m.info k))
    (hweak : ∀ k, Wanted db cfg.targets k → Static (fun _ => some 1) db k (m.info k))
    (hmono : ∀ n, Mentioned db cfg.targets n → disk0 (env.abs n) ≠ none → fm env m n ≠ none) (hd : DepsNow env cfg m b)
    (hr : cfg.targets[b]? = some r) (e : BuildErr) : Graph.build (cfg.deps b) cfg.fuel r ≠ .error e := by
  have hedges := p.edges hweak hd
  have hrw : Wanted db cfg.targets r := ⟨r, List.mem_of_getElem? hr, .refl⟩
  intro he
  cases e with
  | missing =>
    obtain ⟨x, hx, hm⟩ := build_missing he
    have hxw := reaches_down hedges hrw hx
    obtain ⟨d, hd1, hd2⟩ := (depsNow_mem hd _).1 hm
    obtain ⟨h1, h2, h3⟩ := resolve_missing_disk hd2
    rw [p.lookup] at h1 h2
    rw [p.dir] at h2
    have hin : d ∈ (db.target x).deps ∨ fm env m d ≠ none := by
      rcases (hstat x ⟨r, hr, (edges_reach hedges hr).1 hx⟩).2 with ⟨h4, _, _⟩ | ⟨s, _, ⟨τ, h5⟩, _, _, h4⟩
      · exact .inl (h4 ▸ hd1)
      · rcases (h4 d).1 hd1 with h6 | rfl
        · exact .inl h6
        · exact .inr (by rw [h5]; exact fun h => by cases h)
    rcases hin with hin | hin
    · exact hmono d ⟨x, hxw, .inr (.inl hin)⟩ (hprov x hxw d hin h1 h2) h3
    · exact hin h3
  | fuel =>
    obtain ⟨U, hU1, hU2, hU3⟩ := hfew
    classical
    refine build_fuel (U := U.filter (fun x => decide (Wanted db cfg.targets x))) ?_ ?_ (Nat.lt_of_le_of_lt (List.length_filter_le _ _) hU3) he
    · exact List.mem_filter.2 ⟨hU1 r (List.mem_of_getElem? hr), decide_eq_true hrw⟩
    · intro x hx k hk
      obtain ⟨hx1, hx2⟩ := List.mem_filter.1 hx
      have hxw := of_decide_eq_true hx2
      have hn := (hedges x hxw k).1 hk
      exact List.mem_filter.2 ⟨hU2 x hx1 k hn, decide_eq_true (hxw.tail hn)⟩

theorem buildNext_dead (asked : Str → Bool) (res : StartRes) (writes : List (Str × Option Nat)) :
    (buildNextTarget env cfg asked res writes j).s.dead = j.s.dead := by
  show (Sched.buildNextTarget cfg res j.s).dead = j.s.dead
  unfold Sched.buildNextTarget
  split
  · rfl
  · split
    · rfl
    · split
      · rfl
      · split
        · simp [onException, finishBuild]
        · rfl
        · exact (childFinished_fields ..).dead

theorem findNext_dead (env : Env) (cfg : Cfg) (a : Answers) : ∀ i (j : J), (outcome (findNextTarget env cfg a i j)).s.dead = j.s.dead ∧
    (outcome (findNextTarget env cfg a i j)).s.build = j.s.build := by
  intro i
  induction i with
  | zero => intro j; exact ⟨rfl, rfl⟩
  | succ i ih =>
    intro j
    simp only [findNextTarget]
    split
    · exact ⟨rfl, rfl⟩
    · generalize prune env a.now a.asked cfg.buildAll j.s.g j.m = q
      obtain ⟨g, m, gone⟩ := q
      simp only
      split
      · exact ⟨rfl, rfl⟩
      · generalize List.foldl (applyRule env a.choose) m g.leaves = m1
        generalize pick g = q
        obtain ⟨g', r⟩ := q
        cases r with
        | none => exact ⟨rfl, rfl⟩
        | some t =>
          simp only
          generalize (if cfg.buildAll = true then (test env a.now a.asked t m1).1 else m1) = m2
          split
          · exact ih _
          · split
            · exact ih _
            · exact ⟨rfl, rfl⟩

/-- jom dies only when it builds the graph of the next requested target. -/
theorem step_dies {e : Make.Event} (hs : Make.step env cfg j e = some j') (hd : j.s.dead = false) (hd' : j'.s.dead = true) :
    j'.s.build ≠ j.s.build ∧ ∃ a j1, e = .startProcesses a ∧
      findNextTarget env cfg a (j.s.g.ids.length + 1) { j with s := { j.s with queued := j.s.queued - 1 } } = .ok j1 ∧ j'.m = invalidate j1.m := by
  have no : j'.s.dead = j.s.dead → False := fun h => by rw [h, hd] at hd'; cases hd'
  cases e with
  | startProcesses a =>
    simp only [Make.step] at hs
    split at hs
    · simp only [Option.some.injEq] at hs
      have hfd := findNext_dead env cfg a (j.s.g.ids.length + 1) { j with s := { j.s with queued := j.s.queued - 1 } }
      unfold Make.startProcesses at hs
      split at hs
      · subst hs; exact (no rfl).elim
      · by_cases hn : ({ j with s := { j.s with queued := j.s.queued - 1 } } : J).s.next.isNone = true
        · rw [if_pos hn] at hs
          have hlen : ({ j with s := { j.s with queued := j.s.queued - 1 } } : J).s.g.ids.length + 1 = j.s.g.ids.length + 1 := rfl
          rw [hlen] at hs
          generalize hq : findNextTarget env cfg a (j.s.g.ids.length + 1) { j with s := { j.s with queued := j.s.queued - 1 } } = q at hs hfd
          cases q with
          | error j1 =>
            subst hs
            refine (no ?_).elim
            have := hfd.1
            simp only [onException, finishBuild]
            exact this
          | ok j1 =>
            have h1 : j1.s.dead = j.s.dead := hfd.1
            have h2 : j1.s.build = j.s.build := hfd.2
            simp only at hs
            split at hs
            · split at hs
              · subst hs; exact (no ((buildNext_dead ..).trans h1)).elim
              · subst hs; exact (no h1).elim
            · split at hs
              · split at hs
                · subst hs; exact (no (by simp only [finishBuild]; exact h1)).elim
                · subst hs
                  refine ⟨?_, a, j1, rfl, hq, rfl⟩
                  have : ∀ (b t : Nat) (rest : List Nat) (s : St), (rebuild cfg b t rest s).build = b := by
                    intro b t rest s
                    unfold rebuild
                    split <;> rfl
                  simp only
                  rw [this, h2]
                  exact Nat.succ_ne_self _
              · subst hs; exact (no h1).elim
        · rw [if_neg hn] at hs
          have hsome : ({ j with s := { j.s with queued := j.s.queued - 1 } } : J).s.next.isSome = true := by
            revert hn
            cases ({ j with s := { j.s with queued := j.s.queued - 1 } } : J).s.next <;> simp
          simp only at hs
          rw [if_pos hsome] at hs
          split at hs
          · subst hs; exact (no (buildNext_dead ..)).elim
          · subst hs; exact (no rfl).elim
    · cases hs
  | grant =>
    simp only [Make.step] at hs
    split at hs
    · cases hs; exact (no rfl).elim
    · cases hs
  | acquired asked res writes w =>
    simp only [Make.step] at hs
    split at hs
    · simp only [Option.some.injEq] at hs
      split at hs
      · subst hs; exact (no (buildNext_dead ..)).elim
      · subst hs; exact (no (buildNext_dead ..)).elim
    · cases hs
  | childFinished ex f =>
    simp only [Make.step] at hs
    split at hs
    · cases hs
    · split at hs
      · cases hs; exact (no (childFinished_fields ..).dead).elim
      · cases hs
  | abortDone =>
    simp only [Make.step] at hs
    split at hs
    · cases hs; exact (no (by simp [finishBuild])).elim
    · cases hs
  | write file value => cases hs; exact (no rfl).elim

theorem step_alive {e : Make.Event} (hs : Make.step env cfg j e = some j') (hne : ∀ file value, e ≠ .write file value) : j.s.dead = false := by
  cases e with
  | childFinished ex f =>
    simp only [Make.step] at hs
    split at hs
    · cases hs
    · next h => simpa using h
  | write file value => exact absurd rfl (hne file value)
  | _ =>
    simp only [Make.step] at hs
    split at hs
    · next h => exact h.1
    · cases hs

/-- In the second build all graphs can be built. -/
theorem Tells.alive {N : Nat} (hfew : FewerThan db cfg.targets N) (hfew' : FewerThan db cfg'.targets cfg'.fuel) (p : Plan env cfg db disk0)
    (p' : Plan env' cfg' db disk0)
    (habs : env'.abs = env.abs) (ht : cfg'.targets = cfg.targets)
    (h0 : StartsCorrect recipe (fun n => disk0 (env.abs n)) (fun n => c0 (env.abs n)) db cfg.targets)
    (hplain : ∀ k, Wanted db cfg.targets k → ¬ Derived (fun n => disk0 (env.abs n)) db k → disk0 (env.abs (db.target k).name) ≠ none →
      ∀ y, ¬ Needs db k y)
    (h : Tells env cfg db recipe works disk0 c0 j c) (hx : 0 ∈ j.s.exits) (h' : Tells env' cfg' db recipe works disk0 c0 j' c') :
    Ev.exception ∉ j'.s.log → j'.s.dead = false := by
  have hprov : Provided env' cfg' db disk0 := by
    have := h.provided p hx
    unfold Provided
    rw [habs, ht]
    exact this
  induction h' with
  | start asked hd ha =>
    intro _
    cases hk : (Sched.init cfg').dead with
    | false => rfl
    | true =>
      have hr : Run env' cfg' (fun k => record (db.target k)) disk0 (PlainBehaves env' cfg' db) _ := .start asked hd ha
      obtain ⟨r, e, hr, he⟩ := hr.reachable.extra.died hk
      rw [show (({ s := Sched.init cfg', m := buildAsked env' asked { info := fun k => record (db.target k), files := { disk := disk0, cache := [] } } } : J).s.build) = 0
        from (init_log cfg').2.2] at hr he
      exact absurd he (p'.builds hfew' hprov (fun _ _ => ⟨rfl, .inl ⟨rfl, rfl, rfl⟩⟩) (fun _ _ => ⟨rfl, .inl ⟨rfl, rfl, rfl⟩⟩) (fun _ _ h => h) hd hr e)
  | @step j' j2 c' c2 e asked hr hw hs hc hdn ha ih =>
    have hr0 : Tells env' cfg' db recipe works disk0 c0 j' c' := hr
    have hr2 : Tells env' cfg' db recipe works disk0 c0 _ c2 := .step asked hr hw hs hc hdn ha
    intro hexc
    have hexc2 : Ev.exception ∉ j2.s.log := by
      split at hexc
      · exact hexc
      · exact hexc
    suffices hgoal : j2.s.dead = false by
      split
      · exact hgoal
      · exact hgoal
    have hexc' : Ev.exception ∉ j'.s.log := by
      by_cases hwr : ∃ file value, e = .write file value
      · obtain ⟨file, value, rfl⟩ := hwr
        cases hs
        exact hexc2
      · exact fun hm => hexc2 (step_keeps hr0.behaves.reachable.inv hw.1.1.1.1 hw.1.1.2 hs _ hm)
    have hal := ih hexc'
    cases hk : j2.s.dead with
    | false => rfl
    | true =>
      obtain ⟨hb, a, j1, rfl, hfn, hm⟩ := step_dies hs hal hk
      obtain ⟨hnf, hab⟩ := h.again hfew p p' habs ht h0 hplain hx hr0 hexc'
      have hok : j'.s.allOk = true := by
        cases hk : j'.s.allOk with
        | true => rfl
        | false =>
          obtain ⟨b, z, hz⟩ := hr0.behaves.reachable.inv.lg.allOk.1 hk
          exact absurd hz (hnf b z)
      have hpi := hr0.behaves.fineOk p' sure_none hab hal hok
      obtain ⟨hp1, _⟩ := PInv.findNext p' a _ { j' with s := { j'.s with queued := j'.s.queued - 1 } } j1 hpi hw.1.1.1.1.1 hfn
      have hd2 := hdn hb
      rw [hm] at hd2
      have hdead : (if j2.s.build ≠ j'.s.build then { j2 with m := buildAsked env' asked j2.m } else j2).s.dead = true := by
        split
        · exact hk
        · exact hk
      obtain ⟨r, e, hr, he⟩ := hr2.behaves.reachable.extra.died hdead
      have hbuild : (if j2.s.build ≠ j'.s.build then { j2 with m := buildAsked env' asked j2.m } else j2).s.build = j2.s.build := by
        split <;> rfl
      rw [hbuild] at hr he
      exact absurd he (p'.builds hfew' hprov (m := invalidate j1.m) (fun k hk => hp1.core.stat k hk.wanted fun h => h) hp1.core.weak hp1.core.mono hd2 hr e)

/-- The second build ends with exit code 0, if it ends. -/
theorem Tells.codes {N : Nat} (hfew : FewerThan db cfg.targets N) (hfew' : FewerThan db cfg'.targets cfg'.fuel) (p : Plan env cfg db disk0)
    (p' : Plan env' cfg' db disk0)
    (habs : env'.abs = env.abs) (ht : cfg'.targets = cfg.targets)
    (h0 : StartsCorrect recipe (fun n => disk0 (env.abs n)) (fun n => c0 (env.abs n)) db cfg.targets)
    (hplain : ∀ k, Wanted db cfg.targets k → ¬ Derived (fun n => disk0 (env.abs n)) db k → disk0 (env.abs (db.target k).name) ≠ none →
      ∀ y, ¬ Needs db k y)
    (h : Tells env cfg db recipe works disk0 c0 j c) (hx : 0 ∈ j.s.exits) (h' : Tells env' cfg' db recipe works disk0 c0 j' c')
    (hexc : Ev.exception ∉ j'.s.log) : ∀ code ∈ j'.s.exits, code = 0 := by
  intro code hcode
  have hd := h.alive hfew hfew' p p' habs ht h0 hplain hx h' hexc
  obtain ⟨hnf, hab⟩ := h.again hfew p p' habs ht h0 hplain hx h' hexc
  have hi := h'.behaves.reachable.inv
  rcases hi.codes code hcode with ⟨_, h1⟩ | ⟨h1, _⟩ | ⟨_, h1⟩
  · rw [hd] at h1; cases h1
  · rw [hab] at h1; cases h1
  · cases hk : j'.s.allOk with
    | true => rw [hk] at h1; simpa using h1
    | false =>
      obtain ⟨b, z, hz⟩ := hi.lg.allOk.1 hk
      exact absurd hz (hnf b z)

theorem _root_.Jom.Spec.Build.Traced.mono {C : Type} {env : Env} {cfg : Sched.Cfg} {info : Nat → UpToDate.TInfo} {disk0 : Str → Option Nat} {c0 c : Str → C} {j : J}
    {ok ok' : J → (Str → C) → Make.Event → Prop}
    (hok : ∀ j c e, ok j c e → ok' j c e) (h : Traced env cfg info disk0 c0 ok j c) : Traced env cfg info disk0 c0 ok' j c := by
  induction h with
  | start asked hd ha => exact .start asked hd ha
  | step asked _ hw hs hc hdn ha ih => exact .step asked ih (hok _ _ _ hw) hs hc hdn ha

end Jom.Make
