/- What is out of date at the beginning is made in every run that ends with exit code 0. -/
import Verif.Proofs.MakeContent

namespace Jom.Make

open Jom.Graph Jom.Sched Jom.UpToDate Jom.Spec Jom.Spec.Build Relation

variable {env : Env} {cfg : Cfg} {db : Db} {disk0 : Str → Option Nat} {j j' : J} {Q H : Nat → Prop}

/-- Mentioned files are as they were or have been written, after the beginning, by the commands of a target. -/
def Moved (env : Env) (cfg : Cfg) (db : Db) (disk0 : Str → Option Nat) (j : J) : Prop :=
  ∀ n, Mentioned db cfg.targets n → fm env j.m n = disk0 (env.abs n) ∨
    ∃ τ k b, fm env j.m n = some τ ∧ (∀ x s, disk0 x = some s → s < τ) ∧ Wanted db cfg.targets k ∧
      env.abs n = env.abs (db.target k).name ∧ Ev.started b k ∈ j.s.log

theorem Moved.onward (h : Moved env cfg db disk0 j) (hd : j'.m.files.disk = j.m.files.disk) (hl : ∀ e ∈ j.s.log, e ∈ j'.s.log) :
    Moved env cfg db disk0 j' := by
  have hf : fm env j'.m = fm env j.m := by unfold fm; rw [hd]
  unfold Moved
  rw [hf]
  intro n hn
  refine (h n hn).imp id ?_
  rintro ⟨τ, k, b, h1, h2, h3, h4, h5⟩
  exact ⟨τ, k, b, h1, h2, h3, h4, hl _ h5⟩

theorem Moved.write (h : Moved env cfg db disk0 j) (hi : Inv cfg j.s) (hab : j.s.aborted = false)
    (hp : PInv env cfg db Q H disk0 j.s.build j.s.g j.m) {file : Str} {value : Option Nat}
    (hw : MayWrite env.abs db cfg.targets (j.s.busy.map (·.2)) file value) (hnew : ∀ τ, value = some τ → ∀ x s, disk0 x = some s → s < τ) :
    Moved env cfg db disk0 { j with m := Make.write j.m (file, value) } := by
  intro n hn
  have hf' : fm env (Make.write j.m (file, value)) n = if env.abs n = file then value else fm env j.m n := rfl
  by_cases he : env.abs n = file
  · rcases hw.2 with ⟨t, ht, h1, h2⟩ | hno
    · obtain ⟨τ, hτ⟩ := Option.ne_none_iff_exists'.1 h2
      obtain ⟨ht1, ht2⟩ := busy_exec hi hab t ht
      obtain ⟨q, hq, rfl⟩ := List.mem_map.1 ht
      right
      exact ⟨τ, q.2, j.s.build, by rw [hf', if_pos he, hτ], hnew τ hτ, (hp.core.idReach ht1).wanted, by rw [he, h1],
        hi.lg.busyStart q hq⟩
    · exact absurd he.symm (hno n hn)
  · simp only [hf', if_neg he]
    exact h n hn

/-! ### Steps that leave mentioned files alone -/

/-- Mentioned files are the same, and nothing is forgotten. -/
structure Drift (env : Env) (cfg : Cfg) (db : Db) (j j' : J) : Prop where
  same : ∀ n, Mentioned db cfg.targets n → fm env j'.m n = fm env j.m n
  log : ∀ e ∈ j.s.log, e ∈ j'.s.log
  aborted : j'.s.aborted = false → j.s.aborted = false

theorem _root_.Jom.Make.Onward.drift (h : Onward j j') : Drift env cfg db j j' :=
  ⟨fun n _ => by unfold fm; rw [h.disk], h.log, h.aborted⟩

theorem Drift.trans {j'' : J} (h : Drift env cfg db j j') (h' : Drift env cfg db j' j'') : Drift env cfg db j j'' :=
  ⟨fun n hn => (h'.same n hn).trans (h.same n hn), fun e he => h'.log e (h.log e he), fun ha => h.aborted (h'.aborted ha)⟩

theorem writes_same : ∀ (ws : List (Str × Option Nat)) (m : Mem), (∀ w ∈ ws, MayWrite env.abs db cfg.targets [] w.1 w.2) →
    ∀ n, Mentioned db cfg.targets n → fm env (ws.foldl Make.write m) n = fm env m n := by
  intro ws
  induction ws with
  | nil => intro m _ n _; rfl
  | cons w ws ih =>
    intro m hw n hn
    rw [List.foldl_cons, ih _ (fun w' hw' => hw w' (List.mem_cons_of_mem _ hw')) n hn]
    rcases (hw w List.mem_cons_self).2 with ⟨t, ht, _⟩ | h
    · cases ht
    · show (if env.abs n = w.1 then w.2 else fm env m n) = _
      rw [if_neg fun he => h n hn he.symm]

theorem build_drift (asked : Str → Bool) {res : StartRes} {writes : List (Str × Option Nat)} (hne : j.s.avail ≠ []) (hres : res ≠ .sync false)
    (hcl : res = .sync true → ∀ w ∈ writes, MayWrite env.abs db cfg.targets [] w.1 w.2) :
    Drift env cfg db j (buildNextTarget env cfg asked res writes j) := by
  unfold Make.buildNextTarget Sched.buildNextTarget
  cases hn : j.s.next with
  | none => exact ⟨fun _ _ => rfl, fun _ h => h, id⟩
  | some t =>
    simp only
    cases hab : j.s.aborted with
    | true => exact ⟨by simp, by simp, by simp [hab]⟩
    | false =>
      simp only [Bool.false_eq_true, if_false]
      have hrem : ∀ n, fm env { j.m with files := remember env asked ((j.m.info t).name :: (j.m.info t).deps) j.m.files } n = fm env j.m n := by
        intro n; unfold fm; simp only [remember_disk]
      cases hav : j.s.avail with
      | nil => exact absurd hav hne
      | cons e rest =>
        simp only
        cases res with
        | throws =>
          exact ⟨fun n _ => hrem n, by simp only [onException, finishBuild]; intro e he; simp [he], by simp [onException, finishBuild]⟩
        | running => exact ⟨fun n _ => hrem n, fun q h => List.mem_append_left _ h, fun _ => hab⟩
        | sync failed =>
          cases failed with
          | false => exact absurd rfl hres
          | true =>
            have hcf := childFinished_fields cfg e t true (begin e t rest j.s)
            refine ⟨fun n hn => ?_, fun q h => ?_, fun _ => hab⟩
            · exact (writes_same writes _ (hcl rfl) n hn).trans (hrem n)
            · show q ∈ (childFinished cfg e t true (begin e t rest j.s)).log
              rw [hcf.log]
              exact List.mem_append_left _ (List.mem_append_left _ h)

theorem start_drift (a : Answers) (hres : a.res ≠ .sync false)
    (hcl : a.res = .sync true → ∀ w ∈ a.writes, MayWrite env.abs db cfg.targets [] w.1 w.2) :
    Drift env cfg db j (startProcesses env cfg a j) := by
  unfold startProcesses
  split
  · exact (Onward.refl j).drift
  · next hc =>
    have hav : j.s.avail ≠ [] := by
      intro h; rw [h] at hc; simp at hc
    have hf : Onward j (outcome (if j.s.next.isNone then findNextTarget env cfg a (j.s.g.ids.length + 1) j else .ok j)) ∧
        (outcome (if j.s.next.isNone then findNextTarget env cfg a (j.s.g.ids.length + 1) j else .ok j)).s.avail = j.s.avail := by
      split
      · exact ⟨findNext_onward env cfg a _ j, findNext_avail env cfg a _ j⟩
      · exact ⟨.refl j, rfl⟩
    revert hf
    generalize (if j.s.next.isNone then findNextTarget env cfg a (j.s.g.ids.length + 1) j else .ok j) = r
    cases r with
    | error j' =>
      simp only [outcome]
      rintro ⟨h1, _⟩
      exact h1.drift.trans ⟨fun _ _ => rfl, by simp only [onException, finishBuild]; intro e he; simp [he], by simp [onException, finishBuild]⟩
    | ok j' =>
      simp only [outcome]
      rintro ⟨h1, h2⟩
      split
      · split
        · exact h1.drift.trans (build_drift a.asked (by rw [h2]; exact hav) hres hcl)
        · exact h1.drift.trans ⟨fun _ _ => rfl, fun _ h => h, id⟩
      · split
        · split
          · exact h1.drift.trans ⟨fun _ _ => rfl, fun _ h => h, id⟩
          · refine h1.drift.trans ?_
            unfold rebuild
            split <;> exact ⟨fun _ _ => rfl, fun _ h => h, id⟩
        · exact h1.drift

/-- A step that is no write leaves mentioned files alone. -/
theorem step_drift {e : Event} (hi : Inv cfg j.s) (hw : PlainBehaves env cfg db j e) (hcl : FailsClean env cfg db e)
    (hne : ∀ file value, e ≠ .write file value) (hs : step env cfg j e = some j') : Drift env cfg db j j' ∧ j.s.dead = false := by
  cases e with
  | startProcesses a =>
    simp only [step] at hs
    split at hs
    · next hc =>
      cases hs
      have := start_drift (j := { j with s := { j.s with queued := j.s.queued - 1 } }) a hw.2 hcl
      exact ⟨⟨this.same, this.log, this.aborted⟩, hc.1⟩
    · cases hs
  | grant =>
    simp only [step] at hs
    split at hs
    · next hc => cases hs; exact ⟨⟨fun _ _ => rfl, fun _ h => h, id⟩, hc.1⟩
    · cases hs
  | acquired asked res writes inWait =>
    simp only [step] at hs
    split at hs
    · next hc =>
      cases hs
      have := build_drift (j := { j with s := { j.s with acquiring := false, granted := false } }) asked
        (hi.ex.acqAvail (hi.ex.gr hc.2.1)) hw hcl
      split
      · exact ⟨⟨this.same, this.log, this.aborted⟩, hc.1⟩
      · exact ⟨⟨this.same, this.log, this.aborted⟩, hc.1⟩
    · cases hs
  | childFinished ex failed =>
    simp only [step] at hs
    split at hs
    · cases hs
    · next hd0 =>
      split at hs
      · next t hfd =>
        cases hs
        have hcf := childFinished_fields cfg ex t failed j.s
        refine ⟨⟨fun _ _ => rfl, fun q h => ?_, fun h => ?_⟩, by simpa using hd0⟩
        · show q ∈ (childFinished cfg ex t failed j.s).log
          rw [hcf.log]
          exact List.mem_append_left _ h
        · have h : (childFinished cfg ex t failed j.s).aborted = false := h
          rw [hcf.aborted, Bool.or_eq_false_iff] at h
          exact h.1
      · cases hs
  | abortDone =>
    simp only [step] at hs
    split at hs
    · next hc => cases hs; exact ⟨⟨fun _ _ => rfl, fun _ h => h, id⟩, hc.1⟩
    · cases hs
  | write file value => exact absurd rfl (hne _ _)

theorem Moved.drift (h : Moved env cfg db disk0 j) (hd : Drift env cfg db j j') : Moved env cfg db disk0 j' := by
  intro n hn
  rw [hd.same n hn]
  refine (h n hn).imp id ?_
  rintro ⟨τ, k, b, h1, h2, h3, h4, h5⟩
  exact ⟨τ, k, b, h1, h2, h3, h4, hd.log _ h5⟩

/-- With failures. -/
theorem Run.movedClean (p : Plan env cfg db disk0)
    (h : Run env cfg (fun k => record (db.target k)) disk0
      (fun j e => (PlainBehaves env cfg db j e ∧ FailsClean env cfg db e) ∧ PlainLater disk0 e) j) :
    j.s.aborted = false → j.s.dead = false → Moved env cfg db disk0 j := by
  induction h with
  | start asked hd ha =>
    intro _ _ n _
    left
    exact congrFun (buildAsked_disk ..) _
  | @step j j' e asked hr hw hs hdn ha ih =>
    have hrun := hr.mono (ok' := fun j e => PlainBehaves env cfg db j e ∧ Careful env cfg db (fun _ => True) e) fun _ _ h => ⟨h.1.1, .inr h.1.2⟩
    have hi := hrun.reachable.inv
    have key : j'.s.aborted = false → j'.s.dead = false → Moved env cfg db disk0 j' := by
      intro hab hd
      by_cases hwr : ∃ file value, e = .write file value
      · obtain ⟨file, value, rfl⟩ := hwr
        cases hs
        exact (ih hab hd).write hi hab (hrun.fine p sure_none (fun _ _ _ h => h) hab hd fun _ _ _ => .inl trivial) hw.1.1
          (fun τ hτ => hw.2 file τ (by rw [hτ]))
      · obtain ⟨h1, h2⟩ := step_drift hi hw.1.1 hw.1.2 (fun f v he => hwr ⟨f, v, he⟩) hs
        exact (ih (h1.aborted hab) h2).drift h1
    split
    · intro h1 h2
      exact (key h1 h2).onward (buildAsked_disk ..) fun _ h => h
    · exact key

theorem Run.moved (p : Plan env cfg db disk0)
    (h : Run env cfg (fun k => record (db.target k)) disk0 (fun j e => PlainBehaves env cfg db j e ∧ PlainLater disk0 e) j) :
    j.s.aborted = false → j.s.dead = false → j.s.allOk = true → Moved env cfg db disk0 j := by
  induction h with
  | start asked hd ha =>
    intro _ _ _ n _
    left
    exact congrFun (buildAsked_disk ..) _
  | @step j j' e asked hr hw hs hdn ha ih =>
    have hrun := hr.mono (ok' := PlainBehaves env cfg db) fun _ _ h => h.1
    have hi := hrun.reachable.inv
    have key : j'.s.aborted = false → j'.s.dead = false → j'.s.allOk = true → Moved env cfg db disk0 j' := by
      intro hab hd ho
      by_cases hwr : ∃ file value, e = .write file value
      · obtain ⟨file, value, rfl⟩ := hwr
        cases hs
        exact (ih hab hd ho).write hi hab (hrun.fineOk p sure_none hab hd ho) hw.1 (fun τ hτ => hw.2 file τ (by rw [hτ]))
      · by_cases hch : ∃ ex failed, e = .childFinished ex failed
        · obtain ⟨ex, failed, rfl⟩ := hch
          simp only [Make.step] at hs
          split at hs
          · cases hs
          · next hd0 =>
            split at hs
            · next t hfd =>
              cases hs
              have hcf := childFinished_fields cfg ex t failed j.s
              simp only at hab ho
              rw [hcf.aborted, Bool.or_eq_false_iff] at hab
              rw [hcf.allOk, Bool.and_eq_true, Bool.not_eq_true'] at ho
              refine (ih hab.1 (by simpa using hd0) ho.1).onward rfl fun e he => ?_
              simp only [hcf.log, List.mem_append]
              exact .inl he
            · cases hs
        · obtain ⟨h1, h2⟩ := step_onward hi db hw.1 (fun f v he => hwr ⟨f, v, he⟩) (fun x f he => hch ⟨x, f, he⟩) hs ho hab
          exact (ih (h1.aborted hab) h2 (h1.allOk ho)).onward h1.disk h1.log
    split
    · intro h1 h2 h3
      exact (key h1 h2 h3).onward (buildAsked_disk ..) fun _ h => h
    · exact key

/-! ### From the files at the beginning to those at the end -/

section
variable {f f' : Files} (hgrow : ∀ n, Mentioned db cfg.targets n → f' n = f n ∨ ∃ τ, f' n = some τ ∧ ∀ x s, f x = some s → s < τ)
include hgrow

theorem stale_buildable {x : Nat} (hx : Wanted db cfg.targets x) (h : Buildable f db x) : Buildable f' db x := by
  rcases h with h | ⟨r, hr, s, hs⟩
  · exact .inl h
  · refine .inr ⟨r, hr, ?_⟩
    rcases hgrow r ⟨x, hx, .inr (.inr hr)⟩ with h | ⟨τ, h, _⟩
    · exact ⟨s, h.trans hs⟩
    · exact ⟨τ, h⟩

theorem Plan.stale_missing (p : Plan env cfg db disk0) {d : Str} (h : Missing f db d) :
    ∀ x, Wanted db cfg.targets x → Says db x d → Missing f' db d ∨ ∃ τ, Behind f' db d τ ∧ ∀ x s, f x = some s → s < τ := by
  have late : ∀ {d x}, Wanted db cfg.targets x → Says db x d → f d = none →
      f' d = none ∨ ∃ τ, Behind f' db d τ ∧ ∀ x s, f x = some s → s < τ := by
    intro d x hx hd h0
    rcases hgrow d ⟨x, hx, .inr hd⟩ with h | ⟨τ, h1, h2⟩
    · exact .inl (h.trans h0)
    · exact .inr ⟨τ, .file h1, h2⟩
  induction h with
  | noFile h1 h2 => intro x hx hd; exact (late hx hd h1).imp (fun h => .noFile h h2) id
  | toBuild h1 h2 h3 =>
    intro x hx hd
    exact (late hx hd h1).imp (fun h => .toBuild h h2 (stale_buildable hgrow (hx.tail (p.needs hx hd (.inl h2))) h3)) id
  | empty h1 h2 h3 => intro x hx hd; exact (late hx hd h1).imp (fun h => .empty h h2 h3) id
  | behind h1 h2 h3 _ ih =>
    intro x hx hd
    rcases late hx hd h1 with h | h
    · rcases ih _ (hx.tail (p.needs hx hd (.inl h2))) (.inl h3) with h4 | ⟨τ, h4, h5⟩
      · exact .inl (.behind h h2 h3 h4)
      · exact .inr ⟨τ, .behind h h2 h3 h4, h5⟩
    · exact .inr h

theorem Plan.stale_behind (p : Plan env cfg db disk0) {d : Str} {s : Nat} (h : Behind f db d s) :
    ∀ x, Wanted db cfg.targets x → Says db x d → ∃ τ, Behind f' db d τ ∧ s ≤ τ := by
  induction h with
  | file h1 =>
    intro x hx hd
    rcases hgrow _ ⟨x, hx, .inr hd⟩ with h | ⟨τ, h, h'⟩
    · exact ⟨_, .file (h.trans h1), Nat.le_refl _⟩
    · exact ⟨τ, .file h, Nat.le_of_lt (h' _ _ h1)⟩
  | behind h1 h2 h3 h4 ih =>
    intro x hx hd
    rcases hgrow _ ⟨x, hx, .inr hd⟩ with h | ⟨τ, h, h'⟩
    · obtain ⟨τ, h5, h6⟩ := ih _ (hx.tail (p.needs hx hd (.inl h2))) (.inl h3)
      exact ⟨τ, .behind (h.trans h1) h2 h3 h5, h6⟩
    · obtain ⟨e, he⟩ := behind_file h4
      exact ⟨τ, .file h, Nat.le_of_lt (h' _ _ he)⟩

/-- What is up to date at the end and has the file that it had is up to date at the beginning. -/
theorem Plan.stale_upToDate (p : Plan env cfg db disk0) {x : Nat} (hx : Wanted db cfg.targets x)
    (hn : f' (db.target x).name = f (db.target x).name) (h : UpToDate f' db x) : UpToDate f db x := by
  obtain ⟨T, hT, h⟩ := h
  rw [hn] at hT
  refine ⟨T, hT, fun d hd => ?_⟩
  have hd' : Counts f' db x d := by
    rcases hd with hd | ⟨hd, s, hs⟩
    · exact .inl hd
    · refine .inr ⟨hd, ?_⟩
      rcases hgrow d ⟨x, hx, .inr (.inr hd)⟩ with h | ⟨τ, h, _⟩
      · exact ⟨s, h.trans hs⟩
      · exact ⟨τ, h⟩
  have hs : Says db x d := hd.imp id And.left
  obtain ⟨h1, h2⟩ := h d hd'
  refine ⟨fun hm => ?_, fun s hs' => ?_⟩
  · rcases p.stale_missing hgrow hm x hx hs with h3 | ⟨τ, h3, h4⟩
    · exact h1 h3
    · have := h2 τ h3
      have := h4 _ T hT
      omega
  · obtain ⟨τ, h3, h4⟩ := p.stale_behind hgrow hs' x hx hs
    exact Nat.le_trans h4 (h2 τ h3)

end

/-- What was out of date and is up to date at the end was made. -/
theorem Moved.started (p : Plan env cfg db disk0) (hm : Moved env cfg db disk0 j) {x : Nat} (hx : Wanted db cfg.targets x)
    (hb : Buildable (fun n => disk0 (env.abs n)) db x) (hu : ¬ UpToDate (fun n => disk0 (env.abs n)) db x)
    (hend : Buildable (fm env j.m) db x → UpToDate (fm env j.m) db x) : ∃ b, Ev.started b x ∈ j.s.log := by
  apply Classical.byContradiction
  intro hno
  refine hu ?_
  have hgrow : ∀ n, Mentioned db cfg.targets n → fm env j.m n = disk0 (env.abs n) ∨
      ∃ τ, fm env j.m n = some τ ∧ ∀ (x : Str) s, disk0 (env.abs x) = some s → s < τ := by
    intro n hn
    refine (hm n hn).imp id ?_
    rintro ⟨τ, _, _, h1, h2, _⟩
    exact ⟨τ, h1, fun x s => h2 _ s⟩
  refine p.stale_upToDate (f' := fm env j.m) hgrow hx ?_ (hend (stale_buildable hgrow hx hb))
  rcases hm _ ⟨x, hx, .inl rfl⟩ with h1 | ⟨_, k, b, _, _, h3, h4, h5⟩
  · exact h1
  · have := p.un.distinct x k hx h3 h4
    subst this
    exact absurd ⟨b, h5⟩ hno

theorem Run.stale (p : Plan env cfg db disk0)
    (h : Run env cfg (fun k => record (db.target k)) disk0 (fun j e => PlainBehaves env cfg db j e ∧ PlainLater disk0 e) j)
    (h0 : 0 ∈ j.s.exits) {x : Nat} (hx : Wanted db cfg.targets x) (hb : Buildable (fun n => disk0 (env.abs n)) db x)
    (hu : ¬ UpToDate (fun n => disk0 (env.abs n)) db x) : ∃ b, Ev.started b x ∈ j.s.log := by
  have hrun := h.mono (ok' := PlainBehaves env cfg db) fun _ _ h => h.1
  have hi := hrun.reachable.inv
  rcases hi.codes 0 h0 with ⟨h, _⟩ | ⟨_, ⟨h, _⟩ | ⟨h, _⟩⟩ | ⟨hc, hx'⟩
  · cases h
  · cases h
  · cases h
  · have hok : j.s.allOk = true := by
      cases ho : j.s.allOk with
      | true => rfl
      | false => rw [ho] at hx'; simp at hx'
    have hm := h.moved p hc.ab hc.dead hok
    exact hm.started p hx hb hu ((hrun.inOrder p h0).1 x hx)

/-- The end of a build with `/K`, if there was no exception. -/
theorem Run.sound (p : Plan env cfg db disk0)
    (h : Run env cfg (fun k => record (db.target k)) disk0 (fun j e => PlainBehaves env cfg db j e ∧ FailsClean env cfg db e) j)
    (hc : Complete j.s) {x : Nat} (hx : Wanted db cfg.targets x) (hok : ∀ y, ReflTransGen (Needs db) x y → ∀ b, Ev.failed b y ∉ j.s.log) :
    Buildable (fm env j.m) db x → UpToDate (fm env j.m) db x := by
  have hi := h.reachable.inv
  have hpi := Run.fine (H := fun x => ∃ y, ReflTransGen (Needs db) x y ∧ ∃ b, Ev.failed b y ∈ j.s.log) p sure_none
    (fun q k hn ⟨y, hy, hf⟩ => ⟨y, .head hn hy, hf⟩) (h.mono fun _ _ h => ⟨h.1, .inr h.2⟩) hc.ab hc.dead
    fun b t ht => .inl ⟨t, .refl, b, ht⟩
  have hids := hpi.noIds p hc.leaves
  have hpend := hi.lg.pend hc.ab
  rw [hc.pending] at hpend
  refine (hpi.core.good x ⟨?_, fun ⟨y, hy, b, hb⟩ => hok y hy b hb⟩).1
  obtain ⟨r, hr, hx⟩ := hx
  obtain ⟨i, hi, hir⟩ := List.getElem_of_mem hr
  have hlen : cfg.targets.length ≤ j.s.build + 1 := by
    have := congrArg List.length hpend
    simp at this
    omega
  have hreach : Reach cfg db i x := ⟨r, by rw [List.getElem?_eq_getElem hi, hir], hx⟩
  rcases Nat.lt_or_ge i j.s.build with h1 | h1
  · exact .inl (.inr ⟨i, h1, hreach⟩)
  · have : i = j.s.build := by omega
    subst this
    exact .inr ⟨hreach, by rw [hids]; simp⟩

end Jom.Make
