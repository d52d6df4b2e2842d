/- A build, however it ends, leaves the makefile unambiguous. -/
import Verif.Proofs.MakeIdle
import Verif.Proofs.MakeResume

namespace Jom.Make

open Jom.Graph Jom.Sched Jom.UpToDate Jom.Spec Jom.Spec.Build Relation

variable {env : Env} {cfg : Cfg} {db : Db} {disk0 : Str → Option Nat} {j j' : J}

theorem build_files (asked : Str → Bool) {res : StartRes} {writes : List (Str × Option Nat)} :
    (buildNextTarget env cfg asked res writes j).m.files.disk = j.m.files.disk ∨
    (∃ failed, res = .sync failed) ∧ ∃ m : Mem, m.files.disk = j.m.files.disk ∧
      (buildNextTarget env cfg asked res writes j).m.files.disk = (writes.foldl Make.write m).files.disk := by
  unfold Make.buildNextTarget
  cases j.s.next with
  | none => exact .inl rfl
  | some t =>
    simp only
    split
    · exact .inl rfl
    · cases res with
      | throws => exact .inl (remember_disk ..)
      | running => exact .inl (remember_disk ..)
      | sync failed => exact .inr ⟨⟨failed, rfl⟩, _, remember_disk .., rfl⟩

theorem start_files (a : Answers) :
    (startProcesses env cfg a j).m.files.disk = j.m.files.disk ∨
    (∃ failed, a.res = .sync failed) ∧ ∃ m : Mem, m.files.disk = j.m.files.disk ∧
      (startProcesses env cfg a j).m.files.disk = (a.writes.foldl Make.write m).files.disk := by
  unfold startProcesses
  split
  · exact .inl rfl
  · have hf : (outcome (if j.s.next.isNone then findNextTarget env cfg a (j.s.g.ids.length + 1) j else .ok j)).m.files.disk = j.m.files.disk := by
      split
      · exact (findNext_onward env cfg a _ j).disk
      · rfl
    revert hf
    generalize (if j.s.next.isNone then findNextTarget env cfg a (j.s.g.ids.length + 1) j else .ok j) = r
    cases r with
    | error j' => exact fun hf => .inl hf
    | ok j' =>
      simp only [outcome]
      intro hf
      split
      · split
        · rw [← hf]; exact build_files a.asked
        · exact .inl hf
      · split
        · split <;> exact .inl hf
        · exact .inl hf

/-- No file gets the invalid time. -/
theorem step_nz {e : Event} (hw : PlainBehaves env cfg db j e) (hcl : FailsClean env cfg db e) (hs : step env cfg j e = some j')
    (h : ∀ n s, fm env j.m n = some s → s ≠ 0) : ∀ n s, fm env j'.m n = some s → s ≠ 0 := by
  have hws : ∀ (ws : List (Str × Option Nat)) (m : Mem), (∀ w ∈ ws, w.2 ≠ some 0) → (∀ n s, fm env m n = some s → s ≠ 0) →
      ∀ n s, fm env (ws.foldl Make.write m) n = some s → s ≠ 0 := by
    intro ws
    induction ws with
    | nil => intro m _ hm; exact hm
    | cons w ws ih =>
      intro m hw hm
      refine ih _ (fun w' hw' => hw w' (List.mem_cons_of_mem _ hw')) fun n s hn => ?_
      have hn : (if env.abs n = w.1 then w.2 else fm env m n) = some s := hn
      split at hn
      · intro h0
        exact hw w List.mem_cons_self (hn.trans (congrArg some h0))
      · exact hm n s hn
  have key : ∀ (ws : List (Str × Option Nat)) (d : Str → Option Nat), (∀ w ∈ ws, w.2 ≠ some 0) →
      (d = j.m.files.disk ∨ ∃ m : Mem, m.files.disk = j.m.files.disk ∧ d = (ws.foldl Make.write m).files.disk) →
      ∀ n s, d (env.abs n) = some s → s ≠ 0 := by
    rintro ws d hw (rfl | ⟨m, hm, rfl⟩)
    · exact h
    · refine hws ws m hw fun n s hn => h n s ?_
      rw [← hn]; unfold fm; rw [hm]
  have clean : ∀ (res : StartRes) (ws : List (Str × Option Nat)), res ≠ .sync false →
      (res = .sync true → ∀ w ∈ ws, MayWrite env.abs db cfg.targets [] w.1 w.2) →
      (∃ failed, res = .sync failed) → ∀ w ∈ ws, w.2 ≠ some 0 := by
    rintro res ws hr hc ⟨failed, rfl⟩ w hw
    cases failed with
    | false => exact absurd rfl hr
    | true => exact (hc rfl w hw).1
  cases e with
  | startProcesses a =>
    simp only [step] at hs
    split at hs
    · cases hs
      rcases start_files (env := env) (cfg := cfg) (j := { j with s := { j.s with queued := j.s.queued - 1 } }) a with h1 | ⟨h1, m, h2, h3⟩
      · exact key [] _ (by simp) (.inl h1)
      · exact key a.writes _ (clean a.res a.writes hw.2 hcl h1) (.inr ⟨m, h2, h3⟩)
    · cases hs
  | grant =>
    simp only [step] at hs
    split at hs
    · cases hs; exact h
    · cases hs
  | acquired asked res writes inWait =>
    simp only [step] at hs
    split at hs
    · cases hs
      have hd : ∀ n s, fm env (buildNextTarget env cfg asked res writes { j with s := { j.s with acquiring := false, granted := false } }).m n =
          some s → s ≠ 0 := by
        rcases build_files (env := env) (cfg := cfg) (j := { j with s := { j.s with acquiring := false, granted := false } }) (res := res) (writes := writes)
          asked with h1 | ⟨h1, m, h2, h3⟩
        · exact key [] _ (by simp) (.inl h1)
        · exact key writes _ (clean res writes hw hcl h1) (.inr ⟨m, h2, h3⟩)
      split <;> exact hd
    · cases hs
  | childFinished ex failed =>
    simp only [step] at hs
    split at hs
    · cases hs
    · split at hs
      · cases hs; exact h
      · cases hs
  | abortDone =>
    simp only [step] at hs
    split at hs
    · cases hs; exact h
    · cases hs
  | write file value =>
    cases hs
    exact hws [(file, value)] j.m (by simpa using hw.1) h

/-- What is kept at every moment of a run, also after an abort. -/
structure Kept (env : Env) (cfg : Cfg) (db : Db) (disk0 : Str → Option Nat) (j : J) : Prop where
  busy : ∀ t ∈ j.s.busy.map (·.2), Wanted db cfg.targets t
  nz : ∀ n s, fm env j.m n = some s → s ≠ 0
  mono : ∀ n, Mentioned db cfg.targets n → disk0 (env.abs n) ≠ none → fm env j.m n ≠ none
  new : ∀ n, Mentioned db cfg.targets n → fm env j.m n ≠ none → disk0 (env.abs n) ≠ none ∨
    ∃ k, Wanted db cfg.targets k ∧ env.abs n = env.abs (db.target k).name

theorem Kept.unambiguous (p : Plan env cfg db disk0) (h : Kept env cfg db disk0 j) : Unambiguous env.abs (fm env j.m) db cfg.targets where
  names := p.un.names
  distinct := p.un.distinct
  inferred := p.un.inferred
  viaDir := p.un.viaDir
  acyclic := p.un.acyclic
  oneRule := by
    have key : ∀ t, Wanted db cfg.targets t → ∀ r ∈ (db.target t).rules,
        (fm env j.m r ≠ none ∨ ∃ k, Wanted db cfg.targets k ∧ env.abs r = env.abs (db.target k).name) →
        (disk0 (env.abs r) ≠ none ∨ ∃ k, Wanted db cfg.targets k ∧ env.abs r = env.abs (db.target k).name) := by
      rintro t ht r hr (h1 | h1)
      · exact h.new r ⟨t, ht, .inr (.inr hr)⟩ h1
      · exact .inr h1
    intro t ht r hr r' hr' h1 h2
    exact p.un.oneRule t ht r hr r' hr' (key t ht r hr h1) (key t ht r' hr' h2)
  filled := by
    intro t ht
    rcases p.un.filled t ht with h1 | h1 | h1 | ⟨r, h1, h2⟩
    · exact .inl h1
    · exact .inr (.inl h1)
    · exact .inr (.inr (.inl (h.mono _ ⟨t, ht, .inl rfl⟩ h1)))
    · exact .inr (.inr (.inr ⟨r, h1, h.mono _ ⟨t, ht, .inr (.inr h1)⟩ h2⟩))
  times := h.nz

theorem Run.kept (p : Plan env cfg db disk0)
    (hr : Run env cfg (fun k => record (db.target k)) disk0 (fun j e => PlainBehaves env cfg db j e ∧ FailsClean env cfg db e) j) :
    Kept env cfg db disk0 j := by
  have hbusy : ∀ {j}, Run env cfg (fun k => record (db.target k)) disk0 (fun j e => PlainBehaves env cfg db j e ∧ FailsClean env cfg db e) j →
      j.s.aborted = false → j.s.dead = false → ∀ t ∈ j.s.busy.map (·.2), Wanted db cfg.targets t := by
    intro j hr hab hd t ht
    have hp := Run.fine p sure_none (H := fun _ => True) (fun _ _ _ h => h) (hr.mono fun _ _ h => ⟨h.1, .inr h.2⟩) hab hd fun _ _ _ => .inl trivial
    exact (hp.core.idReach (busy_exec hr.reachable.inv hab t ht).1).wanted
  induction hr with
  | start asked hd ha =>
    have hf : fm env (buildAsked env asked { info := fun k => record (db.target k), files := { disk := disk0, cache := [] } }) =
        fun n => disk0 (env.abs n) := by unfold fm; rw [buildAsked_disk]
    refine ⟨?_, ?_, ?_, ?_⟩
    · intro t ht
      have ht : t ∈ (Sched.init cfg).busy.map (·.2) := ht
      have : (Sched.init cfg).busy = [] := by
        unfold Sched.init Sched.rebuild
        split
        · rfl
        · split <;> (simp only; split <;> rfl)
      rw [this] at ht
      cases ht
    · intro n s hn
      exact p.un.times n s ((congrFun hf n).symm.trans hn)
    · intro n _ hn h
      exact hn ((congrFun hf n).symm.trans h)
    · intro n _ hn
      exact .inl fun h => hn ((congrFun hf n).trans h)
  | @step j j' e asked hr hw hs hdn ha ih =>
    have hr' := Run.step asked hr hw hs hdn ha
    have hB : ∀ t ∈ j'.s.busy.map (·.2), Wanted db cfg.targets t := by
      by_cases hdead : j'.s.aborted = false ∧ j'.s.dead = false
      · have := hbusy hr'
        split at this
        · exact this hdead.1 hdead.2
        · exact this hdead.1 hdead.2
      · intro t ht
        obtain ⟨q, hq, rfl⟩ := List.mem_map.1 ht
        refine ih.busy q.2 (List.mem_map.2 ⟨q, step_back hs ?_ hq, rfl⟩)
        cases h1 : j'.s.aborted <;> cases h2 : j'.s.dead <;> simp_all
    have hN := step_nz hw.1 hw.2 hs ih.nz
    have hK : (∀ n, Mentioned db cfg.targets n → disk0 (env.abs n) ≠ none → fm env j'.m n ≠ none) ∧
        ∀ n, Mentioned db cfg.targets n → fm env j'.m n ≠ none → disk0 (env.abs n) ≠ none ∨
          ∃ k, Wanted db cfg.targets k ∧ env.abs n = env.abs (db.target k).name := by
      by_cases hwr : ∃ file value, e = .write file value
      · obtain ⟨file, value, rfl⟩ := hwr
        cases hs
        have hm : ∀ n, fm env (Make.write j.m (file, value)) n = if env.abs n = file then value else fm env j.m n := fun _ => rfl
        refine ⟨fun n hn h0 => ?_, fun n hn h1 => ?_⟩
        · show fm env (Make.write j.m (file, value)) n ≠ none
          rw [hm]
          split
          · next he =>
            rcases hw.1.2 with ⟨t, ht, h1, h2⟩ | h1
            · exact h2
            · exact absurd he.symm (h1 n hn)
          · exact ih.mono n hn h0
        · have h1 : fm env (Make.write j.m (file, value)) n ≠ none := h1
          rw [hm] at h1
          split at h1
          · next he =>
            rcases hw.1.2 with ⟨t, ht, h2, _⟩ | h2
            · exact .inr ⟨t, ih.busy t ht, he.trans h2⟩
            · exact absurd he.symm (h2 n hn)
          · exact ih.new n hn h1
      · obtain ⟨hd, _⟩ := step_drift hr.reachable.inv hw.1 hw.2 (fun f v he => hwr ⟨f, v, he⟩) hs
        exact ⟨fun n hn h0 => by rw [hd.same n hn]; exact ih.mono n hn h0, fun n hn h1 => ih.new n hn (by rw [← hd.same n hn]; exact h1)⟩
    split
    · have hf : ∀ n, fm env (buildAsked env asked j'.m) n = fm env j'.m n := fun n => congrFun (buildAsked_disk ..) _
      exact ⟨hB, fun n s h => hN n s ((hf n).symm.trans h), fun n hn h0 => by rw [show fm env _ n = _ from hf n]; exact hK.1 n hn h0,
        fun n hn h1 => hK.2 n hn (by rw [← hf n]; exact h1)⟩
    · exact ⟨hB, hN, hK.1, hK.2⟩

end Jom.Make
