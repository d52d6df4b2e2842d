/-
Invariant of the model of the end of a build after a failure (`Verif/Model/Abort.lean`), and a bound on what can still happen.
-/
import Verif.Spec.Abort
import Verif.Proofs.GraphBuild

namespace Jom.Abort

open Jom.Graph (upd upd_same upd_other)

/-- Process `p` was started before the first failure (and there was a failure). -/
def Old (log : List Ev) (p : Nat) : Prop := Ev.failed ∈ log ∧ Ev.started p ∈ log.takeWhile fun x => x != Ev.failed

theorem takeWhile_append_of_mem {log : List Ev} (h : Ev.failed ∈ log) (x : List Ev) :
    (log ++ x).takeWhile (fun y => y != Ev.failed) = log.takeWhile fun y => y != Ev.failed := by
  induction log with
  | nil => simp at h
  | cons a l ih =>
    by_cases ha : a = Ev.failed
    · subst ha
      simp
    · have hm : Ev.failed ∈ l := by
        rcases List.mem_cons.mp h with rfl | h
        · exact absurd rfl ha
        · exact h
      simp [ha, ih hm]

theorem takeWhile_first {log : List Ev} (h : Ev.failed ∉ log) (x : List Ev) :
    (log ++ Ev.failed :: x).takeWhile (fun y => y != Ev.failed) = log := by
  induction log with
  | nil => simp
  | cons a l ih =>
    have ha : a ≠ Ev.failed := fun e => h (e ▸ List.mem_cons_self)
    have hl : Ev.failed ∉ l := fun m => h (List.mem_cons_of_mem _ m)
    simp [ha, ih hl]

theorem old_append {log : List Ev} (h : Ev.failed ∈ log) (x : List Ev) (p : Nat) : Old (log ++ x) p ↔ Old log p := by
  simp [Old, takeWhile_append_of_mem h, h]

theorem old_first {log : List Ev} (h : Ev.failed ∉ log) (x : List Ev) (p : Nat) : Old (log ++ Ev.failed :: x) p ↔ Ev.started p ∈ log := by
  simp [Old, takeWhile_first h]

theorem old_started {log : List Ev} {p : Nat} (h : Old log p) : Ev.started p ∈ log := (List.takeWhile_sublist _).subset h.2

theorem old_none {log : List Ev} {p : Nat} (h : Ev.failed ∉ log) : ¬ Old log p := fun x => h x.1

/-- What holds in every state in which jom has not called `exit`. -/
structure Inv (jobs : Nat) (s : St) : Prop where
  live : s.exited = false
  noExit : Ev.exit ∉ s.log
  frames : Ev.failed ∈ s.log ↔ s.frames ≠ []
  bound : ∀ e, jobs ≤ e → s.proc e = none
  known : ∀ p, Ev.started p ∈ s.log → Ev.ended p ∈ s.log ∨ ∃ e, s.proc e = some p
  fresh : ∀ p, Ev.started p ∈ s.log → p < s.next
  logged : ∀ e p, s.proc e = some p → Ev.started p ∈ s.log
  alive : Ev.failed ∉ s.log → ∀ e p, s.proc e = some p → s.running e = true
  old : ∀ e p, s.proc e = some p → Old s.log p → s.running e = true
  passed : ∀ T ∈ s.frames, ∀ e p, e < jobs → e ∉ T → s.proc e = some p → ¬ Old s.log p
  real : ∀ e, s.running e = true → ∃ p, s.proc e = some p

/-- What the innermost frame waits for. -/
def Waits (s : St) : Prop :=
  match s.frames with
  | [] => True
  | [] :: _ => s.acquiring = true
  | (e :: _) :: _ => s.running e = true

/-- What holds when jom has called `exit`. -/
structure Over (s : St) : Prop where
  exited : s.exited = true
  failed : Ev.failed ∈ s.log
  shape : ∃ l n, s.log = l ++ List.replicate (n + 1) Ev.exit ∧ Ev.exit ∉ l ∧ (∀ p, Old s.log p → Ev.ended p ∈ l) ∧
    ∀ p, Ev.started p ∈ l → Ev.ended p ∈ l ∨ ∃ e, s.proc e = some p

theorem init_inv (jobs : Nat) : Inv jobs init := by
  constructor <;> simp [init]

/-- The state after a step: still going on and waiting for something, or over. -/
def Good (jobs : Nat) (s : St) : Prop := (Inv jobs s ∧ Waits s) ∨ Over s

theorem finish_good {jobs : Nat} {s : St} (h : Inv jobs s) (hw : ∀ e T F, s.frames = (e :: T) :: F → s.running e = true) : Good jobs (finish s) := by
  unfold finish
  split
  · rename_i rest hf
    split
    · rename_i ha
      exact Or.inl ⟨h, by simp [Waits, hf, ha]⟩
    · refine Or.inr ⟨rfl, ?_, s.log, rest.length, rfl, h.noExit, ?_, h.known⟩
      · simp [h.frames, hf]
      · intro p hp
        have hm : Ev.failed ∈ s.log := by rw [h.frames]; simp [hf]
        rw [old_append hm] at hp
        rcases h.known p (old_started hp) with he | ⟨e, he⟩
        · exact he
        · exfalso
          have hj : e < jobs := by
            apply Classical.byContradiction
            intro hj
            rw [h.bound e (by omega)] at he
            cases he
          exact h.passed [] (by simp [hf]) e p hj (by simp) he hp
  · rename_i hno
    refine Or.inl ⟨h, ?_⟩
    unfold Waits
    split
    · trivial
    · rename_i hf
      exact absurd hf (hno _)
    · rename_i e T F hf
      exact hw e T F hf

theorem pass_head {running : Nat → Bool} {T : List Nat} {e : Nat} {T' : List Nat} (h : pass running T = e :: T') : running e = true := by
  unfold pass at h
  induction T with
  | nil => simp at h
  | cons a l ih =>
    rw [List.dropWhile_cons] at h
    split at h
    · exact ih h
    · rename_i ha
      rw [← (List.cons.inj h).1]
      simpa using ha

theorem pass_mem {running : Nat → Bool} {T : List Nat} {e : Nat} (he : e ∈ T) (hp : e ∉ pass running T) : running e = false := by
  unfold pass at hp
  induction T with
  | nil => simp at he
  | cons a l ih =>
    rw [List.dropWhile_cons] at hp
    split at hp
    · rename_i ha
      rcases List.mem_cons.mp he with rfl | he
      · simpa using ha
      · exact ih he hp
    · exact absurd he hp

theorem abort_good {jobs : Nat} {s : St} (h : Inv jobs s) : Good jobs (abort jobs s) := by
  unfold abort
  apply finish_good
  · constructor
    · exact h.live
    · simp [h.noExit]
    · simp
    · exact h.bound
    · intro p hp
      simpa using h.known p (by simpa using hp)
    · intro p hp
      exact h.fresh p (by simpa using hp)
    · intro e p hp
      simpa using h.logged e p hp
    · simp
    · intro e p hp ho
      by_cases hm : Ev.failed ∈ s.log
      · exact h.old e p hp ((old_append hm _ p).mp ho)
      · exact h.alive hm e p hp
    · intro T hT e p hj he hp ho
      rcases List.mem_cons.mp hT with rfl | hT
      · have hr := pass_mem (List.mem_range.mpr hj) he
        have : s.running e = true := by
          by_cases hm : Ev.failed ∈ s.log
          · exact h.old e p hp ((old_append hm _ p).mp ho)
          · exact h.alive hm e p hp
        rw [hr] at this
        cases this
      · have hm : Ev.failed ∈ s.log := h.frames.mpr (fun x => by rw [x] at hT; cases hT)
        exact h.passed T hT e p hj he hp ((old_append hm _ p).mp ho)
    · exact h.real
  · intro e T F hf
    exact pass_head (List.cons.inj hf).1

theorem start_inv {jobs : Nat} {s : St} {e : Nat} {rest : List Cmd} (h : Inv jobs s) (hj : e < jobs) (he : s.proc e = none) :
    Inv jobs (startProcess e rest s) := by
  have hold : ∀ p, Old (s.log ++ [Ev.started s.next]) p → Old s.log p := by
    intro p hp
    by_cases hm : Ev.failed ∈ s.log
    · exact (old_append hm _ p).mp hp
    · exact absurd hp (old_none (by simp [hm]))
  have hnew : ¬ Old s.log s.next := fun ho => by
    have := h.fresh _ (old_started ho)
    omega
  constructor
  · exact h.live
  · simp [startProcess, h.noExit]
  · simpa [startProcess] using h.frames
  · intro e' hb
    show upd s.proc e (some s.next) e' = none
    rw [upd_other _ _ (by omega)]
    exact h.bound e' hb
  · intro p hp
    have hp : Ev.started p ∈ s.log ∨ p = s.next := by simpa [startProcess] using hp
    rcases hp with hp | rfl
    · rcases h.known p hp with hk | ⟨e', hk⟩
      · exact Or.inl (by simp [startProcess, hk])
      · refine Or.inr ⟨e', ?_⟩
        show upd s.proc e (some s.next) e' = some p
        rw [upd_other _ _ (fun x => by rw [x, he] at hk; cases hk)]
        exact hk
    · exact Or.inr ⟨e, by simp [startProcess]⟩
  · intro p hp
    have hp : Ev.started p ∈ s.log ∨ p = s.next := by simpa [startProcess] using hp
    show p < s.next + 1
    rcases hp with hp | rfl
    · have := h.fresh p hp
      omega
    · omega
  · intro e' p hp
    change upd s.proc e (some s.next) e' = some p at hp
    by_cases hee : e' = e
    · subst hee
      rw [upd_same] at hp
      cases hp
      simp [startProcess]
    · rw [upd_other _ _ hee] at hp
      simp [startProcess, h.logged e' p hp]
  · intro hm e' p hp
    change upd s.running e true e' = true
    change upd s.proc e (some s.next) e' = some p at hp
    by_cases hee : e' = e
    · subst hee
      rw [upd_same]
    · rw [upd_other _ _ hee] at hp ⊢
      exact h.alive (by simpa [startProcess] using hm) e' p hp
  · intro e' p hp ho
    change upd s.running e true e' = true
    change upd s.proc e (some s.next) e' = some p at hp
    by_cases hee : e' = e
    · subst hee
      rw [upd_same]
    · rw [upd_other _ _ hee] at hp ⊢
      exact h.old e' p hp (hold p ho)
  · intro T hT e' p hj' hn hp ho
    change upd s.proc e (some s.next) e' = some p at hp
    replace ho := hold p ho
    by_cases hee : e' = e
    · subst hee
      rw [upd_same] at hp
      cases hp
      exact hnew ho
    · rw [upd_other _ _ hee] at hp
      exact h.passed T hT e' p hj' hn hp ho
  · intro e' hr
    change upd s.running e true e' = true at hr
    show ∃ p, upd s.proc e (some s.next) e' = some p
    by_cases hee : e' = e
    · subst hee
      exact ⟨s.next, upd_same ..⟩
    · rw [upd_other _ _ hee] at hr ⊢
      exact h.real e' hr

theorem wake_good {jobs : Nat} {s : St} {e : Nat} (h : Inv jobs s) (hn : ∀ p, s.proc e = some p → ¬ Old s.log p)
    (hw : ∀ T F, s.frames = T :: F → (T = [] → s.acquiring = true) ∧ ∀ e' T', T = e' :: T' → e' ≠ e → s.running e' = true) : Good jobs (wake e s) := by
  unfold wake
  split
  · rename_i e' T F hf
    split
    · rename_i hee
      subst hee
      apply finish_good
      · have hm : Ev.failed ∈ s.log := h.frames.mpr (by simp [hf])
        refine ⟨h.live, h.noExit, by simp [hm], h.bound, h.known, h.fresh, h.logged, fun x => absurd hm x, ?_, ?_, ?_⟩
        · intro e p hp ho
          show upd s.running e' false e = true
          by_cases hee : e = e'
          · subst hee
            exact absurd ho (hn p hp)
          · rw [upd_other _ _ hee]
            exact h.old e p hp ho
        · intro T' hT' e p hj he hp ho
          rcases List.mem_cons.mp hT' with rfl | hT'
          · by_cases hee : e = e'
            · subst hee
              exact hn p hp ho
            · by_cases hT : e ∈ T
              · have := pass_mem hT he
                rw [upd_other _ _ hee] at this
                rw [h.old e p hp ho] at this
                cases this
              · exact h.passed (e' :: T) (by simp [hf]) e p hj (by simp [hee, hT]) hp ho
          · exact h.passed T' (by simp [hf, hT']) e p hj he hp ho
        · intro e hr
          change upd s.running e' false e = true at hr
          by_cases hee : e = e'
          · subst hee
            rw [upd_same] at hr
            cases hr
          · rw [upd_other _ _ hee] at hr
            exact h.real e hr
      · intro e T'' F' hf'
        exact pass_head (List.cons.inj hf').1
    · rename_i hee
      refine Or.inl ⟨h, ?_⟩
      simp only [Waits, hf]
      exact (hw _ _ hf).2 _ _ rfl hee
  · rename_i hno
    refine Or.inl ⟨h, ?_⟩
    unfold Waits
    split
    · trivial
    · rename_i hf
      exact (hw _ _ hf).1 rfl
    · rename_i hf
      exact absurd hf (hno _ _ _)

theorem waits_spec {s : St} (h : Waits s) {T : List Nat} {F : List (List Nat)} (hf : s.frames = T :: F) :
    (T = [] → s.acquiring = true) ∧ ∀ e T', T = e :: T' → s.running e = true := by
  unfold Waits at h
  rw [hf] at h
  cases T with
  | nil => exact ⟨fun _ => h, by simp⟩
  | cons a l => exact ⟨by simp, fun e T' he => by rw [← (List.cons.inj he).1]; exact h⟩

theorem step_good {jobs : Nat} {s s' : St} {ev : Event} (h : Good jobs s) (hs : step jobs s ev = some s') : Good jobs s' := by
  rcases h with ⟨h, hw⟩ | h
  case inr =>
    cases ev <;> simp [step, St.aborted, h.exited] at hs
  cases ev with
  | target e cmds =>
    simp only [step] at hs
    split at hs
    case isFalse => cases hs
    rename_i hc
    have hfr : s.frames = [] := by
      have := hc.1
      simp only [St.aborted, Bool.or_eq_false_iff] at this
      simpa using this.1
    split at hs
    · cases hs
      refine Or.inl ⟨start_inv h hc.2.1 hc.2.2, ?_⟩
      simp [Waits, startProcess, hfr]
    · cases hs
      exact Or.inl ⟨h, hw⟩
    · cases hs
      exact abort_good h
  | ends e failed =>
    simp only [step] at hs
    rw [if_neg (by simp [h.live])] at hs
    split at hs
    · cases hs
    rename_i p hp
    have hj : e < jobs := by
      apply Classical.byContradiction
      intro hj
      rw [h.bound e (by omega)] at hp
      cases hp
    have hold : ∀ q, Old (s.log ++ [Ev.ended p]) q → Old s.log q := by
      intro q hq
      by_cases hm : Ev.failed ∈ s.log
      · exact (old_append hm _ q).mp hq
      · exact absurd hq (old_none (by simp [hm]))
    -- the process is gone
    have h1 : Inv jobs { s with proc := upd s.proc e none, log := s.log ++ [Ev.ended p], running := upd s.running e false } := by
      have hother : ∀ e' q, upd s.proc e none e' = some q → e' ≠ e ∧ s.proc e' = some q := by
        intro e' q hq
        by_cases hee : e' = e
        · subst hee
          rw [upd_same] at hq
          cases hq
        · rw [upd_other _ _ hee] at hq
          exact ⟨hee, hq⟩
      refine ⟨h.live, by simp [h.noExit], by simpa using h.frames, ?_, ?_, ?_, ?_, ?_, ?_, ?_, ?_⟩
      · intro e' hb
        show upd s.proc e none e' = none
        rw [upd_other _ _ (by omega)]
        exact h.bound e' hb
      · intro q hq
        rcases h.known q (by simpa using hq) with hk | ⟨e', hk⟩
        · exact Or.inl (by simp [hk])
        · by_cases hee : e' = e
          · subst hee
            rw [hp] at hk
            cases hk
            exact Or.inl (by simp)
          · refine Or.inr ⟨e', ?_⟩
            show upd s.proc e none e' = some q
            rw [upd_other _ _ hee]
            exact hk
      · intro q hq
        exact h.fresh q (by simpa using hq)
      · intro e' q hq
        simpa using h.logged e' q (hother e' q hq).2
      · intro hm e' q hq
        obtain ⟨hee, hq⟩ := hother e' q hq
        show upd s.running e false e' = true
        rw [upd_other _ _ hee]
        exact h.alive (by simpa using hm) e' q hq
      · intro e' q hq ho
        obtain ⟨hee, hq⟩ := hother e' q hq
        show upd s.running e false e' = true
        rw [upd_other _ _ hee]
        exact h.old e' q hq (hold q ho)
      · intro T hT e' q hj' hn hq ho
        exact h.passed T hT e' q hj' hn (hother e' q hq).2 (hold q ho)
      · intro e' hr
        change upd s.running e false e' = true at hr
        by_cases hee : e' = e
        · subst hee
          rw [upd_same] at hr
          cases hr
        · rw [upd_other _ _ hee] at hr
          obtain ⟨q, hq⟩ := h.real e' hr
          refine ⟨q, ?_⟩
          show upd s.proc e none e' = some q
          rw [upd_other _ _ hee]
          exact hq
    split at hs
    · split at hs
      · rename_i rest hx
        cases hs
        refine wake_good (start_inv h1 hj (by simp)) ?_ ?_
        · intro q hq ho
          simp [startProcess] at hq
          subst hq
          have ho' : Old s.log s.next := by
            by_cases hm : Ev.failed ∈ s.log
            · simp only [startProcess, List.append_assoc] at ho
              exact (old_append hm _ _).mp ho
            · exact absurd ho (old_none (by simp [startProcess, hm]))
          have := h.fresh _ (old_started ho')
          omega
        · intro T F hf
          obtain ⟨h2, h3⟩ := waits_spec hw (T := T) (F := F) hf
          refine ⟨h2, fun e' T' hT hne => ?_⟩
          show upd (upd s.running e false) e true e' = true
          rw [upd_other _ _ hne, upd_other _ _ hne]
          exact h3 e' T' hT
      · cases hs
        refine wake_good h1 ?_ ?_
        · intro q hq
          simp at hq
        · intro T F hf
          obtain ⟨h2, h3⟩ := waits_spec hw (T := T) (F := F) hf
          refine ⟨h2, fun e' T' hT hne => ?_⟩
          show upd s.running e false e' = true
          rw [upd_other _ _ hne]
          exact h3 e' T' hT
      · cases hs
        exact abort_good h1
    · rename_i hr
      cases hs
      have hru : upd s.running e false = s.running := by
        funext e'
        by_cases hee : e' = e
        · subst hee
          rw [upd_same]
          simpa using hr
        · rw [upd_other _ _ hee]
      rw [hru] at h1
      exact Or.inl ⟨h1, hw⟩
  | ask =>
    simp only [step] at hs
    split at hs
    case isFalse => cases hs
    rename_i hc
    cases hs
    have hfr : s.frames = [] := by
      have := hc.1
      simp only [St.aborted, Bool.or_eq_false_iff] at this
      simpa using this.1
    refine Or.inl ⟨⟨h.live, h.noExit, h.frames, h.bound, h.known, h.fresh, h.logged, h.alive, h.old, h.passed, h.real⟩, ?_⟩
    simp [Waits, hfr]
  | acquired =>
    simp only [step] at hs
    split at hs
    case isFalse => cases hs
    cases hs
    refine finish_good ⟨h.live, h.noExit, h.frames, h.bound, h.known, h.fresh, h.logged, h.alive, h.old, h.passed, h.real⟩ ?_
    intro e T F hf
    exact (waits_spec hw hf).2 e T rfl

theorem run_good {jobs : Nat} {s t : St} {es : List Event} (h : Good jobs s) (hr : Run jobs s es t) : Good jobs t := by
  induction hr with
  | nil => exact h
  | cons hs _ ih => exact ih (step_good h hs)

theorem init_good (jobs : Nat) : Good jobs init := Or.inl ⟨init_inv jobs, trivial⟩

/-! ### How much can still happen -/

/-- Commands that an executor may still start, and the one that is running. -/
def weight (s : St) (e : Nat) : Nat :=
  match s.proc e with
  | none => 0
  | some _ => (s.left e).length + 1

def sumTo (f : Nat → Nat) : Nat → Nat
  | 0 => 0
  | n + 1 => sumTo f n + f n

theorem sumTo_congr {f g : Nat → Nat} {n : Nat} (h : ∀ i, i < n → f i = g i) : sumTo f n = sumTo g n := by
  induction n with
  | zero => rfl
  | succ n ih => simp [sumTo, ih (fun i hi => h i (by omega)), h n (by omega)]

theorem sumTo_lt {f g : Nat → Nat} {n e : Nat} (he : e < n) (hlt : f e < g e) (h : ∀ i, i ≠ e → f i = g i) : sumTo f n < sumTo g n := by
  induction n with
  | zero => omega
  | succ n ih =>
    by_cases hen : e = n
    · subst hen
      have := sumTo_congr (f := f) (g := g) (n := e) (fun i hi => h i (by omega))
      simp only [sumTo]
      omega
    · have := ih (by omega)
      have := h n (fun x => hen x.symm)
      simp only [sumTo]
      omega

def total (jobs : Nat) (s : St) : Nat := sumTo (weight s) jobs + if s.acquiring then 1 else 0

theorem execute_length {cs rest : List Cmd} (h : execute cs = .process rest) : rest.length < cs.length := by
  fun_induction execute cs <;> simp_all
  omega

@[simp] theorem finish_proc (s : St) : (finish s).proc = s.proc := by
  unfold finish; split <;> (try split) <;> rfl
@[simp] theorem finish_left (s : St) : (finish s).left = s.left := by
  unfold finish; split <;> (try split) <;> rfl
@[simp] theorem finish_acquiring (s : St) : (finish s).acquiring = s.acquiring := by
  unfold finish; split <;> (try split) <;> rfl
@[simp] theorem wake_proc (e : Nat) (s : St) : (wake e s).proc = s.proc := by
  unfold wake; split <;> (try split) <;> simp
@[simp] theorem wake_left (e : Nat) (s : St) : (wake e s).left = s.left := by
  unfold wake; split <;> (try split) <;> simp
@[simp] theorem wake_acquiring (e : Nat) (s : St) : (wake e s).acquiring = s.acquiring := by
  unfold wake; split <;> (try split) <;> simp
@[simp] theorem abort_proc (jobs : Nat) (s : St) : (abort jobs s).proc = s.proc := by simp [abort]
@[simp] theorem abort_left (jobs : Nat) (s : St) : (abort jobs s).left = s.left := by simp [abort]
@[simp] theorem abort_acquiring (jobs : Nat) (s : St) : (abort jobs s).acquiring = s.acquiring := by simp [abort]

theorem finish_aborted {s : St} (h : s.aborted = true) : (finish s).aborted = true := by
  unfold finish
  split
  · split
    · exact h
    · simp [St.aborted]
  · exact h

theorem abort_aborted (jobs : Nat) (s : St) : (abort jobs s).aborted = true := finish_aborted (by simp [St.aborted])

theorem wake_aborted {e : Nat} {s : St} (h : s.aborted = true) : (wake e s).aborted = true := by
  unfold wake
  split
  · split
    · exact finish_aborted (by simp [St.aborted])
    · exact h
  · exact h

theorem step_total {jobs : Nat} {s s' : St} {ev : Event} (hb : ∀ e, jobs ≤ e → s.proc e = none) (ha : s.aborted = true)
    (hs : step jobs s ev = some s') : s'.aborted = true ∧ total jobs s' < total jobs s := by
  cases ev with
  | target e cmds => simp [step, ha] at hs
  | ask => simp [step, ha] at hs
  | acquired =>
    simp only [step] at hs
    split at hs
    case isFalse => cases hs
    rename_i hc
    cases hs
    refine ⟨finish_aborted ha, ?_⟩
    have : weight (finish { s with acquiring := false }) = weight s := by
      funext e
      simp [weight]
    simp [total, hc.2, this]
  | ends e failed =>
    simp only [step] at hs
    split at hs
    · cases hs
    split at hs
    · cases hs
    rename_i p hp
    have hj : e < jobs := by
      apply Classical.byContradiction
      intro hj
      rw [hb e (by omega)] at hp
      cases hp
    have key : ∀ t : St, t.proc = upd s.proc e none → t.left = s.left → t.acquiring = s.acquiring → total jobs t < total jobs s := by
      intro t h1 h2 h3
      have := sumTo_lt (f := weight t) (g := weight s) hj (by simp [weight, h1, hp]) (fun i hi => by simp [weight, h1, h2, upd_other _ _ hi])
      simp only [total, h3]
      omega
    split at hs
    · split at hs
      · rename_i rest hx
        cases hs
        refine ⟨wake_aborted ha, ?_⟩
        have hx : execute (s.left e) = .process rest := by
          split at hx
          · cases hx
          · exact hx
        have hl := execute_length hx
        have := sumTo_lt (f := weight (wake e (startProcess e rest { s with
            proc := upd s.proc e none, log := s.log ++ [Ev.ended p], running := upd s.running e false }))) (g := weight s) hj
          (by simp [weight, startProcess, hp]; exact hl)
          (fun i hi => by simp [weight, startProcess, upd_other _ _ hi])
        simp only [total, wake_acquiring]
        exact Nat.add_lt_add_right this _
      · cases hs
        exact ⟨wake_aborted ha, key _ (by simp) (by simp) (by simp)⟩
      · cases hs
        exact ⟨abort_aborted jobs _, key _ (by simp) (by simp) (by simp)⟩
    · cases hs
      exact ⟨ha, key _ rfl rfl rfl⟩

theorem step_bound {jobs : Nat} {s s' : St} {ev : Event} (hb : ∀ e, jobs ≤ e → s.proc e = none) (hs : step jobs s ev = some s') :
    ∀ e, jobs ≤ e → s'.proc e = none := by
  intro i hi
  cases ev with
  | target e cmds =>
    simp only [step] at hs
    split at hs
    case isFalse => cases hs
    rename_i hc
    split at hs <;> cases hs
    · show upd s.proc e _ i = none
      rw [upd_other _ _ (by omega)]
      exact hb i hi
    · exact hb i hi
    · simpa using hb i hi
  | ask =>
    simp only [step] at hs
    split at hs <;> cases hs
    exact hb i hi
  | acquired =>
    simp only [step] at hs
    split at hs <;> cases hs
    simpa using hb i hi
  | ends e failed =>
    simp only [step] at hs
    split at hs
    · cases hs
    split at hs
    · cases hs
    rename_i p hp
    have hj : i ≠ e := fun x => by
      rw [← x, hb i hi] at hp
      cases hp
    have : upd s.proc e none i = none := by
      rw [upd_other _ _ hj]
      exact hb i hi
    split at hs
    · split at hs <;> cases hs
      · rw [wake_proc]
        show upd (upd s.proc e none) e _ i = none
        rw [upd_other _ _ hj]
        exact this
      · rw [wake_proc]
        exact this
      · rw [abort_proc]
        exact this
    · cases hs
      exact this

theorem run_bound {jobs : Nat} {s t : St} {es : List Event} (hb : ∀ e, jobs ≤ e → s.proc e = none) (hr : Run jobs s es t) :
    ∀ e, jobs ≤ e → t.proc e = none := by
  induction hr with
  | nil => exact hb
  | cons hs _ ih => exact ih (step_bound hb hs)

theorem run_total {jobs : Nat} {s t : St} {es : List Event} (hb : ∀ e, jobs ≤ e → s.proc e = none) (ha : s.aborted = true)
    (hr : Run jobs s es t) : t.aborted = true ∧ es.length + total jobs t ≤ total jobs s := by
  induction hr with
  | nil => exact ⟨ha, by simp⟩
  | cons hs _ ih =>
    obtain ⟨h1, h2⟩ := step_total hb ha hs
    obtain ⟨h3, h4⟩ := ih (step_bound hb hs) h1
    refine ⟨h3, ?_⟩
    simp only [List.length_cons]
    omega

theorem run_append {jobs : Nat} {s t u : St} {es fs : List Event} (h1 : Run jobs s es t) (h2 : Run jobs t fs u) : Run jobs s (es ++ fs) u := by
  induction h1 with
  | nil => exact h2
  | cons hs _ ih => exact .cons hs (ih h2)

/-- As long as jom has not called `exit` after a failure, something that it waits for can happen. -/
theorem good_next {jobs : Nat} {s : St} (h : Good jobs s) (ha : s.aborted = true) (hx : Ev.exit ∉ s.log) :
    (∃ e p, s.proc e = some p ∧ s.running e = true ∧ ∀ failed, ∃ s', step jobs s (.ends e failed) = some s') ∨
      (s.acquiring = true ∧ ∃ s', step jobs s .acquired = some s') := by
  rcases h with ⟨h, hw⟩ | h
  · have hl := h.live
    cases hf : s.frames with
    | nil => simp [St.aborted, hl, hf] at ha
    | cons T F =>
      obtain ⟨h1, h2⟩ := waits_spec hw hf
      cases T with
      | nil =>
        right
        refine ⟨h1 rfl, ?_⟩
        simp [step, hl, h1 rfl]
      | cons e T =>
        left
        have hr := h2 e T rfl
        obtain ⟨p, hp⟩ := h.real e hr
        refine ⟨e, p, hp, hr, fun failed => ?_⟩
        simp only [step]
        rw [if_neg (by simp [hl])]
        simp only [hp, hr, if_true]
        split <;> simp
  · obtain ⟨l, n, hl, -⟩ := h.shape
    exact absurd (by rw [hl]; simp) hx

/-! ### Targets with at most one process -/

/-- Nothing is started after the failure, and no executor has a process before it. -/
def Single (s : St) : Prop :=
  (∀ e, Cmd.process ∉ s.left e) ∧ ∀ l1 l2 p, s.log = l1 ++ Ev.failed :: l2 → Ev.started p ∉ l2

theorem execute_count {cs rest : List Cmd} (h : execute cs = .process rest) : cs.count .process = rest.count .process + 1 := by
  fun_induction execute cs <;> simp_all

theorem execute_mem {cs rest : List Cmd} (h : execute cs = .process rest) : Cmd.process ∈ cs := by
  have := execute_count h
  exact List.count_pos_iff.mp (by omega)

theorem append_started {log : List Ev} {x : Ev} (h : ∀ l1 l2 p, log = l1 ++ Ev.failed :: l2 → Ev.started p ∉ l2)
    (hx : Ev.failed ∈ log → ∀ p, x ≠ Ev.started p) : ∀ l1 l2 p, log ++ [x] = l1 ++ Ev.failed :: l2 → Ev.started p ∉ l2 := by
  intro l1 l2 p he hm
  rcases List.eq_nil_or_concat l2 with rfl | ⟨l2', y, rfl⟩
  · cases hm
  · simp only [List.concat_eq_append] at he hm
    rw [show l1 ++ Ev.failed :: (l2' ++ [y]) = (l1 ++ Ev.failed :: l2') ++ [y] by simp] at he
    obtain ⟨h1, h2⟩ := List.append_inj' he rfl
    cases h2
    rcases List.mem_append.mp hm with hm | hm
    · exact h l1 l2' p h1 hm
    · rw [List.mem_singleton] at hm
      exact hx (by rw [h1]; simp) p hm.symm

theorem append_many {log xs : List Ev} (h : ∀ l1 l2 p, log = l1 ++ Ev.failed :: l2 → Ev.started p ∉ l2) (hx : ∀ p, Ev.started p ∉ xs) :
    ∀ l1 l2 p, log ++ xs = l1 ++ Ev.failed :: l2 → Ev.started p ∉ l2 := by
  induction xs generalizing log with
  | nil => simpa using h
  | cons x xs ih =>
    rw [show log ++ x :: xs = (log ++ [x]) ++ xs by simp]
    refine ih (append_started h fun _ p he => hx p (by simp [he])) fun p hm => hx p (by simp [hm])

theorem finish_single {s : St} (h : Single s) : Single (finish s) := by
  refine ⟨by simpa using h.1, ?_⟩
  unfold finish
  split
  · split
    · exact h.2
    · exact append_many h.2 (by simp)
  · exact h.2

theorem wake_single {e : Nat} {s : St} (h : Single s) : Single (wake e s) := by
  unfold wake
  split
  · split
    · exact finish_single h
    · exact h
  · exact h

theorem abort_single {jobs : Nat} {s : St} (h : Single s) : Single (abort jobs s) :=
  finish_single ⟨h.1, append_many h.2 (by simp)⟩

theorem step_single {jobs : Nat} {s s' : St} {ev : Event} (hg : Good jobs s) (h : Single s) (hs : step jobs s ev = some s')
    (hev : ∀ e cmds, ev = .target e cmds → cmds.count .process ≤ 1) : Single s' := by
  cases ev with
  | target e cmds =>
    simp only [step] at hs
    split at hs
    case isFalse => cases hs
    rename_i hc
    split at hs <;> cases hs
    · rename_i rest hx
      have hcount := hev e cmds rfl
      have := execute_count hx
      refine ⟨fun i => ?_, ?_⟩
      · show Cmd.process ∉ upd s.left e rest i
        by_cases hi : i = e
        · subst hi
          rw [upd_same]
          exact List.count_eq_zero.mp (by omega)
        · rw [upd_other _ _ hi]
          exact h.1 i
      · refine append_started h.2 fun hm => ?_
        exfalso
        rcases hg with ⟨hi, -⟩ | ho
        · have := hi.frames.mp hm
          have hc := hc.1
          simp only [St.aborted, Bool.or_eq_false_iff] at hc
          simp at hc
          exact this hc.1
        · have hc := hc.1
          simp [St.aborted, ho.exited] at hc
    · exact h
    · exact abort_single h
  | ask =>
    simp only [step] at hs
    split at hs <;> cases hs
    exact h
  | acquired =>
    simp only [step] at hs
    split at hs <;> cases hs
    exact finish_single h
  | ends e failed =>
    simp only [step] at hs
    split at hs
    · cases hs
    split at hs
    · cases hs
    rename_i p hp
    have h2 := append_many (xs := [Ev.ended p]) h.2 (by simp)
    split at hs
    · split at hs <;> cases hs
      · rename_i rest hx
        exfalso
        split at hx
        · cases hx
        · exact h.1 e (execute_mem hx)
      · exact wake_single ⟨h.1, h2⟩
      · exact abort_single ⟨h.1, h2⟩
    · cases hs
      exact ⟨h.1, h2⟩

theorem run_single {jobs : Nat} {s t : St} {es : List Event} (hg : Good jobs s) (h : Single s) (hr : Run jobs s es t)
    (hev : ∀ e cmds, Event.target e cmds ∈ es → cmds.count .process ≤ 1) : Single t := by
  induction hr with
  | nil => exact h
  | cons hs _ ih =>
    exact ih (step_good hg hs) (step_single hg h hs fun e cmds he => hev e cmds (by simp [he])) fun e cmds he => hev e cmds (by simp [he])

/-! ### Processes take over from others -/

open Jom.Spec.Abort

theorem takesOver_one {log : List Ev} {x : Ev} (h : TakesOver log)
    (hx : ∀ p, x = Ev.started p → Ev.failed ∉ log ∨ ∃ l0 q, log = l0 ++ [Ev.ended q]) : TakesOver (log ++ [x]) := by
  intro l1 l2 p he hf
  rcases List.eq_nil_or_concat l2 with rfl | ⟨l2', y, rfl⟩
  · obtain ⟨h1, h2⟩ := List.append_inj' he rfl
    subst h1
    rcases hx p (by simpa using h2) with hn | hn
    · exact absurd hf hn
    · exact hn
  · simp only [List.concat_eq_append] at he
    rw [show l1 ++ Ev.started p :: (l2' ++ [y]) = (l1 ++ Ev.started p :: l2') ++ [y] by simp] at he
    exact h l1 l2' p (List.append_inj' he rfl).1 hf

theorem takesOver_many {log xs : List Ev} (h : TakesOver log) (hx : ∀ p, Ev.started p ∉ xs) : TakesOver (log ++ xs) := by
  induction xs generalizing log with
  | nil => simpa using h
  | cons x xs ih =>
    rw [show log ++ x :: xs = (log ++ [x]) ++ xs by simp]
    exact ih (takesOver_one h fun p he => absurd (by simp [he]) (hx p)) fun p hm => hx p (by simp [hm])

theorem finish_takesOver {s : St} (h : TakesOver s.log) : TakesOver (finish s).log := by
  unfold finish
  split
  · split
    · exact h
    · exact takesOver_many h (by simp)
  · exact h

theorem wake_takesOver {e : Nat} {s : St} (h : TakesOver s.log) : TakesOver (wake e s).log := by
  unfold wake
  split
  · split
    · exact finish_takesOver h
    · exact h
  · exact h

theorem abort_takesOver {jobs : Nat} {s : St} (h : TakesOver s.log) : TakesOver (abort jobs s).log :=
  finish_takesOver (takesOver_many h (by simp))

theorem step_takesOver {jobs : Nat} {s s' : St} {ev : Event} (hg : Good jobs s) (h : TakesOver s.log) (hs : step jobs s ev = some s') :
    TakesOver s'.log := by
  cases ev with
  | target e cmds =>
    simp only [step] at hs
    split at hs
    case isFalse => cases hs
    rename_i hc
    split at hs <;> cases hs
    · refine takesOver_one h fun p _ => Or.inl fun hm => ?_
      rcases hg with ⟨hi, -⟩ | ho
      · have := hi.frames.mp hm
        have hc := hc.1
        simp only [St.aborted, Bool.or_eq_false_iff] at hc
        simp at hc
        exact this hc.1
      · have hc := hc.1
        simp [St.aborted, ho.exited] at hc
    · exact h
    · exact abort_takesOver h
  | ask =>
    simp only [step] at hs
    split at hs <;> cases hs
    exact h
  | acquired =>
    simp only [step] at hs
    split at hs <;> cases hs
    exact finish_takesOver h
  | ends e failed =>
    simp only [step] at hs
    split at hs
    · cases hs
    split at hs
    · cases hs
    rename_i p hp
    have h2 := takesOver_many (xs := [Ev.ended p]) h (by simp)
    split at hs
    · split at hs <;> cases hs
      · exact wake_takesOver (takesOver_one h2 fun q _ => Or.inr ⟨_, _, rfl⟩)
      · exact wake_takesOver h2
      · exact abort_takesOver h2
    · cases hs
      exact h2

theorem run_takesOver {jobs : Nat} {s t : St} {es : List Event} (hg : Good jobs s) (h : TakesOver s.log) (hr : Run jobs s es t) :
    TakesOver t.log := by
  induction hr with
  | nil => exact h
  | cons hs _ ih => exact ih (step_good hg hs) (step_takesOver hg h hs)

/-- The processes that are started are not more than those that end; one less if the last thing that happened is an end. -/
theorem takesOver_count (n : Nat) {log l1 l2 : List Ev} (h : TakesOver log) (hl : log = l1 ++ Ev.failed :: l2) (hn : l2.length = n) :
    l2.countP isStart ≤ l2.countP isEnd ∧ ∀ q, l2.getLast? = some (Ev.ended q) → l2.countP isStart < l2.countP isEnd := by
  induction n generalizing log l2 with
  | zero =>
    rw [List.eq_nil_of_length_eq_zero hn]
    simp
  | succ n ih =>
    rcases List.eq_nil_or_concat l2 with rfl | ⟨l3, x, rfl⟩
    · cases hn
    rw [List.concat_eq_append] at *
    have hpre : TakesOver (l1 ++ Ev.failed :: l3) := by
      intro a b p he hf
      exact h a (b ++ [x]) p (by rw [hl, show l1 ++ Ev.failed :: (l3 ++ [x]) = (l1 ++ Ev.failed :: l3) ++ [x] by simp, he]; simp) hf
    obtain ⟨h1, h2⟩ := ih hpre rfl (by simpa using hn)
    simp only [List.countP_append, List.countP_cons, List.countP_nil, List.getLast?_append, List.getLast?_singleton, Option.some_or,
      Option.some.injEq]
    cases x with
    | started p =>
      obtain ⟨l0, q, hq⟩ := h (l1 ++ Ev.failed :: l3) [] p (by rw [hl]; simp) (by simp)
      have hlast : l3.getLast? = some (Ev.ended q) := by
        have := congrArg List.getLast? hq
        rw [List.getLast?_append, List.getLast?_append] at this
        cases l3 with
        | nil => simp at this
        | cons y l3 => simpa [List.getLast?_cons_cons] using this
      have := h2 q hlast
      simp [isStart, isEnd]
      omega
    | ended q =>
      simp [isStart, isEnd]
      omega
    | failed => simpa [isStart, isEnd] using h1
    | exit => simpa [isStart, isEnd] using h1

/-! ### Failures are noticed -/

theorem finish_log {s : St} {l : List Ev} (h : l <+: s.log) : l <+: (finish s).log := by
  unfold finish
  split
  · split
    · exact h
    · exact h.trans (List.prefix_append _ _)
  · exact h

theorem wake_log {e : Nat} {s : St} {l : List Ev} (h : l <+: s.log) : l <+: (wake e s).log := by
  unfold wake
  split
  · split
    · exact finish_log h
    · exact h
  · exact h

theorem abort_log {jobs : Nat} {s : St} {l : List Ev} (h : l <+: s.log ++ [Ev.failed]) : l <+: (abort jobs s).log := finish_log h

theorem step_log {jobs : Nat} {s s' : St} {ev : Event} (hs : step jobs s ev = some s') : s.log <+: s'.log := by
  cases ev with
  | target e cmds =>
    simp only [step] at hs
    split at hs
    case isFalse => cases hs
    split at hs <;> cases hs
    · exact List.prefix_append _ _
    · exact List.prefix_rfl
    · exact abort_log (List.prefix_append _ _)
  | ask =>
    simp only [step] at hs
    split at hs <;> cases hs
    exact List.prefix_rfl
  | acquired =>
    simp only [step] at hs
    split at hs <;> cases hs
    exact finish_log List.prefix_rfl
  | ends e failed =>
    simp only [step] at hs
    split at hs
    · cases hs
    split at hs
    · cases hs
    split at hs
    · split at hs <;> cases hs
      · refine wake_log ?_
        simp only [startProcess, List.append_assoc]
        exact List.prefix_append _ _
      · exact wake_log (List.prefix_append _ _)
      · refine abort_log ?_
        simp only [List.append_assoc]
        exact List.prefix_append _ _
    · cases hs
      exact List.prefix_append _ _

theorem run_log {jobs : Nat} {s t : St} {es : List Event} (hr : Run jobs s es t) : s.log <+: t.log := by
  induction hr with
  | nil => exact List.prefix_rfl
  | cons hs _ ih => exact (step_log hs).trans ih

/-- What jom does itself up to the first process fails. -/
def Fails (cmds : List Cmd) : Prop := ∃ pre post, cmds = pre ++ Cmd.inner true :: post ∧ ∀ c ∈ pre, c = Cmd.inner false

theorem execute_fails {cmds : List Cmd} (h : Fails cmds) : execute cmds = .failed := by
  obtain ⟨pre, post, rfl, hp⟩ := h
  induction pre with
  | nil => rfl
  | cons c pre ih =>
    have := hp c (by simp)
    subst this
    exact ih fun c hc => hp c (by simp [hc])

theorem step_failed {jobs : Nat} {s s' : St} {ev : Event} (hg : Good jobs s) (hs : step jobs s ev = some s')
    (hev : (∃ e, ev = .ends e true) ∨ ∃ e cmds, ev = .target e cmds ∧ Fails cmds) : Ev.failed ∈ s'.log := by
  by_cases hm : Ev.failed ∈ s.log
  · exact (step_log hs).subset hm
  rcases hev with ⟨e, rfl⟩ | ⟨e, cmds, rfl, hf⟩
  · rcases hg with ⟨hi, -⟩ | ho
    · simp only [step] at hs
      split at hs
      · cases hs
      split at hs
      · cases hs
      rename_i p hp
      rw [if_pos (hi.alive hm e p hp)] at hs
      simp only [if_true] at hs
      cases hs
      exact (abort_log List.prefix_rfl).subset (by simp)
    · exact absurd ho.failed hm
  · simp only [step, execute_fails hf] at hs
    split at hs <;> cases hs
    exact (abort_log List.prefix_rfl).subset (by simp)

theorem run_failed {jobs : Nat} {s t : St} {es : List Event} (hg : Good jobs s) (hr : Run jobs s es t)
    (hev : ∃ ev ∈ es, (∃ e, ev = .ends e true) ∨ ∃ e cmds, ev = .target e cmds ∧ Fails cmds) : Ev.failed ∈ t.log := by
  induction hr with
  | nil => simp at hev
  | cons hs hr ih =>
    obtain ⟨ev, hm, h⟩ := hev
    rcases List.mem_cons.mp hm with rfl | hm
    · exact (run_log hr).subset (step_failed hg hs h)
    · exact ih (step_good hg hs) ⟨ev, hm, h⟩

/-- What has no `exit` is before the first one. -/
theorem exit_prefix {log l x a b : List Ev} (h : log = l ++ x) (hn : Ev.exit ∉ l) (h2 : log = a ++ Ev.exit :: b) : l <+: a := by
  rcases List.prefix_or_prefix_of_prefix (l₁ := l) (l₂ := a) (l₃ := log) ⟨_, h.symm⟩ ⟨_, h2.symm⟩ with h3 | ⟨r, hr⟩
  · exact h3
  · cases r with
    | nil => exact ⟨[], by simpa using hr.symm⟩
    | cons y r =>
      exfalso
      rw [h2, ← hr, List.append_assoc, List.cons_append] at h
      have hy := (List.cons.inj (List.append_cancel_left h)).1
      exact hn (by rw [← hr, ← hy]; simp)

end Jom.Abort
