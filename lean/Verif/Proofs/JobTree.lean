/- Invariants of a tree of joms. -/
import Verif.Model.JobTree
import Verif.Proofs.SchedMeasure

namespace Jom.Sched

open Jom.Graph

/-- Tokens taken by an event. -/
def Event.tokens : Event → Nat
  | .grant => 1
  | _ => 0

/-- What a step does to tokens, busy executors and the abort flag. -/
structure Moves (ev : Event) (s s' : St) : Prop where
  taken : s'.taken = s.taken + ev.tokens
  rel : s.relChild + s.relWait ≤ s'.relChild + s'.relWait
  ab : s.aborted = true → s'.aborted = true
  busy : ∀ p ∈ s.busy, (∀ f, ev ≠ .childFinished p.1 f) → p ∈ s'.busy

theorem moves_build {cfg s t} (res : StartRes) (hp : PreBuild cfg s) (hn : s.next = some t)
    (hav : s.avail ≠ []) : (buildNextTarget cfg res s).taken = s.taken ∧
      s.relChild + s.relWait ≤ (buildNextTarget cfg res s).relChild + (buildNextTarget cfg res s).relWait ∧
      ∀ p ∈ s.busy, p ∈ (buildNextTarget cfg res s).busy := by
  cases ha : s.avail with
  | nil => exact absurd ha hav
  | cons e rest =>
    rw [build_eq cfg res hn hp.ab ha]
    cases res with
    | running => exact ⟨rfl, Nat.le_refl _, fun p hp => List.mem_cons_of_mem _ hp⟩
    | throws => exact ⟨rfl, Nat.le_refl _, fun p hp => hp⟩
    | sync f =>
      have hc := childFinished_fields cfg e t f (Sched.begin e t rest s)
      have hne : ∀ p ∈ s.busy, p.1 ≠ e := by
        have h1 := hp.perm.nodup_iff.2 List.nodup_range
        rw [ha] at h1
        intro p hpb hpe
        have hm : e ∈ s.busy.map (·.1) ++ s.stuck.map (·.1) := List.mem_append_left _ (List.mem_map.2 ⟨p, hpb, hpe⟩)
        exact (List.nodup_append.1 h1).2.2 e (List.mem_cons_self ..) e hm rfl
      simp only [begun]
      generalize childFinished cfg e t f (Sched.begin e t rest s) = s' at hc
      refine ⟨hc.taken, ?_, ?_⟩
      · rw [hc.relChild, hc.relWait]
        simp only [Sched.begin]
        omega
      · intro p hpb
        rw [hc.busy]
        exact List.mem_filter.2 ⟨List.mem_cons_of_mem _ hpb, by simpa using hne p hpb⟩

theorem moves_start {cfg s} (h : Inv cfg s) (o : Oracle) (q : Nat) :
    (startProcesses cfg o { s with queued := q }).taken = s.taken ∧
      s.relChild + s.relWait ≤ (startProcesses cfg o { s with queued := q }).relChild +
        (startProcesses cfg o { s with queued := q }).relWait ∧
      (s.aborted = true → (startProcesses cfg o { s with queued := q }).aborted = true) ∧
      ∀ p ∈ s.busy, p ∈ (startProcesses cfg o { s with queued := q }).busy := by
  unfold startProcesses
  split
  · exact ⟨rfl, Nat.le_refl _, id, fun p hp => hp⟩
  · next hc =>
    simp only [Bool.or_eq_true, List.isEmpty_iff, not_or, Bool.not_eq_true] at hc
    obtain ⟨⟨hab, hacq⟩, hav⟩ := hc
    have hab : s.aborted = false := hab
    have hacq : s.acquiring = false := hacq
    have hav : s.avail ≠ [] := hav
    have hn := h.idle hab hacq
    have hl0 : LogInv cfg { s with queued := q } := h.lg.congr rfl rfl rfl id id rfl rfl rfl rfl (fun _ => rfl)
    have hf := findNext_spec cfg o (s.g.ids.length + 1) { s with queued := q } hl0 hab hn
    simp only [hn, Option.isNone_none, if_true]
    have hf' : FindRes cfg { s with queued := q } (s.g.ids.length + 1)
      (findNextTarget cfg o (s.g.ids.length + 1) { s with queued := q, next := none }) := by
      have e : ({ s with queued := q, next := none } : St) = { s with queued := q } := by
        cases s; simp only at hn; subst hn; rfl
      rw [e]; exact hf
    clear hf
    generalize findNextTarget cfg o (s.g.ids.length + 1) { s with queued := q, next := none } = res at hf'
    have hno : s.aborted = true → ∀ P : Prop, P := fun hh => by rw [hab] at hh; cases hh
    cases res with
    | error s1 =>
      obtain ⟨⟨f1, f2, f3⟩, f4, f5⟩ := hf'
      simp only [onException, finishBuild]
      rw [f1]
      exact ⟨rfl, Nat.le_refl _, fun _ => trivial, fun p hp => hp⟩
    | ok s1 =>
      obtain ⟨⟨f1, f2, f3⟩, f4, f5⟩ := hf'
      have hab1 : s1.aborted = false := by rw [f1]; exact hab
      have hacq1 : s1.acquiring = false := by rw [f1]; exact hacq
      have hav1 : s1.avail ≠ [] := by rw [f1]; exact hav
      have hex1 : ExecInv cfg s1 := by
        rw [f1]
        exact h.ex.congr rfl rfl rfl rfl rfl (fun hh => by rw [hacq] at hh; cases hh) id
          h.ex.frames0 rfl rfl rfl rfl
      have e1 : s1.taken = s.taken := by rw [f1]
      have e2 : s1.relChild = s.relChild := by rw [f1]
      have e3 : s1.relWait = s.relWait := by rw [f1]
      have e4 : s1.busy = s.busy := by rw [f1]
      clear f1
      simp only
      split
      · next hns =>
        obtain ⟨t, ht⟩ := Option.isSome_iff_exists.1 hns
        split
        · next hr =>
          have := moves_build o.res (hex1.pre0 hr hacq1 hab1) ht hav1
          rw [e1, e2, e3, e4] at this
          exact ⟨this.1, this.2.1, fun hh => hno hh _, this.2.2⟩
        · exact ⟨e1, by simp only [e2, e3]; exact Nat.le_refl _, fun hh => hno hh _, by simp only [e4]; exact fun p hp => hp⟩
      · split
        · split
          · exact ⟨e1, by simp only [finishBuild, e2, e3]; exact Nat.le_refl _, fun hh => hno hh _,
              by simp only [finishBuild, e4]; exact fun p hp => hp⟩
          · unfold rebuild
            split
            · exact ⟨e1, by simp only [e2, e3]; exact Nat.le_refl _, fun hh => hno hh _, by simp only [e4]; exact fun p hp => hp⟩
            · exact ⟨e1, by simp only [e2, e3]; exact Nat.le_refl _, fun hh => hno hh _, by simp only [e4]; exact fun p hp => hp⟩
        · exact ⟨e1, by simp only [e2, e3]; exact Nat.le_refl _, fun hh => hno hh _, by simp only [e4]; exact fun p hp => hp⟩

theorem step_moves {cfg s s' ev} (h : Inv cfg s) (hs : step cfg s ev = some s') : Moves ev s s' := by
  cases ev with
  | startProcesses o =>
    simp only [Sched.step] at hs
    split at hs
    · simp only [Option.some.injEq] at hs
      subst hs
      obtain ⟨a, b, c, d⟩ := moves_start h o (s.queued - 1)
      exact ⟨by rw [a]; rfl, b, c, fun p hp _ => d p hp⟩
    · cases hs
  | grant =>
    simp only [Sched.step] at hs
    split at hs
    · simp only [Option.some.injEq] at hs
      subst hs
      exact ⟨rfl, Nat.le_refl _, id, fun p hp _ => hp⟩
    · cases hs
  | acquired res inWait =>
    simp only [Sched.step] at hs
    split at hs
    · next hc =>
      simp only [Option.some.injEq] at hs
      obtain ⟨hd, hg, hw1, hw2⟩ := hc
      have hacq := h.ex.gr hg
      obtain ⟨t, ht⟩ := Option.isSome_iff_exists.1 (h.ex.acqNext hacq)
      have hm : Moves (.acquired res inWait) s (buildNextTarget cfg res { s with acquiring := false, granted := false }) := by
        by_cases hab : s.aborted = false
        · obtain ⟨a, b, c⟩ := moves_build (s := { s with acquiring := false, granted := false }) res
            (h.ex.preAcq hg hab) ht (h.ex.acqAvail hacq)
          exact ⟨by rw [a]; rfl, b, fun hh => (by rw [hab] at hh; cases hh), fun p hp _ => c p hp⟩
        · rw [build_aborted (s := { s with acquiring := false, granted := false }) cfg res ht (by simpa using hab)]
          exact ⟨rfl, Nat.le_refl _, id, fun p hp _ => hp⟩
      rw [← hs]
      cases inWait
      · exact hm
      · refine ⟨hm.taken, ?_, hm.ab, hm.busy⟩
        have := hm.rel
        simp only [if_true]
        omega
    · cases hs
  | childFinished e f =>
    simp only [Sched.step] at hs
    split at hs
    · cases hs
    · next hd =>
      split at hs
      · next p t hf =>
        simp only [Option.some.injEq] at hs
        have hc := childFinished_fields cfg e t f s
        rw [hs] at hc
        refine ⟨by rw [hc.taken]; rfl, ?_, ?_, ?_⟩
        · rw [hc.relChild, hc.relWait]; omega
        · intro hh; rw [hc.aborted, hh]; rfl
        · intro p hp hne
          rw [hc.busy]
          refine List.mem_filter.2 ⟨hp, ?_⟩
          simp only [ne_eq, decide_not, Bool.not_eq_eq_eq_not, Bool.not_true, decide_eq_false_iff_not]
          intro hpe
          exact hne f (by rw [hpe])
      · cases hs
  | abortDone =>
    simp only [Sched.step] at hs
    split at hs
    · simp only [Option.some.injEq] at hs
      subst hs
      exact ⟨rfl, Nat.le_refl _, id, fun p hp _ => hp⟩
    · cases hs

/-- A process that is not aborted holds one token fewer than it has running targets. -/
theorem Inv.held_eq {cfg s} (h : Inv cfg s) (hab : s.aborted = false) :
    (0 < s.busy.length + s.acquiring.toNat → s.held = s.busy.length - 1 + s.granted.toNat) ∧
    (s.busy.length + s.acquiring.toNat = 0 → s.held = 0) := by
  obtain ⟨d, t1, t2, t3, t4⟩ := h.ex.tok
  have t5 := h.ex.tokInt
  have hs := h.ex.stuckAb hab
  have hd := t3 hab
  have hg : s.granted.toNat ≤ s.acquiring.toNat := by
    cases hg : s.granted with
    | false => simp
    | true => rw [h.ex.gr hg]; exact Nat.le_refl _
  simp only [hs, List.length_nil] at t4
  unfold St.held
  constructor <;> intro <;> omega

/-- A process that has ended without abort has nothing running and holds no token. -/
theorem Inv.ended {cfg s} (h : Inv cfg s) (hab : s.aborted = false) (hx : s.exits ≠ []) :
    s.busy = [] ∧ s.held = 0 := by
  obtain ⟨c, hc⟩ := List.exists_mem_of_ne_nil _ hx
  have key : s.busy = [] → s.acquiring = false → s.busy = [] ∧ s.held = 0 := by
    intro hb ha
    exact ⟨hb, (h.held_eq hab).2 (by rw [hb, ha]; rfl)⟩
  rcases h.codes c hc with ⟨_, h1⟩ | ⟨h1, _⟩ | ⟨h1, _⟩
  · obtain ⟨_, _, a, b⟩ := h.deadExit h1
    exact key b (by simpa using a)
  · rw [hab] at h1; cases h1
  · exact key h1.busy h1.acq

end Jom.Sched

namespace Jom.Tree

open Jom.Sched

def NoAbort (y : Sys) : Prop := ∀ p ∈ y.procs, p.st.aborted = false

theorem mem_slotsFrom {ps : List Proc} : ∀ {i k x}, (k, x) ∈ slotsFrom i ps ↔
    ∃ j p, k = i + j ∧ ps[j]? = some p ∧ p.alive = true ∧ ∃ t, (x, t) ∈ p.st.busy := by
  induction ps with
  | nil => intro i k x; simp [slotsFrom]
  | cons p ps ih =>
    intro i k x
    simp only [slotsFrom, List.mem_append, ih]
    constructor
    · rintro (h | ⟨j, q, hk, hq, h⟩)
      · split at h
        · next ha =>
          obtain ⟨b, hb, he⟩ := List.mem_map.1 h
          simp only [Prod.mk.injEq] at he
          obtain ⟨rfl, rfl⟩ := he
          exact ⟨0, p, rfl, rfl, ha, b.2, hb⟩
        · cases h
      · exact ⟨j + 1, q, by omega, by simpa using hq, h⟩
    · rintro ⟨j, q, hk, hq, ha, t, ht⟩
      cases j with
      | zero =>
        simp only [List.length_cons, Nat.zero_lt_succ, List.getElem?_eq_getElem, List.getElem_cons_zero, Option.some.injEq] at hq
        subst hq
        left
        rw [if_pos ha]
        exact List.mem_map.2 ⟨(x, t), ht, by simp [hk]⟩
      | succ j =>
        right
        exact ⟨j, q, by omega, by simpa using hq, ha, t, ht⟩

theorem mem_slots {y : Sys} {k x : Nat} : (k, x) ∈ slots y ↔
    ∃ p, y.procs[k]? = some p ∧ p.alive = true ∧ ∃ t, (x, t) ∈ p.st.busy := by
  unfold slots
  rw [mem_slotsFrom]
  constructor
  · rintro ⟨j, p, hk, h⟩
    rw [Nat.zero_add] at hk
    subst hk
    exact ⟨p, h⟩
  · rintro ⟨p, h⟩
    exact ⟨k, p, by omega, h⟩

theorem mem_hosts {y : Sys} {h : Nat × Nat} : h ∈ hosts y ↔ ∃ p ∈ y.procs, p.alive = true ∧ p.parent = some h := by
  unfold hosts
  simp only [List.mem_filterMap, List.mem_filter]
  constructor
  · rintro ⟨p, ⟨a, b⟩, c⟩; exact ⟨p, a, b, c⟩
  · rintro ⟨p, a, b, c⟩; exact ⟨p, ⟨a, b⟩, c⟩

theorem slotsFrom_nodup {ps : List Proc} (h : ∀ p ∈ ps, Inv p.cfg p.st) : ∀ i, (slotsFrom i ps).Nodup := by
  induction ps with
  | nil => intro i; exact List.nodup_nil
  | cons p ps ih =>
    intro i
    simp only [slotsFrom]
    rw [List.nodup_append]
    refine ⟨?_, ih (fun q hq => h q (List.mem_cons_of_mem _ hq)) _, ?_⟩
    · split
      · have hn := (h p (List.mem_cons_self ..)).ex.busyFst
        have : p.st.busy.map (fun b => (i, b.1)) = (p.st.busy.map (·.1)).map (fun e => (i, e)) := by
          rw [List.map_map]; rfl
        rw [this]
        exact hn.map _ (fun a b hab hne => hab (by simpa using hne))
      · exact List.nodup_nil
    · intro a ha b hb hab
      subst hab
      obtain ⟨k, x⟩ := a
      obtain ⟨j, q, hk, _⟩ := mem_slotsFrom.1 hb
      split at ha
      · obtain ⟨c, _, hc⟩ := List.mem_map.1 ha
        simp only [Prod.mk.injEq] at hc
        omega
      · cases ha

/-- Sum of a function over the processes. -/
def total (f : Proc → Int) : List Proc → Int
  | [] => 0
  | p :: ps => f p + total f ps

theorem total_append (f : Proc → Int) (ps qs : List Proc) : total f (ps ++ qs) = total f ps + total f qs := by
  induction ps with
  | nil => simp [total]
  | cons p ps ih => simp only [List.cons_append, total, ih]; omega

theorem total_set (f : Proc → Int) : ∀ (ps : List Proc) (k : Nat) (p q : Proc), ps[k]? = some p →
    total f (ps.set k q) = total f ps - f p + f q := by
  intro ps
  induction ps with
  | nil => intro k p q h; simp at h
  | cons a ps ih =>
    intro k p q h
    cases k with
    | zero =>
      simp only [List.length_cons, Nat.zero_lt_succ, List.getElem?_eq_getElem, List.getElem_cons_zero, Option.some.injEq] at h
      subst h
      simp only [List.set_cons_zero, total]
      omega
    | succ k =>
      simp only [List.set_cons_succ, total]
      rw [ih k p q (by simpa using h)]
      omega

theorem total_le {f g : Proc → Int} : ∀ {ps : List Proc}, (∀ p ∈ ps, f p ≤ g p) → total f ps ≤ total g ps := by
  intro ps
  induction ps with
  | nil => intro _; exact Int.le_refl _
  | cons a ps ih =>
    intro h
    simp only [total]
    have h1 := h a (List.mem_cons_self ..)
    have h2 := ih (fun p hp => h p (List.mem_cons_of_mem _ hp))
    omega

theorem total_add (f g : Proc → Int) (ps : List Proc) : total (fun p => f p + g p) ps = total f ps + total g ps := by
  induction ps with
  | nil => rfl
  | cons p ps ih => simp only [total, ih]; omega

theorem slotsFrom_length (ps : List Proc) : ∀ i,
    ((slotsFrom i ps).length : Int) = total (fun p => if p.alive then (p.st.busy.length : Int) else 0) ps := by
  induction ps with
  | nil => intro i; rfl
  | cons p ps ih =>
    intro i
    simp only [slotsFrom, List.length_append, total, ← ih (i + 1)]
    split <;> simp

structure TreeInv (N : Nat) (y : Sys) : Prop where
  inv : ∀ p ∈ y.procs, Inv p.cfg p.st
  jobs : ∀ p ∈ y.procs, 0 < p.cfg.jobs
  sum : (y.sem : Int) + total (fun p => p.st.held) y.procs = (N : Int) - 1
  root : ∃ p ps, y.procs = p :: ps ∧ p.parent = none
  par : ∀ k p, y.procs[k]? = some p → 0 < k → ∃ q x, p.parent = some (q, x) ∧ q < k
  nodup : NoAbort y → (hosts y).Nodup
  sub : NoAbort y → ∀ h ∈ hosts y, h ∈ slots y

theorem init_held (cfg : Cfg) : (init cfg).held = 0 := by
  unfold Sched.init
  extract_lets s
  split
  · rfl
  · unfold rebuild
    split <;> split <;> rfl

theorem init_aborted (cfg : Cfg) : (init cfg).aborted = false := by
  unfold Sched.init
  extract_lets s
  split
  · rfl
  · unfold rebuild
    split <;> split <;> rfl

theorem TreeInv.start (cfg : Cfg) (hj : 0 < cfg.jobs) : TreeInv cfg.jobs (start cfg) := by
  constructor
  · intro p hp
    simp only [Tree.start, List.mem_singleton] at hp
    subst hp
    exact Inv.init cfg
  · intro p hp
    simp only [Tree.start, List.mem_singleton] at hp
    subst hp
    exact hj
  · simp only [Tree.start, total, init_held]
    omega
  · exact ⟨_, _, rfl, rfl⟩
  · intro k p hp hk
    have : ¬ 0 < k := by
      have := (List.getElem?_eq_some_iff.1 hp).1
      simp [Tree.start] at this
      omega
    exact absurd hk this
  · intro _
    have : hosts (Tree.start cfg) = [] := by
      unfold hosts
      simp only [Tree.start, List.filter_cons]
      split <;> simp
    rw [this]
    exact List.nodup_nil
  · intro _ h hh
    obtain ⟨p, hp, _, hpar⟩ := mem_hosts.1 hh
    simp only [Tree.start, List.mem_singleton] at hp
    subst hp
    cases hpar

/-- The hosts after a step of process `k`. -/
theorem hosts_set_sublist : ∀ (ps : List Proc) (k : Nat) (p q : Proc), ps[k]? = some p → q.parent = p.parent →
    p.alive = true → (((ps.set k q).filter (·.alive)).filterMap (·.parent)).Sublist
      ((ps.filter (·.alive)).filterMap (·.parent)) := by
  intro ps
  induction ps with
  | nil => intro k p q h; simp at h
  | cons a ps ih =>
    intro k p q h hpar hal
    cases k with
    | zero =>
      simp only [List.length_cons, Nat.zero_lt_succ, List.getElem?_eq_getElem, List.getElem_cons_zero, Option.some.injEq] at h
      subst h
      simp only [List.set_cons_zero, List.filter_cons, hal, if_true]
      split
      · simp only [List.filterMap_cons, hpar]
        exact List.Sublist.refl _
      · simp only [List.filterMap_cons]
        split
        · exact List.Sublist.refl _
        · exact List.sublist_cons_self _ _
    | succ k =>
      have := ih k p q (by simpa using h) hpar hal
      simp only [List.set_cons_succ, List.filter_cons]
      split
      · simp only [List.filterMap_cons]
        split
        · exact this
        · exact this.cons_cons _
      · exact this

theorem TreeInv.step {N y y' e} (h : TreeInv N y) (hs : step y e = some y') : TreeInv N y' := by
  cases e with
  | spawn k x cfg =>
    simp only [Tree.step] at hs
    split at hs
    · next hc =>
      obtain ⟨hsl, hho, hj⟩ := hc
      simp only [Option.some.injEq] at hs
      subst hs
      obtain ⟨r, ps, hr, hrp⟩ := h.root
      obtain ⟨pk, hpk, hak, tk, htk⟩ := mem_slots.1 hsl
      have hklt : k < y.procs.length := (List.getElem?_eq_some_iff.1 hpk).1
      constructor
      · intro p hp
        rcases List.mem_append.1 hp with hp | hp
        · exact h.inv p hp
        · simp only [List.mem_singleton] at hp; subst hp; exact Inv.init cfg
      · intro p hp
        rcases List.mem_append.1 hp with hp | hp
        · exact h.jobs p hp
        · simp only [List.mem_singleton] at hp; subst hp; exact hj
      · have := h.sum
        simp only [total_append, total, init_held]
        omega
      · rw [hr]; exact ⟨r, _, rfl, hrp⟩
      · intro i p hp hi
        by_cases hil : i < y.procs.length
        · refine h.par i p ?_ hi
          rw [List.getElem?_append_left hil] at hp
          exact hp
        · have hil2 : i = y.procs.length := by
            have := (List.getElem?_eq_some_iff.1 hp).1
            simp at this
            omega
          subst hil2
          rw [List.getElem?_append_right (Nat.le_refl _)] at hp
          simp at hp
          subst hp
          exact ⟨k, x, rfl, hklt⟩
      · intro hna
        have hna0 : NoAbort y := fun p hp => hna p (List.mem_append_left _ hp)
        have h0 := h.nodup hna0
        unfold hosts at h0 hho ⊢
        simp only [List.filter_append, List.filterMap_append]
        rw [List.nodup_append]
        refine ⟨h0, ?_, ?_⟩
        · simp only [List.filter_cons]
          split <;> simp
        · intro a ha b hb hab
          subst hab
          simp only [List.filter_cons] at hb
          split at hb
          · simp at hb
            subst hb
            exact hho ha
          · simp at hb
      · intro hna hh hhm
        have hna0 : NoAbort y := fun p hp => hna p (List.mem_append_left _ hp)
        obtain ⟨p, hp, hal, hpar⟩ := mem_hosts.1 hhm
        have key : hh ∈ slots y := by
          rcases List.mem_append.1 hp with hp | hp
          · exact h.sub hna0 hh (mem_hosts.2 ⟨p, hp, hal, hpar⟩)
          · simp only [List.mem_singleton] at hp
            subst hp
            simp only [Option.some.injEq] at hpar
            rw [← hpar]
            exact hsl
        obtain ⟨a, b⟩ := hh
        obtain ⟨q, hq, hr⟩ := mem_slots.1 key
        refine mem_slots.2 ⟨q, ?_, hr⟩
        have := (List.getElem?_eq_some_iff.1 hq).1
        rw [List.getElem?_append_left this]
        exact hq
    · cases hs
  | proc k ev =>
    simp only [Tree.step] at hs
    split at hs
    · cases hs
    · next p hpk =>
      split at hs
      · next hc =>
        simp only [Bool.and_eq_true] at hc
        obtain ⟨⟨hal, hfin⟩, hgr⟩ := hc
        split at hs
        · cases hs
        · next st hst =>
          simp only [Option.some.injEq] at hs
          have hpm : p ∈ y.procs := List.mem_of_getElem? hpk
          have hinv := h.inv p hpm
          have hm := step_moves hinv hst
          have hinv' := hinv.step hst
          obtain ⟨r, ps, hr, hrp⟩ := h.root
          have hklt : k < y.procs.length := (List.getElem?_eq_some_iff.1 hpk).1
          have hmem : ∀ q ∈ y.procs.set k { p with st := st }, q ∈ y.procs ∨ q = { p with st := st } :=
            fun q hq => List.mem_or_eq_of_mem_set hq
          subst hs
          have hna0 : NoAbort { sem := semAfter y.sem p.st st, procs := y.procs.set k { p with st := st } } → NoAbort y := by
            intro hna q hq
            obtain ⟨i, hi⟩ := List.getElem?_of_mem hq
            by_cases hik : i = k
            · subst hik
              rw [hpk] at hi
              simp only [Option.some.injEq] at hi
              subst hi
              have hst2 : st.aborted = false := hna { p with st := st } (List.mem_set hklt _)
              cases hab : p.st.aborted with
              | false => rfl
              | true => rw [hm.ab hab] at hst2; cases hst2
            · refine hna q (List.mem_of_getElem? (i := i) ?_)
              simp only
              rw [List.getElem?_set_ne (Ne.symm hik)]
              exact hi
          constructor
          · intro q hq
            rcases hmem q hq with hq | rfl
            · exact h.inv q hq
            · exact hinv'
          · intro q hq
            rcases hmem q hq with hq | rfl
            · exact h.jobs q hq
            · exact h.jobs p hpm
          · have h1 := h.sum
            simp only
            rw [total_set (fun p => p.st.held) y.procs k p { p with st := st } hpk]
            have h2 := hm.taken
            have h3 := hm.rel
            simp only [semAfter, St.held] at h1 ⊢
            have h4 : ev.tokens ≤ y.sem := by
              cases ev <;> simp only [Event.tokens, Nat.zero_le]
              simp only [mayGrant, decide_eq_true_eq] at hgr
              omega
            omega
          · cases k with
            | zero =>
              rw [hr] at hpk ⊢
              simp at hpk
              subst hpk
              exact ⟨_, _, rfl, hrp⟩
            | succ k => rw [hr]; exact ⟨r, _, rfl, hrp⟩
          · intro i q hq hi
            simp only at hq
            by_cases hik : k = i
            · subst hik
              rw [List.getElem?_set_self hklt] at hq
              simp only [Option.some.injEq] at hq
              subst hq
              exact h.par k p hpk hi
            · rw [List.getElem?_set_ne hik] at hq
              exact h.par i q hq hi
          · intro hna
            exact (hosts_set_sublist y.procs k p { p with st := st } hpk rfl hal).nodup (h.nodup (hna0 hna))
          · intro hna hh hhm
            have hsub : hh ∈ hosts y :=
              (hosts_set_sublist y.procs k p { p with st := st } hpk rfl hal).subset hhm
            have hsl := h.sub (hna0 hna) hh hsub
            obtain ⟨a, b⟩ := hh
            obtain ⟨q, hq, hqa, t, ht⟩ := mem_slots.1 hsl
            by_cases hak : a = k
            · subst hak
              rw [hpk] at hq
              simp only [Option.some.injEq] at hq
              subst hq
              have hb' : (b, t) ∈ st.busy := by
                refine hm.busy (b, t) ht ?_
                intro f hev
                subst hev
                simp only [mayFinish, decide_eq_true_eq] at hfin
                exact hfin hsub
              refine mem_slots.2 ⟨{ p with st := st }, ?_, ?_, t, hb'⟩
              · simp only
                rw [List.getElem?_set_self hklt]
              · have hst2 : st.aborted = false := hna { p with st := st } (List.mem_set hklt _)
                unfold Proc.alive
                simp only [List.isEmpty_iff]
                apply Classical.byContradiction
                intro hx
                have := (hinv'.ended hst2 hx).1
                rw [this] at hb'
                cases hb'
            · refine mem_slots.2 ⟨q, ?_, hqa, t, ht⟩
              simp only
              rw [List.getElem?_set_ne (Ne.symm hak)]
              exact hq
      · cases hs

theorem TreeInv.run {N} : ∀ {es y y'}, TreeInv N y → run y es = some y' → TreeInv N y' := by
  intro es
  induction es with
  | nil => intro y y' h hr; simp only [Tree.run, Option.some.injEq] at hr; subst hr; exact h
  | cons e es ih =>
    intro y y' h hr
    simp only [Tree.run] at hr
    cases hs : Tree.step y e with
    | none => rw [hs] at hr; cases hr
    | some y1 => rw [hs] at hr; exact ih (h.step hs) hr

theorem Reachable.tree {cfg y} (hj : 0 < cfg.jobs) (h : Reachable cfg y) : TreeInv cfg.jobs y := by
  obtain ⟨es, he⟩ := h
  exact (TreeInv.start cfg hj).run he

/-- Busy executors = leaf processes + live nested joms. -/
theorem TreeInv.count {N y} (h : TreeInv N y) (hna : NoAbort y) :
    (slots y).length = leafProcesses y + (hosts y).length := by
  have h1 : (slots y).length = ((slots y).filter (fun a => decide (a ∉ hosts y))).length +
      ((slots y).filter (fun a => decide (a ∈ hosts y))).length := by
    generalize slots y = l
    induction l with
    | nil => rfl
    | cons a l ih =>
      by_cases ha : a ∈ hosts y <;> simp only [List.filter_cons, ha, not_true_eq_false, not_false_eq_true, decide_true,
        decide_false, Bool.false_eq_true, if_true, if_false, List.length_cons] <;> omega
  have hp : ((slots y).filter (fun a => decide (a ∈ hosts y))).Perm (hosts y) := by
    unfold slots
    rw [List.perm_ext_iff_of_nodup ((slotsFrom_nodup h.inv 0).filter _) (h.nodup hna)]
    intro a
    simp only [List.mem_filter, decide_eq_true_eq]
    exact ⟨fun hh => hh.2, fun hh => ⟨h.sub hna a hh, hh⟩⟩
  rw [h1, hp.length_eq]
  rfl

/-- Number of live processes. -/
theorem hosts_count {ps : List Proc} (h : ∀ p ∈ ps, p.parent.isSome = true) :
    (((ps.filter (·.alive)).filterMap (·.parent)).length : Int) = total (fun p => if p.alive then 1 else 0) ps := by
  induction ps with
  | nil => rfl
  | cons p ps ih =>
    have h1 := ih (fun q hq => h q (List.mem_cons_of_mem _ hq))
    obtain ⟨v, hv⟩ := Option.isSome_iff_exists.1 (h p (List.mem_cons_self ..))
    simp only [List.filter_cons, total]
    split
    · simp only [List.filterMap_cons, hv, List.length_cons]
      omega
    · omega

theorem TreeInv.alive_count {N y} (h : TreeInv N y) :
    total (fun p => if p.alive then 1 else 0) y.procs = (hosts y).length +
      (if (y.procs.head?.map (·.alive)).getD false then 1 else 0) := by
  obtain ⟨r, ps, hr, hrp⟩ := h.root
  have hps : ∀ p ∈ ps, p.parent.isSome = true := by
    intro p hp
    obtain ⟨i, hi⟩ := List.getElem?_of_mem hp
    obtain ⟨q, x, hq, _⟩ := h.par (i + 1) p (by rw [hr]; simpa using hi) (Nat.succ_pos _)
    rw [hq]; rfl
  have := hosts_count hps
  unfold hosts
  rw [hr]
  simp only [List.filter_cons, total, List.head?_cons, Option.map_some, Option.getD_some, ← this]
  by_cases hra : r.alive = true
  · simp only [hra, if_true, List.filterMap_cons, hrp]
    omega
  · simp only [hra, Bool.false_eq_true, if_false]
    omega

theorem total_congr {f g : Proc → Int} {ps : List Proc} (h : ∀ p ∈ ps, f p = g p) : total f ps = total g ps :=
  Int.le_antisymm (total_le fun p hp => Int.le_of_eq (h p hp)) (total_le fun p hp => Int.le_of_eq (h p hp).symm)

end Jom.Tree
