/-
C83: every process is reported exactly once, with its own exit code.
C84: the output of a command is what its process has written.
-/
import Verif.Model.ProcessLife

namespace Jom.Props

open Proc (Chan)
open Life

/-- What holds in every reachable state about processes and signals. -/
structure LifeInv (s : St) : Prop where
  code : s.exitCode = none
  handle : s.handle = if s.running then some s.gen else none
  enabled : s.enabled = s.running
  fresh : ∀ g, s.gen < g → s.ended g = none
  order : s.finished.map (·.1) = List.range' 1 (if s.running then s.gen - 1 else s.gen)
  codes : ∀ g c, (g, c) ∈ s.finished → s.ended g = some c ∧ c ≠ stillActive
  pos : s.running = true → 0 < s.gen

theorem lifeInv_init : LifeInv {} := by
  constructor <;> simp

theorem LifeInv.same {s : St} (h : LifeInv s) {t : St} (a : t.exitCode = s.exitCode) (b : t.handle = s.handle)
    (c : t.enabled = s.enabled) (d : t.running = s.running) (e : t.gen = s.gen) (f : t.ended = s.ended)
    (g : t.finished = s.finished) : LifeInv t := by
  obtain ⟨h1, h2, h3, h4, h5, h6, h7⟩ := h
  constructor
  · rw [a, h1]
  · rw [b, d, e, h2]
  · rw [c, d, h3]
  · rw [e, f]; exact h4
  · rw [g, d, e]; exact h5
  · rw [g, f]; exact h6
  · rw [d, e]; exact h7

/-- What `tryToRetrieveExitCode` does in a reachable state: it starts a timer, or reports the process that has ended. -/
theorem life_try {s : St} (h : LifeInv s) :
    tryToRetrieveExitCode s =
      match s.running, s.ended s.gen with
      | true, some c => if c = stillActive then { s with timers := s.timers + 1 } else onProcessFinished s c
      | _, _ => { s with timers := s.timers + 1 } := by
  unfold tryToRetrieveExitCode exitCodeNow
  simp only [h.code, h.handle]
  cases hr : s.running
  · rfl
  · cases he : s.ended s.gen with
    | none => simp [Option.orElse, he]
    | some c => by_cases hc : c = stillActive <;> simp [Option.orElse, he, hc]

theorem lifeInv_finished {s : St} (h : LifeInv s) (hr : s.running = true) {c : Int} (he : s.ended s.gen = some c)
    (hc : c ≠ stillActive) : LifeInv (onProcessFinished s c) := by
  obtain ⟨h1, h2, h3, h4, h5, h6, h7⟩ := h
  simp only [onProcessFinished, hr, if_true]
  refine ⟨rfl, rfl, rfl, h4, ?_, ?_, by simp⟩
  · have := h7 hr
    obtain ⟨k, hk⟩ : ∃ k, s.gen = k + 1 := ⟨s.gen - 1, by omega⟩
    simp only [List.map_append, List.map_cons, List.map_nil, h5, hr, hk]
    simp [List.range'_concat, Nat.add_comm]
  · intro g c' hm
    simp only [List.mem_append, List.mem_singleton, Prod.mk.injEq] at hm
    rcases hm with hm | hm
    · exact h6 g c' hm
    · rw [hm.1, hm.2]
      exact ⟨he, hc⟩

theorem lifeInv_try {s : St} (h : LifeInv s) : LifeInv (tryToRetrieveExitCode s) := by
  rw [life_try h]
  split
  · split
    · exact h.same rfl rfl rfl rfl rfl rfl rfl
    · exact lifeInv_finished h (by assumption) (by assumption) (by assumption)
  · exact h.same rfl rfl rfl rfl rfl rfl rfl

theorem lifeInv_step {s : St} (h : LifeInv s) (e : Ev) : LifeInv (step s e) := by
  cases e with
  | start =>
    simp only [step]
    split
    · exact h
    · rename_i hr
      simp only [Bool.not_eq_true] at hr
      obtain ⟨h1, h2, h3, h4, h5, h6, h7⟩ := h
      refine ⟨h1, rfl, rfl, fun g hg => h4 g ?_, ?_, h6, fun _ => Nat.succ_pos _⟩
      · simp only [start] at hg; omega
      · simp only [start, h5, hr]; rfl
  | startFails => simp only [step, startFails]; split <;> (first | exact h | exact h.same rfl rfl rfl rfl rfl rfl rfl)
  | write ch t => simp only [step]; split <;> (first | exact h | exact h.same rfl rfl rfl rfl rfl rfl rfl)
  | hangup ch => simp only [step]; split <;> (first | exact h | exact h.same rfl rfl rfl rfl rfl rfl rfl)
  | exit c =>
    simp only [step]
    split
    · rename_i hc
      obtain ⟨h1, h2, h3, h4, h5, h6, h7⟩ := h
      simp only [Bool.and_eq_true, Option.isNone_iff_eq_none] at hc
      refine ⟨h1, h2, h3, ?_, h5, ?_, h7⟩
      · intro g hg
        have : g ≠ s.gen := by simp only at hg; omega
        simp only [upd, this, if_false]
        exact h4 g hg
      · intro g c' hm
        have := h6 g c' hm
        have hne : g ≠ s.gen := by
          rintro rfl
          rw [hc.2] at this
          simp at this
        simp only [upd, hne, if_false]
        exact this
    · exact h
  | complete ch n => simp only [step]; split <;> (first | exact h | exact h.same rfl rfl rfl rfl rfl rfl rfl)
  | broken ch => simp only [step]; split <;> (first | exact h | exact h.same rfl rfl rfl rfl rfl rfl rfl)
  | deliver =>
    simp only [step]
    split
    · exact h
    · split
      · simp only [notified]
        apply h.same <;> (split <;> split <;> rfl)
      · exact h.same rfl rfl rfl rfl rfl rfl rfl
  | death => simp only [step]; split <;> (first | exact lifeInv_try h | exact h)
  | call =>
    simp only [step]
    split
    · exact h
    · exact lifeInv_try (h.same rfl rfl rfl rfl rfl rfl rfl)
  | timer =>
    simp only [step]
    split
    · exact h
    · exact lifeInv_try (h.same rfl rfl rfl rfl rfl rfl rfl)

theorem lifeInv_run (evs : List Ev) : ∀ s, LifeInv s → LifeInv (run s evs) := by
  induction evs with
  | nil => exact fun s h => h
  | cons e evs ih => exact fun s h => ih _ (lifeInv_step h e)

/-! ### C83 -/

/-- C83: whatever happens in whatever order, the processes are reported in the order in which they were started, each of them exactly
once (the last one may still be running), after it has ended and with its own exit code. -/
theorem C83_finished_once (evs : List Ev) :
    (run {} evs).finished.map (·.1) =
        List.range' 1 (if (run {} evs).running then (run {} evs).gen - 1 else (run {} evs).gen) ∧
      ∀ g c, (g, c) ∈ (run {} evs).finished → (run {} evs).ended g = some c :=
  have h := lifeInv_run evs {} lifeInv_init
  ⟨h.order, fun g c hm => (h.codes g c hm).1⟩

/-- C83: a process that has ended is reported as soon as the main thread notices; no order of events gets in the way of that. The exit code
259 is the exception (`C83_still_active_refuted`). -/
theorem C83_noticed (evs : List Ev) (c : Int) (hr : (run {} evs).running = true)
    (he : (run {} evs).ended (run {} evs).gen = some c) (hc : c ≠ 259) :
    (step (run {} evs) .death).running = false ∧
      (step (run {} evs) .death).finished = (run {} evs).finished ++ [((run {} evs).gen, c)] := by
  have h := lifeInv_run evs {} lifeInv_init
  generalize run {} evs = s at *
  have hn : step s .death = onProcessFinished s c := by
    simp only [step, h.enabled, hr, he, Option.isSome_some, Bool.and_self, if_true]
    rw [life_try h]
    simp only [hr, he]
    exact if_neg hc
  rw [hn]
  simp only [onProcessFinished, hr, if_true, and_self]

/-- Two processes, one of them notified late and asked for twice. -/
example : let evs := [Ev.start, .hangup .out, .broken .out, .exit 3, .deliver, .call, .start, .death, .timer, .exit 0, .death]
    (run {} evs).finished = [(1, 3), (2, 0)] ∧ (run {} evs).running = false := by decide +kernel

/-- The theorem applies to the second process while it runs. -/
example : let s := run {} [Ev.start, .exit 3, .death, .start, .hangup .out, .exit 7, .call]
    (step s .death).running = false ∧ (step s .death).finished = s.finished ++ [(s.gen, 7)] :=
  C83_noticed _ 7 (by decide +kernel) (by decide +kernel) (by decide)

/-- An exit code of 259 is never reported, whatever happens afterwards. -/
theorem C83_still_active_refuted (evs : List Ev) : (run (run {} [.start, .exit 259]) evs).finished = [] := by
  suffices h : ∀ s, LifeInv s → s.running = true → s.ended s.gen = some 259 → s.finished = [] →
      (run s evs).finished = [] from
    h _ (lifeInv_run _ _ lifeInv_init) rfl (by decide +kernel) rfl
  induction evs with
  | nil => exact fun s _ _ _ h => h
  | cons e evs ih =>
    intro s hi hr he hf
    have ht : ∀ t : St, LifeInv t → t.running = true → t.ended t.gen = some 259 →
        tryToRetrieveExitCode t = { t with timers := t.timers + 1 } := by
      intro t hi hr he
      rw [life_try hi]
      simp only [hr, he]
      rfl
    obtain ⟨a, b, c⟩ : (step s e).running = true ∧ (step s e).ended (step s e).gen = some 259 ∧ (step s e).finished = [] := by
      cases e
      case call =>
        have := ht { s with calls := s.calls - 1 } (hi.same rfl rfl rfl rfl rfl rfl rfl) hr he
        simp only [step]
        split
        · exact ⟨hr, he, hf⟩
        · rw [this]; exact ⟨hr, he, hf⟩
      case timer =>
        have := ht { s with timers := s.timers - 1 } (hi.same rfl rfl rfl rfl rfl rfl rfl) hr he
        simp only [step]
        split
        · exact ⟨hr, he, hf⟩
        · rw [this]; exact ⟨hr, he, hf⟩
      case death =>
        simp only [step]
        split
        · rw [ht _ hi hr he]; exact ⟨hr, he, hf⟩
        · exact ⟨hr, he, hf⟩
      case deliver =>
        simp only [step, notified]
        (repeat' split) <;> exact ⟨hr, he, hf⟩
      all_goals
        simp only [step, hr, he, Option.isNone_some, Bool.and_false, if_true]
        (repeat' split) <;> first | exact ⟨hr, he, hf⟩ | simp_all
    exact ih _ (lifeInv_step hi e) a b c

/-- jom goes on polling when there is nothing left to wait for: both ends of pipes ask for the exit code of a process that has been
reported already; the timers they start renew themselves for ever. -/
theorem C83_polling_refuted (n : Nat) :
    let evs := [Ev.start, .hangup .out, .hangup .err, .broken .out, .broken .err, .exit 0, .deliver, .deliver, .death, .call, .call]
    (run (run {} evs) (List.replicate n .timer)).timers = 2 ∧ (run {} evs).running = false := by
  intro evs
  refine ⟨?_, by decide +kernel⟩
  suffices h : ∀ s : St, LifeInv s → s.running = false → s.timers = 2 → (run s (List.replicate n .timer)).timers = 2 from
    h _ (lifeInv_run _ _ lifeInv_init) (by decide +kernel) (by decide +kernel)
  induction n with
  | zero => exact fun s _ _ h => h
  | succ n ih =>
    intro s hi hr ht
    have hs : step s .timer = { s with timers := s.timers - 1 + 1 } := by
      have h := life_try (s := { s with timers := s.timers - 1 }) (hi.same rfl rfl rfl rfl rfl rfl rfl)
      simp only [hr] at h
      simp only [step, ht, hr] at h ⊢
      exact h
    refine ih (step s .timer) (lifeInv_step hi _) ?_ ?_
    · rw [hs]; exact hr
    · rw [hs]; simp [ht]

/-! ### C84 -/

/-- The packets with data of a channel. -/
def dataOf (port : List Packet) (ch : Chan) : List Packet := port.filter fun p => p.ch = ch && p.ok

/-- What the packets in the port stand for. -/
def pendingOf (s : St) (ch : Chan) : Str := (dataOf s.port ch).flatMap fun p => (s.buf ch).take p.n

/-- No output of an earlier process waits in the port when a process is started. Reads that have been aborted may wait. -/
def Drained : St → List Ev → Prop
  | _, [] => True
  | s, e :: es => (e = .start ∨ e = .startFails → ∀ p ∈ s.port, p.n = 0) ∧ Drained (step s e) es

/-- What holds about the output. -/
structure OutInv (s : St) : Prop where
  pk : ∀ p ∈ s.port, p.n = 0 ↔ p.ok = false
  pre : ∀ g ch, s.got g ch <+: s.wrote g ch
  fresh : ∀ g ch, s.gen < g → s.wrote g ch = []
  idle : s.running = false → ∀ ch, s.pipe ch = []
  reg : s.running = true → s.registered = true
  off : s.registered = false → ∀ ch, s.reads ch = 0
  one : s.registered = true → ∀ ch, s.reads ch + (dataOf s.port ch).length ≤ 1
  all : s.running = true → ∀ ch, s.wrote s.gen ch = s.got s.gen ch ++ pendingOf s ch ++ s.pipe ch
  busy : s.running = true → ∀ ch, s.isOpen ch = true ∨ s.pipe ch ≠ [] → s.reads ch + (dataOf s.port ch).length = 1
  none : s.registered = true → s.running = false → ∀ ch, dataOf s.port ch = []

theorem outInv_init : OutInv {} := by
  constructor <;> simp [dataOf]

theorem OutInv.same {s : St} (h : OutInv s) {t : St} (a : t.port = s.port) (b : t.got = s.got) (c : t.wrote = s.wrote)
    (d : t.gen = s.gen) (e : t.running = s.running) (f : t.pipe = s.pipe) (g : t.registered = s.registered)
    (i : t.reads = s.reads) (j : t.buf = s.buf) (k : t.isOpen = s.isOpen) : OutInv t := by
  obtain ⟨h1, h2, h3, h4, h5, h6, h7, h8, h9, h10⟩ := h
  constructor
  · rw [a]; exact h1
  · rw [b, c]; exact h2
  · rw [c, d]; exact h3
  · rw [e, f]; exact h4
  · rw [e, g]; exact h5
  · rw [g, i]; exact h6
  · rw [g, i, a]; exact h7
  · unfold pendingOf; rw [e, c, d, b, a, j, f]; exact h8
  · rw [e, k, f, i, a]; exact h9
  · rw [g, e, a]; exact h10

theorem dataOf_nil_of {port : List Packet} (h : ∀ p ∈ port, p.n = 0) (hk : ∀ p ∈ port, p.n = 0 ↔ p.ok = false) (ch : Chan) :
    dataOf port ch = [] := by
  simp only [dataOf, List.filter_eq_nil_iff]
  intro p hp
  simp [(hk p hp).mp (h p hp)]

theorem dataOf_append (a b : List Packet) (ch : Chan) : dataOf (a ++ b) ch = dataOf a ch ++ dataOf b ch := List.filter_append ..

theorem outInv_finished {s : St} (h : OutInv s) (hr : s.running = true) (c : Int) : OutInv (onProcessFinished s c) := by
  obtain ⟨h1, h2, h3, h4, h5, h6, h7, h8, h9, h10⟩ := h
  simp only [onProcessFinished, hr, if_true]
  refine ⟨?_, h2, h3, fun _ _ => rfl, by simp, fun _ _ => rfl, by simp, by simp, by simp, by simp⟩
  intro p hp
  simp only [List.mem_append, List.mem_replicate] at hp
  rcases hp with (hp | hp) | hp
  · exact h1 p hp
  · simp [hp.2]
  · simp [hp.2]

theorem outInv_try {s : St} (hl : LifeInv s) (h : OutInv s) : OutInv (tryToRetrieveExitCode s) := by
  rw [life_try hl]
  split
  · split
    · exact h.same rfl rfl rfl rfl rfl rfl rfl rfl rfl rfl
    · exact outInv_finished h (by assumption) _
  · exact h.same rfl rfl rfl rfl rfl rfl rfl rfl rfl rfl

theorem outInv_deliver {s : St} (h : OutInv s) : OutInv (step s .deliver) := by
  have hs := h
  obtain ⟨h1, h2, h3, h4, h5, h6, h7, h8, h9, h10⟩ := h
  simp only [step]
  split
  · exact hs
  · rename_i p ps hp
    have hk : p.n = 0 ↔ p.ok = false := h1 p (by simp [hp])
    have hps : ∀ q ∈ ps, q.n = 0 ↔ q.ok = false := fun q hq => h1 q (by simp [hp, hq])
    have hd : ∀ ch, dataOf s.port ch = if p.ch = ch ∧ p.ok = true then p :: dataOf ps ch else dataOf ps ch := by
      intro ch
      simp only [dataOf, hp, List.filter_cons]
      simp
    cases hg : s.registered
    · simp only [Bool.false_eq_true, if_false]
      have hr : s.running = false := by
        cases hr : s.running
        · rfl
        · exact absurd (h5 hr) (by simp [hg])
      exact ⟨hps, h2, h3, h4, by simp [hr], fun _ => h6 hg, by simp, by simp [hr], by simp [hr], by simp⟩
    · simp only [if_true]
      cases hok : p.ok
      · have hn : p.n = 0 := hk.mpr hok
        have hd' : ∀ ch, dataOf s.port ch = dataOf ps ch := by intro ch; rw [hd]; simp [hok]
        simp only [notified, hn, hok, if_true, Bool.false_and, Bool.false_eq_true, if_false]
        refine ⟨hps, h2, h3, h4, fun _ => rfl, by simp, ?_, ?_, ?_, ?_⟩
        · intro _ ch; rw [← hd']; exact h7 hg ch
        · intro hr ch
          simp only [pendingOf] at h8 ⊢
          rw [← hd']; exact h8 hr ch
        · intro hr ch; rw [← hd']; exact h9 hr ch
        · intro _ hr ch; rw [← hd']; exact h10 hg hr ch
      · have hn : p.n ≠ 0 := by rw [Ne, hk]; simp [hok]
        have hr : s.running = true := by
          cases hr : s.running
          · have := h10 hg hr p.ch
            rw [hd] at this
            simp [hok] at this
          · rfl
        have hone := h7 hg p.ch
        rw [hd] at hone
        simp only [hok, and_self, if_true, List.length_cons] at hone
        have hr0 : s.reads p.ch = 0 := by omega
        have hd0 : dataOf ps p.ch = [] := List.eq_nil_of_length_eq_zero (by omega)
        have hall := h8 hr p.ch
        simp only [pendingOf, hd, hok, and_self, if_true, hd0, List.flatMap_cons, List.flatMap_nil, List.append_nil] at hall
        have hdo : ∀ ch, ch ≠ p.ch → dataOf s.port ch = dataOf ps ch := by
          intro ch hc; rw [hd]; simp [Ne.symm hc]
        have hgot : ∀ g ch, (upd s.got s.gen (upd (s.got s.gen) p.ch (s.got s.gen p.ch ++ (s.buf p.ch).take p.n))) g ch =
            if g = s.gen ∧ ch = p.ch then s.got s.gen p.ch ++ (s.buf p.ch).take p.n else s.got g ch := by
          intro g ch
          by_cases a : g = s.gen <;> by_cases b : ch = p.ch <;> simp [upd, a, b]
        have hpre : ∀ g ch, (upd s.got s.gen (upd (s.got s.gen) p.ch (s.got s.gen p.ch ++ (s.buf p.ch).take p.n))) g ch <+:
            s.wrote g ch := by
          intro g ch
          rw [hgot]
          split
          · rename_i hc
            rw [hc.1, hc.2, hall]
            exact List.prefix_append _ _
          · exact h2 g ch
        have hall' : ∀ ch, s.wrote s.gen ch =
            (upd s.got s.gen (upd (s.got s.gen) p.ch (s.got s.gen p.ch ++ (s.buf p.ch).take p.n))) s.gen ch ++
              ((dataOf ps ch).flatMap fun p => (s.buf ch).take p.n) ++ s.pipe ch := by
          intro ch
          rw [hgot]
          by_cases hc : ch = p.ch
          · rw [hc, hd0, hall]; simp
          · rw [← hdo ch hc]
            simp only [hc, and_false, if_false]
            exact h8 hr ch
        simp only [notified, hn, hok, if_false, Bool.true_and]
        split
        · rename_i hopen
          refine ⟨hps, hpre, h3, h4, fun _ => rfl, by simp, ?_, fun _ => hall', ?_, by simp [hr]⟩
          · intro _ ch
            by_cases hc : ch = p.ch
            · simp [upd, hc, hr0, hd0]
            · simp only [upd, hc, if_false]; rw [← hdo ch hc]; exact h7 hg ch
          · intro _ ch ho
            by_cases hc : ch = p.ch
            · simp [upd, hc, hr0, hd0]
            · simp only [upd, hc, if_false]; rw [← hdo ch hc]; exact h9 hr ch ho
        · rename_i hopen
          refine ⟨hps, hpre, h3, h4, fun _ => rfl, by simp, ?_, fun _ => hall', ?_, by simp [hr]⟩
          · intro _ ch
            by_cases hc : ch = p.ch
            · simp [hc, hr0, hd0]
            · simp only []; rw [← hdo ch hc]; exact h7 hg ch
          · intro _ ch ho
            by_cases hc : ch = p.ch
            · subst hc
              simp at hopen
              simp [hopen] at ho
            · simp only []; rw [← hdo ch hc]; exact h9 hr ch ho

theorem outInv_step {s : St} (hl : LifeInv s) (h : OutInv s) (e : Ev) (hd : e = .start ∨ e = .startFails → ∀ p ∈ s.port, p.n = 0) :
    OutInv (step s e) := by
  have hs := h
  obtain ⟨h1, h2, h3, h4, h5, h6, h7, h8, h9, h10⟩ := h
  cases e with
  | start =>
    simp only [step]
    split
    · exact hs
    · have hnil := dataOf_nil_of (hd (.inl rfl)) h1
      refine ⟨h1, h2, fun g ch hg => h3 g ch (by simp only [start] at hg; omega), by simp [start], fun _ => rfl, by simp [start], ?_, ?_,
        ?_, by simp [start]⟩
      · intro _ ch; simp [start, hnil]
      · intro _ ch
        have hw := h3 (s.gen + 1) ch (by omega)
        have hg : s.got (s.gen + 1) ch = [] := by
          have := h2 (s.gen + 1) ch
          rw [hw] at this
          exact List.prefix_nil.mp this
        simp [start, pendingOf, hnil, hw, hg]
      · intro _ ch _; simp [start, hnil]
  | startFails =>
    simp only [step]
    split
    · exact hs
    · rename_i hr
      have hnil := dataOf_nil_of (hd (.inr rfl)) h1
      exact ⟨h1, h2, h3, fun _ _ => rfl, fun _ => rfl, by simp [startFails], fun _ ch => by simp [startFails, hnil],
        by simp [startFails, hr], by simp [startFails, hr], fun _ _ => hnil⟩
  | write ch t =>
    simp only [step]
    split
    · rename_i hc
      simp only [Bool.and_eq_true] at hc
      obtain ⟨hr, ho⟩ := hc
      have hw : ∀ g c, (upd s.wrote s.gen (upd (s.wrote s.gen) ch (s.wrote s.gen ch ++ t))) g c =
          if g = s.gen ∧ c = ch then s.wrote s.gen ch ++ t else s.wrote g c := by
        intro g c
        by_cases a : g = s.gen <;> by_cases b : c = ch <;> simp [upd, a, b]
      refine ⟨h1, ?_, ?_, by simp [hr], h5, h6, h7, ?_, ?_, h10⟩
      · intro g c
        simp only [hw]
        split
        · rename_i hc
          rw [hc.1, hc.2]
          exact (h2 _ _).trans (List.prefix_append _ _)
        · exact h2 g c
      · intro g c hg
        simp only [hw]
        rw [if_neg (by rintro ⟨rfl, _⟩; simp at hg)]
        exact h3 g c hg
      · intro _ c
        simp only [hw, pendingOf] at h8 ⊢
        by_cases hc : c = ch
        · subst hc
          simp [upd, h8 hr c]
        · simp only [hc, and_false, if_false, upd]
          exact h8 hr c
      · intro _ c hc
        by_cases hcc : c = ch
        · subst hcc; exact h9 hr c (.inl ho)
        · simp only [upd, hcc, if_false] at hc
          exact h9 hr c hc
    · exact hs
  | hangup ch =>
    simp only [step]
    split
    · refine ⟨h1, h2, h3, h4, h5, h6, h7, h8, ?_, h10⟩
      intro hr c hc
      by_cases hcc : c = ch
      · subst hcc
        simp only [upd, if_true, Bool.false_eq_true, false_or] at hc
        exact h9 hr c (.inr hc)
      · simp only [upd, hcc, if_false] at hc
        exact h9 hr c hc
    · exact hs
  | exit c => simp only [step]; split <;> (first | exact hs | exact hs.same rfl rfl rfl rfl rfl rfl rfl rfl rfl rfl)
  | complete ch n =>
    simp only [step]
    split
    · exact hs
    · rename_i hc
      simp only [not_or, Nat.not_lt] at hc
      obtain ⟨hr0, hn, hlen⟩ := hc
      have hg : s.registered = true := by
        cases hg : s.registered
        · exact absurd (h6 hg ch) hr0
        · rfl
      have hone := h7 hg ch
      have hr1 : s.reads ch = 1 := by omega
      have hd0 : dataOf s.port ch = [] := List.eq_nil_of_length_eq_zero (by omega)
      have hr : s.running = true := by
        cases hr : s.running
        · rw [h4 hr ch] at hlen
          simp at hlen
          exact absurd hlen hn
        · rfl
      have hdo : ∀ c, dataOf (s.port ++ [⟨ch, n, true⟩]) c = if c = ch then [⟨ch, n, true⟩] else dataOf s.port c := by
        intro c
        rw [dataOf_append]
        by_cases hc : c = ch
        · subst hc; rw [hd0]; simp [dataOf]
        · simp [hc, dataOf, Ne.symm hc]
      refine ⟨?_, h2, h3, by simp [hr], h5, by simp [hg], ?_, ?_, ?_, by simp [hr]⟩
      · intro p hp
        simp only [List.mem_append, List.mem_singleton] at hp
        rcases hp with hp | rfl
        · exact h1 p hp
        · simp [hn]
      · intro _ c
        simp only [hdo]
        by_cases hc : c = ch
        · simp [upd, hc, hr1]
        · simp only [upd, hc, if_false]; exact h7 hg c
      · intro _ c
        have h8' := h8 hr c
        simp only [pendingOf, hdo] at h8' ⊢
        by_cases hc : c = ch
        · subst hc
          rw [h8', hd0]
          simp [upd, Nat.min_eq_left hlen]
        · simp only [upd, hc, if_false]
          exact h8'
      · intro _ c hc'
        simp only [hdo]
        by_cases hc : c = ch
        · simp [upd, hc, hr1]
        · simp only [upd, hc, if_false] at hc' ⊢; exact h9 hr c hc'
  | broken ch =>
    simp only [step]
    split
    · exact hs
    · rename_i hc
      simp only [not_or, Classical.not_not] at hc
      obtain ⟨hr0, ho, hp0⟩ := hc
      have hdo : ∀ c, dataOf (s.port ++ [⟨ch, 0, false⟩]) c = dataOf s.port c := by
        intro c
        rw [dataOf_append]
        simp [dataOf]
      refine ⟨?_, h2, h3, h4, h5, ?_, ?_, ?_, ?_, ?_⟩
      · intro p hp
        simp only [List.mem_append, List.mem_singleton] at hp
        rcases hp with hp | rfl
        · exact h1 p hp
        · simp
      · intro hg c
        have := h6 hg c
        have := h6 hg ch
        simp only [upd]
        split <;> omega
      · intro hg c
        have := h7 hg c
        simp only [hdo, upd]
        split
        · rename_i hc; rw [hc] at this ⊢; omega
        · exact this
      · intro hr c
        have := h8 hr c
        simp only [pendingOf, hdo] at this ⊢
        exact this
      · intro hr c hc'
        simp only [hdo]
        by_cases hc : c = ch
        · subst hc
          simp [ho, hp0] at hc'
        · simp only [upd, hc, if_false]; exact h9 hr c hc'
      · intro hg hr c
        simp only [hdo]
        exact h10 hg hr c
  | deliver => exact outInv_deliver hs
  | death => simp only [step]; split <;> (first | exact outInv_try hl hs | exact hs)
  | call =>
    simp only [step]
    split
    · exact hs
    · exact outInv_try (hl.same rfl rfl rfl rfl rfl rfl rfl) (hs.same rfl rfl rfl rfl rfl rfl rfl rfl rfl rfl)
  | timer =>
    simp only [step]
    split
    · exact hs
    · exact outInv_try (hl.same rfl rfl rfl rfl rfl rfl rfl) (hs.same rfl rfl rfl rfl rfl rfl rfl rfl rfl rfl)

theorem outInv_run (evs : List Ev) : ∀ s, LifeInv s → OutInv s → Drained s evs → OutInv (run s evs) := by
  induction evs with
  | nil => exact fun s _ h _ => h
  | cons e evs ih => exact fun s hl h hd => ih _ (lifeInv_step hl e) (outInv_step hl h e hd.1) hd.2

/-- C84 (part): if no output of an earlier process waits in the port whenever a process is started, then what jom takes for the output of a
process is, per channel, what the process has written from the beginning on. Missing: the condition (`C84_stale_refuted`). That the end may be
missing when the process is reported is `C58`. -/
theorem C84_output_partial (evs : List Ev) (hd : Drained {} evs) (g : Nat) (ch : Chan) :
    (run {} evs).got g ch <+: (run {} evs).wrote g ch :=
  (outInv_run evs {} lifeInv_init outInv_init hd).pre g ch

theorem run_append (s : St) (a b : List Ev) : run s (a ++ b) = run (run s a) b := List.foldl_append ..

/-- `deliver` does not touch what the process has written. -/
theorem deliver_frame (s : St) :
    (step s .deliver).running = s.running ∧ (step s .deliver).gen = s.gen ∧ (step s .deliver).wrote = s.wrote ∧
      (step s .deliver).port = s.port.tail := by
  simp only [step, notified]
  split
  · rename_i h; simp [h]
  · rename_i h
    (repeat' split) <;> simp [h]

theorem deliver_all : ∀ (n : Nat) (s : St), LifeInv s → OutInv s → s.port.length = n →
    LifeInv (run s (List.replicate n .deliver)) ∧ OutInv (run s (List.replicate n .deliver)) ∧
      (run s (List.replicate n .deliver)).running = s.running ∧ (run s (List.replicate n .deliver)).gen = s.gen ∧
      (run s (List.replicate n .deliver)).wrote = s.wrote ∧ (run s (List.replicate n .deliver)).port = []
  | 0, s, hl, h, hn => ⟨hl, h, rfl, rfl, rfl, List.eq_nil_of_length_eq_zero hn⟩
  | n + 1, s, hl, h, hn => by
    obtain ⟨a, b, c, d⟩ := deliver_frame s
    have := deliver_all n (step s .deliver) (lifeInv_step hl _) (outInv_deliver h) (by rw [d]; simp [hn])
    rw [a, b, c] at this
    exact this

/-- C84 (part): under the same condition nothing that a running process has written is out of reach: jom only has to go on reading. -/
theorem C84_reading_partial (evs : List Ev) (hd : Drained {} evs) (hr : (run {} evs).running = true) (ch : Chan) :
    ∃ more, (∀ e ∈ more, e = .deliver ∨ ∃ n, e = .complete ch n) ∧
      (run {} (evs ++ more)).running = true ∧ (run {} (evs ++ more)).gen = (run {} evs).gen ∧
      (run {} (evs ++ more)).wrote = (run {} evs).wrote ∧
      (run {} (evs ++ more)).got (run {} evs).gen ch = (run {} evs).wrote (run {} evs).gen ch := by
  have hl := lifeInv_run evs {} lifeInv_init
  have h := outInv_run evs {} lifeInv_init outInv_init hd
  simp only [run_append]
  generalize run {} evs = s at *
  obtain ⟨il, io, a, b, c, d⟩ := deliver_all _ s hl h rfl
  generalize ht : run s (List.replicate s.port.length .deliver) = t at *
  have hmem : ∀ e ∈ List.replicate s.port.length Ev.deliver, e = .deliver ∨ ∃ n, e = .complete ch n :=
    fun e he => .inl (List.mem_replicate.mp he).2
  have htr : t.running = true := by rw [a, hr]
  have hall := io.all htr ch
  simp only [pendingOf, d, dataOf, List.filter_nil, List.flatMap_nil, List.append_nil] at hall
  by_cases hp : t.pipe ch = []
  · refine ⟨_, hmem, ?_⟩
    rw [ht, ← b, ← c]
    refine ⟨htr, rfl, rfl, ?_⟩
    rw [hall, hp, List.append_nil]
  · have hb := io.busy htr ch (.inr hp)
    simp only [d, dataOf, List.filter_nil, List.length_nil, Nat.add_zero] at hb
    have hne : (t.pipe ch).length ≠ 0 := fun h => hp (List.eq_nil_of_length_eq_zero h)
    refine ⟨List.replicate s.port.length .deliver ++ [.complete ch (t.pipe ch).length, .deliver], ?_, ?_⟩
    · intro e he
      simp only [List.mem_append, List.mem_cons, List.not_mem_nil, or_false] at he
      rcases he with he | he | he
      · exact hmem e he
      · exact .inr ⟨_, he⟩
      · exact .inl he
    · rw [run_append, ht, ← b, ← c]
      have hreg := io.reg htr
      simp only [run, List.foldl_cons, List.foldl_nil]
      obtain ⟨e1, e2, e3, e4⟩ := deliver_frame (step t (.complete ch (t.pipe ch).length))
      have hc : step t (.complete ch (t.pipe ch).length) =
          { t with
            reads := upd t.reads ch (t.reads ch - 1)
            buf := upd t.buf ch ((t.pipe ch).take (t.pipe ch).length ++ (t.buf ch).drop (t.pipe ch).length)
            pipe := upd t.pipe ch ((t.pipe ch).drop (t.pipe ch).length)
            port := t.port ++ [⟨ch, (t.pipe ch).length, true⟩] } := by
        simp only [step, hb, hne, Nat.lt_irrefl]
        simp
      refine ⟨by rw [e1, hc]; exact htr, by rw [e2, hc], by rw [e3, hc], ?_⟩
      rw [hc, hall]
      simp only [step, d, List.nil_append, hreg, if_true, notified, hne, if_false]
      split <;> simp [upd]

/-- The condition is met while two processes write, the second one being started when an aborted read of the first one waits. -/
example : let evs := [Ev.start, .write .out c!"ab", .complete .out 2, .deliver, .exit 0, .death, .start, .write .err c!"x", .deliver,
      .deliver, .call, .complete .err 1, .deliver]
    Drained {} evs ∧ (run {} evs).got 1 .out = c!"ab" ∧ (run {} evs).got 2 .err = c!"x" := by
  refine ⟨?_, by decide +kernel, by decide +kernel⟩
  simp only [Drained, reduceCtorEq, or_self, false_implies, true_and, and_true, or_false, true_implies]
  decide +kernel

/-- Without the condition the claim is wrong: output of the first process that waits in the port while the second one is started is taken for
output of the second one; then two reads share a buffer: of what the second process writes, `x` is lost and `y` appears twice. -/
theorem C84_stale_refuted :
    let evs := [Ev.start, .write .out c!"a", .complete .out 1, .exit 0, .death, .start, .deliver, .deliver, .write .out c!"x",
      .complete .out 1, .write .out c!"y", .complete .out 1, .deliver, .deliver]
    (run {} evs).wrote 2 .out = c!"xy" ∧ (run {} evs).got 2 .out = c!"ayy" ∧ (run {} evs).got 1 .out = [] := by
  decide +kernel

end Jom.Props
