/- Invariants of the scheduler: dependency graph, running targets and history. -/
import Verif.Proofs.SchedExec

namespace Jom.Sched

open Jom.Graph Jom.Spec Relation

/-- The event says that `t` needs no further attention in build `b`. -/
def settleKey : Ev → Option (Nat × Nat)
  | .upToDate b t => some (b, t)
  | .noCommands b t => some (b, t)
  | .unbuildable b t => some (b, t)
  | .succeeded b t => some (b, t)
  | .failed b t => some (b, t)
  | .started _ _ => none
  | .exception => none

def startKey : Ev → Option (Nat × Nat)
  | .started b t => some (b, t)
  | _ => none

abbrev St.settled (s : St) : List (Nat × Nat) := s.log.filterMap settleKey

/-- All requested graphs are acyclic. -/
def Ac (cfg : Cfg) : Prop := ∀ b r, cfg.targets[b]? = some r → AcyclicFrom (cfg.deps b) r

/-- The graphs of the first requested targets are acyclic. -/
def AcTo (cfg : Cfg) (n : Nat) : Prop := ∀ b ≤ n, ∀ r, cfg.targets[b]? = some r → AcyclicFrom (cfg.deps b) r

theorem Ac.to {cfg : Cfg} (h : Ac cfg) (n : Nat) : AcTo cfg n := fun b _ r hr => h b r hr

theorem AcTo.mono {cfg : Cfg} {n k : Nat} (h : AcTo cfg n) (hk : k ≤ n) : AcTo cfg k := fun b hb r hr => h b (Nat.le_trans hb hk) r hr

/-- The graph was thrown away by an abort. -/
def Cleared (cfg : Cfg) (s : St) : Prop := s.g.ids = [] ∧ s.aborted = true ∧ cfg.keepGoing = false

/-- Whenever a target was started, everything it depends on had been built, was up to date or has no commands. -/
def OrderOk (cfg : Cfg) (log : List Ev) : Prop :=
  ∀ l1 l2 b t, log = l1 ++ Ev.started b t :: l2 → ∀ y, DependsTrans (cfg.deps b) t y →
    Ev.succeeded b y ∈ l1 ∨ Ev.upToDate b y ∈ l1 ∨ Ev.noCommands b y ∈ l1

/-- No target was started after a failure. -/
def QuietAfterFailure (log : List Ev) : Prop :=
  ∀ l1 l2 b t, log = l1 ++ Ev.failed b t :: l2 → ∀ b' t', Ev.started b' t' ∉ l2

theorem split_append {log evs l1 l2 : List Ev} {x : Ev} (h : log ++ evs = l1 ++ x :: l2) :
    (∃ c, log = l1 ++ x :: c ∧ l2 = c ++ evs) ∨ (∃ a, l1 = log ++ a ∧ evs = a ++ x :: l2) := by
  rcases List.append_eq_append_iff.1 h with ⟨a, h1, h2⟩ | ⟨c, h1, h2⟩
  · exact Or.inr ⟨a, h1, h2⟩
  · cases c with
    | nil => exact Or.inr ⟨[], by simpa using h1.symm, by simpa using h2.symm⟩
    | cons y c =>
      simp only [List.cons_append, List.cons.injEq] at h2
      obtain ⟨rfl, h2⟩ := h2
      exact Or.inl ⟨c, h1, h2⟩

theorem OrderOk.append {cfg log evs} (h : OrderOk cfg log) (he : ∀ b t, Ev.started b t ∉ evs) :
    OrderOk cfg (log ++ evs) := by
  intro l1 l2 b t hl y hy
  rcases split_append hl with ⟨c, h1, _⟩ | ⟨a, _, h2⟩
  · exact h l1 c b t h1 y hy
  · exact absurd (by rw [h2]; simp) (he b t)

theorem OrderOk.start {cfg log b t} (h : OrderOk cfg log)
    (ht : ∀ y, DependsTrans (cfg.deps b) t y →
      Ev.succeeded b y ∈ log ∨ Ev.upToDate b y ∈ log ∨ Ev.noCommands b y ∈ log) :
    OrderOk cfg (log ++ [Ev.started b t]) := by
  intro l1 l2 b' t' hl y hy
  rcases split_append hl with ⟨c, h1, _⟩ | ⟨a, h1, h2⟩
  · exact h l1 c b' t' h1 y hy
  · cases a with
    | nil =>
      simp only [List.nil_append, List.cons.injEq, Ev.started.injEq] at h2
      obtain ⟨⟨rfl, rfl⟩, _⟩ := h2
      rw [List.append_nil] at h1
      subst h1
      exact ht y hy
    | cons z a => simp at h2

theorem QuietAfterFailure.append {log evs} (h : QuietAfterFailure log) (he : ∀ b t, Ev.started b t ∉ evs) :
    QuietAfterFailure (log ++ evs) := by
  intro l1 l2 b t hl b' t'
  rcases split_append hl with ⟨c, h1, h2⟩ | ⟨a, _, h2⟩
  · rw [h2, List.mem_append, not_or]
    exact ⟨h l1 c b t h1 b' t', he b' t'⟩
  · intro hm
    exact he b' t' (by rw [h2]; simp [hm])

theorem QuietAfterFailure.noFail {log} (h : ∀ b t, Ev.failed b t ∉ log) : QuietAfterFailure log := by
  intro l1 l2 b t hl
  exact absurd (by rw [hl]; simp) (h b t)

structure LogInv (cfg : Cfg) (s : St) : Prop where
  ginv : GInv (cfg.deps s.build) cfg.targets[s.build]? s.g
  busyOk : Cleared cfg s ∨ ∀ p ∈ s.busy, p.2 ∈ s.g.ids ∧ s.g.state p.2 = .executing
  busyNodup : (s.busy.map (·.2)).Nodup
  execLeaf : ∀ x ∈ s.g.ids, s.g.state x = .executing → s.g.children x = []
  exec : s.aborted = false → ∀ x ∈ s.g.ids, s.g.state x = .executing → x ∈ s.busy.map (·.2) ∨ s.next = some x
  nextOk : s.aborted = false → ∀ t, s.next = some t →
    t ∈ s.g.ids ∧ s.g.state t = .executing ∧ t ∉ s.busy.map (·.2)
  unb : ∀ p ∈ s.g.ids, s.g.state p = .unbuildable →
    ∃ z, Ev.failed s.build z ∈ s.log ∧ DependsTrans (cfg.deps s.build) p z
  failK : AcTo cfg s.build → cfg.keepGoing = true → ∀ z, Ev.failed s.build z ∈ s.log →
    ∀ p ∈ s.g.ids, DependsTrans (cfg.deps s.build) p z → s.g.state p = .unbuildable
  failAb : cfg.keepGoing = false → ∀ b z, Ev.failed b z ∈ s.log → s.aborted = true
  allOk : s.allOk = false ↔ ∃ b z, Ev.failed b z ∈ s.log
  logS : ∀ k ∈ s.settled, k.1 ≤ s.build
  logT : ∀ b t, Ev.started b t ∈ s.log → b ≤ s.build
  notSettled : ∀ x ∈ s.g.ids, (s.build, x) ∉ s.settled
  busyUnset : ∀ p ∈ s.busy, (s.build, p.2) ∉ s.settled
  reachSettled : Cleared cfg s ∨ s.dead = true ∨ ∀ r, cfg.targets[s.build]? = some r →
    ∀ x, Reaches (cfg.deps s.build) r x → x ∈ s.g.ids ∨ (s.build, x) ∈ s.settled
  startBusy : ∀ x, Ev.started s.build x ∈ s.log → x ∈ s.busy.map (·.2) ∨ (s.build, x) ∈ s.settled
  busyStart : ∀ p ∈ s.busy, Ev.started s.build p.2 ∈ s.log
  settleOnce : s.settled.Nodup
  startOnce : (s.log.filterMap startKey).Nodup
  past : AcTo cfg s.build → ∀ b < s.build, ∀ r, cfg.targets[b]? = some r → ∀ x, Reaches (cfg.deps b) r x → (b, x) ∈ s.settled
  unbLog : ∀ b x, Ev.unbuildable b x ∈ s.log → ∃ z, Ev.failed b z ∈ s.log ∧ DependsTrans (cfg.deps b) x z
  ran : ∀ b x, Ev.succeeded b x ∈ s.log ∨ Ev.failed b x ∈ s.log → Ev.started b x ∈ s.log
  notRan : ∀ b x, Ev.started b x ∈ s.log →
    Ev.upToDate b x ∉ s.log ∧ Ev.noCommands b x ∉ s.log ∧ Ev.unbuildable b x ∉ s.log
  order : (cfg.keepGoing = true → AcTo cfg s.build) → OrderOk cfg s.log
  quiet : cfg.keepGoing = false → QuietAfterFailure s.log
  pend : s.aborted = false → s.pending = cfg.targets.drop (s.build + 1)
  startReach : ∀ b t, Ev.started b t ∈ s.log → ∃ r, cfg.targets[b]? = some r ∧ Reaches (cfg.deps b) r t

theorem mem_settled {log : List Ev} {b t : Nat} : (b, t) ∈ log.filterMap settleKey ↔
    Ev.upToDate b t ∈ log ∨ Ev.noCommands b t ∈ log ∨ Ev.unbuildable b t ∈ log ∨ Ev.succeeded b t ∈ log ∨
      Ev.failed b t ∈ log := by
  rw [List.mem_filterMap]
  constructor
  · rintro ⟨e, he, hk⟩
    cases e <;> simp only [settleKey, Option.some.injEq, Prod.mk.injEq, reduceCtorEq] at hk <;>
      obtain ⟨rfl, rfl⟩ := hk <;> simp [he]
  · rintro (h | h | h | h | h) <;> exact ⟨_, h, rfl⟩

/-- Fields that the invariant does not look at. -/
theorem LogInv.congr {cfg s s'} (h : LogInv cfg s) (h1 : s'.build = s.build) (h2 : s'.g = s.g)
    (h3 : s'.busy = s.busy) (h4 : s'.aborted = false → s.aborted = false) (h4' : s.aborted = true → s'.aborted = true)
    (h5 : s'.next = s.next) (h6 : s'.log = s.log) (h7 : s'.allOk = s.allOk) (h8 : s'.dead = s.dead)
    (h9 : s'.aborted = false → s'.pending = s.pending) : LogInv cfg s' := by
  have hcl : Cleared cfg s → Cleared cfg s' := by
    rintro ⟨a, b, c⟩
    exact ⟨by rw [h2]; exact a, h4' b, c⟩
  constructor
  · rw [h1, h2]; exact h.ginv
  · rw [h2, h3]; exact h.busyOk.imp hcl id
  · rw [h3]; exact h.busyNodup
  · rw [h2]; exact h.execLeaf
  · rw [h2, h3, h5]; exact fun x => h.exec (h4 x)
  · rw [h2, h3, h5]; exact fun x => h.nextOk (h4 x)
  · rw [h1, h2, h6]; exact h.unb
  · rw [h1, h2, h6]; exact h.failK
  · rw [h6]; exact fun a b c d => h4' (h.failAb a b c d)
  · rw [h6, h7]; exact h.allOk
  · rw [St.settled, h6, h1]; exact h.logS
  · rw [h6, h1]; exact h.logT
  · rw [St.settled, h6, h1, h2]; exact h.notSettled
  · rw [St.settled, h6, h1, h3]; exact h.busyUnset
  · rw [St.settled, h6, h1, h2, h8]; exact h.reachSettled.imp hcl id
  · rw [St.settled, h6, h1, h3]; exact h.startBusy
  · rw [h1, h3, h6]; exact h.busyStart
  · rw [St.settled, h6]; exact h.settleOnce
  · rw [h6]; exact h.startOnce
  · rw [St.settled, h6, h1]; exact h.past
  · rw [h6]; exact h.unbLog
  · rw [h6]; exact h.ran
  · rw [h6]; exact h.notRan
  · rw [h6, h1]; exact h.order
  · rw [h6]; exact h.quiet
  · intro x
    rw [h9 x, h1]; exact h.pend (h4 x)
  · rw [h6]; exact h.startReach

/-- An exception ends the build. -/
theorem LogInv.exc {cfg s s'} (h : LogInv cfg s) (h1 : s'.build = s.build) (h2 : s'.g = s.g)
    (h3 : s'.busy = s.busy) (h4 : s'.aborted = true) (h5 : s'.log = s.log ++ [Ev.exception])
    (h7 : s'.allOk = s.allOk) (h8 : s'.dead = s.dead) : LogInv cfg s' := by
  have hcl : Cleared cfg s → Cleared cfg s' := by
    rintro ⟨a, b, c⟩
    exact ⟨by rw [h2]; exact a, h4, c⟩
  have hset : s'.settled = s.settled := by
    rw [St.settled, h5]; simp [settleKey]
  have hkey : s'.log.filterMap startKey = s.log.filterMap startKey := by
    rw [h5]; simp [startKey]
  have hm : ∀ e, e ≠ Ev.exception → (e ∈ s'.log ↔ e ∈ s.log) := by
    intro e he
    rw [h5, List.mem_append, List.mem_singleton]
    exact ⟨fun h => h.resolve_right he, Or.inl⟩
  have hf : ∀ b z, Ev.failed b z ∈ s'.log ↔ Ev.failed b z ∈ s.log := fun b z => hm _ (by simp)
  have hs : ∀ b z, Ev.started b z ∈ s'.log ↔ Ev.started b z ∈ s.log := fun b z => hm _ (by simp)
  have hx : ∀ b t, Ev.started b t ∉ [Ev.exception] := by simp
  constructor
  · rw [h1, h2]; exact h.ginv
  · rw [h2, h3]; exact h.busyOk.imp hcl id
  · rw [h3]; exact h.busyNodup
  · rw [h2]; exact h.execLeaf
  · rw [h4]; intro hh; cases hh
  · rw [h4]; intro hh; cases hh
  · simp only [h1, h2, hf]; exact h.unb
  · simp only [h1, h2, hf]; exact h.failK
  · intro _ _ _ _; exact h4
  · simp only [hf, h7]; exact h.allOk
  · rw [hset, h1]; exact h.logS
  · simp only [hs, h1]; exact h.logT
  · rw [hset, h1, h2]; exact h.notSettled
  · rw [hset, h1, h3]; exact h.busyUnset
  · rw [hset, h1, h2, h8]; exact h.reachSettled.imp hcl id
  · simp only [hset, hs, h1, h3]; exact h.startBusy
  · simp only [h1, h3, hs]; exact h.busyStart
  · rw [hset]; exact h.settleOnce
  · rw [hkey]; exact h.startOnce
  · rw [hset, h1]; exact h.past
  · intro b x hb
    obtain ⟨z, hz, hd⟩ := h.unbLog b x ((hm _ (by simp)).1 hb)
    exact ⟨z, (hf _ _).2 hz, hd⟩
  · intro b x
    rw [hm _ (by simp), hf, hs]
    exact h.ran b x
  · intro b x
    rw [hs, hm _ (by simp), hm _ (by simp), hm _ (by simp)]
    exact h.notRan b x
  · intro hk; rw [h1] at hk; rw [h5]; exact (h.order hk).append hx
  · intro hk; rw [h5]; exact (h.quiet hk).append hx
  · rw [h4]; intro hh; cases hh
  · simp only [hs]; exact h.startReach

/-- Nodes that are not executing leave the graph with a matching event. -/
theorem LogInv.settle {cfg s} {g' : Graph} {gone : List Nat} (ev : Nat → Ev) (h : LogInv cfg s) (hab : s.aborted = false)
    (hn : s.next = none) (hinv : GInv (cfg.deps s.build) cfg.targets[s.build]? g')
    (hids : g'.ids = s.g.ids.filter (· ∉ gone)) (hst : ∀ x ∈ g'.ids, g'.state x = s.g.state x)
    (hnd : gone.Nodup) (hmem : ∀ x ∈ gone, x ∈ s.g.ids ∧ s.g.state x ≠ .executing)
    (hev : (∀ x, ev x = .upToDate s.build x) ∨ (∀ x, ev x = .noCommands s.build x) ∨
      ((∀ x, ev x = .unbuildable s.build x) ∧ ∀ x ∈ gone, s.g.state x = .unbuildable)) :
    LogInv cfg { s with g := g', next := none, log := s.log ++ gone.map ev } := by
  have hncl : ¬ Cleared cfg s := by rintro ⟨_, b, _⟩; rw [hab] at b; cases b
  have hbusy := h.busyOk.resolve_left hncl
  have hsub : ∀ x ∈ g'.ids, x ∈ s.g.ids ∧ x ∉ gone := by
    intro x hx; rw [hids] at hx; simpa using hx
  have hsup : ∀ x ∈ s.g.ids, x ∉ gone → x ∈ g'.ids := by
    intro x hx hg; rw [hids]; simp [hx, hg]
  have hset : (s.log ++ gone.map ev).filterMap settleKey = s.settled ++ gone.map (s.build, ·) := by
    rw [List.filterMap_append, List.filterMap_map]
    congr 1
    have : (settleKey ∘ ev) = fun x => some (s.build, x) := by
      funext x
      rcases hev with he | he | ⟨he, _⟩ <;> simp [he, settleKey]
    rw [this]
    exact congrFun List.filterMap_eq_map gone
  have hkey : (s.log ++ gone.map ev).filterMap startKey = s.log.filterMap startKey := by
    rw [List.filterMap_append, List.filterMap_map]
    have : (startKey ∘ ev) = fun _ => none := by
      funext x
      rcases hev with he | he | ⟨he, _⟩ <;> simp [he, startKey]
    rw [this]
    simp
  have hfail : ∀ b z, Ev.failed b z ∈ s.log ++ gone.map ev ↔ Ev.failed b z ∈ s.log := by
    intro b z
    rw [List.mem_append]
    refine ⟨fun h => h.resolve_right ?_, Or.inl⟩
    rw [List.mem_map]
    rintro ⟨x, _, hx⟩
    rcases hev with he | he | ⟨he, _⟩ <;> rw [he] at hx <;> cases hx
  have hsucc : ∀ b z, Ev.succeeded b z ∈ s.log ++ gone.map ev ↔ Ev.succeeded b z ∈ s.log := by
    intro b z
    rw [List.mem_append]
    refine ⟨fun h => h.resolve_right ?_, Or.inl⟩
    rw [List.mem_map]
    rintro ⟨x, _, hx⟩
    rcases hev with he | he | ⟨he, _⟩ <;> rw [he] at hx <;> cases hx
  have hno : ∀ b t, Ev.started b t ∉ gone.map ev := by
    intro b z
    rw [List.mem_map]
    rintro ⟨x, _, hx⟩
    rcases hev with he | he | ⟨he, _⟩ <;> rw [he] at hx <;> cases hx
  have hstart : ∀ b z, Ev.started b z ∈ s.log ++ gone.map ev ↔ Ev.started b z ∈ s.log := by
    intro b z
    rw [List.mem_append]
    exact ⟨fun h => h.resolve_right (hno b z), Or.inl⟩
  have hgb : ∀ x ∈ gone, x ∉ s.busy.map (·.2) := by
    intro x hx hb
    obtain ⟨p, hp, rfl⟩ := List.mem_map.1 hb
    exact (hmem _ hx).2 (hbusy p hp).2
  have hns : ∀ x ∈ gone, Ev.started s.build x ∉ s.log := by
    intro x hx hs
    rcases h.startBusy x hs with h1 | h1
    · exact hgb x hx h1
    · exact h.notSettled x (hmem x hx).1 h1
  have hch : ∀ x ∈ g'.ids, s.g.children x = [] → g'.children x = [] := by
    intro x hx hc
    apply List.eq_nil_iff_forall_not_mem.2
    intro c hc'
    obtain ⟨h1, h2⟩ := (hinv.ch x hx c).1 hc'
    have := (h.ginv.ch x (hsub x hx).1 c).2 ⟨h1, (hsub c h2).1⟩
    rw [hc] at this
    cases this
  constructor
  · exact hinv
  · right
    intro p hp
    have hp1 := hbusy p hp
    have : p.2 ∈ g'.ids := hsup _ hp1.1 (fun hg => hgb _ hg (List.mem_map_of_mem hp))
    exact ⟨this, by rw [hst _ this]; exact hp1.2⟩
  · exact h.busyNodup
  · intro x hx hs
    exact hch x hx (h.execLeaf x (hsub x hx).1 (by rw [← hst x hx]; exact hs))
  · intro _ x hx hs
    have := h.exec hab x (hsub x hx).1 (by rw [← hst x hx]; exact hs)
    rw [hn] at this
    exact this
  · intro _ t ht; cases ht
  · intro p hp hs
    obtain ⟨z, hz, hd⟩ := h.unb p (hsub p hp).1 (by rw [← hst p hp]; exact hs)
    exact ⟨z, (hfail _ _).2 hz, hd⟩
  · intro hac hk z hz p hp hd
    rw [hst p hp]
    exact h.failK hac hk z ((hfail _ _).1 hz) p (hsub p hp).1 hd
  · intro hk b z hz
    exact h.failAb hk b z ((hfail _ _).1 hz)
  · simp only [hfail]
    exact h.allOk
  · intro k hk
    rw [St.settled, hset, List.mem_append] at hk
    rcases hk with hk | hk
    · exact h.logS k hk
    · obtain ⟨x, _, rfl⟩ := List.mem_map.1 hk
      exact Nat.le_refl _
  · intro b t hbt
    exact h.logT b t ((hstart _ _).1 hbt)
  · intro x hx
    rw [St.settled, hset, List.mem_append, not_or]
    refine ⟨h.notSettled x (hsub x hx).1, ?_⟩
    simpa using (hsub x hx).2
  · intro p hp
    rw [St.settled, hset, List.mem_append, not_or]
    refine ⟨h.busyUnset p hp, ?_⟩
    have : p.2 ∉ gone := fun hg => hgb _ hg (List.mem_map_of_mem hp)
    simpa using this
  · right
    rcases h.reachSettled.resolve_left hncl with hd | hr
    · exact Or.inl hd
    · right
      intro r hr' x hx
      rw [St.settled, hset, List.mem_append]
      rcases hr r hr' x hx with h1 | h1
      · by_cases hg : x ∈ gone
        · right; right; exact List.mem_map.2 ⟨x, hg, rfl⟩
        · left; exact hsup x h1 hg
      · right; left; exact h1
  · intro x hx
    rw [St.settled, hset, List.mem_append]
    rcases h.startBusy x ((hstart _ _).1 hx) with h1 | h1
    · exact Or.inl h1
    · exact Or.inr (Or.inl h1)
  · intro p hp
    exact (hstart _ _).2 (h.busyStart p hp)
  · rw [St.settled, hset, List.nodup_append]
    refine ⟨h.settleOnce, ?_, ?_⟩
    · exact List.pairwise_map.2 (hnd.imp fun hab => by simpa using hab)
    · intro a ha b hb hab'
      obtain ⟨x, hx, rfl⟩ := List.mem_map.1 hb
      rw [hab'] at ha
      exact h.notSettled x (hmem x hx).1 ha
  · rw [hkey]; exact h.startOnce
  · intro hac b hb r hr x hx
    rw [St.settled, hset, List.mem_append]
    exact Or.inl (h.past hac b hb r hr x hx)
  · intro b x hx
    rw [List.mem_append] at hx
    have : ∃ z, Ev.failed b z ∈ s.log ∧ DependsTrans (cfg.deps b) x z := by
      rcases hx with hx | hx
      · exact h.unbLog b x hx
      · obtain ⟨y, hy, he⟩ := List.mem_map.1 hx
        rcases hev with h' | h' | ⟨h', hu⟩
        · rw [h'] at he; cases he
        · rw [h'] at he; cases he
        · rw [h'] at he; cases he
          exact h.unb x (hmem x hy).1 (hu x hy)
    obtain ⟨z, hz, hd⟩ := this
    exact ⟨z, (hfail _ _).2 hz, hd⟩
  · intro b x hx
    rw [hstart]
    rw [hsucc, hfail] at hx
    exact h.ran b x hx
  · intro b x hx
    rw [hstart] at hx
    obtain ⟨h1, h2, h3⟩ := h.notRan b x hx
    simp only [List.mem_append, not_or]
    have key : ∀ e : Ev, (e = .upToDate b x ∨ e = .noCommands b x ∨ e = .unbuildable b x) → e ∉ gone.map ev := by
      intro e he hm
      obtain ⟨y, hy, hye⟩ := List.mem_map.1 hm
      have : b = s.build ∧ x = y := by
        rcases hev with h' | h' | ⟨h', _⟩ <;> rw [h'] at hye <;> subst hye <;>
          rcases he with he | he | he <;> cases he <;> exact ⟨rfl, rfl⟩
      obtain ⟨rfl, rfl⟩ := this
      exact hns x hy hx
    exact ⟨⟨h1, key _ (Or.inl rfl)⟩, ⟨h2, key _ (Or.inr (Or.inl rfl))⟩, ⟨h3, key _ (Or.inr (Or.inr rfl))⟩⟩
  · intro hk
    exact (h.order hk).append hno
  · intro hk
    exact (h.quiet hk).append hno
  · exact h.pend
  · simp only [hstart]; exact h.startReach

/-- A leaf is chosen as the next target. -/
theorem LogInv.select {cfg s t} {g' : Graph} (h : LogInv cfg s) (hn : s.next = none) (hid : g'.ids = s.g.ids)
    (hchild : g'.children = s.g.children) (hinv : GInv (cfg.deps s.build) cfg.targets[s.build]? g')
    (ht : t ∈ s.g.ids) (hleaf : s.g.children t = []) (hnx : s.g.state t ≠ .executing)
    (hnu : s.g.state t ≠ .unbuildable) (hab : s.aborted = false)
    (hst : ∀ x, x ≠ t → g'.state x = s.g.state x) (hstt : g'.state t = .executing) :
    LogInv cfg { s with g := g', next := some t } := by
  have hncl : ¬ Cleared cfg s := by rintro ⟨_, b, _⟩; rw [hab] at b; cases b
  have hbusy := h.busyOk.resolve_left hncl
  have htb : t ∉ s.busy.map (·.2) := by
    intro hb
    obtain ⟨p, hp, rfl⟩ := List.mem_map.1 hb
    exact hnx (hbusy p hp).2
  constructor
  · exact hinv
  · right
    intro p hp
    have : p.2 ≠ t := by rintro rfl; exact htb (List.mem_map_of_mem hp)
    show p.2 ∈ g'.ids ∧ g'.state p.2 = _
    rw [hid, hst _ this]
    exact hbusy p hp
  · exact h.busyNodup
  · intro x hx hs
    show g'.children x = []
    rw [hchild]
    by_cases hxt : x = t
    · subst hxt; exact hleaf
    · have hx' : x ∈ s.g.ids := by rw [← hid]; exact hx
      exact h.execLeaf x hx' (by rw [← hst x hxt]; exact hs)
  · intro _ x hx hs
    by_cases hxt : x = t
    · subst hxt; exact Or.inr rfl
    · have hx' : x ∈ s.g.ids := by rw [← hid]; exact hx
      have := h.exec hab x hx' (by rw [← hst x hxt]; exact hs)
      rw [hn] at this
      exact Or.inl (this.resolve_right (by simp))
  · intro _ t' ht'
    cases ht'
    exact ⟨by rw [hid]; exact ht, hstt, htb⟩
  · intro p hp hs
    have hpt : p ≠ t := by
      rintro rfl
      have hs' : g'.state p = .unbuildable := hs
      rw [hstt] at hs'; cases hs'
    have hp' : p ∈ s.g.ids := by rw [← hid]; exact hp
    exact h.unb p hp' (by rw [← hst p hpt]; exact hs)
  · intro hac hk z hz p hp hd
    have hp' : p ∈ s.g.ids := by rw [← hid]; exact hp
    have h1 := h.failK hac hk z hz p hp' hd
    have hpt : p ≠ t := by rintro rfl; exact hnu h1
    show g'.state p = _
    rw [hst p hpt]
    exact h1
  · exact h.failAb
  · exact h.allOk
  · exact h.logS
  · exact h.logT
  · intro x hx
    exact h.notSettled x (by rw [← hid]; exact hx)
  · exact h.busyUnset
  · right
    rcases h.reachSettled.resolve_left hncl with hd | hr
    · exact Or.inl hd
    · right
      intro r hr' x hx
      rcases hr r hr' x hx with h1 | h1
      · left; show x ∈ g'.ids; rw [hid]; exact h1
      · exact Or.inr h1
  · exact h.startBusy
  · exact h.busyStart
  · exact h.settleOnce
  · exact h.startOnce
  · exact h.past
  · exact h.unbLog
  · exact h.ran
  · exact h.notRan
  · exact h.order
  · exact h.quiet
  · exact h.pend
  · exact h.startReach

/-- Everything above a node of the graph is still in the graph. -/
theorem GInv.upTrans {deps root g} (h : GInv deps root g) {x y r : Nat} (hr : root = some r) (hd : DependsTrans deps x y)
    (hy : y ∈ g.ids) (hx : Reaches deps r x) : x ∈ g.ids := by
  induction hd using TransGen.head_induction_on with
  | single h1 => exact h.up _ hy _ r hr hx h1
  | head h1 h2 ih => exact h.up _ (ih (hx.tail h1)) _ r hr hx h1

/-- What a leaf depends on is settled. -/
theorem LogInv.below {cfg s t} (h : LogInv cfg s) (hab : s.aborted = false) (hd : s.dead = false) (ht : t ∈ s.g.ids)
    (hleaf : s.g.children t = []) {y : Nat} (hy : DependsTrans (cfg.deps s.build) t y) :
    y ∉ s.g.ids ∧ (s.build, y) ∈ s.settled := by
  obtain ⟨r, hr, hrt⟩ := h.ginv.reach t ht
  have hncl : ¬ Cleared cfg s := by rintro ⟨_, b, _⟩; rw [hab] at b; cases b
  have hry : Reaches (cfg.deps s.build) r y := ReflTransGen.trans hrt hy.to_reflTransGen
  have hni : y ∉ s.g.ids := by
    intro hyi
    obtain ⟨c, hc, hcy⟩ := TransGen.head'_iff.1 hy
    have hci : c ∈ s.g.ids := by
      rcases reflTransGen_iff_eq_or_transGen.1 hcy with h1 | h1
      · rw [← h1]; exact hyi
      · exact GInv.upTrans h.ginv hr h1 hyi (hrt.tail hc)
    have := (h.ginv.ch t ht c).2 ⟨hc, hci⟩
    rw [hleaf] at this
    cases this
  refine ⟨hni, ?_⟩
  rcases h.reachSettled.resolve_left hncl with h1 | h1
  · rw [hd] at h1; cases h1
  · exact (h1 r hr y hry).resolve_left hni

/-- The chosen target starts. -/
theorem LogInv.begin {cfg s e rest t} (h : LogInv cfg s) (hab : s.aborted = false) (hd : s.dead = false)
    (hn : s.next = some t) : LogInv cfg { Sched.begin e t rest s with next := none } := by
  have hncl : ¬ Cleared cfg s := by rintro ⟨_, b, _⟩; rw [hab] at b; cases b
  have hbusy := h.busyOk.resolve_left hncl
  obtain ⟨hti, hte, htb⟩ := h.nextOk hab t hn
  have hleaf := h.execLeaf t hti hte
  have hnst : Ev.started s.build t ∉ s.log := by
    intro hs
    rcases h.startBusy t hs with h1 | h1
    · exact htb h1
    · exact h.notSettled t hti h1
  have hset : (s.log ++ [Ev.started s.build t]).filterMap settleKey = s.settled := by
    simp [St.settled, settleKey]
  have hmem : ∀ ev, (∀ b t, ev ≠ Ev.started b t) → (ev ∈ s.log ++ [Ev.started s.build t] ↔ ev ∈ s.log) := by
    intro ev he
    rw [List.mem_append, List.mem_singleton]
    exact ⟨fun h => h.resolve_right (he _ _), Or.inl⟩
  have hfail : ∀ b z, Ev.failed b z ∈ s.log ++ [Ev.started s.build t] ↔ Ev.failed b z ∈ s.log :=
    fun b z => hmem _ (by simp)
  unfold Sched.begin
  constructor
  · exact h.ginv
  · right
    intro p hp
    rcases List.mem_cons.1 hp with rfl | hp
    · exact ⟨hti, hte⟩
    · exact hbusy p hp
  · exact List.nodup_cons.2 ⟨htb, h.busyNodup⟩
  · exact h.execLeaf
  · intro _ x hx hs
    left
    show x ∈ t :: s.busy.map (·.2)
    rcases h.exec hab x hx hs with h1 | h1
    · exact List.mem_cons_of_mem _ h1
    · rw [hn] at h1; cases h1; exact List.mem_cons_self ..
  · intro _ t' ht'; cases ht'
  · intro p hp hs
    obtain ⟨z, hz, hdz⟩ := h.unb p hp hs
    exact ⟨z, (hfail _ _).2 hz, hdz⟩
  · intro hac hk z hz p hp hdz
    exact h.failK hac hk z ((hfail _ _).1 hz) p hp hdz
  · intro hk b z hz
    exact h.failAb hk b z ((hfail _ _).1 hz)
  · simp only [hfail]; exact h.allOk
  · rw [St.settled, hset]; exact h.logS
  · intro b t' hbt
    rw [List.mem_append, List.mem_singleton] at hbt
    rcases hbt with h1 | h1
    · exact h.logT b t' h1
    · cases h1; exact Nat.le_refl _
  · rw [St.settled, hset]; exact h.notSettled
  · rw [St.settled, hset]
    intro p hp
    rcases List.mem_cons.1 hp with rfl | hp
    · exact h.notSettled t hti
    · exact h.busyUnset p hp
  · rw [St.settled, hset]; exact h.reachSettled
  · rw [St.settled, hset]
    intro x hx
    rw [List.mem_append, List.mem_singleton] at hx
    rcases hx with h1 | h1
    · exact (h.startBusy x h1).imp (List.mem_cons_of_mem _) id
    · cases h1
      exact Or.inl (List.mem_cons_self ..)
  · intro p hp
    rw [List.mem_append, List.mem_singleton]
    rcases List.mem_cons.1 hp with rfl | hp
    · exact Or.inr rfl
    · exact Or.inl (h.busyStart p hp)
  · rw [St.settled, hset]; exact h.settleOnce
  · rw [List.filterMap_append, List.nodup_append]
    refine ⟨h.startOnce, by simp [startKey], ?_⟩
    intro a ha b hb hab'
    have hb' : b = (s.build, t) := by simpa [startKey] using hb
    subst hab' hb'
    rw [List.mem_filterMap] at ha
    obtain ⟨ev, hev, hk⟩ := ha
    cases ev <;> simp only [startKey, reduceCtorEq, Option.some.injEq, Prod.mk.injEq] at hk
    obtain ⟨rfl, rfl⟩ := hk
    exact hnst hev
  · rw [St.settled, hset]; exact h.past
  · intro b x hx
    obtain ⟨z, hz, hdz⟩ := h.unbLog b x ((hmem _ (by simp)).1 hx)
    exact ⟨z, (hfail _ _).2 hz, hdz⟩
  · intro b x hx
    rw [hmem _ (by simp), hfail] at hx
    exact List.mem_append_left _ (h.ran b x hx)
  · intro b x hx
    rw [hmem _ (by simp), hmem _ (by simp), hmem _ (by simp)]
    rw [List.mem_append, List.mem_singleton] at hx
    rcases hx with h1 | h1
    · exact h.notRan b x h1
    · cases h1
      have := h.notSettled t hti
      rw [mem_settled] at this
      grind
  · intro hk
    refine (h.order hk).start ?_
    intro y hy
    have hnofail : ∀ z, DependsTrans (cfg.deps s.build) t z → Ev.failed s.build z ∉ s.log := by
      intro z hz hf
      cases hkg : cfg.keepGoing with
      | false => have := h.failAb hkg _ _ hf; rw [hab] at this; cases this
      | true => have := h.failK (hk hkg) hkg z hf t hti hz; rw [hte] at this; cases this
    obtain ⟨_, hys⟩ := h.below hab hd hti hleaf hy
    rcases mem_settled.1 hys with h1 | h1 | h1 | h1 | h1
    · exact Or.inr (Or.inl h1)
    · exact Or.inr (Or.inr h1)
    · obtain ⟨z, hz, hyz⟩ := h.unbLog _ _ h1
      exact absurd hz (hnofail z (TransGen.trans hy hyz))
    · exact Or.inl h1
    · exact absurd h1 (hnofail y hy)
  · intro hk
    apply QuietAfterFailure.noFail
    intro b z hz
    have := h.failAb hk b z ((hfail _ _).1 hz)
    rw [hab] at this
    cases this
  · exact h.pend
  · intro b t' hbt
    rw [List.mem_append, List.mem_singleton] at hbt
    rcases hbt with h1 | h1
    · exact h.startReach b t' h1
    · cases h1; exact h.ginv.reach _ hti

end Jom.Sched
