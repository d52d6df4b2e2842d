/- Runs in which the commands are only shown (`/N`), from the beginning to the end. -/
import Verif.Proofs.DryRun

namespace Jom.Make

open Jom.Graph Jom.Sched Jom.UpToDate Jom.Spec Jom.Spec.Build Relation

variable {env : Env} {cfg : Cfg} {db : Db} {disk : Str → Option Nat}

structure Dry (env : Env) (cfg : Cfg) (db : Db) (disk : Str → Option Nat) (j : J) : Prop where
  busy : j.s.busy = []
  acq : j.s.acquiring = false
  allOk : j.s.allOk = true
  log : ∀ e ∈ j.s.log, told env cfg db disk e
  edges : ∀ b ≤ j.s.build, ∀ t, Wanted db cfg.targets t → ∀ k, DependsOn (cfg.deps b) t k ↔ Needs db t k
  mem : DMem env cfg db disk j.m
  inv : j.s.aborted = true ∨ j.s.dead = true ∨ (j.s.next = none ∧ DInv env cfg db disk j.s.build j.s.g j.m)

theorem DMem.asked {m : Mem} (hm : DMem env cfg db disk m) (names : List Str) :
    DMem env cfg db disk (buildAsked env names m) := by
  unfold buildAsked
  obtain ⟨h1, h2⟩ := remember_ok
    (asked := fun n => (env.lookup n).isNone && (env.lookup (env.dir ++ '\\' :: n)).isNone) (names := names) hm.cache
  exact ⟨h2.trans hm.diskEq, h1, hm.stat, hm.record⟩

theorem DInv.mem' {b : Nat} {g : Graph} {m m' : Mem} (h : DInv env cfg db disk b g m) (hm : DMem env cfg db disk m')
    (hi : m'.info = m.info) : DInv env cfg db disk b g m' := by
  refine ⟨h.edges, h.ginv, hm, ?_, h.idle, ?_⟩
  · rw [hi]; exact h.done
  · rw [hi]; exact h.clean

theorem Dry.asked {j : J} (h : Dry env cfg db disk j) (names : List Str) :
    Dry env cfg db disk { j with m := buildAsked env names j.m } :=
  ⟨h.busy, h.acq, h.allOk, h.log, h.edges, h.mem.asked names,
    h.inv.imp id (Or.imp id fun ⟨h1, h2⟩ => ⟨h1, h2.mem' (h.mem.asked names) rfl⟩)⟩

theorem DMem.forgets {m : Mem} (hm : DMem env cfg db disk m) (asked : Str → Bool) (names : List Str) (t : Nat) :
    DMem env cfg db disk (forget t { m with files := remember env asked names m.files }) := by
  obtain ⟨h1, h2⟩ := remember_ok (asked := asked) (names := names) hm.cache
  refine ⟨h2.trans hm.diskEq, ?_, hm.stat, hm.record⟩
  intro n τ hc
  simp only [forget, FileInfo.clearCache] at hc ⊢
  rw [cached_filter] at hc
  split at hc
  · cases hc
  · exact h1 n τ hc

theorem DInv.fresh {b r : Nat} {g : Graph} {m : Mem} (hr : cfg.targets[b]? = some r)
    (he : ∀ t, Wanted db cfg.targets t → ∀ k, DependsOn (cfg.deps b) t k ↔ Needs db t k) (hm : DMem env cfg db disk m)
    (hb : BuildSpec (cfg.deps b) r g) (hd : g.dirty = true) : DInv env cfg db disk b g m where
  edges := he
  ginv := by rw [hr]; exact hb.ginv
  mem := hm
  done := fun x ⟨r', hr', hx⟩ hxi => by
    rw [hr] at hr'; cases hr'
    exact absurd ((hb.ids x).2 ((edges_reach he hr).2 hx)) hxi
  idle := fun x _ => hb.wf.unknown x
  clean := fun h => by rw [hd] at h; cases h

theorem Plan.edges' (p : Plan env cfg db disk) {m : Mem} {b : Nat} (hm : DMem env cfg db disk m) (hd : DepsNow env cfg m b) (t : Nat)
    (ht : Wanted db cfg.targets t) (k : Nat) : DependsOn (cfg.deps b) t k ↔ Needs db t k := by
  refine p.edges (m := m) (fun k hk => ?_) hd t ht k
  exact ⟨(hm.stat k hk).1, (hm.stat k hk).2.imp id fun ⟨r, hr, _, h⟩ => ⟨r, hr, ⟨1, rfl⟩, h⟩⟩

theorem DMem.invalidate {m : Mem} (hm : DMem env cfg db disk m) : DMem env cfg db disk (invalidate m) :=
  ⟨hm.diskEq, hm.cache, hm.stat, fun _ _ => .inl ⟨rfl, rfl⟩⟩

theorem handOver_other (e : Nat) (s : St) : (handOver e s).busy = s.busy ∧ (handOver e s).acquiring = s.acquiring ∧
    (handOver e s).allOk = s.allOk ∧ (handOver e s).log = s.log ∧ (handOver e s).build = s.build ∧ (handOver e s).g = s.g ∧
    (handOver e s).next = s.next ∧ (handOver e s).aborted = s.aborted ∧ (handOver e s).dead = s.dead := by
  unfold handOver
  simp only
  split
  · simp
  · split
    · split <;> simp
    · simp

theorem Dry.startProcesses (p : Plan env cfg db disk) {j : J} (h : Dry env cfg db disk j)
    (hrun : j.s.aborted = false → j.s.avail.length = cfg.jobs) (hdead : j.s.dead = false)
    (hpend : j.s.aborted = false → j.s.pending = cfg.targets.drop (j.s.build + 1)) (a : Answers)
    (ha : OnlyShows disk j (.startProcesses a))
    (hdn : (startProcesses env cfg a j).s.build ≠ j.s.build →
      DepsNow env cfg (startProcesses env cfg a j).m (startProcesses env cfg a j).s.build) :
    Dry env cfg db disk (startProcesses env cfg a j) := by
  obtain ⟨ha1, ha2, ha3⟩ := ha
  unfold Make.startProcesses at hdn ⊢
  split
  · exact h
  · next hcond =>
    rw [if_neg hcond] at hdn
    simp only [Bool.or_eq_true, not_or, Bool.not_eq_true] at hcond
    obtain ⟨⟨hab, _⟩, hav⟩ := hcond
    have hrun := hrun hab
    have hpend := hpend hab
    rcases h.inv with hx | hx | ⟨hnext, hinv⟩
    · rw [hab] at hx; cases hx
    · rw [hdead] at hx; cases hx
    rw [hnext, Option.isNone_none, if_pos rfl] at hdn ⊢
    obtain ⟨g, m, l, hl, hm, hcase⟩ := findNext_dry p a ha3 (j.s.g.ids.length + 1) j hinv (Nat.lt_succ_self _)
    have hlog : ∀ e ∈ j.s.log ++ l, told env cfg db disk e := by
      intro e he
      rcases List.mem_append.1 he with he | he
      · exact h.log e he
      · exact hl e he
    have hexc : ∀ n, Dry env cfg db disk
        { s := onException cfg { j.s with g := g, next := n, log := j.s.log ++ l }, m := m } := by
      intro n
      refine ⟨h.busy, h.acq, h.allOk, ?_, h.edges, hm, .inl rfl⟩
      intro e he
      rcases List.mem_append.1 he with he | he
      · exact hlog e he
      · rw [List.mem_singleton.1 he]; trivial
    rcases hcase with hc | hc | ⟨hc, hd⟩ | ⟨t, hc, ht, hd⟩
    · rw [hc]; exact hexc _
    · rw [hc]; exact hexc _
    · rw [hc] at hdn ⊢
      simp only [Option.isSome_none, Bool.false_eq_true, if_false, St.running, hrun, Nat.sub_self, if_true] at hdn ⊢
      cases hp : j.s.pending with
      | nil =>
        simp only [finishBuild]
        exact ⟨h.busy, h.acq, h.allOk, hlog, h.edges, hm, .inr (.inr ⟨rfl, hd⟩)⟩
      | cons t rest =>
        simp only [hp] at hdn ⊢
        rw [hpend] at hp
        have ht : cfg.targets[j.s.build + 1]? = some t := by
          have := List.getElem?_drop (xs := cfg.targets) (i := j.s.build + 1) (j := 0)
          rw [hp] at this
          simpa using this.symm
        have hm := hm.invalidate
        have hbld : ∀ (s : St), (rebuild cfg (j.s.build + 1) t rest s).build = j.s.build + 1 := by
          intro s
          unfold rebuild
          split <;> rfl
        rw [hbld] at hdn
        have hnew := p.edges' hm (hdn (Nat.succ_ne_self _))
        have hedge : ∀ b ≤ j.s.build + 1, ∀ t, Wanted db cfg.targets t → ∀ k, DependsOn (cfg.deps b) t k ↔ Needs db t k := by
          intro b hb
          rcases Nat.lt_or_ge b (j.s.build + 1) with h1 | h1
          · exact h.edges b (by omega)
          · rw [show b = j.s.build + 1 by omega]; exact hnew
        unfold rebuild
        cases hbd : Graph.build (cfg.deps (j.s.build + 1)) cfg.fuel t with
        | error e => exact ⟨h.busy, h.acq, h.allOk, hlog, hedge, hm, .inr (.inl rfl)⟩
        | ok g' =>
          exact ⟨h.busy, h.acq, h.allOk, hlog, hedge, hm,
            .inr (.inr ⟨rfl, DInv.fresh ht hnew hm (build_ok hbd) (build_dirty hbd)⟩)⟩
    · rw [hc]
      simp only [Option.isSome_some, if_true, St.running, hrun, Nat.sub_self]
      unfold Make.buildNextTarget
      simp only [ha1, ha2, List.foldl_nil, hab, Bool.false_eq_true, if_false]
      have hm2 := hm.forgets a.asked ((m.info t).name :: (m.info t).deps) t
      unfold Sched.buildNextTarget
      simp only [Bool.false_eq_true, if_false]
      cases hav' : j.s.avail with
      | nil => rw [hav'] at hav; cases hav
      | cons e rest =>
        simp only [begun, childFinished, begin, Bool.false_and, Bool.false_eq_true, if_false]
        have ho := handOver_other e
        refine ⟨?_, ?_, ?_, ?_, ?_, hm2, .inr (.inr ⟨rfl, ?_⟩)⟩
        · simp only [(ho _).1]
          split <;> simp [h.busy]
        · simp only [(ho _).2.1]
          split <;> exact h.acq
        · simp only [(ho _).2.2.1]
          split <;> exact h.allOk
        · simp only [(ho _).2.2.2.1]
          have key : ∀ e ∈ (j.s.log ++ l ++ [Ev.started j.s.build t]) ++ [Ev.succeeded j.s.build t], told env cfg db disk e := by
            intro e he
            rcases List.mem_append.1 he with he | he
            · rcases List.mem_append.1 he with he | he
              · exact hlog e he
              · rw [List.mem_singleton.1 he]; exact ht
            · rw [List.mem_singleton.1 he]; trivial
          split <;> exact key
        · simp only [(ho _).2.2.2.2.1]
          split <;> exact h.edges
        · simp only [(ho _).2.2.2.2.1, (ho _).2.2.2.2.2.1]
          split <;> exact hd.mem' hm2 rfl

theorem Dry.step (p : Plan env cfg db disk) {j j' : J} (h : Dry env cfg db disk j) (hi : Inv cfg j.s) {e : Event}
    (he : OnlyShows disk j e) (hs : step env cfg j e = some j')
    (hdn : j'.s.build ≠ j.s.build → DepsNow env cfg j'.m j'.s.build) : Dry env cfg db disk j' := by
  cases e with
  | startProcesses a =>
    simp only [Make.step] at hs
    split at hs
    · next hq =>
      cases hs
      refine Dry.startProcesses p (j := { j with s := { j.s with queued := j.s.queued - 1 } })
        ⟨h.busy, h.acq, h.allOk, h.log, h.edges, h.mem, h.inv⟩ (fun hab => ?_) hq.1 (fun hab => hi.lg.pend hab) a he hdn
      have := hi.ex.avail_length
      rw [h.busy, hi.ex.stuckAb hab] at this
      simpa using this
    · cases hs
  | grant => simp [Make.step, h.acq] at hs
  | acquired asked res writes w =>
    have : j.s.granted = false := by
      cases hg : j.s.granted with
      | false => rfl
      | true => have := hi.ex.gr hg; rw [h.acq] at this; cases this
    simp [Make.step, this] at hs
  | childFinished ex f => simp [Make.step, h.busy] at hs
  | abortDone =>
    simp only [Make.step] at hs
    split at hs
    · cases hs
      exact ⟨h.busy, h.acq, h.allOk, h.log, h.edges, h.mem, h.inv⟩
    · cases hs
  | write f v => exact absurd he (by simp [OnlyShows])

theorem Dry.start (p : Plan env cfg db disk) (hd : DepsNow env cfg (mem0 db disk) 0) :
    Dry env cfg db disk { s := Sched.init cfg, m := mem0 db disk } := by
  have hm : DMem env cfg db disk (mem0 db disk) :=
    ⟨rfl, fun n t hc => (by simp [FileInfo.cached, mem0] at hc), fun k _ => ⟨rfl, .inl ⟨rfl, rfl, rfl⟩⟩, fun k _ => .inl ⟨rfl, rfl⟩⟩
  have hn := p.edges' hm hd
  have hedge : ∀ b ≤ 0, ∀ t, Wanted db cfg.targets t → ∀ k, DependsOn (cfg.deps b) t k ↔ Needs db t k := by
    intro b hb
    rw [Nat.le_zero.1 hb]
    exact hn
  unfold Sched.init
  cases ht : cfg.targets with
  | nil =>
    refine ⟨rfl, rfl, rfl, by simp, hedge, hm, .inr (.inr ⟨rfl, hn, ?_, hm, ?_, by simp [Graph.empty], by simp [Graph.empty]⟩)⟩
    · simp only [ht, List.getElem?_nil]; exact ginv_empty ..
    · rintro x ⟨r, hr, _⟩
      simp [ht] at hr
  | cons r rest =>
    have hr : cfg.targets[0]? = some r := by rw [ht]; rfl
    simp only [Sched.rebuild]
    cases hbd : Graph.build (cfg.deps 0) cfg.fuel r with
    | error e => simp only; split <;> exact ⟨rfl, rfl, rfl, by simp, hedge, hm, .inr (.inl rfl)⟩
    | ok g' =>
      have := DInv.fresh hr hn hm (build_ok hbd) (build_dirty hbd)
      simp only
      split <;> exact ⟨rfl, rfl, rfl, by simp, hedge, hm, .inr (.inr ⟨rfl, this⟩)⟩

theorem Run.dry (p : Plan env cfg db disk) {j : J}
    (hr : Run env cfg (fun k => record (db.target k)) disk (OnlyShows disk) j) : Dry env cfg db disk j := by
  induction hr with
  | start asked hd _ => exact (Dry.start p hd).asked asked
  | step asked hr' hw hs hdn _ ih =>
    have := ih.step p hr'.reachable.inv hw hs hdn
    split
    · exact this.asked asked
    · exact this

theorem Dry.acyclic (p : Plan env cfg db disk) {j : J} (h : Dry env cfg db disk j) : AcTo cfg j.s.build := by
  intro b hb r hr x hx hxx
  have he := h.edges b hb
  have hw : Wanted db cfg.targets x := ⟨r, List.mem_of_getElem? hr, (edges_reach he hr).1 hx⟩
  refine p.un.acyclic x hw ?_
  have : ∀ y, DependsTrans (cfg.deps b) x y → TransGen (Needs db) x y := by
    intro y hy
    induction hy with
    | single h1 => exact .single ((he x hw _).1 h1)
    | tail _ h1 ih =>
      refine ih.tail ((he _ ?_ _).1 h1)
      obtain ⟨r', hr', h2⟩ := hw
      exact ⟨r', hr', h2.trans ih.to_reflTransGen⟩
  exact this x hxx

end Jom.Make
