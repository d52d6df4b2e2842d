/- Interrupted builds with `/K`: only what could be made at the beginning is written. -/
import Verif.Proofs.MakeFailures

namespace Jom.Make

open Jom.Graph Jom.Sched Jom.UpToDate Jom.Spec Jom.Spec.Build Relation

variable {env : Env} {cfg cfg' : Cfg} {db : Db} {disk0 : Str → Option Nat} {j j' : J}
variable {C : Type} {recipe : Nat → (Str → C → Prop) → C} {c0 c c' : Str → C}

/-- What is being made neither has failed nor needs anything that has failed. -/
theorem Run.busyUnhurt (p : Plan env cfg db disk0)
    (h : Run env cfg (fun k => record (db.target k)) disk0 (fun j e => PlainBehaves env cfg db j e ∧ FailsClean env cfg db e) j)
    (hA : cfg.keepGoing = false ∨ NotRetried db cfg.targets j.s) (hab : j.s.aborted = false) {t : Nat} (ht : t ∈ j.s.busy.map (·.2)) :
    Unhurt db j.s.log t := by
  intro y hy b hf
  have hi := h.reachable.inv
  rcases hA with hk | hA
  · have := hi.lg.failAb hk b y hf
    rw [hab] at this
    cases this
  obtain ⟨q, hq, rfl⟩ := List.mem_map.1 ht
  have hs := hi.lg.busyStart q hq
  obtain ⟨hedges, r, hr, hrx⟩ := h.places p _ _ hs
  rcases Nat.lt_or_ge b j.s.build with hlt | hge
  · exact hA b y hf j.s.build r hlt (Nat.le_refl _) hr (hrx.trans hy)
  · have : b = j.s.build := Nat.le_antisymm (hi.lg.logT b y (hi.lg.ran b y (.inr hf))) hge
    subst this
    rcases reflTransGen_iff_eq_or_transGen.1 hy with rfl | hxy
    · exact hi.lg.busyUnset q hq (mem_settled.2 (by simp [hf]))
    · have hord : OrderOk cfg j.s.log := hi.lg.order fun _ => h.acyclic p
      obtain ⟨l1, l2, hl⟩ := List.append_of_mem hs
      have hdep := hord l1 l2 _ q.2 hl y (needs_trans hedges ⟨r, List.mem_of_getElem? hr, hrx⟩ hxy)
      refine settled_apart hi.lg.settleOnce hf ?_
      rw [hl]
      rcases hdep with h | h | h
      · exact .inl (List.mem_append_left _ h)
      · exact .inr (.inl (List.mem_append_left _ h))
      · exact .inr (.inr (List.mem_append_left _ h))

/-- What is being made can be made from what was there at the beginning; only that has been written. -/
structure OnlyDerived (env : Env) (cfg : Cfg) (db : Db) (disk0 : Str → Option Nat) (c0 : Str → C) (j : J) (c : Str → C) : Prop where
  busy : ∀ t ∈ j.s.busy.map (·.2), Wanted db cfg.targets t ∧ Derived (fun n => disk0 (env.abs n)) db t
  kept : ∀ n, Mentioned db cfg.targets n → (fm env j.m n = disk0 (env.abs n) ∧ c (env.abs n) = c0 (env.abs n)) ∨
    ∃ k, Wanted db cfg.targets k ∧ env.abs n = env.abs (db.target k).name ∧ Derived (fun n => disk0 (env.abs n)) db k

theorem _root_.Jom.Spec.Build.PlainTraced.onlyDerived {N : Nat} (hfew : FewerThan db cfg.targets N) (p : Plan env cfg db disk0)
    (h0 : StartsCorrect recipe (fun n => disk0 (env.abs n)) (fun n => c0 (env.abs n)) db cfg.targets)
    (h : PlainTraced env cfg (fun k => record (db.target k)) disk0 c0
      (fun j c e => (PlainFollows env cfg db recipe j c e ∧ FailsClean env cfg db e) ∧ PlainLater disk0 e) j c) :
    (cfg.keepGoing = false ∨ NotRetried db cfg.targets j.s) → OnlyDerived env cfg db disk0 c0 j c := by
  have hbusy : ∀ {j c}, PlainTraced env cfg (fun k => record (db.target k)) disk0 c0
      (fun j c e => (PlainFollows env cfg db recipe j c e ∧ FailsClean env cfg db e) ∧ PlainLater disk0 e) j c →
      (cfg.keepGoing = false ∨ NotRetried db cfg.targets j.s) → j.s.aborted = false → j.s.dead = false →
      ∀ t ∈ j.s.busy.map (·.2), Wanted db cfg.targets t ∧ Derived (fun n => disk0 (env.abs n)) db t := by
    intro j c hr hA hab hd t ht
    have hrun := hr.run (ok' := fun j e => PlainBehaves env cfg db j e ∧ FailsClean env cfg db e) fun _ _ _ h => ⟨h.1.1.1, h.1.2⟩
    have hu := hrun.busyUnhurt p hA hab ht
    obtain ⟨q, hq, rfl⟩ := List.mem_map.1 ht
    have hst := hrun.reachable.inv.lg.busyStart q hq
    have hw := ((hrun.places p _ _ hst).2).wanted
    exact ⟨hw, hrun.derived hfew p (hr.resume p h0 hA) hab hd _ hw (fun y hy z hz => hu z (.head hy hz)) (hrun.canMake p hab hd hst hu)⟩
  induction h with
  | start asked hd ha =>
    have hf : fm env (buildAsked env asked { info := fun k => record (db.target k), files := { disk := disk0, cache := [] } }) =
        fun n => disk0 (env.abs n) := by unfold fm; rw [buildAsked_disk]
    refine fun _ => ⟨?_, fun n _ => .inl ⟨congrFun hf n, rfl⟩⟩
    intro t ht
    have ht : t ∈ (Sched.init cfg).busy.map (·.2) := ht
    have : (Sched.init cfg).busy = [] := by
      unfold Sched.init Sched.rebuild
      split
      · rfl
      · split <;> (simp only; split <;> rfl)
    rw [this] at ht
    cases ht
  | @step j j' c c' e asked hr hw hs hc hdn ha ih =>
    have hr' := PlainTraced.step asked hr hw hs hc hdn ha
    intro hA
    have hA : cfg.keepGoing = false ∨ NotRetried db cfg.targets j'.s := by
      split at hA
      · exact hA
      · exact hA
    have ih := ih (hA.imp id fun h => h.back
      (hr.run (ok' := fun j e => PlainBehaves env cfg db j e ∧ FailsClean env cfg db e) fun _ _ _ h => ⟨h.1.1.1, h.1.2⟩) hw.1.1.1 hw.1.2 hs)
    have hi := (hr.run (ok' := PlainBehaves env cfg db) fun _ _ _ h => h.1.1.1).reachable.inv
    have hB : ∀ t ∈ j'.s.busy.map (·.2), Wanted db cfg.targets t ∧ Derived (fun n => disk0 (env.abs n)) db t := by
      by_cases hdead : j'.s.aborted = false ∧ j'.s.dead = false
      · have := hbusy hr'
        split at this
        · exact this hA hdead.1 hdead.2
        · exact this hA hdead.1 hdead.2
      · intro t ht
        obtain ⟨q, hq, rfl⟩ := List.mem_map.1 ht
        refine ih.busy q.2 (List.mem_map.2 ⟨q, step_back hs ?_ hq, rfl⟩)
        cases h1 : j'.s.aborted <;> cases h2 : j'.s.dead <;> simp_all
    have hK : ∀ n, Mentioned db cfg.targets n → (fm env j'.m n = disk0 (env.abs n) ∧ c' (env.abs n) = c0 (env.abs n)) ∨
        ∃ k, Wanted db cfg.targets k ∧ env.abs n = env.abs (db.target k).name ∧ Derived (fun n => disk0 (env.abs n)) db k := by
      intro n hn
      by_cases hwr : ∃ file value, e = .write file value
      · obtain ⟨file, value, rfl⟩ := hwr
        cases hs
        by_cases he : env.abs n = file
        · rcases hw.1.1.1.2 with ⟨t, ht, h1, _⟩ | h1
          · exact .inr ⟨t, (ih.busy t ht).1, he.trans h1, (ih.busy t ht).2⟩
          · exact absurd he.symm (h1 n hn)
        · have h1 : fm env (Make.write j.m (file, value)) n = fm env j.m n := by
            show (if env.abs n = file then value else fm env j.m n) = _
            rw [if_neg he]
          rw [h1, hc _ fun v hv => he (by cases hv; rfl)]
          exact ih.kept n hn
      · have hcc : c' = c := funext fun x => hc x fun v hv => hwr ⟨x, v, hv⟩
        subst hcc
        obtain ⟨hd, _⟩ := step_drift hi hw.1.1.1 hw.1.2 (fun f v he => hwr ⟨f, v, he⟩) hs
        rw [hd.same n hn]
        exact ih.kept n hn
    split
    · exact ⟨hB, fun n hn => by rw [show fm env (buildAsked env asked j'.m) n = fm env j'.m n from congrFun (buildAsked_disk ..) _]; exact hK n hn⟩
    · exact ⟨hB, hK⟩

/-- An interrupted build leaves the sources alone. -/
theorem OnlyDerived.sameSources (h : OnlyDerived env cfg db disk0 c0 j c) :
    SameSources env.abs db cfg.targets disk0 j.m.files.disk c0 c := by
  intro n hn hno
  rcases h.kept n hn with ⟨h1, h2⟩ | ⟨k, h1, h2, h3⟩
  · have h1 : j.m.files.disk (env.abs n) = disk0 (env.abs n) := h1
    rw [h1, h2]
    exact ⟨Iff.rfl, rfl⟩
  · exact absurd h3 (hno k h1 h2)

end Jom.Make
