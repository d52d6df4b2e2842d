/- What the files contain at an arbitrary moment of a run, also after failures. -/
import Verif.Proofs.MakeStale
import Verif.Proofs.MakeSpare
import Verif.Proofs.MakeSame

namespace Jom.Make

open Jom.Graph Jom.Sched Jom.UpToDate Jom.Spec Jom.Spec.Build Relation

variable {C : Type} {env : Env} {cfg : Cfg} {db : Db} {disk0 : Str → Option Nat} {j j' : J}

theorem eq_of_fst_nodup : ∀ {l : List (Nat × Nat)}, (l.map (·.1)).Nodup → ∀ {q r : Nat × Nat}, q ∈ l → r ∈ l → q.1 = r.1 → q = r := by
  intro l
  induction l with
  | nil => intro _ q r hq; cases hq
  | cons a l ih =>
    intro hnd q r hq hr he
    simp only [List.map_cons, List.nodup_cons] at hnd
    rcases List.mem_cons.1 hq with h1 | hq <;> rcases List.mem_cons.1 hr with h2 | hr
    · rw [h1, h2]
    · exact absurd (List.mem_map.2 ⟨r, hr, by rw [← he, h1]⟩) hnd.1
    · exact absurd (List.mem_map.2 ⟨q, hq, by rw [he, h2]⟩) hnd.1
    · exact ih hnd.2 hq hr he

/-! ### What is being made stays in the list of what is being made -/

theorem build_busy (asked : Str → Bool) {res : StartRes} {writes : List (Str × Option Nat)} {q : Nat × Nat} (hq : q ∈ j.s.busy)
    (hne : q.1 ∉ j.s.avail) : q ∈ (buildNextTarget env cfg asked res writes j).s.busy := by
  unfold Make.buildNextTarget Sched.buildNextTarget
  cases hn : j.s.next with
  | none => exact hq
  | some t =>
    simp only
    cases hab : j.s.aborted with
    | true => simpa using hq
    | false =>
      simp only [Bool.false_eq_true, if_false]
      cases hav : j.s.avail with
      | nil => exact hq
      | cons e rest =>
        simp only
        cases res with
        | throws => exact hq
        | running => exact List.mem_cons_of_mem _ hq
        | sync failed =>
          have hcf := childFinished_fields cfg e t failed (begin e t rest j.s)
          show q ∈ (childFinished cfg e t failed (begin e t rest j.s)).busy
          rw [hcf.busy]
          refine List.mem_filter.2 ⟨List.mem_cons_of_mem _ hq, ?_⟩
          have : q.1 ≠ e := fun he => hne (by rw [hav, he]; exact List.mem_cons_self)
          simpa using this

theorem start_busy (a : Answers) {q : Nat × Nat} (hq : q ∈ j.s.busy) (hne : q.1 ∉ j.s.avail) :
    q ∈ (startProcesses env cfg a j).s.busy := by
  unfold startProcesses
  split
  · exact hq
  · have hf : Onward j (outcome (if j.s.next.isNone then findNextTarget env cfg a (j.s.g.ids.length + 1) j else .ok j)) ∧
        (outcome (if j.s.next.isNone then findNextTarget env cfg a (j.s.g.ids.length + 1) j else .ok j)).s.avail = j.s.avail := by
      split
      · exact ⟨findNext_onward env cfg a _ j, findNext_avail env cfg a _ j⟩
      · exact ⟨.refl j, rfl⟩
    revert hf
    generalize (if j.s.next.isNone then findNextTarget env cfg a (j.s.g.ids.length + 1) j else .ok j) = r
    cases r with
    | error j' => simp only [outcome]; rintro ⟨h1, _⟩; exact h1.busy q hq
    | ok j' =>
      simp only [outcome]
      rintro ⟨h1, h2⟩
      have hq' := h1.busy q hq
      split
      · split
        · exact build_busy a.asked hq' (by rw [h2]; exact hne)
        · exact hq'
      · split
        · split
          · exact hq'
          · unfold rebuild
            split <;> exact hq'
        · exact hq'

theorem step_busy {e : Event} (hi : Inv cfg j.s) (hnc : ∀ ex failed, e ≠ .childFinished ex failed) (hs : step env cfg j e = some j')
    {q : Nat × Nat} (hq : q ∈ j.s.busy) : q ∈ j'.s.busy := by
  have hne : q.1 ∉ j.s.avail := by
    intro hm
    have h1 := hi.ex.perm.nodup_iff.2 List.nodup_range
    exact (List.nodup_append.1 h1).2.2 q.1 hm q.1 (List.mem_append_left _ (List.mem_map.2 ⟨q, hq, rfl⟩)) rfl
  cases e with
  | startProcesses a =>
    simp only [step] at hs
    split at hs
    · cases hs; exact start_busy a hq hne
    · cases hs
  | grant =>
    simp only [step] at hs
    split at hs
    · cases hs; exact hq
    · cases hs
  | acquired asked res writes inWait =>
    simp only [step] at hs
    split at hs
    · cases hs
      have := build_busy (env := env) (cfg := cfg) (j := { j with s := { j.s with acquiring := false, granted := false } })
        (res := res) (writes := writes) asked hq hne
      split <;> exact this
    · cases hs
  | childFinished ex failed => exact absurd rfl (hnc _ _)
  | abortDone =>
    simp only [step] at hs
    split at hs
    · cases hs; exact hq
    · cases hs
  | write file value => cases hs; exact hq

/-! ### The order of what is started -/

/-- The needs of a target are its dependents in a graph in which something was started. -/
theorem needs_trans {b x y : Nat} (hedges : ∀ t, Wanted db cfg.targets t → ∀ k, DependsOn (cfg.deps b) t k ↔ Needs db t k)
    (hx : Wanted db cfg.targets x) (h : TransGen (Needs db) x y) : DependsTrans (cfg.deps b) x y := by
  induction h with
  | single h => exact TransGen.single ((hedges _ hx _).2 h)
  | tail h1 h2 ih => exact TransGen.tail ih ((hedges _ (hx.down h1.to_reflTransGen) _).2 h2)

theorem trans_needs {b x y : Nat} (hedges : ∀ t, Wanted db cfg.targets t → ∀ k, DependsOn (cfg.deps b) t k ↔ Needs db t k)
    (hx : Wanted db cfg.targets x) (h : DependsTrans (cfg.deps b) x y) : TransGen (Needs db) x y := by
  induction h with
  | single h => exact TransGen.single ((hedges _ hx _).1 h)
  | tail h1 h2 ih => exact TransGen.tail ih ((hedges _ (hx.down ih.to_reflTransGen) _).1 h2)

theorem reaches_down {b x y : Nat} (hedges : ∀ t, Wanted db cfg.targets t → ∀ k, DependsOn (cfg.deps b) t k ↔ Needs db t k)
    (hx : Wanted db cfg.targets x) (h : Reaches (cfg.deps b) x y) : Wanted db cfg.targets y := by
  induction h with
  | refl => exact hx
  | tail h1 h2 ih => exact ih.tail ((hedges _ ih _).1 h2)

theorem Run.edges (p : Plan env cfg db disk0) {ok : J → Make.Event → Prop} (h : Run env cfg (fun k => record (db.target k)) disk0 ok j)
    {b : Nat} (hb : b ≤ j.s.build) (t : Nat) (ht : Wanted db cfg.targets t) (k : Nat) : DependsOn (cfg.deps b) t k ↔ Needs db t k := by
  obtain ⟨m, hm, hd⟩ := h.recorded.graphs b hb
  refine p.edges (m := m) (fun k _ => ⟨(hm k).1, (hm k).2.imp id ?_⟩) hd t ht k
  rintro ⟨r, h1, h2, h3, h4⟩
  exact ⟨r, h1, ⟨1, rfl⟩, h2, h3, h4⟩

theorem Run.acyclic (p : Plan env cfg db disk0) {ok : J → Make.Event → Prop} (h : Run env cfg (fun k => record (db.target k)) disk0 ok j) :
    AcTo cfg j.s.build := by
  intro b hb r hr y hy hyy
  have hyw := reaches_down (h.edges p hb) ⟨r, List.mem_of_getElem? hr, .refl⟩ hy
  exact p.un.acyclic y hyw (trans_needs (h.edges p hb) hyw hyy)

theorem step_keeps {e : Make.Event} (hi : Inv cfg j.s) (hw : PlainBehaves env cfg db j e) (hcl : FailsClean env cfg db e)
    (hs : Make.step env cfg j e = some j') : ∀ ev ∈ j.s.log, ev ∈ j'.s.log := by
  by_cases hwr : ∃ file value, e = .write file value
  · obtain ⟨file, value, rfl⟩ := hwr
    cases hs
    exact fun _ h => h
  · exact (step_drift hi hw hcl (fun f v he => hwr ⟨f, v, he⟩) hs).1.log

/-- What is started although an earlier requested target needs it too has failed or needs something that has. -/
theorem Run.again (p : Plan env cfg db disk0)
    (h : Run env cfg (fun k => record (db.target k)) disk0 (fun j e => PlainBehaves env cfg db j e ∧ FailsClean env cfg db e) j) :
    Spared (fun b x => ∀ b' < b, Reach cfg db b' x → ∃ y b'', ReflTransGen (Needs db) x y ∧ Ev.failed b'' y ∈ j.s.log) j := by
  refine h.spare p (H := fun x => ∃ y b'', ReflTransGen (Needs db) x y ∧ Ev.failed b'' y ∈ j.s.log) (Q := fun _ => False)
    (C := fun s => ∀ ev ∈ s.log, ev ∈ j.s.log) ?_ (fun _ _ h => h.1.1)
    (fun j0 e j1 hi hw hs hC ev hev => hC ev (step_keeps hi hw.1 hw.2 hs ev hev)) ?_ fun _ h => h
  · intro b g m x hp hx he b' hb' hr
    apply Classical.byContradiction
    intro hno
    exact (hp.core.exec x hx he hno).2.2 (.inr ⟨b', hb', hr⟩)
  · intro j0 hr hC hab hd
    refine Run.fine p sure_none ?_ (hr.mono fun _ _ h => ⟨h.1, .inr h.2⟩) hab hd fun b t ht => .inl ⟨t, b, .refl, hC _ ht⟩
    rintro x k hn ⟨y, b, h1, h2⟩
    exact ⟨y, b, .head hn h1, h2⟩

theorem settled_apart {l : List Ev} (h : (l.filterMap settleKey).Nodup) {b t : Nat} (hf : Ev.failed b t ∈ l) :
    ¬ (Ev.succeeded b t ∈ l ∨ Ev.upToDate b t ∈ l ∨ Ev.noCommands b t ∈ l) := by
  intro ho
  obtain ⟨l1, l2, rfl⟩ := List.append_of_mem hf
  rw [List.filterMap_append, List.filterMap_cons] at h
  simp only [settleKey] at h
  have hmem : ∀ ev, ev ≠ Ev.failed b t → settleKey ev = some (b, t) → ev ∈ l1 ++ Ev.failed b t :: l2 → False := by
    intro ev hne hk hm
    rcases List.mem_append.1 hm with hm | hm
    · exact (List.nodup_append.1 h).2.2 (b, t) (List.mem_filterMap.2 ⟨ev, hm, hk⟩) (b, t) List.mem_cons_self rfl
    · rcases List.mem_cons.1 hm with hm | hm
      · exact hne hm
      · exact (List.nodup_cons.1 (List.nodup_append.1 h).2.1).1 (List.mem_filterMap.2 ⟨ev, hm, hk⟩)
  rcases ho with ho | ho | ho <;> exact hmem _ (by simp) rfl ho

/-- A target that was started and is neither being made nor has failed is not made from a target that is being made. -/
theorem Run.ordered (p : Plan env cfg db disk0)
    (h : Run env cfg (fun k => record (db.target k)) disk0 (fun j e => PlainBehaves env cfg db j e ∧ FailsClean env cfg db e) j)
    (hA : cfg.keepGoing = false ∨ NotRetried db cfg.targets j.s)
    {b x t : Nat} (hs : Ev.started b x ∈ j.s.log) (ht : t ∈ j.s.busy.map (·.2)) (hxt : TransGen (Needs db) x t) : False := by
  have hi := h.reachable.inv
  obtain ⟨q, hq, rfl⟩ := List.mem_map.1 ht
  have htS := hi.lg.busyStart q hq
  have hord : OrderOk cfg j.s.log := hi.lg.order fun _ => h.acyclic p
  obtain ⟨hedges, hreach⟩ := h.places p b x hs
  have hle := hi.lg.logT b x hs
  rcases Nat.lt_or_ge b j.s.build with hlt | hge
  · obtain ⟨r', hr', hr'x⟩ := hreach
    rcases hA with hk | hA
    · exact (h.mono fun _ _ h => h.1).noTwice p hk _ _ htS b hlt ⟨r', hr', hr'x.trans hxt.to_reflTransGen⟩
    obtain ⟨y, b'', hy, hf⟩ := h.again p _ _ htS b hlt ⟨r', hr', hr'x.trans hxt.to_reflTransGen⟩
    obtain ⟨hedgesT, r, hr, hrt⟩ := h.places p _ _ htS
    rcases Nat.lt_or_ge b'' j.s.build with hlt' | hge'
    · exact hA b'' y hf j.s.build r hlt' (Nat.le_refl _) hr (hrt.trans hy)
    · have : b'' = j.s.build := Nat.le_antisymm (hi.lg.logT b'' y (hi.lg.ran b'' y (.inr hf))) hge'
      subst this
      rcases hy.cases_head with rfl | ⟨z, hz, hzy⟩
      · exact hi.lg.busyUnset q hq (mem_settled.2 (.inr (.inr (.inr (.inr hf)))))
      · obtain ⟨l1, l2, hl⟩ := List.append_of_mem htS
        have hdep := hord l1 l2 _ q.2 hl y (needs_trans hedgesT ⟨r, List.mem_of_getElem? hr, hrt⟩ (TransGen.head' hz hzy))
        refine settled_apart hi.lg.settleOnce hf ?_
        rw [hl]
        rcases hdep with h | h | h
        · exact .inl (List.mem_append_left _ h)
        · exact .inr (.inl (List.mem_append_left _ h))
        · exact .inr (.inr (List.mem_append_left _ h))
  · have : b = j.s.build := Nat.le_antisymm hle hge
    subst this
    obtain ⟨l1, l2, hl⟩ := List.append_of_mem hs
    have hdep := hord l1 l2 _ x hl q.2 (needs_trans hedges hreach.wanted hxt)
    refine hi.lg.busyUnset q hq (mem_settled.2 ?_)
    rw [hl]
    rcases hdep with h | h | h
    · exact .inr (.inr (.inr (.inl (List.mem_append_left _ h))))
    · exact .inl (List.mem_append_left _ h)
    · exact .inr (.inl (List.mem_append_left _ h))

/-! ### The contents -/

/-- What looks up to date contains what it should unless it is being made or its commands have failed; other files are as they were at the
beginning or have been written later by the commands of a target. -/
structure Resume (env : Env) (cfg : Cfg) (db : Db) (recipe : Nat → (Str → C → Prop) → C) (disk0 : Str → Option Nat) (c0 : Str → C)
    (j : J) (c : Str → C) : Prop where
  right : ∀ x, Wanted db cfg.targets x → ¬ Unfinished j.s x → Buildable (fm env j.m) db x → UpToDate (fm env j.m) db x →
    Correct recipe (fm env j.m) (fun n => c (env.abs n)) db x
  kept : ∀ n, Mentioned db cfg.targets n → (fm env j.m n = disk0 (env.abs n) ∧ c (env.abs n) = c0 (env.abs n)) ∨
    ∃ τ k b, fm env j.m n = some τ ∧ (∀ x s, disk0 x = some s → s < τ) ∧ Wanted db cfg.targets k ∧
      env.abs n = env.abs (db.target k).name ∧ Ev.started b k ∈ j.s.log

variable {recipe : Nat → (Str → C → Prop) → C} {c0 : Str → C} {c c' : Str → C}

theorem Resume.kept_drift (h : Resume env cfg db recipe disk0 c0 j c) (hd : Drift env cfg db j j') :
    ∀ n, Mentioned db cfg.targets n → (fm env j'.m n = disk0 (env.abs n) ∧ c (env.abs n) = c0 (env.abs n)) ∨
    ∃ τ k b, fm env j'.m n = some τ ∧ (∀ x s, disk0 x = some s → s < τ) ∧ Wanted db cfg.targets k ∧
      env.abs n = env.abs (db.target k).name ∧ Ev.started b k ∈ j'.s.log := by
  intro n hn
  rw [hd.same n hn]
  refine (h.kept n hn).imp id ?_
  rintro ⟨τ, k, b, h1, h2, h3, h4, h5⟩
  exact ⟨τ, k, b, h1, h2, h3, h4, hd.log _ h5⟩

/-- Files that nobody mentions do not matter. -/
theorem Plan.unmentioned (p : Plan env cfg db disk0) {f f' : Files} {x : Nat} (hx : Wanted db cfg.targets x)
    (hsame : ∀ n, Mentioned db cfg.targets n → f' n = f n) (hb : Buildable f' db x) (hu : UpToDate f' db x) {c : Str → C}
    (hc : Buildable f db x → UpToDate f db x → Correct recipe f c db x) : Correct recipe f' c db x := by
  refine p.others (f := f) (f' := f') (ch := fun n => ¬ Mentioned db cfg.targets n) recipe hx (fun h => h ⟨x, hx, .inl rfl⟩)
    (fun n hn => ⟨hsame n (Classical.not_not.1 hn), rfl⟩) (fun n hn h => absurd hn h) ?_ hb hu hc
  intro n hn h
  obtain ⟨y, hy, hyn⟩ := p.madeFrom hx hn
  exact h (says_mentioned hx hy hyn)

/-- The converse direction is the same. -/
theorem Plan.unmentioned_correct (p : Plan env cfg db disk0) {f f' : Files} {x : Nat} (hx : Wanted db cfg.targets x)
    (hsame : ∀ n, Mentioned db cfg.targets n → f' n = f n) (hb : Buildable f' db x) (hu : UpToDate f' db x) {c : Str → C}
    (hc : Correct recipe f c db x) : Correct recipe f' c db x := p.unmentioned hx hsame hb hu fun _ _ => hc

theorem Resume.drift (p : Plan env cfg db disk0) (h : Resume env cfg db recipe disk0 c0 j c) (hd : Drift env cfg db j j')
    (hright : ∀ x, Wanted db cfg.targets x → ¬ Unfinished j'.s x → Unfinished j.s x →
      Correct recipe (fm env j.m) (fun n => c (env.abs n)) db x) : Resume env cfg db recipe disk0 c0 j' c := by
  refine ⟨fun x hx hnf hb hu => p.unmentioned hx hd.same hb hu fun hb0 hu0 => ?_, h.kept_drift hd⟩
  by_cases hu' : Unfinished j.s x
  · exact hright x hx hnf hu'
  · exact h.right x hx hu' hb0 hu0

theorem Resume.write (p : Plan env cfg db disk0) (hA : cfg.keepGoing = false ∨ NotRetried db cfg.targets j.s)
    (hrun : Run env cfg (fun k => record (db.target k)) disk0 (fun j e => PlainBehaves env cfg db j e ∧ FailsClean env cfg db e) j)
    (h : Resume env cfg db recipe disk0 c0 j c) {file : Str} {value : Option Nat}
    (hw : MayWrite env.abs db cfg.targets (j.s.busy.map (·.2)) file value) (hnew : ∀ τ, value = some τ → ∀ x s, disk0 x = some s → s < τ)
    (hc : ∀ x, x ≠ file → c' x = c x) : Resume env cfg db recipe disk0 c0 { j with m := Make.write j.m (file, value) } c' := by
  have hi := hrun.reachable.inv
  have hbusy : ∀ t ∈ j.s.busy.map (·.2), Wanted db cfg.targets t ∧ Ev.started j.s.build t ∈ j.s.log := by
    intro t ht
    obtain ⟨q, hq, rfl⟩ := List.mem_map.1 ht
    have hS := hi.lg.busyStart q hq
    exact ⟨((hrun.places p _ _ hS).2).wanted, hS⟩
  obtain ⟨_, hw⟩ := hw
  have hf' : ∀ n, fm env (Make.write j.m (file, value)) n = if env.abs n = file then value else fm env j.m n := fun n => rfl
  have hsame : ∀ n, env.abs n ≠ file → fm env (Make.write j.m (file, value)) n = fm env j.m n ∧ c' (env.abs n) = c (env.abs n) := by
    intro n hn
    rw [hf', if_neg hn]
    exact ⟨rfl, hc _ hn⟩
  have hfile : ∀ n, Mentioned db cfg.targets n → env.abs n = file →
      ∃ t ∈ j.s.busy.map (·.2), env.abs n = env.abs (db.target t).name ∧ value ≠ none := by
    intro n hn hnf
    rcases hw with ⟨t, ht, h1, h2⟩ | hw
    · exact ⟨t, ht, by rw [hnf, h1], h2⟩
    · exact absurd hnf.symm (hw n hn)
  refine ⟨?_, ?_⟩
  · intro x hx hnf hb hu
    have hname : env.abs (db.target x).name ≠ file := by
      intro he
      obtain ⟨t, ht, h1, _⟩ := hfile _ ⟨x, hx, .inl rfl⟩ he
      have := p.un.distinct x t hx (hbusy t ht).1 h1
      subst this
      exact hnf (.inl ht)
    refine p.other recipe (c := fun n => c (env.abs n)) (c' := fun n => c' (env.abs n)) hx hname hsame ?_ ?_ hb hu (h.right x hx hnf)
    · intro n hn he
      obtain ⟨t, _, _, h2⟩ := hfile n hn he
      rw [hf', if_pos he]
      exact h2
    · intro n hn he
      obtain ⟨y, hy, hyn⟩ := p.madeFrom hx hn
      obtain ⟨t, ht, ha, hv⟩ := hfile n (says_mentioned hx hy hyn) he
      obtain ⟨τ, hτ⟩ := Option.ne_none_iff_exists'.1 hv
      have hfn : fm env (Make.write j.m (file, value)) n = some τ := by rw [hf', if_pos he, hτ]
      obtain ⟨T, hT, hle⟩ := hu
      obtain ⟨d, hd, hdn⟩ := hn
      have hτT := (hle d hd).2 τ (hdn.time hfn)
      rw [(hsame _ hname).1] at hT
      rcases h.kept _ ⟨x, hx, .inl rfl⟩ with ⟨h1, _⟩ | ⟨τ', k, b, _, _, h3, h4, h5⟩
      · have := hnew τ hτ _ T (h1 ▸ hT)
        omega
      · have := p.un.distinct x k hx h3 h4
        subst this
        have hyt := p.needs (hx.down hy) hyn ((p.un.names y (hx.down hy) n hyn t (hbusy t ht).1).2 ha)
        exact hrun.ordered p hA h5 ht (TransGen.tail' hy hyt)
  · intro n hn
    by_cases he : env.abs n = file
    · obtain ⟨t, ht, ha, hv⟩ := hfile n hn he
      obtain ⟨τ, hτ⟩ := Option.ne_none_iff_exists'.1 hv
      exact .inr ⟨τ, t, j.s.build, by rw [hf', if_pos he, hτ], hnew τ hτ, (hbusy t ht).1, ha, (hbusy t ht).2⟩
    · obtain ⟨h1, h2⟩ := hsame n he
      simp only [h1, h2]
      exact h.kept n hn

theorem Resume.step (p : Plan env cfg db disk0) (hA : cfg.keepGoing = false ∨ NotRetried db cfg.targets j.s)
    (hrun : Run env cfg (fun k => record (db.target k)) disk0 (fun j e => PlainBehaves env cfg db j e ∧ FailsClean env cfg db e) j)
    (h : Resume env cfg db recipe disk0 c0 j c) {e : Make.Event} (hw : PlainFollows env cfg db recipe j c e)
    (hcl : FailsClean env cfg db e) (hl : PlainLater disk0 e) (hs : Make.step env cfg j e = some j')
    (hc : ∀ x, (∀ value, e ≠ .write x value) → c' x = c x) : Resume env cfg db recipe disk0 c0 j' c' := by
  have hi := hrun.reachable.inv
  by_cases hwr : ∃ file value, e = .write file value
  · obtain ⟨file, value, rfl⟩ := hwr
    cases hs
    exact h.write p hA hrun hw.1 (fun τ hτ => hl file τ (by rw [hτ])) fun x hx => hc x fun v hv => hx (by cases hv; rfl)
  · have hcc : c' = c := funext fun x => hc x fun v hv => hwr ⟨x, v, hv⟩
    subst hcc
    obtain ⟨hd, _⟩ := step_drift hi hw.1 hcl (fun f v he => hwr ⟨f, v, he⟩) hs
    refine h.drift p hd fun x hx hnf hu => ?_
    rcases hu with hu | ⟨b, hu⟩
    · obtain ⟨q, hq, rfl⟩ := List.mem_map.1 hu
      by_cases hch : ∃ ex failed, e = .childFinished ex failed
      · obtain ⟨ex, failed, rfl⟩ := hch
        simp only [Make.step] at hs
        split at hs
        · cases hs
        · split at hs
          · next e' t hfd =>
            cases hs
            have hcf := childFinished_fields cfg ex t failed j.s
            have hmem := List.mem_of_find?_eq_some hfd
            have hex : e' = ex := by simpa using List.find?_some hfd
            subst hex
            by_cases hqe : q.1 = e'
            · have hqt : q = (e', t) := by
                have hnd := hi.ex.busyFst
                exact eq_of_fst_nodup hnd hq hmem hqe
              subst hqt
              cases failed with
              | false => exact hw.2 e' rfl t hmem
              | true =>
                refine absurd (.inr ⟨j.s.build, ?_⟩) hnf
                show _ ∈ (childFinished cfg e' t true j.s).log
                rw [hcf.log]
                simp
            · refine absurd (.inl (List.mem_map.2 ⟨q, ?_, rfl⟩)) hnf
              show q ∈ (childFinished cfg e' t failed j.s).busy
              rw [hcf.busy]
              exact List.mem_filter.2 ⟨hq, by simpa using hqe⟩
          · cases hs
      · exact absurd (.inl (List.mem_map.2 ⟨q, step_busy hi (fun x f he => hch ⟨x, f, he⟩) hs hq, rfl⟩)) hnf
    · exact absurd (.inr ⟨b, hd.log _ hu⟩) hnf

theorem _root_.Jom.Spec.Build.NotRetried.back
    (hrun : Run env cfg (fun k => record (db.target k)) disk0 (fun j e => PlainBehaves env cfg db j e ∧ FailsClean env cfg db e) j)
    {e : Make.Event} (hw : PlainBehaves env cfg db j e) (hcl : FailsClean env cfg db e) (hs : Make.step env cfg j e = some j')
    (h : NotRetried db cfg.targets j'.s) : NotRetried db cfg.targets j.s := by
  intro b t hf b' r hb hb' hr
  exact h b t (step_keeps hrun.reachable.inv hw hcl hs _ hf) b' r hb (Nat.le_trans hb' (step_armed hrun.recorded.armed hs).2.2.2) hr

theorem _root_.Jom.Spec.Build.PlainTraced.resume (p : Plan env cfg db disk0)
    (h0 : StartsCorrect recipe (fun n => disk0 (env.abs n)) (fun n => c0 (env.abs n)) db cfg.targets)
    (h : PlainTraced env cfg (fun k => record (db.target k)) disk0 c0
      (fun j c e => (PlainFollows env cfg db recipe j c e ∧ FailsClean env cfg db e) ∧ PlainLater disk0 e) j c) :
    (cfg.keepGoing = false ∨ NotRetried db cfg.targets j.s) → Resume env cfg db recipe disk0 c0 j c := by
  induction h with
  | start asked hd ha =>
    intro _
    have hf : fm env (buildAsked env asked { info := fun k => record (db.target k), files := { disk := disk0, cache := [] } }) =
        fun n => disk0 (env.abs n) := by unfold fm; rw [buildAsked_disk]
    refine ⟨?_, ?_⟩
    · simp only [hf]; exact fun x hx _ => h0 x hx
    · exact fun n _ => .inl ⟨congrFun hf n, rfl⟩
  | @step j j' c c' e asked hr hw hs hc hdn ha ih =>
    have hrun := hr.run (ok' := fun j e => PlainBehaves env cfg db j e ∧ FailsClean env cfg db e) fun _ _ _ h => ⟨h.1.1.1, h.1.2⟩
    have key : (cfg.keepGoing = false ∨ NotRetried db cfg.targets j'.s) → Resume env cfg db recipe disk0 c0 j' c' := by
      intro hA
      have hA' := hA.imp id fun h => h.back hrun hw.1.1.1 hw.1.2 hs
      exact (ih hA').step p hA' hrun hw.1.1 hw.1.2 hw.2 hs hc
    split
    · exact fun hA => (key hA).drift p ⟨fun n _ => congrFun (buildAsked_disk ..) _, fun _ h => h, id⟩ fun x _ h1 h2 => absurd h2 h1
    · exact key

/-- What is unfinished but untouched is as right as it was. -/
theorem Resume.startsCorrect (p : Plan env cfg db disk0) (h : Resume env cfg db recipe disk0 c0 j c)
    (h0 : StartsCorrect recipe (fun n => disk0 (env.abs n)) (fun n => c0 (env.abs n)) db cfg.targets)
    (hun : ∀ x, Wanted db cfg.targets x → Unfinished j.s x →
      j.m.files.disk (env.abs (db.target x).name) = disk0 (env.abs (db.target x).name) ∧
      c (env.abs (db.target x).name) = c0 (env.abs (db.target x).name)) :
    StartsCorrect recipe (fun n => j.m.files.disk (env.abs n)) (fun n => c (env.abs n)) db cfg.targets := by
  intro x hx hb hu
  by_cases hf : Unfinished j.s x
  · obtain ⟨h1, h2⟩ := hun x hx hf
    have hlate : ∀ n, Mentioned db cfg.targets n → ¬ (fm env j.m n = disk0 (env.abs n) ∧ c (env.abs n) = c0 (env.abs n)) →
        ∃ τ, fm env j.m n = some τ ∧ ∀ x s, disk0 x = some s → s < τ := by
      intro n hn hch
      rcases h.kept n hn with h | ⟨τ, _, _, h1, h2, _⟩
      · exact absurd h hch
      · exact ⟨τ, h1, h2⟩
    refine p.others (f := fun n => disk0 (env.abs n)) (c := fun n => c0 (env.abs n))
      (ch := fun n => ¬ (fm env j.m n = disk0 (env.abs n) ∧ c (env.abs n) = c0 (env.abs n))) recipe hx
      (fun h => h ⟨h1, h2⟩) (fun n hn => Classical.not_not.1 hn) ?_ ?_ hb hu (h0 x hx)
    · intro n hn hch
      obtain ⟨τ, hτ, _⟩ := hlate n hn hch
      exact Option.ne_none_iff_exists'.2 ⟨τ, hτ⟩
    · intro n hn hch
      obtain ⟨y, hy, hyn⟩ := p.madeFrom hx hn
      obtain ⟨τ, hτ, hl⟩ := hlate n (says_mentioned hx hy hyn) hch
      obtain ⟨T, hT, hle⟩ := hu
      obtain ⟨d, hd, hdn⟩ := hn
      have := (hle d hd).2 τ (hdn.time hτ)
      have := hl _ T (h1.symm.trans hT)
      omega
  · exact h.right x hx hf hb hu

/-! ### Only what can be made is written -/

theorem build_back (asked : Str → Bool) {res : StartRes} {writes : List (Str × Option Nat)}
    (h : (buildNextTarget env cfg asked res writes j).s.aborted = true ∨ (buildNextTarget env cfg asked res writes j).s.dead = true)
    (hd : j.s.dead = false) {q : Nat × Nat} (hq : q ∈ (buildNextTarget env cfg asked res writes j).s.busy) : q ∈ j.s.busy := by
  unfold Make.buildNextTarget Sched.buildNextTarget at h hq
  cases hn : j.s.next with
  | none => rw [hn] at hq; exact hq
  | some t =>
    rw [hn] at h hq
    simp only at h hq
    cases hab : j.s.aborted with
    | true => rw [hab] at hq; simpa using hq
    | false =>
      rw [hab] at h hq
      simp only [Bool.false_eq_true, if_false] at h hq
      cases hav : j.s.avail with
      | nil => rw [hav] at hq; exact hq
      | cons e rest =>
        rw [hav] at h hq
        cases res with
        | throws => exact hq
        | running =>
          have h : j.s.aborted = true ∨ j.s.dead = true := h
          rw [hab, hd] at h
          simp at h
        | sync failed =>
          have hcf := childFinished_fields cfg e t failed (begin e t rest j.s)
          have hq : q ∈ (childFinished cfg e t failed (begin e t rest j.s)).busy := hq
          rw [hcf.busy] at hq
          obtain ⟨h1, h2⟩ := List.mem_filter.1 hq
          rcases List.mem_cons.1 h1 with rfl | h1
          · simp at h2
          · exact h1

theorem findNext_busy (env : Env) (cfg : Cfg) (a : Answers) : ∀ fuel j,
    (outcome (findNextTarget env cfg a fuel j)).s.busy = j.s.busy ∧ (outcome (findNextTarget env cfg a fuel j)).s.dead = j.s.dead := by
  intro i
  induction i with
  | zero => intro j; exact ⟨rfl, rfl⟩
  | succ i ih =>
    intro j
    simp only [findNextTarget]
    split
    · exact ⟨rfl, rfl⟩
    · generalize prune env a.now a.asked cfg.buildAll j.s.g j.m = pr
      obtain ⟨g, m, gone⟩ := pr
      simp only
      split
      · exact ⟨rfl, rfl⟩
      · generalize List.foldl (applyRule env a.choose) m g.leaves = m1
        generalize pick g = pk
        obtain ⟨g1, r⟩ := pk
        cases r with
        | none => exact ⟨rfl, rfl⟩
        | some t =>
          simp only
          generalize (if cfg.buildAll = true then (test env a.now a.asked t m1).1 else m1) = m2
          split
          · exact ih _
          · split
            · exact ih _
            · exact ⟨rfl, rfl⟩

theorem start_back (a : Answers)
    (h : (startProcesses env cfg a j).s.aborted = true ∨ (startProcesses env cfg a j).s.dead = true)
    (hd : j.s.dead = false) {q : Nat × Nat} (hq : q ∈ (startProcesses env cfg a j).s.busy) : q ∈ j.s.busy := by
  unfold startProcesses at h hq
  split at hq
  · exact hq
  · next hc =>
    rw [if_neg hc] at h
    have hf : (outcome (if j.s.next.isNone then findNextTarget env cfg a (j.s.g.ids.length + 1) j else .ok j)).s.busy = j.s.busy ∧
        (outcome (if j.s.next.isNone then findNextTarget env cfg a (j.s.g.ids.length + 1) j else .ok j)).s.dead = j.s.dead := by
      split
      · exact findNext_busy env cfg a _ j
      · exact ⟨rfl, rfl⟩
    revert hf h hq
    generalize (if j.s.next.isNone then findNextTarget env cfg a (j.s.g.ids.length + 1) j else .ok j) = r
    cases r with
    | error j' => simp only [outcome]; rintro h hq ⟨h1, _⟩; rw [← h1]; exact hq
    | ok j' =>
      simp only [outcome]
      intro h hq hf
      rw [← hf.1]
      split at hq
      · next h1 =>
        rw [if_pos h1] at h
        split at hq
        · next h2 =>
          rw [if_pos h2] at h
          exact build_back a.asked h (hf.2.trans hd) hq
        · exact hq
      · split at hq
        · split at hq
          · exact hq
          · unfold rebuild at hq
            split at hq <;> exact hq
        · exact hq

/-- What is being made after the abort was being made before. -/
theorem step_back {e : Event} (hs : step env cfg j e = some j') (h : j'.s.aborted = true ∨ j'.s.dead = true)
    {q : Nat × Nat} (hq : q ∈ j'.s.busy) : q ∈ j.s.busy := by
  cases e with
  | startProcesses a =>
    simp only [step] at hs
    split at hs
    · next hc => cases hs; exact start_back (j := { j with s := { j.s with queued := j.s.queued - 1 } }) a h hc.1 hq
    · cases hs
  | grant =>
    simp only [step] at hs
    split at hs
    · cases hs; exact hq
    · cases hs
  | acquired asked res writes inWait =>
    simp only [step] at hs
    split at hs
    · next hc =>
      cases hs
      have : ∀ J : J, J = buildNextTarget env cfg asked res writes { j with s := { j.s with acquiring := false, granted := false } } →
          (J.s.aborted = true ∨ J.s.dead = true) → q ∈ J.s.busy → q ∈ j.s.busy := by
        rintro J rfl h hq
        exact build_back (j := { j with s := { j.s with acquiring := false, granted := false } }) asked h hc.1 hq
      cases inWait <;> exact this _ rfl h hq
    · cases hs
  | childFinished ex failed =>
    simp only [step] at hs
    split at hs
    · cases hs
    · split at hs
      · next t _ =>
        cases hs
        have hq : q ∈ (childFinished cfg ex t failed j.s).busy := hq
        rw [(childFinished_fields cfg ex t failed j.s).busy] at hq
        exact (List.mem_filter.1 hq).1
      · cases hs
  | abortDone =>
    simp only [step] at hs
    split at hs
    · cases hs; exact hq
    · cases hs
  | write file value => cases hs; exact hq

theorem _root_.Jom.Spec.Build.PlainTraced.mono {info : Nat → TInfo} {ok ok' : J → (Str → C) → Make.Event → Prop}
    (hok : ∀ j c e, ok j c e → ok' j c e) (h : PlainTraced env cfg info disk0 c0 ok j c) : PlainTraced env cfg info disk0 c0 ok' j c := by
  induction h with
  | start asked hd ha => exact .start asked hd ha
  | step asked _ hw hs hc hdn ha ih => exact .step asked ih (hok _ _ _ hw) hs hc hdn ha

end Jom.Make
