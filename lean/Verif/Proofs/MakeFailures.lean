/- Builds in which commands fail: which ones fail does not depend on the order of events. -/
import Verif.Proofs.MakeJobs

namespace Jom.Make

open Jom.Graph Jom.Sched Jom.UpToDate Jom.Spec Jom.Spec.Build Relation

variable {env : Env} {cfg cfg' : Cfg} {db : Db} {disk0 : Str → Option Nat} {j j' : J}
variable {C : Type} {recipe : Nat → (Str → C → Prop) → C} {works : Nat → (Str → C → Prop) → Prop} {c0 c c' : Str → C}

/-- Neither the target nor anything it needs has failed. -/
abbrev Unhurt (db : Db) (log : List Ev) (x : Nat) : Prop := ∀ y, ReflTransGen (Needs db) x y → ∀ b, Ev.failed b y ∉ log

/-- What is being made is needed by no requested target with which jom is done. -/
theorem Run.busyFirst (p : Plan env cfg db disk0)
    (h : Run env cfg (fun k => record (db.target k)) disk0 (fun j e => PlainBehaves env cfg db j e ∧ FailsClean env cfg db e) j)
    (hA : NotRetried db cfg.targets j.s) {t : Nat} (ht : t ∈ j.s.busy.map (·.2)) {b : Nat} (hb : b < j.s.build) : ¬ Reach cfg db b t := by
  intro hreach
  have hi := h.reachable.inv
  obtain ⟨q, hq, rfl⟩ := List.mem_map.1 ht
  have htS := hi.lg.busyStart q hq
  have hord : OrderOk cfg j.s.log := hi.lg.order fun _ => h.acyclic p
  obtain ⟨y, b'', hy, hf⟩ := h.again p _ _ htS b hb hreach
  obtain ⟨hedgesT, r, hr, hrt⟩ := h.places p _ _ htS
  rcases Nat.lt_or_ge b'' j.s.build with hlt' | hge'
  · exact hA b'' y hf j.s.build r hlt' (Nat.le_refl _) hr (hrt.trans hy)
  · have : b'' = j.s.build := Nat.le_antisymm (hi.lg.logT b'' y (hi.lg.ran b'' y (.inr hf))) hge'
    subst this
    rcases hy.cases_head with rfl | ⟨z, hz, hzy⟩
    · exact hi.lg.busyUnset q hq (mem_settled.2 (.inr (.inr (.inr (.inr hf)))))
    · obtain ⟨l1, l2, hl⟩ := List.append_of_mem htS
      have hdep := hord l1 l2 _ q.2 hl y (needs_trans hedgesT ⟨r, List.mem_of_getElem? hr, hrt⟩ (TransGen.head' hz hzy))
      refine settled_apart hi.lg.settleOnce hf ?_
      rw [hl]
      rcases hdep with h | h | h
      · exact .inl (List.mem_append_left _ h)
      · exact .inr (.inl (List.mem_append_left _ h))
      · exact .inr (.inr (List.mem_append_left _ h))

/-- So is what has failed. -/
theorem Tells.failedFirst (p : Plan env cfg db disk0) (h : Tells env cfg db recipe works disk0 c0 j c) :
    NotRetried db cfg.targets j.s → ∀ b y, Ev.failed b y ∈ j.s.log → ∀ b' < b, ¬ Reach cfg db b' y := by
  induction h with
  | start asked hd ha =>
    intro _ b y hy
    have : (Sched.init cfg).log = [] := (init_log cfg).1
    have hy : Ev.failed b y ∈ (Sched.init cfg).log := hy
    rw [this] at hy
    cases hy
  | @step j j' c c' e asked hr hw hs hc hdn ha ih =>
    have hr : Tells env cfg db recipe works disk0 c0 j c := hr
    intro hA
    suffices hgoal : ∀ b y, Ev.failed b y ∈ j'.s.log → ∀ b' < b, ¬ Reach cfg db b' y by
      split
      · exact hgoal
      · exact hgoal
    have hA : NotRetried db cfg.targets j'.s := by
      split at hA
      · exact hA
      · exact hA
    have hA0 : NotRetried db cfg.targets j.s := hA.back hr.clean hw.1.1.1.1 hw.1.1.2 hs
    intro b y hy
    by_cases hch : ∃ ex failed, e = .childFinished ex failed
    · obtain ⟨ex, failed, rfl⟩ := hch
      simp only [Make.step] at hs
      split at hs
      · cases hs
      · next hd0 =>
        split at hs
        · next e' t hfd =>
          cases hs
          have hcf := childFinished_fields cfg ex t failed j.s
          have hmem := List.mem_of_find?_eq_some hfd
          have hy : Ev.failed b y ∈ (childFinished cfg ex t failed j.s).log := hy
          rw [hcf.log, List.mem_append] at hy
          rcases hy with hy | hy
          · exact ih hA0 b y hy
          · cases failed with
            | false => simp at hy
            | true =>
              have hy : Ev.failed b y = Ev.failed j.s.build t := by simpa using hy
              cases hy
              exact fun b' hb' => hr.clean.busyFirst p hA0 (List.mem_map.2 ⟨_, hmem, rfl⟩) hb'
        · cases hs
    · have hsm := step_smooth hw.2.1 (fun x f he => hch ⟨x, f, he⟩) hs
      rcases hsm.log _ hy with hy | hy
      · exact ih hA0 b y hy
      · exact absurd rfl (hy b y).2

/-- What has been started needs nothing that has failed. -/
theorem Tells.below (p : Plan env cfg db disk0) (h : Tells env cfg db recipe works disk0 c0 j c) (hA : NotRetried db cfg.targets j.s)
    {b x b' y : Nat} (hs : Ev.started b x ∈ j.s.log) (hf : Ev.failed b' y ∈ j.s.log) (hxy : TransGen (Needs db) x y) : False := by
  have hi := h.behaves.reachable.inv
  obtain ⟨hedges, r, hr, hrx⟩ := h.clean.places p _ _ hs
  rcases Nat.lt_trichotomy b' b with hlt | rfl | hlt
  · exact hA b' y hf b r hlt (hi.lg.logT b x hs) hr (hrx.trans hxy.to_reflTransGen)
  · have hord : OrderOk cfg j.s.log := hi.lg.order fun _ => h.clean.acyclic p
    obtain ⟨l1, l2, hl⟩ := List.append_of_mem hs
    have hdep := hord l1 l2 _ x hl y (needs_trans hedges ⟨r, List.mem_of_getElem? hr, hrx⟩ hxy)
    refine settled_apart hi.lg.settleOnce hf ?_
    rw [hl]
    rcases hdep with h | h | h
    · exact .inl (List.mem_append_left _ h)
    · exact .inr (.inl (List.mem_append_left _ h))
    · exact .inr (.inr (List.mem_append_left _ h))
  · exact h.failedFirst p hA b' y hf b hlt ⟨r, hr, hrx.trans hxy.to_reflTransGen⟩

/-- With what has failed, everything that needs it is left out. -/
theorem Run.hurt (p : Plan env cfg db disk0)
    (h : Run env cfg (fun k => record (db.target k)) disk0 (fun j e => PlainBehaves env cfg db j e ∧ FailsClean env cfg db e) j)
    (hab : j.s.aborted = false) (hd : j.s.dead = false) :
    PInv env cfg db (fun _ => False) (fun x => ¬ Unhurt db j.s.log x) disk0 j.s.build j.s.g j.m := by
  refine Run.fine p sure_none (fun q k hn hk hq => hk fun y hy => hq y (.head hn hy)) (h.mono fun _ _ h => ⟨h.1, .inr h.2⟩) hab hd
    fun b t ht => .inl fun hu => hu t .refl b ht

theorem Run.canMake (p : Plan env cfg db disk0)
    (h : Run env cfg (fun k => record (db.target k)) disk0 (fun j e => PlainBehaves env cfg db j e ∧ FailsClean env cfg db e) j)
    (hab : j.s.aborted = false) (hd : j.s.dead = false) {b x : Nat} (hs : Ev.started b x ∈ j.s.log) (hok : Unhurt db j.s.log x) :
    Buildable (fm env j.m) db x := by
  have hcm := h.recorded.armed.2 b x hs
  have hw := ((h.places p _ _ hs).2).wanted
  rcases ((h.hurt p hab hd).core.stat x hw (fun h => h hok)).2 with ⟨_, h1, _⟩ | ⟨r, hr, h1, _⟩
  · exact .inl (h1.symm.trans hcm)
  · exact .inr ⟨r, hr, h1⟩

/-! ### What ended commands read does not change -/

/-- The outcome of all commands is what it would be with what the files contain now. -/
def Told (env : Env) (db : Db) (works : Nat → (Str → C → Prop) → Prop) (j : J) (c : Str → C) : Prop :=
  ∀ b x, (Ev.succeeded b x ∈ j.s.log → works x (Inputs env db j.m c x)) ∧
    (Ev.failed b x ∈ j.s.log → ¬ works x (Inputs env db j.m c x) ∧ Buildable (fm env j.m) db x)

theorem Plan.sameInputs (p : Plan env cfg db disk0) {m m' : Mem} (h : ∀ n, Mentioned db cfg.targets n → fm env m' n = fm env m n) {x : Nat}
    (hx : Wanted db cfg.targets x) : Inputs env db m' c x = Inputs env db m c x :=
  p.inputs (f := fm env m') (f' := fm env m) (c := fun n => c (env.abs n)) (c' := fun n => c (env.abs n)) hx
    (fun y n hy hn => by rw [h n (says_mentioned hx hy hn)]; exact ⟨Iff.rfl, fun _ => rfl⟩)

theorem buildable_same {m m' : Mem} (h : ∀ n, Mentioned db cfg.targets n → fm env m' n = fm env m n) {x : Nat}
    (hx : Wanted db cfg.targets x) (hb : Buildable (fm env m) db x) : Buildable (fm env m') db x := by
  rcases hb with hb | ⟨r, hr, s, hs⟩
  · exact .inl hb
  · exact .inr ⟨r, hr, s, (h r ⟨x, hx, .inr (.inr hr)⟩).trans hs⟩

theorem Told.drift (p : Plan env cfg db disk0) (h : Told env db works j c) (hd : ∀ n, Mentioned db cfg.targets n → fm env j'.m n = fm env j.m n)
    (hw : ∀ b x, Ev.succeeded b x ∈ j'.s.log ∨ Ev.failed b x ∈ j'.s.log → Wanted db cfg.targets x)
    (hs : ∀ b x, Ev.succeeded b x ∈ j'.s.log → Ev.succeeded b x ∈ j.s.log ∨ works x (Inputs env db j.m c x))
    (hf : ∀ b x, Ev.failed b x ∈ j'.s.log → Ev.failed b x ∈ j.s.log ∨ ¬ works x (Inputs env db j.m c x) ∧ Buildable (fm env j.m) db x) :
    Told env db works j' c := by
  intro b x
  refine ⟨fun hx => ?_, fun hx => ?_⟩
  · rw [p.sameInputs hd (hw b x (.inl hx))]
    exact (hs b x hx).elim (h b x).1 id
  · have hxw := hw b x (.inr hx)
    rw [p.sameInputs hd hxw]
    have := (hf b x hx).elim (h b x).2 id
    exact ⟨this.1, buildable_same hd hxw this.2⟩

theorem Told.write (p : Plan env cfg db disk0) (h : Told env db works j c) (hr : Tells env cfg db recipe works disk0 c0 j c)
    (hA : NotRetried db cfg.targets j.s) {file : Str} {value : Option Nat}
    (hw : MayWrite env.abs db cfg.targets (j.s.busy.map (·.2)) file value) (hc : ∀ x, x ≠ file → c' x = c x) :
    Told env db works { j with m := Make.write j.m (file, value) } c' := by
  have hi := hr.behaves.reachable.inv
  have key : ∀ b x, Ev.started b x ∈ j.s.log → Inputs env db (Make.write j.m (file, value)) c' x = Inputs env db j.m c x := by
    intro b x hx
    have hxw := ((hr.clean.places p _ _ hx).2).wanted
    refine p.inputs (f := fm env (Make.write j.m (file, value))) (f' := fm env j.m) (c := fun n => c' (env.abs n)) (c' := fun n => c (env.abs n)) hxw
      fun y n hy hn => ?_
    have h1 : env.abs n ≠ file := by
      intro he
      rcases hw.2 with ⟨t, ht, h1, _⟩ | hw
      · have htw : Wanted db cfg.targets t := by
          obtain ⟨q, hq, rfl⟩ := List.mem_map.1 ht
          exact ((hr.clean.places p _ _ (hi.lg.busyStart q hq)).2).wanted
        have hyt := p.needs (hxw.down hy) hn ((p.un.names y (hxw.down hy) n hn t htw).2 (he.trans h1))
        exact hr.clean.ordered p (.inr hA) hx ht (TransGen.tail' hy hyt)
      · exact hw n (says_mentioned hxw hy hn) he.symm
    have h2 : fm env (Make.write j.m (file, value)) n = fm env j.m n := by
      show (if env.abs n = file then value else fm env j.m n) = _
      rw [if_neg h1]
    rw [h2]
    exact ⟨Iff.rfl, fun _ => hc _ h1⟩
  intro b x
  refine ⟨fun hx => ?_, fun hx => ?_⟩
  · show works x (Inputs env db (Make.write j.m (file, value)) c' x)
    rw [key b x (hi.lg.ran b x (.inl hx))]
    exact (h b x).1 hx
  · have hst := hi.lg.ran b x (.inr hx)
    have hxw := ((hr.clean.places p _ _ hst).2).wanted
    show ¬ works x (Inputs env db (Make.write j.m (file, value)) c' x) ∧ Buildable (fm env (Make.write j.m (file, value))) db x
    rw [key b x hst]
    refine ⟨((h b x).2 hx).1, ?_⟩
    rcases ((h b x).2 hx).2 with hb | ⟨r, hr', hs⟩
    · exact .inl hb
    · refine .inr ⟨r, hr', ?_⟩
      show ∃ s, (if env.abs r = file then value else fm env j.m r) = some s
      split
      · next he =>
        rcases hw.2 with ⟨_, _, _, h1⟩ | hw
        · exact Option.ne_none_iff_exists'.1 h1
        · exact absurd he.symm (hw r ⟨x, hxw, .inr (.inr hr')⟩)
      · exact hs

theorem Tells.told (p : Plan env cfg db disk0) (h : Tells env cfg db recipe works disk0 c0 j c) :
    NotRetried db cfg.targets j.s → j.s.aborted = false → Told env db works j c := by
  induction h with
  | start asked hd ha =>
    intro _ _ b y
    have : (Sched.init cfg).log = [] := (init_log cfg).1
    refine ⟨fun hy => ?_, fun hy => ?_⟩
    · have hy : Ev.succeeded b y ∈ (Sched.init cfg).log := hy
      rw [this] at hy
      cases hy
    · have hy : Ev.failed b y ∈ (Sched.init cfg).log := hy
      rw [this] at hy
      cases hy
  | @step j j' c c' e asked hr hw hs hc hdn ha ih =>
    have hr : Tells env cfg db recipe works disk0 c0 j c := hr
    have hi := hr.behaves.reachable.inv
    have hwant : ∀ b x, Ev.succeeded b x ∈ j.s.log ∨ Ev.failed b x ∈ j.s.log → Wanted db cfg.targets x := fun b x hx =>
      ((hr.clean.places p _ _ (hi.lg.ran b x hx)).2).wanted
    have key : NotRetried db cfg.targets j'.s → j'.s.aborted = false → Told env db works j' c' ∧
        ∀ b x, Ev.succeeded b x ∈ j'.s.log ∨ Ev.failed b x ∈ j'.s.log → Wanted db cfg.targets x := by
      intro hA hab
      have hA0 : NotRetried db cfg.targets j.s := hA.back hr.clean hw.1.1.1.1 hw.1.1.2 hs
      by_cases hwr : ∃ file value, e = .write file value
      · obtain ⟨file, value, rfl⟩ := hwr
        cases hs
        exact ⟨(ih hA0 hab).write p hr hA0 hw.1.1.1.1 fun x hx => hc x fun v hv => hx (by cases hv; rfl), hwant⟩
      · have hcc : c' = c := funext fun x => hc x fun v hv => hwr ⟨x, v, hv⟩
        subst hcc
        obtain ⟨hd, hdead⟩ := step_drift hi hw.1.1.1.1 hw.1.1.2 (fun f v he => hwr ⟨f, v, he⟩) hs
        have hab0 := hd.aborted hab
        have h0 := ih hA0 hab0
        by_cases hch : ∃ ex failed, e = .childFinished ex failed
        · obtain ⟨ex, failed, rfl⟩ := hch
          simp only [Make.step] at hs
          split at hs
          · cases hs
          · split at hs
            · next e' t hfd =>
              cases hs
              have hcf := childFinished_fields cfg ex t failed j.s
              have hmem := List.mem_of_find?_eq_some hfd
              have hex : e' = ex := by simpa using List.find?_some hfd
              subst hex
              have hst : Ev.started j.s.build t ∈ j.s.log := hi.lg.busyStart _ hmem
              have htw : Wanted db cfg.targets t := ((hr.clean.places p _ _ hst).2).wanted
              have hdec := hw.2.2 hab0 e' failed rfl t hmem
              have hlog : ∀ ev, ev ∈ (childFinished cfg e' t failed j.s).log → ev ∈ j.s.log ∨
                  ev = if failed then Ev.failed j.s.build t else Ev.succeeded j.s.build t := by
                intro ev hev
                rw [hcf.log, List.mem_append] at hev
                exact hev.imp id fun h => by simpa using h
              have hb : failed = true → Buildable (fm env j.m) db t := by
                intro _
                refine hr.clean.canMake p hab0 hdead hst fun y hy b hf => ?_
                rcases Relation.reflTransGen_iff_eq_or_transGen.1 hy with rfl | hy
                · rcases Nat.lt_or_ge b j.s.build with hlt | hge
                  · obtain ⟨_, r, hr', hrt⟩ := hr.clean.places p _ _ hst
                    exact hA0 b _ hf j.s.build r hlt (Nat.le_refl _) hr' hrt
                  · have : b = j.s.build := Nat.le_antisymm (hi.lg.logT b _ (hi.lg.ran b _ (.inr hf))) hge
                    subst this
                    exact hi.lg.busyUnset _ hmem (mem_settled.2 (.inr (.inr (.inr (.inr hf)))))
                · exact hr.below p hA0 hst hf hy
              have hwant' : ∀ b x, Ev.succeeded b x ∈ (childFinished cfg e' t failed j.s).log ∨
                  Ev.failed b x ∈ (childFinished cfg e' t failed j.s).log → Wanted db cfg.targets x := by
                intro b x hx
                rcases hx with hx | hx
                · rcases hlog _ hx with hx | hx
                  · exact hwant b x (.inl hx)
                  · cases failed <;> simp at hx
                    exact hx.2 ▸ htw
                · rcases hlog _ hx with hx | hx
                  · exact hwant b x (.inr hx)
                  · cases failed <;> simp at hx
                    exact hx.2 ▸ htw
              refine ⟨h0.drift p hd.same hwant' ?_ ?_, hwant'⟩
              · intro b x hx
                rcases hlog _ hx with hx | hx
                · exact .inl hx
                · cases failed <;> simp at hx
                  obtain ⟨rfl, rfl⟩ := hx
                  exact .inr (hdec.1 rfl)
              · intro b x hx
                rcases hlog _ hx with hx | hx
                · exact .inl hx
                · cases failed <;> simp at hx
                  obtain ⟨rfl, rfl⟩ := hx
                  exact .inr ⟨(fun h => absurd (hdec.2 h) (by simp)), hb rfl⟩
            · cases hs
        · have hsm := step_smooth hw.2.1 (fun x f he => hch ⟨x, f, he⟩) hs
          have hold : ∀ b x, (Ev.succeeded b x ∈ j'.s.log → Ev.succeeded b x ∈ j.s.log) ∧ (Ev.failed b x ∈ j'.s.log → Ev.failed b x ∈ j.s.log) :=
            fun b x => ⟨fun hx => (hsm.log _ hx).elim id fun h => absurd rfl (h b x).1, fun hx => (hsm.log _ hx).elim id fun h => absurd rfl (h b x).2⟩
          have hwant' : ∀ b x, Ev.succeeded b x ∈ j'.s.log ∨ Ev.failed b x ∈ j'.s.log → Wanted db cfg.targets x := fun b x hx =>
            hwant b x (hx.imp (hold b x).1 (hold b x).2)
          exact ⟨h0.drift p hd.same hwant' (fun b x hx => .inl ((hold b x).1 hx)) (fun b x hx => .inl ((hold b x).2 hx)), hwant'⟩
    split
    · intro hA hab
      obtain ⟨h1, h2⟩ := key hA hab
      exact h1.drift p (fun n _ => congrFun (buildAsked_disk ..) _) h2 (fun _ _ h => .inl h) (fun _ _ h => .inl h)
    · exact fun hA hab => (key hA hab).1

/-! ### The end of a build -/

theorem Tells.resume (p : Plan env cfg db disk0) (h : Tells env cfg db recipe works disk0 c0 j c)
    (h0 : StartsCorrect recipe (fun n => disk0 (env.abs n)) (fun n => c0 (env.abs n)) db cfg.targets) (hA : NotRetried db cfg.targets j.s) :
    Resume env cfg db recipe disk0 c0 j c :=
  PlainTraced.resume p h0 (PlainTraced.mono (fun _ _ _ h => h.1) h) (.inr hA)

/-- What can be made could be made at the beginning. -/
theorem Run.derived {N : Nat} (hfew : FewerThan db cfg.targets N) (p : Plan env cfg db disk0)
    (h : Run env cfg (fun k => record (db.target k)) disk0 (fun j e => PlainBehaves env cfg db j e ∧ FailsClean env cfg db e) j)
    (hr : Resume env cfg db recipe disk0 c0 j c) (hab : j.s.aborted = false) (hd : j.s.dead = false) :
    ∀ x, Wanted db cfg.targets x → (∀ y, Needs db x y → Unhurt db j.s.log y) → Buildable (fm env j.m) db x →
      Derived (fun n => disk0 (env.abs n)) db x := by
  refine needs_induct (Q := fun x => (∀ y, Needs db x y → Unhurt db j.s.log y) → Buildable (fm env j.m) db x →
      Derived (fun n => disk0 (env.abs n)) db x) hfew p.un.acyclic ?_
  intro x hx ih hok hb
  rcases hb with hb | ⟨r, hr', s, hs⟩
  · exact .commands hb
  · rcases hr.kept r ⟨x, hx, .inr (.inr hr')⟩ with ⟨h1, _⟩ | ⟨_, k, b, _, _, hk, ha, hst⟩
    · refine .source hr' ?_
      show disk0 (env.abs r) ≠ none
      rw [← h1, hs]
      exact fun h => by cases h
    · have hres := (p.un.names x hx r (.inr hr') k hk).2 ha
      have hn := p.un.inferred x hx r hr' k hres
      have hu := hok k hn
      exact .made hr' hres (ih k hn (fun y hy z hz => hu z (.head hy hz)) (h.canMake p hab hd hst hu))

theorem Tells.half {N : Nat} (hfew : FewerThan db cfg.targets N) (p : Plan env cfg db disk0) (h : Tells env cfg db recipe works disk0 c0 j c)
    (hr : Resume env cfg db recipe disk0 c0 j c) (hc : Complete j.s) :
    Half env cfg db recipe disk0 c0 (fun x => Wanted db cfg.targets x ∧ Unhurt db j.s.log x) (fm env j.m) (fun n => c (env.abs n)) where
  kept := by
    rintro x hx ⟨_, hu⟩
    refine (hr.kept _ ⟨x, hx, .inl rfl⟩).imp id ?_
    rintro ⟨_, k, b, _, _, hk, ha, hst⟩
    have := p.un.distinct x k hx hk ha
    subst this
    exact h.clean.derived hfew p hr hc.ab hc.dead x hx (fun y hy z hz => hu z (.head hy hz)) (h.clean.canMake p hc.ab hc.dead hst hu)
  plain := by
    intro n hn hno
    rcases hr.kept n hn with h1 | ⟨_, k, _, _, _, hk, ha, _⟩
    · exact h1
    · exact absurd ha (hno k hk)
  cong := fun n n' ha => ⟨by show j.m.files.disk (env.abs n) = j.m.files.disk (env.abs n'); rw [ha], by show c (env.abs n) = c (env.abs n'); rw [ha]⟩
  mono := (h.clean.hurt p hc.ab hc.dead).core.mono
  made := by
    rintro x ⟨hx, hu⟩ hb
    have hup := h.clean.sound p hc hx hu hb
    refine ⟨hup.there, hr.right x hx ?_ hb hup⟩
    rintro (hb | ⟨b, hf⟩)
    · rw [hc.busy] at hb
      cases hb
    · exact hu x .refl b hf

theorem Tells.later' (h : Tells env cfg db recipe works disk0 c0 j c) :
    Run env cfg (fun k => record (db.target k)) disk0
      (fun j e => (PlainBehaves env cfg db j e ∧ FailsClean env cfg db e) ∧ PlainLater disk0 e) j :=
  PlainTraced.run (fun _ _ _ h => ⟨⟨h.1.1.1.1, h.1.1.2⟩, h.1.2⟩) h

/-- What has been started has ended. -/
theorem Tells.over (p : Plan env cfg db disk0) (h : Tells env cfg db recipe works disk0 c0 j c) (hc : Complete j.s) {b x : Nat}
    (hs : Ev.started b x ∈ j.s.log) : Ev.succeeded b x ∈ j.s.log ∨ Ev.failed b x ∈ j.s.log := by
  have hi := h.behaves.reachable.inv
  have hset : (b, x) ∈ j.s.settled := by
    rcases Nat.lt_or_ge b j.s.build with hlt | hge
    · obtain ⟨r, hr, hx⟩ := hi.lg.startReach b x hs
      exact hi.lg.past (h.behaves.acyclic p) b hlt r hr x hx
    · have : b = j.s.build := Nat.le_antisymm (hi.lg.logT b x hs) hge
      subst this
      rcases hi.lg.startBusy x hs with h1 | h1
      · rw [hc.busy] at h1; cases h1
      · exact h1
  obtain ⟨n1, n2, n3⟩ := hi.lg.notRan b x hs
  rcases mem_settled.1 hset with h1 | h1 | h1 | h1
  · exact absurd h1 n1
  · exact absurd h1 n2
  · exact absurd h1 n3
  · exact h1

/-- What needs something that was out of date has been started. -/
theorem Tells.spreads {N : Nat} (hfew : FewerThan db cfg.targets N) (p : Plan env cfg db disk0) (h : Tells env cfg db recipe works disk0 c0 j c)
    (hr : Resume env cfg db recipe disk0 c0 j c) (hc : Complete j.s)
    (hplain : ∀ k, Wanted db cfg.targets k → ¬ Derived (fun n => disk0 (env.abs n)) db k → disk0 (env.abs (db.target k).name) ≠ none →
      ∀ y, ¬ Needs db k y) {x : Nat} (hw : Wanted db cfg.targets x) (hu : Unhurt db j.s.log x) (hd : Derived (fun n => disk0 (env.abs n)) db x)
    (hne : ¬ Rests env db disk0 x) : ∃ b, Ev.started b x ∈ j.s.log := by
  have hst : ∃ y, ReflTransGen (Needs db) x y ∧ Buildable (fun n => disk0 (env.abs n)) db y ∧ ¬ UpToDate (fun n => disk0 (env.abs n)) db y := by
    apply Classical.byContradiction
    intro hno
    refine hne fun y hy hby => ?_
    apply Classical.byContradiction
    intro hu
    exact hno ⟨y, hy, hby, hu⟩
  obtain ⟨y, hy, hby, hst⟩ := hst
  have hm := h.later'.movedClean p hc.ab hc.dead
  have hby' : Buildable (fm env j.m) db y := by
    refine stale_buildable (f := fun n => disk0 (env.abs n)) (cfg := cfg) (fun n hn => ?_) (hw.down hy) hby
    refine (hm n hn).imp id ?_
    rintro ⟨τ, _, _, h1, h2, _⟩
    exact ⟨τ, h1, fun x s => h2 _ s⟩
  have hcone : ∀ k, ReflTransGen (Needs db) x k → Unhurt db j.s.log k := fun k hk z hz => hu z (hk.trans hz)
  have hbk : ∀ k, ReflTransGen (Needs db) x k → Derived (fun n => disk0 (env.abs n)) db k → Buildable (fm env j.m) db k := fun k hk hd =>
    (h.half hfew p hr hc).buildable hfew p (fun a b ha hab => ⟨ha.1.tail hab, fun z hz => ha.2 z (.head hab hz)⟩) k (hw.down hk)
      ⟨hw.down hk, hcone k hk⟩ hd
  obtain ⟨_, b, _, _, h1⟩ := (hm.spread p (fun k hk => h.clean.sound p hc (hw.down hk) (hcone k hk))
    (fun k hk hnb hex => hplain k (hw.down hk) (fun hd => hnb (hbk k hk hd)) hex) hw hy hby' hst).1 (hbk x .refl hd)
  exact ⟨b, h1⟩

/-! ### Two builds -/

section

variable {N : Nat} (hfew : FewerThan db cfg.targets N) (p : Plan env cfg db disk0) (p' : Plan env cfg' db disk0) (ht : cfg'.targets = cfg.targets)
  (h0 : StartsCorrect recipe (fun n => disk0 (env.abs n)) (fun n => c0 (env.abs n)) db cfg.targets)
  (hplain : ∀ k, Wanted db cfg.targets k → ¬ Derived (fun n => disk0 (env.abs n)) db k → disk0 (env.abs (db.target k).name) ≠ none →
    ∀ y, ¬ Needs db k y)

include hfew p p' ht h0 hplain

/-- If what a target needs fails in both builds or in none, and the target fails in the first, then it fails in the second. -/
theorem Tells.failsToo (h : Tells env cfg db recipe works disk0 c0 j c) (hA : NotRetried db cfg.targets j.s) (hc : Complete j.s)
    (h' : Tells env cfg' db recipe works disk0 c0 j' c') (hA' : NotRetried db cfg'.targets j'.s) (hc' : Complete j'.s) {x : Nat}
    (hbelow : ∀ y, TransGen (Needs db) x y → (∃ b, Ev.failed b y ∈ j'.s.log) → ∃ b, Ev.failed b y ∈ j.s.log)
    (hf : ∃ b, Ev.failed b x ∈ j.s.log) : ∃ b, Ev.failed b x ∈ j'.s.log := by
  apply Classical.byContradiction
  intro hno
  obtain ⟨b, hf⟩ := hf
  have h0' : StartsCorrect recipe (fun n => disk0 (env.abs n)) (fun n => c0 (env.abs n)) db cfg'.targets := ht ▸ h0
  have hfew' : FewerThan db cfg'.targets N := ht ▸ hfew
  have hr := h.resume p h0 hA
  have hr' := h'.resume p' h0' hA'
  have hst := h.behaves.reachable.inv.lg.ran b x (.inr hf)
  obtain ⟨hw, hne⟩ := h.clean.sparedClean p _ _ hst
  have hw' : Wanted db cfg'.targets x := ht ▸ hw
  -- nothing below has failed
  have hlow : ∀ y, TransGen (Needs db) x y → ∀ b, Ev.failed b y ∉ j.s.log := fun y hy b' hf' => h.below p hA hst hf' hy
  have hlow' : ∀ y, TransGen (Needs db) x y → ∀ b, Ev.failed b y ∉ j'.s.log := by
    intro y hy b' hf'
    obtain ⟨b'', h1⟩ := hbelow y hy ⟨b', hf'⟩
    exact hlow y hy b'' h1
  have hu' : Unhurt db j'.s.log x := by
    intro y hy b' hf'
    rcases Relation.reflTransGen_iff_eq_or_transGen.1 hy with rfl | hy
    · exact hno ⟨b', hf'⟩
    · exact hlow' y hy b' hf'
  obtain ⟨hnw, hb⟩ := (h.told p hA hc.ab b x).2 hf
  have hd := h.clean.derived hfew p hr hc.ab hc.dead x hw (fun y hy z hz => hlow z (TransGen.head' hy hz)) hb
  obtain ⟨b', hst'⟩ := h'.spreads hfew' p' hr' hc' (ht ▸ hplain) hw' hu' hd hne
  have hsc : Ev.succeeded b' x ∈ j'.s.log := (h'.over p' hc' hst').resolve_right (hu' x .refl b')
  have hwk := (h'.told p' hA' hc'.ab b' x).1 hsc
  let S := fun y => Wanted db cfg.targets y ∧ Unhurt db j.s.log y ∧ Unhurt db j'.s.log y
  have heq := Half.inputs (S := S) hfew p ((h.half hfew p hr hc).subset fun y hy => ⟨hy.1, hy.2.1⟩)
    (((h'.half hfew' p' hr' hc').move rfl ht).subset fun y hy => ⟨ht ▸ hy.1, hy.2.2⟩)
    (fun a b ha hab => ⟨ha.1.tail hab, fun z hz => ha.2.1 z (.head hab hz), fun z hz => ha.2.2 z (.head hab hz)⟩) hw
    (fun y hy => ⟨hw.tail hy, fun z hz => hlow z (TransGen.head' hy hz), fun z hz => hlow' z (TransGen.head' hy hz)⟩)
  have heq : Inputs env db j.m c x = Inputs env db j'.m c' x := heq
  rw [heq] at hnw
  exact hnw hwk

/-- The same targets fail. -/
theorem Tells.sameFailures (h : Tells env cfg db recipe works disk0 c0 j c) (hA : NotRetried db cfg.targets j.s) (hc : Complete j.s)
    (h' : Tells env cfg' db recipe works disk0 c0 j' c') (hA' : NotRetried db cfg'.targets j'.s) (hc' : Complete j'.s) (x : Nat) :
    (∃ b, Ev.failed b x ∈ j.s.log) ↔ ∃ b, Ev.failed b x ∈ j'.s.log := by
  have key : ∀ x, Wanted db cfg.targets x → ∀ y, ReflTransGen (Needs db) x y → ((∃ b, Ev.failed b y ∈ j.s.log) ↔ ∃ b, Ev.failed b y ∈ j'.s.log) := by
    refine needs_induct hfew p.un.acyclic ?_
    intro x hx ih y hy
    rcases ReflTransGen.cases_head hy with rfl | ⟨m, hxm, hmy⟩
    · have hbelow : ∀ y, TransGen (Needs db) x y → ((∃ b, Ev.failed b y ∈ j.s.log) ↔ ∃ b, Ev.failed b y ∈ j'.s.log) := by
        intro y hy
        obtain ⟨m, h1, h2⟩ := Relation.TransGen.head'_iff.1 hy
        exact ih m h1 y h2
      exact ⟨h.failsToo hfew p p' ht h0 hplain hA hc h' hA' hc' fun y hy => (hbelow y hy).2,
        h'.failsToo (ht ▸ hfew) p' p ht.symm (ht ▸ h0) (ht ▸ hplain) hA' hc' h hA hc fun y hy => (hbelow y hy).1⟩
    · exact ih m hxm y hmy
  constructor
  · rintro ⟨b, hf⟩
    exact (key x ((h.clean.places p _ _ (h.behaves.reachable.inv.lg.ran b x (.inr hf))).2).wanted x .refl).1 ⟨b, hf⟩
  · rintro ⟨b, hf⟩
    exact (key x (ht ▸ ((h'.clean.places p' _ _ (h'.behaves.reachable.inv.lg.ran b x (.inr hf))).2).wanted) x .refl).2 ⟨b, hf⟩

/-- The same targets are made. -/
theorem Tells.sameStarts (h : Tells env cfg db recipe works disk0 c0 j c) (hA : NotRetried db cfg.targets j.s) (hc : Complete j.s)
    (h' : Tells env cfg' db recipe works disk0 c0 j' c') (hA' : NotRetried db cfg'.targets j'.s) (hc' : Complete j'.s) {x : Nat}
    (hs : ∃ b, Ev.started b x ∈ j.s.log) : ∃ b, Ev.started b x ∈ j'.s.log := by
  obtain ⟨b, hs⟩ := hs
  have hsame := h.sameFailures hfew p p' ht h0 hplain hA hc h' hA' hc'
  by_cases hf : ∃ b, Ev.failed b x ∈ j'.s.log
  · obtain ⟨b, hf⟩ := hf
    exact ⟨b, h'.behaves.reachable.inv.lg.ran b x (.inr hf)⟩
  · obtain ⟨hw, hne⟩ := h.clean.sparedClean p _ _ hs
    have hu : Unhurt db j.s.log x := by
      intro y hy b' hf'
      rcases Relation.reflTransGen_iff_eq_or_transGen.1 hy with rfl | hy
      · exact hf ((hsame _).1 ⟨b', hf'⟩)
      · exact h.below p hA hs hf' hy
    have hu' : Unhurt db j'.s.log x := by
      intro y hy b' hf'
      obtain ⟨b'', h1⟩ := (hsame y).2 ⟨b', hf'⟩
      exact hu y hy b'' h1
    have hd := h.clean.derived hfew p (h.resume p h0 hA) hc.ab hc.dead x hw (fun y hy z hz => hu z (.head hy hz)) (h.clean.canMake p hc.ab hc.dead hs hu)
    exact h'.spreads (ht ▸ hfew) p' (h'.resume p' (ht ▸ h0) hA') hc' (ht ▸ hplain) (ht ▸ hw) hu' hd hne

/-- What does not depend on a failure is the same. -/
theorem Tells.sameContents (h : Tells env cfg db recipe works disk0 c0 j c) (hA : NotRetried db cfg.targets j.s) (hc : Complete j.s)
    (h' : Tells env cfg' db recipe works disk0 c0 j' c') (hA' : NotRetried db cfg'.targets j'.s) (hc' : Complete j'.s) {x : Nat}
    (hw : Wanted db cfg.targets x) (hu : Unhurt db j.s.log x) (hd : Derived (fun n => disk0 (env.abs n)) db x) :
    fm env j.m (db.target x).name ≠ none ∧ fm env j'.m (db.target x).name ≠ none ∧
      c (env.abs (db.target x).name) = c' (env.abs (db.target x).name) := by
  have hsame := h.sameFailures hfew p p' ht h0 hplain hA hc h' hA' hc'
  have hu' : Unhurt db j'.s.log x := by
    intro y hy b' hf'
    obtain ⟨b'', h1⟩ := (hsame y).2 ⟨b', hf'⟩
    exact hu y hy b'' h1
  let S := fun y => Wanted db cfg.targets y ∧ Unhurt db j.s.log y ∧ Unhurt db j'.s.log y
  have hdown : ∀ a b, S a → Needs db a b → S b := fun a b ha hab =>
    ⟨ha.1.tail hab, fun z hz => ha.2.1 z (.head hab hz), fun z hz => ha.2.2 z (.head hab hz)⟩
  have h1 : Half env cfg db recipe disk0 c0 S _ _ := (h.half hfew p (h.resume p h0 hA) hc).subset fun y hy => ⟨hy.1, hy.2.1⟩
  have h2 : Half env cfg db recipe disk0 c0 S _ _ :=
    ((h'.half (ht ▸ hfew) p' (h'.resume p' (ht ▸ h0) hA') hc').move rfl ht).subset fun y hy => ⟨ht ▸ hy.1, hy.2.2⟩
  have hS : S x := ⟨hw, hu, hu'⟩
  exact ⟨(h1.made x hS (h1.buildable hfew p hdown x hw hS hd)).1, (h2.made x hS (h2.buildable hfew p hdown x hw hS hd)).1,
    Half.content hfew p h1 h2 hdown x hw x .refl hS hd⟩

end

/-! ### All graphs can be built -/

/-- With `/K` only exceptions abort a build. -/
theorem _root_.Jom.Sched.Inv.notAborted {s : St} (h : Sched.Inv cfg s) (hk : cfg.keepGoing = true) (hexc : Ev.exception ∉ s.log) : s.aborted = false := by
  cases ha : s.aborted with
  | false => rfl
  | true =>
    rcases h.abLive ha with hf | hx
    · have := (h.framesFail hf).1
      rw [hk] at this
      cases this
    · obtain ⟨code, hx⟩ := List.exists_mem_of_ne_nil _ hx
      rcases h.codes code hx with ⟨_, hd⟩ | ⟨_, ⟨_, h1⟩ | ⟨_, h1, _⟩⟩ | ⟨hc, _⟩
      · have := (h.deadExit hd).2.1
        rw [ha] at this
        cases this
      · exact absurd h1 hexc
      · rw [hk] at h1; cases h1
      · have := hc.ab
        rw [ha] at this
        cases this

/-- The sources exist at the beginning of a build that comes to its end. -/
theorem Tells.providedAll (p : Plan env cfg db disk0) (h : Tells env cfg db recipe works disk0 c0 j c) (hc : Complete j.s) :
    Provided env cfg db disk0 := by
  rintro t ⟨r, hr, hrt⟩ d hd h1 h2
  have ht : Wanted db cfg.targets t := ⟨r, hr, hrt⟩
  have hpi := h.clean.hurt p hc.ab hc.dead
  obtain ⟨b, hb⟩ := List.mem_iff_getElem?.1 hr
  have hle : b ≤ j.s.build := by
    have hp := h.behaves.reachable.inv.lg.pend hc.ab
    rw [hc.pending] at hp
    have := List.drop_eq_nil_iff.1 hp.symm
    have := (List.getElem?_eq_some_iff.1 hb).1
    omega
  have hno : ∀ k, ¬ Resolves db d k := by
    rintro k (h3 | ⟨_, h3⟩)
    · rw [h1] at h3; cases h3
    · rw [h2] at h3; cases h3
  have hsee : Before cfg db (fun _ => False) j.s.build t ∨ Reach cfg db j.s.build t := by
    rcases Nat.lt_or_eq_of_le hle with hlt | rfl
    · exact .inl (.inr ⟨b, hlt, r, hb, hrt⟩)
    · exact .inr ⟨r, hb, hrt⟩
  have hex := hpi.core.sources t hsee d hd hno
  rcases hpi.core.new d ⟨t, ht, .inr (.inl hd)⟩ hex with h3 | ⟨k, hk, ha⟩
  · exact h3
  · exact absurd ((p.un.names t ht d (.inl hd) k hk).2 ha) (hno k)

theorem Tells.aliveAll (hfew : FewerThan db cfg.targets cfg.fuel) (p : Plan env cfg db disk0) (hprov : Provided env cfg db disk0)
    (hk : cfg.keepGoing = true) (h : Tells env cfg db recipe works disk0 c0 j c) :
    NotRetried db cfg.targets j.s → Ev.exception ∉ j.s.log → j.s.dead = false := by
  induction h with
  | start asked hd ha =>
    intro _ _
    cases hk : (Sched.init cfg).dead with
    | false => rfl
    | true =>
      have hr : Run env cfg (fun k => record (db.target k)) disk0 (PlainBehaves env cfg db) _ := .start asked hd ha
      obtain ⟨r, e, hr, he⟩ := hr.reachable.extra.died hk
      rw [show (({ s := Sched.init cfg, m := buildAsked env asked { info := fun k => record (db.target k), files := { disk := disk0, cache := [] } } } : J).s.build) = 0
        from (init_log cfg).2.2] at hr he
      exact absurd he (p.builds hfew hprov (fun _ _ => ⟨rfl, .inl ⟨rfl, rfl, rfl⟩⟩) (fun _ _ => ⟨rfl, .inl ⟨rfl, rfl, rfl⟩⟩) (fun _ _ h => h) hd hr e)
  | @step j j2 c c2 e asked hr hw hs hc hdn ha ih =>
    have hr0 : Tells env cfg db recipe works disk0 c0 j c := hr
    have hr2 : Tells env cfg db recipe works disk0 c0 _ c2 := .step asked hr hw hs hc hdn ha
    intro hA hexc
    have hA2 : NotRetried db cfg.targets j2.s := by
      split at hA
      · exact hA
      · exact hA
    have hexc2 : Ev.exception ∉ j2.s.log := by
      split at hexc
      · exact hexc
      · exact hexc
    suffices hgoal : j2.s.dead = false by
      split
      · exact hgoal
      · exact hgoal
    have hkeep := step_keeps hr0.behaves.reachable.inv hw.1.1.1.1 hw.1.1.2 hs
    have hexc' : Ev.exception ∉ j.s.log := fun hm => hexc2 (hkeep _ hm)
    have hal := ih (hA2.back hr0.clean hw.1.1.1.1 hw.1.1.2 hs) hexc'
    cases hk2 : j2.s.dead with
    | false => rfl
    | true =>
      have hbl := (step_armed hr0.clean.recorded.armed hs).2.2.2
      obtain ⟨hb, a, j1, rfl, hfn, hm⟩ := step_dies hs hal hk2
      have hi := hr0.behaves.reachable.inv
      have hab := hi.notAborted hk hexc'
      have hpi := hr0.clean.hurt p hab hal
      obtain ⟨hp1, _⟩ := PInv.findNext p a _ { j with s := { j.s with queued := j.s.queued - 1 } } j1 hpi hw.1.1.1.1.1 hfn
      have hd2 := hdn hb
      rw [hm] at hd2
      have hdead : (if j2.s.build ≠ j.s.build then { j2 with m := buildAsked env asked j2.m } else j2).s.dead = true := by
        split
        · exact hk2
        · exact hk2
      obtain ⟨r, e, hr, he⟩ := hr2.behaves.reachable.extra.died hdead
      have hbuild : (if j2.s.build ≠ j.s.build then { j2 with m := buildAsked env asked j2.m } else j2).s.build = j2.s.build := by
        split <;> rfl
      rw [hbuild] at hr he
      refine absurd he (p.builds hfew hprov (m := invalidate j1.m) (fun k hkr => hp1.core.stat k hkr.wanted fun hu => hu ?_) hp1.core.weak hp1.core.mono hd2 hr e)
      intro y hy b hf
      obtain ⟨r', hr', hrk⟩ := hkr
      have := hi.lg.logT b y (hi.lg.ran b y (.inr hf))
      exact hA2 b y (hkeep _ hf) j2.s.build r' (by omega) (Nat.le_refl _) hr' (hrk.trans hy)

end Jom.Make
