/- What is in order at the beginning, with all it needs, is not made. -/
import Verif.Proofs.MakeContent

namespace Jom.Make

open Jom.Graph Jom.Sched Jom.UpToDate Jom.Spec Jom.Spec.Build Relation

variable {env : Env} {cfg : Cfg} {db : Db} {disk0 : Str → Option Nat} {j j' : J}

/-- `x` and all it needs are in order at the beginning. -/
def Rests (env : Env) (db : Db) (disk0 : Str → Option Nat) (x : Nat) : Prop :=
  ∀ y, ReflTransGen (Needs db) x y → Buildable (fun n => disk0 (env.abs n)) db y → UpToDate (fun n => disk0 (env.abs n)) db y

/-- The dependents of `x` and of all it needs that are no targets exist at the beginning. -/
def Fed (env : Env) (db : Db) (disk0 : Str → Option Nat) (x : Nat) : Prop :=
  ∀ y, ReflTransGen (Needs db) x y → ∀ d ∈ (db.target y).deps, (∀ k, ¬ Resolves db d k) → disk0 (env.abs d) ≠ none

theorem Plan.rests_present (p : Plan env cfg db disk0) {d : Str} (hm : Missing (fun n => disk0 (env.abs n)) db d) :
    ∀ x, Wanted db cfg.targets x → Rests env db disk0 x → Fed env db disk0 x → d ∉ (db.target x).deps := by
  have key : ∀ {d x k}, Wanted db cfg.targets x → Rests env db disk0 x → d ∈ (db.target x).deps → Resolves db d k →
      disk0 (env.abs d) = none → ¬ Buildable (fun n => disk0 (env.abs n)) db k := by
    intro d x k hx hr hd hk h0 hb
    have hn : Needs db x k := ⟨d, hd, hk⟩
    obtain ⟨T, hT, _⟩ := hr k (.single hn) hb
    have := (p.un.names x hx d (.inl hd) k (hx.tail hn)).1 hk
    rw [this] at h0
    rw [show disk0 (env.abs (db.target k).name) = some T from hT] at h0
    cases h0
  induction hm with
  | noFile h1 h2 =>
    intro x hx hr hf hd
    refine hf x .refl _ hd ?_ h1
    intro k hk
    exact key hx hr hd hk h1 (.inl (p.un.viaDir x hx _ hd h2 k hk))
  | toBuild h1 h2 h3 => intro x hx hr hf hd; exact key hx hr hd (.inl h2) h1 h3
  | @empty d k h1 h2 h3 =>
    intro x hx hr hf hd
    have hn : Needs db x k := ⟨d, hd, .inl h2⟩
    rcases p.un.filled k (hx.tail hn) with h | h | h | ⟨r, h, h'⟩
    · exact h h3
    · exact key hx hr hd (.inl h2) h1 (.inl h)
    · refine h ?_
      have := (p.un.names x hx d (.inl hd) k (hx.tail hn)).1 (.inl h2)
      show disk0 (env.abs (db.target k).name) = none
      rw [← this]
      exact h1
    · exact key hx hr hd (.inl h2) h1 (.inr ⟨r, h, Option.ne_none_iff_exists'.1 h'⟩)
  | @behind d k e h1 h2 h3 _ ih =>
    intro x hx hr hf hd
    have hn : Needs db x k := ⟨d, hd, .inl h2⟩
    exact ih k (hx.tail hn) (fun y hy => hr y (.head hn hy)) (fun y hy => hf y (.head hn hy)) h3

theorem Plan.sure (p : Plan env cfg db disk0) :
    Sure env db (fun x => Wanted db cfg.targets x ∧ Rests env db disk0 x ∧ Fed env db disk0 x) disk0 := by
  rintro x ⟨hx, hr, hf⟩
  refine ⟨⟨hr x .refl, ?_⟩, hf x .refl⟩
  by_cases h0 : disk0 (env.abs (db.target x).name) = none
  · right
    have hb : ¬ Buildable (fun n => disk0 (env.abs n)) db x := by
      intro hb
      obtain ⟨T, hT, _⟩ := hr x .refl hb
      rw [show disk0 (env.abs (db.target x).name) = some T from hT] at h0
      cases h0
    refine ⟨hb, ?_, fun d hd hm => p.rests_present hm x hx hr hf hd⟩
    rcases p.un.filled x hx with h | h | h | ⟨r, h, h'⟩
    · exact h
    · exact absurd (.inl h) hb
    · exact absurd h0 h
    · exact absurd (.inr ⟨r, h, Option.ne_none_iff_exists'.1 h'⟩) hb
  · exact .inl h0

/-- In order at the beginning, with all it needs. -/
abbrev AtEase (env : Env) (cfg : Cfg) (db : Db) (disk0 : Str → Option Nat) (x : Nat) : Prop :=
  Wanted db cfg.targets x ∧ Rests env db disk0 x ∧ Fed env db disk0 x

/-- Not in order at the beginning, or in need of something that was not. -/
def Astir (env : Env) (cfg : Cfg) (db : Db) (disk0 : Str → Option Nat) (x : Nat) : Prop :=
  ¬ (Wanted db cfg.targets x ∧ ∀ y, ReflTransGen (Needs db) x y → AtEase env cfg db disk0 y)

theorem Astir.up {q k : Nat} (hn : Needs db q k) (h : Astir env cfg db disk0 k) : Astir env cfg db disk0 q :=
  fun hq => h ⟨hq.1.tail hn, fun y hy => hq.2 y (.head hn hy)⟩

/-- What is executing is not at rest. -/
theorem PInv.stirs (p : Plan env cfg db disk0) {H : Nat → Prop} (hH : ∀ x, H x → Astir env cfg db disk0 x) {b : Nat} {g : Graph} {m : Mem}
    (h : PInv env cfg db (AtEase env cfg db disk0) H disk0 b g m)
    {x : Nat} (hx : x ∈ g.ids) (he : g.state x = .executing) : Wanted db cfg.targets x ∧ ¬ Rests env db disk0 x := by
  have hrx := h.core.idReach hx
  refine ⟨hrx.wanted, fun hr => ?_⟩
  have hfed : Fed env db disk0 x := by
    intro y hy d hd hk h0
    have hw := hrx.wanted.down hy
    obtain ⟨r, hr', hr''⟩ := hrx
    have h1 := h.core.sources y (.inr ⟨r, hr', hr''.trans hy⟩) d hd hk
    rcases h.core.new d ⟨y, hw, .inr (.inl hd)⟩ h1 with h2 | ⟨k, hk', h2⟩
    · exact h2 h0
    · exact hk k ((p.un.names y hw d (.inl hd) k hk').2 h2)
  have hcalm : Wanted db cfg.targets x ∧ ∀ y, ReflTransGen (Needs db) x y → AtEase env cfg db disk0 y :=
    ⟨hrx.wanted, fun y hy => ⟨hrx.wanted.down hy, fun z hz => hr z (hy.trans hz), fun z hz => hfed z (hy.trans hz)⟩⟩
  exact (h.core.exec x hx he fun hh => hH x hh hcalm).2.2 (.inl hcalm)

/-! ### Which targets are started -/

theorem findNext_started (env : Env) (cfg : Cfg) (a : Answers) : ∀ i j, ∀ b x,
    (∀ j', findNextTarget env cfg a i j = .ok j' → Ev.started b x ∈ j'.s.log → Ev.started b x ∈ j.s.log) ∧
    (∀ j', findNextTarget env cfg a i j = .error j' → Ev.started b x ∈ j'.s.log → Ev.started b x ∈ j.s.log) := by
  intro i
  induction i with
  | zero =>
    intro j b x
    refine ⟨fun j' h => ?_, fun j' h => ?_⟩
    · simp only [findNextTarget] at h; cases h; exact id
    · simp only [findNextTarget] at h; cases h
  | succ i ih =>
    intro j b x
    simp only [findNextTarget]
    split
    · exact ⟨fun j' h => by cases h; exact id, fun j' h => by cases h⟩
    · generalize prune env a.now a.asked cfg.buildAll j.s.g j.m = pr
      obtain ⟨g, m, gone⟩ := pr
      simp only
      have hg : Ev.started b x ∈ j.s.log ++ gone.map (Ev.upToDate j.s.build ·) → Ev.started b x ∈ j.s.log := by
        intro h
        rcases List.mem_append.1 h with h | h
        · exact h
        · simp at h
      split
      · exact ⟨fun j' h => (by cases h), fun j' h => by cases h; exact hg⟩
      · generalize pick g = pk
        obtain ⟨g2, r⟩ := pk
        cases r with
        | none => exact ⟨fun j' h => by cases h; exact hg, fun j' h => by cases h⟩
        | some t =>
          simp only
          generalize (if cfg.buildAll = true then _ else _ : Mem) = m2
          split
          · have := ih { s := { j.s with g := removeLeaf g2 t, next := none, log := (j.s.log ++ gone.map (Ev.upToDate j.s.build ·)) ++ [.noCommands j.s.build t] }, m := m2 } b x
            have hl : Ev.started b x ∈ (j.s.log ++ gone.map (Ev.upToDate j.s.build ·)) ++ [.noCommands j.s.build t] → Ev.started b x ∈ j.s.log := by
              intro h
              rcases List.mem_append.1 h with h | h
              · exact hg h
              · simp at h
            exact ⟨fun j' h h' => hl (this.1 j' h h'), fun j' h h' => hl (this.2 j' h h')⟩
          · split
            · have := ih { s := { j.s with g := removeLeaf g2 t, next := none, log := (j.s.log ++ gone.map (Ev.upToDate j.s.build ·)) ++ [.unbuildable j.s.build t] }, m := m2 } b x
              have hl : Ev.started b x ∈ (j.s.log ++ gone.map (Ev.upToDate j.s.build ·)) ++ [.unbuildable j.s.build t] → Ev.started b x ∈ j.s.log := by
                intro h
                rcases List.mem_append.1 h with h | h
                · exact hg h
                · simp at h
              exact ⟨fun j' h h' => hl (this.1 j' h h'), fun j' h h' => hl (this.2 j' h h')⟩
            · exact ⟨fun j' h => by cases h; exact hg, fun j' h => by cases h⟩

theorem build_started (env : Env) (cfg : Cfg) (asked : Str → Bool) (res : StartRes) (writes : List (Str × Option Nat)) (j : J)
    {b x : Nat} (h : Ev.started b x ∈ (buildNextTarget env cfg asked res writes j).s.log) :
    Ev.started b x ∈ j.s.log ∨ (j.s.aborted = false ∧ j.s.next = some x ∧ b = j.s.build) := by
  unfold Make.buildNextTarget Sched.buildNextTarget at h
  cases hn : j.s.next with
  | none => rw [hn] at h; exact .inl h
  | some t =>
    rw [hn] at h
    simp only at h
    cases hab : j.s.aborted with
    | true => rw [hab] at h; exact .inl (by simpa using h)
    | false =>
      rw [hab] at h
      simp only [Bool.false_eq_true, if_false] at h
      have hb : ∀ e rest, Ev.started b x ∈ (begin e t rest j.s).log → Ev.started b x ∈ j.s.log ∨ (x = t ∧ b = j.s.build) := by
        intro e rest h
        have h : Ev.started b x ∈ j.s.log ++ [Ev.started j.s.build t] := h
        rcases List.mem_append.1 h with h | h
        · exact .inl h
        · rw [List.mem_singleton] at h; cases h; exact .inr ⟨rfl, rfl⟩
      have done : Ev.started b x ∈ j.s.log ∨ (x = t ∧ b = j.s.build) →
          Ev.started b x ∈ j.s.log ∨ (false = false ∧ some t = some x ∧ b = j.s.build) := by
        rintro (h | h)
        · exact .inl h
        · exact .inr ⟨rfl, by rw [h.1], h.2⟩
      cases hav : j.s.avail with
      | nil => rw [hav] at h; exact .inl (by simpa using h)
      | cons e rest =>
        rw [hav] at h
        cases res with
        | throws =>
          simp only [onException, finishBuild, List.mem_append, List.mem_singleton, reduceCtorEq, or_false] at h
          exact .inl h
        | running => exact done (hb e rest h)
        | sync failed =>
          have h : Ev.started b x ∈ (childFinished cfg e t failed (begin e t rest j.s)).log := h
          rw [(childFinished_fields cfg e t failed (begin e t rest j.s)).log] at h
          refine done (hb e rest ?_)
          rcases List.mem_append.1 h with h | h
          · exact h
          · cases failed <;> simp at h

/-- For all targets that were started, `R` holds. -/
def Spared (R : Nat → Nat → Prop) (j : J) : Prop := ∀ b x, Ev.started b x ∈ j.s.log → R b x

variable {Q H : Nat → Prop} {R : Nat → Nat → Prop}

theorem Spared.build
    (hR : ∀ b g m x, PInv env cfg db Q H disk0 b g m → x ∈ g.ids → g.state x = .executing → R b x) (h : Spared R j)
    (hf : j.s.aborted = false → PInv env cfg db Q H disk0 j.s.build j.s.g j.m) (hlg : LogInv cfg j.s)
    (asked : Str → Bool) (res : StartRes) (writes : List (Str × Option Nat)) :
    Spared R (buildNextTarget env cfg asked res writes j) := by
  intro b x hx
  rcases build_started env cfg asked res writes j hx with h1 | ⟨h1, h2, rfl⟩
  · exact h b x h1
  · obtain ⟨h3, h4, _⟩ := hlg.nextOk h1 x h2
    exact hR _ _ _ _ (hf h1) h3 h4

theorem Spared.startProcesses (p : Plan env cfg db disk0)
    (hR : ∀ b g m x, PInv env cfg db Q H disk0 b g m → x ∈ g.ids → g.state x = .executing → R b x) (h : Spared R j)
    (hf : j.s.aborted = false → PInv env cfg db Q H disk0 j.s.build j.s.g j.m) (hi : Inv cfg j.s) (a : Answers) (q : Nat)
    (hclock : ∀ x s, j.m.files.disk x = some s → s ≤ a.now) :
    Spared R (startProcesses env cfg a { j with s := { j.s with queued := q } }) := by
  unfold Make.startProcesses
  split
  · exact h
  · next hcond =>
    simp only [Bool.or_eq_true, List.isEmpty_iff, not_or, Bool.not_eq_true] at hcond
    obtain ⟨⟨hab, hacq⟩, hav⟩ := hcond
    have hab : j.s.aborted = false := hab
    have hn : j.s.next = none := hi.idle hab hacq
    have hl0 : LogInv cfg { j.s with queued := q } := hi.lg.congr rfl rfl rfl id id rfl rfl rfl rfl (fun _ => rfl)
    obtain ⟨o, ho⟩ := findNext_refine env cfg a (j.s.g.ids.length + 1) { j with s := { j.s with queued := q } } hl0.ginv
    have ho := ho o fun _ _ => ⟨rfl, rfl, rfl⟩
    have hfs := findNext_spec cfg o (j.s.g.ids.length + 1) { j.s with queued := q } hl0 hab hn
    rw [show Sched.findNextTarget cfg o (j.s.g.ids.length + 1) { j.s with queued := q } = _ from ho] at hfs
    have hok : ∀ j', findNextTarget env cfg a (j.s.g.ids.length + 1) { j with s := { j.s with queued := q } } = .ok j' →
        PInv env cfg db _ H disk0 j.s.build j'.s.g j'.m :=
      fun j' he => (PInv.findNext p a _ { j with s := { j.s with queued := q } } j' (hf hab) hclock he).1
    have hst := findNext_started env cfg a (j.s.g.ids.length + 1) { j with s := { j.s with queued := q } }
    have hnn : ({ j.s with queued := q } : St).next.isNone = true := by show j.s.next.isNone = true; rw [hn]; rfl
    rw [if_pos hnn]
    generalize findNextTarget env cfg a (({ j.s with queued := q } : St).g.ids.length + 1) { j with s := { j.s with queued := q } } = res
      at hfs hok hst
    cases res with
    | error j' =>
      intro b x hx
      simp only [onException, finishBuild, List.mem_append, List.mem_singleton, reduceCtorEq, or_false] at hx
      exact h b x ((hst b x).2 j' rfl hx)
    | ok j' =>
      simp only
      obtain ⟨⟨f1, f2, _⟩, f4, _⟩ := hfs
      simp only at f1 f2 f4
      have hs' : Spared R j' := fun b x hx => h b x ((hst b x).1 j' rfl hx)
      have e1 : j'.s.build = j.s.build := by rw [f1]
      have hfine : j'.s.aborted = false → PInv env cfg db Q H disk0 j'.s.build j'.s.g j'.m := by
        intro _
        rw [e1]
        exact hok j' rfl
      split
      · split
        · exact hs'.build hR hfine f2 a.asked a.res a.writes
        · exact hs'
      · split
        · split
          · exact hs'
          · intro b x hx
            refine hs' b x ?_
            unfold Sched.rebuild at hx
            split at hx <;> exact hx
        · exact hs'

theorem step_allOk {e : Make.Event} (hi : Inv cfg j.s) (hw : PlainBehaves env cfg db j e) (hs : Make.step env cfg j e = some j')
    (ho : j'.s.allOk = true) : j.s.allOk = true := by
  cases e with
  | startProcesses a =>
    simp only [Make.step] at hs
    split at hs
    · cases hs
      exact (start_onward env cfg a (j := { j with s := { j.s with queued := j.s.queued - 1 } }) hw.2 ho).allOk ho
    · cases hs
  | grant =>
    simp only [Make.step] at hs
    split at hs
    · cases hs; exact ho
    · cases hs
  | acquired asked res writes inWait =>
    simp only [Make.step] at hs
    split at hs
    · next hc =>
      cases hs
      have h1 : (buildNextTarget env cfg asked res writes { j with s := { j.s with acquiring := false, granted := false } }).s.allOk = true := by
        split at ho
        · exact ho
        · exact ho
      exact (build_onward env cfg asked writes (j := { j with s := { j.s with acquiring := false, granted := false } })
        (hi.ex.acqAvail (hi.ex.gr hc.2.1)) hw h1).allOk h1
    · cases hs
  | childFinished ex failed =>
    simp only [Make.step] at hs
    split at hs
    · cases hs
    · split at hs
      · next t _ =>
        cases hs
        simp only [(childFinished_fields cfg ex t failed j.s).allOk, Bool.and_eq_true] at ho
        exact ho.1
      · cases hs
  | abortDone =>
    simp only [Make.step] at hs
    split at hs
    · cases hs; exact ho
    · cases hs
  | write file value => cases hs; exact ho

theorem Run.spare (p : Plan env cfg db disk0)
    (hR : ∀ b g m x, PInv env cfg db Q H disk0 b g m → x ∈ g.ids → g.state x = .executing → R b x) {ok : J → Make.Event → Prop}
    (hok : ∀ j a, ok j (.startProcesses a) → ∀ x s, j.m.files.disk x = some s → s ≤ a.now) {C : St → Prop}
    (hback : ∀ j e j', Inv cfg j.s → ok j e → Make.step env cfg j e = some j' → C j'.s → C j.s)
    (hfine : ∀ j, Run env cfg (fun k => record (db.target k)) disk0 ok j → C j.s → j.s.aborted = false → j.s.dead = false →
      PInv env cfg db Q H disk0 j.s.build j.s.g j.m)
    (h : Run env cfg (fun k => record (db.target k)) disk0 ok j) : C j.s → Spared R j := by
  induction h with
  | start asked hd ha =>
    intro _ b x hx
    have hx : Ev.started b x ∈ (Sched.init cfg).log := hx
    unfold Sched.init Sched.rebuild at hx
    split at hx
    · cases hx
    · split at hx <;> (simp only at hx; split at hx <;> cases hx)
  | @step j j' e asked hr hw hs hdn ha ih =>
    have hi := hr.reachable.inv
    have key : C j'.s → Spared R j' := by
      intro ho'
      have ho : C j.s := hback j e j' hi hw hs ho'
      have hs0 := ih ho
      have hf := hfine j hr ho
      cases e with
      | startProcesses a =>
        simp only [Make.step] at hs
        split at hs
        · next hc =>
          cases hs
          exact hs0.startProcesses p hR (fun h => hf h hc.1) hi a _ (hok j a hw)
        · cases hs
      | grant =>
        simp only [Make.step] at hs
        split at hs
        · cases hs; exact hs0
        · cases hs
      | acquired asked res writes w =>
        simp only [Make.step] at hs
        split at hs
        · next hc =>
          have := Spared.build hR (j := { j with s := { j.s with acquiring := false, granted := false } }) hs0 (fun h => hf h hc.1)
            (hi.lg.congr rfl rfl rfl id id rfl rfl rfl rfl (fun _ => rfl)) asked res writes
          cases hs
          split
          · exact this
          · exact this
        · cases hs
      | childFinished ex f =>
        simp only [Make.step] at hs
        split at hs
        · cases hs
        · split at hs
          · next t _ =>
            cases hs
            intro b x hx
            simp only [(childFinished_fields cfg ex t f j.s).log] at hx
            rcases List.mem_append.1 hx with hx | hx
            · exact hs0 b x hx
            · cases f <;> simp at hx
          · cases hs
      | abortDone =>
        simp only [Make.step] at hs
        split at hs
        · cases hs; exact hs0
        · cases hs
      | write file value => cases hs; exact hs0
    split
    · exact key
    · exact key

theorem Run.spared (p : Plan env cfg db disk0)
    (h : Run env cfg (fun k => record (db.target k)) disk0 (PlainBehaves env cfg db) j)
    (ho : cfg.keepGoing = false ∨ j.s.allOk = true) :
    Spared (fun _ x => Wanted db cfg.targets x ∧ ¬ Rests env db disk0 x) j := by
  refine h.spare p (H := fun _ => False) (C := fun s => cfg.keepGoing = false ∨ s.allOk = true) 
    (fun _ _ _ _ hp => hp.stirs p fun _ h => h.elim) (fun _ _ h => h.1)
    (fun j e j' hi hw hs => Or.imp id (step_allOk hi hw hs)) (fun j hr ho hab hd => hr.fineOk p p.sure hab hd ?_) ho
  rcases ho with h | h
  · cases hk : j.s.allOk with
    | true => rfl
    | false =>
      obtain ⟨b, z, hz⟩ := hr.reachable.inv.lg.allOk.1 hk
      rw [hr.reachable.inv.lg.failAb h b z hz] at hab
      cases hab
  · exact h

/-- With failures. -/
theorem Run.sparedClean (p : Plan env cfg db disk0)
    (h : Run env cfg (fun k => record (db.target k)) disk0 (fun j e => PlainBehaves env cfg db j e ∧ FailsClean env cfg db e) j) :
    Spared (fun _ x => Wanted db cfg.targets x ∧ ¬ Rests env db disk0 x) j := by
  refine h.spare p (H := Astir env cfg db disk0) (C := fun _ => True) (fun _ _ _ _ hp => hp.stirs p fun _ h => h) (fun _ _ h => h.1.1)
    (fun _ _ _ _ _ _ _ => trivial) (fun j hr _ hab hd => ?_) trivial
  refine Run.fine p p.sure (fun _ _ => Astir.up) (hr.mono fun _ _ h => ⟨h.1, .inr h.2⟩) hab hd fun b t ht => ?_
  by_cases hq : Astir env cfg db disk0 t
  · exact .inl hq
  · exact .inr (Classical.not_not.1 hq)

/-- In which build something is started. -/
theorem Run.places (p : Plan env cfg db disk0)
    (h : Run env cfg (fun k => record (db.target k)) disk0 (fun j e => PlainBehaves env cfg db j e ∧ FailsClean env cfg db e) j) :
    Spared (fun b x => (∀ t, Wanted db cfg.targets t → ∀ k, DependsOn (cfg.deps b) t k ↔ Needs db t k) ∧ Reach cfg db b x) j :=
  h.spare p (H := fun _ => True) (Q := fun _ => False) (C := fun _ => True) (fun _ _ _ _ hp hx _ => ⟨hp.core.edges, hp.core.idReach hx⟩)
    (fun _ _ h => h.1.1) (fun _ _ _ _ _ _ _ => trivial)
    (fun _ hr _ hab hd => Run.fine p sure_none (fun _ _ _ h => h) (hr.mono fun _ _ h => ⟨h.1, .inr h.2⟩) hab hd fun _ _ _ => .inl trivial) trivial

/-- Without `/K`, nothing is started that an earlier requested target needs. -/
theorem Run.noTwice (p : Plan env cfg db disk0) (hk : cfg.keepGoing = false)
    (h : Run env cfg (fun k => record (db.target k)) disk0 (PlainBehaves env cfg db) j) :
    Spared (fun b x => ∀ b' < b, ¬ Reach cfg db b' x) j := by
  refine h.spare p (H := fun _ => False) (Q := fun _ => False) (C := fun _ => True)
    (fun _ _ _ _ hp hx he b' hb' hr => (hp.core.exec _ hx he fun h => h).2.2 (.inr ⟨b', hb', hr⟩))
    (fun _ _ h => h.1) (fun _ _ _ _ _ _ _ => trivial) (fun j hr _ hab hd => hr.fineOk p sure_none hab hd ?_) trivial
  cases ho : j.s.allOk with
  | true => rfl
  | false =>
    obtain ⟨b, z, hz⟩ := hr.reachable.inv.lg.allOk.1 ho
    rw [hr.reachable.inv.lg.failAb hk b z hz] at hab
    cases hab

end Jom.Make
