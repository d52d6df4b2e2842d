/- Runs in which the commands are only shown (`/N`): the files do not change. -/
import Verif.Proofs.MakeSecondRun

namespace Jom.Make

open Jom.Graph Jom.Sched Jom.UpToDate Jom.Spec Jom.Spec.Build Relation

/-! ### One test -/

/-- Later than all files. -/
def Late (f : Files) (s : Nat) : Prop := ∀ n s', f n = some s' → s' < s

/-- The record of a target that has been tested while the files do not change. -/
def Faith (f : Files) (db : Db) (k : Nat) (x : TInfo) : Prop :=
  Seen f db k x ∧ (f (db.target k).name = none → ¬ Buildable f db k →
    ((db.target k).deps = [] → x.time = 0) ∧ ((∃ e ∈ (db.target k).deps, Missing f db e) → Late f x.time))

/-- A target without file that can be made has commands by now. -/
def DArmed (f : Files) (db : Db) (k : Nat) (x : TInfo) : Prop :=
  f (db.target k).name = none → Buildable f db k → x.hasCmds = true

theorem stamp_missing {db : Db} {w : World} (hl : w.lookup = db.lookup) {info : Nat → TInfo} {d : Str} (h : DepOk w db info d)
    (hf : ∀ k, w.lookup d = some k → Faith w.fi db k (info k) ∧ DArmed w.fi db k (info k)) (hm : Missing w.fi db d) :
    stampOf w info d = none ∨ ∃ s, stampOf w info d = some s ∧ Late w.fi s := by
  have hfd : w.fi d = none := by cases hm <;> assumption
  have hmod : w.modified d = 0 := by simp [World.modified, hfd]
  cases hk : w.lookup d with
  | none => left; simp [stampOf, hk, hmod]
  | some k =>
    obtain ⟨⟨⟨h1, _⟩, h2⟩, h3⟩ := hf k hk
    have hname : w.fi (db.target k).name = none := by rw [← h.same k hk]; exact hfd
    have hex := (h1.2 hname).1
    by_cases hb : Buildable w.fi db k
    · left; simp [stampOf, hk, hex, h3 hname hb]
    · have hc := (static_plain (h.stat k hk) hb).2.1
      obtain ⟨h4, h5⟩ := h2 hname hb
      have hst : stampOf w info d = if (info k).time ≠ 0 then some (info k).time else none := by
        simp [stampOf, hk, hex, hc, hmod]
      rw [hst]
      have hk' : db.lookup d = some k := hl ▸ hk
      cases hm with
      | noFile _ hx => rw [hk'] at hx; cases hx
      | toBuild _ hx hb' => rw [hk'] at hx; cases hx; exact absurd hb' hb
      | empty _ hx he => rw [hk'] at hx; cases hx; left; simp [h4 he]
      | behind _ hx he hm' =>
        rw [hk'] at hx; cases hx
        by_cases h0 : (info k).time = 0
        · left; simp [h0]
        · right; exact ⟨_, if_pos h0, h5 ⟨_, he, hm'⟩⟩

theorem latest_late {w : World} {info : Nat → TInfo} {ds : List Str} (hnow : Late w.fi w.now) {d : Str} (hd : d ∈ ds)
    (h : stampOf w info d = none ∨ ∃ s, stampOf w info d = some s ∧ Late w.fi s) : Late w.fi (latestTime w info ds 0) := by
  by_cases hn : ∃ d ∈ ds, stampOf w info d = none
  · rw [latest_missing w info ds 0 hn]; exact hnow
  · have hall : ∀ d ∈ ds, stampOf w info d ≠ none := fun d hd h0 => hn ⟨d, hd, h0⟩
    rcases h with h | ⟨s, hs, h⟩
    · exact absurd h (hall d hd)
    · have := ((latest_le w info _ ds 0 hall).1 (Nat.le_refl _)).2 d hd s hs
      exact fun n s' hn => Nat.lt_of_lt_of_le (h n s' hn) this

/-- The answer is exact and the record stays right. -/
theorem test_faith {db : Db} {w : World} (hl : w.lookup = db.lookup) (hnz : ∀ d s, w.fi d = some s → s ≠ 0) (hnow : Late w.fi w.now)
    {t : Nat} {info : Nat → TInfo} (hst : Static w.fi db t (info t)) (hrec : Fresh (info t) ∨ Faith w.fi db t (info t))
    (hlk : ∀ d, Looked w.fi (info t) d ↔ Counts w.fi db t d)
    (hdep : ∀ d, Looked w.fi (info t) d → DepOk w db info d)
    (hf : ∀ d, Looked w.fi (info t) d → ∀ k, w.lookup d = some k → k ≠ t ∧ Faith w.fi db k (info k) ∧ DArmed w.fi db k (info k)) :
    Faith w.fi db t ((isTargetUpToDate w t info).1 t) ∧ ((isTargetUpToDate w t info).2 = true ↔ UpToDate w.fi db t) := by
  have hn := hst.1
  have hself : w.fi (db.target t).name = none → (info t).fileExists = false := by
    intro h0
    rcases hrec with h | h
    · exact h.1
    · exact (h.1.1.2 h0).1
  obtain ⟨e1, e2, e3⟩ := test_exact hl hnz hst hself hdep (fun d hd k hk => (hf d hd k hk).2.1.1)
  obtain ⟨_, s2⟩ := test_safe hl (t := t) (info := info) (fun d hd s hs => by
    obtain ⟨e, he⟩ := behind_file hs
    exact Nat.le_of_lt (hnow e s he)) hst hself hdep
  refine ⟨⟨⟨e1, e2⟩, fun h0 hb => ?_⟩, fun ha => ?_, ?_⟩
  · obtain ⟨h1, h2⟩ := effect_noFile w t info (by rw [hn]; exact h0) (hself h0)
    obtain ⟨hd, _, _⟩ := static_plain hst hb
    rw [h2]
    simp only [upd, if_true]
    rw [hd]
    refine ⟨fun he => ?_, fun ⟨e, he, hm⟩ => ?_⟩
    · rw [if_pos he]
      rcases hrec with h | h
      · exact h.2
      · exact (h.2 h0 hb).1 he
    · rw [if_neg (by rintro h; rw [h] at he; cases he)]
      have hlo : Looked w.fi (info t) e := .inl (by rw [hd]; exact he)
      exact latest_late hnow he (stamp_missing hl (hdep e hlo) (fun k hk => (hf e hlo k hk).2) hm)
  · -- no dependent is missing
    have hnm : ∀ d, Looked w.fi (info t) d → ¬ Missing w.fi db d := by
      intro d hd hm
      cases hf' : w.fi (db.target t).name with
      | none =>
        rw [(effect_noFile w t info (by rw [hn]; exact hf') (hself hf')).1] at ha
        cases ha
      | some T =>
        have hft : w.fi (info t).name = some T := by rw [hn]; exact hf'
        have hT : (readFile w t info t).time = T := by rw [readFile_at, hft]
        have hst' : stampOf w (readFile w t info) d = stampOf w info d := by
          unfold stampOf
          cases hk : w.lookup d with
          | none => rfl
          | some k => simp only; rw [readFile_other w t info (hf d hd k hk).1]
        have hsm := stamp_missing hl (hdep d hd) (fun k hk => (hf d hd k hk).2) hm
        rw [← hst'] at hsm
        rw [answer_iff, compare_iff, hT, (readFile_deps w t info t).1] at ha
        obtain ⟨⟨_, h1⟩, h2⟩ := ha
        have hmem := (addInferred_mem w d (info t).rules (info t).deps).2 hd
        rcases h2 with h2 | h2
        · rw [h2] at hmem
          rcases h1 with h1 | h1
          · rw [h1] at hmem; cases hmem
          · have := latest_late hnow hmem hsm _ T hf'
            omega
        · have := latest_late hnow hmem hsm _ T hf'
          omega
    obtain ⟨T, hT, h⟩ := s2 ha hnm
    exact ⟨T, hT, fun d hd => ⟨hnm d ((hlk d).2 hd), h d ((hlk d).2 hd)⟩⟩
  · rintro ⟨T, hT, h⟩
    exact e3 T hT fun d hd => h d ((hlk d).1 hd)

/-! ### The records -/

variable {env : Env} {cfg : Cfg} {db : Db} {disk : Str → Option Nat} {b : Nat} {g : Graph} {m : Mem}

/-- The files by name. -/
abbrev fd (env : Env) (disk : Str → Option Nat) : Files := fun n => disk (env.abs n)

structure DMem (env : Env) (cfg : Cfg) (db : Db) (disk : Str → Option Nat) (m : Mem) : Prop where
  diskEq : m.files.disk = disk
  cache : CacheOk env.abs m.files
  stat : ∀ k, Wanted db cfg.targets k → Static (fd env disk) db k (m.info k)
  record : ∀ k, Wanted db cfg.targets k → Fresh (m.info k) ∨ Faith (fd env disk) db k (m.info k)

theorem DMem.fi (h : DMem env cfg db disk m) (now : Nat) : (world env now m.files).fi = fd env disk := by
  funext n
  simp only [world]
  rw [(query_ok h.cache n).1, h.diskEq]

theorem Faith.congr {f : Files} {k : Nat} {x y : TInfo} (he : y.fileExists = x.fileExists) (ht : y.time = x.time)
    (h : Faith f db k x) : Faith f db k y := by
  refine ⟨⟨h.1.1.congr he ht, h.1.2.congr ht⟩, ?_⟩
  rw [ht]
  exact h.2

/-- What `l` needs has been settled. -/
def DReady (env : Env) (db : Db) (disk : Str → Option Nat) (m : Mem) (l : Nat) : Prop :=
  ∀ k, Needs db l k → Faith (fd env disk) db k (m.info k) ∧ DArmed (fd env disk) db k (m.info k)

theorem Plan.looked (p : Plan env cfg db disk) {t : Nat} (ht : Wanted db cfg.targets t) {x : TInfo}
    (h : Static (fd env disk) db t x) (d : Str) : Looked (fd env disk) x d ↔ Counts (fd env disk) db t d := by
  rcases h.2 with ⟨h1, _, h3⟩ | ⟨r, hr, ⟨s, hs⟩, h3, _, h4⟩
  · unfold Looked Counts
    rw [h1, h3]
  · constructor
    · rintro (hd | ⟨hd, _⟩)
      · rcases (h4 d).1 hd with h5 | rfl
        · exact .inl h5
        · exact .inr ⟨hr, s, hs⟩
      · rw [h3] at hd; cases hd
    · rintro (hd | ⟨hd, s', hs'⟩)
      · exact .inl ((h4 d).2 (.inl hd))
      · exact .inl ((h4 d).2 (.inr (p.un.oneRule t ht d hd r hr (.inl (Option.ne_none_iff_exists'.2 ⟨s', hs'⟩)) (.inl (Option.ne_none_iff_exists'.2 ⟨s, hs⟩)))))

theorem Plan.spelled (p : Plan env cfg db disk) {t : Nat} (ht : Wanted db cfg.targets t) {d : Str}
    (hd : d ∈ (db.target t).deps ∨ d ∈ (db.target t).rules) {k : Nat} (hk : db.lookup d = some k) :
    fd env disk d = fd env disk (db.target k).name := by
  have := (p.un.names t ht d hd k (ht.tail (p.needs ht hd (.inl hk)))).1 (.inl hk)
  show disk _ = disk _
  rw [this]

theorem DMem.test (p : Plan env cfg db disk) (hm : DMem env cfg db disk m) {now : Nat} (hclock : ∀ x s, disk x = some s → s < now)
    (asked : Str → Bool) {t : Nat} (ht : Wanted db cfg.targets t) (hr : DReady env db disk m t) :
    DMem env cfg db disk (test env now asked t m).1 ∧
    Faith (fd env disk) db t ((test env now asked t m).1.info t) ∧
    (∀ k, k ≠ t → (test env now asked t m).1.info k = m.info k) ∧
    ((test env now asked t m).1.info t).hasCmds = (m.info t).hasCmds ∧
    ((test env now asked t m).2 = true ↔ UpToDate (fd env disk) db t) := by
  have hfi := hm.fi now
  have hl : (world env now m.files).lookup = db.lookup := p.lookup
  have hst := hm.stat t ht
  have hrec := hm.record t ht
  have hlk := p.looked ht hst
  have hself : (world env now m.files).fi (m.info t).name = none → (m.info t).fileExists = false := by
    rw [hfi, hst.1]
    intro h0
    rcases hrec with h | h
    · exact h.1
    · exact (h.1.1.2 h0).1
  have hneed : ∀ d, Looked (fd env disk) (m.info t) d → ∀ k, db.lookup d = some k → Needs db t k := fun d hd k hk =>
    p.needs ht (((hlk d).1 hd).imp id And.left) (.inl hk)
  obtain ⟨f1, f2⟩ := test_faith (w := world env now m.files) hl (by rw [hfi]; exact p.un.times)
    (by rw [hfi]; exact fun n s h => hclock _ s h) (t := t) (info := m.info) (by rw [hfi]; exact hst) (by rw [hfi]; exact hrec)
    (by rw [hfi]; exact hlk)
    (by
      rw [hfi]
      intro d hd
      refine ⟨fun k hk => ?_, fun k hk => ?_, fun k hk => ?_⟩ <;> rw [hl] at hk <;> rw [hfi]
      · exact p.spelled ht (((hlk d).1 hd).imp id And.left) hk
      · exact hm.stat k (ht.tail (hneed d hd k hk))
      · exact .inl (hr k (hneed d hd k hk)).1.1.1)
    (by
      rw [hfi]
      intro d hd k hk
      rw [hl] at hk
      refine ⟨fun he => ?_, hr k (hneed d hd k hk)⟩
      subst he
      exact p.un.acyclic k ht (.single (hneed d hd k hk)))
  rw [hfi] at f1 f2
  obtain ⟨b1, e', s', b2, _⟩ := test_fields hself
  obtain ⟨h4, h5⟩ := remember_ok (asked := asked) (names := (m.info t).name :: (m.info t).deps ++ (m.info t).rules) hm.cache
  refine ⟨⟨by show _ = _; rw [← hm.diskEq]; exact h5, h4, ?_, ?_⟩, f1, b1, ?_, f2⟩
  · intro k hk
    by_cases hkt : k = t
    · subst hkt
      show Static _ _ _ ((isTargetUpToDate _ _ _).1 _)
      rw [b2]
      exact hst
    · show Static _ _ _ ((isTargetUpToDate _ _ _).1 _)
      rw [b1 k hkt]; exact hm.stat k hk
  · intro k hk
    by_cases hkt : k = t
    · subst hkt; exact .inr f1
    · show Fresh ((isTargetUpToDate _ _ _).1 _) ∨ Faith _ _ _ ((isTargetUpToDate _ _ _).1 _)
      rw [b1 k hkt]; exact hm.record k hk
  · show ((isTargetUpToDate _ _ _).1 _).hasCmds = _
    rw [b2]

theorem DReady.keep {m' : Mem} {l : Nat} (h : DReady env db disk m l)
    (hf : ∀ k, Faith (fd env disk) db k (m.info k) → Faith (fd env disk) db k (m'.info k))
    (hc : ∀ k, (m.info k).hasCmds = true → (m'.info k).hasCmds = true) : DReady env db disk m' l := fun k hk =>
  ⟨hf k (h k hk).1, fun h0 hb => hc k ((h k hk).2 h0 hb)⟩

theorem DMem.checkLeaves (p : Plan env cfg db disk) {now : Nat} (hclock : ∀ x s, disk x = some s → s < now) (asked : Str → Bool)
    {state : Nat → NState} : ∀ (ls : List Nat) (m : Mem), DMem env cfg db disk m →
    (∀ l ∈ ls, state l ≠ .executing ∧ Wanted db cfg.targets l ∧ DReady env db disk m l) →
    DMem env cfg db disk (checkLeaves env now asked state ls m).1 ∧
    (∀ k, Faith (fd env disk) db k (m.info k) → Faith (fd env disk) db k ((checkLeaves env now asked state ls m).1.info k)) ∧
    (∀ k, ((checkLeaves env now asked state ls m).1.info k).hasCmds = (m.info k).hasCmds) ∧
    (∀ l ∈ ls, Faith (fd env disk) db l ((checkLeaves env now asked state ls m).1.info l)) ∧
    (∀ l, l ∈ (checkLeaves env now asked state ls m).2 ↔ l ∈ ls ∧ UpToDate (fd env disk) db l) := by
  intro ls
  induction ls with
  | nil => intro m hm _; exact ⟨hm, fun _ h => h, fun _ => rfl, fun l hl => (by cases hl), by simp [Make.checkLeaves]⟩
  | cons l ls ih =>
    intro m hm hls
    simp only [Make.checkLeaves]
    obtain ⟨h1, h2, h3⟩ := hls l List.mem_cons_self
    rw [if_neg h1]
    obtain ⟨a1, a2, a3, a4, a5⟩ := hm.test p hclock asked h2 h3
    generalize Make.test env now asked l m = r at a1 a2 a3 a4 a5
    obtain ⟨m1, u⟩ := r
    simp only at a1 a2 a3 a4 a5 ⊢
    have hmono : ∀ k, Faith (fd env disk) db k (m.info k) → Faith (fd env disk) db k (m1.info k) := by
      intro k hk
      by_cases hkl : k = l
      · subst hkl; exact a2
      · rw [a3 k hkl]; exact hk
    have hcmd : ∀ k, (m1.info k).hasCmds = (m.info k).hasCmds := by
      intro k
      by_cases hkl : k = l
      · subst hkl; exact a4
      · rw [a3 k hkl]
    obtain ⟨b1, b2, b3, b4, b5⟩ := ih m1 a1 fun x hx =>
      ⟨(hls x (List.mem_cons_of_mem _ hx)).1, (hls x (List.mem_cons_of_mem _ hx)).2.1,
        (hls x (List.mem_cons_of_mem _ hx)).2.2.keep hmono (fun k h => by rw [hcmd]; exact h)⟩
    refine ⟨b1, fun k hk => b2 k (hmono k hk), fun k => (b3 k).trans (hcmd k), ?_, ?_⟩
    · intro x hx
      rcases List.mem_cons.1 hx with rfl | hx
      · exact b2 x a2
      · exact b4 x hx
    · intro x
      cases u with
      | true =>
        simp only [if_true, List.mem_cons, b5]
        constructor
        · rintro (rfl | ⟨h, h'⟩)
          · exact ⟨.inl rfl, a5.1 rfl⟩
          · exact ⟨.inr h, h'⟩
        · rintro ⟨rfl | h, h'⟩
          · exact .inl rfl
          · exact .inr ⟨h, h'⟩
      | false =>
        simp only [Bool.false_eq_true, if_false, List.mem_cons, b5]
        constructor
        · rintro ⟨h, h'⟩; exact ⟨.inr h, h'⟩
        · rintro ⟨rfl | h, h'⟩
          · exact absurd (a5.2 h') Bool.false_ne_true
          · exact ⟨h, h'⟩

/-! ### The graph -/

structure DInv (env : Env) (cfg : Cfg) (db : Db) (disk : Str → Option Nat) (b : Nat) (g : Graph) (m : Mem) : Prop where
  edges : ∀ t, Wanted db cfg.targets t → ∀ k, DependsOn (cfg.deps b) t k ↔ Needs db t k
  ginv : GInv (cfg.deps b) cfg.targets[b]? g
  mem : DMem env cfg db disk m
  done : ∀ x, Reach cfg db b x → x ∉ g.ids → Faith (fd env disk) db x (m.info x) ∧ DArmed (fd env disk) db x (m.info x)
  idle : ∀ x ∈ g.ids, g.state x = .unknown
  clean : g.dirty = false → ∀ l ∈ g.leaves, Faith (fd env disk) db l (m.info l) ∧ ¬ UpToDate (fd env disk) db l

theorem DInv.reach (h : DInv env cfg db disk b g m) {x : Nat} (hx : x ∈ g.ids) : Reach cfg db b x := by
  obtain ⟨r, hr, h1⟩ := h.ginv.reach x hx
  exact ⟨r, hr, (edges_reach h.edges hr).1 h1⟩

theorem DInv.leafReach (h : DInv env cfg db disk b g m) {x : Nat} (hx : x ∈ g.leaves) : Reach cfg db b x :=
  h.reach ((h.ginv.lv x).1 hx).1

theorem DInv.ready (h : DInv env cfg db disk b g m) {l : Nat} (hl : l ∈ g.leaves) : DReady env db disk m l := by
  intro k hk
  obtain ⟨hi, hch⟩ := (h.ginv.lv l).1 hl
  have hrl := h.reach hi
  refine h.done k (hrl.tail hk) fun hki => ?_
  have := (h.ginv.ch l hi k).2 ⟨(h.edges l hrl.wanted k).2 hk, hki⟩
  rw [hch] at this
  cases this

theorem DInv.round (p : Plan env cfg db disk) (h : DInv env cfg db disk b g m) {now : Nat}
    (hclock : ∀ x s, disk x = some s → s < now) (asked : Str → Bool) :
    DInv env cfg db disk b
      ((checkLeaves env now asked g.state g.leaves m).2.foldl removeLeafNode { g with dirty := false })
      (checkLeaves env now asked g.state g.leaves m).1 ∧
    ∀ x ∈ (checkLeaves env now asked g.state g.leaves m).2, Reach cfg db b x ∧ UpToDate (fd env disk) db x := by
  have hs := removeUpToDate_spec (fun l => decide (l ∈ (checkLeaves env now asked g.state g.leaves m).2)) h.ginv
  rw [round_eq env now asked g m h.ginv.lvNodup] at hs
  obtain ⟨a1, a2, a3, a4, a5⟩ := hs
  obtain ⟨b1, b2, b3, b4, b5⟩ := DMem.checkLeaves p hclock asked (state := g.state) g.leaves m h.mem (fun l hl =>
    ⟨by rw [h.idle l ((h.ginv.lv l).1 hl).1]; exact NState.noConfusion, (h.leafReach hl).wanted, h.ready hl⟩)
  have hr : ∀ x ∈ g.leaves, Reach cfg db b x := fun x hx => h.leafReach hx
  generalize checkLeaves env now asked g.state g.leaves m = r at *
  obtain ⟨m1, gone⟩ := r
  simp only at *
  refine ⟨⟨h.edges, a1, b1, ?_, ?_, ?_⟩, fun x hx => ⟨hr x ((b5 x).1 hx).1, ((b5 x).1 hx).2⟩⟩
  · intro x hx hxi
    rw [a2, List.mem_filter, decide_eq_true_eq, not_and_or, not_not] at hxi
    rcases hxi with hxi | hxi
    · obtain ⟨h1, h2⟩ := h.done x hx hxi
      exact ⟨b2 x h1, fun h0 hb => by rw [b3]; exact h2 h0 hb⟩
    · obtain ⟨h1, T, hT, _⟩ := (b5 x).1 hxi
      exact ⟨b4 x h1, fun h0 => by rw [hT] at h0; cases h0⟩
  · intro x hx
    rw [a2, List.mem_filter] at hx
    rw [a3]
    exact h.idle x hx.1
  · intro hd l hl
    obtain ⟨_, h2⟩ := removeMany_clean gone _ hd
    obtain ⟨h3, h4⟩ := h2 l hl
    have h3 : l ∈ g.leaves := h3
    exact ⟨b4 l h3, fun hu => h4 ((b5 l).2 ⟨h3, hu⟩)⟩

theorem DInv.loop (p : Plan env cfg db disk) {now : Nat} (hclock : ∀ x s, disk x = some s → s < now) (asked : Str → Bool) :
    ∀ fuel (g : Graph) (m : Mem), DInv env cfg db disk b g m →
    DInv env cfg db disk b (dirtyLoop env now asked fuel g m).1 (dirtyLoop env now asked fuel g m).2.1 ∧
    ∀ x ∈ (dirtyLoop env now asked fuel g m).2.2, Reach cfg db b x ∧ UpToDate (fd env disk) db x := by
  intro fuel
  induction fuel with
  | zero => intro g m h; exact ⟨h, by simp [dirtyLoop]⟩
  | succ fuel ih =>
    intro g m h
    simp only [dirtyLoop]
    split
    · obtain ⟨h1, h2⟩ := h.round p hclock asked
      obtain ⟨h3, h4⟩ := ih _ _ h1
      refine ⟨h3, fun x hx => ?_⟩
      rcases List.mem_append.1 hx with hx | hx
      · exact h2 x hx
      · exact h4 x hx
    · exact ⟨h, by simp⟩

theorem DInv.prune (p : Plan env cfg db disk) (h : DInv env cfg db disk b g m) {now : Nat}
    (hclock : ∀ x s, disk x = some s → s < now) (asked : Str → Bool) :
    DInv env cfg db disk b (prune env now asked false g m).1 (prune env now asked false g m).2.1 ∧
    (prune env now asked false g m).1.dirty = false ∧
    (prune env now asked false g m).1.ids.length ≤ g.ids.length ∧
    ∀ x ∈ (prune env now asked false g m).2.2, Reach cfg db b x ∧ UpToDate (fd env disk) db x := by
  have h1 := DInv.loop p hclock asked (g.ids.length + 1) g m h
  obtain ⟨u, hu⟩ := dirtyLoop_refine env now asked (g.ids.length + 1) g m h.ginv
  have hu := hu u fun _ _ => rfl
  have h2 := dirtyLoop_done u (g.ids.length + 1) g h.ginv (Nat.lt_succ_self _)
  have h3 := (dirtyLoop_spec u (g.ids.length + 1) g h.ginv).ids
  rw [hu] at h2 h3
  simp only [Make.prune, Bool.false_eq_true, if_false]
  refine ⟨h1.1, h2, ?_, h1.2⟩
  simp only at h3
  rw [h3]
  exact List.length_filter_le _ _

/-! ### Rules -/

theorem DMem.rule (p : Plan env cfg db disk) (hm : DMem env cfg db disk m) (choose : Nat → Str) {t : Nat}
    (ht : Wanted db cfg.targets t) (hr : DReady env db disk m t) :
    DMem env cfg db disk (applyRule env choose m t) ∧
    (∀ k, ((applyRule env choose m t).info k).fileExists = (m.info k).fileExists ∧
      ((applyRule env choose m t).info k).time = (m.info k).time) ∧
    (∀ k, (m.info k).hasCmds = true → ((applyRule env choose m t).info k).hasCmds = true) ∧
    (Buildable (fd env disk) db t → ((applyRule env choose m t).info t).hasCmds = true) := by
  have hst := hm.stat t ht
  have hthere : ∀ r ∈ (m.info t).rules, there env m r = true → ∃ s, fd env disk r = some s := by
    intro r hrr hth
    have hr' : r ∈ (db.target t).rules := by
      rcases hst.2 with ⟨_, _, h3⟩ | ⟨_, _, _, h3, _⟩
      · rw [← h3]; exact hrr
      · rw [h3] at hrr; cases hrr
    simp only [there, Bool.or_eq_true, hm.diskEq] at hth
    rcases hth with h | h
    · cases hk : env.key r with
      | none => simp [hk] at h
      | some k =>
        simp only [hk, Option.any_some] at h
        have hlk := p.key r k hk
        have hn := p.needs ht (.inr hr') (.inl hlk)
        rw [p.spelled ht (.inr hr') hlk]
        cases hfk : fd env disk (db.target k).name with
        | some s => exact ⟨s, rfl⟩
        | none =>
          have := ((hr k hn).1.1.1.2 hfk).1
          rw [h] at this; cases this
    · exact Option.isSome_iff_exists.1 h
  have hb : Buildable (fd env disk) db t → (m.info t).hasCmds = true ∨ matching env m t ≠ [] := by
    intro hb
    rcases hst.2 with ⟨h1, h2, h3⟩ | ⟨_, _, _, _, h3, _⟩
    · rcases hb with hb | ⟨r, hrr, s, hs⟩
      · left; rw [h2]; exact hb
      · right
        intro h0
        have : r ∈ matching env m t := by
          unfold matching
          rw [List.mem_filter, h3]
          refine ⟨hrr, ?_⟩
          have hs : m.files.disk (env.abs r) = some s := by rw [hm.diskEq]; exact hs
          simp [there, hs]
        rw [h0] at this; cases this
    · exact .inl h3
  unfold applyRule
  cases hmt : matching env m t with
  | nil =>
    refine ⟨hm, fun _ => ⟨rfl, rfl⟩, fun _ h => h, fun h => ?_⟩
    rcases hb h with h1 | h1
    · exact h1
    · exact absurd hmt h1
  | cons r rs =>
    simp only
    have hmem : ∀ x ∈ r :: rs, x ∈ (m.info t).rules ∧ ∃ s, fd env disk x = some s := by
      intro x hx
      rw [← hmt] at hx
      unfold matching at hx
      rw [List.mem_filter] at hx
      exact ⟨hx.1, hthere x hx.1 hx.2⟩
    have hd : (if choose t ∈ r :: rs then choose t else r) ∈ r :: rs := by
      split
      · assumption
      · exact List.mem_cons_self
    generalize (if choose t ∈ r :: rs then choose t else r) = d at hd
    obtain ⟨hd1, hd2⟩ := hmem d hd
    have hpl : (m.info t).deps = (db.target t).deps ∧ (m.info t).rules = (db.target t).rules := by
      rcases hst.2 with ⟨h1, _, h3⟩ | ⟨_, _, _, h3, _⟩
      · exact ⟨h1, h3⟩
      · rw [h3] at hd1; cases hd1
    refine ⟨⟨hm.diskEq, hm.cache, ?_, ?_⟩, ?_, ?_, ?_⟩
    · intro k hk
      by_cases hkt : k = t
      · subst hkt
        simp only [upd, if_true]
        refine ⟨hst.1, .inr ⟨d, by rw [← hpl.2]; exact hd1, hd2, rfl, rfl, fun x => ?_⟩⟩
        simp only [hpl.1]
        split
        · next hin =>
          constructor
          · exact .inl
          · rintro (h | rfl)
            · exact h
            · exact hin
        · simp
      · simp only [upd, hkt, if_false]; exact hm.stat k hk
    · intro k hk
      by_cases hkt : k = t
      · subst hkt
        simp only [upd, if_true]
        rcases hm.record k hk with h | h
        · exact .inl h
        · exact .inr (h.congr rfl rfl)
      · simp only [upd, hkt, if_false]; exact hm.record k hk
    · intro k
      by_cases hkt : k = t
      · subst hkt; simp [upd]
      · simp [upd, hkt]
    · intro k h
      by_cases hkt : k = t
      · subst hkt; simp [upd]
      · simp only [upd, hkt, if_false]; exact h
    · intro _; simp [upd]

theorem DMem.rules (p : Plan env cfg db disk) (choose : Nat → Str) : ∀ (ls : List Nat) (m : Mem), DMem env cfg db disk m →
    (∀ l ∈ ls, Wanted db cfg.targets l ∧ DReady env db disk m l) →
    DMem env cfg db disk (ls.foldl (applyRule env choose) m) ∧
    (∀ k, ((ls.foldl (applyRule env choose) m).info k).fileExists = (m.info k).fileExists ∧
      ((ls.foldl (applyRule env choose) m).info k).time = (m.info k).time) ∧
    (∀ k, (m.info k).hasCmds = true → ((ls.foldl (applyRule env choose) m).info k).hasCmds = true) ∧
    (∀ l ∈ ls, Buildable (fd env disk) db l → ((ls.foldl (applyRule env choose) m).info l).hasCmds = true) := by
  intro ls
  induction ls with
  | nil => intro m hm _; exact ⟨hm, fun _ => ⟨rfl, rfl⟩, fun _ h => h, fun l hl => by cases hl⟩
  | cons l ls ih =>
    intro m hm hls
    rw [List.foldl_cons]
    obtain ⟨h1, h2⟩ := hls l List.mem_cons_self
    obtain ⟨a1, a2, a3, a4⟩ := hm.rule p choose h1 h2
    obtain ⟨b1, b2, b3, b4⟩ := ih _ a1 fun x hx =>
      ⟨(hls x (List.mem_cons_of_mem _ hx)).1, (hls x (List.mem_cons_of_mem _ hx)).2.keep
        (fun k h => h.congr (a2 k).1 (a2 k).2) a3⟩
    refine ⟨b1, fun k => ⟨(b2 k).1.trans (a2 k).1, (b2 k).2.trans (a2 k).2⟩, fun k h => b3 k (a3 k h), ?_⟩
    intro x hx hb
    rcases List.mem_cons.1 hx with rfl | hx
    · exact b3 x (a4 hb)
    · exact b4 x hx hb

/-! ### The next target -/

/-- What the history of a dry run says is true of the files. -/
def told (env : Env) (cfg : Cfg) (db : Db) (disk : Str → Option Nat) : Ev → Prop
  | .upToDate b t => Reach cfg db b t ∧ UpToDate (fd env disk) db t
  | .noCommands b t => Reach cfg db b t ∧ ¬ UpToDate (fd env disk) db t ∧ ¬ Buildable (fd env disk) db t
  | .started b t => Reach cfg db b t ∧ ¬ UpToDate (fd env disk) db t ∧ Buildable (fd env disk) db t
  | .succeeded _ _ => True
  | .failed _ _ | .unbuildable _ _ => False
  | .exception => True

theorem DInv.remove (h : DInv env cfg db disk b g m) (hd : g.dirty = false) {t : Nat} {g2 : Graph}
    (hpk : pick g = (g2, some t)) (ha : DArmed (fd env disk) db t (m.info t)) :
    DInv env cfg db disk b (removeLeaf g2 t) m ∧ (removeLeaf g2 t).ids.length < g.ids.length := by
  obtain ⟨p1, p2, p3, p4, p5, p6, p7⟩ := pick_spec h.ginv
  rw [hpk] at p1 p2 p3 p4 p5 p6 p7
  simp only at p1 p2 p3 p4 p5 p6 p7
  obtain ⟨t1, t2, t3, t4, _⟩ := p7 t rfl
  have htl : t ∈ g.leaves := (h.ginv.lv t).2 ⟨t1, t2⟩
  have ht2 : t ∈ g2.ids := by rw [p1]; exact t1
  obtain ⟨q1, q2, q3⟩ := removeLeaf_settle p5 ht2 (by rw [p3]; exact t2)
  refine ⟨⟨h.edges, q1, h.mem, ?_, ?_, ?_⟩, ?_⟩
  · intro x hx hxi
    rw [q2, p1, List.mem_filter, decide_eq_true_eq, List.mem_singleton, not_and_or, not_not] at hxi
    rcases hxi with hxi | rfl
    · exact h.done x hx hxi
    · exact ⟨(h.clean hd x htl).1, ha⟩
  · intro x hx
    rw [q2, p1, List.mem_filter, decide_eq_true_eq, List.mem_singleton] at hx
    rw [q3, t4 x hx.2]
    exact h.idle x hx.1
  · intro hd' l hl
    unfold removeLeaf at hd' hl
    rw [if_pos ht2] at hd' hl
    rw [(removeLeafNode_clean hd').2, p2, List.mem_filter] at hl
    exact h.clean hd l hl.1
  · rw [q2, p1]
    have := filter_notMem_length (l := g.ids) (gone := [t]) h.ginv.nodup (by simp) (by simpa using t1)
    simp only [List.length_singleton] at this
    omega

theorem findNext_dry (p : Plan env cfg db disk) (a : Answers) (hclock : ∀ x s, disk x = some s → s < a.now) :
    ∀ i (j : J), DInv env cfg db disk j.s.build j.s.g j.m → j.s.g.ids.length < i →
    ∃ g m l, (∀ e ∈ l, told env cfg db disk e) ∧ DMem env cfg db disk m ∧
      (findNextTarget env cfg a i j = .error { s := { j.s with g := g, next := j.s.next, log := j.s.log ++ l }, m := m } ∨
       findNextTarget env cfg a i j = .error { s := { j.s with g := g, next := none, log := j.s.log ++ l }, m := m } ∨
       (findNextTarget env cfg a i j = .ok { s := { j.s with g := g, next := none, log := j.s.log ++ l }, m := m } ∧
         DInv env cfg db disk j.s.build g m) ∨
       ∃ t, findNextTarget env cfg a i j = .ok { s := { j.s with g := g, next := some t, log := j.s.log ++ l }, m := m } ∧
         told env cfg db disk (.started j.s.build t) ∧ DInv env cfg db disk j.s.build (removeLeaf g t) m) := by
  intro i
  induction i with
  | zero => intro j _ h; omega
  | succ i ih =>
    intro j h hlen
    simp only [findNextTarget]
    split
    · next hl =>
      exact ⟨j.s.g, j.m, [], by simp, h.mem, .inr (.inr (.inl ⟨by simp, h⟩))⟩
    · next hl =>
      rw [p.all]
      obtain ⟨h1, h2, h3, h4⟩ := h.prune p hclock a.asked
      generalize prune env a.now a.asked false j.s.g j.m = pr at h1 h2 h3 h4
      obtain ⟨g, m, gone⟩ := pr
      simp only at h1 h2 h3 h4 ⊢
      have hgone : ∀ e ∈ gone.map (Ev.upToDate j.s.build ·), told env cfg db disk e := by
        intro e he
        obtain ⟨x, hx, rfl⟩ := List.mem_map.1 he
        exact h4 x hx
      split
      · exact ⟨g, m, gone.map (.upToDate j.s.build ·), hgone, h1.mem, .inl rfl⟩
      · obtain ⟨r1, r2, r3, r4⟩ := DMem.rules p a.choose g.leaves m h1.mem
          (fun l hl => ⟨(h1.leafReach hl).wanted, h1.ready hl⟩)
        generalize g.leaves.foldl (applyRule env a.choose) m = m2 at r1 r2 r3 r4
        have h5 : DInv env cfg db disk j.s.build g m2 := by
          refine ⟨h1.edges, h1.ginv, r1, ?_, h1.idle, ?_⟩
          · intro x hx hxi
            obtain ⟨e1, e2⟩ := h1.done x hx hxi
            exact ⟨e1.congr (r2 x).1 (r2 x).2, fun h0 hb => r3 x (e2 h0 hb)⟩
          · intro hd l hl
            obtain ⟨e1, e2⟩ := h1.clean hd l hl
            exact ⟨e1.congr (r2 l).1 (r2 l).2, e2⟩
        have p7 := (pick_spec h5.ginv).2.2.2.2.2
        have hrm := fun t g2 (hpk : pick g = (g2, some t)) => h5.remove h2 hpk
        generalize hpk : pick g = pk at p7 hrm
        obtain ⟨g2, r⟩ := pk
        cases r with
        | none =>
          obtain ⟨rfl, _⟩ := p7.1 rfl
          exact ⟨g2, m2, gone.map (.upToDate j.s.build ·), hgone, r1, .inr (.inr (.inl ⟨rfl, h5⟩))⟩
        | some t =>
          obtain ⟨t1, t2, _, _, _, t5⟩ := p7.2 t rfl
          have htl : t ∈ g.leaves := (h5.ginv.lv t).2 ⟨t1, t2⟩
          have hreach := h5.leafReach htl
          have hnu := (h5.clean h2 t htl).2
          obtain ⟨hn, hlen2⟩ := hrm t g2 rfl (fun _ hb => r4 t htl hb)
          simp only [Bool.false_eq_true, if_false]
          split
          · next hcm =>
            have hnb : ¬ Buildable (fd env disk) db t := fun hb => by rw [r4 t htl hb] at hcm; cases hcm
            obtain ⟨g', m', l', e1, e2, e3⟩ := ih
              { s := { j.s with g := removeLeaf g2 t, next := none,
                                log := j.s.log ++ gone.map (.upToDate j.s.build ·) ++ [.noCommands j.s.build t] }, m := m2 }
              hn (by simp only; omega)
            refine ⟨g', m', gone.map (.upToDate j.s.build ·) ++ ([.noCommands j.s.build t] ++ l'), ?_, e2, ?_⟩
            · intro e he
              rcases List.mem_append.1 he with he | he
              · exact hgone e he
              · rcases List.mem_append.1 he with he | he
                · rw [List.mem_singleton.1 he]; exact ⟨hreach, hnu, hnb⟩
                · exact e1 e he
            · rcases e3 with e3 | e3 | ⟨e3, e4⟩ | ⟨t', e3, e4, e5⟩
              · right; left; rw [e3]; simp
              · right; left; rw [e3]; simp
              · right; right; left; exact ⟨by rw [e3]; simp, e4⟩
              · right; right; right; exact ⟨t', by rw [e3]; simp, e4, e5⟩
          · next hcm =>
            have hst : g2.state t = .executing := t5 (by rw [h5.idle t t1]; exact NState.noConfusion)
            rw [if_neg (by simp [hst])]
            have hb : Buildable (fd env disk) db t := by
              apply Classical.byContradiction
              intro hb
              exact hcm (static_plain (r1.stat t hreach.wanted) hb).2.1
            exact ⟨g2, m2, gone.map (.upToDate j.s.build ·), hgone, r1,
              .inr (.inr (.inr ⟨t, rfl, ⟨hreach, hnu, hb⟩, hn⟩))⟩

end Jom.Make
