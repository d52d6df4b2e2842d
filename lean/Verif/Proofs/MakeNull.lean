/- Builds in which everything is in order: nothing is started. -/
import Verif.Proofs.MakeRefine
import Verif.Proofs.MakeTest

namespace Jom.Make

open Jom.Graph Jom.Sched Jom.UpToDate Jom.Spec Jom.Spec.Build Relation

/-! ### The cache of file times -/

/-- The cache agrees with the disk. -/
def CacheOk (abs : Str → Str) (s : FileInfo.St) : Prop := ∀ n t, FileInfo.cached n s.cache = some t → s.disk (abs n) = some t

theorem query_ok {abs : Str → Str} {s : FileInfo.St} (h : CacheOk abs s) (n : Str) :
    (FileInfo.query abs n s).2 = s.disk (abs n) ∧ CacheOk abs (FileInfo.query abs n s).1 ∧
    (FileInfo.query abs n s).1.disk = s.disk := by
  unfold FileInfo.query
  cases hc : FileInfo.cached n s.cache with
  | some t => exact ⟨(h n t hc).symm, h, rfl⟩
  | none =>
    cases hd : s.disk (abs n) with
    | none => simp only; exact ⟨trivial, h, trivial⟩
    | some t =>
      simp only
      refine ⟨trivial, ?_, trivial⟩
      intro m t' hm
      simp only [FileInfo.cached] at hm
      split at hm
      · next he => subst he; cases hm; exact hd
      · exact h m t' hm

theorem remember_ok {env : Env} {asked : Str → Bool} : ∀ {names : List Str} {s : FileInfo.St}, CacheOk env.abs s →
    CacheOk env.abs (remember env asked names s) ∧ (remember env asked names s).disk = s.disk := by
  intro names
  unfold remember
  generalize names.filter asked = ns
  induction ns with
  | nil => intro s h; exact ⟨h, rfl⟩
  | cons n ns ih =>
    intro s h
    obtain ⟨_, h1, h2⟩ := query_ok h n
    obtain ⟨h3, h4⟩ := ih h1
    exact ⟨h3, by rw [List.foldl_cons, h4, h2]⟩

/-! ### The records during such a build -/

/-- The record of a target is exact. -/
def Seen (f : Files) (db : Db) (k : Nat) (x : TInfo) : Prop := SeenLe f db k x ∧ Attained f db k x

/-- The record of a target has the declared data. -/
def Plain (db : Db) (k : Nat) (x : TInfo) : Prop :=
  x.name = (db.target k).name ∧ x.deps = (db.target k).deps ∧ x.hasCmds = (db.target k).hasCmds ∧
    x.rules = (db.target k).rules

theorem Plain.static {f : Files} {db : Db} {k : Nat} {x : TInfo} (h : Plain db k x) : Static f db k x :=
  ⟨h.1, .inl h.2⟩

structure MemOk (env : Env) (db : Db) (disk : Str → Option Nat) (m : Mem) : Prop where
  diskEq : m.files.disk = disk
  cache : CacheOk env.abs m.files
  plain : ∀ k, Plain db k (m.info k)
  record : ∀ k, Fresh (m.info k) ∨ Seen (fun n => disk (env.abs n)) db k (m.info k)

variable {env : Env} {db : Db} {disk : Str → Option Nat}

theorem world_fi {now : Nat} {m : Mem} (h : MemOk env db disk m) :
    (world env now m.files).fi = fun n => disk (env.abs n) := by
  funext n
  simp only [world]
  rw [(query_ok h.cache n).1, h.diskEq]

/-- What is fixed during the build of one graph. -/
structure Ctx (env : Env) (db : Db) (disk : Str → Option Nat) (deps : Nat → List Dep) (root : Option Nat) : Prop where
  lookup : env.lookup = db.lookup
  key : ∀ r k, env.key r = some k → db.lookup r = some k
  same : ∀ r t, root = some r → Reaches deps r t → ∀ d, d ∈ (db.target t).deps ∨ d ∈ (db.target t).rules →
    ∀ k, db.lookup d = some k → disk (env.abs d) = disk (env.abs (db.target k).name)
  nz : ∀ n s, disk (env.abs n) = some s → s ≠ 0
  edge : ∀ t d k, d ∈ (db.target t).deps → db.lookup d = some k → DependsOn deps t k
  rules : ∀ r t, root = some r → Reaches deps r t → ∀ d ∈ (db.target t).rules, ∀ s, disk (env.abs d) = some s →
    ∀ k, db.lookup d = some k → DependsOn deps t k
  order : ∀ r t, root = some r → Reaches deps r t → Buildable (fun n => disk (env.abs n)) db t →
    UpToDate (fun n => disk (env.abs n)) db t

/-- The targets on which `l` depends have been settled. -/
def Ready (env : Env) (db : Db) (disk : Str → Option Nat) (m : Mem) (l : Nat) : Prop :=
  ∀ d, Counts (fun n => disk (env.abs n)) db l d → ∀ k, db.lookup d = some k →
    Seen (fun n => disk (env.abs n)) db k (m.info k)

theorem test_null {deps root} (c : Ctx env db disk deps root) {now : Nat} {asked : Str → Bool} {m : Mem} {t : Nat}
    (hm : MemOk env db disk m) (hw : ∃ r, root = some r ∧ Reaches deps r t) (hr : Ready env db disk m t) :
    MemOk env db disk (test env now asked t m).1 ∧
    Seen (fun n => disk (env.abs n)) db t ((test env now asked t m).1.info t) ∧
    (∀ k, k ≠ t → (test env now asked t m).1.info k = m.info k) ∧
    (UpToDate (fun n => disk (env.abs n)) db t → (test env now asked t m).2 = true) := by
  have hfi := world_fi (now := now) hm
  have hlk : ∀ d, Looked (fun n => disk (env.abs n)) (m.info t) d ↔ Counts (fun n => disk (env.abs n)) db t d := by
    intro d
    unfold Looked Counts
    rw [(hm.plain t).2.1, (hm.plain t).2.2.2]
  have hself : (world env now m.files).fi (db.target t).name = none → (m.info t).fileExists = false := by
    intro h0
    rw [hfi] at h0
    rcases hm.record t with h | h
    · exact h.1
    · exact (h.1.2 h0).1
  have hl : (world env now m.files).lookup = db.lookup := c.lookup
  have hdep : ∀ d, Looked (world env now m.files).fi (m.info t) d → DepOk (world env now m.files) db m.info d := by
    intro d hd
    rw [hfi, hlk] at hd
    refine ⟨?_, fun k _ => (hm.plain k).static, ?_⟩
    · intro k hk
      rw [hl] at hk
      rw [hfi]
      obtain ⟨r, hr1, hr2⟩ := hw
      exact c.same r t hr1 hr2 d (hd.imp id And.left) k hk
    · intro k hk
      rw [hl] at hk
      rw [hfi]
      exact .inl (hr d hd k hk).1
  have hat : ∀ d, Looked (world env now m.files).fi (m.info t) d → ∀ k, (world env now m.files).lookup d = some k →
      SeenLe (world env now m.files).fi db k (m.info k) ∧ Attained (world env now m.files).fi db k (m.info k) := by
    intro d hd k hk
    rw [hfi, hlk] at hd
    rw [hl] at hk
    rw [hfi]
    exact hr d hd k hk
  have hnz : ∀ d s, (world env now m.files).fi d = some s → s ≠ 0 := by
    intro d s hs
    rw [hfi] at hs
    exact c.nz _ s hs
  obtain ⟨h1, h2, h3⟩ := test_exact hl hnz (hm.plain t).static hself hdep hat
  have hother : ∀ k, k ≠ t → (isTargetUpToDate (world env now m.files) t m.info).1 k = m.info k := by
    intro k hk
    cases hf : (world env now m.files).fi (m.info t).name with
    | some T => rw [effect_file _ _ _ hf]; exact upd_other _ _ hk
    | none =>
      rw [(effect_noFile _ t _ hf (hself (by rw [← (hm.plain t).1]; exact hf))).2]
      exact upd_other _ _ hk
  have hpl : Plain db t ((isTargetUpToDate (world env now m.files) t m.info).1 t) := by
    have hp := hm.plain t
    cases hf : (world env now m.files).fi (m.info t).name with
    | some T => rw [effect_file _ _ _ hf, upd_same]; exact hp
    | none =>
      rw [(effect_noFile _ t _ hf (hself (by rw [← (hm.plain t).1]; exact hf))).2, upd_same]
      exact hp
  rw [hfi] at h1 h2 h3
  obtain ⟨h4, h5⟩ := remember_ok (asked := asked) (names := (m.info t).name :: (m.info t).deps ++ (m.info t).rules) hm.cache
  refine ⟨⟨by show _ = _; rw [← hm.diskEq]; exact h5, h4, ?_, ?_⟩, ⟨h1, h2⟩, hother, ?_⟩
  · intro k
    by_cases hk : k = t
    · subst hk; exact hpl
    · simp only [test]; rw [hother k hk]; exact hm.plain k
  · intro k
    by_cases hk : k = t
    · subst hk; exact .inr ⟨h1, h2⟩
    · simp only [test]; rw [hother k hk]; exact hm.record k
  · rintro ⟨T, hT, hu⟩
    exact h3 T hT fun d hd => hu d ((hlk d).1 hd)

theorem checkLeaves_null {deps root} (c : Ctx env db disk deps root) {now : Nat} {asked : Str → Bool} {state : Nat → NState} :
    ∀ (ls : List Nat) (m : Mem), MemOk env db disk m → (∀ l ∈ ls, state l ≠ .executing ∧ (∃ r, root = some r ∧ Reaches deps r l) ∧ Ready env db disk m l) →
    MemOk env db disk (checkLeaves env now asked state ls m).1 ∧
    (∀ k, Seen (fun n => disk (env.abs n)) db k (m.info k) →
      Seen (fun n => disk (env.abs n)) db k ((checkLeaves env now asked state ls m).1.info k)) ∧
    (∀ l ∈ ls, Seen (fun n => disk (env.abs n)) db l ((checkLeaves env now asked state ls m).1.info l) ∧
      (UpToDate (fun n => disk (env.abs n)) db l → l ∈ (checkLeaves env now asked state ls m).2)) := by
  intro ls
  induction ls with
  | nil => intro m hm _; exact ⟨hm, fun _ h => h, fun l hl => by cases hl⟩
  | cons l ls ih =>
    intro m hm hls
    simp only [checkLeaves]
    rw [if_neg (hls l List.mem_cons_self).1]
    obtain ⟨a1, a2, a3, a4⟩ := test_null c (now := now) (asked := asked) hm (hls l List.mem_cons_self).2.1
      (hls l List.mem_cons_self).2.2
    generalize test env now asked l m = r at a1 a2 a3 a4
    obtain ⟨m1, b⟩ := r
    simp only at a1 a2 a3 a4 ⊢
    have hmono : ∀ k, Seen (fun n => disk (env.abs n)) db k (m.info k) →
        Seen (fun n => disk (env.abs n)) db k (m1.info k) := by
      intro k hk
      by_cases hkl : k = l
      · subst hkl; exact a2
      · rw [a3 k hkl]; exact hk
    obtain ⟨b1, b2, b3⟩ := ih m1 a1 fun x hx =>
      ⟨(hls x (List.mem_cons_of_mem _ hx)).1, (hls x (List.mem_cons_of_mem _ hx)).2.1, fun d hd k hk =>
        hmono k ((hls x (List.mem_cons_of_mem _ hx)).2.2 d hd k hk)⟩
    refine ⟨b1, fun k hk => b2 k (hmono k hk), ?_⟩
    intro x hx
    rcases List.mem_cons.1 hx with rfl | hx
    · refine ⟨b2 x a2, fun hu => ?_⟩
      rw [a4 hu]
      exact List.mem_cons_self
    · refine ⟨(b3 x hx).1, fun hu => ?_⟩
      have := (b3 x hx).2 hu
      cases b
      · exact this
      · exact List.mem_cons_of_mem _ this

/-! ### The graph -/

theorem detach_clean {node : Nat} : ∀ (ps : List Nat) (g : Graph), (ps.foldl (detachParent node) g).dirty = false →
    g.dirty = false ∧ (ps.foldl (detachParent node) g).leaves = g.leaves := by
  intro ps
  induction ps with
  | nil => intro g h; exact ⟨h, rfl⟩
  | cons p ps ih =>
    intro g h
    rw [List.foldl_cons] at h ⊢
    obtain ⟨h1, h2⟩ := ih _ h
    rw [h2]
    unfold detachParent at h1 ⊢
    simp only at h1 ⊢
    split
    · next hc => rw [if_pos hc] at h1; cases h1
    · next hc => rw [if_neg hc] at h1; exact ⟨h1, rfl⟩

/-- As long as the flag is not set there are no new leaves. -/
theorem removeLeafNode_clean {g : Graph} {node : Nat} (h : (removeLeafNode g node).dirty = false) :
    g.dirty = false ∧ (removeLeafNode g node).leaves = g.leaves.filter (· ≠ node) := by
  unfold removeLeafNode at h ⊢
  simp only at h ⊢
  exact detach_clean (g.parents node) { g with leaves := g.leaves.filter (· ≠ node) } h

theorem removeMany_clean : ∀ (gone : List Nat) (g : Graph), (gone.foldl removeLeafNode g).dirty = false →
    g.dirty = false ∧ ∀ x ∈ (gone.foldl removeLeafNode g).leaves, x ∈ g.leaves ∧ x ∉ gone := by
  intro gone
  induction gone with
  | nil => intro g h; exact ⟨h, fun x hx => ⟨hx, by simp⟩⟩
  | cons a gone ih =>
    intro g h
    rw [List.foldl_cons] at h ⊢
    obtain ⟨h1, h2⟩ := ih _ h
    obtain ⟨h3, h4⟩ := removeLeafNode_clean h1
    refine ⟨h3, fun x hx => ?_⟩
    obtain ⟨h5, h6⟩ := h2 x hx
    rw [h4, List.mem_filter] at h5
    simp only [decide_eq_true_eq] at h5
    exact ⟨h5.1, by simp [h5.2, h6]⟩

/-- The state while the targets of one graph are looked at. -/
structure NInv (env : Env) (db : Db) (disk : Str → Option Nat) (deps : Nat → List Dep) (root : Option Nat) (g : Graph)
    (m : Mem) : Prop where
  ginv : GInv deps root g
  mem : MemOk env db disk m
  done : ∀ r, root = some r → ∀ x, Reaches deps r x → x ∉ g.ids → Seen (fun n => disk (env.abs n)) db x (m.info x)
  idle : ∀ x ∈ g.ids, g.state x = .unknown
  clean : g.dirty = false → ∀ l ∈ g.leaves, Seen (fun n => disk (env.abs n)) db l (m.info l) ∧
    ¬ Buildable (fun n => disk (env.abs n)) db l

theorem NInv.ready {deps root} (c : Ctx env db disk deps root) {g : Graph} {m : Mem} (h : NInv env db disk deps root g m)
    {l : Nat} (hl : l ∈ g.leaves) : Ready env db disk m l := by
  intro d hd k hk
  obtain ⟨hi, hch⟩ := (h.ginv.lv l).1 hl
  obtain ⟨r, hr, hrl⟩ := h.ginv.reach l hi
  have hdo : DependsOn deps l k := by
    rcases hd with hd | ⟨hd, s, hs⟩
    · exact c.edge l d k hd hk
    · exact c.rules r l hr hrl d hd s hs k hk
  refine h.done r hr k (hrl.tail hdo) fun hki => ?_
  have := (h.ginv.ch l hi k).2 ⟨hdo, hki⟩
  rw [hch] at this
  cases this

theorem NInv.round {deps root} (c : Ctx env db disk deps root) {g : Graph} {m : Mem} (now : Nat) (asked : Str → Bool)
    (h : NInv env db disk deps root g m) :
    NInv env db disk deps root
      ((checkLeaves env now asked g.state g.leaves m).2.foldl removeLeafNode { g with dirty := false })
      (checkLeaves env now asked g.state g.leaves m).1 := by
  have hs := removeUpToDate_spec (fun l => decide (l ∈ (checkLeaves env now asked g.state g.leaves m).2)) h.ginv
  rw [round_eq env now asked g m h.ginv.lvNodup] at hs
  obtain ⟨a1, a2, a3, a4, a5⟩ := hs
  obtain ⟨b1, b2, b3⟩ := checkLeaves_null c (now := now) (asked := asked) (state := g.state) g.leaves m h.mem (fun l hl =>
    ⟨by rw [h.idle l ((h.ginv.lv l).1 hl).1]; exact NState.noConfusion,
     h.ginv.reach l ((h.ginv.lv l).1 hl).1, h.ready c hl⟩)
  generalize checkLeaves env now asked g.state g.leaves m = r at *
  obtain ⟨m1, gone⟩ := r
  simp only at *
  refine ⟨a1, b1, ?_, ?_, ?_⟩
  · intro r hr x hx hxi
    rw [a2, List.mem_filter, decide_eq_true_eq, not_and_or, not_not] at hxi
    rcases hxi with hxi | hxi
    · exact b2 x (h.done r hr x hx hxi)
    · exact (b3 x (a5 x hxi).1).1
  · intro x hx
    rw [a2, List.mem_filter] at hx
    rw [a3]
    exact h.idle x hx.1
  · intro hd l hl
    obtain ⟨_, h2⟩ := removeMany_clean gone _ hd
    obtain ⟨h3, h4⟩ := h2 l hl
    have h3 : l ∈ g.leaves := h3
    refine ⟨(b3 l h3).1, fun hb => h4 ((b3 l h3).2 ?_)⟩
    obtain ⟨r, hr, hrl⟩ := h.ginv.reach l ((h.ginv.lv l).1 h3).1
    exact c.order r l hr hrl hb

theorem NInv.loop {deps root} (c : Ctx env db disk deps root) (now : Nat) (asked : Str → Bool) : ∀ fuel (g : Graph) (m : Mem),
    NInv env db disk deps root g m →
    NInv env db disk deps root (dirtyLoop env now asked fuel g m).1 (dirtyLoop env now asked fuel g m).2.1 := by
  intro fuel
  induction fuel with
  | zero => intro g m h; exact h
  | succ fuel ih =>
    intro g m h
    simp only [dirtyLoop]
    split
    · exact ih _ _ (h.round c now asked)
    · exact h

/-- After the search for leaves that are up to date the remaining leaves have no commands. -/
theorem NInv.prune {deps root} (c : Ctx env db disk deps root) (now : Nat) (asked : Str → Bool) {g : Graph} {m : Mem}
    (h : NInv env db disk deps root g m) :
    NInv env db disk deps root (prune env now asked false g m).1 (prune env now asked false g m).2.1 ∧
    (prune env now asked false g m).1.dirty = false ∧
    (prune env now asked false g m).1.ids.length ≤ g.ids.length := by
  have h1 := h.loop c now asked (g.ids.length + 1)
  obtain ⟨u, hu⟩ := dirtyLoop_refine env now asked (g.ids.length + 1) g m h.ginv
  have hu := hu u fun _ _ => rfl
  have h2 := dirtyLoop_done u (g.ids.length + 1) g h.ginv (Nat.lt_succ_self _)
  have h3 := (dirtyLoop_spec u (g.ids.length + 1) g h.ginv).ids
  rw [hu] at h2 h3
  simp only [Make.prune, Bool.false_eq_true, if_false]
  refine ⟨h1, h2, ?_⟩
  simp only at h3
  rw [h3]
  exact List.length_filter_le _ _

theorem no_rule {deps root} (c : Ctx env db disk deps root) {m : Mem} (hm : MemOk env db disk m) (choose : Nat → Str) {t : Nat}
    (hw : ∃ r, root = some r ∧ Reaches deps r t) (hb : ¬ Buildable (fun n => disk (env.abs n)) db t) : matching env m t = [] ∧ applyRule env choose m t = m := by
  have h0 : matching env m t = [] := by
    unfold matching
    rw [List.filter_eq_nil_iff]
    intro r hr
    rw [(hm.plain t).2.2.2] at hr
    have hn : disk (env.abs r) = none := by
      cases hd : disk (env.abs r) with
      | none => rfl
      | some s => exact absurd (.inr ⟨r, hr, s, hd⟩) hb
    unfold there
    rw [hm.diskEq, hn]
    cases hk : env.key r with
    | none => simp
    | some k =>
      obtain ⟨x, hx1, hx2⟩ := hw
      have hsame := c.same x t hx1 hx2 r (.inr hr) k (c.key r k hk)
      simp only [Option.any_some, Option.isSome_none, Bool.or_false, Bool.not_eq_true]
      rcases hm.record k with h | h
      · exact h.1
      · exact (h.1.2 (by simp only; rw [← hsame]; exact hn)).1
  exact ⟨h0, by unfold applyRule; rw [h0]⟩

theorem no_rules {deps root} (c : Ctx env db disk deps root) {m : Mem} (hm : MemOk env db disk m) (choose : Nat → Str) :
    ∀ (ls : List Nat), (∀ l ∈ ls, (∃ r, root = some r ∧ Reaches deps r l) ∧ ¬ Buildable (fun n => disk (env.abs n)) db l) →
    ls.foldl (applyRule env choose) m = m := by
  intro ls
  induction ls with
  | nil => intro _; rfl
  | cons l ls ih =>
    intro h
    rw [List.foldl_cons, (no_rule c hm choose (h l List.mem_cons_self).1 (h l List.mem_cons_self).2).2]
    exact ih fun x hx => h x (List.mem_cons_of_mem _ hx)

/-- Events of a build in which nothing happens. -/
def calm : Ev → Bool
  | .upToDate _ _ | .noCommands _ _ => true
  | _ => false

/-- A target that is picked when nothing is out of date has no commands and leaves the graph. -/
theorem NInv.next {deps root} {g : Graph} {m : Mem} (h1 : NInv env db disk deps root g m) (h2 : g.dirty = false) {g2 : Graph} {t : Nat}
    (hpk : pick g = (g2, some t)) :
    (m.info t).hasCmds = false ∧ NInv env db disk deps root (removeLeaf g2 t) m ∧ (removeLeaf g2 t).ids.length < g.ids.length := by
  have hnr := fun l hl => (h1.clean h2 l hl).2
  obtain ⟨p1, p2, p3, p4, p5, p6, p7⟩ := pick_spec h1.ginv
  rw [hpk] at p1 p2 p3 p4 p5 p6 p7
  simp only at p1 p2 p3 p4 p5 p6 p7
  obtain ⟨t1, t2, t3, t4, _⟩ := p7 t rfl
  have htl : t ∈ g.leaves := (h1.ginv.lv t).2 ⟨t1, t2⟩
  have hnb := hnr t htl
  have hcm : (m.info t).hasCmds = false := (static_plain ((h1.mem.plain t).static) hnb).2.1
  have ht2 : t ∈ g2.ids := by rw [p1]; exact t1
  obtain ⟨q1, q2, q3⟩ := removeLeaf_settle p5 ht2 (by rw [p3]; exact t2)
  refine ⟨hcm, ⟨q1, h1.mem, ?_, ?_, ?_⟩, ?_⟩
  · intro r hr x hx hxi
    rw [q2, p1, List.mem_filter, decide_eq_true_eq, List.mem_singleton, not_and_or, not_not] at hxi
    rcases hxi with hxi | rfl
    · exact h1.done r hr x hx hxi
    · exact (h1.clean h2 x htl).1
  · intro x hx
    rw [q2, p1, List.mem_filter, decide_eq_true_eq, List.mem_singleton] at hx
    rw [q3, t4 x hx.2]
    exact h1.idle x hx.1
  · intro hd l hl
    unfold removeLeaf at hd hl
    rw [if_pos ht2] at hd hl
    rw [(removeLeafNode_clean hd).2, p2, List.mem_filter] at hl
    exact h1.clean h2 l hl.1
  · rw [q2, p1]
    have := filter_notMem_length (l := g.ids) (gone := [t]) h1.ginv.nodup (by simp) (by simpa using t1)
    simp only [List.length_singleton] at this
    omega

/-- No leaf has a rule that fits when nothing is out of date. -/
theorem NInv.quiet {deps root} (c : Ctx env db disk deps root) {g : Graph} {m : Mem} (h1 : NInv env db disk deps root g m)
    (h2 : g.dirty = false) : ∀ t ∈ g.leaves, matching env m t = [] := fun t ht =>
  (no_rule c h1.mem (fun _ => []) (h1.ginv.reach t ((h1.ginv.lv t).1 ht).1) (h1.clean h2 t ht).2).1

/-- `findNextTarget` finds nothing. -/
theorem findNext_null {deps root} (c : Ctx env db disk deps root) (cfg : Cfg) (hba : cfg.buildAll = false) (a : Answers) :
    ∀ i (j : J), NInv env db disk deps root j.s.g j.m → j.s.g.ids.length < i →
    ∃ g m l, findNextTarget env cfg a i j = .ok { s := { j.s with g := g, next := none, log := j.s.log ++ l }, m := m } ∧
      NInv env db disk deps root g m ∧ g.leaves = [] ∧ ∀ e ∈ l, calm e = true := by
  intro i
  induction i with
  | zero => intro j _ h; omega
  | succ i ih =>
    intro j h hlen
    simp only [findNextTarget]
    split
    · next hl =>
      refine ⟨j.s.g, j.m, [], by simp, h, by simpa using hl, by simp⟩
    · next hl =>
      rw [hba]
      obtain ⟨h1, h2, h3⟩ := h.prune c a.now a.asked
      generalize prune env a.now a.asked false j.s.g j.m = pr at h1 h2 h3
      obtain ⟨g, m, gone⟩ := pr
      simp only at h1 h2 h3 ⊢
      have hnr := fun l hl => (h1.clean h2 l hl).2
      have hwn := fun l hl => h1.ginv.reach l ((h1.ginv.lv l).1 hl).1
      have hany : (g.leaves.any fun t => !(matching env m t).isEmpty) = false := by
        rw [List.any_eq_false]
        intro t ht
        simp [(no_rule c h1.mem a.choose (hwn t ht) (hnr t ht)).1]
      rw [hany, Bool.and_false, if_neg Bool.false_ne_true, no_rules c h1.mem a.choose g.leaves fun l hl => ⟨hwn l hl, hnr l hl⟩]
      obtain ⟨p1, p2, p3, p4, p5, p6, p7⟩ := pick_spec h1.ginv
      generalize hpk : pick g = pk at p1 p2 p3 p4 p5 p6 p7
      obtain ⟨g2, r⟩ := pk
      simp only at p1 p2 p3 p4 p5 p6 p7 ⊢
      cases r with
      | none =>
        obtain ⟨rfl, hex⟩ := p6 rfl
        refine ⟨g2, m, gone.map (.upToDate j.s.build ·), rfl, h1, ?_, by simp [calm]⟩
        apply List.eq_nil_iff_forall_not_mem.2
        intro x hx
        have hxi := ((h1.ginv.lv x).1 hx).1
        have := hex x hx
        rw [h1.idle x hxi] at this
        cases this
      | some t =>
        obtain ⟨hcm, hn, hlen2⟩ := h1.next h2 hpk
        simp only [Bool.false_eq_true, if_false, hcm, if_true]
        obtain ⟨g', m', l', e1, e2, e3, e4⟩ := ih
          { s := { j.s with g := removeLeaf g2 t, next := none,
                            log := j.s.log ++ gone.map (.upToDate j.s.build ·) ++ [.noCommands j.s.build t] }, m := m }
          hn (by simp only; omega)
        refine ⟨g', m', gone.map (.upToDate j.s.build ·) ++ ([.noCommands j.s.build t] ++ l'), ?_, e2, e3, ?_⟩
        · rw [e1]
          simp
        · intro e he
          simp only [List.mem_append, List.mem_map, List.mem_singleton] at he
          rcases he with ⟨x, _, rfl⟩ | rfl | he
          · rfl
          · rfl
          · exact e4 e he

/-! ### Runs -/

theorem depLoop_dirty {recur : Nat → List Nat × Graph → Except BuildErr (List Nat × Graph)}
    (hr : ∀ n s g s' g', recur n (s, g) = .ok (s', g') → g'.dirty = g.dirty) {node : Nat} : ∀ (ds : List Dep) s g s' g',
    depLoop recur node ds (s, g) = .ok (s', g') → g'.dirty = g.dirty := by
  intro ds
  induction ds with
  | nil => intro s g s' g' h; simp only [depLoop, Except.ok.injEq, Prod.mk.injEq] at h; rw [h.2]
  | cons d ds ih =>
    intro s g s' g' h
    simp only [depLoop, bind, Except.bind] at h
    cases d with
    | missing => simp [depStep] at h
    | file => exact ih s g s' g' h
    | node c =>
      simp only [depStep] at h
      generalize hx : recur c _ = x at h
      cases x with
      | error e => simp at h
      | ok x =>
        obtain ⟨s1, g1⟩ := x
        have h1 := hr _ _ _ _ _ hx
        rw [ih s1 g1 s' g' h, h1]
        simp only [addEdge]
        split <;> rfl

theorem internalBuild_dirty (deps : Nat → List Dep) : ∀ fuel n s g s' g', internalBuild deps fuel n (s, g) = .ok (s', g') →
    g'.dirty = g.dirty := by
  intro fuel
  induction fuel with
  | zero => intro n s g s' g' h; simp [internalBuild] at h
  | succ fuel ih =>
    intro n s g s' g' h
    simp only [internalBuild] at h
    split at h
    · simp only [Except.ok.injEq, Prod.mk.injEq] at h; rw [h.2]
    · simp only [bind, Except.bind] at h
      generalize hx : depLoop _ n (deps n) _ = x at h
      cases x with
      | error e => simp at h
      | ok x =>
        obtain ⟨s1, g1⟩ := x
        simp only [pure, Except.pure, Except.ok.injEq, Prod.mk.injEq] at h
        rw [← h.2]
        have := depLoop_dirty ih _ _ _ _ _ hx
        unfold addLeaf
        split <;> exact this

theorem build_dirty {deps : Nat → List Dep} {fuel root : Nat} {g : Graph} (h : build deps fuel root = .ok g) :
    g.dirty = true := by
  simp only [build, bind, Except.bind] at h
  generalize hx : internalBuild deps fuel root _ = x at h
  cases x with
  | error e => simp at h
  | ok x =>
    obtain ⟨s1, g1⟩ := x
    simp only [pure, Except.pure, Except.ok.injEq] at h
    rw [← h]
    exact internalBuild_dirty deps _ _ _ _ _ _ hx

theorem depsNow_mem {cfg : Cfg} {m : Mem} {b t : Nat} (h : DepsNow env cfg m b) (x : Dep) :
    x ∈ cfg.deps b t ↔ ∃ d ∈ (m.info t).deps, resolve env m.files d = x := by
  rw [h t, List.mem_map]

theorem resolve_node {f : FileInfo.St} (hl : env.lookup = db.lookup) (hd : env.dir = db.dir) (d : Str) (k : Nat) :
    resolve env f d = .node k ↔ db.lookup d = some k ∨ (db.lookup d = none ∧ db.lookup (db.dir ++ '\\' :: d) = some k) := by
  unfold resolve
  rw [hl, hd]
  cases db.lookup d with
  | some k' => simp
  | none =>
    simp only [true_and, reduceCtorEq, false_or]
    cases db.lookup (db.dir ++ '\\' :: d) with
    | some k' => simp
    | none => simp only; split <;> simp

theorem resolve_missing {f : FileInfo.St} (hl : env.lookup = db.lookup) (hd : env.dir = db.dir) (hc : CacheOk env.abs f) (d : Str) :
    resolve env f d = .missing ↔
      db.lookup d = none ∧ db.lookup (db.dir ++ '\\' :: d) = none ∧ f.disk (env.abs d) = none := by
  unfold resolve
  rw [hl, hd, (query_ok hc d).1]
  cases db.lookup d with
  | some k' => simp
  | none =>
    cases db.lookup (db.dir ++ '\\' :: d) with
    | some k' => simp
    | none => cases f.disk (env.abs d) <;> simp

theorem depsNow_needs {cfg : Cfg} {m : Mem} {b : Nat} (hl : env.lookup = db.lookup) (hd : env.dir = db.dir)
    (hp : ∀ k, (m.info k).deps = (db.target k).deps) (h : DepsNow env cfg m b) (t k : Nat) :
    DependsOn (cfg.deps b) t k ↔ Needs db t k := by
  unfold DependsOn Needs
  rw [depsNow_mem h, hp]
  simp only [resolve_node hl hd]

/-- What is assumed about the makefile and the files in `C68`. -/
structure Assum (env : Env) (cfg : Cfg) (db : Db) (disk : Str → Option Nat) : Prop where
  lookup : env.lookup = db.lookup
  dir : env.dir = db.dir
  all : cfg.buildAll = false
  key : ∀ r k, env.key r = some k → db.lookup r = some k
  same : ∀ t, Wanted db cfg.targets t → ∀ d, d ∈ (db.target t).deps ∨ d ∈ (db.target t).rules →
    ∀ k, db.lookup d = some k → disk (env.abs d) = disk (env.abs (db.target k).name)
  nz : ∀ n s, disk (env.abs n) = some s → s ≠ 0
  rules : ∀ t, Wanted db cfg.targets t → ∀ d ∈ (db.target t).rules, ∀ s, disk (env.abs d) = some s →
    ∀ k, db.lookup d = some k → Needs db t k
  there : ∀ t, Wanted db cfg.targets t → ∀ d ∈ (db.target t).deps, db.lookup d = none →
    db.lookup (db.dir ++ '\\' :: d) = none → disk (env.abs d) ≠ none
  order : InOrder (fun n => disk (env.abs n)) db cfg.targets
  fuel : ∃ U : List Nat, (∀ r ∈ cfg.targets, r ∈ U) ∧ (∀ x ∈ U, ∀ k, Needs db x k → k ∈ U) ∧ U.length < cfg.fuel

theorem reaches_wanted {cfg : Cfg} {deps : Nat → List Dep} (hd : ∀ t k, DependsOn deps t k ↔ Needs db t k) {b r : Nat}
    (hr : cfg.targets[b]? = some r) {t : Nat} (h : Reaches deps r t) : Wanted db cfg.targets t := by
  refine ⟨r, List.mem_of_getElem? hr, ?_⟩
  exact ReflTransGen.mono (fun a b hab => (hd a b).1 hab) _ _ h

theorem Assum.ctx {cfg : Cfg} (h : Assum env cfg db disk) {deps : Nat → List Dep} {b : Nat}
    (hd : ∀ t k, DependsOn deps t k ↔ Needs db t k) : Ctx env db disk deps cfg.targets[b]? where
  lookup := h.lookup
  key := h.key
  same := fun _ t hr ht => h.same t (reaches_wanted hd hr ht)
  nz := h.nz
  edge := fun t d k h1 h2 => (hd t k).2 ⟨d, h1, .inl h2⟩
  rules := fun _ t hr ht d hd' s hs k hk => (hd t k).2 (h.rules t (reaches_wanted hd hr ht) d hd' s hs k hk)
  order := fun _ t hr ht hb => h.order t (reaches_wanted hd hr ht) hb

/-- The state of a run in which nothing happens. -/
structure Calm (env : Env) (cfg : Cfg) (db : Db) (disk : Str → Option Nat) (j : J) : Prop where
  busy : j.s.busy = []
  acq : j.s.acquiring = false
  ab : j.s.aborted = false
  next : j.s.next = none
  allOk : j.s.allOk = true
  dead : j.s.dead = false
  log : ∀ e ∈ j.s.log, calm e = true
  exits : ∀ c ∈ j.s.exits, c = 0
  needs : ∀ t k, DependsOn (cfg.deps j.s.build) t k ↔ Needs db t k
  ninv : NInv env db disk (cfg.deps j.s.build) cfg.targets[j.s.build]? j.s.g j.m

theorem buildAsked_ok {m : Mem} (hm : MemOk env db disk m) (names : List Str) :
    MemOk env db disk (buildAsked env names m) := by
  unfold buildAsked
  obtain ⟨h1, h2⟩ := remember_ok
    (asked := fun n => (env.lookup n).isNone && (env.lookup (env.dir ++ '\\' :: n)).isNone) (names := names) hm.cache
  exact ⟨h2.trans hm.diskEq, h1, hm.plain, hm.record⟩

theorem Calm.asked {cfg : Cfg} {j : J} (h : Calm env cfg db disk j) (names : List Str) :
    Calm env cfg db disk { j with m := buildAsked env names j.m } :=
  ⟨h.busy, h.acq, h.ab, h.next, h.allOk, h.dead, h.log, h.exits, h.needs,
   ⟨h.ninv.ginv, buildAsked_ok h.ninv.mem names, h.ninv.done, h.ninv.idle, h.ninv.clean⟩⟩

/-- A graph can be built for every requested target. -/
theorem Assum.build {cfg : Cfg} (h : Assum env cfg db disk) {b r : Nat} {m : Mem} (hm : MemOk env db disk m)
    (hr : cfg.targets[b]? = some r) (hd : DepsNow env cfg m b) :
    ∃ g, Graph.build (cfg.deps b) cfg.fuel r = .ok g ∧ (∀ t k, DependsOn (cfg.deps b) t k ↔ Needs db t k) ∧
      BuildSpec (cfg.deps b) r g ∧ g.dirty = true := by
  have hn := depsNow_needs h.lookup h.dir (fun k => (hm.plain k).2.1) hd
  cases hb : Graph.build (cfg.deps b) cfg.fuel r with
  | ok g => exact ⟨g, rfl, hn, build_ok hb, build_dirty hb⟩
  | error e =>
    exfalso
    cases e with
    | fuel =>
      obtain ⟨U, h1, h2, h3⟩ := h.fuel
      exact build_fuel (h1 r (List.mem_of_getElem? hr)) (fun x hx c hc => h2 x hx c ((hn x c).1 hc)) h3 hb
    | missing =>
      obtain ⟨x, hx, hmiss⟩ := build_missing hb
      obtain ⟨d, hd1, hd2⟩ := (depsNow_mem hd _).1 hmiss
      rw [resolve_missing h.lookup h.dir hm.cache, hm.diskEq] at hd2
      rw [(hm.plain x).2.1] at hd1
      exact h.there x (reaches_wanted hn hr hx) d hd1 hd2.1 hd2.2.1 hd2.2.2

theorem NInv.fresh {deps : Nat → List Dep} {r : Nat} {g : Graph} {m : Mem} (hm : MemOk env db disk m)
    (hb : BuildSpec deps r g) (hd : g.dirty = true) : NInv env db disk deps (some r) g m where
  ginv := hb.ginv
  mem := hm
  done := fun r' hr x hx hxi => by cases hr; exact absurd ((hb.ids x).2 hx) hxi
  idle := fun x _ => hb.wf.unknown x
  clean := fun h => by rw [hd] at h; cases h

theorem Calm.start {cfg : Cfg} (h : Assum env cfg db disk) {m : Mem} (hm : MemOk env db disk m)
    (hd : DepsNow env cfg m 0) : Calm env cfg db disk { s := Sched.init cfg, m := m } := by
  have hn := depsNow_needs h.lookup h.dir (fun k => (hm.plain k).2.1) hd
  unfold Sched.init
  cases ht : cfg.targets with
  | nil =>
    refine ⟨rfl, rfl, rfl, rfl, rfl, rfl, by simp, by simp, hn, ?_⟩
    simp only [ht, List.getElem?_nil]
    exact ⟨ginv_empty .., hm, by simp, by simp [Graph.empty], by simp [Graph.empty]⟩
  | cons r rest =>
    have hr : cfg.targets[0]? = some r := by rw [ht]; rfl
    obtain ⟨g, h1, h2, h3, h4⟩ := h.build hm hr hd
    have hni := NInv.fresh hm h3 h4
    rw [← hr] at hni
    simp only [rebuild, h1]
    split
    · exact ⟨rfl, rfl, rfl, rfl, rfl, rfl, by simp, by simp, hn, hni⟩
    · exact ⟨rfl, rfl, rfl, rfl, rfl, rfl, by simp, by simp, hn, hni⟩

theorem invalidate_ok {m : Mem} (hm : MemOk env db disk m) : MemOk env db disk (invalidate m) :=
  ⟨hm.diskEq, hm.cache, hm.plain, fun _ => .inl ⟨rfl, rfl⟩⟩

theorem Calm.startProcesses {cfg : Cfg} (h : Assum env cfg db disk) {j : J} (hc : Calm env cfg db disk j)
    (hrun : j.s.avail.length = cfg.jobs) (hpend : j.s.pending = cfg.targets.drop (j.s.build + 1)) (a : Answers)
    (hdn : (startProcesses env cfg a j).s.build ≠ j.s.build →
      DepsNow env cfg (startProcesses env cfg a j).m (startProcesses env cfg a j).s.build) :
    Calm env cfg db disk (startProcesses env cfg a j) := by
  obtain ⟨g, m, l, e1, e2, e3, e4⟩ := findNext_null (h.ctx hc.needs) cfg h.all a (j.s.g.ids.length + 1) j hc.ninv
    (Nat.lt_succ_self _)
  have hlog : ∀ e ∈ j.s.log ++ l, calm e = true := by
    intro e he
    rcases List.mem_append.1 he with he | he
    · exact hc.log e he
    · exact e4 e he
  unfold Make.startProcesses at hdn ⊢
  split
  · exact hc
  · next hcond =>
    rw [if_neg hcond] at hdn
    rw [hc.next, Option.isNone_none, if_pos rfl, e1] at hdn ⊢
    simp only [Option.isSome_none, Bool.false_eq_true, if_false, St.running, hrun, Nat.sub_self, if_true] at hdn ⊢
    cases hp : j.s.pending with
    | nil =>
      simp only [finishBuild, hc.allOk]
      refine ⟨hc.busy, hc.acq, hc.ab, rfl, rfl, hc.dead, hlog, ?_, hc.needs, e2⟩
      simp only [Bool.true_eq_false, false_and, and_false, if_false]
      intro c hcc
      rcases List.mem_append.1 hcc with hcc | hcc
      · exact hc.exits c hcc
      · simpa using hcc
    | cons t rest =>
      simp only [hp] at hdn ⊢
      rw [hpend] at hp
      have ht : cfg.targets[j.s.build + 1]? = some t := by
        have := List.getElem?_drop (xs := cfg.targets) (i := j.s.build + 1) (j := 0)
        rw [hp] at this
        simpa using this.symm
      have hm := invalidate_ok e2.mem
      have hbld : ∀ (s : St), (rebuild cfg (j.s.build + 1) t rest s).build = j.s.build + 1 := by
        intro s
        unfold rebuild
        split <;> rfl
      rw [hbld] at hdn
      obtain ⟨g', h1, h2, h3, h4⟩ := h.build hm ht (hdn (Nat.succ_ne_self _))
      have hni := NInv.fresh hm h3 h4
      rw [← ht] at hni
      simp only [rebuild, h1]
      exact ⟨hc.busy, hc.acq, hc.ab, rfl, hc.allOk, hc.dead, hlog, hc.exits, h2, hni⟩

theorem Calm.step {cfg : Cfg} (h : Assum env cfg db disk) {j j' : J} (hc : Calm env cfg db disk j) (hi : Inv cfg j.s)
    {e : Event} (hw : ∀ f v, e ≠ .write f v) (hs : step env cfg j e = some j')
    (hdn : j'.s.build ≠ j.s.build → DepsNow env cfg j'.m j'.s.build) : Calm env cfg db disk j' := by
  cases e with
  | startProcesses a =>
    simp only [Make.step] at hs
    split at hs
    · cases hs
      have hrun : j.s.avail.length = cfg.jobs := by
        have := hi.ex.avail_length
        rw [hc.busy, hi.ex.stuckAb hc.ab] at this
        simpa using this
      exact Calm.startProcesses h (j := { j with s := { j.s with queued := j.s.queued - 1 } })
        ⟨hc.busy, hc.acq, hc.ab, hc.next, hc.allOk, hc.dead, hc.log, hc.exits, hc.needs, hc.ninv⟩ hrun
        (hi.lg.pend hc.ab) a hdn
    · cases hs
  | grant => simp [Make.step, hc.acq] at hs
  | acquired asked res writes w =>
    have : j.s.granted = false := by
      cases hg : j.s.granted with
      | false => rfl
      | true => have := hi.ex.gr hg; rw [hc.acq] at this; cases this
    simp [Make.step, this] at hs
  | childFinished ex f => simp [Make.step, hc.dead, hc.busy] at hs
  | abortDone => simp [Make.step, hi.ex.frames0 hc.ab] at hs
  | write f v => exact absurd rfl (hw f v)

/-- The record of a target at the beginning. -/
def record (d : Decl) : TInfo :=
  { name := d.name, fileExists := false, time := 0, deps := d.deps, hasCmds := d.hasCmds, rules := d.rules }

theorem Run.calm {cfg : Cfg} (h : Assum env cfg db disk) {j : J}
    (hr : Run env cfg (fun k => record (db.target k)) disk (fun _ e => ∀ f v, e ≠ .write f v) j) :
    Calm env cfg db disk j := by
  induction hr with
  | start asked hd _ =>
    have hm : MemOk env db disk { info := fun k => record (db.target k), files := { disk := disk, cache := [] } } :=
      ⟨rfl, fun n t hc => (by simp [FileInfo.cached] at hc), fun k => ⟨rfl, rfl, rfl, rfl⟩, fun k => .inl ⟨rfl, rfl⟩⟩
    exact (Calm.start h hm hd).asked asked
  | step asked hr' hw hs hdn _ ih =>
    have := ih.step h hr'.reachable.inv hw hs hdn
    split
    · exact this.asked asked
    · exact this

end Jom.Make
