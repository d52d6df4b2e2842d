/- A build in which all commands do their work: what has been settled is in order. -/
import Verif.Proofs.MakeNull
import Verif.Proofs.MakeCone

namespace Jom.Make

open Jom.Graph Jom.Sched Jom.UpToDate Jom.Spec Jom.Spec.Build Relation

/-- The files by name. -/
abbrev fm (env : Env) (m : Mem) : Files := fun n => m.files.disk (env.abs n)

/-- What is assumed about the makefile in `C69`. -/
structure Plan (env : Env) (cfg : Cfg) (db : Db) (disk : Str → Option Nat) : Prop where
  lookup : env.lookup = db.lookup
  dir : env.dir = db.dir
  all : cfg.buildAll = false
  key : ∀ r k, env.key r = some k → db.lookup r = some k
  un : Unambiguous env.abs (fun n => disk (env.abs n)) db cfg.targets

/-- `x` is needed by the `b`-th requested target. -/
def Reach (cfg : Cfg) (db : Db) (b x : Nat) : Prop := ∃ r, cfg.targets[b]? = some r ∧ ReflTransGen (Needs db) r x

/-- `x` is needed by an earlier requested target, or `Q` holds for it and all it needs. (`Q` is empty or says that a target was in order at
the beginning.) -/
def Before (cfg : Cfg) (db : Db) (Q : Nat → Prop) (b x : Nat) : Prop :=
  (Wanted db cfg.targets x ∧ ∀ y, ReflTransGen (Needs db) x y → Q y) ∨ ∃ b' < b, Reach cfg db b' x

/-- `x` was settled by an earlier build or in this one, and is not hurt. (`H` is closed: what needs something hurt is hurt. It is empty, or
contains the targets that fail.) -/
def Settled (cfg : Cfg) (db : Db) (Q H : Nat → Prop) (b : Nat) (g : Graph) (x : Nat) : Prop :=
  (Before cfg db Q b x ∨ (Reach cfg db b x ∧ x ∉ g.ids)) ∧ ¬ H x

/-- The targets whose files, and the files of all they need, do not change at the moment. -/
def Still (cfg : Cfg) (db : Db) (Q H : Nat → Prop) (b : Nat) (g : Graph) (x : Nat) : Prop :=
  Settled cfg db Q H b g x ∨ (x ∈ g.leaves ∧ g.state x ≠ .executing ∧ ¬ H x)

/-- `x` is in order. -/
def Good (f : Files) (db : Db) (x : Nat) : Prop :=
  (Buildable f db x → UpToDate f db x) ∧
  (f (db.target x).name ≠ none ∨
    (¬ Buildable f db x ∧ (db.target x).deps ≠ [] ∧ ∀ d ∈ (db.target x).deps, ¬ Missing f db d))

/-- The cache: an entry is right unless it is that of a target being made or hurt; entries for the file of an unsettled target have
its name. -/
structure CInv (env : Env) (cfg : Cfg) (db : Db) (Q H : Nat → Prop) (b : Nat) (g : Graph) (s : FileInfo.St) : Prop where
  right : ∀ n τ, FileInfo.cached n s.cache = some τ →
    s.disk (env.abs n) = some τ ∨ (∃ k ∈ g.ids, g.state k = .executing ∧ n = (db.target k).name) ∨
      ∃ k, Wanted db cfg.targets k ∧ H k ∧ env.abs n = env.abs (db.target k).name
  named : ∀ n τ, FileInfo.cached n s.cache = some τ → ∀ k, Wanted db cfg.targets k →
    env.abs n = env.abs (db.target k).name → n = (db.target k).name ∨ Settled cfg db Q H b g k ∨ H k
  nz : ∀ n τ, FileInfo.cached n s.cache = some τ → τ ≠ 0
  ment : ∀ n τ, FileInfo.cached n s.cache = some τ → Mentioned db cfg.targets n

/-- The state of a build in which all commands do their work, between two rounds of tests. -/
structure PCore (env : Env) (cfg : Cfg) (db : Db) (Q H : Nat → Prop) (disk0 : Str → Option Nat) (b : Nat) (g : Graph) (m : Mem) : Prop where
  hurt : ∀ p k, Needs db p k → H k → H p
  edges : ∀ t, Wanted db cfg.targets t → ∀ k, DependsOn (cfg.deps b) t k ↔ Needs db t k
  ginv : GInv (cfg.deps b) cfg.targets[b]? g
  weak : ∀ k, Wanted db cfg.targets k → Static (fun _ => some 1) db k (m.info k)
  stat : ∀ k, Wanted db cfg.targets k → ¬ H k → Static (fm env m) db k (m.info k)
  sources : ∀ t, Before cfg db Q b t ∨ Reach cfg db b t → ∀ d ∈ (db.target t).deps, (∀ k, ¬ Resolves db d k) → fm env m d ≠ none
  nz : ∀ n s, fm env m n = some s → s ≠ 0
  mono : ∀ n, Mentioned db cfg.targets n → disk0 (env.abs n) ≠ none → fm env m n ≠ none
  new : ∀ n, Mentioned db cfg.targets n → fm env m n ≠ none → disk0 (env.abs n) ≠ none ∨
    ∃ k, Wanted db cfg.targets k ∧ env.abs n = env.abs (db.target k).name
  good : ∀ x, Settled cfg db Q H b g x → Good (fm env m) db x
  made : ∀ x, Reach cfg db b x → x ∉ g.ids → ¬ H x → SeenLe (fm env m) db x (m.info x) ∨ Made (m.info x)
  exact : ∀ x, Before cfg db Q b x → Reach cfg db b x → ¬ H x →
    (x ∈ g.ids ∧ Fresh (m.info x)) ∨ Seen (fm env m) db x (m.info x)
  self : ∀ x ∈ g.ids, ¬ H x → fm env m (db.target x).name = none → (m.info x).fileExists = false
  exec : ∀ x ∈ g.ids, g.state x = .executing → ¬ H x →
    (m.info x).hasCmds = true ∧ ((m.info x).fileExists = true → (m.info x).time = 0) ∧ ¬ Before cfg db Q b x
  able : ∀ x ∈ g.ids, ¬ H x → g.state x ≠ .unbuildable
  cache : CInv env cfg db Q H b g m.files

/-- A leaf has been tested. -/
def Checked (env : Env) (cfg : Cfg) (db : Db) (Q : Nat → Prop) (b : Nat) (m : Mem) (l : Nat) : Prop :=
  SeenLe (fm env m) db l (m.info l) ∧ (Before cfg db Q b l → Attained (fm env m) db l (m.info l))

/-- The same after the tests: the remaining leaves are out of date. -/
structure PInv (env : Env) (cfg : Cfg) (db : Db) (Q H : Nat → Prop) (disk0 : Str → Option Nat) (b : Nat) (g : Graph) (m : Mem) : Prop where
  core : PCore env cfg db Q H disk0 b g m
  leaf : g.dirty = false → ∀ l ∈ g.leaves, g.state l ≠ .executing → ¬ H l →
    Checked env cfg db Q b m l ∧ ((m.info l).fileExists = true → (m.info l).time = 0) ∧
    (Before cfg db Q b l → ¬ Buildable (fm env m) db l)

variable {env : Env} {cfg : Cfg} {db : Db} {Q H : Nat → Prop} {disk0 : Str → Option Nat} {b : Nat} {g : Graph} {m : Mem}

theorem Reach.wanted {x : Nat} (h : Reach cfg db b x) : Wanted db cfg.targets x := by
  obtain ⟨r, hr, h⟩ := h
  exact ⟨r, List.mem_of_getElem? hr, h⟩

theorem Before.wanted {x : Nat} (h : Before cfg db Q b x) : Wanted db cfg.targets x := by
  rcases h with h | ⟨_, _, h⟩
  · exact h.1
  · exact h.wanted

theorem Settled.wanted {x : Nat} (h : Settled cfg db Q H b g x) : Wanted db cfg.targets x := by
  rcases h.1 with h | h
  · exact h.wanted
  · exact h.1.wanted

theorem Reach.tail {x k : Nat} (h : Reach cfg db b x) (hk : Needs db x k) : Reach cfg db b k := by
  obtain ⟨r, hr, h⟩ := h
  exact ⟨r, hr, h.tail hk⟩

theorem _root_.Jom.Spec.Build.Wanted.tail {requested : List Nat} {x k : Nat} (h : Wanted db requested x) (hk : Needs db x k) :
    Wanted db requested k := by
  obtain ⟨r, hr, h⟩ := h
  exact ⟨r, hr, h.tail hk⟩

theorem Before.tail {x k : Nat} (h : Before cfg db Q b x) (hk : Needs db x k) : Before cfg db Q b k := by
  rcases h with ⟨h1, h2⟩ | ⟨b', hb, h⟩
  · exact .inl ⟨h1.tail hk, fun y hy => h2 y (.head hk hy)⟩
  · exact .inr ⟨b', hb, h.tail hk⟩

theorem edges_reach (he : ∀ t, Wanted db cfg.targets t → ∀ k, DependsOn (cfg.deps b) t k ↔ Needs db t k) {r x : Nat}
    (hr : cfg.targets[b]? = some r) : Reaches (cfg.deps b) r x ↔ ReflTransGen (Needs db) r x := by
  constructor
  · intro h
    induction h with
    | refl => exact .refl
    | tail _ h ih => exact ih.tail ((he _ ⟨r, List.mem_of_getElem? hr, ih⟩ _).1 h)
  · intro h
    induction h with
    | refl => exact .refl
    | tail h0 h ih => exact ih.tail ((he _ ⟨r, List.mem_of_getElem? hr, h0⟩ _).2 h)

theorem PCore.idReach (h : PCore env cfg db Q H disk0 b g m) {x : Nat} (hx : x ∈ g.ids) : Reach cfg db b x := by
  obtain ⟨r, hr, h1⟩ := h.ginv.reach x hx
  exact ⟨r, hr, (edges_reach h.edges hr).1 h1⟩

theorem PCore.up (h : PCore env cfg db Q H disk0 b g m) {p x : Nat} (hp : Reach cfg db b p) (hn : Needs db p x) (hx : x ∈ g.ids) :
    p ∈ g.ids := by
  obtain ⟨r, hr, h1⟩ := hp
  exact h.ginv.up x hx p r hr ((edges_reach h.edges hr).2 h1) ((h.edges p ⟨r, List.mem_of_getElem? hr, h1⟩ x).2 hn)

theorem PCore.childNeeds (h : PCore env cfg db Q H disk0 b g m) {l c : Nat} (hl : l ∈ g.ids) (hch : g.children l = [])
    (hn : Needs db l c) : Reach cfg db b c ∧ c ∉ g.ids := by
  refine ⟨(h.idReach hl).tail hn, fun hc => ?_⟩
  have := (h.ginv.ch l hl c).2 ⟨(h.edges l (h.idReach hl).wanted c).2 hn, hc⟩
  rw [hch] at this
  cases this

theorem PCore.leafNeeds (h : PCore env cfg db Q H disk0 b g m) {l c : Nat} (hl : l ∈ g.leaves) (hn : Needs db l c) :
    Reach cfg db b c ∧ c ∉ g.ids := by
  obtain ⟨h1, h2⟩ := (h.ginv.lv l).1 hl
  exact h.childNeeds h1 h2 hn

theorem PCore.childSettled (h : PCore env cfg db Q H disk0 b g m) {l c : Nat} (hl : l ∈ g.ids) (hch : g.children l = []) (hH : ¬ H l)
    (hn : Needs db l c) : Settled cfg db Q H b g c :=
  ⟨.inr (h.childNeeds hl hch hn), fun hc => hH (h.hurt _ _ hn hc)⟩

theorem PCore.leafSettled (h : PCore env cfg db Q H disk0 b g m) {l c : Nat} (hl : l ∈ g.leaves) (hH : ¬ H l)
    (hn : Needs db l c) : Settled cfg db Q H b g c :=
  ⟨.inr (h.leafNeeds hl hn), fun hc => hH (h.hurt _ _ hn hc)⟩

theorem PCore.settledNeeds (h : PCore env cfg db Q H disk0 b g m) {x c : Nat} (hx : Settled cfg db Q H b g x) (hn : Needs db x c) :
    Settled cfg db Q H b g c := by
  obtain ⟨hx, hH⟩ := hx
  refine ⟨?_, fun hc => hH (h.hurt _ _ hn hc)⟩
  rcases hx with hx | ⟨hx, hxi⟩
  · exact .inl (hx.tail hn)
  · exact .inr ⟨hx.tail hn, fun hc => hxi (h.up hx hn hc)⟩

theorem PCore.stillNeeds (h : PCore env cfg db Q H disk0 b g m) {x c : Nat} (hx : Still cfg db Q H b g x) (hn : Needs db x c) :
    Settled cfg db Q H b g c := by
  rcases hx with hx | ⟨hx, _, hH⟩
  · exact h.settledNeeds hx hn
  · exact h.leafSettled hx hH hn

theorem PCore.stillWanted (h : PCore env cfg db Q H disk0 b g m) {x : Nat} (hx : Still cfg db Q H b g x) : Wanted db cfg.targets x := by
  rcases hx with hx | ⟨hx, _⟩
  · exact hx.wanted
  · exact (h.idReach ((h.ginv.lv x).1 hx).1).wanted

/-- A mentioned name that stands for a target stands for one that is needed. -/
theorem Plan.needs (p : Plan env cfg db disk0) {t : Nat} (ht : Wanted db cfg.targets t) {d : Str}
    (hd : d ∈ (db.target t).deps ∨ d ∈ (db.target t).rules) {k : Nat} (hk : Resolves db d k) : Needs db t k := by
  rcases hd with hd | hd
  · exact ⟨d, hd, hk⟩
  · exact p.un.inferred t ht d hd k hk

theorem Still.sound {x : Nat} (h : Still cfg db Q H b g x) : ¬ H x := by
  rcases h with h | h
  · exact h.2
  · exact h.2.2

theorem PCore.execNot (h : PCore env cfg db Q H disk0 b g m) {x : Nat} (hx : x ∈ g.ids) (he : g.state x = .executing) :
    ¬ Still cfg db Q H b g x := by
  rintro (⟨h1 | h1, hH⟩ | h1)
  · exact (h.exec x hx he hH).2.2 h1
  · exact h1.2 hx
  · exact h1.2.1 he

/-- Two disks that only differ in the files of targets that do not stand still agree on everything that stands still. -/
theorem PCore.agree (p : Plan env cfg db disk0) (h : PCore env cfg db Q H disk0 b g m) {f f' : Files}
    (hne : ∀ n, f n ≠ f' n → ∃ k, Wanted db cfg.targets k ∧ ¬ Still cfg db Q H b g k ∧ env.abs n = env.abs (db.target k).name) :
    Agree db (Still cfg db Q H b g) f f' where
  closed := fun k hk d hd c hc => .inl (h.stillNeeds hk (p.needs (h.stillWanted hk) hd (.inl hc)))
  name := by
    intro k hk
    apply Classical.byContradiction
    intro hf
    obtain ⟨x, hx, hex, ha⟩ := hne _ hf
    have := p.un.distinct k x (h.stillWanted hk) hx ha
    subst this
    exact hex hk
  dep := by
    intro k hk d hd
    apply Classical.byContradiction
    intro hf
    obtain ⟨x, hx, hex, ha⟩ := hne _ hf
    have hw := h.stillWanted hk
    have := (p.un.names k hw d hd x hx).2 ha
    exact hex (.inl (h.stillNeeds hk (p.needs hw hd this)))

theorem query_fi (env : Env) (now : Nat) (s : FileInfo.St) (n : Str) :
    (world env now s).fi n = match FileInfo.cached n s.cache with | some τ => some τ | none => s.disk (env.abs n) := by
  simp only [world, FileInfo.query]
  cases FileInfo.cached n s.cache with
  | some τ => rfl
  | none => cases s.disk (env.abs n) <;> rfl

/-- What `FastFileInfo` says agrees with the disk on everything that stands still. -/
theorem PCore.view (p : Plan env cfg db disk0) (h : PCore env cfg db Q H disk0 b g m) (now : Nat) :
    Agree db (Still cfg db Q H b g) (world env now m.files).fi (fm env m) := by
  refine h.agree p fun n hn => ?_
  rw [query_fi] at hn
  cases hc : FileInfo.cached n m.files.cache with
  | none => rw [hc] at hn; exact absurd rfl hn
  | some τ =>
    rw [hc] at hn
    rcases h.cache.right n τ hc with h1 | ⟨k, hk, he, rfl⟩ | ⟨k, hk, hH, ha⟩
    · exact absurd h1.symm hn
    · exact ⟨k, (h.idReach hk).wanted, h.execNot hk he, rfl⟩
    · exact ⟨k, hk, fun hst => hst.sound hH, ha⟩

/-- No dependent is missing once everything needed has been settled. -/
theorem PCore.noMiss (p : Plan env cfg db disk0) (h : PCore env cfg db Q H disk0 b g m) {t : Nat}
    (ht : Before cfg db Q b t ∨ Reach cfg db b t) (hn : ∀ c, Needs db t c → Settled cfg db Q H b g c) {d : Str}
    (hd : d ∈ (db.target t).deps) : ¬ Missing (fm env m) db d := by
  have hw : Wanted db cfg.targets t := by
    rcases ht with ht | ht
    · exact ht.wanted
    · exact ht.wanted
  have hfile : ∀ k, Resolves db d k → fm env m d = fm env m (db.target k).name := by
    intro k hk
    have hkw := hw.tail ⟨d, hd, hk⟩
    have := (p.un.names t hw d (.inl hd) k hkw).1 hk
    show m.files.disk _ = m.files.disk _
    rw [this]
  cases hl : db.lookup d with
  | some k =>
    have hk : Resolves db d k := .inl hl
    have hg := h.good k (hn k ⟨d, hd, hk⟩)
    rcases hg.2 with h1 | ⟨h1, h2, h3⟩
    · rw [← hfile k hk] at h1
      obtain ⟨s, hs⟩ := Option.ne_none_iff_exists'.1 h1
      exact not_missing_of_file hs
    · intro hm
      cases hm with
      | noFile _ hx => rw [hl] at hx; cases hx
      | toBuild _ hx hb => rw [hl] at hx; cases hx; exact h1 hb
      | empty _ hx hb => rw [hl] at hx; cases hx; exact h2 hb
      | behind _ hx he hm => rw [hl] at hx; cases hx; exact h3 _ he hm
  | none =>
    have : fm env m d ≠ none := by
      by_cases hk : ∃ k, Resolves db d k
      · obtain ⟨k, hk⟩ := hk
        have hg := h.good k (hn k ⟨d, hd, hk⟩)
        obtain ⟨T, hT, _⟩ := hg.1 (.inl (p.un.viaDir t hw d hd hl k hk))
        rw [hfile k hk, hT]
        simp
      · exact h.sources t ht d hd (fun k hk' => hk ⟨k, hk'⟩)
    obtain ⟨s, hs⟩ := Option.ne_none_iff_exists'.1 this
    exact not_missing_of_file hs

/-! ### The cache -/

theorem CInv.query {s : FileInfo.St} (h : CInv env cfg db Q H b g s) (hnz : ∀ n τ, s.disk (env.abs n) = some τ → τ ≠ 0) {n : Str}
    (hm : Mentioned db cfg.targets n)
    (hn : ∀ k, Wanted db cfg.targets k → env.abs n = env.abs (db.target k).name → n = (db.target k).name ∨ Settled cfg db Q H b g k ∨ H k) :
    CInv env cfg db Q H b g (FileInfo.query env.abs n s).1 ∧ (FileInfo.query env.abs n s).1.disk = s.disk := by
  unfold FileInfo.query
  cases hc : FileInfo.cached n s.cache with
  | some t => exact ⟨h, rfl⟩
  | none =>
    cases hd : s.disk (env.abs n) with
    | none => exact ⟨h, rfl⟩
    | some t =>
      refine ⟨⟨?_, ?_, ?_, ?_⟩, rfl⟩
      · intro n' τ hc'
        simp only [FileInfo.cached] at hc'
        split at hc'
        · next he => subst he; cases hc'; exact .inl hd
        · exact h.right n' τ hc'
      · intro n' τ hc'
        simp only [FileInfo.cached] at hc'
        split at hc'
        · next he => subst he; exact hn
        · exact h.named n' τ hc'
      · intro n' τ hc'
        simp only [FileInfo.cached] at hc'
        split at hc'
        · next he => subst he; cases hc'; exact hnz n t hd
        · exact h.nz n' τ hc'
      · intro n' τ hc'
        simp only [FileInfo.cached] at hc'
        split at hc'
        · next he => subst he; exact hm
        · exact h.ment n' τ hc'

theorem CInv.remember {asked : Str → Bool} : ∀ {names : List Str} {s : FileInfo.St}, CInv env cfg db Q H b g s →
    (∀ n τ, s.disk (env.abs n) = some τ → τ ≠ 0) →
    (∀ n ∈ names, asked n = true → Mentioned db cfg.targets n ∧ ∀ k, Wanted db cfg.targets k → env.abs n = env.abs (db.target k).name →
      n = (db.target k).name ∨ Settled cfg db Q H b g k ∨ H k) →
    CInv env cfg db Q H b g (remember env asked names s) ∧ (remember env asked names s).disk = s.disk := by
  intro names s h hnz hn
  unfold Make.remember
  have hn' : ∀ n ∈ names.filter asked, Mentioned db cfg.targets n ∧ ∀ k, Wanted db cfg.targets k → env.abs n = env.abs (db.target k).name →
      n = (db.target k).name ∨ Settled cfg db Q H b g k ∨ H k := by
    intro n hm
    rw [List.mem_filter] at hm
    exact hn n hm.1 hm.2
  generalize names.filter asked = ns at hn'
  induction ns generalizing s with
  | nil => exact ⟨h, rfl⟩
  | cons n ns ih =>
    obtain ⟨h1, h2⟩ := h.query hnz (hn' n List.mem_cons_self).1 (hn' n List.mem_cons_self).2
    obtain ⟨h3, h4⟩ := ih h1 (by rw [h2]; exact hnz) fun x hx => hn' x (List.mem_cons_of_mem _ hx)
    exact ⟨h3, by rw [List.foldl_cons, h4, h2]⟩

/-- The names that a target whose needs are settled mentions, and its own name, may be asked for. -/
theorem PCore.mayAsk (p : Plan env cfg db disk0) (h : PCore env cfg db Q H disk0 b g m) {t : Nat} (ht : t ∈ g.ids)
    (hch : g.children t = []) {n : Str}
    (hn : n = (db.target t).name ∨ n ∈ (db.target t).deps ∨ n ∈ (db.target t).rules) :
    Mentioned db cfg.targets n ∧ ∀ k, Wanted db cfg.targets k → env.abs n = env.abs (db.target k).name →
      n = (db.target k).name ∨ Settled cfg db Q H b g k ∨ H k := by
  have hw := (h.idReach ht).wanted
  refine ⟨⟨t, hw, hn⟩, fun k hk ha => ?_⟩
  rcases hn with rfl | hn
  · left; rw [p.un.distinct t k hw hk ha]
  · right
    have := (p.un.names t hw n hn k hk).2 ha
    by_cases hH : H k
    · exact .inr hH
    · exact .inl ⟨.inr (h.childNeeds ht hch (p.needs hw hn this)), hH⟩

theorem static_mention {f : Files} {k : Nat} {x : TInfo} (h : Static f db k x) {n : Str}
    (hn : n ∈ x.name :: x.deps ++ x.rules) :
    n = (db.target k).name ∨ n ∈ (db.target k).deps ∨ n ∈ (db.target k).rules := by
  simp only [List.cons_append, List.mem_cons, List.mem_append] at hn
  rcases hn with hn | hn
  · left; rw [hn, h.1]
  · right
    rcases h.2 with ⟨h1, _, h3⟩ | ⟨r, hr, _, h3, _, h4⟩
    · rw [h1, h3] at hn; exact hn
    · rw [h3] at hn
      rcases hn with hn | hn
      · rcases (h4 n).1 hn with h5 | rfl
        · exact .inl h5
        · exact .inr hr
      · cases hn

/-! ### Changes of records -/

theorem SeenLe.congr {f : Files} {k : Nat} {x y : TInfo} (he : y.fileExists = x.fileExists) (ht : y.time = x.time)
    (h : SeenLe f db k x) : SeenLe f db k y := by
  unfold SeenLe at h ⊢
  rw [he, ht]
  exact h

theorem Attained.congr {f : Files} {k : Nat} {x y : TInfo} (ht : y.time = x.time) (h : Attained f db k x) :
    Attained f db k y := by
  unfold Attained at h ⊢
  rw [ht]
  exact h

/-- Records of nodes in the graph change: by tests, or by something that does not concern times. -/
theorem PCore.update (h : PCore env cfg db Q H disk0 b g m) {m' : Mem} (hdisk : m'.files.disk = m.files.disk)
    (hcache : CInv env cfg db Q H b g m'.files) (hweak : ∀ k, Wanted db cfg.targets k → Static (fun _ => some 1) db k (m'.info k))
    (hstat : ∀ k, Wanted db cfg.targets k → ¬ H k → Static (fm env m) db k (m'.info k))
    (hout : ∀ x, x ∉ g.ids → m'.info x = m.info x)
    (hin : ∀ x ∈ g.ids, ¬ H x → ((m'.info x).fileExists = (m.info x).fileExists ∧ (m'.info x).time = (m.info x).time ∧
      ((m.info x).hasCmds = true → (m'.info x).hasCmds = true)) ∨ (Checked env cfg db Q b m' x ∧ g.state x ≠ .executing)) :
    PCore env cfg db Q H disk0 b g m' := by
  have hf : fm env m' = fm env m := by unfold fm; rw [hdisk]
  refine ⟨h.hurt, h.edges, h.ginv, hweak, by rw [hf]; exact hstat, by rw [hf]; exact h.sources, by rw [hf]; exact h.nz,
    by rw [hf]; exact h.mono, by rw [hf]; exact h.new, by rw [hf]; exact h.good, ?_, ?_, ?_, ?_, h.able, hcache⟩
  · intro x hx hxi
    rw [hf, hout x hxi]
    exact h.made x hx hxi
  · intro x hx hr hH
    rw [hf]
    by_cases hxi : x ∈ g.ids
    · rcases hin x hxi hH with ⟨h1, h2, _⟩ | ⟨h1, _⟩
      · rcases h.exact x hx hr hH with ⟨_, h3⟩ | h3
        · exact .inl ⟨hxi, by rw [Fresh, h1, h2]; exact h3⟩
        · exact .inr ⟨h3.1.congr h1 h2, h3.2.congr h2⟩
      · rw [Checked, hf] at h1
        exact .inr ⟨h1.1, h1.2 hx⟩
    · rw [hout x hxi]; exact h.exact x hx hr hH
  · intro x hxi hH h0
    rw [hf] at h0
    rcases hin x hxi hH with ⟨h1, _⟩ | ⟨h1, _⟩
    · rw [h1]; exact h.self x hxi hH h0
    · rw [Checked, hf] at h1
      exact (h1.1.2 h0).1
  · intro x hxi hex hH
    rcases hin x hxi hH with ⟨h1, h2, h3⟩ | ⟨_, h1⟩
    · obtain ⟨h4, h5, h6⟩ := h.exec x hxi hex hH
      exact ⟨h3 h4, by rw [h1, h2]; exact h5, h6⟩
    · exact absurd hex h1

/-! ### One test -/

/-- What one call does to the records. -/
theorem test_fields {w : World} {t : Nat} {info : Nat → TInfo} (hself : w.fi (info t).name = none → (info t).fileExists = false) :
    (∀ k, k ≠ t → (isTargetUpToDate w t info).1 k = info k) ∧
    (∃ e s, (isTargetUpToDate w t info).1 t = { info t with fileExists := e, time := s } ∧
      ((isTargetUpToDate w t info).2 = false → e = true → s = 0)) := by
  cases hf : w.fi (info t).name with
  | some T =>
    rw [effect_file w t info hf]
    refine ⟨fun k hk => upd_other _ _ hk, true, _, upd_same _ _ _, fun h _ => by rw [h]; rfl⟩
  | none =>
    have h0 := hself hf
    rw [(effect_noFile w t info hf h0).2]
    refine ⟨fun k hk => upd_other _ _ hk, (info t).fileExists, _, upd_same _ _ _, fun _ h => by rw [h0] at h; cases h⟩

/-- One call changes nothing but the time and the mark of the target. -/
def Framed (t : Nat) (info info' : Nat → TInfo) : Prop :=
  (∀ k, k ≠ t → info' k = info k) ∧ ∃ e s, info' t = { info t with fileExists := e, time := s }

theorem Framed.trans {t : Nat} {i j k : Nat → TInfo} (h : Framed t i j) (h' : Framed t j k) : Framed t i k := by
  obtain ⟨h1, e, s, h2⟩ := h
  obtain ⟨h3, e', s', h4⟩ := h'
  exact ⟨fun x hx => (h3 x hx).trans (h1 x hx), e', s', by rw [h4, h2]⟩

theorem Framed.upd (t : Nat) (info : Nat → TInfo) (e : Bool) (s : Nat) : Framed t info (Graph.upd info t { info t with fileExists := e, time := s }) :=
  ⟨fun _ hk => upd_other _ _ hk, e, s, upd_same _ _ _⟩

theorem Framed.refl (t : Nat) (info : Nat → TInfo) : Framed t info info := ⟨fun _ _ => rfl, _, _, rfl⟩

theorem readFile_framed (w : World) (t : Nat) (info : Nat → TInfo) : Framed t info (readFile w t info) := by
  unfold readFile
  split
  · exact Framed.upd ..
  · exact Framed.refl ..

theorem compareTimes_framed (w : World) (t : Nat) (info : Nat → TInfo) : Framed t info (compareTimes w t info).1 := by
  unfold compareTimes
  simp only
  split
  · exact Framed.refl ..
  · split
    · exact Framed.upd t info (info t).fileExists (info t).time
    · exact Framed.upd t info (info t).fileExists _

theorem finish_framed (t : Nat) (r : (Nat → TInfo) × Bool) : Framed t r.1 (finish t r).1 := by
  unfold UpToDate.finish
  simp only
  split
  · exact Framed.upd t r.1 (r.1 t).fileExists 0
  · exact Framed.refl ..

theorem checkInferred_framed (w : World) (t : Nat) (r : (Nat → TInfo) × Bool) : Framed t r.1 (checkInferred w t r).1 := by
  unfold checkInferred
  simp only
  split
  · split
    · obtain ⟨h1, e, s, h2⟩ := ((readFile_framed w t (Graph.upd r.1 t { r.1 t with deps := addInferred w (r.1 t).rules (r.1 t).deps, rules := [] })).trans
        (compareTimes_framed w t _)).trans (finish_framed t _)
      refine ⟨fun k hk => ?_, e, s, ?_⟩ <;> simp only
      · rw [upd_other _ _ hk]
        exact (h1 k hk).trans (upd_other _ _ hk)
      · rw [upd_same]
        unfold plainUpToDate
        rw [h2, upd_same]
    · exact Framed.refl ..
  · exact Framed.refl ..

theorem test_framed (w : World) (t : Nat) (info : Nat → TInfo) : Framed t info (isTargetUpToDate w t info).1 :=
  (((readFile_framed w t info).trans (compareTimes_framed w t _)).trans (checkInferred_framed w t _)).trans (finish_framed t _)

/-- One test of a leaf that is hurt. -/
theorem PCore.testHurt (p : Plan env cfg db disk0) (h : PCore env cfg db Q H disk0 b g m) (now : Nat) (asked : Str → Bool) {l : Nat}
    (hl : l ∈ g.leaves) (hH : H l) :
    PCore env cfg db Q H disk0 b g (test env now asked l m).1 ∧
    (test env now asked l m).1.files.disk = m.files.disk ∧
    (∀ k, k ≠ l → (test env now asked l m).1.info k = m.info k) := by
  obtain ⟨hli, hlc⟩ := (h.ginv.lv l).1 hl
  have hw := (h.idReach hli).wanted
  obtain ⟨b1, e', s', b2⟩ := test_framed (world env now m.files) l m.info
  have hcache := CInv.remember (asked := asked) (names := (m.info l).name :: (m.info l).deps ++ (m.info l).rules) h.cache h.nz
    (fun n hn _ => h.mayAsk p hli hlc (static_mention (h.weak l hw) hn))
  have hdisk : (Make.test env now asked l m).1.files.disk = m.files.disk := hcache.2
  have hother : ∀ k, k ≠ l → (Make.test env now asked l m).1.info k = m.info k := b1
  refine ⟨h.update hdisk hcache.1 ?_ ?_ ?_ ?_, hdisk, hother⟩
  · intro k hkw
    by_cases hk : k = l
    · subst hk
      show Static _ db k ((isTargetUpToDate _ k m.info).1 k)
      rw [b2]
      exact h.weak k hkw
    · rw [hother k hk]; exact h.weak k hkw
  · intro k hkw hkH
    have hk : k ≠ l := fun hk => hkH (hk ▸ hH)
    rw [hother k hk]; exact h.stat k hkw hkH
  · intro x hx
    exact hother x fun hxl => hx (hxl ▸ hli)
  · intro x hx hxH
    have hk : x ≠ l := fun hk => hxH (hk ▸ hH)
    rw [hother x hk]
    exact .inl ⟨rfl, rfl, id⟩

/-- What is looked at is what counts. -/
theorem looked_of_counts (p : Plan env cfg db disk0) (h : PCore env cfg db Q H disk0 b g m) {t : Nat}
    (ht : Wanted db cfg.targets t) (hH : ¬ H t) {d : Str} :
    Counts (fm env m) db t d → Looked (fm env m) (m.info t) d := by
  intro hd
  rcases (h.stat t ht hH).2 with ⟨h1, _, h3⟩ | ⟨r, hr, ⟨s, hs⟩, h3, _, h4⟩
  · unfold Looked
    rw [h1, h3]
    exact hd
  · rcases hd with hd | ⟨hd, s', hs'⟩
    · exact .inl ((h4 d).2 (.inl hd))
    · refine .inl ((h4 d).2 (.inr ?_))
      exact p.un.oneRule t ht d hd r hr (h.new d ⟨t, ht, .inr (.inr hd)⟩ (by rw [hs']; simp))
        (h.new r ⟨t, ht, .inr (.inr hr)⟩ (by rw [hs]; simp))

theorem looked_counts (h : PCore env cfg db Q H disk0 b g m) {t : Nat} (ht : Wanted db cfg.targets t) (hH : ¬ H t) {d : Str} :
    Looked (fm env m) (m.info t) d → Counts (fm env m) db t d := by
  intro hd
  rcases (h.stat t ht hH).2 with ⟨h1, _, h3⟩ | ⟨r, hr, hs, h3, _, h4⟩
  · unfold Looked at hd
    rw [h1, h3] at hd
    exact hd
  · rcases hd with hd | ⟨hd, _⟩
    · rcases (h4 d).1 hd with h5 | rfl
      · exact .inl h5
      · exact .inr ⟨hr, hs⟩
    · rw [h3] at hd; cases hd

/-- One test of a leaf. -/
theorem PCore.test (p : Plan env cfg db disk0) (h : PCore env cfg db Q H disk0 b g m) {now : Nat}
    (hclock : ∀ x s, m.files.disk x = some s → s ≤ now) (asked : Str → Bool) {l : Nat} (hl : l ∈ g.leaves)
    (he : g.state l ≠ .executing) (hH : ¬ H l) :
    PCore env cfg db Q H disk0 b g (test env now asked l m).1 ∧
    (test env now asked l m).1.files.disk = m.files.disk ∧
    (∀ k, k ≠ l → (test env now asked l m).1.info k = m.info k) ∧
    Checked env cfg db Q b (test env now asked l m).1 l ∧
    ((test env now asked l m).2 = false → ((test env now asked l m).1.info l).fileExists = true →
      ((test env now asked l m).1.info l).time = 0) ∧
    ((test env now asked l m).2 = true → UpToDate (fm env m) db l) ∧
    (Before cfg db Q b l → Buildable (fm env m) db l → (test env now asked l m).2 = true) := by
  obtain ⟨hli, hlc⟩ := (h.ginv.lv l).1 hl
  have hreach := h.idReach hli
  have hw := hreach.wanted
  have hst : Still cfg db Q H b g l := .inr ⟨hl, he, hH⟩
  have hv := h.view p now
  have hfl : (world env now m.files).lookup = db.lookup := p.lookup
  have hself : (world env now m.files).fi (db.target l).name = none → (m.info l).fileExists = false := by
    rw [hv.name l hst]; exact h.self l hli hH
  have hstat := hv.symm.static hst (h.stat l hw hH)
  have hlm : ∀ {d}, Looked (world env now m.files).fi (m.info l) d → Ment db (Still cfg db Q H b g) d :=
    fun hd => looked_ment hst hstat hd
  have hlk : ∀ {d}, Looked (world env now m.files).fi (m.info l) d → Looked (fm env m) (m.info l) d :=
    fun hd => hv.looked hst hstat hd
  have hlk' : ∀ {d}, Looked (fm env m) (m.info l) d → Looked (world env now m.files).fi (m.info l) d :=
    fun hd => hv.symm.looked hst (h.stat l hw hH) hd
  have hneed : ∀ {d}, Looked (world env now m.files).fi (m.info l) d → ∀ k, db.lookup d = some k →
      Reach cfg db b k ∧ k ∉ g.ids ∧ Still cfg db Q H b g k ∧ Needs db l k := by
    intro d hd k hk
    have hc := (looked_counts h hw hH (hlk hd)).imp id And.left
    have hn := p.needs hw hc (.inl hk)
    obtain ⟨h1, h2⟩ := h.leafNeeds hl hn
    exact ⟨h1, h2, .inl (h.leafSettled hl hH hn), hn⟩
  have hdep : ∀ d, Looked (world env now m.files).fi (m.info l) d → DepOk (world env now m.files) db m.info d := by
    intro d hd
    refine ⟨fun k hk => ?_, fun k hk => ?_, fun k hk => ?_⟩ <;> rw [hfl] at hk <;>
      obtain ⟨h1, h2, h3, h4⟩ := hneed hd k hk
    · rw [hv.ment (hlm hd), hv.name k h3]
      have hc := (looked_counts h hw hH (hlk hd)).imp id And.left
      have := (p.un.names l hw d hc k h1.wanted).1 (.inl hk)
      show m.files.disk _ = m.files.disk _
      rw [this]
    · exact hv.symm.static h3 (h.stat k h1.wanted h3.sound)
    · rcases h.made k h1 h2 h3.sound with h5 | h5
      · exact .inl (hv.symm.seenLe h3 h5)
      · exact .inr h5
  have hnow : ∀ d, Looked (world env now m.files).fi (m.info l) d → ∀ s, Behind (world env now m.files).fi db d s →
      s ≤ (world env now m.files).now := by
    intro d hd s hs
    obtain ⟨e, hse⟩ := behind_file (hv.behind hs (hlm hd))
    exact hclock _ _ hse
  obtain ⟨a1, a2⟩ := test_safe hfl hnow hstat hself hdep
  have hname : (m.info l).name = (db.target l).name := (h.stat l hw hH).1
  obtain ⟨b1, e', s', b2, b3⟩ := test_fields (w := world env now m.files) (t := l) (info := m.info)
    (by rw [hname]; exact hself)
  have hcache := CInv.remember (asked := asked) (names := (m.info l).name :: (m.info l).deps ++ (m.info l).rules) h.cache h.nz
    (fun n hn _ => h.mayAsk p hli hlc (static_mention (h.stat l hw hH) hn))
  have hdisk : (Make.test env now asked l m).1.files.disk = m.files.disk := hcache.2
  have hf : fm env (Make.test env now asked l m).1 = fm env m := by unfold fm; rw [hdisk]
  -- exactness
  have hexact : Before cfg db Q b l → Attained (fm env m) db l ((Make.test env now asked l m).1.info l) ∧
      (Buildable (fm env m) db l → (Make.test env now asked l m).2 = true) := by
    intro hbf
    have hat : ∀ d, Looked (world env now m.files).fi (m.info l) d → ∀ k, (world env now m.files).lookup d = some k →
        SeenLe (world env now m.files).fi db k (m.info k) ∧ Attained (world env now m.files).fi db k (m.info k) := by
      intro d hd k hk
      rw [hfl] at hk
      obtain ⟨h1, h2, h3, h4⟩ := hneed hd k hk
      rcases h.exact k (hbf.tail h4) h1 h3.sound with h5 | h5
      · exact absurd h5.1 h2
      · exact ⟨hv.symm.seenLe h3 h5.1, hv.symm.attained h3 h5.2⟩
    have hnz : ∀ d s, (world env now m.files).fi d = some s → s ≠ 0 := by
      intro d s hs
      rw [query_fi] at hs
      cases hc : FileInfo.cached d m.files.cache with
      | none => rw [hc] at hs; exact h.nz d s hs
      | some τ => rw [hc] at hs; cases hs; exact h.cache.nz d s hc
    obtain ⟨c1, c2, c3⟩ := test_exact hfl hnz hstat hself hdep hat
    refine ⟨hv.attained hst c2, fun hb => ?_⟩
    obtain ⟨T, hT, hu⟩ := (h.good l ⟨.inl hbf, hH⟩).1 hb
    refine c3 T (by rw [hv.name l hst]; exact hT) fun d hd => ?_
    have := hu d (looked_counts h hw hH (hlk hd))
    exact ⟨fun hm => this.1 (hv.missing hm (hlm hd)), fun s hs => this.2 s (hv.behind hs (hlm hd))⟩
  have hchk : Checked env cfg db Q b (Make.test env now asked l m).1 l := by
    unfold Checked
    rw [hf]
    exact ⟨hv.seenLe hst a1, fun hbf => (hexact hbf).1⟩
  refine ⟨?_, hdisk, b1, hchk, ?_, ?_, fun hbf => (hexact hbf).2⟩
  · refine h.update hdisk hcache.1 ?_ ?_ ?_ ?_
    · intro k hkw
      by_cases hk : k = l
      · subst hk
        show Static _ db k ((isTargetUpToDate _ k m.info).1 k)
        rw [b2]
        exact h.weak k hkw
      · show Static _ db k ((isTargetUpToDate _ l m.info).1 k)
        rw [b1 k hk]; exact h.weak k hkw
    · intro k hkw hkH
      by_cases hk : k = l
      · subst hk
        show Static _ db k ((isTargetUpToDate _ k m.info).1 k)
        rw [b2]
        exact h.stat k hkw hkH
      · show Static _ db k ((isTargetUpToDate _ l m.info).1 k)
        rw [b1 k hk]; exact h.stat k hkw hkH
    · intro x hx
      exact b1 x fun hxl => hx (hxl ▸ hli)
    · intro x hx _
      by_cases hk : x = l
      · subst hk; exact .inr ⟨hchk, he⟩
      · left
        show ((isTargetUpToDate _ l m.info).1 x).fileExists = _ ∧ ((isTargetUpToDate _ l m.info).1 x).time = _ ∧ _
        rw [b1 x hk]
        refine ⟨rfl, rfl, fun hc => ?_⟩
        show ((isTargetUpToDate _ l m.info).1 x).hasCmds = true
        rw [b1 x hk]; exact hc
  · intro hb hx
    have hb : (isTargetUpToDate (world env now m.files) l m.info).2 = false := hb
    have hx : ((isTargetUpToDate (world env now m.files) l m.info).1 l).fileExists = true := hx
    show ((isTargetUpToDate (world env now m.files) l m.info).1 l).time = 0
    rw [b2] at hx ⊢
    exact b3 hb hx
  · intro hb
    have hmiss : ∀ d, Counts (fm env m) db l d → ¬ Missing (fm env m) db d := by
      intro d hd
      rcases hd with hd | ⟨_, s, hs⟩
      · exact h.noMiss p (.inr hreach) (fun c hc => h.leafSettled hl hH hc) hd
      · exact not_missing_of_file hs
    obtain ⟨T, hT, hu⟩ := a2 hb fun d hd hm => hmiss d (looked_counts h hw hH (hlk hd)) (hv.missing hm (hlm hd))
    refine ⟨T, by rw [← hv.name l hst]; exact hT, fun d hd => ⟨hmiss d hd, fun s hs => ?_⟩⟩
    have hld := hlk' (looked_of_counts p h hw hH hd)
    exact hu d hld s (hv.symm.behind hs (hlm hld))

/-! ### All tests of one round -/

theorem Checked.congr {m m' : Mem} {l : Nat} (hd : m'.files.disk = m.files.disk) (hi : m'.info l = m.info l)
    (h : Checked env cfg db Q b m l) : Checked env cfg db Q b m' l := by
  have hf : fm env m' = fm env m := by unfold fm; rw [hd]
  unfold Checked at h ⊢
  rw [hf, hi]
  exact h

theorem PCore.checkLeaves (p : Plan env cfg db disk0) {now : Nat} (asked : Str → Bool) : ∀ (ls : List Nat) (m : Mem),
    PCore env cfg db Q H disk0 b g m → (∀ x s, m.files.disk x = some s → s ≤ now) → ls.Nodup → (∀ l ∈ ls, l ∈ g.leaves) →
    PCore env cfg db Q H disk0 b g (checkLeaves env now asked g.state ls m).1 ∧
    (checkLeaves env now asked g.state ls m).1.files.disk = m.files.disk ∧
    (∀ k, k ∉ ls → (checkLeaves env now asked g.state ls m).1.info k = m.info k) ∧
    (∀ l ∈ (checkLeaves env now asked g.state ls m).2, l ∈ ls ∧ (¬ H l → UpToDate (fm env m) db l)) ∧
    (∀ l ∈ ls, g.state l ≠ .executing → ¬ H l →
      Checked env cfg db Q b (checkLeaves env now asked g.state ls m).1 l ∧
      (l ∉ (checkLeaves env now asked g.state ls m).2 →
        (((checkLeaves env now asked g.state ls m).1.info l).fileExists = true →
          ((checkLeaves env now asked g.state ls m).1.info l).time = 0) ∧
        (Before cfg db Q b l → ¬ Buildable (fm env m) db l))) := by
  intro ls
  induction ls with
  | nil => intro m h _ _ _; exact ⟨h, rfl, fun _ _ => rfl, by simp [Make.checkLeaves], by simp⟩
  | cons l ls ih =>
    intro m h hclock hnd hls
    obtain ⟨hnl, hnd⟩ := List.nodup_cons.1 hnd
    have hls' := fun x hx => hls x (List.mem_cons_of_mem _ hx)
    simp only [Make.checkLeaves]
    split
    · next hex =>
      obtain ⟨a1, a2, a3, a4, a5⟩ := ih m h hclock hnd hls'
      refine ⟨a1, a2, fun k hk => a3 k fun hk' => hk (List.mem_cons_of_mem _ hk'),
        fun x hx => ⟨List.mem_cons_of_mem _ (a4 x hx).1, (a4 x hx).2⟩, ?_⟩
      intro x hx hxe
      rcases List.mem_cons.1 hx with rfl | hx
      · exact absurd hex hxe
      · exact a5 x hx hxe
    · next hex =>
      have ht : PCore env cfg db Q H disk0 b g (Make.test env now asked l m).1 ∧
          (Make.test env now asked l m).1.files.disk = m.files.disk ∧
          (∀ k, k ≠ l → (Make.test env now asked l m).1.info k = m.info k) ∧ (¬ H l →
          Checked env cfg db Q b (Make.test env now asked l m).1 l ∧
          ((Make.test env now asked l m).2 = false → ((Make.test env now asked l m).1.info l).fileExists = true →
            ((Make.test env now asked l m).1.info l).time = 0) ∧
          ((Make.test env now asked l m).2 = true → UpToDate (fm env m) db l) ∧
          (Before cfg db Q b l → Buildable (fm env m) db l → (Make.test env now asked l m).2 = true)) := by
        by_cases hH : H l
        · obtain ⟨t1, t2, t3⟩ := h.testHurt p now asked (hls l List.mem_cons_self) hH
          exact ⟨t1, t2, t3, fun hn => absurd hH hn⟩
        · obtain ⟨t1, t2, t3, t4⟩ := h.test p hclock asked (hls l List.mem_cons_self) hex hH
          exact ⟨t1, t2, t3, fun _ => t4⟩
      obtain ⟨t1, t2, t3, t4⟩ := ht
      generalize Make.test env now asked l m = r at t1 t2 t3 t4
      obtain ⟨m1, bo⟩ := r
      simp only at t1 t2 t3 t4 ⊢
      have hf : fm env m1 = fm env m := by unfold fm; rw [t2]
      obtain ⟨a1, a2, a3, a4, a5⟩ := ih m1 t1 (by rw [t2]; exact hclock) hnd hls'
      have hsub := checkLeaves_sub env now asked g.state ls m1
      generalize Make.checkLeaves env now asked g.state ls m1 = r at a1 a2 a3 a4 a5 hsub
      obtain ⟨m2, gone⟩ := r
      simp only at a1 a2 a3 a4 a5 hsub ⊢
      rw [hf] at a4 a5
      refine ⟨a1, a2.trans t2, ?_, ?_, ?_⟩
      · intro k hk
        rw [List.mem_cons, not_or] at hk
        rw [a3 k hk.2, t3 k hk.1]
      · intro x hx
        cases bo with
        | false => exact ⟨List.mem_cons_of_mem _ (a4 x hx).1, (a4 x hx).2⟩
        | true =>
          simp only [if_true] at hx
          rcases List.mem_cons.1 hx with rfl | hx
          · exact ⟨List.mem_cons_self, fun hH => (t4 hH).2.2.1 rfl⟩
          · exact ⟨List.mem_cons_of_mem _ (a4 x hx).1, (a4 x hx).2⟩
      · intro x hx hxe hH
        rcases List.mem_cons.1 hx with rfl | hx
        · refine ⟨(t4 hH).1.congr a2 (a3 x hnl), fun hng => ?_⟩
          cases bo with
          | true => simp at hng
          | false =>
            rw [a3 x hnl]
            exact ⟨(t4 hH).2.1 rfl, fun hbf hb => by have := (t4 hH).2.2.2 hbf hb; cases this⟩
        · obtain ⟨c1, c2⟩ := a5 x hx hxe hH
          refine ⟨c1, fun hng => c2 fun hg => hng ?_⟩
          cases bo
          · exact hg
          · exact List.mem_cons_of_mem _ hg

/-! ### Nodes leave the graph -/

theorem settled_mono {g' : Graph} {gone : List Nat} (hids : g'.ids = g.ids.filter (· ∉ gone)) {x : Nat}
    (h : Settled cfg db Q H b g x) : Settled cfg db Q H b g' x := by
  refine ⟨?_, h.2⟩
  rcases h.1 with h | ⟨h1, h2⟩
  · exact .inl h
  · refine .inr ⟨h1, fun hx => h2 ?_⟩
    rw [hids, List.mem_filter] at hx
    exact hx.1

theorem settled_inv {g' : Graph} {gone : List Nat} (hids : g'.ids = g.ids.filter (· ∉ gone)) {x : Nat}
    (h : Settled cfg db Q H b g' x) : Settled cfg db Q H b g x ∨ x ∈ gone := by
  obtain ⟨h, hH⟩ := h
  rcases h with h | ⟨h1, h2⟩
  · exact .inl ⟨.inl h, hH⟩
  · rw [hids, List.mem_filter, decide_eq_true_eq, not_and_or, not_not] at h2
    rcases h2 with h2 | h2
    · exact .inl ⟨.inr ⟨h1, h2⟩, hH⟩
    · exact .inr h2

theorem PCore.drop (h : PCore env cfg db Q H disk0 b g m) {g' : Graph} {gone : List Nat}
    (hg : GInv (cfg.deps b) cfg.targets[b]? g') (hids : g'.ids = g.ids.filter (· ∉ gone))
    (hstate : ∀ x ∈ g'.ids, g'.state x = g.state x ∨ (H x ∧ g'.state x ≠ .executing))
    (hgone : ∀ x ∈ gone, ¬ H x → Good (fm env m) db x ∧ (SeenLe (fm env m) db x (m.info x) ∨ Made (m.info x)) ∧
      (Before cfg db Q b x → Seen (fm env m) db x (m.info x)))
    (hright : ∀ n τ, FileInfo.cached n m.files.cache = some τ →
      m.files.disk (env.abs n) = some τ ∨ (∃ k ∈ g'.ids, g'.state k = .executing ∧ n = (db.target k).name) ∨
      ∃ k, Wanted db cfg.targets k ∧ H k ∧ env.abs n = env.abs (db.target k).name) :
    PCore env cfg db Q H disk0 b g' m := by
  have hsub : ∀ x ∈ g'.ids, x ∈ g.ids := by
    intro x hx
    rw [hids, List.mem_filter] at hx
    exact hx.1
  refine ⟨h.hurt, h.edges, hg, h.weak, h.stat, h.sources, h.nz, h.mono, h.new, ?_, ?_, ?_, fun x hx => h.self x (hsub x hx), ?_, ?_, ?_⟩
  · intro x hx
    rcases settled_inv hids hx with h1 | h1
    · exact h.good x h1
    · exact (hgone x h1 hx.2).1
  · intro x hx hxi hH
    rw [hids, List.mem_filter, decide_eq_true_eq, not_and_or, not_not] at hxi
    rcases hxi with hxi | hxi
    · exact h.made x hx hxi hH
    · exact (hgone x hxi hH).2.1
  · intro x hx hr hH
    rcases h.exact x hx hr hH with ⟨h1, h2⟩ | h1
    · by_cases hxg : x ∈ gone
      · exact .inr ((hgone x hxg hH).2.2 hx)
      · exact .inl ⟨by rw [hids, List.mem_filter, decide_eq_true_eq]; exact ⟨h1, hxg⟩, h2⟩
    · exact .inr h1
  · intro x hx he hH
    rw [(hstate x hx).resolve_right fun hc => hH hc.1] at he
    exact h.exec x (hsub x hx) he hH
  · intro x hx hH
    rw [(hstate x hx).resolve_right fun hc => hH hc.1]
    exact h.able x (hsub x hx) hH
  · exact ⟨hright, fun n τ hc k hk ha => (h.cache.named n τ hc k hk ha).imp id (Or.imp (settled_mono hids) id), h.cache.nz, h.cache.ment⟩

/-- Nodes that are not executing leave the graph. -/
theorem PCore.dropIdle (h : PCore env cfg db Q H disk0 b g m) {g' : Graph} {gone : List Nat}
    (hg : GInv (cfg.deps b) cfg.targets[b]? g') (hids : g'.ids = g.ids.filter (· ∉ gone))
    (hstate : ∀ x, g'.state x = g.state x ∨ x ∈ gone)
    (hidle : ∀ x ∈ gone, g.state x ≠ .executing)
    (hgone : ∀ x ∈ gone, ¬ H x → Good (fm env m) db x ∧ (SeenLe (fm env m) db x (m.info x) ∨ Made (m.info x)) ∧
      (Before cfg db Q b x → Seen (fm env m) db x (m.info x))) : PCore env cfg db Q H disk0 b g' m := by
  have hst : ∀ x ∈ g'.ids, g'.state x = g.state x := by
    intro x hx
    rw [hids, List.mem_filter, decide_eq_true_eq] at hx
    exact (hstate x).resolve_right hx.2
  refine h.drop hg hids (fun x hx => .inl (hst x hx)) hgone ?_
  intro n τ hc
  rcases h.cache.right n τ hc with h1 | ⟨k, hk, he, hn⟩ | h1
  · exact .inl h1
  · have hkg : k ∉ gone := fun hkg => hidle k hkg he
    refine .inr (.inl ⟨k, by rw [hids, List.mem_filter, decide_eq_true_eq]; exact ⟨hk, hkg⟩, ?_, hn⟩)
    rw [(hstate k).resolve_right hkg]
    exact he
  · exact .inr (.inr h1)

theorem good_of_upToDate {f : Files} {x : Nat} (h : UpToDate f db x) : Good f db x := by
  refine ⟨fun _ => h, .inl ?_⟩
  obtain ⟨T, hT, _⟩ := h
  rw [hT]
  simp

theorem PCore.round (p : Plan env cfg db disk0) (h : PCore env cfg db Q H disk0 b g m) {now : Nat} (asked : Str → Bool)
    (hclock : ∀ x s, m.files.disk x = some s → s ≤ now) :
    PInv env cfg db Q H disk0 b
      ((Make.checkLeaves env now asked g.state g.leaves m).2.foldl removeLeafNode { g with dirty := false })
      (Make.checkLeaves env now asked g.state g.leaves m).1 ∧
    (Make.checkLeaves env now asked g.state g.leaves m).1.files.disk = m.files.disk := by
  have hs := removeUpToDate_spec (fun l => decide (l ∈ (Make.checkLeaves env now asked g.state g.leaves m).2)) h.ginv
  rw [round_eq env now asked g m h.ginv.lvNodup] at hs
  obtain ⟨a1, a2, a3, a4, a5⟩ := hs
  obtain ⟨b1, b2, b3, b4, b5⟩ := PCore.checkLeaves p asked g.leaves m h hclock h.ginv.lvNodup (fun _ hl => hl)
  generalize Make.checkLeaves env now asked g.state g.leaves m = r at *
  obtain ⟨m1, gone⟩ := r
  simp only at *
  have hf : fm env m1 = fm env m := by unfold fm; rw [b2]
  refine ⟨⟨?_, ?_⟩, b2⟩
  · refine b1.dropIdle a1 a2 (fun x => .inl (by rw [a3])) (fun x hx => (a5 x hx).2) ?_
    intro x hx hH
    obtain ⟨c1, c2⟩ := a5 x hx
    have c3 := (b5 x c1 c2 hH).1
    rw [Checked, hf] at c3
    rw [hf]
    exact ⟨good_of_upToDate ((b4 x hx).2 hH), .inl c3.1, fun hb => ⟨c3.1, c3.2 hb⟩⟩
  · intro hd l hl he hH
    obtain ⟨_, h2⟩ := removeMany_clean gone _ hd
    obtain ⟨h3, h4⟩ := h2 l hl
    rw [a3] at he
    obtain ⟨c1, c2⟩ := b5 l h3 he hH
    rw [hf]
    exact ⟨c1, c2 h4⟩

theorem PInv.loop (p : Plan env cfg db disk0) {now : Nat} (asked : Str → Bool) : ∀ fuel (g : Graph) (m : Mem),
    PInv env cfg db Q H disk0 b g m → (∀ x s, m.files.disk x = some s → s ≤ now) →
    PInv env cfg db Q H disk0 b (dirtyLoop env now asked fuel g m).1 (dirtyLoop env now asked fuel g m).2.1 ∧
    (dirtyLoop env now asked fuel g m).2.1.files.disk = m.files.disk := by
  intro fuel
  induction fuel with
  | zero => intro g m h _; exact ⟨h, rfl⟩
  | succ fuel ih =>
    intro g m h hc
    simp only [dirtyLoop]
    split
    · obtain ⟨h1, h2⟩ := h.core.round p asked hc
      obtain ⟨h3, h4⟩ := ih _ _ h1 (by rw [h2]; exact hc)
      exact ⟨h3, h4.trans h2⟩
    · exact ⟨h, rfl⟩

theorem PInv.prune (p : Plan env cfg db disk0) {now : Nat} (asked : Str → Bool) (h : PInv env cfg db Q H disk0 b g m)
    (hc : ∀ x s, m.files.disk x = some s → s ≤ now) :
    PInv env cfg db Q H disk0 b (Make.prune env now asked false g m).1 (Make.prune env now asked false g m).2.1 ∧
    (Make.prune env now asked false g m).2.1.files.disk = m.files.disk ∧
    (Make.prune env now asked false g m).1.dirty = false := by
  have h1 := h.loop p asked (g.ids.length + 1) g m hc
  obtain ⟨u, hu⟩ := dirtyLoop_refine env now asked (g.ids.length + 1) g m h.core.ginv
  have hu := hu u fun _ _ => rfl
  have h2 := dirtyLoop_done u (g.ids.length + 1) g h.core.ginv (Nat.lt_succ_self _)
  rw [hu] at h2
  simp only [Make.prune, Bool.false_eq_true, if_false]
  exact ⟨h1.1, h1.2, h2⟩

/-! ### Inference rules -/

/-- A rule that is applied to a leaf has an existing file. -/
theorem PCore.there (p : Plan env cfg db disk0) (h : PCore env cfg db Q H disk0 b g m) {l : Nat} (hl : l ∈ g.leaves) (hH : ¬ H l) {r : Str}
    (hr : r ∈ (db.target l).rules) (ht : there env m r = true) : ∃ s, fm env m r = some s := by
  rw [← Option.ne_none_iff_exists']
  unfold Make.there at ht
  rw [Bool.or_eq_true] at ht
  rcases ht with ht | ht
  · cases hk : env.key r with
    | none => rw [hk] at ht; cases ht
    | some k =>
      rw [hk, Option.any_some] at ht
      have hw := (h.idReach ((h.ginv.lv l).1 hl).1).wanted
      have hres : Resolves db r k := .inl (p.key r k hk)
      obtain ⟨h1, h2⟩ := h.leafNeeds hl (p.needs hw (.inr hr) hres)
      have ha := (p.un.names l hw r (.inr hr) k h1.wanted).1 hres
      intro h0
      have h0' : fm env m (db.target k).name = none := by
        show m.files.disk _ = none
        rw [← ha]; exact h0
      rcases h.made k h1 h2 (fun hk => hH (h.hurt _ _ (p.needs hw (.inr hr) hres) hk)) with h3 | h3
      · rw [(h3.2 h0').1] at ht; cases ht
      · rw [h3.1] at ht; cases ht
  · intro h0
    have h0 : m.files.disk (env.abs r) = none := h0
    rw [h0] at ht; cases ht

theorem static_rules {f : Files} {k : Nat} {x : TInfo} (h : Static f db k x) {r : Str} (hr : r ∈ x.rules) :
    r ∈ (db.target k).rules ∧ x.deps = (db.target k).deps ∧ x.rules = (db.target k).rules := by
  rcases h.2 with ⟨h1, _, h3⟩ | ⟨_, _, _, h3, _⟩
  · exact ⟨h3 ▸ hr, h1, h3⟩
  · rw [h3] at hr; cases hr

theorem applyRule_cases (env : Env) (choose : Nat → Str) (m : Mem) (l : Nat) :
    (applyRule env choose m l = m ∧ matching env m l = []) ∨
    ∃ d ∈ matching env m l, (applyRule env choose m l).files = m.files ∧
      (∀ k, k ≠ l → (applyRule env choose m l).info k = m.info k) ∧
      ∃ ds, (applyRule env choose m l).info l = { m.info l with rules := [], deps := ds, hasCmds := true } ∧
        ∀ e, e ∈ ds ↔ e ∈ (m.info l).deps ∨ e = d := by
  unfold applyRule
  cases hm : matching env m l with
  | nil => exact .inl ⟨rfl, rfl⟩
  | cons r rs =>
    right
    refine ⟨if choose l ∈ r :: rs then choose l else r, ?_, rfl, fun k hk => upd_other _ _ hk, _, upd_same _ _ _, fun e => ?_⟩
    · split
      · next h => exact h
      · exact List.mem_cons_self
    · generalize (if choose l ∈ r :: rs then choose l else r) = d
      split
      · next hin =>
        constructor
        · exact .inl
        · rintro (h1 | rfl)
          · exact h1
          · exact hin
      · simp

/-- Applying the rules of a leaf. -/
theorem PCore.applyRule (p : Plan env cfg db disk0) (h : PCore env cfg db Q H disk0 b g m) (choose : Nat → Str) {l : Nat}
    (hl : l ∈ g.leaves) :
    PCore env cfg db Q H disk0 b g (applyRule env choose m l) ∧
    (applyRule env choose m l).files = m.files ∧
    (∀ k, ((applyRule env choose m l).info k).fileExists = (m.info k).fileExists ∧
      ((applyRule env choose m l).info k).time = (m.info k).time) ∧
    (∀ k, ((applyRule env choose m l).info k).hasCmds = false → (applyRule env choose m l).info k = m.info k) ∧
    (((applyRule env choose m l).info l).hasCmds = false → ∀ r ∈ (m.info l).rules, fm env m r = none) := by
  rcases applyRule_cases env choose m l with ⟨he, hm⟩ | ⟨d, hd2, hfiles, hother, ds, hself, hds⟩
  · rw [he]
    refine ⟨h, rfl, fun _ => ⟨rfl, rfl⟩, fun _ _ => rfl, fun _ r hr => ?_⟩
    unfold matching at hm
    rw [List.filter_eq_nil_iff] at hm
    have := hm r hr
    unfold Make.there at this
    rw [Bool.or_eq_true, not_or] at this
    simpa using this.2
  · generalize Make.applyRule env choose m l = m1 at *
    unfold matching at hd2
    rw [List.mem_filter] at hd2
    have hw := (h.idReach ((h.ginv.lv l).1 hl).1).wanted
    obtain ⟨s1, s2, s3⟩ := static_rules (h.weak l hw) hd2.1
    have hfe : ∀ k, (m1.info k).fileExists = (m.info k).fileExists ∧ (m1.info k).time = (m.info k).time := by
      intro k
      by_cases hk : k = l
      · subst hk; rw [hself]; exact ⟨rfl, rfl⟩
      · rw [hother k hk]; exact ⟨rfl, rfl⟩
    refine ⟨h.update (by rw [hfiles]) (by rw [hfiles]; exact h.cache) ?_ ?_ ?_ ?_, hfiles, hfe, ?_, ?_⟩
    · intro k hkw
      by_cases hk : k = l
      · subst hk
        rw [hself]
        exact ⟨(h.weak k hkw).1, .inr ⟨d, s1, ⟨1, rfl⟩, rfl, rfl, fun e => by rw [← s2]; exact hds e⟩⟩
      · rw [hother k hk]
        exact h.weak k hkw
    · intro k hkw hkH
      by_cases hk : k = l
      · subst hk
        rw [hself]
        exact ⟨(h.stat k hkw hkH).1, .inr ⟨d, s1, h.there p hl hkH s1 hd2.2, rfl, rfl, fun e => by rw [← s2]; exact hds e⟩⟩
      · rw [hother k hk]
        exact h.stat k hkw hkH
    · intro x hx
      exact hother x fun hxl => hx (hxl ▸ ((h.ginv.lv l).1 hl).1)
    · intro x _ _
      refine .inl ⟨(hfe x).1, (hfe x).2, fun hc => ?_⟩
      by_cases hk : x = l
      · subst hk; rw [hself]
      · rw [hother x hk]; exact hc
    · intro k hc
      by_cases hk : k = l
      · subst hk
        rw [hself] at hc
        cases hc
      · exact hother k hk
    · intro hc
      rw [hself] at hc
      cases hc

theorem PCore.applyRules (p : Plan env cfg db disk0) (choose : Nat → Str) : ∀ (ls : List Nat) (m : Mem),
    PCore env cfg db Q H disk0 b g m → (∀ l ∈ ls, l ∈ g.leaves) →
    PCore env cfg db Q H disk0 b g (ls.foldl (Make.applyRule env choose) m) ∧
    (ls.foldl (Make.applyRule env choose) m).files = m.files ∧
    (∀ k, ((ls.foldl (Make.applyRule env choose) m).info k).fileExists = (m.info k).fileExists ∧
      ((ls.foldl (Make.applyRule env choose) m).info k).time = (m.info k).time) ∧
    (∀ k, ((ls.foldl (Make.applyRule env choose) m).info k).hasCmds = false →
      (ls.foldl (Make.applyRule env choose) m).info k = m.info k) ∧
    (∀ l ∈ ls, ((ls.foldl (Make.applyRule env choose) m).info l).hasCmds = false → ∀ r ∈ (m.info l).rules, fm env m r = none) := by
  intro ls
  induction ls with
  | nil => intro m h _; exact ⟨h, rfl, fun _ => ⟨rfl, rfl⟩, fun _ _ => rfl, by simp⟩
  | cons l ls ih =>
    intro m h hls
    obtain ⟨a1, a2, a3, a4, a5⟩ := h.applyRule p choose (hls l List.mem_cons_self)
    rw [List.foldl_cons]
    generalize Make.applyRule env choose m l = m1 at *
    obtain ⟨b1, b2, b3, b4, b5⟩ := ih m1 a1 fun x hx => hls x (List.mem_cons_of_mem _ hx)
    have hf : fm env m1 = fm env m := by unfold fm; rw [a2]
    refine ⟨b1, b2.trans a2, fun k => ⟨(b3 k).1.trans (a3 k).1, (b3 k).2.trans (a3 k).2⟩, ?_, ?_⟩
    · intro k hk
      have := b4 k hk
      rw [this] at hk ⊢
      exact a4 k hk
    · intro x hx hc
      have h1 := b4 x hc
      rcases List.mem_cons.1 hx with rfl | hx
      · exact a5 (by rw [← h1]; exact hc)
      · have h2 := b5 x hx hc
        rw [hf, a4 x (by rw [← h1]; exact hc)] at h2
        exact h2

/-! ### The next target -/

theorem static_cmds {f : Files} {k : Nat} {x : TInfo} (h : Static f db k x) (hc : x.hasCmds = true) : Buildable f db k := by
  rcases h.2 with ⟨_, h2, _⟩ | ⟨r, hr, hs, _⟩
  · exact .inl (h2 ▸ hc)
  · exact .inr ⟨r, hr, hs⟩

theorem pick_dirty (g : Graph) : (pick g).1.dirty = g.dirty := by
  unfold pick
  split
  · rfl
  · simp only; split <;> rfl

/-- A leaf that is out of date is taken. -/
theorem PInv.take (h : PInv env cfg db Q H disk0 b g m) (hd : g.dirty = false) {g2 : Graph} {t : Nat} (hpk : pick g = (g2, some t))
    (hc : (m.info t).hasCmds = true) : PInv env cfg db Q H disk0 b g2 m := by
  have hdirty := pick_dirty g
  obtain ⟨p1, p2, p3, p4, p5, p6, p7⟩ := pick_spec h.core.ginv
  rw [hpk] at hdirty p1 p2 p3 p4 p5 p6 p7
  simp only at hdirty p1 p2 p3 p4 p5 p6 p7
  obtain ⟨t1, t2, t3, t4, t5, t6⟩ := p7 t rfl
  have htl : t ∈ g.leaves := (h.core.ginv.lv t).2 ⟨t1, t2⟩
  have hlf := h.leaf hd t htl t3
  have hset : ∀ x, Settled cfg db Q H b g2 x ↔ Settled cfg db Q H b g x := by
    intro x; unfold Settled; rw [p1]
  have hexec : ∀ x, g2.state x = .executing → x = t ∨ g.state x = .executing := by
    intro x hx
    by_cases hxt : x = t
    · exact .inl hxt
    · rw [t4 x hxt] at hx; exact .inr hx
  have hnu := fun hH : ¬ H t => t6 (h.core.able t t1 hH)
  have hc0 := h.core
  refine ⟨⟨hc0.hurt, hc0.edges, p5, hc0.weak, hc0.stat, hc0.sources, hc0.nz, hc0.mono, hc0.new, ?_, ?_, ?_, ?_, ?_, ?_, ?_⟩, ?_⟩
  · intro x hx; exact hc0.good x ((hset x).1 hx)
  · rw [p1]; exact hc0.made
  · rw [p1]; exact hc0.exact
  · rw [p1]; exact hc0.self
  · intro x hx he hH
    rw [p1] at hx
    rcases hexec x he with rfl | he
    · obtain ⟨hchk, htime, hbf⟩ := hlf hH
      exact ⟨hc, htime, fun hb => hbf hb (static_cmds (hc0.stat x (hc0.idReach hx).wanted hH) hc)⟩
    · exact hc0.exec x hx he hH
  · intro x hx hH
    rw [p1] at hx
    by_cases hxt : x = t
    · subst hxt; rw [hnu hH]; exact NState.noConfusion
    · rw [t4 x hxt]; exact hc0.able x hx hH
  · refine ⟨?_, fun n τ hcn k hk ha => ?_, hc0.cache.nz, hc0.cache.ment⟩
    · intro n τ hcn
      rcases hc0.cache.right n τ hcn with h1 | ⟨k, hk, he, hn⟩ | h1
      · exact .inl h1
      · have hkt : k ≠ t := fun hkt => t3 (hkt ▸ he)
        exact .inr (.inl ⟨k, by rw [p1]; exact hk, by rw [t4 k hkt]; exact he, hn⟩)
      · exact .inr (.inr h1)
    · rw [hset]; exact hc0.cache.named n τ hcn k hk ha
  · intro hd2 l hl he hH
    rw [p2] at hl
    have hlt : l ≠ t := fun hlt => he (hlt ▸ hnu (hlt ▸ hH))
    rw [t4 l hlt] at he
    exact h.leaf hd l hl he hH

/-- A leaf without commands is dropped. -/
theorem PInv.skip (p : Plan env cfg db disk0) (h : PInv env cfg db Q H disk0 b g m) (hd : g.dirty = false) {g2 : Graph} {t : Nat}
    (hpk : pick g = (g2, some t)) (hb : ¬ H t → ¬ Buildable (fm env m) db t) : PInv env cfg db Q H disk0 b (removeLeaf g2 t) m := by
  obtain ⟨p1, p2, p3, p4, p5, p6, p7⟩ := pick_spec h.core.ginv
  rw [hpk] at p1 p2 p3 p4 p5 p6 p7
  simp only at p1 p2 p3 p4 p5 p6 p7
  obtain ⟨t1, t2, t3, t4, t5, t6⟩ := p7 t rfl
  have htl : t ∈ g.leaves := (h.core.ginv.lv t).2 ⟨t1, t2⟩
  have hlf := h.leaf hd t htl t3
  have ht2 : t ∈ g2.ids := by rw [p1]; exact t1
  obtain ⟨q1, q2, q3⟩ := removeLeaf_settle p5 ht2 (by rw [p3]; exact t2)
  have hw := (h.core.idReach t1).wanted
  have hgood : ¬ H t → Good (fm env m) db t := by
    intro hH
    have hb := hb hH
    refine ⟨fun hb' => absurd hb' hb, ?_⟩
    by_cases hf : fm env m (db.target t).name = none
    · right
      refine ⟨hb, ?_, fun d hdd => h.core.noMiss p (.inr (h.core.idReach t1)) (fun c hc => h.core.leafSettled htl hH hc) hdd⟩
      rcases p.un.filled t hw with h1 | h1 | h1 | ⟨r, hr, h1⟩
      · exact h1
      · exact absurd (.inl h1) hb
      · exact absurd hf (h.core.mono _ ⟨t, hw, .inl rfl⟩ h1)
      · exact absurd (.inr ⟨r, hr, Option.ne_none_iff_exists'.1 (h.core.mono _ ⟨t, hw, .inr (.inr hr)⟩ h1)⟩) hb
    · exact .inl hf
  refine ⟨h.core.dropIdle (gone := [t]) q1 (by rw [q2, p1]) ?_ ?_ ?_, ?_⟩
  · intro x
    rw [q3]
    by_cases hxt : x = t
    · right; simp [hxt]
    · exact .inl (t4 x hxt)
  · intro x hx
    rw [List.mem_singleton] at hx
    subst hx
    exact t3
  · intro x hx hH
    rw [List.mem_singleton] at hx
    subst hx
    obtain ⟨hchk, htime, hbf⟩ := hlf hH
    exact ⟨hgood hH, .inl hchk.1, fun hb => ⟨hchk.1, hchk.2 hb⟩⟩
  · intro hd2 l hl he
    unfold removeLeaf at hd2 hl
    rw [if_pos ht2] at hd2 hl
    rw [(removeLeafNode_clean hd2).2, p2, List.mem_filter, decide_eq_true_eq] at hl
    rw [q3, t4 l hl.2] at he
    exact h.leaf hd l hl.1 he

theorem PInv.applyRules (p : Plan env cfg db disk0) (choose : Nat → Str) (h : PInv env cfg db Q H disk0 b g m) (hd : g.dirty = false) :
    PInv env cfg db Q H disk0 b g (g.leaves.foldl (Make.applyRule env choose) m) ∧
    (g.leaves.foldl (Make.applyRule env choose) m).files = m.files ∧
    ∀ l ∈ g.leaves, ((g.leaves.foldl (Make.applyRule env choose) m).info l).hasCmds = false → ¬ H l →
      ¬ Buildable (fm env (g.leaves.foldl (Make.applyRule env choose) m)) db l := by
  obtain ⟨b1, b2, b3, b4, b5⟩ := PCore.applyRules p choose g.leaves m h.core (fun _ hl => hl)
  generalize g.leaves.foldl (Make.applyRule env choose) m = m1 at *
  have hf : fm env m1 = fm env m := by unfold fm; rw [b2]
  refine ⟨⟨b1, fun _ l hl he hH => ?_⟩, b2, ?_⟩
  · obtain ⟨c1, c2, c3⟩ := h.leaf hd l hl he hH
    rw [Checked, hf, (b3 l).1, (b3 l).2]
    exact ⟨⟨c1.1.congr (b3 l).1 (b3 l).2, fun hb => (c1.2 hb).congr (b3 l).2⟩, c2, c3⟩
  · intro l hl hc hH hb
    have hi := b4 l hc
    have hr := b5 l hl hc
    rw [hf] at hb
    rw [hi] at hc
    rcases (h.core.stat l (h.core.idReach ((h.core.ginv.lv l).1 hl).1).wanted hH).2 with ⟨_, h2, h3⟩ | ⟨_, _, _, _, h3, _⟩
    · rcases hb with hb | ⟨r, hr', s, hs⟩
      · rw [h2, hb] at hc; cases hc
      · rw [← h3] at hr'
        rw [hr r hr'] at hs; cases hs
    · rw [h3] at hc; cases hc

theorem PInv.findNext (p : Plan env cfg db disk0) (a : Answers) : ∀ i (j j' : J), PInv env cfg db Q H disk0 b j.s.g j.m →
    (∀ x s, j.m.files.disk x = some s → s ≤ a.now) → findNextTarget env cfg a i j = .ok j' →
    PInv env cfg db Q H disk0 b j'.s.g j'.m ∧ j'.m.files.disk = j.m.files.disk := by
  intro i
  induction i with
  | zero => intro j j' h _ he; simp only [findNextTarget, Except.ok.injEq] at he; subst he; exact ⟨h, rfl⟩
  | succ i ih =>
    intro j j' h hclock he
    simp only [findNextTarget] at he
    split at he
    · simp only [Except.ok.injEq] at he; subst he; exact ⟨h, rfl⟩
    · rw [p.all] at he
      obtain ⟨h1, h2, h3⟩ := h.prune p a.asked hclock
      generalize Make.prune env a.now a.asked false j.s.g j.m = pr at h1 h2 h3 he
      obtain ⟨g, m, gone⟩ := pr
      simp only at h1 h2 h3 he
      split at he
      · cases he
      · obtain ⟨c1, c2, c3⟩ := h1.applyRules p a.choose h3
        generalize g.leaves.foldl (Make.applyRule env a.choose) m = m1 at c1 c2 c3 he
        have hdisk : m1.files.disk = j.m.files.disk := by rw [c2]; exact h2
        generalize hpk : pick g = pk at he
        obtain ⟨g2, r⟩ := pk
        obtain ⟨_, _, _, _, _, p6, p7⟩ := pick_spec h1.core.ginv
        rw [hpk] at p6 p7
        simp only at he p6 p7
        cases r with
        | none =>
          simp only [Except.ok.injEq] at he
          subst he
          obtain ⟨rfl, _⟩ := p6 rfl
          exact ⟨c1, hdisk⟩
        | some t =>
          obtain ⟨t1, t2, _⟩ := p7 t rfl
          have htl : t ∈ g.leaves := (h1.core.ginv.lv t).2 ⟨t1, t2⟩
          simp only [Bool.false_eq_true, if_false] at he
          split at he
          · next hc =>
            obtain ⟨d1, d2⟩ := ih _ _ (c1.skip p h3 hpk (c3 t htl hc)) (by rw [hdisk]; exact hclock) he
            exact ⟨d1, d2.trans hdisk⟩
          · next hc =>
            have hc : (m1.info t).hasCmds = true := by simpa using hc
            have htk := c1.take h3 hpk hc
            obtain ⟨p1, _⟩ := pick_spec h1.core.ginv
            rw [hpk] at p1
            split at he
            · next hub =>
              have hH : H t := by
                apply Classical.byContradiction
                intro hH
                have := htk.core.able t (by rw [p1]; exact t1) hH
                simp only [Bool.and_eq_true, beq_iff_eq] at hub
                exact this hub.2
              obtain ⟨d1, d2⟩ := ih _ _ (c1.skip p h3 hpk fun hn => absurd hH hn) (by rw [hdisk]; exact hclock) he
              exact ⟨d1, d2.trans hdisk⟩
            · simp only [Except.ok.injEq] at he
              subst he
              exact ⟨htk, hdisk⟩

end Jom.Make
