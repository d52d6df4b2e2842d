/- What the files contain in runs in which all commands follow their recipes. -/
import Verif.Proofs.MakeSecondRun
import Verif.Proofs.MakeRecords
import Verif.Proofs.MakePlain

namespace Jom.Make

open Jom.Graph Jom.Sched Jom.UpToDate Jom.Spec Jom.Spec.Build Relation

theorem findNext_avail (env : Env) (cfg : Cfg) (a : Answers) : ∀ i (j : J), (outcome (findNextTarget env cfg a i j)).s.avail = j.s.avail := by
  intro i
  induction i with
  | zero => intro j; rfl
  | succ i ih =>
    intro j
    simp only [findNextTarget]
    split
    · rfl
    · generalize prune env a.now a.asked cfg.buildAll j.s.g j.m = pr
      obtain ⟨g, m, gone⟩ := pr
      simp only
      split
      · rfl
      · generalize List.foldl (applyRule env a.choose) m g.leaves = m1
        generalize pick g = pk
        obtain ⟨g1, r⟩ := pk
        cases r with
        | none => rfl
        | some t =>
          simp only
          generalize (if cfg.buildAll = true then (test env a.now a.asked t m1).1 else m1) = m2
          split
          · exact ih _
          · split
            · exact ih _
            · rfl

theorem build_onward (env : Env) (cfg : Cfg) (asked : Str → Bool) {res : StartRes} (writes : List (Str × Option Nat)) {j : J}
    (hne : j.s.avail ≠ []) (hres : res ≠ .sync false)
    (ho : (buildNextTarget env cfg asked res writes j).s.allOk = true) : Onward j (buildNextTarget env cfg asked res writes j) := by
  unfold Make.buildNextTarget Sched.buildNextTarget at ho ⊢
  cases hn : j.s.next with
  | none => exact ⟨rfl, fun _ h => h, fun _ h => h, id, id⟩
  | some t =>
    simp only [hn] at ho ⊢
    cases hab : j.s.aborted with
    | true => exact ⟨by simp, by simp, by simp, by simp, by simp [hab]⟩
    | false =>
      simp only [hab, Bool.false_eq_true, if_false] at ho ⊢
      cases hav : j.s.avail with
      | nil => exact absurd hav hne
      | cons e rest =>
        simp only [hav] at ho ⊢
        cases res with
        | throws =>
          exact ⟨remember_disk .., by simp [onException, finishBuild], by simp only [onException, finishBuild]; intro e he; simp [he],
            by simp [onException, finishBuild], by simp [onException, finishBuild]⟩
        | running =>
          exact ⟨remember_disk .., fun q h => List.mem_cons_of_mem _ h, fun q h => List.mem_append_left _ h, id, id⟩
        | sync failed =>
          cases failed with
          | false => exact absurd rfl hres
          | true =>
            have := (childFinished_fields cfg e t true (begin e t rest j.s)).allOk
            have ho : (childFinished cfg e t true (begin e t rest j.s)).allOk = true := ho
            rw [this] at ho
            simp at ho

theorem start_onward (env : Env) (cfg : Cfg) (a : Answers) {j : J} (hres : a.res ≠ .sync false)
    (ho : (startProcesses env cfg a j).s.allOk = true) : Onward j (startProcesses env cfg a j) := by
  unfold startProcesses at ho ⊢
  split
  · exact .refl j
  · next hc =>
    rw [if_neg hc] at ho
    have hav : j.s.avail ≠ [] := by
      intro h; rw [h] at hc; simp at hc
    have hf : Onward j (outcome (if j.s.next.isNone then findNextTarget env cfg a (j.s.g.ids.length + 1) j else .ok j)) ∧
        (outcome (if j.s.next.isNone then findNextTarget env cfg a (j.s.g.ids.length + 1) j else .ok j)).s.avail = j.s.avail := by
      split
      · exact ⟨findNext_onward env cfg a _ j, findNext_avail env cfg a _ j⟩
      · exact ⟨.refl j, rfl⟩
    revert hf ho
    generalize (if j.s.next.isNone then findNextTarget env cfg a (j.s.g.ids.length + 1) j else .ok j) = r
    cases r with
    | error j' =>
      simp only [outcome]
      rintro _ ⟨h1, _⟩
      exact h1.trans ⟨rfl, by simp [onException, finishBuild], by simp only [onException, finishBuild]; intro e he; simp [he],
            by simp [onException, finishBuild], by simp [onException, finishBuild]⟩
    | ok j' =>
      simp only [outcome]
      rintro ho ⟨h1, h2⟩
      split
      · next hn =>
        rw [if_pos hn] at ho
        split
        · next h0 =>
          rw [if_pos h0] at ho
          exact h1.trans (build_onward env cfg a.asked a.writes (by rw [h2]; exact hav) hres ho)
        · exact h1.trans ⟨rfl, fun _ h => h, fun _ h => h, id, id⟩
      · split
        · split
          · exact h1.trans ⟨rfl, fun _ h => h, fun _ h => h, id, id⟩
          · refine h1.trans ?_
            unfold rebuild
            split <;> exact ⟨rfl, fun _ h => h, fun _ h => h, id, id⟩
        · exact h1

theorem step_onward {env : Env} {cfg : Cfg} {j j' : J} {e : Event} (hi : Inv cfg j.s) (db : Db) (hw : PlainBehaves env cfg db j e)
    (hne : ∀ file value, e ≠ .write file value) (hnc : ∀ ex failed, e ≠ .childFinished ex failed)
    (hs : step env cfg j e = some j') (ho : j'.s.allOk = true) (hab : j'.s.aborted = false) : Onward j j' ∧ j.s.dead = false := by
  cases e with
  | startProcesses a =>
    simp only [step] at hs
    split at hs
    · next hc =>
      cases hs
      have := start_onward env cfg a (j := { j with s := { j.s with queued := j.s.queued - 1 } }) hw.2 ho
      exact ⟨⟨this.disk, this.busy, this.log, this.allOk, this.aborted⟩, hc.1⟩
    · cases hs
  | grant =>
    simp only [step] at hs
    split at hs
    · next hc => cases hs; exact ⟨⟨rfl, fun _ h => h, fun _ h => h, id, id⟩, hc.1⟩
    · cases hs
  | acquired asked res writes inWait =>
    simp only [step] at hs
    split at hs
    · next hc =>
      cases hs
      have h1 : (buildNextTarget env cfg asked res writes { j with s := { j.s with acquiring := false, granted := false } }).s.allOk = true := by
        split at ho
        · exact ho
        · exact ho
      have := build_onward env cfg asked writes (j := { j with s := { j.s with acquiring := false, granted := false } })
        (hi.ex.acqAvail (hi.ex.gr hc.2.1)) hw h1
      split
      · exact ⟨⟨this.disk, this.busy, this.log, this.allOk, this.aborted⟩, hc.1⟩
      · exact ⟨⟨this.disk, this.busy, this.log, this.allOk, this.aborted⟩, hc.1⟩
    · cases hs
  | childFinished e failed => exact absurd rfl (hnc _ _)
  | abortDone =>
    simp only [step] at hs
    split at hs
    · next hc => cases hs; exact ⟨⟨rfl, fun _ h => h, fun _ h => h, id, id⟩, hc.1⟩
    · cases hs
  | write file value => exact absurd rfl (hne _ _)

/-! ### What a target is made from -/

variable {C : Type} {env : Env} {cfg : Cfg} {db : Db} {disk0 : Str → Option Nat}

/-- `y` mentions `n` as dependent or as a file from which it could be inferred. -/
abbrev Says (db : Db) (y : Nat) (n : Str) : Prop := n ∈ (db.target y).deps ∨ n ∈ (db.target y).rules

theorem _root_.Jom.Spec.Build.Stands.exists {f : Files} {d n : Str} (h : Stands f db d n) : f n ≠ none := by
  induction h with
  | file h => exact h
  | behind _ _ _ _ ih => exact ih

theorem _root_.Jom.Spec.Build.Stands.time {f : Files} {d n : Str} (h : Stands f db d n) {s : Nat} (hs : f n = some s) : Behind f db d s := by
  induction h with
  | file _ => exact .file hs
  | behind h1 h2 h3 _ ih => exact .behind h1 h2 h3 (ih hs)

theorem _root_.Jom.Spec.Build.Wanted.down {requested : List Nat} {x y : Nat} (h : Wanted db requested x) (hy : ReflTransGen (Needs db) x y) :
    Wanted db requested y := by
  obtain ⟨r, hr, h⟩ := h
  exact ⟨r, hr, h.trans hy⟩

theorem Plan.stands (p : Plan env cfg db disk0) {f : Files} {d n : Str} (h : Stands f db d n) {x : Nat} (hx : Wanted db cfg.targets x) :
    (∃ y, ReflTransGen (Needs db) x y ∧ Says db y d) → ∃ y, ReflTransGen (Needs db) x y ∧ Says db y n := by
  induction h with
  | file _ => exact id
  | behind _ h2 h3 _ ih =>
    rintro ⟨y, hy, hd⟩
    exact ih ⟨_, hy.tail (p.needs (hx.down hy) hd (.inl h2)), .inl h3⟩

theorem counts_says {f : Files} {x : Nat} {d : Str} (h : Counts f db x d) : Says db x d := h.imp id And.left

theorem Plan.madeFrom (p : Plan env cfg db disk0) {f : Files} {n : Str} {x : Nat} (hx : Wanted db cfg.targets x) (h : MadeFrom f db x n) :
    ∃ y, ReflTransGen (Needs db) x y ∧ Says db y n := by
  obtain ⟨d, hd, h⟩ := h
  exact p.stands h hx ⟨x, .refl, counts_says hd⟩

theorem says_mentioned {requested : List Nat} {x y : Nat} {n : Str} (hx : Wanted db requested x) (hy : ReflTransGen (Needs db) x y)
    (hn : Says db y n) : Mentioned db requested n := ⟨y, hx.down hy, .inr hn⟩

/-- The names on the way from a name to the files behind it do not differ between `f` and `f'`. -/
structure Path (db : Db) (P : Str → Prop) (f f' : Files) : Prop where
  same : ∀ d, P d → f d = f' d
  closed : ∀ d k e, P d → f d = none → db.lookup d = some k → e ∈ (db.target k).deps → P e

variable {P : Str → Prop} {f f' : Files}

theorem Path.symm (h : Path db P f f') : Path db P f' f :=
  ⟨fun d hd => (h.same d hd).symm, fun d k e hd h0 => h.closed d k e hd (by rw [h.same d hd]; exact h0)⟩

theorem Path.stands (h : Path db P f f') {d n : Str} (hs : Stands f db d n) : P d → Stands f' db d n ∧ P n := by
  induction hs with
  | file h1 => intro hd; exact ⟨.file (by rw [← h.same _ hd]; exact h1), hd⟩
  | behind h1 h2 h3 _ ih =>
    intro hd
    obtain ⟨i1, i2⟩ := ih (h.closed _ _ _ hd h1 h2 h3)
    exact ⟨.behind (by rw [← h.same _ hd]; exact h1) h2 h3 i1, i2⟩

theorem Path.behind (h : Path db P f f') {d : Str} {s : Nat} (hs : Behind f db d s) : P d → Behind f' db d s := by
  induction hs with
  | file h1 => intro hd; exact .file (by rw [← h.same _ hd]; exact h1)
  | behind h1 h2 h3 _ ih =>
    intro hd
    exact .behind (by rw [← h.same _ hd]; exact h1) h2 h3 (ih (h.closed _ _ _ hd h1 h2 h3))

theorem Path.missing (h : Path db P f f') {d : Str} (hs : Missing f db d)
    (hb : ∀ d k, P d → db.lookup d = some k → Buildable f db k → Buildable f' db k) : P d → Missing f' db d := by
  induction hs with
  | noFile h1 h2 => intro hd; exact .noFile (by rw [← h.same _ hd]; exact h1) h2
  | toBuild h1 h2 h3 => intro hd; exact .toBuild (by rw [← h.same _ hd]; exact h1) h2 (hb _ _ hd h2 h3)
  | empty h1 h2 h3 => intro hd; exact .empty (by rw [← h.same _ hd]; exact h1) h2 h3
  | behind h1 h2 h3 _ ih =>
    intro hd
    exact .behind (by rw [← h.same _ hd]; exact h1) h2 h3 (ih (h.closed _ _ _ hd h1 h2 h3))

/-- Files are written (`ch`) from which `x` is not made. -/
theorem Plan.others (p : Plan env cfg db disk0) {c c' : Str → C} {ch : Str → Prop} {x : Nat} (recipe : Nat → (Str → C → Prop) → C)
    (hx : Wanted db cfg.targets x)
    (hname : ¬ ch (db.target x).name) (hsame : ∀ n, ¬ ch n → f' n = f n ∧ c' n = c n)
    (hfile : ∀ n, Mentioned db cfg.targets n → ch n → f' n ≠ none)
    (hno : ∀ n, MadeFrom f' db x n → ¬ ch n) (hb : Buildable f' db x) (hu : UpToDate f' db x)
    (hc : Buildable f db x → UpToDate f db x → Correct recipe f c db x) : Correct recipe f' c' db x := by
  have hgrow : ∀ n, Mentioned db cfg.targets n → f n ≠ none → f' n ≠ none := by
    intro n hn h0
    by_cases h : ch n
    · exact hfile n hn h
    · rw [(hsame n h).1]; exact h0
  let P : Str → Prop := fun d => (∃ y, ReflTransGen (Needs db) x y ∧ Says db y d) ∧ ∀ n, Stands f' db d n → ¬ ch n
  have hPne : ∀ d, P d → ¬ ch d := by
    rintro d ⟨⟨y, hy, hd⟩, h⟩ hf
    exact h d (.file (hfile d (says_mentioned hx hy hd) hf)) hf
  have hpath : Path db P f f' := by
    refine ⟨fun d hd => ((hsame d (hPne d hd)).1).symm, ?_⟩
    intro d k e hd h0 hk he
    have hne := hPne d hd
    obtain ⟨⟨y, hy, hyd⟩, h⟩ := hd
    refine ⟨⟨k, hy.tail (p.needs (hx.down hy) hyd (.inl hk)), .inl he⟩, fun n hn => h n ?_⟩
    exact .behind (by rw [(hsame d hne).1]; exact h0) hk he hn
  have hcounts : ∀ d, Counts f' db x d ↔ Counts f db x d := by
    intro d
    constructor
    · rintro (h | ⟨h, hs⟩)
      · exact .inl h
      · refine .inr ⟨h, ?_⟩
        have : ¬ ch d := hno d ⟨d, .inr ⟨h, hs⟩, .file (Option.ne_none_iff_exists'.2 hs)⟩
        rw [← (hsame d this).1]; exact hs
    · rintro (h | ⟨h, hs⟩)
      · exact .inl h
      · exact .inr ⟨h, Option.ne_none_iff_exists'.1 (hgrow d ⟨x, hx, .inr (.inr h)⟩ (Option.ne_none_iff_exists'.2 hs))⟩
  have hP : ∀ d, Counts f db x d → P d :=
    fun d hd => ⟨⟨x, .refl, counts_says hd⟩, fun n hn => hno n ⟨d, (hcounts d).2 hd, hn⟩⟩
  have hmade : ∀ n, MadeFrom f' db x n ↔ MadeFrom f db x n := by
    intro n
    constructor
    · rintro ⟨d, hd, hs⟩
      exact ⟨d, (hcounts d).1 hd, (hpath.symm.stands hs (hP d ((hcounts d).1 hd))).1⟩
    · rintro ⟨d, hd, hs⟩
      exact ⟨d, (hcounts d).2 hd, (hpath.stands hs (hP d hd)).1⟩
  have hb' : Buildable f db x := by
    rcases hb with hb | ⟨r, hr, hs⟩
    · exact .inl hb
    · rcases (hcounts r).1 (.inr ⟨hr, hs⟩) with h | ⟨_, h⟩
      · refine .inr ⟨r, hr, ?_⟩
        have : ¬ ch r := hno r ⟨r, .inr ⟨hr, hs⟩, .file (Option.ne_none_iff_exists'.2 hs)⟩
        rw [← (hsame r this).1]; exact hs
      · exact .inr ⟨r, hr, h⟩
  have hu' : UpToDate f db x := by
    obtain ⟨T, hT, hu⟩ := hu
    refine ⟨T, by rw [← (hsame _ hname).1]; exact hT, fun d hd => ?_⟩
    obtain ⟨h1, h2⟩ := hu d ((hcounts d).2 hd)
    refine ⟨fun hm => h1 (hpath.missing hm ?_ (hP d hd)), fun s hs => h2 s (hpath.behind hs (hP d hd))⟩
    rintro e k ⟨⟨y, hy, hye⟩, _⟩ hk (hb | ⟨r, hr, hs⟩)
    · exact .inl hb
    · have hkw := (hx.down hy).tail (p.needs (hx.down hy) hye (.inl hk))
      exact .inr ⟨r, hr, Option.ne_none_iff_exists'.1 (hgrow r ⟨k, hkw, .inr (.inr hr)⟩ (Option.ne_none_iff_exists'.2 hs))⟩
  have := hc hb' hu'
  unfold Correct at this ⊢
  rw [(hsame _ hname).2, this]
  congr 1
  funext n v
  apply propext
  constructor
  · rintro ⟨h1, h2⟩
    have h1' := (hmade n).2 h1
    exact ⟨h1', by rw [(hsame n (hno n h1')).2]; exact h2⟩
  · rintro ⟨h1, h2⟩
    exact ⟨(hmade n).1 h1, by rw [← (hsame n (hno n h1)).2]; exact h2⟩

/-- A file is written from which `x` is not made. -/
theorem Plan.other (p : Plan env cfg db disk0) {c c' : Str → C} {file : Str} {x : Nat} (recipe : Nat → (Str → C → Prop) → C)
    (hx : Wanted db cfg.targets x)
    (hname : env.abs (db.target x).name ≠ file) (hsame : ∀ n, env.abs n ≠ file → f' n = f n ∧ c' n = c n)
    (hfile : ∀ n, Mentioned db cfg.targets n → env.abs n = file → f' n ≠ none)
    (hno : ∀ n, MadeFrom f' db x n → env.abs n ≠ file) (hb : Buildable f' db x) (hu : UpToDate f' db x)
    (hc : Buildable f db x → UpToDate f db x → Correct recipe f c db x) : Correct recipe f' c' db x :=
  p.others (ch := fun n => env.abs n = file) recipe hx hname hsame hfile hno hb hu hc

/-! ### The contents during a run -/

/-- What looks up to date contains what it should unless it is being made; only what is derived changes. -/
structure Honest (env : Env) (cfg : Cfg) (db : Db) (recipe : Nat → (Str → C → Prop) → C) (disk0 : Str → Option Nat) (c0 : Str → C)
    (j : J) (c : Str → C) : Prop where
  right : ∀ x, Wanted db cfg.targets x → x ∉ j.s.busy.map (·.2) → Buildable (fm env j.m) db x → UpToDate (fm env j.m) db x →
    Correct recipe (fm env j.m) (fun n => c (env.abs n)) db x
  kept : ∀ x, Wanted db cfg.targets x →
    (fm env j.m (db.target x).name = disk0 (env.abs (db.target x).name) ∧ c (env.abs (db.target x).name) = c0 (env.abs (db.target x).name)) ∨
    (Derived (fun n => disk0 (env.abs n)) db x ∧ ∃ b, Ev.started b x ∈ j.s.log ∧ Reach cfg db b x)
  plain : ∀ n, Mentioned db cfg.targets n → (∀ k, Wanted db cfg.targets k → env.abs n ≠ env.abs (db.target k).name) →
    fm env j.m n = disk0 (env.abs n) ∧ c (env.abs n) = c0 (env.abs n)

variable {recipe : Nat → (Str → C → Prop) → C} {c0 : Str → C} {j j' : J} {c c' : Str → C}

theorem Honest.onward (h : Honest env cfg db recipe disk0 c0 j c) (ho : Onward j j') : Honest env cfg db recipe disk0 c0 j' c := by
  have hf : fm env j'.m = fm env j.m := by unfold fm; rw [ho.disk]
  refine ⟨?_, ?_, ?_⟩
  · rw [hf]
    intro x hx hxb
    refine h.right x hx fun hm => hxb ?_
    obtain ⟨q, hq, he⟩ := List.mem_map.1 hm
    exact List.mem_map.2 ⟨q, ho.busy q hq, he⟩
  · rw [hf]
    intro x hx
    refine (h.kept x hx).imp id ?_
    rintro ⟨h1, b, h2, h3⟩
    exact ⟨h1, b, ho.log _ h2, h3⟩
  · rw [hf]; exact h.plain

/-- Something whose file exists or can be made is there from the start or derived. -/
theorem Honest.source (p : Plan env cfg db disk0) (h : Honest env cfg db recipe disk0 c0 j c) {x : Nat} (hx : Wanted db cfg.targets x)
    (hb : Buildable (fm env j.m) db x) : Derived (fun n => disk0 (env.abs n)) db x := by
  rcases hb with hb | ⟨r, hr, s, hs⟩
  · exact .commands hb
  · by_cases hk : ∃ k, Wanted db cfg.targets k ∧ env.abs r = env.abs (db.target k).name
    · obtain ⟨k, hk, ha⟩ := hk
      rcases h.kept k hk with ⟨h1, _⟩ | ⟨h1, _⟩
      · refine .source hr ?_
        show disk0 (env.abs r) ≠ none
        rw [ha, ← h1]
        show j.m.files.disk (env.abs (db.target k).name) ≠ none
        rw [← ha]
        exact fun h0 => by rw [show j.m.files.disk (env.abs r) = some s from hs] at h0; cases h0
      · exact .made hr ((p.un.names x hx r (.inr hr) k hk).2 ha) h1
    · obtain ⟨h1, _⟩ := h.plain r ⟨x, hx, .inr (.inr hr)⟩ fun k hkw ha => hk ⟨k, hkw, ha⟩
      refine .source hr ?_
      show disk0 (env.abs r) ≠ none
      rw [← h1, hs]
      simp

/-- A target that was started and is not being made any more is settled. -/
theorem started_settled (hi : Inv cfg j.s) {x b : Nat} (hs : Ev.started b x ∈ j.s.log) (hr : Reach cfg db b x)
    (hx : x ∉ j.s.busy.map (·.2)) : Settled cfg db (fun _ => False) (fun _ => False) j.s.build j.s.g x := by
  refine ⟨?_, fun h => h⟩
  rcases Nat.lt_or_ge b j.s.build with h | h
  · exact .inl (.inr ⟨b, h, hr⟩)
  · have : b = j.s.build := Nat.le_antisymm (hi.lg.logT b x hs) h
    subst this
    rcases hi.lg.startBusy x hs with h1 | h1
    · exact absurd h1 hx
    · exact .inr ⟨hr, fun h2 => hi.lg.notSettled x h2 h1⟩

theorem Honest.write (p : Plan env cfg db disk0) (h : Honest env cfg db recipe disk0 c0 j c) (hi : Inv cfg j.s) (hab : j.s.aborted = false)
    (hp : PInv env cfg db (fun _ => False) (fun _ => False) disk0 j.s.build j.s.g j.m) {file : Str} {value : Option Nat}
    (hw : MayWrite env.abs db cfg.targets (j.s.busy.map (·.2)) file value) (hnew : ∀ τ, value = some τ → ∀ x s, disk0 x = some s → s < τ)
    (hc : ∀ x, x ≠ file → c' x = c x) : Honest env cfg db recipe disk0 c0 { j with m := Make.write j.m (file, value) } c' := by
  have hbusy := busy_exec hi hab
  obtain ⟨hv0, hw⟩ := hw
  have hf' : ∀ n, fm env (Make.write j.m (file, value)) n = if env.abs n = file then value else fm env j.m n := fun n => rfl
  have hsame : ∀ n, env.abs n ≠ file → fm env (Make.write j.m (file, value)) n = fm env j.m n ∧ c' (env.abs n) = c (env.abs n) := by
    intro n hn
    rw [hf', if_neg hn]
    exact ⟨rfl, hc _ hn⟩
  -- the file of a target being made
  have hfile : ∀ n, Mentioned db cfg.targets n → env.abs n = file →
      ∃ t ∈ j.s.busy.map (·.2), env.abs n = env.abs (db.target t).name ∧ value ≠ none := by
    intro n hn hnf
    rcases hw with ⟨t, ht, h1, h2⟩ | hw
    · exact ⟨t, ht, by rw [hnf, h1], h2⟩
    · exact absurd hnf.symm (hw n hn)
  refine ⟨?_, ?_, ?_⟩
  · intro x hx hxb hb hu
    have hname : env.abs (db.target x).name ≠ file := by
      intro he
      obtain ⟨t, ht, h1, _⟩ := hfile _ ⟨x, hx, .inl rfl⟩ he
      have := p.un.distinct x t hx (hp.core.idReach (hbusy t ht).1).wanted h1
      subst this
      exact hxb ht
    refine p.other recipe (c := fun n => c (env.abs n)) (c' := fun n => c' (env.abs n)) hx hname hsame ?_ ?_ hb hu (h.right x hx hxb)
    · intro n hn he
      obtain ⟨t, _, _, h2⟩ := hfile n hn he
      rw [hf', if_pos he]
      exact h2
    · intro n hn he
      obtain ⟨y, hy, hyn⟩ := p.madeFrom hx hn
      obtain ⟨t, ht, ha, hv⟩ := hfile n (says_mentioned hx hy hyn) he
      obtain ⟨τ, hτ⟩ := Option.ne_none_iff_exists'.1 hv
      have hfn : fm env (Make.write j.m (file, value)) n = some τ := by rw [hf', if_pos he, hτ]
      -- the file of `x` is not older than what was written
      obtain ⟨T, hT, hle⟩ := hu
      obtain ⟨d, hd, hdn⟩ := hn
      have hτT := (hle d hd).2 τ (hdn.time hfn)
      rw [(hsame _ hname).1] at hT
      obtain ⟨ht1, ht2⟩ := hbusy t ht
      rcases h.kept x hx with ⟨h1, _⟩ | ⟨_, b, h1, h2⟩
      · have := hnew τ hτ _ T (h1 ▸ hT)
        omega
      · have hset : ∀ z, ReflTransGen (Needs db) x z → Settled cfg db (fun _ => False) (fun _ => False) j.s.build j.s.g z := by
          intro z hz
          induction hz with
          | refl => exact started_settled hi h1 h2 hxb
          | tail _ hn ih => exact hp.core.settledNeeds ih hn
        have htw := (hp.core.idReach ht1).wanted
        have := p.needs (hx.down hy) hyn ((p.un.names y (hx.down hy) n hyn t htw).2 ha)
        exact hp.core.execNot ht1 ht2 (.inl (hset t (hy.tail this)))
  · intro x hx
    by_cases he : env.abs (db.target x).name = file
    · obtain ⟨t, ht, ha, _⟩ := hfile _ ⟨x, hx, .inl rfl⟩ he
      obtain ⟨ht1, ht2⟩ := hbusy t ht
      have htr := hp.core.idReach ht1
      have := p.un.distinct x t hx htr.wanted ha
      subst this
      right
      refine ⟨h.source p hx (static_cmds (hp.core.stat x hx fun h => h) (hp.core.exec x ht1 ht2 fun h => h).1), j.s.build, ?_, htr⟩
      obtain ⟨q, hq, rfl⟩ := List.mem_map.1 ht
      exact hi.lg.busyStart q hq
    · obtain ⟨h1, h2⟩ := hsame _ he
      rw [h1, h2]
      exact h.kept x hx
  · intro n hn hk
    have hne : env.abs n ≠ file := by
      intro he
      obtain ⟨t, ht, ha, _⟩ := hfile n hn he
      exact hk t (hp.core.idReach (hbusy t ht).1).wanted ha
    obtain ⟨h1, h2⟩ := hsame _ hne
    rw [h1, h2]
    exact h.plain n hn hk

theorem Honest.finish (h : Honest env cfg db recipe disk0 c0 j c) {ex t : Nat} {m : Mem} (hm : m.files.disk = j.m.files.disk)
    (hc : ∀ t, (ex, t) ∈ j.s.busy → Correct recipe (fm env j.m) (fun n => c (env.abs n)) db t) :
    Honest env cfg db recipe disk0 c0 { s := childFinished cfg ex t false j.s, m := m } c := by
  have hf : fm env m = fm env j.m := by unfold fm; rw [hm]
  have hcf := childFinished_fields cfg ex t false j.s
  refine ⟨?_, ?_, ?_⟩
  · intro x hx hxb
    simp only [hf, hcf.busy] at hxb ⊢
    intro hb hu
    by_cases hxm : x ∈ j.s.busy.map (·.2)
    · obtain ⟨⟨e, y⟩, hq, rfl⟩ := List.mem_map.1 hxm
      by_cases he : e = ex
      · subst he; exact hc y hq
      · exact absurd (List.mem_map.2 ⟨(e, y), List.mem_filter.2 ⟨hq, by simpa using he⟩, rfl⟩) hxb
    · exact h.right x hx hxm hb hu
  · intro x hx
    simp only [hcf.log]
    refine (h.kept x hx).imp (fun h1 => ⟨(congrFun hf _).trans h1.1, h1.2⟩) ?_
    rintro ⟨h1, b, h2, h3⟩
    exact ⟨h1, b, List.mem_append_left _ h2, h3⟩
  · intro n hn hk
    exact ⟨(congrFun hf n).trans (h.plain n hn hk).1, (h.plain n hn hk).2⟩

/-- As long as nothing has failed. -/
def HFine (env : Env) (cfg : Cfg) (db : Db) (recipe : Nat → (Str → C → Prop) → C) (disk0 : Str → Option Nat) (c0 : Str → C)
    (j : J) (c : Str → C) : Prop :=
  j.s.aborted = false → j.s.dead = false → j.s.allOk = true → Honest env cfg db recipe disk0 c0 j c

theorem HFine.step (p : Plan env cfg db disk0) (h : HFine env cfg db recipe disk0 c0 j c) (hi : Inv cfg j.s) 
    (hf : j.s.aborted = false → j.s.dead = false → j.s.allOk = true → PInv env cfg db (fun _ => False) (fun _ => False) disk0 j.s.build j.s.g j.m)
    {e : Make.Event} (hw : PlainFollows env cfg db recipe j c e) (hl : PlainLater disk0 e) (hs : step env cfg j e = some j')
    (hc : ∀ x, (∀ value, e ≠ .write x value) → c' x = c x) : HFine env cfg db recipe disk0 c0 j' c' := by
  intro hab hd ho
  by_cases hwr : ∃ file value, e = .write file value
  · obtain ⟨file, value, rfl⟩ := hwr
    cases hs
    exact (h hab hd ho).write p hi hab (hf hab hd ho) hw.1
      (fun τ hτ => hl file τ (by rw [hτ])) fun x hx => hc x fun v hv => hx (by cases hv; rfl)
  · have hcc : c' = c := funext fun x => hc x fun v hv => hwr ⟨x, v, hv⟩
    subst hcc
    by_cases hch : ∃ ex failed, e = .childFinished ex failed
    · obtain ⟨ex, failed, rfl⟩ := hch
      simp only [Make.step] at hs
      split at hs
      · cases hs
      · next hd0 =>
        split at hs
        · next t hfd =>
          cases hs
          have hcf := childFinished_fields cfg ex t failed j.s
          simp only at hab ho
          rw [hcf.aborted, Bool.or_eq_false_iff] at hab
          rw [hcf.allOk, Bool.and_eq_true, Bool.not_eq_true'] at ho
          obtain ⟨ho, rfl⟩ := ho
          exact (h hab.1 (by simpa using hd0) ho).finish rfl (hw.2 ex rfl)
        · cases hs
    · obtain ⟨h1, h2⟩ := step_onward hi db hw.1 (fun f v he => hwr ⟨f, v, he⟩) (fun x f he => hch ⟨x, f, he⟩) hs ho hab
      exact (h (h1.aborted hab) h2 (h1.allOk ho)).onward h1

theorem _root_.Jom.Spec.Build.PlainTraced.run {info : Nat → TInfo} {ok : J → (Str → C) → Make.Event → Prop} {ok' : J → Make.Event → Prop}
    (hok : ∀ j c e, ok j c e → ok' j e) (h : PlainTraced env cfg info disk0 c0 ok j c) : Run env cfg info disk0 ok' j := by
  induction h with
  | start asked hd ha => exact .start asked hd ha
  | step asked _ hw hs _ hdn ha ih => exact .step asked ih (hok _ _ _ hw) hs hdn ha

theorem buildAsked_disk (env : Env) (names : List Str) (m : Mem) : (buildAsked env names m).files.disk = m.files.disk := remember_disk ..

theorem _root_.Jom.Spec.Build.PlainTraced.honest (p : Plan env cfg db disk0)
    (h0 : StartsCorrect recipe (fun n => disk0 (env.abs n)) (fun n => c0 (env.abs n)) db cfg.targets)
    (h : PlainTraced env cfg (fun k => record (db.target k)) disk0 c0 (fun j c e => PlainFollows env cfg db recipe j c e ∧ PlainLater disk0 e) j c) :
    HFine env cfg db recipe disk0 c0 j c := by
  induction h with
  | start asked hd ha =>
    intro _ _ _
    have hf : fm env (buildAsked env asked { info := fun k => record (db.target k), files := { disk := disk0, cache := [] } }) =
        fun n => disk0 (env.abs n) := by unfold fm; rw [buildAsked_disk]
    refine ⟨?_, ?_, ?_⟩
    · simp only [hf]; exact fun x hx _ => h0 x hx
    · exact fun x _ => .inl ⟨congrFun hf _, rfl⟩
    · exact fun n _ _ => ⟨congrFun hf n, rfl⟩
  | @step j j' c c' e asked hr hw hs hc hdn ha ih =>
    have hrun := hr.run (ok' := PlainBehaves env cfg db) fun _ _ _ h => h.1.1
    have := ih.step p hrun.reachable.inv (hrun.fineOk p sure_none) hw.1 hw.2 hs hc
    split
    · intro h1 h2 h3
      exact (this h1 h2 h3).onward ⟨buildAsked_disk .., fun _ h => h, fun _ h => h, id, id⟩
    · exact this

/-- What is the case after exit code 0. -/
structure Finished (env : Env) (cfg : Cfg) (db : Db) (recipe : Nat → (Str → C → Prop) → C) (disk0 : Str → Option Nat) (c0 : Str → C)
    (j : J) (c : Str → C) : Prop where
  honest : Honest env cfg db recipe disk0 c0 j c
  mono : ∀ n, Mentioned db cfg.targets n → disk0 (env.abs n) ≠ none → fm env j.m n ≠ none
  made : ∀ x, Wanted db cfg.targets x → Buildable (fm env j.m) db x →
    UpToDate (fm env j.m) db x ∧ Correct recipe (fm env j.m) (fun n => c (env.abs n)) db x

theorem _root_.Jom.Spec.Build.PlainTraced.finished (p : Plan env cfg db disk0)
    (h0 : StartsCorrect recipe (fun n => disk0 (env.abs n)) (fun n => c0 (env.abs n)) db cfg.targets)
    (h : PlainTraced env cfg (fun k => record (db.target k)) disk0 c0 (fun j c e => PlainFollows env cfg db recipe j c e ∧ PlainLater disk0 e) j c)
    (hx : 0 ∈ j.s.exits) : Finished env cfg db recipe disk0 c0 j c := by
  have hrun := h.run (ok' := PlainBehaves env cfg db) fun _ _ _ h => h.1.1
  have hi := hrun.reachable.inv
  rcases hi.codes 0 hx with ⟨h, _⟩ | ⟨_, ⟨h, _⟩ | ⟨h, _⟩⟩ | ⟨hc, hx'⟩
  · cases h
  · cases h
  · cases h
  · have hok : j.s.allOk = true := by
      cases ho : j.s.allOk with
      | true => rfl
      | false => rw [ho] at hx'; simp at hx'
    have hh := h.honest p h0 hc.ab hc.dead hok
    have hpi := hrun.fineOk p sure_none hc.ab hc.dead hok
    refine ⟨hh, hpi.core.mono, fun x hx1 hb => ?_⟩
    have hu := (hrun.inOrder p hx).1 x hx1 hb
    refine ⟨hu, hh.right x hx1 ?_ hb hu⟩
    intro hm
    have := (busy_exec hi hc.ab x hm).1
    rw [hpi.noIds p hc.leaves] at this
    cases this

end Jom.Make
