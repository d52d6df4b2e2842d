/- Two builds from the same sources give the same results. -/
import Verif.Proofs.MakeContent

namespace Jom.Make

open Jom.Graph Jom.Sched Jom.UpToDate Jom.Spec Jom.Spec.Build Relation

variable {C : Type} {env env' : Env} {cfg cfg' : Cfg} {db : Db} {disk disk' : Str → Option Nat} {c0 c0' : Str → C}
  {recipe : Nat → (Str → C → Prop) → C} {j j' : J} {c c' : Str → C}

/-- Induction over what targets need. -/
theorem needs_induct {requested : List Nat} {n : Nat} (hfew : FewerThan db requested n)
    (hac : ∀ t, Wanted db requested t → ¬ TransGen (Needs db) t t) {Q : Nat → Prop}
    (h : ∀ k, Wanted db requested k → (∀ l, Needs db k l → Q l) → Q k) : ∀ k, Wanted db requested k → Q k := by
  obtain ⟨U, hU1, hU2, _⟩ := hfew
  have key : ∀ m (R : List Nat), R.length ≤ m → ∀ k, Wanted db requested k → (∀ y, TransGen (Needs db) k y → y ∈ R) → Q k := by
    intro m
    induction m with
    | zero =>
      intro R hR k hk hy
      refine h k hk fun l hl => ?_
      have := hy l (.single hl)
      rw [List.eq_nil_of_length_eq_zero (Nat.le_zero.1 hR)] at this
      cases this
    | succ m ih =>
      intro R hR k hk hy
      refine h k hk fun l hl => ih (R.filter (· ≠ l)) ?_ l (hk.tail hl) ?_
      · have : (R.filter (· ≠ l)).length < R.length :=
          List.length_filter_lt_length_iff_exists.2 ⟨l, hy l (.single hl), by simp⟩
        omega
      · intro y hly
        refine List.mem_filter.2 ⟨hy y (.head hl hly), ?_⟩
        simp only [ne_eq, decide_eq_true_eq]
        rintro rfl
        exact hac y (hk.tail hl) hly
  intro k hk
  refine key U.length U (Nat.le_refl _) k hk fun y hy => ?_
  have hin : ∀ x, Wanted db requested x → x ∈ U := by
    rintro x ⟨r, hr, hx⟩
    induction hx with
    | refl => exact hU1 r hr
    | tail _ h1 ih => exact hU2 _ ih _ h1
  exact hin y (hk.down hy.to_reflTransGen)

theorem same_refl (abs : Str → Str) (requested : List Nat) : SameSources abs db requested disk disk c0 c0 :=
  fun _ _ _ => ⟨Iff.rfl, rfl⟩

/-- The file is that of a wanted target that can be made. -/
def Product (env : Env) (cfg : Cfg) (db : Db) (disk : Str → Option Nat) (n : Str) : Prop :=
  ∃ k, Wanted db cfg.targets k ∧ env.abs n = env.abs (db.target k).name ∧ Derived (fun n => disk (env.abs n)) db k

theorem same_of (h : SameSources env.abs db cfg.targets disk disk' c0 c0') {n : Str} (hn : Mentioned db cfg.targets n)
    (hp : ¬ Product env cfg db disk n) : (disk (env.abs n) = none ↔ disk' (env.abs n) = none) ∧ c0 (env.abs n) = c0' (env.abs n) :=
  h n hn fun k hk ha hd => hp ⟨k, hk, ha, hd⟩

/-- What can be made from the sources of the second build can be made from those of the first. -/
theorem derived_back (p' : Plan env' cfg' db disk') (habs : env'.abs = env.abs) (ht : cfg'.targets = cfg.targets)
    (hs : SameSources env.abs db cfg.targets disk disk' c0 c0') {k : Nat}
    (hd : Derived (fun n => disk' (env.abs n)) db k) : Wanted db cfg.targets k → Derived (fun n => disk (env.abs n)) db k := by
  induction hd with
  | commands h => exact fun _ => .commands h
  | @source k r hr h =>
    intro hk
    by_cases hp : Product env cfg db disk r
    · obtain ⟨l, hl, ha, hld⟩ := hp
      have := p'.un.names k (ht ▸ hk) r (.inr hr) l (ht ▸ hl)
      rw [habs] at this
      exact .made hr (this.2 ha) hld
    · exact .source hr fun h0 => h (((same_of hs ⟨k, hk, .inr (.inr hr)⟩ hp).1).1 h0)
  | @made k r l hr hl _ ih =>
    intro hk
    exact .made hr hl (ih (hk.tail (p'.un.inferred k (ht ▸ hk) r hr l hl)))

/-- At the end of a build from the same sources everything that can be made has its commands. -/
theorem Finished.buildable {n : Nat} (hfew : FewerThan db cfg.targets n) (p' : Plan env' cfg' db disk') (habs : env'.abs = env.abs)
    (ht : cfg'.targets = cfg.targets) (hs : SameSources env.abs db cfg.targets disk disk' c0 c0')
    (h : Finished env' cfg' db recipe disk' c0' j' c') : ∀ k, Wanted db cfg.targets k → Derived (fun n => disk (env.abs n)) db k →
      Buildable (fm env' j'.m) db k := by
  have hexists : ∀ l, Wanted db cfg.targets l → Buildable (fm env' j'.m) db l → ∀ r, env.abs r = env.abs (db.target l).name →
      ∃ s, fm env' j'.m r = some s := by
    intro l hl hb r ha
    obtain ⟨⟨T, hT, _⟩, _⟩ := h.made l (ht ▸ hl) hb
    refine ⟨T, ?_⟩
    rw [← hT]
    show j'.m.files.disk (env'.abs r) = j'.m.files.disk (env'.abs _)
    rw [habs, ha]
  refine needs_induct (Q := fun k => Derived (fun n => disk (env.abs n)) db k → Buildable (fm env' j'.m) db k) hfew (ht ▸ p'.un.acyclic) ?_
  intro k hk ih hd
  cases hd with
  | commands h => exact .inl h
  | @source _ r hr h0 =>
    by_cases hp : Product env cfg db disk r
    · obtain ⟨l, hl, ha, hld⟩ := hp
      have hres := p'.un.names k (ht ▸ hk) r (.inr hr) l (ht ▸ hl)
      rw [habs] at hres
      exact .inr ⟨r, hr, hexists l hl (ih l (p'.un.inferred k (ht ▸ hk) r hr l (hres.2 ha)) hld) r ha⟩
    · have hm : Mentioned db cfg.targets r := ⟨k, hk, .inr (.inr hr)⟩
      refine .inr ⟨r, hr, Option.ne_none_iff_exists'.1 (h.mono r (ht ▸ hm) ?_)⟩
      rw [habs]
      exact fun h1 => h0 (((same_of hs hm hp).1).2 h1)
  | @made _ r l hr hl hld =>
    have hn := p'.un.inferred k (ht ▸ hk) r hr l hl
    have hlw := hk.tail hn
    have hres := p'.un.names k (ht ▸ hk) r (.inr hr) l (ht ▸ hlw)
    rw [habs] at hres
    exact .inr ⟨r, hr, hexists l hlw (ih l hn hld) r (hres.1 hl)⟩

/-- What cannot be made is as at the start. -/
theorem Finished.same (p' : Plan env' cfg' db disk') (habs : env'.abs = env.abs)
    (ht : cfg'.targets = cfg.targets) (hs : SameSources env.abs db cfg.targets disk disk' c0 c0')
    (h : Finished env' cfg' db recipe disk' c0' j' c') {n : Str} (hn : Mentioned db cfg.targets n) (hp : ¬ Product env cfg db disk n) :
    fm env' j'.m n = disk' (env.abs n) ∧ c' (env.abs n) = c0' (env.abs n) := by
  by_cases hk : ∃ k, Wanted db cfg.targets k ∧ env.abs n = env.abs (db.target k).name
  · obtain ⟨k, hk, ha⟩ := hk
    rcases h.honest.kept k (ht ▸ hk) with ⟨h1, h2⟩ | ⟨h1, _⟩
    · rw [habs, ← ha] at h1 h2
      refine ⟨?_, h2⟩
      rw [← h1]
      show j'.m.files.disk (env'.abs n) = j'.m.files.disk (env'.abs _)
      rw [habs, ha]
    · rw [habs] at h1
      exact absurd ⟨k, hk, ha, derived_back p' habs ht hs h1 hk⟩ hp
  · have := h.honest.plain n (ht ▸ hn) (by
      intro k hkw ha
      rw [habs] at ha
      exact hk ⟨k, ht ▸ hkw, ha⟩)
    rw [habs] at this
    exact this

/-- The names on the way to the files behind a name only matter as far as they exist. -/
theorem stands_exists {P : Str → Prop} {f f' : Files} (hP : ∀ d, P d → (f d = none ↔ f' d = none))
    (hcl : ∀ d k e, P d → db.lookup d = some k → e ∈ (db.target k).deps → P e) {d n : Str} (h : Stands f db d n) :
    P d → Stands f' db d n := by
  induction h with
  | file h1 => intro hd; exact .file fun h0 => h1 ((hP _ hd).2 h0)
  | behind h1 h2 h3 _ ih => intro hd; exact .behind ((hP _ hd).1 h1) h2 h3 (ih (hcl _ _ _ hd h2 h3))

theorem madeFrom_exists (p : Plan env cfg db disk) {f f' : Files}
    (hf : ∀ n, Mentioned db cfg.targets n → (f n = none ↔ f' n = none)) {x : Nat} (hx : Wanted db cfg.targets x) {n : Str}
    (h : MadeFrom f db x n) : MadeFrom f' db x n := by
  obtain ⟨d, hd, hs⟩ := h
  refine ⟨d, hd.imp id fun h => ⟨h.1, ?_⟩, ?_⟩
  · refine Option.ne_none_iff_exists'.1 fun h0 => ?_
    obtain ⟨s, hs⟩ := h.2
    rw [(hf d ⟨x, hx, .inr (.inr h.1)⟩).2 h0] at hs
    cases hs
  · refine stands_exists (P := fun d => ∃ y, Wanted db cfg.targets y ∧ Says db y d) (fun d hd => ?_) ?_ hs ⟨x, hx, counts_says hd⟩
    · obtain ⟨y, hy, hd⟩ := hd
      exact hf d ⟨y, hy, .inr hd⟩
    · rintro d k e ⟨y, hy, hd⟩ hk he
      exact ⟨k, hy.tail (p.needs hy hd (.inl hk)), .inl he⟩

/-- Two finished builds. -/
theorem Finished.agree {n : Nat} (hfew : FewerThan db cfg.targets n) (p : Plan env cfg db disk) (p' : Plan env' cfg' db disk')
    (habs : env'.abs = env.abs)
    (ht : cfg'.targets = cfg.targets) (hs : SameSources env.abs db cfg.targets disk disk' c0 c0')
    (h : Finished env cfg db recipe disk c0 j c) (h' : Finished env' cfg' db recipe disk' c0' j' c') :
    ∀ k, Wanted db cfg.targets k → Derived (fun n => disk (env.abs n)) db k →
      fm env j.m (db.target k).name ≠ none ∧ fm env' j'.m (db.target k).name ≠ none ∧
      c (env.abs (db.target k).name) = c' (env.abs (db.target k).name) := by
  have hb := h.buildable hfew p rfl rfl (same_refl (db := db) (disk := disk) (c0 := c0) env.abs cfg.targets)
  have hb' := h'.buildable hfew p' habs ht hs
  have hex : ∀ k, Wanted db cfg.targets k → Derived (fun n => disk (env.abs n)) db k →
      fm env j.m (db.target k).name ≠ none ∧ fm env' j'.m (db.target k).name ≠ none := by
    intro k hk hd
    obtain ⟨⟨T, hT, _⟩, _⟩ := h.made k hk (hb k hk hd)
    obtain ⟨⟨T', hT', _⟩, _⟩ := h'.made k (ht ▸ hk) (hb' k hk hd)
    rw [hT, hT']
    simp
  have hsame : ∀ n, Mentioned db cfg.targets n → ¬ Product env cfg db disk n →
      (fm env j.m n = none ↔ fm env' j'.m n = none) ∧ c (env.abs n) = c' (env.abs n) := by
    intro n hn hp
    obtain ⟨h1, h2⟩ := h.same p rfl rfl (same_refl (db := db) (disk := disk) (c0 := c0) env.abs cfg.targets) hn hp
    obtain ⟨h3, h4⟩ := h'.same p' habs ht hs hn hp
    obtain ⟨h5, h6⟩ := same_of hs hn hp
    rw [h1, h2, h3, h4]
    exact ⟨h5, h6⟩
  have hexist : ∀ n, Mentioned db cfg.targets n → (fm env j.m n = none ↔ fm env' j'.m n = none) := by
    intro n hn
    by_cases hp : Product env cfg db disk n
    · obtain ⟨k, hk, ha, hd⟩ := hp
      obtain ⟨h1, h2⟩ := hex k hk hd
      have e1 : fm env j.m n = fm env j.m (db.target k).name := by
        show j.m.files.disk (env.abs n) = j.m.files.disk (env.abs _); rw [ha]
      have e2 : fm env' j'.m n = fm env' j'.m (db.target k).name := by
        show j'.m.files.disk (env'.abs n) = j'.m.files.disk (env'.abs _); rw [habs, ha]
      rw [e1, e2]
      exact ⟨fun h => absurd h h1, fun h => absurd h h2⟩
    · exact (hsame n hn hp).1
  have hmade : ∀ x, Wanted db cfg.targets x → ∀ n, MadeFrom (fm env j.m) db x n ↔ MadeFrom (fm env' j'.m) db x n := by
    intro x hx n
    exact ⟨madeFrom_exists p hexist hx, madeFrom_exists p (fun n hn => (hexist n hn).symm) hx⟩
  have key : ∀ k, Wanted db cfg.targets k → ∀ l, ReflTransGen (Needs db) k l → Derived (fun n => disk (env.abs n)) db l →
      c (env.abs (db.target l).name) = c' (env.abs (db.target l).name) := by
    refine needs_induct hfew p.un.acyclic ?_
    intro k hk ih l hkl hd
    rcases ReflTransGen.cases_head hkl with rfl | ⟨m, hkm, hml⟩
    · have h1 := (h.made k hk (hb k hk hd)).2
      have h2 := (h'.made k (ht ▸ hk) (hb' k hk hd)).2
      unfold Correct at h1 h2
      rw [habs] at h2
      simp only at h1 h2
      rw [h1, h2]
      congr 1
      funext n v
      apply propext
      have hc : MadeFrom (fm env j.m) db k n → c (env.abs n) = c' (env.abs n) := by
        intro hm
        obtain ⟨y, hy, hyn⟩ := p.madeFrom hk hm
        have hn := says_mentioned hk hy hyn
        by_cases hp : Product env cfg db disk n
        · obtain ⟨z, hz, ha, hzd⟩ := hp
          rw [ha]
          have hyz := p.needs (hk.down hy) hyn ((p.un.names y (hk.down hy) n hyn z hz).2 ha)
          rcases ReflTransGen.cases_head (hy.tail hyz) with h3 | ⟨m, h3, h4⟩
          · subst h3
            exact absurd (TransGen.tail' hy hyz) (p.un.acyclic k hk)
          · exact ih m h3 z h4 hzd
        · exact (hsame n hn hp).2
      constructor
      · rintro ⟨h3, h4⟩
        exact ⟨(hmade k hk n).1 h3, by rw [← hc h3]; exact h4⟩
      · rintro ⟨h3, h4⟩
        have h3 := (hmade k hk n).2 h3
        exact ⟨h3, by rw [hc h3]; exact h4⟩
    · exact ih m hkm l hml hd
  intro k hk hd
  exact ⟨(hex k hk hd).1, (hex k hk hd).2, key k hk k .refl hd⟩

end Jom.Make
