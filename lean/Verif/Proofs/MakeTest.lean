/- One call of `isTargetUpToDate` in the middle of a build, in terms of the specification. -/
import Verif.Proofs.UpToDate
import Verif.Spec.Make

namespace Jom.Make

open Jom.UpToDate Jom.Spec.Build Jom.Graph

/-- The record of target `k` is the declaration, or an inference rule has been applied to it. -/
def Static (f : Files) (db : Db) (k : Nat) (x : TInfo) : Prop :=
  x.name = (db.target k).name ∧
  ((x.deps = (db.target k).deps ∧ x.hasCmds = (db.target k).hasCmds ∧ x.rules = (db.target k).rules) ∨
    ∃ r ∈ (db.target k).rules, (∃ s, f r = some s) ∧ x.rules = [] ∧ x.hasCmds = true ∧
      ∀ d, d ∈ x.deps ↔ d ∈ (db.target k).deps ∨ d = r)

/-- The dependents that one call looks at. -/
def Looked (f : Files) (x : TInfo) (d : Str) : Prop := d ∈ x.deps ∨ (d ∈ x.rules ∧ ∃ s, f d = some s)

def Fresh (x : TInfo) : Prop := x.fileExists = false ∧ x.time = 0

/-- The record of a target that has been looked at and whose file has not changed since; its time is not too small. -/
def SeenLe (f : Files) (db : Db) (k : Nat) (x : TInfo) : Prop :=
  (∀ T, f (db.target k).name = some T → x.fileExists = true ∧ (x.time = T ∨ x.time = 0)) ∧
  (f (db.target k).name = none → x.fileExists = false ∧
    (¬ Buildable f db k → (∀ e ∈ (db.target k).deps, ¬ Missing f db e) →
      ∀ e ∈ (db.target k).deps, ∀ s, Behind f db e s → s ≤ x.time))

/-- The time is not too large either. -/
def Attained (f : Files) (db : Db) (k : Nat) (x : TInfo) : Prop :=
  f (db.target k).name = none → ¬ Buildable f db k → (db.target k).deps ≠ [] →
    (∀ e ∈ (db.target k).deps, ¬ Missing f db e) → ∃ e ∈ (db.target k).deps, Behind f db e x.time

/-- The record of a target whose file has been made in this build. -/
def Made (x : TInfo) : Prop := x.fileExists = false ∧ x.hasCmds = true

variable {f : Files} {db : Db}

theorem behind_file {d : Str} {s : Nat} (h : Behind f db d s) : ∃ e, f e = some s := by
  induction h with
  | file h => exact ⟨_, h⟩
  | behind _ _ _ _ ih => exact ih

theorem behind_of_file {d : Str} {s s' : Nat} (hf : f d = some s) (h : Behind f db d s') : s' = s := by
  cases h with
  | file h => rw [hf] at h; cases h; rfl
  | behind h => rw [hf] at h; cases h

theorem not_missing_of_file {d : Str} {s : Nat} (hf : f d = some s) : ¬ Missing f db d := by
  intro h
  cases h <;> simp_all

theorem static_plain {k : Nat} {x : TInfo} (h : Static f db k x) (hb : ¬ Buildable f db k) :
    x.deps = (db.target k).deps ∧ x.hasCmds = false ∧ x.rules = (db.target k).rules := by
  rcases h.2 with ⟨h1, h2, h3⟩ | ⟨r, hr, hs, _⟩
  · refine ⟨h1, ?_, h3⟩
    rw [h2]
    cases hc : (db.target k).hasCmds
    · rfl
    · exact absurd (.inl hc) hb
  · exact absurd (.inr ⟨r, hr, hs⟩) hb

/-- What is known about a name when its target (if it is one) has been settled. -/
structure DepOk (w : World) (db : Db) (info : Nat → TInfo) (d : Str) : Prop where
  same : ∀ k, w.lookup d = some k → w.fi d = w.fi (db.target k).name
  stat : ∀ k, w.lookup d = some k → Static w.fi db k (info k)
  seen : ∀ k, w.lookup d = some k → SeenLe w.fi db k (info k) ∨ Made (info k)

/-- The time used for a dependent bounds the files behind it. -/
theorem stamp_le {w : World} (hl : w.lookup = db.lookup) {info : Nat → TInfo}
    {d : Str} (h : DepOk w db info d) (hm : ¬ Missing w.fi db d) {s : Nat} (hs : stampOf w info d = some s) :
    ∀ s', Behind w.fi db d s' → s' ≤ s := by
  intro s' hb
  unfold stampOf at hs
  cases hk : w.lookup d with
  | none =>
    rw [hk] at hs
    simp only at hs
    split at hs
    · cases hs
    · next h0 =>
      cases hs
      have := (modified_some.1 ⟨rfl, h0⟩).1
      exact Nat.le_of_eq (behind_of_file this hb)
  | some k =>
    rw [hk] at hs
    simp only at hs
    split at hs
    · cases hs
    · next hc =>
      have hseen : SeenLe w.fi db k (info k) := by
        rcases h.seen k hk with h1 | h1
        · exact h1
        · exact absurd h1 hc
      have hsame := h.same k hk
      cases hf : w.fi d with
      | some T =>
        rw [hf] at hsame
        have hT := (hseen.1 T hsame.symm).2
        have := behind_of_file hf hb
        subst this
        split at hs
        · next ht => cases hs; rcases hT with h1 | h1 <;> omega
        · split at hs
          · cases hs
          · cases hs; simp [World.modified, hf]
      | none =>
        have hmod : w.modified d = 0 := by simp [World.modified, hf]
        have hnb : ¬ Buildable w.fi db k := fun hbd => hm (.toBuild hf (hl ▸ hk) hbd)
        rw [hf] at hsame
        have hle := (hseen.2 hsame.symm).2 hnb (fun e he hme => hm (.behind hf (hl ▸ hk) he hme))
        cases hb with
        | file h => rw [hf] at h; cases h
        | behind _ hk' he hbe =>
          rw [← hl, hk] at hk'; cases hk'
          have := hle _ he _ hbe
          split at hs
          · cases hs; exact this
          · cases hs

/-- The time used for a dependent is the time of a file behind it. -/
theorem stamp_exact {w : World} (hl : w.lookup = db.lookup) (hnz : ∀ d s, w.fi d = some s → s ≠ 0) {info : Nat → TInfo}
    {d : Str} (h : DepOk w db info d) (hm : ¬ Missing w.fi db d)
    (hat : ∀ k, w.lookup d = some k → SeenLe w.fi db k (info k) ∧ Attained w.fi db k (info k)) :
    ∃ s, stampOf w info d = some s ∧ Behind w.fi db d s := by
  unfold stampOf
  cases hk : w.lookup d with
  | none =>
    cases hf : w.fi d with
    | none => exact absurd (.noFile hf (hl ▸ hk)) hm
    | some T =>
      have := hnz d T hf
      refine ⟨T, ?_, .file hf⟩
      simp [World.modified, hf, this]
  | some k =>
    obtain ⟨hseen, hatt⟩ := hat k hk
    have hsame := h.same k hk
    simp only
    cases hf : w.fi d with
    | some T =>
      rw [hf] at hsame
      obtain ⟨h1, hT⟩ := hseen.1 T hsame.symm
      have h0 := hnz d T hf
      refine ⟨T, ?_, .file hf⟩
      rw [if_neg (by simp [h1])]
      rcases hT with h2 | h2
      · rw [if_pos (by omega), h2]
      · simp [h2, World.modified, hf, h0]
    | none =>
      have hnb : ¬ Buildable w.fi db k := fun hbd => hm (.toBuild hf (hl ▸ hk) hbd)
      have hne : (db.target k).deps ≠ [] := fun he => hm (.empty hf (hl ▸ hk) he)
      rw [hf] at hsame
      obtain ⟨e, he, hb⟩ := hatt hsame.symm hnb hne (fun e he hme => hm (.behind hf (hl ▸ hk) he hme))
      have hcmd := (static_plain (h.stat k hk) hnb).2.1
      obtain ⟨e', he'⟩ := behind_file hb
      have h0 := hnz _ _ he'
      refine ⟨(info k).time, ?_, .behind hf (hl ▸ hk) he hb⟩
      rw [if_neg (by simp [hcmd]), if_pos h0]

theorem checkInferred_cases (w : World) (t : Nat) (r : (Nat → TInfo) × Bool) :
    checkInferred w t r = r ∨
    ∃ deps, checkInferred w t r =
      (upd (plainUpToDate w t (upd r.1 t { r.1 t with deps := deps, rules := [] })).1 t
        { (plainUpToDate w t (upd r.1 t { r.1 t with deps := deps, rules := [] })).1 t with
          deps := (r.1 t).deps
          rules := (r.1 t).rules },
       (plainUpToDate w t (upd r.1 t { r.1 t with deps := deps, rules := [] })).2) := by
  unfold checkInferred
  simp only
  split
  · split
    · exact .inr ⟨_, rfl⟩
    · exact .inl rfl
  · exact .inl rfl

/-- What one call does to the records if the file exists. -/
theorem effect_file (w : World) (t : Nat) (info : Nat → TInfo) {T : Nat} (hT : w.fi (info t).name = some T) :
    (isTargetUpToDate w t info).1 = upd info t { info t with
      fileExists := true
      time := if (isTargetUpToDate w t info).2 then T else 0 } := by
  have hread : readFile w t info = upd info t { info t with fileExists := true, time := T } := by
    simp [readFile, hT]
  have hex : (readFile w t info t).fileExists = true := by rw [hread]; simp [upd]
  have hcmp : (compareTimes w t (readFile w t info)).1 = readFile w t info := compareTimes_of_exists w t _ hex
  have hfin : ∀ (r : (Nat → TInfo) × Bool), (∀ k, k ≠ t → r.1 k = info k) →
      (r.1 t = { info t with fileExists := true, time := T } ∨
        (r.2 = false ∧ r.1 t = { info t with fileExists := true, time := 0 })) →
      (finish t r).1 = upd info t { info t with fileExists := true, time := if (finish t r).2 then T else 0 } := by
    intro r h1 h2
    have hx : (r.1 t).fileExists = true := by rcases h2 with h2 | ⟨_, h2⟩ <;> rw [h2]
    funext k
    unfold finish
    by_cases hk : k = t
    · subst hk
      cases hb : r.2 with
      | true =>
        rcases h2 with h2 | ⟨h2, _⟩
        · simp [upd, h2]
        · rw [hb] at h2; cases h2
      | false =>
        rcases h2 with h2 | ⟨_, h2⟩ <;> simp [upd, h2]
    · cases hb : r.2 <;> simp [upd, hx, hk, h1 k hk]
  have hrt : readFile w t info t = { info t with fileExists := true, time := T } := by rw [hread]; simp [upd]
  unfold isTargetUpToDate
  apply hfin
  · intro k hk
    have hrk : readFile w t info k = info k := by rw [hread]; simp [upd, hk]
    rcases checkInferred_cases w t (compareTimes w t (readFile w t info)) with h | ⟨deps, h⟩
    · rw [h, hcmp]; exact hrk
    · rw [h, hcmp]
      simp only [upd, if_neg hk]
      rw [(plain_effect w t _).1 k hk]
      simp [upd, hk, hrk]
  · rcases checkInferred_cases w t (compareTimes w t (readFile w t info)) with h | ⟨deps, h⟩
    · left; rw [h, hcmp, hrt]
    · rw [h, hcmp]
      generalize hi : upd (readFile w t info) t { readFile w t info t with deps := deps, rules := [] } = info2
      have hi2 : info2 t = { info t with fileExists := true, time := T, deps := deps, rules := [] } := by
        rw [← hi]; simp [upd, hrt]
      have hT2 : w.fi (info2 t).name = some T := by rw [hi2]; exact hT
      have he := (plain_effect w t info2).2
      rw [readFile_at, hT2] at he
      simp only [↓reduceIte] at he
      simp only [upd, if_true]
      rw [he, hrt, hi2]
      cases (plainUpToDate w t info2).2 with
      | true => left; simp
      | false => right; simp

/-- What one call does to the records if the file does not exist. -/
theorem effect_noFile (w : World) (t : Nat) (info : Nat → TInfo) (hT : w.fi (info t).name = none)
    (hn : (info t).fileExists = false) :
    (isTargetUpToDate w t info).2 = false ∧
    (isTargetUpToDate w t info).1 = upd info t { info t with
      time := if (info t).deps = [] then (info t).time else latestTime w info (info t).deps 0 } := by
  have hread : readFile w t info = info := by simp [readFile, hT]
  have hc : compareTimes w t info = (upd info t { info t with
      time := if (info t).deps = [] then (info t).time else latestTime w info (info t).deps 0 }, false) := by
    by_cases hd : (info t).deps = []
    · rw [compare_nil w t info hd, hn]
      congr 1
      funext k
      by_cases hk : k = t
      · subst hk; simp only [upd, if_true, if_pos hd]
      · simp [upd, hk]
    · rw [compare_noFile w t info hd hn]
      simp [hd]
  unfold isTargetUpToDate checkInferred finish
  rw [hread, hc]
  simp [upd, hn]

theorem readFile_other (w : World) (t : Nat) (info : Nat → TInfo) {k : Nat} (hk : k ≠ t) : readFile w t info k = info k := by
  unfold readFile
  cases w.fi (info t).name <;> simp [upd, hk]

theorem static_read {w : World} {t k : Nat} {info : Nat → TInfo} (h : Static w.fi db k (info k)) :
    Static w.fi db k (readFile w t info k) := by
  obtain ⟨h1, h2, h3, h4⟩ := readFile_deps w t info k
  unfold Static
  rw [h1, h2, h3, h4]
  exact h

theorem seenLe_read {w : World} {t k : Nat} {info : Nat → TInfo} (hn : (info t).name = (db.target t).name)
    (h : SeenLe w.fi db k (info k)) : SeenLe w.fi db k (readFile w t info k) := by
  by_cases hk : k = t
  · subst hk
    rw [readFile_at, hn]
    cases hf : w.fi (db.target k).name with
    | none => exact h
    | some T => refine ⟨fun T' hT' => ?_, fun h0 => (by rw [hf] at h0; cases h0)⟩
                rw [hf] at hT'; cases hT'; exact ⟨rfl, .inl rfl⟩
  · rw [readFile_other w t info hk]; exact h

theorem attained_read {w : World} {t k : Nat} {info : Nat → TInfo} (hn : (info t).name = (db.target t).name)
    (h : Attained w.fi db k (info k)) : Attained w.fi db k (readFile w t info k) := by
  by_cases hk : k = t
  · subst hk
    intro hf
    rw [readFile_at, hn, hf]
    exact h hf
  · rw [readFile_other w t info hk]; exact h

theorem depOk_read {w : World} {t : Nat} {info : Nat → TInfo} (hn : (info t).name = (db.target t).name) {d : Str}
    (h : DepOk w db info d) : DepOk w db (readFile w t info) d where
  same := h.same
  stat := fun k hk => static_read (h.stat k hk)
  seen := fun k hk => by
    rcases h.seen k hk with h1 | h1
    · exact .inl (seenLe_read hn h1)
    · by_cases hkt : k = t
      · subst hkt
        cases hf : w.fi (db.target k).name with
        | none => right; rw [readFile_at, hn, hf]; exact h1
        | some T =>
          left
          rw [readFile_at, hn, hf]
          refine ⟨fun T' hT' => ?_, fun h0 => (by rw [hf] at h0; cases h0)⟩
          rw [hf] at hT'; cases hT'; exact ⟨rfl, .inl rfl⟩
      · right; rw [readFile_other w t info hkt]; exact h1

/-- The latest time bounds the files behind all dependents. -/
theorem latest_bounds {w : World} (hl : w.lookup = db.lookup) {info : Nat → TInfo} {ds : List Str}
    (hnow : ∀ d ∈ ds, ∀ s, Behind w.fi db d s → s ≤ w.now) (h : ∀ d ∈ ds, DepOk w db info d ∧ ¬ Missing w.fi db d) :
    ∀ d ∈ ds, ∀ s, Behind w.fi db d s → s ≤ latestTime w info ds 0 := by
  intro d hd s hb
  by_cases hn : ∃ d ∈ ds, stampOf w info d = none
  · rw [latest_missing w info ds 0 hn]
    exact hnow d hd s hb
  · have hall : ∀ d ∈ ds, stampOf w info d ≠ none := fun d hd h0 => hn ⟨d, hd, h0⟩
    obtain ⟨s', hs'⟩ := Option.ne_none_iff_exists'.1 (hall d hd)
    have h1 := stamp_le hl (h d hd).1 (h d hd).2 hs' s hb
    have h2 := ((latest_le w info _ ds 0 hall).1 (Nat.le_refl _)).2 d hd s' hs'
    omega

/-- A call is safe: times are not underestimated, and the answer "up to date" is justified. -/
theorem test_safe {w : World} (hl : w.lookup = db.lookup) {t : Nat} {info : Nat → TInfo}
    (hnow : ∀ d, Looked w.fi (info t) d → ∀ s, Behind w.fi db d s → s ≤ w.now) (hst : Static w.fi db t (info t))
    (hself : w.fi (db.target t).name = none → (info t).fileExists = false)
    (hdep : ∀ d, Looked w.fi (info t) d → DepOk w db info d) :
    SeenLe w.fi db t ((isTargetUpToDate w t info).1 t) ∧
    ((isTargetUpToDate w t info).2 = true → (∀ d, Looked w.fi (info t) d → ¬ Missing w.fi db d) →
      ∃ T, w.fi (db.target t).name = some T ∧ ∀ d, Looked w.fi (info t) d → ∀ s, Behind w.fi db d s → s ≤ T) := by
  have hn := hst.1
  cases hf : w.fi (db.target t).name with
  | none =>
    obtain ⟨h1, h2⟩ := effect_noFile w t info (by rw [hn]; exact hf) (hself hf)
    refine ⟨⟨fun T hT => (by rw [hf] at hT; cases hT), fun _ => ?_⟩, fun h => (by rw [h1] at h; cases h)⟩
    rw [h2]
    simp only [upd, if_true]
    refine ⟨hself hf, fun hb hm e he s hbe => ?_⟩
    obtain ⟨hd, _, _⟩ := static_plain hst hb
    rw [hd]
    by_cases h0 : (db.target t).deps = []
    · rw [h0] at he; cases he
    · rw [if_neg h0]
      have hlk : ∀ d ∈ (db.target t).deps, Looked w.fi (info t) d := fun d hd' => .inl (by rw [hd]; exact hd')
      refine latest_bounds hl (fun d hd' => hnow d (hlk d hd')) ?_ e he s hbe
      intro d hd'
      exact ⟨hdep d (.inl (by rw [hd]; exact hd')), hm d hd'⟩
  | some T =>
    have hf' : w.fi (info t).name = some T := by rw [hn]; exact hf
    refine ⟨⟨fun T' hT' => ?_, fun h0 => (by rw [hf] at h0; cases h0)⟩, ?_⟩
    · rw [hf] at hT'; cases hT'
      rw [effect_file w t info hf']
      simp only [upd, if_true, true_and]
      cases (isTargetUpToDate w t info).2 <;> simp
    · intro hans hm
      refine ⟨T, rfl, ?_⟩
      rw [answer_iff, compare_iff] at hans
      obtain ⟨⟨_, h1⟩, h2⟩ := hans
      have hT : (readFile w t info t).time = T := by rw [readFile_at, hf']
      rw [hT] at h1 h2
      rw [(readFile_deps w t info t).1] at h1
      have hb : ∀ ds : List Str, (∀ d ∈ ds, Looked w.fi (info t) d) → latestTime w (readFile w t info) ds 0 ≤ T →
          ∀ d ∈ ds, ∀ s, Behind w.fi db d s → s ≤ T := by
        intro ds hds hle d hd s hbe
        refine Nat.le_trans (latest_bounds hl (fun d hd => hnow d (hds d hd)) ?_ d hd s hbe) hle
        intro d hd
        exact ⟨depOk_read hn (hdep d (hds d hd)), hm d (hds d hd)⟩
      intro d hd s hbe
      have hmem := (addInferred_mem w d (info t).rules (info t).deps).2 hd
      rcases h2 with h2 | h2
      · rw [h2] at hmem
        rcases h1 with h1 | h1
        · rw [h1] at hmem; cases hmem
        · exact hb _ (fun d hd => .inl hd) h1 d hmem s hbe
      · exact hb _ (fun d hd => (addInferred_mem w d (info t).rules (info t).deps).1 hd) h2 d hmem s hbe

/-- If all dependents have their exact times, then the times stay exact, and a target that is up to date is found to be
so. -/
theorem test_exact {w : World} (hl : w.lookup = db.lookup) (hnz : ∀ d s, w.fi d = some s → s ≠ 0) {t : Nat}
    {info : Nat → TInfo} (hst : Static w.fi db t (info t))
    (hself : w.fi (db.target t).name = none → (info t).fileExists = false)
    (hdep : ∀ d, Looked w.fi (info t) d → DepOk w db info d)
    (hat : ∀ d, Looked w.fi (info t) d → ∀ k, w.lookup d = some k →
      SeenLe w.fi db k (info k) ∧ Attained w.fi db k (info k)) :
    SeenLe w.fi db t ((isTargetUpToDate w t info).1 t) ∧ Attained w.fi db t ((isTargetUpToDate w t info).1 t) ∧
    (∀ T, w.fi (db.target t).name = some T →
      (∀ d, Looked w.fi (info t) d → ¬ Missing w.fi db d ∧ ∀ s, Behind w.fi db d s → s ≤ T) →
      (isTargetUpToDate w t info).2 = true) := by
  have hn := hst.1
  -- times of the dependents
  have hex : ∀ info', (∀ d, Looked w.fi (info t) d → DepOk w db info' d) →
      (∀ d, Looked w.fi (info t) d → ∀ k, w.lookup d = some k →
        SeenLe w.fi db k (info' k) ∧ Attained w.fi db k (info' k)) →
      ∀ d, Looked w.fi (info t) d → ¬ Missing w.fi db d →
        ∃ s, stampOf w info' d = some s ∧ Behind w.fi db d s ∧ ∀ s', Behind w.fi db d s' → s' ≤ s := by
    intro info' h1 h2 d hd hm
    obtain ⟨s, hs, hb⟩ := stamp_exact hl hnz (h1 d hd) hm (h2 d hd)
    exact ⟨s, hs, hb, stamp_le hl (h1 d hd) hm hs⟩
  cases hf : w.fi (db.target t).name with
  | none =>
    obtain ⟨h1, h2⟩ := effect_noFile w t info (by rw [hn]; exact hf) (hself hf)
    have hall : ¬ Buildable w.fi db t → (∀ e ∈ (db.target t).deps, ¬ Missing w.fi db e) →
        (info t).deps = (db.target t).deps ∧ ∀ e ∈ (db.target t).deps, stampOf w info e ≠ none := by
      intro hb hm
      obtain ⟨hd, _, _⟩ := static_plain hst hb
      refine ⟨hd, fun e he h0 => ?_⟩
      obtain ⟨s, hs, _⟩ := hex info hdep hat e (.inl (by rw [hd]; exact he)) (hm e he)
      rw [h0] at hs; cases hs
    refine ⟨⟨fun T hT => (by rw [hf] at hT; cases hT), fun _ => ?_⟩, ?_, fun T hT => (by cases hT)⟩
    · rw [h2]
      simp only [upd, if_true]
      refine ⟨hself hf, fun hb hm e he s hbe => ?_⟩
      obtain ⟨hd, hst'⟩ := hall hb hm
      rw [hd]
      by_cases h0 : (db.target t).deps = []
      · rw [h0] at he; cases he
      · rw [if_neg h0]
        obtain ⟨s', hs', _, hmax⟩ := hex info hdep hat e (.inl (by rw [hd]; exact he)) (hm e he)
        have := ((latest_le w info _ _ 0 hst').1 (Nat.le_refl _)).2 e he s' hs'
        exact Nat.le_trans (hmax s hbe) this
    · intro _ hb h0 hm
      rw [h2]
      simp only [upd, if_true]
      obtain ⟨hd, hst'⟩ := hall hb hm
      rw [hd, if_neg h0]
      rcases latest_attained w info _ 0 hst' with h3 | ⟨e, he, h3⟩
      · exfalso
        obtain ⟨e, he⟩ := List.exists_mem_of_ne_nil _ h0
        obtain ⟨s', hs', hbe, _⟩ := hex info hdep hat e (.inl (by rw [hd]; exact he)) (hm e he)
        have := ((latest_le w info _ _ 0 hst').1 (Nat.le_refl _)).2 e he s' hs'
        obtain ⟨e', he'⟩ := behind_file hbe
        have := hnz e' s' he'
        omega
      · obtain ⟨s', hs', hbe, _⟩ := hex info hdep hat e (.inl (by rw [hd]; exact he)) (hm e he)
        rw [h3] at hs'; cases hs'
        exact ⟨e, he, hbe⟩
  | some T =>
    have hf' : w.fi (info t).name = some T := by rw [hn]; exact hf
    refine ⟨⟨fun T' hT' => ?_, fun h0 => (by rw [hf] at h0; cases h0)⟩, fun h0 => (by rw [hf] at h0; cases h0), ?_⟩
    · rw [hf] at hT'; cases hT'
      rw [effect_file w t info hf']
      simp only [upd, if_true, true_and]
      cases (isTargetUpToDate w t info).2 <;> simp
    · intro T' hT' hgood
      cases hT'
      have hT : (readFile w t info t).time = T := by rw [readFile_at, hf']
      have hb : ∀ ds : List Str, (∀ d ∈ ds, Looked w.fi (info t) d) → latestTime w (readFile w t info) ds 0 ≤ T := by
        intro ds hds
        have hst' : ∀ d ∈ ds, ∃ s, stampOf w (readFile w t info) d = some s ∧ s ≤ T := by
          intro d hd
          obtain ⟨s, hs, hbe, _⟩ := hex (readFile w t info) (fun d hd => depOk_read hn (hdep d hd))
            (fun d hd k hk => ⟨seenLe_read hn (hat d hd k hk).1, attained_read hn (hat d hd k hk).2⟩) d (hds d hd)
            (hgood d (hds d hd)).1
          exact ⟨s, hs, (hgood d (hds d hd)).2 s hbe⟩
        rw [latest_le w _ _ ds 0 (fun d hd h0 => by obtain ⟨s, hs, _⟩ := hst' d hd; rw [h0] at hs; cases hs)]
        refine ⟨Nat.zero_le _, fun d hd s hs => ?_⟩
        obtain ⟨s', hs', hle⟩ := hst' d hd
        rw [hs] at hs'; cases hs'; exact hle
      rw [answer_iff, compare_iff, hT, (readFile_deps w t info t).1]
      refine ⟨⟨by rw [readFile_at, hf'], .inr (hb _ fun d hd => .inl hd)⟩, .inr (hb _ fun d hd => ?_)⟩
      exact (addInferred_mem w d (info t).rules (info t).deps).1 hd

end Jom.Make
