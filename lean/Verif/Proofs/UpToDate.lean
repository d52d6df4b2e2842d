/- Facts about one call of `isTargetUpToDate`. -/
import Verif.Model.UpToDate
import Mathlib.Tactic.ByContra

namespace Jom.UpToDate
open Jom.Graph

/-- The time of a dependent as the loop sees it. -/
def stampOf (w : World) (info : Nat → TInfo) (d : Str) : Option Nat :=
  match w.lookup d with
  | none => if w.modified d = 0 then none else some (w.modified d)
  | some k =>
    if (info k).fileExists = false ∧ (info k).hasCmds = true then none
    else if (info k).time ≠ 0 then some (info k).time
    else if w.modified d = 0 then none else some (w.modified d)

theorem modified_some {w : World} {d : Str} {s : Nat} :
    (w.modified d = s ∧ s ≠ 0) ↔ (w.fi d = some s ∧ s ≠ 0) := by
  unfold World.modified
  cases w.fi d with
  | none => simp; omega
  | some t => simp

theorem latest_cons (w : World) (info : Nat → TInfo) (d : Str) (ds : List Str) (l : Nat) :
    latestTime w info (d :: ds) l =
      match stampOf w info d with
      | none => w.now
      | some s => latestTime w info ds (if l < s then s else l) := by
  unfold stampOf
  rw [latestTime]
  cases hl : w.lookup d with
  | none =>
    by_cases hm : w.modified d = 0
    · simp [hm]
    · simp [hm]
  | some k =>
    simp only [Option.map_some, Option.any_some, Option.getD_some]
    by_cases hc : (info k).fileExists = false ∧ (info k).hasCmds = true
    · simp [hc]
    · have hc' : (!(info k).fileExists && (info k).hasCmds) = false := by
        cases h1 : (info k).fileExists <;> cases h2 : (info k).hasCmds <;> simp [h1, h2] at hc ⊢
      rw [hc', if_neg hc]
      simp only [Bool.false_eq_true, if_false]
      by_cases ht : (info k).time = 0
      · by_cases hm : w.modified d = 0
        · simp [ht, hm]
        · simp [ht, hm]
      · simp [ht]

theorem latest_missing (w : World) (info : Nat → TInfo) : ∀ (ds : List Str) (l : Nat),
    (∃ d ∈ ds, stampOf w info d = none) → latestTime w info ds l = w.now := by
  intro ds
  induction ds with
  | nil => intro l h; simp at h
  | cons d ds ih =>
    intro l h
    rw [latest_cons]
    cases hs : stampOf w info d with
    | none => rfl
    | some s =>
      apply ih
      obtain ⟨e, he, h⟩ := h
      rcases List.mem_cons.1 he with rfl | he
      · rw [hs] at h; cases h
      · exact ⟨e, he, h⟩

theorem latest_le (w : World) (info : Nat → TInfo) (T : Nat) : ∀ (ds : List Str) (l : Nat),
    (∀ d ∈ ds, stampOf w info d ≠ none) →
    (latestTime w info ds l ≤ T ↔ l ≤ T ∧ ∀ d ∈ ds, ∀ s, stampOf w info d = some s → s ≤ T) := by
  intro ds
  induction ds with
  | nil => intro l _; simp [latestTime]
  | cons d ds ih =>
    intro l h
    rw [latest_cons]
    cases hs : stampOf w info d with
    | none => exact absurd hs (h d (by simp))
    | some s =>
      simp only
      rw [ih _ (fun e he => h e (by simp [he]))]
      constructor
      · rintro ⟨h1, h2⟩
        split at h1
        · refine ⟨by omega, fun e he s' hs' => ?_⟩
          rcases List.mem_cons.1 he with rfl | he
          · rw [hs] at hs'; cases hs'; exact h1
          · exact h2 e he s' hs'
        · refine ⟨by omega, fun e he s' hs' => ?_⟩
          rcases List.mem_cons.1 he with rfl | he
          · rw [hs] at hs'; cases hs'; omega
          · exact h2 e he s' hs'
      · rintro ⟨h1, h2⟩
        refine ⟨?_, fun e he => h2 e (by simp [he])⟩
        have := h2 d (by simp) s hs
        split <;> omega

theorem latest_attained (w : World) (info : Nat → TInfo) : ∀ (ds : List Str) (l : Nat),
    (∀ d ∈ ds, stampOf w info d ≠ none) →
    (latestTime w info ds l = l ∨ ∃ d ∈ ds, stampOf w info d = some (latestTime w info ds l)) := by
  intro ds
  induction ds with
  | nil => intro l _; exact .inl rfl
  | cons d ds ih =>
    intro l h
    rw [latest_cons]
    cases hs : stampOf w info d with
    | none => exact absurd hs (h d (by simp))
    | some s =>
      simp only
      rcases ih (if l < s then s else l) (fun e he => h e (by simp [he])) with h1 | ⟨e, he, h1⟩
      · rw [h1]
        by_cases hls : l < s
        · right; exact ⟨d, by simp, by simp [hls, hs]⟩
        · left; simp [hls]
      · right; exact ⟨e, by simp [he], h1⟩

theorem addInferred_mem (w : World) (d : Str) : ∀ (rs deps : List Str),
    d ∈ addInferred w rs deps ↔ d ∈ deps ∨ (d ∈ rs ∧ ∃ s, w.fi d = some s) := by
  intro rs
  induction rs with
  | nil => intro deps; simp [addInferred]
  | cons r rs ih =>
    intro deps
    rw [addInferred, ih]
    by_cases hr : r ∉ deps ∧ (w.fi r).isSome = true
    · rw [if_pos hr]
      obtain ⟨s, hs⟩ := Option.isSome_iff_exists.1 hr.2
      constructor
      · rintro (h | h)
        · rcases List.mem_append.1 h with h | h
          · exact .inl h
          · simp at h; subst h; exact .inr ⟨by simp, s, hs⟩
        · exact .inr ⟨by simp [h.1], h.2⟩
      · rintro (h | ⟨h, hx⟩)
        · exact .inl (by simp [h])
        · rcases List.mem_cons.1 h with rfl | h
          · exact .inl (by simp)
          · exact .inr ⟨h, hx⟩
    · rw [if_neg hr]
      constructor
      · rintro (h | h)
        · exact .inl h
        · exact .inr ⟨by simp [h.1], h.2⟩
      · rintro (h | ⟨h, s, hs⟩)
        · exact .inl h
        · rcases List.mem_cons.1 h with rfl | h
          · left
            by_contra hc
            exact hr ⟨hc, by simp [hs]⟩
          · exact .inr ⟨h, s, hs⟩

/-- The answer of `compareTimes`. -/
theorem compare_iff (w : World) (t : Nat) (info : Nat → TInfo) :
    (compareTimes w t info).2 = true ↔ (info t).fileExists = true ∧
      ((info t).deps = [] ∨ latestTime w info (info t).deps 0 ≤ (info t).time) := by
  unfold compareTimes
  by_cases hd : (info t).deps = []
  · simp [hd]
  · have : (info t).deps.isEmpty = false := by simpa using hd
    simp only [this, Bool.false_eq_true, if_false]
    cases hf : (info t).fileExists
    · simp
    · simp [hf, hd]

/-- No missing or newer dependent, in terms of `stampOf`. -/
def Fine (w : World) (info : Nat → TInfo) (T : Nat) (d : Str) : Prop := ∃ s, stampOf w info d = some s ∧ s ≤ T

theorem latest_fine (w : World) (info : Nat → TInfo) (T : Nat) (ds : List Str) (hT : T < w.now) :
    (ds = [] ∨ latestTime w info ds 0 ≤ T) ↔ ∀ d ∈ ds, Fine w info T d := by
  by_cases hm : ∃ d ∈ ds, stampOf w info d = none
  · rw [latest_missing w info ds 0 hm]
    obtain ⟨d, hd, hn⟩ := hm
    constructor
    · rintro (h | h)
      · subst h; simp at hd
      · omega
    · intro h
      obtain ⟨s, hs, _⟩ := h d hd
      rw [hn] at hs; cases hs
  · have hm' : ∀ d ∈ ds, stampOf w info d ≠ none := fun d hd hn => hm ⟨d, hd, hn⟩
    rw [latest_le w info T ds 0 hm']
    constructor
    · rintro (h | h) d hd
      · subst h; simp at hd
      · obtain ⟨s, hs⟩ := Option.ne_none_iff_exists'.1 (hm' d hd)
        exact ⟨s, hs, h.2 d hd s hs⟩
    · intro h
      right
      refine ⟨Nat.zero_le _, fun d hd s hs => ?_⟩
      obtain ⟨s', hs', hle⟩ := h d hd
      rw [hs] at hs'; cases hs'; exact hle

theorem stampOf_congr (w : World) (info info' : Nat → TInfo)
    (h : ∀ k, (info' k).fileExists = (info k).fileExists ∧ (info' k).hasCmds = (info k).hasCmds ∧
      (info' k).time = (info k).time) (d : Str) : stampOf w info' d = stampOf w info d := by
  unfold stampOf
  cases w.lookup d with
  | none => rfl
  | some k => simp only [(h k).1, (h k).2.1, (h k).2.2]

theorem readFile_deps (w : World) (t : Nat) (info : Nat → TInfo) (k : Nat) :
    (readFile w t info k).deps = (info k).deps ∧ (readFile w t info k).rules = (info k).rules ∧
    (readFile w t info k).name = (info k).name ∧ (readFile w t info k).hasCmds = (info k).hasCmds := by
  unfold readFile
  cases w.fi (info t).name with
  | none => simp
  | some s =>
    simp only [upd]
    by_cases hk : k = t
    · subst hk; simp
    · simp [hk]

theorem compareTimes_of_exists (w : World) (t : Nat) (info : Nat → TInfo)
    (h : (info t).fileExists = true) : (compareTimes w t info).1 = info := by
  unfold compareTimes
  by_cases hd : (info t).deps.isEmpty = true
  · simp [hd]
  · simp only [hd, Bool.false_eq_true, if_false, h, if_true]
    funext k
    simp only [upd]
    split
    · next hk => rw [hk]
    · rfl

/-- The answer of the whole function in terms of `compareTimes`. -/
theorem answer_iff (w : World) (t : Nat) (info : Nat → TInfo) :
    (isTargetUpToDate w t info).2 = true ↔
      (compareTimes w t (readFile w t info)).2 = true ∧
      (addInferred w (info t).rules (info t).deps = (info t).deps ∨
        latestTime w (readFile w t info) (addInferred w (info t).rules (info t).deps) 0
          ≤ (readFile w t info t).time) := by
  have hfin : ∀ r, (finish t r).2 = r.2 := fun r => rfl
  unfold isTargetUpToDate
  rw [hfin]
  unfold checkInferred
  cases hb : (compareTimes w t (readFile w t info)).2 with
  | false => simp [hb]
  | true =>
    have hex := ((compare_iff w t _).1 hb).1
    have h1 : (compareTimes w t (readFile w t info)).1 = readFile w t info := compareTimes_of_exists w t _ hex
    simp only [h1, Bool.true_and, true_and]
    have hd := (readFile_deps w t info t).1
    have hr := (readFile_deps w t info t).2.1
    rw [hr, hd]
    by_cases hrn : (info t).rules = []
    · simp [hrn, addInferred, hb]
    · have hrn' : (!(info t).rules.isEmpty) = true := by simpa using hrn
      rw [if_pos hrn']
      by_cases hne : addInferred w (info t).rules (info t).deps = (info t).deps
      · simp [hne, hb]
      · rw [if_pos hne]
        simp only [hne, false_or]
        show (plainUpToDate w t _).2 = true ↔ _
        unfold plainUpToDate
        rw [hfin, compare_iff]
        -- the second `readFile` finds the same file
        generalize hx : upd (readFile w t info) t
          { readFile w t info t with deps := addInferred w (info t).rules (info t).deps, rules := [] } = info2
        have hrs : ∀ k, (readFile w t info2 k).fileExists = (readFile w t info k).fileExists ∧
            (readFile w t info2 k).hasCmds = (readFile w t info k).hasCmds ∧
            (readFile w t info2 k).time = (readFile w t info k).time := by
          intro k
          have hn2 : (info2 t).name = (info t).name := by
            rw [← hx]; simp [upd, (readFile_deps w t info t).2.2.1]
          unfold readFile
          rw [hn2]
          cases hf : w.fi (info t).name with
          | none =>
            simp only
            rw [← hx]
            simp only [upd, readFile, hf]
            split <;> simp_all
          | some s =>
            simp only [upd]
            rw [← hx]
            simp only [upd, readFile, hf]
            by_cases hk : k = t <;> simp [hk]
        have hd2 : (readFile w t info2 t).deps = addInferred w (info t).rules (info t).deps := by
          rw [(readFile_deps w t info2 t).1, ← hx]; simp [upd]
        rw [(hrs t).1, hex, hd2, (hrs t).2.2]
        have hlat : ∀ (ds : List Str) l, latestTime w (readFile w t info2) ds l = latestTime w (readFile w t info) ds l := by
          intro ds
          induction ds with
          | nil => intro l; rfl
          | cons d ds ih =>
            intro l
            rw [latest_cons, latest_cons, stampOf_congr w _ _ hrs]
            cases stampOf w (readFile w t info) d with
            | none => rfl
            | some s => exact ih _
        rw [hlat]
        have hnil : addInferred w (info t).rules (info t).deps ≠ [] := by
          intro h0
          apply hne
          have : (info t).deps = [] := by
            by_contra hc
            obtain ⟨d, hd⟩ := List.exists_mem_of_ne_nil _ hc
            have := (addInferred_mem w d (info t).rules (info t).deps).2 (.inl hd)
            rw [h0] at this; simp at this
          rw [h0, this]
        simp [hnil]

/-- The record of `t` after its own file has been looked up. -/
theorem readFile_at (w : World) (t : Nat) (info : Nat → TInfo) :
    readFile w t info t = match w.fi (info t).name with
      | some s => { info t with fileExists := true, time := s }
      | none => info t := by
  unfold readFile
  cases w.fi (info t).name <;> simp [upd]

theorem compare_nil (w : World) (t : Nat) (info : Nat → TInfo) (h : (info t).deps = []) :
    compareTimes w t info = (info, (info t).fileExists) := by
  simp [compareTimes, h]

theorem compare_file (w : World) (t : Nat) (info : Nat → TInfo) (h : (info t).deps ≠ [])
    (he : (info t).fileExists = true) :
    compareTimes w t info = (info, decide (latestTime w info (info t).deps 0 ≤ (info t).time)) := by
  have h1 := compareTimes_of_exists w t info he
  refine Prod.ext h1 ?_
  have h2 := compare_iff w t info
  simp only [he, h, true_and, false_or] at h2
  rw [Bool.eq_iff_iff, h2]; simp

theorem compare_noFile (w : World) (t : Nat) (info : Nat → TInfo) (h : (info t).deps ≠ [])
    (he : (info t).fileExists = false) :
    compareTimes w t info = (upd info t { info t with time := latestTime w info (info t).deps 0 }, false) := by
  have hd : (info t).deps.isEmpty = false := by simpa using h
  simp [compareTimes, hd, he]

/-- Without inference rules the function is `plainUpToDate`. -/
theorem noRules (w : World) (t : Nat) (info : Nat → TInfo) (h : (info t).rules = []) :
    isTargetUpToDate w t info = plainUpToDate w t info := by
  unfold isTargetUpToDate plainUpToDate checkInferred
  have hru : (readFile w t info t).rules = [] := by rw [(readFile_deps w t info t).2.1, h]
  have : ((compareTimes w t (readFile w t info)).1 t).rules = [] := by
    generalize readFile w t info = info1 at *
    by_cases hd : (info1 t).deps = []
    · rw [compare_nil w t info1 hd]; exact hru
    · cases he : (info1 t).fileExists with
      | true => rw [compare_file w t info1 hd he]; exact hru
      | false => rw [compare_noFile w t info1 hd he]; simpa [upd] using hru
  simp [this]

/-- What one call does to the records. -/
theorem plain_effect (w : World) (t : Nat) (info : Nat → TInfo) :
    (∀ k, k ≠ t → (plainUpToDate w t info).1 k = info k) ∧
    (plainUpToDate w t info).1 t =
      { info t with
        fileExists := (readFile w t info t).fileExists
        time := if (readFile w t info t).fileExists then
            (if (plainUpToDate w t info).2 then (readFile w t info t).time else 0)
          else if (info t).deps = [] then (info t).time
          else latestTime w (readFile w t info) (info t).deps 0 } := by
  have hd := readFile_deps w t info t
  have hne : ∀ k, k ≠ t → readFile w t info k = info k := by
    intro k hk
    unfold readFile
    cases w.fi (info t).name <;> simp [upd, hk]
  have hnof : (readFile w t info t).fileExists = false → readFile w t info t = info t := by
    intro h
    rw [readFile_at] at h ⊢
    cases hf : w.fi (info t).name with
    | none => rfl
    | some s => rw [hf] at h; cases h
  generalize hr : readFile w t info = info1 at *
  obtain ⟨hd1, hd2, hd3, hd4⟩ := hd
  have hrec : ∀ e c, ({ info t with fileExists := e, time := c } : TInfo) = { info1 t with fileExists := e, time := c } := by
    intro e c
    simp only [hd1, hd2, hd3, hd4]
  have heta : ∀ (x : TInfo) e c, x.fileExists = e → x.time = c → x = { x with fileExists := e, time := c } := by
    intro x e c h1 h2; subst h1; subst h2; rfl
  unfold plainUpToDate
  rw [hr, hrec, ← hd1]
  unfold finish
  by_cases hdn : (info1 t).deps = []
  · rw [compare_nil w t info1 hdn]
    cases hex : (info1 t).fileExists with
    | true =>
      refine ⟨fun k hk => ?_, ?_⟩
      · simpa using hne k hk
      · simp only [hex, Bool.not_true, Bool.false_and, Bool.false_eq_true, if_false, if_true]
        exact heta _ _ _ hex rfl
    | false =>
      refine ⟨fun k hk => ?_, ?_⟩
      · simpa [hex] using hne k hk
      · simp only [hex, hdn, if_true, Bool.and_false, Bool.false_eq_true, if_false]
        rw [← hnof hex, ← hdn]
        exact heta _ _ _ hex rfl
  · cases hex : (info1 t).fileExists with
    | true =>
      rw [compare_file w t info1 hdn hex]
      by_cases hle : latestTime w info1 (info1 t).deps 0 ≤ (info1 t).time
      · refine ⟨fun k hk => ?_, ?_⟩
        · simpa [hle] using hne k hk
        · simp only [hle, hex, decide_true, Bool.not_true, Bool.false_and, Bool.false_eq_true, if_false, if_true]
          exact heta _ _ _ hex rfl
      · refine ⟨fun k hk => ?_, ?_⟩
        · simpa [hle, hex, upd, hk] using hne k hk
        · simp [hle, hex, upd]
    | false =>
      rw [compare_noFile w t info1 hdn hex]
      refine ⟨fun k hk => ?_, ?_⟩
      · simpa [hex, upd, hk] using hne k hk
      · simp [hex, upd, hdn]

end Jom.UpToDate
