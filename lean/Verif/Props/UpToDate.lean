import Verif.Proofs.UpToDate
import Mathlib.Logic.Relation
import Mathlib.Tactic.ByContra

/-! Property C41: the out-of-date decision. -/

namespace Jom.Spec
open Jom.UpToDate

/-- `DepTime w info d s`: the dependent `d` is not missing and its time is `s`.  A target that has commands but no
file counts as missing; the time of a target is the one known to jom, otherwise that of its file. -/
inductive DepTime (w : World) (info : Nat → TInfo) : Str → Nat → Prop
  | target {d k} : w.lookup d = some k → ((info k).fileExists = true ∨ (info k).hasCmds = false) →
      (info k).time ≠ 0 → DepTime w info d (info k).time
  | targetFile {d k s} : w.lookup d = some k → ((info k).fileExists = true ∨ (info k).hasCmds = false) →
      (info k).time = 0 → w.fi d = some s → s ≠ 0 → DepTime w info d s
  | file {d s} : w.lookup d = none → w.fi d = some s → s ≠ 0 → DepTime w info d s

/-- The dependents that count for target `x`: its own and the existing files it could be inferred from. -/
def Counts (w : World) (x : TInfo) (d : Str) : Prop := d ∈ x.deps ∨ (d ∈ x.rules ∧ ∃ s, w.fi d = some s)

/-! #### A whole makefile when nothing is run -/

/-- What the makefile says about a target. -/
structure Decl where
  name : Str
  deps : List Str
  hasCmds : Bool

/-- The name `d` stands for nothing that has a time: no file and not a target, or a target with commands to run, or
a target without file and dependents, or a target without file one of whose dependents stands for nothing. -/
inductive Missing (w : World) (mk : Nat → Decl) : Str → Prop
  | noFile {d} : w.fi d = none → w.lookup d = none → Missing w mk d
  | commands {d k} : w.fi d = none → w.lookup d = some k → (mk k).hasCmds = true → Missing w mk d
  | empty {d k} : w.fi d = none → w.lookup d = some k → (mk k).deps = [] → Missing w mk d
  | behind {d k e} : w.fi d = none → w.lookup d = some k → e ∈ (mk k).deps → Missing w mk e → Missing w mk d

/-- `s` is the time of the file `d` or, if `d` is a target without file, of a file that stands behind one of its
dependents. -/
inductive Behind (w : World) (mk : Nat → Decl) : Str → Nat → Prop
  | file {d s} : w.fi d = some s → Behind w mk d s
  | behind {d k e s} : w.fi d = none → w.lookup d = some k → e ∈ (mk k).deps → Behind w mk e s → Behind w mk d s

/-- Every call for a target comes after calls for the targets among its dependents. -/
def DependentsFirst (w : World) (mk : Nat → Decl) (calls : List Nat) : Prop :=
  ∀ pre t post, calls = pre ++ t :: post → ∀ d ∈ (mk t).deps, ∀ k, w.lookup d = some k → k ∈ pre

end Jom.Spec

namespace Jom.Props
open Jom.UpToDate Jom.Spec Jom.Graph

/-! ### One call -/

private theorem stampOf_iff (w : World) (info : Nat → TInfo) (d : Str) (s : Nat) :
    stampOf w info d = some s ↔ DepTime w info d s := by
  unfold stampOf
  constructor
  · intro h
    split at h
    · next hl =>
      split at h
      · cases h
      · next hm =>
        cases h
        exact .file hl (modified_some.1 ⟨rfl, hm⟩).1 hm
    · next k hl =>
      split at h
      · cases h
      · next hc =>
        have hc' : (info k).fileExists = true ∨ (info k).hasCmds = false := by
          cases h1 : (info k).fileExists <;> cases h2 : (info k).hasCmds <;> simp [h1, h2] at hc ⊢
        split at h
        · next ht => cases h; exact .target hl hc' ht
        · next ht =>
          split at h
          · cases h
          · next hm =>
            cases h
            exact .targetFile hl hc' (by omega) (modified_some.1 ⟨rfl, hm⟩).1 hm
  · intro h
    cases h with
    | @target k hl hc ht =>
      rw [hl]
      have : ¬ ((info k).fileExists = false ∧ (info k).hasCmds = true) := by
        rcases hc with h | h <;> simp [h]
      simp [this, ht]
    | @targetFile k _ hl hc ht hf hs =>
      rw [hl]
      have : ¬ ((info k).fileExists = false ∧ (info k).hasCmds = true) := by
        rcases hc with h | h <;> simp [h]
      have hm := modified_some.2 ⟨hf, hs⟩
      simp [this, ht, hm.1, hs]
    | file hl hf hs =>
      rw [hl]
      have hm := modified_some.2 ⟨hf, hs⟩
      simp [hm.1, hs]

/-- **C41**: for every state, target, file system: if the file of the target has the time `T`, jom considers the target up
to date exactly if no dependent (declared, or inferable from an existing file) is missing or newer.  What is
missing for the full claim: `T` must lie in the past; see `C41_future_time_refuted`. -/
theorem C41_up_to_date_partial (w : World) (t : Nat) (info : Nat → TInfo) (T : Nat)
    (hT : w.fi (info t).name = some T) (hpast : T < w.now) :
    (isTargetUpToDate w t info).2 = true ↔
      ∀ d, Counts w (info t) d → ∃ s, DepTime w (readFile w t info) d s ∧ s ≤ T := by
  rw [answer_iff, compare_iff]
  have hat := readFile_at w t info
  rw [hT] at hat
  simp only at hat
  rw [hat]
  simp only [true_and]
  have e1 := latest_fine w (readFile w t info) T (info t).deps hpast
  have e2 := latest_fine w (readFile w t info) T (addInferred w (info t).rules (info t).deps) hpast
  rw [e1]
  have hfine : ∀ d, Fine w (readFile w t info) T d ↔ ∃ s, DepTime w (readFile w t info) d s ∧ s ≤ T := by
    intro d
    unfold Fine
    exact exists_congr fun s => and_congr_left fun _ => stampOf_iff w _ d s
  constructor
  · rintro ⟨h1, h2⟩ d hc
    rw [← hfine]
    rcases h2 with h2 | h2
    · have : d ∈ addInferred w (info t).rules (info t).deps := (addInferred_mem w d _ _).2 hc
      rw [h2] at this
      exact h1 d this
    · exact e2.1 (.inr h2) d ((addInferred_mem w d _ _).2 hc)
  · intro h
    have hall : ∀ d ∈ addInferred w (info t).rules (info t).deps, Fine w (readFile w t info) T d :=
      fun d hd => (hfine d).2 (h d ((addInferred_mem w d _ _).1 hd))
    refine ⟨fun d hd => (hfine d).2 (h d (.inl hd)), ?_⟩
    rcases e2.2 hall with h0 | h0
    · left
      have : (info t).deps = [] := by
        by_contra hc
        obtain ⟨d, hd⟩ := List.exists_mem_of_ne_nil _ hc
        have := (addInferred_mem w d (info t).rules (info t).deps).2 (.inl hd)
        rw [h0] at this; simp at this
      rw [h0, this]
    · exact .inr h0

/-- **C41**: a target without file is never up to date, in every state jom can be in before the file is looked up
(the flag `m_bFileExists` is only set when a file was seen). -/
theorem C41_no_file (w : World) (t : Nat) (info : Nat → TInfo) (hf : w.fi (info t).name = none)
    (hn : (info t).fileExists = false) : (isTargetUpToDate w t info).2 = false := by
  have hat := readFile_at w t info
  rw [hf] at hat
  simp only at hat
  cases h : (isTargetUpToDate w t info).2 with
  | false => rfl
  | true =>
    rw [answer_iff, compare_iff, hat, hn] at h
    simp at h

/-- **C41** fails if the time of the target lies in the future: the dependent `src` does not exist at all, and still
the target counts as up to date. -/
theorem C41_future_time_refuted : ∃ (w : World) (info : Nat → TInfo) (T : Nat),
    w.fi (info 0).name = some T ∧ (isTargetUpToDate w 0 info).2 = true ∧
    c!"src" ∈ (info 0).deps ∧ ∀ s, ¬ DepTime w (readFile w 0 info) c!"src" s := by
  refine ⟨{ fi := fun n => if n = c!"out" then some 9 else none, lookup := fun _ => none, now := 5 },
    fun _ => { name := c!"out", fileExists := false, time := 0, deps := [c!"src"], hasCmds := true, rules := [] },
    9, by decide +kernel, by decide +kernel, by decide +kernel, ?_⟩
  intro s h
  cases h with
  | target hl => cases hl
  | targetFile hl => cases hl
  | file _ hf => simp at hf

/-- `out` (time 7) depends on `src` (time 3) and could be inferred from `out.c`; the answer changes with the time of
`out.c`. -/
def exWorld (c : Nat) : World :=
  { fi := fun n => if n = c!"out" then some 7 else if n = c!"src" then some 3 else if n = c!"out.c" then some c else none
    lookup := fun _ => none, now := 10 }

def exInfo : Nat → TInfo := fun _ =>
  { name := c!"out", fileExists := false, time := 0, deps := [c!"src"], hasCmds := true, rules := [c!"out.c", c!"out.cpp"] }

/-- The hypotheses of `C41_up_to_date_partial` hold and both answers occur. -/
example : (exWorld 5).fi (exInfo 0).name = some 7 ∧ 7 < (exWorld 5).now ∧
    (isTargetUpToDate (exWorld 5) 0 exInfo).2 = true ∧ (isTargetUpToDate (exWorld 8) 0 exInfo).2 = false := by
  decide +kernel

/-! ### A whole makefile -/

/-- The state of the targets before the first call (constructor, makefile.cpp 114-122). -/
def freshInfo (mk : Nat → Decl) (k : Nat) : TInfo :=
  { name := (mk k).name, fileExists := false, time := 0, deps := (mk k).deps, hasCmds := (mk k).hasCmds, rules := [] }

/-- A sequence of calls of `isTargetUpToDate`; the result are the targets that jom would have to run commands
for. -/
def outdated (w : World) : List Nat → (Nat → TInfo) → List Nat
  | [], _ => []
  | t :: ts, info =>
    let r := isTargetUpToDate w t info
    (if !r.2 && (info t).hasCmds then [t] else []) ++ outdated w ts r.1

/-- What is known about a target that has been looked at. -/
private def Seen (w : World) (mk : Nat → Decl) (k : Nat) (x : TInfo) : Prop :=
  match w.fi (mk k).name with
  | some T => x.fileExists = true ∧ (x.time = T ∨ x.time = 0)
  | none => x.fileExists = false ∧
      ((mk k).deps = [] → x.time = 0) ∧
      ((mk k).deps ≠ [] → ((∃ e ∈ (mk k).deps, Missing w mk e) → x.time = w.now) ∧
        ((∀ e ∈ (mk k).deps, ¬ Missing w mk e) →
          (∀ e ∈ (mk k).deps, ∀ s, Behind w mk e s → s ≤ x.time) ∧ ∃ e ∈ (mk k).deps, Behind w mk e x.time))

private structure Ok (w : World) (mk : Nat → Decl) (seen : List Nat) (info : Nat → TInfo) : Prop where
  static : ∀ k, (info k).name = (mk k).name ∧ (info k).deps = (mk k).deps ∧ (info k).hasCmds = (mk k).hasCmds ∧
    (info k).rules = []
  new : ∀ k, k ∉ seen → (info k).fileExists = false ∧ (info k).time = 0
  old : ∀ k, k ∈ seen → Seen w mk k (info k)

/-- Hypotheses on the file system: names of a target denote the same file, times are valid and in the past. -/
structure Sane (w : World) (mk : Nat → Decl) : Prop where
  same : ∀ d k, w.lookup d = some k → w.fi d = w.fi (mk k).name
  times : ∀ d s, w.fi d = some s → s ≠ 0 ∧ s < w.now

private theorem behind_lt {w : World} {mk : Nat → Decl} (hs : Sane w mk) {d : Str} {s : Nat} (h : Behind w mk d s) :
    s ≠ 0 ∧ s < w.now := by
  induction h with
  | file h => exact hs.times _ _ h
  | behind _ _ _ _ ih => exact ih

private theorem missing_no_file {w : World} {mk : Nat → Decl} {d : Str} (h : Missing w mk d) : w.fi d = none := by
  cases h <;> assumption

/-- The time jom uses for a dependent all of whose targets have been looked at. -/
private theorem stamp_seen {w : World} {mk : Nat → Decl} (hs : Sane w mk) {info : Nat → TInfo}
    {d : Str} (hstat : ∀ k, (info k).hasCmds = (mk k).hasCmds)
    (hd : ∀ k, w.lookup d = some k → Seen w mk k (info k)) :
    (Missing w mk d → stampOf w info d = none ∨ stampOf w info d = some w.now) ∧
    (¬ Missing w mk d → ∃ s, stampOf w info d = some s ∧ Behind w mk d s ∧ ∀ s', Behind w mk d s' → s' ≤ s) := by
  cases hf : w.fi d with
  | some s =>
    refine ⟨fun hm => (by rw [missing_no_file hm] at hf; cases hf), fun _ => ⟨s, ?_, .file hf, ?_⟩⟩
    · have hs0 := (hs.times d s hf).1
      rw [stampOf_iff]
      cases hl : w.lookup d with
      | none => exact .file hl hf hs0
      | some k =>
        have h := hd k hl
        have hsame := hs.same d k hl
        rw [hf] at hsame
        unfold Seen at h
        rw [← hsame] at h
        simp only at h
        rcases h with ⟨h1, h2 | h2⟩
        · rw [← h2]; exact .target hl (.inl h1) (by rw [h2]; exact hs0)
        · exact .targetFile hl (.inl h1) h2 hf hs0
    · intro s' h'
      cases h' with
      | file h' => rw [hf] at h'; cases h'; exact Nat.le_refl _
      | behind h' => rw [hf] at h'; cases h'
  | none =>
    have hmod : w.modified d = 0 := by simp [World.modified, hf]
    cases hl : w.lookup d with
    | none =>
      refine ⟨fun _ => .inl ?_, fun hm => absurd (.noFile hf hl) hm⟩
      simp [stampOf, hl, hmod]
    | some k =>
      have h := hd k hl
      have hsame := hs.same d k hl
      rw [hf] at hsame
      unfold Seen at h
      rw [← hsame] at h
      simp only at h
      obtain ⟨h1, h2, h3⟩ := h
      cases hc : (mk k).hasCmds with
      | true =>
        refine ⟨fun _ => .inl ?_, fun hm => absurd (.commands hf hl hc) hm⟩
        simp [stampOf, hl, h1, hstat k, hc]
      | false =>
        by_cases hdeps : (mk k).deps = []
        · refine ⟨fun _ => .inl ?_, fun hm => absurd (.empty hf hl hdeps) hm⟩
          simp [stampOf, hl, h1, hstat k, hc, h2 hdeps, hmod]
        · obtain ⟨h4, h5⟩ := h3 hdeps
          by_cases hmiss : ∃ e ∈ (mk k).deps, Missing w mk e
          · refine ⟨fun _ => ?_, fun hm => ?_⟩
            · have ht := h4 hmiss
              by_cases h0 : w.now = 0
              · left; simp [stampOf, hl, h1, hstat k, hc, ht, hmod, h0]
              · right; simp [stampOf, hl, h1, hstat k, hc, ht, h0]
            · obtain ⟨e, he, hme⟩ := hmiss
              exact absurd (.behind hf hl he hme) hm
          · have hall : ∀ e ∈ (mk k).deps, ¬ Missing w mk e := fun e he hme => hmiss ⟨e, he, hme⟩
            obtain ⟨h6, e0, he0, hb0⟩ := h5 hall
            refine ⟨fun hm => ?_, fun _ => ⟨(info k).time, ?_, .behind hf hl he0 hb0, ?_⟩⟩
            · exfalso
              cases hm with
              | noFile _ hl' => rw [hl] at hl'; cases hl'
              | commands _ hl' hc' => rw [hl] at hl'; cases hl'; rw [hc] at hc'; cases hc'
              | empty _ hl' hd' => rw [hl] at hl'; cases hl'; exact hdeps hd'
              | behind _ hl' he' hm' => rw [hl] at hl'; cases hl'; exact hall _ he' hm'
            · have := (behind_lt hs hb0).1
              simp [stampOf, hl, hstat k, hc, this]
            · intro s' h'
              cases h' with
              | file h' => rw [hf] at h'; cases h'
              | behind _ hl' he' h' => rw [hl] at hl'; cases hl'; exact h6 _ he' _ h'

/-- One call keeps the invariant; its answer is the specified one. -/
private theorem Ok.call {w : World} {mk : Nat → Decl} (hs : Sane w mk) {seen : List Nat} {info : Nat → TInfo}
    (h : Ok w mk seen info) (t : Nat) (hdep : ∀ d ∈ (mk t).deps, ∀ k, w.lookup d = some k → k ∈ seen) :
    Ok w mk (seen ++ [t]) (isTargetUpToDate w t info).1 ∧
    ((isTargetUpToDate w t info).2 = true ↔ ∃ T, w.fi (mk t).name = some T ∧
      ∀ d ∈ (mk t).deps, ¬ Missing w mk d ∧ ∀ s, Behind w mk d s → s ≤ T) := by
  obtain ⟨hn, hdp, hcm, hru⟩ := h.static t
  rw [noRules w t info hru]
  have heff := plain_effect w t info
  generalize hr : plainUpToDate w t info = r at heff
  obtain ⟨he1, he2⟩ := heff
  have hat := readFile_at w t info
  rw [hn] at hat
  -- dependents are seen, also in the state with the file of `t` looked up
  have hstat1 : ∀ k, (readFile w t info k).hasCmds = (mk k).hasCmds := fun k => by
    rw [(readFile_deps w t info k).2.2.2]; exact (h.static k).2.2.1
  have hread : ∀ k, k ∈ seen → Seen w mk k (readFile w t info k) := by
    intro k hk
    have ho := h.old k hk
    by_cases hkt : k = t
    · subst hkt
      rw [hat]
      cases hf : w.fi (mk k).name with
      | none => exact ho
      | some T => unfold Seen; rw [hf]; exact ⟨rfl, .inl rfl⟩
    · have : readFile w t info k = info k := by
        unfold readFile
        cases w.fi (info t).name <;> simp [upd, hkt]
      rw [this]; exact ho
  have hst : ∀ d ∈ (mk t).deps, _ := fun d hd =>
    stamp_seen (info := readFile w t info) (d := d) hs hstat1 (fun k hk => hread k (hdep d hd k hk))
  have hnofile : w.fi (mk t).name = none → (info t).fileExists = false := by
    intro hf
    by_cases hk : t ∈ seen
    · have ho := h.old t hk
      unfold Seen at ho
      rw [hf] at ho
      exact ho.1
    · exact (h.new t hk).1
  have hans : r.2 = true ↔ ∃ T, w.fi (mk t).name = some T ∧
      ∀ d ∈ (mk t).deps, ¬ Missing w mk d ∧ ∀ s, Behind w mk d s → s ≤ T := by
    have h2 : r.2 = (compareTimes w t (readFile w t info)).2 := by rw [← hr]; rfl
    rw [h2, compare_iff, (readFile_deps w t info t).1, hat]
    cases hf : w.fi (mk t).name with
    | none => simp [hnofile hf]
    | some T =>
      simp only [true_and, Option.some.injEq, exists_eq_left']
      rw [hdp, latest_fine w _ T _ (hs.times _ _ hf).2]
      refine forall₂_congr fun d hd => ?_
      obtain ⟨hm1, hm2⟩ := hst d hd
      constructor
      · rintro ⟨s, hss, hle⟩
        have hnm : ¬ Missing w mk d := by
          intro hm
          rcases hm1 hm with h0 | h0
          · rw [h0] at hss; cases hss
          · rw [h0] at hss; cases hss
            have := (hs.times _ _ hf).2; omega
        obtain ⟨s', h1, _, h3⟩ := hm2 hnm
        rw [hss] at h1; cases h1
        exact ⟨hnm, fun s' hb => Nat.le_trans (h3 s' hb) hle⟩
      · rintro ⟨hnm, hb⟩
        obtain ⟨s', h1, h2, _⟩ := hm2 hnm
        exact ⟨s', h1, hb s' h2⟩
  refine ⟨⟨fun k => ?_, fun k hk => ?_, fun k hk => ?_⟩, hans⟩
  · by_cases hkt : k = t
    · subst hkt; rw [he2]; exact ⟨hn, hdp, hcm, hru⟩
    · rw [he1 k hkt]; exact h.static k
  · have hkt : k ≠ t := fun hc => hk (by simp [hc])
    rw [he1 k hkt]
    exact h.new k (fun hc => hk (by simp [hc]))
  · by_cases hkt : k = t
    · subst hkt
      rw [he2, hdp]
      unfold Seen
      cases hf : w.fi (mk k).name with
      | some T =>
        rw [hf] at hat
        simp only [hat, if_true, true_and]
        cases r.2 <;> simp
      | none =>
        rw [hf] at hat
        simp only [hat, hnofile hf, Bool.false_eq_true, if_false, true_and]
        refine ⟨fun hd => ?_, fun hd => ?_⟩
        · simp only [hd, if_true]
          by_cases hk' : k ∈ seen
          · have ho := h.old k hk'
            unfold Seen at ho
            rw [hf] at ho
            exact ho.2.1 hd
          · exact (h.new k hk').2
        · simp only [hd, if_false]
          refine ⟨fun hm => ?_, fun hm => ?_⟩
          · obtain ⟨e, he, hme⟩ := hm
            by_cases hnone : ∃ d ∈ (mk k).deps, stampOf w (readFile w k info) d = none
            · exact latest_missing w _ _ _ hnone
            · have hall : ∀ d ∈ (mk k).deps, stampOf w (readFile w k info) d ≠ none := fun d hd hn => hnone ⟨d, hd, hn⟩
              apply Nat.le_antisymm
              · rw [latest_le w _ _ _ _ hall]
                refine ⟨Nat.zero_le _, fun d hd s hss => ?_⟩
                obtain ⟨hm1, hm2⟩ := hst d hd
                by_cases hmd : Missing w mk d
                · rcases hm1 hmd with h0 | h0
                  · rw [h0] at hss; cases hss
                  · rw [h0] at hss; cases hss; exact Nat.le_refl _
                · obtain ⟨s', h1, h2, _⟩ := hm2 hmd
                  rw [hss] at h1; cases h1
                  exact Nat.le_of_lt (behind_lt hs h2).2
              · have := (latest_le w (readFile w k info) _ _ 0 hall).1 (Nat.le_refl _)
                rcases (hst e he).1 hme with h0 | h0
                · exact absurd h0 (hall e he)
                · exact this.2 e he _ h0
          · have hall : ∀ d ∈ (mk k).deps, stampOf w (readFile w k info) d ≠ none := by
              intro d hd hnn
              obtain ⟨s', h1, _, _⟩ := (hst d hd).2 (hm d hd)
              rw [hnn] at h1; cases h1
            constructor
            · intro e he s hb
              obtain ⟨s', h1, _, h3⟩ := (hst e he).2 (hm e he)
              have := (latest_le w (readFile w k info) _ _ 0 hall).1 (Nat.le_refl _)
              exact Nat.le_trans (h3 s hb) (this.2 e he s' h1)
            · rcases latest_attained w (readFile w k info) _ 0 hall with h0 | ⟨e, he, h0⟩
              · exfalso
                obtain ⟨e, he⟩ := List.exists_mem_of_ne_nil _ hd
                obtain ⟨s', h1, h2, _⟩ := (hst e he).2 (hm e he)
                have := (latest_le w (readFile w k info) _ _ 0 hall).1 (Nat.le_refl _)
                have hle := this.2 e he s' h1
                have := (behind_lt hs h2).1
                omega
              · obtain ⟨s', h1, h2, _⟩ := (hst e he).2 (hm e he)
                rw [h0] at h1; cases h1
                exact ⟨e, he, h2⟩
    · rw [he1 k hkt]
      have : k ∈ seen := by simpa [hkt] using hk
      exact h.old k this

private theorem outdated_iff {w : World} {mk : Nat → Decl} (hs : Sane w mk) : ∀ (ts seen : List Nat) (info : Nat → TInfo),
    Ok w mk seen info → DependentsFirst w mk (seen ++ ts) →
    (outdated w ts info = [] ↔ ∀ t ∈ ts, (mk t).hasCmds = true →
      ∃ T, w.fi (mk t).name = some T ∧ ∀ d ∈ (mk t).deps, ¬ Missing w mk d ∧ ∀ s, Behind w mk d s → s ≤ T) := by
  intro ts
  induction ts with
  | nil => intro seen info _ _; simp [outdated]
  | cons t ts ih =>
    intro seen info hok hord
    obtain ⟨hok', hans⟩ := hok.call hs t (hord seen t ts rfl)
    have := ih (seen ++ [t]) _ hok' (by simpa using hord)
    rw [outdated]
    simp only [List.append_eq_nil_iff, this, List.forall_mem_cons]
    refine and_congr ?_ Iff.rfl
    rw [← hans, (hok.static t).2.2.1]
    cases h1 : (isTargetUpToDate w t info).2 <;> cases h2 : (mk t).hasCmds <;> simp

/-- **C41**, whole makefile: jom looks at targets (any number of times, dependents always first, no file changes
meanwhile).  No commands have to be run exactly if for every target with commands its file exists, no dependent is
missing, and no file behind a dependent is newer (dependents that are targets without file and commands stand for
the files behind their own dependents). -/
theorem C41_nothing_to_do {w : World} {mk : Nat → Decl} (hs : Sane w mk) (calls : List Nat)
    (hord : DependentsFirst w mk calls) :
    outdated w calls (freshInfo mk) = [] ↔ ∀ t ∈ calls, (mk t).hasCmds = true →
      ∃ T, w.fi (mk t).name = some T ∧
        ∀ d ∈ (mk t).deps, ¬ Missing w mk d ∧ ∀ s, Behind w mk d s → s ≤ T :=
  outdated_iff hs calls [] _
    ⟨fun _ => ⟨rfl, rfl, rfl, rfl⟩, fun _ _ => ⟨rfl, rfl⟩, fun _ h => (by cases h)⟩ (by simpa using hord)

/-- `all: prog`, `prog: a.obj`, `a.obj: a.c`; `all` is a target without file and commands. -/
def exMk : Nat → Decl
  | 0 => { name := c!"all", deps := [c!"prog"], hasCmds := false }
  | 1 => { name := c!"prog", deps := [c!"a.obj"], hasCmds := true }
  | _ => { name := c!"a.obj", deps := [c!"a.c"], hasCmds := true }

def exMkWorld (c : Nat) : World :=
  { fi := fun n => if n = c!"prog" then some 4 else if n = c!"a.obj" then some 3 else if n = c!"a.c" then some c else none
    lookup := fun n => if n = c!"all" then some 0 else if n = c!"prog" then some 1 else if n = c!"a.obj" then some 2 else none
    now := 10 }

/-- The hypotheses of `C41_nothing_to_do` hold for this makefile (with repeated calls); with an old `a.c` nothing has
to be done, with a new one `a.obj` has to be rebuilt. -/
example : Sane (exMkWorld 2) exMk ∧ DependentsFirst (exMkWorld 2) exMk [2, 1, 1, 0] ∧
    outdated (exMkWorld 2) [2, 1, 1, 0] (freshInfo exMk) = [] ∧
    outdated (exMkWorld 5) [2, 1, 1, 0] (freshInfo exMk) = [2] := by
  refine ⟨⟨?_, ?_⟩, ?_, by decide +kernel, by decide +kernel⟩
  · intro d k h
    simp only [exMkWorld] at h
    split at h
    · next hd => cases h; subst hd; rfl
    · split at h
      · next hd => cases h; subst hd; rfl
      · split at h
        · next hd => cases h; subst hd; rfl
        · cases h
  · intro d s h
    simp only [exMkWorld] at h ⊢
    split at h
    · cases h; omega
    · split at h
      · cases h; omega
      · split at h
        · cases h; omega
        · cases h
  · intro pre t post h d hd k hk
    have hk' : (if d = c!"all" then some 0 else if d = c!"prog" then some 1 else if d = c!"a.obj" then some 2 else none)
        = some k := hk
    rcases pre with _ | ⟨a, _ | ⟨b, _ | ⟨c, _ | ⟨e, pre⟩⟩⟩⟩ <;> simp only [List.nil_append, List.cons_append,
      List.cons.injEq, List.nil_eq, reduceCtorEq, List.append_eq_nil_iff, and_false] at h
    · obtain ⟨rfl, _⟩ := h
      simp only [exMk, List.mem_singleton] at hd; subst hd; simp at hk'
    · obtain ⟨rfl, rfl, _⟩ := h
      simp only [exMk, List.mem_singleton] at hd; subst hd
      have : k = 2 := by simp at hk'; omega
      subst this; simp
    · obtain ⟨rfl, rfl, rfl, _⟩ := h
      simp only [exMk, List.mem_singleton] at hd; subst hd
      have : k = 2 := by simp at hk'; omega
      subst this; simp
    · obtain ⟨rfl, rfl, rfl, rfl, _⟩ := h
      simp only [exMk, List.mem_singleton] at hd; subst hd
      have : k = 1 := by simp at hk'; omega
      subst this; simp

end Jom.Props
