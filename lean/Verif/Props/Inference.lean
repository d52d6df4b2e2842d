import Verif.Spec.Inference
import Verif.Proofs.PathLemmas
import Verif.Props.Scheduler
import Mathlib.Tactic.ByContra

/-! Properties C27 (choice of the inference rule), C28 and C54 (batch mode). -/

namespace Jom.Props
open Jom.Inference Jom.Spec

/-! ### Suffix list -/

private theorem suffixIndex_spec (ext : Str) : ∀ (ss : List Str) (k : Nat),
    (∀ i, suffixIndex ext ss k = some i ↔ ∃ j, i = k + j ∧ FirstIn ss ext j) := by
  intro ss
  induction ss with
  | nil =>
    intro k i
    simp [suffixIndex, FirstIn]
  | cons s ss ih =>
    intro k i
    rw [suffixIndex]
    by_cases h : toLower ext = toLower s
    · simp only [h, BEq.rfl, if_true, Option.some.injEq]
      constructor
      · rintro rfl
        exact ⟨0, by omega, ⟨⟨s, rfl, h.symm⟩, by omega⟩⟩
      · rintro ⟨j, rfl, hj⟩
        cases j with
        | zero => rfl
        | succ j => exact absurd h.symm (hj.2 0 s (by omega) rfl)
    · simp only [beq_iff_eq, h, if_false]
      rw [ih]
      constructor
      · rintro ⟨j, rfl, hj⟩
        refine ⟨j + 1, by omega, ⟨by simpa using hj.1, ?_⟩⟩
        intro m t hm ht
        cases m with
        | zero => simp at ht; subst ht; exact fun hh => h hh.symm
        | succ m => exact hj.2 m t (by omega) (by simpa using ht)
      · rintro ⟨j, rfl, hj⟩
        cases j with
        | zero =>
          obtain ⟨t, ht, he⟩ := hj.1
          simp at ht; subst ht
          exact absurd he.symm h
        | succ j =>
          refine ⟨j, by omega, ⟨by simpa using hj.1, ?_⟩⟩
          intro m t hm ht
          exact hj.2 (m + 1) t (by omega) (by simpa using ht)

private theorem suffixIndex_iff (ext : Str) (ss : List Str) (i : Nat) :
    suffixIndex ext ss 0 = some i ↔ FirstIn ss ext i := by
  rw [suffixIndex_spec]
  constructor
  · rintro ⟨j, rfl, h⟩; simpa using h
  · intro h; exact ⟨i, by omega, h⟩

/-! ### Does a rule apply? -/

private theorem removeSep_snoc (d : Str) (c : Char) (hc : isSep c = true) : removeDirSeparatorAtEnd (d ++ [c]) = d := by
  unfold removeDirSeparatorAtEnd
  simp only [List.getLast?_append, List.getLast?_singleton, Option.some_or]
  have : (c == '/' || c == '\\') = true := hc
  simp [this]

private theorem targetDir_iff {pre file : Str} (hp : DirPrefix pre) (hf : ∀ c ∈ file, isSep c = false) (dir : Str) :
    targetDir (pre ++ file) = dir ↔ InDir pre dir := by
  unfold targetDir
  rw [fileName_eq hp hf]
  have : (pre ++ file).take ((pre ++ file).length - file.length) = pre := by simp
  simp only [this]
  rcases hp with rfl | ⟨d, c, rfl, hc⟩
  · have : removeDirSeparatorAtEnd [] = [] := rfl
    simp only [this, List.isEmpty_nil, if_true]
    constructor
    · rintro rfl; exact .here
    · intro h
      generalize hx : ([] : Str) = x at h
      cases h with
      | here => rfl
      | root c => cases hx
      | dir d c => simp at hx
  · rw [removeSep_snoc d c hc]
    by_cases hd : d = []
    · subst hd
      simp only [List.isEmpty_nil, if_true, List.nil_append]
      constructor
      · rintro rfl; exact .root c hc
      · intro h
        generalize hx : [c] = x at h
        cases h with
        | here => cases hx
        | root c => rfl
        | dir d' c' h1 h2 =>
          have := congrArg List.length hx
          simp at this
          exact absurd this h2
    · have : d.isEmpty = false := by simpa using hd
      simp only [this, Bool.false_eq_true, if_false]
      constructor
      · rintro rfl; exact .dir d c hc hd
      · intro h
        generalize hx : d ++ [c] = x at h
        cases h with
        | here => simp at hx
        | root c' =>
          have := congrArg List.length hx
          simp at this
          exact absurd this hd
        | dir d' c' h1 h2 => exact (List.append_inj' hx rfl).1

private theorem inDir_prefix {pre dir : Str} (h : InDir pre dir) : DirPrefix pre := by
  cases h with
  | here => exact .inl rfl
  | root c hc => exact .inr ⟨[], c, rfl, hc⟩
  | dir d c hc => exact .inr ⟨_, c, rfl, hc⟩

/-- The tests of `findRules` and `filterRules` together. -/
private def Passes (there : Str → Bool) (path : Str) (r : Rule) : Prop :=
  endsWithCI path r.toExt = true ∧ targetDir path = r.toPath ∧ there (testedDependent path r) = true

private theorem passes_iff (there : Str → Bool) (path : Str) (r : Rule) (hext : ∀ c ∈ r.toExt, isSep c = false) :
    Passes there path r ↔ Applies there path r := by
  constructor
  · rintro ⟨h1, h2, h3⟩
    obtain ⟨pre, file, rfl, hp, hf⟩ := path_split path
    have hdir := (targetDir_iff hp hf r.toPath).1 h2
    -- the extension lies in the file name
    unfold endsWithCI endsWith at h1
    rw [List.isSuffixOf_iff_suffix] at h1
    obtain ⟨u, hu⟩ := h1
    have hlen : r.toExt.length ≤ file.length := by
      by_contra hlt
      have hlt : file.length < r.toExt.length := by omega
      rcases hp with rfl | ⟨d, c, rfl, hc⟩
      · have := congrArg List.length hu
        simp [toLower] at this
        omega
      · -- the separator would be a character of the extension
        rw [toLower_append, toLower_append] at hu
        have hk : (toLower r.toExt)[r.toExt.length - (file.length + 1)]? = some (toLowerC c) := by
          have h4 : (toLower d ++ toLower [c] ++ toLower file)[d.length]? = some (toLowerC c) := by
            simp [toLower]
          rw [← hu] at h4
          have hl := congrArg List.length hu
          simp [toLower] at hl
          rw [List.getElem?_append_right (by omega)] at h4
          rw [← h4]
          congr 1
          omega
        simp only [toLower, List.getElem?_map, Option.map_eq_some_iff] at hk
        obtain ⟨e, he, hec⟩ := hk
        have h5 := hext e (List.mem_of_getElem? he)
        rw [← isSep_toLowerC, hec, isSep_toLowerC, hc] at h5
        cases h5
    refine ⟨pre, file.take (file.length - r.toExt.length), file.drop (file.length - r.toExt.length), by simp,
      by simpa using hf, hdir, ?_, ?_⟩
    · rw [toLower_append] at hu
      have hsplit : toLower file = toLower (file.take (file.length - r.toExt.length)) ++
          toLower (file.drop (file.length - r.toExt.length)) := by
        rw [← toLower_append, List.take_append_drop]
      rw [hsplit, ← List.append_assoc] at hu
      have hl : (toLower r.toExt).length = (toLower (file.drop (file.length - r.toExt.length))).length := by
        simp [toLower]; omega
      exact (List.append_inj' hu hl).2.symm
    · unfold testedDependent at h3
      rw [fileName_eq hp hf] at h3
      exact h3
  · rintro ⟨pre, base, ext, rfl, hf, hdir, he, hth⟩
    have hp := inDir_prefix hdir
    have hlen : ext.length = r.toExt.length := by
      have := congrArg List.length he; simpa [toLower] using this
    refine ⟨?_, (targetDir_iff hp hf r.toPath).2 hdir, ?_⟩
    · unfold endsWithCI endsWith
      rw [List.isSuffixOf_iff_suffix, toLower_append, toLower_append, he]
      exact ⟨toLower pre ++ toLower base, by simp⟩
    · unfold testedDependent
      rw [fileName_eq hp hf]
      have : (base ++ ext).take ((base ++ ext).length - r.toExt.length) = base := by
        rw [← hlen]; simp
      simp only [this]
      exact hth

/-! ### The last element of a stably sorted list -/

private def NA (a b : Rule) : Prop := notAfter a b = true

private instance : DecidableRel NA := fun a b => inferInstanceAs (Decidable (notAfter a b = true))

private instance : IsTrans Rule NA := ⟨by
  intro a b c h1 h2
  simp only [NA, notAfter, decide_eq_true_eq] at *; omega⟩

private instance : Std.Total NA := ⟨by
  intro a b
  simp only [NA, notAfter, decide_eq_true_eq]; omega⟩

private theorem sorted_last {l : List Rule} {x : Rule} (h : (l.insertionSort NA).getLast? = some x) :
    x ∈ l ∧ (∀ y ∈ l, x.priority.getD 0 ≤ y.priority.getD 0) ∧
    (l.filter fun y => y.priority.getD 0 = x.priority.getD 0).getLast? = some x := by
  have hperm := List.perm_insertionSort NA l
  have hpw := List.pairwise_insertionSort NA l
  obtain ⟨ini, hini⟩ := List.getLast?_eq_some_iff.1 h
  have hx : x ∈ l := hperm.mem_iff.1 (by rw [hini]; simp)
  have hmin : ∀ y ∈ l, x.priority.getD 0 ≤ y.priority.getD 0 := by
    intro y hy
    have : y ∈ l.insertionSort NA := hperm.mem_iff.2 hy
    rw [hini] at this
    rcases List.mem_append.1 this with h1 | h1
    · rw [hini, List.pairwise_append] at hpw
      have := hpw.2.2 y h1 x (by simp)
      simpa [NA, notAfter] using this
    · simp at h1; subst h1; exact Nat.le_refl _
  refine ⟨hx, hmin, ?_⟩
  generalize hq : (fun y : Rule => decide (y.priority.getD 0 = x.priority.getD 0)) = q
  have hc1 : (l.filter q).Pairwise NA := by
    rw [List.pairwise_iff_forall_sublist]
    intro a b hab
    have ha : a ∈ l.filter q := hab.subset (by simp)
    have hb : b ∈ l.filter q := hab.subset (by simp)
    rw [List.mem_filter, ← hq] at ha hb
    simp only [decide_eq_true_eq] at ha hb
    simp [NA, notAfter, ha.2, hb.2]
  have hsub := List.sublist_insertionSort (r := NA) hc1 List.filter_sublist
  have hsub2 : (l.filter q).Sublist ((l.insertionSort NA).filter q) := by
    have := hsub.filter q
    rwa [List.filter_filter, show (fun a => q a && q a) = q by funext a; simp] at this
  have hlen : (l.filter q).length = ((l.insertionSort NA).filter q).length :=
    ((hperm.filter q).length_eq).symm
  have heq := hsub2.eq_of_length hlen
  rw [heq, hini, List.filter_append]
  have : q x = true := by rw [← hq]; simp
  simp [this]

private theorem sorted_none {l : List Rule} (h : (l.insertionSort NA).getLast? = none) : l = [] := by
  rw [List.getLast?_eq_none_iff] at h
  have := (List.perm_insertionSort NA l).length_eq
  rw [h] at this
  exact List.length_eq_zero_iff.1 this.symm

/-! ### C27 -/

/-- The rules as defined in the makefile: no priority yet, the target extension is a `.` and word characters (regular
expression parser.cpp 44), so it has no separator. -/
structure Defined (rules : List Rule) : Prop where
  noPriority : ∀ r ∈ rules, r.priority = none
  noSep : ∀ r ∈ rules, ∀ c ∈ r.toExt, isSep c = false

/-- `keys` are the keys of the hash of target extensions in some order. -/
def HashOrder (rules : List Rule) (keys : List Str) : Prop := keys.Nodup ∧ ∀ k, k ∈ keys ↔ ∃ r ∈ rules, r.toExt = k

/-- The rule as it is after its priority was set. -/
def withPriority (suffixes : List Str) (r : Rule) : Rule :=
  match suffixIndex r.fromExt suffixes 0 with
  | some i => { r with priority := some i }
  | none => r

/-- The rule jom applies to a target `path` without commands: `calculateInferenceRulePriorities`,
`findRulesByTargetName`, `applyInferenceRules` in this order. -/
def appliedRule (suffixes : List Str) (there : Str → Bool) (rules : List Rule) (keys : List Str) (path : Str) :
    Option Rule :=
  chooseRule there path (findRules (calculatePriorities suffixes rules) keys path)

theorem withPriority_fields (suffixes : List Str) (r : Rule) :
    (withPriority suffixes r).toExt = r.toExt ∧ (withPriority suffixes r).toPath = r.toPath ∧
    (withPriority suffixes r).fromExt = r.fromExt ∧ (withPriority suffixes r).fromPath = r.fromPath := by
  unfold withPriority
  cases suffixIndex r.fromExt suffixes 0 <;> simp

private theorem withPriority_applies (suffixes : List Str) (there : Str → Bool) (path : Str) (r : Rule) :
    Applies there path (withPriority suffixes r) ↔ Applies there path r := by
  obtain ⟨h1, h2, h3, h4⟩ := withPriority_fields suffixes r
  unfold Applies
  rw [h1, h2, h3, h4]

private theorem calc_eq (suffixes : List Str) (rules : List Rule) :
    calculatePriorities suffixes rules = rules.map (withPriority suffixes) := rfl

private theorem priority_iff {suffixes : List Str} {r : Rule} (h : r.priority = none) (i : Nat) :
    (withPriority suffixes r).priority = some i ↔ FirstIn suffixes r.fromExt i := by
  rw [← suffixIndex_iff]
  unfold withPriority
  cases suffixIndex r.fromExt suffixes 0 with
  | none => simp [h]
  | some j => simp

private theorem cand_eq (suffixes : List Str) (there : Str → Bool) (rules : List Rule) (keys : List Str) (path : Str) :
    filterRules there path (findRules (calculatePriorities suffixes rules) keys path) =
      keys.flatMap fun k => ((rules.map (withPriority suffixes)).filter fun r =>
        decide (r.toExt = k) && (endsWithCI path k && (r.priority.isSome && decide (targetDir path = r.toPath) &&
          there (testedDependent path r)))) := by
  unfold filterRules findRules
  rw [List.filter_flatMap, calc_eq]
  congr 1
  funext k
  unfold bucket
  by_cases h : endsWithCI path k = true
  · simp only [h, if_true, List.filter_filter, Bool.true_and]
    congr 1
    funext r
    rw [Bool.and_comm, Bool.and_assoc, Bool.and_comm, Bool.and_assoc]
    congr 1
    rw [Bool.and_comm]
  · simp [h]

private theorem mem_cand {suffixes : List Str} {there : Str → Bool} {rules : List Rule} {keys : List Str} {path : Str}
    (hd : Defined rules) (hk : HashOrder rules keys) (x : Rule) :
    x ∈ filterRules there path (findRules (calculatePriorities suffixes rules) keys path) ↔
      ∃ r ∈ rules, x = withPriority suffixes r ∧ Applies there path r ∧ ∃ i, FirstIn suffixes r.fromExt i := by
  rw [cand_eq, List.mem_flatMap]
  constructor
  · rintro ⟨k, _, hx⟩
    rw [List.mem_filter, List.mem_map] at hx
    obtain ⟨⟨r, hr, rfl⟩, hx⟩ := hx
    simp only [Bool.and_eq_true, decide_eq_true_eq] at hx
    obtain ⟨h1, h2, ⟨h3, h4⟩, h5⟩ := hx
    refine ⟨r, hr, rfl, ?_, ?_⟩
    · rw [← withPriority_applies suffixes, ← passes_iff]
      · exact ⟨by rw [h1]; exact h2, h4, h5⟩
      · rw [(withPriority_fields suffixes r).1]; exact hd.noSep r hr
    · obtain ⟨i, hi⟩ := Option.isSome_iff_exists.1 h3
      exact ⟨i, (priority_iff (hd.noPriority r hr) i).1 hi⟩
  · rintro ⟨r, hr, rfl, ha, i, hi⟩
    refine ⟨r.toExt, (hk.2 _).2 ⟨r, hr, rfl⟩, ?_⟩
    rw [List.mem_filter]
    refine ⟨List.mem_map_of_mem hr, ?_⟩
    rw [← withPriority_applies suffixes, ← passes_iff] at ha
    · obtain ⟨h1, h2, h3⟩ := ha
      have h4 := (priority_iff (hd.noPriority r hr) i).2 hi
      simp only [Bool.and_eq_true, decide_eq_true_eq]
      refine ⟨(withPriority_fields suffixes r).1, ?_, ⟨by rw [h4]; rfl, h2⟩, h3⟩
      rw [(withPriority_fields suffixes r).1] at h1; exact h1
    · rw [(withPriority_fields suffixes r).1]; exact hd.noSep r hr

/-- The candidates for a target: the rules that apply if nothing is asked about source files. -/
theorem findRules_iff {suffixes : List Str} {rules : List Rule} {keys : List Str} {path : Str} (hd : Defined rules)
    (hk : HashOrder rules keys) (x : Rule) : x ∈ findRules (calculatePriorities suffixes rules) keys path ↔
      ∃ r, (r ∈ rules ∧ Applies (fun _ => true) path r ∧ ∃ i, FirstIn suffixes r.fromExt i) ∧ x = withPriority suffixes r := by
  have := mem_cand (suffixes := suffixes) (there := fun _ => true) (path := path) hd hk x
  simp only [filterRules, List.filter_true] at this
  rw [this]
  grind

/-- **C27**: for all rules, suffix lists, targets and hash orders: the applied rule applies to the target, its source
suffix is in `.SUFFIXES`, and no other rule that applies has a source suffix that comes earlier there. -/
theorem C27_first_suffix {suffixes : List Str} {there : Str → Bool} {rules : List Rule} {keys : List Str} {path : Str}
    (hd : Defined rules) (hk : HashOrder rules keys) {x : Rule}
    (h : appliedRule suffixes there rules keys path = some x) :
    ∃ r ∈ rules, x = withPriority suffixes r ∧ Applies there path r ∧
      ∃ i, FirstIn suffixes r.fromExt i ∧
        ∀ r' ∈ rules, Applies there path r' → ∀ j, FirstIn suffixes r'.fromExt j → i ≤ j := by
  obtain ⟨h1, h2, _⟩ := sorted_last h
  obtain ⟨r, hr, rfl, ha, i, hi⟩ := (mem_cand hd hk x).1 h1
  refine ⟨r, hr, rfl, ha, i, hi, fun r' hr' ha' j hj => ?_⟩
  have := h2 _ ((mem_cand hd hk _).2 ⟨r', hr', rfl, ha', j, hj⟩)
  rw [(priority_iff (hd.noPriority r hr) i).2 hi, (priority_iff (hd.noPriority r' hr') j).2 hj] at this
  simpa using this

/-- **C27**: no rule is applied exactly if no rule with a source suffix in `.SUFFIXES` applies. -/
theorem C27_none {suffixes : List Str} {there : Str → Bool} {rules : List Rule} {keys : List Str} {path : Str}
    (hd : Defined rules) (hk : HashOrder rules keys) :
    appliedRule suffixes there rules keys path = none ↔
      ∀ r ∈ rules, Applies there path r → ∀ i, ¬ FirstIn suffixes r.fromExt i := by
  constructor
  · intro h r hr ha i hi
    have := sorted_none h
    have hm := (mem_cand (suffixes := suffixes) hd hk _).2 ⟨r, hr, rfl, ha, i, hi⟩
    rw [this] at hm
    cases hm
  · intro h
    unfold appliedRule chooseRule
    have : filterRules there path (findRules (calculatePriorities suffixes rules) keys path) = [] := by
      rw [List.eq_nil_iff_forall_not_mem]
      intro x hx
      obtain ⟨r, hr, _, ha, i, hi⟩ := (mem_cand hd hk x).1 hx
      exact h r hr ha i hi
    rw [this]; simp

private theorem flatMap_single {α β : Type} (f : α → List β) (k : α) : ∀ (l : List α), l.Nodup → k ∈ l →
    (∀ k' ∈ l, k' ≠ k → f k' = []) → l.flatMap f = f k := by
  intro l
  induction l with
  | nil => intro _ h; cases h
  | cons a l ih =>
    intro hn hk h
    rw [List.nodup_cons] at hn
    rw [List.flatMap_cons]
    by_cases ha : a = k
    · subst ha
      have : l.flatMap f = [] := by
        rw [List.flatMap_eq_nil_iff]
        intro b hb
        exact h b (by simp [hb]) (fun hh => hn.1 (hh ▸ hb))
      simp [this]
    · rw [h a (by simp) ha, List.nil_append]
      exact ih hn.2 (by simpa [Ne.symm ha] using hk) (fun b hb => h b (by simp [hb]))

/-- **C27**, the latest definition: if all rules that apply spell the target extension in the same way, the applied
rule is the last one defined among those with its source suffix.  What is missing: with different spellings (`.obj`
and `.OBJ`) the order depends on the hash, see `C27_latest_refuted`. -/
theorem C27_latest_partial {suffixes : List Str} {there : Str → Bool} {rules : List Rule} {keys : List Str} {path : Str}
    (hd : Defined rules) (hk : HashOrder rules keys) {x : Rule}
    (hsame : ∀ r ∈ rules, ∀ r' ∈ rules, Applies there path r → Applies there path r' → r.toExt = r'.toExt)
    (h : appliedRule suffixes there rules keys path = some x) :
    ∃ before r after, rules = before ++ r :: after ∧ x = withPriority suffixes r ∧ Applies there path r ∧
      ∃ i, FirstIn suffixes r.fromExt i ∧
        ∀ r' ∈ after, Applies there path r' → ¬ FirstIn suffixes r'.fromExt i := by
  obtain ⟨h1, _, h3⟩ := sorted_last h
  obtain ⟨r0, hr0, hx0, ha0, i, hi⟩ := (mem_cand hd hk x).1 h1
  have hpx : x.priority = some i := by rw [hx0]; exact (priority_iff (hd.noPriority r0 hr0) i).2 hi
  rw [cand_eq] at h3
  rw [flatMap_single _ r0.toExt keys hk.1 ((hk.2 _).2 ⟨r0, hr0, rfl⟩)] at h3
  · rw [List.filter_filter, List.filter_map] at h3
    rw [List.getLast?_map, Option.map_eq_some_iff] at h3
    obtain ⟨r, hr, hxr⟩ := h3
    obtain ⟨ini, hini⟩ := List.getLast?_eq_some_iff.1 hr
    -- split the rule list at the last element that passes the filter
    have hsplit : ∀ (q : Rule → Bool) (l : List Rule) (ini : List Rule), l.filter q = ini ++ [r] →
        ∃ a b, l = a ++ r :: b ∧ ∀ y ∈ b, q y = false := by
      intro q l
      induction l with
      | nil => intro ini h; simp at h
      | cons a l ih =>
        intro ini h
        rw [List.filter_cons] at h
        by_cases hqa : q a = true
        · rw [if_pos hqa] at h
          cases ini with
          | nil =>
            simp only [List.nil_append, List.cons.injEq] at h
            refine ⟨[], l, by simp [h.1], fun y hy => ?_⟩
            cases hqy : q y with
            | false => rfl
            | true =>
              have : y ∈ l.filter q := by simp [hy, hqy]
              rw [h.2] at this; cases this
          | cons b ini =>
            simp only [List.cons_append, List.cons.injEq] at h
            obtain ⟨a', b', rfl, hb⟩ := ih ini h.2
            exact ⟨a :: a', b', rfl, hb⟩
        · rw [if_neg hqa] at h
          obtain ⟨a', b', rfl, hb⟩ := ih ini h
          exact ⟨a :: a', b', rfl, hb⟩
    obtain ⟨before, after, hrules, hafter⟩ := hsplit _ _ _ hini
    have hrmem : r ∈ rules := by rw [hrules]; simp
    have hx' := (mem_cand (suffixes := suffixes) (there := there) (path := path) hd hk x).1 h1
    have hmem := List.mem_filter.1 (hini ▸ (by simp : r ∈ ini ++ [r]))
    simp only [Function.comp, Bool.and_eq_true, decide_eq_true_eq] at hmem
    obtain ⟨_, hp, hte, hec, ⟨hps, htd⟩, hth⟩ := hmem
    have har : Applies there path r := by
      rw [← withPriority_applies suffixes, ← passes_iff]
      · exact ⟨by rw [hte]; exact hec, htd, hth⟩
      · rw [(withPriority_fields suffixes r).1]; exact hd.noSep r hrmem
    have hpr : (withPriority suffixes r).priority = some i := by rw [hxr]; exact hpx
    refine ⟨before, r, after, hrules, hxr.symm, har, i, (priority_iff (hd.noPriority r hrmem) i).1 hpr, ?_⟩
    intro r' hr' ha' hi'
    have hr'm : r' ∈ rules := by rw [hrules]; simp [hr']
    have hq := hafter r' hr'
    have hp' := (priority_iff (hd.noPriority r' hr'm) i).2 hi'
    have hte' : r'.toExt = r0.toExt := hsame r' hr'm r0 hr0 ha' ha0
    rw [← withPriority_applies suffixes, ← passes_iff] at ha'
    · obtain ⟨g1, g2, g3⟩ := ha'
      rw [(withPriority_fields suffixes r').1, hte'] at g1
      have : (decide ((withPriority suffixes r').priority.getD 0 = x.priority.getD 0) &&
          (decide ((withPriority suffixes r').toExt = r0.toExt) && (endsWithCI path r0.toExt &&
          ((withPriority suffixes r').priority.isSome && decide (targetDir path = (withPriority suffixes r').toPath) &&
          there (testedDependent path (withPriority suffixes r')))))) = true := by
        rw [hp', hpx, (withPriority_fields suffixes r').1, hte', g1, g3]
        simp [g2]
      simp only [Function.comp] at hq
      rw [this] at hq
      cases hq
    · rw [(withPriority_fields suffixes r').1]; exact hd.noSep r' hr'm
  · intro k' _ hne
    rw [List.filter_eq_nil_iff]
    intro y hy
    rw [List.mem_map] at hy
    obtain ⟨r', hr', rfl⟩ := hy
    simp only [Bool.and_eq_true, decide_eq_true_eq]
    rintro ⟨g1, g2, ⟨g3, g4⟩, g5⟩
    have : Applies there path r' := by
      rw [← withPriority_applies suffixes, ← passes_iff]
      · exact ⟨by rw [g1]; exact g2, g4, g5⟩
      · rw [(withPriority_fields suffixes r').1]; exact hd.noSep r' hr'
    apply hne
    rw [← g1, (withPriority_fields suffixes r').1]
    exact hsame r' hr' r0 hr0 this ha0

/-- A rule `.c.obj` with a marker in its command. -/
def exRule (toExt : Str) (line : Str) : Rule :=
  { fromPath := c!".", fromExt := c!".c", toPath := c!".", toExt := toExt, commands := [{ cmd := { line := line } }] }

/-- The rules of the examples: first `.c.obj`, then `.cpp.obj`, then `.c.obj` again. -/
def exRules : List Rule :=
  [exRule c!".obj" c!"one", { exRule c!".obj" c!"two" with fromExt := c!".cpp" }, exRule c!".obj" c!"three"]

/-- The hypotheses of the C27 theorems hold; the last `.c.obj` rule is applied to `x.obj`, also if `x.cpp` is there. -/
example : HashOrder exRules [c!".obj"] ∧
    (appliedRule [c!".C", c!".cpp"] (fun _ => true) exRules [c!".obj"] c!"x.obj").map (fun r => r.commands.map (·.cmd.line))
      = some [c!"three"] ∧
    (appliedRule [c!".C", c!".cpp"] (fun n => n == c!".\\x.cpp") exRules [c!".obj"] c!"x.obj").map
      (fun r => r.commands.map (·.cmd.line)) = some [c!"two"] := by
  refine ⟨⟨by decide +kernel, ?_⟩, by decide +kernel, by decide +kernel⟩
  intro k
  simp [exRules, exRule, eq_comm]

example : Defined exRules := by
  constructor <;> decide +kernel

/-- **C27**, "the latest definition", is false for different spellings of the target extension: `.c.obj` is defined
before `.c.OBJ`; both orders of the hash are possible, and with one of them the earlier rule is applied. -/
theorem C27_latest_refuted : ∃ (suffixes : List Str) (there : Str → Bool) (r1 r2 : Rule) (keys : List Str) (path : Str),
    Defined [r1, r2] ∧ HashOrder [r1, r2] keys ∧ Applies there path r2 ∧ r1.fromExt = r2.fromExt ∧ r1 ≠ r2 ∧
    appliedRule suffixes there [r1, r2] keys path = some (withPriority suffixes r1) := by
  refine ⟨[c!".c"], fun _ => true, exRule c!".obj" c!"one", exRule c!".OBJ" c!"two", [c!".OBJ", c!".obj"], c!"x.obj",
    ⟨by decide +kernel, by decide +kernel⟩, ⟨by decide +kernel, ?_⟩,
    ⟨[], c!"x", c!".obj", by decide +kernel, by decide +kernel, .here, by decide +kernel, rfl⟩, rfl, by decide +kernel,
    by decide +kernel⟩
  intro k
  simp only [List.mem_cons, List.not_mem_nil, or_false]
  constructor
  · rintro (rfl | rfl)
    · exact ⟨_, .inr rfl, rfl⟩
    · exact ⟨_, .inl rfl, rfl⟩
  · rintro ⟨r, rfl | rfl, rfl⟩
    · exact .inr rfl
    · exact .inl rfl

/-! ### C28 -/

theorem batches_flatten {α : Type} (per : Nat) (hp : 0 < per) : ∀ (fuel : Nat) (ts : List α), ts.length < fuel →
    (batches per fuel ts).flatten = ts ∧ (ts ≠ [] → ∀ g ∈ batches per fuel ts, g ≠ []) ∧
    (∀ g ∈ batches per fuel ts, g.length ≤ per) ∧ (∀ g ∈ (batches per fuel ts).dropLast, g.length = per) := by
  intro fuel
  induction fuel with
  | zero => intro ts h; omega
  | succ fuel ih =>
    intro ts h
    rw [batches]
    by_cases he : ts.drop per = []
    · have hl : ts.length ≤ per := by simpa using he
      have ht : ts.take per = ts := List.take_of_length_le hl
      simp only [he, List.isEmpty_nil, if_true, ht]
      simp [hl]
    · have hl : per < ts.length := by simpa using he
      have hne : (ts.drop per).isEmpty = false := by simpa using he
      simp only [hne, Bool.false_eq_true, if_false]
      obtain ⟨h1, h2, h3, h4⟩ := ih (ts.drop per) (by rw [List.length_drop]; omega)
      have hlen : (ts.take per).length = per := by rw [List.length_take]; omega
      have hb : batches per fuel (ts.drop per) ≠ [] := by
        intro hh; rw [hh] at h1; exact he h1.symm
      refine ⟨by rw [List.flatten_cons, h1, List.take_append_drop], ?_, ?_, ?_⟩
      · intro _ g hg
        rcases List.mem_cons.1 hg with rfl | hg
        · intro hh; rw [hh] at hlen; simp at hlen; omega
        · exact h2 he g hg
      · intro g hg
        rcases List.mem_cons.1 hg with rfl | hg
        · omega
        · exact h3 g hg
      · intro g hg
        rw [List.dropLast_cons_of_ne_nil hb] at hg
        rcases List.mem_cons.1 hg with rfl | hg
        · exact hlen
        · exact h4 g hg

private theorem mem_addDeps (src : List Str) : ∀ (deps : List Str) (d : Str),
    d ∈ src.foldl addDep deps ↔ d ∈ deps ∨ d ∈ src := by
  induction src with
  | nil => intro deps d; simp
  | cons a src ih =>
    intro deps d
    rw [List.foldl_cons, ih]
    unfold addDep
    by_cases h : a ∈ deps
    · rw [if_pos h]
      constructor
      · rintro (h1 | h1)
        · exact .inl h1
        · exact .inr (by simp [h1])
      · rintro (h1 | h1)
        · exact .inl h1
        · rcases List.mem_cons.1 h1 with rfl | h1
          · exact .inl h
          · exact .inr h1
    · rw [if_neg h]
      simp [or_assoc]

private theorem nodup_addDeps (src : List Str) : ∀ (deps : List Str), deps.Nodup → (src.foldl addDep deps).Nodup := by
  induction src with
  | nil => intro deps h; exact h
  | cons a src ih =>
    intro deps h
    rw [List.foldl_cons]
    apply ih
    unfold addDep
    by_cases ha : a ∈ deps
    · rw [if_pos ha]; exact h
    · rw [if_neg ha, List.nodup_append]
      refine ⟨h, by simp, ?_⟩
      intro x hx y hy
      simp at hy; subst hy
      exact fun hh => ha (hh ▸ hx)

/-- The target has at least the extension of the rule (true for the rules `findRules` returns). -/
theorem inferredDependent_source (r : Rule) (path : Str) (h : r.toExt.length ≤ (fileNameFromFilePath path).length) :
    Source r path (inferredDependent r path) := by
  obtain ⟨pre, file, rfl, hp, hf⟩ := path_split path
  rw [fileName_eq hp hf] at h
  refine ⟨pre, file.take (file.length - r.toExt.length), file.drop (file.length - r.toExt.length), by simp, by simpa using hf,
    hp, by simp; omega, ?_⟩
  unfold inferredDependent
  rw [fileName_eq hp hf]
  by_cases hd : r.fromPath = ['.']
  · exact .inl ⟨hd, by simp [hd]⟩
  · exact .inr ⟨hd, by simp [hd]⟩

private theorem applyBatch_spec {m : Macros} {r : Rule} {g : List Nat} {db db' : Nat → DB} (hn : g.Nodup) (hg : g ≠ [])
    (hext : ∀ t ∈ g, r.toExt.length ≤ (fileNameFromFilePath (db t).name).length)
    (h : applyBatch m r g db = .ok db') : GroupDone m r db db' g ∧ ∀ t, t ∉ g → db' t = db t := by
  cases g with
  | nil => exact absurd rfl hg
  | cons first others =>
    unfold applyBatch at h
    simp only at h
    cases hc : r.commands.mapM (instantiate m (joinedNames r ((first :: others).map fun t => (db t).name))) with
    | error e => rw [hc] at h; cases h
    | ok commands =>
      rw [hc] at h
      have h : (fun t => if t ∈ first :: others then
          (if t = first then
            { ({ db t with rules := [] } : DB) with
              deps := ((((first :: others).map fun t => (db t).name)).map (inferredDependent r)).foldl addDep (db t).deps,
              commands := commands }
          else { db t with rules := [] })
        else db t) = db' := by injection h
      have hf : db' first = { db first with
          rules := []
          deps := ((((first :: others).map fun t => (db t).name)).map (inferredDependent r)).foldl addDep (db first).deps
          commands := commands } := by rw [← h]; simp
      refine ⟨⟨first, others, (first :: others).map fun t => inferredDependent r (db t).name, commands, rfl, by simp, ?_, ?_,
        by rw [hf], by rw [hf], by rw [hf], ?_, ?_, ?_⟩, ?_⟩
      · intro i t ht
        refine ⟨inferredDependent r (db t).name, by rw [List.getElem?_map, ht]; rfl, ?_⟩
        exact inferredDependent_source r _ (hext t (List.mem_of_getElem? ht))
      · rw [← hc]
        unfold joinedNames
        rw [List.flatMap_map, List.flatMap_map]
      · intro d
        rw [hf]
        simp only
        rw [mem_addDeps, List.map_map]
        rfl
      · intro hnd
        rw [hf]
        exact nodup_addDeps _ _ hnd
      · intro t ht
        rw [← h]
        have : t ≠ first := fun hh => (List.nodup_cons.1 hn).1 (hh ▸ ht)
        simp [ht, this]
      · intro t ht
        rw [← h]
        simp only [ht, if_false]

private theorem applyBatches_spec {m : Macros} {r : Rule} : ∀ (bs : List (List Nat)) (db db' : Nat → DB),
    bs.flatten.Nodup → (∀ g ∈ bs, g ≠ []) →
    (∀ t ∈ bs.flatten, r.toExt.length ≤ (fileNameFromFilePath (db t).name).length) →
    applyBatches m r bs db = .ok db' →
    (∀ g ∈ bs, GroupDone m r db db' g) ∧ ∀ t, t ∉ bs.flatten → db' t = db t := by
  intro bs
  induction bs with
  | nil =>
    intro db db' _ _ _ h
    have : db = db' := by simpa [applyBatches] using h
    subst this
    simp
  | cons b bs ih =>
    intro db db' hn hne hext h
    rw [List.flatten_cons, List.nodup_append] at hn
    obtain ⟨hn1, hn2, hdis⟩ := hn
    rw [applyBatches] at h
    cases hb : applyBatch m r b db with
    | error e => rw [hb] at h; cases h
    | ok db1 =>
      rw [hb] at h
      have h : applyBatches m r bs db1 = .ok db' := h
      obtain ⟨hg, hrest⟩ := applyBatch_spec hn1 (hne b (by simp))
        (fun t ht => hext t (by rw [List.flatten_cons]; simp [ht])) hb
      have hsame : ∀ t ∈ bs.flatten, db1 t = db t := fun t ht => hrest t fun hh => hdis t hh t ht rfl
      obtain ⟨h1, h2⟩ := ih db1 db' hn2 (fun g hg => hne g (by simp [hg]))
        (fun t ht => by rw [hsame t ht]; exact hext t (by rw [List.flatten_cons]; simp [ht])) h
      refine ⟨?_, ?_⟩
      · intro g hgm
        rcases List.mem_cons.1 hgm with rfl | hgm
        · have hsame' : ∀ t ∈ g, db' t = db1 t := fun t ht => h2 t fun hh => hdis t ht t hh rfl
          obtain ⟨f, o, srcs, cs, rfl, h3⟩ := hg
          refine ⟨f, o, srcs, cs, rfl, ?_⟩
          rw [hsame' f (by simp)]
          obtain ⟨a1, a2, a3, a4, a5, a6, a7, a8, a9⟩ := h3
          exact ⟨a1, a2, a3, a4, a5, a6, a7, a8, fun t ht => by rw [hsame' t (by simp [ht])]; exact a9 t ht⟩
        · obtain ⟨f, o, srcs, cs, rfl, a1, a2, a3, a4, a5, a6, a7, a8, a9⟩ := h1 g hgm
          have hm : ∀ t ∈ f :: o, db1 t = db t := fun t ht => hsame t (List.mem_flatten.2 ⟨_, hgm, ht⟩)
          have hf := hm f (by simp)
          rw [hf] at a6 a7 a8
          refine ⟨f, o, srcs, cs, rfl, a1, ?_, a3, a4, a5, a6, a7, a8, ?_⟩
          · intro i t ht
            obtain ⟨s, hs1, hs2⟩ := a2 i t ht
            rw [hm t (List.mem_of_getElem? ht)] at hs2
            exact ⟨s, hs1, hs2⟩
          · intro t ht
            rw [a9 t ht, hm t (by simp [ht])]
      · intro t ht
        rw [List.flatten_cons, List.mem_append] at ht
        rw [h2 t (fun hh => ht (.inr hh)), hrest t (fun hh => ht (.inl hh))]

private theorem filesPerBatch_size (n j : Nat) (hj : 0 < j) : GroupSize n j (filesPerBatch n j) := by
  unfold filesPerBatch GroupSize
  generalize hq : (2 * n + j) / (2 * j) = q
  have h1 : q * (2 * j) ≤ 2 * n + j := hq ▸ Nat.div_mul_le_self _ _
  have h2 : 2 * n + j < (q + 1) * (2 * j) := by
    have := Nat.lt_mul_div_succ (2 * n + j) (show 0 < 2 * j by omega)
    rwa [hq, Nat.mul_comm (2 * j)] at this
  have e1 : q * (2 * j) = 2 * q * j := by rw [← Nat.mul_assoc, Nat.mul_comm q 2]
  have e2 : (q + 1) * (2 * j) = (2 * q + 1) * j + j := by
    rw [Nat.add_mul, e1, Nat.add_mul]; omega
  by_cases h : q = 0
  · subst h
    simp only [Nat.max_zero]
    exact ⟨Nat.le_refl _, by omega, .inl trivial⟩
  · rw [Nat.max_eq_right (by omega)]
    exact ⟨by omega, by omega, .inr (by omega)⟩

/-- **C28**: for all rules, numbers of jobs and lists of different targets whose names end with the rule's extension:
the targets are split into consecutive groups of the computed size (the last one may be smaller), each target is in
exactly one of them, each group gets one set of commands which names the sources of exactly its targets, and no other
target is touched. -/
theorem C28_partition {m : Macros} {r : Rule} {jobs : Nat} {targets : List Nat} {db db' : Nat → DB} (hj : 0 < jobs)
    (hne : targets ≠ []) (hn : targets.Nodup)
    (hext : ∀ t ∈ targets, r.toExt.length ≤ (fileNameFromFilePath (db t).name).length)
    (h : applyBatchRule m r jobs targets db = .ok db') :
    ∃ (per : Nat) (groups : List (List Nat)), GroupSize targets.length jobs per ∧ groups.flatten = targets ∧
      (∀ g ∈ groups, g ≠ [] ∧ g.length ≤ per) ∧ (∀ g ∈ groups.dropLast, g.length = per) ∧
      (∀ t ∈ targets, ∃ g ∈ groups, t ∈ g ∧ ∀ g' ∈ groups, t ∈ g' → g' = g) ∧
      (∀ g ∈ groups, GroupDone m r db db' g) ∧ ∀ t, t ∉ targets → db' t = db t := by
  unfold applyBatchRule at h
  have hs := filesPerBatch_size targets.length jobs hj
  obtain ⟨h1, h2, h3, h4⟩ := batches_flatten _ hs.1 (targets.length + 1) targets (by omega)
  generalize hbs : batches (filesPerBatch targets.length jobs) (targets.length + 1) targets = bs at h h1 h2 h3 h4
  have hn' : bs.flatten.Nodup := h1.symm ▸ hn
  obtain ⟨g1, g2⟩ := applyBatches_spec bs db db' hn' (h2 hne) (by rw [h1]; exact hext) h
  refine ⟨_, bs, hs, h1, fun g hg => ⟨h2 hne g hg, h3 g hg⟩, h4, ?_, g1, by rw [← h1]; exact g2⟩
  intro t ht
  rw [← h1, List.mem_flatten] at ht
  obtain ⟨g, hg, htg⟩ := ht
  refine ⟨g, hg, htg, fun g' hg' htg' => ?_⟩
  rw [List.nodup_flatten] at hn'
  by_contra hne'
  obtain ⟨i, hi, rfl⟩ := List.getElem_of_mem hg
  obtain ⟨k, hk, rfl⟩ := List.getElem_of_mem hg'
  have hp := List.pairwise_iff_getElem.1 hn'.2
  rcases Nat.lt_trichotomy i k with hik | hik | hik
  · exact hp i k hi hk hik htg htg'
  · subst hik; exact hne' rfl
  · exact hp k i hk hi hik htg' htg

/-- Example: a batch rule `.c.obj` with the command `cl $<` (`$<` is kept as escape + `<`). -/
def batchRule : Rule := { exRule c!".obj" (c!"cl " ++ sourceMacro) with batch := true }

/-- `a.obj`, `x`, `b.obj`, `c.obj` as targets 1, 2, 3, 4. -/
def batchDB : Nat → DB := fun t =>
  { name := if t = 1 then c!"a.obj" else if t = 3 then c!"b.obj" else if t = 4 then c!"c.obj" else c!"x" }

/-- The hypotheses hold, and with two jobs the groups are `a, b` and `c`. -/
example : (∀ t ∈ [1, 3, 4], batchRule.toExt.length ≤ (fileNameFromFilePath (batchDB t).name).length) ∧
    ((applyBatchRule [] batchRule 2 [1, 3, 4] batchDB).toOption.map fun db =>
      [1, 3, 4].map fun t => (db t).commands.map (·.cmd.line)) = some [[c!"cl a.c b.c "], [], [c!"cl c.c "]] := by
  decide +kernel

/-! ### C54 -/

private theorem mapM_length {α β ε : Type} (f : α → Except ε β) : ∀ (l : List α) (r : List β),
    l.mapM f = .ok r → r.length = l.length := by
  intro l
  induction l with
  | nil =>
    intro r h
    have : ([] : List β) = r := by simpa [pure, Except.pure] using h
    subst this; rfl
  | cons a l ih =>
    intro r h
    rw [List.mapM_cons] at h
    cases ha : f a with
    | error e => rw [ha] at h; cases h
    | ok b =>
      cases hl : l.mapM f with
      | error e => rw [ha, hl] at h; cases h
      | ok bs =>
        rw [ha, hl] at h
        have : b :: bs = r := by injection h
        subst this
        simp [ih bs hl]

/-- **C54** holds if there are less than 1.5 targets per job: every target has commands of its own, so its parents wait
for them (C30).  What is missing: larger groups, where it is false (`C54_refuted`). -/
theorem C54_partial {m : Macros} {r : Rule} {jobs : Nat} {targets : List Nat} {db db' : Nat → DB} (hj : 0 < jobs)
    (hne : targets ≠ []) (hn : targets.Nodup) (hc : r.commands ≠ [])
    (hext : ∀ t ∈ targets, r.toExt.length ≤ (fileNameFromFilePath (db t).name).length)
    (hfew : 2 * targets.length < 3 * jobs)
    (h : applyBatchRule m r jobs targets db = .ok db') : ∀ t ∈ targets, (db' t).commands ≠ [] := by
  obtain ⟨per, groups, hs, _, hg, _, hu, hd, _⟩ := C28_partition hj hne hn hext h
  have hper : per = 1 := by
    rcases hs.2.2 with h1 | h1
    · exact h1
    · have h2 : 2 * per * jobs < 4 * jobs := by omega
      have h3 := Nat.lt_of_mul_lt_mul_right h2
      have := hs.1
      omega
  intro t ht
  obtain ⟨g, hgm, htg, _⟩ := hu t ht
  have hl := (hg g hgm).2
  obtain ⟨f, o, srcs, cs, rfl, _, _, hcs, hdc, _⟩ := hd g hgm
  have ho : o = [] := by
    rw [hper] at hl
    simpa using hl
  subst ho
  have : t = f := by simpa using htg
  subst this
  rw [hdc]
  intro hh
  subst hh
  have := mapM_length _ _ _ hcs
  exact hc (List.length_eq_zero_iff.1 this.symm)

/-- The hypotheses of `C54_partial` hold for three jobs. -/
example : ((applyBatchRule [] batchRule 3 [1, 3, 4] batchDB).toOption.map fun db =>
      [1, 3, 4].map fun t => (db t).commands.map (·.cmd.line)) = some [[c!"cl a.c "], [c!"cl b.c "], [c!"cl c.c "]] ∧
    2 * [1, 3, 4].length < 3 * 3 := by decide +kernel

/-- The order of the graph: 0 needs `a`, `x` and `c`, and `x` needs `b`. -/
def batchCfg : Sched.Cfg :=
  { jobs := 2, keepGoing := false, buildAll := false, dumpGraph := false, targets := [0],
    deps := fun _ t => if t = 0 then [.node 1, .node 2, .node 4] else if t = 2 then [.node 3] else [], fuel := 10 }

/-- Targets have commands as after the batch rule was applied; 0 and 2 have commands of their own. -/
def batchOracle (db : Nat → DB) : Sched.Oracle :=
  ⟨fun _ _ _ => false, fun _ t => !(db t).commands.isEmpty || t == 0 || t == 2, fun _ => false, .running⟩

/-- The targets after the batch rule. -/
def batchOut : Nat → DB := (applyBatchRule [] batchRule 2 [1, 3, 4] batchDB).toOption.getD batchDB

/-- `a` is started, `b` is skipped, `c` is started and finishes, `x` is started. -/
def batchRun : List Sched.Event :=
  let o := batchOracle batchOut
  [.startProcesses o, .startProcesses o, .grant, .acquired .running false, .childFinished 1 false, .startProcesses o,
    .startProcesses o, .grant, .acquired .running false]

/-- **C54** is false: `a` and `b` are built by one command, which belongs to `a`; `b` has no commands and is
"finished" at once, so `x`, which needs `b`, is started while that command is still running. -/
theorem C54_refuted : ∃ (db : Nat → DB) (s : Sched.St),
    applyBatchRule [] batchRule 2 [1, 3, 4] batchDB = .ok db ∧
    (db 1).commands.map (·.cmd.line) = [c!"cl a.c b.c "] ∧
    (∃ es, Sched.run batchCfg (Sched.init batchCfg) es = some s ∧
      ∀ o, Sched.Event.startProcesses o ∈ es → o = batchOracle db) ∧
    DependsOn (batchCfg.deps 0) 2 3 ∧
    (0, 1) ∈ s.busy ∧ (1, 2) ∈ s.busy := by
  have h1 : (Sched.run batchCfg (Sched.init batchCfg) batchRun).map (·.busy) = some [(1, 2), (0, 1)] := by
    decide +kernel
  obtain ⟨s, hs, hb⟩ := Option.map_eq_some_iff.1 h1
  have h2 : ∀ (x : Except MacroErr (Nat → DB)) (d : Nat → DB), x.toOption.isSome = true →
      x = .ok (x.toOption.getD d) := by
    intro x d hx
    cases x with
    | error e => cases hx
    | ok v => rfl
  refine ⟨batchOut, s, h2 _ _ (by decide +kernel), by decide +kernel, ⟨batchRun, hs, ?_⟩, ?_, ?_, ?_⟩
  · intro o ho
    simpa [batchRun] using ho
  · show Graph.Dep.node 3 ∈ [Graph.Dep.node 3]
    simp
  · rw [hb]; simp
  · rw [hb]; simp

end Jom.Props
