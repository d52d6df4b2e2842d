/-
Whole command lines, and the flags kept for `MAKEFLAGS`.
-/
import Verif.Proofs.OptionsMeans

namespace Jom.Cmd
open Jom.Spec.Cmd Jom.Spec

theorem ebind_ok {ε α β : Type} {x : Except ε α} {f : α → Except ε β} {b : β} (h : (x >>= f) = .ok b) :
    ∃ a, x = .ok a ∧ f a = .ok b := by
  cases x with
  | error e => cases h
  | ok a => exact ⟨a, rfl, h⟩

/-! ### Whole command lines -/

theorem handleOption_body {items : List Item} {text : Str} {more : List Str} (h : Body true items text more)
    (st : St) (rest : List Str) :
    handleOption st text (more ++ rest) = withRest rest (applyItems st items) := by
  have := body_run h text.length st rest (Nat.le_refl _)
  simpa only [loopFrom, if_true, handleOption] using this

theorem body_handleOption {st st' : St} {text : Str} {args rest : List Str}
    (h : handleOption st text args = .ok (st', rest)) :
    ∃ (items : List Item) (more : List Str), Body true items text more ∧ args = more ++ rest :=
  run_body text.length true st st' text args rest (Nat.le_refl _) (by simp) (by simpa only [loopFrom, if_true, handleOption] using h)

theorem macroArg_st {l l' : Line} {arg : Str} {idx : Nat} (h : macroArg l arg idx = .ok l') : l'.st = l.st := by
  unfold macroArg at h
  simp only at h
  split at h
  · cases h
  · obtain ⟨l1, h1, h⟩ := ebind_ok h
    have e1 : l1.st = l.st := by
      split at h1
      · cases h1; rfl
      · obtain ⟨t, _, h1⟩ := ebind_ok h1
        cases h1; rfl
    split at h
    · obtain ⟨t, _, h⟩ := ebind_ok h
      cases h; exact e1
    · cases h; exact e1

/-- The step for an argument that is not an option. -/
def plainStep (l : Line) (arg : Str) : Except Err Line :=
  match indexOf? ['='] arg with
  | some idx => macroArg l arg idx
  | none =>
    .ok (if l.targets.contains (trimmed arg) then l else { l with targets := l.targets ++ [trimmed arg] })

theorem plainStep_st {l l' : Line} {arg : Str} (h : plainStep l arg = .ok l') : l'.st = l.st := by
  unfold plainStep at h
  split at h
  · exact macroArg_st h
  · cases h
    split <;> rfl

theorem argLoop_plain {n : Nat} {l : Line} {c : Char} {a : Str} {rest : List Str} (h1 : c ≠ '-') (h2 : c ≠ '/') :
    argLoop (n + 1) l ((c :: a) :: rest) = (do let l ← plainStep l (c :: a); argLoop n l rest) := by
  have hc : (c == '-' || c == '/') = false := by simp [h1, h2]
  simp only [argLoop, hc, Bool.false_eq_true, if_false, plainStep]
  cases indexOf? ['='] (c :: a) <;> rfl

theorem argLoop_opt {n : Nat} {l : Line} {d : Char} {body : Str} {rest : List Str} (hd : d = '-' ∨ d = '/') :
    argLoop (n + 1) l ((d :: body) :: rest) = (do
      let (st, r) ← handleOption l.st (trimmed body) rest
      argLoop n { l with st := st } r) := by
  have hc : (d == '-' || d == '/') = true := by rcases hd with rfl | rfl <;> rfl
  simp only [argLoop, hc, if_true]

theorem argLoop_nil (n : Nat) (l : Line) : argLoop n l [] = .ok l := by
  cases n <;> rfl

/-- The options of an accepted command line are the items that are spelled. -/
theorem args_run {items : List Item} {plain args : List Str} (h : Args items plain args) :
    ∀ (n : Nat) (l l' : Line), args.length ≤ n → argLoop n l args = .ok l' → applyItems l.st items = .ok l'.st := by
  induction h with
  | nil => intro n l l' _ h; rw [argLoop_nil] at h; cases h; rfl
  | @opt d body items items' more plain rest hd hb _ ih =>
    intro n l l' hn h
    obtain ⟨n, rfl⟩ : ∃ k, n = k + 1 := ⟨n - 1, by simp at hn; omega⟩
    rw [argLoop_opt hd, handleOption_body hb] at h
    rw [applyItems_append]
    simp only [List.length_cons, List.length_append] at hn
    cases ha : applyItems l.st items with
    | error e => rw [ha] at h; cases h
    | ok s =>
      rw [ha] at h
      exact ih n { l with st := s } l' (by omega) h
  | @plain c a items plain rest h1 h2 _ ih =>
    intro n l l' hn h
    obtain ⟨n, rfl⟩ : ∃ k, n = k + 1 := ⟨n - 1, by simp at hn; omega⟩
    rw [argLoop_plain h1 h2] at h
    obtain ⟨l1, hp, h⟩ := ebind_ok h
    rw [← plainStep_st hp]
    exact ih n l1 l' (by simpa using hn) h

/-- Every accepted command line spells some items. -/
theorem run_args : ∀ (n : Nat) (l l' : Line) (args : List Str), args.length ≤ n → argLoop n l args = .ok l' →
    ∃ (items : List Item) (plain : List Str), Args items plain args := by
  intro n
  induction n with
  | zero =>
    intro l l' args hn _
    have : args = [] := List.length_eq_zero_iff.1 (by omega)
    subst this
    exact ⟨[], [], .nil⟩
  | succ n ih =>
    intro l l' args hn h
    cases args with
    | nil => exact ⟨[], [], .nil⟩
    | cons arg rest =>
      simp only [List.length_cons] at hn
      cases arg with
      | nil => cases h
      | cons c body =>
        by_cases hc : c = '-' ∨ c = '/'
        · rw [argLoop_opt hc] at h
          obtain ⟨⟨st, r⟩, hh, h2⟩ := ebind_ok h
          obtain ⟨items, more, hb, he⟩ := body_handleOption hh
          subst he
          rw [List.length_append] at hn
          obtain ⟨items', plain, ha⟩ := ih _ l' r (by omega) h2
          exact ⟨_, plain, .opt hc hb ha⟩
        · rw [not_or] at hc
          rw [argLoop_plain hc.1 hc.2] at h
          obtain ⟨l1, hp, h⟩ := ebind_ok h
          obtain ⟨items, plain, ha⟩ := ih _ l' rest (by omega) h
          exact ⟨items, _, .plain hc.1 hc.2 ha⟩

theorem body_letters {fresh : Bool} {items : List Item} {text : Str} {more : List Str}
    (h : Body fresh items text more) : ∀ c, Item.flag c ∈ items → toUpperC c ∈ simpleLetters := by
  induction h with
  | nil => intro c hc; cases hc
  | flag hc _ _ ih =>
    intro d hd
    rcases List.mem_cons.1 hd with e | hd
    · cases e; exact hc
    · exact ih d hd
  | jobs _ _ _ _ _ ih => intro d hd; exact ih d (by simpa using hd)
  | long _ _ _ ih => intro d hd; exact ih d (by simpa using hd)
  | _ => intro d hd; simp at hd

theorem args_letters {items : List Item} {plain args : List Str} (h : Args items plain args) :
    ∀ c, Item.flag c ∈ items → toUpperC c ∈ simpleLetters := by
  induction h with
  | nil => intro c hc; cases hc
  | opt _ hb _ ih =>
    intro c hc
    rcases List.mem_append.1 hc with hc | hc
    · exact body_letters hb c hc
    · exact ih c hc
  | plain _ _ _ ih => exact ih

/-- A command line of options only is accepted if every number of jobs is usable. -/
theorem args_accepted {items : List Item} {args : List Str} (h : Args items [] args)
    (hj : ∀ n ∈ jobNumbers items, ∃ v, JobCount n v) :
    ∀ (n : Nat) (l : Line), args.length ≤ n → ∃ st, argLoop n l args = .ok { l with st := st } := by
  generalize hp : ([] : List Str) = plain at h
  induction h with
  | nil => intro n l _; exact ⟨l.st, by rw [argLoop_nil]⟩
  | @opt d body items items' more plain rest hd hb _ ih =>
    intro n l hn
    obtain ⟨n, rfl⟩ : ∃ k, n = k + 1 := ⟨n - 1, by simp at hn; omega⟩
    simp only [List.length_cons, List.length_append] at hn
    have hj1 : ∀ n ∈ jobNumbers items, ∃ v, JobCount n v := by
      intro m hm; apply hj m; simp only [jobNumbers, List.filterMap_append, List.mem_append]; exact .inl hm
    have hj2 : ∀ n ∈ jobNumbers items', ∃ v, JobCount n v := by
      intro m hm; apply hj m; simp only [jobNumbers, List.filterMap_append, List.mem_append]; exact .inr hm
    obtain ⟨s, hs⟩ := applyItems_ok (st := l.st) (body_letters hb) hj1
    rw [argLoop_opt hd, handleOption_body hb, hs]
    obtain ⟨st, hst⟩ := ih hj2 hp n { l with st := s } (by omega)
    exact ⟨st, hst⟩
  | plain => cases hp

/-! ### The end of the command line -/

theorem finish_ok {l l' : Line} (h : finish l = .ok l') :
    l'.st.jobs = l.st.jobs ∧ l'.st.jobsSet = l.st.jobsSet ∧ l'.st.makeflags = l.st.makeflags ∧
    l'.st.makefile = some (l.st.makefile.getD c!"Makefile") ∧
    l'.st.opts = (if !l.st.opts.stopOnErrors && l.st.opts.buildUnrelatedTargetsOnError
      then { l.st.opts with buildUnrelatedTargetsOnError := false } else l.st.opts) ∧
    setMacroValue l.table c!"MAKEFLAGS" l.st.makeflags = .ok l'.table := by
  unfold finish at h
  simp only at h
  obtain ⟨t, ht, h⟩ := ebind_ok h
  cases h
  refine ⟨rfl, rfl, rfl, rfl, rfl, ?_⟩
  cases hs : setMacroValue l.table c!"MAKEFLAGS" l.st.makeflags with
  | error e => rw [hs] at ht; cases ht
  | ok x => rw [hs] at ht; cases ht; rfl

theorem makeflags_valid : isMacroNameValid c!"MAKEFLAGS" = true := by decide

theorem setMakeflags (t : MacroTable) (v : Str) : ∃ t', setMacroValue t c!"MAKEFLAGS" v = .ok t' := by
  unfold setMacroValue setMacroValueImpl internalSet
  rw [expandMacros_plain _ _ _ (by decide)]
  exact ⟨_, rfl⟩

theorem finish_total (l : Line) : ∃ l', finish l = .ok l' := by
  obtain ⟨t, ht⟩ := setMakeflags l.table l.st.makeflags
  unfold finish
  rw [ht]
  exact ⟨_, rfl⟩

theorem means_of_raw {cpus : Int} {items : List Item} {l l' : Line} (h : Raw cpus items l.st)
    (hf : finish l = .ok l') : Means cpus items l'.st := by
  obtain ⟨e1, e2, _, e4, e5, _⟩ := finish_ok hf
  obtain ⟨f1, f2, f3, f4, f5, f6, f7, f8, f9, f10, f11, f12, f13, f14, f15, f16, f17, f18, f19, f20, f21, f22, f23,
    f24, g1, g2, g3, g4, g5⟩ := h
  have hI : Given items 'I' ↔ l.st.opts.stopOnErrors = false := f8.symm
  constructor
  case jobsSet => rw [e2]; exact g2
  case jobsDefault => rw [e1]; exact g3
  case jobs => rw [e1]; exact g4
  case makefile => rw [e4, g1]
  case buildUnrelatedTargetsOnError =>
    rw [e5, hI, ← f9]
    cases h1 : l.st.opts.stopOnErrors <;> cases h2 : l.st.opts.buildUnrelatedTargetsOnError <;> simp [h2]
  all_goals
    rw [e5]
    split <;> assumption

/-! ### MAKEFLAGS -/

/-- The text of an item as kept in the flags. -/
def flagText : Item → Str
  | .flag c => [c]
  | .jobs c n => c :: n
  | _ => []

/-- The text of the flags. -/
def flagsText (items : List Item) : Str := items.flatMap flagText

/-- An item as kept in the flags. -/
def Kept : Item → Prop
  | .flag c => toUpperC c ∈ simpleLetters
  | .jobs c n => toUpperC c = 'J' ∧ n ≠ [] ∧ n.all isDigit = true
  | _ => False

theorem toUpperC_digit {c : Char} (h : isDigit c = true) : toUpperC c = c := by
  simp only [isDigit, Bool.and_eq_true, decide_eq_true_eq] at h
  unfold toUpperC
  rw [if_neg (by omega)]

theorem digit_not_letter {c : Char} (h : isDigit c = true) : toUpperC c ∉ simpleLetters ∧ toUpperC c ≠ 'J' ∧
    toUpperC c ≠ 'F' ∧ toUpperC c ≠ 'X' := by
  have hd : ∀ d ∈ simpleLetters, isDigit d = false := by decide
  rw [toUpperC_digit h]
  refine ⟨fun hm => ?_, ?_, ?_, ?_⟩
  · rw [hd c hm] at h; cases h
  all_goals rintro rfl; revert h; decide

theorem mem_flagsText {k : List Item} (hk : ∀ i ∈ k, Kept i) {c : Char} (h : c ∈ flagsText k) :
    Item.flag c ∈ k ∨ (∃ n, Item.jobs c n ∈ k) ∨ isDigit c = true := by
  simp only [flagsText, List.mem_flatMap] at h
  obtain ⟨i, hi, hc⟩ := h
  have := hk i hi
  cases i with
  | flag d => simp only [flagText, List.mem_singleton] at hc; subst hc; exact .inl hi
  | jobs d n =>
    simp only [flagText, List.mem_cons] at hc
    rcases hc with rfl | hc
    · exact .inr (.inl ⟨n, hi⟩)
    · exact .inr (.inr (List.all_eq_true.1 this.2.2 c hc))
  | _ => exact absurd this (by simp [Kept])

theorem last_flagsText {k : List Item} (hk : ∀ i ∈ k, Kept i) :
    (flagsText k).getLast?.map toUpperC ≠ some 'J' := by
  rcases List.eq_nil_or_concat k with rfl | ⟨k', i, rfl⟩
  · simp [flagsText]
  · rw [List.concat_eq_append] at hk ⊢
    have hi := hk i (by simp)
    simp only [flagsText, List.flatMap_append, List.flatMap_cons, List.flatMap_nil, List.append_nil]
    cases i with
    | flag d =>
      simp only [flagText, List.getLast?_append, List.getLast?_singleton, Option.some_or, Option.map_some, ne_eq,
        Option.some.injEq]
      intro e
      simp only [Kept, e] at hi
      exact absurd hi (by decide)
    | jobs d n =>
      obtain ⟨_, hne, hall⟩ := hi
      rcases List.eq_nil_or_concat n with rfl | ⟨n', e, rfl⟩
      · exact absurd rfl hne
      · rw [List.concat_eq_append] at hall ⊢
        have he : isDigit e = true := by simp at hall; exact hall.2
        have : (List.flatMap flagText k' ++ flagText (.jobs d (n' ++ [e]))).getLast? = some e := by
          simp only [flagText, ← List.cons_append, ← List.append_assoc, List.getLast?_append,
            List.getLast?_singleton, Option.some_or]
        rw [this]
        simp only [Option.map_some, ne_eq, Option.some.injEq]
        exact (digit_not_letter he).2.1
    | _ => exact absurd hi (by simp [Kept])

/-- What the flags keep of the items given. -/
structure Keeps (items k : List Item) (flags : Str) : Prop where
  text : flags = flagsText k
  kept : ∀ i ∈ k, Kept i
  given : ∀ u, Given k u ↔ Given items u ∨ (u = 'L' ∧ GivenLong items .nologo)
  jobs : jobNumbers items ≠ [] → jobNumbers k ≠ []
  sub : ∀ n ∈ jobNumbers k, n ∈ jobNumbers items

theorem flagsText_snoc (k : List Item) (i : Item) : flagsText (k ++ [i]) = flagsText k ++ flagText i := by
  simp [flagsText]

theorem jobNumbers_append (a b : List Item) : jobNumbers (a ++ b) = jobNumbers a ++ jobNumbers b := by
  simp [jobNumbers]

theorem mem_jobNumbers {items : List Item} {n : Str} : n ∈ jobNumbers items ↔ ∃ c, Item.jobs c n ∈ items := by
  simp only [jobNumbers, List.mem_filterMap]
  constructor
  · rintro ⟨i, hi, h⟩
    cases i <;> simp at h
    subst h
    exact ⟨_, hi⟩
  · rintro ⟨c, h⟩
    exact ⟨_, h, rfl⟩

theorem keeps_nil : Keeps [] [] [] := by
  constructor <;> simp [flagsText, Given, GivenLong, jobNumbers]

theorem addFlag_flags (st : St) (c : Char) :
    (addFlag st c).makeflags = if st.makeflags.contains c then st.makeflags else st.makeflags ++ [c] := by
  unfold addFlag; split <;> rfl

theorem not_mem_flags {items k : List Item} {flags : Str} (h : Keeps items k flags) {c : Char}
    (hc : toUpperC c = 'F' ∨ toUpperC c = 'X') : c ∉ flags := by
  intro hm
  rw [h.text] at hm
  rcases mem_flagsText h.kept hm with hm | ⟨n, hm⟩ | hm
  · have := h.kept _ hm
    simp only [Kept] at this
    rcases hc with e | e <;> rw [e] at this <;> exact absurd this (by decide)
  · have := (h.kept _ hm).1
    rcases hc with e | e <;> rw [e] at this <;> exact absurd this (by decide)
  · have := digit_not_letter hm
    rcases hc with e | e
    · exact this.2.2.1 e
    · exact this.2.2.2 e

theorem keeps_step {items k : List Item} {st st' : St} {i : Item} (h : Keeps items k st.makeflags)
    (hi : (∀ c n, i = .jobs c n → n.all isDigit = true ∧ toUpperC c = 'J') ∧
      (∀ c n, i = .file c n → toUpperC c = 'F') ∧ (∀ c n, i = .errFile c n → toUpperC c = 'X'))
    (ha : applyItem st i = .ok st') : ∃ k', Keeps (items ++ [i]) k' st'.makeflags := by
  cases i with
  | flag c =>
    simp only [applyItem] at ha
    cases hs : simpleOption st.opts (toUpperC c) with
    | none => rw [hs] at ha; cases ha
    | some o =>
      rw [hs] at ha
      simp only [Except.ok.injEq] at ha
      subst ha
      have hc : toUpperC c ∈ simpleLetters := (simpleOption_iff st.opts _).1 (by rw [hs]; rfl)
      have hn : ∀ w, GivenLong (items ++ [.flag c]) w ↔ GivenLong items w := by
        intro w; rw [givenLong_snoc]; simp
      have hj : jobNumbers (items ++ [.flag c]) = jobNumbers items := by simp [jobNumbers]
      simp only [addFlag_flags]
      cases hm : st.makeflags.contains c
      · refine ⟨k ++ [.flag c], ?_⟩
        have hk : jobNumbers (k ++ [.flag c]) = jobNumbers k := by simp [jobNumbers]
        simp only [Bool.false_eq_true, if_false]
        constructor
        · rw [flagsText_snoc, ← h.text]; rfl
        · intro j hj
          rcases List.mem_append.1 hj with hj | hj
          · exact h.kept j hj
          · simp only [List.mem_singleton] at hj; subst hj; exact hc
        · intro u
          rw [given_snoc_flag, given_snoc_flag, h.given, hn]; grind
        · rw [hj, hk]; exact h.jobs
        · rw [hj, hk]; exact h.sub
      · refine ⟨k, ?_⟩
        simp only [if_true]
        have hflag : Item.flag c ∈ k := by
          have hmem : c ∈ flagsText k := by rw [← h.text]; simpa using hm
          rcases mem_flagsText h.kept hmem with hm | ⟨n, hm⟩ | hm
          · exact hm
          · have := (h.kept _ hm).1
            rw [this] at hc; exact absurd hc (by decide)
          · exact absurd hc (digit_not_letter hm).1
        constructor
        · exact h.text
        · exact h.kept
        · intro u
          rw [given_snoc_flag, hn, h.given]
          constructor
          · rintro (g | g)
            · exact .inl (.inl g)
            · exact .inr g
          · rintro ((g | g) | g)
            · exact .inl g
            · subst g
              exact (h.given _).1 ⟨c, hflag, rfl⟩
            · exact .inr g
        · rw [hj]; exact h.jobs
        · rw [hj]; exact h.sub
  | file c n =>
    have hc := hi.2.1 c n rfl
    have hnm : st.makeflags.contains c = false := by
      have := not_mem_flags h (.inl hc); simpa using this
    simp only [applyItem, Except.ok.injEq] at ha
    subst ha
    have hg : ∀ u, Given (items ++ [.file c n]) u ↔ Given items u := by
      intro u; rw [given_snoc]; simp
    have hn : ∀ w, GivenLong (items ++ [.file c n]) w ↔ GivenLong items w := by
      intro w; rw [givenLong_snoc]; simp
    have hj : jobNumbers (items ++ [.file c n]) = jobNumbers items := by simp [jobNumbers]
    simp only [addFlag_flags, hnm, Bool.false_eq_true, if_false, List.dropLast_concat]
    exact ⟨k, h.text, h.kept, by intro u; rw [h.given, hg, hn], by rw [hj]; exact h.jobs, by rw [hj]; exact h.sub⟩
  | errFile c n =>
    have hc := hi.2.2 c n rfl
    have hnm : st.makeflags.contains c = false := by
      have := not_mem_flags h (.inr hc); simpa using this
    simp only [applyItem, Except.ok.injEq] at ha
    subst ha
    have hg : ∀ u, Given (items ++ [.errFile c n]) u ↔ Given items u := by
      intro u; rw [given_snoc]; simp
    have hn : ∀ w, GivenLong (items ++ [.errFile c n]) w ↔ GivenLong items w := by
      intro w; rw [givenLong_snoc]; simp
    have hj : jobNumbers (items ++ [.errFile c n]) = jobNumbers items := by simp [jobNumbers]
    simp only [addFlag_flags, hnm, Bool.false_eq_true, if_false, List.dropLast_concat]
    exact ⟨k, h.text, h.kept, by intro u; rw [h.given, hg, hn], by rw [hj]; exact h.jobs, by rw [hj]; exact h.sub⟩
  | jobs c n =>
    obtain ⟨hdig, hc⟩ := hi.1 c n rfl
    simp only [applyItem] at ha
    obtain ⟨v, hv, rfl⟩ := setJobs_ok ha
    have hne : n ≠ [] := by
      rintro rfl
      obtain ⟨pre, sign, d, post, he, _, _, _, hd, _⟩ := hv
      have := (decimal_iff.1 hd).1
      have hl := congrArg List.length he
      simp only [List.length_nil, List.length_append] at hl
      exact this (List.length_eq_zero_iff.1 (by omega))
    have hg : ∀ u, Given (items ++ [.jobs c n]) u ↔ Given items u := by
      intro u; rw [given_snoc]; simp
    have hn : ∀ w, GivenLong (items ++ [.jobs c n]) w ↔ GivenLong items w := by
      intro w; rw [givenLong_snoc]; simp
    have hj : jobNumbers (items ++ [.jobs c n]) = jobNumbers items ++ [n] := by simp [jobNumbers]
    simp only [addFlag_flags]
    cases hm : st.makeflags.contains c
    · simp only [Bool.false_eq_true, if_false, List.getLast?_append, List.getLast?_singleton, Option.some_or,
        Option.map_some, hc, if_true]
      have hk : jobNumbers (k ++ [.jobs c n]) = jobNumbers k ++ [n] := by simp [jobNumbers]
      refine ⟨k ++ [.jobs c n], ?_, ?_, ?_, ?_, ?_⟩
      · rw [flagsText_snoc, ← h.text]; simp [flagText]
      · intro j hj
        rcases List.mem_append.1 hj with hj | hj
        · exact h.kept j hj
        · simp only [List.mem_singleton] at hj; subst hj; exact ⟨hc, hne, hdig⟩
      · intro u
        have : Given (k ++ [.jobs c n]) u ↔ Given k u := by rw [given_snoc]; simp
        rw [this, h.given, hg, hn]
      · rw [hk]; simp
      · rw [hk, hj]
        intro m hm
        rcases List.mem_append.1 hm with hm | hm
        · exact List.mem_append_left _ (h.sub m hm)
        · exact List.mem_append_right _ hm
    · simp only [if_true]
      have hl := last_flagsText h.kept
      rw [← h.text] at hl
      simp only [hl, if_false]
      have hjk : ∃ m, Item.jobs c m ∈ k := by
        have hmem : c ∈ flagsText k := by rw [← h.text]; simpa using hm
        rcases mem_flagsText h.kept hmem with hm | hm | hm
        · have := h.kept _ hm
          simp only [Kept, hc] at this; exact absurd this (by decide)
        · exact hm
        · exact absurd hc (digit_not_letter hm).2.1
      obtain ⟨m, hm'⟩ := hjk
      refine ⟨k, h.text, h.kept, by intro u; rw [h.given, hg, hn], ?_, ?_⟩
      · intro _
        exact List.ne_nil_of_mem (mem_jobNumbers.2 ⟨c, hm'⟩)
      · rw [hj]
        intro x hx
        exact List.mem_append_left _ (h.sub x hx)
  | long w =>
    have hg : ∀ u, Given (items ++ [.long w]) u ↔ Given items u := by
      intro u; rw [given_snoc]; simp
    have hn : ∀ w', GivenLong (items ++ [.long w]) w' ↔ GivenLong items w' ∨ w = w' := by
      intro w; rw [givenLong_snoc]; simp
    have hj : jobNumbers (items ++ [.long w]) = jobNumbers items := by simp [jobNumbers]
    simp only [applyItem, Except.ok.injEq] at ha
    subst ha
    by_cases hw : w = .nologo
    · subst hw
      have hk : jobNumbers (k ++ [.flag 'L']) = jobNumbers k := by simp [jobNumbers]
      refine ⟨k ++ [.flag 'L'], ?_, ?_, ?_, ?_, ?_⟩
      · rw [flagsText_snoc, ← h.text]; rfl
      · intro j hj
        rcases List.mem_append.1 hj with hj | hj
        · exact h.kept j hj
        · simp only [List.mem_singleton] at hj; subst hj; change toUpperC 'L' ∈ simpleLetters; decide
      · intro u
        rw [given_snoc_flag, hg, hn, h.given]
        have : toUpperC 'L' = 'L' := by decide
        rw [this]; grind
      · rw [hj, hk]; exact h.jobs
      · rw [hj, hk]; exact h.sub
    · have hf : (applyLong st w).makeflags = st.makeflags := by
        cases w <;> first | rfl | exact absurd rfl hw
      rw [hf]
      refine ⟨k, h.text, h.kept, ?_, by rw [hj]; exact h.jobs, by rw [hj]; exact h.sub⟩
      intro u
      rw [h.given, hg, hn]; grind

theorem body_wellLettered {fresh : Bool} {items : List Item} {text : Str} {more : List Str}
    (h : Body fresh items text more) : ∀ i ∈ items, (∀ c n, i = .jobs c n → toUpperC c = 'J') ∧
      (∀ c n, i = .file c n → toUpperC c = 'F') ∧ (∀ c n, i = .errFile c n → toUpperC c = 'X') := by
  induction h with
  | nil => intro i hi; cases hi
  | flag _ _ _ ih =>
    intro i hi
    rcases List.mem_cons.1 hi with rfl | hi
    · simp
    · exact ih i hi
  | jobs hc _ _ _ _ ih =>
    intro i hi
    rcases List.mem_cons.1 hi with rfl | hi
    · simp [hc]
    · exact ih i hi
  | long _ _ _ ih =>
    intro i hi
    rcases List.mem_cons.1 hi with rfl | hi
    · simp
    · exact ih i hi
  | jobsNext hc => intro i hi; simp only [List.mem_singleton] at hi; subst hi; simp [hc]
  | file hc _ => intro i hi; simp only [List.mem_singleton] at hi; subst hi; simp [hc]
  | fileNext hc => intro i hi; simp only [List.mem_singleton] at hi; subst hi; simp [hc]
  | errFile hc _ => intro i hi; simp only [List.mem_singleton] at hi; subst hi; simp [hc]
  | errFileNext hc => intro i hi; simp only [List.mem_singleton] at hi; subst hi; simp [hc]

theorem args_wellLettered {items : List Item} {plain args : List Str} (h : Args items plain args) :
    ∀ i ∈ items, (∀ c n, i = .jobs c n → toUpperC c = 'J') ∧
      (∀ c n, i = .file c n → toUpperC c = 'F') ∧ (∀ c n, i = .errFile c n → toUpperC c = 'X') := by
  induction h with
  | nil => intro i hi; cases hi
  | opt _ hb _ ih =>
    intro i hi
    rcases List.mem_append.1 hi with hi | hi
    · exact body_wellLettered hb i hi
    · exact ih i hi
  | plain _ _ _ ih => exact ih

theorem keeps_steps {is : List Item} : ∀ {items k : List Item} {st st' : St}, Keeps items k st.makeflags →
    (∀ i ∈ is, (∀ c n, i = .jobs c n → n.all isDigit = true ∧ toUpperC c = 'J') ∧
      (∀ c n, i = .file c n → toUpperC c = 'F') ∧ (∀ c n, i = .errFile c n → toUpperC c = 'X')) →
    applyItems st is = .ok st' → ∃ k', Keeps (items ++ is) k' st'.makeflags := by
  induction is with
  | nil => intro items k st st' h _ ha; cases ha; exact ⟨k, by simpa using h⟩
  | cons i is ih =>
    intro items k st st' h hi ha
    simp only [applyItems] at ha
    cases hs : applyItem st i with
    | error e => rw [hs] at ha; cases ha
    | ok s =>
      rw [hs] at ha
      obtain ⟨k1, h1⟩ := keeps_step h (hi i (by simp)) hs
      obtain ⟨k2, h2⟩ := ih h1 (fun j hj => hi j (by simp [hj])) ha
      exact ⟨k2, by simpa using h2⟩

/-- The flags spell the items that are kept, unless they spell DEBUG. -/
theorem flags_body {k : List Item} (hk : ∀ i ∈ k, Kept i) :
    (¬ ∃ a b : Str, toUpper (flagsText k) = a ++ c!"DEBUG" ++ b) → Body true k (flagsText k) [] := by
  induction k with
  | nil => intro _; exact .nil
  | cons i k ih =>
    intro hd
    have hrest : ¬ ∃ a b : Str, toUpper (flagsText k) = a ++ c!"DEBUG" ++ b := by
      rintro ⟨a, b, e⟩
      apply hd
      refine ⟨toUpper (flagText i) ++ a, b, ?_⟩
      simp only [flagsText, List.flatMap_cons, toUpper_append] at e ⊢
      rw [e]; simp only [List.append_assoc]
    have hb := ih (fun j hj => hk j (by simp [hj])) hrest
    have hi := hk i (by simp)
    cases i with
    | flag c =>
      refine .flag hi (fun _ => ?_) hb
      rintro ⟨w, r, hr⟩
      replace hr : w.name ++ r = toUpper (c :: flagsText k) := hr
      have hchars : ∀ d ∈ flagsText (.flag c :: k), toUpperC d ∈ simpleLetters ∨ toUpperC d = 'J' ∨ isDigit d = true := by
        intro d hdm
        rcases mem_flagsText hk hdm with h | ⟨n, h⟩ | h
        · exact .inl (hk _ h)
        · exact .inr (.inl (hk _ h).1)
        · exact .inr (.inr h)
      have hup : ∀ u ∈ w.name, u ∈ simpleLetters ∨ u = 'J' ∨ isDigit u = true := by
        intro u hu
        have : u ∈ toUpper (flagsText (.flag c :: k)) := by
          have e : flagsText (.flag c :: k) = c :: flagsText k := rfl
          rw [e, ← hr]; exact List.mem_append_left _ hu
        simp only [toUpper, List.mem_map] at this
        obtain ⟨d, hdm, rfl⟩ := this
        rcases hchars d hdm with h | h | h
        · exact .inl h
        · exact .inr (.inl h)
        · exact .inr (.inr (by rw [toUpperC_digit h]; exact h))
      cases w with
      | debug => exact hd ⟨[], r, by rw [List.nil_append]; exact hr.symm⟩
      | nologo => exact absurd (hup 'O' (by decide)) (by decide)
      | dumpgraphdot => exact absurd (hup 'M' (by decide)) (by decide)
      | dumpgraph => exact absurd (hup 'M' (by decide)) (by decide)
      | errorreport => exact absurd (hup 'O' (by decide)) (by decide)
      | version => exact absurd (hup 'O' (by decide)) (by decide)
    | jobs c n =>
      obtain ⟨hc, hne, hall⟩ := hi
      refine .jobs hc hall (by simp [hne]) ?_ hb
      intro d hdm
      cases k with
      | nil => simp at hdm
      | cons j k =>
        have hj := hk j (by simp)
        have hd2 : toUpperC d ∈ simpleLetters ∨ toUpperC d = 'J' := by
          cases j with
          | flag e =>
            simp [flagText] at hdm; subst hdm; exact .inl hj
          | jobs e m =>
            simp [flagText] at hdm; subst hdm; exact .inr hj.1
          | _ => exact absurd hj (by simp [Kept])
        cases hdg : isDigit d
        · rfl
        · have := digit_not_letter hdg
          rcases hd2 with h | h
          · exact absurd h this.1
          · exact absurd h this.2.1
    | _ => exact absurd hi (by simp [Kept])

end Jom.Cmd
