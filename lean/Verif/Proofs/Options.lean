/-
The option parser against the specification of spellings (Spec/Options.lean).
-/
import Verif.Spec.Options
import Verif.Proofs.StrLemmas
import Verif.Proofs.PPLine

namespace Jom.Cmd
open Jom.Spec.Cmd

/-! ### One item -/

/-- The letter is noted in `makeflags`. -/
def addFlag (st : St) (c : Char) : St :=
  if st.makeflags.contains c then st else { st with makeflags := st.makeflags ++ [c] }

/-- Effect of a long option. -/
def applyLong (st : St) : Long → St
  | .nologo => { st with makeflags := st.makeflags ++ ['L'], opts := { st.opts with showLogo := false } }
  | .dumpgraphdot => { st with opts := { st.opts with dumpDependencyGraph := true,
                                                      dumpDependencyGraphDot := true, showLogo := false } }
  | .dumpgraph => { st with opts := { st.opts with dumpDependencyGraph := true, showLogo := false } }
  | .debug => { st with opts := { st.opts with debugMode := true } }
  | .errorreport => st
  | .version => { st with opts := { st.opts with showVersionAndExit := true } }

/-- Effect of an item. -/
def applyItem (st : St) : Item → Except Err St
  | .flag c =>
    match simpleOption st.opts (toUpperC c) with
    | some o => .ok { addFlag st c with opts := o }
    | none => .error .usage
  | .file c n => .ok { addFlag st c with makeflags := (addFlag st c).makeflags.dropLast, makefile := some n }
  | .errFile c n =>
    .ok { addFlag st c with
      makeflags := (addFlag st c).makeflags.dropLast, opts := { st.opts with stderrFile := some n } }
  | .jobs c n => setJobs (addFlag st c) n
  | .long w => .ok (applyLong st w)

/-- Effect of several items. -/
def applyItems : St → List Item → Except Err St
  | st, [] => .ok st
  | st, i :: is =>
    match applyItem st i with
    | .ok st => applyItems st is
    | .error e => .error e

theorem addFlag_opts (st : St) (c : Char) : (addFlag st c).opts = st.opts := by
  unfold addFlag; split <;> rfl

theorem addFlag_makefile (st : St) (c : Char) : (addFlag st c).makefile = st.makefile := by
  unfold addFlag; split <;> rfl

theorem addFlag_jobs (st : St) (c : Char) : (addFlag st c).jobs = st.jobs := by
  unfold addFlag; split <;> rfl

theorem addFlag_jobsSet (st : St) (c : Char) : (addFlag st c).jobsSet = st.jobsSet := by
  unfold addFlag; split <;> rfl

/-! ### Long names -/

theorem toUpper_append (s t : Str) : toUpper (s ++ t) = toUpper s ++ toUpper t := by
  simp only [toUpper, List.map_append]

theorem startsWith_iff {s p : Str} : startsWith s p = true ↔ p <+: s := by
  simp only [startsWith, List.isPrefixOf_iff_prefix]

theorem name_length (w : Long) : 1 < w.name.length := by cases w <;> decide

/-- Without a long name nothing happens. -/
theorem longOption_none {st : St} {arg : Str} (h : ¬ BeginsLong arg) : longOption st arg = (st, arg) := by
  have hw : ∀ w : Long, startsWith (toUpper arg) w.name = false := by
    intro w
    cases hs : startsWith (toUpper arg) w.name
    · rfl
    · exact absurd ⟨w, startsWith_iff.1 hs⟩ h
  have h1 := hw .nologo
  have h2 := hw .dumpgraphdot
  have h3 := hw .dumpgraph
  have h4 := hw .debug
  have h5 := hw .errorreport
  have h6 := hw .version
  simp only [Long.name] at h1 h2 h3 h4 h5 h6
  unfold longOption
  split
  · simp only [h1, h2, h3, h4, h5, h6, Bool.false_eq_true, if_false]
  · rfl

/-- With a long name. -/
theorem longOption_some {st : St} {w : Long} {t text : Str} (ht : toUpper t = w.name)
    (hd : w = .dumpgraph → ¬ c!"DOT" <+: toUpper text) :
    longOption st (t ++ text) = (applyLong st w, text) := by
  have hl : t.length = w.name.length := by rw [← ht]; simp only [toUpper, List.length_map]
  have hlen : (t ++ text).length > 1 := by
    have := name_length w
    rw [List.length_append]; omega
  have hdrop : ∀ n, n = w.name.length → (t ++ text).drop n = text := by
    intro n hn
    rw [hn, ← hl]
    exact List.drop_left
  unfold longOption
  simp only [hlen, if_true, toUpper_append, ht]
  cases w with
  | nologo =>
    simp only [hdrop 6 rfl, applyLong]
    rfl
  | dumpgraphdot =>
    simp only [hdrop 12 rfl, applyLong]
    rfl
  | dumpgraph =>
    have hn : startsWith (Long.dumpgraph.name ++ toUpper text) c!"DUMPGRAPHDOT" = false := by
      have : startsWith (Long.dumpgraph.name ++ toUpper text) c!"DUMPGRAPHDOT" =
          startsWith (toUpper text) c!"DOT" := rfl
      rw [this]
      cases hs : startsWith (toUpper text) c!"DOT"
      · rfl
      · exact absurd (startsWith_iff.1 hs) (hd rfl)
    rw [hn]
    simp only [hdrop 9 rfl, applyLong]
    rfl
  | debug =>
    simp only [hdrop 5 rfl, applyLong]
    rfl
  | errorreport =>
    simp only [hdrop 11 rfl, applyLong]
    rfl
  | version =>
    simp only [hdrop 7 rfl, applyLong]
    rfl

/-- A text beginning with a long name can be split at the end of the name that is recognised. -/
theorem beginsLong_split {arg : Str} (h : BeginsLong arg) :
    ∃ (w : Long) (t text : Str), arg = t ++ text ∧ toUpper t = w.name ∧
      (w = .dumpgraph → ¬ c!"DOT" <+: toUpper text) := by
  have split : ∀ w : Long, w.name <+: toUpper arg →
      ∃ t text : Str, arg = t ++ text ∧ toUpper t = w.name := by
    intro w ⟨r, hr⟩
    refine ⟨arg.take w.name.length, arg.drop w.name.length, (List.take_append_drop _ _).symm, ?_⟩
    rw [toUpper, List.map_take]
    change (toUpper arg).take _ = _
    rw [← hr]
    exact List.take_left
  obtain ⟨w, hw⟩ := h
  by_cases hd : w = .dumpgraph
  · subst hd
    by_cases hdot : Long.dumpgraphdot.name <+: toUpper arg
    · obtain ⟨t, text, e, ht⟩ := split .dumpgraphdot hdot
      exact ⟨.dumpgraphdot, t, text, e, ht, by intro c; cases c⟩
    · obtain ⟨t, text, e, ht⟩ := split .dumpgraph hw
      refine ⟨.dumpgraph, t, text, e, ht, ?_⟩
      intro _ ⟨r, hr⟩
      apply hdot
      refine ⟨r, ?_⟩
      rw [e, toUpper_append, ht, ← hr]
      rfl
  · obtain ⟨t, text, e, ht⟩ := split w hw
    exact ⟨w, t, text, e, ht, fun c => absurd c hd⟩

/-! ### Letters -/

/-- The rest of one round, from the letter on. -/
def letterLoop (n : Nat) (st : St) (arg : Str) (arguments : List Str) : Except Err (St × List Str) :=
  match arg with
  | [] => .ok (st, arguments)
  | ch :: arg => do
    let (st, arg, arguments) ← letter st ch arg arguments
    handleLoop n st arg arguments

theorem handleLoop_succ (n : Nat) (st : St) (arg : Str) (arguments : List Str) :
    handleLoop (n + 1) st arg arguments =
      if arg.isEmpty then .ok (st, arguments)
      else letterLoop n (longOption st arg).1 (longOption st arg).2 arguments := by
  rw [handleLoop]
  rfl

theorem letter_simple {st : St} {c : Char} {arg : Str} {args : List Str} (h : toUpperC c ∈ simpleLetters) :
    letter st c arg args =
      match applyItem st (.flag c) with
      | .ok st => .ok (st, arg, args)
      | .error e => .error e := by
  have hf : (toUpperC c == 'F') = false := by
    cases hc : toUpperC c == 'F'
    · rfl
    · rw [eq_of_beq hc] at h; exact absurd h (by decide)
  have hx : (toUpperC c == 'X') = false := by
    cases hc : toUpperC c == 'X'
    · rfl
    · rw [eq_of_beq hc] at h; exact absurd h (by decide)
  have hj : (toUpperC c == 'J') = false := by
    cases hc : toUpperC c == 'J'
    · rfl
    · rw [eq_of_beq hc] at h; exact absurd h (by decide)
  have ha : (addFlag st c).opts = st.opts := addFlag_opts st c
  unfold letter applyItem
  change (if (toUpperC c == 'F') = true then _ else if (toUpperC c == 'X') = true then _ else
    if (toUpperC c == 'J') = true then _ else
      match simpleOption (addFlag st c).opts (toUpperC c) with
      | some o => Except.ok ({ addFlag st c with opts := o }, arg, args)
      | none => .error Err.usage) = _
  rw [hf, hx, hj, ha]
  simp only [Bool.false_eq_true, if_false]
  cases simpleOption st.opts (toUpperC c) <;> rfl

theorem simpleOption_iff (o : Opts) (u : Char) : (simpleOption o u).isSome = true ↔ u ∈ simpleLetters := by
  constructor
  · intro h
    unfold simpleOption at h
    split at h <;> first | decide | exact absurd h (by simp)
  · intro h
    simp only [simpleLetters, List.mem_cons, List.not_mem_nil, or_false] at h
    rcases h with h|h|h|h|h|h|h|h|h|h|h|h|h|h|h|h|h|h|h|h <;> subst h <;> rfl

theorem letter_file {st : St} {c : Char} {arg : Str} {args : List Str} (h : toUpperC c = 'F') :
    letter st c arg args =
      match fileArg arg args with
      | .ok (f, r) => (match applyItem st (.file c f) with
        | .ok st => .ok (st, [], r)
        | .error e => .error e)
      | .error e => .error e := by
  unfold letter applyItem
  change (if (toUpperC c == 'F') = true then (do
    let (f, r) ← fileArg arg args
    .ok ({ addFlag st c with makeflags := (addFlag st c).makeflags.dropLast, makefile := some f }, [], r)) else _) = _
  rw [h]
  simp only [beq_self_eq_true, if_true]
  cases fileArg arg args <;> rfl

theorem letter_errFile {st : St} {c : Char} {arg : Str} {args : List Str} (h : toUpperC c = 'X') :
    letter st c arg args =
      match fileArg arg args with
      | .ok (f, r) => (match applyItem st (.errFile c f) with
        | .ok st => .ok (st, [], r)
        | .error e => .error e)
      | .error e => .error e := by
  unfold letter applyItem
  change (if (toUpperC c == 'F') = true then _ else if (toUpperC c == 'X') = true then (do
    let (f, r) ← fileArg arg args
    .ok ({ addFlag st c with makeflags := (addFlag st c).makeflags.dropLast,
                             opts := { (addFlag st c).opts with stderrFile := some f } }, [], r)) else _) = _
  rw [h, addFlag_opts]
  have : ('X' == 'F') = false := by decide
  simp only [this, beq_self_eq_true, if_true, Bool.false_eq_true, if_false]
  cases fileArg arg args <;> rfl

theorem letter_jobs {st : St} {c : Char} {arg : Str} {args : List Str} (h : toUpperC c = 'J') :
    letter st c arg args =
      match jobsArg arg args with
      | .ok (n, a, r) => (match applyItem st (.jobs c n) with
        | .ok st => .ok (st, a, r)
        | .error e => .error e)
      | .error e => .error e := by
  unfold letter applyItem
  change (if (toUpperC c == 'F') = true then _ else if (toUpperC c == 'X') = true then _ else
    if (toUpperC c == 'J') = true then (do
    let (n, a, r) ← jobsArg arg args
    let st ← setJobs (addFlag st c) n
    .ok (st, a, r)) else _) = _
  rw [h]
  have h1 : ('J' == 'F') = false := by decide
  have h2 : ('J' == 'X') = false := by decide
  simp only [h1, h2, beq_self_eq_true, if_true, Bool.false_eq_true, if_false]
  cases jobsArg arg args with
  | error e => rfl
  | ok x =>
    obtain ⟨n, a, r⟩ := x
    change (do let st ← setJobs (addFlag st c) n; Except.ok (st, a, r)) = _
    cases hs : setJobs (addFlag st c) n <;> simp only [hs] <;> rfl

theorem letter_cases {st : St} {c : Char} {arg : Str} {args : List Str} {x : St × Str × List Str}
    (h : letter st c arg args = .ok x) :
    toUpperC c ∈ simpleLetters ∨ toUpperC c = 'F' ∨ toUpperC c = 'X' ∨ toUpperC c = 'J' := by
  by_cases hf : toUpperC c = 'F'
  · exact .inr (.inl hf)
  by_cases hx : toUpperC c = 'X'
  · exact .inr (.inr (.inl hx))
  by_cases hj : toUpperC c = 'J'
  · exact .inr (.inr (.inr hj))
  left
  rw [← simpleOption_iff (addFlag st c).opts]
  unfold letter at h
  change (if (toUpperC c == 'F') = true then _ else if (toUpperC c == 'X') = true then _ else
    if (toUpperC c == 'J') = true then _ else
      match simpleOption (addFlag st c).opts (toUpperC c) with
      | some o => Except.ok ({ addFlag st c with opts := o }, arg, args)
      | none => .error Err.usage) = _ at h
  rw [if_neg (by simpa using hf), if_neg (by simpa using hx), if_neg (by simpa using hj)] at h
  cases hs : simpleOption (addFlag st c).opts (toUpperC c) with
  | some o => rfl
  | none => rw [hs] at h; cases h

/-! ### Spellings are read as their items -/

theorem takeWhile_digits {n text : Str} (hn : n.all isDigit = true)
    (ht : ∀ d, text.head? = some d → isDigit d = false) : (n ++ text).takeWhile isDigit = n := by
  rw [List.takeWhile_append_of_pos (by simpa using hn)]
  cases text with
  | nil => simp
  | cons d r => rw [List.takeWhile_cons_of_neg (by simp [ht d rfl])]; simp

theorem drop_takeWhile (p : Char → Bool) (l : Str) : l.drop (l.takeWhile p).length = l.dropWhile p := by
  induction l with
  | nil => rfl
  | cons c r ih =>
    cases hc : p c
    · simp [hc]
    · simp only [List.takeWhile_cons_of_pos hc, List.dropWhile_cons_of_pos hc, List.length_cons,
        List.drop_succ_cons, ih]

theorem head_dropWhile {p : Char → Bool} {l : Str} {e : Char} (h : (l.dropWhile p).head? = some e) :
    p e = false := by
  cases hd : l.dropWhile p with
  | nil => rw [hd] at h; cases h
  | cons c r =>
    rw [hd] at h
    cases h
    exact PP.dropWhile_head hd

theorem not_beginsLong {c : Char} {s : Str}
    (h : toUpperC c ≠ 'N' ∧ toUpperC c ≠ 'D' ∧ toUpperC c ≠ 'E' ∧ toUpperC c ≠ 'V') : ¬ BeginsLong (c :: s) := by
  rintro ⟨w, r, hr⟩
  obtain ⟨h1, h2, h3, h4⟩ := h
  have : (toUpper (c :: s)).head? = some (toUpperC c) := rfl
  rw [← hr] at this
  cases w <;> simp [Long.name] at this <;> (have t := this.symm; grind)

/-- The loop from a letter on, with or without a look for long names. -/
def loopFrom (fresh : Bool) (n : Nat) (st : St) (arg : Str) (args : List Str) : Except Err (St × List Str) :=
  if fresh then handleLoop n st arg args
  else match n with
    | 0 => .ok (st, args)
    | n + 1 => letterLoop n st arg args

/-- Add the remaining arguments. -/
def withRest (rest : List Str) : Except Err St → Except Err (St × List Str)
  | .ok st => .ok (st, rest)
  | .error e => .error e

theorem loopFrom_letter {fresh : Bool} {n : Nat} {st : St} {c : Char} {arg : Str} {args : List Str}
    (h : fresh = true → ¬ BeginsLong (c :: arg)) :
    loopFrom fresh (n + 1) st (c :: arg) args = letterLoop n st (c :: arg) args := by
  cases fresh with
  | false => rfl
  | true =>
    simp only [loopFrom, if_true, handleLoop_succ, longOption_none (h rfl), List.isEmpty_cons,
      Bool.false_eq_true, if_false]

theorem letterLoop_ok {n : Nat} {st st' : St} {c : Char} {arg arg' : Str} {args args' : List Str}
    (h : letter st c arg args = .ok (st', arg', args')) :
    letterLoop n st (c :: arg) args = handleLoop n st' arg' args' := by
  simp only [letterLoop, h]; rfl

theorem letterLoop_error {n : Nat} {st : St} {c : Char} {arg : Str} {args : List Str} {e : Err}
    (h : letter st c arg args = .error e) : letterLoop n st (c :: arg) args = .error e := by
  simp only [letterLoop, h]; rfl

theorem handleLoop_nil (n : Nat) (st : St) (args : List Str) : handleLoop n st [] args = .ok (st, args) := by
  cases n <;> rfl

/-- **Spellings**: the loop reads the items that are spelled. -/
theorem body_run {fresh : Bool} {items : List Item} {text : Str} {more : List Str}
    (h : Body fresh items text more) :
    ∀ (n : Nat) (st : St) (rest : List Str), text.length ≤ n →
      loopFrom fresh n st text (more ++ rest) = withRest rest (applyItems st items) := by
  induction h with
  | @nil fresh =>
    intro n st rest _
    cases fresh with
    | true => simp only [loopFrom, if_true, handleLoop_nil]; rfl
    | false => cases n <;> rfl
  | @flag fresh c items text more hc hl hb ih =>
    intro n st rest hn
    obtain ⟨n, rfl⟩ : ∃ m, n = m + 1 := ⟨n - 1, by simp at hn; omega⟩
    rw [loopFrom_letter hl]
    simp only [List.length_cons] at hn
    have hlet := letter_simple (st := st) (arg := text) (args := more ++ rest) hc
    simp only [applyItems]
    cases ha : applyItem st (.flag c) with
    | error e => rw [ha] at hlet; rw [letterLoop_error hlet]; rfl
    | ok st' =>
      rw [ha] at hlet; rw [letterLoop_ok hlet]
      exact ih n st' rest (by omega)
  | @jobs fresh c m items text more hc hm hne ht hb ih =>
    intro n st rest hn
    obtain ⟨n, rfl⟩ : ∃ k, n = k + 1 := ⟨n - 1, by simp at hn; omega⟩
    rw [loopFrom_letter (fun _ => not_beginsLong (by rw [hc]; decide))]
    simp only [List.length_cons, List.length_append] at hn
    have hlet := letter_jobs (st := st) (arg := m ++ text) (args := more ++ rest) hc
    have hj : jobsArg (m ++ text) (more ++ rest) = .ok (m, text, more ++ rest) := by
      unfold jobsArg
      rw [if_neg (by simpa using hne)]
      simp only [takeWhile_digits hm ht, List.drop_left]
    simp only [hj] at hlet
    simp only [applyItems]
    cases ha : applyItem st (.jobs c m) with
    | error e => rw [ha] at hlet; rw [letterLoop_error hlet]; rfl
    | ok st' =>
      rw [ha] at hlet; rw [letterLoop_ok hlet]
      exact ih n st' rest (by omega)
  | @jobsNext fresh c m hc =>
    intro n st rest hn
    obtain ⟨n, rfl⟩ : ∃ k, n = k + 1 := ⟨n - 1, by simp at hn; omega⟩
    rw [loopFrom_letter (fun _ => not_beginsLong (by rw [hc]; decide))]
    have hlet := letter_jobs (st := st) (arg := []) (args := m :: rest) hc
    have hj : jobsArg [] (m :: rest) = .ok (m, [], rest) := rfl
    simp only [hj] at hlet
    simp only [applyItems, List.cons_append, List.nil_append]
    cases ha : applyItem st (.jobs c m) with
    | error e => rw [ha] at hlet; rw [letterLoop_error hlet]; rfl
    | ok st' => rw [ha] at hlet; rw [letterLoop_ok hlet, handleLoop_nil]; rfl
  | @file fresh c name hc hne =>
    intro n st rest hn
    obtain ⟨n, rfl⟩ : ∃ k, n = k + 1 := ⟨n - 1, by simp at hn; omega⟩
    rw [loopFrom_letter (fun _ => not_beginsLong (by rw [hc]; decide))]
    have hlet := letter_file (st := st) (arg := name) (args := rest) hc
    have hj : fileArg name rest = .ok (name, rest) := by
      unfold fileArg; rw [if_neg (by simpa using hne)]
    simp only [hj] at hlet
    simp only [applyItems, List.nil_append]
    rw [letterLoop_ok hlet, handleLoop_nil]; rfl
  | @fileNext fresh c name hc =>
    intro n st rest hn
    obtain ⟨n, rfl⟩ : ∃ k, n = k + 1 := ⟨n - 1, by simp at hn; omega⟩
    rw [loopFrom_letter (fun _ => not_beginsLong (by rw [hc]; decide))]
    have hlet := letter_file (st := st) (arg := []) (args := name :: rest) hc
    simp only [applyItems, List.cons_append, List.nil_append]
    rw [letterLoop_ok hlet, handleLoop_nil]; rfl
  | @errFile fresh c name hc hne =>
    intro n st rest hn
    obtain ⟨n, rfl⟩ : ∃ k, n = k + 1 := ⟨n - 1, by simp at hn; omega⟩
    rw [loopFrom_letter (fun _ => not_beginsLong (by rw [hc]; decide))]
    have hlet := letter_errFile (st := st) (arg := name) (args := rest) hc
    have hj : fileArg name rest = .ok (name, rest) := by
      unfold fileArg; rw [if_neg (by simpa using hne)]
    simp only [hj] at hlet
    simp only [applyItems, List.nil_append]
    rw [letterLoop_ok hlet, handleLoop_nil]; rfl
  | @errFileNext fresh c name hc =>
    intro n st rest hn
    obtain ⟨n, rfl⟩ : ∃ k, n = k + 1 := ⟨n - 1, by simp at hn; omega⟩
    rw [loopFrom_letter (fun _ => not_beginsLong (by rw [hc]; decide))]
    have hlet := letter_errFile (st := st) (arg := []) (args := name :: rest) hc
    simp only [applyItems, List.cons_append, List.nil_append]
    rw [letterLoop_ok hlet, handleLoop_nil]; rfl
  | @long w t text items more ht hd hb ih =>
    intro n st rest hn
    have hl : t.length = w.name.length := by rw [← ht]; simp only [toUpper, List.length_map]
    have hw := name_length w
    rw [List.length_append] at hn
    obtain ⟨n, rfl⟩ : ∃ k, n = k + 1 := ⟨n - 1, by omega⟩
    have hne : (t ++ text).isEmpty = false := by
      cases t with
      | nil => simp at hl; omega
      | cons _ _ => rfl
    simp only [loopFrom, if_true, handleLoop_succ, longOption_some ht hd, hne, Bool.false_eq_true, if_false,
      applyItems, applyItem]
    have := ih (n + 1) (applyLong st w) rest (by omega)
    simpa only [loopFrom, Bool.false_eq_true, if_false] using this

/-- Nothing else is accepted. -/
theorem run_body : ∀ (n : Nat) (fresh : Bool) (st st' : St) (text : Str) (args rest : List Str),
    text.length ≤ n → (fresh = false → 0 < n) → loopFrom fresh n st text args = .ok (st', rest) →
      ∃ (items : List Item) (more : List Str), Body fresh items text more ∧ args = more ++ rest := by
  intro n
  induction n using Nat.strongRecOn with
  | _ n IH =>
    have letters : ∀ (m : Nat) (fresh : Bool) (st st' : St) (c : Char) (arg : Str) (args rest : List Str),
        m < n → arg.length ≤ m → (fresh = true → ¬ BeginsLong (c :: arg)) →
        letterLoop m st (c :: arg) args = .ok (st', rest) →
        ∃ (items : List Item) (more : List Str), Body fresh items (c :: arg) more ∧ args = more ++ rest := by
      intro m fresh st st' c arg args rest hm hlen hl h
      cases hlet : letter st c arg args with
      | error e => rw [letterLoop_error hlet] at h; cases h
      | ok x =>
        obtain ⟨s1, a1, r1⟩ := x
        rw [letterLoop_ok hlet] at h
        rcases letter_cases hlet with hc | hc | hc | hc
        · rw [letter_simple hc] at hlet
          cases ha : applyItem st (.flag c) with
          | error e => rw [ha] at hlet; cases hlet
          | ok s2 =>
            rw [ha] at hlet
            cases hlet
            obtain ⟨items, more, hb, he⟩ := IH m hm true s1 st' arg args rest hlen (by simp)
              (by simpa only [loopFrom, if_true] using h)
            exact ⟨_, more, .flag hc hl hb, he⟩
        · rw [letter_file hc] at hlet
          cases arg with
          | nil =>
            cases args with
            | nil => simp only [fileArg, List.isEmpty_nil, if_true] at hlet; cases hlet
            | cons a r =>
              simp only [fileArg, List.isEmpty_nil, if_true, applyItem] at hlet
              cases hlet
              rw [handleLoop_nil] at h
              cases h
              exact ⟨_, [a], .fileNext hc, rfl⟩
          | cons b t =>
            simp only [fileArg, List.isEmpty_cons, Bool.false_eq_true, if_false, applyItem] at hlet
            cases hlet
            rw [handleLoop_nil] at h
            cases h
            exact ⟨_, [], .file hc (by simp), rfl⟩
        · rw [letter_errFile hc] at hlet
          cases arg with
          | nil =>
            cases args with
            | nil => simp only [fileArg, List.isEmpty_nil, if_true] at hlet; cases hlet
            | cons a r =>
              simp only [fileArg, List.isEmpty_nil, if_true, applyItem] at hlet
              cases hlet
              rw [handleLoop_nil] at h
              cases h
              exact ⟨_, [a], .errFileNext hc, rfl⟩
          | cons b t =>
            simp only [fileArg, List.isEmpty_cons, Bool.false_eq_true, if_false, applyItem] at hlet
            cases hlet
            rw [handleLoop_nil] at h
            cases h
            exact ⟨_, [], .errFile hc (by simp), rfl⟩
        · rw [letter_jobs hc] at hlet
          cases arg with
          | nil =>
            cases args with
            | nil => simp only [jobsArg, List.isEmpty_nil, if_true] at hlet; cases hlet
            | cons a r =>
              simp only [jobsArg, List.isEmpty_nil, if_true] at hlet
              cases ha : applyItem st (.jobs c a) with
              | error e => rw [ha] at hlet; cases hlet
              | ok s2 =>
                rw [ha] at hlet
                cases hlet
                rw [handleLoop_nil] at h
                cases h
                exact ⟨_, [a], .jobsNext hc, rfl⟩
          | cons b t =>
            simp only [jobsArg, List.isEmpty_cons, Bool.false_eq_true, if_false] at hlet
            generalize hd : (b :: t).takeWhile isDigit = d at hlet
            cases ha : applyItem st (.jobs c d) with
            | error e => rw [ha] at hlet; cases hlet
            | ok s2 =>
              rw [ha] at hlet
              cases hlet
              have hsplit : b :: t = d ++ (b :: t).drop d.length := by
                rw [← hd]
                exact (List.takeWhile_append_dropWhile (p := isDigit)).symm.trans (by
                  rw [drop_takeWhile])
              obtain ⟨items, more, hb, he⟩ := IH m hm true s1 st' ((b :: t).drop d.length) args rest
                (by rw [List.length_drop]; omega) (by simp) (by simpa only [loopFrom, if_true] using h)
              refine ⟨.jobs c d :: items, more, ?_, he⟩
              rw [hsplit]
              refine .jobs hc ?_ ?_ ?_ hb
              · rw [← hd]; exact List.all_takeWhile
              · rw [← hsplit]; simp
              · intro e he
                rw [← hd, drop_takeWhile] at he
                exact head_dropWhile he
    intro fresh st st' text args rest hlen hpos h
    cases fresh with
    | false =>
      obtain ⟨m, rfl⟩ : ∃ k, n = k + 1 := ⟨n - 1, by have := hpos rfl; omega⟩
      simp only [loopFrom, Bool.false_eq_true, if_false] at h
      cases text with
      | nil => cases h; exact ⟨[], [], .nil, rfl⟩
      | cons c arg => exact letters m false st st' c arg args rest (by omega) (by simpa using hlen) (by simp) h
    | true =>
      simp only [loopFrom, if_true] at h
      cases text with
      | nil => rw [handleLoop_nil] at h; cases h; exact ⟨[], [], .nil, rfl⟩
      | cons c arg =>
        obtain ⟨m, rfl⟩ : ∃ k, n = k + 1 := ⟨n - 1, by simp at hlen; omega⟩
        by_cases hl : BeginsLong (c :: arg)
        · obtain ⟨w, t, text, e, ht, hd⟩ := beginsLong_split hl
          have hlt : t.length = w.name.length := by rw [← ht]; simp only [toUpper, List.length_map]
          have hw := name_length w
          rw [e] at h hlen ⊢
          have hne : (t ++ text).isEmpty = false := by
            cases t with
            | nil => simp at hlt; omega
            | cons _ _ => rfl
          rw [handleLoop_succ, longOption_some ht hd, hne] at h
          simp only [Bool.false_eq_true, if_false] at h
          rw [List.length_append] at hlen
          have : ∃ (items : List Item) (more : List Str), Body false items text more ∧ args = more ++ rest := by
            cases text with
            | nil => cases h; exact ⟨[], [], .nil, rfl⟩
            | cons d r =>
              simp only [List.length_cons] at hlen
              exact letters m false _ st' d r args rest (by omega) (by omega) (by simp) h
          obtain ⟨items, more, hb, he⟩ := this
          exact ⟨_, more, .long ht hd hb, he⟩
        · rw [handleLoop_succ, longOption_none hl] at h
          simp only [List.isEmpty_cons, Bool.false_eq_true, if_false] at h
          exact letters m true st st' c arg args rest (by omega) (by simpa using hlen) (fun _ => hl) h

end Jom.Cmd
