import Verif.Proofs.StrLemmas

/-! Property C49: `splitCommandLine` undoes quoting. -/

namespace Jom.Spec

/-- Doubling of quotes inside a quoted argument. -/
def dbl (a : Str) : Str := a.flatMap fun c => if c = '"' then ['"', '"'] else [c]

/-- How an argument may be written: bare, or enclosed in quotes with its quotes doubled. -/
inductive ArgText : Str → Str → Prop
  | bare {a} : a ≠ [] → (∀ c ∈ a, isSpace c = false ∧ c ≠ '"') → ArgText a a
  | quoted {a} : Tight a → (∃ c ∈ a, c ≠ '"') → ArgText a ('"' :: (dbl a ++ ['"']))

/-- A command line: arguments separated by blanks. -/
inductive CmdLine : List Str → Str → Prop
  | nil {b} : (∀ c ∈ b, isSpace c = true) → CmdLine [] b
  | cons {b a t as rest} : (∀ c ∈ b, isSpace c = true) → ArgText a t → CmdLine as rest →
      (rest = [] ∨ ∃ c r, rest = c :: r ∧ isSpace c = true) → CmdLine (a :: as) (b ++ t ++ rest)

end Jom.Spec

namespace Jom.Props
open Jom Jom.Spec

theorem split_blanks (b s : Str) (esc : Bool) (args : List Str) (hb : ∀ c ∈ b, isSpace c = true) :
    splitCommandLineGo (b ++ s) [] (if b = [] then esc else false) false args =
      splitCommandLineGo s [] (if b = [] then esc else false) false args := by
  induction b with
  | nil => rfl
  | cons c b ih =>
    have hc := hb c (by simp)
    simp only [List.cons_append, splitCommandLineGo, hc, Bool.not_false, Bool.and_true, if_true]
    have : trimmed ([] : Str) = [] := rfl
    simp only [this, List.isEmpty_nil, Bool.not_true, Bool.false_eq_true, if_false, reduceCtorEq]
    have := ih (fun d hd => hb d (by simp [hd]))
    by_cases hbn : b = []
    · subst hbn; rfl
    · simpa [hbn] using this

theorem split_bare (a s str : Str) (esc : Bool) (args : List Str)
    (ha : ∀ c ∈ a, isSpace c = false ∧ c ≠ '"') (hne : a ≠ []) :
    splitCommandLineGo (a ++ s) str esc false args = splitCommandLineGo s (str ++ a) false false args := by
  induction a generalizing str esc with
  | nil => exact absurd rfl hne
  | cons c a ih =>
    obtain ⟨h1, h2⟩ := ha c (by simp)
    have hq : (c == '"') = false := by simpa using h2
    simp only [List.cons_append, splitCommandLineGo, h1, Bool.false_and, Bool.false_eq_true, if_false, hq]
    by_cases hn : a = []
    · subst hn; simp
    · rw [ih _ _ (fun d hd => ha d (by simp [hd])) hn]; simp

theorem split_dbl (a s str : Str) (args : List Str) :
    splitCommandLineGo (dbl a ++ s) str false true args = splitCommandLineGo s (str ++ a) false true args := by
  induction a generalizing str with
  | nil => simp [dbl]
  | cons c a ih =>
    have hd : dbl (c :: a) = (if c = '"' then ['"', '"'] else [c]) ++ dbl a := rfl
    rw [hd]
    by_cases hc : c = '"'
    · subst hc
      have hs : isSpace '"' = false := by decide
      simp only [if_true, List.cons_append, List.nil_append, splitCommandLineGo, hs, Bool.false_and,
        Bool.false_eq_true, if_false, beq_self_eq_true, Bool.not_true, Bool.not_false]
      rw [ih]; simp
    · have hq : (c == '"') = false := by simpa using hc
      simp only [hc, if_false, List.cons_append, List.nil_append, splitCommandLineGo, hq, Bool.not_true,
        Bool.and_false, Bool.false_eq_true]
      rw [ih]; simp

theorem split_dbl_esc (a s str : Str) (args : List Str) (h : ∃ c ∈ a, c ≠ '"') :
    splitCommandLineGo (dbl a ++ s) str true true args = splitCommandLineGo s (str ++ a) false true args := by
  induction a generalizing str with
  | nil => obtain ⟨c, hc, _⟩ := h; cases hc
  | cons c a ih =>
    have hd : dbl (c :: a) = (if c = '"' then ['"', '"'] else [c]) ++ dbl a := rfl
    rw [hd]
    by_cases hc : c = '"'
    · subst hc
      have hs : isSpace '"' = false := by decide
      simp only [if_true, List.cons_append, List.nil_append, splitCommandLineGo, hs, Bool.false_and,
        Bool.false_eq_true, if_false, beq_self_eq_true, Bool.not_true, Bool.not_false]
      rw [ih]
      · simp
      · obtain ⟨d, hd, hne⟩ := h
        simp only [List.mem_cons] at hd
        rcases hd with rfl | hd
        · exact absurd rfl hne
        · exact ⟨d, hd, hne⟩
    · have hq : (c == '"') = false := by simpa using hc
      simp only [hc, if_false, List.cons_append, List.nil_append, splitCommandLineGo, hq, Bool.not_true,
        Bool.and_false, Bool.false_eq_true]
      rw [split_dbl]; simp

theorem split_arg {a t : Str} (h : ArgText a t) (s : Str) (args : List Str) :
    a ≠ [] ∧ trimmed a = a ∧ ∃ esc, splitCommandLineGo (t ++ s) [] false false args =
      splitCommandLineGo s a esc false args := by
  cases h with
  | bare hne ha =>
    refine ⟨hne, trimmed_tight ⟨?_, ?_⟩, false, by simpa using split_bare a s [] false args ha hne⟩
    · intro c r e; exact (ha c (by simp [e])).1
    · intro c r e; exact (ha c (by simp [e])).1
  | quoted ht hex =>
    refine ⟨?_, trimmed_tight ht, true, ?_⟩
    · rintro rfl; obtain ⟨c, hc, _⟩ := hex; cases hc
    · have hs : isSpace '"' = false := by decide
      simp only [List.cons_append, splitCommandLineGo, hs, Bool.false_and,
        Bool.false_eq_true, if_false, beq_self_eq_true, if_true, Bool.not_false]
      rw [List.append_assoc, split_dbl_esc a _ [] args hex]
      simp only [List.cons_append, List.nil_append, splitCommandLineGo, hs, Bool.false_and,
        Bool.false_eq_true, if_false, beq_self_eq_true, if_true, Bool.not_true]

/-- Splitting a command line returns exactly the arguments it was built from, in order.
Restrictions (each necessary, see below): an argument written in quotes must not start or end with a
blank and must contain a character other than `"`. -/
theorem C49_split_undoes_quoting_partial (as : List Str) (line : Str) (h : CmdLine as line) :
    splitCommandLine line = as := by
  have key : ∀ (as : List Str) (line : Str), CmdLine as line → ∀ args,
      splitCommandLineGo (line ++ [' ']) [] false false args = args ++ as := by
    intro as line h
    induction h with
    | @nil b hb =>
      intro args
      have := split_blanks (b ++ [' ']) [] false args (by
        intro c hc
        simp only [List.mem_append, List.mem_singleton] at hc
        rcases hc with hc | rfl
        · exact hb c hc
        · decide)
      simpa [splitCommandLineGo] using this
    | @cons b a t as rest hb ha hrest hsep ih =>
      intro args
      have h1 := split_blanks b (t ++ (rest ++ [' '])) false args hb
      simp only [ite_self] at h1
      rw [List.append_assoc, List.append_assoc, h1]
      obtain ⟨hne, htr, esc, hs⟩ := split_arg ha (rest ++ [' ']) args
      rw [hs]
      have hemp : a.isEmpty = false := by simpa using hne
      rcases hsep with rfl | ⟨c, r, rfl, hc⟩
      · have : isSpace ' ' = true := by decide
        simp only [List.nil_append, splitCommandLineGo, this, Bool.not_false, Bool.and_true, if_true, htr, hemp]
        generalize hx : ([] : Str) = rest at hrest
        cases hrest with
        | nil _ => rfl
        | cons _ ha' _ _ =>
          exfalso
          have hx := hx.symm
          simp only [List.append_eq_nil_iff] at hx
          obtain ⟨⟨_, rfl⟩, _⟩ := hx
          cases ha' with
          | bare h _ => exact h rfl
      · simp only [List.cons_append, splitCommandLineGo, hc, Bool.not_false, Bool.and_true, if_true, htr, hemp]
        have := ih (args ++ [a])
        have h2 : splitCommandLineGo (c :: r ++ [' ']) [] false false (args ++ [a]) =
            splitCommandLineGo (r ++ [' ']) [] false false (args ++ [a]) := by
          have := split_blanks [c] (r ++ [' ']) false (args ++ [a]) (by simpa using hc)
          simpa using this
        rw [h2] at this
        rw [this]; simp
  have := key as line h []
  simpa [splitCommandLine] using this

/-- Non-trivial instance: `  a "b c" "say ""hi"" now"`. -/
example : CmdLine [c!"a", c!"b c", c!"say \"hi\" now"] c!"  a \"b c\"\t\"say \"\"hi\"\" now\"" ∧
    splitCommandLine c!"  a \"b c\"\t\"say \"\"hi\"\" now\"" = [c!"a", c!"b c", c!"say \"hi\" now"] := by
  have tight : ∀ (a : Str), (∀ c ∈ a.head?, isSpace c = false) → (∀ c ∈ a.getLast?, isSpace c = false) →
      Tight a := by
    intro a h1 h2
    exact ⟨fun c r e => h1 c (by simp [e]), fun c r e => h2 c (by simp [e])⟩
  refine ⟨?_, by decide +kernel⟩
  refine CmdLine.cons (b := c!"  ") (t := c!"a") (rest := c!" \"b c\"\t\"say \"\"hi\"\" now\"") (by decide)
    (.bare (by decide) (by decide)) ?_ (Or.inr ⟨' ', _, rfl, by decide⟩)
  refine CmdLine.cons (b := c!" ") (t := c!"\"b c\"") (rest := c!"\t\"say \"\"hi\"\" now\"") (by decide)
    (.quoted (tight _ (by decide) (by decide)) ⟨'b', by decide, by decide⟩) ?_ (Or.inr ⟨'\t', _, rfl, by decide⟩)
  exact CmdLine.cons (b := c!"\t") (t := c!"\"say \"\"hi\"\" now\"") (rest := []) (by decide)
    (.quoted (tight _ (by decide) (by decide)) ⟨'s', by decide, by decide⟩) (.nil (by decide)) (Or.inl rfl)

/-- Where the full claim fails: an empty argument comes back as `"`, an argument consisting of a quote
comes back doubled, and blanks at the ends of a quoted argument are lost. -/
theorem C49_refuted_corner_cases :
    splitCommandLine c!"\"\"" = [c!"\""] ∧ splitCommandLine c!"\"\"\"\"" = [c!"\"\""] ∧
    splitCommandLine c!"\" a \"" = [c!"a"] := by decide +kernel

end Jom.Props
