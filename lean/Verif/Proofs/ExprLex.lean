/-
The scanner turns written pieces into their tokens.
-/
import Verif.Spec.ExprText
import Verif.Proofs.StrLemmas
import Verif.Proofs.PathLemmas

namespace Jom.Expr
open Jom.Spec

/-- Scanning from `s` gives the tokens of `ps` and ends in the initial start condition. -/
def Lexes (w : Oracle) (s : LexSt) (ps : List Piece) : Prop :=
  ∀ f, s.text.length < f →
    List.Forall₂ (Means w) ps ((lexF w f s).1.map Prod.fst) ∧ (lexF w f s).2.start = .initial

theorem Lexes.nil (w : Oracle) {s : LexSt} (h1 : s.text = []) (h2 : s.start = .initial) : Lexes w s [] := by
  intro f hf
  cases f with
  | zero => omega
  | succ f =>
    unfold lexF
    rw [if_pos h1]
    exact ⟨.nil, h2⟩

theorem Lexes.again {w : Oracle} {s s' : LexSt} {ps : List Piece} (h : scan w s = .again s')
    (hl : s'.text.length < s.text.length) (hs : Lexes w s' ps) : Lexes w s ps := by
  intro f hf
  cases f with
  | zero => omega
  | succ f =>
    unfold lexF
    rw [if_neg (by intro h0; rw [h0] at hl; simp at hl), h]
    exact hs f (by omega)

theorem Lexes.token {w : Oracle} {s s' : LexSt} {p : Piece} {ps : List Piece} {id : Nat} (h : scan w s = .token id s')
    (hl : s'.text.length < s.text.length) (hp : Means w p (.tok id s'.yylval)) (hs : Lexes w s' ps) : Lexes w s (p :: ps) := by
  intro f hf
  cases f with
  | zero => omega
  | succ f =>
    unfold lexF
    rw [if_neg (by intro h0; rw [h0] at hl; simp at hl), h]
    obtain ⟨h1, h2⟩ := hs f (by omega)
    exact ⟨.cons hp h1, h2⟩

theorem isDigit_blank {c : Char} (h : c = ' ' ∨ c = '\t') : isDigit c = false := by
  rcases h with rfl | rfl <;> rfl

theorem isDigit_not {c : Char} (h : isDigit c = true) : c ≠ ' ' ∧ c ≠ '\t' := by
  constructor <;> (rintro rfl; revert h; decide)

theorem takeWhile_stop {p : Char → Bool} {a b : Str} {c : Char} (ha : ∀ x ∈ a, p x = true) (hc : p c = false) :
    (a ++ c :: b).takeWhile p = a ∧ (a ++ c :: b).dropWhile p = c :: b := by
  induction a with
  | nil => simp [hc]
  | cons x a ih =>
    obtain ⟨h1, h2⟩ := ih fun y hy => ha y (by simp [hy])
    simp only [List.cons_append, List.takeWhile_cons, List.dropWhile_cons, ha x (by simp), if_true, h1, h2, and_self]

/-- Blanks between pieces. -/
theorem lexes_blanks {w : Oracle} {yl : Value} {b t : Str} {ps : List Piece} (hb : Blanks b)
    (ht : ∀ c r, t = c :: r → c ≠ ' ' ∧ c ≠ '\t') (h : Lexes w ⟨.initial, yl, t⟩ ps) : Lexes w ⟨.initial, yl, b ++ t⟩ ps := by
  cases b with
  | nil => exact h
  | cons c b =>
    have hc := hb c (by simp)
    have hdrop : ((c :: b) ++ t).dropWhile (fun c => c == ' ' || c == '\t') = t := by
      have hall : ∀ x ∈ c :: b, (x == ' ' || x == '\t') = true := by
        intro x hx
        rcases hb x hx with rfl | rfl <;> rfl
      cases t with
      | nil =>
        rw [List.append_nil]
        have hdw : ∀ l : Str, (∀ x ∈ l, (x == ' ' || x == '\t') = true) → l.dropWhile (fun c => c == ' ' || c == '\t') = [] := by
          intro l
          induction l with
          | nil => exact fun _ => rfl
          | cons y l ih =>
            intro hl
            rw [List.dropWhile_cons, if_pos (hl y (by simp))]
            exact ih fun z hz => hl z (by simp [hz])
        exact hdw _ hall
      | cons d t =>
        have := ht d t rfl
        exact (takeWhile_stop hall (by simp [this])).2
    refine Lexes.again (s' := ⟨.initial, yl, t⟩) ?_ ?_ h
    · simp only [scan, scanInitial, List.cons_append]
      rw [if_pos hc]
      rw [List.cons_append] at hdrop
      rw [hdrop]
    · simp only [List.length_append, List.length_cons]
      omega

theorem atoi_acc (d : Str) (n : Nat) : d.foldl (fun n c => 10 * n + (c.toNat - 48)) n = n * 10 ^ d.length + decimal d := by
  induction d generalizing n with
  | nil => simp [decimal]
  | cons c d ih =>
    simp only [List.foldl_cons, ih, decimal, List.length_cons, Nat.pow_succ]
    grind

theorem atoi_decimal (d : Str) : atoi d = decimal d := by
  unfold atoi
  rw [atoi_acc]
  simp

theorem takeWhile_end {p : Char → Bool} {a b : Str} (ha : ∀ x ∈ a, p x = true) (hb : ∀ c r, b = c :: r → p c = false) :
    (a ++ b).takeWhile p = a ∧ (a ++ b).dropWhile p = b := by
  cases b with
  | cons c r => exact takeWhile_stop ha (hb c r rfl)
  | nil =>
    rw [List.append_nil]
    induction a with
    | nil => simp
    | cons x a ih =>
      obtain ⟨h1, h2⟩ := ih fun y hy => ha y (by simp [hy])
      simp only [List.takeWhile_cons, List.dropWhile_cons, ha x (by simp), if_true, h1, h2, and_self]

theorem lexes_number {w : Oracle} {yl : Value} {d t : Str} {ps : List Piece} (hd : d ≠ [])
    (h1 : ∀ c ∈ d, isDigit c = true) (h2 : decimal d ≤ 2147483647) (hc : ∀ c r, t = c :: r → isDigit c = false)
    (h : ∀ yl, Lexes w ⟨.initial, yl, t⟩ ps) : Lexes w ⟨.initial, yl, d ++ t⟩ (.number d :: ps) := by
  obtain ⟨x, d, rfl⟩ := List.exists_cons_of_ne_nil hd
  have hx := h1 x (by simp)
  obtain ⟨ht1, ht2⟩ := takeWhile_end (p := isDigit) (a := x :: d) (b := t) h1 hc
  rw [List.cons_append] at ht1 ht2
  have hx' := isDigit_not hx
  refine Lexes.token (id := 1) (s' := ⟨.initial, .num (decimal (x :: d)), t⟩) ?_ ?_ rfl (h _)
  · simp only [scan, scanInitial, List.cons_append]
    rw [if_neg (by simp [hx']), if_pos hx, ht1, ht2, atoi_decimal, if_pos h2]
  · simp only [List.length_append, List.length_cons]
    omega

theorem lexes_op {w : Oracle} {yl : Value} {id : Nat} {t : Str} {ps : List Piece} (h1 : 3 ≤ id) (h2 : id ≤ 23)
    (hc : ∀ c r, t = c :: r → ∀ id', opText id' ≠ opText id ++ [c]) (h : ∀ yl, Lexes w ⟨.initial, yl, t⟩ ps) :
    Lexes w ⟨.initial, yl, opText id ++ t⟩ (.op id :: ps) := by
  have key : scan w ⟨.initial, yl, opText id ++ t⟩ = .token id ⟨.initial, yl, t⟩ ∧ 1 ≤ (opText id).length := by
    match id, h1, h2 with
    | 3, _, _ | 4, _, _ | 7, _, _ | 8, _, _ | 11, _, _ | 12, _, _ | 13, _, _
    | 14, _, _ | 15, _, _ | 16, _, _ | 17, _, _ | 18, _, _ | 19, _, _ | 20, _, _ | 22, _, _ | 23, _, _ =>
      exact ⟨rfl, by decide⟩
    | 5, _, _ =>
      refine ⟨?_, by decide⟩
      cases t with
      | nil => rfl
      | cons c r =>
        have h1 : c ≠ '&' := by rintro rfl; exact hc _ _ rfl 3 rfl
        simp [scan, scanInitial, operator, opText, h1, isDigit]
    | 6, _, _ =>
      refine ⟨?_, by decide⟩
      cases t with
      | nil => rfl
      | cons c r =>
        have h1 : c ≠ '|' := by rintro rfl; exact hc _ _ rfl 4 rfl
        simp [scan, scanInitial, operator, opText, h1, isDigit]
    | 9, _, _ =>
      refine ⟨?_, by decide⟩
      cases t with
      | nil => rfl
      | cons c r =>
        have h1 : c ≠ '=' := by rintro rfl; exact hc _ _ rfl 11 rfl
        have h2 : c ≠ '<' := by rintro rfl; exact hc _ _ rfl 13 rfl
        simp [scan, scanInitial, operator, opText, h1, h2, isDigit]
    | 10, _, _ =>
      refine ⟨?_, by decide⟩
      cases t with
      | nil => rfl
      | cons c r =>
        have h1 : c ≠ '=' := by rintro rfl; exact hc _ _ rfl 12 rfl
        have h2 : c ≠ '>' := by rintro rfl; exact hc _ _ rfl 14 rfl
        simp [scan, scanInitial, operator, opText, h1, h2, isDigit]
    | 21, _, _ =>
      refine ⟨?_, by decide⟩
      cases t with
      | nil => rfl
      | cons c r =>
        have h1 : c ≠ '=' := by rintro rfl; exact hc _ _ rfl 8 rfl
        simp [scan, scanInitial, operator, opText, h1, isDigit]
    | n + 24, _, h => omega
  refine Lexes.token (id := id) (s' := ⟨.initial, yl, t⟩) key.1 ?_ ⟨_, rfl⟩ (h _)
  simp only [List.length_append]
  have := key.2
  omega

/-! ### Strings -/

def esc (s : Str) : Str := s.flatMap (fun c => if c = '"' then c!"\"\"" else [c])

theorem esc_quote (s : Str) : esc ('"' :: s) = '"' :: '"' :: esc s := rfl

theorem esc_run {a : Str} (s : Str) (h : ∀ c ∈ a, (c != '"' && c != '\n') = true) : esc (a ++ s) = a ++ esc s := by
  induction a with
  | nil => rfl
  | cons c a ih =>
    have hc : c ≠ '"' := by
      have := h c (by simp)
      simp at this
      exact this.1
    have := ih fun x hx => h x (by simp [hx])
    simp only [esc, List.cons_append, List.flatMap_cons, if_neg hc, List.nil_append] at this ⊢
    rw [this]

theorem lexes_string_body {w : Oracle} {t : Str} {ps : List Piece} (hc : ∀ r, t ≠ '"' :: r) (whole : Str)
    (h : ∀ yl, Lexes w ⟨.initial, yl, t⟩ ps) (n : Nat) (v s : Str) (hn : s.length ≤ n) (hs : '\n' ∉ s)
    (hw : v ++ s = whole) :
    Lexes w ⟨.string, .str v, esc s ++ '"' :: t⟩ (.string whole :: ps) := by
  induction n generalizing v s with
  | zero =>
    obtain rfl := List.length_eq_zero_iff.1 (Nat.le_zero.1 hn)
    rw [List.append_nil] at hw
    subst hw
    refine Lexes.token (id := 2) (s' := ⟨.initial, .str v, t⟩) ?_ (by simp [esc]) rfl (h _)
    simp only [scan, scanString, esc, List.flatMap_nil, List.nil_append, if_true]
  | succ n ih =>
    cases s with
    | nil =>
      rw [List.append_nil] at hw
      subst hw
      refine Lexes.token (id := 2) (s' := ⟨.initial, .str v, t⟩) ?_ (by simp [esc]) rfl (h _)
      simp only [scan, scanString, esc, List.flatMap_nil, List.nil_append, if_true]
    | cons x s =>
      by_cases hx : x = '"'
      · subst hx
        have hw' : v ++ ['"'] ++ s = whole := by simpa using hw
        refine Lexes.again (s' := ⟨.string, .str (v ++ ['"']), esc s ++ '"' :: t⟩) ?_ ?_
          (ih (v ++ ['"']) s (by simpa using hn) (fun hm => hs (by simp [hm])) hw')
        · rw [esc_quote]
          simp only [scan, scanString, List.cons_append, if_true]
        · rw [esc_quote]
          simp only [List.cons_append, List.length_cons]
          omega
      · have hxn : x ≠ '\n' := fun h0 => hs (by simp [h0])
        have hsplit := List.takeWhile_append_dropWhile (p := fun c => c != '"' && c != '\n') (l := x :: s)
        generalize ha : (x :: s).takeWhile (fun c => c != '"' && c != '\n') = a at hsplit
        generalize hr : (x :: s).dropWhile (fun c => c != '"' && c != '\n') = r at hsplit
        have hall : ∀ c ∈ a, (c != '"' && c != '\n') = true := by
          rw [← ha]
          intro c hc
          exact (List.all_eq_true.1 (List.all_takeWhile (l := x :: s) (p := fun c => c != '"' && c != '\n'))) c hc
        have hane : a ≠ [] := by
          rw [← ha, List.takeWhile_cons]
          simp [hx, hxn]
        have hstop : ∃ y, esc r ++ '"' :: t = '"' :: y := by
          cases r with
          | nil => exact ⟨_, rfl⟩
          | cons y r =>
            have hy := List.head?_dropWhile_not (p := fun c => c != '"' && c != '\n') (l := x :: s)
            rw [hr] at hy
            simp only [List.head?_cons, Bool.and_eq_false_imp, bne_iff_ne, ne_eq, bne_eq_false_iff_eq] at hy
            have hyn : y ≠ '\n' := fun h0 => hs (by rw [← hsplit, h0]; simp)
            have : y = '"' := by
              by_cases h0 : y = '"'
              · exact h0
              · exact absurd (hy h0) hyn
            subst this
            exact ⟨_, by rw [esc_quote]; rfl⟩
        obtain ⟨y, hy⟩ := hstop
        have hlen : r.length ≤ n := by
          have := congrArg List.length hsplit
          have h0 := List.length_pos_iff.2 hane
          simp only [List.length_append, List.length_cons] at this
          simp only [List.length_cons] at hn
          omega
        have hrn : '\n' ∉ r := fun hm => hs (by rw [← hsplit]; simp [hm])
        rw [← hsplit, esc_run _ hall, List.append_assoc]
        refine Lexes.again (s' := ⟨.string, .str (v ++ a), esc r ++ '"' :: t⟩) ?_ ?_
          (ih (v ++ a) r hlen hrn (by rw [List.append_assoc, hsplit]; exact hw))
        · obtain ⟨z, a', rfl⟩ := List.exists_cons_of_ne_nil hane
          have hz := hall z (by simp)
          simp only [Bool.and_eq_true, bne_iff_ne, ne_eq] at hz
          obtain ⟨ht1, ht2⟩ := takeWhile_stop (p := fun c => c != '"' && c != '\n') (a := z :: a') (b := y) (c := '"') hall rfl
          rw [hy]
          rw [List.cons_append] at ht1 ht2
          simp only [scan, scanString, List.cons_append, if_neg hz.1, if_neg hz.2, ht1, ht2]
        · have h0 := List.length_pos_iff.2 hane
          simp only [List.length_append]
          omega

theorem lexes_string {w : Oracle} {yl : Value} {t s : Str} {ps : List Piece} (hs : '\n' ∉ s) (hc : ∀ r, t ≠ '"' :: r)
    (h : ∀ yl, Lexes w ⟨.initial, yl, t⟩ ps) :
    Lexes w ⟨.initial, yl, (Piece.string s).text ++ t⟩ (.string s :: ps) := by
  have hb := lexes_string_body hc s h s.length [] s (Nat.le_refl _) hs rfl
  refine Lexes.again (s' := ⟨.string, .str [], esc s ++ '"' :: t⟩) ?_ ?_ hb
  · simp only [scan, Piece.text, List.cons_append, List.append_assoc]
    rfl
  · simp only [Piece.text, List.cons_append, List.append_assoc]
    simp [esc]

def escCmd (s : Str) : Str := s.flatMap fun c => if c = '[' ∨ c = ']' then ['^', c] else [c]

theorem isCommandChar_iff {c : Char} : isCommandChar c = true ↔ c ≠ '\n' ∧ c ≠ '[' ∧ c ≠ ']' ∧ c ≠ '^' := by
  simp [isCommandChar, and_assoc]

theorem escCmd_run {a : Str} (s : Str) (h : ∀ c ∈ a, isCommandChar c = true) : escCmd (a ++ s) = a ++ escCmd s := by
  induction a with
  | nil => rfl
  | cons c a ih =>
    have hc := isCommandChar_iff.1 (h c (by simp))
    have := ih fun x hx => h x (by simp [hx])
    rw [List.cons_append, List.cons_append, ← this]
    simp [escCmd, hc.2.1, hc.2.2.1]

theorem lexes_shell_body {w : Oracle} {t : Str} {ps : List Piece} (whole : Str)
    (h : ∀ yl, Lexes w ⟨.initial, yl, t⟩ ps) (n : Nat) (v s : Str) (hn : s.length ≤ n) (hs : '\n' ∉ s) (hs' : '^' ∉ s)
    (hw : v ++ s = whole) :
    Lexes w ⟨.shell, .str v, escCmd s ++ ']' :: t⟩ (.shell whole :: ps) := by
  have base : ∀ v, v = whole → Lexes w ⟨.shell, .str v, escCmd [] ++ ']' :: t⟩ (.shell whole :: ps) := by
    rintro v rfl
    exact Lexes.token (id := 1) (s' := ⟨.initial, .num (w.system v), t⟩) rfl (by simp [escCmd]) rfl (h _)
  induction n generalizing v s with
  | zero =>
    obtain rfl := List.length_eq_zero_iff.1 (Nat.le_zero.1 hn)
    exact base v (by simpa using hw)
  | succ n ih =>
    cases s with
    | nil => exact base v (by simpa using hw)
    | cons x s =>
      have hxn : x ≠ '\n' := fun h0 => hs (by simp [h0])
      have hxc : x ≠ '^' := fun h0 => hs' (by simp [h0])
      by_cases hx : x = '[' ∨ x = ']'
      · have he : escCmd (x :: s) = '^' :: x :: escCmd s := by simp [escCmd, hx]
        refine Lexes.again (s' := ⟨.shell, .str (v ++ [x]), escCmd s ++ ']' :: t⟩) ?_ ?_
          (ih (v ++ [x]) s (by simpa using hn) (fun hm => hs (by simp [hm])) (fun hm => hs' (by simp [hm])) (by simpa using hw))
        · rw [he]
          rcases hx with rfl | rfl <;> rfl
        · rw [he]
          simp only [List.cons_append, List.length_cons]
          omega
      · have hxcmd : isCommandChar x = true := isCommandChar_iff.2 ⟨hxn, fun h => hx (.inl h), fun h => hx (.inr h), hxc⟩
        have hsplit := List.takeWhile_append_dropWhile (p := isCommandChar) (l := x :: s)
        generalize ha : (x :: s).takeWhile isCommandChar = a at hsplit
        generalize hr : (x :: s).dropWhile isCommandChar = r at hsplit
        have hall : ∀ c ∈ a, isCommandChar c = true := by
          rw [← ha]
          intro c hc
          exact (List.all_eq_true.1 (List.all_takeWhile (l := x :: s) (p := isCommandChar))) c hc
        have hane : a ≠ [] := by
          rw [← ha, List.takeWhile_cons, if_pos hxcmd]
          simp
        have hstop : ∃ c y, escCmd r ++ ']' :: t = c :: y ∧ isCommandChar c = false := by
          cases r with
          | nil => exact ⟨_, _, rfl, by decide⟩
          | cons y r =>
            have hy := List.head?_dropWhile_not (p := isCommandChar) (l := x :: s)
            rw [hr] at hy
            simp only [List.head?_cons] at hy
            by_cases hb : y = '[' ∨ y = ']'
            · exact ⟨'^', y :: (escCmd r ++ ']' :: t), by simp [escCmd, hb], by decide⟩
            · exact ⟨y, escCmd r ++ ']' :: t, by simp [escCmd, hb], hy⟩
        obtain ⟨c, y, hy, hc⟩ := hstop
        have hlen : r.length ≤ n := by
          have := congrArg List.length hsplit
          have h0 := List.length_pos_iff.2 hane
          simp only [List.length_append, List.length_cons] at this
          simp only [List.length_cons] at hn
          omega
        have hrn : '\n' ∉ r := fun hm => hs (by rw [← hsplit]; simp [hm])
        have hrc : '^' ∉ r := fun hm => hs' (by rw [← hsplit]; simp [hm])
        rw [← hsplit, escCmd_run _ hall, List.append_assoc]
        refine Lexes.again (s' := ⟨.shell, .str (v ++ a), escCmd r ++ ']' :: t⟩) ?_ ?_
          (ih (v ++ a) r hlen hrn hrc (by rw [List.append_assoc, hsplit]; exact hw))
        · obtain ⟨z, a', rfl⟩ := List.exists_cons_of_ne_nil hane
          have hz := hall z (by simp)
          have hz' := isCommandChar_iff.1 hz
          obtain ⟨ht1, ht2⟩ := takeWhile_stop (p := isCommandChar) (a := z :: a') (b := y) (c := c) hall hc
          rw [hy]
          rw [List.cons_append] at ht1 ht2
          simp only [scan, scanShell, List.cons_append, if_neg hz'.2.2.1, if_pos hz, ht1, ht2]
        · have h0 := List.length_pos_iff.2 hane
          simp only [List.length_append]
          omega

theorem lexes_shell {w : Oracle} {yl : Value} {t s : Str} {ps : List Piece} (hs : '\n' ∉ s) (hs' : '^' ∉ s)
    (h : ∀ yl, Lexes w ⟨.initial, yl, t⟩ ps) :
    Lexes w ⟨.initial, yl, (Piece.shell s).text ++ t⟩ (.shell s :: ps) := by
  have hb := lexes_shell_body s h s.length [] s (Nat.le_refl _) hs hs' rfl
  refine Lexes.again (s' := ⟨.shell, .str [], escCmd s ++ ']' :: t⟩) ?_ ?_ hb
  · simp only [scan, Piece.text, List.cons_append, List.append_assoc]
    rfl
  · simp only [Piece.text, List.cons_append, List.append_assoc]
    simp [escCmd]

/-! ### Tests -/

theorem argument_text {a : Arg} (h : a.Ok) : argument a.text = a.name := by
  obtain ⟨h1, h2, h3⟩ := h
  unfold argument Arg.text
  have htight : ∀ s : Str, Tight s → s ≠ [] → trimmed (a.before ++ s ++ a.after) = s := by
    intro s hs hne
    rw [List.append_assoc, trimmed_blanks_left h1]
    unfold trimmed
    have hl : trimLeft (s ++ a.after) = s ++ a.after := by
      obtain ⟨x, s', rfl⟩ := List.exists_cons_of_ne_nil hne
      have := hs.1 x s' rfl
      simp [trimLeft, this]
    rw [hl]
    unfold trimRight
    rw [List.reverse_append, dropWhile_blanks (by intro c hc; exact h2 c (List.mem_reverse.1 hc))]
    have := trimRight_tight hs
    unfold trimRight at this
    exact this
  cases hq : a.quoted with
  | true =>
    simp only [if_true]
    rw [htight ('"' :: (a.name ++ ['"'])) ⟨?_, ?_⟩ (by simp)]
    · simp
    · rintro c r h
      simp only [List.cons.injEq] at h
      rw [← h.1]; rfl
    · rintro c r h
      have h' : ('"' :: a.name) ++ ['"'] = r ++ [c] := h
      have := (List.append_inj' h' rfl).2
      simp only [List.cons.injEq, and_true] at this
      rw [← this]; rfl
  | false =>
    obtain ⟨hne, hb', he'⟩ := h3 hq
    have hb : ∀ c r, a.name = c :: r → isSpace c = false ∧ c ≠ '"' := by
      intro c r h
      rw [h] at hb'
      simpa [plain] using hb'
    have he : ∀ c r, a.name = r ++ [c] → isSpace c = false ∧ c ≠ '"' := by
      intro c r h
      rw [h] at he'
      simpa [plain] using he'
    simp only [Bool.false_eq_true, if_false]
    rw [htight a.name ⟨fun c r h => (hb c r h).1, fun c r h => (he c r h).1⟩ hne]
    have hd : a.name.head? ≠ some '"' := by
      intro h0
      obtain ⟨r, hr⟩ := List.head?_eq_some_iff.1 h0
      exact (hb _ _ hr).2 rfl
    have hl : a.name.getLast? ≠ some '"' := by
      intro h0
      obtain ⟨r, hr⟩ := List.getLast?_eq_some_iff.1 h0
      exact (he _ _ hr).2 rfl
    rw [if_neg hd, if_neg hl]

theorem Arg.text_ne {a : Arg} (h : a.Ok) : a.text ≠ [] := by
  unfold Arg.text
  cases hq : a.quoted with
  | true => simp
  | false =>
    have := (h.2.2 hq).1
    simp [this]

theorem toUpperC_D {c : Char} (h : toUpperC c = 'D') : c = 'D' ∨ c = 'd' := by
  unfold toUpperC at h
  split at h
  · right
    rename_i hc
    have h1 := congrArg Char.toNat h
    rw [toNat_ofNat_ascii (by omega)] at h1
    have h2 : c.toNat = 100 := by
      have : ('D' : Char).toNat = 68 := rfl
      omega
    exact Char.toNat_inj.1 h2
  · exact .inl h

theorem toUpperC_E {c : Char} (h : toUpperC c = 'E') : c = 'E' ∨ c = 'e' := by
  unfold toUpperC at h
  split at h
  · right
    rename_i hc
    have h1 := congrArg Char.toNat h
    rw [toNat_ofNat_ascii (by omega)] at h1
    have h2 : c.toNat = 101 := by
      have : ('E' : Char).toNat = 69 := rfl
      omega
    exact Char.toNat_inj.1 h2
  · exact .inl h

theorem startsWithI_append {word t pat : Str} (h : toUpper word = pat) : startsWithI (word ++ t) pat = true := by
  unfold startsWithI
  have hl : word.length = pat.length := by rw [← h]; simp [toUpper]
  rw [← hl, List.take_left, h]
  simp

theorem blank_not_class {c : Char} (h : c = ' ' ∨ c = '\t') : isBlankClass c = false ∧ c ≠ '(' := by
  rcases h with rfl | rfl <;> decide

theorem lexes_defined_blanks {w : Oracle} {yl : Value} {b t : Str} {ps : List Piece} (hb : Blanks b)
    (h : Lexes w ⟨.defined, yl, t⟩ ps) : Lexes w ⟨.defined, yl, b ++ t⟩ ps := by
  induction b with
  | nil => exact h
  | cons c b ih =>
    have hc := blank_not_class (hb c (by simp))
    refine Lexes.again (s' := ⟨.defined, yl, b ++ t⟩) ?_ (by simp) (ih fun x hx => hb x (by simp [hx]))
    simp only [scan, scanDefined, List.cons_append]
    rw [hc.1, if_neg (by simp), if_neg hc.2]

theorem lexes_exist_blanks {w : Oracle} {yl : Value} {b t : Str} {ps : List Piece} (hb : Blanks b)
    (h : Lexes w ⟨.exist, yl, t⟩ ps) : Lexes w ⟨.exist, yl, b ++ t⟩ ps := by
  induction b with
  | nil => exact h
  | cons c b ih =>
    have hc := blank_not_class (hb c (by simp))
    refine Lexes.again (s' := ⟨.exist, yl, b ++ t⟩) ?_ (by simp) (ih fun x hx => hb x (by simp [hx]))
    simp only [scan, scanExist, List.cons_append]
    rw [hc.1, if_neg (by simp), if_neg hc.2]

theorem lexes_defined {w : Oracle} {yl : Value} {word b t : Str} {arg : Arg} {ps : List Piece}
    (hw : toUpper word = c!"DEFINED") (hb : Blanks b) (ha : arg.Ok) (hp : ')' ∉ arg.text)
    (h : ∀ yl, Lexes w ⟨.initial, yl, t⟩ ps) :
    Lexes w ⟨.initial, yl, (Piece.defined word b arg).text ++ t⟩ (.defined word b arg :: ps) := by
  have h3 : Lexes w ⟨.defined, yl, '(' :: (arg.text ++ ')' :: t)⟩ (.defined word b arg :: ps) := by
    have hne := Arg.text_ne ha
    obtain ⟨ht1, ht2⟩ := takeWhile_stop (p := (· ≠ ')')) (a := arg.text) (b := t) (c := ')')
      (by intro x hx; simp only [decide_eq_true_eq]; rintro rfl; exact hp hx) (by simp)
    refine Lexes.token (id := 1) (s' := ⟨.initial, boolNum (w.isDefined arg.name), t⟩) ?_ ?_ rfl (h _)
    · have hb1 : isBlankClass '(' = false := rfl
      simp only [scan, scanDefined, hb1, Bool.false_eq_true, if_false, if_true, ht1, ht2]
      rw [← argument_text ha]
      generalize arg.text = x at hne
      cases x with
      | nil => exact absurd rfl hne
      | cons a l => rfl
    · simp only [List.length_cons, List.length_append]
      omega
  have h2 := lexes_defined_blanks hb h3
  obtain ⟨x, word', rfl⟩ : ∃ x r, word = x :: r := by
    cases word with
    | nil => cases hw
    | cons x r => exact ⟨x, r, rfl⟩
  have hx : x = 'D' ∨ x = 'd' := by
    simp only [toUpper, List.map_cons, List.cons.injEq] at hw
    exact toUpperC_D hw.1
  have hlen : (x :: word').length = 7 := by
    have := congrArg List.length hw
    simpa [toUpper] using this
  have htext : (Piece.defined (x :: word') b arg).text ++ t = (x :: word') ++ (b ++ '(' :: (arg.text ++ ')' :: t)) := by
    simp [Piece.text]
  rw [htext]
  refine Lexes.again (s' := ⟨.defined, yl, b ++ '(' :: (arg.text ++ ')' :: t)⟩) ?_ ?_ h2
  · have hsw := startsWithI_append (t := b ++ '(' :: (arg.text ++ ')' :: t)) hw
    have hdrop : ((x :: word') ++ (b ++ '(' :: (arg.text ++ ')' :: t))).drop 7 = b ++ '(' :: (arg.text ++ ')' :: t) := by
      rw [← hlen, List.drop_left]
    generalize b ++ '(' :: (arg.text ++ ')' :: t) = y at *
    rw [List.cons_append] at hsw hdrop ⊢
    simp only [scan, scanInitial]
    rcases hx with rfl | rfl
    · rw [if_neg (by decide), if_neg (by decide)]
      rw [show ∀ z, operator ('D' :: z) = none from fun _ => rfl]
      simp only
      rw [if_neg (by decide), if_neg (by decide), if_pos hsw, hdrop]
    · rw [if_neg (by decide), if_neg (by decide)]
      rw [show ∀ z, operator ('d' :: z) = none from fun _ => rfl]
      simp only
      rw [if_neg (by decide), if_neg (by decide), if_pos hsw, hdrop]
  · simp only [List.length_append, List.length_cons]
    omega

theorem lastParen_none {s : Str} (h : ')' ∉ s) : lastParen s = none := by
  induction s with
  | nil => rfl
  | cons c s ih =>
    unfold lastParen
    split
    · rfl
    · rw [ih fun hm => h (by simp [hm])]
      simp only
      rw [if_neg (by rintro rfl; exact h (by simp))]

theorem lastParen_append {a b : Str} (ha : '\n' ∉ a) (hb : ')' ∉ b) : lastParen (a ++ ')' :: b) = some (a, b) := by
  induction a with
  | nil =>
    simp only [List.nil_append]
    unfold lastParen
    rw [if_neg (by decide), lastParen_none hb]
    simp
  | cons c a ih =>
    rw [List.cons_append]
    unfold lastParen
    rw [if_neg (by rintro rfl; exact ha (by simp)), ih fun hm => ha (by simp [hm])]

theorem lexes_exist {w : Oracle} {yl : Value} {word b t : Str} {arg : Arg} {ps : List Piece}
    (hw : toUpper word = c!"EXIST") (hb : Blanks b) (ha : arg.Ok) (hn : '\n' ∉ arg.text) (hp : ')' ∉ t)
    (h : ∀ yl, Lexes w ⟨.initial, yl, t⟩ ps) :
    Lexes w ⟨.initial, yl, (Piece.exist word b arg).text ++ t⟩ (.exist word b arg :: ps) := by
  have hlast := lastParen_append hn hp
  have hne := Arg.text_ne ha
  have h3 : Lexes w ⟨.exist, yl, '(' :: (arg.text ++ ')' :: t)⟩ (.exist word b arg :: ps) := by
    refine Lexes.token (id := 1) (s' := ⟨.initial, boolNum (w.fileExists arg.name), t⟩) ?_ ?_ rfl (h _)
    · have hb1 : isBlankClass '(' = false := rfl
      simp only [scan, scanExist, hb1, Bool.false_eq_true, if_false, if_true, hlast]
      rw [← argument_text ha]
      generalize arg.text = x at hne
      cases x with
      | nil => exact absurd rfl hne
      | cons a l => rfl
    · simp only [List.length_cons, List.length_append]
      omega
  have h2 := lexes_exist_blanks hb h3
  obtain ⟨x, word', rfl⟩ : ∃ x r, word = x :: r := by
    cases word with
    | nil => cases hw
    | cons x r => exact ⟨x, r, rfl⟩
  have hx : x = 'E' ∨ x = 'e' := by
    simp only [toUpper, List.map_cons, List.cons.injEq] at hw
    exact toUpperC_E hw.1
  have hlen : (x :: word').length = 5 := by
    have := congrArg List.length hw
    simpa [toUpper] using this
  have htext : (Piece.exist (x :: word') b arg).text ++ t = (x :: word') ++ (b ++ '(' :: (arg.text ++ ')' :: t)) := by
    simp [Piece.text]
  rw [htext]
  have hsw := startsWithI_append (t := b ++ '(' :: (arg.text ++ ')' :: t)) hw
  have hdrop : ((x :: word') ++ (b ++ '(' :: (arg.text ++ ')' :: t))).drop 5 = b ++ '(' :: (arg.text ++ ')' :: t) := by
    rw [← hlen, List.drop_left]
  have htake : ((x :: word') ++ (b ++ '(' :: (arg.text ++ ')' :: t))).take 5 = x :: word' := by
    rw [← hlen, List.take_left]
  have hnd : ∀ y, startsWithI (x :: y) c!"DEFINED" = false := by
    intro y
    unfold startsWithI
    rcases hx with rfl | rfl <;>
      simp only [List.length_cons, List.take_succ_cons, toUpper, List.map_cons] <;> simp [toUpperC]
  have hfirst : ∀ y, scanInitial w ⟨.initial, yl, x :: y⟩ = match existCall (x :: y) with
          | some (arg, rest) => .token 1 ⟨.initial, boolNum (w.fileExists (argument arg)), rest⟩
          | none =>
            if startsWithI (x :: y) c!"EXIST" then .again ⟨.exist, yl, (x :: y).drop 5⟩
            else .again ⟨.initial, yl, y⟩ := by
    intro y
    unfold scanInitial
    simp only
    rcases hx with rfl | rfl
    · rw [if_neg (by decide), if_neg (by decide)]
      rw [show ∀ z, operator ('E' :: z) = none from fun _ => rfl]
      simp only
      rw [if_neg (by decide), if_neg (by decide), if_neg (by rw [hnd]; decide)]
      rfl
    · rw [if_neg (by decide), if_neg (by decide)]
      rw [show ∀ z, operator ('e' :: z) = none from fun _ => rfl]
      simp only
      rw [if_neg (by decide), if_neg (by decide), if_neg (by rw [hnd]; decide)]
      rfl
  by_cases hcall : x :: word' = c!"EXIST" ∧ b = []
  · obtain ⟨hword, rfl⟩ := hcall
    refine Lexes.token (id := 1) (s' := ⟨.initial, boolNum (w.fileExists arg.name), t⟩) ?_ ?_ rfl (h _)
    · have hec : existCall ((x :: word') ++ ([] ++ '(' :: (arg.text ++ ')' :: t))) = some (arg.text, t) := by
        unfold existCall
        rw [if_pos (by rw [htake]; exact hword), hdrop]
        have hb1 : isBlankClass '(' = false := rfl
        simp only [List.nil_append, List.dropWhile_cons, hb1, Bool.false_eq_true, if_false, hlast]
      rw [List.cons_append] at hec ⊢
      simp only [scan]
      rw [hfirst, hec]
      simp only
      rw [argument_text ha]
    · simp only [List.length_append, List.length_cons]
      omega
  · refine Lexes.again (s' := ⟨.exist, yl, b ++ '(' :: (arg.text ++ ')' :: t)⟩) ?_ ?_ h2
    · have hec : existCall ((x :: word') ++ (b ++ '(' :: (arg.text ++ ')' :: t))) = none := by
        unfold existCall
        split
        · rename_i hword
          rw [htake] at hword
          rw [hdrop]
          cases b with
          | nil => exact absurd ⟨hword, rfl⟩ hcall
          | cons d b =>
            have hd := blank_not_class (hb d (by simp))
            simp only [List.cons_append, List.dropWhile_cons, hd.1, Bool.false_eq_true, if_false]
            split
            · rename_i heq
              simp only [List.cons.injEq] at heq
              exact absurd heq.1 hd.2
            · rfl
        · rfl
      rw [List.cons_append] at hec hsw hdrop ⊢
      simp only [scan]
      rw [hfirst, hec]
      simp only
      rw [if_pos hsw, hdrop]
    · simp only [List.length_append, List.length_cons]
      omega

/-! ### Tokens -/

theorem operator_bound {s : Str} {id n : Nat} (h : operator s = some (id, n)) : 3 ≤ id ∧ id ≤ 24 := by
  unfold operator at h
  split at h <;> first | (cases h; done) | (cases h; omega)

theorem scan_given {w : Oracle} {s s' : LexSt} {id : Nat} (h : scan w s = .token id s') : Proper (.tok id s'.yylval) := by
  unfold scan at h
  split at h
  · unfold scanInitial at h
    split at h
    · cases h
    · split at h
      · cases h
      · split at h
        · simp only at h
          split at h
          · cases h
            exact ⟨by decide, by decide, fun _ => ⟨_, rfl⟩, by simp⟩
          · cases h
        · split at h
          · rename_i hop
            cases h
            obtain ⟨h1, h2⟩ := operator_bound hop
            exact ⟨by omega, h2, by omega, by omega⟩
          · split at h
            · cases h
            · split at h
              · cases h
              · split at h
                · cases h
                · split at h
                  · cases h
                    exact ⟨by decide, by decide, fun _ => ⟨_, rfl⟩, by simp⟩
                  · split at h <;> cases h
  · unfold scanDefined at h
    split at h
    · cases h
    · split at h
      · cases h
      · split at h
        · split at h
          · cases h
            exact ⟨by decide, by decide, fun _ => ⟨_, rfl⟩, by simp⟩
          · cases h
        · cases h
  · unfold scanExist at h
    split at h
    · cases h
    · split at h
      · cases h
      · split at h
        · split at h
          · cases h
            exact ⟨by decide, by decide, fun _ => ⟨_, rfl⟩, by simp⟩
          · cases h
        · cases h
  · unfold scanString at h
    split at h
    · cases h
    · cases h
    · rename_i v _ _ hv _
      split at h
      · split at h
        · cases h
        · cases h
          exact ⟨by decide, by decide, by simp, fun _ => ⟨v, hv⟩⟩
      · split at h <;> cases h
  · unfold scanShell at h
    split at h
    · cases h
    · cases h
    · split at h
      · cases h
        exact ⟨by decide, by decide, fun _ => ⟨_, rfl⟩, by simp⟩
      · split at h
        · cases h
        · split at h <;> cases h

theorem dropWhile_len (p : Char → Bool) (c : Char) (r : Str) (h : p c = true) : ((c :: r).dropWhile p).length < (c :: r).length := by
  rw [List.dropWhile_cons, if_pos h]
  have := (List.dropWhile_sublist p (l := r)).length_le
  simp only [List.length_cons]
  omega

theorem lastParen_len {s a b : Str} (h : lastParen s = some (a, b)) : b.length < s.length := by
  induction s generalizing a b with
  | nil => cases h
  | cons c s ih =>
    unfold lastParen at h
    split at h
    · cases h
    · split at h
      · rename_i h2
        cases h
        have := ih h2
        simp only [List.length_cons]
        omega
      · split at h
        · cases h
          simp
        · cases h

theorem existCall_len {s a b : Str} (h : existCall s = some (a, b)) : b.length < s.length := by
  unfold existCall at h
  split at h
  · split at h
    · rename_i r hr
      have h1 := lastParen_len h
      have h2 := (List.dropWhile_sublist isBlankClass (l := s.drop 5)).length_le
      rw [hr] at h2
      simp only [List.length_cons, List.length_drop] at h2
      omega
    · cases h
  · cases h

theorem operator_len {s : Str} {id n : Nat} (h : operator s = some (id, n)) : 1 ≤ n := by
  unfold operator at h
  split at h <;> first | (cases h; done) | (cases h; omega)

/-- The state after a match. -/
def Scan.state : Scan → Option LexSt
  | .again s => some s
  | .token _ s => some s
  | .fault => none

theorem scan_shorter {w : Oracle} {s s' : LexSt} (h : (scan w s).state = some s') : s'.text.length < s.text.length := by
  obtain ⟨start, yl, text⟩ := s
  cases text with
  | nil => cases start <;> cases yl <;> cases h
  | cons c r =>
    cases start with
    | initial =>
      simp only [scan, scanInitial] at h
      split at h
      · rename_i hc
        cases h
        exact dropWhile_len (fun c => c == ' ' || c == '\t') c r (by rcases hc with rfl | rfl <;> rfl)
      · split at h
        · rename_i hd
          split at h
          · cases h
            exact dropWhile_len _ c r hd
          · cases h
        · split at h
          · rename_i hop
            cases h
            have := operator_len hop
            simp only [List.length_drop, List.length_cons]
            omega
          · split at h
            · cases h; simp
            · split at h
              · cases h; simp
              · split at h
                · cases h; simp only [List.length_drop, List.length_cons]; omega
                · split at h
                  · rename_i he
                    cases h
                    exact existCall_len he
                  · split at h
                    · cases h; simp only [List.length_drop, List.length_cons]; omega
                    · cases h; simp
    | defined =>
      simp only [scan, scanDefined] at h
      split at h
      · rename_i hb
        cases h
        exact dropWhile_len _ c r hb
      · split at h
        · split at h
          · rename_i hdw
            cases h
            have h2 := (List.dropWhile_sublist (fun c => decide (c ≠ ')')) (l := r)).length_le
            rw [hdw] at h2
            simp only [List.length_cons] at h2 ⊢
            omega
          · cases h; simp
        · cases h; simp
    | exist =>
      simp only [scan, scanExist] at h
      split at h
      · rename_i hb
        cases h
        exact dropWhile_len _ c r hb
      · split at h
        · split at h
          · rename_i hl
            cases h
            have := lastParen_len hl
            simp only [List.length_cons]
            omega
          · cases h; simp
        · cases h; simp
    | string =>
      cases yl with
      | num n => cases h
      | str v =>
        simp only [scan, scanString] at h
        split at h
        · split at h
          · cases h; simp only [List.length_cons]; omega
          · cases h; simp
        · split at h
          · cases h; simp
          · rename_i h1 h2
            cases h
            exact dropWhile_len (fun c => c != '"' && c != '\n') c r (by simp [h1, h2])
    | shell =>
      cases yl with
      | num n => cases h
      | str v =>
        simp only [scan, scanShell] at h
        split at h
        · cases h; simp
        · split at h
          · rename_i h2
            cases h
            exact dropWhile_len _ c r h2
          · split at h
            · cases h; simp only [List.length_cons]; omega
            · cases h; simp only [List.length_cons]; omega
            · cases h; simp

/-- The fuel suffices for the whole text. -/
theorem lexF_enough (w : Oracle) (f g : Nat) (s : LexSt) (hf : s.text.length < f) (hg : s.text.length < g) :
    lexF w f s = lexF w g s := by
  induction f generalizing g s with
  | zero => omega
  | succ f ih =>
    cases g with
    | zero => omega
    | succ g =>
      unfold lexF
      split
      · rfl
      · have hsh := @scan_shorter w s
        cases hsc : scan w s with
        | again s' =>
          have := hsh (s' := s') (by rw [hsc]; rfl)
          simp only
          exact ih g s' (by omega) (by omega)
        | token id s' =>
          have := hsh (s' := s') (by rw [hsc]; rfl)
          simp only
          rw [ih g s' (by omega) (by omega)]
        | fault => rfl

theorem lexF_given (w : Oracle) (f : Nat) (s : LexSt) : ∀ i ∈ (lexF w f s).1.map Prod.fst, i = .fault ∨ Proper i := by
  induction f generalizing s with
  | zero => intro i hi; cases hi
  | succ f ih =>
    intro i hi
    unfold lexF at hi
    split at hi
    · cases hi
    · split at hi
      · exact ih _ i hi
      · rename_i h
        simp only [List.map_cons, List.mem_cons] at hi
        rcases hi with rfl | hi
        · exact .inr (scan_given h)
        · exact ih _ i hi
      · simp only [List.map_cons, List.map_nil, List.mem_cons, List.not_mem_nil, or_false] at hi
        exact .inl hi

/-! ### Whole expressions -/

theorem piece_head {p : Piece} {q t : Str} (h : p.Ok q) : ∃ c r, p.text ++ t = c :: r ∧ c ≠ ' ' ∧ c ≠ '\t' := by
  cases p with
  | number d =>
    obtain ⟨x, d, rfl⟩ := List.exists_cons_of_ne_nil h.1
    exact ⟨x, _, rfl, isDigit_not (h.2.1 x (by simp))⟩
  | op id =>
    obtain ⟨h1, h2, _⟩ := h
    match id, h1, h2 with
    | 3, _, _ | 4, _, _ | 5, _, _ | 6, _, _ | 7, _, _ | 8, _, _ | 9, _, _ | 10, _, _ | 11, _, _ | 12, _, _ | 13, _, _
    | 14, _, _ | 15, _, _ | 16, _, _ | 17, _, _ | 18, _, _ | 19, _, _ | 20, _, _ | 21, _, _ | 22, _, _ | 23, _, _ =>
      exact ⟨_, _, rfl, by decide, by decide⟩
    | n + 24, _, h => omega
  | string s => exact ⟨_, _, rfl, by decide, by decide⟩
  | shell s => exact ⟨_, _, rfl, by decide, by decide⟩
  | defined word b arg =>
    obtain ⟨hw, _⟩ := h
    cases word with
    | nil => cases hw
    | cons x r =>
      simp only [toUpper, List.map_cons, List.cons.injEq] at hw
      rcases toUpperC_D hw.1 with rfl | rfl <;> exact ⟨_, _, rfl, by decide, by decide⟩
  | exist word b arg =>
    obtain ⟨hw, _⟩ := h
    cases word with
    | nil => cases hw
    | cons x r =>
      simp only [toUpper, List.map_cons, List.cons.injEq] at hw
      rcases toUpperC_E hw.1 with rfl | rfl <;> exact ⟨_, _, rfl, by decide, by decide⟩

theorem lexes_pieces (w : Oracle) (ps : List (Piece × Str)) (h : PiecesOk ps) (yl : Value) :
    Lexes w ⟨.initial, yl, textOf ps⟩ (ps.map Prod.fst) := by
  induction ps generalizing yl with
  | nil => exact Lexes.nil w rfl rfl
  | cons x l ih =>
    obtain ⟨p, b⟩ := x
    obtain ⟨hp, hbl, hl⟩ := h
    have hrest : ∀ yl, Lexes w ⟨.initial, yl, b ++ textOf l⟩ (l.map Prod.fst) := by
      intro yl
      refine lexes_blanks hbl ?_ (ih hl yl)
      intro d r hd
      cases l with
      | nil => cases hd
      | cons y l =>
        obtain ⟨q, b2⟩ := y
        obtain ⟨c2, r2, he, hne⟩ := piece_head (t := b2 ++ textOf l) hl.1
        simp only [textOf, List.append_assoc] at hd
        rw [he] at hd
        cases hd
        exact hne
    have htext : textOf ((p, b) :: l) = p.text ++ (b ++ textOf l) := by simp [textOf]
    rw [htext, List.map_cons]
    cases p with
    | number d => exact lexes_number hp.1 hp.2.1 hp.2.2.1 hp.2.2.2 hrest
    | op id => exact lexes_op hp.1 hp.2.1 hp.2.2 hrest
    | string s => exact lexes_string hp.1 hp.2 hrest
    | shell s => exact lexes_shell hp.1 hp.2 hrest
    | defined word bl arg => exact lexes_defined hp.1 hp.2.1 hp.2.2.1 hp.2.2.2 hrest
    | exist word bl arg => exact lexes_exist hp.1 hp.2.1 hp.2.2.1 hp.2.2.2.1 hp.2.2.2.2 hrest

end Jom.Expr
