/-
The parser reads a makefile as specified by `Spec/Parser.lean`.
-/
import Verif.Proofs.ParserLines
import Verif.Spec.Source

namespace Jom.Parse

open Jom.Spec.Makefile
open Inference (Command InlineFile)
open Blocks (Mk addBlock addBlocks)

variable {σ : Type} {S : Source σ}

/-- The current line and those to be read. -/
def Looks (S : Source σ) (cut : Bool) (p : PSt σ) (ls : List Line) (e : σ) : Prop :=
  match ls with
  | [] => cut = false ∧ p.line = none ∧ p.src = e ∧ ∃ E, Stays S E ∧ e = E false
  | l :: r => p.line = some l.text ∧ S.macros p.src = l.macros ∧ Before S cut p.src r e

/-- The first line is not asked for as content of a file. -/
def HeadOut (cut : Bool) (ls : List Line) : Prop := (∀ l r, ls = l :: r → l.inl = false) ∧ (ls = [] → cut = false)

theorem headOut_nil : HeadOut false [] := ⟨(by intro l r h; cases h), fun _ => rfl⟩

theorem headOut_cons {cut : Bool} {l : Line} {r : List Line} (h : l.inl = false) : HeadOut cut (l :: r) :=
  ⟨fun l' r' e => by injection e with e _; rw [← e]; exact h, fun e => by cases e⟩

theorem before_end {cut : Bool} {p : PSt σ} {e : σ} (h : Looks S cut p [] e) : Before S false p.src [] e := by
  obtain ⟨_, _, h1, E, h2, h3⟩ := h
  rw [h1]
  exact ⟨e, .nil, E, by rw [h3]; exact h2 false false, h2, h3⟩

theorem readLine_spec {cut : Bool} {p : PSt σ} {ls : List Line} {e : σ} (h : Before S cut p.src ls e) (ho : HeadOut cut ls) :
    ∃ l s, readLine S p = .ok { p with line := l, src := s } ∧ Looks S cut { p with line := l, src := s } ls e := by
  obtain ⟨z, hd, E, h1, h2, h3⟩ := h
  cases hd with
  | nil =>
    have hc := ho.2 rfl
    subst hc
    refine ⟨none, e, ?_, rfl, rfl, rfl, E, h2, h3⟩
    unfold readLine
    rw [h1, h3]
  | @cons _ s' _ l ls h4 h5 h6 =>
    rw [ho.1 l ls rfl] at h4
    refine ⟨some l.text, s', ?_, rfl, h5, z, h6, E, h1, h2, h3⟩
    unfold readLine
    rw [h4]

theorem expand_spec {p : PSt σ} {dep : Bool} {s t : Str} (h : Means (S.macros p.src) dep s t) : expand S p dep s = .ok t := by
  unfold expand
  rw [means_iff.1 h]

/-! ### Commands -/

theorem keep_words {w : Str} {opts : Str} {b : Bool} (hne : w ≠ []) (hw : ∀ c ∈ w, isSpace c = false) (h : b = true ↔ HasWord w opts) :
    decide (w ∈ words opts []) = b := by
  rw [Bool.eq_iff_iff, decide_eq_true_iff, hasWord_iff hne hw, h]

theorem readContent_spec {rule : Bool} {ls : List Line} {text : Str} (h : Content rule ls text) {last : Line} {opts : Str} {keep unicode : Bool}
    (hl : last.inl = true) (ht : last.text = '<' :: '<' :: opts) (hk : keep = true ↔ HasWord c!"KEEP" opts)
    (hu : unicode = true ↔ HasWord c!"UNICODE" opts) {cut : Bool} {rest : List Line} {e : σ} :
    ∀ (n : Nat) (f : InlineFile) (p : PSt σ), ls.length < n → Before S cut p.src (ls ++ last :: rest) e →
      ∃ l s, readContent S rule n f p = .ok ({ f with content := f.content ++ text, keep := f.keep || keep, unicode := f.unicode || unicode },
        { p with line := l, src := s }) ∧ Before S cut s rest e := by
  induction h with
  | nil =>
    rintro n f p hn ⟨z, hd, ha⟩
    obtain ⟨n, rfl⟩ : ∃ k, n = k + 1 := ⟨n - 1, by simp at hn; omega⟩
    cases hd with
    | @cons _ s' _ _ _ h1 h2 h3 =>
      rw [hl] at h1
      refine ⟨some last.text, s', ?_, z, h3, ha⟩
      unfold readContent
      have hs : startsWith last.text c!"<<" = true := by rw [ht]; rfl
      have hd : last.text.drop 2 = opts := by rw [ht]; rfl
      rw [h1]
      simp only [hs, if_true, hd, List.append_nil]
      rw [keep_words (by simp) (by decide) hk, keep_words (by simp) (by decide) hu]
  | @cons l ls t u text hi hno hr hm hc _ ih =>
    rintro n f p hn ⟨z, hd, ha⟩
    obtain ⟨n, rfl⟩ : ∃ k, n = k + 1 := ⟨n - 1, by simp at hn; omega⟩
    cases hd with
    | @cons _ s' _ _ _ h1 h2 h3 =>
      rw [hi] at h1
      obtain ⟨l', s2, h4, h5⟩ := ih n { f with content := f.content ++ u } { p with line := some l.text, src := s' } (by simp at hn; omega)
        ⟨z, h3, ha⟩
      refine ⟨l', s2, ?_, h5⟩
      unfold readContent
      have hs : startsWith l.text c!"<<" = false := by
        rw [Bool.eq_false_iff]
        intro hx
        exact hno _ (startsWith_split hx)
      rw [h1]
      simp only [hs, Bool.false_eq_true, if_false]
      have hexp : (if rule = true then Except.ok l.text else expand S { p with line := some l.text, src := s' } false l.text) = .ok t := by
        cases rule with
        | true => rw [if_pos rfl, hr rfl]
        | false => rw [if_neg (by decide), expand_spec (t := t)]; rw [h2]; exact hm rfl
      rw [hexp]
      simp only [Bind.bind, Except.bind]
      rw [crlf_spec hc, h4]
      simp [List.append_assoc]

/-- A file that is not closed. -/
theorem readContent_cut {rule : Bool} {ls : List Line} {text : Str} (h : Content rule ls text) {z : σ} {E : Bool → σ}
    (hE : S.next true z = .ok (none, E true)) :
    ∀ (n : Nat) (f : InlineFile) (p : PSt σ), ls.length < n → Delivers S p.src ls z →
      readContent S rule n f p = .ok ({ f with content := f.content ++ text }, { p with line := none, src := E true }) := by
  induction h with
  | nil =>
    rintro n f p hn hd
    obtain ⟨n, rfl⟩ : ∃ k, n = k + 1 := ⟨n - 1, by simp at hn; omega⟩
    cases hd
    unfold readContent
    rw [hE]
    simp
  | @cons l ls t u text hi hno hr hm hc _ ih =>
    rintro n f p hn hd
    obtain ⟨n, rfl⟩ : ∃ k, n = k + 1 := ⟨n - 1, by simp at hn; omega⟩
    cases hd with
    | @cons _ s' _ _ _ h1 h2 h3 =>
      rw [hi] at h1
      have h4 := ih n { f with content := f.content ++ u } { p with line := some l.text, src := s' } (by simp at hn; omega) h3
      unfold readContent
      have hs : startsWith l.text c!"<<" = false := by
        rw [Bool.eq_false_iff]
        intro hx
        exact hno _ (startsWith_split hx)
      rw [h1]
      simp only [hs, Bool.false_eq_true, if_false]
      have hexp : (if rule = true then Except.ok l.text else expand S { p with line := some l.text, src := s' } false l.text) = .ok t := by
        cases rule with
        | true => rw [if_pos rfl, hr rfl]
        | false => rw [if_neg (by decide), expand_spec (t := t)]; rw [h2]; exact hm rfl
      rw [hexp]
      simp only [Bind.bind, Except.bind]
      rw [crlf_spec hc, h4]
      simp [List.append_assoc]

/-- At the end all files are empty. -/
theorem readContents_empty {rule : Bool} {E : Bool → σ} (hE : Stays S E) {n : Nat} (hn : 0 < n) (ns : List Str) :
    ∀ (p : PSt σ), p.line = none → p.src = E true → readContents S rule n (ns.map ofName) p = .ok (ns.map ofName, p) := by
  obtain ⟨n, rfl⟩ : ∃ k, n = k + 1 := ⟨n - 1, by omega⟩
  induction ns with
  | nil => intro p _ _; rfl
  | cons m ns ih =>
    intro p hp hs
    have : readContent S rule (n + 1) (ofName m) p = .ok (ofName m, p) := by
      unfold readContent
      rw [hs, hE true true]
      simp only [Except.ok.injEq, Prod.mk.injEq, true_and]
      cases p
      simp only at hp hs
      rw [hp, hs]
    simp only [List.map_cons, readContents, this, Bind.bind, Except.bind, ih p hp hs]

theorem readContents_spec {rule c1 c2 : Bool} {names : List Str} {ls : List Line} {files : List InlineFile} (h : Files rule c1 names ls files)
    {rest : List Line} {e : σ} {n : Nat} (hcut : c1 = true → rest = [] ∧ c2 = false) :
    ∀ (p : PSt σ), ls.length < n → Before S (c1 || c2) p.src (ls ++ rest) e →
      ∃ l s, readContents S rule n (names.map ofName) p = .ok (files, { p with line := l, src := s }) ∧ Before S c2 s rest e := by
  induction h with
  | nil =>
    intro p _ hb
    exact ⟨p.line, p.src, rfl, by simpa using hb⟩
  | @cons c1 m ns ls text last opts keep unicode more fs hc hl ht hk hu _ ih =>
    intro p hn hb
    rw [List.append_assoc, List.cons_append] at hb
    obtain ⟨l1, s1, h1, hb1⟩ := readContent_spec (S := S) hc hl ht hk hu n (ofName m) p (by simp at hn; omega) hb
    obtain ⟨l2, s2, h2, hb2⟩ := ih hcut { p with line := l1, src := s1 } (by simp at hn; omega) hb1
    refine ⟨l2, s2, ?_, hb2⟩
    simp only [List.map_cons, readContents, h1, Bind.bind, Except.bind, h2]
    simp [ofName]
  | @cut m ns ls text hc =>
    intro p hn hb
    obtain ⟨rfl, rfl⟩ := hcut rfl
    rw [List.append_nil] at hb
    obtain ⟨z, hd, E, h1, h2, h3⟩ := hb
    refine ⟨none, E true, ?_, E true, .nil, E, h2 false true, h2, h3⟩
    have h4 := readContent_cut (E := E) hc h1 n (ofName m) p hn hd
    have h5 := readContents_empty (rule := rule) h2 (n := n) (by omega) ns { p with line := none, src := E true } rfl rfl
    simp only [List.map_cons, readContents, h4, h5, Bind.bind, Except.bind]
    simp [ofName]

theorem trimmed_idem (s : Str) : trimmed (trimmed s) = trimmed s := trimmed_tight (tight_trimmed s)

theorem parseCommandLine_spec {rule c1 c2 : Bool} {fl : Flags} {m : Macros} {text : Str} {ls : List Line} {c : Command}
    (h : CommandAt rule fl m text c1 ls c) {rest : List Line} {e : σ} {p : PSt σ} {n : Nat} (hcut : c1 = true → rest = [] ∧ c2 = false)
    (hm : S.macros p.src = m) (hi : p.ignore = fl.ignore) (hs : p.silent = fl.silent) (hn : ls.length < n)
    (hb : Before S (c1 || c2) p.src (ls ++ rest) e) :
    ∃ l s, parseCommandLine S n rule text p = .ok (c, { p with line := l, src := s }) ∧ Before S c2 s rest e := by
  cases h with
  | @now e' ms r line names files hr he hmod hnm hf =>
    obtain ⟨l, s, h1, h2⟩ := readContents_spec (S := S) hf hcut p hn hb
    refine ⟨l, s, ?_, h2⟩
    subst hr
    unfold parseCommandLine
    have hx : expand S p false (trimmed text) = .ok e' := expand_spec (by rw [hm]; exact he)
    simp only [Bool.false_eq_true, if_false, hx, Bind.bind, Except.bind, hi, hs]
    rw [modifiers_spec hmod fl]
    have hin := inlineNames_spec hnm (r.length + 1) [] [] (by omega)
    simp only [List.nil_append, List.length_nil] at hin
    simp only [hin, h1, hi, hs]
  | @later line names files hr hnm hf =>
    obtain ⟨l, s, h1, h2⟩ := readContents_spec (S := S) hf hcut p hn hb
    refine ⟨l, s, ?_, h2⟩
    subst hr
    unfold parseCommandLine
    have hin := inlineNames_spec hnm ((trimmed text).length + 1) [] [] (by omega)
    simp only [List.nil_append, List.length_nil] at hin
    simp only [if_true, Bind.bind, Except.bind, hi, hs, hin, h1]
    simp [limit, lastDash]

theorem trimmed_blank_line {s : Str} (h : Blank s) : (trimmed s).isEmpty = true := blank_iff.1 h

/-- Blank lines are skipped. -/
theorem skipEmpty_spec {cut : Bool} {bs rest : List Line} {e : σ} (hb : ∀ l ∈ bs, l.inl = false ∧ Blank l.text) (hr : ∀ l r, rest = l :: r → ¬ Blank l.text)
    (ho : HeadOut cut rest) : ∀ (n : Nat) (p : PSt σ), bs.length + 1 < n → Looks S cut p (bs ++ rest) e →
      ∃ l s, skipEmpty S n p = .ok { p with line := l, src := s } ∧ Looks S cut { p with line := l, src := s } rest e := by
  induction bs with
  | nil =>
    intro n p hn hl
    obtain ⟨n, rfl⟩ : ∃ k, n = k + 1 := ⟨n - 1, by simp at hn; omega⟩
    cases rest with
    | nil =>
      have h1 := hl.2.1
      have hc := hl.1
      subst hc
      obtain ⟨l, s, h3, h4⟩ := readLine_spec (p := p) (before_end hl) headOut_nil
      refine ⟨l, s, ?_, h4⟩
      have : l = none := h4.2.1
      subst this
      unfold skipEmpty
      simp [h1, h3, trimmed, trimLeft, trimRight, Bind.bind, Except.bind]
    | cons l r =>
      obtain ⟨h1, h2, h3⟩ := hl
      refine ⟨p.line, p.src, ?_, h1, h2, h3⟩
      unfold skipEmpty
      rw [h1]
      have : (trimmed l.text).isEmpty = false := by
        rw [Bool.eq_false_iff]
        exact fun hx => hr l r rfl (blank_iff.2 hx)
      simp only [Option.getD_some, this, Bool.false_eq_true, if_false]
      rw [← h1]
  | cons b bs ih =>
    intro n p hn hl
    obtain ⟨n, rfl⟩ : ∃ k, n = k + 1 := ⟨n - 1, by omega⟩
    obtain ⟨h1, h2, h3⟩ := hl
    have hbl : (trimmed b.text).isEmpty = true := blank_iff.1 (hb b (by simp)).2
    have ho' : HeadOut cut (bs ++ rest) := by
      cases bs with
      | nil => exact ho
      | cons b' bs => exact headOut_cons (hb b' (by simp)).1
    obtain ⟨l, s, h4, h5⟩ := readLine_spec (ls := bs ++ rest) (p := p) h3 ho'
    obtain ⟨l', s', h6, h7⟩ := ih (fun l hl => hb l (by simp [hl])) n { p with line := l, src := s } (by simp at hn; omega) h5
    have hcons : skipEmpty S (n + 1) p = if l.isNone then .ok { p with line := l, src := s } else skipEmpty S n { p with line := l, src := s } := by
      conv =>
        lhs
        unfold skipEmpty
      rw [h1]
      simp only [Option.getD_some, hbl, if_true, h4, Bind.bind, Except.bind]
    by_cases hx : l.isNone = true
    · rw [hcons, if_pos hx]
      refine ⟨l, s, rfl, ?_⟩
      cases hbs : bs ++ rest with
      | nil =>
        have hrest : rest = [] := (List.append_eq_nil_iff.1 hbs).2
        rw [hrest]; rw [hbs] at h5; exact h5
      | cons l0 r0 =>
        rw [hbs] at h5
        have : l = some l0.text := h5.1
        rw [this] at hx
        cases hx
    · rw [hcons, if_neg hx]
      exact ⟨l', s', h6, h7⟩

theorem parseCommands_spec {rule c1 c2 : Bool} {fl : Flags} {body : List Line} {cs : List Command} (h : Commands rule fl c1 body cs)
    {rest : List Line} {e : σ} (hcut : c1 = true → rest = [] ∧ c2 = false) (hnext : Next rest) (ho : HeadOut c2 rest) :
    ∀ (bs : List Line) (n k : Nat) (acc : List Command) (p : PSt σ),
    (∀ l ∈ bs, l.inl = false ∧ Blank l.text) → bs.length + body.length + 1 < n → body.length < k → p.ignore = fl.ignore →
      p.silent = fl.silent → Looks S (c1 || c2) p (bs ++ (body ++ rest)) e →
      ∃ l s, parseCommands S n rule k acc p = .ok (acc ++ cs, { p with line := l, src := s }) ∧
        Looks S c2 { p with line := l, src := s } rest e := by
  have hnil : ∀ (c2 : Bool) (rest : List Line), Next rest → HeadOut c2 rest → ∀ (bs : List Line) (n k : Nat) (acc : List Command) (p : PSt σ),
      (∀ l ∈ bs, l.inl = false ∧ Blank l.text) → bs.length + 1 < n → 0 < k → Looks S c2 p (bs ++ rest) e →
      ∃ l s, parseCommands S n rule k acc p = .ok (acc, { p with line := l, src := s }) ∧ Looks S c2 { p with line := l, src := s } rest e := by
    intro c2 rest hnext ho bs n k acc p hbs hn hk hl
    obtain ⟨k, rfl⟩ : ∃ j, k = j + 1 := ⟨k - 1, by omega⟩
    obtain ⟨l, s, h1, h2⟩ := skipEmpty_spec hbs (fun l r h => (hnext l r h).1) ho n p hn hl
    refine ⟨l, s, ?_, h2⟩
    unfold parseCommands parseCommand
    simp only [h1, Bind.bind, Except.bind]
    cases rest with
    | nil =>
      have : l = none := h2.2.1
      subst this
      simp
    | cons l0 r0 =>
      have hl0 : l = some l0.text := h2.1
      subst hl0
      have : startsWithSpaceOrTab l0.text = false := by
        rw [Bool.eq_false_iff]
        exact fun hx => (hnext l0 r0 rfl).2 (indented_iff.2 hx)
      simp [this]
  induction h with
  | nil =>
    intro bs n k acc p hbs hn hk hi hs hl
    obtain ⟨l, s, h1, h2⟩ := hnil c2 rest hnext ho bs n k acc p hbs (by simpa using hn) (by omega) (by simpa using hl)
    exact ⟨l, s, by rw [h1]; simp, h2⟩
  | @blank c1 l ls cs hi hb _ ih =>
    intro bs n k acc p hbs hn hk hig hs hl
    refine ih hcut (bs ++ [l]) n k acc p ?_ (by simp at hn ⊢; omega) (by simp at hk; omega) hig hs (by simpa using hl)
    intro l' hl'
    rcases List.mem_append.1 hl' with h | h
    · exact hbs l' h
    · rw [List.mem_singleton.1 h]; exact ⟨hi, hb⟩
  | @cmd c1 l files c ls cs hi hind hnb hc hcs ih =>
    intro bs n k acc p hbs hn hk hig hs hl
    obtain ⟨k, rfl⟩ : ∃ j, k = j + 1 := ⟨k - 1, by omega⟩
    obtain ⟨l1, s1, h1, h2⟩ := skipEmpty_spec (cut := c1 || c2) (rest := l :: (files ++ ls ++ rest)) hbs
      (fun l' r h => by injection h with h _; rw [← h]; exact hnb) (headOut_cons hi) n p (by simp at hn; omega) (by simpa using hl)
    obtain ⟨h3, h4, h5⟩ := h2
    have h3 : l1 = some l.text := h3
    subst h3
    rw [List.append_assoc] at h5
    obtain ⟨l2, s2, h6, h7⟩ := parseCommandLine_spec (n := n) (c2 := c1 || c2) hc (p := { p with line := some l.text, src := s1 })
      (fun h => by cases h) h4 hig hs (by simp at hn; omega) (by simpa using h5)
    have ho' : HeadOut (c1 || c2) (ls ++ rest) := by
      cases hcs with
      | nil => exact ho
      | blank hx _ _ => exact headOut_cons hx
      | cmd hx _ _ _ _ => exact headOut_cons hx
      | cut hx _ _ _ => exact headOut_cons hx
    obtain ⟨l3, s3, h8, h9⟩ := readLine_spec (p := { p with line := l2, src := s2 }) h7 ho'
    obtain ⟨l4, s4, h10, h11⟩ := ih hcut [] n k (acc ++ [c]) { p with line := l3, src := s3 } (by simp) (by simp at hn ⊢; omega) (by simp at hk; omega) hig hs
      (by simpa using h9)
    refine ⟨l4, s4, ?_, h11⟩
    unfold parseCommands parseCommand
    have : startsWithSpaceOrTab l.text = true := indented_iff.1 hind
    simp only [h1, Bind.bind, Except.bind, this, Bool.not_true, Bool.false_eq_true, if_false, h6, h8]
    rw [h10]
    simp
  | @cut l files c hi hind hnb hc =>
    intro bs n k acc p hbs hn hk hig hs hl
    obtain ⟨rfl, rfl⟩ := hcut rfl
    obtain ⟨k, rfl⟩ : ∃ j, k = j + 1 := ⟨k - 1, by omega⟩
    obtain ⟨l1, s1, h1, h2⟩ := skipEmpty_spec (cut := true) (rest := l :: files) hbs
      (fun l' r h => by injection h with h _; rw [← h]; exact hnb) (headOut_cons hi) n p (by simp at hn; omega) (by simpa using hl)
    obtain ⟨h3, h4, h5⟩ := h2
    have h3 : l1 = some l.text := h3
    subst h3
    obtain ⟨l2, s2, h6, h7⟩ := parseCommandLine_spec (n := n) (c2 := false) (rest := []) hc (p := { p with line := some l.text, src := s1 })
      (fun _ => ⟨rfl, rfl⟩) h4 hig hs (by simp at hn; omega) (by simpa using h5)
    obtain ⟨l3, s3, h8, h9⟩ := readLine_spec (p := { p with line := l2, src := s2 }) h7 headOut_nil
    obtain ⟨l4, s4, h10, h11⟩ := hnil false [] hnext headOut_nil [] n k (acc ++ [c]) { p with line := l3, src := s3 } (by simp) (by simp at hn ⊢; omega)
      (by simp at hk; omega) (by simpa using h9)
    refine ⟨l4, s4, ?_, h11⟩
    unfold parseCommands parseCommand
    have : startsWithSpaceOrTab l.text = true := indented_iff.1 hind
    simp only [h1, Bind.bind, Except.bind, this, Bool.not_true, Bool.false_eq_true, if_false, h6, h8]
    rw [h10]

/-! ### Items -/

/-- How `.PRECIOUS` collects names. -/
def addPrecious : List Str → List Item → List Str
  | l, [] => l
  | l, .dot .precious ws :: is => addPrecious (ws.foldl (fun l s => if s ∈ l then l else l ++ [s]) l) is
  | l, _ :: is => addPrecious l is

/-- The state at the end. -/
def finish (n : Nat) (p : PSt σ) (is : List Item) (e : σ) : Except PErr (PSt σ) :=
  match addBlocks n p.table (blocks is) with
  | .error err => .error (.block err)
  | .ok mk => .ok {
      src := e, line := none, table := mk, rules := p.rules ++ rules is, suffixes := suffixes p.suffixes is
      precious := addPrecious p.precious is, ignore := p.ignore || has .ignore is, silent := p.silent || has .silent is }

theorem reads_head {glob : Str → List Str} {fl : Flags} {cut : Bool} {ls : List Line} {is : List Item} (h : Reads glob fl cut ls is) :
    HeadOut cut ls := by
  cases h with
  | nil => exact headOut_nil
  | blank h => exact headOut_cons h
  | dot h => exact headOut_cons h
  | rule h => exact headOut_cons h
  | block h => exact headOut_cons h

theorem head_append {rule c1 c2 : Bool} {fl : Flags} {body rest : List Line} {cs : List Command} (h : Commands rule fl c1 body cs)
    (ho : HeadOut c2 rest) : HeadOut (c1 || c2) (body ++ rest) := by
  cases h with
  | nil => exact ho
  | blank hx _ _ => exact headOut_cons hx
  | cmd hx _ _ _ _ => exact headOut_cons hx
  | cut hx _ _ _ => exact headOut_cons hx

theorem dot_not_blank {d : Directive} {v e : Str} (h : DotText d v e) : ¬ Blank e := by
  obtain ⟨b, _, rfl⟩ := h
  intro hb
  have := hb '.' (by cases d <;> simp [Directive.name])
  exact absurd this (by decide)

theorem rule_not_blank (h : RuleHead) : ¬ Blank h.render := by
  intro hb
  have := hb ':' (by unfold RuleHead.render; cases h.batch <;> simp)
  exact absurd this (by decide)

theorem rule_not_dot {h : RuleHead} (he : Ext h.fromExt) (d : Directive) (v : Str) : ¬ DotText d v h.render := by
  rintro ⟨b, hb, e⟩
  have hname : ∃ w, Ext w ∧ d.name = '.' :: w := by
    cases d
    · exact ⟨c!"IGNORE", ⟨by decide, by decide⟩, rfl⟩
    · exact ⟨c!"PRECIOUS", ⟨by decide, by decide⟩, rfl⟩
    · exact ⟨c!"SILENT", ⟨by decide, by decide⟩, rfl⟩
    · exact ⟨c!"SUFFIXES", ⟨by decide, by decide⟩, rfl⟩
  obtain ⟨w, hw, hn⟩ := hname
  rw [hn] at e
  unfold RuleHead.render at e
  cases hp : h.fromPath with
  | some q => rw [hp] at e; simp [braces] at e
  | none =>
    rw [hp] at e
    rw [show braces none = [] from rfl] at e
    simp only [List.nil_append, List.cons_append, List.append_assoc, List.cons.injEq, true_and] at e
    have h1 := (takeWhile_all (p := isWord) (a := h.fromExt) (b := braces h.toPath ++ '.' :: (h.toExt ++ if h.batch = true then [':', ':'] else [':']))
      (ext_word he) (by
        intro c r hc
        cases ht : h.toPath with
        | none => rw [ht] at hc; simp [braces] at hc; rw [← hc.1]; decide
        | some q => rw [ht] at hc; simp [braces] at hc; rw [← hc.1]; decide)).2
    have h2 := (takeWhile_all (p := isWord) (a := w) (b := b ++ ':' :: v) (ext_word hw) (by
        intro c r hc
        cases b with
        | nil => simp at hc; rw [← hc.1]; decide
        | cons c' b =>
          simp at hc
          rw [← hc.1]
          have := hb c' (by simp)
          rw [Bool.eq_false_iff]
          intro hx
          unfold isWord isLetterOrNumber isLetter isDigit at hx
          unfold isSpace at this
          simp at this hx
          rcases this with rfl | h1
          · simp at hx
          · rcases hx with ((h2 | h2) | h2) | rfl
            · omega
            · omega
            · omega
            · simp at h1)).2
    rw [e, h2] at h1
    cases ht : h.toPath with
    | none =>
      rw [ht] at h1
      cases b with
      | nil => simp [braces] at h1
      | cons c b =>
        simp [braces] at h1
        have := hb c (by simp)
        rw [h1.1] at this
        exact absurd this (by decide)
    | some q =>
      rw [ht] at h1
      cases b with
      | nil => simp [braces] at h1
      | cons c b =>
        simp [braces] at h1
        have := hb c (by simp)
        rw [h1.1] at this
        exact absurd this (by decide)

theorem toNative_eq (s : Str) : toNative s = native s := rfl

/-- What the parser makes of the head of a description block. -/
structure HeadOf (glob : Str → List Str) (m : Macros) (s : Str) (targets deps : List Str) (double : Bool) (cmd : Option Str) (pos len : Nat) (tt dd : Str) : Prop where
  sep : descriptionBlockSeparator (removeCommentsAndFindCommandSeparator s).1 = some (pos, len)
  double : decide (1 < len) = double
  cmd : ((removeCommentsAndFindCommandSeparator s).2.map fun i => (removeCommentsAndFindCommandSeparator s).1.drop (i + 1)) = cmd
  target : Means m false (trimmed ((removeCommentsAndFindCommandSeparator s).1.take pos)) tt
  targets : splitTargetNames (native tt) = targets
  value : Means m true (trimmed ((untilSeparator (removeCommentsAndFindCommandSeparator s).1 (removeCommentsAndFindCommandSeparator s).2).drop (pos + len))) dd
  deps : expandWildcards glob (splitTargetNames (native dd)) = deps

theorem tail_drop (line : Str) (cmd : Option Str) :
    ((cmd.map fun _ => line.length).map fun i => (line ++ tailOf cmd).drop (i + 1)) = cmd := by
  cases cmd with
  | none => rfl
  | some b =>
    simp only [Option.map_some, Option.some.injEq]
    rw [show line ++ tailOf (some b) = (line ++ [';']) ++ b by simp [tailOf], List.drop_left' (by simp)]

theorem tail_until (line : Str) (cmd : Option Str) : untilSeparator (line ++ tailOf cmd) (cmd.map fun _ => line.length) = line := by
  cases cmd <;> simp [tailOf, untilSeparator]

theorem expand_nil (m : Macros) (dep : Bool) : Means m dep [] [] := means_iff.2 (by
  unfold expandMacros expandU need
  rw [show ([] : Str).length + 1 + unusedSize m [] = unusedSize m [] + 1 by simp; omega]
  rfl)

theorem header_spec {glob : Str → List Str} {m : Macros} {s : Str} {targets deps : List Str} {double : Bool} {cmd : Option Str}
    (h : Header glob m s targets deps double cmd) : ∃ pos len tt dd, HeadOf glob m s targets deps double cmd pos len tt dd := by
  have hdb : decide (1 < if double then 2 else 1) = double := by cases double <;> decide
  cases h with
  | @mk line a d tt dd ds hun hni hsep htt hnt hdd hnd hw =>
    have hrc := uncommented_spec hun
    have htail : ∀ r, tailOf cmd ≠ ':' :: r := by
      intro r; cases cmd <;> simp [tailOf]
    refine ⟨a.length, if double then 2 else 1, tt, dd, ?_⟩
    have hta : (line ++ tailOf cmd).take a.length = a := by
      rw [show line = _ from hsep.eq]; simp
    have hdrop : line.drop (a.length + if double then 2 else 1) = d := by
      rw [hsep.eq, List.append_assoc]
      cases double <;> simp [List.drop_append]
    constructor
    · rw [hrc]; exact separator_spec hsep hni htail
    · exact hdb
    · rw [hrc]; exact tail_drop line cmd
    · rw [hrc, hta]; exact htt
    · exact Props.list_spec hnt
    · rw [hrc, tail_until, hdrop]; exact hdd
    · rw [Props.list_spec hnd]; exact wild_spec hw
  | @late line b a d tt hun hcmd hni hsep htt hnt hdeps =>
    subst hcmd hdeps
    have hrc := uncommented_spec hun
    refine ⟨(line ++ ';' :: a).length, if double then 2 else 1, tt, [], ?_⟩
    have hta : (line ++ ';' :: b).take (line ++ ';' :: a).length = line ++ ';' :: a := by
      rw [show line ++ ';' :: b = _ from hsep.eq, List.append_assoc, List.take_left' rfl]
    have hdrop : line.drop ((line ++ ';' :: a).length + if double then 2 else 1) = [] := by
      rw [List.drop_eq_nil_iff]; simp; omega
    constructor
    · rw [hrc]
      have := separator_spec (tail := []) hsep hni (by simp)
      rwa [List.append_nil] at this
    · exact hdb
    · rw [hrc]; exact tail_drop line (some b)
    · rw [hrc]; show Means m false (trimmed ((line ++ ';' :: b).take _)) tt; rw [hta]; exact htt
    · exact Props.list_spec hnt
    · rw [hrc, tail_until, hdrop]; exact expand_nil m true
    · rfl

/-- Every line with a separator whose macros can be expanded is the head of a description block. -/
theorem header_exists {glob : Str → List Str} {m : Macros} {s : Str} {targets deps : List Str} {double : Bool} {cmd : Option Str} {pos len : Nat} {tt dd : Str}
    (h : HeadOf glob m s targets deps double cmd pos len tt dd) : Header glob m s targets deps double cmd := by
  obtain ⟨line, cmd', hun⟩ := uncommented_exists s
  have hrc := uncommented_spec hun
  obtain ⟨h1, h2, h3, h4, h5, h6, h7⟩ := h
  rw [hrc] at h1 h3 h4 h6
  rw [tail_drop] at h3
  rw [tail_until] at h6
  subst h3
  obtain ⟨hni, a, dbl, d, hsep⟩ := separator_exists h1
  have htake : ∀ {line a d : Str} {dbl : Bool}, Separated line a dbl d → line.take a.length = a := fun h => by rw [h.eq]; simp
  have hdb : decide (1 < if dbl then 2 else 1) = dbl := by cases dbl <;> decide
  have h8 := separator_spec (tail := []) hsep hni (by simp)
  rw [List.append_nil, h1] at h8
  simp only [Option.some.injEq, Prod.mk.injEq] at h8
  obtain ⟨rfl, rfl⟩ := h8
  rw [hdb] at h2
  subst h2
  rw [htake hsep] at h4
  have hnl := (Props.C14_every_line _ _).1 h5
  by_cases hlt : a.length < line.length
  · -- the separator is in front of the `;`
    have heq := hsep.eq
    rw [List.append_assoc] at heq
    have hcut : ∃ y, line = a ++ (if dbl then [':', ':'] else [':']) ++ y ∧ d = y ++ tailOf cmd' := by
      rcases List.append_eq_append_iff.1 heq with ⟨z, hz, hz'⟩ | ⟨z, hz, hz'⟩
      · rw [hz] at hlt; simp at hlt; omega
      · cases dbl with
        | false =>
          cases z with
          | nil => rw [hz] at hlt; simp at hlt
          | cons c z =>
            simp at hz'
            exact ⟨z, by rw [hz, ← hz'.1]; simp, hz'.2⟩
        | true =>
          cases z with
          | nil => rw [hz] at hlt; simp at hlt
          | cons c z =>
            cases z with
            | nil =>
              simp at hz'
              cases cmd' <;> simp [tailOf] at hz'
            | cons c' z =>
              simp at hz'
              exact ⟨z, by rw [hz, ← hz'.1, ← hz'.2.1]; simp, hz'.2.2⟩
    obtain ⟨y, hy, rfl⟩ := hcut
    have hdrop : line.drop (a.length + if dbl then 2 else 1) = y := by
      rw [hy, List.append_assoc]
      cases dbl <;> simp [List.drop_append]
    rw [hdrop] at h6
    subst h7
    refine .mk (line := line) (a := a) (d := y) hun ?_ ⟨hy, ?_, hsep.sep, hsep.first⟩ h4 hnl h6 ((Props.C14_every_line _ _).1 rfl) (wild_exists glob _)
    · rintro ⟨c, r, rfl, hc⟩
      exact hni ⟨c, r ++ tailOf cmd', rfl, hc⟩
    · intro hd r hr
      subst hr
      exact hsep.single hd (r ++ tailOf cmd') rfl
  · -- behind
    have heq := hsep.eq
    rw [List.append_assoc] at heq
    rcases List.append_eq_append_iff.1 heq with ⟨z, hz, hz'⟩ | ⟨z, hz, hz'⟩
    · cases cmd' with
      | none => cases z <;> cases dbl <;> simp [tailOf] at hz'
      | some b =>
        cases z with
        | nil => cases dbl <;> simp [tailOf] at hz'
        | cons c z =>
          simp [tailOf] at hz'
          obtain ⟨rfl, hz'⟩ := hz'
          subst hz
          have hdrop : line.drop ((line ++ ';' :: z).length + if dbl then 2 else 1) = [] := by
            rw [List.drop_eq_nil_iff]; simp; omega
          rw [hdrop] at h6
          have : dd = [] := by
            have h9 := means_iff.1 h6
            rw [show trimmed [] = [] from rfl, means_iff.1 (expand_nil m true)] at h9
            injection h9 with h9; exact h9.symm
          subst this
          exact .late hun rfl hni hsep h4 hnl h7.symm
    · have hlen : z = [] := by
        rw [hz] at hlt
        cases z with
        | nil => rfl
        | cons => simp at hlt
      subst hlen
      cases cmd' <;> cases dbl <;> simp [tailOf] at hz'

/-- What the block of a line is. -/
theorem parseDescriptionBlock_spec {glob : Str → List Str} {fl : Flags} {l : Line} {files body rest : List Line} {targets deps : List Str}
    {double c1 c2 c3 : Bool} {cmd : Option Str} {cs cs' : List Command} {e : σ} {p : PSt σ} {n : Nat}
    (hh : Header glob l.macros l.text targets deps double cmd) (hin : InPlace fl l.macros c1 cmd files cs) (hbody : Body fl c2 body cs' rest)
    (hc1 : c1 = true → body = [] ∧ rest = []) (hc2 : c2 = true → rest = [])
    (ho : HeadOut c3 rest) (hm : S.macros p.src = l.macros) (hi : p.ignore = fl.ignore) (hs : p.silent = fl.silent)
    (hb : Before S (c1 || c2 || c3) p.src (files ++ (body ++ rest)) e) (hn : files.length + body.length + 1 < n) :
    ∃ pos len, descriptionBlockSeparator (removeCommentsAndFindCommandSeparator l.text).1 = some (pos, len) ∧
      ∃ ln s, Looks S c3 { p with line := ln, src := s } rest e ∧
        parseDescriptionBlock S glob n (removeCommentsAndFindCommandSeparator l.text).1 pos len (removeCommentsAndFindCommandSeparator l.text).2 p =
          match addBlock n p.table { targets := targets, deps := deps, double := double, cmds := cs ++ cs' } with
          | .error err => .error (.block err)
          | .ok mk => .ok { p with line := ln, src := s, table := mk } := by
  obtain ⟨pos, len, tt, dd, hh⟩ := header_spec hh
  refine ⟨pos, len, hh.sep, ?_⟩
  have hcmds : ∃ ln s, Looks S c3 { p with line := ln, src := s } rest e ∧ blockCommands S n cmd p = .ok (cs ++ cs', { p with line := ln, src := s }) := by
    have hafter : ∀ (l1 : Option Str) (s1 : σ), Before S (c2 || c3) s1 (body ++ rest) e → ∃ ln s, Looks S c3 { p with line := ln, src := s } rest e ∧
        (do
          let p ← readLine S { p with line := l1, src := s1 }
          if (trimmed (p.line.getD [])).isEmpty then (do
            let p ← readLine S p
            .ok (cs, p))
          else parseCommands S n false n cs p) = .ok (cs ++ cs', { p with line := ln, src := s }) := by
      intro l1 s1 hb1
      cases hbody with
      | commands hcm hfirst hnext =>
        obtain ⟨l2, s2, h1, h2⟩ := readLine_spec (p := { p with line := l1, src := s1 }) hb1 (head_append hcm ho)
        by_cases hemp : body ++ rest = []
        · obtain ⟨hbe, hre⟩ := List.append_eq_nil_iff.1 hemp
          subst hbe hre
          cases hcm
          have hc3 := ho.2 rfl
          subst hc3
          have hl2 : l2 = none := h2.2.1
          subst hl2
          obtain ⟨l3, s3, h3, h4⟩ := readLine_spec (p := { p with line := none, src := s2 }) (before_end h2) headOut_nil
          refine ⟨l3, s3, h4, ?_⟩
          simp only [h1, Bind.bind, Except.bind, Option.getD_none, h3]
          simp [trimmed, trimLeft, trimRight]
        · have hne : ∃ l0 r0, body ++ rest = l0 :: r0 ∧ ¬ Blank l0.text := by
            cases body with
            | nil =>
              cases rest with
              | nil => exact absurd rfl hemp
              | cons l0 r0 => exact ⟨l0, r0, rfl, (hnext l0 r0 rfl).1⟩
            | cons l0 r0 => exact ⟨l0, r0 ++ rest, rfl, hfirst l0 r0 rfl⟩
          obtain ⟨l0, r0, he0, hnb0⟩ := hne
          have hl2 : l2 = some l0.text := by rw [he0] at h2; exact h2.1
          obtain ⟨l3, s3, h3, h4⟩ := parseCommands_spec hcm (fun h => ⟨hc2 h, ho.2 (hc2 h)⟩) hnext ho [] n n cs { p with line := l2, src := s2 } (by simp)
            (by simp; omega) (by omega) hi hs (by simpa using h2)
          refine ⟨l3, s3, h4, ?_⟩
          have hx : (trimmed l0.text).isEmpty = false := by
            rw [Bool.eq_false_iff]; exact fun hx => hnb0 (blank_iff.2 hx)
          subst hl2
          simp only [h1, Bind.bind, Except.bind, Option.getD_some, hx, Bool.false_eq_true, if_false, h3]
      | @blank lb _ hib hbb =>
        obtain ⟨l2, s2, h1, h2⟩ := readLine_spec (p := { p with line := l1, src := s1 }) hb1 (headOut_cons hib)
        have hl2 : l2 = some lb.text := h2.1
        subst hl2
        obtain ⟨l3, s3, h3, h4⟩ := readLine_spec (p := { p with line := some lb.text, src := s2 }) h2.2.2 ho
        refine ⟨l3, s3, h4, ?_⟩
        simp only [h1, Bind.bind, Except.bind, Option.getD_some, blank_iff.1 hbb, if_true, h3, List.append_nil]
    cases hin with
    | none =>
      obtain ⟨ln, s, h1, h2⟩ := hafter p.line p.src (by simpa using hb)
      exact ⟨ln, s, h1, h2⟩
    | @some _ sc _ c hc =>
      have hc' : CommandAt false fl l.macros (trimmed sc) c1 files c := by
        cases hc with
        | now h1 h2 h3 h4 h5 => exact .now h1 (by rw [trimmed_idem]; exact h2) h3 h4 h5
        | later h1 _ _ => cases h1
      have hc23 : c1 = true → body ++ rest = [] ∧ (c2 || c3) = false := by
        intro h
        obtain ⟨rfl, rfl⟩ := hc1 h
        refine ⟨rfl, ?_⟩
        rw [ho.2 rfl]
        cases hbody with
        | commands hcm _ _ => cases hcm; rfl
      obtain ⟨l1, s1, h1, h2⟩ := parseCommandLine_spec (n := n) hc' hc23 hm hi hs (by omega) (by rw [← Bool.or_assoc]; exact hb)
      obtain ⟨ln, s, h3, h4⟩ := hafter l1 s1 h2
      refine ⟨ln, s, h3, ?_⟩
      unfold blockCommands
      simp only [h1, Bind.bind, Except.bind] at h4 ⊢
      exact h4
  obtain ⟨ln, s, hlk, hbc⟩ := hcmds
  refine ⟨ln, s, hlk, ?_⟩
  unfold parseDescriptionBlock
  simp only [hh.cmd]
  rw [expand_spec (by rw [hm]; exact hh.target)]
  simp only [Bind.bind, Except.bind]
  rw [expand_spec (by rw [hm]; exact hh.value)]
  simp only [hbc, toNative_eq, hh.targets, hh.deps, hh.double]
  cases addBlock n p.table { targets := targets, deps := deps, double := double, cmds := cs ++ cs' } <;> rfl

theorem onDot_frame (d : Directive) (v : Str) (p : PSt σ) (l : Option Str) (s : σ) :
    onDot (dotOf d) v { p with line := l, src := s } = { onDot (dotOf d) v p with line := l, src := s } := by
  cases d <;> rfl

theorem parseItems_spec {glob : Str → List Str} {fl : Flags} {cut : Bool} {ls : List Line} {is : List Item} (h : Reads glob fl cut ls is) {e : σ} {n : Nat} :
    ∀ (k : Nat) (p : PSt σ), ls.length + 1 < n → ls.length < k → p.ignore = fl.ignore → p.silent = fl.silent → Looks S cut p ls e →
      parseItems S glob n k p = finish n p is e := by
  induction h with
  | nil =>
    intro k p hn hk hi hs hl
    obtain ⟨k, rfl⟩ : ∃ j, k = j + 1 := ⟨k - 1, by omega⟩
    obtain ⟨_, h1, h2, _⟩ := hl
    unfold parseItems
    rw [h1]
    cases p
    simp only at h1 h2
    subst h1 h2
    simp [finish, blocks, addBlocks, rules, suffixes, addPrecious, has]
  | @blank fl cut l ls e' is hin hm hb hrd ih =>
    intro k p hn hk hi hs hl
    obtain ⟨k, rfl⟩ : ∃ j, k = j + 1 := ⟨k - 1, by omega⟩
    obtain ⟨h1, h2, h3⟩ := hl
    obtain ⟨l1, s1, h4, h5⟩ := readLine_spec (p := p) h3 (reads_head hrd)
    have := ih k { p with line := l1, src := s1 } (by simp at hn; omega) (by simp at hk; omega) hi hs h5
    unfold parseItems parseItem
    rw [h1]
    simp only [expand_spec (show Means (S.macros p.src) false l.text e' by rw [h2]; exact hm), Bind.bind, Except.bind, blank_iff.1 hb, if_true, h4]
    rw [this]
    rfl
  | @dot fl cut l ls e' d v ws is hin hm hd hw hrd ih =>
    intro k p hn hk hi hs hl
    obtain ⟨k, rfl⟩ : ∃ j, k = j + 1 := ⟨k - 1, by omega⟩
    obtain ⟨h1, h2, h3⟩ := hl
    have hx : (trimmed e').isEmpty = false := by
      rw [Bool.eq_false_iff]; exact fun hx => dot_not_blank hd (blank_iff.2 hx)
    have hsrc : (onDot (dotOf d) v p).src = p.src := by cases d <;> rfl
    obtain ⟨l1, s1, h4, h5⟩ := readLine_spec (p := onDot (dotOf d) v p) (by rw [hsrc]; exact h3) (reads_head hrd)
    have := ih k { onDot (dotOf d) v p with line := l1, src := s1 } (by simp at hn; omega) (by simp at hk; omega)
      (by cases d <;> simp [onDot, dotOf, Flags.after, hi]) (by cases d <;> simp [onDot, dotOf, Flags.after, hs]) h5
    unfold parseItems parseItem
    rw [h1]
    simp only [expand_spec (show Means (S.macros p.src) false l.text e' by rw [h2]; exact hm), Bind.bind, Except.bind, hx, Bool.false_eq_true,
      if_false, dot_iff.2 hd, h4]
    rw [this]
    unfold finish
    have hwv := words_spec hw
    cases d with
    | ignore => simp [onDot, dotOf, blocks, rules, suffixes, addPrecious, has]
    | silent => simp [onDot, dotOf, blocks, rules, suffixes, addPrecious, has]
    | precious => simp [onDot, dotOf, blocks, rules, suffixes, addPrecious, has, hwv]
    | suffixes =>
      cases ws with
      | nil => simp [onDot, dotOf, blocks, rules, suffixes, addPrecious, has, hwv]
      | cons w ws => simp [onDot, dotOf, blocks, rules, suffixes, addPrecious, has, hwv]
  | @rule fl cut c1 c2 l body rest e' h cs is hin hm hcl hc hnx hcut hrd hcc ih =>
    intro k p hn hk hi hs hl
    obtain ⟨k, rfl⟩ : ∃ j, k = j + 1 := ⟨k - 1, by omega⟩
    obtain ⟨h1, h2, h3⟩ := hl
    obtain rfl := hcl.text
    subst hcc
    have hx : (trimmed h.render).isEmpty = false := by
      rw [Bool.eq_false_iff]; exact fun hx => rule_not_blank h (blank_iff.2 hx)
    obtain ⟨l1, s1, h4, h5⟩ := readLine_spec (p := p) h3 (head_append hc (reads_head hrd))
    obtain ⟨l2, s2, h6, h7⟩ := parseCommands_spec hc (fun h => ⟨hcut h, (reads_head hrd).2 (hcut h)⟩) hnx (reads_head hrd) [] n n [] { p with line := l1, src := s1 } (by simp)
      (by simp at hn ⊢; omega) (by simp at hn; omega) hi hs (by simpa using h5)
    have hih := ih k { p with
        line := l2
        src := s2
        rules := p.rules ++ [{ batch := h.batch, fromPath := rulePath (braces h.fromPath), fromExt := '.' :: h.fromExt,
                               toPath := rulePath (braces h.toPath), toExt := '.' :: h.toExt, commands := cs }] }
      (by simp at hn; omega) (by simp at hk; omega) hi hs (by
        cases rest with
        | nil => exact h7
        | cons => exact h7)
    unfold parseItems parseItem
    rw [h1]
    simp only [expand_spec (show Means (S.macros p.src) false l.text h.render by rw [h2]; exact hm), Bind.bind, Except.bind, hx,
      Bool.false_eq_true, if_false, dot_none (rule_not_dot hcl.from_ext), inferenceRule_chosen hcl, parts]
    unfold parseInferenceRule
    simp only [h4, h6, Bind.bind, Except.bind, List.nil_append]
    rw [hih]
    simp [finish, blocks, rules, suffixes, addPrecious, has, rulePath_spec]
  | @block fl cut c1 c2 c3 l files body rest e' targets deps double cmd cs cs' is hin hm hnb hnd hnr hh hip hc1 hbd hc2 hrd hcc ih =>
    intro k p hn hk hi hs hl
    obtain ⟨k, rfl⟩ : ∃ j, k = j + 1 := ⟨k - 1, by omega⟩
    obtain ⟨h1, h2, h3⟩ := hl
    subst hcc
    have hx : (trimmed e').isEmpty = false := by
      rw [Bool.eq_false_iff]; exact fun hx => hnb (blank_iff.2 hx)
    obtain ⟨pos, len, hsep, ln, s, hlk, hres⟩ := parseDescriptionBlock_spec hh hip hbd hc1 hc2 (reads_head hrd) h2 hi hs h3 (n := n)
      (by simp at hn; omega)
    unfold parseItems parseItem
    rw [h1]
    simp only [expand_spec (show Means (S.macros p.src) false l.text e' by rw [h2]; exact hm), Bind.bind, Except.bind, hx,
      Bool.false_eq_true, if_false, dot_none hnd, inferenceRule_none hnr, hsep, hres]
    unfold finish
    simp only [blocks, addBlocks, Bind.bind, Except.bind]
    cases hb : addBlock n p.table { targets := targets, deps := deps, double := double, cmds := cs ++ cs' } with
    | error err => rfl
    | ok mk =>
      have := ih k { p with line := ln, src := s, table := mk } (by simp at hn; omega) (by simp at hk; omega) hi hs (by
        cases rest with
        | nil => exact hlk
        | cons => exact hlk)
      simp only [this, finish, rules, suffixes, addPrecious, has]

/-- The whole makefile. -/
theorem parse_spec {glob : Str → List Str} {fl : Flags} {cut : Bool} {ls : List Line} {is : List Item} (h : Reads glob fl cut ls is) {s e : σ}
    (hb : Before S cut s ls e) {n : Nat} (hn : ls.length + 1 < n) :
    parse S glob n fl.silent (!fl.ignore) s =
      finish n { src := s, suffixes := builtinSuffixes, ignore := fl.ignore, silent := fl.silent } is e := by
  obtain ⟨l, s1, h1, h2⟩ := readLine_spec (p := { src := s, suffixes := builtinSuffixes, ignore := fl.ignore, silent := fl.silent }) hb (reads_head h)
  unfold parse
  simp only [Bool.not_not, h1, Bind.bind, Except.bind]
  rw [parseItems_spec h n _ hn (by omega) rfl rfl h2]
  rfl

/-- `.PRECIOUS` collects all names, each once. -/
theorem addPrecious_mem (l : List Str) (is : List Item) (t : Str) : t ∈ addPrecious l is ↔ t ∈ l ∨ t ∈ precious is := by
  have hf : ∀ (ws l : List Str), t ∈ ws.foldl (fun l s => if s ∈ l then l else l ++ [s]) l ↔ t ∈ l ∨ t ∈ ws := by
    intro ws
    induction ws with
    | nil => simp
    | cons w ws ih =>
      intro l
      rw [List.foldl_cons, ih]
      split <;> simp <;> grind
  induction is generalizing l with
  | nil => simp [addPrecious, precious]
  | cons i is ih =>
    cases i with
    | dot d ws =>
      cases d <;> simp only [addPrecious, precious, ih]
      rw [hf, List.mem_append]
      grind
    | rule => simp only [addPrecious, precious, ih]
    | block => simp only [addPrecious, precious, ih]

theorem addPrecious_nodup (l : List Str) (is : List Item) (h : l.Nodup) : (addPrecious l is).Nodup := by
  have hf : ∀ (ws l : List Str), l.Nodup → (ws.foldl (fun l s => if s ∈ l then l else l ++ [s]) l).Nodup := by
    intro ws
    induction ws with
    | nil => simp
    | cons w ws ih =>
      intro l hl
      rw [List.foldl_cons]
      apply ih
      split
      · exact hl
      · rw [List.nodup_append]
        refine ⟨hl, by simp, ?_⟩
        rintro a ha b hb rfl
        rw [List.mem_singleton] at hb
        subst hb
        contradiction
  induction is generalizing l with
  | nil => exact h
  | cons i is ih =>
    cases i with
    | dot d ws =>
      cases d <;> simp only [addPrecious]
      · exact ih _ h
      · exact ih _ (hf ws l h)
      · exact ih _ h
      · exact ih _ h
    | rule => exact ih _ h
    | block => exact ih _ h

end Jom.Parse
