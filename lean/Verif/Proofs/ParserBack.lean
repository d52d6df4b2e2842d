/-
What the parser accepts consists of items.
-/
import Verif.Proofs.Parser

namespace Jom.Parse

open Jom.Spec.Makefile
open Inference (Command InlineFile)
open Blocks (Mk addBlock addBlocks)

variable {σ : Type} {S : Source σ}

/-- These lines have been read; `cut`: the end has been met inside of an inline file. -/
def Passed (S : Source σ) : Bool → σ → List Line → σ → Prop
  | false, s, ls, s' => Delivers S s ls s'
  | true, s, ls, s' => ∃ z E, Delivers S s ls z ∧ S.next true z = .ok (none, E true) ∧ Stays S E ∧ s' = E true

theorem delivers_append {s s1 s2 : σ} {ls ls' : List Line} (h : Delivers S s ls s1) (h' : Delivers S s1 ls' s2) : Delivers S s (ls ++ ls') s2 := by
  induction h with
  | nil => exact h'
  | cons h1 h2 _ ih => exact .cons h1 h2 (ih h')

theorem passed_before {s s' e : σ} {ls ls' : List Line} {c : Bool} (h : Passed S false s ls s') (hb : Before S c s' ls' e) :
    Before S c s (ls ++ ls') e := by
  obtain ⟨z, hd, ha⟩ := hb
  exact ⟨z, delivers_append h hd, ha⟩

theorem passed_cut {s s' e : σ} {ls ls' : List Line} {c : Bool} (h : Passed S true s ls s') (hb : Before S c s' ls' e) :
    ls' = [] ∧ Before S true s ls e := by
  obtain ⟨z, E, h1, h2, h3, rfl⟩ := h
  obtain ⟨y, hd, E', h4, h5, h6⟩ := hb
  cases hd with
  | cons h7 => rw [h3] at h7; cases h7
  | nil =>
    refine ⟨rfl, z, h1, E, h2, h3, ?_⟩
    rw [h3 c true] at h4
    injection h4 with h4
    injection h4 with _ h4
    have h8 := h5 false c
    rw [← h4, h3 false c] at h8
    injection h8 with h8
    injection h8 with _ h8
    rw [h6, h8]

theorem passed_join {s s' e : σ} {ls ls' : List Line} {cut c : Bool} (h : Passed S cut s ls s') (hb : Before S c s' ls' e) (ho : HeadOut c ls') :
    Before S (cut || c) s (ls ++ ls') e ∧ (cut = true → ls' = [] ∧ c = false) := by
  cases cut with
  | false => exact ⟨by rw [Bool.false_or]; exact passed_before h hb, by simp⟩
  | true =>
    obtain ⟨rfl, h1⟩ := passed_cut h hb
    exact ⟨by simpa using h1, fun _ => ⟨rfl, ho.2 rfl⟩⟩

/-- A state without line is at the end. -/
def Ended (S : Source σ) (p : PSt σ) : Prop := p.line = none → ∃ E, Stays S E ∧ p.src = E false

theorem readLine_ended (hS : Sticky S) {p p1 : PSt σ} (h : readLine S p = .ok p1) :
    Ended S p1 ∧ p1 = { p with line := p1.line, src := p1.src } := by
  unfold readLine at h
  split at h
  · cases h
  next l s hx =>
    injection h with h
    subst h
    refine ⟨fun hl => ?_, rfl⟩
    simp only at hl
    subst hl
    obtain ⟨E, h1, h2⟩ := hS _ _ _ hx
    exact ⟨E, h2, h1.symm⟩

theorem readLine_back {p p1 : PSt σ} {c : Bool} {ls : List Line} {e : σ} (h : readLine S p = .ok p1) (hl : Looks S c p1 ls e)
    (ho : HeadOut c ls) : Before S c p.src ls e := by
  unfold readLine at h
  split at h
  · cases h
  next l s hx =>
    injection h with h
    subst h
    cases ls with
    | nil =>
      obtain ⟨rfl, h1, h2, E, h3, h4⟩ := hl
      simp only at h1 h2
      subst h1 h2
      exact ⟨p.src, .nil, E, by rw [hx, h4], h3, h4⟩
    | cons l0 r =>
      obtain ⟨h1, h2, z, h3, h4⟩ := hl
      simp only at h1 h2 h3
      subst h1
      exact ⟨z, .cons (by rw [ho.1 l0 r rfl]; exact hx) h2 h3, h4⟩

theorem expand_back {p : PSt σ} {dep : Bool} {s t : Str} (h : expand S p dep s = .ok t) : Means (S.macros p.src) dep s t := by
  unfold expand at h
  split at h
  · cases h
  next hx =>
    injection h with h
    subst h
    exact means_iff.2 hx

/-! ### Commands -/

theorem readContent_back (hS : Sticky S) {rule : Bool} : ∀ {n : Nat} {f f' : InlineFile} {p p' : PSt σ}, readContent S rule n f p = .ok (f', p') →
    ∃ ls text, Content rule ls text ∧ p' = { p with line := p'.line, src := p'.src } ∧
      ((∃ last opts keep unicode, last.inl = true ∧ last.text = '<' :: '<' :: opts ∧ (keep = true ↔ HasWord c!"KEEP" opts) ∧
          (unicode = true ↔ HasWord c!"UNICODE" opts) ∧ f' = { f with content := f.content ++ text, keep := f.keep || keep, unicode := f.unicode || unicode } ∧
          Passed S false p.src (ls ++ [last]) p'.src) ∨
        f' = { f with content := f.content ++ text } ∧ Passed S true p.src ls p'.src ∧ p'.line = none) := by
  intro n
  induction n with
  | zero => intro f f' p p' h; cases h
  | succ n ih =>
    intro f f' p p' h
    unfold readContent at h
    split at h
    · cases h
    next s hx =>
      injection h with h
      injection h with h1 h2
      subst h1 h2
      obtain ⟨E, h3, h4⟩ := hS _ _ _ hx
      subst h3
      exact ⟨[], [], .nil, rfl, .inr ⟨by simp, ⟨p.src, E, .nil, hx, h4, rfl⟩, rfl⟩⟩
    next l s hx =>
      simp only at h
      split at h
      next hst =>
        injection h with h
        injection h with h1 h2
        subst h1 h2
        refine ⟨[], [], .nil, rfl, .inl ⟨{ inl := true, text := l, macros := S.macros s }, l.drop 2, decide (c!"KEEP" ∈ words (l.drop 2) []),
          decide (c!"UNICODE" ∈ words (l.drop 2) []), rfl, startsWith_split hst, ?_, ?_, ?_, .cons hx rfl .nil⟩⟩
        · rw [decide_eq_true_iff]; exact hasWord_iff (by decide) (by decide)
        · rw [decide_eq_true_iff]; exact hasWord_iff (by decide) (by decide)
        · simp
      next hst =>
        cases ht : (if rule then Except.ok l else expand S { p with line := some l, src := s } false l) with
        | error e => rw [ht] at h; cases h
        | ok t =>
          rw [ht] at h
          simp only [Bind.bind, Except.bind] at h
          obtain ⟨ls, text, h1, h2, h3⟩ := ih h
          have hno : ∀ r, l ≠ '<' :: '<' :: r := by
            rintro r rfl
            exact hst rfl
          refine ⟨{ inl := true, text := l, macros := S.macros s } :: ls, withCrLf t ++ text, .cons rfl hno ?_ ?_ (crlf_exists t) h1, ?_, ?_⟩
          · rintro rfl; simp at ht; exact ht.symm
          · rintro rfl; rw [if_neg (by decide)] at ht; exact expand_back ht
          · rw [h2]
          · rcases h3 with ⟨last, opts, keep, unicode, g1, g2, g3, g4, g5, g6⟩ | ⟨g1, ⟨z, E, g2, g3, g4, g5⟩, g6⟩
            · left
              exact ⟨last, opts, keep, unicode, g1, g2, g3, g4, by rw [g5]; simp, .cons hx rfl g6⟩
            · right
              exact ⟨by rw [g1]; simp, ⟨z, E, .cons hx rfl g2, g3, g4, g5⟩, g6⟩

theorem readContents_back (hS : Sticky S) {rule : Bool} {n : Nat} : ∀ {names : List Str} {files : List InlineFile} {p p' : PSt σ},
    readContents S rule n (names.map ofName) p = .ok (files, p') →
    ∃ cut ls, Files rule cut names ls files ∧ p' = { p with line := p'.line, src := p'.src } ∧ Passed S cut p.src ls p'.src := by
  intro names
  induction names with
  | nil =>
    intro files p p' h
    simp only [List.map_nil, readContents, Except.ok.injEq, Prod.mk.injEq] at h
    obtain ⟨rfl, rfl⟩ := h
    exact ⟨false, [], .nil, rfl, .nil⟩
  | cons m ns ih =>
    intro files p p' h
    simp only [List.map_cons, readContents, Bind.bind, Except.bind] at h
    split at h
    · cases h
    next r hr =>
      obtain ⟨f1, p1⟩ := r
      simp only at h
      split at h
      · cases h
      next r2 hr2 =>
        obtain ⟨fs, p2⟩ := r2
        simp only [Except.ok.injEq, Prod.mk.injEq] at h
        obtain ⟨rfl, rfl⟩ := h
        obtain ⟨ls, text, h1, h2, h3⟩ := readContent_back hS hr
        rcases h3 with ⟨last, opts, keep, unicode, g1, g2, g3, g4, g5, g6⟩ | ⟨g1, g2, g3⟩
        · obtain ⟨cut, more, h4, h5, h6⟩ := ih hr2
          refine ⟨cut, ls ++ last :: more, ?_, by rw [h5, h2], ?_⟩
          · rw [g5]
            have := Files.cons (n := m) h1 g1 g2 g3 g4 h4
            simpa [ofName] using this
          · rw [show ls ++ last :: more = (ls ++ [last]) ++ more by simp]
            cases cut with
            | false => exact delivers_append g6 h6
            | true =>
              obtain ⟨z, E, k1, k2, k3, k4⟩ := h6
              exact ⟨z, E, delivers_append g6 k1, k2, k3, k4⟩
        · obtain ⟨z, E, k1, k2, k3, k4⟩ := g2
          have hn : 0 < n := by
            cases n with
            | zero => cases hr
            | succ n => omega
          rw [readContents_empty k3 hn ns p1 g3 k4] at hr2
          simp only [Except.ok.injEq, Prod.mk.injEq] at hr2
          obtain ⟨rfl, rfl⟩ := hr2
          refine ⟨true, ls, ?_, h2, z, E, k1, k2, k3, k4⟩
          rw [g1]
          have := Files.cut (n := m) (ns := ns) h1
          have hof : (ofName : Str → InlineFile) = fun n => { filename := n } := rfl
          rw [hof]
          simpa using this

theorem parseCommandLine_back (hS : Sticky S) {rule : Bool} {fl : Flags} {text : Str} {c : Command} {p p' : PSt σ} {n : Nat}
    (hi : p.ignore = fl.ignore) (hs : p.silent = fl.silent) (h : parseCommandLine S n rule text p = .ok (c, p')) :
    ∃ cut ls, CommandAt rule fl (S.macros p.src) text cut ls c ∧ p' = { p with line := p'.line, src := p'.src } ∧ Passed S cut p.src ls p'.src := by
  unfold parseCommandLine at h
  cases rule with
  | false =>
    simp only [Bool.false_eq_true, if_false, Bind.bind, Except.bind, hi, hs] at h
    cases hx : expand S p false (trimmed text) with
    | error e => rw [hx] at h; cases h
    | ok e =>
      rw [hx] at h
      obtain ⟨ms, r, hmod⟩ := Props.C16_every_line e
      obtain ⟨line, names, hnm⟩ := names_exist r
      have hin := inlineNames_spec hnm (r.length + 1) [] [] (by omega)
      simp only [List.nil_append, List.length_nil] at hin
      simp only [modifiers_spec hmod fl, hin] at h
      split at h
      · cases h
      next q hq =>
        obtain ⟨files, p1⟩ := q
        simp only [Except.ok.injEq, Prod.mk.injEq] at h
        obtain ⟨rfl, rfl⟩ := h
        obtain ⟨cut, ls, h1, h2, h3⟩ := readContents_back hS hq
        exact ⟨cut, ls, .now rfl (expand_back hx) hmod hnm h1, h2, h3⟩
  | true =>
    simp only [if_true, Bind.bind, Except.bind, hi, hs] at h
    obtain ⟨line, names, hnm⟩ := names_exist (trimmed text)
    have hin := inlineNames_spec hnm ((trimmed text).length + 1) [] [] (by omega)
    simp only [List.nil_append, List.length_nil] at hin
    simp only [hin] at h
    split at h
    · cases h
    next q hq =>
      obtain ⟨files, p1⟩ := q
      simp only [Except.ok.injEq, Prod.mk.injEq] at h
      obtain ⟨rfl, rfl⟩ := h
      obtain ⟨cut, ls, h1, h2, h3⟩ := readContents_back hS hq
      have := CommandAt.later (fl := fl) (m := S.macros p.src) (cut := cut) rfl hnm h1
      exact ⟨cut, ls, by simpa [limit, lastDash] using this, h2, h3⟩

theorem skipEmpty_back (hS : Sticky S) : ∀ {n : Nat} {p p' : PSt σ}, skipEmpty S n p = .ok p' → Ended S p →
    Ended S p' ∧ p' = { p with line := p'.line, src := p'.src } ∧
    ∀ {c : Bool} {rest : List Line} {e : σ}, Looks S c p' rest e → HeadOut c rest →
      ∃ bs, (∀ l ∈ bs, l.inl = false ∧ Blank l.text) ∧ (∀ l r, rest = l :: r → ¬ Blank l.text) ∧ Looks S c p (bs ++ rest) e := by
  intro n
  induction n with
  | zero => intro p p' h; cases h
  | succ n ih =>
    intro p p' h hE
    unfold skipEmpty at h
    split at h
    next hb =>
      simp only [Bind.bind, Except.bind] at h
      split at h
      · cases h
      next p1 h1 =>
        obtain ⟨hE1, hp1⟩ := readLine_ended hS h1
        cases hpl : p.line with
        | none =>
          obtain ⟨E, k1, k2⟩ := hE hpl
          have hr : readLine S p = .ok { p with line := none, src := E false } := by
            unfold readLine
            rw [k2, k1 false false]
          rw [hr] at h1
          injection h1 with h1
          subst h1
          simp only [Option.isNone_none, if_true, Except.ok.injEq] at h
          subst h
          refine ⟨hE1, rfl, fun {c rest e} hl ho => ?_⟩
          cases rest with
          | nil =>
            refine ⟨[], by simp, by simp, ?_⟩
            obtain ⟨g1, g2, g3, g4⟩ := hl
            exact ⟨g1, hpl, by rw [k2]; exact g3, g4⟩
          | cons l0 r => obtain ⟨g1, _⟩ := hl; cases g1
        | some t =>
          have hbt : Blank t := blank_iff.2 (by rw [hpl] at hb; exact hb)
          have hback : ∀ {c : Bool} {ls : List Line} {e : σ}, Looks S c p1 ls e → HeadOut c ls →
              Looks S c p ({ text := t, macros := S.macros p.src } :: ls) e :=
            fun hl ho => ⟨hpl, rfl, readLine_back h1 hl ho⟩
          split at h
          next hnone =>
            injection h with h
            subst h
            refine ⟨hE1, hp1, fun {c rest e} hl ho => ?_⟩
            refine ⟨[{ text := t, macros := S.macros p.src }], ?_, ?_, hback hl ho⟩
            · intro l hl; rw [List.mem_singleton] at hl; subst hl; exact ⟨rfl, hbt⟩
            · rintro l r rfl
              have := hl.1
              rw [this] at hnone
              cases hnone
          next hsome =>
            obtain ⟨g1, g2, g3⟩ := ih h hE1
            refine ⟨g1, by rw [g2, hp1], fun {c rest e} hl ho => ?_⟩
            obtain ⟨bs, k1, k2, k3⟩ := g3 hl ho
            refine ⟨{ text := t, macros := S.macros p.src } :: bs, ?_, k2, hback k3 ?_⟩
            · intro l hl
              rcases List.mem_cons.1 hl with rfl | hl
              · exact ⟨rfl, hbt⟩
              · exact k1 l hl
            · cases bs with
              | nil => exact ho
              | cons b bs => exact headOut_cons (k1 b (by simp)).1
    next hb =>
      injection h with h
      subst h
      refine ⟨hE, rfl, fun {c rest e} hl ho => ⟨[], by simp, ?_, hl⟩⟩
      rintro l r rfl hbl
      have := hl.1
      rw [this] at hb
      exact hb (blank_iff.1 hbl)

theorem commands_blanks {rule c : Bool} {fl : Flags} {body : List Line} {cs : List Command} (h : Commands rule fl c body cs) {bs : List Line}
    (hb : ∀ l ∈ bs, l.inl = false ∧ Blank l.text) : Commands rule fl c (bs ++ body) cs := by
  induction bs with
  | nil => exact h
  | cons b bs ih => exact .blank (hb b (by simp)).1 (hb b (by simp)).2 (ih fun l hl => hb l (by simp [hl]))

theorem parseCommands_back (hS : Sticky S) {rule : Bool} {fl : Flags} {n : Nat} : ∀ {k : Nat} {acc out : List Command} {p p' : PSt σ},
    parseCommands S n rule k acc p = .ok (out, p') → Ended S p → p.ignore = fl.ignore → p.silent = fl.silent →
    Ended S p' ∧ p' = { p with line := p'.line, src := p'.src } ∧
    ∀ {c : Bool} {rest : List Line} {e : σ}, Looks S c p' rest e → HeadOut c rest →
      ∃ c1 body cs, out = acc ++ cs ∧ Commands rule fl c1 body cs ∧ (c1 = true → rest = []) ∧ Next rest ∧ Looks S (c1 || c) p (body ++ rest) e := by
  intro k
  induction k with
  | zero => intro acc out p p' h; cases h
  | succ k ih =>
    intro acc out p p' h hE hi hs
    unfold parseCommands parseCommand at h
    simp only [Bind.bind, Except.bind] at h
    cases hsk : skipEmpty S n p with
    | error e => rw [hsk] at h; cases h
    | ok p0 =>
      rw [hsk] at h
      simp only at h
      obtain ⟨hE0, hp0, hback0⟩ := skipEmpty_back hS hsk hE
      cases hl0 : p0.line with
      | none =>
        rw [hl0] at h
        simp only [Except.ok.injEq, Prod.mk.injEq] at h
        obtain ⟨rfl, rfl⟩ := h
        refine ⟨hE0, hp0, fun {c rest e} hl ho => ?_⟩
        obtain ⟨bs, k1, k2, k3⟩ := hback0 hl ho
        refine ⟨false, bs, [], by simp, ?_, by simp, ?_, k3⟩
        · simpa using commands_blanks (fl := fl) (rule := rule) .nil k1
        · rintro l r rfl
          have := hl.1
          rw [hl0] at this
          cases this
      | some t =>
        rw [hl0] at h
        simp only at h
        cases hind : startsWithSpaceOrTab t with
        | false =>
          simp only [hind, Bool.not_false, if_true, Except.ok.injEq, Prod.mk.injEq] at h
          obtain ⟨rfl, rfl⟩ := h
          refine ⟨hE0, hp0, fun {c rest e} hl ho => ?_⟩
          obtain ⟨bs, k1, k2, k3⟩ := hback0 hl ho
          refine ⟨false, bs, [], by simp, by simpa using commands_blanks (fl := fl) (rule := rule) .nil k1, by simp, ?_, k3⟩
          intro l r hlr
          refine ⟨k2 l r hlr, ?_⟩
          subst hlr
          have := hl.1
          rw [hl0] at this
          injection this with this
          rw [indented_iff, ← this, hind]
          simp
        | true =>
          simp only [hind, Bool.not_true, Bool.false_eq_true, if_false] at h
          cases hcl : parseCommandLine S n rule t p0 with
          | error err => rw [hcl] at h; cases h
          | ok r =>
            obtain ⟨cmd, p1⟩ := r
            rw [hcl] at h
            simp only at h
            have hi0 : p0.ignore = fl.ignore := by rw [hp0]; exact hi
            have hs0 : p0.silent = fl.silent := by rw [hp0]; exact hs
            obtain ⟨cut, files, g1, g2, g3⟩ := parseCommandLine_back hS hi0 hs0 hcl
            cases hrl : readLine S p1 with
            | error err => rw [hrl] at h; cases h
            | ok p2 =>
              rw [hrl] at h
              simp only at h
              obtain ⟨hE2, hp2⟩ := readLine_ended hS hrl
              obtain ⟨k1, k2, k3⟩ := ih h hE2 (by rw [hp2, g2]; exact hi0) (by rw [hp2, g2]; exact hs0)
              refine ⟨k1, by rw [k2, hp2, g2, hp0], fun {c rest e} hl ho => ?_⟩
              obtain ⟨c1, body, cs, m1, m2, m3, m4, m5⟩ := k3 hl ho
              have hho := head_append m2 ho
              obtain ⟨n1, n2⟩ := passed_join g3 (readLine_back hrl m5 hho) hho
              have hlk : Looks S (cut || (c1 || c)) p0 ({ text := t, macros := S.macros p0.src } :: (files ++ (body ++ rest))) e := ⟨hl0, rfl, n1⟩
              obtain ⟨bs, b1, b2, b3⟩ := hback0 hlk (headOut_cons rfl)
              have hnb := b2 _ _ rfl
              have hid : Indented t := indented_iff.2 hind
              cases cut with
              | false =>
                refine ⟨c1, bs ++ { text := t, macros := S.macros p0.src } :: (files ++ body), cmd :: cs, by rw [m1]; simp,
                  commands_blanks (.cmd rfl hid hnb g1 m2) b1, m3, m4, ?_⟩
                simpa using b3
              | true =>
                obtain ⟨he, hcc⟩ := n2 rfl
                obtain ⟨rfl, rfl⟩ := List.append_eq_nil_iff.1 he
                cases m2
                refine ⟨true, bs ++ { text := t, macros := S.macros p0.src } :: files, [cmd], by rw [m1]; simp,
                  commands_blanks (.cut rfl hid hnb g1) b1, fun _ => rfl, m4, ?_⟩
                simpa using b3

/-! ### Items -/

theorem blockCommands_back (hS : Sticky S) {fl : Flags} {n : Nat} {cmd : Option Str} {out : List Command} {p p' : PSt σ}
    (h : blockCommands S n cmd p = .ok (out, p')) (hi : p.ignore = fl.ignore) (hs : p.silent = fl.silent) :
    Ended S p' ∧ p' = { p with line := p'.line, src := p'.src } ∧
    ∀ {c : Bool} {rest : List Line} {e : σ}, Looks S c p' rest e → HeadOut c rest →
      ∃ c1 c2 files body cs cs', out = cs ++ cs' ∧ InPlace fl (S.macros p.src) c1 cmd files cs ∧ (c1 = true → body = [] ∧ rest = []) ∧
        Body fl c2 body cs' rest ∧ (c2 = true → rest = []) ∧ Before S (c1 || c2 || c) p.src (files ++ (body ++ rest)) e := by
  unfold blockCommands at h
  have hrest : ∀ (cs : List Command) (p0 : PSt σ), p0.ignore = fl.ignore → p0.silent = fl.silent → (do
      let p ← readLine S p0
      if (trimmed (p.line.getD [])).isEmpty then (do
        let p ← readLine S p
        .ok (cs, p))
      else parseCommands S n false n cs p) = .ok (out, p') →
      Ended S p' ∧ p' = { p0 with line := p'.line, src := p'.src } ∧
      ∀ {c : Bool} {rest : List Line} {e : σ}, Looks S c p' rest e → HeadOut c rest →
        ∃ c2 body cs', out = cs ++ cs' ∧ Body fl c2 body cs' rest ∧ (c2 = true → rest = []) ∧ HeadOut (c2 || c) (body ++ rest) ∧
          Before S (c2 || c) p0.src (body ++ rest) e := by
    intro cs p0 hi hs h
    simp only [Bind.bind, Except.bind] at h
    cases hr : readLine S p0 with
    | error err => rw [hr] at h; cases h
    | ok p1 =>
      rw [hr] at h
      simp only at h
      obtain ⟨hE1, hp1⟩ := readLine_ended hS hr
      split at h
      next hb =>
        cases hr2 : readLine S p1 with
        | error err => rw [hr2] at h; cases h
        | ok p2 =>
          rw [hr2] at h
          simp only [Except.ok.injEq, Prod.mk.injEq] at h
          obtain ⟨rfl, rfl⟩ := h
          obtain ⟨hE2, hp2⟩ := readLine_ended hS hr2
          refine ⟨hE2, by rw [hp2, hp1], fun {c rest e} hl ho => ?_⟩
          have hb2 := readLine_back hr2 hl ho
          cases hl1 : p1.line with
          | some t =>
            have hbt : Blank t := blank_iff.2 (by rw [hl1] at hb; exact hb)
            refine ⟨false, [{ text := t, macros := S.macros p1.src }], [], by simp, .blank rfl hbt, by simp, headOut_cons rfl, ?_⟩
            exact readLine_back hr ⟨hl1, rfl, hb2⟩ (headOut_cons rfl)
          | none =>
            obtain ⟨E, k1, k2⟩ := hE1 hl1
            have hr' : readLine S p1 = .ok { p1 with line := none, src := E false } := by
              unfold readLine
              rw [k2, k1 false false]
            rw [hr'] at hr2
            injection hr2 with hr2
            subst hr2
            cases rest with
            | cons l0 r => obtain ⟨g1, _⟩ := hl; cases g1
            | nil =>
              obtain ⟨g1, _, g3, g4⟩ := hl
              refine ⟨false, [], [], by simp, .commands .nil (by simp) (by intro l ls h; cases h), by simp, ho, ?_⟩
              exact readLine_back hr ⟨g1, hl1, by rw [k2]; exact g3, g4⟩ ho
      next hb =>
        obtain ⟨k1, k2, k3⟩ := parseCommands_back hS h hE1 (by rw [hp1]; exact hi) (by rw [hp1]; exact hs)
        refine ⟨k1, by rw [k2, hp1], fun {c rest e} hl ho => ?_⟩
        obtain ⟨c1, body, cs', m1, m2, m3, m4, m5⟩ := k3 hl ho
        have hho := head_append m2 ho
        refine ⟨c1, body, cs', m1, .commands m2 ?_ m4, m3, hho, readLine_back hr m5 hho⟩
        rintro l r rfl hbl
        have := m5.1
        rw [this] at hb
        exact hb (blank_iff.1 hbl)
  cases cmd with
  | none =>
    simp only [Bind.bind, Except.bind] at h hrest
    obtain ⟨k1, k2, k3⟩ := hrest [] p hi hs h
    refine ⟨k1, k2, fun {c rest e} hl ho => ?_⟩
    obtain ⟨c2, body, cs', m1, m2, m3, m4, m5⟩ := k3 hl ho
    exact ⟨false, c2, [], body, [], cs', m1, .none, by simp, m2, m3, by simpa using m5⟩
  | some sc =>
    simp only [Bind.bind, Except.bind] at h hrest
    cases hcl : parseCommandLine S n false (trimmed sc) p with
    | error err => rw [hcl] at h; cases h
    | ok r =>
      obtain ⟨cm, p0⟩ := r
      rw [hcl] at h
      simp only at h
      obtain ⟨cut, files, g1, g2, g3⟩ := parseCommandLine_back hS hi hs hcl
      have g1' : CommandAt false fl (S.macros p.src) sc cut files cm := by
        cases g1 with
        | now h1 h2 h3 h4 h5 => exact .now h1 (by rw [trimmed_idem] at h2; exact h2) h3 h4 h5
        | later h1 _ _ => cases h1
      obtain ⟨k1, k2, k3⟩ := hrest [cm] p0 (by rw [g2]; exact hi) (by rw [g2]; exact hs) h
      refine ⟨k1, by rw [k2, g2], fun {c rest e} hl ho => ?_⟩
      obtain ⟨c2, body, cs', m1, m2, m3, m4, m5⟩ := k3 hl ho
      obtain ⟨n1, n2⟩ := passed_join g3 m5 m4
      refine ⟨cut, c2, files, body, [cm], cs', m1, .some g1', fun hc => List.append_eq_nil_iff.1 (n2 hc).1, m2, m3, ?_⟩
      rw [Bool.or_assoc]
      exact n1

theorem onDot_sound {s : Str} {d : Dot} {v : Str} (h : dotDirective s = some (d, v)) : ∃ d', d = dotOf d' ∧ DotText d' v s := by
  have : ∃ d', d = dotOf d' := by
    cases d
    · exact ⟨.ignore, rfl⟩
    · exact ⟨.precious, rfl⟩
    · exact ⟨.silent, rfl⟩
    · exact ⟨.suffixes, rfl⟩
  obtain ⟨d', rfl⟩ := this
  exact ⟨d', rfl, dot_iff.1 h⟩

theorem parseItems_back (hS : Sticky S) {glob : Str → List Str} {n : Nat} : ∀ {k : Nat} {fl : Flags} {p q : PSt σ}, parseItems S glob n k p = .ok q →
    Ended S p → p.ignore = fl.ignore → p.silent = fl.silent →
    ∃ cut ls is e, Looks S cut p ls e ∧ Reads glob fl cut ls is ∧ finish n p is e = .ok q := by
  intro k
  induction k with
  | zero => intro fl p q h; cases h
  | succ k ih =>
    intro fl p q h hE hi hs
    unfold parseItems at h
    cases hl : p.line with
    | none =>
      rw [hl] at h
      simp only [Except.ok.injEq] at h
      subst h
      obtain ⟨E, h1, h2⟩ := hE hl
      refine ⟨false, [], [], p.src, ⟨rfl, hl, rfl, E, h1, h2⟩, .nil, ?_⟩
      cases p
      simp only at hl
      subst hl
      simp [finish, blocks, addBlocks, rules, suffixes, addPrecious, has]
    | some l =>
      rw [hl] at h
      simp only [Bind.bind, Except.bind] at h
      cases hit : parseItem S glob n l p with
      | error err => rw [hit] at h; cases h
      | ok p1 =>
        rw [hit] at h
        simp only at h
        unfold parseItem at hit
        simp only [Bind.bind, Except.bind] at hit
        cases hx : expand S p false l with
        | error err => rw [hx] at hit; cases hit
        | ok ex =>
          rw [hx] at hit
          simp only at hit
          have hm := expand_back hx
          split at hit
          next hb =>
            obtain ⟨hE1, hp1⟩ := readLine_ended hS hit
            obtain ⟨cut, ls, is, e, h1, h2, h3⟩ := ih h hE1 (by rw [hp1]; exact hi) (by rw [hp1]; exact hs)
            refine ⟨cut, { text := l, macros := S.macros p.src } :: ls, is, e, ⟨hl, rfl, readLine_back hit h1 (reads_head h2)⟩,
              .blank rfl hm (blank_iff.2 hb) h2, ?_⟩
            rw [← h3, hp1]
            rfl
          next hb =>
            have hnb : ¬ Blank ex := fun h => hb (blank_iff.1 h)
            split at hit
            next d v hd =>
              obtain ⟨d', rfl, hdt⟩ := onDot_sound hd
              obtain ⟨hE1, hp1⟩ := readLine_ended hS hit
              have hsrc : (onDot (dotOf d') v p).src = p.src := by cases d' <;> rfl
              obtain ⟨cut, ls, is, e, h1, h2, h3⟩ := ih (fl := fl.after d') h hE1
                (by rw [hp1]; cases d' <;> simp [onDot, dotOf, Flags.after, hi]) (by rw [hp1]; cases d' <;> simp [onDot, dotOf, Flags.after, hs])
              have hw := words_exist v
              have hbf := readLine_back hit h1 (reads_head h2)
              rw [hsrc] at hbf
              refine ⟨cut, { text := l, macros := S.macros p.src } :: ls, .dot d' (words v []) :: is, e, ⟨hl, rfl, hbf⟩, .dot rfl hm hdt hw h2, ?_⟩
              rw [← h3, hp1]
              unfold finish
              cases d' with
              | ignore => simp [onDot, dotOf, blocks, rules, suffixes, addPrecious, has]
              | silent => simp [onDot, dotOf, blocks, rules, suffixes, addPrecious, has]
              | precious => simp [onDot, dotOf, blocks, rules, suffixes, addPrecious, has]
              | suffixes =>
                cases hv : words v [] with
                | nil => simp [onDot, dotOf, blocks, rules, suffixes, addPrecious, has, hv]
                | cons w ws => simp [onDot, dotOf, blocks, rules, suffixes, addPrecious, has, hv]
            next hd =>
              have hnd : ∀ d v, ¬ DotText d v ex := by
                intro d v hdt
                rw [dot_iff.2 hdt] at hd
                cases hd
              split at hit
              next r hr =>
                obtain ⟨rh, hch, rfl⟩ := inferenceRule_sound hr
                unfold parseInferenceRule at hit
                simp only [Bind.bind, Except.bind] at hit
                cases hrl : readLine S p with
                | error err => rw [hrl] at hit; cases hit
                | ok p2 =>
                  rw [hrl] at hit
                  simp only at hit
                  obtain ⟨hE2, hp2⟩ := readLine_ended hS hrl
                  cases hpc : parseCommands S n true n [] p2 with
                  | error err => rw [hpc] at hit; cases hit
                  | ok r =>
                    obtain ⟨cs, p3⟩ := r
                    rw [hpc] at hit
                    simp only [Except.ok.injEq] at hit
                    obtain ⟨k1, k2, k3⟩ := parseCommands_back hS hpc hE2 (fl := fl) (by rw [hp2]; exact hi) (by rw [hp2]; exact hs)
                    obtain ⟨cut, ls, is, e, h1, h2, h3⟩ := ih (fl := fl) h (by rw [← hit]; exact k1) (by rw [← hit]; show p3.ignore = _; rw [k2, hp2]; exact hi)
                      (by rw [← hit]; show p3.silent = _; rw [k2, hp2]; exact hs)
                    have h1' : Looks S cut p3 ls e := by
                      rw [← hit] at h1
                      cases ls <;> exact h1
                    obtain ⟨c1, body, cs', m1, m2, m3, m4, m5⟩ := k3 h1' (reads_head h2)
                    simp only [List.nil_append] at m1
                    subst m1
                    refine ⟨c1 || cut, { text := l, macros := S.macros p.src } :: (body ++ ls), .rule rh cs :: is, e,
                      ⟨hl, rfl, readLine_back hrl m5 (head_append m2 (reads_head h2))⟩, .rule rfl hm hch m2 m4 m3 h2 rfl, ?_⟩
                    rw [← h3, ← hit, k2, hp2]
                    simp [finish, blocks, rules, suffixes, addPrecious, has, rulePath_spec, parts]
              next hr =>
                have hnr : ¬ IsRule ex := by
                  intro hrule
                  have := inferenceRule_some hrule
                  rw [hr] at this
                  cases this
                split at hit
                · cases hit
                next pos len hsep =>
                  unfold parseDescriptionBlock at hit
                  simp only [Bind.bind, Except.bind] at hit
                  split at hit
                  · cases hit
                  next tt htt =>
                    split at hit
                    · cases hit
                    next dd hdd =>
                      split at hit
                      · cases hit
                      next r hbc =>
                        obtain ⟨cmds, p2⟩ := r
                        simp only at hit
                        obtain ⟨k1, k2, k3⟩ := blockCommands_back hS (fl := fl) hbc hi hs
                        have hh := header_exists (glob := glob) (m := S.macros p.src) (s := l) (targets := _) (deps := _) (double := _) (cmd := _)
                          (pos := pos) (len := len) (tt := tt) (dd := dd) ⟨hsep, rfl, rfl, expand_back htt, rfl, expand_back hdd, rfl⟩
                        split at hit
                        · cases hit
                        next mk hmk =>
                          injection hit with hit
                          obtain ⟨cut, ls, is, e, h1, h2, h3⟩ := ih (fl := fl) h (by rw [← hit]; exact k1)
                            (by rw [← hit]; show p2.ignore = _; rw [k2]; exact hi) (by rw [← hit]; show p2.silent = _; rw [k2]; exact hs)
                          have h1' : Looks S cut p2 ls e := by
                            rw [← hit] at h1
                            cases ls <;> exact h1
                          obtain ⟨c1, c2, files, body, cs, cs', m1, m2, m3, m4, m5, m6⟩ := k3 h1' (reads_head h2)
                          refine ⟨c1 || c2 || cut, { text := l, macros := S.macros p.src } :: (files ++ (body ++ ls)), _, e, ⟨hl, rfl, m6⟩,
                            .block rfl hm hnb hnd hnr hh m2 m3 m4 m5 h2 rfl, ?_⟩
                          rw [← h3, ← hit]
                          subst m1
                          have hmk' := hmk
                          rw [k2] at hmk'
                          simp only [toNative_eq] at hmk'
                          simp only [finish, blocks, addBlocks, Bind.bind, Except.bind, hmk', rules, suffixes, addPrecious, has]
                          rw [k2]

/-- What is accepted consists of items. -/
theorem parse_back (hS : Sticky S) {glob : Str → List Str} {n : Nat} {fl : Flags} {s : σ} {q : PSt σ}
    (h : parse S glob n fl.silent (!fl.ignore) s = .ok q) :
    ∃ cut ls is e, Before S cut s ls e ∧ Reads glob fl cut ls is ∧
      finish n { src := s, suffixes := builtinSuffixes, ignore := fl.ignore, silent := fl.silent } is e = .ok q := by
  unfold parse at h
  simp only [Bool.not_not, Bind.bind, Except.bind] at h
  cases hr : readLine S { src := s, suffixes := builtinSuffixes, ignore := fl.ignore, silent := fl.silent } with
  | error err => rw [hr] at h; cases h
  | ok p =>
    rw [hr] at h
    simp only at h
    obtain ⟨hE, hp⟩ := readLine_ended hS hr
    obtain ⟨cut, ls, is, e, h1, h2, h3⟩ := parseItems_back hS (fl := fl) h hE (by rw [hp]) (by rw [hp])
    refine ⟨cut, ls, is, e, readLine_back hr h1 (reads_head h2), h2, ?_⟩
    rw [← h3, hp]
    rfl

end Jom.Parse
