/- The functions of `Model/ParserPos.lean` are those of `Model/Parser.lean`; where errors are thrown (C104). -/
import Verif.Model.ParserPos
import Verif.Spec.ParserPos
import Verif.Proofs.ParserBack

namespace Jom.Parse.Pos

open Inference (Command InlineFile Rule)

variable {σ : Type} {S : Source σ}

/-- The exception without the state. -/
def forget {α : Type} : Except (Thrown σ) α → Except PErr α
  | .ok a => .ok a
  | .error e => .error e.1

theorem forget_inState {α : Type} (s : σ) (x : Except PErr α) : forget (inState s x) = x := by
  cases x <;> rfl

theorem forget_bind {α β : Type} (x : Except (Thrown σ) α) (f : α → Except (Thrown σ) β) :
    forget (x >>= f) = forget x >>= fun a => forget (f a) := by
  cases x <;> rfl

theorem forget_readLine (p : PSt σ) : forget (readLine S p) = Parse.readLine S p := forget_inState _ _

theorem forget_expand (p : PSt σ) (d : Bool) (s : Str) : forget (expand S p d s) = Parse.expand S p d s := forget_inState _ _

theorem forget_readContent (rule : Bool) (n : Nat) (f : InlineFile) (p : PSt σ) :
    forget (readContent S rule n f p) = Parse.readContent S rule n f p := by
  induction n generalizing f p with
  | zero => rfl
  | succ n ih =>
    unfold readContent Parse.readContent
    generalize S.next true p.src = x
    rcases x with e | ⟨_ | l, s⟩
    · rfl
    · rfl
    · simp only
      split
      · rfl
      · rw [forget_bind]
        simp only [ih]
        cases rule
        · simp only [Bool.false_eq_true, if_false, forget_expand]
        · rfl

theorem forget_readContents (rule : Bool) (n : Nat) (fs : List InlineFile) (p : PSt σ) :
    forget (readContents S rule n fs p) = Parse.readContents S rule n fs p := by
  induction fs generalizing p with
  | nil => rfl
  | cons f fs ih =>
    unfold readContents Parse.readContents
    simp only [forget_bind, forget_readContent, ih]
    rfl

theorem forget_parseCommandLine (n : Nat) (rule : Bool) (l : Str) (p : PSt σ) :
    forget (parseCommandLine S n rule l p) = Parse.parseCommandLine S n rule l p := by
  unfold parseCommandLine Parse.parseCommandLine
  simp only [forget_bind]
  cases rule
  · simp only [Bool.false_eq_true, if_false, forget_bind, forget_expand, forget_readContents]
    rfl
  · simp only [if_true, forget_readContents]
    rfl

theorem forget_skipEmpty (n : Nat) (p : PSt σ) : forget (skipEmpty S n p) = Parse.skipEmpty S n p := by
  induction n generalizing p with
  | zero => rfl
  | succ n ih =>
    unfold skipEmpty Parse.skipEmpty
    split
    · simp only [forget_bind, forget_readLine]
      congr 1
      funext p
      split
      · rfl
      · exact ih p
    · rfl

theorem forget_parseCommand (n : Nat) (rule : Bool) (p : PSt σ) :
    forget (parseCommand S n rule p) = Parse.parseCommand S n rule p := by
  unfold parseCommand Parse.parseCommand
  simp only [forget_bind, forget_skipEmpty]
  congr 1
  funext p
  rcases hl : p.line with _ | l
  · rfl
  · simp only
    split
    · rfl
    · simp only [forget_bind, forget_parseCommandLine]
      rfl

theorem forget_parseCommands (n : Nat) (rule : Bool) (k : Nat) (cs : List Command) (p : PSt σ) :
    forget (parseCommands S n rule k cs p) = Parse.parseCommands S n rule k cs p := by
  induction k generalizing cs p with
  | zero => rfl
  | succ k ih =>
    unfold parseCommands Parse.parseCommands
    simp only [forget_bind, forget_parseCommand]
    congr 1
    funext x
    obtain ⟨c, p⟩ := x
    cases c with
    | none => rfl
    | some c =>
      simp only [forget_bind, forget_readLine, ih]

theorem forget_parseInferenceRule (n : Nat) (r) (p : PSt σ) :
    forget (parseInferenceRule S n r p) = Parse.parseInferenceRule S n r p := by
  unfold parseInferenceRule Parse.parseInferenceRule
  simp only [forget_bind, forget_readLine, forget_parseCommands]
  rfl

theorem forget_blockCommands (n : Nat) (o : Option Str) (p : PSt σ) :
    forget (blockCommands S n o p) = Parse.blockCommands S n o p := by
  unfold blockCommands Parse.blockCommands
  simp only [forget_bind]
  congr 1
  · cases o with
    | none => rfl
    | some s => simp only [forget_bind, forget_parseCommandLine]; rfl
  · funext x
    simp only [forget_readLine]
    congr 1
    funext q
    split
    · simp only [forget_bind, forget_readLine]; rfl
    · exact forget_parseCommands ..

theorem forget_parseDescriptionBlock (glob : Str → List Str) (n : Nat) (line : Str) (pos len : Nat) (sep : Option Nat) (p : PSt σ) :
    forget (parseDescriptionBlock S glob n line pos len sep p) = Parse.parseDescriptionBlock S glob n line pos len sep p := by
  unfold parseDescriptionBlock Parse.parseDescriptionBlock
  simp only [forget_bind, forget_expand, forget_blockCommands]
  congr 1
  funext a
  congr 1
  funext b
  congr 1
  funext c
  obtain ⟨cs, p⟩ := c
  simp only
  generalize Blocks.addBlock n p.table _ = y
  cases y <;> rfl

theorem forget_parseItem (glob : Str → List Str) (n : Nat) (l : Str) (p : PSt σ) :
    forget (parseItem S glob n l p) = Parse.parseItem S glob n l p := by
  unfold parseItem Parse.parseItem
  simp only [forget_bind, forget_expand]
  congr 1
  funext a
  split
  · exact forget_readLine _
  · rcases dotDirective a with _ | ⟨d, v⟩
    · simp only
      rcases inferenceRule a with _ | r
      · simp only
        rcases descriptionBlockSeparator (removeCommentsAndFindCommandSeparator l).1 with _ | ⟨pos, len⟩
        · rfl
        · exact forget_parseDescriptionBlock ..
      · exact forget_parseInferenceRule ..
    · exact forget_readLine _

theorem forget_parseItems (glob : Str → List Str) (n k : Nat) (p : PSt σ) :
    forget (parseItems S glob n k p) = Parse.parseItems S glob n k p := by
  induction k generalizing p with
  | zero => rfl
  | succ k ih =>
    unfold parseItems Parse.parseItems
    rcases p.line with _ | l
    · rfl
    · simp only [forget_bind, forget_parseItem, ih]

theorem forget_parse (glob : Str → List Str) (n : Nat) (silent stop : Bool) (s : σ) :
    forget (parse S glob n silent stop s) = Parse.parse S glob n silent stop s := by
  unfold parse Parse.parse
  simp only [forget_bind, forget_readLine, forget_parseItems]

/-! ### Where errors are thrown -/

open Jom.Spec.Makefile

/-- An error for which some line is to blame is thrown when that line is the one read last; other errors of the preprocessor come
from its `readLine`. -/
def Blames (S : Source σ) (s : σ) (x : Thrown σ) : Prop :=
  ((x.1 = .syntax ∨ ∃ m, x.1 = .macro m) → ∃ l, LastRead S s x.2 l ∧ About (S.macros x.2) l x.1) ∧
    ∀ e, x.1 = .pp e → Reached S s x.2 ∧ ∃ inline, S.next inline x.2 = .error x.1

theorem blames_other {s s' : σ} {e : PErr} (h1 : e ≠ .syntax) (h2 : ∀ m, e ≠ .macro m) (h3 : ∀ m, e ≠ .pp m) : Blames S s (e, s') :=
  ⟨fun h => h.elim (fun h => absurd h h1) fun ⟨m, h⟩ => absurd h (h2 m), fun m h => absurd h (h3 m)⟩

theorem blames_pp {s s' : σ} {e : PP.Err} {inline : Bool} (h : Reached S s s') (hx : S.next inline s' = .error (.pp e)) :
    Blames S s (.pp e, s') :=
  ⟨(fun h => by rcases h with h | ⟨m, h⟩ <;> cases h), fun _ _ => ⟨h, inline, hx⟩⟩

/-- `Q` holds for the result, or the exception is as it should be. -/
def Sound {α : Type} (S : Source σ) (s : σ) (Q : α → Prop) : Except (Thrown σ) α → Prop
  | .ok a => Q a
  | .error x => Blames S s x

/-- The current line is the one read last. -/
def Cur (S : Source σ) (s : σ) (p : PSt σ) : Prop := ∃ inline s0, Reached S s s0 ∧ S.next inline s0 = .ok (p.line, p.src)

/-- Errors of the preprocessor are marked as such. -/
def Marked (S : Source σ) : Prop := ∀ inline s e, S.next inline s = .error e → ∃ e', e = .pp e'

theorem Sound.bind {α β : Type} {s : σ} {Q : α → Prop} {R : β → Prop} {x : Except (Thrown σ) α} {f : α → Except (Thrown σ) β}
    (h : Sound S s Q x) (hf : ∀ a, Q a → Sound S s R (f a)) : Sound S s R (x >>= f) := by
  cases x with
  | error e => exact h
  | ok a => exact hf a h

theorem Cur.reached {s : σ} {p : PSt σ} (h : Cur S s p) : Reached S s p.src := by
  obtain ⟨i, s0, h1, h2⟩ := h
  exact .next h1 h2

theorem Cur.last {s : σ} {p : PSt σ} {l : Str} (h : Cur S s p) (hl : p.line = some l) : LastRead S s p.src l := by
  obtain ⟨i, s0, h1, h2⟩ := h
  exact ⟨i, s0, h1, by rw [h2, hl]⟩

theorem readLine_sound (hS : Marked S) {s : σ} {p : PSt σ} (h : Reached S s p.src) : Sound S s (Cur S s) (readLine S p) := by
  unfold readLine Parse.readLine
  rcases hx : S.next false p.src with e | ⟨l, s'⟩
  · obtain ⟨e', rfl⟩ := hS _ _ _ hx
    exact blames_pp h hx
  · exact ⟨false, p.src, h, hx⟩

theorem expand_sound {s : σ} {p : PSt σ} {l part : Str} (dep : Bool) (h : LastRead S s p.src l) (hp : part.Sublist l) :
    Sound S s (Means (S.macros p.src) dep part) (expand S p dep part) := by
  unfold expand Parse.expand
  rcases hx : expandMacros (S.macros p.src) part dep with e | t
  · refine ⟨fun _ => ?_, fun _ h => by cases h⟩
    refine ⟨l, h, .macro (dep := dep) hp fun t ht => ?_⟩
    rw [means_iff] at ht
    have := ht.symm.trans hx
    cases this
  · exact means_iff.2 hx

theorem readContent_sound (hS : Marked S) {s : σ} (rule : Bool) (n : Nat) (f : InlineFile) (p : PSt σ) (h : Reached S s p.src) :
    Sound S s (fun r => Cur S s r.2) (readContent S rule n f p) := by
  induction n generalizing f p with
  | zero => exact blames_other (by simp) (by simp) (by simp)
  | succ n ih =>
    unfold readContent
    rcases hx : S.next true p.src with e | ⟨_ | l, s'⟩
    · obtain ⟨e', rfl⟩ := hS _ _ _ hx
      exact blames_pp h hx
    · exact ⟨true, p.src, h, hx⟩
    · simp only
      have hc : Cur S s { p with line := some l, src := s' } := ⟨true, p.src, h, hx⟩
      split
      · exact hc
      · refine Sound.bind (Q := fun _ => True) ?_ fun t _ => ih _ _ hc.reached
        cases rule with
        | true => exact trivial
        | false =>
          simp only [Bool.false_eq_true, if_false]
          have := expand_sound false (hc.last rfl) (List.Sublist.refl l)
          revert this
          generalize expand S _ false l = x
          cases x with
          | ok _ => exact fun _ => trivial
          | error _ => exact id

theorem readContents_sound (hS : Marked S) {s : σ} (rule : Bool) (n : Nat) (fs : List InlineFile) (p : PSt σ) (h : Reached S s p.src) :
    Sound S s (fun r => Reached S s r.2.src) (readContents S rule n fs p) := by
  induction fs generalizing p with
  | nil => exact h
  | cons f fs ih =>
    unfold readContents
    exact (readContent_sound hS rule n f p h).bind fun a ha => (ih _ ha.reached).bind fun b hb => hb

theorem trimmed_sub (s : Str) : (trimmed s).Sublist s := by
  unfold trimmed trimRight trimLeft
  have h := (List.dropWhile_sublist isSpace (l := (s.dropWhile isSpace).reverse)).reverse
  rw [List.reverse_reverse] at h
  exact h.trans (List.dropWhile_sublist _)

theorem parseCommandLine_sound (hS : Marked S) {s : σ} {l : Str} (n : Nat) (rule : Bool) (c : Str) (p : PSt σ) (h : LastRead S s p.src l)
    (hc : c.Sublist l) : Sound S s (fun r => Reached S s r.2.src) (parseCommandLine S n rule c p) := by
  have hr : Reached S s p.src := by
    obtain ⟨i, s0, h1, h2⟩ := h
    exact .next h1 h2
  unfold parseCommandLine
  refine Sound.bind (Q := fun _ => True) ?_ fun a _ => (readContents_sound hS rule n _ p hr).bind fun b hb => hb
  cases rule with
  | true => exact trivial
  | false =>
    simp only [Bool.false_eq_true, if_false]
    exact (expand_sound false h ((trimmed_sub c).trans hc)).bind fun _ _ => trivial

theorem skipEmpty_sound (hS : Marked S) {s : σ} (n : Nat) (p : PSt σ) (h : Reached S s p.src) (hc : Cur S s p ∨ (trimmed (p.line.getD [])).isEmpty = true) :
    Sound S s (Cur S s) (skipEmpty S n p) := by
  induction n generalizing p with
  | zero => exact blames_other (by simp) (by simp) (by simp)
  | succ n ih =>
    unfold skipEmpty
    split
    · refine (readLine_sound hS h).bind fun q hq => ?_
      split
      · exact hq
      · exact ih q hq.reached (.inl hq)
    · next hb => exact hc.resolve_right hb

theorem parseCommand_sound (hS : Marked S) {s : σ} (n : Nat) (rule : Bool) (p : PSt σ) (h : Cur S s p) :
    Sound S s (fun r => Reached S s r.2.src ∧ (r.1 = none → Cur S s r.2)) (parseCommand S n rule p) := by
  unfold parseCommand
  refine (skipEmpty_sound hS n p h.reached (.inl h)).bind fun q hq => ?_
  rcases hl : q.line with _ | l
  · exact ⟨hq.reached, fun _ => hq⟩
  · simp only
    split
    · exact ⟨hq.reached, fun _ => hq⟩
    · exact (parseCommandLine_sound hS n rule l q (hq.last hl) (List.Sublist.refl l)).bind fun a ha => ⟨ha, fun hn => (by cases hn)⟩

theorem parseCommands_sound (hS : Marked S) {s : σ} (n : Nat) (rule : Bool) (k : Nat) (cs : List Command) (p : PSt σ) (h : Cur S s p) :
    Sound S s (fun r => Cur S s r.2) (parseCommands S n rule k cs p) := by
  induction k generalizing cs p with
  | zero => exact blames_other (by simp) (by simp) (by simp)
  | succ k ih =>
    unfold parseCommands
    refine (parseCommand_sound hS n rule p h).bind fun x hx => ?_
    obtain ⟨c, q⟩ := x
    cases c with
    | none => exact hx.2 rfl
    | some c => exact (readLine_sound hS hx.1).bind fun r hr => ih _ r hr

theorem parseInferenceRule_sound (hS : Marked S) {s : σ} (n : Nat) (r) (p : PSt σ) (h : Reached S s p.src) :
    Sound S s (Cur S s) (parseInferenceRule S n r p) := by
  unfold parseInferenceRule
  exact (readLine_sound hS h).bind fun q hq => (parseCommands_sound hS n true n [] q hq).bind fun a ha => ha

theorem blockCommands_sound (hS : Marked S) {s : σ} {l : Str} (n : Nat) (o : Option Str) (p : PSt σ) (h : LastRead S s p.src l)
    (ho : ∀ c, o = some c → c.Sublist l) : Sound S s (fun r => Cur S s r.2) (blockCommands S n o p) := by
  have hr : Reached S s p.src := by
    obtain ⟨i, s0, h1, h2⟩ := h
    exact .next h1 h2
  unfold blockCommands
  refine Sound.bind (Q := fun x => Reached S s x.2.src) ?_ fun x hx => (readLine_sound hS hx).bind fun q hq => ?_
  · cases o with
    | none => exact hr
    | some c => exact (parseCommandLine_sound hS n false (trimmed c) p h ((trimmed_sub c).trans (ho c rfl))).bind fun a ha => ha
  · split
    · exact (readLine_sound hS hq.reached).bind fun r hr => hr
    · exact parseCommands_sound hS n false n _ q hq

theorem unescHash_sub (a : Str) : (Spec.unescHash a).Sublist a := by
  fun_induction Spec.unescHash a <;> grind

theorem uncommented_sub (l : Str) : (removeCommentsAndFindCommandSeparator l).1.Sublist l := by
  obtain ⟨line, cmd, h⟩ := uncommented_exists l
  rw [uncommented_spec h]
  cases h with
  | neither _ _ => simp [tailOf]
  | comment _ _ _ => simpa [tailOf] using (unescHash_sub _).trans (List.sublist_append_left _ _)
  | command _ _ _ => simp [tailOf]

theorem parseDescriptionBlock_sound (hS : Marked S) {s : σ} {l : Str} (glob : Str → List Str) (n : Nat) (line : Str) (pos len : Nat) (sep : Option Nat)
    (p : PSt σ) (h : LastRead S s p.src l) (hl : line.Sublist l) : Sound S s (Cur S s) (parseDescriptionBlock S glob n line pos len sep p) := by
  unfold parseDescriptionBlock
  refine (expand_sound false h ((trimmed_sub _).trans ((List.take_sublist _ _).trans hl))).bind fun a _ => ?_
  have hu : (untilSeparator line sep).Sublist line := by
    cases sep with
    | none => exact List.Sublist.refl _
    | some i => exact List.take_sublist _ _
  refine (expand_sound true h ((trimmed_sub _).trans ((List.drop_sublist _ _).trans (hu.trans hl)))).bind fun b _ => ?_
  refine (blockCommands_sound hS n _ p h (fun c hc => ?_)).bind fun x hx => ?_
  · rw [Option.map_eq_some_iff] at hc
    obtain ⟨i, _, rfl⟩ := hc
    exact (List.drop_sublist _ _).trans hl
  · obtain ⟨cs, q⟩ := x
    simp only
    generalize Blocks.addBlock n q.table _ = y
    cases y with
    | error e => exact blames_other (by simp) (by simp) (by simp)
    | ok mk => exact hx

theorem parseItem_sound (hS : Marked S) {s : σ} (glob : Str → List Str) (n : Nat) (l : Str) (p : PSt σ) (h : Cur S s p) (hl : p.line = some l) :
    Sound S s (Cur S s) (parseItem S glob n l p) := by
  unfold parseItem
  refine (expand_sound false (h.last hl) (List.Sublist.refl l)).bind fun t ht => ?_
  split
  · exact readLine_sound hS h.reached
  · next hb =>
    rcases hd : dotDirective t with _ | ⟨d, v⟩
    · simp only
      rcases hi : inferenceRule t with _ | r
      · simp only
        rcases hb' : descriptionBlockSeparator (removeCommentsAndFindCommandSeparator l).1 with _ | ⟨pos, len⟩
        · refine ⟨fun _ => ?_, fun _ h => by cases h⟩
          refine ⟨l, h.last hl, .syntax ht (fun hh => hb (blank_iff.1 hh)) (fun d v hh => ?_) (fun hh => ?_) fun _ _ _ _ _ hh => ?_⟩
          · rw [dot_iff.2 hh] at hd
            cases hd
          · have := inferenceRule_some hh
            rw [hi] at this
            cases this
          · obtain ⟨pos, len, tt, dd, hh⟩ := header_spec hh
            have := hh.sep.symm.trans hb'
            cases this
        · exact parseDescriptionBlock_sound hS glob n _ pos len _ p (h.last hl) (uncommented_sub l)
      · exact parseInferenceRule_sound hS n r p h.reached
    · refine readLine_sound hS ?_
      have : (onDot d v p).src = p.src := by cases d <;> rfl
      rw [this]
      exact h.reached

theorem parseItems_sound (hS : Marked S) {s : σ} (glob : Str → List Str) (n k : Nat) (p : PSt σ) (h : Cur S s p) :
    Sound S s (Cur S s) (parseItems S glob n k p) := by
  induction k generalizing p with
  | zero => exact blames_other (by simp) (by simp) (by simp)
  | succ k ih =>
    unfold parseItems
    rcases hl : p.line with _ | l
    · exact h
    · exact (parseItem_sound hS glob n l p h hl).bind fun q hq => ih q hq

theorem parse_sound (hS : Marked S) (glob : Str → List Str) (n : Nat) (silent stop : Bool) (s : σ) :
    Sound S s (Cur S s) (parse S glob n silent stop s) := by
  unfold parse
  exact (readLine_sound hS Reached.start).bind fun p hp => parseItems_sound hS glob n n p hp

end Jom.Parse.Pos
