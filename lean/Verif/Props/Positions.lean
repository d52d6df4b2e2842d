import Verif.Props.Reader

/-! C89: the position shown with an error is the file and the number of the line read last. -/

namespace Jom.Props

open Jom.Rdr Jom.Spec Jom.Spec.Rdr

/-! ### Numbers of lines -/

/-- The end of a line, or nothing. -/
def Ends (p : Str) : Prop := p = [] ∨ p.getLast? = some '\n'

theorem ends_line (p l : Str) : Ends (p ++ l ++ ['\n']) := Or.inr (by simp)

theorem count_line {l : Str} (p : Str) (hl : '\n' ∉ l) : (p ++ l ++ ['\n']).count '\n' = p.count '\n' + 1 := by
  simp [List.count_append, List.count_eq_zero_of_not_mem hl]

/-- A line that is read has the number of its place in the file, and so has what follows. -/
theorem lineRead_position {i t n m n' t'} (h : LineRead i t n m n' t') (text p : Str) (hp : text = p ++ t) (he : Ends p)
    (hn : n = p.count '\n') :
    (∃ l, LineOf text n' l ∧ Means i l m) ∧
      (t' = [] ∨ ∃ p', text = p' ++ t' ∧ Ends p' ∧ n' = p'.count '\n') := by
  have step : ∀ (l r : Str), t = l ++ '\n' :: r → text = (p ++ l ++ ['\n']) ++ r := by
    intro l r h; rw [hp, h]; simp
  induction h generalizing p with
  | @raw l r n hl =>
    refine ⟨⟨l, ⟨p, '\n' :: r, ?_, he, hl, Or.inr rfl, by rw [hn]⟩, ?_⟩, Or.inr ⟨_, step _ _ rfl, ends_line _ _, ?_⟩⟩
    · rw [hp]; simp
    · simp [Means]
    · rw [count_line p hl, hn]
  | @rawLast l n hl hne =>
    refine ⟨⟨l, ⟨p, [], by rw [hp]; simp, he, hl, Or.inl rfl, by rw [hn]⟩, ?_⟩, Or.inl rfl⟩
    simp [Means]
  | @comment l r n m n' t' hl hc h ih =>
    exact ih (p ++ l ++ ['\n']) (step _ _ rfl) (ends_line _ _) (by rw [count_line p hl, hn])
      (by intro l' r' h'; rw [step _ _ rfl, h']; simp)
  | @line l r n m hl hc hm =>
    refine ⟨⟨l, ⟨p, '\n' :: r, ?_, he, hl, Or.inr rfl, by rw [hn]⟩, ?_⟩, Or.inr ⟨_, step _ _ rfl, ends_line _ _, ?_⟩⟩
    · rw [hp]; simp
    · simp [Means, hc, hm]
    · rw [count_line p hl, hn]
  | @last l n m hl hne hc hm =>
    refine ⟨⟨l, ⟨p, [], by rw [hp]; simp, he, hl, Or.inl rfl, by rw [hn]⟩, ?_⟩, Or.inl rfl⟩
    simp [Means, hc, hm]

/-- Reader `r` of a file with this text: it knows how many lines are gone, unless nothing is left. -/
def Placed (text : Str) (r : Reader) : Prop :=
  Fit r ∧ (unread r = [] ∨ ∃ p, text = p ++ unread r ∧ Ends p ∧ r.line = p.count '\n')

theorem openReader_placed (name : Str) (u : Bool) (text : Str) : Placed text (openReader name u text) :=
  ⟨openReader_fit name u text, Or.inr ⟨[], rfl, Or.inl rfl, rfl⟩⟩

theorem exhausted_nil (i : Bool) : Exhausted i [] := .nil

theorem read_placed (k : Str → Nat) (hk : ∀ d, d ≠ [] → 0 < k d) (inline : Bool) (text : Str) (r : Reader)
    (hr : Placed text r) (hi : inline = true → r.unicode = false) :
    ∃ m r', r.readLine k inline = .ok (m, r') ∧ r'.unicode = r.unicode ∧ r'.name = r.name ∧
      ((m.content = none ∧ Exhausted inline (unread r)) ∨
        (LineRead inline (unread r) r.line m r'.line (unread r') ∧ Placed text r' ∧
          ∃ l, LineOf text r'.line l ∧ Means inline l m)) := by
  obtain ⟨m, r', p1, p2, p3, p4, p5⟩ := read_spec k hk inline r hr.1 hi
  refine ⟨m, r', p1, p3, p4, ?_⟩
  rcases p5 with q | q
  · exact Or.inl q
  · rcases hr.2 with h0 | ⟨p, h1, h2, h3⟩
    · rw [h0] at q
      exact (lineRead_not_exhausted q (exhausted_nil _)).elim
    · obtain ⟨s1, s2⟩ := lineRead_position q text p h1 h2 h3
      exact Or.inr ⟨q, ⟨p2, s2⟩, s1⟩

/-- C89: each line that is read has the number of its place in the file. -/
theorem C89_numbers {is : List Bool} {text : Str} {ls : List (MLine × Nat)} (h : AllRead is text 0 ls) :
    ∀ x ∈ ls, ∃ inline l, inline ∈ is ∧ LineOf text x.2 l ∧ Means inline l x.1 := by
  have gen : ∀ {is t n ls}, AllRead is t n ls → ∀ p, text = p ++ t → Ends p → n = p.count '\n' →
      ∀ x ∈ ls, ∃ inline l, inline ∈ is ∧ LineOf text x.2 l ∧ Means inline l x.1 := by
    intro is t n ls h
    induction h with
    | nil => intro _ _ _ _ x hx; cases hx
    | done _ => intro _ _ _ _ x hx; cases hx
    | @more i is t n m n' t' ls h hr ih =>
      intro p hp he hn x hx
      obtain ⟨⟨l, a1, a2⟩, a3⟩ := lineRead_position h text p hp he hn
      rcases List.mem_cons.1 hx with rfl | hx
      · exact ⟨i, l, by simp, a1, a2⟩
      · rcases a3 with rfl | ⟨p', b1, b2, b3⟩
        · cases hr with
          | nil => cases hx
          | done _ => cases hx
          | more h' _ => exact (lineRead_not_exhausted h' (exhausted_nil _)).elim
        · obtain ⟨inline, l', c1, c2⟩ := ih p' b1 b2 b3 x hx
          exact ⟨inline, l', by simp [c1], c2⟩
  exact gen h [] rfl (Or.inl rfl) rfl

/-- C89 for the reader: every line is returned with the number of its place in the file, whatever came before. -/
theorem C89_reader (k : Str → Nat) (hk : ∀ d, d ≠ [] → 0 < k d) (name text : Str) (u : Bool) (is : List Bool)
    (hi : true ∈ is → u = false) :
    ∃ ls, (openReader name u text).reads k is = .ok ls ∧
      ∀ x ∈ ls, ∃ inline l, inline ∈ is ∧ LineOf text x.2 l ∧ Means inline l x.1 := by
  obtain ⟨ls, h1, h2⟩ := C88_lines k hk name text u is hi
  exact ⟨ls, h1, C89_numbers h2⟩

/-- The lines of a text are determined by their numbers, so the number says which line it was. -/
theorem C89_number_unique {text : Str} {n : Nat} {l l' : Str} (h : LineOf text n l) (h' : LineOf text n l') : l = l' := by
  obtain ⟨b, a, h1, h2, h3, h4, h5⟩ := h
  obtain ⟨b', a', g1, g2, g3, g4, g5⟩ := h'
  have hc : b.count '\n' = b'.count '\n' := by omega
  have key : ∀ (b b' x y : Str), b ++ x = b' ++ y → (b = [] ∨ b.getLast? = some '\n') →
      (b' = [] ∨ b'.getLast? = some '\n') → b.count '\n' = b'.count '\n' → b.length ≤ b'.length → b = b' := by
    intro b b' x y hxy hb hb' hc hle
    obtain ⟨d, rfl⟩ : ∃ d, b' = b ++ d := by
      have := List.append_eq_append_iff.1 hxy
      rcases this with ⟨d, e1, _⟩ | ⟨d, e1, _⟩
      · exact ⟨d, e1⟩
      · have : d = [] := by
          have := congrArg List.length e1
          simp at this
          exact List.length_eq_zero_iff.1 (by omega)
        subst this
        exact ⟨[], by simpa using e1.symm⟩
    rw [List.count_append] at hc
    have hd : '\n' ∉ d := fun hm => by
      have := List.count_pos_iff.2 hm
      omega
    rcases List.eq_nil_or_concat d with rfl | ⟨d', c, rfl⟩
    · simp
    · exfalso
      rcases hb' with e | e
      · simp at e
      · rw [List.concat_eq_append, ← List.append_assoc, List.getLast?_concat] at e
        simp only [Option.some.injEq] at e
        exact hd (by simp [e])
  have hb : b = b' := by
    rw [h1, List.append_assoc, List.append_assoc] at g1
    rcases Nat.le_total b.length b'.length with hle | hle
    · exact key b b' _ _ g1 h2 g2 hc hle
    · exact (key b' b _ _ g1.symm g2 h2 hc.symm hle).symm
  subst hb
  rw [h1, List.append_assoc, List.append_assoc] at g1
  have g1 := List.append_cancel_left g1
  rcases h4 with rfl | h4
  · rcases g4 with rfl | g4
    · simpa using g1
    · exfalso
      cases a' with
      | nil => cases g4
      | cons c a' =>
        simp at g4; subst g4
        exact h3 (by rw [List.append_nil] at g1; rw [g1]; simp)
  · cases a with
    | nil => cases h4
    | cons c a =>
      simp at h4; subst h4
      rcases g4 with rfl | g4
      · exact (g3 (by rw [List.append_nil] at g1; rw [← g1]; simp)).elim
      · cases a' with
        | nil => cases g4
        | cons c a' =>
          simp at g4; subst g4
          exact (first_line_unique h3 g3 g1).1

/-! ### The stack of files -/

/-- A file of the model of the preprocessor and the reader for it; `uni`: which files are Unicode files. -/
def Sync (w : PP.World) (uni : Str → Bool) (f : PP.TextFile) (r : Reader) : Prop :=
  r.name = f.name ∧ r.unicode = uni f.name ∧ unread r = f.rest ∧ ∃ text, w.content f.name = some text ∧ Placed text r

/-- The files of the model and the stack of readers. -/
inductive SyncAll (w : PP.World) (uni : Str → Bool) : List PP.TextFile → List Reader → Prop
  | nil : SyncAll w uni [] []
  | cons {f r fs rs} : Sync w uni f r → SyncAll w uni fs rs → SyncAll w uni (f :: fs) (r :: rs)

/-- Lines of inline files are read in 8-bit makefiles only (in Unicode makefiles they get lost: `C88_inline_lost`). -/
def Modes (uni : Str → Bool) (inline : Bool) : Prop := inline = true → ∀ name, uni name = false

/-- The readers are those of the files of the preprocessor. -/
def Synced (w : PP.World) (uni : Str → Bool) (s : PP.St) (rs : List Reader) : Prop :=
  SyncAll w uni s.files rs ∧ Modes uni s.inline

theorem readLineUF_read (f : Nat) (t : Str) (n : Nat) (hf : t.length < f) :
    ((readLineUF f t).1.content = none ∧ Exhausted false t) ∨
    ∃ n', LineRead false t n (readLineUF f t).1 n' (readLineUF f t).2 := by
  induction f generalizing t n with
  | zero => omega
  | succ f ih =>
    have go : ∀ l r, '\n' ∉ l → (t = l ++ '\n' :: r ∨ (t = l ∧ l ≠ [] ∧ r = [])) → tsReadLine t = (some l, r) →
        ((readLineUF (f + 1) t).1.content = none ∧ Exhausted false t) ∨
        ∃ n', LineRead false t n (readLineUF (f + 1) t).1 n' (readLineUF (f + 1) t).2 := by
      intro l r hl h ht
      have step : readLineUF (f + 1) t = if isCommentLine l then readLineUF f r else (decodeU l, r) := by
        simp only [readLineUF, ht, startsWith_hash]
      have hlen : r.length < f := by
        rcases h with h | ⟨h, h', rfl⟩
        · rw [h] at hf; simp at hf; omega
        · have := List.length_pos_iff.2 h'
          rw [h] at hf; simp; omega
      rw [step]
      by_cases hc : isCommentLine l = true
      · rw [if_pos hc]
        rcases ih r (n + 1) hlen with ⟨q1, q2⟩ | ⟨n', q⟩
        · refine Or.inl ⟨q1, ?_⟩
          rcases h with h | ⟨h, h', rfl⟩
          · rw [h]; exact .comment hl hc q2
          · rw [h]; exact .last hl hc
        · rcases h with h | ⟨h, h', rfl⟩
          · right
            rw [h]
            exact ⟨n', .comment hl hc q⟩
          · exact (lineRead_not_exhausted q .nil).elim
      · rw [if_neg hc]
        have hc' : isCommentLine l = false := by simpa using hc
        rcases h with h | ⟨h, h', rfl⟩
        · rw [h]; exact Or.inr ⟨_, .line hl hc' (decodeU_meaning l)⟩
        · rw [h]; exact Or.inr ⟨_, .last hl h' hc' (decodeU_meaning l)⟩
    rcases text_cases t with h | ⟨l, r, hl, h⟩ | ⟨hne, hl⟩
    · left
      subst h
      exact ⟨rfl, .nil⟩
    · exact go l r hl (Or.inl h) (by rw [h, tsReadLine_line _ _ hl])
    · exact go _ [] hl (Or.inr ⟨rfl, hne, rfl⟩) (tsReadLine_last _ hl hne)

theorem readerLine_read (inline : Bool) (t : Str) (n : Nat) :
    ((PP.readerLine inline t).1.content = none ∧ Exhausted inline t) ∨
    ∃ n', LineRead inline t n (PP.readerLine inline t).1 n' (PP.readerLine inline t).2 := by
  unfold PP.readerLine
  cases inline with
  | false => exact readLineUF_read _ t n (Nat.lt_succ_self _)
  | true =>
    rw [if_pos rfl]
    rcases inline_spec t n with ⟨rfl, h⟩ | ⟨h1, h2⟩
    · exact Or.inl ⟨rfl, h⟩
    · cases t with
      | nil => exact absurd rfl h1
      | cons c t => exact Or.inr ⟨_, h2⟩

/-- `basicReadLine` on the stack of readers and on the files of the model: the same line; and if it is no null line,
file name and line number of the stack say where it stands. -/
theorem readStack_sync (k : Str → Nat) (hk : ∀ d, d ≠ [] → 0 < k d) (w : PP.World) (uni : Str → Bool) (inline : Bool)
    (hi : Modes uni inline) (fs : List PP.TextFile) (rs : List Reader) (h : SyncAll w uni fs rs) :
    ∃ rs', readStack k inline rs = .ok ((PP.readFiles inline fs).1, rs') ∧
      SyncAll w uni (PP.readFiles inline fs).2 rs' ∧
      (((PP.readFiles inline fs).1.content = none ∧ rs' = [] ∧ (PP.readFiles inline fs).2 = []) ∨
        ∃ text l, w.content (currentFileName rs') = some text ∧ LineOf text (lineNumber rs') l ∧
          Means inline l (PP.readFiles inline fs).1) := by
  induction h with
  | nil => exact ⟨[], rfl, .nil, Or.inl ⟨rfl, rfl, rfl⟩⟩
  | @cons f r fs rs hfr hrest ih =>
    obtain ⟨h1, h2, h3, text, h4, h5⟩ := hfr
    obtain ⟨m, r', p1, p2, p3, p4⟩ := read_placed k hk inline text r h5 (fun e => h2.trans (hi e _))
    unfold readStack PP.readFiles
    rw [p1]
    rcases p4 with ⟨q1, q2⟩ | ⟨q1, q2, l, q3, q4⟩
    · rw [h3] at q2
      have hn : (PP.readerLine inline f.rest).1.content = none := by
        rcases readerLine_read inline f.rest 0 with ⟨a, _⟩ | ⟨n', a⟩
        · exact a
        · exact (lineRead_not_exhausted a q2).elim
      simp only [q1, hn, Option.isNone_none, if_true]
      exact ih
    · rw [h3] at q1
      rcases readerLine_read inline f.rest r.line with ⟨_, a⟩ | ⟨n', a⟩
      · exact (lineRead_not_exhausted q1 a).elim
      · obtain ⟨e1, _, e3⟩ := lineRead_unique q1 a
        have hs := lineRead_some q1
        simp only [← e1, hs, Bool.false_eq_true, if_false]
        refine ⟨_, rfl, .cons ⟨p3.trans h1, p2.trans h2, e3, text, h4, q2⟩ hrest, Or.inr ⟨text, l, ?_, q3, q4⟩⟩
        show w.content r'.name = some text
        rw [p3, h1, h4]

/-! ### The preprocessor on the stack of readers -/

/-- Steps of the preprocessor that change its files, with the stack of readers: `basicReadLine` and the opening of a
file (preprocessor.cpp 89-93). -/
inductive Moves (w : PP.World) (uni : Str → Bool) (k : Str → Nat) :
    List PP.TextFile → List Reader → List PP.TextFile → List Reader → Prop
  | refl {fs rs} : Moves w uni k fs rs fs rs
  | read {fs rs fs' rs' m rs''} (inline : Bool) : Moves w uni k fs rs fs' rs' → readStack k inline rs' = .ok (m, rs'') →
      Moves w uni k fs rs (PP.readFiles inline fs').2 rs''
  | push {fs rs fs' rs'} {name dir text : Str} : Moves w uni k fs rs fs' rs' → w.content name = some text →
      Moves w uni k fs rs ({ name := name, dir := dir, rest := text } :: fs') (openReader name (uni name) text :: rs')

theorem Moves.trans {w uni k fs rs fs' rs' fs'' rs''} (h : Moves w uni k fs rs fs' rs') (h' : Moves w uni k fs' rs' fs'' rs'') :
    Moves w uni k fs rs fs'' rs'' := by
  induction h' with
  | refl => exact h
  | read i _ hr ih => exact .read i ih hr
  | push _ ht ih => exact .push ih ht

/-- The step from `s` to `s'` is such a sequence, and keeps files and readers together. -/
def Follows (w : PP.World) (uni : Str → Bool) (k : Str → Nat) (s s' : PP.St) : Prop :=
  ∀ rs, Synced w uni s rs → ∃ rs', Moves w uni k s.files rs s'.files rs' ∧ Synced w uni s' rs'

theorem follows_same {w uni k} {s s' : PP.St} (h : s'.files = s.files) (hi : s'.inline = s.inline) : Follows w uni k s s' := by
  intro rs hrs
  unfold Synced
  rw [h, hi]
  exact ⟨rs, .refl, hrs⟩

theorem Follows.trans {w uni k} {s s' s'' : PP.St} (h : Follows w uni k s s') (h' : Follows w uni k s' s'') : Follows w uni k s s'' := by
  intro rs hrs
  obtain ⟨rs', a, b⟩ := h rs hrs
  obtain ⟨rs'', c, d⟩ := h' rs' b
  exact ⟨rs'', a.trans c, d⟩

section
variable {w : PP.World} {uni : Str → Bool} {k : Str → Nat} (hk : ∀ d, d ≠ [] → 0 < k d)
include hk

theorem follows_basic (s : PP.St) : Follows w uni k s (PP.basicReadLine s).2 := by
  unfold PP.basicReadLine
  split
  · exact follows_same rfl rfl
  · intro rs hrs
    obtain ⟨rs', a, b, _⟩ := readStack_sync k hk w uni s.inline hrs.2 s.files rs hrs.1
    exact ⟨rs', .read _ .refl a, b, hrs.2⟩

theorem follows_completeF (f : Nat) (line : MLine) (s : PP.St) : Follows w uni k s (PP.completeF f line s).2 := by
  induction f generalizing line s with
  | zero => exact follows_same rfl rfl
  | succ f ih =>
    unfold PP.completeF
    split
    · exact follows_same rfl rfl
    · simp only
      split
      · exact follows_basic hk s
      · exact (follows_basic hk s).trans (ih _ _)

theorem follows_complete (line : MLine) (s : PP.St) : Follows w uni k s (PP.complete line s).2 := follows_completeF hk _ _ _

theorem follows_completeDirective (line : MLine) (s : PP.St) : Follows w uni k s (PP.completeDirective line s).2 := by
  unfold PP.completeDirective
  split
  · exact follows_complete hk _ _
  · exact follows_same rfl rfl

omit hk in
theorem follows_exit {s s' : PP.St} (h : PP.exitConditional s = .ok s') : Follows w uni k s s' := by
  unfold PP.exitConditional at h
  split at h
  · cases h
  · cases h; exact follows_same rfl rfl

theorem follows_skipF (f d : Nat) (s s' : PP.St) (h : PP.skipF f d s = .ok s') : Follows w uni k s s' := by
  induction f generalizing d s with
  | zero => cases h
  | succ f ih =>
    unfold PP.skipF at h
    simp only at h
    split at h
    · cases h; exact follows_basic hk s
    · have hd := (follows_basic (w := w) (uni := uni) hk s).trans (follows_completeDirective (w := w) (uni := uni) hk (PP.basicReadLine s).1 (PP.basicReadLine s).2)
      split at h
      · cases h
      · exact hd.trans (ih _ _ h)
      · exact hd.trans (ih _ _ h)
      · split at h
        · cases h
          exact hd.trans (follows_same rfl rfl)
        · exact hd.trans (ih _ _ h)
      · split at h
        · exact hd.trans (follows_exit h)
        · exact hd.trans (ih _ _ h)

theorem follows_skip {s s' : PP.St} (h : PP.skip s = .ok s') : Follows w uni k s s' := follows_skipF hk _ _ _ _ h

omit hk in
theorem follows_open {name : Str} {s s' : PP.St} (h : PP.openFile w name s = .ok s') : Follows w uni k s s' := by
  unfold PP.openFile at h
  split at h
  · cases h
  · split at h
    · cases h
    · split at h
      · cases h
      · rename_i abs _ _ text ht
        cases h
        intro rs hrs
        exact ⟨_, .push .refl ht, ⟨.cons ⟨rfl, rfl, rfl, text, ht, openReader_placed _ _ _⟩ hrs.1, hrs.2⟩⟩

theorem follows_onIf {d : PP.Dir} {v : Str} {s s' : PP.St} (h : PP.onIf w d v s = .ok s') : Follows w uni k s s' := by
  unfold PP.onIf at h
  split at h
  · cases h
  · simp only at h
    split at h
    · cases h; exact follows_same rfl rfl
    · have hs := follows_skip (w := w) (uni := uni) hk h
      exact fun rs hrs => hs rs hrs

theorem follows_onElse {s s' : PP.St} (h : PP.onElse s = .ok s') : Follows w uni k s s' := by
  unfold PP.onElse at h
  split at h
  · cases h
  · split at h
    · cases h; exact follows_same rfl rfl
    · exact follows_skip hk h

theorem follows_onElseIf {d : PP.Dir} {v : Str} {s s' : PP.St} (h : PP.onElseIf w d v s = .ok s') : Follows w uni k s s' := by
  unfold PP.onElseIf at h
  split at h
  · cases h
  · exact follows_skip hk h
  · split at h
    · cases h
    · split at h
      · cases h; exact follows_same rfl rfl
      · exact follows_skip hk h

theorem follows_onDirective {d v : Str} {s s' : PP.St} (h : PP.onDirective w d v s = .ok s') : Follows w uni k s s' := by
  unfold PP.onDirective at h
  split at h
  · cases h; exact follows_same rfl rfl
  · cases h
  · cases h; exact follows_same rfl rfl
  · split at h
    · cases h
    · exact follows_open h
  · exact follows_onIf hk h
  · exact follows_onIf hk h
  · exact follows_onIf hk h
  · exact follows_onElse hk h
  · exact follows_onElseIf hk h
  · exact follows_onElseIf hk h
  · exact follows_onElseIf hk h
  · exact follows_exit h
  · cases h; exact follows_same rfl rfl
  · cases h

theorem follows_parseDirective {line : Str} {s s' : PP.St} (h : PP.parseDirective w line s = .ok (some s')) :
    Follows w uni k s s' := by
  unfold PP.parseDirective at h
  split at h
  · cases h
  · cases h
  · split at h
    · rename_i hd
      cases h; exact follows_onDirective hk hd
    · cases h

/-- The state after a round of the loop. -/
def roundState : (MLine × PP.St) ⊕ (Option Str × PP.St) → PP.St
  | .inl x => x.2
  | .inr x => x.2

theorem follows_round {line : MLine} {s : PP.St} {x} (h : PP.round w line s = .ok x) : Follows w uni k s (roundState x) := by
  have hb := follows_basic (w := w) (uni := uni) hk s
  unfold PP.round at h
  simp only at h
  split at h
  · have hc := hb.trans (follows_complete (w := w) (uni := uni) hk (PP.basicReadLine s).1 (PP.basicReadLine s).2)
    split at h
    · cases h
    · cases h; exact hc
    · rename_i hd
      cases h; exact hc.trans (follows_parseDirective hk hd)
  · generalize (if PP.isComplete line = true then (PP.basicReadLine s).1 else
      PP.joinLines line (PP.basicReadLine s).1) = ln at h
    split at h
    · cases h; exact hb
    · split at h
      · cases h
      · cases h; exact hb.trans (follows_same rfl rfl)
      · split at h
        · cases h
        · rename_i hd
          cases h; exact hb.trans (follows_parseDirective hk hd)
        · cases h; exact hb

theorem follows_readLineF (f : Nat) (line : MLine) (s s' : PP.St) (x : Option Str)
    (h : PP.readLineF w f line s = .ok (x, s')) : Follows w uni k s s' := by
  induction f generalizing line s with
  | zero => cases h
  | succ f ih =>
    unfold PP.readLineF at h
    split at h
    · cases h
    · rename_i hr
      exact (follows_round hk hr).trans (ih _ _ h)
    · rename_i hr
      split at h
      · cases h
      · cases h
        exact follows_round hk hr

end

/-! ### The position of a line and of a directive -/

/-- The stack of readers shows the place of the line read last, and `text` ends with what that line means (without
blanks at its start when it continues a line). -/
def Shows (w : PP.World) (rs : List Reader) (inline : Bool) (text : Str) : Prop :=
  ∃ file l m q, w.content (currentFileName rs) = some file ∧ LineOf file (lineNumber rs) l ∧ Means inline l m ∧
    (text = q ++ m.content.getD [] ∨ text = q ++ trimLeft (m.content.getD []))

/-- Lines that were put back are directives. -/
def PutBackOk (s : PP.St) : Prop := ∀ l ∈ s.putBack, startsWith l ['!'] = true

theorem basic_putBack {s : PP.St} (h : PutBackOk s) : PutBackOk (PP.basicReadLine s).2 := by
  unfold PP.basicReadLine
  split
  · rename_i l ls hl
    intro x hx
    exact h x (by rw [hl]; exact List.mem_cons_of_mem _ hx)
  · exact h

theorem completeF_putBack (f : Nat) (line : MLine) {s : PP.St} (h : PutBackOk s) : PutBackOk (PP.completeF f line s).2 := by
  induction f generalizing line s with
  | zero => exact h
  | succ f ih =>
    unfold PP.completeF
    split
    · exact h
    · simp only
      split
      · exact basic_putBack h
      · exact ih _ (basic_putBack h)

theorem skippedTok_else {m : Macros} {line e : Str} (h : PP.skippedTok m line = .ok (.else, e)) :
    startsWith e ['!'] = true := by
  unfold PP.skippedTok at h
  split at h
  · cases h
  · rename_i expanded _
    split at h
    · cases h
    · simp at h
    · rename_i d v hd
      simp only [Except.ok.injEq, Prod.mk.injEq] at h
      obtain ⟨h1, rfl⟩ := h
      unfold PP.isDirective at hd
      split at hd
      · simp at hd
      · rename_i d' v' hraw
        have hdd : d' = d := by
          split at hd
          · simp only [Except.ok.injEq, Option.some.injEq, Prod.mk.injEq] at hd; exact hd.1
          · cases hd
        subst hdd
        unfold PP.rawDirective at hraw
        split at hraw
        · cases hraw
        · rename_i c t _
          split at hraw
          · cases hraw
          · split at hraw
            · split at hraw
              · simp only [Option.some.injEq, Prod.mk.injEq] at hraw
                rw [← hraw.1] at h1
                exact absurd h1 (by decide)
              · cases hraw
            · by_cases hc : c = '!'
              · subst hc; simp [startsWith, List.isPrefixOf]
              · exfalso
                have hm : PP.matchDirective (c :: t) = none := by
                  unfold PP.matchDirective
                  split
                  · rename_i heq; simp at heq; exact absurd heq.1 hc
                  · rfl
                rw [hm] at hraw
                simp at hraw

theorem exit_putBack {s s' : PP.St} (h : PP.exitConditional s = .ok s') (hp : PutBackOk s) : PutBackOk s' := by
  unfold PP.exitConditional at h
  split at h
  · cases h
  · cases h; exact hp

theorem skipF_putBack (f d : Nat) (s s' : PP.St) (h : PP.skipF f d s = .ok s') (hp : PutBackOk s) : PutBackOk s' := by
  induction f generalizing d s with
  | zero => cases h
  | succ f ih =>
    unfold PP.skipF at h
    simp only at h
    split at h
    · cases h; exact basic_putBack hp
    · have hd : PutBackOk (PP.completeDirective (PP.basicReadLine s).1 (PP.basicReadLine s).2).2 := by
        unfold PP.completeDirective
        split
        · exact completeF_putBack _ _ (basic_putBack hp)
        · exact basic_putBack hp
      split at h
      · cases h
      · exact ih _ _ h hd
      · exact ih _ _ h hd
      · rename_i htok
        split at h
        · cases h
          intro x hx
          rcases List.mem_append.1 hx with hx | hx
          · exact hd x hx
          · rw [List.mem_singleton.1 hx]; exact skippedTok_else htok
        · exact ih _ _ h hd
      · split at h
        · exact exit_putBack h hd
        · exact ih _ _ h hd

theorem skip_putBack {s s' : PP.St} (h : PP.skip s = .ok s') (hp : PutBackOk s) : PutBackOk s' :=
  skipF_putBack _ _ _ _ h hp

theorem onIf_putBack {w : PP.World} {d : PP.Dir} {v : Str} {s s' : PP.St} (h : PP.onIf w d v s = .ok s')
    (hp : PutBackOk s) : PutBackOk s' := by
  unfold PP.onIf at h
  split at h
  · cases h
  · simp only at h
    split at h
    · cases h; exact hp
    · exact skip_putBack h hp

theorem onElse_putBack {s s' : PP.St} (h : PP.onElse s = .ok s') (hp : PutBackOk s) : PutBackOk s' := by
  unfold PP.onElse at h
  split at h
  · cases h
  · split at h
    · cases h; exact hp
    · exact skip_putBack h hp

theorem onElseIf_putBack {w : PP.World} {d : PP.Dir} {v : Str} {s s' : PP.St} (h : PP.onElseIf w d v s = .ok s')
    (hp : PutBackOk s) : PutBackOk s' := by
  unfold PP.onElseIf at h
  split at h
  · cases h
  · exact skip_putBack h hp
  · split at h
    · cases h
    · split at h
      · cases h; exact hp
      · exact skip_putBack h hp

theorem parseDirective_putBack {w : PP.World} {line : Str} {s s' : PP.St}
    (h : PP.parseDirective w line s = .ok (some s')) (hp : PutBackOk s) : PutBackOk s' := by
  unfold PP.parseDirective at h
  split at h
  · cases h
  · cases h
  · split at h
    · rename_i hd
      cases h
      unfold PP.onDirective at hd
      split at hd
      · cases hd; exact hp
      · cases hd
      · cases hd; exact hp
      · split at hd
        · cases hd
        · unfold PP.openFile at hd
          split at hd
          · cases hd
          · split at hd
            · cases hd
            · split at hd
              · cases hd
              · cases hd; exact hp
      · exact onIf_putBack hd hp
      · exact onIf_putBack hd hp
      · exact onIf_putBack hd hp
      · exact onElse_putBack hd hp
      · exact onElseIf_putBack hd hp
      · exact onElseIf_putBack hd hp
      · exact onElseIf_putBack hd hp
      · exact exit_putBack hd hp
      · cases hd; exact hp
      · cases hd
    · cases h

theorem round_putBack {w : PP.World} {line : MLine} {s : PP.St} {x} (h : PP.round w line s = .ok x) (hp : PutBackOk s) :
    PutBackOk (roundState x) := by
  have hb := basic_putBack hp
  unfold PP.round at h
  simp only at h
  split at h
  · have hc := completeF_putBack (PP.size (PP.basicReadLine s).2 + 1) (PP.basicReadLine s).1 hb
    split at h
    · cases h
    · cases h; exact hc
    · rename_i hd
      cases h; exact parseDirective_putBack hd hc
  · generalize (if PP.isComplete line = true then (PP.basicReadLine s).1 else
      PP.joinLines line (PP.basicReadLine s).1) = ln at h
    split at h
    · cases h; exact hb
    · split at h
      · cases h
      · cases h; exact hb
      · split at h
        · cases h
        · rename_i hd
          cases h; exact parseDirective_putBack hd hb
        · cases h; exact hb

/-- A round that ends the loop: the line it returns ends with the line read in it. -/
theorem round_shows {w : PP.World} {uni : Str → Bool} {k : Str → Nat} (hk : ∀ d, d ≠ [] → 0 < k d) {line : MLine} {s s' : PP.St}
    {x : Option Str} (h : PP.round w line s = .ok (.inr (x, s'))) (hp : PutBackOk s) (rs : List Reader)
    (hrs : Synced w uni s rs) :
    ∃ rs', Moves w uni k s.files rs s'.files rs' ∧ Synced w uni s' rs' ∧
      (rs' = [] ∨ ∃ text, x = some text ∧ Shows w rs' s'.inline text) ∧ (x = none → rs' = []) := by
  obtain ⟨rs', a, b, c⟩ := readStack_sync k hk w uni s.inline hrs.2 s.files rs hrs.1
  unfold PP.round at h
  simp only at h
  split at h
  · split at h
    · cases h
    · simp at h
    · simp at h
  · rename_i hbang
    have hpb : s.putBack = [] := by
      cases hl : s.putBack with
      | nil => rfl
      | cons l ls =>
        exfalso
        apply hbang
        unfold PP.basicReadLine
        rw [hl]
        exact hp l (by rw [hl]; simp)
    have hb : PP.basicReadLine s = ((PP.readFiles s.inline s.files).1, { s with files := (PP.readFiles s.inline s.files).2 }) := by
      unfold PP.basicReadLine
      rw [hpb]
    rw [hb] at h
    generalize hln : (if PP.isComplete line = true then (PP.readFiles s.inline s.files).1 else
      PP.joinLines line (PP.readFiles s.inline s.files).1) = ln at h
    split at h
    · simp at h
    · split at h
      · cases h
      · simp at h
      · split at h
        · cases h
        · simp at h
        · simp only [Except.ok.injEq, Sum.inr.injEq, Prod.mk.injEq] at h
          obtain ⟨h1, h2⟩ := h
          subst h2
          refine ⟨rs', .read s.inline .refl a, ⟨b, hrs.2⟩, ?_, ?_⟩
          · rcases c with ⟨_, c, _⟩ | ⟨text, l, c1, c2, c3⟩
            · exact Or.inl c
            · right
              have hsome : ∃ t, (PP.readFiles s.inline s.files).1.content = some t := by
                unfold Means at c3
                split at c3
                · rcases c3.2 with e | e <;> exact ⟨_, e⟩
                · have := meaning_some c3.2
                  exact Option.isSome_iff_exists.1 (by simpa [Option.isSome_iff_ne_none, Option.isNone_iff_eq_none] using this)
              obtain ⟨t, ht⟩ := hsome
              rw [← h1, ← hln]
              by_cases hcm : PP.isComplete line = true
              · rw [if_pos hcm, ht]
                exact ⟨t, rfl, text, l, _, [], c1, c2, c3, Or.inl (by rw [ht]; rfl)⟩
              · rw [if_neg hcm]
                exact ⟨_, rfl, text, l, _, _, c1, c2, c3, Or.inr rfl⟩
          · intro hx
            rcases c with ⟨_, c, _⟩ | ⟨text, l, c1, c2, c3⟩
            · exact c
            · exfalso
              rw [← h1, ← hln] at hx
              split at hx
              · unfold Means at c3
                split at c3
                · rcases c3.2 with e | e <;> rw [hx] at e <;> cases e
                · have := meaning_some c3.2
                  rw [hx] at this; cases this
              · cases hx

/-- C89: when the preprocessor has returned a line, file name and line number are those of the last physical line of
it (unless the makefile has ended). -/
theorem C89_line {w : PP.World} {uni : Str → Bool} {k : Str → Nat} (hk : ∀ d, d ≠ [] → 0 < k d) (fuel : Nat) (s s' : PP.St) (x : Option Str)
    (h : PP.readLine w fuel s = .ok (x, s')) (hp : PutBackOk s) (rs : List Reader) (hrs : Synced w uni s rs) :
    ∃ rs', Moves w uni k s.files rs s'.files rs' ∧ Synced w uni s' rs' ∧ PutBackOk s' ∧
      (rs' = [] ∨ ∃ text, x = some text ∧ Shows w rs' s'.inline text) := by
  have gen : ∀ (f : Nat) (line : MLine) (s : PP.St) (rs : List Reader), PP.readLineF w f line s = .ok (x, s') →
      PutBackOk s → Synced w uni s rs → ∃ rs', Moves w uni k s.files rs s'.files rs' ∧ Synced w uni s' rs' ∧
        PutBackOk s' ∧ (rs' = [] ∨ ∃ text, x = some text ∧ Shows w rs' s'.inline text) := by
    intro f
    induction f with
    | zero => intro line s rs h; cases h
    | succ f ih =>
      intro line s rs h hp hrs
      unfold PP.readLineF at h
      split at h
      · cases h
      · rename_i hr
        obtain ⟨rs1, a, b⟩ := follows_round hk hr rs hrs
        obtain ⟨rs2, c, d⟩ := ih _ _ rs1 h (round_putBack hr hp) b
        exact ⟨rs2, a.trans c, d⟩
      · rename_i hr
        split at h
        · cases h
        · cases h
          obtain ⟨rs', a, b, c, _⟩ := round_shows hk hr hp rs hrs
          exact ⟨rs', a, b, round_putBack hr hp, c⟩
  exact gen fuel {} s rs h hp hrs

theorem completeF_shows {w : PP.World} {uni : Str → Bool} {k : Str → Nat} (hk : ∀ d, d ≠ [] → 0 < k d) (f : Nat) (line : MLine) (s : PP.St)
    (hpb : s.putBack = []) (rs : List Reader) (hrs : Synced w uni s rs)
    (hat : rs = [] ∨ Shows w rs s.inline (line.content.getD [])) :
    ∃ rs', Moves w uni k s.files rs (PP.completeF f line s).2.files rs' ∧ Synced w uni (PP.completeF f line s).2 rs' ∧
      (rs' = [] ∨ Shows w rs' s.inline ((PP.completeF f line s).1.content.getD [])) := by
  induction f generalizing line s rs with
  | zero => exact ⟨rs, .refl, hrs, hat⟩
  | succ f ih =>
    unfold PP.completeF
    split
    · exact ⟨rs, .refl, hrs, hat⟩
    · obtain ⟨rs', a, b, c⟩ := readStack_sync k hk w uni s.inline hrs.2 s.files rs hrs.1
      have hb : PP.basicReadLine s =
          ((PP.readFiles s.inline s.files).1, { s with files := (PP.readFiles s.inline s.files).2 }) := by
        unfold PP.basicReadLine
        rw [hpb]
      simp only [hb]
      split
      · rename_i hnone
        refine ⟨rs', .read s.inline .refl a, ⟨b, hrs.2⟩, Or.inl ?_⟩
        rcases c with ⟨_, c, _⟩ | ⟨text, l, c1, c2, c3⟩
        · exact c
        · exfalso
          unfold Means at c3
          split at c3
          · rcases c3.2 with e | e <;> rw [e] at hnone <;> cases hnone
          · rw [meaning_some c3.2] at hnone; cases hnone
      · obtain ⟨rs'', d1, d2, d3⟩ := ih (PP.joinDirective line (PP.readFiles s.inline s.files).1)
          { s with files := (PP.readFiles s.inline s.files).2 } hpb rs' ⟨b, hrs.2⟩ (by
            rcases c with ⟨_, c, _⟩ | ⟨text, l, c1, c2, c3⟩
            · exact Or.inl c
            · right
              exact ⟨text, l, _, _, c1, c2, c3, Or.inl rfl⟩)
        exact ⟨rs'', (Moves.read s.inline .refl a).trans d1, d2, d3⟩

/-- C89: when a directive is carried out (and when it fails, say `!ERROR`, an unknown directive or an include file that
is not there), file name and line number are those of its last physical line. -/
theorem C89_directive {w : PP.World} {uni : Str → Bool} {k : Str → Nat} (hk : ∀ d, d ≠ [] → 0 < k d) (s : PP.St) (hpb : s.putBack = [])
    (rs : List Reader) (hrs : Synced w uni s rs) :
    ∃ rs', Moves w uni k s.files rs (PP.complete (PP.basicReadLine s).1 (PP.basicReadLine s).2).2.files rs' ∧
      Synced w uni (PP.complete (PP.basicReadLine s).1 (PP.basicReadLine s).2).2 rs' ∧
      (rs' = [] ∨ Shows w rs' s.inline
        ((PP.complete (PP.basicReadLine s).1 (PP.basicReadLine s).2).1.content.getD [])) := by
  obtain ⟨rs', a, b, c⟩ := readStack_sync k hk w uni s.inline hrs.2 s.files rs hrs.1
  have hb : PP.basicReadLine s =
      ((PP.readFiles s.inline s.files).1, { s with files := (PP.readFiles s.inline s.files).2 }) := by
    unfold PP.basicReadLine
    rw [hpb]
  rw [hb]
  obtain ⟨rs'', d1, d2, d3⟩ := completeF_shows hk (PP.size { s with files := (PP.readFiles s.inline s.files).2 } + 1)
    (PP.readFiles s.inline s.files).1 { s with files := (PP.readFiles s.inline s.files).2 } hpb rs' ⟨b, hrs.2⟩ (by
      rcases c with ⟨_, c, _⟩ | ⟨text, l, c1, c2, c3⟩
      · exact Or.inl c
      · right
        exact ⟨text, l, _, [], c1, c2, c3, Or.inl rfl⟩)
  exact ⟨rs'', (Moves.read s.inline .refl a).trans d1, d2, d3⟩

/-! ### The message -/

/-- C89: with a place, the message says file and line; without one it says neither. -/
theorem C89_message (message : Str) (r : Reader) (rs : List Reader) (hn : r.name ≠ []) (hl : 0 < r.line) :
    errorText message (r :: rs) =
      message ++ c!" in " ++ (r.name.map fun c => if c == '/' then '\\' else c) ++ c!" line " ++ decimal r.line ∧
    errorText message [] = message := by
  constructor
  · simp [errorText, fileMessage, currentFileName, lineNumber, hn, hl]
  · simp [errorText, fileMessage, currentFileName, lineNumber]

/-! ### The negation for the end of the makefile -/

/-- Rounds of the loop that go on. -/
inductive Rounds (w : PP.World) : MLine → PP.St → MLine → PP.St → Prop
  | refl {line s} : Rounds w line s line s
  | step {line s line' s' line'' s''} : PP.round w line s = .ok (.inl (line', s')) → Rounds w line' s' line'' s'' →
      Rounds w line s line'' s''

theorem skipF_error (f d : Nat) (s : PP.St) : PP.skipF f d s ≠ .error .missingEndif := by
  induction f generalizing d s with
  | zero => simp [PP.skipF]
  | succ f ih =>
    unfold PP.skipF
    simp only
    split
    · simp
    · split
      · simp
      · exact ih _ _
      · exact ih _ _
      · split
        · simp
        · exact ih _ _
      · split
        · unfold PP.exitConditional
          split <;> simp
        · exact ih _ _

theorem condition_error (w : PP.World) (t : MacroTable) (d : PP.Dir) (v : Str) :
    PP.condition w t d v ≠ .error .missingEndif := by
  unfold PP.condition
  split
  · simp
  · simp
  · simp
  · simp
  · unfold PP.evaluateExpression
    split
    · simp
    · rename_i he
      split at he
      · cases he; simp
      · split at he
        · cases he
        · cases he; simp

theorem parseDirective_error (w : PP.World) (line : Str) (s : PP.St) :
    PP.parseDirective w line s ≠ .error .missingEndif := by
  have hif : ∀ d v, PP.onIf w d v s ≠ .error .missingEndif := by
    intro d v
    unfold PP.onIf
    split
    · rename_i e he
      intro h; cases h
      exact condition_error _ _ _ _ he
    · simp only
      split
      · simp
      · exact skipF_error _ _ _
  have helse : PP.onElse s ≠ .error .missingEndif := by
    unfold PP.onElse
    split
    · simp
    · split
      · simp
      · exact skipF_error _ _ _
  have helif : ∀ d v, PP.onElseIf w d v s ≠ .error .missingEndif := by
    intro d v
    unfold PP.onElseIf
    split
    · simp
    · exact skipF_error _ _ _
    · split
      · rename_i e he
        intro h; cases h
        exact condition_error _ _ _ _ he
      · split
        · simp
        · exact skipF_error _ _ _
  unfold PP.parseDirective
  split
  · simp
  · simp
  · split
    · simp
    · rename_i d v _ e he
      intro h
      cases h
      unfold PP.onDirective at he
      split at he
      · cases he
      · cases he
      · cases he
      · split at he
        · rename_i hf
          cases he
          unfold PP.findIncludeFile at hf
          simp only at hf
          split at hf
          · cases hf
          · cases hf
        · unfold PP.openFile at he
          split at he
          · cases he
          · split at he
            · cases he
            · split at he
              · cases he
              · cases he
      · exact hif _ _ he
      · exact hif _ _ he
      · exact hif _ _ he
      · exact helse he
      · exact helif _ _ he
      · exact helif _ _ he
      · exact helif _ _ he
      · unfold PP.exitConditional at he
        split at he <;> cases he
      · cases he
      · cases he

theorem round_error (w : PP.World) (line : MLine) (s : PP.St) : PP.round w line s ≠ .error .missingEndif := by
  unfold PP.round
  simp only
  split
  · split
    · rename_i he
      intro h; cases h
      exact parseDirective_error _ _ _ he
    · simp
    · simp
  · generalize (if PP.isComplete line = true then (PP.basicReadLine s).1 else
      PP.joinLines line (PP.basicReadLine s).1) = ln
    split
    · simp
    · split
      · simp
      · simp
      · split
        · rename_i he
          intro h; cases h
          exact parseDirective_error _ _ _ he
        · simp
        · simp

/-- C89, negation: when `!ENDIF` is missing, no file is open any more, so that the message names neither file nor
line. -/
theorem C89_missing_endif {w : PP.World} {uni : Str → Bool} {k : Str → Nat} (hk : ∀ d, d ≠ [] → 0 < k d) (fuel : Nat) (line : MLine)
    (s : PP.St) (h : PP.readLineF w fuel line s = .error .missingEndif) (hp : PutBackOk s) (rs : List Reader)
    (hrs : Synced w uni s rs) :
    ∃ line' s' s'', Rounds w line s line' s' ∧ PP.round w line' s' = .ok (.inr (none, s'')) ∧ s''.conds ≠ [] ∧
      Moves w uni k s.files rs s''.files [] ∧ ∀ message, errorText message [] = message := by
  induction fuel generalizing line s rs with
  | zero => simp [PP.readLineF] at h
  | succ f ih =>
    unfold PP.readLineF at h
    split at h
    · rename_i he
      cases h
      exact (round_error _ _ _ he).elim
    · rename_i hr
      obtain ⟨rs1, a, b⟩ := follows_round hk hr rs hrs
      obtain ⟨l', s', s'', c1, c2, c3, c4, c5⟩ := ih _ _ h (round_putBack hr hp) rs1 b
      exact ⟨l', s', s'', .step hr c1, c2, c3, a.trans c4, c5⟩
    · rename_i text s1 hr
      split at h
      · rename_i hc
        obtain ⟨hc1, hc2⟩ := hc
        have : text = none := by simpa using hc1
        subst this
        obtain ⟨rs', a, b, _, c⟩ := round_shows hk hr hp rs hrs
        rw [c rfl] at a
        exact ⟨line, s, s1, .refl, hr, hc2, a, fun m => by simp [errorText, fileMessage, currentFileName, lineNumber]⟩
      · cases h

/-! ### Examples -/

def placeWorld : PP.World :=
  { find := fun p => if p = c!"/m" ∨ p = c!"/i" then some p else none,
    content := fun p => if p = c!"/m" then some c!"# first\n!INCLUDE /i\nb\n!IFDEF X\n" else
      if p = c!"/i" then some c!"\na \\\n  c\n" else none,
    dir := fun _ => [], eval := fun _ _ => none }

def placeState : PP.St :=
  { files := [{ name := c!"/m", dir := [], rest := c!"# first\n!INCLUDE /i\nb\n!IFDEF X\n" }] }

def placeAt (t : Str) : PP.St := { files := [{ name := c!"/m", dir := [], rest := t }] }

/-- The hypotheses of `C89_line` and `C89_missing_endif`. -/
example : PutBackOk placeState ∧ Synced placeWorld (fun _ => false) placeState
      [openReader c!"/m" false c!"# first\n!INCLUDE /i\nb\n!IFDEF X\n"] ∧
    (PP.readLine placeWorld 30 placeState).isOk = true ∧
    PP.readLineF placeWorld 30 {} (placeAt c!"!IFDEF X\n") = .error .missingEndif := by
  refine ⟨by simp [PutBackOk, placeState], ?_, by decide +kernel, by decide +kernel⟩
  exact ⟨.cons ⟨rfl, rfl, rfl, _, by decide +kernel, openReader_placed _ _ _⟩ .nil, fun _ _ => rfl⟩

/-- The message for an error in the third line of the include file. -/
example : errorText c!"syntax error" [{ openReader c!"/i" false [] with line := 3 }, openReader c!"/m" false []] =
    c!"syntax error in \\i line 3" ∧ LineOf c!"\na \\\n  c\n" 3 c!"  c" := by
  refine ⟨by decide +kernel, c!"\na \\\n", c!"\n", by decide +kernel, by decide +kernel, by decide +kernel,
    by decide +kernel, by decide +kernel⟩

end Jom.Props
