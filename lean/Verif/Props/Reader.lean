import Verif.Model.Reader
import Verif.Spec.Reader

/-! C88: the encoding of a makefile does not matter (outside inline files); C89: positions in error messages. -/

namespace Jom.Props

open Jom.Rdr Jom.Spec Jom.Spec.Rdr

/-! ### Properties of the specification -/

/-- Every text is empty, has a first line that ends, or is one line that does not. -/
theorem text_cases (t : Str) :
    t = [] ∨ (∃ l r, '\n' ∉ l ∧ t = l ++ '\n' :: r) ∨ (t ≠ [] ∧ '\n' ∉ t) := by
  induction t with
  | nil => exact Or.inl rfl
  | cons c t ih =>
    by_cases hc : c = '\n'
    · subst hc
      exact Or.inr (Or.inl ⟨[], t, by simp, rfl⟩)
    · rcases ih with rfl | ⟨l, r, h1, rfl⟩ | ⟨_, h⟩
      · exact Or.inr (Or.inr ⟨by simp, by simpa using Ne.symm hc⟩)
      · exact Or.inr (Or.inl ⟨c :: l, r, by simp [Ne.symm hc, h1], rfl⟩)
      · exact Or.inr (Or.inr ⟨by simp, by simp [Ne.symm hc, h]⟩)

theorem first_line_unique {l l' r r' : Str} (hl : '\n' ∉ l) (hl' : '\n' ∉ l') (h : l ++ '\n' :: r = l' ++ '\n' :: r') :
    l = l' ∧ r = r' := by
  have h1 := tsReadLine_line l r hl
  rw [h, tsReadLine_line l' r' hl'] at h1
  simp only [Prod.mk.injEq, Option.some.injEq] at h1
  exact ⟨h1.1.symm, h1.2.symm⟩

theorem not_first_line {l r t : Str} (ht : '\n' ∉ t) (h : l ++ '\n' :: r = t) : False :=
  ht (h ▸ by simp)

/-- There is one way to read a line. -/
theorem lineRead_unique {i t n m n' t' m2 n2 t2} (h : LineRead i t n m n' t') (h' : LineRead i t n m2 n2 t2) :
    m = m2 ∧ n' = n2 ∧ t' = t2 := by
  induction h with
  | raw hl =>
    generalize ht : _ ++ '\n' :: _ = t at h'
    cases h' with
    | raw hl' => obtain ⟨rfl, rfl⟩ := first_line_unique hl hl' ht; exact ⟨rfl, rfl, rfl⟩
    | rawLast hl' _ => exact (not_first_line hl' ht).elim
  | rawLast hl hne =>
    cases h' with
    | raw hl' => exact absurd hl (by simp)
    | rawLast _ _ => exact ⟨rfl, rfl, rfl⟩
  | comment hl hc _ ih =>
    generalize ht : _ ++ '\n' :: _ = t at h'
    cases h' with
    | comment hl' _ h' => obtain ⟨rfl, rfl⟩ := first_line_unique hl hl' ht; exact ih h'
    | line hl' hc' _ => obtain ⟨rfl, rfl⟩ := first_line_unique hl hl' ht; rw [hc] at hc'; cases hc'
    | last hl' _ _ _ => exact (not_first_line hl' ht).elim
  | line hl hc hm =>
    generalize ht : _ ++ '\n' :: _ = t at h'
    cases h' with
    | comment hl' hc' h' => obtain ⟨rfl, rfl⟩ := first_line_unique hl hl' ht; rw [hc] at hc'; cases hc'
    | line hl' _ hm' =>
      obtain ⟨rfl, rfl⟩ := first_line_unique hl hl' ht
      exact ⟨C11_line_meaning_unique hm hm', rfl, rfl⟩
    | last hl' _ _ _ => exact (not_first_line hl' ht).elim
  | last hl hne hc hm =>
    cases h' with
    | comment hl' hc' h' => exact absurd hl (by simp)
    | line hl' _ hm' => exact absurd hl (by simp)
    | last _ _ _ hm' => exact ⟨C11_line_meaning_unique hm hm', rfl, rfl⟩

/-- Where a line can be read, lines are left. -/
theorem lineRead_not_exhausted {i t n m n' t'} (h : LineRead i t n m n' t') : ¬ Exhausted i t := by
  intro he
  induction h with
  | raw hl =>
    generalize ht : _ ++ '\n' :: _ = t at he
    cases he; simp at ht
  | rawLast hl hne => cases he; exact hne rfl
  | comment hl hc _ ih =>
    generalize ht : _ ++ '\n' :: _ = t at he
    cases he with
    | nil => simp at ht
    | comment hl' _ he => obtain ⟨rfl, rfl⟩ := first_line_unique hl hl' ht; exact ih he
    | last hl' _ => exact not_first_line hl' ht
  | line hl hc hm =>
    generalize ht : _ ++ '\n' :: _ = t at he
    cases he with
    | nil => simp at ht
    | comment hl' hc' he => obtain ⟨rfl, rfl⟩ := first_line_unique hl hl' ht; rw [hc] at hc'; cases hc'
    | last hl' _ => exact not_first_line hl' ht
  | last hl hne hc hm =>
    cases he with
    | nil => exact hne rfl
    | comment hl' hc' he => exact absurd hl (by simp)
    | last _ hc' => rw [hc] at hc'; cases hc'

theorem lineRead_some {i t n m n' t'} (h : LineRead i t n m n' t') : m.content.isNone = false := by
  induction h with
  | raw _ => rfl
  | rawLast _ _ => rfl
  | comment _ _ _ ih => exact ih
  | line _ _ hm => exact meaning_some hm
  | last _ _ _ hm => exact meaning_some hm

/-- The reads of a text are determined. -/
theorem allRead_unique {is t n ls ls'} (h : AllRead is t n ls) (h' : AllRead is t n ls') : ls = ls' := by
  induction h generalizing ls' with
  | nil => cases h'; rfl
  | done he =>
    cases h' with
    | done _ => rfl
    | more h' _ => exact (lineRead_not_exhausted h' he).elim
  | more h _ ih =>
    cases h' with
    | done he => exact (lineRead_not_exhausted h he).elim
    | more h' hr =>
      obtain ⟨rfl, rfl, rfl⟩ := lineRead_unique h h'
      rw [ih hr]

/-! ### The 8-bit reader -/

theorem hash_first (l : Str) (e : Char) (he : e ≠ '#') : ((l ++ [e])[0]? == some '#') = isCommentLine l := by
  cases l with
  | nil => simpa [isCommentLine] using he
  | cons c l => rfl

theorem nextPhysicalN_spec (f : Nat) (st : Rd) (n : Nat) (hsz : 3 ≤ st.size) (hf : st.rest.length < f) :
    (∃ st' n', nextPhysicalN f st n = .ok (none, st', n') ∧ Exhausted false st.rest ∧ 3 ≤ st'.size) ∨
    ∃ l e st' n', nextPhysicalN f st n = .ok (some (l ++ [e]), st', n') ∧
      (∀ m, LineMeaning l m → LineRead false st.rest n m n' st'.rest) ∧
      3 ≤ st'.size ∧ (l ++ [e]).length + 1 ≤ st'.size := by
  induction f generalizing st n with
  | zero => omega
  | succ f ih =>
    have go : ∀ l r, '\n' ∉ l → (st.rest = l ++ '\n' :: r ∨ (st.rest = l ∧ l ≠ [] ∧ r = [])) →
        (∃ st' n', nextPhysicalN (f + 1) st n = .ok (none, st', n') ∧ Exhausted false st.rest ∧ 3 ≤ st'.size) ∨
        ∃ l e st' n', nextPhysicalN (f + 1) st n = .ok (some (l ++ [e]), st', n') ∧
          (∀ m, LineMeaning l m → LineRead false st.rest n m n' st'.rest) ∧
          3 ≤ st'.size ∧ (l ++ [e]).length + 1 ≤ st'.size := by
      intro l r hl h
      obtain ⟨hne, h2, e, size', m1, m2, m3, he⟩ := physical_fill st l r hsz hl h
      have step : nextPhysicalN (f + 1) st n =
          if isCommentLine l then nextPhysicalN f { rest := r, size := size' } (n + 1)
          else .ok (some (l ++ [e]), { rest := r, size := size' }, n + 1) := by
        simp only [nextPhysicalN]
        rw [if_neg (by omega), if_neg (by simpa using hne), m1]
        simp only [hash_first l e he]
      have hlen : r.length < f := by
        rcases h with h | ⟨h, h', rfl⟩
        · rw [h] at hf; simp at hf; omega
        · have := List.length_pos_iff.2 h'
          rw [h] at hf; simp; omega
      rw [step]
      by_cases hc : isCommentLine l = true
      · rw [if_pos hc]
        rcases ih { rest := r, size := size' } (n + 1) (by simp only; omega) hlen with
          ⟨st', n', p1, p2, p3⟩ | ⟨l', e', st', n', p1, p2, p3⟩
        · refine Or.inl ⟨st', n', p1, ?_, p3⟩
          rcases h with h | ⟨h, h', rfl⟩
          · rw [h]; exact .comment hl hc p2
          · rw [h]; exact .last hl hc
        · rcases h with h | ⟨h, h', rfl⟩
          · refine Or.inr ⟨l', e', st', n', p1, ?_, p3⟩
            intro m hm
            rw [h]
            exact .comment hl hc (p2 m hm)
          · exact (lineRead_not_exhausted (p2 _ (decodeU_meaning l')) .nil).elim
      · rw [if_neg hc]
        refine Or.inr ⟨l, e, _, _, rfl, ?_, by simp only; omega, m2⟩
        intro m hm
        have hc' : isCommentLine l = false := by simpa using hc
        rcases h with h | ⟨h, h', rfl⟩
        · rw [h]; exact .line hl hc' hm
        · rw [h]; exact .last hl h' hc' hm
    rcases text_cases st.rest with h | ⟨l, r, hl, h⟩ | ⟨hne, hl⟩
    · refine Or.inl ⟨{ st with rest := [] }, n + 1, ?_, by rw [h]; exact .nil, hsz⟩
      have hd : devReadLine (st.size - 1 - 1) st.rest = ([], []) := by
        rw [h]
        obtain ⟨k, hk⟩ : ∃ k, st.size - 1 - 1 = k + 1 := ⟨st.size - 3, by omega⟩
        rw [hk]; rfl
      simp only [nextPhysicalN, hd, List.length_nil, List.isEmpty_nil, if_true]
      rw [if_neg (by omega)]
    · exact go l r hl (Or.inl h)
    · exact go st.rest [] hl (Or.inr ⟨rfl, hne, rfl⟩)

/-! ### The Unicode reader -/

theorem tsReadLine_append {a : Str} (b : Str) (h : '\n' ∈ a) :
    tsReadLine (a ++ b) = ((tsReadLine a).1, (tsReadLine a).2 ++ b) := by
  rcases text_cases a with rfl | ⟨l, r, hl, rfl⟩ | ⟨_, hn⟩
  · simp at h
  · rw [List.append_assoc, List.cons_append, tsReadLine_line _ _ hl, tsReadLine_line _ _ hl]
  · exact (hn h).elim

/-- The stream delivers the next line whatever it has read ahead. -/
theorem streamLine_spec (k : Str → Nat) (hk : ∀ d, d ≠ [] → 0 < k d) (f : Nat) (buf dev : Str) (hf : dev.length < f) :
    ∃ buf' dev', streamLine k f buf dev = ((tsReadLine (buf ++ dev)).1, buf', dev') ∧
      buf' ++ dev' = (tsReadLine (buf ++ dev)).2 := by
  induction f generalizing buf dev with
  | zero => omega
  | succ f ih =>
    unfold streamLine
    by_cases hb : '\n' ∈ buf
    · rw [if_pos hb, tsReadLine_append dev hb]
      exact ⟨_, _, rfl, rfl⟩
    · rw [if_neg hb]
      cases dev with
      | nil => exact ⟨(tsReadLine buf).2, [], by simp only [List.isEmpty_nil, if_true, List.append_nil], by simp⟩
      | cons c d =>
        rw [if_neg (by simp)]
        have hpos := hk (c :: d) (by simp)
        obtain ⟨b', d', p1, p2⟩ := ih (buf ++ (c :: d).take (k (c :: d))) ((c :: d).drop (k (c :: d)))
          (by rw [List.length_drop]; simp at hf ⊢; omega)
        rw [List.append_assoc, List.take_append_drop] at p1 p2
        exact ⟨b', d', p1, p2⟩

theorem unicodeLine_spec (k : Str → Nat) (hk : ∀ d, d ≠ [] → 0 < k d) (f : Nat) (buf dev : Str) (n : Nat)
    (hf : (buf ++ dev).length < f) :
    ((unicodeLine k f buf dev n).1.content = none ∧ Exhausted false (buf ++ dev)) ∨
    LineRead false (buf ++ dev) n (unicodeLine k f buf dev n).1 (unicodeLine k f buf dev n).2.2.2
      ((unicodeLine k f buf dev n).2.1 ++ (unicodeLine k f buf dev n).2.2.1) := by
  induction f generalizing buf dev n with
  | zero => omega
  | succ f ih =>
    obtain ⟨b', d', p1, p2⟩ := streamLine_spec k hk (dev.length + 1) buf dev (Nat.lt_succ_self _)
    have go : ∀ l r, '\n' ∉ l → (buf ++ dev = l ++ '\n' :: r ∨ (buf ++ dev = l ∧ l ≠ [] ∧ r = [])) →
        tsReadLine (buf ++ dev) = (some l, r) →
        ((unicodeLine k (f + 1) buf dev n).1.content = none ∧ Exhausted false (buf ++ dev)) ∨
        LineRead false (buf ++ dev) n (unicodeLine k (f + 1) buf dev n).1 (unicodeLine k (f + 1) buf dev n).2.2.2
          ((unicodeLine k (f + 1) buf dev n).2.1 ++ (unicodeLine k (f + 1) buf dev n).2.2.1) := by
      intro l r hl h ht
      rw [ht] at p1 p2
      simp only at p2
      have step : unicodeLine k (f + 1) buf dev n =
          if isCommentLine l then unicodeLine k f b' d' (n + 1) else (decodeU l, b', d', n + 1) := by
        simp only [unicodeLine, p1, startsWith_hash]
      have hlen : (b' ++ d').length < f := by
        rw [p2]
        rcases h with h | ⟨h, h', rfl⟩
        · rw [h] at hf; simp at hf; omega
        · have := List.length_pos_iff.2 h'
          rw [h] at hf; simp; omega
      rw [step]
      by_cases hc : isCommentLine l = true
      · rw [if_pos hc]
        rcases ih b' d' (n + 1) hlen with ⟨q1, q2⟩ | q
        · refine Or.inl ⟨q1, ?_⟩
          rw [p2] at q2
          rcases h with h | ⟨h, h', rfl⟩
          · rw [h]; exact .comment hl hc q2
          · rw [h]; exact .last hl hc
        · rw [p2] at q
          rcases h with h | ⟨h, h', rfl⟩
          · right
            rw [h]
            exact .comment hl hc q
          · exact (lineRead_not_exhausted q .nil).elim
      · rw [if_neg hc]
        right
        have hc' : isCommentLine l = false := by simpa using hc
        simp only [p2]
        rcases h with h | ⟨h, h', rfl⟩
        · rw [h]; exact .line hl hc' (decodeU_meaning l)
        · rw [h]; exact .last hl h' hc' (decodeU_meaning l)
    rcases text_cases (buf ++ dev) with h | ⟨l, r, hl, h⟩ | ⟨hne, hl⟩
    · left
      rw [h] at p1 p2 ⊢
      refine ⟨?_, .nil⟩
      simp only [unicodeLine, p1, tsReadLine]
    · exact go l r hl (Or.inl h) (by rw [h, tsReadLine_line _ _ hl])
    · exact go _ [] hl (Or.inr ⟨rfl, hne, rfl⟩) (tsReadLine_last _ hl hne)

/-! ### Both readers -/

/-- What the reader has not delivered. -/
def unread (r : Reader) : Str := r.buf ++ r.dev

/-- States of a reader: the 8-bit reader has no stream. -/
def Fit (r : Reader) : Prop := 3 ≤ r.size ∧ (r.unicode = false → r.buf = [])

theorem devReadLine_line (l r : Str) (hl : '\n' ∉ l) (n : Nat) (hn : l.length < n) :
    devReadLine n (l ++ '\n' :: r) = (l ++ ['\n'], r) := by
  induction l generalizing n with
  | nil => obtain ⟨k, rfl⟩ : ∃ k, n = k + 1 := ⟨n - 1, by omega⟩; simp [devReadLine]
  | cons c l ih =>
    obtain ⟨k, rfl⟩ : ∃ k, n = k + 1 := ⟨n - 1, by omega⟩
    simp only [List.mem_cons, not_or] at hl
    have hc : (c == '\n') = false := by simpa using Ne.symm hl.1
    simp at hn
    simp [devReadLine, hc, ih hl.2 k (by omega)]

theorem devReadLine_last (l : Str) (hl : '\n' ∉ l) (n : Nat) (hn : l.length ≤ n) : devReadLine n l = (l, []) := by
  induction l generalizing n with
  | nil => cases n <;> rfl
  | cons c l ih =>
    obtain ⟨k, rfl⟩ : ∃ k, n = k + 1 := ⟨n - 1, by simp at hn; omega⟩
    simp only [List.mem_cons, not_or] at hl
    have hc : (c == '\n') = false := by simpa using Ne.symm hl.1
    simp at hn
    simp [devReadLine, hc, ih hl.2 k (by omega)]

theorem inline_spec (t : Str) (n : Nat) :
    (t = [] ∧ Exhausted true t) ∨
    (t ≠ [] ∧ LineRead true t n { content := some (devReadLine t.length t).1 } (n + 1) (devReadLine t.length t).2) := by
  rcases text_cases t with rfl | ⟨l, r, hl, rfl⟩ | ⟨hne, hl⟩
  · exact Or.inl ⟨rfl, .nil⟩
  · rw [devReadLine_line l r hl _ (by simp)]
    exact Or.inr ⟨by simp, .raw hl⟩
  · rw [devReadLine_last t hl _ (Nat.le_refl _)]
    exact Or.inr ⟨hne, .rawLast hl hne⟩

/-- Every read gives the next line of what is unread, with its number, or the null line if there is none. -/
theorem read_spec (k : Str → Nat) (hk : ∀ d, d ≠ [] → 0 < k d) (inline : Bool) (r : Reader) (hr : Fit r)
    (hi : inline = true → r.unicode = false) :
    ∃ m r', r.readLine k inline = .ok (m, r') ∧ Fit r' ∧ r'.unicode = r.unicode ∧ r'.name = r.name ∧
      ((m.content = none ∧ Exhausted inline (unread r)) ∨
        LineRead inline (unread r) r.line m r'.line (unread r')) := by
  unfold Reader.readLine
  cases inline with
  | true =>
    have hu := hi rfl
    have hb := hr.2 hu
    rw [if_pos rfl]
    refine ⟨_, _, rfl, ⟨hr.1, fun _ => hb⟩, rfl, rfl, ?_⟩
    simp only [unread, hb, List.nil_append]
    rcases inline_spec r.dev r.line with ⟨h1, h2⟩ | ⟨h1, h2⟩
    · exact Or.inl ⟨by simp [h1], h2⟩
    · right
      rw [if_neg (by simpa using h1)]
      exact h2
  | false =>
    rw [if_neg (by simp)]
    by_cases hu : r.unicode = true
    · rw [if_pos hu]
      refine ⟨_, _, rfl, ⟨hr.1, fun h => by simp only at h; rw [hu] at h; cases h⟩, rfl, rfl, ?_⟩
      exact unicodeLine_spec k hk _ r.buf r.dev r.line (by simp)
    · have hu' : r.unicode = false := by simpa using hu
      have hb := hr.2 hu'
      rw [if_neg hu]
      simp only [unread, hb, List.nil_append]
      rcases nextPhysicalN_spec (r.dev.length + 1) { rest := r.dev, size := r.size } r.line hr.1 (Nat.lt_succ_self _) with
        ⟨st', n', p1, p2, p3⟩ | ⟨l, e, st', n', p1, p2, p3, p4⟩
      · rw [p1]
        exact ⟨_, _, rfl, ⟨p3, fun _ => rfl⟩, rfl, rfl, Or.inl ⟨rfl, p2⟩⟩
      · rw [p1]
        simp only
        rw [if_neg (by omega)]
        refine ⟨_, _, rfl, ⟨p3, fun _ => rfl⟩, rfl, rfl, Or.inr ?_⟩
        simpa [hb] using p2 _ (decode8_meaning l e)

theorem reads_spec (k : Str → Nat) (hk : ∀ d, d ≠ [] → 0 < k d) (is : List Bool) (r : Reader) (hr : Fit r)
    (hi : true ∈ is → r.unicode = false) :
    ∃ ls, r.reads k is = .ok ls ∧ AllRead is (unread r) r.line ls := by
  induction is generalizing r with
  | nil => exact ⟨[], rfl, .nil⟩
  | cons i is ih =>
    obtain ⟨m, r', p1, p2, p3, _, p4⟩ := read_spec k hk i r hr (fun h => hi (by simp [h]))
    unfold Reader.reads
    rw [p1]
    rcases p4 with ⟨q1, q2⟩ | q
    · exact ⟨[], by simp [q1], .done q2⟩
    · obtain ⟨ls, s1, s2⟩ := ih r' p2 (fun h => by rw [p3]; exact hi (by simp [h]))
      refine ⟨(m, r'.line) :: ls, ?_, .more q s2⟩
      simp only [lineRead_some q, Bool.false_eq_true, if_false, s1]

theorem openReader_fit (name : Str) (u : Bool) (text : Str) : Fit (openReader name u text) :=
  ⟨by simp [openReader, initialBufferSize], fun _ => rfl⟩

/-- C88: the lines of a makefile and their numbers do not depend on its encoding, nor on the pieces in which the file
is read. -/
theorem C88_encoding_partial (k k' : Str → Nat) (hk : ∀ d, d ≠ [] → 0 < k d) (hk' : ∀ d, d ≠ [] → 0 < k' d)
    (name text : Str) (u u' : Bool) (n : Nat) :
    (openReader name u text).reads k (List.replicate n false) =
      (openReader name u' text).reads k' (List.replicate n false) := by
  have hf : ∀ v : Bool, true ∈ List.replicate n false → v = false := by
    intro v h; simp at h
  obtain ⟨ls, p1, p2⟩ := reads_spec k hk (List.replicate n false) _ (openReader_fit name u text) (hf _)
  obtain ⟨ls', q1, q2⟩ := reads_spec k' hk' (List.replicate n false) _ (openReader_fit name u' text) (hf _)
  rw [p1, q1]
  exact congrArg _ (allRead_unique p2 q2)

/-- C88: what both readers deliver are the lines of the text. -/
theorem C88_lines (k : Str → Nat) (hk : ∀ d, d ≠ [] → 0 < k d) (name text : Str) (u : Bool) (is : List Bool)
    (hi : true ∈ is → u = false) :
    ∃ ls, (openReader name u text).reads k is = .ok ls ∧ AllRead is text 0 ls :=
  reads_spec k hk is _ (openReader_fit name u text) hi

/-! ### The negation for inline files -/

theorem streamLine_all (k : Str → Nat) (f : Nat) (text : Str) (hne : text ≠ []) (hk : text.length ≤ k text) :
    (streamLine k (f + 2) [] text).2.2 = [] := by
  unfold streamLine
  rw [if_neg (by simp), if_neg (by simpa using hne), List.drop_eq_nil_of_le hk]
  unfold streamLine
  split
  · rfl
  · simp

theorem streamLine_nil (k : Str → Nat) (f : Nat) (buf : Str) : (streamLine k f buf []).2.2 = [] := by
  cases f with
  | zero => rfl
  | succ f => unfold streamLine; split <;> simp

theorem unicodeLine_nil (k : Str → Nat) (f : Nat) (buf : Str) (n : Nat) : (unicodeLine k f buf [] n).2.2.1 = [] := by
  induction f generalizing buf n with
  | zero => rfl
  | succ f ih =>
    unfold unicodeLine
    have h := streamLine_nil k (([] : Str).length + 1) buf
    generalize hs : streamLine k (([] : Str).length + 1) buf [] = x at h
    obtain ⟨o, b, d⟩ := x
    simp only at h
    subst h
    cases o with
    | none => rfl
    | some str => simp only; split
                  · exact ih _ _
                  · rfl

/-- C88, negation: in a Unicode makefile that the stream takes in one piece (16384 bytes), a line read in inline file
mode after any other line is the null line, whatever follows in the file. -/
theorem C88_inline_lost (k : Str → Nat) (name text : Str) (hk : text.length ≤ k text) (m : MLine) (r : Reader)
    (h : (openReader name true text).readLine k false = .ok (m, r)) :
    ∃ r', r.readLine k true = .ok ({}, r') := by
  have hd : r.dev = [] := by
    unfold Reader.readLine openReader at h
    simp only [Bool.false_eq_true, if_false, if_true, Except.ok.injEq, Prod.mk.injEq] at h
    rw [← h.2]
    simp only [List.length_nil, Nat.zero_add]
    cases hc : text with
    | nil => exact unicodeLine_nil _ _ _ _
    | cons c t =>
      rw [← hc]
      have hne : text ≠ [] := by rw [hc]; simp
      have hs : (streamLine k (text.length + 1) [] text).2.2 = [] := by
        have : text.length + 1 = t.length + 2 := by rw [hc]; simp
        rw [this]
        exact streamLine_all k _ text hne hk
      unfold unicodeLine
      generalize hx : streamLine k (text.length + 1) [] text = x at hs
      obtain ⟨o, b, d⟩ := x
      simp only at hs
      subst hs
      cases o with
      | none => rfl
      | some str =>
        simp only
        split
        · exact unicodeLine_nil _ _ _ _
        · rfl
  unfold Reader.readLine
  simp [hd]

/-- A makefile with an inline file. -/
def exReaderText : Str := c!"# m\nall:\n\techo <<\nhello\n<<\nx = 1 \\\n 2\n"

/-- Hypotheses of `C88_inline_lost`, and what the 8-bit reader gives instead. -/
example : exReaderText.length ≤ 16384 ∧
    (openReader c!"m" true exReaderText).reads (fun _ => 16384) [false, false, true, true, false] =
      .ok [({ content := some c!"all:" }, 2), ({ content := some c!"\techo <<" }, 3)] ∧
    (openReader c!"m" false exReaderText).reads (fun _ => 16384) [false, false, true, true, false] =
      .ok [({ content := some c!"all:" }, 2), ({ content := some c!"\techo <<" }, 3),
        ({ content := some c!"hello\n" }, 4), ({ content := some c!"<<\n" }, 5),
        ({ content := some c!"x = 1 ", cont := .backslash }, 6)] := by decide +kernel

/-- The encoding does not matter without inline files; pieces of three characters. -/
example : (openReader c!"m" true c!"# a\n#\nb \\\nc^\n\nd").reads (fun _ => 3) (List.replicate 5 false) =
    .ok [({ content := some c!"b ", cont := .backslash }, 3), ({ content := some c!"c", cont := .caret }, 4),
      ({ content := some [] }, 5), ({ content := some c!"d" }, 6)] := by decide +kernel

end Jom.Props
