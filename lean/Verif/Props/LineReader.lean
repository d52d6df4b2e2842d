import Verif.Model.LineReader
import Verif.Proofs.StrLemmas

/-! Properties C10 (lines of any length) and C11 (the two readers agree). -/

namespace Jom.Spec

/-- A file: complete lines and a possibly missing last newline. -/
def fileText (lines : List Str) (last : Str) : Str := lines.flatMap (· ++ ['\n']) ++ last

/-- What the end of a physical line means. -/
inductive LineMeaning : Str → MLine → Prop
  | escapedBackslash (a) : LineMeaning (a ++ ['^', '\\']) { content := some (a ++ ['\\']) }
  | doubleBackslash (a) : LineMeaning (a ++ ['\\', '\\']) { content := some (a ++ ['\\', '\\']) }
  | backslash (a) : (¬ ∃ b, a = b ++ ['^']) → (¬ ∃ b, a = b ++ ['\\']) →
      LineMeaning (a ++ ['\\']) { content := some a, cont := .backslash }
  | caret (a) : LineMeaning (a ++ ['^']) { content := some a, cont := .caret }
  | plain (a) : (¬ ∃ b, a = b ++ ['^']) → (¬ ∃ b, a = b ++ ['\\']) → LineMeaning a { content := some a }

/-- The line is a comment line. -/
def isCommentLine (l : Str) : Bool := l.head? == some '#'

/-- `Delivered ls ms`: the lines `ls` without comment lines are delivered as `ms`. -/
inductive Delivered : List Str → List MLine → Prop
  | nil : Delivered [] []
  | comment {l ls ms} : isCommentLine l = true → Delivered ls ms → Delivered (l :: ls) ms
  | line {l m ls ms} : isCommentLine l = false → LineMeaning l m → Delivered ls ms → Delivered (l :: ls) (m :: ms)

end Jom.Spec

namespace Jom.Props
open Jom Jom.Spec

/-! ### Line ends -/

theorem decode8_meaning (l : Str) (e : Char) : LineMeaning l (decode8 (l ++ [e])) := by
  rcases List.eq_nil_or_concat l with rfl | ⟨a, c, rfl⟩
  · exact .plain [] (by simp) (by simp)
  · simp only [List.concat_eq_append]
    have hn : (a ++ [c] ++ [e]).length = a.length + 2 := by simp
    have h2 : (a ++ [c] ++ [e])[a.length]? = some c := by simp
    have ht2 : (a ++ [c] ++ [e]).take a.length = a := by simp
    have ht1 : (a ++ [c] ++ [e]).take (a.length + 1) = a ++ [c] := by
      rw [List.take_left' (by simp)]
    unfold decode8
    simp only [hn, Nat.add_sub_cancel, h2, ht2, show a.length + 2 - 1 = a.length + 1 by omega, ht1]
    have h22 : 2 ≤ a.length + 2 := by omega
    by_cases hb : c = '\\'
    · subst hb
      rw [if_pos ⟨h22, rfl⟩]
      rcases List.eq_nil_or_concat a with rfl | ⟨b, d, rfl⟩
      · simp only [List.length_nil]
        rw [if_neg (by omega), if_neg (by omega)]
        exact .backslash [] (by simp) (by simp)
      · simp only [List.concat_eq_append] at *
        have h3 : (b ++ [d] ++ ['\\'] ++ [e])[(b ++ [d]).length + 2 - 3]? = some d := by
          have : (b ++ [d]).length + 2 - 3 = b.length := by simp
          rw [this]; simp
        have h33 : 3 ≤ (b ++ [d]).length + 2 := by simp
        rw [h3]
        by_cases hd : d = '^'
        · subst hd
          rw [if_pos ⟨h33, rfl⟩]
          have : ((b ++ ['^'] ++ ['\\'] ++ [e]).set ((b ++ ['^']).length + 2 - 3) '\\').take (b ++ ['^']).length =
              b ++ ['\\'] := by
            have h4 : (b ++ ['^']).length + 2 - 3 = b.length := by simp
            rw [h4]
            have h5 : (b ++ ['^'] ++ ['\\'] ++ [e]).set b.length '\\' = (b ++ ['\\']) ++ ['\\', e] := by simp
            rw [h5, List.take_left' (by simp)]
          rw [this]
          have := LineMeaning.escapedBackslash b
          simpa using this
        · rw [if_neg (by simp [hd])]
          by_cases hd' : d = '\\'
          · subst hd'
            rw [if_pos ⟨h33, rfl⟩]
            have := LineMeaning.doubleBackslash b
            simpa using this
          · rw [if_neg (by simp [hd'])]
            apply LineMeaning.backslash
            · rintro ⟨r, hr⟩; have := List.append_inj_right' hr rfl; simp at this; exact hd this
            · rintro ⟨r, hr⟩; have := List.append_inj_right' hr rfl; simp at this; exact hd' this
    · rw [if_neg (by simp [hb])]
      by_cases hc : c = '^'
      · subst hc
        rw [if_pos ⟨h22, rfl⟩]
        exact .caret a
      · rw [if_neg (by simp [hc])]
        apply LineMeaning.plain
        · rintro ⟨r, hr⟩; have := List.append_inj_right' hr rfl; simp at this; exact hc this
        · rintro ⟨r, hr⟩; have := List.append_inj_right' hr rfl; simp at this; exact hb this

theorem endsWith_iff (s p : Str) : endsWith s p = true ↔ ∃ a, s = a ++ p := by
  rw [endsWith, List.isSuffixOf_iff_suffix]
  constructor
  · rintro ⟨a, h⟩; exact ⟨a, h.symm⟩
  · rintro ⟨a, h⟩; exact ⟨a, h.symm⟩

theorem decodeU_meaning (l : Str) : LineMeaning l (decodeU l) := by
  unfold decodeU
  by_cases h1 : endsWith l ['^', '\\'] = true
  · rw [if_pos h1]
    obtain ⟨a, rfl⟩ := (endsWith_iff _ _).1 h1
    have : (a ++ ['^', '\\']).eraseIdx ((a ++ ['^', '\\']).length - 2) = a ++ ['\\'] := by
      have e : (a ++ ['^', '\\']).length - 2 = a.length := by simp
      rw [e, List.eraseIdx_append_of_length_le (by omega)]
      simp
    rw [this]
    exact .escapedBackslash a
  · rw [if_neg h1]
    by_cases h2 : endsWith l ['\\', '\\'] = true
    · rw [if_pos h2]
      obtain ⟨a, rfl⟩ := (endsWith_iff _ _).1 h2
      exact .doubleBackslash a
    · rw [if_neg h2]
      by_cases h3 : endsWith l ['\\'] = true
      · rw [if_pos h3]
        obtain ⟨a, rfl⟩ := (endsWith_iff _ _).1 h3
        rw [List.dropLast_concat]
        apply LineMeaning.backslash
        · rintro ⟨b, rfl⟩; exact h1 ((endsWith_iff _ _).2 ⟨b, by simp⟩)
        · rintro ⟨b, rfl⟩; exact h2 ((endsWith_iff _ _).2 ⟨b, by simp⟩)
      · rw [if_neg h3]
        by_cases h4 : endsWith l ['^'] = true
        · rw [if_pos h4]
          obtain ⟨a, rfl⟩ := (endsWith_iff _ _).1 h4
          rw [List.dropLast_concat]
          exact .caret a
        · rw [if_neg h4]
          apply LineMeaning.plain
          · rintro ⟨b, rfl⟩; exact h4 ((endsWith_iff _ _).2 ⟨b, rfl⟩)
          · rintro ⟨b, rfl⟩; exact h3 ((endsWith_iff _ _).2 ⟨b, rfl⟩)

theorem snoc_inj {a b : Str} {c d : Char} (h : a ++ [c] = b ++ [d]) : a = b ∧ c = d :=
  ⟨List.append_inj_left' h rfl, by simpa using List.append_inj_right' h rfl⟩

theorem meaning_some {l : Str} {m : MLine} (h : LineMeaning l m) : m.content.isNone = false := by
  cases h <;> rfl

/-- The meaning of a line end is unique. -/
theorem C11_line_meaning_unique {l : Str} {m m' : MLine} (h : LineMeaning l m) (h' : LineMeaning l m') : m = m' := by
  have e2 : ∀ (a : Str) (c d : Char), a ++ [c, d] = (a ++ [c]) ++ [d] := by simp
  cases h with
  | escapedBackslash a =>
    generalize hx : a ++ ['^', '\\'] = x at h'
    cases h' with
    | escapedBackslash b =>
      rw [e2, e2] at hx
      rw [(snoc_inj (snoc_inj hx).1).1]
    | doubleBackslash b => rw [e2, e2] at hx; exact absurd (snoc_inj (snoc_inj hx).1).2 (by decide)
    | backslash b h1 h2 => rw [e2] at hx; exact absurd ⟨a, (snoc_inj hx).1.symm⟩ h1
    | caret b => rw [e2] at hx; exact absurd (snoc_inj hx).2 (by decide)
    | plain b h1 h2 => exact absurd ⟨a ++ ['^'], by rw [← hx]; simp⟩ h2
  | doubleBackslash a =>
    generalize hx : a ++ ['\\', '\\'] = x at h'
    cases h' with
    | escapedBackslash b => rw [e2, e2] at hx; exact absurd (snoc_inj (snoc_inj hx).1).2 (by decide)
    | doubleBackslash b => rfl
    | backslash b h1 h2 => rw [e2] at hx; exact absurd ⟨a, (snoc_inj hx).1.symm⟩ h2
    | caret b => rw [e2] at hx; exact absurd (snoc_inj hx).2 (by decide)
    | plain b h1 h2 => exact absurd ⟨a ++ ['\\'], by rw [← hx]; simp⟩ h2
  | backslash a h1 h2 =>
    generalize hx : a ++ ['\\'] = x at h'
    cases h' with
    | escapedBackslash b => rw [e2] at hx; exact absurd ⟨b, (snoc_inj hx).1⟩ h1
    | doubleBackslash b => rw [e2] at hx; exact absurd ⟨b, (snoc_inj hx).1⟩ h2
    | backslash b _ _ => rw [(snoc_inj hx).1]
    | caret b => exact absurd (snoc_inj hx).2 (by decide)
    | plain b _ h2 => exact absurd ⟨a, hx.symm⟩ h2
  | caret a =>
    generalize hx : a ++ ['^'] = x at h'
    cases h' with
    | escapedBackslash b => rw [e2] at hx; exact absurd (snoc_inj hx).2 (by decide)
    | doubleBackslash b => rw [e2] at hx; exact absurd (snoc_inj hx).2 (by decide)
    | backslash b _ _ => exact absurd (snoc_inj hx).2 (by decide)
    | caret b => rw [(snoc_inj hx).1]
    | plain b h1 _ => exact absurd ⟨a, hx.symm⟩ h1
  | plain _ h1 h2 =>
    cases h' with
    | escapedBackslash b => exact absurd ⟨b ++ ['^'], by simp⟩ h2
    | doubleBackslash b => exact absurd ⟨b ++ ['\\'], by simp⟩ h2
    | backslash b _ _ => exact absurd ⟨b, rfl⟩ h2
    | caret b => exact absurd ⟨b, rfl⟩ h1
    | plain b _ _ => rfl

/-- C11 for a single line: same text and same continuation kind, whatever the line. -/
theorem C11_same_line (l : Str) : decode8 (l ++ ['\n']) = decodeU l :=
  C11_line_meaning_unique (decode8_meaning l '\n') (decodeU_meaning l)

/-! ### The 8-bit reader -/

theorem devReadLine_spec (n : Nat) (s : Str) : s = (devReadLine n s).1 ++ (devReadLine n s).2 ∧
    (devReadLine n s).1.length ≤ n ∧
    ((0 < n → s ≠ [] → (devReadLine n s).1 ≠ [])) ∧
    ∀ l r, s = l ++ '\n' :: r → '\n' ∉ l →
      ((devReadLine n s).1 = l ++ ['\n'] ∧ (devReadLine n s).2 = r) ∨
      (∃ b, l = (devReadLine n s).1 ++ b ∧ (devReadLine n s).2 = b ++ '\n' :: r) := by
  induction n generalizing s with
  | zero =>
    refine ⟨by simp [devReadLine], by simp [devReadLine], by simp, ?_⟩
    intro l r h _
    exact Or.inr ⟨l, by simp [devReadLine], by simp [devReadLine, h]⟩
  | succ n ih =>
    cases s with
    | nil => refine ⟨by simp [devReadLine], by simp [devReadLine], by simp, ?_⟩; intro l r h; simp at h
    | cons c s =>
      by_cases hc : c = '\n'
      · subst hc
        refine ⟨by simp [devReadLine], by simp [devReadLine], by simp [devReadLine], ?_⟩
        intro l r h hl
        cases l with
        | nil => simp only [List.nil_append, List.cons.injEq, true_and] at h; simp [devReadLine, h]
        | cons d l => simp only [List.cons_append, List.cons.injEq] at h; exact absurd (List.mem_cons.2 (Or.inl h.1)) hl
      · have hc' : (c == '\n') = false := by simpa using hc
        obtain ⟨i1, i2, i3, i4⟩ := ih s
        simp only [devReadLine, hc', Bool.false_eq_true, if_false, List.cons_append]
        refine ⟨by rw [← i1], by simpa using i2, by simp, ?_⟩
        intro l r h hl
        cases l with
        | nil => simp only [List.nil_append, List.cons.injEq] at h; exact absurd h.1 hc
        | cons d l =>
          simp only [List.cons_append, List.cons.injEq, List.mem_cons, not_or] at h hl
          obtain ⟨rfl, h⟩ := h
          rcases i4 l r h hl.2 with ⟨h1, h2⟩ | ⟨b, h1, h2⟩
          · exact Or.inl ⟨by rw [h1]; rfl, h2⟩
          · exact Or.inr ⟨b, by rw [h1], h2⟩

theorem devReadLine_no_newline (n : Nat) (s : Str) (h : '\n' ∉ s) : '\n' ∉ (devReadLine n s).1 := by
  have := (devReadLine_spec n s).1
  intro hm
  apply h
  rw [this]
  exact List.mem_append_left _ hm

theorem getLast?_newline {buf : Str} (h : '\n' ∉ buf) : (buf.getLast? == some '\n') = false := by
  rw [beq_eq_false_iff_ne]
  intro he
  exact h (List.mem_of_getLast? he)

/-- `buf ++ rest` still contains the newline. -/
theorem fillLine_newline (f size : Nat) (buf rest b r : Str) (hf : rest.length < f)
    (hsz : buf.length + 2 ≤ size) (hbuf : '\n' ∉ buf) (hb : '\n' ∉ b) (hr : rest = b ++ '\n' :: r) :
    ∃ size', fillLine f size buf rest = .ok (size', buf ++ b ++ ['\n'], r) ∧
      (buf ++ b ++ ['\n']).length + 2 ≤ size' ∧ size ≤ size' := by
  induction f generalizing size buf rest b with
  | zero => omega
  | succ f ih =>
    unfold fillLine
    rw [getLast?_newline hbuf]
    have hre : rest.isEmpty = false := by rw [hr]; simp
    simp only [Bool.false_eq_true, if_false, hre]
    obtain ⟨h1, h2, h3, h4⟩ := devReadLine_spec (size + bufferGrowSize - 1 - buf.length - 1) rest
    have hpos : 0 < size + bufferGrowSize - 1 - buf.length - 1 := by unfold bufferGrowSize; omega
    have hne := h3 hpos (by rw [hr]; simp)
    rw [if_neg (by omega), if_neg (by simpa using hne)]
    rcases h4 b r hr hb with ⟨e1, e2⟩ | ⟨b', e1, e2⟩
    · rw [e1, e2]
      refine ⟨size + bufferGrowSize, ?_, ?_, by omega⟩
      · have hlen : 0 < f := by
          cases f with
          | zero => rw [hr] at hf; simp at hf
          | succ f => omega
        obtain ⟨g, rfl⟩ : ∃ g, f = g + 1 := ⟨f - 1, by omega⟩
        unfold fillLine
        simp
      · rw [e1] at h2
        simp at h2 ⊢
        omega
    · have hb' : '\n' ∉ b' := fun h => hb (by rw [e1]; simp [h])
      have hlen := congrArg List.length h1
      rw [List.length_append] at hlen
      have hpos' := List.length_pos_iff.2 hne
      obtain ⟨size', i1, i2, i3⟩ := ih (size + bufferGrowSize)
        (buf ++ (devReadLine (size + bufferGrowSize - 1 - buf.length - 1) rest).1)
        (devReadLine (size + bufferGrowSize - 1 - buf.length - 1) rest).2 b' (by omega)
        (by rw [List.length_append]; omega)
        (by
          intro h
          rcases List.mem_append.1 h with h | h
          · exact hbuf h
          · exact hb (by rw [e1]; simp [h]))
        hb' e2
      refine ⟨size', ?_, ?_, by omega⟩
      · rw [i1, e1]; simp
      · rw [e1]; simpa using i2

/-- The last line of a file without final newline. -/
theorem fillLine_eof (f size : Nat) (buf rest : Str) (hf : rest.length < f)
    (hsz : buf.length + 2 ≤ size) (hbuf : '\n' ∉ buf) (hr : '\n' ∉ rest) :
    ∃ size', fillLine f size buf rest = .ok (size', buf ++ rest ++ ['\x00'], []) ∧
      (buf ++ rest ++ ['\x00']).length + 1 ≤ size' ∧ size ≤ size' := by
  induction f generalizing size buf rest with
  | zero => omega
  | succ f ih =>
    unfold fillLine
    rw [getLast?_newline hbuf]
    cases rest with
    | nil =>
      simp only [Bool.false_eq_true, if_false, List.isEmpty_nil, if_true]
      refine ⟨if buf.length ≥ size - 2 then size + 1 else size, by simp, ?_, ?_⟩
      · simp only [List.append_nil, List.length_append, List.length_singleton]; split <;> omega
      · split <;> omega
    | cons c rest =>
      simp only [Bool.false_eq_true, if_false, List.isEmpty_cons]
      obtain ⟨h1, h2, h3, h4⟩ := devReadLine_spec (size + bufferGrowSize - 1 - buf.length - 1) (c :: rest)
      have hpos : 0 < size + bufferGrowSize - 1 - buf.length - 1 := by unfold bufferGrowSize; omega
      have hne := h3 hpos (by simp)
      rw [if_neg (by omega), if_neg (by simpa using hne)]
      have hlen := congrArg List.length h1
      rw [List.length_append] at hlen
      have hpos' := List.length_pos_iff.2 hne
      have hnl := devReadLine_no_newline (size + bufferGrowSize - 1 - buf.length - 1) (c :: rest) hr
      obtain ⟨size', i1, i2, i3⟩ := ih (size + bufferGrowSize)
        (buf ++ (devReadLine (size + bufferGrowSize - 1 - buf.length - 1) (c :: rest)).1)
        (devReadLine (size + bufferGrowSize - 1 - buf.length - 1) (c :: rest)).2 (by omega)
        (by rw [List.length_append]; omega)
        (by
          intro h
          rcases List.mem_append.1 h with h | h
          · exact hbuf h
          · exact hnl h)
        (by intro h; apply hr; rw [h1]; exact List.mem_append_right _ h)
      rw [List.append_assoc buf, ← h1] at i1 i2
      exact ⟨size', i1, i2, by omega⟩

/-- What the two reads of a round of the loop give: the line and the real or imitated newline. -/
theorem physical_fill (st : Rd) (l r : Str) (hsz : 3 ≤ st.size) (hl : '\n' ∉ l)
    (h : st.rest = l ++ '\n' :: r ∨ (st.rest = l ∧ l ≠ [] ∧ r = [])) :
    (devReadLine (st.size - 1 - 1) st.rest).1 ≠ [] ∧
    (devReadLine (st.size - 1 - 1) st.rest).1.length ≤ st.size - 1 - 1 ∧
    ∃ e size', fillLine ((devReadLine (st.size - 1 - 1) st.rest).2.length + 1) st.size
        (devReadLine (st.size - 1 - 1) st.rest).1 (devReadLine (st.size - 1 - 1) st.rest).2 =
        .ok (size', l ++ [e], r) ∧ (l ++ [e]).length + 1 ≤ size' ∧ st.size ≤ size' ∧ e ≠ '#' := by
  obtain ⟨h1, h2, h3, h4⟩ := devReadLine_spec (st.size - 1 - 1) st.rest
  have hne : (devReadLine (st.size - 1 - 1) st.rest).1 ≠ [] := by
    apply h3 (by omega)
    rcases h with h | ⟨h, h', _⟩
    · rw [h]; simp
    · rw [h]; exact h'
  refine ⟨hne, h2, ?_⟩
  rcases h with h | ⟨h, h', rfl⟩
  · rcases h4 l r h hl with ⟨e1, e2⟩ | ⟨b, e1, e2⟩
    · rw [e1] at h2
      refine ⟨'\n', st.size, ?_, by simp at h2 ⊢; omega, Nat.le_refl _, by decide⟩
      rw [e1, e2]
      unfold fillLine
      simp
    · have hnl : '\n' ∉ (devReadLine (st.size - 1 - 1) st.rest).1 := fun hm => hl (by rw [e1]; simp [hm])
      obtain ⟨size', i1, i2, i3⟩ := fillLine_newline _ st.size _ _ b r (Nat.lt_succ_self _) (by omega) hnl
        (fun hm => hl (by rw [e1]; simp [hm])) e2
      refine ⟨'\n', size', ?_, ?_, i3, by decide⟩
      · rw [i1, ← e1]
      · rw [← e1] at i2; omega
  · have hnl := devReadLine_no_newline (st.size - 1 - 1) st.rest (by rw [h]; exact hl)
    obtain ⟨size', i1, i2, i3⟩ := fillLine_eof _ st.size _ _ (Nat.lt_succ_self _) (by omega) hnl
      (by intro hm; apply hl; rw [← h, h1]; exact List.mem_append_right _ hm)
    rw [← h1, h] at i1 i2
    refine ⟨'\x00', size', ?_, i2, i3, by decide⟩
    rw [h]; exact i1

/-- One round of the outer loop. -/
theorem physical_round (st : Rd) (l r : Str) (hsz : 3 ≤ st.size) (hl : '\n' ∉ l)
    (h : st.rest = l ++ '\n' :: r ∨ (st.rest = l ∧ l ≠ [] ∧ r = [])) :
    ∃ e size', (∀ f, nextPhysical (f + 1) st =
        if (l ++ [e])[0]? == some '#' then nextPhysical f { rest := r, size := size' }
        else .ok (some (l ++ [e]), { rest := r, size := size' })) ∧
      (l ++ [e]).length + 1 ≤ size' ∧ st.size ≤ size' := by
  obtain ⟨hne, h2, e, size', m1, m2, m3, _⟩ := physical_fill st l r hsz hl h
  refine ⟨e, size', ?_, m2, m3⟩
  intro f
  simp only [nextPhysical]
  rw [if_neg (by omega), if_neg (by simpa using hne), m1]

/-- The lines still to be read. -/
def pending (lines : List Str) (last : Str) : List Str := lines ++ if last = [] then [] else [last]

theorem fileText_cons (l : Str) (ls : List Str) (last : Str) :
    fileText (l :: ls) last = l ++ '\n' :: fileText ls last := by simp [fileText]

/-- What `nextPhysical` returns in terms of the lines of the file. -/
theorem nextPhysical_spec (lines : List Str) (last : Str) (st : Rd) (f : Nat) (hsz : 3 ≤ st.size)
    (hl : ∀ l ∈ lines, '\n' ∉ l) (hlast : '\n' ∉ last) (hst : st.rest = fileText lines last)
    (hf : (pending lines last).length < f) :
    (∃ st', nextPhysical f st = .ok (none, st') ∧ ∀ l ∈ pending lines last, isCommentLine l = true) ∨
    ∃ (cs : List Str) (l : Str) (e : Char) (ls' : List Str) (last' : Str) (st' : Rd),
      pending lines last = cs ++ l :: pending ls' last' ∧
      (∀ c ∈ cs, isCommentLine c = true) ∧ isCommentLine l = false ∧
      nextPhysical f st = .ok (some (l ++ [e]), st') ∧ st'.rest = fileText ls' last' ∧
      (∀ l ∈ ls', '\n' ∉ l) ∧ '\n' ∉ last' ∧ 3 ≤ st'.size ∧ (l ++ [e]).length + 1 ≤ st'.size := by
  induction f generalizing lines last st with
  | zero => omega
  | succ f ih =>
    have go : ∀ (l : Str) (ls' : List Str) (last' : Str), '\n' ∉ l → (∀ l ∈ ls', '\n' ∉ l) → '\n' ∉ last' →
        pending lines last = l :: pending ls' last' →
        (st.rest = l ++ '\n' :: fileText ls' last' ∨ (st.rest = l ∧ l ≠ [] ∧ fileText ls' last' = [])) →
        (∃ st', nextPhysical (f + 1) st = .ok (none, st') ∧ ∀ l ∈ pending lines last, isCommentLine l = true) ∨
        ∃ (cs : List Str) (l : Str) (e : Char) (ls' : List Str) (last' : Str) (st' : Rd),
          pending lines last = cs ++ l :: pending ls' last' ∧
          (∀ c ∈ cs, isCommentLine c = true) ∧ isCommentLine l = false ∧
          nextPhysical (f + 1) st = .ok (some (l ++ [e]), st') ∧ st'.rest = fileText ls' last' ∧
          (∀ l ∈ ls', '\n' ∉ l) ∧ '\n' ∉ last' ∧ 3 ≤ st'.size ∧ (l ++ [e]).length + 1 ≤ st'.size := by
      intro l ls' last' h1 h2 h3 h4 h5
      obtain ⟨e, size', p1, p2, p3⟩ := physical_round st l (fileText ls' last') hsz h1 h5
      have hcom : ((l ++ [e])[0]? == some '#') = isCommentLine l ∨ l = [] := by
        cases l with
        | nil => exact Or.inr rfl
        | cons c l => exact Or.inl rfl
      by_cases hcl : isCommentLine l = true
      · have : ((l ++ [e])[0]? == some '#') = true := by
          rcases hcom with h | rfl
          · rw [h, hcl]
          · simp [isCommentLine] at hcl
        rw [p1 f, if_pos this]
        rcases ih ls' last' { rest := fileText ls' last', size := size' } (by simp only; omega) h2 h3 rfl
          (by rw [h4] at hf; simp at hf; omega) with ⟨st', q1, q2⟩ | ⟨cs, l', e', ls'', last'', st', q1, q2, q3⟩
        · left
          refine ⟨st', q1, ?_⟩
          rw [h4]
          intro x hx
          rcases List.mem_cons.1 hx with rfl | hx
          · exact hcl
          · exact q2 x hx
        · right
          refine ⟨l :: cs, l', e', ls'', last'', st', by rw [h4, q1]; rfl, ?_, q3⟩
          intro x hx
          rcases List.mem_cons.1 hx with rfl | hx
          · exact hcl
          · exact q2 x hx
      · have hcl' : isCommentLine l = false := by simpa using hcl
        have hnot : ((l ++ [e])[0]? == some '#') = false := by
          rcases hcom with h | rfl
          · rw [h, hcl']
          · rcases h5 with h5 | ⟨_, h5, _⟩
            · -- an empty line is ended by a real newline
              simp only [List.nil_append] at p1 h5 ⊢
              by_cases hh : (([e] : Str)[0]? == some '#') = true
              · exfalso
                have he : e = '#' := by simpa using hh
                subst he
                have hx := p1 0
                simp only [nextPhysical, h5] at hx
                have hd : devReadLine (st.size - 1 - 1) ('\n' :: fileText ls' last') = (['\n'], fileText ls' last') := by
                  obtain ⟨k, hk⟩ : ∃ k, st.size - 1 - 1 = k + 1 := ⟨st.size - 3, by omega⟩
                  rw [hk]; simp [devReadLine]
                rw [hd] at hx
                simp only [List.length_singleton, List.isEmpty_cons, Bool.false_eq_true, if_false] at hx
                rw [if_neg (by omega)] at hx
                have hfl : fillLine ((fileText ls' last').length + 1) st.size ['\n'] (fileText ls' last') =
                    .ok (st.size, ['\n'], fileText ls' last') := by
                  unfold fillLine; simp
                rw [hfl] at hx
                simp at hx
              · simpa using hh
            · exact absurd rfl h5
        right
        refine ⟨[], l, e, ls', last', { rest := fileText ls' last', size := size' }, h4, by simp, hcl', ?_, rfl,
          h2, h3, by simp only; omega, p2⟩
        rw [p1 f, hnot]; rfl
    cases lines with
    | nil =>
      by_cases hla : last = []
      · subst hla
        left
        have hd : devReadLine (st.size - 1 - 1) st.rest = ([], []) := by
          rw [hst]
          obtain ⟨k, hk⟩ : ∃ k, st.size - 1 - 1 = k + 1 := ⟨st.size - 3, by omega⟩
          rw [hk]; rfl
        refine ⟨{ st with rest := [] }, ?_, by simp [pending]⟩
        simp only [nextPhysical, hd, List.length_nil, List.isEmpty_nil, if_true]
        rw [if_neg (by omega)]
      · refine go last [] [] hlast (by simp) (by simp) (by simp [pending, hla]) (Or.inr ⟨?_, hla, rfl⟩)
        rw [hst]; rfl
    | cons l ls =>
      refine go l ls last (hl l (by simp)) (fun x hx => hl x (by simp [hx])) hlast rfl (Or.inl ?_)
      rw [hst, fileText_cons]

theorem pending_length_le (lines : List Str) (last : Str) :
    (pending lines last).length ≤ (fileText lines last).length := by
  induction lines with
  | nil =>
    unfold pending fileText
    split
    · simp
    · have : 0 < last.length := List.length_pos_iff.2 (by assumption)
      simp; omega
  | cons l ls ih =>
    rw [fileText_cons]
    simp only [pending, List.cons_append, List.length_cons, List.length_append] at ih ⊢
    omega

theorem delivered_comments {cs ls : List Str} {ms : List MLine} (hc : ∀ c ∈ cs, isCommentLine c = true)
    (h : Delivered ls ms) : Delivered (cs ++ ls) ms := by
  induction cs with
  | nil => exact h
  | cons c cs ih => exact .comment (hc c (by simp)) (ih (fun d hd => hc d (by simp [hd])))

theorem readAll8F_spec (f : Nat) (lines : List Str) (last : Str) (st : Rd) (hsz : 3 ≤ st.size)
    (hl : ∀ l ∈ lines, '\n' ∉ l) (hlast : '\n' ∉ last) (hst : st.rest = fileText lines last)
    (hf : (pending lines last).length < f) :
    ∃ ms, readAll8F f st = .ok ms ∧ Delivered (pending lines last) ms := by
  induction f generalizing lines last st with
  | zero => omega
  | succ f ih =>
    have hpl : (pending lines last).length < st.rest.length + 1 := by
      rw [hst]; have := pending_length_le lines last; omega
    unfold readAll8F readLine8
    rcases nextPhysical_spec lines last st (st.rest.length + 1) hsz hl hlast hst hpl with
      ⟨st', q1, q2⟩ | ⟨cs, l, e, ls', last', st', q1, q2, q3, q4, q5, q6, q7, q8, q9⟩
    · rw [q1]
      refine ⟨[], rfl, ?_⟩
      have := delivered_comments (ls := []) q2 .nil
      simpa using this
    · rw [q4]
      simp only
      rw [if_neg (by omega)]
      have hm := decode8_meaning l e
      have hsome : (decode8 (l ++ [e])).content.isNone = false := by
        exact meaning_some hm
      simp only [hsome, Bool.false_eq_true, if_false]
      obtain ⟨ms, h1, h2⟩ := ih ls' last' st' q8 q6 q7 q5 (by
        rw [q1] at hf; simp at hf; omega)
      rw [h1]
      refine ⟨decode8 (l ++ [e]) :: ms, rfl, ?_⟩
      rw [q1]
      exact delivered_comments q2 (.line q3 hm h2)

/-- C10: for every file - any number of lines of any length, with or without a final newline - the 8-bit
reader never leaves its buffer and delivers exactly the non-comment lines with their complete text. -/
theorem C10_reads_all_lines (lines : List Str) (last : Str) (hl : ∀ l ∈ lines, '\n' ∉ l) (hlast : '\n' ∉ last) :
    ∃ ms, readAll8 (fileText lines last) = .ok ms ∧
      Delivered (lines ++ if last = [] then [] else [last]) ms := by
  refine readAll8F_spec _ lines last _ (by simp [initialBufferSize]) hl hlast rfl ?_
  have := pending_length_le lines last
  omega

/-- C10: every text is such a file. -/
theorem C10_every_file (s : Str) : ∃ lines last, s = fileText lines last ∧ (∀ l ∈ lines, '\n' ∉ l) ∧ '\n' ∉ last := by
  induction s with
  | nil => exact ⟨[], [], rfl, by simp, by simp⟩
  | cons c s ih =>
    obtain ⟨lines, last, rfl, h1, h2⟩ := ih
    by_cases hc : c = '\n'
    · subst hc
      refine ⟨[] :: lines, last, by rw [fileText_cons]; rfl, ?_, h2⟩
      intro l hl
      rcases List.mem_cons.1 hl with rfl | hl
      · simp
      · exact h1 l hl
    · cases lines with
      | nil =>
        refine ⟨[], c :: last, rfl, by simp, ?_⟩
        simp only [List.mem_cons, not_or]
        exact ⟨Ne.symm hc, h2⟩
      | cons l ls =>
        refine ⟨(c :: l) :: ls, last, by rw [fileText_cons, fileText_cons]; rfl, ?_, h2⟩
        intro x hx
        rcases List.mem_cons.1 hx with rfl | hx
        · simp only [List.mem_cons, not_or]
          exact ⟨Ne.symm hc, h1 l (by simp)⟩
        · exact h1 x (by simp [hx])

/-- The delivered lines are determined by the file. -/
theorem C10_delivered_unique {ls : List Str} {ms ms' : List MLine} (h : Delivered ls ms) (h' : Delivered ls ms') :
    ms = ms' := by
  induction h generalizing ms' with
  | nil => cases h'; rfl
  | comment hc _ ih =>
    cases h' with
    | comment _ h => exact ih h
    | line hc' _ _ => rw [hc] at hc'; cases hc'
  | line hc hm _ ih =>
    cases h' with
    | comment hc' h => rw [hc] at hc'; cases hc'
    | line _ hm' h => rw [C11_line_meaning_unique hm hm', ih h]

/-! ### The Unicode reader -/

theorem tsReadLine_line (l r : Str) (hl : '\n' ∉ l) : tsReadLine (l ++ '\n' :: r) = (some l, r) := by
  induction l with
  | nil => simp [tsReadLine]
  | cons c l ih =>
    simp only [List.mem_cons, not_or] at hl
    have hc : (c == '\n') = false := by simpa using Ne.symm hl.1
    simp [tsReadLine, hc, ih hl.2]

theorem tsReadLine_last (l : Str) (hl : '\n' ∉ l) (hne : l ≠ []) : tsReadLine l = (some l, []) := by
  induction l with
  | nil => exact absurd rfl hne
  | cons c l ih =>
    simp only [List.mem_cons, not_or] at hl
    have hc : (c == '\n') = false := by simpa using Ne.symm hl.1
    by_cases hn : l = []
    · subst hn; simp [tsReadLine, hc]
    · simp [tsReadLine, hc, ih hl.2 hn]

theorem startsWith_hash (l : Str) : startsWith l ['#'] = isCommentLine l := by
  cases l with
  | nil => rfl
  | cons c l => simp [startsWith, isCommentLine, List.isPrefixOf]; exact Bool.beq_comm

theorem readLineUF_spec (lines : List Str) (last : Str) (f : Nat)
    (hl : ∀ l ∈ lines, '\n' ∉ l) (hlast : '\n' ∉ last) (hf : (pending lines last).length < f) :
    (∃ r, readLineUF f (fileText lines last) = ({}, r) ∧ ∀ l ∈ pending lines last, isCommentLine l = true) ∨
    ∃ (cs : List Str) (l : Str) (ls' : List Str) (last' : Str),
      pending lines last = cs ++ l :: pending ls' last' ∧
      (∀ c ∈ cs, isCommentLine c = true) ∧ isCommentLine l = false ∧
      readLineUF f (fileText lines last) = (decodeU l, fileText ls' last') ∧
      (∀ l ∈ ls', '\n' ∉ l) ∧ '\n' ∉ last' := by
  induction f generalizing lines last with
  | zero => omega
  | succ f ih =>
    have go : ∀ (l : Str) (ls' : List Str) (last' : Str), (∀ l ∈ ls', '\n' ∉ l) → '\n' ∉ last' →
        pending lines last = l :: pending ls' last' →
        tsReadLine (fileText lines last) = (some l, fileText ls' last') →
        (∃ r, readLineUF (f + 1) (fileText lines last) = ({}, r) ∧
          ∀ l ∈ pending lines last, isCommentLine l = true) ∨
        ∃ (cs : List Str) (l : Str) (ls' : List Str) (last' : Str),
          pending lines last = cs ++ l :: pending ls' last' ∧
          (∀ c ∈ cs, isCommentLine c = true) ∧ isCommentLine l = false ∧
          readLineUF (f + 1) (fileText lines last) = (decodeU l, fileText ls' last') ∧
          (∀ l ∈ ls', '\n' ∉ l) ∧ '\n' ∉ last' := by
      intro l ls' last' h2 h3 h4 h5
      unfold readLineUF
      rw [h5]
      simp only
      rw [startsWith_hash]
      by_cases hcl : isCommentLine l = true
      · rw [if_pos hcl]
        rcases ih ls' last' h2 h3 (by rw [h4] at hf; simp at hf; omega) with
          ⟨r, q1, q2⟩ | ⟨cs, l', ls'', last'', q1, q2, q3⟩
        · left
          refine ⟨r, q1, ?_⟩
          rw [h4]
          intro x hx
          rcases List.mem_cons.1 hx with rfl | hx
          · exact hcl
          · exact q2 x hx
        · right
          refine ⟨l :: cs, l', ls'', last'', by rw [h4, q1]; rfl, ?_, q3⟩
          intro x hx
          rcases List.mem_cons.1 hx with rfl | hx
          · exact hcl
          · exact q2 x hx
      · rw [if_neg hcl]
        right
        exact ⟨[], l, ls', last', h4, by simp, by simpa using hcl, rfl, h2, h3⟩
    cases lines with
    | nil =>
      by_cases hla : last = []
      · subst hla
        left
        exact ⟨[], rfl, by simp [pending]⟩
      · refine go last [] [] (by simp) (by simp) (by simp [pending, hla]) ?_
        exact tsReadLine_last last hlast hla
    | cons l ls =>
      refine go l ls last (fun x hx => hl x (by simp [hx])) hlast rfl ?_
      rw [fileText_cons, tsReadLine_line _ _ (hl l (by simp))]

theorem readAllUF_spec (f : Nat) (lines : List Str) (last : Str)
    (hl : ∀ l ∈ lines, '\n' ∉ l) (hlast : '\n' ∉ last) (hf : (pending lines last).length < f) :
    Delivered (pending lines last) (readAllUF f (fileText lines last)) := by
  induction f generalizing lines last with
  | zero => omega
  | succ f ih =>
    have hpl : (pending lines last).length < (fileText lines last).length + 1 := by
      have := pending_length_le lines last; omega
    unfold readAllUF readLineU
    rcases readLineUF_spec lines last ((fileText lines last).length + 1) hl hlast hpl with
      ⟨r, q1, q2⟩ | ⟨cs, l, ls', last', q1, q2, q3, q4, q5, q6⟩
    · rw [q1]
      have := delivered_comments (ls := []) q2 .nil
      simpa using this
    · rw [q4]
      have hm := decodeU_meaning l
      have hsome : (decodeU l).content.isNone = false := by
        exact meaning_some hm
      simp only [hsome, Bool.false_eq_true, if_false]
      rw [q1]
      exact delivered_comments q2 (.line q3 hm (ih ls' last' q5 q6 (by rw [q1] at hf; simp at hf; omega)))

/-- C11: for every text the two readers deliver the same lines with the same continuation kinds. -/
theorem C11_readers_agree (file : Str) : readAll8 file = .ok (readAllU file) := by
  obtain ⟨lines, last, rfl, hl, hlast⟩ := C10_every_file file
  obtain ⟨ms, h1, h2⟩ := C10_reads_all_lines lines last hl hlast
  have h3 := readAllUF_spec ((fileText lines last).length + 1) lines last hl hlast (by
    have := pending_length_le lines last; omega)
  rw [h1, C10_delivered_unique h2 h3]
  rfl

/-- Non-trivial instance. -/
example : readAll8 c!"a = b \\\n  c^\n#x\\\nd^\\\ne\\\\\nlast" = .ok [
    { content := some c!"a = b ", cont := .backslash }, { content := some c!"  c", cont := .caret },
    { content := some c!"d\\" }, { content := some c!"e\\\\" }, { content := some c!"last" }] := by
  decide +kernel

end Jom.Props
