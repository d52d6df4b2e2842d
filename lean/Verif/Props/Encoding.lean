import Verif.Model.Encoding
import Verif.Spec.Encoding
import Verif.Props.Reader

/-! C99: how a makefile is saved - encoding and line ends - does not matter. -/

namespace Jom.Props

open Jom.Rdr Jom.Spec Jom.Spec.Rdr Jom.Enc

/-! ### Line ends -/

/-- A line without the `\r` at its end. -/
def unCR (l : Str) : Str := if l.getLast? = some '\r' then l.dropLast else l

theorem unCR_cr (l : Str) : unCR (l ++ ['\r']) = l := by simp [unCR]

theorem unCR_other {l : Str} (h : '\r' ∉ l) : unCR l = l := by
  unfold unCR
  rw [if_neg fun he => h (List.mem_of_getLast? he)]

theorem unCR_append (a : Str) {b : Str} (hb : b ≠ []) : unCR (a ++ b) = a ++ unCR b := by
  unfold unCR
  rw [List.getLast?_append]
  cases hx : b.getLast? with
  | none => rw [List.getLast?_eq_none_iff] at hx; exact absurd hx hb
  | some c =>
    by_cases hc : c = '\r'
    · subst hc
      rw [if_pos (show (some '\r').or (List.getLast? a) = some '\r' from rfl), if_pos rfl,
        List.dropLast_append_of_ne_nil hb]
    · rw [if_neg (by simpa using hc), if_neg (by simpa using hc)]

theorem unCR_length (l : Str) : (unCR l).length ≤ l.length := by
  unfold unCR
  split <;> simp

theorem unCR_mem {l : Str} {c : Char} (h : c ∈ unCR l) : c ∈ l := by
  unfold unCR at h
  split at h
  · exact List.dropLast_subset _ h
  · exact h

theorem convert_line (l : Str) : convert (l ++ ['\n']) = unCR l ++ ['\n'] := by
  unfold convert unCR
  by_cases h : l.getLast? = some '\r'
  · obtain ⟨a, rfl⟩ := List.getLast?_eq_some_iff.1 h
    rw [if_pos ((endsWith_iff _ _).2 ⟨a, by simp⟩), if_pos h]
    simp
  · rw [if_neg, if_neg h]
    intro he
    obtain ⟨a, ha⟩ := (endsWith_iff _ _).1 he
    have : l = a ++ ['\r'] := by
      have : l ++ ['\n'] = (a ++ ['\r']) ++ ['\n'] := by rw [ha]; simp
      exact List.append_cancel_right this
    exact h (by rw [this]; simp)

theorem convert_piece {s : Str} (h : '\n' ∉ s) : convert s = s := by
  unfold convert
  rw [if_neg]
  intro he
  obtain ⟨a, rfl⟩ := (endsWith_iff _ _).1 he
  simp at h

theorem devReadLine_full (n : Nat) (l r : Str) (hl : '\n' ∉ l) (hn : n ≤ l.length) :
    devReadLine n (l ++ r) = (l.take n, l.drop n ++ r) := by
  induction n generalizing l with
  | zero => simp [devReadLine]
  | succ n ih =>
    cases l with
    | nil => simp at hn
    | cons c l =>
      simp only [List.mem_cons, not_or] at hl
      have hc : (c == '\n') = false := by simpa using Ne.symm hl.1
      simp only [List.length_cons] at hn
      simp [devReadLine, hc, ih l hl.2 (by omega)]

/-- The rest of a line that is longer than the buffer. -/
theorem fillText_line (f size : Nat) (buf rest b r : Str) (hf : rest.length < f)
    (hsz : buf.length + 2 = size) (hbuf : '\n' ∉ buf) (hb : '\n' ∉ b) (hr : rest = b ++ '\n' :: r)
    (hc : (buf ++ b).getLast? = some '\r' → ∀ j, (buf ++ b).length ≠ size - 2 + 1024 * j) :
    ∃ j, fillText f size buf rest = .ok (size + 1024 * j, unCR (buf ++ b) ++ ['\n'], r) ∧
      (buf ++ b).length + 2 ≤ size + 1024 * j := by
  induction f generalizing size buf rest b with
  | zero => omega
  | succ f ih =>
    unfold fillText
    rw [getLast?_newline hbuf]
    have hre : rest.isEmpty = false := by rw [hr]; simp
    simp only [Bool.false_eq_true, if_false, hre]
    have hn : size + bufferGrowSize - 1 - buf.length - 1 = 1024 := by unfold bufferGrowSize; omega
    rw [hn]
    by_cases hlen : b.length < 1024
    · rw [hr, devReadLine_line b r hb 1024 hlen]
      simp only
      rw [if_neg (by unfold bufferGrowSize; simp; omega), if_neg (by simp), convert_line]
      obtain ⟨g, rfl⟩ : ∃ g, f = g + 1 := ⟨f - 1, by rw [hr] at hf; simp at hf; omega⟩
      refine ⟨1, ?_, by simp; omega⟩
      unfold fillText
      rw [if_pos (by simp)]
      have hx : unCR (buf ++ b) = buf ++ unCR b := by
        by_cases hbe : b = []
        · subst hbe
          rw [List.append_nil] at hc ⊢
          have : ¬ buf.getLast? = some '\r' := fun h => hc h 0 (by omega)
          unfold unCR
          rw [if_neg this]
          simp
        · exact unCR_append buf hbe
      rw [hx, List.append_assoc]
      rfl
    · rw [hr, devReadLine_full 1024 b _ hb (by omega)]
      simp only
      have ht : '\n' ∉ b.take 1024 := fun h => hb (List.mem_of_mem_take h)
      have htl : (b.take 1024).length = 1024 := by rw [List.length_take]; omega
      have hne : (b.take 1024).isEmpty = false := by
        cases hx : b.take 1024 with
        | nil => rw [hx] at htl; cases htl
        | cons _ _ => rfl
      rw [if_neg (by rw [htl]; unfold bufferGrowSize; omega), if_neg (by simp [hne]), convert_piece ht]
      have hb' : buf ++ b.take 1024 ++ b.drop 1024 = buf ++ b := by rw [List.append_assoc, List.take_append_drop]
      obtain ⟨j, i1, i2⟩ := ih (size + bufferGrowSize) (buf ++ b.take 1024) (b.drop 1024 ++ '\n' :: r) (b.drop 1024)
        (by rw [hr] at hf; simp at hf ⊢; omega)
        (by rw [List.length_append, htl]; unfold bufferGrowSize; omega)
        (by
          intro h
          rcases List.mem_append.1 h with h | h
          · exact hbuf h
          · exact ht h)
        (fun h => hb (List.mem_of_mem_drop h)) rfl
        (by
          rw [hb']
          intro h j
          have := hc h (j + 1)
          unfold bufferGrowSize
          omega)
      rw [hb'] at i1 i2
      refine ⟨j + 1, ?_, by unfold bufferGrowSize at i2; omega⟩
      rw [i1]
      unfold bufferGrowSize
      simp only [Except.ok.injEq, Prod.mk.injEq, and_true]
      omega

/-- Without newline nothing is converted. -/
theorem fillText_eof (f size : Nat) (buf rest : Str) (hr : '\n' ∉ rest) :
    fillText f size buf rest = fillLine f size buf rest := by
  induction f generalizing size buf rest with
  | zero => rfl
  | succ f ih =>
    unfold fillText fillLine
    split
    · rfl
    · split
      · rfl
      · have h1 := devReadLine_no_newline (size + bufferGrowSize - 1 - buf.length - 1) rest hr
        have h2 := (devReadLine_spec (size + bufferGrowSize - 1 - buf.length - 1) rest).1
        simp only [convert_piece h1]
        rw [ih]
        intro h
        apply hr
        rw [h2]
        exact List.mem_append_right _ h

/-- A text with its line ends: nothing, a first line, or a line that does not end. -/
theorem ended_cases {s d : Str} (h : Enc.Ended s d) :
    (s = [] ∧ d = []) ∨
    (∃ l s' d', '\n' ∉ l ∧ '\r' ∉ l ∧ s = l ++ '\n' :: s' ∧
      (d = l ++ '\n' :: d' ∨ d = (l ++ ['\r']) ++ '\n' :: d') ∧ Enc.Ended s' d') ∨
    (s ≠ [] ∧ '\n' ∉ s ∧ '\r' ∉ s ∧ d = s) := by
  induction h with
  | nil => exact Or.inl ⟨rfl, rfl⟩
  | @char c s d hc hc' _ ih =>
    rcases ih with ⟨rfl, rfl⟩ | ⟨l, s', d', h1, h2, rfl, h3, h4⟩ | ⟨_, h1, h2, rfl⟩
    · exact Or.inr (Or.inr ⟨by simp, by simpa using Ne.symm hc, by simpa using Ne.symm hc', rfl⟩)
    · refine Or.inr (Or.inl ⟨c :: l, s', d', by simp [Ne.symm hc, h1], by simp [Ne.symm hc', h2], rfl, ?_, h4⟩)
      rcases h3 with rfl | rfl
      · exact Or.inl rfl
      · exact Or.inr rfl
    · exact Or.inr (Or.inr ⟨by simp, by simp [Ne.symm hc, h1], by simp [Ne.symm hc', h2], rfl⟩)
  | lf h _ => exact Or.inr (Or.inl ⟨[], _, _, by simp, by simp, rfl, Or.inl rfl, h⟩)
  | crlf h _ => exact Or.inr (Or.inl ⟨[], _, _, by simp, by simp, rfl, Or.inr rfl, h⟩)

theorem ended_dropCR {s d : Str} (h : Enc.Ended s d) : dropCR d = s := by
  unfold dropCR
  induction h with
  | nil => rfl
  | char hc hc' _ ih => simp [hc', ih]
  | lf _ ih => simp [ih]
  | crlf _ ih => simp [ih]

theorem uncut_rest {l d : Str} (h : Enc.Uncut (l ++ '\n' :: d)) : Enc.Uncut d := by
  intro a x b hd ha hx
  subst hd
  refine h (l ++ '\n' :: a) x b (by simp) ?_ hx
  right
  rcases ha with rfl | ha
  · simp
  · rw [List.getLast?_append, List.getLast?_cons, ha]; simp

/-- Sizes of the line buffer: 6144 and 1024 more each time a line does not fit; at the end of the file one more. -/
def Sized (st : Rd) : Prop := 3 ≤ st.size ∧ (st.rest = [] ∨ ∃ j, st.size = 6144 + 1024 * j)

/-- The first line of an 8-bit file in text mode. -/
theorem text_fill (st : Rd) (raw r : Str) (j : Nat) (hsz : st.size = 6144 + 1024 * j) (hraw : '\n' ∉ raw)
    (h : st.rest = raw ++ '\n' :: r)
    (hc : raw.getLast? = some '\r' → ∀ j, raw.length ≠ 6142 + 1024 * j) :
    (devReadLine (st.size - 1 - 1) st.rest).1 ≠ [] ∧
    (devReadLine (st.size - 1 - 1) st.rest).1.length ≤ st.size - 1 - 1 ∧
    ∃ j', fillText ((devReadLine (st.size - 1 - 1) st.rest).2.length + 1) st.size
        (convert (devReadLine (st.size - 1 - 1) st.rest).1) (devReadLine (st.size - 1 - 1) st.rest).2 =
        .ok (6144 + 1024 * j', unCR raw ++ ['\n'], r) ∧ raw.length + 2 ≤ 6144 + 1024 * j' := by
  obtain ⟨h1, h2, h3, _⟩ := devReadLine_spec (st.size - 1 - 1) st.rest
  have hne := h3 (by omega) (by rw [h]; simp)
  refine ⟨hne, h2, ?_⟩
  by_cases hlen : raw.length < st.size - 1 - 1
  · rw [h, devReadLine_line raw r hraw _ hlen, convert_line]
    refine ⟨j, ?_, by omega⟩
    unfold fillText
    rw [if_pos (by simp), hsz]
  · rw [h, devReadLine_full _ raw _ hraw (by omega)]
    have ht : '\n' ∉ raw.take (st.size - 1 - 1) := fun h => hraw (List.mem_of_mem_take h)
    have htl : (raw.take (st.size - 1 - 1)).length = st.size - 1 - 1 := by rw [List.length_take]; omega
    simp only [convert_piece ht]
    obtain ⟨i, i1, i2⟩ := fillText_line _ st.size (raw.take (st.size - 1 - 1))
      (raw.drop (st.size - 1 - 1) ++ '\n' :: r) (raw.drop (st.size - 1 - 1)) r (Nat.lt_succ_self _) (by omega) ht
      (fun h => hraw (List.mem_of_mem_drop h)) rfl
      (by
        rw [List.take_append_drop]
        intro hx i
        have := hc hx (j + i)
        omega)
    rw [List.take_append_drop] at i1 i2
    refine ⟨j + i, ?_, by omega⟩
    rw [i1]
    simp only [Except.ok.injEq, Prod.mk.injEq, and_true]
    omega

theorem nextText_spec (f : Nat) (text : Str) (st : Rd) (n : Nat) (he : Enc.Ended text st.rest) (hu : Enc.Uncut st.rest)
    (hsz : Sized st) (hf : st.rest.length < f) :
    (∃ st' n', nextText f st n = .ok (none, st', n') ∧ Exhausted false text) ∨
    ∃ l e text' st' n', nextText f st n = .ok (some (l ++ [e]), st', n') ∧
      (∀ m, LineMeaning l m → LineRead false text n m n' text') ∧ Enc.Ended text' st'.rest ∧ Enc.Uncut st'.rest ∧
      Sized st' ∧ (l ++ [e]).length + 1 ≤ st'.size := by
  induction f generalizing text st n with
  | zero => omega
  | succ f ih =>
    rcases ended_cases he with ⟨rfl, hd⟩ | ⟨l, s', d', hl, hlr, rfl, hd, he'⟩ | ⟨hne, hl, hlr, hd⟩
    · refine Or.inl ⟨{ st with rest := [] }, n + 1, ?_, .nil⟩
      have hx : devReadLine (st.size - 1 - 1) st.rest = ([], []) := by
        rw [hd]
        have := hsz.1
        obtain ⟨k, hk⟩ : ∃ k, st.size - 1 - 1 = k + 1 := ⟨st.size - 3, by omega⟩
        rw [hk]; rfl
      have := hsz.1
      simp only [nextText, hx, List.length_nil, List.isEmpty_nil, if_true]
      rw [if_neg (by omega)]
    · obtain ⟨j, hj⟩ : ∃ j, st.size = 6144 + 1024 * j := by
        rcases hsz.2 with h | h
        · rw [h] at hd; simp at hd
        · exact h
      obtain ⟨raw, hrd, hrawn, hraw, hcr⟩ : ∃ raw, st.rest = raw ++ '\n' :: d' ∧ '\n' ∉ raw ∧ unCR raw = l ∧
          (raw.getLast? = some '\r' → ∀ j, raw.length ≠ 6142 + 1024 * j) := by
        rcases hd with hd | hd
        · exact ⟨l, hd, hl, unCR_other hlr, fun h => absurd (List.mem_of_getLast? h) hlr⟩
        · refine ⟨l ++ ['\r'], hd, by simp [hl], unCR_cr l, ?_⟩
          intro _ j
          have := hu [] l d' (by rw [hd]; simp) (Or.inl rfl) hl j
          simpa using this
      obtain ⟨h1, h2, j', h3, h4⟩ := text_fill st raw d' j hj hrawn hrd hcr
      have hun : Enc.Uncut d' := by rw [hrd] at hu; exact uncut_rest hu
      have step : nextText (f + 1) st n =
          if isCommentLine l then nextText f { rest := d', size := 6144 + 1024 * j' } (n + 1)
          else .ok (some (l ++ ['\n']), { rest := d', size := 6144 + 1024 * j' }, n + 1) := by
        simp only [nextText]
        rw [if_neg (by omega), if_neg (by simpa using h1), h3]
        simp only [hraw, hash_first l '\n' (by decide)]
      rw [step]
      by_cases hc : isCommentLine l = true
      · rw [if_pos hc]
        rcases ih s' { rest := d', size := 6144 + 1024 * j' } (n + 1) he' hun
          ⟨by simp only; omega, Or.inr ⟨j', rfl⟩⟩ (by rw [hrd] at hf; simp at hf ⊢; omega) with
          ⟨st', n', p1, p2⟩ | ⟨l', e', t', st', n', p1, p2, p3⟩
        · exact Or.inl ⟨st', n', p1, .comment hl hc p2⟩
        · exact Or.inr ⟨l', e', t', st', n', p1, fun m hm => .comment hl hc (p2 m hm), p3⟩
      · rw [if_neg hc]
        refine Or.inr ⟨l, '\n', s', _, _, rfl, fun m hm => .line hl (by simpa using hc) hm, he', hun,
          ⟨by simp only; omega, Or.inr ⟨j', rfl⟩⟩, ?_⟩
        have := unCR_length raw
        rw [hraw] at this
        simp; omega
    · have hrest : st.rest = text := hd
      obtain ⟨q1, q2, e, size', q3, q4, q5, q6⟩ := physical_fill st text [] hsz.1 hl (Or.inr ⟨hrest, hne, rfl⟩)
      have hnn := devReadLine_no_newline (st.size - 1 - 1) st.rest (by rw [hrest]; exact hl)
      have hrr : '\n' ∉ (devReadLine (st.size - 1 - 1) st.rest).2 := by
        intro h
        have := (devReadLine_spec (st.size - 1 - 1) st.rest).1
        apply hl
        rw [← hrest, this]
        exact List.mem_append_right _ h
      have hs := hsz.1
      have step : nextText (f + 1) st n =
          if isCommentLine text then nextText f { rest := [], size := size' } (n + 1)
          else .ok (some (text ++ [e]), { rest := [], size := size' }, n + 1) := by
        simp only [nextText]
        rw [if_neg (by omega), if_neg (by simpa using q1), convert_piece hnn, fillText_eof _ _ _ _ hrr, q3]
        simp only [hash_first text e q6]
      have hun : Enc.Uncut ([] : Str) := by
        intro a l b h
        simp at h
      rw [step]
      by_cases hc : isCommentLine text = true
      · rw [if_pos hc]
        rcases ih [] { rest := [], size := size' } (n + 1) .nil hun ⟨by simp only; omega, Or.inl rfl⟩
          (by
            have := List.length_pos_iff.2 hne
            rw [hrest] at hf
            simp; omega) with
          ⟨st', n', p1, p2⟩ | ⟨l', e', t', st', n', p1, p2, p3⟩
        · exact Or.inl ⟨st', n', p1, .last hl hc⟩
        · exact (lineRead_not_exhausted (p2 _ (decodeU_meaning l')) .nil).elim
      · rw [if_neg hc]
        exact Or.inr ⟨text, e, [], _, _, rfl, fun m hm => .last hl hne (by simpa using hc) hm, .nil, hun,
          ⟨by simp only; omega, Or.inl rfl⟩, q4⟩

theorem readsText_spec (i : Nat) (text : Str) (st : Rd) (n : Nat) (he : Enc.Ended text st.rest) (hu : Enc.Uncut st.rest)
    (hsz : Sized st) :
    ∃ ls, readsText i st n = .ok ls ∧ AllRead (List.replicate i false) text n ls := by
  induction i generalizing text st n with
  | zero => exact ⟨[], rfl, .nil⟩
  | succ i ih =>
    unfold readsText
    rcases nextText_spec (st.rest.length + 1) text st n he hu hsz (Nat.lt_succ_self _) with
      ⟨st', n', p1, p2⟩ | ⟨l, e, t', st', n', p1, p2, p3, p4, p5, p6⟩
    · rw [p1]
      exact ⟨[], rfl, .done p2⟩
    · rw [p1]
      simp only
      rw [if_neg (by omega)]
      obtain ⟨ls, h1, h2⟩ := ih t' st' n' p3 p4 p5
      rw [h1]
      exact ⟨_, rfl, .more (p2 _ (decode8_meaning l e)) h2⟩

/-! ### Encodings -/

theorem char_bounds (c : Char) : c.toNat < 0xD800 ∨ (0xDFFF < c.toNat ∧ c.toNat < 0x110000) := c.valid

theorem utf8One_spec (c : Char) (r : List Nat) :
    ∃ b bs, Spec.Enc.utf8 c = b :: bs ∧ utf8One b (bs ++ r) = (c, r) := by
  have hv := char_bounds c
  have hof : Char.ofNat c.toNat = c := Char.ofNat_toNat c
  generalize hn : c.toNat = n at hv hof
  unfold Spec.Enc.utf8
  simp only [hn]
  by_cases h1 : n < 0x80
  · rw [if_pos h1]
    refine ⟨_, _, rfl, ?_⟩
    unfold utf8One
    rw [if_pos h1, hof]
    rfl
  rw [if_neg h1]
  by_cases h2 : n < 0x800
  · rw [if_pos h2]
    refine ⟨_, _, rfl, ?_⟩
    unfold utf8One
    rw [if_neg (by omega), if_neg (by omega), if_pos (by omega)]
    simp only [List.cons_append, List.nil_append]
    rw [if_pos (by simp [isCont]; omega)]
    have : (0xC0 + n / 64 - 0xC0) * 64 + (0x80 + n % 64 - 0x80) = n := by omega
    rw [this, hof]
  rw [if_neg h2]
  by_cases h3 : n < 0x10000
  · rw [if_pos h3]
    refine ⟨_, _, rfl, ?_⟩
    unfold utf8One
    rw [if_neg (by omega), if_neg (by omega), if_neg (by omega), if_pos (by omega)]
    simp only [List.cons_append, List.nil_append]
    have : (0xE0 + n / 4096 - 0xE0) * 4096 + (0x80 + n / 64 % 64 - 0x80) * 64 + (0x80 + n % 64 - 0x80) = n := by omega
    rw [this, hof, if_pos (by simp [isCont, isScalar]; omega)]
  · rw [if_neg h3]
    refine ⟨_, _, rfl, ?_⟩
    unfold utf8One
    rw [if_neg (by omega), if_neg (by omega), if_neg (by omega), if_neg (by omega), if_pos (by omega)]
    simp only [List.cons_append, List.nil_append]
    have : (0xF0 + n / 262144 - 0xF0) * 262144 + (0x80 + n / 4096 % 64 - 0x80) * 4096 +
        (0x80 + n / 64 % 64 - 0x80) * 64 + (0x80 + n % 64 - 0x80) = n := by omega
    rw [this, hof, if_pos (by simp [isCont, isScalar]; omega)]

theorem utf8Decode_spec (d : Str) (f : Nat) (hf : (d.flatMap Spec.Enc.utf8).length ≤ f) :
    utf8Decode f (d.flatMap Spec.Enc.utf8) = d := by
  induction d generalizing f with
  | nil => cases f <;> rfl
  | cons c d ih =>
    obtain ⟨b, bs, h1, h2⟩ := utf8One_spec c (d.flatMap Spec.Enc.utf8)
    rw [List.flatMap_cons, h1] at hf ⊢
    cases f with
    | zero => simp at hf
    | succ f =>
      simp only [List.cons_append, utf8Decode, h2]
      rw [ih f (by simp only [List.length_append, List.length_cons] at hf; omega)]

theorem utf16Decode_spec (d : Str) (f : Nat) (hf : (d.flatMap Spec.Enc.utf16).length ≤ f) :
    utf16Decode f (d.flatMap Spec.Enc.utf16) = d := by
  induction d generalizing f with
  | nil => cases f <;> rfl
  | cons c d ih =>
    have hv := char_bounds c
    have hof : Char.ofNat c.toNat = c := Char.ofNat_toNat c
    have henc : Spec.Enc.utf16 c = if c.toNat < 0x10000 then Spec.Enc.little c.toNat
      else Spec.Enc.little (0xD800 + (c.toNat - 0x10000) / 1024) ++ Spec.Enc.little (0xDC00 + (c.toNat - 0x10000) % 1024) :=
      rfl
    generalize hn : c.toNat = n at hv hof henc
    rw [List.flatMap_cons, henc] at hf ⊢
    by_cases h : n < 0x10000
    · rw [if_pos h] at hf ⊢
      cases f with
      | zero => simp [Spec.Enc.little] at hf
      | succ f =>
        simp only [Spec.Enc.little, List.cons_append, List.nil_append, utf16Decode]
        have hx : n % 256 + n / 256 * 256 = n := by omega
        rw [hx, if_pos (by omega), hof, ih f (by simp only [Spec.Enc.little, List.length_append, List.length_cons, List.length_nil] at hf; omega)]
    · rw [if_neg h] at hf ⊢
      cases f with
      | zero => simp [Spec.Enc.little] at hf
      | succ f =>
        simp only [Spec.Enc.little, List.cons_append, List.nil_append, utf16Decode]
        have hx : (0xD800 + (n - 0x10000) / 1024) % 256 + (0xD800 + (n - 0x10000) / 1024) / 256 * 256 =
          0xD800 + (n - 0x10000) / 1024 := by omega
        have hy : (0xDC00 + (n - 0x10000) % 1024) % 256 + (0xDC00 + (n - 0x10000) % 1024) / 256 * 256 =
          0xDC00 + (n - 0x10000) % 1024 := by omega
        rw [hx, hy, if_neg (by omega), if_neg (by omega), if_pos (by omega)]
        have hz : 0x10000 + (0xD800 + (n - 0x10000) / 1024 - 0xD800) * 1024 +
          (0xDC00 + (n - 0x10000) % 1024 - 0xDC00) = n := by omega
        rw [hz, hof, ih f (by simp only [Spec.Enc.little, List.length_append, List.length_cons, List.length_nil] at hf; omega)]

theorem detect_latin1 {b : List Nat} (h : ¬ Spec.Enc.Marked b) : detect b = .latin1 := by
  unfold detect
  rw [if_neg, if_neg]
  · intro hx
    exact h (Or.inr ((List.isPrefixOf_iff_prefix.1 hx).trans (List.take_prefix 3 b)))
  · intro hx
    exact h (Or.inl ((List.isPrefixOf_iff_prefix.1 hx).trans (List.take_prefix 3 b)))

theorem detect_utf8 (b : List Nat) : detect ([0xEF, 0xBB, 0xBF] ++ b) = .utf8 := rfl

theorem detect_utf16 (b : List Nat) : detect ([0xFF, 0xFE] ++ b) = .utf16 := rfl

/-- C99: whatever the encoding and the line ends of a makefile are, its lines and their numbers are those of its text. -/
theorem C99_lines_partial (k : Str → Nat) (hk : ∀ d, d ≠ [] → 0 < k d) (text d : Str) (b : List Nat) (i : Nat)
    (he : Spec.Enc.Ended text d) (hb : Spec.Enc.Bytes d b) (hu : ¬ Spec.Enc.Marked b → Spec.Enc.Uncut d) :
    ∃ ls, readsBytes k i b = .ok ls ∧ AllRead (List.replicate i false) text 0 ls := by
  unfold readsBytes
  cases hb with
  | latin1 hc hm =>
    rw [detect_latin1 hm]
    have hd : fromLatin1 (d.map Char.toNat) = d := by
      unfold fromLatin1
      rw [List.map_map]
      calc d.map (Char.ofNat ∘ Char.toNat) = d.map id := List.map_congr_left fun c _ => Char.ofNat_toNat c
        _ = d := List.map_id _
    simp only [hd]
    exact readsText_spec i text _ 0 he (hu hm) ⟨by simp [initialBufferSize], Or.inr ⟨0, rfl⟩⟩
  | utf8 =>
    rw [detect_utf8]
    simp only
    have hd : utf8Decode ([0xEF, 0xBB, 0xBF] ++ d.flatMap Spec.Enc.utf8).length
        (([0xEF, 0xBB, 0xBF] ++ d.flatMap Spec.Enc.utf8).drop 3) = d :=
      utf8Decode_spec d _ (by rw [List.length_append]; omega)
    rw [hd, ended_dropCR he]
    exact C88_lines k hk [] text true _ (by simp)
  | utf16 =>
    rw [detect_utf16]
    simp only
    have hd : utf16Decode ([0xFF, 0xFE] ++ d.flatMap Spec.Enc.utf16).length
        (([0xFF, 0xFE] ++ d.flatMap Spec.Enc.utf16).drop 2) = d :=
      utf16Decode_spec d _ (by rw [List.length_append]; omega)
    rw [hd, ended_dropCR he]
    exact C88_lines k hk [] text true _ (by simp)

/-- C99: two ways to save the same text give the same lines and line numbers. -/
theorem C99_saved_partial (k : Str → Nat) (hk : ∀ d, d ≠ [] → 0 < k d) (text d d' : Str) (b b' : List Nat) (i : Nat)
    (he : Spec.Enc.Ended text d) (hb : Spec.Enc.Bytes d b) (hu : ¬ Spec.Enc.Marked b → Spec.Enc.Uncut d)
    (he' : Spec.Enc.Ended text d') (hb' : Spec.Enc.Bytes d' b') (hu' : ¬ Spec.Enc.Marked b' → Spec.Enc.Uncut d') :
    readsBytes k i b = readsBytes k i b' := by
  obtain ⟨ls, h1, h2⟩ := C99_lines_partial k hk text d b i he hb hu
  obtain ⟨ls', h1', h2'⟩ := C99_lines_partial k hk text d' b' i he' hb' hu'
  rw [h1, h1', allRead_unique h2 h2']

/-- The text itself has line ends `\n`, so no `\r\n` that could be cut. -/
theorem C99_unix_uncut {text : Str} (h : '\r' ∉ text) : Spec.Enc.Ended text text ∧ Spec.Enc.Uncut text := by
  constructor
  · induction text with
    | nil => exact .nil
    | cons c s ih =>
      simp only [List.mem_cons, not_or] at h
      by_cases hc : c = '\n'
      · subst hc; exact .lf (ih h.2)
      · exact .char hc (Ne.symm h.1) (ih h.2)
  · intro a l b hd
    exact absurd (hd ▸ by simp) h

/-! ### The cut `\r\n` -/

/-- C99, negation of the full claim: in an 8-bit file a line whose `\r` is the last character that fits into the line
buffer keeps this `\r`. -/
theorem C99_cut (k : Str → Nat) (l : Str) (hlen : l.length = 6141) (hn : '\n' ∉ l) (hc : isCommentLine l = false)
    (h8 : ∀ c ∈ l, c.toNat < 256) (hm : ¬ Spec.Enc.Marked ((l ++ ['\r', '\n']).map Char.toNat)) :
    readsBytes k 2 ((l ++ ['\r', '\n']).map Char.toNat) = .ok [({ content := some (l ++ ['\r']) }, 1)] := by
  unfold readsBytes
  rw [detect_latin1 hm]
  have hd : fromLatin1 ((l ++ ['\r', '\n']).map Char.toNat) = l ++ ['\r', '\n'] := by
    unfold fromLatin1
    rw [List.map_map]
    calc _ = (l ++ ['\r', '\n']).map id := List.map_congr_left fun c _ => Char.ofNat_toNat c
      _ = _ := List.map_id _
  simp only [hd]
  have hr : l ++ ['\r', '\n'] = (l ++ ['\r']) ++ ['\n'] := by simp
  have hn' : '\n' ∉ l ++ ['\r'] := by simp [hn]
  have hread : devReadLine (6144 - 1 - 1) (l ++ ['\r', '\n']) = (l ++ ['\r'], ['\n']) := by
    rw [hr, devReadLine_full _ _ _ hn' (by simp [hlen])]
    rw [List.take_of_length_le (by simp [hlen]), List.drop_eq_nil_of_le (by simp [hlen])]
    rfl
  have hfill : fillText 2 6144 (l ++ ['\r']) ['\n'] = .ok (7168, l ++ ['\r', '\n'], []) := by
    unfold fillText
    rw [getLast?_newline hn']
    simp only [Bool.false_eq_true, if_false, List.isEmpty_cons, List.length_append, List.length_singleton, hlen,
      bufferGrowSize]
    unfold fillText
    simp [devReadLine, convert, endsWith]
  have hfirst : ((l ++ ['\r', '\n'])[0]? == some '#') = false := by
    cases l with
    | nil => simp at hlen
    | cons c l => exact hc
  have hnext : ∀ f n, nextText (f + 1) { rest := l ++ ['\r', '\n'], size := initialBufferSize } n =
      .ok (some (l ++ ['\r', '\n']), { rest := [], size := 7168 }, n + 1) := by
    intro f n
    simp only [nextText, initialBufferSize, hread, convert_piece hn']
    rw [if_neg (by simp [hlen]), if_neg (by simp)]
    simp only [List.length_singleton, hfill]
    rw [hfirst]
    rfl
  have hdec : decode8 (l ++ ['\r', '\n']) = { content := some (l ++ ['\r']) } := by
    have h := decode8_meaning (l ++ ['\r']) '\n'
    have h' : LineMeaning (l ++ ['\r']) (decodeU (l ++ ['\r'])) := decodeU_meaning _
    have hx := C11_line_meaning_unique h h'
    rw [hr, hx]
    have e1 : endsWith (l ++ ['\r']) ['^', '\\'] = false := by
      rw [Bool.eq_false_iff]; intro hh
      obtain ⟨a, ha⟩ := (endsWith_iff _ _).1 hh
      have := congrArg List.getLast? ha
      simp at this
    have e2 : endsWith (l ++ ['\r']) ['\\', '\\'] = false := by
      rw [Bool.eq_false_iff]; intro hh
      obtain ⟨a, ha⟩ := (endsWith_iff _ _).1 hh
      have := congrArg List.getLast? ha
      simp at this
    have e3 : endsWith (l ++ ['\r']) ['\\'] = false := by
      rw [Bool.eq_false_iff]; intro hh
      obtain ⟨a, ha⟩ := (endsWith_iff _ _).1 hh
      have := congrArg List.getLast? ha
      simp at this
    have e4 : endsWith (l ++ ['\r']) ['^'] = false := by
      rw [Bool.eq_false_iff]; intro hh
      obtain ⟨a, ha⟩ := (endsWith_iff _ _).1 hh
      have := congrArg List.getLast? ha
      simp at this
    simp [decodeU, e1, e2, e3, e4]
  simp only [readsText, hnext]
  rw [if_neg (by simp [hlen]), hdec]
  rfl

/-- C99: such a line, continued with a backslash: the continuation is lost with `\r\n`, not with `\n`. -/
theorem C99_cut_continuation (k : Str → Nat) :
    let l := List.replicate 6140 'a' ++ ['\\']
    readsBytes k 2 ((l ++ ['\r', '\n']).map Char.toNat) = .ok [({ content := some (l ++ ['\r']) }, 1)] ∧
    readsBytes k 2 ((l ++ ['\n']).map Char.toNat) =
      .ok [({ content := some (List.replicate 6140 'a'), cont := .backslash }, 1)] := by
  intro l
  have hlen : l.length = 6141 := by
    rw [List.length_append, List.length_replicate]; rfl
  have hmem : ∀ c ∈ l, c = 'a' ∨ c = '\\' := by
    intro c hc
    rcases List.mem_append.1 hc with hc | hc
    · exact Or.inl (List.eq_of_mem_replicate hc)
    · exact Or.inr (by simpa using hc)
  have hn : '\n' ∉ l := fun h => by rcases hmem _ h with h | h <;> simp at h
  have hr : '\r' ∉ l := fun h => by rcases hmem _ h with h | h <;> simp at h
  have h8 : ∀ c ∈ l, c.toNat < 256 := by
    intro c hc
    rcases hmem c hc with rfl | rfl <;> decide
  have hl : l = 'a' :: (List.replicate 6139 'a' ++ ['\\']) := by
    show List.replicate (6139 + 1) 'a' ++ ['\\'] = _
    rw [List.replicate_succ]; rfl
  have hm : ∀ t : Str, ¬ Spec.Enc.Marked ((l ++ t).map Char.toNat) := by
    intro t h
    rw [hl] at h
    rcases h with ⟨x, h⟩ | ⟨x, h⟩
    · simp only [List.cons_append, List.map_cons, List.cons.injEq] at h; exact absurd h.1 (by decide)
    · simp only [List.cons_append, List.map_cons, List.cons.injEq] at h; exact absurd h.1 (by decide)
  refine ⟨C99_cut k l hlen hn (by rw [hl]; rfl) h8 (hm _), ?_⟩
  have hcr : '\r' ∉ l ++ ['\n'] := by
    intro h
    rcases List.mem_append.1 h with h | h
    · exact hr h
    · simp at h
  obtain ⟨he, hu⟩ := C99_unix_uncut hcr
  obtain ⟨ls, h1, h2⟩ := C99_lines_partial (fun _ => 1) (by simp) (l ++ ['\n']) (l ++ ['\n']) _ 2 he
    (.latin1 (by
      intro c hc
      rcases List.mem_append.1 hc with hc | hc
      · exact h8 c hc
      · simp only [List.mem_singleton] at hc; subst hc; decide) (hm _)) (fun _ => hu)
  have hk : readsBytes k 2 ((l ++ ['\n']).map Char.toNat) = readsBytes (fun _ => 1) 2 ((l ++ ['\n']).map Char.toNat) := by
    unfold readsBytes
    rw [detect_latin1 (hm _)]
  rw [hk, h1]
  have hback : LineMeaning l { content := some (List.replicate 6140 'a'), cont := .backslash } := by
    refine .backslash _ ?_ ?_
    · rintro ⟨b, hb⟩
      have : '^' ∈ List.replicate 6140 'a' := by rw [hb]; simp
      exact absurd (List.eq_of_mem_replicate this) (by decide)
    · rintro ⟨b, hb⟩
      have : '\\' ∈ List.replicate 6140 'a' := by rw [hb]; simp
      exact absurd (List.eq_of_mem_replicate this) (by decide)
  have h3 : AllRead (List.replicate 2 false) (l ++ ['\n']) 0
      [({ content := some (List.replicate 6140 'a'), cont := .backslash }, 1)] :=
    .more (.line hn (by rw [hl]; rfl) hback) (.done .nil)
  rw [allRead_unique h2 h3]

/-! ### Non-trivial instances -/

namespace EncCase

/-- `ä = b \`, `#`, `c^`, the second line ended by `\n`, the others by `\r\n`. -/
def text : Str := [Char.ofNat 0xE4] ++ c!" = b \\\n#\nc^\n"

def saved : Str := [Char.ofNat 0xE4] ++ c!" = b \\" ++ ['\r', '\n', '#', '\n', 'c', '^', '\r', '\n']

def latin1 : List Nat := [0xE4, 32, 61, 32, 98, 32, 92, 13, 10, 35, 10, 99, 94, 13, 10]
def utf8 : List Nat := [0xEF, 0xBB, 0xBF, 0xC3, 0xA4, 32, 61, 32, 98, 32, 92, 13, 10, 35, 10, 99, 94, 13, 10]

theorem bytes_latin1 : Spec.Enc.Bytes saved latin1 :=
  .latin1 (d := saved) (by decide +kernel) (by
    have h : saved.map Char.toNat = latin1 := by decide +kernel
    rw [h]
    rintro (⟨x, h⟩ | ⟨x, h⟩) <;> cases h)

theorem bytes_utf8 : Spec.Enc.Bytes saved utf8 := by
  have h : utf8 = [0xEF, 0xBB, 0xBF] ++ saved.flatMap Spec.Enc.utf8 := by decide +kernel
  rw [h]
  exact .utf8

theorem ended : Spec.Enc.Ended text saved := by
  refine .char (by decide) (by decide) (.char (by decide) (by decide) (.char (by decide) (by decide)
    (.char (by decide) (by decide) (.char (by decide) (by decide) (.char (by decide) (by decide)
    (.char (by decide) (by decide) (.crlf (.char (by decide) (by decide) (.lf (.char (by decide) (by decide)
    (.char (by decide) (by decide) (.crlf .nil))))))))))))

example : readsBytes (fun _ => 4) 5 latin1 = .ok [
    ({ content := some ([Char.ofNat 0xE4] ++ c!" = b "), cont := .backslash }, 1),
    ({ content := some c!"c", cont := .caret }, 3)] := by decide +kernel

/-- Short lines are not cut. -/
theorem uncut : Spec.Enc.Uncut saved := by
  intro a l b h _ _ j e
  have := congrArg List.length h
  simp only [List.length_append, List.length_cons] at this
  have h15 : saved.length = 15 := by decide +kernel
  omega

/-- The theorem applies: both files have the same lines, whatever the sizes of the blocks in which they are read. -/
example (k : Str → Nat) (hk : ∀ d, d ≠ [] → 0 < k d) (i : Nat) : readsBytes k i utf8 = readsBytes k i latin1 :=
  C99_saved_partial k hk text saved saved utf8 latin1 i ended bytes_utf8 (fun _ => uncut) ended bytes_latin1 (fun _ => uncut)

/-- A character outside the first 65536: two units in UTF-16, four bytes in UTF-8. -/
example : readsBytes (fun _ => 4) 5 [0xFF, 0xFE, 0x3D, 0xD8, 0x00, 0xDE, 13, 0, 10, 0] =
    .ok [({ content := some [Char.ofNat 0x1F600] }, 1)] ∧
    readsBytes (fun _ => 4) 5 [0xEF, 0xBB, 0xBF, 0xF0, 0x9F, 0x98, 0x80, 10] =
    .ok [({ content := some [Char.ofNat 0x1F600] }, 1)] := by decide +kernel

end EncCase

end Jom.Props
