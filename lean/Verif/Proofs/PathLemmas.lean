import Verif.Model.Helpers
import Verif.Proofs.StrLemmas

/-! Lemmas about directory and file part of a path and about letter case. -/

namespace Jom

def isSep (c : Char) : Bool := c == '/' || c == '\\'

theorem lastIndexOf?_none {c : Char} {s : Str} (h : c ∉ s) : lastIndexOf? c s = none := by
  induction s with
  | nil => rfl
  | cons d s ih =>
    rw [lastIndexOf?, ih (fun hh => h (by simp [hh]))]
    have : d ≠ c := fun hh => h (by simp [hh])
    simp [this]

theorem lastIndexOf?_last {c : Char} {b : Str} (h : c ∉ b) : ∀ a : Str, lastIndexOf? c (a ++ c :: b) = some a.length := by
  intro a
  induction a with
  | nil => simp [lastIndexOf?, lastIndexOf?_none h]
  | cons d a ih => rw [List.cons_append, lastIndexOf?, ih]; simp

theorem lastIndexOf?_lt {c : Char} : ∀ {s : Str} {i : Nat}, lastIndexOf? c s = some i → i < s.length := by
  intro s
  induction s with
  | nil => intro i h; cases h
  | cons d s ih =>
    intro i h
    rw [lastIndexOf?] at h
    cases hs : lastIndexOf? c s with
    | none =>
      rw [hs] at h
      simp only at h
      split at h
      · cases h; simp
      · cases h
    | some j =>
      rw [hs] at h
      cases h
      have := ih hs
      simp; omega

theorem lastIndexOf?_append_not {c : Char} {b : Str} (h : c ∉ b) : ∀ a : Str, lastIndexOf? c (a ++ b) = lastIndexOf? c a := by
  intro a
  induction a with
  | nil => simp [lastIndexOf?, lastIndexOf?_none h]
  | cons d a ih => rw [List.cons_append, lastIndexOf?, ih, lastIndexOf?]

/-- `pre` is a directory prefix: empty or ending with a separator. -/
def DirPrefix (pre : Str) : Prop := pre = [] ∨ ∃ d c, pre = d ++ [c] ∧ isSep c = true

theorem fileName_eq {pre file : Str} (hp : DirPrefix pre) (hf : ∀ c ∈ file, isSep c = false) :
    fileNameFromFilePath (pre ++ file) = file := by
  have h1 : '/' ∉ file := fun h => by have := hf _ h; simp [isSep] at this
  have h2 : '\\' ∉ file := fun h => by have := hf _ h; simp [isSep] at this
  unfold fileNameFromFilePath
  rcases hp with rfl | ⟨d, c, rfl, hc⟩
  · simp [lastIndexOf?_none h1, lastIndexOf?_none h2]
  · have hd : (d ++ [c] ++ file).drop (d.length + 1) = file := by
      rw [List.drop_append_of_le_length (by simp), List.drop_of_length_le (by simp)]; rfl
    simp only [isSep, Bool.or_eq_true, beq_iff_eq] at hc
    rcases hc with rfl | rfl
    · have e1 : lastIndexOf? '/' (d ++ ['/'] ++ file) = some d.length := by
        rw [List.append_assoc]; exact lastIndexOf?_last h1 d
      have e2 : lastIndexOf? '\\' (d ++ ['/'] ++ file) = lastIndexOf? '\\' d := by
        rw [lastIndexOf?_append_not h2, lastIndexOf?_append_not (by simp)]
      rw [e1, e2]
      cases hb : lastIndexOf? '\\' d with
      | none => exact hd
      | some b =>
        have := lastIndexOf?_lt hb
        simp only
        rw [show max d.length b = d.length by omega]; exact hd
    · have e1 : lastIndexOf? '\\' (d ++ ['\\'] ++ file) = some d.length := by
        rw [List.append_assoc]; exact lastIndexOf?_last h2 d
      have e2 : lastIndexOf? '/' (d ++ ['\\'] ++ file) = lastIndexOf? '/' d := by
        rw [lastIndexOf?_append_not h1, lastIndexOf?_append_not (by simp)]
      rw [e1, e2]
      cases hb : lastIndexOf? '/' d with
      | none => exact hd
      | some b =>
        have := lastIndexOf?_lt hb
        simp only
        rw [show max b d.length = d.length by omega]; exact hd

/-- Every path is a directory prefix and a file name. -/
theorem path_split (s : Str) : ∃ pre file, s = pre ++ file ∧ DirPrefix pre ∧ ∀ c ∈ file, isSep c = false := by
  induction s using snoc_induction with
  | h0 => exact ⟨[], [], rfl, .inl rfl, by simp⟩
  | h1 s c ih =>
    obtain ⟨pre, file, rfl, hp, hf⟩ := ih
    cases hc : isSep c with
    | true => exact ⟨pre ++ file ++ [c], [], by simp, .inr ⟨pre ++ file, c, rfl, hc⟩, by simp⟩
    | false =>
      refine ⟨pre, file ++ [c], by simp, hp, ?_⟩
      intro d hd
      rcases List.mem_append.1 hd with h | h
      · exact hf d h
      · simp at h; subst h; exact hc

theorem path_split_unique {p1 f1 p2 f2 : Str} (h : p1 ++ f1 = p2 ++ f2) (hp1 : DirPrefix p1) (hp2 : DirPrefix p2)
    (hf1 : ∀ c ∈ f1, isSep c = false) (hf2 : ∀ c ∈ f2, isSep c = false) : p1 = p2 ∧ f1 = f2 := by
  have e1 := fileName_eq hp1 hf1
  have e2 := fileName_eq hp2 hf2
  rw [h, e2] at e1
  subst e1
  exact ⟨List.append_cancel_right h, rfl⟩

theorem toNat_ofNat_ascii {n : Nat} (h : n < 128) : (Char.ofNat n).toNat = n := by
  have : ∀ k : Fin 128, (Char.ofNat k.1).toNat = k.1 := by decide +kernel
  exact this ⟨n, h⟩

theorem toLowerC_eq_of_not_letter {c d : Char} (hd : d.toNat < 97 ∨ 122 < d.toNat) (h : toLowerC c = d) : c = d := by
  unfold toLowerC at h
  split at h
  · next hc =>
    exfalso
    have : d.toNat = c.toNat + 32 := by
      rw [← h, toNat_ofNat_ascii (by omega)]
    omega
  · exact h

theorem isSep_toLowerC (c : Char) : isSep (toLowerC c) = isSep c := by
  unfold isSep
  rw [Bool.eq_iff_iff]
  simp only [Bool.or_eq_true, beq_iff_eq]
  constructor
  · rintro (h | h)
    · exact .inl (toLowerC_eq_of_not_letter (by decide) h)
    · exact .inr (toLowerC_eq_of_not_letter (by decide) h)
  · rintro (rfl | rfl)
    · left; decide
    · right; decide

theorem toLower_append (a b : Str) : toLower (a ++ b) = toLower a ++ toLower b := by simp [toLower]
theorem toLower_length (a : Str) : (toLower a).length = a.length := by simp [toLower]

theorem toLowerC_idem (c : Char) : toLowerC (toLowerC c) = toLowerC c := by
  unfold toLowerC
  split
  · next hc =>
    rw [if_neg]
    rw [toNat_ofNat_ascii (by omega)]
    omega
  · rfl

theorem toLower_idem (s : Str) : toLower (toLower s) = toLower s := by
  simp [toLower, toLowerC_idem, Function.comp_def]

end Jom
