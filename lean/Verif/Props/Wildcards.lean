import Verif.Model.Wildcards
import Verif.Proofs.FileMacros
import Verif.Proofs.PathLemmas
import Verif.Spec.Parser

/-! C75: which files a dependent with wildcards stands for. -/

namespace Jom.WildSpec

open Spec.Makefile (native)

/-- The two directory separators. -/
def IsSeparator (c : Char) : Prop := c = '/' ∨ c = '\\'

/-- A text that consists of a folder part and a last component: the folder part is empty or ends with the last separator
of the text. -/
structure FolderAndName (text folder name : Str) : Prop where
  text : text = folder ++ name
  name : ∀ c ∈ name, ¬ IsSeparator c
  folder : folder = [] ∨ ∃ x c, folder = x ++ [c] ∧ IsSeparator c

/-- A relative file name: it begins neither with a separator nor with a drive. -/
def Relative (r : Str) : Prop := (∀ c s, r = c :: s → ¬ IsSeparator c) ∧ ∀ c s, r ≠ c :: ':' :: s

/-- The same path, without regard to letter case and to which separators are used. -/
def SamePath (a b : Str) : Prop := toLower (native a) = toLower (native b)

/-- The name `r`, used in the folder `cwd`, is a name of the file with the full path `f`. -/
inductive Denotes (cwd r f : Str) : Prop
  | relative : Relative r → SamePath f (cwd ++ '\\' :: r) → Denotes cwd r f
  | full : ¬ Relative r → SamePath f r → Denotes cwd r f

/-- A path as Windows has them: colons only behind the drive, no doubled separators except in front. -/
structure PlainPath (f : Str) : Prop where
  colon : ∀ x y, f = x ++ ':' :: y → x.length = 1
  double : ∀ x c d y, f = x ++ c :: d :: y → IsSeparator c → IsSeparator d → x = []

/-- The full paths of the files that match the dependent `text` of a makefile in the folder `dir`, if `entries` lists the names of
the files of a folder that match a pattern. -/
inductive Found (entries : Str → Str → List Str) (dir text : Str) : List Str → Prop
  | here : (∀ c ∈ text, ¬ IsSeparator c) → Found entries dir text ((entries dir text).map fun e => dir ++ '/' :: e)
  | inside {x c pat} : FolderAndName text (x ++ [c]) pat → Relative text →
      Found entries dir text ((entries (dir ++ '/' :: Wildcards.fromNative x) pat).map fun e => dir ++ '/' :: Wildcards.fromNative x ++ '/' :: e)
  | full {x c pat} : FolderAndName text (x ++ [c]) pat → ¬ Relative text →
      Found entries dir text ((entries (Wildcards.fromNative x) pat).map fun e => Wildcards.fromNative x ++ '/' :: e)

/-- `dir` is not merely the beginning of the text of `f`: if `f` begins with it, a separator follows. -/
def NoMerePrefix (dir f : Str) : Prop := ∀ x y, f = x ++ y → toLower x = toLower dir → ∃ c s, y = c :: s ∧ c = '/'

end Jom.WildSpec

namespace Jom.Props

open Wildcards WildSpec
open Spec.Makefile (native)

theorem lastIndexOf?_behind {c : Char} : ∀ {a b : Str}, c ∉ b → lastIndexOf? c (a ++ c :: b) = some a.length
  | [], b, h => by
    have : ∀ {s : Str}, c ∉ s → lastIndexOf? c s = none := by
      intro s
      induction s with
      | nil => intro _; rfl
      | cons d s ih => intro h; simp only [List.mem_cons, not_or] at h; simp [lastIndexOf?, ih h.2, Ne.symm h.1]
    simp [lastIndexOf?, this h]
  | d :: a, b, h => by simp [lastIndexOf?, lastIndexOf?_behind (a := a) h]

theorem lastIndexOf?_absent {c : Char} {s : Str} (h : c ∉ s) : lastIndexOf? c s = none := by
  induction s with
  | nil => rfl
  | cons d s ih => simp only [List.mem_cons, not_or] at h; simp [lastIndexOf?, ih h.2, Ne.symm h.1]

theorem slash_not_mem_fromNative {s : Str} (h : ∀ c ∈ s, ¬ IsSeparator c) : '/' ∉ fromNative s := by
  simp only [fromNative, List.mem_map, not_exists, not_and]
  intro c hc
  have := h c hc
  simp only [IsSeparator, not_or] at this
  simp [this.1, this.2]

theorem fromNative_plain {s : Str} (h : ∀ c ∈ s, ¬ IsSeparator c) : fromNative s = s := by
  induction s with
  | nil => rfl
  | cons c s ih =>
    have hc := h c (by simp)
    simp only [IsSeparator, not_or] at hc
    have := ih (fun d hd => h d (by simp [hd]))
    simp only [fromNative] at this
    simp [fromNative, hc.2, this]

theorem native_fromNative (s : Str) : native (fromNative s) = native s := by
  simp only [native, fromNative, List.map_map]
  apply List.map_congr_left
  intro c _
  by_cases h : c = '\\'
  · subst h; rfl
  · simp [h]

theorem fromNative_relative {s : Str} (h : Relative s) : isRelative (fromNative s) = true := by
  obtain ⟨h1, h2⟩ := h
  match s with
  | [] => rfl
  | [c] =>
    have := h1 c [] rfl
    simp only [IsSeparator, not_or] at this
    simp [fromNative, isRelative, this.1, this.2]
  | c :: d :: s =>
    have := h1 c _ rfl
    simp only [IsSeparator, not_or] at this
    have hd : d ≠ ':' := by rintro rfl; exact h2 c s rfl
    by_cases hb : d = '\\'
    · subst hb; simp [fromNative, isRelative, this.1, this.2]
    · simp [fromNative, isRelative, this.1, this.2, hb, hd]

theorem isRelative_iff {s : Str} (hs : '\\' ∉ s) : isRelative s = true ↔ Relative s := by
  constructor
  · intro h
    match s with
    | [] => exact ⟨by simp, by simp⟩
    | [c] =>
      simp [isRelative] at h
      simp at hs
      refine ⟨?_, by simp⟩
      intro d t e; cases e
      rintro (h' | h')
      · exact h h'
      · exact hs h'.symm
    | c :: d :: s =>
      simp [isRelative] at h
      simp at hs
      refine ⟨?_, ?_⟩
      · intro d t e; cases e
        rintro (h' | h')
        · exact h.1 h'
        · exact hs.1 h'.symm
      · intro a t e; cases e; exact h.2 rfl
  · intro h
    have := fromNative_relative h
    rwa [show fromNative s = s from by
      unfold fromNative
      conv => rhs; rw [← List.map_id s]
      apply List.map_congr_left
      intro c hc
      have : c ≠ '\\' := by rintro rfl; exact hs hc
      simp [this]] at this

theorem native_append (a b : Str) : native (a ++ b) = native a ++ native b := by simp [native]

/-- Cutting off the folder of the makefile. -/
theorem shorten_inside (dir r : Str) : shorten dir (dir ++ '/' :: r) = native r := by
  have : startsWithCI (dir ++ '/' :: r) dir = true := by
    simp only [startsWithCI, toLower, List.map_append]
    exact List.isPrefixOf_iff_prefix.2 ⟨_, rfl⟩
  simp [shorten, this, Parse.toNative, native]

/-- The same in the root of a drive. -/
theorem shorten_root {dir r : Str} (hr : r.head? ≠ some '/') : shorten dir (dir ++ r) = native r := by
  have : startsWithCI (dir ++ r) dir = true := by
    simp only [startsWithCI, toLower, List.map_append]
    exact List.isPrefixOf_iff_prefix.2 ⟨_, rfl⟩
  simp [shorten, this, Parse.toNative, native, hr]

/-- C75: a relative dependent with wildcards stands for the files that match in the folder it names, which is taken relative to
the folder of the makefile; every one of them gets the name that arises if its name takes the place of the last component of the
dependent. This includes makefiles in the root of a drive, whose path ends with `/` (the names of files do not begin with it). -/
theorem C75_relative (entries : Str → Str → List Str) {dir text folder pat : Str} (hf : FolderAndName text folder pat)
    (hr : Relative text) (hdir : dir.getLast? = some '/' → ∀ e ∈ entries dir pat, e.head? ≠ some '/')
    (hd : ∀ x c d, folder = x ++ [c, d] → IsSeparator c → ¬ IsSeparator d) :
    (folder = [] → files entries dir text = (entries dir pat).map native) ∧
    ∀ x c, folder = x ++ [c] →
      files entries dir text = (entries (dir ++ '/' :: fromNative x) pat).map fun name => native (folder ++ name) := by
  obtain ⟨rfl, hn, hfo⟩ := hf
  have hpat := fromNative_plain hn
  have hslash := slash_not_mem_fromNative hn
  constructor
  · rintro rfl
    have : searchPath dir pat = (dir, pat) := by
      simp [searchPath, lastIndexOf?_absent hslash]
      exact hpat
    simp only [files, List.nil_append, this]
    apply List.map_congr_left
    intro e he
    by_cases hl : dir.getLast? = some '/'
    · simp [entryPath, hl, shorten_root (hdir hl e he)]
    · simp [entryPath, hl, shorten_inside]
  · rintro x c rfl
    have hc : IsSeparator c := by
      rcases hfo with h | ⟨x', c', h, hc'⟩
      · simp at h
      · have := (List.append_inj' h rfl).2
        cases this
        exact hc'
    have hsplit : fromNative (x ++ [c] ++ pat) = fromNative x ++ '/' :: pat := by
      have : (if c = '\\' then '/' else c) = '/' := by rcases hc with rfl | rfl <;> rfl
      simp only [fromNative] at hpat ⊢
      simp [hpat, this]
    rw [hpat] at hslash
    have hsp : searchPath dir (x ++ [c] ++ pat) = (dir ++ '/' :: fromNative x, pat) := by
      have hrel : isRelative (fromNative x ++ '/' :: pat) = true := by rw [← hsplit]; exact fromNative_relative hr
      simp only [searchPath, hsplit, lastIndexOf?_behind hslash, hrel, if_true]
      simp
    simp only [files, hsp]
    apply List.map_congr_left
    intro e _
    have hx : fromNative x = [] ∨ (fromNative x).getLast? ≠ some '/' := by
      rcases List.eq_nil_or_concat x with rfl | ⟨y, d, rfl⟩
      · exact Or.inl rfl
      · right
        intro h
        simp only [fromNative, List.concat_eq_append, List.map_append, List.map_cons, List.map_nil, List.getLast?_append,
          List.getLast?_singleton, Option.some_or, Option.some.injEq] at h
        have hsep : IsSeparator d := by
          by_cases hb : d = '\\'
          · exact Or.inr hb
          · simp [hb] at h; exact Or.inl h
        exact hd y d c (by simp) hsep hc
    have hx' : x ≠ [] := by
      rintro rfl
      exact hr.1 c pat (by simp) hc
    have hx2 : (fromNative x).getLast? ≠ some '/' := by
      rcases hx with h | h
      · exfalso; apply hx'; simpa [fromNative] using h
      · exact h
    have hlast : (dir ++ '/' :: fromNative x).getLast? ≠ some '/' := by
      obtain ⟨a, l, hal⟩ : ∃ a l, fromNative x = a :: l := by
        cases hq : fromNative x with
        | nil => exfalso; apply hx'; simpa [fromNative] using hq
        | cons a l => exact ⟨a, l, rfl⟩
      rw [hal] at hx2 ⊢
      simpa [List.getLast?_append, List.getLast?_cons_cons, List.getLast?_cons] using hx2
    simp only [entryPath, hlast, if_false]
    have : dir ++ '/' :: fromNative x ++ '/' :: e = dir ++ '/' :: (fromNative x ++ '/' :: e) := by simp
    rw [this, shorten_inside, native_append, native_fromNative, native_append, native_append]
    have : native [c] = ['\\'] := by rcases hc with rfl | rfl <;> rfl
    rw [this]
    simp [native]

theorem native_native (s : Str) : native (native s) = native s := by
  simp only [native, List.map_map]
  apply List.map_congr_left
  intro c _
  by_cases h : c = '/'
  · subst h; rfl
  · simp [h]

/-- The path of a found file is given back as it is, or relative to the folder of the makefile. -/
theorem shorten_denotes {dir f : Str} (hdir : 2 ≤ dir.length) (hp : PlainPath f) (hm : NoMerePrefix dir f)
    (habs : startsWithCI f dir = false → ¬ Relative (native f)) : Denotes dir (shorten dir f) f := by
  unfold shorten
  by_cases h : startsWithCI f dir = true
  · simp only [h, if_true]
    obtain ⟨t, ht⟩ := List.isPrefixOf_iff_prefix.1 h
    have hl : (toLower dir).length = dir.length := by simp [toLower]
    have hlen : dir.length ≤ f.length := by
      have : (toLower f).length = f.length := by simp [toLower]
      rw [← this, ← ht]; simp [hl]
    have hx : toLower (f.take dir.length) = toLower dir := by
      simp only [toLower] at ht hl ⊢
      rw [List.map_take, ← ht, List.take_append_of_le_length (by simp), List.take_of_length_le (by simp)]
    obtain ⟨c, s, hs, rfl⟩ := hm _ _ (List.take_append_drop dir.length f).symm hx
    simp only [hs, List.head?_cons, if_true, List.drop_succ_cons, List.drop_zero]
    have hf : f = f.take dir.length ++ '/' :: s := by rw [← hs, List.take_append_drop]
    have htl : (f.take dir.length).length = dir.length := by simp; omega
    refine .relative ⟨?_, ?_⟩ ?_
    · intro d u hdu hsep
      cases s with
      | nil => simp [Parse.toNative] at hdu
      | cons a s =>
        have ha : IsSeparator a := by
          simp only [Parse.toNative, List.map_cons, List.cons.injEq] at hdu
          rw [← hdu.1] at hsep
          by_cases ha : a = '/'
          · exact Or.inl ha
          · simpa [ha] using hsep
        have := hp.double _ _ _ _ hf (Or.inl rfl) ha
        rw [this] at htl
        simp at htl; omega
    · intro d u hdu
      match s with
      | [] => simp [Parse.toNative] at hdu
      | [a] => simp [Parse.toNative] at hdu
      | a :: b :: s =>
        have hb : b = ':' := by
          simp only [Parse.toNative, List.map_cons, List.cons.injEq] at hdu
          by_cases hb : b = '/'
          · subst hb; have := hdu.2.1; simp at this
          · simpa [hb] using hdu.2.1
        subst hb
        have := hp.colon (f.take dir.length ++ ['/', a]) s (by rw [List.append_assoc]; exact hf)
        simp at this
    · unfold SamePath
      conv => lhs; rw [hf]
      have e1 : native ('/' :: s) = '\\' :: native s := by simp [native]
      have e2 : native ('\\' :: Parse.toNative s) = '\\' :: native (native s) := by simp [native, Parse.toNative]
      rw [native_append, native_append, e1, e2, native_native]
      have e3 : toLower (native (f.take dir.length)) = toLower (native dir) := by
        have key : ∀ {a b : Str}, toLower a = toLower b → toLower (native a) = toLower (native b) := by
          have hc : ∀ c, toLowerC (if c = '/' then '\\' else c) = (if toLowerC c = '/' then '\\' else toLowerC c) := by
            intro c
            by_cases hc : c = '/'
            · subst hc; rfl
            · have : toLowerC c ≠ '/' := fun e => hc (toLowerC_eq_of_not_letter (Or.inl (by decide)) e)
              rw [if_neg hc, if_neg this]
          intro a b h
          have e : ∀ s : Str, toLower (native s) = (toLower s).map fun c => if c = '/' then '\\' else c := by
            intro s
            simp only [toLower, native, List.map_map]
            apply List.map_congr_left
            intro c _
            exact hc c
          rw [e, e, h]
        exact key hx
      simp only [toLower, List.map_append] at e3 ⊢
      rw [e3]
  · simp only [h, if_false, Bool.false_eq_true]
    exact .full (habs (by simpa using h)) (by unfold SamePath; rw [show Parse.toNative f = native f from rfl, native_native])

theorem inside_prefix (dir r : Str) : startsWithCI (dir ++ '/' :: r) dir = true := by
  simp only [startsWithCI, toLower, List.map_append]
  exact List.isPrefixOf_iff_prefix.2 ⟨_, rfl⟩

theorem inside_noMerePrefix (dir r : Str) : NoMerePrefix dir (dir ++ '/' :: r) := by
  intro x y h hx
  have hl : x.length = dir.length := by simpa [toLower] using congrArg List.length hx
  have := (List.append_inj h hl.symm).2
  exact ⟨'/', r, this.symm, rfl⟩

theorem forall₂_map {α : Type} {R : Str → Str → Prop} {f g : α → Str} : ∀ {l : List α}, (∀ a ∈ l, R (f a) (g a)) →
    List.Forall₂ R (l.map f) (l.map g)
  | [], _ => .nil
  | a :: l, h => .cons (h a (by simp)) (forall₂_map fun b hb => h b (by simp [hb]))

theorem sep_cons {c : Char} (h : IsSeparator c) : (if c = '\\' then '/' else c) = '/' := by rcases h with rfl | rfl <;> rfl

/-- C75: one dependent arises for every file found, in the order found, and it is a name of this file for a process that runs in
the folder of the makefile.  Missing: files outside the folder of the makefile whose path begins with the path of this folder as a
text, see `C75_prefix_refuted`, makefiles in the root of a drive (but see `C75_relative`), and current directories other than the folder of the makefile, see `C75_elsewhere_refuted`. -/
theorem C75_denotes_partial {entries : Str → Str → List Str} {dir text : Str} {fs : List Str} (hf : Found entries dir text fs)
    (hlen : 2 ≤ dir.length) (hdir : dir.getLast? ≠ some '/')
    (hd : ∀ x c d pat, text = x ++ [c, d] ++ pat → (∀ a ∈ pat, ¬ IsSeparator a) → IsSeparator c → ¬ IsSeparator d)
    (hp : ∀ f ∈ fs, PlainPath f) (hm : ¬ Relative text → ∀ f ∈ fs, NoMerePrefix dir f) :
    List.Forall₂ (Denotes dir) (files entries dir text) fs := by
  cases hf with
  | here hn =>
    have hpat := fromNative_plain hn
    have hslash := slash_not_mem_fromNative hn
    have : searchPath dir text = (dir, text) := by
      simp [searchPath, lastIndexOf?_absent hslash]
      exact hpat
    simp only [files, this]
    apply forall₂_map
    intro e he
    simp only [entryPath, hdir, if_false]
    exact shorten_denotes hlen (hp _ (by simpa using he)) (inside_noMerePrefix _ _) (by rw [inside_prefix]; simp)
  | @inside x c pat hfn hr =>
    have hdd : ∀ y a b, x ++ [c] = y ++ [a, b] → IsSeparator a → ¬ IsSeparator b := by
      intro y a b h
      exact hd y a b pat (by rw [hfn.text, h]) hfn.name
    rw [(C75_relative entries hfn hr (fun h => absurd h hdir) hdd).2 x c rfl]
    apply forall₂_map
    intro e he
    have hc : IsSeparator c := by
      rcases hfn.folder with h | ⟨x', c', h, hc'⟩
      · simp at h
      · have := (List.append_inj' h rfl).2
        cases this
        exact hc'
    have e1 : native (x ++ [c] ++ e) = shorten dir (dir ++ '/' :: fromNative x ++ '/' :: e) := by
      have : dir ++ '/' :: fromNative x ++ '/' :: e = dir ++ '/' :: (fromNative x ++ '/' :: e) := by simp
      rw [this, shorten_inside, native_append, native_append, native_append, native_fromNative]
      have : native [c] = ['\\'] := by rcases hc with rfl | rfl <;> rfl
      rw [this]
      simp [native]
    rw [e1]
    have e2 : dir ++ '/' :: fromNative x ++ '/' :: e = dir ++ '/' :: (fromNative x ++ '/' :: e) := by simp
    have hpl := hp _ (List.mem_map.2 ⟨e, he, rfl⟩)
    rw [e2] at hpl ⊢
    exact shorten_denotes hlen hpl (inside_noMerePrefix _ _) (by rw [inside_prefix]; simp)
  | @full x c pat hfn hr =>
    obtain ⟨rfl, hn, hfo⟩ := hfn
    have hc : IsSeparator c := by
      rcases hfo with h | ⟨x', c', h, hc'⟩
      · simp at h
      · have := (List.append_inj' h rfl).2
        cases this
        exact hc'
    have hpat := fromNative_plain hn
    have hslash := slash_not_mem_fromNative hn
    have hsplit : fromNative (x ++ [c] ++ pat) = fromNative x ++ '/' :: pat := by
      simp only [fromNative] at hpat ⊢
      simp [hpat, sep_cons hc]
    rw [hpat] at hslash
    have hno : '\\' ∉ fromNative x ++ '/' :: pat := by
      rw [← hsplit]
      simp only [fromNative, List.mem_map, not_exists, not_and]
      intro d _
      by_cases h : d = '\\'
      · simp [h]
      · simp [h]
    have hrel : isRelative (fromNative x ++ '/' :: pat) = false := by
      rw [Bool.eq_false_iff]
      intro h
      apply hr
      rw [isRelative_iff hno, ← hsplit] at h
      obtain ⟨h1, h2⟩ := h
      refine ⟨?_, ?_⟩
      · intro d s e hsep
        apply h1 '/' (fromNative s) _ (Or.inl rfl)
        rw [e]
        simp [fromNative, sep_cons hsep]
      · intro d s e
        apply h2 (if d = '\\' then '/' else d) (fromNative s)
        rw [e]
        simp [fromNative]
    have hsp : searchPath dir (x ++ [c] ++ pat) = (fromNative x, pat) := by
      simp only [searchPath, hsplit, lastIndexOf?_behind hslash, hrel]
      simp
    have hx2 : (fromNative x).getLast? ≠ some '/' := by
      rcases List.eq_nil_or_concat x with rfl | ⟨y, d, rfl⟩
      · simp [fromNative]
      · intro h
        simp only [fromNative, List.concat_eq_append, List.map_append, List.map_cons, List.map_nil, List.getLast?_append,
          List.getLast?_singleton, Option.some_or, Option.some.injEq] at h
        have hsep : IsSeparator d := by
          by_cases hb : d = '\\'
          · exact Or.inr hb
          · simp [hb] at h; exact Or.inl h
        exact hd y d c pat (by simp) hn hsep hc
    simp only [files, hsp]
    apply forall₂_map
    intro e he
    have hmem : fromNative x ++ '/' :: e ∈ (entries (fromNative x) pat).map fun e => fromNative x ++ '/' :: e := List.mem_map.2 ⟨e, he, rfl⟩
    simp only [entryPath, hx2, if_false]
    refine shorten_denotes hlen (hp _ hmem) (hm hr _ hmem) ?_
    intro _ hrel'
    obtain ⟨h1, h2⟩ := hrel'
    match hx : fromNative x with
    | [] => rw [hx] at h1; exact h1 '\\' (native e) (by simp [native]) (Or.inr rfl)
    | [a] =>
      rw [hx] at hrel h1
      simp [isRelative] at hrel
      subst hrel
      exact h1 '\\' _ rfl (Or.inr rfl)
    | a :: b :: l =>
      rw [hx] at hrel h1 h2
      simp only [isRelative, List.cons_append, Bool.and_eq_false_iff, bne_eq_false_iff_eq] at hrel
      rcases hrel with rfl | rfl
      · exact h1 '\\' _ rfl (Or.inr rfl)
      · exact h2 _ _ rfl

/-- A separator at a place of a text. -/
def sepAt (f : Str) (i : Nat) : Bool := f[i]? == some '/' || f[i]? == some '\\'

theorem sepAt_of {x y : Str} {c : Char} {f : Str} (h : f = x ++ c :: y) (hc : IsSeparator c) : sepAt f x.length = true := by
  subst h
  rcases hc with rfl | rfl <;> simp [sepAt]

theorem plainPath_of {f : Str} (h1 : ∀ i ∈ List.range f.length, f[i]? = some ':' → i = 1)
    (h2 : ∀ i ∈ List.range f.length, i ≠ 0 → sepAt f i = true → sepAt f (i + 1) = false) : PlainPath f := by
  refine ⟨?_, ?_⟩
  · intro x y e
    exact h1 x.length (by rw [e]; simp) (by rw [e]; simp)
  · intro x c d y e hc hd
    have a := sepAt_of e hc
    have b : sepAt f (x ++ [c]).length = true := sepAt_of (x := x ++ [c]) (y := y) (by rw [e]; simp) hd
    by_cases hx : x = []
    · exact hx
    · have := h2 x.length (by rw [e]; simp) (by simpa using hx) a
      simp at b
      rw [b] at this
      cases this

theorem noDouble_of {f : Str} (h : ∀ i ∈ List.range f.length, sepAt f i = true → sepAt f (i + 1) = false) {x pat : Str} {c d : Char}
    (e : f = x ++ [c, d] ++ pat) (hc : IsSeparator c) : ¬ IsSeparator d := by
  intro hd
  have e1 : f = x ++ c :: (d :: pat) := by rw [e]; simp
  have b : sepAt f (x ++ [c]).length = true := sepAt_of (x := x ++ [c]) (y := pat) (by rw [e]; simp) hd
  have := h x.length (by rw [e]; simp) (sepAt_of e1 hc)
  simp at b
  rw [b] at this
  cases this

/-- C75 fails for a folder next to that of the makefile whose name continues the name of the latter: with the makefile in `c:/proj`,
`c:\proj2\*.c` yields the dependent `2\x.c` for the file `c:/proj2/x.c`. -/
theorem C75_prefix_refuted : ∃ (entries : Str → Str → List Str) (dir text f : Str), Found entries dir text [f] ∧ PlainPath f ∧
    ∃ r, files entries dir text = [r] ∧ ¬ Denotes dir r f := by
  refine ⟨fun p _ => if p = c!"c:/proj2" then [c!"x.c"] else [], c!"c:/proj", c!"c:\\proj2\\*.c", c!"c:/proj2/x.c", ?_, ?_,
    c!"2\\x.c", by decide +kernel, ?_⟩
  · exact Found.full (x := c!"c:\\proj2") (c := '\\') (pat := c!"*.c") ⟨rfl, by simp [IsSeparator], Or.inr ⟨c!"c:\\proj2", '\\', rfl, Or.inr rfl⟩⟩
      (fun h => h.2 _ _ rfl)
  · exact plainPath_of (by decide +kernel) (by decide +kernel)
  · rintro (⟨_, h⟩ | ⟨_, h⟩)
    · revert h; unfold SamePath; decide +kernel
    · revert h; unfold SamePath; decide +kernel

/-- C75 fails for the folder of the makefile itself: `c:\x\p*` in a makefile in `c:/x/proj` yields a dependent without a name. -/
theorem C75_own_folder_refuted : ∃ (entries : Str → Str → List Str) (dir text f : Str), Found entries dir text [f] ∧ PlainPath f ∧
    files entries dir text = [[]] ∧ ¬ Denotes dir [] f := by
  refine ⟨fun p _ => if p = c!"c:/x" then [c!"proj"] else [], c!"c:/x/proj", c!"c:\\x\\p*", c!"c:/x/proj", ?_, ?_, by decide +kernel, ?_⟩
  · exact Found.full (x := c!"c:\\x") (c := '\\') (pat := c!"p*") ⟨rfl, by simp [IsSeparator], Or.inr ⟨c!"c:\\x", '\\', rfl, Or.inr rfl⟩⟩
      (fun h => h.2 _ _ rfl)
  · exact plainPath_of (by decide +kernel) (by decide +kernel)
  · rintro (⟨_, h⟩ | ⟨_, h⟩)
    · revert h; unfold SamePath; decide +kernel
    · revert h; unfold SamePath; decide +kernel

/-- C75 fails if jom does not run in the folder of the makefile: `jom /F sub\Makefile` searches for `*.c` in `sub`, but the
dependent `x.c` it puts in place is looked for in the current directory. -/
theorem C75_elsewhere_refuted : ∃ (entries : Str → Str → List Str) (cwd dir text f : Str), Found entries dir text [f] ∧ PlainPath f ∧
    Relative text ∧ ∃ r, files entries dir text = [r] ∧ Denotes dir r f ∧ ¬ Denotes cwd r f := by
  refine ⟨fun p _ => if p = c!"c:/w/sub" then [c!"x.c"] else [], c!"c:/w", c!"c:/w/sub", c!"*.c", c!"c:/w/sub/x.c", ?_, ?_, ?_,
    c!"x.c", by decide +kernel, .relative ?_ ?_, ?_⟩
  · exact Found.here (by simp [IsSeparator])
  · exact plainPath_of (by decide +kernel) (by decide +kernel)
  · exact ⟨by simp [IsSeparator], by simp⟩
  · exact ⟨by simp [IsSeparator], by simp⟩
  · unfold SamePath; decide +kernel
  · rintro (⟨_, h⟩ | ⟨_, h⟩)
    · revert h; unfold SamePath; decide +kernel
    · revert h; unfold SamePath; decide +kernel

/-- No dependent that stands for a found file contains a `/`. -/
theorem files_native (entries : Str → Str → List Str) (dir text : Str) : ∀ r ∈ files entries dir text, '/' ∉ r := by
  intro r hr
  simp only [files, List.mem_map] at hr
  obtain ⟨e, _, rfl⟩ := hr
  simp only [shorten, Parse.toNative, List.mem_map, not_exists, not_and]
  intro c _
  by_cases h : c = '/'
  · simp [h]
  · simp [h]

namespace WildcardCase

/-- Two folders with files. -/
def entries (path _pattern : Str) : List Str :=
  if path = c!"c:/proj/src" then [c!"a.c", c!"b.c"] else if path = c!"d:/lib" then [c!"l.c"] else []

/-- A relative dependent. -/
example : files entries c!"c:/proj" c!"src\\*.c" = [c!"src\\a.c", c!"src\\b.c"] := by
  have h := (C75_relative entries (text := c!"src\\*.c") (dir := c!"c:/proj") (folder := c!"src\\") (pat := c!"*.c")
    ⟨rfl, by simp [IsSeparator], Or.inr ⟨c!"src", '\\', rfl, Or.inr rfl⟩⟩ ⟨by simp [IsSeparator], by simp⟩ (fun h => absurd h (by decide +kernel))
    (fun x c d h hc => noDouble_of (f := c!"src\\") (x := x) (pat := []) (by decide +kernel) (by rw [h]; simp) hc)).2 c!"src" '\\' rfl
  rw [h]
  decide +kernel

/-- `C75_relative` for a makefile in the root of a drive. -/
example : files (fun p pat => if p = c!"c:/" ∧ pat = c!"*.c" then [c!"x.c"] else []) c!"c:/" c!"*.c" = [c!"x.c"] := by
  refine ((C75_relative _ (text := c!"*.c") (dir := c!"c:/") (folder := []) (pat := c!"*.c")
    ⟨rfl, by simp [IsSeparator], Or.inl rfl⟩ ⟨by simp [IsSeparator], by simp⟩ (fun _ => by decide +kernel) (by simp)).1 rfl).trans ?_
  decide +kernel

/-- A full path outside the folder of the makefile, and one inside. -/
example : files entries c!"c:/proj" c!"d:\\lib\\*.c" = [c!"d:\\lib\\l.c"] ∧ files entries c!"c:/proj" c!"c:\\proj\\src\\*.c" = [c!"src\\a.c", c!"src\\b.c"] := by
  decide +kernel

/-- `C75_denotes_partial` for a full path. -/
example : List.Forall₂ (Denotes c!"c:/proj") (files entries c!"c:/proj" c!"d:\\lib\\*.c") [c!"d:/lib/l.c"] := by
  refine C75_denotes_partial (Found.full (x := c!"d:\\lib") (c := '\\') (pat := c!"*.c")
    ⟨rfl, by simp [IsSeparator], Or.inr ⟨c!"d:\\lib", '\\', rfl, Or.inr rfl⟩⟩ (fun h => h.2 _ _ rfl)) (by decide) (by decide +kernel) ?_ ?_ ?_
  · intro x c d pat h _ hc
    exact noDouble_of (by decide +kernel) h hc
  · intro f hf
    have : f = c!"d:/lib/l.c" := by
      exact List.mem_singleton.1 hf
    subst this
    exact plainPath_of (by decide +kernel) (by decide +kernel)
  · intro _ f hf x y e hx
    have : f = c!"d:/lib/l.c" := by
      exact List.mem_singleton.1 hf
    subst this
    have hl : x.length = 7 := by simpa [toLower] using congrArg List.length hx
    have : x = c!"d:/lib/l.c".take 7 := by rw [e, ← hl]; simp
    subst this
    exact absurd hx (by decide +kernel)

end WildcardCase

end Jom.Props
