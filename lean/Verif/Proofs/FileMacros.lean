/-
Proofs about the expansion of file name macros.
-/
import Verif.Model.FileMacros
import Verif.Spec.FileMacros
import Verif.Proofs.MacroSem
import Verif.Proofs.PathLemmas
import Verif.Proofs.StrLemmas

namespace Jom.FileMacro

open Spec.FileMacro

theorem lastIndexOf?_split {c : Char} : ∀ {s : Str} {i : Nat}, lastIndexOf? c s = some i →
    s = s.take i ++ c :: s.drop (i + 1) ∧ c ∉ s.drop (i + 1) := by
  intro s
  induction s with
  | nil => intro i h; cases h
  | cons d s ih =>
    intro i h
    rw [lastIndexOf?] at h
    cases hx : lastIndexOf? c s with
    | some j =>
      rw [hx] at h
      cases h
      obtain ⟨h1, h2⟩ := ih hx
      refine ⟨?_, by simpa using h2⟩
      simp only [List.take_succ_cons, List.drop_succ_cons, List.cons_append]
      rw [← h1]
    | none =>
      rw [hx] at h
      simp only at h
      split at h
      · rename_i hc
        cases h
        have hc' : d = c := by simpa using hc
        refine ⟨by simp [hc'], ?_⟩
        simp only [Nat.zero_add, List.drop_succ_cons, List.drop_zero]
        intro hm
        obtain ⟨a, b, hab, hnb⟩ : ∃ a b, s = a ++ c :: b ∧ c ∉ b := by
          clear ih hx hc hc'
          induction s with
          | nil => simp at hm
          | cons e s ih2 =>
            by_cases he : c ∈ s
            · obtain ⟨a, b, h1, h2⟩ := ih2 he
              exact ⟨e :: a, b, by rw [h1]; rfl, h2⟩
            · rcases List.mem_cons.1 hm with rfl | h
              · exact ⟨[], s, rfl, he⟩
              · exact absurd h he
        rw [hab, lastIndexOf?_last hnb] at hx
        cases hx
      · cases h

theorem lastIndexOf?_eq_none {c : Char} : ∀ {s : Str}, lastIndexOf? c s = none → c ∉ s := by
  intro s
  induction s with
  | nil => intro _; simp
  | cons d s ih =>
    intro h
    rw [lastIndexOf?] at h
    cases hx : lastIndexOf? c s with
    | some j => rw [hx] at h; cases h
    | none =>
      rw [hx] at h
      simp only at h
      split at h
      · cases h
      · rename_i hc
        simp only [List.mem_cons, not_or]
        exact ⟨fun e => hc (by simp [e]), ih hx⟩

theorem dropWhile_ne {c : Char} : ∀ {b : Str} (a : Str), c ∉ b → (b ++ c :: a).dropWhile (· ≠ c) = c :: a := by
  intro b
  induction b with
  | nil => intro a _; simp
  | cons d b ih =>
    intro a h
    simp only [List.mem_cons, not_or] at h
    have : d ≠ c := fun e => h.1 e.symm
    simp [this]
    simpa using ih a h.2

theorem beforeLast_eq (c : Char) (s : Str) : beforeLast c s = (lastIndexOf? c s).map fun i => s.take i := by
  unfold beforeLast
  cases hx : lastIndexOf? c s with
  | none => simp [lastIndexOf?_eq_none hx]
  | some i =>
    obtain ⟨h1, h2⟩ := lastIndexOf?_split hx
    simp only [Option.map_some]
    generalize s.take i = a at h1 ⊢
    generalize s.drop (i + 1) = b at h1 h2
    clear hx
    subst h1
    simp only [List.mem_append, List.mem_cons, true_or, or_true, if_true, Option.some.injEq,
      List.reverse_append, List.reverse_cons, List.append_assoc, List.singleton_append]
    rw [dropWhile_ne _ (by simpa using h2)]
    simp

theorem stem_eq (name : Str) : stem name = (beforeLast '.' name).getD name := by
  rw [beforeLast_eq]
  unfold stem
  cases lastIndexOf? '.' name <;> rfl

theorem fileOf_eq (v : Str) : fileNameFromFilePath v = fileOf v := by
  have hsplit : ∃ pre, v = pre ++ fileOf v ∧ (pre = [] ∨ ∃ q c, pre = q ++ [c] ∧ (c = '/' ∨ c = '\\')) ∧
      '/' ∉ fileOf v ∧ '\\' ∉ fileOf v := by
    have hmem : ∀ c ∈ fileOf v, c ≠ '/' ∧ c ≠ '\\' := by
      intro c hc
      unfold fileOf at hc
      have := List.all_takeWhile (l := v.reverse) (p := fun c => c ≠ '/' && c ≠ '\\')
      have h2 := List.all_eq_true.1 this c (by simpa using hc)
      simpa using h2
    refine ⟨(v.reverse.dropWhile fun c => c ≠ '/' && c ≠ '\\').reverse, ?_, ?_, fun h => (hmem _ h).1 rfl, fun h => (hmem _ h).2 rfl⟩
    · unfold fileOf
      rw [← List.reverse_append, List.takeWhile_append_dropWhile, List.reverse_reverse]
    · cases hd : v.reverse.dropWhile fun c => c ≠ '/' && c ≠ '\\' with
      | nil => simp
      | cons c q =>
        right
        refine ⟨q.reverse, c, by simp, ?_⟩
        have := List.head?_dropWhile_not (fun c : Char => c ≠ '/' && c ≠ '\\') v.reverse
        rw [hd] at this
        simpa [Classical.or_iff_not_imp_left] using this
  obtain ⟨pre, h1, h2, h3, h4⟩ := hsplit
  generalize fileOf v = f at *
  subst h1
  unfold fileNameFromFilePath
  simp only [lastIndexOf?_append_not h3, lastIndexOf?_append_not h4]
  rcases h2 with rfl | ⟨q, c, rfl, rfl | rfl⟩
  · simp [lastIndexOf?]
  · have e1 : lastIndexOf? '/' (q ++ ['/']) = some q.length := lastIndexOf?_last (by simp) q
    have e2 : lastIndexOf? '\\' (q ++ ['/']) = lastIndexOf? '\\' q := lastIndexOf?_append_not (by simp) q
    rw [e1, e2]
    cases hq : lastIndexOf? '\\' q with
    | none => simp
    | some j =>
      have := lastIndexOf?_lt hq
      simp only
      rw [Nat.max_eq_left (by omega)]
      simp
  · have e1 : lastIndexOf? '\\' (q ++ ['\\']) = some q.length := lastIndexOf?_last (by simp) q
    have e2 : lastIndexOf? '/' (q ++ ['\\']) = lastIndexOf? '/' q := lastIndexOf?_append_not (by simp) q
    rw [e1, e2]
    cases hq : lastIndexOf? '/' q with
    | none => simp
    | some j =>
      have := lastIndexOf?_lt hq
      simp only
      rw [Nat.max_eq_right (by omega)]
      simp

theorem quoted_eq (v : Str) : Exec.quoteName v = quoted v := by
  unfold Exec.quoteName quoted
  simp only [Bool.or_eq_true, List.contains_iff_mem]
  rfl

theorem join_eq : ∀ vs : List Str, join vs = [' '].intercalate (vs.map quoted)
  | [] => rfl
  | [v] => by simp [join, quoted_eq, List.intercalate]
  | v :: w :: vs => by
    rw [join, join_eq (w :: vs), quoted_eq]
    · simp [List.intercalate]
    · simp

theorem modifier_part (p : Part) : ∃ c f, p.text = [c] ∧ modifier c = some f ∧ ∀ v, f v = p.of v := by
  cases p
  · refine ⟨'D', modD, rfl, rfl, fun v => ?_⟩
    show modD v = (beforeLast '\\' v).getD ['.']
    unfold modD
    rw [beforeLast_eq]
    cases lastIndexOf? '\\' v <;> rfl
  · refine ⟨'B', modB, rfl, rfl, fun v => ?_⟩
    show modB v = (fileOf v).takeWhile (· ≠ '.')
    unfold modB
    rw [fileOf_eq]
    congr 1
    funext c
    by_cases h : c = '.' <;> simp [h]
  · exact ⟨'F', modF, rfl, rfl, fun v => fileOf_eq v⟩
  · exact ⟨'R', modR, rfl, rfl, fun v => stem_eq v⟩

/-- The target of the model. -/
def tgt (t : Target) : Tgt := { name := t.name, deps := t.deps, time := t.time }

/-- The dependent a command is executed for: its number and its name. -/
def DepIs (t : Target) (dep : Option Nat) (d : Option Str) : Prop :=
  (dep = none ∧ d = none) ∨ ∃ i x, dep = some i ∧ d = some x ∧ t.deps[i]? = some x

theorem candidates_eq {t : Target} {dep : Option Nat} {d : Option Str} (h : DepIs t dep d) :
    candidates (tgt t) dep false = (match d with | none => t.deps | some d => [d]) := by
  rcases h with ⟨rfl, rfl⟩ | ⟨i, x, rfl, rfl, hx⟩
  · rfl
  · simp [candidates, tgt, hx]

/-- Macros that refer to dependents are not allowed in dependents. -/
def Allowed (fb : Bool) (k : Kind) : Prop := fb = true → k = .target ∨ k = .stem

theorem macroValues_eq {t : Target} {dep : Option Nat} {d : Option Str} (h : DepIs t dep d) (fb : Bool) (k : Kind) (tail : Str)
    (ha : Allowed fb k) (hk : k = .stem → tail.head? ≠ some '*') :
    macroValues (tgt t) dep fb (k.text ++ tail) = .ok (k.names t d, k.text.length) := by
  cases k
  · rfl
  · have := hk rfl
    simp [macroValues, Kind.text, Kind.names, this, stem_eq, tgt]
  · have := candidates_eq h
    have hf : fb = false := by
      cases fb
      · rfl
      · rcases ha rfl with h | h <;> cases h
    subst hf
    simp [macroValues, Kind.text, Kind.names, this]
    cases d <;> rfl
  · have := candidates_eq h
    have hf : fb = false := by
      cases fb
      · rfl
      · rcases ha rfl with h | h <;> cases h
    subst hf
    simp [macroValues, Kind.text, Kind.names, this]
    cases d <;> rfl

theorem scanSubst_plain : ∀ (a rest : Str) (i : Nat) (eq : Option Nat) (qs : List Nat),
    (∀ c ∈ a, c ≠ '=' ∧ c ≠ ')' ∧ c ≠ '^') → scanSubst (a ++ rest) i eq false qs = scanSubst rest (i + a.length) eq false qs := by
  intro a
  induction a with
  | nil => intro rest i eq qs _; rfl
  | cons c a ih =>
    intro rest i eq qs h
    obtain ⟨h1, h2, h3⟩ := h c (by simp)
    rw [List.cons_append, scanSubst]
    simp only [beq_iff_eq, h1, h2, h3, if_false, Bool.not_false, Bool.and_true]
    rw [ih _ _ _ _ fun c hc => h c (by simp [hc])]
    congr 1
    simp; omega

theorem parseSubst_plain (a b rest : Str) (h : ∀ c ∈ a ++ b, c ≠ '=' ∧ c ≠ ')' ∧ c ≠ '^') :
    parseSubst (a ++ '=' :: (b ++ ')' :: rest)) = .ok ({ before := a, after := b }, rest) := by
  unfold parseSubst
  rw [scanSubst_plain a _ _ _ _ fun c hc => h c (by simp [hc]), scanSubst]
  simp only [beq_self_eq_true, if_true]
  rw [scanSubst_plain b _ _ _ _ fun c hc => h c (by simp [hc]), scanSubst]
  have : (')' == '=') = false := rfl
  simp only [this, Bool.false_eq_true, if_false, beq_self_eq_true, Bool.not_false, Bool.and_self, if_true, Nat.zero_add,
    List.foldl_nil]
  simp only [Except.ok.injEq, Prod.mk.injEq, Substitution.mk.injEq]
  refine ⟨⟨by simp, ?_⟩, ?_⟩
  · rw [show a.length + 1 = (a ++ ['=']).length by simp, show a ++ '=' :: (b ++ ')' :: rest) = (a ++ ['=']) ++ (b ++ ')' :: rest) by simp,
      List.drop_left]
    rw [show (a ++ ['=']).length + b.length - a.length - 1 = b.length by simp; omega]
    simp
  · rw [show a ++ '=' :: (b ++ ')' :: rest) = (a ++ '=' :: b ++ [')']) ++ rest by simp]
    rw [List.drop_left' (by simp; omega)]

theorem map_applySubst (a b : Str) (vs : List Str) :
    vs.map (applySubst { before := a, after := b }) = vs.map (replaceAll a b) := rfl

theorem modifier_none : modifier ':' = none ∧ modifier ')' = none := by decide

theorem drop_at (out x : Str) (n k : Nat) (h : x.length = k) (tail : Str) (hn : n = out.length + k) :
    (out ++ (x ++ tail)).drop n = tail := by
  subst hn
  rw [← List.append_assoc, List.drop_left' (by simp [h])]

theorem take_at (out x : Str) : (out ++ x).take out.length = out := by simp

/-- One replacement gives the meaning of the reference. -/
theorem replaceAt_eq {t : Target} {dep : Option Nat} {d : Option Str} (h : DepIs t dep d) (fb : Bool) (m : Char) (r : Ref) (out tail : Str)
    (ha : Allowed fb r.kind)
    (hp : r.Plain) (h1 : r = .bare .stem → tail.head? ≠ some '*')
    (h2 : ∀ k, r = .paren k none none → r.values t d = [] ∨ tail = [])
    (h3 : ∀ k p s, r = .paren k p s → r.values t d = [] → p = none ∧ s = none) :
    replaceAt (tgt t) dep fb (out ++ m :: (r.text ++ tail)) out.length = .ok (some (out ++ (r.meaning t d ++ tail))) := by
  have hd : (out ++ m :: (r.text ++ tail)).drop (out.length + 1) = r.text ++ tail := by
    rw [show out ++ m :: (r.text ++ tail) = (out ++ [m]) ++ (r.text ++ tail) by simp, List.drop_left' (by simp)]
  have ht : (out ++ m :: (r.text ++ tail)).take out.length = out := take_at _ _
  cases r with
  | bare k =>
    have hv := macroValues_eq h fb k tail ha fun e => h1 (by rw [e])
    have hk : ∃ c k', k.text = c :: k' ∧ c ≠ '(' := by cases k <;> exact ⟨_, _, rfl, by decide⟩
    obtain ⟨c, k', hk1, hk2⟩ := hk
    have hdr : (out ++ m :: ((Ref.bare k).text ++ tail)).drop (out.length + k.text.length + 1) = tail := by
      rw [show out ++ m :: ((Ref.bare k).text ++ tail) = (out ++ m :: k.text) ++ tail by simp [Ref.text]]
      rw [List.drop_left' (by simp; omega)]
    unfold replaceAt
    rw [hd]
    have hx : (Ref.bare k).text ++ tail = c :: (k' ++ tail) := by simp [Ref.text, hk1]
    rw [hx] at hdr ⊢
    rw [hk1] at hv
    rw [List.cons_append] at hv
    simp only [hk2, if_false, hv, bind, Except.bind]
    rw [hx] at ht
    rw [← hk1, ht, hdr]
    unfold Ref.meaning Ref.values
    rw [join_eq]
    split
    · rename_i he
      have : k.names t d = [] := by simpa using he
      simp [this, List.intercalate]
    · simp
  | paren k p s =>
    have hstem : k = .stem → (optText p s ++ ')' :: tail).head? ≠ some '*' := by
      intro _
      cases p with
      | some p => cases p <;> simp [optText, Part.text]
      | none => cases s with
        | none => simp [optText, substText]
        | some ab => obtain ⟨a, b⟩ := ab; simp [optText, substText]
    have hv := macroValues_eq h fb k (optText p s ++ ')' :: tail) ha hstem
    unfold replaceAt
    rw [hd]
    have hx : (Ref.paren k p s).text ++ tail = '(' :: (k.text ++ (optText p s ++ ')' :: tail)) := by simp [Ref.text]
    rw [hx] at ht ⊢
    simp only [if_true, hv, bind, Except.bind, ht]
    by_cases he : k.names t d = []
    · have hval : (Ref.paren k p s).values t d = [] := by simp [Ref.values, he]
      obtain ⟨rfl, rfl⟩ := h3 k p s rfl hval
      have hm : (Ref.paren k none none).meaning t d = [] := by simp [Ref.meaning, hval, List.intercalate]
      rw [hm, he]
      simp only [List.isEmpty_nil, if_true, List.nil_append]
      have : (out ++ m :: '(' :: (k.text ++ (optText none none ++ ')' :: tail))).drop (out.length + k.text.length + 3) = tail := by
        rw [show out ++ m :: '(' :: (k.text ++ (optText none none ++ ')' :: tail)) = (out ++ m :: '(' :: (k.text ++ [')'])) ++ tail by
          simp [optText, substText]]
        rw [List.drop_left' (by simp; omega)]
      rw [this]
    · have he' : (k.names t d).isEmpty = false := by cases hn : k.names t d <;> simp_all
      simp only [he', Bool.false_eq_true, if_false, List.drop_left]
      cases p with
      | some p =>
        obtain ⟨c, f, e1, e2, e3⟩ := modifier_part p
        have hf : (k.names t d).map f = (k.names t d).map p.of := by congr 1; funext v; exact e3 v
        cases s with
        | none =>
          have ho : optText (some p) none ++ ')' :: tail = c :: ')' :: tail := by simp [optText, e1, substText]
          rw [ho]
          simp only [e2]
          have : (out ++ m :: '(' :: (k.text ++ c :: ')' :: tail)).drop (out.length + k.text.length + 4) = tail := by
            rw [show out ++ m :: '(' :: (k.text ++ c :: ')' :: tail) = (out ++ m :: '(' :: (k.text ++ [c, ')'])) ++ tail by simp]
            rw [List.drop_left' (by simp; omega)]
          rw [this, hf, join_eq]
          simp [Ref.meaning, Ref.values, partOf, substituted]
        | some ab =>
          obtain ⟨a, b⟩ := ab
          have ho : optText (some p) (some (a, b)) ++ ')' :: tail = c :: ':' :: (a ++ '=' :: (b ++ ')' :: tail)) := by
            simp [optText, e1, substText]
          rw [ho]
          simp only [e2]
          rw [parseSubst_plain a b tail hp]
          simp only
          rw [hf, join_eq, map_applySubst]
          simp [Ref.meaning, Ref.values, partOf, substituted]
          rfl
      | none =>
        cases s with
        | none =>
          have ho : optText none none ++ ')' :: tail = ')' :: tail := by simp [optText, substText]
          rw [ho]
          simp only [modifier_none.2, show (')' = ':') = False by simp, if_false, if_true]
          have htail : tail = [] := by
            rcases h2 k rfl with h | h
            · simp [Ref.values, he] at h
            · exact h
          subst htail
          rw [List.drop_of_length_le (by simp; omega), join_eq]
          simp [Ref.meaning, Ref.values, partOf, substituted]
        | some ab =>
          obtain ⟨a, b⟩ := ab
          have ho : optText none (some (a, b)) ++ ')' :: tail = ':' :: (a ++ '=' :: (b ++ ')' :: tail)) := by
            simp [optText, substText]
          rw [ho]
          simp only [modifier_none.1, if_true]
          rw [parseSubst_plain a b tail hp]
          simp only
          rw [join_eq, map_applySubst]
          simp [Ref.meaning, Ref.values, partOf, substituted]

/-- The number of references. -/
def refs : List Piece → Nat
  | [] => 0
  | .text _ :: ps => refs ps
  | .ref _ :: ps => refs ps + 1

/-- The loop gives the meaning of the pieces. -/
theorem loop_eq {t : Target} {dep : Option Nat} {d : Option Str} (h : DepIs t dep d) (fb : Bool) :
    ∀ (ps : List Piece) (out : Str) (idx n : Nat), (∀ r, .ref r ∈ ps → Allowed fb r.kind) → Fine magicEscape t d out ps → magicEscape ∉ out →
      (idx ≤ out.length ∨ (idx = out.length + 1 ∧ (render magicEscape ps).head? ≠ some magicEscape)) → refs ps < n →
      loop (tgt t) dep fb n (out ++ render magicEscape ps) idx = .ok (out ++ meaning t d ps) := by
  intro ps
  induction ps with
  | nil =>
    intro out idx n _ _ hm hi hn
    obtain ⟨n, rfl⟩ : ∃ k, n = k + 1 := ⟨n - 1, by simp [refs] at hn; omega⟩
    simp only [render, meaning, List.append_nil]
    rw [loop]
    have : indexOfFrom? [magicEscape] out idx = none := by
      unfold indexOfFrom?
      split
      · rw [indexOf?_char_none fun hx => hm (List.mem_of_mem_drop hx)]; rfl
      · rfl
    rw [this]
  | cons p ps ih =>
    intro out idx n ha hf hm hi hn
    have ha' : ∀ r, .ref r ∈ ps → Allowed fb r.kind := fun r hr => ha r (by simp [hr])
    cases p with
    | text s =>
      obtain ⟨hs, hf⟩ := hf
      simp only [render, meaning]
      rw [← List.append_assoc, ← List.append_assoc]
      refine ih (out ++ s) idx n ha' hf (by simp [hm, hs]) ?_ hn
      rcases hi with hi | ⟨hi, hh⟩
      · left; simp; omega
      · cases s with
        | nil => right; simp only [List.append_nil]; exact ⟨hi, by simpa [render] using hh⟩
        | cons c s => left; simp; omega
    | ref r =>
      obtain ⟨n, rfl⟩ : ∃ k, n = k + 1 := ⟨n - 1, by simp [refs] at hn; omega⟩
      obtain ⟨f1, f2, f3, f4, f5, f6, f7, f8⟩ := hf
      have hi' : idx ≤ out.length := by
        rcases hi with hi | ⟨_, hh⟩
        · exact hi
        · simp [render] at hh
      simp only [render, meaning]
      rw [loop]
      have hidx : indexOfFrom? [magicEscape] (out ++ magicEscape :: (r.text ++ render magicEscape ps)) idx = some out.length := by
        unfold indexOfFrom?
        rw [if_pos (by simp; omega), List.drop_append_of_le_length hi',
          indexOf?_char fun hx => hm (List.mem_of_mem_drop hx)]
        simp; omega
      rw [hidx]
      have hcar : ¬ (0 < out.length ∧ (out ++ magicEscape :: (r.text ++ render magicEscape ps))[out.length - 1]? = some '^') := by
        rintro ⟨h0, hc⟩
        rw [List.getElem?_append_left (by omega)] at hc
        exact f1 (by rw [List.getLast?_eq_getElem?]; exact hc)
      simp only [hcar, if_false]
      rw [replaceAt_eq h fb magicEscape r out _ (ha r (by simp)) f2 f4 f5 f6]
      simp only [bind, Except.bind]
      rw [← List.append_assoc, ← List.append_assoc]
      refine ih _ _ _ ha' f8 (by simp [hm, f3]) ?_ (by simp [refs] at hn; omega)
      by_cases hr : r.meaning t d = []
      · right; exact ⟨by simp [hr], f7 hr⟩
      · left
        have := List.length_pos_iff.2 hr
        simp; omega

/-- The macro expansion before leaves references alone, except for the mark. -/
theorem expand_dollar (mac : Macros) (depLine : Bool) : ∀ ps : List Piece, (∀ s, .text s ∈ ps → '$' ∉ s) →
    (∀ r, .ref r ∈ ps → r.Plain) →
    expandU mac depLine [] (render '$' ps) = .ok (render magicEscape ps) := by
  have lit : ∀ (s rest out : Str), '$' ∉ s → expandU mac depLine [] rest = .ok out →
      expandU mac depLine [] (s ++ rest) = .ok (s ++ out) := by
    intro s
    induction s with
    | nil => intro rest out _ h; exact h
    | cons c s ih =>
      intro rest out hs h
      simp only [List.mem_cons, not_or] at hs
      rw [List.cons_append, expandU_lit _ _ _ _ _ fun e => hs.1 e.symm, ih rest out hs.2 h]
      rfl
  intro ps
  induction ps with
  | nil => intro _ _; simp [render]
  | cons p ps ih =>
    intro hs hr
    have ih' := ih (fun s h => hs s (by simp [h])) fun r h => hr r (by simp [h])
    cases p with
    | text s => exact lit s _ _ (hs s (by simp)) ih'
    | ref r =>
      cases r with
      | bare k =>
        cases k
        · simp only [render, Ref.text, Kind.text, List.cons_append, List.nil_append]
          rw [expandU_fileChar _ _ _ _ _ (by decide), ih']; rfl
        · simp only [render, Ref.text, Kind.text, List.cons_append, List.nil_append]
          rw [expandU_fileChar _ _ _ _ _ (by decide), ih']; rfl
        · simp only [render, Ref.text, Kind.text, List.cons_append, List.nil_append]
          rw [expandU_fileChar _ _ _ _ _ (by decide), expandU_lit _ _ _ _ _ (by decide), ih']; rfl
        · simp only [render, Ref.text, Kind.text, List.cons_append, List.nil_append]
          rw [expandU_fileChar _ _ _ _ _ (by decide), ih']; rfl
      | paren k p s =>
        have hpl := hr _ (by simp : Piece.ref (.paren k p s) ∈ Piece.ref (.paren k p s) :: ps)
        have e : ∀ m : Char, render m (Piece.ref (.paren k p s) :: ps) =
            m :: '(' :: ((k.text ++ optText p s) ++ ')' :: render m ps) := by
          intro m; simp [render, Ref.text]
        rw [e, e, expandU_fileParen, ih']
        · rfl
        · cases k <;> exact ⟨_, _, rfl, by decide⟩
        · have hk : ')' ∉ k.text := by cases k <;> decide
          have hp : ')' ∉ (p.map Part.text).getD [] := by
            cases p with
            | none => simp
            | some p => cases p <;> simp [Part.text]
          have hsub : ')' ∉ substText s := by
            cases s with
            | none => simp [substText]
            | some ab =>
              obtain ⟨a, b⟩ := ab
              simp only [substText, List.mem_cons, List.mem_append, not_or]
              exact ⟨by decide, fun h => (hpl _ (List.mem_append_left _ h)).2.1 rfl, by decide,
                fun h => (hpl _ (List.mem_append_right _ h)).2.1 rfl⟩
          simp [optText, hk, hsub]
          simpa using hp

end Jom.FileMacro
