/-
Properties of inline files: C44.
-/
import Verif.Props.CommandExec

namespace Jom.Spec.Exec
open Inference (InlineFile)
open Jom.Exec (FS)

/-- Writing a file. -/
def write (fs : FS) (name content : Str) : FS := fun x => if x = name then some content else fs x

/-- Inline files are created one after the other, under these names. A file without a name gets one that does not exist. -/
inductive Created : FS → List InlineFile → List Str → FS → Prop
  | nil (fs : FS) : Created fs [] [] fs
  | named {fs fs' : FS} {f : InlineFile} {files : List InlineFile} {names : List Str} (h : f.filename ≠ [])
      (ht : Created (write fs f.filename f.content) files names fs') : Created fs (f :: files) (f.filename :: names) fs'
  | unnamed {fs fs' : FS} {f : InlineFile} {files : List InlineFile} {names : List Str} {name : Str} (h : f.filename = [])
      (hn : fs name = none) (ht : Created (write fs name f.content) files names fs') :
      Created fs (f :: files) (name :: names) fs'

/-- The marks `<<` of a line are replaced by the texts, one after the other. -/
def fill : Str → List Str → Str
  | [], _ => []
  | c :: s, ns =>
    match ns with
    | [] => c :: s
    | n :: ns' =>
      if c = '<' then
        match s with
        | '<' :: s' => n ++ fill s' ns'
        | s => c :: fill s (n :: ns')
      else c :: fill s (n :: ns')

/-- A name as it appears in a command line: in quotes if there are blanks in it. -/
def inLine (name : Str) : Str := if ' ' ∈ name ∨ '\t' ∈ name then ['"'] ++ name ++ ['"'] else name

end Jom.Spec.Exec

namespace Jom.Props
open Jom.Exec Spec.Exec
open Inference (Command InlineFile)

theorem freshName_free {fs : FS} {cand : Nat → Str} : ∀ (n k : Nat) (r : Str × Nat), freshName fs cand n k = some r →
    fs r.1 = none := by
  intro n
  induction n with
  | zero => intro k r h; cases h
  | succ n ih =>
    intro k r h
    unfold freshName at h
    split at h
    · exact ih _ _ h
    · rename_i hc
      cases h
      simpa using hc

/-- The loop for a new name ends as soon as a candidate does not exist. -/
theorem freshName_total {fs : FS} {cand : Nat → Str} : ∀ (n k : Nat), fs (cand (k + n)) = none →
    ∃ r, freshName fs cand (n + 1) k = some r := by
  intro n
  induction n with
  | zero =>
    intro k h
    simp only [Nat.add_zero] at h
    exact ⟨_, by simp [freshName, h]; rfl⟩
  | succ n ih =>
    intro k h
    rw [freshName]
    split
    · exact ih (k + 1) (by rw [show k + 1 + n = k + (n + 1) by omega]; exact h)
    · exact ⟨_, rfl⟩

theorem quoteName_eq (name : Str) : quoteName name = inLine name := by
  unfold quoteName inLine
  simp only [Bool.or_eq_true, List.contains_iff_mem]

/-- What replaces the first mark. -/
def fillFirst (line name : Str) : Str :=
  match indexOf? c!"<<" line with
  | some (i + 1) => line.take (i + 1) ++ quoteName name ++ line.drop (i + 3)
  | _ => line

theorem createTemp_ok {writable : Str → Bool} {native : Str → Str} {cand : Nat → Str} {fuel : Nat} {f : InlineFile} {line line' : Str}
    {t t' : TempSt} (h : createTemp writable native cand fuel f line t = .ok (line', t')) :
    ∃ name, line' = fillFirst line (native name) ∧ t'.temps = t.temps ++ [(name, f.keep)] ∧
      t'.fs = write t.fs name f.content ∧ (f.filename ≠ [] → name = f.filename) ∧ (f.filename = [] → t.fs name = none) := by
  unfold createTemp at h
  by_cases hf : f.filename = []
  · simp only [hf, List.isEmpty_nil, if_true] at h
    cases hx : freshName t.fs cand fuel t.next with
    | none => rw [hx] at h; simp [bind, Except.bind] at h
    | some r =>
      rw [hx] at h
      simp only [bind, Except.bind] at h
      split at h
      · cases h
      · cases h
        exact ⟨r.1, rfl, rfl, rfl, fun h => absurd hf h, fun _ => freshName_free _ _ _ hx⟩
  · have : f.filename.isEmpty = false := by cases h : f.filename <;> simp_all
    simp only [this, Bool.false_eq_true, if_false, bind, Except.bind] at h
    split at h
    · cases h
    · cases h
      exact ⟨_, rfl, rfl, rfl, fun _ => rfl, fun h => absurd h hf⟩

theorem created_cons {fs fs' : FS} {f : InlineFile} {files : List InlineFile} {name : Str} {names : List Str}
    (h1 : f.filename ≠ [] → name = f.filename) (h2 : f.filename = [] → fs name = none)
    (h : Created (write fs name f.content) files names fs') : Created fs (f :: files) (name :: names) fs' := by
  by_cases hf : f.filename = []
  · exact .unnamed hf (h2 hf) h
  · have := h1 hf
    subst this
    exact .named hf h

theorem created_append {fs fs1 fs2 : FS} {a b : List InlineFile} {m n : List Str} (ha : Created fs a m fs1) :
    Created fs1 b n fs2 → Created fs (a ++ b) (m ++ n) fs2 := by
  induction ha with
  | nil => exact id
  | named h _ ih => exact fun hb => .named h (ih hb)
  | unnamed h hn _ ih => exact fun hb => .unnamed h hn (ih hb)

theorem createTempsOf_ok {writable : Str → Bool} {native : Str → Str} {cand : Nat → Str} {fuel : Nat} :
    ∀ (files : List InlineFile) (line line' : Str) (t t' : TempSt),
      createTempsOf writable native cand fuel files line t = .ok (line', t') →
      ∃ names, names.length = files.length ∧ Created t.fs files names t'.fs ∧
        t'.temps = t.temps ++ names.zip (files.map (·.keep)) ∧ line' = (names.map native).foldl fillFirst line := by
  intro files
  induction files with
  | nil => intro line line' t t' h; cases h; exact ⟨[], rfl, .nil _, by simp, rfl⟩
  | cons f files ih =>
    intro line line' t t' h
    unfold createTempsOf at h
    generalize hx : createTemp writable native cand fuel f line t = x at h
    cases x with
    | error e => simp [bind, Except.bind] at h
    | ok r =>
      obtain ⟨line1, t1⟩ := r
      simp only [bind, Except.bind] at h
      obtain ⟨name, e1, e2, e3, e4, e5⟩ := createTemp_ok hx
      obtain ⟨names, n1, n2, n3, n4⟩ := ih _ _ _ _ h
      refine ⟨name :: names, by simp [n1], created_cons e4 e5 (e3 ▸ n2), ?_, ?_⟩
      · rw [n3, e2]; simp
      · rw [n4, e1]; rfl

/-- **C44**, names and contents: the inline files of all commands are created one after the other, those without a name under
names that do not exist (`Spec.Exec.Created`); each is remembered with its KEEP flag. -/
theorem C44_created {writable : Str → Bool} {native : Str → Str} {cand : Nat → Str} {fuel : Nat} :
    ∀ (cmds cmds' : List Command) (t t' : TempSt), createTemps writable native cand fuel cmds t = .ok (cmds', t') →
      ∃ names, names.length = (cmds.flatMap (·.files)).length ∧ Created t.fs (cmds.flatMap (·.files)) names t'.fs ∧
        t'.temps = t.temps ++ names.zip ((cmds.flatMap (·.files)).map (·.keep)) := by
  intro cmds
  induction cmds with
  | nil => intro cmds' t t' h; cases h; exact ⟨[], rfl, .nil _, by simp⟩
  | cons c cmds ih =>
    intro cmds' t t' h
    unfold createTemps at h
    generalize hx : createTempsOf writable native cand fuel c.files c.cmd.line t = x at h
    cases x with
    | error e => simp [bind, Except.bind] at h
    | ok r =>
      obtain ⟨line, t1⟩ := r
      simp only [bind, Except.bind] at h
      generalize hy : createTemps writable native cand fuel cmds t1 = y at h
      cases y with
      | error e => simp at h
      | ok r =>
        obtain ⟨cmds2, t2⟩ := r
        simp only [Except.ok.injEq, Prod.mk.injEq] at h
        obtain ⟨rfl, rfl⟩ := h
        obtain ⟨m, m1, m2, m3, _⟩ := createTempsOf_ok _ _ _ _ _ hx
        obtain ⟨n, n1, n2, n3⟩ := ih _ _ _ hy
        refine ⟨m ++ n, by simp [m1, n1], by simpa using created_append m2 n2, ?_⟩
        rw [n3, m3]
        simp only [List.flatMap_cons, List.map_append]
        rw [List.zip_append (by simp [m1])]
        simp

/-- Files that exist are not changed unless they are named. -/
theorem created_frame {fs fs' : FS} {files : List InlineFile} {names : List Str} (h : Created fs files names fs') (x : Str)
    (hx : x ∉ names) : fs' x = fs x := by
  induction h with
  | nil => rfl
  | named h _ ih =>
    simp only [List.mem_cons, not_or] at hx
    rw [ih hx.2]; simp [write, hx.1]
  | unnamed h hn _ ih =>
    simp only [List.mem_cons, not_or] at hx
    rw [ih hx.2]; simp [write, hx.1]

theorem created_some {fs fs' : FS} {files : List InlineFile} {names : List Str} (h : Created fs files names fs') (x : Str)
    (hx : fs x ≠ none) : fs' x ≠ none := by
  induction h with
  | nil => exact hx
  | named h _ ih => apply ih; unfold write; split <;> simp [hx]
  | unnamed h hn _ ih => apply ih; unfold write; split <;> simp [hx]

/-- A file has its content as long as no later one has the same name. -/
theorem created_content {fs fs' : FS} : ∀ {files : List InlineFile} {names : List Str}, Created fs files names fs' →
    names.Nodup → ∀ (i : Nat) (f : InlineFile) (n : Str), files[i]? = some f → names[i]? = some n → fs' n = some f.content := by
  intro files names h
  induction h with
  | nil => intro _ i f n h; simp at h
  | named h ht ih =>
    intro hd i f n h1 h2
    obtain ⟨d1, d2⟩ := List.nodup_cons.1 hd
    cases i with
    | zero =>
      simp only [List.getElem?_cons_zero, Option.some.injEq] at h1 h2
      subst h1 h2
      rw [created_frame ht _ d1]; simp [write]
    | succ i => exact ih d2 i f n (by simpa using h1) (by simpa using h2)
  | unnamed h hn ht ih =>
    intro hd i f n h1 h2
    obtain ⟨d1, d2⟩ := List.nodup_cons.1 hd
    cases i with
    | zero =>
      simp only [List.getElem?_cons_zero, Option.some.injEq] at h1 h2
      subst h1 h2
      rw [created_frame ht _ d1]; simp [write]
    | succ i => exact ih d2 i f n (by simpa using h1) (by simpa using h2)

theorem created_fresh {fs fs' : FS} : ∀ {files : List InlineFile} {names : List Str}, Created fs files names fs' →
    (∀ f ∈ files, f.filename = []) → names.Nodup ∧ ∀ n ∈ names, fs n = none := by
  intro files names h
  induction h with
  | nil => intro _; simp
  | named h _ _ => intro hf; exact absurd (hf _ (by simp)) h
  | @unnamed fs fs' f files names name h hn ht ih =>
    intro hf
    obtain ⟨d, e⟩ := ih fun f hf' => hf f (by simp [hf'])
    refine ⟨List.nodup_cons.2 ⟨?_, d⟩, ?_⟩
    · intro hm
      have := e _ hm
      simp [write] at this
    · intro n hm
      rcases List.mem_cons.1 hm with rfl | hm
      · exact hn
      · have := e n hm
        unfold write at this
        split at this
        · cases this
        · exact this

/-- **C44**, files without names: their names are different from each other and from all files that existed, all other files stay
as they are, and each has its own content. -/
theorem C44_unnamed {writable : Str → Bool} {native : Str → Str} {cand : Nat → Str} {fuel : Nat} (cmds cmds' : List Command)
    (t t' : TempSt) (ht : t.temps = []) (h : createTemps writable native cand fuel cmds t = .ok (cmds', t'))
    (hf : ∀ f ∈ cmds.flatMap (·.files), f.filename = []) :
    (t'.temps.map (·.1)).Nodup ∧ (∀ n ∈ t'.temps.map (·.1), t.fs n = none) ∧
      (∀ x, x ∉ t'.temps.map (·.1) → t'.fs x = t.fs x) ∧
      t'.temps.length = (cmds.flatMap (·.files)).length ∧
      ∀ (i : Nat) (f : InlineFile) (n : Str × Bool), (cmds.flatMap (·.files))[i]? = some f → t'.temps[i]? = some n →
        t'.fs n.1 = some f.content ∧ n.2 = f.keep := by
  obtain ⟨names, h1, h2, h3⟩ := C44_created _ _ _ _ h
  have hm : t'.temps.map (·.1) = names := by
    rw [h3, ht]
    simp only [List.nil_append]
    rw [List.map_fst_zip (by simp [h1])]
  obtain ⟨d, e⟩ := created_fresh h2 hf
  rw [hm]
  refine ⟨d, e, fun x hx => created_frame h2 x hx, ?_, ?_⟩
  · rw [h3, ht]; simp [h1]
  · intro i f n hi hn
    rw [h3, ht, List.nil_append, List.getElem?_zip_eq_some] at hn
    obtain ⟨n1, n2⟩ := hn
    refine ⟨created_content h2 d i f _ hi n1, ?_⟩
    rw [List.getElem?_map, hi] at n2
    simpa using n2.symm

/-! Replacing the marks -/

/-- A `<` is always followed by another character. -/
def Lone : Str → Prop
  | [] => True
  | c :: p => (c = '<' → ∃ d q, p = d :: q ∧ d ≠ '<') ∧ Lone p

theorem lone_append {a n : Str} (ha : Lone a) (hn : '<' ∉ n) : Lone (a ++ n) := by
  induction a with
  | nil =>
    induction n with
    | nil => trivial
    | cons c n ih =>
      simp only [List.mem_cons, not_or] at hn
      exact ⟨fun e => absurd e.symm hn.1, ih hn.2⟩
  | cons c a ih =>
    refine ⟨fun e => ?_, ih ha.2⟩
    obtain ⟨d, q, e1, e2⟩ := ha.1 e
    exact ⟨d, q ++ n, by rw [e1]; rfl, e2⟩

theorem fill_nil (s : Str) : fill s [] = s := by cases s <;> rfl

theorem fill_skip : ∀ (p b : Str) (ns : List Str), Lone p → fill (p ++ b) ns = p ++ fill b ns := by
  intro p
  induction p with
  | nil => intro b ns _; rfl
  | cons c p ih =>
    intro b ns h
    cases ns with
    | nil => simp [fill_nil]
    | cons n ns =>
      by_cases hc : c = '<'
      · obtain ⟨d, q, e1, e2⟩ := h.1 hc
        have : fill (c :: (p ++ b)) (n :: ns) = c :: fill (p ++ b) (n :: ns) := by
          rw [fill.eq_def]
          simp only [hc, if_true]
          split
          · rename_i s' hs
            rw [e1] at hs
            simp only [List.cons_append, List.cons.injEq] at hs
            exact absurd hs.1 e2
          · rfl
        rw [List.cons_append, this, ih b _ h.2]; rfl
      · have : fill (c :: (p ++ b)) (n :: ns) = c :: fill (p ++ b) (n :: ns) := by
          rw [fill.eq_def]
          simp only [hc, if_false]
        rw [List.cons_append, this, ih b _ h.2]; rfl

theorem mark_at : ∀ {line : Str} {i : Nat}, indexOf? c!"<<" line = some i →
    ∃ b, line = line.take i ++ '<' :: '<' :: b ∧ line.drop (i + 2) = b ∧ Lone (line.take i) := by
  intro line
  induction line with
  | nil => intro i h; simp [indexOf?] at h
  | cons c line ih =>
    intro i h
    rw [indexOf?] at h
    split at h
    · rename_i hp
      cases h
      obtain ⟨t, ht⟩ := List.isPrefixOf_iff_prefix.1 hp
      refine ⟨t, ?_, ?_, trivial⟩
      · simpa using ht.symm
      · rw [← ht]; rfl
    · rename_i hp
      cases hx : indexOf? c!"<<" line with
      | none => rw [hx] at h; cases h
      | some j =>
        rw [hx] at h
        cases h
        obtain ⟨b, h1, h2, h3⟩ := ih hx
        refine ⟨b, ?_, ?_, ?_, ?_⟩
        · simp only [List.take_succ_cons, List.cons_append]; rw [← h1]
        · simpa using h2
        · rintro rfl
          cases line with
          | nil => simp [indexOf?] at hx
          | cons d q =>
            have hd : d ≠ '<' := by
              rintro rfl
              exact hp (by simp [List.isPrefixOf])
            cases j with
            | zero =>
              exfalso
              simp only [List.take_zero, List.nil_append, List.cons.injEq] at h1
              exact hd h1.1
            | succ j => exact ⟨d, q.take j, by simp, hd⟩
        · exact h3

theorem mark_none : ∀ {line : Str} (ns : List Str), indexOf? c!"<<" line = none → fill line ns = line := by
  intro line
  induction line with
  | nil => intro ns _; rfl
  | cons c line ih =>
    intro ns h
    rw [indexOf?] at h
    split at h
    · cases h
    · rename_i hp
      have hx : indexOf? c!"<<" line = none := by
        cases hx : indexOf? c!"<<" line with
        | none => rfl
        | some j => rw [hx] at h; cases h
      cases ns with
      | nil => rfl
      | cons n ns =>
        rw [fill.eq_def]
        simp only
        split
        · rename_i hc
          subst hc
          split
          · exact absurd (by simp [List.isPrefixOf]) hp
          · rw [ih _ hx]
        · rw [ih _ hx]

theorem mark_fill {b : Str} (n : Str) (ns : List Str) : fill ('<' :: '<' :: b) (n :: ns) = n ++ fill b ns := by
  rw [fill.eq_def]; simp

theorem inLine_noMark {n : Str} (h : '<' ∉ n) : '<' ∉ inLine n := by
  unfold inLine
  split
  · simp [h]
  · exact h

/-- Replacing the first mark again and again replaces all of them from left to right. -/
theorem fillFirst_all (names : List Str) (hn : ∀ n ∈ names, '<' ∉ n) :
    ∀ line : Str, ¬ (∃ b, line = '<' :: '<' :: b) → names.foldl fillFirst line = fill line (names.map inLine) := by
  induction names with
  | nil => intro line _; simp [fill_nil]
  | cons n names ih =>
    intro line hl
    simp only [List.foldl_cons, List.map_cons]
    have hn0 := inLine_noMark (hn n (by simp))
    have ih' := ih fun m hm => hn m (by simp [hm])
    cases hx : indexOf? c!"<<" line with
    | none =>
      have e : fillFirst line n = line := by unfold fillFirst; rw [hx]
      rw [e, ih' line hl, mark_none _ hx, mark_none _ hx]
    | some i =>
      obtain ⟨b, h1, h2, h3⟩ := mark_at hx
      cases i with
      | zero => exact absurd ⟨b, by simpa using h1⟩ hl
      | succ i =>
        have e : fillFirst line n = (line.take (i + 1) ++ inLine n) ++ b := by
          unfold fillFirst
          rw [hx, ← h2, ← quoteName_eq]
        rw [e]
        have hL := lone_append h3 hn0
        have hne : line.take (i + 1) ≠ [] := by
          intro h
          cases line with
          | nil => simp [indexOf?] at hx
          | cons c l => simp at h
        have := ih' ((line.take (i + 1) ++ inLine n) ++ b) (by
          rintro ⟨b', hb⟩
          cases ht : line.take (i + 1) with
          | nil => exact hne ht
          | cons c p =>
            rw [ht] at hb hL
            simp only [List.cons_append, List.cons.injEq] at hb hL
            obtain ⟨d, q, e1, e2⟩ := hL.1 hb.1
            rw [e1] at hb
            simp only [List.cons_append, List.cons.injEq] at hb
            exact e2 hb.2.1)
        rw [this, fill_skip _ _ _ hL]
        conv => rhs; rw [h1]
        rw [fill_skip _ _ _ h3, mark_fill]
        simp

/-- **C44**, the command line, as far as it holds: if the line of a command does not begin with `<<` and no name contains `<`,
the n-th `<<` is replaced by the n-th name (with native separators, in quotes if there are blanks in it). Missing: lines that
begin with `<<` (`C44_first_refuted`). -/
theorem C44_line_partial {writable : Str → Bool} {native : Str → Str} {cand : Nat → Str} {fuel : Nat}
    (files : List InlineFile) (line line' : Str) (t t' : TempSt)
    (h : createTempsOf writable native cand fuel files line t = .ok (line', t'))
    (hl : ¬ (∃ b, line = '<' :: '<' :: b)) (hn : ∀ n ∈ t'.temps, '<' ∉ native n.1) (ht : t.temps = []) :
    line' = fill line (t'.temps.map fun n => inLine (native n.1)) := by
  obtain ⟨names, n1, n2, n3, n4⟩ := createTempsOf_ok _ _ _ _ _ h
  have hm : t'.temps.map (fun n => n.1) = names := by
    rw [n3, ht, List.nil_append, List.map_fst_zip (by simp [n1])]
  rw [n4, fillFirst_all _ _ _ hl, ← hm]
  · simp [Function.comp_def]
  · intro n hx
    rw [← hm, List.map_map] at hx
    obtain ⟨m, hm1, rfl⟩ := List.mem_map.1 hx
    exact hn m hm1

theorem cleanup_eq (temps : List (Str × Bool)) (fs : FS) (x : Str) :
    cleanup temps fs x = if (x, false) ∈ temps then none else fs x := by
  induction temps with
  | nil => simp [cleanup]
  | cons f temps ih =>
    obtain ⟨n, k⟩ := f
    show (if k = true then cleanup temps fs else fun x => if x = n then none else cleanup temps fs x) x = _
    cases k
    · simp only [Bool.false_eq_true, if_false, List.mem_cons, Prod.mk.injEq, and_true]
      by_cases hx : x = n
      · simp [hx]
      · simp [hx, ih]
    · simp [ih]

/-- **C44**, removal: between the start of a target and the next removal by the same executor (at its next target with commands,
or when jom ends) the list of temporary files stays the same, whatever the commands do; the removal deletes exactly
the files without KEEP. -/
theorem C44_removed_partial {w : World} {o : Opts} {writable : Str → Bool} {native : Str → Str} {cand : Nat → Str} {fuel : Nat}
    {expand : List Command → List Command} {cmds : List Command} {fs fs1 : FS} {s s1 : St} (hc : cmds ≠ [])
    (h : start w o writable native cand fuel expand cmds fs s = .ok (s1, fs1)) (codes : List Nat) (fs2 : FS) :
    ∃ names : List Str, names.length = ((expand cmds).flatMap (·.files)).length ∧
      Created (fun x => if (x, false) ∈ s.temps then none else fs x) ((expand cmds).flatMap (·.files)) names fs1 ∧
      (∀ x, cleanup (ends w o codes s1).temps fs2 x =
        if (x, false) ∈ names.zip (((expand cmds).flatMap (·.files)).map (·.keep)) then none else fs2 x) := by
  unfold start at h
  rw [if_neg (by cases cmds <;> simp_all)] at h
  generalize hx : createTemps writable native cand fuel (expand cmds)
    { fs := cleanup s.temps fs, next := 0, temps := [] } = x at h
  cases x with
  | error e => simp [bind, Except.bind] at h
  | ok r =>
    obtain ⟨cmds', t⟩ := r
    simp only [bind, Except.bind, Except.ok.injEq, Prod.mk.injEq] at h
    obtain ⟨rfl, rfl⟩ := h
    obtain ⟨names, n1, n2, n3⟩ := C44_created _ _ _ _ hx
    refine ⟨names, n1, ?_, ?_⟩
    · have : cleanup s.temps fs = fun x => if (x, false) ∈ s.temps then none else fs x := by
        funext x; exact cleanup_eq _ _ _
      rw [← this]; exact n2
    · intro x
      have : ∀ s0 : St, s0.temps = t.temps → (ends w o codes (execute w o cmds' s0)).temps = t.temps := fun s0 h0 =>
        kept_ends (kept_temps w t.temps) o codes _ (kept_execute (kept_temps w t.temps) o _ _ h0)
      rw [this _ rfl, cleanup_eq, n3, List.nil_append]

/-- **C44**, round trip: if the inline files of the commands have no names, then after the removal the file system is as it was
before, plus the KEEP files with their contents. -/
theorem C44_round {writable : Str → Bool} {native : Str → Str} {cand : Nat → Str} {fuel : Nat} (cmds cmds' : List Command)
    (t t' : TempSt) (ht : t.temps = []) (h : createTemps writable native cand fuel cmds t = .ok (cmds', t'))
    (hf : ∀ f ∈ cmds.flatMap (·.files), f.filename = []) :
    (∀ x, (x, true) ∉ t'.temps → cleanup t'.temps t'.fs x = t.fs x) ∧
      (∀ x, (x, true) ∈ t'.temps → t.fs x = none ∧ ∃ f ∈ cmds.flatMap (·.files), f.keep = true ∧
        cleanup t'.temps t'.fs x = some f.content) := by
  obtain ⟨h1, h2, h3, h4, h5⟩ := C44_unnamed cmds cmds' t t' ht h hf
  refine ⟨fun x hx => ?_, fun x hx => ?_⟩
  · rw [cleanup_eq]
    by_cases hm : (x, false) ∈ t'.temps
    · rw [if_pos hm]
      exact (h2 x (List.mem_map.2 ⟨_, hm, rfl⟩)).symm
    · rw [if_neg hm]
      apply h3
      intro hx'
      obtain ⟨⟨n, k⟩, e1, e2⟩ := List.mem_map.1 hx'
      simp only at e2
      subst e2
      cases k
      · exact hm e1
      · exact hx e1
  · refine ⟨h2 x (List.mem_map.2 ⟨_, hx, rfl⟩), ?_⟩
    have hm : (x, false) ∉ t'.temps := by
      intro hm
      obtain ⟨i, hi⟩ := List.mem_iff_getElem?.1 hx
      obtain ⟨j, hj⟩ := List.mem_iff_getElem?.1 hm
      have hi1 : (t'.temps.map (·.1))[i]? = some x := by rw [List.getElem?_map, hi]; rfl
      have hj1 : (t'.temps.map (·.1))[j]? = some x := by rw [List.getElem?_map, hj]; rfl
      have hlt : i < (t'.temps.map (·.1)).length := by
        rcases Nat.lt_or_ge i (t'.temps.map (·.1)).length with h | h
        · exact h
        · rw [List.getElem?_eq_none h] at hi1; cases hi1
      have := (List.getElem?_inj hlt h1).1 (hi1.trans hj1.symm)
      subst this
      rw [hi] at hj
      cases hj
    rw [cleanup_eq, if_neg hm]
    obtain ⟨i, hi⟩ := List.mem_iff_getElem?.1 hx
    have hlt : i < t'.temps.length := by
      rcases Nat.lt_or_ge i t'.temps.length with h | h
      · exact h
      · rw [List.getElem?_eq_none h] at hi; cases hi
    rw [h4] at hlt
    have hg := List.getElem?_eq_getElem hlt
    obtain ⟨c1, c2⟩ := h5 i _ _ hg hi
    exact ⟨_, List.getElem_mem hlt, c2.symm, c1⟩

/-! Cases -/

/-- Candidates for names: `n0`, `n1`, … (one character for the number is enough here). -/
def exCand (k : Nat) : Str := ['n', Char.ofNat (48 + k)]

/-- A file system with one file `n0`. -/
def exFs : FS := fun x => if x = c!"n0" then some c!"old" else none

/-- A command with two files without names, and one with a name. -/
def exFiles : List Command :=
  [{ cmd := { line := c!"link @<< -l <<" }, files := [{ filename := [], keep := false, content := c!"a" },
      { filename := [], keep := true, content := c!"b" }] },
   { cmd := { line := c!"lib @<<" }, files := [{ filename := c!"my list", keep := false, content := c!"c" }] }]

/-- The existing file is not touched; each mark is replaced. -/
example : (createTemps (fun _ => true) id exCand 5 exFiles { fs := exFs, next := 0, temps := [] }).toOption.map
      (fun r => (r.1.map fun c => c.cmd.line, r.2.temps)) =
    some ([c!"link @n1 -l n2", c!"lib @\"my list\""], [(c!"n1", false), (c!"n2", true), (c!"my list", false)]) := by
  decide +kernel

/-- … and after the removal the KEEP file and the old file are there. -/
example : (createTemps (fun _ => true) id exCand 5 exFiles { fs := exFs, next := 0, temps := [] }).toOption.map
      (fun r => [c!"n0", c!"n1", c!"n2", c!"my list"].map fun x => (r.2.fs x, cleanup r.2.temps r.2.fs x)) =
    some [(some c!"old", some c!"old"), (some c!"a", none), (some c!"b", some c!"b"), (some c!"c", none)] := by
  decide +kernel

/-- A case for `C44_unnamed` and `C44_round`. -/
example : (createTemps (fun _ => true) id exCand 5 (exFiles.take 1) { fs := exFs, next := 0, temps := [] }).isOk = true ∧
    (∀ f ∈ (exFiles.take 1).flatMap (·.files), f.filename = []) := by decide +kernel

/-- A case for `C44_line_partial`. -/
example : fill c!"link @<< -l <<" [c!"n1", c!"n2"] = c!"link @n1 -l n2" := by decide +kernel

/-- C44 for the command line is false if the line begins with `<<`: the mark stays, and so do all later marks. -/
theorem C44_first_refuted : ∃ (files : List InlineFile) (line : Str),
    (createTempsOf (fun _ => true) id exCand 5 files line { fs := exFs, next := 0, temps := [] }).toOption.map (·.1) = some line ∧
      fill line [c!"n1", c!"n2"] ≠ line := by
  refine ⟨[{ filename := [], keep := false, content := c!"a" }, { filename := [], keep := false, content := c!"b" }],
    c!"<< <<", ?_⟩
  decide +kernel

/-- C44 is false about the time of removal: when the target is finished, a file without KEEP still exists. -/
theorem C44_late_refuted : ∃ (s : St) (fs : FS), start easy { } (fun _ => true) id exCand 5 id
      [{ cmd := { line := c!"rem @<<" }, files := [{ filename := [], keep := false, content := c!"a" }] }] exFs { env := [] } =
        .ok (s, fs) ∧ Ev.finished false ∈ s.log ∧ fs c!"n1" = some c!"a" := by
  refine ⟨_, _, rfl, ?_, ?_⟩ <;> decide +kernel

/-- … and because of that, a file that another executor has written in the meantime — even one with KEEP, whose target is still
being made — is removed, if both have the same name.  Executor 0 makes a target with the inline file `l` and is
finished. Executor 1 starts a target with the inline file `l`, with KEEP. Executor 0 starts the next target. Now `l` does
not exist although the command of executor 1 is running. -/
theorem C44_shared_refuted : ∃ (a1 b1 a2 : St) (f1 f2 f3 : FS),
    start easy { } (fun _ => true) id exCand 5 id
      [{ cmd := { line := c!"rem @<<" }, files := [{ filename := c!"l", keep := false, content := c!"a" }] }] exFs { env := [] } =
        .ok (a1, f1) ∧ a1.running = false ∧
    start easy { } (fun _ => true) id exCand 5 id
      [{ cmd := { line := c!"link @<<" }, files := [{ filename := c!"l", keep := true, content := c!"b" }] }] f1 { env := [] } =
        .ok (b1, f2) ∧ b1.running = true ∧ f2 c!"l" = some c!"b" ∧
    start easy { } (fun _ => true) id exCand 5 id [{ cmd := { line := c!"cl x.c" } }] f2 a1 = .ok (a2, f3) ∧ f3 c!"l" = none := by
  refine ⟨_, _, _, _, _, _, rfl, ?_, rfl, ?_, ?_, rfl, ?_⟩ <;> decide +kernel

end Jom.Props
