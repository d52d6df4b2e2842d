/- C111: the option /U shows the inline files of a target. -/
import Verif.Model.ShowInline
import Verif.Spec.ShowInline
import Verif.Props.InlineFiles

namespace Jom.Props
open Jom.Exec Spec.Exec Spec.ShowInline
open Inference (Command InlineFile)

/-- The names with the contents. -/
abbrev named (names : List Str) (files : List InlineFile) : List (Str × Str) := names.zip (files.map (·.content))

theorem put_clean {b : Bool} {s : Str} (h0 : b = true ∨ Char.ofNat 0 ∉ s) : put b s = s := by
  unfold put
  split
  · rfl
  · next hb =>
    have h := h0.resolve_left hb
    clear h0 hb
    induction s with
    | nil => rfl
    | cons c s ih =>
      obtain ⟨h1, h2⟩ := not_or.1 (mt List.mem_cons.2 h)
      rw [List.takeWhile_cons_of_pos (by simpa using fun hc => h1 hc.symm), ih h2]

theorem display_append (a b : List (Str × Str)) : display (a ++ b) = display a ++ display b := by
  induction a with
  | nil => rfl
  | cons x a ih => simp only [List.cons_append, display, ih, List.append_assoc]

theorem showFile_clean {b : Bool} {name content : Str} (h : b = true ∨ NoNull (name, content)) : showFile b name content = display [(name, content)] := by
  unfold showFile
  rw [put_clean (h.imp id (·.1)), put_clean (h.imp id (·.2)), put_clean (s := c!"---") (Or.inr (by decide)), put_clean (s := c!"---\n") (Or.inr (by decide)),
    put_clean (s := c!"---end of inline file---\n") (Or.inr (by decide))]
  simp [display, endMark]

/-- What is shown, whether the characters are all printed or not. -/
def printed (b : Bool) (files : List (Str × Str)) : Str := files.flatMap fun f => showFile b f.1 f.2

theorem printed_clean {b : Bool} {files : List (Str × Str)} (h : b = true ∨ ∀ f ∈ files, NoNull f) : printed b files = display files := by
  induction files with
  | nil => rfl
  | cons f files ih =>
    rw [show f :: files = [f] ++ files from rfl, display_append, ← ih (h.imp id fun h f hf => h f (List.mem_cons_of_mem _ hf))]
    simp only [printed, List.flatMap_cons, List.flatMap_append, List.flatMap_nil, List.append_nil]
    rw [showFile_clean (h.imp id fun h => h f List.mem_cons_self)]

section

variable {dump b : Bool} {writable : Str → Bool} {native : Str → Str} {cand : Nat → Str} {fuel : Nat}

/-- What a call has done, compared with the same call without /U. -/
def Does {α : Type} (dump b : Bool) (files : List InlineFile) (t : TempSt) (out : Str) (r : Except (TempErr × Str) (α × TempSt × Str)) (plain : Except TempErr (α × TempSt)) :
    Prop :=
  match r with
  | .ok (x, t', out') => plain = .ok (x, t') ∧ ∃ names, names.length = files.length ∧ Created t.fs files names t'.fs ∧
      t'.temps = t.temps ++ names.zip (files.map (·.keep)) ∧ out' = out ++ if dump then printed b (named names files) else []
  | .error (e, out') => plain = .error e ∧ ∃ k < files.length, ∃ names fs, names.length = k ∧ Created t.fs (files.take k) names fs ∧
      out' = out ++ if dump then printed b (named names (files.take k)) else []

theorem createTempU_plain (f : InlineFile) (line : Str) (t : TempSt) (out : Str) :
    (∃ line' t' name, createTempU dump b writable native cand fuel f line t out = .ok (line', t', out ++ if dump then showFile b name f.content else []) ∧
      createTemp writable native cand fuel f line t = .ok (line', t') ∧ Created t.fs [f] [name] t'.fs ∧ t'.temps = t.temps ++ [(name, f.keep)]) ∨
    ∃ e, createTempU dump b writable native cand fuel f line t out = .error (e, out) ∧ createTemp writable native cand fuel f line t = .error e := by
  have hcr : ∀ {line' : Str} {t' : TempSt} {name : Str} {next : Nat}, createTemp writable native cand fuel f line t = .ok (line', t') →
      t' = { fs := fun x => if x = name then some f.content else t.fs x, next := next, temps := t.temps ++ [(name, f.keep)] } →
      Created t.fs [f] [name] t'.fs := by
    intro line' t' name next h ht
    obtain ⟨n, _, h2, h3, h4, h5⟩ := createTemp_ok h
    have hn : n = name := by
      rw [ht] at h2
      simpa using h2.symm
    subst hn
    exact created_cons h4 h5 (h3 ▸ .nil _)
  have hout : ∀ name, (if dump = true then out ++ showFile b name f.content else out) = out ++ if dump = true then showFile b name f.content else [] := by
    intro name
    split <;> simp
  by_cases hf : f.filename.isEmpty = true
  · cases hx : freshName t.fs cand fuel t.next with
    | none =>
      refine Or.inr ⟨.noName, ?_, ?_⟩
      · simp [createTempU, hf, hx]
      · simp [createTemp, hf, hx, bind, Except.bind]
    | some r =>
      obtain ⟨name, next⟩ := r
      by_cases hw : writable name = true
      · have h2 : ∃ line', createTemp writable native cand fuel f line t = .ok (line', { fs := fun x => if x = name then some f.content else t.fs x, next := next, temps := t.temps ++ [(name, f.keep)] }) ∧
            createTempU dump b writable native cand fuel f line t out = .ok (line', { fs := fun x => if x = name then some f.content else t.fs x, next := next, temps := t.temps ++ [(name, f.keep)] }, if dump = true then out ++ showFile b name f.content else out) := by
          refine ⟨fillFirst line (native name), ?_, ?_⟩
          · simp only [createTemp, hf, if_true, hx, bind, Except.bind, hw, Bool.not_true, Bool.false_eq_true, if_false]
            rfl
          · simp only [createTempU, hf, if_true, hx, hw, Bool.not_true, Bool.false_eq_true, if_false]
            rfl
        obtain ⟨line', h3, h4⟩ := h2
        exact Or.inl ⟨line', _, name, by rw [h4, hout], h3, hcr h3 rfl, rfl⟩
      · refine Or.inr ⟨.cannotOpen name, ?_, ?_⟩
        · simp [createTempU, hf, hx, hw]
        · simp [createTemp, hf, hx, hw, bind, Except.bind]
  · by_cases hw : writable f.filename = true
    · have h2 : ∃ line', createTemp writable native cand fuel f line t = .ok (line', { fs := fun x => if x = f.filename then some f.content else t.fs x, next := t.next, temps := t.temps ++ [(f.filename, f.keep)] }) ∧
          createTempU dump b writable native cand fuel f line t out = .ok (line', { fs := fun x => if x = f.filename then some f.content else t.fs x, next := t.next, temps := t.temps ++ [(f.filename, f.keep)] }, if dump = true then out ++ showFile b f.filename f.content else out) := by
        refine ⟨fillFirst line (native f.filename), ?_, ?_⟩
        · simp only [createTemp, hf, if_false, bind, Except.bind, hw, Bool.not_true, Bool.false_eq_true]
          rfl
        · simp only [createTempU, hf, if_false, hw, Bool.not_true, Bool.false_eq_true]
          rfl
      obtain ⟨line', h3, h4⟩ := h2
      exact Or.inl ⟨line', _, f.filename, by rw [h4, hout], h3, hcr h3 rfl, rfl⟩
    · refine Or.inr ⟨.cannotOpen f.filename, ?_, ?_⟩
      · simp [createTempU, hf, hw]
      · simp [createTemp, hf, hw, bind, Except.bind]

theorem printed_append (b : Bool) (x y : List (Str × Str)) : printed b (x ++ y) = printed b x ++ printed b y := by
  simp [printed]

/-- First some files, then others. -/
theorem Does.append {α β : Type} {files more : List InlineFile} {t t' : TempSt} {out out' : Str} {x : α}
    {r : Except (TempErr × Str) (β × TempSt × Str)} {plain1 : Except TempErr (α × TempSt)} {plain : Except TempErr (β × TempSt)}
    (h1 : Does dump b files t out (.ok (x, t', out')) plain1) (h2 : Does dump b more t' out' r plain) :
    Does dump b (files ++ more) t out r plain := by
  obtain ⟨_, names, hl, hc, ht, ho⟩ := h1
  subst ho
  cases r with
  | ok y =>
    obtain ⟨y, t2, out2⟩ := y
    obtain ⟨h3, names2, hl2, hc2, ht2, ho2⟩ := h2
    refine ⟨h3, names ++ names2, by simp [hl, hl2], created_append hc hc2, ?_, ?_⟩
    · rw [ht2, ht, List.map_append, List.zip_append (by simp [hl]), List.append_assoc]
    rw [ho2, named, named, named, List.map_append, List.zip_append (by simp [hl]), printed_append]
    split <;> simp
  | error y =>
    obtain ⟨e, out2⟩ := y
    obtain ⟨h3, k, hk, names2, fs, hl2, hc2, ho2⟩ := h2
    refine ⟨h3, files.length + k, by simpa using hk, names ++ names2, fs, by simp [hl, hl2], ?_, ?_⟩
    · rw [List.take_length_add_append]
      exact created_append hc hc2
    · rw [ho2, List.take_length_add_append, named, named, named, List.map_append, List.zip_append (by simp [hl]), printed_append]
      split <;> simp

theorem Does.stop {α β : Type} {files : List InlineFile} {t : TempSt} {out : Str} {e : TempErr × Str} {plain1 : Except TempErr (α × TempSt)}
    (more : List InlineFile) (h1 : Does dump b files t out (.error e : Except _ (α × TempSt × Str)) plain1) :
    Does dump b (files ++ more) t out (.error e : Except _ (β × TempSt × Str)) (.error e.1) := by
  obtain ⟨_, k, hk, names, fs, h⟩ := h1
  refine ⟨rfl, k, by simp; omega, names, fs, ?_⟩
  rwa [List.take_append_of_le_length (Nat.le_of_lt hk)]

theorem createTempsOfU_does : ∀ (files : List InlineFile) (line : Str) (t : TempSt) (out : Str),
    Does dump b files t out (createTempsOfU dump b writable native cand fuel files line t out) (createTempsOf writable native cand fuel files line t) := by
  intro files
  induction files with
  | nil =>
    intro line t out
    exact ⟨rfl, [], rfl, .nil _, by simp, by simp [printed]⟩
  | cons f files ih =>
    intro line t out
    unfold createTempsOfU createTempsOf
    rcases createTempU_plain (dump := dump) (b := b) (writable := writable) (native := native) (cand := cand) (fuel := fuel) f line t out with
      ⟨line', t', name, h1, h2, h3, h4⟩ | ⟨e, h1, h2⟩
    · rw [h1, h2]
      simp only [bind, Except.bind]
      have hd : Does dump b [f] t out (.ok (line', t', out ++ if dump then showFile b name f.content else []) : Except _ (Str × TempSt × Str)) (.ok (line', t')) :=
        ⟨rfl, [name], rfl, h3, h4, by simp [printed, named]⟩
      exact hd.append (ih _ _ _)
    · rw [h1, h2]
      simp only [bind, Except.bind]
      exact ⟨rfl, 0, by simp, [], t.fs, rfl, .nil _, by simp [printed]⟩

theorem createTempsU_does : ∀ (cmds : List Command) (t : TempSt) (out : Str),
    Does dump b (cmds.flatMap (·.files)) t out (createTempsU dump b writable native cand fuel cmds t out) (createTemps writable native cand fuel cmds t) := by
  intro cmds
  induction cmds with
  | nil =>
    intro t out
    exact ⟨rfl, [], rfl, .nil _, by simp, by simp [printed]⟩
  | cons c cmds ih =>
    intro t out
    unfold createTempsU createTemps
    have h1 := createTempsOfU_does (dump := dump) (b := b) (writable := writable) (native := native) (cand := cand) (fuel := fuel) c.files c.cmd.line t out
    rw [List.flatMap_cons]
    cases hx : createTempsOfU dump b writable native cand fuel c.files c.cmd.line t out with
    | error e =>
      rw [hx] at h1
      rw [h1.1]
      exact h1.stop _
    | ok x =>
      obtain ⟨line, t1, out1⟩ := x
      rw [hx] at h1
      rw [h1.1]
      simp only [bind, Except.bind]
      have h2 := ih t1 out1
      cases hy : createTempsU dump b writable native cand fuel cmds t1 out1 with
      | error e =>
        rw [hy] at h2
        rw [h2.1]
        exact h1.append (x := line) ⟨rfl, h2.2⟩
      | ok y =>
        obtain ⟨cmds', t2, out2⟩ := y
        rw [hy] at h2
        rw [h2.1]
        exact h1.append (x := line) ⟨rfl, h2.2⟩

/-- C111: /U changes nothing but what is shown, whether jom succeeds or not; without /U nothing is shown. -/
theorem C111_same (dump buffered : Bool) (writable : Str → Bool) (native : Str → Str) (cand : Nat → Str) (fuel : Nat) (cmds : List Command) (t : TempSt) :
    (match createTempsU dump buffered writable native cand fuel cmds t [] with
      | .ok (cmds', t', _) => .ok (cmds', t')
      | .error (e, _) => .error e) = createTemps writable native cand fuel cmds t ∧
    (dump = false → match createTempsU dump buffered writable native cand fuel cmds t [] with
      | .ok (_, _, out) => out = []
      | .error (_, out) => out = []) := by
  have h := createTempsU_does (dump := dump) (b := buffered) (writable := writable) (native := native) (cand := cand) (fuel := fuel) cmds t []
  cases hx : createTempsU dump buffered writable native cand fuel cmds t [] with
  | ok x =>
    obtain ⟨cmds', t', out⟩ := x
    rw [hx] at h
    obtain ⟨h1, _, _, _, _, h2⟩ := h
    exact ⟨h1.symm, fun hd => by simpa [hd] using h2⟩
  | error x =>
    obtain ⟨e, out⟩ := x
    rw [hx] at h
    obtain ⟨h1, _, _, _, _, _, _, h2⟩ := h
    exact ⟨h1.symm, fun hd => by simpa [hd] using h2⟩

/-- C111: with /U jom shows every inline file of the target, in their order, with the name under which it is created and with its content.

Partial: not if the output of the executor is not buffered and there is a null character (`C111_null_refuted`). -/
theorem C111_shown_partial {buffered : Bool} {cmds cmds' : List Command} {t t' : TempSt} {out : Str}
    (h : createTempsU true buffered writable native cand fuel cmds t [] = .ok (cmds', t', out))
    (hnull : buffered = true ∨ (∀ f ∈ cmds.flatMap (·.files), Char.ofNat 0 ∉ f.content) ∧ ∀ f ∈ t'.temps, Char.ofNat 0 ∉ f.1) :
    ∃ names, names.length = (cmds.flatMap (·.files)).length ∧ Created t.fs (cmds.flatMap (·.files)) names t'.fs ∧
      t'.temps = t.temps ++ names.zip ((cmds.flatMap (·.files)).map (·.keep)) ∧
      out = display (names.zip ((cmds.flatMap (·.files)).map (·.content))) := by
  have hd := createTempsU_does (dump := true) (b := buffered) (writable := writable) (native := native) (cand := cand) (fuel := fuel) cmds t []
  rw [h] at hd
  obtain ⟨_, names, h1, h2, h3, h4⟩ := hd
  refine ⟨names, h1, h2, h3, ?_⟩
  rw [h4, if_pos rfl, List.nil_append]
  refine printed_clean (hnull.imp id fun hn f hf => ?_)
  obtain ⟨hf1, hf2⟩ := List.of_mem_zip hf
  refine ⟨?_, ?_⟩
  · obtain ⟨i, hi, he⟩ := List.getElem_of_mem hf1
    have hk : i < (names.zip ((cmds.flatMap (·.files)).map (·.keep))).length := by
      rw [List.length_zip, List.length_map]
      omega
    have hm := hn.2 _ (by rw [h3]; exact List.mem_append_right _ (List.getElem_mem hk))
    rw [List.getElem_zip] at hm
    simpa [he] using hm
  · obtain ⟨g, hg, he⟩ := List.mem_map.1 hf2
    rw [← he]
    exact hn.1 g hg

/-- C111 if a file cannot be created: the files that were created before are shown. -/
theorem C111_error_partial {buffered : Bool} {cmds : List Command} {t : TempSt} {e : TempErr} {out : Str}
    (h : createTempsU true buffered writable native cand fuel cmds t [] = .error (e, out)) (hb : buffered = true) :
    ∃ k < (cmds.flatMap (·.files)).length, ∃ names fs, names.length = k ∧ Created t.fs ((cmds.flatMap (·.files)).take k) names fs ∧
      out = display (names.zip (((cmds.flatMap (·.files)).take k).map (·.content))) := by
  have hd := createTempsU_does (dump := true) (b := buffered) (writable := writable) (native := native) (cand := cand) (fuel := fuel) cmds t []
  rw [h] at hd
  obtain ⟨_, k, hk, names, fs, h1, h2, h3⟩ := hd
  refine ⟨k, hk, names, fs, h1, h2, ?_⟩
  rw [h3, if_pos rfl, List.nil_append]
  exact printed_clean (Or.inl hb)

end

/-! ### Reading what is shown -/

theorem first_line {a b x y : Str} (ha : '\n' ∉ a) (hb : '\n' ∉ b) (h : a ++ '\n' :: x = b ++ '\n' :: y) : a = b ∧ x = y := by
  induction a generalizing b with
  | nil =>
    cases b with
    | nil => exact ⟨rfl, by simpa using h⟩
    | cons c b =>
      simp only [List.nil_append, List.cons_append, List.cons.injEq] at h
      exact absurd (by simp [← h.1]) hb
  | cons c a ih =>
    cases b with
    | nil =>
      simp only [List.nil_append, List.cons_append, List.cons.injEq] at h
      exact absurd (by simp [h.1]) ha
    | cons d b =>
      simp only [List.cons_append, List.cons.injEq] at h
      obtain ⟨h1, h2⟩ := ih (fun hm => ha (List.mem_cons_of_mem _ hm)) (fun hm => hb (List.mem_cons_of_mem _ hm)) h.2
      exact ⟨by rw [h.1, h1], h2⟩

/-- The mark does not overlap itself: its only line feed is its last character. -/
theorem mark_first {a b x y : Str} (hb : ¬ endMark <:+: b) (h : a ++ endMark ++ x = b ++ endMark ++ y) (hle : a.length ≤ b.length) :
    a = b ∧ x = y := by
  rw [List.append_assoc, List.append_assoc] at h
  obtain ⟨c, hc, hx⟩ : ∃ c, b = a ++ c ∧ endMark ++ x = c ++ (endMark ++ y) := by
    rcases List.append_eq_append_iff.1 h with ⟨c, h1, h2⟩ | ⟨c, h1, h2⟩
    · exact ⟨c, h1, h2⟩
    · have : c = [] := by
        have := congrArg List.length h1
        rw [List.length_append] at this
        exact List.eq_nil_of_length_eq_zero (by omega)
      subst this
      exact ⟨[], by simpa using h1.symm, by simpa using h2.symm⟩
  subst hc
  by_cases hc0 : c = []
  · subst hc0
    simp only [List.nil_append, List.append_cancel_left_eq] at hx
    exact ⟨by simp, hx⟩
  · exfalso
    rcases List.append_eq_append_iff.1 hx with ⟨d, h1, h2⟩ | ⟨d, h1, h2⟩
    · -- the mark is a part of `c`
      exact hb ⟨a, d, by rw [h1]; simp⟩
    · -- the mark is `c ++ d`
      have hlen : d.length < endMark.length := by
        have h3 := congrArg List.length h1
        have h4 := List.length_pos_of_ne_nil hc0
        rw [List.length_append] at h3
        omega
      have hd : d = endMark.take d.length := by
        have h3 := congrArg (List.take d.length) h2
        rw [List.take_append_of_le_length (Nat.le_of_lt hlen), List.take_append_of_le_length (Nat.le_refl _), List.take_length] at h3
        exact h3.symm
      have hno : '\n' ∉ d := by
        intro hm
        rw [hd] at hm
        have h3 : endMark.take d.length <+: endMark.take 24 :=
          List.take_prefix_take_left (by have : endMark.length = 25 := by decide
                                         omega)
        have h4 : '\n' ∉ endMark.take 24 := by decide
        exact h4 (h3.subset hm)
      have hlast : endMark.getLast? = some '\n' := by decide
      rw [h1, List.getLast?_append] at hlast
      cases hg : d.getLast? with
      | none =>
        have : d = [] := List.getLast?_eq_none_iff.1 hg
        subst this
        exact hb ⟨a, [], by rw [List.append_nil] at h1; rw [h1]; simp⟩
      | some z =>
        rw [hg] at hlast
        simp only [Option.some_or, Option.some.injEq] at hlast
        subst hlast
        exact hno (List.mem_of_getLast? hg)

theorem mark_unique {a b x y : Str} (ha : ¬ endMark <:+: a) (hb : ¬ endMark <:+: b) (h : a ++ endMark ++ x = b ++ endMark ++ y) : a = b ∧ x = y := by
  rcases Nat.le_total a.length b.length with hle | hle
  · exact mark_first hb h hle
  · obtain ⟨h1, h2⟩ := mark_first ha h.symm hle
    exact ⟨h1.symm, h2.symm⟩

/-- C111: names and contents can be read from what is shown.

Partial: not if a content contains the line that marks its end, or a name a line feed (`C111_refuted`). -/
theorem C111_readable_partial {files files' : List (Str × Str)} (hc : ∀ f ∈ files, Clean f) (hc' : ∀ f ∈ files', Clean f)
    (h : display files = display files') : files = files' := by
  induction files generalizing files' with
  | nil =>
    cases files' with
    | nil => rfl
    | cons f files' => simp [display] at h
  | cons f files ih =>
    cases files' with
    | nil => simp [display] at h
    | cons f' files' =>
      obtain ⟨n, c⟩ := f
      obtain ⟨n', c'⟩ := f'
      have hf := hc _ List.mem_cons_self
      have hf' := hc' _ List.mem_cons_self
      have h1 : (n ++ c!"---") ++ '\n' :: (c ++ endMark ++ display files) = (n' ++ c!"---") ++ '\n' :: (c' ++ endMark ++ display files') := by
        simpa [display] using h
      obtain ⟨h2, h3⟩ := first_line (by simpa using hf.1) (by simpa using hf'.1) h1
      obtain ⟨h4, h5⟩ := mark_unique hf.2 hf'.2 h3
      rw [List.append_cancel_right h2, show c = c' from h4, ih (fun f hm => hc f (List.mem_cons_of_mem _ hm)) (fun f hm => hc' f (List.mem_cons_of_mem _ hm)) h5]

/-- C111 is false: two files look like one that contains the line that marks the end of a file. -/
theorem C111_refuted : display [(c!"x", c!"a\n"), (c!"y", c!"b\n")] =
    display [(c!"x", c!"a\n---end of inline file---\n---y---\nb\n")] := by decide

/-- … and without a buffer (the first executor) a content ends at the first null character, although the file contains more. -/
theorem C111_null_refuted : ∃ cmds t', createTempsU true false (fun _ => true) id exCand 5
      [{ cmd := { line := c!"link @<<" }, files := [{ filename := c!"x", content := ['a', Char.ofNat 0, 'b'] }] }] { fs := exFs, next := 0, temps := [] } [] =
        .ok (cmds, t', display [(c!"x", c!"a")]) ∧ t'.fs c!"x" = some ['a', Char.ofNat 0, 'b'] := by
  refine ⟨_, _, rfl, ?_⟩
  decide +kernel

/-! ### The three files of C44 -/

namespace ShowInlineCase

def out : Str := display [(c!"n1", c!"a"), (c!"n2", c!"b"), (c!"my list", c!"c")]

theorem run : (createTempsU true false (fun _ => true) id exCand 5 exFiles { fs := exFs, next := 0, temps := [] } []).toOption.map
    (fun r => (r.2.1.temps, r.2.2)) = some ([(c!"n1", false), (c!"n2", true), (c!"my list", false)], out) := by decide +kernel

/-- Names and contents, with the theorem. -/
example : ∃ names, names.length = 3 ∧ out = display (names.zip [c!"a", c!"b", c!"c"]) ∧ names = [c!"n1", c!"n2", c!"my list"] := by
  have hr := run
  cases h : createTempsU true false (fun _ => true) id exCand 5 exFiles { fs := exFs, next := 0, temps := [] } [] with
  | error e => rw [h] at hr; cases hr
  | ok r =>
    obtain ⟨cmds', t', o⟩ := r
    rw [h] at hr
    simp only [Except.toOption, Option.map_some, Option.some.injEq, Prod.mk.injEq] at hr
    obtain ⟨ht, rfl⟩ := hr
    obtain ⟨names, h1, _, h3, h4⟩ := C111_shown_partial h (Or.inr ⟨by decide, by rw [ht]; decide⟩)
    refine ⟨names, h1, h4, ?_⟩
    rw [ht] at h3
    have := congrArg (List.map (·.1)) h3
    rw [List.nil_append, List.map_fst_zip (by rw [h1]; decide)] at this
    exact this.symm

/-- `n1` cannot be written: nothing is shown; `my list` cannot be written: the two files before are shown. -/
example : (match createTempsU true true (fun n => n != c!"my list") id exCand 5 exFiles { fs := exFs, next := 0, temps := [] } [] with
      | .ok _ => none
      | .error r => some r) = some (.cannotOpen c!"my list", display [(c!"n1", c!"a"), (c!"n2", c!"b")]) ∧
    (match createTempsU true true (fun n => n != c!"n1") id exCand 5 exFiles { fs := exFs, next := 0, temps := [] } [] with
      | .ok _ => none
      | .error r => some r) = some (.cannotOpen c!"n1", []) := by decide +kernel

example : ∃ out, createTempsU true true (fun n => n != c!"my list") id exCand 5 exFiles { fs := exFs, next := 0, temps := [] } [] = .error (.cannotOpen c!"my list", out) ∧
    ∃ k < 3, ∃ names : List Str, names.length = k ∧ out = display (names.zip ((exFiles.flatMap (·.files)).take k |>.map (·.content))) := by
  refine ⟨_, rfl, ?_⟩
  obtain ⟨k, hk, names, _, h1, _, h2⟩ := C111_error_partial (buffered := true) (writable := fun n => n != c!"my list") (native := id) (cand := exCand) (fuel := 5)
    (cmds := exFiles) (t := { fs := exFs, next := 0, temps := [] }) rfl rfl
  exact ⟨k, hk, names, h1, h2⟩

/-- Nothing else looks like this. -/
example (files : List (Str × Str)) (hc : ∀ f ∈ files, Clean f) (h : display files = out) :
    files = [(c!"n1", c!"a"), (c!"n2", c!"b"), (c!"my list", c!"c")] := by
  refine C111_readable_partial hc (fun f hf => ?_) h
  have key : ∀ c : Str, c.length = 1 → ¬ endMark <:+: c := fun c hl hi => by
    have := hi.length_le
    rw [hl] at this
    revert this
    decide
  simp only [List.mem_cons, List.not_mem_nil, or_false] at hf
  rcases hf with rfl | rfl | rfl <;> exact ⟨by decide, key _ rfl⟩

end ShowInlineCase

end Jom.Props
