import Verif.Props.Inference
import Verif.Props.Macro
import Verif.Props.Names

/-! C90: the commands that a target gets from an inference rule. -/

namespace Jom.Props

open Jom.Inference Jom.Spec

/-- `$<` as it is left by the expansion of macros. -/
def sourceMark : Str := [Char.ofNat 0xFEFF, '<']

/-- `text` after expansion of macros, with `$<` replaced by `source`. -/
def Filling (m : Macros) (source text result : Str) : Prop :=
  ∃ e, Expands (macroValue m) substEffect false text e ∧ Replaces sourceMark source e result

/-- `c'` is the command `c` of a rule, made for a target with this source: macros are expanded, then the modifiers are
taken off, then `$<` is replaced; inline files keep their names and flags, and their text is expanded in the same way. -/
structure Made (m : Macros) (source : Str) (c c' : Command) : Prop where
  line : ∃ e ms rest, Expands (macroValue m) substEffect false c.cmd.line e ∧ Modified ms e rest ∧
    Replaces sourceMark source rest c'.cmd.line ∧ c'.cmd.silent = hasSilent ms ∧
    c'.cmd.singleExecution = hasSingle ms ∧ ∀ code : Int, c'.cmd.failsWith code = fails ms (toUnsigned code)
  count : c'.files.length = c.files.length
  files : ∀ (i : Nat) f, c.files[i]? = some f → ∃ f', c'.files[i]? = some f' ∧ f'.keep = f.keep ∧
    f'.unicode = f.unicode ∧ f'.filename = f.filename ∧ Filling m source f.content f'.content

/-- A command of a rule as the parser leaves it: nothing but the line is known (parser.cpp 500-507). -/
def Unread (c : Command) : Prop := c.cmd = { line := c.cmd.line }

theorem mapM_ok_get {α β ε : Type} {f : α → Except ε β} : ∀ {l : List α} {r : List β}, l.mapM f = .ok r →
    r.length = l.length ∧ ∀ (i : Nat) x, l[i]? = some x → ∃ y, r[i]? = some y ∧ f x = .ok y := by
  intro l
  induction l with
  | nil =>
    intro r h
    have : r = [] := by simpa [List.mapM_nil, pure, Except.pure] using h.symm
    subst this
    simp
  | cons a l ih =>
    intro r h
    rw [List.mapM_cons] at h
    cases ha : f a with
    | error e => rw [ha] at h; cases h
    | ok b =>
      rw [ha] at h
      cases hl : l.mapM f with
      | error e => rw [hl] at h; cases h
      | ok bs =>
        rw [hl] at h
        have h : b :: bs = r := by injection h
        subst h
        obtain ⟨h1, h2⟩ := ih hl
        refine ⟨by simp [h1], ?_⟩
        intro i x hx
        cases i with
        | zero => simp at hx; subst hx; exact ⟨b, rfl, ha⟩
        | succ i => exact h2 i x (by simpa using hx)

theorem mapM_ok_of {α β ε : Type} {f : α → Except ε β} : ∀ {l : List α}, (∀ x ∈ l, ∃ y, f x = .ok y) →
    ∃ r, l.mapM f = .ok r := by
  intro l
  induction l with
  | nil => intro _; exact ⟨[], rfl⟩
  | cons a l ih =>
    intro h
    obtain ⟨b, hb⟩ := h a (by simp)
    obtain ⟨bs, hbs⟩ := ih (fun x hx => h x (by simp [hx]))
    exact ⟨b :: bs, by rw [List.mapM_cons, hb]; show (do let r ← l.mapM f; pure (b :: r)) = _; rw [hbs]; rfl⟩

theorem sourceMark_eq : sourceMacro = sourceMark := rfl

theorem sourceMark_ne : sourceMark ≠ [] := by simp [sourceMark]

theorem instantiate_made {m : Macros} {source : Str} {c c' : Command} (hc : Unread c)
    (h : instantiate m source c = .ok c') : Made m source c c' := by
  unfold instantiate at h
  cases hf : c.files.mapM (fun f => (do
      let content ← expandMacros m f.content
      return { f with content := replaceAll sourceMacro source content } : Except MacroErr Inference.InlineFile)) with
  | error e => rw [hf] at h; cases h
  | ok files =>
    rw [hf] at h
    cases he : expandMacros m c.cmd.line with
    | error e =>
      exfalso
      have h : (do
        let line ← expandMacros m c.cmd.line
        let cmd := evaluateModifiers { c.cmd with line := line }
        return { cmd := { cmd with line := replaceAll sourceMacro source cmd.line }, files := files } :
          Except MacroErr Command) = .ok c' := h
      rw [he] at h
      cases h
    | ok line =>
      have h : (do
        let line ← expandMacros m c.cmd.line
        let cmd := evaluateModifiers { c.cmd with line := line }
        return { cmd := { cmd with line := replaceAll sourceMacro source cmd.line }, files := files } :
          Except MacroErr Command) = .ok c' := h
      rw [he] at h
      have h : ({ cmd := { evaluateModifiers { c.cmd with line := line } with
        line := replaceAll sourceMacro source (evaluateModifiers { c.cmd with line := line }).line }, files := files } :
          Command) = c' := by injection h
      have hc' : ({ c.cmd with line := line } : Cmd) = { line := line } := by
        rw [hc]
      rw [hc'] at h
      obtain ⟨ms, rest, hm⟩ := C16_every_line line
      obtain ⟨a1, a2, a3, a4⟩ := C16_modifiers_partial ms line rest hm
      obtain ⟨h1, h2⟩ := mapM_ok_get hf
      subst h
      refine ⟨⟨line, ms, rest, (C02_expansion_meaning _ _ _ _).1 he, hm, ?_, a2, a3, a4⟩, h1, ?_⟩
      · simp only [a1, sourceMark_eq]
        exact replaceAll_spec _ _ _ sourceMark_ne
      · intro i f hi
        obtain ⟨f', g1, g2⟩ := h2 i f hi
        refine ⟨f', g1, ?_⟩
        cases hx : expandMacros m f.content with
        | error e => rw [hx] at g2; cases g2
        | ok content =>
          rw [hx] at g2
          have g2 : ({ f with content := replaceAll sourceMacro source content } : Inference.InlineFile) = f' := by
            injection g2
          subst g2
          exact ⟨rfl, rfl, rfl, content, (C02_expansion_meaning _ _ _ _).1 hx,
            by rw [sourceMark_eq]; exact replaceAll_spec _ _ _ sourceMark_ne⟩

/-- The commands of a rule, made for a source. -/
def AllMade (m : Macros) (source : Str) (cs cs' : List Command) : Prop :=
  cs'.length = cs.length ∧ ∀ (i : Nat) c, cs[i]? = some c → ∃ c', cs'[i]? = some c' ∧ Made m source c c'

theorem allMade_of {m : Macros} {source : Str} {cs cs' : List Command} (hu : ∀ c ∈ cs, Unread c)
    (h : cs.mapM (instantiate m source) = .ok cs') : AllMade m source cs cs' := by
  obtain ⟨h1, h2⟩ := mapM_ok_get h
  refine ⟨h1, ?_⟩
  intro i c hc
  obtain ⟨c', a, b⟩ := h2 i c hc
  exact ⟨c', a, instantiate_made (hu c (List.mem_of_getElem? hc)) b⟩

/-- C90: a target that gets its commands from a rule: the source becomes a dependent (once), the commands are those of
the rule in their order, made for this source, and the target is done with rules. -/
theorem C90_rule {m : Macros} {r : Rule} {t t' : DB} (hu : ∀ c ∈ r.commands, Unread c)
    (hext : r.toExt.length ≤ (fileNameFromFilePath t.name).length) (h : applyRule m r t = .ok t') :
    ∃ source, Source r t.name source ∧ AllMade m source r.commands t'.commands ∧ t'.name = t.name ∧ t'.rules = [] ∧
      (∀ d, d ∈ t'.deps ↔ d ∈ t.deps ∨ d = source) ∧ (t.deps.Nodup → t'.deps.Nodup) := by
  unfold applyRule at h
  cases hc : r.commands.mapM (instantiate m (inferredDependent r t.name)) with
  | error e =>
    exfalso
    have h : (do
      let commands ← r.commands.mapM (instantiate m (inferredDependent r t.name))
      return { t with rules := [], deps := addDep t.deps (inferredDependent r t.name), commands := commands } :
        Except MacroErr DB) = .ok t' := h
    rw [hc] at h; cases h
  | ok commands =>
    have h : (do
      let commands ← r.commands.mapM (instantiate m (inferredDependent r t.name))
      return { t with rules := [], deps := addDep t.deps (inferredDependent r t.name), commands := commands } :
        Except MacroErr DB) = .ok t' := h
    rw [hc] at h
    have h : ({ t with rules := [], deps := addDep t.deps (inferredDependent r t.name), commands := commands } : DB) = t' := by
      injection h
    subst h
    refine ⟨inferredDependent r t.name, inferredDependent_source r t.name hext, allMade_of hu hc, rfl, rfl, ?_, ?_⟩
    · intro d
      simp only [addDep]
      split
      · constructor
        · exact Or.inl
        · rintro (h | rfl)
          · exact h
          · assumption
      · simp
    · intro hn
      simp only [addDep]
      split
      · exact hn
      · rename_i hnot
        rw [List.nodup_append]
        refine ⟨hn, by simp, ?_⟩
        intro x hx y hy
        simp at hy; subst hy
        exact fun hh => hnot (hh ▸ hx)

/-- C90: a rule can be applied whenever the texts of its commands have a meaning. -/
theorem C90_applies {m : Macros} {r : Rule} {t : DB}
    (hl : ∀ c ∈ r.commands, (∃ e, Expands (macroValue m) substEffect false c.cmd.line e) ∧
      ∀ f ∈ c.files, ∃ e, Expands (macroValue m) substEffect false f.content e) :
    ∃ t', applyRule m r t = .ok t' := by
  obtain ⟨cs, hcs⟩ := mapM_ok_of (f := instantiate m (inferredDependent r t.name)) (l := r.commands) (by
    intro c hc
    obtain ⟨⟨e, he⟩, hf⟩ := hl c hc
    have he := (C02_expansion_meaning _ _ _ _).2 he
    obtain ⟨fs, hfs⟩ := mapM_ok_of (f := fun f => (do
      let content ← expandMacros m f.content
      return { f with content := replaceAll sourceMacro (inferredDependent r t.name) content } :
        Except MacroErr Inference.InlineFile)) (l := c.files) (by
        intro f hfm
        obtain ⟨x, hx⟩ := hf f hfm
        have hx := (C02_expansion_meaning _ _ _ _).2 hx
        exact ⟨_, by rw [hx]; rfl⟩)
    exact ⟨_, by unfold instantiate; rw [hfs, he]; rfl⟩)
  exact ⟨_, by unfold applyRule; simp only; rw [hcs]; rfl⟩

/-- C90 for batch mode: every target is in one group, whose first target gets the commands, made for the sources of the
whole group, each followed by a blank. -/
theorem C90_batch {m : Macros} {r : Rule} {jobs : Nat} {targets : List Nat} {db db' : Nat → DB} (hj : 0 < jobs)
    (hne : targets ≠ []) (hn : targets.Nodup) (hu : ∀ c ∈ r.commands, Unread c)
    (hext : ∀ t ∈ targets, r.toExt.length ≤ (fileNameFromFilePath (db t).name).length)
    (h : applyBatchRule m r jobs targets db = .ok db') :
    ∀ t ∈ targets, ∃ (first : Nat) (others : List Nat) (srcs : List Str), t ∈ first :: others ∧
      srcs.length = (first :: others).length ∧
      (∀ (i t : Nat), (first :: others)[i]? = some t → ∃ s, srcs[i]? = some s ∧ Source r (db t).name s) ∧
      AllMade m (srcs.flatMap (· ++ [' '])) r.commands (db' first).commands := by
  obtain ⟨_, groups, _, _, _, _, hg, hd, _⟩ := C28_partition hj hne hn hext h
  intro t ht
  obtain ⟨g, hgm, htg, _⟩ := hg t ht
  obtain ⟨first, others, srcs, commands, rfl, h2, h3, h4, h5, _⟩ := hd g hgm
  exact ⟨first, others, srcs, htg, h2, h3, by rw [h5]; exact allMade_of hu h4⟩

/-! ### Example -/

def instRule : Rule :=
  { fromPath := c!".", fromExt := c!".c", toPath := c!".", toExt := c!".obj",
    commands := [{ cmd := { line := c!"$(Q)-2cl $(F) $<" }, files := [{ keep := true, filename := c!"r", content := c!"$(F) $< $<" }] }] }

def instMacros : Macros := [(c!"Q", { value := c!"@" }), (c!"F", { value := c!"-O2" })]

/-- The hypotheses of `C90_rule`, and what it says: the modifier in the macro counts. -/
example : (∀ c ∈ instRule.commands, Unread c) ∧
    instRule.toExt.length ≤ (fileNameFromFilePath c!"x.obj").length ∧
    (applyRule instMacros instRule { name := c!"x.obj", deps := [c!"h"], rules := [instRule] }).map
        (fun t => (t.deps, t.commands.map fun c => (c.cmd.line, c.cmd.silent, c.files.map (·.content)))) =
      .ok ([c!"h", c!"x.c"], [(c!"cl -O2 x.c", true, [c!"-O2 x.c x.c"])]) := by
  refine ⟨?_, by decide +kernel, by decide +kernel⟩
  intro c hc
  simp only [instRule, List.mem_singleton] at hc
  subst hc
  rfl

def instBatch : Rule :=
  { fromPath := c!".", fromExt := c!".c", toPath := c!".", toExt := c!".obj", batch := true,
    commands := [{ cmd := { line := c!"cl $(F) $<" } }] }

def instTargets : Nat → DB := fun t => { name := if t = 0 then c!"x.obj" else c!"y.obj", rules := [instBatch] }

/-- `C90_batch` applies to two targets; with one job there is one command for both. -/
example : ∃ db', applyBatchRule instMacros instBatch 1 [0, 1] instTargets = .ok db' ∧
    (db' 0).commands.map (·.cmd.line) = [c!"cl -O2 x.c y.c "] ∧
    ∀ t ∈ [0, 1], ∃ (first : Nat) (others : List Nat) (srcs : List Str), t ∈ first :: others ∧
      srcs.length = (first :: others).length ∧
      (∀ (i t : Nat), (first :: others)[i]? = some t → ∃ s, srcs[i]? = some s ∧ Source instBatch (instTargets t).name s) ∧
      AllMade instMacros (srcs.flatMap (· ++ [' '])) instBatch.commands (db' first).commands := by
  have he : (applyBatchRule instMacros instBatch 1 [0, 1] instTargets).map (fun db => (db 0).commands.map (·.cmd.line)) =
      .ok [c!"cl -O2 x.c y.c "] := by decide +kernel
  cases h : applyBatchRule instMacros instBatch 1 [0, 1] instTargets with
  | error e => rw [h] at he; cases he
  | ok db' =>
    rw [h] at he
    refine ⟨db', rfl, by simpa [Except.map] using he, C90_batch (by decide) (by decide) (by decide) ?_ (by decide +kernel) h⟩
    intro c hc
    simp only [instBatch, List.mem_singleton] at hc
    subst hc
    rfl

end Jom.Props
