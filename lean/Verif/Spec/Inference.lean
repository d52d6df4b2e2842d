/-
Specification of inference rules: when a rule fits a target, and what batch mode does.
-/
import Verif.Model.Inference
import Verif.Proofs.PathLemmas

namespace Jom.Spec
open Jom.Inference

/-- The text in front of the file name denotes the directory `dir` of a rule. -/
inductive InDir : Str → Str → Prop
  | here : InDir [] ['.']
  | root (c) : isSep c = true → InDir [c] ['.']
  | dir (d c) : isSep c = true → d ≠ [] → InDir (d ++ [c]) d

/-- `ext` is first found at index `i` of `.SUFFIXES` (letter case ignored). -/
def FirstIn (suffixes : List Str) (ext : Str) (i : Nat) : Prop :=
  (∃ s, suffixes[i]? = some s ∧ toLower s = toLower ext) ∧
  ∀ j s, j < i → suffixes[j]? = some s → toLower s ≠ toLower ext

/-- The rule applies to the target `path`: the target lies in the rule's directory and has the rule's extension, and
the file it would be made from is there. -/
def Applies (there : Str → Bool) (path : Str) (r : Rule) : Prop :=
  ∃ pre base ext, path = pre ++ (base ++ ext) ∧ (∀ c ∈ base ++ ext, isSep c = false) ∧ InDir pre r.toPath ∧
    toLower ext = toLower r.toExt ∧ there (r.fromPath ++ ['\\'] ++ base ++ r.fromExt) = true

/-- The source file of a target: its file name with the extension replaced, in the rule's source directory. -/
def Source (r : Rule) (name src : Str) : Prop :=
  ∃ pre base ext, name = pre ++ (base ++ ext) ∧ (∀ c ∈ base ++ ext, isSep c = false) ∧ DirPrefix pre ∧
    ext.length = r.toExt.length ∧
    ((r.fromPath = ['.'] ∧ src = base ++ r.fromExt) ∨
     (r.fromPath ≠ ['.'] ∧ src = r.fromPath ++ ['\\'] ++ base ++ r.fromExt))

/-- Nearest integer to `n / j`, halves up, but at least 1. -/
def GroupSize (n j per : Nat) : Prop :=
  1 ≤ per ∧ 2 * n < (2 * per + 1) * j ∧ (per = 1 ∨ 2 * per * j ≤ 2 * n + j)

/-- What one group looks like afterwards: only its first target gets commands; they name the sources of exactly this
group's targets, and the sources become dependents of the first target. -/
def GroupDone (m : Macros) (r : Rule) (db db' : Nat → DB) (g : List Nat) : Prop :=
  ∃ (first : Nat) (others : List Nat) (srcs : List Str) (commands : List Command), g = first :: others ∧ srcs.length = g.length ∧
    (∀ (i t : Nat), g[i]? = some t → ∃ s, srcs[i]? = some s ∧ Source r (db t).name s) ∧
    r.commands.mapM (instantiate m (srcs.flatMap (· ++ [' ']))) = .ok commands ∧
    (db' first).commands = commands ∧ (db' first).rules = [] ∧ (db' first).name = (db first).name ∧
    (∀ d, d ∈ (db' first).deps ↔ d ∈ (db first).deps ∨ d ∈ srcs) ∧
    ((db first).deps.Nodup → (db' first).deps.Nodup) ∧
    ∀ t ∈ others, db' t = { db t with rules := [] }

end Jom.Spec
