/- Which line an error of the preprocessor is about (C104). -/
import Verif.Spec.Preprocessor

namespace Jom.Spec

open Jom.PP (Err World Dir)

/-- What is wrong with the line `t` of a makefile, while `m` is the table of macros. -/
inductive Faulty (w : World) (m : MacroTable) (t : Str) : Err → Prop
  /-- A macro invocation in it, or in the argument of the directive it is, is wrong. -/
  | invocation (e : MacroErr) : (∀ r, ¬ Directive m.macros t r) → Faulty w m t (.macro e)
  /-- It defines a macro whose name or value the table does not accept. -/
  | definition (e : MacroErr) (n v : Str) : LineDefines t n v → setMacroValue m n v = .error e → Faulty w m t (.macro e)
  /-- The condition has a wrong macro invocation once its macros are expanded. -/
  | condition (e : MacroErr) (k v : Str) : k = c!"IF" ∨ k = c!"ELSEIF" → Directive m.macros t (some (k, v)) →
      (∀ x, ¬ Expanded m.macros v x) → Faulty w m t (.macro e)
  /-- The condition is no expression. -/
  | expression (k v x : Str) : k = c!"IF" ∨ k = c!"ELSEIF" → Directive m.macros t (some (k, v)) → Expanded m.macros v x →
      w.eval m x = none → Faulty w m t .expression
  /-- It is an alternative. -/
  | alternative (k v : Str) : Directive m.macros t (some (k, v)) → RoleOf k .else → Faulty w m t .unexpectedElse
  /-- It is the end of a conditional. -/
  | endif (v : Str) : Directive m.macros t (some (c!"ENDIF", v)) → Faulty w m t .unexpectedEndif
  /-- It asks for the error. -/
  | error (v : Str) : Directive m.macros t (some (c!"ERROR", v)) → Faulty w m t (.userError v)
  /-- There is no such directive. -/
  | unknown (k v : Str) : Directive m.macros t (some (k, v)) → (∀ d, keyword d ≠ some k) → Faulty w m t (.unknownDirective k)
  /-- The file cannot be included. -/
  | include (e : Err) (v : Str) : Directive m.macros t (some (c!"INCLUDE", v)) → e = .fileNotFound ∨ e = .includeCycle ∨ e = .cannotOpen →
      Faulty w m t e

end Jom.Spec
