import Verif.Model.Preprocessor
import Verif.Model.ExprLex

/-!
`Preprocessor::evaluateExpression` (src/jomlib/preprocessor.cpp 476-493) with the parser of `Model/Expr.lean` and the scanner of
`Model/ExprLex.lean` in place of the parameter `World.eval`.

The scanner is in its initial state at the beginning of every expression. That is so for the first expression and after every
expression whose pieces end where they seem to end (`C22_tests_partial`); after others it need not be (`C22_leak_refuted`).
-/

namespace Jom.PP

/-- What the expressions of a makefile can ask for: whether the macro is in the table (ppexpr.l 97-113, macrotable.cpp 211-214),
whether there is such a file, and for exit codes of commands. -/
def oracle (fileExists : Str → Bool) (system : Str → Int) (t : MacroTable) : Expr.Oracle :=
  { isDefined := isMacroDefined t, fileExists, system }

/-- Expressions are evaluated by the parser of expressions. -/
def withExpr (w : World) (fileExists : Str → Bool) (system : Str → Int) : World :=
  { w with eval := fun t e => match (Expr.parseText (oracle fileExists system t) .initial (.num 0) e).1 with
      | .ok n => some n
      | .error _ => none }

end Jom.PP
