import Verif.Model.MacroTable

/-! Lines of a preprocessed makefile. -/

namespace Jom.Spec.Makefile

/-- A line of the preprocessed makefile: whether it was asked for as content of an inline file, its text, and the macros defined at
this place. -/
structure Line where
  inl : Bool := false
  text : Str
  macros : Macros

end Jom.Spec.Makefile
