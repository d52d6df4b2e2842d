import Verif.QtStr

/-!
Model of `src/jomlib/macrotable.cpp` / `macrotable.h` (class `MacroTable`).
-/

namespace Jom

/-! ### Association lists standing for `QHash` / `QMap` -/

/-- `QHash::value` / `contains` (first entry with that key; `aset` keeps keys unique). -/
def alookup {β : Type} (k : Str) : List (Str × β) → Option β
  | [] => none
  | (k', v) :: l => if k' = k then some v else alookup k l

/-- `hash[k] = v`. -/
def aset {β : Type} (k : Str) (v : β) : List (Str × β) → List (Str × β)
  | [] => [(k, v)]
  | (k', v') :: l => if k' = k then (k', v) :: l else (k', v') :: aset k v l

/-- `QHash::remove`. -/
def aerase {β : Type} (k : Str) : List (Str × β) → List (Str × β)
  | [] => []
  | (k', v') :: l => if k' = k then aerase k l else (k', v') :: aerase k l

/-- Case-insensitive key comparison of `ProcessEnvironmentKey` (processenvironment.h 34-60). -/
def envKeyEq (a b : Str) : Bool := toLower a == toLower b

/-- `ProcessEnvironment::operator[]` assignment / `insert` on a `QMap` with case-insensitive keys
(processenvironment.h 60-68): an existing key keeps its spelling. -/
def envSet (name value : Str) : List (Str × Str) → List (Str × Str)
  | [] => [(name, value)]
  | (k, v) :: l => if envKeyEq k name then (k, value) :: l else (k, v) :: envSet name value l

/-- `ProcessEnvironment::value` with case-insensitive keys. -/
def envLookup (name : Str) : List (Str × Str) → Option Str
  | [] => none
  | (k, v) :: l => if envKeyEq k name then some v else envLookup name l

/-! ### Data -/

/-- `MacroTable::MacroSource` (macrotable.h 71-78). -/
inductive MacroSource where
  | commandLine | commandLineImplicit | makeFile | environment | predefinition
deriving DecidableEq, Repr

/-- `MacroTable::MacroData` (macrotable.h 80-85) with its default member initialisers. -/
structure MacroData where
  source : MacroSource := .makeFile
  isReadOnly : Bool := false
  value : Str := []
deriving DecidableEq, Repr

/-- `m_macros` (macrotable.h 97). -/
abbrev Macros := List (Str × MacroData)

/-- `MacroTable` (macrotable.h 35-99): the hash of macros and the process environment. -/
structure MacroTable where
  macros : Macros := []
  env : List (Str × Str) := []
deriving DecidableEq, Repr

/-- The exceptions thrown by the macro code (messages omitted). `fuel` does not exist in the program;
it is proved unreachable. -/
inductive MacroErr where
  /-- "Macro invocation $( without closing ) found" (macrotable.cpp 259) -/
  | noClosing
  /-- "Macro name is missing from invocation" (macrotable.cpp 268) -/
  | noName
  /-- "Cycle in macro detected when trying to invoke $(%1)." (macrotable.cpp 363) -/
  | cycle (name : Str)
  /-- "Cannot find = after : in macro substitution." (macrotable.cpp 411) -/
  | badSubst
  /-- "Invalid macro invocation found" (macrotable.cpp 336) -/
  | invalid
  /-- "macro name %1 is invalid" (macrotable.cpp 136) -/
  | invalidName
  | fuel
deriving DecidableEq, Repr

/-- `MacroTable::macroValue` (macrotable.cpp 46-49): the default-constructed value if undefined. -/
def macroValue (m : Macros) (name : Str) : Str :=
  match alookup name m with
  | some d => d.value
  | none => []

/-! ### Expansion -/

/-- `fileNameMacroMagicEscape` = `QChar::ByteOrderMark` (macrotable.cpp 36). -/
def magicEscape : Char := Char.ofNat 0xFEFF

/-- The characters that introduce a file name macro (macrotable.cpp 272-275, 328-331). -/
def isFileMacroChar (c : Char) : Bool := c == '<' || c == '*' || c == '@' || c == '?'

/-- Search of the first `)` (macrotable.cpp 243-259): the text before it and the text behind it. -/
def splitClose : Str → Option (Str × Str)
  | [] => none
  | c :: s => if c == ')' then some ([], s) else (splitClose s).map fun (a, b) => (c :: a, b)

/-- `MacroTable::Substitution` (macrotable.h 60-64). -/
structure Substitution where
  before : Str
  after : Str
deriving DecidableEq, Repr

/-- The scanning loop of `parseSubstitutionStatement` (macrotable.cpp 389-408), indices relative to
`substitutionStartIdx`.  Result: index of the terminating `)`, index of the last `=`, positions of `^`
(last one first). -/
def scanSubst : Str → Nat → Option Nat → Bool → List Nat → Option Nat × Option Nat × List Nat
  | [], _, eq, _, qs => (none, eq, qs)
  | c :: s, i, eq, quoted, qs =>
    if c == '=' then scanSubst s (i + 1) (some i) false qs
    else if c == ')' && !quoted then (some i, eq, qs)
    else if c == '^' then scanSubst s (i + 1) eq true (i :: qs)
    else scanSubst s (i + 1) eq false qs

/-- `MacroTable::parseSubstitutionStatement` (macrotable.cpp 385-419).  `s` is the text starting at
`substitutionStartIdx`; the second component of the result is the text behind the closing `)`
(the new value of `macroInvokationEndIdx`).  The removal of the `^` characters uses
`QString::remove(pos, 1)` whose position may be negative (a `^` in front of the last `=`). -/
def parseSubst (s : Str) : Except MacroErr (Substitution × Str) :=
  match scanSubst s 0 none false [] with
  | (some e, some q, qs) =>
    .ok ({ before := s.take q,
           after := qs.foldl (fun (a : Str) (p : Nat) => removeAt1 a ((p : Int) - q - 1)) ((s.drop (q + 1)).take (e - q - 1)) },
         s.drop (e + 1))
  | _ => .error .badSubst

/-- `MacroTable::applySubstitution` (macrotable.cpp 421-424). -/
def applySubst (sub : Substitution) (v : Str) : Str := replaceAll sub.before sub.after v

/-- `MacroTable::expandMacros(str, inDependentsLine, usedMacros)` (macrotable.cpp 227-367, with `cycleCheckedMacroValue`).
The set `usedMacros` is passed down; the C++ code inserts a name, expands its value and removes the
name again, which is the same as passing the enlarged set to the nested call only (an exception ends
the whole expansion).  Fuel stands for the recursion; it is proved sufficient. -/
def expandF (m : Macros) (dep : Bool) : Nat → List Str → Str → Except MacroErr Str
  | 0, _, _ => .error .fuel
  | _ + 1, _, [] => .ok []
  | _ + 1, _, [c] => .ok [c]
  | f + 1, used, c :: d :: s =>
    if c != '$' then do
      let r ← expandF m dep f used (d :: s)
      .ok (c :: r)
    else if d == '(' then
      match splitClose s with
      | none => .error .noClosing
      | some (inner, after) =>
        match inner.takeWhile (· != ':') with
        | [] => .error .noName
        | n0 :: ns =>
          if isFileMacroChar n0 then do
            let r ← expandF m dep f used after
            .ok (magicEscape :: '(' :: (inner ++ ')' :: r))
          else if (n0 :: ns) ∈ used then .error (.cycle (n0 :: ns))
          else do
            let v ← expandF m dep f ((n0 :: ns) :: used) (macroValue m (n0 :: ns))
            if inner.contains ':' then do
              let (sub, rest) ← parseSubst (s.drop ((n0 :: ns).length + 1))
              let r ← expandF m dep f used rest
              .ok (applySubst sub v ++ r)
            else do
              let r ← expandF m dep f used after
              .ok (v ++ r)
    else if d == '$' then
      match dep, s with
      | true, '@' :: s' => do
        let r ← expandF m dep f used s'
        .ok (magicEscape :: '@' :: r)
      | true, '(' :: '@' :: s' => do
        let r ← expandF m dep f used s'
        .ok (magicEscape :: '(' :: '@' :: r)
      | _, _ => do
        let r ← expandF m dep f used s
        .ok ('$' :: r)
    else if isLetterOrNumber d then
      if [d] ∈ used then .error (.cycle [d])
      else do
        let v ← expandF m dep f ([d] :: used) (macroValue m [d])
        let r ← expandF m dep f used s
        .ok (v ++ r)
    else if isFileMacroChar d then do
      let r ← expandF m dep f used s
      .ok (magicEscape :: d :: r)
    else .error .invalid

/-- Sum of the sizes of the macro values whose names are not in use. -/
def unusedSize (m : Macros) (used : List Str) : Nat :=
  match m with
  | [] => 0
  | (k, d) :: m => (if k ∈ used then 0 else d.value.length + 2) + unusedSize m used

/-- Fuel that is always enough (theorem `expand_never_out_of_fuel`). -/
def need (m : Macros) (used : List Str) (s : Str) : Nat := s.length + 1 + unusedSize m used

/-- `MacroTable::expandMacros` with an initial set of used macros. -/
def expandU (m : Macros) (dep : Bool) (used : List Str) (s : Str) : Except MacroErr Str :=
  expandF m dep (need m used s) used s

/-- `MacroTable::expandMacros(str, inDependentsLine)` (macrotable.cpp 221-225). -/
def expandMacros (m : Macros) (s : Str) (dep : Bool := false) : Except MacroErr Str :=
  expandU m dep [] s

/-! ### Mutators -/

/-- `\w` of `QRegExp`. -/
def isWordChar (c : Char) : Bool := isLetterOrNumber c || c == '_'

/-- `MacroTable::isMacroNameValid` (macrotable.cpp 108-118): `([A-Z]|_|)(\w|\.)+`, exact match, case
insensitive.  The first group may be empty and otherwise matches a word character, so the expression
denotes the non-empty texts over word characters and dots. -/
def isMacroNameValid (name : Str) : Bool :=
  !name.isEmpty && name.all fun c => isWordChar c || c == '.'

/-- `replaceStringWithLazyValue` (macrotable.cpp 162-173): all occurrences of the search text, left to
right, the search resuming behind the inserted text (the search text is never empty here). -/
def replaceLazy (s search value : Str) : Str := replaceAll search value s

/-- `$(name)` (macrotable.cpp 200). -/
def instantiated (name : Str) : Str := '$' :: '(' :: (name ++ [')'])

/-- `MacroTable::internalSetMacroValue` (macrotable.cpp 192-209).  Result: the table and the expanded
name (standing for the returned pointer to the entry), `none` for a null pointer. -/
def internalSet (t : MacroTable) (name value : Str) (ignoreReadOnly : Bool) :
    Except MacroErr (Option (MacroTable × Str)) := do
  let n ← expandMacros t.macros name
  if !isMacroNameValid n then .ok none
  else
    let newValue := replaceLazy value (instantiated n) (macroValue t.macros n)
    let d := (alookup n t.macros).getD {}
    let d := if ignoreReadOnly || !d.isReadOnly then { d with value := newValue } else d
    .ok (some ({ t with macros := aset n d t.macros }, n))

/-- Update of the entry behind the pointer returned by `internalSetMacroValue`. -/
def modifyEntry (t : MacroTable) (n : Str) (f : MacroData → MacroData) : MacroTable :=
  match alookup n t.macros with
  | some d => { t with macros := aset n (f d) t.macros }
  | none => t

/-- `MacroTable::setEnvironmentVariable` (macrotable.cpp 153-156). -/
def setEnvironmentVariable (t : MacroTable) (name value : Str) : MacroTable :=
  { t with env := envSet name value t.env }

/-- `MacroTable::setMacroValueImpl` (macrotable.cpp 131-142).  The source is stored first and then
compared with `Environment`. -/
def setMacroValueImpl (t : MacroTable) (name value : Str) (source : MacroSource) :
    Except MacroErr MacroTable := do
  match ← internalSet t name value false with
  | none => .error .invalidName
  | some (t, n) =>
    let t := modifyEntry t n fun d => { d with source := source }
    if source = .environment then do
      let v ← expandMacros t.macros (macroValue t.macros n)
      .ok (setEnvironmentVariable t name v)
    else .ok t

/-- `MacroTable::setMacroValue` (macrotable.cpp 126-129). -/
def setMacroValue (t : MacroTable) (name value : Str) : Except MacroErr MacroTable :=
  setMacroValueImpl t name value .makeFile

/-- `MacroTable::predefineValue` (macrotable.cpp 144-147). -/
def predefineValue (t : MacroTable) (name value : Str) : Except MacroErr MacroTable :=
  setMacroValueImpl t name value .predefinition

/-- `MacroTable::defineEnvironmentMacroValue` (macrotable.cpp 56-84). -/
def defineEnvironmentMacroValue (t : MacroTable) (name value : Str) (readOnly : Bool) :
    Except MacroErr MacroTable :=
  let upperName := toUpper name
  match alookup upperName t.macros with
  | some md =>
    if md.source = .commandLine then do
      let t := modifyEntry t upperName fun d => { d with source := .environment }
      let v ← expandMacros t.macros md.value
      .ok (setEnvironmentVariable t upperName v)
    else .ok t
  | none =>
    match expandMacros t.macros value with
    | .error _ => .ok t
    | .ok expandedValue => do
      match ← internalSet t upperName value false with
      | none => .ok t
      | some (t, n) =>
        let t := modifyEntry t n fun d => { d with source := .environment, isReadOnly := readOnly }
        .ok (setEnvironmentVariable t upperName expandedValue)

/-- `MacroTable::defineCommandLineMacroValueImpl` (macrotable.cpp 98-106). -/
def defineCommandLineImpl (t : MacroTable) (name value : Str) (source : MacroSource) :
    Except MacroErr MacroTable := do
  match ← internalSet t name value true with
  | none => .ok t
  | some (t, n) => .ok (modifyEntry t n fun d => { d with source := source, isReadOnly := true })

/-- `MacroTable::defineCommandLineMacroValue` (macrotable.cpp 86-90). -/
def defineCommandLineMacroValue (t : MacroTable) (name value : Str) : Except MacroErr MacroTable := do
  let t ← defineCommandLineImpl t name value .commandLine
  let v ← expandMacros t.macros value
  .ok (setEnvironmentVariable t name v)

/-- `MacroTable::defineImplicitCommandLineMacroValue` (macrotable.cpp 92-96). -/
def defineImplicitCommandLineMacroValue (t : MacroTable) (name value : Str) :
    Except MacroErr MacroTable := do
  let t ← defineCommandLineImpl t name value .commandLineImplicit
  let v ← expandMacros t.macros value
  .ok (setEnvironmentVariable t name v)

/-- `MacroTable::isMacroDefined` (macrotable.cpp 211-214). -/
def isMacroDefined (t : MacroTable) (name : Str) : Bool := (alookup name t.macros).isSome

/-- `MacroTable::undefineMacro` (macrotable.cpp 216-219). -/
def undefineMacro (t : MacroTable) (name : Str) : MacroTable :=
  { t with macros := aerase name t.macros }

/-- The mutating calls of the public interface of `MacroTable` (macrotable.h 42-58). -/
inductive MacroOp where
  /-- `setMacroValue`: `NAME = value` in a makefile (preprocessor.cpp 244) -/
  | set (name value : Str)
  /-- `predefineValue` (makefilefactory.cpp 136-156) -/
  | predefine (name value : Str)
  /-- `defineEnvironmentMacroValue` (makefilefactory.cpp 66) -/
  | environment (name value : Str) (readOnly : Bool)
  /-- `defineCommandLineMacroValue` (options.cpp 113) -/
  | commandLine (name value : Str)
  /-- `defineImplicitCommandLineMacroValue` (options.cpp 118) -/
  | commandLineImplicit (name value : Str)
  /-- `undefineMacro`: `!UNDEF name` (preprocessor.cpp 316) -/
  | undef (name : Str)
deriving DecidableEq, Repr

/-- One call. -/
def MacroOp.apply (t : MacroTable) : MacroOp → Except MacroErr MacroTable
  | .set n v => setMacroValue t n v
  | .predefine n v => predefineValue t n v
  | .environment n v ro => defineEnvironmentMacroValue t n v ro
  | .commandLine n v => defineCommandLineMacroValue t n v
  | .commandLineImplicit n v => defineImplicitCommandLineMacroValue t n v
  | .undef n => .ok (undefineMacro t n)

/-- A sequence of calls; an exception ends it. -/
def runOps (t : MacroTable) : List MacroOp → Except MacroErr MacroTable
  | [] => .ok t
  | op :: ops => op.apply t >>= fun t' => runOps t' ops

end Jom
