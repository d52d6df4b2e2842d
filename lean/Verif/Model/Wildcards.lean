import Verif.Model.Helpers
import Verif.Model.Parser

/-!
The directory search of `expandWildcards` (src/jomlib/parser.cpp 359-390) for one dependent.

`entries path pattern` stands for the names a `QDirIterator(path, QStringList(pattern))` reports, in its order.
`QDirIterator::next` returns the path it was given, a `/` if the path does not end with one, and the name.
Simplification: a path is passed to the iterator as it is written (Qt does not clean it either).
-/

namespace Jom.Wildcards

/-- `QDir::fromNativeSeparators` on Windows. -/
def fromNative (s : Str) : Str := s.map fun c => if c = '\\' then '/' else c

/-- `QFileInfo::isRelative` on Windows (Qt 5, `QFileSystemEntry::isRelative`): the text neither begins with `/`
nor has a `:` in second place. -/
def isRelative : Str → Bool
  | [] => true
  | [c] => c != '/'
  | c :: d :: _ => c != '/' && d != ':'

/-- The path `QDirIterator::next` returns for an entry. -/
def entryPath (path name : Str) : Str :=
  if path.getLast? = some '/' then path ++ name else path ++ '/' :: name

/-- `QString::startsWith(pat, Qt::CaseInsensitive)`. -/
def startsWithCI (s pat : Str) : Bool := (toLower pat).isPrefixOf (toLower s)

/-- The path to search (parser.cpp 364-372) and the pattern for the names. -/
def searchPath (dirPath str : Str) : Str × Str :=
  let str := fromNative str
  match lastIndexOf? '/' str with
  | none => (dirPath, str)
  | some idx => (if isRelative str then dirPath ++ '/' :: str.take idx else str.take idx, str.drop (idx + 1))

/-- What is appended to the result for one found file (parser.cpp 377-384). -/
def shorten (dirPath filePath : Str) : Str :=
  let filePath := if startsWithCI filePath dirPath then
      let r := filePath.drop dirPath.length
      if r.head? = some '/' then r.drop 1 else r
    else filePath
  Parse.toNative filePath

/-- The files a dependent with wildcards stands for (parser.cpp 363-384). -/
def files (entries : Str → Str → List Str) (dirPath str : Str) : List Str :=
  let (path, pat) := searchPath dirPath str
  (entries path pat).map fun name => shorten dirPath (entryPath path name)

end Jom.Wildcards
