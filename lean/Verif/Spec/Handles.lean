/- What the operating system can tell about the handles of a process. -/
import Verif.Model.Handles

namespace Jom.Spec.Handles

open Jom.Handles

/-- The handles that are open (newest event first). -/
def openIn : List Os → List Nat
  | [] => []
  | .opened h _ :: l => h :: openIn l
  | .closed h :: l => (openIn l).erase h
  | _ :: l => openIn l

/-- The number of processes that were created. -/
def createdIn (l : List Os) : Nat := l.countP fun | .created .. => true | _ => false

/-- The number of processes whose end has been handled. -/
def endedIn (l : List Os) : Nat := l.countP fun | .ended _ => true | _ => false

/-- The number of processes that were created and whose end has not been handled. -/
def runningIn (l : List Os) : Int := createdIn l - endedIn l

/-- The number of failed attempts to create a process. -/
def failures (l : List Os) : Nat := l.countP fun | .notCreated _ => true | _ => false

end Jom.Spec.Handles
