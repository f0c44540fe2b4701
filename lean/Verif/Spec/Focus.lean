import Verif.Model.Focus

/-!
# Which file a history of requests follows
-/

namespace Tinymist.Focus

variable {P : Type}

def isFocus : Op P → Bool
  | .focus _ => true
  | _ => false

def isQuery : Op P → Bool
  | .queried _ => true
  | _ => false

/-- The file a request moves the attention to, given the requests before it:
an explicit request always counts, a query only if there was no explicit request, opening a file only if
there was neither. -/
def attention (before : List (Op P)) : Op P → Option (Option P)
  | .focus p => some p
  | .queried p => if before.any isFocus then none else some (some p)
  | .opened p => if before.any isFocus || before.any isQuery then none else some (some p)
  | _ => none

/-- The file followed after `before ++ ops`, if `cur` is the one followed after
`before`. -/
def followedFrom (before : List (Op P)) (cur : Option P) : List (Op P) → Option P
  | [] => cur
  | op :: ops => followedFrom (before ++ [op]) ((attention before op).getD cur) ops

/-- The file followed after a history: where the last request that counts moved the attention. -/
def followed (ops : List (Op P)) : Option P := followedFrom [] none ops

/-- Requests that only move the attention, and the end of a preview. -/
def Passive : Op P → Bool
  | .focus _ => true
  | .opened _ => true
  | .queried _ => true
  | .previewStop => true
  | _ => false

/-- The entry configured after a history that began with `d`. -/
def configured (d : Option P) (ops : List (Op P)) : Option P :=
  ops.foldl (fun d o => match o with | .configure d' _ => d' | _ => d) d

/-- The last pin request pinned a file, rather than unpinning. -/
def userPinned (ops : List (Op P)) : Bool :=
  ops.foldl (fun b o => match o with | .pin p => p.isSome | _ => b) false

/-- A preview that shows one file runs on the primary project: one was started, of no file or a valid one, that does not
browse, and since then none was started that browses, and none was stopped. -/
def previewPinned (valid : P → Bool) (ops : List (Op P)) : Bool :=
  ops.foldl (fun b o => match o with
    | .previewStart p browsing => if p.all valid then !browsing else b
    | .previewStop => false
    | _ => b) false

/-- Something holds the main file. -/
def held (valid : P → Bool) (d : Option P) (ops : List (Op P)) : Bool :=
  userPinned ops || previewPinned valid ops || (configured d ops).isSome

/-- Whether a request is answered without an error. -/
def accepted (valid : P → Bool) (d : Option P) (ops : List (Op P)) : Op P → Bool
  | .pin p => ((p.or (configured d ops)).or (followed ops)).all valid
  | .focus p => held valid d ops || p.all valid
  | .previewStart p _ => p.all valid
  | _ => true

end Tinymist.Focus
