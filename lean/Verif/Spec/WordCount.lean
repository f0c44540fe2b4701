import Verif.Model.WordCount

/-!
# Words, by runs of characters of one kind
-/

namespace Tinymist.WordCount

/-- White space, characters of the CJK scripts, and all others. -/
inductive Kind where
  | space
  | cjk
  | other
deriving DecidableEq

/-- The kind of a character; white space first. -/
def kind (isSpace isCjk : Char → Bool) (c : Char) : Kind :=
  if isSpace c then .space else if isCjk c then .cjk else .other

/-- A text cut into maximal runs: no run is empty, all characters of a run are
of its kind, and neighbours are of different kinds. -/
inductive Runs (isSpace isCjk : Char → Bool) : List (Kind × List Char) → Prop
  | nil : Runs isSpace isCjk []
  | cons (k : Kind) (r : List Char) (rs : List (Kind × List Char)) (hne : r ≠ [])
      (hk : ∀ c ∈ r, kind isSpace isCjk c = k) (hd : ∀ p, rs.head? = some p → p.1 ≠ k)
      (h : Runs isSpace isCjk rs) : Runs isSpace isCjk ((k, r) :: rs)

/-- The text of the runs. -/
def joined (rs : List (Kind × List Char)) : List Char := rs.flatMap (·.2)

/-- How many runs of a kind there are. -/
def runsOf (k : Kind) (rs : List (Kind × List Char)) : Nat := (rs.filter (fun p => p.1 = k)).length

/-- How many characters there are in the runs of a kind. -/
def charsOf (k : Kind) (rs : List (Kind × List Char)) : Nat :=
  ((rs.filter (fun p => p.1 = k)).flatMap (·.2)).length

/-- The pieces of text of a frame in reading order, with the breaks the layout
asks for. -/
inductive FramePieces : List Item → List (List Char) → Prop
  | nil : FramePieces [] []
  | text {t is ps} (h : FramePieces is ps) : FramePieces (.text t :: is) (t :: ps)
  | other {is ps} (h : FramePieces is ps) : FramePieces (.other :: is) ps
  | group {js qs hint is ps} (hg : FramePieces js qs) (h : FramePieces is ps) :
      FramePieces (.group js hint :: is) (qs ++ hint.toList.map ([·]) ++ ps)

/-- The pieces of the pages of a document. -/
inductive PagePieces : List Frame → List (List Char) → Prop
  | nil : PagePieces [] []
  | page {f ps fs qs} (hf : FramePieces f.items ps) (h : PagePieces fs qs) :
      PagePieces (f :: fs) (ps ++ f.hint.toList.map ([·]) ++ qs)

/-- The pieces of an HTML document. -/
inductive NodePieces : List Node → List (List Char) → Prop
  | nil : NodePieces [] []
  | tag {ns ps} (h : NodePieces ns ps) : NodePieces (.tag :: ns) ps
  | text {t ns ps} (h : NodePieces ns ps) : NodePieces (.text t :: ns) (t :: ps)
  | element {cs qs ns ps} (hc : NodePieces cs qs) (h : NodePieces ns ps) : NodePieces (.element cs :: ns) (qs ++ ps)
  | frame {f qs ns ps} (hf : FramePieces f.items qs) (h : NodePieces ns ps) :
      NodePieces (.frame f :: ns) (qs ++ f.hint.toList.map ([·]) ++ ps)

/-- The pieces of text of a document. -/
def DocPieces : Doc → List (List Char) → Prop
  | .paged pages, ps => PagePieces pages ps
  | .html root, ps => NodePieces root ps

end Tinymist.WordCount
