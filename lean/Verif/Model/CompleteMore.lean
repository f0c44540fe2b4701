import Verif.Model.Complete
import Verif.Model.Rename
/-!
# More of completion

Postfix snippets, function calls written behind their argument, the contexts of snippets, paths, import items, packages
and labels: `crates/tinymist-query/src/analysis/completion/` and `completion/snippet.rs`.
-/
namespace Tinymist.Complete
open Position (len8)
open RustNum (print)

/-! ## Postfix snippets -/

/-- `str::contains`. -/
def occurs (needle : Text) : Text → Bool
  | [] => needle.isEmpty
  | c :: s => needle.isPrefixOf (c :: s) || occurs needle s

def nodeWord : Text := ['n', 'o', 'd', 'e']

/-- `ParsedSnippet` (`completion/snippet.rs` 124-130). -/
structure Parsed where
  before : Text
  beforeCursor : Option Text
  after : Text
deriving DecidableEq, Repr

/-- The parser of postfix snippets (`analysis/completion/snippet.rs` 107-136); `error`: `split[0]` panics. -/
def parsePostfix (s : Text) : Except Unit (Option Parsed) :=
  let hs := holes [] s
  if hs.length > 2 then .ok none
  else
    match hs with
    | [] => .error ()
    | (b0, p0, r0) :: more =>
      if occurs nodeWord b0 then .ok (some ⟨p0, none, r0⟩)
      else
        match more with
        | [] => .ok none
        | (_, p1, r1) :: _ => .ok (some ⟨p1.drop p0.length, some p0, r1⟩)

/-- The completion made of a parsed snippet for the node at `start` (`analysis/completion/snippet.rs` 147-185). -/
def postfixItem (c : Cursor) (label : Text) (start : Nat) (node : Text) (p : Parsed) : Item :=
  match p.beforeCursor with
  | some bb => ⟨label, none, mainEdit c (bb ++ p.before ++ node ++ p.after), [⟨start, c.frm, []⟩]⟩
  | none => ⟨label, none, mainEdit c p.after, [⟨start, start, p.before⟩, ⟨start + len8 node, c.frm, []⟩]⟩

/-! ## Functions behind their argument -/

/-- What `FnCompletionFeat` says of a function (`completion/kind.rs` 70-238), as far as it matters here. -/
structure Takes where
  minPos : Nat
  minNamed : Nat
  content : Bool
deriving DecidableEq, Repr

/-- `check_sig` (`completion/kind.rs` 224-238) for a signature with that many positional and named parameters, of which
the next one takes content or not. -/
def takesStep (acc : Option Takes) (s : Nat × Nat × Bool) : Option Takes :=
  match acc with
  | none => some ⟨s.1, s.2.1, s.2.2⟩
  | some a => some ⟨min a.minPos s.1, min a.minNamed s.2.1, a.content || s.2.2⟩

/-- The loop of `FnCompletionFeat::check` (`completion/kind.rs` 81-87) and the defaults of `min_pos` and `min_named`. -/
def takes (sigs : List (Nat × Nat × Bool)) : Takes := (sigs.foldl takesStep none).getD ⟨0, 0, false⟩

/-- `ufcs_completions` for one function (`analysis/completion/snippet.rs` 237-303). `ufcs`, `left`, `right`: the
settings; `block`: the node is a content block. -/
def ufcsItems (c : Cursor) (start : Nat) (node name : Text) (block ufcs left right : Bool) (f : Takes) : List Item :=
  let lb : Text := if block then [] else ['(']
  let rb : Text := if block then [] else [')']
  if f.minPos < 1 ∨ f.content = false then []
  else
    let more : Bool := decide (f.minPos > 1 ∨ f.minNamed > 0)
    (if ufcs ∧ f.minPos = 1 then
      [⟨name, none, mainEdit c [], [⟨start, start, name ++ lb⟩, ⟨start + len8 node, c.frm, rb⟩]⟩] else []) ++
    (if left ∧ more then
      [⟨name ++ ['('], none,
        mainEdit c (if block then ['(', '$', '{', '}', ')'] ++ node else ['$', '{', '}', ',', ' '] ++ node ++ [')']),
        [⟨start, c.frm, name ++ lb⟩]⟩] else []) ++
    (if right ∧ more then
      [⟨name ++ [')'], none, mainEdit c ['$', '{', '}', ')'],
        [⟨start, start, name ++ ['(']⟩, ⟨start + len8 node, c.frm, []⟩]⟩] else [])

/-- The types of interest to `CompletionKindChecker`: a symbol, a function, anything else, or a variable with its
bounds, upper ones first. -/
inductive KindTy where
  | symbol
  | func
  | other
  | bounds (ts : List KindTy)

mutual
/-- `CompletionKindChecker::check` (`completion/kind.rs` 20-65): whether symbols and functions were found. -/
def kindCheck : KindTy → Bool × Bool
  | .symbol => (true, false)
  | .func => (false, true)
  | .other => (false, false)
  | .bounds ts => kindChecks (false, false) ts
/-- The loop over the bounds; each check resets what was found. -/
def kindChecks : Bool × Bool → List KindTy → Bool × Bool
  | acc, [] => acc
  | _, t :: ts => kindChecks (kindCheck t) ts
end

/-! ## Contexts of snippets -/

/-- `ContextSelector` (`completion/snippet.rs` 28-32). -/
inductive Selector (α : Type) where
  | positive (x : Option α)
  | negative (xs : List α)

/-- The keys a selector stands for, of all values (`completion/snippet.rs` 184-199). -/
def Selector.expand {α} [DecidableEq α] (all : List α) : Selector α → List (Option α)
  | .positive x => [x]
  | .negative xs => (all.filter fun m => !xs.any (· == m)).map some

/-- `InterpretMode` (`syntax/matcher.rs` 316-329). -/
inductive Mode where
  | comment | string | raw | markup | code | math
deriving DecidableEq, Repr

/-- `SurroundingSyntax` (`syntax/matcher.rs` 892-907). -/
inductive Around where
  | regular | stringContent | selector | showTransform | importList | setRule | paramList
deriving DecidableEq, Repr

def allModes : List Mode := [.comment, .string, .raw, .markup, .code, .math]
def allArounds : List Around := [.regular, .stringContent, .selector, .showTransform, .importList, .setRule, .paramList]

/-- `applies_to` (`completion/snippet.rs` 178-210). -/
def appliesTo (contexts : List (Selector Mode × Selector Around)) (key : Option Mode × Option Around) : Bool :=
  contexts.any fun c =>
    (c.1.expand allModes).any fun m => (c.2.expand allArounds).any fun s => (m, s) == key

/-- The keys of `snippet_completions` (`analysis/completion/snippet.rs` 34-44). -/
def contextKeys (mode : Option Mode) (around : Option Around) : List (Option Mode × Option Around) :=
  [(mode, around)] ++ (if mode.isSome then [(none, around)] else []) ++
    (if around.isSome then [(mode, none)] ++ (if mode.isSome then [(none, none)] else []) else [])

/-- Whether `snippet_completions` offers a snippet (`analysis/completion/snippet.rs` 44-49). -/
def offers (contexts : List (Selector Mode × Selector Around)) (mode : Option Mode) (around : Option Around) : Bool :=
  (contextKeys mode around).any (appliesTo contexts)

/-! ## Paths -/

/-- `is_dot_or_slash` and the count of such characters in front (`completion/path.rs` 95-106). -/
def dots (s : Text) : Nat := (s.takeWhile fun c => c = '.' ∨ c = '/').length

/-- `path_priority_cmp` (`completion/path.rs` 99-111): not greater. -/
def pathLe (a b : Text) : Bool :=
  if (a.head? = some '.' ∨ b.head? = some '.') ∧ dots a ≠ dots b then decide (dots a < dots b)
  else decide (a ≤ b)

/-- The text of a path inside of the project, as `as_rooted_path` has it. -/
def rooted (p : List Text) : Text := Paths.collect (.root :: p.map .normal)

/-- The label of a file (`completion/path.rs` 70-83) in a file in the directory `dir`; `none`: no completions at all. -/
def pathLabel (hasRoot : Bool) (dir p : List Text) : Option Text :=
  if hasRoot then some (Paths.unixSlash (rooted p))
  else (Paths.diff (rooted p) (rooted dir)).map Paths.unixSlash

/-- `complete_path` (`completion/path.rs` 6-156) at a string from `start` to `stop` without its quotes, or where there is
no string, in the file `dir` and `name`. `typed`: the text of the string before the cursor. -/
def completePath (files : List (List Text)) (dir : List Text) (name : Text) (inText : Bool) (typed : Text)
    (start stop : Nat) : Option (List Item) := do
  let labels ← (files.filter fun p => p ≠ dir ++ [name]).mapM (pathLabel (typed.head? = some '/') dir)
  let labels := labels.mergeSort pathLe
  let digits := (print 10 labels.length).length
  pure (labels.mapIdx fun i l =>
    ⟨l, some (pad digits i), ⟨start, stop, if inText then l else ['"'] ++ l ++ ['"']⟩, []⟩)

/-! ## Imports -/

/-- `import_item_completions` (`completion/import.rs` 92-142): the names offered for a path of modules. `scope`: the names
of the module the path leads to, if it does; `existing`: the paths of the items of the import. -/
def importItems (scope : List Text → Option (List Text)) (existing : List (List Text)) (comps : List Text) : List Text :=
  match scope comps with
  | none => []
  | some names =>
    let seen := existing.flatMap fun item =>
      if item.length = comps.length + 1 ∧ (item.zip comps).all (fun p => p.1 == p.2) then item.getLast?.toList else []
    (if existing.isEmpty then [['*']] else []) ++ names.filter fun n => seen.all (· != n)

/-! ## Packages -/

/-- A package with its version. -/
structure Spec where
  ns : Text
  name : Text
  version : Nat × Nat × Nat
deriving DecidableEq, Repr

def versionLt (a b : Nat × Nat × Nat) : Bool :=
  a.1 < b.1 || (a.1 == b.1 && (a.2.1 < b.2.1 || (a.2.1 == b.2.1 && a.2.2 < b.2.2)))

/-- The order of `sort_by_key` (`typst_specific.rs` 45): newer versions first; not greater. -/
def specLe (a b : Spec) : Bool :=
  if a.ns ≠ b.ns then decide (a.ns ≤ b.ns)
  else if a.name ≠ b.name then decide (a.name ≤ b.name)
  else !versionLt a.version b.version

/-- `dedup_by_key`: drops what has the key of the one kept before. -/
def dedupKey : List Spec → List Spec
  | [] => []
  | [a] => [a]
  | a :: b :: rest =>
    if (a.ns, a.name) = (b.ns, b.name) then dedupKey (a :: rest) else a :: dedupKey (b :: rest)
termination_by l => l.length

/-- `package_completions` (`typst_specific.rs` 29-57): the packages in the order they are added. -/
def packageList (registry locals : List Spec) (allVersions : Bool) : List Spec :=
  let sorted := (registry ++ locals).mergeSort specLe
  if allVersions then sorted else dedupKey sorted

/-! ## Labels -/

/-- A completion for a label: by its own name, or by the title of the work it cites. -/
inductive Offer where
  | label (l : Text)
  | title (t l : Text)
deriving DecidableEq, Repr

/-- The loop of `label_completions_` over the labels (`typst_specific.rs` 112-147). A label has a name and perhaps the
title of the work it cites; `seen` are the labels that were added before. -/
def labelLoop (seen : List Text) : List (Text × Option Text) → List Offer
  | [] => []
  | (l, title) :: rest =>
    if seen.contains l then labelLoop seen rest
    else (match title with | some t => [.title t l] | none => []) ++ .label l :: labelLoop (l :: seen) rest

/-- Which labels are offered (`typst_specific.rs` 93-147): `labels` are those of elements, of which there are `split`, and
then those of the bibliography. -/
def labelList (labels : List (Text × Option Text)) (split : Nat) (at_ onlyCitation refLabel : Bool) : List Offer :=
  labelLoop [] (if at_ || refLabel then labels else if onlyCitation then labels.drop split else labels.take split)

end Tinymist.Complete
