/-!
# Typlite: from typst to Markdown

Models `crates/typlite/src/lib.rs` (`TypliteWorker`), `value.rs` (`Args`, `Value`) and `library.rs`. A file is the syntax tree of
its markup, with the nodes grouped by what the worker does with them. Not modelled: `#example`, scopes other than the library,
and spread arguments, which the worker ignores.
-/
namespace Tinymist.Typlite

abbrev Text := List Char

/-- What is called. -/
inductive Callee where
  | ident (name : Text)
  | field (target name : Text)
  | other
deriving DecidableEq, Repr

/-- Syntax nodes by what `eval` does with them (lib.rs 157-333). -/
inductive Node where
  /-- Text, spaces, paragraph breaks, escapes, shorthands, quotes, references, markers, punctuation and keywords. -/
  | text (s : Text)
  /-- `\`. -/
  | linebreak
  | hash
  /-- Code that is ignored: definitions, rules, imports, control flow, operators, labels, comments. -/
  | code (src : Text)
  /-- Ignored as well, and not kept for rendering: names, booleans, numbers, dictionaries (lib.rs 320-324). -/
  | quiet
  | int (n : Int)
  | array (n : Nat)
  | str (value : Text)
  | closure (src : Text) (body : Node)
  /-- Errors of the syntax and nodes that are not converted by themselves. -/
  | error
  | strong (body : List Node)
  | emph (body : List Node)
  | heading (level : Nat) (body : List Node)
  | item (body : List Node)
  | enum (number : Option Nat) (body : List Node)
  /-- Markup, code, items of terms. -/
  | group (children : List Node)
  /-- Blocks and parentheses: what is inside of them. -/
  | wrap (src : Text) (body : Node)
  /-- Raw text with its language, its lines and all of it. -/
  | raw (lang : Option Text) (block : Bool) (lines : List Text) (src : Text)
  | link (url : Text)
  | equation (src : Text) (block : Bool)
  | context (src : Text)
  /-- The file, if it is found. -/
  | incl (file : Option Nat)
  | call (src : Text) (callee : Callee) (pos : List Node) (named : List (Text × Node))

/-- `Value` (value.rs 9-16) without functions. -/
inductive Value where
  | none
  | str (s : Text)
  | content (s : Text)
  | image (path alt : Text)
deriving DecidableEq, Repr

/-- Why a conversion ends without a result. -/
inductive Stop where
  | error
  | panic
  /-- More turns are needed than were given. -/
  | deep
deriving DecidableEq, Repr

/-- `ColorTheme` (lib.rs 45-50). -/
inductive Theme where
  | dark
  | light
deriving DecidableEq, Repr

/-- The parts of `TypliteWorker` that change (lib.rs 137-146), and the files written, in order, with their data. -/
structure Worker where
  depth : Nat
  prepend : Text
  assets : Nat
  writes : List (Text × Text)
deriving DecidableEq, Repr

/-- The parts that do not change: the features (lib.rs 52-69), the files, and what is outside of the code. `svg` compiles code
after other code with a theme to a picture, or says what is wrong (`render_inner`, lib.rs 553-672, before the file is written), and
`base64` encodes it. Writing files does not fail. -/
structure Env where
  gfm : Bool
  annotate : Bool
  removeHtml : Bool
  softError : Bool
  theme : Option Theme
  assetsPath : Option Text
  assetsSrc : Option Text
  file : Nat → List Node
  svg : Text → Text → Theme → Except Text Text
  base64 : Text → Text

abbrev M (α : Type) := Worker → Except Stop (α × Worker)

def ret {α : Type} (a : α) : M α := fun w => .ok (a, w)
def fail {α : Type} (e : Stop) : M α := fun _ => .error e
def andThen {α β : Type} (m : M α) (f : α → M β) : M β := fun w =>
  match m w with
  | .ok (a, w) => f a w
  | .error e => .error e

instance : Monad M where
  pure := ret
  bind := andThen

/-- `TypliteWorker::value` (lib.rs 686-694). -/
def value : Value → Text
  | .none => []
  | .content s => s
  | .str s => s
  | .image path alt => ['!', '['] ++ alt ++ [']', '('] ++ path ++ [')']

/-- `reduce` (lib.rs 335-344). -/
def reduceWith (ev : Node → M Value) : List Node → M Text
  | [] => ret []
  | c :: cs => andThen (ev c) fun v => andThen (reduceWith ev cs) fun r => ret (value v ++ r)

/-! ## Leaves -/

/-- `to_raw_block` (lib.rs 346-372), of equations and `context`. -/
def toRawBlock (src : Text) (inline : Bool) : Text :=
  if inline then ['`'] ++ src ++ ['`'] else ['`', '`', '`', 't', 'y', 'p', 'c', '\n'] ++ src ++ ['\n', '`', '`', '`']

def typlite : Text := ['t', 'y', 'p', 'l', 'i', 't', 'e']

/-- `raw` (lib.rs 743-771). -/
def rawText (lang : Option Text) (block : Bool) (lines : List Text) (src : Text) : Text :=
  if lang = some typlite then lines.flatMap (· ++ ['\n'])
  else if block then src
  else ['`'] ++ lines.flatten ++ ['`']

/-- Decimal digits. -/
def digits (n : Nat) : Text := Nat.toDigits 10 n

/-- The marks around an item (lib.rs 808-815): `word` is `begin` or `end`. -/
def mark (word : Text) (depth : Nat) : Text :=
  "<!-- typlite:".toList ++ word ++ ":list-item ".toList ++ digits depth ++ " -->".toList

/-- `trim_end_matches('#')`. -/
def trimHash (s : Text) : Text := (s.reverse.dropWhile (· = '#')).reverse

/-- `{:?}` of a theme. -/
def themeName : Theme → Text
  | .dark => ['D', 'a', 'r', 'k']
  | .light => ['L', 'i', 'g', 'h', 't']

/-- The name of the file of a picture (lib.rs 663). -/
def svgName (dir : Text) (number : Nat) (theme : Theme) : Text :=
  dir ++ ['/'] ++ digits number ++ ['_'] ++ themeName theme ++ ['.', 's', 'v', 'g']

/-- The name of the file of the code of a picture (lib.rs 384-386). -/
def srcName (dir : Text) (number : Nat) : Text := dir ++ ['/'] ++ digits number ++ ['.', 't', 'y', 'p']

/-- `render_inner` (lib.rs 553-672): the picture is written to a file, and its name is the result, or it is the result itself. -/
def renderInner (env : Env) (prepend code : Text) (theme : Theme) (w : Worker) : Except Text (Text × Worker) :=
  match env.svg prepend code theme with
  | .error e => .error e
  | .ok svg =>
    match env.assetsPath with
    | some dir =>
      .ok (svgName dir w.assets theme, { w with writes := w.writes ++ [(svgName dir w.assets theme, svg)] })
    | none => .ok (env.base64 svg, w)

/-- `write_error` (lib.rs 426-429). -/
def errorText (err : Text) : Text :=
  ['`', '`', '`', '\n'] ++ "Render Error".toList ++ ['\n'] ++ err.flatMap (fun c => if c = '`' then ['\\', '`'] else [c]) ++
    ['\n', '`', '`', '`']

/-- `inline_attrs` (lib.rs 420-424). -/
def inlineAttrs (inline : Bool) : Text := if inline then " style=\"vertical-align: -0.35em\"".toList else []

/-- `write_image` (lib.rs 431-451) and the image with the data in it (lib.rs 505-508); `extra_attrs` is empty. -/
def imageText (inline : Bool) (src : Text) : Text :=
  "<img".toList ++ inlineAttrs inline ++ " alt=\"typst-block\" src=\"".toList ++ src ++ "\" />".toList

/-- `write_picture` (lib.rs 453-474) and the picture with the data in it (lib.rs 543-546). -/
def pictureText (inline : Bool) (dark light : Text) : Text :=
  "<picture><source media=\"(prefers-color-scheme: dark)\" srcset=\"".toList ++ dark ++ "\">".toList ++
    imageText inline light ++ "</picture>".toList

/-- The link to the code around a picture in a file (lib.rs 436-450). -/
def linked (code : Option Text) (body : Text) : Text :=
  match code with
  | some c => "<a href=\"".toList ++ c ++ "\">".toList ++ body ++ "</a>".toList
  | none => body

/-- The paragraph around what is not in a line (lib.rs 487-489, 510-512). -/
def aligned (inline : Bool) (body : Text) : Text :=
  if inline then body else "<p align=\"center\">".toList ++ body ++ "</p>".toList

def dataUrl (data : Text) : Text := "data:image/svg+xml;base64,".toList ++ data

/-- What a failed rendering gives (lib.rs 480-483). -/
def renderFailed (env : Env) (err : Text) (w : Worker) : Except Stop (Text × Worker) :=
  if env.softError then .ok (errorText err, w) else .error .error

/-- `render_code` (lib.rs 397-551), of code that is not markup. -/
def renderCode (env : Env) (prepend code : Text) (inline : Bool) : M Text := fun w =>
  let codeFile := env.assetsSrc.map (srcName · w.assets)
  match env.theme with
  | some theme =>
    match renderInner env prepend code theme w with
    | .error e => renderFailed env e w
    | .ok (data, w) =>
      match env.assetsPath with
      | some dir =>
        .ok (aligned inline (linked codeFile (imageText inline (svgName dir w.assets theme))),
          { w with writes := w.writes ++ [(svgName dir w.assets theme, data)] })
      | none => .ok (aligned inline (imageText inline (dataUrl data)), w)
  | none =>
    match renderInner env prepend code .dark w with
    | .error e => renderFailed env e w
    | .ok (dark, w) =>
      match renderInner env prepend code .light w with
      | .error e => renderFailed env e w
      | .ok (light, w) =>
        match env.assetsPath with
        | some dir =>
          .ok (aligned inline (linked codeFile (pictureText inline (svgName dir w.assets .dark) (svgName dir w.assets .light))), w)
        | none => .ok (aligned inline (pictureText inline (dataUrl dark) (dataUrl light)), w)

/-- `render` (lib.rs 374-395). -/
def renderPiece (env : Env) (prepend code : Text) (inline : Bool) : M Text := fun w =>
  let w := { w with assets := w.assets + 1 }
  let w :=
    match env.assetsSrc with
    | some dir =>
      { w with writes := w.writes ++ [(srcName dir w.assets, "#{\n// render_code\n".toList ++ code ++ "\n}".toList)] }
    | none => w
  renderCode env prepend code inline w

/-! ## The library -/

/-- `Args::get` (value.rs 74-84): the argument with this name, or the next one by position; with those that are left. -/
def getArg (key : Text) (pos : List Node) (named : List (Text × Node)) : Option (Node × List Node) :=
  match named.find? fun p => p.1 = key with
  | some p => some (p.2, pos)
  | none =>
    match pos with
    | [] => none
    | p :: ps => some (p, ps)

/-- `Eval for EcoString` (value.rs 148-155). -/
def asStr : Node → M Text
  | .str v => ret v
  | _ => fail .error

/-- An argument, or an error. -/
def arg (key : Text) (pos : List Node) (named : List (Text × Node)) : M (Node × List Node) :=
  match getArg key pos named with
  | some r => ret r
  | none => fail .error

/-- The backticks counted by `raw` (library.rs 68-77): the run at the end is not looked at. -/
def longestRun (content : Text) : Nat :=
  (content.foldl (fun (acc : Nat × Nat) c => if c = '`' then (acc.1, acc.2 + 1) else (max acc.1 acc.2, 0)) (0, 0)).1

/-- The function `raw` (library.rs 65-83). -/
def rawCall (content : Text) : Text :=
  let fence := List.replicate (max (longestRun content + 1) 3) '`'
  fence ++ ['\n'] ++ content ++ ['\n'] ++ fence

/-- `str::lines`: without the line breaks, and without an empty last line. -/
def strLines : Text → List Text
  | [] => []
  | c :: s =>
    if c = '\n' then [] :: strLines s
    else
      match strLines s with
      | [] => [[c]]
      | l :: ls => if s.head? = some '\n' ∧ c = '\r' then [] :: ls else (c :: l) :: ls

/-- `note_box` (library.rs 147-160). -/
def noteBox (title body : Text) : Text :=
  ['>', ' ', '[', '!'] ++ title ++ [']', '\n'] ++ (strLines body).flatMap fun l => ['>', ' '] ++ l ++ ['\n']

/-- `slice::chunks`; `fuel` is the number of cells. -/
def chunks (n : Nat) : Nat → List Text → List (List Text)
  | _, [] => []
  | 0, _ => []
  | fuel + 1, c :: cs => (c :: cs).take n :: chunks n fuel ((c :: cs).drop n)

/-- The text of a table (library.rs 237-253). -/
def tableText (columns : Nat) (header cells : List Text) : Text :=
  "<table>\n".toList ++
  (if header.isEmpty then [] else
    "  <thead>\n    <tr>\n".toList ++ header.flatMap (fun c => "      <th>".toList ++ c ++ "</th>\n".toList) ++
      "    </tr>\n  </thead>\n".toList) ++
  "  <tbody>\n".toList ++
  (chunks columns cells.length cells).flatMap (fun row =>
    "    <tr>\n".toList ++ row.flatMap (fun c => "      <td>".toList ++ c ++ "</td>\n".toList) ++ "    </tr>\n".toList) ++
  "  </tbody>\n</table>".toList

/-- The number of columns (library.rs 173-187). -/
def columnsOf (named : List (Text × Node)) : M Nat :=
  match named.find? fun p => p.1 = "columns".toList with
  | none => ret 1
  | some (_, .array n) => ret n
  | some (_, .int n) => if n < 0 then fail .panic else ret n.toNat
  | some _ => fail .error

/-- All arguments by position, evaluated. -/
def evalAll (ev : Node → M Value) : List Node → M (List Text)
  | [] => ret []
  | p :: ps => andThen (ev p) fun v => andThen (evalAll ev ps) fun r => ret (value v :: r)

/-- The loop over the arguments of a table (library.rs 209-235): the header and the cells. -/
def tableArgs (ev : Node → M Value) (kind : Text) : List Node → List Text → List Text → M (List Text × List Text)
  | [], header, cells => ret (header, cells)
  | p :: ps, header, cells =>
    match p with
    | .call _ callee pos _ =>
      if callee = .field kind "header".toList then
        andThen (evalAll ev pos) fun h => tableArgs ev kind ps (header ++ h) cells
      else
        andThen (ev p) fun v =>
          if callee = .field kind "footer".toList then
            andThen (evalAll ev pos) fun f => tableArgs ev kind ps header (cells ++ [value v] ++ f)
          else tableArgs ev kind ps header (cells ++ [value v])
    | _ => andThen (ev p) fun v => tableArgs ev kind ps header (cells ++ [value v])

/-- `table_eval` (library.rs 172-256). -/
def table (ev : Node → M Value) (kind : Text) (pos : List Node) (named : List (Text × Node)) : M Value :=
  andThen (columnsOf named) fun columns =>
    andThen (tableArgs ev kind pos [] []) fun (header, cells) =>
      if columns = 0 then fail .panic else ret (.content (tableText columns header cells))

/-- An argument that is converted to content (`Eval for Content`, value.rs 163-167). -/
def contentArg (ev : Node → M Value) (key : Text) (pos : List Node) (named : List (Text × Node)) : M Text :=
  andThen (arg key pos named) fun (n, _) => andThen (ev n) fun v => ret (value v)

/-- The functions of `library` (library.rs 11-170). The caption of a figure has nothing that `{:?}` escapes. -/
def library (gfm : Bool) (ev : Node → M Value) (name : Text) (pos : List Node) (named : List (Text × Node)) : M Value :=
  if name = "link".toList then
    andThen (arg "dest".toList pos named) fun (d, pos) => andThen (asStr d) fun dest =>
      andThen (contentArg ev "body".toList pos named) fun body =>
        ret (.content (['['] ++ body ++ [']', '('] ++ dest ++ [')']))
  else if name = "kbd".toList then
    andThen (arg "key".toList pos named) fun (k, _) => andThen (asStr k) fun key =>
      ret (.content ("<kbd>".toList ++ key ++ "</kbd>".toList))
  else if name = "md-alter".toList then
    andThen (arg "left".toList pos named) fun (_, pos) => andThen (arg "right".toList pos named) fun (r, _) =>
      andThen (ev (match r with | .closure _ body => body | r => r)) fun v => ret (.content (value v))
  else if name = "image".toList then
    andThen (arg "path".toList pos named) fun (p, _) => andThen (asStr p) fun path =>
      match named.find? fun p => p.1 = "alt".toList with
      | some a => andThen (asStr a.2) fun alt => ret (.image path alt)
      | none => ret (.image path [])
  else if name = "figure".toList then
    andThen (arg "path".toList pos named) fun (b, _) => andThen (ev b) fun body =>
      match named.find? fun p => p.1 = "caption".toList with
      | none =>
        match body with
        | .image path alt => ret (.content (value (.image path alt)))
        | _ => fail .error
      | some c => andThen (ev c.2) fun caption =>
        match body with
        | .image path alt =>
          ret (.content (['!', '['] ++ value caption ++ [',', ' '] ++ alt ++ [']', '('] ++ path ++
            (if gfm then [' ', '"'] ++ value caption ++ ['"'] else []) ++ [')']))
        | _ => fail .error
  else if name = "raw".toList then
    andThen (arg "content".toList pos named) fun (c, _) => andThen (asStr c) fun content => ret (.content (rawCall content))
  else if name = "strike".toList then
    andThen (contentArg ev "body".toList pos named) fun body => ret (.content (['~', '~'] ++ body ++ ['~', '~']))
  else if name = "pad".toList then andThen (arg "path".toList pos named) fun (b, _) => ev b
  else if name = "note-box".toList then
    andThen (contentArg ev "body".toList pos named) fun body => ret (.content (noteBox "NOTE".toList body))
  else if name = "tip-box".toList then
    andThen (contentArg ev "body".toList pos named) fun body => ret (.content (noteBox "TIP".toList body))
  else if name = "important-box".toList then
    andThen (contentArg ev "body".toList pos named) fun body => ret (.content (noteBox "IMPORTANT".toList body))
  else if name = "warning-box".toList then
    andThen (contentArg ev "body".toList pos named) fun body => ret (.content (noteBox "WARNING".toList body))
  else if name = "caution-box".toList then
    andThen (contentArg ev "body".toList pos named) fun body => ret (.content (noteBox "CAUTION".toList body))
  else if name = "table".toList ∨ name = "grid".toList then table ev name pos named
  else fail .error

/-! ## Evaluation -/

/-- The text of a node that may be kept for rendering, and whether it is a hash (lib.rs 319-331). -/
def noted : Node → Option Text
  | .hash => some ['#']
  | .code src => some (src ++ ['\n'])
  | .closure src _ => some (src ++ ['\n'])
  | .wrap src _ => some (src ++ ['\n'])
  | .call src .. => some (src ++ ['\n'])
  | _ => none

/-- The end of `eval` (lib.rs 319-333): nodes without a value are kept. -/
def note (n : Node) (v : Value) : M Value := fun w =>
  match v, noted n with
  | .none, some t => .ok (v, { w with prepend := w.prepend ++ t })
  | _, _ => .ok (v, w)

/-- The middle of `eval` (lib.rs 157-318) and the functions it calls (lib.rs 696-881). -/
def step (env : Env) (ev : Node → M Value) : Node → M Value
  | .text s => ret (.content s)
  | .linebreak => ret (.content ['\n'])
  | .hash => ret .none
  | .code _ => ret .none
  | .quiet => ret .none
  | .int _ => ret .none
  | .array _ => ret .none
  | .str v => ret (.str v)
  | .closure _ _ => ret .none
  | .error => fail .error
  | .strong body => andThen (reduceWith ev body) fun t => ret (.content (['*', '*'] ++ t ++ ['*', '*']))
  | .emph body => andThen (reduceWith ev body) fun t => ret (.content (['_'] ++ t ++ ['_']))
  | .heading level body => andThen (reduceWith ev body) fun t => ret (.content (List.replicate level '#' ++ [' '] ++ t))
  | .item body => fun w =>
    if env.annotate then
      match reduceWith ev body { w with depth := w.depth + 1 } with
      | .ok (t, w') =>
        .ok (.content (['-', ' '] ++ mark "begin".toList w.depth ++ t ++ mark "end".toList (w'.depth - 1)),
          { w' with depth := w'.depth - 1 })
      | .error e => .error e
    else
      match reduceWith ev body w with
      | .ok (t, w') => .ok (.content (['-', ' '] ++ t), w')
      | .error e => .error e
  | .enum number body => andThen (reduceWith ev body) fun t =>
    ret (.content ((match number with | some n => digits n | none => ['1']) ++ ['.', ' '] ++ t))
  | .group cs => andThen (reduceWith ev cs) fun t => ret (.content t)
  | .wrap _ body => ev body
  | .raw lang block lines src => ret (.content (rawText lang block lines src))
  | .link url => ret (.content (if env.gfm then url else ['['] ++ url ++ [']', '('] ++ url ++ [')']))
  | .equation src block =>
    if env.removeHtml then ret (.content (toRawBlock src (!block)))
    else andThen (renderPiece env [] src (!block)) fun t => ret (.content t)
  | .context src => fun w =>
    if env.removeHtml then .ok (.content (toRawBlock src false), w)
    else andThen (renderPiece env (trimHash w.prepend) src false) (fun t => ret (.content t)) { w with prepend := trimHash w.prepend }
  | .incl file => fun w =>
    match file with
    | none => .error .error
    | some i =>
      match reduceWith ev (env.file i) w with
      | .ok (t, w') => .ok (.content t, { w with writes := w'.writes })
      | .error e => .error e
  | .call _ callee pos named =>
    match callee with
    | .ident name => library env.gfm ev name pos named
    | _ => ret .none

/-- `eval` (lib.rs 155-333); `fuel` bounds the depth of the calls. -/
def eval (env : Env) : Nat → Node → M Value
  | 0, _ => fail .deep
  | fuel + 1, n => andThen (step env (eval env fuel) n) (note n)

/-- `Typlite::convert` (lib.rs 106-132) of the file `main`. -/
def convert (env : Env) (fuel main : Nat) : Except Stop Text :=
  match reduceWith (eval env fuel) (env.file main) ⟨0, [], 0, []⟩ with
  | .ok (t, _) => .ok t
  | .error e => .error e

end Tinymist.Typlite
