import Verif.Model.Config

/-!
# What settings mean

The table of the settings: for each what a value says and what holds without one. Nothing here uses the functions of the
model; of the model only the data types and the parameters (`Serde`, `Session`) occur. -/

namespace Tinymist.Config

open Tinymist.Paths

/-! ## Values -/

/-- A truth value. -/
inductive IsBool : Json → Bool → Prop
  | mk (b : Bool) : IsBool (.bool b) b

/-- A truth value or nothing. -/
inductive IsOptBool : Json → Option Bool → Prop
  | nothing : IsOptBool .null none
  | mk (b : Bool) : IsOptBool (.bool b) (some b)

/-- A text or nothing. -/
inductive IsOptStr : Json → Option String → Prop
  | nothing : IsOptStr .null none
  | mk (s : String) : IsOptStr (.str s) (some s)

/-- A number of 32 bits or nothing. -/
inductive IsOptNum : Json → Option Nat → Prop
  | nothing : IsOptNum .null none
  | mk (n : Nat) (h : n < 2 ^ 32) : IsOptNum (.num n) (some n)

/-- A list of paths. -/
inductive IsPaths : Json → List Text → Prop
  | mk (ps : List String) : IsPaths (.arr (ps.map .str)) (ps.map String.toList)

/-- A list of texts or nothing. -/
inductive IsArgs : Json → Option (List String) → Prop
  | nothing : IsArgs .null none
  | mk (ps : List String) : IsArgs (.arr (ps.map .str)) (some ps)

/-- A value of a type with a decoder. -/
def Decoded (dec : Json → Option α) : Json → α → Prop := fun v a => dec v = some a

/-- The value of the setting `key`: the given one if it can be read, and `dflt` otherwise. -/
inductive Means (m : Map) (key : String) (R : Json → α → Prop) (dflt : α) : α → Prop
  | given (v : Json) (a : α) (h : m.lookup key = some v) (r : R v a) : Means m key R dflt a
  | unset (h : ∀ v, m.lookup key = some v → ∀ a, ¬ R v a) : Means m key R dflt dflt

/-! ## The settings -/

/-- The extra arguments: parsed; when they do not parse, the arguments without them. -/
def Extra (σ : Serde) (m : Map) (e : ExtraArgs) : Prop :=
  ∃ args, Means m "typstExtraArgs" IsArgs none args ∧
    (σ.cli (args.getD []) = some e ∨
      (σ.cli (args.getD []) = none ∧ ((args.getD [] ≠ [] ∧ σ.cli [] = some e) ∨ (σ.cli [] = none ∧ e = {}))))

/-- The root: the setting `rootPath`, otherwise that of the extra arguments. -/
def Root (σ : Serde) (m : Map) (r : Option Text) : Prop :=
  (∃ s, m.lookup "rootPath" = some (.str s) ∧ r = some s.toList) ∨
  ((∀ s, m.lookup "rootPath" ≠ some (.str s)) ∧ ∃ e, Extra σ m e ∧ r = e.root)

/-- The settings that are accepted: the root, if there is one, is an absolute path. -/
def Acceptable (σ : Serde) (m : Map) : Prop := ∀ r, Root σ m (some r) → r.head? = some '/'

/-- Hovering with a picture of the page: off, on, or on with arguments. -/
def Hover (σ : Serde) (m : Map) (theme : Option String) (p : Option Periscope) : Prop :=
  ∃ q : Option Periscope,
    ((m.lookup "hoverPeriscope" = some (.str "enable") ∧ q = some {}) ∨
      (∃ v a, m.lookup "hoverPeriscope" = some v ∧ (∀ s, v ≠ .str s) ∧ v ≠ .null ∧ σ.periscope v = some a ∧ q = some a) ∨
      (m.lookup "hoverPeriscope" ≠ some (.str "enable") ∧
        (∀ v, m.lookup "hoverPeriscope" = some v → (∀ s, v ≠ .str s) → v ≠ .null → σ.periscope v = none) ∧
        q = none)) ∧
    (q = none → p = none) ∧
    ∀ a, q = some a → p = some { a with
      invertColor := if a.invertColor = "auto" ∧ theme = some "dark" then "always" else a.invertColor }

/-- The settings `c` are those that `m` says. The setting `lint` is not in this table: see `ShowsLint`. -/
structure Shows (σ : Serde) (m : Map) (c : Config) : Prop where
  colorTheme : Means m "colorTheme" IsOptStr none c.colorTheme
  completion : ∃ k, Means m "completion" (Decoded σ.completion) {} k ∧
    c.completion.onPlaceholders = k.onPlaceholders ∧ c.completion.others = k.others
  triggerSuggest : Means m "triggerSuggest" IsBool false c.completion.triggerSuggest
  triggerHints : Means m "triggerParameterHints" IsBool false c.completion.triggerParameterHints
  triggerBoth : Means m "triggerSuggestAndParameterHints" IsBool false c.completion.triggerBoth
  customized : Means m "customizedShowDocument" IsBool false c.customizedShowDocument
  resolution : Means m "projectResolution" (Decoded σ.resolution) .singleFile c.resolution
  exportPdf : Means m "exportPdf" (Decoded σ.when) .never c.exportPdf
  exportTarget : Means m "exportTarget" (Decoded σ.target) .paged c.exportTarget
  fontPaths : Means m "fontPaths" IsPaths [] c.fontPaths
  formatterMode : Means m "formatterMode" (Decoded σ.formatter) .disable c.formatterMode
  printWidth : Means m "formatterPrintWidth" IsOptNum none c.printWidth
  indentSize : Means m "formatterIndentSize" IsOptNum none c.indentSize
  outputPath : Means m "outputPath" (Decoded σ.output) [] c.outputPath
  preview : Means m "preview" (Decoded σ.preview) {} c.preview
  tokens : Means m "semanticTokens" (Decoded σ.tokens) .enable c.tokens
  supportHtml : Means m "supportHtmlInMarkdown" IsBool false c.supportHtml
  systemFonts : Means m "systemFonts" IsOptBool none c.systemFonts
  status : c.notifyStatus = true ↔ m.lookup "compileStatus" = some (.str "enable")
  hover : Hover σ m c.colorTheme c.periscope
  extra : ∃ e, c.extra = some e ∧ Extra σ m e ∧ c.entry = e.entry
  root : Root σ m c.rootPath
  theme : c.lspInputs = [("x-preview", σ.theme (c.colorTheme.getD ""))]

/-- The setting `lint`. -/
def ShowsLint (σ : Serde) (m : Map) (c : Config) : Prop := Means m "lint" (Decoded σ.lint) {} c.lint

/-! ## Unreadable values -/

/-- Whether a setting's value is one of its type. -/
def Readable (σ : Serde) (key : String) (v : Json) : Prop :=
  match key with
  | "colorTheme" => ∃ a, IsOptStr v a
  | "completion" => (σ.completion v).isSome
  | "triggerSuggest" | "triggerParameterHints" | "triggerSuggestAndParameterHints" | "customizedShowDocument"
  | "supportHtmlInMarkdown" => ∃ a, IsBool v a
  | "projectResolution" => (σ.resolution v).isSome
  | "exportPdf" => (σ.when v).isSome
  | "exportTarget" => (σ.target v).isSome
  | "fontPaths" => ∃ a, IsPaths v a
  | "formatterMode" => (σ.formatter v).isSome
  | "formatterPrintWidth" | "formatterIndentSize" => ∃ a, IsOptNum v a
  | "outputPath" => (σ.output v).isSome
  | "preview" => (σ.preview v).isSome
  | "semanticTokens" => (σ.tokens v).isSome
  | "systemFonts" => ∃ a, IsOptBool v a
  | "compileStatus" => v = .str "enable" ∨ v = .str "disable"
  | "hoverPeriscope" => (∃ s, v = .str s) ∨ (σ.periscope v).isSome
  | "typstExtraArgs" => ∃ a, IsArgs v a ∧ (σ.cli (a.getD [])).isSome
  | _ => True

/-! ## Where settings come from -/

/-- The settings an object of the client says: those under `tinymist` take precedence over the others. -/
def Says (top m : Map) : Prop :=
  (∀ n, top.lookup "tinymist" = some (.obj n) → ∀ k, k ≠ "tinymist" → m.lookup k = (n.lookup k).or (top.lookup k)) ∧
  ((∀ n, top.lookup "tinymist" ≠ some (.obj n)) → ∀ k, k ≠ "tinymist" → m.lookup k = top.lookup k)

/-- An object where no setting is both inside and outside of `tinymist`: either there is no object `tinymist`, or there
is nothing else. -/
def Plain (top : Map) : Prop :=
  (∀ n, top.lookup "tinymist" ≠ some (.obj n)) ∨ ∀ k, k ≠ "tinymist" → top.lookup k = none

/-- The settings the values of an answer say: value `2 i` is that of section `tinymist.k` and value `2 i + 1` that of
section `k`. -/
def Answers (items : List String) (vs : List Json) (m : Map) : Prop :=
  ∀ k v, m.lookup k = some v ↔
    ∃ (i : Nat) (a b : Json), items[2 * i]? = some ("tinymist." ++ k) ∧ items[2 * i + 1]? = some k ∧
      vs[2 * i]? = some a ∧ vs[2 * i + 1]? = some b ∧ ((a ≠ .null ∧ v = a) ∨ (a = .null ∧ v = b))

/-- The decoders take nothing for a value: serde's for structures and enumerations do. -/
structure NullUnset (σ : Serde) : Prop where
  completion : σ.completion .null = none
  resolution : σ.resolution .null = none
  when : σ.when .null = none
  target : σ.target .null = none
  formatter : σ.formatter .null = none
  output : σ.output .null = none
  preview : σ.preview .null = none
  lint : σ.lint .null = none
  tokens : σ.tokens .null = none

/-- A client whose settings are `top` answers with `vs` when it is asked for `items`. -/
def Honest (top : Map) (items : List String) (vs : List Json) : Prop :=
  vs.length = items.length ∧
  ∀ (i : Nat) k, items[2 * i]? = some ("tinymist." ++ k) → items[2 * i + 1]? = some k →
    (∀ n, top.lookup "tinymist" = some (.obj n) → vs[2 * i]? = some ((n.lookup k).getD .null)) ∧
    ((∀ n, top.lookup "tinymist" ≠ some (.obj n)) → vs[2 * i]? = some .null) ∧
    vs[2 * i + 1]? = some ((top.lookup k).getD .null)

/-- The settings an event brings. `items` are the sections the server asks for. -/
inductive Brings (items : List String) : Event → Map → Prop
  | changed (top m : Map) (h : Says top m) : Brings items (.changed (.obj top)) m
  | answered (vs : List Json) (m : Map) (h : Answers items vs m) : Brings items (.answered (some vs)) m

/-- The settings in force after the events: the last accepted ones. -/
inductive InForce (σ : Serde) (items : List String) (m₀ : Map) : List Event → Map → Prop
  | start : InForce σ items m₀ [] m₀
  | taken (evs : List Event) (e : Event) (m m' : Map) (h : InForce σ items m₀ evs m) (b : Brings items e m')
      (a : Acceptable σ m') : InForce σ items m₀ (evs ++ [e]) m'
  | refused (evs : List Event) (e : Event) (m : Map) (h : InForce σ items m₀ evs m)
      (a : ∀ m', Brings items e m' → ¬ Acceptable σ m') : InForce σ items m₀ (evs ++ [e]) m

/-- The settings a client starts with. -/
def Begins : Option Json → Map → Prop
  | none, m => m = []
  | some (.obj top), m => Says top m
  | some _, _ => False

/-! ## What follows the settings -/

/-- The fonts: those of the settings, otherwise of the extra arguments, otherwise of the command line. Relative paths
start at the root. -/
structure FontsOf (s : Session) (c : Config) (f : FontArgs) : Prop where
  system : ∀ b, c.systemFonts = some b → f.ignoreSystemFonts = !b
  systemExtra : ∀ e, c.systemFonts = none → c.extra = some e → f.ignoreSystemFonts = e.font.ignoreSystemFonts
  paths : ∃ ps : List Text, (c.fontPaths ≠ [] → ps = c.fontPaths) ∧
    (∀ e, c.fontPaths = [] → c.extra = some e → ps = e.font.fontPaths) ∧
    ps.length = f.fontPaths.length ∧
    ∀ (i : Nat) p q, ps[i]? = some p → f.fontPaths[i]? = some q →
      (p.head? = some '/' ∧ q = p) ∨
      (p.head? ≠ some '/' ∧ ∃ r, (c.rootPath = some r ∨ (c.rootPath = none ∧ s.roots.head? = some r)) ∧ q = join r p) ∨
      (p.head? ≠ some '/' ∧ c.rootPath = none ∧ s.roots = [] ∧ q = p)

/-- The formatter the settings ask for. -/
def FormatOf (c : Config) (f : FormatConfig) : Prop :=
  (c.formatterMode = .disable ∧ f = .disable) ∨
  ∃ w i, (c.printWidth = some w ∨ (c.printWidth = none ∧ w = 120)) ∧
    (c.indentSize = some i ∨ (c.indentSize = none ∧ i = 2)) ∧
    ((c.formatterMode = .typstyle ∧ f = .typstyle w i) ∨ (c.formatterMode = .typstfmt ∧ f = .typstfmt w i))

/-- The exports the settings ask for. -/
structure ExportOf (c : Config) (x : ExportConfig) : Prop where
  target : x.target = c.exportTarget
  when : x.when = c.exportPdf
  output : x.output = c.outputPath
  words : x.countWords = c.notifyStatus
  standards : ∀ e, c.extra = some e → x.pdfStandards = e.pdfStandard ∧ x.timestamp = e.timestamp

/-- The project the settings ask for. -/
structure ProjectOf (s : Session) (c : Config) (p : Project) : Prop where
  html : p.removeHtml = true ↔ c.supportHtml = false
  completion : p.completion = c.completion
  dark : p.dark = true ↔ c.colorTheme = some "dark"
  unlinted : c.lint.enabled = some false → p.lint = .never
  linted : c.lint.enabled ≠ some false → (∀ w, c.lint.when = some w → p.lint = w) ∧ (c.lint.when = none → p.lint = .onSave)
  periscope : p.periscope = c.periscope
  target : p.target = c.exportTarget
  noEntry : c.entry = none → p.entry = none
  /-- An entry is found below the root, which is the one set or else the first folder of the editor. -/
  entry : ∀ e, c.entry = some e → (e.head? = some '/' → p.entry = some e) ∧
    (e.head? ≠ some '/' → ∀ r, (c.rootPath = some r ∨ (c.rootPath = none ∧ s.roots.head? = some r)) → p.entry = some (join r e))
  /-- The inputs of the extra arguments and, before them, those for the preview. -/
  inputs : ∀ a b, c.lspInputs = [(a, b)] → ∀ k w, p.inputs.lookup k = some w ↔
    (k = a ∧ w = b) ∨ (k ≠ a ∧ ∃ e, c.extra = some e ∧ e.inputs.lookup k = some w)
  extra : ∀ e, c.extra = some e → p.cert = e.cert ∧ p.package = e.package ∧ p.features = e.features
  fonts : FontsOf s c p.fonts

/-- What a client knows to be registered after the messages; `none` when it was told to register what is registered or
to remove what is not. -/
def known (cap : Cap) (msgs : List Msg) : Option Bool :=
  msgs.foldl (init := some false) fun st msg =>
    match msg with
    | .register c => if c = cap then (if st = some false then some true else none) else st
    | .unregister c => if c = cap then (if st = some true then some false else none) else st
    | .askSettings _ => st

end Tinymist.Config
