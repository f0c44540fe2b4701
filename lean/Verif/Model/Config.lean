import Verif.Model.Workspace

/-!
# The settings

`crates/tinymist/src/config.rs`: reading the settings (`update`, `update_by_map`, 230-455), asking the client for them
(`get_items`, `values_to_map`, 198-226) and what is computed from them (462-665). `crates/tinymist/src/lsp.rs`
122-216: what a change of the settings does to a running server. `crates/tinymist-project/src/entry.rs`: the part of
`EntryResolver` the settings decide.

Simplifications. Numbers are integers. The decoders serde derives for the types of the settings, and the parser of the
command line arguments with the environment it looks at, are parameters (`Serde`): the theorems hold for all of them.
The directory search of `EntryResolver::root` for an entry outside the workspace is a parameter too (its cache is the
subject of `Model/Workspace`). A warning is the key it is about. -/

namespace Tinymist.Config

open Tinymist.Paths
open Tinymist.Workspace

/-- `serde_json::Value`. -/
inductive Json where
  | null
  | bool (b : Bool)
  | num (n : Int)
  | str (s : String)
  | arr (xs : List Json)
  | obj (kvs : List (String × Json))

/-- `Value::is_null`. -/
def Json.isNull : Json → Bool
  | .null => true
  | _ => false

/-- `Value::as_str`. -/
def Json.asStr : Json → Option String
  | .str s => some s
  | _ => none

/-- `Value::as_object`. -/
def Json.asObj : Json → Option (List (String × Json))
  | .obj m => some m
  | _ => none

/-- `serde_json::Map`. -/
abbrev Map := List (String × Json)

/-- `TaskWhen`, crates/tinymist-task/src/model.rs, without the script. -/
inductive When where
  | never | onSave | onType | onDocumentHasTitle
  deriving DecidableEq

/-- `ExportTarget`, crates/tinymist-world/src/args.rs:288-294. -/
inductive Target where
  | paged | html
  deriving DecidableEq

/-- `ProjectResolutionKind`, project/entry.rs:13-27. -/
inductive Resolution where
  | singleFile | lockDatabase
  deriving DecidableEq

/-- `FormatterMode`, config.rs:759-768. -/
inductive FormatterMode where
  | disable | typstyle | typstfmt
  deriving DecidableEq

/-- `SemanticTokensMode`, config.rs:773-779. -/
inductive TokensMode where
  | disable | enable
  deriving DecidableEq

/-- `CompletionFeat`, crates/tinymist-query/src/analysis/completion.rs:71-99. The settings of symbols and postfixes are
one field. -/
structure Completion where
  onPlaceholders : Bool := false
  triggerSuggest : Bool := false
  triggerParameterHints : Bool := false
  triggerBoth : Bool := false
  others : List String := []
  deriving DecidableEq

/-- `PreviewFeat`, config.rs:784-791, 816-830. -/
structure Preview where
  browsingArgs : Option (List String) := none
  background : Bool := false
  backgroundArgs : Option (List String) := none
  deriving DecidableEq

/-- `LintFeat`, config.rs:794-800. -/
structure Lint where
  enabled : Option Bool := none
  when : Option When := none
  deriving DecidableEq

/-- `LintFeat::when`, config.rs:804-810. -/
def Lint.effective (l : Lint) : When :=
  if l.enabled = some false then .never else l.when.getD .onSave

/-- `PeriscopeArgs`, crates/tinymist-render/src/lib.rs:32-52; the sizes are in tenths. -/
structure Periscope where
  yAbove : Int := 550
  yBelow : Int := 550
  scale : Int := 15
  invertColor : String := "never"
  deriving DecidableEq

/-- `CompileFontArgs`, crates/tinymist-world/src/args.rs. -/
structure FontArgs where
  ignoreSystemFonts : Bool := false
  fontPaths : List Text := []
  deriving DecidableEq

/-- `CompilePackageArgs`, crates/tinymist-world/src/args.rs. -/
structure PackageArgs where
  path : Option Text := none
  cachePath : Option Text := none
  deriving DecidableEq

/-- `TypstExtraArgs`, config.rs:836-859, made of `CompileOnceArgs` in config.rs:382-392. -/
structure ExtraArgs where
  root : Option Text := none
  entry : Option Text := none
  inputs : List (String × String) := []
  font : FontArgs := {}
  package : PackageArgs := {}
  features : List String := []
  pdfStandard : List String := []
  timestamp : Option Int := none
  cert : Option Text := none
  deriving DecidableEq

/-- The parameters of the model: the decoders of the settings' types (`Deserialize`), the command line parser
(`CompileOnceArgs::try_parse_from`, with the environment) and the input that carries the theme to the preview
(config.rs:409-425). -/
structure Serde where
  completion : Json → Option Completion
  resolution : Json → Option Resolution
  when : Json → Option When
  target : Json → Option Target
  formatter : Json → Option FormatterMode
  output : Json → Option Text
  preview : Json → Option Preview
  lint : Json → Option Lint
  tokens : Json → Option TokensMode
  periscope : Json → Option Periscope
  cli : List String → Option ExtraArgs
  theme : String → String

/-- `bool::deserialize`. -/
def asBool : Json → Option Bool
  | .bool b => some b
  | _ => none

/-- `Option::<bool>::deserialize`. -/
def asOptBool : Json → Option (Option Bool)
  | .null => some none
  | .bool b => some (some b)
  | _ => none

/-- `Option::<String>::deserialize`. -/
def asOptStr : Json → Option (Option String)
  | .null => some none
  | .str s => some (some s)
  | _ => none

/-- `Option::<u32>::deserialize`. -/
def asOptU32 : Json → Option (Option Nat)
  | .null => some none
  | .num n => if 0 ≤ n ∧ n < 4294967296 then some (some n.toNat) else none
  | _ => none

/-- `Vec::<String>::deserialize`. -/
def asStrings : Json → Option (List String)
  | .arr xs => xs.mapM Json.asStr
  | _ => none

/-- `Vec::<PathBuf>::deserialize`. -/
def asPaths (j : Json) : Option (List Text) := (asStrings j).map (·.map String.toList)

/-- `Option::<Vec<String>>::deserialize`. -/
def asOptStrings : Json → Option (Option (List String))
  | .null => some none
  | j => (asStrings j).map some

/-- `Config`, config.rs:60-125, with the parts of `entry_resolver` that settings decide. The constants of the session
are in `Session`; the font cell is in `Server`. -/
structure Config where
  colorTheme : Option String := none
  completion : Completion := {}
  customizedShowDocument : Bool := false
  resolution : Resolution := .singleFile
  exportPdf : When := .never
  exportTarget : Target := .paged
  fontPaths : List Text := []
  formatterMode : FormatterMode := .disable
  printWidth : Option Nat := none
  indentSize : Option Nat := none
  outputPath : Text := []
  preview : Preview := {}
  lint : Lint := {}
  tokens : TokensMode := .enable
  supportHtml : Bool := false
  systemFonts : Option Bool := none
  notifyStatus : Bool := false
  periscope : Option Periscope := none
  extra : Option ExtraArgs := none
  rootPath : Option Text := none
  entry : Option Text := none
  lspInputs : List (String × String) := []
  warnings : List String := []
  deriving DecidableEq

/-- What does not change during a session: `ConstConfig`, config.rs:575-596, the workspace folders and the fonts of the
command line. `search` is the directory search of `EntryResolver::root`. -/
structure Session where
  roots : List Text
  cliFonts : FontArgs
  tokensDynamic : Bool
  formatDynamic : Bool
  search : Text → Option Text

/-- `try_deserialize!` and `assign_config!`, config.rs:270-301: the value and the warnings. -/
def assign (m : Map) (key : String) (dec : Json → Option α) (dflt : α) : α × List String :=
  match m.lookup key with
  | none => (dflt, [])
  | some v =>
    match dec v with
    | some a => (a, [])
    | none => (dflt, if v.isNull then [] else [key])

/-- `compileStatus`, config.rs:323-335. -/
def readStatus (m : Map) : Bool × List String :=
  match (m.lookup "compileStatus").bind Json.asStr with
  | none => (false, [])
  | some s =>
    if s = "enable" then (true, [])
    else if s = "disable" then (false, [])
    else (false, ["compileStatus"])

/-- `hoverPeriscope`, config.rs:338-353. -/
def readPeriscope (σ : Serde) (m : Map) : Option Periscope × List String :=
  match m.lookup "hoverPeriscope" with
  | none => (none, [])
  | some .null => (none, [])
  | some (.str s) => if s = "enable" then (some {}, []) else (none, [])
  | some v =>
    match σ.periscope v with
    | some p => (some p, [])
    | none => (none, ["hoverPeriscope"])

/-- The color inversion of the periscope, config.rs:354-358. -/
def invert (theme : Option String) (p : Periscope) : Periscope :=
  if p.invertColor = "auto" ∧ theme = some "dark" then { p with invertColor := "always" } else p

/-- `typstExtraArgs`, config.rs:371-392. -/
def readExtra (σ : Serde) (m : Map) : ExtraArgs × List String :=
  let raw : Option (List String) × List String :=
    match (m.lookup "typstExtraArgs").map asOptStrings with
    | some (some args) => (args, [])
    | some none => (none, ["typstExtraArgs"])
    | none => (none, [])
  let args := raw.1.getD []
  match σ.cli args with
  | some a => (a, raw.2)
  | none =>
    let a : ExtraArgs := if args = [] then {} else (σ.cli []).getD {}
    (a, raw.2 ++ ["typstExtraArgs"])

/-- `rootPath`, config.rs:395-400. -/
def readRoot (m : Map) (extra : ExtraArgs) : Option Text :=
  match (m.lookup "rootPath").bind Json.asStr with
  | some s => some s.toList
  | none => extra.root

/-- `EntryResolver::validate`, project/entry.rs:180-193. -/
def validate (c : Config) : Bool := (c.rootPath.map isAbsolute).getD true

/-- `update_by_map`, config.rs:257-432: the new configuration and whether it is valid. The old configuration is not
looked at: every field is assigned. (`has_default_entry_path` follows from the other fields.) -/
def updateByMap (σ : Serde) (m : Map) (_old : Config) : Config × Bool :=
  let colorTheme := assign m "colorTheme" asOptStr none
  let completion := assign m "completion" σ.completion {}
  let triggerSuggest := assign m "triggerSuggest" asBool false
  let triggerHints := assign m "triggerParameterHints" asBool false
  let triggerBoth := assign m "triggerSuggestAndParameterHints" asBool false
  let customized := assign m "customizedShowDocument" asBool false
  let resolution := assign m "projectResolution" σ.resolution .singleFile
  let exportPdf := assign m "exportPdf" σ.when .never
  let exportTarget := assign m "exportTarget" σ.target .paged
  let fontPaths := assign m "fontPaths" asPaths []
  let formatterMode := assign m "formatterMode" σ.formatter .disable
  let printWidth := assign m "formatterPrintWidth" asOptU32 none
  let indentSize := assign m "formatterIndentSize" asOptU32 none
  let outputPath := assign m "outputPath" σ.output []
  let preview := assign m "preview" σ.preview {}
  let lint := assign m "preview" σ.lint {}
  let tokens := assign m "semanticTokens" σ.tokens .enable
  let supportHtml := assign m "supportHtmlInMarkdown" asBool false
  let systemFonts := assign m "systemFonts" asOptBool none
  let status := readStatus m
  let periscope := readPeriscope σ m
  let extra := readExtra σ m
  let c : Config := {
    colorTheme := colorTheme.1
    completion := { completion.1 with
      triggerSuggest := triggerSuggest.1
      triggerParameterHints := triggerHints.1
      triggerBoth := triggerBoth.1 }
    customizedShowDocument := customized.1
    resolution := resolution.1
    exportPdf := exportPdf.1
    exportTarget := exportTarget.1
    fontPaths := fontPaths.1
    formatterMode := formatterMode.1
    printWidth := printWidth.1
    indentSize := indentSize.1
    outputPath := outputPath.1
    preview := preview.1
    lint := lint.1
    tokens := tokens.1
    supportHtml := supportHtml.1
    systemFonts := systemFonts.1
    notifyStatus := status.1
    periscope := periscope.1.map (invert colorTheme.1)
    extra := some extra.1
    rootPath := readRoot m extra.1
    entry := extra.1.entry
    lspInputs := [("x-preview", σ.theme (colorTheme.1.getD ""))]
    warnings := colorTheme.2 ++ completion.2 ++ triggerSuggest.2 ++ triggerHints.2 ++ triggerBoth.2 ++ customized.2 ++
      resolution.2 ++ exportPdf.2 ++ exportTarget.2 ++ fontPaths.2 ++ formatterMode.2 ++ printWidth.2 ++ indentSize.2 ++
      outputPath.2 ++ preview.2 ++ lint.2 ++ tokens.2 ++ supportHtml.2 ++ systemFonts.2 ++ status.2 ++ periscope.2 ++
      extra.2 }
  (c, validate c)

/-- `update`, config.rs:232-250: `none` when the settings are not an object. -/
def update (σ : Serde) (j : Json) (c : Config) : Option (Config × Bool) :=
  match j with
  | .obj m =>
    let first := updateByMap σ m c
    if first.2 then
      match (m.lookup "tinymist").bind Json.asObj with
      | some n => some (updateByMap σ n first.1)
      | none => some first
    else some first
  | _ => none

/-- `CONFIG_ITEMS`, config.rs:33-52. -/
def configItems : List String :=
  ["tinymist", "colorTheme", "compileStatus", "completion", "exportPdf", "exportTarget", "fontPaths", "formatterMode",
    "formatterPrintWidth", "formatterIndentSize", "hoverPeriscope", "outputPath", "preview", "projectResolution",
    "rootPath", "semanticTokens", "systemFonts", "typstExtraArgs"]

/-- `get_items`, config.rs:199-208: the sections asked for. -/
def getItems : List String := configItems.flatMap fun item => ["tinymist." ++ item, item]

/-- `Itertools::tuples` for pairs: a last single one is dropped. -/
def pairs : List α → List (α × α)
  | a :: b :: xs => (a, b) :: pairs xs
  | _ => []

/-- `values_to_map`, config.rs:211-226. -/
def valuesToMap (vs : List Json) : Map :=
  configItems.zip ((pairs vs).map fun p => if p.1.isNull then p.2 else p.1)

/-! ## What is computed from the settings -/

/-- `EntryResolver::root(None)`, project/entry.rs:47-50, 102-106. -/
def defaultRoot (s : Session) (c : Config) : Option Text :=
  match c.rootPath with
  | some r => some r
  | none => s.roots.head?

/-- `EntryResolver::root`, project/entry.rs:47-106. -/
def rootOf (s : Session) (c : Config) (entry : Option Text) : Option Text :=
  match c.rootPath with
  | some r => some r
  | none =>
    match entry with
    | none => s.roots.head?
    | some e =>
      match s.roots.find? fun root => (components root).isPrefixOf (components e) with
      | some r => some r
      | none => s.search e

/-- `EntryResolver::resolve_default`, project/entry.rs:168-177. -/
def resolveDefault (s : Session) (c : Config) : Option Text :=
  match c.entry with
  | none => none
  | some e => if isAbsolute e then some e else (defaultRoot s c).map fun r => join r e

/-- `FormatUserConfig`, task/format.rs:12-23, without the encoding of positions, which does not change. -/
inductive FormatConfig where
  | typstyle (width indent : Nat)
  | typstfmt (width indent : Nat)
  | disable
  deriving DecidableEq

/-- `formatter`, config.rs:462-485. -/
def formatter (c : Config) : FormatConfig :=
  let width := c.printWidth.getD 120
  let indent := c.indentSize.getD 2
  match c.formatterMode with
  | .typstyle => .typstyle width indent
  | .typstfmt => .typstfmt width indent
  | .disable => .disable

/-- `ExportUserConfig`, config.rs:497-515. -/
structure ExportConfig where
  target : Target
  when : When
  output : Text
  pdfStandards : List String
  timestamp : Option Int
  countWords : Bool
  deriving DecidableEq

/-- `export`, config.rs:488-515. -/
def exportConfig (c : Config) : ExportConfig where
  target := c.exportTarget
  when := c.exportPdf
  output := c.outputPath
  pdfStandards := ((c.extra.map (·.pdfStandard)).getD [])
  timestamp := c.extra.bind (·.timestamp)
  countWords := c.notifyStatus

/-- The font paths of `font_opts`, config.rs:530-535. -/
def givenPaths (s : Session) (c : Config) : List Text :=
  if c.fontPaths ≠ [] then c.fontPaths else match c.extra with
    | some e => e.font.fontPaths
    | none => s.cliFonts.fontPaths

/-- `font_opts`, config.rs:518-547. -/
def fontOpts (s : Session) (c : Config) : FontArgs :=
  let ignored := match c.systemFonts with
    | some b => !b
    | none => match c.extra with
      | some e => e.font.ignoreSystemFonts
      | none => s.cliFonts.ignoreSystemFonts
  { ignoreSystemFonts := ignored
    fontPaths := (givenPaths s c).map fun p =>
      if isAbsolute p then p else match defaultRoot s c with
        | some r => join r p
        | none => p }

/-- `Dict::insert`. -/
def insertInput (d : List (String × String)) (kv : String × String) : List (String × String) :=
  kv :: d.filter fun e => e.1 ≠ kv.1

/-- `inputs`, config.rs:574-588. -/
def inputs (c : Config) : List (String × String) :=
  c.lspInputs.foldl insertInput ((c.extra.map (·.inputs)).getD [])

/-- `primary_opts`, config.rs:625-643. -/
def primaryOpts (s : Session) (c : Config) : Option Bool × List Text × Option FontArgs × Option Text :=
  (c.systemFonts, c.fontPaths, c.extra.map (·.font), rootOf s c (resolveDefault s c))

/-! ## A running server -/

/-- What a project keeps of the settings it was made with, `ServerState::project`, crates/tinymist/src/project.rs:
129-221. -/
structure Project where
  removeHtml : Bool
  completion : Completion
  dark : Bool
  lint : When
  periscope : Option Periscope
  target : Target
  entry : Option Text
  inputs : List (String × String)
  cert : Option Text
  package : PackageArgs
  features : List String
  fonts : FontArgs
  deriving DecidableEq

/-- A dynamic registration with the client. -/
inductive Cap where
  | tokens | formatting
  deriving DecidableEq

/-- What is sent to the client: `client/registerCapability`, `client/unregisterCapability` and the request for the
settings. -/
inductive Msg where
  | register (c : Cap)
  | unregister (c : Cap)
  | askSettings (items : List String)
  deriving DecidableEq

/-- The part of `ServerState` the settings reach. -/
structure Server where
  config : Config
  /-- The font cell of the configuration, `Config::fonts`. -/
  fonts : Option FontArgs
  project : Project
  /-- The configuration of the export task. -/
  exports : ExportConfig
  /-- Whether the editor actor reports the status. -/
  status : Bool
  format : FormatConfig
  tokensRegistered : Bool
  formatterRegistered : Bool
  sent : List Msg
  deriving DecidableEq

/-- `ServerState::project`, project.rs:129-221; the fonts are those of the cell. -/
def mkProject (s : Session) (c : Config) (fonts : FontArgs) : Project where
  removeHtml := !c.supportHtml
  completion := c.completion
  dark := c.colorTheme == some "dark"
  lint := c.lint.effective
  periscope := c.periscope
  target := c.exportTarget
  entry := resolveDefault s c
  inputs := inputs c
  cert := c.extra.bind (·.cert)
  package := (c.extra.map (·.package)).getD {}
  features := (c.extra.map (·.features)).getD []
  fonts := fonts

/-- `reload_projects`, project.rs:81-115: the font cell is filled (`fonts`, config.rs:558-571), and the new project has
a new export task. -/
def reload (s : Session) (v : Server) : Server :=
  let fonts := v.fonts.getD (fontOpts s v.config)
  { v with fonts := some fonts, project := mkProject s v.config fonts, exports := exportConfig v.config }

/-- `enable_sema_token_caps`, lsp.rs:249-293. -/
def enableTokens (s : Session) (enable : Bool) (v : Server) : Server :=
  if !s.tokensDynamic then v
  else match enable, v.tokensRegistered with
    | true, false => { v with tokensRegistered := true, sent := v.sent ++ [.register .tokens] }
    | false, true => { v with tokensRegistered := false, sent := v.sent ++ [.unregister .tokens] }
    | _, _ => v

/-- `enable_formatter_caps`, lsp.rs:295-334. -/
def enableFormatter (s : Session) (enable : Bool) (v : Server) : Server :=
  if !s.formatDynamic then v
  else match enable, v.formatterRegistered with
    | true, false => { v with formatterRegistered := true, sent := v.sent ++ [.register .formatting] }
    | false, true => { v with formatterRegistered := false, sent := v.sent ++ [.unregister .formatting] }
    | _, _ => v

/-- `ServerState::new` and `main`, server.rs:97-199: the server with its first project. -/
def boot (s : Session) (c : Config) : Server :=
  { config := c
    fonts := some (fontOpts s c)
    project := mkProject s c (fontOpts s c)
    exports := exportConfig c
    status := c.notifyStatus
    format := formatter c
    tokensRegistered := false
    formatterRegistered := false
    sent := [] }

/-- `initialized`, lsp.rs:35-68, without the registration for changes of the settings. -/
def initialized (s : Session) (v : Server) : Server :=
  let v := if s.tokensDynamic && v.config.tokens == .enable then enableTokens s true v else v
  if s.formatDynamic && v.config.formatterMode != .disable then enableFormatter s true v else v

/-- `Config::new` and `extract_lsp_params`, config.rs:130-176, then the server: `none` when the client is told that its
settings are wrong. -/
def start (σ : Serde) (s : Session) (init : Option Json) : Option Server :=
  let c := (updateByMap σ [] {}).1
  match init with
  | none => some (initialized s (boot s c))
  | some j =>
    match update σ j c with
    | some (c, true) => some (initialized s (boot s c))
    | _ => none

/-- lsp.rs:138-141. -/
def applyExport (old : Config) (v : Server) : Server :=
  if exportConfig old ≠ exportConfig v.config then { v with exports := exportConfig v.config } else v

/-- lsp.rs:143-149. -/
def applyStatus (old : Config) (v : Server) : Server :=
  if old.notifyStatus ≠ v.config.notifyStatus then { v with status := v.config.notifyStatus } else v

/-- lsp.rs:151-155. -/
def applyPrimary (s : Session) (old : Config) (v : Server) : Server :=
  if primaryOpts s old ≠ primaryOpts s v.config then reload s { v with fonts := none } else v

/-- lsp.rs:157-160. -/
def applyTokens (s : Session) (old : Config) (v : Server) : Server :=
  if old.tokens ≠ v.config.tokens then enableTokens s (v.config.tokens == .enable) v else v

/-- lsp.rs:162-169. -/
def applyFormat (s : Session) (old : Config) (v : Server) : Server :=
  if formatter old ≠ formatter v.config then
    { enableFormatter s (formatter v.config != .disable) v with format := formatter v.config }
  else v

/-- `on_changed_configuration`, lsp.rs:122-173. -/
def onChanged (σ : Serde) (s : Session) (m : Map) (v : Server) : Server :=
  let old := v.config
  let new := updateByMap σ m old
  if new.2 then
    applyFormat s old (applyTokens s old (applyPrimary s old (applyStatus old (applyExport old
      { v with config := new.1 }))))
  else v

/-- What the client does: `workspace/didChangeConfiguration`, and the answer to a question for the settings. -/
inductive Event where
  | changed (settings : Json)
  | answered (values : Option (List Json))

/-- `did_change_configuration` and `workspace_configuration_callback`, lsp.rs:175-216. An answer that is an error or
not a list is `none`. -/
def step (σ : Serde) (s : Session) (v : Server) : Event → Server
  | .changed (.obj m) => onChanged σ s m v
  | .changed _ => { v with sent := v.sent ++ [.askSettings getItems] }
  | .answered (some vs) => onChanged σ s (valuesToMap vs) v
  | .answered none => v

/-- A session. -/
def run (σ : Serde) (s : Session) (v : Server) (evs : List Event) : Server := evs.foldl (step σ s) v

end Tinymist.Config
