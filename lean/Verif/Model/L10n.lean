import Verif.Model.Pages
/-!
# Localisation

Models `crates/tinymist-l10n/src/lib.rs` (messages with arguments, the choice of a language, the file of translations) and
`main.rs` (the tool that collects the messages of the program). Strings are lists of characters. A hash map is the list of its
entries in the order in which it is iterated over; the theorems hold for every order.
-/
namespace Tinymist.L10n
open Pages

abbrev Str := List Char

/-! ## Messages, lib.rs:155-263 -/

/-- What a placeholder becomes, lib.rs:238-252: the argument's text, or the brace and the name. Arguments are given by the text
they print as. -/
def resolve (args : List (Str × Str)) (name : Str) : Str :=
  match args.lookup name with
  | some v => v
  | none => '{' :: name

/-- The loop of `t_with_args`, lib.rs:232-256. `take_while` takes the closing brace off the iterator too (it is the first character
that fails), and `message_iter.next()` takes one character more. The fuel bounds the number of rounds. -/
def fillN (args : List (Str × Str)) : Nat → Str → Str
  | 0, _ => []
  | _, [] => []
  | n + 1, c :: cs =>
    if c = '{' then
      resolve args (cs.takeWhile (· ≠ '}')) ++ fillN args n ((cs.dropWhile (· ≠ '}')).drop 2)
    else c :: fillN args n cs

/-- `t_with_args` on the message found, lib.rs:204-263. -/
def fill (args : List (Str × Str)) (message : Str) : Str := fillN args message.length message

/-- `find_message`, lib.rs:155-162: the translations in force are those of one language. -/
def findMessage (translations : Option (List (Str × Str))) (key message : Str) : Str :=
  match translations with
  | none => message
  | some t => (t.lookup key).getD message

/-- `t_without_args` and `t_with_args`, lib.rs:164-167, 204-209. -/
def translate (translations : Option (List (Str × Str))) (key message : Str) (args : List (Str × Str)) : Str :=
  fill args (findMessage translations key message)

/-! ## The language, lib.rs:34-50 -/

/-- `str::len`. -/
def byteLen (s : Str) : Nat := (s.map Char.utf8Size).sum

/-- `set_locale`: the translations in force afterwards. `lower` is `str::to_lowercase`; `all` are the translations of each language,
unset until `set_translations` is called. -/
def setLocale (lower : Str → Str) (all : Option (List (Str × List (Str × Str)))) (current : Option (List (Str × Str)))
    (locale : Str) : Option (List (Str × Str)) :=
  match all with
  | none => current
  | some all =>
    let l := lower locale
    match all.lookup l with
    | some t => some t
    | none =>
      match all.find? fun e => e.1.isPrefixOf l && decide (l[byteLen e.1]? = some '-') with
      | some e => some e.2
      | none => current

/-! ## The file of translations -/

/-- An answer, an error or a panic. -/
inductive Out (α : Type) where
  | ok (a : α)
  | error
  | panic
  deriving DecidableEq, Repr

/-- `HashMap::insert`. -/
def put {β : Type} (k : Str) (v : β) : List (Str × β) → List (Str × β)
  | [] => [(k, v)]
  | e :: m => if e.1 = k then (k, v) :: m else e :: put k v m

abbrev Map2 := List (Str × List (Str × Str))

/-- `m.entry(a).or_default().insert(b, v)`. -/
def put2 (m : Map2) (a b v : Str) : Map2 := put a (put b v ((m.lookup a).getD [])) m

/-- The lines looked at, lib.rs:267-271. -/
def linesOf (input : Str) : List Str :=
  ((split '\n' input).map trim).filter fun l => !(decide (l.head? = some '#')) && !l.isEmpty

/-- `line[1..line.len() - 1]` of a line that begins with a bracket, lib.rs:278: it panics on a bracket alone, and if the last
character has more than one byte. -/
def headerKey (line : Str) : Option Str :=
  match line.tail.getLast? with
  | none => none
  | some c => if c.utf8Size = 1 then some line.tail.dropLast else none

/-- The parts of a line in front of and behind the first equals sign, lib.rs:280-289. -/
def splitEq : Str → Option (Str × Str)
  | [] => none
  | c :: cs => if c = '=' then some ([], cs) else (splitEq cs).map fun p => (c :: p.1, p.2)

/-- The loop of `deserialize`, lib.rs:276-303. -/
def readLines (keyFirst : Bool) : Str → Map2 → List Str → Out Map2
  | _, m, [] => .ok m
  | key, m, line :: rest =>
    if line.head? = some '[' then
      match headerKey line with
      | none => .panic
      | some k => readLines keyFirst k m rest
    else
      match splitEq line with
      | none => .error
      | some (a, b) => readLines keyFirst key (if keyFirst then put2 m key (trim a) (trim b) else put2 m (trim a) key (trim b)) rest

/-- `deserialize`, lib.rs:266-306. -/
def deserialize (input : Str) (keyFirst : Bool) : Out Map2 := readLines keyFirst [] [] (linesOf input)

/-- `load_translations`, lib.rs:53-67: `json` is `serde_json::from_str::<String>`. -/
def load (json : Str → Option Str) (input : Str) : Out Map2 :=
  match deserialize input false with
  | .error => .error
  | .panic => .panic
  | .ok m =>
    match m.mapM fun e => (e.2.mapM fun f => if f.2.head? = some '"' then (json f.2).map fun v => (f.1, v) else some f).map
        fun d => (e.1, d) with
    | none => .panic
    | some m => .ok m

def en : Str := ['e', 'n']

/-- `update_translations`, lib.rs:93-109. -/
def update (kvs : List (Str × Str)) (m : Map2) : Map2 :=
  kvs.foldl (fun m kv => put2 m kv.1 en kv.2) (m.filter fun e => decide (e.1 ∈ kvs.map (·.1)))

/-- `sort_by` on the keys: a stable sort by the order of strings. -/
def sortKeys {β : Type} (m : List (Str × β)) : List (Str × β) := m.mergeSort fun a b => decide (a.1 ≤ b.1)

/-- A line of a translation, lib.rs:124, 131. -/
def entryLine (e : Str × Str) : Str := e.1 ++ [' ', '=', ' '] ++ e.2

/-- One key in the file, lib.rs:120-132; `none` is the panic if there is no English message. -/
def section_ (e : Str × List (Str × Str)) : Option Str :=
  match e.2.lookup en with
  | none => none
  | some v =>
    some ('\n' :: '[' :: e.1 ++ [']', '\n'] ++ entryLine (en, v) ++ ['\n'] ++
      (sortKeys (e.2.filter fun f => decide (f.1 ≠ en))).flatMap fun f => entryLine f ++ ['\n'])

def header : Str := "\n# The translations are partially generated by copilot\n".toList

/-- `serialize_translations`, lib.rs:112-136. -/
def serialize (m : Map2) : Option Str := ((sortKeys m).mapM section_).map fun ss => header ++ ss.flatten

/-- `update_disk_translations`, lib.rs:70-90: the text written, from the text there is. -/
def updateDisk (existing : Option Str) (kvs : List (Str × Str)) : Out Str :=
  let kvs := sortKeys kvs
  let old : Out Map2 := match existing with
    | none => .ok []
    | some t => deserialize t true
  match old with
  | .error => .error
  | .panic => .panic
  | .ok m =>
    match serialize (update kvs m) with
    | none => .panic
    | some t => .ok t

/-! ## Collecting the messages, main.rs -/

/-- `parse_char`, main.rs:103-110. -/
def parseChar (ch : Char) (s : Str) : Option Str :=
  match s.dropWhile isWhitespace with
  | c :: cs => if c = ch then some cs else none
  | [] => none

/-- The loop of `parse_str`, main.rs:115-127. -/
def scanStr : Bool → Str → Option (Str × Str)
  | _, [] => none
  | true, c :: cs => (scanStr false cs).map fun p => (c :: p.1, p.2)
  | false, c :: cs =>
    if c = '\\' then (scanStr true cs).map fun p => (c :: p.1, p.2)
    else if c = '"' then some ([], cs)
    else (scanStr false cs).map fun p => (c :: p.1, p.2)

/-- `parse_str`, main.rs:112-130. -/
def parseStr (s : Str) : Option (Str × Str) := (parseChar '"' s).bind (scanStr false)

/-- `parse_l10n_args_rs`, main.rs:90-96. -/
def parseArgs (s : Str) : Option (Str × Str) := do
  let s ← parseChar '(' s
  let (key, s) ← parseStr s
  let s ← parseChar ',' s
  let (value, _) ← parseStr s
  some (key, '"' :: value ++ ['"'])

/-- `str::strip_prefix`. -/
def stripPrefix (p s : Str) : Option Str := if p.isPrefixOf s then some (s.drop p.length) else none

def fnName : Str := "tinymist_l10n::".toList

/-- The call at the beginning of a text, main.rs:81-97. -/
def callAt (s : Str) : Option (Str × Str) := do
  let suffix ← stripPrefix fnName s
  let suffix ← (stripPrefix ['t', '!'] suffix).or (stripPrefix ['b', 'a', 'i', 'l', '!'] suffix)
  parseArgs suffix

/-- `check_calls` on a Rust file, main.rs:55-101: all places at which the name begins. -/
def calls : Str → List (Str × Str)
  | [] => []
  | c :: cs => (callAt (c :: cs)).toList ++ calls cs

end Tinymist.L10n
