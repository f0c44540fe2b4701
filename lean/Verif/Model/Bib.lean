import Verif.Model.Position

/-!
# The entries of bibliographies

Models `crates/tinymist-query/src/analysis/bib.rs` (7-199). The YAML parser is outside: it is given by the events it
reports, each with the number of characters before it. So are the BibTeX parser, which reports names and ranges itself, and
hayagriva, which gives the details of entries.
-/

namespace Tinymist.Bib

open Position (Text len8)

/-- `yaml_rust2::parser::Event` as far as it is looked at (`bib.rs` 110-142). -/
inductive Event where
  | mappingStart
  | mappingEnd
  | scalar (value : Text)
  | other
deriving DecidableEq, Repr

/-- `BibSpanned<String>` (`bib.rs` 94-98), in characters. -/
structure Spanned where
  value : Text
  start : Nat
  stop : Nat
deriving DecidableEq, Repr

/-- `YamlBibLoader` (`bib.rs` 100-106). -/
structure Loader where
  depth : Nat
  start : Option Spanned
  key : Option Spanned
  content : List (Spanned × Nat × Nat)
deriving DecidableEq, Repr

/-- `on_event` (`bib.rs` 109-143). Closing a mapping that was never opened, which would be an underflow (129), leaves the
depth at zero here; the parser does not report it. -/
def onEvent (l : Loader) : Event × Nat → Loader
  | (.mappingStart, _) =>
    if l.depth = 1 then { l with start := l.key, key := none, depth := l.depth + 1 }
    else { l with depth := l.depth + 1 }
  | (.scalar s, mark) => if l.depth = 1 then { l with key := some ⟨s, mark, mark + s.length⟩ } else l
  | (.mappingEnd, mark) =>
    if l.depth - 1 = 1 then
      match l.start with
      | none => { l with depth := l.depth - 1 }
      | some s => { l with depth := l.depth - 1, start := none, content := l.content ++ [(s, s.start, mark)] }
    else { l with depth := l.depth - 1 }
  | (.other, _) => l

/-- The loader after all events (`bib.rs` 152-154). -/
def load (events : List (Event × Nat)) : Loader := events.foldl onEvent ⟨0, none, none, []⟩

/-- `dedup_by_key`: of equal neighbours the first is kept. -/
def dedup : List Nat → List Nat
  | a :: b :: l => if a = b then dedup (a :: l) else a :: dedup (b :: l)
  | l => l
termination_by l => l.length

/-- The numbers of characters to resolve, in order (`bib.rs` 157-164). -/
def offsets (content : List (Spanned × Nat × Nat)) : List Nat :=
  dedup ((content.flatMap fun (name, start, stop) => [name.start, name.stop, start, stop]).mergeSort (· ≤ ·))

/-- The walk over the characters (`bib.rs` 165-175): `i` characters and `b` bytes were passed. The resolved offsets
(178-181). -/
def walk : Text → Nat → Nat → List Nat → List (Nat × Nat)
  | [], _, _, _ => []
  | _ :: _, _, _, [] => []
  | c :: cs, i, b, o :: os =>
    if i = o then (o, b) :: walk cs (i + 1) (b + c.utf8Size) os
    else walk cs (i + 1) (b + c.utf8Size) (o :: os)

/-- `char_map` (`bib.rs` 165-181). -/
def charMap (text : Text) (os : List Nat) : List (Nat × Nat) := walk (text ++ ['\x00']) 0 0 os

/-- `map_range` (`bib.rs` 182-188). -/
def mapRange (m : List (Nat × Nat)) (start stop : Nat) : Option (Nat × Nat) :=
  match m.lookup start, m.lookup stop with
  | some a, some b => some (a, b)
  | _, _ => none

/-- Where an entry is: `BibEntry` (`bib.rs` 38-44) without the file and the details. -/
structure Place where
  name : Nat × Nat
  range : Nat × Nat
deriving DecidableEq, Repr

/-- `to_entry` (`bib.rs` 189-199). -/
def toEntry (m : List (Nat × Nat)) (c : Spanned × Nat × Nat) : Option (Text × Place) :=
  match mapRange m c.1.start c.1.stop, mapRange m c.2.1 c.2.2 with
  | some n, some r => some (c.1.value, ⟨n, r⟩)
  | _, _ => none

/-- `YamlBib::from_content` (`bib.rs` 151-202). -/
def yamlEntries (text : Text) (events : List (Event × Nat)) : List (Text × Place) :=
  (load events).content.filterMap (toEntry (charMap text (offsets (load events).content)))

/-! ## Several files -/

variable {D : Type}

/-- `BibEntry` (`bib.rs` 38-44). `D`: the details. -/
structure Entry (D : Type) where
  file : Nat
  place : Place
  details : Option D

/-- What is known of a file: the extension of its name, if it has one; its entries as far as it is a text that can be
parsed (`bib.rs` 53, 57-68); the entries hayagriva gives, if it reads the file. -/
structure File (D : Type) where
  id : Nat
  extension : Option Text
  entries : Option (List (Text × Place))
  details : Option (List (Text × D))

/-- `IndexMap::insert`: the place of a key that is there is kept. -/
def insert {V : Type} (k : Text) (v : V) : List (Text × V) → List (Text × V)
  | [] => [(k, v)]
  | (k', v') :: l => if k' = k then (k, v) :: l else (k', v') :: insert k v l

/-- `get_mut(entry.key())` and setting `raw_entry` (`bib.rs` 72-76). -/
def setDetails (k : Text) (d : D) : List (Text × Entry D) → List (Text × Entry D)
  | [] => []
  | (k', e) :: l => if k' = k then (k', { e with details := some d }) :: l else (k', e) :: setDetails k d l

def knownExtension (ext : Text) : Bool :=
  ext.map Char.toLower ∈ [['y', 'm', 'l'], ['y', 'a', 'm', 'l'], ['b', 'i', 'b']]

/-- `analyze_path` (`bib.rs` 51-79). -/
def analyze (m : List (Text × Entry D)) (f : File D) : List (Text × Entry D) :=
  match f.extension, f.entries with
  | some ext, some es =>
    if knownExtension ext then
      (f.details.getD []).foldl (fun m d => setDetails d.1 d.2 m)
        (es.foldl (fun m e => insert e.1 ⟨f.id, e.2, none⟩ m) m)
    else m
  | _, _ => m

/-- `bib_info` (`bib.rs` 7-27). -/
def bibInfo (files : List (File D)) : List (Text × Entry D) := files.foldl analyze []

end Tinymist.Bib
