import Verif.Model.Bib

/-!
# Where the entries of a bibliography are
-/

namespace Tinymist.Bib

/-- The bytes of a text in UTF-8. -/
def bytes (s : List Char) : Nat := (s.map Char.utf8Size).sum

/-- The bytes from `a` to `b` of a text are those of `part`. -/
def Slice (text : List Char) (a b : Nat) (part : List Char) : Prop :=
  ∃ pre post, text = pre ++ part ++ post ∧ bytes pre = a ∧ bytes (pre ++ part) = b

/-- A YAML value with the number of characters before its scalars and before what ends its mappings. The children of a
mapping are its keys and values in turn. -/
inductive Yaml where
  | scalar (mark : Nat) (value : List Char)
  | alias (mark : Nat)
  | sequence (start : Nat) (children : List Yaml) (stop : Nat)
  | mapping (start : Nat) (children : List Yaml) (stop : Nat)

mutual
/-- The events a parser reports for a value. -/
def Yaml.events : Yaml → List (Event × Nat)
  | .scalar mark s => [(.scalar s, mark)]
  | .alias mark => [(.other, mark)]
  | .sequence start cs stop => (.other, start) :: (eventsOf cs ++ [(.other, stop)])
  | .mapping start cs stop => (.mappingStart, start) :: (eventsOf cs ++ [(.mappingEnd, stop)])

def eventsOf : List Yaml → List (Event × Nat)
  | [] => []
  | y :: ys => y.events ++ eventsOf ys
end

/-- An item of a bibliography: the key with the number of characters before it, and the mapping that is its value. -/
structure Item where
  key : List Char
  mark : Nat
  start : Nat
  fields : List Yaml
  stop : Nat

def Item.pair (i : Item) : List Yaml := [.scalar i.mark i.key, .mapping i.start i.fields i.stop]

/-- A bibliography is a mapping from keys to mappings. Around it are the events of the document. -/
def document (items : List Item) (stop : Nat) : List (Event × Nat) :=
  (.other, 0) :: ((Yaml.mapping 0 (items.flatMap Item.pair) stop).events ++ [(.other, stop)])

/-- The key stands in the text as it is, without quotes or escapes, and the item ends after it within the text. -/
def Verbatim (text : List Char) (i : Item) : Prop :=
  (∃ pre post, text = pre ++ i.key ++ post ∧ pre.length = i.mark) ∧ i.mark + i.key.length ≤ i.stop ∧ i.stop ≤ text.length

/-- `n` bytes are the bytes before some character of the text, or of all of it. -/
def Boundary (text : List Char) (n : Nat) : Prop := ∃ pre post, text = pre ++ post ∧ bytes pre = n

/-! ## Several files -/

variable {D : Type}

/-- The endings of names of bibliographies, in any case. -/
def Bibliography (ext : List Char) : Prop :=
  ext.map Char.toLower = "yml".toList ∨ ext.map Char.toLower = "yaml".toList ∨ ext.map Char.toLower = "bib".toList

/-- The entries of a file that is a bibliography that can be read. -/
def Has (f : File D) (es : List (List Char × Place)) : Prop :=
  (∃ ext, f.extension = some ext ∧ Bibliography ext) ∧ f.entries = some es

/-- A file has an entry with a key. -/
def Defines (f : File D) (k : List Char) : Prop := ∃ es, Has f es ∧ ∃ p, (k, p) ∈ es

/-- Hayagriva gives details only of entries that are in the file. -/
def Sound (f : File D) : Prop := ∀ es ds k d, Has f es → f.details = some ds → (k, d) ∈ ds → ∃ p, (k, p) ∈ es

/-- What is given for a key at last. -/
def Last {V : Type} (k : List Char) (v : V) (l : List (List Char × V)) : Prop :=
  ∃ a b, l = a ++ (k, v) :: b ∧ ∀ v', (k, v') ∉ b

end Tinymist.Bib
