import Verif.Model.Exporting
/-!
# What an export is to do

Uses the types of the model only (tasks, documents, effects) and the parameters for what is not modelled.
-/

namespace Tinymist.Exporting.Spec
open Pages (Transform)

/-- The files written, in order. -/
def writes {B : Type} (effs : List (Effect B)) : List (Text × B) :=
  effs.filterMap fun
    | .write p b => some (p, b)
    | _ => none

/-- A file name without its extension: what is before the last dot, unless nothing is before it; all of it if there is no dot. -/
inductive Stem : Text → Text → Prop where
  | cut (s x : Text) (hs : s ≠ []) (hx : '.' ∉ x) : Stem (s ++ '.' :: x) s
  | hidden (x : Text) (hx : '.' ∉ x) : Stem ('.' :: x) ('.' :: x)
  | plain (n : Text) (hn : '.' ∉ n) : Stem n n

/-- An extension as it is appended. -/
def dotted (ext : Text) : Text := if ext = [] then [] else '.' :: ext

/-- The file for an absolute path and an extension: in the same directory, under the same name with the extension replaced. The root stays. -/
inductive Target : Text → Text → Text → Prop where
  | file (dir name ext s : Text) (hn : name ≠ []) (hs : '/' ∉ name) (h : Stem name s) :
    Target (dir ++ '/' :: name) ext (dir ++ '/' :: (s ++ dotted ext))
  | slash (dir ext : Text) : Target (dir ++ ['/']) ext (dir ++ ['/'])

/-- The directory a file is in. -/
inductive InDir : Text → Text → Prop where
  | top (name : Text) (hn : name ≠ []) (hs : '/' ∉ name) : InDir ('/' :: name) ['/']
  | sub (dir name : Text) (hd : dir ≠ []) (hn : name ≠ []) (hs : '/' ∉ name) : InDir (dir ++ '/' :: name) dir

/-- The extension each kind of task is to have. -/
def extensionOf : Kind → Text
  | .preview => "html".toList
  | .pdf .. => "pdf".toList
  | .png .. => "png".toList
  | .svg => "svg".toList
  | .html => "html".toList
  | .svgHtml => "html".toList
  | .md => "md".toList
  | .text => "txt".toList
  | .query format none _ _ _ => format
  | .query _ (some ext) _ _ _ => ext

section
variable {Pg H El V Len B : Type} (t : Tools Pg H El V Len B)

/-- The pages of a document: its own, or those of a compilation to pages if it is HTML. -/
inductive PagesOf : Doc Pg H → List Pg → Prop where
  | own (ps : List Pg) : PagesOf (.paged ps) ps
  | again (h : H) (ps : List Pg) (hc : t.compilePaged = some ps) : PagesOf (.html h) ps

/-- The HTML of a document: its own, or that of a compilation to HTML if it has pages. -/
inductive HtmlOf : Doc Pg H → H → Prop where
  | own (h : H) : HtmlOf (.html h) h
  | again (ps : List Pg) (h : H) (hc : t.compileHtml = some h) : HtmlOf (.paged ps) h

/-- The first page is asked for. -/
def OnlyFirst (ts : List Transform) : Prop := Transform.pages [⟨some 1, none⟩] ∈ ts

def IsMerge (x : Transform) : Prop := ∃ g, x = Transform.merge g

/-- The gap between pages: all gaps that are asked for are lengths, and the last one counts; there is none if none is asked for. -/
inductive GapOf (ts : List Transform) : Len → Prop where
  | default (h : ∀ x ∈ ts, ¬IsMerge x) : GapOf ts t.noGap
  | last (a b : List Transform) (hts : ts = a ++ .merge none :: b) (hb : ∀ x ∈ b, ¬IsMerge x)
      (ha : ∀ g, Transform.merge (some g) ∈ a → (t.length g).isSome) : GapOf ts t.noGap
  | given (a b : List Transform) (g : Text) (l : Len) (hts : ts = a ++ .merge (some g) :: b) (hb : ∀ x ∈ b, ¬IsMerge x)
      (ha : ∀ g, Transform.merge (some g) ∈ a → (t.length g).isSome) (hl : t.length g = some l) : GapOf ts l

/-- The colours that can be named. -/
inductive Named : Option Text → Color → Prop where
  | default : Named none .white
  | black : Named (some "black".toList) .black
  | white : Named (some "white".toList) .white
  | red : Named (some "red".toList) .red
  | green : Named (some "green".toList) .green
  | blue : Named (some "blue".toList) .blue
  | hex (d : Text) (h : t.hexOk d = true) : Named (some ('#' :: d)) (.hex d)

/-- The value of an element in a query: a field of it or all of it. -/
def valueOf : Option Text → El → Option V
  | none, el => some (t.whole el)
  | some f, el => t.field el f

/-- How the result of a query is written. -/
inductive Written : Data V → Text → B → Prop where
  | json (d : Data V) (b : B) (h : t.json d = some b) : Written d "json".toList b
  | yaml (d : Data V) (b : B) (h : t.yaml d = some b) : Written d "yaml".toList b
  | txt (v : V) (b : B) (h : t.string v = some b) : Written (.one v) "txt".toList b

/-- What an export of a document holds. -/
inductive Content (doc : Doc Pg H) : Kind → List Transform → B → Prop where
  | pdf (ts standards stamp ps b) (hp : PagesOf t doc ps) (h : t.pdf ps standards stamp = some b) : Content doc (.pdf standards stamp) ts b
  | html (ts h b) (hh : HtmlOf t doc h) (hb : t.html h = some b) : Content doc .html ts b
  | svgHtml (ts ps) (hp : PagesOf t doc ps) : Content doc .svgHtml ts (t.svgHtml ps)
  | text (ts b) (h : t.text doc = some b) : Content doc .text ts b
  | md (ts b) (h : t.markdown = some b) : Content doc .md ts b
  | svgFirst (ts p ps) (hf : OnlyFirst ts) (hp : PagesOf t doc (p :: ps)) : Content doc .svg ts (t.svgPage p)
  | svgAll (ts ps g) (hf : ¬OnlyFirst ts) (hp : PagesOf t doc ps) (hg : GapOf t ts g) : Content doc .svg ts (t.svgMerged ps g)
  | pngFirst (ts ppi fill c p ps b) (hppi : 1 < ppi) (hc : Named t fill c) (hf : OnlyFirst ts) (hp : PagesOf t doc (p :: ps))
      (h : t.pngPage p ppi = some b) : Content doc (.png ppi fill) ts b
  | pngAll (ts ppi fill c ps g b) (hppi : 1 < ppi) (hc : Named t fill c) (hf : ¬OnlyFirst ts) (hp : PagesOf t doc ps)
      (hg : GapOf t ts g) (h : t.pngMerged ps ppi g c = some b) : Content doc (.png ppi fill) ts b
  | queryOne (ts format ext sel field el v b) (hr : t.retrieve sel doc = some [el]) (hv : valueOf t field el = some v)
      (hw : Written t (.one v) format b) : Content doc (.query format ext sel field true) ts b
  | queryMany (ts format ext sel field els b) (hr : t.retrieve sel doc = some els)
      (hw : Written t (.many (els.filterMap (valueOf t field))) format b) : Content doc (.query format ext sel field false) ts b

end

end Tinymist.Exporting.Spec
