import Verif.Model.Told

/-!
# What hovering should show
-/

namespace Tinymist.Told

/-- Pieces with something between them. -/
inductive Joined (sep : Text) : List Text → Text → Prop where
  | one {a} : Joined sep [a] a
  | more {a b rest t} : Joined sep (b :: rest) t → Joined sep (a :: b :: rest) (a ++ sep ++ t)

/-- A definition that has a type to show. -/
def Typed (k : DefKind) (n : Text) : Prop := k ∈ [DefKind.function, .variable_, .constant] ∧ n ≠ []

/-- The line for a definition: `let`, its name, its parameters, and its type unless that is just the name again. -/
inductive Line (n : Text) : Option Docs → Text → Prop where
  | bare {docs} : (∀ t h, docs ≠ some (.variable_ t h)) → (∀ q t h, docs ≠ some (.function q t h)) → Line n docs ("let ".toList ++ n)
  | untyped {t h} : (∀ s, t = some s → s = n) → Line n (some (.variable_ t h)) ("let ".toList ++ n)
  | typed {s h} : s ≠ n → Line n (some (.variable_ (some s) h)) ("let ".toList ++ n ++ " = ".toList ++ s)
  | function {q t h} : (∀ s, t = some s → s = n) → Line n (some (.function q t h)) ("let ".toList ++ n ++ q)
  | result {q s h} : s ≠ n → Line n (some (.function q (some s) h)) ("let ".toList ++ n ++ q ++ " = ".toList ++ s)

/-- The rest of a list of names in a sentence. -/
inductive Rest : List Text → Text → Prop where
  | last {z} : Rest [z] (", and ".toList ++ z)
  | next {b c rest t} : Rest (c :: rest) t → Rest (b :: c :: rest) (", ".toList ++ b ++ t)

/-- Names in a sentence: `a`, `a and b`, `a, b, and c`. -/
inductive Enumerated : List Text → Text → Prop where
  | none : Enumerated [] []
  | one {a} : Enumerated [a] a
  | two {a b} : Enumerated [a, b] (a ++ " and ".toList ++ b)
  | many {a b c rest t} : Rest (b :: c :: rest) t → Enumerated (a :: b :: c :: rest) (a ++ t)

/-- The names in order. -/
def Ordered (names sorted : List Text) : Prop := sorted.Perm names ∧ sorted.Pairwise (· ≤ ·)

/-- What is said first: about what is defined, or else about the star, or else about the links. -/
inductive Head (p : Place) : List Text → Prop where
  | ref {n v} : p.definition = some (.label n (some v)) →
      Head p ["Ref: `".toList ++ n ++ "`\n".toList, "```typc\n".toList ++ v ++ "\n```".toList]
  | label {n} : p.definition = some (.label n none) → Head p ["Label: `".toList ++ n ++ "`\n".toList]
  | cited {n c i} : p.definition = some (.bib n (some (c, i))) → Head p ["Bibliography: `".toList ++ n ++ "` ".toList ++ c, i]
  | entry {n} : p.definition = some (.bib n none) → Head p ["Bibliography: `".toList ++ n ++ "`".toList]
  | typed {k n docs link t} : p.definition = some (.other k n docs link) → Typed k n → Line n docs t →
      Head p ["```typc\n".toList ++ t ++ ";\n```".toList]
  | untyped {k n docs link} : p.definition = some (.other k n docs link) → ¬ Typed k n → Head p []
  | star {names sorted t} : p.definition = none → p.star = some names → Ordered names sorted → Enumerated sorted t →
      Head p ["This star imports ".toList ++ t]
  | links {ls} : p.definition = none → p.star = none → p.links = some ls →
      Head p ((ls.filterMap fun l => l.bind fun t => t.kind).map fun k => "A `".toList ++ k ++ "` file.".toList)
  | nothing : p.definition = none → p.star = none → p.links = none → Head p []

/-- What the value is. -/
inductive Value (p : Place) : List Text → Prop where
  | text {t} : p.tip = some (.text t) → Value p [t]
  | code {t} : p.tip = some (.code t) → Value p ["### Sampled Values\n```typc\n".toList ++ t ++ "\n```".toList]
  | nothing : p.tip = none → Value p []

/-- The code points with the property `White_Space` of Unicode. -/
def spaces : List Nat :=
  [0x9, 0xa, 0xb, 0xc, 0xd, 0x20, 0x85, 0xa0, 0x1680, 0x2000, 0x2001, 0x2002, 0x2003, 0x2004, 0x2005, 0x2006, 0x2007, 0x2008, 0x2009, 0x200a, 0x2028,
    0x2029, 0x202f, 0x205f, 0x3000]

/-- What the documentation says, if it says anything. -/
inductive Documented (p : Place) : List Text → Prop where
  | text {k n d link} : p.definition = some (.other k n (some d) link) → (∃ c ∈ d.hover, c.toNat ∉ spaces) → Documented p [d.hover]
  | nothing : (∀ k n d link, p.definition = some (.other k n (some d) link) → ∀ c ∈ d.hover, c.toNat ∈ spaces) → Documented p []

/-- What can be done: the link to the documentation, or two actions for each link. -/
inductive Actions (p : Place) : List Text → Prop where
  | link {k n docs l} : p.definition = some (.other k n docs (some l)) → Actions p [l]
  | defined {d} : p.definition = some d → (∀ k n docs l, d ≠ .other k n docs (some l)) → Actions p []
  | star {names} : p.definition = none → p.star = some names → Actions p []
  | links {ls} : p.definition = none → p.star = none → p.links = some ls →
      Actions p (ls.flatMap fun l => match l with | some t => [t.inTab, t.outside] | none => [])
  | nothing : p.definition = none → p.star = none → p.links = none → Actions p []

/-- The actions in one line, if there are any. -/
inductive ActionLine : List Text → List Text → Prop where
  | none : ActionLine [] []
  | some {as t} : Joined " | ".toList as t → ActionLine as [t]

/-- A name as it may be written. -/
def Clean (n : Text) : Prop := ' ' ∉ n ∧ ',' ∉ n

end Tinymist.Told
