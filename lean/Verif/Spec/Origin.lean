import Verif.Model.Origin

/-!
# Origins of web pages

A browser says where a page comes from by the `Origin` header. It is `null` or the scheme, host and port of the page's
address; the port is left out when it is the scheme's usual one (RFC 6454, section 6.2).
-/

namespace Tinymist.Origin

structure Site where
  scheme : List Char
  host : List Char
  port : Option Nat
deriving DecidableEq

def portPart : Option Nat → List Char
  | none => []
  | some p => ':' :: RustNum.print 10 p

/-- The header a browser sends. -/
def Site.header (o : Site) : List Char :=
  o.scheme ++ sep ++ o.host ++ portPart o.port

/-- A host: a name or IPv4 address, which has no colon, or a bracketed IPv6 address. -/
def IsHost (h : List Char) : Prop := ':' ∉ h ∨ ∃ m, h = '[' :: m ++ [']']

structure Site.Proper (o : Site) : Prop where
  scheme : ':' ∉ o.scheme
  host : IsHost o.host

/-- What the URL parser makes of the headers browsers send. -/
structure Reads (parse : List Char → Option Url) : Prop where
  site : ∀ o : Site, o.Proper → ∃ path, (path = [] ∨ path = ['/']) ∧ parse o.header = some ⟨o.scheme, some o.host, path⟩
  opaque_ : parse ['n', 'u', 'l', 'l'] = none

/-- The origin of a page that a browser got from `http://host:port/`. -/
def servedAt (host : List Char) (port : Nat) : Site :=
  ⟨"http".toList, host, if port = 80 then none else some port⟩

/-- A site on the user's own machine. -/
def Site.Local (o : Site) : Prop :=
  o.scheme = "http".toList ∧ (o.host = "localhost".toList ∨ o.host = "127.0.0.1".toList)

/-- A panel of the editor. -/
def Site.Panel (o : Site) : Prop := o.scheme = "vscode-webview".toList

/-- The proxy of a Gitpod workspace for this port. -/
def Site.Gitpod (o : Site) (port : Nat) (gitpod : Option (List Char × List Char)) : Prop :=
  ∃ w c, gitpod = some (w, c) ∧
    o = ⟨"https".toList, RustNum.print 10 port ++ '-' :: w ++ '.' :: c, none⟩

end Tinymist.Origin
