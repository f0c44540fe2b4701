import Verif.Model.RustNum

/-!
# Who may talk to the preview server

Models the request handler of `make_http_server` (`crates/tinymist/src/tool/preview/http.rs` 50-105) and
`is_valid_origin_impl` (same file, 184-236). Header values are lists of characters; a header that is not visible
ASCII makes `to_str` fail and is refused, it is outside the model.
-/

namespace Tinymist.Origin

/-- What is read of a `url::Url`. -/
structure Url where
  scheme : List Char
  host : Option (List Char)
  path : List Char
deriving DecidableEq

/-- `"http"`. -/
def http : List Char := ['h', 't', 't', 'p']

/-- `"https"`. -/
def https : List Char := ['h', 't', 't', 'p', 's']

/-- `"://"`. -/
def sep : List Char := [':', '/', '/']

/-- `"vscode-webview"`. -/
def webview : List Char := ['v', 's', 'c', 'o', 'd', 'e', '-', 'w', 'e', 'b', 'v', 'i', 'e', 'w']

/-- `"localhost"`. -/
def localhost : List Char := ['l', 'o', 'c', 'a', 'l', 'h', 'o', 's', 't']

/-- `"127.0.0.1"`. -/
def loopback : List Char := ['1', '2', '7', '.', '0', '.', '0', '.', '1']

/-- `format!("http://{expected_host}:{expected_port}")` (`http.rs` 201-207). -/
def expectedOrigin (host : List Char) (port : Nat) : List Char :=
  http ++ sep ++ host ++ ':' :: RustNum.print 10 port

/-- `format!("https://{expected_port}-{workspace_id}.{cluster_host}")` (`http.rs` 209-213). -/
def gitpodOrigin (port : Nat) (workspace cluster : List Char) : List Char :=
  https ++ sep ++ (RustNum.print 10 port ++ '-' :: workspace ++ '.' :: cluster)

/-- The header is that of the Gitpod proxy (`http.rs` 235). -/
def isGitpod (port : Nat) (gitpod : Option (List Char × List Char)) (header : List Char) : Bool :=
  match gitpod with
  | some (w, c) => gitpodOrigin port w c = header
  | none => false

/-- `is_valid_origin_impl` (`http.rs` 184-236). `parse` is `Url::parse`; `host` is the host of the address the server
was told to listen on (201-203). -/
def isValidOrigin (parse : List Char → Option Url) (host : List Char) (port : Nat)
    (gitpod : Option (List Char × List Char)) (header : List Char) : Bool :=
  match parse header with
  | none => false
  | some url =>
    if url.path ≠ ['/'] ∧ url.path ≠ [] then false
    else
      header = expectedOrigin host port
      || url.scheme = webview
      || ((url.host = some localhost || url.host = some loopback) && url.scheme = http)
      || isGitpod port gitpod header

/-- What a request gets: the connection is closed, a websocket, the page, or a redirection to it. -/
inductive Answer where
  | closed
  | websocket
  | page
  | redirect
deriving DecidableEq

/-- The handler (`http.rs` 50-105). `upgrade`: the request asks for a websocket, and the upgrade succeeds. -/
def serve (parse : List Char → Option Url) (host : List Char) (port : Nat) (gitpod : Option (List Char × List Char))
    (origin : Option (List Char)) (upgrade : Bool) (path : List Char) : Answer :=
  if origin.any (fun h => !isValidOrigin parse host port gitpod h) then .closed
  else if upgrade then .websocket
  else if path = ['/'] then .page
  else .redirect

end Tinymist.Origin
