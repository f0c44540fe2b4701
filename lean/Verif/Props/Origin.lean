import Verif.Spec.Origin
import Verif.Lemmas.RustNum

/-!
# C62, C63: who may talk to the preview server
-/

namespace Tinymist.Origin

theorem split_first {α : Type} {c : α} {a a' b b' : List α} (h : a ++ c :: b = a' ++ c :: b') (ha : c ∉ a) (ha' : c ∉ a') :
    a = a' ∧ b = b' := by
  induction a generalizing a' with
  | nil =>
    cases a' with
    | nil => simp at h; exact ⟨rfl, h⟩
    | cons x a' => simp at h; exact absurd (by simp [h.1]) ha'
  | cons x a ih =>
    cases a' with
    | nil => simp at h; exact absurd (by simp [h.1]) ha
    | cons y a' =>
      simp only [List.cons_append, List.cons.injEq] at h
      have := ih h.2 (fun h => ha (by simp [h])) (fun h => ha' (by simp [h]))
      exact ⟨by rw [h.1, this.1], this.2⟩

theorem split_last {α : Type} {c : α} {a a' b b' : List α} (h : a ++ c :: b = a' ++ c :: b') (hb : c ∉ b) (hb' : c ∉ b') :
    a = a' ∧ b = b' := by
  have h' : b.reverse ++ c :: a.reverse = b'.reverse ++ c :: a'.reverse := by
    have := congrArg List.reverse h
    simpa using this
  have := split_first h' (by simpa using hb) (by simpa using hb')
  exact ⟨List.reverse_inj.mp this.2, List.reverse_inj.mp this.1⟩

theorem colon_print (n : Nat) : ':' ∉ RustNum.print 10 n := by
  intro h
  obtain ⟨d, hd, e⟩ := RustNum.mem_print (by omega) n _ h
  have : ∀ d, d < 10 → ':' ≠ RustNum.digitChar d := by decide
  exact this d hd e

theorem bracket_print (n : Nat) : ']' ∉ RustNum.print 10 n := by
  intro h
  obtain ⟨d, hd, e⟩ := RustNum.mem_print (by omega) n _ h
  have : ∀ d, d < 10 → ']' ≠ RustNum.digitChar d := by decide
  exact this d hd e

theorem print_inj {m n : Nat} (h : RustNum.print 10 m = RustNum.print 10 n) : m = n := by
  have h1 := RustNum.parse_print (b := 10) (by omega) (by omega) (max m n) m (by omega)
  have h2 := RustNum.parse_print (b := 10) (by omega) (by omega) (max m n) n (by omega)
  rw [h, h2] at h1
  exact (Option.some.inj h1).symm

theorem not_host_port {h : List Char} (hh : IsHost h) (g : List Char) (n : Nat) : h ≠ g ++ ':' :: RustNum.print 10 n := by
  intro e
  rcases hh with hh | ⟨m, rfl⟩
  · exact hh (by rw [e]; simp)
  · have hne := RustNum.print_ne_nil (b := 10) (by omega) n
    obtain ⟨d, x, hx⟩ : ∃ d x, RustNum.print 10 n = d ++ [x] := by
      rcases List.eq_nil_or_concat (RustNum.print 10 n) with h | ⟨d, x, h⟩
      · exact absurd h hne
      · exact ⟨d, x, by rw [h, List.concat_eq_append]⟩
    rw [hx, ← List.cons_append, ← List.append_assoc] at e
    have := (List.append_inj' e rfl).2
    have hb := bracket_print n
    rw [hx] at hb
    simp at this
    exact hb (this ▸ by simp)

/-- Different sites have different headers. -/
theorem header_inj {o o' : Site} (h : o.Proper) (h' : o'.Proper) (e : o.header = o'.header) : o = o' := by
  obtain ⟨s, x, p⟩ := o
  obtain ⟨s', x', p'⟩ := o'
  simp only [Site.header] at e
  rw [List.append_assoc, List.append_assoc, List.append_assoc, List.append_assoc] at e
  have e1 : s ++ ':' :: (['/', '/'] ++ (x ++ portPart p)) =
      s' ++ ':' :: (['/', '/'] ++ (x' ++ portPart p')) := e
  obtain ⟨rfl, e2⟩ := split_first e1 h.scheme h'.scheme
  have e3 := List.append_cancel_left e2
  have hx := h.host
  have hx' := h'.host
  cases p with
  | none =>
    cases p' with
    | none => simp [portPart] at e3; rw [e3]
    | some p' => simp only [portPart, List.append_nil] at e3; exact absurd e3 (not_host_port hx _ _)
  | some p =>
    cases p' with
    | none => simp only [portPart, List.append_nil] at e3; exact absurd e3.symm (not_host_port hx' _ _)
    | some p' =>
      obtain ⟨rfl, e4⟩ := split_last e3 (colon_print _) (colon_print _)
      rw [print_inj e4]

theorem expected_eq (host : List Char) (port : Nat) :
    expectedOrigin host port = (⟨http, host, some port⟩ : Site).header := by
  simp [expectedOrigin, Site.header, portPart]

theorem gitpod_eq (port : Nat) (w c : List Char) :
    gitpodOrigin port w c = (⟨https, RustNum.print 10 port ++ '-' :: w ++ '.' :: c, none⟩ : Site).header := by
  simp [gitpodOrigin, Site.header, portPart]

theorem http_eq : "http".toList = http := rfl
theorem https_eq : "https".toList = https := rfl
theorem webview_eq : "vscode-webview".toList = webview := rfl
theorem localhost_eq : "localhost".toList = localhost := rfl
theorem loopback_eq : "127.0.0.1".toList = loopback := rfl

/-- A server: the parser it uses, the host it listens on and the names of the Gitpod workspace. -/
structure Server (parse : List Char → Option Url) (host : List Char) (gitpod : Option (List Char × List Char)) : Prop where
  reads : Reads parse
  host : IsHost host
  gitpod : ∀ w c, gitpod = some (w, c) → ':' ∉ w ∧ ':' ∉ c

/-- **C62, exactly.** A page is let in iff it comes from the address the server listens on, with the port spelled out,
from a panel of the editor, from a local site, or from the proxy of the Gitpod workspace. -/
theorem let_in_iff {parse host gitpod} (hs : Server parse host gitpod) (port : Nat) (o : Site) (ho : o.Proper) :
    isValidOrigin parse host port gitpod o.header = true ↔
      o = ⟨"http".toList, host, some port⟩ ∨ o.Panel ∨ o.Local ∨ o.Gitpod port gitpod := by
  obtain ⟨path, hpath, hp⟩ := hs.reads.site o ho
  have hown : o.header = expectedOrigin host port ↔ o = ⟨http, host, some port⟩ := by
    rw [expected_eq]
    constructor
    · exact header_inj ho ⟨(by simp [http, servedAt]), hs.host⟩
    · intro e; rw [← e]
  have hgit : isGitpod port gitpod o.header = true ↔ o.Gitpod port gitpod := by
    cases gitpod with
    | none => simp [Site.Gitpod, isGitpod]
    | some wc =>
      obtain ⟨w, c⟩ := wc
      simp only [isGitpod, decide_eq_true_eq]
      rw [gitpod_eq]
      have hwc := hs.gitpod w c rfl
      constructor
      · intro e
        refine ⟨w, c, rfl, (header_inj ⟨(by simp [https]), .inl ?_⟩ ho e).symm⟩
        have := colon_print port
        simp [hwc.1, hwc.2, this]
      · rintro ⟨w', c', e, rfl⟩
        cases e; rfl
  unfold isValidOrigin
  rw [hp]
  simp only
  rw [if_neg (by rcases hpath with h | h <;> simp [h])]
  rw [Bool.or_eq_true, Bool.or_eq_true, Bool.or_eq_true, hgit, decide_eq_true_eq, hown, decide_eq_true_eq]
  simp only [Site.Panel, Site.Local, Bool.and_eq_true, Bool.or_eq_true, decide_eq_true_eq, Option.some.injEq]
  constructor
  · rintro (((h | h) | h) | h)
    · exact .inl h
    · exact .inr (.inl h)
    · exact .inr (.inr (.inl ⟨h.2, h.1⟩))
    · exact .inr (.inr (.inr h))
  · rintro (h | h | h | h)
    · exact .inl (.inl (.inl h))
    · exact .inl (.inl (.inr h))
    · exact .inl (.inr ⟨h.2, h.1⟩)
    · exact .inr h

/-- **C62.** A page of any other site gets nothing: neither the preview's page nor a websocket. -/
theorem foreign_page_refused {parse host gitpod} (hs : Server parse host gitpod) (port : Nat) (o : Site) (ho : o.Proper)
    (h1 : ¬ (o.scheme = "http".toList ∧ o.host = host ∧ o.port = some port)) (h2 : ¬ o.Panel) (h3 : ¬ o.Local)
    (h4 : ¬ o.Gitpod port gitpod) (upgrade : Bool) (path : List Char) :
    serve parse host port gitpod (some o.header) upgrade path = .closed := by
  have : isValidOrigin parse host port gitpod o.header = false := by
    cases h : isValidOrigin parse host port gitpod o.header with
    | false => rfl
    | true =>
      rcases (let_in_iff hs port o ho).mp h with h | h | h | h
      · exact absurd (by rw [h]; exact ⟨rfl, rfl, rfl⟩) h1
      · exact absurd h h2
      · exact absurd h h3
      · exact absurd h h4
  simp [serve, this]

/-- **C62.** A page without an origin of its own, such as a sandboxed frame, gets nothing. -/
theorem opaque_page_refused {parse host gitpod} (hs : Server parse host gitpod) (port : Nat) (upgrade : Bool)
    (path : List Char) : serve parse host port gitpod (some ['n', 'u', 'l', 'l']) upgrade path = .closed := by
  simp [serve, isValidOrigin, hs.reads.opaque_]

/-- **C63, partial.** The preview's page, got from the address the server listens on, may open its websocket, unless the
port is 80. Missing from the full claim: port 80, and other addresses under which the machine is reached. -/
theorem own_page_served_partial {parse host gitpod} (hs : Server parse host gitpod) (port : Nat) (hp : port ≠ 80)
    (path : List Char) : serve parse host port gitpod (some (servedAt host port).header) true path = .websocket := by
  have : isValidOrigin parse host port gitpod (servedAt host port).header = true := by
    rw [let_in_iff hs port _ ⟨(by simp [http, servedAt]), hs.host⟩]
    left
    simp [servedAt, hp]
  simp [serve, this]

/-- **C63.** So may any page of the local machine, such as a proxy in front of the preview. -/
theorem local_page_served {parse host gitpod} (hs : Server parse host gitpod) (port : Nat) (o : Site) (ho : o.Proper)
    (hl : o.Local) (path : List Char) : serve parse host port gitpod (some o.header) true path = .websocket := by
  have : isValidOrigin parse host port gitpod o.header = true := by
    rw [let_in_iff hs port o ho]; exact .inr (.inr (.inl hl))
  simp [serve, this]

/-- **C63 fails.** At port 80 of a host that is not local, the preview's own page is refused. -/
theorem port_80_refused {parse host gitpod} (hs : Server parse host gitpod) (h1 : host ≠ "localhost".toList)
    (h2 : host ≠ "127.0.0.1".toList) (path : List Char) :
    serve parse host 80 gitpod (some (servedAt host 80).header) true path = .closed := by
  apply foreign_page_refused hs 80 _ ⟨(by simp [http, servedAt]), hs.host⟩
  · simp [servedAt]
  · simp [Site.Panel, servedAt, http, webview]
  · simp only [Site.Local, servedAt]; rintro ⟨_, h | h⟩
    · exact h1 h
    · exact h2 h
  · rintro ⟨w, c, _, h⟩
    simp [servedAt, http, https] at h

/-- **C63 fails.** A server that listens on all addresses refuses its own page when it was got from one of them. -/
theorem all_addresses_refused {parse gitpod} (hs : Server parse "0.0.0.0".toList gitpod) (path : List Char) :
    serve parse "0.0.0.0".toList 23635 gitpod (some (servedAt "192.168.1.5".toList 23635).header) true path = .closed := by
  apply foreign_page_refused hs 23635 _ ⟨by decide, .inl (by decide)⟩
  · simp [servedAt]
  · simp [Site.Panel, servedAt, http, webview]
  · simp [Site.Local, servedAt, localhost, loopback]
  · rintro ⟨w, c, _, h⟩
    simp [servedAt, http, https] at h

/-- **C62.** A header that is no origin but an address with a path is refused. -/
theorem path_refused {parse : List Char → Option Url} {header : List Char} {url : Url} (hp : parse header = some url)
    (h1 : url.path ≠ []) (h2 : url.path ≠ ['/']) (host : List Char) (port : Nat) (gitpod) (upgrade : Bool) (path : List Char) :
    serve parse host port gitpod (some header) upgrade path = .closed := by
  simp [serve, isValidOrigin, hp, h1, h2]

/-- **C63.** A browser that opens the address of the preview gets the page, and from any other path it is sent there. -/
theorem page_opens (parse) (host : List Char) (port : Nat) (gitpod) (path : List Char) :
    serve parse host port gitpod none false ['/'] = .page ∧
      (path ≠ ['/'] → serve parse host port gitpod none false path = .redirect) := by
  constructor
  · rfl
  · intro h; simp [serve, h]

/-- **C63.** Programs that send no origin, like the editor's extension, may open a websocket. -/
theorem no_origin_served (parse) (host : List Char) (port : Nat) (gitpod) (path : List Char) :
    serve parse host port gitpod none true path = .websocket := rfl

/-- Parsers as assumed exist. -/
theorem reads_exist : ∃ parse, Reads parse := by
  classical
  refine ⟨fun h => if hx : ∃ o : Site, o.Proper ∧ o.header = h then
    some ⟨hx.choose.scheme, some hx.choose.host, []⟩ else none, ?_, ?_⟩
  · intro o ho
    refine ⟨[], .inl rfl, ?_⟩
    have hx : ∃ o' : Site, o'.Proper ∧ o'.header = o.header := ⟨o, ho, rfl⟩
    rw [dif_pos hx]
    have := header_inj hx.choose_spec.1 ho hx.choose_spec.2
    rw [this]
  · rw [dif_neg]
    rintro ⟨o, ho, e⟩
    have : ':' ∈ o.header := by simp [Site.header, sep]
    rw [e] at this
    revert this; decide

/-- Meets the hypotheses: the default server, a site out there, and the preview's own page. -/
example : ∃ parse, Server parse loopback none ∧
    serve parse loopback 42 none (some (⟨https, ['h', 'u', 'h', '.', 'i', 'o'], some 8080⟩ : Site).header) true [] = .closed ∧
    serve parse loopback 42 none (some (servedAt loopback 42).header) true [] = .websocket := by
  obtain ⟨parse, hr⟩ := reads_exist
  have hs : Server parse loopback none := ⟨hr, .inl (by decide), fun _ _ h => (nomatch h)⟩
  refine ⟨parse, hs, ?_, own_page_served_partial hs 42 (by decide) []⟩
  apply foreign_page_refused hs 42 _ ⟨by decide, .inl (by decide)⟩
  · decide
  · unfold Site.Panel; decide
  · unfold Site.Local; decide
  · rintro ⟨w, c, h, _⟩; cases h

end Tinymist.Origin
