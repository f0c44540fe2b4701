import Verif.Props.TypliteInclude

/-!
# C115: rendered pieces
-/

namespace Tinymist.Typlite

theorem onDisk_append (a b : List (Text × Text)) (name : Text) : onDisk (a ++ b) name = (onDisk b name).or (onDisk a name) := by
  unfold onDisk
  rw [List.reverse_append, List.find?_append]
  cases b.reverse.find? fun p => decide (p.1 = name) <;> simp

theorem onDisk_last (a : List (Text × Text)) (name data : Text) : onDisk (a ++ [(name, data)]) name = some data := by
  rw [onDisk_append]
  simp [onDisk]

theorem onDisk_other {a b : List (Text × Text)} {name : Text} (h : ∀ p ∈ b, p.1 ≠ name) : onDisk (a ++ b) name = onDisk a name := by
  rw [onDisk_append]
  have : onDisk b name = none := by
    unfold onDisk
    rw [List.find?_eq_none.mpr]
    · rfl
    · intro p hp
      simpa using h p (List.mem_reverse.mp hp)
  rw [this]
  rfl

theorem cut_at (c : Char) : ∀ (p q a b : Text), c ∉ p → c ∉ q → p ++ c :: a = q ++ c :: b → p = q ∧ a = b := by
  intro p
  induction p with
  | nil =>
    intro q a b _ hq h
    cases q with
    | nil => simpa using h
    | cons d q =>
      simp only [List.nil_append, List.cons_append, List.cons.injEq] at h
      exact absurd (by rw [← h.1]; simp) hq
  | cons d p ih =>
    intro q a b hp hq h
    cases q with
    | nil =>
      simp only [List.nil_append, List.cons_append, List.cons.injEq] at h
      exact absurd (by rw [h.1]; simp) hp
    | cons e q =>
      simp only [List.cons_append, List.cons.injEq] at h
      simp only [List.mem_cons, not_or] at hp hq
      have := ih q a b hp.2 hq.2 h.2
      exact ⟨by rw [h.1, this.1], this.2⟩

theorem digits_inj {m n : Nat} (h : digits m = digits n) : m = n := by
  have hm := Nat.ofDigitChars_toDigits (b := 10) (n := m) (by decide) (by decide)
  have hn := Nat.ofDigitChars_toDigits (b := 10) (n := n) (by decide) (by decide)
  rw [← hm, ← hn]
  unfold digits at h
  rw [h]

theorem digits_no {c : Char} (hc : c.isDigit = false) (n : Nat) : c ∉ digits n := by
  intro h
  have := Nat.isDigit_of_mem_toDigits (by decide) (by decide) h
  rw [hc] at this
  exact absurd this (by decide)

theorem svgName_inj {dir : Text} {m n : Nat} {t u : Theme} (h : svgName dir m t = svgName dir n u) : m = n ∧ t = u := by
  unfold svgName at h
  simp only [List.append_assoc] at h
  have h := List.append_cancel_left (List.append_cancel_left h)
  have := cut_at '_' _ _ _ _ (digits_no rfl m) (digits_no rfl n) h
  refine ⟨digits_inj this.1, ?_⟩
  have h2 := this.2
  cases t <;> cases u <;> simp [themeName] at h2 ⊢

theorem srcName_inj {dir : Text} {m n : Nat} (h : srcName dir m = srcName dir n) : m = n := by
  unfold srcName at h
  simp only [List.append_assoc] at h
  have h := List.append_cancel_left (List.append_cancel_left h)
  exact digits_inj (cut_at '.' _ _ _ _ (digits_no rfl m) (digits_no rfl n) h).1

theorem svg_ne_src (dir dir' : Text) (m n : Nat) (t : Theme) : svgName dir m t ≠ srcName dir' n := by
  intro h
  have h1 : (svgName dir m t).getLast? = some 'g' := by
    unfold svgName
    rw [List.getLast?_append]
    rfl
  have h2 : (srcName dir' n).getLast? = some 'p' := by
    unfold srcName
    rw [List.getLast?_append]
    rfl
  rw [h, h2] at h1
  exact absurd h1 (by decide)

theorem dark_name (dir : Text) (n : Nat) :
    dir ++ "/".toList ++ Nat.toDigits 10 n ++ "_Dark.svg".toList = svgName dir n .dark := by
  have : "_Dark.svg".toList = ['_'] ++ themeName .dark ++ ['.', 's', 'v', 'g'] := by decide
  rw [this]
  simp only [svgName, digits, List.append_assoc]
  rfl

theorem light_name (dir : Text) (n : Nat) :
    dir ++ "/".toList ++ Nat.toDigits 10 n ++ "_Light.svg".toList = svgName dir n .light := by
  have : "_Light.svg".toList = ['_'] ++ themeName .light ++ ['.', 's', 'v', 'g'] := by decide
  rw [this]
  simp only [svgName, digits, List.append_assoc]
  rfl

/-- Where the name of an image is in its text. -/
theorem imageText_src (inline : Bool) (src : Text) : ∃ a b, imageText inline src = a ++ ("src=\"".toList ++ src ++ "\"".toList) ++ b := by
  refine ⟨"<img".toList ++ inlineAttrs inline ++ " alt=\"typst-block\" ".toList, " />".toList, ?_⟩
  have e1 : " alt=\"typst-block\" src=\"".toList = " alt=\"typst-block\" ".toList ++ "src=\"".toList := by decide
  have e2 : "\" />".toList = "\"".toList ++ " />".toList := by decide
  unfold imageText
  rw [e1, e2]
  simp only [List.append_assoc]

theorem pictureText_src (inline : Bool) (dark light : Text) : ∃ a b c, pictureText inline dark light =
    a ++ ("srcset=\"".toList ++ dark ++ "\"".toList) ++ b ++ ("src=\"".toList ++ light ++ "\"".toList) ++ c := by
  obtain ⟨x, y, h⟩ := imageText_src inline light
  refine ⟨"<picture><source media=\"(prefers-color-scheme: dark)\" ".toList, ">".toList ++ x, y ++ "</picture>".toList, ?_⟩
  have e1 : "<picture><source media=\"(prefers-color-scheme: dark)\" srcset=\"".toList =
    "<picture><source media=\"(prefers-color-scheme: dark)\" ".toList ++ "srcset=\"".toList := by decide
  have e2 : "\">".toList = "\"".toList ++ ">".toList := by decide
  unfold pictureText
  rw [h, e1, e2]
  simp only [List.append_assoc]

theorem aligned_around (inline : Bool) (body : Text) : ∃ a b, aligned inline body = a ++ body ++ b := by
  unfold aligned
  split
  · exact ⟨[], [], by simp⟩
  · exact ⟨_, _, rfl⟩

theorem linked_around (code : Option Text) (body : Text) : ∃ a b, linked code body = a ++ body ++ b := by
  unfold linked
  split
  · exact ⟨_, _, rfl⟩
  · exact ⟨[], [], by simp⟩

/-- The worker before a piece is rendered. -/
def started (env : Env) (code : Text) (w : Worker) : Worker :=
  match env.assetsSrc with
  | some dir => { w with assets := w.assets + 1, writes := w.writes ++ [(srcName dir (w.assets + 1), "#{\n// render_code\n".toList ++
      code ++ "\n}".toList)] }
  | none => { w with assets := w.assets + 1 }

theorem renderPiece_eq (env : Env) (prepend code : Text) (inline : Bool) (w : Worker) :
    renderPiece env prepend code inline w = renderCode env prepend code inline (started env code w) := by
  unfold renderPiece started
  cases env.assetsSrc <;> rfl

theorem started_assets (env : Env) (code : Text) (w : Worker) : (started env code w).assets = w.assets + 1 := by
  unfold started
  cases env.assetsSrc <;> rfl

/-- **C115.** If pictures are to be in files and no theme is chosen, what is shown for a rendered piece names two files, for a dark and
for a light background, and these hold the two pictures. Missing: a chosen theme. -/
theorem picture_files_partial (env : Env) (prepend code : Text) (inline : Bool) (w : Worker) (dir dark light : Text)
    (ht : env.theme = none) (ha : env.assetsPath = some dir) (hd : env.svg prepend code .dark = .ok dark)
    (hl : env.svg prepend code .light = .ok light) :
    ∃ out w', renderPiece env prepend code inline w = .ok (out, w') ∧
      (∃ a b c, out = a ++ ("srcset=\"".toList ++ (dir ++ "/".toList ++ Nat.toDigits 10 (w.assets + 1) ++ "_Dark.svg".toList) ++
        "\"".toList) ++ b ++ ("src=\"".toList ++ (dir ++ "/".toList ++ Nat.toDigits 10 (w.assets + 1) ++ "_Light.svg".toList) ++
        "\"".toList) ++ c) ∧
      onDisk w'.writes (dir ++ "/".toList ++ Nat.toDigits 10 (w.assets + 1) ++ "_Dark.svg".toList) = some dark ∧
      onDisk w'.writes (dir ++ "/".toList ++ Nat.toDigits 10 (w.assets + 1) ++ "_Light.svg".toList) = some light := by
  rw [dark_name, light_name, renderPiece_eq]
  have hn := started_assets env code w
  generalize started env code w = w0 at hn
  have hr : renderCode env prepend code inline w0 = .ok (aligned inline (linked (env.assetsSrc.map (srcName · w0.assets))
      (pictureText inline (svgName dir w0.assets .dark) (svgName dir w0.assets .light))),
      { w0 with writes := w0.writes ++ [(svgName dir w0.assets .dark, dark)] ++ [(svgName dir w0.assets .light, light)] }) := by
    simp only [renderCode, ht, renderInner, hd, hl, ha]
  refine ⟨_, _, hr, ?_, ?_, ?_⟩
  · rw [← hn]
    obtain ⟨a, b, c, h⟩ := pictureText_src inline (svgName dir w0.assets .dark) (svgName dir w0.assets .light)
    rw [h]
    obtain ⟨x, y, h'⟩ := linked_around (env.assetsSrc.map (srcName · w0.assets)) (a ++
      ("srcset=\"".toList ++ svgName dir w0.assets .dark ++ "\"".toList) ++ b ++
      ("src=\"".toList ++ svgName dir w0.assets .light ++ "\"".toList) ++ c)
    rw [h']
    obtain ⟨x', y', h''⟩ := aligned_around inline (x ++ (a ++
      ("srcset=\"".toList ++ svgName dir w0.assets .dark ++ "\"".toList) ++ b ++
      ("src=\"".toList ++ svgName dir w0.assets .light ++ "\"".toList) ++ c) ++ y)
    rw [h'']
    exact ⟨x' ++ x ++ a, b, c ++ y ++ y', by simp only [List.append_assoc]⟩
  · rw [← hn]
    rw [onDisk_other, onDisk_last]
    intro p hp
    simp only [List.mem_singleton] at hp
    subst hp
    intro h
    exact absurd (svgName_inj h).2 (by decide)
  · rw [← hn]
    exact onDisk_last _ _ _

/-- **C115.** If a theme is chosen, the file of a picture does not hold the picture in the end: what is written to it last is its own
name. -/
theorem chosen_theme_overwritten (env : Env) (prepend code : Text) (inline : Bool) (w : Worker) (dir pic : Text) (t : Theme)
    (ht : env.theme = some t) (ha : env.assetsPath = some dir) (hp : env.svg prepend code t = .ok pic) :
    ∃ out w' name, renderPiece env prepend code inline w = .ok (out, w') ∧
      (∃ a b, out = a ++ ("src=\"".toList ++ name ++ "\"".toList) ++ b) ∧ onDisk w'.writes name = some name := by
  rw [renderPiece_eq]
  generalize started env code w = w0
  refine ⟨aligned inline (linked (env.assetsSrc.map (srcName · w0.assets)) (imageText inline (svgName dir w0.assets t))),
    { w0 with writes := w0.writes ++ [(svgName dir w0.assets t, pic)] ++ [(svgName dir w0.assets t, svgName dir w0.assets t)] },
    svgName dir w0.assets t, by simp only [renderCode, ht, renderInner, hp, ha], ?_, onDisk_last _ _ _⟩
  obtain ⟨a, b, h⟩ := imageText_src inline (svgName dir w0.assets t)
  rw [h]
  obtain ⟨x, y, h'⟩ := linked_around (env.assetsSrc.map (srcName · w0.assets)) (a ++
    ("src=\"".toList ++ svgName dir w0.assets t ++ "\"".toList) ++ b)
  rw [h']
  obtain ⟨x', y', h''⟩ := aligned_around inline (x ++ (a ++ ("src=\"".toList ++ svgName dir w0.assets t ++ "\"".toList) ++ b) ++ y)
  rw [h'']
  exact ⟨x' ++ x ++ a, b ++ y ++ y', by simp only [List.append_assoc]⟩

/-- **C115.** In a line a rendered piece is a picture that is lowered to the line; its data is in the text if it is not to be in files. -/
theorem picture_in_line (env : Env) (prepend code : Text) (w : Worker) (dark light : Text)
    (ht : env.theme = none) (ha : env.assetsPath = none) (hd : env.svg prepend code .dark = .ok dark)
    (hl : env.svg prepend code .light = .ok light) :
    ∃ w', renderPiece env prepend code true w = .ok ("<picture><source media=\"(prefers-color-scheme: dark)\" srcset=\"".toList ++
      ("data:image/svg+xml;base64,".toList ++ env.base64 dark) ++ "\">".toList ++
      ("<img".toList ++ " style=\"vertical-align: -0.35em\"".toList ++ " alt=\"typst-block\" src=\"".toList ++
      ("data:image/svg+xml;base64,".toList ++ env.base64 light) ++ "\" />".toList) ++ "</picture>".toList, w') := by
  rw [renderPiece_eq]
  generalize started env code w = w0
  have hr : renderCode env prepend code true w0 = .ok (aligned true (pictureText true (dataUrl (env.base64 dark))
      (dataUrl (env.base64 light))), w0) := by
    simp only [renderCode, ht, renderInner, hd, hl, ha]
  refine ⟨w0, hr.trans ?_⟩
  unfold aligned pictureText imageText inlineAttrs dataUrl
  rw [if_pos rfl, if_pos rfl]

/-- **C115.** A rendered piece that is not in a line is a paragraph of its own, in the middle. -/
theorem picture_apart (env : Env) (prepend code : Text) (w : Worker) (dark light : Text)
    (ht : env.theme = none) (ha : env.assetsPath = none) (hd : env.svg prepend code .dark = .ok dark)
    (hl : env.svg prepend code .light = .ok light) :
    ∃ w', renderPiece env prepend code false w = .ok ("<p align=\"center\">".toList ++
      ("<picture><source media=\"(prefers-color-scheme: dark)\" srcset=\"".toList ++
      ("data:image/svg+xml;base64,".toList ++ env.base64 dark) ++ "\">".toList ++ ("<img".toList ++ " alt=\"typst-block\" src=\"".toList ++
      ("data:image/svg+xml;base64,".toList ++ env.base64 light) ++ "\" />".toList) ++ "</picture>".toList) ++ "</p>".toList, w') := by
  rw [renderPiece_eq]
  generalize started env code w = w0
  have hr : renderCode env prepend code false w0 = .ok (aligned false (pictureText false (dataUrl (env.base64 dark))
      (dataUrl (env.base64 light))), w0) := by
    simp only [renderCode, ht, renderInner, hd, hl, ha]
  refine ⟨w0, hr.trans ?_⟩
  unfold aligned pictureText imageText inlineAttrs dataUrl
  rw [if_neg Bool.false_ne_true, if_neg Bool.false_ne_true, List.append_nil]

/-- **C115.** A bare address is left as it is for GitHub, which makes a link of it, and made a link for others. -/
theorem address_linked (env : Env) (fuel : Nat) (url : Text) (w : Worker) :
    (env.gfm = true → ∃ w', eval env (fuel + 1) (.link url) w = .ok (.content url, w')) ∧
    (env.gfm = false → ∃ w', eval env (fuel + 1) (.link url) w =
      .ok (.content ("[".toList ++ url ++ "](".toList ++ url ++ ")".toList), w')) := by
  constructor
  · intro h
    refine ⟨w, ?_⟩
    rw [eval]
    simp only [step, h, if_true, andThen_ret]
    rfl
  · intro h
    refine ⟨w, ?_⟩
    rw [eval]
    simp only [step, h, Bool.false_eq_true, if_false, andThen_ret]
    rfl

/-- **C115.** If the code of pictures is to be in files, the picture is a link to a file that holds the code. -/
theorem source_linked (env : Env) (prepend code : Text) (inline : Bool) (w : Worker) (dir src dark light : Text)
    (ht : env.theme = none) (ha : env.assetsPath = some dir) (hs : env.assetsSrc = some src)
    (hd : env.svg prepend code .dark = .ok dark) (hl : env.svg prepend code .light = .ok light) :
    ∃ out w' a b c, renderPiece env prepend code inline w = .ok (out, w') ∧
      out = a ++ ("<a href=\"".toList ++ (src ++ "/".toList ++ Nat.toDigits 10 (w.assets + 1) ++ ".typ".toList) ++ "\">".toList) ++
        b ++ "</a>".toList ++ c ∧
      onDisk w'.writes (src ++ "/".toList ++ Nat.toDigits 10 (w.assets + 1) ++ ".typ".toList) =
        some ("#{\n// render_code\n".toList ++ code ++ "\n}".toList) := by
  have hname : src ++ "/".toList ++ Nat.toDigits 10 (w.assets + 1) ++ ".typ".toList = srcName src (w.assets + 1) := rfl
  rw [hname, renderPiece_eq]
  have hn := started_assets env code w
  have hw : (started env code w).writes =
      w.writes ++ [(srcName src (w.assets + 1), "#{\n// render_code\n".toList ++ code ++ "\n}".toList)] := by
    unfold started
    rw [hs]
  generalize started env code w = w0 at hn hw
  have hr : renderCode env prepend code inline w0 = .ok (aligned inline (linked (some (srcName src w0.assets))
      (pictureText inline (svgName dir w0.assets .dark) (svgName dir w0.assets .light))),
      { w0 with writes := w0.writes ++ [(svgName dir w0.assets .dark, dark)] ++ [(svgName dir w0.assets .light, light)] }) := by
    simp only [renderCode, ht, renderInner, hd, hl, ha, hs, Option.map_some]
  obtain ⟨x, y, h⟩ := aligned_around inline (linked (some (srcName src w0.assets))
      (pictureText inline (svgName dir w0.assets .dark) (svgName dir w0.assets .light)))
  refine ⟨_, _, x, pictureText inline (svgName dir w0.assets .dark) (svgName dir w0.assets .light), y, hr, ?_, ?_⟩
  · rw [h, hn]
    unfold linked
    simp only [List.append_assoc]
  · simp only [hw, List.append_assoc]
    rw [← List.append_assoc, onDisk_other, onDisk_last]
    intro p hp
    simp only [List.cons_append, List.nil_append, List.mem_cons, List.not_mem_nil, or_false] at hp
    rcases hp with rfl | rfl
    · exact svg_ne_src _ _ _ _ _
    · exact svg_ne_src _ _ _ _ _

/-- **C113.** An image in a text is shown as an image, with its description and its path. -/
theorem image_text (env : Env) (fuel : Nat) (src before path alt : Text) (w : Worker) :
    reduceWith (eval env (fuel + 1)) [.text before,
      .call src (.ident "image".toList) [.str path] [("alt".toList, .str alt)]] w =
    .ok (before ++ ("![".toList ++ alt ++ "](".toList ++ path ++ ")".toList), w) := by
  have h1 : eval env (fuel + 1) (.call src (.ident "image".toList) [.str path] [("alt".toList, .str alt)]) w =
      .ok (.image path alt, w) := rfl
  have h2 : eval env (fuel + 1) (.text before) w = .ok (.content before, w) := rfl
  simp only [reduceWith]
  rw [andThen_ok h2, andThen_ok (andThen_ok h1 |>.trans (andThen_ok rfl))]
  simp [value, ret]

/-- **C115.** Functions, and parentheses around what gives nothing, are kept for the pieces that follow, each on a line of
its own. -/
theorem functions_kept (env : Env) (fuel : Nat) (src : Text) (body : Node) (w w' : Worker) :
    eval env (fuel + 1) (.closure src body) w = .ok (.none, { w with prepend := w.prepend ++ src ++ "\n".toList }) ∧
    (eval env fuel body w = .ok (.none, w') →
      eval env (fuel + 1) (.wrap src body) w = .ok (.none, { w' with prepend := w'.prepend ++ src ++ "\n".toList })) := by
  constructor
  · rw [eval, step, andThen_ret]
    simp only [note, noted, List.append_assoc]
    rfl
  · intro h
    rw [eval, step, andThen_ok h]
    simp only [note, noted, List.append_assoc]
    rfl

/-! ## Files are not written twice -/

/-- Only files with new numbers are written. -/
def Fresh (env : Env) {α : Type} (m : M α) : Prop :=
  ∀ w a w', m w = .ok (a, w') → w.assets ≤ w'.assets ∧ ∃ extra, w'.writes = w.writes ++ extra ∧ ∀ p ∈ extra, ∃ k, w.assets < k ∧
    k ≤ w'.assets ∧ ((∃ dir, env.assetsSrc = some dir ∧ p.1 = srcName dir k) ∨
      ∃ dir t, env.assetsPath = some dir ∧ p.1 = svgName dir k t)

theorem fresh_same {env : Env} {α : Type} {m : M α} (h : ∀ w a w', m w = .ok (a, w') → w'.assets = w.assets ∧ w'.writes = w.writes) :
    Fresh env m := by
  intro w a w' hm
  obtain ⟨h1, h2⟩ := h w a w' hm
  exact ⟨by omega, [], by simp [h2], by simp⟩

theorem fresh_bind {env : Env} {α β : Type} {m : M α} {f : α → M β} (h : Fresh env m) (hf : ∀ a, Fresh env (f a)) :
    Fresh env (andThen m f) := by
  intro w b w' hb
  obtain ⟨a, w1, hm, hfa⟩ := andThen_inv hb
  obtain ⟨h1, e1, h2, h3⟩ := h w a w1 hm
  obtain ⟨g1, e2, g2, g3⟩ := hf a w1 b w' hfa
  refine ⟨by omega, e1 ++ e2, by rw [g2, h2, List.append_assoc], ?_⟩
  intro p hp
  rcases List.mem_append.mp hp with hp | hp
  · obtain ⟨k, k1, k2, k3⟩ := h3 p hp
    exact ⟨k, k1, by omega, k3⟩
  · obtain ⟨k, k1, k2, k3⟩ := g3 p hp
    exact ⟨k, by omega, k2, k3⟩

theorem closed_fresh (env : Env) : Closed (fun {_} m => Fresh env m) where
  ret a := fresh_same fun w b w' h => by
    obtain ⟨_, rfl⟩ := ret_inv h
    exact ⟨rfl, rfl⟩
  fail _ := fresh_same fun w b w' h => by simp [fail] at h
  bind := fresh_bind

theorem fresh_renderPiece (env : Env) (prepend code : Text) (inline : Bool) : Fresh env (renderPiece env prepend code inline) := by
  intro w a w' h
  rw [renderPiece_eq] at h
  have hs : ∃ e, (started env code w).writes = w.writes ++ e ∧ ∀ p ∈ e, ∃ dir, env.assetsSrc = some dir ∧ p.1 = srcName dir (w.assets + 1) := by
    unfold started
    cases hsrc : env.assetsSrc with
    | none => exact ⟨[], by simp, by simp⟩
    | some dir => exact ⟨_, rfl, by simp⟩
  have hn := started_assets env code w
  generalize started env code w = w0 at h hs hn
  obtain ⟨e0, hw0, he0⟩ := hs
  have hi : ∀ (t : Theme) (u u' : Worker) (d : Text), renderInner env prepend code t u = .ok (d, u') → u'.assets = u.assets ∧
      ∃ e, u'.writes = u.writes ++ e ∧ ∀ p ∈ e, ∃ dir, env.assetsPath = some dir ∧ p.1 = svgName dir u.assets t := by
    intro t u u' d hu
    unfold renderInner at hu
    split at hu
    · simp at hu
    · split at hu
      · rename_i dir hdir
        simp only [Except.ok.injEq, Prod.mk.injEq] at hu
        obtain ⟨_, rfl⟩ := hu
        exact ⟨rfl, _, rfl, by simp [hdir]⟩
      · simp only [Except.ok.injEq, Prod.mk.injEq] at hu
        obtain ⟨_, rfl⟩ := hu
        exact ⟨rfl, [], by simp, by simp⟩
  have hf : ∀ (e : Text) (u u' : Worker) (d : Text), renderFailed env e u = .ok (d, u') → u' = u := by
    intro e u u' d hu
    unfold renderFailed at hu
    split at hu
    · simp only [Except.ok.injEq, Prod.mk.injEq] at hu
      exact hu.2.symm
    · simp at hu
  -- what is written after the start has the number of the piece
  suffices w'.assets = w0.assets ∧ ∃ e, w'.writes = w0.writes ++ e ∧ ∀ p ∈ e, ∃ dir t, env.assetsPath = some dir ∧
      p.1 = svgName dir w0.assets t by
    obtain ⟨h1, e, h2, h3⟩ := this
    refine ⟨by omega, e0 ++ e, by rw [h2, hw0, List.append_assoc], ?_⟩
    intro p hp
    refine ⟨w.assets + 1, by omega, by omega, ?_⟩
    rcases List.mem_append.mp hp with hp | hp
    · exact Or.inl (he0 p hp)
    · obtain ⟨dir, t, hd, ht⟩ := h3 p hp
      rw [hn] at ht
      exact Or.inr ⟨dir, t, hd, ht⟩
  unfold renderCode at h
  simp only at h
  split at h
  · rename_i theme _
    split at h
    · have := hf _ _ _ _ h
      subst this
      exact ⟨rfl, [], by simp, by simp⟩
    · rename_i data u hu
      obtain ⟨h1, e, h2, h3⟩ := hi _ _ _ _ hu
      split at h
      · rename_i dir hdir
        simp only [Except.ok.injEq, Prod.mk.injEq] at h
        obtain ⟨_, rfl⟩ := h
        refine ⟨h1, e ++ [(svgName dir u.assets theme, data)], by rw [h2, List.append_assoc], ?_⟩
        intro p hp
        rcases List.mem_append.mp hp with hp | hp
        · obtain ⟨dir, hd, hx⟩ := h3 p hp
          exact ⟨dir, theme, hd, hx⟩
        · simp only [List.mem_singleton] at hp
          subst hp
          exact ⟨dir, theme, hdir, by rw [h1]⟩
      · simp only [Except.ok.injEq, Prod.mk.injEq] at h
        obtain ⟨_, rfl⟩ := h
        exact ⟨h1, e, h2, fun p hp => by obtain ⟨dir, hd, hx⟩ := h3 p hp; exact ⟨dir, theme, hd, hx⟩⟩
  · split at h
    · have := hf _ _ _ _ h
      subst this
      exact ⟨rfl, [], by simp, by simp⟩
    · rename_i data u hu
      obtain ⟨h1, e, h2, h3⟩ := hi _ _ _ _ hu
      split at h
      · have := hf _ _ _ _ h
        subst this
        exact ⟨h1, e, h2, fun p hp => by obtain ⟨dir, hd, hx⟩ := h3 p hp; exact ⟨dir, .dark, hd, hx⟩⟩
      · rename_i data' u' hu'
        obtain ⟨g1, e', g2, g3⟩ := hi _ _ _ _ hu'
        have hend : u'.assets = w0.assets ∧ ∃ e, u'.writes = w0.writes ++ e ∧ ∀ p ∈ e, ∃ dir t, env.assetsPath = some dir ∧
            p.1 = svgName dir w0.assets t := by
          refine ⟨by omega, e ++ e', by rw [g2, h2, List.append_assoc], ?_⟩
          intro p hp
          rcases List.mem_append.mp hp with hp | hp
          · obtain ⟨dir, hd, hx⟩ := h3 p hp
            exact ⟨dir, .dark, hd, hx⟩
          · obtain ⟨dir, hd, hx⟩ := g3 p hp
            exact ⟨dir, .light, hd, by rw [hx, h1]⟩
        split at h
        · simp only [Except.ok.injEq, Prod.mk.injEq] at h
          obtain ⟨_, rfl⟩ := h
          exact hend
        · simp only [Except.ok.injEq, Prod.mk.injEq] at h
          obtain ⟨_, rfl⟩ := h
          exact hend

theorem fresh_eval (env : Env) (fuel : Nat) : ∀ n, (∀ i, ¬ Includes n i) → Fresh env (eval env fuel n) := by
  have hC := closed_fresh env
  induction fuel with
  | zero => intro n _; exact fresh_same fun w a w' h => by simp [eval, fail] at h
  | succ fuel ih =>
    intro n hn
    rw [eval]
    refine fresh_bind ?_ fun v => fresh_same fun w a w' h => ⟨(note_inv h).2.2.1, (note_inv h).2.2.2⟩
    have hret : ∀ v : Value, Fresh env (ret v) := fun v => hC.ret v
    have hbody : ∀ b : List Node, (∀ m ∈ b, ∀ i, ¬ Includes m i) → Fresh env (reduceWith (eval env fuel) b) :=
      fun b hb => closed_reduce hC fun m hm => ih m (hb m hm)
    cases n with
    | text s => exact hret _
    | linebreak => exact hret _
    | hash => exact hret _
    | code s => exact hret _
    | quiet => exact hret _
    | int s => exact hret _
    | array s => exact hret _
    | str s => exact hret _
    | closure s b => exact hret _
    | error => exact hC.fail (by decide)
    | strong b => exact fresh_bind (hbody b fun m hm i hi => hn i (.strong hm hi)) fun _ => hret _
    | emph b => exact fresh_bind (hbody b fun m hm i hi => hn i (.emph hm hi)) fun _ => hret _
    | heading l b => exact fresh_bind (hbody b fun m hm i hi => hn i (.heading hm hi)) fun _ => hret _
    | enum e b => exact fresh_bind (hbody b fun m hm i hi => hn i (.enum hm hi)) fun _ => hret _
    | group b => exact fresh_bind (hbody b fun m hm i hi => hn i (.group hm hi)) fun _ => hret _
    | wrap src b => exact ih b fun i hi => hn i (.wrap hi)
    | item b =>
      have hb := hbody b fun m hm i hi => hn i (.item hm hi)
      intro w a w' h
      rw [step] at h
      simp only at h
      split at h
      · split at h
        · rename_i t w1 ht
          simp only [Except.ok.injEq, Prod.mk.injEq] at h
          obtain ⟨_, rfl⟩ := h
          exact hb { w with depth := w.depth + 1 } t w1 ht
        · simp at h
      · split at h
        · rename_i t w1 ht
          simp only [Except.ok.injEq, Prod.mk.injEq] at h
          obtain ⟨_, rfl⟩ := h
          exact hb _ _ _ ht
        · simp at h
    | raw a b c d => exact hret _
    | link url => exact hret _
    | equation src block =>
      rw [step]
      split
      · exact hret _
      · exact fresh_bind (fresh_renderPiece _ _ _ _) fun _ => hret _
    | context src =>
      intro w a w' h
      rw [step] at h
      simp only at h
      split at h
      · simp only [Except.ok.injEq, Prod.mk.injEq] at h
        obtain ⟨_, rfl⟩ := h
        exact ⟨Nat.le_refl _, [], by simp, by simp⟩
      · exact fresh_bind (fresh_renderPiece _ _ _ _) (fun t => hret (.content t)) { w with prepend := trimHash w.prepend } _ _ h
    | incl file =>
      cases file with
      | none => exact fresh_same fun w a w' h => by simp [step] at h
      | some i => exact absurd (.here i) (hn i)
    | call src callee pos named =>
      cases callee with
      | ident name =>
        refine closed_library hC (Q := fun n => ∀ i, ¬ Includes n i) ih ?_ ?_ env.gfm name pos named ?_ ?_
        · intro src c pos named h n hn i hi
          exact h i (.pos hn hi)
        · intro src b h i hi
          exact h i (.closure hi)
        · intro n h i hi
          exact hn i (.pos h hi)
        · intro p hp i hi
          exact hn i (.named hp hi)
      | field a b => exact hret _
      | other => exact hret _

/-- **C115.** What is rendered later does not change the pictures that were rendered before, if no files are included. Missing:
included files. -/
theorem pictures_kept_partial (env : Env) (fuel : Nat) (ns : List Node) (hn : ∀ n ∈ ns, ∀ i, ¬ Includes n i) (w w' : Worker) (t : Text)
    (h : reduceWith (eval env fuel) ns w = .ok (t, w')) (dir : Text) (k : Nat) (hk : k ≤ w.assets) (theme : Theme) :
    onDisk w'.writes (svgName dir k theme) = onDisk w.writes (svgName dir k theme) ∨ env.assetsPath ≠ some dir := by
  by_cases hp : env.assetsPath = some dir
  · left
    obtain ⟨_, extra, he, hx⟩ := closed_reduce (closed_fresh env) (fun n hm => fresh_eval env fuel n (hn n hm)) w t w' h
    rw [he]
    apply onDisk_other
    intro p hpm hname
    obtain ⟨k', h1, _, h3⟩ := hx p hpm
    rcases h3 with ⟨d, _, hs⟩ | ⟨d, u, hd, hs⟩
    · rw [hname] at hs
      exact svg_ne_src _ _ _ _ _ hs
    · rw [hp] at hd
      obtain rfl := Option.some.inj hd
      rw [hname] at hs
      have := (svgName_inj hs).1
      omega
  · exact Or.inr hp

/-- **C115.** The pieces of an included file get the numbers that the pieces after it get as well: of a document with an included file
that holds the equation `c`, followed by the equation `b`, the picture of `c` is replaced by the one of `b`. -/
theorem include_overwrites (env : Env) (dir : Text) (ht : env.theme = none) (hr : env.removeHtml = false) (hs : env.assetsSrc = none)
    (ha : env.assetsPath = some dir) (h0 : env.file 0 = [.incl (some 1), .equation ['b'] true]) (h1 : env.file 1 = [.equation ['c'] true])
    (hc : ∀ t, env.svg [] ['c'] t = .ok ['C']) (hb : ∀ t, env.svg [] ['b'] t = .ok ['B']) :
    ∃ out w' x y z, reduceWith (eval env 3) (env.file 0) ⟨0, [], 0, []⟩ = .ok (out, w') ∧
      out = x ++ ("src=\"".toList ++ svgName dir 1 .light ++ "\"".toList) ++ y ++
        ("src=\"".toList ++ svgName dir 1 .light ++ "\"".toList) ++ z ∧
      onDisk w'.writes (svgName dir 1 .light) = some ['B'] := by
  have piece : ∀ (fuel : Nat) (c pic : Text) (w : Worker), (∀ t, env.svg [] c t = .ok pic) → w.assets = 0 →
      eval env (fuel + 1) (.equation c true) w = .ok (.content (aligned false (pictureText false (svgName dir 1 .dark)
        (svgName dir 1 .light))), { w with assets := 1, writes := w.writes ++ [(svgName dir 1 .dark, pic)] ++
          [(svgName dir 1 .light, pic)] }) := by
    intro fuel c pic w hp hw
    have hst : step env (eval env fuel) (.equation c true) w = .ok (.content (aligned false (pictureText false (svgName dir 1 .dark)
        (svgName dir 1 .light))), { w with assets := 1, writes := w.writes ++ [(svgName dir 1 .dark, pic)] ++
          [(svgName dir 1 .light, pic)] }) := by
      rw [step, hr]
      simp only [Bool.false_eq_true, if_false, Bool.not_true]
      have : renderPiece env [] c false w = .ok (aligned false (pictureText false (svgName dir 1 .dark) (svgName dir 1 .light)),
          { w with assets := 1, writes := w.writes ++ [(svgName dir 1 .dark, pic)] ++ [(svgName dir 1 .light, pic)] }) := by
        have hst : started env c w = { w with assets := 1 } := by
          unfold started
          rw [hs, hw]
        have hl : ∀ x, linked none x = x := fun _ => rfl
        rw [renderPiece_eq, hst]
        unfold renderCode renderInner
        simp only [ht, hp, ha, hs, Option.map_none, hl]
      rw [andThen_ok this]
      rfl
    rw [eval, andThen_ok hst]
    rfl
  have inc : ∃ w1 : Worker, eval env 3 (.incl (some 1)) ⟨0, [], 0, []⟩ = .ok (.content (aligned false (pictureText false
      (svgName dir 1 .dark) (svgName dir 1 .light))), w1) ∧ w1.assets = 0 := by
    refine ⟨⟨0, [], 0, [(svgName dir 1 .dark, ['C']), (svgName dir 1 .light, ['C'])]⟩, ?_, rfl⟩
    have hred : reduceWith (eval env 2) (env.file 1) ⟨0, [], 0, []⟩ = .ok (aligned false (pictureText false
        (svgName dir 1 .dark) (svgName dir 1 .light)), ⟨0, [], 1, [(svgName dir 1 .dark, ['C']), (svgName dir 1 .light, ['C'])]⟩) := by
      rw [h1, reduceWith, andThen_ok (piece 1 ['c'] ['C'] _ hc rfl)]
      simp only [reduceWith, andThen, ret, value, List.append_nil, List.nil_append, List.cons_append]
    have hst : step env (eval env 2) (.incl (some 1)) ⟨0, [], 0, []⟩ = .ok (.content (aligned false (pictureText false
        (svgName dir 1 .dark) (svgName dir 1 .light))), ⟨0, [], 0, [(svgName dir 1 .dark, ['C']), (svgName dir 1 .light, ['C'])]⟩) := by
      rw [step]
      simp only [hred]
    rw [eval, andThen_ok hst]
    rfl
  obtain ⟨w1, hw1, hz⟩ := inc
  obtain ⟨a, b, c, hpic⟩ := pictureText_src false (svgName dir 1 .dark) (svgName dir 1 .light)
  obtain ⟨p, q, hal⟩ := aligned_around false (pictureText false (svgName dir 1 .dark) (svgName dir 1 .light))
  let P := aligned false (pictureText false (svgName dir 1 .dark) (svgName dir 1 .light))
  let x := p ++ a ++ ("srcset=\"".toList ++ svgName dir 1 .dark ++ "\"".toList) ++ b
  refine ⟨P ++ P, { w1 with assets := 1, writes := w1.writes ++ [(svgName dir 1 .dark, ['B'])] ++ [(svgName dir 1 .light, ['B'])] },
    x, c ++ q ++ x, c ++ q, ?_, ?_, onDisk_last _ _ _⟩
  · rw [h0, reduceWith, andThen_ok hw1, reduceWith, andThen, andThen_ok (piece 2 ['b'] ['B'] w1 hb hz)]
    simp only [reduceWith, andThen, ret, value, List.append_nil, P]
  · simp only [P, x]
    rw [hal, hpic]
    simp only [List.append_assoc]

/-- A setting with pictures in files, and a document with an included file. -/
def shelf (theme : Option Theme) : Env where
  gfm := true
  annotate := false
  removeHtml := false
  softError := true
  theme := theme
  assetsPath := some "assets".toList
  assetsSrc := none
  file := fun i => if i = 0 then [.incl (some 1), .equation ['b'] true] else [.equation ['c'] true]
  svg := fun _ code _ => .ok (code.map Char.toUpper)
  base64 := id

example : (shelf none).theme = none ∧ (shelf none).removeHtml = false ∧ (shelf none).assetsSrc = none ∧
    (shelf none).assetsPath = some "assets".toList ∧ (shelf none).file 0 = [.incl (some 1), .equation ['b'] true] ∧
    (shelf none).file 1 = [.equation ['c'] true] ∧ (∀ t, (shelf none).svg [] ['c'] t = .ok ['C']) ∧
    (∀ t, (shelf none).svg [] ['b'] t = .ok ['B']) ∧ (shelf (some .dark)).theme = some .dark :=
  ⟨rfl, rfl, rfl, rfl, rfl, rfl, fun _ => rfl, fun _ => rfl, rfl⟩

/-! ## Definitions before a piece -/

theorem trimHash_defs (p : Text) (h : p = [] ∨ p.getLast? = some '\n') : trimHash (p ++ ['#']) = p := by
  unfold trimHash
  rw [List.reverse_append]
  show ((['#'] ++ p.reverse).dropWhile (· = '#')).reverse = p
  rcases h with rfl | h
  · rfl
  · obtain ⟨q, rfl⟩ : ∃ q, p = q ++ ['\n'] := by
      rcases List.eq_nil_or_concat p with rfl | ⟨q, c, rfl⟩
      · simp at h
      · simp at h
        exact ⟨q, by rw [h]; simp⟩
    simp [List.dropWhile]

theorem defs_end {ns : List Node} {shown defs : Text} (h : Definitions ns shown defs) : defs = [] ∨ defs.getLast? = some '\n' := by
  induction h with
  | nil => exact Or.inl rfl
  | text t _ ih => exact ih
  | define src _ ih =>
    right
    rcases ih with rfl | ih
    · rw [List.append_nil, List.getLast?_append]
      rfl
    · rw [List.getLast?_append, ih]
      rfl

theorem defs_eval (env : Env) (fuel : Nat) {ns : List Node} {shown defs : Text} (h : Definitions ns shown defs) (rest : List Node) :
    ∀ w, reduceWith (eval env (fuel + 1)) (ns ++ rest) w =
      andThen (reduceWith (eval env (fuel + 1)) rest) (fun t => ret (shown ++ t)) { w with prepend := w.prepend ++ defs } := by
  induction h with
  | nil =>
    intro w
    simp only [List.nil_append, List.append_nil, andThen, ret]
    split <;> rename_i h <;> simp [h]
  | @text ns shown defs t h ih =>
    intro w
    rw [List.cons_append, reduceWith, andThen_ok (show eval env (fuel + 1) (.text t) w = .ok (.content t, w) from rfl), andThen, ih w]
    unfold andThen
    split
    · rename_i x w2 hx
      split at hx
      · rename_i y w3 hy
        simp only [ret, Except.ok.injEq, Prod.mk.injEq] at hx ⊢
        obtain ⟨rfl, rfl⟩ := hx
        simp [value]
      · simp at hx
    · rename_i e hx
      split at hx
      · simp [ret] at hx
      · simpa using hx.symm
  | @define ns shown defs src h ih =>
    intro w
    have e1 : eval env (fuel + 1) .hash w = .ok (.none, { w with prepend := w.prepend ++ ['#'] }) := rfl
    have e2 : ∀ u : Worker, eval env (fuel + 1) (.code src) u = .ok (.none, { u with prepend := u.prepend ++ (src ++ ['\n']) }) :=
      fun _ => rfl
    rw [List.cons_append, List.cons_append, reduceWith, andThen_ok e1, andThen, reduceWith, andThen_ok (e2 _), andThen, ih]
    simp only [List.append_assoc]
    cases hz : reduceWith (eval env (fuel + 1)) rest { w with prepend := w.prepend ++ (['#'] ++ (src ++ (['\n'] ++ defs))) } with
    | error e => simp only [andThen, hz]
    | ok r => simp only [andThen, hz, ret, value, List.nil_append]

/-- **C115.** A piece with `context` is rendered after all definitions before it, if what is before it is text and definitions. Missing:
other things before it, such as calls. -/
theorem definitions_first_partial (env : Env) (fuel : Nat) (ns : List Node) (shown defs src : Text) (k : Nat) (ws : List (Text × Text))
    (hr : env.removeHtml = false) (h : Definitions ns shown defs) (out : Text) (w' : Worker)
    (hp : renderPiece env defs src false ⟨0, defs, k, ws⟩ = .ok (out, w')) :
    reduceWith (eval env (fuel + 1)) (ns ++ [.hash, .context src]) ⟨0, [], k, ws⟩ = .ok (shown ++ out, w') := by
  rw [defs_eval env fuel h]
  simp only [List.nil_append]
  have e1 : eval env (fuel + 1) .hash ⟨0, defs, k, ws⟩ = .ok (.none, ⟨0, defs ++ ['#'], k, ws⟩) := rfl
  have e2 : eval env (fuel + 1) (.context src) ⟨0, defs ++ ['#'], k, ws⟩ = .ok (.content out, w') := by
    have hst : step env (eval env fuel) (.context src) ⟨0, defs ++ ['#'], k, ws⟩ = .ok (.content out, w') := by
      rw [step]
      simp only [hr, Bool.false_eq_true, if_false]
      rw [trimHash_defs defs (defs_end h), andThen_ok hp]
      rfl
    rw [eval, andThen_ok hst]
    rfl
  have e3 : reduceWith (eval env (fuel + 1)) [.hash, .context src] ⟨0, defs, k, ws⟩ = .ok (out, w') := by
    rw [reduceWith, andThen_ok e1, reduceWith, andThen, andThen_ok e2]
    simp [reduceWith, andThen, ret, value]
  rw [andThen_ok e3]
  rfl

/-- Two definitions with text between them. -/
example : Definitions [.hash, .code "let x = 1".toList, .text ['a'], .hash, .code "let y = 2".toList] ['a']
    "#let x = 1\n#let y = 2\n".toList :=
  .define _ (.text ['a'] (.define _ .nil))

/-- **C115.** After a link the definition is not one: what is rendered comes after `##let x = 1`, of which the first hash is that of the
link. -/
theorem stray_hash (env : Env) (fuel : Nat) (src : Text) (w' : Worker) (out : Text) (hr : env.removeHtml = false)
    (hp : renderPiece env "##let x = 1\n".toList src false ⟨0, "##let x = 1\n".toList, 0, []⟩ = .ok (out, w')) :
    reduceWith (eval env (fuel + 2)) [.hash, .call "link(\"a\")[b]".toList (.ident "link".toList) [.str ['a'], .text ['b']] [],
      .hash, .code "let x = 1".toList, .hash, .context src] ⟨0, [], 0, []⟩ = .ok ("[b](a)".toList ++ out, w') := by
  have e1 : eval env (fuel + 2) .hash ⟨0, [], 0, []⟩ = .ok (.none, ⟨0, ['#'], 0, []⟩) := rfl
  have e2 : eval env (fuel + 2) (.call "link(\"a\")[b]".toList (.ident "link".toList) [.str ['a'], .text ['b']] []) ⟨0, ['#'], 0, []⟩ =
      .ok (.content "[b](a)".toList, ⟨0, ['#'], 0, []⟩) := rfl
  have e3 : eval env (fuel + 2) .hash ⟨0, ['#'], 0, []⟩ = .ok (.none, ⟨0, ['#', '#'], 0, []⟩) := rfl
  have e4 : eval env (fuel + 2) (.code "let x = 1".toList) ⟨0, ['#', '#'], 0, []⟩ =
      .ok (.none, ⟨0, "##let x = 1\n".toList, 0, []⟩) := rfl
  have e5 : eval env (fuel + 2) .hash ⟨0, "##let x = 1\n".toList, 0, []⟩ = .ok (.none, ⟨0, "##let x = 1\n".toList ++ ['#'], 0, []⟩) := rfl
  have e6 : eval env (fuel + 2) (.context src) ⟨0, "##let x = 1\n".toList ++ ['#'], 0, []⟩ = .ok (.content out, w') := by
    have hst : step env (eval env (fuel + 1)) (.context src) ⟨0, "##let x = 1\n".toList ++ ['#'], 0, []⟩ = .ok (.content out, w') := by
      rw [step]
      simp only [hr, Bool.false_eq_true, if_false]
      rw [trimHash_defs _ (Or.inr (by decide)), andThen_ok hp]
      rfl
    rw [eval, andThen_ok hst]
    rfl
  rw [reduceWith, andThen_ok e1, reduceWith, andThen, andThen_ok e2, reduceWith, andThen, andThen_ok e3, reduceWith, andThen,
    andThen_ok e4, reduceWith, andThen, andThen_ok e5, reduceWith, andThen, andThen_ok e6]
  simp [reduceWith, andThen, ret, value]

end Tinymist.Typlite
