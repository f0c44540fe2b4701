import Verif.Model.PathPattern
import Verif.Spec.PathPattern
import Verif.Props.Entry
/-!
# C21: output path patterns
-/
namespace Tinymist.PathPattern
open Paths Workspace

/-! ## Replacing -/

theorem replaceAll_nil (pat rep : Text) : replaceAll pat rep [] = [] := by rw [replaceAll]

theorem replaceAll_text (k rep : Text) {l : Text} (h : '$' ∉ l) (s : Text) :
    replaceAll ('$' :: k) rep (l ++ s) = l ++ replaceAll ('$' :: k) rep s := by
  induction l with
  | nil => rfl
  | cons c l ih =>
    rw [List.cons_append, replaceAll, if_neg, ih fun hm => h (List.mem_cons_of_mem _ hm)]
    · rfl
    · have hc : ¬ '$' = c := fun e => h (e ▸ List.mem_cons_self ..)
      rw [List.isPrefixOf_cons₂]
      simp [hc]

theorem replaceAll_hit (k rep s : Text) :
    replaceAll ('$' :: k) rep ('$' :: k ++ s) = rep ++ replaceAll ('$' :: k) rep s := by
  rw [List.cons_append, replaceAll, if_pos]
  · simp
  · rw [List.isPrefixOf_iff_prefix]
    exact List.prefix_append ('$' :: k) s

theorem replaceAll_miss (c d : Char) (k k' rep : Text) (h : c ≠ d) (h' : '$' ∉ d :: k') (s : Text) :
    replaceAll ('$' :: c :: k) rep ('$' :: d :: k' ++ s) = '$' :: d :: k' ++ replaceAll ('$' :: c :: k) rep s := by
  rw [List.cons_append, replaceAll, if_neg, replaceAll_text _ _ h']
  · rfl
  · simp [List.isPrefixOf_cons₂, h]

/-- The text after some kinds of placeholders have been replaced. -/
def render (w d n : Text) : Piece → Text
  | .text s => s
  | .root => w
  | .dir => d
  | .name => n

theorem replace_root (w : Text) (ps : List Piece) (h : Clear ps) :
    replaceAll kwRoot w (ps.flatMap (render kwRoot kwDir kwName)) = ps.flatMap (render w kwDir kwName) := by
  induction ps with
  | nil => exact replaceAll_nil _ _
  | cons p ps ih =>
    have ih := ih fun s hs => h s (List.mem_cons_of_mem _ hs)
    rw [List.flatMap_cons, List.flatMap_cons, ← ih]
    cases p with
    | text s => exact replaceAll_text _ _ (h s (List.mem_cons_self ..)) _
    | root => exact replaceAll_hit _ _ _
    | dir => exact replaceAll_miss _ _ _ _ _ (by decide) (by decide) _
    | name => exact replaceAll_miss _ _ _ _ _ (by decide) (by decide) _

theorem replace_dir {w : Text} (hw : '$' ∉ w) (d : Text) (ps : List Piece) (h : Clear ps) :
    replaceAll kwDir d (ps.flatMap (render w kwDir kwName)) = ps.flatMap (render w d kwName) := by
  induction ps with
  | nil => exact replaceAll_nil _ _
  | cons p ps ih =>
    have ih := ih fun s hs => h s (List.mem_cons_of_mem _ hs)
    rw [List.flatMap_cons, List.flatMap_cons, ← ih]
    cases p with
    | text s => exact replaceAll_text _ _ (h s (List.mem_cons_self ..)) _
    | root => exact replaceAll_text _ _ hw _
    | dir => exact replaceAll_hit _ _ _
    | name => exact replaceAll_miss _ _ _ _ _ (by decide) (by decide) _

theorem replace_name {w d : Text} (hw : '$' ∉ w) (hd : '$' ∉ d) (n : Text) (ps : List Piece) (h : Clear ps) :
    replaceAll kwName n (ps.flatMap (render w d kwName)) = ps.flatMap (render w d n) := by
  induction ps with
  | nil => exact replaceAll_nil _ _
  | cons p ps ih =>
    have ih := ih fun s hs => h s (List.mem_cons_of_mem _ hs)
    rw [List.flatMap_cons, List.flatMap_cons, ← ih]
    cases p with
    | text s => exact replaceAll_text _ _ (h s (List.mem_cons_self ..)) _
    | root => exact replaceAll_text _ _ hw _
    | dir => exact replaceAll_text _ _ hd _
    | name => exact replaceAll_hit _ _ _

/-! ## Paths -/

theorem collect_from_names {ns : List Text} (hg : ∀ n ∈ ns, GoodName n) (p : Text) (hp : p ≠ []) (hl : p.getLast? ≠ some '/') :
    (names ns).foldl (fun p c => join p (compText c)) p = p ++ ns.flatMap ('/' :: ·) := by
  induction ns generalizing p with
  | nil => simp [names]
  | cons n ns ih =>
    have hn := hg n (List.mem_cons_self ..)
    have hj : join p n = p ++ '/' :: n := by
      rw [join, good_not_absolute hn]
      simp [hp, hl]
    rw [names, List.map_cons, List.foldl_cons]
    show (names ns).foldl _ (join p n) = _
    rw [hj, ih (fun n h => hg n (List.mem_cons_of_mem _ h)) _ (by simp), List.flatMap_cons]
    · simp
    · rcases List.eq_nil_or_concat n with rfl | ⟨n', c, rfl⟩
      · exact (hn.1 rfl).elim
      · rw [List.concat_eq_append, show p ++ '/' :: (n' ++ [c]) = (p ++ '/' :: n') ++ [c] by simp, List.getLast?_concat]
        intro e
        injection e with e
        exact hn.2.1 (by rw [e]; simp)

theorem collect_names {ns : List Text} (hg : ∀ n ∈ ns, GoodName n) : collect (names ns) = ['/'].intercalate ns := by
  cases ns with
  | nil => rfl
  | cons n ns =>
    have hn := hg n (List.mem_cons_self ..)
    have hj : join [] n = n := by
      rw [join]; split <;> simp
    have hint : ∀ (n : Text) (ns : List Text), ['/'].intercalate (n :: ns) = n ++ ns.flatMap ('/' :: ·) := by
      intro n ns
      induction ns generalizing n with
      | nil => simp [List.intercalate]
      | cons m ms ih =>
        have : ['/'].intercalate (n :: m :: ms) = n ++ ['/'] ++ ['/'].intercalate (m :: ms) := by
          simp [List.intercalate, List.intersperse]
        rw [this, ih]; simp
    rw [collect, names, List.map_cons, List.foldl_cons]
    show (names ns).foldl _ (join [] n) = _
    rw [hj, collect_from_names (fun n h => hg n (List.mem_cons_of_mem _ h)) n hn.1, hint]
    rcases List.eq_nil_or_concat n with rfl | ⟨n', c, rfl⟩
    · exact (hn.1 rfl).elim
    · rw [List.concat_eq_append, List.getLast?_concat]
      intro e
      injection e with e
      exact hn.2.1 (by rw [e]; simp)

/-- An entry: a file below a root directory, given by names, not in the temporary folder for unsaved files. -/
structure Inside (e : EntryState) (root : Text) (dirs : List Text) (name : Text) : Prop where
  hasRoot : e.root = some root
  absolute : isAbsolute root = true
  noParent : Comp.parent ∉ components root
  main : ∃ f, e.main = some f ∧ isPackageFile f = false ∧ f.vpath = names (dirs ++ [name])
  good : ∀ n ∈ dirs ++ [name], GoodName n
  titled : (denotes [] root ++ dirs ++ [name]).head? ≠ some "untitled".toList

/-- What `substitute` does after the early returns. -/
theorem substitute_inside {e : EntryState} {root : Text} {dirs : List Text} {name : Text} (h : Inside e root dirs name)
    (tmp pattern : Text) :
    ∃ path, denotes [] path = denotes [] root ++ dirs ++ [name] ∧
      substitute tmp pattern e =
        if pattern = [] then some (clean path)
        else some (clean (replaceKinds pattern root (some (['/'].intercalate dirs)) name)) := by
  obtain ⟨rs, hr, hrg⟩ := absolute_names h.absolute h.noParent
  obtain ⟨f, hf, hp, hv⟩ := h.main
  have hden : denotes [] root = rs := denotes_absolute [] rs hr
  have hg : ∀ c ∈ names (rs ++ (dirs ++ [name])), GoodComp c := by
    intro c hc
    rw [names, List.map_append] at hc
    rcases List.mem_append.mp hc with hc | hc
    · exact hrg c hc
    · obtain ⟨n, hn, rfl⟩ := List.mem_map.mp hc
      intro m e
      cases e
      exact h.good n hn
  have hg2 : ∀ c ∈ names (dirs ++ [name]), GoodComp c := by
    intro c hc
    exact hg c (by rw [names, List.map_append]; exact List.mem_append_right _ hc)
  have hres : vpathResolve root f.vpath = some (collect (.root :: names (rs ++ (dirs ++ [name])))) := by
    rw [vpathResolve, hv, resolveLoop_names, hr]
    simp [names]
  have hcomp := components_collect_abs hg
  generalize hpath : collect (.root :: names (rs ++ (dirs ++ [name]))) = path at hres hcomp
  have hstrip : stripPrefix path ['/', 'u', 'n', 't', 'i', 't', 'l', 'e', 'd'] = none := by
    rw [stripPrefix, hcomp]
    have hc : components ['/', 'u', 'n', 't', 'i', 't', 'l', 'e', 'd'] = [.root, .normal "untitled".toList] := by decide
    rw [hc, if_neg]
    intro hpre
    have ht := h.titled
    rw [hden, List.append_assoc] at ht
    cases hx : rs ++ (dirs ++ [name]) with
    | nil => simp at hx
    | cons x xs =>
      rw [hx] at hpre ht
      obtain ⟨tl, et⟩ := List.isPrefixOf_iff_prefix.mp hpre
      injection et with _ et
      injection et with et _
      injection et with et
      exact ht (by rw [List.head?_cons, et])
  have hrel : stripPrefix path root = some (collect (names (dirs ++ [name]))) := by
    rw [stripPrefix, hcomp, hr, if_pos]
    · congr 2
      simp [names]
    · rw [List.isPrefixOf_iff_prefix, show names (rs ++ (dirs ++ [name])) = names rs ++ names (dirs ++ [name]) by simp [names]]
      exact List.prefix_append (Comp.root :: names rs) _
  have hcr := components_collect_names hg2
  have hsplit : names (dirs ++ [name]) = names dirs ++ [Comp.normal name] := by simp [names]
  have hpar : parent (collect (names (dirs ++ [name]))) = some (['/'].intercalate dirs) := by
    rw [parent, hcr, hsplit, List.getLast?_concat]
    simp only [List.dropLast_concat]
    rw [collect_names fun n hn => h.good n (List.mem_append_left _ hn)]
  have hfn : fileName (collect (names (dirs ++ [name]))) = some name := by
    rw [fileName, hcr, hsplit, List.getLast?_concat]
  refine ⟨path, ?_, ?_⟩
  · rw [denotes_absolute [] _ hcomp, hden]; simp
  · rw [substitute, h.hasRoot, hf]
    simp only [hp, hres, hstrip, hrel, hpar, hfn, Bool.false_eq_true, if_false, Option.getD_some]

/-- **C21** (missing: roots, directories and pattern texts with dollar signs, see `root_substituted`,
`directory_substituted` and `text_substituted`): each placeholder is replaced by what it stands for, and the path is
normalised. The file name may contain anything. -/
theorem substitute_partial {e : EntryState} {root : Text} {dirs : List Text} {name : Text} (h : Inside e root dirs name)
    (tmp : Text) {ps : List Piece} (hne : ps.flatMap Piece.write ≠ []) (hps : Clear ps) (hr : '$' ∉ root)
    (hd : ∀ d ∈ dirs, '$' ∉ d) :
    substitute tmp (ps.flatMap Piece.write) e = some (clean (ps.flatMap (Piece.value root dirs name))) := by
  obtain ⟨path, _, hs⟩ := substitute_inside h tmp (ps.flatMap Piece.write)
  rw [hs, if_neg hne]
  have hdir : '$' ∉ ['/'].intercalate dirs := by
    rw [← collect_names fun n hn => h.good n (List.mem_append_left _ hn)]
    have : ∀ (ds : List Text) (p : Text), '$' ∉ p → (∀ d ∈ ds, '$' ∉ d) →
        '$' ∉ (names ds).foldl (fun p c => join p (compText c)) p := by
      intro ds
      induction ds with
      | nil => intro p hp _; exact hp
      | cons d ds ih =>
        intro p hp hds
        refine ih _ ?_ fun d h => hds d (List.mem_cons_of_mem _ h)
        have hd := hds d (List.mem_cons_self ..)
        show '$' ∉ join p d
        rw [join]
        split
        · exact hd
        · split <;> simp [hp, hd]
    exact this dirs [] (by simp) hd
  have hw : (fun p => Piece.write p) = render kwRoot kwDir kwName := by funext p; cases p <;> rfl
  have hv : (Piece.value root dirs name) = render root (['/'].intercalate dirs) name := by funext p; cases p <;> rfl
  show some (clean (replaceKinds (ps.flatMap fun p => Piece.write p) _ _ _)) = _
  rw [hw, hv, replaceKinds, replace_root _ _ hps, replace_dir hr _ _ hps, replace_name hr hdir _ _ hps]

/-- **C21**, the empty pattern: the entry itself. -/
theorem empty_pattern {e : EntryState} {root : Text} {dirs : List Text} {name : Text} (h : Inside e root dirs name)
    (tmp : Text) :
    ∃ p, substitute tmp [] e = some p ∧ denotes [] p = denotes [] root ++ dirs ++ [name] := by
  obtain ⟨path, hd, hs⟩ := substitute_inside h tmp []
  exact ⟨clean path, by rw [hs, if_pos rfl], by rw [clean_same, hd]⟩

theorem denotes_slash {a : Text} (ha : isAbsolute a = true) (b : Text) :
    denotes [] (a ++ '/' :: b) = walk (denotes [] a) (body (Pages.split '/' b)) := by
  have hne : a ≠ [] := by rintro rfl; cases ha
  have hab : isAbsolute (a ++ '/' :: b) = true := by rw [isAbsolute_append hne, ha]
  rw [denotes, denotes, components, components, if_pos ha, if_pos hab, split_append_sep, body_append,
    ← List.cons_append, walk_append]

theorem body_dirs {ds : List Text} (hg : ∀ n ∈ ds, GoodName n) :
    body (Pages.split '/' (['/'].intercalate ds)) = names ds := by
  rw [← collect_names hg]
  have hc := components_collect_names (ns := ds) fun c hc => by
    obtain ⟨n, hn, rfl⟩ := List.mem_map.mp hc
    intro m e
    cases e
    exact hg n hn
  have hf : isAbsolute (collect (names ds)) = false := by
    cases ha : isAbsolute (collect (names ds)) with
    | false => rfl
    | true =>
      rw [isAbsolute_iff, hc] at ha
      cases ds with
      | nil => cases ha
      | cons d ds => cases ha
  rw [body_eq_filter hf, hc, List.filter_eq_self]
  intro c hc
  obtain ⟨n, _, rfl⟩ := List.mem_map.mp hc
  simp

theorem walk_names' (d : Dir) (ns : List Text) : walk d (names ns) = d ++ ns := by
  induction ns generalizing d with
  | nil => simp [names, walk]
  | cons n ns ih =>
    rw [names, List.map_cons, walk_cons]
    show walk (d ++ [n]) (names ns) = _
    rw [ih]; simp

/-- **C21**, the patterns in the documentation: `$root/$dir/$name` is the entry itself, `$root/$dir` its directory and
`$root/main` a fixed file in the root. -/
theorem documented_patterns {e : EntryState} {root : Text} {dirs : List Text} {name : Text} (h : Inside e root dirs name)
    (tmp : Text) (hr : '$' ∉ root) (hd : ∀ d ∈ dirs, '$' ∉ d) :
    (∃ p, substitute tmp "$root/$dir/$name".toList e = some p ∧ denotes [] p = denotes [] root ++ dirs ++ [name]) ∧
    (∃ p, substitute tmp "$root/$dir".toList e = some p ∧ denotes [] p = denotes [] root ++ dirs) ∧
    (∃ p, substitute tmp "$root/main".toList e = some p ∧ denotes [] p = denotes [] root ++ ["main".toList]) := by
  have hgd : ∀ n ∈ dirs, GoodName n := fun n hn => h.good n (List.mem_append_left _ hn)
  have hgn : GoodName name := h.good name (by simp)
  have hbn : body (Pages.split '/' name) = [.normal name] := by
    have := body_dirs (ds := [name]) (by intro n hn; rw [List.mem_singleton] at hn; exact hn ▸ hgn)
    simpa [List.intercalate] using this
  have clear : ∀ ps : List Piece, (∀ s, Piece.text s ∈ ps → s = ['/'] ∨ s = "/main".toList) → Clear ps := by
    intro ps hps s hs
    rcases hps s hs with rfl | rfl <;> decide
  refine ⟨⟨_, substitute_partial h tmp (ps := [.root, .text ['/'], .dir, .text ['/'], .name]) (by decide)
      (clear _ (by simp)) hr hd, ?_⟩, ⟨_, substitute_partial h tmp (ps := [.root, .text ['/'], .dir]) (by decide)
      (clear _ (by simp)) hr hd, ?_⟩, ⟨_, substitute_partial h tmp (ps := [.root, .text "/main".toList]) (by decide)
      (clear _ (by simp)) hr hd, ?_⟩⟩
  · rw [clean_same]
    have : [Piece.root, .text ['/'], .dir, .text ['/'], .name].flatMap (Piece.value root dirs name)
        = root ++ '/' :: (['/'].intercalate dirs ++ '/' :: name) := by simp [Piece.value]
    rw [this, denotes_slash h.absolute, split_append_sep, body_append, walk_append, body_dirs hgd, hbn, walk_names']
    rfl
  · rw [clean_same]
    have : [Piece.root, .text ['/'], .dir].flatMap (Piece.value root dirs name)
        = root ++ '/' :: ['/'].intercalate dirs := by simp [Piece.value]
    rw [this, denotes_slash h.absolute, body_dirs hgd, walk_names']
  · rw [clean_same]
    have : [Piece.root, .text "/main".toList].flatMap (Piece.value root dirs name)
        = root ++ '/' :: "main".toList := by simp [Piece.value]
    rw [this, denotes_slash h.absolute]
    rfl

/-- **C21**, unsaved files: whatever the pattern, an entry below `/untitled` is written below the folder `typst` of the
temporary directory. -/
theorem untitled_output {e : EntryState} {root : Text} {dirs : List Text} (tmp pattern : Text)
    (hr : e.root = some root) (ha : isAbsolute root = true) (hp : Comp.parent ∉ components root)
    (hm : ∃ f, e.main = some f ∧ isPackageFile f = false ∧ f.vpath = names dirs) (hg : ∀ n ∈ dirs, GoodName n)
    (rest : List Text) (hu : denotes [] root ++ dirs = "untitled".toList :: rest) :
    ∃ p, substitute tmp pattern e = some p ∧ denotes [] p = denotes [] tmp ++ "typst".toList :: rest := by
  obtain ⟨rs, hrs, hrg⟩ := absolute_names ha hp
  obtain ⟨f, hf, hpk, hv⟩ := hm
  have hden : denotes [] root = rs := denotes_absolute [] rs hrs
  rw [hden] at hu
  have hg : ∀ c ∈ names (rs ++ dirs), GoodComp c := by
    intro c hc
    rw [names, List.map_append] at hc
    rcases List.mem_append.mp hc with hc | hc
    · exact hrg c hc
    · obtain ⟨n, hn, rfl⟩ := List.mem_map.mp hc
      intro m e
      cases e
      exact hg n hn
  have hres : vpathResolve root f.vpath = some (collect (.root :: names (rs ++ dirs))) := by
    rw [vpathResolve, hv, resolveLoop_names, hrs]
    simp [names]
  have hcomp := components_collect_abs hg
  generalize collect (.root :: names (rs ++ dirs)) = path at hres hcomp
  have hc : components ['/', 'u', 'n', 't', 'i', 't', 'l', 'e', 'd'] = [.root, .normal "untitled".toList] := by decide
  rw [hu] at hcomp hg
  have hg2 : ∀ c ∈ names rest, GoodComp c := fun c hc => hg c (by rw [names, List.map_cons]; exact List.mem_cons_of_mem _ hc)
  have hstrip : stripPrefix path ['/', 'u', 'n', 't', 'i', 't', 'l', 'e', 'd'] = some (collect (names rest)) := by
    rw [stripPrefix, hcomp, hc, if_pos]
    · simp [names]
    · rw [List.isPrefixOf_iff_prefix]
      exact ⟨names rest, by simp [names]⟩
  refine ⟨join (join tmp ['t', 'y', 'p', 's', 't']) (collect (names rest)), ?_, ?_⟩
  · rw [substitute, hr, hf]
    simp only [hpk, hres, hstrip, Bool.false_eq_true, if_false]
  · rw [denotes_join, denotes_join]
    have e1 : denotes (denotes [] tmp) ['t', 'y', 'p', 's', 't'] = denotes [] tmp ++ ["typst".toList] := rfl
    rw [e1, denotes, components_collect_names hg2, walk_names']
    simp

/-- **C21**: an entry in a package, without a root or without a main file has no output path. -/
theorem no_output (tmp pattern : Text) (e : EntryState)
    (h : e.root = none ∨ e.main = none ∨ ∃ f, e.main = some f ∧ isPackageFile f = true) :
    substitute tmp pattern e = none := by
  rw [substitute]
  rcases h with h | h | ⟨f, h, hf⟩
  · simp only [h]
  · cases e.root with
    | none => rfl
    | some r => simp only [h]
  · cases e.root with
    | none => rfl
    | some r => simp only [h, hf, if_true]

/-- The entry `dirs/name` of a workspace. -/
def at' (root : String) (dirs : List String) (name : String) : EntryState :=
  ⟨some root.toList, some ⟨some (wsPackage 0), names ((dirs ++ [name]).map String.toList)⟩⟩

example : substitute "/tmp".toList "$root/out".toList (at' "/" ["untitled"] "c.typ") = some "/tmp/typst/c.typ".toList := by
  decide +kernel

example : substitute "/tmp".toList "$root/out/$dir-$name".toList (at' "/ws" ["a", "b"] "c.typ")
    = some "/ws/out/a/b-c.typ".toList := by decide +kernel

theorem inside_example : Inside (at' "/ws" ["a", "b"] "c.typ") "/ws".toList ["a".toList, "b".toList] "c.typ".toList :=
  ⟨rfl, by decide, by decide, ⟨_, rfl, by decide, rfl⟩, (by intro n hn; unfold GoodName; revert n; decide), by decide⟩

example : ∃ p, substitute "/tmp".toList "$root/$dir".toList (at' "/ws" ["a", "b"] "c.typ") = some p ∧
    denotes [] p = ["ws".toList, "a".toList, "b".toList] := by
  obtain ⟨_, ⟨p, h1, h2⟩, _⟩ := documented_patterns inside_example "/tmp".toList (by decide) (by decide)
  exact ⟨p, h1, h2⟩

/-- The negation of the full C21: a placeholder in the name of the root is substituted as well. -/
theorem root_substituted : Inside (at' "/my$name" [] "c.typ") "/my$name".toList [] "c.typ".toList ∧
    substitute "/tmp".toList "$root/main".toList (at' "/my$name" [] "c.typ") = some "/myc.typ/main".toList :=
  ⟨⟨rfl, by decide, by decide, ⟨_, rfl, by decide, rfl⟩, (by intro n hn; unfold GoodName; revert n; decide), by decide⟩,
    by decide +kernel⟩

/-- The same in the name of a directory. -/
theorem directory_substituted : Inside (at' "/ws" ["$name"] "c.typ") "/ws".toList ["$name".toList] "c.typ".toList ∧
    substitute "/tmp".toList "$root/$dir/$name".toList (at' "/ws" ["$name"] "c.typ") = some "/ws/c.typ/c.typ".toList :=
  ⟨⟨rfl, by decide, by decide, ⟨_, rfl, by decide, rfl⟩, (by intro n hn; unfold GoodName; revert n; decide), by decide⟩,
    by decide +kernel⟩

/-- The same across the end of a text and a directory: `$na` followed by the directory `me`. -/
theorem text_substituted :
    substitute "/tmp".toList "$root/$na$dir".toList (at' "/ws" ["me"] "c.typ") = some "/ws/c.typ".toList := by
  decide +kernel

end Tinymist.PathPattern
