import Verif.Spec.Links
import Verif.Props.Rename
import Verif.Lemmas.Workspace

/-!
# The links of a document
-/

namespace Tinymist.Links

open Paths Workspace Rename

/-! ## What is found -/

theorem mem_strLink {isSpec : Text → Bool} {n : Node} {l : Link} : l ∈ strLink isSpec n ↔ LinkOf isSpec n l := by
  cases n with
  | str a b t =>
    simp only [strLink, LinkOf]
    by_cases h : a + 1 < b - 1
    · rw [if_pos h]
      by_cases h2 : t.head? = some '@'
      · rw [if_pos h2]
        by_cases h3 : isSpec t = true
        · rw [if_pos h3]
          constructor
          · intro hm
            cases List.mem_singleton.1 hm
            exact ⟨h, rfl, rfl, Or.inl ⟨h2, h3, rfl⟩⟩
          · rintro ⟨_, e1, e2, ⟨_, _, e3⟩ | ⟨h4, _⟩⟩
            · cases l; cases e1; cases e2; cases e3; exact List.mem_singleton.2 rfl
            · exact (h4 h2).elim
        · rw [if_neg h3]
          constructor
          · intro hm; cases hm
          · rintro ⟨_, _, _, ⟨_, h4, _⟩ | ⟨h4, _⟩⟩
            · exact (h3 h4).elim
            · exact (h4 h2).elim
      · rw [if_neg h2]
        constructor
        · intro hm
          cases List.mem_singleton.1 hm
          exact ⟨h, rfl, rfl, Or.inr ⟨h2, rfl⟩⟩
        · rintro ⟨_, e1, e2, ⟨h4, _⟩ | ⟨_, e3⟩⟩
          · exact (h2 h4).elim
          · cases l; cases e1; cases e2; cases e3; exact List.mem_singleton.2 rfl
    · rw [if_neg h]
      constructor
      · intro hm; cases hm
      · exact fun hm => (h hm.1).elim
  | _ => simp [strLink, LinkOf]

theorem mem_pathLinks {isSpec : Text → Bool} {e : Node} {l : Link} :
    l ∈ pathLinks isSpec e ↔ ∃ s, Gives e s ∧ LinkOf isSpec s l := by
  cases e with
  | str a b t =>
    rw [pathLinks, mem_strLink]
    constructor
    · exact fun h => ⟨_, .str, h⟩
    · rintro ⟨s, hg, h⟩; cases hg; exact h
  | array items =>
    rw [pathLinks, List.mem_flatMap]
    constructor
    · rintro ⟨s, hs, h⟩
      have h' := mem_strLink.1 h
      cases s with
      | str a b t => exact ⟨_, .array hs, h'⟩
      | _ => exact h'.elim
    · rintro ⟨s, hg, h⟩
      cases hg with
      | array hs => exact ⟨_, hs, mem_strLink.2 h⟩
  | _ =>
    constructor
    · intro h; cases h
    · rintro ⟨s, hg, _⟩; cases hg

theorem gives_pos {e s : Node} (h : Gives e s) : isPos e = true := by cases h <;> rfl

theorem mem_readerLinks {isSpec : Text → Bool} {args : List Node} {key : Text} {pos : Bool} {l : Link} :
    l ∈ readerLinks isSpec args key pos ↔
      (pos = true ∧ ∃ e rest s, args = e :: rest ∧ Gives e s ∧ LinkOf isSpec s l) ∨
      ∃ e s, .named key e ∈ args ∧ Gives e s ∧ LinkOf isSpec s l := by
  have hn : ∀ args : List Node, l ∈ args.flatMap (namedLinks isSpec key) ↔
      ∃ e s, .named key e ∈ args ∧ Gives e s ∧ LinkOf isSpec s l := by
    intro args
    rw [List.mem_flatMap]
    constructor
    · rintro ⟨a, ha, h⟩
      cases a with
      | named x e =>
        simp only [namedLinks] at h
        by_cases hx : x = key
        · rw [if_pos hx] at h
          obtain ⟨s, h1, h2⟩ := mem_pathLinks.1 h
          exact ⟨e, s, hx ▸ ha, h1, h2⟩
        · rw [if_neg hx] at h; cases h
      | _ => cases h
    · rintro ⟨e, s, ha, h1, h2⟩
      exact ⟨_, ha, by rw [namedLinks, if_pos rfl]; exact mem_pathLinks.2 ⟨s, h1, h2⟩⟩
  cases args with
  | nil => simp [readerLinks]
  | cons a rest =>
    rw [readerLinks, List.mem_append, hn]
    refine or_congr ?_ Iff.rfl
    constructor
    · intro h
      cases pos with
      | false => simp at h
      | true =>
        cases hp : isPos a with
        | false => simp [hp] at h
        | true =>
          simp only [hp, Bool.and_true, if_true] at h
          obtain ⟨s, h1, h2⟩ := mem_pathLinks.1 h
          exact ⟨rfl, a, rest, s, rfl, h1, h2⟩
    · rintro ⟨rfl, e, r, s, he, h1, h2⟩
      cases he
      rw [gives_pos h1]
      exact mem_pathLinks.2 ⟨s, h1, h2⟩

theorem calleeName_iff {c : Node} {f : String} : calleeName c = some f.toList ↔ Calls c f := by
  constructor
  · intro h
    unfold calleeName at h
    split at h
    · cases h; exact .plain f
    · split at h
      · rename_i hm; cases h; subst hm; exact .std f
      · cases h
    · cases h
  · intro h
    cases h with
    | plain => rfl
    | std => simp [calleeName]

theorem mem_callLinks {isSpec : Text → Bool} {c : Node} {args : List Node} {l : Link} :
    l ∈ callLinks isSpec c args ↔ ∃ s, Names s (.call c args) ∧ LinkOf isSpec s l := by
  unfold callLinks
  cases hc : calleeName c with
  | none =>
    constructor
    · intro h; cases h
    · rintro ⟨s, hn, _⟩
      cases hn with
      | first h1 _ _ => rw [calleeName_iff.2 h1] at hc; cases hc
      | named h1 _ _ _ => rw [calleeName_iff.2 h1] at hc; cases hc
  | some f =>
    have hf : ∃ g : String, f = g.toList := ⟨String.ofList f, by simp⟩
    obtain ⟨g, rfl⟩ := hf
    have hcall : ∀ h, Calls c h ↔ h = g := by
      intro h
      constructor
      · intro hh
        have := calleeName_iff.2 hh
        rw [hc] at this
        exact (String.toList_injective (Option.some.inj this)).symm
      · rintro rfl; exact calleeName_iff.1 hc
    have key : (∃ s, Names s (.call c args) ∧ LinkOf isSpec s l) ↔
        (g ∈ byPosition ∧ ∃ e rest s, args = e :: rest ∧ Gives e s ∧ LinkOf isSpec s l) ∨
        ∃ x ∈ byName g, ∃ e s, .named x.toList e ∈ args ∧ Gives e s ∧ LinkOf isSpec s l := by
      constructor
      · rintro ⟨s, hn, hl⟩
        cases hn with
        | first h1 h2 h3 =>
          have := (hcall _).1 h1; subst this
          exact Or.inl ⟨h2, _, _, s, rfl, h3, hl⟩
        | named h1 h2 h3 h4 =>
          have := (hcall _).1 h1; subst this
          exact Or.inr ⟨_, h2, _, s, h3, h4, hl⟩
      · rintro (⟨h2, e, rest, s, rfl, h3, hl⟩ | ⟨x, h2, e, s, h3, h4, hl⟩)
        · exact ⟨s, .first ((hcall g).2 rfl) h2 h3, hl⟩
        · exact ⟨s, .named ((hcall g).2 rfl) h2 h3 h4, hl⟩
    rw [key]
    have inj : ∀ h : String, (g.toList = h.toList) ↔ g = h := fun h => ⟨fun e => String.toList_injective e, fun e => e ▸ rfl⟩
    dsimp only
    by_cases h1 : g = "raw"
    · subst h1
      rw [if_pos rfl, List.mem_append, mem_readerLinks, mem_readerLinks]
      simp [byPosition, byName]
    · rw [if_neg (by rw [inj]; exact h1)]
      by_cases h2 : g = "bibliography"
      · subst h2
        rw [if_pos rfl, List.mem_append, List.mem_append, mem_readerLinks, mem_readerLinks, mem_readerLinks]
        simp only [byPosition, byName]
        simp
        grind
      · rw [if_neg (by rw [inj]; exact h2)]
        by_cases h3 : g ∈ ["cbor", "csv", "image", "read", "json", "yaml", "xml"]
        · rw [if_pos (by simpa only [List.mem_cons, List.not_mem_nil, or_false, inj] using h3), mem_readerLinks]
          simp only [List.mem_cons, List.not_mem_nil, or_false] at h3
          rcases h3 with rfl | rfl | rfl | rfl | rfl | rfl | rfl <;> simp [byPosition, byName]
        · rw [if_neg (by simpa only [List.mem_cons, List.not_mem_nil, or_false, inj] using h3)]
          have e1 : g ∉ byPosition := by
            simp only [byPosition, List.mem_cons, List.not_mem_nil, or_false] at h3 ⊢
            grind
          have e2 : byName g = [] := by
            simp only [List.mem_cons, List.not_mem_nil, or_false] at h3
            unfold byName
            split <;> simp_all
          simp [e1, e2]

mutual
theorem mem_collect (isSpec : Text → Bool) (l : Link) : ∀ n : Node,
    l ∈ collectLinks isSpec n ↔ ∃ m s, Has n m ∧ Names s m ∧ LinkOf isSpec s l
  | .str a b t => by
    simp only [collectLinks]
    constructor
    · intro h; cases h
    · rintro ⟨m, s, hh, hn, _⟩; cases hh; cases hn
  | .ident x => by
    simp only [collectLinks]
    constructor
    · intro h; cases h
    · rintro ⟨m, s, hh, hn, _⟩; cases hh; cases hn
  | .quiet => by
    simp only [collectLinks]
    constructor
    · intro h; cases h
    · rintro ⟨m, s, hh, hn, _⟩; cases hh; cases hn
  | .field t x => by
    rw [collectLinks, mem_collect isSpec l t]
    constructor
    · rintro ⟨m, s, hh, r⟩; exact ⟨m, s, .field hh, r⟩
    · rintro ⟨m, s, hh, hn, r⟩
      cases hh with
      | refl => cases hn
      | field hh => exact ⟨m, s, hh, hn, r⟩
  | .named x v => by
    rw [collectLinks, mem_collect isSpec l v]
    constructor
    · rintro ⟨m, s, hh, r⟩; exact ⟨m, s, .named hh, r⟩
    · rintro ⟨m, s, hh, hn, r⟩
      cases hh with
      | refl => cases hn
      | named hh => exact ⟨m, s, hh, hn, r⟩
  | .spread v => by
    rw [collectLinks, mem_collect isSpec l v]
    constructor
    · rintro ⟨m, s, hh, r⟩; exact ⟨m, s, .spread hh, r⟩
    · rintro ⟨m, s, hh, hn, r⟩
      cases hh with
      | refl => cases hn
      | spread hh => exact ⟨m, s, hh, hn, r⟩
  | .array items => by
    rw [collectLinks, mem_collectAll isSpec l items]
    constructor
    · rintro ⟨n, hn, m, s, hh, r⟩; exact ⟨m, s, .array hn hh, r⟩
    · rintro ⟨m, s, hh, hn, r⟩
      cases hh with
      | refl => cases hn
      | array hi hh => exact ⟨_, hi, m, s, hh, hn, r⟩
  | .other items => by
    rw [collectLinks, mem_collectAll isSpec l items]
    constructor
    · rintro ⟨n, hn, m, s, hh, r⟩; exact ⟨m, s, .other hn hh, r⟩
    · rintro ⟨m, s, hh, hn, r⟩
      cases hh with
      | refl => cases hn
      | other hi hh => exact ⟨_, hi, m, s, hh, hn, r⟩
  | .incl e => by
    rw [collectLinks, List.mem_append, mem_pathLinks, mem_collect isSpec l e]
    constructor
    · rintro (⟨s, hg, hl⟩ | ⟨m, s, hh, r⟩)
      · exact ⟨_, s, .refl _, .incl hg, hl⟩
      · exact ⟨m, s, .incl hh, r⟩
    · rintro ⟨m, s, hh, hn, r⟩
      cases hh with
      | refl => cases hn with | incl hg => exact Or.inl ⟨s, hg, r⟩
      | incl hh => exact Or.inr ⟨m, s, hh, hn, r⟩
  | .call c args => by
    rw [collectLinks, List.mem_append, List.mem_append, mem_callLinks, mem_collect isSpec l c, mem_collectAll isSpec l args]
    constructor
    · rintro (⟨s, hn, hl⟩ | ⟨m, s, hh, r⟩ | ⟨n, hn, m, s, hh, r⟩)
      · exact ⟨_, s, .refl _, hn, hl⟩
      · exact ⟨m, s, .callee hh, r⟩
      · exact ⟨m, s, .arg hn hh, r⟩
    · rintro ⟨m, s, hh, hn, r⟩
      cases hh with
      | refl => exact Or.inl ⟨s, hn, r⟩
      | callee hh => exact Or.inr (Or.inl ⟨m, s, hh, hn, r⟩)
      | arg hi hh => exact Or.inr (Or.inr ⟨_, hi, m, s, hh, hn, r⟩)

theorem mem_collectAll (isSpec : Text → Bool) (l : Link) : ∀ ns : List Node,
    l ∈ collectAll isSpec ns ↔ ∃ n ∈ ns, ∃ m s, Has n m ∧ Names s m ∧ LinkOf isSpec s l
  | [] => by
    simp only [collectAll]
    constructor
    · intro h; cases h
    · rintro ⟨n, hn, _⟩; cases hn
  | n :: ns => by
    rw [collectAll, List.mem_append, mem_collect isSpec l n, mem_collectAll isSpec l ns]
    constructor
    · rintro (h | ⟨n', hn, h⟩)
      · exact ⟨n, List.mem_cons_self .., h⟩
      · exact ⟨n', List.mem_cons_of_mem _ hn, h⟩
    · rintro ⟨n', hn, h⟩
      cases List.mem_cons.1 hn with
      | inl e => subst e; exact Or.inl h
      | inr hn => exact Or.inr ⟨n', hn, h⟩
end

/-- **The links of a document are the files named in it.** Every string that names a file, in an `include`, as first
argument of a function that reads a file, or by certain named arguments, is a link from behind its first quote to its last
one, and there are no other links. (Missing: see `later_position_missed` and `toml_missed`.) -/
theorem links_named_partial (isSpec : Text → Bool) (doc : Node) (l : Link) :
    l ∈ collectLinks isSpec doc ↔ ∃ n s, Has doc n ∧ Names s n ∧ LinkOf isSpec s l := mem_collect isSpec l doc

/-- `#image("a.png")`, the string at 7. -/
def exImage : Node := .other [.quiet, .call (.ident "image".toList) [.str 7 14 "a.png".toList]]

/-- Non-vacuity: the path in `#image("a.png")` is a link. -/
example : collectLinks (fun _ => true) exImage = [⟨8, 13, .path "a.png".toList⟩] := by decide +kernel

/-- **A path that is not the first argument is missed**: `image(width: 1cm, "a.png")`. -/
theorem later_position_missed (isSpec : Text → Bool) (a b : Nat) (t w : Text) :
    collectLinks isSpec (.call (.ident "image".toList) [.named "width".toList (.ident w), .str a b t]) = [] := by
  simp [collectLinks, collectAll, callLinks, calleeName, readerLinks, isPos, namedLinks]

/-- **So are the files read by `toml` and `plugin`.** -/
theorem toml_missed (isSpec : Text → Bool) (a b : Nat) (t : Text) :
    collectLinks isSpec (.call (.ident "toml".toList) [.str a b t]) = [] ∧
    collectLinks isSpec (.call (.ident "plugin".toList) [.str a b t]) = [] := by
  constructor <;> simp [collectLinks, collectAll, callLinks, calleeName]

/-! ## No link twice -/

section Count

variable (isSpec : Text → Bool) (p : Nat)

/-- The number of links for the string at `p`. -/
def cnt (ls : List Link) : Nat := ls.countP fun l => l.start = p + 1

theorem cnt_append (a b : List Link) : cnt p (a ++ b) = cnt p a + cnt p b := List.countP_append

theorem cnt_strLink (a b : Nat) (t : Text) : cnt p (strLink isSpec (.str a b t)) ≤ [a].count p := by
  have e : [a].count p = if a = p then 1 else 0 := by
    rw [List.count_singleton]; simp
  rw [e]
  simp only [strLink]
  split
  · split
    · split
      · simp only [cnt, List.countP_cons, List.countP_nil]
        by_cases h : a = p <;> simp [h]
      · simp [cnt]
    · simp only [cnt, List.countP_cons, List.countP_nil]
      by_cases h : a = p <;> simp [h]
  · simp [cnt]

/-- The paths an argument gives. -/
def namedAll : Node → List Link
  | .named _ e => pathLinks isSpec e
  | _ => []

/-- The number of paths the named arguments give. -/
def namedSum : List Node → Nat
  | [] => 0
  | a :: as => cnt p (namedAll isSpec a) + namedSum as

theorem cnt_named {k1 k2 k3 : Text} (h12 : k1 ≠ k2) (h13 : k1 ≠ k3) (h23 : k2 ≠ k3) (args : List Node) :
    cnt p (args.flatMap (namedLinks isSpec k1)) + cnt p (args.flatMap (namedLinks isSpec k2)) +
      cnt p (args.flatMap (namedLinks isSpec k3)) ≤ namedSum isSpec p args := by
  induction args with
  | nil => simp [cnt, namedSum]
  | cons a as ih =>
    simp only [List.flatMap_cons, cnt_append, namedSum]
    have : cnt p (namedLinks isSpec k1 a) + cnt p (namedLinks isSpec k2 a) + cnt p (namedLinks isSpec k3 a) ≤
        cnt p (namedAll isSpec a) := by
      cases a with
      | named x e =>
        simp only [namedLinks, namedAll]
        by_cases e1 : x = k1
        · subst e1; rw [if_pos rfl, if_neg h12, if_neg h13]; simp [cnt]
        · rw [if_neg e1]
          by_cases e2 : x = k2
          · subst e2; rw [if_pos rfl, if_neg h23]; simp [cnt]
          · rw [if_neg e2]
            by_cases e3 : x = k3
            · subst e3; rw [if_pos rfl]; simp [cnt]
            · rw [if_neg e3]; simp [cnt]
      | _ => simp [namedLinks, cnt]
    omega

/-- The number of paths the first argument gives by its position. -/
def firstSum : List Node → Nat
  | [] => 0
  | a :: _ => if isPos a then cnt p (pathLinks isSpec a) else 0

theorem cnt_reader (args : List Node) (key : Text) (pos : Bool) :
    cnt p (readerLinks isSpec args key pos) ≤
      (if pos then firstSum isSpec p args else 0) + cnt p (args.flatMap (namedLinks isSpec key)) := by
  cases args with
  | nil => simp [readerLinks, cnt]
  | cons a as =>
    rw [readerLinks, cnt_append]
    refine Nat.add_le_add_right ?_ _
    cases pos <;> cases h : isPos a <;> simp [h, firstSum, cnt]

theorem cnt_call (c : Node) (args : List Node) :
    cnt p (callLinks isSpec c args) ≤ firstSum isSpec p args + namedSum isSpec p args := by
  unfold callLinks
  cases calleeName c with
  | none => simp [cnt]
  | some f =>
    dsimp only
    split
    · rw [cnt_append]
      have h1 := cnt_reader isSpec p args "theme".toList false
      have h2 := cnt_reader isSpec p args "syntaxes".toList false
      have h3 := cnt_named isSpec p (k1 := "theme".toList) (k2 := "syntaxes".toList) (k3 := "path".toList)
        (by decide) (by decide) (by decide) args
      simp only [Bool.false_eq_true, if_false] at h1 h2
      omega
    · split
      · rw [cnt_append, cnt_append]
        have h1 := cnt_reader isSpec p args "cite".toList false
        have h2 := cnt_reader isSpec p args "style".toList false
        have h4 := cnt_reader isSpec p args "path".toList true
        have h3 := cnt_named isSpec p (k1 := "cite".toList) (k2 := "style".toList) (k3 := "path".toList)
          (by decide) (by decide) (by decide) args
        simp only [Bool.false_eq_true, if_false, if_true] at h1 h2 h4
        omega
      · split
        · have h4 := cnt_reader isSpec p args "path".toList true
          have h3 := cnt_named isSpec p (k1 := "cite".toList) (k2 := "style".toList) (k3 := "path".toList)
            (by decide) (by decide) (by decide) args
          simp only [if_true] at h4
          omega
        · simp [cnt]

mutual
/-- The links in a node and the paths it gives are not more than its strings. -/
theorem cnt_tight : ∀ n : Node, cnt p (pathLinks isSpec n) + cnt p (collectLinks isSpec n) ≤ (places n).count p
  | .str a b t => by
    have := cnt_strLink isSpec p a b t
    simp only [pathLinks, collectLinks, places]
    simpa [cnt] using this
  | .ident x => by simp [pathLinks, collectLinks, cnt]
  | .quiet => by simp [pathLinks, collectLinks, cnt]
  | .field t x => by
    have := cnt_tight t
    simp only [pathLinks, collectLinks, places]
    simp only [cnt, List.countP_nil] at this ⊢
    omega
  | .named x v => by
    have := cnt_tight v
    simp only [pathLinks, collectLinks, places]
    simp only [cnt, List.countP_nil] at this ⊢
    omega
  | .spread v => by
    have := cnt_tight v
    simp only [pathLinks, collectLinks, places]
    simp only [cnt, List.countP_nil] at this ⊢
    omega
  | .incl v => by
    have := cnt_tight v
    rw [pathLinks, collectLinks, places, cnt_append, show cnt p ([] : List Link) = 0 from rfl, Nat.zero_add]
    · exact this
    · intro _ _ _ h; cases h
    · intro _ h; cases h
  | .array items => by
    have := (cnt_all items).1
    simp only [pathLinks, collectLinks, places]
    exact this
  | .other items => by
    have := (cnt_all items).1
    simp only [pathLinks, collectLinks, places]
    simp only [cnt, List.countP_nil] at this ⊢
    omega
  | .call c args => by
    have h1 := cnt_tight c
    have h2 := (cnt_all args).2
    have h3 := cnt_call isSpec p c args
    simp only [pathLinks, collectLinks, places, cnt_append, List.count_append]
    have : cnt p ([] : List Link) = 0 := rfl
    omega

theorem cnt_all : ∀ ns : List Node,
    cnt p (ns.flatMap (strLink isSpec)) + cnt p (collectAll isSpec ns) ≤ (placesAll ns).count p ∧
    firstSum isSpec p ns + namedSum isSpec p ns + cnt p (collectAll isSpec ns) ≤ (placesAll ns).count p
  | [] => by simp [collectAll, cnt, firstSum, namedSum]
  | n :: ns => by
    have h1 := cnt_tight n
    have h2 := cnt_all ns
    have hs : cnt p (strLink isSpec n) ≤ cnt p (pathLinks isSpec n) := by
      cases n <;> simp [strLink, pathLinks, cnt]
    have hn : (if isPos n then cnt p (pathLinks isSpec n) else 0) + cnt p (namedAll isSpec n) + cnt p (collectLinks isSpec n) ≤
        (places n).count p := by
      cases n with
      | named x v =>
        have := cnt_tight v
        simp only [isPos, namedAll, collectLinks, places]
        simpa using this
      | spread v => 
        have := cnt_tight v
        simp only [isPos, namedAll, collectLinks, places]
        have e : cnt p ([] : List Link) = 0 := rfl
        simp only [e, Bool.false_eq_true, if_false]
        omega
      | _ => simpa [isPos, namedAll, cnt] using h1
    have hle : namedSum isSpec p ns ≤ firstSum isSpec p ns + namedSum isSpec p ns := Nat.le_add_left ..
    simp only [List.flatMap_cons, collectAll, placesAll, firstSum, namedSum, cnt_append, List.count_append]
    omega
end

end Count

/-- **No link is there twice.** If no two strings of the document begin at the same place, no two links do. -/
theorem no_link_twice (isSpec : Text → Bool) (doc : Node) (h : (places doc).Nodup) :
    ((collectLinks isSpec doc).map (·.start)).Nodup := by
  rw [List.nodup_iff_count]
  intro q
  cases q with
  | zero =>
    have : List.count 0 ((collectLinks isSpec doc).map (·.start)) = 0 := by
      rw [List.count_eq_zero]
      intro hm
      obtain ⟨l, hl, e⟩ := List.mem_map.1 hm
      obtain ⟨n, s, _, _, hl⟩ := (links_named_partial isSpec doc l).1 hl
      cases s with
      | str a b t => have := hl.2.1; omega
      | _ => exact hl.elim
    omega
  | succ p =>
    have h1 := cnt_tight isSpec p doc
    have h2 : (places doc).count p ≤ 1 := List.nodup_iff_count.1 h p
    have h3 : List.count (p + 1) ((collectLinks isSpec doc).map (·.start)) = cnt p (collectLinks isSpec doc) := by
      rw [List.count, List.countP_map, cnt]
      congr 1
    omega

/-- Non-vacuity: the strings of `exImage` begin at different places. -/
example : (places exImage).Nodup := by decide +kernel

/-! ## Where links lead -/

theorem within_walk (cs : List Comp) (hr : .root ∉ cs) (d e : List Text) (h : within d cs = some e) : walk d cs = e := by
  induction cs generalizing d with
  | nil => cases h; rfl
  | cons c cs ih =>
    have hr' : .root ∉ cs := fun h => hr (List.mem_cons_of_mem _ h)
    rw [walk_cons]
    cases c with
    | root => exact (hr (List.mem_cons_self ..)).elim
    | cur => exact ih hr' _ h
    | normal n => exact ih hr' _ h
    | parent =>
      rw [within] at h
      split at h
      · cases h
      · exact ih hr' _ h

/-- **A relative link leads to the file the document reads.** In a project at `r`, a relative path in a file in the directory
`dir` of the project, that refers to the file `e` of the project, leads to this file on disk. (Missing: paths from the root,
see `rooted_link_wrong`.) -/
theorem link_leads_partial (root s : Text) (r dir e : List Text) (hroot : components root = .root :: r.map Comp.normal)
    (hd : ∀ n ∈ dir, n ≠ [] ∧ '/' ∉ n ∧ n ≠ ['.'] ∧ n ≠ ['.', '.']) (hrel : isAbsolute s = false) (h : Refers dir s e) :
    ∃ path, resolveLink root dir (.path s) = some path ∧ ∀ cwd, denotes cwd path = r ++ e := by
  have hv : vpathResolve root (dir.map Comp.normal) = some (collect (.root :: (r ++ dir).map Comp.normal)) := by
    unfold vpathResolve
    rw [show dir.map Comp.normal = Workspace.names dir from rfl, resolveLoop_names, hroot]
    simp [Workspace.names]
  have hg : ∀ c ∈ Comp.root :: (r ++ dir).map Comp.normal, GoodComp c := by
    intro c hc
    cases List.mem_cons.1 hc with
    | inl e => subst e; intro n hn; cases hn
    | inr hc =>
      obtain ⟨n, hn, rfl⟩ := List.mem_map.1 hc
      cases List.mem_append.1 hn with
      | inl hn => exact components_good (s := root) (by rw [hroot]; exact List.mem_cons_of_mem _ (List.mem_map_of_mem hn))
      | inr hn => intro m hm; cases hm; exact hd n hn
  refine ⟨Paths.join (collect (.root :: (r ++ dir).map Comp.normal)) s, by rw [resolveLink, hv]; rfl, fun cwd => ?_⟩
  rw [denotes_join, denotes_collect _ _ hg, walk_cons, walk_names]
  have hw := within_shift (r := r) (not_root hrel) h.2
  exact within_walk _ (not_root hrel) _ _ hw

/-- Non-vacuity: in the directory `ch` of a project at `/p`, `../a.png` is `/p/a.png`. -/
example : components "/p".toList = .root :: ["p".toList].map Comp.normal ∧ Refers ["ch".toList] "../a.png".toList ["a.png".toList] ∧
    resolveLink "/p".toList ["ch".toList] (.path "../a.png".toList) = some "/p/ch/../a.png".toList := by
  refine ⟨by decide +kernel, by decide +kernel, by decide +kernel⟩

/-- **A link from the root leads elsewhere.** A path that begins with a slash is looked up from the root of the project when
the document is compiled; its link leads to the path on disk. -/
theorem rooted_link_wrong (root s : Text) (dir : List Text) (hs : isAbsolute s = true) {path : Text}
    (h : resolveLink root dir (.path s) = some path) : path = s := by
  rw [resolveLink, Option.map_eq_some_iff] at h
  obtain ⟨b, _, rfl⟩ := h
  simp [Paths.join, hs]

/-- In the project at `/p`, the path `/a.png` refers to the file `/p/a.png`, and its link leads to `/a.png`. -/
theorem rooted_link_example :
    Refers [] "/a.png".toList ["a.png".toList] ∧
    resolveLink "/p".toList [] (.path "/a.png".toList) = some "/a.png".toList ∧
    denotes [] "/a.png".toList ≠ ["p".toList] ++ ["a.png".toList] := by
  refine ⟨by decide +kernel, by decide +kernel, by decide +kernel⟩

/-- **The answer lists the links.** A document without links has no answer, and one with links an answer with each of them. -/
theorem answer_lists (isSpec : Text → Bool) (root : Text) (dir : List Text) (doc : Node) :
    (documentLinks isSpec root dir doc = none ↔ ∀ n s l, Has doc n → Names s n → ¬ LinkOf isSpec s l) ∧
    ∀ ls, documentLinks isSpec root dir doc = some ls → ∀ a b t, (a, b, t) ∈ ls ↔
      ∃ n s l, Has doc n ∧ Names s n ∧ LinkOf isSpec s l ∧ l.start = a ∧ l.stop = b ∧ resolveLink root dir l.target = t := by
  have key := links_named_partial isSpec doc
  unfold documentLinks
  cases hc : collectLinks isSpec doc with
  | nil =>
    rw [hc] at key
    refine ⟨⟨fun _ n s l h1 h2 h3 => ?_, fun _ => rfl⟩, fun ls h => by cases h⟩
    cases (key l).2 ⟨n, s, h1, h2, h3⟩
  | cons l0 ls0 =>
    rw [hc] at key
    constructor
    · constructor
      · intro h; cases h
      · intro h
        obtain ⟨n, s, h1, h2, h3⟩ := (key l0).1 (List.mem_cons_self ..)
        exact (h n s l0 h1 h2 h3).elim
    · intro ls h a b t
      cases h
      rw [List.mem_map]
      constructor
      · rintro ⟨l, hl, e⟩
        obtain ⟨n, s, h1, h2, h3⟩ := (key l).1 hl
        cases e
        exact ⟨n, s, l, h1, h2, h3, rfl, rfl, rfl⟩
      · rintro ⟨n, s, l, h1, h2, h3, rfl, rfl, rfl⟩
        exact ⟨l, (key l).2 ⟨n, s, h1, h2, h3⟩, rfl⟩

end Tinymist.Links
