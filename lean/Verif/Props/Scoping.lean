import Verif.Lemmas.ScopingExports

/-!
# C70: go to definition follows the scoping rules

The rules are `uses`, `placesOf` and `exportEnvs` of `Verif.Spec.Scoping`.  The full claim is
that `definition` gives the meaning of every name written in every project.  It is false of
the code in the cases shown below, and proved for the projects without them.
-/
namespace Tinymist.Scoping

theorem lookupLast_mem {α : Type} (l : List (Span × α))
    (hc : ∀ x ∈ l, ∀ y ∈ l, x.1 = y.1 → x = y) (s : Span) (a : α) (h : (s, a) ∈ l) :
    lookupLast s l = some a := by
  induction l with
  | nil => cases h
  | cons x l ih =>
    obtain ⟨s', b⟩ := x
    rw [lookupLast]
    have hc' : ∀ x ∈ l, ∀ y ∈ l, x.1 = y.1 → x = y :=
      fun x hx y hy => hc x (by simp [hx]) y (by simp [hy])
    by_cases hm : (s, a) ∈ l
    · rw [ih hc' hm]
    · rw [List.mem_cons] at h
      rcases h with h | h
      · cases h
        cases hl : lookupLast s l with
        | none => simp
        | some c =>
          have : ∀ l : List (Span × α), lookupLast s l = some c → (s, c) ∈ l := by
            intro l
            induction l with
            | nil => intro h; cases h
            | cons y l ih =>
              obtain ⟨t, d⟩ := y
              rw [lookupLast]
              cases hl : lookupLast s l with
              | some e => intro h; cases h; simp [ih hl]
              | none =>
                intro h
                simp only at h
                split at h
                · rename_i ht; cases h; simp [ht]
                · cases h
          have h1 := hc (s, a) (by simp) (s, c) (by simp [this l hl]) rfl
          cases h1
          rfl
      · exact absurd h hm

theorem lookupLast_notin {α : Type} (l : List (Span × α)) (s : Span)
    (h : s ∉ l.map (·.1)) : lookupLast s l = none := by
  induction l with
  | nil => rfl
  | cons x l ih =>
    obtain ⟨t, d⟩ := x
    rw [List.map_cons, List.mem_cons, not_or] at h
    rw [lookupLast, ih h.2]
    simp only
    rw [if_neg (fun e => h.1 e.symm)]

/-- The table of a file answers as the rules do. -/
theorem table_answers (W : World) (files : List E) (hp : PlainProject W files) (k : Nat)
    (s : Span) :
    (lookupLast s (tableOf W files k)).map ofRef =
      (lookupLast s (placesOf W files k)).map ansOf := by
  rw [tableOf, placesOf]
  cases he : files[k]? with
  | none => rfl
  | some e =>
    have hp' : PlainProject W (files.take k) := by
      intro j e' hj
      rw [List.getElem?_take] at hj
      split at hj
      · rename_i hlt
        have := hp j e' hj
        rwa [List.take_take, Nat.min_eq_left (by omega)]
      · cases hj
    have hex := project_exports W _ hp'
    obtain ⟨out, hout, hans⟩ :=
      (check_sim W _ _ hex e St.init Env.empty (hp k e he).1 (init_sim W)).2
    simp only [St.init, List.nil_append] at hout
    simp only [St.init]
    rw [hout]
    exact hans s

/-- **Go to definition gives what the name means.**  `placesOf` lists the places where names
are written, with their meaning by the rules of Typst; a place has one meaning. -/
theorem definition_follows_rules_partial (W : World) (files : List E)
    (hp : PlainProject W files) (k : Nat)
    (hc : ∀ x ∈ placesOf W files k, ∀ y ∈ placesOf W files k, x.1 = y.1 → x = y)
    (s : Span) (m : Option Meaning) (h : (s, m) ∈ placesOf W files k) :
    definition W files k s = m.bind Meaning.answer := by
  have ht := table_answers W files hp k s
  rw [lookupLast_mem _ hc s m h] at ht
  rw [definition]
  cases hl : lookupLast s (tableOf W files k) with
  | none => rw [hl] at ht; cases ht
  | some r => rw [hl] at ht; exact Option.some.inj ht

/-- Where no name is written there is no answer. -/
theorem no_definition_elsewhere_partial (W : World) (files : List E)
    (hp : PlainProject W files) (k : Nat) (s : Span)
    (h : s ∉ (placesOf W files k).map (·.1)) : definition W files k s = none := by
  have ht := table_answers W files hp k s
  rw [lookupLast_notin _ s h] at ht
  rw [definition]
  cases hl : lookupLast s (tableOf W files k) with
  | none => rfl
  | some r => rw [hl] at ht; cases ht

/-! ## A project to which this applies -/

/-- The library has one function, and a module with one function. -/
def W0 : World where
  lib := fun math n => if math = false ∧ n = 50 then some 7 else none
  sub := fun v => if v = 7 then some [(51, 8)] else none
  stem := fun f => 100 + f

/-- `#let x = ..` and `#let g(a, b: x) = a`; a file importing all of it, with a function
`#let f(y, ..r) = { for z in y [#f(z, x)] }`; and a file
`#import "1.typ": f as h`, `#h(g)`. -/
def sample : List E :=
  [ .seq (.letPat [(1, 1)] .skip)
      (.closure 2 (some 2) (.pos [(3, 3)] (.named 4 4 (.ident 5 1 false) .nil))
        (.ident 6 3 false)),
    .seq (.imp ⟨10, .path 11 0, none, .star⟩)
      (.closure 12 (some 5) (.pos [(13, 6)] (.sink 14 7 .nil))
        (.block (.forIn [(15, 8)] (.ident 16 6 false)
          (.block (.seq (.ident 17 5 false) (.seq (.ident 18 8 false) (.ident 19 1 false))))))),
    .seq (.imp ⟨20, .path 21 1, none, .items [⟨[(22, 5)], some (23, 9)⟩]⟩)
      (.seq (.ident 24 9 false) (.ident 25 2 false)) ]

theorem sample_plain : PlainProject W0 sample := by
  intro k e hk
  match k, hk with
  | 0, hk =>
    cases hk
    refine ⟨?_, .inl rfl⟩
    simp [Plain, PlainParams, mentions, declares]
  | 1, hk =>
    cases hk
    refine ⟨?_, .inr ?_⟩
    · simp [Plain, PlainParams, mentions, declares]
    · intro n
      have hex : ∀ n, exportEnv (exportEnvs W0 (sample.take 1)) 0 n ≠ none → n = 1 ∨ n = 2 := by
        intro n h
        by_cases h1 : n = 1
        · exact .inl h1
        · by_cases h2 : n = 2
          · exact .inr h2
          · exfalso
            apply h
            simp [exportEnv, exportEnvs, sample, uses, usesParams, Env.bindPat, bindName,
              Env.bind, Env.empty, h1, h2]
      simp only [boundTimes, modName, srcMeaning, members, Option.toList_none, List.map_nil,
        List.count_nil, Nat.zero_add, Option.toList_some]
      cases hm : exportEnv (exportEnvs W0 (sample.take 1)) 0 n with
      | none =>
        rw [List.count_singleton]
        split <;> simp
      | some m =>
        have hn : n ≠ 5 := by
          rintro rfl
          rcases hex 5 (by rw [hm]; exact fun h => by cases h) with h | h <;> cases h
        rw [List.count_eq_zero.mpr (by simpa using hn)]
        simp
  | 2, hk =>
    cases hk
    refine ⟨?_, .inl rfl⟩
    simp [Plain]
    exact ⟨22, 5, ⟨rfl, rfl⟩, by decide⟩
  | k + 3, hk => simp [sample] at hk

theorem sample_places : ∀ k, k < 3 →
    ∀ x ∈ placesOf W0 sample k, ∀ y ∈ placesOf W0 sample k, x.1 = y.1 → x = y := by
  decide +kernel

/-- In the second file `x` is the variable of the first file, `z` the loop variable and `f`
the function itself; in the third `h` is that function and `g` is not known. -/
example : definition W0 sample 1 19 = some (.decl (.var 1 1)) ∧
    definition W0 sample 1 18 = some (.decl (.var 15 8)) ∧
    definition W0 sample 1 17 = some (.decl (.func 12 5)) ∧
    definition W0 sample 2 24 = some (.decl (.func 12 5)) ∧
    definition W0 sample 2 25 = none := by decide +kernel

example : definition W0 sample 1 19 = (some (Meaning.decl (.var 1 1))).bind Meaning.answer :=
  definition_follows_rules_partial W0 sample sample_plain 1 (sample_places 1 (by omega)) 19 _
    (by decide +kernel)

/-! ## Where the code is wrong -/

/-- `#let xs = ..` `#for xs in xs {}`: the iterable is taken for the loop variable. -/
theorem for_iterable_wrong :
    let files := [E.seq (.letPat [(1, 1)] .skip) (.forIn [(2, 1)] (.ident 3 1 false) .skip)]
    (3, some (Meaning.decl (.var 1 1))) ∈ placesOf W0 files 0 ∧
      definition W0 files 0 3 = some (.decl (.var 2 1)) := by decide +kernel

/-- `#let x = ..` `#let f(x, y: x) = ..`: a default value is taken for an earlier
parameter. -/
theorem default_wrong :
    let files := [E.seq (.letPat [(1, 1)] .skip)
      (.closure 2 (some 2) (.pos [(3, 1)] (.named 4 4 (.ident 5 1 false) .nil)) .skip)]
    (5, some (Meaning.decl (.var 1 1))) ∈ placesOf W0 files 0 ∧
      definition W0 files 0 5 = some (.decl (.var 3 1)) := by decide +kernel

/-- `#let a = ..` `#{ (a,) = ..; a }`: an assignment is taken for a new variable, by itself
and by what follows. -/
theorem assignment_wrong :
    let files := [E.seq (.letPat [(1, 1)] .skip)
      (.block (.seq (.destruct [(2, 1)] .skip) (.ident 3 1 false)))]
    (2, some (Meaning.decl (.var 1 1))) ∈ placesOf W0 files 0 ∧
      (3, some (Meaning.decl (.var 1 1))) ∈ placesOf W0 files 0 ∧
      definition W0 files 0 2 = some (.decl (.var 2 1)) ∧
      definition W0 files 0 3 = some (.decl (.var 2 1)) := by decide +kernel

/-- `= Title #let x = ..` followed by `#x`: what a heading binds is forgotten. -/
theorem heading_wrong :
    let files := [E.seq (.item (.letPat [(1, 1)] .skip)) (.ident 2 1 false)]
    (2, some (Meaning.decl (.var 1 1))) ∈ placesOf W0 files 0 ∧
      definition W0 files 0 2 = none := by decide +kernel

/-- `#let x = ..` `#context let x = ..` `#x`: what runs later is taken to have been bound. -/
theorem context_wrong :
    let files := [E.seq (.letPat [(1, 1)] .skip)
      (.seq (.ctx (.letPat [(2, 1)] .skip)) (.ident 3 1 false))]
    (3, some (Meaning.decl (.var 1 1))) ∈ placesOf W0 files 0 ∧
      definition W0 files 0 3 = some (.decl (.var 2 1)) := by decide +kernel

/-- `#let x = 1` `#import "b.typ": *` `#let x = 2`: the file exports the first `x`. -/
theorem export_wrong :
    let files := [E.letPat [(1, 2)] .skip,
      E.seq (.letPat [(2, 1)] .skip)
        (.seq (.imp ⟨3, .path 4 0, none, .star⟩) (.letPat [(5, 1)] .skip)),
      E.imp ⟨6, .path 7 1, none, .items [⟨[(8, 1)], none⟩]⟩]
    (8, some (Meaning.decl (.var 5 1))) ∈ placesOf W0 files 2 ∧
      definition W0 files 2 8 = some (.decl (.var 2 1)) := by decide +kernel

/-- `#import "a.typ": sub.x`: the last name is looked for in the file, not in `sub`. -/
theorem import_path_wrong :
    let files := [E.letPat [(1, 1)] .skip,
      E.seq (.imp ⟨2, .path 3 0, some (4, 2), .bare⟩) (.letPat [(5, 1)] .skip),
      E.imp ⟨6, .path 7 1, none, .items [⟨[(8, 2), (9, 1)], none⟩]⟩]
    (9, some (Meaning.decl (.var 1 1))) ∈ placesOf W0 files 2 ∧
      definition W0 files 2 9 = some (.decl (.var 5 1)) := by decide +kernel

/-- `#import "a.typ" as m` `#import m: x`: the second `m` is not known to be a name. -/
theorem import_source_wrong :
    let files := [E.letPat [(1, 1)] .skip,
      E.seq (.imp ⟨2, .path 3 0, some (4, 2), .bare⟩)
        (.imp ⟨5, .ident 6 2, none, .items [⟨[(7, 1)], none⟩]⟩)]
    (6, some (Meaning.decl (.module 0))) ∈ placesOf W0 files 1 ∧
      definition W0 files 1 6 = none ∧
      definition W0 files 1 7 = some (.decl (.var 1 1)) := by decide +kernel

/-- `#import calc: sin` `#sin`: a library function imported by name is not known where it is
used. -/
theorem import_builtin_wrong :
    let files := [E.seq (.imp ⟨1, .ident 2 50, none, .items [⟨[(3, 51)], none⟩]⟩)
      (.ident 4 51 false)]
    (4, some (Meaning.value 8)) ∈ placesOf W0 files 0 ∧
      definition W0 files 0 3 = some (.value 8) ∧
      definition W0 files 0 4 = none := by decide +kernel

end Tinymist.Scoping
