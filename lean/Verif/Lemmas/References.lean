import Verif.Spec.References
import Verif.Lemmas.Scoping

/-! # Lemmas about find references -/
namespace Tinymist.Scoping

/-! ## The entries of a table -/

/-- An entry of a table for a file with the identifiers `ids`. -/
def Entry (W : World) (ids : List Name) (r : RefExpr) : Prop :=
  r.site = none ∨ ∃ d, r = asDef d ∧
    ((∃ s n, (d = .var s n ∨ d = .func s n) ∧ n ∈ ids) ∨ (∃ s, d = .closure s) ∨
      ∃ s, d = .spread s)

def AllEntries (W : World) (ids : List Name) (buf : List (Span × RefExpr)) : Prop :=
  ∀ x ∈ buf, Entry W ids x.2

theorem AllEntries.resolve {W : World} {ids : List Name} {st : St}
    (h : AllEntries W ids st.buf) (s : Span) (r : RefExpr) (hr : Entry W ids r) :
    AllEntries W ids (resolveAs s r st).buf := by
  intro x hx
  rw [resolveAs, List.mem_append, List.mem_singleton] at hx
  rcases hx with hx | rfl
  · exact h x hx
  · exact hr

theorem entry_var (W : World) (ids : List Name) (s : Span) (n : Name) (h : n ∈ ids) :
    Entry W ids (asDef (.var s n)) := .inr ⟨_, rfl, .inl ⟨s, n, .inl rfl, h⟩⟩

theorem checkPat_entries (W : World) (ids : List Name) (p : Pat) (st : St)
    (h : AllEntries W ids st.buf) (hp : ∀ n ∈ p.map (·.2), n ∈ ids) :
    AllEntries W ids (checkPat p st).buf := by
  induction p generalizing st with
  | nil => exact h
  | cons x p ih =>
    obtain ⟨s, n⟩ := x
    rw [checkPat]
    apply ih
    · rw [define_buf]
      exact h.resolve s _ (entry_var W ids s n (hp n (by simp)))
    · intro m hm
      exact hp m (by rw [List.map_cons]; exact List.mem_cons_of_mem _ hm)

theorem importItems_entries (W : World) (ids : List Name) (scope : Scope) (l : List Item)
    (st : St) (h : AllEntries W ids st.buf) : AllEntries W ids (importItems W scope l st).buf := by
  induction l generalizing st with
  | nil => exact h
  | cons it l ih =>
    rw [importItems]
    apply ih
    rw [importItem]
    split
    · exact h
    · simp only
      split
      · rw [define_buf]; exact h.resolve _ _ (.inl rfl)
      · rw [define_buf]; exact (h.resolve _ _ (.inl rfl)).resolve _ _ (.inl rfl)

theorem checkImport_entries (W : World) (ex : File → LexicalScope) (ids : List Name)
    (i : Import) (st : St) (h : AllEntries W ids st.buf) :
    AllEntries W ids (checkImport W ex i st).buf := by
  have h1 : AllEntries W ids (checkSource W i.src st).2.buf := by
    cases i.src with
    | path s f => exact h.resolve _ _ (.inl rfl)
    | ident s n => exact h
  have h2 : ∀ st' : St, AllEntries W ids st'.buf → ∀ t o,
      AllEntries W ids (bindMod i.stmt ⟨none, t, none⟩ st' o).buf := by
    intro st' h' t o
    cases o with
    | none => exact h'.resolve _ _ (.inl rfl)
    | some a =>
      obtain ⟨s, n⟩ := a
      rw [bindMod]
      refine AllEntries.resolve ?_ _ _ (.inl rfl)
      rw [define_buf]
      exact h'
  rw [checkImport]
  simp only
  split
  · exact h2 _ h1 _ _
  · exact h2 _ h1 _ _
  · exact importItems_entries W ids _ _ _ (h2 _ h1 _ _)

mutual
theorem check_entries (W : World) (ex : File → LexicalScope) (ids : List Name) :
    ∀ (e : E) (st : St), (∀ n ∈ identifiers e, n ∈ ids) → AllEntries W ids st.buf →
      AllEntries W ids (check W ex e st).buf
  | .skip, _, _, h => by rw [check]; exact h
  | .ident s n m, _, _, h => by
    rw [check, resolveIdent]; exact h.resolve _ _ (.inl rfl)
  | .seq a b, st, hi, h => by
    simp only [identifiers, List.mem_append] at hi
    rw [check]
    exact check_entries W ex ids b _ (fun n hn => hi n (.inr hn))
      (check_entries W ex ids a st (fun n hn => hi n (.inl hn)) h)
  | .block b, st, hi, h => by
    rw [check, withScope_buf]
    exact check_entries W ex ids b _ hi h
  | .item b, st, hi, h => by
    rw [check, withScope_buf]
    exact check_entries W ex ids b _ hi h
  | .letPat p init, st, hi, h => by
    simp only [identifiers, List.mem_append] at hi
    rw [check]
    exact checkPat_entries W ids p _
      (check_entries W ex ids init st (fun n hn => hi n (.inl hn)) h) (fun n hn => hi n (.inr hn))
  | .closure s name ps body, st, hi, h => by
    simp only [identifiers, List.mem_append] at hi
    rw [check, define_buf, withScope_buf]
    refine check_entries W ex ids body _ (fun n hn => hi n (.inr (.inr hn))) ?_
    refine checkParams_entries W ex ids ps _ (fun n hn => hi n (.inr (.inl hn))) ?_
    rw [define_buf]
    refine AllEntries.resolve h _ _ ?_
    cases name with
    | none => exact .inr ⟨_, rfl, .inr (.inl ⟨s, rfl⟩)⟩
    | some n =>
      exact .inr ⟨_, rfl, .inl ⟨s, n, .inr rfl, hi n (.inl (by simp))⟩⟩
  | .destruct p v, st, hi, h => by
    simp only [identifiers, List.mem_append] at hi
    rw [check]
    exact check_entries W ex ids v _ (fun n hn => hi n (.inr hn))
      (checkPat_entries W ids p st h (fun n hn => hi n (.inl hn)))
  | .forIn p iter body, st, hi, h => by
    simp only [identifiers, List.mem_append] at hi
    rw [check, withScope_buf]
    exact check_entries W ex ids body _ (fun n hn => hi n (.inr (.inr hn)))
      (check_entries W ex ids iter _ (fun n hn => hi n (.inr (.inl hn)))
        (checkPat_entries W ids p _ h (fun n hn => hi n (.inl hn))))
  | .ctx b, st, hi, h => by
    rw [check]
    exact check_entries W ex ids b _ hi h
  | .imp i, st, _, h => by
    rw [check]
    exact checkImport_entries W ex ids i st h

theorem checkParams_entries (W : World) (ex : File → LexicalScope) (ids : List Name) :
    ∀ (ps : Ps) (st : St), (∀ n ∈ identifiersParams ps, n ∈ ids) → AllEntries W ids st.buf →
      AllEntries W ids (checkParams W ex ps st).buf
  | .nil, _, _, h => by rw [checkParams]; exact h
  | .pos p rest, st, hi, h => by
    simp only [identifiersParams, List.mem_append] at hi
    rw [checkParams]
    exact checkParams_entries W ex ids rest _ (fun n hn => hi n (.inr hn))
      (checkPat_entries W ids p st h (fun n hn => hi n (.inl hn)))
  | .named s n d rest, st, hi, h => by
    simp only [identifiersParams, List.mem_cons, List.mem_append] at hi
    rw [checkParams]
    refine checkParams_entries W ex ids rest _ (fun n hn => hi n (.inr (.inr hn))) ?_
    rw [define_buf]
    exact (check_entries W ex ids d st (fun n hn => hi n (.inr (.inl hn))) h).resolve _ _
      (entry_var W ids s n (hi n (.inl rfl)))
  | .sink s n rest, st, hi, h => by
    simp only [identifiersParams, List.mem_cons] at hi
    rw [checkParams]
    refine checkParams_entries W ex ids rest _ (fun n hn => hi n (.inr hn)) ?_
    rw [define_buf]
    refine AllEntries.resolve ?_ _ _ (entry_var W ids s n (hi n (.inl rfl)))
    rw [resolveIdent]
    exact h.resolve _ _ (.inl rfl)
  | .noSink s rest, st, hi, h => by
    simp only [identifiersParams] at hi
    rw [checkParams]
    refine checkParams_entries W ex ids rest _ hi ?_
    rw [define_buf]
    exact h.resolve _ _ (.inr ⟨_, rfl, .inr (.inr ⟨s, rfl⟩)⟩)
end

theorem table_entries (W : World) (files : List E) (k : File) (e : E) (he : files[k]? = some e) :
    AllEntries W (identifiers e) (tableOf W files k) := by
  rw [tableOf, he]
  exact check_entries W _ _ e St.init (fun _ h => h) (by intro x hx; cases hx)

/-! ## The references in one file -/

theorem lookupLast_some {α : Type} (l : List (Span × α)) (s : Span) (a : α)
    (h : lookupLast s l = some a) : (s, a) ∈ l := by
  induction l with
  | nil => cases h
  | cons y l ih =>
    obtain ⟨t, d⟩ := y
    rw [lookupLast] at h
    cases hl : lookupLast s l with
    | some e =>
      rw [hl] at h
      cases h
      exact List.mem_cons_of_mem _ (ih hl)
    | none =>
      rw [hl] at h
      simp only at h
      split at h
      · rename_i ht; cases h; rw [ht]; exact List.mem_cons_self
      · cases h

theorem mem_refsIn (d : Decl) (t : List (Span × RefExpr)) (s : Span) :
    s ∈ refsIn d t ↔ ∃ r, lookupLast s t = some r ∧ isRefOf d r = true := by
  induction t with
  | nil => simp [refsIn, lookupLast]
  | cons x t ih =>
    obtain ⟨s', r'⟩ := x
    rw [refsIn, lookupLast]
    by_cases hs : s' = s
    · subst hs
      cases hl : lookupLast s' t with
      | none =>
        rw [hl] at ih
        have hno : s' ∉ refsIn d t := by
          rw [ih]; rintro ⟨r, h, -⟩; cases h
        by_cases hr : isRefOf d r' = true
        · simp [hr]
        · simp [hr, hno]
      | some r =>
        rw [hl] at ih
        simp only [Option.isNone_some, Bool.false_and, Bool.false_eq_true, if_false]
        exact ih
    · have hmem : s ∈ (if (lookupLast s' t).isNone && isRefOf d r' then s' :: refsIn d t
          else refsIn d t) ↔ s ∈ refsIn d t := by
        split
        · rw [List.mem_cons]
          exact ⟨fun h => h.resolve_left (fun h => hs h.symm), .inr⟩
        · rfl
      rw [hmem, ih]
      cases lookupLast s t with
      | none => simp [hs]
      | some r => simp

theorem nodup_refsIn (d : Decl) (t : List (Span × RefExpr)) : (refsIn d t).Nodup := by
  induction t with
  | nil => exact List.nodup_nil
  | cons x t ih =>
    obtain ⟨s', r'⟩ := x
    rw [refsIn]
    split
    · rename_i h
      rw [Bool.and_eq_true] at h
      refine List.nodup_cons.mpr ⟨?_, ih⟩
      rw [mem_refsIn]
      rintro ⟨r, hr, -⟩
      rw [hr] at h
      cases h.1
    · exact ih

/-- A place is a reference in its file exactly if it leads to the definition. -/
theorem refsIn_iff (W : World) (files : List E) (k : File) (d : Decl) (s : Span) :
    s ∈ refsIn d (tableOf W files k) ↔ definition W files k s = some (.decl d) := by
  rw [mem_refsIn, definition]
  cases hl : lookupLast s (tableOf W files k) with
  | none => simp
  | some r =>
    have hiff : isRefOf d r = true ↔ ofRef r = some (.decl d) := by
      have hm := lookupLast_some _ _ _ hl
      have hent : ∃ e, files[k]? = some e := by
        cases he : files[k]? with
        | none => rw [tableOf, he] at hm; cases hm
        | some e => exact ⟨e, rfl⟩
      obtain ⟨e, he⟩ := hent
      have := table_entries W files k e he _ hm
      rw [isRefOf, Bool.or_eq_true, beq_iff_eq, beq_iff_eq]
      rcases this with h | ⟨d', h, -⟩
      · simp only at h
        rw [h]
        obtain ⟨x, y, z⟩ := r
        cases y with
        | none => cases z <;> simp [ofRef]
        | some t => cases t <;> simp [ofRef]
      · simp only at h
        subst h
        simp [asDef, ofRef]
    constructor
    · rintro ⟨r', h, hr⟩
      cases h
      exact hiff.mp hr
    · intro h
      exact ⟨r, rfl, hiff.mpr h⟩

/-! ## The search -/

theorem length_le_of_subset {l l' : List Nat} (h : l.Nodup) (hs : l ⊆ l') :
    l.length ≤ l'.length := by
  induction l generalizing l' with
  | nil => exact Nat.zero_le _
  | cons a l ih =>
    rw [List.nodup_cons] at h
    have ha : a ∈ l' := hs (by simp)
    have := ih h.2 (l' := l'.erase a) (by
      intro b hb
      refine (List.mem_erase_of_ne ?_).mpr (hs (by simp [hb]))
      rintro rfl
      exact h.1 hb)
    rw [List.length_erase_of_mem ha] at this
    have := List.length_pos_of_mem ha
    rw [List.length_cons]
    omega

def Search.Ok (n : Nat) (st : Search) : Prop :=
  st.searched.Nodup ∧ st.worklist.Nodup ∧ (∀ k ∈ st.worklist, k ∈ st.searched) ∧
    ∀ k ∈ st.searched, k < n

theorem push_ok (n : Nat) (st : Search) (k : File) (hk : k < n) (h : st.Ok n) :
    (st.push k).Ok n ∧ (st.push k).out = st.out ∧ k ∈ (st.push k).searched ∧
      (∀ j ∈ st.searched, j ∈ (st.push k).searched) ∧
      (∀ j, j ∈ (st.push k).searched → j ∉ (st.push k).worklist →
        j ∈ st.searched ∧ j ∉ st.worklist) ∧
      (st.push k).worklist.length + st.searched.length =
        st.worklist.length + (st.push k).searched.length := by
  obtain ⟨h1, h2, h3, h4⟩ := h
  rw [Search.push]
  split
  · rename_i hc
    exact ⟨⟨h1, h2, h3, h4⟩, rfl, by simpa using hc, fun _ h => h, fun j a b => ⟨a, b⟩, rfl⟩
  · rename_i hc
    have hc : k ∉ st.searched := by simpa using hc
    refine ⟨⟨?_, ?_, ?_, ?_⟩, rfl, by simp, fun j hj => by simp [hj], ?_, by simp; omega⟩
    · rw [List.nodup_append]
      refine ⟨h1, by simp, ?_⟩
      rintro a ha b hb rfl
      rw [List.mem_singleton] at hb
      subst hb; exact hc ha
    · rw [List.nodup_append]
      refine ⟨h2, by simp, ?_⟩
      rintro a ha b hb rfl
      rw [List.mem_singleton] at hb
      subst hb; exact hc (h3 _ ha)
    · intro j hj
      simp only [List.mem_append, List.mem_singleton] at hj ⊢
      exact hj.imp (h3 j) id
    · intro j hj
      simp only [List.mem_append, List.mem_singleton] at hj
      rcases hj with hj | rfl
      · exact h4 j hj
      · exact hk
    · intro j hj hw
      simp only [List.mem_append, List.mem_singleton, not_or] at hj hw
      exact ⟨hj.resolve_right hw.2, hw.1⟩

theorem pushAll_ok (n : Nat) (l : List File) (st : Search) (hl : ∀ k ∈ l, k < n)
    (h : st.Ok n) :
    (st.pushAll l).Ok n ∧ (st.pushAll l).out = st.out ∧ (∀ k ∈ l, k ∈ (st.pushAll l).searched) ∧
      (∀ j ∈ st.searched, j ∈ (st.pushAll l).searched) ∧
      (∀ j, j ∈ (st.pushAll l).searched → j ∉ (st.pushAll l).worklist →
        j ∈ st.searched ∧ j ∉ st.worklist) ∧
      (st.pushAll l).worklist.length + st.searched.length =
        st.worklist.length + (st.pushAll l).searched.length := by
  induction l generalizing st with
  | nil => exact ⟨h, rfl, (fun _ h => by cases h), fun _ h => h, fun j a b => ⟨a, b⟩, rfl⟩
  | cons k l ih =>
    obtain ⟨a1, a2, a3, a4, a5, a6⟩ := push_ok n st k (hl k (by simp)) h
    obtain ⟨b1, b2, b3, b4, b5, b6⟩ := ih (st.push k) (fun j hj => hl j (by simp [hj])) a1
    rw [Search.pushAll]
    refine ⟨b1, b2.trans a2, ?_, fun j hj => b4 j (a4 j hj), fun j hj hw => ?_, by omega⟩
    · intro j hj
      rw [List.mem_cons] at hj
      rcases hj with rfl | hj
      · exact b4 _ a3
      · exact b3 j hj
    · obtain ⟨c1, c2⟩ := b5 j hj hw
      exact a5 j c1 c2

theorem mem_dependents (files : List E) (k j : File) :
    j ∈ dependents files k ↔ ∃ e, files[j]? = some e ∧ k ∈ importsOf e := by
  rw [dependents, List.mem_filter, List.mem_range]
  constructor
  · rintro ⟨hj, h⟩
    cases he : files[j]? with
    | none => rw [he] at h; cases h
    | some e => rw [he] at h; exact ⟨e, rfl, by simpa using h⟩
  · rintro ⟨e, he, hk⟩
    obtain ⟨hj, -⟩ := List.getElem?_eq_some_iff.mp he
    refine ⟨hj, ?_⟩
    rw [he]
    simpa using hk

/-- What visiting a file contributes. -/
def Contributes (W : World) (files : List E) (d : Decl) (k : File) (e : E) (st : Search) :
    Prop :=
  indexed W d e = true →
    (∀ s ∈ refsIn d (tableOf W files k), (k, s) ∈ st.out) ∧
    (isExported W (exportsOf (exportsAll W files) k) d = true →
      ∀ j ∈ dependents files k, j ∈ st.searched)

theorem visit_ok (W : World) (files : List E) (d : Decl) (k : File) (st : Search)
    (h : st.Ok files.length) :
    (visit W files d k st).Ok files.length ∧
      (∀ x ∈ st.out, x ∈ (visit W files d k st).out) ∧
      (∀ x ∈ (visit W files d k st).out, x ∈ st.out ∨
        (x.1 = k ∧ x.2 ∈ refsIn d (tableOf W files k))) ∧
      (∀ j ∈ st.searched, j ∈ (visit W files d k st).searched) ∧
      (∀ j, j ∈ (visit W files d k st).searched → j ∉ (visit W files d k st).worklist →
        j ∈ st.searched ∧ j ∉ st.worklist) ∧
      (visit W files d k st).worklist.length + st.searched.length =
        st.worklist.length + (visit W files d k st).searched.length ∧
      (∀ e, files[k]? = some e → Contributes W files d k e (visit W files d k st)) := by
  have hmem : ∀ x : File × Span,
      x ∈ (refsIn d (tableOf W files k)).map (fun s => (k, s)) →
        x.1 = k ∧ x.2 ∈ refsIn d (tableOf W files k) := by
    intro x hx
    obtain ⟨s, hs, rfl⟩ := List.mem_map.mp hx
    exact ⟨rfl, hs⟩
  rw [visit]
  cases he : files[k]? with
  | none =>
    exact ⟨h, fun _ h => h, fun _ h => .inl h, fun _ h => h, fun j a b => ⟨a, b⟩, rfl,
      fun e he' => by cases he'⟩
  | some e =>
    simp only
    by_cases hi : indexed W d e = true
    · rw [if_pos hi]
      have hst : Search.Ok files.length
        { st with out := st.out ++ (refsIn d (tableOf W files k)).map (fun s => (k, s)) } := h
      by_cases hx : isExported W (exportsOf (exportsAll W files) k) d = true
      · rw [if_pos hx]
        obtain ⟨a1, a2, a3, a4, a5, a6⟩ := pushAll_ok files.length (dependents files k) _ (by
          intro j hj
          rw [dependents, List.mem_filter, List.mem_range] at hj
          exact hj.1) hst
        refine ⟨a1, ?_, ?_, a4, a5, a6, ?_⟩
        · intro x hx
          rw [a2]
          exact List.mem_append_left _ hx
        · intro x hx
          rw [a2] at hx
          rcases List.mem_append.mp hx with hx | hx
          · exact .inl hx
          · exact .inr (hmem x hx)
        · intro e' he' _
          refine ⟨fun s hs => ?_, fun _ => a3⟩
          rw [a2]
          exact List.mem_append_right _ (List.mem_map.mpr ⟨s, hs, rfl⟩)
      · rw [if_neg hx]
        refine ⟨hst, fun x hx => List.mem_append_left _ hx, ?_, fun _ h => h,
          fun j a b => ⟨a, b⟩, rfl, ?_⟩
        · intro x hx
          rcases List.mem_append.mp hx with hx | hx
          · exact .inl hx
          · exact .inr (hmem x hx)
        · intro e' he' _
          exact ⟨fun s hs => List.mem_append_right _ (List.mem_map.mpr ⟨s, hs, rfl⟩),
            fun h => absurd h hx⟩
    · rw [if_neg hi]
      refine ⟨h, fun _ h => h, fun _ h => .inl h, fun _ h => h, fun j a b => ⟨a, b⟩, rfl, ?_⟩
      intro e' he' hi'
      cases he'
      exact absurd hi' hi

/-- The state of the search: what has been visited has contributed. -/
def Search.Inv (W : World) (files : List E) (home : File) (d : Decl) (st : Search) : Prop :=
  st.Ok files.length ∧
    (∀ x ∈ st.out, x.2 ∈ refsIn d (tableOf W files x.1)) ∧
    ∀ k, (k = home ∨ (k ∈ st.searched ∧ k ∉ st.worklist)) →
      ∀ e, files[k]? = some e → Contributes W files d k e st

theorem Contributes.mono {W : World} {files : List E} {d : Decl} {k : File} {e : E}
    {st st' : Search} (h : Contributes W files d k e st) (ho : ∀ x ∈ st.out, x ∈ st'.out)
    (hs : ∀ j ∈ st.searched, j ∈ st'.searched) : Contributes W files d k e st' := by
  intro hi
  obtain ⟨h1, h2⟩ := h hi
  exact ⟨fun s h => ho _ (h1 s h), fun hx j hj => hs j (h2 hx j hj)⟩

theorem loop_inv (W : World) (files : List E) (home : File) (d : Decl) (fuel : Nat)
    (st : Search) (h : st.Inv W files home d)
    (hf : st.worklist.length + (files.length - st.searched.length) ≤ fuel) :
    (searchLoop W files d fuel st).Inv W files home d ∧
      (searchLoop W files d fuel st).worklist = [] := by
  induction fuel generalizing st with
  | zero =>
    rw [searchLoop]
    exact ⟨h, List.eq_nil_of_length_eq_zero (by omega)⟩
  | succ fuel ih =>
    rw [searchLoop]
    cases hl : st.worklist.getLast? with
    | none =>
      exact ⟨h, List.getLast?_eq_none_iff.mp hl⟩
    | some k =>
      simp only
      obtain ⟨⟨h1, h2, h3, h4⟩, h5, h6⟩ := h
      obtain ⟨l, hl'⟩ := List.getLast?_eq_some_iff.mp hl
      have hdl : st.worklist.dropLast = l := by rw [hl', List.dropLast_concat]
      rw [hdl]
      rw [hl'] at h2
      have hnd := List.nodup_append.mp h2
      have hkl : k ∉ l := fun hk => hnd.2.2 k hk k (by simp) rfl
      have hok : Search.Ok files.length { st with worklist := l } :=
        ⟨h1, hnd.1, fun j hj => h3 j (by rw [hl']; exact List.mem_append_left _ hj), h4⟩
      obtain ⟨a1, a2, a3, a4, a5, a6, a7⟩ := visit_ok W files d k _ hok
      refine ih _ ⟨a1, ?_, ?_⟩ ?_
      · intro x hx
        rcases a3 x hx with hx | ⟨rfl, hx⟩
        · exact h5 x hx
        · exact hx
      · intro j hj e he
        by_cases hjk : j = k
        · subst hjk; exact a7 e he
        · have hj' : j = home ∨ (j ∈ st.searched ∧ j ∉ st.worklist) := by
            rcases hj with hj | ⟨hj, hw⟩
            · exact .inl hj
            · obtain ⟨c1, c2⟩ := a5 j hj hw
              refine .inr ⟨c1, ?_⟩
              rw [hl']
              intro hm
              rcases List.mem_append.mp hm with hm | hm
              · exact c2 hm
              · exact hjk (List.mem_singleton.mp hm)
          exact (h6 j hj' e he).mono a2 a4
      · have hlen : ∀ (s : Search), s.Ok files.length → s.searched.length ≤ files.length := by
          intro s hs
          have := hs.1
          have hsub : s.searched ⊆ List.range files.length :=
            fun j hj => List.mem_range.mpr (hs.2.2.2 j hj)
          have := length_le_of_subset hs.1 hsub
          rwa [List.length_range] at this
        have e1 := hlen _ a1
        have e2 := hlen _ hok
        have e3 : st.worklist.length = l.length + 1 := by rw [hl']; simp
        simp only at a6 e2
        omega

theorem search_inv (W : World) (files : List E) (home : File) (d : Decl) :
    (search W files home d).Inv W files home d ∧ (search W files home d).worklist = [] := by
  have h0 : Search.Ok files.length ⟨[], [], []⟩ :=
    ⟨List.nodup_nil, List.nodup_nil, fun k hk => (by cases hk), fun k hk => (by cases hk)⟩
  obtain ⟨a1, a2, a3, a4, a5, a6, a7⟩ := visit_ok W files d home _ h0
  have hinv : (visit W files d home ⟨[], [], []⟩).Inv W files home d := by
    refine ⟨a1, ?_, ?_⟩
    · intro x hx
      rcases a3 x hx with hx | ⟨rfl, hx⟩
      · cases hx
      · exact hx
    · intro k hk e he
      rcases hk with rfl | ⟨hk, hw⟩
      · exact a7 e he
      · exact absurd (a5 k hk hw).1 (by simp)
  refine loop_inv W files home d _ _ hinv ?_
  have hsub : (visit W files d home ⟨[], [], []⟩).searched ⊆ List.range files.length :=
    fun j hj => List.mem_range.mpr (a1.2.2.2 j hj)
  have := length_le_of_subset a1.1 hsub
  rw [List.length_range] at this
  simp only [List.length_nil, Nat.add_zero, Nat.zero_add] at a6
  omega

end Tinymist.Scoping
