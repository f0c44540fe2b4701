import Verif.Spec.Config

/-!
# Lemmas about the settings -/

namespace Tinymist.Config

open Tinymist.Paths

/-! ## Decoders -/

theorem bool_iff (v : Json) (a : Bool) : IsBool v a ↔ asBool v = some a := by
  constructor
  · rintro ⟨⟩; rfl
  · intro h
    cases v <;> simp [asBool] at h
    subst h; exact .mk _

theorem optBool_iff (v : Json) (a : Option Bool) : IsOptBool v a ↔ asOptBool v = some a := by
  constructor
  · intro h; cases h <;> rfl
  · intro h
    cases v <;> simp [asOptBool] at h
    · subst h; exact .nothing
    · subst h; exact .mk _

theorem optStr_iff (v : Json) (a : Option String) : IsOptStr v a ↔ asOptStr v = some a := by
  constructor
  · intro h; cases h <;> rfl
  · intro h
    cases v <;> simp [asOptStr] at h
    · subst h; exact .nothing
    · subst h; exact .mk _

theorem optNum_iff (v : Json) (a : Option Nat) : IsOptNum v a ↔ asOptU32 v = some a := by
  constructor
  · intro h
    cases h with
    | nothing => rfl
    | mk n h =>
      simp only [asOptU32]
      rw [if_pos (by omega)]
      simp
  · intro h
    cases v with
    | null => simp [asOptU32] at h; subst h; exact .nothing
    | num n =>
      simp only [asOptU32] at h
      split at h
      · rename_i hn
        cases h
        have : Json.num n = Json.num (n.toNat : Int) := by rw [Int.toNat_of_nonneg hn.1]
        rw [this]
        exact .mk _ (by omega)
      · cases h
    | bool _ => simp [asOptU32] at h
    | str _ => simp [asOptU32] at h
    | arr _ => simp [asOptU32] at h
    | obj _ => simp [asOptU32] at h

theorem asStr_iff (v : Json) (s : String) : v.asStr = some s ↔ v = .str s := by
  cases v <;> simp [Json.asStr]

theorem mapM_asStr (xs : List Json) (ps : List String) : xs.mapM Json.asStr = some ps ↔ xs = ps.map .str := by
  induction xs generalizing ps with
  | nil => cases ps <;> simp
  | cons x xs ih =>
    simp only [List.mapM_cons]
    cases hx : x.asStr with
    | none =>
      simp only [Option.bind_eq_bind, Option.bind_none, reduceCtorEq, false_iff]
      intro h
      cases ps with
      | nil => cases h
      | cons p ps =>
        simp only [List.map_cons, List.cons.injEq] at h
        rw [h.1] at hx
        simp [Json.asStr] at hx
    | some s =>
      rw [asStr_iff] at hx
      subst hx
      cases hs : xs.mapM Json.asStr with
      | none =>
        simp only [Option.bind_eq_bind, Option.bind_some, Option.bind_none, reduceCtorEq, false_iff]
        intro h
        cases ps with
        | nil => cases h
        | cons p ps =>
          simp only [List.map_cons, List.cons.injEq] at h
          rw [(ih ps).mpr h.2] at hs
          cases hs
      | some qs =>
        have hq := (ih qs).mp hs
        subst hq
        simp only [Option.bind_eq_bind, Option.bind_some, Option.pure_def, Option.some.injEq]
        cases ps with
        | nil => simp
        | cons p ps =>
          simp only [List.map_cons, List.cons.injEq, Json.str.injEq]
          refine and_congr_right fun _ => ⟨fun h => by rw [h], fun h => ?_⟩
          exact (List.map_inj_right (by simp)).mp h

theorem strings_iff (v : Json) (ps : List String) : asStrings v = some ps ↔ v = .arr (ps.map .str) := by
  cases v <;> simp [asStrings, mapM_asStr]

theorem paths_iff (v : Json) (a : List Text) : IsPaths v a ↔ asPaths v = some a := by
  constructor
  · intro h
    cases h with
    | mk ps => simp [asPaths, (strings_iff (.arr (ps.map .str)) ps).mpr rfl]
  · intro h
    simp only [asPaths, Option.map_eq_some_iff] at h
    obtain ⟨ps, h, rfl⟩ := h
    rw [strings_iff] at h
    subst h
    exact .mk _

theorem args_iff (v : Json) (a : Option (List String)) : IsArgs v a ↔ asOptStrings v = some a := by
  constructor
  · intro h
    cases h with
    | nothing => rfl
    | mk ps => simp [asOptStrings, (strings_iff (.arr (ps.map .str)) ps).mpr rfl]
  · intro h
    unfold asOptStrings at h
    split at h
    · cases h; exact .nothing
    · simp only [Option.map_eq_some_iff] at h
      obtain ⟨ps, h, rfl⟩ := h
      rw [strings_iff] at h
      subst h
      exact .mk _

/-! ## Assigning -/

theorem assign_means (m : Map) (key : String) (R : Json → α → Prop) (dec : Json → Option α) (dflt : α)
    (hr : ∀ v a, R v a ↔ dec v = some a) : Means m key R dflt (assign m key dec dflt).1 := by
  unfold assign
  cases hl : m.lookup key with
  | none => exact .unset (fun v h => by rw [hl] at h; cases h)
  | some v =>
    cases hd : dec v with
    | some a => simp only [hd]; exact .given v a hl ((hr v a).mpr hd)
    | none =>
      simp only [hd]
      refine .unset fun w hw a ha => ?_
      rw [hl] at hw
      cases hw
      rw [(hr v a).mp ha] at hd
      cases hd

theorem assign_decoded (m : Map) (key : String) (dec : Json → Option α) (dflt : α) :
    Means m key (Decoded dec) dflt (assign m key dec dflt).1 :=
  assign_means m key _ dec dflt fun _ _ => Iff.rfl

theorem assign_warns (m : Map) (key : String) (dec : Json → Option α) (dflt : α) (k : String) :
    k ∈ (assign m key dec dflt).2 ↔ k = key ∧ ∃ v, m.lookup key = some v ∧ v ≠ .null ∧ dec v = none := by
  unfold assign
  cases hl : m.lookup key with
  | none => simp
  | some v =>
    cases hd : dec v with
    | some a => simp [hd]
    | none =>
      have hn : v.isNull = true ↔ v = .null := by cases v <;> simp [Json.isNull]
      by_cases h : v.isNull = true
      · simp only [hd, h, if_true]
        simp only [List.not_mem_nil, Option.some.injEq, false_iff, not_and, not_exists]
        rintro _ w rfl hw
        exact absurd (hn.mp h) hw
      · simp only [hd, if_neg h]
        simp only [List.mem_singleton, Option.some.injEq]
        constructor
        · rintro rfl; exact ⟨rfl, v, rfl, fun e => h (hn.mpr e), hd⟩
        · rintro ⟨rfl, _⟩; rfl

theorem extra_means (σ : Serde) (m : Map) : Extra σ m (readExtra σ m).1 := by
  have key : ∀ args : Option (List String), Means m "typstExtraArgs" IsArgs none args →
      ∀ w : List String, Extra σ m
        (match σ.cli (args.getD []) with
          | some a => (a, w)
          | none => ((if args.getD [] = [] then {} else (σ.cli []).getD {} : ExtraArgs), w ++ ["typstExtraArgs"])).1 := by
    intro args hm w
    refine ⟨args, hm, ?_⟩
    cases hc : σ.cli (args.getD []) with
    | some a => exact .inl rfl
    | none =>
      refine .inr ⟨rfl, ?_⟩
      simp only
      split
      · rename_i he
        rw [he] at hc
        exact .inr ⟨hc, rfl⟩
      · rename_i he
        cases h0 : σ.cli [] with
        | some b => exact .inl ⟨he, by simp⟩
        | none => exact .inr ⟨rfl, by simp⟩
  unfold readExtra
  cases hl : m.lookup "typstExtraArgs" with
  | none => exact key none (.unset fun v h => by rw [hl] at h; cases h) []
  | some v =>
    cases hd : asOptStrings v with
    | some args =>
      simp only [Option.map_some, hd]
      exact key args (.given v args hl ((args_iff v args).mpr hd)) []
    | none =>
      simp only [Option.map_some, hd]
      refine key none (.unset fun w hw a ha => ?_) ["typstExtraArgs"]
      rw [hl] at hw
      cases hw
      rw [(args_iff v a).mp ha] at hd
      cases hd

theorem means_unique {m : Map} {key : String} {R : Json → α → Prop} {dflt a b : α}
    (hr : ∀ v a b, R v a → R v b → a = b) (ha : Means m key R dflt a) (hb : Means m key R dflt b) : a = b := by
  cases ha with
  | given v _ h r =>
    cases hb with
    | given w _ h' r' => rw [h] at h'; cases h'; exact hr _ _ _ r r'
    | unset h' => exact absurd r (h' v h a)
  | unset h =>
    cases hb with
    | given w _ h' r' => exact absurd r' (h w h' b)
    | unset _ => rfl

theorem extra_unique {σ : Serde} {m : Map} {a b : ExtraArgs} (ha : Extra σ m a) (hb : Extra σ m b) : a = b := by
  obtain ⟨x, hx, ha⟩ := ha
  obtain ⟨y, hy, hb⟩ := hb
  have : x = y := means_unique (fun v a b h h' => by
    rw [args_iff] at h h'; rw [h] at h'; cases h'; rfl) hx hy
  subst this
  rcases ha with ha | ⟨ha, h1 | h1⟩ <;> rcases hb with hb | ⟨hb, h2 | h2⟩ <;> grind

theorem root_means (σ : Serde) (m : Map) : Root σ m (readRoot m (readExtra σ m).1) := by
  unfold readRoot
  cases hl : m.lookup "rootPath" with
  | none => exact .inr ⟨(fun s h => by rw [hl] at h; cases h), _, extra_means σ m, rfl⟩
  | some v =>
    cases hs : v.asStr with
    | some s =>
      simp only [Option.bind_some, hs]
      rw [asStr_iff] at hs
      subst hs
      exact .inl ⟨s, hl, rfl⟩
    | none =>
      simp only [Option.bind_some, hs]
      refine .inr ⟨fun s h => ?_, _, extra_means σ m, rfl⟩
      rw [hl] at h
      cases h
      simp [Json.asStr] at hs

theorem root_unique {σ : Serde} {m : Map} {a b : Option Text} (ha : Root σ m a) (hb : Root σ m b) : a = b := by
  rcases ha with ⟨s, hs, rfl⟩ | ⟨hs, e, he, rfl⟩
  · rcases hb with ⟨t, ht, rfl⟩ | ⟨ht, _⟩
    · rw [hs] at ht; cases ht; rfl
    · exact absurd hs (ht s)
  · rcases hb with ⟨t, ht, rfl⟩ | ⟨_, e', he', rfl⟩
    · exact absurd ht (hs t)
    · rw [extra_unique he he']

theorem hover_means (σ : Serde) (m : Map) (theme : Option String) :
    Hover σ m theme ((readPeriscope σ m).1.map (invert theme)) := by
  have fin : ∀ q : Option Periscope, (q = none → q.map (invert theme) = none) ∧
      ∀ a, q = some a → q.map (invert theme) = some { a with
        invertColor := if a.invertColor = "auto" ∧ theme = some "dark" then "always" else a.invertColor } := by
    intro q
    refine ⟨fun h => by rw [h]; rfl, fun a h => ?_⟩
    subst h
    simp only [Option.map_some, invert]
    split <;> rfl
  refine ⟨(readPeriscope σ m).1, ?_, (fin _).1, (fin _).2⟩
  unfold readPeriscope
  cases hl : m.lookup "hoverPeriscope" with
  | none => exact .inr (.inr ⟨by simp, (fun v h => by cases h), rfl⟩)
  | some v =>
    cases v with
    | null => exact .inr (.inr ⟨by simp, (fun v h _ hn => by cases h; exact absurd rfl hn), rfl⟩)
    | str s =>
      simp only
      split
      · rename_i h; subst h; exact .inl ⟨rfl, rfl⟩
      · rename_i h
        exact .inr (.inr ⟨by simpa using h, (fun v hv hs => by cases hv; exact absurd rfl (hs s)), rfl⟩)
    | bool b =>
      simp only
      cases hp : σ.periscope (.bool b) with
      | some p => exact .inr (.inl ⟨_, p, rfl, by simp, by simp, hp, rfl⟩)
      | none => exact .inr (.inr ⟨by simp, (fun v hv _ _ => by cases hv; exact hp), rfl⟩)
    | num b =>
      simp only
      cases hp : σ.periscope (.num b) with
      | some p => exact .inr (.inl ⟨_, p, rfl, by simp, by simp, hp, rfl⟩)
      | none => exact .inr (.inr ⟨by simp, (fun v hv _ _ => by cases hv; exact hp), rfl⟩)
    | arr b =>
      simp only
      cases hp : σ.periscope (.arr b) with
      | some p => exact .inr (.inl ⟨_, p, rfl, by simp, by simp, hp, rfl⟩)
      | none => exact .inr (.inr ⟨by simp, (fun v hv _ _ => by cases hv; exact hp), rfl⟩)
    | obj b =>
      simp only
      cases hp : σ.periscope (.obj b) with
      | some p => exact .inr (.inl ⟨_, p, rfl, by simp, by simp, hp, rfl⟩)
      | none => exact .inr (.inr ⟨by simp, (fun v hv _ _ => by cases hv; exact hp), rfl⟩)

theorem status_means (m : Map) :
    (readStatus m).1 = true ↔ m.lookup "compileStatus" = some (.str "enable") := by
  unfold readStatus
  cases hl : m.lookup "compileStatus" with
  | none => simp
  | some v =>
    cases v <;> simp only [Option.bind_some, Json.asStr, Option.some.injEq, reduceCtorEq, Bool.false_eq_true,
      Json.str.injEq]
    rename_i s
    by_cases h : s = "enable"
    · subst h; simp
    · rw [if_neg h]
      split <;> simp [h]

/-- What `update_by_map` makes is what the settings say. -/
theorem update_shows (σ : Serde) (m : Map) (old : Config) : Shows σ m (updateByMap σ m old).1 where
  colorTheme := assign_means _ _ _ _ _ optStr_iff
  completion := ⟨_, assign_decoded _ _ _ _, rfl, rfl⟩
  triggerSuggest := assign_means _ _ _ _ _ bool_iff
  triggerHints := assign_means _ _ _ _ _ bool_iff
  triggerBoth := assign_means _ _ _ _ _ bool_iff
  customized := assign_means _ _ _ _ _ bool_iff
  resolution := assign_decoded _ _ _ _
  exportPdf := assign_decoded _ _ _ _
  exportTarget := assign_decoded _ _ _ _
  fontPaths := assign_means _ _ _ _ _ paths_iff
  formatterMode := assign_decoded _ _ _ _
  printWidth := assign_means _ _ _ _ _ optNum_iff
  indentSize := assign_means _ _ _ _ _ optNum_iff
  outputPath := assign_decoded _ _ _ _
  preview := assign_decoded _ _ _ _
  tokens := assign_decoded _ _ _ _
  supportHtml := assign_means _ _ _ _ _ bool_iff
  systemFonts := assign_means _ _ _ _ _ optBool_iff
  status := status_means m
  hover := hover_means σ m _
  extra := ⟨_, rfl, extra_means σ m, rfl⟩
  root := root_means σ m
  theme := rfl

theorem update_valid (σ : Serde) (m : Map) (old : Config) :
    (updateByMap σ m old).2 = true ↔ Acceptable σ m := by
  have hr := root_means σ m
  show (((readRoot m (readExtra σ m).1).map isAbsolute).getD true) = true ↔ _
  constructor
  · intro h r hr'
    have := root_unique hr hr'
    rw [this] at h
    simpa [isAbsolute] using h
  · intro h
    cases hx : readRoot m (readExtra σ m).1 with
    | none => rfl
    | some r =>
      rw [hx] at hr
      have := h r hr
      simp [isAbsolute, this]

/-- Only the settings outside of `tinymist` are looked at. -/
theorem update_congr (σ : Serde) {m m' : Map} (h : ∀ k, k ≠ "tinymist" → m.lookup k = m'.lookup k) (a b : Config) :
    updateByMap σ m a = updateByMap σ m' b := by
  simp only [updateByMap, assign, readStatus, readPeriscope, readExtra, readRoot, h, ne_eq, String.reduceEq,
    not_false_eq_true]

/-! ## Answers -/

theorem lookup_zip {ks : List String} (hn : ks.Nodup) (vs : List α) (k : String) (v : α) :
    (ks.zip vs).lookup k = some v ↔ ∃ i : Nat, ks[i]? = some k ∧ vs[i]? = some v := by
  induction ks generalizing vs with
  | nil => simp
  | cons x ks ih =>
    cases vs with
    | nil => simp
    | cons y vs =>
      rw [List.nodup_cons] at hn
      simp only [List.zip_cons_cons, List.lookup_cons]
      by_cases hk : k = x
      · subst hk
        simp only [BEq.rfl]
        constructor
        · intro h; cases h; exact ⟨0, rfl, rfl⟩
        · rintro ⟨i, h1, h2⟩
          cases i with
          | zero => simpa using h2
          | succ i =>
            simp only [List.getElem?_cons_succ] at h1
            exact absurd (List.mem_of_getElem? h1) hn.1
      · have : (k == x) = false := by simpa using hk
        simp only [this]
        rw [ih hn.2]
        constructor
        · rintro ⟨i, h1, h2⟩; exact ⟨i + 1, by simpa using h1, by simpa using h2⟩
        · rintro ⟨i, h1, h2⟩
          cases i with
          | zero => simp at h1; exact absurd h1.symm hk
          | succ i => exact ⟨i, by simpa using h1, by simpa using h2⟩

theorem pairs_get (vs : List α) (i : Nat) (a b : α) :
    (pairs vs)[i]? = some (a, b) ↔ vs[2 * i]? = some a ∧ vs[2 * i + 1]? = some b := by
  induction i generalizing vs with
  | zero =>
    match vs with
    | [] => simp [pairs]
    | [x] => simp [pairs]
    | x :: y :: vs => simp [pairs]
  | succ i ih =>
    match vs with
    | [] => simp [pairs]
    | [x] => simp [pairs]
    | x :: y :: vs =>
      rw [show 2 * (i + 1) = 2 * i + 1 + 1 by omega]
      simp only [pairs, List.getElem?_cons_succ]
      exact ih vs

theorem double_get (f : String → String) (l : List String) (i : Nat) :
    (l.flatMap fun x => [f x, x])[2 * i]? = (l[i]?).map f ∧ (l.flatMap fun x => [f x, x])[2 * i + 1]? = l[i]? := by
  induction l generalizing i with
  | nil => simp
  | cons x l ih =>
    cases i with
    | zero => simp
    | succ i =>
      rw [show 2 * (i + 1) = 2 * i + 1 + 1 by omega]
      simp only [List.flatMap_cons, List.cons_append, List.nil_append, List.getElem?_cons_succ]
      exact ih i

theorem configItems_nodup : configItems.Nodup := by decide +kernel

theorem isNull_iff (v : Json) : v.isNull = true ↔ v = .null := by cases v <;> simp [Json.isNull]

/-- The values of an answer reach the keys they were asked for. -/
theorem values_answer (vs : List Json) : Answers getItems vs (valuesToMap vs) := by
  intro k v
  unfold valuesToMap
  rw [lookup_zip configItems_nodup]
  constructor
  · rintro ⟨i, hk, hv⟩
    simp only [List.getElem?_map, Option.map_eq_some_iff] at hv
    obtain ⟨⟨a, b⟩, hp, rfl⟩ := hv
    rw [pairs_get] at hp
    refine ⟨i, a, b, ?_, ?_, hp.1, hp.2, ?_⟩
    · exact (double_get _ _ i).1.trans (by rw [hk]; rfl)
    · exact (double_get _ _ i).2.trans hk
    · simp only
      split
      · rename_i h; exact .inr ⟨(isNull_iff a).mp h, rfl⟩
      · rename_i h; exact .inl ⟨fun e => h ((isNull_iff a).mpr e), rfl⟩
  · rintro ⟨i, a, b, _, hk, ha, hb, hv⟩
    refine ⟨i, (double_get (fun item => "tinymist." ++ item) configItems i).2.symm.trans hk, ?_⟩
    rw [List.getElem?_map, (pairs_get vs i a b).mpr ⟨ha, hb⟩]
    simp only [Option.map_some, Option.some.injEq]
    rcases hv with ⟨hn, rfl⟩ | ⟨rfl, rfl⟩
    · rw [if_neg (fun e => hn ((isNull_iff v).mp e))]
    · simp [Json.isNull]

end Tinymist.Config
