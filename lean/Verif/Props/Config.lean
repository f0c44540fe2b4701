import Verif.Lemmas.Config
import Verif.Lemmas.Util

/-!
# The settings (C83, C84)

C83: what settings are in force. C84: what a running server makes of them. -/

namespace Tinymist.Config

open Tinymist.Paths

/-! ## The settings in force -/

/-- The configuration that `m` makes. -/
def fresh (σ : Serde) (m : Map) : Config := (updateByMap σ m {}).1

theorem fresh_shows (σ : Serde) (m : Map) : Shows σ m (fresh σ m) := update_shows σ m {}

theorem acceptable_congr (σ : Serde) {m m' : Map} (h : ∀ k, k ≠ "tinymist" → m.lookup k = m'.lookup k) :
    Acceptable σ m ↔ Acceptable σ m' := by
  rw [← update_valid σ m {}, ← update_valid σ m' {}, update_congr σ h]

theorem reload_config (s : Session) (v : Server) : (reload s v).config = v.config := rfl

theorem tokens_config (s : Session) (b : Bool) (v : Server) : (enableTokens s b v).config = v.config := by
  unfold enableTokens
  split
  · rfl
  · split <;> rfl

theorem formatter_config (s : Session) (b : Bool) (v : Server) : (enableFormatter s b v).config = v.config := by
  unfold enableFormatter
  split
  · rfl
  · split <;> rfl

theorem initialized_config (s : Session) (v : Server) : (initialized s v).config = v.config := by
  unfold initialized
  simp only
  split <;> split <;> simp [tokens_config, formatter_config]

theorem applyExport_config (old : Config) (v : Server) : (applyExport old v).config = v.config := by
  unfold applyExport; split <;> rfl

theorem applyStatus_config (old : Config) (v : Server) : (applyStatus old v).config = v.config := by
  unfold applyStatus; split <;> rfl

theorem applyPrimary_config (s : Session) (old : Config) (v : Server) : (applyPrimary s old v).config = v.config := by
  unfold applyPrimary; split <;> rfl

theorem applyTokens_config (s : Session) (old : Config) (v : Server) : (applyTokens s old v).config = v.config := by
  unfold applyTokens; split <;> simp [tokens_config]

theorem applyFormat_config (s : Session) (old : Config) (v : Server) : (applyFormat s old v).config = v.config := by
  unfold applyFormat; split <;> simp [formatter_config]

theorem onChanged_config (σ : Serde) (s : Session) (m : Map) (v : Server) :
    (onChanged σ s m v).config = if (updateByMap σ m v.config).2 then (updateByMap σ m v.config).1 else v.config := by
  unfold onChanged
  simp only
  split
  · simp only [applyFormat_config, applyTokens_config, applyPrimary_config, applyStatus_config, applyExport_config]
  · rfl

theorem onChanged_taken (σ : Serde) (s : Session) {m : Map} (v : Server) (h : Acceptable σ m) :
    (onChanged σ s m v).config = fresh σ m := by
  rw [onChanged_config, if_pos ((update_valid _ _ _).mpr h)]
  rfl

/-- Settings that are not accepted change nothing, neither the settings nor anything else. -/
theorem refused_changes_nothing (σ : Serde) (s : Session) {m : Map} (v : Server) (h : ¬ Acceptable σ m) :
    onChanged σ s m v = v := by
  unfold onChanged
  simp only
  rw [if_neg]
  rw [update_valid]
  exact h

theorem says_self {top : Map} (h : ∀ n, top.lookup "tinymist" ≠ some (.obj n)) : Says top top :=
  ⟨fun n hn => absurd hn (h n), fun _ _ _ => rfl⟩

theorem says_agree {top m : Map} (h : ∀ n, top.lookup "tinymist" ≠ some (.obj n)) (hs : Says top m) :
    ∀ k, k ≠ "tinymist" → m.lookup k = top.lookup k := hs.2 h

theorem answers_agree {items : List String} {vs : List Json} {m m' : Map} (h : Answers items vs m)
    (h' : Answers items vs m') (k : String) : m.lookup k = m'.lookup k := by
  cases hm : m.lookup k with
  | some v => exact ((h' k v).mpr ((h k v).mp hm)).symm
  | none =>
    cases hm' : m'.lookup k with
    | none => rfl
    | some v => rw [(h k v).mpr ((h' k v).mp hm')] at hm; cases hm

theorem update_result (σ : Serde) (top : Map) (c c' : Config) (h : update σ (.obj top) c = some (c', true)) :
    (∀ n, top.lookup "tinymist" = some (.obj n) → c' = fresh σ n) ∧
    ((∀ n, top.lookup "tinymist" ≠ some (.obj n)) → c' = fresh σ top) := by
  simp only [update] at h
  have hif : (updateByMap σ top c).2 = true := by
    cases h1 : (updateByMap σ top c).2 with
    | true => rfl
    | false =>
      rw [h1] at h
      simp only [Bool.false_eq_true, if_false, Option.some.injEq] at h
      rw [h] at h1
      exact absurd h1 (by simp)
  rw [hif] at h
  simp only [if_true] at h
  constructor
  · intro n hn
    rw [hn] at h
    simp only [Option.bind_some, Json.asObj, Option.some.injEq] at h
    rw [fresh, update_congr σ (m := n) (m' := n) (fun _ _ => rfl) {} (updateByMap σ top c).1, h]
  · intro hn
    have hz : (top.lookup "tinymist").bind Json.asObj = none := by
      cases ht : top.lookup "tinymist" with
      | none => rfl
      | some x => cases x with
        | obj n => exact absurd ht (hn n)
        | _ => rfl
    rw [hz] at h
    simp only [Option.some.injEq] at h
    rw [fresh, update_congr σ (m := top) (m' := top) (fun _ _ => rfl) {} c, h]

theorem start_result (σ : Serde) (s : Session) (init : Option Json) {v : Server} (h : start σ s init = some v) :
    (init = none ∧ v = initialized s (boot s (fresh σ []))) ∨
    ∃ j c, init = some j ∧ update σ j (fresh σ []) = some (c, true) ∧ v = initialized s (boot s c) := by
  unfold start at h
  simp only at h
  cases init with
  | none => cases h; exact .inl ⟨rfl, rfl⟩
  | some j =>
    simp only at h
    split at h
    · rename_i c hx
      cases h
      exact .inr ⟨j, c, rfl, hx, rfl⟩
    · cases h

/-- The settings of the start. -/
theorem start_config (σ : Serde) (s : Session) (init : Option Json) {v : Server} (h : start σ s init = some v)
    (hp : ∀ top, init = some (.obj top) → Plain top) {m : Map} (hb : Begins init m) : v.config = fresh σ m := by
  rcases start_result σ s init h with ⟨rfl, rfl⟩ | ⟨j, c, rfl, hu, rfl⟩
  · cases hb
    rw [initialized_config]
    rfl
  · rw [initialized_config]
    show c = _
    cases j with
    | obj top =>
      have hb : Says top m := hb
      obtain ⟨h1, h2⟩ := update_result σ top _ c hu
      by_cases hn : ∃ n, top.lookup "tinymist" = some (.obj n)
      · obtain ⟨n, hn⟩ := hn
        rw [h1 n hn]
        have ha : ∀ k, k ≠ "tinymist" → n.lookup k = m.lookup k := by
          intro k hk
          rcases hp top rfl with hq | hq
          · exact absurd hn (hq n)
          · rw [hb.1 n hn k hk, hq k hk]
            simp
        unfold fresh
        rw [update_congr σ ha]
      · have hn : ∀ n, top.lookup "tinymist" ≠ some (.obj n) := fun n e => hn ⟨n, e⟩
        rw [h2 hn]
        unfold fresh
        rw [update_congr σ fun k hk => (says_agree hn hb k hk).symm]
    | null => simp [update] at hu
    | bool _ => simp [update] at hu
    | num _ => simp [update] at hu
    | str _ => simp [update] at hu
    | arr _ => simp [update] at hu

/-- An event without settings under `tinymist`. -/
def Unspaced (e : Event) : Prop := ∀ top, e = .changed (.obj top) → ∀ n, top.lookup "tinymist" ≠ some (.obj n)

theorem step_taken (σ : Serde) (s : Session) (v : Server) {e : Event} {m : Map} (hu : Unspaced e)
    (hb : Brings getItems e m) (ha : Acceptable σ m) : (step σ s v e).config = fresh σ m := by
  cases hb with
  | changed top _ h =>
    have hag := says_agree (hu top rfl) h
    show (onChanged σ s top v).config = _
    rw [onChanged_taken σ s v ((acceptable_congr σ hag).mp ha)]
    unfold fresh
    rw [update_congr σ hag]
  | answered vs _ h =>
    have hag : ∀ k, k ≠ "tinymist" → m.lookup k = (valuesToMap vs).lookup k :=
      fun k _ => answers_agree h (values_answer vs) k
    show (onChanged σ s (valuesToMap vs) v).config = _
    rw [onChanged_taken σ s v ((acceptable_congr σ hag).mp ha)]
    unfold fresh
    rw [update_congr σ hag]

theorem step_refused (σ : Serde) (s : Session) (v : Server) {e : Event} (hu : Unspaced e)
    (hr : ∀ m, Brings getItems e m → ¬ Acceptable σ m) : (step σ s v e).config = v.config := by
  cases e with
  | changed j =>
    cases j with
    | obj top =>
      show (onChanged σ s top v).config = _
      rw [refused_changes_nothing σ s v (hr top (.changed _ _ (says_self (hu top rfl))))]
    | _ => rfl
  | answered vs =>
    cases vs with
    | none => rfl
    | some vs =>
      show (onChanged σ s (valuesToMap vs) v).config = _
      rw [refused_changes_nothing σ s v (hr _ (.answered _ _ (values_answer vs)))]

theorem run_config (σ : Serde) (s : Session) {m₀ m : Map} {evs : List Event} (h : InForce σ getItems m₀ evs m)
    (v : Server) (hv : v.config = fresh σ m₀) (hu : ∀ e ∈ evs, Unspaced e) :
    (run σ s v evs).config = fresh σ m := by
  induction h with
  | start => exact hv
  | taken evs e m m' _ b a ih =>
    rw [run, List.foldl_append]
    exact step_taken σ s _ (hu e (by simp)) b a
  | refused evs e m _ a ih =>
    rw [run, List.foldl_append]
    show (step σ s (run σ s v evs) e).config = _
    rw [step_refused σ s _ (hu e (by simp)) a]
    exact ih fun e he => hu e (by simp [he])

/-- C83: after any changes and answers, the settings are what the last accepted settings say: each setting has the given
value if that can be read, and its default otherwise, whatever was set before. Missing: the setting `lint`
(`lint_unread`), settings inside and outside of `tinymist` together (`top_level_lost`) and changes that come under
`tinymist` (`pushed_namespace_unread`). -/
theorem settings_in_force_partial (σ : Serde) (s : Session) (init : Option Json) (v : Server) (evs : List Event)
    (m₀ m : Map) (h : start σ s init = some v) (hp : ∀ top, init = some (.obj top) → Plain top)
    (hu : ∀ e ∈ evs, Unspaced e) (hb : Begins init m₀) (hf : InForce σ getItems m₀ evs m) :
    Shows σ m (run σ s v evs).config := by
  rw [run_config σ s hf v (start_config σ s init h hp hb) hu]
  exact fresh_shows σ m

/-- There always are settings in force. -/
theorem settings_exist (σ : Serde) (m₀ : Map) (evs : List Event) (hu : ∀ e ∈ evs, Unspaced e) :
    ∃ m, InForce σ getItems m₀ evs m := by
  induction evs using Util.reverseInd with
  | nil => exact ⟨_, .start⟩
  | append_singleton evs e ih =>
    obtain ⟨m, hm⟩ := ih fun e he => hu e (by simp [he])
    by_cases h : ∃ m', Brings getItems e m' ∧ Acceptable σ m'
    · obtain ⟨m', hb, ha⟩ := h
      exact ⟨m', .taken _ _ _ _ hm hb ha⟩
    · exact ⟨m, .refused _ _ _ hm fun m' hb ha => h ⟨m', hb, ha⟩⟩

/-! ## Warnings -/

theorem extra_warns (σ : Serde) {m : Map} {v : Json} (hl : m.lookup "typstExtraArgs" = some v)
    (h : ¬ ∃ a, IsArgs v a ∧ (σ.cli (a.getD [])).isSome) : "typstExtraArgs" ∈ (readExtra σ m).2 := by
  unfold readExtra
  simp only [hl, Option.map_some]
  rcases hd : asOptStrings v with _ | args
  case some =>
    simp only
    cases hc : σ.cli (args.getD []) with
    | some a => exact absurd ⟨args, (args_iff v args).mpr hd, by rw [hc]; rfl⟩ h
    | none => simp
  case none =>
    simp only
    split <;> simp

theorem status_warns {m : Map} {s : String} (hl : m.lookup "compileStatus" = some (.str s)) (h1 : s ≠ "enable")
    (h2 : s ≠ "disable") : "compileStatus" ∈ (readStatus m).2 := by
  unfold readStatus
  rw [hl]
  simp [Json.asStr, h1, h2]

theorem hover_warns (σ : Serde) {m : Map} {v : Json} (hl : m.lookup "hoverPeriscope" = some v) (hn : v ≠ .null)
    (h1 : ∀ s, v ≠ .str s) (h2 : σ.periscope v = none) : "hoverPeriscope" ∈ (readPeriscope σ m).2 := by
  unfold readPeriscope
  rw [hl]
  cases v with
  | null => exact absurd rfl hn
  | str s => exact absurd rfl (h1 s)
  | _ => simp [h2]

/-- A value that is not of the type of its setting is warned about. Missing: a `compileStatus` that is not a text and a
`rootPath` that is not a text, which are ignored without a word (`silently_ignored`). -/
theorem unreadable_warned_partial (σ : Serde) (m : Map) (old : Config) (key : String) (v : Json)
    (hl : m.lookup key = some v) (hn : v ≠ .null) (hs : key = "compileStatus" → ∃ s, v = .str s)
    (h : ¬ Readable σ key v) : key ∈ (updateByMap σ m old).1.warnings := by
  simp only [updateByMap, List.mem_append, assign_warns]
  unfold Readable at h
  split at h
  case h_19 =>
    obtain ⟨s, rfl⟩ := hs rfl
    simp only [Json.str.injEq, not_or] at h
    simp [status_warns hl h.1 h.2]
  case h_20 =>
    simp only [not_or, not_exists, Bool.not_eq_true, Option.isSome_eq_false_iff, Option.isNone_iff_eq_none] at h
    simp [hover_warns σ hl hn (fun s e => h.1 s e) h.2]
  case h_21 => simp [extra_warns σ hl h]
  all_goals first
    | exact absurd trivial h
    | (simp only [optStr_iff, bool_iff, paths_iff, optNum_iff, optBool_iff, not_exists, ← Option.eq_none_iff_forall_ne_some,
        Bool.not_eq_true, Option.isSome_eq_false_iff, Option.isNone_iff_eq_none] at h
       simp [hl, hn, h])

/-! ## What a running server makes of the settings -/

/-- The server follows its settings. -/
structure Inv (s : Session) (v : Server) : Prop where
  exports : v.exports = exportConfig v.config
  status : v.status = v.config.notifyStatus
  format : v.format = formatter v.config
  tokens : v.tokensRegistered = (s.tokensDynamic && v.config.tokens == .enable)
  formatting : v.formatterRegistered = (s.formatDynamic && formatter v.config != .disable)
  knownTokens : known .tokens v.sent = some v.tokensRegistered
  knownFormatting : known .formatting v.sent = some v.formatterRegistered

theorem known_append (cap : Cap) (l : List Msg) (msg : Msg) : known cap (l ++ [msg]) =
    match msg with
    | .register c => if c = cap then (if known cap l = some false then some true else none) else known cap l
    | .unregister c => if c = cap then (if known cap l = some true then some false else none) else known cap l
    | .askSettings _ => known cap l := by
  unfold known
  rw [List.foldl_append]
  cases msg <;> rfl

/-- What `enable_sema_token_caps` leaves. -/
theorem enableTokens_spec (s : Session) (b : Bool) (v : Server)
    (hd : s.tokensDynamic = false → v.tokensRegistered = false)
    (h1 : known .tokens v.sent = some v.tokensRegistered) :
    (enableTokens s b v).tokensRegistered = (s.tokensDynamic && b) ∧
    known .tokens (enableTokens s b v).sent = some (s.tokensDynamic && b) ∧
    known .formatting (enableTokens s b v).sent = known .formatting v.sent ∧
    (enableTokens s b v).formatterRegistered = v.formatterRegistered ∧
    (enableTokens s b v).exports = v.exports ∧ (enableTokens s b v).status = v.status ∧
    (enableTokens s b v).format = v.format ∧ (enableTokens s b v).fonts = v.fonts ∧
    (enableTokens s b v).project = v.project := by
  unfold enableTokens
  cases hs : s.tokensDynamic with
  | false => simp [hd hs, h1]
  | true =>
    simp only [Bool.not_true, Bool.false_eq_true, if_false, Bool.true_and]
    cases b <;> cases hr : v.tokensRegistered <;> simp [hr, h1, known_append]

/-- What `enable_formatter_caps` leaves. -/
theorem enableFormatter_spec (s : Session) (b : Bool) (v : Server)
    (hd : s.formatDynamic = false → v.formatterRegistered = false)
    (h1 : known .formatting v.sent = some v.formatterRegistered) :
    (enableFormatter s b v).formatterRegistered = (s.formatDynamic && b) ∧
    known .formatting (enableFormatter s b v).sent = some (s.formatDynamic && b) ∧
    known .tokens (enableFormatter s b v).sent = known .tokens v.sent ∧
    (enableFormatter s b v).tokensRegistered = v.tokensRegistered ∧
    (enableFormatter s b v).exports = v.exports ∧ (enableFormatter s b v).status = v.status ∧
    (enableFormatter s b v).format = v.format ∧ (enableFormatter s b v).fonts = v.fonts ∧
    (enableFormatter s b v).project = v.project := by
  unfold enableFormatter
  cases hs : s.formatDynamic with
  | false => simp [hd hs, h1]
  | true =>
    simp only [Bool.not_true, Bool.false_eq_true, if_false, Bool.true_and]
    cases b <;> cases hr : v.formatterRegistered <;> simp [hr, h1, known_append]

theorem formatter_disable (c : Config) : formatter c = .disable ↔ c.formatterMode = .disable := by
  unfold formatter
  simp only
  split <;> simp_all

theorem boot_inv (s : Session) (c : Config) : Inv s (initialized s (boot s c)) := by
  unfold initialized
  have t := enableTokens_spec s true (boot s c) (fun _ => rfl) rfl
  have hf : (c.formatterMode != FormatterMode.disable) = (formatter c != .disable) := by
    rw [Bool.eq_iff_iff]; simp [formatter_disable]
  have key : ∀ w : Server, w.config = c → w.exports = exportConfig c → w.status = c.notifyStatus →
      w.format = formatter c → w.tokensRegistered = (s.tokensDynamic && c.tokens == .enable) →
      w.formatterRegistered = false → known .tokens w.sent = some w.tokensRegistered →
      known .formatting w.sent = some false →
      Inv s (if s.formatDynamic && w.config.formatterMode != .disable then enableFormatter s true w else w) := by
    intro w hc he hs hfm ht hfr hkt hkf
    have f := enableFormatter_spec s true w (fun _ => hfr) (by rw [hfr]; exact hkf)
    rw [hc, hf]
    split
    · rename_i hx
      simp only [Bool.and_eq_true] at hx
      constructor
      · rw [formatter_config, hc, f.2.2.2.2.1, he]
      · rw [formatter_config, hc, f.2.2.2.2.2.1, hs]
      · rw [formatter_config, hc, f.2.2.2.2.2.2.1, hfm]
      · rw [formatter_config, hc, f.2.2.2.1, ht]
      · rw [formatter_config, hc, f.1, hx.1, hx.2]
      · rw [f.2.2.1, f.2.2.2.1, hkt]
      · rw [f.2.1, f.1]
    · rename_i hx
      exact ⟨by rw [hc, he], by rw [hc, hs], by rw [hc, hfm], by rw [hc, ht], by rw [hc, hfr]; simpa using hx, hkt,
        by rw [hkf, hfr]⟩
  simp only
  split
  · rename_i hx
    simp only [Bool.and_eq_true] at hx
    obtain ⟨t1, t2, t3, t4, t5, t6, t7, _⟩ := t
    refine key _ (tokens_config _ _ _) t5 t6 t7 ?_ t4 (by rw [t2, t1]) t3
    rw [t1, hx.1]
    exact hx.2.symm
  · rename_i hx
    refine key _ rfl rfl rfl rfl ?_ rfl rfl rfl
    simpa [boot] using hx

theorem start_inv (σ : Serde) (s : Session) (init : Option Json) {v : Server} (h : start σ s init = some v) :
    Inv s v := by
  rcases start_result σ s init h with ⟨_, rfl⟩ | ⟨_, c, _, _, rfl⟩ <;> exact boot_inv s _

theorem onChanged_inv (σ : Serde) (s : Session) (m : Map) {v : Server} (h : Inv s v) : Inv s (onChanged σ s m v) := by
  unfold onChanged
  simp only
  split
  · generalize (updateByMap σ m v.config).1 = c
    -- the exports
    let v1 := applyExport v.config { v with config := c }
    have e1 : v1.config = c ∧ v1.exports = exportConfig c ∧ v1.status = v.status ∧ v1.format = v.format ∧
        v1.tokensRegistered = v.tokensRegistered ∧ v1.formatterRegistered = v.formatterRegistered ∧ v1.sent = v.sent := by
      simp only [v1, applyExport]
      split
      · simp
      · rename_i hx
        simp only [ne_eq, Decidable.not_not] at hx
        simp [h.exports, hx]
    -- the status
    let v2 := applyStatus v.config v1
    have e2 : v2.config = c ∧ v2.exports = exportConfig c ∧ v2.status = c.notifyStatus ∧ v2.format = v.format ∧
        v2.tokensRegistered = v.tokensRegistered ∧ v2.formatterRegistered = v.formatterRegistered ∧ v2.sent = v.sent := by
      simp only [v2, applyStatus, e1.1]
      split
      · simp [e1]
      · rename_i hx
        simp only [ne_eq, Decidable.not_not] at hx
        simp [e1, h.status, hx]
    -- the projects
    let v3 := applyPrimary s v.config v2
    have e3 : v3.config = c ∧ v3.exports = exportConfig c ∧ v3.status = c.notifyStatus ∧ v3.format = v.format ∧
        v3.tokensRegistered = v.tokensRegistered ∧ v3.formatterRegistered = v.formatterRegistered ∧ v3.sent = v.sent := by
      simp only [v3, applyPrimary, e2.1]
      split
      · simp [reload, e2]
      · simp [e2]
    -- the tokens
    let v4 := applyTokens s v.config v3
    have e4 : v4.config = c ∧ v4.exports = exportConfig c ∧ v4.status = c.notifyStatus ∧ v4.format = v.format ∧
        v4.tokensRegistered = (s.tokensDynamic && c.tokens == .enable) ∧
        v4.formatterRegistered = v.formatterRegistered ∧ known .tokens v4.sent = some v4.tokensRegistered ∧
        known .formatting v4.sent = some v.formatterRegistered := by
      obtain ⟨a1, a2, a3, a4, a5, a6, a7⟩ := e3
      simp only [v4, applyTokens, a1]
      split
      · have t := enableTokens_spec s (c.tokens == .enable) v3
          (fun hd => by rw [a5, h.tokens, hd]; rfl) (by rw [a7, a5, h.knownTokens])
        obtain ⟨t1, t2, t3, t4, t5, t6, t7, _⟩ := t
        exact ⟨by rw [tokens_config, a1], by rw [t5, a2], by rw [t6, a3], by rw [t7, a4], t1, by rw [t4, a6],
          by rw [t2, t1], by rw [t3, a7, h.knownFormatting]⟩
      · rename_i hx
        simp only [ne_eq, Decidable.not_not] at hx
        exact ⟨a1, a2, a3, a4, by rw [a5, h.tokens, hx], a6, by rw [a7, a5, h.knownTokens],
          by rw [a7, h.knownFormatting]⟩
    show Inv s (applyFormat s v.config v4)
    obtain ⟨a1, a2, a3, a4, a5, a6, a7, a8⟩ := e4
    unfold applyFormat
    simp only [a1]
    split
    · have f := enableFormatter_spec s (formatter c != .disable) v4
        (fun hd => by rw [a6, h.formatting, hd]; rfl) (by rw [a8, a6])
      obtain ⟨f1, f2, f3, f4, f5, f6, _⟩ := f
      constructor <;> simp only [formatter_config, a1]
      · rw [f5, a2]
      · rw [f6, a3]
      · rw [f4, a5]
      · exact f1
      · rw [f3, f4, a7]
      · rw [f2, f1]
    · rename_i hx
      simp only [ne_eq, Decidable.not_not] at hx
      constructor
      · rw [a2, a1]
      · rw [a3, a1]
      · rw [a4, h.format, a1, hx]
      · rw [a5, a1]
      · rw [a6, h.formatting, a1, hx]
      · exact a7
      · rw [a8, a6]
  · exact h

theorem step_inv (σ : Serde) (s : Session) {v : Server} (h : Inv s v) (e : Event) : Inv s (step σ s v e) := by
  have ask : Inv s { v with sent := v.sent ++ [.askSettings getItems] } :=
    ⟨h.exports, h.status, h.format, h.tokens, h.formatting,
      by rw [known_append]; exact h.knownTokens, by rw [known_append]; exact h.knownFormatting⟩
  cases e with
  | changed j => cases j with
    | obj m => exact onChanged_inv σ s m h
    | _ => exact ask
  | answered vs => cases vs with
    | none => exact h
    | some vs => exact onChanged_inv σ s _ h

theorem run_inv (σ : Serde) (s : Session) {v : Server} (h : Inv s v) (evs : List Event) : Inv s (run σ s v evs) := by
  induction evs generalizing v with
  | nil => exact h
  | cons e evs ih => exact ih (step_inv σ s h e)

theorem exportOf (c : Config) : ExportOf c (exportConfig c) :=
  ⟨rfl, rfl, rfl, rfl, fun e he => by simp [exportConfig, he]⟩

theorem formatOf (c : Config) : FormatOf c (formatter c) := by
  unfold FormatOf formatter
  cases hm : c.formatterMode with
  | disable => exact .inl ⟨rfl, rfl⟩
  | typstyle =>
    refine .inr ⟨c.printWidth.getD 120, c.indentSize.getD 2, ?_, ?_, .inl ⟨rfl, rfl⟩⟩
    · cases c.printWidth <;> simp
    · cases c.indentSize <;> simp
  | typstfmt =>
    refine .inr ⟨c.printWidth.getD 120, c.indentSize.getD 2, ?_, ?_, .inr ⟨rfl, rfl⟩⟩
    · cases c.printWidth <;> simp
    · cases c.indentSize <;> simp

/-- C84: at every moment the exports, the status reports and the formatter are those of the settings in force, and what
the client has been told to register is what the settings ask for. -/
theorem server_follows (σ : Serde) (s : Session) (init : Option Json) (v : Server) (evs : List Event)
    (h : start σ s init = some v) :
    ExportOf (run σ s v evs).config (run σ s v evs).exports ∧
    (run σ s v evs).status = (run σ s v evs).config.notifyStatus ∧
    FormatOf (run σ s v evs).config (run σ s v evs).format ∧
    known .tokens (run σ s v evs).sent =
      some (decide (s.tokensDynamic = true ∧ (run σ s v evs).config.tokens = .enable)) ∧
    known .formatting (run σ s v evs).sent =
      some (decide (s.formatDynamic = true ∧ (run σ s v evs).config.formatterMode ≠ .disable)) := by
  have i := run_inv σ s (start_inv σ s init h) evs
  refine ⟨by rw [i.exports]; exact exportOf _, i.status, by rw [i.format]; exact formatOf _, ?_, ?_⟩
  · rw [i.knownTokens, i.tokens]
    congr 1
    rw [Bool.eq_iff_iff]; simp
  · rw [i.knownFormatting, i.formatting]
    congr 1
    rw [Bool.eq_iff_iff]; simp [formatter_disable]

/-! ## Fonts -/

theorem fontsOf (s : Session) (c : Config) : FontsOf s c (fontOpts s c) where
  system := fun b hb => by simp [fontOpts, hb]
  systemExtra := fun e h1 h2 => by simp [fontOpts, h1, h2]
  paths := by
    refine ⟨givenPaths s c, fun h => if_pos h, fun e h1 h2 => by simp [givenPaths, h1, h2], by simp [fontOpts], ?_⟩
    intro i p q hp hq
    simp only [fontOpts, List.getElem?_map, hp, Option.map_some, Option.some.injEq] at hq
    by_cases ha : p.head? = some '/'
    · have : isAbsolute p = true := by simp [isAbsolute, ha]
      rw [if_pos this] at hq
      exact .inl ⟨ha, hq.symm⟩
    · have : ¬ isAbsolute p = true := by simpa [isAbsolute] using ha
      rw [if_neg this] at hq
      refine .inr ?_
      cases hr : c.rootPath with
      | some r =>
        simp only [defaultRoot, hr] at hq
        exact .inl ⟨ha, r, .inl rfl, hq.symm⟩
      | none =>
        cases hs : s.roots with
        | nil =>
          simp only [defaultRoot, hr, hs, List.head?_nil] at hq
          exact .inr ⟨ha, rfl, rfl, hq.symm⟩
        | cons r rs =>
          simp only [defaultRoot, hr, hs, List.head?_cons] at hq
          exact .inl ⟨ha, r, .inr ⟨rfl, rfl⟩, hq.symm⟩

/-- The font paths the settings give, before relative ones are resolved. -/
def GivenPaths (c : Config) (ps : List Text) : Prop :=
  (c.fontPaths ≠ [] ∧ ps = c.fontPaths) ∨ (c.fontPaths = [] ∧ ∃ e, c.extra = some e ∧ ps = e.font.fontPaths)

/-- No default entry, or only absolute font paths. -/
def Settled (c : Config) : Prop := c.entry = none ∨ ∀ ps, GivenPaths c ps → ∀ p ∈ ps, p.head? = some '/'

theorem fontOpts_congr (s : Session) {a b : Config} (hp : primaryOpts s a = primaryOpts s b) (ha : Settled a)
    (hb : Settled b) (xa : a.extra.isSome) (xb : b.extra.isSome) : fontOpts s a = fontOpts s b := by
  simp only [primaryOpts, Prod.mk.injEq] at hp
  obtain ⟨h1, h2, h3, h4⟩ := hp
  obtain ⟨ea, xa⟩ := Option.isSome_iff_exists.mp xa
  obtain ⟨eb, xb⟩ := Option.isSome_iff_exists.mp xb
  have hf : ea.font = eb.font := by simpa [xa, xb] using h3
  by_cases habs : ∀ ps, GivenPaths a ps → ∀ p ∈ ps, p.head? = some '/'
  · -- only absolute paths
    have hx : ∀ p ∈ (if a.fontPaths ≠ [] then a.fontPaths else ea.font.fontPaths), isAbsolute p = true := by
      intro p hp
      have : p.head? = some '/' := by
        split at hp
        · rename_i hn; exact habs _ (.inl ⟨hn, rfl⟩) p hp
        · rename_i hn
          simp only [ne_eq, Decidable.not_not] at hn
          exact habs _ (.inr ⟨hn, ea, xa, rfl⟩) p hp
      simp [isAbsolute, this]
    unfold fontOpts givenPaths
    simp only [xa, xb, h1, ← h2, ← hf]
    congr 1
    refine List.map_congr_left fun p hp => ?_
    rw [if_pos (hx p hp), if_pos (hx p hp)]
  · -- no entry in either
    have e1 : a.entry = none := ha.resolve_right habs
    have e2 : b.entry = none := by
      refine hb.resolve_right fun hb => habs fun ps hps p hp => hb ps ?_ p hp
      rcases hps with ⟨hn, rfl⟩ | ⟨hn, e, he, rfl⟩
      · exact .inl ⟨h2 ▸ hn, h2⟩
      · rw [xa] at he; cases he
        exact .inr ⟨h2 ▸ hn, eb, xb, by rw [hf]⟩
    have hr : defaultRoot s a = defaultRoot s b := by
      simpa [rootOf, resolveDefault, e1, e2, defaultRoot] using h4
    unfold fontOpts givenPaths
    simp only [xa, xb, h1, h2, hf, hr]

/-- The fonts in use are those of the settings. -/
structure FontInv (s : Session) (v : Server) : Prop where
  cell : v.fonts = some (fontOpts s v.config)
  project : v.project.fonts = fontOpts s v.config
  extra : v.config.extra.isSome

theorem onChanged_fonts (σ : Serde) (s : Session) (m : Map) {v : Server} (i : Inv s v) (h : FontInv s v)
    (hs : Settled v.config) (hs' : Settled (onChanged σ s m v).config) : FontInv s (onChanged σ s m v) := by
  rw [onChanged_config] at hs'
  have hc := onChanged_config σ s m v
  by_cases hv : (updateByMap σ m v.config).2 = true
  · rw [if_pos hv] at hs' hc
    have hx : (updateByMap σ m v.config).1.extra.isSome := rfl
    revert hs' hc hx
    unfold onChanged
    simp only [hv, if_true]
    generalize (updateByMap σ m v.config).1 = c
    intro hs' hc hx
    let v2 := applyStatus v.config (applyExport v.config { v with config := c })
    have e2 : v2.config = c ∧ v2.fonts = v.fonts ∧ v2.project = v.project ∧ v2.tokensRegistered = v.tokensRegistered ∧
        v2.formatterRegistered = v.formatterRegistered ∧ v2.sent = v.sent := by
      simp only [v2, applyStatus, applyExport]
      split <;> split <;> simp
    let v3 := applyPrimary s v.config v2
    have e3 : v3.fonts = some (fontOpts s c) ∧ v3.project.fonts = fontOpts s c ∧
        v3.tokensRegistered = v.tokensRegistered ∧
        v3.formatterRegistered = v.formatterRegistered ∧ v3.sent = v.sent := by
      obtain ⟨a1, a2, a3, a4, a5, a6⟩ := e2
      simp only [v3, applyPrimary, a1]
      split
      · simp [reload, mkProject, a1, a4, a5, a6]
      · rename_i hp
        simp only [ne_eq, Decidable.not_not] at hp
        have := fontOpts_congr s hp hs hs' h.extra hx
        exact ⟨by rw [a2, h.cell, this], by rw [a3, h.project, this], a4, a5, a6⟩
    let v4 := applyTokens s v.config v3
    have e4 : v4.fonts = some (fontOpts s c) ∧ v4.project.fonts = fontOpts s c ∧
        v4.formatterRegistered = v.formatterRegistered ∧ known .formatting v4.sent = known .formatting v.sent := by
      obtain ⟨a1, a2, a3, a4, a5⟩ := e3
      have t := enableTokens_spec s (v3.config.tokens == .enable) v3
          (fun hd => by rw [a3, i.tokens, hd]; rfl) (by rw [a5, a3, i.knownTokens])
      obtain ⟨t1, t2, t3, t4, t5, t6, t7, t8, t9⟩ := t
      simp only [v4, applyTokens]
      split
      · exact ⟨by rw [t8, a1], by rw [t9, a2], by rw [t4, a4], by rw [t3, a5]⟩
      · exact ⟨a1, a2, a4, by rw [a5]⟩
    obtain ⟨a1, a2, a3, a4⟩ := e4
    have f := enableFormatter_spec s (formatter v4.config != .disable) v4
      (fun hd => by rw [a3, i.formatting, hd]; rfl) (by rw [a3, a4, i.knownFormatting])
    have goal : (applyFormat s v.config v4).fonts = some (fontOpts s c) ∧
        (applyFormat s v.config v4).project.fonts = fontOpts s c := by
      unfold applyFormat
      split
      · exact ⟨by rw [← a1]; exact f.2.2.2.2.2.2.2.1, by rw [← a2]; exact congrArg _ f.2.2.2.2.2.2.2.2⟩
      · exact ⟨a1, a2⟩
    exact ⟨by rw [hc]; exact goal.1, by rw [hc]; exact goal.2, by rw [hc]; exact hx⟩
  · have : onChanged σ s m v = v := by unfold onChanged; simp only; rw [if_neg hv]
    rw [this]; exact h

theorem initialized_fonts (s : Session) (c : Config) (hx : c.extra.isSome) : FontInv s (initialized s (boot s c)) := by
  have hb : FontInv s (boot s c) := ⟨rfl, rfl, hx⟩
  have hr : (initialized s (boot s c)).fonts = some (fontOpts s c) ∧
      (initialized s (boot s c)).project.fonts = fontOpts s c := by
    have t := enableTokens_spec s true (boot s c) (fun _ => rfl) rfl
    have f1 := enableFormatter_spec s true (boot s c) (fun _ => rfl) rfl
    have f2 := enableFormatter_spec s true (enableTokens s true (boot s c)) (fun _ => by rw [t.2.2.2.1]; rfl)
      (by rw [t.2.2.1, t.2.2.2.1]; rfl)
    unfold initialized
    simp only
    split <;> split
    · rw [f2.2.2.2.2.2.2.2.1, f2.2.2.2.2.2.2.2.2, t.2.2.2.2.2.2.2.1, t.2.2.2.2.2.2.2.2]; exact ⟨rfl, rfl⟩
    · rw [t.2.2.2.2.2.2.2.1, t.2.2.2.2.2.2.2.2]; exact ⟨rfl, rfl⟩
    · rw [f1.2.2.2.2.2.2.2.1, f1.2.2.2.2.2.2.2.2]; exact ⟨rfl, rfl⟩
    · exact ⟨rfl, rfl⟩
  exact ⟨by rw [initialized_config]; exact hr.1, by rw [initialized_config]; exact hr.2,
    by rw [initialized_config]; exact hx⟩

theorem start_fonts (σ : Serde) (s : Session) (init : Option Json) {v : Server} (h : start σ s init = some v) :
    FontInv s v := by
  rcases start_result σ s init h with ⟨_, rfl⟩ | ⟨j, c, _, hu, rfl⟩
  · exact initialized_fonts s _ rfl
  · refine initialized_fonts s c ?_
    cases j with
    | obj top =>
      obtain ⟨h1, h2⟩ := update_result σ top _ c hu
      by_cases hn : ∃ n, top.lookup "tinymist" = some (.obj n)
      · obtain ⟨n, hn⟩ := hn
        rw [h1 n hn]; rfl
      · rw [h2 fun n e => hn ⟨n, e⟩]; rfl
    | null => simp [update] at hu
    | bool _ => simp [update] at hu
    | num _ => simp [update] at hu
    | str _ => simp [update] at hu
    | arr _ => simp [update] at hu

/-- C84: the fonts the projects use are those of the settings in force, as long as the settings have no default entry or
only absolute font paths. Without this they may not be: `fonts_stale`. -/
theorem fonts_follow_partial (σ : Serde) (s : Session) (init : Option Json) (v : Server) (evs : List Event)
    (h : start σ s init = some v) (hs : ∀ k, Settled (run σ s v (evs.take k)).config) :
    FontsOf s (run σ s v evs).config (run σ s v evs).project.fonts := by
  have key : FontInv s (run σ s v evs) := by
    have hi := start_inv σ s init h
    have hf := start_fonts σ s init h
    clear h
    induction evs generalizing v with
    | nil => exact hf
    | cons e evs ih =>
      refine ih (step σ s v e) ?_ (step_inv σ s hi e) ?_
      · intro k; exact hs (k + 1)
      · have h0 : Settled v.config := hs 0
        have h1 : Settled (step σ s v e).config := by simpa [run] using hs 1
        cases e with
        | changed j => cases j with
          | obj m => exact onChanged_fonts σ s m hi hf h0 h1
          | _ => exact ⟨hf.cell, hf.project, hf.extra⟩
        | answered vs => cases vs with
          | none => exact hf
          | some vs => exact onChanged_fonts σ s _ hi hf h0 h1
  rw [key.project]
  exact fontsOf s _

/-! ## Asking for the settings -/

/-- Equal but for nothing given as a value. -/
def NullEq (x y : Option Json) : Prop := ∀ v, v ≠ .null → (x = some v ↔ y = some v)

theorem nullEq_cases {x y : Option Json} (h : NullEq x y) :
    x = y ∨ ((x = none ∨ x = some .null) ∧ (y = none ∨ y = some .null)) := by
  by_cases hx : x = none ∨ x = some .null
  · by_cases hy : y = none ∨ y = some .null
    · exact .inr ⟨hx, hy⟩
    · cases y with
      | none => exact absurd (.inl rfl) hy
      | some v => exact .inl ((h v fun e => hy (.inr (by rw [e]))).mpr rfl)
  · cases x with
    | none => exact absurd (.inl rfl) hx
    | some v => exact .inl ((h v fun e => hx (.inr (by rw [e]))).mp rfl).symm

theorem assign_nulls {m m' : Map} (key : String) (dec : Json → Option α) (dflt : α)
    (h : NullEq (m.lookup key) (m'.lookup key)) (hd : dec .null = none ∨ dec .null = some dflt) :
    assign m key dec dflt = assign m' key dec dflt := by
  have z : ∀ m : Map, (m.lookup key = none ∨ m.lookup key = some .null) → assign m key dec dflt = (dflt, []) := by
    intro m hm
    unfold assign
    rcases hm with hm | hm <;> rw [hm]
    rcases hd with hd | hd <;> simp [hd, Json.isNull]
  rcases nullEq_cases h with h | ⟨h1, h2⟩
  · unfold assign; rw [h]
  · rw [z m h1, z m' h2]

theorem update_nulls (σ : Serde) (hσ : NullUnset σ) {m m' : Map}
    (h : ∀ k, k ≠ "tinymist" → NullEq (m.lookup k) (m'.lookup k)) (a b : Config) :
    updateByMap σ m a = updateByMap σ m' b := by
  have h1 : readStatus m = readStatus m' := by
    unfold readStatus
    rcases nullEq_cases (h "compileStatus" (by simp)) with e | ⟨e1 | e1, e2 | e2⟩
    · rw [e]
    all_goals rw [e1, e2]
    all_goals rfl
  have h2 : readPeriscope σ m = readPeriscope σ m' := by
    unfold readPeriscope
    rcases nullEq_cases (h "hoverPeriscope" (by simp)) with e | ⟨e1 | e1, e2 | e2⟩
    · rw [e]
    all_goals rw [e1, e2]
  have h3 : readExtra σ m = readExtra σ m' := by
    unfold readExtra
    rcases nullEq_cases (h "typstExtraArgs" (by simp)) with e | ⟨e1 | e1, e2 | e2⟩
    · rw [e]
    all_goals rw [e1, e2]
    all_goals rfl
  have h4 : ∀ e, readRoot m e = readRoot m' e := by
    intro e
    unfold readRoot
    rcases nullEq_cases (h "rootPath" (by simp)) with e | ⟨e1 | e1, e2 | e2⟩
    · rw [e]
    all_goals rw [e1, e2]
    all_goals rfl
  unfold updateByMap
  simp only [h1, h2, h3, h4]
  rw [assign_nulls "colorTheme" asOptStr none (h _ (by simp)) (.inr rfl),
    assign_nulls "completion" σ.completion {} (h _ (by simp)) (.inl hσ.completion),
    assign_nulls "triggerSuggest" asBool false (h _ (by simp)) (.inl rfl),
    assign_nulls "triggerParameterHints" asBool false (h _ (by simp)) (.inl rfl),
    assign_nulls "triggerSuggestAndParameterHints" asBool false (h _ (by simp)) (.inl rfl),
    assign_nulls "customizedShowDocument" asBool false (h _ (by simp)) (.inl rfl),
    assign_nulls "projectResolution" σ.resolution .singleFile (h _ (by simp)) (.inl hσ.resolution),
    assign_nulls "exportPdf" σ.when .never (h _ (by simp)) (.inl hσ.when),
    assign_nulls "exportTarget" σ.target .paged (h _ (by simp)) (.inl hσ.target),
    assign_nulls "fontPaths" asPaths [] (h _ (by simp)) (.inl rfl),
    assign_nulls "formatterMode" σ.formatter .disable (h _ (by simp)) (.inl hσ.formatter),
    assign_nulls "formatterPrintWidth" asOptU32 none (h _ (by simp)) (.inr rfl),
    assign_nulls "formatterIndentSize" asOptU32 none (h _ (by simp)) (.inr rfl),
    assign_nulls "outputPath" σ.output [] (h _ (by simp)) (.inl hσ.output),
    assign_nulls "preview" σ.preview {} (h _ (by simp)) (.inl hσ.preview),
    assign_nulls "preview" σ.lint {} (h _ (by simp)) (.inl hσ.lint),
    assign_nulls "semanticTokens" σ.tokens .enable (h _ (by simp)) (.inl hσ.tokens),
    assign_nulls "supportHtmlInMarkdown" asBool false (h _ (by simp)) (.inl rfl),
    assign_nulls "systemFonts" asOptBool none (h _ (by simp)) (.inr rfl)]

theorem getItems_get {k : String} (h : k ∈ configItems) :
    ∃ i : Nat, getItems[2 * i]? = some ("tinymist." ++ k) ∧ getItems[2 * i + 1]? = some k := by
  obtain ⟨i, hi⟩ := List.getElem?_of_mem h
  exact ⟨i, (double_get _ _ i).1.trans (by rw [hi]; rfl), (double_get _ _ i).2.trans hi⟩

theorem item_of_get {k : String} {i : Nat} (h : getItems[2 * i + 1]? = some k) : k ∈ configItems :=
  List.mem_of_getElem? ((double_get (fun item => "tinymist." ++ item) configItems i).2.symm.trans h)

/-- C83: a client that is asked for its settings and answers with them gets what it would have got by starting the
server with them, if all it has set is among what the server asks for. What the server does not ask for is lost:
`poll_forgets`. -/
theorem poll_as_start_partial (σ : Serde) (hσ : NullUnset σ) (s : Session) (v : Server) (top m : Map) (vs : List Json)
    (hs : Says top m) (hh : Honest top getItems vs) (ha : Acceptable σ m)
    (hn : ∀ n, top.lookup "tinymist" = some (.obj n) → ∀ k, n.lookup k ≠ some .null)
    (hk : ∀ k, k ≠ "tinymist" → m.lookup k ≠ none → ∃ i : Nat, getItems[2 * i + 1]? = some k) :
    Shows σ m (step σ s v (.answered (some vs))).config := by
  have hag : ∀ k, k ≠ "tinymist" →
      NullEq ((valuesToMap vs).lookup k) (m.lookup k) := by
    intro k hkt w hw
    rw [values_answer vs k w]
    constructor
    · rintro ⟨i, a, b, h1, h2, h3, h4, hc⟩
      obtain ⟨g1, g2, g3⟩ := hh.2 i k h1 h2
      by_cases hx : ∃ n, top.lookup "tinymist" = some (.obj n)
      · obtain ⟨n, hx⟩ := hx
        rw [hs.1 n hx k hkt]
        rw [g1 n hx] at h3
        rw [g3] at h4
        simp only [Option.some.injEq] at h3 h4
        rcases hc with ⟨hc, rfl⟩ | ⟨rfl, rfl⟩
        · cases hq : n.lookup k with
          | none => rw [hq] at h3; exact absurd h3.symm hc
          | some y => rw [hq] at h3; simp at h3; simp [h3]
        · cases hq : n.lookup k with
          | some y =>
            rw [hq] at h3
            simp at h3
            subst h3
            exact absurd hq (hn n hx k)
          | none =>
            cases ht : top.lookup k with
            | none => rw [ht] at h4; exact absurd h4.symm hw
            | some y => rw [ht] at h4; simp at h4; simp [h4]
      · have hx : ∀ n, top.lookup "tinymist" ≠ some (.obj n) := fun n e => hx ⟨n, e⟩
        rw [hs.2 hx k hkt]
        rw [g2 hx] at h3
        rw [g3] at h4
        simp only [Option.some.injEq] at h3 h4
        rcases hc with ⟨hc, rfl⟩ | ⟨_, rfl⟩
        · exact absurd h3.symm hc
        · cases ht : top.lookup k with
          | none => rw [ht] at h4; exact absurd h4.symm hw
          | some y => rw [ht] at h4; simp at h4; simp [h4]
    · intro hm
      obtain ⟨_, hi⟩ := hk k hkt (by rw [hm]; simp)
      obtain ⟨i, h1, h2⟩ := getItems_get (item_of_get hi)
      obtain ⟨g1, g2, g3⟩ := hh.2 i k h1 h2
      by_cases hx : ∃ n, top.lookup "tinymist" = some (.obj n)
      · obtain ⟨n, hx⟩ := hx
        rw [hs.1 n hx k hkt] at hm
        refine ⟨i, _, _, h1, h2, g1 n hx, g3, ?_⟩
        cases hq : n.lookup k with
        | some y =>
          rw [hq] at hm
          simp at hm
          subst hm
          exact .inl ⟨hw, rfl⟩
        | none =>
          rw [hq] at hm
          simp at hm
          exact .inr ⟨rfl, by simp [hm]⟩
      · have hx : ∀ n, top.lookup "tinymist" ≠ some (.obj n) := fun n e => hx ⟨n, e⟩
        rw [hs.2 hx k hkt] at hm
        exact ⟨i, _, _, h1, h2, g2 hx, g3, .inr ⟨rfl, by simp [hm]⟩⟩
  have hac : Acceptable σ (valuesToMap vs) := by
    rw [← update_valid σ _ {}, update_nulls σ hσ hag {} {}, update_valid]
    exact ha
  show Shows σ m (onChanged σ s (valuesToMap vs) v).config
  rw [onChanged_taken σ s v hac, fresh, update_nulls σ hσ hag {} {}]
  exact fresh_shows σ m

/-! ## Cases, and what does not hold -/

/-- Decoders for the examples. -/
def demo : Serde where
  completion := fun _ => none
  resolution := fun _ => none
  when := fun v => match v with | .str "onSave" => some .onSave | .str "onType" => some .onType | _ => none
  target := fun v => match v with | .str "paged" => some .paged | .str "html" => some .html | _ => none
  formatter := fun v => match v with | .str "typstyle" => some .typstyle | .str "disable" => some .disable | _ => none
  output := fun v => match v with | .str s => some s.toList | _ => none
  preview := fun v => match v with | .obj _ => some {} | _ => none
  lint := fun v => match v with
    | .obj m => some { enabled := (m.lookup "enabled").bind asBool }
    | _ => none
  tokens := fun v => match v with | .str "disable" => some .disable | .str "enable" => some .enable | _ => none
  periscope := fun _ => none
  cli := fun args => match args with
    | [] => some {}
    | ["--input", kv] => some { inputs := [(kv, "")] }
    | [e] => some { entry := some e.toList }
    | _ => none
  theme := fun s => s

theorem demo_null : NullUnset demo := ⟨rfl, rfl, rfl, rfl, rfl, rfl, rfl, rfl, rfl⟩

/-- A client with two folders that registers dynamically. -/
def site : Session where
  roots := [['/', 'b'], ['/', 'a']]
  cliFonts := {}
  tokensDynamic := true
  formatDynamic := true
  search := fun _ => none

/-- The server without settings. -/
def idle : Server := initialized site (boot site (fresh demo []))

theorem idle_start : start demo site none = some idle := rfl

/-- A change of the formatter reaches the client and the formatter; a relative root changes nothing. -/
example :
    let v := run demo site idle [.changed (.obj [("formatterMode", .str "typstyle"), ("formatterPrintWidth", .num 80)]),
      .changed (.obj [("rootPath", .str "here")])]
    v.format = .typstyle 80 2 ∧ v.sent = [.register .tokens, .register .formatting] := by decide +kernel

/-- The setting `lint` is not looked at at all. -/
theorem lint_unread (σ : Serde) {m m' : Map} (h : ∀ k, k ≠ "lint" → m.lookup k = m'.lookup k) (c : Config) :
    updateByMap σ m c = updateByMap σ m' c := by
  simp only [updateByMap, assign, readStatus, readPeriscope, readExtra, readRoot, h, ne_eq, String.reduceEq,
    not_false_eq_true]

/-- So turning the lints off does not turn them off: the settings are read from `preview`. -/
theorem lint_ignored :
    ∃ m, ¬ ShowsLint demo m (fresh demo m) ∧ (fresh demo m).lint.effective = .onSave ∧
      ∃ v, m = [("lint", v)] ∧ (demo.lint v).map Lint.effective = some .never ∧
        (fresh demo [("preview", v)]).lint.effective = .never := by
  refine ⟨[("lint", .obj [("enabled", .bool false)])], ?_, by decide +kernel, _, rfl, by decide +kernel,
    by decide +kernel⟩
  intro h
  have e : (fresh demo [("lint", .obj [("enabled", .bool false)])]).lint = {} := by decide +kernel
  unfold ShowsLint at h
  rw [e] at h
  have hg : Means [("lint", Json.obj [("enabled", Json.bool false)])] "lint" (Decoded demo.lint) {}
      { enabled := some false } := .given _ _ rfl rfl
  have := means_unique (fun v a b h h' => by unfold Decoded at h h'; rw [h] at h'; cases h'; rfl) h hg
  cases this

/-- Settings outside of `tinymist` are lost when there are some inside: they are said but not in force. -/
theorem top_level_lost :
    ∃ top m v, Says top m ∧ m.lookup "exportPdf" = some (.str "onSave") ∧ demo.when (.str "onSave") = some .onSave ∧
      start demo site (some (.obj top)) = some v ∧ v.config.exportPdf = .never ∧ v.config.warnings = [] := by
  refine ⟨[("exportPdf", .str "onSave"), ("tinymist", .obj [("compileStatus", .str "enable")])],
    [("exportPdf", .str "onSave"), ("compileStatus", .str "enable")],
    initialized site (boot site (fresh demo [("compileStatus", .str "enable")])), ?_, rfl, rfl, rfl, by decide +kernel,
    by decide +kernel⟩
  refine ⟨fun n hn k hk => ?_, fun h => absurd rfl (h [("compileStatus", .str "enable")])⟩
  have : n = [("compileStatus", .str "enable")] := by cases hn; rfl
  subst this
  simp only [List.lookup_cons, List.lookup_nil]
  by_cases h1 : k = "exportPdf"
  · subst h1; rfl
  · by_cases h2 : k = "compileStatus"
    · subst h2; rfl
    · have e1 : (k == "exportPdf") = false := by simpa using h1
      have e2 : (k == "compileStatus") = false := by simpa using h2
      have e3 : (k == "tinymist") = false := by simpa using hk
      simp [e1, e2, e3]

/-- A change that comes under `tinymist`, as the start would take it, sets everything to its default. -/
theorem pushed_namespace_unread :
    ∃ top m, Says top m ∧ m.lookup "compileStatus" = some (.str "enable") ∧
      ((start demo site (some (.obj top))).map fun v => v.config.notifyStatus) = some true ∧
      ((start demo site (some (.obj top))).map fun v => (step demo site v (.changed (.obj top))).config.notifyStatus) =
        some false := by
  refine ⟨[("tinymist", .obj [("compileStatus", .str "enable")])], [("compileStatus", .str "enable")], ?_, rfl,
    by decide +kernel, by decide +kernel⟩
  refine ⟨fun n hn k hk => ?_, fun h => absurd rfl (h [("compileStatus", .str "enable")])⟩
  have : n = [("compileStatus", .str "enable")] := by cases hn; rfl
  subst this
  have e3 : (k == "tinymist") = false := by simpa using hk
  simp [List.lookup_cons, e3]

/-- What the server does not ask for is forgotten when it asks: here the way documents are shown. -/
theorem poll_forgets :
    ∃ top vs v, start demo site (some (.obj top)) = some v ∧ v.config.customizedShowDocument = true ∧
      Honest top getItems vs ∧ (step demo site v (.answered (some vs))).config.customizedShowDocument = false := by
  refine ⟨[("customizedShowDocument", .bool true)], getItems.map fun _ => .null,
    initialized site (boot site (fresh demo [("customizedShowDocument", .bool true)])), rfl, by decide +kernel,
    ⟨by simp, ?_⟩, by decide +kernel⟩
  intro i k h1 h2
  have hk : k ∈ configItems := item_of_get h2
  have hne : (k == "customizedShowDocument") = false := by
    have : "customizedShowDocument" ∉ configItems := by decide +kernel
    rw [beq_eq_false_iff_ne]
    rintro rfl
    exact this hk
  refine ⟨fun n hn => by simp [List.lookup_cons] at hn, fun _ => ?_, ?_⟩
  · rw [List.getElem?_map, h1]; rfl
  · rw [List.getElem?_map, h2]
    simp [List.lookup_cons, hne]

/-- A status that is not a text, and a root that is not a text, are ignored without a warning. -/
theorem silently_ignored :
    (fresh demo [("compileStatus", .bool true), ("rootPath", .num 1)]).warnings = [] ∧
    (fresh demo [("compileStatus", .bool true), ("rootPath", .num 1)]).notifyStatus = false ∧
    (fresh demo [("compileStatus", .bool true), ("rootPath", .num 1)]).rootPath = none := by decide +kernel

/-- The projects keep the target, the inputs and the theme they were made with: after a change the exports are for one
target and the project for another. -/
theorem project_stale :
    let v := run demo site idle [.changed (.obj [("exportTarget", .str "html"), ("colorTheme", .str "dark"),
      ("typstExtraArgs", .arr [.str "--input", .str "x"])])]
    v.config.exportTarget = .html ∧ v.exports.target = .html ∧ v.project.target = .paged ∧
    v.config.colorTheme = some "dark" ∧ v.project.dark = false ∧
    (v.config.extra.map (·.inputs)) = some [("x", "")] ∧ ("x", "") ∉ v.project.inputs := by decide +kernel

/-- When the root is the same as before only because of the entry, relative font paths keep the old root. -/
theorem fonts_stale :
    let v := run demo site idle [
      .changed (.obj [("rootPath", .str "/a"), ("fontPaths", .arr [.str "f"]), ("typstExtraArgs", .arr [.str "/a/x"])]),
      .changed (.obj [("fontPaths", .arr [.str "f"]), ("typstExtraArgs", .arr [.str "/a/x"])])]
    v.config.rootPath = none ∧ site.roots.head? = some "/b".toList ∧ v.project.fonts.fontPaths = ["/a/f".toList] := by
  decide +kernel

/-- A change of the fonts or the root makes the projects anew, as a start with these settings would. -/
theorem reload_is_fresh (σ : Serde) (s : Session) (m : Map) (v : Server) (i : Inv s v) (ha : Acceptable σ m)
    (h : primaryOpts s v.config ≠ primaryOpts s (fresh σ m)) :
    (onChanged σ s m v).project = (boot s (fresh σ m)).project := by
  have hv := (update_valid σ m v.config).mpr ha
  unfold onChanged
  simp only [hv, if_true]
  show (applyFormat s v.config (applyTokens s v.config (applyPrimary s v.config (applyStatus v.config
    (applyExport v.config { v with config := fresh σ m }))))).project = _
  generalize fresh σ m = c at *
  let v2 := applyStatus v.config (applyExport v.config { v with config := c })
  have e2 : v2.config = c ∧ v2.tokensRegistered = v.tokensRegistered ∧
      v2.formatterRegistered = v.formatterRegistered ∧ v2.sent = v.sent := by
    simp only [v2, applyStatus, applyExport]
    split <;> split <;> simp
  let v3 := applyPrimary s v.config v2
  have e3 : v3.project = (boot s c).project ∧ v3.tokensRegistered = v.tokensRegistered ∧
      v3.formatterRegistered = v.formatterRegistered ∧ v3.sent = v.sent := by
    obtain ⟨a1, a4, a5, a6⟩ := e2
    simp only [v3, applyPrimary, a1]
    rw [if_pos h]
    simp [reload, boot, a1, a4, a5, a6]
  let v4 := applyTokens s v.config v3
  have e4 : v4.project = (boot s c).project ∧
      v4.formatterRegistered = v.formatterRegistered ∧ known .formatting v4.sent = known .formatting v.sent := by
    obtain ⟨a1, a3, a4, a5⟩ := e3
    have t := enableTokens_spec s (v3.config.tokens == .enable) v3
        (fun hd => by rw [a3, i.tokens, hd]; rfl) (by rw [a5, a3, i.knownTokens])
    obtain ⟨t1, t2, t3, t4, t5, t6, t7, t8, t9⟩ := t
    simp only [v4, applyTokens]
    split
    · exact ⟨by rw [t9, a1], by rw [t4, a4], by rw [t3, a5]⟩
    · exact ⟨a1, a4, by rw [a5]⟩
  obtain ⟨a1, a3, a4⟩ := e4
  have f := enableFormatter_spec s (formatter v4.config != .disable) v4
    (fun hd => by rw [a3, i.formatting, hd]; rfl) (by rw [a3, a4, i.knownFormatting])
  show (applyFormat s v.config v4).project = _
  unfold applyFormat
  split
  · exact f.2.2.2.2.2.2.2.2.trans a1
  · exact a1

theorem filter_lookup {l : List (String × String)} {a k : String} (h : k ≠ a) :
    (l.filter fun e => e.1 ≠ a).lookup k = l.lookup k := by
  induction l with
  | nil => rfl
  | cons e l ih =>
    rw [List.filter_cons]
    split
    · rw [List.lookup_cons, List.lookup_cons, ih]
    · rename_i he
      have he : e.1 = a := by simpa using he
      have hk : (k == e.1) = false := by rw [he]; simpa using h
      rw [ih, List.lookup_cons, hk]

theorem projectOf (s : Session) (c : Config) : ProjectOf s c (mkProject s c (fontOpts s c)) where
  html := by simp [mkProject]
  completion := rfl
  dark := by simp [mkProject]
  unlinted := fun h => by simp [mkProject, Lint.effective, h]
  linted := fun h => ⟨fun w hw => by simp [mkProject, Lint.effective, h, hw], fun hw => by simp [mkProject, Lint.effective, h, hw]⟩
  periscope := rfl
  target := rfl
  noEntry := fun h => by simp [mkProject, resolveDefault, h]
  entry := fun e he => by
    refine ⟨fun h => ?_, fun h r hr => ?_⟩
    · simp [mkProject, resolveDefault, he, isAbsolute, h]
    · have hd : defaultRoot s c = some r := by
        rcases hr with hr | ⟨hr, hr'⟩ <;> simp [defaultRoot, *]
      have ha : isAbsolute e = false := by simpa [isAbsolute] using h
      simp [mkProject, resolveDefault, he, ha, hd]
  inputs := fun a b hi k w => by
    show (inputs c).lookup k = some w ↔ _
    rw [inputs, hi, List.foldl_cons, List.foldl_nil, insertInput, List.lookup_cons]
    by_cases hk : k = a
    · subst hk
      simp [eq_comm]
    · have hk' : (k == (a, b).1) = false := by simpa using hk
      rw [hk', filter_lookup (by simpa using hk)]
      simp only [hk, false_and, not_false_eq_true, true_and, false_or, ne_eq]
      cases c.extra with
      | none => simp
      | some e => simp
  extra := fun e he => by simp [mkProject, he]
  fonts := fontsOf s c

theorem initialized_project (s : Session) (c : Config) : (initialized s (boot s c)).project = mkProject s c (fontOpts s c) := by
  have t := enableTokens_spec s true (boot s c) (fun _ => rfl) rfl
  have f1 := enableFormatter_spec s true (boot s c) (fun _ => rfl) rfl
  have f2 := enableFormatter_spec s true (enableTokens s true (boot s c)) (fun _ => by rw [t.2.2.2.1]; rfl)
    (by rw [t.2.2.1, t.2.2.2.1]; rfl)
  unfold initialized
  simp only
  split <;> split
  · rw [f2.2.2.2.2.2.2.2.2, t.2.2.2.2.2.2.2.2]; rfl
  · rw [t.2.2.2.2.2.2.2.2]; rfl
  · rw [f1.2.2.2.2.2.2.2.2]; rfl
  · rfl

/-- C84: the project made at the start is the one that the settings ask for. -/
theorem project_at_start (σ : Serde) (s : Session) (init : Option Json) (v : Server) (h : start σ s init = some v) :
    ProjectOf s v.config v.project := by
  rcases start_result σ s init h with ⟨_, rfl⟩ | ⟨j, c, _, hu, rfl⟩
  · rw [initialized_project, initialized_config]; exact projectOf s _
  · rw [initialized_project, initialized_config]; exact projectOf s _

/-- C84: a change of the settings that changes the fonts makes the projects anew: the project is then the one that the new
settings ask for, and the one that a start with them would have made. -/
theorem font_change_restarts (σ : Serde) (s : Session) (init : Option Json) (v : Server) (evs : List Event) (m : Map)
    (h : start σ s init = some v) (ha : Acceptable σ m) (c : Config) (hc : (updateByMap σ m {}).1 = c)
    (hd : (run σ s v evs).config.systemFonts ≠ c.systemFonts ∨ (run σ s v evs).config.fontPaths ≠ c.fontPaths) :
    Shows σ m c ∧ ProjectOf s c (run σ s v (evs ++ [.changed (.obj m)])).project ∧
    (run σ s v (evs ++ [.changed (.obj m)])).project = (boot s c).project := by
  subst hc
  have key : (run σ s v (evs ++ [.changed (.obj m)])).project = (boot s (updateByMap σ m {}).1).project := by
    rw [run, List.foldl_append]
    refine reload_is_fresh σ s m (run σ s v evs) (run_inv σ s (start_inv σ s init h) evs) ha fun e => ?_
    simp only [primaryOpts, Prod.mk.injEq] at e
    rcases hd with hd | hd
    · exact hd e.1
    · exact hd e.2.1
  exact ⟨fresh_shows σ m, by rw [key]; exact projectOf s _, key⟩

end Tinymist.Config
