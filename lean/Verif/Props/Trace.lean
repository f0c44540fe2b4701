import Verif.Lemmas.Trace
/-!
# C152, C153: profiling a document in another process, and its web server
-/
namespace Tinymist.Trace
open Framing Pages Spec

/-! ## C152: the request -/

/-- **C152.** The other process sees exactly the root, the main file, the inputs and the font paths of the
request, if no key of an input has an equals sign, no key or value begins or ends with white space, and no
font path has the separator of paths in it. -/
theorem child_sees_partial (sep : Char) (rpc root main : Text) (ins : List (Text × Text)) (fonts : List Text)
    (h1 : Plain rpc) (h2 : Plain root) (h3 : Plain main) (hi : ∀ kv ∈ ins, Passes kv)
    (hf : ∀ p ∈ fonts, sep ∉ p) :
    (argsOf ⟨root, main, strings ins, fonts, rpc⟩).bind (readArgs sep Seen.empty) =
      some ⟨some rpc, some root, some main, ins, fonts⟩ := by
  rw [readArgs_all sep rpc root main ins fonts h1 h2 h3, readInputs_passes hi, flatMap_split hf]
  rfl

/-- A non-trivial request meets the hypotheses. -/
example : (argsOf ⟨"/w".toList, "/w/a.typ".toList, strings [("x".toList, "a = b".toList), ("y".toList, [])],
    ["/f".toList, "/g h".toList], "lsp".toList⟩).bind (readArgs ':' Seen.empty) =
    some ⟨some "lsp".toList, some "/w".toList, some "/w/a.typ".toList,
      [("x".toList, "a = b".toList), ("y".toList, [])], ["/f".toList, "/g h".toList]⟩ := by decide +kernel

/-- **C152.** The request is refused before anything is run if and only if an input is not a string. -/
theorem refused_iff (p : Params) : argsOf p = none ↔ ∃ k, (k, Value.other) ∈ p.inputs := by
  unfold argsOf
  rw [Option.map_eq_none_iff]
  induction p.inputs with
  | nil => simp [inputArgs]
  | cons kv rest ih =>
    obtain ⟨k, v⟩ := kv
    cases v with
    | str s =>
      rw [inputArgs, Option.map_eq_none_iff, ih]
      simp
    | other =>
      rw [inputArgs]
      simp only [true_iff]
      exact ⟨k, by simp⟩

/-- **C152, refuted.** A key with an equals sign is cut at it: the rest of it becomes part of the value. -/
theorem key_cut (sep : Char) (rpc root main a b v : Text) (fonts : List Text)
    (h1 : Plain rpc) (h2 : Plain root) (h3 : Plain main) (ha : a ≠ []) (hb : Bare a) (he : '=' ∉ a)
    (hv : Bare (b ++ '=' :: v)) :
    (argsOf ⟨root, main, [(a ++ '=' :: b, .str v)], fonts, rpc⟩).bind (readArgs sep Seen.empty) =
      some ⟨some rpc, some root, some main, [(a, b ++ '=' :: v)], fonts.flatMap (split sep)⟩ := by
  have h := readArgs_all sep rpc root main [(a ++ '=' :: b, v)] fonts h1 h2 h3
  simp only [strings, List.map_cons, List.map_nil] at h
  rw [h, readInputs, List.append_assoc, List.cons_append, parsePair_first _ he, trim_bare hb, trim_bare hv, if_neg ha]
  rfl

/-- The hypotheses are met: `a=b` with value `c` becomes `a` with value `b=c`. -/
example : (argsOf ⟨"/".toList, "/m".toList, [("a=b".toList, .str "c".toList)], [], "lsp".toList⟩).bind
    (readArgs ':' Seen.empty) =
    some ⟨some "lsp".toList, some "/".toList, some "/m".toList, [("a".toList, "b=c".toList)], []⟩ := by decide +kernel

/-- **C152, refuted.** White space around a value is lost. -/
theorem value_trimmed (sep : Char) (rpc root main k v pre post : Text) (fonts : List Text)
    (h1 : Plain rpc) (h2 : Plain root) (h3 : Plain main) (hk : Passes (k, v)) (hv : v ≠ [])
    (hpre : ∀ c ∈ pre, isWhitespace c = true) (hpost : ∀ c ∈ post, isWhitespace c = true) :
    (argsOf ⟨root, main, [(k, .str (pre ++ v ++ post))], fonts, rpc⟩).bind (readArgs sep Seen.empty) =
      some ⟨some rpc, some root, some main, [(k, v)], fonts.flatMap (split sep)⟩ := by
  have h := readArgs_all sep rpc root main [(k, pre ++ v ++ post)] fonts h1 h2 h3
  simp only [strings, List.map_cons, List.map_nil] at h
  have drop : ∀ (l : Text) {r : Text}, (∀ c ∈ l, isWhitespace c = true) →
      (l ++ r).dropWhile isWhitespace = r.dropWhile isWhitespace := by
    intro l r hl
    induction l with
    | nil => rfl
    | cons c l ih =>
      rw [List.cons_append, List.dropWhile_cons, if_pos (hl c (by simp)), ih fun d hd => hl d (List.mem_cons_of_mem _ hd)]
  have ht : trim (pre ++ v ++ post) = v := by
    unfold trim
    rw [List.append_assoc, drop pre hpre]
    have e : (v ++ post).dropWhile isWhitespace = v ++ post := by
      apply dropWhile_head
      intro c hc
      apply hk.2.2.2.1 c
      cases v with
      | nil => exact absurd rfl hv
      | cons d v => exact hc
    rw [e, List.reverse_append, drop post.reverse (fun c hc => hpost c (List.mem_reverse.mp hc)), dropWhile_head,
      List.reverse_reverse]
    intro c hc
    exact hk.2.2.2.2 c (by rwa [List.head?_reverse] at hc)
  rw [h, readInputs, parsePair_first _ hk.2.1, trim_bare hk.2.2.1, if_neg hk.1, ht]
  rfl

/-- The hypotheses are met. -/
example : Passes ("k".toList, "v w".toList) ∧ ∀ c ∈ "  ".toList, isWhitespace c = true := by
  refine ⟨⟨by decide, by decide, ⟨?_, ?_⟩, ?_, ?_⟩, by decide⟩ <;> (intro c hc; cases hc; decide)

/-- **C152, refuted.** A font path with the separator of paths in it is searched as two other paths. -/
theorem font_path_cut (sep : Char) (rpc root main a b : Text) (h1 : Plain rpc) (h2 : Plain root) (h3 : Plain main)
    (ha : sep ∉ a) (hb : sep ∉ b) :
    (argsOf ⟨root, main, [], [a ++ sep :: b], rpc⟩).bind (readArgs sep Seen.empty) =
      some ⟨some rpc, some root, some main, [], [a, b]⟩ := by
  have h := readArgs_all sep rpc root main [] [a ++ sep :: b] h1 h2 h3
  simp only [strings, List.map_nil] at h
  rw [h, readInputs, List.flatMap_cons, split_append ha, split_none hb]
  rfl

/-- **C152.** Once the program has sent the response to the request, the request is answered, with all it
sent up to that response, in order, whatever it sends afterwards. -/
theorem answered (parse : Text → Option Bool) (msgs : List Text) (resp : Text) (later : List Nat)
    (hf : Fits (msgs ++ [resp])) (hm : ∀ m ∈ msgs, parse m = some false) (hr : parse resp = some true) :
    ∃ n, ∀ k, reportOf (Reader.run parse (n + k) (Reader.start ((msgs ++ [resp]).flatMap writeMsg ++ later))) =
      some (msgs ++ [resp], []) := by
  refine ⟨msgs.length + 2, fun k => ?_⟩
  rw [List.flatMap_append, List.append_assoc, run_add, run_add]
  unfold Reader.start
  rw [run_msgs parse msgs _ [] (fun m h => hf m (List.mem_append_left _ h)) hm]
  have e := readMsg_writeMsg resp (Nat.le_sub_one_of_lt (hf resp (by simp))) later
  have s1 : Reader.run parse 2 ⟨[resp].flatMap writeMsg ++ later, false, [] ++ msgs, false⟩ =
      ⟨later, true, msgs ++ [resp], true⟩ := by
    simp only [Reader.run, Reader.step, List.flatMap_cons, List.flatMap_nil, List.append_nil, e, hr,
      Bool.false_eq_true, if_false, if_true, List.nil_append]
  rw [s1, run_ended parse k rfl]
  rfl

/-- **C152.** If what the program sends is not a message, the request is answered with all it sent before. -/
theorem broken_ends (parse : Text → Option Bool) (msgs : List Text) (tail : List Nat)
    (hf : Fits msgs) (hm : ∀ m ∈ msgs, parse m = some false)
    (ht : readMsg tail = .err ∨ ∃ t r, readMsg tail = .msg t r ∧ parse t = none) :
    ∃ n, ∀ k, reportOf (Reader.run parse (n + k) (Reader.start (msgs.flatMap writeMsg ++ tail))) = some (msgs, []) := by
  refine ⟨msgs.length + 1, fun k => ?_⟩
  rw [run_add, run_add]
  unfold Reader.start
  rw [run_msgs parse msgs _ [] hf hm]
  have s1 : Reader.run parse 1 ⟨tail, false, [] ++ msgs, false⟩ = ⟨tail, false, msgs, true⟩ := by
    rcases ht with ht | ⟨t, r, ht, hp⟩
    · simp only [Reader.run, Reader.step, ht, Bool.false_eq_true, if_false, List.nil_append]
    · simp only [Reader.run, Reader.step, ht, hp, Bool.false_eq_true, if_false, List.nil_append]
  rw [s1, run_ended parse k rfl]
  rfl

/-- **C152, refuted.** If the program ends without sending the response, the request is never answered: the
thread asks for the next message forever. -/
theorem never_answered (parse : Text → Option Bool) (msgs : List Text)
    (hf : Fits msgs) (hm : ∀ m ∈ msgs, parse m = some false) (n : Nat) :
    reportOf (Reader.run parse n (Reader.start (msgs.flatMap writeMsg))) = none := by
  have h := run_msgs parse msgs [] [] hf hm
  rw [List.append_nil, List.nil_append] at h
  have hfix : Reader.step parse ⟨[], false, msgs, false⟩ = ⟨[], false, msgs, false⟩ := rfl
  have hbig : Reader.run parse (n + msgs.length) (Reader.start (msgs.flatMap writeMsg)) = ⟨[], false, msgs, false⟩ := by
    rw [Nat.add_comm, run_add]
    unfold Reader.start
    rw [h, run_fixed parse hfix]
  rw [run_add] at hbig
  unfold reportOf
  rw [if_neg]
  intro he
  rw [run_ended parse _ he] at hbig
  rw [hbig] at he
  cases he

/-- **C152, refuted.** What the program writes to its standard error is never reported: the report always
says that it was empty. -/
theorem stderr_lost (r : Reader) (rep : List Text × Text) (h : reportOf r = some rep) : rep.2 = [] := by
  unfold reportOf at h
  split at h
  · cases h; rfl
  · cases h

/-- The other process does not panic exactly if it is told to answer in one of the two ways it knows, and only in the one way sends the timings. -/
theorem panics_iff (c : Compiled) (timings : List Nat) (rpc : Text) :
    ((traceMain c timings rpc).2 = true ↔ rpc ≠ ['l', 's', 'p'] ∧ rpc ≠ ['h', 't', 't', 'p']) ∧
    (.data timings ∈ (traceMain c timings rpc).1 ↔ rpc = ['l', 's', 'p']) := by
  have h : traceMain c timings rpc =
      if rpc = ['l', 's', 'p'] then ([.diagnostics (if c.ok then c.warnings else c.errors), .data timings], false)
      else if rpc = ['h', 't', 't', 'p'] then ([.diagnostics (if c.ok then c.warnings else c.errors), .url], false)
      else ([.diagnostics (if c.ok then c.warnings else c.errors)], true) := rfl
  rw [h]
  by_cases h1 : rpc = ['l', 's', 'p']
  · simp [h1]
  · by_cases h2 : rpc = ['h', 't', 't', 'p'] <;> simp [h1, h2]

/-- **C152.** The diagnostics always come before the response; they are the warnings if the document
compiled, and only the errors if it did not. -/
theorem diagnostics_first (c : Compiled) (timings : List Nat) (rpc : Text) :
    (traceMain c timings rpc).1.head? = some (.diagnostics (if c.ok then c.warnings else c.errors)) ∧
    ((c.ok = false) → ∀ w, traceMain c timings rpc = traceMain { c with warnings := w } timings rpc) := by
  constructor
  · unfold traceMain
    by_cases h1 : rpc = "lsp".toList
    · simp only [h1, if_pos, List.head?_cons]
    · by_cases h2 : rpc = "http".toList
      · rw [if_neg h1, if_pos h2]; rfl
      · rw [if_neg h1, if_neg h2]; rfl
  · intro h w
    unfold traceMain
    simp only [h, Bool.false_eq_true, if_false]

/-- **C152.** A document within its root is profiled: the request is answered with the diagnostics and the
timings of the very compilation. -/
theorem profiled_partial (sep : Char) (inside : Text → Text → Bool) (enc : Sent → Text) (parse : Text → Option Bool)
    (c : Compiled) (timings : List Nat) (root main : Text) (ins : List (Text × Text)) (fonts : List Text)
    (h2 : Plain root) (h3 : Plain main) (hi : ∀ kv ∈ ins, Passes kv)
    (hin : inside root main = true) (hfit : ∀ m, (Utf8.encode (enc m)).length < 2 ^ 64)
    (hd : ∀ ds, parse (enc (.diagnostics ds)) = some false) (ht : parse (enc (.data timings)) = some true) :
    ∃ args n, argsOf ⟨root, main, strings ins, fonts, "lsp".toList⟩ = some args ∧
      ∀ k, reportOf (Reader.run parse (n + k) (Reader.start (childOutput sep inside enc c timings args))) =
        some ([enc (.diagnostics (if c.ok then c.warnings else c.errors)), enc (.data timings)], []) := by
  have h := readArgs_all sep "lsp".toList root main ins fonts (by unfold Plain; decide) h2 h3
  rw [readInputs_passes hi] at h
  obtain ⟨args, ha, hr⟩ := Option.bind_eq_some_iff.mp h
  obtain ⟨n, hn⟩ := answered parse [enc (.diagnostics (if c.ok then c.warnings else c.errors))] (enc (.data timings)) []
    (by intro m hm; simp at hm; rcases hm with rfl | rfl <;> exact hfit _)
    (by intro m hm; simp at hm; subst hm; exact hd _) ht
  refine ⟨args, n, ha, fun k => ?_⟩
  have e : childOutput sep inside enc c timings args =
      ([enc (.diagnostics (if c.ok then c.warnings else c.errors))] ++ [enc (.data timings)]).flatMap writeMsg ++ [] := by
    unfold childOutput
    rw [hr]
    simp only [Option.getD_some, hin, if_true]
    simp [traceMain]
  rw [e, hn k]
  rfl

/-- **C152, refuted.** Where the other process refuses its arguments, because the key of an input is blank,
or is asked to answer in a way it does not know, or its main file is not within the root, the request is never
answered. -/
theorem not_profiled (sep : Char) (inside : Text → Text → Bool) (enc : Sent → Text) (parse : Text → Option Bool)
    (c : Compiled) (timings : List Nat) (rpc root main : Text) (ins : List (Text × Text)) (fonts : List Text)
    (args : List Text) (h1 : Plain rpc) (h2 : Plain root) (h3 : Plain main)
    (ha : argsOf ⟨root, main, strings ins, fonts, rpc⟩ = some args)
    (hfit : ∀ m, (Utf8.encode (enc m)).length < 2 ^ 64)
    (hd : ∀ ds, parse (enc (.diagnostics ds)) = some false)
    (hbad : (∃ kv ∈ ins, '=' ∉ kv.1 ∧ ∀ ch ∈ kv.1, isWhitespace ch = true) ∨ inside root main = false ∨
      (rpc ≠ "lsp".toList ∧ rpc ≠ "http".toList)) (n : Nat) :
    reportOf (Reader.run parse n (Reader.start (childOutput sep inside enc c timings args))) = none := by
  have h := readArgs_all sep rpc root main ins fonts h1 h2 h3
  rw [ha, Option.bind_some] at h
  have hempty : childOutput sep inside enc c timings args = [] →
      reportOf (Reader.run parse n (Reader.start (childOutput sep inside enc c timings args))) = none := by
    intro e
    rw [e]
    exact never_answered parse [] (by intro m hm; cases hm) (by intro m hm; cases hm) n
  cases hr : readInputs ins with
  | none =>
    apply hempty
    rw [hr] at h
    unfold childOutput
    rw [h]; rfl
  | some r =>
    rw [hr] at h
    rcases hbad with ⟨kv, hkv, hk, hw⟩ | hbad | ⟨hl, hh⟩
    · exfalso
      clear ha h hempty
      induction ins generalizing r with
      | nil => cases hkv
      | cons kv' ins ih =>
        obtain ⟨k', v'⟩ := kv'
        rw [readInputs] at hr
        rcases List.mem_cons.mp hkv with rfl | hkv
        · have ht : trim k' = [] := by
            unfold trim
            have : k'.dropWhile isWhitespace = [] := by
              have : ∀ l : Text, (∀ ch ∈ l, isWhitespace ch = true) → l.dropWhile isWhitespace = [] := by
                intro l hl
                induction l with
                | nil => rfl
                | cons ch l ih =>
                  rw [List.dropWhile_cons, if_pos (hl ch (by simp)), ih fun d hd => hl d (List.mem_cons_of_mem _ hd)]
              exact this k' hw
            rw [this]; rfl
          rw [parsePair_first v' hk, if_pos ht] at hr
          cases hr
        · obtain ⟨p, -, hr⟩ := Option.bind_eq_some_iff.mp hr
          obtain ⟨r', hr', -⟩ := Option.map_eq_some_iff.mp hr
          exact ih r' hr' hkv
    · apply hempty
      unfold childOutput
      rw [h]
      simp only [Option.map_some, Option.getD_some, hbad, Bool.false_eq_true, if_false]
    · have e : childOutput sep inside enc c timings args = [] ∨ childOutput sep inside enc c timings args =
          [enc (.diagnostics (if c.ok then c.warnings else c.errors))].flatMap writeMsg := by
        unfold childOutput
        rw [h]
        simp only [Option.map_some, Option.getD_some]
        by_cases hi : inside root main = true
        · rw [if_pos hi]
          right
          unfold traceMain
          rw [if_neg hl, if_neg hh]
          simp
        · rw [if_neg hi]
          exact .inl rfl
      rcases e with e | e
      · exact hempty e
      · rw [e]
        exact never_answered parse _ (by intro m hm; simp at hm; subst hm; exact hfit _)
          (by intro m hm; simp at hm; subst hm; exact hd _) n

/-! ## C153: the web server -/

/-- **C153.** A request is answered if and only if it says that it comes from a view of the editor. -/
theorem served_iff (timings : List Nat) (r : Req) :
    (serve timings r).isSome ↔ ∃ rest, r.origin = some ("vscode-webview://".toList.map Char.toNat ++ rest) := by
  unfold serve
  cases ho : r.origin with
  | none => simp
  | some o =>
    by_cases hp : webview.isPrefixOf o
    · rw [Option.filter_some, if_pos hp]
      obtain ⟨t, ht⟩ := List.isPrefixOf_iff_prefix.mp hp
      simp only []
      constructor
      · intro _; exact ⟨t, by rw [← ht]; rfl⟩
      · intro _
        by_cases h1 : r.path = "/".toList
        · rw [if_pos h1]; cases r.head <;> rfl
        · rw [if_neg h1]; rfl
    · rw [Option.filter_some, if_neg hp]
      simp only [Option.isSome_none, Bool.false_eq_true, false_iff]
      rintro ⟨t, ht⟩
      exact hp (List.isPrefixOf_iff_prefix.mpr ⟨t, by cases ht; rfl⟩)

/-- **C153.** An answer is only for the one who asked. -/
theorem allowed_is_asker (timings : List Nat) (r : Req) (a : Ans) (h : serve timings r = some a) :
    r.origin = some a.allow := by
  unfold serve at h
  cases ho : r.origin.filter fun o => webview.isPrefixOf o with
  | none => rw [ho] at h; cases h
  | some o =>
    rw [ho] at h
    have := (Option.filter_eq_some_iff.mp ho).1
    rw [this]
    simp only [] at h
    split at h
    · split at h <;> (cases h; rfl)
    · cases h; rfl

/-- **C153.** The timings are given, as they are, at `/`, and nowhere else; everything else leads there. -/
theorem timings_at_root (timings : List Nat) (r : Req) (a : Ans) (h : serve timings r = some a) :
    (r.path = "/".toList ∧ r.head = false →
      a.status = 200 ∧ a.body = timings ∧ a.type = some "application/json".toList ∧ a.location = none) ∧
    (r.path = "/".toList ∧ r.head = true → a.status = 200 ∧ a.body = [] ∧ a.location = none) ∧
    (r.path ≠ "/".toList → a.status = 302 ∧ a.body = [] ∧ a.location = some "/".toList) := by
  unfold serve at h
  cases ho : r.origin.filter fun o => webview.isPrefixOf o with
  | none => rw [ho] at h; cases h
  | some o =>
    rw [ho] at h
    simp only [] at h
    by_cases h1 : r.path = "/".toList
    · rw [if_pos h1] at h
      cases hh : r.head with
      | true =>
        rw [hh, if_pos rfl] at h
        cases h
        exact ⟨(nomatch ·.2), fun _ => ⟨rfl, rfl, rfl⟩, fun h => absurd h1 h⟩
      | false =>
        rw [hh, if_neg (by simp)] at h
        cases h
        exact ⟨fun _ => ⟨rfl, rfl, rfl, rfl⟩, (nomatch ·.2), fun h => absurd h1 h⟩
    · rw [if_neg h1] at h
      cases h
      exact ⟨fun h => absurd h.1 h1, fun h => absurd h.1 h1, fun _ => ⟨rfl, rfl, rfl⟩⟩

/-- A request of the editor is served. -/
example : serve [1, 2] ⟨some ("vscode-webview://x".toList.map Char.toNat), "/".toList, false⟩ =
    some ⟨200, "vscode-webview://x".toList.map Char.toNat, some "application/json".toList, none, [1, 2]⟩ := by
  decide +kernel

/-- **C153.** The server stops exactly 15 seconds after it was last used, and until then it was never left
unused for 15 seconds: whenever it stops, one of its uses was 15 seconds before, no use comes between, and
every time before has a use less than 15 seconds before it.
Missing: that refused requests do not count as use. -/
theorem stops_when_idle_partial (start : Nat) (reqs : List (Nat × Req)) (h : InOrder start reqs) :
    (∃ u ∈ uses start reqs, stopAt start reqs = u + 15000 ∧ ∀ v ∈ uses start reqs, ¬ (u < v ∧ v < u + 15000)) ∧
    ∀ t, start ≤ t → t < stopAt start reqs → ∃ u ∈ uses start reqs, u ≤ t ∧ t < u + 15000 := by
  induction reqs generalizing start with
  | nil =>
    refine ⟨⟨start, by simp [uses], rfl, ?_⟩, fun t h1 h2 => ⟨start, by simp [uses], h1, h2⟩⟩
    intro v hv
    simp [uses] at hv
    omega
  | cons r reqs ih =>
    obtain ⟨x, q⟩ := r
    unfold InOrder uses at h
    rw [List.map_cons] at h
    obtain ⟨h1, h2⟩ := List.pairwise_cons.mp h
    have hx : start ≤ x := h1 x (by simp)
    by_cases hlt : x < start + 15000
    · have e : stopAt start ((x, q) :: reqs) = stopAt x reqs := by rw [stopAt, if_pos hlt]
      obtain ⟨⟨u, hu, hs, hn⟩, hc⟩ := ih x h2
      have hmem : ∀ w ∈ uses x reqs, w ∈ uses start ((x, q) :: reqs) := fun w hw => List.mem_cons_of_mem _ hw
      rw [e]
      refine ⟨⟨u, hmem u hu, hs, ?_⟩, ?_⟩
      · intro v hv
        rcases List.mem_cons.mp hv with rfl | hv
        · rintro ⟨ha, -⟩
          have := h1 u hu
          omega
        · exact hn v hv
      · intro t ht1 ht2
        by_cases hxt : x ≤ t
        · obtain ⟨u, hu, h⟩ := hc t hxt ht2
          exact ⟨u, hmem u hu, h⟩
        · exact ⟨start, by simp [uses], ht1, by omega⟩
    · have e : stopAt start ((x, q) :: reqs) = start + 15000 := by rw [stopAt, if_neg hlt]
      rw [e]
      refine ⟨⟨start, by simp [uses], rfl, ?_⟩, fun t h1 h2 => ⟨start, by simp [uses], h1, h2⟩⟩
      rintro v hv ⟨ha, hb⟩
      rcases List.mem_cons.mp hv with rfl | hv
      · omega
      · rcases List.mem_cons.mp hv with rfl | hv
        · exact hlt hb
        · have := (List.pairwise_cons.mp h2).1 v hv
          omega

/-- The hypothesis is met, and a late request changes nothing: the server has stopped before. -/
example (q : Req) : InOrder 0 [(9000, q), (20000, q), (99000, q)] ∧ stopAt 0 [(9000, q), (20000, q), (99000, q)] = 35000 := by
  refine ⟨?_, rfl⟩
  simp [InOrder, uses]

/-- **C153, refuted.** A page elsewhere, whose requests are all refused, keeps the server running for as long
as it likes, by asking every 10 seconds. -/
theorem kept_by_stranger (n : Nat) (origin : List Nat) (path : Text) (head : Bool)
    (ho : ¬ "vscode-webview://".toList.map Char.toNat <+: origin) :
    (∀ timings, serve timings ⟨some origin, path, head⟩ = none) ∧
    stopAt 0 ((List.range' 1 n).map fun i => (i * 10000, ⟨some origin, path, head⟩)) = n * 10000 + 15000 := by
  constructor
  · intro timings
    cases h : serve timings ⟨some origin, path, head⟩ with
    | none => rfl
    | some a =>
      obtain ⟨r, hr⟩ := (served_iff timings ⟨some origin, path, head⟩).mp (by rw [h]; rfl)
      cases hr
      exact absurd ⟨r, rfl⟩ ho
  · have h : ∀ (n s : Nat), stopAt (s * 10000)
        ((List.range' (s + 1) n).map fun i => (i * 10000, (⟨some origin, path, head⟩ : Req))) = (s + n) * 10000 + 15000 := by
      intro n
      induction n with
      | zero => intro s; rfl
      | succ n ih =>
        intro s
        rw [List.range'_succ, List.map_cons, stopAt, if_pos (by omega), ih]
        omega
    have := h n 0
    simpa using this

end Tinymist.Trace
