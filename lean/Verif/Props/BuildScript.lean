import Verif.Lemmas.BuildScript

/-!
# Build scripts (C146)
-/

namespace Tinymist.BuildScript

/-! ## What the shell runs -/

theorem query_or {k : Kind} (h : ∀ ext, k = .query ext → OneLine ext) : '\n' ∉ extension k := by
  cases k with
  | query ext => exact h ext rfl
  | pdf st n =>
    have e : extension (.pdf st n) = "pdf".toList := rfl
    rw [e]
    decide
  | _ => decide

theorem commandWords_ne (env : Env) (i : Input) (t : Task) : commandWords env i t ≠ [] := by
  unfold commandWords
  simp only [List.append_assoc, List.cons_append]
  exact List.cons_ne_nil _ _

theorem command_ne (env : Env) (i : Input) (t : Task) : command env i t ≠ [] := by
  unfold command
  simp only [List.append_assoc, List.cons_append]
  exact List.cons_ne_nil _ _

theorem read_task (env : Env) {l : Lock} {i : Input} {t : Task} (hd : getDocument l t.document = some i) (hk : t.kind ≠ .preview)
    (hi : OnDisk i) (hn : NoBreaks t) (d : List (List Text)) :
    readFrom ⟨d, [], .between⟩ (taskScript env l t) = some ⟨d ++ [command env i t], [], .between⟩ := by
  have he : asExport t.kind = true := by
    cases h : t.kind with
    | preview => exact (hk h).elim
    | _ => rfl
  have e : taskScript env l t = '#' :: ((" From ".toList ++ t.document ++ " to ".toList ++ t.id ++ " (".toList ++ extension t.kind ++ [')']) ++
      '\n' :: (joinWords (commandWords env i t) ++ ['\n'])) := by
    unfold taskScript
    rw [hd]
    simp only [he, if_true]
    rw [show "# From ".toList = '#' :: " From ".toList by decide, show ")\n".toList = [')', '\n'] by decide]
    simp only [List.append_assoc, List.cons_append, List.nil_append]
  have h1 : step ⟨d, [], .between⟩ '#' = some ⟨d, [], .comment⟩ := rfl
  have h2 : step ⟨d, [], .comment⟩ '\n' = some ⟨d, [], .between⟩ := rfl
  have hc : '\n' ∉ " From ".toList ++ t.document ++ " to ".toList ++ t.id ++ " (".toList ++ extension t.kind ++ [')'] := by
    simp only [List.mem_append, not_or]
    exact ⟨⟨⟨⟨⟨⟨by decide, hn.1⟩, by decide⟩, hn.2.1⟩, by decide⟩, query_or hn.2.2⟩, by decide⟩
  rw [e, readFrom, h1, Option.bind_some, readFrom_append, read_comment d [] hc, Option.bind_some, readFrom, h2, Option.bind_some,
    read_words (means_command hi t) (commandWords_ne env i t), List.nil_append, ended_ne (command_ne env i t)]

theorem read_tasks (env : Env) (l : Lock) (hi : ∀ i ∈ l.document, OnDisk i) : ∀ (ts : List Task), (∀ t ∈ ts, NoBreaks t) → ∀ d,
    readFrom ⟨d, [], .between⟩ (ts.flatMap (taskScript env l)) =
      some ⟨d ++ (exported ⟨l.document, ts⟩).map (fun p => command env p.1 p.2), [], .between⟩
  | [], _, d => by simp [readFrom, exported]
  | t :: ts, hn, d => by
    have ih := fun d => read_tasks env l hi ts (fun t ht => hn t (List.mem_cons_of_mem _ ht)) d
    rw [List.flatMap_cons, readFrom_append]
    unfold exported at ih ⊢
    rw [List.filterMap_cons]
    by_cases hk : t.kind = .preview
    · have hs : taskScript env l t = [] := by
        unfold taskScript
        rw [hk]
        cases getDocument l t.document <;> rfl
      rw [hs, readFrom, Option.bind_some, ih, if_pos hk]
    · rw [if_neg hk]
      cases hd : getDocument l t.document with
      | none =>
        have hs : taskScript env l t = [] := by
          unfold taskScript
          rw [hd]
        have hf : (l.document.find? fun i => i.id == t.document) = none := hd
        rw [hs, readFrom, Option.bind_some, ih, hf]
        rfl
      | some i =>
        have hf : (l.document.find? fun i => i.id == t.document) = some i := hd
        rw [read_task env hd hk (hi i (List.mem_of_find?_eq_some hf)) (hn t (List.mem_cons_self ..)), Option.bind_some, ih, hf]
        simp

/-- The shell runs, in order, one command for each task that is not a preview, with the words of the task and of its document as they
are: quotes, blanks, dollar signs and line breaks in paths, inputs and names of files are arguments and nothing else. This holds if
no identifier of a task or of a document breaks the line, and all paths are those of files. -/
theorem script_words_partial (env : Env) (sh : Shell) (l : Lock) (hi : ∀ i ∈ l.document, OnDisk i) (hn : ∀ t ∈ l.task, NoBreaks t) :
    shell (script env sh l) = some ((exported l).map fun p => command env p.1 p.2) := by
  have hr := read_tasks env l hi l.task hn []
  have h1 : ∀ body, readFrom ⟨[], [], .between⟩ ("#!/usr/bin/env bash\n\n".toList ++ body) = readFrom ⟨[], [], .between⟩ body := by
    intro body
    rw [readFrom_append]
    rfl
  have h2 : ∀ body, readFrom ⟨[], [], .between⟩ ("#!/usr/bin/env zsh\n\n".toList ++ body) = readFrom ⟨[], [], .between⟩ body := by
    intro body
    rw [readFrom_append]
    rfl
  unfold shell script
  cases sh with
  | bash =>
    simp only [h1, hr]
    rfl
  | zsh =>
    simp only [h2, hr]
    rfl

/-- Documents and a task with all that a shell could take for something else. -/
theorem script_words_case : ∃ (env : Env) (l : Lock), (∀ i ∈ l.document, OnDisk i) ∧ (∀ t ∈ l.task, NoBreaks t) ∧
    shell (script env .bash l) = some [["tinymist".toList, "compile".toList, "--save-lock".toList, "--task".toList, "t".toList,
      "it's $(a)\nb.typ".toList, "--input=k='v".toList, "--output".toList, "x;y".toList, "--format=svg".toList]] := by
  refine ⟨⟨id, id⟩, ⟨[⟨"d".toList, ⟨"file".toList, "it's $(a)\nb.typ".toList⟩, none, [("k".toList, "'v".toList)], [], true, none, none⟩],
    [⟨"t".toList, "d".toList, .svg, .never, some "x;y".toList, []⟩, ⟨"p".toList, "d".toList, .preview, .never, none, []⟩]⟩, ?_, ?_, ?_⟩
  · intro i hi r hr
    simp only [List.mem_singleton] at hi
    subst hi
    simp only [resources, Option.toList_none, List.append_nil, List.mem_singleton] at hr
    subst hr
    rfl
  · intro t ht
    simp only [List.mem_cons, List.not_mem_nil, or_false] at ht
    rcases ht with rfl | rfl
    · exact ⟨by unfold OneLine; decide, by unfold OneLine; decide, fun _ h => Kind.noConfusion h⟩
    · exact ⟨by unfold OneLine; decide, by unfold OneLine; decide, fun _ h => Kind.noConfusion h⟩
  · decide +kernel

/-! ## What the program takes -/

/-- Arguments that are taken, whatever follows. -/
def Parses (xs : List Text) (ts : List Tok) : Prop := ∀ rest, tokens (xs ++ rest) = (tokens rest).map (ts ++ ·)

theorem parses_nil : Parses [] [] := by
  intro rest
  cases h : tokens rest <;> simp [h]

theorem Parses.append {a b : List Text} {s t : List Tok} (h : Parses a s) (h' : Parses b t) : Parses (a ++ b) (s ++ t) := by
  intro rest
  rw [List.append_assoc, h, h']
  cases tokens rest <;> simp

theorem parses_flag {a : Text} {n : Name} (h : start a = some (.bare n)) (hv : n.takesValue = false) : Parses [a] [.flag n] := by
  intro rest
  cases rest with
  | nil => simp [tokens, h, hv]
  | cons v rest => simp [tokens, h, hv]

theorem parses_inline {a v : Text} {n : Name} (h : start a = some (.inline n v)) : Parses [a] [.opt n v] := by
  intro rest
  cases rest with
  | nil => simp [tokens, h]
  | cons v rest => simp [tokens, h]

theorem parses_pos {a : Text} (h : hyphen a = false) : Parses [a] [.pos a] := by
  intro rest
  have hs : start a = some .positional := by
    unfold start
    rw [h]
    rfl
  cases rest with
  | nil => simp [tokens, hs]
  | cons v rest => simp [tokens, hs]

theorem parses_opt {a v : Text} {n : Name} (h : start a = some (.bare n)) (hv : n.takesValue = true) (hh : hyphen v = false) :
    Parses [a, v] [.opt n v] := by
  intro rest
  simp [tokens, h, hv, hh]

theorem parses_given {name : String} {n : Name} (h : start name.toList = some (.bare n)) (hv : n.takesValue = true) : ∀ {vs : List Text},
    (∀ v ∈ vs, hyphen v = false) → Parses (given name vs) (vs.map (.opt n))
  | [], _ => parses_nil
  | v :: vs, hh => (parses_opt h hv (hh v (List.mem_cons_self ..))).append (parses_given h hv fun u hu => hh u (List.mem_cons_of_mem _ hu))

theorem bare_hyphen {a : Text} (h : Bare a) : hyphen a = false := by
  unfold hyphen Bare at *
  simp [h]

theorem values_append (n : Name) (a b : List Tok) : values n (a ++ b) = values n a ++ values n b := List.filterMap_append

theorem values_map (n m : Name) : ∀ vs : List Text, values n (vs.map (.opt m)) = if m = n then vs else []
  | [] => by simp [values]
  | v :: vs => by
    have ih := values_map n m vs
    have e : values n ((v :: vs).map (.opt m)) = (if m = n then [v] else []) ++ values n (vs.map (.opt m)) := by
      unfold values
      rw [List.map_cons, List.filterMap_cons]
      by_cases h : m = n <;> simp [h]
    rw [e, ih]
    by_cases h : m = n <;> simp [h]

theorem positionals_append (a b : List Tok) : positionals (a ++ b) = positionals a ++ positionals b := List.filterMap_append

theorem positionals_map (m : Name) (vs : List Text) : positionals (vs.map (.opt m)) = [] := by
  unfold positionals
  rw [List.filterMap_map]
  exact List.filterMap_eq_nil_iff.2 fun v _ => rfl

theorem flag_map (n m : Name) (vs : List Text) : (vs.map (Tok.opt m)).contains (.flag n) = false := by
  induction vs with
  | nil => rfl
  | cons v vs ih => rw [List.map_cons, List.contains_cons, ih]; rfl

theorem flatMap_split {sep : Char} : ∀ {vs : List Text}, (∀ v ∈ vs, sep ∉ v) → vs.flatMap (Pages.split sep) = vs
  | [], _ => rfl
  | v :: vs, h => by
    rw [List.flatMap_cons, Pages.split_none (h v (List.mem_cons_self ..)), flatMap_split fun u hu => h u (List.mem_cons_of_mem _ hu),
      List.singleton_append]

theorem mapM_round {α : Type} {f : Text → Option α} {g : α → Text} : ∀ {l : List α}, (∀ x ∈ l, f (g x) = some x) → (l.map g).mapM f = some l
  | [], _ => rfl
  | x :: l, h => by
    rw [List.map_cons, List.mapM_cons, h x (List.mem_cons_self ..), mapM_round fun y hy => h y (List.mem_cons_of_mem _ hy)]
    rfl

theorem standard_round (s : Standard) : parseStandard s.text = some s := by cases s <;> decide

theorem standard_plain (s : Standard) : hyphen s.text = false ∧ ',' ∉ s.text := by cases s <;> decide

theorem ranged_hyphen {p : Pages.Pages} (h : Ranged p) : hyphen (Pages.showPages p) = false := by
  obtain ⟨h, _⟩ := h
  cases hf : p.first with
  | none => exact (h hf).elim
  | some n =>
    unfold hyphen Pages.showPages
    rw [hf, Pages.showBound]
    have hne := RustNum.print_ne_nil (b := 10) (by decide) n
    cases hp : RustNum.print 10 n with
    | nil => exact (hne hp).elim
    | cons c t =>
      have := (print_plain n c (by rw [hp]; exact List.mem_cons_self ..)).2.1
      simp [this]

theorem ranged_round {p : Pages.Pages} (h : Ranged p) : Pages.parsePages (Pages.showPages p) = some p := by
  obtain ⟨_, s, hs⟩ := h
  exact Pages.pages_round_trip s p hs

theorem expressible_pages {t : Task} (h : Expressible t) : ∃ rs : List Pages.Pages, pagesOf t = given "--pages" (rs.map Pages.showPages) ∧
    (∀ r ∈ rs, Ranged r) ∧ t.transform = if rs = [] then [] else [.pages rs] := by
  rcases h.2.2.2 with h | ⟨rs, hne, hr, h⟩
  · exact ⟨[], by rw [pagesOf, h]; rfl, fun r hr => (nomatch hr), by rw [h, if_pos rfl]⟩
  · refine ⟨rs, ?_, hr, by rw [h, if_neg hne]⟩
    rw [pagesOf, h, List.flatMap_cons, List.flatMap_nil, List.append_nil]

/-- How the format of a task is read. -/
def FormatRead (k : Kind) (v : Option Text) (f : Pages.Format) (st : List Standard) : Prop :=
  formatOf k = v.toList.map ("--format=".toList ++ ·) ++ given "--pdf-standard" (st.map Standard.text) ∧
  (∀ x ∈ v.toList, start ("--format=".toList ++ x) = some (.inline .format x)) ∧
  v.elim (some none) (fun v => (parseFormat v).map some) = some (v.map fun _ => f) ∧ (v = none → f = .pdf)

theorem expressible_kind {t : Task} (h : Expressible t) : ∃ (v : Option Text) (f : Pages.Format) (st : List Standard),
    FormatRead t.kind v f st ∧ kindOf f st = t.kind := by
  rcases h.2.2.1 with h | h | ⟨st, h⟩
  · refine ⟨some "png".toList, .png, [], ⟨by rw [h]; decide, fun x hx => ?_, by decide, nofun⟩, by rw [h]; rfl⟩
    rw [List.mem_singleton.1 hx]
    rfl
  · refine ⟨some "svg".toList, .svg, [], ⟨by rw [h]; decide, fun x hx => ?_, by decide, nofun⟩, by rw [h]; rfl⟩
    rw [List.mem_singleton.1 hx]
    rfl
  · refine ⟨some "pdf".toList, .pdf, st, ⟨?_, fun x hx => ?_, by decide, nofun⟩, by rw [h]; rfl⟩
    · rw [h, formatOf, Option.toList_none, List.map_nil, given, given, List.flatMap_nil, List.append_nil]
      rfl
    · rw [List.mem_singleton.1 hx]
      rfl

theorem single_of {n : Name} {ts : List Tok} {o : Option Text} (h : values n ts = o.toList) : single n ts = some o := by
  unfold single
  rw [h]
  cases o <;> rfl

theorem settled_user {env : Env} {r : Res} (h : Settled env r) : fromUser env (place env r) = r := by
  obtain ⟨h1, h2, h3, _⟩ := h
  unfold fromUser place
  rw [h2, h3, ← h1]

theorem settled_map {env : Env} {o : Option Res} (h : ∀ r ∈ o.toList, Settled env r) : (o.map (place env)).map (fromUser env) = o := by
  cases o with
  | none => rfl
  | some r => exact congrArg some (settled_user (h r (by simp)))

theorem settled_list {env : Env} {l : List Res} (h : ∀ r ∈ l, Settled env r) : (l.map (place env)).map (fromUser env) = l := by
  rw [List.map_map]
  exact (List.map_congr_left fun r hr => settled_user (h r hr)).trans (List.map_id l)

theorem replays_as {env : Env} {i : Input} {t : Task} {v : Option Text} {f : Pages.Format} {st : List Standard} {rs : List Pages.Pages}
    (hi : Declarable env i) (hid : Bare t.id) (hout : t.output = none) (hpg : pagesOf t = given "--pages" (rs.map Pages.showPages))
    (hrs : ∀ r ∈ rs, Ranged r) (htr : t.transform = if rs = [] then [] else [.pages rs]) (hfr : FormatRead t.kind v f st) :
    declared env ((command env i t).drop 2) = some ({ i with id := "file:".toList ++ i.main.path },
      { t with document := "file:".toList ++ i.main.path, when := .never, kind := kindOf f st }) := by
  obtain ⟨hset, hin⟩ := hi
  obtain ⟨hfo, hst, hpf, hnone⟩ := hfr
  have hmain : Settled env i.main := hset _ (by simp [resources])
  have hroot : ∀ r ∈ i.root.toList, Settled env r := fun r hr => hset r (by simp only [resources, List.mem_append]; exact .inl (.inl (.inl (.inr hr))))
  have hfont : ∀ r ∈ i.fontPaths, Settled env r := fun r hr => hset r (by simp only [resources, List.mem_append]; exact .inl (.inl (.inr hr)))
  have hpkg : ∀ r ∈ i.packagePath.toList, Settled env r := fun r hr => hset r (by simp only [resources, List.mem_append]; exact .inl (.inr hr))
  have hcache : ∀ r ∈ i.packageCachePath.toList, Settled env r := fun r hr => hset r (by simp only [resources, List.mem_append]; exact .inr hr)
  have hplace : ∀ {l : List Res}, (∀ r ∈ l, Settled env r) → ∀ v ∈ l.map (place env), hyphen v = false ∧ v ≠ [] ∧ ':' ∉ v := by
    intro l h v hv
    obtain ⟨r, hr, rfl⟩ := List.mem_map.1 hv
    obtain ⟨_, h2, _, h4, h5, h6⟩ := h r hr
    unfold place
    rw [h2]
    exact ⟨bare_hyphen h4, h5, h6⟩
  have hm := hplace (l := [i.main]) (fun r hr => by rw [List.mem_singleton.1 hr]; exact hmain) (place env i.main) (by simp)
  -- the arguments
  let sys : List Tok := if i.systemFonts then [] else [.flag .ignoreSystemFonts]
  let ts : List Tok := [.flag .saveLock] ++ ([t.id].map (.opt .task) ++ ([.pos (place env i.main)] ++ ((i.root.map (place env)).toList.map (.opt .root) ++
    ((i.fontPaths.map (place env)).map (.opt .fontPath) ++ (sys ++ ((i.packagePath.map (place env)).toList.map (.opt .packagePath) ++
    ((i.packageCachePath.map (place env)).toList.map (.opt .packageCachePath) ++ ((rs.map Pages.showPages).map (.opt .pages) ++
    (v.toList.map (.opt .format) ++ (st.map Standard.text).map (.opt .pdfStandard))))))))))
  have hto : ∀ o : Option Res, o.toList.map (place env) = (o.map (place env)).toList := fun o => by cases o <;> rfl
  have hts : tokens ((command env i t).drop 2) = some ts := by
    have hc : (command env i t).drop 2 = ["--save-lock".toList] ++ (given "--task" [t.id] ++ ([place env i.main] ++
        (given "--root" (i.root.toList.map (place env)) ++ (given "--font-path" (i.fontPaths.map (place env)) ++
        ((if i.systemFonts then [] else ["--ignore-system-fonts".toList]) ++ (given "--package-path" (i.packagePath.toList.map (place env)) ++
        (given "--package-cache-path" (i.packageCachePath.toList.map (place env)) ++ (given "--pages" (rs.map Pages.showPages) ++
        (v.toList.map ("--format=".toList ++ ·) ++ given "--pdf-standard" (st.map Standard.text)))))))))) := by
      unfold command
      rw [hin, hout, hpg, hfo]
      simp only [List.append_assoc, List.cons_append, List.nil_append, List.map_nil, Option.toList_none, given, List.flatMap_nil,
        List.drop_succ_cons, List.drop_zero, List.flatMap_cons]
    have hP : Parses ((command env i t).drop 2) ts := by
      rw [hc]
      refine (parses_flag rfl rfl).append ?_
      refine (parses_given (n := .task) rfl rfl fun v hv => ?_).append ?_
      · rw [List.mem_singleton.1 hv]
        exact bare_hyphen hid
      refine (parses_pos hm.1).append ?_
      rw [hto, hto, hto]
      refine (parses_given (n := .root) rfl rfl fun v hv => (hplace hroot v (by rw [hto]; exact hv)).1).append ?_
      refine (parses_given (n := .fontPath) rfl rfl fun v hv => (hplace hfont v hv).1).append ?_
      refine Parses.append ?_ ?_
      · by_cases h : i.systemFonts = true
        · simp only [sys, h, if_true]
          exact parses_nil
        · simp only [sys, h, if_false, Bool.false_eq_true]
          exact parses_flag rfl rfl
      refine (parses_given (n := .packagePath) rfl rfl fun v hv => (hplace hpkg v (by rw [hto]; exact hv)).1).append ?_
      refine (parses_given (n := .packageCachePath) rfl rfl fun v hv => (hplace hcache v (by rw [hto]; exact hv)).1).append ?_
      refine (parses_given (n := .pages) rfl rfl fun v hv => ?_).append ?_
      · obtain ⟨r, hr, rfl⟩ := List.mem_map.1 hv
        exact ranged_hyphen (hrs r hr)
      refine Parses.append ?_ ?_
      · cases v with
        | none => exact parses_nil
        | some v => exact parses_inline (hst v (by simp))
      refine parses_given (n := .pdfStandard) rfl rfl fun v hv => ?_
      obtain ⟨s, _, rfl⟩ := List.mem_map.1 hv
      exact (standard_plain s).1
    have := hP []
    rw [List.append_nil] at this
    rw [this, tokens, Option.map_some, List.append_nil]
  -- the values
  have hsysv : ∀ n, values n sys = [] := fun n => by
    simp only [sys]
    split <;> rfl
  have hval : ∀ n, values n ts = (if Name.task = n then [t.id] else []) ++ (if Name.root = n then (i.root.map (place env)).toList else []) ++
      (if Name.fontPath = n then i.fontPaths.map (place env) else []) ++ (if Name.packagePath = n then (i.packagePath.map (place env)).toList else []) ++
      (if Name.packageCachePath = n then (i.packageCachePath.map (place env)).toList else []) ++
      (if Name.pages = n then rs.map Pages.showPages else []) ++ (if Name.format = n then v.toList else []) ++
      (if Name.pdfStandard = n then st.map Standard.text else []) := by
    intro n
    simp only [ts, values_append, values_map, hsysv]
    have h1 : values n [.flag .saveLock] = [] := rfl
    have h2 : values n [.pos (place env i.main)] = [] := rfl
    rw [h1, h2]
    simp only [List.nil_append, List.append_assoc]
  have hpos : positionals ts = [place env i.main] := by
    have hs : positionals sys = [] := by
      simp only [sys]
      split <;> rfl
    simp only [ts, positionals_append, positionals_map, hs]
    rfl
  have hflag : ts.contains (.flag .ignoreSystemFonts) = !i.systemFonts := by
    have hs : sys.contains (.flag .ignoreSystemFonts) = !i.systemFonts := by
      simp only [sys]
      cases i.systemFonts <;> rfl
    have h1 : [Tok.flag .saveLock].contains (.flag .ignoreSystemFonts) = false := rfl
    have h2 : [Tok.pos (place env i.main)].contains (.flag .ignoreSystemFonts) = false := rfl
    simp only [ts, List.contains_append, flag_map, hs, h1, h2, Bool.false_or, Bool.or_false]
  have e1 : single .name ts = some none := single_of (by rw [hval]; rfl)
  have e2 : single .root ts = some (i.root.map (place env)) := single_of (by rw [hval]; simp)
  have e3 : single .packagePath ts = some (i.packagePath.map (place env)) := single_of (by rw [hval]; simp)
  have e4 : single .packageCachePath ts = some (i.packageCachePath.map (place env)) := single_of (by rw [hval]; simp)
  have e5 : single .task ts = some (some t.id) := single_of (by rw [hval]; simp)
  have e6 : single .when ts = some none := single_of (by rw [hval]; rfl)
  have e7 : single .format ts = some v := single_of (by rw [hval]; simp)
  have e8 : values .pages ts = rs.map Pages.showPages := by rw [hval]; simp
  have e9 : values .pdfStandard ts = st.map Standard.text := by rw [hval]; simp
  have e10 : values .fontPath ts = i.fontPaths.map (place env) := by rw [hval]; simp
  have s1 : (rs.map Pages.showPages).flatMap (Pages.split ',') = rs.map Pages.showPages := flatMap_split fun v hv => by
    obtain ⟨r, _, rfl⟩ := List.mem_map.1 hv
    exact (showPages_plain r).2.1
  have s2 : (st.map Standard.text).flatMap (Pages.split ',') = st.map Standard.text := flatMap_split fun v hv => by
    obtain ⟨r, _, rfl⟩ := List.mem_map.1 hv
    exact (standard_plain r).2
  have s3 : (i.fontPaths.map (place env)).flatMap (Pages.split ':') = i.fontPaths.map (place env) := flatMap_split fun v hv => (hplace hfont v hv).2.2
  have m1 : (rs.map Pages.showPages).mapM Pages.parsePages = some rs := mapM_round fun r hr => ranged_round (hrs r hr)
  have m2 : (st.map Standard.text).mapM parseStandard = some st := mapM_round fun s _ => standard_round s
  have hne : ([place env i.main] ++ (i.root.map (place env)).toList ++ i.fontPaths.map (place env) ++ (i.packagePath.map (place env)).toList ++
      (i.packageCachePath.map (place env)).toList).contains [] = false := by
    rw [← Bool.not_eq_true, List.contains_iff_mem]
    simp only [List.mem_append, not_or, List.mem_singleton, ← hto]
    exact ⟨⟨⟨⟨fun h => hm.2.1 h.symm, fun h => (hplace hroot _ h).2.1 rfl⟩, fun h => (hplace hfont _ h).2.1 rfl⟩, fun h => (hplace hpkg _ h).2.1 rfl⟩,
      fun h => (hplace hcache _ h).2.1 rfl⟩
  have hof : Pages.outputFormat ⟨some t.id, none, v.map fun _ => f, none⟩ = some f := by
    cases v with
    | none => rw [hnone rfl]; rfl
    | some v => rfl
  unfold declared
  simp only [hts, e1, e2, e3, e4, e5, e6, e7, e8, e9, e10, s1, s2, s3, m1, m2, hpos, hflag, hpf, Option.bind_eq_bind, Option.bind_some, Option.elim_none,
    hof, hne, settled_map hroot, settled_map hpkg, settled_map hcache, settled_list hfont,
    settled_user hmain, hin, Option.getD_some, Option.getD_none, Bool.not_not, htr, hout, Bool.false_eq_true, if_false, List.map_eq_nil_iff]
  rw [hmain.1]
  rfl

/-- A command of the script declares the document and the task of the lock file again: the same root, fonts, packages, task, format,
standards and pages. This holds if paths are relative to the directory of the lock file, there are no inputs, no output, no timestamp
and no format but PDF, PNG and SVG, and pages are given from a first one on. The document has the name of its file and the task
is done at no time by itself, whatever the lock file says (`document_renamed`, `when_lost`). -/
theorem script_replays_partial {env : Env} {i : Input} {t : Task} (hi : Declarable env i) (ht : Expressible t) :
    declared env ((command env i t).drop 2) = some
      ({ i with id := "file:".toList ++ i.main.path }, { t with document := "file:".toList ++ i.main.path, when := .never }) := by
  obtain ⟨rs, hpg, hrs, htr⟩ := expressible_pages ht
  obtain ⟨v, f, st, hfr, hk⟩ := expressible_kind ht
  rw [replays_as hi ht.1 ht.2.1 hpg hrs htr hfr, hk]

/-- A document and a task that the command line can declare. -/
theorem script_replays_case : ∃ (env : Env) (i : Input) (t : Task), Declarable env i ∧ Expressible t ∧ i.root ≠ none ∧ i.fontPaths ≠ [] ∧
    t.transform ≠ [] := by
  refine ⟨⟨id, id⟩, ⟨"d".toList, ⟨"file".toList, "a.typ".toList⟩, some ⟨"file".toList, ".".toList⟩, [], [⟨"file".toList, "f".toList⟩], false, none, none⟩,
    ⟨"t".toList, "d".toList, .pdf [.a2b] none, .onSave, none, [.pages [⟨some 2, some 3⟩]]⟩, ⟨?_, rfl⟩,
    ⟨by unfold Bare; decide, rfl, .inr (.inr ⟨_, rfl⟩), .inr ⟨[⟨some 2, some 3⟩], by simp, ?_, rfl⟩⟩, by simp, by simp, by simp⟩
  · intro r hr
    simp only [resources, Option.toList_some, Option.toList_none, List.append_nil, List.cons_append, List.nil_append, List.mem_cons,
      List.not_mem_nil, or_false] at hr
    rcases hr with rfl | rfl | rfl
    · exact ⟨rfl, rfl, rfl, by unfold Bare; decide, by decide, by decide⟩
    · exact ⟨rfl, rfl, rfl, by unfold Bare; decide, by decide, by decide⟩
    · exact ⟨rfl, rfl, rfl, by unfold Bare; decide, by decide, by decide⟩
  · intro r hr
    rw [List.mem_singleton.1 hr]
    exact ⟨by simp, "2-3".toList, by decide +kernel⟩

theorem parseWhen_iff (v : Text) (w : When) : parseWhen v = some w ↔ WhenText w v := by
  unfold parseWhen
  constructor
  · intro h
    split at h
    · cases h; assumption
    · split at h
      · cases h; assumption
      · split at h
        · cases h; assumption
        · split at h
          · cases h; assumption
          · cases h
  · intro h
    cases w <;> simp only [WhenText] at h <;> subst h <;> decide

/-- A command line says when the task is done by itself, in one of four words; others are refused. -/
theorem when_declared (env : Env) (v input : Text) (hv : Bare v) (hi : Bare input) (hne : input ≠ []) (w : When) :
    (∃ i t, declared env ["--when".toList, v, input] = some (i, t) ∧ t.when = w) ↔ WhenText w v := by
  have hts : tokens ["--when".toList, v, input] = some [.opt .when v, .pos input] := by
    have h1 : start "--when".toList = some (.bare .when) := by rfl
    have h2 := bare_hyphen hv
    have h3 : start input = some .positional := by simp [start, bare_hyphen hi]
    simp only [tokens, h1, h3, h2, Name.takesValue, if_true, Option.map_some, Bool.false_eq_true, if_false]
  rw [← parseWhen_iff]
  have hc : List.contains [input] ([] : Text) = false := by simpa using hne
  unfold declared
  simp only [hts, single, values, positionals, List.filterMap_cons, List.filterMap_nil, Option.bind_eq_bind, Option.bind_some]
  cases hp : parseWhen v with
  | none => simp [hp]
  | some w' =>
    simp [hp, Pages.outputFormat, hne]
    constructor
    · rintro ⟨i, t, ⟨_, rfl⟩, h⟩; exact h
    · intro h; exact ⟨_, _, ⟨rfl, rfl⟩, h⟩

/-- A command line may give the file to write: its name tells the format, or the command line is refused; but the task does not write
to it. -/
theorem output_declared (env : Env) (input o : Text) (hi : Bare input) (ho : Bare o) (hne : input ≠ []) :
    ((∃ f, Pages.Asked ⟨none, some o, none, none⟩ f) ↔ ∃ i t, declared env [input, o] = some (i, t)) ∧
    ∀ i t, declared env [input, o] = some (i, t) → t.output = none := by
  have hts : tokens [input, o] = some [.pos input, .pos o] := by
    have h1 : start input = some .positional := by simp [start, bare_hyphen hi]
    have h2 : start o = some .positional := by simp [start, bare_hyphen ho]
    simp only [tokens, h1, h2, Option.map_some]
  have hc : List.contains [input] ([] : Text) = false := by simpa using hne
  simp only [← Pages.outputFormat_iff]
  unfold declared
  simp only [hts, single, values, positionals, List.filterMap_cons, List.filterMap_nil, Option.bind_eq_bind, Option.bind_some]
  cases hp : Pages.outputFormat ⟨none, some o, none, none⟩ with
  | none => simp [hp]
  | some f =>
    simp [hp, hne]

/-- A command line may name the document: the document has that name, and the task, if it has none of its own. -/
theorem name_declared (env : Env) (v input : Text) (hv : Bare v) (hi : Bare input) (hne : input ≠ []) :
    ∃ i t, declared env ["--name".toList, v, input] = some (i, t) ∧ i.id = v ∧ t.document = v ∧ t.id = v := by
  have hts : tokens ["--name".toList, v, input] = some [.opt .name v, .pos input] := by
    have h1 : start "--name".toList = some (.bare .name) := by rfl
    have h2 := bare_hyphen hv
    have h3 : start input = some .positional := by simp [start, bare_hyphen hi]
    simp only [tokens, h1, h3, h2, Name.takesValue, if_true, Option.map_some, Bool.false_eq_true, if_false]
  unfold declared
  simp only [hts, single, values, positionals, List.filterMap_cons, List.filterMap_nil, Option.bind_eq_bind, Option.bind_some]
  simp [Pages.outputFormat, hne]
  exact ⟨_, _, ⟨rfl, rfl⟩, rfl, rfl, rfl⟩

/-- Where the lock file is says nothing about the document or the task. -/
theorem lockfile_declared (env : Env) (v input : Text) (hv : Bare v) (hi : Bare input) (hne : input ≠ []) :
    declared env ["--lockfile".toList, v, input] = declared env [input] := by
  have h3 : start input = some .positional := by simp [start, bare_hyphen hi]
  have hts : tokens ["--lockfile".toList, v, input] = some [.opt .lockfile v, .pos input] := by
    have h1 : start "--lockfile".toList = some (.bare .lockfile) := by rfl
    have h2 := bare_hyphen hv
    simp only [tokens, h1, h3, h2, Name.takesValue, if_true, Option.map_some, Bool.false_eq_true, if_false]
  have hts' : tokens [input] = some [.pos input] := by simp only [tokens, h3]
  unfold declared
  simp only [hts, hts', single, values, positionals, List.filterMap_cons, List.filterMap_nil, Option.bind_eq_bind, Option.bind_some]
  simp [Pages.outputFormat, hne]

/-- The comment of a command names the document, the task and the extension of what is written. -/
theorem comment_of {env : Env} {l : Lock} {t : Task} {i : Input} (hd : getDocument l t.document = some i) {ext : String}
    (h : (t.kind, ext) ∈ [(Kind.svgHtml, "html"), (.html, "html"), (.md, "md"), (.text, "txt"), (.svg, "svg"), (.png, "png")] ∨
      (ext = "pdf" ∧ ∃ st n, t.kind = .pdf st n) ∨ t.kind = .query ext.toList) :
    ("# From ".toList ++ t.document ++ " to ".toList ++ t.id ++ " (".toList ++ ext.toList ++ ")\n".toList) <+: taskScript env l t := by
  have key : asExport t.kind = true ∧ extension t.kind = ext.toList := by
    rcases h with h | ⟨rfl, st, n, h⟩ | h
    · simp only [List.mem_cons, List.not_mem_nil, or_false, Prod.mk.injEq] at h
      rcases h with ⟨h, rfl⟩ | ⟨h, rfl⟩ | ⟨h, rfl⟩ | ⟨h, rfl⟩ | ⟨h, rfl⟩ | ⟨h, rfl⟩ <;> rw [h] <;> exact ⟨rfl, rfl⟩
    · rw [h]; exact ⟨rfl, rfl⟩
    · rw [h]; exact ⟨rfl, rfl⟩
  unfold taskScript
  rw [hd]
  simp only [key.1, key.2, if_true]
  rw [List.append_assoc _ (joinWords _)]
  exact List.prefix_append _ _

/-- When a task is done by itself is not written into the script: the command declares another task. -/
theorem when_lost {env : Env} {i : Input} {t : Task} (hi : Declarable env i) (ht : Expressible t) (hw : t.when ≠ .never) :
    ∃ i' t', declared env ((command env i t).drop 2) = some (i', t') ∧ t'.id = t.id ∧ t'.when ≠ t.when :=
  ⟨_, _, script_replays_partial hi ht, rfl, hw.symm⟩

/-- Nor is the name of the document: with one that is not that of its file, the command declares another document and the task of
that one. -/
theorem document_renamed {env : Env} {i : Input} {t : Task} (hi : Declarable env i) (ht : Expressible t)
    (hn : i.id ≠ "file:".toList ++ i.main.path) : ∃ i' t', declared env ((command env i t).drop 2) = some (i', t') ∧ i'.id ≠ i.id ∧
      t'.document = i'.id :=
  ⟨_, _, script_replays_partial hi ht, hn.symm, rfl⟩

/-- A task that writes HTML becomes one that writes SVG. -/
theorem html_becomes_svg {env : Env} {i : Input} {t : Task} (hi : Declarable env i) (hid : Bare t.id) (hout : t.output = none)
    (htr : t.transform = []) (hk : t.kind = .html) : ∃ i' t', declared env ((command env i t).drop 2) = some (i', t') ∧ t'.kind = .svg := by
  refine ⟨_, _, replays_as (v := some "html".toList) (f := .html) (st := []) (rs := []) hi hid hout (by rw [pagesOf, htr]; rfl) nofun
    (by rw [htr]; rfl) ⟨by rw [hk]; decide, fun x hx => ?_, by decide, nofun⟩, rfl⟩
  rw [List.mem_singleton.1 hx]
  rfl

/-- A query becomes a task that writes PDF. -/
theorem query_compiled {env : Env} {i : Input} {t : Task} {ext : Text} (hi : Declarable env i) (hid : Bare t.id) (hout : t.output = none)
    (htr : t.transform = []) (hk : t.kind = .query ext) :
    ∃ i' t', declared env ((command env i t).drop 2) = some (i', t') ∧ t'.kind = .pdf [] none :=
  ⟨_, _, replays_as (v := none) (f := .pdf) (st := []) (rs := []) hi hid hout (by rw [pagesOf, htr]; rfl) nofun
    (by rw [htr]; rfl) ⟨by rw [hk]; rfl, nofun, by decide, fun _ => rfl⟩, rfl⟩

/-! ## What is refused -/

theorem refused_at {x : Text} (hs : start x = none) (hh : hyphen x = true) (rest : List Text) : ∀ pre : List Text, tokens (pre ++ x :: rest) = none
  | [] => by
    rw [List.nil_append]
    cases rest <;> simp [tokens, hs]
  | [a] => by
    have ih := refused_at hs hh rest []
    rw [List.nil_append] at ih
    rw [List.cons_append, List.nil_append, tokens]
    cases ha : start a with
    | none => rfl
    | some s =>
      cases s with
      | positional => simp [ih]
      | inline n v => simp [ih]
      | bare n => simp [ih, hh]
  | a :: b :: pre => by
    have ih := refused_at hs hh rest pre
    have ih' := refused_at hs hh rest (b :: pre)
    rw [List.cons_append] at ih'
    rw [List.cons_append, List.cons_append, tokens]
    cases ha : start a with
    | none => rfl
    | some s =>
      cases s with
      | positional => simp [ih']
      | inline n v => simp [ih']
      | bare n => simp [ih, ih']

theorem refused_mem {x : Text} {args : List Text} (hs : start x = none) (hh : hyphen x = true) (hx : x ∈ args) : tokens args = none := by
  obtain ⟨pre, rest, rfl⟩ := List.append_of_mem hx
  exact refused_at hs hh rest pre

theorem declared_none {env : Env} {args : List Text} (h : tokens args = none) : declared env args = none := by
  unfold declared
  rw [h]
  rfl

theorem command_drop (env : Env) (i : Input) (t : Task) : (command env i t).drop 2 =
    ["--save-lock".toList, "--task".toList, t.id, place env i.main] ++
    given "--root" (i.root.toList.map (place env)) ++ i.inputs.map (fun kv => "--input=".toList ++ kv.1 ++ "=".toList ++ kv.2) ++
    given "--font-path" (i.fontPaths.map (place env)) ++ (if i.systemFonts then [] else ["--ignore-system-fonts".toList]) ++
    given "--package-path" (i.packagePath.toList.map (place env)) ++ given "--package-cache-path" (i.packageCachePath.toList.map (place env)) ++
    given "--output" t.output.toList ++ pagesOf t ++ formatOf t.kind := by
  unfold command
  simp only [List.append_assoc, List.cons_append, List.drop_succ_cons, List.drop_zero]

/-- A task with a pattern for its output is refused: the command line has no such option. -/
theorem output_refused (env : Env) (i : Input) {t : Task} {o : Text} (h : t.output = some o) : declared env ((command env i t).drop 2) = none := by
  refine declared_none (refused_mem (x := "--output".toList) rfl rfl ?_)
  rw [command_drop, h]
  simp only [List.mem_append]
  exact .inl (.inl (.inr (List.mem_cons_self ..)))

/-- A document with inputs is refused. -/
theorem inputs_refused (env : Env) {i : Input} (t : Task) (h : i.inputs ≠ []) : declared env ((command env i t).drop 2) = none := by
  obtain ⟨kv, l, hl⟩ := List.exists_cons_of_ne_nil h
  refine declared_none (refused_mem (x := "--input=".toList ++ kv.1 ++ "=".toList ++ kv.2) ?_ rfl ?_)
  · have e : "--input=".toList ++ kv.1 ++ "=".toList ++ kv.2 = '-' :: '-' :: 'i' :: 'n' :: 'p' :: 'u' :: 't' :: '=' :: (kv.1 ++ "=".toList ++ kv.2) := by
      rw [List.append_assoc, List.append_assoc, List.append_assoc]
      rfl
    rw [e]
    rfl
  · rw [command_drop, hl]
    simp only [List.mem_append]
    exact .inl (.inl (.inl (.inl (.inl (.inl (.inl (.inr (List.mem_cons_self ..))))))))

/-- A task with a time of creation is refused. -/
theorem timestamp_refused (env : Env) (i : Input) {t : Task} {st : List Standard} {n : Int} (h : t.kind = .pdf st (some n)) :
    declared env ((command env i t).drop 2) = none := by
  refine declared_none (refused_mem (x := "--creation-timestamp".toList) rfl rfl ?_)
  rw [command_drop, h]
  simp only [List.mem_append]
  refine .inr ?_
  unfold formatOf
  rw [List.mem_append]
  exact .inr (List.mem_cons_self ..)

/-- A task that asks for a readable output is refused. -/
theorem pretty_refused (env : Env) (i : Input) {t : Task} (h : Pages.Transform.pretty ∈ t.transform) :
    declared env ((command env i t).drop 2) = none := by
  refine declared_none (refused_mem (x := "--pretty".toList) rfl rfl ?_)
  rw [command_drop]
  simp only [List.mem_append]
  exact .inl (.inr (List.mem_flatMap.2 ⟨_, h, List.mem_cons_self ..⟩))

/-- Pages up to a last one, that the command line takes as `--pages=-3`, are written so that it refuses them. -/
theorem open_pages_refused (env : Env) (i : Input) {t : Task} {rs : List Pages.Pages} {n : Nat} (h : Pages.Transform.pages rs ∈ t.transform)
    (hr : ⟨none, some n⟩ ∈ rs) : declared env ((command env i t).drop 2) = none := by
  have hc : ∀ c ∈ RustNum.print 10 n, c ≠ '=' ∧ c ≠ '-' := by
    intro c hc
    obtain ⟨d, hd, rfl⟩ := RustNum.mem_print (by decide) n c hc
    have : ∀ d < 10, RustNum.digitChar d ≠ '=' ∧ RustNum.digitChar d ≠ '-' := by decide
    exact this d hd
  obtain ⟨c, l, hp⟩ := List.exists_cons_of_ne_nil (RustNum.print_ne_nil (b := 10) (by decide) n)
  have hs : Pages.showPages ⟨none, some n⟩ = '-' :: c :: l := by
    unfold Pages.showPages
    simp only [Pages.showBound]
    rw [List.nil_append, hp]
  have hcc : c ≠ '-' := (hc c (by rw [hp]; exact List.mem_cons_self ..)).2
  have hc' : c ≠ '=' := (hc c (by rw [hp]; exact List.mem_cons_self ..)).1
  have hh : hyphen ('-' :: c :: l) = true := by simp [hyphen]
  have hno : ∀ m : Text, nameOf ('-' :: c :: m) = none := by
    intro m
    unfold nameOf
    rw [List.find?_eq_none]
    intro n _
    have : ∃ u, n.text = '-' :: '-' :: u := by cases n <;> exact ⟨_, rfl⟩
    obtain ⟨u, hu⟩ := this
    rw [hu]
    simp [Ne.symm hcc]
  refine declared_none (refused_mem (x := '-' :: c :: l) ?_ hh ?_)
  · unfold start
    rw [hh, if_pos rfl, List.takeWhile_cons, if_pos (by decide), List.takeWhile_cons, if_pos (by simp [hc']), hno]
  · rw [command_drop]
    simp only [List.mem_append]
    refine .inl (.inr (List.mem_flatMap.2 ⟨_, h, ?_⟩))
    simp only [given, List.mem_flatMap, List.mem_map]
    exact ⟨_, ⟨_, hr, hs⟩, by simp⟩

theorem inline_at {x v : Text} {n : Name} (hs : start x = some (.inline n v)) (hh : hyphen x = true) (rest : List Text) :
    ∀ (pre : List Text) {ts : List Tok}, tokens (pre ++ x :: rest) = some ts → .opt n v ∈ ts
  | [], ts, h => by
    rw [List.nil_append] at h
    cases rest with
    | nil =>
      simp only [tokens, hs, Option.some.injEq] at h
      subst h
      exact List.mem_singleton.2 rfl
    | cons y rest =>
      simp only [tokens, hs, Option.map_eq_some_iff] at h
      obtain ⟨u, _, rfl⟩ := h
      exact List.mem_cons_self ..
  | [a], ts, h => by
    rw [List.cons_append, List.nil_append, tokens] at h
    have ih : ∀ {u}, tokens (x :: rest) = some u → .opt n v ∈ u := fun hu => inline_at hs hh rest [] hu
    cases ha : start a with
    | none => simp [ha] at h
    | some s =>
      cases s with
      | positional =>
        simp only [ha, Option.map_eq_some_iff] at h
        obtain ⟨u, hu, rfl⟩ := h
        exact List.mem_cons_of_mem _ (ih hu)
      | inline m w =>
        simp only [ha, Option.map_eq_some_iff] at h
        obtain ⟨u, hu, rfl⟩ := h
        exact List.mem_cons_of_mem _ (ih hu)
      | bare m =>
        simp only [ha, hh, if_true] at h
        by_cases hm : m.takesValue = true
        · simp [hm] at h
        · simp only [hm, Bool.false_eq_true, if_false, Option.map_eq_some_iff] at h
          obtain ⟨u, hu, rfl⟩ := h
          exact List.mem_cons_of_mem _ (ih hu)
  | a :: b :: pre, ts, h => by
    rw [List.cons_append, List.cons_append, tokens] at h
    have ih : ∀ {u}, tokens (pre ++ x :: rest) = some u → .opt n v ∈ u := fun hu => inline_at hs hh rest pre hu
    have ih' : ∀ {u}, tokens (b :: (pre ++ x :: rest)) = some u → .opt n v ∈ u := fun hu => inline_at hs hh rest (b :: pre) hu
    cases ha : start a with
    | none => simp [ha] at h
    | some s =>
      cases s with
      | positional =>
        simp only [ha, Option.map_eq_some_iff] at h
        obtain ⟨u, hu, rfl⟩ := h
        exact List.mem_cons_of_mem _ (ih' hu)
      | inline m w =>
        simp only [ha, Option.map_eq_some_iff] at h
        obtain ⟨u, hu, rfl⟩ := h
        exact List.mem_cons_of_mem _ (ih' hu)
      | bare m =>
        simp only [ha] at h
        by_cases hm : m.takesValue = true
        · rw [if_pos hm] at h
          split at h
          · cases h
          · rw [Option.map_eq_some_iff] at h
            obtain ⟨u, hu, rfl⟩ := h
            exact List.mem_cons_of_mem _ (ih hu)
        · rw [if_neg hm, Option.map_eq_some_iff] at h
          obtain ⟨u, hu, rfl⟩ := h
          exact List.mem_cons_of_mem _ (ih' hu)

theorem bad_format {env : Env} {args : List Text} {x v : Text} (hx : x ∈ args) (hs : start x = some (.inline .format v)) (hh : hyphen x = true)
    (hv : parseFormat v = none) : declared env args = none := by
  cases ht : tokens args with
  | none => exact declared_none ht
  | some ts =>
    obtain ⟨pre, rest, rfl⟩ := List.append_of_mem hx
    have hm := inline_at hs hh rest pre ht
    have hvm : v ∈ values .format ts := List.mem_filterMap.2 ⟨_, hm, by simp⟩
    have hsing : single .format ts = none ∨ single .format ts = some (some v) := by
      unfold single
      cases hvs : values .format ts with
      | nil => rw [hvs] at hvm; cases hvm
      | cons u us =>
        cases us with
        | nil =>
          rw [hvs] at hvm
          rw [List.mem_singleton.1 hvm]
          exact .inr rfl
        | cons _ _ => exact .inl rfl
    unfold declared
    rw [ht]
    simp only [Option.bind_eq_bind, Option.bind_some]
    rcases hsing with h | h <;> simp [h, hv]

/-- A task that writes Markdown, text or a page of HTML with pictures is refused: the command line has no such format. -/
theorem format_refused (env : Env) (i : Input) {t : Task} (h : t.kind = .md ∨ t.kind = .text ∨ t.kind = .svgHtml) :
    declared env ((command env i t).drop 2) = none := by
  have hm : ∀ {x}, x ∈ formatOf t.kind → x ∈ (command env i t).drop 2 := fun hx => by
    rw [command_drop, List.mem_append]
    exact .inr hx
  rcases h with h | h | h
  · exact bad_format (x := "--format=md".toList) (v := "md".toList) (hm (by rw [h]; exact List.mem_cons_self ..)) rfl rfl (by decide)
  · exact bad_format (x := "--format=txt".toList) (v := "txt".toList) (hm (by rw [h]; exact List.mem_cons_self ..)) rfl rfl (by decide)
  · exact bad_format (x := "--format=svg_html".toList) (v := "svg_html".toList) (hm (by rw [h]; exact List.mem_cons_self ..)) rfl rfl (by decide)

/-! ## What is injected -/

/-- Words that a shell reads as they are. -/
def Words (ws : List Text) : Prop := ws ≠ [] ∧ ∀ w ∈ ws, w ≠ [] ∧ ∀ c ∈ w, c ≠ ' ' ∧ c ≠ '\n' ∧ c ≠ '#' ∧ c ≠ '\'' ∧ c ≠ '"' ∧ Special c = false

theorem means_words : ∀ {ws : List Text}, (∀ w ∈ ws, w ≠ [] ∧ ∀ c ∈ w, c ≠ ' ' ∧ c ≠ '\n' ∧ c ≠ '#' ∧ c ≠ '\'' ∧ c ≠ '"' ∧ Special c = false) →
    Means ws ws
  | [], _ => .nil
  | w :: ws, h => by
    obtain ⟨h1, h2⟩ := h w (List.mem_cons_self ..)
    refine .word (reads_plain (List.all_eq_true.2 fun c hc => ?_) h1) (means_words fun u hu => h u (List.mem_cons_of_mem _ hu))
    obtain ⟨a, b, c, d, e, f⟩ := h2 c hc
    simp [plain, a, b, c, d, e, f]

/-- A line break in the identifier of a task is not escaped in the comment: whatever words follow it are run by the shell, before the
command of the task. -/
theorem injected (env : Env) {i : Input} {t : Task} {ws : List Text} (hw : Words ws) (hi : OnDisk i) (hd : t.document = i.id)
    (hl : OneLine i.id) (hk : t.kind ≠ .preview) (he : ∀ ext, t.kind = .query ext → OneLine ext)
    (hid : t.id = '\n' :: (joinWords ws ++ "\n#".toList)) :
    shell (script env .bash ⟨[i], [t]⟩) = some [ws, command env i t] := by
  have hget : getDocument ⟨[i], [t]⟩ t.document = some i := by
    rw [hd]
    simp [getDocument]
  have hex : asExport t.kind = true := by
    cases h : t.kind with
    | preview => exact (hk h).elim
    | _ => rfl
  have e : taskScript env ⟨[i], [t]⟩ t = '#' :: ((" From ".toList ++ t.document ++ " to ".toList) ++ ('\n' :: ((joinWords ws ++ ['\n']) ++
      ('#' :: ((" (".toList ++ extension t.kind ++ [')']) ++ ('\n' :: (joinWords (commandWords env i t) ++ ['\n']))))))) := by
    unfold taskScript
    rw [hget]
    simp only [hex, if_true]
    rw [show "# From ".toList = '#' :: " From ".toList by decide, show ")\n".toList = [')', '\n'] by decide]
    conv => lhs; rw [List.append_assoc, List.append_assoc, List.append_assoc, List.append_assoc]
    rw [hid, show "\n#".toList = ['\n', '#'] by decide]
    simp only [List.append_assoc, List.cons_append, List.nil_append]
  have h1 : ∀ d, step ⟨d, [], .between⟩ '#' = some ⟨d, [], .comment⟩ := fun d => rfl
  have h2 : ∀ d, step ⟨d, [], .comment⟩ '\n' = some ⟨d, [], .between⟩ := fun d => rfl
  have c1 : '\n' ∉ " From ".toList ++ t.document ++ " to ".toList := by
    simp only [List.mem_append, not_or]
    exact ⟨⟨by decide, by rw [hd]; exact hl⟩, by decide⟩
  have c2 : '\n' ∉ " (".toList ++ extension t.kind ++ [')'] := by
    simp only [List.mem_append, not_or]
    exact ⟨⟨by decide, query_or he⟩, by decide⟩
  have hr : readFrom ⟨[], [], .between⟩ ([t].flatMap (taskScript env ⟨[i], [t]⟩)) = some ⟨[ws, command env i t], [], .between⟩ := by
    rw [List.flatMap_cons, List.flatMap_nil, List.append_nil, e, readFrom, h1, Option.bind_some, readFrom_append, read_comment _ _ c1,
      Option.bind_some, readFrom, h2, Option.bind_some, readFrom_append, read_words (means_words hw.2) hw.1, Option.bind_some, readFrom, h1,
      Option.bind_some, readFrom_append, read_comment _ _ c2, Option.bind_some, readFrom, h2, Option.bind_some,
      read_words (means_command hi t) (commandWords_ne env i t), List.nil_append, List.nil_append, ended_ne hw.1, ended_ne (command_ne env i t)]
    rfl
  have hb : ∀ body, readFrom ⟨[], [], .between⟩ ("#!/usr/bin/env bash\n\n".toList ++ body) = readFrom ⟨[], [], .between⟩ body := by
    intro body
    rw [readFrom_append]
    rfl
  unfold shell script
  simp only [hb, hr]
  rfl

/-- Such a lock file. -/
theorem injected_case : ∃ (i : Input) (t : Task) (ws : List Text), Words ws ∧ OnDisk i ∧ t.document = i.id ∧ OneLine i.id ∧ t.kind = .svg ∧
    t.id = '\n' :: (joinWords ws ++ "\n#".toList) := by
  refine ⟨⟨"d".toList, ⟨"file".toList, "a.typ".toList⟩, none, [], [], true, none, none⟩,
    ⟨'\n' :: (joinWords ["rm".toList, "-r".toList, "docs".toList] ++ "\n#".toList), "d".toList, .svg, .never, none, []⟩,
    ["rm".toList, "-r".toList, "docs".toList], ⟨by simp, by decide⟩, ?_, rfl, by unfold OneLine; decide, rfl, rfl⟩
  intro r hr
  simp only [resources, Option.toList_none, List.append_nil, List.mem_singleton] at hr
  subst hr
  rfl

end Tinymist.BuildScript
