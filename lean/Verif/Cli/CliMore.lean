import Verif.Cli.CliExamples

/-! # Command-line interface: input, CCG trees, options of drawings, stored arguments (C108) -/

namespace Lambeq
namespace Cli

variable {D T : Type} (W : World D T)

/-- The text a run is about: the sentence; else the file; else standard input. -/
inductive InputText (a : Args) : String → Prop
  | sentence (s : String) : a .inputSentence = .str s → s ≠ "" → InputText a s
  | file (s : String) : a .inputSentence = .str "" → a .inputFile ≠ .none → W.readFile (a .inputFile) = .ok s → InputText a (W.strip s)
  | stdin : a .inputSentence = .str "" → a .inputFile = .none → InputText a (W.strip W.stdin)

/-- The text that is read is that of the arguments. -/
theorem C108_input (a : Args) (text : String) : readText W a = .ok text ↔ InputText W a text := by
  constructor
  · intro h
    simp only [readText] at h
    split at h
    · rename_i s hs
      by_cases he : s = ""
      · subst he
        by_cases hf : a .inputFile = .none
        · simp [hf] at h; subst h; exact .stdin hs hf
        · simp only [ne_eq, not_true_eq_false, if_false, hf, not_false_eq_true, if_true] at h
          split at h
          · cases h
          · rename_i t ht; cases h; exact .file t hs hf ht
      · rw [if_pos he] at h; cases h; exact .sentence _ hs he
    · cases h
  · intro h
    cases h with
    | sentence s hs hn => simp [readText, hs, hn]
    | file s hs hf hr => simp [readText, hs, hf, hr]
    | stdin hs hf => simp [readText, hs, hf]

/-- The sentences a text is split into; tokenised or not. -/
theorem C108_sentence_split (a : Args) (text : String) :
    ∃ ss : List String, ((a .splitSentences).truthy = true ∧ ss = W.splitSentences text ∨
        (a .splitSentences).truthy = false ∧ joinOn '\n' (ss.map String.toList) = text.toList ∧ (∀ s ∈ ss, '\n' ∉ s.toList) ∧ ss ≠ []) ∧
      sentences W a text = ss.map (fun s => if (a .tokenise).truthy = true then .tokens (W.tokensOf s) else .text s) := by
  have hmap : ∀ ss : List String, (if (a .tokenise).truthy = true then ss.map (fun x => Sent.tokens (W.tokensOf x)) else ss.map .text) =
      ss.map (fun s => if (a .tokenise).truthy = true then Sent.tokens (W.tokensOf s) else .text s) := by
    intro ss; cases (a .tokenise).truthy <;> simp
  cases hs : (a .splitSentences).truthy with
  | true => exact ⟨W.splitSentences text, .inl ⟨rfl, rfl⟩, by simp only [sentences, hs, if_true]; exact hmap _⟩
  | false =>
    refine ⟨(splitOn '\n' text.toList).map String.ofList, .inr ⟨rfl, ?_, ?_, ?_⟩, by simp only [sentences, hs, Bool.false_eq_true, if_false]; exact hmap _⟩
    · rw [List.map_map]
      have : (String.toList ∘ String.ofList) = (id : List Char → List Char) := by funext l; simp
      rw [this, List.map_id]; exact splitOn_join _ _
    · intro s hs
      obtain ⟨l, hl, rfl⟩ := List.mem_map.1 hs
      rw [String.toList_ofList]; exact splitOn_clean _ _ l hl
    · simp [splitOn_ne_nil]

/-- What a run writes about CCG trees. -/
inductive TreeOutput (a : Args) (ts : List T) : Effect D T → Prop
  | json : a .outputFormat = .str "json" → a .outputFile ≠ .none → TreeOutput a ts (.jsonTrees (a .outputFile) ts)
  | pickle : a .outputFormat = .str "pickle" → a .outputFile ≠ .none → TreeOutput a ts (.pickleTrees (a .outputFile) ts)
  | text : IsText a → a .outputFile ≠ .none → TreeOutput a ts (.text (a .outputFile) ("\n".intercalate (ts.map (W.deriv (decide (a .outputFormat = .str "text-ascii"))))))
  | print : IsText a → a .outputFile = .none → TreeOutput a ts (.print ("\n".intercalate (ts.map (W.deriv (decide (a .outputFormat = .str "text-ascii"))))))

/-- With mode `ccg` an accepted run has one output: the trees of the sentences that can be parsed, in order, without trivial unary rules; parsed with the root categories if no parser is named. -/
theorem C108_trees {read parse tree} (hW : Sentencewise W read parse tree) (a : Args) (hv : Valid a) (hok : validate a = .ok ()) (hm : a .mode = .str "ccg") (text : String) (ht : InputText W a text) :
    ∃ e, pipeline W a = ([e], .ok ()) ∧
      TreeOutput W a (((sentences W a text).filterMap (fun s =>
        if a .parser = .none then tree (.str "bobcat") (some (a .rootCategories)) s (a .tokenise).truthy else tree (.str "bobcat") .none s (a .tokenise).truthy)).map W.dropTrivial) e := by
  obtain ⟨_, hfile, _, _, hdir, hccg, _⟩ := (C108_validate a hv).1 hok
  obtain ⟨_, _, _, himg, hpar⟩ := hccg hm
  have hdir' : a .outputDir = .none := by rcases hdir with h | h; exact h; exact absurd h himg
  have hparse : parseTrees W a text = .ok (((sentences W a text).filterMap (fun s =>
        if a .parser = .none then tree (.str "bobcat") (some (a .rootCategories)) s (a .tokenise).truthy else tree (.str "bobcat") .none s (a .tokenise).truthy)).map W.dropTrivial) := by
    simp only [parseTrees, hW.trees, List.filterMap_map]
    congr 2
    rcases hpar with h | h
    · simp [parserOf, h]
    · simp [parserOf, h]
  generalize ((sentences W a text).filterMap (fun s =>
        if a .parser = .none then tree (.str "bobcat") (some (a .rootCategories)) s (a .tokenise).truthy else tree (.str "bobcat") .none s (a .tokenise).truthy)).map W.dropTrivial = ts at hparse
  have hnm : ¬ (a .mode).isIn ["string-diagram", "pregroups"] = true := by rw [hm]; decide
  have hp : pipeline W a = (saveTrees W a ts, .ok ()) := by
    simp only [pipeline, if_neg hnm, (C108_input W a text).2 ht, hparse]
  have hf := hv.format
  simp only [isIn_cons, isIn_nil, or_false] at hf
  by_cases htext : IsText a
  · have hj : a .outputFormat ≠ .str "json" := by rcases htext with h | h <;> (rw [h]; decide)
    by_cases ho : a .outputFile = .none
    · exact ⟨_, by rw [hp]; simp only [saveTrees, if_neg hj, if_pos ((text_iff a).2 htext), putText, ho]; rfl, .print htext ho⟩
    · exact ⟨_, by rw [hp]; simp only [saveTrees, if_neg hj, if_pos ((text_iff a).2 htext), putText, if_pos ho], .text htext ho⟩
  · have ho : a .outputFile ≠ .none := by
      rcases hfile with h | h | h
      · exact absurd h htext
      · exact h
      · exact absurd hdir' h
    rcases hf with h | h | h | h | h
    · exact ⟨_, by rw [hp]; simp only [saveTrees, if_pos h], .json h ho⟩
    · have hj : a .outputFormat ≠ .str "json" := by rw [h]; decide
      exact ⟨_, by rw [hp]; simp only [saveTrees, if_neg hj, if_neg (fun e => htext ((text_iff a).1 e)), if_pos h, if_pos ho], .pickle h ho⟩
    · exact absurd (.inr h) htext
    · exact absurd (.inl h) htext
    · exact absurd h himg

/-- Images have the size of `fig_width` and `fig_height` iff both are given and there is one diagram only; the font size is that of the options. -/
theorem drawAll_options (a : Args) (o : List (String × Int)) (ho : a .outputOptions = .opts o) (n : Nat) (ds : List D) : ∀ i (p : String) (f : Option (Int × Int)) (s : Option Int) (d : D),
    (Effect.image p f s d : Effect D T) ∈ (drawAll (T := T) W a n i ds).1 → s = dictGet o "fontsize" ∧
      (∀ w h, f = some (w, h) ↔ n = 1 ∧ dictGet o "fig_width" = some w ∧ dictGet o "fig_height" = some h) := by
  induction ds with
  | nil => intro i p f s d hm; simp [drawAll] at hm
  | cons d0 ds ih =>
    intro i p f s d hm
    simp only [drawAll] at hm
    split at hm
    · simp at hm
    · rcases List.mem_cons.1 hm with e | hm
      · cases e
        simp only [drawOptions, ho]
        refine ⟨trivial, fun w h => ?_⟩
        cases dictGet o "fig_width" <;> cases dictGet o "fig_height" <;> simp
      · exact ih _ _ _ _ _ hm

theorem putText_no_image (a : Args) (ls : List String) (p : String) (f : Option (Int × Int)) (s : Option Int) (d : D) : (Effect.image p f s d : Effect D T) ∉ putText a ls := by
  simp only [putText]; split <;> simp

/-- The options of drawings are those of the arguments. -/
theorem C108_draw_options (a : Args) (o : List (String × Int)) (ho : a .outputOptions = .opts o) (ds : List D) (p : String) (f : Option (Int × Int)) (s : Option Int) (d : D)
    (hm : (Effect.image p f s d : Effect D T) ∈ (saveDiagrams W a ds).1) :
    s = dictGet o "fontsize" ∧ (∀ w h, f = some (w, h) ↔ ds.length = 1 ∧ dictGet o "fig_width" = some w ∧ dictGet o "fig_height" = some h) := by
  simp only [saveDiagrams] at hm
  split at hm
  · simp at hm
  · split at hm
    · split at hm
      · simp at hm
      · split at hm
        · simp at hm
        · exact absurd hm (putText_no_image a _ p f s d)
    · split at hm
      · split at hm <;> simp at hm
      · split at hm
        · split at hm
          · rcases List.mem_cons.1 hm with e | hm
            · cases e
            · exact drawAll_options W a o ho _ ds _ p f s d hm
          · split at hm
            · simp at hm
            · exact drawAll_options W a o ho _ ds _ p f s d hm
        · simp at hm

/-- Diagrams are pickled as they come out of the pipeline, to the output file. -/
theorem C108_pickle (a : Args) (hv : Valid a) (hok : validate a = .ok ()) (hd : IsDiagram a) (hp : a .outputFormat = .str "pickle") (out : List D) (h : diagrams W a = .ok out) :
    pipeline W a = ([.pickle (a .outputFile) out], .ok ()) ∧ a .outputFile ≠ .none := by
  obtain ⟨_, hfile, _, _, hdir, _, _⟩ := (C108_validate a hv).1 hok
  have ho : a .outputFile ≠ .none := by
    rcases hfile with h | h | h
    · rcases h with h | h <;> (rw [hp] at h; exact absurd h (by decide))
    · exact h
    · rcases hdir with e | e
      · exact absurd e h
      · rw [hp] at e; exact absurd e (by decide)
  have hnt : ¬ (a .outputFormat).isIn ["text-ascii", "text-unicode"] = true := by rw [hp]; decide
  have hnj : a .outputFormat ≠ .str "json" := by rw [hp]; decide
  refine ⟨?_, ho⟩
  simp only [pipeline, if_pos ((mode_iff a hv).2 hd), h, saveDiagrams, if_neg hnj, if_neg hnt, if_pos hp, if_pos ho]

theorem pipeline_store (a : Args) (c : Val) : pipeline W (a.set .storeArgs c) = pipeline W a := by
  have h1 : ∀ k, k ≠ .storeArgs → a.set .storeArgs c k = a k := fun k hk => set_other _ _ hk
  have hr : readText W (a.set .storeArgs c) = readText W a := by
    simp only [readText, h1 _ (by decide : Key.inputSentence ≠ .storeArgs), h1 _ (by decide : Key.inputFile ≠ .storeArgs)]
  have hs : ∀ t, sentences W (a.set .storeArgs c) t = sentences W a t := by
    intro t
    simp only [sentences, h1 _ (by decide : Key.splitSentences ≠ .storeArgs), h1 _ (by decide : Key.tokenise ≠ .storeArgs)]
  have hpo : parserOf (a.set .storeArgs c) = parserOf a := by
    simp only [parserOf, h1 _ (by decide : Key.parser ≠ .storeArgs), h1 _ (by decide : Key.rootCategories ≠ .storeArgs)]
  have hp : ∀ t, parseDiagrams W (a.set .storeArgs c) t = parseDiagrams W a t := by
    intro t
    simp only [parseDiagrams, hs, hpo, h1 _ (by decide : Key.tokenise ≠ .storeArgs), h1 _ (by decide : Key.reader ≠ .storeArgs), h1 _ (by decide : Key.mode ≠ .storeArgs)]
  have hpt : ∀ t, parseTrees W (a.set .storeArgs c) t = parseTrees W a t := by
    intro t
    simp only [parseTrees, hs, hpo, h1 _ (by decide : Key.tokenise ≠ .storeArgs)]
  have hdi : diagrams W (a.set .storeArgs c) = diagrams W a := by
    simp only [diagrams, hr, hp, rewriteModule, ansatzModule, h1 _ (by decide : Key.rewriteRules ≠ .storeArgs), h1 _ (by decide : Key.ansatz ≠ .storeArgs),
      h1 _ (by decide : Key.ansatzOptions ≠ .storeArgs)]
  have hi : ∀ n i, imagePath (a.set .storeArgs c) n i = imagePath a n i := by
    intro n i
    simp only [imagePath, h1 _ (by decide : Key.outputDir ≠ .storeArgs), h1 _ (by decide : Key.outputFile ≠ .storeArgs), h1 _ (by decide : Key.imageFormat ≠ .storeArgs)]
  have hall : ∀ (n : Nat) (ds : List D) (i : Nat), drawAll (T := T) W (a.set .storeArgs c) n i ds = drawAll W a n i ds := by
    intro n ds
    induction ds with
    | nil => intro i; rfl
    | cons d ds ih =>
      intro i
      simp only [drawAll, ih, hi, h1 _ (by decide : Key.outputOptions ≠ .storeArgs)]
  have hm : a.set .storeArgs c .mode = a .mode := h1 _ (by decide)
  simp only [pipeline, hm, hdi, hr, hpt, saveDiagrams, saveTrees, hall, putText, h1 _ (by decide : Key.outputFormat ≠ .storeArgs), h1 _ (by decide : Key.outputFile ≠ .storeArgs),
    h1 _ (by decide : Key.outputDir ≠ .storeArgs)]

/-- An accepted run stores its arguments first, if it has to, all but the name of that file; otherwise it does what it would do without storing them. -/
theorem C108_store (cl : Args) (saved : Option (List (Key × Val))) (hok : validate (effective cl saved) = .ok ()) :
    ∃ content, (main W cl saved).1 = (if effective cl saved .storeArgs = .none then [] else [.storeArgs (effective cl saved .storeArgs) content]) ++ (pipeline W (effective cl saved)).1 ∧
      (main W cl saved).2 = (pipeline W (effective cl saved)).2 ∧
      ∀ k v, (k, v) ∈ content ↔ v = if k = .storeArgs then .none else effective cl saved k := by
  refine ⟨stored (effective cl saved), ?_, ?_, ?_⟩
  · simp only [main, hok]
    by_cases h : effective cl saved .storeArgs = .none
    · simp [h]
    · rw [if_pos h, if_neg h, pipeline_store]; rfl
  · simp only [main, hok]
    by_cases h : effective cl saved .storeArgs = .none
    · simp [h]
    · rw [if_pos h, pipeline_store]
  · intro k v
    have hk : k ∈ keys := by cases k <;> decide
    simp only [stored, List.mem_map, Prod.mk.injEq]
    constructor
    · rintro ⟨k', _, rfl, rfl⟩
      by_cases h : k' = .storeArgs
      · simp [h, Args.set]
      · simp [h, Args.set]
    · rintro rfl
      exact ⟨k, hk, rfl, rfl⟩

/-! ## Examples -/

example : main exWorld (cmd [(.inputSentence, .str "ab\nx\ncd"), (.mode, .str "ccg"), (.outputFormat, .str "json"), (.outputFile, .str "f"), (.storeArgs, .str "g")]) none =
    ([.storeArgs (.str "g") (stored (effective (cmd [(.inputSentence, .str "ab\nx\ncd"), (.mode, .str "ccg"), (.outputFormat, .str "json"), (.outputFile, .str "f"), (.storeArgs, .str "g")]) none)),
      .jsonTrees (.str "f") ["ab", "cd"]], .ok ()) := by decide +kernel
example : main exWorld (cmd [(.mode, .str "ccg")]) none = ([.print "ab"], .ok ()) := by decide +kernel
example : main exWorld (cmd [(.inputSentence, .str "ab"), (.outputFormat, .str "image"), (.outputFile, .str "d"), (.outputOptions, .opts [("fig_width", 3), ("fig_height", 4), ("fontsize", 9)])]) none =
    ([.image "d.png" (some (3, 4)) (some 9) "ab"], .ok ()) := by decide +kernel

end Cli
end Lambeq
