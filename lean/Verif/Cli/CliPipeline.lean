import Verif.Cli.CliTheorems

/-! # Command-line interface: the pipeline (C108) -/

namespace Lambeq
namespace Cli
set_option linter.unusedSimpArgs false

variable {D T : Type} {W : World D T}

/-! ## One output for each sentence that is parsed -/

/-- Parsers and readers work sentence by sentence. -/
structure Sentencewise (W : World D T) (read : Val → Sent → Bool → Option D) (parse : Val → Option Val → Sent → Bool → Option D) (tree : Val → Option Val → Sent → Bool → Option T) : Prop where
  reader : ∀ r ss tok, W.reader r ss tok = .ok (ss.map (fun s => read r s tok))
  parser : ∀ p c ss tok, W.parseDiagrams p c ss tok = .ok (ss.map (fun s => parse p c s tok))
  trees : ∀ p c ss tok, W.parseTrees p c ss tok = .ok (ss.map (fun s => tree p c s tok))

/-- `d'` is what the arguments ask for of the diagram `d`: mode, then rewriting, then ansatz. -/
def Becomes (W : World D T) (a : Args) (d d' : D) : Prop :=
  ∃ d1 d2, (if a .reader = .none ∧ a .mode = .str "pregroups" then ∃ n, W.pregroupNF d = .ok n ∧ W.removeSwaps n = .ok d1 else d1 = d) ∧
    (if a .rewriteRules = .none then d2 = d1 else ∃ r, W.rewrite (a .rewriteRules) d1 = .ok r ∧ W.normalForm r = .ok d2) ∧
    (if a .ansatz = .none then d' = d2 else ∃ o n s, a .ansatzOptions = .opts o ∧ dictGet o "dim_n" = some n ∧ dictGet o "dim_s" = some s ∧
      W.ansatz (a .ansatz) n s (o.filter (fun kv => W.supports (a .ansatz) kv.1)) d2 = .ok d')

theorem forall₂_comp {α β γ : Type} {R : α → β → Prop} {S : β → γ → Prop} : ∀ {xs ys zs}, List.Forall₂ R xs ys → List.Forall₂ S ys zs → List.Forall₂ (fun x z => ∃ y, R x y ∧ S y z) xs zs := by
  intro xs ys zs h
  induction h generalizing zs with
  | nil => intro h2; cases h2; exact .nil
  | cons h _ ih => intro h2; cases h2 with | cons h2 h3 => exact .cons ⟨_, h, h2⟩ (ih h3)

theorem forall₂_refl {α : Type} (xs : List α) : List.Forall₂ (fun x y => y = x) xs xs := by
  induction xs with
  | nil => exact .nil
  | cons x xs ih => exact .cons rfl ih

theorem rewrite_steps (a : Args) (ds out : List D) (h : rewriteModule W a ds = .ok out) :
    List.Forall₂ (fun d1 d2 => if a .rewriteRules = .none then d2 = d1 else ∃ r, W.rewrite (a .rewriteRules) d1 = .ok r ∧ W.normalForm r = .ok d2) ds out := by
  simp only [rewriteModule] at h
  split at h
  · rename_i hr
    cases h
    simp only [hr, if_true]; exact forall₂_refl _
  · rename_i hr
    have := (mapPy_iff _ _ _).mp h
    refine this.imp ?_
    intro x y hxy
    rw [if_neg hr]
    split at hxy
    · cases hxy
    · rename_i d e; exact ⟨d, e, hxy⟩

theorem ansatz_steps (a : Args) (ds out : List D) (h : ansatzModule W a ds = .ok out) :
    List.Forall₂ (fun d2 d' => if a .ansatz = .none then d' = d2 else ∃ o n s, a .ansatzOptions = .opts o ∧ dictGet o "dim_n" = some n ∧ dictGet o "dim_s" = some s ∧
      W.ansatz (a .ansatz) n s (o.filter (fun kv => W.supports (a .ansatz) kv.1)) d2 = .ok d') ds out := by
  simp only [ansatzModule] at h
  split at h
  · rename_i hr
    cases h
    simp only [hr, if_true]; exact forall₂_refl _
  · rename_i hr
    split at h
    · rename_i o ho
      split at h
      · cases h
      · rename_i n hn
        split at h
        · cases h
        · rename_i s hs
          refine ((mapPy_iff _ _ _).mp h).imp ?_
          intro x y hxy
          rw [if_neg hr]
          exact ⟨o, n, s, ho, hn, hs, hxy⟩
    · cases h

theorem pregroup_steps (ds out : List D)
    (h : mapPy (fun d => match W.pregroupNF d with | .error e => .error e | .ok d => W.removeSwaps d) ds = .ok out) :
    List.Forall₂ (fun d d1 => ∃ n, W.pregroupNF d = .ok n ∧ W.removeSwaps n = .ok d1) ds out := by
  refine ((mapPy_iff _ _ _).mp h).imp ?_
  intro x y hxy
  split at hxy
  · cases hxy
  · rename_i d e; exact ⟨d, e, hxy⟩

/-- The diagrams of the output are those of the sentences that could be parsed, in order, each processed on its own. -/
theorem C108_outputs {read parse tree} (hW : Sentencewise W read parse tree) (a : Args) (text : String) (out : List D) (ht : readText W a = .ok text) (h : diagrams W a = .ok out) :
    List.Forall₂ (Becomes W a) ((sentences W a text).filterMap (fun s =>
      if a .reader ≠ .none then read (a .reader) s (a .tokenise).truthy else parse (parserOf a).1 (parserOf a).2 s (a .tokenise).truthy)) out := by
  simp only [diagrams, ht] at h
  split at h
  · cases h
  · rename_i ds hp
    split at h
    · cases h
    · rename_i ds2 hr
      have h2 := rewrite_steps a ds ds2 hr
      have h3 := ansatz_steps a ds2 out h
      have h1 : List.Forall₂ (fun d d1 => if a .reader = .none ∧ a .mode = .str "pregroups" then ∃ n, W.pregroupNF d = .ok n ∧ W.removeSwaps n = .ok d1 else d1 = d)
          ((sentences W a text).filterMap (fun s =>
            if a .reader ≠ .none then read (a .reader) s (a .tokenise).truthy else parse (parserOf a).1 (parserOf a).2 s (a .tokenise).truthy)) ds := by
        simp only [parseDiagrams] at hp
        by_cases hd : a .reader = .none
        · simp only [hd, ne_eq, not_true_eq_false, if_false, hW.parser, List.filterMap_map, true_and, Function.comp_def] at hp ⊢
          split at hp
          · rename_i hm
            simp only [hm, if_true]
            exact pregroup_steps _ _ hp
          · rename_i hm
            cases hp
            simp only [hm, if_false]
            exact forall₂_refl _
        · simp only [hd, ne_eq, not_false_eq_true, if_true, hW.reader, List.filterMap_map, false_and, if_false, Function.comp_def] at hp ⊢
          cases hp
          exact forall₂_refl _
      refine (forall₂_comp (forall₂_comp h1 h2) h3).imp ?_
      rintro x z ⟨d2, ⟨d1, h1, h2⟩, h3⟩
      exact ⟨d1, d2, h1, h2, h3⟩

/-- The sentences are the lines of the text, unless they are to be found by the tokeniser: joined by line breaks they are the text, and none has a line break. -/
theorem C108_sentences (a : Args) (text : String) (hs : (a .splitSentences).truthy = false) (ht : (a .tokenise).truthy = false) :
    ∃ ls : List (List Char), sentences W a text = ls.map (fun l => .text (String.ofList l)) ∧ joinOn '\n' ls = text.toList ∧ (∀ l ∈ ls, '\n' ∉ l) ∧ ls ≠ [] := by
  refine ⟨splitOn '\n' text.toList, ?_, splitOn_join _ _, splitOn_clean _ _, splitOn_ne_nil _ _⟩
  simp only [sentences, hs, ht, Bool.false_eq_true, if_false, List.map_map]
  rfl

/-- `--root_categories` has no effect if a parser or a reader is named, even the default parser. -/
theorem C108_refuted_root_categories (a : Args) (h : a .parser ≠ .none ∨ a .reader ≠ .none) (hd : (a .mode).isIn ["string-diagram", "pregroups"] = true) (c : Val) :
    pipeline W (a.set .rootCategories c) = pipeline W a := by
  have h1 : ∀ k, k ≠ .rootCategories → a.set .rootCategories c k = a k := fun k hk => set_other _ _ hk
  have hr : readText W (a.set .rootCategories c) = readText W a := by
    simp only [readText, h1 _ (by decide : Key.inputSentence ≠ .rootCategories), h1 _ (by decide : Key.inputFile ≠ .rootCategories)]
  have hs : ∀ t, sentences W (a.set .rootCategories c) t = sentences W a t := by
    intro t
    simp only [sentences, h1 _ (by decide : Key.splitSentences ≠ .rootCategories), h1 _ (by decide : Key.tokenise ≠ .rootCategories)]
  have hp : ∀ t, parseDiagrams W (a.set .rootCategories c) t = parseDiagrams W a t := by
    intro t
    simp only [parseDiagrams, hs, h1 _ (by decide : Key.tokenise ≠ .rootCategories), h1 _ (by decide : Key.reader ≠ .rootCategories), h1 _ (by decide : Key.mode ≠ .rootCategories)]
    by_cases hd : a .reader = .none
    · have hpa : a .parser ≠ .none := by rcases h with h | h; exact h; exact absurd hd h
      have : parserOf (a.set .rootCategories c) = parserOf a := by
        simp only [parserOf, h1 _ (by decide : Key.parser ≠ .rootCategories), if_pos hpa]
      rw [this]
    · simp only [hd, ne_eq, not_false_eq_true, if_true]
  have hdi : diagrams W (a.set .rootCategories c) = diagrams W a := by
    simp only [diagrams, hr, hp, rewriteModule, ansatzModule, h1 _ (by decide : Key.rewriteRules ≠ .rootCategories), h1 _ (by decide : Key.ansatz ≠ .rootCategories),
      h1 _ (by decide : Key.ansatzOptions ≠ .rootCategories)]
  have hi : ∀ n i, imagePath (a.set .rootCategories c) n i = imagePath a n i := by
    intro n i
    simp only [imagePath, h1 _ (by decide : Key.outputDir ≠ .rootCategories), h1 _ (by decide : Key.outputFile ≠ .rootCategories), h1 _ (by decide : Key.imageFormat ≠ .rootCategories)]
  have hall : ∀ (n : Nat) (ds : List D) (i : Nat), drawAll W (a.set .rootCategories c) n i ds = drawAll W a n i ds := by
    intro n ds
    induction ds with
    | nil => intro i; rfl
    | cons d ds ih =>
      intro i
      simp only [drawAll, ih, hi, h1 _ (by decide : Key.outputOptions ≠ .rootCategories)]
  have hm : a.set .rootCategories c .mode = a .mode := h1 _ (by decide)
  simp only [pipeline, hm, hd, if_true, hdi, saveDiagrams, hall, putText, h1 _ (by decide : Key.outputFormat ≠ .rootCategories), h1 _ (by decide : Key.outputFile ≠ .rootCategories),
    h1 _ (by decide : Key.outputDir ≠ .rootCategories)]

/-! ## Images -/

/-- What `diagram.normal_form().draw()` or, if that is not possible, `diagram.draw()` draws. -/
def DrawnAs (W : World D T) (d d' : D) : Prop :=
  (W.normalForm d = .ok d' ∧ ∃ u, W.draw d' = .ok u) ∨
  (d' = d ∧ (∃ u, W.draw d = .ok u) ∧ (∃ e, (e = .valueError ∨ e = .notImplementedError) ∧ (W.normalForm d = .error e ∨ ∃ n, W.normalForm d = .ok n ∧ W.draw n = .error e)))

theorem drawn_ok (d d' : D) (h : drawn W d = .ok d') : DrawnAs W d d' := by
  simp only [drawn, drawNormal] at h
  cases hn : W.normalForm d with
  | error e =>
    simp only [hn] at h
    split at h
    · rename_i he
      cases hd : W.draw d with
      | error e2 => simp only [hd] at h; cases h
      | ok u => simp only [hd] at h; cases h; exact .inr ⟨rfl, ⟨u, hd⟩, e, he, .inl hn⟩
    · cases h
  | ok n =>
    simp only [hn] at h
    cases hd : W.draw n with
    | error e =>
      simp only [hd] at h
      split at h
      · rename_i he
        cases hd2 : W.draw d with
        | error e2 => simp only [hd2] at h; cases h
        | ok u => simp only [hd2] at h; cases h; exact .inr ⟨rfl, ⟨u, hd2⟩, e, he, .inr ⟨n, hn, hd⟩⟩
      · cases h
    | ok u => simp only [hd] at h; cases h; exact .inl ⟨hn, u, hd⟩

/-- The file of an effect, if it is an image. -/
def Effect.imageFile : Effect D T → Option String
  | .image p _ _ _ => some p
  | _ => none
/-- The diagram of an effect, if it is an image. -/
def Effect.imageOf : Effect D T → Option D
  | .image _ _ _ d => some d
  | _ => none

theorem drawAll_ok (a : Args) (n : Nat) : ∀ (ds : List D) (i : Nat) (effs : List (Effect D T)), drawAll W a n i ds = (effs, .ok ()) →
    effs.length = ds.length ∧ ∀ j (hj : j < ds.length), ∃ f s d', effs[j]? = some (.image (imagePath a n (i + j)) f s d') ∧ DrawnAs W ds[j] d' := by
  intro ds
  induction ds with
  | nil => intro i effs h; simp only [drawAll, Prod.mk.injEq] at h; obtain ⟨rfl, _⟩ := h; exact ⟨rfl, fun j hj => absurd hj (by simp)⟩
  | cons d ds ih =>
    intro i effs h
    simp only [drawAll] at h
    cases hd : drawn W d with
    | error e => simp only [hd, Prod.mk.injEq] at h; exact absurd h.2 (by simp)
    | ok d' =>
      simp only [hd, Prod.mk.injEq] at h
      obtain ⟨rfl, h2⟩ := h
      have := ih (i + 1) (drawAll W a n (i + 1) ds).1 (by rw [← h2])
      refine ⟨by simp [this.1], fun j hj => ?_⟩
      cases j with
      | zero => exact ⟨_, _, d', rfl, drawn_ok d d' hd⟩
      | succ j =>
        obtain ⟨f, s, d2, h1, h3⟩ := this.2 j (by simpa using hj)
        refine ⟨f, s, d2, ?_, by simpa using h3⟩
        rw [List.getElem?_cons_succ, h1]
        rw [show i + 1 + j = i + (j + 1) by omega]

/-- Images go to the directory, one for each diagram, in files whose alphabetical order is the order of the diagrams; so no image overwrites another. -/
theorem C108_images (a : Args) (ds : List D) (effs : List (Effect D T)) (hf : a .outputFormat = .str "image") (hd : a .outputDir ≠ .none) (h : saveDiagrams W a ds = (effs, .ok ())) :
    ∃ imgs, effs = .mkdir (a .outputDir) :: imgs ∧ imgs.length = ds.length ∧
      (∀ j (hj : j < ds.length), ∃ p f s d', imgs[j]? = some (.image p f s d') ∧ DrawnAs W ds[j] d' ∧
        ∃ digits : List Char, p.toList = pathJoin (a .outputDir).chars ('d' :: 'i' :: 'a' :: 'g' :: 'r' :: 'a' :: 'm' :: '_' :: (digits ++ '.' :: (a .imageFormat).chars)) ∧
          Nat.ofDigitChars 10 digits 0 = j + 1) ∧
      (imgs.filterMap Effect.imageFile).Pairwise (fun p q => p.toList < q.toList) := by
  simp only [saveDiagrams, hf] at h
  rw [if_neg (by decide), if_neg (by decide), if_neg (by decide), if_pos trivial, if_pos hd] at h
  simp only [Prod.mk.injEq] at h
  obtain ⟨rfl, h2⟩ := h
  have hall := drawAll_ok a ds.length ds 0 (drawAll W a ds.length 0 ds).1 (by rw [← h2])
  refine ⟨_, rfl, hall.1, fun j hj => ?_, ?_⟩
  · obtain ⟨f, s, d', h1, h3⟩ := hall.2 j hj
    rw [Nat.zero_add] at h1
    refine ⟨_, f, s, d', h1, h3, zfill (Nat.toDigits 10 (j + 1)) (Nat.toDigits 10 ds.length).length, ?_, ?_⟩
    · simp only [imagePath, if_pos hd, String.toList_ofList, imageName]
    · simp only [zfill]
      have hz : ∀ (k : Nat) (l : List Char), Nat.ofDigitChars 10 (List.replicate k '0' ++ l) 0 = Nat.ofDigitChars 10 l 0 := by
        intro k l
        induction k with
        | zero => rfl
        | succ k ih => rw [List.replicate_succ, List.cons_append]; simpa [Nat.ofDigitChars] using ih
      rw [hz]
      exact Nat.ofDigitChars_ten_toDigits
  · rw [List.pairwise_iff_getElem]
    have hfile : (drawAll W a ds.length 0 ds).1.filterMap Effect.imageFile = (List.range ds.length).map (imagePath a ds.length) := by
      apply List.ext_getElem?
      intro j
      have hm : (drawAll W a ds.length 0 ds).1.filterMap Effect.imageFile = (drawAll W a ds.length 0 ds).1.map (fun e => (Effect.imageFile e).getD "") := by
        rw [← List.filterMap_eq_map]
        apply List.filterMap_congr
        intro e he
        obtain ⟨j, hj, rfl⟩ := List.getElem_of_mem he
        obtain ⟨f, s, d', h1, _⟩ := hall.2 j (by omega)
        rw [List.getElem?_eq_getElem hj, Option.some.injEq] at h1
        rw [h1]; rfl
      rw [hm]
      rcases Nat.lt_or_ge j ds.length with hj | hj
      · obtain ⟨f, s, d', h1, _⟩ := hall.2 j hj
        rw [List.getElem?_map, h1]
        simp [Effect.imageFile, List.getElem?_range hj]
      · rw [List.getElem?_eq_none (by simp; omega), List.getElem?_eq_none (by simp; omega)]
    intro i j hi hj hij
    simp only [hfile, List.getElem_map, List.getElem_range]
    rw [hfile] at hj
    simp only [List.length_map, List.length_range] at hj
    simp only [imagePath, if_pos hd, String.toList_ofList]
    exact pathJoin_lt _ (imageName_lt _ _ _ _ hij hj)

/-- The extension in `--output_file` is always replaced by `--image_format`: the list of known extensions has no dots, and `os.path.splitext` returns the extension with its dot. -/
theorem C108_refuted_extension (file fmt : List Char) : singlePath file fmt = (splitext file).1 ++ '.' :: fmt := by
  have h : (splitext file).2 ∉ imageTypes := by
    have hd : ∀ t ∈ imageTypes, t ≠ [] ∧ t.head? ≠ some '.' := by decide
    intro hm
    rcases splitext_dot file with e | ⟨r, e⟩
    · exact (hd _ hm).1 e
    · exact (hd _ hm).2 (by rw [e]; rfl)
  rw [singlePath, if_pos h]

example : singlePath "out/tree.svg".toList "png".toList = "out/tree.png".toList ∧ singlePath "a.b/.x".toList "pdf".toList = "a.b/.x.pdf".toList ∧ splitext "a.b/c".toList = ("a.b/c".toList, []) := by
  decide +kernel
example : imageName "png".toList 12 2 = "diagram_03.png".toList ∧ imageName "png".toList 12 11 = "diagram_12.png".toList := by decide +kernel

/-! ## Text -/

/-- Text shows pregroup diagrams only: the diagram, or its normal form if it is no pregroup diagram; one drawing for each diagram, all in one file or on standard output. -/
theorem C108_text (a : Args) (ds : List D) (effs : List (Effect D T)) (ht : IsText a) (h : saveDiagrams W a ds = (effs, .ok ())) :
    ∃ lines : List String, List.Forall₂ (fun d l => ∃ d', W.isPregroup d' = true ∧ (d' = d ∨ W.isPregroup d = false ∧ W.pregroupNF d = .ok d') ∧
      W.render (decide (a .outputFormat = .str "text-ascii")) d' = .ok l) ds lines ∧
      effs = [if a .outputFile = .none then .print ("\n".intercalate lines) else .text (a .outputFile) ("\n".intercalate lines)] := by
  have hj : a .outputFormat ≠ .str "json" := by
    rcases ht with e | e <;> (rw [e]; decide)
  simp only [saveDiagrams] at h
  rw [if_neg hj, if_pos ((text_iff a).mpr ht)] at h
  split at h
  · simp at h
  · rename_i ds2 e1
    split at h
    · simp at h
    · rename_i ls e2
      simp only [Prod.mk.injEq, and_true] at h
      refine ⟨ls, ?_, ?_⟩
      · refine (forall₂_comp ((mapPy_iff _ _ _).mp e1) ((mapPy_iff _ _ _).mp e2)).imp ?_
        rintro d l ⟨d', h1, h2⟩
        simp only [textPrep] at h1
        split at h1
        · rename_i hp; cases h1; exact ⟨d, hp, .inl rfl, h2⟩
        · rename_i hp
          split at h1
          · cases h1
          · rename_i n hn
            split at h1
            · rename_i hp2; cases h1; exact ⟨_, hp2, .inr ⟨by simpa using hp, hn⟩, h2⟩
            · cases h1
      · rw [← h, putText]
        by_cases hf : a .outputFile = .none
        · simp [hf]
        · simp [hf]

/-! ## When accepted arguments fail -/

/-- Nothing that the pipeline calls fails. -/
structure Total (W : World D T) : Prop where
  readFile : ∀ f, ∃ s, W.readFile f = .ok s
  reader : ∀ r ss t, ∃ ds, W.reader r ss t = .ok ds
  parseDiagrams : ∀ p c ss t, ∃ ds, W.parseDiagrams p c ss t = .ok ds
  parseTrees : ∀ p c ss t, ∃ ts, W.parseTrees p c ss t = .ok ts
  pregroupNF : ∀ d, ∃ d', W.pregroupNF d = .ok d'
  removeSwaps : ∀ d, ∃ d', W.removeSwaps d = .ok d'
  rewrite : ∀ r d, ∃ d', W.rewrite r d = .ok d'
  normalForm : ∀ d, ∃ d', W.normalForm d = .ok d'
  ansatz : ∀ x n s o d, ∃ d', W.ansatz x n s o d = .ok d'
  render : ∀ b d, ∃ s, W.render b d = .ok s
  draw : ∀ d, W.draw d = .ok ()

/-- An ansatz is named, but the sizes of its types are not known: `--ansatz_options` is not used. -/
def NoSizes (a : Args) : Prop := a .ansatz ≠ .none ∧ ∀ o, a .ansatzOptions = .opts o → dictGet o "dim_n" = none ∨ dictGet o "dim_s" = none

theorem readText_total (hT : Total W) (a : Args) (hv : Valid a) : ∃ t, readText W a = .ok t := by
  obtain ⟨s, hs⟩ := hv.sentence
  simp only [readText, hs]
  split
  · exact ⟨_, rfl⟩
  · split
    · obtain ⟨t, ht⟩ := hT.readFile (a .inputFile)
      rw [ht]; exact ⟨_, rfl⟩
    · exact ⟨_, rfl⟩

theorem diagrams_total (hT : Total W) (a : Args) (hv : Valid a) : (∃ e, diagrams W a = .error e) ↔ NoSizes a := by
  obtain ⟨t, ht⟩ := readText_total hT a hv
  have hp : ∃ ds, parseDiagrams W a t = .ok ds := by
    simp only [parseDiagrams]
    split
    · obtain ⟨ds, h⟩ := hT.reader (a .reader) (sentences W a t) (a .tokenise).truthy
      rw [h]; exact ⟨_, rfl⟩
    · obtain ⟨ds, h⟩ := hT.parseDiagrams (parserOf a).1 (parserOf a).2 (sentences W a t) (a .tokenise).truthy
      rw [h]
      simp only
      split
      · apply mapPy_total
        intro d
        obtain ⟨n, hn⟩ := hT.pregroupNF d
        rw [hn]; exact hT.removeSwaps n
      · exact ⟨_, rfl⟩
  obtain ⟨ds, hp⟩ := hp
  have hr : ∃ ds', rewriteModule W a ds = .ok ds' := by
    simp only [rewriteModule]
    split
    · exact ⟨_, rfl⟩
    · apply mapPy_total
      intro d
      obtain ⟨n, hn⟩ := hT.rewrite (a .rewriteRules) d
      rw [hn]; exact hT.normalForm n
  obtain ⟨ds', hr⟩ := hr
  simp only [diagrams, ht, hp, hr, ansatzModule, NoSizes]
  obtain ⟨o, ho⟩ := hv.ansatzOptions
  simp only [ho, Val.opts.injEq, forall_eq']
  split
  · rename_i h; simp [h]
  · rename_i h
    cases h1 : dictGet o "dim_n" with
    | none => simp [h]
    | some n =>
      cases h2 : dictGet o "dim_s" with
      | none => simp [h]
      | some s =>
        obtain ⟨r, hr⟩ := mapPy_total (W.ansatz (a .ansatz) n s (o.filter (fun kv => W.supports (a .ansatz) kv.1))) ds' (hT.ansatz _ _ _ _)
        simp only [hr]
        simp

theorem drawAll_total (hT : Total W) (a : Args) (n : Nat) : ∀ (ds : List D) (i : Nat), (drawAll W a n i ds).2 = .ok () := by
  intro ds
  induction ds with
  | nil => intro i; rfl
  | cons d ds ih =>
    intro i
    obtain ⟨d', h⟩ := hT.normalForm d
    simp only [drawAll, drawn, drawNormal, h, hT.draw d', ih]

/-- A program with accepted arguments fails, as far as it is up to the program, in four cases: string diagrams in JSON format, an ansatz without options, several diagrams for one image file, and text for a
diagram that has no pregroup form. -/
theorem C108_accepted_partial (hT : Total W) (a : Args) (hv : Valid a) (_hok : validate a = .ok ()) :
    (∃ e, (pipeline W a).2 = .error e) ↔
      (IsDiagram a ∧ a .outputFormat = .str "json") ∨ (IsDiagram a ∧ NoSizes a) ∨
      (IsDiagram a ∧ a .outputFormat = .str "image" ∧ a .outputDir = .none ∧ ∃ ds, diagrams W a = .ok ds ∧ 1 < ds.length) ∨
      (IsDiagram a ∧ IsText a ∧ ∃ ds, diagrams W a = .ok ds ∧ ∃ d ∈ ds, W.isPregroup d = false ∧ ∀ d', W.pregroupNF d = .ok d' → W.isPregroup d' = false) := by
  by_cases hd : IsDiagram a
  · have hm := (mode_iff a hv).mpr hd
    simp only [pipeline, hm, if_true, hd, true_and]
    have htot := diagrams_total hT a hv
    cases hds : diagrams W a with
    | error e =>
      have := htot.mp ⟨e, hds⟩
      simp [this]
    | ok ds =>
      have hns : ¬ NoSizes a := by
        intro h; obtain ⟨e, he⟩ := htot.mpr h; rw [hds] at he; cases he
      simp only [hns, false_or, Except.ok.injEq, exists_eq_left', saveDiagrams]
      have hf := hv.format
      rw [isIn_cons, isIn_cons, isIn_cons, isIn_cons, isIn_cons, isIn_nil, or_false] at hf
      have htext : ∀ (hx : IsText a), (∃ e, (match mapPy (textPrep W) ds with
          | .error e => (([] : List (Effect D T)), (Except.error e : Except PyErr Unit))
          | .ok ds => match mapPy (W.render (decide (a .outputFormat = Val.str "text-ascii"))) ds with
            | .error e => ([], .error e)
            | .ok ls => (putText a ls, .ok ())).2 = .error e) ↔ ∃ d ∈ ds, W.isPregroup d = false ∧ ∀ d', W.pregroupNF d = .ok d' → W.isPregroup d' = false := by
        intro hx
        have h1 : (∃ e, mapPy (textPrep W) ds = .error e) ↔ ∃ d ∈ ds, W.isPregroup d = false ∧ ∀ d', W.pregroupNF d = .ok d' → W.isPregroup d' = false := by
          rw [mapPy_error]
          constructor
          · rintro ⟨d, hm, e, he⟩
            refine ⟨d, hm, ?_⟩
            obtain ⟨n, hn⟩ := hT.pregroupNF d
            simp only [textPrep, hn] at he
            split at he
            · cases he
            · rename_i hp
              split at he
              · cases he
              · rename_i hp2
                refine ⟨by simpa using hp, fun d' h => ?_⟩
                rw [hn] at h; cases h; simpa using hp2
          · rintro ⟨d, hm, hp, hn2⟩
            obtain ⟨n, hn⟩ := hT.pregroupNF d
            exact ⟨d, hm, .valueError, by simp [textPrep, hp, hn, hn2 n hn]⟩
        rw [← h1]
        cases hx2 : mapPy (textPrep W) ds with
        | error e => simp
        | ok ds2 =>
          obtain ⟨ls, hls⟩ := mapPy_total (W.render (decide (a .outputFormat = .str "text-ascii"))) ds2 (hT.render _)
          simp [hls]
      rcases hf with hf | hf | hf | hf | hf
      · simp [hf]
      · have : ¬ IsText a := by rw [IsText, hf]; decide
        rw [if_neg (by rw [hf]; decide), if_neg (by rw [text_iff]; exact this), if_pos hf]
        simp [hf, this]
      · have hx : IsText a := .inr hf
        rw [if_neg (by rw [hf]; decide), if_pos ((text_iff a).mpr hx)]
        refine Iff.trans (htext hx) ?_
        simp only [hx, true_and, hf]
        simp
      · have hx : IsText a := .inl hf
        rw [if_neg (by rw [hf]; decide), if_pos ((text_iff a).mpr hx)]
        refine Iff.trans (htext hx) ?_
        simp only [hx, true_and, hf]
        simp
      · have : ¬ IsText a := by rw [IsText, hf]; decide
        rw [if_neg (by rw [hf]; decide), if_neg (by rw [text_iff]; exact this), if_neg (by rw [hf]; decide), if_pos hf]
        simp only [this, false_and, or_false, hf]
        split
        · rename_i hdir
          simp [drawAll_total hT, hdir]
        · rename_i hdir
          have hdir : a .outputDir = .none := by simpa using hdir
          split
          · rename_i hl; simp [hdir, hl]
          · rename_i hl; simp [hdir, hl, drawAll_total hT]
  · have hm : ¬ (a .mode).isIn ["string-diagram", "pregroups"] = true := fun h => hd ((mode_iff a hv).mp h)
    obtain ⟨t, ht⟩ := readText_total hT a hv
    obtain ⟨ts, hts⟩ := hT.parseTrees (parserOf a).1 (parserOf a).2 (sentences W a t) (a .tokenise).truthy
    simp only [pipeline, if_neg hm, ht, parseTrees, hts]
    simp [hd]

/-- In these cases nothing is written. -/
theorem C108_failure_no_output (hT : Total W) (a : Args) (e : PyErr) (h : (pipeline W a).2 = .error e) : (pipeline W a).1 = [] := by
  simp only [pipeline] at h ⊢
  split
  · rename_i hm
    rw [if_pos hm] at h
    cases hd : diagrams W a with
    | error e => simp only
    | ok ds =>
      simp only [hd, saveDiagrams] at h ⊢
      split
      · rfl
      · rename_i h1
        rw [if_neg h1] at h
        split
        · rename_i h2
          rw [if_pos h2] at h
          split
          · rfl
          · rename_i ds2 e2
            simp only [e2] at h
            split
            · rfl
            · rename_i ls e3
              simp only [e3] at h; cases h
        · rename_i h2
          rw [if_neg h2] at h
          split
          · rename_i h3; rw [if_pos h3] at h; cases h
          · rename_i h3
            rw [if_neg h3] at h
            split
            · rename_i h4
              rw [if_pos h4] at h
              split
              · rename_i h5
                rw [if_pos h5] at h
                simp only [drawAll_total hT] at h; cases h
              · rename_i h5
                rw [if_neg h5] at h
                split
                · rfl
                · rename_i h6
                  rw [if_neg h6, drawAll_total hT] at h; cases h
            · rfl
  · rename_i hm
    rw [if_neg hm] at h
    split
    · rfl
    · rename_i t ht
      simp only [ht] at h
      split
      · rfl
      · rename_i ts hts; simp only [hts] at h; cases h

end Cli
end Lambeq
