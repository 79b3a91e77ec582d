import Verif.Cli.CliProps
import Mathlib.Tactic.Tauto

/-! # Command-line interface: theorems (C108) -/

namespace Lambeq
namespace Cli
set_option linter.unusedSimpArgs false

/-! ## Arguments that are loaded and stored -/

/-- An argument on the command line has priority over the file, the file over the defaults; the three arguments with documented defaults always have a value. "On the command line" means a value that
is true in Python. -/
theorem C108_load (cl : Args) (saved : List (Key × Val)) (hn : (saved.map Prod.fst).Nodup) (k : Key) :
    ((cl k).truthy = true → effective cl (some saved) k = cl k) ∧
    (∀ v, (cl k).truthy = false → (k, v) ∈ saved → v.truthy = true → effective cl (some saved) k = v) ∧
    ((cl k).truthy = false → (∀ v, (k, v) ∈ saved → v.truthy = false) →
      (k = .outputFormat → effective cl (some saved) k = .str "text-unicode") ∧ (k = .imageFormat → effective cl (some saved) k = .str "png") ∧
      (k = .mode → effective cl (some saved) k = .str "string-diagram") ∧ (effective cl (some saved) k).truthy = (decide (k = .outputFormat) || decide (k = .imageFormat) || decide (k = .mode))) := by
  have hd : (defaultValues.map Prod.fst).Nodup := by decide
  refine ⟨fun h => ?_, fun v hf hm hv => ?_, fun hf hs => ?_⟩
  · simp only [effective]
    rw [fill_truthy _ _ _ (by rw [fill_truthy _ _ _ h]; exact h), fill_truthy _ _ _ h]
  · simp only [effective]
    have := fill_mem saved cl k v hn hm hf
    rw [fill_truthy _ _ _ (by rw [this]; exact hv), this]
  · have h1 : (fill cl saved k).truthy = false := by
      by_cases hk : k ∈ saved.map Prod.fst
      · obtain ⟨⟨k', v⟩, hm, e⟩ := List.mem_map.mp hk
        cases e
        rw [fill_mem saved cl _ v hn hm hf]
        exact hs v hm
      · rw [fill_other _ _ _ hk]; exact hf
    simp only [effective]
    by_cases h2 : k ∈ defaultValues.map Prod.fst
    · obtain ⟨⟨k', v⟩, hm, e⟩ := List.mem_map.mp h2
      cases e
      rw [fill_mem defaultValues _ _ v hd hm h1]
      simp only [defaultValues, List.mem_cons, Prod.mk.injEq, List.not_mem_nil, or_false] at hm
      rcases hm with ⟨rfl, rfl⟩ | ⟨rfl, rfl⟩ | ⟨rfl, rfl⟩ <;> decide
    · rw [fill_other _ _ _ h2]
      simp only [defaultValues, List.map_cons, List.map_nil, List.mem_cons, List.not_mem_nil, or_false, not_or] at h2
      refine ⟨fun e => absurd e h2.1, fun e => absurd e h2.2.1, fun e => absurd e h2.2.2, ?_⟩
      rw [h1]; simp [h2.1, h2.2.1, h2.2.2]

theorem stored_keys (a : Args) : (stored a).map Prod.fst = keys := by simp [stored, Function.comp_def]
theorem keys_nodup : keys.Nodup := by decide
theorem mem_keys (k : Key) : k ∈ keys := by cases k <;> decide

theorem fill_default (b : Args) (k : Key) (h : k ∈ defaultValues.map Prod.fst) : (fill b defaultValues k).truthy = true := by
  by_cases hb : (b k).truthy = true
  · rw [fill_truthy _ _ _ hb]; exact hb
  · obtain ⟨⟨k', v⟩, hm, e⟩ := List.mem_map.mp h
    cases e
    rw [fill_mem defaultValues b k' v (by decide) hm (by simpa using hb)]
    simp only [defaultValues, List.mem_cons, Prod.mk.injEq, List.not_mem_nil, or_false] at hm
    rcases hm with ⟨_, rfl⟩ | ⟨_, rfl⟩ | ⟨_, rfl⟩ <;> decide

/-- The arguments of a run that stored them, loaded by a run that has no other argument, are those of the first run, except for the mode and the names of the two files. -/
theorem C108_store_load_partial (cl : Args) (saved : Option (List (Key × Val))) (given : Key → Option Val) (hg : ∀ k, k ≠ .loadArgs → given k = none) (k : Key)
    (hk : k ≠ .mode ∧ k ≠ .loadArgs ∧ k ≠ .storeArgs) :
    effective (parseArgs given) (some (stored (effective cl saved))) k = effective cl saved k := by
  have hn : ((stored (effective cl saved)).map Prod.fst).Nodup := by rw [stored_keys]; exact keys_nodup
  have hf : (parseArgs given k).truthy = false := by
    simp only [parseArgs, hg k hk.2.1, Option.getD_none]
    obtain ⟨h1, h2, h3⟩ := hk
    cases k <;> first | rfl | exact absurd rfl h1
  have hm : (k, effective cl saved k) ∈ stored (effective cl saved) := by
    simp only [stored, List.mem_map]
    exact ⟨k, mem_keys k, by rw [set_other _ _ hk.2.2]⟩
  have h1 := fill_mem _ (parseArgs given) k _ hn hm hf
  by_cases ht : (effective cl saved k).truthy = true
  · simp only [effective] at h1 ht ⊢
    rw [fill_truthy _ _ _ (by rw [h1]; exact ht), h1]
  · have hd : k ∉ defaultValues.map Prod.fst := by
      intro hmem
      apply ht
      simp only [effective]
      exact fill_default _ _ hmem
    have : effective (parseArgs given) (some (stored (effective cl saved))) k = fill (parseArgs given) (stored (effective cl saved)) k := by
      simp only [effective]; exact fill_other _ _ _ hd
    rw [this, h1]

/-- A stored mode is never used: without `--mode` on the command line, the mode is `string-diagram`. -/
theorem C108_refuted_mode (given : Key → Option Val) (hg : given .mode = none) (saved : List (Key × Val)) : effective (parseArgs given) (some saved) .mode = .str "string-diagram" := by
  have h : parseArgs given .mode = .str "string-diagram" := by simp [parseArgs, hg, argDefault]
  simp only [effective]
  rw [fill_truthy _ _ _ (by rw [fill_truthy _ _ _ (by rw [h]; decide), h]; decide), fill_truthy _ _ _ (by rw [h]; decide), h]

/-- A run with mode `ccg` that stores its arguments. -/
def ccgRun : Args := parseArgs (fun k => match k with | .mode => some (.str "ccg") | .inputSentence => some (.str "a b") | .tokenise => some (.bool true) | .storeArgs => some (.str "f.yaml") | _ => none)

example : validate (effective ccgRun none) = .ok () ∧ effective ccgRun none .mode = .str "ccg" ∧ effective ccgRun none .tokenise = .bool true ∧
    effective (parseArgs (fun k => match k with | .loadArgs => some (.str "f.yaml") | _ => none)) (some (stored (effective ccgRun none))) .mode = .str "string-diagram" ∧
    effective (parseArgs (fun k => match k with | .loadArgs => some (.str "f.yaml") | _ => none)) (some (stored (effective ccgRun none))) .tokenise = .bool true := by
  decide +kernel

/-- The input is stored as well, so stored arguments cannot be used for a file if they were stored with a sentence. -/
theorem C108_refuted_other_input {D T : Type} (W : World D T) (cl : Args) (saved : List (Key × Val)) (hn : (saved.map Prod.fst).Nodup) (s f : String) (hs : (Key.inputSentence, Val.str s) ∈ saved)
    (hne : s ≠ "") (hi : cl .inputSentence = .str "") (hf : cl .inputFile = .str f) (hfe : f ≠ "") : main W cl (some saved) = ([], .error .valueError) := by
  have h1 : effective cl (some saved) .inputSentence = .str s := (C108_load cl saved hn .inputSentence).2.1 _ (by rw [hi]; rfl) hs (by simp [Val.truthy, hne])
  have h2 : effective cl (some saved) .inputFile = .str f := by
    rw [(C108_load cl saved hn .inputFile).1 (by rw [hf]; simp [Val.truthy, hfe]), hf]
  simp only [main]
  have : validate (effective cl (some saved)) = .error .valueError := by
    simp only [validate]
    rw [if_pos ⟨by rw [h1]; simpa using hne, by rw [h2]; simp⟩]
  rw [this]

/-! ## Lists of options -/

/-- `-n` and `-u` take arguments `key=value` with known keys and integer values, and nothing else; the dictionary has the last value given for a key, and its default if none is given. -/
theorem C108_options (int : List Char → Option Int) (choices : List (String × Option Int)) (hn : (choices.map Prod.fst).Nodup) (args : List (List Char)) :
    (∀ d, argList int choices args = .ok d → ∃ kvs, List.Forall₂ (Parses int (choices.map Prod.fst)) args kvs ∧
      ∀ k, dictGet d k = match lastOf kvs k with | some x => some x | none => (choices.find? (fun kv => decide (kv.1 = k))).bind Prod.snd) ∧
    (∀ kvs, List.Forall₂ (Parses int (choices.map Prod.fst)) args kvs → ∃ d, argList int choices args = .ok d) := by
  constructor
  · intro d h
    simp only [argList] at h
    split at h
    · cases h
    · rename_i r e
      cases h
      obtain ⟨kvs, h1, h2⟩ := argLoop_iff int _ args [] r e
      refine ⟨kvs, h1, fun k => ?_⟩
      rw [addDefaults_get _ _ _ hn, h2 k]
      cases lastOf kvs k <;> rfl
  · intro kvs h
    obtain ⟨r, hr⟩ := argLoop_ok int _ args kvs h []
    exact ⟨_, by simp only [argList, hr]; rfl⟩

/-- Without options after `-n`, an ansatz has all its defaults. -/
theorem C108_options_default (int : List Char → Option Int) : argList int ansatzChoices [] = .ok [("dim_n", 2), ("dim_s", 2), ("n_layers", 2), ("n_single_qubit_params", 3), ("bond_dim", 3),
    ("max_order", 3)] := by
  simp only [argList, argLoop]
  exact congrArg Except.ok (by decide)

/-- An argument that does not have exactly one `=` is no member of the choices, but asking raises an exception. -/
theorem C108_refuted_contains (int : List Char → Option Int) (names : List String) (arg : List Char) (h : arg.count '=' ≠ 1) : argContains int names arg = .error .valueError := by
  simp only [argContains]
  split
  · rename_i k v e
    obtain ⟨e, hk, hv⟩ := (splitOn_two '=' arg k v).mp e
    exfalso; apply h
    rw [e, List.count_append, List.count_cons_self, List.count_eq_zero_of_not_mem hk, List.count_eq_zero_of_not_mem hv]
  · rfl

/-- Digits to an integer, for the examples. -/
def exInt (s : List Char) : Option Int := if s ≠ [] ∧ s.all Char.isDigit = true then some (Nat.ofDigitChars 10 s 0) else none

example : argList exInt ansatzChoices ["dim_n=4".toList, "max_order=1".toList, "dim_n=7".toList] =
    .ok [("dim_n", 7), ("max_order", 1), ("dim_s", 2), ("n_layers", 2), ("n_single_qubit_params", 3), ("bond_dim", 3)] := by decide +kernel
example : argContains exInt (ansatzChoices.map Prod.fst) "dim_n".toList = .error .valueError ∧ argContains exInt (ansatzChoices.map Prod.fst) "dim=2".toList = .ok false ∧
    argContains exInt (ansatzChoices.map Prod.fst) "dim_n=2".toList = .ok true := by decide +kernel

/-! ## Validation -/

/-- What the parsers of arguments guarantee. -/
structure Valid (a : Args) : Prop where
  mode : (a .mode).isIn ["string-diagram", "pregroups", "ccg"] = true
  format : (a .outputFormat).isIn ["json", "pickle", "text-unicode", "text-ascii", "image"] = true
  sentence : ∃ s, a .inputSentence = .str s
  outputOptions : ∃ o, a .outputOptions = .opts o
  ansatzOptions : ∃ o, a .ansatzOptions = .opts o

theorem isIn_cons (v : Val) (s : String) (l : List String) : v.isIn (s :: l) = true ↔ v = .str s ∨ v.isIn l = true := by
  simp [Val.isIn]
theorem isIn_nil (v : Val) : v.isIn [] = true ↔ False := by simp [Val.isIn]

/-- A string diagram is asked for, and not a CCG tree. -/
def IsDiagram (a : Args) : Prop := a .mode ≠ .str "ccg"
/-- The output is text. -/
def IsText (a : Args) : Prop := a .outputFormat = .str "text-ascii" ∨ a .outputFormat = .str "text-unicode"

theorem text_iff (a : Args) : (a .outputFormat).isIn ["text-ascii", "text-unicode"] = true ↔ IsText a := by
  rw [isIn_cons, isIn_cons, isIn_nil, or_false]; rfl
theorem text3_iff (a : Args) : (a .outputFormat).isIn ["text-ascii", "text-unicode", "json"] = true ↔ IsText a ∨ a .outputFormat = .str "json" := by
  rw [isIn_cons, isIn_cons, isIn_cons, isIn_nil, or_false]
  simp only [IsText]; tauto
theorem mode_iff (a : Args) (hv : Valid a) : (a .mode).isIn ["string-diagram", "pregroups"] = true ↔ IsDiagram a := by
  have h := hv.mode
  rw [isIn_cons, isIn_cons, isIn_cons, isIn_nil, or_false] at h
  rw [isIn_cons, isIn_cons, isIn_nil, or_false]
  constructor
  · rintro (e | e) <;> (intro c; rw [e] at c; simp at c)
  · intro hd
    rcases h with h | h | h
    · exact .inl h
    · exact .inr h
    · exact absurd h hd

/-- The combinations of arguments that `validate_args` accepts. -/
theorem C108_validate (a : Args) (hv : Valid a) : validate a = .ok () ↔
    (a .inputSentence = .str "" ∨ a .inputFile = .none) ∧
    (IsText a ∨ a .outputFile ≠ .none ∨ a .outputDir ≠ .none) ∧
    (a .parser = .none ∨ a .reader = .none) ∧
    (a .outputOptions = .opts [] ∨ a .outputFormat = .str "image") ∧
    (a .outputDir = .none ∨ a .outputFormat = .str "image") ∧
    (a .mode = .str "ccg" → a .ansatz = .none ∧ a .reader = .none ∧ a .rewriteRules = .none ∧ a .outputFormat ≠ .str "image" ∧ (a .parser = .none ∨ a .parser = .str "bobcat")) ∧
    (IsDiagram a → IsText a ∨ a .outputFormat = .str "json" → a .ansatz = .none ∧ a .rewriteRules = .none ∧ ∀ r ∈ ["spiders", "stairs", "tree"], a .reader ≠ .str r) := by
  obtain ⟨o, ho⟩ := hv.outputOptions
  have hreader : (a .reader).isIn ["spiders", "stairs", "tree"] = true ↔ ∃ r ∈ ["spiders", "stairs", "tree"], a .reader = .str r := by
    simp [Val.isIn]
  have hlen : (Val.opts o).len = .ok o.length := rfl
  have hany : [a .ansatz, a .reader, a .rewriteRules].any (fun v => decide (v ≠ .none)) = true ↔ ¬ (a .ansatz = .none ∧ a .reader = .none ∧ a .rewriteRules = .none) := by
    simp only [List.any_cons, List.any_nil, Bool.or_false, Bool.or_eq_true, decide_eq_true_eq]; tauto
  have ht := text_iff a
  have ht3 := text3_iff a
  have hm := mode_iff a hv
  have htf : (a .outputFormat).isIn ["text-ascii", "text-unicode"] = false ↔ ¬ IsText a := by rw [← ht]; simp
  have hol : o.length > 0 ↔ ¬ (Val.opts o = .opts []) := by
    simp [List.length_pos_iff]
  have hccg : a .mode = .str "ccg" ↔ ¬ IsDiagram a := by simp [IsDiagram]
  have hr : (∀ r ∈ ["spiders", "stairs", "tree"], a .reader ≠ .str r) ↔ ¬ ∃ r ∈ ["spiders", "stairs", "tree"], a .reader = .str r := by
    simp
  have simp1 : ∀ (c : Prop) [Decidable c] (x : Except PyErr Unit), (if c then .error .valueError else x) = .ok () ↔ ¬ c ∧ x = .ok () := by
    intro c _ x; split <;> simp_all
  have simp2 : ∀ (c : Prop) [Decidable c] (x y : Except PyErr Unit), (if c then x else y) = .ok () ↔ (c → x = .ok ()) ∧ (¬ c → y = .ok ()) := by
    intro c _ x y; split <;> simp_all
  simp only [validate, ho, hlen, simp1, simp2]
  rw [hany, htf, ht3, hm, hreader, hol, hccg, hr]
  simp only [ne_eq]
  generalize (∃ r ∈ ["spiders", "stairs", "tree"], a .reader = .str r) = R
  generalize IsDiagram a = M
  generalize IsText a = X
  generalize (Val.opts o = Val.opts []) = O
  generalize (a .inputSentence = .str "") = i1
  generalize (a .inputFile = .none) = i2
  generalize (a .outputFile = .none) = i3
  generalize (a .outputDir = .none) = i4
  generalize (a .parser = .none) = i5
  generalize (a .parser = .str "bobcat") = i5b
  generalize (a .reader = .none) = i6
  generalize (a .outputFormat = .str "image") = i7
  generalize (a .outputFormat = .str "json") = i7b
  generalize (a .ansatz = .none) = i8
  generalize (a .rewriteRules = .none) = i9
  clear hreader hlen hany ht ht3 hm htf hol hccg hr simp1 simp2 ho hv
  have n2 : ∀ {p q : Prop}, ¬(¬p ∧ ¬q) ↔ p ∨ q := by intro p q; tauto
  have n3 : ∀ {p q r : Prop}, ¬(p ∧ q ∧ ¬r) ↔ r ∨ ¬q ∨ ¬p := by intro p q r; tauto
  constructor
  · rintro ⟨h1, h2, h3, h4, h5, h6, h7, h8, h9, _⟩
    have h9' := fun hc hx => h9 ⟨hx, hc⟩
    refine ⟨n2.mp h1, n3.mp h2, n2.mp h3, n2.mp h4, n2.mp h5, fun hc => ?_, fun hc hx => ⟨Classical.not_not.mp (h9' hc hx).1, Classical.not_not.mp (h9' hc hx).2.1, (h9' hc hx).2.2.1⟩⟩
    have h := Classical.not_not.mp (not_and.mp h6 hc)
    exact ⟨h.1, h.2.1, h.2.2, not_and.mp h7 hc, n2.mp (not_and.mp h8 hc)⟩
  · rintro ⟨h1, h2, h3, h4, h5, h6, h7⟩
    refine ⟨n2.mpr h1, n3.mpr h2, n2.mpr h3, n2.mpr h4, n2.mpr h5, fun hc => ?_, fun hc => ?_, fun hc => ?_, fun hc => ?_, fun _ => trivial⟩
    · exact hc.2 ⟨(h6 hc.1).1, (h6 hc.1).2.1, (h6 hc.1).2.2.1⟩
    · exact (h6 hc.1).2.2.2.1 hc.2
    · rcases (h6 hc.1).2.2.2.2 with h | h
      · exact hc.2.1 h
      · exact hc.2.2 h
    · have := h7 hc.2 hc.1
      exact ⟨fun h => h this.1, fun h => h this.2.1, this.2.2, trivial⟩

/-- Arguments that are not accepted have no effect: nothing is read, stored or written. -/
theorem C108_rejected {D T : Type} (W : World D T) (cl : Args) (saved : Option (List (Key × Val))) (e : PyErr) (h : validate (effective cl saved) = .error e) :
    main W cl saved = ([], .error e) := by
  simp only [main, h]

end Cli
end Lambeq
