import Verif.Discocirc.CorefProps

/-!
# DisCoCirc: coreferences, pruning and whole texts, the theorems (C91)
-/

namespace Lambeq
open Diagram
set_option linter.unusedSimpArgs false

namespace Disco

/-- "Alice saw Bob. She ran. Bob waved to him.", with Alice/She, Bob/Bob/him and a trivial cluster for each noun. -/
def exSents : List (List String) := [["Alice", "saw", "Bob"], ["She", "ran"], ["Bob", "waved", "to", "him"]]
def exCorefs : List (List (List Nat)) :=
  [[[0], [0], []], [[2], [], [0, 3]], [[0], [], []], [[2], [], []], [[], [0], []], [[], [], [0]], [[], [], [3]]]

/-! ## Coreferences -/

/-- C91: `dict_from_corefs` maps each mention to the first mention of the first cluster that has it, and has no entry for others. -/
theorem C91_first (corefs : List (List (List Nat))) (m : Mention) :
    lookupM (dictFromCorefs corefs) m = ((corefs.map mentions).find? (fun c => decide (m ∈ c))).bind List.head? ∧
      ((lookupM (dictFromCorefs corefs) m).isSome ↔ ∃ c ∈ corefs, m.2 ∈ c.getD m.1 []) := by
  refine ⟨lookup_dict corefs m, ?_⟩
  rw [lookup_dict]
  cases hf : (corefs.map mentions).find? (fun c => decide (m ∈ c)) with
  | none =>
    simp only [Option.bind_none, Option.isSome_none, Bool.false_eq_true, false_iff, not_exists, not_and]
    intro c hc hm
    rw [List.find?_eq_none] at hf
    have := hf (mentions c) (List.mem_map_of_mem hc)
    exact this (decide_eq_true ((mem_mentions c m).2 hm))
  | some b =>
    have hb : m ∈ b := by simpa using List.find?_some hf
    obtain ⟨c, hc, rfl⟩ := List.mem_map.1 (List.mem_of_find?_eq_some hf)
    have h1 : ∃ c ∈ corefs, m.2 ∈ c.getD m.1 [] := ⟨c, hc, (mem_mentions c m).1 hb⟩
    simp only [Option.bind_some, h1, iff_true]
    cases hm : mentions c with
    | nil => rw [hm] at hb; simp at hb
    | cons a l => rfl

example : dictFromCorefs exCorefs = [((0, 0), (0, 0)), ((1, 0), (0, 0)), ((0, 2), (0, 2)), ((2, 0), (0, 2)), ((2, 3), (0, 2))] := by decide +kernel

/-- C91: where clusters are apart or, as trivial ones, within an earlier one, two mentions stand for the same entity exactly if they are equal or in one cluster; the
entity of an entity is itself. -/
theorem C91_entities_partial (corefs : List (List (List Nat))) (hn : Nested corefs) (m k : Mention) :
    (canon (dictFromCorefs corefs) m = canon (dictFromCorefs corefs) k ↔ m = k ∨ ∃ c ∈ corefs, m.2 ∈ c.getD m.1 [] ∧ k.2 ∈ c.getD k.1 []) ∧
      canon (dictFromCorefs corefs) (canon (dictFromCorefs corefs) m) = canon (dictFromCorefs corefs) m := by
  have key : ∀ m k, canon (dictFromCorefs corefs) m = canon (dictFromCorefs corefs) k ↔ m = k ∨ ∃ c ∈ corefs, m.2 ∈ c.getD m.1 [] ∧ k.2 ∈ c.getD k.1 [] := by
    intro m k
    unfold canon
    rw [lookup_dict, lookup_dict, canon_iff _ hn m k]
    refine or_congr_right ?_
    constructor
    · rintro ⟨b, hb, h1, h2⟩
      obtain ⟨c, hc, rfl⟩ := List.mem_map.1 hb
      exact ⟨c, hc, (mem_mentions c m).1 h1, (mem_mentions c k).1 h2⟩
    · rintro ⟨c, hc, h1, h2⟩
      exact ⟨mentions c, List.mem_map_of_mem hc, (mem_mentions c m).2 h1, (mem_mentions c k).2 h2⟩
  refine ⟨key m k, ?_⟩
  rw [key]
  cases hl : lookupM (dictFromCorefs corefs) m with
  | none => left; rw [canon, hl]; rfl
  | some h =>
    right
    have e : canon (dictFromCorefs corefs) m = h := by rw [canon, hl]; rfl
    rw [e]
    rw [lookup_dict, Option.bind_eq_some_iff] at hl
    obtain ⟨b, hb, hh⟩ := hl
    obtain ⟨c, hc, rfl⟩ := List.mem_map.1 (List.mem_of_find?_eq_some hb)
    have hm : m ∈ mentions c := by simpa using List.find?_some hb
    exact ⟨c, hc, (mem_mentions c h).1 (List.mem_of_head? hh), (mem_mentions c m).1 hm⟩

example : Nested exCorefs := by unfold Nested; decide +kernel

/-- C91, refuted in general: of two clusters {a, b} and {b, c} with a common mention the third mention goes to the second one, but that to the first one. -/
theorem C91_refuted_overlap : let d := dictFromCorefs [[[0, 1]], [[1, 2]]]
    canon d (0, 2) = (0, 1) ∧ canon d (0, 1) = (0, 0) := by decide +kernel

/-- C91: the token that stands for a span is its last proper noun, if there is one, or else its last noun or pronoun, or else its first token. -/
theorem C91_span_head (start : Nat) (ps : List String) :
    (∀ k, ps[k]? = some "PROPN" → (∀ k', k < k' → ps[k']? ≠ some "PROPN") → spanHead start ps = start + k) ∧
    (∀ k p, "PROPN" ∉ ps → ps[k]? = some p → p = "NOUN" ∨ p = "PRON" → (∀ k' p', k < k' → ps[k']? = some p' → p' ≠ "NOUN" ∧ p' ≠ "PRON") → spanHead start ps = start + k) ∧
    ((∀ p ∈ ps, p ≠ "PROPN" ∧ p ≠ "NOUN" ∧ p ≠ "PRON") → spanHead start ps = start) := by
  have last : ∀ (q : Nat → Bool) (n k : Nat), k < n → q k = true → (∀ k', k < k' → k' < n → q k' = false) → ((List.range n).filter q).getLast? = some k := by
    intro q n k hk hq hl
    have e : n = (k + 1) + (n - (k + 1)) := by omega
    rw [e, List.range_add, List.filter_append, List.range_succ, List.filter_append]
    have h2 : ((List.range (n - (k + 1))).map (fun x => k + 1 + x)).filter q = [] := by
      rw [List.filter_eq_nil_iff]
      intro x hx
      obtain ⟨y, hy, rfl⟩ := List.mem_map.1 hx
      rw [List.mem_range] at hy
      rw [hl _ (by omega) (by omega)]
      simp
    rw [h2, List.append_nil, List.filter_cons_of_pos hq, List.filter_nil, List.getLast?_append]
    rfl
  have lt : ∀ {k p}, ps[k]? = some p → k < ps.length := fun h => (List.getElem?_eq_some_iff.1 h).1
  refine ⟨?_, ?_, ?_⟩
  · intro k hk hl
    rw [spanHead, headLoop_spec, if_pos (.inr (List.mem_of_getElem? hk)), last _ _ k (lt hk) (by rw [List.getD_eq_getElem?_getD, hk]; rfl)]
    · rfl
    · intro k' h1 h2
      have := hl k' h1
      rw [List.getD_eq_getElem?_getD]
      rw [List.getElem?_eq_getElem h2] at this ⊢
      simpa using this
  · intro k p hp hk hpp hl
    rw [spanHead, headLoop_spec, if_neg (by simpa using hp), last _ _ k (lt hk) (by
      rw [List.getD_eq_getElem?_getD, hk]
      rcases hpp with rfl | rfl <;> rfl)]
    · rfl
    · intro k' h1 h2
      have h3 := hl k' ps[k'] h1 (List.getElem?_eq_getElem h2)
      have h4 : ps[k'] ≠ "PROPN" := fun e => hp (e ▸ List.getElem_mem h2)
      rw [List.getD_eq_getElem?_getD, List.getElem?_eq_getElem h2]
      simp [h3.1, h3.2, h4]
  · intro h
    rw [spanHead, headLoop_spec, if_neg (by
      simp only [Bool.false_eq_true, false_or]
      exact fun hh => (h _ hh).1 rfl)]
    have : (List.range ps.length).filter (fun k => ["NOUN", "PROPN", "PRON"].contains (ps.getD k "")) = [] := by
      rw [List.filter_eq_nil_iff]
      intro k hk
      rw [List.mem_range] at hk
      have h3 := h ps[k] (List.getElem_mem hk)
      rw [List.getD_eq_getElem?_getD, List.getElem?_eq_getElem hk]
      simp [h3.1, h3.2.1, h3.2.2]
    rw [this]
    rfl

/-- "the tall Alice Smith of the city" is represented by "Smith", "the old man there" by "man". -/
example : spanHead 4 ["DET", "ADJ", "PROPN", "PROPN", "ADP", "DET", "NOUN"] = 7 ∧ spanHead 4 ["DET", "ADJ", "NOUN", "ADV"] = 6 := by decide +kernel

/-- C91: the trivial clusters are one for each noun of the text. -/
theorem C91_trivial (pos : List (List String)) (c : List (List Nat)) : c ∈ trivialCorefs pos ↔
    ∃ i j, (∃ p, (pos[i]?).bind (fun s => s[j]?) = some p ∧ (p = "NOUN" ∨ p = "PROPN" ∨ p = "PRON")) ∧ c = (List.replicate pos.length []).set i [j] := by
  unfold trivialCorefs
  rw [List.mem_flatten]
  constructor
  · rintro ⟨l, hl, hc⟩
    obtain ⟨i, hi, rfl⟩ := List.mem_mapIdx.1 hl
    obtain ⟨l', hl', hc'⟩ := List.mem_flatten.1 hc
    obtain ⟨j, hj, rfl⟩ := List.mem_mapIdx.1 hl'
    by_cases hp : ["NOUN", "PROPN", "PRON"].contains pos[i][j] = true
    · rw [if_pos hp] at hc'
      refine ⟨i, j, ⟨pos[i][j], ?_, by simpa using hp⟩, List.mem_singleton.1 hc'⟩
      rw [List.getElem?_eq_getElem hi, Option.bind_some, List.getElem?_eq_getElem hj]
    · rw [if_neg hp] at hc'; simp at hc'
  · rintro ⟨i, j, ⟨p, hp, hn⟩, rfl⟩
    obtain ⟨s, hs, hj⟩ := Option.bind_eq_some_iff.1 hp
    obtain ⟨hi, e1⟩ := List.getElem?_eq_some_iff.1 hs
    obtain ⟨hj', e2⟩ := List.getElem?_eq_some_iff.1 hj
    subst e1
    refine ⟨_, List.mem_mapIdx.2 ⟨i, hi, rfl⟩, List.mem_flatten.2 ⟨_, List.mem_mapIdx.2 ⟨j, hj', rfl⟩, ?_⟩⟩
    rw [if_pos (by rw [e2]; simpa using hn)]
    exact List.mem_singleton.2 rfl

/-- C91: a span that starts within a sentence, where sentences follow one another, belongs to this sentence. -/
theorem C91_place (bs : List (Nat × Nat)) (hb : bs.Pairwise (fun a b => a.2 ≤ b.1)) (i start : Nat) (b : Nat × Nat) (hi : bs[i]? = some b) (h1 : b.1 ≤ start) (h2 : start < b.2) :
    placeSpan bs start = some (i, start - b.1) := by
  obtain ⟨hlt, he⟩ := List.getElem?_eq_some_iff.1 hi
  have : bs.findIdx? (fun b => decide (b.1 ≤ start ∧ start < b.2)) = some i := by
    rw [List.findIdx?_eq_some_iff_getElem]
    refine ⟨hlt, by simp [he, h1, h2], ?_⟩
    intro j hj
    have := List.pairwise_iff_getElem.1 hb j i (by omega) hlt hj
    rw [he] at this
    simp
    omega
  rw [placeSpan, this]
  simp [List.getD_eq_getElem?_getD, hi]

example : placeSpan [(0, 4), (4, 7)] 5 = some (1, 1) := by decide +kernel

/-! ## Pruning -/

/-- C91: which tokens are pruned, whatever the order of the nouns: for each noun, its first occurrence in the text and, in each other sentence, the first mention of the
first cluster that has this occurrence. -/
theorem C91_prune (sentences : List (List String)) (corefs : List (List (List Nat))) (pruned : List String) (hc : ∀ p ∈ corefs, p.length = sentences.length) :
    ∃ ids, pruneIndices sentences corefs pruned = .ok ids ∧ ids.length = sentences.length ∧
      ∀ i j, j ∈ ids.getD i [] ↔ ∃ w ∈ pruned, PrunedFor sentences corefs w i j := pruneIndices_ok sentences corefs pruned hc

example : ∀ p ∈ exCorefs, p.length = exSents.length := by decide
example : pruneIndices exSents exCorefs ["Bob", "Zoe"] = .ok [[2], [], [0]] := by rfl

/-- C91: where no cluster has two mentions in one sentence, and clusters are apart or within earlier ones, all mentions of the entity of the first occurrence of a pruned noun
are pruned. -/
theorem C91_prune_all_partial (sentences : List (List String)) (corefs : List (List (List Nat))) (pruned : List String) (hc : ∀ p ∈ corefs, p.length = sentences.length)
    (hn : Nested corefs) (h1 : ∀ p ∈ corefs, ∀ ts ∈ p, ts.length ≤ 1) (w : String) (hw : w ∈ pruned) (m k : Mention) (hm : FirstAt sentences w m)
    (hk : canon (dictFromCorefs corefs) k = canon (dictFromCorefs corefs) m) :
    ∃ ids, pruneIndices sentences corefs pruned = .ok ids ∧ k.2 ∈ ids.getD k.1 [] := by
  obtain ⟨ids, e1, _, e3⟩ := C91_prune sentences corefs pruned hc
  refine ⟨ids, e1, (e3 k.1 k.2).2 ⟨w, hw, m.1, m.2, hm, ?_⟩⟩
  rcases ((C91_entities_partial corefs hn k m).1).1 hk with rfl | ⟨c, hcm, hk2, hm2⟩
  · exact .inl rfl
  · have : ∃ p, corefs.find? (fun p => (p.getD m.1 []).contains m.2) = some p := by
      have := List.find?_isSome (xs := corefs) (p := fun p => (p.getD m.1 []).contains m.2) |>.2 ⟨c, hcm, by simpa using hm2⟩
      exact Option.isSome_iff_exists.1 this
    obtain ⟨p, hp⟩ := this
    have hpm := List.mem_of_find?_eq_some hp
    have hmp : m.2 ∈ p.getD m.1 [] := by simpa using List.find?_some hp
    -- the first cluster with `m` has `k`
    have hkp : k.2 ∈ p.getD k.1 [] := by
      have hf := hp
      rw [List.find?_eq_some_iff_append] at hf
      obtain ⟨_, as, bs, e, hno⟩ := hf
      rw [e] at hcm
      rcases List.mem_append.1 hcm with h | h
      · have := hno c h
        simp [hm2] at this
        exact absurd hm2 this
      · rcases List.mem_cons.1 h with rfl | h
        · exact hk2
        · have hp' := hn
          rw [Nested, e, List.map_append, List.map_cons, List.pairwise_append, List.pairwise_cons] at hp'
          rcases hp'.2.1.1 (mentions c) (List.mem_map_of_mem h) with hh | hh
          · exact absurd ((mem_mentions p m).2 hmp) (hh m ((mem_mentions c m).2 hm2))
          · exact (mem_mentions p k).1 (hh k ((mem_mentions c k).2 hk2))
    have one : ∀ (a x : Nat), x ∈ p.getD a [] → p.getD a [] = [x] := by
      intro a x hx
      have hmem : p.getD a [] ∈ p := by
        rw [List.getD_eq_getElem?_getD] at hx ⊢
        cases ha : p[a]? with
        | none => rw [ha] at hx; simp at hx
        | some l => exact List.mem_of_getElem? ha
      have := h1 p hpm _ hmem
      generalize p.getD a [] = l at *
      match l, this, hx with
      | [y], _, hx => rw [List.mem_singleton.1 hx]
    by_cases hs : k.1 = m.1
    · left
      have a := one k.1 k.2 hkp
      have b := one m.1 m.2 hmp
      rw [hs, b] at a
      exact Prod.ext hs (List.cons.inj a).1.symm
    · right
      exact ⟨p, hp, hs, by rw [one k.1 k.2 hkp]; rfl⟩

example : Nested [[[0], [0]], [[2], []]] ∧ FirstAt [["Alice", "saw", "Bob"], ["She", "ran"]] "Alice" (0, 0) := by
  refine ⟨by unfold Nested; decide +kernel, rfl, ?_⟩
  rintro ⟨a, b⟩ _
  simp only
  omega

/-- C91, refuted in general: of "Bob waved to him", the second sentence about Bob, only "Bob" is pruned, and "him" brings the entity back. -/
theorem C91_refuted_second_mention : pruneIndices exSents exCorefs ["Bob"] = .ok [[2], [], [0]] ∧
    canon (dictFromCorefs exCorefs) (2, 3) = canon (dictFromCorefs exCorefs) (0, 2) := ⟨by rfl, by decide +kernel⟩

/-! ## Rare nouns -/

theorem freqPruned_spec (d : List (Mention × Mention)) (n : Int) (m : Mention) :
    m ∈ freqPruned d n ↔ m ∈ d.map Prod.snd ∧ ((d.map Prod.snd).count m : Int) < n := by
  rw [freqPruned, List.mem_filter, List.mem_dedup, decide_eq_true_iff]

/-- C91: with the default `min_noun_freq`, only the given nouns are pruned. -/
theorem C91_freq_default (sentences : List (List String)) (corefs : List (List (List Nat))) (pruned : List String) (n : Int) (hn : n ≤ 1) :
    prepare sentences corefs pruned n = pruneIndices sentences corefs pruned := by
  have : freqPruned (dictFromCorefs corefs) n = [] := by
    rw [List.eq_nil_iff_forall_not_mem]
    intro m hm
    obtain ⟨h1, h2⟩ := (freqPruned_spec _ _ _).1 hm
    have := List.count_pos_iff.2 h1
    omega
  rw [prepare, this]
  simp [wordsAt]

/-- C91, refuted: nouns are pruned by their word: the rare second man, mentioned once, is kept, and the first man, mentioned three times, is pruned. -/
theorem C91_refuted_same_word : let sents := [["man", "ran"], ["he", "hid"], ["he", "saw", "man"]]
    let corefs := [[[0], [0], [0]], [[], [], [2]]]
    freqPruned (dictFromCorefs corefs) 2 = [(2, 2)] ∧ prepare sents corefs [] 2 = .ok [[0], [0], [0]] := ⟨by decide +kernel, by rfl⟩

/-! ## Whole texts -/

theorem wordsAt_ok (sentences : List (List String)) (ms : List Mention) (h : ∀ m ∈ ms, (wordAt sentences m).isSome) :
    ∃ ws, wordsAt sentences ms = .ok ws ∧ ws.map some = ms.map (wordAt sentences) := by
  induction ms with
  | nil => exact ⟨[], rfl, rfl⟩
  | cons m ms ih =>
    obtain ⟨ws, e1, e2⟩ := ih (fun m hm => h m (List.mem_cons_of_mem _ hm))
    obtain ⟨w, hw⟩ := Option.isSome_iff_exists.1 (h m List.mem_cons_self)
    obtain ⟨i, j⟩ := m
    have hw0 := hw
    rw [wordAt, Option.bind_eq_some_iff] at hw
    obtain ⟨s, h1, h2⟩ := hw
    refine ⟨w :: ws, ?_, by rw [List.map_cons, List.map_cons, e2, hw0]⟩
    simp only at h1 h2
    rw [wordsAt, h1]
    simp only [h2, e1]

/-- C91: where coreferences name tokens of the text, the pruned tokens are those of the given nouns and of the words that are the first mentions of entities with fewer than
`min_noun_freq` mentions. -/
theorem C91_prepare (sentences : List (List String)) (corefs : List (List (List Nat))) (pruned : List String) (n : Int) (hc : ∀ p ∈ corefs, p.length = sentences.length)
    (hr : ∀ p ∈ corefs, ∀ m ∈ mentions p, (wordAt sentences m).isSome) :
    ∃ ids, prepare sentences corefs pruned n = .ok ids ∧ ids.length = sentences.length ∧ ∀ i j, j ∈ ids.getD i [] ↔
      ∃ w, (w ∈ pruned ∨ ∃ m ∈ (dictFromCorefs corefs).map Prod.snd, wordAt sentences m = some w ∧ (((dictFromCorefs corefs).map Prod.snd).count m : Int) < n) ∧
        PrunedFor sentences corefs w i j := by
  have hv : ∀ m ∈ (dictFromCorefs corefs).map Prod.snd, ∃ p ∈ corefs, m ∈ mentions p := by
    have : ∀ (cs : List (List (List Nat))) (d : List (Mention × Mention)), (∀ c ∈ cs, c ∈ corefs) → (∀ m ∈ d.map Prod.snd, ∃ p ∈ corefs, m ∈ mentions p) →
        ∀ m ∈ (cs.foldl addCluster d).map Prod.snd, ∃ p ∈ corefs, m ∈ mentions p := by
      intro cs
      induction cs with
      | nil => intro d _ h; exact h
      | cons c cs ih =>
        intro d hcs hd
        rw [List.foldl_cons]
        refine ih _ (fun c hc => hcs c (List.mem_cons_of_mem _ hc)) ?_
        unfold addCluster
        cases hm : mentions c with
        | nil => exact hd
        | cons x l =>
          have hx : ∃ p ∈ corefs, x ∈ mentions p := ⟨c, hcs c List.mem_cons_self, by rw [hm]; exact List.mem_cons_self⟩
          have : ∀ (ms : List Mention) (d : List (Mention × Mention)), (∀ m ∈ d.map Prod.snd, ∃ p ∈ corefs, m ∈ mentions p) →
              ∀ m ∈ (ms.foldl (addMention x) d).map Prod.snd, ∃ p ∈ corefs, m ∈ mentions p := by
            intro ms
            induction ms with
            | nil => intro d h; exact h
            | cons a ms ih2 =>
              intro d h
              rw [List.foldl_cons]
              refine ih2 _ ?_
              unfold addMention
              split
              · exact h
              · intro m hm
                rw [List.map_append, List.mem_append] at hm
                rcases hm with hm | hm
                · exact h m hm
                · rw [List.map_singleton, List.mem_singleton] at hm
                  rw [hm]; exact hx
          exact this _ d hd
    exact this corefs [] (fun _ h => h) (by simp)
  obtain ⟨ws, e1, e2⟩ := wordsAt_ok sentences (freqPruned (dictFromCorefs corefs) n) (by
    intro m hm
    obtain ⟨p, hp, hm'⟩ := hv m ((freqPruned_spec _ _ _).1 hm).1
    exact hr p hp m hm')
  obtain ⟨ids, f1, f2, f3⟩ := C91_prune sentences corefs (pruned ++ ws) hc
  refine ⟨ids, by rw [prepare, e1]; exact f1, f2, ?_⟩
  intro i j
  rw [f3]
  have hw : ∀ w, w ∈ ws ↔ ∃ m ∈ (dictFromCorefs corefs).map Prod.snd, wordAt sentences m = some w ∧ (((dictFromCorefs corefs).map Prod.snd).count m : Int) < n := by
    intro w
    have : w ∈ ws ↔ some w ∈ ws.map some := by simp
    rw [this, e2, List.mem_map]
    constructor
    · rintro ⟨m, h1, h2⟩
      obtain ⟨h3, h4⟩ := (freqPruned_spec _ _ _).1 h1
      exact ⟨m, h3, h2, h4⟩
    · rintro ⟨m, h3, h2, h4⟩
      exact ⟨m, (freqPruned_spec _ _ _).2 ⟨h3, h4⟩, h2⟩
  simp only [List.mem_append, hw]

theorem sentencesOf_ok (rs : List Rule) (d : List (Mention × Mention)) : ∀ (ts : List PTree) (ss : List (List String)) (idss : List (List Nat)) (i : Nat),
    ss.length = ts.length → idss.length = ts.length → ∃ us : List (PTree × List Nat × Nat), us.length = ts.length ∧
      sentencesOf rs d i ss idss ts = .ok (us.map (fun u => frameSentence (fun k => canon d (u.2.2, k)) u.2.1 u.1)) ∧
      ∀ k t s ids, ts[k]? = some t → ss[k]? = some s → idss[k]? = some ids → ∃ u, us[k]? = some (u, ids, i + k) ∧
        reindexNodes (reindices s 0 (t.getWordIndices.zip t.getWords)) (rewriter rs t) = .ok u := by
  intro ts
  induction ts with
  | nil => 
    intro ss idss i h1 h2
    refine ⟨[], rfl, ?_, ?_⟩
    · cases ss with
      | nil => simp [sentencesOf]
      | cons s ss => simp at h1
    · intro k t s ids hk; simp at hk
  | cons t ts ih =>
    intro ss idss i h1 h2
    cases ss with
    | nil => simp at h1
    | cons s ss => cases idss with
      | nil => simp at h2
      | cons ids idss =>
        obtain ⟨us, e0, e1, e2⟩ := ih ss idss (i + 1) (by simpa using h1) (by simpa using h2)
        obtain ⟨f, hf, _⟩ := C90_reindex_total rs s t
        refine ⟨(mapInd f (rewriter rs t), ids, i) :: us, by simp [e0], ?_, ?_⟩
        · rw [sentencesOf, sentenceOf, hf]
          simp only [e1]
          rfl
        · intro k t' s' ids' hk1 hk2 hk3
          cases k with
          | zero =>
            simp only [List.getElem?_cons_zero, Option.some.injEq] at hk1 hk2 hk3
            subst hk1; subst hk2; subst hk3
            exact ⟨_, rfl, hf⟩
          | succ k =>
            simp only [List.getElem?_cons_succ] at hk1 hk2 hk3 ⊢
            obtain ⟨u, g1, g2⟩ := e2 k t' s' ids' hk1 hk2 hk3
            exact ⟨u, by rw [g1]; congr 3; omega, g2⟩

/-- C91: `text2circuit` with frames, for coreferences that name tokens of the text and one tree with a root of type s or n for each sentence: the trees of the sentences, rewritten and with new
indices, exist; and if the first of them has a noun that is not pruned, the circuit exists, is well-typed, has no inputs, and one noun wire for each entity that
an unpruned noun of any sentence mentions. -/
theorem C91_text (sentences : List (List String)) (corefs : List (List (List Nat))) (trees : List PTree) (rs : List Rule) (pruned : List String) (n : Int)
    (hc : ∀ p ∈ corefs, p.length = sentences.length) (hr : ∀ p ∈ corefs, ∀ m ∈ mentions p, (wordAt sentences m).isSome)
    (hl : trees.length = sentences.length) (ht : ∀ t ∈ trees, t.typ = [⟨"s", 0⟩] ∨ t.typ = [noun]) :
    ∃ (ids : List (List Nat)) (us : List (PTree × List Nat × Nat)), prepare sentences corefs pruned n = .ok ids ∧ ids.length = trees.length ∧ us.length = trees.length ∧
      (∀ k t s, trees[k]? = some t → sentences[k]? = some s → ∃ u, us[k]? = some (u, ids.getD k [], k) ∧
        reindexNodes (reindices s 0 (t.getWordIndices.zip t.getWords)) (rewriter rs t) = .ok u) ∧
      ((∀ u ∈ us.head?, nounLeaves u.2.1 u.1 ≠ []) → ∃ c : FD, text2circuit sentences corefs trees rs pruned n = .ok c ∧ c.WT ∧ c.dom = [] ∧
        c.cod = nouns (us.flatMap (fun u => (nounLeaves u.2.1 u.1).map (fun l => canon (dictFromCorefs corefs) (u.2.2, l.1)))).toFinset.card) := by
  obtain ⟨ids, e1, e2, _⟩ := C91_prepare sentences corefs pruned n hc hr
  obtain ⟨us, f1, f2, f3⟩ := sentencesOf_ok rs (dictFromCorefs corefs) trees sentences ids 0 hl.symm (by omega)
  refine ⟨ids, us, e1, by omega, f1, ?_, ?_⟩
  · intro k t s h1 h2
    have hk : k < ids.length := by
      have := (List.getElem?_eq_some_iff.1 h1).1
      omega
    obtain ⟨u, g1, g2⟩ := f3 k t s ids[k] h1 h2 (List.getElem?_eq_getElem hk)
    refine ⟨u, ?_, g2⟩
    rw [g1, List.getD_eq_getElem?_getD, List.getElem?_eq_getElem hk, Nat.zero_add]
    rfl
  · intro h0
    have hty : ∀ u ∈ us, u.1.typ = [⟨"s", 0⟩] ∨ u.1.typ = [noun] := by
      intro u hu
      obtain ⟨k, hk, e⟩ := List.mem_iff_getElem.1 hu
      have hk1 : k < trees.length := by omega
      have hk2 : k < sentences.length := by omega
      have hk3 : k < ids.length := by omega
      obtain ⟨v, g1, g2⟩ := f3 k _ _ _ (List.getElem?_eq_getElem hk1) (List.getElem?_eq_getElem hk2) (List.getElem?_eq_getElem hk3)
      rw [List.getElem?_eq_getElem hk, e] at g1
      have hv : u.1 = v := by rw [Option.some.inj g1]
      obtain ⟨f, hf, _⟩ := C90_reindex_total rs sentences[k] trees[k]
      rw [hf] at g2
      have hv2 : mapInd f (rewriter rs trees[k]) = v := Except.ok.inj g2
      have htyp : (mapInd f (rewriter rs trees[k])).typ = trees[k].typ := by
        rw [← (C90_shape rs trees[k]).1]
        cases rewriter rs trees[k] with
        | node => rw [mapInd]; rfl
      rw [hv, ← hv2, htyp]
      exact ht _ (List.getElem_mem hk1)
    obtain ⟨c, c1, c2, c3, c4⟩ := C89_frames_text (us.map (fun u => (u.1, u.2.1, fun k => canon (dictFromCorefs corefs) (u.2.2, k)))) (by
      intro t h
      obtain ⟨u, hu, rfl⟩ := List.mem_map.1 h
      exact hty u hu) (by
      intro t h
      rw [List.head?_map] at h
      obtain ⟨u, hu, rfl⟩ := Option.map_eq_some_iff.1 h
      exact h0 u hu)
    refine ⟨c, ?_, c2, c3, ?_⟩
    · rw [text2circuit, e1]
      simp only [f2]
      rw [List.map_map] at c1
      exact c1
    · rw [c4, List.flatMap_map]

/-- "Alice runs. She sings." -/
def exTrees : List PTree := [.node "runs" 1 [⟨"s", 0⟩] [.node "Alice" 0 [noun] []], .node "sings" 1 [⟨"s", 0⟩] [.node "She" 0 [noun] []]]

example : prepare [["Alice", "runs"], ["She", "sings"]] [[[0], [0]]] [] 1 = .ok [[], []] := by rfl
example : (∀ p ∈ [[[0], [0]]], ∀ m ∈ mentions p, (wordAt [["Alice", "runs"], ["She", "sings"]] m).isSome) ∧
    (∀ t ∈ exTrees, t.typ = [⟨"s", 0⟩] ∨ t.typ = [noun]) ∧ nounLeaves [] (exTrees.getD 0 (.node "" 0 [] [])) = [(0, "Alice")] := by decide +kernel

end Disco
end Lambeq
