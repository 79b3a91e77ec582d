import Verif.Bobcat.Network

/-!
# C112: every word gets the scores of its own first sub-token
-/

namespace Lambeq
namespace Bobcat
set_option linter.unusedVariables false
set_option linter.unusedSimpArgs false

/-! ## Specification -/

/-- The tokenizer splits the word into at least one sub-token, the first of which starts the word and is not empty, and no other starts it. -/
def Regular (w : List Offset) : Prop := ∃ e rest, w = (0, e) :: rest ∧ e ≠ 0 ∧ ∀ o ∈ rest, o.1 ≠ 0

/-- The position of the first sub-token of the word `i`; position 0 is the special token. -/
def firstPosition (ws : List (List Offset)) (i : Nat) : Nat := 1 + ((ws.take i).map List.length).sum

/-! ## Positions -/

theorem nonzero_append (i : Nat) (a b : List Nat) : nonzero i (a ++ b) = nonzero i a ++ nonzero (i + a.length) b := by
  induction a generalizing i with
  | nil => simp [nonzero]
  | cons m a ih =>
    simp only [List.cons_append, nonzero, List.length_cons]
    rw [show i + (a.length + 1) = (i + 1) + a.length from by omega]
    split <;> simp [ih]

theorem nonzero_zero (i : Nat) (a : List Nat) (h : ∀ m ∈ a, m = 0) : nonzero i a = [] := by
  induction a generalizing i with
  | nil => rfl
  | cons m a ih => simp [nonzero, h m (by simp), ih (i + 1) (fun m hm => h m (by simp [hm]))]

theorem nonzero_ge (i : Nat) (a : List Nat) : ∀ p ∈ nonzero i a, i ≤ p ∧ p < i + a.length := by
  induction a generalizing i with
  | nil => simp [nonzero]
  | cons m a ih =>
    intro p hp
    simp only [nonzero] at hp
    have : ∀ p ∈ nonzero (i + 1) a, i ≤ p ∧ p < i + (a.length + 1) := fun p hp => by have := ih (i + 1) p hp; omega
    split at hp
    · rcases List.mem_cons.1 hp with rfl | hp
      · simp
      · exact this p hp
    · exact this p hp

theorem nonzero_take (i n : Nat) (a : List Nat) : nonzero i (a.take n) = (nonzero i a).filter (fun p => p < i + n) := by
  induction a generalizing i n with
  | nil => simp [nonzero]
  | cons m a ih =>
    cases n with
    | zero =>
      simp only [List.take_zero, nonzero, Nat.add_zero]
      symm
      rw [List.filter_eq_nil_iff]
      intro p hp
      have := (nonzero_ge i (m :: a) p hp).1
      simp; omega
    | succ n =>
      simp only [List.take_succ_cons, nonzero]
      rw [show i + (n + 1) = (i + 1) + n from by omega]
      split
      · rw [List.filter_cons_of_pos (by simp; omega), ih]
      · exact ih (i + 1) n

/-- The mask of an offset. -/
theorem wordMask_append (a b : List Offset) : wordMask (a ++ b) = wordMask a ++ wordMask b := by simp [wordMask]

theorem wordMask_zero (n : Nat) : ∀ m ∈ wordMask (List.replicate n (0, 0)), m = 0 := by
  intro m hm
  simp only [wordMask, List.map_replicate, List.mem_replicate] at hm
  simpa using hm.2

/-- The positions of the first sub-tokens, if the first word begins at `k`. -/
def starts : Nat → List (List Offset) → List Nat
  | _, [] => []
  | k, w :: ws => k :: starts (k + w.length) ws

theorem starts_get (ws : List (List Offset)) (k i : Nat) (h : i < ws.length) : (starts k ws)[i]? = some (k + ((ws.take i).map List.length).sum) := by
  induction ws generalizing k i with
  | nil => simp at h
  | cons w ws ih =>
    cases i with
    | zero => simp [starts]
    | succ i =>
      simp only [starts, List.getElem?_cons_succ, List.take_succ_cons, List.map_cons, List.sum_cons]
      rw [ih (k + w.length) i (by simpa using h)]
      simp only [Option.some.injEq]; omega

theorem starts_length (ws : List (List Offset)) (k : Nat) : (starts k ws).length = ws.length := by
  induction ws generalizing k with
  | nil => rfl
  | cons w ws ih => simp [starts, ih]

theorem nonzero_flatten (ws : List (List Offset)) (h : ∀ w ∈ ws, Regular w) (k : Nat) : nonzero k (wordMask ws.flatten) = starts k ws := by
  induction ws generalizing k with
  | nil => rfl
  | cons w ws ih =>
    rw [List.flatten_cons, wordMask_append, nonzero_append, starts]
    have hl : (wordMask w).length = w.length := by simp [wordMask]
    rw [hl, ih (fun w hw => h w (by simp [hw]))]
    obtain ⟨e, rest, rfl, he, hr⟩ := h w (by simp)
    have : nonzero k (wordMask ((0, e) :: rest)) = [k] := by
      simp only [wordMask, List.map_cons, nonzero]
      rw [if_pos (by simpa using he)]
      congr 1
      refine nonzero_zero _ _ ?_
      intro m hm
      simp only [List.mem_map] at hm
      obtain ⟨o, ho, rfl⟩ := hm
      rw [if_neg (hr o ho)]
    rw [this]; rfl

theorem nonzero_row (limit : Nat) (ws : List (List Offset)) (h : ∀ w ∈ ws, Regular w) (n : Nat) :
    nonzero 0 (wordMask (encode limit ws ++ List.replicate n (0, 0))) = (starts 1 ws).filter (fun p => p < 1 + (limit - 2)) := by
  have e1 : encode limit ws ++ List.replicate n (0, 0) = [(0, 0)] ++ (ws.flatten.take (limit - 2) ++ List.replicate (n + 1) (0, 0)) := by
    simp [encode, List.replicate_succ]
  rw [e1, wordMask_append, nonzero_append, wordMask_append, nonzero_append]
  rw [nonzero_zero _ (wordMask (List.replicate (n + 1) (0, 0))) (wordMask_zero _), List.append_nil]
  have e2 : wordMask (ws.flatten.take (limit - 2)) = (wordMask ws.flatten).take (limit - 2) := by simp [wordMask]
  rw [e2, nonzero_take]
  have e3 : nonzero 0 (wordMask [(0, 0)]) = [] := rfl
  rw [e3, List.nil_append]
  simp only [wordMask, List.length_map, List.length_singleton, List.map_cons, List.map_nil, Nat.zero_add]
  have := nonzero_flatten ws h 1
  simp only [wordMask] at this
  rw [this]

/-- The rows of the sentence `b` before padding. -/
theorem forward_get {H R : Type} (memo : Memo) (limit : Nat) (tag : H → R) (span : H → H → R) (state : List (List (List Offset)) → Nat → Nat → H)
    (batch : List (List (List Offset))) (b : Nat) (ws : List (List Offset)) (hb : batch[b]? = some ws) :
    ∃ n m, (forward memo limit tag span state batch)[b]? = some
      ((gather (state batch) b (nonzero 0 (wordMask (encode limit ws ++ List.replicate n (0, 0))) ++ List.replicate m 0)).map tag,
       spanRows memo span (gather (state batch) b (nonzero 0 (wordMask (encode limit ws ++ List.replicate n (0, 0))) ++ List.replicate m 0))) ∧
      (gather (state batch) b (nonzero 0 (wordMask (encode limit ws ++ List.replicate n (0, 0))) ++ List.replicate m 0)).length =
        longestLength (((encodings limit batch).map wordMask).map (nonzero 0)) := by
  have loop : ∀ (rows : List (List Nat)) (b0 : Nat), (sentenceRows memo tag span (state batch) b0 rows)[b]? =
      rows[b]?.map (fun is => ((gather (state batch) (b0 + b) is).map tag, spanRows memo span (gather (state batch) (b0 + b) is))) := by
    clear hb
    induction b with
    | zero => intro rows b0; cases rows <;> simp [sentenceRows]
    | succ b ih =>
      intro rows b0
      cases rows with
      | nil => simp [sentenceRows]
      | cons is rows =>
        simp only [sentenceRows, List.getElem?_cons_succ]
        rw [ih rows (b0 + 1), show b0 + 1 + b = b0 + (b + 1) from by omega]
  have le_longest : ∀ {α : Type} (rows : List (List α)), ∀ r ∈ rows, r.length ≤ longestLength rows := by
    intro α rows r hr
    have gen : ∀ (l : List Nat) (a : Nat), a ≤ l.foldl max a ∧ ∀ x ∈ l, x ≤ l.foldl max a := by
      intro l
      induction l with
      | nil => intro a; simp
      | cons y l ih =>
        intro a
        obtain ⟨h1, h2⟩ := ih (max a y)
        refine ⟨le_trans (le_max_left a y) h1, ?_⟩
        intro x hx
        rcases List.mem_cons.1 hx with rfl | hx
        · exact le_trans (le_max_right a x) h1
        · exact h2 x hx
    exact (gen _ 0).2 _ (List.mem_map.2 ⟨r, hr, rfl⟩)
  obtain ⟨hlt, hw⟩ := List.getElem?_eq_some_iff.1 hb
  refine ⟨longestLength (batch.map (encode limit)) - (encode limit ws).length,
    longestLength (((encodings limit batch).map wordMask).map (nonzero 0)) -
      (nonzero 0 (wordMask (encode limit ws ++ List.replicate (longestLength (batch.map (encode limit)) - (encode limit ws).length) (0, 0)))).length, ?_, ?_⟩
  · unfold forward
    rw [loop]
    simp only [wordIndices, padRows, encodings, List.getElem?_map, hb, Option.map_some, Nat.zero_add]
  · simp only [gather, List.length_map, List.length_append, List.length_replicate]
    have := le_longest (((encodings limit batch).map wordMask).map (nonzero 0))
      (nonzero 0 (wordMask (encode limit ws ++ List.replicate (longestLength (batch.map (encode limit)) - (encode limit ws).length) (0, 0)))) (by
        simp only [List.mem_map, encodings, padRows]
        exact ⟨_, ⟨_, ⟨_, ⟨ws, hw ▸ List.getElem_mem hlt, rfl⟩, rfl⟩, rfl⟩, rfl⟩)
    omega

theorem filter_starts (limit : Nat) (ws : List (List Offset)) (i : Nat) (hi : i < ws.length) (hlim : firstPosition ws i < limit - 1) :
    ((starts 1 ws).filter (fun p => p < 1 + (limit - 2)))[i]? = some (firstPosition ws i) := by
  have hget := starts_get ws 1 i hi
  have sorted : ∀ (ws : List (List Offset)) k, (starts k ws).Pairwise (· ≤ ·) ∧ ∀ p ∈ starts k ws, k ≤ p := by
    intro ws
    induction ws with
    | nil => intro k; simp [starts]
    | cons w ws ih =>
      intro k
      obtain ⟨h1, h2⟩ := ih (k + w.length)
      refine ⟨List.pairwise_cons.2 ⟨fun p hp => by have := h2 p hp; omega, h1⟩, ?_⟩
      intro p hp
      rcases List.mem_cons.1 hp with rfl | hp
      · exact le_refl _
      · have := h2 p hp; omega
  have gen : ∀ (l : List Nat) (n : Nat), l.Pairwise (· ≤ ·) → ∀ i x : Nat, l[i]? = some x → x < n → (l.filter (fun p => decide (p < n)))[i]? = some x := by
    intro l n
    induction l with
    | nil => intro _ i x h; simp at h
    | cons y l ih =>
      intro hs i x h hx
      obtain ⟨h1, h2⟩ := List.pairwise_cons.1 hs
      cases i with
      | zero =>
        simp only [List.getElem?_cons_zero, Option.some.injEq] at h
        subst h
        rw [List.filter_cons_of_pos (by simpa using hx)]; rfl
      | succ i =>
        simp only [List.getElem?_cons_succ] at h
        have hy : y ≤ x := h1 x (List.mem_of_getElem? h)
        rw [List.filter_cons_of_pos (by simp; omega), List.getElem?_cons_succ]
        exact ih h2 i x h hx
  exact gen _ _ (sorted ws 1).1 i _ hget (by unfold firstPosition at *; omega)

theorem spanRows_get {H R : Type} (cs : List SpanCall) (span : H → H → R) (words : List H) (x y : Nat) (hxy : x ≤ y) (hy : y < words.length) :
    (spanRows (runCalls cs []) span words)[chartSize (y + 1) - x - 1]? = some (span (words[x]'(by omega)) words[y]) := by
  obtain ⟨m, hm⟩ := runCalls_state cs 0
  rw [show allSpans 0 = [] from rfl] at hm
  unfold spanRows
  rw [hm, getChartSpans_eq]
  dsimp only
  have total : ∀ l : List (Nat × Nat), (∀ p ∈ l, p.1 ≤ p.2 ∧ p.2 < words.length) → ∀ j : Nat,
      (l.filterMap (fun p => match words[p.1]?, words[p.2]? with
        | some x, some y => some (span x y)
        | _, _ => none))[j]? = (l[j]?).bind (fun p => match words[p.1]?, words[p.2]? with
        | some x, some y => some (span x y)
        | _, _ => none) := by
    intro l
    induction l with
    | nil => intro _ j; simp
    | cons p l ih =>
      intro hl j
      obtain ⟨h1, h2⟩ := hl p (by simp)
      have e1 : words[p.1]? = some (words[p.1]'(by omega)) := List.getElem?_eq_getElem (by omega)
      have e2 : words[p.2]? = some words[p.2] := List.getElem?_eq_getElem h2
      rw [List.filterMap_cons_some (b := span (words[p.1]'(by omega)) words[p.2]) (by simp only [e1, e2])]
      cases j with
      | zero => simp [e1, e2]
      | succ j => simpa using ih (fun p hp => hl p (by simp [hp])) j
  refine (total (allSpans words.length) (fun p hp => (mem_allSpans p.1 p.2 words.length).1 hp) _).trans ?_
  rw [getElem_allSpans x y words.length hxy hy]
  simp only [Option.bind_some]
  rw [List.getElem?_eq_getElem hy, List.getElem?_eq_getElem (show x < words.length by omega)]

/-- **C112 (rows).** In every batch, if each word of a sentence has sub-tokens of which exactly the first starts the word, then the row
number `i` for words comes from the state at the first sub-token of the word `i`, and the row number `span2idx(x, y)` for spans from the
states at the first sub-tokens of `x` and of `y`, for all words whose first sub-token is within the limit of the model; whatever the other
sentences of the batch are. -/
theorem C112_rows {H R : Type} (cs : List SpanCall) (limit : Nat) (tag : H → R) (span : H → H → R)
    (state : List (List (List Offset)) → Nat → Nat → H) (batch : List (List (List Offset))) (b : Nat) (ws : List (List Offset))
    (hb : batch[b]? = some ws) (hreg : ∀ w ∈ ws, Regular w) :
    ∃ tags spans, (forward (runCalls cs []) limit tag span state batch)[b]? = some (tags, spans) ∧
      (∀ i < ws.length, firstPosition ws i < limit - 1 → tags[i]? = some (tag (state batch b (firstPosition ws i)))) ∧
      ∀ x y, x ≤ y → y < ws.length → firstPosition ws y < limit - 1 →
        ∃ k : Nat, (k : Int) = span2idx x y ∧ spans[k]? = some (span (state batch b (firstPosition ws x)) (state batch b (firstPosition ws y))) := by
  obtain ⟨n, m, h1, _⟩ := forward_get (runCalls cs []) limit tag span state batch b ws hb
  rw [nonzero_row limit ws hreg n] at h1
  have mono : ∀ x y, x ≤ y → firstPosition ws x ≤ firstPosition ws y := by
    intro x y hxy
    unfold firstPosition
    have : ((ws.take y).map List.length) = ((ws.take x).map List.length) ++ ((((ws.take y).drop x)).map List.length) := by
      rw [← List.map_append]
      congr 1
      have h := (List.take_append_drop x (ws.take y)).symm
      rwa [List.take_take, Nat.min_eq_left hxy] at h
    rw [this, List.sum_append]; omega
  have word : ∀ i, i < ws.length → firstPosition ws i < limit - 1 →
      (gather (state batch) b ((starts 1 ws).filter (fun p => p < 1 + (limit - 2)) ++ List.replicate m 0))[i]? =
        some (state batch b (firstPosition ws i)) := by
    intro i hi hl
    have := filter_starts limit ws i hi hl
    have hlt := (List.getElem?_eq_some_iff.1 this).1
    simp only [gather, List.getElem?_map]
    rw [List.getElem?_append_left hlt, this]; rfl
  refine ⟨_, _, h1, ?_, ?_⟩
  · intro i hi hl
    rw [List.getElem?_map, word i hi hl]; rfl
  · intro x y hxy hy hl
    refine ⟨chartSize (y + 1) - x - 1, ?_, ?_⟩
    · unfold span2idx
      have := chartSize_succ y
      omega
    · have hwy := word y hy hl
      have hwx := word x (by omega) (lt_of_le_of_lt (mono x y hxy) hl)
      obtain ⟨hly, ey⟩ := List.getElem?_eq_some_iff.1 hwy
      obtain ⟨hlx, ex⟩ := List.getElem?_eq_some_iff.1 hwx
      rw [spanRows_get cs span _ x y hxy hly, ex, ey]

/-- **C112 (numbers of rows).** All sentences of a batch get the same number of rows: as many as the most words that a sentence of the batch
has within the limit. A sentence with fewer words gets rows made from the state at the special token in front. -/
theorem C112_padding {H R : Type} (cs : List SpanCall) (limit : Nat) (tag : H → R) (span : H → H → R)
    (state : List (List (List Offset)) → Nat → Nat → H) (batch : List (List (List Offset))) (hreg : ∀ ws ∈ batch, ∀ w ∈ ws, Regular w) :
    ∃ n, (∀ ws ∈ batch, ((List.range ws.length).filter (fun i => firstPosition ws i < limit - 1)).length ≤ n) ∧
      (n = 0 ∨ ∃ ws ∈ batch, ((List.range ws.length).filter (fun i => firstPosition ws i < limit - 1)).length = n) ∧
      ∀ b ws, batch[b]? = some ws → ∃ tags spans, (forward (runCalls cs []) limit tag span state batch)[b]? = some (tags, spans) ∧
        tags.length = n ∧ spans.length = chartSize n ∧
        ∀ i, ((List.range ws.length).filter (fun i => firstPosition ws i < limit - 1)).length ≤ i → i < n →
          tags[i]? = some (tag (state batch b 0)) := by
  have count : ∀ ws : List (List Offset), ((starts 1 ws).filter (fun p => p < 1 + (limit - 2))).length =
      ((List.range ws.length).filter (fun i => firstPosition ws i < limit - 1)).length := by
    intro ws
    have hs : starts 1 ws = (List.range ws.length).map (firstPosition ws) := by
      refine List.ext_getElem? ?_
      intro i
      by_cases hi : i < ws.length
      · rw [starts_get ws 1 i hi, List.getElem?_map, List.getElem?_range hi]; rfl
      · rw [List.getElem?_eq_none (by rw [starts_length]; omega), List.getElem?_eq_none (by simp; omega)]
    rw [hs, List.filter_map, List.length_map]
    congr 1
    refine List.filter_congr ?_
    intro i _
    refine decide_eq_decide.2 ?_
    show firstPosition ws _ < 1 + (limit - 2) ↔ firstPosition ws _ < limit - 1
    unfold firstPosition
    constructor <;> intro h <;> omega
  have rowsEq : ((encodings limit batch).map wordMask).map (nonzero 0) =
      batch.map (fun ws => (starts 1 ws).filter (fun p => p < 1 + (limit - 2))) := by
    simp only [encodings, padRows, List.map_map]
    refine List.map_congr_left ?_
    intro ws hws
    exact nonzero_row limit ws (hreg ws hws) _
  have gen : ∀ (l : List Nat) (a : Nat), a ≤ l.foldl max a ∧ (∀ x ∈ l, x ≤ l.foldl max a) ∧ (l.foldl max a = a ∨ l.foldl max a ∈ l) := by
    intro l
    induction l with
    | nil => intro a; simp
    | cons y l ih =>
      intro a
      obtain ⟨h1, h2, h3⟩ := ih (max a y)
      refine ⟨le_trans (le_max_left a y) h1, ?_, ?_⟩
      · intro x hx
        rcases List.mem_cons.1 hx with rfl | hx
        · exact le_trans (le_max_right a x) h1
        · exact h2 x hx
      · simp only [List.foldl_cons]
        rcases h3 with h3 | h3
        · rcases max_choice a y with h4 | h4
          · exact .inl (by rw [h3, h4])
          · exact .inr (by rw [h3, h4]; simp)
        · exact .inr (List.mem_cons_of_mem _ h3)
  obtain ⟨_, g2, g3⟩ := gen ((((encodings limit batch).map wordMask).map (nonzero 0)).map List.length) 0
  have lens : (((encodings limit batch).map wordMask).map (nonzero 0)).map List.length =
      batch.map (fun ws => ((List.range ws.length).filter (fun i => firstPosition ws i < limit - 1)).length) := by
    rw [rowsEq, List.map_map]
    exact List.map_congr_left (fun ws _ => count ws)
  refine ⟨longestLength (((encodings limit batch).map wordMask).map (nonzero 0)), ?_, ?_, ?_⟩
  · intro ws hws
    exact g2 _ (by rw [lens]; exact List.mem_map.2 ⟨ws, hws, rfl⟩)
  · rcases g3 with g3 | g3
    · exact .inl g3
    · right
      rw [lens] at g3
      obtain ⟨ws, h1, h2⟩ := List.mem_map.1 g3
      exact ⟨ws, h1, by rw [h2, ← lens]; rfl⟩
  · intro b ws hb
    obtain ⟨n, m, h1, h2⟩ := forward_get (runCalls cs []) limit tag span state batch b ws hb
    have hws : ws ∈ batch := List.mem_of_getElem? hb
    rw [nonzero_row limit ws (hreg ws hws) n] at h1 h2
    refine ⟨_, _, h1, by simpa using h2, ?_, ?_⟩
    · rw [← h2]
      obtain ⟨k, hk⟩ := runCalls_state cs 0
      rw [show allSpans 0 = [] from rfl] at hk
      unfold spanRows
      rw [hk, getChartSpans_eq, ← length_allSpans]
      generalize gather (state batch) b ((starts 1 ws).filter (fun p => p < 1 + (limit - 2)) ++ List.replicate m 0) = words
      have : ∀ l : List (Nat × Nat), (∀ p ∈ l, p.1 ≤ p.2 ∧ p.2 < words.length) →
          (l.filterMap (fun p => match words[p.1]?, words[p.2]? with
            | some x, some y => some (span x y)
            | _, _ => none)).length = l.length := by
        intro l
        induction l with
        | nil => intro _; rfl
        | cons p l ih =>
          intro hl
          obtain ⟨h1, h2⟩ := hl p (by simp)
          have e1 : words[p.1]? = some (words[p.1]'(by omega)) := List.getElem?_eq_getElem (by omega)
          have e2 : words[p.2]? = some words[p.2] := List.getElem?_eq_getElem h2
          rw [List.filterMap_cons_some (b := span (words[p.1]'(by omega)) words[p.2]) (by simp only [e1, e2]), List.length_cons,
            ih (fun p hp => hl p (by simp [hp])), List.length_cons]
      exact this _ (fun p hp => (mem_allSpans p.1 p.2 words.length).1 hp)
    · intro i hi hin
      rw [← count] at hi
      simp only [gather, List.length_map, List.length_append, List.length_replicate] at h2
      rw [List.getElem?_map, gather, List.getElem?_map, List.getElem?_append_right hi, List.getElem?_replicate, if_pos (by omega)]
      rfl

/-! ## Examples -/

/-- `snow leopards run`: the second word has two sub-tokens. -/
def demoWords : List (List Offset) := [[(0, 4)], [(0, 3), (3, 8)], [(0, 3)]]

/-- With states that are pairs of sentence and position, and classifiers that show them. -/
def demoForward (limit : Nat) (batch : List (List (List Offset))) : List (List (List Nat) × List (List Nat)) :=
  forward [] limit (fun h : Nat × Nat => [h.2]) (fun x y => [x.2, y.2]) (fun _ b p => (b, p)) batch

example : (∀ w ∈ demoWords, Regular w) ∧ firstPosition demoWords 2 = 4 ∧
    demoForward 512 [demoWords, [[(0, 2)]]] = [([[1], [2], [4]], [[1, 1], [2, 2], [1, 2], [4, 4], [2, 4], [1, 4]]),
      ([[1], [0], [0]], [[1, 1], [0, 0], [1, 0], [0, 0], [0, 0], [1, 0]])] := by
  refine ⟨?_, by decide, by decide +kernel⟩
  intro w hw
  simp only [demoWords, List.mem_cons, List.not_mem_nil, or_false] at hw
  rcases hw with rfl | rfl | rfl
  · exact ⟨4, [], rfl, by decide, by simp⟩
  · exact ⟨3, [(3, 8)], rfl, by decide, by simp⟩
  · exact ⟨3, [], rfl, by decide, by simp⟩

/-- **C112 (refuted: words without sub-tokens).** If the tokenizer drops a word, the words after it get the rows of their right neighbours, and
the last one gets none, or, next to a longer sentence, that of the special token. -/
theorem C112_refuted_dropped :
    (demoForward 512 [[[(0, 4)], [], [(0, 3)]]]).map Prod.fst = [[[1], [2]]] ∧
    (demoForward 512 [[[(0, 4)], [], [(0, 3)]], demoWords]).map Prod.fst = [[[1], [2], [0]], [[1], [2], [4]]] := by
  constructor <;> decide +kernel

/-- **C112 (refuted: words that start with a dropped character).** A word whose first sub-token starts after its first character is passed
over. -/
theorem C112_refuted_offset : (demoForward 512 [[[(1, 4)], [(0, 3)]]]).map Prod.fst = [[[2]]] := by decide +kernel

/-- **C112 (refuted: long sentences).** Sentences over the limit are cut off silently: the last words get no row, or that of the special
token. -/
theorem C112_refuted_long :
    (demoForward 4 [demoWords]).map Prod.fst = [[[1], [2]]] ∧
    (demoForward 5 [demoWords, [[(0, 1)], [(0, 1)], [(0, 1)]]]).map Prod.fst = [[[1], [2], [0]], [[1], [2], [3]]] := by
  constructor <;> decide +kernel

/-- The tags that the tagger reports for these rows: a sentence of three words with two lists of tags. -/
theorem C112_refuted_tags : ∃ ts, tagBatch (S := Int) (fun _ => [([[(5, -1)], [(6, -1)]], [])]) ⟨true, none⟩ ⟨true, none⟩ [["a", "b", "c"]] = .ok ts ∧
    ts.map (fun t => (t.words.length, t.tags.length)) = [(3, 2)] := ⟨_, rfl, rfl⟩

end Bobcat
end Lambeq
