import Verif.Bobcat.Spans
import Mathlib.Algebra.Order.Group.Defs
import Mathlib.Algebra.Order.Group.Int

/-!
# Bobcat: what the tagger reports (C66)

Models `lambeq/bobcat/tagger.py` 338-413, from the scores of the neural network on: `logits.log_softmax(-1).topk(k)` is a list of pairs of an
index and a log-probability for every row, best first. Simplifications: the network is a function from a batch to such scores; scores are in
a linearly ordered additive monoid; `math.log(prob_threshold)` is a parameter (`none` for a threshold of 0, where the code uses minus infinity);
the memo of `idx2span` is left out, as its result does not depend on it (`C65_idx2span`).
-/

namespace Lambeq
namespace Bobcat
set_option linter.unusedSimpArgs false
set_option linter.unusedVariables false
set_option synthInstance.maxSize 2000
set_option linter.unusedSectionVars false

variable {S : Type} [LinearOrder S] [AddCommMonoid S]

/-- A row of scores: the index and the log-probability of the candidates. -/
abbrev Row (S : Type) := List (Nat × S)

/-- The settings for tags or for spans, tagger.py:311-317. -/
structure Keep (S : Type) where
  relative : Bool
  logThreshold : Option S

/-- tagger.py:376-380; `none` is minus infinity. -/
def rowThreshold (k : Keep S) (row : Row S) : Except PyErr (Option S) :=
  match k.logThreshold with
  | none => .ok none
  | some l =>
    if k.relative then
      match row with
      | [] => .error .indexError
      | p :: _ => .ok (some (p.2 + l))
    else .ok (some (0 + l))

/-- tagger.py:382 -/
def belowThreshold : Option S → S → Bool
  | none, _ => false
  | some t, s => decide (s < t)

/-- tagger.py:384: `output_batch == tag_output`. For tags (`none`) the two are the same list; for spans the lists are compared by value. -/
def sameBatch (tagOut : Option (List (List (Row S)))) (batch : List (List (Row S))) : Bool :=
  match tagOut with
  | none => true
  | some t => decide (batch = t)

/-- tagger.py:381-385; `output_batch` is at this point `done ++ [rows ++ [out]]`. -/
def fillRow (tagOut : Option (List (List (Row S)))) (done : List (List (Row S))) (rows : List (Row S)) (thr : Option S) : Row S → Row S → Row S
  | [], out => out
  | p :: rest, out =>
    if belowThreshold thr p.2 then out
    else if p.1 ≠ 0 ∨ sameBatch tagOut (done ++ [rows ++ [out]]) = true then fillRow tagOut done rows thr rest (out ++ [p])
    else fillRow tagOut done rows thr rest out

/-- tagger.py:372-385 -/
def fillRows (tagOut : Option (List (List (Row S)))) (done : List (List (Row S))) (k : Keep S) : List (Row S) → List (Row S) → Except PyErr (List (Row S))
  | [], rows => .ok rows
  | r :: rs, rows =>
    match rowThreshold k r with
    | .error e => .error e
    | .ok thr => fillRows tagOut done k rs (rows ++ [fillRow tagOut done rows thr r []])

/-- tagger.py:368-385 -/
def fillBatch (tagOut : Option (List (List (Row S)))) (k : Keep S) : List (Nat × List (Row S)) → List (List (Row S)) → Except PyErr (List (List (Row S)))
  | [], done => .ok done
  | (n, scores) :: rest, done =>
    match fillRows tagOut done k (scores.take n) [] with
    | .error e => .error e
    | .ok rows => fillBatch tagOut k rest (done ++ [rows])

/-- tagger.py:387-390: the spans of one sentence, from index `i` on. -/
def spanList : Nat → List (Row S) → Except PyErr (List (Nat × Nat × Row S))
  | _, [] => .ok []
  | i, r :: rs =>
    match spanList (i + 1) rs with
    | .error e => .error e
    | .ok l =>
      if r = [] then .ok l
      else
        match (idx2span i []).1 with
        | .error e => .error e
        | .ok p => .ok ((p.1, p.2, r) :: l)

/-- tagger.py:387-390 -/
def spanLists : List (List (Row S)) → Except PyErr (List (List (Nat × Nat × Row S)))
  | [] => .ok []
  | rows :: rest =>
    match spanList 0 rows, spanLists rest with
    | .ok l, .ok ls => .ok (l :: ls)
    | .error e, _ => .error e
    | _, .error e => .error e

/-- tagger.py:220-239 -/
structure TaggedSentence (S : Type) where
  words : List String
  tags : List (Row S)
  spans : List (Nat × Nat × Row S)

/-- tagger.py:392-393 -/
def zipSentences : List (List String) → List (List (Row S)) → List (List (Nat × Nat × Row S)) → List (TaggedSentence S)
  | w :: ws, t :: ts, s :: ss => ⟨w, t, s⟩ :: zipSentences ws ts ss
  | _, _, _ => []

/-- What the network gives for a sentence: the rows for the words and for the spans. -/
abbrev Scores (S : Type) := List (Row S) × List (Row S)

/-- tagger.py:338-393 -/
def tagBatch (model : List (List String) → List (Scores S)) (kt ks : Keep S) (inputs : List (List String)) : Except PyErr (List (TaggedSentence S)) :=
  match fillBatch none kt ((inputs.map List.length).zip ((model inputs).map Prod.fst)) [] with
  | .error e => .error e
  | .ok tags =>
    match fillBatch (some tags) ks ((inputs.map (fun s => chartSize s.length)).zip ((model inputs).map Prod.snd)) [] with
    | .error e => .error e
    | .ok spanOut =>
      match spanLists spanOut with
      | .error e => .error e
      | .ok spans => .ok (zipSentences inputs tags spans)

/-- tagger.py:395-413: the loop over `range(0, len(inputs), batch_size)`, with at most `fuel` batches. -/
def tagAll (model : List (List String) → List (Scores S)) (kt ks : Keep S) (batchSize : Nat) : Nat → List (List String) → Except PyErr (List (TaggedSentence S))
  | 0, _ => .ok []
  | fuel + 1, inputs =>
    if inputs = [] then .ok []
    else
      match tagBatch model kt ks (inputs.take batchSize) with
      | .error e => .error e
      | .ok out =>
        match tagAll model kt ks batchSize fuel (inputs.drop batchSize) with
        | .error e => .error e
        | .ok outs => .ok (out ++ outs)

/-! ## Specification -/

/-- The candidates that reach the threshold. -/
def reached (k : Keep S) (row : Row S) : Row S :=
  match k.logThreshold with
  | none => row
  | some l =>
    let thr := (if k.relative then (row.head?.map Prod.snd).getD 0 else 0) + l
    row.takeWhile (fun p => decide (thr ≤ p.2))

/-- The span categories reported for a row: those that reach the threshold, without the category 0, which stands for no category. -/
def spanCats (k : Keep S) (row : Row S) : Row S := (reached k row).filter (fun p => decide (p.1 ≠ 0))

/-! ## Proofs -/

def keptBelow (thr : Option S) (row : Row S) : Row S := row.takeWhile (fun p => !belowThreshold thr p.2)

theorem fillRow_tags (done : List (List (Row S))) (rows : List (Row S)) (thr : Option S) (row out : Row S) :
    fillRow none done rows thr row out = out ++ keptBelow thr row := by
  induction row generalizing out with
  | nil => simp [fillRow, keptBelow]
  | cons p rest ih =>
    simp only [fillRow, keptBelow, List.takeWhile_cons]
    cases hb : belowThreshold thr p.2 with
    | true => simp
    | false => simp [sameBatch, ih, keptBelow]

theorem fillRow_spans (tagOut : List (List (Row S))) (done : List (List (Row S))) (rows : List (Row S)) (thr : Option S) (row out : Row S)
    (h : ∀ out' : Row S, (∀ q ∈ out', q ∈ out ∨ q ∈ row) → done ++ [rows ++ [out']] ≠ tagOut) :
    fillRow (some tagOut) done rows thr row out = out ++ (keptBelow thr row).filter (fun p => decide (p.1 ≠ 0)) := by
  induction row generalizing out with
  | nil => simp [fillRow, keptBelow]
  | cons p rest ih =>
    simp only [fillRow, keptBelow, List.takeWhile_cons]
    have hne := h out (fun q hq => .inl hq)
    cases hb : belowThreshold thr p.2 with
    | true => simp
    | false =>
      simp only [Bool.false_eq_true, if_false, sameBatch, hne, decide_false, or_false]
      by_cases hp : p.1 = 0
      · rw [if_neg (by simpa using hp), ih out (fun o ho => h o (fun q hq => (ho q hq).imp id (List.mem_cons_of_mem _)))]
        simp [hp, keptBelow]
      · rw [if_pos (by simpa using hp), ih (out ++ [p]) (fun o ho => h o (fun q hq => by
          rcases ho q hq with h1 | h1
          · rcases List.mem_append.1 h1 with h1 | h1
            · exact .inl h1
            · exact .inr (by simp at h1; simp [h1])
          · exact .inr (List.mem_cons_of_mem _ h1)))]
        simp [hp, keptBelow]

theorem kept_eq_reached {k : Keep S} {row : Row S} {thr : Option S} (h : rowThreshold k row = .ok thr) : keptBelow thr row = reached k row := by
  unfold rowThreshold at h
  unfold reached keptBelow
  have hneg : ∀ (t : S) (p : Nat × S), (!belowThreshold (some t) p.2) = decide (t ≤ p.2) := by
    intro t p
    unfold belowThreshold
    by_cases h : t ≤ p.2
    · simp [h, not_lt.2 h]
    · simp [h, not_le.1 h]
  cases hl : k.logThreshold with
  | none => rw [hl] at h; cases h; simp only [belowThreshold, Bool.not_false]; induction row with | nil => rfl | cons a l ih => simp [List.takeWhile_cons, ih]
  | some l =>
    rw [hl] at h
    simp only at h ⊢
    cases hr : k.relative with
    | true =>
      rw [hr] at h
      cases row with
      | nil => simp at h
      | cons p rest =>
        simp only [if_true, Except.ok.injEq] at h
        subst h
        simp only [hneg, if_true, List.head?_cons, Option.map_some, Option.getD_some]
    | false =>
      rw [hr] at h
      simp only [Bool.false_eq_true, if_false, Except.ok.injEq] at h
      subst h
      simp only [hneg, Bool.false_eq_true, if_false]

theorem fillRows_tags (done : List (List (Row S))) (k : Keep S) (scores rows res : List (Row S)) (h : fillRows none done k scores rows = .ok res) :
    res = rows ++ scores.map (reached k) := by
  induction scores generalizing rows with
  | nil => simp only [fillRows, Except.ok.injEq] at h; simp [h]
  | cons r rs ih =>
    simp only [fillRows] at h
    split at h
    · cases h
    · rename_i thr hthr
      rw [ih _ h, fillRow_tags, kept_eq_reached hthr]
      simp

theorem fillBatch_tags (k : Keep S) (l : List (Nat × List (Row S))) (done res : List (List (Row S))) (h : fillBatch none k l done = .ok res) :
    res = done ++ l.map (fun p => (p.2.take p.1).map (reached k)) := by
  induction l generalizing done with
  | nil => simp only [fillBatch, Except.ok.injEq] at h; simp [h]
  | cons p l ih =>
    obtain ⟨n, scores⟩ := p
    simp only [fillBatch] at h
    split at h
    · cases h
    · rename_i rows hrows
      rw [ih _ h, fillRows_tags _ _ _ _ _ hrows]
      simp

/-- The first row of a batch. -/
def firstRow (b : List (List (Row S))) : Option (Row S) := b.head?.bind List.head?

/-- The first tag row starts with a candidate that is not in `first`. -/
def Apart (tagOut : List (List (Row S))) (first : Row S) : Prop := ∃ p rest, firstRow tagOut = some (p :: rest) ∧ p ∉ first

theorem Apart.ne {tagOut b : List (List (Row S))} {first : Row S} (h : Apart tagOut first) (hb : ∀ r, firstRow b = some r → ∀ q ∈ r, q ∈ first) : b ≠ tagOut := by
  rintro rfl
  obtain ⟨p, rest, h1, h2⟩ := h
  exact h2 (hb _ h1 p (by simp))

theorem firstRow_append {done : List (List (Row S))} (h : done ≠ []) (rows : List (List (Row S))) : firstRow (done ++ rows) = firstRow done := by
  cases done with
  | nil => exact absurd rfl h
  | cons a l => rfl

theorem fillRows_spans {tagOut : List (List (Row S))} {first : Row S} (hap : Apart tagOut first) (done : List (List (Row S))) (k : Keep S)
    (scores rows res : List (Row S))
    (hd : done ≠ [] → ∀ r, firstRow done = some r → ∀ q ∈ r, q ∈ first)
    (h0 : done = [] → rows = [] → ∀ r, scores.head? = some r → ∀ q ∈ r, q ∈ first)
    (h1 : done = [] → ∀ r, rows.head? = some r → ∀ q ∈ r, q ∈ first)
    (h : fillRows (some tagOut) done k scores rows = .ok res) :
    res = rows ++ scores.map (spanCats k) ∧ (done = [] → ∀ r, res.head? = some r → ∀ q ∈ r, q ∈ first) := by
  induction scores generalizing rows with
  | nil => simp only [fillRows, Except.ok.injEq] at h; subst h; exact ⟨by simp, h1⟩
  | cons r rs ih =>
    simp only [fillRows] at h
    split at h
    · cases h
    · rename_i thr hthr
      have hrow : fillRow (some tagOut) done rows thr r [] = spanCats k r := by
        rw [fillRow_spans, kept_eq_reached hthr]
        · simp [spanCats]
        · intro out' ho
          refine hap.ne ?_
          intro r' hr'
          by_cases hdn : done = []
          · subst hdn
            cases rows with
            | nil =>
              simp only [List.nil_append, firstRow, List.head?_cons, Option.bind_some, Option.some.injEq] at hr'
              subst hr'
              intro q hq
              rcases ho q hq with hq | hq
              · simp at hq
              · exact h0 rfl rfl r rfl q hq
            | cons a l =>
              simp only [List.nil_append, List.cons_append, firstRow, List.head?_cons, Option.bind_some, Option.some.injEq] at hr'
              subst hr'
              exact h1 rfl a rfl
          · rw [firstRow_append hdn] at hr'
            exact hd hdn r' hr'
      rw [hrow] at h
      have hsub : ∀ q ∈ spanCats k r, q ∈ r := by
        intro q hq
        have := List.mem_of_mem_filter hq
        unfold reached at this
        split at this
        · exact this
        · exact List.takeWhile_subset _ this
      obtain ⟨h2, h3⟩ := ih (rows ++ [spanCats k r]) (by intro _ hc; simp at hc) (by
        intro hdn r' hr'
        cases rows with
        | nil =>
          simp only [List.nil_append, List.head?_cons, Option.some.injEq] at hr'
          subst hr'
          intro q hq
          exact h0 hdn rfl r rfl q (hsub q hq)
        | cons a l =>
          simp only [List.cons_append, List.head?_cons, Option.some.injEq] at hr'
          subst hr'
          exact h1 hdn a rfl) h
      exact ⟨by rw [h2]; simp, h3⟩

theorem fillBatch_spans {tagOut : List (List (Row S))} {first : Row S} (hap : Apart tagOut first) (k : Keep S) (l : List (Nat × List (Row S)))
    (done res : List (List (Row S))) (hd : done ≠ [] → ∀ r, firstRow done = some r → ∀ q ∈ r, q ∈ first)
    (h0 : done = [] → ∀ p, l.head? = some p → ∀ r, p.2.head? = some r → ∀ q ∈ r, q ∈ first)
    (h : fillBatch (some tagOut) k l done = .ok res) : res = done ++ l.map (fun p => (p.2.take p.1).map (spanCats k)) := by
  induction l generalizing done with
  | nil => simp only [fillBatch, Except.ok.injEq] at h; simp [h]
  | cons p l ih =>
    obtain ⟨n, scores⟩ := p
    simp only [fillBatch] at h
    split at h
    · cases h
    · rename_i rows hrows
      obtain ⟨h2, h3⟩ := fillRows_spans hap done k _ [] rows hd (by
        intro hdn _ r hr
        refine h0 hdn _ rfl r ?_
        cases scores with
        | nil => simp at hr
        | cons a s => cases n <;> simp_all) (by simp) hrows
      rw [ih (done ++ [rows]) ?_ (by intro hc; simp at hc) h, h2]
      · simp
      · intro _ r hr
        by_cases hdn : done = []
        · subst hdn
          simp only [List.nil_append, firstRow, List.head?_cons, Option.bind_some] at hr
          exact h3 rfl r hr
        · rw [firstRow_append hdn] at hr
          exact hd hdn r hr

theorem mem_spanList (i : Nat) (rows : List (Row S)) (l : List (Nat × Nat × Row S)) (h : spanList i rows = .ok l) (x y : Nat) (out : Row S) :
    (x, y, out) ∈ l ↔ out ≠ [] ∧ ∃ k : Nat, rows[k]? = some out ∧ (idx2span (i + k) []).1 = .ok (x, y) := by
  induction rows generalizing i l with
  | nil => simp only [spanList, Except.ok.injEq] at h; subst h; simp
  | cons r rs ih =>
    simp only [spanList] at h
    split at h
    · cases h
    · rename_i l' hl'
      have hi := ih (i + 1) l' hl'
      have hstep : (∃ k : Nat, (r :: rs)[k]? = some out ∧ (idx2span (i + k) []).1 = .ok (x, y)) ↔
          (r = out ∧ (idx2span i []).1 = .ok (x, y)) ∨ ∃ k : Nat, rs[k]? = some out ∧ (idx2span (i + 1 + k) []).1 = .ok (x, y) := by
        constructor
        · rintro ⟨k, h1, h2⟩
          cases k with
          | zero => left; simpa using And.intro (by simpa using h1) h2
          | succ k => right; exact ⟨k, by simpa using h1, by rw [show i + 1 + k = i + (k + 1) by omega]; exact h2⟩
        · rintro (⟨h1, h2⟩ | ⟨k, h1, h2⟩)
          · exact ⟨0, by simp [h1], h2⟩
          · exact ⟨k + 1, by simpa using h1, by rw [show i + (k + 1) = i + 1 + k by omega]; exact h2⟩
      rw [hstep]
      split at h
      · rename_i hr
        cases h
        rw [hi]
        constructor
        · rintro ⟨h1, h2⟩; exact ⟨h1, .inr h2⟩
        · rintro ⟨h1, ⟨h2, _⟩ | h2⟩
          · exact absurd (h2 ▸ hr) h1
          · exact ⟨h1, h2⟩
      · rename_i hr
        split at h
        · cases h
        · rename_i p hp
          cases h
          rw [List.mem_cons, hi]
          constructor
          · rintro (h1 | ⟨h1, h2⟩)
            · simp only [Prod.mk.injEq] at h1
              obtain ⟨rfl, rfl, rfl⟩ := h1
              exact ⟨hr, .inl ⟨rfl, hp⟩⟩
            · exact ⟨h1, .inr h2⟩
          · rintro ⟨h1, ⟨h2, h3⟩ | h2⟩
            · left
              rw [hp] at h3
              cases h3
              subst h2; rfl
            · exact .inr ⟨h1, h2⟩

theorem spanList_ok (i : Nat) (rows : List (Row S)) : ∃ l, spanList i rows = .ok l := by
  induction rows generalizing i with
  | nil => exact ⟨[], rfl⟩
  | cons r rs ih =>
    obtain ⟨l, hl⟩ := ih (i + 1)
    obtain ⟨x, y, h, _⟩ := (C65_idx2span []).1 i
    simp only [runCalls] at h
    simp only [spanList, hl, h]
    split <;> exact ⟨_, rfl⟩

theorem spanLists_ok (b : List (List (Row S))) : ∃ ls, spanLists b = .ok ls ∧ List.Forall₂ (fun rows l => spanList 0 rows = .ok l) b ls := by
  induction b with
  | nil => exact ⟨[], rfl, .nil⟩
  | cons rows rest ih =>
    obtain ⟨ls, h1, h2⟩ := ih
    obtain ⟨l, hl⟩ := spanList_ok 0 rows
    exact ⟨l :: ls, by simp [spanLists, hl, h1], .cons hl h2⟩

theorem zipSentences_getElem (ws : List (List String)) (ts : List (List (Row S))) (ss : List (List (Nat × Nat × Row S))) (n : Nat) :
    (zipSentences ws ts ss)[n]? = match ws[n]?, ts[n]?, ss[n]? with
      | some w, some t, some s => some ⟨w, t, s⟩
      | _, _, _ => none := by
  induction ws generalizing ts ss n with
  | nil => simp [zipSentences]
  | cons w ws ih =>
    cases ts with
    | nil => simp [zipSentences]
    | cons t ts =>
      cases ss with
      | nil => simp [zipSentences]
      | cons s ss =>
        cases n with
        | zero => simp [zipSentences]
        | succ n => simp [zipSentences, ih]

theorem zipSentences_length (ws : List (List String)) (ts : List (List (Row S))) (ss : List (List (Nat × Nat × Row S))) (h1 : ts.length = ws.length)
    (h2 : ss.length = ws.length) : (zipSentences ws ts ss).length = ws.length := by
  induction ws generalizing ts ss with
  | nil => simp [zipSentences]
  | cons w ws ih =>
    cases ts with
    | nil => simp at h1
    | cons t ts =>
      cases ss with
      | nil => simp at h2
      | cons s ss => simp [zipSentences, ih ts ss (by simpa using h1) (by simpa using h2)]

theorem fillRows_length (tagOut : Option (List (List (Row S)))) (done : List (List (Row S))) (k : Keep S) (scores rows res : List (Row S))
    (h : fillRows tagOut done k scores rows = .ok res) : res.length = rows.length + scores.length := by
  induction scores generalizing rows with
  | nil => simp only [fillRows, Except.ok.injEq] at h; simp [h]
  | cons r rs ih =>
    simp only [fillRows] at h
    split at h
    · cases h
    · rw [ih _ h]; simp; omega

theorem fillBatch_length (tagOut : Option (List (List (Row S)))) (k : Keep S) (l : List (Nat × List (Row S))) (done res : List (List (Row S)))
    (h : fillBatch tagOut k l done = .ok res) : res.length = done.length + l.length := by
  induction l generalizing done with
  | nil => simp only [fillBatch, Except.ok.injEq] at h; simp [h]
  | cons p l ih =>
    simp only [fillBatch] at h
    split at h
    · cases h
    · rw [ih _ h]; simp; omega

theorem fillRows_total (tagOut : Option (List (List (Row S)))) (done : List (List (Row S))) (k : Keep S) (scores rows : List (Row S))
    (hne : ∀ r ∈ scores, r ≠ []) : ∃ res, fillRows tagOut done k scores rows = .ok res := by
  induction scores generalizing rows with
  | nil => exact ⟨rows, rfl⟩
  | cons r rs ih =>
    have : ∃ thr, rowThreshold k r = .ok thr := by
      unfold rowThreshold
      cases k.logThreshold with
      | none => exact ⟨_, rfl⟩
      | some l =>
        cases r with
        | nil => exact absurd rfl (hne [] (by simp))
        | cons p rest => simp only; split <;> exact ⟨_, rfl⟩
    obtain ⟨thr, hthr⟩ := this
    simp only [fillRows, hthr]
    exact ih _ (fun r hr => hne r (List.mem_cons_of_mem _ hr))

theorem fillBatch_total (tagOut : Option (List (List (Row S)))) (k : Keep S) (l : List (Nat × List (Row S))) (done : List (List (Row S)))
    (hne : ∀ p ∈ l, ∀ r ∈ p.2, r ≠ []) : ∃ res, fillBatch tagOut k l done = .ok res := by
  induction l generalizing done with
  | nil => exact ⟨done, rfl⟩
  | cons p l ih =>
    obtain ⟨rows, hrows⟩ := fillRows_total tagOut done k (p.2.take p.1) [] (fun r hr => hne p (by simp) r (List.mem_of_mem_take hr))
    simp only [fillBatch, hrows]
    exact ih _ (fun p hp => hne p (List.mem_cons_of_mem _ hp))

/-- The network gives one item for every sentence of a batch, and every row has a candidate. -/
structure Sound (model : List (List String) → List (Scores S)) : Prop where
  length : ∀ b, (model b).length = b.length
  rows : ∀ b, ∀ sc ∈ model b, (∀ r ∈ sc.1, r ≠ []) ∧ ∀ r ∈ sc.2, r ≠ []

theorem tagBatch_ok {model : List (List String) → List (Scores S)} (hm : Sound model) (kt ks : Keep S) (inputs : List (List String)) :
    ∃ tags spanOut spans, fillBatch none kt ((inputs.map List.length).zip ((model inputs).map Prod.fst)) [] = .ok tags ∧
      fillBatch (some tags) ks ((inputs.map (fun s => chartSize s.length)).zip ((model inputs).map Prod.snd)) [] = .ok spanOut ∧
      spanLists spanOut = .ok spans ∧ tags.length = inputs.length ∧ spanOut.length = inputs.length ∧
      List.Forall₂ (fun rows l => spanList 0 rows = .ok l) spanOut spans ∧
      tagBatch model kt ks inputs = .ok (zipSentences inputs tags spans) := by
  have hl := hm.length inputs
  obtain ⟨tags, h1⟩ := fillBatch_total none kt ((inputs.map List.length).zip ((model inputs).map Prod.fst)) [] (by
    intro p hp r hr
    obtain ⟨sc, hsc, he⟩ := List.mem_map.1 (List.of_mem_zip hp).2
    exact (hm.rows inputs sc hsc).1 r (he ▸ hr))
  obtain ⟨spanOut, h2⟩ := fillBatch_total (some tags) ks ((inputs.map (fun s => chartSize s.length)).zip ((model inputs).map Prod.snd)) [] (by
    intro p hp r hr
    obtain ⟨sc, hsc, he⟩ := List.mem_map.1 (List.of_mem_zip hp).2
    exact (hm.rows inputs sc hsc).2 r (he ▸ hr))
  obtain ⟨spans, h3, h4⟩ := spanLists_ok spanOut
  refine ⟨tags, spanOut, spans, h1, h2, h3, ?_, ?_, h4, by simp only [tagBatch, h1, h2, h3]⟩
  · rw [fillBatch_length _ _ _ _ _ h1]; simp [hl]
  · rw [fillBatch_length _ _ _ _ _ h2]; simp [hl]

theorem forall2_getElem {A B : Type} {R : A → B → Prop} {l : List A} {l' : List B} (h : List.Forall₂ R l l') (n : Nat) (a : A) (ha : l[n]? = some a) :
    ∃ b, l'[n]? = some b ∧ R a b := by
  induction h generalizing n with
  | nil => simp at ha
  | cons hr _ ih =>
    cases n with
    | zero => simp only [List.getElem?_cons_zero, Option.some.injEq] at ha ⊢; subst ha; exact ⟨_, rfl, hr⟩
    | succ n => simp only [List.getElem?_cons_succ] at ha ⊢; exact ih n ha

/-- **C66 (tags).** For every batch: the tagger does not raise, gives one result for every sentence, in order, with the words of the sentence,
and for the word `j` exactly those of its candidates that reach the threshold. -/
theorem C66_tags {model : List (List String) → List (Scores S)} (hm : Sound model) (kt ks : Keep S) (inputs : List (List String)) :
    ∃ out, tagBatch model kt ks inputs = .ok out ∧ out.length = inputs.length ∧
      ∀ (n : Nat) (s : List String) (sc : Scores S), inputs[n]? = some s → (model inputs)[n]? = some sc →
        ∃ o, out[n]? = some o ∧ o.words = s ∧ o.tags = (sc.1.take s.length).map (reached kt) := by
  obtain ⟨tags, spanOut, spans, h1, h2, h3, h4, h5, h6, h7⟩ := tagBatch_ok hm kt ks inputs
  refine ⟨_, h7, zipSentences_length _ _ _ h4 (by rw [← h6.length_eq, h5]), ?_⟩
  intro n s sc hs hsc
  have htags := fillBatch_tags kt _ [] tags h1
  have ht : tags[n]? = some ((sc.1.take s.length).map (reached kt)) := by
    rw [htags]
    simp [List.getElem?_map, List.getElem?_zip_eq_some, hs, hsc, List.zip, List.getElem?_zipWith]
  have hlt : n < inputs.length := (List.getElem?_eq_some_iff.1 hs).1
  have hr : spanOut[n]? = some spanOut[n] := List.getElem?_eq_getElem (by omega)
  obtain ⟨l, hl, _⟩ := forall2_getElem h6 n _ hr
  exact ⟨_, by rw [zipSentences_getElem, hs, ht, hl], rfl, rfl⟩

/-- **C66 (spans), part.** If the best tag of the first word of the batch is not, with the same index and log-probability, a candidate for the
span of this word: a span of a sentence is reported exactly if its row has categories other than 0 that reach the threshold, with exactly
these categories. The condition is needed (`C66_refuted_no_category`): the code compares lists by value to know whether it handles tags. -/
theorem C66_spans_partial {model : List (List String) → List (Scores S)} (hm : Sound model) (kt ks : Keep S) (inputs : List (List String))
    (hap : ∀ sc, (model inputs).head? = some sc → ∃ p rest, (sc.1.head?.map (reached kt)) = some (p :: rest) ∧ ∀ r, sc.2.head? = some r → p ∉ r)
    (hw : inputs.head? ≠ some []) :
    ∃ out, tagBatch model kt ks inputs = .ok out ∧
      ∀ (n : Nat) (s : List String) (sc : Scores S), inputs[n]? = some s → (model inputs)[n]? = some sc →
        ∃ o, out[n]? = some o ∧ ∀ x y cats, (x, y, cats) ∈ o.spans ↔
          cats ≠ [] ∧ x ≤ y ∧ y < s.length ∧ ∃ (k : Nat) (row : Row S), (k : Int) = span2idx x y ∧ sc.2[k]? = some row ∧ cats = spanCats ks row := by
  obtain ⟨tags, spanOut, spans, h1, h2, h3, h4, h5, h6, h7⟩ := tagBatch_ok hm kt ks inputs
  refine ⟨_, h7, ?_⟩
  intro n s sc hs hsc
  have htags := fillBatch_tags kt _ [] tags h1
  have hlen := hm.length inputs
  have hapart : ∃ first, Apart tags first ∧ ∀ sc, (model inputs).head? = some sc → ∀ r, sc.2.head? = some r → ∀ q ∈ r, q ∈ first := by
    cases hi : inputs with
    | nil => rw [hi] at hs; simp at hs
    | cons s0 ss =>
      cases hmi : model inputs with
      | nil => rw [hmi, hi] at hlen; simp at hlen
      | cons sc0 scs =>
        obtain ⟨p, rest, ha, hb⟩ := hap sc0 (by rw [hmi]; rfl)
        refine ⟨sc0.2.headD [], ?_, ?_⟩
        · refine ⟨p, rest, ?_, ?_⟩
          · rw [htags, hi]
            rw [hi] at hmi
            simp only [hmi, List.map_cons, List.zip_cons_cons, List.nil_append, firstRow, List.head?_cons, Option.bind_some]
            cases s0 with
            | nil => rw [hi] at hw; simp at hw
            | cons w ws =>
              cases hsc0 : sc0.1 with
              | nil => rw [hsc0] at ha; simp at ha
              | cons r0 rs0 => rw [hsc0] at ha; simpa using ha
          · cases hsc2 : sc0.2 with
            | nil => simp
            | cons r0 rs0 => exact hb r0 (by rw [hsc2]; rfl)
        · intro sc hsc r hr q hq
          obtain rfl : sc0 = sc := by rw [← hi, hmi] at hsc; simpa using hsc
          cases hsc2 : sc0.2 with
          | nil => rw [hsc2] at hr; simp at hr
          | cons r0 rs0 => rw [hsc2] at hr; simp only [List.head?_cons, Option.some.injEq] at hr; subst hr; simpa using hq
  obtain ⟨first, hA, hF⟩ := hapart
  have hspans := fillBatch_spans hA ks _ [] spanOut (by simp) (by
    intro _ p hp r hr
    cases hi : inputs with
    | nil => rw [hi] at hs; simp at hs
    | cons s0 ss =>
      cases hmi : model inputs with
      | nil => rw [hmi, hi] at hlen; simp at hlen
      | cons sc0 scs =>
        rw [hmi, hi] at hp
        simp only [List.map_cons, List.zip_cons_cons, List.head?_cons, Option.some.injEq] at hp
        subst hp
        exact hF sc0 (by rw [hmi]; rfl) r hr) h2
  have hlt : n < inputs.length := (List.getElem?_eq_some_iff.1 hs).1
  have ht : tags[n]? = some tags[n] := List.getElem?_eq_getElem (by omega)
  have hsp : spanOut[n]? = some ((sc.2.take (chartSize s.length)).map (spanCats ks)) := by
    rw [hspans]
    simp [List.getElem?_map, List.getElem?_zip_eq_some, hs, hsc, List.zip, List.getElem?_zipWith]
  obtain ⟨l, hl, hsl⟩ := forall2_getElem h6 n _ hsp
  refine ⟨_, by rw [zipSentences_getElem, hs, ht, hl], ?_⟩
  intro x y cats
  rw [mem_spanList 0 _ l hsl]
  have hidx := C65_idx2span []
  simp only [runCalls, zero_add] at hidx ⊢
  refine and_congr_right ?_
  intro hc
  constructor
  · rintro ⟨k, hk1, hk2⟩
    obtain ⟨x', y', he, hxy, hs2⟩ := hidx.1 k
    rw [hk2] at he; cases he
    rw [List.getElem?_map, Option.map_eq_some_iff] at hk1
    obtain ⟨row, hrow, rfl⟩ := hk1
    rw [List.getElem?_take] at hrow
    split at hrow
    · rename_i hkl
      refine ⟨hxy, ?_, k, row, hs2.symm, hrow, rfl⟩
      by_contra hge
      have hmono := chartSize_mono (show s.length ≤ y by omega)
      have hsucc := chartSize_succ y
      unfold span2idx at hs2
      omega
    · cases hrow
  · rintro ⟨hxy, hy, k, row, hk, hrow, rfl⟩
    refine ⟨k, ?_, ?_⟩
    · have hmono := chartSize_mono (show y + 1 ≤ s.length by omega)
      have hsucc := chartSize_succ y
      unfold span2idx at hk
      rw [List.getElem?_map, List.getElem?_take_of_lt (by omega), hrow]; rfl
    · obtain ⟨i, hi, he⟩ := hidx.2 x y hxy
      have : i = k := by omega
      subst this; exact he

/-- **C66 (batches).** For every batch size of at least 1 the tagger does not raise and gives the results of all sentences, in order. -/
theorem C66_batches {model : List (List String) → List (Scores S)} (hm : Sound model) (kt ks : Keep S) (b : Nat) (hb : 0 < b) (inputs : List (List String)) :
    ∃ out, tagAll model kt ks b inputs.length inputs = .ok out ∧ out.map TaggedSentence.words = inputs := by
  suffices h : ∀ fuel (inputs : List (List String)), inputs.length ≤ fuel →
      ∃ out, tagAll model kt ks b fuel inputs = .ok out ∧ out.map TaggedSentence.words = inputs from h _ _ (le_refl _)
  intro fuel
  induction fuel with
  | zero => intro inputs h; obtain rfl := List.length_eq_zero_iff.1 (Nat.le_zero.1 h); exact ⟨[], rfl, rfl⟩
  | succ fuel ih =>
    intro inputs h
    by_cases hi : inputs = []
    · subst hi; exact ⟨[], by simp [tagAll], rfl⟩
    · have hpos : 0 < inputs.length := List.length_pos_of_ne_nil hi
      obtain ⟨out1, e1, hlen, hout⟩ := C66_tags hm kt ks (inputs.take b)
      obtain ⟨out2, e2, hw⟩ := ih (inputs.drop b) (by rw [List.length_drop]; omega)
      refine ⟨out1 ++ out2, by simp only [tagAll, hi, if_false, e1, e2], ?_⟩
      rw [List.map_append, hw]
      have : out1.map TaggedSentence.words = inputs.take b := by
        refine List.ext_getElem? ?_
        intro n
        rw [List.getElem?_map]
        by_cases hn : n < (inputs.take b).length
        · have hs := List.getElem?_eq_getElem hn
          have hl := hm.length (inputs.take b)
          obtain ⟨o, ho, how, _⟩ := hout n _ _ hs (List.getElem?_eq_getElem (by omega))
          rw [ho, hs]; simp [how]
        · rw [List.getElem?_eq_none (by omega), List.getElem?_eq_none (by omega)]; rfl
      rw [this, List.take_append_drop]

/-- A network with one candidate tag 3 and the span categories 2 and 0. -/
def demoModel (b : List (List String)) : List (Scores Int) := b.map (fun s => (s.map (fun _ => [(3, -1)]), (List.range (chartSize s.length)).map (fun _ => [(2, -1), (0, -2), (4, -3)])))

theorem demo_sound : Sound demoModel := ⟨by simp [demoModel], by
  intro b sc hsc
  obtain ⟨s, _, rfl⟩ := List.mem_map.1 hsc
  simp⟩

/-- The hypotheses of `C66_spans_partial` hold for two sentences, and the result is as expected. -/
example : (∀ sc, (demoModel [["a", "b"], ["c"]]).head? = some sc → ∃ p rest, (sc.1.head?.map (reached ⟨true, some (-2)⟩)) = some (p :: rest) ∧ ∀ r, sc.2.head? = some r → p ∉ r) ∧
    (tagBatch demoModel ⟨true, some (-2)⟩ ⟨true, some (-2)⟩ [["a", "b"], ["c"]]).toOption.map (fun l => l.map (fun o => (o.words, o.spans))) =
      some [(["a", "b"], [(0, 0, [(2, -1), (4, -3)]), (1, 1, [(2, -1), (4, -3)]), (0, 1, [(2, -1), (4, -3)])]), (["c"], [(0, 0, [(2, -1), (4, -3)])])] := by
  refine ⟨?_, by decide +kernel⟩
  intro sc hsc
  simp only [demoModel, List.map_cons, List.head?_cons, Option.some.injEq] at hsc
  subst hsc
  exact ⟨(3, -1), [], by decide, by intro r hr; simp [chartSize, List.range_succ] at hr; subst hr; decide⟩

/-- If no tag of the only word reaches an absolute threshold, the span category 0, which stands for no category, is reported. -/
theorem C66_refuted_no_category : ∃ (model : List (List String) → List (Scores Int)) (kt ks : Keep Int), Sound model ∧
    (tagBatch model kt ks [["a"]]).toOption.map (fun l => l.map TaggedSentence.spans) = some [[(0, 0, [(0, -1)])]] ∧
    (∀ sc, (model [["a"]]).head? = some sc → sc.2.map (spanCats ks) = [[]]) :=
  ⟨fun b => b.map (fun s => (s.map (fun _ => [(3, -5)]), s.map (fun _ => [(0, -1)]))), ⟨false, some (-2)⟩, ⟨false, some (-2)⟩,
    ⟨by simp, by intro b sc hsc; obtain ⟨s, _, rfl⟩ := List.mem_map.1 hsc; simp⟩, by decide +kernel, by decide +kernel⟩

end Bobcat
end Lambeq
