import Verif.Bobcat.Tagger

/-!
# Bobcat: from words to the rows of scores (C112)

Models `Tagger.prepare_inputs` (`lambeq/bobcat/tagger.py` 319-336) and `BertForChartClassification.forward` (123-217) without labels.

Simplifications. The tokenizer of Hugging Face is modelled by its documentation: the sub-tokens of the words, cut off at the limit of the
model, between two special tokens, and padding up to the longest sentence of the batch; special tokens and padding have the offsets (0, 0).
BERT (141-153) is a function from the batch to a state for every position. A classifier (171-172) is a function from a state, or from
two states one after the other, to a row of scores. Dropout does nothing outside training; the loss (174-207) and the tuple (209-211) are
left out.
-/

namespace Lambeq
namespace Bobcat
set_option linter.unusedVariables false

/-- The offsets of a sub-token: where it starts and ends in its word. -/
abbrev Offset := Nat × Nat

/-- tagger.py:324-328: the offsets of one sentence, whose words have the sub-tokens `ws`; at most `limit` positions. -/
def encode (limit : Nat) (ws : List (List Offset)) : List Offset := (0, 0) :: (ws.flatten.take (limit - 2) ++ [(0, 0)])

/-- The longest length of some lists. -/
def longestLength {α : Type} (rows : List (List α)) : Nat := (rows.map List.length).foldl max 0

/-- Padding to the longest of the lists. -/
def padRows {α : Type} (pad : α) (rows : List (List α)) : List (List α) :=
  rows.map (fun r => r ++ List.replicate (longestLength rows - r.length) pad)

/-- tagger.py:324-328, with `padding=True`. -/
def encodings (limit : Nat) (batch : List (List (List Offset))) : List (List Offset) := padRows (0, 0) (batch.map (encode limit))

/-- tagger.py:332-334; the mask has numbers, of which only 0 counts as false. -/
def wordMask (row : List Offset) : List Nat := row.map (fun o => if o.1 = 0 then o.2 else 0)

/-- `sent_word_mask.nonzero()`, tagger.py:157, from position `i` on. -/
def nonzero : Nat → List Nat → List Nat
  | _, [] => []
  | i, m :: ms => if m ≠ 0 then i :: nonzero (i + 1) ms else nonzero (i + 1) ms

/-- tagger.py:156-160: the positions of the words of each sentence; `pad_sequence` pads with 0. -/
def wordIndices (masks : List (List Nat)) : List (List Nat) := padRows 0 (masks.map (nonzero 0))

/-- tagger.py:161-164: the states of the words of the sentence `b`. -/
def gather {H : Type} (state : Nat → Nat → H) (b : Nat) (indices : List Nat) : List H := indices.map (state b)

/-- tagger.py:168-169, 172: the rows of the spans, in the order of `get_chart_spans`; the states of the first and of the last word. -/
def spanRows {H R : Type} (memo : Memo) (span : H → H → R) (words : List H) : List R :=
  (getChartSpans words.length memo).1.filterMap (fun p =>
    match words[p.1]?, words[p.2]? with
    | some x, some y => some (span x y)
    | _, _ => none)

/-- tagger.py:153-172: the rows of one sentence after another, from the sentence `b` on. -/
def sentenceRows {H R : Type} (memo : Memo) (tag : H → R) (span : H → H → R) (state : Nat → Nat → H) : Nat → List (List Nat) → List (List R × List R)
  | _, [] => []
  | b, is :: rest => ((gather state b is).map tag, spanRows memo span (gather state b is)) :: sentenceRows memo tag span state (b + 1) rest

/-- tagger.py:123-217 after `prepare_inputs`: the rows for the words and for the spans of every sentence. -/
def forward {H R : Type} (memo : Memo) (limit : Nat) (tag : H → R) (span : H → H → R) (state : List (List (List Offset)) → Nat → Nat → H)
    (batch : List (List (List Offset))) : List (List R × List R) :=
  sentenceRows memo tag span (state batch) 0 (wordIndices ((encodings limit batch).map wordMask))

end Bobcat
end Lambeq
