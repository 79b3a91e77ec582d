import Verif.Text.TreeNodes
import Mathlib.Algebra.Order.Ring.Rat
import Mathlib.Order.WithBot

/-!
# Types and parents from the scores of the Oncilla model (C104)

Models oncilla/parser.py: `prepare_parent_logits_mask` (150-210), `restrict_parent_options` (567-586), `BertForSentenceToTree._sentence2pred` (727-790) and `_get_parent_preds_with_forced_root` (792-828).

Simplifications: the network is a table of scores, one row for every position of the tokenised sentence; scores are finite (rational numbers), -inf or +inf; `torch.argmax` gives the first of several greatest entries, as it is
documented. `inputs.word_ids()` is a list of `none` (special tokens) and word numbers, where 0 is the added word "[ROOT]". All type numbers are keys of `id2type`. `sentence_w_root[wid]` is in range, since the numbers come from
the tokeniser.
-/

namespace Lambeq
namespace Oncilla
set_option linter.unusedSimpArgs false

/-- -inf, a finite score, or +inf. -/
abbrev Logit := WithBot (WithTop ℚ)

/-- A finite score. -/
def fin (q : ℚ) : Logit := ((q : WithTop ℚ) : WithBot (WithTop ℚ))
/-- torch.inf -/
def inf : Logit := ((⊤ : WithTop ℚ) : WithBot (WithTop ℚ))

/-- `torch.argmax` of a row. -/
def argmax : List Logit → Nat
  | [] => 0
  | x :: xs => if xs.all (fun y => decide (y ≤ x)) then 0 else argmax xs + 1

/-- oncilla/parser.py:189-204, 584: one row minus its mask, for `n` words with the root, at a position of word `wid`. -/
def maskRow (n : Nat) (wid : Option Nat) (row : List ℚ) : List Logit :=
  row.mapIdx (fun c x => if n ≤ c ∨ (wid ≠ none ∧ wid ≠ some 0 ∧ wid = some c) then ⊥ else fin x)

/-- oncilla/parser.py:554-586, 676-681 -/
def parentLogits (n : Nat) (wids : List (Option Nat)) (raw : List (List ℚ)) : List (List Logit) := List.zipWith (maskRow n) wids raw

/-- oncilla/parser.py:769-776 and 817-824: what belongs to the first position of every word that is kept. -/
def collect {β : Type} (keep : Nat → Bool) : Option Nat → List (Option Nat) → List β → List β
  | cur, some w :: ws, x :: xs => if keep w = true ∧ cur ≠ some w then x :: collect keep (some w) ws xs else collect keep cur ws xs
  | cur, none :: ws, _ :: xs => collect keep cur ws xs
  | _, _, _ => []

/-- oncilla/parser.py:799-804: the scores for the root with the positions that cannot be the root masked. `None` is neither -1000 nor 0. -/
def rootMask : Option Nat → List (Option Nat) → List Logit → List Logit
  | cur, w :: ws, x :: xs => (if w = some 0 ∨ cur = w then ⊥ else x) :: rootMask w ws xs
  | _, _, _ => []

/-- oncilla/parser.py:792-828 -/
def forcedRoot (wids : List (Option Nat)) (pl : List (List Logit)) : List Nat :=
  let root := argmax (rootMask none wids (pl.map (fun r => r.headD ⊥)))
  let pl' := pl.mapIdx (fun i r => r.set 0 (if i = root then inf else ⊥))
  collect (fun w => decide (w ≠ 0)) none wids (pl'.map argmax)

/-- text2diagram/pregroup_tree_converter.py:462-463 -/
def multipleRoots (parents : List (List Int)) : Bool := decide (parents.count [-1] > 1)
/-- text2diagram/pregroup_tree_converter.py:466-467 -/
def rootNotAssigned (parents : List (List Int)) : Bool := decide ([-1] ∉ parents)

/-- oncilla/parser.py:781, 826 -/
def toParents (ps : List Nat) : List (List Int) := ps.map (fun (p : Nat) => [(p : Int) - 1])

/-- oncilla/parser.py:727-790: the types and parents of the words of a sentence, from the word numbers of its positions and the scores for types and parents at each position. -/
def predict (id2type : Nat → List Char) (sent : List String) (wids : List (Option Nat)) (typ raw : List (List ℚ)) : Except PyErr (List (List (List Char)) × List (List Int)) :=
  let words := "[ROOT]" :: sent
  let pl := parentLogits words.length wids raw
  let keep := fun w => decide (words[w]? ≠ some "[ROOT]")
  let types := collect keep none wids (typ.map (fun r => argmax (r.map fin)))
  let parents := collect keep none wids (pl.map argmax)
  if types.length = parents.length ∧ parents.length = sent.length then
    .ok (types.map (fun t => [id2type t]),
      if rootNotAssigned (toParents parents) || multipleRoots (toParents parents) then toParents (forcedRoot wids pl) else toParents parents)
  else .error .assertionError

/-! ## What the theorems are about -/

/-- The word numbers of a sentence of `n` words where word `i` (0 is "[ROOT]") is cut into `k i` pieces: [CLS], the pieces, [SEP]. -/
def pieces (k : Nat → Nat) (n : Nat) : List (Option Nat) :=
  none :: ((List.range (n + 1)).flatMap (fun i => List.replicate (k i) (some i)) ++ [none])

/-- The position of the first piece of word `i`; `firstPos k (n + 1)` is the position of [SEP]. -/
def firstPos (k : Nat → Nat) : Nat → Nat
  | 0 => 1
  | i + 1 => firstPos k i + k i

/-- `c` is the best one among the columns `cols` of a row, and the first one of the best. -/
def IsBest (row : List ℚ) (cols : Nat → Prop) (c : Nat) : Prop :=
  cols c ∧ ∃ x, row[c]? = some x ∧ ∀ d y, cols d → row[d]? = some y → y ≤ x ∧ (d < c → y < x)

end Oncilla
end Lambeq
