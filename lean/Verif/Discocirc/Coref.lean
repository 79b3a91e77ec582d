import Verif.Discocirc.RewriterTheorems

/-!
# DisCoCirc: coreferences, pruning and whole texts (C91)

Models `CoreferenceResolver.dict_from_corefs` (experimental/discocirc/coref_resolver.py:67-97), the choice of the token for a span of `MaverickCoreferenceResolver` and
the trivial coreferences (140-164), the place of spans of `SpacyCoreferenceResolver` (197-209), `_get_index`, `_prune_indices` (experimental/discocirc/reader.py:265-297)
and `text2circuit` (reader.py:345-423) for diagrams of frames.

Simplifications: what spaCy, Maverick and the parser return is a parameter. Dictionaries are lists of pairs in the order of insertion. The set of pruned nouns is a list in any order. Whether
a token is pruned is asked with `in`, so that repetitions in `pruned_ids` do not matter.
-/

namespace Lambeq
open Diagram
set_option linter.unusedSimpArgs false

namespace Disco

/-- A mention: sentence and token. -/
abbrev Mention := Nat × Nat

/-- coref_resolver.py:89-90 -/
def mentions (coref : List (List Nat)) : List Mention := (coref.mapIdx (fun i ts => ts.map (fun t => (i, t)))).flatten

/-- A look-up in a dictionary. -/
def lookupM (d : List (Mention × Mention)) (m : Mention) : Option Mention := (d.find? (fun p => p.1 == m)).map Prod.snd

/-- coref_resolver.py:92-94: one mention of the cluster with first mention `h`. -/
def addMention (h : Mention) (d : List (Mention × Mention)) (m : Mention) : List (Mention × Mention) := if (lookupM d m).isSome then d else d ++ [(m, h)]

/-- coref_resolver.py:88-94 -/
def addCluster (d : List (Mention × Mention)) (coref : List (List Nat)) : List (Mention × Mention) :=
  match mentions coref with
  | [] => d
  | h :: ms => (h :: ms).foldl (addMention h) d

/-- coref_resolver.py:67-97 -/
def dictFromCorefs (corefs : List (List (List Nat))) : List (Mention × Mention) := corefs.foldl addCluster []

/-- reader.py:384: `corefd.get(nid, nid)` -/
def canon (d : List (Mention × Mention)) (m : Mention) : Mention := (lookupM d m).getD m

/-- coref_resolver.py:141-151: the token chosen for the span from `start` with the parts of speech `ps`. -/
def headLoop : List String → Nat → Bool → Nat → Nat
  | [], _, _, best => best
  | p :: ps, i, propn, best =>
    let propn' := if !propn then p == "PROPN" else propn
    headLoop ps (i + 1) propn' (if ["NOUN", "PROPN", "PRON"].contains p && ((propn' && p == "PROPN") || (!propn' && p != "PROPN")) then i else best)

def spanHead (start : Nat) (ps : List String) : Nat := headLoop ps start false start

/-- coref_resolver.py:158-164: one cluster for each noun; `pos` are the parts of speech of the sentences. -/
def trivialCorefs (pos : List (List String)) : List (List (List Nat)) :=
  (pos.mapIdx (fun i ps => (ps.mapIdx (fun j p =>
    if ["NOUN", "PROPN", "PRON"].contains p then [(List.replicate pos.length []).set i [j]] else [])).flatten)).flatten

/-- coref_resolver.py:200-204: the sentence of a span that starts at `start`, for sentences with the bounds `bs`. -/
def placeSpan (bs : List (Nat × Nat)) (start : Nat) : Option Mention :=
  match bs.findIdx? (fun b => decide (b.1 ≤ start ∧ start < b.2)) with
  | none => none
  | some i => some (i, start - (bs.getD i (0, 0)).1)

/-- reader.py:265-269 -/
def getIndex (s : List String) (w : String) : Option Nat := s.findIdx? (fun x => x == w)

/-- reader.py:279-284: the first sentence with the noun. -/
def firstPlace (w : String) : Nat → List (List String) → Option Mention
  | _, [] => none
  | i, s :: ss => match getIndex s w with
    | some j => some (i, j)
    | none => firstPlace w (i + 1) ss

/-- reader.py:293-294; `pruned_ids[h].append(...)` for the mentions of a cluster in other sentences. -/
def pruneOthers (i : Nat) : Nat → List (List Nat) → List (List Nat) → Except PyErr (List (List Nat))
  | _, [], ids => .ok ids
  | h, ts :: p, ids => match ts with
    | [] => pruneOthers i (h + 1) p ids
    | t :: _ => if h = i then pruneOthers i (h + 1) p ids else
        if h < ids.length then pruneOthers i (h + 1) p (ids.modify h (· ++ [t])) else .error .indexError

/-- reader.py:288-295 -/
def pruneClusters (i j : Nat) : List (List (List Nat)) → List (List Nat) → Except PyErr (List (List Nat))
  | [], ids => .ok ids
  | p :: ps, ids => match p[i]? with
    | none => .ok ids
    | some ts => if j ∈ ts then pruneOthers i 0 p ids else pruneClusters i j ps ids

/-- reader.py:286-295 -/
def pruneLoop (corefs : List (List (List Nat))) : List Mention → List (List Nat) → Except PyErr (List (List Nat))
  | [], ids => .ok ids
  | (i, j) :: ms, ids => match pruneClusters i j corefs (ids.modify i (· ++ [j])) with
    | .error e => .error e
    | .ok ids' => pruneLoop corefs ms ids'

/-- reader.py:271-297 -/
def pruneIndices (sentences : List (List String)) (corefs : List (List (List Nat))) (pruned : List String) : Except PyErr (List (List Nat)) :=
  pruneLoop corefs (pruned.filterMap (fun w => firstPlace w 0 sentences)) (sentences.map (fun _ => []))

/-- reader.py:348-350 -/
def freqPruned (corefd : List (Mention × Mention)) (minFreq : Int) : List Mention :=
  (corefd.map Prod.snd).dedup.filter (fun m => decide (((corefd.map Prod.snd).count m : Int) < minFreq))

/-- reader.py:352-353: the words at these places. -/
def wordsAt (sentences : List (List String)) : List Mention → Except PyErr (List String)
  | [] => .ok []
  | (i, j) :: ms => match sentences[i]? with
    | none => .error .indexError
    | some s => match s[j]? with
      | none => .error .indexError
      | some w => match wordsAt sentences ms with
        | .error e => .error e
        | .ok ws => .ok (w :: ws)

/-- reader.py:345-355: the dictionary of coreferences and the pruned tokens of each sentence. -/
def prepare (sentences : List (List String)) (corefs : List (List (List Nat))) (pruned : List String) (minFreq : Int) :
    Except PyErr (List (List Nat)) :=
  match wordsAt sentences (freqPruned (dictFromCorefs corefs) minFreq) with
  | .error e => .error e
  | .ok ws => pruneIndices sentences corefs (pruned ++ ws)

/-- reader.py:365-384: a sentence of the text, from its tree. -/
def sentenceOf (rs : List Rule) (corefd : List (Mention × Mention)) (i : Nat) (sent : List String) (ids : List Nat) (t : PTree) : Except PyErr (Sentence Mention) :=
  match reindexNodes (reindices sent 0 (t.getWordIndices.zip t.getWords)) (rewriter rs t) with
  | .error e => .error e
  | .ok u => .ok (frameSentence (fun k => canon corefd (i, k)) ids u)

def sentencesOf (rs : List Rule) (corefd : List (Mention × Mention)) : Nat → List (List String) → List (List Nat) → List PTree → Except PyErr (List (Sentence Mention))
  | i, s :: ss, ids :: idss, t :: ts => match sentenceOf rs corefd i s ids t with
    | .error e => .error e
    | .ok x => match sentencesOf rs corefd (i + 1) ss idss ts with
      | .error e => .error e
      | .ok xs => .ok (x :: xs)
  | _, _, _, _ => .ok []

/-- reader.py:345-423 for `sandwich=False`; `trees` are the trees of the sentences that `_sentence2tree` gives. -/
def text2circuit (sentences : List (List String)) (corefs : List (List (List Nat))) (trees : List PTree) (rs : List Rule) (pruned : List String) (minFreq : Int) :
    Except PyErr FD :=
  match prepare sentences corefs pruned minFreq with
  | .error e => .error e
  | .ok ids => match sentencesOf rs (dictFromCorefs corefs) 0 sentences ids trees with
    | .error e => .error e
    | .ok ss => assemble ss

/-! ## Specification -/

/-- Clusters are apart, or a later one is within an earlier one (as the trivial clusters are). -/
def Nested (corefs : List (List (List Nat))) : Prop :=
  (corefs.map mentions).Pairwise (fun a b => (∀ m ∈ b, m ∉ a) ∨ ∀ m ∈ b, m ∈ a)

/-- The word at a place of the text. -/
def wordAt (sentences : List (List String)) (m : Mention) : Option String := (sentences[m.1]?).bind (fun s => s[m.2]?)

/-- `m` is the first place of the word `w` in the text. -/
def FirstAt (sentences : List (List String)) (w : String) (m : Mention) : Prop :=
  wordAt sentences m = some w ∧ ∀ k, wordAt sentences k = some w → m.1 < k.1 ∨ (m.1 = k.1 ∧ m.2 ≤ k.2)

/-- The token `j` of sentence `i` is pruned for the noun `w`: it is the first occurrence of the word in the text, or, in the first cluster of that occurrence, the first
mention of another sentence. -/
def PrunedFor (sentences : List (List String)) (corefs : List (List (List Nat))) (w : String) (i j : Nat) : Prop :=
  ∃ a b, FirstAt sentences w (a, b) ∧ ((i, j) = (a, b) ∨
    ∃ p, corefs.find? (fun p => (p.getD a []).contains b) = some p ∧ i ≠ a ∧ (p.getD i []).head? = some j)

end Disco
end Lambeq
