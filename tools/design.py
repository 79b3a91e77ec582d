import json
props=[json.loads(l) for l in open('/verif/properties.jsonl')]
plan={
'C01':'Model canonical types as lists of (name,winding) pairs plus a raw record model of the dataclass; refinement lemma raw→list; list algebra.',
'C02':'Same model; induction on the list and Euclidean parity of integers.',
'C03':'Same; list take/drop lemmas.',
'C04':'Inductive expression language of API calls evaluated by the model; induction on expressions.',
'C05':'Layer lists; direct proof.','C06':'Layer lists; induction.','C07':'Induction on layers and on boxes (daggered nests).','C08':'Induction; case analysis per box kind.',
'C09':'Python slice semantics modelled (clamping); proofs on take/drop.','C10':'Positive part proved for the full slice; the partial slice is refuted by a witness.',
'C11':'Loop modelled as in the code with wire_index; invariant relating wire_index to the current wire order.','C12':'Nested loops; invariant.','C13':'Loops over zipped objects; invariant; reversed flag refuted by witness.','C14':'Uses C11.','C15':'From C05/C06/C13.','C16':'Fold modelled; invariant.',
'C17':'Functor as a pair of arbitrary functions; Except monad for exceptions.','C18':'Induction on layers.','C19':'Induction on layers/boxes.','C20':'Cache as association list; state machine; refutation by witness and positive theorem for non-raising calls.',
'C21':'Inductive JSON values, encoder and decoder as in the code; round-trip by recursion.','C22':'Refuted in the broken cases with witnesses; proved in the working cases.','C23':'Refuted in general; proved for odd rotations.',
'C24':'interchange modelled; tensor-network semantics over any commutative semiring; commuting finite sums.','C25':'unsnake modelled; snake equation in the semantics.','C26':'Normalisation as any chain of interchanges and unsnakes.',
'C27':'Char-level parser and printer; mutual induction; a separate inductive grammar as the specification of what parses.',
'C28':'toTy as a structural recursion; homomorphism lemmas by induction on categories.',
'C29':'Each rule schema as an inductive relation `Licensed`; `apply` case by case.',
'C30':'infer_rule branch by branch; soundness and completeness against `Licensed`.',
'C31':'resolve branch by branch against `Licensed`.',
'C32':'Trees as an inductive type, `to_diagram` by recursion; `Proper` derivations as specification; induction on trees. Planar = no swaps.',
'C33':'Readers as folds over the word list with tokeniser as parameter; induction.',
'C34':'The recursive tree reader with the parser as parameter; induction on trees.',
'C35':'Rewriter = Functor whose arrow map tries rules in order; induction on layers; cache history.',
'C36':'Each rule function branch by branch; case analysis.',
'C37':'Dataset generator as list function, shuffle an arbitrary permutation; induction on chunks.',
'C38':'The epoch loop with best/patience counters as a state machine; invariant.',
'C39':'Same state machine; counting invariants.',
'C40':'Checkpoint + resume as operations on the machine; simulation between interrupted and uninterrupted runs.',
'C41':'File system with explicit crash points for open/truncate/write; case analysis over all prefixes of the write.',
'C42':'Ordered field with inf/nan; vectors as lists; single step and history by induction.',
'C43':'Nelder-Mead step over an ordered field, argsort an arbitrary sort; invariant over histories.',
'C44':'state_dict/load_state_dict as record maps; bisimulation.',
'C45':'Context managers on a stack, programs with exceptions; refinement to dynamic scope by induction on programs.',
'C46':'Cell of the chart: binary search insertion, replacement, beam; invariant over histories of add.',
'C47':'Category equality with an arbitrary hash function; matching as an order.',
'C48':'Unification with state, each combinatory rule; specification `Prescribed` up to feature instances.',
'C49':'The methods `circuit` and `_ar` on the quantum diagram model, with symbols replaced by their values; `Imp n c ops`: circuit c is well typed, has the phases of ops in order and runs like the list of gates ops; preserved by composition and by every loop of the ansatz; kets, bras, bases and discards added with the denotations of C50/C74.',
'C51':'`is_circuital`, `Gate.from_box`, `readoff_circuital`, `to_tk` on circuital diagrams, function by function; `t|ket⟩` itself is a specification (operators of the operation types, state, probabilities). Proof: every gate layer acts as its exported command (C50 `nest_layer`, table `GateOf` against the operators of `t|ket⟩`), the pure part doubles (C74), then an invariant over the loop over measurements, post-selections and discards (wire to qubit, joint probabilities).',
'C56':'`get_counts` and the construction of the array in `Diagram.eval(backend=...)` on association lists; induction over the counts.',
'C50':'Controlled gates: array at distance 1 as block matrix, other distances through decompose (permutation, gate, inverse permutation) evaluated as tensor network; C11 + permutation semantics.',
'C51':'Circuit translation to the pytket/pennylane instruction lists: indices of controls and targets.',
'C70':'Loops and recursion of the three generators on the generic diagram model; values by the compositional evaluation C75; sums over bit strings.',
'C71':'Box.dagger per class; adjoint of the value of each box, then induction over layers.',
'C75':'`eval` of pure circuits through the tensor network of C67.',
'C74':'The loop of `to_tn` with the three scans of open legs; invariant: the contraction of the network so far is the classical-quantum map of the layers so far (indices 2q+r for the two copies of a qubit).',
'C52':'Dim as filtered list of naturals; free monoid proof.',
'C53':'Arrays of cups and caps as functions on index tuples; snake equations as finite sums.',
'C72':'`Box.rotate` of every kind of box on the array level and `Diagram.rotate` layer by layer; matrices by induction over layers.',
'C77':'A functor into an arbitrary category (Functor.lean); an encoding of basis states of grammar types as bit strings; by induction over layers the circuit of a diagram denotes the interpretation of the diagram (hermInterp: rotations conjugate, daggers are adjoints), which is compact, so C25, C26 and C57 apply.',
'C78':'Symbols with name, dimensions and scale; a Python set is an arbitrary duplicate-free list (any iteration order); sorting by name is stable merge sort; permutation and sortedness lemmas.',
'C79':'A heap of boxes with links (Controlled, Daggered), shared references, cached free symbols and deepcopy; the loop of _fast_subs runs over the heap; invariant: every box is untouched or substituted, and a forwarded write agrees with the substitution of the linked box.',
'C80':'predict = evaluation of C74/C75 then _normalise_vector; bounds on the sum, Born rule by C74, density-matrix case by C75; a jit cache as a state machine with a run of operations compared to the cache-free run.',
'C81':'Real-valued model of the losses, smoothing and shape checks; monotonicity of log.',
'C82':'Nodes with named edges and tensors; contraction of two nodes preserves the full sum (invariant); induction over valid paths; the cache, save file and checkpoint as a state machine with an invariant that every stored path fits its key, through restarts and crash points.',
'C83':'The generic functor of C77 with the tensor category as target: cups, caps and spiders of several wires are proved to be the deltas of multi-indices; basis indices are row-major multi-indices, mirrored for odd adjoints; then the generic induction over layers.',
'C84':'The steps of to_circuital as functions on lists of layers. Pulling a wire through a layer: a relation between the run of the layers with and without the wire (structure Pulled), proved for each kind of layer (stretched controls through the positions of control and target of C50, swaps by calculation). The loop by its own induction with the invariant that initialisations, gates, remaining layers and post-selections compose to the same map. Reordering the post-selections: each is attached to a wire of the last gate, and a product over wires does not depend on the order. Then C51_circuital, C51_export and C74.',
'C85':'Trees as objects with stored text and stored height; reachable trees as an inductive set closed under constructor, reading of texts at any path and removal of trivial rules. Round trip by induction on the tree with C27_roundtrip for the types; removal specified by the preorder list of node labels.',
'C86':'Model of the loop over levels, the dictionaries of wires, the sorting, the insertion of swaps and the drawing with its index corrections. Proof: invariant of the loop gives the components of every word; wires are described by (word, partner word, number); projectivity makes cups nested, so sorting by span makes each cup join neighbours and no swap is inserted; C16 specification of the wiring.',
'C87':'Nodes as values paired with the index of their parent. Sorting lemmas give the grouping; generate_tree is an unfolding of the parent lists whose fuel is shown to be enough by counting the ways up; uniqueness by the depth of a token.',
'C88':'The loop is modelled from sentence diagrams on; noun2wire is a list of identities in insertion order. The wire lists are analysed by an invariant over the nouns of a sentence; the permutation is shown valid and to route sorted labels to the order of wire_ids; the matrix of the matcher and of its adjoint are selection matrices, hence the matrix of one attached sentence, and by induction the state of the text.',
'C89':'Mutual structural recursion over trees; keys of noun2wire as a list. Linear maps through the matrices of swap diagrams; a child on its wires is shown to act as the identity elsewhere.',
'C90':'Structural recursion over trees; chains as a declarative specification of the recursion with its depth counter; the index search as an explicit loop.',
'C91':'Dictionaries as lists of pairs; loops as structural recursion; the set of pruned tokens by membership. Whole texts by C88, C89 and C90.',
'C92':'The directory as a map; writes one character at a time, so that every crash point is a prefix of the list of writes; server answers, SHA-256 and untar as parameters. Invariant over histories by induction.',
'C93':'The regular expressions as explicit prefix matchers on character lists, the parser as recursion over the string with remainders; round trip by induction over categories for every continuation of the string.',
'C94':'The regular expressions as explicit matchers (with the one place where backtracking matters), the reader as recursion with remainders; a printer of derivations as specification; induction over derivations for every continuation.',
'C95':'OP_MAP with arities and operators, extraction of scalars with the iteration over a changing list, state vector as function on bit strings, valid states as indices. Proved from readoff (C51), eval (C56, C74): induction over gates and over post-selections with an invariant that relates open wires to the projected state.',
'C96':'Coordinates as rationals, the graph of ends, boxes and wires as lists, one definition for each method. Making space is an expansive map of the x axis, which preserves all gaps; the invariant says which wires are open, that they are in order with gaps, and that they are beside or below every box. A skeleton without coordinates gives the connections.',
'C97':'Strings as lists of characters, one definition for each loop. Specification: strands through the layers of the diagram (`wiring`), and the character at each column of a layer (`cell0`, `cell1`). Moving a morphism up is an exchange with morphisms it does not meet, which keeps joins, outputs and validity; the padding is an invariant over the wires from left to right.',
'C98':'Circuits with symbols next to circuits with numbers (C95); `SCircuit.put` is the specification of substitution. The forward pass is evaluated with C95 for each diagram and compared with `eval` of the diagram with numbers.',
'C99':'`TkIn` is the list of commands in the order of `get_commands()`; the specification is the Born rule of a state-vector simulation (`tkState`, `tkProb`). Each box that the importer makes is shown to do the operation on the whole register (`gate_ok`), then the phases of the importer are followed with the invariant `Dist`: the diagonal of the mixed value is the joint distribution of the wires.',
'C100':'The backend is a function from shots and circuits to counts, exact when these are the Born probabilities of the circuit (`Exact`, C51). The measured diagram is exported directly (C51) or compiled first (C84, `compiled_exportable`); the order of the measurements is followed through the read-off loop (`order_measured`).',
'C101':'Exact rational arithmetic with Python\'s rounding to even; the specification adds up the shown fields.',
'C102':'The loop over layers is a fold over a trace of live wires; the stack of nodes is a recursion that threads the list of remaining cups. Specification: wires are followed layer by layer through the diagram (`follow`), trees are compared up to the order of children (`SameTree`).',
'C103':'Nodes are identified by paths from the root, as the code identifies them by object identity; removal of a child is pruning at a set of paths. Proof: the copies of a word in a tree read off a diagram have equal subtrees up to what was already visited, so the deepest copy can be retained without losing words.',
'C104':'The network is an arbitrary table of scores, the tokeniser an arbitrary number of pieces per word. The loops over positions are compared with the first positions of the words (`firstPos`); the mask with a restriction of the columns (`IsBest`).',
'C105':'The service is a function of the number of the request and its text; the requests are recorded next to the result. Induction over the loop, and over the positions of blank texts.',
'C106':'Every end has a track, and a map gives the depth of each track. Invariant (PInv): the tracks of the scan increase, the place of an end depends only on its track, the depth of a track is at most the height of every box over it. The connections are stated with the same specification as in C96 (`origin`, `wireList`). Scaling puts the ends of a box on its edges; each end has one box, so the order of the boxes does not matter.',
'C107':'DisCoPy is not in the repository: its objects and boxes are modelled as data, with the assumptions listed at the head of Convert/Discopy.lean and Convert/DiscopyQuantum.lean. One loop for all conversions; if every box becomes one box with the converted types, the result is the diagram converted layer by layer (convLayers_eq). The flag of a cup is recomputed from its types; validity of the cup makes it the old one.',
'C108':'The program is a function from arguments, the loaded file and a World (parsers, readers, rewriting, ansatz, drawing) to its list of effects and its end. File names are compared as lists of characters, via the decimal digits of Lean\'s core library.',
'C109':'Texts are lists of lines. The model merges the lines as the loop does, with the length of the line before; the picture is defined line by line without it.',
'C110':'Derivations are finite trees of the attributes that are read; what depccg calls a step by the book is a relation over the schemata of C29, and inference of generalised rules is that of C30.',
'C111':'Trees carry their children, variables and dependencies; the variables are those of Rules.lean. Built trees are an inductive predicate over the constructors with any categories and any state of the unifier, so that the theorems do not rest on the rules. Positions stand for words in dependencies.',
'C112':'The tokenizer gives the sub-tokens of every word with their offsets; BERT and the classifiers are arbitrary functions. The specification finds a word\'s first sub-token by counting.',
'C113':'Strings are lists of characters; the string of a child is split into lines as in the code. The tree is read back from its lines: a line begins a child just when its first character is a corner.',
'C114':'Boxes are those of the model of evaluation (C67); np.equal is modelled with broadcasting. The specification of equality is removal of the winding.',
'C115':'The dictionary is a list of items that hold JSON or objects; the decoders are those of C21 and C22.',
'C116':'Lines of the picture are records; coordinates are from any linear order; colors, looseness and line widths are parameters.',
'C117':'The drawable of C96 is turned into the list of calls of the backend made by draw, and these are run by the model of C116, over the rationals.',
'C63':'Categories: induction against an inductive relation "writes". Rules: the schemata prescribed for Bobcat (C48) are instances of the textbook schemata (C29). Trees: induction over parse trees whose nodes are results of combine, type_change and type_raise; diagrams through an extension of the proper derivations of C32 with type-changing rules over phrases (which categories can be imposed on a phrase).',
'C73':'Orthonormal rows: each gate by calculation, controlled gates by splitting the sum over control, idle wires and targets, adjoints through square matrices. Circuits: the trace functional is preserved by every layer of the classical-quantum interpretation (C74), hence by the circuit; positivity by carrying a sum of products (Kraus form) through the layers; post-selection lowers the trace of positive vectors. Ansatz circuits: each textbook gate of C49 preserves inner products.',
'C76':'The label as a function on character lists; a left inverse of the escaping and unique splitting at separators.',
'C54':'`_split_ar` with its windows as Python ranges and slices; shown equal to a row of words followed by a row of cups or spiders, whose matrix is computed by induction over the windows; boxes with inputs by functoriality (C18) and the matrix of cups; diagrams by substitution of matrices for boxes.',
'C55':'Unknown word rule as a rewrite rule; vocabulary as a finite set of (word, type).',
'C56':'Dictionary of counts to normalised arrays.',
'C57':'RemoveCups as in the code (loop over cups with stack of scanned boxes); semantics by snake equation.',
'C58':'Remaining normal-form rewrites on diagrams; typing by induction.',
'C59':'RemoveSwaps with wire positions; invariant on positions.',
'C60':'Sinusoids over the reals; trigonometric identities from Mathlib.',
'C61':'CKY loops as recursions over spans with the cells of C46; invariant of the chart.',
'C62':'Totality of unify/translate on marked-up categories; invariants of the variable maps.',
'C64':'Index bookkeeping of the three parsers as list functions; induction on batches.',
'C65':'Span enumeration, global memo as state; arithmetic of triangular numbers.',
'C66':'Tagger post-processing on rows of scores with the network as a function.',
'C67':'`to_tn`/`eval` as a fold creating nodes and edges; contraction specified as the sum over edge labels; equality with the matrix semantics of C24.',
'C68':'Dagger/rotate of tensor boxes; conjugate transpose in a star semiring.',
'C69':'lambdify as substitution; free symbols as sets.',
}
out=[]
out.append('''# DESIGN

Formal model of CQCL/lambeq (source in /repo) in Lean 4.33, in `lean/Verif/`.

## Method
* Each module under `lean/Verif/` models one or more Python files function by function.
  Every definition cites file and lines. Python exceptions are values (`Except PyErr α`).
* Theorems live next to, or in a file after, the model they are about; every headline theorem
  is followed by an `example` showing that a concrete case meets its hypotheses.
* Where the code violates the property, the negation is proved with a concrete witness
  (theorem names ending in `_refuted`) and the strongest true part is proved separately
  (suffix `_partial` when it is less than the English statement).

## Trusted base
* Lean 4.33 kernel. Axioms used by the theorems: only `propext`, `Classical.choice`, `Quot.sound`
  (checked for every theorem of MANIFEST.json with `#print axioms`; most use fewer). No axioms of our own,
  no compiled-code evaluation tactics (`decide +kernel` is evaluated by the kernel).
* Faithfulness of the hand translation Python → Lean (cited line by line in every definition).
* Python built-ins are modelled directly: list slicing with clamping and negative indices, `%` as Euclidean
  modulo for positive divisors, dicts as association lists / functions, dataclass equality as structural equality.

### What is modelled
| Python | Lean modules | Properties |
|---|---|---|
| backend/grammar.py: Ty, Box, Layer, Diagram, Swap, Cup, Cap, Spider, Word, Frame, Functor, normal forms, JSON | `Grammar/*` | C01–C26 |
| backend/symbol.py, tensor.py | `Tensor/*` | C52, C53, C67–C69 |
| ansatz/circuit.py | `Ansatz/Circuit*` | C49 |
| ansatz/tensor.py | `Ansatz/Split*`, `Rewrite/Substitution` | C54 |
| ansatz/base.py, ansatz/tensor.py | `Ansatz/Label` | C76 |
| training/model.py (from_diagrams), backend/symbol.py (order, dimensions), training/{quantum_model,pytorch_model}.py (initialise_weights) | `Training/ModelSymbols` | C78 |
| training/quantum_model.py (_fast_subs), backend/quantum.py (data of Controlled, Daggered), training/pytorch_model.py (get_diagram_output) | `Training/FastSubs` | C79 |
| training/numpy_model.py (predictions, jit cache), training/quantum_model.py (_normalise_vector) | `Training/Predict` | C80 |
| training/loss.py | `Training/Loss` | C81 |
| ansatz/tensor.py (the functor), Cup/Cap/Spider of compound types | `Tensor/Compound`, `Ansatz/TensorFunctor` | C83 |
| bobcat_parser.py (_to_biclosed, _build_ccgtree) | `Ccg/TreeChange`, `Bobcat/ToCcg` | C32, C63 |
| quantum.py (consequences) | `Quantum/Unitary`, `Quantum/UnitaryTheorems`, `Ansatz/Unitary` | C73 |
| quantum.py:369-381, 1224-1511, tk.py:213-268 | `Quantum/Circuital*` | C84 |
| ccg_tree.py:41-101, 133-208, ccg_rule.py:42-77 | `Ccg/JsonTree*` | C85 |
| text2diagram/pregroup_tree_converter.py:642-928, pregroup_tree.py (fields) | `Text/PregroupTree*` | C86 |
| text2diagram/pregroup_tree.py:179-300,344-373, pregroup_tree_converter.py:449-481,514-639 | `Text/TreeNodes*`, `Text/TreeGenerate`, `Text/TreeRoundTrip` | C87 |
| experimental/discocirc/reader.py:359-423 | `Discocirc/Circuit`, `Discocirc/Combin`, `Discocirc/MatcherSemantics`, `Discocirc/TextSemantics`, `Discocirc/Theorems` | C88 |
| experimental/discocirc/reader.py:98-263 | `Discocirc/Frames`, `Discocirc/FramesProps`, `Discocirc/SandwichSemantics`, `Discocirc/FramesTheorems` | C89 |
| experimental/discocirc/pregroup_tree_rewriter.py:32-143, reader.py:425-444 | `Discocirc/Rewriter`, `Discocirc/RewriterProps`, `Discocirc/RewriterTheorems` | C90 |
| experimental/discocirc/coref_resolver.py:67-97, 140-209; reader.py:265-297, 345-423 | `Discocirc/Coref`, `Discocirc/CorefProps`, `Discocirc/CorefTheorems` | C91 |
| text2diagram/model_based_reader/model_downloader.py:51-273, base.py:101-127 | `Store/Download`, `Store/DownloadTheorems` | C92 |
| bobcat/lexicon.py:150-182, 247-308, fast_int_enum.py:84-85 | `Bobcat/Lexicon`, `Bobcat/LexiconTheorems` | C93 |
| text2diagram/ccgbank_parser.py:71-445 (without diagrams and messages) | `Ccg/Bank`, `Ccg/BankTheorems` | C94 |
| backend/pennylane.py:61-222, 342-470 (without symbols and remote devices) | `Quantum/Pennylane`, `Quantum/PennylaneRun`, `Quantum/PennylaneTheorems`, `Quantum/PennylaneMixed` | C95 |
| backend/drawing/drawable.py:34-562 (diagrams without frames) | `Drawing/Layout`, `Drawing/LayoutTheorems`, `Drawing/LayoutFinal`, `Drawing/LayoutWires`, `Drawing/LayoutProps` | C96 |
| backend/drawing/text_printer.py | `Drawing/TextPrinter`, `Drawing/TextPlace`, `Drawing/TextRows`, `Drawing/TextCells`, `Drawing/TextHead`, `Drawing/TextProps`, `Drawing/TextTheorems` | C97 |
| training/pennylane_model.py; backend/pennylane.py: symbols (118-142, 296-317, 422-447) | `Training/PennylaneModel`, `Training/PennylaneForward` | C98 |
| backend/converters/tk.py: from_tk (271-363), upgrade (64-77) | `Quantum/Import`, `ImportGates`, `ImportRun`, `ImportTheorems`, `ImportRefuted` | C99 |
| training/tket_model.py (42-132); quantum.py 347-367 | `Training/TketModel`, `Training/TketPredict`, `Training/TketRefuted` | C100 |
| core/utils.py: normalise_duration (49-97) | `Text/Duration` | C101 |
| text2diagram/pregroup_tree_converter.py: diagram2tree, _construct_tree (30-220, 269-446) | `Text/DiagramTree*` | C102 |
| text2diagram/pregroup_tree_converter.py: break_cycles (217-218, 223-266), pregroup_tree.py: remove_cycles and helpers (261-342, 375-390) | `Text/RemoveCycles*` | C103 |
| oncilla/parser.py: _sentence2pred, _get_parent_preds_with_forced_root, prepare_parent_logits_mask (150-210, 554-586, 727-828) | `Text/Oncilla*` | C104 |
| text2diagram/web_parser.py (32-36, 52-169) | `Text/WebParser` | C105 |
| backend/drawing/drawable.py (564-771), drawing.py (213-218) | `Drawing/PregroupLayout` | C106 |
| backend/converters/discopy.py | `Convert/Discopy`, `Convert/DiscopyTensor`, `Convert/DiscopyQuantum` | C107 |
| cli.py | `Cli/*` | C108 |
| text2diagram/ccg_tree.py deriv | `Ccg/Deriv*` | C109 |
| text2diagram/depccg_parser.py conversion | `Ccg/Depccg*` | C110 |
| bobcat/tree.py dependencies, bobcat/parser.py ParseResult | `Bobcat/Deps*` | C111 |
| bobcat/tagger.py rows of scores | `Bobcat/Network*` | C112 |
| text2diagram/pregroup_tree.py drawing, height, equality | `Text/TreePrint*` | C113 |
| backend/tensor.py equality | `Tensor/Equality*` | C114 |
| backend/grammar.py Category.from_json, arguments of from_json | `Grammar/JsonCategory*` | C115 |
| backend/drawing/tikz_backend.py | `Drawing/Tikz*` | C116 |
| backend/drawing/drawing.py (draw, boxes and wires), drawable.py (scale_and_pad) | `Drawing/Picture*` | C117 |
| training/tn_path_optimizer.py | `Training/PathOpt`, `Training/PathCache` | C82 |
| ansatz/circuit.py (the functor), backend/grammar.py (Functor with a target category) | `Ansatz/Functor`, `Ansatz/SwapTypes`, `Ansatz/HermInterp`, `Ansatz/CircuitFunctor` | C77 |
| quantum.py (rotate) | `Quantum/Conjugate` | C72 |
| backend/quantum.py (is_circuital, from_box, readoff_circuital, eval on a backend), converters/tk.py (to_tk of circuital diagrams, get_counts) | `Quantum/Export*` | C51, C56 |
| backend/quantum.py (gates, controlled gates, structural maps, evaluation) | `Quantum/*` | C50, C70– |
| backend/numerical_backend.py | `Backend/Numerical` | C45 |
| text2diagram/ccg_*.py | `Ccg/*` | C27–C32 |
| text2diagram readers, model based batch handling | `Text/*` | C33, C34, C64 |
| rewrite/*.py | `Rewrite/*` | C35, C36, C55, C57–C59 |
| training: dataset, trainer, checkpoint, SPSA, Nelder–Mead, Rotosolve | `Training/*` | C37–C44, C60 |
| bobcat: lexicon, tree, rules, parser, tagger post-processing | `Bobcat/*` | C46–C48, C61, C62, C65, C66 |

### What is simplified or not modelled
* numpy/torch/jax/tensornetwork/pytket/pennylane/spacy/transformers internals, drawing back-ends, network access,
  process-level crashes other than those of C41, the Python recursion limit.
* Grammar: Functor targets are grammar categories; the first object a functor returns is not deep-copied (aliasing is
  not modelled); the JSON text layer is trusted and what `from_json` does to its dict is C115.
* Readers: `str.split` whitespace and `str.lower` are abstract functions; `str(Ty)` in the name of a MERGE box is a parameter.
* Training: losses are rationals / field elements without NaN in the trainer; metric dicts are parallel lists; pickle is a
  round-tripping parameter; `ceil` is exact; SPSA floats are exact with inf/nan and an unsigned zero; Nelder–Mead is over an
  exact ordered field, `argsort` is an arbitrary sort, `sim`/`fsim` are paired; Rotosolve over the reals; TketModel.rng is not
  checkpointed; the model's forward pass is an arbitrary function.
* Back-end selection: the constructor that loads a library is a parameter.
* Bobcat: scores in an ordered commutative monoid (no NaN); dependencies are not modelled; hash function and set iteration
  order are arbitrary; rules do not raise in the chart parser model (C62 covers raising); scores are computed at construction;
  the tagger network is a function with one item per sentence and non-empty rows; float square roots are exact;
  verbosity and progress bars are not modelled.
* Tensors: numpy and tensornetwork by their documented contract, an exact commutative star semiring instead of floats; object
  arrays of symbols are not modelled; `moveaxis` only for arrays of exactly n axes.
* Quantum: complex numbers instead of floats, real phases (a symbolic phase is substituted first, C69).

## Findings (places where the code does not do what its users expect; proved as refutations)
* Types/diagrams: partial reverse slices `d[b:a:-1]` are ill typed (C10); `Ty.insert` at a negative index of an atomic type
  drops the receiver (C03); Cup/Cap of compound types with `is_reversed=True` raise (C13); `curry(0, left=True)` curries the whole
  domain (C15); a failed functor type check leaves the ill-typed arrow in the cache (C20); F(swap).dagger differs from
  F(swap.dagger) for compound images (C19); Frame.rotate reverses its components on every call (C23); JSON of Daggered(non-plain
  box) and of frames with word components raises KeyError (C22); find_snake ignores `is_reversed` (C25); pregroup_normal_form
  raises ValueError for diagrams with inputs (C26).
* CCG: malformed strings raise AssertionError (C27); the empty category does not parse back (C27); to_grammar is not injective (C28);
  `apply` does not check premises, GBC with an empty argument uses `[:-0]` (C29); infer_rule does not check the conclusion of LP/RP (C30);
  resolve is unsound for other slashes (C31); planar generalised crossed composition loses words, unary swaps exchange argument and
  result (C32).
* Rewriting: add_rules has no effect on cached boxes (C35); rules match on the codomain only (C36); from_diagrams counts rotated
  words (C55); RemoveCups raises on misaligned merged tokens (C57); RemoveSwaps uses stale positions (C59).
* Training: zero intervals/epochs raise ZeroDivisionError (C39); best model, running metrics and the seed are not restored on resume
  (C40); the checkpoint is truncated before it is written (C41); SPSA makes NaN from degenerate bounds or outside weights, and
  zero_grad keeps NaN (C42); Nelder–Mead sets absent symbols to 0, reports stale losses, never moves a parameter at a positive upper
  bound (C43); load_state_dict restores less than state_dict saves (C44); Rotosolve's projection abs(x) % 1 is wrong for x < 0 (C60);
  the back-end stack is shared between threads (C45).
* Bobcat: beam 0 raises (C46); S[X]==S but does not match it (C47); a feature conflict is resolved by the last feature and generalised
  backward composition returns the left category (C48); a sentence with an untagged word is parsed as its prefix (C61); unmarked
  categories raise KeyError (C62); DepCCG mutates the caller's list, Oncilla raises although suppressed (C64); the tagger compares
  rows by value (C66).
* Tensors: Dim(0) is dropped (C52); Cap is wrong in every dimension from 3 on (C53, C68); flat data raise when rotated (C53); lambdify
  of a rotated box drops the rotation (C69).
* Export: `post_selection` is keyed by qubit numbers but `get_counts` reads the keys as positions in the bitstring: `Ket @ Ket >> Id @ X >> Id @ Measure >> Bra(0) @ Id` gives 0 instead of 1 on an exact backend; if a qubit left of a post-selected one is discarded, `get_counts` raises IndexError (C51).
* Export: bits are numbered in the order of the measurements, so the axes of a result on a backend are permuted when the measurements are not made from left to right (C51).
* Export: `is_circuital` accepts `Ket(1)`, exported as `Ket(0)`, and gates after the last post-selection, exported on the wrong qubit (C51).
* Export: rotations by 0 and all `CRy` raise, `CY` and `CCZ` are not known, the conjugate of `S` is exported as `S` (C51).
* Quantum: `circuit.SWAP(0, 2)` swaps the qubits 0 and 1 (C50).
* Quantum: `generate_cap(bit, bit)` returns a circuit with qubit wires (C70).
* Quantum: mixed evaluation of a swap of two bits uses the number of qubits to its left as offset: `Id(qubit) @ Swap(bit, bit)` raises `IndexError`, `Id(bit) @ Swap(bit, bit)` swaps the wrong bits (C74).
* Quantum: mixed evaluation of `Swap(bit, qubit)` raises `IndexError` (C74).
* Training: two symbols with the same name and different sizes are ordered by the iteration order of a set, so the order of weights differs between runs (C78_refuted_same_name).
* Training: PytorchModel raises KeyError for a symbol with a scale other than 1 (C79_refuted_torch_scaled).
* Training: predictions of circuits without outputs are not normalised, and predictions of circuits with discarded qubits are entries of a density matrix, two axes per qubit (C80).
* Training: with use_jit, loading a checkpoint whose symbols are in another order leaves the compiled functions with the old order (C80_refuted_jit_load).
* Training: the cross entropy of a certain and right prediction is log((1+ce)/(1+e)), not 0 (C81_range).
* Training: `ordered_nodes_contractor` drops traced nodes: a closed loop (Cap then Cup) next to other nodes loses its factor (C82_refuted_loop).
* Training: `CachedTnPathOptimizer` with a save file that does not exist makes a directory and then fails to write to it (C82_refuted_new_file).
* CCG: a type-changing rule over a phrase that contains a reduced relative clause (`S/NP => N\\N`) makes `to_diagram` raise, unless noun phrases are collapsed (C32_refuted_change_over_modifier).
* Quantum: `MixedState` is twice the maximally mixed state (measuring it gives 1 and 1), so circuits that use it do not give probabilities (C73_refuted_mixedState).
* Quantum: `to_circuital` (hence `to_tk`) of the empty circuit raises IndexError (C84_empty_refuted).
* Quantum: `to_circuital` silently drops boxes on several qubits that are neither controlled gates nor swaps when a qubit is initialised or removed in between (C84_dropped_refuted).
* Quantum: `to_circuital` computes the positions of nested controls by adding up all previous positions, so that controls on both sides, or three controls to the right, are not adapted to an added wire (C84_controls_refuted).
* Quantum: `to_circuital` raises ValueError if a wire is added in the middle of a swap with a bit to its left (C84_swap_refuted).
* CCG: `without_trivial_unary_rules` keeps the old `height` (C85_refuted_height).
* CCG: `without_trivial_unary_rules` drops an explicit text of a removed node, and the text of the whole tree then depends on whether it has been read before (C85_refuted_text).
* CCG: `from_json` with `"children": null`, allowed by its documentation, raises TypeError (C85_refuted_null_children).
* tree2diagram raises ValueError for some non-projective trees of five words (C86_refuted_nonprojective).
* `_fix_auxiliary_types`: the first condition is `str(x == "n.r @ s")`, a non-empty string, hence always true (modelled as it is).
* tree2diagram: `free_wires_morphisms_inds` keeps the old positions of free wires after they have been swapped (modelled as it is).
* str of the empty type is "Ty()", which generate_tree reads as a type with one object of that name (C87_refuted_empty_type).
* After `merge`, get_parents returns indices that do not fit the positions in the lists; generate_tree may then raise ValueError (C87_refuted_after_merge).
* generate_tree with the same parent twice for a token drops the subtree below that token (C87_refuted_repeated_parent).
* text2circuit raises ValueError (max of an empty list) when the first sentence has no noun left, for instance after pruning (C88_refuted_first_without_noun).
* In DisCoCirc diagrams a word with neither nouns below it (after pruning) nor arguments disappears together with everything below it (C89_refuted_word_lost, C89_refuted_subtree_lost).
* _sentence2tree gives the noun it adds for a free wire the index of the last token; if that token is a noun, both share one wire (C89_refuted_added_noun).
* TreeRewriteRule with word_join='merge' puts the parent's word first even where it comes later in the sentence, unlike PregroupTreeNode.merge (C90_refuted_sentence_order).
* _calculate_reindices: if the parser changed one token, that token and all later ones get indices outside the sentence, so that coreference and pruning miss them (C90_refuted_missing).
* determiner_rule and auxiliary_rule (max_depth 1) are not idempotent (C90_refuted_once).
* _prune_indices prunes only the first mention of a cluster per sentence; 'Bob waved to him' keeps the pruned Bob through 'him' (C91_refuted_second_mention).
* min_noun_freq turns rare mentions into words and prunes the first occurrence of the word, which can be another, frequent entity, while the rare one stays (C91_refuted_same_word).
* dict_from_corefs does not merge overlapping clusters: the canonical mention of a mention need not be canonical (C91_refuted_overlap).
* After a crash in the first download, a session without network loads the incomplete model directory silently (C92_refuted_offline).
* A crash during an update or forced download leaves mixed files labelled with the old version; if the server's version equals the label (or it is unreachable) they are loaded (C92_refuted_update, C92_refuted_force).
* Connection errors while downloading the archive are not wrapped in ModelDownloaderError, so the documented fall-back to the local model does not happen (C92_refuted_fallback).
* Category.__repr__: the check for '}' or '>' at the end is meant to ask whether the part is already in parentheses, but the mark can belong to the last argument: repr is then ambiguous and cannot be read (C93_refuted_repr).
* Category.parse accepts any character as a slash: 'S!NP' (C93_refuted_slash).
* CCGBankParser.sentences2trees: `tree` is assigned before the check for extra text, so with suppress_exceptions=True a sentence that fails gives a tree instead of None (C94_refuted_extra_text).
* CCGBankParser._build_ccgtree: `pos += 2` skips any character after a closing bracket (C94_refuted_last_character), and fails where there is none (C94_refuted_no_space).
* CCGBankParser.section2trees_gen: next(f) at the end of a file raises StopIteration, which becomes RuntimeError and is not suppressed (C94_refuted_end_of_file).
* CCGBankParser does not compare the number of children (C94_refuted_count).
* to_pennylane removes scalars from the list it iterates over: of two successive scalars one stays and raises KeyError (C95_refuted_scalars).
* extract_ops_from_circuital ignores gate.dagger: the adjoint of S is run as S (C95_refuted_adjoint).
* `if gate.phase` drops the phase 0: rotations by 0 raise TypeError on evaluation (C95_refuted_zero); CRy has no phase (C95_refuted_CRy); CCX, CCZ have no entry (C95_refuted_CCX).
* PennyLaneCircuit with discards: the scalars are dropped and every post-selection is on 0 (C95_mixed_partial, C95_refuted_mixed_one).
* Ket(1) is run as Ket(0) (C95_refuted_ket); complex scalars with probabilities raise RuntimeError (C95_refuted_complex).
* drawable.py:438-439 returns 0, 0 if no wire is open: a box after a closed part of a diagram is drawn on top of an earlier box (C96_refuted_overlap); foliated=True avoids it (C96_boxes_partial).
* text_printer.py:152 computes columns as if the extra space of str.center were on the right; for odd widths and even type strings it is on the left, so wires start one column left of the middle of their types (C97_shift_refuted).
* text_printer.py:243-253: a swap of columns next to each other (word_spacing=0) is drawn three wide and moves what follows (C97_no_spacing_refuted).
* text_printer.py:163: with compress_layers=False the first layer stays empty: a row of bars is always printed first (C97_picture).
* pennylane_model.py:188 divides states by the sum of their squared moduli, not by its root: the norm becomes 1/norm (C98_refuted_norm).
* pennylane.py:138, 316: `_symbols` holds scaled symbols and `symbol_weight_map` unscaled ones, so a circuit with a scaled symbol (a daggered rotation) raises KeyError in `forward` (C98_refuted_scaled).
* pennylane_model.py:184-193: for circuits with discards, the default settings always predict 1, and a batch of one diagram has no batch axis (C98_refuted_mixed).
* pennylane_model.py:196: with probabilities and no symbols, `forward` raises IndexError (C98_errors).
* tk.py:329-337: `from_tk` of an operation on three qubits that does not use qubit 0 raises ValueError: `apply_gate` gets absolute indices (C99_refuted_ccx).
* tk.py:341-356: the outputs of an imported circuit are in the order of the qubits, not of the bits (C99_refuted_order).
* tk.py:352-356: a controlled operation across a measured qubit raises ValueError, although `get_commands()` may list a measurement before operations on other qubits (C99_refuted_midcircuit).
* tk.py:84: the scalar 0 is replaced by 1 (C99_refuted_zero). tk.py:340: a circuit without qubits raises TypeError (C99_refuted_empty).
* quantum.py:1693 and tk.py:343: `to_tk` keys post_selection by qubit, `from_tk` by bit; `from_tk(to_tk(d))` raises ValueError when they differ (C99_refuted_roundtrip).
* tket_model.py:59 and tk.py:162: the required field `shots` is ignored, circuits always run with 1024 shots unless the undocumented field `n_shots` is given (C100_shots_refuted).
* quantum.py:1489-1505, 1693 and tk.py:184-188: for the diagram of a sentence `to_circuital` puts the measurements of the open wires before the post-selections, so that bit and qubit numbers differ unless the open wires are leftmost; `TketModel` then post-selects the wrong bits. A circuit whose output is 1 with certainty gets the prediction (0, 0) (C100_sentence_refuted, C100_left_refuted).
* core/utils.py:92-95: rounding happens after the minutes are split off, so that 119.6 s is shown as `1m60s` and 59.999 s as `60.00s`; minus one second is `-1d23h59m59s` (C101_sixty_refuted).
* text2diagram/pregroup_tree_converter.py:356-444: a word that is joined with two words of the tree becomes two nodes, and words without a path to the output are dropped silently (C102_refuted_cycle, C102_refuted_unreached).
* text2diagram/pregroup_tree_converter.py: a node of empty type does not survive tree2diagram and diagram2tree (C102_refuted_empty_type); a tree of one node in a sentence of several tokens gives a diagram for which diagram2tree raises AssertionError (C102_round_trip_leaf).
* text2diagram/pregroup_tree_converter.py:66-67: `types_ind` is reset to all wires whenever it is empty, also when all wires have been used; words after cups would be given wrong wires (not reachable in pregroup form).
* text2diagram/pregroup_tree.py: remove_cycles indexes the list of node groups by word index after empty groups were dropped: a word before the root that is not in the tree gives IndexError (C103_refuted_gap).
* text2diagram/pregroup_tree.py: remove_cycles raises AssertionError for a root with a cup to itself (C103_refuted_root).
* text2diagram/pregroup_tree.py: in trees of generate_tree the deepest copy may be the one without children; remove_cycles then loses words (C103_refuted_generate).
* oncilla/parser.py:801-804: when the root is forced, `word_id in {-1000, 0}` does not hold for [SEP], whose word id is None; if [SEP] has the highest score for the root, no word becomes the root (C104_refuted_sep).
* oncilla/parser.py:773: a word "[ROOT]" in the sentence, and words cut off by truncation, raise AssertionError (C104_fails).
* oncilla/parser.py: parents may have a cycle next to the root (C104_refuted_cycle).
* text2diagram/web_parser.py:163: CCGTree.from_json is called outside of the try, so that unreadable data raise with suppress_exceptions (C105_refuted_json).
* text2diagram/web_parser.py:66-69: the name is checked in lower case and looked up as it is: WebParser('DepCCG') raises KeyError (C105_name).
* backend/drawing/drawable.py:759: a pregroup diagram whose words all have the empty type raises ValueError (C106_refuted_empty).
* backend/drawing/drawing.py:513-514: draw_pregroup scales the places of words but not their width, so wires leave beside their word for scale[0] > 1, and words overlap for scale[0] < 4/5 (C106_refuted_scale).
* backend/converters/discopy.py:361: a frame is converted to a plain box without its components, a daggered frame to a plain box with another name (C107_refuted_frames, C107_refuted_dagger_frame).
* backend/converters/discopy.py:252: `op.rotate(0)` copies the gate Y without its flag self_adjoint, so after a round trip Y.dagger() is not Y (C107_refuted_Y).
* backend/converters/discopy.py:60-76: MixedState is in no table, so the dagger of a circuit with Discard cannot be converted; neither can swaps of bits, or Bit, which raises TypeError instead of NotImplementedError (C107_refuted_boxes).
* cli.py:179,619: `mode` has a default in argparse, so it always counts as given and the mode in a loaded file is ignored (C108_refuted_mode).
* cli.py:320: the defaults of `--ansatz_options` are filled in only if the argument is on the command line; `--ansatz iqp` alone raises KeyError (C108_refuted_ansatz_options).
* cli.py:595: extensions from `os.path.splitext` have a dot, the known ones do not, so the extension of `--output_file` is always replaced by `--image_format`, by default png (C108_refuted_extension).
* cli.py:445-450: `--root_categories` is ignored if `--parser` is given, even `--parser bobcat` (C108_refuted_root_categories).
* cli.py:588: images are numbered after sentences without a parse have been dropped (C108_refuted_numbering).
* cli.py:376,561: JSON output of string diagrams is accepted by validate_args and then raises NotImplementedError, after all sentences have been parsed (C108_refuted_json).
* cli.py:103: `in` on an argument without exactly one `=` raises ValueError out of argparse (C108_refuted_contains).
* ccg_tree.py:266: below a child of one letter with a type-raising `<U>` the next type is right-justified to the length of the symbol's line, so it stands under the next word (C109_refuted_aligned).
* ccg_tree.py:318-326: the ASCII character set contains `│`, `├`, `└`; and symbols of generalised rules contain `ⁿ` (C109_refuted_ascii).
* depccg_parser.py:444: `cat.base in ',.:;'` is a test for substrings: the empty base, `,.` and the like are punctuation (C110_refuted_punctuation).
* parser.py:289, 297, 306: a best tree with score -inf is not taken; if nothing else covers the word, `result_start - 1` raises TypeError (C111_refuted_score).
* tagger.py:333: word starts are found by offsets alone: a word that the tokenizer drops, or whose first sub-token does not start at 0, shifts the tags of all later words to the left (C112_refuted_dropped, C112_refuted_offset).
* tagger.py:320-324: `truncation=True` cuts long sentences silently: the last words have no row, or that of the special token (C112_refuted_long).
* pregroup_tree.py:136, 162: `_tree_repr` and `height` are cached and not reset when merge or remove_self_cycles change the tree (C113_refuted_stale).
* pregroup_tree.py:123: siblings with equal indices are compared in their order (C113_refuted_equal_indices).
* tensor.py:169-173: `Box.__eq__` ignores z: a box equals its conjugate, and so do diagrams, although arrays and hashes differ (C114_refuted_conjugate).
* tensor.py:173: `np.equal` raises ValueError for data of shapes that do not broadcast, and finds others equal that are not (C114_refuted_shapes).
* grammar.py:368-372, 543-546, 650-668, 1339-1345: from_json takes 'category' and 'entity' out of the dictionary that it is given and replaces the other fields: a second call raises KeyError (C115_once).
* tikz_backend.py:88, 199-208: texts are entered into the places of nodes too, but declared after all lines: a wire drawn later to the place of a text (type labels with textpad=(0, 0) and a spider) refers to a node that TeX does not know yet (C116_refuted_order).
* tikz_backend.py:171-174: a style given for a wire is joined with its looseness without a comma: the wire of a measurement gets the option `->looseness=0.4118` (C116_refuted_options).
* tikz_backend.py:176-188: with use_tikzstyles the style of a wire is named after its color only, while its looseness is part of the definition: the last wire of a color decides for all (C116_refuted_styles).
* drawable.py:589-595 and drawing.py:430-434: scale_and_pad puts the ends of a box at half its height times the scale, but the polygon is drawn with the unscaled height: for a vertical scale other than 1, wires do not end at the polygon (C117_refuted_scale).
* drawing.py:87 and tikz_backend.py:199-208: with textpad=(0, 0) type labels are put on ends of wires, and the lines of these wires use nodes that are declared later (C117_refuted_textpad).
* drawable.py and tikz_backend.py: with the default arguments, a state and an effect followed by a cap and a cup are drawn on each other, and the wires of the cap use the node of the name of the state, declared later (C117_refuted_default).
* Ansatz: with TensorAnsatz a snake on a type of dimension 3 or more evaluates to a matrix of rank 2, so `remove_snakes` changes the result (C83_refuted_snake).
* Ansatz: weights of PytorchModel are flat, so diagrams with conjugated words (after cup removal) cannot be evaluated (C83_refuted_flat).
* Ansatz: circuits of diagrams with spiders on types of two or more qubits raise NotImplementedError (C77_refuted_spider).
* Ansatz: labels of boxes confuse type names with underscores, dots, at signs or no letters (C76_label_injective_refuted).
* Quantum: `Scalar` and `Sqrt` boxes cannot be rotated (ValueError), so neither can circuits of cups, caps or spiders; `Bit` raises TypeError (C72_refuted_scalar). A rotated plain box loses `is_mixed` and `self_adjoint` (C72_refuted_flags).
* Ansatz: `MPSAnsatz` and `SpiderAnsatz` number the pieces of a box but do not record its type, so boxes of the same name and different types share pieces, i.e. parameters (C54_refuted_shared).
* Ansatz: a negative number of ancillas is not rejected and gives a circuit with the wrong number of wires (C49).
* Ansatz: `StronglyEntanglingAnsatz` checks its ranges only when a box is converted, and only from above: a range that is 0 or a negative multiple of the number of qubits asks for a CNOT from a qubit to itself (C49, hypothesis `RangesOK`).
* Quantum: `Bit(b)` is evaluated as a state of a qubit, so `Bit(0) >> Encode()` raises `IndexError` in mixed evaluation (C74).
* Quantum: the dagger of a box made with `is_mixed=True` evaluates to the data of the box itself (C74).
* Quantum: the dagger of `Sqrt(z)` is `Sqrt(conj z)`, which is not the conjugate on the negative real axis (principal branch), so `Sqrt(-1).dagger()` evaluates to i instead of -i (C71).

## Plan per property
''')
notes=json.load(open('/verif/tools/notes.json'))
man={c['property']:c for c in json.load(open('/verif/MANIFEST.json'))['claims']}
for q in props:
    i=q['id']
    out.append(f"* **{i} {q['title']}** — *Plan:* {plan.get(i,'Model the cited functions as total Lean functions; prove by induction / loop invariant; refute with a witness where the code is wrong.')}")
    if i in man:
        c=man[i]; n=notes.get(i,{}).get('note','')
        out.append(f" *Result:* {c['status']}, {len(c['theorems'])} theorem(s). {n}")
    else: out.append(" *Result:* not yet modelled.")
    out.append("\n")
open('/verif/DESIGN.md','w').write(''.join(out))
