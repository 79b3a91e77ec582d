import json
P=[]
def p(id,title,statement,quantifier,why,anchors):
    P.append(dict(id=id,title=title,statement=statement,quantifier=quantifier,why_tests_cant=why,anchors=anchors))
G='lambeq/backend/grammar.py'
p('C01','Types form a free monoid under @','For all grammar types a, b, c: (a @ b) @ c == a @ (b @ c), Ty() @ a == a == a @ Ty(); len(a @ b) == len(a)+len(b); iterating a @ b yields the atoms of a then those of b; and Ty objects are always in canonical form (empty, atomic, or a flat list of at least two atoms), so == on types is equality of atom sequences.','all types, of any length, and all ways of building them','Types are unbounded lists; flattening/canonicalisation must hold for every nesting of tensor products.',[G+': Ty.tensor, Ty._fromiter, Ty.__len__, Ty.__iter__, Ty.__post_init__'])
p('C02','Adjoint laws for types','For all types a, b and integers m, n: a.rotate(0)==a, a.rotate(m).rotate(n)==a.rotate(m+n), a.l.r==a==a.r.l, (a@b).rotate(n) is a.rotate(n)@b.rotate(n) for even n and b.rotate(n)@a.rotate(n) for odd n (including negative odd n), and rotate preserves length.','all types and all integer winding numbers, positive and negative','Ranges over unbounded types and all integers; relies on Python modulo for negative odd numbers.',[G+': Ty.rotate, Ty.l, Ty.r, Ty.unwind'])
p('C03','Type indexing, slicing, insert, replace, count, repeat','For 0<=i<=len(t): t[:i] @ t[i:] == t; t.insert(o,i) == t[:i] @ o @ t[i:]; for 0<=i<len(t): t.replace(o,i) == t[:i] @ o @ t[i+1:]; out-of-range positive indices raise; t.count is additive over @; t**n has n*len(t) atoms and t**(m+n)==t**m @ t**n.','all types, all inserted types, all indices','Boundary behaviour (index 0, len-1, len, atomic versus complex receiver) for every length.',[G+': Ty.__getitem__, Ty.replace, Ty.insert, Ty.count, Ty.repeat'])
p('C04','Every diagram built through the API is well typed','Call a diagram well typed if its first layer starts at dom, consecutive layers match, the last layer ends at cod (dom==cod when there are no layers). Every diagram obtained from boxes and identities by then, tensor, then_at, dagger, rotate, transpose, curry, permutation, permuted, caps, cups, swap, spiders, functor application and forward slicing is well typed.','all expressions over the diagram API, of unbounded size','The set of expressions is infinite; Diagram does not validate layers on construction.',[G+': Diagram.then, Diagram.tensor, Diagram.dagger, Diagram.rotate, Layer'])
p('C05','Sequential composition is a category','f >> g raises ValueError exactly when f.cod != g.dom; otherwise dom is f.dom and cod is g.cod, >> is associative (including which compositions raise) and identities are neutral.','all diagrams f, g, h','All diagrams, incl. empty ones and identities.',[G+': Diagram.then, Diagram.id'])
p('C06','Tensor is strictly monoidal','(f@g).dom == f.dom@g.dom, (f@g).cod == f.cod@g.cod, @ on diagrams is associative with unit Id(Ty()), and f @ g == (f @ Id(g.dom)) >> (Id(f.cod) @ g); n-ary tensor equals iterated binary tensor.','all well-typed diagrams','Unbounded diagrams; offset arithmetic in tensor must be right for every width.',[G+': Diagram.tensor, Layer.extend'])
p('C07','Dagger is an involutive contravariant functor','d.dagger() swaps dom and cod, (f>>g).dagger()==g.dagger()>>f.dagger(), d.dagger().dagger()==d, and dagger of a well-typed diagram is well typed, for diagrams over boxes, words, cups, caps, swaps and spiders.','all diagrams','Unbounded diagrams and box kinds; involution depends on the reversed flag of cups and caps.',[G+': Diagram.dagger, Box.dagger, Cup.dagger, Cap.dagger, Daggered, Spider.dagger, Swap.dagger'])
p('C08','Rotation of diagrams is an action of the integers','d.rotate(m).rotate(n)==d.rotate(m+n), d.rotate(0)==d, d.l.r==d==d.r.l, dom and cod rotate, rotation commutes with >> and with dagger and preserves well-typedness; rotated cups and caps still satisfy the adjointness check (never raise).','all diagrams, all integers m, n','All diagrams and integers; depends on is_reversed parity bookkeeping.',[G+': Diagram.rotate, Layer.rotate, Cup.rotate, Cap.rotate, Swap.rotate, Spider.rotate, Box.rotate'])
p('C09','Forward slicing decomposes a diagram','For every k in range, d[:k] >> d[k:] == d; d[i:j] is well typed with (j-i) layers; d[i] is the i-th layer; iterating indices covers the layers; out-of-range integer indices raise IndexError.','all well-typed diagrams and all slice bounds','All bounds, including the empty-slice edge cases.',[G+': Diagram.__getitem__'])
p('C10','Reverse slicing d[::-1]','d[::-1] == d.dagger() for every well-typed diagram, and d[i:j:-1] is well typed.','all diagrams and bounds','All bounds; the partial-slice case is where the implementation uses the wrong types.',[G+': Diagram.__getitem__'])
p('C11','permutation() realises exactly the requested permutation','Diagram.permutation(dom, p) raises ValueError unless p is a permutation of range(len(dom)); otherwise it is well typed, consists only of swaps of adjacent wires, and output wire k carries input wire p[k] (so cod[k]==dom[p[k]]).','all types and all permutations of any length','All n! permutations for all n.',[G+': Diagram.permutation, Diagram.permuted'])
p('C12','Swap of compound types exchanges the two blocks','Swap(a,b) for arbitrary types is a well-typed diagram from a@b to b@a made of |a|*|b| adjacent swaps, whose effect on wires is to move block a after block b preserving internal order.','all pairs of types','Unbounded widths.',[G+': Swap.__new__'])
p('C13','Cups and caps of compound types','For every type t, cups(t, t.r) and cups(t.l, t) are well-typed diagrams t@t.r -> Ty() of len(t) atomic cups, caps(t, t.l) and caps(t.r, t) likewise; non-adjoint arguments raise ValueError. (The reversed flag should behave the same way.)','all types, both values of is_reversed','Unbounded types; nested cup offsets.',[G+': Cup.__new__, Cap.__new__, Cup._check_adjoint, Cap._check_adjoint'])
p('C14','Spiders on compound types','Spider(t, m, n) for every type t is a well-typed diagram from t**m to t**n consisting of swaps and one atomic spider per atom of t; each output wire of atom i is connected to exactly the input wires of atom i.','all types and leg counts','Unbounded types and leg counts.',[G+': Spider.__new__'])
p('C15','Transpose, curry and then_at typing','transpose() of f: a->b is a well-typed diagram b.r->a.r (b.l->a.l with left=True); curry(n) of f: a@x->b with |x|=n>0 has dom a and cod b@x.l, curry(n,left=False) of f: x@a->b has dom a and cod x.r@b; d.then_at(g,i) succeeds iff d.cod[i:i+len(g.dom)]==g.dom and rewrites the cod in place.','all diagrams and all n','Unbounded types and n.',[G+': Diagram.transpose, Diagram.curry, Diagram.then_at'])
p('C16','create_pregroup_diagram yields a well-typed pregroup diagram','Whenever create_pregroup_diagram(words, morphisms) returns, the result is well typed with dom Ty(), starts with exactly the given words in order, followed by one box per morphism in order, and is_pregroup holds.','all word and morphism lists','All lists; offset adjustment depends on the whole history of earlier cups.',[G+': Diagram.create_pregroup_diagram, Diagram.is_pregroup'])
p('C17','Functors respect types','If functor application F(d) returns without raising on a first call, then F(d).dom==F(d.dom), F(d).cod==F(d.cod) and F(d) is well typed; F on types is a monoid homomorphism commuting with adjoints.','all functors (arbitrary user ob/ar), all diagrams','User supplied ob/ar are arbitrary functions; diagrams unbounded.',[G+': Functor, Ty.apply_functor, Diagram.apply_functor, Box.apply_functor'])
p('C18','Functors preserve identity, composition and tensor','F(Id(t))==Id(F(t)), F(f>>g)==F(f)>>F(g), F(f@g)==F(f)@F(g).','all functors and all well-typed diagrams','Unbounded diagrams, arbitrary user functions.',[G+': Functor.__call__, Diagram.apply_functor'])
p('C19','Functors preserve dagger, and adjoints of generators','F(f.dagger())==F(f).dagger() and F(f.rotate(z))==F(f).rotate(z) whenever both sides are defined.','all functors whose images of generators are well typed; all diagrams over words/boxes/swaps/cups/caps/spiders','Unbounded; relies on unwind/rotate of each generator.',[G+': Daggered.apply_functor, Box.apply_functor, Cup.apply_functor, Cap.apply_functor'])
p('C20','Functor caching is transparent and never leaks ill-typed arrows','For every sequence of calls, calling a functor twice on the same argument gives the same outcome (same value or same exception) as calling a fresh functor.','all histories of calls, all user functions','Quantifies over call histories including calls that raised.',[G+': Functor.ob_with_cache, Functor.ar_with_cache'])
p('C21','JSON round trip of types, boxes, layers and diagrams','from_json(x.to_json()) == x for every type, box, word, cup, cap, swap, spider, layer and diagram over these.','all entities','Unbounded, recursive data.',[G+': Ty.to_json, Ty.from_json, Box.to_json, Layer.from_json, Diagram.to_json, Diagram.from_json, Cup.from_json, Spider.from_json, Word.from_json'])
p('C22','JSON round trip of daggered boxes and frames','from_json(x.to_json()) == x for daggered boxes (of any box) and for frames with arbitrary components.','all daggered boxes and frames, arbitrary nesting','Unbounded nesting; only specific constructor combinations break.',[G+': Daggered.from_json, Frame.from_json, DaggeredFrame.from_json'])
p('C23','Frame rotation is an action of the integers','frame.rotate(0)==frame, frame.rotate(m).rotate(n)==frame.rotate(m+n), frame.l.r==frame; rotating keeps the multiset of components.','all frames with any number of components, all integers','All component counts and parities.',[G+': Frame.rotate, DaggeredFrame.rotate'])
S='lambeq/backend/snake_removal.py'
p('C24','Interchanging boxes preserves typing and meaning','interchange(d,i,j) either raises (index error, or connected boxes) or returns a well-typed diagram with the same dom, cod and multiset of boxes that denotes the same linear map under every assignment of tensors to boxes.','all well-typed diagrams and index pairs, all tensor interpretations','Unbounded diagrams, every interpretation.',[S+': interchange'])
p('C25','Snake removal preserves typing and meaning','remove_snakes(d) has the same dom and cod as d, is well typed, has no more layers than d, and denotes the same linear map under every interpretation in which cups and caps satisfy the snake equations.','all well-typed diagrams, all interpretations','Unbounded diagrams and rewriting sequences.',[S+': snake_removal, unsnake, follow_wire, find_snake',G+': Diagram.remove_snakes'])
p('C26','Normal form preserves typing and meaning','If normal_form(d) returns, the result is well typed with the same dom/cod and the same meaning as d.','all diagrams on which it returns','Unbounded rewriting sequences.',[S+': normalize',G+': Diagram.normal_form'])
T='lambeq/text2diagram/ccg_type.py'
p('C27','CCG category printing and parsing are inverse','CCGType.parse(str(t)) == t for every category t built from atoms with legal names and slashes, whatever the nesting; parse accepts redundant outer brackets; unbalanced strings never parse.','all CCG categories of any depth; all strings','Unbounded recursive grammar.',[T+': CCGType.parse, CCGType._parse, CCGType.to_string'])
p('C28','CCG to pregroup type translation','t.to_grammar() maps X/Y to X@Y.l and X\\Y to Y.r@X homomorphically, and replace/replace_result/split are consistent with it.','all CCG categories','Unbounded recursion.',[T+': CCGType.to_grammar, CCGType.split, CCGType.replace, CCGType.replace_result'])
R='lambeq/text2diagram/ccg_rule.py'
p('C29','CCG rules produce well-typed diagrams','If rule.apply(dom, cod) returns, the diagram has domain the concatenation of the dom types and codomain the cod type (as pregroup types), and is well typed.','all rules, all categories','Unbounded categories, nested generalised composition.',[R+': CCGRule.apply, CCGRule.__call__'])
p('C30','Rule inference is sound','If infer_rule(dom, cod) returns a rule other than UNKNOWN, then that rule type-checks on (dom, cod): apply returns a diagram of the right type.','all category pairs/triples','All categories.',[R+': CCGRule.infer_rule'])
p('C31','Resolving a rule against a codomain is sound','rule.resolve(cod, dom...) returns domain categories that agree with the rule: the rule applied to the resolved categories has result cod.','all rules and categories','All categories.',[R+': CCGRule.resolve',"lambeq/text2diagram/ccg_tree.py: CCGTree._resolved"])
p('C32','Derivation trees become sentence diagrams','CCGTree.to_diagram returns a well-typed diagram with empty domain, whose codomain is the root category and whose words are the leaves in left-to-right order.','all derivation trees','Unbounded trees, all rule combinations, planar and non-planar.',['lambeq/text2diagram/ccg_tree.py: CCGTree.to_diagram, CCGTree._to_diagram'])
p('C33','Linear readers','For every non-empty sentence the linear, cups, stairs and spiders readers return a well-typed diagram with empty domain, the reader output type as codomain and exactly one word box per token in order.','all sentences of any length','Unbounded sentence length; loop invariants.',['lambeq/text2diagram/linear_reader.py: LinearReader.sentence2diagram','lambeq/text2diagram/spiders_reader.py: SpidersReader.sentence2diagram'])
p('C34','Tree readers','TreeReader.tree2diagram returns a well-typed diagram from Ty() to the word type (after the optional root), with one word per leaf in order, for every derivation tree and every mode.','all trees and modes','Unbounded trees.',['lambeq/text2diagram/tree_reader.py: TreeReader'])
RW='lambeq/rewrite/base.py'
p('C35','Rewriting preserves the sentence type','Rewriter(rules)(d) has the same dom and cod as d and is well typed, for every list of box rewrite rules whose outputs have the type of the box they replace; boxes matched by no rule are unchanged and the first matching rule wins.','all diagrams and rule lists','Unbounded diagrams and rule lists.',[RW+': Rewriter.__call__, Rewriter._ar, RewriteRule.__call__'])
p('C36','The built-in rewrite rules are type preserving','For every word that matches, each built-in rule (connector, auxiliary, determiner, adverb, preposition, relative pronouns, coordination, curry) rewrites it into a diagram of the same dom and cod.','all words and types','All types (coordination and curry rules act on arbitrary types).',[RW+': SimpleRewriteRule, CoordinationRewriteRule, CurryRewriteRule'])
D='lambeq/training/dataset.py'
p('C37','Dataset iteration partitions the data','One pass over a Dataset yields every (data,target) pair exactly once, in order when shuffle=False and in some permutation when shuffle=True, in batches that all have batch_size elements except possibly the last, which is non-empty; the number of batches is batches_per_epoch; batch_size=0 means a single batch.','all datasets, batch sizes and shuffles','All lengths, batch sizes, shuffles; off-by-one at exact multiples.',[D+': Dataset.__iter__, Dataset.shuffle_data, Dataset.__init__'])
TR='lambeq/training/trainer.py'
p('C38','Early stopping','The early-stopping check stops training iff the criterion has strictly not improved for the configured number of validation steps, for min and max modes.','all histories of validation values','Quantifies over histories.',[TR+': Trainer._check_early_stopping'])
p('C39','Step, epoch and evaluation accounting of the training loop','After fit without early stopping, the number of training steps is epochs*batches_per_epoch, training epoch costs are recorded once per epoch, evaluations occur exactly at the configured steps, and the best model saved is one with the best recorded criterion.','all epochs, dataset sizes, evaluation frequencies, histories','Unbounded loop executions.',[TR+': Trainer.fit'])
p('C40','Resuming from a checkpoint','Stopping after any epoch, saving a checkpoint, and resuming in a fresh trainer gives the same history, weights and best-model tracking as an uninterrupted run.','all stop points (crash points) and histories','Crash points and histories.',[TR+': Trainer.save_checkpoint, Trainer.load_training_checkpoint, Trainer.fit'])
p('C41','Checkpoint files are a map and survive crashes','After any sequence of operations, a Checkpoint holds exactly the last value added per key; from_file(to_file(c)) returns c; missing keys raise; a crash while writing never destroys the previously saved checkpoint.','all operation sequences and crash points','Histories and crash points.',['lambeq/training/checkpoint.py: Checkpoint'])
p('C42','SPSA keeps weights inside the bounds and restores them','SPSA.backward leaves model.weights as they were; after step every bounded weight is inside its bounds; weights of symbols not in the batch are unchanged; without bounds the update is the SPSA formula, exact on average for affine losses.','all weights, bounds, losses and perturbations','Real-valued inputs, all histories.',['lambeq/training/spsa_optimizer.py: SPSAOptimizer.backward, SPSAOptimizer.step, project'])
p('C43','Nelder-Mead best loss is monotone','The best simplex loss never increases over iterations, the simplex stays sorted by loss and all simplex points and model weights satisfy the bounds; the first simplex is not flat.','all loss functions and histories','All functions, unbounded iterations.',['lambeq/training/nelder_mead_optimizer.py: NelderMeadOptimizer.backward'])
p('C44','Optimiser state round trip','load_state_dict(state_dict()) restores an optimiser so that subsequent updates equal those of the original.','all states','All histories.',['lambeq/training/spsa_optimizer.py: state_dict, load_state_dict','lambeq/training/nelder_mead_optimizer.py: state_dict, load_state_dict'])
p('C45','Numerical backend contexts nest','Entering and leaving with backend(...) restores the previous backend for every well-nested sequence of context uses, also when the body raises.','all well-nested sequences','Histories of arbitrary nesting depth.',['lambeq/backend/numerical_backend.py: backend, set_backend, get_backend'])
p('C46','Bobcat chart cells','After any sequence of add calls a Cell keeps its trees sorted by non-increasing score, holds at most one tree per category, its map and list agree, and every dropped tree scores no better than the kept ones of the beam; find returns a valid insertion point.','all beam sizes, all add sequences','Histories; binary search with ties.',['lambeq/bobcat/parser.py: Cell.find, Cell.add'])
p('C47','Bobcat category equality and matching','Category == is an equivalence relation that ignores variables and identifies S with S[X]; equal categories hash equally; matches is reflexive, transitive, and implied by structural equality.','all categories','Unbounded recursion.',['lambeq/bobcat/lexicon.py: Category._equals, Category._matches, Category._hash'])
p('C48','Bobcat combination yields CCG-valid results','Whenever forward/backward application or composition returns a tree, the result category is the one prescribed by the CCG rule (up to feature unification and variables).','all parse trees/categories','Unbounded categories; unification state.',['lambeq/bobcat/rules.py: Rules.application, Rules.composition','lambeq/bobcat/tree.py: Unify'])
p('C49','Circuit ansatz: wires, parameters and value','For every box, the circuit produced by a CircuitAnsatz (IQP, Sim4, Sim9, Sim9Cx, Sim14, Sim15, StronglyEntangling) has as many input and output wires as the object map assigns to the box domain and codomain, for all layer counts, non-negative ancilla settings and discard choices; every parameter symbol occurs exactly once and in order; and for all parameter values its evaluation is that of the documented gate sequence started on fresh qubits in state 0, with the surplus qubits post-selected in the chosen basis or traced out.','all boxes, object maps, layer numbers, ancilla counts, parameter values','All sizes, and all real parameter values.',['lambeq/ansatz/circuit.py: CircuitAnsatz._ar, CircuitAnsatz.ob_size, IQPAnsatz, Sim4Ansatz, Sim9Ansatz, Sim9CxAnsatz, Sim14Ansatz, Sim15Ansatz, StronglyEntanglingAnsatz'])
p('C50','Controlled gates act on the intended wires','For every gate g on one qubit and every nesting of controls with any non-zero distances (positive or negative), the array of the controlled gate is the matrix that applies g to the target wire exactly when every control wire is 1 and is the identity otherwise, where the k-th control lies at the signed distance from the block it controls; Controlled.decompose evaluates to the same matrix; circuit.apply_gate (H, CX, CCX, ... methods) with distinct qubit indices applies the gate with exactly those controls and that target for every order of the indices on the line, whatever the circuit before it; a zero distance raises AssertionError.','all circuits, gates, nestings, distances and qubit indices','The wires are unbounded integers and the state space doubles with each wire.',['lambeq/backend/quantum.py: Controlled.decompose, Controlled.array, Diagram.apply_gate'])
p('C51','Circuits on a backend mean what exact simulation computes','A circuital diagram (qubits in state 0, gates, swaps and scalars, then measurements, post-selections and discards) is exported by to_tk without error; every entry of eval(mixed=True) is the scalar of the exported circuit times the probability of the corresponding bitstring of the exported circuit (all measured and post-selected qubits have their bit), and on a backend that returns exact probabilities eval(backend=...) equals eval(mixed=True).','all circuital diagrams with any number of qubits, gates and distances of controls; all orders of measurements, post-selections and discards','All circuits; qubit and bit numbers are only confused for particular orders of measurements.',['lambeq/backend/quantum.py: is_circuital, readoff_circuital, Gate.from_box, Diagram.eval','lambeq/backend/converters/tk.py: to_tk, Circuit.get_counts'])
p('C52','Dimension normalisation and tensor types','Dim tensor products drop 1s, are associative, and the product of dimensions is preserved; tensor diagrams of well-typed inputs have consistent array shapes.','all dimension tuples','Unbounded lists.',['lambeq/backend/tensor.py: Dim'])
p('C53','Tensor cap/cup satisfy the snake equations','Evaluating (Cap @ Id) >> (Id @ Cup) gives the identity tensor for every dimension.','all dimensions','All dimensions; the bug only shows for dim >= 3.',['lambeq/backend/tensor.py: Cap, Cup'])
p('C54','MPS and spider ansatz splitting','Splitting with MPSAnsatz or SpiderAnsatz succeeds on every diagram, keeps its domain and codomain and leaves no box with more than max_order wires; the pieces of a box are numbered words on consecutive windows of its wires (inputs bent to the side), joined by bonds or shared wires, and the tensor of the result is the contraction of the pieces along the bonds, or the product of their entries. Bounds below 3 (MPS) or 2 (spider) and a clash with the bond type are rejected.','all diagrams, box shapes, bounds, sides and tensors of the pieces','All lengths and all tensors.',['lambeq/ansatz/tensor.py: MPSAnsatz, SpiderAnsatz'])
p('C55','Unknown-word handling','UnknownWordsRewriteRule replaces exactly the words not in the vocabulary and keeps types; from_diagrams builds the vocabulary of words occurring at least min_freq times; after rewriting, all words are in the vocabulary or are UNK.','all diagrams and vocabularies','Unbounded diagrams.',[RW+': UnknownWordsRewriteRule'])
p('C56','Counts and post-selection','get_counts keeps exactly the bitstrings with the post-selected values, removes the post-selected bits, scales by the scalar of the circuit, and the array built from it has that number at the remaining bits and 0 elsewhere.','all count dictionaries and post-selections on existing bits','All bitstrings.',['lambeq/backend/converters/tk.py: Circuit.get_counts','lambeq/backend/quantum.py: Diagram.eval'])
RD='lambeq/rewrite/rewrite_diagram.py'
p('C57','Removing cups keeps the meaning','RemoveCupsRewriter()(d) has the dom and cod of d, the same boxes up to rotation and transposition, no more cups and caps than d, and denotes the same linear map in every tensor model; it does not raise on well-typed diagrams.','all well-typed diagrams and all tensor models','Unbounded diagrams, all semantics.',[RD+': RemoveCupsRewriter'])
p('C58','Unifying codomains','UnifyCodomainRewriter(t)(d) has codomain t and the domain of d, is d itself if the codomain was already t, and otherwise only appends one merge box.','all diagrams and types','Unbounded diagrams.',[RD+': UnifyCodomainRewriter'])
p('C59','Removing swaps','RemoveSwapsRewriter applied to a pregroup diagram returns a well-typed pregroup diagram without swaps with the same dom and cod as the input, and the same words in the same order.','all pregroup diagrams','Unbounded diagrams; interaction of swap tracking and cup elimination.',[RD+': RemoveSwapsRewriter'])
p('C60','Rotosolve updates minimise each coordinate','For a loss that is a sinusoid in each parameter, every coordinate update of RotosolveOptimizer.backward leaves that parameter at a minimiser of the loss over the coordinate, so the loss never increases; afterwards every weight lies in [0,1) and the returned loss is the loss at the weights.','all sinusoidal losses, all weights','All real amplitudes, phases and weights.',['lambeq/training/rotosolve_optimizer.py: RotosolveOptimizer.backward, project'])
p('C61','Bobcat chart parser','The score test that leaves the inner loop early never changes the chart; every tree in the cell of a span is built by the rules over exactly the words of the span in order; the trees of a ParseResult cover all words of the sentence, have a root category, are not made by a unary rule at the root and come best first; the tree counter is never below the number of trees in the chart.','all grammars, sentences, tag and span scores, beams and limits','All sentences and scores; the pruning is only a performance device if it is exact.',['lambeq/bobcat/parser.py: ChartParser.__call__, ParseResult, Chart.add'])
p('C62','Bobcat rules are total on marked-up categories','On trees whose categories are marked up (every sub-category has a variable), combine, type_change and type_raise do not raise, and their results are marked up again, so the parser can be iterated; application and composition neither lose nor invent head words.','all trees and grammars','All categories and variable assignments, all iterations.',['lambeq/bobcat/rules.py: Rules.combine','lambeq/bobcat/tree.py: Unify','lambeq/bobcat/lexicon.py: Category.translate'])
MB='lambeq/text2diagram/model_based_reader/'
p('C64','Batch parsing keeps sentences and results aligned','Parsing a batch returns one item per sentence, in order: with suppress_exceptions=True it never raises, an empty sentence gives None and every other sentence gives its own parse (None if the parse fails), whatever happens to its neighbours; with suppress_exceptions=False an empty sentence raises ValueError and otherwise every result is the parse of the sentence at its position. The list passed in is not changed.','all batches, positions of empty and failing sentences, tokenised or not, all three model based parsers','All batches and all failure patterns; index bookkeeping for removed sentences.',[MB+'base.py: ModelBasedReader.validate_sentence_batch',MB+'bobcat_parser.py: BobcatParser.sentences2trees',MB+'oncilla_parser.py: OncillaParser._sentences2pregrouptrees','lambeq/text2diagram/depccg_parser.py: DepCCGParser.sentences2trees','lambeq/text2diagram/ccg_parser.py: CCGParser.sentences2diagrams, CCGParser.sentence2diagram'])
p('C65','Numbering of chart spans','get_chart_spans(n) lists every span (x, y) with x <= y < n exactly once, at position span2idx(x, y), whatever calls were made before; idx2span and span2idx are inverse.','all sentence lengths, all indices, all histories of calls (the spans are memoised globally)','Unbounded indices, memo history.',['lambeq/bobcat/tagger.py: chart_size, get_chart_spans, idx2span, span2idx'])
p('C66','Tagger output belongs to the right words','For every batch the tagger returns one item per sentence, in order and with the words of the sentence; word i gets the categories the network scored for word i and that pass the threshold, and a span (x, y) gets exactly the categories scored for it, none with category 0 (no category).','all networks, batches, batch sizes and thresholds','All batches, all scores.',['lambeq/bobcat/tagger.py: Tagger.parse, Tagger.__call__'])
TN='lambeq/backend/tensor.py'
p('C67','Evaluation of tensor diagrams is compositional','eval() of a well-typed diagram whose boxes have data does not raise; the identity evaluates to the identity matrix, a box to its data in the shape of its types, cups, swaps and spiders to the usual delta tensors in every dimension, f >> g to the matrix product and f @ g to the Kronecker product.','all diagrams, all dimensions, all data','Unbounded diagrams; the network is contracted globally, not layer by layer.',[TN+': Diagram.to_tn, Diagram.eval, Box.array, Cup, Swap, Spider'])
p('C68','Adjoints and conjugates of tensor diagrams','eval(d.dagger()) is the conjugate transpose of eval(d), and eval(d.l), eval(d.r) are the conjugate with the wires of each side reversed; rotating back gives the same value.','all diagrams with data, all dimensions','Unbounded diagrams, all shapes; axis permutations.',[TN+': Box.dagger, Box.rotate, Box._adjoint_array, Box._conjugate_array, Daggered','lambeq/backend/grammar.py: Diagram.dagger, Diagram.rotate'])
p('C69','Substituting values for symbols','diagram.lambdify(*symbols)(*values) replaces every listed symbol by its value times its scale and changes nothing else (types, wiring, rotation, other symbols), whatever the order in which the symbols are passed.','all diagrams, symbol lists and values','Unbounded diagrams.',[TN+': Box.lambdify, Diagram.lambdify, Daggered.lambdify, Box.free_symbols','lambeq/backend/symbol.py: Symbol, lambdify'])
QU='lambeq/backend/quantum.py'
p('C70','Caps, cups and spiders as circuits','generate_cap and generate_cup on any number of qubits return circuits whose value is the nested cap/cup tensor (1 if the second half is the first half reversed, 0 otherwise), so they satisfy the snake equations; generate_spider on a qubit with any numbers of legs terminates and returns a circuit of that type whose value is the copying tensor; unequal types and unsupported types raise.','all numbers of qubits and legs','Unbounded numbers of legs; recursion halving the legs; scalars must cancel exactly.',[QU+': generate_cap, generate_cup, generate_spider'])
p('C71','Dagger of circuits','The value of circuit.dagger() is the conjugate transpose of the value of the circuit, and circuit.dagger().dagger() is the circuit.','all pure circuits whose self-adjoint boxes are Hermitian','Unbounded circuits, real phases.',[QU+': Box.dagger, Daggered, Rotation.dagger, Controlled.dagger, Ket, Bra, Sqrt','lambeq/backend/grammar.py: Diagram.dagger'])
p('C75','Evaluation of pure circuits is compositional','eval() of a well-typed pure circuit does not raise and gives an array with one axis of size 2 per wire; the identity circuit gives the identity, a gate its array, f >> g the composite and f @ g the tensor product of the linear maps.','all pure circuits','Unbounded circuits.',[QU+': Diagram.eval, Diagram.to_tn, Diagram.is_mixed'])
p('C74','Mixed evaluation computes the classical-quantum map','eval(mixed=True), and eval() of a circuit with Measure, Encode, Discard, MixedState or is_mixed boxes, does not raise on a well-typed circuit and gives an array with one axis per bit and two per qubit: a pure circuit gives f times conj f, measuring keeps the diagonal (so that measuring a pure state gives the squared absolute values of its amplitudes), discarding is the partial trace, f >> g is the composite and f @ g the tensor product of the maps.','all circuits of gates, controlled gates at any distance, swaps, measurements, preparations and mixed boxes','Unbounded circuits; bits and qubits interleaved in any order.',[QU+': Diagram.to_tn, Diagram.eval, Diagram.is_mixed, Measure, Encode, Discard, MixedState'])
p('C72','Rotating a circuit conjugates it','Taking the adjoint (.l/.r, rotate(z)) of a pure circuit of standard gates, rotations, controlled gates and swaps does not raise; for odd z its domain and codomain are reversed and every amplitude is the complex conjugate of the amplitude of the original at the reversed bit strings, for even z the circuit evaluates to the same array; rotating by z and then by -z gives back the type and the array. (Circuits with Scalar, Sqrt or Bit boxes, hence circuits of cups and caps, cannot be rotated at all.)','all pure circuits of any size over the gate set, all angles, all integer windings','an infinite family of circuits, real angles and windings; the claim relates all amplitudes',[(QU,'Box.rotate'),(QU,'Controlled.rotate'),(QU,'Rx'),('lambeq/backend/grammar.py','Diagram.rotate')])
p('C76','Symbols of different words are never confused','With type names that are not empty and contain no underscore, dot or at sign, the label an ansatz gives a box determines its name, domain and codomain, and the symbols of two boxes are equal exactly if their numbers and labels are; so every choice of parameters per box is realised by one assignment to symbols. TensorAnsatz gives a box one symbol whose size is the product of the dimensions of its domain and codomain, split between directed domain and codomain by the parity of the windings; an atomic type without a dimension raises KeyError.','all box names, domains and codomains of any length and winding, all object maps','infinitely many names and types; injectivity is a statement about all pairs',[('lambeq/ansatz/base.py','BaseAnsatz._summarise_box'),('lambeq/ansatz/tensor.py','TensorAnsatz._ar'),('lambeq/ansatz/circuit.py','CircuitAnsatz._ar')])
p('C77','The circuit of a diagram computes the contraction of the circuits of its words','A circuit ansatz without discarding maps every well-typed diagram of boxes, words, cups, caps, swaps (and spiders on at most one qubit), at every winding number and with daggers, to a well-typed circuit on the qubits its types are mapped to. The amplitudes of the circuit are the contraction, wire by wire, of the amplitudes of the circuits of the single words: rotated words contribute the transposed or conjugated circuit and cups the unnormalised Bell effect. Consequently removing snakes, taking normal forms or removing cups before the ansatz is applied does not change any amplitude.','every ansatz with post-selection and every basis, every ob_map, every diagram of supported boxes, every value of the parameters, every input and output bit string','tests evaluate a few sentences with fixed parameters',['lambeq/ansatz/circuit.py: CircuitAnsatz.__call__','lambeq/backend/grammar.py: Functor.__call__',QU+': quantum.special_boxes'])
p('C78','The list of symbols of a model is determined by its diagrams','Model.from_diagrams gives a model whose symbols are exactly the free symbols of the diagrams, each once, sorted by name, whatever order Python iterates sets in. If no two symbols share a name the list depends only on the set of symbols, so checkpointed weights belong to the same symbols in every run. initialise_weights raises ValueError for no symbols and otherwise gives one weight per symbol (PytorchModel: a tensor with as many entries as the symbol has dimensions, bounded by the reciprocal of the mean of its normalisation).','all lists of diagrams, all iteration orders of sets, all random draws','the iteration order of a Python set of symbols depends on hash seeds and cannot be enumerated by a test',['lambeq/training/model.py:Model.from_diagrams','lambeq/training/quantum_model.py:initialise_weights','lambeq/training/pytorch_model.py:initialise_weights','lambeq/backend/symbol.py'])
p('C79','Substituting weights replaces every symbol and nothing else','QuantumModel._fast_subs returns, for every list of diagrams that share boxes and nest controlled and daggered boxes, copies in which every parameter is replaced by the weight of its symbol, times the scale of the symbol; the diagrams passed in, all other fields and the sharing between boxes are unchanged. A symbol that is not in the model raises KeyError. Each symbol gets the weight at its own position.','all heaps of boxes with any sharing and nesting, all lists of diagrams, all weights','sharing and nesting of boxes (a box may occur in several diagrams, or both inside and outside a controlled box) cannot be enumerated',['lambeq/training/quantum_model.py:_fast_subs','lambeq/backend/quantum.py:Controlled,Daggered,Parametrized','lambeq/training/pytorch_model.py:get_diagram_output'])
p('C80','Predictions are normalised Born-rule probabilities','The prediction of a NumpyModel for a circuit is non-negative, has total at most 1, and total 1 exactly if the unnormalised total reaches the threshold. For a pure circuit it is the squared amplitude divided by the probability that the post-selections succeed, the same as if every output were measured. A jit-compiled model gives the predictions of the plain one through every sequence of calls, weight updates and checkpoint loads with the same list of symbols.','all circuits, all outcomes, all histories of calls, updates and loads','the circuits, outcomes and histories are infinite families',['lambeq/training/numpy_model.py','lambeq/training/quantum_model.py:_normalise_vector'])
p('C81','Losses are the textbook losses up to smoothing','CrossEntropyLoss of a batch of distributions and one-hot labels is the mean of -log((p_label + e)/(1 + c e)); it lies between log((1+ce)/(1+e)) and log((1+ce)/e) and is minimal exactly for predictions that are certain and right. BinaryCrossEntropyLoss with sparse labels is its two-class case. MSELoss is not negative and zero exactly for equal arrays. Different shapes raise ValueError.','all batches, classes, distributions, labels and smoothing constants','the inputs are real vectors of any size',['lambeq/training/loss.py'])
p('C82','Contraction paths and their cache never change a result','Contracting a tensor network (without an edge from a node to itself) along any pairwise path, found by opt_einsum or taken from the cache, gives the sum over all closed edges with the axes in the requested order. This holds through every history of contractions, added paths, checkpoints, restarts and crashes while the save file is written. Networks with the same cache key are the same contraction problem up to edge names, and renaming edges or changing tensors keeps the key. With a usable save file the paths survive a restart.','all networks, all valid paths, all histories of calls, restarts and crash points','paths come from a randomised optimiser and histories and crash points cannot be enumerated',['lambeq/training/tn_path_optimizer.py:ordered_nodes_contractor','lambeq/training/tn_path_optimizer.py:CachedTnPathOptimizer','lambeq/training/pytorch_model.py:_tn_contract'])
p('C83','The tensor ansatz evaluates to the contraction of the word tensors','TensorAnsatz maps every well-typed diagram of words, boxes (at any winding number, also daggered), cups, swaps, spiders and caps of dimensions at most two to a well-typed tensor diagram with the dimensions given by ob_map, reversed for odd adjoints, and evaluating it gives the contraction of the tensors of the words, whatever the number and sizes of wires per atomic type. Diagrams with the same meaning (after snake removal, normal form, cup removal) evaluate to the same tensor.','all diagrams, all assignments of dimensions (several wires per type), all data','diagrams, dimension assignments and data are unbounded',['lambeq/ansatz/tensor.py:TensorAnsatz','lambeq/backend/grammar.py:Functor','lambeq/backend/tensor.py:Box','lambeq/backend/grammar.py:Cup.__new__','lambeq/backend/grammar.py:Spider.__new__'])
p('C63','Bobcat parse trees become CCG trees and diagrams','Every parse tree that Bobcat builds is turned into a CCGTree with the same bracketing and words, whose types are those written by the Bobcat categories without features, and whose steps are instances of the CCG rules they are labelled with (but for the two conjunction rules); and that tree is turned into a well-typed diagram with no inputs, the root type as output, and the words of the sentence in order.','all grammars with properly written categories, all parse trees','parse trees and grammars are unbounded, and the real grammar is a download',['lambeq/text2diagram/model_based_reader/bobcat_parser.py:BobcatParser._to_biclosed','lambeq/text2diagram/model_based_reader/bobcat_parser.py:BobcatParser._build_ccgtree','lambeq/text2diagram/ccg_tree.py:CCGTree.__init__','lambeq/text2diagram/ccg_tree.py:CCGTree._resolved'])
p('C73','Circuits give probability distributions','The array of every gate is unitary; circuits of gates, swaps and qubit preparations preserve inner products; circuits that also measure, encode and discard preserve the trace, so that the diagonal of their value on a basis input consists of non-negative numbers with sum one (at most one with post-selection); in particular a word under any circuit ansatz is a state of norm one whatever the parameters.','all circuits, phases, control distances, nestings and basis inputs; all ansatz settings and parameters','circuits and real parameters are unbounded, and floating point comparisons hide errors in single entries',['lambeq/backend/quantum.py:Diagram.eval','lambeq/backend/quantum.py:Controlled','lambeq/backend/quantum.py:Rotation','lambeq/ansatz/circuit.py:CircuitAnsatz'])
p('C84','Any circuit can be converted to circuital form and exported','to_circuital of a circuit on qubits returns a circuital diagram (no inputs, initialisations first, gates, then discards and post-selections, only bits as outputs) whose value at every outcome is the value of the original circuit for inputs 0 with the output qubits traced out; to_tk of a circuit that is not circuital therefore returns a circuit whose scalar times the probability of a matching assignment of bits is that value.','all well-typed circuits (any number of qubits, layers, initialisations in the middle of gates, post-selections and discards at any place), all outcomes','qubits are pulled through arbitrarily many layers, gates are stretched and post-selections reordered; the composition of these steps is unbounded',['lambeq/backend/quantum.py:to_circuital','lambeq/backend/quantum.py:Diagram.init_and_discard','lambeq/backend/converters/tk.py:to_tk'])
p('C85', 'CCG trees survive JSON and lose exactly their trivial unary rules', 'CCGTree.from_json(tree.to_json()) == tree, and two trees are equal if and only if their JSON is the same; from_json returns only trees the constructor accepts; reading a text has no visible effect; without_trivial_unary_rules removes exactly the unary rules that map a type to itself and keeps root type, words, rules and types of all other nodes, and doing it twice is doing it once; the height is the length of the longest branch.', 'all trees built by the constructor, from_json and without_trivial_unary_rules, with texts read at any point in between, any size and shape, all types that can be printed, all JSON values', 'trees have any shape and a history of mutations (cached texts, stale attributes)', ['lambeq/text2diagram/ccg_tree.py: CCGTree.__init__, text, from_json, to_json, without_trivial_unary_rules, __eq__', 'lambeq/text2diagram/ccg_rule.py: CCGRule'])
p('C86', 'A projective pregroup tree becomes the diagram it describes', 'tree2diagram(root, tokens) returns, for a projective tree, a pregroup diagram with one word box per token in order, where the type of each word is made of its own type and the adjoints of the types of its children, whose cups join every wire of every child with the matching wire of its parent and nothing else, and whose output is the type of the root; for every tree, whatever it returns is a well-typed pregroup diagram without inputs made of the given tokens, cups and swaps.', 'all trees of any size and shape, all types at the nodes (except one type that the code treats specially), all token lists that contain the words of the tree', 'trees are unbounded, and whether the wires end up at the right place depends on all branches at once', ['lambeq/text2diagram/pregroup_tree_converter.py: tree2diagram, _fix_auxiliary_types', 'lambeq/text2diagram/pregroup_tree.py: PregroupTreeNode'])
p('C87', 'A pregroup tree and its lists of words, types and parents describe each other', 'get_nodes returns every node of a tree once, grouped by word and in sentence order; get_words, get_types and get_parents of a tree whose words are numbered 0 to n-1, given to generate_tree, give back the same tree up to the order of children; in what generate_tree returns each node has the word of its token, and the type and the parent of the same number among those of the token; with one parent each, every token occurs once; parents out of bounds or equal to the token raise ValueError; merge keeps the text of the sentence.', 'all trees of any size and shape, all lists of tokens, types and parents without cycles', 'trees and lists are unbounded, and duplicates and gaps in the numbering interact with the grouping', ['lambeq/text2diagram/pregroup_tree.py: PregroupTreeNode.get_nodes, get_types, get_parents, get_words, get_word_indices, merge', 'lambeq/text2diagram/pregroup_tree_converter.py: generate_tree, str_to_type'])
p('C88', 'The DisCoCirc circuit of a text applies its sentences in order to the wires of the entities they mention', 'The circuit that text2circuit assembles from sentence diagrams is well typed and a state on one noun wire per entity, in the order of first mention; its linear map is the one obtained by starting every entity in the state of the noun that mentions it first and applying each sentence, in order, to the wires of the entities it mentions, copying and merging with spiders the wires of entities mentioned several times and leaving all other wires alone.', 'all texts: any number of sentences, of nouns per sentence and of entities, any pattern of coreference, any sentence diagrams, any interpretation in which swaps swap and noun spiders copy', 'the number of sentences and the coreference patterns are unbounded, and equality of the maps of circuits cannot be seen on samples', ['lambeq/experimental/discocirc/reader.py: DisCoCircReader.text2circuit'])
p('C89', 'The DisCoCirc diagram of a pregroup tree has one wire per noun and shows its words', 'The diagram of frames of a tree has one noun wire, in and out, per unpruned noun leaf, in order, followed by the arguments of the root, and shows every other word once unless the word has neither nouns below nor arguments; the diagram of sandwiches exists for every tree, has one noun wire per distinct noun, and its linear map is the box of the node followed, child after child, by the map of the child on the wires of its nouns and a box of the node again; trees whose root has type s or n make texts whose circuit exists.', 'all pregroup trees of any size, all sets of pruned indices, all texts of such trees, all interpretations in which swaps swap', 'trees are unbounded, and nouns shared between siblings interact with the permutations at every level', ['lambeq/experimental/discocirc/reader.py: DisCoCircReader._sentence2tree, _tree2frames_rec, _tree2sandwiches_rec'])
p('C90', 'Tree rewriting keeps the nouns and the type, and nodes get positions of the sentence', 'For any rules, rewriting a pregroup tree keeps the type of the root and the indices of noun leaves in their order; a rule merges each maximal chain of matching nodes from the bottom up, at most max_depth of them, into the node below; merging keeps the text read from the root down; rules that keep the last word remove only words they match; a second application changes nothing where there is no depth bound; giving nodes new indices never fails, and each noun taken from the result is the word of the sentence at the index that comes with it.', 'all trees of any size, all lists of rules, all sentences', 'trees, chains and rule lists are unbounded, and the new indices depend on the whole sentence', ['lambeq/experimental/discocirc/pregroup_tree_rewriter.py: TreeRewriteRule, TreeRewriter', 'lambeq/experimental/discocirc/reader.py: DisCoCircReader._calculate_reindices, _reindex_nodes'])
p('C91', 'Coreference gives one wire per entity, and pruning removes entities', 'The dictionary of coreferences maps each mention to the first mention of the first cluster that has it; where clusters are apart or nested, two mentions share a wire exactly if a cluster has both; pruning removes the first occurrence of each noun and, per other sentence, the first mention of its cluster; with min_noun_freq 1 nothing else is pruned; the token for a span is its last proper noun, else its last noun, else its first token; and for every text with valid coreferences and trees the circuit exists with one wire per entity.', 'all texts, all cluster lists, all sets of pruned nouns, all trees', 'clusters, texts and trees are unbounded, and coreference, pruning, rewriting and reindexing interact', ['lambeq/experimental/discocirc/coref_resolver.py: CoreferenceResolver.dict_from_corefs, MaverickCoreferenceResolver.tokenise_and_coref, SpacyCoreferenceResolver.tokenise_and_coref', 'lambeq/experimental/discocirc/reader.py: DisCoCircReader._get_index, _prune_indices, text2circuit'])
p('C92', 'The model cache survives crashes, failures and updates', 'Starting a model-based reader writes to the cache only after version, checksum and archive were received and verified, and writes the version last; from any state of the cache, a session without a crash in which the server answers ends with the version of the server and, if it downloaded, all files of the release and other files unchanged; after any history of sessions with crashes at any write and failing answers, the cache claims the version of the release only if all its files are there, so that the next good session loads the complete release; failures fall back to the local model.', 'all histories of sessions, all crash points (each written character), all answers of the server, all releases', 'crash points and histories cannot be enumerated by tests', ['lambeq/text2diagram/model_based_reader/model_downloader.py: ModelDownloader', 'lambeq/text2diagram/model_based_reader/base.py: ModelBasedReader._prepare_model_artifacts'])
p('C93', 'Category strings are read back as they were written', 'For every CCG category of the grammar, Category.parse(str(c)) is c without its variables and relations, so two categories with the same string differ at most in those; where all complex parts have a variable or relation, as in the lexicon files, Category.parse(repr(c), v) is c itself with the type-raising variable v, each relation having as slot the number of the argument it stands in, and it is written in the same way again.', 'all categories of any depth with atoms, features, variables and slashes of the grammar', 'categories are trees of unbounded depth, and whether a part is put in parentheses depends on the last character of what was written for it', ['lambeq/bobcat/lexicon.py: Category._str, __str__, __repr__, parse, _parse, parse_variable_id', 'lambeq/bobcat/fast_int_enum.py: FastIntEnum.__new__'])
p('C94', 'CCGBank files are read as the derivations in them', 'For every derivation, sentences2trees of its text in the CCGBank format gives the tree of the same shape, whose leaves are the words in their order without escape codes, whose types are the mapped categories and whose rules fit the types; a batch is read one sentence at a time; with suppress_exceptions it never raises and a failing sentence is None; a section gives each ID its tree, in the order of the files.', 'all derivations of any size, all batches, all sections with any number of files and entries, and for the error behaviour all strings', 'derivations, batches and files are unbounded, and the reader relies on positions computed while reading', ['lambeq/text2diagram/ccgbank_parser.py: CCGBankParser.sentences2trees, _build_ccgtree, _map_atomic_type, section2trees, section2trees_gen'])
p('C95', 'A PennyLane circuit evaluates to the value of the diagram', "For every circuit of preparations in the state 0, supported gates with any controls' distances, swaps, scalars (no two in succession) and post-selections, to_pennylane(d).eval() is the array of the entries of d.eval(), with an axis for each open qubit in the order of the outputs; with probabilities=True and real scalars it is the array of their squared absolute values; with discarded qubits and post-selections on 0 it is the trace of d.eval() divided by the squared absolute value of the scalars.", 'all circuits of this form with any number of qubits, gates, parameters and post-selections', 'numbers of qubits and gates and the angles are unbounded; the conversion renumbers wires and selects indices of the state vector', ['lambeq/backend/pennylane.py: to_pennylane, extract_ops_from_circuital, PennyLaneCircuit.get_valid_states, make_circuit, post_selected_circuit, eval'])
p('C96', 'A drawing shows the diagram: straight wires, no overlaps, the right connections', 'For every well-typed diagram, the layout computed for drawing has the boxes of the diagram in order; every input of a box and every output of the diagram has exactly one wire, from the place where this wire of the diagram comes from; wires are vertical lines that go down; inputs, outputs and the wires on each side of a box are in the order of their types, at least one wire spacing apart; no two boxes overlap and no wire passes through a box; the drawing begins at x = 0 and is centred on y = 0. Only the empty diagram cannot be drawn.', 'all well-typed diagrams without frames, with any number of boxes and wires, foliated or not', 'each box moves everything drawn before it; that no overlap or crossing arises is a property of all sequences of such moves', ['lambeq/backend/drawing/drawable.py: DrawableDiagram.from_diagram, _make_space, _add_box, _find_box_edges, _move_to_origin, BoxNode.get_x_lims'])
p('C97', 'Printing a pregroup diagram as text shows its words, types, cups and swaps', 'For every pregroup diagram, the text printer prints a header with each word over its types, in blocks word_spacing apart, and below it a picture in which every type has its own column; every cup and swap of the diagram is drawn between neighbouring columns, bars continue the other wires, what is drawn in one layer does not overlap, the cups join exactly the strands that the diagram joins, and the columns at the bottom are its outputs in order. With compress_layers no cup or swap could be one row higher; without, there is one layer for each. Each wire starts at the middle of its type. Everything else raises ValueError.', 'all well-typed pregroup diagrams, printers (spacing, separators, character sets, compression) and names', 'moving cups and swaps up to earlier rows is right only if it never changes what is connected; the lines are built by padding strings, so one wrong width shifts everything to its right; this depends on every combination of names, types and crossings', ['lambeq/backend/drawing/text_printer.py: PregroupTextPrinter.diagram2str, _draw_layer'])
p('C98', 'A PennyLane model predicts the normalised values of its diagrams', 'For a PennyLaneModel made from diagrams, putting the trained weights in the circuits gives the circuits of the diagrams with those numbers, and the forward pass over a batch returns one row for each diagram in order: with probabilities and normalisation the Born rule of its value, normalised to a distribution; with states and normalisation its value as a unit vector; without normalisation the probabilities or the value. Symbols may be scaled. Unknown diagrams raise KeyError.', 'all batches of diagrams, weights, and settings of probabilities and normalize', 'the result of a batch mixes weight lookup by symbol, evaluation of each circuit, normalisation and stacking; each can be wrong for only some symbols, shapes or weights', ['lambeq/training/pennylane_model.py: PennyLaneModel.from_diagrams, initialise_weights, get_diagram_output, forward', 'lambeq/backend/pennylane.py: extract_ops_from_circuital, PennyLaneCircuit.initialise_concrete_params, param_substitution'])
p('C99', 'Importing a tket circuit preserves what it measures', 'from_tk of a tket circuit with operations that lambeq knows, measurements at the end, post-selected bits and a scalar gives a diagram without inputs and with one bit for each bit that is not post-selected, whose eval(mixed=True) at the values of these bits is |scalar| times the probability of the bitstring. Importing the export of a diagram gives a diagram with the same value.', 'all tket circuits with any number of qubits, bits and operations, all angles, post-selections and scalars; all diagrams that can be exported', 'the position of every box depends on the qubits of all operations, and the two numberings (qubits, bits) agree in small tests; only a proof over all circuits separates them', ['lambeq/backend/converters/tk.py: from_tk, Circuit.upgrade, to_tk'])
p('C100', 'Models on a tket backend predict the distribution of the outputs', 'TketModel can be made exactly when the fields backend, compilation and shots are given, otherwise KeyError. forward raises ValueError without weights or symbols; otherwise it returns one row per diagram, in order, and a row does not depend on the other diagrams of the batch. On a backend that returns exact probabilities the row is the distribution of the measured outputs given that the post-selections succeed, the same as the prediction of NumpyModel; it is computed with the configured number of shots.', 'all configurations, batches, circuits with any number of qubits, gates, post-selections and discards, all backends', 'whether a prediction is right depends on how the circuit numbers qubits and bits, which agree in small tests; tests check shapes and that numbers are close on sampled backends', ['lambeq/training/tket_model.py: TketModel.__init__, get_diagram_output, forward', 'lambeq/backend/quantum.py: Diagram.eval', 'lambeq/backend/converters/tk.py: Circuit.get_counts'])
p('C101', 'Durations are shown correctly', 'normalise_duration shows days, hours, minutes and seconds that add up to the duration, up to half a second (half a hundredth of a second below a minute). For durations that are not negative hours are below 24, minutes below 60, and the units come in order, each at most once.', 'all durations', 'rounding at the ends of minutes is missed by tests on chosen durations', ['lambeq/core/utils.py: normalise_duration'])
p('C102', 'Pregroup trees can be read off diagrams', 'For a well-typed pregroup diagram (words, then cups and swaps) with a cup or swap, diagram2tree returns a tree exactly when all outputs come from one word, which is then the root, with the codomain as its type; otherwise it raises ValueError. Every simple type of every child is one cup: the type of its wire at the child, joined with a wire at the parent; no cup is used twice, and no cup that is left out has a wire at a word of the tree. For a diagram that tree2diagram made from a projective tree without empty types, whose words are the tokens, and whose root has a child, it returns that tree up to the order of children.', 'all well-typed pregroup diagrams without caps; all projective trees and token lists', 'the result depends on how wires run through swaps and on the order in which cups are met; round trips are checked in tests for single sentences', ['lambeq/text2diagram/pregroup_tree_converter.py: diagram2tree, _construct_tree, tree2diagram'])
p('C103', 'break_cycles leaves every word in the tree exactly once', 'For a well-typed pregroup diagram from which diagram2tree reads a tree that has all words before the root, and the root once, diagram2tree with break_cycles returns a tree with the same root that has every word of the first tree exactly once and no edges but edges of the first tree. A tree without repeated words is not changed by remove_cycles. If the root is repeated, remove_cycles raises AssertionError.', 'all well-typed pregroup diagrams without caps; all trees', 'copies of words arise at any depth and in any number, and the removal of one copy moves the positions of the others; tests have single sentences', ['lambeq/text2diagram/pregroup_tree_converter.py: diagram2tree(break_cycles), remove_cycles usage', 'lambeq/text2diagram/pregroup_tree.py: PregroupTreeNode.remove_cycles, get_nodes, get_depth, remove_self_cycles'])
p('C104', 'The Oncilla parser gives every word one type and one other word, or the root, as its parent', 'For every sentence without the word "[ROOT]" of which every word has a piece in the tokeniser\'s output, and for all scores of the model, there is one type per word (the best one at its first piece) and one parent per word, which is the root or another word. If exactly one word has the root as its best parent, all words get their best parents; otherwise the word with the highest score for the root becomes the root and all others get their best parent among the words, provided that [SEP] does not have a higher score for the root. There is never more than one root, and there is one unless [SEP] has that score. If the parents have no cycle, the words form one tree. If a word is "[ROOT]" or has no piece, AssertionError is raised.', 'all sentences, all ways to cut words into pieces, all tables of scores', 'scores are real numbers from a network; the forced root is only needed for rare tables; tests use a few sentences with one fixed model', ['lambeq/oncilla/parser.py: BertForSentenceToTree._sentence2pred, _get_parent_preds_with_forced_root, prepare_parent_logits_mask', 'lambeq/text2diagram/pregroup_tree_converter.py: generate_tree, root_not_assigned, has_multiple_roots_assigned'])
p('C105', 'The web parser sends every sentence once and returns its answers in order', 'For every service, whose answers may depend on what was asked before: with suppress_exceptions, WebParser.sentences2trees returns one entry per sentence, None for blank sentences (which are not sent) and for failed requests, and otherwise the tree of the answer to that sentence; every other sentence is sent exactly once, in order. Without it, a blank sentence raises ValueError before anything is sent, and the first failed request raises its error (WebParseError for answers that are not JSON) after exactly the requests up to it. Sentences of the wrong type raise ValueError and nothing is sent. Unknown service names raise ValueError.', 'all batches of sentences, all services and histories of answers', 'which requests fail, and where blank sentences are, can be combined in infinitely many ways; tests replace the service by a mock with one answer', ['lambeq/text2diagram/web_parser.py: WebParser.__init__, sentences2trees'])
p('C106', 'Drawings of pregroup diagrams show the diagram: words in a row, straight wires, nothing in the way', 'For every well-typed pregroup diagram with at least one wire, draw_pregroup lays out a drawing (for all positive scales and all pads) in which: the words stand side by side at equal distances and equal height, with their wires at equal distances; every cup and every swap is below the words and centred between the two wires it joins; the wires join the boxes exactly as in the diagram, and the outputs come last; every wire goes straight down; two cups or swaps are beside each other or the later one is below the earlier one; and no wire runs through a cup or a swap. Diagrams that are not pregroup diagrams raise ValueError.', 'all well-typed pregroup diagrams, any number of words, wires, cups and swaps; all scales above 0 and all pads', 'whether wires and boxes collide depends on how cups and swaps are nested; tests compare the coordinates of a few sentences', ['lambeq/backend/drawing/drawable.py: DrawablePregroup.from_diagram, DrawableDiagram.scale_and_pad, DrawableDiagram._move_to_origin', 'lambeq/backend/drawing/drawing.py: draw_pregroup'])
p('C107', 'Conversion to DisCoPy keeps the diagram, and converting back restores it', 'to_discopy turns every well-typed grammar diagram, tensor diagram and circuit of named gates into the DisCoPy diagram with the same types, the same boxes (names, data, winding numbers, daggers) and the same wires, and commutes with @, >> and dagger(); from_discopy of the result is the diagram itself, including which cups and caps are reversed; and a grammar diagram of DisCoPy converted to lambeq and back is unchanged.', 'all well-typed grammar diagrams, tensor diagrams and circuits of convertible boxes; all well-typed grammar diagrams of DisCoPy with words without inputs', 'tests compare a handful of diagrams; whether a reversed cup, a winding number or a dagger survives depends on every box and every object', ['lambeq/backend/converters/discopy.py: to_discopy, from_discopy', 'lambeq/backend/grammar.py: Diagram.to_discopy, Diagram.from_discopy'])
p('C108', 'The command line does what its arguments say', 'The arguments of a run are those of the command line, else those of the loaded file, else the defaults; stored and loaded again they are unchanged; exactly the documented combinations are accepted, and others have no effect at all; key=value options take the last value given, else the default; each sentence that can be parsed yields one output, in order, processed on its own; text shows pregroup diagrams only; images go to distinct files in alphabetical order; and accepted arguments do not fail for reasons that lie in the arguments.', 'all command lines and argument files, all texts, all parsers, readers, rewriters and ansaetze, all numbers of sentences', 'tests run some two dozen command lines on one or two sentences; argument files, the order of files with more than nine images and most combinations of arguments are never tried', ['lambeq/cli.py: main, validate_args, ArgumentList, ArgumentListValidator, FileReaderModule, ParserModule, RewriterModule, AnsatzModule, CCGTreeSaveModule, DiagramSaveModule'])
p('C109', 'A printed CCG derivation shows the derivation', 'deriv prints the words in order in the first line, three lines and two more for each level; children side by side with the spacing asked for, a line with the symbol of the rule and the centred type below them, all lines equally long; vertically one line for each subtree in reading order, with bars exactly below nodes that have siblings to come; use_ascii prints ASCII only; and printing never fails.', 'all CCG trees of any shape, all words, types and rules, all spacings and options', 'the methods are excluded from coverage and have no tests; alignment depends on the widths of all subtrees, which a few sentences do not vary', ['lambeq/text2diagram/ccg_tree.py: CCGTree.deriv, _horiz_deriv, _vert_deriv', 'lambeq/text2diagram/ccg_rule.py: CCGRule.symbol'])
p('C110', 'Trees from DepCCG keep words, types and rules', "The CCG tree made of a depccg derivation has its shape, its words and its categories without features, so two categories get the same type iff they differ in features only; each node has the rule that depccg's operation names; a derivation in which each step follows a schema up to features is always converted, and each step of the tree follows the schema of its rule.", 'all depccg derivations and categories of any size, all operation strings', 'depccg is not installed where the tests run, so they convert no tree at all', ['lambeq/text2diagram/depccg_parser.py: DepCCGParser._to_biclosed, _build_ccgtree'])
p('C111', 'Dependencies, tags and words of a parse result', "The dependencies of every Bobcat parse tree are exactly those its rules filled, ordered by head and filler, between words of the tree, and each comes from its head word's category, a conjunction or a type changing rule; applying a category to a phrase fills the open dependency of an atomic argument with the heads of the phrase; a tree has one tag per word, in order. The dependencies and tags of a ParseResult are those of its best tree or of trees that tile the sentence, longest and best first; there is one tag per word and nothing is raised.", 'all trees made by the constructors of tree.py with any categories, rules and unifications; all charts', 'the functions are excluded from coverage and from the tests (pragma: no cover)', ['lambeq/bobcat/tree.py: Dependency, ParseTree.deps_and_tags, Lexical, Coordination, TypeChanging, PassThrough, TypeRaising, BinaryCombinator', 'lambeq/bobcat/parser.py: ParseResult'])
p('C112', 'Every word gets the scores of its own first sub-token', 'Whatever the other sentences of a batch are, the row for words number i comes from the state at the first sub-token of the word i, and the row for spans number span2idx(x, y) from the states at the first sub-tokens of x and y, if the tokenizer gives every word at least one sub-token of which exactly the first starts the word, and that sub-token is within the limit of the model. All sentences of a batch get the same number of rows; the rows too many are made from the special token in front.', 'all batches, tokenizations, networks, limits and earlier calls for other lengths', 'depends on how the words of all sentences of a batch are split; the tests have no network', ['lambeq/bobcat/tagger.py: Tagger.prepare_inputs, BertForChartClassification.forward, get_chart_spans, span2idx'])
p('C113', 'Printed pregroup trees, height and equality', 'draw prints one line for each node of a pregroup tree, parents first and children in order, behind two characters for each step from the root; different trees print differently, if words have no newline and names of types no newline, dot, at sign or bracket. The height is the number of nodes on the longest path from the root. Two trees are equal just when the parents of their roots have the same index and they are the same up to the order of children, if no two children of a node have the same index.', 'all trees of any shape and size', 'the drawing characters of every level depend on all levels above; the tests compare one tree', ['lambeq/text2diagram/pregroup_tree.py: PregroupTreeNode.__repr__, __eq__, _tree_repr, draw, height'])
p('C114', 'Equality of tensor boxes and diagrams', 'Comparing two tensor boxes or diagrams raises nothing, and equal boxes are the same box: they have the same type, hash and array; equal diagrams have the same types and layers.', 'all boxes, daggered any number of times, with any data, and all diagrams of them', 'equality is used by every test itself; its failures need particular windings, shapes or names', ['lambeq/backend/tensor.py: Box.__eq__, Box.__hash__, Box.__repr__, Daggered.__eq__', 'lambeq/backend/grammar.py: Layer, Diagram (generated equality)'])
p('C115', 'Decoding by a category, once and again', 'A category decodes what it encoded, whatever kind of entity it is, and an argument given as text can be decoded any number of times; a dictionary should be decodable again too.', 'all types, boxes, layers and diagrams, all dictionaries, whatever the first attempt gives', 'tests decode each dictionary once, so what is left of it is never seen', ['lambeq/backend/grammar.py: Category.from_json, Ty.from_json, Box.from_json, Layer.from_json, Diagram.from_json'])
p('C116', 'Pictures in TikZ', 'Whatever is drawn with the TikZ backend, nodes have different numbers, every wire and polygon has one line, in order, which refers to nodes at its own places, declared before it; and every wire is drawn with its own style.', 'all sequences of calls of the backend: nodes, texts, polygons, wires and spiders, at any coordinates', 'tests compare the output for a few diagrams with stored files; errors need coinciding coordinates or several wires of one color', ['lambeq/backend/drawing/tikz_backend.py: TikzBackend'])
p('C117', 'From a diagram to a picture', 'Drawing a diagram with the TikZ backend shows every box as a polygon that has the ends of its wires on its lower and upper side, every wire as a line between its ends, nothing else, and uses no node before it is declared, whatever the labels, paddings and scales.', 'all diagrams without frames, all layout options and all label options', 'tests compare the output for a few diagrams with stored files; errors need coinciding coordinates or unusual options', ['lambeq/backend/drawing/drawing.py: draw, _draw_box, _draw_wires', 'lambeq/backend/drawing/drawable.py: DrawableDiagram.scale_and_pad', 'lambeq/backend/drawing/tikz_backend.py: TikzBackend'])
with open('/verif/properties.jsonl','w') as f:
    for x in P: f.write(json.dumps(x)+'\n')
print(len(P))
