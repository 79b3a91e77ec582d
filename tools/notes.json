{
 "C01": {
  "note": "Raw dataclass model (RTy) refined to lists of atoms; C01_canonical: every constructor output is canonical."
 },
 "C03": {
  "status": "partial",
  "note": "Laws proved for the documented index ranges; insert at a negative index on an atomic type drops the receiver (refuted); replace at index len(t) characterised."
 },
 "C04": {
  "note": "Built = inductive closure of the modelled API, incl. functor application with API-built images. Frames are separate (C23)."
 },
 "C10": {
  "note": "d[::-1] == d.dagger() proved; partial reverse slices are ill typed (witness), so the second half of the property is false of the code."
 },
 "C13": {
  "status": "partial",
  "note": "Proved for is_reversed=False; for is_reversed=True compound types raise ValueError (refuted with a general theorem)."
 },
 "C15": {
  "note": "curry(0, left=True) curries the whole domain: C15_curry_zero."
 },
 "C16": {
  "note": "C16_pregroup holds whenever a diagram is returned (the box-per-morphism clause needs in-range indices: out-of-range ones add an empty morphism); C16_wiring: non-crossing adjoint cups always succeed and join exactly the requested wires."
 },
 "C19": {
  "note": "Proved for boxes/words always and for structural boxes when types map to at most one wire; refuted in general."
 },
 "C20": {
  "note": "Transparent when the user's ar respects types; otherwise a failed type check leaves the ill-typed arrow in the cache and the second call returns it (refuted)."
 },
 "C21": {
  "note": "Values are the dicts of to_json; the json text layer is trusted. Types quantified as canonical types (C01)."
 },
 "C22": {
  "note": "Exact characterisation of what survives the round trip; Daggered(non-plain box) and frames with word/plain-box components raise KeyError (refuted)."
 },
 "C23": {
  "note": "Every rotate call reverses the components, so rotation is only an action up to that reversal (refuted in general); l/r are inverse; action holds when frames have at most one component."
 },
 "C24": {
  "note": "Meaning = matrix under every interpretation of objects and boxes in every commutative semiring (Semantics.lean)."
 },
 "C25": {
  "status": "partial",
  "note": "Proved when all cups/caps have one orientation; refuted for mixed orientation (find_snake ignores is_reversed). Includes termination, no exception, no snake left."
 },
 "C26": {
  "status": "partial",
  "note": "Proved (with termination) for one orientation of cups/caps; pregroup_normal_form for diagrams without inputs, refuted with inputs (ValueError)."
 },
 "C27": {
  "status": "proved",
  "note": "C27_parse_iff_grammar characterises parse completely by a small grammar. Findings kept as theorems: some malformed strings raise AssertionError instead of CCGParseError (C27_refuted_parse_error); the empty category prints as () which does not parse (C27_refuted_empty)."
 },
 "C28": {
  "status": "proved",
  "note": "toTy homomorphic, replace/replace_result/split consistent with it. Finding: the translation is not injective (C28_refuted_injective)."
 },
 "C29": {
  "status": "partial",
  "note": "C29_wellTyped for all premises; C29_apply: exact domain/codomain for every instance of every rule schema. apply does not check its premises, so the codomain claim fails for unlicensed ones (refuted), and GBC with an empty argument type drops wires (refuted)."
 },
 "C30": {
  "status": "partial",
  "note": "Soundness, completeness and apply-ability of infer_rule; LP/RP are returned without checking the conclusion (refuted)."
 },
 "C31": {
  "status": "partial",
  "note": "Sound for conclusions of the rule's shape (C31_resolve_sound), identity on licensed steps (C31_resolve_stable); unsound when the slash or raised form of the conclusion differs (refuted)."
 },
 "C32": {
  "status": "partial",
  "note": "Total correctness for all proper derivations, with and without collapse_noun_phrases and (without generalised crossing) planar; partial correctness for arbitrary trees; planar never crosses wires. Refuted: planar generalised crossed composition loses words, unary slash-swaps raise, nested punctuation raises. Type-changing unary and punctuation rules over phrases: C32_type_changing; refuted over a modifier that changes direction (C32_refuted_change_over_modifier)."
 },
 "C35": {
  "status": "proved",
  "note": "C35_rewriter: success, types, well-typedness and box-by-box description (first matching rule wins, else unchanged) for all diagrams and rule lists that behave on the boxes shown to them; C35_types_always needs no hypothesis on the rules; C35_repeated covers the functor cache. Beyond the claim, C35_refuted_add_rules_after_use: add_rules after first use does not affect cached boxes."
 },
 "C36": {
  "status": "proved",
  "note": "All ten named rules, Rewriter() and CollapseDomainRewriteRule; str.lower is an arbitrary function. Beyond the claim, C36_refuted_box_with_inputs: rules compare only the codomain, so a matching box with inputs makes the rewriter raise TypeError."
 },
 "C55": {
  "status": "proved",
  "note": "Words are compared with winding number undone (as the functor does). Beyond the claim, C55_refuted_rotated_word: from_diagrams counts rotated words with their rotated type, so a vocabulary may not cover the diagram it was built from."
 },
 "C57": {
  "note": "Typing, box accounting and meaning proved whenever a diagram is returned; totality proved for at most one bend per diagram; refuted in general: merged cup tokens that span misaligned words raise ValueError."
 },
 "C59": {
  "note": "Full result for diagrams in which no cup joins two wires of one word; with such detached cups the code returns a wrong codomain or raises IndexError (refuted)."
 },
 "C34": {
  "note": "Readers whose tokeniser, parser and MERGE-box naming are parameters; typing for every sentence, plus names of all boxes (C34_box_names). The stairs reader on an empty sentence returns Id() (refuted beyond the claim)."
 },
 "C37": {
  "note": "Batches partition the shuffled data in order; shuffle is an arbitrary permutation source."
 },
 "C38": {
  "note": "Exact characterisation of when training stops early; plateau/zero-interval behaviour kept as theorems."
 },
 "C39": {
  "note": "Exact history lengths and call accounting for every run; epochs=0 and evaluation interval 0 raise ZeroDivisionError (refuted)."
 },
 "C40": {
  "note": "Resume = uninterrupted run for the model/optimizer state, training losses and validation history, when seeded and not stopped early; refuted for best_model, running train metrics, seed None and early-stopped runs."
 },
 "C41": {
  "note": "Round trip and crash points of the checkpoint file; opening with 'wb+' truncates first, so a crash loses the previous checkpoint (refuted)."
 },
 "C42": {
  "note": "Floats are exact field elements plus inf/nan. Refuted: degenerate bounds give NaN, weights outside bounds, zero_grad/step order, load_state_dict hyper-parameters."
 },
 "C43": {
  "note": "Exact field arithmetic, argsort an arbitrary sort. All three clauses proved for every history; also evaluation counts, moves, single-loss optimality. Beyond the claim, refuted: weights of symbols absent from a batch become 0; reported losses are stale across batches; a parameter at a positive upper bound is never moved.",
  "status": "proved"
 },
 "C44": {
  "note": "SPSA (C42_state_dict) and Nelder-Mead; refuted when hyperparameters differ: load_state_dict restores `adaptive` but not the coefficients, and SPSA does not restore the hyperparams used in later updates.",
  "also": [
   "Lambeq.Train.C42_state_dict",
   "Lambeq.Train.C42_refuted_load"
  ]
 },
 "C45": {
  "status": "proved",
  "note": "Refinement to dynamic scope for all programs with nested contexts, set_backend, exceptions and handlers. Beyond the claim: interleaved (threaded) use is wrong because the stack is process-global (C45_refuted_threads)."
 },
 "C60": {
  "note": "The computed angle is a minimiser for all sinusoids; the projection abs(x) % 1 is only right for x >= 0, otherwise the loss is |A| cos 2B + C (refuted: from weight 0 the loss sin(2 pi x) is maximised)."
 },
 "C46": {
  "status": "proved",
  "note": "Proved for every beam size >= 1 and every history of add calls; scores in a linear order (no NaN). With beam 0 the first add raises IndexError (C46_refuted_beam_zero); `added` counts replacements as additions."
 },
 "C47": {
  "status": "proved",
  "note": "== is characterised by the shape for all hash functions, matches by instances. Kept refutations: S[X]==S but S[X].matches(S) is False; Category() equality is not symmetric under a hash collision."
 },
 "C48": {
  "status": "partial",
  "note": "Proved for application, composition, generalised forward/crossed composition and combine up to unification; refuted: with a feature conflict inside unification the last feature wins; generalised backward composition returns a copy of the left category."
 },
 "C61": {
  "status": "proved",
  "note": "Refuted beside it: a word without supertags makes the result a parse of the prefix with an unfiltered root category."
 },
 "C62": {
  "status": "proved",
  "note": "Unmarked categories raise KeyError (refutation kept)."
 },
 "C64": {
  "status": "partial",
  "note": "Bobcat and single-sentence parts proved in full. Refuted: DepCCG with tokenised=True deletes the empty sentences from the list of the caller; Oncilla raises although suppressed when remove_cycles fails."
 },
 "C65": {
  "status": "proved",
  "note": "For every history of the global memo. int((2i)**0.5) is modelled as the exact integer square root."
 },
 "C66": {
  "status": "partial",
  "note": "Tags and batch splitting proved in full. Spans proved when the first row of span scores shares no entry with the first tag row; refuted in general: output_batch == tag_output compares by value, so category 0 can be reported."
 },
 "C52": {
  "status": "partial",
  "note": "Proved for dimensions of at least one; refuted for zero, which is dropped like a one. The consistency of array shapes is part of C67."
 },
 "C53": {
  "status": "partial",
  "note": "Both snakes are the identity in dimension 1 and 2; refuted in every dimension from 3 on (Cap sets only the first and last entry of its array). Also: flat data evaluate but raise once rotated."
 },
 "C67": {
  "status": "proved",
  "note": "Contraction by tensornetwork is specified by its documented meaning; exact commutative star semiring instead of floats."
 },
 "C68": {
  "status": "partial",
  "note": "Conjugates (rotate) proved in full; adjoints proved when cups and caps have dimension at most 2; refuted for a cup of dimension 3."
 },
 "C69": {
  "status": "partial",
  "note": "Proved when no symbolic box is rotated; refuted for rotated boxes: Box.lambdify drops the winding number."
 },
 "C50": {
  "status": "partial",
  "note": "Proved for every nesting of controls over a one-qubit gate and for apply_gate with 0, 1, 2 controls. Refuted for uncontrolled gates on several qubits: circuit.SWAP(0, 2) swaps the qubits 0 and 1."
 },
 "C70": {
  "status": "partial",
  "note": "Qubit types in full. Missing: bit types, where generate_cap is wrong (C70_refuted_bits)."
 },
 "C71": {
  "status": "partial",
  "note": "Holds for all circuits whose Sqrt boxes are off the negative real axis; C71_refuted_sqrt shows the exception."
 },
 "C74": {
  "status": "partial",
  "note": "Holds for all circuits whose swaps of bits have as many bits as qubits to their left; swaps of a bit with a qubit, Bit boxes and daggers of is_mixed boxes are refuted (C74_bitSwap_refuted, C74_bitSwap_wrong_refuted, C74_mixedSwap_refuted, C74_bit_refuted, C74_mixed_dagger_refuted). Controlled versions of is_mixed boxes are not modelled."
 },
 "C49": {
  "status": "partial",
  "note": "Full statement for sizes in qubits and non-negative ancillas (C49_circuit, C49_postselect, C49_computational, C49_discard, C49_ar, C49_unknown). StronglyEntanglingAnsatz needs ranges that are smaller than, and not a multiple of, the number of qubits; a larger one raises (C49_large_range). Negative ancillas give the wrong number of wires (refuted). Object maps to other types than powers of qubit are not modelled."
 },
 "C54": {
  "status": "proved",
  "note": "Model of `_split_ar` (both classes), of the split functor and of the constructors. The dimensions play no role for splitting. C54_refuted_shared records that pieces of different boxes can be the same box (shared parameters); this is not part of the statement."
 },
 "C72": {
  "status": "partial",
  "note": "Proved for circuits whose boxes are gates with the conjugation structure the module declares (all constant gates, rotations, controlled versions, Ket/Bra, swaps). Refuted: Scalar and Sqrt boxes (hence cups, caps and spiders of qubits) raise ValueError, Bit raises TypeError, and a rotated plain box forgets its flags."
 },
 "C76": {
  "status": "proved",
  "note": "Type names must be plain (non-empty, without _ . @); the four confusions with other names are proved as C76_label_injective_refuted."
 },
 "C77": {
  "status": "partial",
  "note": "Proved for post-selecting ansätze (pure circuits) with qubit types. Spiders on two or more qubits raise NotImplementedError (C77_refuted_spider); remove_cups and normal_form only when they return a diagram; circuits with discards, and ob_map values other than numbers of qubits, are not covered."
 },
 "C51": {
  "status": "partial",
  "note": "The export is proved for all diagrams of the named form (C51_export); equality on an exact backend holds when post-selected qubits are measured into the bits with their own numbers and the others from left to right (C51_backend_partial, C51_backend_ltr_partial). Refuted: post-selection keyed by qubit but read as bit number, order of bits, Ket(1), gates after the last post-selection, discards left of a post-selection, phase 0, CRy, CY, CCZ, conjugated S."
 },
 "C56": {
  "status": "proved",
  "note": "Proved for all counts and all post-selections of existing bits; that the post-selected keys are not always bits is refuted under C51 (C51_refuted_discard)."
 },
 "C78": {
  "status": "partial",
  "note": "Order of the symbols deterministic only if no two share a name: Symbol comparison ignores the dimensions, so symbols with the same name and different sizes come in the iteration order of a set (C78_refuted_same_name). PennyLane models not covered."
 },
 "C79": {
  "status": "partial",
  "note": "QuantumModel fully; PytorchModel for boxes without Controlled and symbols with scale 1 (C79_torch_partial), since it looks scaled symbols up without removing the scale (C79_refuted_torch_scaled). Weights are exact ring elements."
 },
 "C80": {
  "status": "partial",
  "note": "NumpyModel. Scalars are not normalised (C80_refuted_scalar); with discarded qubits the prediction has two axes per qubit and is the absolute value of the density matrix (C80_density, C80_refuted_discard); loading a checkpoint with another order of symbols leaves compiled functions stale (C80_refuted_jit_load). Arithmetic is exact."
 },
 "C81": {
  "status": "proved",
  "note": "Exact real arithmetic in place of floats. NumPy/JAX broadcasting is reduced to arrays of equal shape."
 },
 "C82": {
  "status": "partial",
  "note": "A node with an edge to itself next to other nodes is left out of the contraction (C82_refuted_loop); a save file that does not exist becomes a directory and the first contraction raises (C82_refuted_new_file); a crash while saving loses or damages the file (C82_refuted_crash). opt_einsum is assumed to return pairwise paths that contract all nodes; tensornetwork by its documentation."
 },
 "C83": {
  "status": "partial",
  "note": "Caps on dimensions of at least three evaluate to a matrix with only two ones (C83_refuted_snake); a spider without legs evaluates to 1 (C83_refuted_spider); flat data of a conjugated word raise (C83_refuted_flat). Daggers of boxes other than plain boxes and words, and frames, are not covered. Symbols are substituted before the functor is applied."
 },
 "C63": {
  "status": "partial",
  "note": "Conversion of categories, steps and trees is total and faithful (C63_categories, C63_rules, C63_build); the diagram theorem asks that punctuation and connectives are single words, that type-changing rules apply to phrases with a head word on which the new category can be unloaded, and that generalised backward composition has a right category S\\\\Y. C63_refuted_adjectival_conjunction: conj N => N is labelled as application."
 },
 "C73": {
  "status": "proved",
  "note": "Proved as stated (C73_gates, C73_isometry, C73_unitary, C73_trace, C73_probabilities, C73_ansatz*). The two theorems named refuted mark the border: MixedState is not normalised, and post-selection does not renormalise."
 },
 "C84": {
  "status": "partial",
  "note": "Proved for circuits of initialisations, post-selections and discards of single qubits, boxes with at most one input and as many outputs, swaps of qubits with only qubits to their left, and one-qubit gates with controls all to the left or with one or two controls all to the right (C84_to_circuital), and for the export (C84_to_tk) when the measurements come last. Outside of this class the claim is false: the refuted theorems give the empty circuit (IndexError), controls on both sides or three controls to the right (distances not adapted), other gates on several qubits (silently dropped) and swaps with bits to their left (ValueError)."
 },
 "C85": {
  "status": "partial",
  "note": "JSON round trip, equality, structure of without_trivial_unary_rules proved in full for every reachable tree. False and refuted: the height after without_trivial_unary_rules, the text when an explicit text differs from the words (partial theorem for coherent texts), and the documented null children in from_json."
 },
 "C86": {
  "status": "partial",
  "note": "Full description of the result for projective trees without the special auxiliary type (C86_tree2diagram_partial); for all trees that the result, if any, is a well-typed pregroup diagram with the tokens (C86_result_is_pregroup). Refuted for non-projective trees: a five-word tree raises ValueError. Not proved: the wiring for non-projective trees that succeed and for trees with the auxiliary type. Left out: no_morphisms, drawing, generate_tree and the inverse direction."
 },
 "C87": {
  "status": "partial",
  "note": "Proved for all trees (get_nodes), all trees numbered 0 to n-1 with readable types (round trip), all acyclic parent lists (generate_tree), merge. Refuted: empty types and names with dots are not read back; after merge the parents list no longer fits its positions and generate_tree refuses it; a token that has one parent twice loses what hangs below it. Not modelled: generate_tree on cyclic parents or tokens without parents."
 },
 "C88": {
  "status": "partial",
  "note": "Proved for all texts whose sentence diagrams map as many noun wires as they have nouns and whose first sentence has a noun; refuted for texts whose first sentence has none: max() of an empty list raises ValueError. Nothing but ValueError can be raised."
 },
 "C89": {
  "status": "partial",
  "note": "Proved for all trees: types, nouns, words kept, existence and typing of sandwiches, their nouns and linear maps, circuits of texts of frames. Refuted: a word whose nouns are pruned disappears, with its whole subtree; the noun added for a free wire gets the index of the last word and so merges with a noun there; frames of a root of another type do not fit."
 },
 "C90": {
  "status": "partial",
  "note": "Proved for all trees and rules: exact effect of a rule, type, nouns, text, reindexing total and right where the words of the tree are words of the sentence in order. Refuted: merging puts a modifier that comes after its noun first ('here man'); the determiner rule (depth 1) is not idempotent; one token of the tree that is not in the sentence sends it and all later tokens out of range."
 },
 "C91": {
  "status": "partial",
  "note": "Proved for all inputs: exact dictionary, exact set of pruned tokens, heads of spans, trivial clusters, circuits of texts with frames. Refuted: overlapping clusters split an entity; a second mention in one sentence is not pruned and brings the entity back; min_noun_freq prunes by word, so that a frequent entity with the same word as a rare one goes and the rare one stays."
 },
 "C92": {
  "status": "partial",
  "note": "Proved for one published release, without force_download and with an archive without version.txt; updates proved from any state without a crash. Refuted: offline after a crash in the first download the incomplete model is loaded silently; a crash during an update or a forced download leaves mixed or truncated files under the old version, which is then taken for fresh; a connection error during the archive download is not turned into ModelDownloaderError, so that there is no fall-back."
 },
 "C93": {
  "status": "partial",
  "note": "str round trip proved in full. repr round trip proved where complex parts are marked; refuted otherwise: an unmarked complex part whose argument ends in a mark is written without parentheses (S/NP{Y}\\NP{Z}) and reading it raises AssertionError. Also: any character is taken for a slash."
 },
 "C94": {
  "status": "partial",
  "note": "Round trip, words, batches, sections and dictionary proved in full. Refuted: with suppress_exceptions a sentence with text after the derivation gives a tree, not None; one character after the last bracket is ignored; the number of children is not checked; a missing space after an inner node makes the text unreadable; an ID on the last line raises RuntimeError even with suppress_exceptions. Diagrams of a section: C94_diagrams_suppressed, C94_diagrams_raised, C94_diagrams_dictionary."
 },
 "C95": {
  "status": "partial",
  "note": "Proved for all circuits of the stated form that are circuital. Refuted elsewhere: two successive scalars raise KeyError; complex scalars with probabilities raise; adjoints are read as the gates themselves; phase 0 and CRy raise TypeError; gates with two controls raise KeyError; Ket(1) counts as Ket(0); with discards the scalars are dropped and a post-selection on 1 is made on 0. Circuits with symbols and devices other than the default are not modelled."
 },
 "C96": {
  "status": "partial",
  "note": "Connections, order, straight wires, position and totality hold for all well-typed diagrams; no overlap of boxes and no wire through a box hold with foliated=True, or when there is a wire at every layer after the first. Refuted otherwise: when all wires have ended, the next box is drawn at (0, 0), on top of an earlier one (C96_refuted_overlap)."
 },
 "C97": {
  "status": "partial",
  "note": "Header, picture, connections, outputs and compression hold with word_spacing >= 1 and non-empty type names (C97_picture, C97_header, C97_only_pregroup). Alignment with the types holds unless a name of odd length is longer than a type string of even length (C97_aligned_partial); refuted then (C97_shift_refuted). With word_spacing=0 swaps are misaligned (C97_no_spacing_refuted)."
 },
 "C98": {
  "status": "partial",
  "note": "Holds for circuital diagrams without discards whose symbols are not scaled and whose weights are not 0 (C98_convert, C98_weights_partial, C98_born_partial, C98_distribution, C98_plain_partial, C98_errors). Refuted: scaled symbols raise KeyError (C98_refuted_scaled); normalised states have norm 1/norm (C98_states_partial, C98_refuted_norm); circuits with discards always predict 1 (C98_refuted_mixed)."
 },
 "C99": {
  "status": "partial",
  "note": "Holds for operations followed by measurements into all bits, if operations on three qubits use the first qubit, the scalar is not 0 and the outputs are read in the order of the qubits (C99_import_partial, C99_ordered); the round trip holds if qubits are measured into the bits with their own numbers (C99_roundtrip_partial). Refuted in general: C99_refuted_order, C99_refuted_ccx, C99_refuted_midcircuit, C99_refuted_zero, C99_refuted_empty, C99_refuted_roundtrip."
 },
 "C100": {
  "status": "partial",
  "note": "Proved: C100_init, C100_untrained, C100_empty, C100_rows, C100_batch, C100_shapes. The prediction is right for circuits without post-selection (C100_discard) and, with post-selection, when each post-selected qubit is measured into the bit with its own number (C100_circuital_partial, C100_compiled_partial). Refuted otherwise: C100_left_refuted, C100_sentence_refuted. The configured number of shots is ignored: C100_shots_refuted."
 },
 "C101": {
  "status": "proved",
  "note": "C101_value, C101_text, C101_fields; seconds are shown as 60 exactly when they are at least 59.5 (C101_sixty), e.g. 1m60s (C101_sixty_refuted). Exact arithmetic."
 },
 "C102": {
  "status": "proved",
  "note": "C102_trace (which wires each cup joins), C102_edges, C102_errors, C102_follows (the tree that the cups follow is the result), C102_round_trip, C102_round_trip_leaf. Empty types, cycles and unconnected words are refuted as sources of round trips (C102_refuted_*). Caps and break_cycles are not modelled."
 },
 "C103": {
  "status": "partial",
  "note": "C103_break_cycles, C103_no_cycles, C103_root_cycle. The claim for every tree is refuted: C103_refuted_gap (IndexError when a word before the root is not in the tree), C103_refuted_root, C103_refuted_generate (trees of generate_tree with two parents: the deepest copy has no children, so words are lost)."
 },
 "C104": {
  "status": "partial",
  "note": "C104_predict, C104_best, C104_forced, C104_one_root (exact condition for one root), C104_tree, C104_fails. That there is always exactly one root is refuted (C104_refuted_sep), and so is that the parents have no cycle (C104_refuted_cycle). The network is a table of finite scores; ties go to the first column."
 },
 "C105": {
  "status": "partial",
  "note": "C105_suppress, C105_raise, C105_types, C105_name. Refuted: data that from_json cannot read raise even with suppress_exceptions (C105_refuted_json); the data null give None without suppress_exceptions (C105_refuted_null); two empty tokens are sent (C105_refuted_blank_tokens); names not in lower case raise KeyError (C105_name)."
 },
 "C106": {
  "status": "partial",
  "note": "C106_wires, C106_words, C106_straight, C106_boxes, C106_apart, C106_clear, C106_inside, C106_total. Refuted: words of empty type alone raise ValueError (C106_refuted_empty; C106_total is the exact condition); with scale=(2, 1) wires leave beside their word, whose width is not scaled (C106_refuted_scale; C106_inside for scales up to 1)."
 },
 "C107": {
  "status": "partial",
  "note": "C107_same, C107_roundtrip, C107_roundtrip_back, C107_functorial (grammar), C107_tensor, C107_circuit, C107_circuit_roundtrip, C107_frames, C107_bits. Refuted: frames lose their components, daggered frames their dagger (C107_refuted_frames, C107_refuted_dagger_frame); inputs of DisCoPy words are lost and raise ValueError (C107_refuted_word_input); Y comes back without self_adjoint (C107_refuted_Y); mixed states, swaps with bits and bits cannot be converted (C107_refuted_boxes)."
 },
 "C108": {
  "status": "partial",
  "note": "C108_load, C108_store_load_partial, C108_options, C108_validate, C108_rejected, C108_outputs, C108_sentences, C108_images, C108_text, C108_accepted_partial, C108_failure_no_output, C108_input, C108_sentence_split, C108_trees, C108_draw_options, C108_pickle, C108_store. Refuted: the stored mode is never used (C108_refuted_mode), a stored sentence excludes another input file (C108_refuted_other_input), image numbers are not sentence numbers (C108_refuted_numbering), JSON and ansaetze without options are accepted and fail (C108_refuted_json, C108_refuted_ansatz_options), the extension of the image file is replaced (C108_refuted_extension), root categories are ignored with a named parser (C108_refuted_root_categories), malformed options raise instead of being no member (C108_refuted_contains)."
 },
 "C109": {
  "status": "partial",
  "note": "C109_picture_partial, C109_aligned_partial (for trees in which no symbol is wider than its node; C109_binary_fits: with spacing >= 2 only nodes with one child can be narrower), C109_words, C109_line_count, C109_total, C109_vertical, C109_vertical_nodes, C109_ascii_partial. Refuted: alignment below a narrow type raising (C109_refuted_aligned), ASCII for generalised rules and for vertical trees (C109_refuted_ascii), unknown rules (C109_refuted_unknown)."
 },
 "C110": {
  "status": "partial",
  "note": "C110_types, C110_types_total, C110_types_same, C110_converted, C110_rules, C110_sound. Refuted: the empty base and pairs of marks count as punctuation (C110_refuted_punctuation); type raising to an atomic category raises AttributeError, unknown operations are accepted (C110_refuted_operations)."
 },
 "C111": {
  "status": "partial",
  "note": "C111_deps, C111_relations, C111_argument, C111_words, C111_result, C111_tags, C111_lexical, C111_open, C111_coordination, C111_type_changing, C111_type_raising, C111_punctuation. Refuted: a score of minus infinity is never taken, TypeError (C111_refuted_score); after a word without a tree the result has the words before it only (C111_refuted_words). A complex argument may be bound by its parts and is not covered by C111_argument."
 },
 "C112": {
  "status": "partial",
  "note": "C112_rows, C112_padding. Refuted: a word without a sub-token, or whose first sub-token does not start at its first character, moves the rows of all later words (C112_refuted_dropped, C112_refuted_offset); the words beyond the limit silently get no row (C112_refuted_long), and the tagger then reports fewer tags than words (C112_refuted_tags)."
 },
 "C113": {
  "status": "partial",
  "note": "C113_lines, C113_shape, C113_labels, C113_readable, C113_height, C113_height_rounds, C113_eq_same, C113_same_eq. Refuted: newlines in words (C113_refuted_newline), brackets (C113_refuted_brackets), siblings with equal indices (C113_refuted_equal_indices), and after merge the cached string and height are those of the old tree (C113_refuted_stale)."
 },
 "C114": {
  "status": "partial",
  "note": "C114_boxes_partial, C114_diagrams_partial: for data of the same shape and boxes not named like special ones, equality is identity but for the winding; C114_meaning, C114_hash_partial: with the same winding also hash and array agree. Refuted: a box equals its conjugate, with another array and hash (C114_refuted_conjugate); other shapes raise ValueError or are equal by broadcasting (C114_refuted_shapes); a box named like a dagger equals that dagger (C114_refuted_names). Symbolic data are not modelled."
 },
 "C115": {
  "status": "partial",
  "note": "C115_round_trip: the category finds the class. C115_text: the first attempt on a dictionary gives what the text gives. Refuted: a dictionary is used up, whatever the first attempt gives (C115_once, C115_refuted_again); C115_left, C115_objects say what is left of it. The changes to the dictionaries inside it are not modelled."
 },
 "C116": {
  "status": "partial",
  "note": "C116_ids, C116_lines: for all sequences of calls. C116_order_partial: if no wire ends where a text is put, all nodes are declared before the lines. Refuted without this (C116_refuted_order), and that wires are drawn in their own style if TikZ styles are used (C116_refuted_styles). Refuted also that options are separated (C116_refuted_options). C116_defined: with TikZ styles every line uses a style that the picture defines."
 },
 "C117": {
  "status": "partial",
  "note": "C117_picture, C117_boxes, C117_unscaled: without scale and pad, for all diagrams. C117_order_partial: declared before use if no texts are drawn. C117_names_partial: with names of boxes but no type labels, if the drawing is not interrupted (all layers but the first have a domain, or the drawing is foliated). C117_texts_partial: the same with all texts, for every textpad between 0 and (5/2, 1/4), as the default. C117_levels: heights of boxes and ends. Refuted for textpad=(0, 0) (C117_refuted_textpad), for the default arguments and a diagram of scalars (C117_refuted_default), and that ends stay on their boxes for a scale other than 1 (C117_refuted_scale)."
 }
}