{
 "claims": [
  {
   "property": "C01",
   "status": "proved",
   "theorems": [
    "Lambeq.C01_canonical",
    "Lambeq.C01_free_monoid"
   ],
   "note": "Raw dataclass model (RTy) refined to lists of atoms; C01_canonical: every constructor output is canonical."
  },
  {
   "property": "C02",
   "status": "proved",
   "theorems": [
    "Lambeq.C02_adjoint_laws"
   ],
   "note": ""
  },
  {
   "property": "C03",
   "status": "partial",
   "theorems": [
    "Lambeq.C03_index_laws",
    "Lambeq.C03_repeat_count",
    "Lambeq.C03_insert_negative_refuted",
    "Lambeq.C03_replace_at_len"
   ],
   "note": "Laws proved for the documented index ranges; insert at a negative index on an atomic type drops the receiver (refuted); replace at index len(t) characterised."
  },
  {
   "property": "C04",
   "status": "proved",
   "theorems": [
    "Lambeq.C04_api_well_typed"
   ],
   "note": "Built = inductive closure of the modelled API, incl. functor application with API-built images. Frames are separate (C23)."
  },
  {
   "property": "C05",
   "status": "proved",
   "theorems": [
    "Lambeq.C05_compose_defined",
    "Lambeq.C05_category_laws"
   ],
   "note": ""
  },
  {
   "property": "C06",
   "status": "proved",
   "theorems": [
    "Lambeq.C06_monoidal",
    "Lambeq.C06_nary",
    "Lambeq.C06_whisker"
   ],
   "note": ""
  },
  {
   "property": "C07",
   "status": "proved",
   "theorems": [
    "Lambeq.C07_dagger",
    "Lambeq.C07_dagger_tensor"
   ],
   "note": ""
  },
  {
   "property": "C08",
   "status": "proved",
   "theorems": [
    "Lambeq.C08_rotate"
   ],
   "note": ""
  },
  {
   "property": "C09",
   "status": "proved",
   "theorems": [
    "Lambeq.C09_slices",
    "Lambeq.C09_getInt"
   ],
   "note": ""
  },
  {
   "property": "C10",
   "status": "partial",
   "theorems": [
    "Lambeq.C10_partial_reverse_refuted",
    "Lambeq.C10_full_reverse_partial"
   ],
   "note": "d[::-1] == d.dagger() proved; partial reverse slices are ill typed (witness), so the second half of the property is false of the code."
  },
  {
   "property": "C11",
   "status": "proved",
   "theorems": [
    "Lambeq.GDiagram.C11_permutation"
   ],
   "note": ""
  },
  {
   "property": "C12",
   "status": "proved",
   "theorems": [
    "Lambeq.GDiagram.C12_swap"
   ],
   "note": ""
  },
  {
   "property": "C13",
   "status": "partial",
   "theorems": [
    "Lambeq.GDiagram.C13_cups",
    "Lambeq.GDiagram.C13_caps",
    "Lambeq.GDiagram.C13_documented_uses",
    "Lambeq.GDiagram.C13_reversed_compound_refuted"
   ],
   "note": "Proved for is_reversed=False; for is_reversed=True compound types raise ValueError (refuted with a general theorem)."
  },
  {
   "property": "C14",
   "status": "proved",
   "theorems": [
    "Lambeq.GDiagram.C14_spider"
   ],
   "note": ""
  },
  {
   "property": "C15",
   "status": "proved",
   "theorems": [
    "Lambeq.GDiagram.C15_transpose",
    "Lambeq.GDiagram.C15_curry",
    "Lambeq.GDiagram.C15_curry_zero",
    "Lambeq.GDiagram.C15_thenAt"
   ],
   "note": "curry(0, left=True) curries the whole domain: C15_curry_zero."
  },
  {
   "property": "C16",
   "status": "proved",
   "theorems": [
    "Lambeq.GDiagram.C16_pregroup",
    "Lambeq.GDiagram.C16_only_valueError",
    "Lambeq.GDiagram.C16_wiring"
   ],
   "note": "C16_pregroup holds whenever a diagram is returned (the box-per-morphism clause needs in-range indices: out-of-range ones add an empty morphism); C16_wiring: non-crossing adjoint cups always succeed and join exactly the requested wires."
  },
  {
   "property": "C17",
   "status": "proved",
   "theorems": [
    "Lambeq.Functor.C17_types",
    "Lambeq.Functor.C17_arrows",
    "Lambeq.Functor.C17_boxes"
   ],
   "note": ""
  },
  {
   "property": "C18",
   "status": "proved",
   "theorems": [
    "Lambeq.Functor.C18_functorial",
    "Lambeq.Functor.C18_generator"
   ],
   "note": ""
  },
  {
   "property": "C19",
   "status": "partial",
   "theorems": [
    "Lambeq.Functor.C19_dagger_partial",
    "Lambeq.Functor.C19_rotate_partial",
    "Lambeq.Functor.C19_compound_refuted"
   ],
   "note": "Proved for boxes/words always and for structural boxes when types map to at most one wire; refuted in general."
  },
  {
   "property": "C20",
   "status": "partial",
   "theorems": [
    "Lambeq.Functor.C20_cache_transparent_partial",
    "Lambeq.Functor.C20_failed_check_leaks_refuted"
   ],
   "note": "Transparent when the user's ar respects types; otherwise a failed type check leaves the ill-typed arrow in the cache and the second call returns it (refuted)."
  },
  {
   "property": "C21",
   "status": "proved",
   "theorems": [
    "Lambeq.FBox.C21_json_round_trip"
   ],
   "note": "Values are the dicts of to_json; the json text layer is trusted. Types quantified as canonical types (C01)."
  },
  {
   "property": "C22",
   "status": "partial",
   "theorems": [
    "Lambeq.FBox.C22_json_frames_partial",
    "Lambeq.FBox.C22_json_round_trip_refuted"
   ],
   "note": "Exact characterisation of what survives the round trip; Daggered(non-plain box) and frames with word/plain-box components raise KeyError (refuted)."
  },
  {
   "property": "C23",
   "status": "partial",
   "theorems": [
    "Lambeq.FBox.C23_frame_rotate_partial",
    "Lambeq.FBox.C23_rotate_action_refuted"
   ],
   "note": "Every rotate call reverses the components, so rotation is only an action up to that reversal (refuted in general); l/r are inverse; action holds when frames have at most one component."
  },
  {
   "property": "C24",
   "status": "proved",
   "theorems": [
    "Lambeq.C24_interchange"
   ],
   "note": "Meaning = matrix under every interpretation of objects and boxes in every commutative semiring (Semantics.lean)."
  },
  {
   "property": "C25",
   "status": "partial",
   "theorems": [
    "Lambeq.GDiagram.C25_remove_snakes_partial",
    "Lambeq.GDiagram.C25_refuted_mixed_orientation"
   ],
   "note": "Proved when all cups/caps have one orientation; refuted for mixed orientation (find_snake ignores is_reversed). Includes termination, no exception, no snake left."
  },
  {
   "property": "C26",
   "status": "partial",
   "theorems": [
    "Lambeq.GDiagram.C26_normal_form_partial",
    "Lambeq.GDiagram.C26_pregroup_normal_form_partial",
    "Lambeq.GDiagram.C26_refuted_pregroup_normal_form_inputs"
   ],
   "note": "Proved (with termination) for one orientation of cups/caps; pregroup_normal_form for diagrams without inputs, refuted with inputs (ValueError)."
  },
  {
   "property": "C27",
   "status": "proved",
   "theorems": [
    "Lambeq.Cat.C27_parse_iff_grammar",
    "Lambeq.Cat.C27_parse_total",
    "Lambeq.Cat.C27_roundtrip",
    "Lambeq.Cat.C27_str_injective",
    "Lambeq.Cat.C27_redundant_brackets",
    "Lambeq.Cat.C27_conj",
    "Lambeq.Cat.C27_unbalanced_rejected",
    "Lambeq.Cat.C27_refuted_parse_error",
    "Lambeq.Cat.C27_refuted_empty"
   ],
   "note": "C27_parse_iff_grammar characterises parse completely by a small grammar. Findings kept as theorems: some malformed strings raise AssertionError instead of CCGParseError (C27_refuted_parse_error); the empty category prints as () which does not parse (C27_refuted_empty)."
  },
  {
   "property": "C28",
   "status": "proved",
   "theorems": [
    "Lambeq.Cat.C28_toTy",
    "Lambeq.Cat.C28_split",
    "Lambeq.Cat.C28_refuted_injective",
    "Lambeq.Cat.C28_replace",
    "Lambeq.Cat.C28_replace_result_sound",
    "Lambeq.Cat.C28_replace_result_found",
    "Lambeq.Cat.C28_replace_result_lenient",
    "Lambeq.Cat.C28_replace_result_direction"
   ],
   "note": "toTy homomorphic, replace/replace_result/split consistent with it. Finding: the translation is not injective (C28_refuted_injective)."
  },
  {
   "property": "C29",
   "status": "partial",
   "theorems": [
    "Lambeq.Rule.C29_wellTyped",
    "Lambeq.Rule.C29_apply",
    "Lambeq.Rule.C29_refuted_unlicensed",
    "Lambeq.Rule.C29_refuted_gbc_empty",
    "Lambeq.GDiagram.C29_combinators"
   ],
   "note": "C29_wellTyped for all premises; C29_apply: exact domain/codomain for every instance of every rule schema. apply does not check its premises, so the codomain claim fails for unlicensed ones (refuted), and GBC with an empty argument type drops wires (refuted)."
  },
  {
   "property": "C30",
   "status": "partial",
   "theorems": [
    "Lambeq.Rule.C30_infer_sound",
    "Lambeq.Rule.C30_infer_apply",
    "Lambeq.Rule.C30_infer_complete",
    "Lambeq.Rule.C30_refuted_punctuation"
   ],
   "note": "Soundness, completeness and apply-ability of infer_rule; LP/RP are returned without checking the conclusion (refuted)."
  },
  {
   "property": "C31",
   "status": "partial",
   "theorems": [
    "Lambeq.Rule.C31_resolve_sound",
    "Lambeq.Rule.C31_resolve_stable",
    "Lambeq.Rule.C31_refuted_shape",
    "Lambeq.Rule.C31_refuted_raising"
   ],
   "note": "Sound for conclusions of the rule's shape (C31_resolve_sound), identity on licensed steps (C31_resolve_stable); unsound when the slash or raised form of the conclusion differs (refuted)."
  },
  {
   "property": "C32",
   "status": "partial",
   "theorems": [
    "Lambeq.Tree.C32_type_changing",
    "Lambeq.Tree.C32_refuted_change_over_modifier",
    "Lambeq.Tree.C32_planar_no_swaps",
    "Lambeq.Tree.C32_planar",
    "Lambeq.Tree.C32_collapse",
    "Lambeq.Tree.C32_any_tree",
    "Lambeq.Tree.C32_refuted_planar_generalised",
    "Lambeq.Tree.C32_refuted_unary_swap",
    "Lambeq.Tree.C32_refuted_nested_punctuation",
    "Lambeq.Tree.C32_toDiagram"
   ],
   "note": "Total correctness for all proper derivations, with and without collapse_noun_phrases and (without generalised crossing) planar; partial correctness for arbitrary trees; planar never crosses wires. Refuted: planar generalised crossed composition loses words, unary slash-swaps raise, nested punctuation raises. Type-changing unary and punctuation rules over phrases: C32_type_changing; refuted over a modifier that changes direction (C32_refuted_change_over_modifier)."
  },
  {
   "property": "C33",
   "status": "proved",
   "theorems": [
    "Lambeq.Reader.C33_tokens",
    "Lambeq.Reader.C33_linear",
    "Lambeq.Reader.C33_linear_terminates",
    "Lambeq.Reader.C33_stairs",
    "Lambeq.Reader.C33_cups",
    "Lambeq.Reader.C33_spiders",
    "Lambeq.Reader.C33_stairs_empty"
   ],
   "note": ""
  },
  {
   "property": "C34",
   "status": "proved",
   "theorems": [
    "Lambeq.Reader.C34_tree2diagram",
    "Lambeq.Reader.C34_proper",
    "Lambeq.Reader.C34_suppress",
    "Lambeq.Reader.C34_box_names"
   ],
   "note": "Readers whose tokeniser, parser and MERGE-box naming are parameters; typing for every sentence, plus names of all boxes (C34_box_names). The stairs reader on an empty sentence returns Id() (refuted beyond the claim)."
  },
  {
   "property": "C35",
   "status": "proved",
   "theorems": [
    "Lambeq.Rewrite.C35_repeated",
    "Lambeq.Rewrite.C35_refuted_add_rules_after_use",
    "Lambeq.Rewrite.C35_rewriter",
    "Lambeq.Rewrite.C35_types_always",
    "Lambeq.Rewrite.C35_unmatched"
   ],
   "note": "C35_rewriter: success, types, well-typedness and box-by-box description (first matching rule wins, else unchanged) for all diagrams and rule lists that behave on the boxes shown to them; C35_types_always needs no hypothesis on the rules; C35_repeated covers the functor cache. Beyond the claim, C35_refuted_add_rules_after_use: add_rules after first use does not affect cached boxes."
  },
  {
   "property": "C36",
   "status": "proved",
   "theorems": [
    "Lambeq.Rewrite.C36_rewriter",
    "Lambeq.Rewrite.C36_default",
    "Lambeq.Rewrite.C36_refuted_box_with_inputs",
    "Lambeq.Rewrite.C36_simple",
    "Lambeq.Rewrite.C36_builtin_simple",
    "Lambeq.Rewrite.C36_coordination",
    "Lambeq.Rewrite.C36_curry",
    "Lambeq.Rewrite.C36_collapse"
   ],
   "note": "All ten named rules, Rewriter() and CollapseDomainRewriteRule; str.lower is an arbitrary function. Beyond the claim, C36_refuted_box_with_inputs: rules compare only the codomain, so a matching box with inputs makes the rewriter raise TypeError."
  },
  {
   "property": "C37",
   "status": "partial",
   "theorems": [
    "Lambeq.Train.C37_iteration",
    "Lambeq.Train.C37_length_mismatch",
    "Lambeq.Train.C37_refuted_empty"
   ],
   "note": "Batches partition the shuffled data in order; shuffle is an arbitrary permutation source."
  },
  {
   "property": "C38",
   "status": "partial",
   "theorems": [
    "Lambeq.Train.C38_check",
    "Lambeq.Train.C38_first_stop",
    "Lambeq.Train.C38_refuted_plateau"
   ],
   "note": "Exact characterisation of when training stops early; plateau/zero-interval behaviour kept as theorems."
  },
  {
   "property": "C39",
   "status": "partial",
   "theorems": [
    "Lambeq.Train.C39_evaluation",
    "Lambeq.Train.C39_no_early_stopping",
    "Lambeq.Train.C39_refuted_zero_epochs",
    "Lambeq.Train.C39_refuted_zero_interval",
    "Lambeq.Train.C39_fit"
   ],
   "note": "Exact history lengths and call accounting for every run; epochs=0 and evaluation interval 0 raise ZeroDivisionError (refuted)."
  },
  {
   "property": "C40",
   "status": "partial",
   "theorems": [
    "Lambeq.Train.C40_resume_partial",
    "Lambeq.Train.C40_crash_point",
    "Lambeq.Train.C40_refuted_best_model",
    "Lambeq.Train.C40_refuted_train_metrics",
    "Lambeq.Train.C40_refuted_no_seed",
    "Lambeq.Train.C40_refuted_early_stopped"
   ],
   "note": "Resume = uninterrupted run for the model/optimizer state, training losses and validation history, when seeded and not stopped early; refuted for best_model, running train metrics, seed None and early-stopped runs."
  },
  {
   "property": "C41",
   "status": "partial",
   "theorems": [
    "Lambeq.Train.C41_map",
    "Lambeq.Train.C41_round_trip",
    "Lambeq.Train.C41_refuted_crash",
    "Lambeq.Train.C41_crash_no_corruption"
   ],
   "note": "Round trip and crash points of the checkpoint file; opening with 'wb+' truncates first, so a crash loses the previous checkpoint (refuted)."
  },
  {
   "property": "C42",
   "status": "partial",
   "theorems": [
    "Lambeq.Train.C42_backward_restores",
    "Lambeq.Train.C42_points_in_bounds",
    "Lambeq.Train.C42_step_in_bounds",
    "Lambeq.Train.C42_train_step",
    "Lambeq.Train.C42_run",
    "Lambeq.Train.C42_update",
    "Lambeq.Train.C42_unbiased",
    "Lambeq.Train.C42_refuted_degenerate_bounds",
    "Lambeq.Train.C42_refuted_outside_bounds",
    "Lambeq.Train.C42_refuted_zero_grad",
    "Lambeq.Train.C42_state_dict",
    "Lambeq.Train.C42_refuted_load"
   ],
   "note": "Floats are exact field elements plus inf/nan. Refuted: degenerate bounds give NaN, weights outside bounds, zero_grad/step order, load_state_dict hyper-parameters."
  },
  {
   "property": "C43",
   "status": "proved",
   "theorems": [
    "Lambeq.Train.C43_backward",
    "Lambeq.Train.C43_total",
    "Lambeq.Train.C43_init",
    "Lambeq.Train.C43_history",
    "Lambeq.Train.C43_single_batch",
    "Lambeq.Train.C43_moves",
    "Lambeq.Train.C43_weights_partial",
    "Lambeq.Train.C43_step_inside",
    "Lambeq.Train.C43_first_simplex",
    "Lambeq.Train.C43_refuted_absent_symbols",
    "Lambeq.Train.C43_refuted_flat_simplex",
    "Lambeq.Train.C43_refuted_stale_loss"
   ],
   "note": "Exact field arithmetic, argsort an arbitrary sort. All three clauses proved for every history; also evaluation counts, moves, single-loss optimality. Beyond the claim, refuted: weights of symbols absent from a batch become 0; reported losses are stale across batches; a parameter at a positive upper bound is never moved."
  },
  {
   "property": "C44",
   "status": "partial",
   "theorems": [
    "Lambeq.Train.C44_nelder_mead",
    "Lambeq.Train.C44_nelder_mead_continues",
    "Lambeq.Train.C44_refuted_adaptive",
    "Lambeq.Train.C42_state_dict",
    "Lambeq.Train.C42_refuted_load"
   ],
   "note": "SPSA (C42_state_dict) and Nelder-Mead; refuted when hyperparameters differ: load_state_dict restores `adaptive` but not the coefficients, and SPSA does not restore the hyperparams used in later updates."
  },
  {
   "property": "C45",
   "status": "proved",
   "theorems": [
    "Lambeq.Backend.C45_scoped",
    "Lambeq.Backend.C45_restored",
    "Lambeq.Backend.C45_refuted_threads"
   ],
   "note": "Refinement to dynamic scope for all programs with nested contexts, set_backend, exceptions and handlers. Beyond the claim: interleaved (threaded) use is wrong because the stack is process-global (C45_refuted_threads)."
  },
  {
   "property": "C46",
   "status": "proved",
   "theorems": [
    "Lambeq.Bobcat.C46_find",
    "Lambeq.Bobcat.C46_add",
    "Lambeq.Bobcat.C46_history",
    "Lambeq.Bobcat.C46_beam",
    "Lambeq.Bobcat.C46_refuted_beam_zero"
   ],
   "note": "Proved for every beam size >= 1 and every history of add calls; scores in a linear order (no NaN). With beam 0 the first add raises IndexError (C46_refuted_beam_zero); `added` counts replacements as additions."
  },
  {
   "property": "C47",
   "status": "proved",
   "theorems": [
    "Lambeq.Bobcat.C47_equals_iff",
    "Lambeq.Bobcat.C47_equivalence",
    "Lambeq.Bobcat.C47_matches_iff",
    "Lambeq.Bobcat.C47_matches_order",
    "Lambeq.Bobcat.C47_refuted_equal_not_matching",
    "Lambeq.Bobcat.C47_refuted_empty_atom",
    "Lambeq.Bobcat.C47_match_rule"
   ],
   "note": "== is characterised by the shape for all hash functions, matches by instances. Kept refutations: S[X]==S but S[X].matches(S) is False; Category() equality is not symmetric under a hash collision."
  },
  {
   "property": "C48",
   "status": "partial",
   "theorems": [
    "Lambeq.Bobcat.C48_application",
    "Lambeq.Bobcat.C48_generalised_forward",
    "Lambeq.Bobcat.C48_generalised_crossed",
    "Lambeq.Bobcat.C48_generalised_backward_partial",
    "Lambeq.Bobcat.C48_composition",
    "Lambeq.Bobcat.C48_combine",
    "Lambeq.Bobcat.C48_refuted_feature_conflict",
    "Lambeq.Bobcat.C48_refuted_gbc"
   ],
   "note": "Proved for application, composition, generalised forward/crossed composition and combine up to unification; refuted: with a feature conflict inside unification the last feature wins; generalised backward composition returns a copy of the left category."
  },
  {
   "property": "C49",
   "status": "partial",
   "theorems": [
    "Lambeq.QBox.C49_postselect",
    "Lambeq.QBox.C49_computational",
    "Lambeq.QBox.C49_discard",
    "Lambeq.QBox.C49_ar",
    "Lambeq.QBox.C49_unknown",
    "Lambeq.QBox.C49_ancillas_refuted",
    "Lambeq.QBox.C49_ranges",
    "Lambeq.QBox.C49_rots",
    "Lambeq.QBox.C49_circuit",
    "Lambeq.QBox.C49_large_range"
   ],
   "note": "Full statement for sizes in qubits and non-negative ancillas (C49_circuit, C49_postselect, C49_computational, C49_discard, C49_ar, C49_unknown). StronglyEntanglingAnsatz needs ranges that are smaller than, and not a multiple of, the number of qubits; a larger one raises (C49_large_range). Negative ancillas give the wrong number of wires (refuted). Object maps to other types than powers of qubit are not modelled."
  },
  {
   "property": "C50",
   "status": "partial",
   "theorems": [
    "Lambeq.QBox.C50_nested",
    "Lambeq.QBox.C50_array",
    "Lambeq.QBox.C50_decompose",
    "Lambeq.QBox.C50_apply_single",
    "Lambeq.QBox.C50_apply_double",
    "Lambeq.QBox.C50_apply_plain",
    "Lambeq.QBox.C50_refuted_apply_swap"
   ],
   "note": "Proved for every nesting of controls over a one-qubit gate and for apply_gate with 0, 1, 2 controls. Refuted for uncontrolled gates on several qubits: circuit.SWAP(0, 2) swaps the qubits 0 and 1."
  },
  {
   "property": "C51",
   "status": "partial",
   "theorems": [
    "Lambeq.QBox.C51_circuital",
    "Lambeq.QBox.C51_refuted_postselection",
    "Lambeq.QBox.C51_refuted_order",
    "Lambeq.QBox.C51_refuted_ket",
    "Lambeq.QBox.C51_refuted_gateAfterBra",
    "Lambeq.QBox.C51_refuted_phaseZero",
    "Lambeq.QBox.C51_refuted_CRy",
    "Lambeq.QBox.C51_refuted_unknown",
    "Lambeq.QBox.C51_refuted_conjugate",
    "Lambeq.QBox.C51_refuted_discard",
    "Lambeq.QBox.C51_export",
    "Lambeq.QBox.C51_backend_partial",
    "Lambeq.QBox.C51_backend_ltr_partial"
   ],
   "note": "The export is proved for all diagrams of the named form (C51_export); equality on an exact backend holds when post-selected qubits are measured into the bits with their own numbers and the others from left to right (C51_backend_partial, C51_backend_ltr_partial). Refuted: post-selection keyed by qubit but read as bit number, order of bits, Ket(1), gates after the last post-selection, discards left of a post-selection, phase 0, CRy, CY, CCZ, conjugated S."
  },
  {
   "property": "C52",
   "status": "partial",
   "theorems": [
    "Lambeq.C52_dim",
    "Lambeq.C52_rotate",
    "Lambeq.C52_refuted_zero"
   ],
   "note": "Proved for dimensions of at least one; refuted for zero, which is dropped like a one. The consistency of array shapes is part of C67."
  },
  {
   "property": "C53",
   "status": "partial",
   "theorems": [
    "Lambeq.C53_snake_partial",
    "Lambeq.C53_refuted_snake",
    "Lambeq.C53_refuted_flat_data"
   ],
   "note": "Both snakes are the identity in dimension 1 and 2; refuted in every dimension from 3 on (Cap sets only the first and last entry of its array). Also: flat data evaluate but raise once rotated."
  },
  {
   "property": "C54",
   "status": "proved",
   "theorems": [
    "Lambeq.Split.C54_constructors",
    "Lambeq.Split.C54_small",
    "Lambeq.Split.C54_mps",
    "Lambeq.Split.C54_spider",
    "Lambeq.Split.C54_uncurry",
    "Lambeq.Split.C54_recursion",
    "Lambeq.Split.C54_diagram",
    "Lambeq.Split.C54_refuted_shared"
   ],
   "note": "Model of `_split_ar` (both classes), of the split functor and of the constructors. The dimensions play no role for splitting. C54_refuted_shared records that pieces of different boxes can be the same box (shared parameters); this is not part of the statement."
  },
  {
   "property": "C55",
   "status": "proved",
   "theorems": [
    "Lambeq.Rewrite.C55_unknown_words",
    "Lambeq.Rewrite.C55_all_known",
    "Lambeq.Rewrite.C55_vocabulary",
    "Lambeq.Rewrite.C55_refuted_rotated_word"
   ],
   "note": "Words are compared with winding number undone (as the functor does). Beyond the claim, C55_refuted_rotated_word: from_diagrams counts rotated words with their rotated type, so a vocabulary may not cover the diagram it was built from."
  },
  {
   "property": "C56",
   "status": "proved",
   "theorems": [
    "Lambeq.QBox.C56_counts",
    "Lambeq.QBox.C56_entries"
   ],
   "note": "Proved for all counts and all post-selections of existing bits; that the post-selected keys are not always bits is refuted under C51 (C51_refuted_discard)."
  },
  {
   "property": "C57",
   "status": "partial",
   "theorems": [
    "Lambeq.DRewrite.C57_remove_cups_partial",
    "Lambeq.DRewrite.C57_refuted_raises"
   ],
   "note": "Typing, box accounting and meaning proved whenever a diagram is returned; totality proved for at most one bend per diagram; refuted in general: merged cup tokens that span misaligned words raise ValueError."
  },
  {
   "property": "C58",
   "status": "proved",
   "theorems": [
    "Lambeq.DRewrite.C58_unify_codomain"
   ],
   "note": ""
  },
  {
   "property": "C59",
   "status": "partial",
   "theorems": [
    "Lambeq.DRewrite.C59_remove_swaps_partial",
    "Lambeq.DRewrite.C59_refuted_codomain",
    "Lambeq.DRewrite.C59_refuted_raises"
   ],
   "note": "Full result for diagrams in which no cup joins two wires of one word; with such detached cups the code returns a wrong codomain or raises IndexError (refuted)."
  },
  {
   "property": "C60",
   "status": "partial",
   "theorems": [
    "Lambeq.Train.Roto.C60_candidate",
    "Lambeq.Train.Roto.C60_update_partial",
    "Lambeq.Train.Roto.C60_refuted_negative",
    "Lambeq.Train.Roto.C60_refuted_maximum",
    "Lambeq.Train.Roto.C60_sweep",
    "Lambeq.Train.Roto.C60_descent_partial",
    "Lambeq.Train.Roto.C60_refuted_descent"
   ],
   "note": "The computed angle is a minimiser for all sinusoids; the projection abs(x) % 1 is only right for x >= 0, otherwise the loss is |A| cos 2B + C (refuted: from weight 0 the loss sin(2 pi x) is maximised)."
  },
  {
   "property": "C61",
   "status": "proved",
   "theorems": [
    "Lambeq.Bobcat.C61_limit",
    "Lambeq.Bobcat.C61_pruning",
    "Lambeq.Bobcat.C61_cells",
    "Lambeq.Bobcat.C61_result",
    "Lambeq.Bobcat.C61_prefix",
    "Lambeq.Bobcat.C61_refuted_missing_word"
   ],
   "note": "Refuted beside it: a word without supertags makes the result a parse of the prefix with an unfiltered root category."
  },
  {
   "property": "C62",
   "status": "proved",
   "theorems": [
    "Lambeq.Bobcat.C62_heads",
    "Lambeq.Bobcat.C62_combine",
    "Lambeq.Bobcat.C62_unary",
    "Lambeq.Bobcat.C62_refuted_unmarked"
   ],
   "note": "Unmarked categories raise KeyError (refutation kept)."
  },
  {
   "property": "C64",
   "status": "partial",
   "theorems": [
    "Lambeq.Batch.C64_suppress",
    "Lambeq.Batch.C64_raise",
    "Lambeq.Batch.C64_diagrams",
    "Lambeq.Batch.C64_single",
    "Lambeq.Batch.C64_oncilla",
    "Lambeq.Batch.C64_depccg_partial",
    "Lambeq.Batch.C64_refuted_depccg_argument",
    "Lambeq.Batch.C64_refuted_oncilla_cycles"
   ],
   "note": "Bobcat and single-sentence parts proved in full. Refuted: DepCCG with tokenised=True deletes the empty sentences from the list of the caller; Oncilla raises although suppressed when remove_cycles fails."
  },
  {
   "property": "C65",
   "status": "proved",
   "theorems": [
    "Lambeq.Bobcat.C65_chart_spans",
    "Lambeq.Bobcat.C65_idx2span"
   ],
   "note": "For every history of the global memo. int((2i)**0.5) is modelled as the exact integer square root."
  },
  {
   "property": "C66",
   "status": "partial",
   "theorems": [
    "Lambeq.Bobcat.C66_tags",
    "Lambeq.Bobcat.C66_spans_partial",
    "Lambeq.Bobcat.C66_batches",
    "Lambeq.Bobcat.C66_refuted_no_category"
   ],
   "note": "Tags and batch splitting proved in full. Spans proved when the first row of span scores shares no entry with the first tag row; refuted in general: output_batch == tag_output compares by value, so category 0 can be reported."
  },
  {
   "property": "C67",
   "status": "proved",
   "theorems": [
    "Lambeq.C67_eval_total",
    "Lambeq.C67_eval_id",
    "Lambeq.C67_eval_comp",
    "Lambeq.C67_eval_tensor",
    "Lambeq.C67_eval_box",
    "Lambeq.C67_eval_structural"
   ],
   "note": "Contraction by tensornetwork is specified by its documented meaning; exact commutative star semiring instead of floats."
  },
  {
   "property": "C68",
   "status": "partial",
   "theorems": [
    "Lambeq.C68_dagger_partial",
    "Lambeq.C68_refuted_dagger",
    "Lambeq.C68_rotate_odd",
    "Lambeq.C68_rotate_rotate"
   ],
   "note": "Conjugates (rotate) proved in full; adjoints proved when cups and caps have dimension at most 2; refuted for a cup of dimension 3."
  },
  {
   "property": "C69",
   "status": "partial",
   "theorems": [
    "Lambeq.C69_lambdify_partial",
    "Lambeq.C69_env",
    "Lambeq.C69_free_symbols",
    "Lambeq.C69_order",
    "Lambeq.C69_refuted_rotated"
   ],
   "note": "Proved when no symbolic box is rotated; refuted for rotated boxes: Box.lambdify drops the winding number."
  },
  {
   "property": "C70",
   "status": "partial",
   "theorems": [
    "Lambeq.QBox.C70_cap",
    "Lambeq.QBox.C70_cup",
    "Lambeq.QBox.C70_unequal",
    "Lambeq.QBox.C70_snake",
    "Lambeq.QBox.C70_spider",
    "Lambeq.QBox.C70_spider_types",
    "Lambeq.QBox.C70_refuted_bits"
   ],
   "note": "Qubit types in full. Missing: bit types, where generate_cap is wrong (C70_refuted_bits)."
  },
  {
   "property": "C71",
   "status": "partial",
   "theorems": [
    "Lambeq.QBox.C71_dagger_partial",
    "Lambeq.QBox.C71_refuted_sqrt",
    "Lambeq.QBox.C71_involution",
    "Lambeq.QBox.C71_involution_circuit"
   ],
   "note": "Holds for all circuits whose Sqrt boxes are off the negative real axis; C71_refuted_sqrt shows the exception."
  },
  {
   "property": "C75",
   "status": "proved",
   "theorems": [
    "Lambeq.QBox.C75_total",
    "Lambeq.QBox.C75_id",
    "Lambeq.QBox.C75_box",
    "Lambeq.QBox.C75_swap",
    "Lambeq.QBox.C75_comp",
    "Lambeq.QBox.C75_tensor"
   ],
   "note": ""
  },
  {
   "property": "C74",
   "status": "partial",
   "theorems": [
    "Lambeq.QBox.C74_total",
    "Lambeq.QBox.C74_flag",
    "Lambeq.QBox.C74_id",
    "Lambeq.QBox.C74_comp",
    "Lambeq.QBox.C74_tensor",
    "Lambeq.QBox.C74_box",
    "Lambeq.QBox.C74_measure",
    "Lambeq.QBox.C74_encode",
    "Lambeq.QBox.C74_discard",
    "Lambeq.QBox.C74_mixedState",
    "Lambeq.QBox.C74_mixedBox",
    "Lambeq.QBox.C74_mixed_dagger_refuted",
    "Lambeq.QBox.C74_swap",
    "Lambeq.QBox.C74_pure",
    "Lambeq.QBox.C74_measure_all",
    "Lambeq.QBox.C74_discard_all",
    "Lambeq.QBox.C74_born",
    "Lambeq.QBox.C74_bitSwap_refuted",
    "Lambeq.QBox.C74_bitSwap_wrong_refuted",
    "Lambeq.QBox.C74_mixedSwap_refuted",
    "Lambeq.QBox.C74_bit_refuted"
   ],
   "note": "Holds for all circuits whose swaps of bits have as many bits as qubits to their left; swaps of a bit with a qubit, Bit boxes and daggers of is_mixed boxes are refuted (C74_bitSwap_refuted, C74_bitSwap_wrong_refuted, C74_mixedSwap_refuted, C74_bit_refuted, C74_mixed_dagger_refuted). Controlled versions of is_mixed boxes are not modelled."
  },
  {
   "property": "C72",
   "status": "partial",
   "theorems": [
    "Lambeq.QBox.C72_conjugate_partial",
    "Lambeq.QBox.C72_round_trip",
    "Lambeq.QBox.C72_refuted_scalar",
    "Lambeq.QBox.C72_refuted_flags"
   ],
   "note": "Proved for circuits whose boxes are gates with the conjugation structure the module declares (all constant gates, rotations, controlled versions, Ket/Bra, swaps). Refuted: Scalar and Sqrt boxes (hence cups, caps and spiders of qubits) raise ValueError, Bit raises TypeError, and a rotated plain box forgets its flags."
  },
  {
   "property": "C76",
   "status": "proved",
   "theorems": [
    "Lambeq.Label.C76_label_injective",
    "Lambeq.Label.C76_symbol_injective",
    "Lambeq.Label.C76_independent",
    "Lambeq.Label.C76_label_injective_refuted",
    "Lambeq.Label.C76_tensor",
    "Lambeq.Label.C76_unknown"
   ],
   "note": "Type names must be plain (non-empty, without _ . @); the four confusions with other names are proved as C76_label_injective_refuted."
  },
  {
   "property": "C77",
   "status": "partial",
   "theorems": [
    "Lambeq.QBox.C77_functor_partial",
    "Lambeq.QBox.C77_same_meaning",
    "Lambeq.QBox.C77_remove_snakes_partial",
    "Lambeq.QBox.C77_normal_form_partial",
    "Lambeq.QBox.C77_remove_cups_partial",
    "Lambeq.QBox.C77_ansatz_boxes",
    "Lambeq.QBox.C77_ansatz_partial",
    "Lambeq.QBox.C77_refuted_spider",
    "Lambeq.QBox.C77_unknown_type"
   ],
   "note": "Proved for post-selecting ansätze (pure circuits) with qubit types. Spiders on two or more qubits raise NotImplementedError (C77_refuted_spider); remove_cups and normal_form only when they return a diagram; circuits with discards, and ob_map values other than numbers of qubits, are not covered."
  },
  {
   "property": "C78",
   "status": "partial",
   "theorems": [
    "Lambeq.ModelSymbols.C78_symbols",
    "Lambeq.ModelSymbols.C78_deterministic_partial",
    "Lambeq.ModelSymbols.C78_refuted_same_name",
    "Lambeq.ModelSymbols.C78_weights",
    "Lambeq.ModelSymbols.C78_torch_weights"
   ],
   "note": "Order of the symbols deterministic only if no two share a name: Symbol comparison ignores the dimensions, so symbols with the same name and different sizes come in the iteration order of a set (C78_refuted_same_name). PennyLane models not covered."
  },
  {
   "property": "C79",
   "status": "partial",
   "theorems": [
    "Lambeq.FastSubs.C79_fast_subs",
    "Lambeq.FastSubs.C79_unknown",
    "Lambeq.FastSubs.C79_param",
    "Lambeq.FastSubs.C79_torch_partial",
    "Lambeq.FastSubs.C79_refuted_torch_scaled"
   ],
   "note": "QuantumModel fully; PytorchModel for boxes without Controlled and symbols with scale 1 (C79_torch_partial), since it looks scaled symbols up without removing the scale (C79_refuted_torch_scaled). Weights are exact ring elements."
  },
  {
   "property": "C80",
   "status": "partial",
   "theorems": [
    "Lambeq.Predict.C80_distribution",
    "Lambeq.Predict.C80_born",
    "Lambeq.Predict.C80_measured",
    "Lambeq.Predict.C80_refuted_scalar",
    "Lambeq.Predict.C80_density",
    "Lambeq.Predict.C80_refuted_discard",
    "Lambeq.Predict.C80_jit_partial",
    "Lambeq.Predict.C80_refuted_jit_load"
   ],
   "note": "NumpyModel. Scalars are not normalised (C80_refuted_scalar); with discarded qubits the prediction has two axes per qubit and is the absolute value of the density matrix (C80_density, C80_refuted_discard); loading a checkpoint with another order of symbols leaves compiled functions stale (C80_refuted_jit_load). Arithmetic is exact."
  },
  {
   "property": "C81",
   "status": "proved",
   "theorems": [
    "Lambeq.Loss.C81_cross_entropy",
    "Lambeq.Loss.C81_range",
    "Lambeq.Loss.C81_shapes",
    "Lambeq.Loss.C81_sparse",
    "Lambeq.Loss.C81_mse"
   ],
   "note": "Exact real arithmetic in place of floats. NumPy/JAX broadcasting is reduced to arrays of equal shape."
  },
  {
   "property": "C82",
   "status": "partial",
   "theorems": [
    "Lambeq.PathOpt.C82_history",
    "Lambeq.PathOpt.C82_no_failure_partial",
    "Lambeq.PathOpt.C82_persist",
    "Lambeq.PathOpt.C82_refuted_new_file",
    "Lambeq.PathOpt.C82_refuted_crash",
    "Lambeq.PathOpt.C82_key_sound",
    "Lambeq.PathOpt.C82_key_reused",
    "Lambeq.PathOpt.C82_any_path_partial",
    "Lambeq.PathOpt.C82_single",
    "Lambeq.PathOpt.C82_refuted_loop"
   ],
   "note": "A node with an edge to itself next to other nodes is left out of the contraction (C82_refuted_loop); a save file that does not exist becomes a directory and the first contraction raises (C82_refuted_new_file); a crash while saving loses or damages the file (C82_refuted_crash). opt_einsum is assumed to return pairwise paths that contract all nodes; tensornetwork by its documentation."
  },
  {
   "property": "C83",
   "status": "partial",
   "theorems": [
    "Lambeq.TBox.C83_functor_partial",
    "Lambeq.TBox.C83_same_meaning",
    "Lambeq.TBox.C83_remove_snakes_partial",
    "Lambeq.TBox.C83_normal_form_partial",
    "Lambeq.TBox.C83_unknown_type",
    "Lambeq.TBox.C83_remove_cups_partial",
    "Lambeq.TBox.C83_refuted_snake",
    "Lambeq.TBox.C83_refuted_spider",
    "Lambeq.TBox.C83_refuted_flat"
   ],
   "note": "Caps on dimensions of at least three evaluate to a matrix with only two ones (C83_refuted_snake); a spider without legs evaluates to 1 (C83_refuted_spider); flat data of a conjugated word raise (C83_refuted_flat). Daggers of boxes other than plain boxes and words, and frames, are not covered. Symbols are substituted before the functor is applied."
  },
  {
   "property": "C63",
   "status": "partial",
   "theorems": [
    "Lambeq.Bobcat.C63_categories",
    "Lambeq.Bobcat.C63_unified",
    "Lambeq.Bobcat.C63_rules",
    "Lambeq.Bobcat.C63_build",
    "Lambeq.Bobcat.C63_diagram_partial",
    "Lambeq.Bobcat.C63_refuted_adjectival_conjunction"
   ],
   "note": "Conversion of categories, steps and trees is total and faithful (C63_categories, C63_rules, C63_build); the diagram theorem asks that punctuation and connectives are single words, that type-changing rules apply to phrases with a head word on which the new category can be unloaded, and that generalised backward composition has a right category S\\\\Y. C63_refuted_adjectival_conjunction: conj N => N is labelled as application."
  },
  {
   "property": "C73",
   "status": "proved",
   "theorems": [
    "Lambeq.C73_ansatz_gates",
    "Lambeq.C73_ansatz",
    "Lambeq.C73_ansatz_discard",
    "Lambeq.C73_ansatz_postselect",
    "Lambeq.QBox.C73_gates",
    "Lambeq.QBox.C73_dagger",
    "Lambeq.QBox.C73_isometry",
    "Lambeq.QBox.C73_unitary",
    "Lambeq.QBox.C73_trace",
    "Lambeq.QBox.C73_probabilities",
    "Lambeq.QBox.C73_refuted_mixedState",
    "Lambeq.QBox.C73_refuted_postselection"
   ],
   "note": "Proved as stated (C73_gates, C73_isometry, C73_unitary, C73_trace, C73_probabilities, C73_ansatz*). The two theorems named refuted mark the border: MixedState is not normalised, and post-selection does not renormalise."
  },
  {
   "property": "C84",
   "status": "partial",
   "theorems": [
    "Lambeq.QBox.C84_empty_refuted",
    "Lambeq.QBox.C84_controls_refuted",
    "Lambeq.QBox.C84_dropped_refuted",
    "Lambeq.QBox.C84_swap_refuted",
    "Lambeq.QBox.C84_to_circuital",
    "Lambeq.QBox.C84_to_tk"
   ],
   "note": "Proved for circuits of initialisations, post-selections and discards of single qubits, boxes with at most one input and as many outputs, swaps of qubits with only qubits to their left, and one-qubit gates with controls all to the left or with one or two controls all to the right (C84_to_circuital), and for the export (C84_to_tk) when the measurements come last. Outside of this class the claim is false: the refuted theorems give the empty circuit (IndexError), controls on both sides or three controls to the right (distances not adapted), other gates on several qubits (silently dropped) and swaps with bits to their left (ValueError)."
  },
  {
   "property": "C85",
   "status": "partial",
   "theorems": [
    "Lambeq.CTree.C85_read_invisible",
    "Lambeq.CTree.C85_children",
    "Lambeq.CTree.C85_roundtrip",
    "Lambeq.CTree.C85_eq_iff_json",
    "Lambeq.CTree.C85_eq_equivalence",
    "Lambeq.CTree.C85_height",
    "Lambeq.CTree.C85_from_json_fresh",
    "Lambeq.CTree.C85_without_trivial",
    "Lambeq.CTree.C85_no_trivial_left",
    "Lambeq.CTree.C85_without_trivial_idempotent",
    "Lambeq.CTree.C85_without_trivial_words",
    "Lambeq.CTree.C85_without_trivial_text_partial",
    "Lambeq.CTree.C85_refuted_height",
    "Lambeq.CTree.C85_refuted_text",
    "Lambeq.CTree.C85_refuted_null_children",
    "Lambeq.CTree.C85_constructor",
    "Lambeq.CTree.C85_from_json_errors"
   ],
   "note": "JSON round trip, equality, structure of without_trivial_unary_rules proved in full for every reachable tree. False and refuted: the height after without_trivial_unary_rules, the text when an explicit text differs from the words (partial theorem for coherent texts), and the documented null children in from_json."
  },
  {
   "property": "C86",
   "status": "partial",
   "theorems": [
    "Lambeq.PTree.C86_tree2diagram_partial",
    "Lambeq.PTree.C86_result_is_pregroup",
    "Lambeq.PTree.C86_refuted_nonprojective"
   ],
   "note": "Full description of the result for projective trees without the special auxiliary type (C86_tree2diagram_partial); for all trees that the result, if any, is a well-typed pregroup diagram with the tokens (C86_result_is_pregroup). Refuted for non-projective trees: a five-word tree raises ValueError. Not proved: the wiring for non-projective trees that succeed and for trees with the auxiliary type. Left out: no_morphisms, drawing, generate_tree and the inverse direction."
  },
  {
   "property": "C87",
   "status": "partial",
   "theorems": [
    "Lambeq.PTree.C87_get_nodes",
    "Lambeq.PTree.C87_list_entries",
    "Lambeq.PTree.C87_lists",
    "Lambeq.PTree.C87_type_strings",
    "Lambeq.PTree.C87_refuted_empty_type",
    "Lambeq.PTree.C87_refuted_dot",
    "Lambeq.PTree.C87_roundtrip_partial",
    "Lambeq.PTree.C87_generate_partial",
    "Lambeq.PTree.C87_generate_all",
    "Lambeq.PTree.C87_generate_single",
    "Lambeq.PTree.C87_generate_errors",
    "Lambeq.PTree.C87_generate_succeeds",
    "Lambeq.PTree.C87_merge",
    "Lambeq.PTree.C87_merge_not",
    "Lambeq.PTree.C87_refuted_after_merge",
    "Lambeq.PTree.C87_refuted_repeated_parent"
   ],
   "note": "Proved for all trees (get_nodes), all trees numbered 0 to n-1 with readable types (round trip), all acyclic parent lists (generate_tree), merge. Refuted: empty types and names with dots are not read back; after merge the parents list no longer fits its positions and generate_tree refuses it; a token that has one parent twice loses what hangs below it. Not modelled: generate_tree on cyclic parents or tokens without parents."
  },
  {
   "property": "C88",
   "status": "partial",
   "theorems": [
    "Lambeq.Disco.C88_text",
    "Lambeq.Disco.C88_refuted_first_without_noun",
    "Lambeq.Disco.C88_only_valueError"
   ],
   "note": "Proved for all texts whose sentence diagrams map as many noun wires as they have nouns and whose first sentence has a noun; refuted for texts whose first sentence has none: max() of an empty list raises ValueError. Nothing but ValueError can be raised."
  },
  {
   "property": "C89",
   "status": "partial",
   "theorems": [
    "Lambeq.Disco.C89_frames",
    "Lambeq.Disco.C89_words_partial",
    "Lambeq.Disco.C89_refuted_word_lost",
    "Lambeq.Disco.C89_refuted_subtree_lost",
    "Lambeq.Disco.C89_root",
    "Lambeq.Disco.C89_refuted_added_noun",
    "Lambeq.Disco.C89_frames_text",
    "Lambeq.Disco.C89_sandwich",
    "Lambeq.Disco.C89_sandwich_nouns",
    "Lambeq.Disco.C89_free_wire",
    "Lambeq.Disco.C89_refuted_free_word",
    "Lambeq.Disco.C89_sandwich_map",
    "Lambeq.Disco.C89_sandwich_sentence",
    "Lambeq.Disco.C89_refuted_free_wire"
   ],
   "note": "Proved for all trees: types, nouns, words kept, existence and typing of sandwiches, their nouns and linear maps, circuits of texts of frames. Refuted: a word whose nouns are pruned disappears, with its whole subtree; the noun added for a free wire gets the index of the last word and so merges with a noun there; frames of a root of another type do not fit."
  },
  {
   "property": "C90",
   "status": "partial",
   "theorems": [
    "Lambeq.Disco.C90_edit",
    "Lambeq.Disco.C90_shape",
    "Lambeq.Disco.C90_rules",
    "Lambeq.Disco.C90_text",
    "Lambeq.Disco.C90_last",
    "Lambeq.Disco.C90_refuted_sentence_order",
    "Lambeq.Disco.C90_once_partial",
    "Lambeq.Disco.C90_normal",
    "Lambeq.Disco.C90_refuted_once",
    "Lambeq.Disco.C90_reindex_partial",
    "Lambeq.Disco.C90_refuted_missing",
    "Lambeq.Disco.C90_reindex_total",
    "Lambeq.Disco.C90_nouns_partial"
   ],
   "note": "Proved for all trees and rules: exact effect of a rule, type, nouns, text, reindexing total and right where the words of the tree are words of the sentence in order. Refuted: merging puts a modifier that comes after its noun first ('here man'); the determiner rule (depth 1) is not idempotent; one token of the tree that is not in the sentence sends it and all later tokens out of range."
  },
  {
   "property": "C91",
   "status": "partial",
   "theorems": [
    "Lambeq.Disco.C91_first",
    "Lambeq.Disco.C91_entities_partial",
    "Lambeq.Disco.C91_refuted_overlap",
    "Lambeq.Disco.C91_span_head",
    "Lambeq.Disco.C91_trivial",
    "Lambeq.Disco.C91_place",
    "Lambeq.Disco.C91_prune",
    "Lambeq.Disco.C91_prune_all_partial",
    "Lambeq.Disco.C91_refuted_second_mention",
    "Lambeq.Disco.C91_freq_default",
    "Lambeq.Disco.C91_refuted_same_word",
    "Lambeq.Disco.C91_prepare",
    "Lambeq.Disco.C91_text"
   ],
   "note": "Proved for all inputs: exact dictionary, exact set of pruned tokens, heads of spans, trivial clusters, circuits of texts with frames. Refuted: overlapping clusters split an entity; a second mention in one sentence is not pruned and brings the entity back; min_noun_freq prunes by word, so that a frequent entity with the same word as a rare one goes and the rare one stays."
  },
  {
   "property": "C92",
   "status": "partial",
   "theorems": [
    "Lambeq.Store.C92_raises_unchanged",
    "Lambeq.Store.C92_fresh",
    "Lambeq.Store.C92_update",
    "Lambeq.Store.C92_history_partial",
    "Lambeq.Store.C92_recovers",
    "Lambeq.Store.C92_refuted_offline",
    "Lambeq.Store.C92_refuted_update",
    "Lambeq.Store.C92_refuted_force",
    "Lambeq.Store.C92_refuted_fallback",
    "Lambeq.Store.C92_falls_back",
    "Lambeq.Store.C92_loads_directory",
    "Lambeq.Store.C92_version"
   ],
   "note": "Proved for one published release, without force_download and with an archive without version.txt; updates proved from any state without a crash. Refuted: offline after a crash in the first download the incomplete model is loaded silently; a crash during an update or a forced download leaves mixed or truncated files under the old version, which is then taken for fresh; a connection error during the archive download is not turned into ModelDownloaderError, so that there is no fall-back."
  },
  {
   "property": "C93",
   "status": "partial",
   "theorems": [
    "Lambeq.Bobcat.BCat.C93_str_roundtrip",
    "Lambeq.Bobcat.BCat.C93_str_injective",
    "Lambeq.Bobcat.BCat.C93_repr_roundtrip_partial",
    "Lambeq.Bobcat.BCat.C93_refuted_repr",
    "Lambeq.Bobcat.BCat.C93_refuted_slash"
   ],
   "note": "str round trip proved in full. repr round trip proved where complex parts are marked; refuted otherwise: an unmarked complex part whose argument ends in a mark is written without parentheses (S/NP{Y}\\NP{Z}) and reading it raises AssertionError. Also: any character is taken for a slash."
  },
  {
   "property": "C94",
   "status": "partial",
   "theorems": [
    "Lambeq.Bank.C94_diagrams_suppressed",
    "Lambeq.Bank.C94_diagrams_raised",
    "Lambeq.Bank.C94_diagrams_dictionary",
    "Lambeq.Bank.C94_roundtrip",
    "Lambeq.Bank.C94_fails",
    "Lambeq.Bank.C94_batch",
    "Lambeq.Bank.C94_errors",
    "Lambeq.Bank.C94_refuted_extra_text",
    "Lambeq.Bank.C94_refuted_last_character",
    "Lambeq.Bank.C94_refuted_count",
    "Lambeq.Bank.C94_refuted_no_space",
    "Lambeq.Bank.C94_words",
    "Lambeq.Bank.C94_section",
    "Lambeq.Bank.C94_dictionary",
    "Lambeq.Bank.C94_refuted_end_of_file",
    "Lambeq.Bank.C94_suppressed",
    "Lambeq.Bank.C94_tokenised",
    "Lambeq.Bank.C94_section_raises",
    "Lambeq.Bank.C94_atomic"
   ],
   "note": "Round trip, words, batches, sections and dictionary proved in full. Refuted: with suppress_exceptions a sentence with text after the derivation gives a tree, not None; one character after the last bracket is ignored; the number of children is not checked; a missing space after an inner node makes the text unreadable; an ID on the last line raises RuntimeError even with suppress_exceptions. Diagrams of a section: C94_diagrams_suppressed, C94_diagrams_raised, C94_diagrams_dictionary."
  },
  {
   "property": "C95",
   "status": "partial",
   "theorems": [
    "Lambeq.QBox.C95_mixed_partial",
    "Lambeq.QBox.C95_refuted_complex",
    "Lambeq.QBox.C95_measure",
    "Lambeq.QBox.C95_refuted_zero",
    "Lambeq.QBox.C95_refuted_CRy",
    "Lambeq.QBox.C95_refuted_CCX",
    "Lambeq.QBox.C95_refuted_adjoint",
    "Lambeq.QBox.C95_refuted_ket",
    "Lambeq.QBox.C95_refuted_mixed_one",
    "Lambeq.QBox.C95_amplitudes_partial",
    "Lambeq.QBox.C95_probabilities_partial",
    "Lambeq.QBox.C95_refuted_scalars"
   ],
   "note": "Proved for all circuits of the stated form that are circuital. Refuted elsewhere: two successive scalars raise KeyError; complex scalars with probabilities raise; adjoints are read as the gates themselves; phase 0 and CRy raise TypeError; gates with two controls raise KeyError; Ket(1) counts as Ket(0); with discards the scalars are dropped and a post-selection on 1 is made on 0. Circuits with symbols and devices other than the default are not modelled."
  },
  {
   "property": "C96",
   "status": "partial",
   "theorems": [
    "Lambeq.Draw.C96_vertical",
    "Lambeq.Draw.C96_order",
    "Lambeq.Draw.C96_boxes_partial",
    "Lambeq.Draw.C96_clear_partial",
    "Lambeq.Draw.C96_foliated",
    "Lambeq.Draw.C96_wires",
    "Lambeq.Draw.C96_origin",
    "Lambeq.Draw.C96_total",
    "Lambeq.Draw.C96_refuted_overlap"
   ],
   "note": "Connections, order, straight wires, position and totality hold for all well-typed diagrams; no overlap of boxes and no wire through a box hold with foliated=True, or when there is a wire at every layer after the first. Refuted otherwise: when all wires have ended, the next box is drawn at (0, 0), on top of an earlier one (C96_refuted_overlap)."
  },
  {
   "property": "C97",
   "status": "partial",
   "theorems": [
    "Lambeq.TextPrint.C97_picture",
    "Lambeq.TextPrint.C97_header",
    "Lambeq.TextPrint.C97_only_pregroup",
    "Lambeq.TextPrint.C97_shift_refuted",
    "Lambeq.TextPrint.C97_aligned_partial",
    "Lambeq.TextPrint.C97_no_spacing_refuted"
   ],
   "note": "Header, picture, connections, outputs and compression hold with word_spacing >= 1 and non-empty type names (C97_picture, C97_header, C97_only_pregroup). Alignment with the types holds unless a name of odd length is longer than a type string of even length (C97_aligned_partial); refuted then (C97_shift_refuted). With word_spacing=0 swaps are misaligned (C97_no_spacing_refuted)."
  },
  {
   "property": "C98",
   "status": "partial",
   "theorems": [
    "Lambeq.PlModel.C98_born_partial",
    "Lambeq.PlModel.C98_distribution",
    "Lambeq.PlModel.C98_states_partial",
    "Lambeq.PlModel.C98_plain_partial",
    "Lambeq.PlModel.C98_refuted_norm",
    "Lambeq.PlModel.C98_refuted_mixed",
    "Lambeq.PlModel.C98_errors",
    "Lambeq.PlModel.C98_weights_partial",
    "Lambeq.PlModel.C98_refuted_scaled",
    "Lambeq.PlModel.C98_convert"
   ],
   "note": "Holds for circuital diagrams without discards whose symbols are not scaled and whose weights are not 0 (C98_convert, C98_weights_partial, C98_born_partial, C98_distribution, C98_plain_partial, C98_errors). Refuted: scaled symbols raise KeyError (C98_refuted_scaled); normalised states have norm 1/norm (C98_states_partial, C98_refuted_norm); circuits with discards always predict 1 (C98_refuted_mixed)."
  },
  {
   "property": "C99",
   "status": "partial",
   "theorems": [
    "Lambeq.QBox.C99_roundtrip_partial",
    "Lambeq.QBox.C99_refuted_order",
    "Lambeq.QBox.C99_refuted_zero",
    "Lambeq.QBox.C99_refuted_empty",
    "Lambeq.QBox.C99_refuted_ccx",
    "Lambeq.QBox.C99_refuted_midcircuit",
    "Lambeq.QBox.C99_refuted_roundtrip",
    "Lambeq.QBox.C99_import_partial",
    "Lambeq.QBox.C99_ordered"
   ],
   "note": "Holds for operations followed by measurements into all bits, if operations on three qubits use the first qubit, the scalar is not 0 and the outputs are read in the order of the qubits (C99_import_partial, C99_ordered); the round trip holds if qubits are measured into the bits with their own numbers (C99_roundtrip_partial). Refuted in general: C99_refuted_order, C99_refuted_ccx, C99_refuted_midcircuit, C99_refuted_zero, C99_refuted_empty, C99_refuted_roundtrip."
  },
  {
   "property": "C100",
   "status": "partial",
   "theorems": [
    "Lambeq.TketModel.C100_init",
    "Lambeq.TketModel.C100_shots_refuted",
    "Lambeq.TketModel.C100_untrained",
    "Lambeq.TketModel.C100_empty",
    "Lambeq.TketModel.C100_rows",
    "Lambeq.TketModel.C100_batch",
    "Lambeq.TketModel.C100_shapes",
    "Lambeq.TketModel.C100_circuital_partial",
    "Lambeq.TketModel.C100_discard",
    "Lambeq.TketModel.C100_compiled_partial",
    "Lambeq.TketModel.C100_left_refuted",
    "Lambeq.TketModel.C100_sentence_refuted"
   ],
   "note": "Proved: C100_init, C100_untrained, C100_empty, C100_rows, C100_batch, C100_shapes. The prediction is right for circuits without post-selection (C100_discard) and, with post-selection, when each post-selected qubit is measured into the bit with its own number (C100_circuital_partial, C100_compiled_partial). Refuted otherwise: C100_left_refuted, C100_sentence_refuted. The configured number of shots is ignored: C100_shots_refuted."
  },
  {
   "property": "C101",
   "status": "proved",
   "theorems": [
    "Lambeq.Duration.C101_value",
    "Lambeq.Duration.C101_text",
    "Lambeq.Duration.C101_text_seconds",
    "Lambeq.Duration.C101_fields",
    "Lambeq.Duration.C101_sixty",
    "Lambeq.Duration.C101_sixty_refuted"
   ],
   "note": "C101_value, C101_text, C101_fields; seconds are shown as 60 exactly when they are at least 59.5 (C101_sixty), e.g. 1m60s (C101_sixty_refuted). Exact arithmetic."
  },
  {
   "property": "C102",
   "status": "proved",
   "theorems": [
    "Lambeq.DTree.C102_refuted_empty_type",
    "Lambeq.DTree.C102_refuted_cycle",
    "Lambeq.DTree.C102_refuted_unreached",
    "Lambeq.DTree.C102_follows",
    "Lambeq.DTree.C102_round_trip",
    "Lambeq.DTree.C102_round_trip_leaf",
    "Lambeq.DTree.C102_edges",
    "Lambeq.DTree.C102_errors",
    "Lambeq.DTree.C102_trace"
   ],
   "note": "C102_trace (which wires each cup joins), C102_edges, C102_errors, C102_follows (the tree that the cups follow is the result), C102_round_trip, C102_round_trip_leaf. Empty types, cycles and unconnected words are refuted as sources of round trips (C102_refuted_*). Caps and break_cycles are not modelled."
  },
  {
   "property": "C103",
   "status": "partial",
   "theorems": [
    "Lambeq.DTree.C103_refuted_gap",
    "Lambeq.DTree.C103_refuted_root",
    "Lambeq.DTree.C103_refuted_generate",
    "Lambeq.DTree.C103_break_cycles",
    "Lambeq.DTree.C103_no_cycles",
    "Lambeq.DTree.C103_root_cycle"
   ],
   "note": "C103_break_cycles, C103_no_cycles, C103_root_cycle. The claim for every tree is refuted: C103_refuted_gap (IndexError when a word before the root is not in the tree), C103_refuted_root, C103_refuted_generate (trees of generate_tree with two parents: the deepest copy has no children, so words are lost)."
  },
  {
   "property": "C104",
   "status": "partial",
   "theorems": [
    "Lambeq.Oncilla.C104_predict",
    "Lambeq.Oncilla.C104_best",
    "Lambeq.Oncilla.C104_forced",
    "Lambeq.Oncilla.C104_one_root",
    "Lambeq.Oncilla.C104_fails",
    "Lambeq.Oncilla.C104_tree",
    "Lambeq.Oncilla.C104_refuted_sep",
    "Lambeq.Oncilla.C104_refuted_cycle"
   ],
   "note": "C104_predict, C104_best, C104_forced, C104_one_root (exact condition for one root), C104_tree, C104_fails. That there is always exactly one root is refuted (C104_refuted_sep), and so is that the parents have no cycle (C104_refuted_cycle). The network is a table of finite scores; ties go to the first column."
  },
  {
   "property": "C105",
   "status": "partial",
   "theorems": [
    "Lambeq.Web.C105_suppress",
    "Lambeq.Web.C105_raise",
    "Lambeq.Web.C105_types",
    "Lambeq.Web.C105_name",
    "Lambeq.Web.C105_refuted_json",
    "Lambeq.Web.C105_refuted_null",
    "Lambeq.Web.C105_refuted_blank_tokens"
   ],
   "note": "C105_suppress, C105_raise, C105_types, C105_name. Refuted: data that from_json cannot read raise even with suppress_exceptions (C105_refuted_json); the data null give None without suppress_exceptions (C105_refuted_null); two empty tokens are sent (C105_refuted_blank_tokens); names not in lower case raise KeyError (C105_name)."
  },
  {
   "property": "C106",
   "status": "partial",
   "theorems": [
    "Lambeq.Draw.C106_inside",
    "Lambeq.Draw.C106_refuted_empty",
    "Lambeq.Draw.C106_refuted_scale",
    "Lambeq.Draw.C106_accepts",
    "Lambeq.Draw.C106_total",
    "Lambeq.Draw.C106_wires",
    "Lambeq.Draw.C106_words",
    "Lambeq.Draw.C106_straight",
    "Lambeq.Draw.C106_boxes",
    "Lambeq.Draw.C106_apart",
    "Lambeq.Draw.C106_clear"
   ],
   "note": "C106_wires, C106_words, C106_straight, C106_boxes, C106_apart, C106_clear, C106_inside, C106_total. Refuted: words of empty type alone raise ValueError (C106_refuted_empty; C106_total is the exact condition); with scale=(2, 1) wires leave beside their word, whose width is not scaled (C106_refuted_scale; C106_inside for scales up to 1)."
  },
  {
   "property": "C107",
   "status": "partial",
   "theorems": [
    "Lambeq.Discopy.C107_frames",
    "Lambeq.Discopy.C107_bits",
    "Lambeq.Discopy.C107_circuit",
    "Lambeq.Discopy.C107_circuit_roundtrip",
    "Lambeq.Discopy.C107_refuted_Y",
    "Lambeq.Discopy.C107_refuted_boxes",
    "Lambeq.Discopy.C107_tensor",
    "Lambeq.Discopy.C107_same",
    "Lambeq.Discopy.C107_roundtrip",
    "Lambeq.Discopy.C107_roundtrip_back",
    "Lambeq.Discopy.C107_functorial",
    "Lambeq.Discopy.C107_refuted_frames",
    "Lambeq.Discopy.C107_refuted_dagger_frame",
    "Lambeq.Discopy.C107_refuted_word_input"
   ],
   "note": "C107_same, C107_roundtrip, C107_roundtrip_back, C107_functorial (grammar), C107_tensor, C107_circuit, C107_circuit_roundtrip, C107_frames, C107_bits. Refuted: frames lose their components, daggered frames their dagger (C107_refuted_frames, C107_refuted_dagger_frame); inputs of DisCoPy words are lost and raise ValueError (C107_refuted_word_input); Y comes back without self_adjoint (C107_refuted_Y); mixed states, swaps with bits and bits cannot be converted (C107_refuted_boxes)."
  },
  {
   "property": "C108",
   "status": "partial",
   "theorems": [
    "Lambeq.Cli.C108_refuted_numbering",
    "Lambeq.Cli.C108_refuted_json",
    "Lambeq.Cli.C108_refuted_ansatz_options",
    "Lambeq.Cli.C108_input",
    "Lambeq.Cli.C108_sentence_split",
    "Lambeq.Cli.C108_trees",
    "Lambeq.Cli.C108_draw_options",
    "Lambeq.Cli.C108_pickle",
    "Lambeq.Cli.C108_store",
    "Lambeq.Cli.C108_outputs",
    "Lambeq.Cli.C108_sentences",
    "Lambeq.Cli.C108_refuted_root_categories",
    "Lambeq.Cli.C108_images",
    "Lambeq.Cli.C108_refuted_extension",
    "Lambeq.Cli.C108_text",
    "Lambeq.Cli.C108_accepted_partial",
    "Lambeq.Cli.C108_failure_no_output",
    "Lambeq.Cli.C108_load",
    "Lambeq.Cli.C108_store_load_partial",
    "Lambeq.Cli.C108_refuted_mode",
    "Lambeq.Cli.C108_refuted_other_input",
    "Lambeq.Cli.C108_options",
    "Lambeq.Cli.C108_options_default",
    "Lambeq.Cli.C108_refuted_contains",
    "Lambeq.Cli.C108_validate",
    "Lambeq.Cli.C108_rejected"
   ],
   "note": "C108_load, C108_store_load_partial, C108_options, C108_validate, C108_rejected, C108_outputs, C108_sentences, C108_images, C108_text, C108_accepted_partial, C108_failure_no_output, C108_input, C108_sentence_split, C108_trees, C108_draw_options, C108_pickle, C108_store. Refuted: the stored mode is never used (C108_refuted_mode), a stored sentence excludes another input file (C108_refuted_other_input), image numbers are not sentence numbers (C108_refuted_numbering), JSON and ansaetze without options are accepted and fail (C108_refuted_json, C108_refuted_ansatz_options), the extension of the image file is replaced (C108_refuted_extension), root categories are ignored with a named parser (C108_refuted_root_categories), malformed options raise instead of being no member (C108_refuted_contains)."
  },
  {
   "property": "C109",
   "status": "partial",
   "theorems": [
    "Lambeq.Deriv.C109_total",
    "Lambeq.Deriv.C109_line_count",
    "Lambeq.Deriv.C109_words",
    "Lambeq.Deriv.C109_vertical",
    "Lambeq.Deriv.C109_vertical_nodes",
    "Lambeq.Deriv.C109_ascii_partial",
    "Lambeq.Deriv.C109_refuted_aligned",
    "Lambeq.Deriv.C109_refuted_ascii",
    "Lambeq.Deriv.C109_refuted_unknown",
    "Lambeq.Deriv.C109_picture_partial",
    "Lambeq.Deriv.C109_aligned_partial",
    "Lambeq.Deriv.C109_binary_fits"
   ],
   "note": "C109_picture_partial, C109_aligned_partial (for trees in which no symbol is wider than its node; C109_binary_fits: with spacing >= 2 only nodes with one child can be narrower), C109_words, C109_line_count, C109_total, C109_vertical, C109_vertical_nodes, C109_ascii_partial. Refuted: alignment below a narrow type raising (C109_refuted_aligned), ASCII for generalised rules and for vertical trees (C109_refuted_ascii), unknown rules (C109_refuted_unknown)."
  },
  {
   "property": "C110",
   "status": "partial",
   "theorems": [
    "Lambeq.Depccg.C110_types",
    "Lambeq.Depccg.C110_types_total",
    "Lambeq.Depccg.C110_types_same",
    "Lambeq.Depccg.C110_converted",
    "Lambeq.Depccg.C110_rules",
    "Lambeq.Depccg.C110_sound",
    "Lambeq.Depccg.C110_refuted_punctuation",
    "Lambeq.Depccg.C110_refuted_operations"
   ],
   "note": "C110_types, C110_types_total, C110_types_same, C110_converted, C110_rules, C110_sound. Refuted: the empty base and pairs of marks count as punctuation (C110_refuted_punctuation); type raising to an atomic category raises AttributeError, unknown operations are accepted (C110_refuted_operations)."
  },
  {
   "property": "C111",
   "status": "partial",
   "theorems": [
    "Lambeq.Bobcat.DTree.C111_tags",
    "Lambeq.Bobcat.DTree.C111_open",
    "Lambeq.Bobcat.DTree.C111_punctuation",
    "Lambeq.Bobcat.DTree.C111_coordination",
    "Lambeq.Bobcat.DTree.C111_type_changing",
    "Lambeq.Bobcat.DTree.C111_type_raising",
    "Lambeq.Bobcat.DTree.C111_lexical",
    "Lambeq.Bobcat.DTree.C111_deps",
    "Lambeq.Bobcat.DTree.C111_relations",
    "Lambeq.Bobcat.DTree.C111_argument",
    "Lambeq.Bobcat.C111_words",
    "Lambeq.Bobcat.C111_result",
    "Lambeq.Bobcat.C111_refuted_score",
    "Lambeq.Bobcat.C111_refuted_words"
   ],
   "note": "C111_deps, C111_relations, C111_argument, C111_words, C111_result, C111_tags, C111_lexical, C111_open, C111_coordination, C111_type_changing, C111_type_raising, C111_punctuation. Refuted: a score of minus infinity is never taken, TypeError (C111_refuted_score); after a word without a tree the result has the words before it only (C111_refuted_words). A complex argument may be bound by its parts and is not covered by C111_argument."
  },
  {
   "property": "C112",
   "status": "partial",
   "theorems": [
    "Lambeq.Bobcat.C112_rows",
    "Lambeq.Bobcat.C112_padding",
    "Lambeq.Bobcat.C112_refuted_dropped",
    "Lambeq.Bobcat.C112_refuted_offset",
    "Lambeq.Bobcat.C112_refuted_long",
    "Lambeq.Bobcat.C112_refuted_tags"
   ],
   "note": "C112_rows, C112_padding. Refuted: a word without a sub-token, or whose first sub-token does not start at its first character, moves the rows of all later words (C112_refuted_dropped, C112_refuted_offset); the words beyond the limit silently get no row (C112_refuted_long), and the tagger then reports fewer tags than words (C112_refuted_tags)."
  },
  {
   "property": "C113",
   "status": "partial",
   "theorems": [
    "Lambeq.PTree.C113_lines",
    "Lambeq.PTree.C113_shape",
    "Lambeq.PTree.C113_labels",
    "Lambeq.PTree.C113_readable",
    "Lambeq.PTree.C113_height_rounds",
    "Lambeq.PTree.C113_height",
    "Lambeq.PTree.C113_eq_same",
    "Lambeq.PTree.C113_same_eq",
    "Lambeq.PTree.C113_refuted_newline",
    "Lambeq.PTree.C113_refuted_brackets",
    "Lambeq.PTree.C113_refuted_equal_indices",
    "Lambeq.PTree.C113_refuted_stale"
   ],
   "note": "C113_lines, C113_shape, C113_labels, C113_readable, C113_height, C113_height_rounds, C113_eq_same, C113_same_eq. Refuted: newlines in words (C113_refuted_newline), brackets (C113_refuted_brackets), siblings with equal indices (C113_refuted_equal_indices), and after merge the cached string and height are those of the old tree (C113_refuted_stale)."
  },
  {
   "property": "C114",
   "status": "partial",
   "theorems": [
    "Lambeq.TBox.C114_boxes_partial",
    "Lambeq.TBox.C114_hash_partial",
    "Lambeq.C114_diagrams_partial",
    "Lambeq.TBox.C114_meaning",
    "Lambeq.TBox.C114_refuted_conjugate",
    "Lambeq.TBox.C114_refuted_shapes",
    "Lambeq.TBox.C114_refuted_names"
   ],
   "note": "C114_boxes_partial, C114_diagrams_partial: for data of the same shape and boxes not named like special ones, equality is identity but for the winding; C114_meaning, C114_hash_partial: with the same winding also hash and array agree. Refuted: a box equals its conjugate, with another array and hash (C114_refuted_conjugate); other shapes raise ValueError or are equal by broadcasting (C114_refuted_shapes); a box named like a dagger equals that dagger (C114_refuted_names). Symbolic data are not modelled."
  },
  {
   "property": "C115",
   "status": "partial",
   "theorems": [
    "Lambeq.C115_round_trip",
    "Lambeq.C115_once",
    "Lambeq.C115_refuted_again",
    "Lambeq.C115_text",
    "Lambeq.C115_left",
    "Lambeq.C115_objects"
   ],
   "note": "C115_round_trip: the category finds the class. C115_text: the first attempt on a dictionary gives what the text gives. Refuted: a dictionary is used up, whatever the first attempt gives (C115_once, C115_refuted_again); C115_left, C115_objects say what is left of it. The changes to the dictionaries inside it are not modelled."
  },
  {
   "property": "C116",
   "status": "partial",
   "theorems": [
    "Lambeq.Tikz.C116_defined",
    "Lambeq.Tikz.C116_ids",
    "Lambeq.Tikz.C116_lines",
    "Lambeq.Tikz.C116_order_partial",
    "Lambeq.Tikz.C116_refuted_order",
    "Lambeq.Tikz.C116_refuted_styles",
    "Lambeq.Tikz.C116_refuted_options"
   ],
   "note": "C116_ids, C116_lines: for all sequences of calls. C116_order_partial: if no wire ends where a text is put, all nodes are declared before the lines. Refuted without this (C116_refuted_order), and that wires are drawn in their own style if TikZ styles are used (C116_refuted_styles). Refuted also that options are separated (C116_refuted_options). C116_defined: with TikZ styles every line uses a style that the picture defines."
  },
  {
   "property": "C117",
   "status": "partial",
   "theorems": [
    "Lambeq.Draw.C117_levels",
    "Lambeq.Draw.C117_texts_partial",
    "Lambeq.Draw.C117_unscaled",
    "Lambeq.Draw.C117_picture",
    "Lambeq.Draw.C117_boxes",
    "Lambeq.Draw.C117_order_partial",
    "Lambeq.Draw.C117_names_partial",
    "Lambeq.Draw.C117_refuted_textpad",
    "Lambeq.Draw.C117_refuted_default",
    "Lambeq.Draw.C117_refuted_scale"
   ],
   "note": "C117_picture, C117_boxes, C117_unscaled: without scale and pad, for all diagrams. C117_order_partial: declared before use if no texts are drawn. C117_names_partial: with names of boxes but no type labels, if the drawing is not interrupted (all layers but the first have a domain, or the drawing is foliated). C117_texts_partial: the same with all texts, for every textpad between 0 and (5/2, 1/4), as the default. C117_levels: heights of boxes and ends. Refuted for textpad=(0, 0) (C117_refuted_textpad), for the default arguments and a diagram of scalars (C117_refuted_default), and that ends stay on their boxes for a scale other than 1 (C117_refuted_scale)."
  }
 ]
}