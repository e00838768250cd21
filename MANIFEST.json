{
 "claims": [
  {
   "property": "C01",
   "status": "proved",
   "theorems": [
    "C01_interpretation_restored",
    "C01_after_handler_block",
    "C01_after_interpreter_block",
    "C01_after_call"
   ],
   "note": "All programs of the model (blocks, calls, fwd, catching, evaluation), all outcomes; by induction on fuel."
  },
  {
   "property": "C02",
   "status": "proved",
   "theorems": [
    "C02_arguments_unchanged",
    "C02_coproduct_keys",
    "C02_coproduct_handles",
    "C02_left_only",
    "C02_right_first"
   ],
   "note": "Keys, order, values and behaviour for all interpretations; that the arguments are left unchanged is proved in the heap model."
  },
  {
   "property": "C03",
   "status": "proved",
   "theorems": [
    "C03_runtime_is_stack_machine",
    "C03_refinement",
    "C03_chain_order"
   ],
   "note": "Both directions of the refinement to the stack machine of Runtime/Spec.lean, for all programs; C03_chain_order is the reading for one operation."
  },
  {
   "property": "C04",
   "status": "partial",
   "theorems": [
    "C04_fwd_current_args_partial",
    "C04_fwd_nullary_fails",
    "C04_fwd_to_nullary_fails"
   ],
   "note": "Holds for all handlers that have parameters. False for handlers without parameters: two counterexample theorems (a nullary handler inside another handler call forwards the outer call's arguments; forwarding to a nullary handler works only without arguments)."
  },
  {
   "property": "C05",
   "status": "proved",
   "theorems": [
    "C05_C06_C07_rewrite_anywhere",
    "C05_coproduct_assoc",
    "C05_coproduct_assoc_interpreter"
   ],
   "note": "Contextual equivalence: the law may be applied anywhere in a program, under handler and interpreter blocks."
  },
  {
   "property": "C06",
   "status": "proved",
   "theorems": [
    "C05_C06_C07_rewrite_anywhere",
    "C06_handler_empty",
    "C06_unit_left",
    "C06_unit_right",
    "C06_interpreter_unit_fails"
   ],
   "note": "As contextual equivalence, for handler blocks as stated. For `interpreter` blocks (not claimed) the unit law fails; C06_interpreter_unit_fails records it."
  },
  {
   "property": "C07",
   "status": "proved",
   "theorems": [
    "C05_C06_C07_rewrite_anywhere",
    "C07_nested_is_coproduct"
   ],
   "note": "As contextual equivalence from every state reachable from the empty interpretation (`Live`)."
  },
  {
   "property": "C08",
   "status": "partial",
   "theorems": [
    "C08_fwd_outside",
    "C08_fwd_in_blocks",
    "C08_fwd_in_default",
    "C08_fwd_outside_apply_fails",
    "C08_fwd_in_inner_default_fails"
   ],
   "note": "Proved when neither a handler of fwd nor of apply is in force, and for the default at the end of a chain. Two counterexamples: with `apply` handled, fwd outside handlers goes to the apply handler; inside the default of another operation called from a handler, fwd runs that handler's continuation."
  },
  {
   "property": "C09",
   "status": "partial",
   "theorems": [
    "C09_unhandled_runs_default",
    "C09_handled_ignores_apply",
    "C09_apply_of_own_class",
    "C09_apply_of_base_partial",
    "C09_apply_depth_two_fails"
   ],
   "note": "Proved for Operation itself and for direct subclasses, and for every class whose own apply is handled. From depth two (Template) the base apply handler receives the intermediate class's apply instead of the operation: counterexample theorem."
  },
  {
   "property": "C10",
   "status": "proved",
   "theorems": [
    "C10_thread_local"
   ],
   "note": "All interleavings of any number of threads over enter/exit/call steps; threads whose own blocks nest."
  },
  {
   "property": "C11",
   "status": "partial",
   "theorems": [
    "C11_evaluate_under_intp",
    "C11_fwd_in_intp_fails",
    "C11_fwd_explicit_partial"
   ],
   "note": "Evaluation uses exactly the handlers of i and restores the interpretation. fwd() without arguments in a handler of i does not get the current arguments (counterexample); with explicit arguments it does."
  },
  {
   "property": "C12",
   "status": "partial",
   "theorems": [
    "C12_open_blocks_partial",
    "C12_overlapping_blocks_fails"
   ],
   "note": "Proved for well-nested histories; the negation is proved for overlapping blocks (suspended generators), where a handler stays installed after all blocks are closed."
  },
  {
   "property": "C13",
   "status": "proved",
   "theorems": [
    "C13_captured_on_entry",
    "C13_update_after_entry",
    "C13_blocks_touch_no_dict"
   ],
   "note": "Refinement from a heap of shared mutable dicts to a machine that captures by value, for all histories."
  },
  {
   "property": "C14",
   "status": "partial",
   "theorems": [
    "C14_evaluate_postfix",
    "C14_leaves",
    "C14_container_shape",
    "C14_mapping_shape_partial",
    "C14_mapping_merge",
    "C14_atom_keys_preserved",
    "C14_mapping_merged_keys_fails",
    "C14_range_fails",
    "C14_dataclass_init_false_fails",
    "C14_sets_not_evaluated_fails"
   ],
   "note": "evaluate equals the execution of the postfix code of the expression, for every interpretation, state and exception other than StopIteration (which the generators of evaluate turn into RuntimeError, see C97); shapes of sequences, tuples, named tuples, dataclasses; mappings whose evaluated keys are distinct. The code lacks the property for sequences not constructible from an iterator (range), dataclasses with init=False fields, sets, and mappings whose keys become equal: four counterexample theorems. Mappings are there those that are made of their items; Counter, ChainMap, IndexSet and views are in C84."
  },
  {
   "property": "C15",
   "status": "partial",
   "theorems": [
    "C15_evaluate_alpha_partial",
    "C15_idempotent_partial"
   ],
   "note": "All well-formed expressions (Wf): containers that can be rebuilt, sets without operations, mapping keys without terms, calls accepted by the scope analysis. Alpha-equivalence is equality of nameless forms."
  },
  {
   "property": "C16",
   "status": "partial",
   "theorems": [
    "C16_fvsof_sound",
    "C16_fvsof_exact_partial",
    "C16_free_and_bound_fails",
    "C16_order_dependent_fails",
    "C16_values_fails",
    "C16_constructed_partial"
   ],
   "note": "Soundness (nothing bound is reported) for all well-formed expressions; exactness when no variable is both free and bound, in particular for all expressions built with the API without taking bound variables out of terms. Counterexamples: fn(x(), deffn(x(), x)) loses x, the result depends on argument order, operations as values are not reported."
  },
  {
   "property": "C17",
   "status": "partial",
   "theorems": [
    "C17_defdata_renames_partial",
    "C17_defdata_alpha_partial",
    "C17_alpha_congruence_partial",
    "C17_operations_as_data_fails",
    "C17_set_of_variables_fails"
   ],
   "note": "All calls with well-formed arguments: exact renaming, alpha-equivalence, free variables, congruence. Counterexamples: operations in containers in a scoped argument are renamed although no variable of the binder; variables passed in a set are renamed in the scope but not in the set."
  },
  {
   "property": "C18",
   "status": "partial",
   "theorems": [
    "C18_call_partial",
    "C18_self_application_fails",
    "C18_beta_partial",
    "C18_variables",
    "C18_capture_fails"
   ],
   "note": "Equal to substitution on nameless forms when no binder of the body binds a parameter or a free variable of an argument, and arguments are not operations. Counterexamples: capture of the argument's variable, also in the self-application t(t) of a term built from distinct variables."
  },
  {
   "property": "C19",
   "status": "partial",
   "theorems": [
    "C19_too_few_fails",
    "C19_too_many_fails",
    "C19_unknown_keyword_partial"
   ],
   "note": "The code lacks the property: too few arguments return an open term, extra positional arguments are ignored (both proved); unknown keywords raise KeyError (proved)."
  },
  {
   "property": "C20",
   "status": "partial",
   "theorems": [
    "C20_exact",
    "C20_reflexive",
    "C20_transitive",
    "C20_documented_partial",
    "C20_symmetric_partial",
    "C20_symmetric_fails",
    "C20_interpretation_used_fails",
    "C20_nan_fails"
   ],
   "note": "syntactic_eq is characterised exactly for all values; reflexive and transitive; symmetric and as documented when compared in both directions, or without strings and bytes. Counterexamples: a list of characters equals the string but not conversely; a handler of the number terms' __eq__ is used although the documentation excludes it; NaN."
  },
  {
   "property": "C21",
   "status": "proved",
   "theorems": [
    "C21_inference_succeeds",
    "C21_root_scope",
    "C21_relative_scopes",
    "C21_idempotent"
   ],
   "note": "All signatures; scopes as finite sets of type variables."
  },
  {
   "property": "C22",
   "status": "proved",
   "theorems": [
    "C22_binding",
    "C22_bound_iff",
    "C22_duplicates_rejected"
   ],
   "note": "All signatures and argument lists; binding of arguments to parameters as by Signature.bind."
  },
  {
   "property": "C23",
   "status": "proved",
   "theorems": [
    "C23_fresh",
    "C23_identity",
    "C23_hash",
    "C23_order",
    "C23_dict",
    "C23_copy",
    "C23_default"
   ],
   "note": "All histories of creation and collection of operations, with addresses reused by the allocator; dict lookup in the presence of hash collisions. Class methods, single-dispatch methods and signatures are not part of the model of define."
  },
  {
   "property": "C24",
   "status": "partial",
   "theorems": [
    "C24_names_distinct_partial",
    "C24_unique_name_plain",
    "C24_names_distinct_fails",
    "C24_opaque_fails"
   ],
   "note": "Terms, lists, tuples and dicts whose keys contain no terms; names without exclamation mark. Counterexamples: an operation named x!1 beside two operations named x; operations inside values printed by their own repr."
  },
  {
   "property": "C25",
   "status": "partial",
   "theorems": [
    "C25_handled_partial",
    "C25_mro_partial",
    "C25_single_inheritance",
    "C25_temp_cleared",
    "C25_diamond_fails",
    "C25_stale_fails"
   ],
   "note": "An operation is handled iff some class of the MRO implements it, if no class creation failed before; the right implementation if no class inherits an implementation overridden beside it, in particular for single inheritance. Counterexamples: diamonds; methods left over from a class creation that raised."
  },
  {
   "property": "C26",
   "status": "partial",
   "theorems": [
    "C26_stable",
    "C26_bound_partial",
    "C26_distinct_partial",
    "C26_keys_partial",
    "C26_copy_fails",
    "C26_underscore_fails",
    "C26_same_class_name_fails",
    "C26_classmethod_partial",
    "C26_twice_fails",
    "C26_once_partial",
    "C26_classmethod_super_fails",
    "C26_isolated",
    "C26_class_handler",
    "C26_class_term",
    "C26_instance_first",
    "C26_late_partial",
    "C26_rebuilt_fails",
    "C26_class_late"
   ],
   "note": "Stability for all histories. Distinctness without copies of instances and for different keys. A call that stays a term is a term of the instance's operation and can be handled later, for instances that evaluate leaves as they are; for dataclasses (and classes of sequences and mappings) the term has a new operation, of a new instance, and handlers of the operation called are not found later (those of the class operation are). Counterexamples: copy.copy of an instance shares the operation, which stays bound to the original; classes A (operation b_c) and A_b (operation c) share the key; a base class of the same name; super().f for class methods; a second name, or a second class such as dataclass(slots=True) makes, fails. Handlers in the model call no operations."
  },
  {
   "property": "C27",
   "status": "partial",
   "theorems": [
    "C27_independent_partial",
    "C27_total_partial",
    "C27_default_rule_fails",
    "C27_fwd_fails",
    "C27_fwd_apply_fails",
    "C27_apply_operation_fails",
    "C27_recursion_fails",
    "C27_other_failure_fails",
    "C27_unhandled_fails",
    "C27_effect_order_fails"
   ],
   "note": "All terms, families, amounts of fuel and outcomes, if the handlers of the component call only operations it handles or nobody handles and do not use fwd; the other components are arbitrary. Eight counterexamples: calls of operations handled only by another component, fwd in handlers and in apply handlers, apply handlers (they see an internal copy of the operation; recursion for ever in the other components), a failing other component, operations handled by nobody, and the order of effects."
  },
  {
   "property": "C28",
   "status": "partial",
   "theorems": [
    "C28_once_partial",
    "C28_reentrant_fails"
   ],
   "note": "All programs making requests, with arbitrary effects and exceptions, if the components do not request each other in a cycle. A component that requests itself is computed twice and gives two values (counterexample)."
  },
  {
   "property": "C29",
   "status": "partial",
   "theorems": [
    "C29_direct_partial",
    "C29_apply_partial",
    "C29_apply_fails",
    "C29_operation_included_fails",
    "C29_nested_fails"
   ],
   "note": "Right for components that handle the operation itself or neither it nor apply. For components that handle it by apply the first argument is missing (proved in general, with an example); if only apply is handled, the operation itself is included; in nested handler calls the outer arguments are returned."
  },
  {
   "property": "C30",
   "status": "partial",
   "theorems": [
    "C30_immediate_unary",
    "C30_immediate_binary",
    "C30_sound_arith",
    "C30_sound_partial",
    "C30_build_error",
    "C30_staged",
    "C30_comparison_fails"
   ],
   "note": "All arithmetic trees, partial assignments and exceptions, for arbitrary number semantics. With comparisons only if the comparison methods are implemented for all operand types: the counterexample is x() < 2.0 at x = 1, which gives NotImplemented. == is decided syntactically and is not covered."
  },
  {
   "property": "C31",
   "status": "partial",
   "theorems": [
    "C31_hash_fails",
    "C31_dict_fails",
    "C31_same_object_partial"
   ],
   "note": "The code lacks the property: number terms hash by identity; proved for every term and two objects, with the consequence for dict lookup. Only identical objects have equal hashes."
  },
  {
   "property": "C32",
   "status": "partial",
   "theorems": [
    "C32_bounds_ignored",
    "C32_bound_fails",
    "C32_bounded_fails",
    "C32_variables",
    "C32_match_partial",
    "C32_signature_partial",
    "C32_subclass_fails",
    "C32_variable_fails",
    "C32_order",
    "C32_free"
   ],
   "note": "Proved for concrete types without type variables (the pattern and the alternatives may have them), for all bounds of type variables: existing bindings are kept and substitute(pattern, r) terminates with a type describing the concrete one up to canonicalize; the same for all parameters of a signature. Arguments are compared covariantly, as in the code. Bounds make no difference then (C32_bounds_ignored), so a solution may violate them (C32_bound_fails); a variable with a bound on the right agrees with other variables only, not even with its bound (C32_bounded_fails, C32_variables). Fails when the right side has a type variable (C32_variable_fails) and for user subclasses, which canonicalize replaces by their base (C32_subclass_fails). C32_order: acceptance depends on the order of the arguments. Typed dicts are in C80; protocols and literals are not modelled."
  },
  {
   "property": "C33",
   "status": "partial",
   "theorems": [
    "C33_acyclic_partial",
    "C33_ground_partial",
    "C33_signature_partial",
    "C33_occurs_fails",
    "C33_disjoint_fails",
    "C33_swap_fails",
    "C33_unify_fails",
    "C33_unify_partial"
   ],
   "note": "Proved for concrete types without type variables: unify terminates (given the well-founded class hierarchy) and substitute terminates on its result; substitute terminates on every acyclic substitution. Fails otherwise: no occurs check (C33_occurs_fails), also with variables renamed apart (C33_disjoint_fails, C33_swap_fails), and unify itself can run forever (C33_unify_fails)."
  },
  {
   "property": "C34",
   "status": "partial",
   "theorems": [
    "C34_construct_partial",
    "C34_member_partial",
    "C34_arguments_partial",
    "C34_comm_partial",
    "C34_flatten_partial",
    "C34_assoc_partial",
    "C34_idem_unit_partial",
    "C34_absorb_partial",
    "C34_join_partial",
    "C34_no_arguments_fails",
    "C34_empty_entry_fails"
   ],
   "note": "On the model of IndexSet and union (indexed.py 13-95) with lists for sets and dicts: membership, commutativity, associativity, idempotence, unit, absorption and the join property hold for one or more arguments and index sets as built by IndexSet(...). union() without arguments raises, and an entry emptied by mutation breaks idempotence (\u2026_fails)."
  },
  {
   "property": "C35",
   "status": "partial",
   "theorems": [
    "C35_last_partial",
    "C35_unique_partial",
    "C35_defined_partial",
    "C35_no_match_fails",
    "C35_ranks_fails",
    "C35_second_name_fails"
   ],
   "note": "cond_n on tensors of entries: the last case whose set contains the index wins, and it is the only one if the sets are disjoint; holds if each index set has one name, some case matches and values have the same rank when the case is positional. Without a matching case the first value is returned, only the first name of an index set is looked at, and values of different ranks are misaligned (\u2026_fails)."
  },
  {
   "property": "C36",
   "status": "proved",
   "theorems": [
    "C36_accepts",
    "C36_reshape",
    "C36_meaning"
   ],
   "note": "_desugar_tensor_index function by function with Python's index and slice rules. Entries other than None and Ellipsis are arbitrary selectors of one dimension (ints, slices, lists, named indices); masks reading several dimensions and joint broadcasting of several index tensors are outside the model."
  },
  {
   "property": "C37",
   "status": "partial",
   "theorems": [
    "C37_getitem",
    "C37_bind_partial",
    "C37_unbind_partial",
    "C37_bind_unbind_partial",
    "C37_unbind_bind_partial",
    "C37_other_names",
    "C37_repeated_fails"
   ],
   "note": "Tensors with named dimensions as arrays with an index of names and slices; getitem, sizesof, bind_dims and unbind_dims. Binding and unbinding are inverse for distinct names that each have one dimension. A name with two dimensions (x[a(), a()]) cannot be bound (C37_repeated_fails). vmap in _partial_eval is taken as pointwise evaluation; pytrees are left out."
  },
  {
   "property": "C38",
   "status": "partial",
   "theorems": [
    "C38_from_shape_partial",
    "C38_apply_partial",
    "C38_raises",
    "C38_duplicates_fails",
    "C38_rank_fails"
   ],
   "note": "from_shape and apply for distinct names not used by the value and enough dimensions. Duplicate names are merged and with too few dimensions Python's negative list index wraps around and names event dimensions (\u2026_fails); C38_raises says exactly when there is an IndexError instead."
  },
  {
   "property": "C40",
   "status": "partial",
   "theorems": [
    "C40_failed",
    "C40_completed_partial",
    "C40_nested",
    "C40_nested_fails"
   ],
   "note": "Model of Template calls with histories, nested calls, tool calls and retries (completions.py; template.py): a failing call leaves the agent's history as it was; a completed top-level call commits exactly the messages it made. A call nested in another Template call does not commit to its own agent (C40_nested_fails)."
  },
  {
   "property": "C41",
   "status": "proved",
   "theorems": [
    "C41_attempts",
    "C41_success",
    "C41_failure"
   ],
   "note": "Retry loop of call_assistant with the number of attempts, which errors are retried and what is raised at the end, for any sequence of replies."
  },
  {
   "property": "C42",
   "status": "partial",
   "theorems": [
    "C42_answered_partial",
    "C42_no_retry",
    "C42_caught",
    "C42_uncaught",
    "C42_retry_fails"
   ],
   "note": "Every tool call in the history has exactly one answer right after it, for runs where a retried reply has at most one tool call or no decoding error occurs. With two or more tool calls in a retried reply some stay unanswered (C42_retry_fails)."
  },
  {
   "property": "C43",
   "status": "proved",
   "theorems": [
    "C43_new",
    "C43_others",
    "C43_nodup",
    "C43_lookup",
    "C43_place",
    "C43_again"
   ],
   "note": "append_message and the ordered history: new messages go to the end, no duplicates, others unchanged."
  },
  {
   "property": "C44",
   "status": "partial",
   "theorems": [
    "C44_once",
    "C44_resolves",
    "C44_complete_partial",
    "C44_defined_partial",
    "C44_collision_fails",
    "C44_raising_fails"
   ],
   "note": "collect_tools on environments and agents whose attributes can be read; each tool once, name resolves to it. name__method may collide with a bound name, and a raising property of an agent breaks collection (\u2026_fails)."
  },
  {
   "property": "C45",
   "status": "partial",
   "theorems": [
    "C45_defined_partial",
    "C45_linear_partial",
    "C45_string",
    "C45_extracted",
    "C45_text_fails",
    "C45_unhashable_fails"
   ],
   "note": "to_content_blocks on JSON values, with strings as character codes: the blocks spell json.dumps(v) with the extracted objects in place; holds for values without text-shaped objects (whose JSON syntax is lost) and with hashable type entries (otherwise TypeError) (\u2026_fails). Pydantic's validation of the returned blocks is left out."
  },
  {
   "property": "C46",
   "status": "partial",
   "theorems": [
    "C46_round_trip",
    "C46_object",
    "C46_fields",
    "C46_arity",
    "C46_missing",
    "C46_short",
    "C46_missing_field",
    "C46_values",
    "C46_extra_fails",
    "C46_long_fails",
    "C46_extra_field_fails",
    "C46_short_fails"
   ],
   "note": "Tuples nested to any depth, with NamedTuples whose fields are of base types; base codecs are parameters. Values that fit round trip (C46_round_trip); the encoding of a tuple is the object with the keys item_i in order (C46_object); what is decoded as a tuple has the right number of items (C46_arity); objects and sequences that lack an item or field are rejected, with which error is not stated (C46_missing, C46_short, C46_missing_field). C46_values needs base codecs that accept their own values. Extra items are accepted (C46_extra_fails, C46_long_fails, C46_extra_field_fails) although the schema forbids them, and a tuple that is too short is encoded but cannot be decoded (C46_short_fails). Key names are abstract."
  },
  {
   "property": "C47",
   "status": "proved",
   "theorems": [
    "C47_content",
    "C47_merged",
    "C47_defined"
   ],
   "note": "call_user on the parts given by string.Formatter.parse (trusted); look-up, encoding, conversion and formatting are arbitrary functions that may fail."
  },
  {
   "property": "C48",
   "status": "partial",
   "theorems": [
    "C48_terminates_partial",
    "C48_ref_free_partial",
    "C48_equivalent_partial",
    "C48_recursive_fails",
    "C48_siblings_fails",
    "C48_property_fails"
   ],
   "note": "_inline_refs gives a result exactly for schemas whose used definitions are well founded (C48_terminates_partial), without $ref and $defs (C48_ref_free_partial) and meaning the same (C48_equivalent_partial). It does not end for a recursive schema (C48_recursive_fails), drops the siblings of a $ref (C48_siblings_fails), and mistakes a property named $ref or $defs (C48_property_fails). The partial theorems assume schemas without these."
  },
  {
   "property": "C49",
   "status": "proved",
   "theorems": [
    "C49_region",
    "C49_malformed",
    "C49_open",
    "C49_check",
    "C49_elsewhere"
   ],
   "note": "_region_errors and the end of _mypy_check_region for all outputs of blank lines and diagnostics, any bounds: exactly the errors in the region, in order; errors elsewhere do not matter. json.loads and the format of mypy's output are assumed. What the region is, is C60."
  },
  {
   "property": "C50",
   "status": "partial",
   "theorems": [
    "C50_seen",
    "C50_assigned_partial",
    "C50_others",
    "C50_builtins",
    "C50_raised",
    "C50_unsafe",
    "C50_unsafe_builtins",
    "C50_deleted_fails",
    "C50_guards_fails"
   ],
   "note": "RestrictedEvalProvider.exec for all code, as a tree of reads and writes on dicts computed from what was read: env's names are seen (C50_seen), assigned names get their value (C50_assigned_partial), other names and the builtins are unchanged (C50_others, C50_builtins), nothing is copied if the code raises (C50_raised). Deletions are not copied back (C50_deleted_fails) and names like getattr in env are shadowed (C50_guards_fails). UnsafeEvalProvider has all effects (C50_unsafe). The compiler and RestrictedPython's own transformation are not modelled."
  },
  {
   "property": "C51",
   "status": "partial",
   "theorems": [
    "C51_output",
    "C51_survives",
    "C51_own_output",
    "C51_prior_partial",
    "C51_prior_all",
    "C51_seeded",
    "C51_bindings_unrestricted",
    "C51_bindings_partial",
    "C51_seed",
    "C51_prior_fails",
    "C51_later_fails",
    "C51_raising_fails",
    "C51_deleted_fails",
    "C51_chain_fails"
   ],
   "note": "ReplSession under both providers, for all sequences of snippets: own output (C51_output, C51_own_output), only SystemExit ends it (C51_survives), seeded with the environment and in one dict (C51_seeded), the dicts of the seed unmodified (C51_seed); bindings accumulate, for the unrestricted provider in full (C51_bindings_unrestricted), for the restricted one for error-free assignments (C51_bindings_partial). prior_snippets lists raising snippets too (C51_prior_fails). Under the restricted provider functions do not see names bound later (C51_later_fails), bindings of a raising snippet are lost (C51_raising_fails), deletions are undone (C51_deleted_fails). A ChainMap seed gets a first layer (C51_chain_fails; documented)."
  },
  {
   "property": "C52",
   "status": "partial",
   "theorems": [
    "C52_not_offered_partial",
    "C52_others",
    "C52_recursive",
    "C52_property",
    "C52_property_recursive",
    "C52_agent_fails"
   ],
   "note": "For functions as templates and agents as environment: a non-recursive template is not offered to itself under any name, others stay. A method of an Agent is offered to itself (C52_agent_fails) as bound templates are new objects or found by name__method."
  },
  {
   "property": "C53",
   "status": "proved",
   "theorems": [
    "C53_owned",
    "C53_others"
   ],
   "note": "History ownership in the model of Template calls: a call changes only the history of its own agent."
  },
  {
   "property": "C54",
   "status": "partial",
   "theorems": [
    "C54_return_partial",
    "C54_never",
    "C54_param_fails"
   ],
   "note": "A mark on the return annotation is recognised (C54_return_partial); the check on parameters looks at inspect.Parameter objects instead of their annotations and never fires (C54_never, C54_param_fails)."
  },
  {
   "property": "C55",
   "status": "partial",
   "theorems": [
    "C55_accepts_partial",
    "C55_formats_partial",
    "C55_expression_fails",
    "C55_static_fails",
    "C55_class_fails"
   ],
   "note": "Accepted iff the part of every field before . or [ is a parameter or context name, for functions and fields starting with a word; then formatting finds all names if they still have values. Expressions like {x + 1} are accepted and fail later; static methods are validated against the names of another module, class methods not at all (\u2026_fails). Fields in format specifications are never replaced (C111_nested_fails)."
  },
  {
   "property": "C56",
   "status": "proved",
   "theorems": [
    "C56_defined",
    "C56_gather",
    "C56_all",
    "C56_keeps_name"
   ],
   "note": "gather on the tensors of C37, for names made by name_to_sym: defined exactly for non-empty index sets in range, keeps shape and names, and reads the j-th index. The documented removal of the name does not happen (C56_keeps_name)."
  },
  {
   "property": "C57",
   "status": "proved",
   "theorems": [
    "C57_stack",
    "C57_raises"
   ],
   "note": "stack of values of equal shape whose names have equal sizes, for a new name; C57_raises for no values and for names with several sizes."
  },
  {
   "property": "C58",
   "status": "partial",
   "theorems": [
    "C58_offered",
    "C58_defined_partial",
    "C58_alias_fails",
    "C58_agent_fails"
   ],
   "note": "LexicalReaders: every variable that can be serialised and is no tool gets a reader with its name; the reader returns the value. A tool bound to two names makes it raise and agents with a schema are exposed (\u2026_fails)."
  },
  {
   "property": "C59",
   "status": "partial",
   "theorems": [
    "C59_runs_partial",
    "C59_missing_fails",
    "C59_killed_fails"
   ],
   "note": "If mypy ran or reported failure by status 2 the property holds (C59_runs_partial). If there is no module mypy (python exits with 1 and no output), or the process is killed (negative status), the check passes (C59_missing_fails, C59_killed_fails). How a process ends is modelled from the documentation of subprocess and the behaviour of python -m."
  },
  {
   "property": "C60",
   "status": "partial",
   "theorems": [
    "C60_splice_partial",
    "C60_repl_partial",
    "C60_decorator_fails",
    "C60_repl_decorator_fails"
   ],
   "note": "For all trees of statements, the walk in breadth-first order, the splice and the index in the parsed source: the region has every line of the generated code and no other line (C60_splice_partial, C60_repl_partial), except that lines of decorators of the first generated statement are left out, so errors there are not reported (C60_decorator_fails, C60_repl_decorator_fails): body[0].lineno is the line of def, not of its first decorator. Assumed: ast.parse(ast.unparse(m)) has the nodes of m, and ast.unparse puts every statement on lines of its own (Laid)."
  },
  {
   "property": "C61",
   "status": "partial",
   "theorems": [
    "C61_found",
    "C61_located",
    "C61_laid",
    "C61_drift_fails"
   ],
   "note": "Each definition is found by its first line (C61_found, C61_laid), and what is found starts there (C61_located). If the source has changed so that another definition starts there, that one is taken (C61_drift_fails); names are not compared."
  },
  {
   "property": "C62",
   "status": "partial",
   "theorems": [
    "C62_rejected",
    "C62_accepted_partial",
    "C62_block_fails"
   ],
   "note": "What is rejected cannot be nested (C62_rejected); accepted code can, if star imports are in no block (C62_accepted_partial). Only top-level statements are looked at: a star import in an if or try at module level is accepted (C62_block_fails)."
  },
  {
   "property": "C63",
   "status": "partial",
   "theorems": [
    "C63_decode",
    "C63_advertised",
    "C63_round_trip_partial",
    "C63_encode",
    "C63_errors",
    "C63_name_fails",
    "C63_other_fails",
    "C63_positional_fails",
    "C63_variadic_fails",
    "C63_kwargs_fails"
   ],
   "note": "Advertised names decode to the tool (C63_advertised); for tools whose parameters can be given by name calls decode exactly if they fit (C63_decode), and which error the others give is C63_errors; the round trip holds if the tool's own name is its name in the context (C63_round_trip_partial). Otherwise the encoded call names no tool or another one (C63_name_fails, C63_other_fails). Tools with a required positional-only parameter can never be called (C63_positional_fails), a **kwargs argument arrives nested (C63_kwargs_fails). Codecs are arbitrary; inspect.Signature.bind is modelled for keyword arguments."
  },
  {
   "property": "C64",
   "status": "partial",
   "theorems": [
    "C64_arity_partial",
    "C64_accepts_partial",
    "C64_unbound",
    "C64_result",
    "C64_checked_first",
    "C64_callable",
    "C64_decorated_fails",
    "C64_unannotated_fails",
    "C64_none_fails"
   ],
   "note": "Parser, type check, compiler and executor are arbitrary; executing an undecorated definition is assumed to bind a function with its signature (Faithful). C64_arity_partial and C64_accepts_partial are for undecorated definitions, the latter for a return type other than the object None; C64_result and C64_checked_first are for all inputs and types. A decorated function may take no positional argument (C64_decorated_fails); parameters without annotations are accepted although the documentation requires them (C64_unannotated_fails); for collections.abc.Callable[[\u2026], None] nothing can be decoded (C64_none_fails). Parameter types are not compared by the code."
  },
  {
   "property": "C65",
   "status": "partial",
   "theorems": [
    "C65_code",
    "C65_function_partial",
    "C65_alive_partial",
    "C65_reused_fails",
    "C65_before_fails",
    "C65_separator_fails"
   ],
   "note": "Code objects keep their source (C65_code). Functions keep theirs as long as no function is decoded at the same address (C65_function_partial), in particular while the encoded function is alive (C65_alive_partial), if the text before the function has line feeds as its only separators; the addresses of live objects are assumed to be distinct. An address that is used again gives a function the source of another one (C65_reused_fails); what comes before the function is lost (C65_before_fails); other separators shift the source (C65_separator_fails)."
  },
  {
   "property": "C66",
   "status": "partial",
   "theorems": [
    "C66_plain_partial",
    "C66_covered",
    "C66_annotated",
    "C66_metadata_fails"
   ],
   "note": "C66_covered is for all types of the model (classes, aliases, unions, annotated types, literals, sequences), C66_plain_partial for those without registered parts, annotations and type aliases. The metadata of an annotated type is not kept: it is put into one tuple (C66_annotated, C66_metadata_fails). NewType, Concatenate and forward references are not modelled."
  },
  {
   "property": "C67",
   "status": "partial",
   "theorems": [
    "C67_sound",
    "C67_no_union",
    "C67_homogeneous",
    "C67_precise",
    "C67_typed_lost"
   ],
   "note": "Values of lists, tuples, sets, frozensets, dicts, strings and other objects; functions, operations, boxed types and subclasses of collections are left out. C67_sound is for all of them; C67_homogeneous and C67_precise are about lists. A list of dicts with string keys has no element type (C67_typed_lost)."
  },
  {
   "property": "C68",
   "status": "partial",
   "theorems": [
    "C68_idempotent",
    "C68_arguments_partial",
    "C68_arity",
    "C68_order_fails",
    "C68_phantom_fails",
    "C68_siblings_fails",
    "C68_protocol_fails"
   ],
   "note": "C68_idempotent is for all types of the model; typed dicts, terms, operations, special forms, forward references and type variables with bounds or constraints are left out, and the order of union members is kept. C68_arity: another number of arguments than the base has variables is a TypeError. C68_arguments_partial needs the declared parameters to be the variables of the canonical base in the order of first occurrence: otherwise arguments are exchanged (C68_order_fails) or there is a TypeError (C68_phantom_fails, C68_protocol_fails). Classes with a common base become equal (C68_siblings_fails)."
  },
  {
   "property": "C69",
   "status": "partial",
   "theorems": [
    "C69_first_slice_partial",
    "C69_out_of_range_partial",
    "C69_later_slice_fails",
    "C69_two_slices_fails",
    "C69_negative_start_fails",
    "C69_negative_stop_fails",
    "C69_beyond_fails"
   ],
   "note": "Keys have an entry for each dimension (C36): slices, integers and index tensors without dimensions, which is what names are while their values are gone through; lists and index tensors with dimensions are left out. C69_first_slice_partial is for keys where only the first entry is a slice other than ':', with bounds within the dimension; C69_out_of_range_partial for keys without such slices and without dimensions of size 0. A slice after a name gives extra dimensions of size 1 (C69_later_slice_fails), two slices come out transposed (C69_two_slices_fails), bounds from the end select wrong entries or raise (C69_negative_start_fails, C69_negative_stop_fails), and bounds beyond the end raise (C69_beyond_fails). Indexing without tensors is taken from torch."
  },
  {
   "property": "C70",
   "status": "proved",
   "theorems": [
    "C70_pointwise",
    "C70_inconsistent",
    "C70_plain",
    "C70_open",
    "C70_raises"
   ],
   "note": "The torch function is arbitrary, with the shape of the result depending on the shapes of the arguments; keyword arguments, several results and functions with random results are left out. torch.func.vmap is taken to apply the function at each flat index; ranges, broadcasting, flattening and reshaping are modelled. The result for given values of the names is stated for values within the sizes."
  },
  {
   "property": "C71",
   "status": "partial",
   "theorems": [
    "C71_torch",
    "C71_invalid",
    "C71_jax_plain",
    "C71_jax_named_partial",
    "C71_jax_none_fails",
    "C71_jax_ellipsis_fails",
    "C71_jax_raises_fails"
   ],
   "note": "One indexing of a tensor or array given by its visible shape; keys of names, other entries that read one dimension, None and .... C71_torch and C71_jax_plain are for all such keys; C71_jax_named_partial, for jax arrays that have named dimensions already, is for keys without None and .... With these the size of another dimension is taken, or there is an IndexError (C71_jax_none_fails, C71_jax_ellipsis_fails, C71_jax_raises_fails)."
  },
  {
   "property": "C72",
   "status": "partial",
   "theorems": [
    "C72_call_partial",
    "C72_variadic",
    "C72_positional_only_fails",
    "C72_union_fails",
    "C72_keyword_fails",
    "C72_default_fails"
   ],
   "note": "Functions apply operations to their parameters without branching; the behaviour of operations is arbitrary. C72_call_partial is for functions without positional-only parameters, whose annotations are classes or aliases, with an argument for each parameter and keywords only for keyword-only parameters. Functions with positional-only parameters (C72_positional_only_fails) or with a parameter annotated with a union, a type variable, None or a string (C72_union_fails) cannot be traced, other parameters cannot be given by keyword (C72_keyword_fails), and defaults are lost (C72_default_fails). Too many positional arguments are the subject of C19."
  },
  {
   "property": "C73",
   "status": "partial",
   "theorems": [
    "C73_instance_partial",
    "C73_stable",
    "C73_subclass_fails",
    "C73_builtin_fails",
    "C73_field_partial",
    "C73_term_field",
    "C73_slots_fails",
    "C73_class_default_fails"
   ],
   "note": "Classes are given by their order of resolution and fields; the registration of terms of builtin classes by abstract base classes is part of that order. C73_instance_partial needs that no term of a proper base was made before, and that the class is not one of the kinds with their own terms. Otherwise the term has the class of the base's terms (C73_subclass_fails, for all orders) or of the builtin's (C73_builtin_fails). C73_field_partial needs the field in the dictionary of the instance: slots (C73_slots_fails) and fields that are class attributes (C73_class_default_fails) raise."
  },
  {
   "property": "C74",
   "status": "partial",
   "theorems": [
    "C74_naming_partial",
    "C74_aligned_partial",
    "C74_frames_partial",
    "C74_frames_sampled",
    "C74_observed_partial",
    "C74_sampled",
    "C74_rank_fails",
    "C74_mask_fails"
   ],
   "note": "Model of _broadcast_to_named, the frames added to the stack and the end of _pyro_post_sample; the messenger protocol of pyro is left out. C74_naming_partial, C74_aligned_partial, C74_frames_partial and C74_observed_partial are for observations with no more dimensions than the distribution, whose names stand for one dimension each and have the sizes of the distribution; C74_aligned_partial for observations with no further names. C74_frames_sampled and C74_sampled are for all sites that are not observed. An observation with more dimensions is named wrongly (C74_rank_fails); a mask with a name that the observation has and the distribution does not is applied along another dimension (C74_mask_fails)."
  },
  {
   "property": "C75",
   "status": "partial",
   "theorems": [
    "C75_batch_shape_partial",
    "C75_sample_partial",
    "C75_log_prob_partial",
    "C75_expand_partial",
    "C75_rank_fails",
    "C75_value_rank_fails",
    "C75_enumerate_fails",
    "C75_entropy_fails",
    "C75_expand_fails"
   ],
   "note": "Event dimensions are part of the entries; parameters are arrays or numbers, not distributions. Broadcasting of shapes is taken from numpy, in the statements too. The order of iteration of sets is arbitrary. C75_batch_shape_partial, C75_sample_partial, C75_log_prob_partial and C75_expand_partial are for parameters where each array has all dimensions of the batch, for values with all of them, and for expansions with a parameter that is an array. Parameters of fewer dimensions give samples with wrong parameters or ValueError (C75_rank_fails), values of fewer dimensions wrong log densities (C75_value_rank_fails). enumerate_support gives the name to the dimension of the support (C75_enumerate_fails), entropy loses the names (C75_entropy_fails), and expand does nothing for numbers and raises for parameters of fewer dimensions (C75_expand_fails)."
  },
  {
   "property": "C76",
   "status": "partial",
   "theorems": [
    "C76_roundtrip_partial",
    "C76_tree_partial",
    "C76_trees_partial",
    "C76_vmap_partial",
    "C76_jacfwd_partial",
    "C76_jit_partial",
    "C76_vjp_partial",
    "C76_jit_fails",
    "C76_vmap_out_dims_fails",
    "C76_vjp_order_fails",
    "C76_argnums_fails",
    "C76_jvp_partial",
    "C76_jvp_fails",
    "C76_repeated_fails"
   ],
   "note": "Functions of one argument; arguments of jit, vmap and jacfwd have no names; jax.jit, torch.func.vmap, jacfwd and vjp are given by their meaning for functions of arrays, derivatives being arbitrary. Each name stands for one dimension of a result. C76_roundtrip_partial, C76_tree_partial and C76_trees_partial: names removed from results of any structure are given back. C76_vmap_partial is for out_dims=0, C76_jacfwd_partial for one argnum, C76_vjp_partial for cotangents with the names of the result in the same order, C76_jit_partial for a new signature or for functions whose results always have the same names. A jitted function gives stale names after a call with another signature (C76_jit_fails), vmap with out_dims names the wrong dimension (C76_vmap_out_dims_fails), vjp transposes a cotangent whose names are in another order (C76_vjp_order_fails), several argnums and jvp of several results raise (C76_argnums_fails, C76_jvp_fails), and so do names with two dimensions in a result, argument or cotangent (C76_repeated_fails)."
  },
  {
   "property": "C77",
   "status": "partial",
   "theorems": [
    "C77_bound_fails",
    "C77_type_partial",
    "C77_types_partial",
    "C77_typeof_partial",
    "C77_mixed_fails",
    "C77_unchecked_fails",
    "C77_subclass_fails",
    "C77_callable_fails"
   ],
   "note": "Expressions are values, collections with items of one type, and operations with positional arguments; types are those of C32. The meaning of types is any relation closed under subtypes and canonical forms (Meaning; ex_meaning is an instance). C77_type_partial, C77_types_partial and C77_typeof_partial: if handlers respect annotations, for arguments given up to canonicalize, values have the computed type; for operations with type variables in the result, types of arguments are exact (no Any, no bare generic class, no type variable); for others, whose arguments typeof does not look at, arguments are assumed to have the annotated types. Without this the type is wrong (C77_unchecked_fails); lists with items of several types (C77_mixed_fails) and functions, whose parameters are compared in the wrong direction (C77_callable_fails), give wrong types; the type of ident(A()) is the base of A (C77_subclass_fails); bounds of type variables are not checked, and an argument whose type is an unsolved variable with a bound is rejected (C77_bound_fails)."
  },
  {
   "property": "C78",
   "status": "partial",
   "theorems": [
    "C78_embed_partial",
    "C78_student_fails",
    "C78_wishart_fails",
    "C78_bind_partial",
    "C78_absent_fails",
    "C78_unbind_partial",
    "C78_unbind_checked_partial",
    "C78_bind_unbind_partial",
    "C78_unbind_bind_partial",
    "C78_nested_fails"
   ],
   "note": "Constructors and attributes of torch, pyro and numpyro are tables, as documented there. C78_embed_partial: every embedding in the tables (38 of pyro, 39 of numpyro) gives the parameters that determine the distribution; not for StudentT (C78_student_fails: loc is given as df) and Wishart (C78_wishart_fails: the Cholesky factor is given as covariance matrix) of pyro; Wishart of numpyro, ExpandedDistribution and validate_args are not in the tables. C78_bind_partial, C78_unbind_partial, C78_bind_unbind_partial and C78_unbind_bind_partial are for distributions made of tensors, other values and distributions; names have one size in all tensors, and each distribution inside has a tensor with each of the names, or else KeyError (C78_absent_fails, C78_nested_fails). C78_unbind_checked_partial: tensors given to one distribution have the same leading sizes when unbind_dims returns. The assertion about event_shape and the construction of the distribution are left out."
  },
  {
   "property": "C79",
   "status": "partial",
   "theorems": [
    "C79_torch_partial",
    "C79_jax",
    "C79_mod_fails"
   ],
   "note": "Partial for torch: `%` is excluded in C79_torch_partial and C79_mod_fails shows why (fmod instead of remainder). C79_jax covers all operators. What operators of arrays stand for is a table taken from the documentation of the libraries; constants are values whose own methods give NotImplemented for terms."
  },
  {
   "property": "C80",
   "status": "partial",
   "theorems": [
    "C80_read_partial",
    "C80_edit_partial",
    "C80_canon",
    "C80_unify_canon",
    "C80_mapping",
    "C80_absent_fails",
    "C80_readonly_fails",
    "C80_canonical_fails",
    "C80_mapping_fails",
    "C80_alias_partial",
    "C80_alias_fails",
    "C80_ends",
    "C80_recursive_fails"
   ],
   "note": "Partial: C80_read_partial is for values without undeclared keys; C80_edit_partial asks that the run uses neither of the two lax rules (absent NotRequired fields, typed dictionaries as mappings); C80_alias_partial asks for canonical fields. The negations show that each is needed, that ReadOnly of subtyp is not looked at, that canonicalize loses ReadOnly and arguments, and that recursive typed dictionaries do not end. Type variables only in the pattern; canonical classes are assumed to have the same instances; Any, unions, sequences and bounds are left out."
  },
  {
   "property": "C81",
   "status": "partial",
   "theorems": [
    "C81_context_partial",
    "C81_module",
    "C81_function",
    "C81_boundary",
    "C81_returned_fails",
    "C81_lost_fails",
    "C81_name_fails",
    "C81_helper_fails",
    "C81_static_fails",
    "C81_static_module_fails",
    "C81_class_fails"
   ],
   "note": "Partial: C81_context_partial asks that the calls of the enclosing functions are on the stack, with no other call of the same name in between; C81_module and C81_function need nothing of the callers; C81_boundary: frames beyond that of the module do not matter. The negations show that a function that has returned loses its variables and those of the functions around it, that a caller of the same name is taken for the encloser, that define called through a helper takes the globals of the helper's module, and that this is so for all static and class methods, with the library's module. Values are those at the time of the definition; that Runs describes Python's stacks is trusted."
  },
  {
   "property": "C82",
   "status": "partial",
   "theorems": [
    "C82_sessions",
    "C82_no_leak_partial",
    "C82_visible_partial",
    "C82_listing_fails",
    "C82_leak_fails",
    "C82_stale_fails"
   ],
   "note": "C82_sessions is for all sequences of actions. C82_no_leak_partial and C82_visible_partial ask that tools are collected as LiteLLMProvider does it, in the context of the running call; the negations show what template.tools does otherwise, and that variables changed during a call are not seen. Exceptions and the layer for non-recursive templates are left out."
  },
  {
   "property": "C83",
   "status": "partial",
   "theorems": [
    "C83_right",
    "C83_sound_partial",
    "C83_uniform",
    "C83_sound_fails",
    "C83_branch_fails",
    "C83_minus_fails"
   ],
   "note": "Partial: C83_right and C83_uniform hold as they are; C83_sound_partial asks that in every operator applied to a term the types of the operands fit (left not above right, and right not below all results). C83_sound_fails, C83_branch_fails and C83_minus_fails are the negations. The classes of the results of Python's own arithmetic are a hypothesis (Arith.Lawful), which leaves powers open. __round__, the reflected order of comparisons and other number classes are left out."
  },
  {
   "property": "C84",
   "status": "partial",
   "theorems": [
    "C84_values",
    "C84_arguments",
    "C84_classes",
    "C84_lookup",
    "C84_counter_fails",
    "C84_grows_fails",
    "C84_chain_fails",
    "C84_constructor_fails",
    "C84_deque_fails",
    "C84_views_fails"
   ],
   "note": "Partial: C84_values and C84_arguments are exact for values without terms; C84_classes and C84_lookup are for sequences and mappings with terms of the classes that are made of their items. The property fails for Counter, ChainMap, IndexSet, range, deques with a maximal length, and views: negations with witnesses. Equality of keys is structural (1 == True is left out), and user classes are one of the given kinds of constructors."
  },
  {
   "property": "C85",
   "status": "partial",
   "theorems": [
    "C85_bound_partial",
    "C85_stable",
    "C85_names",
    "C85_system_partial",
    "C85_free_fails",
    "C85_index_fails",
    "C85_class_fails",
    "C85_copy_fails",
    "C85_system_fails"
   ],
   "note": "Partial: C85_bound_partial is for histories without copies of instances, templates with parameters, and reads that do not raise; C85_system_partial asks that all templates have the same system prompt. The negations show the exceptions for instances with free variables or without __dict__, the change of the template's context by reads on its class, copies of agents, and agents with templates of several modules. Collisions of names on instances are in C26; nested calls are in C53."
  },
  {
   "property": "C86",
   "status": "partial",
   "theorems": [
    "C86_name",
    "C86_accepts",
    "C86_attributes",
    "C86_signature",
    "C86_instance_signature",
    "C86_function",
    "C86_free",
    "C86_builtin",
    "C86_dispatch",
    "C86_union_fails",
    "C86_nameless_fails",
    "C86_builtin_fails",
    "C86_classmethod_name_fails",
    "C86_copy_register_fails",
    "C86_method",
    "C86_copy_method_fails",
    "C86_copy_get_fails"
   ],
   "note": "The rule that functools.singledispatchmethod chooses for an argument of define is part of the model of the argument; calls are those that no handler handles. Signatures are names of parameters and a return type, and whether arguments bind is arbitrary. Unions cannot be made variables (C86_union_fails), callables without __name__ need a name and have no terms (C86_nameless_fails), builtin functions without signature have no terms (C86_builtin_fails), the name given for a class method is dropped (C86_classmethod_name_fails), and copies of operations share the registry (C86_copy_register_fails) and the place in classes (C86_copy_method_fails, C86_copy_get_fails) of the operation that is copied."
  },
  {
   "property": "C87",
   "status": "proved",
   "theorems": [
    "C87_pointwise",
    "C87_inconsistent",
    "C87_plain",
    "C87_open",
    "C87_raises",
    "C87_bind",
    "C87_bind_unbind",
    "C87_unbind_bind",
    "C87_other_names"
   ],
   "note": "Arrays with named dimensions as in C37; the jax function is arbitrary with any number of results whose shapes depend on the shapes of the arguments, and jax.vmap is taken to apply it at each flat index. meshgrid, flattening, reshaping, transposition and indexing are modelled; values are those of C70. Keys consist of names and full slices. Pytrees given to bind_dims, other terms and dtypes are left out."
  },
  {
   "property": "C88",
   "status": "partial",
   "theorems": [
    "C88_sound",
    "C88_normal",
    "C88_complete",
    "C88_idempotent",
    "C88_readme",
    "C88_opaque_fails"
   ],
   "note": "Handlers of add as functions that return a value, forward, or return an expression whose additions are handled again; evaluate with a bound on the depth of calls. Soundness is for any selection and order of the five rules; termination, normal form and idempotence under eager_mixed are for all expressions, completeness for sums of numbers and variables. With other operations results can differ for equal sums (C88_opaque_fails). Variables are identified with their id; operations other than add have one argument."
  },
  {
   "property": "C89",
   "status": "partial",
   "theorems": [
    "C89_sample_ends",
    "C89_trace",
    "C89_trace_transparent",
    "C89_replay",
    "C89_replay_trace",
    "C89_block",
    "C89_svi",
    "C89_elbo",
    "C89_plates",
    "C89_plate_obs",
    "C89_plate_obs_fails",
    "C89_plate_local",
    "C89_seed_fails",
    "C89_param_kept",
    "C89_store",
    "C89_store_fails",
    "C89_repeat_fails",
    "C89_observed_fails"
   ],
   "note": "Programs are trees of calls of sample and param and of plate blocks; all stacks of Tracer, Replay, Plate, block and default runner, with Plate's second call of sample going through all handlers, bounded by fuel that C89_sample_ends shows to suffice. Distributions are a base and a batch shape; expansion follows torch, random numbers are a counter. C89_elbo is for programs without plates; C89_replay_trace for programs without parameters. Not so: an observation is kept within plates (C89_plate_obs_fails, C89_observed_fails), seed works (C89_seed_fails), a given empty store is used (C89_store_fails), repeated names count in elbo (C89_repeat_fails). hide_fn of block sees the operation and the name; dimensions of plates are negative, obs is given by keyword; gradients and optimizers are left out."
  },
  {
   "property": "C90",
   "status": "partial",
   "theorems": [
    "C90_expand_done",
    "C90_expand_more",
    "C90_expand_empty",
    "C90_beam",
    "C90_returns",
    "C90_best",
    "C90_ends_fails",
    "C90_distinct_fails"
   ],
   "note": "The four handlers of choose and score with their states, expand, and the rounds of the search; random.choice is any function of the number of picks, heapq any implementation of its documented effect (the order of the list is left open). Programs are trees of choose and score and raise nothing; scores are integers. The search does not always end (C90_ends_fails: never, if no path has a positive score) and candidates can be equal (C90_distinct_fails)."
  },
  {
   "property": "C91",
   "status": "partial",
   "theorems": [
    "C91_add",
    "C91_comm",
    "C91_assoc",
    "C91_zero_fails",
    "C91_cancel_fails",
    "C91_repeat_fails",
    "C91_sum",
    "C91_sum_only",
    "C91_sum_map",
    "C91_fusion",
    "C91_eager_sum",
    "C91_eager_let",
    "C91_nested_fails",
    "C91_let_fails",
    "C91_pattern_fails",
    "C91_pattern",
    "C91_fused",
    "C91_fused_fails"
   ],
   "note": "SemiRingDict.__add__, eager_add, eager_dict, eager_sum, eager_let and the pattern of vertical_fusion; integer keys, values integers or dictionaries of them. Renaming of bound variables is left out of the evaluator (names of one expression differ); Dict has one entry in expressions. Nested sums and sums within Let raise (C91_nested_fails, C91_let_fails), vertical_fusion never fires (C91_pattern_fails) and its result would be wrong (C91_fused_fails); further C91_zero_fails, C91_cancel_fails, C91_repeat_fails."
  },
  {
   "property": "C92",
   "status": "partial",
   "theorems": [
    "C92_sound",
    "C92_complete_partial",
    "C92_free",
    "C92_value_partial",
    "C92_constant_fails",
    "C92_dropped_fails"
   ],
   "note": "beta_app, beta_let, eta_lam and their order, for expressions whose lambdas stand in function position only (functions as values are left out; capture and self-application there are C18_capture_fails and C18_self_application_fails). The handlers of add are any that keep the value; the last statements are for beta_add. Completeness needs that the body of each lambda has its variable when it is evaluated: constant functions cannot be applied (C92_constant_fails, C92_dropped_fails)."
  },
  {
   "property": "C93",
   "status": "partial",
   "theorems": [
    "C93_calls",
    "C93_bad_call",
    "C93_text",
    "C93_typed",
    "C93_bad_result",
    "C93_round_trip",
    "C93_assertion",
    "C93_result",
    "C93_decoded",
    "C93_empty_fails",
    "C93_empty_retry_fails",
    "C93_reasoning_fails",
    "C93_unboxed_fails"
   ],
   "note": "Lines 410-460 of call_assistant: tool calls, text, reasoning text, the boxed response; decoding of a tool call (C63), json.loads and the decoder of the response type are parameters. Within Conversation.lean: the result of a template is that of the last reply. Empty answers raise AssertionError and are not retried (C93_empty_fails, C93_empty_retry_fails); reasoning is taken for the answer if the text is empty (C93_reasoning_fails); unboxed values are rejected (C93_unboxed_fails)."
  },
  {
   "property": "C94",
   "status": "partial",
   "theorems": [
    "C94_base64",
    "C94_decode",
    "C94_image",
    "C94_object",
    "C94_injective",
    "C94_url",
    "C94_commas",
    "C94_ascii",
    "C94_complex",
    "C94_again_fails",
    "C94_plain_fails",
    "C94_corrupt_fails"
   ],
   "note": "_serialize_image, _validate_image, the complex codec, and base64 as CPython has it, on lists of bytes and characters; saving and opening of images are parameters that may fail, floats are any type. Images are not valid themselves (C94_again_fails), data URIs that are not in base 64 are decoded as if they were (C94_plain_fails), and corrupt base 64 may be decoded (C94_corrupt_fails)."
  },
  {
   "property": "C95",
   "status": "partial",
   "theorems": [
    "C95_requests",
    "C95_result",
    "C95_stop",
    "C95_ends",
    "C95_returns",
    "C95_caught",
    "C95_uncaught",
    "C95_base_fails",
    "C95_encoding_fails",
    "C95_traceback_fails",
    "C95_own_id_fails"
   ],
   "note": "Texts and roles of feedback, the retryer of tenacity with any stop condition, call_tool and its handler; decoding of replies and running and encoding of tools are arbitrary. Replies have no ids of their own and requests raise no decoding errors themselves. With include_traceback the feedback for rejected replies has 'NoneType: None' or the traceback of an unrelated exception (C95_traceback_fails); exceptions that are no Exception (C95_base_fails) and errors when the result of a tool is encoded (C95_encoding_fails) are never caught; a reply with the id of a message takes its place (C95_own_id_fails)."
  },
  {
   "property": "C96",
   "status": "partial",
   "theorems": [
    "C96_once",
    "C96_value",
    "C96_hidden",
    "C96_other",
    "C96_commute",
    "C96_commute_fails",
    "C96_direct_fails",
    "C96_replay",
    "C96_replay_fails",
    "C96_module_fails",
    "C96_replay_inside_fails"
   ],
   "note": "Pyro's stack of handlers (apply_stack, trace, condition, block, replay) is modelled from its documentation; the removal and return of names are arbitrary functions (their content is C37, C74); masks, plates and enumeration are left out. Handlers of pyro_sample log and forward, or return. pyro_sample called directly runs its handlers twice (C96_direct_fails); a condition outside of the shim is traced with names (C96_commute_fails); guide traces of other shims lose their names (C96_replay_fails, C96_module_fails); replay inside of the shim never ends (C96_replay_inside_fails)."
  },
  {
   "property": "C97",
   "status": "partial",
   "theorems": [
    "C97_evaluate",
    "C97_run",
    "C97_agrees",
    "C97_nested",
    "C97_stop_fails",
    "C97_order_fails",
    "C97_shared_fails",
    "C97_unused_fails",
    "C97_items",
    "C97_advance_fails",
    "C97_first_agrees",
    "C97_loop",
    "C97_loop_fails"
   ],
   "note": "Programs are straight-line, results are trees of binary functions of items, variables are given containers or iterators, and iter_ and next_ have no handlers. Six counterexamples: the order of next statements (C97_order_fails), shared items (C97_shared_fails), unused items (C97_unused_fails), two items of one container (C97_advance_fails), the exception at the end (C97_stop_fails) and loops over terms (C97_loop_fails). defstream has no default and is not modelled."
  },
  {
   "property": "C98",
   "status": "partial",
   "theorems": [
    "C98_family_partial",
    "C98_to_event_partial",
    "C98_to_event_twice_partial",
    "C98_log_prob_partial",
    "C98_expand_partial",
    "C98_none_fails",
    "C98_too_many_fails",
    "C98_expand_fails"
   ],
   "note": "Only shapes; all arguments are eager; array parameters have the same number of batch dimensions (the others are in C75_rank_fails and C75_expand_fails). Three counterexamples: to_event() without number takes the names into the event (C98_none_fails), too large a number does not raise with names (C98_too_many_fails), expand after to_event does nothing (C98_expand_fails). numpyro's to_event and log_prob are taken from its documentation."
  },
  {
   "property": "C99",
   "status": "partial",
   "theorems": [
    "C99_unbind_partial",
    "C99_rejects",
    "C99_bind_unbind_partial",
    "C99_unbind_bind_partial",
    "C99_ignored",
    "C99_repeated",
    "C99_twice_fails",
    "C99_other_name_fails",
    "C99_broadcast_fails"
   ],
   "note": "Distribution terms only: distributions of numpyro itself are containers for jax and are left out. C99_rejects is exact for parameters without names. C99_unbind_partial and the two round trips need distinct names and scalars or arrays that start with the sizes (the first two), or all names of the distribution (unbind after bind). Three counterexamples: names given one after the other (C99_twice_fails), binding one of two names (C99_other_name_fails), parameters that are broadcast (C99_broadcast_fails); C99_ignored is the general form of the first two and of scalars. C99_repeated holds for all distributions."
  },
  {
   "property": "C100",
   "status": "partial",
   "theorems": [
    "C100_type",
    "C100_accepts",
    "C100_operation",
    "C100_call",
    "C100_deffn",
    "C100_beta",
    "C100_sound_partial",
    "C100_bind",
    "C100_keywords",
    "C100_unannotated",
    "C100_closed",
    "C100_rule_partial",
    "C100_default_fails",
    "C100_keyword_fails",
    "C100_wider_fails",
    "C100_object_fails",
    "C100_order_fails",
    "C100_omitted_fails"
   ],
   "note": "_freshen and type variables in the types of arguments are left out, as in C77, and the class of Python functions is written in its canonical form. C100_type, C100_accepts, C100_bind, C100_keywords, C100_unannotated and C100_closed hold for all signatures; C100_call, C100_deffn, C100_beta for all arguments without type variables. C100_rule_partial is the counterpart of C32_signature_partial for all kinds of parameters. C100_sound_partial needs that the parameters of the function are supertypes of those expected, because unification compares them in the other direction (see also C77_callable_fails). Six counterexamples."
  },
  {
   "property": "C101",
   "status": "partial",
   "theorems": [
    "C101_checked_partial",
    "C101_rejected",
    "C101_prior",
    "C101_accepts",
    "C101_string",
    "C101_why",
    "C101_order",
    "C101_ends",
    "C101_decoded",
    "C101_context_partial",
    "C101_unchecked",
    "C101_exit",
    "C101_reply",
    "C101_parallel_fails",
    "C101_context_fails",
    "C101_raising_fails",
    "C101_drift_fails"
   ],
   "note": "For all parsers, checkers, compilers, tools and language models. Assumed (Lines): parsing snippets put one after another gives their statements one after another. C101_checked_partial: the check is after the snippets of earlier rounds; C101_context_partial: after all that ran before, if there is at most one snippet in a reply, which the negations C101_parallel_fails and C101_context_fails show to be needed. C101_rejected, C101_prior, C101_accepts, C101_string, C101_order, C101_decoded, C101_unchecked, C101_exit, C101_ends and C101_reply hold in full, and C101_why says why a snippet is rejected. Which lines of the source are checked is C60; the contents of linecache are C65. Snippets that call exec_code themselves are left out."
  },
  {
   "property": "C102",
   "status": "partial",
   "theorems": [
    "C102_term",
    "C102_bind",
    "C102_again",
    "C102_handler",
    "C102_calls",
    "C102_bindings",
    "C102_keywords",
    "C102_keyword_only_fails",
    "C102_default_fails",
    "C102_handler_fails",
    "C102_op_fails"
   ],
   "note": "For all signatures (Wf: the order of kinds, at most one *args and **kwargs, different names; Python ensures these) and both behaviours of inspect for a keyword with the name of a positional-only parameter. C102_term, C102_again, C102_handler, C102_calls, C102_bindings and C102_keywords hold in full; the negations show where handlers of another signature see a difference, and which names cannot be keywords. Values are not evaluated here (C15, C17); the order of **kwargs is that of the call."
  },
  {
   "property": "C103",
   "status": "partial",
   "theorems": [
    "C103_term_iff",
    "C103_nearest",
    "C103_class_partial",
    "C103_typeof",
    "C103_union_fails",
    "C103_named_fails",
    "C103_union_var",
    "C103_int_fails",
    "C103_argument_fails",
    "C103_constraint_fails",
    "C103_ambiguous_fails"
   ],
   "note": "For all result annotations of the grammar (classes, aliases, Any, unions of both kinds, literals, type variables, NewType, type aliases, Annotated, none) and all class hierarchies. The exact condition for a term excludes unions with type variables in them; C103_union_var gives it where their members stand for classes. Every described value is an instance of the term's class, except for unsolved type variables with constraints. Counterexamples: unions and Optional, NewType, type aliases, mixed literals raise; T | int depends on the argument; the first constraint is taken; classes with __call__ and __iter__ raise RuntimeError. The solution of unify and the composed class order of functools are given."
  },
  {
   "property": "C104",
   "status": "partial",
   "theorems": [
    "C104_leafwise",
    "C104_raises",
    "C104_bind_partial",
    "C104_unbind_partial",
    "C104_unbind_bind_partial",
    "C104_bind_unbind_partial",
    "C104_object",
    "C104_array_raises",
    "C104_no_names",
    "C104_empty_fails",
    "C104_missing_fails"
   ],
   "note": "C104_leafwise and C104_raises are exact for all containers; jax.tree.map keeps the structure and goes from left to right, and treedef_is_leaf is num_nodes == 1 (as in jax). The statements about entries are for arrays that all have the names (bind) or enough dimensions and none of the names (unbind); C104_object says what happens to other objects, C104_array_raises which arrays are rejected. Empty containers at the top (C104_empty_fails) and arrays without the name (C104_missing_fails) are counterexamples. Distributions and terms other than arrays with named dimensions are left out (C99 has distributions)."
  },
  {
   "property": "C105",
   "status": "partial",
   "theorems": [
    "C105_stages_partial",
    "C105_at_once_partial",
    "C105_apart_partial",
    "C105_order_partial",
    "C105_simultaneous_fails",
    "C105_order_fails"
   ],
   "note": "For operations without default other than the handled variables; the handled variables are called without arguments, the returned expressions are no operations or containers of operations and, like the variables, existed before. As in C18, no binder of the expression may bind a variable of the first stage or a free variable of its replacements (of both stages for one evaluation at once), and no binder inside a replacement one of the second stage. C105_simultaneous_fails and C105_order_fails show that the conditions on mentioned variables are needed."
  },
  {
   "property": "C106",
   "status": "partial",
   "theorems": [
    "C106_accepts_partial",
    "C106_signature_partial",
    "C106_decides",
    "C106_union_wider",
    "C106_union_narrower",
    "C106_any_fails",
    "C106_union_fails",
    "C106_order_fails",
    "C106_tuple_fails"
   ],
   "note": "For argument types without type variables and tables of classes with a measure as in C33. Patterns may have variables, each once and not bound before; unions, and tuples seen as sequences, are compared with patterns without variables only. For these parts the property fails: C106_union_fails (`T | int` rejects `int`), C106_order_fails and C106_tuple_fails (variables make the order of a union or a tuple matter), C106_any_fails (`list[int]` rejects `Any`). On types without variables unify decides the relation (C106_decides), in either order of the members of a union."
  },
  {
   "property": "C107",
   "status": "partial",
   "theorems": [
    "C107_torch_partial",
    "C107_jax",
    "C107_equal",
    "C107_closed",
    "C107_matmul",
    "C107_repeated_fails"
   ],
   "note": "Proved for all programs on jax (C107_jax), and on torch for programs whose given tensors have each name on one dimension (C107_torch_partial); C107_repeated_fails shows that torch raises for bind_dims(x[a(), a()], a), where the loops and jax give the diagonal. Functions have one result, of a shape given by the shapes of the arguments, and entries given by the entries of the arguments. Indexing is with names and full slices (C37); names that are bound without having a size, and variables without size (where the program stays a term), are outside."
  },
  {
   "property": "C108",
   "status": "partial",
   "theorems": [
    "C108_names",
    "C108_distinct",
    "C108_unique",
    "C108_str_fails",
    "C108_mark_fails",
    "C108_value_fails",
    "C108_list_fails"
   ],
   "note": "C108_names gives the text of every term exactly, C108_distinct and C108_unique say what it means for names. Partial: operations that are values have no numbers (C108_value_fails), containers of terms outside of terms are numbered for each term (C108_list_fails), an exclamation mark in a name can be mistaken for a number (C108_mark_fails), and str numbers in another order (C108_str_fails). How prettyprinter lays out text is left open; that it prints the arguments in order and passes the context on is assumed."
  },
  {
   "property": "C109",
   "status": "partial",
   "theorems": [
    "C109_torch_partial",
    "C109_jax_partial",
    "C109_term_partial",
    "C109_inconsistent",
    "C109_capture_fails",
    "C109_number_fails",
    "C109_matmul"
   ],
   "note": "C109_torch_partial, C109_jax_partial and C109_term_partial hold for any stages; C109_matmul is an instance for all sizes. Partial: for programs and values for which C107 holds (torch: each name for one dimension of a given tensor); values must not use names that the program binds (C109_capture_fails: given later, they are not captured, known from the start they are); numbers computed from names only have no value (C109_number_fails). defdata gives new names also to binders inside of a term, the model only to the outermost; functions have one result."
  },
  {
   "property": "C110",
   "status": "partial",
   "theorems": [
    "C110_value",
    "C110_handled",
    "C110_handled_torch_partial",
    "C110_later",
    "C110_stable",
    "C110_distinct",
    "C110_same",
    "C110_bounded",
    "C110_memory_fails",
    "C110_memory_torch_fails",
    "C110_update_fails",
    "C110_torch_fails"
   ],
   "note": "C110_value, C110_later, C110_stable, C110_distinct and C110_bounded hold for torch and jax and all programs; C110_same is an equivalence. C110_handled holds for jax; for torch C110_handled_torch_partial says exactly which calls a handler sees. Partial: a handler of a torch function does not see calls with tensors only (C110_torch_fails); terms with x.at[k].set(v) or torch.func are not the same when they are built again (C110_update_fails), and each of their runs leaves one more operation in the table (C110_memory_fails, C110_memory_torch_fails). Named dimensions are in C107 and C109; arguments are not containers; handlers are functions of values; x.at of an array with terms in the key, an error of jax, is taken as a term."
  },
  {
   "property": "C111",
   "status": "partial",
   "theorems": [
    "C111_parse",
    "C111_content",
    "C111_malformed",
    "C111_defined",
    "C111_braces",
    "C111_format",
    "C111_number_fails",
    "C111_nested_fails",
    "C111_price_fails",
    "C111_align_fails",
    "C111_repr_fails",
    "C111_blocks_fails"
   ],
   "note": "C111_parse, C111_content, C111_malformed, C111_braces and C111_format hold for all docstrings, values and specifications; C111_defined for fields that begin with a word (C55). Partial, because texts of the encoded value are converted and formatted, not the value: specifications for numbers raise for all values (C111_number_fails, C111_price_fails), numbers are put on the left (C111_align_fails), !r gives the repr of JSON text (C111_repr_fails), the texts around an image are each filled up (C111_blocks_fails), and fields in specifications raise (C111_nested_fails). string.Formatter.parse and format of strings are modelled from CPython and were compared with Python 3.11 on 120000 random inputs, without difference. textwrap.dedent is in C112; digits are those of ASCII; repr and ascii are arbitrary."
  },
  {
   "property": "C112",
   "status": "partial",
   "theorems": [
    "C112_dedent",
    "C112_indent",
    "C112_keeps",
    "C112_first_fails",
    "C112_content",
    "C112_defined",
    "C112_nesting_fails"
   ],
   "note": "C112_dedent (the result is characterised by a relation, in both directions), C112_indent and C112_keeps hold for all texts; C112_content and C112_defined for docstrings whose fields do not contain newlines. Partial, because a docstring whose text begins on the line of the quotes keeps the indentation of its other lines (C112_first_fails), so that its prompt changes when the template is moved (C112_nesting_fails); from Python 3.13 on the compiler removes this indentation. textwrap.dedent is modelled from Python 3.12 and was compared with Python 3.11 on 60000 random texts, without difference."
  },
  {
   "property": "C113",
   "status": "partial",
   "theorems": [
    "C113_normal",
    "C113_notebook",
    "C113_pair",
    "C113_dead_fails",
    "C113_order_fails",
    "C113_third_fails",
    "C113_other_fails"
   ],
   "note": "C113_normal holds for all expressions without other operations of two arguments, C113_pair and C113_notebook for all variables. Partial, because the notebook promises a normal form: its third rule has the pattern Term(mv, (), ()), whose last part is a sequence pattern and cannot match the keyword arguments, which are a mapping (C113_dead_fails), so that equal sums have different values (C113_order_fails, C113_third_fails), and its rule for associativity matches terms of all operations with two arguments (C113_other_fails). Variables are modelled by their ids, and the other operations have no handlers."
  },
  {
   "property": "C114",
   "status": "partial",
   "theorems": [
    "C114_loads",
    "C114_dumps",
    "C114_round",
    "C114_injective",
    "C114_ascii",
    "C114_blocks",
    "C114_bare_fails",
    "C114_surrogates_fails",
    "C114_repeated_fails",
    "C114_nan_fails"
   ],
   "note": "C114_loads (in both directions, for all texts), C114_ascii for all values, and C114_dumps, C114_round and C114_injective for values whose strings have no low surrogate directly after a high one. C114_blocks is for values that are not strings at the top and from which no text blocks are extracted (C45). Partial, because strings at the top are not quoted (C114_bare_fails), a pair of surrogates becomes one character (C114_surrogates_fails), repeated arguments of a tool call are not rejected (C114_repeated_fails), and NaN and the infinities are written although they are not JSON (C114_nan_fails). That float.__repr__ writes a number with fraction or exponent that float reads as the same number is assumed. Integers of more than 4300 digits and the recursion limit are not treated. The model was compared with Python 3.11 on 180000 random texts, without difference."
  },
  {
   "property": "C115",
   "status": "partial",
   "theorems": [
    "C115_decode",
    "C115_order",
    "C115_errors",
    "C115_round_partial",
    "C115_repeated_fails"
   ],
   "note": "C115_decode, C115_order and C115_errors for all texts. C115_round_partial: the tool has its own name in the context (otherwise C63_name_fails and C63_other_fails), the codecs give values back, and names and encoded values have no low surrogate directly after a high one (otherwise C114_surrogates_fails). An argument that is given twice is not rejected, the last value counts (C115_repeated_fails). Combines the models of C63 and C114: names and encoded values are numbers there, and the numbers are arbitrary as long as different names have different ones."
  },
  {
   "property": "C116",
   "status": "partial",
   "theorems": [
    "C116_written",
    "C116_names",
    "C116_classes",
    "C116_arguments_fails",
    "C116_result_fails",
    "C116_modules_fails",
    "C116_dots_fails",
    "C116_bare_fails"
   ],
   "note": "C116_written for types without arguments, C116_names for all types whose names are words, C116_classes for classes with different names. Partial, because arguments of types are never shown: Callable[[list[int]], dict[str, int]] is shown as Callable[[list], dict] (C116_arguments_fails, C116_result_fails); classes with the same name are not told apart (C116_modules_fails); Callable[..., r] is shown as Callable[[...], r] (C116_dots_fails), and Callable as Callable[..., Any] is (C116_bare_fails). Which types have a __name__ was checked with Python 3.11; from 3.14 on, unions have one. The constant text around the signature is left out."
  },
  {
   "property": "C117",
   "status": "partial",
   "theorems": [
    "C117_computed",
    "C117_commutes",
    "C117_closed",
    "C117_value",
    "C117_staged",
    "C117_number_fails"
   ],
   "note": "C117_computed, C117_commutes, C117_closed, C117_value for what is computed and C117_staged for values that become known in stages, for an arbitrary library. Partial, because a Python number as the argument of log_prob is not counted as known, so that the call stays a term for all values of the variables (C117_number_fails). Arrays with names are passed on as one value (what happens with the names is C75), names of dimensions are not given values, and lists or slices with terms inside are left out."
  },
  {
   "property": "C118",
   "status": "partial",
   "theorems": [
    "C118_variables",
    "C118_union",
    "C118_rejects_partial",
    "C118_accepted",
    "C118_mixed_fails",
    "C118_typing_fails"
   ],
   "note": "C118_variables and C118_union for everything that is made of type variables, C118_accepted for what is accepted otherwise, C118_rejects_partial for classes and unions of classes written with |. Partial, because the members of a union are not checked: Scoped[A | int] and Scoped[Union[int, str]] are accepted (C118_mixed_fails, C118_typing_fails); Scoped[A, B] is an AssertionError. The unions are those of Python 3.12 and 3.13; from 3.14 on Scoped[int | str] is accepted as well. How scopes are used is C21 and C22."
  },
  {
   "property": "C119",
   "status": "partial",
   "theorems": [
    "C119_round",
    "C119_contexts",
    "C119_name",
    "C119_errors",
    "C119_texts",
    "C119_alone",
    "C119_different",
    "C119_outside_fails",
    "C119_object_fails"
   ],
   "note": "C119_round, C119_contexts, C119_different, C119_alone and C119_texts for what is shown and decoded; C119_name and C119_errors for all descriptions. Partial, because it is not checked that the object found is a tool (C119_object_fails; calls of tools are checked), and a tool that is not in the context is shown under its own name, which may be that of something else (C119_outside_fails). Schemas and pydantic's reading of a description are arbitrary."
  },
  {
   "property": "C120",
   "status": "partial",
   "theorems": [
    "C120_order",
    "C120_options_partial",
    "C120_reserved_fails"
   ],
   "note": "C120_options_partial, for options other than those with which the library calls its own functions, and C120_order for what depends on the order of parameters. Partial, because options with these names are accepted and then every call raises TypeError (C120_reserved_fails). litellm.completion is taken to have model as its first parameter and **kwargs; if model were not the first, options would be lost (C120_order). Names that Operation.__call__ uses (C102) are left out."
  }
 ]
}
