{"claims": [
{"property": "C01", "status": "proved", "theorems": ["Verif.Harvest.callAndReap_output", "Verif.Harvest.reap_fails_iff", "Verif.Harvest.run_erase"], "note": "No side condition."},
{"property": "C02", "status": "partial", "theorems": ["Verif.Harvest.reap_keys", "Verif.Harvest.reap_exact_partial"], "note": "Keys: no side condition. Values: for programs satisfying Regular (no mixing of sow_cond with other modes of a name, no sow_cond in nest, uniform sow_cond in one scan, while tests do not sow); each condition is shown necessary by a witness in WitnessReap."},
{"property": "C03", "status": "proved", "theorems": ["Verif.Harvest.strict_at_most_once", "Verif.Harvest.strict_twice_rejected", "Verif.Harvest.strict_unique_site", "Verif.Harvest.strict_reaped"], "note": ""},
{"property": "C04", "status": "partial", "theorems": ["Verif.Harvest.clobber_last_partial", "Verif.Harvest.clobber_never"], "note": "The English claim is false when a loop that clobbers the name runs zero times after an earlier clobber (zeros overwrite it): Verif.Harvest.Ex.clobber_zero_trip_witness."},
{"property": "C05", "status": "proved", "theorems": ["Verif.Harvest.append_stack", "Verif.Harvest.scanDir_zip"], "note": ""},
{"property": "C06", "status": "partial", "theorems": ["Verif.Harvest.sow_cond_last_partial", "Verif.Harvest.mixed_reap", "Verif.Harvest.mixed_reap_nested", "Verif.Harvest.mixed_false_gives_zeros"], "note": "Regular; necessary by nest_drops_pred_witness, clobber_then_cond_false_witness, scan_leaked_mode_witness. Names that are sown both with 'clobber' and with sow_cond: mixed_reap / mixed_reap_nested give the exact result for every straight-line history; mixed_false_gives_zeros shows that the code then violates the property."},
{"property": "C07", "status": "proved", "theorems": ["Verif.Harvest.plant_override", "Verif.Harvest.plant_override_run"], "note": "Scope names not filtered by the lists, plants do not stack dictionaries. Sows in while tests are not planted (witness)."},
{"property": "C08", "status": "proved", "theorems": ["Verif.Harvest.plant_nothing", "Verif.Harvest.reap_plant_nothing"], "note": ""},
{"property": "C09", "status": "partial", "theorems": ["Verif.Harvest.reap_plant_roundtrip_partial"], "note": "Without clobber modes; with them it is false (roundtrip_clobber_witness)."},
{"property": "C10", "status": "proved", "theorems": ["Verif.Harvest.no_sow_left", "Verif.Harvest.second_reap_empty", "Verif.Harvest.second_plant_ignored", "Verif.Harvest.second_harvest_empty"], "note": "Sows in tests of while loops remain in the program text but are never harvested (while_test_left_witness)."},
{"property": "C11", "status": "proved", "theorems": ["Verif.Harvest.tags_isolated", "Verif.Harvest.exclusive_no_sow_left", "Verif.Harvest.harvest_tags_isolated"], "note": ""},
{"property": "C12", "status": "partial", "theorems": ["Verif.Harvest.nest_reap_partial", "Verif.Harvest.nest_reap_rejected", "Verif.Harvest.nest_plant", "Verif.Harvest.nest_no_collision_partial"], "note": "No sow_cond inside the nest: its predicate is lost (nest_drops_pred_witness)."},
{"property": "C13", "status": "partial", "theorems": ["Verif.Harvest.filtered_not_reaped", "Verif.Harvest.filtered_not_planted", "Verif.Harvest.unfiltered_same_partial", "Verif.Harvest.reap_filtered_partial", "Verif.Harvest.reap_unfiltered_path_partial", "Verif.Harvest.filtered_not_planted_nested_partial", "Verif.Harvest.Ex.blocked_scope_planted_witness", "Verif.Harvest.Ex.blocklist_rejects_witness"], "note": "Nested scopes at any depth: what is reaped with the lists is what is reaped without them, with the filtered names removed at every depth (reap_filtered_partial, reap_unfiltered_path_partial), for programs satisfying Regular that are accepted both ways; plants for filtered names have no effect at any depth when no scope name is filtered (filtered_not_planted_nested_partial). Missing because false of the code: a blocked scope is still planted (blocked_scope_planted_witness), and the lists can make reap reject a function it accepts without them (blocklist_rejects_witness)."},
{"property": "C14", "status": "partial", "theorems": ["Verif.Harvest.harvest_split_partial", "Verif.Harvest.harvest_planted_absent"], "note": "Regular."},
{"property": "C15", "status": "proved", "theorems": ["Verif.Harvest.illModed_rejected", "Verif.Harvest.illModed_plant_rejected"], "note": ""},
{"property": "C16", "status": "proved", "theorems": ["Verif.Ppl.trace_exact", "Verif.Ppl.jointSample_snd", "Verif.Ppl.trace_replay", "Verif.Ppl.trace_replay_other_key", "Verif.Ppl.Ex.replay_other_key_needs_blind", "Verif.Ppl.rvFun_latent"], "note": "Programs whose random variables are strict/append sows (random_variable only makes those). Same key: trace_replay. Another key: trace_replay_other_key, for programs that use the key only in their named random variables (Blind, a specification over the program text; replay_other_key_needs_blind shows that it is needed). Dictionaries with a nested scope stacked by a scan are excluded (Plain); such a program is not traceable. Finding: naming a function that already contains named random variables is rejected (rvFun_inner_rejected)."},
{"property": "C17", "status": "proved", "theorems": ["Verif.Ppl.intervene_fixes", "Verif.Ppl.intervene_removed", "Verif.Ppl.intervene_consistent", "Verif.Ppl.intervene_independent", "Verif.Ppl.intervene_upstream"], "note": "RvProg: strict/append sows, none in a while test; observations not stacked dictionaries."},
{"property": "C18", "status": "proved", "theorems": ["Verif.Ppl.conditional_eq_intervene", "Verif.Ppl.conditional_value", "Verif.Ppl.conditional_too_few"], "note": ""},
{"property": "C19", "status": "proved", "theorems": ["Verif.Ppl.block_output", "Verif.Ppl.trace_block", "Verif.Ppl.trace_block_names"], "note": "A nest scope name is not hidden by block: Verif.Ppl.Ex.block_scope_not_hidden."},
{"property": "C20", "status": "proved", "theorems": ["Verif.Ppl.graphReplace_output", "Verif.Ppl.graphReplace_keyError", "Verif.Ppl.graphReplace_latents"], "note": ""},
{"property": "C21", "status": "partial", "theorems": ["Verif.State.init_variables", "Verif.State.init_variable_names", "Verif.State.callAndUpdate_spec", "Verif.State.call_update_halves", "Verif.State.stateless_spec", "Verif.State.init_then_call"], "note": "init/call/update semantics for Regular functions whose state keeps its structure; modules used inside stateful functions are C68; kwargs_rules: C69."},
{"property": "C22", "status": "proved", "theorems": ["Verif.State.updates_history", "Verif.State.updates_last", "Verif.State.updates_frame", "Verif.State.unknown_assign", "Verif.State.callAndUpdate_spec"], "note": "Regular assigns (default mode clobber); assigned values have the structure of their variable. updates_frame and unknown_assign have no side condition."},
{"property": "C23", "status": "proved", "theorems": ["Verif.State.Seq.list_call_iff", "Verif.State.Seq.list_call_error", "Verif.State.Seq.list_call_append", "Verif.State.Seq.tuple_call_iff", "Verif.State.Seq.tuple_call_empty", "Verif.State.Seq.list_init_spec", "Verif.State.Seq.tuple_init_spec", "Verif.State.Seq.spec_sound"], "note": "Findings: an empty list called on x returns (x,) (empty_list_returns_tuple); a component that returns a Python list is spread by spec/init but not by call (list_output_witness)."},
{"property": "C24", "status": "proved", "theorems": ["Verif.Propagate.propagate_steps_bounded", "Verif.Propagate.propagate_no_infinite_run", "Verif.Propagate.propagate_progress", "Verif.Propagate.propagate_completes", "Verif.Propagate.propagate_least", "Verif.Propagate.propagate_order_independent", "Verif.Propagate.propagate_above_inputs", "Verif.Propagate.propagate_states", "Verif.Propagate.propagate_reduced_state_order_independent", "Verif.Propagate.call_rule_monotone", "Verif.Propagate.call_rule_idem", "Verif.Propagate.idem_of_rule_idem", "Verif.Propagate.propagate_mono", "Verif.Propagate.propagate_again", "Verif.Propagate.repeated_variable_not_idem", "Verif.Propagate.order_matters_with_repeated_variable", "Verif.Propagate.chain_inverted"], "note": "Termination needs only a rank on cells (explicit bound on the number of iterations). The result is the least solution and the same for every order, for monotone rules that are idempotent in the environment; states and reduction too; nested calls inherit the hypotheses. Witness: with a variable used twice by one equation idempotence fails and the order matters in the code."},
{"property": "C25", "status": "proved", "theorems": ["Verif.Propagate.propagate_sound"], "note": "Any predicate preserved by join, unknown, new and the rules holds of every cell at every point of every run."},
{"property": "C26", "status": "partial", "theorems": ["Verif.Inverse.chain_inverse_correct_partial", "Verif.Inverse.chain_inverse_returns", "Verif.Inverse.chain_inverse_recovers", "Verif.Inverse.inverse_recovers_inputs", "Verif.Inverse.inverse_wrong_preimage", "Verif.Inverse.inverse_nan_in_range", "Verif.Inverse.inverse_cube_nan"], "note": "Chains of unary elementwise primitives without sqrt: whatever is returned is a preimage; with any primitives and any graph, if the execution is on the branches chosen by the registered inverses every run that returns gives back exactly the inputs. The full property is false of the code: inverse_wrong_preimage, inverse_nan_in_range, inverse_cube_nan are counterexamples. Not modelled: dot_general, slicing/concatenate rules other than C28, scan rules (calls and pjit: C71)."},
{"property": "C27", "status": "partial", "theorems": ["Verif.Inverse.graph_ildj_partial", "Verif.Inverse.graph_ildj_inverse_partial", "Verif.Inverse.pair_instance", "Verif.Inverse.chain_ildj_partial", "Verif.Inverse.chain_ildj_forward_partial", "Verif.Inverse.bin_left_ildj_partial", "Verif.Inverse.bin_right_ildj_partial", "Verif.Inverse.reduce_ildj_triangular_partial", "Verif.Inverse.reshape_resets_ildj", "Verif.Inverse.convert_resets_ildj", "Verif.Inverse.div_left_ildj_nan", "Verif.Inverse.pow_left_ildj_nan", "Verif.Inverse.pow_right_ildj_nan"], "note": "Chains without reshape/convert_element_type: the ILDJ is log |d inverse/dy| (and -log |f'(x)|). Graphs of n inputs and n outputs with shared variables: in every order of propagation the total ILDJ, when a number, is -log |det f'(x)| = log |det (f^-1)'(y)| (graph_ildj_partial, graph_ildj_inverse_partial; pair_instance shows a case). False of the code in general: reshape/convert reset the ILDJ to 0, div/pow take logs without absolute value (nan). Arrays are scalars."},
{"property": "C28", "status": "partial", "theorems": ["Verif.Inverse.concat_faithful", "Verif.Inverse.top_complete", "Verif.Inverse.join_faithful", "Verif.Inverse.join_coverage_partial", "Verif.Inverse.containment_of_nested", "Verif.Inverse.join_coverage_1d", "Verif.Inverse.pieces_complete_1d", "Verif.Inverse.join_loses_coverage", "Verif.Inverse.tiles_not_merged"], "note": "Nothing is invented (join_faithful, concat_faithful, top_complete) for any slices; coverage is preserved when comparable slices are nested, in particular in one dimension; in two dimensions it is false (join_loses_coverage)."},
{"property": "C29", "status": "partial", "theorems": ["Verif.LogProb.log_prob_returns_iff", "Verif.LogProb.log_prob_sum", "Verif.LogProb.log_prob_terminates", "Verif.LogProb.log_prob_jacobian_partial", "Verif.LogProb.rvPair_instance", "Verif.LogProb.log_prob_change_of_variables_partial", "Verif.LogProb.log_prob_reshape_wrong", "Verif.LogProb.log_prob_sum_of_two_raises"], "note": "For programs without nested calls: returns iff every random variable and its parameters are recovered, else raises; the value is the sum of the log-densities, each once, at the values of the execution plus the ILDJs of the cells; with n random variables and n outputs the ILDJs are minus the log-determinant of the Jacobian (log_prob_jacobian_partial, any graph, any order of propagation; rvPair_instance shows a case). The programs are jaxprs as staged: staging drops equations that the outputs do not depend on, so a random variable that does not influence the output is not counted. Missing: nested calls (C58). False with reshape: log_prob_reshape_wrong."},
{"property": "C30", "status": "partial", "theorems": ["Verif.Effect.effect_handler_returns_partial", "Verif.Effect.effect_handler_unhandled_partial", "Verif.Effect.effect_handler_custom_jvp_raises", "Verif.Effect.effect_handler_iff", "Verif.Effect.effect_handler_program_order", "Verif.Effect.effect_handler_no_handlers", "Verif.Effect.effect_handler_values", "Verif.Effect.effect_handler_other_handlers_ignored", "Verif.Effect.handler_for_pjit_ignored", "Verif.Effect.handler_inside_scan_ignored", "Verif.Effect.effect_handler_closed", "Verif.Effect.effect_handler_positions"], "note": "Evaluation with handlers is equivalent to: every primitive that takes functions as arguments has a handler, and there is one execution per primitive in program order (call and pjit bodies in place), the state threaded left to right. Missing because false of the code: custom_jvp_call/custom_vjp_call without a handler raises (effect_handler_custom_jvp_raises). Further limits proved as negations: handlers for pjit/call primitives and for primitives inside scan/cond/while are never used. Map primitives are not modelled."},
{"property": "C31", "status": "partial", "theorems": ["Verif.Matching.match_sound_partial", "Verif.Matching.match_error_iff_partial", "Verif.Matching.is_match_iff_partial", "Verif.Matching.choice_in_star_incomplete", "Verif.Matching.choice_name_unsound", "Verif.Matching.star_name_unsound", "Verif.Matching.accumulate_twice_loses", "Verif.Matching.not_before_bound_incomplete", "Verif.Matching.empty_accumulate_unbound", "Verif.Matching.Strings.string_pattern_spec", "Verif.Matching.Strings.vars_match_iff", "Verif.Matching.Strings.vars_match_sound_partial", "Verif.Matching.Strings.vars_match_other_kind"], "note": "Proved for Regular patterns (names of Stars/accumulated names/named Choices fresh, names of Not bound before, no Choice inside Star): match returns a substitution that makes the pattern equal to the expression, MatchError iff none exists. Outside that class the code is wrong: choice_in_star_incomplete, choice_name_unsound, star_name_unsound, accumulate_twice_loses, not_before_bound_incomplete. Strings and lists: a string pattern matches only an equal string (string_pattern_spec), but a tuple of variables also matches lists and strings, so that the substitution does not make it equal (vars_match_other_kind); other patterns with lists are not modelled."},
{"property": "C32", "status": "partial", "theorems": ["Verif.Matching.match_all_sound_partial", "Verif.Matching.match_all_complete_partial", "Verif.Matching.match_all_choice_incomplete", "Verif.Matching.match_all_star_order_partial", "Verif.Matching.match_star_extremal_partial"], "note": "Every result is a match; without Choice every matching substitution extends a result. With Choice match_all commits to the first alternative that has results (match_all_choice_incomplete)."},
{"property": "C33", "status": "proved", "theorems": ["Verif.Matching.combinators_preserve", "Verif.Matching.iterated_normal", "Verif.Matching.ruleList_spec", "Verif.Matching.rewriting_returns", "Verif.Matching.term_rewriter_normal", "Verif.Matching.makeRule_spec", "Verif.Matching.makeRule_dict_raises", "Verif.Matching.normal_form_needs_measure"], "note": "All combinators, for any meaning compatible with tuples and dicts; iterated/top_down as partial functions. Finding: make_rule raises on dicts (lru_cache)."},
{"property": "C34", "status": "partial", "theorems": ["Verif.JaxRewrite.bound_expression_eval_partial", "Verif.JaxRewrite.rewrite_preserves_partial", "Verif.JaxRewrite.rewrite_bottom_up_partial", "Verif.JaxRewrite.pjit_constants_lost", "Verif.JaxRewrite.rewrite_kwargs_fail"], "note": "All jaxprs with nested calls whose inner closed jaxprs have no constants: evaluating the bound expression gives the outputs of eval_jaxpr, also after a bottom-up pass with a rule that preserves evaluation. Not so with constants of a pjit (pjit_constants_lost) or keyword arguments (rewrite_kwargs_fail)."},
{"property": "C35", "status": "proved", "theorems": ["Verif.Autoconj.compose_einsums_value", "Verif.Autoconj.compose_einsums_returns", "Verif.Autoconj.compose_mismatch", "Verif.Autoconj.split_reconstitute", "Verif.Autoconj.compose_exhausted", "Verif.Autoconj.split_formula_iff", "Verif.Autoconj.split_one_arrow"], "note": "Exact arithmetic in any commutative semiring. compose_einsums raises when more than 52 index names are needed (compose_exhausted)."},
{"property": "C36", "status": "proved", "theorems": ["Verif.Autoconj.addRule_preserves", "Verif.Autoconj.addnRule_preserves", "Verif.Autoconj.addn_sem", "Verif.Autoconj.canonicalize_value"], "note": "AddN without broadcasting."},
{"property": "C37", "status": "partial", "theorems": ["Verif.Mcmc.metropolis_detailed_balance", "Verif.Mcmc.metropolis_random_walk_detailed_balance", "Verif.Mcmc.metropolisHastings_detailed_balance_partial", "Verif.Mcmc.metropolisHastings_random_walk_detailed_balance", "Verif.Mcmc.metropolisHastings_asymmetric_fails", "Verif.Mcmc.metropolisHastings_swapped_detailed_balance", "Verif.Mcmc.acceptance_probability", "Verif.Mcmc.metropolis_transition", "Verif.Mcmc.metropolisHastings_random_walk_eq"], "note": "metropolis: detailed balance and stationarity for every measurable state space, target and symmetric proposal, with random_walk shown symmetric. metropolis_hastings: only for symmetric proposal densities; the code inverts the proposal ratio (kernels.py:121-128), shown to break stationarity on a two-state example; with the two log_prob calls exchanged the full statement is proved."},
{"property": "C38", "status": "proved", "theorems": ["Verif.Mcmc.leapfrog_reversible", "Verif.Mcmc.leapfrog_volume_preserving"], "note": "Over the reals; the gradient is an arbitrary function."},
{"property": "C39", "status": "partial", "theorems": ["Verif.Optix.chain_pipeline_partial", "Verif.Optix.chain_outputs_partial", "Verif.Optix.chain_total", "Verif.Optix.chain_nil", "Verif.Optix.chain_outputs_stateful", "Verif.Optix.chain_assoc_stateful", "Verif.Optix.chain_singleton", "Verif.Optix.chain_assoc", "Verif.Optix.chain_stateless_raises", "Verif.Optix.chain_duplicate_raises", "Verif.Optix.call_keeps_variables"], "note": "Pipeline semantics over all histories incl. final state, identity, singleton, associativity; for functions with state these hold with harvest as it is (chain_outputs_stateful, chain_assoc_stateful). Where harvest records a module without variables (by reading the code it does), a chain with a stateless component raises: chain_stateless_raises; a kwarg named update_0 collides."},
{"property": "C40", "status": "partial", "theorems": ["Verif.Optix.clip_by_global_norm_le", "Verif.Optix.clip_by_global_norm_id", "Verif.Optix.clip_by_global_norm_direction", "Verif.Optix.clip_bounds_partial", "Verif.Optix.clip_container_raises", "Verif.Optix.clip_by_global_norm_eq", "Verif.Optix.clip_closest_partial", "Verif.Optix.clip_by_global_norm_history"], "note": "clip_by_global_norm proved for max_norm > 0. clip only works on a bare array: on every container it raises because the mapped function clips the whole container (clip_container_raises)."},
{"property": "C41", "status": "proved", "theorems": ["Verif.Optix.trace_closed_form", "Verif.Optix.rms_closed_form", "Verif.Optix.stddev_closed_form", "Verif.Optix.stddev_variance_nonneg", "Verif.Optix.adam_closed_form", "Verif.Optix.adam_bias_correction", "Verif.Optix.schedule_closed_form", "Verif.Optix.noise_closed_form", "Verif.Optix.apply_every_closed_form", "Verif.Optix.apply_every_total", "Verif.Optix.sgd_closed_form", "Verif.Optix.adam_constant", "Verif.Optix.sgd_nesterov_closed_form", "Verif.Optix.noisy_sgd_closed_form", "Verif.Optix.adam_outputs", "Verif.Optix.rmsprop_outputs"], "note": "Closed forms of state and outputs for every transformation over all gradient sequences. The last six theorems (ready-made optimizers, chains containing scale) are for a harvest that skips modules without variables (recordEmpty = false); with it recording them, those chains raise (C39, C53)."},
{"property": "C42", "status": "partial", "theorems": ["Verif.NN.C42_serial_composes", "Verif.NN.C42_nested_serial", "Verif.NN.C42_spec_composes", "Verif.NN.C42_shapes_partial", "Verif.NN.C42_shapes_counterexample", "Verif.NN.C42_deconv_counterexample", "Verif.NN.C42_empty_serial", "Verif.NN.C42_reshape_int", "Verif.NN.C42_nesting_changes_keys"], "note": "Composition (with keys and updates), nesting without a key, composition of specs, and shape agreement for templates without -1 dimensions whose Deconv layers with strides get no empty images. Missing: shape agreement fails for Reshape with -1 and for Deconv with strides on an empty image (counterexamples); nesting changes the keys; the empty Serial cannot be built."},
{"property": "C43", "status": "partial", "theorems": ["Verif.NN.Tree.C43_flatten_unflatten_partial", "Verif.NN.Tree.C43_tree_roundtrip_partial", "Verif.NN.Tree.C43_tree_map_partial", "Verif.NN.Tree.C43_tree_flatten_total", "Verif.NN.Tree.C43_serialize_partial", "Verif.NN.Tree.C43_empty_serial", "Verif.NN.Tree.C43_serial_info_lost", "Verif.NN.Tree.C43_eqJaxpr_counterexample"], "note": "Round trip at one level, through tree_flatten/tree_unflatten, tree_map and serialisation; totality. Excluded: a Serial given an info by replace, the empty Serial (both with proofs that they fail). _EqJaxpr makes tree definitions of different function modules equal (counterexample)."},
{"property": "C44", "status": "proved", "theorems": ["Verif.NN.C44_dropout_unbiased", "Verif.NN.C44_rate_is_keep_probability", "Verif.NN.C44_dropout_variance", "Verif.NN.C44_dropout_inference", "Verif.NN.C44_dropout_needs_rng"], "note": "Expectation over all masks; rate is the keep probability; variance; identity outside training; error without a key."},
{"property": "C45", "status": "partial", "theorems": ["Verif.Util.C45_filter_kwargs_partial", "Verif.Util.C45_check_in_kwargs", "Verif.Util.C45_filtered_accepted", "Verif.Util.C45_kwonly_counterexample", "Verif.Util.C45_posonly_counterexample"], "note": "Exact characterisation of filter_kwargs and check_in_kwargs against Python signatures. Missing: keyword-only parameters with a default are dropped and positional-only ones are kept (counterexamples)."},
{"property": "C46", "status": "proved", "theorems": ["Verif.Util.Ctx.C46_contexts_restored", "Verif.Util.Ctx.C46_none_left", "Verif.Util.Ctx.C46_innermost_context"], "note": "One thread; the store is thread-local."},
{"property": "C47", "status": "proved", "theorems": ["Verif.Util.C47_tie_all", "Verif.Util.C47_tie_in", "Verif.Util.C47_tie_all_map"], "note": "For pytrees as in the model of C43."},
{"property": "C48", "status": "proved", "theorems": ["Verif.Autoconj.transposeRule_preserves", "Verif.Autoconj.squeezeRule_preserves", "Verif.Autoconj.reduceSumRule_preserves", "Verif.Autoconj.dotRule_preserves", "Verif.Autoconj.composeRule_preserves", "Verif.Autoconj.canonicalize_value"], "note": "Operations whose operands have more than 52 axes in all are outside the model (letters would run out)."},
{"property": "C49", "status": "proved", "theorems": ["Verif.Autoconj.canonicalize_never_loops", "Verif.Autoconj.canonicalize_canonical", "Verif.Autoconj.canonicalize_returns"], "note": ""},
{"property": "C50", "status": "proved", "theorems": ["Verif.Mcmc.hmc_detailed_balance", "Verif.Mcmc.mala_detailed_balance", "Verif.Mcmc.hmc_transition", "Verif.Mcmc.mala_langevin"], "note": "Over the reals, for states that are pytrees of real arrays (coordinates of any finite type), momentum as independent standard normals."},
{"property": "C51", "status": "proved", "theorems": ["Verif.Mcmc.sample_chain_spec", "Verif.Mcmc.sample_chain_resume", "Verif.Mcmc.sample_chain_stationary", "Verif.Mcmc.sample_chain_module_resumes", "Verif.Mcmc.sample_chain_module_stateless_raises"], "note": " Through state.init, the module of sample_chain resumes the chain for kernels with variables (sample_chain_module_resumes) but raises at every call for kernels without variables (sample_chain_module_stateless_raises), because the assignment of the empty kernel module is recorded and undeclared."},
{"property": "C52", "status": "proved", "theorems": ["Verif.Mcmc.constrain_pushforward"], "note": "Assumes the ildj interpreter returns the true log Jacobian determinant of the inverse (C26-C28 say when it does)."},
{"property": "C53", "status": "partial", "theorems": ["Verif.Optix.optimize_trajectory", "Verif.Optix.optimize_momentum", "Verif.Optix.optimize_sgd_partial", "Verif.Optix.optimize_sgd_quadratic_partial", "Verif.Optix.optimize_stateless_raises", "Verif.Optix.optimize_chain_raises", "Verif.Optix.optimize_sgd_raises", "Verif.Optix.optimize_adam_raises", "Verif.Optix.optimize_rmsprop_raises"], "note": "optimize_trajectory for every update function with init_key that does not raise. The sgd clause fails at the pinned commit: harvest records the module of scale, which has no variables, so optimize with sgd/adam/rmsprop raises (optimize_sgd_raises, optimize_adam_raises, optimize_rmsprop_raises); the *_partial theorems assume a harvest that skips modules without variables (flag recordEmpty = false). A bare update without init_key raises (optimize_stateless_raises)."},
{"property": "C54", "status": "proved", "theorems": ["Verif.NN.C54_softmax", "Verif.NN.C54_log_softmax", "Verif.NN.C54_softmax_shift"], "note": "jax.nn.softmax and log_softmax are modelled by their defining formulas over the reals."},
{"property": "C55", "status": "proved", "theorems": ["Verif.NN.C55_pooling", "Verif.NN.C55_pooling_batched", "Verif.NN.C55_pooling_bounds", "Verif.NN.C55_same_size", "Verif.NN.C55_same_size_stride_one", "Verif.NN.C55_valid_size"], "note": "reduce_window is written out in the model; real entries."},
{"property": "C56", "status": "proved", "theorems": ["Verif.NN.C56_batchnorm_normalises", "Verif.NN.C56_inference_entry", "Verif.NN.C56_update_batched", "Verif.NN.C56_update_converges", "Verif.NN.C56_moving_var_nonneg", "Verif.NN.C56_update_single", "Verif.NN.C56_update_single_counterexample", "Verif.NN.C56_inference_updates_state"], "note": "Also proved: an unbatched update uses the wrong channel when axis does not contain 0, and training=False still updates the statistics."},
{"property": "C57", "status": "proved", "theorems": ["Verif.Harvest.Summary.get_summaries_output", "Verif.Harvest.Summary.get_summaries_keys", "Verif.Harvest.Summary.get_summaries_other_tags", "Verif.Harvest.Summary.get_summaries_accepts", "Verif.Harvest.Summary.get_summaries_values_partial", "Verif.Harvest.Summary.get_summaries_of_summary", "Verif.Harvest.Summary.get_summaries_leaves_tags"], "note": "Values (get_summaries_values_partial) under Regular, as for C02; the statement's claims (output, keys, other tags, acceptance) have no side condition."},
{"property": "C58", "status": "partial", "theorems": ["Verif.LogProb.Nested.nested_log_prob_returns_iff", "Verif.LogProb.Nested.nested_log_prob_counts_all_partial", "Verif.LogProb.Nested.nested_log_prob_change_of_variables", "Verif.LogProb.Nested.nested_log_prob_invariant", "Verif.LogProb.Nested.nested_log_prob_terminates", "Verif.LogProb.Nested.unreached_call_is_not_counted", "Verif.LogProb.Nested.without_the_call_it_raises", "Verif.LogProb.Nested.C58_call_changes_density", "Verif.LogProb.Nested.C58_density_without_the_call"], "note": "Calls are counted to any depth when each call mentions an input or output of the program it is in (WellNested), and chains wrapped in calls in any way have the log_prob of the unwrapped chain. Missing because false: a call none of whose variables is ever recovered is silently left out of the sum (unreached_call_is_not_counted) where the unwrapped program raises (without_the_call_it_raises); and a call with several operands can change the ILDJ and so the density in every order of propagation (C58_call_changes_density, against C58_density_without_the_call)."},
{"property": "C59", "status": "partial", "theorems": ["Verif.LogProb.Nested.plate_log_prob_partial", "Verif.LogProb.Nested.plate_log_prob_value", "Verif.LogProb.Nested.plate_ildj_counted_twice"], "note": "Proved when the sample is the value of the plate (transformations inside the plate are arbitrary chains). False when transformations are applied outside of the plate: their ILDJ is counted twice (plate_ildj_counted_twice); plate_log_prob_value gives the value actually returned."},
{"property": "C60", "status": "proved", "theorems": ["Verif.NN.C60_dense_returns", "Verif.NN.C60_dense_entry", "Verif.NN.C60_dense_affine", "Verif.NN.C60_reshape", "Verif.NN.C60_conv_entry", "Verif.NN.C60_activations"], "note": "Real arithmetic; lax.conv_general_dilated and np.dot are written out in the model."},
{"property": "C61", "status": "partial", "theorems": ["Verif.Harvest.plant_accepts_iff", "Verif.Harvest.plant_branch_twice_rejected", "Verif.Harvest.plant_strict_twice_rejected_partial", "Verif.Harvest.plant_strict_twice_in_call"], "note": "Exact: plant_accepts_iff says which functions plant accepts: control flow that can be harvested (FlowOk, C15) and no second sow of a planted strict/append name in the same context (function, body of a call, branch, loop, scope). So the property holds within each context, and everywhere inside a branch (plant_branch_twice_rejected); missing because false of the code: sows in different contexts, since PlantContext is created anew there (plant_strict_twice_in_call)."},
{"property": "C62", "status": "proved", "theorems": ["Verif.NN.C62_batchnorm_fresh", "Verif.NN.C62_batchnorm_first_update", "Verif.NN.C62_pool_default_strides", "Verif.NN.C62_conv_default_strides", "Verif.NN.C62_parameters"], "note": ""},
{"property": "C63", "status": "proved", "theorems": ["Verif.Inverse.Custom.custom_chain_inverse", "Verif.Inverse.Custom.custom_chain_recovers", "Verif.Inverse.Custom.custom_chain_ildj", "Verif.Inverse.Custom.custom_single_run", "Verif.Inverse.Custom.custom_answers", "Verif.Inverse.Custom.custom_noninvertible", "Verif.Inverse.Custom.custom_none_raises", "Verif.Inverse.Custom.custom_nothing_missing", "Verif.Inverse.Custom.custom_recovers_inputs"], "note": "Cells unknown or complete; arrays and ILDJs of arbitrary types; exceptions of rules are an outcome of the call. The default f_ildj = ildj(inverse(f_inv)) is covered by C27; closed-over constants are modelled as extra inputs that the rule passes through."},
{"property": "C64", "status": "partial", "theorems": ["Verif.Inverse.Bijector.bijector_compose_partial", "Verif.Inverse.Bijector.bijector_compose_returns", "Verif.Inverse.Bijector.bijector_single_never_raises", "Verif.Inverse.Bijector.bijector_compose_raises"], "note": "Every run that returns gives the right value and ILDJ, for compositions of any length; a run that returns exists; a single call never raises. Missing because false of the code: for every composition of two or more, some propagation order raises (UnboundLocalError), shown by bijector_compose_raises. Parameters are modelled as literals."},
{"property": "C65", "status": "partial", "theorems": ["Verif.LogProb.Batched.rv_log_prob_partial", "Verif.LogProb.Batched.rv_log_prob_iff", "Verif.LogProb.Batched.rv_log_prob_outer_only_raises", "Verif.LogProb.Batched.rv_log_prob_outer_only_wrong"], "note": "Proved when every parameter is mapped along axis 0 by the innermost vmaps only (all-axis-0 and closed-over parameters included); rv_log_prob_iff shows for scalar parameters that the property is false of the code in every other case. TFP's broadcasting of batch shapes is assumed as documented."},
{"property": "C66", "status": "partial", "theorems": ["Verif.Harvest.Lift.reap_vmap", "Verif.Harvest.Lift.reapBy_outputs", "Verif.Harvest.Lift.plant_vmap", "Verif.Harvest.Lift.reap_vmap_commutes_partial", "Verif.Harvest.Lift.reap_vmap_unmapped", "Verif.Harvest.Lift.reap_vmap_axis", "Verif.Harvest.Lift.reap_spec", "Verif.Harvest.Lift.handle_raises_iff", "Verif.Harvest.Lift.plant_spec", "Verif.Harvest.vmap_reap_control_partial", "Verif.Harvest.vmap_plant_control_partial", "Verif.Harvest.Ex.vmap_reap_cond_raises", "Verif.Harvest.Ex.vmap_reap_cond_stale", "Verif.Harvest.Ex.vmap_reap_while_stale"], "note": "Straight-line programs with nested scopes (Lift): lane-wise statements hold for all; the equation with vmap(reap(f)) only when all inputs are mapped along axis 0 and rules keep the axis in front; missing because false of the code: unmapped sown values and other axes (witnesses). Programs with scan, cond and while (Vmap): errors, outputs, reaped values and plants agree lane by lane when nothing is sown inside a cond/while whose predicate differs between lanes; missing because false of the code: the other programs (witnesses); sow_cond under vmap is C77; vmap(reap(f)), the other order, is C78."},
{"property": "C67", "status": "partial", "theorems": ["Verif.Harvest.Lift.reap_jvp", "Verif.Harvest.Lift.plant_jvp_primal", "Verif.Harvest.Lift.plant_jvp_tangent_wrong", "Verif.Harvest.Lift.reap_jvp_no_tangents", "Verif.Harvest.Lift.reap_spec", "Verif.Harvest.Lift.handle_raises_iff", "Verif.Harvest.Lift.plant_spec"], "note": "Reaping and the primals of planting hold for all programs. False of the code and shown so: tangents of planted values are not those of the planted function; tangents are not reaped. Reverse mode is C85; cond_clobber is not modelled; jvp(reap(f)) and jvp(plant(f)), the other order, are C78."},
{"property": "C68", "status": "partial", "theorems": ["Verif.State.nested_inherits", "Verif.State.nested_updates", "Verif.State.shared_names_raise", "Verif.State.named_stateless_raises"], "note": "One inner module with variables, named or not, inside any pure pre/post-processing: inherited state, call and update equal to the inner module's for all histories; shared names rejected. named_stateless_raises proves that the property fails for a named module without variables (it reads harvest as recording sows of empty pytrees, which bind_with_trace does). Missing here (proved as C76): several calls of the same inner module in one outer call; f must not raise at key 0 and must not hide variables in nest scopes (NestPlanted)."},
{"property": "C69", "status": "partial", "theorems": ["Verif.State.Kw.module_kwargs_partial", "Verif.State.Kw.kwargs_override", "Verif.State.Kw.kwargs_congr", "Verif.State.Kw.kwargs_none", "Verif.State.Kw.kwargs_ignored", "Verif.State.Kw.layer_in_module", "Verif.State.Kw.callAndUpdate_spec", "Verif.State.Kw.filterKw_spec", "Verif.State.Kw.merge_spec", "Verif.State.Kw.kwargs_not_inside", "Verif.State.Kw.module_runs", "Verif.State.Kw.module_custom_jvp_raises", "Verif.State.Kw.kwargs_lost_in_pjit", "Verif.State.Kw.module_key_shared", "Verif.State.Kw.module_key_kept", "Verif.State.Kw.module_call_kwargs_partial", "Verif.State.Kw.module_call_arity"], "note": "Proved for layers and registered primitives in straight-line code and inside call/map primitives at any depth. Missing because false of the code: layers inside the jaxprs of pjit, scan, cond, while (kwargs_not_inside, kwargs_lost_in_pjit). A custom_jvp/custom_vjp call in the function itself raises (module_custom_jvp_raises). The flag has_rng must not be given by the user; a recorded key rng is kept (module_key_kept) and a given one is shared by all layers (module_key_shared). JAX staging is assumed to run the staged implementation."},
{"property": "C70", "status": "partial", "theorems": ["Verif.NN.C70_vmap_lanes", "Verif.NN.C70_vmap_batch_partial", "Verif.NN.C70_inference_lanes", "Verif.NN.C70_mapped_key_wrong", "Verif.NN.C70_assertions", "Verif.NN.C70_nothing_mapped"], "note": "Without unmapped BatchNorm: for every way of mapping examples, keys and layers. With BatchNorm: batch axis 0, unmapped network, shared or absent key (iff with the specification BatchRun). Missing because false of the code: one key per example (C70_mapped_key_wrong), other axes (C70_assertions). How JAX's rules place the batch axis is a parameter of the model (Rep)."},
{"property": "C71", "status": "partial", "theorems": ["Verif.Inverse.Nested.C71_values", "Verif.Inverse.Nested.C71_terminates", "Verif.Inverse.Nested.C71_chain_partial", "Verif.Inverse.Nested.C71_ildj_wrong", "Verif.Inverse.Nested.C71_flat_right", "Verif.Inverse.Nested.C71_ildj_changes", "Verif.Inverse.Nested.C71_constant_in_call_raises"], "note": "Proved for every program and nesting: what inverse returns are the inputs of the execution (on the branches of the registered inverses), or it raises, in every order outside and inside the calls; it terminates. For compositions of functions of one variable wrapped in calls to any depth, values and ILDJs are those of the unwrapped composition. The full property is false of the code: for ILDJs (C71_ildj_wrong, C71_flat_right and C71_ildj_changes give a two-variable function for which every order returns a wrong ILDJ with the call and the right one without), and a constant computed inside a call is never computed, so inverse raises (C71_constant_in_call_raises). Missing: which programs of several variables keep their ILDJ."},
{"property": "C72", "status": "partial", "theorems": ["Verif.Inverse.C72_values", "Verif.Inverse.C72_ildj_partial", "Verif.Inverse.fa_returns", "Verif.Inverse.joinS_joins", "Verif.Inverse.exA_returns"], "note": "Values: every program, rank and order. ILDJ: proved when every array is sliced along one axis, arrays are not empty, concatenated operands are distinct, and reshape, convert_element_type, tie_all, sow do not occur; where the code returns nan nothing is claimed."},
{"property": "C73", "status": "partial", "theorems": ["Verif.Inverse.Mapped.C73_values_partial", "Verif.Inverse.Mapped.C73_lanes", "Verif.Inverse.Mapped.C73_lanes_agree", "Verif.Inverse.Mapped.C73_total", "Verif.Inverse.Mapped.C73_mapped_returns", "Verif.Inverse.Mapped.C73_axes_wrong", "Verif.Inverse.Mapped.uniform_order_exists"], "note": "Proved when every operand of every pmap is mapped along axis 0 (with in_axes=1 the code returns the transpose: C73_axes_wrong; unmapped operands are cut into lanes). Values: any nesting of calls and pmaps, every order. Lanes, existence and total ILDJ: for jax.pmap of a program with calls and pmaps, orders of propagation that do not look at entries. JAX's checks of shapes and devices, out_axes and collectives are trusted or left out."},
{"property": "C74", "status": "partial", "theorems": ["Verif.Jit.C74_harvest_operands", "Verif.Jit.C74_harvest_raises_iff", "Verif.Jit.C74_harvest_results_iff", "Verif.Jit.C74_harvest_plain", "Verif.Jit.C74_harvest_partial_dropped", "Verif.Jit.C74_propagate_binds", "Verif.Jit.C74_propagate_raises_iff", "Verif.Jit.C74_propagate_plain", "Verif.Jit.C74_propagate_no_operands", "Verif.Jit.C74_effect_operands", "Verif.Jit.C74_effect_binds_iff", "Verif.Jit.C74_effect_results_iff", "Verif.Jit.C74_effect_misplaced", "Verif.Jit.C74_rewrite"], "note": "False of the code: shardings of some of the results are dropped by reap, plant and propagation without an error; propagation rejects functions without operands; effect handlers misplace the annotations of results. Proved: which annotations are kept, when each rule raises (iff), and that the numbers of annotations agree."},
{"property": "C75", "status": "proved", "theorems": ["Verif.NN.C75_sizes", "Verif.NN.C75_size_back", "Verif.NN.C75_entry", "Verif.NN.C75_transpose", "Verif.NN.C75_same_kernel_not_transpose", "Verif.NN.C75_returns", "Verif.NN.C75_fresh"], "note": "Sizes for non-empty images, entries as a sum over the input pixels, transpose of Conv with the kernel turned around; with the same kernel it is not the transpose (counterexample). The entries and the transpose are those of lax.conv_transpose as written out in the model."},
{"property": "C76", "status": "proved", "theorems": ["Verif.State.stateful_init", "Verif.State.stateful_call", "Verif.State.stateful_updates", "Verif.State.stateful_duplicate_raises"], "note": "Straight-line functions; inner modules' variables are not hidden in nest scopes, named modules have variables (named_stateless_raises, C68); assignments in the default mode clobber."},
{"property": "C77", "status": "partial", "theorems": ["Verif.Harvest.CondVmap.cond_vmap_commutes_partial", "Verif.Harvest.CondVmap.cond_vmap_reapable_iff", "Verif.Harvest.CondVmap.cond_vmap_lane", "Verif.Harvest.CondVmap.cond_vmap_raises", "Verif.Harvest.CondVmap.reap_cond", "Verif.Harvest.CondVmap.Ex.cond_twice_raises", "Verif.Harvest.CondVmap.Ex.cond_loop_raises", "Verif.Harvest.CondVmap.Ex.cond_vector_raises", "Verif.Harvest.CondVmap.Ex.cond_unmapped_wrong"], "note": "Values mapped along axis 0, predicates scalar in each lane, mapped or not. Exact: cond_vmap_reapable_iff says which histories can be reaped under vmap (only the very first sow, outside of loops, may have a mapped predicate, and then the values are scalars in each lane); for those every lane gets its own last held value. Missing because false of the code: all others raise although every lane can be reaped (cond_vmap_raises); unmapped values can be silently wrong (cond_unmapped_wrong). One name, without clobber sows of the same name."},
{"property": "C78", "status": "proved", "theorems": ["Verif.Harvest.Lift.vmap_of_reap", "Verif.Harvest.Lift.vmap_of_plant", "Verif.Harvest.Lift.jvp_of_reap", "Verif.Harvest.Lift.jvp_of_reap_smooth", "Verif.Harvest.Lift.jvp_of_plant", "Verif.Harvest.Lift.Ex.jvp_of_plant_square"], "note": "Straight-line functions with nested scopes; control flow and sow_cond are not included; reverse mode is C85."},
{"property": "C79", "status": "partial", "theorems": ["Verif.LogProb.Joint.joint_log_prob_value_partial", "Verif.LogProb.Joint.joint_log_prob_named_partial", "Verif.LogProb.Joint.joint_log_prob_cannot_partial", "Verif.LogProb.Joint.joint_log_prob_density_partial", "Verif.LogProb.Joint.trace_log_prob_value_partial", "Verif.LogProb.Joint.joint_log_prob_duplicate", "Verif.LogProb.Joint.joint_log_prob_leaves", "Verif.LogProb.Joint.joint_log_prob_tagged_wrong", "Verif.LogProb.Joint.joint_log_prob_names_unchecked", "Verif.LogProb.Joint.nest_joint_log_prob_partial", "Verif.LogProb.Joint.nest_joint_log_prob_value_partial", "Verif.LogProb.Joint.nest_joint_log_prob_density_partial"], "note": "With the nest calls, each a propagation of its own, the result is the same as with the functions inlined. Proved for programs whose random variables are draws followed by any chain of invertible operations, in every propagation order: value (the program without what no named value depends on, because log_prob stages with dynamic=False, which drops it), exact error condition, change-of-variables density, trace version for outputs that are arguments or named values, duplicate names, number of values. Missing: programs that name deterministic values, for which the code adds a spurious ILDJ (counterexample proved); the check of the names, which the code does not make (proved). A named random variable inside the function of another named one is rejected by joint_sample (Verif.Ppl.rvFun_inner_rejected)."},
{"property": "C80", "status": "proved", "theorems": ["Verif.Plate.calls_joint_law", "Verif.Plate.call_law", "Verif.Plate.calls_independent", "Verif.Plate.plate_joint_law", "Verif.Plate.plate_iid", "Verif.Plate.plate_eq_vmap_split", "Verif.Plate.plate_independent_keys", "Verif.Plate.nested_plates_independent", "Verif.Plate.plate_shared_over_other_axes", "Verif.Plate.no_plate_shared", "Verif.Plate.plate_runs_iff", "Verif.Plate.plate_no_axis", "Verif.Plate.plate_log_density", "Verif.Plate.plate_in_program", "Verif.Plate.plate_of_plate", "Verif.Plate.plate_conditionally_independent"], "note": "The generator is ideal: bits of differently derived keys are independent; the plated program draws only from its given key. The scope that random_variable(f, name=, plate=) adds around a plate is not modelled here."},
{"property": "C81", "status": "partial", "theorems": ["Verif.LogProb.Joint.joint_sample_density_partial", "Verif.LogProb.Joint.links_law", "Verif.LogProb.Joint.draw_sampled", "Verif.LogProb.Joint.twoNormals_density", "Verif.LogProb.Joint.joint_log_prob_sqrt_wrong", "Verif.LogProb.Joint.rootExp_value", "Verif.LogProb.Joint.nest_joint_sample_density_partial"], "note": "The random generator is idealised as independent bits for keys none of which is derived from another. All random variables are named; no named deterministic values (the claim is false for those: C79, joint_log_prob_tagged_wrong); deterministic operations never give nan; local variables of a random variable's function are not used outside it. Log densities -inf and nan both count as density zero. The operations after a draw must be invertible almost everywhere on the branches of their registered inverses: not so for sqrt, whose rule gives negative values a density (joint_log_prob_sqrt_wrong: the claim is false of the code there)."},
{"property": "C82", "status": "partial", "theorems": ["Verif.LogProb.Joint.intervene_log_prob_partial", "Verif.LogProb.Joint.conditional_log_prob_partial", "Verif.LogProb.Joint.intervene_chain_rule_partial", "Verif.LogProb.Joint.nest_intervene_log_prob_partial", "Verif.LogProb.Joint.nest_conditional_log_prob_partial"], "note": "Proved for programs whose random variables are all named draws followed by chains of invertible operations, for every subset of names (also unknown names, which are ignored) and every propagation order. Missing: named deterministic values. Also proved with the nest calls as propagations of their own. A named random variable inside the function of another named one is rejected by joint_sample (Verif.Ppl.rvFun_inner_rejected)."},
{"property": "C83", "status": "partial", "theorems": ["Verif.LogProb.Joint.intervene_sample_density_partial", "Verif.LogProb.Joint.conditional_sample_density_partial", "Verif.LogProb.Joint.joint_sample_density_unused_partial", "Verif.LogProb.Joint.nest_intervene_sample_density_partial", "Verif.LogProb.Joint.nest_conditional_sample_density_partial"], "note": "joint_log_prob of intervene(f, **obs) and conditional(f, names) is the log density of their joint_sample, equal to the truncated factorisation of f, for programs as in C81 whose keys are derived from the program's key and samplers that see the parameters' values only; joint_sample_density_unused_partial: unnamed random variables that no named value depends on change neither the distribution nor the value. Partial because named deterministic values are excluded (for them joint_log_prob raises or ignores the value, C79), the generator is ideal (as in C80, C81), and planted values are numbers. The nest_ versions keep the nest calls."},
{"property": "C84", "status": "proved", "theorems": ["Verif.Mcmc.Keyed.random_walk_keyed_law", "Verif.Mcmc.Keyed.metropolis_keyed_balance", "Verif.Mcmc.Keyed.random_walk_keyed_symmetric", "Verif.Mcmc.Keyed.metropolis_random_walk_keyed_balance", "Verif.Mcmc.Keyed.metropolis_hastings_keyed_balance_partial", "Verif.Mcmc.Keyed.metropolis_hastings_random_walk_keyed_balance", "Verif.Mcmc.Keyed.hmc_keyed_balance", "Verif.Mcmc.Keyed.mala_keyed_balance", "Verif.Mcmc.Keyed.sample_chain_keyed_law", "Verif.Mcmc.Keyed.sample_chain_keyed_stationary", "Verif.Mcmc.Keyed.sample_chain_parallel_independent", "Verif.Mcmc.Keyed.random_walk_chain_samples_target", "Verif.Mcmc.Keyed.hmc_chain_samples_target", "Verif.Mcmc.Keyed.mala_chain_samples_target", "Verif.Mcmc.Keyed.metropolis_keyed_transition", "Verif.Mcmc.Keyed.hmc_keyed_transition", "Verif.Mcmc.Keyed.mala_keyed_langevin"], "note": "Every random.split of the kernels is written out; with an ideal generator each keyed step has the distribution of the step on independent numbers, and chains and parallel chains use unrelated keys. metropolis_hastings is covered for symmetric proposal densities (its stationarity for others fails by C37, whatever the keys); the claim about keys does not depend on it."},
{"property": "C85", "status": "partial", "theorems": ["Verif.Harvest.Lift.vjp_of_sow", "Verif.Harvest.Lift.reap_vjp", "Verif.Harvest.Lift.vjp_of_reap_primal", "Verif.Harvest.Lift.vjp_of_reap", "Verif.Harvest.Lift.vjp_of_plant_primal", "Verif.Harvest.Lift.vjp_of_plant", "Verif.Harvest.Lift.plant_vjp_primal", "Verif.Harvest.Lift.plant_vjp_straight_through_partial", "Verif.Harvest.Lift.plant_vjp_gradient_wrong"], "note": "False of the code and shown so: planting into vjp(f) does not return the gradients of plant(f) but those of the straight-through function, in which a planted value keeps moving with the value it replaces. All other parts hold for all straight-line functions with scopes. Control flow is not included; cotangents are added up without modelling the order of the backward pass."},
{"property": "C86", "status": "partial", "theorems": ["Verif.LogProb.Joint.log_prob_determines", "Verif.LogProb.Joint.log_prob_density_partial", "Verif.LogProb.Joint.log_prob_density_total_partial", "Verif.LogProb.Joint.log_prob_density_live_partial", "Verif.LogProb.Joint.logNormal_density"], "note": "Ideal generator: keys that are not derived from each other give independent bits. Proved for programs without calls (nest, jit) whose operations after a random variable are statements of the program; reshape and convert_element_type are excluded because they drop the ILDJ (C29, log_prob_reshape_wrong). Random variables and operations that the outputs do not depend on are dropped by staging (log_prob_density_live_partial). On values that f never returns log_prob may also return a number (joint_log_prob_sqrt_wrong), so the density is stated on the outputs; log_prob_density_total_partial is the statement on the whole space if it does not."},
{"property": "C87", "status": "partial", "theorems": ["Verif.Mcmc.Keyed.posterior_chain_partial", "Verif.Mcmc.Keyed.twoNormals_posterior"], "note": "Conditional distribution is Mathlib's condDistrib. Over the hypotheses of C81 (all random variables named and plain, one number each; no named deterministic values). nan counts as -inf. The gradient is any measurable function, as in C50."},
{"property": "C88", "status": "proved", "theorems": ["Verif.State.net_init", "Verif.State.net_call", "Verif.State.net_updates", "Verif.State.net_direct", "Verif.State.net_first_call", "Verif.State.net_duplicate", "Verif.State.init_layer_prog", "Verif.State.call_layer_prog", "Verif.State.call_layer_trace", "Verif.State.call_layer_sites", "Verif.State.layer_call_and_update", "Verif.State.layer_needs_key"], "note": "Straight-line functions whose lines call templates; layers are arbitrary initialize/_call/_update functions, their metadata (info) is static. net_call, net_updates: what a layer accepts has a shape for which it can be initialised (Fits). Layers mixed with variables, assignments and function modules, and layers called several times, are C76, whose programs now include layers. Keyword arguments are C69."},
{"property": "C89", "status": "partial", "theorems": ["Verif.Util.Bind.initial_style_bind_partial", "Verif.Util.Bind.initial_style_bind_sound", "Verif.Util.Bind.initial_style_equation", "Verif.Util.Bind.initial_style_bind_raises", "Verif.Util.Bind.call_bind_spec", "Verif.Util.Bind.unflatten_leaves", "Verif.Util.Bind.unflattenAll_leaves", "Verif.Util.Bind.unflatten_iff", "Verif.Util.Bind.ideal_sound"], "note": "Proved for functions that can be traced at their arguments, for any sound tracer (the tracing of JAX is a parameter). Missing because false of the code: a function with Python control flow on values raises when wrapped by initial_style_bind although it runs (initial_style_bind_raises). call_bind_spec has no such condition. All leaves are arrays."},
{"property": "C90", "status": "partial", "theorems": ["Verif.NN.C90_spec_partial", "Verif.NN.C90_spec_raises", "Verif.NN.C90_shape_partial", "Verif.NN.C90_list_partial", "Verif.NN.C90_list_raises", "Verif.NN.C90_tuple_partial", "Verif.NN.C90_tuple_raises"], "note": "Proved for activations, Flatten and BatchNorm and lists and tuples of them; one positional input. Missing because false of the code: the spec of every other layer raises (C90_spec_raises, C90_list_raises, C90_tuple_raises)."},
{"property": "C91", "status": "partial", "theorems": ["Verif.State.FnSpec.C91_spec_sound", "Verif.State.FnSpec.C91_spec_partial", "Verif.State.FnSpec.C91_stage", "Verif.State.FnSpec.C91_static_option", "Verif.State.FnSpec.C91_seq_partial", "Verif.State.FnSpec.C91_kwargs_raises", "Verif.State.FnSpec.C91_kwargs_notArray"], "note": "Without keyword arguments the spec is exact (C91_spec_partial, C91_seq_partial); with any keyword arguments a returned spec is right (C91_spec_sound) and staging in init is exact (C91_stage, C91_static_option). Violated by the code: keyword arguments are traced by spec, so testing one raises (C91_kwargs_raises, C91_kwargs_notArray)."},
{"property": "C92", "status": "proved", "theorems": ["Verif.NN.Grad.C92_serial", "Verif.NN.Grad.C92_state_values", "Verif.NN.Grad.C92_history", "Verif.NN.Grad.C92_no_state_gradient", "Verif.NN.Grad.C92_state_tangent", "Verif.NN.Grad.C92_not_the_gradient"], "note": "Forward mode; JAX's rule for the derivative of _call and _update is their Fr\u00e9chet derivative. C92_not_the_gradient: the gradient so defined is not that of the function of the whole history."},
{"property": "C93", "status": "proved", "theorems": ["Verif.Util.Trans.C93_eval", "Verif.Util.Trans.C93_transformation", "Verif.Util.Trans.C93_jvp", "Verif.Util.Trans.C93_vmap", "Verif.Util.Trans.C93_abstract", "Verif.Util.Trans.C93_lanes", "Verif.Util.Trans.C93_vmap_jvp"], "note": "JAX's rules of primitives are assumed to be right (hypotheses, shown satisfiable). Whatever the transformation returns is right; reverse mode (transposition) and the positions of mapped axes are not modelled."}
]}
