{"id": "C01", "title": "Reaping does not change what the function computes", "statement": "Whenever call_and_reap(f, tag, allowlist, blocklist, exclusive) accepts f, its first result on x equals f(x) (including whether f(x) fails); sow by itself is the identity.", "quantifier": "every function built from pure steps, sows, nests, jit/remat calls, conds, scans and while loops; every setting; every input", "why_tests_cant": "Tests run a few hand-written f; the claim is about every nesting of control flow and every input.", "anchors": ["oryx/core/interpreters/harvest.py:call_and_reap", "oryx/core/interpreters/harvest.py:ReapContext.handle_sow", "oryx/core/interpreters/harvest.py:_reap_scan_rule", "oryx/core/interpreters/harvest.py:_reap_while_rule", "oryx/core/interpreters/harvest.py:_reap_cond_rule"]}
{"id": "C02", "title": "reap returns exactly what was sown, under the rules of each mode", "statement": "The dictionary returned by reap on x has an entry for each name that f sows with the tag (subject to allow/block lists), and its value is the one dictated by the execution log of f on x: the unique strict value, the last clobber value, the stack of append values.", "quantifier": "every function of the modelled language without sow_cond; every input; every execution length", "why_tests_cant": "The set of programs and loop lengths is infinite; mode interaction across control flow is combinatorial.", "anchors": ["oryx/core/interpreters/harvest.py:reap", "oryx/core/interpreters/harvest.py:ReapContext", "oryx/core/interpreters/harvest.py:_reap_scan_rule", "oryx/core/interpreters/harvest.py:_reap_while_rule", "oryx/core/interpreters/harvest.py:_reap_cond_rule"]}
{"id": "C03", "title": "A strict name is never silently dropped or overwritten", "statement": "If f sows the same strict (or append) name twice in one scope with the harvested tag, reap raises an error; if it accepts f, every such name is sown at most once.", "quantifier": "every function, every setting, all positions of the two sows (nested calls, cond branches, loops)", "why_tests_cant": "A test exhibits one duplicate; the claim excludes all of them.", "anchors": ["oryx/core/interpreters/harvest.py:ReapContext.handle_sow", "oryx/core/interpreters/harvest.py:_reap_scan_rule"]}
{"id": "C04", "title": "clobber keeps the last value, through every control-flow construct", "statement": "For a name sown only with mode clobber, reap returns the value of the last such sow executed (all scan/while iterations, the taken branch, inlined calls), and zeros only when no sow was executed because a loop ran zero times.", "quantifier": "all functions, loop trip counts and inputs", "why_tests_cant": "Loop counts and nestings are unbounded.", "anchors": ["oryx/core/interpreters/harvest.py:_update_clobber_carry", "oryx/core/interpreters/harvest.py:_reap_scan_rule", "oryx/core/interpreters/harvest.py:_reap_while_rule"]}
{"id": "C05", "title": "append inside scan collects every iteration in index order", "statement": "For a name sown with mode append in the body of a scan, reap returns the array of the values of all iterations, of length equal to the scan length, with entry i belonging to element i of xs, for forward and reverse scans.", "quantifier": "every scan body, length, direction, initial carry and xs", "why_tests_cant": "Lengths are unbounded; reverse order is easy to get wrong.", "anchors": ["oryx/core/interpreters/harvest.py:_reap_scan_rule"]}
{"id": "C06", "title": "sow_cond keeps the last value whose predicate held, else zeros", "statement": "reap of a name sown with sow_cond returns the value at the last execution whose predicate was true and zeros when none was, across straight-line code, calls and loops.", "quantifier": "all sequences of predicates and values, all loop lengths", "why_tests_cant": "All predicate histories must be considered.", "anchors": ["oryx/core/interpreters/harvest.py:sow_cond", "oryx/core/interpreters/harvest.py:ReapContext.handle_sow", "oryx/core/interpreters/harvest.py:_update_clobber_carry", "oryx/core/interpreters/harvest.py:call_and_reap"]}
{"id": "C07", "title": "A planted value replaces the sown value for everything downstream", "statement": "plant(f)({name: v}, x) computes what f computes when the output of the sow called name is v, regardless of the value sown, in straight-line code, calls, both branches of a cond and every iteration of a loop (entry i of v at iteration i for append).", "quantifier": "all functions, plants and inputs", "why_tests_cant": "Needs all programs and all plants.", "anchors": ["oryx/core/interpreters/harvest.py:PlantContext.handle_sow", "oryx/core/interpreters/harvest.py:_plant_scan_rule", "oryx/core/interpreters/harvest.py:_plant_while_rule", "oryx/core/interpreters/harvest.py:_plant_cond_rule"]}
{"id": "C08", "title": "Planting nothing is the identity", "statement": "plant(f)({}, x) == f(x) and leaves every unblocked sow in place, so a later reap sees the same dictionary; plants for names that f does not sow have no effect.", "quantifier": "all functions, settings, inputs, irrelevant plants", "why_tests_cant": "All programs.", "anchors": ["oryx/core/interpreters/harvest.py:plant", "oryx/core/interpreters/harvest.py:PlantContext.handle_sow"]}
{"id": "C09", "title": "Reap then plant is a round trip", "statement": "Planting the reaped dictionary back, plant(f)(reap(f)(x), x), gives f(x).", "quantifier": "all functions without sow_cond whose reap succeeds; all inputs", "why_tests_cant": "All programs and inputs.", "anchors": ["oryx/core/interpreters/harvest.py:reap", "oryx/core/interpreters/harvest.py:plant"]}
{"id": "C10", "title": "Nothing is left to harvest", "statement": "After call_and_reap or harvest with a tag, the resulting function contains no remaining sow of that tag: a second harvest reaps the empty dictionary and ignores plants.", "quantifier": "all functions and settings", "why_tests_cant": "Universal over programs.", "anchors": ["oryx/core/interpreters/harvest.py:harvest"]}
{"id": "C11", "title": "Tags are isolated", "statement": "Harvesting one tag non-exclusively leaves every sow of any other tag in place with the same values, so reaping the other tag before or after gives the same dictionary; with exclusive=True no sow of any tag remains.", "quantifier": "all functions, pairs of tags, settings", "why_tests_cant": "Universal over programs and tags.", "anchors": ["oryx/core/interpreters/harvest.py:HarvestContext.process_sow"]}
{"id": "C12", "title": "nest gives each scope its own namespace", "statement": "reap of nest(f, scope=s) is {s: reap(f)} when reap(f) is nonempty and {} otherwise; plant of nest(f, scope=s) with plants p is plant of f with p.get(s, {}); equal names in different scopes never collide.", "quantifier": "all functions, scopes, plants", "why_tests_cant": "Universal over programs.", "anchors": ["oryx/core/interpreters/harvest.py:nest", "oryx/core/interpreters/harvest.py:ReapContext.process_nest", "oryx/core/interpreters/harvest.py:PlantContext.process_nest"]}
{"id": "C13", "title": "allowlist and blocklist filter exactly the named sows", "statement": "A name outside the allowlist or inside the blocklist is never reaped nor planted and its sow behaves as the identity; every other name is reaped as without the lists.", "quantifier": "all functions, lists, inputs", "why_tests_cant": "Universal over lists and programs.", "anchors": ["oryx/core/interpreters/harvest.py:HarvestContext.process_sow"]}
{"id": "C14", "title": "harvest splits the names into planted and reaped", "statement": "harvest(f)(plants, x) returns the output of plant(f)(plants, x) and a dictionary without the planted names holding the values that the remaining sows take in that planted execution.", "quantifier": "all functions, plants, inputs", "why_tests_cant": "Universal over programs and plants.", "anchors": ["oryx/core/interpreters/harvest.py:harvest"]}
{"id": "C15", "title": "Ill-moded control flow is rejected, not mis-harvested", "statement": "A strict sow with the tag inside a scan body, a strict or append sow in a while body, and cond branches sowing different sets of names make reap raise an error before anything is computed.", "quantifier": "all bodies and settings", "why_tests_cant": "Universal over bodies.", "anchors": ["oryx/core/interpreters/harvest.py:_reap_scan_rule", "oryx/core/interpreters/harvest.py:_reap_while_rule", "oryx/core/interpreters/harvest.py:_check_branch_metadata"]}
{"id": "C16", "title": "joint_sample / trace return the values the execution actually used", "statement": "trace(f)(key) returns f(key) together with the dictionary of exactly its named random variables' values, and intervening on f with that whole dictionary and the same key reproduces the output (for another key too, as far as the key is only used by named random variables).", "quantifier": "all probabilistic programs of the modelled language, all keys", "why_tests_cant": "Universal over programs.", "anchors": ["oryx/core/ppl/transformations.py:trace", "oryx/core/ppl/transformations.py:joint_sample", "oryx/core/ppl/transformations.py:intervene"]}
{"id": "C17", "title": "intervene is the do-operator", "statement": "intervene(f, **obs) fixes the observed variables, leaves every variable that does not depend on them with the same value under the same key, and removes them from the latent names.", "quantifier": "all programs, observations, keys", "why_tests_cant": "Universal over programs.", "anchors": ["oryx/core/ppl/transformations.py:intervene"]}
{"id": "C18", "title": "conditional takes exactly one value per name", "statement": "conditional(f, names)(key, *args) plants the trailing arguments in order of names; it raises when fewer arguments than names are supplied, and equals intervene with the zipped dictionary otherwise.", "quantifier": "all programs, name lists, argument lists", "why_tests_cant": "Universal over arities.", "anchors": ["oryx/core/ppl/transformations.py:conditional"]}
{"id": "C19", "title": "block hides latents without changing the program", "statement": "block(f, names) computes the same output and its joint_sample is that of f with names removed.", "quantifier": "all programs, name lists", "why_tests_cant": "Universal over programs.", "anchors": ["oryx/core/ppl/transformations.py:block"]}
{"id": "C20", "title": "graph_replace splices a subgraph", "statement": "graph_replace(f, input_names, output_names) takes the input names' values as arguments and returns the values that the output names have in f with those inputs fixed, keeping f's other latents visible; it raises KeyError when an output name is not a latent of f or is itself conditioned on.", "quantifier": "all programs f, name lists, argument lists", "why_tests_cant": "Universal over programs.", "anchors": ["oryx/core/ppl/transformations.py:graph_replace"]}
{"id": "C21", "title": "State: call and update are the two halves of call_and_update", "statement": "For a stateful function initialised by init, call(*args) is the first component and update(*args) a module carrying the second component of call_and_update; call alone never changes the module, and init's variables are exactly those named by variable().", "quantifier": "all stateful functions and arguments", "why_tests_cant": "Universal over functions.", "anchors": ["oryx/core/state/function.py:FunctionModule", "oryx/core/state/api.py"]}
{"id": "C22", "title": "State: assignments persist and only they change the state", "statement": "After update, a variable that was assigned holds the assigned value, every other variable is unchanged, and assigning an unknown variable raises.", "quantifier": "all functions, arguments and histories of updates", "why_tests_cant": "Histories are unbounded.", "anchors": ["oryx/core/state/function.py:FunctionModule.call_and_update"]}
{"id": "C23", "title": "State: sequences compose", "statement": "The list/tuple module's call threads values through its components left to right and update updates every component with the input it saw.", "quantifier": "all lengths of sequences, all components", "why_tests_cant": "Lengths unbounded.", "anchors": ["oryx/core/state/registrations.py"]}
{"id": "C24", "title": "Propagation terminates in a fixpoint independent of scheduling", "statement": "When cells have finite height and rules are monotone, propagate terminates for every order in which the worklist is served, and when rules are also idempotent the final environment is the same least fixpoint above the initial cells for every order.", "quantifier": "all jaxprs, cell lattices of finite height, monotone rules, worklist orders", "why_tests_cant": "Orders and programs are unbounded; the initial queue is a Python set, so its order is unspecified.", "anchors": ["oryx/core/interpreters/propagate.py:propagate", "oryx/core/interpreters/propagate.py:Environment"]}
{"id": "C25", "title": "Propagation is sound for an execution", "statement": "If every rule only writes cells that describe the actual value, every cell of the final environment describes the actual value.", "quantifier": "all jaxprs, rules, orders", "why_tests_cant": "Universal.", "anchors": ["oryx/core/interpreters/propagate.py:propagate"]}
{"id": "C26", "title": "inverse(f) inverts f or refuses", "statement": "If inverse(f)(y) returns x then f(x) == y for every y in the range (x is the preimage), otherwise it raises; it never returns a wrong x for functions built from the elementwise rules.", "quantifier": "all straight-line programs over the registered invertible primitives, all inputs", "why_tests_cant": "Universal over programs.", "anchors": ["oryx/core/interpreters/inverse/core.py:inverse_and_ildj", "oryx/core/interpreters/inverse/rules.py"]}
{"id": "C27", "title": "inverse log-det-Jacobian obeys the chain rule", "statement": "The ILDJ returned for a composition of registered elementwise primitives is the sum of their ILDJs at the intermediate values, i.e. log |d f^-1/dy|; for a function of n scalars to n scalars built from registered unary and binary primitives, with variables used any number of times, the total ILDJ is log |det of the Jacobian of the inverse| = -log |det of the Jacobian of f|, in whatever order propagation visits the equations.", "quantifier": "all chains and all graphs, all points in the domain, all propagation orders", "why_tests_cant": "Universal over chains.", "anchors": ["oryx/core/interpreters/inverse/core.py", "oryx/core/interpreters/inverse/rules.py"]}
{"id": "C28", "title": "Joining slices never invents or loses coverage", "statement": "Joining partial cells keeps exactly the union of the slices described by both, and a cell is reported complete only if its slices cover the whole array.", "quantifier": "all finite sets of slices", "why_tests_cant": "Universal.", "anchors": ["oryx/core/interpreters/inverse/core.py:InverseAndILDJ.join", "oryx/core/interpreters/inverse/slice.py"]}
{"id": "C29", "title": "log_prob accounts for every random variable exactly once", "statement": "log_prob(f)(y) is the sum over the random primitives of their log-density at the value recovered by inversion plus the inverse log-det-Jacobian of the deterministic transformation; if some random value cannot be recovered it raises instead of returning a partial sum. For n random variables and n scalar outputs this is the log-density of the outputs: the joint log-density minus log |det of the Jacobian of the outputs in the random variables|.", "quantifier": "all straight-line programs", "why_tests_cant": "Universal.", "anchors": ["oryx/core/interpreters/log_prob.py:log_prob"]}
{"id": "C30", "title": "An effect handler sees every matching operation once, in program order", "statement": "make_effect_handler(handlers)(f)(state)(x) equals a left fold over the primitives of f in program order, including those inside called sub-jaxprs, threading the state; without handlers it is f with the state unchanged.", "quantifier": "all jaxprs, handlers and states", "why_tests_cant": "Universal.", "anchors": ["oryx/core/ppl/effect_handler.py:make_effect_handler", "oryx/core/ppl/effect_handler.py:eval_jaxpr_with_state"]}
{"id": "C31", "title": "Matching is sound", "statement": "If match(pattern, expr) returns bindings then substituting them in the pattern gives the expression and all restrictions hold; match raises MatchError only when no match exists.", "quantifier": "all patterns and expressions", "why_tests_cant": "Universal.", "anchors": ["oryx/experimental/matching/matcher.py:match"]}
{"id": "C32", "title": "match_all enumerates every match", "statement": "match_all yields precisely the bindings under which the pattern matches.", "quantifier": "all patterns and expressions", "why_tests_cant": "Universal.", "anchors": ["oryx/experimental/matching/matcher.py:match_all"]}
{"id": "C33", "title": "Rewriting preserves meaning and stops at a normal form", "statement": "If every rule preserves a semantics then rule_list, in_order, iterated, bottom_up, top_down and term_rewriter do; when the iterated rewriter returns, one more application of the rule changes nothing; with a decreasing measure it always returns.", "quantifier": "all rules, terms", "why_tests_cant": "Universal.", "anchors": ["oryx/experimental/matching/rules.py"]}
{"id": "C34", "title": "Rewriting a JAX function without rules leaves it unchanged", "statement": "Turning a jaxpr into expressions and evaluating them gives the same outputs as evaluating the jaxpr.", "quantifier": "all jaxprs, inputs", "why_tests_cant": "Universal.", "anchors": ["oryx/experimental/matching/jax_rewrite.py"]}
{"id": "C35", "title": "Fusing einsums preserves the value", "statement": "compose_einsums applied to einsum(.., einsum(inner), ..) returns one einsum with the same value for all operands.", "quantifier": "all formulas and operand sizes", "why_tests_cant": "Universal over index sets.", "anchors": ["oryx/experimental/autoconj/einsum.py:compose_einsums"]}
{"id": "C36", "title": "AddN flattening preserves the sum", "statement": "Canonicalizing nested additions into AddN preserves the value.", "quantifier": "all sums", "why_tests_cant": "Universal.", "anchors": ["oryx/experimental/autoconj/addn.py", "oryx/experimental/autoconj/canonicalize.py"]}
{"id": "C37", "title": "Metropolis-Hastings leaves the target invariant", "statement": "The accept/reject step of metropolis and metropolis_hastings satisfies detailed balance for the target density.", "quantifier": "all targets, proposals, states", "why_tests_cant": "A probabilistic statement over all states.", "anchors": ["oryx/experimental/mcmc/kernels.py:metropolis", "oryx/experimental/mcmc/kernels.py:metropolis_hastings"]}
{"id": "C38", "title": "HMC's leapfrog integrator is reversible", "statement": "Integrating n steps, flipping the momentum and integrating n steps returns to the start with flipped momentum.", "quantifier": "all step counts, step sizes, gradients, states", "why_tests_cant": "Universal.", "anchors": ["oryx/experimental/mcmc/kernels.py:hmc"]}
{"id": "C39", "title": "Gradient transformations compose", "statement": "chain(t1,..,tn) initialises and applies the transformations in order, each keeping its own state; chain is associative with identity.", "quantifier": "all transformations, gradients and histories", "why_tests_cant": "Histories unbounded.", "anchors": ["oryx/experimental/optimizers/optix.py:chain"]}
{"id": "C40", "title": "Clipping bounds the update", "statement": "clip(d) returns updates with every entry in [-d, d]; clip_by_global_norm(m) returns updates of global norm at most m and leaves smaller ones unchanged.", "quantifier": "all gradients and bounds", "why_tests_cant": "Universal.", "anchors": ["oryx/experimental/optimizers/optix.py:clip", "oryx/experimental/optimizers/optix.py:clip_by_global_norm"]}
{"id": "C41", "title": "Moment estimates follow their closed form", "statement": "After n steps trace(decay) holds the exponentially decayed sum of gradients, adam's moments are the exponential moving averages with bias correction exact on constant gradients, and apply_every(k) emits the sum of each window of k updates and zero otherwise.", "quantifier": "all gradient sequences", "why_tests_cant": "Histories unbounded.", "anchors": ["oryx/experimental/optimizers/optix.py:trace", "oryx/experimental/optimizers/optix.py:scale_by_adam", "oryx/experimental/optimizers/optix.py:apply_every"]}
{"id": "C42", "title": "Layers: Serial is composition and shapes agree with spec", "statement": "Serial.call composes its layers, update updates each with its own input and the spec of Serial is the composition of the specs.", "quantifier": "all layer lists", "why_tests_cant": "Universal.", "anchors": ["oryx/experimental/nn/combinator.py"]}
{"id": "C43", "title": "Layer flatten/unflatten round trip", "statement": "Unflattening a flattened layer or module gives it back, so jax transformations see the same object.", "quantifier": "all layers", "why_tests_cant": "Universal.", "anchors": ["oryx/experimental/nn/base.py", "oryx/core/state/module.py"]}
{"id": "C44", "title": "Dropout is unbiased", "statement": "The expectation of dropout's output is its input.", "quantifier": "all inputs and rates", "why_tests_cant": "Expectation over all masks.", "anchors": ["oryx/experimental/nn/core.py:Dropout"]}
{"id": "C45", "title": "kwargs filtering keeps exactly the accepted keywords", "statement": "filter_kwargs(f, kwargs) keeps precisely keyword arguments that f accepts with a default, everything when f has **kwargs, and never invents one.", "quantifier": "all signatures and keyword dictionaries", "why_tests_cant": "Universal.", "anchors": ["oryx/core/kwargs_util.py"]}
{"id": "C46", "title": "Dynamic contexts nest properly", "statement": "new_dynamic_context restores the previous context on exit, the innermost context is the one seen, and none is left behind.", "quantifier": "all nestings", "why_tests_cant": "Universal over nestings.", "anchors": ["oryx/core/trace_util.py"]}
{"id": "C47", "title": "tie_in/tie_all return their values unchanged", "statement": "tie_in(x, y) == y and tie_all(*xs) == xs for all pytrees.", "quantifier": "all pytrees", "why_tests_cant": "Universal.", "anchors": ["oryx/core/primitive.py"]}
{"id": "C48", "title": "Rewriting linear primitives into einsums preserves the value", "statement": "canonicalize turns transpose, squeeze, reduce_sum and dot_general (any contraction and batch dimensions) into einsums, fuses them and flattens sums; the resulting expression has the same shape and entries for all operands.", "quantifier": "all expressions, environments and interpretations of the remaining primitives", "why_tests_cant": "Universal over expressions, ranks, dimension numbers and operands.", "anchors": ["oryx/experimental/autoconj/canonicalize.py:canonicalize", "oryx/experimental/autoconj/canonicalize.py:dot_as_einsum"]}
{"id": "C49", "title": "canonicalize terminates with a canonical expression", "statement": "canonicalize never loops; what it returns contains no transpose, squeeze, reduce_sum, dot_general or add, no einsum nested in an einsum and no AddN nested in an AddN, at any depth; and it returns whenever the expression has a value and its einsums need at most 52 index names.", "quantifier": "all expressions", "why_tests_cant": "Termination over all inputs.", "anchors": ["oryx/experimental/autoconj/canonicalize.py:canonicalize", "oryx/experimental/matching/rules.py:term_rewriter"]}
{"id": "C50", "title": "HMC and MALA leave the target invariant", "statement": "One step of hmc or mala satisfies detailed balance for the density whose log is unnormalized_log_prob, although the momentum is not flipped after the leapfrog integration.", "quantifier": "all targets, dimensions, gradients, numbers of leapfrog steps and step sizes", "why_tests_cant": "A statement about a distribution over all states and all random draws.", "anchors": ["oryx/experimental/mcmc/kernels.py:hmc", "oryx/experimental/mcmc/kernels.py:mala"]}
{"id": "C51", "title": "sample_chain runs the kernel num_steps times", "statement": "sample_chain returns the num_steps successive states of the kernel, threads the kernel's own variables, can be resumed, is unaffected by callbacks, and started from a stationary distribution every state it returns has that distribution.", "quantifier": "all kernels, keys, states, callbacks and numbers of steps", "why_tests_cant": "Ranges over all chain lengths and histories, and over distributions.", "anchors": ["oryx/experimental/mcmc/kernels.py:sample_chain"]}
{"id": "C52", "title": "constrain is the change of variables", "statement": "Sampling from constrain(f)(log_prob) and mapping the sample through f has the density of log_prob on the range of f.", "quantifier": "all injective differentiable maps f and log densities", "why_tests_cant": "A statement about integrals over all of the space.", "anchors": ["oryx/experimental/mcmc/utils.py:constrain"]}
{"id": "C53", "title": "optimize follows the update rule", "statement": "optimize(objective, update, n) started at params returns the n-th point of the sequence whose k-th step adds the output of update, run with its own state over the gradients at the points visited so far; with sgd(lr) that is n steps of x - lr*grad(x).", "quantifier": "all objectives, update functions that do not raise, starting points and iteration counts", "why_tests_cant": "Number of iterations, objectives and states are unbounded.", "anchors": ["oryx/experimental/optimizers/optix.py:optimize", "oryx/experimental/optimizers/optix.py:gradient_descent", "oryx/experimental/optimizers/optix.py:apply_updates"]}
{"id": "C54", "title": "Softmax layers return distributions", "statement": "The Softmax layer keeps the shape, returns positive entries and every row along the last axis sums to one; LogSoftmax is the logarithm of Softmax; adding a constant to the input changes neither.", "quantifier": "all inputs of rank at least one", "why_tests_cant": "Universal over inputs and shapes.", "anchors": ["oryx/experimental/nn/core.py:Softmax", "oryx/experimental/nn/core.py:LogSoftmax"]}
{"id": "C55", "title": "Pooling reduces exactly the entries of each window", "statement": "Every output entry of Max/Sum/AvgPooling is the maximum, sum or average of the unpadded input entries in its window; no window is empty; SAME gives ceil(n/s) positions; the batched rule used under vmap equals pooling each example.", "quantifier": "all window shapes, strides, paddings and inputs", "why_tests_cant": "Universal over shapes and data.", "anchors": ["oryx/experimental/nn/pooling.py"]}
{"id": "C56", "title": "Batch normalisation normalises and tracks statistics", "statement": "In training mode under vmap every channel of BatchNorm's output has mean beta and variance gamma^2 var/(var+eps); an update moves the moving statistics to momentum*old+(1-momentum)*batch, converges geometrically on a fixed batch and keeps the moving variance nonnegative.", "quantifier": "all batches, axes and parameters", "why_tests_cant": "Universal over batches and update histories.", "anchors": ["oryx/experimental/nn/normalization.py"]}
{"id": "C57", "title": "get_summaries returns the output and exactly the summaries", "statement": "get_summaries(f) returns f's own output (and fails exactly when f fails) together with a dictionary that has an entry for exactly the names tagged with summary anywhere in f; sows with other tags do not appear; a function is accepted exactly when call_and_reap with the summary tag accepts it; the value under a name is the value passed to summary; sows with other tags are left in place for other transformations.", "quantifier": "all functions, control flow, nesting and inputs", "why_tests_cant": "Universal over program structure and inputs.", "anchors": ["oryx/util/summary.py", "oryx/core/interpreters/harvest.py:harvest"]}
{"id": "C58", "title": "Nested calls do not change log_prob", "statement": "Wrapping parts of a probabilistic program in jit, nest or call, to any depth, does not change log_prob: it counts every random variable, whatever the depth of the calls around it, exactly once with its ILDJ, or raises.", "quantifier": "all programs, nesting depths, propagation orders and samples", "why_tests_cant": "Unbounded nesting and all schedules of the propagation.", "anchors": ["oryx/core/interpreters/log_prob.py:log_prob_jaxpr", "oryx/core/interpreters/propagate.py:call_rule", "oryx/core/interpreters/propagate.py:_pjit_propagate_rule"]}
{"id": "C59", "title": "log_prob of a plate is the sum over the named axis", "statement": "log_prob of a program with a plate returns, at every index of the named axis, the sum over the axis of the log-densities of the independent samples (including the ILDJs of the transformations applied to them).", "quantifier": "all axis sizes, plate bodies, transformations and samples", "why_tests_cant": "Universal over axis sizes, bodies and samples.", "anchors": ["oryx/core/ppl/plate_util.py:plate_log_prob_rule", "oryx/core/interpreters/log_prob.py:log_prob_jaxpr"]}
{"id": "C60", "title": "Layers compute their defining formulas entry by entry", "statement": "Dense returns x\u00b7W + b along the last axis for any number of leading axes (and only if the last axis fits), Conv is the zero-padded strided cross-correlation plus bias, Reshape keeps all entries in row-major order and accepts exactly the shapes that fit (with at most one -1), and the pointwise activations act on every entry.", "quantifier": "all shapes, ranks, strides, paddings, parameters and inputs", "why_tests_cant": "Universal over shapes and values; index arithmetic is wrong only for some shapes.", "anchors": ["oryx/experimental/nn/core.py:Dense", "oryx/experimental/nn/convolution.py:Conv", "oryx/experimental/nn/core.py:Reshape"]}
{"id": "C61", "title": "plant never injects one value at two sows of a strict name", "statement": "If a strict or append name that is planted is sown twice in one scope, plant raises an error.", "quantifier": "all functions, settings, plants and positions of the two sows", "why_tests_cant": "A test exhibits one duplicate; the claim excludes all positions (calls, branches, loops).", "anchors": ["oryx/core/interpreters/harvest.py:PlantContext"]}
{"id": "C62", "title": "Freshly initialised layers start from the documented state", "statement": "A new BatchNorm has moving mean 0 and variance 1 and its first update moves them by 1 - momentum; pooling and convolution without strides move by one (SAME keeps the spatial shape, VALID shrinks it by the window minus one); Dense and Conv draw kernel and bias of the right shapes with different halves of the key.", "quantifier": "all shapes, keys, windows, momenta and inputs", "why_tests_cant": "Universal over shapes and hyperparameters.", "anchors": ["oryx/experimental/nn/normalization.py:BatchNorm.initialize", "oryx/experimental/nn/pooling.py:Pooling.initialize", "oryx/experimental/nn/convolution.py:Conv.initialize", "oryx/experimental/nn/core.py:Dense.initialize"]}
{"id": "C63", "title": "Custom inverses are used exactly as defined", "statement": "For functions decorated with custom_inverse: inverse/ildj of a composition of functions with def_inverse_unary returns the composition of the given f_inv functions (last function first) and the sum of the f_ildj values, whatever the functions are and in every order of propagation; with def_inverse_and_ildj the user's function is asked with exactly the known arguments, the outputs and zero ILDJs, if it answers for all the arguments then its answer for the missing ones is what inverse returns, if it returns None for one of them the call raises (a defect: a comment in the code says None is supported), and NonInvertibleError becomes the ValueError of inverse; in any program, if each custom inverse is right about an execution, inverse on its outputs either fails or returns exactly its inputs; if each f_ildj is the log-derivative of its f_inv, ildj of a composition is the log-derivative of the inverse.", "quantifier": "all functions, custom rules, programs with any sharing of variables, outputs and orders of propagation", "why_tests_cant": "Universal over user-supplied rules, program graphs and the iteration order of Python sets.", "anchors": ["oryx/core/interpreters/inverse/custom_inverse.py:CustomInverse", "oryx/core/interpreters/inverse/custom_inverse.py:def_inverse_unary", "oryx/core/interpreters/inverse/custom_inverse.py:def_inverse_and_ildj", "oryx/core/interpreters/inverse/core.py:inverse_and_ildj"]}
{"id": "C64", "title": "Bijectors are inverted by their own inverse methods", "statement": "inverse/ildj of a composition of TFP bijector calls (forward or inverse, with or without parameters) returns the bijectors' opposite methods applied last call first, and the sum of the inverse (or forward) log-det-Jacobians at the intermediate values, and never raises.", "quantifier": "all bijectors, parameters, lengths of compositions, outputs and orders of propagation", "why_tests_cant": "The repository tests single bijectors only; the claim ranges over compositions of any length and over the iteration order of Python sets.", "anchors": ["oryx/core/interpreters/inverse/bijector_extensions.py:bijector_ildj_rule", "oryx/core/interpreters/inverse/bijector_extensions.py:patch_bijector", "oryx/core/interpreters/propagate.py:propagate"]}
{"id": "C65", "title": "log_prob of a batched random variable is the sum over lanes", "statement": "For a distribution sampled under any nesting of jax.vmap, log_prob of the program is the sum over all lanes of the log probability of the lane's value under the lane's parameters, whichever of the vmaps map a parameter and along whichever axis.", "quantifier": "all distributions, numbers of nested vmaps, sizes, in_axes, parameters and values", "why_tests_cant": "Universal over nestings, axes, shapes and data; the repository tests one vmap along axis 0.", "anchors": ["oryx/distributions/distribution_extensions.py:random_variable_log_prob_rule", "oryx/distributions/distribution_extensions.py:random_variable_batching_rule"]}
{"id": "C66", "title": "Harvesting commutes with vmap", "statement": "Reaping a vmapped function raises exactly when reaping the function does; otherwise it returns the vmapped outputs unchanged and, for every sown value, an array whose slice in each lane (along its batch axis) is the value reaped in that lane; that axis is axis 0, so that reap(vmap(f)) = vmap(reap(f)). Planting into a vmapped function is planting the slices in each lane.", "quantifier": "all functions built from primitives with correct batching rules, sows and nested scopes; all tags, lists, modes, inputs, batch axes and lanes", "why_tests_cant": "Universal over programs, batching rules and shapes.", "anchors": ["oryx/core/interpreters/harvest.py:_sow_batch_rule", "oryx/core/interpreters/harvest.py:ReapContext.handle_sow", "oryx/core/interpreters/harvest.py:PlantContext.handle_sow"]}
{"id": "C67", "title": "Harvesting commutes with forward differentiation", "statement": "Reaping jvp(f) returns the primal sown values, exactly as reaping f, and leaves primal and tangent outputs unchanged; planting into jvp(f) gives the primal outputs of planting into f, and tangents of planting into f.", "quantifier": "all functions built from primitives with any JVP rules, sows and nested scopes; all tags, lists, modes, primals and tangents", "why_tests_cant": "Universal over programs and derivative rules.", "anchors": ["oryx/core/interpreters/harvest.py:_sow_jvp", "oryx/core/interpreters/harvest.py:ReapContext.handle_sow", "oryx/core/interpreters/harvest.py:PlantContext.handle_sow"]}
{"id": "C68", "title": "A module used inside a stateful function gives it its state", "statement": "When a stateful function initialises a module and calls it, init of the function succeeds and its module holds the state of the inner module: as its own variables if the inner module has no name, otherwise as one variable with the inner module's name. Calling or updating the outer module calls or updates the inner one, after every history of updates. Two inner modules without names that share a variable name are rejected by init. (False of the code for an inner module that has a name but no variables: every call of the outer module raises.)", "quantifier": "all stateful functions f, all names, keys, inputs, pre- and post-processing and all histories of updates", "why_tests_cant": "Universal over programs and over update histories.", "anchors": ["oryx/core/state/module.py:Module.__call__", "oryx/core/state/function.py:function_init", "oryx/core/state/function.py:FunctionModule.call_and_update"]}
{"id": "C69", "title": "Keyword arguments of a module reach every layer of its function", "statement": "Calling a module made from a function (init of a function) with keyword arguments is running the function with those keyword arguments given to every layer (or primitive with a kwargs rule) it calls, on top of the layer's own keyword arguments, the given ones overriding; the methods of a layer see exactly the ones their signature accepts; keyword arguments that no layer looks at change nothing; without keyword arguments the module is the function as staged. This should hold at any depth of nested calls, jit and control flow.", "quantifier": "all functions (any composition of layers, primitives, nested calls and sub-jaxprs), all keyword dictionaries, arguments, layers and signatures", "why_tests_cant": "Universal over staged programs of unbounded nesting and over all keyword dictionaries.", "anchors": ["oryx/core/state/function.py:eval_jaxpr_with_kwargs", "oryx/core/state/function.py:FunctionModule", "oryx/experimental/nn/function.py:layer_cau_kwargs_rule", "oryx/experimental/nn/base.py:Layer.call_and_update", "oryx/core/trace_util.py:extract_call_jaxpr"]}
{"id": "C70", "title": "jax.vmap of a network is the batched network", "statement": "jax.vmap over a batch of examples of a network (Serial of layers, nested to any depth) gives each example the output the network computes for it alone and returns one unchanged network, where BatchNorm is excepted: in training mode it normalises with the statistics of the whole batch at its place in the network, and one updated network with moving statistics updated by the batch is returned. Keys may be shared by the examples or one per example; whole networks may be mapped too.", "quantifier": "all networks, batches, keys, batch sizes and ways of mapping", "why_tests_cant": "Universal over networks and mappings.", "anchors": ["oryx/experimental/nn/base.py:custom_layer_cau_batch", "oryx/experimental/nn/base.py:_layer_cau_batched", "oryx/experimental/nn/normalization.py:BatchNorm", "oryx/core/primitive.py:batch_fun"]}
{"id": "C71", "title": "Calls inside a function do not change its inverse", "statement": "Wrapping parts of a function in jax.jit (or another call, such as core.call or harvest.nest), to any depth, does not change what core.inverse and core.ildj return for it.", "quantifier": "all functions, all ways of wrapping parts of them in calls to any depth, all outputs, all orders in which the propagation visits equations outside and inside the calls", "why_tests_cant": "Universal over programs, nestings and the order of Python sets.", "anchors": ["oryx/core/interpreters/propagate.py:call_rule", "oryx/core/interpreters/propagate.py:propagate", "oryx/core/interpreters/inverse/core.py:InverseAndILDJ", "oryx/core/interpreters/inverse/core.py:register_binary"]}
{"id": "C72", "title": "core.inverse and core.ildj on programs that take arrays apart and put them together", "statement": "For a function on arrays of any rank made of registered elementwise and binary primitives, slices, concatenations, reshapes, dtype conversions, ties, sows and primitives without inverse (for example coupling layers of a normalizing flow), with entries on the branches the registered inverses choose: whatever core.inverse of it returns on the outputs is entry by entry the inputs, in every order of propagation and for every iteration order of the sets of slices; and core.ildj is minus the logarithm of the absolute determinant of the Jacobian of the function with respect to all entries of its inputs.", "quantifier": "all programs, shapes, ranks, ways of slicing and concatenating, inputs, orders of propagation and iteration orders of the sets of slices", "why_tests_cant": "Universal over programs, shapes and nondeterministic orders.", "anchors": ["oryx/core/interpreters/inverse/core.py:InverseAndILDJ", "oryx/core/interpreters/inverse/core.py:register_elementwise", "oryx/core/interpreters/inverse/core.py:register_binary", "oryx/core/interpreters/inverse/core.py:inverse_and_ildj", "oryx/core/interpreters/inverse/rules.py:slice_ildj", "oryx/core/interpreters/inverse/rules.py:concatenate_ildj", "oryx/core/interpreters/inverse/rules.py:reshape_ildj", "oryx/core/interpreters/inverse/slice.py:NDSlice"]}
{"id": "C73", "title": "core.inverse and core.ildj of functions that contain calls and jax.pmap", "statement": "For a function on arrays made of registered elementwise and binary primitives, slices, concatenations, reshapes, ties, sows, primitives without inverse, calls (jit) and jax.pmap, nested to any depth: whatever core.inverse of it returns on the outputs is entry by entry the inputs. And core.inverse_and_ildj(jax.pmap(f)) does on every lane what core.inverse_and_ildj(f) does: it returns exactly when f can be inverted on a lane, its values and ILDJs at lane l are those of f on lane l, and the total ILDJ is the sum over the lanes.", "quantifier": "all programs, nestings of calls and pmaps, numbers of lanes, shapes, inputs, and orders of propagation (outside, inside of calls and inside of lanes)", "why_tests_cant": "Universal over programs, numbers of lanes, shapes and nondeterministic orders; pmap tests need several devices.", "anchors": ["oryx/core/interpreters/inverse/core.py:map_ildj", "oryx/core/interpreters/inverse/core.py:initial_ildj", "oryx/core/interpreters/inverse/core.py:inverse_and_ildj", "oryx/core/interpreters/propagate.py:call_rule", "oryx/core/interpreters/propagate.py:_pjit_propagate_rule", "oryx/core/interpreters/propagate.py:propagate"]}
{"id": "C74", "title": "Transformations keep the annotations of jitted functions", "statement": "When a function that contains a jax.jit-ed function with shardings, layouts or donated arguments is reaped, planted, inverted, scored with log_prob, interpreted by an effect handler or rewritten: either an error is raised, or every operand and every result of the jitted function keeps the annotation its author gave it, values added by the transformation are neither annotated nor donated, and the new jit gets as many annotations as operands and results. A jitted function without annotations is never rejected.", "quantifier": "all numbers of operands, results, constants and leaves of the state, all assignments of annotations", "why_tests_cant": "Universal over shapes of the calling convention; CPU tests do not observe shardings.", "anchors": ["oryx/core/interpreters/harvest.py:_reap_pjit_rule", "oryx/core/interpreters/harvest.py:_plant_pjit_rule", "oryx/core/interpreters/harvest.py:_calc_extra_inps", "oryx/core/interpreters/propagate.py:_pjit_propagate_rule", "oryx/core/ppl/effect_handler.py:_pjit_effect_handler_rule", "oryx/experimental/matching/jax_rewrite.py:PjitPrimitive"]}
{"id": "C75", "title": "Deconv is the transpose of Conv", "statement": "Deconv multiplies the height and width of an image by the strides (SAME), or does so and adds what the window is longer than the stride (VALID), so that Conv with the same window, strides and padding goes back to the size of the input. Each output entry is the sum of the input pixels times the kernel entry at the place of the output in the pixel's window (turned around), plus the bias; and as a linear map Deconv is the transpose of Conv with the turned-around kernel and exchanged channels: <Conv z, x> = <z, Deconv x>.", "quantifier": "all image sizes, windows, strides, paddings, channels, kernels and images", "why_tests_cant": "Universal over sizes, strides and real entries; padding rules differ by parity and by window versus stride.", "anchors": ["oryx/experimental/nn/convolution.py:Deconv", "oryx/experimental/nn/convolution.py:conv_info", "oryx/experimental/nn/convolution.py:Conv"]}
{"id": "C76", "title": "A stateful function with several variables and modules does what it reads", "statement": "Take any straight-line stateful function that declares variables, assigns them, initialises modules (with variables, or without a name) and calls them any number of times, mixed with arbitrary other code. If it declares some name twice, init raises. Otherwise init runs the function once and its module holds exactly the declared variables and the states of the inner modules. Every call_and_update on such a state is one run of the function in which variables and inner modules have the held values, every call of an inner module is that module's call_and_update on the module value it is applied to (so several calls of the same module all start from the same state), and the new state is the held one overwritten by the last assignment or call for each name; errors are the same. This holds after every history of updates.", "quantifier": "all straight-line stateful functions, inner modules, keys, inputs, states and histories of updates", "why_tests_cant": "Universal over programs with any number of variables, modules and calls, and over update histories.", "anchors": ["oryx/core/state/module.py:Module.__call__", "oryx/core/state/module.py:variable", "oryx/core/state/module.py:assign", "oryx/core/state/function.py:function_init", "oryx/core/state/function.py:FunctionModule.call_and_update"]}
{"id": "C77", "title": "Conditional sows commute with vmap", "statement": "When a function that marks a name with sow_cond is vmapped and then reaped, the slice of the reaped array in each lane is what the function reaps in that lane: the last value whose predicate held in that lane, else zeros. Predicates may differ from lane to lane.", "quantifier": "all histories of conditional sows of a name, in straight-line code and in scans of any length, all value shapes, numbers of lanes, mapped and unmapped predicates", "why_tests_cant": "Universal over histories, shapes and lanes.", "anchors": ["oryx/core/interpreters/harvest.py:_sow_batch_rule", "oryx/core/interpreters/harvest.py:ReapContext.handle_sow", "oryx/core/interpreters/harvest.py:_update_clobber_carry", "oryx/core/interpreters/harvest.py:call_and_reap"]}
{"id": "C78", "title": "vmap and differentiation of a harvested function", "statement": "vmap(reap(f)) and vmap(plant(f)) are, in every lane, reap(f) and plant(f) of that lane's inputs and planted values, whichever of them are mapped and along whichever axes. jvp(reap(f)) returns, for the outputs and for every reaped value, the derivative along the input tangents of what reap(f) returns; jvp(plant(f)) returns the derivative of the planted function, with respect to the inputs and to the planted values. Errors are the same.", "quantifier": "all straight-line functions with sows and nested scopes over primitives with right batching and JVP rules (where their operands are in their domains), all modes, tags and filters, inputs, tangents and planted values", "why_tests_cant": "Universal over programs, curves of inputs and real derivatives.", "anchors": ["oryx/core/interpreters/harvest.py:HarvestTrace.default_process_primitive", "oryx/core/interpreters/harvest.py:ReapContext.handle_sow", "oryx/core/interpreters/harvest.py:PlantContext.handle_sow", "oryx/core/interpreters/harvest.py:PlantContext.process_higher_order_primitive"]}
{"id": "C79", "title": "joint_log_prob is the joint log density of the named random variables", "statement": "joint_log_prob(f)(latents, *args) returns the sum, over the random variables of f that a named value depends on, each counted once, of the log density of the drawn value at its parameters minus the log of the absolute derivative of the operations its function applies to it, where parameters and drawn values are those of the execution of f whose named values are latents; the order in which the names are given and in which the propagation visits the program does not matter, and statements that no named value depends on change nothing. It raises ValueError exactly when a random variable that a named value depends on is unnamed or has parameters that depend on unnamed randomness. trace_log_prob(f) returns the same when the given output agrees with the latents. Two random variables with one name, or a wrong number of values, are errors.", "quantifier": "all programs of deterministic operations and random variables (named or not), each a draw followed by any number of invertible operations with earlier values, all latents, arguments and propagation orders", "why_tests_cant": "Universal over programs, real values and schedules.", "anchors": ["oryx/core/ppl/transformations.py:joint_log_prob", "oryx/core/ppl/transformations.py:trace_log_prob", "oryx/core/ppl/transformations.py:joint_sample", "oryx/core/ppl/transformations.py:random_variable", "oryx/core/interpreters/log_prob.py:log_prob", "oryx/core/interpreters/log_prob.py:log_prob_jaxpr", "oryx/core/interpreters/inverse/core.py:register_binary"]}
{"id": "C80", "title": "plate draws independent samples along its named axis", "statement": "vmap(plate(f, name=a), axis_name=a) called with one key for all lanes returns independent samples: the joint distribution of what the lanes return and show is the product of the distributions of f in each lane, the same as that of vmap(f) over the keys of random.split; with equal arguments the lanes are identically distributed. In a hierarchical model the lanes are independent given the global variables. Nested plates give independent samples at all pairs of indices; a plate is shared over every other axis; without a plate, lanes with one key get one sample. If f has log density lp_i in lane i, the log density of all lanes together is the sum of the lp_i: the one log_prob of a plate returns. A plate runs exactly when axes of its name and of the names of the plates inside are in scope (otherwise NameError) and no name is tagged twice.", "quantifier": "all programs of deterministic operations, key splits and folds, draws, tags and plates (nested to any depth), all samplers and distributions of the random bits, axis sizes, keys, arguments and enclosing axes", "why_tests_cant": "A statement about distributions, universal over programs; a test sees a few samples.", "anchors": ["oryx/core/ppl/plate_util.py:make_plate", "oryx/core/ppl/plate_util.py:plate_log_prob_rule", "oryx/core/ppl/transformations.py:plate", "oryx/core/ppl/transformations.py:random_variable"]}
{"id": "C81", "title": "joint_log_prob is the log density of joint_sample", "statement": "For a program f whose random variables are all named, joint_log_prob(f) returns on every dictionary of values for the names, and what it returns, as a function of those values, is the log density of the joint distribution of the values that joint_sample(f)(key, *args) returns: integrating its exponential over a set of dictionaries gives the probability that joint_sample lands there.", "quantifier": "all programs of deterministic operations and named random variables (each a draw followed by invertible operations that may use earlier values), all samplers with densities, all distributions of the random bits, arguments, keys that are not derived from one another, values and propagation orders", "why_tests_cant": "An identity of measures, universal over programs and arguments; tests compare a few values of log_prob with a formula and never relate it to the sampler.", "anchors": ["oryx/core/ppl/transformations.py:joint_sample", "oryx/core/ppl/transformations.py:joint_log_prob", "oryx/core/ppl/transformations.py:random_variable", "oryx/core/interpreters/log_prob.py:log_prob", "oryx/distributions/distribution_extensions.py:random_variable_log_prob_rule"]}
{"id": "C82", "title": "The joint density after intervene or conditional is the truncated factorisation", "statement": "joint_log_prob(intervene(f, **obs))(latents, *args) is the joint log density of f at the values of obs and latents without the terms of the variables of obs: their values are used wherever f uses them, but their own log densities are not part of the sum, and variables that do not depend on them keep their terms. joint_log_prob(conditional(f, names))(latents, *args, *vals) is the same with obs = dict(zip(names, vals)). Hence joint_log_prob(f)(obs and latents) is that value plus the log densities of the variables of obs.", "quantifier": "all programs of deterministic operations and named random variables (each a draw followed by invertible operations that may use earlier values), all sets of intervened names, values, arguments and propagation orders", "why_tests_cant": "Universal over programs, subsets of names, real values and schedules; the repository tests two intervened models at one value each.", "anchors": ["oryx/core/ppl/transformations.py:intervene", "oryx/core/ppl/transformations.py:conditional", "oryx/core/ppl/transformations.py:joint_log_prob", "oryx/core/interpreters/harvest.py:plant", "oryx/core/interpreters/log_prob.py:log_prob"]}
{"id": "C83", "title": "joint_log_prob of intervene or conditional is the log density of their joint_sample", "statement": "For a program f whose random variables are all named, the values that joint_sample(intervene(f, **obs))(key, *args) returns for the names that are left have a joint distribution with the density exp(joint_log_prob(intervene(f, **obs))(latents, *args)), which is the truncated factorisation of f at obs; joint_log_prob returns on every dictionary for those names. The same holds for conditional(f, names) with the values of names as trailing arguments. A random variable without a name that no named value depends on does not change the joint distribution or joint_log_prob.", "quantifier": "all programs of deterministic operations and named random variables, all distributions with densities and their samplers, all sets of intervened names and values, arguments and propagation orders", "why_tests_cant": "It equates a probability distribution over all keys with a function of all real values, for every program and every set of intervened names; tests compare single values.", "anchors": ["oryx/core/ppl/transformations.py:intervene", "oryx/core/ppl/transformations.py:conditional", "oryx/core/ppl/transformations.py:joint_sample", "oryx/core/ppl/transformations.py:joint_log_prob", "oryx/core/interpreters/harvest.py:plant"]}
{"id": "C84", "title": "The MCMC kernels never use a PRNG key twice", "statement": "With an ideal generator (the randomness of different keys is independent), random_walk(key, state) draws an independent Normal(state, scale) for every element of every leaf; metropolis, hmc and mala steps draw their proposal (or the momentum of every leaf) independently of the accept decision, so with any key they satisfy detailed balance for the target; the steps of sample_chain(kernel, n)(key, state) use independent randomness, so its n states are jointly distributed as a Markov chain of the kernel and every returned state is distributed as the target if the start is; chains run with the keys of random.split(key, m) are independent.", "quantifier": "all keys, pytrees of arrays, scales, step sizes, numbers of leapfrog steps and of chain steps, measurable log densities and gradients, proposal programs that draw only from their key, callbacks and starting states", "why_tests_cant": "Reusing a key changes joint distributions over all seeds, not the value for one seed; a test with one key cannot see the dependence, and a statistical test sees only gross bias.", "anchors": ["oryx/experimental/mcmc/kernels.py:random_walk", "oryx/experimental/mcmc/kernels.py:metropolis", "oryx/experimental/mcmc/kernels.py:metropolis_hastings", "oryx/experimental/mcmc/kernels.py:hmc", "oryx/experimental/mcmc/kernels.py:mala", "oryx/experimental/mcmc/kernels.py:sample_chain"]}
{"id": "C85", "title": "Reverse-mode differentiation and harvesting", "statement": "sow and nest are transparent to gradients: jax.vjp of a function with sows and scopes returns its gradients. Reaping vjp(f) returns the outputs, reaped values and errors of reaping f, and the gradients of vjp(f) unchanged. vjp(reap(f)) returns the outputs and reaped values of reap(f), and for all cotangents of both the cotangents of the inputs are the gradient. vjp(plant(f)) returns the outputs of plant(f) and their gradients, also with respect to the planted values. Planting into vjp(f) returns the outputs of plant(f) and the gradients of plant(f).", "quantifier": "all straight-line functions with sows and nested scopes over primitives whose JVP rules and transposes are right on a domain, all inputs, cotangents, tags, filters, modes and planted values", "why_tests_cant": "Gradients are statements about all directions at every input, for every function and every placement of sows; tests compare a few numbers.", "anchors": ["oryx/core/interpreters/harvest.py:_sow_jvp", "oryx/core/interpreters/harvest.py:_sow_transpose", "oryx/core/interpreters/harvest.py:call_and_reap", "oryx/core/interpreters/harvest.py:plant"]}
{"id": "C86", "title": "log_prob is the log density of the returned values", "statement": "Let f(key, *args) return as many scalars as it has random variables. If log_prob(f)(y, *args) returns a number for the outputs y of f, then no other values of the random variables (on the branches that the registered inverses choose) give the same outputs, and exp(log_prob(f)(y, *args)) is the probability density of the outputs of f(key, *args) over random keys, whatever the order of propagation and however the distributions of the random variables depend on each other.", "quantifier": "all straight-line programs in single assignment form with as many outputs as random variables, all arguments, samplers with the stated densities, keys that are not derived from each other, all orders of propagation and all sets that contain the random values almost surely", "why_tests_cant": "That a formula is the density of a sampler is a statement about the integral over every measurable set, for every program; tests compare a few numbers or histograms.", "anchors": ["oryx/core/interpreters/log_prob.py:log_prob", "oryx/core/interpreters/log_prob.py:LogProbRules", "oryx/distributions/distribution_extensions.py:_sample_distribution", "oryx/core/interpreters/inverse/rules.py"]}
{"id": "C87", "title": "Bayesian inference with joint_log_prob and mcmc", "statement": "Divide the named random variables of a program f into observations and latents, and let x be observed values. If the initial state is distributed as the conditional distribution of the latents of f(key, *args) given that the observations are x, then so is every state returned by sample_chain(kernel(lambda latents: joint_log_prob(f)({**x, **latents}, *args)), n)(key, state), for metropolis with random_walk, for hmc and for mala.", "quantifier": "all straight-line programs with named random variables, samplers with the stated densities and keys not derived from each other, all divisions into observations and latents, almost all observed values, all keys, numbers of steps, scales, step sizes and gradient functions", "why_tests_cant": "Stationarity of the posterior is a statement about integrals over all states and all random numbers, and the posterior itself is only defined by conditioning; a test sees finitely many samples.", "anchors": ["oryx/core/ppl/transformations.py:joint_log_prob", "oryx/core/ppl/transformations.py:joint_sample", "oryx/experimental/mcmc/kernels.py:metropolis", "oryx/experimental/mcmc/kernels.py:hmc", "oryx/experimental/mcmc/kernels.py:mala", "oryx/experimental/mcmc/kernels.py:sample_chain"]}
{"id": "C88", "title": "A function that calls templates is a module of its layers", "statement": "Take a function that calls any number of templates one after the other, x = template(x, init_key=key, name=name). init makes every layer for the output of the layers before it, with its own key, and the module holds each layer under its name, or as the variables params and state if it has no name. Calling the module, in any state, calls its layers one after the other; updating it updates every layer with the input that it gets; after every history of updates it holds the layers so updated. The freshly initialised module returns on its initial argument what the function returns when it is called with the same key. Two layers with the same name, or two layers without a name, are rejected by init.", "quantifier": "all classes of layers (initialize, _call and _update are arbitrary functions), all lists of templates with and without names, keys, arguments, states of the layers and histories of updates", "why_tests_cant": "It ranges over arbitrary layers, networks of any length and all histories of calls and updates; the tests check two layers and one call.", "anchors": ["oryx/experimental/nn/base.py:Template", "oryx/experimental/nn/base.py:template_build", "oryx/experimental/nn/base.py:Layer.call_and_update", "oryx/core/state/module.py:Module.__call__", "oryx/core/state/function.py:function_init"]}
{"id": "C89", "title": "Wrapping a function in a primitive does not change it", "statement": "custom_inverse(f)(*args, **kwargs) returns what f(*args, **kwargs) returns, with the same structure of containers, and raises when f raises; so does every other function that oryx binds to a primitive (call_bind(prim)(f), layers, random variables, bijectors). In a traced program the equation of a wrapped function computes f for all arguments of the traced shapes.", "quantifier": "all functions, all pytrees of positional arguments and results, all keyword arguments, all primitives", "why_tests_cant": "The statement ranges over all functions and all nestings of containers; tests fix a few functions of one or two arrays.", "anchors": ["oryx/core/primitive.py:initial_style_bind", "oryx/core/primitive.py:call_bind", "oryx/core/primitive.py:InitialStylePrimitive", "oryx/core/trace_util.py:stage", "oryx/core/interpreters/inverse/custom_inverse.py:CustomInverse"]}
{"id": "C90", "title": "The spec of an initialised layer", "statement": "For a layer that was initialised from a template, state.spec(layer)(x) is state.spec(template)(x), and it is the shape of layer(x); the same for lists and tuples of layers.", "quantifier": "all templates of oryx.experimental.nn, keys, shapes, inputs and lists of layers", "why_tests_cant": "Universal over layers, shapes and lists.", "anchors": ["oryx/experimental/nn/base.py:layer_spec", "oryx/core/state/registrations.py:list_spec", "oryx/core/state/api.py:spec"]}
{"id": "C91", "title": "The spec of a function", "statement": "state.spec(f)(*args, **kwargs), for arrays or specs as arguments, is the tree of shapes and dtypes of f(*vals, **kwargs) for all values of these shapes and dtypes, and for every init_key if f takes one; it raises only if f does. The same holds for every nesting of lists (composition) and tuples (all on the same input) of functions.", "quantifier": "all functions that JAX can trace, all pytrees of arguments and results, all values, keys and keyword arguments, all nestings of lists and tuples", "why_tests_cant": "Universal over functions, values and nestings; tests evaluate the spec of identity functions and of a few arithmetic functions on one shape.", "anchors": ["oryx/core/state/function.py:function_spec", "oryx/core/state/registrations.py:list_spec", "oryx/core/state/registrations.py:tuple_spec", "oryx/core/state/api.py:spec", "oryx/core/state/api.py:make_array_spec"]}
{"id": "C92", "title": "No gradient flows through the state of a layer", "statement": "Differentiate any function that calls and updates a network any number of times, on any inputs. Every output has the derivative, in the parameters and in the input of its own call, that the network has with the states it starts from held constant; the derivative in the initial states, and through the states in earlier inputs and parameters, is zero. The values, also of the states, are those without differentiation.", "quantifier": "all networks of layers whose _call and _update are differentiable where they are evaluated, all lengths of histories, all inputs, parameters, states and tangents", "why_tests_cant": "Universal over networks, histories and tangents; a test compares a few gradients numerically.", "anchors": ["oryx/experimental/nn/base.py:Layer._call_and_update", "oryx/experimental/nn/combinator.py:Serial._call_and_update", "oryx/experimental/nn/normalization.py:BatchNorm"]}
{"id": "C93", "title": "Forward-mode derivatives, vmap and shapes of wrapped functions", "statement": "Functions that oryx wraps in primitives (custom_inverse, layers, random variables, sow in functions) can be transformed: what jax.jvp returns for a program that calls wrapped functions, nested to any depth, are the derivatives of the program with the functions called directly; what jax.vmap returns are its values in every lane; what abstract evaluation (jit, make_jaxpr, eval_shape) returns are the shapes of its results.", "quantifier": "all programs, nestings of wrapped functions, constants and arguments, tangents including symbolic zeros, lanes, and primitives with right rules", "why_tests_cant": "Universal over programs, nesting depth, tangents and primitives; tests differentiate a few functions.", "anchors": ["oryx/core/primitive.py:FlatPrimitive", "oryx/core/primitive.py:InitialStylePrimitive", "oryx/core/primitive.py:initial_style_bind", "oryx/core/primitive.py:batch_fun"]}
