# Formal model of jax-ml/oryx in Lean 4 — design

(Plan written before the proofs; the "as built" notes at the end are kept current.)

## Layout

* `lean/Verif/<Area>/Model.lean` — the model of the code, function by function, each definition with a
  `/repo` citation and the simplifications made.
* `lean/Verif/<Area>/Spec.lean` — small independent specification (what a user would say), where the
  property cannot be stated with plain mathematics.
* `lean/Verif/<Area>/Lemmas.lean` — helper lemmas.
* `lean/Verif/<Area>/Props.lean` — the property theorems, each followed by an `example` showing that
  concrete non-trivial data meets its hypotheses.
* `MANIFEST.json` maps property ids to theorem names, `seeded/LOG.jsonl` records seeded bugs.

## Plan per property

| id | model | proof |
|----|-------|-------|
| C01–C15 | `Harvest`: a typed language of traced programs (pure steps, sow, sow_cond, nest, call/pjit/remat, cond/switch, scan, while); `plant` and `call_and_reap` as source-to-source transformations, static metadata checks as `Except` values | structural induction on programs, induction on scan lists and on fuel for while; spec = structured execution log |
| C16–C20 | `Ppl`: definitions of ppl/transformations.py on top of Harvest | corollaries of the Harvest theorems; other keys by a relational induction (`Blind`) |
| C21–C23 | `State`: function_init / FunctionModule on top of Harvest-like dictionaries; registrations | induction on histories and lists |
| C24–C25 | `Propagate`: environment, worklist, rules as functions; scheduler as arbitrary choice | invariant over steps, well-founded measure for termination |
| C26–C29 | `Inverse`, `LogProb`: cells, slices, rules on reals | induction on programs; Mathlib reals |
| C30 | `Effect`: jaxpr evaluator with state; `rawBind`: binding without `get_bind_params` | induction on (nested) jaxprs; partial: `custom_jvp_call` without a handler raises |
| C31–C34 | `Matching`: matcher in success-continuation style as lists of results, rules as functions, jax_rewrite | induction on patterns/terms; fuel for `iterated` |
| C35–C36 | `Autoconj`: einsum over finite index sets, formula manipulation | finite sums |
| C37–C38 | `Mcmc`: accept/reject on densities, leapfrog on a module over a ring | algebra, induction on steps |
| C39–C41 | `Optix` | induction on gradient histories |
| C42–C44 | `Nn` | induction on layer lists, finite expectation |
| C45–C47 | `Util` | list induction |
| C48–C49 | `Autoconj`: every canonicalisation rule and the rewriting loop | equality of finite sums; well-founded measure on expressions |
| C50–C52 | `Mcmc`: HMC/MALA kernels on densities, `sample_chain`, `constrain` | detailed balance with the volume-preserving involution; induction on steps; change of variables |
| C53 | `Optix`: `optimize`, `gradient_descent` | induction on steps |
| C54–C56, C60, C62, C70 | `NN`: layers as functions on indexed arrays; the batching rule | finite sums over windows and axes; induction on layer lists |
| C57, C61 | `Harvest`: `get_summaries`; the set of planted names | induction on programs |
| C58–C59, C65 | `LogProb`: calls, plates, batched random variables | invariants over propagation steps; sums over lanes |
| C63–C64 | `Inverse`: custom_inverse and bijector rules | invariants over propagation steps |
| C66–C67 | `Harvest/Lift`: vmap and jvp of programs with `sow`; `Harvest/Vmap*`: vmap of programs with control flow (per `cond`/`while` whether the predicate is batched) | induction on equations; simulation of each lane |
| C68–C69 | `State/Nested`, `State/Kwargs` | induction on programs |
| C71–C73 | `Inverse/Nested`, `Inverse/Arr*`, `Inverse/Pmap*`: calls, array cells, `map_ildj` | invariants over propagation steps; simulation between lanes; Jacobian of the graph |
| C74 | `Jit`: lists of annotations under the pjit rule of every transformation | list lemmas |
| C75 | `NN.deconvApply`: `lax.conv_transpose` written out, one axis at a time | regrouping of finite sums |
| C76 | `State.Stmt`: straight-line stateful functions; `Stmt.prog` is what harvest sees, `Stmt.exec` is the specification | structural induction for each of the four harvests of `init`; induction on histories |
| C77 | `Harvest/CondVmap`: the entry of one `sow_cond` name with physical arrays and explicit shapes, straight-line code and scans; what `lax.cond`, `lax.select` and `\|` demand of shapes | invariant of the stored entry against the list of executed sows; exact condition for raising |
| C78 | `Harvest/Outer`: the harvest trace with a `vmap` or `jvp` trace as its parent (programs of `Lift` with primitives evaluated by the parent) | homomorphisms between parent traces; derivatives by tracking curves (Mathlib's `HasDerivAt`) through the program |
| C79 | `LogProb/Joint`: the jaxpr of a reaped program (statements: deterministic operations, draws followed by links, tags), `log_prob` run on it with the leaves of the dictionary; staging with `dynamic=False` (log_prob.py:62) keeps only the equations that the results depend on (`prune`) | the equations form a system with a unique solution that every complete run reaches (`Solve`); the solution is the statement-by-statement evaluation; derivatives of the links (Mathlib) |
| C80 | `Plate`: programs that derive keys, draw, tag and open plates; keys are paths of `split`/`fold_in`, the generator is a family of independent random bits indexed by paths | a call with key `k` reads only the bits below `k` (grafting); the images of a product measure under injective re-indexing (Mathlib `Measure.infinitePi`) |
| C81 | `LogProb/JointSample`: `joint_sample` of the programs of C79, run with the random bits of C80's oracle; the density of a program is the product of the densities of its draws, pulled back through their links | statement by statement: a draw's law through its links by change of variables (Mathlib), the joint law by Tonelli on the vector of values; C79 says `joint_log_prob` returns the log of that product |
| C82 | `LogProb/JointDo`: the program staged for `intervene` and `conditional` on the programs of C79: later statements use the planted value, operations on constants are folded while staging, the planted draw stays without its name | simulation between the run of the planted program and that of the program with all values given; the planted draws are dead, so C79's theorem for what is alive gives the value |
| C83 | the programs of C82 and the `joint_sample` of C81: the samples of the planted program against the program in which the planted random variables are assignments | the samples of both are the same for every key (simulation); the terms of the second are those of the truncated factorisation; its samples have the product density by C81's induction |
| C84 | `Mcmc.Keyed`: the kernels of C37, C50 and C51 with every `random.split` written out, on pytrees of arrays, and the ideal generator of C80 | the draws of unrelated keys are independent (pushforward of the infinite product), so each keyed step is the step of C37/C50 on independent numbers; chains by the steps’ keys |
| C85 | `Harvest/Grad`: values that carry the linear map from their cotangent to the cotangents of the inputs; `reap`/`plant` inside and outside of `vjp` | homomorphisms between rules; values that move along curves with tangent and adjoint (Mathlib's `HasDerivAt`, inner products) |
| C86 | `LogProb/Density`: calling `f(key, *args)` on an ideal generator, and its staged jaxpr | the values of the random variables have the joint density (conditional laws along the program), `log_prob` is the joint minus the log Jacobian (C58), known values determine the execution so that the outputs are injective, change of variables (Mathlib) |
| C87 | `Mcmc/Posterior`: the kernels of C84 on the target made of `joint_log_prob` and observed values | the joint density of C81 is divided by the density of the observations; the result is Mathlib's `condDistrib`; C84 for the unnormalised density |
| C88 | `State/LayerStmt`: templates and layers of `nn` as modules of the stateful functions of C76 | a layer is an inner module with the variables `params` and `state`; C76 for the list of lines; induction on the list |
| C89 | `Util/Bind`: pytrees, `stage`, `initial_style_bind`, `call_bind`; tracing of JAX is a parameter that is assumed sound | flattening and unflattening are inverse (mutual induction on pytrees); partial: a function with Python control flow on values cannot be traced and so cannot be wrapped by `initial_style_bind` (negation proved) |
| C90 | `NN/LayerSpec`: `state.spec` of initialised layers and of lists of them | cases on the class, induction on lists; partial: false of the code for classes whose `spec` needs the arguments of the template |
| C91 | `state.spec` of functions: bodies of Python functions run by one interpreter on concrete and on abstract arrays, with `if` on arrays and on keyword arguments; specs of lists and tuples from C23 | soundness and completeness by induction on the body, for all primitives whose shapes depend on shapes only; partial: `function_spec` traces keyword arguments, so a function that tests one has no spec (proved) |
| C92 | Layers as differentiable functions of parameters, state and input, `jax.jvp` as values with tangents pushed forward by the Fréchet derivative, `stop_gradient` as the zero tangent; `Serial` and histories of calls | chain rule by induction on the layers and on the history; the derivative is compared with that of the network with constant states, defined separately; layers need be differentiable only where the history goes (shown for a BatchNorm) |
| C93 | Programs with equations of wrapped functions, run by any transformation: a rule per primitive and what is done with the results of a function; `FlatPrimitive`'s rules run the implementation under the transformation | one logical-relation theorem by induction on programs (`C93_transformation`), instantiated with curves and their derivatives (jvp with symbolic zeros), lanes (vmap) and shapes; JAX's rules of primitives are hypotheses; transposition, lowering and positions of mapped axes are not modelled |

Not modelled anywhere: floating point (reals or abstract values are used), XLA lowering, reverse-mode
autodiff of `sow`, sharding, `shard_map`, `pmap` outside of `inverse`, the JAX tracing machinery itself (a traced function is modelled by
the program it denotes).

## As built: what is modelled

| area (lean/Verif/…) | code in /repo/oryx | modelled | left out or simplified |
|---|---|---|---|
| Harvest | core/interpreters/harvest.py | sow, sow_cond, nest, reap, call_and_reap, plant, harvest with tags, allow/block lists, exclusive; contexts' metadata and errors; rules for call, pjit, remat, custom_jvp (first branch), cond/switch, scan (with reverse), while; `util/summary.py`; JVP, batching and (as reverse mode) transposition rules of `sow` for straight-line functions with nest | program transformation instead of tracing; custom_vjp, pmap/shard_map, effects tokens |
| Ppl | core/ppl/transformations.py | random_variable, rv, joint_sample, intervene, conditional, block, trace, nest, plate names | distribution objects are samplers; log_prob side in LogProb |
| State | core/state/{function,module,api,registrations}.py | init/call/update/spec of function modules via variable/assign, lists, tuples, nested lists; `Seq` for names, keys, specs; a module initialised and called inside another stateful function (`Nested`); keyword arguments and `kwargs_rules` (`Kwargs`) | |
| Propagate | core/interpreters/propagate.py | Environment, worklist with every scheduling order, rules, reducer | |
| Inverse | core/interpreters/inverse/{core,slice,rules,custom_inverse,bijector_extensions}.py | cells, slices, join, all registered unary/binary rules, concatenate/slice/reshape/convert, custom_inverse rules, bijector rule; programs on arrays of any rank whose cells hold several slices (`ArrModel`, C72; `strides=None`); Jacobians of whole graphs of scalar operations (`Jacobian`) and of array entries (`ArrIldj`: a `slice` joined to a cell keeps the ILDJs of the entries apart, cells are intervals along one axis); calls (`Nested`): a call propagates through its callee in an arbitrary order of its own; `pmap` (`Pmap`, C73): every lane propagates in an order of its own | bijector parameters as variables; `pmap` with `out_axes` other than 0, collectives |
| LogProb | core/interpreters/log_prob.py, core/ppl/plate_util.py, distributions/distribution_extensions.py | rules, reducer, failure, nested calls, plates (vmapped), batching and log_prob of distributions; `joint_log_prob` and `trace_log_prob` of programs with several random variables, the distribution of `joint_sample` and of `f(key, *args)` itself (`Density`), and both after `intervene` and `conditional` | named-axis machinery is a product over an index set; in C79 and C81-C83 the `nest` call around a named function is modelled both inlined and as a call with its own propagation (`JointNest`), and the results are proved equal |
| Plate | core/ppl/plate_util.py, `plate` and the `plate=` branch of core/ppl/transformations.py | `make_plate` under `vmap(axis_name=…)`: folding the lane's index into the key, nested plates, tags, NameError | the generator is ideal: different derivations give independent bits; a plated function draws only from the key it is given |
| Effect | core/ppl/effect_handler.py | interpreter with state, call/pjit rules, make_effect_handler | sharding parameters |
| Jit | pjit rules of harvest.py, propagate.py, effect_handler.py, jax_rewrite.py | shardings, layouts and donation of operands and results under each transformation | the meaning of shardings |
| Matching | experimental/matching/{matcher,rules,jax_rewrite}.py | all patterns, match/match_all, all rule combinators, jaxpr ↔ expression, evaluation, rewriting | `Expression` class trees are tuples/dicts |
| Autoconj | experimental/autoconj/{einsum,addn,canonicalize}.py | formula parsing and composition, einsum semantics, every canonicalisation rule, the rewriting loop | conjugacy code is not in the repository |
| Mcmc | experimental/mcmc/{kernels,utils}.py | metropolis, metropolis_hastings, random_walk, mala, hmc, leapfrog, sample_chain, constrain; with independent numbers (`Kernels`) and with explicit keys (`Keyed`) | reals, exact arithmetic; an ideal generator |
| Optix | experimental/optimizers/optix.py | all transformations, chain, named optimizers, optimize, gradient_descent | reals; pytrees as index sets except where containers matter (clip) |
| NN | experimental/nn/{base,core,reshape,convolution,pooling,normalization,combinator,function}.py | layers, templates, spec/init/call/update, Serial, flatten/unflatten, dropout, pooling, convolution, batch norm; the batching rule of layers under `jax.vmap` (`Vmap`) | explicit padding lists; under vmap the leaves of a layer are mapped all or none; reals; random initialisers are arbitrary functions of the key |
| Util | core/kwargs_util.py, core/trace_util.py (contexts), core/primitive.py (tie), core/serialize.py | filter_kwargs, check_in_kwargs, thread-local contexts, tie_all/tie_in | lowering rules |

Every definition carries the file and lines it models and its simplifications in its comment.

## As built: how a property relates to its theorems

`MANIFEST.json` gives for each property the theorems and, for `partial`, what is missing. Where the English property
is *false of the code*, the theorem with suffix `_partial` states the conditions under which it holds and a separate
theorem (named `…_witness`, `…_counterexample`, or after the fact it shows) proves that it fails without them. These
are findings about the code, obtained by reading and confirmed in the model:

* **harvest** — a name sown with `clobber` and then with `sow_cond` whose predicate is false is reaped as zeros; inside
  `nest` predicates are dropped; the loop variable `mode` leaks from one loop to another in the scan rule; a loop that
  runs zero times overwrites an earlier clobbered value by zeros; sows in the test of a while loop are neither reaped
  nor planted; `PlantContext._already_planted` is created anew in calls, so a strict name can be planted twice.
* **harvest of transformed functions** — `reap(vmap(f))` gives values with the batch axis wherever it happens to be, and
  without one for values that are not mapped, so it is not `vmap(reap(f))`; `plant(jvp(f))` replaces primals but lets the
  tangents of the replaced values through, and `plant(vjp(f))` their gradients (`plant_vjp_gradient_wrong`); `reap(jvp(f))` does not reap tangents although harvest.py:135 says so.
* **harvest of vmapped control flow** — a `cond` or `while` whose predicate differs between lanes is executed for all lanes:
  `reap(vmap(f))` raises for a strict name sown in both branches although `reap(f)` accepts it (`vmap_reap_cond_raises`); with
  `clobber` every lane gets the value of the last branch (`vmap_reap_cond_stale`), or of the last iteration of the slowest
  lane (`vmap_reap_while_stale`).
* **sow_cond under vmap** — `_sow_batch_rule` sows the batched predicate, and `handle_sow` and the loop rules give it to
  `lax.cond`, which wants a scalar: reaping raises for a second `sow_cond` of the name, for any `sow_cond` in a loop, and for
  values that are not scalars in each lane (`cond_twice_raises`, `cond_loop_raises`, `cond_vector_raises`); a value that is not
  mapped but has as many entries as there are lanes is silently wrong (`cond_unmapped_wrong`).
* **nn under vmap** — with one key per example (as `Dropout` wants) `BatchNorm` returns the whole batch for every
  example, and its parameters and moving statistics get a batch axis (base.py:431-440): `C70_mapped_key_wrong`; a batch
  axis other than 0 is an `AssertionError`; the batched method of `Pooling` is never used, because `all([])` is true of
  its leaves.
* **ppl** — naming a function that already contains named random variables nests it under a scope that `block` does
  not hide.
* **state** — an empty list called on `x` returns `(x,)`; a component that returns a Python list is spread by
  `spec`/`init` but not by the call; a named module without variables cannot be used inside a stateful function: `init`
  does not tag it as a variable (function.py:292) but its call assigns it (module.py:144-147), so every call of the outer
  module raises "No variable declared for assign".
* **keyword arguments of function modules** — they reach layers through call and map primitives only: inside `jit`
  (pjit), scan, cond and while they are ignored; a key `rng` is not split but given to every layer; it does not replace a
  key given in the function.
* **inverse** — `inverse(sin ∘ sqrt)` returns a number that is not a preimage; `cube` gives nan; `reshape` and
  `convert_element_type` reset the ILDJ to 0; `div`/`pow` take logarithms without absolute values; joining 2-D slices
  loses coverage; the rule of `slice` ignores `strides` when it records the bounds (strided slices are not in the model).
* **inverse of pmap** — `map_ildj` binds every flat value with `in_axes=0` and ignores the `in_axes` of the equation
  (core.py:341-342): `inverse(pmap(neg, in_axes=1))` returns the transpose of the input without an error
  (`C73_axes_wrong`), and an operand that is not mapped (`in_axes=None`, or closed over) is cut into lanes as well, or
  makes `pmap` raise when its first axis has another size.
* **custom_inverse** — a rule given to `def_inverse_and_ildj` that returns `None` for an input makes the call raise
  (`NDSlice.new` is applied to the sentinel before it is looked at), although the comment above it says it is supported.
* **bijectors** — the inverse rule of patched TFP bijectors leaves a variable unassigned when it is reached with both
  cells known or both unknown: `inverse` of a composition of two or more bijectors raises for some propagation orders;
  its forward branch returns the parameters' cells twice.
* **log_prob** — wrong for `exp(reshape(z))` (previous item); a nested call none of whose variables is recovered is
  silently left out of the sum where the flat program raises; the ILDJ of transformations outside a `plate` is counted
  twice (or more).
* **inverse of functions with calls** — values survive `jit` (`C71_values`) but ILDJs do not: a call is executed again
  whenever one of its operands or results becomes known, and in the second execution a binary primitive computes a known
  right operand anew from its result, which has ILDJ 0 because it was computed forwards; the ILDJ the operand had is
  overwritten. `f(x1, x2) = (exp x1, t1 + t2)` with `t1, t2 = jit(lambda x1, x2: (2 * x1, -x2))(x1, x2)` has ILDJ `-log 2`
  instead of `-1` in every order (`C71_ildj_wrong`), and `log_prob` of the corresponding program returns a wrong density
  (`C58_call_changes_density`).
* **constants computed inside of jit** — an equation of a jitted function without variables among its operands (`-2.`,
  `jnp.ones(3)`, `jnp.arange(3)` inside of the function) is next to no known variable, so it is never executed
  (propagate.py:285-290): `inverse(jit(lambda x: x + -2.))` raises for every output in every order, where the function
  without `jit` is inverted (`C71_constant_in_call_raises`).
* **distributions under vmap** — `random_variable_batching_rule` passes the physical parameter arrays on without moving
  axes: `log_prob` is wrong (or raises) exactly when a parameter is mapped by an outer `vmap` but not an inner one, or
  along an axis other than 0.
* **annotations of jit** — the checks of harvest and propagation reject a jitted function only if *all* of its operands or
  results have shardings (`not any(unspecified)`): shardings given to some results are dropped silently
  (`C74_harvest_partial_dropped`); propagation rejects every jitted function without operands or without results
  (`C74_propagate_no_operands`); effect handlers put the shardings and layouts of the results on the state and vice versa
  (`C74_effect_misplaced`), and `pjit` gets the wrong number of them if a handler changes the number of leaves of the state
  (`C74_effect_binds_iff`).
* **Deconv sizes** — with strides, the spec of `Deconv` disagrees with its output for images without pixels (`C42_deconv_counterexample`).
* **Deconv kernel** — `Deconv` does not turn its kernel around (`transpose_kernel=False`), so it is not the transpose of the `Conv` with the
  same kernel (`C75_same_kernel_not_transpose`), only of the one with the kernel turned around (`C75_transpose`).
* **effect_handler** — handlers for pjit/call primitives, and for primitives inside scan/cond/while, are never used.
* **matcher (sequences)** — the sequence matcher does not look at the type of the sequence (matcher.py:629): the tuple
  pattern `(Var('x'), Var('y'))` matches the list `[1, 2]` and the string `'ab'` (`vars_match_other_kind`).
* **matcher** — `Choice` inside `Star` loses matches; the name of a `Choice` overwrites a binding; a reused `Star` name
  is not re-checked against the body; accumulation over two `Star`s loses values; `match_all` commits to the first
  successful alternative; `Not` before its variables are bound never matches what it should.
* **rules / jax_rewrite** — `make_rule` raises on dictionaries (lru_cache); a `MatchError` raised by a handler is
  swallowed; constants of inner closed jaxprs are dropped; `CallPrimitive.tree_children` omits the body.
* **autoconj** — `compose_einsums` raises when more than 52 index names are needed although the einsum exists.
* **mcmc** — `metropolis_hastings` inverts the proposal ratio (kernels.py:121-128): the chain does not preserve the
  target for an asymmetric proposal. `state.init(sample_chain(kernel, n))` of a kernel without variables is a module
  that raises at every call: the assignment of the empty `kernel` module is recorded although it is not declared
  (`sample_chain_module_stateless_raises`).
* **joint_log_prob** — the rule of a binary operation recomputes the right operand even when it is known, and the new
  cell (with its ILDJ) replaces the old one (inverse/core.py:97-98, 268-287): a deterministic value that is named, or
  returned from `trace_log_prob`'s function, as `3. * z` adds `-log 3` to the joint log density (`z * 3.` adds nothing).
  The names of the given values are never compared with those of the program: only the leaves, in the order of the names,
  are used (log_prob.py:64), so values under wrong names are accepted.
  For a random variable `sqrt(x)` it gives negative values a density although none is ever sampled
  (`joint_log_prob_sqrt_wrong`).
* **optix** — `clip` clips the whole container instead of the leaf, so it raises on every container; a chain with a
  stateless component raises if harvest records modules without variables (both readings are covered by the flag
  `recordEmpty`; by reading harvest.py:298-308 and 391-397 it does record them, so `optimize` with `sgd`, `adam` or
  `rmsprop` raises: `optimize_sgd_raises` and its neighbours); `gradient_descent` passes `init_key` to functions that do
  not accept it (`optimize_stateless_raises`); a keyword named `update_0`
  collides.
* **nn** — `Dropout(rate)` keeps with probability `rate`; `Reshape` with -1 has a spec containing -1; `Reshape(int)`
  cannot be initialised; an empty `Serial` cannot be flattened; nesting a `Serial` changes the keys; `Serial.unflatten`
  drops `info`; `_EqJaxpr` makes tree definitions of different function modules equal; `BatchNorm` updates its
  statistics with `training=False`; an unbatched update with axis not containing 0 uses channel 0 only.
* **effect_handler / state** — the evaluators bind equations without `get_bind_params` (effect_handler.py:207,
  function.py:131), so `custom_jvp_call` and `custom_vjp_call` equations raise: `make_effect_handler(..)(f)` fails for an
  `f` that uses `jax.nn.relu` without a handler for it (`effect_handler_custom_jvp_raises`), and a module made by
  `state.init(f)` fails when it is called (`module_custom_jvp_raises`; layers are not affected).
* **harvest** — planting a value that is not a dictionary for the name of a scope whose body sows raises `TypeError` or
  `AttributeError` (harvest.py:1188-1221) instead of an error about the names; an array is taken as no plants at all.
* **custom_inverse** — a decorated function is not "semantically identical to the original" (custom_inverse.py:146-147): it
  is staged even when it is called eagerly, so a function with Python control flow on values raises
  (`initial_style_bind_raises`); functions bound with `call_bind` do not.
* **spec** — `state.spec(layer)` raises for every initialised `Dense`, `Dropout`, `Reshape`, `Conv`, `Deconv`, pooling and
  `Serial`: `layer_spec` (base.py:489-495) calls the class method without the arguments of the template
  (`C90_spec_raises`).  `state.spec` is not registered for modules made from functions, although its documentation names
  modules.
* **function_spec** — `state.spec(f)(*args, training=True)` hands keyword arguments to `jax.eval_shape`, which traces them (function.py:314), while `init` keeps them static (function.py:281-282): a function that tests a keyword argument has no spec when it is given (`C91_kwargs_raises`), and a keyword argument that is no array type, such as a string, makes every spec raise (`C91_kwargs_notArray`).
* **util** — `filter_kwargs` drops keyword-only parameters and keeps positional-only ones with a default.

## Testing against wrong programs

`seeded/LOG.jsonl` has one line per seeded bug: a one-place edit of a model definition (outside /verif), rebuilt, with
the theorems that stopped compiling. Bugs that no theorem noticed led to the tightened or new theorems named in the
log (or are marked equivalent when the edited program computes the same function).

## Trusted base

* Lean 4.33.0's kernel. Axioms allowed: `propext`, `Quot.sound`, `Classical.choice` (the per-theorem list
  is printed by the audit). No axioms are added, nothing is evaluated by compiled code.
* The reading of `/repo` by which the model was written. The code is not executed.
* For C79 and C81: what JAX's `trace_to_jaxpr_nounits` keeps of a traced program (the equations that the results depend on), which is not code of /repo.
* For C80 and C81 (and nowhere else): the random generator is idealised as independent bits for different derivations of keys
  (`Plate.oracle`). Collisions of the 64-bit keys of JAX and the quality of its generator are outside the model.

## Axioms per theorem

Printed by `#print axioms` for every theorem in MANIFEST.json (regenerated when the manifest changes).

**Classical.choice, Quot.sound, propext**:
`Autoconj.addRule_preserves`, `Autoconj.addnRule_preserves`, `Autoconj.addn_sem`, `Autoconj.canonicalize_canonical`, `Autoconj.canonicalize_never_loops`, `Autoconj.canonicalize_returns`, `Autoconj.canonicalize_value`, `Autoconj.composeRule_preserves`, `Autoconj.compose_einsums_returns`, `Autoconj.compose_einsums_value`, `Autoconj.dotRule_preserves`, `Autoconj.reduceSumRule_preserves`, `Autoconj.squeezeRule_preserves`, `Autoconj.transposeRule_preserves`, `Effect.effect_handler_closed`, `Effect.effect_handler_positions`, `Harvest.CondVmap.cond_vmap_commutes_partial`, `Harvest.CondVmap.cond_vmap_lane`, `Harvest.CondVmap.cond_vmap_raises`, `Harvest.CondVmap.cond_vmap_reapable_iff`, `Harvest.CondVmap.reap_cond`, `Harvest.Ex.blocked_scope_planted_witness`, `Harvest.Ex.blocklist_rejects_witness`, `Harvest.Ex.vmap_reap_cond_raises`, `Harvest.Ex.vmap_reap_cond_stale`, `Harvest.Ex.vmap_reap_while_stale`, `Harvest.Lift.Ex.jvp_of_plant_square`, `Harvest.Lift.handle_raises_iff`, `Harvest.Lift.jvp_of_plant`, `Harvest.Lift.jvp_of_reap`, `Harvest.Lift.jvp_of_reap_smooth`, `Harvest.Lift.plant_vjp_straight_through_partial`, `Harvest.Lift.reap_spec`, `Harvest.Lift.vjp_of_plant`, `Harvest.Lift.vjp_of_reap`, `Harvest.Lift.vjp_of_sow`, `Harvest.Summary.get_summaries_accepts`, `Harvest.Summary.get_summaries_keys`, `Harvest.Summary.get_summaries_leaves_tags`, `Harvest.Summary.get_summaries_of_summary`, `Harvest.Summary.get_summaries_other_tags`, `Harvest.Summary.get_summaries_output`, `Harvest.Summary.get_summaries_values_partial`, `Harvest.append_stack`, `Harvest.callAndReap_output`, `Harvest.clobber_last_partial`, `Harvest.clobber_never`, `Harvest.exclusive_no_sow_left`, `Harvest.filtered_not_planted`, `Harvest.filtered_not_planted_nested_partial`, `Harvest.filtered_not_reaped`, `Harvest.harvest_planted_absent`, `Harvest.harvest_split_partial`, `Harvest.harvest_tags_isolated`, `Harvest.illModed_plant_rejected`, `Harvest.illModed_rejected`, `Harvest.mixed_false_gives_zeros`, `Harvest.mixed_reap`, `Harvest.mixed_reap_nested`, `Harvest.nest_no_collision_partial`, `Harvest.nest_plant`, `Harvest.nest_reap_partial`, `Harvest.nest_reap_rejected`, `Harvest.no_sow_left`, `Harvest.plant_accepts_iff`, `Harvest.plant_branch_twice_rejected`, `Harvest.plant_nothing`, `Harvest.plant_override`, `Harvest.plant_override_run`, `Harvest.plant_strict_twice_in_call`, `Harvest.plant_strict_twice_rejected_partial`, `Harvest.reap_exact_partial`, `Harvest.reap_fails_iff`, `Harvest.reap_filtered_partial`, `Harvest.reap_keys`, `Harvest.reap_plant_nothing`, `Harvest.reap_plant_roundtrip_partial`, `Harvest.reap_unfiltered_path_partial`, `Harvest.second_harvest_empty`, `Harvest.second_plant_ignored`, `Harvest.second_reap_empty`, `Harvest.sow_cond_last_partial`, `Harvest.strict_at_most_once`, `Harvest.strict_reaped`, `Harvest.strict_twice_rejected`, `Harvest.strict_unique_site`, `Harvest.tags_isolated`, `Harvest.unfiltered_same_partial`, `Harvest.vmap_plant_control_partial`, `Harvest.vmap_reap_control_partial`, `Inverse.Bijector.bijector_compose_partial`, `Inverse.Bijector.bijector_compose_raises`, `Inverse.Bijector.bijector_compose_returns`, `Inverse.Bijector.bijector_single_never_raises`, `Inverse.C72_ildj_partial`, `Inverse.C72_values`, `Inverse.Custom.custom_answers`, `Inverse.Custom.custom_chain_ildj`, `Inverse.Custom.custom_chain_inverse`, `Inverse.Custom.custom_chain_recovers`, `Inverse.Custom.custom_none_raises`, `Inverse.Custom.custom_noninvertible`, `Inverse.Custom.custom_nothing_missing`, `Inverse.Custom.custom_single_run`, `Inverse.Mapped.C73_axes_wrong`, `Inverse.Mapped.C73_lanes`, `Inverse.Mapped.C73_lanes_agree`, `Inverse.Mapped.C73_mapped_returns`, `Inverse.Mapped.C73_total`, `Inverse.Mapped.C73_values_partial`, `Inverse.Mapped.uniform_order_exists`, `Inverse.Nested.C71_chain_partial`, `Inverse.Nested.C71_constant_in_call_raises`, `Inverse.Nested.C71_flat_right`, `Inverse.Nested.C71_ildj_changes`, `Inverse.Nested.C71_ildj_wrong`, `Inverse.Nested.C71_terminates`, `Inverse.Nested.C71_values`, `Inverse.bin_left_ildj_partial`, `Inverse.bin_right_ildj_partial`, `Inverse.chain_ildj_forward_partial`, `Inverse.chain_ildj_partial`, `Inverse.chain_inverse_correct_partial`, `Inverse.chain_inverse_recovers`, `Inverse.chain_inverse_returns`, `Inverse.concat_faithful`, `Inverse.containment_of_nested`, `Inverse.convert_resets_ildj`, `Inverse.div_left_ildj_nan`, `Inverse.exA_returns`, `Inverse.fa_returns`, `Inverse.graph_ildj_inverse_partial`, `Inverse.graph_ildj_partial`, `Inverse.inverse_cube_nan`, `Inverse.inverse_nan_in_range`, `Inverse.inverse_recovers_inputs`, `Inverse.inverse_wrong_preimage`, `Inverse.join_coverage_1d`, `Inverse.join_coverage_partial`, `Inverse.join_faithful`, `Inverse.pair_instance`, `Inverse.pieces_complete_1d`, `Inverse.pow_left_ildj_nan`, `Inverse.pow_right_ildj_nan`, `Inverse.reduce_ildj_triangular_partial`, `Inverse.reshape_resets_ildj`, `JaxRewrite.bound_expression_eval_partial`, `JaxRewrite.rewrite_bottom_up_partial`, `JaxRewrite.rewrite_preserves_partial`, `Jit.C74_harvest_plain`, `Jit.C74_harvest_raises_iff`, `Jit.C74_propagate_no_operands`, `Jit.C74_propagate_plain`, `Jit.C74_propagate_raises_iff`, `LogProb.Batched.rv_log_prob_iff`, `LogProb.Batched.rv_log_prob_outer_only_wrong`, `LogProb.Batched.rv_log_prob_partial`, `LogProb.Joint.conditional_log_prob_partial`, `LogProb.Joint.conditional_sample_density_partial`, `LogProb.Joint.draw_sampled`, `LogProb.Joint.intervene_chain_rule_partial`, `LogProb.Joint.intervene_log_prob_partial`, `LogProb.Joint.intervene_sample_density_partial`, `LogProb.Joint.joint_log_prob_cannot_partial`, `LogProb.Joint.joint_log_prob_density_partial`, `LogProb.Joint.joint_log_prob_duplicate`, `LogProb.Joint.joint_log_prob_leaves`, `LogProb.Joint.joint_log_prob_named_partial`, `LogProb.Joint.joint_log_prob_names_unchecked`, `LogProb.Joint.joint_log_prob_sqrt_wrong`, `LogProb.Joint.joint_log_prob_tagged_wrong`, `LogProb.Joint.joint_log_prob_value_partial`, `LogProb.Joint.joint_sample_density_partial`, `LogProb.Joint.joint_sample_density_unused_partial`, `LogProb.Joint.links_law`, `LogProb.Joint.logNormal_density`, `LogProb.Joint.log_prob_density_live_partial`, `LogProb.Joint.log_prob_density_partial`, `LogProb.Joint.log_prob_density_total_partial`, `LogProb.Joint.log_prob_determines`, `LogProb.Joint.nest_conditional_log_prob_partial`, `LogProb.Joint.nest_conditional_sample_density_partial`, `LogProb.Joint.nest_intervene_log_prob_partial`, `LogProb.Joint.nest_intervene_sample_density_partial`, `LogProb.Joint.nest_joint_log_prob_density_partial`, `LogProb.Joint.nest_joint_log_prob_partial`, `LogProb.Joint.nest_joint_log_prob_value_partial`, `LogProb.Joint.nest_joint_sample_density_partial`, `LogProb.Joint.rootExp_value`, `LogProb.Joint.trace_log_prob_value_partial`, `LogProb.Joint.twoNormals_density`, `LogProb.Nested.C58_call_changes_density`, `LogProb.Nested.C58_density_without_the_call`, `LogProb.Nested.nested_log_prob_change_of_variables`, `LogProb.Nested.nested_log_prob_counts_all_partial`, `LogProb.Nested.nested_log_prob_invariant`, `LogProb.Nested.nested_log_prob_returns_iff`, `LogProb.Nested.nested_log_prob_terminates`, `LogProb.Nested.plate_ildj_counted_twice`, `LogProb.Nested.plate_log_prob_partial`, `LogProb.Nested.plate_log_prob_value`, `LogProb.Nested.unreached_call_is_not_counted`, `LogProb.Nested.without_the_call_it_raises`, `LogProb.log_prob_change_of_variables_partial`, `LogProb.log_prob_jacobian_partial`, `LogProb.log_prob_reshape_wrong`, `LogProb.log_prob_returns_iff`, `LogProb.log_prob_sum`, `LogProb.log_prob_sum_of_two_raises`, `LogProb.log_prob_terminates`, `LogProb.rvPair_instance`, `Matching.Strings.vars_match_iff`, `Matching.Strings.vars_match_other_kind`, `Matching.Strings.vars_match_sound_partial`, `Matching.accumulate_twice_loses`, `Matching.combinators_preserve`, `Matching.is_match_iff_partial`, `Matching.iterated_normal`, `Matching.makeRule_dict_raises`, `Matching.makeRule_spec`, `Matching.match_all_complete_partial`, `Matching.match_all_sound_partial`, `Matching.match_all_star_order_partial`, `Matching.match_error_iff_partial`, `Matching.match_sound_partial`, `Matching.match_star_extremal_partial`, `Matching.normal_form_needs_measure`, `Matching.rewriting_returns`, `Matching.ruleList_spec`, `Matching.term_rewriter_normal`, `Mcmc.Keyed.hmc_chain_samples_target`, `Mcmc.Keyed.hmc_keyed_balance`, `Mcmc.Keyed.hmc_keyed_transition`, `Mcmc.Keyed.mala_chain_samples_target`, `Mcmc.Keyed.mala_keyed_balance`, `Mcmc.Keyed.mala_keyed_langevin`, `Mcmc.Keyed.metropolis_hastings_keyed_balance_partial`, `Mcmc.Keyed.metropolis_hastings_random_walk_keyed_balance`, `Mcmc.Keyed.metropolis_keyed_balance`, `Mcmc.Keyed.metropolis_keyed_transition`, `Mcmc.Keyed.metropolis_random_walk_keyed_balance`, `Mcmc.Keyed.posterior_chain_partial`, `Mcmc.Keyed.random_walk_chain_samples_target`, `Mcmc.Keyed.random_walk_keyed_law`, `Mcmc.Keyed.random_walk_keyed_symmetric`, `Mcmc.Keyed.sample_chain_keyed_law`, `Mcmc.Keyed.sample_chain_keyed_stationary`, `Mcmc.Keyed.sample_chain_parallel_independent`, `Mcmc.Keyed.twoNormals_posterior`, `Mcmc.acceptance_probability`, `Mcmc.constrain_pushforward`, `Mcmc.hmc_detailed_balance`, `Mcmc.hmc_transition`, `Mcmc.leapfrog_reversible`, `Mcmc.leapfrog_volume_preserving`, `Mcmc.mala_detailed_balance`, `Mcmc.mala_langevin`, `Mcmc.metropolisHastings_asymmetric_fails`, `Mcmc.metropolisHastings_detailed_balance_partial`, `Mcmc.metropolisHastings_random_walk_detailed_balance`, `Mcmc.metropolisHastings_random_walk_eq`, `Mcmc.metropolisHastings_swapped_detailed_balance`, `Mcmc.metropolis_detailed_balance`, `Mcmc.metropolis_random_walk_detailed_balance`, `Mcmc.metropolis_transition`, `Mcmc.sample_chain_module_resumes`, `Mcmc.sample_chain_stationary`, `NN.C42_deconv_counterexample`, `NN.C42_empty_serial`, `NN.C42_nested_serial`, `NN.C42_nesting_changes_keys`, `NN.C42_reshape_int`, `NN.C42_serial_composes`, `NN.C42_shapes_counterexample`, `NN.C42_shapes_partial`, `NN.C42_spec_composes`, `NN.C44_dropout_inference`, `NN.C44_dropout_needs_rng`, `NN.C44_dropout_unbiased`, `NN.C44_dropout_variance`, `NN.C44_rate_is_keep_probability`, `NN.C54_log_softmax`, `NN.C54_softmax`, `NN.C54_softmax_shift`, `NN.C55_pooling`, `NN.C55_pooling_batched`, `NN.C55_pooling_bounds`, `NN.C55_same_size`, `NN.C55_same_size_stride_one`, `NN.C55_valid_size`, `NN.C56_batchnorm_normalises`, `NN.C56_inference_entry`, `NN.C56_inference_updates_state`, `NN.C56_moving_var_nonneg`, `NN.C56_update_batched`, `NN.C56_update_converges`, `NN.C56_update_single`, `NN.C56_update_single_counterexample`, `NN.C60_activations`, `NN.C60_conv_entry`, `NN.C60_dense_affine`, `NN.C60_dense_entry`, `NN.C60_dense_returns`, `NN.C60_reshape`, `NN.C62_batchnorm_first_update`, `NN.C62_batchnorm_fresh`, `NN.C62_conv_default_strides`, `NN.C62_parameters`, `NN.C62_pool_default_strides`, `NN.C70_assertions`, `NN.C70_inference_lanes`, `NN.C70_mapped_key_wrong`, `NN.C70_nothing_mapped`, `NN.C70_vmap_batch_partial`, `NN.C70_vmap_lanes`, `NN.C75_entry`, `NN.C75_fresh`, `NN.C75_returns`, `NN.C75_same_kernel_not_transpose`, `NN.C75_size_back`, `NN.C75_sizes`, `NN.C75_transpose`, `NN.C90_list_partial`, `NN.C90_list_raises`, `NN.C90_shape_partial`, `NN.C90_spec_partial`, `NN.C90_spec_raises`, `NN.C90_tuple_partial`, `NN.C90_tuple_raises`, `NN.Grad.C92_history`, `NN.Grad.C92_no_state_gradient`, `NN.Grad.C92_not_the_gradient`, `NN.Grad.C92_serial`, `NN.Grad.C92_state_tangent`, `NN.Grad.C92_state_values`, `Optix.adam_bias_correction`, `Optix.adam_closed_form`, `Optix.adam_constant`, `Optix.adam_outputs`, `Optix.apply_every_closed_form`, `Optix.apply_every_total`, `Optix.call_keeps_variables`, `Optix.chain_assoc`, `Optix.chain_assoc_stateful`, `Optix.chain_duplicate_raises`, `Optix.chain_nil`, `Optix.chain_outputs_partial`, `Optix.chain_outputs_stateful`, `Optix.chain_pipeline_partial`, `Optix.chain_singleton`, `Optix.chain_stateless_raises`, `Optix.chain_total`, `Optix.clip_bounds_partial`, `Optix.clip_by_global_norm_direction`, `Optix.clip_by_global_norm_eq`, `Optix.clip_by_global_norm_history`, `Optix.clip_by_global_norm_id`, `Optix.clip_by_global_norm_le`, `Optix.clip_closest_partial`, `Optix.clip_container_raises`, `Optix.noise_closed_form`, `Optix.noisy_sgd_closed_form`, `Optix.optimize_adam_raises`, `Optix.optimize_chain_raises`, `Optix.optimize_momentum`, `Optix.optimize_rmsprop_raises`, `Optix.optimize_sgd_partial`, `Optix.optimize_sgd_quadratic_partial`, `Optix.optimize_sgd_raises`, `Optix.optimize_stateless_raises`, `Optix.optimize_trajectory`, `Optix.rms_closed_form`, `Optix.rmsprop_outputs`, `Optix.schedule_closed_form`, `Optix.sgd_closed_form`, `Optix.sgd_nesterov_closed_form`, `Optix.stddev_closed_form`, `Optix.stddev_variance_nonneg`, `Optix.trace_closed_form`, `Plate.call_law`, `Plate.calls_independent`, `Plate.calls_joint_law`, `Plate.nested_plates_independent`, `Plate.no_plate_shared`, `Plate.plate_conditionally_independent`, `Plate.plate_eq_vmap_split`, `Plate.plate_iid`, `Plate.plate_in_program`, `Plate.plate_independent_keys`, `Plate.plate_joint_law`, `Plate.plate_log_density`, `Plate.plate_no_axis`, `Plate.plate_of_plate`, `Plate.plate_runs_iff`, `Plate.plate_shared_over_other_axes`, `Ppl.Ex.replay_other_key_needs_blind`, `Ppl.block_output`, `Ppl.conditional_eq_intervene`, `Ppl.conditional_too_few`, `Ppl.conditional_value`, `Ppl.graphReplace_keyError`, `Ppl.graphReplace_latents`, `Ppl.graphReplace_output`, `Ppl.intervene_consistent`, `Ppl.intervene_fixes`, `Ppl.intervene_independent`, `Ppl.intervene_removed`, `Ppl.intervene_upstream`, `Ppl.jointSample_snd`, `Ppl.rvFun_latent`, `Ppl.trace_block`, `Ppl.trace_block_names`, `Ppl.trace_exact`, `Ppl.trace_replay`, `Ppl.trace_replay_other_key`, `Propagate.call_rule_idem`, `Propagate.call_rule_monotone`, `Propagate.chain_inverted`, `Propagate.idem_of_rule_idem`, `Propagate.order_matters_with_repeated_variable`, `Propagate.propagate_again`, `Propagate.propagate_completes`, `Propagate.propagate_least`, `Propagate.propagate_mono`, `Propagate.propagate_no_infinite_run`, `Propagate.propagate_order_independent`, `Propagate.propagate_progress`, `Propagate.propagate_reduced_state_order_independent`, `Propagate.propagate_states`, `Propagate.propagate_steps_bounded`, `Propagate.repeated_variable_not_idem`, `State.Kw.callAndUpdate_spec`, `State.Kw.filterKw_spec`, `State.Kw.layer_in_module`, `State.Kw.module_call_kwargs_partial`, `State.Kw.module_kwargs_partial`, `State.Seq.list_call_error`, `State.Seq.list_call_iff`, `State.Seq.tuple_call_iff`, `State.callAndUpdate_spec`, `State.call_layer_prog`, `State.call_layer_trace`, `State.init_then_call`, `State.init_variable_names`, `State.init_variables`, `State.named_stateless_raises`, `State.nested_inherits`, `State.nested_updates`, `State.net_call`, `State.net_direct`, `State.net_duplicate`, `State.net_first_call`, `State.net_init`, `State.net_updates`, `State.shared_names_raise`, `State.stateful_call`, `State.stateful_duplicate_raises`, `State.stateful_init`, `State.stateful_updates`, `State.unknown_assign`, `State.updates_frame`, `State.updates_history`, `State.updates_last`, `Util.Bind.ideal_sound`, `Util.C45_check_in_kwargs`, `Util.C45_filter_kwargs_partial`, `Util.C45_filtered_accepted`, `Util.C45_kwonly_counterexample`, `Util.Trans.C93_jvp`, `Util.Trans.C93_vmap_jvp`.

**Quot.sound, propext**:
`Autoconj.split_formula_iff`, `Autoconj.split_one_arrow`, `Autoconj.split_reconstitute`, `Effect.effect_handler_custom_jvp_raises`, `Effect.effect_handler_iff`, `Effect.effect_handler_no_handlers`, `Effect.effect_handler_other_handlers_ignored`, `Effect.effect_handler_program_order`, `Effect.effect_handler_returns_partial`, `Effect.effect_handler_unhandled_partial`, `Harvest.Lift.plant_jvp_primal`, `Harvest.Lift.plant_vjp_primal`, `Harvest.Lift.plant_vmap`, `Harvest.Lift.reap_jvp`, `Harvest.Lift.reap_vjp`, `Harvest.Lift.reap_vmap`, `Harvest.Lift.reap_vmap_commutes_partial`, `Harvest.Lift.vjp_of_plant_primal`, `Harvest.Lift.vjp_of_reap_primal`, `Harvest.Lift.vmap_of_plant`, `Harvest.Lift.vmap_of_reap`, `Harvest.run_erase`, `Inverse.Custom.custom_recovers_inputs`, `Inverse.joinS_joins`, `Inverse.join_loses_coverage`, `Inverse.tiles_not_merged`, `Inverse.top_complete`, `JaxRewrite.rewrite_kwargs_fail`, `Jit.C74_effect_binds_iff`, `Jit.C74_effect_results_iff`, `Jit.C74_harvest_results_iff`, `Matching.choice_in_star_incomplete`, `Matching.choice_name_unsound`, `Matching.empty_accumulate_unbound`, `Matching.match_all_choice_incomplete`, `Matching.not_before_bound_incomplete`, `Matching.star_name_unsound`, `Mcmc.sample_chain_spec`, `NN.Tree.C43_flatten_unflatten_partial`, `NN.Tree.C43_serialize_partial`, `NN.Tree.C43_tree_map_partial`, `NN.Tree.C43_tree_roundtrip_partial`, `Propagate.propagate_above_inputs`, `State.FnSpec.C91_kwargs_notArray`, `State.FnSpec.C91_seq_partial`, `State.FnSpec.C91_spec_partial`, `State.FnSpec.C91_spec_sound`, `State.FnSpec.C91_stage`, `State.Kw.kwargs_congr`, `State.Kw.kwargs_ignored`, `State.Kw.kwargs_none`, `State.Kw.kwargs_not_inside`, `State.Kw.kwargs_override`, `State.Kw.module_call_arity`, `State.Kw.module_custom_jvp_raises`, `State.Kw.module_runs`, `State.Seq.list_call_append`, `State.Seq.list_init_spec`, `State.Seq.spec_sound`, `State.Seq.tuple_init_spec`, `State.call_update_halves`, `State.stateless_spec`, `Util.Bind.call_bind_spec`, `Util.Bind.initial_style_bind_partial`, `Util.Bind.initial_style_bind_sound`, `Util.Bind.unflatten_iff`, `Util.C45_posonly_counterexample`, `Util.C47_tie_all`, `Util.C47_tie_all_map`, `Util.C47_tie_in`, `Util.Ctx.C46_contexts_restored`, `Util.Ctx.C46_innermost_context`, `Util.Ctx.C46_none_left`, `Util.Trans.C93_abstract`, `Util.Trans.C93_eval`, `Util.Trans.C93_lanes`, `Util.Trans.C93_transformation`, `Util.Trans.C93_vmap`.

**none**:
`Jit.C74_effect_misplaced`, `Jit.C74_harvest_partial_dropped`, `State.layer_needs_key`.

**propext**:
`Autoconj.compose_exhausted`, `Autoconj.compose_mismatch`, `Effect.effect_handler_values`, `Effect.handler_for_pjit_ignored`, `Effect.handler_inside_scan_ignored`, `Harvest.CondVmap.Ex.cond_loop_raises`, `Harvest.CondVmap.Ex.cond_twice_raises`, `Harvest.CondVmap.Ex.cond_unmapped_wrong`, `Harvest.CondVmap.Ex.cond_vector_raises`, `Harvest.Lift.plant_jvp_tangent_wrong`, `Harvest.Lift.plant_spec`, `Harvest.Lift.plant_vjp_gradient_wrong`, `Harvest.Lift.reapBy_outputs`, `Harvest.Lift.reap_jvp_no_tangents`, `Harvest.Lift.reap_vmap_axis`, `Harvest.Lift.reap_vmap_unmapped`, `Harvest.scanDir_zip`, `JaxRewrite.pjit_constants_lost`, `Jit.C74_effect_operands`, `Jit.C74_harvest_operands`, `Jit.C74_propagate_binds`, `Jit.C74_rewrite`, `LogProb.Batched.rv_log_prob_outer_only_raises`, `Matching.Strings.string_pattern_spec`, `Mcmc.sample_chain_module_stateless_raises`, `Mcmc.sample_chain_resume`, `NN.Tree.C43_empty_serial`, `NN.Tree.C43_eqJaxpr_counterexample`, `NN.Tree.C43_serial_info_lost`, `NN.Tree.C43_tree_flatten_total`, `Propagate.propagate_sound`, `State.FnSpec.C91_kwargs_raises`, `State.FnSpec.C91_static_option`, `State.Kw.kwargs_lost_in_pjit`, `State.Kw.merge_spec`, `State.Kw.module_key_kept`, `State.Kw.module_key_shared`, `State.Seq.tuple_call_empty`, `State.call_layer_sites`, `State.init_layer_prog`, `State.layer_call_and_update`, `Util.Bind.initial_style_bind_raises`, `Util.Bind.initial_style_equation`, `Util.Bind.unflattenAll_leaves`, `Util.Bind.unflatten_leaves`.
