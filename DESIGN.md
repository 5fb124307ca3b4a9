# Formal model of google/autobound in Lean 4

* `lean/Verif/Model/*` — the code, function by function; every definition cites file and lines in /repo.
* `lean/Verif/Spec/*` — small, separate specification vocabulary (what "contains", "encloses", "computes" mean,
  and the conditions of the claims). It does not use the operations it specifies.
* `lean/Verif/Proofs/*` — lemmas. `lean/Verif/Props/*` — the theorems `Cnn_…` and concrete instances.
* `properties.jsonl` — the properties in English; `MANIFEST.json` — which theorems prove which property;
  `seeded/LOG.jsonl` — the wrong programs the theorems have been tested against.

## What is modelled, and how

| /repo file | model | notes |
|---|---|---|
| `interval_arithmetic.py` | `Model/Interval.lean`, `Model/EnclFloat.lean` | every method; rank 0 again with infinities and NaN |
| `polynomials.py` | `Model/Polynomials.lean` | every function |
| `enclosure_arithmetic.py` | `Model/Enclosure.lean`, `Model/EnclFloat.lean` | every function; rank 0 again with infinities and NaN (not `arbitrary_bilinear`, `divide`) |
| `elementwise_functions.py` | `Model/Elementwise.lean` | function table, derivative formulas, ranges, monotonicity |
| `primitive_enclosures.py` | `Model/Primitive.lean`, `Model/PowFloat.lean` | every enclosure generator; `pow_enclosure` also with infinities and NaN |
| `graph_editor.py` | `Model/Graph.lean` | `Operation.subs`, `match`, `replace`, `intermediate_variables` |
| `jax/jaxpr_editor.py` | `Model/Jaxpr.lean` | every function |
| `jax/jax_bound.py` | `Model/JaxBound.lean`, tables in `Model/RealLib.lean` | `taylor_bounds`, all push-forward rules, constant folding, trust-region propagation, `TaylorBounds`; `_rewrite_jaxpr` |
| `types.py` | `Model/ND.lean` | type aliases: arrays, intervals, enclosures |

* **Numbers**: an arbitrary linearly ordered field `K` for interval arithmetic, polynomials, Taylor enclosure
  arithmetic and the `taylor_bounds` interpreter (so the model runs on ℚ, where the examples are evaluated by the
  kernel), ℝ for the element-wise functions and their enclosure generators.
* **Arrays** (`ND K`): a shape and a function of the multi-index. Broadcasting, `tensordot`, `einsum` (the
  equations the code builds, including the limit of 26 labels), `diag`, `expand_dims`, `transpose`, … are modelled
  by their definition. Arrays of length 0 along an axis are included; soundness of the enclosure operations is
  stated for outputs with at least one entry.
* **Exceptions** are values (`Py α = Except PyErr α`): the kind of exception is modelled, not its message.
* **Python loops** that may not terminate (`graph_editor.replace`) take a fuel argument; C39 says exactly when
  enough fuel exists.
* **Element-wise generators** are scalar functions lifted to arrays entry by entry (`liftGen`), as numpy does.
* `taylor_bounds` is an interpreter of Jaxprs: an association list from variables to enclosures.

### The environment of the code: specified, not verified

`Model/Lax.lean` and `Model/RealLib.lean` say what the JAX primitives compute (shape rules, `dot_general`,
`reduce_window_sum`, `reshape`, …; exact real `exp`, `log`, `sqrt`, `cbrt` as the signed real cube root, …). They are the
meaning of a program (`evalJaxpr`, `Spec/JaxSem.lean`) and at the same time what `bind` returns inside the model of
`taylor_bounds`. `Lax.nary` is the shape rule of `lax` binary operations (equal ranks with size-1 stretching, or one
operand of rank 0). A convolution equation carries a function; `Model/Conv.lean` is `conv_general_dilated` (strides, padding, both
dilations, dimension numbers, feature and batch groups) and `C49_conv_fits` says it is such a function; `jit` carries the function
of its body, with one array in and out. (The real `jit_p` is a multiple-results primitive: `jit_p.bind` returns a *list* of one array, which
`_pass_thru_pushforward_fun` and the constant branch of `taylor_bounds` store as it is; whether the next `jnp` call accepts a list is up to JAX.
The model takes the array out of the list, so for jitted calls C50 describes what the rule is meant to do.)

### Not modelled

* floating-point rounding, dtypes, NaN, infinities (the code documents its intervals as "only correct up to
  floating point roundoff error"): all theorems except C58 (rounded table constants), C72 (interval arithmetic whose
  operations are rounded), C82 (element-wise functions with errors), C83 (`taylor_bounds` in rounded arithmetic, at x0), C84 (with `max_degree = 0`, on the whole trust region), the `…F` part of C34 (`pow_enclosure` with IEEE infinities and NaN, no negative zero) and C75 (interval
  and Taylor-enclosure arithmetic on rank-0 arrays with infinities and NaN) are about exact arithmetic on finite numbers. `x / 0` is 0 in the model; claims that
  involve division or negative powers have the hypothesis that the range excludes 0;
* JAX tracing (`jax.make_jaxpr`): the Jaxpr is an input; `jit` compilation; the numpy/JAX/TF back ends;
* effects, source information and sharding of Jaxpr equations; 
* equations that depend on x and have several outputs (no primitive in the tables has);
* `Literal`s have no dtype/shape attributes, so `_equiv_literals` compares only values (that is what the code does);
  an `AttributeError` while comparing parameters is modelled in `_jaxpr_eqn_params_equiv`, but counts as "different"
  in `_EqnData.__eq__`;
* test utilities, plotting, the quickstart notebook; in the other two notebooks (`Model/Notebooks`) tracing, `grad` and `tree_map`
  are parameters (the traced program, the update direction, a vector space of parameters).

## Trusted base

* Lean 4.33.0's kernel, and Mathlib's definitions (ℝ, derivatives, `Real.exp`, …).
* Axioms: every theorem in `MANIFEST.json` depends on a subset of `propext`, `Classical.choice`, `Quot.sound`;
  none are added; no `native_decide`, `bv_decide`. `AXIOMS.md` lists them per theorem (`tools/axioms.py`).
* The correspondence between the Python source and the definitions in `Verif/Model` (each cites file and lines),
  and between JAX and `Model/Lax.lean`.
* The specifications in `Verif/Spec` (to be read together with the theorem statements).

## Plan per property

| | specification | how it is proved; conditions |
|---|---|---|
| C01, C02, C05 | `Spec/Contains` (`Contains`: same shape, entry-wise between the ends) | every operation is characterised entry by entry through broadcasting; scalar lemmas are lifted. C05: bilinear operations with weights ≥ 0 (`IsBilinear`), with a counterexample for a negative weight |
| C03 | exact range: contains, and both ends attained | case split on sign and parity |
| C04 | `IsOuterProduct`, `IsOuterPower` (entry-wise definition) | induction over the number of factors; the tightened diagonal uses that the *same* member is in both factors |
| C06–C08 | `WellFormed`, `Inside`, `ReturnsArray`, `ReturnsDegenerate` | from the entry-wise characterisation |
| C09, C10 | `Chooses`, `polyValue`: one number per coefficient interval | evaluation is exactly the set of values of selections (needs ordered coefficients for "only if") |
| C11–C14 | `polyAt`, over any commutative semiring | bilinear expansion / multinomial theorem by induction over the enumeration of partitions (C13) |
| C15–C24 | `Encloses E z y` (`Spec/Enclosure`): some selection has the value y at every index | a selection of the output is built from selections of the inputs (graded product); truncation replaces high-order terms by their range. C21 needs deg ≤ max_degree and coefficients of full rank (counterexamples) |
| C25, C26 | Mathlib `iteratedDeriv`, `MonotoneOn`, … | induction over the order; closed forms |
| C27, C28 | lists of extrema of an arbitrary function | order arguments; the actual tables violate the hypothesis at order 5 of softplus (counterexample) |
| C29–C32 | `SoundAt` on the region (`Spec/Scalar`) | the remainder ratio is an average of the k-th derivative, hence monotone; softplus: monotonicity of the ratio on both sides of −x0 |
| C33–C35 | `mathFun`, `BuiltinRegion` (`Spec/Functions`, `Spec/Guard`) | from C25–C31; conditional on the (approximate) table where it is approximate; C34 again with infinities (`Flt`, `EnclosesF` in `Spec/PowFloat`): the float model equals the real one where it is finite, the other cases by the signs of the infinities |
| C36, C37 | `IsMatch`: substitution, binding conditions | invariant of the greedy left-to-right matching |
| C38, C39, C51 | `Interp`, `run` (`Spec/Program`): value of each vertex under any meaning of operations | simulation for one rewriting step, induction over the number of steps (decreasing number of operations); explicit side conditions with counterexamples |
| C40, C41 | `SameJaxpr` (`Spec/Jaxpr`): equal up to a renaming | mutual structural induction over Jaxprs and parameters |
| C42–C45, C47 | `evalJaxpr` against the interpreter (`Spec/JaxSem`, `Spec/Static`) | lock-step induction over the equations, each rule by C16–C23, C49, C50. `C42_taylor_bounds`: condition `StepOk` on the executed equations; `C42_static`: condition `ProgramFits` on the program only, by a shape invariant and an invariant on the number of coefficients of each enclosure (`CountsFit`: `add`/`sub` may stretch an operand only if it has no coefficient the other one lacks, cf. finding 17). C45: two polynomials that differ by o(h^d). `C45_tables` (trust regions of any size, no condition on the enclosure generators): an auxiliary table `fixLib` whose generators always return, isotone and Lipschitz, shows by the width argument of C71 that the regions of all calls shrink with the trust region; on a small enough cube all calls are calls of `localLib`, whose enclosures are right (analyticity of the functions at the values met at `x0`); C45 for that run is carried to the code's run by C76 |
| C46, C48, C52 | tables, errors, shapes | induction over the equations |
| C49, C50 | `PairwiseContract`, `LinearContract` (`Spec/Enclosure`); jitted functions whose body is a sequence of pass-through primitives, nested to any depth (`Spec/JitBody`) | index arithmetic for all ranks; mutual induction over the nesting |
| C53 | `Spec/Total`, `Spec/TotalStatic` | every operation returns if shapes and labels fit; lock-step induction together with C42; conditions on the program only (`ProgramReturns`); for the code's own tables: the lemma chain of C42 holds with generators that are right at a single point (`LibSoundAt`), and the tables are right at x0 whatever the cap does (`Props/AtRef`: `C53_tables`, `C44_tables`) |
| C54 | `Lib.register`, `Sem.define` | the tables stay sound; the interpreter's step depends on a table entry only through the equation's primitive |
| C55 | `finalInterval`, `polyValue` | from C09, C42 and the fact that all coefficients but the last are arrays |
| C56 | `Decode.meaning`, `PRule.Ok`, `SubjectOk` (`Spec/Pipeline`) | `_rewrite_jaxpr` by induction over the rules (C51); the Jaxpr and the program seen by the interpreter compute the same values (environments related variable by variable); then C42 |
| C57 | `Coef.SameShape`, `WellFormedEncl`, `UniformBatch`, `GenReturns`, `Labels` (the 26 einsum labels) | totality of each fold (`Proofs/Total*`) with the exact number of coefficients, joined with the soundness theorems C16-C23 |
| C58 | `SEncl.widen`, `BuiltinApprox`, `RoundedTable` | the true extrema lie within 2e-13 of the listed ones (20-digit bounds of exp at the listed points, `Proofs/ExpBounds`, `Proofs/ApproxTables`); the listed ones are the extrema of the derivative composed with a piecewise-linear shift, which differs from it by at most 4e-13 (`builtin_of_nearby`). `Props/Approx2`: the same for tables with extrema which are not global (`LocalTable`, `SeesInner`: a region contains the lowest listed minimum, or the one it contains is the lowest on the region) and for swish 4 on [-5, 5] |
| C59 | `BuiltinNear` (values up to ε of the enclosure widened by η) | closed form of the capped ratio (`ratio_cap`): it lies between the true ratio and the Taylor coefficient; a value outside the enclosure must lie between x0 and the capped end point (`cap_core`) |
| C60 | `Nest`, `NestE` (coefficient-wise containment), `IsotoneGen`, `NonnegBilinear`, `MonotoneOp` (`Spec/Isotone`), `BuiltinTable`, `PowTable`, `tableLib` (`Spec/TableLib`) | two runs are related step by step (`Proofs/Iso`–`Iso5`): every operation of interval, polynomial and enclosure arithmetic preserves nesting, and so does the choice of trust regions of intermediate variables. Element-wise functions (`Proofs/IsoLib`): the ends of the smaller final interval are capped ratios at points of the larger region (the cap keeps monotonicity), or values of the k-th derivative there; `monotone_over` is inherited by smaller regions. The reference point may differ in degree 0 (ranges of intermediate variables) |
| C61 | `Bounds.upper/lower` (Model/JaxBound), `DescentStep` | C42/C43 (majorization) with C44 (touching at x0); iteration by induction over the steps (`Props/Descent`) |
| C62 | `loAt`, `hiAt`, `sumOver` (`Props/Gap`) | extremal coefficient selections of C09 give the values of the two end points; every coefficient but the last is a plain array (`LibArr`, C45) so only the final width remains |
| C63 | degree certificate `PolyProgram` (`Spec/Poly`) | while degrees stay at most max_degree no truncation takes place, so coefficients are plain arrays and do not depend on the region (`Proofs/PolyExact`); hence the run for x0 about a region containing x has the same coefficients, and C42 for that region pins the value |
| C65 | shape checks of `_validate_taylor_enclosure` and their callers | `Malformed` is defined on shapes alone; both directions of the check are characterized |
| C66 | `Model/Notebooks` (bounding_integrals.ipynb) over ℝ | pointwise bounds in terms of the scalar coefficients (C62 without the sign problem, since the degree is even), monotonicity of the Mathlib integral, induction over the cells; C63 for exactness |
| C67 | `minimize_1d_quadratic` | case analysis on the sign of c2 and c1 |
| C68 | `safe_learning_rate`, `saferate_optimizer` as a state machine | C67 on the upper bound of C42 (lower = upper at x0 by C44); induction over the steps |
| C69 | the family of programs `mlpJaxpr` (Spec/MLP) next to the mathematical definition `mlpLoss` of the loss | induction over the layers: the program evaluates to the definition, every intermediate value is non-empty, all conditions of C42/C53 hold; C63 with an explicit degree certificate for linear networks; C52's certificate of the number of coefficients for safe_learning_rate. As in JAX, biases are given a batch axis of size 1 by `broadcast_in_dim` and stretched by `add`; degree 1 is excluded because `broadcast_in_dim` raises there |
| C70 | the model of jax.lax (Model/Lax, Model/Conv) against Spec/LaxSpec: relations between operands and result by sums over all multi-indices | bijections between the index sets (`sumOver_select`, `sumOver_option`); row-major order by `map_ravel_idx`, `map_keep_idx` |
| C71 | the whole of taylor_bounds run on a family of nested trust regions (Spec/Converge: `LipschitzGen`, `LibLipschitz`); built-in tables restricted to smooth regions (Spec/SmoothLib) | `Thin`: a family of coefficients indexed by all the runs, nested in the first one and of width at most `C*w`; every operation of the interval, polynomial and enclosure arithmetic, the pushforwards and the interpreter keep it (Proofs/Thin–Thin6); the tables by `rho_var` and Lipschitz constants of the derivatives on compact intervals (Proofs/Smooth) |
| C64 | `taylor_bounds` on two Jaxprs (Spec/Dataflow: renaming, `assigned`, `InOrder`) | the final environment of a run satisfies every equation; an environment of a run over some of the equations stays inside it; renaming commutes with every step |
| C72 | the same definitions of IA.add/subtract/negative/multiply/power (now over any type with the operations), at a type whose operations are rounded (Spec/Rounding: `RoundedArith`, `Rounded`) | index-wise from monotonicity alone; counterexample for the sign-splitting bilinear rule in a small floating format |
| C73 | the real-number tables; condition `FatArgs` on the values of f (Spec/Fat) | induction over prefixes of the program: soundness of the prefix (C42) shows that the region the next equation uses contains the two far values, so the guards of `safeLib` hold, so C42 applies to the longer prefix |
| C74 | the family of programs `netJaxpr` (Spec/Net): convolutions, dense layers, activation functions, pooling, reshapes; the function is `forward`/`netLoss`, related to the documentation of jax.lax by `NetIs` | induction over the layers as for C69; C73 for wide trust regions; the first layer must have parameters (otherwise the prefix is folded as a constant) |
| C75 | `Model/EnclFloat`: the same code over floats with infinities and NaN, rank 0 (`FC`, `FT`); `FC.Has`, `EnclHas` (`Spec/EnclFloat`): a NaN end point says nothing | as C16–C22, with a choice of one number per coefficient; multiplication by a case analysis on IEEE products; `C75_finite*`: relational (`PyRel`) proof that both models run alike on finite values |
| C76 | `Lead d` (`Spec/Lead`): same length, same coefficients below d; two interpreter runs side by side | a relational induction over every operation of enclosure arithmetic (each only reads coefficients below d to produce coefficients below d) and over the program (`Proofs/Lead`, `Proofs/Lead2`) |
| C77 | `SEncl.Smallest` (`Spec/Sharp`): every enclosure of the same degree has the same coefficients and a larger final interval | the end points are values of the remainder ratio, which is continuous at x0; uniqueness of one-sided Taylor expansions |
| C78 | two runs of `taylorBounds` with `propagate` true/false and nested regions | simulation: nested enclosures, and the propagated region of every variable lies in the region derived from its enclosure (it is intersected with it and the constant term lies in it); shapes from the soundness invariant at x0 |
| C79 | two runs of `taylorBounds` with arguments of equal shapes | simulation with the relation "same kind and shapes" (constants equal), which every model function preserves; generators via `liftGen`; `Live` shows that values depending on the input are never folded |
| C80 | `Rewritten`, `RewrittenEqn` (`Spec/Rewrite`): an inductive description of left-to-right replacement by `IsMatch` | induction over the loop (soundness), uniqueness of the specified result (completeness); for the rules one after the other, the result of one rule is no occurrence of another pattern |
| C81 | `Registry`, `Dict`, `pushforwardFuns` (`Model/Registry`): the module's global state, Python dict semantics, the interpreter's table; `Accepted`, `LastRegistered`, `NotRegistered` (`Spec/Registry`) | induction over histories from the right; dict lemmas; C42_static |
| C82 | `NearRun`, `NearValue` (`Spec/Near`): executions with element-wise errors; `nearLib` (`Spec/NearLib`): the tables restricted to calls with a known error | the soundness proof of C42 repeated for enclosures that contain a nearby value (Proofs/Near–Near4); errors of single calls from C59 |
| C83 | models are generic in the number type (no laws); `UnitLaws`, `HeadIs`, `LibHead`, `EqnsExact` (`Spec/FloatRef`) | the constant coefficient of every intermediate enclosure is the computed value (induction over the program, Proofs/FloatRef–FloatRef3); evaluation at 0 adds only zeros |
| C84 | `AllLe`, `GenHolds0`, `LibHolds0`, `Safe0` (`Spec/Float0`) | every intermediate enclosure is one coefficient that contains the computed value (induction over the program, Proofs/Float0, Float02, Float03), from C72 and the monotonicity of the pass-through primitives |
| C85 | `DeepOk`, `callMeaning`, `callDecode` (`Spec/Calls`) | evaluation of nested Jaxprs respects the comparison of parameters (induction on the depth of nesting, from C41 relativized to well-formed parameters); then C51 and C56 in their relativized forms |
| C86 | `convert_element_type` with an arbitrary function on numbers; `Sound0` (`Props/Convert`) | exact arithmetic is an instance of `RoundedArith` and `UnitLaws`, so the steps of C84 apply; contractions from the bilinear products of C05; the tables at degree 0 from C33, C34 |
| C87 | the programs of the notebooks (`Model/Notebooks`) with `realLib` | C66, C68 for the guarded tables, which return the same as the library's own where they return (`okLe_v1`, `okLe_runOptimizer`); that they return: C53, C73 in every grid cell |
| C88 | programs followed by one equation `AffineEqn` (`Spec/Affine`) | coefficient by coefficient the operations of C17, C16, C18 give `k * c + s` (`AffE`); the evaluation formula C62 is linear in `k` |
| C89 | two runs of `taylorBounds` on one program | C42 for both; counterexamples by evaluating the model in the kernel |
| C90 | programs preceded by one equation `ShiftEqn` (`Spec/Shift`) | the trust region `[lo, hi] - x0` does not change; after the first equation the environments agree except at the new argument (`Agree`), and the rest of the run is the same; with propagation (`Props/ShiftProp`) the regions after the first equation agree entrywise, and isotonicity (C60) in both directions gives equal entries |
| C91 | programs followed by one `add` or `sub` of two of their values (`Spec/SumEqn`) | the end points of the sum of two coefficients are the sums of the end points (`IA.add`), and the value of an enclosure at a point is a sum over coefficients of minima and maxima (C62), which are additive for the same monomials; subtraction is addition of the negated enclosure (C88) |
| C92 | programs followed by one `reshape`, `transpose`, `squeeze`, `broadcast_in_dim`, `reduce_sum` or `reduce_window_sum` (`Spec/PassThruEqn`) | the operation is a sum with nonnegative weights over entries of the value, and acts likewise on every coefficient (C50); the value of an enclosure at a point is a sum of minima and maxima (C62) with one common factor per entry of x - x0, so nonnegative sums go through; all coefficients have the full shape (`ProgramFits`) |
| C76–C82 | see also the notes in `MANIFEST.json` | |

The generators are unsound on some regions (findings 3, 4, 11, 14–16), so the theorems about the actual tables
(`C42_builtin`, `C44_builtin`, `C45_builtin`) use *guarded* tables (`safeLib`): a guarded generator raises outside the explicit
regions of soundness (`BuiltinRegion`, `PowOk`) and otherwise is the actual generator. If the guarded run returns, the actual
run returns the same bounds, and they are sound.

## Findings: claims of the code that are false (with the theorem that proves it, where there is one)

1. `IntervalArithmetic.arbitrary_bilinear` (non-product) is unsound for bilinear operations with a negative weight
   (`C05_negative_weight_counterexample`).
2. `compose_enclosures` silently drops terms when the element-wise enclosure has degree > max_degree
   (`C21_degree_counterexample`).
3. `pow_enclosure` is unsound for nonnegative integer p with p−k even and positive on regions straddling 0
   (`C34_straddle_counterexample`).
4. `taylor_remainder_ratio` caps 1/denominator at 1e12: unsound on tiny regions (`C30_cap_counterexample`);
   the error is at most 1e-12 times the variation of the k-th derivative (`C59_cap_error`).
5. `graph_editor.replace` with an empty pattern never returns (`C39_empty_pattern`).
6. `replace` does not check: internal variables of the replacement are not fresh (`C38_capture_counterexample`), matched
   internal variables used elsewhere are removed (`C38_unused_counterexample`, `C51_intermediate_counterexample`), a pattern input
   may be bound to a variable computed inside the occurrence (`C38_input_counterexample`); `DropVar`s all have count −1 and collide
   (`C40_dropvar_counterexample`, `C51_dropvar_counterexample`).
7. `_dot_general_pushforward_fun`: wrong permutation of the axes with batch dimensions and vector x (`C49_batch_counterexample`).
8. `TaylorEnclosureArithmetic.add` may return coefficients of different batch shapes; `compose_enclosures` is then wrong
   (`C21_uniform_counterexample`).
9. `power(a, 2.0)` (integer-valued float) raises `TypeError` (modelled in `powPush`).
10. `jit` is passed through although the body may be nonlinear (`C50_jit_counterexample`); `reshape` with x of shape (1,) passes the
    validation with wrong coefficients (`C50_reshape_counterexample`); `broadcast_in_dim` raises for vector x at degree ≥ 1 and when the
    degree-1 coefficient is an interval (`C53_broadcast_raises`); `reshape`, `transpose`, `reduce_window_sum` raise for vector x
    (`C53_reshape_raises`); the convolution rule raises whenever exactly one operand depends on a vector x.
11. The tables of extrema are decimal approximations, so `get_range`/`monotone_over` are only approximately right; where all
    listed extrema are global the error is at most 1e-12 (`C58_rounded_tables`); every listed number is within 3e-13 of the true one
    (`C58_listed`).
12. `abs` of degree ≥ 2 raises (`C33_abs_unsupported`). `_same_jaxpr_up_to_variable_renaming` ignores constants of closed Jaxprs and
    function parameters (`C41_consts_counterexample`, `C41_function_counterexample`).
13. C09 "only if" needs ordered coefficient intervals.
14. `get_range` ignores end points once a listed extremum is inside (`C27_get_range_counterexample`); hence `sigmoid_enclosure` of
    degree 4 and `swish_enclosure` of degree 3 are unsound (`C33_sigmoid4_counterexample`, `C33_swish3_counterexample`), but
    only on regions that hide the inner extremum (`C58_local_tables`).
15. The table of extrema of the 4th derivative of swish is incomplete: about 7 on [6, 8] the returned interval is empty
    (`C33_swish4_counterexample`); within [-5, 5] it is complete (`C58_swish4`).
16. `pow_enclosure` with x0 = 0 and degree > p computes 0·inf: the final interval is (nan, nan) (`C34_nan`).
17. `add` broadcasts lazily: coefficients present in one operand only keep their smaller shape, and `reduce_sum`/`dot_general` then
    under-count: `f(x) = sum(c + w*x)` has wrong bounds (`C42_add_counterexample`). `ProgramFits` excludes exactly
    the pattern: a stretched operand of `add`/`sub` must have at most as many coefficients as the other one is sure to have, as is the case for
    the biases of the networks of C69.
18. With `propagate_trust_regions=True`, `pow` always raises (`C53_pow_propagate`), and so does the power 0 (`C53_zero_power_raises`).
19. The registered `__autobound_…__` primitives have no implementation: constant folding of them raises.
20. `f(x) = exp(c + sum(x))`, or any other element-wise function of `c + sum(x)`, with x, c vectors of the same length: the degree-1
    coefficient of the argument has no batch axis and is silently misaligned: wrong bounds (`C42_compose_counterexample`).
21. `convert_element_type` to an integer type (or to a shorter floating point type) is not linear but is passed through: for `max_degree >= 1`
    the bounds are wrong (`C86_integer_counterexample`); for `max_degree = 0` they are right (`C86_degree0_sound`).
22. `einsum` labels: powers and compositions of batched outputs with vector x raise when rank + degree·rank(x) > 26
    (`C53_labels_raises`).
23. safe_learning_rates.ipynb `update_state`: `safe_eta > safe_eta` is false for NaN, so the comment "If safe_eta is NaN, we
    cut the learning rate in half" is wrong: it is doubled (`C68_nan_doubles`; presumably `!=` was meant).
24. interval_arithmetic.py:28-29 says intervals are only correct up to roundoff. For add, subtract, negative, multiply, power
    more holds (C72: they contain the *computed* result for members); for the sign-splitting bilinear rule (l.89-134, used by
    tensordot, dot_general, convolutions) it does not: `C72_dot_counterexample`, an enclosure (0, 0) of a computed value 1/2.
25. `pow_enclosure` for a negative odd integer exponent on a region that ends at 0 from the left, e.g. 1/x on [-2, 0]: the end point
    0.0 gives `0.0**-1 = +inf` where the limit is -inf, so the final interval begins at +inf and is empty
    (`C34_ends_at_zero_counterexample`).
26. Where `pow_enclosure` answers (-inf, inf) (1/x over a region around 0, x**0.5 over a region with negative numbers), `lower(x0)` and
    `upper(x0)` are NaN, not -inf/inf and not f(x0), because evaluation multiplies `inf * 0` (`C75_pow_nan`, `C75_nan_at_x0`).
27. For vector x the sign-splitting tensordot multiplies every end point by both max(0, z) and min(0, z), one of which is 0: an
    infinite end point makes a bound NaN at every x (`C75_dot_nan`), where ±inf would be right.
28. `register_elementwise_primitive` accepts a registration for one of the pass-through primitives (`jit`, `convert_element_type`, ...)
    and ignores it: `_pushforward_funs` overwrites it (jax_bound.py:499-502). A registration for `add`, `mul`, ... does replace the
    library's rule, and the library's two-argument calls then raise `TypeError` (C81_registered_wins, C81_pass_thru_wins).
29. Division is bounded as multiplication by a reciprocal (enclosure_arithmetic.py:259-262). In rounded arithmetic `a * (1 / b)` is not
    `a / b`, so lower(x0) and upper(x0) differ from the computed f(x0), and f(x0) can lie above upper(x0) (`C83_div_counterexample`; in
    double precision e.g. 49 * (1 / 49) = 0.9999999999999999).
30. The same happens for `integer_pow` with exponent ≥ 3 on arrays of rank ≥ 1: the bounds use repeated multiplication
    (`C83_pow_counterexample`).  For rank-0 arrays they use the power itself.
31. In floating point the degree-0 enclosure of a monotone function `f` on `[a, b]` ends in `f(x0) + (f(b) - f(x0))`
    (`taylor_remainder_ratio`), which can round to less than `f(b)` (`C84_builtin_counterexample`): plain interval
    arithmetic with `(f(a), f(b))` would be exact.
32. In floating point the enclosure of a contraction (`tensordot`, `dot_general`, convolution) sums positive and negative
    parts separately and need not contain the computed contraction (`C72_dot_counterexample`, `C84_dot_counterexample`).
33. For two intervals the two end points are summed in different orders (interval_arithmetic.py:117-133), so that the lower
    end point of `final_interval` can exceed the upper one (`C84_crossing_counterexample`).
34. For `max_degree = 0` (and in the last coefficient in general) even powers of arrays of rank ≥ 1 are bounded by repeated
    multiplication, so `x ** 2` on `[-1, 2]` gets the lower bound -2; for scalars it gets 0 (`C89_array_counterexample`; the
    source has a TODO at interval_arithmetic.py:185).
35. Raising `max_degree` can loosen the bounds at a point (`C89_degree_counterexample`); `C89_combine` shows how to combine
    several degrees soundly.

Which of these conditions each theorem needs is visible in its statement; `properties.jsonl` states them in English.
