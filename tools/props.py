import json
P=[]
def p(id,title,statement,quantifier,why,anchors): P.append(dict(id=id,title=title,statement=statement,quantifier=quantifier,why_tests_cant=why,anchors=anchors))
IA="autobound/interval_arithmetic.py"; PO="autobound/polynomials.py"; EA="autobound/enclosure_arithmetic.py"; EF="autobound/elementwise_functions.py"; PE="autobound/primitive_enclosures.py"; GE="autobound/graph_editor.py"; JE="autobound/jax/jaxpr_editor.py"; JB="autobound/jax/jax_bound.py"; TY="autobound/types.py"
inf="The claim ranges over every real-valued array in every interval; a test samples finitely many points and shapes."
p("C01","Interval add/subtract/negative enclose","If x is in interval (or array) A and y is in B (element-wise, same shape), then x+y, x-y, -x (with numpy broadcasting) lie in IntervalArithmetic.add(A,B), subtract(A,B), negative(A), and the result has the broadcast shape.","all array shapes, all intervals/arrays A and B, all members x and y",inf,[IA+":IntervalArithmetic.add",IA+":IntervalArithmetic.subtract",IA+":IntervalArithmetic.negative"])
p("C02","Interval multiply is the exact element-wise product range","IntervalArithmetic.multiply(A,B) contains x*y for all x in A, y in B, and each of its endpoints is attained at some pair of endpoint values of A and B at that index.","all shapes, all intervals/arrays A,B, all members, all output indices",inf,[IA+":IntervalArithmetic.multiply",IA+":IntervalArithmetic.arbitrary_bilinear"])
p("C03","Interval power is the exact range of x**k","For every integer k>=0, IntervalArithmetic.power((u,v),k) contains x**k for every u<=x<=v and both endpoints are attained by some x in [u,v]; k<0 on an interval raises NotImplementedError; on an array it is the plain element-wise power.","all exponents, all shapes, all intervals and members",inf+" The endpoint formula has a case split on parity and sign.",[IA+":IntervalArithmetic.power"])
p("C04","Interval outer_product and outer_power enclose repeated outer products","For x in A (y in B) and every k>=0 and batch_dims, the batched outer product / k-fold outer power of x lies in outer_product(A,B,batch_dims) / outer_power(A,k,batch_dims), including the tightened diagonal; on plain arrays outer_power is exactly the repeated outer product; k<0 raises ValueError.","all shapes, exponents, batch dims, intervals and members",inf,[IA+":IntervalArithmetic.outer_product",IA+":IntervalArithmetic.outer_power",IA+":_ndarray_outer_product",IA+":_generalized_diag_ndarray"])
p("C05","Interval bilinear operations enclose","For x in A and y in B: tensordot(x,y,n) lies in IntervalArithmetic.tensordot(A,B,n); more generally op(x,y) lies in arbitrary_bilinear(A,B,op) for every op that is a sum of products of entries of x and y with non-negative weights (matmul, convolution); the documented claim for an *arbitrary* bilinear op is false when a weight is negative.","all shapes, contraction counts, non-negative bilinear operations, intervals and members",inf,[IA+":IntervalArithmetic.tensordot",IA+":IntervalArithmetic.arbitrary_bilinear"])
p("C06","Interval operations return well-formed intervals","If every interval argument (lo,hi) has equal shapes and lo<=hi element-wise, then every interval returned by add, subtract, negative, multiply, power, outer_product, outer_power, tensordot has equal-shape endpoints with lo<=hi.","all shapes and well-formed arguments","Inversion of endpoints shows only at particular sign patterns; all sign patterns and sizes must be covered.",[IA+":IntervalArithmetic",TY+":Interval"])
p("C07","Arrays and degenerate intervals agree","On two plain arrays each interval operation returns the plain numpy result (never an interval); on degenerate intervals (x,x) it returns the degenerate interval of the numpy result.","all shapes and arrays, all operations","Equality must hold for every array, a test compares a handful.",[IA+":IntervalArithmetic"])
p("C08","Inclusion isotonicity of interval operations","Shrinking an argument interval never grows the result: if A' is inside A and B' inside B then op(A',B') is inside op(A,B) for add, subtract, negative, multiply, power, tensordot, outer_product and outer_power.","all shapes, all nested pairs of intervals",inf,[IA+":IntervalArithmetic"])
p("C09","Evaluating a Taylor enclosure means choosing coefficients","For a point z, y lies in eval_taylor_enclosure(E,z) iff at each output index there is a choice of one coefficient array inside each coefficient interval of E with y = sum_i <c_i, z^i>.","all enclosures (any degree, shapes, mix of arrays and intervals), all z, all y","An equivalence over all real choices.",[PO+":eval_taylor_enclosure",PO+":eval_polynomial",TY+":TaylorEnclosure"])
p("C10","Evaluating at an interval covers every point","If z lies in the interval Z and y in eval_taylor_enclosure(E,z) then y in eval_taylor_enclosure(E,Z); the same for eval_elementwise_taylor_enclosure.","all enclosures, intervals Z, members z, values y",inf,[PO+":eval_taylor_enclosure",PO+":eval_elementwise_taylor_enclosure"])
p("C11","Polynomial bilinear product identity","polynomials.arbitrary_bilinear(a,b) returns len(a)+len(b)-1 coefficients of a polynomial Q with Q(z)=P_a(z)*P_b(z) for every z.","all coefficient sequences of any positive length over a commutative ring, all z","Identity over all lengths and coefficient values.",[PO+":arbitrary_bilinear",PO+":eval_polynomial"])
p("C12","Polynomial integer power identity","polynomials.integer_power(a,k) returns (len(a)-1)*k+1 coefficients of P_a(z)**k for every z and k>=0; k<0 raises ValueError.","all coefficient sequences, all exponents k, all z","Multinomial expansion must be right for every length and exponent.",[PO+":integer_power"])
p("C13","Partition enumeration is exact","_iter_partitions(n,m,k) yields every length-k tuple of non-negative integers with sum m and sum_j j*p_j = n exactly once and nothing else.","all n,m>=0 and k>=1","Combinatorial completeness for unbounded sizes.",[PO+":_iter_partitions"])
p("C14","Multinomial coefficient","_multinomial_coefficient(ks) * prod(k!) = (sum ks)! for every non-empty ks; the empty tuple raises ValueError.","all non-empty tuples of naturals","Unbounded sizes.",[PO+":_multinomial_coefficient"])
p("C15","Truncation is sound","If z is in the trust region and y is in the enclosure E at z, then y is in enclose_enclosure(E,trust_region,d) at z; when deg E<=d the enclosure is returned unchanged.","all enclosures, trust regions, degrees d>=0, z and y",inf,[EA+":enclose_enclosure",EA+":TaylorEnclosureArithmetic._truncate_if_necessary"])
p("C16","Enclosure addition is sound","For z in the trust region, y1 in a at z and y2 in b at z imply y1+y2 in TaylorEnclosureArithmetic.add(a,b) at z.","all max_degree, trust regions, enclosures of any degree/shape, z, y1, y2",inf,[EA+":TaylorEnclosureArithmetic.add"])
p("C17","Enclosure negation and subtraction are sound","For z in the trust region, y1 in a, y2 in b at z imply -y1 in negative(a) and y1-y2 in subtract(a,b) at z.","as C16",inf,[EA+":TaylorEnclosureArithmetic.negative",EA+":TaylorEnclosureArithmetic.subtract"])
p("C18","Enclosure multiplication is sound","For z in the trust region, y1 in a, y2 in b at z imply y1*y2 in multiply(a,b) at z.","as C16, including multivariate x of any rank and numpy broadcasting between a and b",inf,[EA+":TaylorEnclosureArithmetic.multiply",EA+":_elementwise_term_product_coefficient",EA+":_pairwise_batched_multiply"])
p("C19","Enclosure integer power is sound","For integer p>=0 and z in the trust region, y in a at z implies y**p in power(a,p) at z.","all p>=0 and as C16",inf,[EA+":TaylorEnclosureArithmetic.power",EA+":_elementwise_term_power_coefficient",PO+":integer_power"])
p("C20","Enclosure bilinear operation is sound","For z in the trust region, y1 in a, y2 in b at z imply op(y1,y2) in TaylorEnclosureArithmetic.arbitrary_bilinear(a,b,batched_op) at z, for any batched_op satisfying the documented pairwise contract whose underlying op has non-negative weights.","all max_degree, trust regions, enclosures, conforming ops",inf,[EA+":TaylorEnclosureArithmetic.arbitrary_bilinear"])
p("C21","Composition of enclosures is sound","If f(y) lies in the element-wise enclosure e at y-y0 and y lies in arg_enclosure at z with arg_enclosure[0]=y0, then f(y) lies in compose_enclosures(e,arg_enclosure) at z, provided deg e <= max_degree; for deg e > max_degree terms are silently dropped and the claim is false.","all max_degree, elementwise enclosures, argument enclosures, z in the trust region",inf,[EA+":TaylorEnclosureArithmetic.compose_enclosures",EA+":_left_broadcasting_multiply"])
p("C22","Elementwise functions on enclosures are sound","If the enclosure generator is sound for f, then get_elementwise_fun(generator)(arg) encloses f(y) for every y enclosed by arg, whether the argument trust region is derived or supplied.","all generators, max_degree, argument enclosures, z",inf,[EA+":TaylorEnclosureArithmetic.get_elementwise_fun"])
p("C23","Division and general powers are sound","For z in the trust region, y1 in a, y2 in b at z and y2 nonzero with a sign fixed on b's range, y1/y2 lies in divide(a,b) at z; likewise power(a,p) for negative or fractional p on positive ranges.","all enclosures, trust regions, z, exponents",inf,[EA+":TaylorEnclosureArithmetic.divide",EA+":TaylorEnclosureArithmetic.power",PE+":pow_enclosure"])
p("C24","Degree bound","Every enclosure returned by add, subtract, negative, multiply, power, arbitrary_bilinear, compose_enclosures, divide has degree at most max_degree.","all arguments on which the call returns","Holds for every degree combination.",[EA+":TaylorEnclosureArithmetic"])
p("C25","Built-in derivative formulas are the derivatives","get_function(id.derivative_id(k)) is the k-th derivative of the function: exp and log for all k, sigmoid k<=4, softplus k<=5, swish k<=4, abs k<=1 away from 0; unsupported orders raise NotImplementedError.","all supported functions and orders, all real x (x>0 for log)","Identity of functions on all reals.",[EF+":get_function",EF+":_sigmoid_derivative",EF+":_softplus_derivative",EF+":_swish_derivative"])
p("C26","Monotonicity and symmetry flags are true","Whenever get_function_data reports monotonically_increasing/decreasing or even_symmetric for a FunctionId, the corresponding function really is monotone on its domain / even.","all supported FunctionIds, all pairs of reals in the domain","Universally quantified over the reals.",[EF+":get_function_data",EF+":_FUNCTION_DATA"])
p("C27","When get_range is exact","If every interior local maximum (minimum) of the continuous f on [a,b] is listed, maximum_value (minimum_value) over [a,b] is the true maximum (minimum) over [a,b] exactly when no listed point lies in [a,b] or the end point values do not exceed (fall below) f at some listed point in [a,b]: end points are ignored once a listed extremum is inside. With the actual table, get_range of the fifth derivative of softplus over [-4,log 2] is wrong.","all such f, all lists of extrema (any order), all a<=b",inf,[EF+":get_range",EF+":minimum_value",EF+":maximum_value"])
p("C28","monotone_over never lies","If monotone_over reports decreasing (increasing) for [a,b] then f is decreasing (increasing) on [a,b], for f monotone between consecutive listed extrema.","all f, extrema lists, regions",inf,[EF+":FunctionData.monotone_over"])
p("C29","Sharp enclosure for monotone k-th derivative","If the k-th derivative of f is monotone on [a,b] containing x0, then for every x in [a,b] f(x) lies in sharp_enclosure_monotonic_derivative(...) evaluated at x-x0, and the bound is attained at the trust region end points, provided no end point is so close to x0 that 0<|end-x0|^k<1e-12.","all k, f, x0, [a,b], x","Analytic statement over all smooth f.",[PE+":sharp_enclosure_monotonic_derivative",PE+":taylor_remainder_ratio"])
p("C30","Validity near the reference point","The enclosure should be valid for every trust region; because 1/denom is capped at 1e12 it is not: there is a trust region and an x inside it for which the returned enclosure excludes f(x).","existence of a failing trust region / all regions away from the cap","The failure is below float tolerance used in tests.",[PE+":taylor_remainder_ratio"])
p("C31","Bounded-derivative enclosure","If lo<=f^(k)<=hi on [a,b] then f(x) lies in bounded_derivative_enclosure(k,coeffs,(lo,hi)) at x-x0 for all x in [a,b].","all k, f, bounds, x",inf,[PE+":bounded_derivative_enclosure"])
p("C32","Sharp quadratic enclosure of softplus","softplus_enclosure at degree 2 contains softplus(x) for all x in the trust region, for every x0 and trust region containing it (cap aside).","all x0, a, b, x",inf,[PE+":sharp_quadratic_enclosure_even_symmetric_hessian",PE+":softplus_enclosure"])
p("C33","Elementwise enclosures of the built-in functions are sound","exp_enclosure (every degree), log_enclosure (every degree, positive trust region), abs_enclosure (degree 0,1; higher degrees raise NotImplementedError), sigmoid_enclosure (degree 0,1) and softplus_enclosure (degree 0,1) contain the function on the whole trust region; every other supported degree of sigmoid, softplus and swish is sound on each trust region where the tabulated monotonicity and range of the k-th derivative are true, and sigmoid_enclosure of degree 4 is unsound on the trust region [-4,log 2] at x0=log 2.","all supported degrees, x0, trust regions containing x0, x",inf,[PE+":get_elementwise_taylor_enclosure",PE+":exp_enclosure",PE+":log_enclosure",PE+":abs_enclosure",PE+":sigmoid_enclosure",PE+":softplus_enclosure"])
p("C34","pow_enclosure is sound","pow_enclosure(p,x0,(a,b),k), with its infinities and NaNs: whenever the Taylor coefficients at x0 are finite, it returns k finite coefficients and a final interval (possibly (-inf, inf) or half-infinite, e.g. when [a,b] contains 0 and p is negative, or a<0 and p is not an integer) such that the enclosure contains x**p for every x in [a,b] at which x**p is a real number, except for two kinds of regions on which the claim is false: [a,b] straddles 0 and p is an integer with p-k even and positive, and b=0 with p a negative odd integer (the final interval then begins at +inf and is empty). About x0=0 with degree k greater than a natural exponent p, the final interval is (nan, nan) although x**p is smooth.","all exponents (integer or not, any sign), degrees, x0, trust regions (also containing 0), x",inf,[PE+":pow_enclosure"])
p("C35","Sign of derivatives of powers","_pow_kth_deriv_sign(s,p,k) is the sign of the k-th derivative of x**p at every x of sign s; non-integer p with s=-1 raises ValueError.","all p, k, x of the given sign","Universally quantified over reals and all orders.",[PE+":_pow_kth_deriv_sign"])
p("C36","match is sound","If graph_editor.match returns a mapping m then substituting m in the pattern gives the subject, every pattern variable is bound, and every binding satisfies can_bind.","all patterns, subjects, can_bind predicates","All graphs.",[GE+":match",GE+":Operation.subs"])
p("C37","match is complete and canonical","If some mapping of the pattern variables satisfying can_bind turns the pattern into the subject, match returns one, and it is the unique one on pattern variables; otherwise it returns None.","all patterns, subjects, can_bind predicates, candidate mappings","Requires reasoning about all mappings.",[GE+":match"])
p("C38","replace preserves meaning","graph_editor.replace rewrites a program to an equivalent one (same value for every graph output, for every input valuation) when pattern and replacement compute the same outputs and the internal variables of matched occurrences are not used elsewhere and replacement internals are not captured; without freshness the result can be wrong.","all patterns, replacements, subjects, interpretations of operations, input valuations","Universally quantified over programs and interpretations.",[GE+":replace",JE+":replace"])
p("C39","replace terminates exactly when the pattern is non-empty","With a non-empty pattern replace returns after at most len(operations) steps; with the empty pattern and a non-empty graph it never returns.","all patterns, graphs","Termination for all inputs / genuine divergence.",[GE+":replace"])
p("C40","Jaxpr <-> graph conversion round-trips","_graph_to_jaxpr(_jaxpr_to_graph(j)) equals j up to variable identity (same counts, literals, primitives, params) for every jaxpr whose variable counts identify variables.","all jaxprs","All programs.",[JE+":_jaxpr_to_graph",JE+":_graph_to_jaxpr"])
p("C41","Jaxpr equivalence check is sound","If _same_jaxpr_up_to_variable_renaming(j0,j1) returns True for SSA jaxprs, some renaming of variables maps j0 to j1 (so they compute the same function); it is reflexive on well-formed jaxprs.","all jaxprs","All programs.",[JE+":_same_jaxpr_up_to_variable_renaming",JE+":_jaxpr_eqn_params_equiv"])
p("C42","taylor_bounds is sound","For every program built from supported primitives (with sound enclosure rules) in which an operand of an addition that depends on x has the shape of the sum, dot_general with batch dimensions is applied only to scalar x or a constant left operand, convolutions and jitted bodies have nonnegative weights, and reshape is not used when x is a one-element array: for every x0, trust region and max_degree, if taylor_bounds(f,max_degree)(x0,(a,b)) returns bounds then for all x with a<=x<=b, bounds.lower(x) <= f(x) <= bounds.upper(x). Without each of these conditions there are programs for which the returned bounds are wrong.","all programs, x0, trust regions, degrees, x","The headline guarantee: all functions, all points.",[JB+":taylor_bounds",JB+":TaylorBounds"])
p("C43","Bounds are ordered","For programs as in C42, lower(x) <= upper(x) for every x in the trust region.","as C42",inf,[JB+":TaylorBounds.lower",JB+":TaylorBounds.upper"])
p("C44","Bounds are exact at the reference point","For max_degree>=1 and programs as in C42, lower(x0)=upper(x0)=f(x0).","all programs, x0, trust regions, degrees>=1","All programs.",[JB+":taylor_bounds",JB+":TaylorBounds"])
p("C45","Leading coefficients are the Taylor polynomial","For max_degree d>=1, the first d coefficients returned by taylor_bounds are the Taylor coefficients of f at x0 (for scalar x, f^(i)(x0)/i!; otherwise contracted with any direction) whenever f is smooth at x0, for every trust region that contains x0 and either setting of propagate_trust_regions.","all programs, points x0 where the program's functions are smooth, trust regions, degrees","Analytic.",[JB+":taylor_bounds",TY+":ElementwiseTaylorEnclosure"])
p("C46","Unsupported programs are rejected","A non-constant equation whose primitive has no enclosure rule raises NotImplementedError; negative max_degree raises ValueError; x0 of rank>=2 raises NotImplementedError; nothing is silently skipped.","all programs","All programs.",[JB+":taylor_bounds"])
p("C47","Trust-region propagation is sound","With propagate_trust_regions=True the bounds are still sound, and every propagated trust region contains the true intermediate value for all x in the trust region.","as C42",inf,[JB+":taylor_bounds",JB+":_intersect_intervals"])
p("C48","Constant folding","Equations whose inputs are all constant are evaluated exactly; the resulting enclosure is the single exact value.","all programs","All programs.",[JB+":taylor_bounds",JB+":_IntermediateEnclosure"])
p("C49","dot_general push-forward contract","_dot_general_pushforward_fun's batched op places the lhs and rhs coefficient axes last and in order, as arbitrary_bilinear's contract requires, when there are no batch dimensions; with batch dimensions and a non-scalar x the axes are permuted wrongly.","all shapes, dimension numbers, p, q","Index bookkeeping for all ranks.",[JB+":_dot_general_pushforward_fun"])
p("C50","Pass-through primitives are sound","map_over_enclosure with a linear, monotone primitive that acts only on the leading (batch) axes encloses the primitive's result; for non-linear primitives (e.g. a jit body) it does not.","all enclosures, linear monotone ops, z",inf,[EA+":map_over_enclosure",JB+":_pass_thru_pushforward_fun"])
p("C51","Rewriting a jaxpr preserves its function","jaxpr_editor.replace(pattern, replacement, subject) returns a Jaxpr that computes the same outputs as subject for all constants and inputs on which subject is defined, when pattern and replacement compute the same function, variable counts identify variables, and in each occurrence the intermediate results are not used elsewhere and the pattern's inputs are computed outside it.","all patterns, replacements, subject programs and inputs","All programs and rules.",[JE+":replace",JE+":_jaxpr_to_graph",JE+":_graph_to_jaxpr",JE+":_can_bind"])
p("C52","Form of the result","Whenever taylor_bounds(f, max_degree)(x0, region) returns, for any tables of primitives and any program, the result carries x0 and the region unchanged, has between 1 and max_degree+1 coefficients, and the shape of coefficient i ends with i copies of the shape of x0.","all programs, tables, degrees, reference points and regions for which the call returns","All programs and shapes.",[JB+":taylor_bounds",JB+":_validate_taylor_enclosure",JB+":TaylorBounds"])
p("C53","taylor_bounds returns","For every well-formed program with one input of rank at most 1 and one output whose primitives are used within explicit limits (element-wise functions with an enclosure rule that returns, no zeroth power, pow only with a constant exponent that is not a positive integer and without trust-region propagation, broadcast/reshape/transpose/convolution only for scalar x, enough einsum labels), every x0 in the trust region, every max_degree>=0 and with or without trust-region propagation, taylor_bounds returns (raises nothing) and the returned bounds are sound. Outside these limits there are programs for which it raises.","all programs within the limits, x0, regions, degrees, both settings of propagate_trust_regions","No test suite covers all programs; the property is total correctness of an interpreter.",[JB+":taylor_bounds",JB+":_pushforward_funs",EA+":TaylorEnclosureArithmetic",PO+":arbitrary_bilinear"])
p("C54","Registering a primitive","After register_elementwise_primitive(p, rule) with a rule whose enclosures contain p's function, taylor_bounds applies that rule to p, its bounds are sound for programs that use p beside the other primitives, and every program that does not use p gets the same result (or the same exception) as before.","all tables, rules, programs, degrees, reference points and regions","All programs and rules.",[JB+":register_elementwise_primitive",JB+":_elementwise_pushforward_fun"])
p("C55","final_interval bounds the remainder","For the result b of taylor_bounds, at every x of the trust region f(x) equals the polynomial of b's coefficients before the last plus <r,(x-x0)^n> for some r with a <= r <= b entrywise where (a,b)=b.final_interval(), and the coefficients before the last are arrays.","all programs, degrees, reference points, regions and points","All programs and points.",[JB+":TaylorBounds.final_interval",JB+":taylor_bounds"])
p("C56","Bounds hold for the program before rewriting","taylor_bounds first rewrites the program of f with the registered rules (pattern, replacement primitive) and then bounds the rewritten program. If each replacement computes the same function as its pattern, the rewriting returns, the rewritten program computes the same function, and the bounds returned hold for the original f at every x of the trust region. For rules whose pattern is one equation (such as a jit-ed function) every well-formed program qualifies; without the rule a jit-ed function is passed through and the bounds are wrong.","all lists of rules, programs, degrees, reference points, regions and points","All programs and rules.",[JB+":_rewrite_jaxpr",JB+":_register_elementwise_function",JB+":taylor_bounds",JE+":replace"])
p("C57","Interval and enclosure operations return","On operands whose shapes fit, the operations of interval and Taylor-enclosure arithmetic return a value rather than raising: outer_product exactly when batch_dims is at most both ranks, the batch axes broadcast and the einsum labels suffice; multiply, power, arbitrary_bilinear, composition, elementwise functions (when the scalar generator returns) and divide on well-formed enclosures; and the number of coefficients returned is the smaller of the natural degree and max_degree, plus one.","all operands, shapes, degrees and trust regions","All shapes and degrees.",["autobound/interval_arithmetic.py:outer_product","autobound/interval_arithmetic.py:outer_power","autobound/enclosure_arithmetic.py:TaylorEnclosureArithmetic"])
p("C58","Rounded tables of extrema: error at most 1e-12","For the elementwise functions whose table of derivative extrema lists decimal roundings of the true extrema (sigmoid of degree 2 and 3, softplus of degree 3 and 4, swish of degree 0, 1 and 2), the enclosure returned over any trust region is right once its final interval is widened by 1e-12 on both sides, and it is right as it is when no listed extremum is within 1e-12 of the trust region. For sigmoid of degree 4, softplus of degree 5 and swish of degree 3, whose tables list two extrema which are not global, the same holds on every trust region that does not reach an outer extremum on one side of 0 while ending between 0 and the inner extremum on the other side; for swish of degree 4 it holds on every trust region within [-5, 5]. Every number in these tables (swish 4 aside) is within 3e-13 of a point where the derivative turns, in the direction the table says, and the derivative turns nowhere else.","every reference point, every trust region containing it (whose end points are not closer to it than the code's cap)","All real reference points and regions; the error is far below test tolerances.",["autobound/elementwise_functions.py:_FUNCTION_DATA","autobound/elementwise_functions.py:get_range","autobound/primitive_enclosures.py:get_elementwise_taylor_enclosure"])
p("C59","Tiny trust regions: the error made by the cap","taylor_remainder_ratio caps 1/|x - x0|^k at 1e12, which makes enclosures over trust regions with an end point very close to x0 wrong (C30). The error is negligible: on every trust region, every value of the function is within 1e-12 * V / k! of the returned enclosure, where V bounds the variation of the k-th derivative over the region (exp and log of every degree, sigmoid and softplus of degree 0 and 1, powers on their sound regions; abs of degree 1: within 2e-12; sigmoid 2 and 3, softplus 3 and 4, swish 0 to 2: moreover with the final interval widened by 1e-12); softplus of degree 2 is right once its final interval is widened by 1e-7.","every reference point, every trust region containing it, every degree","All real reference points and arbitrarily small regions.",["autobound/primitive_enclosures.py:taylor_remainder_ratio","autobound/primitive_enclosures.py:sharp_enclosure_monotonic_derivative","autobound/primitive_enclosures.py:pow_enclosure","autobound/primitive_enclosures.py:sharp_quadratic_enclosure_even_symmetric_hessian"])
p("C60","Shrinking the trust region tightens the bounds","If taylor_bounds returns for two nested trust regions that contain x0, then every coefficient computed for the smaller region is contained in the corresponding coefficient for the larger one, and at every point the lower and upper bounds for the smaller region lie between the lower and upper bounds for the larger one. This holds for every program whose convolutions have nonnegative weights and whose jitted calls are order preserving, however small the regions are, when the elementwise tables used are right about the regions; for the elementwise functions themselves it is proved separately.","all programs, degrees, reference points, nested trust regions, evaluation points, with and without propagation of trust regions","Ranges over pairs of runs on all nested regions, and over all programs.",["autobound/jax/jax_bound.py:taylor_bounds","autobound/primitive_enclosures.py:get_elementwise_taylor_enclosure","autobound/primitive_enclosures.py:pow_enclosure","autobound/enclosure_arithmetic.py:TaylorEnclosureArithmetic"])
p("C61","Majorization-minimization descent","The upper bound returned by taylor_bounds (max_degree >= 1) touches the function at x0 and majorizes it on the trust region. Hence a point x of the trust region whose upper bound is not above (is below) the upper bound at x0 does not increase (decreases) the function, the mirrored statement holds for the lower bound, and a sequence of points each obtained from the previous one by such a step - with a trust region chosen anew at each step - never increases the function, however many steps are taken.","every program, reference point, trust region, point of it, and every infinite sequence of steps","Histories of arbitrary length, real-valued points and all programs; descent runs in tests only sample a few iterations",["jax/jax_bound.py:TaylorBounds.upper","jax/jax_bound.py:TaylorBounds.lower","jax/jax_bound.py:taylor_bounds"])
p("C62","Value and gap of the bounds at a point","At every point x the lower (upper) bound returned by taylor_bounds is the sum over all coefficients of the smaller (larger) of the two end points times the monomial of x - x0; the gap between upper and lower is exactly the sum over the entries of the final interval of its width times the absolute value of the monomial of that degree (for a scalar input: width * |x - x0|^n), so the only uncertainty is in the final coefficient.","every program, reference point, trust region and every point, inside the trust region or not","All points and programs; a formula checked on samples does not exclude a term that vanishes on them",["jax/jax_bound.py:TaylorBounds.__call__","jax/jax_bound.py:TaylorBounds.final_interval","polynomials.py:eval_taylor_enclosure"])
p("C63","Polynomial programs are bounded exactly","If a program computes a polynomial whose degree in its input (summed over products, dot products and convolutions, multiplied by integer powers) is at most max_degree, then the lower and upper bounds both equal the function itself, at every point of x0's shape, even outside the trust region.","every program with a degree certificate, every max_degree at least that degree, reference point, trust region and point","Identity of functions over all real inputs and all polynomial programs",["jax/jax_bound.py:taylor_bounds","enclosure_arithmetic.py:TaylorEnclosureArithmetic","enclosure_arithmetic.py:enclose_enclosure"])
p("C65","Malformed enclosures are rejected","If the i-th coefficient of an enclosure does not have a shape that ends in i copies of the shape of x, multiply (for either factor), integer and non-integer power, and divide (divisor) raise ValueError rather than return an enclosure, a malformed dividend never yields a result, and an arithmetic over a trust region whose end points have different shapes cannot be created.","all enclosures, shapes and trust regions","All shapes and ranks.",["enclosure_arithmetic.py:TaylorEnclosureArithmetic._validate_taylor_enclosure","enclosure_arithmetic.py:TaylorEnclosureArithmetic.multiply","enclosure_arithmetic.py:TaylorEnclosureArithmetic.power","enclosure_arithmetic.py:TaylorEnclosureArithmetic.__init__"])
p("C66","Integral bounds enclose the integral","integral_bound_v0(f,a,b,degree) and integral_bound_v1(f,a,b,degree,n) return (lower,upper) with lower <= integral of f over [a,b] <= upper, for every number of grid cells; both are equal to the integral if f is a polynomial of degree at most `degree`; an odd degree is rejected, and for an even degree a result is returned whenever taylor_bounds returns. integrate(coefficients,a,b) is the exact integral of the polynomial.","every scalar program and integrable function it computes, all a <= b, even degrees and numbers of cells","The integral of an arbitrary function has no finite oracle.",["notebooks/bounding_integrals.ipynb:integrate","notebooks/bounding_integrals.ipynb:integral_bound_v0","notebooks/bounding_integrals.ipynb:integral_bound_v1"])
p("C67","minimize_1d_quadratic minimizes","minimize_1d_quadratic(c1,c2,(a,b)) returns a point of [a,b] at which c1*x + c2*x**2 is smallest over [a,b], for convex, concave, linear and zero objectives.","all c1, c2 and all a <= b","Continuum of objectives and points.",["notebooks/safe_learning_rates.ipynb:minimize_1d_quadratic"])
p("C68","Safe learning rates do not increase the loss","safe_learning_rate(loss,x,dir,max) returns a rate in [0,max] at which the quadratic upper bound on the loss is smallest, and loss(x + rate*dir) <= loss(x); for a loss that is quadratic along the direction the rate is a best one in [0,max]. The SafeRate optimizer therefore never increases the loss from one step to a later one; its maximum rate is halved exactly if the safe rate is less than half of it, otherwise doubled (also for a NaN rate, contrary to the comment in the code), and stays positive.","every loss program, starting point, direction, maximum rate, number of steps and history","All histories of an iterative algorithm on all losses.",["notebooks/safe_learning_rates.ipynb:bound_loss","notebooks/safe_learning_rates.ipynb:safe_learning_rate","notebooks/safe_learning_rates.ipynb:saferate_optimizer"])
p("C69","Bounds on the squared-error loss of any multi-layer perceptron","For a multi-layer perceptron with any number of layers, any widths, batch, weights, targets and update direction, the loss along eta -> loss(p + eta*v) (README.md:98, safe_learning_rates.ipynb): taylor_bounds returns for every degree but 1, and lower(eta) <= loss(p + eta*v) <= upper(eta) on the trust region; for linear networks of L layers and degree >= 2L both bounds equal the loss; safe_learning_rate returns a rate in [0,max] that does not increase the loss, and training with the SafeRate optimizer runs for any number of steps without ever increasing the loss.","all architectures (lists of widths and activations), batch sizes, inputs, targets, parameters, directions, expansion points, trust regions, numbers of steps","Unbounded family of programs (depth, widths) and a continuum of weights.",["README.md","notebooks/safe_learning_rates.ipynb","jax/jax_bound.py:taylor_bounds"])
p("C70","Program values are the documented values of the array primitives","The values f(x) that the bounds are compared with are those jax.lax documents: transpose permutes coordinates; reshape and squeeze keep the entries in row-major order; reduce_sum, dot_general, reduce_window_sum and conv_general_dilated are sums, over all entries of the operands, of the entries (products of entries) whose coordinates satisfy the documented equations (equal contracting and batch coordinates; o*stride + k*window_dilation = padding_low + i*base_dilation; feature and batch groups), with the documented result shapes; broadcast_in_dim copies along new and size-1 axes; element-wise primitives act entry by entry after numpy broadcasting.","all array shapes and ranks, axis lists, permutations, strides, paddings, dilations, dimension numbers, group counts, entries","Index calculations over arrays of any rank and size.",["jax/jax_bound.py:taylor_bounds","jax/jax_bound.py:_pushforward_funs","jax/jax_bound.py:_conv_general_dilated_pushforward_fun","jax/jax_bound.py:_dot_general_pushforward_fun"])
p("C71","Bounds converge at the full rate","Shrinking the trust region to x0 makes the bounds converge at the rate of a Taylor polynomial: if taylor_bounds returns for a trust region, there is a constant C such that for every smaller trust region around x0 of width at most w, every interval coefficient is at most C*w wide, upper(x) - lower(x) <= C*w*t**max_degree whenever |x - x0| <= t, hence at most C*w**(max_degree+1) in the region; with sound tables both bounds are that close to f(x). This holds for the built-in functions wherever they are smooth (abs of degree 1 away from 0, fractional powers on positive regions).","every program, x0, degree and every pair of nested trust regions (one constant for all the smaller ones)","A rate of convergence is a statement about infinitely many trust regions with one constant.",["jax/jax_bound.py:taylor_bounds","enclosure_arithmetic.py:TaylorEnclosureArithmetic","primitive_enclosures.py:get_elementwise_taylor_enclosure"])
p("C64","Bounds depend only on the data flow of the program","taylor_bounds gives the same result (or the same exception) after any injective renaming of the variables of the program; if it returns, it returns the same bounds for any program made of some of the same equations in any order in which variables are assigned before they are read (reordered equations, unneeded equations removed).","every program, injective renaming, reordering and choice of unneeded equations, x0, trust region, degree","All renamings and reorderings of all programs.",["jax/jax_bound.py:taylor_bounds"])
p("C72","Interval arithmetic in floating point","If the arithmetic rounds every operation (monotone rounding, no NaN or infinities), add, subtract, negative, multiply and power with an integer exponent >= 0, computed with the rounded operations, contain the value that the same rounded operations compute for members of the arguments, and so contain the exact value up to one rounding error; the general bilinear rule (tensordot, dot_general, convolutions) does not have this property.","every number type with monotone rounded operations, all intervals, arrays, members, exponents","Every rounding mode, precision and operand.",["interval_arithmetic.py:IntervalArithmetic.add","interval_arithmetic.py:IntervalArithmetic.subtract","interval_arithmetic.py:IntervalArithmetic.negative","interval_arithmetic.py:IntervalArithmetic.multiply","interval_arithmetic.py:IntervalArithmetic.power","interval_arithmetic.py:IntervalArithmetic.arbitrary_bilinear"])
p("C73","Trust regions that are wide enough","With the code's own tables, the bounds hold on the whole trust region whenever every argument of an element-wise function, every denominator and every base of a power takes, somewhere in the trust region, values at distance at least eta on both sides of its value at x0, where eta ** max_degree >= 1e-12 (so that the cap inside taylor_remainder_ratio plays no role); in particular for the quickstart program 1.5*exp(3x) - 25x**2.","every program, x0, trust region, degree, propagate_trust_regions; the condition is on the values of f only, not on the run","The condition is on all values of f over the region, and the conclusion is about every point of it.",["jax/jax_bound.py:taylor_bounds","primitive_enclosures.py:taylor_remainder_ratio"])
p("C74","Convolutional networks","For every feed-forward network of convolutions (any strides, padding, dilation, layout, groups), dense layers, biases, activation functions, sum-pooling and reshapes, taylor_bounds of eta -> sum of squared errors at p + eta*v returns at every degree; the bounds enclose the loss for every eta in the trust region (if the tables are right about the activation functions; with the code's own tables when the inputs of the activation functions vary enough), are exact for every eta when there is no activation function and the degree is at least twice the number of layers with parameters, and training with safe learning rates never increases the loss.","every list of layers, shape, batch, parameters, direction, degree, trust region","A test runs one architecture on one batch; layers can be composed in unboundedly many ways",["README.md:98","autobound/jax/jax_bound.py:taylor_bounds","autobound/jax/jax_bound.py:_conv_general_dilated_pushforward_fun","autobound/jax/jax_bound.py:_dot_general_pushforward_fun","autobound/notebooks/safe_learning_rates.ipynb"])
p("C75","Infinite and NaN bounds","Interval and Taylor-enclosure arithmetic with infinite and NaN end points (which pow_enclosure produces for 1/x or x**0.5 when the region contains 0 or negative numbers): every end point of a result that is not NaN is a correct bound, for add, subtract, negative, multiply, power, composition, element-wise functions and TaylorBounds.lower/upper, at every point of the trust region. But an interval coefficient of degree at least 1 with an infinite end point makes lower(x0) and upper(x0) NaN; for x**p over a region on which pow_enclosure answers (-inf, inf), both bounds are infinite at every x other than x0 and NaN at x0; and for a vector x an infinite end point makes a bound NaN at every x.","every scalar expansion point, trust region (also infinite or NaN), enclosure with any finite, infinite or NaN coefficients, degree, exponent, x","Special values spread through every composition of operations; a test sees one expression at one point.",["interval_arithmetic.py:IntervalArithmetic","polynomials.py:eval_taylor_enclosure","enclosure_arithmetic.py:TaylorEnclosureArithmetic",PE+":pow_enclosure","jax/jax_bound.py:TaylorBounds"])
p("C76","The polynomial part does not depend on the trust region","taylor_bounds returns the same coefficients below max_degree, and equally many coefficients, whatever the trust region, whether or not trust regions are propagated, and however the remainder intervals of the element-wise functions are computed: choosing a different trust region changes the final interval only.","all programs, reference points, positive degrees, pairs of trust regions of one shape, both settings of propagate_trust_regions, all tables of enclosure generators with one Taylor polynomial per primitive and point (in particular the built-in ones)","A test compares two regions for one program; the property relates every pair of runs, through every pushforward function and every truncation.",["autobound/jax/jax_bound.py:taylor_bounds","autobound/enclosure_arithmetic.py:TaylorEnclosureArithmetic","autobound/primitive_enclosures.py"])
p("C77","Sharp enclosures are the smallest ones","Where the code uses one of its sharp rules, no better enclosure of the same degree exists: the coefficients below the last are forced and the final interval is contained in the final interval of every enclosure c_0 + c_1*(x-x0) + ... + I*(x-x0)**k that contains the function on the trust region (with more than one point). This holds for exp (every degree), log (every degree, positive region), softplus of degree 0, 1, 2, sigmoid of degree 0 and of degree 1 on either side of 0, abs of degree 0 and 1 (unless x0=0 is an end point), pow_enclosure on every region where it is sound, and for every built-in function and degree whose tabulated derivative is monotone over the region. Where the range of the derivative is used instead it need not be smallest (sigmoid, degree 1, about 0 on [-1,1]).","all functions, degrees, expansion points, trust regions with more than one point, and all competing enclosures","optimality is a statement about all other enclosures, an uncountable set; a test can only compare with some of them",["autobound/primitive_enclosures.py:sharp_enclosure_monotonic_derivative","autobound/primitive_enclosures.py:sharp_quadratic_enclosure_even_symmetric_hessian","autobound/primitive_enclosures.py:pow_enclosure","autobound/primitive_enclosures.py:get_elementwise_taylor_enclosure"])
p("C78","Propagating trust regions never loosens the bounds","If taylor_bounds returns with propagate_trust_regions=True and with propagate_trust_regions=False (over the same or a larger trust region), every coefficient of the former is contained in the corresponding coefficient of the latter, so the lower bound is at least as large and the upper bound at most as large at every x; and there are programs for which it is strictly tighter.","all programs that fit, reference points, degrees, pairs of nested trust regions containing x0, all isotone tables of enclosure generators that are right at the reference point (in particular the built-in ones where their tables are right), all points x","A test compares the two settings on one program; the claim relates every pair of runs, through every propagated region of every intermediate variable.",["autobound/jax/jax_bound.py:taylor_bounds","autobound/jax/jax_bound.py:_intersect_intervals","autobound/enclosure_arithmetic.py:get_elementwise_fun"])
p("C79","the outcome of taylor_bounds depends on shapes, not on numbers","For a fixed program (and fixed captured constants), degree and mode, two calls of taylor_bounds with expansion points and trust regions of the same shapes but different numbers either raise the same exception or both return, and then the lists of coefficients agree in length, in kind (plain array or interval) and in all shapes; the same holds for evaluating the returned bounds. So no decision depends on array values, which is what tracing with jax.jit needs; in particular if a call returns for one x0 and trust region it returns for all (up to the infinities/NaN that pow_enclosure computes for some numbers).","all programs over the supported primitives, constants, degrees, modes, shapes, and all pairs of values of those shapes","a test calls the function on a few values; a data-dependent branch or exception can hide behind the values that were not tried",["autobound/jax/jax_bound.py: taylor_bounds","autobound/enclosure_arithmetic.py: TaylorEnclosureArithmetic","autobound/interval_arithmetic.py: IntervalArithmetic","autobound/primitive_enclosures.py"])

p("C80","All occurrences of a pattern are rewritten, and nothing else","graph_editor.replace returns exactly the graph in which, from left to right, every occurrence of the (non-empty) pattern that does not overlap an earlier replaced one is replaced by the renamed replacement, every other operation is kept in place, and inputs, outputs and data are unchanged; a graph without occurrences is returned unchanged. The rewriting that taylor_bounds applies first (rules: call of a jitted function -> primitive) keeps the number and order of the equations, applies to each equation the first rule of whose pattern it is an occurrence, keeps all others, and leaves no occurrence of any pattern, so no call that a rule covers reaches the interpreter (which would pass it through).","all patterns, replacements, graphs, can_bind and == functions; all lists of one-equation rules and all well-formed Jaxprs","A missed or doubly replaced occurrence needs a program of the right form; a test sees only its own programs, and a missed call of a jitted function yields wrong bounds without an error.",["autobound/graph_editor.py:replace","autobound/graph_editor.py:match","autobound/jax/jaxpr_editor.py:replace","autobound/jax/jax_bound.py:_rewrite_jaxpr"])
p("C81","The effect of any history of registrations","After any sequence of calls of register_elementwise_primitive and of the internal registration of a Jax function, in any order: a registration of a Jax function raises ValueError exactly when one of the same name was registered before, and then changes nothing; the enclosure function in use for a primitive is that of the last accepted registration for it, or the one from before if there was none; each accepted registration of a Jax function appends its one rewrite rule. The bounds of a program hold if for each primitive the last registration is right, whatever was registered before it, and programs that use no registered primitive are not affected. A registration for a primitive with a rule of the library's own replaces that rule, except that one for a pass-through primitive (convert_element_type, reshape, reduce_sum, reduce_window_sum, squeeze, transpose, jit) is accepted and ignored. After import, the tables are those the other properties are about.","all initial module states, all histories of registration calls (accepted or rejected), all programs, inputs and degrees","The module state is global and mutable, and what a call does depends on the whole history; a test runs one history.",["autobound/jax/jax_bound.py: register_elementwise_primitive, _register_elementwise_function, _ELEMENTWISE_PRIMITIVE_ENCLOSURES, _pushforward_funs"])
p("C82","How far off the bounds are when the cap or the rounded tables act","taylor_bounds with the library's tables, without propagated trust regions: if every call of an enclosure function in the run has an error of at most eps (which C59 gives in terms of the function, the degree and the region of the call, however small the region is), then for every x of the trust region lower(x) and upper(x) enclose the result of an execution of the program at x in which results of element-wise functions and powers are off by at most eps and everything else is exact. If such executions stay within delta of f(x), then lower(x) - delta <= f(x) <= upper(x) + delta. At degree 1, programs built from abs, logistic, sigmoid and softplus satisfy this on every trust region with eps = 2e-12, and taylor_bounds returns.","all programs, trust regions (of any size), reference points, points x and degrees >= 1; propagate_trust_regions = False","the cap acts on trust regions of width below 1e-12^(1/k) and the error has to be followed through every later operation for all inputs",["autobound/primitive_enclosures.py:taylor_remainder_ratio","autobound/jax/jax_bound.py:taylor_bounds","autobound/elementwise_functions.py:_FUNCTION_DATA"])
p("C83","The bounds are exact at the reference point also in floating point","Run in an arithmetic whose every operation is rounded (only 0 and 1 behave exactly; no associativity or distributivity), taylor_bounds with max_degree >= 1 returns bounds with lower(x0) = upper(x0) = f(x0), entry for entry, where f(x0) is what the program computes in the same arithmetic, and the constant coefficient of the enclosure is that value. This holds for every program without division (bounded as multiplication by a reciprocal, which rounds differently: the bounds then miss f(x0)) and without integer powers >= 3 of arrays of rank >= 1 (bounded by repeated multiplication). Away from x0 rounding can make the bounds miss the computed value.","all number formats and rounding modes with symmetric formats that keep 0 and 1, all programs over the supported primitives with the said exceptions, all inputs, trust regions, degrees >= 1, both settings of propagate_trust_regions, all enclosure tables that start with the computed function value","a test compares a few values up to a tolerance; that the equality is exact for every program and every rounding cannot be tested",["autobound/jax/jax_bound.py:taylor_bounds","autobound/jax/jax_bound.py:TaylorBounds","autobound/enclosure_arithmetic.py:TaylorEnclosureArithmetic","autobound/polynomials.py:eval_taylor_enclosure"])
p("C84","Interval arithmetic (max_degree = 0) is sound in floating point","Run in an arithmetic whose operations are rounded monotonically, taylor_bounds with max_degree = 0 returns bounds that contain the computed value: for every x in the trust region (a point of the machine arithmetic) the value f(x) that the program computes with the same roundings lies, entry by entry, between lower and upper, so the bounds do not cross. Assumed: no dot_general or convolution, a division that rounds like multiplication by the reciprocal, element-wise enclosures that are right at degree 0 about the computed functions. The library's own enclosures of monotone functions are not right in this sense, contractions are not, and a contraction of two intervals can return an interval with its end points in the wrong order.","all programs over the covered primitives, all trust regions and points in them, all arithmetics with monotone rounding","a test sees a few roundings; an enclosure that is off by one unit in the last place passes every tolerance-based test",["autobound/jax/jax_bound.py: taylor_bounds","autobound/interval_arithmetic.py: IntervalArithmetic","autobound/enclosure_arithmetic.py: TaylorEnclosureArithmetic","autobound/primitive_enclosures.py: taylor_remainder_ratio"])
p("C85","Programs with nested jit calls","For programs whose equations may call jit-ed functions (nested to any depth, their Jaxprs being parameters of the equations), where the meaning of a call is to evaluate its Jaxpr: if the comparison of Jaxprs up to renaming of variables says that two well-formed Jaxprs are the same, they compute the same function; jaxpr_editor.replace with a one-equation replacement that computes the same function as the pattern preserves the function computed by the subject; and if taylor_bounds (rewriting included) returns bounds, they hold for the function computed by the Jaxpr before rewriting. A result does not change when deeper nesting is allowed. Without well-formedness (every variable bound once) the comparison identifies Jaxprs that compute different functions.","all well-formed Jaxprs with nested calls, all rules whose pattern is one call, all inputs in the trust region","quantifies over all programs and nesting depths; tests use the few built-in patterns",["autobound/jax/jaxpr_editor.py: _same_jaxpr_up_to_variable_renaming","autobound/jax/jaxpr_editor.py: replace","autobound/jax/jax_bound.py: taylor_bounds"])
p("C86","Conversions of the element type","convert_element_type may change numbers (truncation to an integer type, rounding to a shorter floating point type). With max_degree = 0, taylor_bounds is sound for programs with such conversions: if every conversion and every jitted function is order preserving, then f(x) lies between the returned bounds for every x in the trust region, whatever the shapes and the dimension numbers of contractions (batch dimensions included), in exact arithmetic and with the library's own tables. With max_degree >= 1 a conversion is applied to every coefficient as if it were linear, and the bounds can be wrong; there the soundness theorems ask that conversions do not change numbers.","all programs over the covered primitives, all monotone conversions, all trust regions and points in them","a test checks a few conversions at a few points",["autobound/jax/jax_bound.py: _PASS_THRU_PRIMITIVES","autobound/jax/jax_bound.py: _pass_thru_pushforward_fun","autobound/jax/jax_bound.py: taylor_bounds"])
p("C87","The notebooks' programs with the library's own tables","With the library's own (clipped, tabulated) enclosure functions: if, in every grid cell, the arguments of the element-wise functions, the denominators and the bases of powers vary enough around their value at the middle of the cell, integral_bound_v1 (and integral_bound_v0) returns a lower and an upper bound on the integral of f, for every even degree and every number of cells; and under the same kind of condition safe_learning_rate returns a learning rate in the allowed range with which the step does not increase the loss. Whenever the enclosures used are claimed sound on their regions, every step of the optimizer built on it does not increase the loss.","all integrands and losses over the covered primitives, all intervals, even degrees, numbers of cells, directions and maximum learning rates, all numbers of optimizer steps","quantifies over all integrands, grids and steps; the notebooks plot single runs",["autobound/notebooks/bounding_integrals.ipynb","autobound/notebooks/safe_learning_rates.ipynb","autobound/jax/jax_bound.py: taylor_bounds"])
p("C88","Negating, shifting and scaling","taylor_bounds commutes with affine operations: the bounds of -f, f + c, c + f, f - c, c - f and k * f are exactly the images of the bounds of f. At every point, inside or outside of the trust region, the lower bound of k * f + s is k * lower + s if k >= 0 and k * upper + s if k <= 0, and the same for the upper bound. So minimizing an upper bound of f is maximizing a lower bound of -f, and adding a constant or changing units loses nothing.","every program whose bounds are claimed (C42), every array c that broadcasts to the value of f, every number k of either sign, every degree, trust region, propagation setting and point","All programs and all constants; a sign or end-point mistake for negative factors can hide behind symmetric bounds in a test",["enclosure_arithmetic.py:negative","enclosure_arithmetic.py:subtract","enclosure_arithmetic.py:multiply","enclosure_arithmetic.py:add","jax/jax_bound.py:taylor_bounds"])
p("C89","Combining bounds; limits of higher degrees and of arrays","Bounds of one function obtained with different settings (degrees, propagation, reference points, trust regions) are consistent: where the trust regions overlap, no lower bound exceeds another upper bound, and the larger of the lower and the smaller of the upper bounds are bounds again. This is worth doing: a higher degree is not always tighter, and an array-valued input can have looser bounds than a scalar (even powers).","every program, every two settings and every point of both trust regions; the two limits are shown by programs","Every pair of settings, program and point",["jax/jax_bound.py:taylor_bounds","interval_arithmetic.py:outer_power"])
p("C90","Shifting the argument","taylor_bounds does not depend on where the origin is: if it returns bounds of f at the reference point x0 + c and the trust region [lo + c, hi + c], then it returns bounds of x -> f(x + c) (written x + c, c + x or x - (-c)) at x0 and [lo, hi], with exactly the same coefficients, and the lower and upper bounds of x -> f(x + c) at x are those of f at x + c. This is for calls without propagation of trust regions (propagate_trust_regions=False, or max_degree = 0); with propagation, the coefficients and bounds of the two results agree whenever both calls return, for the built-in kind of (isotone) tables.","every program, table of functions, degree, array c that broadcasts to the shape of x0, reference point, trust region and point x","All programs and shifts: one use of x instead of x - x0, or of the trust region without subtracting x0, shows only for some of them",["jax/jax_bound.py:taylor_bounds","jax/jax_bound.py:TaylorBounds","enclosure_arithmetic.py:add"])
p("C91","Bounds of sums and differences","taylor_bounds is additive: if a program computes two values u and v of equal shapes, the bounds of u + v at every point x (inside or outside of the trust region) are exactly the sums of the bounds of u and of v, and those of u - v are lower(u) - upper(v) and upper(u) - lower(v). So the bounds of a loss that is a sum of terms can be computed term by term without change, and no more is lost in a sum than in its terms.","every program, pair of its values, degree, setting of propagation, reference point, trust region and point x at which the calls return","All programs, coefficients of mixed kinds (arrays, intervals), numbers (of different enclosures) and shapes (that broadcast), signs of x - x0: a swapped end point shows only for some of them",["jax/jax_bound.py:taylor_bounds","enclosure_arithmetic.py:add","enclosure_arithmetic.py:subtract","interval_arithmetic.py:add"])
p("C92","Bounds of a rearranged, repeated or summed array","taylor_bounds commutes with rearranging, repeating and summing: if b are the bounds of f, and b' the bounds of g(f) where g is reshape, transpose, squeeze, broadcast_in_dim, reduce_sum (so also jnp.sum and, with C88, jnp.mean) or reduce_window_sum, then at every point x (inside or outside of the trust region) b'.lower(x) is g applied to b.lower(x) and b'.upper(x) is g applied to b.upper(x), with the same shape and entries. So the bounds of a sum over examples are the sums of the bounds of the examples, and nothing is lost by the operation.","every program, value of it, operation of the list, degree, setting of propagation, reference point, trust region and point x at which the calls return","All programs, axes, window parameters, degrees and signs of x - x0: coefficients of degree i have i additional copies of the axes of x behind those of the value, and an operation applied to the wrong axes shows only for some shapes",["jax/jax_bound.py:taylor_bounds","jax/jax_bound.py:_pass_thru_pushforward_fun","jax/jax_bound.py:_broadcast_in_dim_pushforward_fun","enclosure_arithmetic.py:map_over_enclosure"])
open("/verif/properties.jsonl","w").write("".join(json.dumps(x)+"\n" for x in P))
print(len(P))
