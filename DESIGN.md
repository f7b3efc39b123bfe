# Formal model of TerrayTM/pytimize in Lean 4

## What is modelled

The source in `/repo/pytimize` is transcribed, function by function, into total Lean
functions under `lean/Verif/`. Every definition cites the file and lines it models.
Exceptions are values (`Except PyErr α`); loops that Python does not bound (`while`) become
recursion with a *fuel* argument, and theorems then say either "for every fuel, if an answer
comes out it is right" (soundness) or "there is a fuel from which on an answer comes out"
(termination). Python dictionaries are insertion-ordered association lists. Sets are modelled
by lists; where Python's iteration order could influence the result, the order is an explicit
parameter and the theorem quantifies over it.

**Numbers.** All finite floats are rationals; the model computes in `ℚ` exactly. Tolerances
are *not* idealised away: `Comparator.is_close_to_zero` is `|v| < 10^-10`, `np.isclose` is
`|a-b| <= 10^-8 + 10^-5*|b|`, `math.isclose` is `|a-b| <= 10^-9*max(|a|,|b|)`. NaN, infinities as data and
signed zero are outside the model.

**Rounding.** Most files compute exactly; claims about code that only compares and copies numbers (graph
structure, cuts, trees, texts, constructor checks) are not affected by this. `Float/` models rounded
arithmetic: a `Rounding` is any monotone, idempotent, odd function with error `u|q| + tiny`; every operation of the
code is followed by it. `binary64` (round half to even to 53 bits with gradual underflow) is *proved* to be
one, and exact arithmetic is another. Overflow is not modelled: `binary64` has no largest number. A sum
of products (`@`) may be taken in any order and association, with or without fused multiply-add (`Dots`). Of
`np.linalg.norm` it is assumed (hypothesis `NormNear`) that it is a rounded square root of such a sum.
C100-C105 are about this model. Python's `sum` of floats is modelled both ways (plain before 3.12, compensated
since), over the elements of a set in any order; Python integers are exact, so integer capacities of any size behave as
in C12-C14. The simplex method, `inv` and `det` are only modelled exactly.

**Linear algebra.** `np.linalg.det` is Mathlib's determinant, `np.linalg.inv` is
`det⁻¹ • adjugate`, `@` is matrix multiplication.

## Trusted base

* Lean's kernel; axioms `propext`, `Classical.choice`, `Quot.sound` only; no axioms of our own, no
  `sorry`, no `native_decide`/`bv_decide`. `#print axioms` on every theorem in `MANIFEST.json`
  gives a subset of these three (about nine in ten depend on all three, through Mathlib's ordered
  fields and matrices; the others on `propext` and `Quot.sound`, on `propext`, or on none).
* Mathlib definitions used in statements (matrices, determinants, `SimpleGraph`, lists).
* The reading of the Python source. Nothing ties the model to the code mechanically. As evidence that the
  reading is right, `lean/Verif/Conformance/*.lean` replays the inputs and expected results of `/repo`'s own unit
  tests on the model (`#guard`, evaluated by Lean's interpreter). These are tests, not proofs; no theorem uses
  them. Left out for running time only: the 5-row two-phase tests, the 14-row `solve` test, the `solve` tests with
  free variables and the branch-and-bound test.
* Semantics of CPython / NumPy as described in the comments of each definition.

## Not modelled

Floating point rounding other than in `Float/`; matplotlib drawing; `docs/`, `setup.py`; methods whose body is `pass`; private helpers that
nothing calls (`__remove_dependent_rows`, `__array_like_to_list`, `__convert_indices`, `__format_steps`).

**Steps.** `LP/Steps.lean` repeats the methods that record steps with the log as state (`Rec`); C90 proves
that they answer as the models without log do, so all other theorems carry over. What NumPy prints for arrays and
Python for lists of integers is an arbitrary function (`Texts`). `solve`'s own log, the one of the program it
is called on, is modelled; logs of programs created on the way are dropped where the code drops them.

**Sharing.** Programs are values in most files. `LP/Heap.lean` and `LP/HeapCtor.lean` model the same methods by their
effects on shared arrays and lists; the numbers written are arbitrary functions there where they do not matter.

**Printing.** `round`, `str` and `"{:.3e}"` are the exact decimal operations on rationals, half to even on
ties; `math.log(x, 10)` is the exact logarithm (a float logarithm just below a power of ten may choose one
place more or less). The number format of `cs_conditions`, Python's own `str` of a float, stays a parameter.

**Parsers.** Strings are lists of characters, and what Python's Unicode tables say (`\w`, `\s`, `\d`,
`str.isspace`, digit values) is an arbitrary structure `Chars` that agrees with Python on ASCII; the
theorems hold for each. `float` of a matched literal is its exact rational value. Python's limit on
the length of integer literals is ignored.

**Unconstrained programs.** Start points are float arrays; callbacks are pure functions. The results
of C72 hold over every ordered field, C78 and C79 are about `ℝ`. An integer start array, on which
NumPy refuses the in-place update, is not modelled.

## Plan per property

See the table below; "spec" is the independent statement the theorem is about.

| id | model | how proved |
|----|-------|-----------|
| C01-C03 | `Comparator` over ℚ with exact tolerances | case analysis, floor arithmetic |
| C04-C05 | union-find as parent/rank maps, fuelled `find` | invariant (rank strictly grows along parents; 2^rank <= class size), refinement to `EqvGen` of the unions |
| C06-C08 | digraph as three dicts, ops return new state + outcome | invariant over op lists; counterexamples for failing add_arc and multi-character names |
| C09-C11 | ford_fulkerson with its dict-of-dict residual, BFS parent map, augmenting walk | invariant "residual dict = residual network", path augmentation, max-flow/min-cut; on digraphs where no route against useful arcs exists (`OneWay`) every search finds a forward path and saturates an arc, so at most one round per arc and one more |
| C12-C14 | preflow_push likewise | preflow + valid labelling invariant, lexicographic termination measure |
| C15-C18 | undirected graph as three dicts | invariant over op lists, counterexamples for remove_edge |
| C19-C22 | BFS loops with queue, iteration order as parameter | loop invariants, Mathlib `SimpleGraph` as spec |
| C23 | heap of adjacency sets (references) | counterexample + partial theorem |
| C24 | formulation as matrix | direct proof on 0/1 points |
| C25-C26 | transcription of the (broken) code | proof that it always raises / yields nothing |
| C27-C34 | `LP m n` records | direct proofs; duality by double summation |
| C35-C43 | basis lists, canonical form, simplex loop with fuel | linear algebra over ℚ; Bland's rule by the fickle-variable argument |
| C44-C46 | to_sef, two-phase, reversal | composition of the above |
| C47-C52 | verifiers | weak duality with explicit tolerance terms |
| C53-C57 | as coded | proofs or counterexamples |
| C58-C60 | branch and bound over the modelled `solve` | induction on fuel; counterexamples |
| C61-C66 | heap of mutable equations + expression evaluator | induction over expressions; counterexamples for aliasing |
| C67-C70 | a backtracking matcher for Python `re` restricted to the constructs used | induction on strings |
| C71-C73 | loops over abstract callbacks | induction on iterations |
| C74 | branch and bound with the fuel of `solve` and of the recursion | induction over the box of integral values |
| C75 | `GraphParser` as coded | evaluation |
| C76-C77 | a heap with the caller's array; list arithmetic for lists | induction on iterations |
| C78-C79 | the backtracking loop over `ℝ` | differentiability, descent lemma |
| C80, C82 | `dual`, `verify_*` | Farkas' lemma over ℚ by induction on the number of forms, strong duality for systems |
| C81, C83 | `cs_conditions` as text, `is_solution_optimal` | sign of the slack terms and strong duality; case analysis |
| C84 | `IntegerProgram.is_feasible` | evaluation |
| C85 | formulation, then branch and bound | basic solutions of programs with two variables per row are half-integral, so the tolerances never matter; induction on the width of the box |
| C86 | inherited `solve`, `optimal_value`, `copy` | soundness of `solve`; total unimodularity by Cramer's rule |
| C87 | `_format_number` with exact decimal rounding | each format printed is a numeral (`Numeral`) whose value is computed; error of rounding half to even |
| C88 | `__repr__` | a reader of texts (`readProgram`) is defined apart from the model; split into lines, words and brackets |
| C89 | `IntegerProgram.__repr__` | computation; two integer programs with the same text |
| C90-C92 | the methods with the log as state (`Rec`) | every call appends a list of entries given in closed form; induction on the fuel |
| C93 | `render_descriptor` and `steps_string` on characters | induction on the template; `dropWhile` |
| C94 | a formulation followed by `solve` | the compiled program has the points of the text (C64) and `solve` is sound and complete for it (C44, C45) |
| C95, C96 | the constructor and `program` on the heap of C51 | noninterference: events split into methods and writes; a syntactic condition on acts that write only into new objects |
| C97 | `__repr__` of undirected graphs | the text is parsed back line by line (`repr_reads`); sorting makes it independent of the order |
| C98, C99 | constructors, mutators and getters of both graph classes; composition with the graph parser | refinement: the object represents a function on (unordered) pairs; one step per call, closed form for the constructor loops |
| C100, C101 | `steepest_descent` with rounded operations, as a relation | monotone rounding: the target is at most `f(x)`; halving doubles reaches zero |
| C102 | `Comparator`, `np.isclose`, `math.isclose` with rounded operations | error bounds; exactness of subtractions (doubles are closed under fractional part and `1 - r`) |
| C103, C104 | `is_feasible`, `evaluate`, `verify_*` with rounded operations | forward error of a sum of products by induction on the order of summation; exactness on integers below 2^53 |
| C105 | `preflow_push`, `_compute_residual` with rounded operations | simulation: under the invariant of C12 every number computed is a multiple of the common unit below the total, so nothing is rounded; bound of one unit in the last place by an invariant for any rounding |
| C106 | names, `=` and augmented assignment on the heap of equations | ideal semantics of programs defined apart from the heap; simulation with the invariant that no two names share an equation |
| C107 | `__repr__` of a formulation | the text reads back as the compiled program (C88), whose points are those of the text of the formulation (C64) |
| C108 | accessors on the heap of C51 | simulation of histories (methods, readings, writes) by programs as values and snapshots; invariant on which objects are shared |
| C109 | `solve` on top of the model of `simplex`, `two_phase_simplex`, `to_sef` | rows of the SEF are independent exactly if the equations are; full case distinction of the answers on regular programs; a cycle of seven bases checked by the kernel, induction over the fuel |
| C110 | `add_arc` with every form of `demands` | case distinction against a table of exceptions and potentials; the documented number for one new end refuted on every digraph |
| C111 | `__remove_dependent_rows` on the augmented matrix | closed form of the test for a multiple; invariants of the two loops (rows original or zero, solutions, tested pairs) |
| C112, C113 | `newton_method` over a field, over the reals | induction on the loop, uniqueness of runs; mean value inequality, quadratic recursion of the error |
| C114 | `newton_method` on quadratics and on x^4/4 - x | expansion around the stationary point |
| C115 | both methods with the element types of NumPy (integer or float) | induction on the loop against the model of C71 |
| C116, C117 | both methods on functions above (and below) their touching quadratics, over an ordered field | completing squares; induction over the iterations with the lower bound of the step length of C79 |
| C118 | `LP/HeapRefine.lean`: the reference model of `LP/Heap.lean` (attributes as addresses, in-place writes, transposed views) simulates the value models of `LP/Basic.lean`, `LP/Sef.lean`, `LP/Simplex.lean`; `Encodes` says which cells show which program | `Props/InPlace.lean`: simulation per call, invariant `Own` (attributes are different objects) kept by calls, copies and duals, induction over histories; false for in-place calls on a program with one array as `b` and `c` |
| C119 | the checks in rounded arithmetic (`Float/Linear.lean`), for every rounding that is fine enough and for doubles | C103 and C104 combined: weak duality with error terms; complementary slackness for integers |
| C120 | `_hash_edge` on names as lists of characters | `norm` is symmetric; a separator that occurs in no name can be found again; a family of collisions otherwise |
| C121 | the operators of equations on any kind of number (`Float/Equation.lean`, the text of `Formulation/Equation.lean` with the operations as parameters), instantiated with Python's `int` and `float` (`pyOps`) | three runs of one expression, in doubles, exact and on absolute values, carried together; every operation is lawful with factor `1 + 2^-51`; whole floats stay whole, so an error below one is none. Overflow of floats is not modelled |
| C122 | `preflowPush`, as for C12–C14; one unit of fuel is one test of the loop condition | a potential over heights, residual arcs and excess nodes drops with every relabel, saturating and emptying push; the inner scan is bounded by the nodes. Partial: endless with opposite arcs (`C14_endless_wrong`), wrong with longer names (`C13_name_wrong`), error without inner nodes (`C14_two_nodes_fail`) |
| C123 | the whole model of `_directed.py` | every function shown to commute with the renaming (`Graph/Rename.lean`, `Graph/RenameBuild.lean`). Proved for renamings letter by letter, for one-letter names, and for everything but values and degrees by name in general; false otherwise, and always so for names without one-letter nodes (`C123_value_wrong`): `set(source)` is the set of letters. Sums are exact here; in doubles their order follows the hash order of the set of arcs |
| C124 | comparisons, `_generate_constraint`, `minimize`/`maximize` and `subject_to` with Python's numbers in equations and doubles in arrays (`Float/Generate.lean`) | for integers the run in doubles and the exact run are both images of the run in ℤ, whose numbers are bounded through the values of the expressions at unit points; for mixed numbers the error of `C121` plus one rounding of the difference and one conversion. Exceptions of whole formulations with floats are not compared: `v >= q` for a `Variable` depends on `q == 0`. Overflow of the conversion of integers is not modelled |
| C125 | `Formulation/Equation.lean` (already modelled), specification in `Formulation/Nonlinear.lean`: rules for what every expression evaluates to, and the terms left when products are struck out. Induction on expressions with the ownership invariant of C61. | False: `e + f * g` is accepted for any three expressions with variables and means `e` (`C125_dropped_wrong`, `C125_program_wrong`), because a product is `None` and adding `None` does nothing. Proved: outcome of every expression (`C125_shape`), the terms kept (`C125_kept_partial`), and that a product on its own as an objective or side of a comparison is rejected (`C125_alone_partial`). |
| C126 | `to_sef`, `auxiliary` and the translation of a solution back, with a rounding after every multiplication and subtraction (`Float/Sef.lean`). Signed zeros, infinities and NaN are not modelled | multiplication by ±1 and negation keep doubles; the merge `x[k] -= x[k+1]` rounds once, and not at all if one of the two is zero, which holds for a basis because the two columns of a split variable are opposite (a basis with both is singular). `C126_nonbasic` shows a vector outside any basis that is rounded |
| C127 | `ford_fulkerson` with a rounding after every arithmetic operation (`Float/FordFulkerson.lean`) | simulation along the path: on arcs of the digraph all numbers are multiples of the common unit below the capacity, so nothing is rounded; shape invariant of the dictionaries for the exceptions. False for other capacities: an overfilled arc (`C127_capacity_wrong`) and, through a negative residual, negative flow (`C127_negative_wrong`) |
| C128 | the chain formulation, compilation, `to_sef`, `is_feasible`, `verify_optimality`, `evaluate`, reversal, all in doubles (`Float/Generate.lean`, `Float/Sef.lean`, the checks of C103/C104) | integers stay integers of at most 53 bits through comparison and compilation (`Float/WholeProgram.lean`; truncation to integers is itself a rounding, so the lemmas on `to_sef` apply to it); then C124, C126, C119, C32 and C94 are composed |
| C129 | `ftoRref`: the loop of C55 with every quotient, product and difference rounded (Float/Rref.lean); the search does no arithmetic and is shared | The invariant of C55 holds without rounding terms: a divided pivot is `rd 1 = 1`, elimination below it gives `rd (a - rd (1 * rd (a / 1))) = 0`, and finished pivot columns are unchanged since the pivot row is zero there. False in general: `[[49,1],[49,1]]` is reduced to the identity (`C129_rank_wrong`), and a pivot `1 + 3*2^-52` leaves a residue (`C129_residue_wrong`) |
| C130 | `fsimplex`, `ftwoPhase`, `fsolve` (Float/Simplex.lean): the functions of LP/Simplex.lean and LP/TwoPhase.lean with every scalar operation rounded, sums of products in any order (`DotVal`), and `np.linalg.inv`/`det` as parameters (`Lapack`) | Each iteration starts again from the stored program, so errors cannot accumulate; for a totally unimodular matrix every canonical form has entries 0, 1, -1 by Cramer's rule, every right-hand side is a sum of at most m integers, and so on: nothing is rounded and every tolerance test decides as in exact arithmetic (Float/Unimodular.lean, Float/SimplexExact.lean). Assumed of NumPy: `inv` and `det` are exact on totally unimodular matrices (`ExactOnUnimodular`). Optimality follows from C109. Without rounding the model is the exact one (`C130_exact`); without total unimodularity the claim is false (`C130_thirds_wrong`) |
| C131 | `Factored`, `DetVal`, `InvVal` (Float/Gauss.lean): every possible outcome of `getrf`, of the determinant as NumPy computes it (sign times the exponential of the sum of logarithms) and of the triangular systems of `gesv`; `Gaussian C L`: the `inv` and `det` of `L` are such outcomes | A pivot step keeps a matrix totally unimodular, so by induction all factors are those of exact elimination (`elim`) with entries 0, 1, -1; the pivots are 1 or -1, their logarithms 0; a zero pivot means a zero column, hence a singular matrix. The triangular systems have integer solutions. `exists_factored`: there is an outcome for every matrix. `Gaussian` implies the hypothesis of C130. Without total unimodularity a singular matrix may be inverted without an error (`C131_singular_wrong`) |
| C132 | `fbranchAndBound`, `fbranch` (Float/Branch.lean): the search with `fsolve`, `fevaluate` and the rounded `is_integer` at every node; `np.floor` and `np.ceil` are exact | Induction on the depth for what a returned vector looks like, with C102 for the meaning of `is_integer`. For totally unimodular programs the answer of the relaxation is a vector of integers (C131), so no entry is branched on; a best integral point exists only if the relaxation is bounded (rational data), so the relaxation has an optimum, which is integral and hence a best integral point |
| C133 | `formulateMaxStableSet` of C24 followed by `fbranchAndBound` of C132 | Induction on the size shows that every square submatrix of the constraint matrix has determinant 0, 1 or -1: a row with at most one entry is expanded, and if all rows have an entry on both sides the difference of the two sides is a vector in the kernel. So C132 applies (the origin is feasible and there are no equations), and C24 translates the best integral point |
| C134 | the functions of C130 and C131, unchanged | By Cramer's rule the entries of every inverse and canonical form are 0 or ±2^j, |j| <= K; a pivot step keeps the class (the common factor becomes the pivot times the old one), so elimination is exact by induction. All other numbers are multiples of 2^-2K of bounded size (`Grid`), which have 53 bits, and every tolerance test on such multiples decides as in exact arithmetic. The determinant is the exponential of a sum of at most 2^20 rounded logarithms; with functions of relative error 2^-40 (`Libm.Accurate`) it stays on the right side of 1e-10. Optimality follows from C109 |
| C135 | the functions of C132 (`branch_and_bound`, `is_integer`, the bounds added to a node) and C85 (`formulate_max_stable_set`), unchanged | Adding a row with one entry +-1 keeps the subdeterminants (expansion along the row), so every node of the tree is a program of C134 with at most m + n U rows, and the tests for integrality and the comparison of objective values are made on multiples of 2^-K; induction over the tree. The matrix of a graph without K vertices that is bipartite has subdeterminants 0, +-1, ..., +-2^K: induction on the size, expanding rows with one entry and merging two columns of a row with two. The same induction, with the number of columns merged into each column, bounds the exponent by a third of the number of vertices for every graph: an entry 2 takes an odd cycle, and that has three vertices. The best integral point is that of C60, the stable set that of C85 |
| C136 | the functions of C14-C24, unchanged | `Renamed` compares two graphs by their getters and neighbours only, not by the order of their dictionaries. Every call preserves it (one lemma per call, induction over the loops of the constructor and over the history). Walks are lifted along the renaming, so reachability, distances and cycles agree, and the theorems C18-C22 and C85 give the answers. False for a cut or degree asked for by a name of several letters, for the order among equally distant vertices and for the exception of `shortest_path` (`C136_name_wrong`, `C136_order_wrong`); by-name cuts hold when letters are replaced |
| C137 | `solve`, `branchAndBound` and `Floating.solve` of C45, C60 and C130, unchanged | `Rewritten` states row by row and column by column how the two programs are related. Feasible and optimal vectors of both correspond one to one (`C137_same`); the theorems on what the solvers return (C109, C130, C60) then give answers of the same value. False in general: `solve` returns `None` for a solvable program after two variables are exchanged (`C137_order_wrong`); proved for regular programs, in double precision for unimodular data, and for bounded integer programs |
| C138 | the functions of C06-C14, unchanged | one lemma per function, induction over the loops: every number stored in the dictionaries lies in any additive group containing the capacities. Needs no invariant of the algorithms and no assumption on the digraph |
| C139 | the functions of C06-C14, unchanged | the value returned is the smallest capacity of a cut (C12, C13); capacities of one cut are compared in the two networks. False for `ford_fulkerson` when it uses reversed arcs: raising a capacity lowers its answer (`C139_raise_wrong`), removing an arc of capacity 1/2 lowers it by 1 (`C139_remove_wrong`), reversing changes it (`C139_reverse_wrong`) |
| C140 | the functions of C29, C30, C32, C44 and C59, unchanged | what is returned is optimal (C44); the feasible sets and objectives of the two programs are compared (C29, C30), for the prices by duality (C33, C80). For data within the precision of the tolerances; false otherwise: a cost below the tolerance is ignored until a constraint forces its variable up (`C140_tiny_wrong`) |
| C141 | the functions of C15-C22 and C85, unchanged | the object as a finite graph (`inner`, `card_inner`); Mathlib's count of the edges of trees and connected graphs; C20, C21 and C85 on both graphs. After `remove_edge` the edge is still counted, so the characterisation of trees fails (`C141_remove_wrong`) |
| C142 | the functions of C61-C64, unchanged | the keys of the dict an expression evaluates to are the variables in it (`eval_labels`), so the lengths of the arrays are known; the rows are determined by their values at unit points (`list_of_dot`). False when a constant is lost (`C142_constant_wrong`, as in C61) and when a variable cancels, which still gives a column (`C142_cancel_wrong`) |
| C143 | the functions of C59, C60 and C29, unchanged | both programs are of the kinds for which C60 is proved (`Searchable`); then everything follows from comparing their integral points (`found_le`). False for `min` and where C60 is false (`C143_min_wrong`, `C143_knapsack_wrong`) |
| C144 | the functions of C09-C14, unchanged | flow decomposition by induction on the value (`decompose`), the flow of a family of paths (`family_feasible`), C138 for whole flows and the cuts of C10 and C13. False for `ford_fulkerson` in both directions once it uses a reversed arc (`C144_many_wrong`, `C144_few_wrong`) |
| C145 | `toCanonicalForm`, `simplexIteration`, `simplexLoop`, unchanged; the caller's loop `inPlaceLoop` is a specification | uniqueness by testing the equations at the basic solution moved along each column (`C145_unique`); the pivot is the determinant of the next basis (`det_pivot`). False as stated where a determinant is near `1e-10` (`C145_lost_wrong`, `C145_gained_wrong`, `C145_loop_wrong`) |
| C146 | the functions of C35-C43, unchanged | the basis returned passes the test that ended the loop (`simplex_optimal`), and an iteration depends only on the sorted basis (`simplex_at_optimum`). No assumption on the size of the numbers is needed |
| C147 | `hasSpanningTree`, `minimumSpanningTree`, `isTree`, `ctor`, unchanged | a spanning tree of the graph on the vertices (Mathlib), turned into an object by the constructor (`select_facts`, using C98). False: `minimum_spanning_tree` has no body and returns `None` on every connected graph (`C147_none_wrong`); `edges` keeps removed edges (`C147_remove_wrong`) |
| C148 | `simplex`, `simplexIteration`, `isBasisFeasible`, `computeBasicSolution`, `addVariable`, unchanged | the answer is the canonical data of its basis (`simplex_optimal`); each change leaves the basis matrix alone, so the canonical data of the changed program are computed from the old ones and `simplex_at_optimum` / `simplexIteration_spec` give the run |
| C149 | `cut`, `ncut`, `outdegree`, `indegree`, `connections`, `Undirected.cut`, `Undirected.degree`, unchanged | every count is a sum of indicators over the arcs; equality arc by arc |
| C150 | `steepestDescent`, `newtonMethod` over any ordered field, unchanged | induction over the backtracking loop and both main loops: every step, test and error of one run is that of the other; `C150_gradient` ties the rewritten gradient to directional derivatives over the reals |
| C151 | `simplex`, `two_phase_simplex`, `solve`, unchanged | a basic solution is determined by being zero outside the basis; reduced costs; without free variables the conversion to standard equality form is injective on solutions. False for `solve` with free variables (`C151_free_wrong`) |
| C152 | `create_residual`, `set_arc_weight`, unchanged; feasible flows, cuts and walks as the specification | directions in which a flow can be moved form a cone, so a walk gives a larger flow without making it simple; a flow has the value of a cut exactly if nothing can be increased across it. Opposite arcs lose weights (C08) but no arcs, so all of this holds with them too |
| C153 | `newton_method` with rounded sums and an arbitrary solver and norm (`Float/Newton.lean`) | the loop by induction (both directions); a perturbed version of the step of C113, whose errors form a sequence with `e' ≤ 3/4 e + floor`. The residual of `np.linalg.solve` is a hypothesis here and derived in C155 |
| C154 | `Factored`, `InvVal`, `Gaussian`, `fcanon` of C131 and C130, unchanged | The error of a reduced number and of a quotient (`Float/GaussError.lean`) gives the error of the factors and of both triangular systems, hence the residual of every column. Partial pivoting bounds the multipliers by 2 and so, by induction, the growth by 4^n (crude: Wilkinson's bound is 2^(n-1)). A zero pivot gives a vector that the computed factors send to zero, so the matrix is nearly singular. Not covered: `det` (C156), overflow |
| C155 | `GaussianSolver` (`Float/GaussSolve.lean`): every outcome of `gesv` for one right-hand side; `fnewtonMethod` of C153 | The residual of C154 with a right-hand side; the bound on the solution follows from the inverse. The Hessian that a callback returns has a bounded inverse because the exact one has (C113), so C153 applies. The floor is that of the whole ball; a smaller ball has a lower one |
| C156 | `DetVal` and `Factored` (`Float/Gauss.lean`), `fisBasis` (`Float/Simplex.lean`); of the C library `Libm.Accurate` and, new, `Libm.Underflows` are assumed | The product of the pivots is the determinant of a nearby matrix (C154); with a zero pivot the matrix makes a vector small and Cramer's rule bounds the determinant. The errors of the logarithms are bounded by the sum of their absolute values, which the growth of the entries limits. The factor `n! 4^n` in the bound is crude, so that rejection of dependent columns is shown for small matrices only; `C156_singular_wrong` shows that some bound is needed |
| C157 | `fsimplex`, `fsimplexIteration`, `fiterStep` (`Float/Simplex.lean`) against `simplex` (`LP/Simplex.lean`) | Every iteration starts from the original data, so errors do not add up: C154 and C156 bound them at each basis, a matrix near the identity has an inverse near the identity (`Float/NearIdentity.lean`), and a comparison with a margin has the same answer (`Float/Follow.lean`); then induction over the loop. `Safe` states the margins; the bounds of C154 make them generous, but at a basis without costs the reduced costs are not rounded and need no margin (`costs_kept`), and only the entering column, those before it and, at the end, the solution need one. Of an unbounded answer only the point is compared: the code picks the column of the ray by `c > 0` without a tolerance, so rounding may change it |
| C158 | as C157, with the column of the ray (`argmaxPos`, `rayOf`) | False: `np.argmax(updated_lp.c > 0)` has no tolerance and does not skip the basic columns, so a basic reduced cost of `2^-53` instead of zero is taken for the entering column; for `max x1 + x2, 49 x1 - x2 = 49` the certificate is `(1, 0)`, which `verify_unboundedness` rejects (`C158_ray_wrong`). `C158_ray_partial`: right when the first positive reduced cost is preceded by clearly negative ones only |
| C159 | `ftwoPhase`, `fsolve` (`Float/Simplex.lean`) against `twoPhase`, `solve` (`LP/TwoPhase.lean`) | C157 for the auxiliary program and for the program itself. The value between the phases: components outside the basis are exactly zero (`Float/OffBasis.lean`), so at a basis of the program itself the value is exactly zero; otherwise it must be clearly positive (`Decided`). Not covered: a first phase that ends with an artificial column in the basis at level zero (`completeBasis`) |
| C160 | `fsolve`, `fsolveSef`, `freverseSol` against `solve` | C157 or C159 on the converted program, which is the exact one because the data are only negated and copied (`ftoSef_eq`). On the way back every free variable is one rounded difference: the recorded positions are at least two apart, so no entry is merged twice (`concatOf_spaced`, `Float/ReverseNear.lean`). The exact solution is bounded because the inverses are (`simplex_bounded`). The margins are `Settled`; as in C159 a first phase that ends with an artificial column at level zero is not covered |
| C161 | `fsimplex`, `ftwoPhase`, `fsolve` against the program itself (`Optimal`, `Feas`, `Unbounded`) | C157, C159 and C160 compare with the exact method, C38 to C45 say what its answers mean and that it ends on programs clear of the tolerances (`Exact`); the two are combined, so that the exact method no longer appears in the conclusion. Its runs still appear in the hypotheses (`Safe`, `Decided`, `Settled`). The exceptions of C45 (`C45_tried_wrong`, `C45_redundant_wrong`) stay hypotheses of `C161_finds` |
| C162 | `foptimalValue` (`Float/Value.lean`), `fevaluate` against `optimalValue`, `Optimal` and `objVal` | `evaluate` is one rounded scalar product and one rounded sum at the vector of C159 or C160, so the error is that of the vector times the costs, plus the rounding errors of the product (`near_dot`) and of the sum; C44 says that the exact vector is optimal, and its entries are bounded because the inverses are (`solve_sef_bounded`, `solve_bounded`) |

<!-- generated -->

## Status per property

Generated from `MANIFEST.json` by `tools/design.py`.

* **C01** Comparator sign trichotomy and complementary operators — *proved*. over exact rationals with the code's tolerances
* **C02** Comparator agrees with exact order outside the tolerance band — *proved*. 
* **C03** is_integer recognises exactly the numbers within 1e-10 of an integer — *proved*. 
* **C04** Union-find refines the equivalence relation generated by the unions — *proved*. all histories of calls, including failing ones
* **C05** Union-find never loops and stays shallow — *proved*. recursion depth at most log2 n + 1
* **C06** Directed graph stays well formed — *partial*. Invariant for all histories of calls that do not fail half-way; add_arc with bad demands and remove_arc with multi-character names break it (C06_add_arc_error_corrupts, C06_remove_arc_dangling).
* **C07** cut / ncut / degrees of a digraph — *partial*. Exact for node collections; for a single str argument only one-character names (C07_name_wrong is the counterexample).
* **C08** create_residual builds the residual network — *partial*. Exact without opposite arcs; C08_opposite_wrong is the counterexample with opposite arcs.
* **C09** ford_fulkerson returns a feasible flow — *partial*. False in general (C09_wrong, C09_opposite_wrong, C09_name_wrong). Keys, conservation and value proved for every digraph; bounds for runs that use no reversed arc, which are all runs on digraphs with the graph-level condition OneWay (C11_one_way_partial; in-trees, out-trees, series-parallel).
* **C10** ford_fulkerson returns a maximum flow — *partial*. False in general in both directions (C10_too_large, C10_too_small). Proved for runs that use no reversed arc, which are all runs on OneWay digraphs (C11_one_way_partial).
* **C11** ford_fulkerson terminates and raises only on bad input — *partial*. False in general: C11_endless_wrong gives a digraph with capacities at most 3 on which no amount of fuel suffices. Error behaviour proved for every digraph; on digraphs where no route from source to sink can go against a useful arc (OneWay: in-trees, out-trees, series-parallel) the loop runs at most once per arc and once more, and returns a maximum flow.
* **C12** preflow_push returns a feasible flow — *partial*. Proved without opposite arcs and with one-character names; false otherwise (C12_opposite_wrong, C12_name_wrong).
* **C13** preflow_push returns a maximum flow and agrees with ford_fulkerson — *partial*. Same hypotheses as C12; agreement with ford_fulkerson for runs without reversed arcs, and on every OneWay digraph (C13_one_way_partial); C13_name_wrong refutes multi-character names.
* **C14** preflow_push terminates without internal error — *partial*. Termination proved under C12's hypotheses with at least one inner node; UnboundLocalError with only source and sink is proved (C14_two_nodes_fail). False with opposite arcs: an endless run on four arcs (C14_endless_wrong), KeyError on three (C14_crash_wrong); KeyError also with longer names (C14_name_wrong).
* **C15** Undirected graph stays well formed — *partial*. Proved for all histories without remove_edge; with it adjacency and has_edge disagree (witness); weak invariant and raise-leaves-unchanged hold for all histories.
* **C16** Edge identity does not depend on orientation — *proved*. Any graph state, either orientation.
* **C17** remove_edge removes the edge — *partial*. Only the adjacency is removed; for every graph has_edge stays True and re-adding raises (proved).
* **C18** Undirected cut and degree — *partial*. Proved for collections and one-character names; longer single names are read as sets of characters (witness).
* **C19** bfs visits exactly the reachable vertices, once each, nearest first — *proved*. All graphs reachable by the API, all ordering keys, methods bfs and dfs; rng is C26.
* **C20** is_connected decides connectivity — *proved*. All histories.
* **C21** is_tree decides being a tree — *proved*. All histories and all set iteration orders.
* **C22** is_cyclic decides containing a cycle — *partial*. Terminates, True on every cyclic graph; but True on every graph with an edge (proved).
* **C23** Graph copy is equal and independent — *partial*. Equal copy, independent edges/vertices for all histories; adjacency sets are shared (witness), independence proved when no old vertex gets or loses a neighbour.
* **C24** Max stable set formulation is exact — *partial*. Exact for all graphs with an edge; every edgeless nonempty graph raises ValueError (proved).
* **C25** shortest_path returns a shortest path — *partial*. Only start = end works; otherwise IndexError/TypeError for every graph (proved).
* **C26** partition, formulate_shortest_path and random traversal deliver what they document — *partial*. partition, formulate_shortest_path and rng traversal fail on every nonempty graph (proved).
* **C27** LinearProgram constructor validation — *proved*. 
* **C28** Variable sign classes partition the variables — *partial*. Holds after any sequence of successful calls; false after add_variable(in_place=True) raises on a column of the wrong length (C28_failed_call_wrong).
* **C29** add_constraint intersects the feasible set — *proved*. 
* **C30** add_variable extends the program — *proved*. 
* **C31** is_feasible / evaluate / value_of — *proved*. 
* **C32** to_sef preserves the program — *partial*. Proved incl. onto; objective agrees except for minimisations with z != 0, where the code keeps z unnegated (C32_min_constant_wrong).
* **C33** Weak duality between a program and dual() — *partial*. dual() drops z: holds with z added back, as stated only for z=0; counterexample C33_constant_wrong.
* **C34** dual is an involution — *partial*. Everything but z, which becomes 0; counterexample C34_constant_wrong.
* **C35** Basis test and basic solutions — *partial*. is_basis, is_basis_feasible, is_basic_solution in full; compute_basic_solution for increasing lists, wrong for unsorted ones (counterexample)
* **C36** to_canonical_form preserves the program — *proved*. all SEF programs, bases in any order, all points
* **C37** A simplex iteration moves to an adjacent basis without losing ground — *partial*. proved for programs clear of the tolerances (Exact; in particular integer data with bounded subdeterminants); counterexample with a near-tie in the ratio test. C37_data_partial has conditions on the data only (bounded denominators and subdeterminants).
* **C38** simplex optimal answers are optimal — *partial*. any starting basis: optimal up to tolerance 1e-10 unconditionally; exact under Exact or when the answer itself is clear of the tolerance; counterexample with a tiny cost
* **C39** simplex unbounded answers are unbounded — *partial*. any start: A x = b, A d = 0, c.d > 0 exactly; full claim under Exact from a feasible basis; counterexample with a tiny pivot
* **C40** simplex terminates (Bland's rule) — *partial*. Bland's rule proved to terminate within n^m iterations under Exact; counterexample: an 8-step run that cycles forever because of the tolerance in the ratio test. C40_data_partial: total correctness from conditions on the data only.
* **C41** simplex leaves the program unchanged — *partial*. Proved: simplex and two_phase_simplex leave the program unchanged when they return, and in all exits when no right-hand side is negative; in every exit feasible set and objective are kept. As stated false: exceptions leave rows negated (C41_exception_wrong, C41_two_phase_wrong).
* **C42** two_phase_simplex answers are correct — *partial*. Proved for programs that stay clear of the 1e-10 tolerance in both phases (Exact; implied by a determinant bound for integer data), plus a version with explicit error terms for all programs. As stated false for tiny numbers (C42_tiny_wrong). C42_data_partial: conditions on the data only.
* **C43** two_phase_simplex always answers — *partial*. Proved for Exact programs: an answer is returned exactly if the program is infeasible or has independent rows (termination by Bland's rule, completeness of the basis search). As stated false on redundant rows (C43_redundant_wrong, C43_dependent_wrong).
* **C44** solve is sound — *partial*. Proved for every well-formed program whose SEF is Exact. As stated false for tiny numbers (C44_tiny_wrong). C44_data_partial and C44_value_data_partial: conditions on the data only (bounded denominators and subdeterminants).
* **C45** solve is complete — *partial*. Proved for Exact SEF with independent rows unless the columns tried first form an infeasible basis; independence proved for programs without equations, and with equations it is independence of the equations (C109_partial). As stated false (C45_tried_wrong: min x s.t. x>=1 returns None; C45_redundant_wrong; C109_loops_wrong: a program on which solve never returns). C45_data_partial and C45_value_data_partial: conditions on the data only, every shape if the origin is feasible.
* **C46** auxiliary program decides feasibility — *proved*. Full statement, for every SEF program with at least one row.
* **C47** verify_infeasibility is sound — *partial*. Sound up to the 1e-10 tolerance and exactly when no entry of yA is in (-1e-10,0); counterexample C47_tolerance_wrong.
* **C48** verify_unboundedness is sound — *partial*. Sound when the two vectors are exact; counterexample within tolerance C48_tolerance_wrong.
* **C49** verify_optimality gives an upper bound — *partial*. Bound up to 1e-10*sum(x), exact when no reduced cost is in (0,1e-10); counterexample C49_tolerance_wrong.
* **C50** Certificates produced by the solver pass its verifiers — *partial*. Optimal certificates: proved without assumption. Infeasible and unbounded certificates: proved for Exact programs. As stated false (C50_tiny_wrong).
* **C51** in_place=False and copy() isolate the receiver — *partial*. Proved for copy and for every method called without in_place, against arbitrary interleaved later effects. As stated false for dual, whose arrays are shared (C51_dual_wrong); C51_dual_partial covers the later operations that do no harm.
* **C52** Strong duality at the simplex optimum — *partial*. dual feasibility and equal value up to the constant z, which dual() drops (counterexample). C52_data_partial: conditions on the data only.
* **C53** is_canonical_form_for recognises canonical forms — *partial*. As stated false: is_canonical_form_for never returns True for any program (C53_canonical_never_wrong); is_feasible_basic_solution always raises unless n = 1 (C53_feasible_raises_wrong). C53_feasible_partial covers the remaining one-variable case.
* **C54** clear_steps and == terminate with the documented result — *partial*. As stated false: clear_steps() recurses without end, == raises for matrices with two or more entries. The in-place form and 1x1 programs are proved correct.
* **C55** to_rref computes the reduced row echelon form — *partial*. Proved for every matrix with a column: termination, row equivalence and reduced echelon form with leading entries within relative 1e-9 of one; is_in_rref characterised exactly. As stated false (C55_tolerance_wrong, C55_stairs_wrong).
* **C56** random programs are valid — *proved*. Full statement for every outcome of the generator, with the bound on the entries.
* **C57** graph_polyhedron plots exactly the vertices of the region — *partial*. Proved for integer data without oblique parallel rows. As stated false for fractional data, parallel rows and empty regions (C57_fraction_wrong, C57_parallel_wrong, C57_exit_wrong).
* **C58** relax keeps the program and drops integrality only — *proved*. relax of a constructed or well-formed integer program is the same linear program
* **C59** branch_and_bound answers are feasible and integral — *partial*. integral up to the tolerance always; feasible and exactly integral without nonpositive variables when the data keep clear of the tolerances (C59_bounded_partial and, for two variables per row and any size, C59_two_partial: conditions on the data only, fractions allowed); false for nonpositive variables, math-indexed integral lists and near-integers
* **C60** branch_and_bound answers are optimal — *partial*. max with nonnegative variables: best integral point, and None only if there is none (C60_bounded_partial, C60_two_partial: total correctness on bounded programs from conditions on the data, fractions allowed, more rows than columns or equally many with a feasible origin); either objective and all sign classes for totally unimodular data (C60_unimodular_partial); false for min, free variables, and where solve fails (C60_knapsack_wrong: a knapsack with three items gets a worse vector)
* **C61** Equation arithmetic means what it says — *partial*. Proved: linear part exact for every expression; full value for expressions that never negate, scale or put on the right of - an equation carrying a constant (Plain) and use each name once. Missing: the rest is false (C61_neg_wrong, C61_scale_wrong, C61_right_wrong).
* **C62** Comparisons of equations build the stated constraint — *partial*. Proved for all equations, numbers and expressions on either side except a bare Variable on the right of an equation/Variable, which raises (C62_variable_wrong), and comparisons without terms (C62_no_terms_wrong).
* **C63** Operators do not change their operands — *partial*. Proved: the operators create or reuse exactly one equation and all others keep their meaning; + leaves the right operand alone. False in general: +, -, unary -, * change an operand in place (C63_*_wrong).
* **C64** minimize/maximize(...).subject_to(...).where(...) builds the stated program — *partial*. Proved for every accepted formulation (feasible set, objective, free variables), plus exact acceptance conditions. Missing: meaningful formulations that are rejected (C64_*_wrong), positive indices beyond the number of variables.
* **C65** where rejects contradictory sign conditions and is atomic — *partial*. Acceptance characterised exactly over all histories (C65_where, C65_all); atomicity holds only when the program was already compiled (C65_atomic_partial) and is false otherwise (C65_atomic_wrong, C65_stuck_wrong).
* **C66** Integer formulations produce integer programs — *partial*. False for every formulation (C66_wrong): compiled programs are always plain linear programs; C66_partial: they equal the linear formulation.
* **C67** GraphParser.parse inverts printing — *proved*. All four formats, every nonempty edge list, any white space between edges; \w, \s, \d are arbitrary Unicode tables agreeing with Python on ASCII; float() read exactly (no rounding).
* **C68** GraphParser accepts exactly the four formats — *partial*. Exact for strings not ending in a newline (C68_exact_partial); with a newline at the end every valid string is also accepted though in no format (C68_newline_wrong).
* **C69** LinearParser.parse inverts printing — *partial*. Round trip proved for every term list with distinct indices >= 1 and every size; exact description of what raises. False for index 0, | as separator and a trailing newline (C69_*_wrong).
* **C70** subscript is a digit-wise renaming — *proved*. Digit-wise, length preserving, injective on strings without subscript digits.
* **C71** steepest_descent never increases the objective and stops at a near-stationary point — *partial*. Sufficient decrease of every step and the stopping rule hold for all callbacks and parameters; the objective does not increase for alpha, c, p >= 0 (false for c < 0, C71_negative_wrong). Exact arithmetic; with rounding C100.
* **C72** newton_method solves quadratics in one step — *proved*. Over every ordered field, exact linear solve; max_iteration >= 1. C72_minimiser: convex quadratics are minimised.
* **C73** Maximisation returns a maximiser — *partial*. False: the negated function is overwritten in the constructor and the result is negated (C73_newton_wrong for every quadratic with stationary point not at 0, C73_descent_wrong). Proved: the result for max is the opposite of the one for min.
* **C74** branch_and_bound terminates on bounded programs — *partial*. False: branch_and_bound never returns on a program with four inequalities in four variables bounded by 4 (C74_loops_wrong), and raises ValueError on a bounded program with dependent equations (C74_raises_wrong). Proved for bounded programs with nonnegative variables and more inequalities than variables, or equally many and a feasible origin (any size with two variables per row).
* **C75** parse_multiple parses every expression — *partial*. Raises exactly when parse raises; the rows are not returned (C75_wrong: always None).
* **C76** The starting point is not modified — *partial*. False: x += changes the caller's array in every run (C76_descent_wrong, C76_newton_wrong). Holds with no iterations or zero gradient at the start.
* **C77** A list as starting point means the same as an array — *partial*. False: every iteration appends to the list (C77_list_wrong).
* **C78** Backtracking terminates — *proved*. Over the real numbers; for doubles see C101.
* **C79** steepest_descent reaches the tolerance — *proved*. Over every archimedean ordered field.
* **C80** dual() has the same optimal value — *partial*. Strong duality proved for every well-formed program (Farkas' lemma over the rationals, any mix of operators and signs, max and min); as stated for z = 0. With z != 0 dual() drops the constant, so the values differ (C80_constant_wrong).
* **C81** cs_conditions lists the complementary slackness conditions — *proved*. For every program, every number format; optimality of both points is equivalent to the listed conditions (uses strong duality).
* **C82** Certificates are complete — *proved*. Exact certificates exist and pass the tolerant checks.
* **C83** is_solution_optimal decides optimality — *partial*. False: the method has no return statement (C83_wrong, for all programs); only the length check holds.
* **C84** IntegerProgram.is_feasible respects integrality — *partial*. Feasible points are accepted; fractional points too (C84_wrong).
* **C85** Maximum stable sets are found — *partial*. False for weights that differ by less than the tolerance (C85_tiny_wrong) and for edgeless graphs (C24_edgeless_wrong). Proved for every graph with an edge and vertex weights with a common denominator of at most 5*10^9.
* **C86** Inherited operations of IntegerProgram respect integrality — *partial*. False: the inherited solve and optimal_value answer for the relaxation (C86_value_wrong) and copy returns a LinearProgram (C86_copy_wrong). The value is a bound; it is right for totally unimodular rows with integer right-hand sides.
* **C87** Printed numbers are right — *proved*. Exact decimal rounding and logarithm (see the trusted base).
* **C88** The text of a linear program is that program — *proved*. A program without constraints raises UnboundLocalError (C88_norows).
* **C89** The text of an integer program shows which variables are integral — *partial*. False: the text does not depend on the listed integral variables (C89_wrong), and the words "x ∈ Z" are glued to the line before (C89_run_on_wrong).
* **C90** Recording steps never changes an answer — *proved*. every program with a constraint; without one both raise, but different exceptions (C90_norows)
* **C91** show_steps decides whether steps are recorded — *partial*. Proved for every method but solve, which ignores the flag: it records for a program in SEF also with show_steps=False (C91_wrong) and nothing for others also with True (C91_solve).
* **C92** The recorded steps tell the truth — *partial*. is_basic_solution (answer and columns) and simplex in full; is_feasible in full for SEF programs. As stated false: for other programs a negative answer is not recorded (C92_wrong), and the text of is_basic_solution names the basis zero-based (C92_basis_wrong).
* **C93** Step texts are the templates with the arguments filled in — *proved*. arguments that can be printed
* **C94** Solving a formulation solves the problem as written — *partial*. Soundness for simple expressions and data within the precision of the tolerances (C94_sound_partial); completeness without == unless the origin violates a comparison and rows equal columns (false then: C94_tried_wrong); with equations, exactly what solve answers (best point, None, or ValueError for dependent equations) for regular compiled programs (C94_exact_partial).
* **C95** A program is independent of the arrays it was built from — *partial*. full for lists and integer arrays; float arrays are shared: safe methods and returning simplex leave them alone, others do not (C95_wrong, C95_raise_wrong, C95_caller_wrong, C95_same_array_wrong)
* **C96** What a formulation compiles to does not depend on methods called on it before — *partial*. for methods that do not write into the arrays; false for to_sef with negative variables (C96_wrong, C96_objective_wrong)
* **C97** The text of an undirected graph determines its vertices and neighbours — *proved*. For names without ':', '-' and line breaks, as stated; C97_dash_wrong shows two graphs with '-' in names and the same text.
* **C98** An undirected graph contains exactly what it was told to contain — *proved*. Constructor (C98_ctor), histories of the other calls (C98_history), from text (C98_text).
* **C99** A directed graph contains exactly what it was told to contain — *partial*. Constructor fully (C99_ctor). Histories (C99_history_partial) for demands absent, falsy or a tuple of at least two numbers, and remove_nodes with one-character names; for other arguments the claim is false, see C06_add_arc_error_corrupts and C06_remove_arc_dangling.
* **C100** steepest_descent never makes things worse, also in floating point — *proved*. Every rounding, every order of summation; norm under NormNear.
* **C101** steepest_descent always returns in double arithmetic — *proved*. Doubles without overflow; C101_larger_factor shows that the bound on p is needed.
* **C102** Comparator keeps its laws in floating point — *proved*. Every rounding with relative error at most 1e-6; is_integer for doubles.
* **C103** is_feasible and evaluate in floating point — *proved*. Explicit rounding terms; exact for integers of moderate size.
* **C104** Certificate checks in floating point — *proved*. Explicit rounding terms; exact for integers of moderate size.
* **C105** Maximum flow in floating point — *partial*. False in general: a KeyError on capacities 0.1, 0.2, 0.3, 0.5 (C105_crash_wrong) and a capacity exceeded by one unit in the last place (C105_capacity_wrong). Proved: exact maximum flow when the capacities are multiples of a power of two with a total of at most 53 bits; nonnegativity and the one-unit bound always.
* **C106** Building expressions with names and augmented assignment — *partial*. False in general because equations are changed in place: total += e changes e, e -= f changes f, constants are not scaled, two names share one equation (C106_*_wrong). Proved: n op= e is n = n op e for all states; every tidy program means what algebra says; sums built in a loop.
* **C107** The printed formulation is the problem that was written — *partial*. False for numbers with more than three decimals, which are rounded: two different formulations print the same text (C107_wrong). Proved: exact when the numbers are printed exactly, otherwise up to the accuracy of C87; printing changes nothing that later calls see.
* **C108** What is read from a program is a snapshot — *partial*. False in general: A, b, c and steps are the program's own objects, so writing into p.A changes p, to_sef changes what was read before, the log grows (C108_write_wrong, C108_method_wrong, C108_steps_wrong); g.graph shares its sets (C108_graph_wrong). Proved for every history of methods that do not write into the arrays, with writes into the lists read.
* **C109** solve returns, and None means there is no optimal solution — *partial*. False: None for min x s.t. x >= 1 (C109_none_wrong), ValueError for dependent equations, and solve loops for ever on a program with four inequalities in four variables that has an optimal solution (C109_loops_wrong). Proved: exactly what solve answers on programs in SEF, programs whose variables, free variables and inequalities are not twice as many as rows, and programs without equations whose origin is feasible, for data with bounded denominators and subdeterminants: an optimal solution, None, or ValueError (C109_partial).
* **C110** The demands argument of add_arc — *partial*. False as documented: a number for the one new end raises TypeError and leaves an arc without its end node, on every digraph (C110_number_wrong); a tuple of one number leaves a half-added arc (C110_short_wrong). Proved for all digraphs, arcs and demands: the exception, arcs and nodes after the call (C110_outcome), and when it succeeds (C110_partial).
* **C111** Removing dependent rows keeps the solutions and leaves independent rows — *partial*. False as stated, in three ways: a nonzero row beginning with zero is never removed (C111_leading_zero_wrong, for every such system), a row that is the sum of two others stays (C111_three_rows_wrong), and of two independent rows with almost equal quotients one is removed, which adds solutions (C111_tolerance_wrong). Proved: the result is a sublist of the rows without zero rows and loses no solution, for all inputs (C111_rows); it has exactly the same solutions if no two compared quotients are close without being equal (C111_same_solutions_partial), in particular for whole numbers up to 30000 (C111_integer_partial); no later row is a multiple of an earlier one with nonzero first entry (C111_no_multiple_partial). The method is private and no other method calls it yet.
* **C112** The steps, stopping rule and errors of newton_method — *proved*. Over every ordered field, exact linear solve. C112_start: the norm at the start is not looked at, so a stationary start with singular Hessian raises.
* **C113** newton_method converges quadratically near a nondegenerate stationary point — *proved*. Over the real numbers, exact arithmetic. C113_quadratic gives the explicit rate on a ball with explicit constants, C113_local the textbook form.
* **C114** newton_method for a minimisation does not increase the objective — *partial*. False: on every negative definite quadratic newton_method for min returns the maximiser (C114_concave_wrong), and it overshoots on convex functions (C114_convex_wrong). Proved for convex quadratics (C114_quadratic_partial).
* **C115** An array of integers as starting point means the same as an array of floats — *partial*. False: newton_method never makes a step on an array of integers (C115_newton_wrong, TypeError or LinAlgError), steepest_descent raises TypeError at the first step that is not an array of integers (C115_float_step_wrong), so for x^2 with the default parameters from every start but 0 (C115_square_wrong). Proved: exactly when it returns, and that it then returns the same point (C115_integer_partial). Uses NumPy's rule that in-place addition of floats to integers raises.
* **C116** The minimum of a strongly convex function is found — *proved*. Over every ordered field (archimedean for C116_total), exact arithmetic. Strong convexity and smoothness as inequalities against touching quadratics.
* **C117** steepest_descent on convex functions — *proved*. Over every ordered field, exact arithmetic; C117_distance needs no smoothness.
* **C118** in_place=True and in_place=False compute the same program — *partial*. calls with in_place=False, the constructor, copy and dual: proved for every program; calls in place: for programs whose attributes are different objects (kept by every call), false otherwise (C118_shared_wrong)
* **C119** Answers that pass the checks are optimal in double arithmetic — *proved*. in the floating-point model of the checks; overflow not modelled
* **C120** Edge hash identifies an edge — *partial*. different edges can share a hash when a name contains '-': a-b,c and a,b-c
* **C121** Rounding in formulation expressions — *proved*. C121_errors, C121_linear, C121_value, C121_int, C121_whole; C121_exact_wrong shows that the size condition of C121_whole is needed
* **C122** Running time of preflow_push — *partial*. polynomial bound proved for digraphs without opposite arcs, one-character names and at least one inner node; the claim is false otherwise (C14_endless_wrong, C13_name_wrong, C14_two_nodes_fail)
* **C123** The names of the nodes do not matter — *partial*. proved for letter-by-letter renamings and for one-letter names, and for any renaming except for the reported values and the removal of isolated nodes; false for other names (C123_value_wrong holds for every digraph without one-letter names)
* **C124** The arrays of a formulation in double precision — *proved*. formulations on Python integers exact up to size 2^51, rows on mixed numbers within a relative error; the size bound is necessary
* **C125** Products of variables are not dropped silently — *partial*. False: e + f*g with variables in all three is accepted and means e (C125_dropped_wrong, C125_program_wrong). Proved: what every expression evaluates to (C125_shape), which terms are kept (C125_kept_partial), and rejection of products standing alone (C125_alone_partial).
* **C126** Conversion to standard equality form and back does not round — *proved*. Signed zeros, infinities and NaN are not modelled.
* **C127** ford_fulkerson in floating point — *partial*. False for capacities with many bits (C127_negative_wrong, C127_capacity_wrong) and, already without rounding, for runs that use a reversed arc. The exceptions (C127_errors) are settled for every digraph.
* **C128** Checked answers to a formulation written with integers — *proved*. end-to-end in binary64 for integer formulations; the vectors s and y may come from anywhere
* **C129** to_rref in double precision — *partial*. Exact shape of the result of to_rref in double precision, and that it returns; without the proviso on entries near one, and for the equations, false (C129_residue_wrong, C129_rank_wrong)
* **C130** solve on totally unimodular programs in double precision — *proved*. simplex, two_phase_simplex and solve in double precision equal exact arithmetic on totally unimodular integer programs, given that np.linalg.inv and det are exact on totally unimodular matrices
* **C131** Linear algebra of the solver in double precision — *proved*. det and inv by Gaussian elimination are exact on totally unimodular matrices; is_basis, simplex, two_phase_simplex and solve follow
* **C132** Integer programs in double precision — *proved*. exact without rounding; near-integers for every program; totally unimodular programs give best integral points
* **C133** Stable sets of bipartite graphs in double precision — *proved*. bipartite graphs with integer weights, every elimination order
* **C134** solve in double precision with fractional optima — *proved*. inv, is_basis, simplex, two_phase_simplex and solve in double precision equal exact arithmetic on programs whose subdeterminants are powers of two
* **C135** branch_and_bound in double precision with branching — *proved*. Under the size conditions stated. Missing nothing of the statement; programs whose subdeterminants are not powers of two (thirds, say) are outside it, since their intermediate numbers are rounded.
* **C136** The names of the vertices do not matter (undirected graphs) — *partial*. Proved for construction, every history, the questions about the whole graph, cuts of collections, traversal up to the order of equally distant vertices, and stable sets (under the hypotheses of C85). The full statement is false: a cut or degree asked for by a name of several letters (C136_name_wrong), the order of a traversal and the exception of shortest_path (C136_order_wrong) depend on the names. By-name cuts hold for renamings that replace letters (C136_name_partial).
* **C137** How a linear program is written does not matter — *partial*. false for programs that are not regular: after exchanging two variables solve returns None for a program it solved before (C137_order_wrong); proved for regular programs, unimodular data in double precision and bounded integer programs
* **C138** Whole capacities give whole flows — *proved*. every digraph and both algorithms, in exact arithmetic
* **C139** How the maximum flow changes with the network — *partial*. false for ford_fulkerson when it uses reversed arcs (C139_raise_wrong, C139_remove_wrong, C139_reverse_wrong); proved for preflow_push and for runs of ford_fulkerson without reversed arcs, on digraphs without opposite arcs and with one-letter names
* **C140** How the optimum changes with the program — *partial*. for data within the precision of the tolerances (C140_*_partial); false otherwise (C140_tiny_wrong)
* **C141** Counting edges, and changes of undirected graphs — *partial*. the count for trees is false after remove_edge (C141_remove_wrong); stable sets under the conditions of C85
* **C142** The arrays of a formulation are what was written, however it was written — *partial*. proved for texts whose constants survive (Simple); witnesses that a lost constant and a cancelled variable change the arrays
* **C143** How the answer of branch_and_bound changes with the integer program — *partial*. proved for maximisation programs of the kinds of C60_bounded_partial and C60_two_partial; witnesses for min and for a knapsack
* **C144** Maximum flows count paths — *partial*. proved on digraphs without opposite arcs and long names (as C09-C14); witnesses that ford_fulkerson after a reversed arc returns too many and too few
* **C145** Canonical forms do not depend on the path to them — *partial*. Uniqueness, idempotence, order and the next basis in full; path independence when both calls accept the basis; the in-place loop whenever simplex's loop ends. Witnesses where the 1e-10 test on determinants refuses a basis on one side only.
* **C146** Answers of simplex can be reproduced from the basis — *proved*. Restart, consistency of the basis queries and the one-iteration criterion, for every program in SEF.
* **C147** Spanning trees — *partial*. has_spanning_tree and the ValueError of minimum_spanning_tree without remove_edge; what minimum_spanning_tree should return exists but None is returned, for every connected graph.
* **C148** Ranging: what remains of an answer of simplex when the data change — *proved*. 
* **C149** Laws of cuts and degrees — *proved*. 
* **C150** How a function to minimise is written does not matter — *proved*. Exact arithmetic. C150_maximum_wrong: for 'max' the negated answer moves the wrong way under a shift.
* **C151** Answers are vertices, and when they are the only ones — *partial*. Everything proved except solve with free variables, where the claim is false: solve returns the middle of a segment (C151_free_wrong).
* **C152** Residual networks certify maximum flows and show the minimum cuts — *proved*. Holds with opposite arcs too: create_residual then loses weights (C08) but no arcs. Flows returned by the algorithms are covered under the hypotheses of C12 and C13.
* **C153** Newton's method in floating point — *proved*. steps, stopping rule and errors for any solver and rounding; local convergence down to a floor given by the errors of callbacks, solver and rounding
* **C154** Accuracy of inverses and canonical forms in double precision — *proved*. Residual, failure and accuracy of np.linalg.inv for any rounding; explicit constants in double precision; entries of the canonical form
* **C155** Newton's method with Gaussian elimination in double precision — *proved*. np.linalg.solve and Newton's method with it in double precision
* **C156** Determinants and is_basis in double precision — *proved*. Error of det and agreement of is_basis with exact arithmetic within explicit bounds on size and entries; C156_singular_wrong shows that dependent columns with large entries are accepted
* **C157** simplex in double precision follows the exact method — *proved*. same bases and answer as the exact method when every decision keeps its margin; accuracy of the solution and certificate
* **C158** Certificates of unboundedness in double precision — *partial*. false as stated (C158_ray_wrong: a certificate that verify_unboundedness rejects); holds with the margins of C157 when clearly negative reduced costs precede the entering column
* **C159** Two-phase simplex in double precision decides as the exact method — *proved*. margins as hypotheses (Safe, Decided)
* **C160** solve in double precision on programs in any form — *proved*. margins as hypotheses (Settled)
* **C161** Answers of solve in double precision are right about the program — *proved*. under the margins of C159 and C160 and for programs clear of the tolerances (Exact); the exceptions of C45 are hypotheses of C161_finds
* **C162** optimal_value in double precision is the optimal value up to rounding — *proved*. under the margins of C159 and C160 and for programs clear of the tolerances (Exact); the exceptions of C45 are hypotheses of C162_finds

## Disagreements between the code and the properties

Each item is a theorem about the modelled code. The property stays in `properties.jsonl` as it
should hold; the theorem says how the code falls short.

* `C06_add_arc_error_corrupts` (`lean/Verif/Props/Directed.lean`): C06 is false as stated: `DirectedGraph().add_arc(("a","b"), 1, demands=5)` raises `TypeError` after having inserted the arc, so the digraph changes and has an arc without nodes.
* `C06_remove_arc_dangling` (`lean/Verif/Props/Directed.lean`): C06 is false as stated: with names longer than one character, `remove_arc(("ab","cd"), remove_nodes=True)` deletes node `ab` although arc `("ab","ef")` is still there.
* `C07_name_wrong` (`lean/Verif/Props/Directed.lean`): C07 is false as stated: for a two-character node name the cut of the node is computed as empty although an arc leaves it.
* `C08_opposite_wrong` (`lean/Verif/Props/Directed.lean`): C08 is false for opposite arcs: with flow 1 on `s → t`, the arc `t → s` still has 4 units of spare capacity and 1 unit of `s → t` can be cancelled, yet the residual network built by the code gives `t → s` the weight 4 only, losing the cancellable unit.
* `C09_name_wrong` (`lean/Verif/Props/MaxFlow.lean`): C09 is false for multi-character source names: the returned value is not the net flow.
* `C09_opposite_wrong` (`lean/Verif/Props/MaxFlow.lean`): C09 is false with opposite arcs as well.
* `C09_wrong` (`lean/Verif/Props/MaxFlow.lean`): C09 is false: a digraph with nonnegative capacities and no opposite arcs for which the returned flow is negative on an arc.
* `C105_capacity_wrong` (`lean/Verif/Props/FloatFlow.lean`): C105 fails: all capacities are doubles, and the flow returned for `overGraph` sends more through the arc `(u, t)` than its capacity, is not conserved at `u`, and its value is above the maximum.
* `C105_crash_wrong` (`lean/Verif/Props/FloatFlow.lean`): C105 fails: on a digraph with capacities 0.5, 0.2, 0.1 and 0.3 the call raises `KeyError`. The excess 0.1 + 0.2 = 0.30000000000000004 of the dead end `a` is not used up when 0.1 and 0.2 are sent back, and then there is no residual arc left at `a`. In exact arithmetic the call returns 0.3.
* `C106_minus_wrong` (`lean/Verif/Props/Statement.lean`): C106 is false: `e -= f` changes `f`.
* `C106_times_wrong` (`lean/Verif/Props/Statement.lean`): C106 is false: after `e += 3; e *= 2` the constant of `e` is `3`.
* `C106_total_wrong` (`lean/Verif/Props/Statement.lean`): C106 is false: `total = 0; total += e; total += f` changes `e` (so does `sum([e, f])`).
* `C106_two_names_wrong` (`lean/Verif/Props/Statement.lean`): C106 is false: after `g = e`, the statement `g += f` changes `e` too.
* `C107_wrong` (`lean/Verif/Props/FormulationText.lean`): C107 is false for numbers with more decimals: `maximize(x[1]).subject_to(x[1] <= 1.0001)` and `maximize(x[1]).subject_to(x[1] <= 1.0002)` print the same text.
* `C108_graph_wrong` (`lean/Verif/Props/Getters.lean`): C108 is false for graphs: `g.graph["a"].add("c")` makes `g.bfs("a")` raise `KeyError`.
* `C108_method_wrong` (`lean/Verif/Props/Getters.lean`): C108 is false: `to_sef(in_place=True)` changes what was read as `p.A`.
* `C108_steps_wrong` (`lean/Verif/Props/Getters.lean`): C108 is false: the next step is added to what was read as `p.steps`.
* `C108_write_wrong` (`lean/Verif/Props/Getters.lean`): C108 is false: after `A = p.A` writing into `A` changes the program.
* `C109_loops_wrong` (`lean/Verif/Props/SolveExact.lean`): C109 and C45 fail for a program with four inequalities in four nonnegative variables: it has an optimal solution, but however long one waits `solve` does not return. The slack columns are a basis that is not feasible; `simplex` starts from it nevertheless and repeats seven bases for ever.
* `C109_none_wrong` (`lean/Verif/Props/SolveExact.lean`): C109 as stated is false: `None` for a program with an optimal solution.
* `C10_too_large` (`lean/Verif/Props/MaxFlow.lean`): C10 is false in both directions; first, the returned value exceeds every feasible flow value.
* `C10_too_small` (`lean/Verif/Props/MaxFlow.lean`): C10 is false, second direction: the returned value 2 is below a feasible flow of value 3.
* `C110_number_wrong` (`lean/Verif/Props/DirectedDemands.lean`): C110 is false as stated, on every digraph: the documented single number for the one new end raises `TypeError`, and leaves an arc one end of which is not a node.
* `C110_short_wrong` (`lean/Verif/Props/DirectedDemands.lean`): C110 is false as stated: a tuple of one number for the two new ends raises `IndexError` after the arc and its tail have been added.
* `C111_leading_zero_wrong` (`lean/Verif/Props/Dependent.lean`): C111 is false: a nonzero row that begins with zero is never removed, however many copies of it there are.
* `C111_three_rows_wrong` (`lean/Verif/Props/Dependent.lean`): C111 is false: a row that is the sum of two others stays.
* `C111_tolerance_wrong` (`lean/Verif/Props/Dependent.lean`): C111 is false: of two independent equations with almost equal coefficients the second is removed, and with it the uniqueness of the solution.
* `C114_concave_wrong` (`lean/Verif/Props/IntegerStart.lean`): C114 is false on every concave quadratic: `newton_method` for `min` goes to the maximum, from every other start.
* `C114_convex_wrong` (`lean/Verif/Props/IntegerStart.lean`): C114 is false for convex functions: one step on `x ^ 4 / 4 - x` from 1/10 leads to 33.4, where the objective is larger than 300000.
* `C115_float_step_wrong` (`lean/Verif/Props/IntegerStart.lean`): C115 is false: as soon as one step is no array of integers, `TypeError` is raised; here for the first step.
* `C115_newton_wrong` (`lean/Verif/Props/IntegerStart.lean`): C115 is false for `newton_method`: on an array of integers it never makes a step; it raises `TypeError`, or `LinAlgError` if the Hessian at the start is singular.
* `C115_square_wrong` (`lean/Verif/Props/IntegerStart.lean`): C115 is false for the square function with its gradient and the default parameters (`alpha = 1` is an integer, `p = 0.5` is not): every start except zero raises `TypeError`.
* `C118_shared_wrong` (`lean/Verif/Props/InPlace.lean`): C118 as stated is false for `in_place=True`: one array given as `b` and as `c`. The program `max x, x <= 1, x <= 0` has the standard equality form `max -x', -x' + s = 1`, which `to_sef()` returns; `to_sef(in_place=True)` leaves the right-hand side `-1` in the receiver.
* `C11_endless_wrong` (`lean/Verif/Props/MaxFlowLoop.lean`): C11 is false: on a digraph with twelve arcs, capacities at most 3 and no opposite arcs, `ford_fulkerson` never ends; from the eighth search on, every round doubles the (negative) flow on some arcs.
* `C120_distinct_wrong` (`lean/Verif/Props/EdgeHash.lean`): Every name can be cut at a `-` so that two edges share a hash: the edges `x-y, z` and `x, y-z`, if the names are in order.
* `C121_exact_wrong` (`lean/Verif/Props/FloatFormulation.lean`): C121: the size condition of `C121_whole` cannot be dropped: in `9007199254740992.0 * x[1] + 1.0 * x[1]` the coefficient is not the sum.
* `C123_twice_wrong` (`lean/Verif/Props/Rename.lean`): A digraph with maximum flow 13/3 for which `preflow_push` returns zero after every name is written twice.
* `C123_value_wrong` (`lean/Verif/Props/Rename.lean`): C123 is false for other renamings, and always so: if no node has a name of exactly one letter, then `ford_fulkerson` reports the value zero whatever flow it finds, and `preflow_push` the zero flow, whatever the maximum flow is.
* `C124_int_wrong` (`lean/Verif/Props/FloatGenerate.lean`): C124: the size condition of `C124_int` cannot be dropped: `maximize(x[1]).subject_to(9007199254740993 * x[1] <= 1)` has another number in its matrix than the one written.
* `C125_dropped_wrong` (`lean/Verif/Props/Nonlinear.lean`): C125 is false: for any three expressions with variables, `e + f * g` is accepted and has the terms of `e`.
* `C125_program_wrong` (`lean/Verif/Props/Nonlinear.lean`): C125 is false for whole formulations: maximising `x[1] + x[1] * x[2]` subject to `x[1] + x[2] * x[2] <= 4` builds the program that maximises `x[1]` subject to `x[1] <= 4`.
* `C127_capacity_wrong` (`lean/Verif/Props/FloatFordFulkerson.lean`): C127 fails: a capacity is exceeded and the value is above the maximum, for the digraph of `C105_capacity_wrong`.
* `C127_negative_wrong` (`lean/Verif/Props/FloatFordFulkerson.lean`): C127 fails on a one-way digraph whose capacities are doubles: the flow returned is negative on three arcs. The arc `(u, t)` is overfilled by one through a rounding, its residual is then `-1`, and that is pushed along the next path.
* `C129_rank_wrong` (`lean/Verif/Props/FloatRref.lean`): C129 fails for the equations: the rows of `[[49, 1], [49, 1]]` are equal, and `to_rref` returns the identity, which has the solution zero only. After the division by 49 the difference of the rows is not zero but `2^-53`, which counts as a pivot.
* `C129_residue_wrong` (`lean/Verif/Props/FloatRref.lean`): C129 fails for the form, beyond the tolerance of C55, if a number taken for one is not one: the entry below is left with a residue, and `is_in_rref` rejects the result of `to_rref`.
* `C12_name_wrong` (`lean/Verif/Props/PreflowLoop.lean`): C12 is false for longer names: what is returned is not conserved at the inner node.
* `C12_opposite_wrong` (`lean/Verif/Props/MaxFlow.lean`): C12 is false with opposite arcs: the returned flow exceeds a capacity.
* `C130_thirds_wrong` (`lean/Verif/Props/FloatSolve.lean`): Without total unimodularity the answer need not be exact, however good the linear algebra: the optimum may not be a double.
* `C131_singular_wrong` (`lean/Verif/Props/FloatGauss.lean`): Without total unimodularity a singular matrix need not be recognised: the inverse of this one is computed without an error, by whatever variant of the elimination.
* `C136_name_wrong` (`lean/Verif/Props/UndirectedRename.lean`): C136 is false for cuts asked for by a name: `degree("b")` is `2` and, after the names are written twice, `degree("bb")` is `0`.
* `C136_order_wrong` (`lean/Verif/Props/UndirectedRename.lean`): C136 is false for the order of a traversal and for the exception of `shortest_path`: the neighbours are sorted by name, and the exception depends on the length of the names.
* `C137_order_wrong` (`lean/Verif/Props/Reorder.lean`): C137 is false: `solve` finds the optimal solution of `min x₁ + x₂` subject to `x₂ - x₁ = 1`, but returns `None` once the two variables are exchanged.
* `C139_raise_wrong` (`lean/Verif/Props/FlowChange.lean`): C139 is false for `ford_fulkerson`: raising the capacity of an arc from 1 to 2 lowers its answer from 4 to 3.
* `C139_remove_wrong` (`lean/Verif/Props/FlowChange.lean`): C139 is false for `ford_fulkerson`: removing an arc of capacity 1/2 lowers its answer from 4 to 3.
* `C139_reverse_wrong` (`lean/Verif/Props/FlowChange.lean`): C139 is false for `ford_fulkerson`: with all arcs reversed its answer is 3 instead of 4.
* `C13_name_wrong` (`lean/Verif/Props/MaxFlow.lean`): C13 is false for multi-character names: the returned value is 0, the maximum at least 1.
* `C140_tiny_wrong` (`lean/Verif/Props/ProgramChange.lean`): C140 as stated is false: `max 0.5e-10 x₁` subject to `x₂ = 1` is reported to have the optimal value 0; with the additional constraint `x₁ >= 5` the reported value is better.
* `C141_remove_wrong` (`lean/Verif/Props/UndirectedChange.lean`): C141 is false after `remove_edge`: a triangle without one edge is a tree, with as many edges as vertices in the object.
* `C142_cancel_wrong` (`lean/Verif/Props/FormulationArrays.lean`): C142 is false when a variable cancels: `x[1] + x[2] - x[2] <= 1` says the same as `x[1] <= 1` but has another number of columns.
* `C142_constant_wrong` (`lean/Verif/Props/FormulationArrays.lean`): C142 is false with constants: `x[1] - (x[2] + 1) <= 0` and `x[1] - x[2] <= 1` say the same but do not compile to the same right-hand side.
* `C143_knapsack_wrong` (`lean/Verif/Props/IntegerChange.lean`): C143 is false for `max` when `solve` gives up on a node: with the additional constraint `x_1 <= 0` the knapsack problem gets a better answer than without.
* `C143_min_wrong` (`lean/Verif/Props/IntegerChange.lean`): C143 is false for `min`: with the additional constraint `x_1 >= 2` a better vector is found than without.
* `C144_few_wrong` (`lean/Verif/Props/FlowPaths.lean`): C144 is false for `ford_fulkerson`: it returns 2 where there are three paths without common arcs.
* `C144_many_wrong` (`lean/Verif/Props/FlowPaths.lean`): C144 is false for `ford_fulkerson`: it returns 4 where no four paths fit.
* `C145_gained_wrong` (`lean/Verif/Props/CanonicalPath.lean`): C145 is false as stated: after `to_canonical_form([1])` the basis `[2]` is accepted though the program itself refuses it.
* `C145_loop_wrong` (`lean/Verif/Props/CanonicalPath.lean`): C145 is false as stated: iterating in place finds the optimum of this program, while the loop of `simplex` raises `ValueError` at the second basis.
* `C145_lost_wrong` (`lean/Verif/Props/CanonicalPath.lean`): C145 is false as stated: after `to_canonical_form([1])` the basis `[2]` is refused though the program itself accepts it.
* `C147_none_wrong` (`lean/Verif/Props/SpanningTree.lean`): C147 is false: for every graph with a spanning tree there is one of least weight, but `minimum_spanning_tree` returns `None`.
* `C147_remove_wrong` (`lean/Verif/Props/SpanningTree.lean`): C147 is false after `remove_edge`: without its only edge a graph has no spanning tree, but the tree of the edges in the object is still there.
* `C14_crash_wrong` (`lean/Verif/Props/PreflowLoop.lean`): C14 is false with opposite arcs in another way: `KeyError` when the excess that cannot return to the source is at a node that has no residual arc left.
* `C14_endless_wrong` (`lean/Verif/Props/PreflowLoop.lean`): C14 is false with opposite arcs: on a digraph with four arcs and capacities at most 3 (and maximum flow 1) `preflow_push` never ends. One unit of excess that cannot return to the source is pushed to and fro between two nodes, the height of which grows for ever.
* `C14_name_wrong` (`lean/Verif/Props/PreflowLoop.lean`): C14 is false for longer names: `KeyError`, since the isolated node `ab` is believed to have the excess of `a`.
* `C14_two_nodes_fail` (`lean/Verif/Props/MaxFlow.lean`): C14, refuted part: if source and sink are the only nodes, every finished call with nonnegative capacities raises `UnboundLocalError`.
* `C150_maximum_wrong` (`lean/Verif/Props/Units.lean`): C150: not so for `"max"`: the answer is the negated point, so that a shift of the origin by one moves it by one in the wrong direction.
* `C151_free_wrong` (`lean/Verif/Props/Vertices.lean`): C151: with free variables `solve` can return a point in the middle of the region, although the region has vertices.
* `C156_singular_wrong` (`lean/Verif/Props/FloatDet.lean`): C156. The bound on the entries cannot be left out: with a factor of a million, `is_basis` takes two equal columns for a basis.
* `C158_ray_wrong` (`lean/Verif/Props/FloatRay.lean`): C158. The certificate can be wrong: `simplex` reports rightly that the program is unbounded, but the direction it returns, `(1, 0)`, is not one in which the program is unbounded, and `verify_unboundedness` rejects it. The reason is the search for the column by `c > 0`, which takes the error `2^-53` of a basic column for a positive reduced cost. In exact arithmetic the direction is `(1/49, 1)`.
* `C15_remove_wrong` (`lean/Verif/Props/Undirected.lean`): C15 is false with `remove_edge`: afterwards the vertices are not adjacent but the edge is there.
* `C17_wrong` (`lean/Verif/Props/Undirected.lean`): C17 is false for every graph and every edge of it: after the removal `has_edge` still answers `True`, removing again raises `KeyError`, and adding the edge back raises `ValueError`.
* `C18_name_wrong` (`lean/Verif/Props/Undirected.lean`): C18 is false for longer names: `cut("ab")` is the cut of `{"a", "b"}`.
* `C22_wrong` (`lean/Verif/Props/Undirected.lean`): C22 is false: on every tree with an edge, for every iteration order, `is_cyclic` answers `True`; for instance on a single edge.
* `C23_shared_wrong` (`lean/Verif/Props/UndirectedCopy.lean`): C23 is false: adding an edge to the copy makes the original walk to a vertex that it does not have, and its `bfs` raises `KeyError`.
* `C24_edgeless_wrong` (`lean/Verif/Props/StableSet.lean`): C24 is false for every graph with vertices but no edges: the call raises `ValueError`.
* `C24_empty_none` (`lean/Verif/Props/StableSet.lean`): C24 is false for the empty graph: the call returns `None`.
* `C25_wrong` (`lean/Verif/Props/Undirected.lean`): C25 is false for every graph and every two different vertices: the call raises `IndexError` or `TypeError`, whether or not there is a path.
* `C26_formulate_wrong` (`lean/Verif/Props/Undirected.lean`): C26 is false: `formulate_shortest_path(s, t)` raises on every graph and every pair of vertices.
* `C26_mst` (`lean/Verif/Props/Undirected.lean`): C26 (`minimum_spanning_tree`): `ValueError` unless the graph is connected, and `None` if it is.
* `C26_partition_wrong` (`lean/Verif/Props/Undirected.lean`): C26 is false: `partition()` raises `AttributeError` on every graph with a vertex.
* `C26_rng_wrong` (`lean/Verif/Props/Undirected.lean`): C26 is false: `traverse(start, "rng")` yields nothing, on every graph.
* `C28_failed_call_wrong` (`lean/Verif/Props/LinearBasic.lean`): C28 is false after a failing in-place call: the index lists name a variable that does not exist.
* `C32_min_constant_wrong` (`lean/Verif/Props/LinearDual.lean`): C32 is false for `min x + 1`: the converted program `max -x + 1` is not the negated objective.
* `C33_constant_wrong` (`lean/Verif/Props/LinearDual.lean`): C33 is false with a constant: `max 0 x + 1` subject to `x <= 0`.
* `C34_constant_wrong` (`lean/Verif/Props/LinearDual.lean`): C34 is false for every program with a constant.
* `C35_unsorted_wrong` (`lean/Verif/Props/LinearBasis.lean`): C35 is false for unsorted lists: for `A = I`, `b = (1, 2)` and the basis `[2, 1]` the returned vector is `(2, 1)`, which does not satisfy `A x = b`.
* `C37_near_tie_infeasible_wrong` (`lean/Verif/Props/Simplex.lean`): As a consequence `simplex` reports this solvable program as infeasible (`ArithmeticError`).
* `C37_near_tie_wrong` (`lean/Verif/Props/Simplex.lean`): C37 as stated is false: the ratios 100001 and 100000 count as equal, and the iteration moves from the feasible basis `[2, 3]` to the infeasible basis `[1, 3]`.
* `C38_tiny_cost_wrong` (`lean/Verif/Props/Simplex.lean`): C38 as stated is false: a positive cost below the tolerance is ignored, and an answer is reported as optimal on an unbounded program.
* `C39_tiny_pivot_wrong` (`lean/Verif/Props/Simplex.lean`): C39 as stated is false: a pivot below the tolerance is ignored, and a program whose objective never exceeds `2e10` is reported as unbounded.
* `C40_cycle_wrong` (`lean/Verif/Props/Simplex.lean`): C40 as stated is false: from a feasible basis of this program `simplex` never ends.
* `C41_exception_wrong` (`lean/Verif/Props/Simplex.lean`): C41 as stated is false: a call with a wrong basis raises `ValueError` and leaves `A` and `b` negated.
* `C41_two_phase_wrong` (`lean/Verif/Props/Solve.lean`): C41 is false for `two_phase_simplex`, too: on `-x₁ - x₂ = -1` given twice it raises and leaves the rows negated.
* `C42_tiny_wrong` (`lean/Verif/Props/TwoPhase.lean`): C42 as stated is false: on `max 0.5e-10 x₁` subject to `x₂ = 1` the answer is an "optimal" point of an unbounded program.
* `C43_dependent_wrong` (`lean/Verif/Props/TwoPhase.lean`): The failure is not specific to this program: no feasible program with dependent rows gets an answer.
* `C43_redundant_wrong` (`lean/Verif/Props/TwoPhase.lean`): C43 as stated is false: `two_phase_simplex` raises `ValueError` on a program with an optimal solution and a redundant row.
* `C44_tiny_wrong` (`lean/Verif/Props/Solve.lean`): C44 as stated is false: on an unbounded program with a tiny cost a vector is returned.
* `C45_redundant_wrong` (`lean/Verif/Props/Solve.lean`): C45 also fails with an exception on redundant rows.
* `C45_tried_wrong` (`lean/Verif/Props/Solve.lean`): C45 as stated is false: `solve` returns `None` for `min x` subject to `x >= 1`, because the slack column is a basis that is not feasible.
* `C47_tolerance_wrong` (`lean/Verif/Props/LinearVerify.lean`): C47 is false as stated: `-0.5e-10 x = -1` is feasible, yet `y = 1` is accepted.
* `C48_tolerance_wrong` (`lean/Verif/Props/LinearVerify.lean`): C48 is false as stated: `max x` subject to `1e-9 x = 0` has the single feasible point `0`, yet `x = 0`, `d = 1` is accepted.
* `C49_tolerance_wrong` (`lean/Verif/Props/LinearVerify.lean`): C49 is false as stated: `max 0.5e-10 x` subject to `0 x = 0` is unbounded, yet `y = 0` is accepted.
* `C50_tiny_wrong` (`lean/Verif/Props/Solve.lean`): C50 as stated is false: the certificate returned for this program is rejected.
* `C51_dual_wrong` (`lean/Verif/Props/LinearAlias.lean`): C51 as stated is false for `dual`: the dual of `max x, x >= 1` is `min y, y >= 1, y <= 0`; calling `to_sef(in_place=True)` on it negates the column of its `_A`, which is the receiver's `_A`.
* `C52_constant_wrong` (`lean/Verif/Props/Simplex.lean`): C52 as stated is false for every program with a constant `z ≠ 0`.
* `C53_canonical_never_wrong` (`lean/Verif/Props/LinearExtra.lean`): C53 is false in the strongest way: `is_canonical_form_for` never returns True, for any program and any list of indices.
* `C53_canonical_wrong` (`lean/Verif/Props/LinearExtra.lean`): C53 is false on a program that `to_canonical_form` itself produced.
* `C53_feasible_raises_wrong` (`lean/Verif/Props/LinearExtra.lean`): C53: `is_feasible_basic_solution` never returns for a program with several variables (or none): it raises `ValueError` whatever the vector and the basis.
* `C54_clear_steps_wrong` (`lean/Verif/Props/LinearExtra.lean`): C54 is false: `clear_steps()` calls itself without end; it raises `RecursionError` at every recursion limit.
* `C54_eq_empty_wrong` (`lean/Verif/Props/LinearExtra.lean`): An empty matrix compares as false, even with itself.
* `C54_eq_raises_wrong` (`lean/Verif/Props/LinearExtra.lean`): C54 is false: comparing a program with itself (or a copy) raises `ValueError` as soon as the matrix has two entries.
* `C55_stairs_wrong` (`lean/Verif/Props/Rref.lean`): C55 as stated is false: `[[0, 1], [1, 0]]` is accepted.
* `C55_tolerance_wrong` (`lean/Verif/Props/Rref.lean`): C55 as stated is false: a first entry within `1e-9` of one is left as it is.
* `C57_exit_wrong` (`lean/Verif/Props/LinearExtra.lean`): C57 is false when nothing is to be drawn: `x <= -20` within the box of size `10` exits the interpreter, and four extra operators stay in the program.
* `C57_fraction_wrong` (`lean/Verif/Props/LinearExtra.lean`): C57 is false for fractional data: for `x <= 1/2` the drawn points are those of `x <= 0`; the vertex `(1/2, 10)` is missing and `(0, 10)` is not a crossing of two sides.
* `C57_parallel_wrong` (`lean/Verif/Props/LinearExtra.lean`): C57 is false for parallel rows: `x + y <= 1, x + y <= 2` raises `LinAlgError`, and four extra operators stay in the program.
* `C59_index_wrong` (`lean/Verif/Props/Integer.lean`): C59 as stated is false: the list of integral variables is read with zero-based positions, unlike the other index lists.
* `C59_sign_wrong` (`lean/Verif/Props/Integer.lean`): C59 as stated is false: the sign of `x` is forgotten after branching.
* `C59_tolerance_wrong` (`lean/Verif/Props/Integer.lean`): C59 as stated is false: a value within the tolerance of an integer is returned.
* `C60_free_wrong` (`lean/Verif/Props/Integer.lean`): C60 as stated is false: a free variable is treated as nonnegative after branching, so `None` is returned although `(-1, 1)` is the best integral point.
* `C60_knapsack_wrong` (`lean/Verif/Props/Integer.lean`): C60 fails on a knapsack problem: with three items the node `x <= 1`, `y >= 1` has three rows, `solve` gives up on it, and branch and bound returns a vector of value 14 where 20 is possible.
* `C60_min_wrong` (`lean/Verif/Props/Integer.lean`): C60 as stated is false: for `min` the larger value is taken. The vector `(1, 2)` with value `-21` is returned although `(2, 2)` has value `-22`.
* `C60_tried_wrong` (`lean/Verif/Props/Integer.lean`): C60 as stated is false also because `solve` returns `None` too often.
* `C61_neg_wrong` (`lean/Verif/Props/Formulation.lean`): C61 is false: `-(x[1] + 3)` has value `3` at the origin.
* `C61_right_wrong` (`lean/Verif/Props/Formulation.lean`): C61 is false: `x[1] + (x[2] + 3)` has value `0` at the origin.
* `C61_scale_wrong` (`lean/Verif/Props/Formulation.lean`): C61 is false: `2 * (x[1] + 3)` has value `3` at the origin.
* `C62_no_terms_wrong` (`lean/Verif/Props/Formulation.lean`): C62 is false for an equation without terms on the left: `LinearEquation({}, 3) <= x[1]` builds the constraint `x[1] <= -3`.
* `C62_variable_wrong` (`lean/Verif/Props/Formulation.lean`): C62 is false for a `Variable` on the right: `e <= v`, `u <= v` and their kind raise `AttributeError`.
* `C63_add_wrong` (`lean/Verif/Props/Formulation.lean`): C63 is false for `e + f`: afterwards `e` means `e + f` up to the constant, so its meaning has changed unless `f` is constant.
* `C63_neg_wrong` (`lean/Verif/Props/Formulation.lean`): C63 is false for `-e`: the equation itself is negated.
* `C63_scale_wrong` (`lean/Verif/Props/Formulation.lean`): C63 is false for `k * e`: the equation itself is scaled.
* `C63_self_wrong` (`lean/Verif/Props/Formulation.lean`): C63 and C61 are false for `e - e`: the result depends on the point like `-2 e`.
* `C63_sub_wrong` (`lean/Verif/Props/Formulation.lean`): C63 is false for `e - f`: `f` is negated as well.
* `C64_objective_wrong` (`lean/Verif/Props/FormulationProgram.lean`): C64 is false when the objective mentions a later variable than every constraint: `maximize(x[1] + x[2]).subject_to(x[1] <= 1)` raises `ValueError`.
* `C64_sign_wrong` (`lean/Verif/Props/FormulationProgram.lean`): C64 is false for sign conditions on a `Variable` among the constraints: `subject_to(v >= 0)` raises `AttributeError`.
* `C64_variable_wrong` (`lean/Verif/Props/FormulationProgram.lean`): C64 is false when the objective is a single `Variable`: `AttributeError`.
* `C64_where_wrong` (`lean/Verif/Props/FormulationProgram.lean`): C64 is false for sign conditions written with `x[i]`: `where(x[i] >= 0)` raises `AttributeError`.
* `C65_atomic_wrong` (`lean/Verif/Props/FormulationProgram.lean`): C65 is false: after `maximize(v).subject_to(x[1] <= 1)`-like formulations, the rejected call `where(v >= 0, v <= 0)` turns the free variable `v` into a nonpositive one.
* `C65_stuck_wrong` (`lean/Verif/Props/FormulationProgram.lean`): C65 is false: once `where` has raised `ValueError`, it raises it for ever, even without arguments.
* `C66_wrong` (`lean/Verif/Props/FormulationProgram.lean`): C66 is false for every formulation: whatever calls are made, the compiled program of a formulation from `pytimize.formulations.integer` is an ordinary linear program.
* `C68_newline_wrong` (`lean/Verif/Props/Parser.lean`): C68 is false for every expression in one of the formats followed by a newline: it is in no format, but it is accepted, and parsed like the expression without the newline.
* `C69_bar_wrong` (`lean/Verif/Props/Parser.lean`): C69 is false: `|` between terms is accepted and means `+`.
* `C69_newline_wrong` (`lean/Verif/Props/Parser.lean`): C69 is false: every expression followed by a newline is parsed like the expression.
* `C69_zero_wrong` (`lean/Verif/Props/Parser.lean`): C69 is false: the index 0 is accepted and overwrites the last entry: `"5x_0"` gives `[5]`.
* `C71_negative_wrong` (`lean/Verif/Props/Unconstrained.lean`): C71 is false for negative `c`: the objective can increase.
* `C73_descent_wrong` (`lean/Verif/Props/Unconstrained.lean`): C73 is false for `steepest_descent`: maximising `x` from 5, the method returns -4.
* `C73_newton_wrong` (`lean/Verif/Props/Unconstrained.lean`): C73 is false for `newton_method` on every quadratic whose stationary point is not the origin: with objective `max` the point returned is not stationary.
* `C74_loops_wrong` (`lean/Verif/Props/IntegerLoop.lean`): C74 is false: an integer program with four inequalities in four nonnegative variables, none of which exceeds `4` on the feasible region, that has an integral feasible point and on which `branch_and_bound` never returns: the first call of `solve` does not.
* `C74_raises_wrong` (`lean/Verif/Props/IntegerLoop.lean`): C74 is false in a second way: `ValueError` for the bounded integer program `max x₁` subject to `x₁ + x₂ = 1` twice.
* `C75_wrong` (`lean/Verif/Props/Parser.lean`): C75 is false: whatever is parsed, `None` is returned.
* `C76_descent_wrong` (`lean/Verif/Props/Unconstrained.lean`): C76 is false for every run: after `steepest_descent` for `min`, the caller's array is the point returned.
* `C76_newton_wrong` (`lean/Verif/Props/Unconstrained.lean`): C76 is false for `newton_method`: on every quadratic the caller's array becomes the stationary point.
* `C77_list_wrong` (`lean/Verif/Props/Unconstrained.lean`): C77 is false for every list that is not empty: each iteration doubles the length of the list.
* `C80_constant_wrong` (`lean/Verif/Props/LinearStrong.lean`): C80 is false for every program with a constant and an optimal solution: the optimal values differ.
* `C83_wrong` (`lean/Verif/Props/LinearStrong.lean`): C83 is false for every program and vector: `is_solution_optimal` never returns `True` or `False`.
* `C84_wrong` (`lean/Verif/Props/LinearStrong.lean`): C84 is false: `2 x = 1` has no integral solution, yet `is_feasible([0.5])` answers `True` for the integer program (all variables integral).
* `C85_tiny_wrong` (`lean/Verif/Props/StableSetSolve.lean`): C85 is false for weights that differ by less than the tolerance: the lighter of two adjacent vertices is chosen.
* `C86_copy_wrong` (`lean/Verif/Props/IntegerValue.lean`): C86 is false for `copy`: the copy of an integer program is a linear program, whatever the program, so that the call `branch_and_bound` on it raises `AttributeError`.
* `C86_value_wrong` (`lean/Verif/Props/IntegerValue.lean`): C86 is false for `solve` and `optimal_value`: the answers are those of the relaxation, `3/2` with value `1.65`, although the best integral point is `1` with value `1.1`.
* `C89_run_on_wrong` (`lean/Verif/Props/Format.lean`): C89 is false, second: `x ∈ Z` is appended to the line of the signs, which then reads `x ≥ 0x ∈ Z`.
* `C89_wrong` (`lean/Verif/Props/Format.lean`): C89 is false, first: if the integral variables are listed, the text does not depend on which they are.
* `C91_wrong` (`lean/Verif/Props/Steps.lean`): C91 is false: whenever `solve` of a program in SEF returns a solution, it has recorded steps also with `show_steps=False`.
* `C92_basis_wrong` (`lean/Verif/Props/Steps.lean`): C92 is false: the text about the answer of `is_basic_solution` does not name the basis asked about, but the list with every entry one smaller.
* `C92_wrong` (`lean/Verif/Props/Steps.lean`): C92 is false: for a program that is not in SEF, nothing but the question is recorded when the answer is no.
* `C94_tried_wrong` (`lean/Verif/Props/FormulationSolve.lean`): C94 is false as stated: `minimize(x[1]).subject_to(x[1] >= 1).where(x >= 0).solve()` returns `None`.
* `C95_caller_wrong` (`lean/Verif/Props/LinearShared.lean`): The caller's later writes into an array change the program.
* `C95_raise_wrong` (`lean/Verif/Props/LinearShared.lean`): A call `simplex(basis)` that raises an exception leaves rows of the caller's arrays negated.
* `C95_same_array_wrong` (`lean/Verif/Props/LinearShared.lean`): One array given as `b` and `c`: `max x, x <= 1, x <= 0` becomes a program with right-hand side `-1` by `to_sef(in_place=True)`, so that the origin is no longer feasible.
* `C95_wrong` (`lean/Verif/Props/LinearShared.lean`): C95 as stated is false: `to_sef(in_place=True)` for a program with a negative variable negates a column of the caller's matrix and an entry of the caller's objective.
* `C96_objective_wrong` (`lean/Verif/Props/LinearShared.lean`): Two formulations made from one objective share its coefficients: `o = maximize(x[1] + x[2])`, `p = o.subject_to(x[1] + x[2] <= 5).where(x[1] <= 0)`, `q = o.subject_to(x[1] + 2 * x[2] <= 3)`. After `p.to_sef(in_place=True)` the objective of `q` is `-x1 + x2`.
* `C96_wrong` (`lean/Verif/Props/LinearShared.lean`): C96 as stated is false: `p = maximize(x[1] + x[2]).subject_to(x[1] + x[2] <= 5).where(x[1] <= 0)`, then `p.to_sef(in_place=True)`, then `p.where(x[2] >= 0)`. The program compiled now has the constraint `-x1 + x2 <= 5` and the objective `-x1 + x2`.
* `C97_dash_wrong` (`lean/Verif/Props/UndirectedText.lean`): With `-` in names the text is ambiguous: vertices `p`, `q`, `p-q`, `r`, `s`, `r-s`; in one graph `p` and `q` are joined to `r` and `s`, and `p-q` to `r-s`; in the other `p` and `q` to `r-s`, and `p-q` to `r` and `s`.
