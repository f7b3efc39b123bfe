{"id": "C01", "title": "Comparator sign trichotomy and complementary operators", "statement": "For every number exactly one of Comparator.is_negative, is_close_to_zero, is_positive holds; and is_close_compare(v,'<=',t) is the negation of is_close_compare(v,'>',t), as is '>=' of '<'. On an array is_close_compare is true exactly when it is true of every entry; any other operator string raises ValueError.", "quantifier": "every number v, every test value t, every array, every operator string", "why_tests_cant": "the claim is about a continuum of numbers including those on the tolerance boundary; tests sample a few", "anchors": ["pytimize/utilities/_comparator.py: Comparator.is_close_to_zero, is_close_compare, is_negative, is_positive"]}
{"id": "C02", "title": "Comparator agrees with exact order outside the tolerance band", "statement": "is_close_compare(v,op,t) equals the exact comparison v op t whenever v is outside the tolerance band of t (|v|>=1e-10 when t=0, |v-t|>1e-8+1e-5|t| otherwise); inside the band the non-strict operators answer True and the strict ones False. In particular it never rejects an exactly true non-strict comparison and never accepts an exactly false strict one.", "quantifier": "every v, t, operator", "why_tests_cant": "boundary behaviour for all magnitudes", "anchors": ["pytimize/utilities/_comparator.py: Comparator.is_close_compare"]}
{"id": "C03", "title": "is_integer recognises exactly the numbers within 1e-10 of an integer", "statement": "Comparator.is_integer(v) is true iff some integer k has |v-k| < 1e-10; for arrays iff every entry is. Hence it is invariant under negation and under adding an integer.", "quantifier": "every number and array", "why_tests_cant": "all reals, both sides of every integer", "anchors": ["pytimize/utilities/_comparator.py: Comparator.is_integer"]}
{"id": "C04", "title": "Union-find refines the equivalence relation generated by the unions", "statement": "After any history of find and union calls on DisjointSet(items), find(a) == find(b) iff a and b are connected by the unions performed so far; find returns a member of the class, find(find(a)) == find(a), and a find call never changes which elements are together.", "quantifier": "every duplicate-free item list and every finite sequence of find/union calls, including failing ones", "why_tests_cant": "unbounded operation histories", "anchors": ["pytimize/utilities/_disjoint.py: DisjointSet.find, union"]}
{"id": "C05", "title": "Union-find never loops and stays shallow", "statement": "In every state reachable by find/union calls, find terminates on every member; it raises ValueError exactly on non-members; following parent pointers takes at most log2(number of items) steps, so recursion depth stays logarithmic.", "quantifier": "every reachable state, every element", "why_tests_cant": "termination/depth over all histories", "anchors": ["pytimize/utilities/_disjoint.py: DisjointSet.find, union"]}
{"id": "C06", "title": "Directed graph stays well formed", "statement": "After any sequence of constructor, add_node, add_arc, remove_arc, set_arc_weight, set_node_weight calls: every endpoint of an arc is a node, no arc is a self loop, and the adjacency sets agree with the arcs; a call that raises leaves the digraph unchanged.", "quantifier": "every sequence of API calls and arguments", "why_tests_cant": "unbounded histories, including exceptional exits", "anchors": ["pytimize/graphs/_directed.py: DirectedGraph.add_arc, add_node, remove_arc, set_arc_weight, set_node_weight, __init__"]}
{"id": "C07", "title": "cut / ncut / degrees of a digraph", "statement": "cut(S) is exactly the set of arcs leaving S, ncut(S) the arcs entering S, outdegree/indegree their sizes, connections their sum; calling any of them with the name of one node means the singleton set of that node.", "quantifier": "every digraph, every node set, every node name", "why_tests_cant": "all graphs and all names (single- and multi-character)", "anchors": ["pytimize/graphs/_directed.py: DirectedGraph.cut, ncut, indegree, outdegree, connections"]}
{"id": "C08", "title": "create_residual builds the residual network", "statement": "For a feasible flow, create_residual returns the digraph with an arc (u,v) of weight cap-flow for every arc (u,v) with spare capacity and an arc (v,u) of weight flow for every arc carrying positive flow, and nothing else; an infeasible or foreign flow raises.", "quantifier": "every digraph with nonnegative capacities and every flow dictionary", "why_tests_cant": "all graphs/flows, in particular opposite arcs", "anchors": ["pytimize/graphs/_directed.py: DirectedGraph.create_residual, _compute_residual"]}
{"id": "C09", "title": "ford_fulkerson returns a feasible flow", "statement": "The dictionary returned by ford_fulkerson(s,t) has exactly the arcs of the digraph as keys, satisfies 0 <= flow <= capacity on every arc and conservation at every node other than s and t, and the returned value is the net flow out of s.", "quantifier": "every digraph with nonnegative capacities, every distinct s,t among its nodes", "why_tests_cant": "all graphs; the invariant must survive every augmentation", "anchors": ["pytimize/graphs/_directed.py: DirectedGraph.ford_fulkerson, _bfs_path, _compute_residual"]}
{"id": "C10", "title": "ford_fulkerson returns a maximum flow", "statement": "The value returned by ford_fulkerson(s,t) is at least the value of every feasible s-t flow, and equals the capacity of some s-t cut.", "quantifier": "every digraph with nonnegative capacities, every competing feasible flow", "why_tests_cant": "optimality against infinitely many flows", "anchors": ["pytimize/graphs/_directed.py: DirectedGraph.ford_fulkerson"]}
{"id": "C11", "title": "ford_fulkerson terminates and raises only on bad input", "statement": "ford_fulkerson(s,t) terminates for every digraph with nonnegative rational capacities, raises ValueError exactly when s or t is not a node or s == t, ArithmeticError exactly when in addition some capacity is negative, and never modifies the digraph.", "quantifier": "every digraph, every s,t", "why_tests_cant": "non-termination cannot be observed by a test", "anchors": ["pytimize/graphs/_directed.py: DirectedGraph.ford_fulkerson"]}
{"id": "C12", "title": "preflow_push returns a feasible flow", "statement": "Whenever preflow_push(s,t) returns, its flow obeys capacities and conservation and the value is the net flow out of s.", "quantifier": "every digraph with nonnegative capacities, every distinct s,t", "why_tests_cant": "all push/relabel schedules over all graphs", "anchors": ["pytimize/graphs/_directed.py: DirectedGraph.preflow_push"]}
{"id": "C13", "title": "preflow_push returns a maximum flow and agrees with ford_fulkerson", "statement": "The value returned by preflow_push(s,t) is the maximum s-t flow value, hence equals the one returned by ford_fulkerson(s,t).", "quantifier": "every digraph with nonnegative capacities", "why_tests_cant": "optimality against all flows", "anchors": ["pytimize/graphs/_directed.py: DirectedGraph.preflow_push, ford_fulkerson"]}
{"id": "C14", "title": "preflow_push terminates without internal error", "statement": "preflow_push(s,t) terminates on every digraph with nonnegative rational capacities and distinct nodes s,t, without KeyError or other internal failure, and never modifies the digraph.", "quantifier": "every digraph, every s,t", "why_tests_cant": "termination and absence of crashes over all graphs", "anchors": ["pytimize/graphs/_directed.py: DirectedGraph.preflow_push"]}
{"id": "C15", "title": "Undirected graph stays well formed", "statement": "After any sequence of constructor, add_edge, add_vertex, set_edge_weight, set_vertex_weight, remove_edge calls: adjacency is symmetric and irreflexive, a~b iff has_edge((a,b)), every endpoint is a vertex, and a call that raises leaves the graph unchanged.", "quantifier": "every sequence of API calls", "why_tests_cant": "unbounded histories", "anchors": ["pytimize/graphs/_undirected.py: UndirectedGraph.__init__, add_edge, add_vertex, remove_edge, set_edge_weight, set_vertex_weight"]}
{"id": "C16", "title": "Edge identity does not depend on orientation", "statement": "has_edge((a,b)) == has_edge((b,a)); a weight set through either orientation is the weight read through both; setting one edge's or vertex's weight changes no other weight; add_edge of an existing edge in either orientation raises.", "quantifier": "every graph, edge, weight", "why_tests_cant": "all vertex names and orderings", "anchors": ["pytimize/graphs/_undirected.py: has_edge, set_edge_weight, get_edge_weight, add_edge, set_vertex_weight, get_vertex_weight"]}
{"id": "C17", "title": "remove_edge removes the edge", "statement": "After g.remove_edge((a,b)) succeeds, has_edge((a,b)) is False and every other edge is untouched; the edge can be added again.", "quantifier": "every graph and every edge of it", "why_tests_cant": "must hold from every reachable state", "anchors": ["pytimize/graphs/_undirected.py: UndirectedGraph.remove_edge, has_edge"]}
{"id": "C18", "title": "Undirected cut and degree", "statement": "cut(S) is exactly the set of edges with exactly one endpoint in S, so cut(S) equals the cut of the complement; degree(S) is its size; calling with the name of one vertex means the singleton set of that vertex.", "quantifier": "every graph, vertex set, vertex name", "why_tests_cant": "all graphs/sets/names", "anchors": ["pytimize/graphs/_undirected.py: UndirectedGraph.cut, degree"]}
{"id": "C19", "title": "bfs visits exactly the reachable vertices, once each, nearest first", "statement": "bfs(start) (and dfs, traverse with either method) yields each vertex reachable from start exactly once, start first, in non-decreasing distance order, and nothing else; terminates on every graph; raises ValueError iff start is not a vertex.", "quantifier": "every well-formed graph, start vertex and ordering key", "why_tests_cant": "all graphs, all orders", "anchors": ["pytimize/graphs/_undirected.py: UndirectedGraph.traverse, bfs, dfs"]}
{"id": "C20", "title": "is_connected decides connectivity", "statement": "is_connected() (and has_spanning_tree()) is True iff the graph has a vertex and every two vertices are joined by a path.", "quantifier": "every well-formed graph", "why_tests_cant": "decision procedure over all graphs", "anchors": ["pytimize/graphs/_undirected.py: UndirectedGraph.is_connected, has_spanning_tree, is_empty"]}
{"id": "C21", "title": "is_tree decides being a tree", "statement": "is_tree() is True iff the graph is nonempty, connected and acyclic, whatever order Python iterates the adjacency sets in.", "quantifier": "every well-formed graph and every set iteration order", "why_tests_cant": "all graphs and all hash orders", "anchors": ["pytimize/graphs/_undirected.py: UndirectedGraph.is_tree"]}
{"id": "C22", "title": "is_cyclic decides containing a cycle", "statement": "is_cyclic() is True iff the graph contains a cycle, and it always terminates.", "quantifier": "every well-formed graph, every set iteration order", "why_tests_cant": "all graphs", "anchors": ["pytimize/graphs/_undirected.py: UndirectedGraph.is_cyclic"]}
{"id": "C23", "title": "Graph copy is equal and independent", "statement": "g.copy() == g, and afterwards no mutation of either graph is visible through the other.", "quantifier": "every graph and every later sequence of mutations", "why_tests_cant": "aliasing over all histories", "anchors": ["pytimize/graphs/_undirected.py: UndirectedGraph.copy, __eq__, graph"]}
{"id": "C24", "title": "Max stable set formulation is exact", "statement": "For a graph with vertex weights, formulate_max_stable_set returns an integer program and vertex-to-column map such that 0/1 points correspond one-to-one to stable sets, every integral feasible point is 0/1, and the objective is the total weight of the set.", "quantifier": "every graph and every vertex subset / integral point", "why_tests_cant": "quantifies over all integral points", "anchors": ["pytimize/graphs/_undirected.py: UndirectedGraph.formulate_max_stable_set"]}
{"id": "C25", "title": "shortest_path returns a shortest path", "statement": "shortest_path(s,t) returns a path from s to t of minimum total weight whenever t is reachable from s.", "quantifier": "every graph with nonnegative weights", "why_tests_cant": "optimality over all paths", "anchors": ["pytimize/graphs/_undirected.py: UndirectedGraph.shortest_path"]}
{"id": "C26", "title": "partition, formulate_shortest_path and random traversal deliver what they document", "statement": "partition() returns the connected components; formulate_shortest_path returns the cut-covering LP; traverse(method='rng') yields every vertex once in random order.", "quantifier": "every graph", "why_tests_cant": "all graphs", "anchors": ["pytimize/graphs/_undirected.py: UndirectedGraph.partition, formulate_shortest_path, traverse"]}
{"id": "C27", "title": "LinearProgram constructor validation", "statement": "LinearProgram(A,b,c,z,objective,inequalities,free,negative) succeeds iff A is rectangular with len(b) rows and len(c) columns, free and negative are duplicate-free in-range disjoint index lists, inequalities (if given) has one of '=','<=','>=' per row and objective is 'max' or 'min'; on success every accessor returns the given data (index lists sorted) and is_sef is True iff max, all equalities, no free or negative variable; otherwise it raises ValueError.", "quantifier": "every argument combination", "why_tests_cant": "all shapes and index lists", "anchors": ["pytimize/programs/_linear.py: LinearProgram.__init__, inequalities, free_variables, negative_variables, positive_variables, is_sef"]}
{"id": "C28", "title": "Variable sign classes partition the variables", "statement": "positive_variables, negative_variables and free_variables are disjoint and together list each variable index 1..n exactly once, after any sequence of construction, add_variable, add_constraint, dual, to_sef, copy.", "quantifier": "every program reachable through the API", "why_tests_cant": "all histories", "anchors": ["pytimize/programs/_linear.py: positive_variables, negative_variables, free_variables, add_variable, dual, to_sef"]}
{"id": "C29", "title": "add_constraint intersects the feasible set", "statement": "p.add_constraint(a, op, v) has as feasible points exactly the feasible points of p satisfying a.x op v, with the same objective; wrong length or operator raises ValueError and changes nothing.", "quantifier": "every program, constraint and point", "why_tests_cant": "all points", "anchors": ["pytimize/programs/_linear.py: LinearProgram.add_constraint"]}
{"id": "C30", "title": "add_variable extends the program", "statement": "p.add_variable(coef, column, free, negative) has as feasible points (x, t) exactly those where t obeys its sign and A x + column*t obeys the constraints; fixing t=0 recovers p; its objective is p's plus coef*t.", "quantifier": "every program, column, sign flag and point", "why_tests_cant": "all points", "anchors": ["pytimize/programs/_linear.py: LinearProgram.add_variable"]}
{"id": "C31", "title": "is_feasible / evaluate / value_of", "statement": "evaluate(x) is c.x+z; is_feasible accepts every exactly feasible point and accepts no point that violates some constraint or sign by more than the documented tolerances; value_of(x) returns evaluate(x) iff is_feasible(x), else raises ValueError; wrong length raises.", "quantifier": "every program and vector", "why_tests_cant": "all points, on and near the boundary", "anchors": ["pytimize/programs/_linear.py: LinearProgram.is_feasible, evaluate, value_of"]}
{"id": "C32", "title": "to_sef preserves the program", "statement": "to_sef() returns a program in standard equality form such that the recorded reversal maps its feasible points onto exactly the feasible points of the original, and the objective value of a point of the SEF program is (up to the sign flip of a minimisation) the objective value of its image.", "quantifier": "every well-formed program and every point", "why_tests_cant": "all programs with any mix of free/negative variables and inequalities", "anchors": ["pytimize/programs/_linear.py: LinearProgram.to_sef, solve"]}
{"id": "C33", "title": "Weak duality between a program and dual()", "statement": "For every feasible x of a max program p and every feasible y of p.dual(), p.evaluate(x) <= p.dual().evaluate(y) (>= for min).", "quantifier": "every program, every pair of feasible points", "why_tests_cant": "all pairs of points", "anchors": ["pytimize/programs/_linear.py: LinearProgram.dual, evaluate"]}
{"id": "C34", "title": "dual is an involution", "statement": "p.dual().dual() is p: same A, b, c, z, objective, inequalities, free and negative variables.", "quantifier": "every well-formed program", "why_tests_cant": "all programs", "anchors": ["pytimize/programs/_linear.py: LinearProgram.dual"]}
{"id": "C35", "title": "Basis test and basic solutions", "statement": "is_basis(B) is True iff B lists as many valid columns as there are rows and the columns have determinant of absolute value at least 1e-10; compute_basic_solution(B) returns the unique x with Ax=b and x zero off B, for every valid basis in any order.", "quantifier": "every program and index list", "why_tests_cant": "all bases in all orders", "anchors": ["pytimize/programs/_linear.py: is_basis, compute_basic_solution, is_basis_feasible, is_basic_solution"]}
{"id": "C36", "title": "to_canonical_form preserves the program", "statement": "to_canonical_form(B) has the same feasible points and the same objective value at every point satisfying the constraints, its basis columns form the identity and its cost vector is zero on B.", "quantifier": "every SEF program, basis, point", "why_tests_cant": "all points", "anchors": ["pytimize/programs/_linear.py: to_canonical_form"]}
{"id": "C37", "title": "A simplex iteration moves to an adjacent basis without losing ground", "statement": "From a feasible basis, simplex_iteration either reports optimal, reports unbounded, or returns another valid feasible basis differing in one column whose basic solution has objective at least as large.", "quantifier": "every SEF program and feasible basis", "why_tests_cant": "all programs, all degenerate ties", "anchors": ["pytimize/programs/_linear.py: simplex_iteration"]}
{"id": "C38", "title": "simplex optimal answers are optimal", "statement": "When simplex(B) returns (x, B*, y), x is feasible, no feasible point has larger objective, B* is a basis with basic solution x, and y is a dual feasible certificate with y.b + z equal to the objective of x.", "quantifier": "every SEF program, starting basis and competing feasible point", "why_tests_cant": "optimality against all points", "anchors": ["pytimize/programs/_linear.py: simplex, simplex_iteration"]}
{"id": "C39", "title": "simplex unbounded answers are unbounded", "statement": "When simplex(B) from a feasible basis returns (None, None, (x, d)), x + t d is feasible for every t >= 0 and its objective tends to infinity.", "quantifier": "every SEF program, starting basis, every t", "why_tests_cant": "unbounded ray", "anchors": ["pytimize/programs/_linear.py: simplex, simplex_iteration"]}
{"id": "C40", "title": "simplex terminates (Bland's rule)", "statement": "simplex(B) terminates from every feasible basis, including on degenerate programs.", "quantifier": "every SEF program and feasible basis", "why_tests_cant": "cycling cannot be excluded by tests", "anchors": ["pytimize/programs/_linear.py: simplex, simplex_iteration"]}
{"id": "C41", "title": "simplex leaves the program unchanged", "statement": "After simplex or two_phase_simplex returns or raises, A, b, c, z of the program are what they were before the call.", "quantifier": "every program and basis, all exits", "why_tests_cant": "all exits including exceptions", "anchors": ["pytimize/programs/_linear.py: simplex, two_phase_simplex"]}
{"id": "C42", "title": "two_phase_simplex answers are correct", "statement": "When two_phase_simplex returns (x,B,y) x is optimal with certificate y; when it returns (None,None,y) with a vector y the program is infeasible and y certifies it; when it returns (None,None,(x,d)) the program is unbounded along d from feasible x.", "quantifier": "every SEF program", "why_tests_cant": "all programs", "anchors": ["pytimize/programs/_linear.py: two_phase_simplex, auxiliary"]}
{"id": "C43", "title": "two_phase_simplex always answers", "statement": "two_phase_simplex terminates and returns one of its three answers on every SEF program, without raising.", "quantifier": "every SEF program, including redundant rows and degenerate bases", "why_tests_cant": "termination and absence of exceptions over all programs", "anchors": ["pytimize/programs/_linear.py: two_phase_simplex, simplex"]}
{"id": "C44", "title": "solve is sound", "statement": "If solve() returns a vector it is feasible and optimal for the program.", "quantifier": "every well-formed program (any mix of inequalities, free, negative variables, max/min)", "why_tests_cant": "optimality against all points", "anchors": ["pytimize/programs/_linear.py: solve, optimal_value"]}
{"id": "C45", "title": "solve is complete", "statement": "If the program has an optimal solution, solve() returns one.", "quantifier": "every well-formed program", "why_tests_cant": "all programs", "anchors": ["pytimize/programs/_linear.py: solve"]}
{"id": "C46", "title": "auxiliary program decides feasibility", "statement": "auxiliary() always has a feasible basis formed by its last columns, its objective is nonnegative on feasible points, and its optimum is 0 iff the program is feasible.", "quantifier": "every SEF program", "why_tests_cant": "all programs", "anchors": ["pytimize/programs/_linear.py: auxiliary"]}
{"id": "C47", "title": "verify_infeasibility is sound", "statement": "If verify_infeasibility(y) returns True the program has no feasible point.", "quantifier": "every SEF program, every vector", "why_tests_cant": "all points and certificates", "anchors": ["pytimize/programs/_linear.py: verify_infeasibility"]}
{"id": "C48", "title": "verify_unboundedness is sound", "statement": "If verify_unboundedness(x,d) returns True the objective is unbounded on the feasible set.", "quantifier": "every SEF program, every pair of vectors", "why_tests_cant": "all points and certificates", "anchors": ["pytimize/programs/_linear.py: verify_unboundedness"]}
{"id": "C49", "title": "verify_optimality gives an upper bound", "statement": "If verify_optimality(y) returns True then y.b + z bounds the objective of every feasible point; a feasible x attaining it is optimal.", "quantifier": "every SEF program, vector, point", "why_tests_cant": "all points", "anchors": ["pytimize/programs/_linear.py: verify_optimality"]}
{"id": "C50", "title": "Certificates produced by the solver pass its verifiers", "statement": "A certificate returned by simplex/two_phase_simplex makes the corresponding verify_* method return True.", "quantifier": "every SEF program", "why_tests_cant": "all programs", "anchors": ["pytimize/programs/_linear.py: simplex, two_phase_simplex, verify_optimality, verify_infeasibility, verify_unboundedness"]}
{"id": "C51", "title": "in_place=False and copy() isolate the receiver", "statement": "add_constraint, add_variable, to_sef, to_canonical_form, simplex_iteration without in_place, copy() and dual() return programs sharing no state with the receiver: nothing done to the result is visible in the receiver.", "quantifier": "every program, every later mutation", "why_tests_cant": "aliasing over all histories", "anchors": ["pytimize/programs/_linear.py: copy, dual, to_sef, add_constraint, __init__"]}
{"id": "C52", "title": "Strong duality at the simplex optimum", "statement": "The certificate y returned with an optimal solution is feasible for p.dual() and p.dual().evaluate(y) equals the optimal value of p.", "quantifier": "every SEF program", "why_tests_cant": "all programs", "anchors": ["pytimize/programs/_linear.py: simplex, dual"]}
{"id": "C53", "title": "is_canonical_form_for recognises canonical forms", "statement": "is_canonical_form_for(B) is True iff B is a basis whose columns form the identity with zero cost; in particular it accepts to_canonical_form(B). is_feasible_basic_solution(x,B) is True iff x is a basic solution for B and nonnegative.", "quantifier": "every SEF program and basis", "why_tests_cant": "all programs", "anchors": ["pytimize/programs/_linear.py: is_canonical_form_for, is_feasible_basic_solution, is_basic_solution"]}
{"id": "C54", "title": "clear_steps and == terminate with the documented result", "statement": "clear_steps() returns a copy with no steps; p == p.copy() is True.", "quantifier": "every program", "why_tests_cant": "all programs", "anchors": ["pytimize/programs/_linear.py: clear_steps, __eq__"]}
{"id": "C55", "title": "to_rref computes the reduced row echelon form", "statement": "to_rref(M) is row equivalent to M (same solution set of Mx=0) and in reduced row echelon form; is_in_rref accepts exactly matrices in reduced row echelon form.", "quantifier": "every matrix", "why_tests_cant": "all matrices and pivoting patterns", "anchors": ["pytimize/programs/_linear.py: to_rref, is_in_rref"]}
{"id": "C56", "title": "random programs are valid", "statement": "LinearProgram.random(rows, columns, magnitude) always returns a valid program with the requested shape; its entries are the numbers drawn times the magnitude, rounded to hundredths; every valid program whose entries are hundredths of at most the magnitude can be returned.", "quantifier": "every outcome of the random generator", "why_tests_cant": "all random outcomes", "anchors": ["pytimize/programs/_linear.py: LinearProgram.random"]}
{"id": "C57", "title": "graph_polyhedron plots exactly the vertices of the region", "statement": "The points computed by graph_polyhedron are exactly the pairwise intersections of constraint and boundary lines that satisfy every constraint, and the program is unchanged afterwards.", "quantifier": "every two-variable program", "why_tests_cant": "all programs", "anchors": ["pytimize/programs/_linear.py: graph_polyhedron"]}
{"id": "C58", "title": "relax keeps the program and drops integrality only", "statement": "relax() has the same A, b, c, z, objective, inequalities and sign classes as the integer program.", "quantifier": "every integer program", "why_tests_cant": "all programs", "anchors": ["pytimize/programs/_integer.py: IntegerProgram.relax"]}
{"id": "C59", "title": "branch_and_bound answers are feasible and integral", "statement": "A vector returned by branch_and_bound is feasible for the integer program and every variable required to be integral is integral.", "quantifier": "every integer program", "why_tests_cant": "all search trees", "anchors": ["pytimize/programs/_integer.py: branch_and_bound"]}
{"id": "C60", "title": "branch_and_bound answers are optimal", "statement": "A vector returned by branch_and_bound has the best objective value (largest for max, smallest for min) among all feasible integral points, and None is returned only if there is no optimal integral point.", "quantifier": "every integer program and feasible integral point", "why_tests_cant": "optimality over all integral points", "anchors": ["pytimize/programs/_integer.py: branch_and_bound"]}
{"id": "C61", "title": "Equation arithmetic means what it says", "statement": "The LinearEquation produced by any expression built from variables, numbers, +, -, unary -, and scalar * evaluates at every point to the value of that expression.", "quantifier": "every expression tree and every point", "why_tests_cant": "all expression trees", "anchors": ["pytimize/formulations/linear/_equation.py: LinearEquation.__add__, __sub__, __rsub__, __neg__, __mul__", "pytimize/formulations/linear/_variable.py: Variable"]}
{"id": "C62", "title": "Comparisons of equations build the stated constraint", "statement": "For equations e, f (or numbers), e <= f, e >= f, e == f produce a constraint satisfied by exactly the points where e(x) op f(x).", "quantifier": "every pair of equations, every point", "why_tests_cant": "all points", "anchors": ["pytimize/formulations/linear/_equation.py: _generate_constraint, _broadcast_subtract, coefficients"]}
{"id": "C63", "title": "Operators do not change their operands", "statement": "Evaluating e + f, e - f, -e, k*e leaves the equations e and f meaning what they meant before.", "quantifier": "every pair of equations (including e is f) and every later use", "why_tests_cant": "aliasing over all uses", "anchors": ["pytimize/formulations/linear/_equation.py: LinearEquation.__add__, __neg__, __mul__, __sub__"]}
{"id": "C64", "title": "minimize/maximize(...).subject_to(...).where(...) builds the stated program", "statement": "The compiled program has as feasible points exactly the points satisfying every listed constraint and sign condition (unlisted variables free), and its objective is the given expression.", "quantifier": "every objective, constraint list, sign list, point", "why_tests_cant": "all programs and points", "anchors": ["pytimize/formulations/linear/_objective.py: ObjectiveFunction.subject_to", "pytimize/formulations/linear/_abstract.py: AbstractLinearProgram.where, program"]}
{"id": "C65", "title": "where rejects contradictory sign conditions and is atomic", "statement": "where raises ValueError iff some variable is listed twice or with both signs, and a rejected call leaves the program as it was.", "quantifier": "every sequence of where / whereAllPositive / whereAllNegative calls", "why_tests_cant": "all histories", "anchors": ["pytimize/formulations/linear/_abstract.py: where, whereAllPositive, whereAllNegative"]}
{"id": "C66", "title": "Integer formulations produce integer programs", "statement": "maximize/minimize imported from pytimize.formulations.integer produce programs whose variables are required to be integral.", "quantifier": "every formulation", "why_tests_cant": "all formulations", "anchors": ["pytimize/formulations/integer/_objective.py: maximize, minimize", "pytimize/formulations/integer/_abstract.py: AbstractIntegerProgram"]}
{"id": "C67", "title": "GraphParser.parse inverts printing", "statement": "For every nonempty list of edges whose names are word strings (single characters for the compact form) and decimal weights, parse of the printed expression ('ab cd', 'a-b c-d', 'ab:1.5 cd:2', 'x-y:1.5 z-w:2') returns exactly that list, in order.", "quantifier": "every edge list", "why_tests_cant": "all strings", "anchors": ["pytimize/parsers/_graph.py: GraphParser.parse, get_expression_type"]}
{"id": "C68", "title": "GraphParser accepts exactly the four formats", "statement": "get_expression_type returns the index of the format the whole string is in and -1 (parse raises ValueError) when it is in none.", "quantifier": "every string", "why_tests_cant": "all strings", "anchors": ["pytimize/parsers/_graph.py: GraphParser.get_expression_type, parse"]}
{"id": "C69", "title": "LinearParser.parse inverts printing", "statement": "For every nonempty list of terms with distinct indices >= 1, parse of the printed expression (e.g. '-3x_1+4.5x_2') returns the row vector with exactly those coefficients and zeros elsewhere; strings not of that form raise.", "quantifier": "every term list and size", "why_tests_cant": "all strings", "anchors": ["pytimize/parsers/_linear.py: LinearParser.parse, validate_expression"]}
{"id": "C70", "title": "subscript is a digit-wise renaming", "statement": "SymbolParser.subscript replaces every ASCII digit by the corresponding subscript digit, changes no other character, preserves length, and is injective on strings without subscript digits.", "quantifier": "every string", "why_tests_cant": "all strings", "anchors": ["pytimize/parsers/_symbol.py: SymbolParser.subscript"]}
{"id": "C71", "title": "steepest_descent never increases the objective and stops at a near-stationary point", "statement": "For a minimisation, the returned point has objective value at most that of the start, every accepted step satisfies the sufficient-decrease condition, and if it stops before max_iteration the gradient norm at the returned point is at most the tolerance.", "quantifier": "every function, gradient callback, start and parameters", "why_tests_cant": "all functions and iteration histories", "anchors": ["pytimize/programs/_unconstrained.py: steepest_descent"]}
{"id": "C72", "title": "newton_method solves quadratics in one step", "statement": "For a quadratic with invertible Hessian and its exact gradient, newton_method returns the unique stationary point, after one iteration, from any start.", "quantifier": "every quadratic, every start point", "why_tests_cant": "all quadratics", "anchors": ["pytimize/programs/_unconstrained.py: newton_method"]}
{"id": "C73", "title": "Maximisation returns a maximiser", "statement": "With objective 'max', steepest_descent / newton_method return a point of the domain that does not have smaller objective value than the start (resp. the stationary point of a quadratic).", "quantifier": "every function and start", "why_tests_cant": "all functions", "anchors": ["pytimize/programs/_unconstrained.py: UnconstrainedProgram.__init__, steepest_descent, newton_method"]}
{"id": "C74", "title": "branch_and_bound terminates on bounded programs", "statement": "branch_and_bound returns (does not recurse forever and raises nothing) on every integer program whose feasible region is bounded.", "quantifier": "every bounded integer program", "why_tests_cant": "a test sees only finitely many search trees; non-termination cannot be observed", "anchors": ["pytimize/programs/_integer.py: branch_and_bound"]}
{"id": "C75", "title": "parse_multiple parses every expression", "statement": "LinearParser.parse_multiple(expressions, size) raises exactly when parse would raise for one of the expressions, and otherwise returns the rows parse returns for them, in order.", "quantifier": "every list of strings and every size", "why_tests_cant": "all lists of strings", "anchors": ["pytimize/parsers/_linear.py: LinearParser.parse_multiple"]}
{"id": "C76", "title": "The starting point is not modified", "statement": "steepest_descent and newton_method leave the array given as starting point as it was.", "quantifier": "every function, callback, start and parameters", "why_tests_cant": "a test checks the result, and only for the starts it tries", "anchors": ["pytimize/programs/_unconstrained.py: steepest_descent, newton_method"]}
{"id": "C77", "title": "A list as starting point means the same as an array", "statement": "steepest_descent accepts a list of floats as starting point (as its type hint says) and returns the point it returns for the array with the same entries.", "quantifier": "every function, callback, list and parameters", "why_tests_cant": "all functions and lists", "anchors": ["pytimize/programs/_unconstrained.py: Vector, steepest_descent"]}
{"id": "C78", "title": "Backtracking terminates", "statement": "For a differentiable function given with its gradient and parameters alpha > 0, 0 < p < 1, c < 1, steepest_descent returns: no backtracking loop runs forever.", "quantifier": "every differentiable function of real variables, every start, every number of iterations", "why_tests_cant": "termination over all functions and starts", "anchors": ["pytimize/programs/_unconstrained.py: steepest_descent"]}
{"id": "C79", "title": "steepest_descent reaches the tolerance", "statement": "For a function bounded below whose gradient satisfies the quadratic upper bound with constant L, and max_iteration above an explicit bound in L, the parameters and the distance of the start's value to the lower bound, steepest_descent returns a point where the gradient has norm at most the tolerance.", "quantifier": "every such function, every start", "why_tests_cant": "convergence over all smooth functions", "anchors": ["pytimize/programs/_unconstrained.py: steepest_descent"]}
{"id": "C80", "title": "dual() has the same optimal value", "statement": "p has an optimal solution iff p.dual() has one, and then the two optimal values (as computed by evaluate) are equal; if one of them is unbounded the other is infeasible; if one is infeasible the other is infeasible or unbounded.", "quantifier": "every well-formed program", "why_tests_cant": "all programs; optimality quantifies over all points", "anchors": ["pytimize/programs/_linear.py: LinearProgram.dual, evaluate"]}
{"id": "C81", "title": "cs_conditions lists the complementary slackness conditions", "statement": "cs_conditions() lists conditions of the form 'variable = 0 || equation', one per line, such that a feasible point of p and a feasible point of p.dual() satisfy all of them iff both are optimal.", "quantifier": "every program, every pair of feasible points", "why_tests_cant": "all programs and points; optimality quantifies over all points", "anchors": ["pytimize/programs/_linear.py: LinearProgram.cs_conditions, dual"]}
{"id": "C82", "title": "Certificates are complete", "statement": "Every program in SEF is infeasible, unbounded or has an optimal solution, exactly one of these, and in each case there is a certificate that verify_infeasibility, verify_unboundedness or verify_optimality accepts (in the last case one whose bound is the optimal value).", "quantifier": "every SEF program", "why_tests_cant": "existence of certificates for all programs", "anchors": ["pytimize/programs/_linear.py: verify_infeasibility, verify_unboundedness, verify_optimality"]}
{"id": "C83", "title": "is_solution_optimal decides optimality", "statement": "is_solution_optimal(x) returns True iff x is an optimal solution and False otherwise; vectors of the wrong length raise ValueError.", "quantifier": "every program and vector", "why_tests_cant": "optimality quantifies over all points", "anchors": ["pytimize/programs/_linear.py: LinearProgram.is_solution_optimal"]}
{"id": "C84", "title": "IntegerProgram.is_feasible respects integrality", "statement": "For an integer program is_feasible(x) accepts every feasible point whose integral variables are integers and rejects every point one of whose integral variables is not within 1e-10 of an integer.", "quantifier": "every integer program and vector", "why_tests_cant": "all programs and points", "anchors": ["pytimize/programs/_integer.py: IntegerProgram.is_feasible"]}
{"id": "C85", "title": "Maximum stable sets are found", "statement": "For a graph with numeric vertex weights, formulate_max_stable_set followed by branch_and_bound on the returned program terminates and returns a 0/1 vector; the vertices whose mapped entry is 1 form a stable set, and no stable set of the graph has larger total weight.", "quantifier": "every graph and weighting", "why_tests_cant": "optimality over all stable sets of every graph; the composition of two modules", "anchors": ["pytimize/graphs/_undirected.py: UndirectedGraph.formulate_max_stable_set", "pytimize/programs/_integer.py: IntegerProgram.branch_and_bound"]}
{"id": "C86", "title": "Inherited operations of IntegerProgram respect integrality", "statement": "On an IntegerProgram, solve() returns a best integral point, optimal_value() returns its value, and copy() returns an integer program that answers like the original.", "quantifier": "every integer program", "why_tests_cant": "optimality over all integral points of every program", "anchors": ["pytimize/programs/_integer.py: IntegerProgram", "pytimize/programs/_linear.py: LinearProgram.solve, optimal_value, copy"]}
{"id": "C87", "title": "Printed numbers are right", "statement": "_format_number never raises. The text it returns is a numeral; numbers below 1e-10 in absolute value are shown as zero, any other number with relative error at most 5e-4 and the right sign; numbers up to 1e10 with at most three decimals are shown exactly; integers up to 1e10 are shown as their digits followed by a point; the two lengths returned are those of the parts before and behind the point.", "quantifier": "every number", "why_tests_cant": "accuracy over all numbers, with five formats whose boundaries meet; rounding that carries into a new digit", "anchors": ["pytimize/programs/_linear.py: LinearProgram._format_number"]}
{"id": "C88", "title": "The text of a linear program is that program", "statement": "For every linear program with at least one constraint, str()/repr() succeeds and the text can be read back: objective, coefficients, constant, every row with its relation and right-hand side, and the sign condition of every variable are those of the program, numbers with the accuracy of C87 (exact for data with at most three decimals). All rows of the table have their decimal points in the same columns.", "quantifier": "every well-formed program with a constraint", "why_tests_cant": "all shapes, widths, signs and relations", "anchors": ["pytimize/programs/_linear.py: LinearProgram.__repr__", "pytimize/parsers/_symbol.py: SymbolParser.subscript"]}
{"id": "C89", "title": "The text of an integer program shows which variables are integral", "statement": "str()/repr() of an IntegerProgram is the text of the linear program with a further line that tells which variables must be integral.", "quantifier": "every integer program", "why_tests_cant": "all programs and all sets of integral variables", "anchors": ["pytimize/programs/_integer.py: IntegerProgram.__repr__"]}
{"id": "C90", "title": "Recording steps never changes an answer", "statement": "is_feasible, is_basic_solution, to_canonical_form, to_sef, simplex_iteration, simplex, two_phase_simplex and solve return the same result or raise the same exception with show_steps=True and with show_steps=False, whatever steps were recorded before.", "quantifier": "every program with at least one constraint, every argument, every log", "why_tests_cant": "the formatting of every intermediate result would have to succeed for all programs; tests compare a few texts", "anchors": ["pytimize/programs/_linear.py: LinearProgram.__append_to_steps and every method with show_steps", "pytimize/parsers/_description.py: render_descriptor"]}
{"id": "C91", "title": "show_steps decides whether steps are recorded", "statement": "A call with show_steps=False leaves the recorded steps as they are; a call with show_steps=True keeps the old steps and puts new ones behind them.", "quantifier": "every program with at least one constraint, every method that takes show_steps", "why_tests_cant": "all programs, methods and nested calls; the copies made inside must pass on what they record", "anchors": ["pytimize/programs/_linear.py: steps, simplex, two_phase_simplex, solve, is_feasible, is_basic_solution, to_sef, to_canonical_form"]}
{"id": "C92", "title": "The recorded steps tell the truth", "statement": "The steps recorded by is_feasible, is_basic_solution and simplex state the answer that is returned: feasible or not and why, which columns outside the basis are not zero, one program per iteration that is a canonical form of the program given, the last one with the objective value of the solution as its constant, and the solution, basis and certificate returned.", "quantifier": "every program and argument", "why_tests_cant": "the log must agree with the answer on every path; tests look at the answer", "anchors": ["pytimize/programs/_linear.py: is_feasible, is_basic_solution, simplex"]}
{"id": "C93", "title": "Step texts are the templates with the arguments filled in", "statement": "render_descriptor(key, args) raises KeyError exactly for unknown keys and IndexError exactly if arguments are missing; else it is the template with its placeholders replaced from left to right. steps_string is the texts of the steps, separated by line feeds, without white space around.", "quantifier": "every key, arguments, and log", "why_tests_cant": "all combinations of key and number of arguments, all logs", "anchors": ["pytimize/parsers/_description.py: render_descriptor", "pytimize/programs/_linear.py: steps_string"]}
{"id": "C94", "title": "Solving a formulation solves the problem as written", "statement": "For p = maximize(obj).subject_to(e1 <= f1, ...).where(...) (or minimize), a vector returned by p.solve() has one entry per variable, satisfies every comparison and every sign condition as written, and no point that does has a better value of obj; and if a best point exists, p.solve() returns one.", "quantifier": "all objectives, lists of comparisons, and calls of where; all sizes", "why_tests_cant": "composes expression evaluation, compilation, conversion to SEF and the two-phase simplex method for unboundedly many expressions; optimality quantifies over all points", "anchors": ["pytimize/formulations/linear/_abstract.py: __getattr__, program", "pytimize/formulations/linear/_objective.py: subject_to", "pytimize/programs/_linear.py: solve"]}
{"id": "C95", "title": "A program is independent of the arrays it was built from", "statement": "LinearProgram(A, b, c, ...) shows the arrays it was given. Afterwards no method of the program, in place or not, changes arrays of the caller, and no write of the caller into their arrays changes the program.", "quantifier": "every heap, arguments, and every interleaving of methods and writes", "why_tests_cant": "sharing shows only for particular combinations of argument types, methods and later writes; all interleavings are quantified over", "anchors": ["pytimize/programs/_linear.py: __init__, __to_ndarray, to_sef, simplex, simplex_iteration"]}
{"id": "C96", "title": "What a formulation compiles to does not depend on methods called on it before", "statement": "For a formulation p, methods called on p (which are methods of its compiled program), in place or not, do not influence the program that p compiles to after a later call of where, nor the programs of other formulations made from the same objective.", "quantifier": "every formulation, list of methods with arguments, and sign conditions", "why_tests_cant": "needs all sequences of methods between two compilations", "anchors": ["pytimize/formulations/linear/_abstract.py: program, where", "pytimize/formulations/linear/_objective.py: subject_to", "pytimize/formulations/linear/_utilities.py: pad_right"]}
{"id": "C97", "title": "The text of an undirected graph determines its vertices and neighbours", "statement": "For undirected graphs whose vertex names contain no ':', '-' or line break, repr(g) == repr(h) holds exactly if g and h have the same vertices and the same neighbours of every vertex; in particular the text does not depend on the order in which the graph was built (for names of any kind).", "quantifier": "every two undirected graphs reached by any constructor arguments and any history of calls", "why_tests_cant": "equality of texts for all pairs of graphs and all construction orders", "anchors": ["pytimize/graphs/_undirected.py: __repr__"]}
{"id": "C98", "title": "An undirected graph contains exactly what it was told to contain", "statement": "UndirectedGraph(graph, edges, vertices) raises ValueError exactly if some given edge is a loop or has an empty name; otherwise has_vertex, has_edge, get_vertex_weight, get_edge_weight and the neighbours are those of the weighted graph described by the arguments (a vertex named anywhere, an edge named in graph or edges in either direction, the last weight given or 0). After any further calls of add_vertex, add_edge, set_vertex_weight, set_edge_weight they are those of the weighted graph obtained by doing these calls on unordered pairs, where exactly negative weights in add calls, loops, empty names, things already there and things not there are rejected, without effect. Edges written as text and parsed by GraphParser give the graph with these edges and weights.", "quantifier": "every constructor arguments and every history of calls (remove_edge excepted, see C17); every list of edges as text", "why_tests_cant": "all histories and all orders of arguments", "anchors": ["pytimize/graphs/_undirected.py: __init__, add_edge, add_vertex, set_edge_weight, set_vertex_weight, get_edge_weight, get_vertex_weight, has_edge, has_vertex", "pytimize/parsers/_graph.py: parse"]}
{"id": "C99", "title": "A directed graph contains exactly what it was told to contain", "statement": "DirectedGraph(graph, arcs, nodes) raises ValueError exactly if some given arc is a loop; otherwise its nodes, arcs, weights and successors are those of the weighted digraph described by the arguments. After any history of add_node, add_arc, remove_arc, set_arc_weight and set_node_weight they are those of the weighted digraph obtained by doing these calls, with demands given to the new ends, and with remove_nodes the ends without other arcs removed; exactly loops, things already there and things not there are rejected, without effect.", "quantifier": "every constructor arguments and every history of calls", "why_tests_cant": "all histories and all orders of arguments", "anchors": ["pytimize/graphs/_directed.py: __init__, add_arc, add_node, remove_arc, set_arc_weight, set_node_weight, has_arc, has_node"]}
{"id": "C100", "title": "steepest_descent never makes things worse, also in floating point", "statement": "With float arithmetic (each operation rounded, sums taken in any order, with or without fused multiply-add), an objective callback that returns floats and nonnegative alpha, c, p: the point returned by steepest_descent for a minimisation has an objective value (as computed by the callback) at most that of the start, and if fewer than max_iteration iterations were made then the norm of the callback's vector there is at most the tolerance, up to the rounding errors of computing the norm.", "quantifier": "every rounding function that is monotone, idempotent and odd with bounded error (double arithmetic is one), every order of summation, all callbacks, parameters, start points, iteration limits", "why_tests_cant": "a test runs one machine's summation order on few callbacks", "anchors": ["pytimize/programs/_unconstrained.py: steepest_descent"]}
{"id": "C101", "title": "steepest_descent always returns in double arithmetic", "statement": "In IEEE double arithmetic without overflow, with a shrinking factor p of at most 1/2 (the default is 1/2), steepest_descent returns for every pair of callbacks, even if the vector given is not a gradient or the objective not continuous. The bound on p is needed: for p = 3/4 there are callbacks for which it loops forever.", "quantifier": "all callbacks whose values are doubles, all start points, iteration limits and parameters alpha, c, tolerance", "why_tests_cant": "termination for all callbacks; the bad case for p = 3/4 is an infinite loop", "anchors": ["pytimize/programs/_unconstrained.py: steepest_descent"]}
{"id": "C102", "title": "Comparator keeps its laws in floating point", "statement": "With rounded operations: for every float exactly one of is_negative, is_close_to_zero, is_positive holds, the sign tests are mirror images, compare with <= is the negation of > and >= that of <, equal numbers are never told apart, the tolerance tests agree with their exact versions up to one percent of the tolerance, and is_integer of a double answers exactly whether an integer is closer than the tolerance.", "quantifier": "every number, every rounding with relative error at most 1e-6 and absolute error below 1e-30; is_integer: every double", "why_tests_cant": "all doubles", "anchors": ["pytimize/utilities/_comparator.py", "numpy.isclose", "math.isclose"]}
{"id": "C103", "title": "is_feasible and evaluate in floating point", "statement": "If is_feasible answers True in rounded arithmetic, the sign restrictions hold and every constraint holds up to an explicit rounding term (n * 2^-52 times the sum of |A_ij x_j| in doubles) and the documented tolerances; a point that satisfies inequality constraints with that much room, or the equations of a program in SEF with rounding terms below the tolerance, is accepted. For integer data and an integer point of moderate size (row sums of |A_ij x_j| up to 5*10^8, right sides up to 90000) the answer is exactly whether the point is feasible, and evaluate is exact below 2^53.", "quantifier": "every program, every point, every order of summation", "why_tests_cant": "the order of summation depends on the machine; all points", "anchors": ["pytimize/programs/_linear.py: is_feasible, evaluate"]}
{"id": "C104", "title": "Certificate checks in floating point", "statement": "In rounded arithmetic an accepted certificate of optimality bounds the objective at every feasible point x by y b + z plus sum_j (1.02e-10 + rounding term) x_j; an accepted certificate of infeasibility excludes every feasible point but those with huge coordinates; an accepted certificate of unboundedness satisfies the defining conditions up to the tolerances. For integer data of moderate size the three checks accept exactly the true certificates, hence programs are optimal, infeasible, unbounded as claimed.", "quantifier": "every program in standard equality form, every certificate, every order of summation", "why_tests_cant": "quantifies over all feasible points of all programs", "anchors": ["pytimize/programs/_linear.py: verify_infeasibility, verify_unboundedness, verify_optimality"]}
{"id": "C105", "title": "Maximum flow in floating point", "statement": "preflow_push with double arithmetic, whatever the order in which sets are traversed and whichever version of the built-in sum, terminates without an exception on digraphs with nonnegative double capacities and returns a flow that respects every capacity and whose value is the maximum.", "quantifier": "every digraph without opposite arcs and with one-character names, every source and sink, every traversal order of sets", "why_tests_cant": "rounding errors occur only for particular combinations of capacities; the claim is about all of them", "anchors": ["pytimize/graphs/_directed.py: preflow_push, _compute_residual"]}
{"id": "C106", "title": "Building expressions with names and augmented assignment", "statement": "In a user's program that binds names to numbers, variables and linear expressions and updates them with =, +=, -=, *=, each name stands for the expression that ordinary algebra gives it, and a statement that binds one name leaves the values of all other names unchanged; `n op= e` has the effect of `n = n op e`.", "quantifier": "every program of assignments of any length, every initial state, every point", "why_tests_cant": "equations are mutated in place, so the outcome depends on which names share an object; tests run single expressions", "anchors": ["pytimize/formulations/linear/_equation.py: __iadd__, __isub__, __imult__, __add__, __sub__, __mul__"]}
{"id": "C107", "title": "The printed formulation is the problem that was written", "statement": "Printing a formulation shows a text from which the problem is read back: the direction of optimisation, the value of the objective at every point and the set of admitted points are those of the objective, the comparisons and the sign conditions as written. Printing does not change what later calls return.", "quantifier": "every formulation with linear expressions, every sequence of accepted where-calls, every point", "why_tests_cant": "composition of the expression algebra, the compilation and the formatting of numbers; tests compare single texts", "anchors": ["pytimize/formulations/linear/_abstract.py: __repr__, program", "pytimize/programs/_linear.py: __repr__"]}
{"id": "C108", "title": "What is read from a program is a snapshot", "statement": "The accessors A, b, c, inequalities, negative_variables, positive_variables, free_variables and steps tell the state of the program at the time of reading; later methods of the program do not change what was read, and what the caller does to it does not change the program. Likewise for the accessors of an undirected graph.", "quantifier": "every program, every history of in-place methods, readings and writes of the caller", "why_tests_cant": "aliasing: depends on which objects are shared after an arbitrary history", "anchors": ["pytimize/programs/_linear.py: A, b, c, inequalities, negative_variables, positive_variables, free_variables, steps", "pytimize/graphs/_undirected.py: graph, edges, vertices"]}
{"id": "C109", "title": "solve returns, and None means there is no optimal solution", "statement": "solve() terminates without raising on every program, and returns None exactly if the program is infeasible or unbounded.", "quantifier": "every well-formed program, with any mixture of equations, inequalities, free and nonpositive variables", "why_tests_cant": "termination and the meaning of None over all programs; the failures need particular shapes or cycles of bases", "anchors": ["pytimize/programs/_linear.py: solve, two_phase_simplex, simplex, to_sef"]}
{"id": "C110", "title": "The demands argument of add_arc", "statement": "add_arc of a new arc between different nodes gives each endpoint that is a new node its documented potential: the number passed as demands if one endpoint is new, the entries of the tuple if both are, 0 without demands; demands is ignored if no endpoint is new; demands of the wrong form raise TypeError and change nothing.", "quantifier": "every digraph, arc, weight and every demands (None, number, tuple of any length)", "why_tests_cant": "all combinations of existing and new endpoints with all forms of demands, including the state left behind by a call that raises", "anchors": ["pytimize/graphs/_directed.py: DirectedGraph.add_arc, add_node"]}
{"id": "C111", "title": "Removing dependent rows keeps the solutions and leaves independent rows", "statement": "__remove_dependent_rows(A, b) returns a system A'x = b' that consists of rows of the given one in their order, has exactly the same solutions, and whose rows are linearly independent.", "quantifier": "every real system Ax = b of any shape", "why_tests_cant": "equality of solution sets and independence over all matrices; the failures need rows beginning with zero, three dependent rows, or almost proportional ones", "anchors": ["pytimize/programs/_linear.py: __remove_dependent_rows (private, not yet called by the program)"]}
{"id": "C112", "title": "The steps, stopping rule and errors of newton_method", "statement": "newton_method makes at least one and at most max_iteration steps (none if that is 0), each of which solves the Newton equation at the current point; if it makes fewer than max_iteration steps the gradient norm at the returned point is at most the tolerance, and at no point between start and result is it; it raises LinAlgError exactly if it reaches a point with singular Hessian (the start included) and nothing else.", "quantifier": "all callbacks, starts, tolerances and iteration limits", "why_tests_cant": "a statement about every run for every pair of callbacks", "anchors": ["pytimize/programs/_unconstrained.py: newton_method"]}
{"id": "C113", "title": "newton_method converges quadratically near a nondegenerate stationary point", "statement": "If the gradient vanishes at p, the Hessian is its derivative and Lipschitz near p and invertible at p, then from every start close enough to p newton_method raises nothing, every step squares the error up to a constant, and with a max_iteration above a bound depending only on the tolerance it stops at a point where the gradient norm is at most the tolerance.", "quantifier": "all such functions of any number of real variables, all starts in a neighbourhood, all positive tolerances", "why_tests_cant": "a limit statement over all functions and a continuum of starts", "anchors": ["pytimize/programs/_unconstrained.py: newton_method"]}
{"id": "C114", "title": "newton_method for a minimisation does not increase the objective", "statement": "With objective 'min' the point returned by newton_method has objective value at most that of the start.", "quantifier": "all twice differentiable functions given with gradient and Hessian, all starts", "why_tests_cant": "holds for the convex quadratics and for the example in the tests, fails on whole classes of functions", "anchors": ["pytimize/programs/_unconstrained.py: newton_method"]}
{"id": "C115", "title": "An array of integers as starting point means the same as an array of floats", "statement": "steepest_descent and newton_method return for an array of integers the point they return for the array of floats with the same entries.", "quantifier": "all callbacks, parameters and integer starts", "why_tests_cant": "depends on which lengths the line search accepts on the whole run", "anchors": ["pytimize/programs/_unconstrained.py: steepest_descent, newton_method"]}
{"id": "C116", "title": "The minimum of a strongly convex function is found", "statement": "If f is strongly convex with modulus mu and df its gradient, then a run of steepest_descent or newton_method for 'min' that stops before max_iteration returns a point within tolerance/mu of the minimiser and with a value within tolerance^2/(2 mu) of the minimum; if the gradient is also Lipschitz (curvature at most L), steepest_descent reduces the gap to the minimum geometrically and stops after a number of iterations bounded in terms of the parameters, L and the gap at the start.", "quantifier": "all such functions of any number of variables, all starts, parameters alpha > 0, 0 < p < 1, 0 < c < 1 and tolerances > 0", "why_tests_cant": "an error bound over all functions and starts", "anchors": ["pytimize/programs/_unconstrained.py: steepest_descent, newton_method"]}
{"id": "C117", "title": "steepest_descent on convex functions", "statement": "On a convex function with its gradient and c >= 1/2 (the default is 0.7), steepest_descent never returns a point farther from a minimiser than the start, and if the curvature is at most L, the value after k iterations exceeds the minimum by at most the squared distance of start and minimiser divided by 2k times the smallest step length.", "quantifier": "all convex functions, minimisers and starts, parameters alpha > 0, 0 < p < 1, 1/2 <= c < 1", "why_tests_cant": "a rate over all functions and starts", "anchors": ["pytimize/programs/_unconstrained.py: steepest_descent"]}
{"id": "C118", "title": "in_place=True and in_place=False compute the same program", "statement": "add_constraint, add_variable, to_sef, to_canonical_form and simplex_iteration leave in the receiver (in_place=True) or in the returned program (in_place=False) exactly the program that the call computes, for programs from the constructor, from copy(), from dual() and after any earlier calls, although matrices, vectors, lists and dictionaries are shared and written to in place.", "quantifier": "every program object, every history of calls, copies and duals", "why_tests_cant": "aliasing and in-place writes over all programs and all histories", "anchors": ["pytimize/programs/_linear.py: add_constraint, add_variable, to_sef, to_canonical_form, __to_canonical_form, simplex_iteration, copy, dual, __init__"]}
{"id": "C119", "title": "Answers that pass the checks are optimal in double arithmetic", "statement": "For a program in SEF, if is_feasible(x) and verify_optimality(y) answer True in double arithmetic and evaluate(x) returns r, then x is feasible up to the tolerances and no feasible point beats r by more than y b + z - r plus stated rounding errors; for integer data and integer vectors of moderate size the three checks (with r equal to y b + z) pass exactly for a feasible x and a dual feasible y in complementary slackness, and x is then optimal.", "quantifier": "every program in SEF, every x and y, every order of summation", "why_tests_cant": "optimality over all feasible points, rounding in every order of summation", "anchors": ["pytimize/programs/_linear.py: is_feasible, verify_optimality, evaluate", "pytimize/utilities/_comparator.py"]}
{"id": "C120", "title": "Edge hash identifies an edge", "statement": "_hash_edge gives the same text for both orders of the two vertices of an edge, and different texts for different edges.", "quantifier": "every pair of edges with arbitrary vertex names", "why_tests_cant": "all vertex names, including names that contain the separator", "anchors": ["pytimize/graphs/_undirected.py: _hash_edge"]}
{"id": "C121", "title": "Rounding in formulation expressions", "statement": "Evaluating a formulation expression such as 0.1*x[1] - (e + 2*x[3])*3 on Python ints and floats raises exactly when exact arithmetic raises, with the same exception. A linear expression with k additions, subtractions and products evaluates to an equation whose coefficients differ from those meant by at most k/2^50 of the size of the expression (its value with all signs positive and numbers taken at least one); the constant too, where the expression has no constant term that is negated, scaled, subtracted or added from the right. On ints nothing is rounded, whatever their size; on floats that are whole numbers the coefficients are exact while k times the size is below 2^50.", "quantifier": "all expressions, all existing equations, all int and double coefficients, all points", "why_tests_cant": "Rounding depends on every coefficient and on the order of the operations; tests compare a few decimal coefficients.", "anchors": ["pytimize/formulations/linear/_equation.py", "pytimize/formulations/linear/_variable.py"]}
{"id": "C122", "title": "Running time of preflow_push", "statement": "On every digraph with source different from sink, preflow_push stops after a number of iterations bounded by a polynomial in the numbers of nodes and arcs, whatever the capacities, and what it returns is a maximum flow.", "quantifier": "all digraphs, all nonnegative capacities, all pairs of source and sink", "why_tests_cant": "A bound on the iterations over all graphs and capacities; tests run small graphs to the end.", "anchors": ["pytimize/graphs/_directed.py: preflow_push"]}
{"id": "C123", "title": "The names of the nodes do not matter", "statement": "Renaming the nodes of a digraph by any injective renaming changes nothing but the names: the constructor and every later call build the renamed digraph or raise the same exception, and ford_fulkerson and preflow_push return the same value and the renamed flow.", "quantifier": "all digraphs and call histories, all injective renamings, all sources and sinks", "why_tests_cant": "A relation between runs over all digraphs and all renamings; tests use one fixed set of names.", "anchors": ["pytimize/graphs/_directed.py: cut, ncut, add_arc, remove_arc, ford_fulkerson, preflow_push"]}
{"id": "C124", "title": "The arrays of a formulation in double precision", "statement": "A formulation written with Python integers compiles to exactly the program that was written, with the same exceptions, as long as the size of each expression (its value with all signs positive and all variables one) is at most 2^51; beyond that it may not. A constraint written with integers and floats in any mixture gives a row whose coefficients and right-hand side differ from what was written by a relative error of about the number of operations times 2^-50, measured on the size of the expressions, and the comparison of the row is the one written or its mirror image together with all signs. Rounding does not change whether a comparison of two equations raises.", "quantifier": "all integer formulations within the size bound; all closed linear constraints on Python numbers with fewer than 2^50 operations", "why_tests_cant": "A bound over all expressions and all numbers; tests compare a few compiled programs with small integers.", "anchors": ["pytimize/formulations/linear/_equation.py: coefficients, _broadcast_subtract, _generate_constraint", "pytimize/formulations/linear/_objective.py: subject_to"]}
{"id": "C125", "title": "Products of variables are not dropped silently", "statement": "An expression containing a product of two expressions with variables, which no linear program can represent, is never accepted as an objective or as a side of a constraint: evaluating it or using it raises.", "quantifier": "every expression over numbers, x[i], variables and named equations; every formulation", "why_tests_cant": "the expressions are unboundedly many and nested; whether a product is noticed depends on where it stands in the expression, which examples of products alone do not show", "anchors": ["pytimize/formulations/linear/_equation.py:25-64", "pytimize/formulations/linear/_variable.py:37-69", "pytimize/formulations/linear/_objective.py:21-41"]}
{"id": "C126", "title": "Conversion to standard equality form and back does not round", "statement": "For a program whose numbers are doubles, to_sef() and auxiliary() computed in double precision give exactly the program they would give in exact arithmetic. A basic solution of the converted program, in doubles, is translated back to the original variables without rounding, and so to a feasible solution of the original program with the same objective value.", "quantifier": "every linear program whose data are doubles, with any free and negative variables and any constraints; every basis and every vector of doubles that is zero outside it", "why_tests_cant": "a rounding can depend on the bits of any entry; tests use small integers, for which no operation rounds", "anchors": ["pytimize/programs/_linear.py:1559-1628", "pytimize/programs/_linear.py:937-955", "pytimize/programs/_linear.py:987-1010"]}
{"id": "C127", "title": "ford_fulkerson in floating point", "statement": "For capacities that are doubles, ford_fulkerson returns, in double arithmetic, a flow of doubles that respects the capacities and is nonnegative, raises only for bad end points or negative capacities, and computes the exact maximum flow when no intermediate number needs more than 53 bits.", "quantifier": "every digraph with capacities in double precision; every source and sink; both summation algorithms of Python's sum and every order of the sets", "why_tests_cant": "a rounding that overfills an arc needs a tie in two consecutive operations on 53-bit numbers; tests use small whole capacities", "anchors": ["pytimize/graphs/_directed.py:487-566", "pytimize/graphs/_directed.py:335-353"]}
{"id": "C128", "title": "Checked answers to a formulation written with integers", "statement": "If a problem is written with integers, compiled and converted to standard equality form, and integer vectors s and y of moderate size pass is_feasible, verify_optimality and evaluate in double arithmetic, then the vector recovered from s in double arithmetic is a best point of the problem as it was written.", "quantifier": "every formulation of affine expressions with integer numbers of total size at most 2^51, every list of accepted sign conditions, every pair of integer vectors within the stated bounds, every summation order inside NumPy", "why_tests_cant": "the statement joins six computations, each of which could round or misplace a number; a test can only compare with another solver on the instances it tries", "anchors": ["pytimize/formulations/linear/_equation.py:78-125", "pytimize/formulations/linear/_objective.py:21-41", "pytimize/formulations/linear/_abstract.py:89-109", "pytimize/programs/_linear.py:940-951", "pytimize/programs/_linear.py:1559-1628"]}
{"id": "C129", "title": "to_rref in double precision", "statement": "In double precision `to_rref` returns for every matrix with at least one column, and its result is exactly in reduced row echelon form - zeros where the form asks for zeros, ones where it asks for ones, whatever was rounded - provided the entries it takes for one without dividing are one. Its result also belongs to the same system of equations up to rounding.", "quantifier": "For all matrices of doubles of any size; the first part for every rounding.", "why_tests_cant": "Whether an elimination leaves residues depends on the last bits of every quotient along the run; random matrices practically never show the bad cases (in thirty million random quotients near one none left a residue), which are nevertheless there.", "anchors": ["pytimize/programs/_linear.py:1895-1945 (to_rref)", "pytimize/programs/_linear.py:1849-1892 (__is_in_rref)"]}
{"id": "C130", "title": "solve on totally unimodular programs in double precision", "statement": "On a linear program with a totally unimodular constraint matrix and integer right-hand sides, costs and constant of moderate size - flows, assignments, intervals - `simplex`, `two_phase_simplex` and `solve` in double precision return exactly what they would return in exact arithmetic, exceptions included, in whatever order NumPy sums. In particular `solve` returns an integral point that is optimal without any tolerance, or None exactly if there is no optimum. For any program the numbers returned are doubles.", "quantifier": "every totally unimodular program in any form (inequalities, equalities, free and negative variables, maximisation or minimisation) with m*b <= 2^40 and (columns)^2*c*(b+1)+z <= 2^53, every starting basis, every number of iterations, every order of summation", "why_tests_cant": "one rounded number anywhere along a run of unknown length may flip a comparison and send the method to another basis; that none occurs is a statement about all runs on all programs", "anchors": ["pytimize/programs/_linear.py:905-956 (solve)", "pytimize/programs/_linear.py:958-1037 (two_phase_simplex)", "pytimize/programs/_linear.py:1039-1194 (simplex, simplex_iteration)", "pytimize/programs/_linear.py:780-820 (__to_canonical_form)"]}
{"id": "C131", "title": "Linear algebra of the solver in double precision", "statement": "On a totally unimodular matrix `np.linalg.det` and `np.linalg.inv`, computed by Gaussian elimination with partial pivoting in double precision with sums in any order, are exact, and `LinAlgError` is raised exactly for a singular matrix. So on a totally unimodular program `is_basis` accepts exactly the lists of linearly independent columns, and `simplex`, `two_phase_simplex` and `solve` in double precision give the results of exact arithmetic with nothing assumed about the linear algebra but how it is computed.", "quantifier": "every totally unimodular matrix with fewer than 2^53 rows, every choice among pivots of equal size, every order of summation with or without fused multiply-add, division by the pivot or multiplication with its reciprocal", "why_tests_cant": "tests see one library on one machine and a few matrices; that no sum, quotient, logarithm or exponential is ever rounded is a statement about all matrices and all orders", "anchors": ["pytimize/programs/_linear.py:655 (np.linalg.det)", "pytimize/programs/_linear.py:803, 1034, 1100, 1706 (np.linalg.inv)", "pytimize/programs/_linear.py:630-655 (is_basis)", "pytimize/programs/_linear.py:905-956 (solve)"]}
{"id": "C132", "title": "Integer programs in double precision", "statement": "Whatever the program and the linear algebra, a vector returned by `branch_and_bound` in double precision consists of one double per variable, within the tolerance of an integer wherever integrality is required. On a totally unimodular program with integer data of moderate size the search ends at its root and the result is that of exact arithmetic: a best integral point, all of whose entries are exact integers, if there is one, `None` if there is none (infeasible or unbounded), `ValueError` for dependent equations.", "quantifier": "every integer program; for the second part every totally unimodular one with integers within the stated bounds, every choice of required variables, every implementation of the elimination", "why_tests_cant": "optimality over all integral points with every rounding of every run", "anchors": ["pytimize/programs/_integer.py:41-56 (branch_and_bound)", "pytimize/programs/_integer.py:58-145 (__branch)", "pytimize/utilities/_comparator.py:95-100 (is_integer)", "pytimize/programs/_linear.py:1492-1512 (evaluate)", "pytimize/programs/_linear.py:905-956 (solve)"]}
{"id": "C133", "title": "Stable sets of bipartite graphs in double precision", "statement": "For a bipartite graph with an edge and integer vertex weights of moderate size, `formulate_max_stable_set` followed by `branch_and_bound` in double precision returns a vector that is exactly 1 at the columns of some stable set of largest weight and exactly 0 at the others.", "quantifier": "every bipartite graph and every choice of integer weights within the stated bounds, every stable set compared with, every implementation of the elimination", "why_tests_cant": "all graphs, all weights, all stable sets, all roundings", "anchors": ["pytimize/graphs/_undirected.py:398-428 (formulate_max_stable_set)", "pytimize/programs/_integer.py:41-56 (branch_and_bound)", "pytimize/programs/_integer.py:58-145 (__branch)", "pytimize/programs/_linear.py:905-956 (solve)"]}
{"id": "C134", "title": "solve in double precision with fractional optima", "statement": "If all subdeterminants of the constraint matrix are, up to a common factor, 0 or powers of two up to 2^K with a sign - relaxed stable sets, half-integral problems - and the other numbers are integers of moderate size, then `np.linalg.inv` in double precision is exact, `is_basis` accepts exactly the lists of linearly independent columns, and `simplex`, `two_phase_simplex` and `solve` in double precision return exactly what they would return in exact arithmetic, exceptions included; for integer matrices `solve` returns an optimal solution, with denominators up to 2^K, if there is one.", "quantifier": "every program of this kind in any form with m*b*16^K <= 2^40 and ((columns)^2*c*(b+1)+z)*16^K <= 2^53, every starting basis, every number of iterations, every order of summation, every implementation of log and exp with relative error 2^-40", "why_tests_cant": "one rounded number anywhere along a run of unknown length may flip a comparison; determinants go through logarithms, which are never exact, so the tolerance must be shown to cover all matrices", "anchors": ["pytimize/programs/_linear.py:905-956 (solve)", "pytimize/programs/_linear.py:958-1037 (two_phase_simplex)", "pytimize/programs/_linear.py:1039-1194 (simplex, simplex_iteration)", "pytimize/programs/_linear.py:630-655 (is_basis)"]}
{"id": "C135", "title": "branch_and_bound in double precision with branching", "statement": "On a bounded integer program whose subdeterminants are powers of two up to a common factor and whose numbers are integers of moderate size, `branch_and_bound` in double precision visits the nodes of exact arithmetic and returns the same vector, exceptions included, although the relaxations have fractional solutions; for programs with two variables per row that is a best integral point with exactly integral entries, or `None` if there is none. So formulating the maximum stable set problem of a graph that becomes bipartite without K of its vertices, or has at most 3K+2 vertices, and solving it in double precision gives a stable set of largest weight, with entries exactly 0 and 1. This includes every graph with up to 20 vertices and integer weights up to 1000.", "quantifier": "every integer program of the kind, every node of the search, every graph with an edge and integer weights, every order of summation, every implementation of log and exp with relative error 2^-40", "why_tests_cant": "a test sees a few searches; here the tolerance tests of every node of every search tree have to decide as in exact arithmetic", "anchors": ["pytimize/programs/_integer.py:41-56 (branch_and_bound)", "pytimize/programs/_integer.py:58-145 (__branch)", "pytimize/utilities/_comparator.py:95-100 (is_integer)", "pytimize/graphs/_undirected.py:398-428 (formulate_max_stable_set)", "pytimize/programs/_linear.py:905-956 (solve)"]}
{"id": "C136", "title": "The names of the vertices do not matter (undirected graphs)", "statement": "Replacing the names of the vertices one to one, in the arguments of the constructor and of all later calls, changes nothing but the names: the same exceptions, the same weights and neighbours, the same answers of is_empty, is_connected, has_spanning_tree, minimum_spanning_tree, is_tree and is_cyclic, the same cuts and degrees, the same vertices at the same distances in a traversal, and stable sets of the same weight. In particular graphs that compare equal with `==`, however they were built, answer and behave alike for ever.", "quantifier": "every one-to-one renaming that keeps the empty name, all constructor arguments, every history of calls, every order in which sets are iterated", "why_tests_cant": "a test compares two graphs under one renaming; sorting by name, hashing and iterating over strings could treat any particular name differently", "anchors": ["pytimize/graphs/_undirected.py:14-68 (constructor)", "pytimize/graphs/_undirected.py:89-103 (__eq__)", "pytimize/graphs/_undirected.py:105-254 (calls and getters)", "pytimize/graphs/_undirected.py:372-396 (cut)", "pytimize/graphs/_undirected.py:398-533 (formulate_max_stable_set, traverse, is_connected, is_cyclic)", "pytimize/graphs/_undirected.py:600-689 (is_empty, degree, is_tree)"]}
{"id": "C137", "title": "How a linear program is written does not matter", "statement": "Writing the constraints or variables in another order, multiplying a constraint by a nonzero number (turning its sign if the number is negative), measuring a variable in another unit, or exchanging max and min together with the signs of the costs, does not change what solve finds: an optimal solution of the same value (in the new units and sign), or None, for the program as written and as rewritten alike; also in double precision, and for branch_and_bound when constraints and variables are reordered.", "quantifier": "all programs P and Q of any size of which Q is a rewriting of P by any permutations and nonzero multipliers", "why_tests_cant": "there are unboundedly many ways to write a program and the simplex method takes another path for each of them; a test compares two", "anchors": ["pytimize/programs/_linear.py:905-956 (solve)", "pytimize/programs/_linear.py:958-1037 (two_phase_simplex)", "pytimize/programs/_linear.py:1559-1628 (to_sef)", "pytimize/programs/_integer.py:41-145 (branch_and_bound)"]}
{"id": "C138", "title": "Whole capacities give whole flows", "statement": "If every weight of an arc ever given, to the constructor of a directed graph or in later calls, is a multiple of some number u, then the value and every entry of the flow returned by preflow_push and by ford_fulkerson is a multiple of u, and so is every weight of create_residual. With whole capacities preflow_push returns a maximum flow in whole numbers.", "quantifier": "every number u, every history of calls, every source and sink, every digraph including those on which the algorithms are wrong", "why_tests_cant": "the sequence of augmentations depends on all capacities; a test sees the numbers of a few runs", "anchors": ["pytimize/graphs/_directed.py:319-353 (create_residual, _compute_residual)", "pytimize/graphs/_directed.py:355-463 (preflow_push)", "pytimize/graphs/_directed.py:487-566 (ford_fulkerson)", "pytimize/graphs/_directed.py:7-166 (constructor and calls)"]}
{"id": "C139", "title": "How the maximum flow changes with the network", "statement": "set_arc_weight that raises (lowers) a capacity by d raises (lowers) the value of the flow returned afterwards by between 0 and d; add_arc with capacity c raises it by between 0 and c; remove_arc of an arc with capacity c lowers it by between 0 and c; with all arcs reversed and source and sink exchanged the value is the same; with all capacities multiplied by k it is multiplied by k.", "quantifier": "all networks, arcs, capacities and end points", "why_tests_cant": "a test compares two particular networks; the runs of the algorithm on them have nothing to do with each other", "anchors": ["pytimize/graphs/_directed.py:63-67 (set_arc_weight)", "pytimize/graphs/_directed.py:75-117 (add_arc)", "pytimize/graphs/_directed.py:139-166 (remove_arc)", "pytimize/graphs/_directed.py:355-463 (preflow_push)", "pytimize/graphs/_directed.py:487-566 (ford_fulkerson)"]}
{"id": "C140", "title": "How the optimum changes with the program", "statement": "After add_constraint the optimal value is not better than before, and the same if the solution found before satisfies the constraint; after add_variable it is not worse, and the same if the new variable is not used. With other costs c' it is at least as good as the objective of the old solution for c'. With other right-hand sides b' it is not better than the old value plus y.(b'-b), where y is what solve finds for dual(); for right-hand sides between two others it is at least the mixture of the two values. branch_and_bound does not find anything better than the relaxation.", "quantifier": "all programs, constraints, variables, costs and right-hand sides for which solve returns solutions", "why_tests_cant": "a test compares two particular programs; the simplex runs on them visit unrelated bases", "anchors": ["pytimize/programs/_linear.py:545-551 (optimal_value)", "pytimize/programs/_linear.py:905-956 (solve)", "pytimize/programs/_linear.py:462-517 (add_variable)", "pytimize/programs/_linear.py:822-872 (dual)", "pytimize/programs/_integer.py:41-145 (branch_and_bound)"]}
{"id": "C141", "title": "Counting edges, and changes of undirected graphs", "statement": "The degrees of the vertices add up to twice the number of edges. is_tree holds iff is_connected and there is one edge less than vertices; a connected graph has at most one vertex more than edges. add_edge between two vertices keeps a connected graph connected, makes a tree no tree, raises degree by one exactly for the sets that separate its ends, and changes is_connected only if bfs did not find one end from the other; add_edge to a new vertex changes neither is_connected nor is_tree; add_vertex makes a nonempty graph unconnected; remove_edge makes a tree unconnected and never connects. The weight of the stable set that is found does not increase by add_edge, decreases by at most the smaller weight of the two ends, and increases by w if add_vertex adds a vertex of weight w.", "quantifier": "all graphs, edges, vertices and weights; any history of calls for the degrees and for remove_edge", "why_tests_cant": "relations between the answers of different functions on arbitrary graphs; tests fix the graphs", "anchors": ["pytimize/graphs/_undirected.py:105-136 (add_edge)", "pytimize/graphs/_undirected.py:138-143 (remove_edge)", "pytimize/graphs/_undirected.py:162-182 (add_vertex)", "pytimize/graphs/_undirected.py:491-504 (is_connected)", "pytimize/graphs/_undirected.py:663-689 (is_tree)", "pytimize/graphs/_undirected.py:372-396 (cut)", "pytimize/graphs/_undirected.py:612-628 (degree)", "pytimize/graphs/_undirected.py:398-428 (formulate_max_stable_set)"]}
{"id": "C142", "title": "The arrays of a formulation are what was written, however it was written", "statement": "maximize(f).subject_to(...) has one row per comparison in the order given, holding the coefficients of the left side minus those of the right side (the other way round, with the operator turned, if a number is on the left), the corresponding right-hand side, as many columns as the largest index in the comparisons, and the coefficients and constant of f. It is accepted iff there is a comparison, f is not a bare Variable, f uses no index beyond those in the comparisons, and no comparison is of two numbers, with a bare Variable on the right of a non-number, or a sign condition. So two texts with equal meanings, reading directions and largest index build the same object; moving a term to the other side or putting a number on the other side changes nothing.", "quantifier": "all objectives and lists of comparisons written with variables, numbers, +, -, * in any way, any earlier use of equations", "why_tests_cant": "all texts of a formulation; tests compare a few arrays", "anchors": ["pytimize/formulations/linear/_equation.py (LinearEquation arithmetic and comparisons, _generate_constraint)", "pytimize/formulations/linear/_variable.py", "pytimize/formulations/linear/_objective.py:21-41 (subject_to)", "pytimize/formulations/linear/_objective.py:59-70 (minimize, maximize)"]}
{"id": "C143", "title": "How the answer of branch_and_bound changes with the integer program", "statement": "After add_constraint branch_and_bound finds nothing better (and nothing if it found nothing), and the same value if what it found satisfies the constraint. If more variables have to be integral it finds nothing better, and the same value if the old answer is integral there. With looser right-hand sides it finds nothing worse. With other costs it finds a vector iff it did before, at least as good for the new costs as the old one. For a variable that has to be integral and any integer k the value found is the better one of those found with x_j <= k and with x_j >= k + 1 added. With integral costs and all variables integral the value is at most that of the relaxation rounded down.", "quantifier": "all integer programs, constraints, integrality lists, right-hand sides and costs", "why_tests_cant": "the search trees of the two programs are unrelated; a test compares two particular ones", "anchors": ["pytimize/programs/_integer.py:41-145 (branch_and_bound)", "pytimize/programs/_linear.py:407-460 (add_constraint)", "pytimize/programs/_linear.py:545-551 (optimal_value)"]}
{"id": "C144", "title": "Maximum flows count paths", "statement": "With whole capacities the flow returned by preflow_push or ford_fulkerson consists of as many paths from source to sink as its value says, each arc being on at most as many of them as there is flow on it. No larger family of paths fits the capacities. With capacities 1 the value is the largest number of paths without common arcs. For any capacities the value is the smallest total capacity (with capacities 1, the smallest number) of arcs that meet every path, and the smallest total weight of cut(S) (with capacities 1, the smallest outdegree(S)) for a set S with the source but not the sink; it is positive iff there is a path along arcs of positive capacity.", "quantifier": "all digraphs with nonnegative capacities, all sources and sinks, all families of paths and sets of arcs", "why_tests_cant": "ranges over all families of paths and all sets of arcs of all networks", "anchors": ["pytimize/graphs/_directed.py:487-566 (ford_fulkerson)", "pytimize/graphs/_directed.py:355-463 (preflow_push)"]}
{"id": "C145", "title": "Canonical forms do not depend on the path to them", "statement": "The canonical form for a basis is unique: two programs with unit columns and zero cost on the basis, the same solutions of their equations and the same objective value on them have the same A, b, c and z. Hence to_canonical_form(B) after to_canonical_form(B') is to_canonical_form(B), a second call with the same basis changes nothing, and another order of the basis only permutes the rows. Calling simplex_iteration in place with the basis it returned never meets a basis it refuses, and reaches the answer of simplex, which restarts every iteration from the original program.", "quantifier": "all SEF programs, bases, orders and numbers of iterations", "why_tests_cant": "ranges over all sequences of bases and all programs", "anchors": ["pytimize/programs/_linear.py:741-820 (to_canonical_form)", "pytimize/programs/_linear.py:1039-1194 (simplex, simplex_iteration)"]}
{"id": "C146", "title": "Answers of simplex can be reproduced from the basis", "statement": "If simplex or two_phase_simplex returns a solution x, a basis B and a certificate y, then simplex started from B, listed in any order, returns the same x, B and y after one iteration and leaves the program as it was. is_basis_feasible(B) is True, compute_basic_solution(B) is x, is_basic_solution(x, B) is True, the canonical form for B has the value of x as its constant, and y reproduces the costs of the columns in B. One iteration suffices from a list iff it is a basis whose basic solution and reduced costs pass the tests with tolerance 1e-10.", "quantifier": "all SEF programs, start bases and orders", "why_tests_cant": "ranges over all programs and all bases, including degenerate and nearly singular ones", "anchors": ["pytimize/programs/_linear.py:958-1194 (two_phase_simplex, simplex, simplex_iteration)", "pytimize/programs/_linear.py:553-739 (is_basic_solution, is_basis, is_basis_feasible, compute_basic_solution)"]}
{"id": "C147", "title": "Spanning trees", "statement": "has_spanning_tree() is True iff some of the edges together with all vertices form a graph for which is_tree() is True; every such tree has one edge less than there are vertices. minimum_spanning_tree() raises ValueError iff there is none and otherwise returns one of least total weight.", "quantifier": "all undirected graphs, all selections of edges, all iteration orders", "why_tests_cant": "ranges over all subsets of the edges of all graphs", "anchors": ["pytimize/graphs/_undirected.py:630-661 (has_spanning_tree, minimum_spanning_tree)", "pytimize/graphs/_undirected.py:663-689 (is_tree)"]}
{"id": "C148", "title": "Ranging: what remains of an answer of simplex when the data change", "statement": "After simplex() returned an optimal answer (x, basis, certificate y): (a) with other right-hand sides b' for which the basis is feasible, simplex(basis) returns in one iteration the basic solution for b', the same basis and the same certificate, and the value changes by y(b' - b); if the basis is not feasible for b' it raises ArithmeticError. (b) With other costs for which no column outside the basis has a reduced cost of 1e-10 or more (in particular when only costs outside the basis decrease), the solution and basis remain. (c) After add_variable with a nonnegative variable of cost c and column a, simplex(basis) returns the same answer with 0 for the new variable if c - ya < 1e-10, and otherwise its next step finds the program unbounded or takes the new variable into the basis.", "quantifier": "all programs of all sizes, all starting bases, all changes of right-hand sides, costs and all new columns", "why_tests_cant": "relates runs on infinitely many modified programs to one run", "anchors": ["pytimize/programs/_linear.py:1039-1194 (simplex, simplex_iteration)", "pytimize/programs/_linear.py:462-517 (add_variable)", "pytimize/programs/_linear.py:699-739 (is_basis_feasible, compute_basic_solution)"]}
{"id": "C149", "title": "Laws of cuts and degrees", "statement": "For any two node sets S and T the weights of cut(S) and cut(T) add up to those of the cuts of their union and intersection plus the weight of the arcs between the two differences; the same for ncut. Hence outdegree, indegree and connections are submodular, and undirected degree is submodular and posimodular. outdegree(S) - indegree(S) is the sum of these differences over the nodes of S; the outdegrees of all nodes add up to the number of arcs, as do the indegrees; cut(S) is ncut of the complement. Union and intersection of two minimum cuts between two nodes are minimum cuts.", "quantifier": "all digraphs and graphs, all pairs of node sets, all weights (nonnegative ones for minimum cuts)", "why_tests_cant": "quantifies over all graphs and all pairs of node sets", "anchors": ["pytimize/graphs/_directed.py:183-317 (cut, ncut, indegree, outdegree, connections)", "pytimize/graphs/_undirected.py:372-396 (cut)", "pytimize/graphs/_undirected.py:612-628 (degree)"]}
{"id": "C150", "title": "How a function to minimise is written does not matter", "statement": "For an UnconstrainedProgram with objective 'min': rewriting the function in coordinates that are shifted, rotated, reordered, reflected or scaled in length, and measuring its values in another positive unit or from another origin, with gradient and second derivative rewritten by the chain rule and step length and tolerance converted to the new units, makes steepest_descent and newton_method return the same point (in the new coordinates) after the same number of iterations, or fail in the same way. newton_method is moreover unaffected by any invertible linear change of coordinates as long as the tolerance does not end its loop. (For 'max' this is false, because the returned point is negated.)", "quantifier": "all functions, gradients and second derivatives, all changes of coordinates, all parameters, all numbers of iterations", "why_tests_cant": "relates pairs of runs for all functions and all coordinate systems", "anchors": ["pytimize/programs/_unconstrained.py:30-80 (steepest_descent)", "pytimize/programs/_unconstrained.py:82-119 (newton_method)"]}
{"id": "C151", "title": "Answers are vertices, and when they are the only ones", "statement": "The solution returned by simplex and two_phase_simplex is never strictly between two different feasible points (it is a vertex of the feasible region), it is zero outside the returned basis and has at most as many nonzero entries as there are rows. The point and direction of an unbounded answer span an edge of the region. A vector returned by solve() is a vertex. Every feasible point is worth the value of the solution plus, for each column, its reduced cost times the entry, so if no reduced cost is positive the best points are the feasible ones that are zero wherever the reduced cost is negative. If every column outside the basis has negative reduced cost, the solution is the only best feasible point; if no entry in the basis is zero, this is also necessary, and the certificate is the only best feasible point of dual().", "quantifier": "all well-formed programs of all sizes, all starting bases", "why_tests_cant": "quantifies over all pairs of feasible points", "anchors": ["pytimize/programs/_linear.py:905-956 (solve)", "pytimize/programs/_linear.py:958-1037 (two_phase_simplex)", "pytimize/programs/_linear.py:1039-1111 (simplex)"]}
{"id": "C152", "title": "Residual networks certify maximum flows and show the minimum cuts", "statement": "A feasible flow is maximum exactly if create_residual(flow) has no walk from the source to the sink. For a maximum flow (such as one returned by preflow_push) the minimum cuts are the sets of nodes with the source and without the sink that no arc of the residual network leaves; the nodes reached from the source are the smallest of them and the nodes from which the sink is not reached the largest, both the same for all maximum flows; there is only one minimum cut exactly if every node is reached from the source or reaches the sink. Raising the capacity of an arc (u, v) allows a larger flow exactly if u is reached from the source and v reaches the sink, that is, the arc leaves every minimum cut; lowering it makes the maximum flow smaller exactly if the arc leaves some minimum cut, that is, if it is full and v is not reached from u.", "quantifier": "all digraphs with source and sink (also with opposite arcs), all feasible flows; for flows returned by the algorithms, digraphs without opposite arcs and with one-letter names", "why_tests_cant": "quantifies over all flows and all cuts", "anchors": ["pytimize/graphs/_directed.py:319-353 (create_residual)", "pytimize/graphs/_directed.py:355-566 (preflow_push, ford_fulkerson)", "pytimize/graphs/_directed.py:63-67 (set_arc_weight)"]}
{"id": "C153", "title": "Newton's method in floating point", "statement": "In floating point newton_method adds, with rounding, what np.linalg.solve gives for the Newton equation, stops at the first point after the start at which the computed norm of the computed gradient is at most the tolerance, makes at most max_iteration steps, and raises LinAlgError exactly if np.linalg.solve does at a point it reaches. Near a stationary point with invertible Hessian, with bounds on the errors of the callbacks and the residual of the solver, every step squares the distance to the point up to a constant and a floor given by those errors and the rounding; so the method raises nothing and comes as near as four times the floor, stops if the tolerance is above what the norm is there, and where it stops early the distance is at most a constant times the tolerance and the error of the gradient. Below the floor it need not stop early.", "quantifier": "all roundings, all callbacks, all solvers and norms, all starts (for the convergence: in the ball of C113), all tolerances and iteration limits", "why_tests_cant": "quantifies over all starts in a ball, all callbacks with bounded errors and all solvers", "anchors": ["pytimize/programs/_unconstrained.py:82-119 (newton_method)"]}
{"id": "C154", "title": "Accuracy of inverses and canonical forms in double precision", "statement": "np.linalg.inv by Gaussian elimination with partial pivoting, in any order of the sums, returns a matrix whose product with the argument is the identity up to an explicit bound in the entries of both; it raises LinAlgError only for matrices every inverse of which has a large entry; and if the inverse of a matrix has entries up to t it is returned up to an explicit bound. In double precision, for size n <= 100 and entries up to a, the relative error is at most d = 100 n^3 (n+2) 4^n a t / 2^52 provided that this is at most 1. With it the coefficients, right-hand side, objective coefficients and constant computed by to_canonical_form are those of the exact canonical form up to explicit multiples of d.", "quantifier": "all matrices and bases, all roundings (first three statements) or double precision, all orders of summation, all variants of division", "why_tests_cant": "quantifies over all matrices and over all orders of summation and ways of dividing that a LAPACK may use", "anchors": ["pytimize/programs/_linear.py:800-815 (__to_canonical_form)", "pytimize/programs/_linear.py:803, 1034, 1100, 1706 (np.linalg.inv)"]}
{"id": "C155", "title": "Newton's method with Gaussian elimination in double precision", "statement": "np.linalg.solve by Gaussian elimination with partial pivoting in double precision raises nothing if the matrix has an inverse with entries that are not too large for the precision, and both the residual and the distance to the exact solution are at most an explicit bound. So newton_method in double precision, near a stationary point with invertible Hessian and with callbacks of bounded errors, raises nothing and comes as near to the point as a floor that depends on the errors of the callbacks, the size of the numbers and the precision only.", "quantifier": "all matrices and right-hand sides of size up to 100, all orders of summation and variants of division; all callbacks with bounded errors, all starts in the ball of C113, all norms, tolerances and iteration limits", "why_tests_cant": "quantifies over all systems, all variants of the elimination and all starts", "anchors": ["pytimize/programs/_unconstrained.py:82-119 (newton_method)", "pytimize/programs/_unconstrained.py:113 (np.linalg.solve)"]}
{"id": "C156", "title": "Determinants and is_basis in double precision", "statement": "np.linalg.det, by Gaussian elimination with partial pivoting and the exponential of the sum of the logarithms of the pivots, differs from the determinant by at most an explicit bound in the size of the matrix and its entries, plus 1/4096 of the determinant. So is_basis answers in double precision what it answers in exact arithmetic unless the determinant is near the tolerance: linearly independent columns of integers are accepted, and on small matrices of small integers dependent ones are rejected. For large entries they are not: is_basis accepts two equal columns with the entries 49 * 2^20 and 2^20.", "quantifier": "all matrices with moderate entries, all lists, all orders of summation and variants of division, all C libraries whose log and exp have a relative error of at most 2^-40", "why_tests_cant": "quantifies over all matrices and all variants of the elimination", "anchors": ["pytimize/programs/_linear.py:630-655 (is_basis)", "pytimize/programs/_linear.py:655 (np.linalg.det)", "pytimize/utilities/_comparator.py:8-26 (is_close_to_zero)"]}
{"id": "C157", "title": "simplex in double precision follows the exact method", "statement": "Let a program in standard equality form have doubles as data. If at every basis that the simplex method in exact arithmetic goes through no decision is close (the determinant of the columns, the reduced costs, the entries of the entering columns, the differences of the ratios and the basic solution keep a distance from the tolerances that is explicit in the sizes of the data and of the inverses), then simplex in double precision goes through the same bases, raises the same exception or ends with the same kind of answer and the same basis, and leaves the same program; the solution and the certificate of optimality differ from the exact ones by at most explicit bounds.", "quantifier": "all programs with doubles as data, all starting bases, any number of iterations, all orders of summation and variants of elimination, all accurate C libraries", "why_tests_cant": "quantifies over all programs, all paths of the method and all variants of the elimination", "anchors": ["pytimize/programs/_linear.py:1039-1111 (simplex)", "pytimize/programs/_linear.py:1113-1194 (simplex_iteration)", "pytimize/programs/_linear.py:780-820 (__to_canonical_form)", "pytimize/utilities/_comparator.py:28-66 (is_close_compare)"]}
{"id": "C158", "title": "Certificates of unboundedness in double precision", "statement": "When simplex in double precision returns (None, None, (x, d)), d is, up to rounding, a direction of unboundedness: A d = 0, d >= 0 and c d > 0, and verify_unboundedness(x, d) returns True.", "quantifier": "all programs in standard equality form with doubles as data for which simplex reports an unbounded program", "why_tests_cant": "quantifies over all programs; the failure depends on the last bit of one reduced cost", "anchors": ["pytimize/programs/_linear.py:1090-1094 (simplex, k = np.argmax(updated_lp.c > 0))", "pytimize/programs/_linear.py:1228-1270 (verify_unboundedness)"]}
{"id": "C159", "title": "Two-phase simplex in double precision decides as the exact method", "statement": "If no decision of the exact two-phase method is within a stated margin of its tolerance, and its first phase ends at a basis of the program itself or with a clearly positive infeasibility, two_phase_simplex in double precision reports the same as in exact arithmetic: the same error, infeasibility with nearly the same certificate, unboundedness, or an optimum with the same basis and nearly the same solution and certificate; solve on a program in standard equality form returns nearly the same vector, or None in the same cases.", "quantifier": "all programs in standard equality form with doubles as data, at most 100 variables in the auxiliary program, every number of steps, every LAPACK that eliminates with partial pivoting", "why_tests_cant": "quantifies over all programs and over all orders of summation of the linear algebra", "anchors": ["pytimize/programs/_linear.py:958-1037 (two_phase_simplex)", "pytimize/programs/_linear.py:905-956 (solve)", "pytimize/programs/_linear.py:1113-1194 (simplex_iteration)"]}
{"id": "C160", "title": "solve in double precision on programs in any form", "statement": "If the data are doubles and no decision of the exact method on the program converted to standard equality form is within a stated margin of its tolerance, and a first phase, if needed, ends at a basis of the converted program or with a clearly positive infeasibility, solve in double precision raises the same errors as in exact arithmetic, returns None in the same cases, and otherwise returns a vector of the same length whose entries are those of the exact solution up to rounding, free and nonpositive variables included.", "quantifier": "all linear programs with doubles as data and at most 100 variables in the auxiliary program of the converted program, every number of steps, every LAPACK that eliminates with partial pivoting", "why_tests_cant": "quantifies over all programs and over all orders of summation of the linear algebra", "anchors": ["pytimize/programs/_linear.py:905-956 (solve)", "pytimize/programs/_linear.py:1559-1628 (to_sef)", "pytimize/programs/_linear.py:958-1037 (two_phase_simplex)"]}
{"id": "C161", "title": "Answers of solve in double precision are right about the program", "statement": "If the data are doubles, no decision of the exact method is within a stated margin of its tolerance, the first phase ends at a basis of the program or with a clearly positive infeasibility, and the program stays clear of the tolerances of the code, then an optimal answer in double precision of two_phase_simplex, or of simplex started at a feasible basis, satisfies the equations and the sign conditions up to rounding, is beaten by no feasible solution by more than rounding, and every entry is near that of an optimal solution; a program reported infeasible has no feasible solution and one reported unbounded has no bound. A vector returned by solve is near an optimal solution of the program, whatever its form, and solve returns such a vector if there is an optimal solution, the rows of the converted program are independent and the columns tried first are no infeasible basis. With enough iterations simplex started at a feasible basis returns an answer, and two_phase_simplex returns one exactly if the program is infeasible or its rows are independent.", "quantifier": "all linear programs with doubles as data and at most 100 variables in the auxiliary program, every number of steps, every LAPACK that eliminates with partial pivoting", "why_tests_cant": "quantifies over all programs, all their feasible solutions and all orders of summation of the linear algebra", "anchors": ["pytimize/programs/_linear.py:905-956 (solve)", "pytimize/programs/_linear.py:958-1037 (two_phase_simplex)", "pytimize/programs/_linear.py:1039-1111 (simplex)"]}
{"id": "C162", "title": "optimal_value in double precision is the optimal value up to rounding", "statement": "Under the conditions of C161, optimal_value in double precision raises the same errors as in exact arithmetic and returns None in the same cases; otherwise the program has an optimal solution and the number returned is its objective value up to a stated bound that depends on the sizes of the data and of the inverses of the bases met. If there is an optimal solution, the rows of the converted program are independent and the columns tried first are no infeasible basis, a number is returned.", "quantifier": "all linear programs with doubles as data and at most 100 variables in the auxiliary program of the converted program, every number of steps, every LAPACK that eliminates with partial pivoting", "why_tests_cant": "quantifies over all programs, all their feasible solutions and all orders of summation of the linear algebra", "anchors": ["pytimize/programs/_linear.py:545-551 (optimal_value)", "pytimize/programs/_linear.py:1492-1512 (evaluate)", "pytimize/programs/_linear.py:905-956 (solve)"]}
