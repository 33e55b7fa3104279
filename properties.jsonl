{"id": "C01", "title": "Graph construction accepts exactly adjacency or Laplacian matrices", "statement": "Constructing a Graph from a square sparse matrix without negative entries succeeds exactly when the entries above the 1e-10 pruning threshold form a symmetric matrix, and then adjacency() is the matrix with entries at most 1e-10 dropped. Constructing from a matrix with a negative entry succeeds only if no off-diagonal stored entry is non-negative and no column sum is negative, and then the adjacency matrix has the negated off-diagonal entries and the row sums on the diagonal (again pruned). Every other input raises a domain error, and no input yields a graph whose adjacency matrix is not symmetric or contains a non-positive stored entry.", "quantifier": "every square sparse matrix in CSC form (any size, any stored pattern, any values)", "why_tests_cant": "the acceptance test is a function of every stored entry of an arbitrary matrix; tests try a handful of matrices", "anchors": ["stag_lib/graph.cpp: adjacency_from_adj_or_lap, Graph::Graph, Graph::self_test_", "stag_lib/utility.cpp: isSymmetric"]}
{"id": "C02", "title": "Laplacian round trip", "statement": "Building a graph from the Laplacian of a graph recovers the original: if every stored weight of g is above the pruning threshold, then Graph(*g.laplacian()) == g, self-loops included.", "quantifier": "every graph constructible from an adjacency matrix, of any size", "why_tests_cant": "must hold for every weighted graph, including self-loops and isolated vertices", "anchors": ["stag_lib/graph.cpp: Graph::initialise_laplacian_, adjacency_from_adj_or_lap, operator=="]}
{"id": "C03", "title": "Derived matrices are never stale", "statement": "After any sequence of add_edge, remove_edge and calls to laplacian(), signless_laplacian(), normalised_laplacian(), normalised_signless_laplacian(), degree_matrix(), inverse_degree_matrix(), lazy_random_walk_matrix(), total_volume() on one Graph, each of those accessors returns exactly what it would return on a freshly built object with the same current adjacency matrix.", "quantifier": "every finite history of mutations and queries, in every order", "why_tests_cant": "stale-cache bugs depend on the interleaving of mutators with seven lazily initialised matrices; the number of histories is unbounded", "anchors": ["stag_lib/graph.cpp: Graph::add_edge, Graph::remove_edge, Graph::initialise_*", "stag_lib/graph.h: Graph"]}
{"id": "C04", "title": "Edge mutation refines an abstract weighted graph", "statement": "A Graph behaves like a pair (number of vertices n, symmetric weight function w): add_edge(i,j,x) makes n the maximum of n, i+1 and j+1 and increases the weight of {i,j} by x (by 2x if i = j), leaving all other weights alone; remove_edge(i,j) sets the weight of {i,j} to 0 and does nothing if either vertex does not exist; no other method changes n or w. Observable adjacency entries, degrees and neighbours after any history are those of the abstract graph.", "quantifier": "every finite sequence of mutating operations and every vertex pair", "why_tests_cant": "unbounded operation histories and graph sizes", "anchors": ["stag_lib/graph.cpp: Graph::add_edge, Graph::remove_edge, Graph::degree, Graph::neighbors"]}
{"id": "C05", "title": "Structural invariants survive mutation", "statement": "For every graph reached from a constructor by any sequence of add_edge and remove_edge with non-negative in-range ids, the adjacency matrix stays square of dimension number_of_vertices(), symmetric, with sorted, duplicate-free, in-range stored entries; and has_self_loops() is true exactly when some diagonal entry is non-zero, provided no self-loop is added with weight zero or cancelled to zero.", "quantifier": "every mutation history", "why_tests_cant": "an invariant over unbounded histories", "anchors": ["stag_lib/graph.cpp: Graph::add_edge, Graph::remove_edge, Graph::has_self_loops, Graph::Graph"]}
{"id": "C06", "title": "number_of_edges counts every edge once", "statement": "If no stored adjacency entry is zero, number_of_edges() is the number of unordered pairs {u,v} (u = v allowed) with non-zero weight. An add_edge with weight zero between distinct unconnected vertices is counted as an edge until the next effective remove_edge.", "quantifier": "every graph reachable from constructors and mutators", "why_tests_cant": "a counting identity over arbitrary sparsity patterns", "anchors": ["stag_lib/graph.cpp: Graph::number_of_edges, Graph::add_edge"]}
{"id": "C07", "title": "Degrees and volume are consistent", "statement": "degree(v) is the sum of the weights of the edges at v with self-loops counted twice, equals the v-th diagonal entry of degree_matrix(), total_volume() is the sum of all degrees and equals twice the total edge weight, and average_degree() times the number of vertices is the total volume.", "quantifier": "every graph and every vertex", "why_tests_cant": "an algebraic identity over all weighted graphs", "anchors": ["stag_lib/graph.cpp: Graph::degree, Graph::degrees, Graph::total_volume, Graph::average_degree, Graph::initialise_degree_matrix_"]}
{"id": "C08", "title": "Laplacian and signless Laplacian identities", "statement": "For every vector x, x'Lx is the sum over edges u<v of w(u,v)(x_u-x_v)^2 plus the sum of w(u,u) x_u^2, and x'Qx is the sum over edges u<v of w(u,v)(x_u+x_v)^2 plus 3 times the sum of w(u,u)x_u^2; hence both are positive semidefinite for non-negative weights, both are symmetric, L+Q is twice the degree matrix, and each row of L sums to the self-loop weight (zero if there are none).", "quantifier": "every symmetric graph and every real vector", "why_tests_cant": "quantifies over all vectors and graphs", "anchors": ["stag_lib/graph.cpp: Graph::initialise_laplacian_, Graph::initialise_signless_laplacian_"]}
{"id": "C09", "title": "Normalised Laplacians are correct and bounded", "statement": "If every vertex has positive degree, normalised_laplacian() is D^{-1/2} L D^{-1/2} (entry (u,v) is [u=v] - w(u,v)/sqrt(d_u d_v)), its quadratic form lies between 0 and 2 times the squared norm of x, and normalised_laplacian() + normalised_signless_laplacian() is twice the identity. The same holds when some vertices are isolated (no entry at all): their rows and columns are those of the identity matrix; but a stored zero weight at a vertex of degree zero (add_edge(u,v,0)) is a NaN in both matrices, an edge of non-zero weight at a vertex of degree zero has infinite entries (of opposite signs in the two matrices), and every stored entry at a vertex of negative degree is a NaN.", "quantifier": "every graph in which each vertex has positive degree or no entry, and every real vector; every stored entry at a vertex of degree zero or negative degree", "why_tests_cant": "an inequality over all vectors", "anchors": ["stag_lib/graph.cpp: Graph::initialise_normalised_laplacian_, Graph::initialise_normalised_signless_laplacian_"]}
{"id": "C10", "title": "Lazy random walk matrix", "statement": "Each column of lazy_random_walk_matrix() of a graph without self-loops and without isolated vertices is a probability distribution that keeps probability 1/2 in place and moves to each neighbour with probability proportional to the edge weight, and the degree distribution is stationary; at a vertex with a self-loop the column sum is strictly less than one. Each column depends on the degree of its own vertex only: an isolated vertex keeps 1/2 and nothing else, and stored entries at a vertex of degree zero become NaN or infinite.", "quantifier": "every graph with positive weights", "why_tests_cant": "an algebraic identity over all graphs", "anchors": ["stag_lib/graph.cpp: Graph::initialise_lazy_random_walk_matrix_"]}
{"id": "C11", "title": "Inverse degree matrix", "statement": "inverse_degree_matrix() is diagonal and its v-th diagonal entry is 1/degree(v), with entry 0 for vertices of degree zero as documented.", "quantifier": "every graph and vertex", "why_tests_cant": "universal over graphs; the documented corner case is about every isolated vertex", "anchors": ["stag_lib/graph.cpp: Graph::initialise_inverse_degree_matrix_", "stag_lib/graph.h: inverse_degree_matrix"]}
{"id": "C12", "title": "Graph equality is equality of weighted graphs", "statement": "For graphs without stored zero entries, g == h holds exactly when they have the same number of vertices and the same weight for every pair of vertices; == is an equivalence relation on all graphs.", "quantifier": "every pair (and triple) of graphs", "why_tests_cant": "quantifies over all pairs of graphs including those with different histories", "anchors": ["stag_lib/graph.cpp: operator==(Graph,Graph)", "stag_lib/utility.cpp: sprsMatInnerIndices, sprsMatOuterStarts, sprsMatValues"]}
{"id": "C13", "title": "Named graph constructors", "statement": "cycle_graph(n) for n>=3 is the n-cycle, complete_graph(n) the complete graph, star_graph(n) the star with centre 0, barbell_graph(n) two n-cliques joined by one edge, identity_graph(n) n vertices with one self-loop each, all with unit weights, with the documented vertex and edge counts, and each rejects sizes below its documented minimum with invalid_argument.", "quantifier": "every size n", "why_tests_cant": "holds for every n; tests check a few n", "anchors": ["stag_lib/graph.cpp: cycle_graph, complete_graph, barbell_graph, star_graph, identity_graph"]}
{"id": "C14", "title": "Graph arithmetic", "statement": "g + h is defined exactly for equal vertex counts (otherwise invalid_argument) and has the entrywise sum of weights; scalar multiplication by c scales every weight by c; on graphs with positive weights addition is commutative and associative as observed by ==.", "quantifier": "every pair of graphs and every positive scalar", "why_tests_cant": "algebraic laws over all graphs", "anchors": ["stag_lib/graph.cpp: operator+(Graph,Graph)", "stag_lib/graph.h: operator*"]}
{"id": "C15", "title": "Subgraph is the induced subgraph", "statement": "subgraph(S) numbers the distinct vertices of S by first occurrence and has exactly the edges of the original graph between vertices of S with their weights; repeated vertices do not create extra vertices and an out-of-range vertex raises invalid_argument.", "quantifier": "every graph and every vector of vertex ids (any order, with repeats)", "why_tests_cant": "quantifies over all graphs and all subsets in all orders", "anchors": ["stag_lib/graph.cpp: Graph::subgraph"]}
{"id": "C16", "title": "Disjoint union", "statement": "disjoint_union(h) has the vertices of g followed by those of h, the edges of both and no edge between them.", "quantifier": "every pair of graphs", "why_tests_cant": "a property of every pair of sparse index arrays, including those with leading isolated vertices", "anchors": ["stag_lib/graph.cpp: Graph::disjoint_union"]}
{"id": "C17", "title": "Sparse matrices from vectors", "statement": "sprsMatFromVectors either raises invalid_argument (inconsistent lengths) or returns a matrix whose outer starts, inner indices and values read back as exactly the given vectors and whose entries are the ones the vectors denote; reading a compressed matrix into vectors and rebuilding gives the same matrix.", "quantifier": "every triple of vectors describing a well-formed CSC matrix, and every length mismatch", "why_tests_cant": "round trip over unbounded data", "anchors": ["stag_lib/utility.cpp: sprsMatFromVectors, sprsMatInnerIndices, sprsMatOuterStarts, sprsMatValues, sprsMatToVec"]}
{"id": "C18", "title": "isSymmetric decides symmetry", "statement": "isSymmetric(M) is true exactly when M(i,j)=M(j,i) for all i,j, for every square matrix, including matrices with stored zeros.", "quantifier": "every square sparse matrix", "why_tests_cant": "a decision procedure over all patterns", "anchors": ["stag_lib/utility.cpp: isSymmetric"]}
{"id": "C19", "title": "Neighbour queries report exactly the incident edges", "statement": "For an existing vertex v, neighbors(v) lists each u with w(v,u) != 0 exactly once, in increasing order, with its weight; neighbors_unweighted lists the same vertices and degree_unweighted counts them with a self-loop counted twice (when there are no stored zeros); for a non-existing vertex they raise invalid_argument, and vertex_exists(v) is true exactly for 0 <= v < n.", "quantifier": "every graph, every 64-bit vertex id including negative", "why_tests_cant": "universal over graphs and ids", "anchors": ["stag_lib/graph.cpp: Graph::neighbors, Graph::neighbors_unweighted, Graph::degree_unweighted, Graph::vertex_exists, Graph::check_vertex_argument"]}
{"id": "C20", "title": "Line reading is newline-convention independent", "statement": "Reading a file line by line yields the same content lines whether the lines end with LF, CRLF or CR, and whether or not the last line is terminated; the loop used by every loader sees each line once and then exactly one extra empty line.", "quantifier": "every byte sequence", "why_tests_cant": "must hold for all mixtures of terminators", "anchors": ["stag_lib/utility.cpp: safeGetline"]}
{"id": "C21", "title": "Edgelist lines parse exactly as documented", "statement": "A content line of two or three fields separated by commas, spaces or tabs (repeated, leading and trailing separators allowed) parses to that edge (default weight 1); a line without a separator or with a single number raises invalid_argument; an id that is not a number raises the error of the conversion (invalid_argument, or out_of_range for an id that does not fit 32 bits); a negative id raises invalid_argument; a last field that is not a number is silently ignored (weight 1).", "quantifier": "every text line", "why_tests_cant": "quantifies over all strings", "anchors": ["stag_lib/graphio.cpp: parse_edgelist_content_line"]}
{"id": "C22", "title": "Loading an edgelist", "statement": "load_edgelist of any file made of comment lines, blank lines and content lines with non-negative weights gives the graph in which the weight of {u,v} is the sum of the weights of the lines naming {u,v} (twice that for u = v), dropped when at most 1e-10, and the vertex count is one more than the largest id; line order, endpoint order and comments do not matter. The first content line that does not parse makes it raise runtime_error (out_of_range escapes for an id beyond 32 bits) and return nothing.", "quantifier": "every edgelist file", "why_tests_cant": "every file, every order of lines", "anchors": ["stag_lib/graphio.cpp: load_edgelist"]}
{"id": "C23", "title": "Edgelist save/load round trip", "statement": "For every graph g without self-loops whose last vertex is not isolated and whose weights are exactly printable, load_edgelist after save_edgelist gives a graph equal to g. Self-loops and trailing isolated vertices are lost.", "quantifier": "every graph", "why_tests_cant": "round trip over all graphs", "anchors": ["stag_lib/graphio.cpp: save_edgelist, load_edgelist"]}
{"id": "C24", "title": "Adjacency list save/load round trip", "statement": "For every graph g whose last vertex is not isolated and whose weights are exactly printable, load_adjacencylist after save_adjacencylist gives a graph equal to g, self-loops included. A line of an adjacency list is the id of a vertex, a colon and the neighbours, each preceded by spaces and given as an id (weight 1) or as id:weight; parsing it gives one edge for each neighbour, in the order of the neighbours' ids.", "quantifier": "every graph", "why_tests_cant": "round trip over all graphs", "anchors": ["stag_lib/graphio.cpp: save_adjacencylist, load_adjacencylist"]}
{"id": "C25", "title": "Sorting an edgelist file", "statement": "For a file whose content lines all parse, sort_edgelist terminates and leaves the leading comment block, then the same multiset of content lines ordered by first endpoint with lines of equal first endpoint in their original relative order, then possibly blank lines; comments after the first content line are dropped. If a content line does not parse, the error is raised before anything is written. (With assertions enabled the debug check can fail on a valid file.)", "quantifier": "every edgelist file with non-negative ids", "why_tests_cant": "termination and correctness of a multi-pass external sort for every file", "anchors": ["stag_lib/graphio.cpp: sort_edgelist, get_edgelist_lines_and_nodes"]}
{"id": "C26", "title": "Edgelist to adjacency list conversion", "statement": "edgelist_to_adjacencylist of any valid edgelist produces an adjacency list file which loads to the same graph and whose content lines are in strictly increasing vertex order (self-loops aside).", "quantifier": "every valid edgelist file", "why_tests_cant": "composition of duplicate, sort and group over every file", "anchors": ["stag_lib/graphio.cpp: edgelist_to_adjacencylist, copy_edgelist_duplicate_edges, sort_edgelist"]}
{"id": "C27", "title": "Adjacency list to edgelist conversion", "statement": "adjacencylist_to_edgelist of a symmetric adjacency list without self-loops produces an edgelist that loads to the same graph; a self-loop comes back with doubled weight.", "quantifier": "every symmetric adjacency list file", "why_tests_cant": "every file", "anchors": ["stag_lib/graphio.cpp: adjacencylist_to_edgelist, load_edgelist, load_adjacencylist"]}
{"id": "C28", "title": "On-disk graph queries return what is in the file", "statement": "For every adjacency list file with strictly increasing vertex ids whose last line is a vertex line, AdjacencyListLocalGraph answers neighbors, degree, degree_unweighted and vertex_exists exactly according to the line of that vertex, and reports missing vertices, for every sequence of earlier queries (the caches never change an answer).", "quantifier": "every sorted file and every query history", "why_tests_cant": "binary search over byte offsets with a cache: every file layout and every history", "anchors": ["stag_lib/graph.cpp: AdjacencyListLocalGraph"]}
{"id": "C29", "title": "On-disk graph queries always return", "statement": "Every query on an AdjacencyListLocalGraph terminates on every adjacency list file in the documented format.", "quantifier": "every file, including those with trailing blank or comment lines", "why_tests_cant": "termination over every file layout", "anchors": ["stag_lib/graph.cpp: AdjacencyListLocalGraph::goto_next_content_line, AdjacencyListLocalGraph::find_vertex"]}
{"id": "C30", "title": "Connected components partition the vertices", "statement": "connected_component(g,v) returns, without repetition, exactly the vertices reachable from v along stored edges (an edge added with weight zero connects); connected_components(g) returns every vertex in exactly one list and two vertices are in the same list exactly when connected; both terminate on every graph, in memory or on disk.", "quantifier": "every graph and every start vertex", "why_tests_cant": "reachability over graphs of any size", "anchors": ["stag_lib/cluster.cpp: connected_component, connected_components"]}
{"id": "C31", "title": "is_connected", "statement": "For a graph with at least one vertex, is_connected() is true exactly when every vertex is reachable from every other one; for the empty graph it raises invalid_argument.", "quantifier": "every graph", "why_tests_cant": "reachability over graphs of any size", "anchors": ["stag_lib/graph.cpp: Graph::is_connected"]}
{"id": "C32", "title": "Symmetric difference", "statement": "symmetric_difference(S,T) returns, sorted and without repetition, exactly the elements in one of S and T but not both, whatever the order and multiplicity of the inputs.", "quantifier": "every pair of integer vectors", "why_tests_cant": "set semantics over all vectors with repeats and orders", "anchors": ["stag_lib/cluster.cpp: symmetric_difference"]}
{"id": "C33", "title": "Conductance", "statement": "For a duplicate-free set S in a graph without self-loops, conductance(g,S) is the cut weight of S divided by the volume of S, 0 when the volume is zero, and always in [0,1]; it does not depend on the order of S.", "quantifier": "every graph and vertex set", "why_tests_cant": "a universally quantified numeric identity and bound", "anchors": ["stag_lib/cluster.cpp: conductance"]}
{"id": "C34", "title": "Sweep set is optimal", "statement": "sweep_set_conductance(g,vec) returns a prefix of the support of vec in the library's sorted order whose conductance is minimal among all the proper prefixes it considers.", "quantifier": "every graph and every sparse vector", "why_tests_cant": "optimality over all prefixes of every vector", "anchors": ["stag_lib/cluster.cpp: sweep_set_conductance, sweep_set_conductance_inner"]}
{"id": "C35", "title": "Approximate PageRank invariants", "statement": "On a graph without self-loops: at every step of approximate_pagerank the total mass in p and r is that of the seed, the entries of p and r are non-negative, and p + pr(alpha, r) = pr(alpha, s); on return every non-isolated vertex satisfies r(v) < epsilon * deg(v) (an isolated vertex keeps the seed's value), so that p(v) <= pr(alpha,s)(v) <= p(v) + epsilon * deg(v). On a graph with self-loops the same holds except that the total mass may shrink (it never grows) and the two relations to the exact PageRank are not claimed.", "quantifier": "every undirected graph with non-negative weights, seed, alpha in (0,1], epsilon > 0, and every step", "why_tests_cant": "loop invariants over executions of unbounded length", "anchors": ["stag_lib/cluster.cpp: approximate_pagerank, push"]}
{"id": "C36", "title": "Approximate PageRank terminates and is local", "statement": "For alpha > 0 and epsilon > 0, on any undirected graph with non-negative weights (self-loops included), approximate_pagerank performs pushes with total pushed degree at most mass(seed)/(epsilon*alpha) and returns, so the volume of the support of p does not depend on the size of the graph. With alpha = 0 it need not return.", "quantifier": "every graph, seed, alpha, epsilon", "why_tests_cant": "termination and a work bound for all inputs", "anchors": ["stag_lib/cluster.cpp: approximate_pagerank, push"]}
{"id": "C37", "title": "Local clustering returns a sound cluster", "statement": "local_cluster returns a set of existing vertices without repetition; it is contained in the support of the approximate PageRank vector, has volume at most 100 times the target volume, and is empty exactly when the seed is isolated or its degree exceeds the target volume.", "quantifier": "every graph, seed and target volume", "why_tests_cant": "all inputs", "anchors": ["stag_lib/cluster.cpp: local_cluster, local_cluster_acl"]}
{"id": "C38", "title": "Adjusted Rand index", "statement": "ARI(a,b) = ARI(b,a); ARI is invariant under renaming the clusters of either side and under permuting the points; ARI(a,a) = 1 whenever it is defined; length mismatch raises invalid_argument; it never exceeds 1.", "quantifier": "every pair of label vectors", "why_tests_cant": "invariance over all relabelings and permutations", "anchors": ["stag_lib/cluster.cpp: adjusted_rand_index, contingency_table, nChoose2"]}
{"id": "C39", "title": "Mutual information", "statement": "mutual_information(a,b) is symmetric and non-negative and equals H(a)+H(b)-H(a,b); normalised_mutual_information is symmetric and at most 1.", "quantifier": "every pair of label vectors", "why_tests_cant": "information inequalities over all labelings", "anchors": ["stag_lib/cluster.cpp: mutual_information, normalised_mutual_information, entropy"]}
{"id": "C40", "title": "Random graphs are simple-vertexed and in range", "statement": "Every graph produced by sbm, general_sbm, erdos_renyi, for every outcome of the random source, has the sum of the cluster sizes as its vertex count, is symmetric with integer non-negative weights, has no self-loops, and (in exact mode) no multi-edges; edges between clusters i<=j appear only if the corresponding upper-triangular probability is positive, and when all probabilities are 1 the graph is complete. Also in approximate mode, the total weight between two clusters (or inside one) is at most the number of pairs of vertices.", "quantifier": "every parameter choice and every sequence of random draws", "why_tests_cant": "quantifies over all random outcomes", "anchors": ["stag_lib/random.cpp: sbm, general_sbm, general_sbm_internal, sample_edges_directly, sample_edges_binomial, erdos_renyi"]}
{"id": "C41", "title": "SBM ground-truth labels match the generated graph", "statement": "sbm_gt_labels / general_sbm_gt_labels return one label per generated vertex, and label c on exactly the vertices of cluster c.", "quantifier": "every parameter choice", "why_tests_cant": "all sizes", "anchors": ["stag_lib/random.cpp: sbm_gt_labels, general_sbm_gt_labels"]}
{"id": "C42", "title": "Writing an SBM to disk equals generating it in memory", "statement": "For the same random draws, general_sbm_edgelist writes an edgelist whose edges are those of the graph general_sbm returns.", "quantifier": "every parameter choice and sequence of draws", "why_tests_cant": "all random outcomes", "anchors": ["stag_lib/random.cpp: general_sbm_edgelist, general_sbm"]}
{"id": "C43", "title": "LSH returns exactly the colliding points", "statement": "E2LSH::get_near_neighbors(q) returns, without repetition, exactly the stored points whose combined hash value equals that of q in at least one of the L tables; it thus contains every stored point that agrees with q on all K hash functions of one table, in particular every stored point equal to q. (Points that differ in the K hash functions may still share the combined value; but whatever the projections are, this happens for at most a fraction 1/536870912 of the choices of the integer coefficients of a table.)", "quantifier": "every data set, query and choice of hash functions", "why_tests_cant": "all data, all random hash functions", "anchors": ["stag_lib/lsh.cpp: E2LSH, MultiLSHFunction, LSHFunction"]}
{"id": "C44", "title": "LSH collision probability formula", "statement": "collision_probability(K,L,c) = 1-(1-p(c)^K)^L lies in [0,1] for every distance c, does not decrease with L nor increase with K; the single-function value p(c) lies in [0,1] and is within 0.001 of the integral it is documented to compute (with the density of the absolute value of a Gaussian).", "quantifier": "every K, L and distance", "why_tests_cant": "all parameters", "anchors": ["stag_lib/lsh.cpp: E2LSH::collision_probability, LSHFunction::collision_probability"]}
{"id": "C45", "title": "Early-exit distance test is exact", "statement": "For points with at least one coordinate, squared_distance_at_most(u,v,m) returns the squared distance exactly if it is at most m and -1 otherwise (with no coordinates it returns 0 whatever m is).", "quantifier": "every pair of points and bound", "why_tests_cant": "early exit at any coordinate", "anchors": ["stag_lib/kde.cpp: squared_distance, squared_distance_at_most"]}
{"id": "C46", "title": "Exact KDE", "statement": "For a non-empty data set and a >= 0, ExactGaussianKDE::query(q) is the average of exp(-a|q-x|^2) over the data points (over the rows min..max-1 for the range constructor), is in (0,1], and does not depend on the order of the data; with no data it is NaN.", "quantifier": "every data set and query", "why_tests_cant": "all inputs", "anchors": ["stag_lib/kde.cpp: ExactGaussianKDE, gaussian_kde_exact"]}
{"id": "C47", "title": "Batch KDE queries do not depend on the number of threads", "statement": "For every positive number of worker threads and every number of query points, the batch query returns the single-point answers, in order, each written exactly once, under every schedule and every traversal order of the unordered containers (for the CKNS estimator in any arithmetic, floating point included); with hardware_concurrency() = 0 all answers are 0.", "quantifier": "every batch size and thread count, every schedule", "why_tests_cant": "chunk boundaries depend on divisibility; schedules are unbounded", "anchors": ["stag_lib/kde.cpp: CKNSGaussianKDE::query, CKNSGaussianKDE::chunk_query, ExactGaussianKDE::query"]}
{"id": "C48", "title": "CKNS shells partition the data", "statement": "A CKNS hash unit of level j samples the first floor(p n) rows of its permuted copy and adds kernel/p for the sampled points of its distance shell (with a hash table: those that collide with the query); each data point at non-zero distance lies in exactly one shell, points at distance zero are never counted. On average over the permutations a unit without table answers floor(pn)/(pn) times the kernel sum of its shell, so the estimate is unbiased for a power of two of points, while otherwise the outermost ring is never sampled.", "quantifier": "every data set, query, and sampling outcome", "why_tests_cant": "all random outcomes", "anchors": ["stag_lib/kde.cpp: CKNSGaussianKDEHashUnit, ckns_gaussian_rj_squared"]}
{"id": "C49", "title": "CKNS structure is schedule independent", "statement": "The answer of a CKNS estimator built from given copies and hash functions does not depend on the number of threads nor on the order in which the worker threads finished building the units: it is the median over the copies of the level sums of the first accepted (else last) guess, divided by n. With no threads the constructor never returns, and for one data point the default constructors make no copies, so that queries are undefined.", "quantifier": "every completion order of the initialisation tasks", "why_tests_cant": "all interleavings", "anchors": ["stag_lib/kde.cpp: CKNSGaussianKDE::initialize, CKNSGaussianKDE::add_hash_unit"]}
{"id": "C50", "title": "sample_neighbors", "statement": "ExactGaussianKDE::sample_neighbors returns in-range point indices chosen by inverting the cumulative kernel weights at degree times each random draw, so that a point is chosen with probability its share of the kernel weight; it returns as many as there are draws when degree times every draw is below the total kernel weight, and fewer otherwise.", "quantifier": "every data set, query, sample count and random draw", "why_tests_cant": "all random draws", "anchors": ["stag_lib/kde.cpp: ExactGaussianKDE::sample_neighbors"]}
{"id": "C51", "title": "Similarity graph", "statement": "similarity_graph(data,a) is, for every positive number of threads and every schedule, the graph whose vertices are the rows and whose weight between i and j is exp(-a|x_i-x_j|^2), dropped when it is not above 1e-10; self-loops have weight one and the graph is symmetric. (If hardware_concurrency() is 0 the result has no edges.)", "quantifier": "every data set, every thread count, every schedule", "why_tests_cant": "chunking over thread counts", "anchors": ["stag_lib/cluster.cpp: similarity_graph"]}
{"id": "C52", "title": "Approximate similarity graph slots are disjoint", "statement": "The parallel edge samplers of approximate_similarity_graph write each output slot exactly once and never outside the vector, for every schedule; every vertex draws exactly two in-range neighbours; and the resulting graph is symmetric, each vertex adding a fifth of its estimated degree for each neighbour drawn - for data that fit into one leaf of the tree (up to 5000 points by default) unconditionally, for more if the estimators answer positive numbers. (With fewer than two points, or when both halves of a node have estimate 0, the behaviour is undefined; the estimates use a number of points that is one too small, so that the last point of a leaf may never be drawn.)", "quantifier": "every data size, edges per node, thread count and schedule", "why_tests_cant": "disjointness of writes over all chunkings", "anchors": ["stag_lib/cluster.cpp: approximate_similarity_graph, sample_asg_edges"]}
{"id": "C53", "title": "Spectral shift returns eigenpairs of the requested matrix", "statement": "For the adjacency matrix, the Laplacian and the normalised Laplacian (positive degrees), at either end of the spectrum: compute_eigensystem raises invalid_argument exactly when num < 1 or num >= n and runtime_error when the inner solver does not converge; otherwise, if the inner solver meets its contract (eigenpairs of largest magnitude of a symmetric matrix), it returns num orthonormal eigenpairs of the requested matrix, ordered from the requested end, and no vector orthogonal to them has a Rayleigh quotient beyond theirs; residuals are preserved exactly. The smallest (normalised) Laplacian eigenvalue of a loop-free graph is 0.", "quantifier": "every graph, matrix kind and end of spectrum", "why_tests_cant": "all graphs and all solver outputs", "anchors": ["stag_lib/spectrum.cpp: compute_eigensystem, compute_eigensystem_largestmag"]}
{"id": "C54", "title": "Power method and Rayleigh quotient", "statement": "power_method(M, t, v) raises invalid_argument exactly for t < 0, a non-square M or a v of another dimension, and otherwise returns M^t v scaled to length one (v itself for t = 0, the zero vector if M^t v = 0); unit eigenvectors of positive eigenvalues are returned unchanged. For symmetric M with a dominant eigenvector b that the start is not orthogonal to, the squared sine of the angle to b after t iterations is at most (mu/lambda)^(2t) times the squared tangent at the start, so the result converges to b; for positive semidefinite M the Rayleigh quotient never decreases. Without t, 10*ceil(ln n) iterations are made. rayleigh_quotient raises invalid_argument exactly for a non-square matrix, a vector of another dimension or the zero vector; it does not depend on the scale of the vector, an eigenvector has its eigenvalue, and for symmetric matrices it lies between the smallest and the largest eigenvalue (for graphs: [-d, d] for the adjacency matrix and [0, 2d] for the Laplacian).", "quantifier": "every matrix, vector and number of iterations", "why_tests_cant": "all matrices, vectors and iteration counts; convergence is a statement about every t", "anchors": ["stag_lib/spectrum.cpp: rayleigh_quotient, power_method"]}
{"id": "C55", "title": "k-means: seeding, Lloyd iteration and the generator behind it", "statement": "The draws are the outputs of MT19937 for the 32-bit seed divided by 2^32-1, so a draw can be 1. The k-means++ seeding picks the first centre as row floor(N*u) (row N, undefined behaviour, if the draw is 1) and every further centre with probability proportional to the squared distance to the nearest centre so far. After at least one iteration every label is below k and is that of the nearest of the centres used (first in a tie), and every returned centre is the mean of its points (the origin if it has none). More iterations never increase the cost; the loop stops within k^N+2 iterations; if no cluster becomes empty it stops in a local optimum (in more than 16 dimensions, unless the first total, which leaves out the squared lengths, is 0 by accident). If the data have at most k different rows and no draw is 1, two points have the same label exactly when they are equal.", "quantifier": "every data set, dimension, k, iteration count, seed and starting contents of the output arrays", "why_tests_cant": "monotonicity, termination and optimality over all data and iterations; the draw 1 has probability 2^-32", "anchors": ["stag_lib/KMeansRex/KMeansRexCore.cpp: run_lloyd, assignClosest, pairwise_distance, calc_Mu"]}
{"id": "C56", "title": "Thread pool runs every task exactly once", "statement": "Every task pushed to the pool with at least one worker is executed at most once, and exactly once if its future was waited for or stop(true) returned without stop(false); under every interleaving the program neither deadlocks nor spins (no wake-up is lost), stop(true) returns only after all queued tasks finished and all workers left; with no workers no task runs, and stop(false) may drop queued tasks.", "quantifier": "every interleaving of pushes, workers and stop", "why_tests_cant": "all schedules", "anchors": ["stag_lib/multithreading/ctpl_stl.h: thread_pool"]}
{"id": "C57", "title": "Matrix CSV save/load round trip", "statement": "load_matrix after save_matrix gives back every matrix with at least one row and column whose entries are exactly printable; a loaded matrix has exactly the numbers of the content lines (comma-, space- or tab-separated) as its rows whatever the file size, and a file with rows of different lengths raises runtime_error. A field that is not a number does not raise runtime_error: it is dropped at the end of a line and the exception of std::stod escapes elsewhere.", "quantifier": "every matrix", "why_tests_cant": "round trip over all sizes", "anchors": ["stag_lib/data.cpp: save_matrix, load_matrix, parse_numeric_csv_content_line"]}
{"id": "C58", "title": "Data points view the right row", "statement": "DataPoint(mat,i) exposes exactly row i of the matrix, as a view that follows later changes; DataPoint(vector) exposes the vector; matrix_to_datapoints yields one point per row, in order. (The row index is not checked: out of range is undefined.)", "quantifier": "every matrix and index", "why_tests_cant": "all sizes", "anchors": ["stag_lib/data.cpp: DataPoint, matrix_to_datapoints"]}
{"id": "C59", "title": "Spectral clustering", "statement": "spectral_cluster raises invalid_argument exactly when k < 1 or k > n/2, runtime_error when the eigenvalue computation does not converge, and otherwise returns one label in [0,k) per vertex: a k-means clustering of the rows of the k smallest eigenvectors of the normalised Laplacian. If the graph has exactly k connected components, two rows are orthogonal for different components and parallel, of squared length deg/vol, within one; if moreover degrees are equal within each component, the labels are exactly the connected components. Without equal degrees this can fail: for an edge plus a star with 16 leaves and k=2 every run separates the centre of the star from its leaves.", "quantifier": "every graph without negative weights and with positive degrees, every k, every solver meeting its contract", "why_tests_cant": "all graphs and all choices of eigenvectors", "anchors": ["stag_lib/cluster.cpp: spectral_cluster"]}
{"id": "C60", "title": "The global random generator is not protected in worker tasks", "statement": "With two or more workers the tasks that draw from the global random generator can be inside a draw at the same time: a schedule exists in which two tasks receive the same random number (in C++ a data race).", "quantifier": "every number of workers from two on, every generator", "why_tests_cant": "depends on the schedule", "anchors": ["stag_lib/random.cpp: get_global_rng", "stag_lib/lsh.cpp: MultiLSHFunction", "stag_lib/kde.cpp: add_hash_unit", "stag_lib/cluster.cpp: sample_asg_edges"]}
{"id": "C61", "title": "Cheeger cut is near-optimal", "statement": "On a connected graph with non-negative weights, without self-loops and isolated vertices, cheeger_cut (with an inner solver meeting its contract) returns one label 0/1 per vertex describing a non-trivial set S with phi(S) <= sqrt(2 lambda_2) and every non-trivial set T satisfies lambda_2/2 <= phi(T), hence phi(S) <= 2 sqrt(phi(T)). Graphs with at most two vertices are refused; on a disconnected graph the bound can fail.", "quantifier": "every graph, every solver meeting its contract, every competing set", "why_tests_cant": "all graphs and all cuts", "anchors": ["stag_lib/cluster.cpp: cheeger_cut, sweep_set_conductance", "stag_lib/spectrum.cpp: compute_eigensystem"]}
{"id": "C62", "title": "Multiplicity of the eigenvalue zero", "statement": "For a graph without negative weights or self-loops and with k connected components, of the smallest eigenvalues compute_eigensystem returns for the Laplacian (or, with positive degrees, the normalised Laplacian) exactly the first k are 0 (all, if fewer are asked for) and the others are positive.", "quantifier": "every such graph, number of eigenvalues and solver meeting its contract", "why_tests_cant": "all graphs, all eigenvector choices in a multiple eigenspace", "anchors": ["stag_lib/spectrum.cpp: compute_eigensystem", "stag_lib/graph.cpp: laplacian, normalised_laplacian"]}
{"id": "C63", "title": "Crash safety of saving and sorting", "statement": "save_edgelist, save_adjacencylist, save_matrix and general_sbm_edgelist write straight to the file: after a crash it is as before or holds a beginning of the new text (for every j there is a moment at which just the first j edges are there, and that file loads without an error); no other file changes. sort_edgelist never loses an edge: at every moment the file or a temporary file has exactly the content lines of the original, the file is absent or a beginning of such a file, no other file changes, and when it returns its temporary files are gone; a file with a bad line is refused before anything is touched. But there is always a moment at which the file is gone, and one at which it is empty.", "quantifier": "every text and graph, every edgelist file whose content lines parse, every crash point, every set of temporary names that differ from the file", "why_tests_cant": "every crash point of every file", "anchors": ["stag_lib/graphio.cpp: save_edgelist, save_adjacencylist, sort_edgelist", "stag_lib/utility.cpp: getTempFilename, openTempFile", "stag_lib/data.cpp: save_matrix"]}
{"id": "C64", "title": "Conversions on disk", "statement": "adjacencylist_to_edgelist and edgelist_to_adjacencylist, if the contents convert, return with the converted contents in the output file; nothing but the output (and, while running, temporary files, which are removed) is ever changed, the output being a beginning of the result (or still the old file, for edgelist_to_adjacencylist) until then. edgelist_to_adjacencylist may convert in place, and no crash loses an edge even then; if the input is missing nothing is touched; on a bad line the output is untouched but a temporary file stays behind. adjacencylist_to_edgelist empties the output even if the input is missing, leaves a partial output on a bad line, and in place destroys the graph without an error. copy_edgelist_duplicate_edges writes both directions of every edge and changes nothing but the output; in place it destroys the graph without an error.", "quantifier": "every disk, every input and output name, every crash point", "why_tests_cant": "every file, every crash point", "anchors": ["stag_lib/graphio.cpp: adjacencylist_to_edgelist, edgelist_to_adjacencylist, copy_edgelist_duplicate_edges, sort_edgelist"]}
{"id": "C65", "title": "Several processes at once", "statement": "If two processes read and change disjoint sets of files, then in every interleaving and at every moment each sees its files as if it ran alone; in particular two sorts of different files with different temporary names both succeed. Temporary names are equal exactly when the twenty random values they are made of agree modulo 62; since std::rand is never seeded, two processes use the same ones, and for every two edgelists there is an interleaving of two sorts with a moment at which one edgelist is empty, the other is gone, and no temporary file is left.", "quantifier": "every interleaving of the disk operations of two processes, every two edgelist files", "why_tests_cant": "depends on the schedule of two processes", "anchors": ["stag_lib/graphio.cpp: sort_edgelist", "stag_lib/utility.cpp: random_string, getTempFilename, openTempFile"]}
{"id": "C66", "title": "Exact sampling follows the stochastic block model", "statement": "If the random numbers behind the coin flips are independent and uniform on [0,1), then in exact mode general_sbm, sbm and erdos_renyi return each simple graph with exactly its probability in the model: the product over all pairs of vertices of the probability of their clusters (if joined) or one minus it (if not). For erdos_renyi(n,p) a graph with m edges has probability p^m (1-p)^(n(n-1)/2-m). For every sequence of random numbers, two vertices are joined exactly if the number at the place of the pair is below the probability of their clusters, and every pair has a place of its own.", "quantifier": "every valid parameter choice, every graph on the vertices, every probability space carrying the random numbers", "why_tests_cant": "a statement about the distribution of the output over all random sources, for every graph", "anchors": ["stag_lib/random.cpp: sbm, general_sbm, general_sbm_internal, sample_edges_directly, erdos_renyi"]}
{"id": "C67", "title": "How accurate the CKNS estimates are", "statement": "Over the constructor's random permutations: the fraction of draws for which CKNSGaussianKDE::query answers t times the density or more is at most iterations * C(K1, ceil(K1/2)) * t^-ceil(K1/2), whatever hash functions are drawn. If no hash table is needed (for instance n <= 3000), n is a power of two and the offset is 0, the fraction of draws for which the answer is not within a factor 1 +- eps of the kernel sum over the points different from the query is at most the sum over the iterations of C(K1, ceil(K1/2)) beta^ceil(K1/2), with beta the smaller of max(1, 2^(1+L)) / (eps^2 S) and (before the last iteration) S exp(-1.3 L). A point at the outer radius of its ring collides with the query in some table with modelled probability at least 1 - exp(-K2). The documented (1+eps) approximation does not hold in general: if all points equal the query the density is 1 and the answer 0; and if n is not a power of two and log2 n rounds up to an even number, there are data sets of density at least min_mu for which every draw answers 0.", "quantifier": "every data set, query, kernel parameter, number of copies, hash functions, number of threads and schedule; fractions of all tuples of permutations", "why_tests_cant": "a bound on a probability over (n!)^K1 draws for every data set and query; the counterexamples hold for every draw and schedule", "anchors": ["stag_lib/kde.cpp: CKNSGaussianKDE constructors, initialize, query, CKNSGaussianKDEHashUnit, ckns_gaussian_create_lsh_params", "stag_lib/kde.h: CKNSGaussianKDE"]}
{"id": "C68", "title": "Probability with which an LSH object finds a stored point", "statement": "When the projections are independent standard Gaussian vectors, the offsets uniform in [0,1] and the coefficients uniform on 1..m, one LSHFunction gives two different points x, y the same value with probability exactly p(|x-y|), the integral documented for collision_probability. E2LSH(K, L).get_near_neighbors(q) returns a stored point x different from q with probability exactly 1-(1-s)^L, where s (the probability of equal keys in one table) lies between p^K and p^K + 1/m. In particular, for m = 536870912, the true probability of returning a point and the value of E2LSH::collision_probability(K, L, distance) differ by at most 0.001*K*L + L/m. A stored point equal to q is always returned (L >= 1, C43).", "quantifier": "every dimension, data set, query, K, L and number m of coefficients; probability over the Gaussian, uniform and coefficient draws of the constructors", "why_tests_cant": "an equation between probabilities over continuous random draws, for every pair of points", "anchors": ["stag_lib/lsh.cpp: LSHFunction, MultiLSHFunction, E2LSH::E2LSH, E2LSH::get_near_neighbors, E2LSH::collision_probability", "stag_lib/lsh.h: LSHFunction::collision_probability documentation"]}
{"id": "C69", "title": "Distribution of the neighbours drawn for approximate_similarity_graph", "statement": "When the uniform numbers are independent and uniform in [0,1) and the binomial numbers are binomially distributed (and the data fit into one leaf, or the cutoff is at least 2 and the estimators answer positive numbers), sampling num neighbours of a row never fails and the neighbours are, up to order, num independent draws from one distribution over the rows. In a leaf, row j has the probability of the part of its kernel value that lies below the estimated degree when the kernel values are laid end to end, divided by the estimated degree. At an inner node a child is chosen in proportion to the estimated weights. If every estimated weight is within a factor 1 +- eps of the kernel sum, each row is drawn with the probability k(q,x_j)/sum up to powers of (1+eps)/(1-eps) (the lower bound for rows that lie below the estimate of their leaf). The expected weight of the edge {i,j} is 2/5 (deg_i P(i draws j) + deg_j P(j draws i)) however the calls for different rows depend on each other: for data in one leaf at most 4/5 of k(x_i,x_j), exactly 4/5 of it if both rows lie below the estimates, and at most 2/5 of it for the last row if its kernel value is at most the average.", "quantifier": "every data set, kernel parameter, cutoff, estimator answers, query row, number of samples; probability over all random draws, any joint distribution of the calls", "why_tests_cant": "equations between probabilities and expectations over continuous random draws, for every data set and tree", "anchors": ["stag_lib/cluster.cpp: KDETreeEntry::sample_neighbors, KDETreeEntry::estimate_weight, sample_asg_edges, approximate_similarity_graph", "stag_lib/kde.cpp: ExactGaussianKDE::sample_neighbors"]}
{"id": "C70", "title": "Approximate mode of general_sbm: termination with probability one, law and expected weights", "statement": "With a random generator whose draws have their distributions and are independent, general_sbm on valid arguments (and sbm on any arguments) runs for ever with probability zero, also in approximate mode where edges are drawn by rejection. The list of sampled edges has exactly this distribution: blocks are independent; a block in exact mode, with probability at least 1/2 or with fewer than 10000 pairs tosses one independent coin per pair; a larger sparse block with p*M < 1 is empty; any other draws a normal number with mean pM and variance (1-p)pM, rounded down and forced into [0,M], and then that many independent uniformly random pairs of different vertices. Hence the expected weight of the edge {u,v} is p in the first case, 0 in the second and E[number]/T in the third, where T is the number of possible edges and M what the code takes for it (m*m/2 inside a cluster instead of m(m-1)/2), which is within (sigma+1)/T of pM/T.", "quantifier": "all cluster sizes, probability matrices, both modes, all pairs of vertices; probability over all random draws, unbounded number of rejections", "why_tests_cant": "termination with probability one, exact laws and expected values cannot be observed; a run may take arbitrarily many rejections", "anchors": ["stag_lib/random.cpp: sample_edges_binomial, sample_edges_directly, general_sbm_internal, general_sbm, sbm"]}
{"id": "C71", "title": "Cached weights of the KDE tree under concurrency", "statement": "The tasks of approximate_similarity_graph ask one shared tree for weights of rows at its nodes; each node keeps the weights it has computed in a map guarded by a mutex. In every interleaving of any number of threads, every weight returned is the weight the node would compute without any cache (also when the maps have been filled by the batch computation of the degrees before); no two threads touch the map of a node at the same time and no thread holds two mutexes; as long as some thread has a call to make or to finish, some thread can take a step (no deadlock); if each thread makes finitely many calls, every execution ends after a bounded number of steps, with all calls answered. This relies on an id always being used with the same point: asking with a known id and another point returns the weight of the first point.", "quantifier": "all trees, data, clients (the next call may depend on earlier answers), numbers of threads, interleavings and initial contents of the maps that are correct", "why_tests_cant": "Tests observe a few schedules; data races, deadlocks and stale cache entries depend on the schedule.", "anchors": ["stag_lib/cluster.cpp: KDETreeEntry::estimate_weight", "stag_lib/cluster.cpp: KDETreeEntry::estimate_weights", "stag_lib/cluster.cpp: sample_asg_edges", "stag_lib/cluster.cpp: approximate_similarity_graph"]}
{"id": "C72", "title": "How good the clustering of k-means++ is", "statement": "When the random numbers are independent and uniform in [0,1), the rows that RunKMeans takes as first centres are distributed as in k-means++: the first uniform, each further one with probability proportional to the squared distance to the nearest centre before it. For every data set, every k >= 1 and every number of iterations >= 1, the expected cost of the centres and labels returned is at most 8(ln k + 2) times the cost of any k centres with any labels; with probability at least 1/2 it is at most 16(ln k + 2) times that, and for every c > 0 it exceeds c with probability at most 8(ln k + 2)/c times that cost. If some k centres have cost zero, the result has cost zero with probability one. With the initialisation \"random\" and k <= N the call returns with probability one and starts from a uniformly random sequence of k different rows; with k > N it never returns.", "quantifier": "all data sets, dimensions, k, numbers of iterations, contents of the output arrays and competitor clusterings", "why_tests_cant": "A distribution and an expected approximation factor against all clusterings cannot be observed by finitely many runs.", "anchors": ["stag_lib/KMeansRex/KMeansRexCore.cpp: sampleRowsPlusPlus, discrete_rand, randint, select_without_replacement, sampleRowsRandom, run_lloyd, RunKMeans", "stag_lib/cluster.cpp: spectral_cluster"]}
{"id": "C73", "title": "How good the set found by local clustering is", "statement": "On a graph without self-loops and with non-negative weights, for every set T of vertices of positive volume and every locality 0 < alpha <= 1: vertices making up at least half the volume of T are good seeds, in that the exact PageRank vector from them keeps all but cond(T)/alpha of its mass in T. From a good seed v of T, local_cluster_acl returns, and the conductance phi that stag::conductance reports for the returned set satisfies 1 - cond(T)/alpha - error*vol(T) <= alpha*t + sqrt(vol(T)/deg(v)) * (1 - phi^2/8)^t for every t. In particular phi^2 <= 32 alpha ln(16 vol(T)/deg(v)) when alpha <= 1/4, cond(T) <= alpha/4 and error <= 1/(4 vol(T)); the call without an error argument meets this for vol(T) <= 250; and local_cluster gives phi^2 <= (2/25) ln(12 vol(T)/deg(v)) when cond(T) <= 1/1000 and vol(T) <= target/10.", "quantifier": "all graphs behind a LocalGraph, target sets, seeds, localities, errors and target volumes", "why_tests_cant": "An approximation guarantee relative to every possible target set of every graph cannot be settled by examples.", "anchors": ["stag_lib/cluster.cpp: local_cluster, local_cluster_acl, approximate_pagerank, push, sweep_set_conductance, conductance"]}
{"id": "C74", "title": "What the command-line tools do", "statement": "With a wrong number of arguments, or numbers stag_sbm cannot parse, a tool prints its usage text, exits with EINVAL and touches no file. stag_edge2adj and stag_adj2edge on a readable file exit with 0 and leave an output that loads to the graph of the input, changing nothing else; one after the other (no self-loops, positive weights) they give back an edgelist of the same graph, also over the original. If the input does not exist they end with an uncaught runtime_error; stag_adj2edge has then emptied the output. stag_sbm with 1 <= k <= n and probabilities in [0,1] exits with 0 exactly when the generator returns, and its file loads to the generated graph of the block model with k clusters of size n/k, p within and q between them, up to isolated vertices at the end. With k > n or a bad probability it ends with an uncaught invalid_argument and the file, overwritten already, has no edges.", "quantifier": "all command lines, file contents, file systems, temporary names and random sources", "why_tests_cant": "It ranges over all files, argument lists and random draws; the error cases concern what is lost on disk.", "anchors": ["stagtools/adj2edge.cpp: main", "stagtools/edge2adj.cpp: main", "stagtools/sbm.cpp: main"]}
{"id": "C75", "title": "Vector helpers and comparison operators", "statement": "addVectors returns a vector as long as the longer argument whose entries are the sums, missing entries counting as zero, and does not depend on the order of its arguments. sprsMatToVec(m, n) returns the first n entries of the first column, filled up with zeros, and raises invalid_argument exactly for n < 1; without n it returns the whole column. == and != of edges compare both ends, in order, and the weight. != of graphs without stored zeros holds exactly when the number of vertices or some weight differs.", "quantifier": "all vectors, sparse matrices, edges and graphs", "why_tests_cant": "It ranges over all vectors and matrices of all sizes.", "anchors": ["stag_lib/utility.h: addVectors", "stag_lib/utility.cpp: sprsMatToVec", "stag_lib/graph.cpp: operator==, operator!="]}
{"id": "C76", "title": "Approximate PageRank in floating point", "statement": "Let every arithmetic operation of approximate_pagerank be rounded with relative error at most u (round to nearest with p bits: u = 2^-p; no overflow or underflow), and let the reported degrees be off by at most k such errors. Then no push fails, p and r stay non-negative, and after N pushes p + pr(alpha, r) differs from pr(alpha, s) by at most ((1-u)^(-(6+k)N) - 1) * mass(s) in the 1-norm. If alpha*epsilon*deg(v) is at least 8(6+k) u mass(s) at every non-isolated vertex the call returns, and its result satisfies p(v) - E <= pr(alpha,s)(v) <= p(v) + (1+2(1+k)u) epsilon deg(v) + E with E = 8(6+k) u mass(s)^2/(alpha epsilon min deg). If alpha is so small that 1 - alpha rounds to 1 (alpha <= 2^-54 for doubles) the call can run forever although alpha > 0.", "quantifier": "every rounding, graph without self-loops, seed, alpha, epsilon and every step", "why_tests_cant": "the error bound ranges over all graphs and executions of unbounded length; non-termination cannot be observed by a test", "anchors": ["stag_lib/cluster.cpp: approximate_pagerank, push"]}
{"id": "C77", "title": "Rounding in conductance, sweep sets and local clustering", "statement": "With doubles in place of real numbers (a rounding after every operation, no overflow or underflow): stag::conductance agrees with the exact conductance up to a relative error of (2L+1)|S|+1 roundings, L the largest number of neighbours in S; sweep_set_conductance on a LocalGraph returns a prefix whose exact conductance is within 2*eta of the least one, where eta is about (m(2+k+2L)+k+1)*2^-53 for a support of m vertices and degrees off by k roundings; if the weights are multiples of a power of two (unweighted graphs for instance) and the total volume has less than 53 bits, sweep_set_conductance on a LocalGraph or Graph returns the best prefix up to two roundings, and never a longer one than a strictly shorter prefix of at most equal conductance; local_cluster_acl returns under the precision condition of C76, with a set of bounded volume whose conductance is within 2*eta of the best sweep set, with bounds that do not depend on the size of the graph. For other weights sweep_set_conductance on a Graph gives no such guarantee: on a triangle with weights 0.4, 0.3, 0.3 it returns all three vertices.", "quantifier": "every rounding function with relative error u (binary floating point with any precision as an instance), every graph with non-negative weights, every vertex list, every vector, every seed and parameters", "why_tests_cant": "tests compare a few results with a tolerance; the accumulated error depends on the order and number of operations for every graph, and the failure of the Graph version appears only for weights whose sums round differently in two orders", "anchors": ["stag_lib/cluster.cpp: conductance, sweep_set_conductance, local_cluster_acl", "stag_lib/graph.cpp: Graph::degree, Graph::total_volume"]}
{"id": "C78", "title": "Six digits survive in files", "statement": "Edge weights and matrix entries are written with six significant decimal digits: the printed number is the nearest one with six digits, reading it gives the nearest double, which differs from the original by at most 5.01e-6 of its size and is printed the same way again. Exactly the doubles nearest to a six-digit number are read back unchanged, among them all integers of up to six digits. So load_edgelist(save_edgelist(g)), load_adjacencylist(save_adjacencylist(g)) and load_matrix(save_matrix(m)) give the graph or matrix with every number rounded in this way, for all finite weights (and matrix entries not below 2^-1021), and saving again writes the same file; an edge whose rounded weight does not exceed EPSILON is lost.", "quantifier": "every number, graph and matrix", "why_tests_cant": "all doubles, all graphs", "anchors": ["stag_lib/graphio.cpp: save_edgelist, save_adjacencylist, load_edgelist, load_adjacencylist", "stag_lib/data.cpp: save_matrix, load_matrix", "stag_lib/definitions.h: EPSILON"]}
{"id": "C79", "title": "The Laplacian round trip in doubles", "statement": "With doubles, Graph(*g.laplacian()) throws std::domain_error exactly when, for some vertex, the rounded sum of its column of the computed Laplacian is negative; otherwise it returns a graph with the same vertices and the same edges between distinct vertices, in which a vertex has a self-loop of weight that sum if it exceeds 1e-10 and none otherwise. The sum differs from the weight of the vertex's self-loop by at most 2d+3 rounding errors relative to its degree (d neighbours), so an accepted Laplacian of a graph without self-loops and with moderate degrees gives the graph back. If all weights are multiples of a common power of two and the volume fits in 53 bits (unweighted graphs in particular) the round trip always recovers the graph, self-loops included. Otherwise it need not: a graph with two edges of weight 0.2 and 0.5 at a common vertex has a Laplacian which its own constructor rejects, and with 10000000 and 0.3 a self-loop appears.", "quantifier": "all graphs whose stored weights are doubles above 1e-10, all vertices, all roundings with the standard error bound (binary64 round to nearest among them; no overflow or underflow)", "why_tests_cant": "whether rounding makes a column sum negative depends on every weight of the graph; tests use small integers, for which nothing is rounded", "anchors": ["stag_lib/graph.cpp:26-114 adjacency_from_adj_or_lap, Graph::Graph(const SprsMat&)", "stag_lib/graph.cpp:482-496 Graph::initialise_laplacian_", "stag_lib/graph.cpp:566-583 Graph::initialise_degree_matrix_"]}
{"id": "C80", "title": "What pointers returned by matrix accessors show", "statement": "laplacian(), signless_laplacian(), normalised_laplacian(), normalised_signless_laplacian(), degree_matrix(), inverse_degree_matrix() and lazy_random_walk_matrix() return a pointer into the graph object. In every history of calls on one Graph, the matrix seen through such a pointer is the one of the graph at the moment of the accessor call; it does not change as long as only accessors are called, and add_edge and remove_edge alone do not change it either: it changes only when, after a mutation, a call recomputes that member (the same accessor; for the degree matrix any accessor; for the inverse degree matrix also lazy_random_walk_matrix()). Any accessor call except degree(v) makes a pointer to the degree matrix current again. Accessors never make a history fail.", "quantifier": "every graph, every history of mutations and accessor calls before and after the pointer is taken, every content of uninitialised members", "why_tests_cant": "which members a call rewrites depends on the flags set by the whole history", "anchors": ["stag_lib/graph.cpp:Graph::laplacian", "stag_lib/graph.cpp:Graph::degree_matrix", "stag_lib/graph.cpp:Graph::add_edge", "stag_lib/graph.cpp:Graph::remove_edge", "stag_lib/graph.cpp:Graph::initialise_lazy_random_walk_matrix_"]}
{"id": "C81", "title": "The adjusted Rand index in machine arithmetic", "statement": "With 64-bit integers and doubles, adjusted_rand_index on two clusterings of the same points has undefined behaviour exactly if there are 2^31 or more points or the product of the numbers of equal pairs does not fit into 64 bits (never up to 77936 points; already with 77937 points in one cluster). Otherwise, for fewer than 2^26 points: if the index is defined, the result is a finite number, at most 1, that differs from the exact index by at most (5n+5)*2^-53, and it is exactly 1.0 if the two clusterings are equal up to names; if the index is undefined the result is NaN, except that for two clusterings with a single cluster it is NaN or 1.0 depending on rounding (NaN up to 13777 points, 1.0 with 55136 points). Exchanging the arguments never changes the result.", "quantifier": "all label vectors of every length, all roundings for symmetry and overflow, round-to-nearest-even doubles for accuracy", "why_tests_cant": "accuracy, overflow and exactness for all label vectors", "anchors": ["stag_lib/cluster.cpp:adjusted_rand_index", "stag_lib/cluster.cpp:contingency_table", "stag_lib/cluster.cpp:nChoose2"]}
{"id": "C82", "title": "Kernel density estimates in floating point", "statement": "With every operation rounded to double: squared_distance has a relative error of at most about (d+3) 2^-53 for d coordinates, is symmetric bit for bit, and is zero exactly for equal points; squared_distance_at_most returns the very number squared_distance would, or -1, in spite of its early exit; a kernel value lies in [0,1], is 1 for equal points and its absolute error is bounded by a multiple of d 2^-53 however far apart the points are; ExactGaussianKDE::query lies in [0,1] and is within (n+d+8) 2^-52 of the average kernel, and exactly 1 for copies of the query; the shells of the CKNS estimator still partition the points other than the query although their radii are rounded, a hash unit sums exactly the points of its shell, and a point is in the same shell as in exact arithmetic unless its distance is within the rounding error of a radius.", "quantifier": "every rounding with relative error u (in particular double precision), every library exp of given accuracy, every pair of points, data set, query and level", "why_tests_cant": "Rounding errors depend on all bits of all coordinates; a test compares a few values with a tolerance and cannot bound the error for every input, or show that no point falls between two rounded radii.", "anchors": ["stag_lib/kde.cpp: squared_distance, squared_distance_at_most, gaussian_kernel, gaussian_kde_exact, ckns_gaussian_rj_squared, CKNSGaussianKDEHashUnit::query_neighbors"]}
{"id": "C83", "title": "Hash tables in machine arithmetic", "statement": "With doubles and 64-bit integers, whatever the rounding and the order of Eigen's additions: E2LSH::get_near_neighbors(q) returns without repetition exactly the stored points whose computed hash value agrees with that of q in one of the tables, so every stored copy of the query is found. Construction and queries are defined exactly if no combined hash value overflows; with the drawn coefficients (at most 2^29) this is so when the computed cells of the K functions stay below 2^34/K in absolute value, and the bound is sharp. A hash value equals the exact one unless a projection lies within the rounding error of the border of its cell.", "quantifier": "every rounding, summation order, choice of hash functions, data set and query", "why_tests_cant": "Points near a cell border or with huge coordinates are needed to see the difference, and the summation order depends on the platform.", "anchors": ["stag_lib/lsh.cpp: LSHFunction::apply, MultiLSHFunction::apply, E2LSH::E2LSH, E2LSH::get_near_neighbors"]}
{"id": "C84", "title": "Spectral clustering recovers well-separated clusters", "statement": "Let a graph without negative weights and self-loops be divided into k non-empty clusters, let l > 0 be a lower bound on the eigenvalues of the normalised Laplacian beyond the k smallest (for example the (k+1)-th that compute_eigenvalues returns), and let the defect of the clusters be the sum over them of (sqrt(conductance / l) + sqrt(irregularity))^2, where the irregularity is 0 exactly if all degrees in the cluster are equal. In the embedding that spectral_cluster clusters, the given clusters have k-means cost at most the defect. If the labels returned have k-means cost c, they agree with the clusters: the sum of |common|^2/(|cluster||label class|) over all pairs is at least k - 2 (defect + c); if e = 2 (defect + c) < 1/2, label classes and clusters can be matched so that at most 2 e n vertices do not have the label of their cluster; and if defect + c < 1/(4n), the labels are exactly the clusters. If the draws of k-means++ were independent and uniform, with probability at least 1/2 the agreement would be at least k - 2 (1 + 16 (ln k + 2)) defect.", "quantifier": "all graphs with non-negative weights, no self-loops and positive degrees, all partitions into k non-empty clusters, all eigenvector bases a solver may return", "why_tests_cant": "the statement quantifies over all graphs, all partitions and all admissible bases of eigenvectors; a test sees one graph and one solver run", "anchors": ["stag_lib/cluster.cpp: spectral_cluster", "stag_lib/spectrum.cpp: compute_eigensystem", "stag_lib/KMeansRex/KMeansRexCore.cpp: RunKMeans"]}
{"id": "C85", "title": "Spectral clustering recovers nearly equitable clusters", "statement": "Let the vertices of a graph be divided into k non-empty clusters so that the normalised weight between a vertex u and a cluster i (the sum of w(u,v)/sqrt(deg u deg v) over v in i) is nearly a number b(c,i) that depends only on the cluster c of u. Let the unevenness be the sum of the squared differences, each over the size of the cluster i; let a be a lower bound on the eigenvalues of the k x k matrix with entries b(c,i) sqrt(|c|/|i|), and l > 1 - a a lower bound on the eigenvalues of the normalised Laplacian beyond the k smallest. Even if no cluster has low conductance, in the embedding that spectral_cluster clusters the clusters have k-means cost at most E = unevenness/(l - (1-a))^2; if the labels returned have k-means cost c, their agreement with the clusters is at least k - 2 (E + c), and if e = 2 (E + c) < 1/2, at most 2 e n vertices do not have the label matched with their cluster (none if 2 e n < 1). With independent uniform draws in k-means++, for every c > 0 the agreement is below k - 2 (E + c) with probability at most 8 (ln k + 2) E/c. If the weight between a vertex and a cluster depends only on the cluster of the vertex, the unevenness is zero, vertices are embedded at the same point exactly if they are in the same cluster, and k-means returns the clusters with probability one. A lower bound l follows from a lower bound on the form over the vectors orthogonal to any k vectors.", "quantifier": "all graphs with non-negative weights and positive degrees, all partitions into k non-empty clusters, all numbers b, all eigenvector bases a solver may return", "why_tests_cant": "the statement quantifies over all graphs, all partitions and all admissible bases of eigenvectors; a test sees one graph and one solver run", "anchors": ["stag_lib/cluster.cpp: spectral_cluster", "stag_lib/spectrum.cpp: compute_eigensystem", "stag_lib/KMeansRex/KMeansRexCore.cpp: RunKMeans"]}
{"id": "C86", "title": "Spectral clustering recovers the clusters of the stochastic block model", "statement": "Let the graph be drawn by sbm(k m, k, p, q, exact) with independent uniform random numbers, q < p. (1) For all a, t > 0: except with probability at most 2 k^2 m exp(-2 a^2/m) + 2 (k m)^2 exp(-t^2/(2 k m)) the graph is simple, every number of neighbours of a vertex in a cluster is within a of its expectation, and for every two vertices the sum of the products of the deviations is within t of zero. (2) In every such graph, if the clusters are visible (an inequality in k, m, p, q, a, t), the labels of spectral_cluster agree with the planted clusters up to 2 (E + c), where E is an explicit defect and c the k-means cost of the labels; and k-means with independent uniform random numbers labels all but 4 (E + c) n vertices by their cluster except with probability at most 8 (ln k + 2) E/c. (3) With d m >= 1, 8 k d <= p + (k-1) q, 32 k^2 d <= (p-q)^2 one can take E = 64 k^4 d^2/(p-q)^2, with failure probability at most 2 k^2 m exp(-2 d^2 m) + 2 (k m)^2 exp(-d^2 k m/2) for the graph. (4) Hence for fixed k and q < p the fraction of wrong labels tends to zero in probability as m grows.", "quantifier": "all k, m, p > q, all deviations, all eigenvector bases a solver may return; probability over the draws of sbm and of k-means", "why_tests_cant": "a statement about the distribution of the outcome over all graphs of the model, in the limit of many vertices, cannot be observed by finitely many runs", "anchors": ["stag_lib/random.cpp: sbm, general_sbm_internal, sample_edges_directly", "stag_lib/cluster.cpp: spectral_cluster", "stag_lib/spectrum.cpp: compute_eigensystem", "stag_lib/KMeansRex/KMeansRexCore.cpp: RunKMeans"]}
{"id": "C87", "title": "Random graphs behave as their expectation says", "statement": "In exact mode, and with independent uniform random numbers, the graph returned by general_sbm on n vertices has, for every eps > 0: all cuts (for all sets of vertices at once) within eps of their expected value except with probability 2^(n+1) exp(-8 eps^2 / n^2); all degrees within eps of their expectation except with probability 2 n exp(-2 eps^2 / n); number_of_edges() within eps of its expectation except with probability 2 exp(-2 eps^2 / (n choose 2)). If every pair of vertices is joined with probability at least r, is_connected() answers true, and the graph is connected, except with probability (1 + (1-r)^ceil(n/2))^n - 1; in particular erdos_renyi(n, p) with p >= 4 ln(n) / n is connected except with probability 2/n.", "quantifier": "all cluster sizes, probability matrices, n, p, eps, and all probability spaces of independent uniform draws", "why_tests_cant": "a test sees a handful of random graphs and cannot bound probabilities, nor all 2^n cuts, for every n", "anchors": ["stag_lib/random.cpp: general_sbm, erdos_renyi, sample_edges_directly", "stag_lib/graph.cpp: number_of_edges, degree, is_connected", "stag_lib/cluster.cpp: connected_component"]}
{"id": "C88", "title": "Integers computed through doubles are right", "statement": "Chunk sizes, cluster sizes and tick counts computed as floor((double) a / (double) b) or ceil are the exact quotients rounded down or up for a, b < 2^53 (not beyond): the chunks of a batch cover every row exactly once and sbm(n, k) has k clusters of floor(n/k) vertices. The random row chosen by the k-means seeding is a row unless the 32-bit random integer is the largest one, when it is row N (outside). The matrix read from a file always has room for the next row. Each hash unit of a shell of the CKNS estimator has exactly the rows of the exact computation; the unit of the outermost level has the right number or one row less, and with 49 * 2^k rows and default parameters it has none, so it answers 0 to every query, and log2(n * min_mu) is -1 instead of 0 (at most one more iteration).", "quantifier": "all sizes, numbers of threads and clusters, random integers, levels, offsets, data sets and queries", "why_tests_cant": "one wrong rounding among 2^53 sizes would drop or repeat a row; a test tries a few sizes", "anchors": ["stag_lib/kde.cpp: CKNSGaussianKDEHashUnit, initialize, query", "stag_lib/cluster.cpp: sample_asg_edges, similarity_graph", "stag_lib/random.cpp: sbm", "stag_lib/data.cpp: load_matrix", "stag_lib/KMeansRex/KMeansRexCore.cpp: randint"]}
{"id": "C89", "title": "The power method with its default arguments finds the largest eigenvalue of a positive semidefinite matrix", "statement": "The power method starts from a vector of independent standard normal numbers scaled to length one. For every symmetric positive semidefinite matrix with largest eigenvalue l > 0, every number of iterations t and every delta > 0, the Rayleigh quotient R of the returned vector satisfies, except with probability 2 delta over the start, 0 <= R <= l and (R/l)^(2t) >= delta^3/n; with the default number of iterations, exp(-1/5) l <= R <= l except with probability 2/n. In particular this holds for the Laplacian and the signless Laplacian of every graph with non-negative weights and at least one edge. It does not extend to indefinite matrices: for the adjacency matrix of a single edge, whose largest eigenvalue is 1, the Rayleigh quotient of the result is at most zero with probability at least one half, whatever the number of iterations.", "quantifier": "every symmetric positive semidefinite matrix, number of iterations, failure probability; every graph with non-negative weights", "why_tests_cant": "The guarantee is about the distribution of the random start and must hold for every matrix; a run only sees one start and one matrix.", "anchors": ["stag_lib/spectrum.cpp:power_method", "stag_lib/spectrum.cpp:random_unit_vector", "stag_lib/spectrum.cpp:rayleigh_quotient", "stag_lib/spectrum.h"]}
{"id": "C90", "title": "Derived matrices, graph arithmetic and edge histories in double precision", "statement": "When every operation is rounded (relative error u, no overflow or underflow): for a graph with non-negative floating point weights laplacian() and signless_laplacian() are symmetric bit for bit, exact off the diagonal, and within (1-u)^-(d+2) - 1 of the exact diagonal relative to the degree, d being the number of neighbours; without self-loops and isolated vertices inverse_degree_matrix() is within d + 2 roundings, and lazy_random_walk_matrix() has the diagonal exactly 1/2, non-negative entries within d + 4 roundings, and column sums within half of that of 1; normalised_laplacian() and normalised_signless_laplacian() have exact ones on the diagonal, entries that are negatives of each other, and are within d/2 + d'/2 + 8 roundings of -w/sqrt(deg deg'), but normalised_laplacian() need not be symmetric.  g + h has exactly the rounded sums as weights with nothing pruned, is commutative bit for bit, and is not associative; c * g has the rounded products, dropping those of at most 1e-10, and a negative c raises domain_error on a graph with an edge.  After any history of add_edge and remove_edge the matrix is symmetric and each weight is the rounded running sum in call order; with non-negative weights and m additions it is within 2m roundings of the exact weight and no edge appears or disappears, but the order of the calls matters.", "quantifier": "all roundings, graphs, pairs of vertices, scalars and finite histories of add_edge and remove_edge", "why_tests_cant": "the bounds must hold for every weight and every neighbourhood size, and symmetry for every bit pattern; a test sees one rounding pattern", "anchors": ["stag_lib/graph.cpp:231-282", "stag_lib/graph.cpp:482-619", "stag_lib/graph.cpp:906-911", "stag_lib/graph.h:707-720"]}
{"id": "C91", "title": "Infinite and NaN weights", "statement": "Weights are doubles, so inf and NaN can reach the graph class (files may say inf or nan). A square matrix without negative entries is accepted iff, after replacing everything that is not an infinity or a number above 1e-10 (NaN included) by 0, it is symmetric, and the graph has exactly these weights; a matrix with a negative entry (possibly -inf) is accepted iff every stored off-diagonal entry is negative, no column total is negative (NaN passes) and the described graph is symmetric, self-loops whose row total is NaN being dropped; otherwise domain_error. A constructed graph has no NaN or negative weight, degrees are infinite exactly at the ends of infinite edges, never NaN. add_edge and remove_edge add as IEEE numbers: a NaN weight stays NaN (and so do the degrees of its ends) until the edge is removed. A graph with a NaN weight is unequal to every graph including itself; graphs without NaN and stored zeros are equal iff they have the same weights. Sums of constructed graphs have the sums of the weights; c*g for c not negative has the cleaned products. In an edge list one NaN line makes its edge disappear, an inf line makes it infinite. The Laplacian of a constructed graph is accepted and gives the graph back except for self-loops at vertices of infinite degree. On finite inputs everything agrees with the finite model.", "quantifier": "every sparse matrix, edge list, call history, graph and factor with weights in the reals extended by inf, -inf and NaN", "why_tests_cant": "The claim is over all matrices and histories mixing finite and special values; the case analysis (NaN compares false both ways) is what tests miss.", "anchors": ["stag_lib/graph.cpp: adjacency_from_adj_or_lap, Graph::Graph, add_edge, remove_edge, initialise_laplacian_, operator==, operator+", "stag_lib/graph.h: operator*", "stag_lib/utility.cpp: isSymmetric", "stag_lib/graphio.cpp: load_edgelist"]}
{"id": "C92", "title": "Spectral clustering of well-separated points", "statement": "Let the rows of a data matrix of n rows fall into k groups of at least mu points, so that the Gaussian similarity exp(-a|x-y|^2) of two points of a group is at least t > 1e-10 and of two points of different groups at most b (or not above 1e-10, in which case b = 0 will do). similarity_graph then returns, for every number of threads and every schedule, a graph with self-loops of weight one, weights between t and 1 inside the groups and at most b between them. With spread = (1 - t^2 + n b/mu)/t, gap = t/(2 + n b/mu) - spread - k b/t > 0 and error = k (spread^2 + k b^2/t^2)/gap^2, the groups have k-means cost at most error in the embedding that spectral_cluster clusters. If the labels returned have k-means cost c and e = 2 (error + c) < 1/2, groups and labels can be matched so that at most 2 e n points do not have the label of their group, and none if 2 e n < 1. With independent uniform draws in k-means++ the labels are exactly the groups but for a probability of at most 8 (ln k + 2) error / c, for every c with 4 (error + c) n < 1. If b = 0, connected_components returns exactly the groups.", "quantifier": "all data sets that fall into groups, all numbers of threads and schedules, all eigenvector bases a solver may return", "why_tests_cant": "A test clusters one data set; the guarantee is for every data set whose groups are separated, every schedule and every basis.", "anchors": ["stag_lib/cluster.cpp:935-1005 similarity_graph", "stag_lib/cluster.cpp:37-65 spectral_cluster", "stag_lib/cluster.cpp:571-623 connected_components"]}
{"id": "C93", "title": "Local algorithms depend only on what they explore", "statement": "Let (p, r) be the result of approximate_pagerank from a seed vertex. Every other LocalGraph that gives the same answers about the vertices with an entry in p (their neighbours and degrees, and the degrees of their neighbours) and has the same degree of the seed yields the same (p, r), and local_cluster_acl returns the same cluster on it, whatever the rest of the graph is. In particular any history of add_edge and remove_edge calls, none of whose end points is the seed, a vertex with an entry in p or a neighbour of one, leaves the cluster of the seed unchanged, even if it adds vertices. sweep_set_conductance on a LocalGraph depends only on the neighbours and degrees of the vertices with an entry in the vector, and conductance only on the neighbours of the vertices of the set.", "quantifier": "all pairs of local graphs that agree on the explored vertices, all seeds and parameters, all histories of edits elsewhere", "why_tests_cant": "A test compares two graphs; the claim is about every graph that extends the explored part.", "anchors": ["stag_lib/cluster.cpp:111-150 local_cluster_acl", "stag_lib/cluster.cpp:171-199 push", "stag_lib/cluster.cpp:201-291 approximate_pagerank", "stag_lib/cluster.cpp:296-372 sweep_set_conductance", "stag_lib/cluster.cpp:518-546 conductance"]}
{"id": "C94", "title": "Similarity graphs in floating point", "statement": "With rounded arithmetic (any rounding with relative error u that commutes with a change of sign, any exp with relative error eta and absolute error tau, exact at 0), similarity_graph returns a graph for every data matrix, every a >= 0, every positive number of threads and every schedule (the exact symmetry check of the constructor never fails), and the same graph bit for bit whatever the threads do. Self-loops have weight exactly 1, all weights are between 0 and 1, and with e = eta + tau + ((1-u)^-(d+4) - 1)/exp(1) for points with d coordinates (in double precision at most (d+6) 2^-52) a weight that is kept is within e of exp(-a|x_i - x_j|^2); an edge is there if the true similarity is above EPSILON + e and not there if it is at most EPSILON - e. If the points fall into groups with similarity at least t + e inside and at most max(b, EPSILON) - e between the groups, the floating-point graph meets the conditions of the guarantee for spectral_cluster in C92, and if b = 0 connected_components returns exactly the groups.", "quantifier": "all data matrices, all a >= 0, all roundings and exp functions of the given accuracy, all numbers of threads and schedules", "why_tests_cant": "A test compares a few weights with a tolerance on one machine; the bounds hold for all data, and a failing symmetry check or a lost edge would show only for unlucky roundings.", "anchors": ["stag_lib/cluster.cpp:935-1005 similarity_graph", "stag_lib/kde.cpp:52-93 squared_distance, gaussian_kernel", "stag_lib/graph.cpp:26-114 Graph::Graph"]}
{"id": "C95", "title": "k-means in floating point", "statement": "Let every operation of the k-means code be rounded (double precision, sums of Eigen in any order, no overflow or underflow). The first centre and each further one of the k-means++ seeding is a row of the data; with less than 2^20 points and a random integer below 2^32-1, a further centre differs from all previous ones as long as some row does, and the draw lies in the interval of the row chosen (weights = squared distance to the nearest centre so far) up to a relative error; the first random integer 2^32-1 is undefined behaviour. After at least one iteration every label is below k and is that of the nearest of the centres used, up to the factor 1+2^-46 in at most 16 dimensions and up to 7 D (D+2) 2^-52 B^2 in more (B the largest coordinate); every centre is the mean of its points up to (N+1) 2^-52 B per coordinate, the origin if it has none, but the mean of three equal points need not be that point. More iterations increase the cost by rounding errors only, and it is at most that of any labelling with the initial centres up to these errors. If one more iteration changes nothing no further one does, and (at most 16 dimensions) the result is, up to rounding, no worse than a local optimum passed on the way. With at most k different rows (separated, in more than 16 dimensions) labels are equal exactly for equal rows.", "quantifier": "every data set, dimension, k, iteration count, sequence of random 32-bit integers, summation order and starting contents of the output arrays", "why_tests_cant": "The result depends on the rounding errors of every sum and on the machine's summation order; tests see a few data sets on one machine and compare with tolerances.", "anchors": ["stag_lib/KMeansRex/KMeansRexCore.cpp: discrete_rand, sampleRowsPlusPlus, pairwise_distance, assignClosest, calc_Mu, run_lloyd, RunKMeans", "stag_lib/KMeansRex/mersenneTwister2002.h: my_genrand_double"]}
{"id": "C96", "title": "cheeger_cut and spectral_cluster with approximate eigenvectors", "statement": "The guarantees of cheeger_cut and spectral_cluster degrade gracefully when the eigen-solver is not exact. cheeger_cut: whatever vector v the solver returned for the larger of the two values, if the part of v orthogonal to the square roots of the degrees has squared length D > 0, the returned cut is not trivial and its conductance phi has phi^2 D <= 2 v'Lv; in particular, for a unit vector with residual |Lv - l v| <= r < l the conductance is at most sqrt(2(l+r)/(1-(r/l)^2)), and if l exceeds the exact second eigenvalue by at most tau, at most sqrt(2(2 phi(T)+tau+r)/(1-(r/l)^2)) for every non-trivial set T. spectral_cluster: let all but k eigenvalues be at least l, and let the returned vectors be within delta of an orthonormal family whose residuals (each relative to the distance of its value from l) have squares summing to at most eps^2. Then given clusters have k-means cost at most (sqrt(defect)+eps+delta)^2 in the embedding; labels of k-means cost c agree with them up to 2((sqrt(defect)+eps)^2+(sqrt(c)+delta)^2), can be matched with them if that is below 1/2 and equal them if it is below 1/(2n); with independent uniform draws the k-means step achieves c <= 16(ln k+2)(sqrt(defect)+eps+delta)^2 with probability at least 1/2.", "quantifier": "all graphs with non-negative weights and no isolated vertices or self-loops, all solvers and whatever pairs they return, all k, all clusterings, all error sizes", "why_tests_cant": "no finite set of graphs and no one numerical solver covers all ways in which returned eigenvectors can be wrong", "anchors": ["stag_lib/cluster.cpp: cheeger_cut, spectral_cluster", "stag_lib/spectrum.cpp: compute_eigensystem", "stag_lib/KMeansRex/KMeansRexCore.cpp: RunKMeans"]}
{"id": "C97", "title": "Cuts and conductances of approximate_similarity_graph are close to their expectation", "statement": "When the neighbours of different rows are drawn independently, each with the distribution of C69, and no estimated degree is below 5 EPSILON, then for every family F of sets of rows, except with probability 4 |F| exp(-25 eps^2 / sum of the squared estimated degrees), approximate_similarity_graph returns (whatever the thread schedule) one valid graph in which for every S in F the weight leaving S and the total weight at S are within eps of the sums of their expected values. For data that fit into one leaf: the weight leaving S is 4/5 of the kernel between S and its complement up to eps + 2/5 of the average total kernel of a row, the total weight at S is 4/5 of its total kernel up to eps + 4/5 of the average, and conductance answers the corresponding quotients. The graphs built from possible draws are exactly the possible results of the call.", "quantifier": "every data set with at least two rows, kernel parameter, cutoff, estimator answers, number of threads and schedule, every family of sets, every eps; probability over the draws", "why_tests_cant": "a bound on a probability, for every data set and every family of sets at once", "anchors": ["stag_lib/cluster.cpp: KDETreeEntry::sample_neighbors, KDETreeEntry::estimate_weight, sample_asg_edges, approximate_similarity_graph, conductance", "stag_lib/kde.cpp: ExactGaussianKDE::sample_neighbors"]}
{"id": "C98", "title": "Well separated clusters become the connected components of approximate_similarity_graph", "statement": "For data that fit into one leaf (by default at most 5000 rows): if the rows carry labels such that rows of equal labels have kernel value at least kappa, with (n/((n-1) kappa))^2 <= 11/10, and the neighbours of different rows are drawn independently, then approximate_similarity_graph returns, whatever the thread schedule, a graph in which two rows are connected exactly if they have the same label, and connected_components answers exactly the clusters, except with probability at most four times the total kernel between rows of different labels plus 8/m + m (9/10)^m for every label of m rows. In particular the two neighbours drawn per row are enough to keep each cluster connected.", "quantifier": "every data set with at least two rows that fits into one leaf, every non-negative kernel parameter, labelling, number of threads and schedule; probability over the draws", "why_tests_cant": "a bound on a probability over all draws, for every data set and labelling", "anchors": ["stag_lib/cluster.cpp: approximate_similarity_graph, sample_asg_edges, KDETreeEntry::sample_neighbors, connected_components", "stag_lib/kde.cpp: ExactGaussianKDE::sample_neighbors"]}
{"id": "C99", "title": "The k-means++ guarantee for the rounded code", "statement": "Let every operation of RunKMeans be rounded to double precision (Eigen sums in any order, no overflow or underflow) and let the generator give independent, uniformly random 32-bit integers. With fewer than 2^20 points and at most 2^20 dimensions, the rounded seeding fed with integers that are the first 32 bits of independent uniform real numbers writes exactly the centres that the seeding in exact arithmetic writes with these real numbers, except with probability at most kN/2^28. Hence, for 1 <= k <= N, all coordinates at most B in absolute value and n >= 1 iterations, and any k centres with labels of cost C: for every c > 0 the call returns labels below k whose cost is at most c, up to the stated rounding error (in at most 16 dimensions (1+2^-46)^n (c + n N D ((N+1) 2^-52 B)^2)), except with probability at most 8(ln k + 2)C/c + kN/2^28; in particular cost at most 16(ln k + 2)C up to rounding except with probability 1/2 + kN/2^28, and if C = 0, cost zero up to rounding except with probability kN/2^28.", "quantifier": "every data set, dimension, k, number of iterations, summation order of Eigen, starting contents of the output arrays and competitor clustering; the probability is over the random integers", "why_tests_cant": "a test sees a few seeds and data sets and cannot establish a probability bound, nor that the finite resolution of the generator and rounding never matter for more than a small fraction of the seeds", "anchors": ["stag_lib/KMeansRex/KMeansRexCore.cpp: RunKMeans, sampleRowsPlusPlus, discrete_rand, randint, run_lloyd", "stag_lib/KMeansRex/mersenneTwister2002.h: my_genrand_double"]}
{"id": "C100", "title": "approximate_similarity_graph in floating point", "statement": "With every double operation rounded (IEEE double or any rounding with the standard error model) and any library exp of known accuracy, approximate_similarity_graph on at least two rows that fit into one leaf (at most 2^51 rows and the cutoff) returns a valid symmetric graph on the rows for all random draws, all thread counts and all schedules: the symmetry check of the constructor never fails although duplicate edges are summed with rounding. Each row draws exactly two rows, each the row at which the running total of the computed kernel values first exceeds the computed degree times the draw; the weight of a pair is, within four roundings, a fifth of the computed degree of each row for each of its draws that join the pair, dropped when not above EPSILON. The computed degree is within (n-1)(u + (g^(n+2)-1) + kernel error) of (n-1)/n times the true kernel sum. With more than one leaf the same holds when the estimators answer positive numbers and no kernel value underflows; when all kernel values of a node with two leaves underflow to zero the call is undefined.", "quantifier": "all data matrices, bandwidths a >= 0, roundings, exp functions, estimator answers, random draws, thread counts and schedules", "why_tests_cant": "The claim covers every draw and schedule and all possible rounding errors; a test sees one of them, and a missing sample or an asymmetric sum would occur only for rare inputs.", "anchors": ["stag_lib/cluster.cpp: approximate_similarity_graph, sample_asg_edges, KDETreeEntry", "stag_lib/kde.cpp: ExactGaussianKDE::sample_neighbors", "stag_lib/graph.cpp: Graph::Graph"]}
{"id": "C101", "title": "The random neighbours of approximate_similarity_graph survive rounding", "statement": "For data that fit into one leaf, and for the same independent uniform random numbers, the samples that the rounded code draws for a row are the samples exact arithmetic would draw, except with probability at most 8 n tau per number, where tau = (g^(n+3) - 1) + g^(n+3) n (kernel error) bounds the relative error of the running totals (in double precision tau <= n (2d + 15) 2^-52 for n rows with d coordinates). Hence C98 holds of the computed graph: when rows of equal labels have kernel values near one, the connected components of the graph approximate_similarity_graph computes in floating point are exactly the groups of equal labels, for all schedules, except with the probability of C98 plus 16 n^2 tau (for two groups of a thousand points at distance 5, in doubles, at most 1/50).", "quantifier": "all data matrices of at least two rows in one leaf, bandwidths a >= 0, roundings, exp functions, labellings with the stated kernel bound, thread counts and schedules; probability over independent uniform numbers", "why_tests_cant": "A test runs one stream of random numbers on one machine; the claim bounds the probability of all streams, for every rounding and schedule.", "anchors": ["stag_lib/kde.cpp: ExactGaussianKDE::sample_neighbors", "stag_lib/cluster.cpp: KDETreeEntry::sample_neighbors, sample_asg_edges, approximate_similarity_graph, connected_components"]}
{"id": "C102", "title": "Eigenvalues, eigenvectors and spectral clusters survive rounding", "statement": "In floating point, compute_eigensystem gives the inner solver a matrix that is symmetric bit for bit and, in the operator norm, within eta = ((1/(1-u))^(n+10) - 1) s of the exact shifted matrix, s being 2 for the normalised Laplacian and six times the largest degree otherwise (in double precision (1/(1-u))^(n+10) - 1 <= (n+10)/2^52 for n < 2^20); the vectors are returned as the solver gives them. Hence the residual of a returned pair for the exact matrix exceeds the solver's residual by at most eta + u/(1-u) |value|, and with an inner solver that is exact for the matrix it is given the j-th returned value is within 4 eta + u (|lambda| + 4 eta) of the exact j-th eigenvalue lambda. For spectral_cluster computed in doubles from start to end - degrees, matrix, shift, k-means++ with 32-bit random integers and Lloyd iterations - the labels agree with clusters of small defect up to the defect, the rounding error over the spectral gap and the rounding of k-means, except with an explicit probability; in particular the connected components of a graph with less than 2^16 vertices, k <= 16 regular components and nonzero normalised eigenvalues of at least 1/4096 are found exactly, except with probability k n / 2^28 + 2^-13.", "quantifier": "all reachable graphs with nonnegative weights that are floating-point numbers (no isolated vertex for the normalised Laplacian), matrices, both sort rules, counts, monotone odd roundings, orders in which Eigen adds, solvers; probability over independent uniform 32-bit integers", "why_tests_cant": "a bound for every graph, rounding and solver cannot be sampled; a test cannot see that a clustering rests on an accident of rounding", "anchors": ["stag_lib/spectrum.cpp: compute_eigensystem, compute_eigensystem_largestmag", "stag_lib/cluster.cpp: spectral_cluster", "stag_lib/graph.cpp: initialise_laplacian_, initialise_normalised_laplacian_", "stag_lib/KMeansRex/KMeansRexCore.cpp: RunKMeans"]}
{"id": "C103", "title": "cheeger_cut keeps its guarantee in floating point", "statement": "For a graph without self-loops, with positive degrees and weights that are multiples of one number (unweighted graphs for instance, all volumes being exact): whatever vector v the eigen solver returned for the larger of the two values, let D be the squared length of the part of v orthogonal to the square roots of the degrees, and theta = ((1/(1-u))^3 - 1)|v|. If theta < sqrt(D), cheeger_cut computed with a rounding after every operation returns labels 0/1, one per vertex, both sides have positive volume, and the conductance phi of the cut has phi (sqrt(D) - theta) <= sqrt(2) (sqrt(v'Lv) + sqrt(2) theta)/(1-u)^2, L being the exact normalised Laplacian; if v has length 1 and residual at most r < l for its value l, phi is at most sqrt(2) (sqrt(l + r) + sqrt(2) theta)/((1-u)^2 (sqrt(1 - (r/l)^2) - theta)). In doubles, on fewer than 2^20 vertices, with an inner solver that is exact for the (rounded) matrix it is given and a second eigenvalue l2 >= 2^-16, the cut has conductance at most (1 + 2^-10) sqrt(2 l2), hence at most 2 (1 + 2^-10) sqrt(phi(T)) for every non-trivial vertex set T. (For other weights the sweep may return all vertices: C77.)", "quantifier": "every such graph, every solver, every vector it returns, every rounding unit u (double precision for the last part)", "why_tests_cant": "The guarantee compares the returned cut with every vertex set and covers every rounding error and every solver output within the contract.", "anchors": ["stag_lib/cluster.cpp:cheeger_cut", "stag_lib/cluster.cpp:sweep_set_conductance", "stag_lib/spectrum.cpp:compute_eigensystem", "stag_lib/graph.cpp:normalised_laplacian"]}
{"id": "C104", "title": "The power method and Rayleigh quotients keep their guarantees in floating point", "statement": "Let m be the matrix of doubles the program has in the place of an exact symmetric matrix A: its entries are off by s roundings of numbers of size B_ij, B having norm beta, with at most q non-zero entries per row and column, and eta = ((1/(1-u))^(s+q+2) - 1) beta. In floating point power_method and rayleigh_quotient raise the same exceptions as documented (negative iterations, matrix not square, wrong length, zero vector) and otherwise return. The result of t iterations from v is parallel to A^t v up to a relative error ((L+eta)^t - L^t)|v|, L being the norm of A, and after one iteration its squared length is 1 up to n+4 roundings; if A has a simple dominant eigenvalue l and the start has tangent at most kappa with its eigenvector b, where eta (1+kappa)^2 <= kappa(|l| - mu), the tangent after t iterations is at most ((mu+eta)/(|l| - eta(1+kappa)))^t kappa + eta/(|l| - mu - eta(2+kappa)), so that rounding errors do not accumulate. rayleigh_quotient is within ((1/(1-u))^(s+q+2n+7) - 1) beta of the exact quotient. From a random start (independent standard normals, each rounded to a double) with A positive semidefinite and l > 0 its largest eigenvalue, for every t and delta > 0, except with probability 2 delta the computed Rayleigh quotient is at most l and at least Q up to explicit rounding errors, where (Q/l)^(2t) >= delta^3/n. In doubles, with the default number of iterations and at most 1024 rows, it is between (exp(-1/5) - 2^-9) l and (1 + 2^-30) l except with probability 2/n; in particular for the rounded Laplacian and signless Laplacian of every graph with floating-point weights and at least one edge, l being the largest eigenvalue of the exact matrix.", "quantifier": "every matrix, start, number of iterations, rounding unit, order of summation, failure probability; every graph with at most 1024 vertices for the last part", "why_tests_cant": "The bounds hold for all matrices, all sequences of rounding errors and in probability over a continuous distribution of starts.", "anchors": ["stag_lib/spectrum.cpp:power_method", "stag_lib/spectrum.cpp:rayleigh_quotient", "stag_lib/spectrum.cpp:random_unit_vector", "stag_lib/graph.cpp:initialise_laplacian_"]}
{"id": "C105", "title": "Mutual information in floating point", "statement": "In machine arithmetic mutual_information and normalised_mutual_information raise the same exceptions as documented (different lengths, negative labels), return for fewer than 2^31 points and overflow an int counter from there on. The computed mutual information of n points differs from the exact one, I, by at most (G - 1)(2 min(H1,H2) - I) + G (g - 1)/ln 2, where G = g^(n+j+2), g = 1/(1-u), H1 and H2 are the exact entropies of the two clusterings and the library log2 has a relative error of at most j roundings. For doubles, fewer than 2^26 points, not all in one cluster in both clusterings, and a log2 that is off by at most two roundings, normalised_mutual_information returns a finite number within (10 n + 20)/2^53 of the exact value; so it leaves [0,1] by at most that much, is that close to 1 for two clusterings that are equal up to the names of the clusters, and changes by at most twice that much when the clusterings are exchanged. If one clustering has a single cluster the mutual information is computed as exactly 0, and the normalised one is exactly 0, or NaN if both have.", "quantifier": "every pair of label vectors, iteration order of the hash maps, rounding function, library log2 of the given accuracy", "why_tests_cant": "The bound holds for all clusterings, orders of summation and sequences of rounding errors, relative to the exact real value, which no test can compute.", "anchors": ["stag_lib/cluster.cpp:mutual_information", "stag_lib/cluster.cpp:normalised_mutual_information", "stag_lib/cluster.cpp:entropy"]}
{"id": "C106", "title": "Cuts and conductances of approximate_similarity_graph in floating point", "statement": "For data that fit into one leaf and independent uniform random numbers, the bounds of C97 hold of the graph that approximate_similarity_graph computes in floating point, for all thread schedules: for every family F of sets of rows, except with probability 4|F| exp(-25 eps^2 / sum of the squared total kernels) + 16 n^2 tau, the call returns one valid graph in which for every S in F the weight leaving S is 4/5 of that in the exact complete similarity graph up to eps + 2/5 of the average total kernel and a relative error rho = g^4 (1 + tau) - 1, and the total weight at S likewise with eps + 4/5 of the average; and the conductance that conductance computes in floating point on that graph lies between the corresponding quotients up to (2n+1)|S|+1 roundings. In double precision with n rows of d coordinates rho is at most n(2d+18) 2^-52. (For two groups of a thousand points at distance 5 the computed conductance of a group is at most 1/10 except with probability 1/500.)", "quantifier": "every data set of at least two rows in one leaf, kernel parameter a >= 0, rounding, exp function, number of threads and schedule, every family of sets, every eps; probability over independent uniform numbers", "why_tests_cant": "A probability bound for all data sets, schedules and rounding errors, relative to the exact real similarity graph.", "anchors": ["stag_lib/cluster.cpp:approximate_similarity_graph", "stag_lib/cluster.cpp:conductance", "stag_lib/kde.cpp:ExactGaussianKDE::sample_neighbors"]}
{"id": "C107", "title": "Clusters that are not nearly disconnected, and the stochastic block model, in double precision", "statement": "spectral_cluster, computed in doubles from the matrix to the labels, finds clusters that are told apart by their connections even if none has small conductance. Let every vertex of cluster c have normalised weight near b(c,i) to cluster i, with total squared deviation U (the unevenness), let the form of b have strength a, let the form of the normalised Laplacian be at least l <= 2 on the vectors orthogonal to some k vectors, and gamma = l - (1 - a) - sqrt U >= 2^-12. For weights that are doubles, fewer than 2^20 vertices and an inner solver that is exact for the matrix it is given, except with probability 8 (ln k + 2) D^2 / c + k n / 2^28, where D = sqrt U / (l - (1 - a)) + sqrt k (n + 10) / (2^50 gamma), the call returns labels that agree with the clusters up to e = 2 (D^2 + c'), c' being c with the rounding errors of 100 k iterations (at most c + (c + 1) / 2^28 for k <= 16); if e < 1/2, all but 2 e n vertices carry the label matched with their cluster, and all do if 2 e n < 1. If U = 0, k <= 16 and n < 2^16, all labels are right except with probability k n / 2^28 + 2^-13. For a graph drawn by sbm(k m, k, p, q) in exact mode, except with probability 2 k^2 m exp(-2 a^2 / m) + 2 (k m)^2 exp(-t^2 / (2 k m)), all this holds with D = sqrt E + sqrt k (k m + 10) / 2^38, E being the defect of C86, if the blocks are visible with a margin of d / 2^11. For any solver, the same holds with the errors of the approximate eigenvectors it returns added to D.", "quantifier": "every reachable graph with positive degrees and double weights, every family of clusters, every exact inner solver, every summation order of Eigen, every junk in memory; probability over independent uniform 32-bit random words and, for sbm, over independent uniform numbers", "why_tests_cant": "A probability bound over all graphs, solvers, orders of summation and rounding errors of the whole pipeline.", "anchors": ["stag_lib/cluster.cpp:spectral_cluster", "stag_lib/spectrum.cpp:compute_eigensystem", "stag_lib/KMeansRex/KMeansRexCore.cpp:RunKMeans", "stag_lib/random.cpp:sbm"]}
{"id": "C108", "title": "From points to labels in double precision", "statement": "Let everything from the points to the labels be computed in doubles: the kernel values of similarity_graph with a library exp that returns doubles, the matrices of spectral_cluster and k-means; the inner eigensolver is exact for the matrix it is given. If the points (fewer than 2^20 rows) fall into k <= 16 groups of at least mu >= 1 points so that, with a margin of the rounding error of the kernel, the similarity is at least t inside and at most b (or EPSILON) between the groups, and gamma = gap (1 - sqrt error) >= 2^-12 with gap and error as in C92, then similarity_graph returns for every number of threads and every schedule, an exact solver answers for the graph, and for every graph returned spectral_cluster returns labels that can be matched with the groups up to 2 e n points, and that are exactly the groups if 2 e n < 1, except with probability 8 (ln k + 2) D^2 / c + k n / 2^28; here D = sqrt error + sqrt k (n + 10) / (2^50 gamma), c > 0 and e = 2 (D^2 + c + (c + 1) / 2^28) < 1/2. The same holds of every graph whose weights are doubles of two levels. (For the points 0, 1/128, 16, 16 + 1/128 and a = 1 the groups are found except with probability 1/1000.)", "quantifier": "all data matrices that fall into groups, all a >= 0, exp functions with double results of any accuracy, numbers of threads, schedules, exact inner solvers, orders of summation and junk in memory; probability over independent uniform 32-bit random words", "why_tests_cant": "A probability bound over all data, schedules, solvers and rounding errors of the whole pipeline.", "anchors": ["stag_lib/cluster.cpp:similarity_graph", "stag_lib/cluster.cpp:spectral_cluster", "stag_lib/kde.cpp:gaussian_kernel", "stag_lib/spectrum.cpp:compute_eigensystem", "stag_lib/KMeansRex/KMeansRexCore.cpp:RunKMeans"]}
{"id": "C109", "title": "Conductance guarantee of local clustering in floating point", "statement": "C73 for the program as it runs: every operation of approximate_pagerank, the sweep and conductance is rounded and degrees are those the program computes. Let the weights be >= 0, without self-loops, every vertex have at most L neighbours, every non-isolated vertex at least the degree delta, and computed degrees be off by at most k roundings. Every set T of positive volume has a set of good seeds of at least half its volume, such that from a good seed v the rounded local_cluster_acl(v, alpha, error) returns a set whose conductance is reported as x, with |x - exact conductance| <= eta and, for every t, 1 - cond(T)/alpha - (1-u)^(-(1+k)) error vol(T) - 2 eta <= (alpha + 2 eta) t + sqrt(vol(T)/deg(v)) (1 - phi^2/8)^t where phi = max(0, x - 3 eta), eta = (1-u)^(-(M(6+k+2L)+k+1)) - 1 < 1 and M alpha error delta >= 2 (1-u)^(-(1+k)); nothing depends on the size of the graph. So with alpha <= 1/4, cond(T) <= alpha/4, error <= 1/(4 vol T) and eta <= alpha/100, x <= 3 eta + sqrt(32 alpha ln(25 vol(T)/deg(v))). In doubles, for a graph in memory: if cond(T) <= 1/1000, target >= 10 vol(T), 201 target <= M delta and M(7+3L)+L+2 <= 4e11, local_cluster(v, target) returns a set whose conductance is reported as at most 3/10000 + sqrt(2/25 ln(13 vol(T)/deg(v))).", "quantifier": "every rounding function with relative error u (doubles as an instance), every graph with non-negative weights and no self-loops, every set of vertices, every good seed and all parameters", "why_tests_cant": "A guarantee for every graph and every hidden cluster, about the worst case over all rounding errors in the whole computation.", "anchors": ["stag_lib/cluster.cpp:local_cluster", "stag_lib/cluster.cpp:local_cluster_acl", "stag_lib/cluster.cpp:approximate_pagerank", "stag_lib/cluster.cpp:sweep_set_conductance", "stag_lib/cluster.cpp:conductance"]}
{"id": "C110", "title": "Random graphs with the real 64-bit random words", "statement": "The coins of the generators compare with p one word of the 64-bit generator turned into a double (std::bernoulli_distribution with mt19937_64 in libstdc++), so they are not exact (with p = 2^-65 heads comes with probability 2^-64). With independent uniform words, each coin gives heads with probability p up to 2^-53 + 2^-64 for every p in [0, 1], and for every set of results the probability that general_sbm, sbm or erdos_renyi (in exact mode) returns one of them, or that general_sbm_edgelist writes one of them, differs from the probability with exact coins by at most n^2 / 2^53, where n is the number of vertices. So every simple graph comes out with its probability in the stochastic block model up to n^2 / 2^53, and the recovery guarantee C86 holds with n^2 / 2^53 added to the probability of failure.", "quantifier": "all valid cluster sizes, probabilities and numbers of vertices, every set of results, every law of the words that is uniform and independent", "why_tests_cant": "A statement about the probability of every set of results; errors of 2^-53 are far below what sampling can see.", "anchors": ["stag_lib/random.cpp:sample_edges_directly", "stag_lib/random.cpp:general_sbm", "stag_lib/random.cpp:sbm", "stag_lib/random.cpp:erdos_renyi", "stag_lib/random.cpp:general_sbm_edgelist", "stag_lib/random.cpp:get_global_rng"]}
{"id": "C111", "title": "Approximate similarity graphs with the real 64-bit random words", "statement": "The numbers that approximate_similarity_graph draws are doubles made from 64-bit words (std::uniform_real_distribution with mt19937_64 in libstdc++), not uniform real numbers. Let the data fit into one leaf and the words be independent and uniform. For every set of families of samples the probability that the rounded code draws one of them differs from the probability with uniform real numbers by at most n^2 / 2^50, n the number of rows. So C101 (the connected components of the computed graph are the rows of equal labels) and C106 (cuts, weights and computed conductances) hold with n^2 / 2^50 added to the probability of failure.", "quantifier": "all data of at least two rows that fit into one leaf, all scales, thread counts and schedules, every rounding, every set of families of samples, every uniform and independent law of the words", "why_tests_cant": "A statement about the probability of every set of results; errors of 2^-53 are far below what sampling can see.", "anchors": ["stag_lib/cluster.cpp:approximate_similarity_graph", "stag_lib/cluster.cpp:KDETreeEntry::sample_neighbors", "stag_lib/kde.cpp:ExactGaussianKDE::sample_neighbors"]}
{"id": "C112", "title": "Planted clusters are found by the program as the machine runs it", "statement": "The whole chain with the real number formats and random words: sbm(k m, k, p, q) in exact mode draws its coins with the 64-bit words of std::mt19937_64, spectral_cluster stores the eigenvectors of the computed normalised Laplacian as doubles and k-means draws with 32-bit words and calculates in doubles. For fewer than 2^20 vertices and at most 16 clusters, except with the probability of C107 plus (k m)^2 / 2^53, the graph is one for which every inner solver that is exact for the matrix it is given and that answers leads to labels of which all but 2 e n are right, except with the probability of C107 over the words of k-means. For 500000 + 500000 vertices, p = 19/20 and q = 1/20: probability at least 0.979 for the graph, and more than 58% right labels with probability at least 0.45.", "quantifier": "all parameters with a visible partition, every uniform and independent law of the words, every summation order of the matrix library, every exact inner solver, all uninitialised memory", "why_tests_cant": "A statement about the probability of all runs of two generators and three number formats together; no sample of runs bounds it.", "anchors": ["stag_lib/random.cpp:sbm", "stag_lib/random.cpp:general_sbm", "stag_lib/cluster.cpp:spectral_cluster", "stag_lib/spectrum.cpp:compute_eigensystem", "stag_lib/KMeansRex/KMeansRexCore.cpp:RunKMeans"]}
{"id": "C113", "title": "Local clustering of a graph on disk in floating point", "statement": "An AdjacencyListLocalGraph on a file written by save_adjacencylist (six digits per weight) reports for a vertex with L neighbours its degree up to L + 1 rounding errors, and answers all other queries exactly, whatever it was asked before. So local_cluster on disk in doubles keeps its guarantee with respect to the graph that was saved: for a set T of conductance at most 0.000999 (no self-loops, all weights finite and above EPSILON after rounding to six digits), from every seed in a subset of nearly half the volume of T and for every target volume of at least 10.001 vol(T), with a bound on the amount of work, it returns a set C; the conductance reported for C on disk is within 0.00012 of its conductance in the saved graph and at most 0.0003 + sqrt(2/25 ln(14 vol(T)/deg(v))).", "quantifier": "all saved graphs with positive finite weights, all histories of queries of the object, all sets T, all good seeds and target volumes within the bound on the work; for degrees and answers every rounding and number format", "why_tests_cant": "A guarantee over all graphs, seeds and caches, through text files and rounding errors; no sample of graphs establishes it.", "anchors": ["stag_lib/graph.cpp:AdjacencyListLocalGraph::degree", "stag_lib/graph.cpp:AdjacencyListLocalGraph::neighbors", "stag_lib/graphio.cpp:save_adjacencylist", "stag_lib/cluster.cpp:local_cluster", "stag_lib/cluster.cpp:conductance"]}
{"id": "C114", "title": "Neither underflow nor overflow in local algorithms", "statement": "If every edge weight is a double from 2^-34 (below EPSILON = 1e-10, so every weight that STAG stores is above it) to 2^100, then in IEEE 754 double arithmetic, with gradual underflow and overflow, degree (in memory and on disk), conductance, the sweep, approximate_pagerank and local_cluster_acl return exactly what they return when exponents are unbounded, as long as fewer than about 2^52 terms or pushes occur. So local_cluster keeps its conductance guarantee in IEEE 754 arithmetic, in memory (C109) and on a saved graph on disk (C113), for every target volume up to 2^90.", "quantifier": "all graphs with weights in the range, all clusters, vectors, seeds and parameters in the stated ranges, all sizes within the bound on the number of operations, and whatever the result of an overflow is", "why_tests_cant": "Underflow of a product of three small factors needs particular weights, parameters and histories of pushes; that it never happens is a statement about all executions.", "anchors": ["stag_lib/graph.cpp:Graph::degree", "stag_lib/graph.cpp:AdjacencyListLocalGraph::degree", "stag_lib/cluster.cpp:conductance", "stag_lib/cluster.cpp:sweep_set_conductance", "stag_lib/cluster.cpp:approximate_pagerank", "stag_lib/cluster.cpp:local_cluster_acl", "stag_lib/cluster.cpp:local_cluster"]}
{"id": "C115", "title": "Neither underflow nor overflow in derived matrices and graph edits", "statement": "If every edge weight is a double from 2^-34 to 2^100 then in IEEE 754 double arithmetic, with gradual underflow and overflow, degree_matrix, laplacian, signless_laplacian, normalised_laplacian, normalised_signless_laplacian, inverse_degree_matrix and lazy_random_walk_matrix have exactly the entries (and the stored pattern) that they have when exponents are unbounded, and so have the sum of two graphs, a multiple by a scalar from 2^-900 to 2^900, and the result of fewer than 2^52 calls of add_edge and remove_edge. So the error bounds of C90 hold in IEEE 754 arithmetic.", "quantifier": "all graphs of fewer than 2^52 vertices with weights in the range (without isolated vertices where a matrix divides by degrees), all scalars in the range, all histories of edits of the stated length, and whatever the result of an overflow is", "why_tests_cant": "An underflow in a product of three small factors or an overflow in a long sum needs particular weights and histories; that none occurs is a statement about all graphs and all histories.", "anchors": ["stag_lib/graph.cpp:Graph::initialise_laplacian_", "stag_lib/graph.cpp:Graph::initialise_normalised_laplacian_", "stag_lib/graph.cpp:Graph::initialise_normalised_signless_laplacian_", "stag_lib/graph.cpp:Graph::initialise_lazy_random_walk_matrix_", "stag_lib/graph.cpp:Graph::initialise_inverse_degree_matrix_", "stag_lib/graph.cpp:operator+", "stag_lib/graph.cpp:Graph::add_edge", "stag_lib/graph.cpp:Graph::remove_edge"]}
