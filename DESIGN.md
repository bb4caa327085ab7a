# A Lean 4 model of suisen-cp/cp-library-cpp

Everything here is about the header library in `/repo/library` (C++17 templates).
The code is read as text and translated by hand, function by function.

## 1. Trusted base

* Lean 4.33.0's kernel. No theorem uses an axiom other than Lean's three standard
  ones: `propext`, `Classical.choice`, `Quot.sound` (many use fewer). No axioms
  are added, nothing is `sorry`ed, and neither `native_decide` nor `bv_decide` is used.
* Mathlib, as checked by the same kernel (definitions such as `Nat.Prime`,
  `Relation.EqvGen`, `Finset.sum` appear in the statements).
* **The hand translation.** The kernel checks theorems about the definitions in
  `lean/Verif/Model/*.lean`. That those definitions describe the C++ is by
  inspection: each carries a comment with the file and the lines it models and
  says where it simplifies.
* The small specifications in `lean/Verif/Props/*.lean` say in Lean what the
  English property says.

## 2. What is modelled and how

* `Verif/Cxx.lean` is the execution model. A C++ function is a total Lean function
  into `M α = Except Err α`. `Err.ub` is undefined behaviour (out-of-bounds
  `operator[]`, pop on an empty vector, shift by the width, division by zero,
  signed overflow when widths are modelled), `Err.assertion` a failed `assert`,
  `Err.diverge` a loop that runs out of the fuel given to it. "The call is safe
  and terminates" is therefore part of a statement `f x = .ok y`: the
  value is reached with no UB, no failed assertion, and within the fuel.
* `std::vector<T>` is `Array T`. `v[i]` is `rd v i` / `wr v i x`, which yield
  `Err.ub` outside the bounds.
* `for` loops are `forUp`, `forDown`, `forEach`; `while` loops are `loop` with a
  fuel argument. The fuel is a bound the code does not have; theorems show it is never reached.
* Template parameters (`T`, `op`, `e`, `mapping`, comparators) are Lean
  parameters; the laws the documentation asks for are hypotheses or type classes.
* Integers are unbounded (`Nat`/`Int`) except where the property is about machine
  arithmetic (`modint2p61m1`, Barrett, Montgomery, subset iterators, overflow
  findings), where they are `BitVec w`/`Nat` with explicit `% 2^w`.
* Indices that are `int` in C++ are `Nat` in the model when a negative argument
  would be out of bounds at once; each definition says so.

## 3. What is not modelled

* Memory management, iterators, moves/copies (value semantics is used), I/O,
  floating point, SFINAE/constexpr, complexity, `noexcept`.
* `atcoder::` (the submodule directory is empty in the pinned tree): functions
  from it are parameters or are replaced by their documented specification.
* 32/64-bit overflow of user data, except where said in section 2.
* Headers that no module below names.

## 4. Layout

* `Verif/Cxx.lean` — execution model and its Hoare rules.
* `Verif/Model/X.lean` — definitions only; every one cites `/repo` lines.
* `Verif/Proof/X.lean` — invariants and lemmas.
* `Verif/Props/X.lean` — the specification, the property theorems listed in
  `MANIFEST.json`, and, next to each, an `example` with a concrete case that
  meets its hypotheses.

## 5. Per-property plan

* **C01 — UnionFind answers connectivity exactly.** `Model/UnionFind`: `dat : Array Int`, `root` with the real path-compression loop. Spec: `Relation.EqvGen` of the merged pairs. Induction over the operation list with a representation invariant (each chain of parents reaches a root; sizes increase strictly along it).
* **C02 — UnionFind::size and groups describe the partition.** Same model; `size` is the cardinality of the class, `groups` a partition.
* **C03 — UndoUnionFind: undo and rollback remove exactly the merges they should.** Model with the explicit history stack; theorem: executing any balanced word of merges and undos gives the state without the undone merges.
* **C04 — WeightedUnionFind keeps potentials consistent.** Model over an arbitrary additive group; invariant: potentials relative to the root.
* **C05 — FenwickTree point add / prefix and range sum.** Model over `AddCommGroup`; `lowbit` is defined arithmetically and linked to `x &&& -x` on bit vectors. Invariant: node i stores the sum of (i-lowbit i, i].
* **C06 — fenwick_tree_set is an ordered set of integers.** Words as finite bit sets, Fenwick invariant of C05 over word counts; descent loop of kth_element.
* **C07 — FenwickTreePrefix prefix queries over a commutative monoid.** As C05 over a commutative monoid. The vector constructor is expected to be wrong for n>=4: the negation is proved with a witness and the size-n constructor part kept as a theorem.
* **C08 — FenwickTree2D rectangle sums.** Two nested Fenwick loops.
* **C09 — SegmentTree refines the array for every monoid.** Heap-shaped array; invariant node = op(left,right); bottom-up loop invariant for `prod`.
* **C10 — SegmentTree::max_right and min_left find the boundary.** Climb-and-descend loops on the same invariant.
* **C11 — LazySegmentTree refines the array under range updates.** Lazy invariant: abstract array = leaves with all pending ancestors applied; push/update preserve it.
* **C12 — DualSegmentTree / CommutativeDualSegmentTree refine point reads under range updates.** As C11 without products.
* **C13 — SparseTable range query equals the fold.** Tables of power-of-two windows; overlap by idempotence.
* **C14 — QueueAggregation is a FIFO queue with a total.** Two stacks with running products.
* **C15 — DequeAggregation is a deque with ordered product.** Same with rebalancing.
* **C16 — RangeSet represents exactly the inserted-minus-erased integers.** Ordered map as a sorted association list; set-of-integers semantics.
* **C17 — BinaryHeap pops in order.** Array heap; permutation and heap-order invariants. `pop` of the last element runs `heapify_down(0)` on an empty vector: UB to be proved.
* **C18 — IntervalHeap keeps both ends.** Interval-heap array invariant.
* **C19 — sliding_window_minimum answers the window extremum.** Monotone deque invariant.
* **C20 — ext_gcd returns Bezout coefficients.** Loop invariant on cofactors.
* **C21 — inv_mod returns the modular inverse.** From C20.
* **C22 — garner solves the Chinese remainder system.** Induction over the list, mixed radix.
* **C23 — barrett reduction is exact on its range.** Nat with explicit wrap-around.
* **C24 — Montgomery arithmetic represents Z/NZ.** Nat with explicit wrap-around; `sub` expected to be wrong.
* **C25 — modint2p61m1 is the field Z/(2^61-1).** Nat with explicit `% 2^64`; no-overflow lemmas.
* **C26 — powi is exponentiation in every monoid.** Binary exponentiation loop in any monoid.
* **C27 — factorize returns the prime factorisation.** Trial division with the wheel.
* **C28 — divisors enumerates every divisor once.** From C27 and the product structure.
* **C29 — totient equals Euler's phi.** From C27, multiplicativity.
* **C30 — LinearSieve computes the least prime factor.** Sieve invariant: after d, exactly the multiples p*d' (d'<=d, p<=lpf d') are marked.
* **C31 — Subset/superset zeta and Moebius transforms are inverse and compute subset sums.** `Proof/Kronecker`: a pass over block size `D^i` multiplies by `A` in digit `i`; after `k` passes the matrix is the Kronecker power; `kron_mul` gives inverses; the kernel of the zeta matrix is the subset relation.
* **C32 — or_convolution and and_convolution.** Convolution theorem for a multiplicative kernel (`conv_thm`), then the inverse transform of C31.
* **C33 — Walsh-Hadamard transform and xor_convolution.** The Walsh matrix squares to 2 times the identity; its kernel is multiplicative over xor.
* **C34 — Divisor/multiple transforms and gcd/lcm convolution.** Sieve invariant: before prime `p` the cells hold the sums over `p`-smooth (zeta) / `p`-rough (mobius) cofactors; `conv_thm` for the convolutions.
* **C35 — subset_convolution computes disjoint-union sums.** Cells of the ranked vectors represent power series; `conv_thm` in the ring of power series; sizes add up iff the sets are disjoint.
* **C36 — CoordinateCompressor is an order isomorphism.** Sorted deduplicated array; partition points of sorted lists counted by cardinalities.
* **C37 — RunLengthEncoder round-trips.** Invariant over appended runs; uniqueness of maximal runs by induction.
* **C38 — Permutation operations form the symmetric group and hash/unhash are mutually inverse.** Array loops; Fisher-Yates style factorial encoding inverted step by step; cycle walk for pow.
* **C39 — Integer binary search returns the boundary.** Loop invariant f(l)=false, f(r)=true with a measure.
* **C40 — CumulativeSum / CumulativeSum2D.** Prefix sums; histories of push_back.
* **C41 — Subset iterators enumerate exactly the subsets.** Words as Nat below 2^w for all w; next-subset step characterised as the successor among submasks.
* **C42 — Morris-Pratt: borders, periods and occurrences.** `Model/StringAlgo`; invariant: j is the longest border, falling through the table loses no candidate; periods = n - borders.
* **C43 — Manacher computes maximal palindromic radii.** Radii in the interleaved sequence; copied radii are right as long as they stay inside the current palindrome.
* **C44 — Trie membership.** Both tries refine an abstract list of node labels (`Trie.Rep`); a history invariant over labels and data.
* **C45 — topological_sort is sound and complete.** `Model/GraphAlgo`; `Proof/TopSort`: counters = edges from outside the order; queue = unsorted vertices with counter 0; completeness by a minimal vertex of an acyclic set.
* **C46 — bfs distances are shortest path lengths.** Distances are walk lengths, finished vertices have their neighbours at most one further, the queue is sorted and spans two consecutive levels.
* **C47 — dijkstra distances are shortest.** Settled vertices have least costs (a walk leaves the settled set through the queue); queue entries are never below settled distances; predecessors are settled earlier; measure: queue length plus degrees of unsettled vertices.
* **C48 — Bipartite recognition.** Coloured vertices outside the queue have all neighbours coloured differently; within a component the colours agree with any proper colouring up to swapping.
* **C49 — BinaryTrie is a multiset with xor order queries.** `Model/BinaryTrie` (inductive tries), `Spec/BinaryTrie` (multiset of w-bit numbers as an abstract state machine); a node at height k with prefix p holds the elements v with v >> k = p; history theorem by `refine`.
* **C50 — Red-black tree sequence operations.** Trees as values with colours, cached sizes and levels, pending updates and reversals; the four classes by their push/update hooks. Invariants (data, black heights) through merge by symmetric descent, split by recursion; histories as an inductive relation between trees and lists.
* **C51 — XorBase spans what was added.** Values are natural numbers (unsigned); the invariant is that the leading bit of an element is absent from all later ones. The dimension theorem counts the span.
* **C52 — Gaussian elimination returns the full solution space.** `Model/Gauss`, `Proof/Gauss*`: forward phase keeps an echelon invariant, backward phase makes pivot columns unit columns; row operations preserve the solution set; a reduced system is solved by the listed basis. `Bool` with xor/and is made a field.
* **C53 — Longest increasing subsequence.** Patience sorting invariant: `dp[k]` is the least possible last value of a chain of length k+1 (for the relation), `pd` links form such chains.
* **C54 — number_of_nonempty_subsequences counts distinct subsequences.** `last` by the stable order of sorted pairs; count of the distinct sublists of a prefix by inclusion-exclusion on the last character.
* **C55 — Stern-Brocot node.** Nodes are direction lists; bounds form a unimodular matrix product. The constructor loop keeps target = a*r + b*l. `auxiliary_tree` is not modelled.
* **C56 — BitVector rank/select and WaveletMatrix queries.** `Model/BitVector` with 8-bit blocks and uint8 storage, `Model/WaveletMatrix`; a query keeps the invariant that the current range of the current level is the original range filtered by the bits seen so far.
* **C57 — maximum rectangle / square.** Histogram stack with an arbitrary callback; the two-dimensional functions instantiate it.
* **C58 — monotone_minima finds row minima of monotone matrices.** Induction over the recursion; the comparison function is a parameter that may fail outside its contract.
* **C59 — Integer k-th roots are exact.** Integer arithmetic; `sqrtl`, `powl` by rounding to nearest (Spec/Rounding.lean), from which exactness of truncation and comparison is proved. The `powl` guess is a parameter.
* **C60 — enumerate_quotient lists the quotients and their intervals.** `sqrtl` and the `double` division are proved exact from rounding to nearest; the loops are proved to visit the sorted list of quotients; int narrowing of `h` and `m` is modelled.
* **C61 — LinkedUnionFind lists a component.** `Model/UnionFindVariants`; invariant: the link cycles are exactly the classes; swapping two links joins two cycles.
* **C62 — UnionFindComponentSum sums the component.** Root value = sum over its class, seen through an observation into a commutative monoid.
* **C63 — UndoUnionFindComponentSum sums the component and undoes.** As C03 with the sums on the undo stack.
* **C64 — LazySegmentTree prefix/suffix products and boundary searches.** Planned; see title.
* **C65 — DoubleEndedPriorityQueue keeps both ends.** Std heaps by contract (front = extreme element), nth_element as a parameter with the guarantees of the standard; pivot invariant.
* **C66 — carmichael is the exponent of the unit group.** Multiplicativity of the exponent over coprime factors; prime powers from the structure of the unit groups (Mathlib).
* **C67 — kronecker_power_transform multiplies by the Kronecker power.** The general statement behind C31 and C33.
* **C68 — ternary_search_key finds the optimum of a convex / concave function.** Bracket invariant: an optimum stays in [l, r]; final scan.
* **C69 — Step sums by residue class.** Class prefix sums U(k,i).
* **C70 — Aho-Corasick counts the matching suffixes.** Labels are prefix closed; failure link = longest proper suffix that is a label; breadth-first invariant; loop of next_state by induction over the label length.
* **C71 — Array Aho-Corasick counts the matching suffixes.** As C70, with the invariant that finished nodes have completed transitions and others the raw trie children.
* **C72 — connected_components partitions the vertices.** Visited = union of the finished components, the current one and the queue; finished components are closed under reachability.
* **C73 — BFS01 distances are least costs.** Label correcting: distances are costs of walks, all edges of vertices outside the queue are relaxed; measure: sum of distances plus queue length; walks with fewer than n edges exist.
* **C74 — Shortest paths in a DAG.** Topological invariant of C45 plus relaxed edges of finished vertices; final distances by induction over the order.
* **C75 — remove_multiedges keeps one edge of each kind.** Flag of v = v occurs in the list and was not kept yet.
* **C76 — inversion_number counts inversions.** Fenwick tree of the AtCoder library by its contract; compressor as in C36; induction from the right.
* **C77 — Bitset Gaussian elimination returns the full solution space.** `Model/GaussF2`: per-column invariant over the treated columns; the basis spans exactly the solutions that vanish on the columns never looked at, and a one-row witness shows that these are not all solutions.
* **C78 — WaveletMatrix xor queries.** As C56, for v xor x. The code returns v instead of x ^ v; the negation is proved with a witness.
* **C79 — BitVector::select finds the num-th occurrence.** Binary search on rank; the code returns the position after the occurrence; the negation is proved with a witness.
* **C80 — CompressedWaveletMatrix queries equal the naive array.** `Model/CompressedWavelet` on top of the compressor and wavelet matrix models; the code of a value is its rank among the different values, a strictly monotone map, so every query transfers. range_max_leq returns the default for every range: negation proved.
* **C81 — BinaryTrie xor_count_leq, xor_count_gt, xor_floor, xor_higher.** Exact result as a partial theorem, negation by witnesses (including a null dereference in xor_higher).
* **C82 — BinaryTrie::max returns the greatest element.** max() returns the complement of the greatest element; exact result and witness.
* **C83 — Range products, updates and reversals in red-black segment trees.** Value invariant of C50's model under the laws of monoid and action; counterexample for a non-commutative monoid with reversal.
* **C84 — Persistent red-black trees keep earlier versions.** Nodes in an object pool with pointers; frame proof that in the cloning class old nodes change at most their colours; counterexamples for the others.
* **C85 — PersistentArray keeps every version.** Pool of nodes with child pointers (`Model/PersistentArray`); every node carries a ghost label (its index and stride), so that slots of different indices never coincide; `set` writes fresh nodes only. `dump` is wrong: witness.
* **C86 — PersistentUnionFind answers for each version.** `Model/PersistentUnionFind` on the pool model; the newest version simulates the array of C01 when used linearly; witness that path compression changes an older version.
* **C87 — HornSAT decides Horn formulas and returns a model.** Model add_clause/satisfiable/answer with the counters and the deque. Reach = objects obtained by any history. Loop invariant: counters = unseen left-hand variables, fired clauses are in the queue or satisfied, everything assigned is forced in every model. Completeness is false in the code when a negative literal on the right uses a variable that also occurs on the left (witness proved); proved otherwise.
* **C88 — Doubling tables of a functional graph: k steps, maximal walk, first hit, sums.** Model floor_log2 with the shift semantics of long long, the tables, and the four query functions. Rows are f^(2^i); binary-search invariant (aligned step, predicate true here and false above). Limits >= 2^62 are undefined behaviour (proved for every graph).
* **C89 — infinite_paths returns the exact tail length and cycle length of every orbit.** Model the recursive search with vis/dep/res; invariant along the recursion path f^j(r); the returned counter says how far back the cycle starts. Spec Rho: the first k+t iterates are distinct and the next one is the k-th.
* **C90 — kth_iterate returns f^k of every vertex.** Model forest, search with the path stack, and the cycle phase with the overflow check of i + rem. Result f^k(u) for k + n <= 2^63; k = LLONG_MAX on a 2-cycle is an overflow (witness).
* **C91 — Kruskal objects maintain an optimal spanning forest of every edge ever added.** Model `Kruscal.*` (ACL dsu by contract as label vector, `std::sort` any sorted permutation). Spec `SpanningForest.*`. Proof: number of components drops by one per non-redundant edge, hence acyclic = `components + edges = n`; the kept edges span at every weight threshold, which is preserved by rebuilding and implies optimality by counting edges below each threshold. Refinement of histories: `KruscalProps.kruscal_correct`.
* **C92 — Every triangle of a graph is enumerated exactly once.** Model `Triangles.enumerate` (counting sort, filtered lists, mark array; the consumer is the list of calls). Proof: the counting sort computes the rank by (degree, number), which is injective; the calls are exactly the triangles in increasing rank, without repetition (`TrianglesProps.triangles_once`).
* **C93 — Strongly connected components of a tournament from in-degrees alone.** Model `SCCTournament.scc`. Spec `Tournament.IsSCC`. Proof: double counting of the pairs inside a prefix gives that the numeric test holds exactly for predecessor-closed prefixes; the ancestors of a vertex always form a prefix of the in-degree order (`SCCTournamentProps.scc_correct`).
* **C94 — Bottleneck distances between all pairs.** Model `MinMaxFloyd.minmax` with 64-bit words, recursion by fuel. Spec `MinMaxPath.IsMinMax`. Proof: a call `rec(u, v)` discharges exactly the transitivity obligations of the new pair, for any set of other pending obligations; the closure of the processed edges is thus stored after each edge (`MinMaxFloydProps.minmax_correct`).
* **C95 — Distances and components of a complement graph without building it.** Model `ComplementBFS.*`, `std::partition` as a parameter returning two permutations of the filtered lists. Spec `Graph.compl` + `Graph.Walk/Reach`. Proof: the unvisited list is exactly the set of vertices with distance -1; each pop is a run of BFS visits on the complement, reusing the BFS invariants (`ComplementBFSProps.complement_distance`, `complement_components`).
* **C96 — Lowest common ancestors, distances and nesting times from an Euler tour.** Model `EulerTour.*` (recursive dfs by fuel, segment tree of argmins). Spec `Tree.IsTree` (unique simple paths), `IsLCA`, `Dist`, `Anc`, `Parent`. Proof: every rooted tree is described by an ordered forest (`Tree.exists_rooted`); the dfs writes its parent tour; the shallowest vertex of a tour segment is the lowest common ancestor (`EulerTourProps.eulerTour_correct`, `eulerTour_times`).
* **C97 — Level ancestor queries.** Model `LevelAncestor.*` (dfs by fuel, counting sort by depth, upper_bound as first greater element). Spec `Tree.IsKthAncestor`, `Dist`. Proof: preorder intervals (`Tree.pre_between`): between an ancestor and its descendant in preorder only descendants of the ancestor occur, so the last one of its level is the ancestor (`LevelAncestorProps.levelAncestor_correct`, `levelAncestor_times`).
* **C98 — The path between two vertices of a tree.** Model `GetTreePath.*` with the result as an array used as a stack. Spec `Tree.IsPath`. Proof by induction over the ordered forest of the tree rooted at u (`GetTreePathProps.getTreePath_correct`).
* **C99 — All centroids of a tree.** Model `FindCentroids.*` over the generic iterative walk `IterDFS.walk`. Spec `Tree.IsCentroid` (sizes of the sides of the neighbours). Proof: the walk finishes the vertices in postorder with their parents (`IterDFS.walk_tot`); subtree sizes by induction over the ordered forest; counting for 'one or two' (`FindCentroidsProps.findCentroids_correct`).
* **C100 — Identifiers of rooted subtrees are canonical.** Model `TreeIso.*` (trie of sorted child identifiers, iterative walk). Spec `Tree.SubtreeIso`, `RootedIso` (bijections preserving adjacency and the root). Proof: the handler is an injective finite map from sorted keys to identifiers (`TreeIso.Abs`); codes of ordered forests coincide exactly for isomorphic ones (`iso_of_code`, `code_of_iso`); tree paths identify graph isomorphisms with forest isomorphisms (`TreeIsoProps.classifySubtrees_correct`, `isIsomorphicRooted_correct`).
* **C101 — Isomorphism test for unrooted trees.** Model `TreeIso.isIsomorphic`. Isomorphisms preserve centroids; rerooting codes from one centroid to the other. The code reads `cs2[1]` when the second tree has a single centroid, so only the three-way characterisation `isIsomorphic_partial` holds, with the witness `isIsomorphic_ub`.
* **C102 — Rerooting computes the dynamic program for every root.** The CSR construction (count, prefix sums, fill from the back) and both searches are modelled; the counting sort is proved to give the reversed list of incident edges. The value of a directed part of the tree is specified by an inductive relation; both searches are proved by induction on the forest of children.
* **C103 — Heavy light decomposition of a tree.** Model `HLD.make`, `makeRoots` with the adjacency lists as state (the loop index stays while entries are swapped). Specs in `Spec/Tree`. Both searches are proved by induction over the ordered forest of the tree; the result is an ordered rooted forest `F` of the permuted graph for which visit times are preorder (`HLD.Built`), from which the getters follow (`HLD.made_getters`, `made_order`, `made_subtree`, `made_chain`).
* **C104 — Ancestor and path queries on the heavy light decomposition.** The chain invariant `Built.chain` plus ancestor ranges give the climbing step (`common_up`, `up_tot`); visit times decrease, so the loops terminate (`HLD.made_lca`, `made_la`, `made_jump`, `made_dist`).
* **C105 — Path decomposition into ranges.** The ranges of `update_path` are computed symbolically (`updatePath_eq`); light edges at least double the subtree size, which bounds their number; folds by induction over the loop (`HLD.made_updatePath`, `made_foldPath`, `made_foldPathNC`).
* **C106 — Auxiliary trees.** Model `AuxTree.build` on top of `HLD`. Spec `AuxTree.Closure`, `Closest`. Invariant: the stack is the path to the current vertex restricted to the closure of the processed vertices, and the lists hold exactly the edges whose lower end left the stack (`near_next`, `line_next`); the object invariant is that all non-empty lists belong to `_upd` (`AuxTree.build_correct`).
* **C107 — Constant time range minima of zigzag arrays.** One model for both headers, parametric in the result type (`RMQpm1.Kind`) and in LOG. The in-place table construction keeps, for every mask, a prefix with the best sum (`Good`, `merge_tot`); zero bits after the cut only make the sum worse (`Good.arg_lt`). The sparse table is used through a lemma for relations closed under overlapping unions (`SparseTable.ofVectorG_tot`).
* **C108 — Lowest common ancestors by the Euler tour.** Model `LCA.make` builds tour, depths and indices; the search appends the Euler tour of the forest of children (`kids_dfs`), whose depths are a zigzag (`dts_chain`), and `tour_lca` identifies the minimum.
* **C109 — Discrete logarithms.** Model `DiscreteLog.dlog`, `coprime` with modint operations by contract. Baby and giant steps meet exactly at the sought exponents (`meet`), Euler's theorem bounds them; the factor g = gcd(x^d, m) is split off (`split_coprime`) and recombined by the Chinese remainder theorem. The shift overflow in `floor_log2` makes moduli from 2^30 on undefined (`dlog_large_modulus`, `dlog_correct_false`).
* **C110 — Simple wheel sieve.** Model `WheelSieve.simple`, `simpleIsPrime`, `primeList` with the hand-written tables and 32-bit arithmetic. The tables are characterised by arithmetic modulo 30 (`next_row`, `mul_mod30`, `next_coprime`); the inner loop marks exactly the multiples `p q` with `q >= p` coprime to 30 (`mark_tot`); no prime is ever marked and every composite number is.
* **C111 — Wheel sieve with factorisation.** Model `WheelSieve.sieve`, `isPrime`, `primeFactor`, `factorize`, `divisors`. Invariant: nonzero entries are proper prime factors, all primes below the current number are done; hence a zero entry at its turn is a prime (`pfCol_tot`). The table size wraps around for N = 2^29 - 1 (`sieve_large`).
* **C112 — Deterministic primality test.** Model `MillerRabin.isPrime` with Montgomery arithmetic on 64-bit words and the tabulated bases. The chain of squarings is evaluated in ZMod n (`chain_iff`); primes pass every base because a square root of 1 is 1 or -1 (`strong_of_prime`). That the tables leave no strong pseudoprime is a published computation and is not proved; the theorem states exactly what is left. For n >= 2^63 the property is false (`isPrime_wrong`). Below 341531 exactness is proved: all products p q are gone through by the kernel, and all but 31 of them fail even the Fermat test to the tabulated base (`isPrime_exact`).
* **C113 — Factorisation of 64-bit numbers.** Model `FastFactorize.factorize`, `pollard` with the random constants as a list parameter (result `none` when they run out) and the primality test as a parameter. The iterates modulo the least prime factor p collide within p steps (`Y_collide`), so a round with r >= p finds a factor (`round_hits`) and r stays below 2p; the accumulated product is coprime to n before the last batch, so the fallback ends (`retry_tot`). Termination of the whole retry loop holds only with probability one and is not claimed.
* **C114 — Power towers modulo m.** Model `Tetration.tetMod` on top of the model of factorize. Saturating powers are exact minima (`sat_mul`, `satTet_tot`); the loop over g yields m0 coprime to a with m | m0 a^i0 (`gcd_tot`); exponents from i0 on that agree modulo phi(m0) give the same power (`pow_congr`).
* **C115 — Slope trick: minimum and minimisers of a convex function.** Model `SlopeTrick.step`; queues by contract as ordered lists. The specification is a function on all integers and its infima. Representation invariant: f = base + sum max(0, p - x) + sum max(0, x - q) with every p at most every q (`Rep`); infima over half lines and windows are computed in `inf_left`, `inf_right`, `inf_window`.
* **C116 — Least value of a linear function modulo m.** Model `MinModLinear.minMod`; `atcoder::floor_sum` by contract. Adding m - 1 - k raises the quotient of y exactly if y mod m > k (`term`), so the comparison of floor sums tests whether some value is at most k (`fsum_lt`); binary search invariant. Proved for b + m <= 2^31; otherwise the int sums can overflow (`overflow`).
* **C117 — Cartesian trees.** Model `CartesianTree.calcPar`, `build`, `parent`, `ranges`. Closed form of the parent from the nearest smaller elements on both sides (`Par`); invariant: the array holds the parents in the tree of the prefix (`par_step`). A node is the left (right) child of p iff it is the first minimum of the segment left (right) of p (`par_left`, `par_right`), which gives the recursive tree predicate (`isCart_of_link`).
* **C118 — Convex hull trick.** Model `ConvexHullTrick.step`; the multiset by contract as a list ordered by slope. Invariant: consecutive lines l, r satisfy x <= r.m <-> r(x) <= l(x) on the whole admissible domain and the breakpoints decrease strictly (`Ok`); `addMin_tot` shows that every old line and the new one are bounded below by a kept line at every point. At x = -(2^63 - 1) the answer can be wrong (`query_edge`).
* **C119 — Union find with lazy operators on components.** Model `UnionFindLazy.step` on top of the models of `UnionFind` and `LinkedUnionFind`; template arguments as a structure with laws (`Lawful`), moved-from values arbitrary. Invariant: the operator of the root applied to the raw value is the abstract value, and roots hold the sum over their class (`Good`); link cycles and path compression are reused from C61 and C62.
* **C120 — Dirichlet convolutions.** Model `Dirichlet.conv`, `convCoprime` over any commutative semiring. Loop invariant: partial sums over the factorizations already visited (`part`); table invariant: row r holds gcd(r, c) for all c below its bound (`DpOk`).
* **C121 — Prefix sums of the Möbius function and of Euler's function.** Model: Model/SumOfMultiplicative (sieves, prefix sums, recursion over blocks of equal quotients, queries; threshold a parameter). Proof: sieve invariants over the prime factors below p, hyperbola identity Σ_l F(x/l) = Σ_m Σ_{d|m} f(d), the index n/(q+1)+1 has the same quotient.
* **C122 — Bridges and articulation points.** Model: Model/LowLink (recursive depth-first search with fuel, arrays, lists of results in order). Spec: Spec/Cut (paths, bridges, cut vertices, counting classes). Proof: the search leaves a certificate (intervals of preorder numbers, parent edges, low values) proved by induction over the search (Proof/LowLinkDfs); all answers follow from the certificate without looking at the search again (Proof/LowLinkStatic).
* **C123 — Bridges after further edges.** Same model. The second build() finds every vertex numbered already; refuted by a concrete history, kept as a partial theorem for a single build.
* **C124 — Two-edge-connected components.** Model: Model/LowLink, namespace TwoEdge. Proof: the second search visits the vertices in preorder of the first one (Proof/LowLinkWalk), every class consists of a head (root or lower end of a bridge) and the vertices below it up to the next heads; the subtree of a head is left only by its bridge.
* **C125 — Biconnected components of the edges.** Model: Model/Biconnected on top of Model/LowLink, the static stack part of the state. Spec: Spec/Cut, SameBlock: for every vertex u the two edges have ends different from u that are connected avoiding u. Proof: two edges are in one block iff walking up from their lower ends reaches the same head, a vertex whose low value is at least its parent's preorder number (Proof/BiconnectedStatic); the stack holds exactly the edges with open heads (Proof/Biconnected).
* **C126 — Biconnected components as subgraphs.** Same model. Refuted with a self-loop, whose number stays -1 and is used as an index; kept as a partial theorem for graphs without self-loops.
* **C127 — Block-cut forest.** Model: Model/BlockCutForest on top of Model/Biconnected and remove_multiedges. Proof: adjacency is characterised edge by edge; acyclicity by the rank 2 pre x for points and 2 pre w - 1 for blocks with top w: every node has at most one neighbour of smaller rank (Proof/BlockCutForest). Refuted with self-loops, partial theorems for graphs without.
* **C128 — Min-plus convolution.** Model: Model/MinPlusConvolution with checked 64-bit sums, on top of MonotoneMinima. Proof: a pair of indices that is locally optimal is globally optimal for convex sequences and the merge keeps local optimality; for the other function the comparison is the order of a matrix with lexicographic entries (class, value, -column), whose leftmost row minima are the rightmost valid ones and monotone by an exchange argument.
* **C129 — Tables of factorials and binomial coefficients.** Model: Model/ModTables (Factorial) over an arbitrary field, division by zero is the assertion of ACL's modint. Proof: invariant fac[i] = i!, inv[i] i! = 1; a history with arguments below N never makes the table longer than 2 N - 2. Refuted for arguments up to the modulus: the doubling passes the modulus and the code divides by 0. Kept as a partial theorem for 2 N <= p + 2, and in full for characteristic 0.
* **C130 — Tables of inverses and batch inversion.** Model: Model/ModTables (InvMods). Proof: i (p / i) + p % i = p = 0 in the field, and p % i > 0 because p is prime; prefix/suffix products for get_invs.
* **C131 — Tables of powers.** Model: Model/ModTables (PowMods). Proof: invariant pows[i] = base^i.
* **C132 — Chromatic number.** Model: Model/ChromaticNumber (masks as naturals, int and long long ranges checked). Proof: I[s] counts the independent subsets of s; inclusion-exclusion by a sign-reversing involution gives the number of covers by k independent sets (Proof/Coloring); that number is positive iff a colouring with k colours exists. Partial: the counts are known only modulo two primes; proved: the result is never too small, and exact unless the count is divisible by both, which is excluded if (2^k - 1)^n is less than the product of the primes.
* **C133 — Mo's algorithm.** Model: Model/Mo, generic in the callbacks, with the sort as a parameter. Proof: the invariant Rep l r is carried through the four loops, whose order keeps l <= r; the comparison is shown to be a strict weak ordering.
* **C134 — Sums of binomial coefficients.** Model: Model/BinomialSum on top of Model/Mo and Model/ModTables. Proof: Pascal's identity gives the four updates, C133 the rest. Partial like C129: m + 1 < N with 2 N <= p + 2, because of the doubling of the table of factorials.
* **C135 — Merge history forest.** Model: Model/MergeHistoryForest, atcoder::dsu by its contract with an arbitrary choice of leaders. Proof: refinement over all histories; every new node adopts tops of trees, which keeps the old ancestors; the post-order relation of merge_dfs describes the temporary trees of merge_simultaneously.
* **C136 — Multiplicative order modulo any number.** Model: Model/OrderMod, the factoring routine by its contract (Spec/Factors, proved for fast_factorize elsewhere), atcoder::dynamic_modint by contract, mint64::pow modelled. Proof: order of y with y^(uv) = 1 and u, v coprime is the product of the orders of y^u and y^v; induction over the segments of the divide and conquer.
* **C137 — Constants of the group of units.** Model: Model/OrderMod. Proof: both folds run along coprime prime powers; Mathlib's Carmichael function. is_prime() is shown to accept exactly the prime powers, with nine as counterexample.
* **C138 — Primitive root test.** Model: Model/OrderMod. Proof: the divide and conquer tests a^(lambda/p) for every prime p. Proved for coprime arguments and moduli outside [2^31, 2^32); for the others the failure is proved.
* **C139 — Primitive root search.** Model: Model/OrderMod, random numbers as a list. Proof: induction on the list. Proved for moduli that are prime or have two different prime factors; modulo 9 the wrong result 3 is proved possible.
* **C140 — Shortest linear recurrence.** Model: Model/BerlekampMassey over any field. Proof: loop invariant with the last failing recurrence shifted by x; minimality and the prediction both from Massey's lemma (a double sum evaluated in two orders).
* **C141 — Directed Eulerian circuits.** Model: Model/Eulerian, the depth-first search with a bound on its depth that is proved sufficient. Proof: one theorem on the search for both classes (a walk of entries whose closures are marked once each, leaving no free entry at its vertices), then counting.
* **C142 — Directed Eulerian trails.** Model: Model/Eulerian. Proof: from the circuit of the graph with one edge more, the degrees at the ends of a trail, and the rotation. After nullopt the graph is proved to be changed, so partial.
* **C143 — Undirected Eulerian circuits.** Model: Model/Eulerian. Proof: as C141 with an involution on the entries that exchanges the two entries of an edge.
* **C144 — Undirected Eulerian trails.** Model: Model/Eulerian. Proof: as C142. After nullopt the graph is proved to be changed, so partial.
* **C145 — Maximum bipartite matching.** Model: Model/BipartiteMatching, the searches with bounds that are proved sufficient. Proof: invariants of the breadth-first levels, a frame and success specification of the depth-first search, progress of every phase (a vertex that is given up cannot reach a free vertex), maximality from the labels by weak duality.
* **C146 — Size of a maximum matching.** Model: Model/BipartiteMatching. Proof: from C145 by counting the matched vertices. False after a second round of additions (witness), so partial.
* **C147 — Minimum vertex cover of a bipartite graph.** Model: Model/BipartiteMatching. Proof: the search computes the least closed set of vertices; the cover has as many vertices as the matching has edges.
* **C148 — Maximum independent set of a bipartite graph.** Model: Model/BipartiteMatching. Proof: complement of C147.
* **C149 — Minimum edge cover of a bipartite graph.** Model: Model/BipartiteMatching. Proof: counting end points (Gallai). With more right than left vertices the code accesses a vector out of bounds (witness), so partial.
* **C150 — Square roots modulo a prime.** Model: Model/ModSqrt. Proof: Tonelli-Shanks, the order of x²/a halves in every round. `__builtin_ctz(p - 1)` is undefined for p = 1 mod 2^32 (witness), so partial.
* **C151 — Square roots modulo a composite number.** Model: Model/ModSqrt. Proof: Hensel lifting for odd primes, bit by bit for 2, then the Chinese remainder theorem. Negative numbers modulo even m and primes above 2^62 go wrong (witnesses), so partial.
* **C152 — Li Chao segment tree.** Model: Model/LiChao (T = long long with overflow checks). Proof: invariant that every added line is dominated at each of its leaves by a line on the path to the root; refinement over histories. A query above all coordinates reads out of bounds instead of failing the assertion (theorem).
* **C153 — Convex hull trick with monotone slopes.** Model: Model/MonotonicCHT (T = long long, products in 128 bits). Proof: the deque is a strictly convex chain that dominates all lines at all points still askable; the values at a point fall, stay equal at most once, and rise strictly, so the walk and the ternary search find the minimum; refinement over histories.
* **C154 — Range assignment and range product.** Model: Model/RangeSetComposite on the verified model of fenwick_tree_set; atcoder::segtree by contract. Proof: the set marks the starts of runs of equal elements, the tree holds their products; refinement over histories. The constructor from a length and a value always fails an assertion (theorem), so partial.
* **C155 — Distinct values in ranges.** Model: Model/RangeCountDistinct; atcoder::fenwick_tree by contract. Proof: previous-occurrence array, correctness of the bucket sort by right end (every query is placed exactly in its bucket), sweep invariant, first occurrences in a range are counted by l + distinct; refinement over histories.
* **C156 — Moebius function table.** Model: Model/MobiusFunction (shares the sieve with sum_of_mobius_function.hpp and the factorisation loop with linear_sieve.hpp, which are textually the same). Proof: sieve invariant over the primes below p for both tables.
* **C157 — Constraints of TwoSAT.** Model: Model/TwoSat; the base class atcoder::two_sat by contract (a hypothesis, shown satisfiable by a brute-force solver). Proof: the clauses added have the same models as the constraints; refinement over histories.
* **C158 — Cycle in a directed graph.** Model: Model/CycleDetection. Proof: the stack is a path, finished vertices form a topological order (every edge of a finished vertex leads to one finished earlier); fuel = number of vertices.
* **C159 — Arithmetic of rational numbers.** Model: Model/Rational (T = long long, every operation range checked). Proof: results of the operations are related to Mathlib's rational numbers by numerator and denominator.
* **C160 — Comparison of rational numbers.** Model: Model/Rational.compare. Equality is right (proved); the order is wrong for pairs of fractions with equal integer parts (counterexample), the other cases are proved, so partial.
* **C161 — Rounding of rational numbers.** Model: Model/Rational. floor is wrong for all negative, ceil for all positive non-integers (theorem and counterexample), the other cases are proved, so partial.
* **C162 — Linear Diophantine equations in two unknowns.** Model: Model/Bezout on the verified model of ext_gcd, every operation range checked. Proof: the object describes the set of solutions by a line and an interval of parameters (sentinels mean unbounded); invariant over histories. solve divides by zero for b = 0, count is wrong for a = b = 0 (counterexamples), so partial.
* **C163 — Sum of the first k elements.** Model: Model/PrioritySum. Proof: invariant of the two queues (the first holds the first k elements), kept by the two loops of fix. erase is wrong unless it erases the greatest of the first k elements (counterexample), so partial.
* **C164 — A persistent segment tree keeps all its versions.** Nodes as an array of records, pointers as indices, versions as (length, root). Each operation is proved to write only to nodes that it takes from the pool (frame sets), so the trees of older versions stay as they are; the tree of the new version is related to its array by a recursive predicate. Queries are those of the lazy tree with the trivial action. The constructors from an empty vector recurse until the pool is used up, so the theorem is partial.
* **C165 — A persistent lazy segment tree keeps all its versions.** As C164; the predicate on trees lets every inner node have a pending map that has still to be applied to the elements below. The number of nodes of a range update is bounded by a cost function on the recursion.
* **C166 — A persistent dual segment tree keeps all its versions.** As C165 with the elements themselves as maps; the copy of an inner node is pushed, so the node keeps the identity.
* **C167 — A persistent commutative dual segment tree keeps all its versions.** Same proof as C166 with the copy not pushed; commutativity moves the new map past the map of the node.
* **C168 — dump lists the elements of a version of a persistent segment tree.** For a new pool leaves are exactly the nodes without a left child, by an invariant on unused nodes; after clear_pool this is false (counterexample), and the dump of the lazy class is wrong at once (two counterexamples).
* **C169 — OfflineDynamicConnectivity answers every query for the graph of its moment.** Invariant of the calls: the snapshot of every past query is the set of edges whose lifetime contains it. The loop over the table keeps, for every leaf, the edges stored at its ancestors; the search is proved by induction over the fuel for any union-find whose undo restores the object.
* **C170 — OfflineDynamicConnectivityComponentSum answers connectivity and component sums for the graph of the moment.** The same generic proof with the component-sum union-find.
* **C171 — answer() of OfflineDynamicConnectivity does not change the graph.** A second call returns the same (proved); but answer() drops the active edges, so later queries and deletions see an empty graph (two counterexamples).
* **C172 — DynamicBitSet behaves as a list of bits under any history of calls.** Model all functions on 64-bit blocks with undefined shifts; relation between blocks and the list that says nothing of the bits beyond the size; per-function lemmas bit by bit; a refinement over histories.
* **C173 — s[i] &= v on a DynamicBitSet only changes bit i.** Refuted by a counterexample; the exact effect is proved (bit i right, other blocks kept, the rest of the block cleared).
* **C174 — DynamicBitSet::all() for every size.** Proved for size 0 and sizes that are no multiple of 64; counterexample for 64.
* **C175 — SparseSegmentTree behaves as an array of the initial values under any history of calls.** `Verif/Model/SparseSegmentTree.lean`: pool as an array of nodes, objects as (n, root). Invariant: a map from (tree, path) to nodes that is injective on live nodes; each live node stores the product over its interval, absent children stand for initial values. Simulation by arrays; objects refer to arrays, so copies are aliases.
* **C176 — A copy of a SparseSegmentTree is independent of the original.** Fails: counterexample with a copy and a `set`. The partial theorem covers all histories without copies against a specification in which each object has its own array.
* **C177 — SparseLazySegmentTree behaves as an array under any history of range updates and queries.** `Verif/Model/SparseLazySegmentTree.lean`: pool as an array of nodes with pending maps; maps depend on the interval. Invariant: ghost trees of node indices, pairwise disjoint; a node represents a function on its interval, its children the function before the pending map, absent children the initial values. Each operation extends the pool and changes only nodes of its tree; the number of new nodes is bounded by 2 ceil(log2 n) for each end of the range. Simulation by arrays; copies are aliases.
* **C178 — A copy of a SparseLazySegmentTree is independent of the original.** Fails: counterexample with a copy and a `set`. The partial theorem covers all histories without copies against a specification in which each object has its own array.
* **C179 — prod_all() after apply_all(f) on a SparseLazySegmentTree of any size.** Fails for n = 0: counterexample with maxima under assignment. The partial theorem covers all positive sizes.
* **C180 — fld/cld_denominators_positive/negative describe exactly the denominators with the given rounded quotient.** `Verif/Model/FindDenominators.lean`: the four functions with checked arithmetic for a type with maximum `hi`; truncating division. Proof by the sign cases and the characterisation of truncated quotients. The full claim fails by overflow (`n + 1 + q`); proved for |n| + |q| + 1 at most `hi`.
* **C181 — SegmentTree2D over a table behaves as that table under any history of calls.** `Verif/Model/SegmentTree2D.lean`: table of nodes. Invariant: inner cells are the products of their children in the row and in the column; for the former it is enough to look at the leaf rows. A level of a query has the same product as the level below. Simulation by the table of values.
* **C182 — SegmentTree2D(n, m) is a table of n rows and m columns.** Fails: the constructor makes a table of 2n rows and 2m columns; counterexample. The partial theorem gives the behaviour as such a table.
* **C183 — StaticRangeModeQuery returns a most frequent value and its frequency for every range.** `Verif/Model/RangeMode.lean`: compression by contracts of sort, unique and lower_bound; counting sort, table of blocks and queries as loops. The compressed values are counted by `Nat.count`; the bound checks compare numbers of occurrences; a value is counted completely at its first occurrence on the left or its last one on the right, or lies within the blocks.
* **C184 — StaticRangeModeQuery can be constructed from every vector.** Fails for the empty vector (division by zero); the partial theorem covers all others.
* **C185 — PalindromicTree describes exactly the palindromes of the symbols added.** `Verif/Model/PalindromicTree.lean`: nodes in an array, the search for the next palindromic suffix as a loop over suffix links. Invariant with a ghost palindrome for every node: links are longest proper palindromic suffixes, all palindromes of the sequence have a node, the children are exactly the prolongations. A shorter palindromic suffix is also a prefix of the longest one, hence occurred before.
* **C186 — frequency_table of PalindromicTree counts occurrences.** The number of ends of `w j` is the multiplicity of `j` plus those of the nodes whose suffix link is `j`: every end with a longer longest palindrome has exactly one such node on its chain of links. Loop invariant from above as links decrease.
* **C187 — clear() makes a PalindromicTree as good as new.** Fails for every symbol that was added before `clear()`: the root still has the child. The partial theorem covers a tree to which nothing was added.
* **C188 — SuffixAutomaton accepts exactly the words that occur.** `Verif/Model/SuffixAutomaton.lean`: nodes in an array, the two loops of `append` over links. `Verif/Proof/SuffixAutomatonWords.lean` is the theory: a word is canonical when it is the longest one with its occurrences; one more symbol adds the whole sequence and the longest suffix that occurred before. Invariant: the nodes are the canonical words, links are longest canonical proper suffixes, transitions lead to closures.
* **C189 — SuffixAutomaton is minimal: states are classes of end positions.** From the invariant of C188: the state of a word is its closure, and closures are equal just when the occurrences are.
* **C190 — SuffixAutomaton counts occurrences.** `Verif/Proof/SuffixAutomatonTopo.lean`: a first-in first-out search in a graph whose edges increase the length, where every node has a predecessor shorter by one, lists the nodes by length. `Verif/Proof/SuffixAutomatonQuery.lean`: the occurrences of a word are those of the children in the tree of links, and one more if the word is a prefix.
* **C191 — SuffixAutomaton enumerates occurrences.** The search in the tree of links collects the lengths of the prefixes below the state, each once since a prefix has a unique child's word as a suffix.
* **C192 — SuffixAutomaton finds first occurrences.** Invariant of the pass over the states: processed states hold their first end position, a clone the minimum over the processed children.
* **C193 — SuffixAutomaton finds a longest common substring.** Invariant: the state and the length are those of the longest suffix of the part read that occurs in s. Following a link drops the words whose extension cannot occur.
* **C194 — modint ring operations are exact residue arithmetic.** Model the constructors and operators on words modulo 2^32 and 2^64; case split on wraparound; pow by the repeated squaring rule.
* **C195 — Division-free remainder of dynamic_modint is exact.** L*m = 2^128 + e with e < m, so floor(c*L/2^128) = floor(c/m); then carry analysis of the two 64-bit halves.
* **C196 — modint inverse, division and negative powers.** Loop invariant of inv_gcd (congruences, gcd and the size bound s|m1| + t|m0| <= m) gives totality without overflow; primes are always recognised by is_prime (square roots of 1 modulo a prime), Fermat gives the power branch. That is_prime never accepts a composite below 2^31 is assumed for the static kind.
* **C197 — mod_sqrt of a modint.** Tonelli-Shanks invariant in ZMod p, as for prime_mod_sqrt, with the modint operations.
* **C198 — montmort_number counts derangements.** Invariant: the list so far is numDerangements (Mathlib), which counts derangements.
* **C199 — powers lists all k-th powers.** Sieve table from C30; strong invariant on the filled prefix; multiplicativity of powers.
* **C200 — Eulerian numbers count permutations by descents.** Specification: permutations of List.range n counted by descents. Inserting the largest element everywhere gives the recurrence; from it symmetry and the alternating sum; then loop invariants for both functions. The polynomial product is taken to be exact.
* **C201 — Binomial coefficients modulo a small prime.** Loop invariant res * C(n, r) = C(n0, r0) with Mathlib's Lucas theorem; table invariant from C129.
* **C202 — Segment tree beats applies range updates that may fail on summaries.** Recursive invariant on subtrees: a node describes its leaves' values as seen below the pending maps of its ancestors. Induction on the height for all_apply (a failed map is pushed down and the node recomputed), a context lemma to change one subtree inside the tree, then the loops of push_to, apply, update_from and prod. max_right/min_left with enable_beats are not modelled.
* **C203 — Range chmin, chmax, assign, add with sum, min and max.** The laws of C202 for the summaries (min, second min, max, second max, sum, counts) and clamp-and-add maps. Values of type T are exact integers (overflow not modelled), inf is a parameter.
* **C204 — CSR graphs are families of independent bounded lists.** Invariant: the list of i occupies a prefix of its own region of the shared array, and the regions are disjoint. Lemmas for std::move, std::move_backward, std::copy and std::fill; simulation of the history by a family of lists. The two passes of the constructor are loops over the arcs.
* **C205 — The capacity argument of CSR graphs reserves room for further edges.** Violated: the constructor takes the minimum of the degree and cap[i], so nothing is ever reserved (`CsrGraph.pushBack_counterexample`). Proved: push_back succeeds exactly if the list is shorter than its capacity.
* **C206 — Copied and moved CSR graphs are self-contained.** Violated: shrink_to_fit does not refresh the pointers to the graph (`CsrGraph.shrinkToFit_counterexample`). Proved: all calls through operator[] are right, and shrink_to_fit once all lists were accessed. A pointer to another graph is modelled as dangling.
* **C207 — Transposition and rotation of matrices.** Loop invariant over the two nested loops with a parameter for the column read. Non-rectangular arguments are undefined behaviour (`Rot90.transpose_ragged_undefined`).
* **C208 — Depth-first search trees of CSR graphs.** Invariant with ghost lists: the stack is a chain of parents, completed vertices, entered vertices, and for each vertex a classification of the arcs seen so far. One lemma for each case of the loop body (completion, tree arc, back arc, arc along the tree edge, arc to a completed vertex); the steps left are the sum of the arcs not yet seen.
* **C209 — Counting pairs by their sum.** Arithmetic with overflow checks. The number of pairs is a sum over a of the lengths of intervals; the closed form, doubled, is proved by induction on the length of the range of a.
* **C210 — The counting functions compute in the type of the result.** Violated (`SumCount.resultType_counterexample`); proved under the bound for T instead of R (`SumCount.resultType_partial`).
* **C211 — Composition of clamped affine functions.** The composition is compared with f(g(x)) by the sign of the slope of f and the position of g(x) (`AffineClamp.compose_partial`). Violated for coefficients that overflow (`AffineClamp.compose_counterexample`).
* **C212 — default_vector is an infinite sequence.** Simulation by an infinite sequence with a length and a default value.
* **C213 — default_vector needs no initialisation.** Violated (`DefaultVector.unset_counterexample`, `DefaultVector.negative_undefined`); accesses within the vector are right.
* **C214 — Numbers of walks.** Walks are functions from step numbers to directions; bijection with subsets for one dimension, rotation to the diagonals for two; composed with the invariant of the table of factorials. Partial only by the limit of that table (C129).
* **C215 — Naive convolution.** Loop invariants: partial double sums, for both orders of the loops. Violated for two empty vectors (`ConvNaive.naive_counterexample`).
* **C216 — Natural numbers of any size.** Lists of digits in base 10^9 with their value; induction over the digits; canonical forms are characterised by their length and value.
* **C217 — Products of natural numbers of any size.** Convolution (C215), then the carries. Violated for 0 * 0 (`UBig.mul_counterexample`) and for products of 65 to 200 digits whose halves are zero (`UBig.karatsuba_counterexample`).
* **C218 — Natural numbers from strings.** Induction over blocks of nine characters. Violated for leading zeros (`UBig.ofString_counterexample`).
* **C219 — Quotients of natural numbers of any size.** Violated (`UBig.divmod_counterexample`: 10^36 / 10^9 fails an assertion). Proved for divisors of one digit by induction over the digits of the dividend.
* **C220 — Natural numbers to strings and integers.** Induction over the digits; the value of a concatenation of decimal strings. The round trip fails for zero (`UBig.roundTrip_counterexample`).

## 6. Findings: where the code does not do what the property says

Each entry names the theorem that proves the deviation about the model, or says that it was found by reading only.

* `FenwickTreePrefix(vector)` (`library/datastructure/fenwick_tree/fenwick_tree_prefix.hpp`): the build loop runs downwards, so a node is
  folded into its parent `i + lowbit i` before its own children were folded into it; from 4 elements on a prefix query can be wrong.
  Proved: `FenwickTreePrefix.vectorCtor_incorrect`. The remaining part is `FenwickTreePrefix.vectorCtor_partial`.
* `SegmentTree::max_right` / `min_left` (`segment_tree.hpp:53,56,77,80`): `e` (a function pointer) is used where `e()` is meant, so
  the members cannot be instantiated. The model reads `e` as `e()`. (By reading: typing is not modelled.)
* `MapFenwickTree::sum` is `const` and uses `operator[]` of a const `std::map`; it cannot be instantiated. (By reading.)
* `union_find_lazy.hpp` has the same include guard as `union_find_component_sum.hpp`; including both drops the second. (By reading.)
* `LazySegmentTree::min_left(n, g)` (`lazy_segment_tree.hpp`): for `n` a power of two (at least 2) the start node `n + m = 2m` makes the
  push loop read `data[2m]`. Proved: `LazySegmentTree.minLeft_undefined`.
* `LazySegmentTree::suffix_prod(l)` calls `prod(l, m)` with the padded size `m`, but `prod` asserts `r <= n`. Proved for all `n` that are
  not powers of two: `LazySegmentTree.suffixProd_aborts`.
* `QueueAggregation`'s iterator is declared over `vector<pair<T, T>>` although the stacks are `vector<pair<T, SumType>>`; `begin()` cannot be
  instantiated unless `SumType = T`. (By reading.)
* `SparseTable({})`: the constructor computes `floor_log2(0)` with `__builtin_clz(0)`, undefined. Proved: `SparseTable.sparseTable_empty`.
* `BinaryHeap::pop` (`heap/binary_heap.hpp:63-71`) on a heap with one element: `heapify_down(0)` is called after the vector became empty and
  moves from and assigns to `_dat[0]`. Proved: `BinaryHeap.pop_last_undefined`; the rest of C17 is `BinaryHeap.binaryHeap_partial`.
* `DoubleEndedPriorityQueue`: with a comparator for which equivalent values can differ, `max()` may return a `pivot` that was already removed by
  `pop_min`; and `_rev_comp` keeps a pointer to `_comp` of the object it was copied from. (By reading; the model is over a linear order and has
  no copies.)
* `RangeSet::in_the_same_range` (`datastructure/util/range_set.hpp:37-40`) calls `get_containing_range`, which does not exist. (By reading.)
* `fenwick_tree_set::max_leq` / `max_lt` on an empty universe (`n = 0`) with a bound `>= 0` (`> 0`) read `_bs[-1]`. Proved: `FenwickTreeSet.maxLeq_empty_undefined`.
* `barrett` (`number/barrett_reduction.hpp:12-26`) accepts any non-zero `uint32_t` modulus, but the remainder is held in an `int32_t`: for every modulus above
  `2^31` the result for `x = 2^31` is wrong. Proved: `Barrett.barrett_large_wrong`.
* `Montgomery::sub` (`number/montogomery.hpp:64-66`) tests an unsigned difference for `< 0`; whenever a borrow is needed the result is wrong. Proved for all odd
  `N > 1`: `Montgomery.montgomery_sub_wrong`. `add` and `reduce` overflow for `N > R / 2`. Proved: `Montgomery.montgomery_large_wrong`, `Montgomery.montgomery_large_mul_wrong`.
* `powi` (`number/util.hpp:17-24`) squares once more than needed, a signed overflow for representable results such as `powi<long long>(1LL << 32, 1)`.
  Proved: `Powi.powi_unused_square`.
* `ext_gcd(LLONG_MIN, -1)` overflows. Proved: `ExtGcd.extGcd_min_overflows`.
* `factorize` (`number/util.hpp:33-66`): the candidate `b + offset` is passed as `int` (`f(int p)`), so for `long long` arguments factors above `2^31` are
  missed: the square of the prime 2147483659 is reported as a prime. Proved: `NumberUtil.factorize_longlong_wrong`. For `int`, `b * b` overflows for large
  arguments such as `INT_MAX`. Proved: `NumberUtil.factorize_int_wrong`.
* `totient<long long>` / `carmichael<long long>` inherit the unused square of `powi`: `n = 65537^3` overflows. Proved: `NumberUtil.totient_overflow`.
* `subset_convolution({}, {})` (`convolution/subset_convolution.hpp:15-18`) evaluates `__builtin_ctz(0)`. Proved: `TransformProps.subset_convolution_empty`.
* `gcd_convolution` / `lcm_convolution` do not follow `gcd(0, j) = j`, `lcm(0, j) = 0`: index 0 only interacts with index 0. C34 states this.
* `RunLengthEncoder` (`util/run_length_encoder.hpp`): `clear()` keeps the old `length()`; `swap` exchanges the runs but not the lengths. Proved:
  `UtilProps.clear_length_finding`, `UtilProps.swap_length_finding`. `pop_back` uses `comp.back.second` and cannot be instantiated. (By reading.)
* `Permutation::pow(k)` computes `j + k` in `long long`: overflow for `k` near the maximum. Proved: `UtilProps.permutation_pow_overflow_finding`.
  `hash` is a bijection but not lexicographic.
* `binary_search` overflows when `r - l` does, `binary_search_exponential` when the boundary is more than `2^62` away, `ternary_search_key` when `r` is the
  largest value. Proved: `UtilProps.binary_search_overflow_finding`, `…binary_search_exponential_overflow_finding`, `…ternary_search_overflow_finding`.
  The integral overload of `ternary_search_value` returns the argument type instead of the value type. (By reading.)
* `CumulativeSum<T> c;` leaves `n` uninitialised and `push_back` increments it. Proved: `UtilProps.cumulative_default_finding`.
* The step sum with `size <= k < step` reads outside the vector. Proved: `UtilProps.step_sum_finding`.
* `all_subset(s)` visits nothing for the full mask (`UtilProps.all_subset_full_finding`); `all_subset_k(s, 1)` with one bit missing shifts by the word size
  (`UtilProps.all_subset_k_shift_finding`).
* `MatcherMP` (`string/morris_pratt.hpp`): after a full occurrence it compares with `s[s.size()]`; for `std::vector` this is out of bounds, for `std::string` it is
  the terminating zero, which goes wrong when the text contains zeros. The empty pattern is reported at `1..m`. Proved: `StringProps.mp_matcher_vector_finding`,
  `…mp_matcher_nul_finding`, `…mp_matcher_empty_finding`. (`vector<int>` is unqualified there: the header needs `using namespace std`.)
* `trie_map.hpp`: the non-constant `operator[]` stores `-1` for a missing child and a later `add` indexes `nodes[-1]`. Proved: `StringProps.trie_map_ref_finding`.
* `aho_corasick.hpp`: an empty word is not counted at depth one; a second `build` counts everything twice. Proved: `StringProps.aho_corasick_empty_word_finding`,
  `…aho_corasick_build_twice_finding`. `aho_corasick_array.hpp`: a second `build` does not terminate. Proved: `…aho_corasick_array_build_twice_finding`.
* `foreach_quotients` / `enumerate_quotients` / `quotient_ranges` (`number/enumerate_quotient.hpp:29-30`) hold the square root and twice the square root in `int`:
  undefined behaviour for every `n >= 2^60`. Proved: `QuotientProps.foreach_quotients_overflow`. `multiple_quotients_ranges` is undefined for an empty vector and
  overflows when a value is `LLONG_MAX`. Proved: `QuotientProps.multiple_quotients_empty_finding`, `…multiple_quotients_max_finding`.
* `floor_kth_root` (`number/kth_root_round.hpp:13-14`) only counts up from its floating-point guess; a guess that exceeds the root is never corrected.
  Proved: `QuotientProps.floor_kth_root_high_guess`.
* `maximal_rectangles` (`algorithm/maximum_rectangle.hpp`) also reports rectangles that are not maximal, and empty ones (`u = d`).
  Proved: `AlgorithmProps.maximal_rectangles_finding`.
* `gaussian_elimination_f2` (`linear_algebra/gaussian_elimination_f2.hpp:68`) stops as soon as every row has a pivot, so the free columns after the last pivot are
  missing from the basis: `x0 + x1 = 0` gets an empty basis. Proved: `GaussProps.gauss_f2_bitset_incomplete`; `gauss_f2_bitset_partial` says exactly which
  solutions are reached, `gauss_f2_bitset_complete` that nothing is missing when there are at least as many equations as unknowns.
  `SolutionSpace::normalized()` calls `add_base`, whose assertion `_normalized` fails, before setting the flag. Proved: `GaussProps.gauss_f2_normalized_asserts`.
* `GaussianElimination` reads `Ab[0]`: undefined for a system without equations. Proved: `GaussProps.gauss_no_rows`.
* `sbt_node::dist` (`number/stern_brocot_tree.hpp:75`) can overflow although both nodes are representable (`1/n` and `n/1` for n close to the maximum).
  Proved: `SternBrocotProps.sbt_dist_overflow`. `move_down_left` / `move_down_right` (lines 107, 109) call an undeclared `move`; they cannot be used (by reading).
* `BitVector::select` (`datastructure/bit_vector.hpp:61`) returns the position after the num-th occurrence, not its index. Proved: `WaveletMatrixProps.bv_select_off_by_one`;
  `bv_select_partial` gives the exact result.
* `WaveletMatrix::range_xor_kth_smallest` / `_largest` / `range_xor_min` / `_max` (`datastructure/wavelet_matrix.hpp:66-93`) return the element v, not x ^ v as documented.
  Proved: `WaveletMatrixProps.wm_range_xor_wrong`. With the default `bit_num` of a 32 or 64 bit type `check_value_bounds` shifts by the full width, which is undefined:
  `wm_default_bits_undefined` (and for signed types `MAX` does not compile, by reading).
* `CompressedWaveletMatrix::range_max_leq` (`datastructure/compressed_wavelet_matrix.hpp:82-85`) starts with `if (r >= l) return default_value;` (meant: `l >= r`), so it returns the
  default value for every valid range. Proved: `CompressedWaveletProps.cwm_max_leq_wrong`, `cwm_max_leq_partial`.
* `BinaryTrie::xor_count_leq` (`datastructure/binary_trie.hpp:111`) adds `count(val)` instead of `count(x ^ val)`, so it, `xor_count_gt`, `xor_floor` and `xor_higher` are wrong for x ≠ 0
  (`xor_higher` can dereference a null pointer). Proved: `BinaryTrieProps.xor_count_leq_wrong`; with x = 0 they are right (`trie_refines`).
* `BinaryTrie::max` (`datastructure/binary_trie.hpp:133`) returns the bitwise complement of the greatest element. Proved: `BinaryTrieProps.trie_max_partial`, `trie_max_wrong`.
* `RedBlackTreeNode::reverse` (`datastructure/bbst/red_black_reversible_lazy_segment_tree.hpp:46`) keeps the product of the unreversed range, so `prod` is wrong for a non-commutative monoid (the header does not demand commutativity).
  Proved: `RedBlackProps.rb_reverse_noncommutative`; right for commutative monoids (`rb_prod_partial`).
* `RedBlackTreeNodeBase::set` (`datastructure/bbst/red_black_tree_base.hpp:121`) passes a lambda without parameter where one is called with the old value: it does not compile when used. Not modelled.
* The persistent plain tree and the persistent segment tree never clone a node (`datastructure/bbst/persistent_red_black_tree_base.hpp:48`; their `push` is the identity), so `split` and `merge` modify earlier versions.
  Proved: `RedBlackHeapProps.persistent_plain_push_back`, `persistent_plain_split`. In the persistent lazy tree `update_value` writes and `erase` frees a shared leaf: `persistent_update_value_writes`, `persistent_erase_frees`.
  The other operations of the lazy class keep the sequences of earlier versions (`persistent_versions_partial`).
* `PersistentArray::dump` (`datastructure/persistent_array.hpp:62`) writes `node->_val` (the root's value) instead of `cur->_val` for every element. Proved: `PersistentArrayProps.persistentArray_dump_wrong`.
* `PersistentArray::clone` copies the root node only, so `mut_set` on a clone can write the original: `PersistentArrayProps.persistentArray_clone_shares`.
* `PersistentUnionFind::root` compresses paths with `mut_set` in nodes shared with older versions; `same(3, 4)` of an older version changes from true to false. Proved: `PersistentUnionFindProps.persistentUnionFind_old_version_wrong`. Right when only the newest version is used (`persistentUnionFind_linear_partial`).
- `HornSAT::satisfiable` (horn_sat.hpp:43-44): assigning *false* to a variable also decrements the counters of the clauses having that variable on their left, so `¬x0, ¬x1, x0 → x1` is reported unsatisfiable although all-false is a model (`HornSATProps.hornSAT_incomplete`). A true result is always right; a false result is right if no negated right-hand variable occurs on a left-hand side.
- `FunctionalGraph::doubling(max_step)` (functional_graph.hpp:226-230): for `max_step >= 2^62` the loop `1LL << (l + 1) <= v` reaches a shift by 64, undefined behaviour (`FunctionalGraphProps.doubling_large_ub`, for every graph).
- `FunctionalGraph::kth_iterate(k)` (line 215): `i + rem` overflows for `k` close to `LLONG_MAX` (`FunctionalGraphProps.kthIterate_overflow`).
- `Doubling::step_until` can return an answer whose step count exceeds `max_step`, where the documentation says `nullopt` (`FunctionalGraphProps.step_until_beyond_limit`).
- `tree/tree_isomorphism_classification.hpp` line 214: `if (ids20[cs2[1]] == id21)` reads `cs2[1]` although the second tree may have only one centroid, so comparing non-isomorphic trees is undefined behaviour whenever the second tree has a single centroid (`TreeIsoProps.isIsomorphic_partial` shows this is exactly the failing case, `isIsomorphic_ub` is a concrete pair of trees). The line presumably should compare `ids10[cs1[0]]` with `id21`; as written its condition is never true for trees with two centroids.
- `Rerooting::run_dp` and `RerootingInvertible::run_dp` on an object without vertices read `_start[1]` and `dp[0]` out of bounds (`Rerooting.runDp_empty`, `Rerooting.runDpInv_empty`).
- `tree/auxiliary_tree.hpp`: `build({})` reads `vs[0]` of an empty vector (`AuxTree.build_empty`), and a repeated vertex gives self loops (`AuxTree.build_duplicate`), because the lowest common ancestor of equal neighbours equals the vertex itself and it is pushed again.
- `rmq_pm1_with_index.hpp` returns an empty block table for an empty array, but `SparseTable` then evaluates `__builtin_clz(0)`; the early return does not make the empty array usable (C107, `RMQpm1.make_empty`). `lowest_common_ancestor.hpp` on an empty graph computes `2 * 0 - 1` in `size_t`.
- `discrete_logarithm.hpp`: `floor_log2` evaluates `1 << 31` and then `1 << 32` on `int` for every modulus of at least 2^30, which is undefined (C109, `DiscreteLog.dlog_large_modulus`); below 2^30 the function is correct.
- `sieve_of_eratosthenes.hpp`: `Sieve<N>::base_max` is computed in `unsigned int`, so for `N >= 2^29 - 1` the table is too small (eight entries for `N = 2^29 - 1`) and queries read out of bounds (C111, `WheelSieve.sieve_large`).
- `deterministic_miller_rabin.hpp` uses `Montgomery64` also for `n >= 2^63`, where its reduction overflows: the prime `2^64 - 2^32 + 1` is declared composite (C112, `MillerRabin.isPrime_wrong`).
- `fast_factorize.hpp`: arguments at most 0 are rejected only after the conversion to `unsigned int`, so `factorize(n - 2^32)` returns the factors of `n` for small `n` (C113, `FastFactorize.factorize_negative`).
- `slope_trick.hpp`: `lines()` cannot be instantiated, its helper for the ascending queue takes the descending queue type (C115, not modelled).
- `min_of_mod_of_linear.hpp` computes `b + (m - 1 - k)` and `l + r` in `int`: for `m = 2^31 - 1`, `b = m - 1` (reduced arguments) the first sum overflows (C116, `MinModLinear.overflow`). For `n = 0` the result is `m - 1` (`MinModLinear.minMod_empty`).
- `cartesian_tree.hpp`: a default-constructed `CartesianTree` has root 0 but no nodes, so `ranges()` reads outside of the vector (C117, `CartesianTree.default_ranges`).
- `convex_hull_trick.hpp`: a new line parallel to and above the last line is kept with breakpoint `-inf = -(2^63 - 1)`, so `query(-(2^63 - 1))` returns its value instead of the least one (C118, `ConvexHullTrick.query_edge`).
- `union_find_lazy.hpp` and `union_find_component_sum.hpp` have the same include guard `SUISEN_UNION_FIND_COMPONENT_SUM`: a program including both gets only the first (C119; about the text of the headers, not modelled).
- `low_link.hpp`: `add_edge` after `build()` clears `_built` so that a second `build()` is needed, but `build()` does not reset the preorder numbers, so it changes nothing and the answers stay those of the old graph (C123, `LowLink.Props.rebuild_stale`).
- `biconnected_components.hpp`: self-loops are accepted by `add_edge` but never get a component number; `components()` uses their number `-1` as an index (C126, `Biconnected.Props.components_loop`). `block_cut_forest.hpp` does the same.
- `factorial.hpp`: the table is enlarged to `max(n + 1, 2 * size)`; with a small modulus p this can exceed p although n < p, and the following division by `(new_size - 1)! = 0` fails: modulo 7, `fac(4)` followed by `fac(5)` (C129, `Factorial.Props.table_fails`). Irrelevant for the usual large moduli.
- `sum_i^d_r^i.hpp` line 66 reads `r.pow(r)` where `r.pow(t)` is meant (about the text of the header, not modelled).
- `order_Z_mZ.hpp` line 64: `is_primitive_root` uses `atcoder::dynamic_modint` for moduli below `1ULL << 32`, but its `set_mod` takes an `int` and asserts positivity, so every modulus in [2^31, 2^32) fails the assertion (`operator()` correctly compares with `1ULL << 31`) (C138, `OrderMod.is_primitive_root_asserts`). `primitive_root` fails for the same moduli.
- `order_Z_mZ.hpp`: `is_primitive_root(a)` returns true for every `a` that is not coprime to `m`, if `m ≥ 3` has primitive roots at all, for instance for 0 modulo a prime and 3 modulo 9 (C138, `OrderMod.is_primitive_root_not_coprime`).
- `order_Z_mZ.hpp`: `_is_prime` is set for prime powers, so `is_prime()` is true for 9, and `primitive_root()` skips the gcd check for them and can return a non-unit, for instance 3 modulo 9 (C137, C139, `OrderMod.is_prime_wrong`, `OrderMod.primitive_root_wrong`).
- `order_Z_mZ.hpp`: `operator()(a)` never returns for `a` not coprime to `m ≥ 3` (C136, `OrderMod.order_not_coprime`). For `m = 1` the list of factors is empty and the recursion does not end (seen in the text, not stated as a theorem).
- `directed_eulerian_graph.hpp`, `undirected_eulerian_graph.hpp`: `eulerian_trail` adds an edge between the end points and, when it then returns `nullopt`, leaves it in the graph, so that later calls answer for another graph (C142, C144, `Eulerian.directed_trail_leftover`, `Eulerian.undirected_trail_leftover`).
- `directed_eulerian_graph.hpp`, `undirected_eulerian_graph.hpp`: on a graph without vertices `eulerian_circuit` reads `iter[0]` of an empty vector (C141, `Eulerian.directed_circuit_empty`).
- `bipartite_matching.hpp` line 93: `solve` starts again with `_f = 0` but keeps the matching found before, so after further `add_edge` calls it returns only the number of new augmentations, not the size of the matching (C146, `BipartiteMatching.solve_again_counterexample`). The matching itself is right (C145).
- `bipartite_matching.hpp` line 110: `min_edge_cover` allocates the flags of the right vertices with `_n` entries, so they are accessed out of bounds when there are more right than left vertices (C149, `BipartiteMatching.minEdgeCover_counterexample`).
- `mod_sqrt.hpp` line 45: `prime_mod_sqrt` uses `__builtin_ctz` on `p - 1`, which looks at the low 32 bits only and is undefined when they are all zero, e.g. for the prime 18·2^32 + 1 (C150, `ModSqrt.prime_mod_sqrt_counterexample`).
- `mod_sqrt.hpp` line 111: for powers of two `a % 8 != 1` is tested on a possibly negative `a`, so `composite_mod_sqrt(-7, {{2, 3}})` reports no root although 1² ≡ -7 (mod 8) (C151, `ModSqrt.composite_mod_sqrt_negative_counterexample`).
- `mod_sqrt.hpp` line 95: `2 * x` overflows for primes above 2^62 (C151, `ModSqrt.composite_mod_sqrt_overflow_counterexample`).
- `li_chao_segment_tree.hpp` line 65: a query above all coordinates reads `pos[m]` behind the end instead of failing the documented assertion (C152, `LiChao.query_above`). A segment whose value at `x` is `numeric_limits<T>::max()` is treated as absent (`LiChao.query_limit`).
- `monotonic_convex_hull_trick.hpp` lines 28, 95: `numeric_limits<T>::min()` is used as the least value. That is right for integers (C153); for a floating type it is the smallest positive number, so slopes or query points that are all negative would be refused by the assertions. Floating types are not modelled.
- `range_set_range_composite.hpp` lines 12-16: the constructor from a length and a value (and the default constructor, which calls it) never initialises `_pos` with the universe `n + 1`, so its first `insert` fails an assertion for all arguments (C154, `RangeSetComposite.ofVal_counterexample`). The constructor from a vector is right.
- `cycle_detection.hpp` line 24: in `get_cycle_undirected` the parameter `const weight_type &w` without default argument follows `int p = -1`, which the language does not allow, so the function cannot be instantiated as written. It is not modelled; `get_cycle_directed` is (C158).
- `rational.hpp` `compare`: `rev = -rev` on a `bool` never changes it from true to false, so fractions that differ first at an even step of the expansion are ordered the wrong way: `Rational(3, 2) < Rational(5, 3)` is false (C160, `Rational.compare_counterexample`).
- `rational.hpp` lines 131-136: `floor` and `ceil` both round towards zero, so `floor(-1/2)` is 0 and `ceil(1/2)` is 0 (C161, `Rational.floor_ceil_counterexample`, `Rational.floor_ceil_wrong`). `inv()` of zero gives the object `1/0` instead of failing (`Rational.inv_zero`). The header uses `assert` without including `<cassert>`. `approximate`, `stern_brocot` and `farey_sequence` are not modelled.
- `bezout_equation.hpp` line 240: for `b = 0` and `a != 0` the divisor `cx` is zero, so `solve` divides by zero although the equation has solutions (C162, `Bezout.solve_b_zero_counterexample`). Line 81: for `a = b = 0` an unrestricted `count()` overflows, and with one open side it returns a number instead of `nullopt` (`Bezout.count_zero_counterexample`).
- `priority_sum.hpp` line 32: `erase` compares with `_rev_cmp` where `_cmp` is meant, so erasing an element that is not the top of the first queue changes the wrong queue: with k = 2, after inserting 1 and 2 and erasing 1, `get_sum()` is 3 (C163, `PrioritySum.erase_counterexample`). `decr_k()` at k = 0 reads the top of an empty queue (`PrioritySum.negative_counterexample`). `MaximumPrioritySum` sums the k smallest elements, `MinimumPrioritySum` the k greatest.
- `PersistentSegmentTree`/`PersistentLazySegmentTree`: the constructors from an empty vector and from length 0 recurse on the empty range until the pool is exhausted, and then write past it (`empty_counterexample`, for every pool). Only the default constructor makes an empty tree.
- `PersistentSegmentTree::dump` takes a node without a left child for a leaf, but `build` does not clear `_ch` of leaves: after `clear_pool` leaves can have the children of older nodes, and `dump` lists those (`PersistentSegmentTree.dump_counterexample`).
- `PersistentLazySegmentTree::dump` lists the products of all inner nodes too (its branch for inner nodes writes the value as well), and composes pending maps in the wrong order (`dump_counterexample`, `dump_order_counterexample`).
- `persistent_segment_tree.hpp`, `persistent_lazy_segment_tree.hpp`: the overloads `template <bool(*pred)(value_type)> static int max_right(int)` and `min_left(int)` are static but call the non-static overloads, which is ill-formed as soon as they are instantiated. `persistent_lazy_segment_tree.hpp` line 250 forwards `f` as the operator type `F` instead of the type of the function, so `apply(i, f)` is ill-formed as well; it is modelled as intended.
- `offline_dynamic_connectivity.hpp` lines 29-32 (and `offline_dynamic_connectivity_component_sum.hpp` lines 38-41): `answer()` erases the active edges. A query made after it does not see the edges that are still in the graph, and deleting one of them fails the assertion (`answer_forgets_counterexample`, `delete_after_answer_counterexample`).
- `dynamic_bitset.hpp` line 24: `s[i] &= val` computes `b &= block(val) << i`, which clears all other bits of the block (`bitAnd_counterexample`; `bitAnd_partial` gives the exact effect).
- `dynamic_bitset.hpp` line 256: for a size that is a positive multiple of 64 `all()` shifts a block by 64, which is undefined, unless an earlier block already decided (`all_counterexample`).
- `static_bitset.hpp` line 114: `operator[]` is not const, but the const-taking `operator<<` of line 161 uses it, which is ill-formed as soon as it is instantiated.
- `SparseSegmentTree` (C176): objects hold the index of their root in a static pool, and the implicit copy constructor copies that index. A change through a copy is visible in the original (`SparseSegmentTree.copy_counterexample`). `history` states what holds: copies are aliases.
- `SparseLazySegmentTree` (C178, C179): a copy shares its nodes with the original (`SparseLazySegmentTree.copy_counterexample`). `apply_all(f)` on a tree of size 0 stores `mapping(f, e, 0, 0)`, so that `prod_all()` returns the assigned value for maxima under assignment, not the identity (`applyAll_counterexample`).
- `find_denominators.hpp` (C180): `n + 1 + q`, `n + q - 1`, `n - 1 - q`, `n + 1 - q` overflow for numerators near the ends of the type although the answer is representable (`FindDenominators.overflow_counterexample`).
- `segment_tree_2d.hpp` line 11 (C182): `SegmentTree2D(int n, int m)` passes a table of `2 * n` by `2 * m` values to the other constructor, so that the object has twice as many rows and columns as asked for (four times the memory), and assertions accept indices up to these (`SegmentTree2D.sized_counterexample`).
- `static_range_mode_query.hpp` line 13 (C184): for an empty vector `_block_size` is 0 and `_cld(_len, _block_size)` divides by 0 (`RangeMode.build_counterexample`).
- `palindromic_tree.hpp` lines 166-175 (C187): `clear()` erases all nodes but the two roots and leaves the children of the roots as they are. The next `add` of any symbol added before increments the multiplicity of an erased node, out of bounds of the vector (`PalindromicTree.clear_counterexample`, for all sequences and all symbols in them). `clear<true>()` erases the roots also, so that no `add` is possible after it. (Read, not modelled: `PalindromicTreeVec<T>` and `PalindromicTreeArr<T, N>` store node numbers in containers of `T`, so that they are truncated for narrow types such as `char`.)
- `number/modint.hpp` (C196): `xpow(LLONG_MIN)` negates the exponent with a signed overflow (`xpow_counterexample`). `dynamic_modint` has no unary minus, unlike `static_modint`. That the bases 2, 7, 61 decide primality below 2^31 rests on a published computation and is a hypothesis of `inv_partial` for static moduli (not needed for prime, even or unit moduli, nor for `dynamic_modint`; both named moduli are proved prime).
- `sequence/powers.hpp` (C199): `powers(n, k)` with `k >= 2^63`, which `uint64_t k` allows, passes a negative exponent to `pow` (`powers_counterexample`).
- `sequence/binomial_coefficient_small_prime_mod.hpp` (C201): the factorial table is static and shared; if other code has grown it to more than half the modulus, the constructor call `factorial(mod - 1)` doubles it beyond the modulus and stops at a division by zero (`lucas_counterexample`; same cause as C129).
- `csr_graph.hpp` line 163 (C205): the capacity of a list is `min(degree, cap[i])`, where the maximum must be meant: whatever `cap` is, no room is reserved, and `push_back` on a graph just made always fails in its assertion (`CsrGraph.pushBack_counterexample`).
- `csr_graph.hpp` lines 211-216, 257-262 (C206): `shrink_to_fit` and `dfs_tree` use `_adj[i]` instead of `(*this)[i]`, so that the pointers `_g` of a copied or moved graph still refer to the old object (`CsrGraph.shrinkToFit_counterexample`, `CsrGraph.dfsTree_counterexample`). The graphs `tree` and `back` which `dfs_tree` returns are moved from local variables, so this concerns them. `insert(pos, 0, x)` and the insertion of an empty range before the end call `std::move_backward` with the end of the destination in the source range (`CsrGraph.insert_none_undefined`).
- `transpose.hpp`, `rot90.hpp` (C207): a matrix with rows but without columns becomes the matrix without rows, so that its number of rows is lost (`Rot90.transpose_no_columns`); ragged arguments are undefined (`Rot90.transpose_ragged_undefined`). The overloads for strings are defined in the headers without `inline`: a program that includes one of them in two translation units violates the one-definition rule (read, not modelled).
- `sum_count.hpp` lines 32, 38, 44 (C210): the calls `sum_count_leq(...)` and `sum_count_lt(...)` do not pass the template argument `R`, so with `T = int`, `R = long long` they compute in `int` and overflow (`SumCount.resultType_counterexample`).
- `affine_clamp.hpp` (C211): a composition overflows in its coefficients even if it is representable (`AffineClamp.compose_counterexample`). The stream operators of `Affine` and `AffineClamp` are exchanged: input is `operator<<` and output is `operator>>` (read, not modelled).
- `default_vector.hpp` line 40 (C213): `default_value` has no initialiser, so after `default_vector<int> v(n);` a read beyond the end or any growth before `set_default_value` uses an indeterminate value (`DefaultVector.unset_counterexample`). `v[-1]` of a vector that is not `const` calls `resize(0)`, which removes all elements, and then accesses memory before the vector (`DefaultVector.negative_undefined`).
- `convolution_naive.hpp` line 10 (C215): for two empty vectors the size `n + m - 1` is -1 and the constructor of the result throws `std::length_error` (`ConvNaive.naive_counterexample`). The other convolutions guard against empty arguments before they call it, `unsigned_bigint.hpp` does not.
- `unsigned_bigint.hpp` lines 294-296 (C217): zero has no digits, so `0 * 0` calls `convolution_naive` with two empty vectors, which throws (`UBig.mul_counterexample`). Numbers of 65 to 200 digits in base 10^9 are multiplied via the products of their halves and of the differences of the halves, so that e.g. the square of 10^630 throws as well (`UBig.karatsuba_counterexample`).
- `unsigned_bigint.hpp` lines 30-42 (C218): leading zeros of a string are not removed; `unsigned_bigint("0")` has one digit, is not equal to `unsigned_bigint(0)` and is true as a `bool` (`UBig.ofString_counterexample`).
- `unsigned_bigint.hpp` lines 398-400 (C219): in the long division, when the remainder becomes zero, zeros among the following digits are inserted into the empty vector, so that the remainder has leading zeros; its number of digits then exceeds that of the divisor although it is smaller, the comparison by size in line 394 is wrong, and the subtraction in line 396 fails its assertion. Example: 10^36 / 10^9 (`UBig.divmod_counterexample`).
