{"id": "C01", "title": "UnionFind answers connectivity exactly", "statement": "After any sequence of merge / root / same / size calls with in-range vertices on a fresh UnionFind(n), same(x,y) is true iff x and y are connected by the pairs merged so far (reflexive-symmetric-transitive closure); merge(x,y) returns true iff x and y were not yet connected. No call reads or writes outside the table and every call terminates.", "quantifier": "all n, all finite histories of in-range operations (including repeated, self and reversed merges), all query pairs", "why_tests_cant": "path compression and union by size make the internal forest depend on the whole history; unit tests sample a few histories", "anchors": ["library/datastructure/union_find/union_find.hpp UnionFind::root, merge, same"]}
{"id": "C02", "title": "UnionFind::size and groups describe the partition", "statement": "After any history, size(x) is the number of vertices connected to x, and groups() returns every vertex exactly once, grouped so that two vertices are in the same group iff they are connected, with no empty group.", "quantifier": "all n, all histories, all x", "why_tests_cant": "must hold after every history, sizes are only maintained at roots", "anchors": ["library/datastructure/union_find/union_find.hpp UnionFind::size, groups"]}
{"id": "C03", "title": "UndoUnionFind: undo and rollback remove exactly the merges they should", "statement": "In UndoUnionFind, every history of merge / root / same / size / groups / snapshot / undo / rollback answers as if only the merges still in force had been made: undo removes exactly the last successful merge since the last snapshot (merges that returned false leave nothing to undo), rollback removes all successful merges since the last snapshot. undo right after a successful merge restores the state exactly.", "quantifier": "all n, all histories in which undo is called only when a merge can be undone", "why_tests_cant": "unbounded interleavings of merges and undos", "anchors": ["library/datastructure/union_find/undo_union_find.hpp (UndoUnionFind::merge, undo, snapshot, rollback)"]}
{"id": "C04", "title": "WeightedUnionFind keeps potentials consistent", "statement": "For every group, in every history on WeightedUnionFind(n), merge(x,y,d) returns true iff x and y were not connected; the constraints accepted so far are always jointly satisfiable; for connected x,y diff(x,y) is the potential difference (P x)^-1 * (P y) of every potential P satisfying the accepted constraints; merge on a connected pair changes no answer; root/same/size/groups describe connectivity.", "quantifier": "all groups (also non-commutative), all n, all histories with in-range vertices", "why_tests_cant": "path halving interleaves with weights; infinite histories", "anchors": ["library/datastructure/union_find/weighted_union_find.hpp (WeightedUnionFind)"]}
{"id": "C05", "title": "FenwickTree point add / prefix and range sum", "statement": "For every abelian group, after any sequence of add / set / construct-from-vector on FenwickTree, sum(l,r) equals the mathematical sum of the current values in [l,r) for all 0<=l<=r<=n, and get(i) the current i-th value; no call leaves the array bounds.", "quantifier": "all groups, all n, all initial vectors, all update histories, all ranges", "why_tests_cant": "index arithmetic with lowbit covers n-dependent tree shapes; tests sample sizes", "anchors": ["library/datastructure/fenwick_tree/fenwick_tree.hpp FenwickTree"]}
{"id": "C06", "title": "fenwick_tree_set is an ordered set of integers", "statement": "On fenwick_tree_set(n), after any history of insert / erase, size() is the number of elements, contains(v) is exact for every integer v, insert/erase return whether the set changed, count_lt/leq/gt/geq(v) count the elements on that side of v, kth_element(k) is the k-th smallest element (-1 out of range), and max_leq/max_lt/min_geq/min_gt(v) return the neighbouring element or -1, for every integer v.", "quantifier": "all universe sizes n >= 1, all constructors, all histories, all integers v and k", "why_tests_cant": "64-bit words and a Fenwick tree over them: boundaries at multiples of 64 and at every tree shape", "anchors": ["library/datastructure/fenwick_tree/fenwick_tree_set.hpp fenwick_tree_set"]}
{"id": "C07", "title": "FenwickTreePrefix prefix queries over a commutative monoid", "statement": "After construction (size n, identity-filled) and any sequence of apply(i,v), prefix_query(r) is the product of all values applied at positions < r. The same must hold for the constructor from a vector.", "quantifier": "all commutative monoids, all n, histories, r", "why_tests_cant": "an off-by-one in the build order is visible only for n>=4", "anchors": ["library/datastructure/fenwick_tree/fenwick_tree_prefix.hpp FenwickTreePrefix"]}
{"id": "C08", "title": "FenwickTree2D rectangle sums", "statement": "After any sequence of add(x,y,v) on an n x m FenwickTree2D, the rectangle sum over [xl,xr)x[yl,yr) is the sum of all v added inside that rectangle.", "quantifier": "all abelian groups, all n,m, histories, rectangles", "why_tests_cant": "product of two lowbit structures, inclusion-exclusion over arbitrary history", "anchors": ["library/datastructure/fenwick_tree/fenwick_tree_2d.hpp"]}
{"id": "C09", "title": "SegmentTree refines the array for every monoid", "statement": "For any (not necessarily commutative) monoid, after any sequence of construct / set / operator[] assignment, get(i) is the last value written at i, all_prod() and prod(l,r) are the ordered monoid product of the current values in [l,r), for all n (including non powers of two) and all 0<=l<=r<=n.", "quantifier": "all monoids, all n, update histories, ranges", "why_tests_cant": "order of operands for non-commutative op and the padding leaves are size dependent", "anchors": ["library/datastructure/segment_tree/segment_tree.hpp SegmentTree"]}
{"id": "C10", "title": "SegmentTree::max_right and min_left find the boundary", "statement": "For every predicate f with f(e)=true that is monotone along the queried products, max_right(l,f) returns the largest r with f(prod(l,r)), min_left(r,f) the smallest l with f(prod(l,r)).", "quantifier": "all monoids, sizes, contents, l/r, monotone predicates", "why_tests_cant": "descent over the implicit tree must be right for every shape", "anchors": ["library/datastructure/segment_tree/segment_tree.hpp max_right, min_left"]}
{"id": "C11", "title": "LazySegmentTree refines the array under range updates", "statement": "For any monoid (op,e), monoid of maps (composition,id) and action mapping satisfying the usual laws, after any interleaving of set/apply(p)/apply(l,r)/get/prod/all_prod calls, get and prod return exactly what the naive array (apply f to each element of the range) would.", "quantifier": "all lawful (op,e,mapping,composition,id), all n, all histories, all ranges", "why_tests_cant": "laziness: pending updates may sit at any ancestor; only an invariant over all histories settles it", "anchors": ["library/datastructure/segment_tree/lazy_segment_tree.hpp LazySegmentTree"]}
{"id": "C12", "title": "DualSegmentTree / CommutativeDualSegmentTree refine point reads under range updates", "statement": "After any interleaving of apply(l,r,f) and point reads, the value read at i is the initial value with exactly the f's of the calls whose range contains i applied in call order.", "quantifier": "all monoids of maps acting on T (commutative for the commutative variant), n, histories, i", "why_tests_cant": "order of composition with pushing is history dependent", "anchors": ["library/datastructure/segment_tree/dual_segment_tree.hpp", "library/datastructure/segment_tree/commutative_dual_segment_tree.hpp"]}
{"id": "C13", "title": "SparseTable range query equals the fold", "statement": "For every associative idempotent operation with identity (commutative or not), SparseTable built from any non-empty vector answers query (l,r) with the ordered fold of [l,r) for all 0<=l<r<=n, and the identity for l>=r.", "quantifier": "all idempotent monoids, all vectors, all ranges", "why_tests_cant": "overlapping power-of-two windows, log computation for every length", "anchors": ["library/datastructure/sparse_table.hpp SparseTable"]}
{"id": "C14", "title": "QueueAggregation is a FIFO queue with a total", "statement": "Whenever merge(accumulation of a front part from its last to its first element, accumulation of a back part from first to last) is the total of the concatenation, then after any interleaving of push_back / pop_front / clear (no pop on an empty queue) prod() is the total of the current contents, and size/front/back/operator[] are those of a FIFO queue.", "quantifier": "all element, sum and result types, all lawful append/merge, all histories", "why_tests_cant": "the split between the two stacks depends on the whole history", "anchors": ["library/datastructure/queue_aggregation.hpp QueueAggregation"]}
{"id": "C15", "title": "DequeAggregation is a deque with ordered product", "statement": "After any interleaving of push_front/push_back/pop_front/pop_back (no pop on empty), prod() is the ordered product of the deque and front/back/size are those of the abstract deque.", "quantifier": "all monoids, all histories", "why_tests_cant": "rebalancing splits the opposite stack in half at history-dependent moments", "anchors": ["library/datastructure/deque_aggregation.hpp"]}
{"id": "C16", "title": "RangeSet represents exactly the inserted-minus-erased integers", "statement": "After any sequence of insert(l,r) / erase(l,r) the set of integers contained equals the mathematical set; stored ranges are disjoint, non-adjacent, sorted; contains(x) is exact; insert and erase return the number of integers newly inserted / actually removed.", "quantifier": "all histories of ranges over the integers", "why_tests_cant": "merging and splitting depend on arbitrary overlap patterns", "anchors": ["library/datastructure/util/range_set.hpp RangeSet"]}
{"id": "C17", "title": "BinaryHeap pops in order", "statement": "For any strict weak order, after construction from any range and any sequence of push/top/pop/clear on MinBinaryHeap / MaxBinaryHeap (top and pop on a non-empty heap), top() is an extremal element of the multiset of contained elements, pop removes and returns exactly one such element; no access outside the vector.", "quantifier": "all histories, all comparators that are strict weak orders", "why_tests_cant": "heap shape depends on history; boundary of one element", "anchors": ["library/datastructure/heap/binary_heap.hpp BinaryHeap"]}
{"id": "C18", "title": "IntervalHeap keeps both ends", "statement": "After any history of push / min / max / pop_min / pop_max on IntervalHeap (extremes only of a non-empty queue), min() is a least and max() a greatest element of the multiset contents; pops remove and return exactly one such element; no access outside the vector.", "quantifier": "all histories, all comparators that are strict weak orders", "why_tests_cant": "interval-heap swaps across min/max halves depend on parity and size", "anchors": ["library/datastructure/heap/interval_heap.hpp IntervalHeap"]}
{"id": "C19", "title": "sliding_window_minimum answers the window extremum", "statement": "For a window moved only forward, arg_query() is the index of the leftmost (rightmost) minimum (maximum) of the current window, according to the prioritizing mode, and query() its value.", "quantifier": "all arrays, all legal sequences of window moves", "why_tests_cant": "monotone-queue invariant over the whole history", "anchors": ["library/datastructure/sliding_window_minimum.hpp"]}
{"id": "C20", "title": "ext_gcd returns Bezout coefficients", "statement": "For all a,b, ext_gcd(a,b) returns (x,y,g) with a*x+b*y=g and g = gcd(a,b) >= 0; it terminates and no intermediate long long operation overflows.", "quantifier": "all pairs of long long values other than LLONG_MIN, including negative and zero", "why_tests_cant": "sign handling over an infinite domain", "anchors": ["library/number/ext_gcd.hpp ext_gcd", "library/number/ext_gcd.hpp inv_mod"]}
{"id": "C21", "title": "inv_mod returns the modular inverse", "statement": "If gcd(a,m)=1, inv_mod(a,m) lies in [0,m) and a*inv_mod(a,m) is congruent to 1 mod m; otherwise the assertion fails. gcd_inv(a,m) returns gcd(a,m) and x in [0,m) with a*x congruent to it. No overflow.", "quantifier": "all long long a other than LLONG_MIN, all m >= 1", "why_tests_cant": "infinite domain", "anchors": ["library/number/ext_gcd.hpp inv_mod"]}
{"id": "C22", "title": "garner solves the Chinese remainder system", "statement": "For pairwise coprime positive int moduli and int residues the system x = x_i (mod m_i) has exactly one solution X with 0 <= X < prod m_i, and garner(eq, m) returns X mod m for every positive int m, without overflow.", "quantifier": "all lists of (residue, modulus) with pairwise coprime moduli, all target moduli", "why_tests_cant": "mixed-radix accumulation over lists of any length", "anchors": ["library/number/garner.hpp"]}
{"id": "C23", "title": "barrett reduction is exact on its range", "statement": "For every modulus 1 <= M <= 2^31, quorem / quo / rem return the exact quotient and remainder of every 64-bit x and mul(a,b) is a*b mod M, under the wrap-around arithmetic and narrowing conversions of C++; with care_M1 = false for M >= 2.", "quantifier": "all x < 2^64, all M in [1, 2^31]", "why_tests_cant": "2^64 x 2^32 input pairs", "anchors": ["library/number/barrett_reduction.hpp"]}
{"id": "C24", "title": "Montgomery arithmetic represents Z/NZ", "statement": "For odd N below R (R = 2^32 or 2^64), make / reduce / add / sub / mul / pow of Montgomery32/64 agree with arithmetic modulo N, and results stay below N.", "quantifier": "all odd N < R, all representatives below N, all exponents >= 0", "why_tests_cant": "word-size wrap-around corner cases", "anchors": ["library/number/montogomery.hpp"]}
{"id": "C25", "title": "modint2p61m1 is the field Z/(2^61-1)", "statement": "All operations +,-,*,pow,inv of modint2p61m1 on reduced values return the reduced residue and agree with arithmetic modulo 2^61-1 under 64-bit wrap-around arithmetic; no intermediate value overflows.", "quantifier": "all operand pairs below 2^61-1, all exponents", "why_tests_cant": "2^122 operand pairs", "anchors": ["library/number/modint_2^61m1.hpp modint2p61m1"]}
{"id": "C26", "title": "powi is exponentiation in every monoid", "statement": "powi(a,b) equals a^b for every b >= 0 in every monoid (unsigned types wrap); for long long there is no overflow whenever |a|^(2b) < 2^63.", "quantifier": "all monoids, all bases, all exponents >= 0", "why_tests_cant": "infinite domain", "anchors": ["library/number/util.hpp powi", "library/number/util.hpp"]}
{"id": "C27", "title": "factorize returns the prime factorisation", "statement": "For all n>=1 factorize(n) returns strictly increasing primes with positive exponents whose product of powers is n.", "quantifier": "all n >= 1", "why_tests_cant": "infinite domain; trial division bound", "anchors": ["library/number/util.hpp factorize"]}
{"id": "C28", "title": "divisors enumerates every divisor once", "statement": "For all n>=1 within the range where factorize is right, divisors(n) contains exactly the positive divisors of n without repetition; so does divisors(factorized) for every factorisation; divisors_table(n) holds the ascending list of divisors of every j in [1,n].", "quantifier": "all factorisations; all n < (2^31-30030)^2 for long long, n < 30047^2 for int; all n for the table", "why_tests_cant": "infinite domain", "anchors": ["library/number/util.hpp divisors"]}
{"id": "C29", "title": "totient equals Euler's phi", "statement": "totient(n) and totient(factorized) are the number of residues coprime to n, without overflow whenever the squares formed by powi fit; totient_table(n) tabulates it for every index.", "quantifier": "all factorisations with p^(2(c-1)) representable, all n with n^2 < 2^63 for long long, all table sizes", "why_tests_cant": "infinite domain", "anchors": ["library/number/util.hpp totient, totient_table"]}
{"id": "C30", "title": "LinearSieve computes the least prime factor", "statement": "LinearSieve(n) records for each 2<=k<=n the least prime factor of k, lists exactly the primes <= n in ascending order, and factorize(k) returns the prime factorisation in ascending order.", "quantifier": "all n, all k", "why_tests_cant": "every n must be covered: each composite must be crossed out exactly by its least prime", "anchors": ["library/number/linear_sieve.hpp LinearSieve"]}
{"id": "C31", "title": "Subset/superset zeta and Moebius transforms are inverse and compute subset sums", "statement": "subset_transform::zeta maps f to g(S) = sum over T subset of S of f(T), supset_transform::zeta sums over supersets; mobius and zeta are inverse to each other in both.", "quantifier": "all abelian groups, all lengths 2^k, all vectors", "why_tests_cant": "exponential input space and all k", "anchors": ["library/transform/subset.hpp", "library/transform/supset.hpp"]}
{"id": "C32", "title": "or_convolution and and_convolution", "statement": "or_convolution(a,b)[k] = sum over i|j=k of a_i b_j; and_convolution likewise with &.", "quantifier": "all commutative rings, all k, all vectors of length 2^k", "why_tests_cant": "as above", "anchors": ["library/convolution/or_convolution.hpp", "library/convolution/and_convolution.hpp"]}
{"id": "C33", "title": "Walsh-Hadamard transform and xor_convolution", "statement": "xor_convolution(a,b)[k] = sum over i xor j = k of a_i b_j; walsh_hadamard gives the signed sums and walsh_hadamard_inv inverts it; for integer vectors the division by the length is exact.", "quantifier": "all rings where the length is invertible, and the integers; all k; all vectors of length 2^k", "why_tests_cant": "as above", "anchors": ["library/transform/walsh_hadamard.hpp", "library/convolution/xor_convolution.hpp"]}
{"id": "C34", "title": "Divisor/multiple transforms and gcd/lcm convolution", "statement": "divisor_transform::zeta gives sums over divisors, multiple_transform::zeta sums over multiples, the mobius versions are two-sided inverses; gcd_convolution(a,b)[k] = sum over i,j >= 1 with gcd(i,j)=k; lcm_convolution likewise; index 0 is treated separately (left alone by the transforms, a_0*b_0 in the convolutions).", "quantifier": "all abelian groups / rings, all lengths (including 0 and 1), all vectors", "why_tests_cant": "prime-by-prime in-place updates, order matters for every n", "anchors": ["library/transform/divisor.hpp", "library/transform/multiple.hpp", "library/convolution/gcd_convolution.hpp", "library/convolution/lcm_convolution.hpp"]}
{"id": "C35", "title": "subset_convolution computes disjoint-union sums", "statement": "subset_convolution(a,b)[S] = sum over T subset of S of a_T b_{S\\T}.", "quantifier": "all rings, all k, all vectors of length 2^k", "why_tests_cant": "ranked polynomials, every k", "anchors": ["library/convolution/subset_convolution.hpp", "library/transform/subset.hpp"]}
{"id": "C36", "title": "CoordinateCompressor is an order isomorphism", "statement": "After pushing any values and building, comp is a strictly monotone bijection from the distinct values to [0,size) (the default for other values); decomp inverts it; has_key(v) is exact; min_geq / min_gt / max_leq / max_lt and their index versions return the specified neighbours or the default (size or -1 for indices).", "quantifier": "all linear orders, all multisets, all queries", "why_tests_cant": "binary search corners for all inputs", "anchors": ["library/util/coordinate_compressor.hpp"]}
{"id": "C37", "title": "RunLengthEncoder round-trips", "statement": "Encoding any sequence and appending runs with push_back(v, num), num >= 1, yields the maximal runs (adjacent runs differ, lengths positive; such a list is unique) whose expansion is the whole sequence; length() is its length.", "quantifier": "all sequences, all push_back histories", "why_tests_cant": "infinite domain", "anchors": ["library/util/run_length_encoder.hpp"]}
{"id": "C38", "title": "Permutation operations form the symmetric group and hash/unhash are mutually inverse", "statement": "For permutations of size n: permute / inv_permute move elements as documented, * is composition, inv is a two-sided inverse, pow(k) is the k-fold iterate, hash is a bijection to [0,n!) with unhash its inverse.", "quantifier": "all n, all permutations; n! within the hash type; k + n < 2^63", "why_tests_cant": "n! inputs for every n", "anchors": ["library/util/permutation.hpp"]}
{"id": "C39", "title": "Integer binary search returns the boundary", "statement": "For a predicate that is false at l, true at r and monotone in between, binary_search(l,r,f) returns the least true point; binary_search_exponential(l,f) does so without an upper end; no overflow if the distances fit.", "quantifier": "all 64-bit l <= r with r - l < 2^63, all monotone predicates; exponential: some true point t with l + 2(t-l) <= 2^63", "why_tests_cant": "infinite domain and sign/rounding corner cases", "anchors": ["library/util/search.hpp"]}
{"id": "C40", "title": "CumulativeSum / CumulativeSum2D", "statement": "sum(l,r) equals the sum over the range of the sequence given to the constructor and extended by push_back; the 2D version gives the rectangle sum, and zero for invalid ranges.", "quantifier": "all abelian groups, all shapes, all push_back histories, all ranges", "why_tests_cant": "infinite domain", "anchors": ["library/util/cumulative_sum.hpp", "library/util/cumulative_sum_2d.hpp"]}
{"id": "C41", "title": "Subset iterators enumerate exactly the subsets", "statement": "all_subset(s) yields every submask of s once, in decreasing order; all_subset_k(s,k) each submask with k set bits once, in increasing order; all_setbit(s) each set bit once, in increasing order.", "quantifier": "all word sizes w, all masks but the full one; k < w (for k = 1 at least two bits missing)", "why_tests_cant": "2^w masks", "anchors": ["library/util/subset_iterator.hpp"]}
{"id": "C42", "title": "Morris-Pratt: borders, periods and occurrences", "statement": "The table holds the length of the longest proper border of every prefix (-1 at 0); all_periods returns exactly the periods (optionally only those dividing the length) in increasing order and min_period the prefix of the least one; the matcher reports exactly the start positions of the occurrences of the pattern.", "quantifier": "all sequences for table and periods; matcher: all nonempty string patterns and all texts without the terminating character", "why_tests_cant": "infinite domain", "anchors": ["library/string/morris_pratt.hpp"]}
{"id": "C43", "title": "Manacher computes maximal palindromic radii", "statement": "Whatever the dummy value, entry k of Manacher(s, dummy) is the length of the longest palindrome with centre k/2; odd_length(i) is the longest one centred at character i, even_length(i) the longest one centred just before it.", "quantifier": "all sequences, all dummy values, all centres", "why_tests_cant": "infinite domain", "anchors": ["library/string/manacher.hpp"]}
{"id": "C44", "title": "Trie membership", "statement": "For every history of add(word, start node) with data updates on the returned node, a word can be followed from the root iff it is a prefix of an added word (concatenated with the word of its start node); different words lead to different nodes; each node carries exactly the updates made for its word.", "quantifier": "all histories, all words over the alphabet, all start nodes, all data types", "why_tests_cant": "history and alphabet", "anchors": ["library/string/trie_array.hpp", "library/string/trie_map.hpp"]}
{"id": "C45", "title": "topological_sort is sound and complete", "statement": "topological_sort returns distinct vertices, each after all its predecessors; it returns all of them iff the graph is acyclic, and is_dag tells which.", "quantifier": "all finite digraphs, with loops and multi-edges", "why_tests_cant": "all graphs", "anchors": ["library/graph/topological_sort.hpp"]}
{"id": "C46", "title": "bfs distances are shortest path lengths", "statement": "BFS::distance(src) gives for every vertex the least number of edges on a walk from one of the sources, or -1 iff it is unreachable; the constructor from edges makes exactly these edges in both directions.", "quantifier": "all finite graphs, all lists of sources (with repetitions)", "why_tests_cant": "all graphs", "anchors": ["library/graph/bfs.hpp"]}
{"id": "C47", "title": "dijkstra distances are shortest", "statement": "With non-negative costs, dijkstra returns for each vertex the least cost of a walk from the source, or the unreachable marker iff there is none; path_to(t) is such a walk, and asserts for unreachable t.", "quantifier": "all finite weighted digraphs with non-negative long long costs whose least costs plus an edge stay below LLONG_MAX", "why_tests_cant": "all graphs and tie-breaking orders", "anchors": ["library/graph/dijkstra.hpp"]}
{"id": "C48", "title": "Bipartite recognition", "statement": "For an undirected graph and two different colours, bipartite_coloring returns a proper colouring with these two colours, or nullopt iff there is no proper 2-colouring.", "quantifier": "all finite undirected graphs, all pairs of different 32-bit colours", "why_tests_cant": "all graphs", "anchors": ["library/graph/bipartite_graph_recognition.hpp"]}
{"id": "C49", "title": "BinaryTrie is a multiset with xor order queries", "statement": "After any sequence of insert/erase/erase_all, the queries size, empty, prefix_count, count, contains, xor_kth_min/max, xor_count_lt/geq, count_leq/gt, xor_lower, xor_ceil, floor, higher, min return what the abstract multiset gives; no call touches a null pointer or overflows.", "quantifier": "all bit lengths, all histories with values below 2^bit_length and fewer than 2^31 elements, all queries", "why_tests_cant": "exponentially many tries; xor argument rarely tested together with ties", "anchors": ["library/datastructure/binary_trie.hpp BinaryTrie"]}
{"id": "C50", "title": "Red-black tree sequence operations", "statement": "A red-black tree (plain, segment tree, lazy, reversible) obtained by any history of build/merge/split/split_range/insert/push/erase/pop/get/update_value/prod/apply/reverse calls is the sequence that the same calls produce on lists: dump writes it, size is its length, get/erase/pop return its elements, no call has undefined behaviour; check_rbtree_properties passes and the depth is at most 2 log2(n) + 1.", "quantifier": "all histories of calls with arguments in range, all element types, all lengths up to 2^31 - 1", "why_tests_cant": "balance cases of merge appear only for specific shapes", "anchors": ["library/datastructure/bbst/red_black_tree_base.hpp RedBlackTreeNodeBase", "library/datastructure/bbst/red_black_tree.hpp RedBlackTreeNode"]}
{"id": "C51", "title": "XorBase spans what was added", "statement": "After any sequence of operations the elements of a base are linearly independent; the base made from a vector spans the same values; add returns true iff the value was outside the span and the new base spans it too; + spans the sum, & / intersection the intersection; dim is the dimension.", "quantifier": "all unsigned values, all bases built by the interface", "why_tests_cant": "infinite domain", "anchors": ["library/linear_algebra/xor_base.hpp"]}
{"id": "C52", "title": "Gaussian elimination returns the full solution space", "statement": "GaussianElimination(A,b) reports no solution iff none exists; otherwise solution + span(basis) is exactly the solution set, the basis is independent and dimension() is its size; has_unique_solution / has_multiple_solutions tell whether one or several solutions exist. Also for the two-element field.", "quantifier": "all fields with exact arithmetic, all n x m systems with n >= 1", "why_tests_cant": "rank-deficient shapes", "anchors": ["library/linear_algebra/gaussian_elimination.hpp"]}
{"id": "C53", "title": "Longest increasing subsequence", "statement": "longest_increasing_subsequence returns increasing positions whose values strictly increase, of maximal length; the non-decreasing, non-increasing and decreasing variants likewise.", "quantifier": "all arrays over linear orders", "why_tests_cant": "infinite domain", "anchors": ["library/dp/longest_increasing_subsequence.hpp"]}
{"id": "C54", "title": "number_of_nonempty_subsequences counts distinct subsequences", "statement": "The result is the number of different non-empty subsequences (as value sequences), in the arithmetic of the result type.", "quantifier": "all arrays over linear orders, all commutative rings as result type", "why_tests_cant": "infinite domain", "anchors": ["library/dp/number_of_subsequences.hpp"]}
{"id": "C55", "title": "Stern-Brocot node", "statement": "sbt_node(a,b) for positive a,b is the node holding a/b in lowest terms (each reduced fraction has exactly one node); depth, path, range (determinant 1, bracketing exactly the subtree), move_down, move_up, move_to, lca, dist, is_ancestor_of, ==, < and the in-/pre-/post-order comparisons agree with the tree; round trips through path and value give the same object.", "quantifier": "all positive pairs and all nodes whose value fits the integer type; dist: all pairs whose distance fits", "why_tests_cant": "infinite domain", "anchors": ["library/number/stern_brocot_tree.hpp"]}
{"id": "C56", "title": "BitVector rank/select and WaveletMatrix queries", "statement": "BitVector: access gives back the bits, rank(b,i) counts b in the prefix, rank(b,l,r) in the range. WaveletMatrix: access, rank, range_kth_smallest / largest, range_freq, range_min / max, range_min_geq / gt, range_max_lt / leq agree with the naive array.", "quantifier": "all bit sequences, all arrays of values below 2^bit_num, all ranges; bit_num below max(32, width of the type)", "why_tests_cant": "8/256-bit block boundaries", "anchors": ["library/datastructure/bit_vector.hpp", "library/datastructure/wavelet_matrix.hpp"]}
{"id": "C57", "title": "maximum rectangle / square", "statement": "maximum_rectngle returns a largest all-true rectangle of the grid and its area; maximum_square likewise for squares; maximal_rectangles reports only all-true rectangles and among them every inclusion-maximal one.", "quantifier": "all rectangular grids with fewer than 2^31 cells", "why_tests_cant": "all grids", "anchors": ["library/algorithm/maximum_rectangle.hpp", "library/algorithm/maximum_square.hpp"]}
{"id": "C58", "title": "monotone_minima finds row minima of monotone matrices", "statement": "If the leftmost argmins of the rows do not decrease from row to row (in particular for totally monotone matrices), monotone_minima returns them; a matrix with rows but no columns fails the assertion.", "quantifier": "all sizes, all such matrices over linear orders, all comparison functions that agree with the matrix for j1 < j2", "why_tests_cant": "infinite domain", "anchors": ["library/algorithm/monotone_minima.hpp"]}
{"id": "C59", "title": "Integer k-th roots are exact", "statement": "floor_kth_root(x,k) is the largest r with r^k <= x, ceil_kth_root(x,k) the least r with x <= r^k: for k = 1, 2 and k >= 64 if sqrtl rounds to nearest with a 64-bit significand; for the other k if in addition powl rounds to nearest and the guess does not exceed the root.", "quantifier": "all x < 2^64, all k >= 1", "why_tests_cant": "sign combinations over infinite domain", "anchors": ["library/number/kth_root_round.hpp floor_kth_root", "library/number/kth_root_round.hpp ceil_kth_root"]}
{"id": "C60", "title": "enumerate_quotient lists the quotients and their intervals", "statement": "quotient_num counts and enumerate_quotients / foreach_quotients list the different values of floor(n/d), 1 <= d <= n, in increasing order; quotient_ranges returns consecutive intervals (l,r,q) covering [1,n] that are exactly the sets of d with floor(n/d) = q; multiple_quotients_ranges does so for several n at once.", "quantifier": "all n < 2^60 (quotient_num: n < 2^63); all nonempty vectors of values < LLONG_MAX", "why_tests_cant": "infinite domain", "anchors": ["library/number/enumerate_quotient.hpp"]}
{"id": "C61", "title": "LinkedUnionFind lists a component", "statement": "In every history on LinkedUnionFind(n), connected_component(x) lists exactly the vertices connected to x, each once, and merge/same/size answer as UnionFind.", "quantifier": "all n, all histories with in-range vertices", "why_tests_cant": "cyclic link lists under arbitrary merge orders", "anchors": ["library/datastructure/union_find/linked_union_find.hpp (LinkedUnionFind)"]}
{"id": "C62", "title": "UnionFindComponentSum sums the component", "statement": "If merge_data adds (as observed in a commutative monoid), then in every history sum(x) is the sum of the initial values over the vertices connected to x, whatever value std::move leaves behind.", "quantifier": "all initial vectors, all commutative monoids, all histories", "why_tests_cant": "infinite histories", "anchors": ["library/datastructure/union_find/union_find_component_sum.hpp (UnionFindComponentSum)"]}
{"id": "C63", "title": "UndoUnionFindComponentSum sums the component and undoes", "statement": "If undo_data undoes merge_data, then in every history of merge/sum/same/size/snapshot/undo/rollback each answer is the one for the merges still in force.", "quantifier": "all initial vectors, all histories in which undo has something to undo", "why_tests_cant": "infinite histories", "anchors": ["library/datastructure/union_find/undo_union_find_component_sum.hpp (UndoUnionFindComponentSum)"]}
{"id": "C64", "title": "LazySegmentTree prefix/suffix products and boundary searches", "statement": "On LazySegmentTree, at every moment of every history prefix_prod(r), suffix_prod(l), max_right(l,g) and min_left(r,g) (g(e) true) agree with the current array exactly as those of SegmentTree do, for every position 0..n.", "quantifier": "all monoids with an action, all n, all histories, all positions", "why_tests_cant": "power-of-two sizes, positions at the very end", "anchors": ["library/datastructure/segment_tree/lazy_segment_tree.hpp LazySegmentTree::prefix_prod, suffix_prod, max_right, min_left"]}
{"id": "C65", "title": "DoubleEndedPriorityQueue keeps both ends", "statement": "On DoubleEndedPriorityQueue built from any range, after any history of push / min / max / pop_min / pop_max (extremes only of a non-empty queue), min() is the least and max() the greatest element of the multiset contents, pops remove and return exactly that element, dump_sorted() lists the contents in order.", "quantifier": "all linear orders, all initial ranges, all histories, every conforming std::nth_element", "why_tests_cant": "the split between the two heaps and the pivot depend on the whole history", "anchors": ["library/datastructure/double_ended_priority_queue.hpp DoubleEndedPriorityQueue"]}
{"id": "C66", "title": "carmichael is the exponent of the unit group", "statement": "carmichael(n) is the least e > 0 such that a^e = 1 (mod n) for every a coprime to n.", "quantifier": "all factorisations with p^(2(c-1)) representable; all n >= 1 with n^2 < 2^63 for long long", "why_tests_cant": "infinite domain; special case for powers of two", "anchors": ["library/number/util.hpp carmichael"]}
{"id": "C67", "title": "kronecker_power_transform multiplies by the Kronecker power", "statement": "kronecker_power_transform(x, A) for a D x D matrix A (D >= 2) and |x| = D^k replaces x by the product of the k-th Kronecker power of A with x.", "quantifier": "all commutative semirings, all D >= 2, all k, all square matrices, all vectors", "why_tests_cant": "unbounded dimensions; three nested index loops with strides", "anchors": ["library/transform/kronecker_power.hpp kronecker_power_transform"]}
{"id": "C68", "title": "ternary_search_key finds the optimum of a convex / concave function", "statement": "For a function on the integers that is convex (concave) on [l,r], plateaus at the optimum allowed, ternary_search_key returns a point of [l,r] where it is least (greatest).", "quantifier": "all 64-bit l <= r < LLONG_MAX with r - l < 2^63, all ordered abelian groups as values, all convex / concave functions", "why_tests_cant": "infinite domain; plateaus; golden-section or thirds steps", "anchors": ["library/util/search.hpp ternary_search_key"]}
{"id": "C69", "title": "Step sums by residue class", "statement": "For a vector a and step >= 1, the residue-class cumulative sum returns for k < step the sum of a_i over i in [l, r), i congruent to k mod step, with r clipped to the size.", "quantifier": "all abelian groups, all vectors, all steps, all k < step for which the vector has an element of the class or the range is empty", "why_tests_cant": "index arithmetic of the first and last element of a class", "anchors": ["library/util/step_sum.hpp"]}
{"id": "C70", "title": "Aho-Corasick counts the matching suffixes", "statement": "After adding nonempty words and one build, feeding any text through next_state from the initial state leads to a state whose count_suffix_matching is the number of added words (with multiplicity) that are suffixes of the text.", "quantifier": "all finite multisets of nonempty words over any ordered or hashed alphabet, all texts, all map iteration orders", "why_tests_cant": "unbounded words and texts; failure links across many words", "anchors": ["library/string/aho_corasick.hpp"]}
{"id": "C71", "title": "Array Aho-Corasick counts the matching suffixes", "statement": "The same for the automaton with a fixed alphabet, where next_state is a table lookup, including empty words.", "quantifier": "all alphabet sizes and offsets, all finite multisets of words, all texts over the alphabet", "why_tests_cant": "the table is filled in place while it is read, in breadth-first order", "anchors": ["library/string/aho_corasick_array.hpp", "library/string/trie_array.hpp"]}
{"id": "C72", "title": "connected_components partitions the vertices", "statement": "For an undirected graph, connected_components returns nonempty lists that together contain every vertex once; each list is the set of vertices reachable from any of its members.", "quantifier": "all finite undirected graphs", "why_tests_cant": "all graphs", "anchors": ["library/graph/bfs.hpp connected_components"]}
{"id": "C73", "title": "BFS01 distances are least costs", "statement": "BFS01 gives for every vertex the least total cost of a walk from one of the sources when edges cost 0 or 1, or INF iff it is unreachable; no int overflows.", "quantifier": "all finite digraphs with 0/1 costs and fewer than 2^31 vertices, all lists of sources", "why_tests_cant": "the deque may contain stale vertices; all graphs", "anchors": ["library/graph/bfs01.hpp"]}
{"id": "C74", "title": "Shortest paths in a DAG", "statement": "single_source_shortest_path_dag gives for every vertex the least cost of a walk from the source, or the largest value iff it is unreachable; weights may be negative.", "quantifier": "all finite acyclic digraphs, all long long weights without overflow of least cost plus edge, all sources without incoming edges", "why_tests_cant": "all graphs", "anchors": ["library/graph/single_source_shortest_path_dag.hpp"]}
{"id": "C75", "title": "remove_multiedges keeps one edge of each kind", "statement": "remove_multiedges keeps in every adjacency list exactly the first occurrence of each neighbour, in the same order.", "quantifier": "all finite digraphs", "why_tests_cant": "a shared flag vector is reused for all lists", "anchors": ["library/graph/remove_multiedges.hpp"]}
{"id": "C76", "title": "inversion_number counts inversions", "statement": "inversion_number(a) is the number of pairs of positions i < j with a_j < a_i, without overflow.", "quantifier": "all arrays over linear orders with fewer than 2^31 elements", "why_tests_cant": "all arrays", "anchors": ["library/algorithm/inversion_number.hpp inversion_number"]}
{"id": "C77", "title": "Bitset Gaussian elimination returns the full solution space", "statement": "gaussian_elimination_f2(A,b) reports no solution iff none exists; otherwise solution + span(basis) is exactly the solution set and the basis is independent.", "quantifier": "all n x m systems over the two-element field", "why_tests_cant": "rank-deficient and wide shapes; the elimination stops early when every row has a pivot", "anchors": ["library/linear_algebra/gaussian_elimination_f2.hpp gaussian_elimination_f2"]}
{"id": "C78", "title": "WaveletMatrix xor queries", "statement": "range_xor_kth_smallest(l,r,k,x) is the k-th smallest of the values x ^ a[i], l <= i < r; range_xor_min likewise; range_xor_freq counts the a[i] with x ^ a[i] in the interval; range_xor_min_geq / max_lt return the value v of the range with least / greatest x ^ v within the bound.", "quantifier": "all arrays of values below 2^bit_num, all x below 2^bit_num, all ranges", "why_tests_cant": "all arrays and masks", "anchors": ["library/datastructure/wavelet_matrix.hpp range_xor_kth_smallest", "library/datastructure/wavelet_matrix.hpp range_xor_freq"]}
{"id": "C79", "title": "BitVector::select finds the num-th occurrence", "statement": "select(val,num) is the index of the num-th (1-based) position with value val, or the default value if there are fewer.", "quantifier": "all bit sequences, val, num >= 1", "why_tests_cant": "block boundaries", "anchors": ["library/datastructure/bit_vector.hpp select"]}
{"id": "C80", "title": "CompressedWaveletMatrix queries equal the naive array", "statement": "operator[], rank, range_kth_smallest / largest, range_min / max, range_freq, range_min_geq / gt, range_max_lt / leq give the same results as on the plain array, for arbitrary values and arbitrary query values (present in the array or not).", "quantifier": "all arrays with at most 2^log_max_len different values (log_max_len <= 31, length below 2^31), all ranges and query values", "why_tests_cant": "query values outside the compressed set and at both ends of the type", "anchors": ["library/datastructure/compressed_wavelet_matrix.hpp CompressedWaveletMatrix"]}
{"id": "C81", "title": "BinaryTrie xor_count_leq, xor_count_gt, xor_floor, xor_higher", "statement": "xor_count_leq(x,v) is the number of elements u with x ^ u <= v; xor_count_gt the number with x ^ u > v; xor_floor(x,v) / xor_higher(x,v) return the greatest x ^ u <= v / least x ^ u > v.", "quantifier": "all tries, all masks x and values v", "why_tests_cant": "mask different from 0 together with an element equal to v", "anchors": ["library/datastructure/binary_trie.hpp xor_count_leq", "library/datastructure/binary_trie.hpp xor_floor", "library/datastructure/binary_trie.hpp xor_higher"]}
{"id": "C82", "title": "BinaryTrie::max returns the greatest element", "statement": "max() of a non-empty trie returns its greatest element.", "quantifier": "all non-empty tries", "why_tests_cant": "all tries", "anchors": ["library/datastructure/binary_trie.hpp max"]}
{"id": "C83", "title": "Range products, updates and reversals in red-black segment trees", "statement": "prod(l, r) returns the product in order of the current elements l..r-1, prod_all that of all elements, after any history of sequence operations, range updates and reversals, for any monoid and compatible action.", "quantifier": "all histories, all monoids (also non-commutative) with compatible actions, all ranges", "why_tests_cant": "pending updates and reversals at arbitrary nodes during rebalancing", "anchors": ["library/datastructure/bbst/red_black_segment_tree.hpp prod", "library/datastructure/bbst/red_black_lazy_segment_tree.hpp apply", "library/datastructure/bbst/red_black_reversible_lazy_segment_tree.hpp reverse"]}
{"id": "C84", "title": "Persistent red-black trees keep earlier versions", "statement": "An operation on a persistent red-black tree does not change the sequence of any version obtained before it.", "quantifier": "all histories of calls on arbitrary earlier versions", "why_tests_cant": "sharing between versions depends on the shapes of the trees", "anchors": ["library/datastructure/bbst/persistent_red_black_tree_base.hpp PersistentRedBlackTreeNodeBase", "library/datastructure/bbst/persistent_red_black_tree.hpp", "library/datastructure/bbst/persistent_red_black_segment_tree.hpp", "library/datastructure/bbst/persistent_red_black_lazy_segment_tree.hpp"]}
{"id": "C85", "title": "PersistentArray keeps every version", "statement": "set and clone give a new array and leave every array obtained earlier unchanged; get and dump read the array as it was made; mut_set changes element i of the version it is called on (and possibly of versions sharing it) and nothing else.", "quantifier": "all branchings, element types and histories of calls on arbitrary versions within the pool capacity", "why_tests_cant": "sharing between versions along arbitrary histories", "anchors": ["library/datastructure/persistent_array.hpp PersistentArray"]}
{"id": "C86", "title": "PersistentUnionFind answers for each version", "statement": "Every version of a PersistentUnionFind answers root / same / size / groups / merge according to the pairs merged on the way to that version.", "quantifier": "all n, all histories of calls on arbitrary versions within the pool capacity", "why_tests_cant": "path compression writes nodes that other versions share", "anchors": ["library/datastructure/union_find/persistent_union_find.hpp PersistentUnionFind"]}
{"id": "C87", "title": "HornSAT decides Horn formulas and returns a model", "statement": "For every history of add_clause calls over the variables 0..n-1 and of satisfiable() calls, satisfiable() terminates without undefined behaviour; it returns true exactly when some assignment satisfies all clauses added so far, and then answer() returns such an assignment; after false, answer() stops at its assertion.", "quantifier": "all n, all sequences of clauses (with repeated left-hand variables, negative right-hand sides for falsehood), all interleavings with satisfiable()", "why_tests_cant": "Satisfiability quantifies over all 2^n assignments and all formulas; tests check a handful of formulas.", "anchors": ["library/algorithm/horn_sat.hpp:HornSAT::add_clause", "library/algorithm/horn_sat.hpp:HornSAT::satisfiable", "library/algorithm/horn_sat.hpp:HornSAT::answer"]}
{"id": "C88", "title": "Doubling tables of a functional graph: k steps, maximal walk, first hit, sums", "statement": "For every function f on {0..n-1} and every max_step m, doubling(m) builds a table such that query(u,d) = f^d(u) for all d <= m; max_step(u,p), for p true at u and failing for good once it fails along the walk, returns the last step at which p holds (some value >= m if that is >= m); step_until(u,p), for p that keeps holding, returns the first step at which p holds, or nullopt only if there is none up to m; the summing table returns in addition the monoid product, in order, of the edge values passed.", "quantifier": "all functions f, all start vertices, all long long step limits, all predicates with the documented monotonicity, all monoids (possibly non-commutative)", "why_tests_cant": "The walks have up to 2^62 steps and the predicates and monoids are arbitrary.", "anchors": ["library/graph/functional_graph.hpp:FunctionalGraph::Doubling", "library/graph/functional_graph.hpp:FunctionalGraph::DoublingSum", "library/graph/functional_graph.hpp:FunctionalGraph::doubling"]}
{"id": "C89", "title": "infinite_paths returns the exact tail length and cycle length of every orbit", "statement": "For every function f on {0..n-1}, infinite_paths() terminates and returns for every vertex u the least k and t > 0 with f^(k+t)(u) = f^k(u), and the vertex f^k(u).", "quantifier": "all functions on {0..n-1}, all n, all vertices", "why_tests_cant": "The number of functions is n^n; shapes of tails and cycles and the visiting order are unbounded.", "anchors": ["library/graph/functional_graph.hpp:FunctionalGraph::infinite_paths"]}
{"id": "C90", "title": "kth_iterate returns f^k of every vertex", "statement": "For every function f on {0..n-1} and every non-negative long long k, kth_iterate(k) returns the vector of f^k(u).", "quantifier": "all functions on {0..n-1}, all k in 0..2^63-1", "why_tests_cant": "k ranges over 2^63 values and the extreme ones matter for overflow.", "anchors": ["library/graph/functional_graph.hpp:FunctionalGraph::kth_iterate"]}
{"id": "C91", "title": "Kruskal objects maintain an optimal spanning forest of every edge ever added", "statement": "After any sequence of add_edge and build calls on a minimum (maximum) spanning tree object, build answers whether the graph of all edges added so far is connected, get_mst returns a subset of these edges without cycle, connecting the same vertices and of least (greatest) total weight among all such subsets, sorted by weight, and get_weight returns that weight; this holds also when edges are added after an earlier build, which has already discarded the unused edges.", "quantifier": "all vertex counts, all histories of add_edge / build / get_weight / get_mst calls, all integer weights, every way std::sort may order ties", "why_tests_cant": "Optimality quantifies over all spanning forests, and discarding edges in build is only safe by the matroid exchange argument; tests compare with a few small graphs and rarely rebuild.", "anchors": ["library/graph/kruscal.hpp: KruscalMST::build, add_edge, get_weight, get_mst"]}
{"id": "C92", "title": "Every triangle of a graph is enumerated exactly once", "statement": "For every simple undirected graph, enumerate_triangles calls its consumer only with three pairwise adjacent vertices, and exactly once for every set of three pairwise adjacent vertices, without out-of-range access.", "quantifier": "all simple undirected graphs given by symmetric adjacency lists", "why_tests_cant": "Exactly-once depends on the degree ordering being a strict total order for every degree sequence; tests sample graphs.", "anchors": ["library/graph/enumerate_triangles.hpp: enumerate_triangles"]}
{"id": "C93", "title": "Strongly connected components of a tournament from in-degrees alone", "statement": "For every tournament, scc_tournament applied to its in-degrees returns its strongly connected components in topological order: every vertex appears once, two vertices are in one list exactly if each reaches the other, and every edge between lists goes from the earlier to the later one.", "quantifier": "all tournaments on any number of vertices", "why_tests_cant": "The edges are never inspected; correctness rests on a counting theorem about score sequences that holds for all tournaments or not at all.", "anchors": ["library/graph/scc_tournament.hpp: scc_tournament"]}
{"id": "C94", "title": "Bottleneck distances between all pairs", "statement": "For every square cost matrix and every comparison that is a strict weak order, entry (u, v) of minmax_floyd_warshall is the smallest possible largest edge cost of a non-empty walk from u to v; the recursion terminates and no access is out of range.", "quantifier": "all n \u00d7 n matrices over any type, all strict weak orders, every way std::sort may order ties", "why_tests_cant": "The bit-parallel incremental transitive closure mutates the rows it iterates over while recursing; whether every pair is closed exactly when it should be depends on the interleaving of all insertions.", "anchors": ["library/graph/minmax_floyd_warshall.hpp: minmax_floyd_warshall"]}
{"id": "C95", "title": "Distances and components of a complement graph without building it", "statement": "For every graph given by valid adjacency lists, ComplementBFS::distance(src) returns the shortest distances from the sources in the complement graph (-1 exactly for unreachable vertices), and for undirected graphs connected_components() returns exactly the connected components of the complement, each vertex once; both whatever order std::partition leaves.", "quantifier": "all graphs (also with repeated entries), all source lists, every behaviour std::partition is allowed", "why_tests_cant": "The remaining-vertex set is permuted arbitrarily by std::partition at every step, so the visiting order is not determined by the input; distances must not depend on it.", "anchors": ["library/graph/bfs_complement.hpp: ComplementBFS::distance, connected_components, add_edge"]}
{"id": "C96", "title": "Lowest common ancestors, distances and nesting times from an Euler tour", "statement": "For every tree of at most 2^28 vertices and every root, constructing an EulerTour succeeds and afterwards lca(u, v) is the lowest common ancestor, dist(u, v) the number of edges of the path between u and v, depth(u) the distance from the root, parent(u) the parent (-1 exactly for the root), and the intervals [visit_time, leave_time] are nested exactly for ancestor pairs and disjoint otherwise.", "quantifier": "all trees with at most 2^28 vertices, all roots, all adjacency orders, all vertex pairs", "why_tests_cant": "Correctness rests on the structure of the tour of an arbitrary tree; tests compare with brute force on random trees only.", "anchors": ["library/tree/euler_tour.hpp: EulerTour"]}
{"id": "C97", "title": "Level ancestor queries", "statement": "For every tree and root, LevelAncestor::query(u, k) returns the ancestor of u lying k edges above it when 0 <= k <= depth(u), and -1 for every other k; get_depth is the distance from the root; the visit times number the vertices 0..n-1, are inverted by get_visit_time_inv, never decrease along ancestors and keep the descendants of a vertex consecutive.", "quantifier": "all trees, all roots, all adjacency orders, all vertices and all integers k", "why_tests_cant": "The query binary-searches visit times of one level; that the last visited vertex of the level before u is its ancestor holds for all trees or is wrong for some shape not tested.", "anchors": ["library/tree/level_ancestor.hpp: LevelAncestor"]}
{"id": "C98", "title": "The path between two vertices of a tree", "statement": "For every tree and every pair of vertices u, v, get_tree_path(g, u, v) returns the vertices of the simple path from u to v in order.", "quantifier": "all trees, all pairs of vertices", "why_tests_cant": "The backtracking must undo every dead branch for every adjacency order; tests sample trees.", "anchors": ["library/tree/get_path.hpp: get_tree_path"]}
{"id": "C99", "title": "All centroids of a tree", "statement": "For every tree with fewer than 2^30 vertices, find_centroids returns exactly the vertices whose removal leaves no component with more than half of the vertices, each once; there are one or two, two of them are adjacent, and the internal assertion never fires.", "quantifier": "all trees below 2^30 vertices, all adjacency orders", "why_tests_cant": "That the one-pass test finds every centroid and that there are never zero or three of them is a theorem about all trees.", "anchors": ["library/tree/find_centroid.hpp: find_centroids"]}
{"id": "C100", "title": "Identifiers of rooted subtrees are canonical", "statement": "The identifiers that one RootedTreeClassifier hands out, over any number of classify_subtrees calls on any trees and roots and after any earlier use of the object, are equal exactly when the two rooted subtrees are isomorphic; is_isomorphic_rooted therefore decides isomorphism of rooted trees.", "quantifier": "all histories of the classifier object, all trees, all roots, all pairs of subtrees", "why_tests_cant": "Equality of identifiers must coincide with an existential statement over all bijections, across calls; tests can only refute it on a few trees.", "anchors": ["library/tree/tree_isomorphism_classification.hpp: IDHandlerNaive, RootedTreeClassifier::classify_subtrees, classify, is_isomorphic_rooted", "library/string/trie_map.hpp: MapTrie::add"]}
{"id": "C101", "title": "Isomorphism test for unrooted trees", "statement": "For every two trees, is_isomorphic returns a pair of vertices such that some isomorphism maps the first to the second if the trees are isomorphic, and nothing otherwise.", "quantifier": "all pairs of trees below 2^30 vertices, all states of the classifier", "why_tests_cant": "Whether the comparisons of centroids cover all cases, and only read centroids that exist, is a statement about all pairs of trees.", "anchors": ["library/tree/tree_isomorphism_classification.hpp: RootedTreeClassifier::is_isomorphic"]}
{"id": "C102", "title": "Rerooting computes the dynamic program for every root", "statement": "For every commutative monoid (commutative group for the invertible version), every pair of functions add_subtree_root and add_root and every weighted tree entered through add_edge, run_dp of Rerooting and RerootingInvertible returns one value per vertex u: add_root applied to the product over the children in the tree rooted at u, where the value of a subtree is defined by the recursion the user has in mind. Edges with an end out of range and weight lists of a wrong length fail assertions; an object without vertices reads out of bounds.", "quantifier": "all trees, weights, commutative monoids / groups, functions add_subtree_root and add_root, and edge orders", "why_tests_cant": "The number of trees and of algebraic structures is unbounded; the second traversal overwrites the values the first one left while it still needs some of them, which random tests with symmetric trees can miss.", "anchors": ["library/tree/rerooting.hpp: Rerooting::run_dp, add_edge, set_vertex_weights, GraphCSR", "library/tree/rerooting_invertible.hpp: RerootingInvertible::run_dp"]}
{"id": "C103", "title": "Heavy light decomposition of a tree", "statement": "For every tree and root, the constructors of HeavyLightDecomposition succeed and only permute the adjacency lists of their argument. get_parent, get_depth and get_subtree_size describe the rooted tree; get_visit_time is a bijection onto 0..n-1 inverted by get_kth_visited and inv_ids; the range used by fold_subtree and update_subtree is exactly the subtree (without its root for edge queries); the head of x is an ancestor of x, the path from the head to x is visited consecutively, and a head other than the root has a sibling at least as large that continues the heavy path of the parent.", "quantifier": "all trees below 2^29 vertices, all roots, all adjacency orders, all vertices", "why_tests_cant": "The traversal swaps entries of the adjacency list it is iterating over; that no child is skipped or visited twice, and that the first entry ends up as the largest child, must hold for all lists.", "anchors": ["library/tree/heavy_light_decomposition.hpp: HeavyLightDecomposition::HeavyLightDecomposition, dfs, hld, fold_subtree, update_subtree, inv_ids, get_roots, getters"]}
{"id": "C104", "title": "Ancestor and path queries on the heavy light decomposition", "statement": "For every tree, root and pair of vertices, lca returns the lowest common ancestor, la(u, k) the k-th ancestor or the default value if there is none (or k < 0), jump(u, v, d) the d-th vertex of the path from u to v or the default value, and dist the length of that path.", "quantifier": "all trees below 2^29 vertices, all roots, all vertices, all integers k and d", "why_tests_cant": "The queries climb from chain to chain; that the vertex moved is always the right one is an invariant over all chain structures.", "anchors": ["library/tree/heavy_light_decomposition.hpp: HeavyLightDecomposition::lca, la, jump, dist"]}
{"id": "C105", "title": "Path decomposition into ranges", "statement": "For every tree, root and pair of vertices, update_path calls its query on at most 2 log2 n + 1 ranges whose vertices are exactly those of the path, each once (without the lowest common ancestor for edge queries). fold_path returns the product along the path for every commutative monoid; fold_path_noncommutative returns the product in the order of the path from u to v for every monoid.", "quantifier": "all trees below 2^29 vertices, all roots, all pairs of vertices, all monoids and queries", "why_tests_cant": "Order and multiplicity of the folded values matter only for suitable monoids and chain structures; the logarithmic bound is a statement about all trees.", "anchors": ["library/tree/heavy_light_decomposition.hpp: HeavyLightDecomposition::update_path, fold_path, fold_path_noncommutative"]}
{"id": "C106", "title": "Auxiliary trees", "statement": "For every tree, root and history of earlier calls, AuxiliaryTree::build(vs) on at least one vertex without repetition leaves in operator[](u) exactly the neighbours of u in the auxiliary tree of vs, each once: the vertices are the lowest common ancestors of all pairs of vs, and each is joined with its closest proper ancestor among them. Nothing of earlier calls remains. An empty argument reads out of bounds, and repeated vertices produce self loops.", "quantifier": "all trees below 2^29 vertices, all roots, all non-empty sets of vertices in any order, all histories of earlier builds", "why_tests_cant": "The stack algorithm is correct only because of the visit order; which vertices are popped and which edges are made must be right for every subset of every tree, and clearing must cover every list that was touched.", "anchors": ["library/tree/auxiliary_tree.hpp: AuxiliaryTree::build, operator[]"]}
{"id": "C107", "title": "Constant time range minima of zigzag arrays", "statement": "For every non-empty array whose neighbours differ by exactly one, RMQpm1(l, r) is the minimum (maximum) of [l, r), and RMQpm1WithIndex(l, r) is that value with a position in [l, r) where it occurs; empty ranges give the documented identity. Arrays with other differences fail the assertion, and an empty array is undefined behaviour.", "quantifier": "all arrays of ints strictly between INT_MIN and INT_MAX, all ranges, minimum and maximum versions", "why_tests_cant": "The answers come from a table with 65536 entries computed at compile time by merging halves in place, and from bit masks cut out of blocks; an error in one table entry or one offset shows up only for particular blocks and ranges.", "anchors": ["library/algorithm/rmq_pm1.hpp: RMQpm1::operator()", "library/algorithm/rmq_pm1_with_index.hpp: RMQpm1WithIndex::operator()", "library/datastructure/sparse_table.hpp: SparseTable"]}
{"id": "C108", "title": "Lowest common ancestors by the Euler tour", "statement": "For every tree and root, LowestCommonAncestor(g, root) is constructed without failing the assertion of its range minimum structure, lca(u, v) is the lowest common ancestor and dist(u, v) the number of edges between u and v.", "quantifier": "all trees up to 2^28 vertices, all roots, all adjacency orders, all pairs of vertices", "why_tests_cant": "The position stored for a vertex is the last one of its tour; that any occurrence works and that the minimum between two positions is the common ancestor is a theorem about all trees.", "anchors": ["library/tree/lowest_common_ancestor.hpp: LowestCommonAncestor::lca, dist, dfs"]}
{"id": "C109", "title": "Discrete logarithms", "statement": "For every modulus m below 2^31 and all x, y, discrete_logarithm(x, y) returns the least k >= 0 with x^k = y modulo m, or -1 if there is none, also when x and m are not coprime. discrete_logarithm_coprime does the same if x is zero or coprime to m, and fails an assertion otherwise (unless y = 1).", "quantifier": "all moduli, all bases and values", "why_tests_cant": "Minimality and non-existence quantify over all exponents; the cut into a part that divides a power of x and a coprime part must work for every factorisation of m.", "anchors": ["library/number/discrete_logarithm.hpp: discrete_logarithm, discrete_logarithm_coprime, floor_log2"]}
{"id": "C110", "title": "Simple wheel sieve", "statement": "After any positive number of SimpleSieve<N> objects have been constructed, is_prime(p) is right for every p <= N and prime_list(m) is the increasing list of all primes up to m, for every m <= N.", "quantifier": "all N (below 2^32 - 2; below 2^31 for prime_list), all arguments", "why_tests_cant": "The tables of the wheel modulo 30 are entered by hand; every row, residue pair and boundary of N must work, and the static table is sieved again by each further object.", "anchors": ["library/number/sieve_of_eratosthenes.hpp: SimpleSieve, is_prime, prime_list", "library/number/internal_eratosthenes.hpp: RM, DR, DF, MASK, mask_to_index"]}
{"id": "C111", "title": "Wheel sieve with factorisation", "statement": "After any positive number of Sieve<N> objects have been constructed, is_prime(p) is right for every p <= N, prime_factor(n) is a prime factor of n, factorize(n) is the prime factorisation of n with each prime once, and divisors(n) lists every divisor of n once; other arguments of factorize and divisors fail the assertion.", "quantifier": "all N (N + 1 < 2^29), all arguments", "why_tests_cant": "Each entry of the table is overwritten by several primes; that the surviving one is a prime factor depends on the order of the whole sieve, for every N.", "anchors": ["library/number/sieve_of_eratosthenes.hpp: Sieve, is_prime, prime_factor, factorize, divisors", "library/number/internal_eratosthenes.hpp: DRP, DFP, OFFSET"]}
{"id": "C112", "title": "Deterministic primality test", "statement": "is_prime(n) says whether n is prime.", "quantifier": "all n < 2^64", "why_tests_cant": "A test can only sample the range; a single wrongly rejected prime breaks factorisation, primitive roots and everything built on them.", "anchors": ["library/number/deterministic_miller_rabin.hpp: is_prime, miller_rabin"]}
{"id": "C113", "title": "Factorisation of 64-bit numbers", "statement": "factorize(n) returns every prime factor of n exactly once, with its exponent, for whatever random constants Pollard's method draws; no call overflows, and every search with one constant ends.", "quantifier": "all n from 1 to 2^63 - 1, all sequences of random constants", "why_tests_cant": "The outcome depends on random constants; the batched greatest common divisors need a fallback that must find a factor in every case, and tests cannot cover 64-bit composites.", "anchors": ["library/number/fast_factorize.hpp: factorize, pollard_rho"]}
{"id": "C114", "title": "Power towers modulo m", "statement": "tetration_mod(a, b, m) is the tower of b copies of a, reduced modulo m; no operation overflows.", "quantifier": "all ints a, b >= 0 and m >= 1", "why_tests_cant": "The exponent is reduced modulo a totient only when it is large enough; whether it is large enough is decided by a saturating computation, and each of these boundaries depends on all three arguments.", "anchors": ["library/number/tetration_mod.hpp: tetration_mod, saturation_pow, saturation_tetration, pow_mod"]}
{"id": "C115", "title": "Slope trick: minimum and minimisers of a convex function", "statement": "For every history of SlopeTrick calls (add_const, add_left, add_right, add_abs, cumulative_min_left/right, shifts, sliding_window_minimum), min() is the least value over all integers of the function the calls define and argmin_range() gives the two ends of its set of minimisers; nothing overflows.", "quantifier": "all histories whose breakpoints are at most 2^59, whose shifts add up to at most 2^59 and whose minimum is a long long", "why_tests_cant": "The function is only kept implicitly in two queues with lazy offsets and sentinels; an error shows up only for particular interleavings of hinge additions, running minima and shifts.", "anchors": ["library/datastructure/slope_trick.hpp: SlopeTrick"]}
{"id": "C116", "title": "Least value of a linear function modulo m", "statement": "min_of_mod_of_linear(n, m, a, b) is the least of (a x + b) mod m over 0 <= x < n.", "quantifier": "all ints n, m >= 1, |a| <= m, 0 <= b", "why_tests_cant": "A binary search over the answer compares two floor sums; the counting argument and the int arithmetic have to be right for all 2^31 moduli.", "anchors": ["library/number/min_of_mod_of_linear.hpp: min_of_mod_of_linear"]}
{"id": "C117", "title": "Cartesian trees", "statement": "CartesianTreeBuilder::build returns the Cartesian tree of the sequence: every subtree covers a segment, its root is the first smallest element of the segment, its subtrees are the trees of the two sides. parent(i) is the parent in this tree (-1 for the root) and rejects bad indices; ranges()[i] is the largest segment in which element i is the first smallest one.", "quantifier": "all sequences (also empty ones) and all strict weak orders", "why_tests_cant": "The parents are found with a stack threaded through the result; ties and long monotone runs need different paths, and correctness is a statement about all segments.", "anchors": ["library/datastructure/cartesian_tree.hpp: CartesianTreeBuilder, CartesianTree"]}
{"id": "C118", "title": "Convex hull trick", "statement": "After any sequence of add_line calls, in any order of slopes, query(x) of ConvexHullTrick is the least value at x of all lines added so far (the greatest value for is_min_query = false), has_line() tells whether there is one, and a query without lines is rejected.", "quantifier": "all histories with T = long long, |slope|, |intercept| < 2^62, -(2^63 - 1) < x < 2^63", "why_tests_cant": "Lines are deleted when they no longer contribute and the breakpoints are rounded quotients; whether a deleted line could matter at some integer point depends on all lines before it.", "anchors": ["library/datastructure/convex_hull_trick.hpp: ConvexHullTrick"]}
{"id": "C119", "title": "Union find with lazy operators on components", "statement": "For every history of merge, apply_component, apply_point, set_point and propagate on UnionFindLazy, get_point(x) is the value of x after all operators applied to x or to the component containing x at that time, get_component(x) is the sum of the values of all vertices connected to x, and after propagate(x) raw_value(y) is the value of every y connected to x; same, size and connected_component answer as for the plain structure.", "quantifier": "all histories, all commutative groups of values and groups of operators acting on them", "why_tests_cant": "A merge has to express the values of one component relative to the pending operator of the other; whether this is right shows only for particular interleavings, non-commutative operators and merge orders.", "anchors": ["library/datastructure/union_find/union_find_lazy.hpp: UnionFindLazy"]}
{"id": "C120", "title": "Dirichlet convolutions", "statement": "dirichlet_convolution(a, b, n)[k] is the sum of a[i] b[j] over all i j = k for every k < n, entries beyond the end of a or b counting as zero; dirichlet_convolution_coprime takes the sum over coprime i, j.", "quantifier": "all vectors over any commutative semiring, all n <= 2^30", "why_tests_cant": "The bounds of the inner loop are rounded quotients and the gcd table is read at entries of earlier rows that must already exist; a wrong bound only shows for particular k, n and lengths.", "anchors": ["library/convolution/dirichlet_convolution.hpp: dirichlet_convolution, dirichlet_convolution_coprime"]}
{"id": "C121", "title": "Prefix sums of the M\u00f6bius function and of Euler's function", "statement": "SumOfMobiusFunction<T>(n) and SumOfTotientFunction<T>(n), queried with any denominator d \u2265 1, return the sum of \u03bc(k) (resp. \u03c6(k)) over 1 \u2264 k \u2264 \u230an/d\u230b, whatever threshold separates the sieved small values from the recursively computed large ones.", "quantifier": "every n, every threshold whose table sizes fit 32 bits, every denominator, every commutative ring as value type", "why_tests_cant": "The threshold comes from floating point functions and changes with n; the recursion groups equal quotients and reads entries of other quotients, so an off-by-one only shows for special n.", "anchors": ["library/number/sum_of_mobius_function.hpp: SumOfMobiusFunction", "library/number/sum_of_totient_function.hpp: SumOfTotientFunction"]}
{"id": "C122", "title": "Bridges and articulation points", "statement": "For a LowLink object built from n vertices and a list of edges (loops and parallel edges allowed): bridge_ids() lists exactly the edges whose removal disconnects their end points and articulation_points() exactly the vertices whose removal disconnects two others, each once; is_bridge(u, v) and is_articulation_point(u) agree; connected_component_num() and connected_component_num_if_removed(u, v) / (u) are the numbers of connected components of the graph, of the graph without one edge joining u and v, and of the graph without u. Queries on an object that is not built are rejected.", "quantifier": "every undirected multigraph, every edge, every vertex", "why_tests_cant": "Correctness is a statement about all paths of the graph while the code only looks at depth-first numbers; parallel edges, loops and several components take different branches.", "anchors": ["library/graph/low_link.hpp: LowLink"]}
{"id": "C123", "title": "Bridges after further edges", "statement": "When edges are added to a built LowLink object and build() is called again, the answers are those of the graph with all edges.", "quantifier": "every multigraph, every history of add_edge and build", "why_tests_cant": "Depends on the state left behind by the previous build.", "anchors": ["library/graph/low_link.hpp: LowLink::add_edge, LowLink::build"]}
{"id": "C124", "title": "Two-edge-connected components", "statement": "TwoEdgeConnectedComponents numbers the vertices 0 .. component_num() - 1 such that two vertices get the same number iff no removal of a single edge separates them; groups() lists the classes; reduced_forest()[k] lists exactly the bridges leaving class k, each once, with the class at the other end.", "quantifier": "every undirected multigraph", "why_tests_cant": "The numbers are assigned in a second search that relies on visiting the vertices in the same order as the first one; correctness is a statement about all paths.", "anchors": ["library/graph/two_edge_connected_components.hpp: TwoEdgeConnectedComponents"]}
{"id": "C125", "title": "Biconnected components of the edges", "statement": "BiconnectedComponents numbers the edges between different vertices 0 .. edge_component_num() - 1 such that two edges get the same number iff no removal of a single vertex separates them, every number is used and edge_component_num() is the number of classes; isolated_vertices() are the vertices without edges in increasing order and component_num() counts both.", "quantifier": "every undirected multigraph", "why_tests_cant": "The numbering comes from a stack shared by the whole recursion; correctness is a statement about all paths avoiding every vertex.", "anchors": ["library/graph/biconnected_components.hpp: BiconnectedComponents::operator[], edge_component_num, component_num, isolated_vertices"]}
{"id": "C126", "title": "Biconnected components as subgraphs", "statement": "components() returns component_num() subgraphs: the k-th with k < edge_component_num() has exactly the edges numbered k in increasing order and exactly their end points, each once; the others are the isolated vertices in order.", "quantifier": "every undirected multigraph", "why_tests_cant": "Whether the marks are cleared properly between components, and which edges have no number, shows only on special graphs.", "anchors": ["library/graph/biconnected_components.hpp: BiconnectedComponents::components"]}
{"id": "C127", "title": "Block-cut forest", "statement": "BlockCutForest has one node for every biconnected component, isolated vertex and articulation point in this order; the node of an articulation point is adjacent exactly to the components containing the point, each once; the result has no cycles; vertex_num is the number of vertices of a node; component_id(v) is the isolated node of v or a component containing v, the only one unless v is an articulation point.", "quantifier": "every undirected multigraph", "why_tests_cant": "That the adjacency lists form a forest is a statement about all cycles; the counts depend on duplicates being removed in between.", "anchors": ["library/graph/block_cut_forest.hpp: BlockCutForest"]}
{"id": "C128", "title": "Min-plus convolution", "statement": "min_plus_convolution_convex_convex and min_plus_convolution_convex_arbitrary return c with c[k] = min { a[i] + b[j] | i + j = k } for all k when the sequences required to be convex are; otherwise, and for empty sequences, an assertion fails.", "quantifier": "every pair of sequences of long long values whose sums and differences of two do not overflow", "why_tests_cant": "The greedy merge and the monotonicity of the row minima rely on convexity; ties and the invalid triangles of the matrix are decided by the comparison, and an error shows for special sequences only.", "anchors": ["library/convolution/min_plus_convolution.hpp: min_plus_convolution_convex_convex, min_plus_convolution_convex_arbitrary", "library/algorithm/monotone_minima.hpp: monotone_minima"]}
{"id": "C129", "title": "Tables of factorials and binomial coefficients", "statement": "factorial<mint>: fac(n) = n!, fac_inv(n) is its inverse, binom(n, r) is the binomial coefficient (0 for n < 0, r < 0 or r > n), perm(n, r) the falling factorial and polynom(n, d...) the multinomial coefficient with rest n - sum d (0 if some d or the rest is negative), for every sequence of calls with arguments below the modulus.", "quantifier": "every prime modulus and every sequence of calls", "why_tests_cant": "The table is static and grows by doubling, so the effect of a call depends on all earlier calls; a failure needs a special sequence of arguments.", "anchors": ["library/math/factorial.hpp: factorial"]}
{"id": "C130", "title": "Tables of inverses and batch inversion", "statement": "inv_mods<mint>[i] is the inverse of i for every sequence of lookups with indices below the prime modulus; get_invs(vs) returns the inverses of all entries, and fails with an assertion iff an entry is zero.", "quantifier": "every prime modulus and every sequence of lookups; every vector", "why_tests_cant": "The recurrence uses previously computed entries of a table shared between all uses; correctness depends on the primality of the modulus.", "anchors": ["library/math/inv_mods.hpp: inv_mods, get_invs"]}
{"id": "C131", "title": "Tables of powers", "statement": "pow_mods and static_pow_mods: the entry at i is the i-th power of the base for every sequence of lookups.", "quantifier": "every base and every sequence of lookups", "why_tests_cant": "The table is extended lazily; the result must not depend on the earlier lookups.", "anchors": ["library/math/pow_mods.hpp: pow_mods, static_pow_mods"]}
{"id": "C132", "title": "Chromatic number", "statement": "chromatic_number(n, edges) is the least number of colours of a proper colouring of the graph.", "quantifier": "every graph with at most 30 vertices given by its list of edges (self-loops ignored)", "why_tests_cant": "The answer is read off from counts modulo two primes; tests compare small graphs, where the inclusion-exclusion terms cannot vanish by accident.", "anchors": ["library/graph/chromatic_number.hpp: chromatic_number"]}
{"id": "C133", "title": "Mo's algorithm", "statement": "Mo::solve: if the add and delete callbacks update the caller's state correctly at both ends of a valid range, then every query [l, r) is evaluated for exactly this range; the callbacks are called for valid ranges inside [0, n) only, and the order passed to std::sort is a strict weak ordering.", "quantifier": "every set of queries with l <= r <= n, every bucket size, every order chosen by the sort, all callbacks", "why_tests_cant": "The callbacks run in an order that depends on all queries; an intermediate range with l > r would appear only for particular neighbouring queries.", "anchors": ["library/algorithm/mo.hpp: Mo"]}
{"id": "C134", "title": "Sums of binomial coefficients", "statement": "binom_sum_prefix(qs, r) returns sum_{i <= n} r^i binom(m, i) for every query (n, m), and 0 for negative n or m; binom_sum(qs, r) returns the sums over a <= i <= b.", "quantifier": "every prime modulus, every r (including -1), all sets of queries with m below the modulus", "why_tests_cant": "Answers are derived from each other along the order of Mo's algorithm, with division by r + 1; a wrong update shows only for particular sequences of moves.", "anchors": ["library/math/binomial_coefficient_sum.hpp: binom_sum_prefix, binom_sum"]}
{"id": "C135", "title": "Merge history forest", "statement": "MergeHistoryForest: group(i, t) lists exactly the vertices connected to i by the edges of the first t calls of merge and merge_simultaneously, groups(t) is the partition into these classes, same(u, v, t, get_lca) tells whether u and v were connected then, provided get_lca is correct for the forest, and two leaves have a common ancestor created at time at most t iff they were connected at time t.", "quantifier": "every sequence of merge and merge_simultaneously calls with valid vertices, every time and every choice of leaders by the union-find structure", "why_tests_cant": "Queries about the past depend on the whole history; merge_simultaneously temporarily stores another forest in the same arrays and must restore them for all sets of edges.", "anchors": ["library/datastructure/union_find/merge_history_forest.hpp: MergeHistoryForest"]}
{"id": "C136", "title": "Multiplicative order modulo any number", "statement": "order_Z_mZ(m)(a) returns the least positive k with a^k congruent to 1 modulo m, for every modulus m above one and every a coprime to m.", "quantifier": "all m \u2265 2, all a coprime to m, any correct factorisation routine", "why_tests_cant": "the divide and conquer over the factors of the Carmichael function must not miss or double a prime for any factorisation shape; for 64-bit moduli an exhaustive test is impossible", "anchors": ["library/number/order_Z_mZ.hpp: order_Z_mZ::operator(), _order_impl, mint64::pow"]}
{"id": "C137", "title": "Constants of the group of units", "statement": "totient() is Euler's function of the modulus, carmichael() is the exponent of the group of units, carmichael_prime_factors() lists the primes dividing it without repetition, and is_prime() recognises primes.", "quantifier": "all m \u2265 1", "why_tests_cant": "the special rule for powers of two and the lcm over coprime parts must hold for every modulus", "anchors": ["library/number/order_Z_mZ.hpp: totient, carmichael, carmichael_prime_factors, is_prime, _carmichael, _totient"]}
{"id": "C138", "title": "Primitive root test", "statement": "is_primitive_root(a) returns true exactly when the powers of a are all units modulo m.", "quantifier": "all m \u2265 2, all a", "why_tests_cant": "depends on all prime factors of the totient at once; special ranges of moduli and arguments not coprime to the modulus are missed by tests on primes", "anchors": ["library/number/order_Z_mZ.hpp: order_Z_mZ::is_primitive_root, _is_primitive_root_impl"]}
{"id": "C139", "title": "Primitive root search", "statement": "primitive_root() returns a primitive root of m whenever one exists, whatever the random numbers, and fails its assertion when none exists.", "quantifier": "all m \u2265 2, all sequences of random numbers", "why_tests_cant": "the answer depends on random draws: a wrong draw for a prime power is accepted only with small probability", "anchors": ["library/number/order_Z_mZ.hpp: order_Z_mZ::primitive_root, _primitive_root_impl", "library/number/primitive_root.hpp: primitive_root"]}
{"id": "C140", "title": "Shortest linear recurrence", "statement": "find_linear_recuurence(s) returns coefficients c of length L+1 with c_0 = 1 and s_i = sum of c_j s_{i-j} over j = 1..L for all L \u2264 i < |s|, where L is the least possible. If s is a prefix of at least 2K terms of an infinite sequence with a recurrence of length K, the answer is a recurrence of the whole sequence.", "quantifier": "all finite sequences over any field; all infinite linearly recurrent sequences and all sufficiently long prefixes", "why_tests_cant": "minimality ranges over all recurrences and the prediction over infinitely many terms", "anchors": ["library/polynomial/berlekamp_massey.hpp: find_linear_recuurence"]}
{"id": "C141", "title": "Directed Eulerian circuits", "statement": "On a directed multigraph with at least one vertex, eulerian_circuit(start) returns a list of vertices exactly when there is a closed walk using every edge exactly once (through start, if given); the list is such a walk and begins at start.", "quantifier": "all n \u2265 1, all lists of edges (self-loops, parallel edges, isolated vertices), all starts", "why_tests_cant": "existence of a walk over all orders of the edges cannot be enumerated; unconnected balanced graphs must be rejected", "anchors": ["library/graph/directed_eulerian_graph.hpp: DirectedEulerianGraph::eulerian_circuit, add_edge"]}
{"id": "C142", "title": "Directed Eulerian trails", "statement": "eulerian_trail(different_endpoints) returns a list of vertices exactly when there is a walk using every edge exactly once (with different end points, if requested); the list is such a walk and the graph is unchanged afterwards.", "quantifier": "all n \u2265 1, all lists of edges, both values of the flag", "why_tests_cant": "ranges over all multigraphs; the function changes the graph temporarily", "anchors": ["library/graph/directed_eulerian_graph.hpp: DirectedEulerianGraph::eulerian_trail"]}
{"id": "C143", "title": "Undirected Eulerian circuits", "statement": "On an undirected multigraph with at least one vertex, eulerian_circuit(start) returns a list of vertices exactly when there is a closed walk using every edge exactly once in one of its directions (through start, if given); the list is such a walk and begins at start. The internal assertion never fails.", "quantifier": "all n \u2265 1, all lists of edges (self-loops, parallel edges, isolated vertices), all starts", "why_tests_cant": "existence of a walk over all orders of the edges cannot be enumerated; the two entries of self-loops and parallel edges must not be confused", "anchors": ["library/graph/undirected_eulerian_graph.hpp: UndirectedEulerianGraph::eulerian_circuit, add_edge"]}
{"id": "C144", "title": "Undirected Eulerian trails", "statement": "eulerian_trail(different_endpoints) returns a list of vertices exactly when there is a walk using every edge exactly once (with different end points, if requested); the list is such a walk and the graph is unchanged afterwards.", "quantifier": "all n \u2265 1, all lists of edges, both values of the flag", "why_tests_cant": "ranges over all multigraphs; the function changes the graph temporarily and rotates the circuit at one of possibly several parallel edges", "anchors": ["library/graph/undirected_eulerian_graph.hpp: UndirectedEulerianGraph::eulerian_trail"]}
{"id": "C145", "title": "Maximum bipartite matching", "statement": "After any sequence of add_edge calls and questions, max_matching() returns a matching of the edges added so far with the largest possible number of edges.", "quantifier": "all numbers of vertices, all histories of additions and questions", "why_tests_cant": "maximality ranges over all matchings, and edges may be added after the matching has been computed", "anchors": ["library/graph/bipartite_matching.hpp: BipartiteMatching::max_matching, solve, add_edge"]}
{"id": "C146", "title": "Size of a maximum matching", "statement": "solve() returns the largest number of edges of a matching of the edges added so far.", "quantifier": "all numbers of vertices, all histories of additions and questions", "why_tests_cant": "the value depends on the history of earlier calls", "anchors": ["library/graph/bipartite_matching.hpp: BipartiteMatching::solve"]}
{"id": "C147", "title": "Minimum vertex cover of a bipartite graph", "statement": "After any history, min_vertex_cover() returns a smallest set of vertices that meets every edge, without repetitions.", "quantifier": "all numbers of vertices, all histories of additions and questions", "why_tests_cant": "minimality ranges over all covers", "anchors": ["library/graph/bipartite_matching.hpp: BipartiteMatching::min_vertex_cover"]}
{"id": "C148", "title": "Maximum independent set of a bipartite graph", "statement": "After any history, max_independent_set() returns a largest set of vertices without an edge between them.", "quantifier": "all numbers of vertices, all histories of additions and questions", "why_tests_cant": "maximality ranges over all sets of vertices", "anchors": ["library/graph/bipartite_matching.hpp: BipartiteMatching::max_independent_set"]}
{"id": "C149", "title": "Minimum edge cover of a bipartite graph", "statement": "After any history, min_edge_cover() returns a smallest set of edges that meets every vertex that has an edge.", "quantifier": "all numbers of vertices, all histories of additions and questions", "why_tests_cant": "minimality ranges over all sets of edges; out-of-bounds accesses to packed flags go unnoticed in tests", "anchors": ["library/graph/bipartite_matching.hpp: BipartiteMatching::min_edge_cover"]}
{"id": "C150", "title": "Square roots modulo a prime", "statement": "prime_mod_sqrt(a, p) for a prime p and any a terminates and returns x with 0 <= x < p and x*x congruent to a, or nullopt exactly when a is not congruent to a square.", "quantifier": "all integers a, all primes p", "why_tests_cant": "the number of rounds depends on the power of two in p - 1; the undefined bit count needs a prime above 2^32", "anchors": ["library/number/mod_sqrt.hpp: prime_mod_sqrt"]}
{"id": "C151", "title": "Square roots modulo a composite number", "statement": "composite_mod_sqrt(a, factorized) terminates and returns x with 0 <= x < m and x*x congruent to a modulo m, or nullopt exactly when a is not congruent to a square modulo m.", "quantifier": "all integers a, all factorised moduli m < 2^63", "why_tests_cant": "lifting through powers of primes and the Chinese remainder theorem range over all moduli", "anchors": ["library/number/mod_sqrt.hpp: composite_mod_sqrt, internal::prime_power_mod_sqrt"]}
{"id": "C152", "title": "Li Chao segment tree", "statement": "For every non-empty list of query coordinates and every history of add_segment, add_line and query, query(x) for a listed x returns the least (greatest) value at x of the segments added over x, or nullopt if there is none; for other x no answer is returned.", "quantifier": "all coordinate lists, all histories of segments and lines whose values at the coordinates lie strictly inside the range of T", "why_tests_cant": "lines are displaced down the tree in an order that depends on the whole history", "anchors": ["library/datastructure/segment_tree/li_chao_segment_tree.hpp: LiChaoSegmentTree"]}
{"id": "C153", "title": "Convex hull trick with monotone slopes", "statement": "For every history of add_line and query in which each new slope is not greater than all slopes so far or not less than all of them, and in which the query points are monotone where the query tag requires it, query(x) returns the least (greatest) value at x of all lines added so far; a slope strictly between earlier ones, a query point in the wrong order and a query without lines fail an assertion.", "quantifier": "all histories, all three query tags, minimum and maximum, coefficients below 2^62 whose values at the query points do not overflow", "why_tests_cant": "lines are dropped by both additions and queries; the ternary search depends on plateaus of the whole envelope", "anchors": ["library/datastructure/monotonic_convex_hull_trick.hpp: MonotonicCHT"]}
{"id": "C154", "title": "Range assignment and range product", "statement": "For every monoid, every constructor and every history of set(l, r, f) and prod(l, r), prod returns the product of the current elements l, ..., r-1 in order; ranges outside of the sequence fail an assertion.", "quantifier": "all monoids, all initial sequences, all histories", "why_tests_cant": "runs are cut and merged depending on the whole history; stale products are visible only for particular overlaps", "anchors": ["library/range_query/range_set_range_composite.hpp: RangeSetRangeComposite"]}
{"id": "C155", "title": "Distinct values in ranges", "statement": "For every sequence and every history of add_query and solve, solve() returns for each query (l, r) added so far, in order of addition, the number of distinct values among the elements l, ..., r-1; add_query returns the index of the query and refuses ranges outside of the sequence with an assertion.", "quantifier": "all sequences, all histories", "why_tests_cant": "the answers are computed in one sweep over all queries at once, in an order that depends on all of them", "anchors": ["library/range_query/static range_count_distinct.hpp: StaticRangeCountDistinctOffline"]}
{"id": "C156", "title": "Moebius function table", "statement": "For every N below 2^31, MobiusFunction<N> gives the Moebius function on [1, N], the least prime factor on [2, N], the factorisation in increasing order of primes on [1, N] and primality on [0, N]; other arguments fail an assertion.", "quantifier": "all N, all arguments", "why_tests_cant": "the sieve has to be right at every position for every size", "anchors": ["library/number/mobius_function.hpp: MobiusFunction"]}
{"id": "C157", "title": "Constraints of TwoSAT", "statement": "After any history of add_clause, implies, set, at_most_one and exactly_one, satisfiable() tells whether some assignment satisfies every constraint with its stated meaning, and answer() is such an assignment.", "quantifier": "all numbers of variables, all histories of constraints and questions", "why_tests_cant": "satisfiability ranges over all assignments", "anchors": ["library/algorithm/two_sat.hpp: TwoSAT"]}
{"id": "C158", "title": "Cycle in a directed graph", "statement": "get_cycle_directed(g) terminates for every directed graph and returns a cycle as consecutive edges that passes through no vertex twice, or nullopt exactly if the graph is acyclic.", "quantifier": "all directed graphs, weighted or not, with self-loops and multiple edges", "why_tests_cant": "absence of cycles ranges over all closed walks", "anchors": ["library/graph/cycle_detection.hpp: get_cycle_directed"]}
{"id": "C159", "title": "Arithmetic of rational numbers", "statement": "Rational(n, d) with d not 0, and negation, +, -, *, /, inverse and absolute value of rationals with numerators and denominators below 2^31, give exactly the mathematical result in lowest terms with a positive denominator, without overflow.", "quantifier": "all pairs of rationals of that size", "why_tests_cant": "overflow and missing reductions show only for particular divisors", "anchors": ["library/number/rational.hpp: Rational"]}
{"id": "C160", "title": "Comparison of rational numbers", "statement": "The comparison operators of Rational agree with the order of the rational numbers.", "quantifier": "all pairs of rationals", "why_tests_cant": "the number of rounds of the continued fraction comparison depends on the operands", "anchors": ["library/number/rational.hpp: Rational::compare, operators <, >, <=, >=, ==, !="]}
{"id": "C161", "title": "Rounding of rational numbers", "statement": "floor() is the greatest integer not above, ceil() the least integer not below the number; the conversion to an integer rounds towards zero.", "quantifier": "all rationals", "why_tests_cant": "the rounding direction depends on sign and divisibility", "anchors": ["library/number/rational.hpp: Rational::floor, Rational::ceil, operator T"]}
{"id": "C162", "title": "Linear Diophantine equations in two unknowns", "statement": "BezoutEquation(a, b).solve(z), after any history of restrictions of x and y, tells whether a x + b y = z has a solution within the restrictions, how many there are (nullopt if infinitely many), and gives solutions with least and greatest x and y where they exist.", "quantifier": "all coefficients and bounds below 2^60, all histories of restrictions", "why_tests_cant": "solutions range over all integers; sentinels and rounding interact with signs and sizes", "anchors": ["library/number/bezout_equation.hpp: BezoutEquation, BezoutEquationSolution"]}
{"id": "C163", "title": "Sum of the first k elements", "statement": "For every history of insert, erase, set_k, incr_k and decr_k, get_sum() is the sum of the k first elements (all elements if there are fewer) in the order of the comparator, and size() is the number of elements.", "quantifier": "all ordered groups, all histories that erase only present elements and keep k nonnegative", "why_tests_cant": "elements move between four queues with lazy deletions; a wrong queue shows only after particular histories", "anchors": ["library/datastructure/util/priority_sum.hpp: MaximumPrioritySum, MinimumPrioritySum"]}
{"id": "C164", "title": "A persistent segment tree keeps all its versions", "statement": "For every monoid and every history of constructions, set(i, v) and apply(i, f) of PersistentSegmentTree, made on any earlier versions, with a pool of at least 2n-1 nodes per construction and ceil(log2 n)+1 nodes per update (contents of unused nodes arbitrary, as after clear_pool), no call fails, and afterwards every version, old or new, still answers get, prod, prod_all, max_right and min_left for its own array; arguments outside of the array fail an assertion.", "quantifier": "all monoids, histories, versions, pools and query arguments", "why_tests_cant": "persistence is a statement about all interleavings of updates on all earlier versions", "anchors": ["library/datastructure/segment_tree/persistent_segment_tree.hpp: PersistentSegmentTree", "library/util/object_pool.hpp: ObjectPool"]}
{"id": "C165", "title": "A persistent lazy segment tree keeps all its versions", "statement": "For every monoid T with a monoid F of maps that distribute over products and every history of constructions, apply_all(f), apply(l, r, f) (any l and r), apply(i, f) and set(i, v) of PersistentLazySegmentTree on any earlier versions, with a pool that is large enough (8*ceil(log2 n)+1 nodes per range update suffice), no call fails and afterwards every version answers get, prod, prod_all, max_right and min_left for its own array.", "quantifier": "all monoids, actions, histories, versions, pools and query arguments", "why_tests_cant": "pending maps are shared between versions, so every later push could change an older version", "anchors": ["library/datastructure/segment_tree/persistent_lazy_segment_tree.hpp: PersistentLazySegmentTree"]}
{"id": "C166", "title": "A persistent dual segment tree keeps all its versions", "statement": "For every monoid F of maps (not necessarily commutative) and every history of constructions, apply_all(f) and apply(l, r, f) of PersistentDualSegmentTree on any earlier versions, with a pool that is large enough, no call fails and afterwards get(i) of every version returns the composition of the maps applied to element i on the way to that version, latest outermost.", "quantifier": "all monoids, histories, versions and indices", "why_tests_cant": "the order of composition on shared nodes matters for every sequence of overlapping ranges", "anchors": ["library/datastructure/segment_tree/persistent_dual_segment_tree.hpp: PersistentDualSegmentTree"]}
{"id": "C167", "title": "A persistent commutative dual segment tree keeps all its versions", "statement": "For every commutative monoid of maps and every history of constructions, apply_all(f) and apply(l, r, f) of PersistentCommutativeDualSegmentTree on any earlier versions, with a pool of 4*ceil(log2 n)+1 nodes per range update, no call fails and afterwards get(i) of every version returns the composition of the maps applied to element i on the way to that version.", "quantifier": "all commutative monoids, histories, versions and indices", "why_tests_cant": "nothing is ever pushed down, so correctness rests on commutativity for all sequences of ranges", "anchors": ["library/datastructure/segment_tree/persistent_commutative_dual_segment_tree.hpp: PersistentCommutativeDualSegmentTree"]}
{"id": "C168", "title": "dump lists the elements of a version of a persistent segment tree", "statement": "dump() of every version of a PersistentSegmentTree or PersistentLazySegmentTree returns the elements of the version in order.", "quantifier": "all histories and versions", "why_tests_cant": "the recursion finds the leaves by their child pointers, which depend on the whole history of the pool", "anchors": ["library/datastructure/segment_tree/persistent_segment_tree.hpp: dump", "library/datastructure/segment_tree/persistent_lazy_segment_tree.hpp: dump"]}
{"id": "C169", "title": "OfflineDynamicConnectivity answers every query for the graph of its moment", "statement": "After any history of add_query, del_query of existing edges and connectivity_query on vertices below n, OfflineDynamicConnectivity(n).answer() returns, in the order of the queries, whether the two vertices were connected in the graph at the moment of the query, also with parallel edges, loops, and edges deleted in the other direction than they were added.", "quantifier": "all n and all histories", "why_tests_cant": "the lifetimes of the edges are distributed over a segment tree of arbitrary size and merges are undone along a depth-first search; all interleavings of insertions, deletions and queries", "anchors": ["library/algorithm/offline_dynamic_connectivity.hpp: OfflineDynamicConnectivity"]}
{"id": "C170", "title": "OfflineDynamicConnectivityComponentSum answers connectivity and component sums for the graph of the moment", "statement": "After any history of add_query, del_query of existing edges, connectivity_query and component_sum_query, answer(init_values) returns for each query whether its vertices were connected in the graph at the moment of the query, or the sum of the initial values over the component of its vertex at that moment, provided undo_data undoes merge_data and merge_data adds.", "quantifier": "all initial values, data types with merge and undo, and histories", "why_tests_cant": "component data are merged and undone along a depth-first search over the lifetimes of the edges; all interleavings", "anchors": ["library/algorithm/offline_dynamic_connectivity_component_sum.hpp: OfflineDynamicConnectivityComponentSum"]}
{"id": "C171", "title": "answer() of OfflineDynamicConnectivity does not change the graph", "statement": "Calling answer() has no effect on the graph: a second answer() returns the same, later queries see the edges that were there, and these edges can be deleted later.", "quantifier": "all histories with several calls of answer()", "why_tests_cant": "whether a second phase of calls sees the state left by answer() depends on the whole history", "anchors": ["library/algorithm/offline_dynamic_connectivity.hpp: OfflineDynamicConnectivity::answer"]}
{"id": "C172", "title": "DynamicBitSet behaves as a list of bits under any history of calls", "statement": "For any history of calls on any number of DynamicBitSet objects with arguments in range (construction, copies, &, |, ^, ~, <<, >> and their assignment forms, resize, push_back, pop_back, s[i] = v, flip, |=, ^=, range_set/reset/flip/update, set, reset, size, test, range_count, all, none, any, count, find_first, find_next, has_intersection, is_disjoint and all comparisons), without s[i] &= v and without all() on a positive multiple of 64, no call has undefined behaviour or fails an assertion and every answer is that of the same operations on lists of bits; in particular bits beyond the size that remain in the last block never show up.", "quantifier": "all histories of calls, all numbers of objects, all sizes below 2^31, all positions and shift amounts", "why_tests_cant": "stale bits beyond the end of the last block only matter after particular sequences of resize, complement and shifts, at sizes around multiples of 64", "anchors": ["library/datastructure/util/dynamic_bitset.hpp: DynamicBitSet"]}
{"id": "C173", "title": "s[i] &= v on a DynamicBitSet only changes bit i", "statement": "s[i] &= v sets bit i to s[i] and v and leaves all other bits as they are.", "quantifier": "all objects, positions and values", "why_tests_cant": "depends on the values of the 63 other bits of the block", "anchors": ["library/datastructure/util/dynamic_bitset.hpp: DynamicBitSet::bitref::operator&="]}
{"id": "C174", "title": "DynamicBitSet::all() for every size", "statement": "all() returns true exactly if every bit is set, for every size.", "quantifier": "all objects of all sizes", "why_tests_cant": "sizes that are multiples of 64 have undefined behaviour that a test on x86 may not show", "anchors": ["library/datastructure/util/dynamic_bitset.hpp: DynamicBitSet::all"]}
{"id": "C175", "title": "SparseSegmentTree behaves as an array of the initial values under any history of calls", "statement": "For any history of calls on any number of SparseSegmentTree objects (construction with any size, copies, get, set, apply_fun, prod, prod_all) with arguments in range, no call has undefined behaviour or fails an assertion, and every answer is that of an array whose values are first init(i, i+1), with the products in the order of the positions, where a copy stands for the same array as the original; indices outside of the array fail an assertion. This holds as long as the sum of two positions fits the index type and fewer than 2^32 nodes were made.", "quantifier": "all monoids, initial values, sizes and histories of calls", "why_tests_cant": "which nodes exist depends on the whole history, and sizes such as 10^18 with arbitrary positions cannot be enumerated", "anchors": ["library/datastructure/segment_tree/sparse_segment_tree.hpp: SparseSegmentTree"]}
{"id": "C176", "title": "A copy of a SparseSegmentTree is independent of the original", "statement": "After a SparseSegmentTree was copied, changes of one of the two do not change the other.", "quantifier": "all histories of calls on all objects", "why_tests_cant": "depends on which object is changed after which copy", "anchors": ["library/datastructure/segment_tree/sparse_segment_tree.hpp: SparseSegmentTree"]}
{"id": "C177", "title": "SparseLazySegmentTree behaves as an array under any history of range updates and queries", "statement": "For any history of calls on any number of SparseLazySegmentTree objects (construction with any size, copies, get, set, apply_fun, apply at a position, apply on a range, apply_all, prod, prod_all) with arguments in range, no call has undefined behaviour or fails an assertion, and every answer is that of an array whose values are first init(i, i+1), on which the maps act position by position, with the products in the order of the positions, where a copy stands for the same array as the original; indices outside of the array fail an assertion. This holds as long as apply_all is not called on an empty tree, the sum of two positions fits the index type and fewer than 2^32 nodes were made; it is enough that the maps respect products of intervals that are not empty.", "quantifier": "all monoids, maps that may depend on the interval, initial values, sizes and histories of calls", "why_tests_cant": "which nodes exist and where maps are pending depends on the whole history; sizes such as 10^18 with arbitrary positions cannot be enumerated", "anchors": ["library/datastructure/segment_tree/sparse_lazy_segment_tree.hpp: SparseLazySegmentTree"]}
{"id": "C178", "title": "A copy of a SparseLazySegmentTree is independent of the original", "statement": "After a SparseLazySegmentTree was copied, changes of one of the two do not change the other.", "quantifier": "all histories of calls on all objects", "why_tests_cant": "depends on which object is changed after which copy", "anchors": ["library/datastructure/segment_tree/sparse_lazy_segment_tree.hpp: SparseLazySegmentTree"]}
{"id": "C179", "title": "prod_all() after apply_all(f) on a SparseLazySegmentTree of any size", "statement": "For every size n, also 0, apply_all(f) followed by prod_all() on a new SparseLazySegmentTree gives the product of the initial values with f applied at each position.", "quantifier": "all sizes and all template arguments that satisfy the laws", "why_tests_cant": "depends on what the map does on the identity, for types for which the product over the empty range is never looked at otherwise", "anchors": ["library/datastructure/segment_tree/sparse_lazy_segment_tree.hpp: SparseLazySegmentTree::apply_all", "library/datastructure/segment_tree/sparse_lazy_segment_tree.hpp: SparseLazySegmentTree::prod_all"]}
{"id": "C180", "title": "fld/cld_denominators_positive/negative describe exactly the denominators with the given rounded quotient", "statement": "For all n and q of a signed type T and all bounds b, fld_denominators_positive(n, q, b) returns nullopt if no x with 0 < x <= b has floor(n/x) = q, and else {min, max} of these x, where all integers between them are such x as well; likewise for x < 0 with b <= x, and for the ceiling in the cld functions. No call overflows.", "quantifier": "all values of n and q, all bounds, all signed types", "why_tests_cant": "each combination of signs and the special quotients 0, 1 and -1 take separate formulas with truncating division, and overflow only appears near the ends of the type", "anchors": ["library/number/find_denominators.hpp: fld_denominators_positive", "library/number/find_denominators.hpp: fld_denominators_negative", "library/number/find_denominators.hpp: cld_denominators_positive", "library/number/find_denominators.hpp: cld_denominators_negative"]}
{"id": "C181", "title": "SegmentTree2D over a table behaves as that table under any history of calls", "statement": "For a SegmentTree2D constructed from a rectangular table with n rows and m columns (also n = 0 or m = 0, and sizes that are no powers of two) and any history of set, get and operator() with arguments in range, no call has undefined behaviour or fails an assertion, get returns the current value and operator()(u, d, l, r) the product over the rows u..d-1 and the columns l..r-1, for any commutative monoid; a call with arguments out of range fails an assertion.", "quantifier": "all commutative monoids, sizes, tables and histories of calls", "why_tests_cant": "the heap-shaped tree for sizes that are no powers of two has nodes that cover no interval, and an update has to refresh a grid of nodes; all sizes and histories cannot be enumerated", "anchors": ["library/datastructure/segment_tree/segment_tree_2d.hpp: SegmentTree2D"]}
{"id": "C182", "title": "SegmentTree2D(n, m) is a table of n rows and m columns", "statement": "SegmentTree2D(n, m) behaves as a table of n rows and m columns of identities; arguments outside of it fail an assertion.", "quantifier": "all sizes and histories of calls", "why_tests_cant": "answers for arguments in range are right, so only calls with arguments out of range show the difference", "anchors": ["library/datastructure/segment_tree/segment_tree_2d.hpp: SegmentTree2D"]}
{"id": "C183", "title": "StaticRangeModeQuery returns a most frequent value and its frequency for every range", "statement": "For a StaticRangeModeQuery constructed from a non-empty vector a and all 0 <= l < r <= n, query(l, r) returns {x, c} such that x occurs exactly c times in a[l..r) and no value occurs more often; other l, r fail an assertion.", "quantifier": "all non-empty vectors over any totally ordered type and all ranges", "why_tests_cant": "the answer is put together from precomputed blocks and the values left and right of them; which of the cases applies depends on the positions of the ends relative to the blocks of size sqrt(n) and on where the occurrences are", "anchors": ["library/range_query/static_range_mode_query.hpp: StaticRangeModeQuery"]}
{"id": "C184", "title": "StaticRangeModeQuery can be constructed from every vector", "statement": "The constructor has no undefined behaviour for any vector, also the empty one.", "quantifier": "all vectors", "why_tests_cant": "the empty vector divides by zero, which depends on the optimiser to be visible as it only affects a member that is not used", "anchors": ["library/range_query/static_range_mode_query.hpp: StaticRangeModeQuery"]}
{"id": "C185", "title": "PalindromicTree describes exactly the palindromes of the symbols added", "statement": "After any sequence s of calls of add, the nodes from 2 on correspond one to one to the non-empty palindromes occurring in s; get_palindrome, length and first_occurence give the palindrome, its length and the position of its first occurrence; suffix_link is the longest palindrome that is a proper suffix; children and parents relate v and cvc; every add returned the node of the longest palindromic suffix, and node_multiplicity counts how often. No access is out of bounds and all calls terminate.", "quantifier": "all types of symbols with equality, all sequences", "why_tests_cant": "the invariant ties every node to all others: a wrong suffix link only shows for particular later symbols", "anchors": ["library/string/palindromic_tree.hpp: PalindromicTree"]}
{"id": "C186", "title": "frequency_table of PalindromicTree counts occurrences", "statement": "For every node the table holds the number of occurrences, overlapping ones included, of its palindrome in the sequence added.", "quantifier": "all sequences", "why_tests_cant": "the sums go along suffix links of unbounded depth", "anchors": ["library/string/palindromic_tree.hpp: frequency_table"]}
{"id": "C187", "title": "clear() makes a PalindromicTree as good as new", "statement": "After clear() the tree can be used like a new one.", "quantifier": "all sequences added before and after", "why_tests_cant": "the second use must meet a symbol of the first one", "anchors": ["library/string/palindromic_tree.hpp: clear"]}
{"id": "C188", "title": "SuffixAutomaton accepts exactly the words that occur", "statement": "After appending the symbols of any sequence s, accept(t) is true just when t occurs in s, for every t; all calls terminate without out-of-range accesses.", "quantifier": "all types of symbols with equality, all s and t", "why_tests_cant": "cloned states and redirected transitions depend on the whole history of appends", "anchors": ["library/string/suffix_automaton.hpp: SuffixAutomatonBase, append, transition, accept"]}
{"id": "C189", "title": "SuffixAutomaton is minimal: states are classes of end positions", "statement": "transition(t) and transition(t') are the same state just when t and t' end at the same positions of s, and every state is reached by a word.", "quantifier": "all sequences and pairs of words that occur in them", "why_tests_cant": "a missed clone merges words with different occurrences only for particular sequences", "anchors": ["library/string/suffix_automaton.hpp: append, transition"]}
{"id": "C190", "title": "SuffixAutomaton counts occurrences", "statement": "SubstringCounter::count(t) is the number of positions of s at which t begins, 0 for words that do not occur and |s|+1 for the empty word; topological_order lists every state once, in the order of the lengths of the longest words of the states.", "quantifier": "all sequences s and all words t", "why_tests_cant": "the counts are propagated along links in an order computed from the transitions; that one order suits the other is a theorem about breadth-first search", "anchors": ["library/string/suffix_automaton.hpp: SubstringCounter, count, topological_order"]}
{"id": "C191", "title": "SuffixAutomaton enumerates occurrences", "statement": "enumerate_all_occurrence(t) returns the positions at which t begins in s, each exactly once.", "quantifier": "all sequences s and all words t", "why_tests_cant": "overlapping occurrences and clones arise in unboundedly many ways", "anchors": ["library/string/suffix_automaton.hpp: SuffixLinkTree, OccurrenceEnumerator"]}
{"id": "C192", "title": "SuffixAutomaton finds first occurrences", "statement": "first_occurrence(t) is the least position at which t begins in s, or -1 if t does not occur.", "quantifier": "all sequences s of at most 2^31 - 1 symbols and all words t", "why_tests_cant": "the minimum is taken over subtrees of clones only", "anchors": ["library/string/suffix_automaton.hpp: FirstOccurenceSearcher"]}
{"id": "C193", "title": "SuffixAutomaton finds a longest common substring", "statement": "longest_common_substring(t) returns positions a, b and a length m, within the sequences, such that s[a:a+m] = t[b:b+m], and no longer word occurs in both sequences.", "quantifier": "all pairs of sequences, the empty ones included", "why_tests_cant": "maximality ranges over all pairs of positions; the matching state is kept through shortenings along links", "anchors": ["library/string/suffix_automaton.hpp: longest_common_substring"]}
{"id": "C194", "title": "modint ring operations are exact residue arithmetic", "statement": "For static_modint<m> and dynamic_modint with any modulus 1 <= m < 2^31: constructing from any signed or unsigned 64-bit value gives its residue in [0, m), and +, -, *, unary -, ++, --, and pow(n) for n >= 0 on residues return the residue in [0, m) of the exact integer result; pow of a negative exponent stops at the assertion.", "quantifier": "all moduli 1 <= m < 2^31, both kinds, all 64-bit values, all pairs of residues, all exponents", "why_tests_cant": "2^31 moduli and 2^62 operand pairs per modulus; unsigned wraparound and the multiplication without division fail only on rare operands", "anchors": ["library/number/modint.hpp:static_modint", "library/number/modint.hpp:dynamic_modint"]}
{"id": "C195", "title": "Division-free remainder of dynamic_modint is exact", "statement": "For every modulus 1 <= M < 2^32 and every 64-bit c, the remainder computed through the precomputed 128-bit reciprocal equals c mod M; without the special case for M = 1 this holds for every M >= 2.", "quantifier": "all moduli 1 <= M < 2^32 and all c < 2^64", "why_tests_cant": "2^96 pairs; an error in the reciprocal or carry shows only near multiples of M", "anchors": ["library/number/modint.hpp:barrett_K128"]}
{"id": "C196", "title": "modint inverse, division and negative powers", "statement": "For residues a, b modulo m: if a is coprime to m, inv() returns the residue x with a*x = 1 mod m, b / a the residue q with q*a = b, and xpow(-n) the residue whose product with a^n is 1; if a is not coprime to m, inv() and / stop at the assertion. No intermediate value overflows.", "quantifier": "all moduli 1 <= m < 2^31, both kinds, all residues, all 64-bit exponents", "why_tests_cant": "correctness depends on the extended gcd's bounds and on a compile-time primality test for all 2^31 moduli", "anchors": ["library/number/modint.hpp:inv", "library/number/modint.hpp:inv_gcd", "library/number/modint.hpp:is_prime", "library/number/modint.hpp:xpow"]}
{"id": "C197", "title": "mod_sqrt of a modint", "statement": "For a prime modulus p < 2^31 and every residue a, mod_sqrt(a) ends and returns a residue x with x*x = a, or nothing, and then no residue squares to a.", "quantifier": "all primes p < 2^31, both kinds of modint, all residues", "why_tests_cant": "the loop's depth depends on the power of two in p-1 and on the order of a; no finite sample of primes covers it", "anchors": ["library/number/modint.hpp:mod_sqrt"]}
{"id": "C198", "title": "montmort_number counts derangements", "statement": "montmort_number(n) returns n+1 values, the i-th being the number of permutations of i elements without fixed point, in the ring of the values.", "quantifier": "all n >= 0, any field of values", "why_tests_cant": "the sequence is unbounded in n", "anchors": ["library/sequence/montmort_number.hpp:montmort_number"]}
{"id": "C199", "title": "powers lists all k-th powers", "statement": "powers(n, k) returns {0^k, 1^k, ..., n^k} with 0^0 = 1, for every n and every 64-bit k.", "quantifier": "all n, all k < 2^64", "why_tests_cant": "the factorised computation differs from direct powering for every composite index; the exponent range is 2^64", "anchors": ["library/sequence/powers.hpp:powers"]}
{"id": "C200", "title": "Eulerian numbers count permutations by descents", "statement": "eulerian_number(n) returns n values, and row i of eulerian_number_table(n) i values, the k-th being the number of permutations of n (of i) elements with exactly k descents; eulerian_number needs a prime modulus above n+1.", "quantifier": "all n, all primes above n+1", "why_tests_cant": "the two functions use a recurrence and an alternating sum whose equality with the count is a theorem for all n", "anchors": ["library/sequence/eulerian_number.hpp:eulerian_number", "library/sequence/eulerian_number.hpp:eulerian_number_table"]}
{"id": "C201", "title": "Binomial coefficients modulo a small prime", "statement": "BinomialCoefficientSmallPrimeMod::binom(n, r) returns the binomial coefficient modulo the prime modulus for all signed 64-bit n and r, and 0 unless 0 <= r <= n, in every sequence of calls.", "quantifier": "all primes, all n and r, all histories of calls", "why_tests_cant": "correctness for n above the modulus is Lucas's theorem; the shared table makes it depend on the history", "anchors": ["library/sequence/binomial_coefficient_small_prime_mod.hpp:BinomialCoefficientSmallPrimeMod"]}
{"id": "C202", "title": "Segment tree beats applies range updates that may fail on summaries", "statement": "SegmentTreeBeats: after construction from a vector and any history of apply(l, r, f) and prod(l, r), every prod describes exactly the values obtained by applying the maps one by one to each element of their ranges, where mapping may report failure on any summary of at least two values (then the map is pushed to the children); every call terminates.", "quantifier": "all template parameters obeying the stated laws, all sizes, all histories", "why_tests_cant": "failures recurse through all_apply/push/update while ancestors are out of date; which nodes fail depends on the whole history", "anchors": ["library/datastructure/segment_tree/segment_tree_beats.hpp:SegmentTreeBeats", "library/datastructure/segment_tree/lazy_segment_tree.hpp:all_apply", "library/datastructure/segment_tree/lazy_segment_tree.hpp:apply", "library/datastructure/segment_tree/lazy_segment_tree.hpp:operator()"]}
{"id": "C203", "title": "Range chmin, chmax, assign, add with sum, min and max", "statement": "RangeChMinMaxAddRangeSum: after any history of chmin, chmax, update and add whose values stay strictly between -inf and inf, max, min and sum return the maximum, minimum and sum of the current values in [l, r), and prod also returns the second largest and second smallest distinct values and the numbers of occurrences of the extrema.", "quantifier": "all initial vectors, all histories", "why_tests_cant": "the summaries are only updated lazily and only when the update keeps the number of distinct values; errors show for special value patterns", "anchors": ["library/range_query/range_chmin_chmax_add_range_sum.hpp:RangeChMinMaxAddRangeSum", "library/range_query/range_chmin_chmax_add_range_sum.hpp:mapping", "library/range_query/range_chmin_chmax_add_range_sum.hpp:composition", "library/range_query/range_chmin_chmax_add_range_sum.hpp:op"]}
{"id": "C204", "title": "CSR graphs are families of independent bounded lists", "statement": "Graph: a graph made from a list of directed or undirected edges (or from adjacency lists) has for every vertex the list of its arcs in the order of the input; after any history of reads, assignments, erase, pop_back, clear, push_back, insert, emplace, shrink_to_fit, copies and moves on the lists every call has the result it has on separate lists, so that changing one list never disturbs another; reversed() gives the graph of the reversed arcs.", "quantifier": "all edge lists, capacities and histories", "why_tests_cant": "all lists share one array, so that a shift or an offset which is off by one shows only for particular neighbouring lists and histories", "anchors": ["library/graph/csr_graph.hpp:Graph", "library/graph/csr_graph.hpp:AdjacentList", "library/graph/csr_graph.hpp:shrink_to_fit", "library/graph/csr_graph.hpp:reversed"]}
{"id": "C205", "title": "The capacity argument of CSR graphs reserves room for further edges", "statement": "Graph(n, edges, tag, cap): after construction up to cap[i] edges can be stored in the list of i, so that push_back succeeds while the list is shorter than cap[i]; otherwise it fails in its assertion.", "quantifier": "all edge lists, capacities and histories", "why_tests_cant": "the capacity is computed from degrees and arguments for every vertex", "anchors": ["library/graph/csr_graph.hpp:Graph", "library/graph/csr_graph.hpp:push_back"]}
{"id": "C206", "title": "Copied and moved CSR graphs are self-contained", "statement": "A graph that was copied or moved from another one can be used in every way after the other is destroyed: all calls on its lists and shrink_to_fit behave as on the original.", "quantifier": "all graphs, all histories after the copy", "why_tests_cant": "the lists keep pointers to the graph they were made in; the error is a read of freed memory, which may go unnoticed", "anchors": ["library/graph/csr_graph.hpp:operator[]", "library/graph/csr_graph.hpp:shrink_to_fit", "library/graph/csr_graph.hpp:dfs_tree"]}
{"id": "C207", "title": "Transposition and rotation of matrices", "statement": "transpose(A) and rot90(A) of a rectangular matrix with n > 0 rows and m columns return a matrix with m rows and n columns; entry (j, i) of the transpose is entry (i, j) of A, and rot90 turns A anticlockwise (the last column becomes the first row). Two transpositions and four rotations give A back if n, m > 0.", "quantifier": "all rectangular matrices", "why_tests_cant": "holds for every shape and every entry; mistakes in the index m - j - 1 may cancel for square or symmetric samples", "anchors": ["library/util/transpose.hpp:transpose", "library/util/rot90.hpp:rot90"]}
{"id": "C208", "title": "Depth-first search trees of CSR graphs", "statement": "Graph::dfs_tree(start), on a graph all of whose targets are vertices: terminates; the first vertex visited is start, a root; pre_ord and pst_ord list every vertex once; every vertex is a root (parent -1) or has exactly one tree arc, which is an arc of the graph from its parent; parents come before their children in pre_ord and after them in pst_ord; arcs of back lead to an ancestor or are loops; and the arcs of every vertex, with multiplicities, are its tree arcs, its back arcs, exactly one arc to the parent with the weight of the tree arc if it has one, and arcs to vertices completed earlier. So in undirected graphs parallel edges to the parent are back arcs and the tree edge itself is not.", "quantifier": "all graphs and histories, all start vertices, weighted or not", "why_tests_cant": "the classification depends on the state of all vertices on the path, on weights and on the multiplicity of edges; a wrong treatment of the edge to the parent shows only in multigraphs", "anchors": ["library/graph/csr_graph.hpp:dfs_tree", "library/graph/csr_graph.hpp:DFSTree"]}
{"id": "C209", "title": "Counting pairs by their sum", "statement": "sum_count, sum_count_leq, sum_count_lt, sum_count_geq, sum_count_gt return the number of pairs (a, b) with min_a <= a <= max_a, min_b <= b <= max_b whose sum is equal to, at most, less than, at least, greater than the given value, for all arguments (also empty ranges) for which they do not overflow; sum_count and sum_count_leq do not overflow if 64 times the square of the arguments fits into the type of the result.", "quantifier": "all arguments, all integer types", "why_tests_cant": "the closed form has several cases by the relative position of five numbers", "anchors": ["library/util/sum_count.hpp:sum_count", "library/util/sum_count.hpp:sum_count_leq", "library/util/sum_count.hpp:sum_count_lt", "library/util/sum_count.hpp:sum_count_geq", "library/util/sum_count.hpp:sum_count_gt"]}
{"id": "C210", "title": "The counting functions compute in the type of the result", "statement": "sum_count_lt<T, R>, sum_count_geq<T, R> and sum_count_gt<T, R> return the right number whenever it is small enough for computations in R, as sum_count_leq<T, R> does.", "quantifier": "all arguments, all integer types T and R", "why_tests_cant": "overflow occurs only for large arguments and wraps silently", "anchors": ["library/util/sum_count.hpp:sum_count_lt", "library/util/sum_count.hpp:sum_count_geq", "library/util/sum_count.hpp:sum_count_gt"]}
{"id": "C211", "title": "Composition of clamped affine functions", "statement": "AffineClamp: f(x) is a x + b moved into [l, r], without overflow; compose(f, g) is the function f(g(x)) for all x, for slopes of any sign; id() is neutral.", "quantifier": "all functions with l <= r, all arguments", "why_tests_cant": "the range of the composition depends on the order of four values and on signs; intermediate results exceed the type", "anchors": ["library/algebra/monoid/affine_clamp.hpp:AffineClamp", "library/algebra/monoid/affine_clamp.hpp:compose", "library/algebra/monoid/affine.hpp:Affine"]}
{"id": "C212", "title": "default_vector is an infinite sequence", "statement": "default_vector, after set_default_value: after any history of reads, writes, resize and further calls of set_default_value, with indices that are not negative, a read of any index returns the element last written there, else the initial one, else the default value; a read or write through operator[] of a vector that is not const makes it longer; set_default_value changes exactly the elements beyond the size.", "quantifier": "all initial vectors, all histories", "why_tests_cant": "the value beyond the end depends on the history of sizes and default values", "anchors": ["library/util/default_vector.hpp:default_vector"]}
{"id": "C213", "title": "default_vector needs no initialisation", "statement": "default_vector: elements beyond the end have a definite value from the construction on, and negative indices are out of bounds like large ones.", "quantifier": "all vectors, all indices", "why_tests_cant": "reads of indeterminate values and of memory before the vector often go unnoticed", "anchors": ["library/util/default_vector.hpp:default_vector", "library/util/default_vector.hpp:default_value"]}
{"id": "C214", "title": "Numbers of walks", "statement": "random_walk_1d(n, x) is the number of sequences of n steps +1 or -1 with sum x, and random_walk_2d(n, x, y) the number of walks of n steps to one of the four neighbours from the origin to (x, y), modulo the prime modulus; in every history of calls, also for end points that are too far away or have the wrong parity; the variants that take the binomial coefficients as a function agree.", "quantifier": "all n >= 0, all x and y such that the sums fit an int, all primes", "why_tests_cant": "the counts grow exponentially and cannot be enumerated", "anchors": ["library/math/util.hpp:random_walk_1d", "library/math/util.hpp:random_walk_2d"]}
{"id": "C215", "title": "Naive convolution", "statement": "convolution_naive(a, b) returns the coefficients of the product of two polynomials, for vectors of any length, over any commutative semiring.", "quantifier": "all vectors", "why_tests_cant": "both loop orders and all lengths, including empty vectors, must agree", "anchors": ["library/convolution/convolution_naive.hpp:convolution_naive"]}
{"id": "C216", "title": "Natural numbers of any size", "statement": "unsigned_bigint: construction from integers, ++, --, +, -, shifts by digits, comparison and the conversion to bool agree with the natural numbers, without overflow of any digit; results below zero fail an assertion.", "quantifier": "all numbers", "why_tests_cant": "carries and borrows can run through any number of digits", "anchors": ["library/math/unsigned_bigint.hpp:_add_assign", "library/math/unsigned_bigint.hpp:_sub_assign", "library/math/unsigned_bigint.hpp:_incr_assign", "library/math/unsigned_bigint.hpp:_decr_assign", "library/math/unsigned_bigint.hpp:operator<"]}
{"id": "C217", "title": "Products of natural numbers of any size", "statement": "unsigned_bigint: a * b is the product of a and b.", "quantifier": "all numbers", "why_tests_cant": "the algorithm depends on the sizes, and its special cases on the values of the halves", "anchors": ["library/math/unsigned_bigint.hpp:_mul_naive", "library/math/unsigned_bigint.hpp:_mul_karatsuba", "library/math/unsigned_bigint.hpp:_mul_fft"]}
{"id": "C218", "title": "Natural numbers from strings", "statement": "unsigned_bigint(s), for a string of decimal digits, is the number that s denotes: it is equal to the same number constructed from an integer.", "quantifier": "all strings of digits", "why_tests_cant": "strings can have leading zeros, and any length modulo nine", "anchors": ["library/math/unsigned_bigint.hpp:unsigned_bigint"]}
{"id": "C219", "title": "Quotients of natural numbers of any size", "statement": "unsigned_bigint: for b not zero, divmod(a, b) returns the quotient and the remainder of a by b, in canonical form; division by zero fails an assertion.", "quantifier": "all numbers", "why_tests_cant": "the estimates of the digits are corrected only in rare cases", "anchors": ["library/math/unsigned_bigint.hpp:divmod", "library/math/unsigned_bigint.hpp:_divmod_naive", "library/math/unsigned_bigint.hpp:_divmod_int"]}
{"id": "C220", "title": "Natural numbers to strings and integers", "statement": "unsigned_bigint: the string of a number is its decimal representation without leading zeros; the number constructed from that string is equal to the number; the conversion to an unsigned integer type is the value modulo the range of the type.", "quantifier": "all numbers", "why_tests_cant": "inner digits need padding, which depends on their values", "anchors": ["library/math/unsigned_bigint.hpp:_to_string", "library/math/unsigned_bigint.hpp:CAST_PRIMITIVE"]}
