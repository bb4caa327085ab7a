{
 "claims": [
  {
   "property": "C01",
   "status": "proved",
   "theorems": [
    "UnionFind.unionFind_correct",
    "UnionFind.unionFind_root_canonical"
   ],
   "note": "All histories of merge/root/same/size/groups; safety and termination included."
  },
  {
   "property": "C02",
   "status": "proved",
   "theorems": [
    "UnionFind.unionFind_correct"
   ],
   "note": "size and groups clauses of Ans."
  },
  {
   "property": "C03",
   "status": "proved",
   "theorems": [
    "UndoUnionFind.undoUnionFind_correct",
    "UndoUnionFind.undo_merge_restores"
   ],
   "note": "All histories; state restoration bit for bit."
  },
  {
   "property": "C04",
   "status": "proved",
   "theorems": [
    "WeightedUnionFind.weightedUnionFind_correct",
    "WeightedUnionFind.diff_unconnected"
   ],
   "note": "Any group."
  },
  {
   "property": "C05",
   "status": "proved",
   "theorems": [
    "FenwickTree.fenwickTree_correct",
    "FenwickTree.fenwickTree_ofVector_correct"
   ],
   "note": "Any abelian group."
  },
  {
   "property": "C06",
   "status": "proved",
   "theorems": [
    "FenwickTreeSet.fenwickTreeSet_correct",
    "FenwickTreeSet.fenwickTreeSet_ofValues",
    "FenwickTreeSet.fenwickTreeSet_full",
    "FenwickTreeSet.fenwickTreeSet_ofSeq"
   ],
   "note": "Every constructor and history; 64-bit words as natural numbers below 2^64."
  },
  {
   "property": "C07",
   "status": "partial",
   "theorems": [
    "FenwickTreePrefix.fenwickTreePrefix_correct",
    "FenwickTreePrefix.vectorCtor_incorrect",
    "FenwickTreePrefix.vectorCtor_partial"
   ],
   "note": "The size constructor is right; the vector constructor is proved wrong for n=4 (vectorCtor_incorrect) and right for n<4 (vectorCtor_partial)."
  },
  {
   "property": "C08",
   "status": "proved",
   "theorems": [
    "FenwickTree2D.fenwickTree2D_correct"
   ],
   "note": ""
  },
  {
   "property": "C09",
   "status": "proved",
   "theorems": [
    "SegmentTree.segmentTree_correct",
    "SegmentTree.segmentTree_sized_correct"
   ],
   "note": "Any monoid; also prefix_prod, suffix_prod, build."
  },
  {
   "property": "C10",
   "status": "proved",
   "theorems": [
    "SegmentTree.segmentTree_correct",
    "SegmentTree.segmentTree_sized_correct"
   ],
   "note": "IsMaxRight / IsMinLeft clauses; `e` read as `e()` (see DESIGN findings)."
  },
  {
   "property": "C11",
   "status": "proved",
   "theorems": [
    "LazySegmentTree.lazySegmentTree_correct"
   ],
   "note": "Any monoid T, monoid F acting on T distributively; apply, point apply, set/modify, prod, get, all_prod."
  },
  {
   "property": "C12",
   "status": "proved",
   "theorems": [
    "DualSegmentTree.dualSegmentTree_correct",
    "DualSegmentTree.commutativeDualSegmentTree_correct"
   ],
   "note": "Any monoid acting on any type; commutative monoid for the commutative variant."
  },
  {
   "property": "C13",
   "status": "proved",
   "theorems": [
    "SparseTable.sparseTable_correct",
    "SparseTable.sparseTable_empty"
   ],
   "note": "Any idempotent monoid, non-empty vectors; the empty vector is undefined behaviour (clz(0)), proved as well."
  },
  {
   "property": "C14",
   "status": "proved",
   "theorems": [
    "QueueAggregation.queueAggregation_correct"
   ],
   "note": ""
  },
  {
   "property": "C15",
   "status": "proved",
   "theorems": [
    "DequeAggregation.dequeAggregation_correct"
   ],
   "note": "Any monoid."
  },
  {
   "property": "C16",
   "status": "proved",
   "theorems": [
    "RangeSet.rangeSet_correct",
    "RangeSet.decomposes_unique"
   ],
   "note": "Both variants (merge_adjacent_segment true/false); T modelled as unbounded integers; in_the_same_range cannot be instantiated (calls a function that does not exist)."
  },
  {
   "property": "C17",
   "status": "partial",
   "theorems": [
    "BinaryHeap.binaryHeap_partial",
    "BinaryHeap.pop_last_undefined"
   ],
   "note": "Everything except pop on a heap with exactly one element, which is undefined behaviour in the code (proved)."
  },
  {
   "property": "C18",
   "status": "proved",
   "theorems": [
    "IntervalHeap.intervalHeap_correct"
   ],
   "note": "Any strict weak order."
  },
  {
   "property": "C19",
   "status": "proved",
   "theorems": [
    "SlidingWindowMinimum.slidingWindow_leftMostMin",
    "SlidingWindowMinimum.slidingWindow_rightMostMin",
    "SlidingWindowMinimum.slidingWindow_leftMostMax",
    "SlidingWindowMinimum.slidingWindow_rightMostMax"
   ],
   "note": "All four prioritizing modes over any linear order and any valid sequence of window moves and queries."
  },
  {
   "property": "C20",
   "status": "proved",
   "theorems": [
    "ExtGcd.extGcd_correct"
   ],
   "note": "All long long arguments but LLONG_MIN, with every operation range checked."
  },
  {
   "property": "C21",
   "status": "proved",
   "theorems": [
    "ExtGcd.invMod_correct",
    "ExtGcd.invMod_aborts",
    "ExtGcd.gcdInv_correct"
   ],
   "note": "Range-checked long long arithmetic."
  },
  {
   "property": "C22",
   "status": "proved",
   "theorems": [
    "Garner.garner_correct"
   ],
   "note": "Range-checked; existence and uniqueness of the solution are part of the statement."
  },
  {
   "property": "C23",
   "status": "proved",
   "theorems": [
    "Barrett.barrett_correct",
    "Barrett.barrett_correct_careless",
    "Barrett.barrett_mul_correct"
   ],
   "note": "Larger moduli are accepted by the constructor but wrong (barrett_large_wrong)."
  },
  {
   "property": "C24",
   "status": "partial",
   "theorems": [
    "Montgomery.montgomery_partial"
   ],
   "note": "Proved for N < R/2 and sub without borrow, for every word size; the missing rest is false: montgomery_sub_wrong, montgomery_large_wrong, montgomery_large_mul_wrong."
  },
  {
   "property": "C25",
   "status": "proved",
   "theorems": [
    "Modint61.modint61_correct",
    "Modint61.modint61_make",
    "Modint61.modint61_pow",
    "Modint61.modint61_inv"
   ],
   "note": "64-bit wrap-around; primality of 2^61-1 by Lucas-Lehmer."
  },
  {
   "property": "C26",
   "status": "proved",
   "theorems": [
    "Powi.powi_correct",
    "Powi.powi_i64"
   ],
   "note": "Every monoid; signed 64-bit version range checked."
  },
  {
   "property": "C27",
   "status": "partial",
   "theorems": [
    "NumberUtil.factorize_longlong_partial",
    "NumberUtil.factorize_int_partial",
    "NumberUtil.factorize_nonpos"
   ],
   "note": "Proved for n < (2^31-30030)^2 (long long) and n < 30047^2 (int); beyond, the property is false: factorize_longlong_wrong, factorize_int_wrong."
  },
  {
   "property": "C28",
   "status": "proved",
   "theorems": [
    "NumberUtil.divisors_correct",
    "NumberUtil.divisors_longlong",
    "NumberUtil.divisors_int",
    "NumberUtil.divisorsTable_correct"
   ],
   "note": "Range of n as for factorize (C27)."
  },
  {
   "property": "C29",
   "status": "proved",
   "theorems": [
    "NumberUtil.totient_correct",
    "NumberUtil.totient_longlong",
    "NumberUtil.totientTable_correct"
   ],
   "note": "Products range checked; totient_overflow shows that the condition on the squares is needed."
  },
  {
   "property": "C30",
   "status": "proved",
   "theorems": [
    "LinearSieve.linearSieve_correct"
   ],
   "note": "All n."
  },
  {
   "property": "C31",
   "status": "proved",
   "theorems": [
    "TransformProps.subset_zeta",
    "TransformProps.supset_zeta",
    "TransformProps.subset_mobius_zeta",
    "TransformProps.subset_zeta_mobius",
    "TransformProps.supset_mobius_zeta",
    "TransformProps.supset_zeta_mobius"
   ],
   "note": "Any abelian group, any k."
  },
  {
   "property": "C32",
   "status": "proved",
   "theorems": [
    "TransformProps.or_convolution",
    "TransformProps.and_convolution"
   ],
   "note": "Any ring, any k."
  },
  {
   "property": "C33",
   "status": "proved",
   "theorems": [
    "TransformProps.xor_convolution",
    "TransformProps.walsh_hadamard",
    "TransformProps.walsh_hadamard_inv",
    "TransformProps.xor_convolution_int",
    "TransformProps.walsh_hadamard_inv_int"
   ],
   "note": "Any ring in which inv inverts the length; mathematical integers for the integral overload."
  },
  {
   "property": "C34",
   "status": "proved",
   "theorems": [
    "TransformProps.divisor_zeta",
    "TransformProps.multiple_zeta",
    "TransformProps.divisor_mobius_zeta",
    "TransformProps.divisor_zeta_mobius",
    "TransformProps.multiple_mobius_zeta",
    "TransformProps.multiple_zeta_mobius",
    "TransformProps.gcd_convolution",
    "TransformProps.lcm_convolution"
   ],
   "note": "All lengths, any abelian group / ring."
  },
  {
   "property": "C35",
   "status": "proved",
   "theorems": [
    "TransformProps.subset_convolution",
    "TransformProps.subset_convolution_empty"
   ],
   "note": "All k; the empty vector is undefined behaviour and shown to be so."
  },
  {
   "property": "C36",
   "status": "proved",
   "theorems": [
    "UtilProps.compressor_comp",
    "UtilProps.rank_lt",
    "UtilProps.compressor_index",
    "UtilProps.compressor_neighbour"
   ],
   "note": ""
  },
  {
   "property": "C37",
   "status": "proved",
   "theorems": [
    "UtilProps.run_length",
    "UtilProps.runs_unique",
    "UtilProps.clear_length_finding",
    "UtilProps.swap_length_finding"
   ],
   "note": "clear and swap leave length() wrong; pop_back does not compile"
  },
  {
   "property": "C38",
   "status": "proved",
   "theorems": [
    "UtilProps.permutation_permute",
    "UtilProps.permutation_mul",
    "UtilProps.permutation_inv",
    "UtilProps.permutation_pow",
    "UtilProps.permutation_unhash_hash",
    "UtilProps.permutation_hash_unhash",
    "UtilProps.permutation_pow_overflow_finding"
   ],
   "note": "pow overflows for k near the maximum of long long"
  },
  {
   "property": "C39",
   "status": "proved",
   "theorems": [
    "UtilProps.binary_search_boundary",
    "UtilProps.binary_search_exponential_boundary",
    "UtilProps.binary_search_overflow_finding",
    "UtilProps.binary_search_exponential_overflow_finding"
   ],
   "note": "the overflow conditions are necessary: see the finding theorems"
  },
  {
   "property": "C40",
   "status": "proved",
   "theorems": [
    "UtilProps.cumulative_sum",
    "UtilProps.cumulative_sum_2d",
    "UtilProps.cumulative_default_finding"
   ],
   "note": "a default-initialised CumulativeSum is undefined on push_back"
  },
  {
   "property": "C41",
   "status": "proved",
   "theorems": [
    "UtilProps.all_subset",
    "UtilProps.all_setbit",
    "UtilProps.all_subset_k",
    "UtilProps.all_subset_full_finding",
    "UtilProps.all_subset_k_shift_finding"
   ],
   "note": "full mask and the k = 1 corner are excluded; proved to fail"
  },
  {
   "property": "C42",
   "status": "proved",
   "theorems": [
    "StringProps.mp_table",
    "StringProps.mp_matcher_string",
    "StringProps.mp_matcher_vector_partial",
    "StringProps.mp_all_periods",
    "StringProps.mp_min_period"
   ],
   "note": "std::vector patterns only partially: the code reads past the end after an occurrence (finding)."
  },
  {
   "property": "C43",
   "status": "proved",
   "theorems": [
    "StringProps.manacher_correct"
   ],
   "note": ""
  },
  {
   "property": "C44",
   "status": "proved",
   "theorems": [
    "StringProps.trie_map",
    "StringProps.trie_array"
   ],
   "note": ""
  },
  {
   "property": "C45",
   "status": "proved",
   "theorems": [
    "GraphProps.topological_sort_order",
    "GraphProps.topological_sort_complete"
   ],
   "note": "All digraphs with loops and multi-edges."
  },
  {
   "property": "C46",
   "status": "proved",
   "theorems": [
    "GraphProps.bfs_distance",
    "GraphProps.bfs_add_edges"
   ],
   "note": "Least number of edges of a walk or -1; vertex counts unbounded."
  },
  {
   "property": "C47",
   "status": "proved",
   "theorems": [
    "GraphProps.dijkstra_correct"
   ],
   "note": "long long costs with overflow modelled; the priority queue is the sorted list of its elements."
  },
  {
   "property": "C48",
   "status": "proved",
   "theorems": [
    "GraphProps.bipartite_coloring"
   ],
   "note": "Proper 2-colouring iff one exists."
  },
  {
   "property": "C49",
   "status": "proved",
   "theorems": [
    "BinaryTrieProps.trie_refines"
   ],
   "note": "Every history of calls; the excluded calls are C81 and C82."
  },
  {
   "property": "C50",
   "status": "proved",
   "theorems": [
    "RedBlackProps.rb_observe",
    "RedBlackProps.rb_progress",
    "RedBlackProps.rb_values",
    "RedBlackProps.rb_build"
   ],
   "note": "All four classes. Trees are values (each node belongs to one tree); the object pool is not modelled here. set() does not compile and is left out."
  },
  {
   "property": "C51",
   "status": "proved",
   "theorems": [
    "XorBaseProps.xor_base_indep",
    "XorBaseProps.xor_base_make",
    "XorBaseProps.xor_base_add",
    "XorBaseProps.xor_base_plus",
    "XorBaseProps.xor_base_plusValue",
    "XorBaseProps.xor_base_intersection",
    "XorBaseProps.xor_base_dim"
   ],
   "note": "Unsigned values; for signed types negative values are outside the model."
  },
  {
   "property": "C52",
   "status": "proved",
   "theorems": [
    "GaussProps.gauss_describes",
    "GaussProps.gauss_describes_f2",
    "GaussProps.gauss_f2_ops",
    "GaussProps.gauss_no_rows"
   ],
   "note": "exact element types; floating point with its 1e-9 threshold is not modelled"
  },
  {
   "property": "C53",
   "status": "proved",
   "theorems": [
    "AlgorithmProps.longest_increasing",
    "AlgorithmProps.longest_nondecreasing",
    "AlgorithmProps.longest_nonincreasing",
    "AlgorithmProps.longest_decreasing"
   ],
   "note": "std::lower_bound by its contract."
  },
  {
   "property": "C54",
   "status": "proved",
   "theorems": [
    "AlgorithmProps.number_of_subsequences"
   ],
   "note": "std::sort by its contract; result type a commutative ring (modint, unsigned)."
  },
  {
   "property": "C55",
   "status": "proved",
   "theorems": [
    "SternBrocotProps.sbt_tree",
    "SternBrocotProps.sbt_make",
    "SternBrocotProps.sbt_make_asserts",
    "SternBrocotProps.sbt_of_path",
    "SternBrocotProps.sbt_round_trip",
    "SternBrocotProps.sbt_range",
    "SternBrocotProps.sbt_move_down",
    "SternBrocotProps.sbt_move_up",
    "SternBrocotProps.sbt_lca",
    "SternBrocotProps.sbt_dist",
    "SternBrocotProps.sbt_dist_overflow",
    "SternBrocotProps.sbt_is_ancestor_of",
    "SternBrocotProps.sbt_move_to",
    "SternBrocotProps.sbt_eq",
    "SternBrocotProps.sbt_lt",
    "SternBrocotProps.sbt_orders"
   ],
   "note": "auxiliary_tree is not modelled."
  },
  {
   "property": "C56",
   "status": "proved",
   "theorems": [
    "WaveletMatrixProps.bv_rank",
    "WaveletMatrixProps.wm_make",
    "WaveletMatrixProps.wm_access",
    "WaveletMatrixProps.wm_rank",
    "WaveletMatrixProps.wm_range_kth",
    "WaveletMatrixProps.wm_range_freq",
    "WaveletMatrixProps.wm_range_order",
    "WaveletMatrixProps.wm_default_bits_undefined"
   ],
   "note": "Unsigned (or non-negative) values below 2^bit_num."
  },
  {
   "property": "C57",
   "status": "proved",
   "theorems": [
    "AlgorithmProps.maximum_rectangle",
    "AlgorithmProps.maximum_square",
    "AlgorithmProps.maximal_rectangles",
    "AlgorithmProps.maximal_rectangles_finding"
   ],
   "note": "Callbacks are state transformers."
  },
  {
   "property": "C58",
   "status": "proved",
   "theorems": [
    "AlgorithmProps.monotone_minima",
    "AlgorithmProps.monotone_minima_compare",
    "AlgorithmProps.totally_monotone",
    "AlgorithmProps.monotone_minima_no_columns"
   ],
   "note": ""
  },
  {
   "property": "C59",
   "status": "proved",
   "theorems": [
    "QuotientProps.floor_kth_root",
    "QuotientProps.ceil_kth_root",
    "QuotientProps.sqrtl_exact",
    "QuotientProps.powl_compare_exact",
    "QuotientProps.floor_kth_root_high_guess"
   ],
   "note": "The floating-point library functions enter by the stated rounding contract."
  },
  {
   "property": "C60",
   "status": "proved",
   "theorems": [
    "QuotientProps.enumerate_quotients",
    "QuotientProps.foreach_quotients",
    "QuotientProps.quotient_num",
    "QuotientProps.quotient_ranges",
    "QuotientProps.multiple_quotients_ranges",
    "QuotientProps.double_division_exact",
    "QuotientProps.foreach_quotients_overflow",
    "QuotientProps.multiple_quotients_empty_finding",
    "QuotientProps.multiple_quotients_max_finding"
   ],
   "note": ""
  },
  {
   "property": "C61",
   "status": "proved",
   "theorems": [
    "LinkedUnionFind.linkedUnionFind_correct"
   ],
   "note": ""
  },
  {
   "property": "C62",
   "status": "proved",
   "theorems": [
    "UnionFindComponentSum.unionFindComponentSum_correct"
   ],
   "note": "Moved-from values arbitrary."
  },
  {
   "property": "C63",
   "status": "proved",
   "theorems": [
    "UndoUnionFindComponentSum.undoUnionFindComponentSum_correct"
   ],
   "note": ""
  },
  {
   "property": "C64",
   "status": "partial",
   "theorems": [
    "LazySegmentTree.lazySegmentTree_correct",
    "LazySegmentTree.minLeft_undefined",
    "LazySegmentTree.suffixProd_aborts"
   ],
   "note": "prefix_prod and max_right hold everywhere; min_left(n,g) is proved to read out of bounds when n is a power of two >= 2, suffix_prod to abort when n is not a power of two; the remaining cases are proved in lazySegmentTree_correct."
  },
  {
   "property": "C65",
   "status": "proved",
   "theorems": [
    "Depq.depq_correct"
   ],
   "note": "Any linear order; std heap functions by contract, nth_element any function with the guarantees of the standard."
  },
  {
   "property": "C66",
   "status": "proved",
   "theorems": [
    "NumberUtil.carmichael_correct",
    "NumberUtil.carmichael_longlong"
   ],
   "note": "std::lcm as the mathematical lcm (its result divides the totient)."
  },
  {
   "property": "C67",
   "status": "proved",
   "theorems": [
    "TransformProps.kronecker_power_transform"
   ],
   "note": "Matrix overload; the unit-transform overloads through C31 and C33."
  },
  {
   "property": "C68",
   "status": "proved",
   "theorems": [
    "UtilProps.ternary_search_convex",
    "UtilProps.ternary_search_concave",
    "UtilProps.ternary_search_overflow_finding"
   ],
   "note": ""
  },
  {
   "property": "C69",
   "status": "proved",
   "theorems": [
    "UtilProps.step_sum",
    "UtilProps.step_sum_finding"
   ],
   "note": "the exclusion size <= k is necessary: step_sum_finding"
  },
  {
   "property": "C70",
   "status": "proved",
   "theorems": [
    "StringProps.aho_corasick",
    "StringProps.aho_corasick_needs_build"
   ],
   "note": "Empty words and repeated builds are findings."
  },
  {
   "property": "C71",
   "status": "proved",
   "theorems": [
    "StringProps.aho_corasick_array"
   ],
   "note": "Repeated builds are a finding."
  },
  {
   "property": "C72",
   "status": "proved",
   "theorems": [
    "GraphProps.connected_components"
   ],
   "note": "Undirected graphs."
  },
  {
   "property": "C73",
   "status": "proved",
   "theorems": [
    "GraphProps.bfs01_distance"
   ],
   "note": "int overflow modelled."
  },
  {
   "property": "C74",
   "status": "proved",
   "theorems": [
    "GraphProps.sssp_dag"
   ],
   "note": "long long weights with overflow modelled; the CSR graph is its adjacency lists."
  },
  {
   "property": "C75",
   "status": "proved",
   "theorems": [
    "GraphProps.remove_multiedges"
   ],
   "note": "First occurrences in order."
  },
  {
   "property": "C76",
   "status": "proved",
   "theorems": [
    "AlgorithmProps.inversion_number"
   ],
   "note": "AtCoder fenwick_tree by its contract."
  },
  {
   "property": "C77",
   "status": "partial",
   "theorems": [
    "GaussProps.gauss_f2_bitset_partial",
    "GaussProps.gauss_f2_bitset_complete",
    "GaussProps.gauss_f2_bitset_incomplete",
    "GaussProps.gauss_f2_normalized_asserts"
   ],
   "note": "false for wide systems of full row rank (gauss_f2_bitset_incomplete); gauss_f2_bitset_partial characterises the span exactly"
  },
  {
   "property": "C78",
   "status": "partial",
   "theorems": [
    "WaveletMatrixProps.wm_range_xor_kth_partial",
    "WaveletMatrixProps.wm_range_xor_wrong",
    "WaveletMatrixProps.wm_range_xor_freq",
    "WaveletMatrixProps.wm_range_xor_order"
   ],
   "note": "range_xor_kth_smallest and range_xor_min return v instead of x ^ v: negation proved by wm_range_xor_wrong; the partial theorem gives the exact result."
  },
  {
   "property": "C79",
   "status": "partial",
   "theorems": [
    "WaveletMatrixProps.bv_select_partial",
    "WaveletMatrixProps.bv_select_off_by_one"
   ],
   "note": "Off by one: negation proved; the partial theorem gives the exact result."
  },
  {
   "property": "C80",
   "status": "partial",
   "theorems": [
    "CompressedWaveletProps.cwm_access_rank",
    "CompressedWaveletProps.cwm_range_kth",
    "CompressedWaveletProps.cwm_range_freq",
    "CompressedWaveletProps.cwm_range_min_max",
    "CompressedWaveletProps.cwm_range_order",
    "CompressedWaveletProps.cwm_max_leq_partial",
    "CompressedWaveletProps.cwm_max_leq_wrong"
   ],
   "note": "All queries proved except range_max_leq, which is wrong in the code: negation proved by cwm_max_leq_wrong."
  },
  {
   "property": "C81",
   "status": "partial",
   "theorems": [
    "BinaryTrieProps.xor_count_leq_partial",
    "BinaryTrieProps.xor_count_leq_wrong"
   ],
   "note": "The code adds count(val) instead of count(x ^ val): exact result and negation proved; right for x = 0 (C49)."
  },
  {
   "property": "C82",
   "status": "partial",
   "theorems": [
    "BinaryTrieProps.trie_max_partial",
    "BinaryTrieProps.trie_max_wrong"
   ],
   "note": "max() returns the complement of the greatest element: exact result and negation proved."
  },
  {
   "property": "C83",
   "status": "partial",
   "theorems": [
    "RedBlackProps.rb_prod_partial",
    "RedBlackProps.rb_range_updates",
    "RedBlackProps.rb_reverse_noncommutative"
   ],
   "note": "Proved for monoids that are commutative whenever the tree is reversible; false for a non-commutative monoid with reverse (counterexample proved)."
  },
  {
   "property": "C84",
   "status": "partial",
   "theorems": [
    "RedBlackHeapProps.persistent_versions_partial",
    "RedBlackHeapProps.persistent_plain_push_back",
    "RedBlackHeapProps.persistent_plain_split",
    "RedBlackHeapProps.persistent_update_value_writes",
    "RedBlackHeapProps.persistent_erase_frees"
   ],
   "note": "False in the plain and segment tree classes and for update_value and erase of the lazy class (counterexamples proved). Proved for the other operations of the lazy class, without range updates."
  },
  {
   "property": "C85",
   "status": "partial",
   "theorems": [
    "PersistentArrayProps.persistentArray_versions_partial",
    "PersistentArrayProps.persistentArray_immutable_partial",
    "PersistentArrayProps.persistentArray_dump_wrong",
    "PersistentArrayProps.persistentArray_clone_shares"
   ],
   "note": "proved for construction, get, set, clone, mut_set over all histories; dump violates the property (witness)"
  },
  {
   "property": "C86",
   "status": "partial",
   "theorems": [
    "PersistentUnionFindProps.persistentUnionFind_linear_partial",
    "PersistentUnionFindProps.persistentUnionFind_old_version_wrong"
   ],
   "note": "proved when each call is made on the newest version; false for older versions (witness)"
  },
  {
   "property": "C87",
   "status": "partial",
   "theorems": [
    "HornSATProps.hornSAT_sound",
    "HornSATProps.hornSAT_complete_partial",
    "HornSATProps.hornSAT_add",
    "HornSATProps.hornSAT_incomplete"
   ],
   "note": "soundness proved for all histories; completeness is false of the code (witness hornSAT_incomplete), proved when no variable forced false by a clause occurs on a left-hand side"
  },
  {
   "property": "C88",
   "status": "partial",
   "theorems": [
    "FunctionalGraphProps.doubling_query_partial",
    "FunctionalGraphProps.doubling_max_step_partial",
    "FunctionalGraphProps.doubling_step_until_partial",
    "FunctionalGraphProps.doublingSum_partial",
    "FunctionalGraphProps.doubling_large_ub",
    "FunctionalGraphProps.step_until_beyond_limit"
   ],
   "note": "proved for all step limits below 2^62; for larger limits the code has undefined behaviour (doubling_large_ub)"
  },
  {
   "property": "C89",
   "status": "proved",
   "theorems": [
    "FunctionalGraphProps.infinitePaths_correct",
    "FunctionalGraphProps.rho_minimal"
   ],
   "note": "stack depth of the recursion not modelled"
  },
  {
   "property": "C90",
   "status": "partial",
   "theorems": [
    "FunctionalGraphProps.kthIterate_correct_partial",
    "FunctionalGraphProps.kthIterate_overflow"
   ],
   "note": "proved for k + n <= 2^63; overflow for larger k (kthIterate_overflow)"
  },
  {
   "property": "C91",
   "status": "proved",
   "theorems": [
    "KruscalProps.kruscal_correct"
   ],
   "note": "histories of add_edge/build/get_weight/get_mst; weights are mathematical integers; atcoder::dsu by contract"
  },
  {
   "property": "C92",
   "status": "proved",
   "theorems": [
    "TrianglesProps.triangles_once"
   ],
   "note": "exactly once per unordered triangle"
  },
  {
   "property": "C93",
   "status": "proved",
   "theorems": [
    "SCCTournamentProps.scc_correct"
   ],
   "note": "for all tournaments"
  },
  {
   "property": "C94",
   "status": "proved",
   "theorems": [
    "MinMaxFloydProps.minmax_correct"
   ],
   "note": "termination, memory safety and correctness; n*n assumed to fit an int"
  },
  {
   "property": "C95",
   "status": "proved",
   "theorems": [
    "ComplementBFSProps.complement_distance",
    "ComplementBFSProps.complement_components",
    "ComplementBFSProps.complement_add_edges"
   ],
   "note": "Any std::partition order. Distances are mathematical integers (at most n)."
  },
  {
   "property": "C96",
   "status": "proved",
   "theorems": [
    "EulerTourProps.eulerTour_correct",
    "EulerTourProps.eulerTour_times"
   ],
   "note": "Euler tour LCA for all trees up to 2^28 vertices; recursion depth (stack) not modelled."
  },
  {
   "property": "C97",
   "status": "proved",
   "theorems": [
    "LevelAncestorProps.levelAncestor_correct",
    "LevelAncestorProps.levelAncestor_times"
   ],
   "note": "Recursion depth (stack) not modelled."
  },
  {
   "property": "C98",
   "status": "proved",
   "theorems": [
    "GetTreePathProps.getTreePath_correct"
   ],
   "note": "Recursion depth (stack) not modelled."
  },
  {
   "property": "C99",
   "status": "proved",
   "theorems": [
    "FindCentroidsProps.findCentroids_correct",
    "FindCentroidsProps.exists_centroid",
    "FindCentroidsProps.findCentroids_empty"
   ],
   "note": "All trees below 2^30 vertices."
  },
  {
   "property": "C100",
   "status": "proved",
   "theorems": [
    "TreeIsoProps.classifySubtrees_correct",
    "TreeIsoProps.isIsomorphicRooted_correct"
   ],
   "note": "IDHandlerNaive; all histories of classify_subtrees, key classification and is_isomorphic calls."
  },
  {
   "property": "C101",
   "status": "partial",
   "theorems": [
    "TreeIsoProps.isIsomorphic_partial",
    "TreeIsoProps.isIsomorphic_ub",
    "TreeIsoProps.not_isIsomorphic_total"
   ],
   "note": "The code has undefined behaviour exactly when the trees are not isomorphic and the second has one centroid; the rest of the property is proved and the failure is shown by a witness."
  },
  {
   "property": "C102",
   "status": "proved",
   "theorems": [
    "Rerooting.runDp_rerooted",
    "Rerooting.runDpInv_rerooted",
    "Rerooting.addEdge_range",
    "Rerooting.setVertexWeights_size",
    "Rerooting.runDp_empty",
    "Rerooting.runDpInv_empty"
   ],
   "note": "Vertex counters are unbounded naturals; the empty object is undefined behaviour."
  },
  {
   "property": "C103",
   "status": "proved",
   "theorems": [
    "HLD.make_succeeds",
    "HLD.made_getters",
    "HLD.made_order",
    "HLD.made_subtree",
    "HLD.made_chain"
   ],
   "note": "For connected trees; the constructors also accept forests, which are not covered."
  },
  {
   "property": "C104",
   "status": "proved",
   "theorems": [
    "HLD.made_lca",
    "HLD.made_la",
    "HLD.made_jump",
    "HLD.made_dist"
   ],
   "note": ""
  },
  {
   "property": "C105",
   "status": "proved",
   "theorems": [
    "HLD.made_updatePath",
    "HLD.made_foldPath",
    "HLD.made_foldPathNC"
   ],
   "note": ""
  },
  {
   "property": "C106",
   "status": "proved",
   "theorems": [
    "AuxTree.build_correct",
    "AuxTree.build_empty",
    "AuxTree.build_duplicate"
   ],
   "note": "std::sort by its contract."
  },
  {
   "property": "C107",
   "status": "proved",
   "theorems": [
    "RMQpm1.plain_correct",
    "RMQpm1.indexed_correct",
    "RMQpm1.not_zigzag",
    "RMQpm1.make_empty"
   ],
   "note": "values strictly between INT_MIN and INT_MAX"
  },
  {
   "property": "C108",
   "status": "proved",
   "theorems": [
    "LCA.lca_correct"
   ],
   "note": ""
  },
  {
   "property": "C109",
   "status": "partial",
   "theorems": [
    "DiscreteLog.dlog_correct_partial",
    "DiscreteLog.dlog_large_modulus",
    "DiscreteLog.dlog_correct_false",
    "DiscreteLog.coprime_correct",
    "DiscreteLog.coprime_assertion"
   ],
   "note": "false for moduli from 2^30 on (undefined shift), proved for all smaller moduli"
  },
  {
   "property": "C110",
   "status": "proved",
   "theorems": [
    "WheelSieve.simple_correct"
   ],
   "note": ""
  },
  {
   "property": "C111",
   "status": "proved",
   "theorems": [
    "WheelSieve.sieve_correct",
    "WheelSieve.sieve_range",
    "WheelSieve.sieve_large"
   ],
   "note": ""
  },
  {
   "property": "C112",
   "status": "partial",
   "theorems": [
    "MillerRabin.isPrime_exact",
    "MillerRabin.isPrime_partial",
    "MillerRabin.isPrime_wrong"
   ],
   "note": "Exact for n < 341531. For every n < 2^63: a prime is never rejected, and a composite number that is accepted is a strong pseudoprime to all bases of its range. Not proved: that no such pseudoprime exists from 341531 on (a published computation). False above 2^63: isPrime_wrong."
  },
  {
   "property": "C113",
   "status": "partial",
   "theorems": [
    "FastFactorize.factorize_correct",
    "FastFactorize.factorize_own",
    "FastFactorize.factorize_negative"
   ],
   "note": "The primality test enters factorize_correct by contract (exact below 2^63), because exactness of is_prime is not proved (C112); factorize_own makes no assumption on is_prime but then only gives factors accepted by it. Drawing bad constants for ever is represented by the result none and is not excluded; everything else terminates."
  },
  {
   "property": "C114",
   "status": "partial",
   "theorems": [
    "Tetration.tetMod_correct",
    "Tetration.tetMod_small"
   ],
   "note": "Unconditional for m <= 10^6 (tetMod_small). Above, the primality test inside factorize enters by contract (see C112, C113), and drawing random constants for ever is represented by none."
  },
  {
   "property": "C115",
   "status": "proved",
   "theorems": [
    "SlopeTrick.history_correct",
    "SlopeTrick.min_correct",
    "SlopeTrick.window_assert"
   ],
   "note": "T = long long; std::priority_queue by contract; lines() does not compile and is not modelled."
  },
  {
   "property": "C116",
   "status": "partial",
   "theorems": [
    "MinModLinear.minMod_partial",
    "MinModLinear.overflow",
    "MinModLinear.minMod_empty"
   ],
   "note": "atcoder::floor_sum by contract. The full property is false (int overflow for b + m > 2^31, proved); proved for b + m <= 2^31."
  },
  {
   "property": "C117",
   "status": "proved",
   "theorems": [
    "CartesianTree.build_correct",
    "CartesianTree.parent_correct",
    "CartesianTree.parent_assert",
    "CartesianTree.ranges_correct",
    "CartesianTree.default_ranges"
   ],
   "note": "Comparison any strict weak order; indices assumed to fit int."
  },
  {
   "property": "C118",
   "status": "proved",
   "theorems": [
    "ConvexHullTrick.history_correct",
    "ConvexHullTrick.query_min",
    "ConvexHullTrick.query_max",
    "ConvexHullTrick.query_assert",
    "ConvexHullTrick.query_edge",
    "ConvexHullTrick.add_overflow"
   ],
   "note": "T = long long (MultT = __int128); std::multiset by contract. Slopes and intercepts below 2^62 in absolute value so that the differences fit; x = -(2^63-1) is excluded, where the answer can be wrong (query_edge)."
  },
  {
   "property": "C119",
   "status": "proved",
   "theorems": [
    "UnionFindLazy.history_correct",
    "UnionFindLazy.propagate_raw"
   ],
   "note": "Reference arguments must not alias members of the object."
  },
  {
   "property": "C120",
   "status": "proved",
   "theorems": [
    "Dirichlet.conv_correct",
    "Dirichlet.convCoprime_correct",
    "Dirichlet.row_overflow"
   ],
   "note": "n <= 2^30: n + i is computed in int and overflows for larger n (row_overflow)."
  },
  {
   "property": "C121",
   "status": "proved",
   "theorems": [
    "SumOfMult.Props.sum_of_mobius",
    "SumOfMult.Props.sum_of_totient",
    "SumOfMult.Props.zero_denominator"
   ],
   "note": "Threshold (floating point) is a parameter; value type any commutative ring."
  },
  {
   "property": "C122",
   "status": "proved",
   "theorems": [
    "LowLink.Props.make_ok",
    "LowLink.Props.bridge_ids",
    "LowLink.Props.articulation_points",
    "LowLink.Props.is_bridge",
    "LowLink.Props.component_num",
    "LowLink.Props.component_num_if_edge_removed",
    "LowLink.Props.component_num_if_vertex_removed",
    "LowLink.Props.is_articulation_point",
    "LowLink.Props.not_built"
   ],
   "note": "Queries answer for a freshly built object."
  },
  {
   "property": "C123",
   "status": "partial",
   "theorems": [
    "LowLink.Props.rebuild_stale",
    "LowLink.Props.build_once_partial"
   ],
   "note": "The code violates the property: rebuild_stale is a counterexample. Proved: a single build after any number of add_edge calls."
  },
  {
   "property": "C124",
   "status": "proved",
   "theorems": [
    "TwoEdge.Props.make_ok",
    "TwoEdge.Props.component_ids",
    "TwoEdge.Props.groups_ok",
    "TwoEdge.Props.reduced_forest"
   ],
   "note": "For a freshly built object."
  },
  {
   "property": "C125",
   "status": "proved",
   "theorems": [
    "Biconnected.Props.make_ok",
    "Biconnected.Props.edge_ids",
    "Biconnected.Props.isolated_ok"
   ],
   "note": "Single build through the constructor."
  },
  {
   "property": "C126",
   "status": "partial",
   "theorems": [
    "Biconnected.Props.components_partial",
    "Biconnected.Props.components_loop"
   ],
   "note": "False with self-loops (components_loop); proved for graphs without self-loops."
  },
  {
   "property": "C127",
   "status": "partial",
   "theorems": [
    "BlockCutForest.Props.forest_partial",
    "BlockCutForest.Props.vertexNum_partial",
    "BlockCutForest.Props.componentId_partial",
    "BlockCutForest.Props.loop_ub"
   ],
   "note": "False with self-loops (loop_ub); proved for graphs without self-loops."
  },
  {
   "property": "C128",
   "status": "proved",
   "theorems": [
    "MinPlus.Props.convex_convex",
    "MinPlus.Props.convex_arbitrary",
    "MinPlus.Props.rejected"
   ],
   "note": "T = long long; entries in [-2^62, 2^62)."
  },
  {
   "property": "C129",
   "status": "partial",
   "theorems": [
    "Factorial.Props.answers_partial",
    "Factorial.Props.answers_char_zero",
    "Factorial.Props.table_fails"
   ],
   "note": "False for arguments up to the modulus (table_fails); proved for arguments below N with 2 N <= p + 2 and in characteristic 0."
  },
  {
   "property": "C130",
   "status": "proved",
   "theorems": [
    "InvMods.Props.inverses",
    "InvMods.Props.batch"
   ],
   "note": "Prime modulus, indices below it."
  },
  {
   "property": "C131",
   "status": "proved",
   "theorems": [
    "PowMods.Props.powers"
   ],
   "note": "Stated over a field; the int-modulus types are instances for prime moduli."
  },
  {
   "property": "C132",
   "status": "partial",
   "theorems": [
    "Chromatic.Props.result_partial",
    "Chromatic.Props.exact",
    "Chromatic.Props.exact_bipartite",
    "Chromatic.Props.exact_small"
   ],
   "note": "Exact if the number of covers is not divisible by both moduli, in particular for bipartite graphs, graphs with at most 7 vertices and whenever (2^k-1)^n < 998244353 * 1000000007; in general never too small."
  },
  {
   "property": "C133",
   "status": "proved",
   "theorems": [
    "Mo.Props.order_valid",
    "Mo.Props.answers"
   ],
   "note": "Floating-point bucket size is an arbitrary parameter."
  },
  {
   "property": "C134",
   "status": "partial",
   "theorems": [
    "BinomSum.Props.prefix_partial",
    "BinomSum.Props.range_partial"
   ],
   "note": "Proved for m + 1 < N with 2 N <= p + 2 (see C129 for why arguments up to the modulus fail)."
  },
  {
   "property": "C135",
   "status": "proved",
   "theorems": [
    "MergeHistory.history",
    "MergeHistory.same_spec",
    "MergeHistory.forest_spec",
    "MergeHistory.lca_exists"
   ],
   "note": "All histories of merge, merge_simultaneously, group and groups; same and the forest accessors on the object after any history. atcoder::dsu by contract. Times are natural numbers; int overflow of the call counter and of node numbers is not modelled."
  },
  {
   "property": "C136",
   "status": "proved",
   "theorems": [
    "OrderMod.order_correct",
    "OrderMod.order_not_coprime"
   ],
   "note": "All moduli above one and all arguments coprime to it; other arguments never return."
  },
  {
   "property": "C137",
   "status": "partial",
   "theorems": [
    "OrderMod.group_constants",
    "OrderMod.is_prime_iff",
    "OrderMod.is_prime_wrong"
   ],
   "note": "totient, carmichael and carmichael_prime_factors are proved for all moduli; is_prime() is refuted: it accepts exactly the prime powers."
  },
  {
   "property": "C138",
   "status": "partial",
   "theorems": [
    "OrderMod.is_primitive_root_partial",
    "OrderMod.is_primitive_root_asserts",
    "OrderMod.is_primitive_root_not_coprime"
   ],
   "note": "Proved for arguments coprime to the modulus and moduli outside [2^31, 2^32); refuted for the rest."
  },
  {
   "property": "C139",
   "status": "partial",
   "theorems": [
    "OrderMod.primitive_root_partial",
    "OrderMod.primitive_root_wrong"
   ],
   "note": "Proved for supported moduli that are prime or not prime powers; refuted modulo 9. That the random search ends with probability one is not expressible in the model."
  },
  {
   "property": "C140",
   "status": "proved",
   "theorems": [
    "BerlekampMassey.find_correct",
    "BerlekampMassey.find_predicts"
   ],
   "note": "All sequences over all fields with decidable equality."
  },
  {
   "property": "C141",
   "status": "proved",
   "theorems": [
    "Eulerian.directed_circuit",
    "Eulerian.directed_circuit_empty"
   ],
   "note": "Recursion depth and the width of int are not modelled. The theorem needs n > 0; for n = 0 the out-of-bounds read is proved."
  },
  {
   "property": "C142",
   "status": "partial",
   "theorems": [
    "Eulerian.directed_trail_partial",
    "Eulerian.directed_trail_leftover"
   ],
   "note": "After nullopt the graph may keep the auxiliary edge; proved by a witness."
  },
  {
   "property": "C143",
   "status": "proved",
   "theorems": [
    "Eulerian.undirected_circuit"
   ],
   "note": "Recursion depth and the width of int are not modelled. The theorem needs n > 0."
  },
  {
   "property": "C144",
   "status": "partial",
   "theorems": [
    "Eulerian.undirected_trail_partial",
    "Eulerian.undirected_trail_leftover"
   ],
   "note": "After nullopt the graph may keep the auxiliary edge; proved by a witness."
  },
  {
   "property": "C145",
   "status": "proved",
   "theorems": [
    "BipartiteMatching.maxMatching_correct"
   ],
   "note": "The width of int and the recursion depth are not modelled."
  },
  {
   "property": "C146",
   "status": "partial",
   "theorems": [
    "BipartiteMatching.solve_correct_partial",
    "BipartiteMatching.solve_again_counterexample"
   ],
   "note": "Proved when no question was asked before the last edge was added; otherwise false, proved by a witness."
  },
  {
   "property": "C147",
   "status": "proved",
   "theorems": [
    "BipartiteMatching.minVertexCover_correct"
   ],
   "note": ""
  },
  {
   "property": "C148",
   "status": "proved",
   "theorems": [
    "BipartiteMatching.maxIndependentSet_correct"
   ],
   "note": ""
  },
  {
   "property": "C149",
   "status": "partial",
   "theorems": [
    "BipartiteMatching.minEdgeCover_correct_partial",
    "BipartiteMatching.minEdgeCover_counterexample"
   ],
   "note": "Proved when there are at most as many right as left vertices; otherwise an out-of-bounds access is possible, proved by a witness."
  },
  {
   "property": "C150",
   "status": "partial",
   "theorems": [
    "ModSqrt.prime_mod_sqrt_partial",
    "ModSqrt.prime_mod_sqrt_counterexample"
   ],
   "note": "All primes except those congruent to 1 modulo 2^32, where the code has undefined behaviour (witness)."
  },
  {
   "property": "C151",
   "status": "partial",
   "theorems": [
    "ModSqrt.composite_mod_sqrt_partial",
    "ModSqrt.composite_mod_sqrt_negative_counterexample",
    "ModSqrt.composite_mod_sqrt_overflow_counterexample"
   ],
   "note": "Excludes negative a for even m, primes above 2^62 and primes congruent to 1 modulo 2^32; witnesses for the failures."
  },
  {
   "property": "C152",
   "status": "proved",
   "theorems": [
    "LiChao.history_correct",
    "LiChao.query_missing",
    "LiChao.query_above",
    "LiChao.query_limit"
   ],
   "note": "T = long long; values at the coordinates strictly inside the range of the type."
  },
  {
   "property": "C153",
   "status": "proved",
   "theorems": [
    "MonotonicCHT.history_correct",
    "MonotonicCHT.slope_refused",
    "MonotonicCHT.point_refused_inc",
    "MonotonicCHT.point_refused_dec",
    "MonotonicCHT.empty_refused"
   ],
   "note": "T = long long."
  },
  {
   "property": "C154",
   "status": "partial",
   "theorems": [
    "RangeSetComposite.history_correct_partial",
    "RangeSetComposite.range_refused",
    "RangeSetComposite.ofVal_counterexample"
   ],
   "note": "Proved for the constructor from a vector; the other constructor always fails an assertion (proved)."
  },
  {
   "property": "C155",
   "status": "proved",
   "theorems": [
    "RangeCountDistinct.history_correct",
    "RangeCountDistinct.range_refused"
   ],
   "note": "All sequences and all histories; int unbounded, atcoder::fenwick_tree by contract."
  },
  {
   "property": "C156",
   "status": "proved",
   "theorems": [
    "MobiusFunction.mobius_function_correct",
    "MobiusFunction.out_of_range"
   ],
   "note": "All N (below 2^31, so that int does not overflow)."
  },
  {
   "property": "C157",
   "status": "proved",
   "theorems": [
    "TwoSat.history_correct"
   ],
   "note": "For every solver meeting the contract of atcoder::two_sat; the contract is shown satisfiable."
  },
  {
   "property": "C158",
   "status": "proved",
   "theorems": [
    "CycleDetection.get_cycle_directed_correct",
    "CycleDetection.get_cycle_directed_iff"
   ],
   "note": "All directed graphs."
  },
  {
   "property": "C159",
   "status": "proved",
   "theorems": [
    "Rational.mk_correct",
    "Rational.ofInt_correct",
    "Rational.arithmetic_correct"
   ],
   "note": "Operands with numerator and denominator below 2^31."
  },
  {
   "property": "C160",
   "status": "partial",
   "theorems": [
    "Rational.eq_correct",
    "Rational.compare_correct_partial",
    "Rational.compare_counterexample"
   ],
   "note": "The code violates the property for pairs of fractions of the same sign with the same integer part; right otherwise."
  },
  {
   "property": "C161",
   "status": "partial",
   "theorems": [
    "Rational.toLL_correct",
    "Rational.floor_ceil_correct_partial",
    "Rational.floor_ceil_wrong",
    "Rational.floor_ceil_counterexample"
   ],
   "note": "The code violates the property: floor for negative, ceil for positive non-integers."
  },
  {
   "property": "C162",
   "status": "partial",
   "theorems": [
    "Bezout.hasSolution_correct_partial",
    "Bezout.step_correct_partial",
    "Bezout.count_correct_partial",
    "Bezout.count_zero_correct_partial",
    "Bezout.xmin_correct_partial",
    "Bezout.xmax_correct_partial",
    "Bezout.ymin_correct_partial",
    "Bezout.ymax_correct_partial",
    "Bezout.no_solution_aborts",
    "Bezout.solve_b_zero_counterexample",
    "Bezout.count_zero_counterexample"
   ],
   "note": "Right unless b = 0 and a is not 0 (division by zero), or a = b = 0 with infinitely many solutions (count); extreme solutions below 2^62."
  },
  {
   "property": "C163",
   "status": "partial",
   "theorems": [
    "PrioritySum.run_partial",
    "PrioritySum.erase_counterexample",
    "PrioritySum.negative_counterexample"
   ],
   "note": "Every history of insert, set_k >= 0 and erase of the greatest of the first k elements. erase of other elements is wrong in the code."
  },
  {
   "property": "C164",
   "status": "partial",
   "theorems": [
    "PersistentSegmentTree.history_partial",
    "PersistentSegmentTree.update_out",
    "PersistentSegmentTree.empty_counterexample"
   ],
   "note": "Proved for all histories whose constructions are of nonempty arrays (or by the default constructor); constructing from an empty vector exhausts the pool (counterexample for every pool)."
  },
  {
   "property": "C165",
   "status": "partial",
   "theorems": [
    "PersistentLazySegmentTree.history_partial",
    "PersistentLazySegmentTree.update_out",
    "PersistentLazySegmentTree.empty_counterexample"
   ],
   "note": "Proved for all histories whose constructions are of nonempty arrays (or by the default constructor); constructing from an empty vector exhausts the pool (counterexample for every pool)."
  },
  {
   "property": "C166",
   "status": "proved",
   "theorems": [
    "PersistentDualSegmentTree.history"
   ],
   "note": "All histories, monoids and pools; sizes below 2^30."
  },
  {
   "property": "C167",
   "status": "proved",
   "theorems": [
    "PersistentDualSegmentTree.commutative_history"
   ],
   "note": "All histories, commutative monoids and pools; sizes below 2^30."
  },
  {
   "property": "C168",
   "status": "partial",
   "theorems": [
    "PersistentSegmentTree.dump_partial",
    "PersistentSegmentTree.dump_counterexample",
    "PersistentLazySegmentTree.dump_counterexample",
    "PersistentLazySegmentTree.dump_order_counterexample"
   ],
   "note": "Proved for PersistentSegmentTree on new pools; false after clear_pool and for PersistentLazySegmentTree."
  },
  {
   "property": "C169",
   "status": "proved",
   "theorems": [
    "OfflineDynamicConnectivity.answer_correct"
   ],
   "note": "multimap::find may return any of several equal edges"
  },
  {
   "property": "C170",
   "status": "proved",
   "theorems": [
    "OfflineDynamicConnectivityComponentSum.answer_correct"
   ],
   "note": "the data type, merge_data, undo_data and get_value are arbitrary; the proof needs undo_data(merge_data(a, b)) = a and that get_value of merged data is the sum up to an observation"
  },
  {
   "property": "C171",
   "status": "partial",
   "theorems": [
    "OfflineDynamicConnectivity.answer_twice_partial",
    "OfflineDynamicConnectivity.answer_forgets_counterexample",
    "OfflineDynamicConnectivity.delete_after_answer_counterexample"
   ],
   "note": "answer() is repeatable, but the claim is false for later queries and deletions: the active edges are erased (counterexamples)"
  },
  {
   "property": "C172",
   "status": "proved",
   "theorems": [
    "DynamicBitSet.history"
   ],
   "note": "All calls on a family of objects, refinement to lists of bits; size below 2^31, find_next position below 2^64-1."
  },
  {
   "property": "C173",
   "status": "partial",
   "theorems": [
    "DynamicBitSet.bitAnd_partial",
    "DynamicBitSet.bitAnd_counterexample"
   ],
   "note": "Violated by the code: clears the other bits of the block. The exact effect is proved."
  },
  {
   "property": "C174",
   "status": "partial",
   "theorems": [
    "DynamicBitSet.all_partial",
    "DynamicBitSet.all_counterexample"
   ],
   "note": "Violated by the code for positive multiples of 64 (shift by 64). Proved for all other sizes."
  },
  {
   "property": "C175",
   "status": "proved",
   "theorems": [
    "SparseSegmentTree.history",
    "SparseSegmentTree.out_of_range"
   ],
   "note": "all histories of calls; copies are aliases of the original; positions whose sum fits the index type and fewer than 2^32 nodes"
  },
  {
   "property": "C176",
   "status": "partial",
   "theorems": [
    "SparseSegmentTree.copy_partial",
    "SparseSegmentTree.copy_counterexample"
   ],
   "note": "copies share nodes with the original, so the property fails; proved for histories without copies"
  },
  {
   "property": "C177",
   "status": "proved",
   "theorems": [
    "SparseLazySegmentTree.history",
    "SparseLazySegmentTree.out_of_range"
   ],
   "note": "all histories of calls; copies are aliases of the original; apply_all on trees that are not empty; positions whose sum fits the index type and fewer than 2^32 nodes"
  },
  {
   "property": "C178",
   "status": "partial",
   "theorems": [
    "SparseLazySegmentTree.copy_partial",
    "SparseLazySegmentTree.copy_counterexample"
   ],
   "note": "copies share nodes with the original, so the property fails; proved for histories without copies"
  },
  {
   "property": "C179",
   "status": "partial",
   "theorems": [
    "SparseLazySegmentTree.applyAll_partial",
    "SparseLazySegmentTree.applyAll_counterexample"
   ],
   "note": "fails for size 0; proved for positive sizes"
  },
  {
   "property": "C180",
   "status": "partial",
   "theorems": [
    "FindDenominators.fld_positive_partial",
    "FindDenominators.fld_negative_partial",
    "FindDenominators.cld_positive_partial",
    "FindDenominators.cld_negative_partial",
    "FindDenominators.overflow_counterexample"
   ],
   "note": "Exact for |n| + |q| + 1 at most the maximum of the type; near the ends intermediate sums overflow, for which there are counterexamples."
  },
  {
   "property": "C181",
   "status": "proved",
   "theorems": [
    "SegmentTree2D.history",
    "SegmentTree2D.out_of_range"
   ],
   "note": "For every commutative monoid, every table and every history."
  },
  {
   "property": "C182",
   "status": "partial",
   "theorems": [
    "SegmentTree2D.sized_partial",
    "SegmentTree2D.sized_counterexample"
   ],
   "note": "The object is a table of 2n rows and 2m columns."
  },
  {
   "property": "C183",
   "status": "proved",
   "theorems": [
    "RangeMode.query_correct",
    "RangeMode.query_out_of_range"
   ],
   "note": "For every linear order, every non-empty vector and every range."
  },
  {
   "property": "C184",
   "status": "partial",
   "theorems": [
    "RangeMode.build_partial",
    "RangeMode.build_counterexample"
   ],
   "note": "Fails for the empty vector."
  },
  {
   "property": "C185",
   "status": "proved",
   "theorems": [
    "PalindromicTree.tree_correct",
    "PalindromicTree.parents_correct"
   ],
   "note": "children in a std::map; fewer than 2^31-2 symbols"
  },
  {
   "property": "C186",
   "status": "proved",
   "theorems": [
    "PalindromicTree.frequency_correct"
   ],
   "note": "children in a std::map; fewer than 2^31-2 symbols"
  },
  {
   "property": "C187",
   "status": "partial",
   "theorems": [
    "PalindromicTree.clear_partial",
    "PalindromicTree.clear_counterexample"
   ],
   "note": "fails for every symbol that was added before; the partial theorem covers a tree without symbols"
  },
  {
   "property": "C188",
   "status": "proved",
   "theorems": [
    "SuffixAutomaton.accept_correct"
   ],
   "note": "fewer than 2^30 symbols"
  },
  {
   "property": "C189",
   "status": "proved",
   "theorems": [
    "SuffixAutomaton.transition_correct",
    "SuffixAutomaton.states_used"
   ],
   "note": "fewer than 2^30 symbols"
  },
  {
   "property": "C190",
   "status": "proved",
   "theorems": [
    "SuffixAutomaton.count_correct",
    "SuffixAutomaton.topological_correct"
   ],
   "note": "fewer than 2^30 symbols"
  },
  {
   "property": "C191",
   "status": "proved",
   "theorems": [
    "SuffixAutomaton.enumerate_correct"
   ],
   "note": "fewer than 2^30 symbols"
  },
  {
   "property": "C192",
   "status": "proved",
   "theorems": [
    "SuffixAutomaton.first_correct"
   ],
   "note": "fewer than 2^30 symbols"
  },
  {
   "property": "C193",
   "status": "proved",
   "theorems": [
    "SuffixAutomaton.lcs_correct"
   ],
   "note": "fewer than 2^30 symbols"
  },
  {
   "property": "C194",
   "status": "proved",
   "theorems": [
    "Modint.ring_correct"
   ],
   "note": "all moduli below 2^31, both kinds"
  },
  {
   "property": "C195",
   "status": "proved",
   "theorems": [
    "Modint.rem_correct"
   ],
   "note": ""
  },
  {
   "property": "C196",
   "status": "partial",
   "theorems": [
    "Modint.inv_partial",
    "Modint.isPrime_partial",
    "Modint.named_prime",
    "Modint.xpow_partial",
    "Modint.xpow_counterexample"
   ],
   "note": "missing: that the compile-time test never accepts a composite modulus (static kind only); xpow(LLONG_MIN) overflows"
  },
  {
   "property": "C197",
   "status": "proved",
   "theorems": [
    "Modint.modSqrt_correct"
   ],
   "note": ""
  },
  {
   "property": "C198",
   "status": "proved",
   "theorems": [
    "Sequences.Props.montmort_correct"
   ],
   "note": ""
  },
  {
   "property": "C199",
   "status": "partial",
   "theorems": [
    "Sequences.Props.powers_partial",
    "Sequences.Props.powers_counterexample"
   ],
   "note": "exponents from 2^63 on fail"
  },
  {
   "property": "C200",
   "status": "proved",
   "theorems": [
    "Sequences.Props.table_correct",
    "Sequences.Props.eulerian_correct"
   ],
   "note": "fresh table of factorials; product of polynomials taken as exact"
  },
  {
   "property": "C201",
   "status": "partial",
   "theorems": [
    "Sequences.Props.lucas_partial",
    "Sequences.Props.lucas_counterexample"
   ],
   "note": "the shared table must not have been used by other code"
  },
  {
   "property": "C202",
   "status": "proved",
   "theorems": [
    "Beats.beats_correct"
   ],
   "note": "Generic theorem about LazySegmentTree with enable_beats = true: apply and prod after construction from a vector. The template parameters are assumed to obey the laws of the structure Law."
  },
  {
   "property": "C203",
   "status": "proved",
   "theorems": [
    "RangeChMinMaxAdd.rangeChMinMaxAdd_correct"
   ],
   "note": "Instance of C202; integers are exact, inf is a parameter; max_right and min_left are not modelled."
  },
  {
   "property": "C204",
   "status": "proved",
   "theorems": [
    "CsrGraph.csr_correct",
    "CsrGraph.ofLists_correct",
    "CsrGraph.reversed_correct"
   ],
   "note": "Numbers of edges are assumed to fit int; inserted ranges do not alias the graph."
  },
  {
   "property": "C205",
   "status": "partial",
   "theorems": [
    "CsrGraph.pushBack_counterexample",
    "CsrGraph.pushBack_partial"
   ],
   "note": "Violated: the capacity is min(degree, cap[i]), so no push_back succeeds on a new graph."
  },
  {
   "property": "C206",
   "status": "partial",
   "theorems": [
    "CsrGraph.shrinkToFit_counterexample",
    "CsrGraph.dfsTree_counterexample",
    "CsrGraph.moved_partial"
   ],
   "note": "Violated: shrink_to_fit and dfs_tree read through stale pointers."
  },
  {
   "property": "C207",
   "status": "proved",
   "theorems": [
    "Rot90.transpose_correct",
    "Rot90.rot90_correct",
    "Rot90.transpose_transpose",
    "Rot90.rot90_four"
   ],
   "note": ""
  },
  {
   "property": "C208",
   "status": "proved",
   "theorems": [
    "CsrGraph.dfsTree_correct"
   ],
   "note": "For graphs whose lists were accessed since the last copy or move; the other case is C206."
  },
  {
   "property": "C209",
   "status": "proved",
   "theorems": [
    "SumCount.count_correct",
    "SumCount.leq_correct"
   ],
   "note": "Signed overflow is modelled as undefined behaviour."
  },
  {
   "property": "C210",
   "status": "partial",
   "theorems": [
    "SumCount.resultType_counterexample",
    "SumCount.resultType_partial"
   ],
   "note": "Violated: the inner calls have no template arguments, so they compute in T."
  },
  {
   "property": "C211",
   "status": "partial",
   "theorems": [
    "AffineClamp.apply_correct",
    "AffineClamp.id_correct",
    "AffineClamp.compose_partial",
    "AffineClamp.compose_counterexample"
   ],
   "note": "Violated: the coefficients of a composition may overflow although the composition is representable. Proved for compositions whose coefficients fit."
  },
  {
   "property": "C212",
   "status": "proved",
   "theorems": [
    "DefaultVector.defaultVector_correct"
   ],
   "note": "Members inherited from std::vector are not modelled."
  },
  {
   "property": "C213",
   "status": "partial",
   "theorems": [
    "DefaultVector.unset_counterexample",
    "DefaultVector.negative_undefined",
    "DefaultVector.unset_partial"
   ],
   "note": "Violated for types such as int: default_value is not initialised; index -1 clears the vector. Proved: indices within the vector."
  },
  {
   "property": "C214",
   "status": "partial",
   "theorems": [
    "RandomWalk.walks_partial",
    "RandomWalk.walksWith_correct"
   ],
   "note": "Missing, as in C129: lengths for which the static table of factorials, which doubles, would reach the modulus."
  },
  {
   "property": "C215",
   "status": "partial",
   "theorems": [
    "ConvNaive.naive_partial",
    "ConvNaive.naive_empty",
    "ConvNaive.naive_counterexample"
   ],
   "note": "Violated for two empty vectors (exception); proved for all others. Overflow of signed results is not modelled."
  },
  {
   "property": "C216",
   "status": "proved",
   "theorems": [
    "UBig.ofInt_correct",
    "UBig.arith_correct",
    "UBig.compare_correct",
    "UBig.shift_correct"
   ],
   "note": ""
  },
  {
   "property": "C217",
   "status": "partial",
   "theorems": [
    "UBig.mul_partial",
    "UBig.mul_sound_partial",
    "UBig.mul_counterexample",
    "UBig.karatsuba_counterexample"
   ],
   "note": "Violated: 0 * 0 throws, and so do products of 65 to 200 digits if both lower halves are zero. Proved: one factor of at most 64 digits, not both zero; for all numbers the result is the product or the exception. convolution_int is a hypothesis, 128-bit sums are exact."
  },
  {
   "property": "C218",
   "status": "partial",
   "theorems": [
    "UBig.ofString_partial",
    "UBig.ofString_counterexample"
   ],
   "note": "Violated for leading zeros: the number from the string 0 is not equal to 0. Proved: the value is right, and the form canonical unless the string begins with 0."
  },
  {
   "property": "C219",
   "status": "partial",
   "theorems": [
    "UBig.divmod_partial",
    "UBig.divmod_counterexample"
   ],
   "note": "Violated: 10^36 / 10^9 fails an assertion. Proved: divisors of one digit in base 10^9, divisors larger than the dividend, and zero."
  },
  {
   "property": "C220",
   "status": "partial",
   "theorems": [
    "UBig.toString_correct",
    "UBig.toUnsigned_correct",
    "UBig.roundTrip_partial",
    "UBig.roundTrip_counterexample"
   ],
   "note": "Violated only by the round trip of zero (see C218); everything else is proved."
  }
 ]
}