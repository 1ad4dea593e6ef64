{"id": "C01", "title": "Tensor word round trip", "statement": "For every word of letters between 1 and NLETTERS whose length is at most max_depth(), from_letters succeeds, size() is the word's length, to_letters() yields the letters last-first, and iterating the key yields the letters first-to-last.", "quantifier": "every NLETTERS (u32, >= 1), every word up to max_depth, both build profiles", "why_tests_cant": "The space of words is exponential in the depth and there are 2^32 alphabets; tests try three letters and one depth.", "anchors": ["src/free_tensor/tensor_basis/tensor_key.rs:from_letters", "src/free_tensor/tensor_basis/tensor_key.rs:to_letters", "src/free_tensor/tensor_basis/tensor_key.rs:TensorKeyIterator::next", "src/free_tensor/tensor_basis/tensor_key.rs:get_letter"]}
{"id": "C02", "title": "Key equality is word equality", "statement": "Two keys built by from_letters from valid words compare equal (==) exactly when the words are the same, so no two words collide in the packed representation.", "quantifier": "every NLETTERS and every pair of valid words up to max_depth", "why_tests_cant": "Pairs of words cannot be enumerated; a collision could hide at one depth or one alphabet size.", "anchors": ["src/free_tensor/tensor_basis/tensor_key.rs:TensorKey (derive PartialEq)", "src/free_tensor/tensor_basis/tensor_key.rs:from_letters"]}
{"id": "C03", "title": "max_depth is a real capacity", "statement": "max_depth() letters always fit in the 64-bit word (max_depth*bits_per_letter <= 64, each letter fits its field, max_depth >= 2), and from_letters panics for every longer slice instead of truncating it.", "quantifier": "every NLETTERS >= 1 and every slice of letters", "why_tests_cant": "Depends on all 2^32 alphabet sizes and their rounding in const_logn.", "anchors": ["src/free_tensor/tensor_basis/tensor_key.rs:max_depth", "src/free_tensor/tensor_basis/tensor_key.rs:bits_per_letter", "src/free_tensor/tensor_basis/tensor_key.rs:size_bits", "src/implementation.rs:const_logn", "src/free_tensor/tensor_basis/tensor_key.rs:from_letters"]}
{"id": "C04", "title": "get_letter reads the right letter", "statement": "For a key holding a valid word, get_letter(i) with i < size() returns the i-th letter counted from the right end, always between 1 and NLETTERS, without panicking.", "quantifier": "every NLETTERS, valid word and position", "why_tests_cant": "Every position of every word at every packing width.", "anchors": ["src/free_tensor/tensor_basis/tensor_key.rs:get_letter", "src/free_tensor/tensor_basis/tensor_key.rs:get_letter_unadjusted", "src/implementation.rs:make_mask"]}
{"id": "C05", "title": "concatenate is word concatenation", "statement": "concatenate of two keys is the key of the concatenated word; hence degrees add, the empty key is a two-sided unit and concatenation is associative.", "quantifier": "every NLETTERS below 2^31 (for larger ones a right factor of two letters makes the shift overflow: proved separately) and all pairs/triples of valid words whose total length is at most max_depth (the code performs no length check)", "why_tests_cant": "Every pair of words; the behaviour beyond max_depth is only visible at the boundary of the 64-bit field.", "anchors": ["src/free_tensor/tensor_basis/tensor_key.rs:concatenate", "src/free_tensor/tensor_basis/tensor_key.rs:new"]}
{"id": "C06", "title": "push_front prepends one letter", "statement": "push_front(l) on a key of a valid word w shorter than max_depth() gives the key of l followed by w; in debug builds a full key or an out-of-range letter panics.", "quantifier": "every NLETTERS, word and letter", "why_tests_cant": "Every packing offset must be exercised.", "anchors": ["src/free_tensor/tensor_basis/tensor_key.rs:push_front", "src/free_tensor/tensor_basis/tensor_key.rs:push_front_raw"]}
{"id": "C07", "title": "iter_keys enumerates the basis", "statement": "TensorBasis::iter_keys() yields every key exactly once in increasing index order: its n-th item is index_to_key(n), up to the last word of length max_depth().", "quantifier": "every NLETTERS and every position n in the iteration", "why_tests_cant": "The iteration is astronomically long; tests look at the first handful of steps.", "anchors": ["src/free_tensor/tensor_basis/key_iterator.rs:TensorBasisIterator::next", "src/free_tensor/tensor_basis/tensor_key.rs:set_letter", "src/free_tensor/tensor_basis/mod.rs:iter_keys"]}
{"id": "C08", "title": "index -> key -> index is the identity", "statement": "For every index below the number of words of length <= max_depth(), index_to_key does not panic and key_to_index gives the index back.", "quantifier": "every NLETTERS and every index in range, both profiles", "why_tests_cant": "Up to 2^64 indices per alphabet.", "anchors": ["src/free_tensor/tensor_basis/mod.rs:index_to_key", "src/free_tensor/tensor_basis/mod.rs:key_to_index"]}
{"id": "C09", "title": "key -> index -> key is the identity", "statement": "For every valid key, key_to_index does not overflow and index_to_key gives an equal key back; so distinct keys have distinct indices.", "quantifier": "every NLETTERS and every valid word up to max_depth", "why_tests_cant": "Exponentially many words; overflow can only occur near max_depth.", "anchors": ["src/free_tensor/tensor_basis/mod.rs:key_to_index", "src/free_tensor/tensor_basis/mod.rs:index_to_key"]}
{"id": "C10", "title": "Indices are graded lexicographic", "statement": "key_to_index orders keys first by degree and, within a degree, lexicographically from the first letter.", "quantifier": "every NLETTERS and every pair of valid words", "why_tests_cant": "All pairs of words.", "anchors": ["src/free_tensor/tensor_basis/mod.rs:key_to_index"]}
{"id": "C11", "title": "compare agrees with index order", "statement": "OrderedBasis::compare orders keys like their indices, in particular it returns Equal only for equal keys.", "quantifier": "every NLETTERS and every pair of valid keys", "why_tests_cant": "All pairs; tests pick pairs that happen to agree.", "anchors": ["src/free_tensor/tensor_basis/mod.rs:compare", "src/free_tensor/tensor_basis/mod.rs:key_to_index"]}
{"id": "C12", "title": "Degree blocks", "statement": "index_to_degree(key_to_index(k)) is degree(k), and index i has degree d exactly when start_of_degree(d) <= i < start_of_degree(d+1), as long as the powers fit in usize.", "quantifier": "every NLETTERS >= 2, key and index", "why_tests_cant": "Recursion over all degrees and indices.", "anchors": ["src/free_tensor/tensor_basis/mod.rs:index_to_degree", "src/free_tensor/tensor_basis/mod.rs:index_to_degree_impl", "src/free_tensor/tensor_basis/mod.rs:start_of_degree", "src/free_tensor/tensor_basis/mod.rs:degree_range"]}
{"id": "C13", "title": "Vector dimensions cover their keys", "statement": "vector_dimension_for_key(k) is the number of words of length <= degree(k); it is strictly larger than key_to_index(k), equals vector_dimension_for_index(key_to_index(k)), and is monotone in the degree; it panics (debug) exactly when NLETTERS^(degree+1) overflows usize, and always when NLETTERS = 1.", "quantifier": "every NLETTERS and valid key", "why_tests_cant": "Every alphabet and degree; the overflow boundary is different for each alphabet.", "anchors": ["src/free_tensor/tensor_basis/mod.rs:vector_dimension_for_key", "src/free_tensor/tensor_basis/mod.rs:vector_dimension_for_index", "src/free_tensor/tensor_basis/mod.rs:start_of_degree"]}
{"id": "C14", "title": "Index of a concatenation", "statement": "key_to_index(u.concatenate(v)) = key_to_index(u) * NLETTERS^degree(v) + key_to_index(v) whenever the concatenation fits.", "quantifier": "every NLETTERS below 2^31 and pair of valid words whose concatenation has length at most max_depth", "why_tests_cant": "All pairs of words.", "anchors": ["src/free_tensor/tensor_basis/mod.rs:key_to_index", "src/free_tensor/tensor_basis/tensor_key.rs:concatenate"]}
{"id": "C15", "title": "Displaying a key prints its letters", "statement": "Formatting a key with Display terminates and prints the same text as Debug.", "quantifier": "every key", "why_tests_cant": "Needs a termination argument over the formatter recursion.", "anchors": ["src/free_tensor/tensor_basis/tensor_key.rs:Display for TensorKey", "src/free_tensor/tensor_basis/tensor_key.rs:Debug for TensorKey"]}
{"id": "C16", "title": "from_key gives a basis vector, memory-safely", "statement": "from_key_scalar(k, s) on the dense tensor vector performs no out-of-bounds access and gives the vector with coefficient s at k and zero at every other stored key; from_key uses s = 1.", "quantifier": "every NLETTERS >= 2, valid key of representable dimension, scalar of any coefficient type", "why_tests_cant": "The unchecked write must be in bounds for every key.", "anchors": ["src/vector/implementation/simple_dense_vector.rs:from_key", "src/vector/implementation/simple_dense_vector.rs:from_key_scalar"]}
{"id": "C17", "title": "from_key is memory-safe for every key a caller can build", "statement": "No key value obtainable through the public constructors makes from_key_scalar access memory out of bounds.", "quantifier": "every NLETTERS and every key built by from_letter/from_letters/push_front/concatenate with any arguments", "why_tests_cant": "Unsafe code reachable from safe code: one bad key suffices.", "anchors": ["src/vector/implementation/simple_dense_vector.rs:from_key_scalar", "src/free_tensor/tensor_basis/tensor_key.rs:from_letter"]}
{"id": "C18", "title": "from_iterator sums the given terms", "statement": "Dense from_iterator over any list of (key, value) pairs is memory-safe and the coefficient at every key is the sum, in list order, of the values given for that key; the list order of different keys does not matter.", "quantifier": "every NLETTERS >= 2 and list of (valid key, value) pairs of representable dimension, any coefficient type (no algebraic laws assumed, so also floats)", "why_tests_cant": "Unbounded lists with arbitrary duplicates and orders; relies on the stability of the sort.", "anchors": ["src/vector/implementation/simple_dense_vector.rs:from_iterator"]}
{"id": "C19", "title": "Dense vector arithmetic is coefficientwise", "statement": "add/sub/uminus/scalar multiply/divide and the fused add/sub-scaled variants of dense vectors act coefficient by coefficient, treating a missing entry as zero, for operands of any two sizes; the in-place and value-returning forms agree and value-returning forms leave their operands unchanged.", "quantifier": "all pairs of dense vectors of any sizes and any scalar", "why_tests_cant": "Sizes unbounded, and size mismatch in both directions matters.", "anchors": ["src/vector/implementation/simple_dense_vector.rs:add_inplace", "src/vector/implementation/simple_dense_vector.rs:sub_inplace", "src/vector/implementation/simple_dense_vector.rs:uminus_inplace", "src/vector/implementation/simple_dense_vector.rs:scalar_lmultiply_inplace", "src/vector/implementation/simple_dense_vector.rs:scalar_rdivide_inplace", "src/vector/traits/vector.rs:add", "src/vector/traits/vector.rs:sub"]}
{"id": "C20", "title": "Dense vectors form a module", "statement": "Over exact scalars, dense vector addition is commutative and associative with the empty vector as zero, x - x is zero, and scalar multiplication distributes (as coefficient functions).", "quantifier": "all dense vectors over any commutative ring", "why_tests_cant": "Universal algebraic laws.", "anchors": ["src/vector/implementation/simple_dense_vector.rs:add_inplace", "src/vector/implementation/simple_dense_vector.rs:sub_inplace", "src/vector/implementation/simple_dense_vector.rs:scalar_lmultiply_inplace"]}
{"id": "C21", "title": "Dense equality is equality of vectors", "statement": "a == b exactly when a and b have the same coefficient at every key (missing = zero).", "quantifier": "all pairs of dense vectors", "why_tests_cant": "Trailing zeros of every length.", "anchors": ["src/vector/implementation/simple_dense_vector.rs:PartialEq for SimpleDenseVector"]}
{"id": "C22", "title": "Copies, swap, clear and erase", "statement": "to_owned/clone give an equal, independent vector; swap exchanges the two vectors; clear leaves every coefficient zero; erase zeroes exactly one key and keeps the others.", "quantifier": "all dense vectors in every storage mode (owned, borrowed, mutably borrowed)", "why_tests_cant": "All histories of aliasing modes.", "anchors": ["src/vector/implementation/simple_dense_vector.rs:Clone", "src/vector/implementation/simple_dense_vector.rs:to_owned", "src/vector/implementation/simple_dense_vector.rs:swap", "src/vector/implementation/simple_dense_vector.rs:clear", "src/vector/implementation/simple_dense_vector.rs:erase"]}
{"id": "C23", "title": "insert_single then get", "statement": "After insert_single(k, v), get(k) returns v and other keys are unchanged (Vector trait contract: a vector behaves like a HashMap).", "quantifier": "every vector, key and value, for the dense and the sparse implementation", "why_tests_cant": "Must hold for all states.", "anchors": ["src/vector/implementation/simple_dense_vector.rs:insert_single", "src/vector/implementation/simple_sparse_vector.rs:insert_single", "src/vector/traits/vector.rs:insert_single"]}
{"id": "C24", "title": "degree of a dense vector", "statement": "degree() of a dense tensor vector is the largest degree of a key it stores a coefficient for (0 when empty).", "quantifier": "every NLETTERS >= 2 and vector length with representable degree", "why_tests_cant": "All lengths.", "anchors": ["src/vector/implementation/simple_dense_vector.rs:VectorWithDegree::degree", "src/free_tensor/tensor_basis/mod.rs:index_to_degree"]}
{"id": "C25", "title": "Storage modes and resizing", "statement": "A read-only borrowed buffer is never written by any operation; a mutably borrowed buffer receives the writes until the vector grows; resize keeps the old coefficients and pads with zero.", "quantifier": "every dense vector, storage mode and sequence of operations", "why_tests_cant": "Histories of operations over aliased memory.", "anchors": ["src/vector/implementation/simple_dense_vector.rs:as_mut_slice", "src/vector/implementation/simple_dense_vector.rs:to_owned_with_size", "src/vector/implementation/simple_dense_vector.rs:resize", "src/vector/implementation/simple_dense_vector.rs:SimpleDenseVectorData"]}
{"id": "C26", "title": "Sparse addition and subtraction", "statement": "Sparse add_inplace/sub_inplace/uminus_inplace/scalar operations act coefficientwise (missing = zero), whatever order the hash map iterates in.", "quantifier": "all pairs of sparse vectors and every iteration order of the operand", "why_tests_cant": "Hash iteration order is unspecified and random per process.", "anchors": ["src/vector/implementation/simple_sparse_vector.rs:add_inplace", "src/vector/implementation/simple_sparse_vector.rs:sub_inplace", "src/vector/implementation/simple_sparse_vector.rs:uminus_inplace", "src/vector/implementation/simple_sparse_vector.rs:scalar_lmultiply_inplace", "src/vector/implementation/simple_sparse_vector.rs:scalar_rdivide_inplace"]}
{"id": "C27", "title": "Sparse vectors store no explicit zeros", "statement": "Any sequence of in-place operations on sparse vectors keeps them free of explicitly stored zero coefficients.", "quantifier": "all histories of sparse operations", "why_tests_cant": "Histories unbounded.", "anchors": ["src/vector/implementation/simple_sparse_vector.rs:add_inplace", "src/vector/implementation/simple_sparse_vector.rs:scalar_lmultiply_inplace", "src/vector/implementation/simple_sparse_vector.rs:insert_single", "src/vector/implementation/simple_sparse_vector.rs:from_iterator"]}
{"id": "C28", "title": "Sparse equality", "statement": "Two sparse vectors compare equal exactly when they store the same keys with equal values; it is symmetric and, for zero-free vectors, is equality of coefficient functions.", "quantifier": "all pairs of sparse vectors, every iteration order", "why_tests_cant": "All pairs and orders.", "anchors": ["src/vector/implementation/simple_sparse_vector.rs:PartialEq for SimpleSparseVector"]}
{"id": "C29", "title": "Dense and sparse from_iterator agree", "statement": "Building a dense and a sparse vector from the same list gives the same coefficients.", "quantifier": "every list of pairs", "why_tests_cant": "Duplicates in any position.", "anchors": ["src/vector/implementation/simple_dense_vector.rs:from_iterator", "src/vector/implementation/simple_sparse_vector.rs:from_iterator"]}
{"id": "C30", "title": "Value-returning sparse operations", "statement": "uminus/add/sub/scalar operations on sparse vectors return the same vector as the in-place forms.", "quantifier": "all sparse vectors", "why_tests_cant": "Must hold for every state.", "anchors": ["src/vector/implementation/simple_sparse_vector.rs:to_owned", "src/vector/traits/vector.rs:add"]}
{"id": "C31", "title": "Adding a scaled basis key", "statement": "add_scalar_multiply(k, s) / sub_scalar_multiply(k, s) / add_scalar_divide(k, r) add s, -s, 1/r to the coefficient of k and change nothing else.", "quantifier": "every vector, key and scalar, present or missing key", "why_tests_cant": "All states.", "anchors": ["src/vector/traits/extension.rs:VectorKeyExt"]}
{"id": "C32", "title": "Subtracting a divided basis key", "statement": "sub_scalar_divide(k, r) subtracts 1/r from the coefficient of k, whether or not k is present.", "quantifier": "every vector, key, rational", "why_tests_cant": "All states.", "anchors": ["src/vector/traits/extension.rs:sub_scalar_divide"]}
{"id": "C33", "title": "Tensor product", "statement": "Whenever multiply(a, b, Some(D)) of dense tensors returns, the result has, at each word w of length <= min(D, deg a + deg b), the coefficient sum over all splittings w = u v of a_u*b_v, and no other nonzero coefficients; it returns for tensors storing all words up to their degrees when the product has degree >= 1.", "quantifier": "every NLETTERS >= 2, pair of full-degree tensors, truncation degree; any coefficient type (exact order of additions given)", "why_tests_cant": "Convolution over all words and splittings; unchecked pointer writes.", "anchors": ["src/free_tensor/implementation/dense.rs:multiply_and_add_into_impl", "src/free_tensor/implementation/dense.rs:dense_tensor_multiply_into_buffer", "src/algebra/mod.rs:multiply"]}
{"id": "C34", "title": "multiply is memory-safe and total", "statement": "multiply never accesses memory out of bounds for any pair of dense tensors and any truncation degree.", "quantifier": "all dense tensors incl. empty ones and ones of partial degree, all truncation degrees", "why_tests_cant": "Unsafe pointer arithmetic for all sizes.", "anchors": ["src/free_tensor/implementation/dense.rs:multiply_and_add_into_impl", "src/free_tensor/implementation/dense.rs:dense_tensor_multiply_into_buffer"]}
{"id": "C35", "title": "Truncated tensor algebra laws", "statement": "Over exact scalars the truncated product is associative, bilinear and has from_key(empty) as unit, wherever the products involved are defined (see C34).", "quantifier": "all triples of full tensors and every truncation degree", "why_tests_cant": "Universal algebraic laws.", "anchors": ["src/free_tensor/implementation/dense.rs:multiply_and_add_into_impl", "src/algebra/mod.rs:multiply"]}
{"id": "C36", "title": "add_mul, sub_mul and commutator", "statement": "Wherever defined (see C34), add_mul adds a*b, sub_mul subtracts a*b, commutator is a*b - b*a: antisymmetric and satisfying the Jacobi identity up to the truncation degree.", "quantifier": "all full tensors, truncation degrees", "why_tests_cant": "Universal laws.", "anchors": ["src/algebra/mod.rs:add_mul", "src/algebra/mod.rs:sub_mul", "src/algebra/mod.rs:commutator"]}
{"id": "C37", "title": "multiply_inplace agrees with multiply", "statement": "a.multiply_inplace(b, D) leaves a equal to a.multiply(b, D), and is memory-safe.", "quantifier": "all full tensors and truncation degrees", "why_tests_cant": "All sizes, unsafe code.", "anchors": ["src/free_tensor/implementation/dense.rs:multiply_into_impl", "src/free_tensor/implementation/dense.rs:dense_tensor_multiply_inplace", "src/algebra/mod.rs:multiply_inplace"]}
{"id": "C38", "title": "Scaled in-place products", "statement": "mul_scal_lprod/rprod multiply by rhs*s and mul_rat_ldiv/rdiv by rhs/r.", "quantifier": "every algebra with a correct multiply_into_impl, all scalars", "why_tests_cant": "All states.", "anchors": ["src/algebra/mod.rs:mul_scal_lprod", "src/algebra/mod.rs:mul_scal_rprod", "src/algebra/mod.rs:mul_rat_ldiv", "src/algebra/mod.rs:mul_rat_rdiv"]}
{"id": "C39", "title": "exp is the truncated exponential", "statement": "exp(x) = sum_{k<=MAX_DEGREE} x^k/k! up to the truncation degree.", "quantifier": "every FreeTensor implementation whose algebra operations are correct, every MAX_DEGREE and x", "why_tests_cant": "Infinite family of degrees and arguments.", "anchors": ["src/free_tensor/mod.rs:exp"]}
{"id": "C40", "title": "fmexp multiplies by an exponential", "statement": "a.fmexp(x) = a * exp(x without its constant term), up to the truncation degree.", "quantifier": "as for exp", "why_tests_cant": "As for exp.", "anchors": ["src/free_tensor/mod.rs:fmexp"]}
{"id": "C41", "title": "log is the truncated logarithm", "statement": "log(x) = sum_{1<=k<=MAX_DEGREE} (-1)^(k+1) (x-1)^k/k up to the truncation degree.", "quantifier": "as for exp", "why_tests_cant": "As for exp.", "anchors": ["src/free_tensor/mod.rs:log"]}
{"id": "C42", "title": "Deref wrappers are transparent", "statement": "Every Vector operation on a type that derefs to a vector (e.g. DenseTensor) behaves as on the wrapped vector.", "quantifier": "all vector operations and states", "why_tests_cant": "Method resolution makes some calls recurse; needs a termination argument.", "anchors": ["src/vector/implementation/deref_impl.rs:Vector for V", "src/free_tensor/implementation/dense.rs:DenseTensor"]}
{"id": "C43", "title": "Hall basis dimensions", "statement": "hall_set_size(w, d) terminates and is the sum over 1<=n<=d of Witt's number (1/n) sum_{e|n} mobius(e) w^(n/e).", "quantifier": "every width and depth whose powers fit in isize", "why_tests_cant": "Number theory over all widths and depths; tests check width 5 up to depth 5.", "anchors": ["src/lie/lie_basis/degree_range_map.rs:hall_set_size", "src/lie/lie_basis/degree_range_map.rs:mobius", "src/lie/lie_basis/degree_range_map.rs:hall_set_level_size"]}
{"id": "C44", "title": "Degree range map", "statement": "After new(n) and any sequence of grow calls, get(d) is hall_set_size(NLETTERS, d) for every covered degree and an error otherwise; grow never shrinks or changes entries; find_deg(k) returns the degree whose index range contains the 0-based index k and errors beyond the last.", "quantifier": "every history of grow calls, width, degree and key", "why_tests_cant": "Histories and all keys.", "anchors": ["src/lie/lie_basis/degree_range_map.rs:DegreeRangeMap"]}
{"id": "C45", "title": "Hall key packing", "statement": "A Hall key packs (key, left parent, right parent, size) without loss: the accessors return the packed fields whenever key and parents are below 2^18 and size below 2^10; from_letter(l) is a letter with key l and no left parent.", "quantifier": "all field values in range, both profiles", "why_tests_cant": "2^64 combinations.", "anchors": ["src/lie/lie_basis/hall_key.rs:make_key_data", "src/lie/lie_basis/hall_key.rs:get_key", "src/lie/lie_basis/hall_key.rs:get_lparent", "src/lie/lie_basis/hall_key.rs:get_rparent", "src/lie/lie_basis/hall_key.rs:size", "src/lie/lie_basis/hall_key.rs:from_letter"]}
{"id": "C46", "title": "get_hall_set returns", "statement": "Concurrent calls of get_hall_set from any number of threads under any schedule each return a hall set, and all calls for one width share one object.", "quantifier": "every number of threads and every interleaving", "why_tests_cant": "Schedules cannot be enumerated by tests.", "anchors": ["src/lie/lie_basis/hall_set.rs:get_hall_set", "src/lie/lie_basis/hall_set.rs:HALL_SET_CACHE"]}
{"id": "C47", "title": "Hall set lookups", "statement": "key_details/lparent_details/rparent_details never panic: for every key they give the parents or HallSetTooSmall; grow_up(d) reaches degree d and makes the keys of degree <= d available.", "quantifier": "every key and every history of grow_up", "why_tests_cant": "All keys and histories.", "anchors": ["src/lie/lie_basis/hall_set.rs:HallSetInner"]}
{"id": "C48", "title": "Hall key parents", "statement": "lparent() and parent() of a Hall key return the keys of its left and right parent.", "quantifier": "every Hall key", "why_tests_cant": "All keys.", "anchors": ["src/lie/lie_basis/hall_key.rs:lparent", "src/lie/lie_basis/hall_key.rs:parent"]}
{"id": "C49", "title": "Coefficient constants and from_degree", "statement": "from_degree is exact on every degree up to u32::MAX for f64 and up to 2^24 for f32; from_rational(n, d) is n/d.", "quantifier": "every u32 degree", "why_tests_cant": "2^32 values; rounding.", "anchors": ["src/coefficients/floating_point_fields.rs:from_degree", "src/coefficients/mod.rs:from_rational"]}
{"id": "C50", "title": "Floating-point coefficient arithmetic", "statement": "For f32 and f64 the trait operations return the exact result correctly rounded (nearest, ties to even) whenever it is in range and always a value of the type; addition and multiplication are commutative on all values; ONE is neutral, ZERO is neutral up to the sign of zero, MONE and uminus agree, x - x is ZERO for finite x; == is equality of numbers and reflexive except on NaN.", "quantifier": "all values of both types, including zeros, infinities and NaN", "why_tests_cant": "2^64 pairs of f32 values and 2^128 of f64.", "anchors": ["src/coefficients/floating_point_fields.rs:CoefficientField for f32, f64"]}
{"id": "C51", "title": "Concatenation past the capacity is refused", "statement": "Concatenating two keys whose words together are longer than a key can hold does not silently give a key of some other word: it panics.", "quantifier": "every alphabet size and every pair of valid words with total length above max_depth, both profiles", "why_tests_cant": "Holds for every alphabet and pair of words; the loss only shows at lengths tests do not reach.", "anchors": ["src/free_tensor/tensor_basis/tensor_key.rs:concatenate"]}
{"id": "C52", "title": "Replacing one letter of a key", "statement": "Setting the i-th letter (from the right) of a key to l gives the key of the same word with that one letter replaced, and panics when i is outside the word. Key iteration relies on this.", "quantifier": "every alphabet size, valid word, position and letter", "why_tests_cant": "All words, positions and alphabets; wrong bits are cleared only at some positions.", "anchors": ["src/free_tensor/tensor_basis/tensor_key.rs:set_letter"]}
{"id": "C53", "title": "Expressions evaluate in the truncated free algebra", "statement": "Any nested expression built from words with +, -, negation, scalar multiples, products and commutators evaluates, with every product truncated at degree D, to the element the expression denotes in the free associative algebra, truncated at D; intermediate truncation loses nothing that belongs to the result, and no step panics or is undefined behaviour.", "quantifier": "every expression of every size in valid words of length at most D, every alphabet size from 2, every truncation degree whose dimension is representable, every commutative ring, both profiles", "why_tests_cant": "Expressions are an inductive family of unbounded size; failures depend on the degrees of subexpressions.", "anchors": ["src/free_tensor/implementation/dense.rs:multiply_and_add_into_impl", "src/vector/implementation/simple_dense_vector.rs:add_inplace", "src/algebra/mod.rs:commutator"]}
{"id": "C54", "title": "The product of words is concatenation", "statement": "Multiplying s times the word u by t times the word v gives exactly the vector of s*t times the key concatenate(u, v); if that word is longer than the truncation degree, the product is all zeros.", "quantifier": "every alphabet of 2 to 2^31 letters, all pairs of valid words not both empty, scalars of any commutative ring, truncation degrees, both profiles", "why_tests_cant": "Relates bit packing of keys, index arithmetic and the product kernel for all words; tests see a few.", "anchors": ["src/free_tensor/implementation/dense.rs:multiply_and_add_into_impl", "src/free_tensor/tensor_basis/tensor_key.rs:concatenate", "src/vector/implementation/simple_dense_vector.rs:from_key_scalar"]}
{"id": "C55", "title": "Truncation only cuts off", "statement": "A product with a lower truncation degree is a prefix of the product with a higher one, bit for bit, and it returns whenever the longer one does; operand coefficients above the truncation degree have no influence.", "quantifier": "all operands, all pairs of truncation degrees, all coefficient types without assuming any law (so floats included), both profiles", "why_tests_cant": "A relation between two runs over all operands and degree pairs, including the order of floating-point additions.", "anchors": ["src/free_tensor/implementation/dense.rs:multiply_and_add_into_impl"]}
{"id": "C56", "title": "The product is graded", "statement": "If a has terms only in degrees la..ua and b only in degrees lb..ub, their product has terms only in degrees la+lb..ua+ub; in particular the product of homogeneous tensors is homogeneous.", "quantifier": "all full operands, all degree ranges, all truncation degrees, any commutative ring, both profiles", "why_tests_cant": "Quantifies over all operands and degree ranges.", "anchors": ["src/free_tensor/implementation/dense.rs:multiply_and_add_into_impl"]}
{"id": "C57", "title": "No letter is special", "statement": "Renaming the letters of both factors renames the letters of the product and changes nothing else, bit for bit.", "quantifier": "every map of the alphabet into itself, all full operands, all coefficient types without laws, all truncation degrees, both profiles", "why_tests_cant": "A symmetry over all operands and all renamings; a kernel that treats one block of a level differently passes small examples.", "anchors": ["src/free_tensor/implementation/dense.rs:multiply_and_add_into_impl"]}
{"id": "C58", "title": "Printing a dense vector shows its coefficients with their keys", "statement": "Display of a dense vector prints every coefficient followed by its key, in the order of the basis.", "quantifier": "all vectors, all coefficient types, every alphabet, both profiles", "why_tests_cant": "Quantifies over all vectors and alphabets; the failure is a call that never returns, which a test can only time out on.", "anchors": ["src/vector/implementation/simple_dense_vector.rs:fmt", "src/free_tensor/tensor_basis/tensor_key.rs:fmt", "src/free_tensor/tensor_basis/key_iterator.rs:next"]}
{"id": "C59", "title": "Iterating over a sparse vector visits each stored key once with its value", "statement": "After any sequence of operations, iterating over a sparse vector visits every key that get finds exactly once, with the value get returns, and nothing else; rebuilding a sparse or a dense vector from the items in any order gives the same coefficients.", "quantifier": "every history of operations including changes of the hash map order, all coefficient types, all orders of the items", "why_tests_cant": "Quantifies over all histories and all hash map orders.", "anchors": ["src/vector/implementation/simple_sparse_vector.rs:into_iter", "src/vector/implementation/simple_sparse_vector.rs:from_iterator", "src/vector/implementation/simple_dense_vector.rs:from_iterator"]}
{"id": "C60", "title": "Slice access of dense vectors", "statement": "get_slice returns exactly the coefficients at the positions asked for, and None exactly when a position is outside the vector or the range is decreasing; the index types agree with each other; changes through get_mut_slice reach exactly those positions and never a borrowed buffer; the slice of a degree holds exactly the coefficients of the words of that length.", "quantifier": "all vectors, all ranges, all index types, any function applied through the slice", "why_tests_cant": "Quantifies over all vectors, ranges and modifications.", "anchors": ["src/vector/traits/dense_vector.rs:get_slice", "src/vector/traits/dense_vector.rs:get_mut_slice"]}
{"id": "C61", "title": "The unit is neutral for floating-point tensors", "statement": "Multiplying a floating-point tensor by the unit, from either side, gives a tensor that compares equal to it wherever it has no NaN.", "quantifier": "f32 and f64, all tensors with infinities and signed zeros, the unit stored with or without trailing zeros, all truncation degrees, both profiles", "why_tests_cant": "Tests use finite coefficients and the shortest unit; the failure needs infinities and a padded unit.", "anchors": ["src/free_tensor/implementation/dense.rs:multiply_and_add_into_impl", "src/coefficients/floating_point_fields.rs:CoefficientField for f32, f64"]}
{"id": "C62", "title": "Floating-point sums do not depend on the order of the summands", "statement": "a + b and b + a are the same, bit for bit.", "quantifier": "f32 and f64, all dense vectors of all sizes, all sparse vectors, every value including NaN, infinities and signed zeros", "why_tests_cant": "Equality of floats hides the sign of zero; quantifies over all vectors.", "anchors": ["src/vector/implementation/simple_dense_vector.rs:add_inplace", "src/vector/implementation/simple_sparse_vector.rs:add_inplace"]}
{"id": "C63", "title": "The floating-point product is accurate", "statement": "If a coefficient of the product is finite, all coefficients of the factors that enter it are finite and it differs from the exact sum of a_u b_v over the n splittings of its word by at most ((1+e)^(n+1) - 1) sum |a_u||b_v| + n (1+e)^n h, with e half a unit in the last place of one and h half the least positive number. If the factors are finite and the magnitudes leave room for that error, the coefficient is finite.", "quantifier": "f32 and f64, all operands, all words, all truncation degrees, both profiles", "why_tests_cant": "An error bound over all operands including subnormal and overflowing ones.", "anchors": ["src/free_tensor/implementation/dense.rs:multiply_and_add_into_impl", "src/coefficients/floating_point_fields.rs:CoefficientField for f32, f64"]}
{"id": "C64", "title": "Integer tensors multiply exactly in floating point", "statement": "If all coefficients are integers and the sum of |a_u||b_v| is at most 2^24 (f32) or 2^53 (f64), the coefficient of the product is exact; neither bound can be raised.", "quantifier": "f32 and f64, all integer tensors, all words, all truncation degrees, both profiles", "why_tests_cant": "Quantifies over all integer tensors; the order of additions matters for intermediate rounding.", "anchors": ["src/free_tensor/implementation/dense.rs:multiply_and_add_into_impl", "src/coefficients/floating_point_fields.rs:CoefficientField for f32, f64"]}
{"id": "C65", "title": "Whole programs over dense tensors are memory safe and mean what they say", "statement": "A program that builds dense tensors from words and term lists, copies, swaps, clears, edits, negates, adds, subtracts, scales, divides and multiplies them never performs an out-of-bounds access, and every register ends with exactly the stored coefficients the reference semantics on words gives.", "quantifier": "all programs of any length over any number of registers, all alphabets, all coefficient types (no law assumed, so also floats), all degrees whose level size fits in 64 bits, both profiles", "why_tests_cant": "Whether a product is safe depends on the whole history of the operands; quantifies over all histories.", "anchors": ["src/free_tensor/implementation/dense.rs:multiply_and_add_into_impl", "src/vector/implementation/simple_dense_vector.rs:SimpleDenseVector", "src/algebra/mod.rs:Algebra"]}
{"id": "C66", "title": "Programs over exact coefficients compute in the free associative algebra", "statement": "At the end of a program in which every product is defined, reading a register at a word gives the coefficient of that word in the element of the free associative algebra the program denotes, every product cut off at its own degree. This includes programs that divide a register (every coefficient is divided as the coefficient type divides) and that change a single entry in place (the coefficient of that word changes if the register has room for words of its length, and nothing changes otherwise).", "quantifier": "all programs of any length, all alphabets, all commutative rings, both profiles", "why_tests_cant": "Quantifies over all histories of operations.", "anchors": ["src/free_tensor/implementation/dense.rs:multiply_and_add_into_impl", "src/vector/implementation/simple_dense_vector.rs:SimpleDenseVector", "src/algebra/mod.rs:Algebra", "src/vector/implementation/simple_dense_vector.rs:get_mut", "src/vector/implementation/simple_dense_vector.rs:scalar_rdivide_inplace"]}
{"id": "C67", "title": "Dense and sparse vectors are interchangeable in linear programs", "statement": "A program of assignments, sums, differences, negations and scalar multiples gives the same coefficient at every word of every register, whether its registers are dense or sparse vectors.", "quantifier": "all linear programs of any length without a word listed twice in one list of terms, all alphabets, all commutative rings, both profiles", "why_tests_cant": "The two representations differ after every step (stored zeros, dropped entries, sizes); quantifies over all histories.", "anchors": ["src/vector/implementation/simple_dense_vector.rs:SimpleDenseVector", "src/vector/implementation/simple_sparse_vector.rs:SimpleSparseVector"]}
{"id": "C68", "title": "Reading words backwards exchanges the factors of a product", "statement": "If a' and b' have the coefficients of a and b at the reversed words, then the product b' a' has the coefficients of a b at the reversed words: the product of dense tensors treats its left and right factor alike, at every truncation degree.", "quantifier": "all alphabets of two or more letters, all tensors of full size, all truncation degrees, all commutative rings, both profiles", "why_tests_cant": "The product loop splits words by integer offsets that are not symmetric in the two factors; a wrong stride can agree on palindromic samples.", "anchors": ["src/free_tensor/implementation/dense.rs:multiply_and_add_into_impl", "src/algebra/mod.rs:multiply"]}
{"id": "C69", "title": "Tensors without constant term are nilpotent and 1 - x is invertible", "statement": "A product of more than D tensors without constant term, each product truncated at degree D, is zero. Hence 1 + x + ... + x^D, computed by Horner's rule with from_key, multiply and add, is a two-sided inverse of 1 - x up to degree D. Conversely, constant terms of an inverse pair multiply to one.", "quantifier": "all alphabets of two or more letters, all degrees that fit, all tensors without constant term, all commutative rings, both profiles", "why_tests_cant": "A statement about D-fold products for every D.", "anchors": ["src/free_tensor/implementation/dense.rs:multiply_and_add_into_impl", "src/algebra/mod.rs:multiply", "src/vector/implementation/simple_dense_vector.rs:add"]}
{"id": "C70", "title": "Letters can be replaced by elements of any associative algebra", "statement": "Putting elements of any associative algebra (matrices, operators, numbers) for the letters turns the product of dense tensors into the product of the algebra, degree by degree up to the truncation degree, and as a whole if nothing is truncated; sums go to sums, the unit to the unit and commutators to commutators. In particular commutators vanish when the letters commute.", "quantifier": "all associative algebras over all commutative rings, all elements put for the letters, all tensors of full size, all alphabets of two or more letters, both profiles", "why_tests_cant": "Quantifies over all algebras: this is the universal property of the free associative algebra.", "anchors": ["src/free_tensor/implementation/dense.rs:multiply_and_add_into_impl", "src/algebra/mod.rs:multiply", "src/algebra/mod.rs:commutator"]}
{"id": "C71", "title": "Commutators of letters are Lie elements", "statement": "Every tensor made from multiples of letters with commutator, add, sub, uminus and scalar multiplication has constant term zero, and the sum of its coefficients over all shuffles of two non-empty words is zero (Ree's criterion for Lie elements).", "quantifier": "all expressions, all alphabets of two or more letters, all degrees that fit, all pairs of non-empty words, all commutative rings, both profiles", "why_tests_cant": "Quantifies over all nestings of commutators and all pairs of words.", "anchors": ["src/algebra/mod.rs:commutator", "src/free_tensor/implementation/dense.rs:multiply_and_add_into_impl", "src/vector/implementation/simple_dense_vector.rs:SimpleDenseVector"]}
{"id": "C72", "title": "Provided vector methods are right for every implementation", "statement": "If the required methods of a VectorArithmetic implementation compute coefficient-wise, then every provided method (the out-of-place forms and the scaled additions) does too, and so do the key-level extension methods given correct get and get_mut; the arithmetic of dense vectors and the access methods of sparse vectors meet these conditions. sub_scalar_divide on keys is described as it is: it adds 1/r to an existing coefficient and inserts -1/r otherwise.", "quantifier": "all types implementing the trait with correct required methods, all vectors, scalars, rationals and keys", "why_tests_cant": "Quantifies over all implementations of a trait, including future ones.", "anchors": ["src/vector/traits/vector.rs:Vector", "src/vector/traits/extension.rs:VectorKeyExt", "src/vector/implementation/simple_dense_vector.rs:SimpleDenseVector", "src/vector/implementation/simple_sparse_vector.rs:SimpleSparseVector"]}
{"id": "C73", "title": "Operators of the vector wrapper", "statement": "`a + b`, `a - b` and `a * s` on wrapped vectors have the coefficients of the sum, difference and multiple.", "quantifier": "all vector types with correct required methods, all vectors and scalars", "why_tests_cant": "The wrapper is not part of the compiled crate, so no test can run it; and the claim is for every vector type.", "anchors": ["src/vector/wrapper.rs:VectorWrapper"]}
{"id": "C74", "title": "Texts identify what they print", "statement": "Two keys (tensor keys, Hall keys) with the same printed text are the same key, and two errors with the same text are the same error.", "quantifier": "all pairs of keys, all pairs of errors, both profiles", "why_tests_cant": "Quantifies over all pairs of keys; the collisions are between specific pairs.", "anchors": ["src/free_tensor/tensor_basis/tensor_key.rs:Debug", "src/lie/lie_basis/hall_key.rs:Display", "src/lie/lie_basis/hall_key.rs:Debug", "src/lie/lie_basis/hall_set.rs:HallSetError", "src/lie/lie_basis/degree_range_map.rs:DegreeRangeMapError"]}
{"id": "C75", "title": "A shared Hall set object is linearizable and free of deadlock", "statement": "Whatever any number of threads do with clones of one HallSetObject, the calls in the order in which they finish have exactly the outcomes they would have on one thread, each thread's calls stay in order, while one thread is inside grow_up no other thread is inside a call, some thread can always go on while calls remain, and every run ends after at most two steps per call with each thread having made all its calls or all up to one that panicked. With the grow_up of the crate every call that finishes after a grow_up is an error.", "quantifier": "all numbers of threads, all lists of calls, all schedules, all reader policies of the lock that admit readers when nobody waits to write, any grow_up behind the lock", "why_tests_cant": "Quantifies over all interleavings.", "anchors": ["src/lie/lie_basis/hall_set.rs:HallSetObject"]}
{"id": "C76", "title": "Commutators of floating-point tensors are accurate", "statement": "Every finite coefficient of commutator(a, b) with f32 or f64 coefficients differs from the exact value of the sum of a_u b_v - b_u a_v by at most ((1+eps)^(2n+1)-1) times the sum of magnitudes plus 2n(1+eps)^(2n) eta, n the number of splittings; coefficients do not overflow while magnitudes leave room for this error; integer coefficients with a sum of magnitudes up to 2^24 (f32) or 2^53 (f64) give the exact commutator.", "quantifier": "all widths, degrees and tensors of f32 or f64 numbers, all truncation degrees, all words", "why_tests_cant": "Rounding errors depend on the values; a worst-case bound over all inputs cannot be sampled.", "anchors": ["src/algebra/mod.rs:commutator", "src/algebra/mod.rs:add_mul", "src/algebra/mod.rs:sub_mul", "src/coefficients/floating_point_fields.rs:CoefficientField for f32, f64"]}
{"id": "C77", "title": "Antisymmetry of commutators in floating point", "statement": "With f32 or f64 coefficients commutator(a, b) compares equal to minus commutator(b, a), and commutator(a, a) is zero, wherever all numbers are finite.", "quantifier": "all widths, degrees and tensors of finite f32 or f64 numbers, all words", "why_tests_cant": "Holds for small integers, which tests use; the failures need coefficients of very different magnitude in one word.", "anchors": ["src/algebra/mod.rs:commutator", "src/coefficients/floating_point_fields.rs:CoefficientField for f32, f64"]}
{"id": "C78", "title": "from_degree makes room for its degree", "statement": "from_degree(d) of a dense tensor vector is a zero vector storing a coefficient for every word of degree up to d.", "quantifier": "every NLETTERS >= 2 and degree d with representable dimension", "why_tests_cant": "All widths and degrees; the function is private and has no test.", "anchors": ["src/vector/implementation/simple_dense_vector.rs:from_degree", "src/vector/implementation/simple_dense_vector.rs:from_dimension", "src/free_tensor/tensor_basis/mod.rs:start_of_degree"]}
{"id": "C79", "title": "A debug build panics or does what the release build does", "statement": "Overflow checks and debug_assert! are the only differences between the two build profiles. So for every function of the crate that computes with machine integers (tensor keys, the tensor basis and its iterator, dense vectors, products, exp/fmexp/log, Hall set sizes, Hall sets and Hall keys) and all arguments, valid or not, the debug build panics or has exactly the outcome of the release build: the same value, the same undefined behaviour, the same endless recursion. The same holds for any sequence of operations, so a run that returns in a debug build returns the same values in release.", "quantifier": "all arguments of each function, all alphabet sizes, all vectors and coefficients, all programs", "why_tests_cant": "Tests run in one profile and on inputs that do not overflow; the claim is about every input, including those where release arithmetic wraps.", "anchors": ["src/implementation.rs:make_mask", "src/free_tensor/tensor_basis/tensor_key.rs:from_letters", "src/free_tensor/tensor_basis/tensor_key.rs:push_front", "src/free_tensor/tensor_basis/mod.rs:start_of_degree", "src/free_tensor/tensor_basis/mod.rs:index_to_key", "src/free_tensor/tensor_basis/key_iterator.rs:next", "src/free_tensor/implementation/dense.rs:multiply_and_add_into_impl", "src/free_tensor/implementation/dense.rs:multiply_into_impl", "src/free_tensor/mod.rs:exp", "src/free_tensor/mod.rs:fmexp", "src/free_tensor/mod.rs:log", "src/lie/lie_basis/degree_range_map.rs:hall_set_size", "src/lie/lie_basis/hall_key.rs:make_key_data", "src/lie/lie_basis/hall_set.rs:HallSetObject"]}
{"id": "C80", "title": "Error of whole floating-point programs", "statement": "A program that builds tensors over f32 or f64 from words with sums, differences, negations, scalar multiples, truncated products and commutators, none of whose products has two constant factors, returns. Every finite coefficient of its result differs from the exact coefficient of the same expression over the rationals by at most the amount by which the roundings enlarge the magnitude of the expression (the sum of the absolute values of all terms of its expansion); in closed form by ((1+u)^k - 1) times that magnitude plus what underflow adds, k being the number of successive roundings. If the scalars are finite and no enlarged magnitude exceeds the largest finite number, no coefficient is infinite or not a number. If the scalars are integers and no magnitude exceeds 2^24 (f32) or 2^53 (f64), the result is exact.", "quantifier": "all expressions of any size, all depths and alphabet sizes within the key capacity, all valid scalars, both formats and both build profiles", "why_tests_cant": "Tests compare a few results against stored numbers with a tolerance; the claim bounds the error of every coefficient of every expression, including how errors multiply through nested products.", "anchors": ["src/coefficients/floating_point_fields.rs:CoefficientField for f32, f64", "src/algebra/mod.rs:multiply", "src/algebra/mod.rs:commutator", "src/free_tensor/mod.rs:exp", "src/free_tensor/mod.rs:fmexp", "src/free_tensor/mod.rs:log", "src/free_tensor/implementation/dense.rs:multiply_and_add_into_impl", "src/free_tensor/implementation/dense.rs:multiply_into_impl"]}
{"id": "C81", "title": "Keys in release builds: wrong letters and overlong keys", "statement": "In release builds from_letters accepts every list of u32 values of length at most max_depth, whether or not they are letters: the data is the polynomial with the wrapped values of letter minus one as coefficients in base 2^b, modulo 2^64, where b is the least number with N < 2^b. to_letters of any key that fits in 64 bits gives the base 2^b digits of its data plus one. The letters come back (last first) if and only if all are between 1 and 2^b, or b is 32; otherwise the word is silently changed. push_front accepts every key and every u32: it adds the low b bits of the wrapped letter minus one at bit size*b modulo 64. While the letters fit in 64 bits, also past max_depth, it keeps the letters of the key and adds the new one in front if and only if that is between 1 and 2^b, or b is 32.", "quantifier": "all alphabet sizes from 1 to 2^32-1, all keys, all lists of u32 values within max_depth, all u32 letters", "why_tests_cant": "The crate's tests only use valid letters and debug builds, where the assertions stop every other input; the claim is about what release builds do with all the inputs that debug builds reject.", "anchors": ["src/free_tensor/tensor_basis/tensor_key.rs:from_letters", "src/free_tensor/tensor_basis/tensor_key.rs:to_letters", "src/free_tensor/tensor_basis/tensor_key.rs:push_front", "src/free_tensor/tensor_basis/tensor_key.rs:push_front_raw", "src/implementation.rs:make_mask"]}
{"id": "C82", "title": "Change of coefficients: operations commute with homomorphisms, and coefficients do not decide how a computation ends", "statement": "If a function between two coefficient types preserves zero, one, minus one, negation, addition, subtraction and multiplication (and division by corresponding rationals, where an operation divides), then applying it to every coefficient before an operation gives the same as applying it afterwards, with the same panics and undefined behaviour. This holds for every method of dense vectors that does not itself compare coefficients, for the products of dense tensors, for nested expressions and for whole programs, also for functions that are not injective, such as reduction modulo n. The in-place products, the exponentials and the logarithm compare coefficients: for them the function must also preserve equality and inequality. So it must for sparse vectors to store the same entries; without that, the coefficients of the results still correspond, while the zero entries that are stored may differ. Whether a program over dense tensors returns, panics or has undefined behaviour, and the sizes of its results, depend on the sizes of the operands only, never on the coefficients or their type. Any set of coefficients that is closed under the operations is never left; in particular computations with representable floating-point numbers give representable numbers.", "quantifier": "all pairs of coefficient types and maps preserving the operations, all bases for vectors, all alphabets for tensors, all operands, both build profiles", "why_tests_cant": "The crate's tests use f32 and f64 with a few literals; the claim compares runs of generic code at all pairs of coefficient types, which cannot be enumerated.", "anchors": ["src/coefficients/mod.rs:CoefficientField", "src/vector/implementation/simple_dense_vector.rs:SimpleDenseVector", "src/vector/implementation/simple_sparse_vector.rs:SimpleSparseVector", "src/free_tensor/implementation/dense.rs:multiply_and_add_into_impl", "src/free_tensor/implementation/dense.rs:multiply_into_impl", "src/algebra/mod.rs:Algebra", "src/free_tensor/mod.rs:exp", "src/free_tensor/mod.rs:fmexp", "src/free_tensor/mod.rs:log"]}
{"id": "C83", "title": "The iteration order of the hash map is unobservable", "statement": "Two runs of the same program over sparse vectors, in which the hash maps iterate in different orders that may change at any time, end the same way, find the same coefficient for every key, and give the same answers to equality tests; the stored entries are the same up to order. Converting a sparse vector to a dense one gives identical results for every order, if the keys have distinct indices, as all valid tensor keys do. No law is assumed of the coefficients, so this holds for floating-point numbers exactly. It needs distinct keys: the dense sum of several floating-point items for one key depends on their order.", "quantifier": "all programs, all orders of all hash maps at all times, all key types for single calls, all coefficient types, both build profiles", "why_tests_cant": "Hash maps are seeded at random, so a test sees a few of the n! orders per vector and never the same ones again.", "anchors": ["src/vector/implementation/simple_sparse_vector.rs:add_inplace", "src/vector/implementation/simple_sparse_vector.rs:sub_inplace", "src/vector/implementation/simple_sparse_vector.rs:eq", "src/vector/implementation/simple_sparse_vector.rs:into_iter", "src/vector/implementation/simple_sparse_vector.rs:from_iterator", "src/vector/implementation/simple_dense_vector.rs:from_iterator"]}
{"id": "C84", "title": "Signs and powers of two go through floating-point products unchanged", "statement": "With f32 or f64 coefficients, changing the sign of a factor of a truncated product changes the signs of all coefficients of the product and nothing else, also where infinities and NaN occur, up to the signs of zeros; changing the signs of both factors leaves the product identical. Multiplying a factor by 2^k (k >= 0) and then multiplying gives the same coefficients as multiplying and then scaling, wherever the results are finite and no product of two coefficients underflows. More generally the coefficients may be scaled by different powers of two if the total exponent is the same for all splittings of a word: scaling every letter by 2^k multiplies the coefficient of a word w by exactly 2^(k|w|). Without the condition on underflow this is false.", "quantifier": "both float formats, all alphabet sizes, all stored tensors with degrees whose product fits, all depths, all words, all k, both build profiles", "why_tests_cant": "Equality of floating-point results is bitwise and holds only because rounding to even is symmetric and invariant under shifts of the exponent; samples of values cannot establish this for sums of any number of rounded products, nor find where underflow breaks it.", "anchors": ["src/free_tensor/implementation/dense.rs:multiply_and_add_into_impl", "src/coefficients/floating_point_fields.rs:CoefficientField for f32, f64", "src/vector/implementation/simple_dense_vector.rs:uminus", "src/vector/implementation/simple_dense_vector.rs:scalar_lmultiply"]}
{"id": "C85", "title": "Vectors built from many floating-point terms are accurate", "statement": "from_iterator over f32 or f64 terms returns; each finite coefficient differs from the exact sum of the n values given for its word by at most ((1+u)^(n-1) - 1) times the sum of their magnitudes, u = 2^-24 or 2^-53, with no further error from underflow, and a coefficient is finite only if all its values are. It is finite if (1+u)^(n-1) times the sum of the magnitudes is at most the largest finite number. Two orders of the terms differ by at most twice the bound. If the values are integers whose magnitudes add up to at most 2^24 or 2^53, the sums are exact and every order gives bitwise the same vector, also the signs of zeros.", "quantifier": "both float formats, all alphabet sizes, all lists of terms with valid words whose vector fits, all permutations, both build profiles", "why_tests_cant": "Rounding errors depend on all values and their order; the bound and the independence of order hold for lists of every length and cannot be sampled.", "anchors": ["src/vector/implementation/simple_dense_vector.rs:from_iterator", "src/coefficients/floating_point_fields.rs:CoefficientField for f32, f64"]}
{"id": "C86", "title": "Floating-point products of words and of sparse tensors are rounded once", "statement": "With f32 or f64 coefficients, a coefficient of a product to which only one term a_u b_v contributes, the others having a zero and a finite factor, is that product rounded once: adding the zero terms changes nothing, except that a zero loses its sign. A coefficient without any term is +0. So the product of two words with finite coefficients is bitwise the concatenated word with the rounded product of the coefficients; multiplying a finite tensor by a word from the left or right shifts its coefficients exactly and gives +0 elsewhere; and the product of tensors that vanish outside ranges of degrees vanishes outside the sum of the ranges.", "quantifier": "both float formats, all alphabet sizes, all stored tensors, all words and depths, both build profiles", "why_tests_cant": "That accumulating any number of signed zeros around one term has no effect, for values of every magnitude, is a statement about all positions and all floating-point values.", "anchors": ["src/free_tensor/implementation/dense.rs:multiply_and_add_into_impl", "src/coefficients/floating_point_fields.rs:CoefficientField for f32, f64", "src/vector/implementation/simple_dense_vector.rs:from_key"]}
{"id": "C87", "title": "Exponentials and logarithms computed with the dense tensor operations are right", "statement": "The provided exp and log are wrong (C39, C41), but a user can compute both by Horner's rule with the products, sums and divisions of dense tensors. That program returns in both profiles; the exponential has at every word of length at most D the coefficient of 1 + x + ... + x^D/D!, the logarithm of g that of y - y^2/2 + ... with y = g - 1, and both are zero at longer words. Over a field of characteristic zero log(exp x) = x when x has no constant term, exp(log g) = g when g has constant term 1, exp(x) exp(-x) = 1 on both sides, and exp(x) exp(y) = exp(x + y) whenever the truncated products xy and yx agree. The exponential of a combination of letters has at a word the product of the coefficients of the letters divided by the factorial of the length.", "quantifier": "all alphabet sizes from two, all truncation degrees within the index range, all full dense tensors, every field, both build profiles", "why_tests_cant": "The identities hold for all tensors and truncation degrees; tests see single tensors at small degrees, and rounding hides small errors.", "anchors": ["src/free_tensor/implementation/dense.rs:multiply_and_add_into_impl", "src/vector/implementation/simple_dense_vector.rs:scalar_rdivide_inplace", "src/vector/traits/vector.rs:scalar_rdivide", "src/free_tensor/mod.rs:exp"]}
{"id": "C88", "title": "Signatures satisfy the shuffle identities and Chen's identity", "statement": "The product, computed with the dense tensor operations, of the exponentials (C87) of the increments of a path returns a tensor with constant term 1 whose coefficients satisfy the shuffle identities up to the truncation degree: the product of the coefficients at u and v is the sum of the coefficients over the shuffles of u and v, whenever the increments are Lie elements (for instance combinations of letters). Such tensors are closed under the product, their logarithm is a Lie element (in particular log(exp x exp y) is, Baker-Campbell-Hausdorff), and they are inverted on both sides by reversing words with the sign of the length. The signature of a concatenated path is the product of the signatures (Chen), the signature of the path run backwards has the signed coefficients of the reversed words, and the coefficients at the letters are the total increments.", "quantifier": "all alphabet sizes from two, all truncation degrees within the index range, all lists of increments, every field of characteristic zero, both build profiles", "why_tests_cant": "There is one identity for every pair of words, and they must hold for every list of increments.", "anchors": ["src/free_tensor/implementation/dense.rs:multiply_and_add_into_impl", "src/free_tensor/mod.rs:exp", "src/free_tensor/mod.rs:fmexp", "src/free_tensor/mod.rs:log", "src/vector/implementation/simple_dense_vector.rs:SimpleDenseVector"]}
{"id": "C89", "title": "Floating-point exponentials and logarithms of tensors are accurate", "statement": "The truncated exponential of a dense tensor computed in f32 or f64 with the operations of the crate (C87) returns, and every finite coefficient at a word of length n is within ((1+u)^(D(n+4))-1) times the coefficient of the exponential of the magnitudes, plus an explicit underflow term, of the exact exponential of the values stored; for an increment of letters the exact coefficient is the product of the increments over n factorial and the relative bound is in terms of its own size. The logarithm of a tensor with constant term 1 is within a bound of the same kind of the exact logarithm. With room for D times the magnitudes no coefficient overflows.", "quantifier": "all alphabet sizes from two, all truncation degrees within the index range, all tensors of floating-point numbers, every word, f32 and f64, both build profiles", "why_tests_cant": "A test compares a few values with a tolerance; the bound is on every word, depth and tensor, including those where terms cancel or underflow.", "anchors": ["src/free_tensor/implementation/dense.rs:multiply_and_add_into_impl", "src/vector/implementation/simple_dense_vector.rs:SimpleDenseVector", "src/coefficients/floating_point_fields.rs:CoefficientField for f32, f64"]}
{"id": "C90", "title": "Floating-point signatures are accurate", "statement": "The signature of a list of m increments (C88) computed in f32 or f64 returns, and every finite coefficient at a word of length n is within ((1+u)^(m(D(n+4)+n+2))-1) times the coefficient of the signature of the magnitudes, plus an explicit underflow term, of the exact product of the exponentials of the values stored. When the increments are combinations of letters with coefficients of at most B the magnitude is at most (mB)^n/n!. With room for D times the bound of the product of the exponentials no coefficient overflows.", "quantifier": "all lists of tensors of floating-point numbers, all alphabet sizes from two, all truncation degrees within the index range, every word, f32 and f64, both build profiles", "why_tests_cant": "The error accumulates over the increments; a bound for every path, length of path, depth and word cannot be sampled.", "anchors": ["src/free_tensor/implementation/dense.rs:multiply_and_add_into_impl", "src/vector/implementation/simple_dense_vector.rs:SimpleDenseVector", "src/coefficients/floating_point_fields.rs:CoefficientField for f32, f64"]}
{"id": "C91", "title": "A product calls its closure once for each pair of words, in a fixed order", "statement": "multiply_and_add_into_impl with any closure, which may keep a state, panic or not return: for operands that hold the coefficients needed, the closure is called on a_u*b_v exactly once for every pair of words with |u| <= deg a, |v| <= deg b and |u|+|v| <= M, products of higher degree first, then longer u first, then in lexicographic order; each call sees the state left by the one before, a call that does not return ends the product with the same outcome, and otherwise the results are added to the old coefficient at the word uv in the order of the calls, and nothing else changes. multiply_into_impl with a constant other than 0 and 1 calls the closure on a_w*c once for every word of length 1 to min(D, deg a), longer words first, and stores the result; with the constant 1 it makes no call. With a closure without state both multiply_and_add_into_impl and multiply_into_impl are the products of C33-C36, for all operands. For all operands of both products, the number of calls and the way the product ends after them do not depend on the closure: one that always returns gives the outcome of any closure without state, and one that panics at call m makes the product panic exactly when m is below that number, or when the product panics anyway.", "quantifier": "all closures and states, all coefficient types, all operands that hold the coefficients needed (any operands for the number of calls and the outcome), all alphabet sizes from two (any for the number of calls and the outcome), both build profiles", "why_tests_cant": "Tests pass a few stateless closures; an order of calls and the sharing of a state hold for every closure, including those that panic at any call, and every shape of operands.", "anchors": ["src/free_tensor/implementation/dense.rs:multiply_and_add_into_impl", "src/free_tensor/implementation/dense.rs:dense_tensor_multiply_into_buffer", "src/free_tensor/implementation/dense.rs:dense_tensor_multiply_inplace", "src/free_tensor/implementation/dense.rs:multiply_into_impl"]}
{"id": "C92", "title": "Dimensions of the Lie basis count independent Lie elements", "statement": "Whatever hall_set_level_size(w, n) returns is the number of Lyndon words of length n over w letters and the dimension of the space of Lie elements of degree n in the tensors over w letters; whatever hall_set_size(w, d) returns is the same for all degrees up to d, and so is every entry of a DegreeRangeMap. The space consists of everything made from letters with commutators, sums and scalar multiples. hall_set_level_size returns for 1 and for prime powers, hall_set_size up to depth 5.", "quantifier": "every width and depth whose powers fit in isize, every history of a DegreeRangeMap, every field of characteristic zero, both profiles", "why_tests_cant": "A dimension is a statement about all linear combinations of all nested commutators; tests can only compare the numbers with a table.", "anchors": ["src/lie/lie_basis/degree_range_map.rs:hall_set_size", "src/lie/lie_basis/degree_range_map.rs:hall_set_level_size", "src/lie/lie_basis/degree_range_map.rs:DegreeRangeMap"]}
{"id": "C93", "title": "Lie elements are exactly what commutators of letters make", "statement": "A dense tensor satisfies Ree's criterion up to degree D (constant term zero, sum over the shuffles of any two non-empty words zero) if and only if some expression in letters with commutator, add, sub, uminus and scalar multiplication evaluates, with the dense tensor operations, to a tensor with the same coefficients up to degree D. In particular the logarithm of every tensor with the shuffle identities, hence of every signature, is such an expression.", "quantifier": "all tensors, all alphabets of two or more letters, all degrees that fit, all fields of characteristic zero, both profiles", "why_tests_cant": "Existence of an expression for every one of infinitely many tensors.", "anchors": ["src/algebra/mod.rs:commutator", "src/free_tensor/implementation/dense.rs:multiply_and_add_into_impl", "src/vector/implementation/simple_dense_vector.rs:SimpleDenseVector"]}
{"id": "C94", "title": "Tensors over one letter are polynomials", "statement": "Over an alphabet of one letter (TensorBasis<1>) each word can be made into a dense tensor, and dense tensors multiply like polynomials in one variable, truncated at the given degree. (False: start_of_degree divides by NLETTERS - 1, so every constructor from a key or degree and every product into another tensor panics, and the product in place panics or returns its left operand unchanged. Reading, changing, adding and scaling coefficients of tensors made from a list, and all of the sparse vectors, do behave like polynomials.)", "quantifier": "all words, coefficients, tensors, closures and truncation degrees, both profiles", "why_tests_cant": "The crate's tests never instantiate an alphabet with one letter, and that every call fails, or exactly which calls return, is a statement about all operands.", "anchors": ["src/free_tensor/tensor_basis/mod.rs:start_of_degree", "src/free_tensor/implementation/dense.rs:multiply_and_add_into_impl", "src/free_tensor/implementation/dense.rs:multiply_into_impl", "src/vector/implementation/simple_dense_vector.rs:from_key_scalar"]}
{"id": "C95", "title": "A product interrupted by a panicking closure leaves exactly the results of the calls that returned", "statement": "If the closure given to multiply_and_add_into_impl panics and the caller catches the panic, the target tensor is a valid tensor of the size the full product would have given it; each of its coefficients is the old one plus the values of the calls for that word that had returned, in call order, and nothing of the interrupted call or later ones; the closure's own state is that at the panic. multiply_into_impl by a constant other than 0 and 1 likewise leaves the new value at the words whose call returned and the old value elsewhere. Whether and how the products end does not depend on any of this. The number of coefficients left is the same for all closures, for all operands of both products.", "quantifier": "all closures with any state, panicking at any call, all operands and truncation degrees, both profiles", "why_tests_cant": "The crate has no test that catches a panic, the products write through raw pointers while they call user code, and the state left depends on which of arbitrarily many calls panics.", "anchors": ["src/free_tensor/implementation/dense.rs:multiply_and_add_into_impl", "src/free_tensor/implementation/dense.rs:multiply_into_impl", "src/free_tensor/implementation/dense.rs:dense_tensor_multiply_into_buffer", "src/free_tensor/implementation/dense.rs:dense_tensor_multiply_inplace"]}
{"id": "C96", "title": "Dynkin's map tests for Lie elements", "statement": "Replace each word w of a dense tensor x by the nested commutator [w1,[w2,...[w(n-1),wn]]] of its letters, times its coefficient, and add up, all with the dense tensor operations. If x is the value of an expression in letters with commutators, sums and scalar multiples, the result is n times x in each degree n, over any commutative ring. Over a field of characteristic zero a tensor is a Lie element up to degree D (Ree's criterion) if and only if its constant term is zero and the result is n times x in each degree n up to D.", "quantifier": "all Lie expressions, all tensors, all alphabets of two or more letters, all degrees that fit, both profiles", "why_tests_cant": "An equivalence over all tensors and degrees; the tests never call commutator.", "anchors": ["src/algebra/mod.rs:commutator", "src/free_tensor/implementation/dense.rs:multiply_and_add_into_impl", "src/vector/implementation/simple_dense_vector.rs:SimpleDenseVector"]}
{"id": "C97", "title": "Chow's theorem: tensors with the shuffle identities are signatures of paths along the axes", "statement": "Over a field of characteristic zero, a tensor satisfies the shuffle identities up to degree D (constant term 1, products of coefficients are sums over shuffles) exactly when it agrees up to degree D with the tensor computed by: make a vector c*l with from_key_scalar for each pair (letter l, scalar c) of some list, exponentiate each with the crate's operations, and multiply the results with multiply at max degree D. In particular the exponential of every Lie element is such a product.", "quantifier": "all alphabets 2 <= N < 2^32, all degrees D >= 1 with N^(D+1) < 2^64, all dense tensors, all fields of characteristic zero (exact arithmetic), both profiles", "why_tests_cant": "the path exists for every tensor with the identities, with no bound on its number of steps; the converse is about all paths of any length", "anchors": ["src/vector/implementation/simple_dense_vector.rs:from_key_scalar", "src/free_tensor/implementation/dense.rs:multiply_and_add_into_impl", "src/algebra/mod.rs:multiply"]}
{"id": "C98", "title": "Conjugation by exponentials and the Baker-Campbell-Hausdorff formula", "statement": "With exponentials and logarithms as in C87, exp(x) y exp(-x), computed with products, agrees up to the truncation degree with y + [x, y] + [x, [x, y]]/2! + ..., computed with commutators, divisions and sums; exp(x) exp(y) exp(-x) is the exponential of that series; and log(exp(x) exp(y)) agrees up to degree four with x + y + [x, y]/2 + [x, [x, y]]/12 - [y, [x, y]]/12 - [y, [x, [x, y]]]/24. All these programs return.", "quantifier": "all alphabet sizes from two, all truncation degrees within the index range, all full dense tensors x and y of which the exponentiated ones in a product have no constant term, every field of characteristic zero, both build profiles", "why_tests_cant": "The identities hold for all tensors over every field of characteristic zero and every truncation degree; they tie the products, commutators and divisions together at once, which no finite set of inputs can establish.", "anchors": ["src/algebra/mod.rs:multiply", "src/algebra/mod.rs:commutator", "src/free_tensor/implementation/dense.rs:multiply_and_add_into_impl", "src/vector/traits/vector.rs:Vector"]}
{"id": "C99", "title": "Iterators keep the iterator contract, and where the iteration over a basis ends up", "statement": "The iterator over a key yields letter number n on call n and None on every call after the last; the iterators over letters and over the basis are fused in every state (after None only None); starting_from any key that iter_keys yields continues exactly as iter_keys would, to the end or to a panic; a key yielded twice means iter_keys goes round for ever. iter_keys comes to an end exactly over alphabets of 1, 2 and 2^m/3+1 letters with m >= 23; over every other alphabet a release build goes round for ever and a debug build panics after finitely many items.", "quantifier": "every NLETTERS, every word, every state of the iterators, every number of calls, both build profiles", "why_tests_cant": "The repetition or panic comes only after up to 2^64 calls; the contract concerns every state and every number of calls.", "anchors": ["src/free_tensor/tensor_basis/tensor_key.rs:TensorKeyIterator::next", "src/free_tensor/tensor_basis/key_iterator.rs:starting_from", "src/free_tensor/tensor_basis/key_iterator.rs:Iterator::next"]}
{"id": "C100", "title": "Coefficient arithmetic that panics", "statement": "If the arithmetic of a user-supplied coefficient type panics, the operations in place on dense and sparse vectors (negation, sum, difference, multiplication by a scalar, division) multiply_and_add_into, and multiply_into with a constant, stop at the first coefficient operation that does not return and end the way it did. What they leave behind is exact: the vector has already been grown to its final size; the coefficients treated before hold their new values; the coefficient at which it stopped holds what its operation left there; the rest are as they were; a sparse vector stores no key twice; an exclusively borrowed buffer shows the same state to its owner, and a buffer that was copied is untouched. With arithmetic that never panics these are the operations described by the other properties.", "quantifier": "every coefficient type, whatever its operations do, including in-place operations that leave arbitrary values behind; all dense vectors of every storage mode, all sparse vectors without repeated keys, every order of the hash maps; every closure; every point of failure; both build profiles", "why_tests_cant": "The floating point coefficients of the crate never panic, so no test of the crate reaches these states; the point of failure ranges over all coefficients of all vectors", "anchors": ["src/vector/implementation/simple_dense_vector.rs:uminus_inplace", "src/vector/implementation/simple_dense_vector.rs:add_inplace", "src/vector/implementation/simple_dense_vector.rs:sub_inplace", "src/vector/implementation/simple_dense_vector.rs:scalar_lmultiply_inplace", "src/vector/implementation/simple_dense_vector.rs:scalar_rdivide_inplace", "src/vector/implementation/simple_sparse_vector.rs:uminus_inplace", "src/vector/implementation/simple_sparse_vector.rs:add_inplace", "src/vector/implementation/simple_sparse_vector.rs:sub_inplace", "src/vector/implementation/simple_sparse_vector.rs:scalar_lmultiply_inplace", "src/vector/implementation/simple_sparse_vector.rs:scalar_rdivide_inplace", "src/free_tensor/implementation/dense.rs:dense_tensor_multiply_into_buffer", "src/free_tensor/implementation/dense.rs:dense_tensor_multiply_inplace", "src/free_tensor/implementation/dense.rs:multiply_and_add_into_impl", "src/free_tensor/implementation/dense.rs:multiply_into_impl"]}
{"id": "C101", "title": "Coefficient arithmetic that panics: the methods built from others", "statement": "With a coefficient type whose arithmetic panics: the dense methods that return a new vector return it exactly if every coefficient operation returns, and never write to their operands; the fused methods (add_scalar_multiply and its seven relatives) compute the whole scaled vector first, so that a panic there leaves the receiver untouched, not grown and in the same storage, whereas a panic in the sum stops half way as in C100; the methods on one key leave in the entry what the operation left, change no other entry, store no key twice, and leave the vector alone if the quotient or the negative panics; from_iterator of the dense vector returns exactly if for every index the values given for it can be added up in the order given, and the entries are these sums.", "quantifier": "every coefficient type, whatever its operations do; all dense vectors of every storage mode, every basis, all sparse vectors without repeated keys; all keys, scalars and sequences of pairs; every point of failure", "why_tests_cant": "The coefficients of the crate never panic, so no test of the crate reaches these states; the point of failure ranges over all coefficients", "anchors": ["src/vector/traits/vector.rs:Vector", "src/vector/traits/extension.rs:VectorKeyExt", "src/vector/implementation/simple_dense_vector.rs:from_iterator", "src/vector/implementation/simple_dense_vector.rs:get_mut", "src/vector/implementation/simple_dense_vector.rs:insert_single", "src/vector/implementation/simple_sparse_vector.rs:insert_single", "src/vector/implementation/simple_sparse_vector.rs:get_mut"]}
{"id": "C102", "title": "Dense tensors are the truncated free algebra of Mathlib", "statement": "Send a dense tensor to the sum of its words with their coefficients in the free associative algebra on N generators, modulo the power D+1 of the ideal of elements without constant term. Two tensors have the same image exactly when their coefficients agree up to degree D; every element of the quotient is the image of a tensor made with the crate's operations; and multiply and commutator at maximal degree D, add, sub, uminus and scalar multiplication become the operations of the quotient ring. Expressions in letters with commutators, sums and multiples are sent exactly onto the images of the free Lie algebra, and over a field of characteristic zero a tensor satisfies the Lie identities up to degree D exactly when its image comes from the free Lie algebra. Whatever hall_set_size(w, d) returns is the dimension of the image of the free Lie algebra on w generators up to degree d, and so is every entry of a DegreeRangeMap.", "quantifier": "all alphabets 2 <= N < 2^32, all degrees D >= 1 whose dimension fits, all commutative rings (fields of characteristic zero for the last part), all tensors and expressions, both profiles", "why_tests_cant": "The claim is an isomorphism with an algebra given by a universal property; it ranges over all tensors, all elements of the free algebra and all coefficient rings", "anchors": ["src/free_tensor/implementation/dense.rs:multiply_and_add_into_impl", "src/algebra/mod.rs:commutator", "src/vector/implementation/simple_dense_vector.rs:add_inplace", "src/lie/lie_basis/degree_range_map.rs:hall_set_size"]}
{"id": "C103", "title": "Checked arithmetic is never silently wrong", "statement": "Take a coefficient type whose operations either return the exact result or panic: integers with overflow checks, rationals that refuse to divide by zero. Then every method of dense and sparse vectors, of Algebra and of FreeTensor for dense tensors, every expression and every program made of these methods, if it returns at all, returns the image-exact result: the same call with exact coefficients (where nothing panics) returns, and its coefficients are those returned. When the operations of the coefficients can only return or panic (not be undefined), the converse holds too: the call panics, or ends exactly as the call with exact coefficients does, including undefined behaviour where that one has it. In particular whatever an evaluation of an expression with checked integers returns is the value of the expression in the free associative algebra over the integers, truncated at the degree asked for, with no condition on the size of the numbers. The same holds for programs that divide (rounding towards zero) and change single entries.", "quantifier": "every coefficient type and map to exact coefficients, both build profiles, every alphabet, all operands, truncation degrees, expressions and programs", "why_tests_cant": "The overflow may happen in any intermediate coefficient of any operation; tests meet a few of them, and a method that swallowed one would return a plausible vector.", "anchors": ["src/vector/implementation/simple_dense_vector.rs:SimpleDenseVector", "src/vector/implementation/simple_sparse_vector.rs:SimpleSparseVector", "src/vector/traits/vector.rs:Vector", "src/vector/traits/extension.rs:VectorKeyExt", "src/algebra/mod.rs:Algebra", "src/free_tensor/implementation/dense.rs:multiply_and_add_into_impl", "src/free_tensor/implementation/dense.rs:multiply_into_impl", "src/free_tensor/mod.rs:exp", "src/free_tensor/mod.rs:fmexp", "src/free_tensor/mod.rs:log"]}
{"id": "C104", "title": "When checked arithmetic returns", "statement": "An expression in sums, differences, multiples, products and commutators of dense tensors, evaluated with integers of a fixed range and overflow checks, returns - and returns its exact value - whenever, for it and each of its subexpressions, the absolute values of all terms of the expansion add up, for every word of length at most D, to at most the largest integer of the range; it is enough that all of them together do. It otherwise returns or panics, and returns only if the exact values of the expression and all its subexpressions are in the range. For sums and products with nonnegative scalars this is exact: the evaluation returns if the coefficients of the exact values of all subexpressions are at most the largest integer, and panics if not. With signs, and integers from lo to hi, the evaluation returns exactly if every product of two coefficients, every partial sum in the order of the crate and every result of the other operations lies in the range; otherwise it panics.", "quantifier": "every range, every coefficient type with a size that sums and products respect, both build profiles, every alphabet, depth and expression with no product of two constants", "why_tests_cant": "Intermediate coefficients, such as partial sums of a product, can leave the range although the result does not; which of them are formed depends on the order of the loops, for every alphabet and degree.", "anchors": ["src/vector/implementation/simple_dense_vector.rs:SimpleDenseVector", "src/free_tensor/implementation/dense.rs:multiply_and_add_into_impl", "src/free_tensor/implementation/dense.rs:multiply_into_impl", "src/algebra/mod.rs:Algebra", "src/vector/traits/extension.rs:VectorKeyExt"]}
{"id": "C105", "title": "When programs with checked arithmetic return", "statement": "A program over registers holding dense tensors (construct, copy, swap, clear, erase, negate, add, subtract, scale, multiply, commutator, add and subtract a product), run with coefficients that panic on overflow, returns with the exact elements in all registers whenever after each statement the absolute values of all terms add up, for every register and word of length at most D, to at most the largest coefficient; it is enough that all terms of each register together do. Whatever the sizes, a program whose products are allowed returns or panics, and any other program never returns. If it returns, all exact coefficients after every statement are in the range; without subtraction and with nonnegative scalars that is also sufficient, so the program panics exactly if some exact coefficient leaves the range. In general, a program over checked integers returns exactly if every number it computes is in the range: every sum, difference, multiple and negative of coefficients, every product of two coefficients, and every partial sum on the way to a coefficient of a product, longest left factor first; otherwise it panics. For programs without products this means that it returns exactly if the exact coefficients stay in the range. Programs may also divide registers and change single entries: then every division must also be by a number other than zero, for every entry of the register including those that are zero, with the quotient rounded towards zero in the range.", "quantifier": "every program, every range, every coefficient type with a size that sums and products respect, both build profiles, every alphabet and depth", "why_tests_cant": "Overflow depends on the values that flow through all earlier statements and on the order of the partial sums inside products; a program that passes for some inputs can overflow for others.", "anchors": ["src/vector/implementation/simple_dense_vector.rs:SimpleDenseVector", "src/vector/implementation/simple_dense_vector.rs:from_iterator", "src/free_tensor/implementation/dense.rs:multiply_and_add_into_impl", "src/algebra/mod.rs:Algebra"]}
{"id": "C106", "title": "exp, fmexp and log of dense tensors", "statement": "For dense tensors as the implementation of FreeTensor, with every MAX_DEGREE m and in both build profiles, exp, fmexp and log of a tensor without constant term and of degree between 1 and m return. (False: for m at least 2, exp of a tensor of degree 1 or more never returns in debug builds, and in release builds only if its constant term is 1 and its degree exceeds m, with a multiple of the unit as result; fmexp returns only if both tensors are numbers; log returns for every tensor of degree 1 or more, but always the number 1 - 1/2 + 1/3 - ... of m - 1 terms, whatever the tensor, and accesses memory out of bounds for numbers. With m at most 1, exp is the unit, fmexp changes nothing and log is zero.)", "quantifier": "every m, every dense tensor that stores all words up to its degree, every coefficient type, both build profiles, every alphabet of at least two letters", "why_tests_cant": "The crate has no implementation of FreeTensor, so no test calls these methods; and the outcome depends on the degrees and the constant term, with reads out of bounds that a test may not notice.", "anchors": ["src/free_tensor/mod.rs:FreeTensor", "src/free_tensor/mod.rs:exp", "src/free_tensor/mod.rs:fmexp", "src/free_tensor/mod.rs:log", "src/free_tensor/implementation/dense.rs:multiply_into_impl"]}
{"id": "C107", "title": "Wrapping integers compute modulo 2^b", "statement": "With coefficients in machine integers of b bits whose arithmetic wraps around, as in release builds or with Wrapping from the standard library, every program of ring operations on dense tensors and every nested expression ends in the same way as over the integers, and every coefficient read from the result is the exact one modulo 2^b: its representative from -2^(b-1) to 2^(b-1)-1 for signed integers, from 0 to 2^b-1 for unsigned ones. So the result is right exactly if the exact coefficient fits in b bits, whatever overflowed in between. The same holds for linear programs on sparse vectors. If a program with signed integers returns in a debug build, where overflow panics, then the release build returns the same coefficients.", "quantifier": "every number of bits, every program and expression, every alphabet of at least two letters (one for sparse vectors), every degree within the limits of the key format, both build profiles", "why_tests_cant": "The crate is tested with one coefficient type on values that never overflow; the claim concerns every program, every width of integers and every combination of intermediate overflows.", "anchors": ["src/coefficients/mod.rs:CoefficientField", "src/free_tensor/implementation/dense.rs:multiply_and_add_into_impl", "src/algebra/mod.rs:Algebra", "src/vector/implementation/simple_dense_vector.rs:SimpleDenseVector", "src/vector/implementation/simple_sparse_vector.rs:SimpleSparseVector"]}
{"id": "C108", "title": "Floating-point programs make no rounding error where the numbers can be represented", "statement": "Take a program of ring operations on dense tensors over the rational numbers, and the same program over f32 or f64 with scalars of the same values. If every number that the rational program forms (every product of two coefficients and every partial sum, in the order in which the crate adds them) is a number of the floating-point format, then the floating-point program returns and every coefficient read from its registers is finite and has exactly the rational value. The same holds for nested expressions. For integer programs it is enough that these numbers are at most 2^24 (f32) or 2^53 (f64) in absolute value; that the program returns with checked integers of such a range; or that the absolute values of the terms of each coefficient add up to no more than that. The condition on numbers in between is needed: 2^53 + 1 - 2^53 gives 0 over f64. Programs may also divide registers and change single entries, if no division is by zero and the quotients are numbers of the format.", "quantifier": "every program of any length over any registers, every expression without products of constants, every alphabet of at least two letters, every degree within the limits of the key format, f32 and f64, both build profiles", "why_tests_cant": "Tests with small integers cannot tell arithmetic that is exact for every program from arithmetic that is exact on the samples; the criterion speaks of every intermediate number of arbitrarily long programs.", "anchors": ["src/coefficients/mod.rs:CoefficientField", "src/coefficients/floating_point_fields.rs:CoefficientField for f32, f64", "src/free_tensor/implementation/dense.rs:multiply_and_add_into_impl", "src/algebra/mod.rs:Algebra", "src/vector/implementation/simple_dense_vector.rs:SimpleDenseVector"]}
{"id": "C109", "title": "Linear programs on sparse vectors return exactly if their numbers fit, as on dense vectors", "statement": "A program of assignments, sums, differences, negatives and scalar multiples on sparse vectors over tensor keys with checked integers (overflow panics) returns if and only if every number that it computes, at every word, is in the range; otherwise it panics. What it returns is exact: every key at most once, each the key of a word of the truncated tensor algebra, with the coefficient that the program says. Dense vectors return on exactly the same programs, with the same coefficient at every word, and panic on exactly the same programs. With division this is no longer so: a dense vector also divides the zeros that it stores, and panics on division by zero where a sparse vector without entries returns. Whatever a sparse program returns over any coefficients whose operations are exact or panic, with division and changes of single entries, is what it returns over exact coefficients. Over f32 and f64 such a linear program makes no rounding error if every number that it computes can be represented.", "quantifier": "every linear program of any length over any registers, every range containing zero (-1 and 1 for the comparison with dense vectors), every alphabet, every degree within the limits of the key format, both build profiles", "why_tests_cant": "The order in which a hash map is traversed and the removal of entries that become zero decide which additions and negations are carried out; that no order and no cancellation changes whether the program panics concerns all programs and all ranges.", "anchors": ["src/vector/implementation/simple_sparse_vector.rs:add_inplace", "src/vector/implementation/simple_sparse_vector.rs:sub_inplace", "src/vector/implementation/simple_sparse_vector.rs:uminus_inplace", "src/vector/implementation/simple_sparse_vector.rs:scalar_lmultiply_inplace", "src/vector/implementation/simple_sparse_vector.rs:scalar_rdivide_inplace", "src/vector/implementation/simple_dense_vector.rs:SimpleDenseVector", "src/coefficients/mod.rs:CoefficientField"]}
{"id": "C110", "title": "Rounding errors of floating-point programs with registers", "statement": "A program on dense tensors over f32 or f64 that assigns words and lists of terms, copies, swaps, erases, negates, adds, subtracts, scales, divides, multiplies, forms commutators and adds or subtracts products in place returns, unless it is one of those whose products are undefined (C65). Every finite coefficient of every register differs from the exact one, computed by the same program over the rational numbers, by at most the amount by which the roundings enlarge its magnitude: the magnitude is the coefficient computed with absolute values and without cancellation, and each sum of two terms and each product or quotient enlarges it by a factor 1+u, and each product or quotient by half the least positive number as well, where operations with a zero that is known from the program are not rounded at all. In closed form the error is at most ((1+u)^k-1) times the magnitude plus what underflow adds, where k counts the roundings one after the other in this coefficient. Where these enlarged magnitudes never exceed the largest finite number on the way to a coefficient, and nothing is divided by zero, this coefficient is finite.", "quantifier": "every program of any length over any registers, every alphabet of at least two letters, every degree within the limits of the key format, every valid scalar and divisor, f32 and f64, both build profiles", "why_tests_cant": "Tests compare results with a tolerance on a few inputs; the bound holds for all programs and scalars, and the number of roundings depends on the loops of the products, on which entries are present and on the order of the additions.", "anchors": ["src/coefficients/floating_point_fields.rs:CoefficientField for f32, f64", "src/free_tensor/implementation/dense.rs:multiply_and_add_into_impl", "src/algebra/mod.rs:Algebra", "src/vector/implementation/simple_dense_vector.rs:SimpleDenseVector"]}
{"id": "C111", "title": "Linear programs over f32 and f64 agree on dense and sparse vectors up to the sign of zero", "statement": "A program of assignments, sums, differences, negatives, scalar multiples and divisions over f32 or f64, run on dense and on sparse vectors, returns on both, and the coefficients at every word are the same number (also the same infinity or NaN), except that one may be +0 and the other -0 or absent. This needs scalars to be finite, divisors to be neither zero nor NaN, and whatever is multiplied by zero to be finite; otherwise a dense vector can hold NaN where the sparse one holds nothing, and the sign of a zero does differ. The bounds of C110 on rounding errors and its condition for results to be finite therefore hold for sparse vectors too. The same is true over any coefficients up to any relation that does not distinguish a stored zero from an absent entry.", "quantifier": "every linear program of any length over any registers, both formats, all coefficients including subnormal numbers, infinities and NaN, every alphabet, every degree within the limits of the key format, both build profiles", "why_tests_cant": "Floating-point addition is neither associative nor exact and zeros have signs, so equality of the two vector types does not follow from algebra; that none of their differences in storing zeros ever shows, and exactly which inputs make them show, concerns all programs and all numbers.", "anchors": ["src/vector/implementation/simple_sparse_vector.rs:add_inplace", "src/vector/implementation/simple_sparse_vector.rs:sub_inplace", "src/vector/implementation/simple_sparse_vector.rs:scalar_lmultiply_inplace", "src/vector/implementation/simple_sparse_vector.rs:scalar_rdivide_inplace", "src/vector/implementation/simple_dense_vector.rs:SimpleDenseVector", "src/coefficients/floating_point_fields.rs:f64"]}
{"id": "C112", "title": "Truncation degree, alphabet and reading direction of whole programs", "statement": "Truncating every product of a program at a lower degree d >= 1 changes no coefficient of degree at most d, bit for bit, and does not change whether the program is memory safe. Replacing the letters of a program, different letters by different ones and possibly in a larger alphabet, replaces the letters in its results and changes nothing else, bit for bit; so the size of the alphabet has no influence on the coefficients of words in the letters used. With exact coefficients, reading all words backwards and exchanging the factors of all products reverses the words of the results; over f32 and f64 it changes the order of additions and therefore results.", "quantifier": "every program of any length with all statements (products, commutators, division, changes of single entries), every coefficient type without laws for truncation and letters, every pair of alphabets and every map of letters, every degree within the limits of the key format, both build profiles", "why_tests_cant": "The layout of a dense tensor depends on the alphabet and its length on the truncation degree, so every index in the computation changes; that no program of any length can tell them apart, also with floating-point rounding, is a statement about infinitely many programs.", "anchors": ["src/free_tensor/implementation/dense.rs:multiply_and_add_into_impl", "src/algebra/mod.rs:multiply", "src/algebra/mod.rs:commutator", "src/vector/implementation/simple_dense_vector.rs:SimpleDenseVector", "src/free_tensor/tensor_basis/mod.rs:TensorBasis"]}
{"id": "C113", "title": "Programs on dense and on sparse vectors over any basis", "statement": "A program with registers that hold vectors over any type of keys gives in every register the element of the vector space of functions on keys that its statements describe: with dense vectors for every ordered basis that gives different indices to different keys and dimensions above the indices, with sparse vectors for every type of keys that can be compared. Over f32 and f64 dense and sparse vectors give the same coefficients up to the sign of zeros, provided scalars are finite, divisors are neither zero nor NaN and whatever is multiplied by zero is finite. With any basis whose methods return, also an inconsistent one, a program on dense vectors either returns or writes out of bounds, and it writes out of bounds exactly if the basis gives a created vector a dimension that does not exceed its largest index; so a mistake in a safe implementation of OrderedBasis breaks memory safety.", "quantifier": "every program of any length with creation, copying, exchange, addition, subtraction, scaling, division, fused operations and changes of single entries (each kind of vector with the statements it implements), every key type, every basis (the tensor basis and the basis of the crate's tests are instances), every field of exact coefficients, every f32 and f64 value; memory safety for all coefficients without laws", "why_tests_cant": "Users bring their own bases through the trait OrderedBasis; tests can only try particular bases and particular programs, and an out-of-bounds write through get_unchecked_mut need not be visible in a test.", "anchors": ["src/vector/implementation/simple_dense_vector.rs:from_key_scalar", "src/vector/implementation/simple_dense_vector.rs:from_iterator", "src/vector/implementation/simple_dense_vector.rs:SimpleDenseVector", "src/vector/implementation/simple_sparse_vector.rs:SimpleSparseVector", "src/vector/traits/vector.rs:Vector", "src/vector/traits/extension.rs:add_scalar_multiply", "src/basis/mod.rs:OrderedBasis"]}
{"id": "C114", "title": "Programs on the caller's memory", "statement": "A program on dense tensors whose registers hold vectors of their own, shared views and exclusive views of the caller's buffers, in any mixture, computes the same as on owned copies: it ends the same way and shows the same coefficients, bit for bit, unless it calls clear, which is the one method that sees the storage (it empties an owned vector but zeroes an exclusive buffer); with clear the same holds if the exclusive views are in the same registers, and for linear programs the coefficients still agree. When the program returns, no buffer has changed its length, a buffer that was not lent exclusively has not changed, every register that is still a view shows its buffer, and no vector shares a buffer with an exclusive view. An exclusive view stays on its buffer as long as it is not replaced and nothing stored into it needs more entries, and the buffer then holds the result.", "quantifier": "all programs, all numbers of registers and buffers, all ways of storing the initial vectors allowed by the borrow rules, all coefficient types (no laws), all alphabets, both build profiles; linear programs: all bases, exact coefficients", "why_tests_cant": "The crate's tests use single operations on owned vectors. Whether some sequence of operations writes through a shared slice, detaches a view too late, or lets a result depend on the kind of storage can only be excluded for all sequences at once.", "anchors": ["src/vector/implementation/simple_dense_vector.rs:SimpleDenseVectorData", "src/vector/implementation/simple_dense_vector.rs:as_mut_slice", "src/vector/implementation/simple_dense_vector.rs:resize", "src/vector/implementation/simple_dense_vector.rs:to_owned_with_size", "src/vector/implementation/simple_dense_vector.rs:clear", "src/vector/implementation/simple_dense_vector.rs:add_inplace", "src/vector/implementation/simple_dense_vector.rs:sub_inplace", "src/free_tensor/implementation/dense.rs:multiply_and_add_into_impl", "src/free_tensor/implementation/dense.rs:dense_tensor_multiply_into_buffer"]}
{"id": "C115", "title": "Programs whose panics are caught", "statement": "Coefficient arithmetic may panic in the middle of a statement, and a caller may catch the panic and go on with the vectors as they are. A statement that panics has changed no vector but the one it works on, and an assignment has not changed that one either. Through any such history no buffer of the caller changes its length, a buffer that was not lent exclusively does not change, a vector that is still a view shows the content of its buffer, and no vector shares a buffer with an exclusive view. Owned vectors always store all words up to some degree, also after a panic; if each product is allowed (two non-empty factors, not two constants into an empty vector) in the program and in every program got from it by striking out arithmetic statements, then the run with caught panics is free of undefined behaviour and ends. A check of the program alone is not enough: a caught overflow can leave a vector empty whose product is then undefined behaviour.", "quantifier": "every program of any length, every coefficient type whose operations may panic on any arguments and leave anything behind, every set of buffers and views allowed by the borrow checker for the memory part, every alphabet and degree within the limits of the key format for the safety part, both build profiles", "why_tests_cant": "The states a program can be in after panics are all partial results of all its statements, for every coefficient type and every point of every loop at which it can panic; a test observes one panic of one type.", "anchors": ["src/free_tensor/implementation/dense.rs:multiply_and_add_into_impl", "src/free_tensor/implementation/dense.rs:dense_tensor_multiply_into_buffer", "src/algebra/mod.rs:multiply", "src/algebra/mod.rs:commutator", "src/algebra/mod.rs:add_mul", "src/algebra/mod.rs:sub_mul", "src/vector/implementation/simple_dense_vector.rs:add_inplace", "src/vector/implementation/simple_dense_vector.rs:sub_inplace", "src/vector/implementation/simple_dense_vector.rs:uminus_inplace", "src/vector/implementation/simple_dense_vector.rs:scalar_lmultiply_inplace", "src/vector/implementation/simple_dense_vector.rs:scalar_rdivide_inplace", "src/vector/implementation/simple_dense_vector.rs:resize", "src/vector/implementation/simple_dense_vector.rs:get_mut"]}
{"id": "C116", "title": "What vectors hold after caught panics", "statement": "A program on dense tensors runs with coefficients that may panic, and its panics are caught. Call a register spoilt if a statement working on it in place panicked, or if it was computed from a spoilt register; a later assignment from sound registers makes it sound again, and an assignment that panics spoils nothing. If the operations of the coefficients are exact or panic, every register that is not spoilt holds exactly the element that the statements which returned describe, as if those that panicked had not been written. For any coefficients at all, it holds the same vector, bit for bit and in the same storage, as after the program of the statements that returned, if that program returns. If nothing panics nothing is spoilt. A spoilt register can hold something that is neither the old nor the new element, without a sign of it.", "quantifier": "every program of any length and every pattern of panics; for the exact values every coefficient type whose operations return the exact result or panic, every alphabet and degree within the limits of the key format, ring statements, registers that start empty; for the comparison bit for bit every coefficient type, every statement and every initial registers; both build profiles", "why_tests_cant": "The claim separates what a panic reaches from what it does not for every program and every place where coefficients can panic; a test sees one panic in one program, and an effect on another vector would show only for particular aliasing and sizes.", "anchors": ["src/free_tensor/implementation/dense.rs:multiply_and_add_into_impl", "src/free_tensor/implementation/dense.rs:dense_tensor_multiply_into_buffer", "src/algebra/mod.rs:multiply", "src/algebra/mod.rs:commutator", "src/algebra/mod.rs:add_mul", "src/algebra/mod.rs:sub_mul", "src/vector/implementation/simple_dense_vector.rs:add_inplace", "src/vector/implementation/simple_dense_vector.rs:sub_inplace", "src/vector/implementation/simple_dense_vector.rs:uminus_inplace", "src/vector/implementation/simple_dense_vector.rs:scalar_lmultiply_inplace", "src/vector/implementation/simple_dense_vector.rs:scalar_rdivide_inplace", "src/vector/implementation/simple_dense_vector.rs:resize", "src/vector/implementation/simple_dense_vector.rs:get_mut"]}
{"id": "C117", "title": "Caught overflows in linear programs, on dense and sparse tensors", "statement": "A program that builds tensors from words and terms and adds, subtracts, negates and scales them runs with integers whose overflows panic, and the panics are caught. Call a register spoilt if a statement working on it would compute, in exact arithmetic, a number that does not fit, or if that statement reads a spoilt register; assigning new terms to it makes it sound again. Then the program runs to its end, with dense and with sparse tensors, and every register that is not spoilt holds exactly the element that the whole program describes, the same for both storages and in whatever order the hash maps are visited. No sparse tensor ever holds a key twice, not even a spoilt one. What a spoilt sparse tensor holds does depend on the order of the hash map.", "quantifier": "every linear program of any length; every range of integers containing -1, 0 and 1 (for sparse tensors containing 0); every alphabet (two or more letters for dense tensors) and degree within the limits of the key format; every order in which the hash maps are visited, chosen anew before each statement; registers that start empty, scalars in the range; both build profiles", "why_tests_cant": "Which entries have been written when the overflow comes depends on the random order of the hash map, and the claim is about everything that this order cannot reach; a test runs one order of one program, and a fault would show only for particular orders and positions of the overflow.", "anchors": ["src/vector/implementation/simple_sparse_vector.rs:add_inplace", "src/vector/implementation/simple_sparse_vector.rs:sub_inplace", "src/vector/implementation/simple_sparse_vector.rs:uminus_inplace", "src/vector/implementation/simple_sparse_vector.rs:scalar_lmultiply_inplace", "src/vector/implementation/simple_dense_vector.rs:add_inplace", "src/vector/implementation/simple_dense_vector.rs:sub_inplace", "src/vector/implementation/simple_dense_vector.rs:uminus_inplace", "src/vector/implementation/simple_dense_vector.rs:scalar_lmultiply_inplace", "src/vector/implementation/simple_sparse_vector.rs:clear", "src/vector/implementation/simple_sparse_vector.rs:get"]}
{"id": "C118", "title": "Caught panics do not depend on where the entries are stored", "statement": "A program on dense tensors runs with coefficients that may panic, and its panics are caught. Run it once on vectors that own their entries and once on views of buffers of the caller, shared or exclusive, that show the same entries. If the program does not call clear, the same statements panic in both runs, both end in the same way, and afterwards the registers show the same entries bit for bit, including those that a panic left half finished; with clear this holds if the exclusive views are the same registers. A buffer that is still lent at the end holds what the owned run computes. For programs without clear, the condition under which no caught panic leads to undefined behaviour is therefore the same for exclusive views as for owned vectors.", "quantifier": "every program of any length with products and changes of entries, every coefficient type and every pattern of panics, all initial registers and buffers; for the safety part registers that store all words up to some degree, alphabets of two or more letters and degrees within the limits of the key format; both build profiles", "why_tests_cant": "Writing through an exclusive view, detaching a shared one, and growing past a buffer are different code paths, and a panic can come at any entry of any of them; a test compares two runs of one program with one panic.", "anchors": ["src/free_tensor/implementation/dense.rs:multiply_and_add_into_impl", "src/free_tensor/implementation/dense.rs:dense_tensor_multiply_into_buffer", "src/algebra/mod.rs:multiply", "src/algebra/mod.rs:commutator", "src/algebra/mod.rs:add_mul", "src/algebra/mod.rs:sub_mul", "src/vector/implementation/simple_dense_vector.rs:add_inplace", "src/vector/implementation/simple_dense_vector.rs:sub_inplace", "src/vector/implementation/simple_dense_vector.rs:uminus_inplace", "src/vector/implementation/simple_dense_vector.rs:scalar_lmultiply_inplace", "src/vector/implementation/simple_dense_vector.rs:scalar_rdivide_inplace", "src/vector/implementation/simple_dense_vector.rs:resize", "src/vector/implementation/simple_dense_vector.rs:get_mut"]}
{"id": "C119", "title": "Debug builds that catch overflows and release builds that wrap agree where no overflow reaches", "statement": "A program on dense tensors of machine integers runs in a debug build, where an overflow panics and every panic is caught, and in a release build, where arithmetic wraps around. Call a register lost if a statement that was to write it panicked, or if it was computed from lost registers; assigning to it from others makes it sound again. When both runs have ended, every register that is not lost holds the same numbers in both. They are the coefficients of the element that the whole program describes, and more generally, for any coefficients whose operations are exact or panic, the registers that are not lost hold what the program computes in exact arithmetic. The lost registers may differ.", "quantifier": "every program of any length with products and copies, without division (and for the values without closures), every number of bits from 2, every alphabet and initial registers; for the values registers that start empty, words and degrees within the limits of the key format, and programs whose products are allowed (C65)", "why_tests_cant": "The two builds execute different sequences of states as soon as one overflow is caught; tests are run in one build, and compare neither the other build nor exact arithmetic.", "anchors": ["src/free_tensor/implementation/dense.rs:multiply_and_add_into_impl", "src/free_tensor/implementation/dense.rs:dense_tensor_multiply_into_buffer", "src/algebra/mod.rs:multiply", "src/algebra/mod.rs:commutator", "src/algebra/mod.rs:add_mul", "src/algebra/mod.rs:sub_mul", "src/vector/implementation/simple_dense_vector.rs:add_inplace", "src/vector/implementation/simple_dense_vector.rs:sub_inplace", "src/vector/implementation/simple_dense_vector.rs:uminus_inplace", "src/vector/implementation/simple_dense_vector.rs:scalar_lmultiply_inplace", "src/vector/implementation/simple_dense_vector.rs:scalar_rdivide_inplace", "src/vector/implementation/simple_dense_vector.rs:resize", "src/vector/implementation/simple_dense_vector.rs:get_mut"]}
{"id": "C120", "title": "Caught panics do not depend on the build profile, within the limits of the index arithmetic", "statement": "Take coefficients that may panic in any operation and whose behaviour does not depend on the build, for instance checked arithmetic. A program on dense tensors, each panic caught, runs in the same way in debug and in release builds: the same statements return and the same statements panic, the registers and the caller's buffers hold the same entries after every statement, including those that a panic left half finished, and the program is undefined behaviour in one build exactly if it is in the other. Beyond the limits a statement that does not panic in a debug build still does the same in a release build, so the builds agree up to the first panic of the debug build. They need not agree after it: with 31 letters and a word of twelve letters, within max_depth, a constructor panics in a debug build and writes out of bounds in a release build.", "quantifier": "every coefficient type, every program of any length, every alphabet of at least two letters and depth D with N^(D+1) < 2^64 and D within max_depth, words and degrees up to D, registers of any storage and of any number of entries up to the number of words of at most D letters, not only complete tensors; for the agreement up to the first panic no limits at all", "why_tests_cant": "Tests are run in one build profile; that no index computation can overflow on any path, also on the paths that only exist after a panic, concerns all programs and all sizes.", "anchors": ["src/free_tensor/implementation/dense.rs:multiply_and_add_into_impl", "src/free_tensor/implementation/dense.rs:dense_tensor_multiply_into_buffer", "src/algebra/mod.rs:multiply", "src/algebra/mod.rs:commutator", "src/algebra/mod.rs:add_mul", "src/algebra/mod.rs:sub_mul", "src/vector/implementation/simple_dense_vector.rs:add_inplace", "src/vector/implementation/simple_dense_vector.rs:sub_inplace", "src/vector/implementation/simple_dense_vector.rs:uminus_inplace", "src/vector/implementation/simple_dense_vector.rs:scalar_lmultiply_inplace", "src/vector/implementation/simple_dense_vector.rs:scalar_rdivide_inplace", "src/vector/implementation/simple_dense_vector.rs:resize", "src/vector/implementation/simple_dense_vector.rs:get_mut", "src/free_tensor/tensor_basis/mod.rs:vector_dimension_for_key", "src/free_tensor/tensor_basis/mod.rs:vector_dimension_for_index"]}
