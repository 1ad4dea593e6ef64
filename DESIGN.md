# Formal model of rustyalgebra in Lean 4

## Reading order

* `lean/Verif/Model/*` – the model, function by function, each definition citing `/repo` file and lines.
* `lean/Verif/Spec.lean`, `SpecTensor.lean`, `SpecHall.lean`, `SpecFloat.lean`, `SpecProg.lean`, `SpecAlg.lean`, `SpecError.lean`, `SpecClosure.lean`, `SpecCalls.lean`, `SpecUnwind.lean`, `SpecLie.lean`, `SpecMass.lean`, `SpecMassProg.lean`, `SpecProgAll.lean`, `SpecSteps.lean`, `SpecStepsAll.lean`, `SpecErrorProg.lean`, `SpecProgWords.lean` – the small independent specification (words, graded-lexicographic index,
  sums over splittings, Witt numbers, rounding, programs over registers, evaluation in algebras, shuffles).
* `lean/Verif/Proofs/*` – helper lemmas.
* `lean/Verif/Props/*` – the property theorems, named after the ids in `properties.jsonl` (`C01_...`), each followed by an
  `example` showing a concrete non-trivial case that meets the hypotheses; `Props/Instances.lean` collects some of these cases.
* `MANIFEST.json` – property → theorem names and status.  `seeded/LOG.jsonl` – wrong-program experiments.

## Semantics used by the model

* **Outcomes.** Every modelled function returns `Res α`: `ok a`, `panic` (Rust panic, `todo!`, `expect`, overflow check,
  division by zero, shift overflow), `ub` (an access through `get_unchecked*`/raw pointers outside the slice), or
  `diverge` (recursion that does not return).
* **Machine integers** are `Nat`s with explicit width in every arithmetic step (`u32`, `u64`, `usize` = 64 bit). All arithmetic
  takes a build `Profile`: `debug` panics on overflow / over-long shift and runs `debug_assert!`, `release` wraps /
  masks the shift amount and skips `debug_assert!`. Theorems are stated for both profiles unless they say otherwise.
  `isize` values are `Int`s with range checks.
* **Coefficients.** A coefficient type is a record `Coeff S R` of operations *without any laws*. Structural theorems use no law, so they
  also hold for `f32`/`f64`; algebraic theorems (associativity, module laws, Jacobi) assume `C.IsRing`/`C.IsField`.
  `floatCoeff` is the instance for `f32`/`f64` (`Model/Float.lean`): IEEE 754 values with signed zeros, infinities and one NaN; results are the
  exact rational result rounded to nearest, ties to even. That Rust's `+ - * /` and integer-to-float `as` are these operations is trusted.
  NaN payloads and signs are not modelled.
* `&mut self` methods return the new value. Closures passed to the multiplication kernels are pure functions (all closures
  in the crate are); `Model/Closure.lean` has the kernels for closures that change a state or do not return, and C91 shows that the pure case is the
  same function. `Model/Unwind.lean` has them once more, keeping `self` when the closure panics; C95 shows that the outcomes are the same.
  `Model/Fallible.lean`, `Model/FallibleMore.lean` and `Model/FallibleAlgebra.lean` have the operations in place, `multiply_and_add_into`, `multiply_into` and the methods built from others
  with coefficient operations that may panic and leave anything behind; C100, C101 and C103 show that
  they are the others when nothing panics.
  `impl Into<..>`/`Borrow` conversions are identity.
* **Vec/slices** are `List`s; allocation failure and `isize::MAX` capacity are not modelled. A dense vector carries its storage mode
  (owned, borrowed, mutably borrowed) and a ghost copy of the buffer it was built over, so that writes through a borrow are visible.
* **Unsafe code.** `get_unchecked(i)` outside the slice, `get_unchecked(a..b)` unless `a ≤ b ≤ len`, and stepping the output pointer of the product
  kernel outside the sub-slice it was taken from are `ub`.
* **HashMap** is an association list; that no key occurs twice is proved as an invariant. The iteration order is that of the list, and
  order-dependence is ruled out by quantifying over all lists/permutations. The standard library's map is trusted to behave like this.
  `TensorKey` implements neither `Hash` nor `Eq`, so the sparse vector is modelled over any key type with decidable equality.
* **Traits** are records of operations; provided methods are functions of the record, as in the source. `FreeTensor` has no implementation in the
  crate; its provided methods `exp`, `fmexp`, `log` are modelled over any record, and the theorems assume of the record what a correct
  implementation provides (`CorrectTensor`); `wordOps` shows that this is satisfiable.
* **Possible infinite recursion**: explicit fuel, or Lean's `partial_fixpoint` into `Res` ordered flatly above `diverge` (`Model/Hall.lean`), where
  the function *is* the least fixed point of its recursion equation and `diverge` is its value exactly when the recursion does not return.
  With fuel, "does not terminate" is stated as `diverge` for *every* fuel, "terminates" as `ok` for every sufficiently large fuel.
* **Concurrency** (`get_hall_set`): a transition system of any number of threads over one reader–writer lock, all interleavings. The lock admits the
  write guard only when no guard is held; its policy towards readers is a parameter. In edition 2018 the read guard in the scrutinee of the
  `if let` lives until the end of the `else` block, so it is still held when `write()` is called.
* `partition_point` is the length of the longest prefix satisfying the predicate; theorems only use it on partitioned vectors.

## Trusted base

* Lean 4.33 kernel and the axioms `propext`, `Classical.choice`, `Quot.sound`. No theorem depends on any other axiom (`#print axioms`, `vcheck`); no
  `sorry`, no `native_decide`. Concrete witnesses are evaluated by the kernel (`decide +kernel`).
* Mathlib for ring, number-theory and list lemmas.
* The hand translation Rust → Lean (the crate cannot be built here), and the Rust semantics described above: edition 2018 temporaries, stable
  `sort_by` (modelled with `List.mergeSort`), IEEE 754 floats, method resolution in `deref_impl.rs` (`self.borrow()` is the reflexive `Borrow`).

`Conformance.lean` runs the crate's own unit tests on the model, in both build profiles: every active `#[test]` function of the crate passes there. It is a
check of the translation, not a claim.

## What is modelled

| source | model |
|--------|-------|
| src/implementation.rs | `Model/TensorKey` (`constLogn`, `makeMask`) |
| src/free_tensor/tensor_basis/{tensor_key,key_iterator,mod}.rs | `Model/TensorKey`, `Model/TensorBasis` |
| src/coefficients/* | `Model/Coeff`, `Model/Float` |
| src/basis/mod.rs, src/vector/traits/{vector,extension}.rs | `Model/Vector` |
| src/vector/implementation/simple_dense_vector.rs, traits/dense_vector.rs | `Model/Dense`, `Model/DenseMore` |
| src/vector/implementation/simple_sparse_vector.rs | `Model/Sparse`, `Model/SparseMore` |
| src/vector/implementation/deref_impl.rs, src/free_tensor/implementation/dense.rs (wrapper) | `Model/Deref` |
| src/algebra/mod.rs, src/free_tensor/mod.rs, src/free_tensor/implementation/dense.rs | `Model/Algebra`, `Model/Closure`, `Model/Unwind` |
| src/vector/wrapper.rs | `Model/Wrapper` (commented out of `vector/mod.rs`; modelled as written) |
| src/lie/lie_basis/* | `Model/Hall`, `Model/HallCache`, `Model/HallObject`, `Model/HallText` (`src/lie/mod.rs` declares the module as private, so nothing in it is exported from the crate) |

Not modelled: allocation failure, stack depth, the text of panic messages,
trait `CrossTypeVectorExt` (no implementation), `conversions.rs` (empty of behaviour), lifetimes, poisoning of the global cache lock (nothing but an allocation can panic under its write guard; the lock of each hall set
object is modelled with poisoning, C47).

## Wrong-program experiments

`seeded/LOG.jsonl` has one line per edit of a model definition, made in a scratch copy. Every module depending on the edited one is re-elaborated there with
failed declarations replaced by `sorry`; "failed" lists the property theorems whose proof no longer goes through, directly or through a lemma.
Edits marked as repairs remove a bug of the code, and must break the corresponding `_refuted` theorem.

Reading the log: "failed" means that a proof, or one it depends on, stopped compiling; this alone does not show that the statement is false of the edit.
The runs up to list 31 had a 5 GB memory limit, under which `C07_two_letters_ends`, and with it `C99_ends_iff`, fails without any edit (a control run on the unedited tree, in which no other theorem fails; it passes under 16 GB).
Those failures are under `failed_also_without_edit` and not counted, or under `undecided` where the edit may matter. No entry counts as caught by these alone.
Entries with `valid: false` tested nothing: the edit was not applied, or the edited definitions did not type-check, which includes edits that take away a parameter. Where it makes sense they were tried again in a form that does (`rt01` and following).

## Plan per property

| id | modelled by | how proved |
|----|-------------|-----------|
| C01–C06 | `Model/TensorKey.lean` (bit-level packing on Nat with masks and shifts) | representation relation "data = base-2^b numeral of the word", induction on the word |
| C07 | `Model/TensorBasis.lean` (`BasisIter`) | **false**: `set_letter` clears the wrong bits. Negation for every N ≥ 2; partial: exact prefix that is right; full for N = 1. `Props/Iteration.lean`: for which words one step is right (iff), and that for N ≠ 2^m/3 + 1 no word of length 3 is ever reached; N = 2 ends after 8675 items (`Props/Profiles.lean`); N = 2^m/3 + 1 never reaches length 4, and ends early exactly when m ≥ 23 (`Props/IterationMore.lean`) |
| C08–C10, C14 | `Model/TensorBasis.lean` | bijective base-N numerals, induction |
| C11 | `compare` | **false** (ignores the size): negation; exact description of the order and exactly when it is right (`Props/Exact.lean`) |
| C12, C13 | `start_of_degree`, `index_to_degree` | geometric sums; overflow guard stated exactly |
| C15 | `fmt` with fuel | **false**: diverges for every fuel; Debug text specified |
| C16, C17 | `Model/Dense.lean` + TensorBasis instance | bounds lemma; C17 **false**: `from_letter(N+1)` gives `ub` for every N ≥ 2; partial for valid keys; exactly when safe in each profile (`Props/RightIffVec.lean`) |
| C18 | `from_iterator` with stable merge sort | filter of a stable sort is the filter of the input |
| C19–C25 | `Model/Dense.lean`, `Model/Vector.lean` | coefficient functions; C21, C23 (dense) **false**: negation + partial; C23 exactly when right (`Props/RightIffMore.lean`) |
| C26–C30 | `Model/Sparse.lean` | association lists, permutations; C27 (zero inserted), C29, C30 **false**: negation + partial; `C29_tensor_agree_iff` (`Props/Agree.lean`) says exactly when dense and sparse tensors from one list agree, `Props/SparseZeros.lean` exactly when operations leave explicit zeros |
| C31, C32 | `Model/Vector.lean` (`KeyExt`) | per implementation; dense missing key and C32 **false**; exactly when right (`Props/RightIffVec.lean`) |
| C33–C36 | `Model/Algebra.lean` | loop invariants over out-degree / lhs-degree; spec = sum over splittings; C34 **false** (max degree 0, empty operands, wrapped dimensions) |
| C37 | `multiply_into_impl` | **false**: UB/panic/wrong value; exact case analysis; the constant term is never updated; exactly when scalar factors are right (`Props/Exact.lean`); for other factors exactly when a debug build returns, what it returns and when that is right (`Props/InplaceExact.lean`); the same for release builds (`Props/InplaceRelease.lean`) |
| C38–C41 | `Model/Algebra.lean` (`FreeTensor`) over an abstract correct algebra | induction on the loop; C38 rdiv, C39, C40, C41 **false**: exact value computed by the code is proved instead, plus negation; exactly when it is right, by comparing lowest terms of products over a field (`Props/RightIff.lean`) |
| C42 | `Model/Deref.lean` | `get`/`get_mut` **diverge**; every other method proved transparent |
| C43 | `Model/Hall.lean` | partial: levels that are prime powers (Witt number, via w^(p^k) ≡ w^(p^(k-1)) mod p^k); divergence for all other levels; past `isize`: `Props/HallOverflow.lean` |
| C44 | `DegreeRangeMap` | history induction; `find_deg` boundary |
| C45 | bit packing | arithmetic on base-2^18 numerals; every 64-bit word in `Props/HallMore.lean` |
| C46 | `Model/HallCache.lean`, transition system | **false**: invariant "no call that misses ever returns" for every schedule |
| C47, C48 | `HallSetInner`, `HallKey` | case analysis; negations; C48 exactly when right (`Props/RightIffMore.lean`); letters and degrees in `Props/HallMore.lean` |
| C49, C50 | `Model/Float.lean`, rational rounding function | exactness below 2^24 / 2^53; error bound half a unit in the last place, ties to even; exactly when results overflow or are not numbers; signs |
| C51, C52 | `Model/TensorKey.lean` | both **false**: capacity is never checked in `concatenate`; `set_letter` clears the wrong bits. Negations for every alphabet, exact partial results; exactly when `set_letter` is right (`Props/Exact.lean`); what is read back from a concatenation of any length (`Props/KeysPast.lean`) |
| C53–C57 | `Model/Algebra.lean`, `Model/Dense.lean` | induction on expressions over the exact product theorem C33; C53 **false** only for products of constants; C55, C57 law-free |
| C58, C60 | `Model/DenseMore.lean` | C58 **false**: `Display` of keys diverges (C15); loop induction for any working key iterator; C60 list slices |
| C59 | `Model/SparseMore.lean` | induction on the operations that made the vector; permutations for the hash map order; `C59_to_dense_tensor` is in `Props/Agree.lean` |
| C61–C64 | `Model/Float.lean`, `Model/Algebra.lean` | law-free product C33 plus error analysis of sums of rounded products (`Proofs/FloatError.lean`); C61, C62 **false** in corner cases (padded unit with infinities; sign of zero), exactly delimited in `Props/FloatRightIff.lean` |
| C65–C67 | all of `Model/Dense`, `Model/Sparse`, `Model/Algebra` | simulation of the code by a reference semantics of programs on words, one statement at a time; C65 **false**: which programs are undefined behaviour is decided exactly; division and changes of single entries in `Props/ProgramAll.lean` |
| C68–C71 | `Model/Algebra.lean`, `Model/Dense.lean` | on top of C33 (exact product): identities of the concatenation product (`Proofs/ConvMore.lean`); C71 by induction on expressions: primitive elements are closed under commutators |
| C72, C73 | `Model/Vector.lean`, `Model/Wrapper.lean` | parametric in the implementation: correctness of the required methods implies that of the provided ones; C73 **false** for sparse vectors (`todo!()`) |
| C74 | `Model/TensorKey.lean`, `Model/HallText.lean` | injectivity of decimal numerals and of separators; C74 **false** for Hall `Display` and lock errors, with exact characterisations |
| C75 | `Model/HallObject.lean` | transition system of a shared lock, invariant: the log of finished calls is a sequential run; a count of steps left for termination |
| C76, C77 | `Model/Float.lean`, `Model/Algebra.lean` | the commutator as one sum of rounded products (`neg_mul_left`), then the error analysis of C63; C77 **false** (`[a, a]` is not zero); exactly when it holds, and homogeneous tensors: `Props/FloatAntisym.lean` |
| C78 | `Dense.fromDegree` | **false**: room for degrees below `d` only (`Props/FromDegree.lean`); private and unused in the crate |
| C79 | everything that takes a `Profile` | the relation `Sim` between the two runs (`Proofs/Profiles.lean`) is preserved by every construct; functions, then whole programs (`Props/Profiles.lean`) |
| C80 | `Model/Float.lean`, `Model/Algebra.lean`, `SpecError.lean` | induction on expressions: each computed tensor is near the exact one (`NearTo`); the rounding specification `TExpr.inflate` does not mention the model (`Props/FloatExpr.lean`) |
| C81 | `Model/TensorKey.lean` | release arithmetic reduced to `mod 2^w` (`addW_release`, `shlW_release`); digits in base `2^b` (`Props/ReleaseKeys.lean`, `Props/KeysPast.lean`) |
| C82 | `Model/Dense.lean`, `Model/Sparse.lean`, `Model/Algebra.lean` | logical relation between two coefficient types (`CoeffRel`, `DRel`, `SRel` in `Proofs/CoeffRel.lean`), preserved by every operation; the graph of a homomorphism, the total relation and a predicate on the diagonal give the three kinds of statements (`Props/CoeffRel.lean`) |
| C83 | `Model/Sparse.lean`, `Model/SparseMore.lean` | two runs compared step by step (`SparseRun`, `Sparse.Reordered` in `Props/HashOrder.lean`); equal lookups and distinct keys give a permutation |
| C84 | `Model/Float.lean`, `Model/Algebra.lean` | rounding is symmetric and shifts with the exponent (`roundMag_scale`); a relation between partial sums preserved by the fold (`product_rel` in `Props/FloatScale.lean`) |
| C85 | `Dense.fromIterator`, `Model/Float.lean` | error analysis of a left fold of additions, on top of C18; sums of valid numbers never underflow (`Props/FloatSum.lean`) |
| C86 | `Model/Float.lean`, `Model/Algebra.lean` | the list of terms split at the only one that does not vanish; a fold over signed zeros is the identity (`Props/FloatTerm.lean`) |
| C87 | `Model/Algebra.lean`, `Model/Dense.lean`, `Model/Vector.lean` | Horner loops with invariants in any algebra; log and exp of truncated series are inverse modulo a filtration, from polynomial identities (`Proofs/ExpLog.lean`, `Props/ExpLog.lean`) |
| C88 | as C87 | the sum over shuffles is a homomorphism into functions of two words, filtered by total length; `exp` turns sums of commuting elements into products there (`Proofs/Shuffle.lean`, `Props/Signature.lean`) |
| C89 | as C87, with the floats of C50 | magnitudes, values and inflated magnitudes of C80 carried through Horner's scheme (`Props/FloatExp.lean`) |
| C90 | as C88, with the floats of C50 | C89 and the product of C80, with the underflow of both factors bounded by sums over prefixes (`Props/FloatSignature.lean`) |
| C91 | `Model/Closure.lean` | the kernel as one fold over the calls (`callStep`), slices as lists over `wordsOfLength`; the pure case by simulation (`Proofs/Closure.lean`, `Props/Closure.lean`); for any operands a product is a tree of calls (`SpecCalls.lean`) whose branches all have the same length and end, by induction over the loops (`Proofs/Calls.lean`, `Props/Calls.lean`) |
| C92, C93 | `hall_set_level_size`, `hall_set_size`, `DegreeRangeMap`; dense tensor expressions | Lyndon words (`SpecLie.lean`): counted through rotations and powers (`Proofs/LyndonCount.lean`); their brackets are independent because the smallest word of each is the Lyndon word, and a Lie element that vanishes at all Lyndon words is zero because `u v` is the largest shuffle of a suitable factorization (`Proofs/Lyndon.lean`, `Proofs/LieDim.lean`, `Props/LieDim.lean`) |
| C94 | all of the above at `N = 1` (and `start_of_degree` at `N = 0`) | every path through the products reaches `start_of_degree` (`Props/OneLetter.lean`) |
| C95 | `Model/Unwind.lean` | a monad that keeps its state through a panic; simulation by the model of C91 for the outcome, the same fold over the calls for what is left (`Proofs/Unwind.lean`, `Props/Unwind.lean`); the size left for any operands in `Props/Calls.lean` |
| C96 | dense tensor expressions | nested commutators of words; the adjoint action on words extends to tensors, and Dynkin's map satisfies `D[a, b] = [Da, b] + [a, Db]` (`Proofs/Dynkin.lean`, `Props/Dynkin.lean`) |
| C97 | signatures of C88 with increments made by `from_key_scalar` | the group commutator of `1 + x + ...` and `1 + y + ...` begins with `1 + [x, y]`; degree by degree the first term of what is missing is a sum of nested commutators (C93, C96) (`Proofs/Chow.lean`, `Props/Chow.lean`) |
| C98 | programs of C87 with `commutator` | left and right multiplication commute, so the exponential of the bracket is the product of their exponentials; the terms of degree at most four of the logarithm are expanded (`Proofs/Adjoint.lean`, `Props/Adjoint.lean`) |
| C99 | `lettersNext`, `BasisIter.next`, `new`, `starting_from` | the state of the basis iterator is the key it is about to yield; the states in which the iteration stays (C07) are finitely many and, in a debug build, increase (`Props/Iterators.lean`) |
| C100 | `Model/Fallible.lean` | loops over coefficients stop at the first turn that does not return; the updates of the product, by index and by word (`Props/Fallible.lean`, `Props/FallibleProduct.lean`, `Props/FallibleInplace.lean`) |
| C101 | `Model/FallibleMore.lean` | a temporary is built completely before the receiver is touched; sums per index of the pairs given to `from_iterator` (`Props/FallibleMore.lean`) |
| C102 | dense tensors and expressions | `FreeAlgebra`, `FreeLieAlgebra` and quotients by ideals as defined in Mathlib; coefficients of words through Mathlib's isomorphism with the monoid algebra of the free monoid (`Proofs/FreeAlgebraMathlib.lean`, `Props/FreeAlgebraMathlib.lean`) |
| C103 | `Model/FallibleAlgebra.lean` | a simulation between two coefficient types that may panic, one lemma per method (`Proofs/FallibleSim.lean`); then C53, C65, C66 for the values (`Props/Checked.lean`, `Props/CheckedProg.lean`, `Props/ProgramAll.lean`) |
| C104 | `Model/FallibleAlgebra.lean` | a size of coefficients, bounded along the loops of each method (`Props/NoOverflow.lean`); C103 for the value and for the converse; `SpecMass.lean` states the sums of sizes. Exactly when an evaluation returns: the steps of C105, one statement for each operation (`Props/ExactExpr.lean`) |
| C105 | `Model/FallibleAlgebra.lean`, `Model/FallibleMore.lean` | the same along the statements of a program (`Props/NoOverflowProg.lean`); the sizes of registers come from running the program without coefficients (C65); `SpecMassProg.lean` states the sums. Exactly when a program returns (`Props/ExactSteps.lean` for any condition on numbers, `Props/ExactRange.lean` for a range): a loop returns iff all its turns do, and the pairs of `callOrder` that form one word come in the order of its splittings; `SpecSteps.lean` states the numbers; division and changes of single entries in `Props/ExactAll.lean` |
| C106 | `Model/Algebra.lean` | the provided methods of `FreeTensor` over dense tensors: the first turn decides by C37, the turns over numbers by induction (`Props/DenseExp.lean`) |
| C107 | `Model/Dense.lean`, `Model/Sparse.lean`, `Model/Algebra.lean` | reduction modulo `2^b` is a ring homomorphism, and C82 transports programs and expressions along it; the comparison of builds combines C103 and C79 (`Props/Wrapping.lean`) |
| C108 | `Model/Dense.lean`, `Model/Algebra.lean`, `Model/Float.lean` | over rationals that panic on a number outside of the format, a program returns exactly if all numbers are in the format (`Props/ExactSteps.lean`); where it returns, rounding changes nothing, and the refinement of C103 carries the run to floating-point numbers (`Props/FloatExactProg.lean`, `Props/ExactExpr.lean`, `Props/FloatExactAll.lean`) |
| C109 | `Model/Sparse.lean`, `Model/Fallible.lean` | invariant per register: keys distinct and of words up to the degree, coefficients those of the reference semantics and in order; one turn of the loops of `add_inplace` and `sub_inplace` panics exactly if the exact result at its word is not in order, and words that no turn visits have results in order already; programs by induction; floating-point numbers by the refinement of C103 (`Props/SparseChecked.lean`) |
| C110 | `Model/Float.lean`, `Model/Dense.lean`, `Model/Algebra.lean` | a floating-point number and a record (exact value, magnitude, enlarged magnitudes, number of roundings) are related by an invariant that each operation preserves; the relational theorem behind C82 carries it through programs, and each column of the records is the program run on other numbers (`Props/FloatProgError.lean`) |
| C111 | `Model/Float.lean`, `Model/Dense.lean`, `Model/Sparse.lean` | a relation between coefficients that does not see zeros (`Blind`) is preserved between the reference semantics of C65 and each statement on sparse vectors (C26, C29); floating-point numbers up to the sign of zero satisfy it, as adding a zero of either sign changes nothing else (`Props/SparseFloat.lean`) |
| C112 | `Model/Dense.lean`, `Model/Algebra.lean` | relations between two runs of the reference semantics of C65 (agreement up to degree `d`, renamed letters) preserved by each statement; for reversed words the ring semantics of C66 and `conv_reverse` (`Props/ProgramWords.lean`, specification in `SpecProgWords.lean`) |
| C113 | `Model/Dense.lean`, `Model/Sparse.lean`, `Model/Vector.lean` | one relation between a vector and a function on keys for each kind of vector, preserved by each statement, for any basis with `BasisOn` (`Props/VecProgram.lean`, specification in `SpecVecProg.lean`); exact and floating-point instances and the exact criterion for out-of-bounds writes in `Props/VecProgramMore.lean` |
| C114 | `Model/Dense.lean`, `Model/Algebra.lean` | two runs on registers with the same entries are compared statement by statement (`SameData`); `Memory` adds the caller's buffers to the registers and says which vector was made over which buffer, `Memory.Lawful` is what the borrow checker guarantees, preserved by each statement because each operation `Keeps` to the storage rules (`Props/StorageProgram.lean`) |
| C115 | `Model/Fallible.lean`, `Model/FallibleAlgebra.lean`, `Model/FallibleMore.lean` | statements with their outcome and the registers at that moment (`runStmtU`; if the statement returns this is C103); each kernel keeps to the storage rules in every state of its loops (`KeepsU`), then the argument of C114; sizes after a panic (`SizeU`), and for the outcome the simulation of C103 into coefficients without content (`Props/PanicProgram.lean`) |
| C116 | the statements of C115 | a statement other than `swap` computes one vector from the registers that it reads (`stmt_local`, `value_local`); the run with caught panics is compared with an uncaught run in which spoilt registers are emptied (`cleanProg`), and C103 is applied to that one (`Props/PanicValues.lean`) |
| C117 | the statements of C115; `runSparseStmtU` and `SparseCaught` in `Props/PanicLinear.lean` (sparse registers at the moment of a panic, hash order chosen anew at each statement) | dense: C105 decides which statements panic, a clean program is carried along and C103 gives its values; sparse: one step with spoilt registers replaced by zero (`sparse_stepF` of C109), carried along by induction; keys stay distinct at a panic by C100 |
| C118 | the statements of C115, the memory of C114 | a relation between computations with unwinding (`SameU`: same outcome and same entries from states that show the same) closed under sequencing and loops, for each method; then induction on the program (`Props/PanicStorage.lean`) |
| C119 | the statements of C115, `rangeInt` and `wrapCoeff` | one statement at a time on the registers that are not lost: refinement of checked by wrapping arithmetic (`FRef`), then debug by release (`Sim`), joined by the locality of statements (`Props/PanicBuilds.lean`) |
| C120 | the statements of C115, `tensor_basis/mod.rs` | every index computation has one value in both profiles on vectors within the bound (`small_degree`, `step_same`, `word_facts`); the bound is an invariant of statements, also of those that panic; without the bound, debug builds panic or do the same (`SimU`, after `Sim`) (`Props/PanicProfiles.lean`) |
| C10, C12, C13 | indices, degree blocks and dimensions | also as cardinalities of sets of words, and in wrapping arithmetic (`Props/Counting.lean`) |
| C03, C21, C45, C73, C74 | `max_degree`, `size_mask`, `HallKey::new`, `VectorWrapper::new`/`==`, error causes | small functions no other statement reaches (`Props/Leftover.lean`) |
