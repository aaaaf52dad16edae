# Design of the SLEPc model

## Layout

* `properties.jsonl`  -- the properties, in terms of the SLEPc API.
* `lean/Verif/<Area>/Model.lean` -- executable model of the C functions; every definition cites the file and lines of
  `/repo` it models.
* `lean/Verif/<Area>/Spec.lean` (when needed) -- small independent specification, written without the model's helpers.
* `lean/Verif/<Area>/Lemmas.lean` -- auxiliary lemmas.
* `lean/Verif/<Area>/Theorems.lean` -- the property theorems, with non-vacuity `example`s.
* `MANIFEST.json` -- property -> theorem names and status.
* `seeded/LOG.jsonl` -- mutation experiments on the model. `theorems_failed` lists the declarations whose proof scripts no longer check after the edit, helper lemmas included. A failing script is evidence, not a proof, that
  the statement has become false: where only a helper lemma is listed, or where the entry says that the claim still holds, the property theorem itself has not been refuted for that edit.

## Trusted base

* The Lean 4.33.0 kernel and the axioms `propext`, `Classical.choice`, `Quot.sound` (no other axiom is used; nothing is
  proved by native evaluation).
* The reading of the C code: the model is hand-written from the text of `/repo`; nothing was compiled or run.
* Arithmetic: `PetscInt` is modelled by unbounded `Int`/`Nat` (overflow not modelled). `PetscReal`/`PetscScalar` are
  modelled by exact numbers (`Real`, `Complex`, any field or linear order): rounding, overflow and NaN are not modelled.
* PETSc primitives (Vec, Mat, KSP, MPI) are represented by their mathematical contract; error returns are modelled by
  `Option`/`Except`; undefined behaviour (out-of-bounds index, uninitialised read) is a distinct outcome where it can
  occur in the modelled fragment.
* Not modelled: memory allocation failure, logging, viewers, option database, GPU code, external packages.

## Plan per property

* **C01-C03, C05 (sort)** `SlepcSortEigenvalues_Private` transcribed on lists with explicit out-of-bounds outcome, real and
  complex branch, comparator a parameter. Proof: the code refines an insertion sort on a list of *blocks* (a real value or an
  adjacent conjugate pair), by induction on the outer loop; permutation, sortedness, stability and pair adjacency follow from
  the block-level theorem.
* **C04 (criteria)** each `SlepcCompare*` as a function on pairs of reals (real scalars) or complex numbers; show it equals
  the comparison of an explicit key in a linear order.
* **C06 (pool)** nodes and allocations as a state machine, `get`/`restore`; invariant by induction over well-nested histories.
* **C07, C08 (ST back-transform)** operators as matrices over a field; eigenpair equivalence by linear algebra; real/imaginary
  formulas compared with complex arithmetic. Known: the Cayley formula overwrites its inputs -> negation with witness.
* **C09 (ST state)** abstract state machine of `state/opready/sigma/matrices` with the value of the cached operator; invariant
  over histories. Known: `STSetShift` after `STGetOperator` leaves a stale operator -> witness and partial theorem.
* **C10 (polynomial shift)** `STCoeffs_Monomial` + `STMatMAXPY_Private` as sums; compare with Taylor shift of the matrix polynomial.
* **C11, C12 (matmodes)** functional models of the in-place update and of the shell operations.
* **C13-C17 (RG)** predicates over `Real x Real`; compare the code's branches with set-theoretic definitions.
* **C18-C21 (FN)** syntax tree of FN objects, `eval`/`deriv` transcribed, `HasDerivAt` by structural induction.
* **C22 (contour)** arithmetic of the partition; sums over colours.
* **C23 (tile)** entries placed by the insertion loops, for the sequential and the parallel index maps.
* **C24 (composite vectors)** folds over component vectors versus the concatenation.
* **C25, C26 (DS helpers)** permutation loop with invariant; sort as for C01.
* **C27, C28 (DS state)** state machines, invariants over histories, witnesses for the two missing checks.
* **C29, C30, C32 (BV state)** state machines over histories, witnesses for violations.
* **C60 (split BVs)** state machine with the cached left/right objects, generation of the storage and offset; invariant
  without reallocation, witnesses otherwise.  **C61 (cached product)** object identifier/state model of the cache.
* **C31 (Gram-Schmidt)** inner product spaces over R or C; MGS/CGS loops as folds; exact arithmetic.
* **C33 (dimensions)** integer decision logic.
* **C34 (structured spectra)** index arithmetic of `EPSGetEigenvalue` versus the list of symmetric groups.
* **C35 (stopping)** decision logic and the threshold state machine.
* **C36 (discard)** the swap loop on lists.
* **C37 (residual)** real 2n vectors versus complex vectors.
* **C62 (PEP/NEP dimensions)** integer decision logic as C33.
* **C63, C64, C67 (structured eigenvectors)** block vectors over a field with the block matrices of `matstruct.c`; the
  assembled vector satisfies the eigen-equation of the index by block algebra.  Left vectors likewise; NULL parts as options.
* **C65 (converged prefix)** the loop of `EPSKrylovConvergence` on functions; compared with "first failing index".
* **C66 (criteria)** solver state with stored norms, operations set-up / compute error; value of the criterion.
* **C68 (conjugate order)** recursion over the list of (value, vector) entries.
* **C203 (TOAR extraction)** complex arithmetic, exact eigenvectors of the linearization (block j is phi_j(theta) x); loop over the values with the variable idxcpy carried along; the values at which the basis is evaluated and the residual norms are arbitrary. Induction over the list. Not modelled: how those values are obtained with scaling or without transformed matrices (otherwise: Text/Value.lean), the real-arithmetic branches except structured extraction of pairs (Text/Pair.lean), errors in the vectors.
  Left vectors when they are computed inside the loop (`Verif/EPS/LeftPairs`): index loop over blocks with the flag of EPSComputeVectors; invariant on the sign of each second column; expected false if two pairs have to be exchanged.
* **C38 (bases)** recurrence of `PEPBasisCoefficients` versus Mathlib's polynomials (Chebyshev, Hermite) or explicit definitions.
* **C39 (linearization)** 2x2 block matrices over a commutative ring. **C69 (extraction)** the same vectors, blocks by rule.
* **C70, C71 (implicit operators, TOAR)** loops over blocks of a vector, compared with a companion relation defined by the recurrence
  (`OperatorSpec.lean`); linear solves are functions assumed exact. **C72 (errors)** sums over matrices, norms in state.
* **C40 (SVD order)** permutation plus transposition logic.
* **C41 (references)** reference-count multiset state machine. **C74 (one solve)** the same machine with a log of what each solve
  started from, compared with a fold over the history of calls.
* **C73 (SVD errors)** matrices over R or C; the bound by expansion in the eigenbasis of the cross product matrix.
* **C75 (scaling)** the stacked matrix `[A; s B]` and its adjoint, back-transformation and swap as functions; compared with the
  definition of a generalized singular quadruple of the user's pair.
* **C76 (cross, cyclic)** operators as functions of matrices over an `RCLike` field, with and without the signature; exact eigenpairs;
  eigensolver and orthogonalization by contract.
* **C77 (alignment)** the two loops over the list of eigenvalues, compared as lists of indices. **C78 (initial vectors)** the loop
  over pointers with outcomes "out of bounds" and "stack overwritten". **C79 (reuse)** state machine over set-ups.
* **C42 (transposed ST)** matrices over a star ring; the code path of each transposed application compared with the transpose
  of the forward one.
* **C43-C46 (FN matrices)** the same syntax tree evaluated on matrices; eigenvector statements by structural induction; the
  dense kernels (exp, log, sqrt, inverse) are abstract with their defining equation; processes as a function `Nat -> result`.
* **C47 (method numbers)** integer decision logic; index past the table is a distinct outcome.
* **C48-C53 (contour)** sums over integration points distributed over colours and rows; roots of unity for exactness.
* **C54 (composite vectors)** lists of components versus their concatenation.
* **C55 (DSSort Hermitian)** insertion sort plus permutation loop of C25/C26, composed.
* **C56, C57 (truncation)** index logic on the subdiagonal pattern; the writes of the truncation loops on a function matrix.
* **C58, C59 (Schur reordering)** Schur form as a list of blocks of size 1 or 2; `trexc` moves one block. Selection sort by
  induction on the unsorted part; permutation renumbering invariant.
* **C80, C81 (Arnoldi, Lanczos)** loops of `BVMatArnoldi`/`BVMatLanczos` on the Gram-Schmidt model of C31, columns as a sequence of
  vectors; loop invariant: orthonormal columns, the Krylov relation in the columns done, breakdown only with zero norm.
* **C82, C83 (MFN Krylov)** restart loop on top of C80; invariant: the glued Hessenberg matrix satisfies a Krylov relation with the
  concatenated bases, its leading block is unchanged by later restarts (block lower triangular), polynomials of it applied to the first
  unit vector have support bounded by the degree.
* **C84 (Expokit)** time stepping with abstract step, breakdown test and error estimates; rounding of steps to two digits bounded by 10%.
* **C85 (MFN calls)** state machine over sequences of calls; representation invariant against the history.
* **C86-C88 (LME)** gluing as in C82 for the projected Lyapunov equation, residual by algebra; dense solver as index-level copies
  with leading dimensions around assumed LAPACK kernels.
* **C90, C91 (LMESolve)** loop over the columns of the right-hand side with the solution for one vector as in C88; lists of columns.
* **C92-C95 (Krylov-Schur)** one cycle of `EPSSolve_KrylovSchur_Default` (non-Hermitian, Ritz extraction) as a function of the state (basis,
  projected matrix, dimensions), on top of `BVMatArnoldi` (C80), `EPSKrylovConvergence` (C65), `DSTruncate`, `DSUpdateExtraRow` (C57),
  `DSGetTruncateSize` (C56); the dense Schur solver is a parameter with a contract (unitary `Q`, `A Q = Q T`, `T` triangular). Invariant by
  induction over cycles; the residual of a dropped extra-row entry is kept in a ghost array. Negations by explicit runs.
* **C96, C97 (NEPINTERPOL)** coefficients as in the loop, with real cosines; discrete orthogonality of cosines at the nodes by a telescoping
  sum; polynomials of degree at most the number of nodes minus one are determined by the nodes. Back map as a loop over arrays.
* **C98 (adjoint)** loops over complex matrices; inner products. **C99 (resolvent)** state machine with the caches; invariant: a cached
  value is the one that would be computed. **C100 (errors)** formulas with the cached norms.
* **C101, C102 (NLEIGS interpolation)** rational basis and divided differences over any field; interpolation by the triangular structure
  (basis function k vanishes at the earlier nodes); matrix scheme by left eigenvectors of the bidiagonal pencil. Selection of nodes: loop
  over arrays, invariant relating the running products to the basis functions.
* **C103, C104 (NLEIGS operator)** block recurrences over any vector space, the inner linear solver as an exact solver; block by block the
  shift-and-invert relation with the linearization pencil. Transposed operator: bilinear pairing identity.
* **C105 (singularities)** recursion over expression trees with uninitialized outputs as a distinct value; the eigenvalues of the companion
  matrix by a contract.
* **C106, C107, C110 (spectrum slicing)** the problem is a finite multiset of real eigenvalues; the inertia at a shift is the number of
  smaller ones. Main loop as a transition function whose input is the list of eigenvalues the Lanczos process delivers at the current shift (any list
  that together with the deflated ones is contained in the spectrum); shifts as an ordered list with a stack of pending ones.
  Invariant by induction over the run: every gap between neighbouring shifts is complete or one of its ends is pending. **C108** the list
  of shifts and its exchange sort. **C109** the perturbation as a function with null pointers as a distinct outcome. **C111**
  subintervals, set-up and gathering as functions of the partition number.
* **C89 (test selection)** state machine over sequences of calls, one model with the differences between the classes as a parameter.
* **C112-C121 (blocks of vectors in BV)** matrices over real or complex numbers, LAPACK kernels as functions with their documented contract. **C112**
  the block methods as products of matrices with the leading part, the content of the user's `R` as an array; negations for what is not written or
  not conjugated. **C113** state of every process per level, exchange as a simultaneous step; invariant: the factor held by a process depends on its rank
  modulo a power of two; induction over levels. **C114** the packed array and the loops of Givens rotations; invariant on the Gram matrix; any tree of
  combinations. **C115** loops over blocks of rows; induction over the loop, comparison of storage types. **C116** exact Gram-Schmidt with two bases,
  induction over columns. **C117** on the Gram-Schmidt model of C31. **C118** the loop over global entries. **C119, C120** the arrays written by each
  variant, entry by entry, with wrong addresses and overflow as outcomes. **C121** trees of reductions. **C122** the dense product as matrices, the
  array of the diagonal factor by addresses; condition number specified by norms of images of unit vectors.
* **C123-C128 (SVD Lanczos)** the loops of `SVDTwoSideLanczos` and the one-sided variants on the Gram-Schmidt model of C31, columns as functions of the
  index; invariant: orthonormal columns and the two relations in the columns done, the coefficients being inner products moved to the other side with the
  adjoint. One cycle of `SVDSolve_TRLanczos` and `SVDSolve_Lanczos` as a function of the state, the dense SVD as a parameter with a contract; invariant by
  induction over cycles. Full column rank excludes a breakdown on the left side; negation by an explicit run for a matrix of rank one. One-sided variants by
  equality with the two-sided loop, division by zero as a distinct outcome.
* **C129-C138 (STFILTER)** arrays as functions of the index, every loop of `filtlan.c` and `chebyshev.c` as a recursive function; specification with Mathlib's
  Chebyshev polynomials. **C129** divided differences: the loop computes them, the Newton form satisfies the two-sided recursion, and `(X-c)^m` divides the
  difference to the constant; the derivative of a transition piece is a multiple of `(X-a)^d (X-b)^d`, hence monotone. **C130** polynomial identities in the mapped variable, inner
  product by the orthogonality integrals. **C131** the arrays represent global polynomials (invariant with sizes); conjugate residual orthogonality relations by induction
  over iterations; spanning by dimension. **C132** the vector loop run in lockstep with the loop on polynomials. **C133** state machine of the parameters with the cache flags, the
  filter computation as a parameter. **C134** the outer loop with any evaluation function; invariant on the break points. **C135, C136** Clenshaw recurrences against the series.
  **C137** integrals of cosines. **C138** kernels as squares of moduli. Negations by explicit parameters where the code differs.
* **C139-C148 (deflation of nonlinear eigenproblems, `NDef`)** matrix functions as families on all square matrices that intertwine (`A Z = Z B` gives `f(A) Z = Z f(B)`) on
  a domain given by the eigenvalues, and are continuous there; polynomials and the inverse are instances. The arrays of `nepdefl.c` as functions of indices, matrices as
  views. **C139** block form of `f` on `[[H,t],[0,l]]` by intertwining; induction over accepted solutions. Negation: orthonormality bounds the number of
  pairs by the dimension (`MAX_MINIDX` is 1), and a scalar quadratic. **C140** `T~(l) [[1,-X],[0,l-H]]` is block triangular for every minimality index; take determinants. Negation:
  refinement uses the undeflated operator. **C141** Schur complement; per-process copies of the additional entries, scaled by the root of the number of processes. **C142** state machine
  of the cached values with stamps. **C143** block products; negation for two processes and for two initial vectors. **C144** divided difference from the 13-block by intertwining,
  limit by continuity. **C145** intertwining with the eigenvector. **C146** rank-k corrections, determinant by the matrix determinant lemma; negation of the transposed claim by a 2x2 problem.
  **C147**, **C148** the outer loops of the three solvers as state machines driven by events (outcomes of tests and solves), sizes of the copied matrices as a decision function; invariants by induction over all event lists.
* **C149-C154 (`Iter`: power method, subspace iteration, randomized SVD)** vectors in a complex inner product space, operators as linear maps, exact arithmetic.
  **C149** the loop of EPSSolve_Power as a step function on (columns, T, number locked) with arbitrary new start vectors (orthonormal to the locked columns: the contract of EPSGetStartVector); invariant by
  induction over all iterations (orthonormality, Schur relation of each locked column with its phase factor, locked columns unchanged). Expected false: the stored column of T belongs to the vector before
  normalization, so eigenvectors of T are wrong by a phase; the estimate belongs to the previous vector. Witnesses.
  **C150** one step of RQI: estimate = residual, shift = Rayleigh quotient, Wilkinson shift from the projection; expected false: eigenvectors for nev>=2 (T mixes different inverse operators).
  **C151** two-sided step with the work vectors v,w as part of the state; biorthonormality by induction; expected false: start vectors not used after acceptance, two-sided Rayleigh quotient.
  **C152** projection step with the contract of the DS (unitary Q, Schur form), invariant over all histories; expected false when mpd<ncv. **C153** EPSSubspaceFindGroup on arrays, acceptance loop; bound with the
  square root of the size of the group, expected false without it. **C154** one iteration with the contracts of BVOrthogonalize and DSSVD; acceptance loop; expected false: rank smaller than ncv is an error.
* **C155-C159 (`Lan`: EPSLANCZOS, delayed Arnoldi)** **C155** arrays of records (value, estimate, mark, column), the loops that build and apply the permutation, induction over the loops. **C156** Lanczos step with the array
  `which` and modified Gram-Schmidt in a complex inner product space, invariant over the steps, residual of Ritz pairs. **C157** the marking loop; expected false in both directions (neighbour not converged, repeated values not adjacent).
  **C158** update_omega and compute_int on real arrays; row formula proved, expected false: the old row is lost, runs to the left are not found. **C159** both delayed variants with the vectors u, t and unnormalized columns as state (uninitialised
  work vectors as `none`); expected false for a single new column and for the residual norm of the variant without reorthogonalization. **C160** assignments of `beta`, `norm`, `*M` with the results of
  the orthogonalizations as inputs; expected false after a breakdown in mode `fro` and for selective reorthogonalization.
* **Cg (EPSRQCG, EPSLOBPCG)**: **C161** line search coefficients as in the code, on a complex inner product space with operators A, B; quotient minimal over all real steps, by the sign of the quadratic a t^2-bt+c. **C162** the loop that fills
  the projected matrix as an array, lower triangle read by the dense solver; expected false (first subdiagonal is not filled). **C163** an iteration (residuals, prefix of converged vectors, line search, orthonormalization) on lists of vectors;
  expected false since converged vectors are modified after the test. **C164** the arrays gamma and P relative to nconv; expected false after locking. **C165** Rayleigh-Ritz on [X,R,P], the dense solver given by its specification,
  min-max argument by dimension count. **C166**, **C167** the counters locked, nconv, its, eps->its with the number of converged vectors per pass as input; expected: dimensions suffice, termination proved, the count is false (each locked block loses one).
* **Ts (two-sided Krylov-Schur)**: **C168** one cycle as a function on (V, W, S, T, M, nconv, nconv+l): Arnoldi extension of each side, entries of M recomputed, EPSTwoSidedRQUpdate1 with solutions of the linear systems as inputs, Schur
  form and orthogonal factor as inputs constrained by their specification, extra row, truncation, EPSTwoSidedRQUpdate2; invariant by induction over cycles on a complex inner product space with an operator and its adjoint; expected false when the
  size kept equals the current size. **C169** consequences of the corrected matrices after EPSTwoSidedRQUpdate1. **C170** residual identities; expected false when the left factorization finishes earlier (the norm of the longer right factorization is used).
  **C171** the greedy loop on arrays with distances as reals; bijection by induction, matching when eigenvalues are separated; expected false without separation.
- **Bethe-Salpeter Krylov-Schur** (`Verif/Bse`): complex vectors of length n, `P x = R x + C conj x`, `M x = R x - C conj x` as real linear maps that are symmetric for the real part of the dot product
  and exchanged by multiplication with i. **C172** OrthogonalizeVector_Shao (local step and full pass over both bases) and the loop of EPSBSELanczos_Shao function by function, restart with the dense solver by specification;
  invariant by induction; the coefficients of the full pass vanish in exact arithmetic, which is what makes the stored matrix right. **C173** the same for EPSBSELanczos_Gruning from the first cycle.
  **C174** exact formula of the residual of the assembled vector; expected false: the estimate ignores the norms of the vectors, which are normalized in another form, and is not invariant under scaling (witness for every tolerance).
  **C175** algebra of the three EPSComputeVectors functions against the block matrix of MatCreateBSE. **C176** product with the inverse of the block matrix: structure for target 0 proved, expected false for other targets (witness).
  **C177** decision after a breakdown; all pairs exact at breakdown; expected false: error with multiple eigenvalues (witness for every start vector).
- **Linear response Krylov-Schur** (`Verif/Lrep`): real vectors, `K`, `M` real symmetric. **C178** OrthogonalizeVector_Teng and the loop of EPSLREPLanczos_Teng function by function, restart with the dense solver by specification; invariant by
  induction over passes and restarts. **C179** the same for EPSLREPLanczos_Zhong; alpha cannot vanish by a dimension argument. **C180** algebra of EPSComputeVectors_LREP_Teng/Zhong and EPSUnreduceVectors against the block matrices of MatCreateLREP.
  **C181** exact residual of the assembled vector against the estimate; expected false (no invariance under scaling, as C174). **C182** back-transformation of the values: the solver never applies the shift; expected false for nonzero shift.
  **C183** decision after a breakdown; expected false for multiple eigenvalues.
- **Harmonic and refined extraction** (`Verif/Harm`): operator on an inner product space, Krylov decomposition with columns indexed by naturals. **C184** DSTranslateHarmonic_NHEP without recover as an equation for `g`; orthogonality of the
  residual of every eigenpair of the translated matrix to (Op-tau)K; reality for self-adjoint operators from the orthogonality. **C185** translation, Schur form (by specification), recover, update of the basis and of the restart vector function by
  function; invariant over any number of restarts, with the continued Arnoldi factorization by specification (proved for the code in C80) and with locked columns. **C186** the estimate of EPSKrylovConvergence for the four extractions against the residual; expected
  false for refined harmonic (witness with arbitrarily large factor). **C187** operator of STSHIFT and back-transformation; expected false for nonzero shift (the target is not shifted). **C188** smallest singular vector of the (n+1) x n matrix by
  specification; minimality proved; expected false for the vectors returned (the vectors are multiplied by Q again) and for the number of columns updated. **C189** the translation fails exactly if the target is a Ritz value; expected false, always for
  real skew-symmetric operators, target 0 and odd size.
- **Scaling of polynomial eigenproblems** (`Verif/Pscl`): polynomial with coefficients as linear maps (degree generic) or real/complex matrices, settings of the PEP object as a record. **C190** eigenvector of the block operator applied by
  TOAR/QARNOLDI (balanced) and STOAR/LINEAR (not balanced) and the vector left by PEPComputeVectors_Default, tested against P(lambda)x=0; proved exactly when the operator is balanced iff the vectors are corrected; expected false for STOAR and
  LINEAR with diagonal scaling and for QARNOLDI/TOAR after switching it off. **C191** invariant of the scaling loop over the reals (logarithm, rounding), `none` for the logarithm of zero; bounds of the sums by induction over iterations; regular
  polynomials never hit `none`. **C192** weights against the definition; expected false with a scaling factor. **C193** set-up as a function on the settings; expected false (always recomputed). **C194** creation state of the work matrix and
  number of entries written to the column list, outcomes of invalid access distinct; expected false for the same nonzero pattern and for stored zeros. **C195** formula of the factor with real powers, Horner sum by induction; expected
  false if the first or last coefficient is zero. **C196** record update by options; expected false.
- **Balancing of non-Hermitian eigenproblems** (`Verif/Ebal`): EPS object as a record (settings, stage, diagonal of the EPS and of the ST), operator as a complex matrix of any size, calls (EPSSetBalance, EPSSetProblemType, STSetBalanceMatrix, other
  setters, EPSSetUp, EPSSolve, EPSReset) as steps. **C197** invariant over all call sequences: diagonal applied by the ST = diagonal used in the correction, nonzero; eigenvectors by algebra; expected false for a diagonal given by the user.
  **C198** same invariant with spans; expected false for a Hermitian problem after a balanced non-Hermitian solve. **C199** induction over the iterations of EPSBuildBalance_Krylov. **C200** step-wise comparison with the diagonal of the current
  settings; expected false if only the number of iterations or the cutoff changes, and for failing calls.
  **C201** EPSComputeRitzVector in real arithmetic: real and imaginary part with purification, correction and normalization, against the eigenvalue equation of the pair; expected false for complex pairs if the second matrix is positive
  definite (imaginary part purified and normalized on its own).
  **C202** operator of each transformation as P^-1 M with complex matrices, left vector corrected with D and then with P^-*; algebra of vector-matrix products against y*A = lambda y*B, for every nonsingular P.

## Simplifications per area

* **Sort, DS sort**: the comparator is any function; "consistent" means antisymmetric and transitive in the sense of the spec.
* **RG**: real and complex builds are unified on pairs of reals; the number `M` standing for infinity and the tolerance are
  parameters; `PETSC_DETERMINE`/`PETSC_CURRENT` arguments are not modelled.
* **FN**: `log 0` and division by zero are failures; dense kernels are abstract; GPU variants are not modelled.
* **ST**: linear solves are exact (abstract inverse); KSP options, preconditioner set-up and memory are not modelled.
* **Contour**: linear solves abstract; complex scalars.
* **MatTile**: preallocation and matrix type checks not modelled; assembly applies the writes.
* **VecComp**: the reduction is any binary tree; 0/0 is a distinct outcome; VecMin is the mirror image of VecMax.
* **DS**: LAPACK kernels (`trexc`, eigensolvers) assumed; `wr`, `wi` agree with the diagonal blocks when `DSSort` starts;
  `DSSort_HEP` only without auxiliary values.
* **BV**: storage as lists of columns, constraints first; Gram-Schmidt in exact arithmetic over R or C with a Hermitian form;
  the norms are computed always; cached products and parallel reductions are not part of the Gram-Schmidt model.
* **MFN, LME**: evaluation of functions of dense matrices, Schur and Sylvester kernels are assumed; the operations of Expokit on vectors are
  parameters; monitors, symmetry flags and the object's state after an error are not modelled.

* **NEP**: nodes and divided differences over any field (poles by their reciprocals); inner linear solves exact; real scalars only where
  stated; the AAA algorithm, options and the rational Krylov relation with several shifts are not modelled.
* **Slice** (spectrum slicing, ks-slice.c): the problem is the multiset of its eigenvalues; an inertia is the count of smaller ones (zero is replaced as in
  lines 229-231). The Lanczos process at a shift is an arbitrary list of values, assumed only to contain eigenvalues that are not deflated (`Sound`). Pointers
  are identifiers, null and the stale entry of the stack are distinct outcomes. The test `hasEnd` of the first partition, the messages between partitions
  (sent values as functions) and the gathering of eigenvalues are modelled; eigenvectors, restarts inside a shift, work space and monitors are not.
* **BVB** (blocks of vectors): kernels of LAPACK (Cholesky, QR, xLARTG, norms, scaling) by contract or exact; exact arithmetic over R or C. The
  inner product matrix of `BVDot` is any matrix; the switch over the block methods in `BVOrthogonalize`, GPU variants, `BVTENSOR` and reductions split
  in begin and end are not modelled. A generator of random numbers is its sequence of numbers; PETSc's default seed is taken as a function of the rank.
* **GKL** (SVD Lanczos): exact arithmetic over R or C, standard inner products, no constraints; `AT` is the exact adjoint; DSSolve and DSSort by a contract (`DenseOK`,
  shown to be satisfiable in `GKL/Svd.lean`). The restart loops use the two-sided bidiagonalization; the threshold stopping test, SVD_CONV_MAXIT, monitors, GSVD and HSVD are not
  modelled. The one-sided variants are compared with the two-sided one for exact locked triplets; NaN and errors are distinct outcomes.
* **Filt** (STFILTER): exact real arithmetic. Arrays are functions on the naturals, a column of a matrix with leading dimension `ld` starts at `j*ld`; division by zero in the conjugate
  residual iteration is an explicit flag (`nan`). Grid points of `FILTLAN_GetIntervals` are `end +- i*step` (the code adds the step repeatedly), the evaluation of the filter is a parameter there
  and instantiated with the modelled kernels in `C134_filter`; the options keep the defaults of filtlan.c:1196-1216. The set-up state machine (`SetupModel`) has the two numerical
  computations as oracles (`FEnv`), at most two matrices, and no matrix changes in place; `oper = none` stands for a multiplication with the data of the other filter type.

* **NDef** (deflation of nonlinear eigenproblems): exact complex arithmetic, exact linear solves. Matrix functions are families on all square matrices with the intertwining property on a class of admissible
  matrices (satisfied by polynomials and rational functions); `FNEvaluateFunctionMat` is this family. Arrays with leading dimension are functions of two indices; the powers of H kept in `Hj` are recomputed in
  the model. A distributed vector is its global part with the copies of the additional entries of all processes. BLAS `trtri`/`trsm` use the upper triangle only and fail for a zero on the diagonal (error outcome).
  The dead code with a negative index or a non-null `y` is not modelled. `Cache`: contents of matrices are represented by the parameters they have been computed with. `NE`: division by zero is a
  distinct outcome; only the operations with locked vectors outside refinement mode. `Stop`: numerical outcomes are given as events; only the basic stopping test; one-sided NEPSLP.
* **Iter** (power method, subspace iteration, randomized SVD): exact arithmetic; vectors in a complex inner product space, operators as linear maps; columns as functions of a natural number. Power method: `OP` is the operator of the
  ST, constant shifts, Rayleigh and Wilkinson shifts with a linear solve given by its equation; nonlinear power method, sign-normalization options and updates not modelled. Two-sided power: start vectors arbitrary. Subspace iteration: DSSolve and
  DSSort by their contract (unitary, triangular), the orthogonalization loop by its effect (the renewed columns are orthonormal with the locked ones), complex scalars. EPSSubspaceFindGroup and the acceptance loop as recursions over arrays, complex scalars,
  the counters given. Randomized SVD: BVOrthogonalize as the Gram-Schmidt process (other variants not modelled), DSSVD by its contract, convergence test as a parameter; SVD_CONV_MAXIT is not modelled.
* **Lan** (EPSLANCZOS, delayed Arnoldi): exact arithmetic. `SortModel`: the arrays ritz, bnd, conv and the columns of Y (V) are one array of records; the key of the sorting criterion is a real number. `LocalModel`: inner product of the
  space for that of the BV object; one pass of Gram-Schmidt; breakdown is a zero vector. `OmegaModel`: `anorm` fixed during the run, no reorthogonalization between the calls. `DelayModel`: VecDot and the BV inner product are the same;
  `dot2` (never used by the code) left out; division by zero and unassigned vectors are outcomes. `BetaModel`: results of orthogonalizations are inputs. Not modelled: DenseTridiagonal, the Ritz vectors of selective reorthogonalization, EPSSetUp_Lanczos.
* **Cg**: exact arithmetic; RQCG iteration for standard problems (the line search with B); random replacement vectors are any vectors; the dense solvers are given by their specification (DSHEP reads the lower triangle); preconditioners are
  linear maps (RQCG) or give any vectors (LOBPCG); preparation of R and P in LOBPCG (orthogonalization, breakdown) is not modelled; user-defined stopping tests are not modelled.
* **Ts**: exact arithmetic; linear dependence in BVMatArnoldi is a zero residual; LU solves, Schur forms and orthogonal factors are inputs constrained by their specification; cycles with breakdown and new start vectors are not modelled (C170 treats the
  quantities of the cycle in which a breakdown occurs); convergence test absolute, conjugate pairs in real arithmetic not modelled; in C171 DSSort_NHEP_Total and DSSortWithPermutation are left to C58, C59.
* **Bse**: complex scalars, exact arithmetic; square root of a negative number is the outcome `none`; dense solvers (DSHEP, DSSVD) are inputs constrained by their specification; no locked columns in the restarts (the non-locking variant); the spectral transformation is the shift with sigma 0 in C172-C175 and C177, shift-and-invert in C176; parallel layout, thresholds and reallocation not modelled; the convergence test is the relative one.
* **Lrep**: real scalars, exact arithmetic; square root of a negative number is the outcome `none`; dense solvers as in Bse; no locked columns in the restarts; EPSConvergence_Zhong (the stopping test of variant ZHONG) and the normalization after the assembly of eigenvectors are not modelled; Orthog_Teng reads entries of its work array that were never set and adds them to entries that are never used (checked by reading only).
* **Harm**: exact arithmetic, standard inner product; LU factorization fails exactly if the matrix is singular; DSSolve/DSSort, the singular value decomposition and the continued Arnoldi factorization (C80) by specification; restarts without breakdown that
  keep fewer columns than computed; real and complex scalars through RCLike (conjugate pairs in real arithmetic, EPS_HARMONIC with balancing, the threshold stopping test and purification are not modelled).
* **Pscl**: exact arithmetic; monomial basis, zero shift, no multiple refinement, first block extracted; STMatSolve exact; matrix of weighted moduli with global entries (the distribution matters only in the list of columns); all coefficient matrices provide norms; nonempty user vectors Dl and Dr distinct.
* **Ebal**: exact arithmetic; two problem types (Hermitian, non-Hermitian); solvers computing the vectors with EPSComputeVectors_Schur, standard problem without purification; normalization of vectors omitted (eigenvectors up to a nonzero factor); BVOrthogonalize by specification (same span, same number of vectors); Ritz vectors (C201) in real arithmetic, with V*Zr and V*Zi as given vectors and the operator of the ST as a matrix

## Disagreements between code and properties

Where a property is false of the code the negation is proved with a concrete witness, and the property is proved with the
offending case excluded (`_partial`).

1. `STBackTransform_Cayley` (cayley.c:96-102), real scalars, complex eigenvalue: `r`, `i` are overwritten before use (C08).
2. `MatMultTranspose_Cayley` (cayley.c:47-72) conjugates the antishift for the plain transpose (C42).
3. `MatGetDiagonal_Shell` (stshellmat.c:136) uses `VecAYPX` with the operands of an AXPY (C12).
4. `STSetShift`, `STSetSplitPreconditioner`, `STScaleShift`, `STCayleySetAntishift`, `STSetMatMode` after set-up leave a stale
   operator; `STPostSolve` twice corrupts the matrix in in-place mode (C09, C11).
5. `STMatMAXPY_Private`/`STMatSetUp`: leading zero coefficients (C10).
6. `RGComputeContour_Interval` (rginterval.c:228) real build: points off the interval; odd `n` leaves a point unset (C15).
7. `RGCheckInside_Ring`: boundary bypasses the angle check; zero-angle ray excluded; contour exceeds end angle; vertical
   axisymmetry unsound (C13, C15, C16).
8. `RGCheckInside_Polygon`: boundary points on axis-parallel edges (C14).
9. `FNSetMethod`, `DSSetMethod` accept one value past the table (C47).
10. `FNCOMBINE` in redundant mode with synchronized children (C46).
11. `DSSetDimensions` (dsops.c:162): `k>=0 || k<=n` never fails; `l` not rechecked when `n` shrinks (C27). `DSTruncate_GSVD`
    can set `n=ld+1`; `DSUpdateExtraRow_SVD` can set `k>n`; `DSReset` keeps a stale `t` (C27).
12. `DSRestoreMat`/`DSRestoreArray` do not reset the state; `DSVectors` checks only allocation (C28).
13. `DSSortEigenvalues_Private` (dspriv.c:212) reads `perm[l]` also when `l=ld` (C26).
14. `DSSortWithPermutation_NHEP_Private` (dsutil.c:191-215): a pair given in decreasing order is accepted but not moved (C59).
15. `DSTruncate` at the current size clears the extra row (C57); `DSGetTruncateSize` at full size consults the extra row;
    dsnhepts.c:379 uses `||` for `&&` (C56).
16. CISS: the region id is never stored (C49); `EPSCISSSetSizes` with two points gives moment size 0 (C50); interval with
    trapezoidal rule is rescaled wrongly (C53); `BVSumQuadrature` with partitions adds to the previous content and
    `BVTraceQuadrature` does not clear its work array (C48).
17. `VecNorm_Comp` in parallel is 0/0 for zero local parts, components without local norm operations lack the final step
    (C24); `VecMax_Comp` does not return the index when the maximum is in the first component (C54).
18. `BVSetActiveColumns` with `PETSC_CURRENT` for `l` and smaller `k` leaves `l>k` (C30); `BVResize` does not check for
    columns handed out (C29).
19. `BVCopyColumn` (bvbasic.c:1904) indexes the signature without the constraints; `BVSetNumConstraints` moves columns but not
    signs; `BVResize` gives new columns the sign 0; `BVCopy` reads a signature that may not exist and skips it on processes
    without rows (C32).
20. `BVGetSplit` reuses cached parts after `BVResize` (freed storage) and after removing the constraints (stale marks);
    `BVRestoreSplit` compares with `nc-1` for `-nc-1` (C60).
21. `BVSetMatrix` does not invalidate the cached product of `BV_IPMatMult` (C61).
22. `BVOrthogonalizeColumn` never writes the norm to the last entry of `H` (bvimpl.h:401-416); `BVOrthogonalizeSomeColumn`
    adds stale scratch entries to the coefficients of columns not selected (bvorthog.c:65-82); `BVOrthogonalize` with the
    column-by-column method and an indefinite inner product stores coefficients without the signs (C31).
23. `SVDSetDimensions_Default` with a second matrix without rows gives `nsv=1 > ncv=0`; defaults are frozen as if user-given after the
    first set-up (C33); `NEPSetDimensions_Default` gives `ncv<nev` when `nev>n` (C62).
24. `EPSStoppingThreshold` does not test the iteration limit when the first value beyond the threshold is seen, so that one iteration
    more than `max_it` can be done, and stops when all available
    approximations have converged although the threshold has not been reached (C35).
25. The filter discards eigenpairs without moving the error estimates (C36).
26. `EPSGetEigenvalue`/`EPSGetEigenvector` recognise the second half of a quadruple by comparing with the previous stored value, wrong
    for repeated quadruples (C34); for Hamiltonian and linear response problems the eigenvector uses half the index also when the eigenvalue uses the
    full one (C63); normalisation depends on the parts requested, and `EPS_GetEigenvector_LREP` dereferences a null `Vr` (C67).
27. `EPSGetLeftEigenvector` (epssolve.c:648): `problem_type==EPS_BSE || !lrepreduced` also holds for HEP and GHEP: error for
    ordinary matrices, sign change for nested ones (C64).
28. `EPSComputeResidualNorm_Private` ignores the imaginary part of the vector when the imaginary part of the value is negligible
    but not zero (C37).
29. `EPSKrylovConvergence` (epskrylov.c:226): not-a-number estimates count as converged (C65).
30. `EPSConvergedNorm` for standard problems uses `nrmb=0`, unless a backward error was computed before; selecting the norm criterion
    after set-up leaves both norms 0 (C66).
31. `PEPBasisCoefficients`: Legendre `cb=-2k` for 0 and `ca,cg` without the factor `1/(2k+1)`, Laguerre and Hermite signs; `PEPCISS` never calls it
    and does not reject other bases (C38).
32. `qeplin.c`: for `alpha,beta` both nonzero the linearization can be singular for regular problems, and with the default (1,0)
    Hermitian and gyroscopic linearizations are singular when K is; the eigenvector of the gyroscopic one is `[theta x; x]`, so that for
    eigenvalue 0 the extraction returns a zero vector (C39, C69).
33. `MatMult_Linear_Sinvert` (linear.c:172): `+cg/ca` times block `d-2` is added to the vector multiplied by `A_{d-1}`; it should be
    subtracted from the one multiplied by `A_d` (C70).
34. `PEPTOARExtendBasis` (ptoar.c:122) for degree two reads `r[j]`, the previous content of the column being computed (C71).
35. `PEPComputeResidualNorm_Private` drops imaginary parts when `|ki|<eps |kr|` (C72).
36. `EPSSolve` (epssolve.c:227) clears the counter of the right initial space but not of the left one, and the left basis is created
    anew at each set-up: a second two-sided solve starts from a zero vector (error) (C74).
37. Right initial vectors copied into the basis by `EPSSetUp` are lost if the basis is resized or constraints are inserted by a second set-up
    (C74).
38. With a deflation space, a second set-up before the solve fails in `BVResize` ("Cannot resize a BV with constraints"), and an empty
    `EPSSetDeflationSpace` after a set-up does not remove the constraints (C74).
39. The norm criterion of SVD selected after `SVDSetUp` uses zero norms (svdopts.c:485-504, norms computed in svdsetup.c only if already
    selected); the error of a generalized triplet can be zero for a value that is not a generalized singular value (C73).
40. `MatGetDiagonal_Cross` and `MatGetDiagonal_ECross` add `vals*vals` instead of `|vals|^2`: wrong diagonal (hence wrong
    preconditioner) in complex arithmetic (C76).
41. `SVDComputeVectors_Left` takes the left vectors from the orthogonalization of `A V`; if it returns a negative diagonal in `R`
    (TSQR), `A v = -sigma u` (C76).
42. CROSS with a hyperbolic problem and fewer rows than columns: for a negative signature element the right vector has the wrong sign
    (svdsolve.c:42-57, cross.c:329-340) (C76). With a generalized value 0 the left vector is zero.
43. CYCLIC stores values with `sigma>0` but vectors with `sigma>=0` (cyclic.c:555 versus 583, 624, 739) (C77).
44. CYCLIC initial vectors: `PetscArrayzero(&va,k)` (cyclic.c:495) zeroes the stack from the address of the pointer, `svd->IS[i]` (494, 504)
    is used beyond the list when there are fewer right than left vectors (C78).
45. CROSS: shift-and-invert chosen for the smallest values of a generalized problem (cross.c:204-207) stays for later solves with the
    largest values; problem type of a previous standard problem stays for a generalized one (183); the second solve with default tolerance
    uses a ten times larger one (217, 249) (C79).
46. CYCLIC: number of values, tolerance, basis size of the first solve are frozen in the eigensolver (cyclic.c:441-450); a later solve
    with more values fails (C79).
47. `MFNSolve_Krylov` never reports convergence with `max_it=1`, also when the result is exact (mfnkrylov.c:108-111) (C83).
48. `MFNSolve_Krylov` goes on to a second restart, from a zero vector, when the first factorization has found an invariant subspace
    (mfnkrylov.c:109): it then evaluates the function at a singular matrix whatever the operator is. With `ncv>=N`, the default for `N<=30`,
    functions that are not defined at zero (inverse, logarithm) fail for every operator, in exact arithmetic (C83).
49. `MFNSolve_Expokit`: when the rejections are exhausted the vector is advanced by the last rejected step but the time by the reduced one
    (mfnexpokit.c:110-160), so the total time applied exceeds the one requested; reaching the time in the last permitted iteration is reported
    as divergence (168); a zero scale factor gives 0/0 (79) (C84).
50. `MFNSolveTranspose` keeps the transpose of the first operator used with it (mfnsolve.c:139; neither `MFNSetOperator` nor `MFNReset` destroy
    `AT`); `MFNSetFN` does not ask for a new set-up, so the check of MFNEXPOKIT is skipped; `MFNSetDimensions` followed by an operator of another
    size leaves a basis with the old number of rows (C85). Also, `ncv` and `max_it` determined in the first set-up stay for later operators.
51. `XXXSetConvergenceTestFunction` with a predefined function leaves the previous function in use (epsopts.c:770-772, pepopts.c:759-761,
    nepopts.c:671-673, svdopts.c:450-453), likewise the stopping tests of PEP and NEP (pepopts.c:865, nepopts.c:777); for a new SVD object that is a
    NULL pointer; `EPSSetType` with EPSPOWER replaces the stopping test (power.c:1296) (C89).
52. The argument checks of `BVMatLanczos` (bvkrylov.c:185-186) use `||` and never fail (not modelled).
53. `Lyapunov_LAPACK` and `HessLyapunovChol_LAPACK` use the size of the matrix as leading dimension of the result (lmedense.c:439, 259, 265): wrong
    result if the leading dimension is larger (C87).
54. The estimate of LMEKRYLOV is the spectral norm of the residual only for a single cycle; after a restart the basis is not orthogonal and the
    residual can exceed the tolerance although the estimate does not (C86). `LMEComputeError` reports the Frobenius norm, `sqrt 2` times larger.
55. The second pass of LMEKRYLOV uses the number of columns of the last cycle for all cycles (lmekrylov.c:79, `m` is overwritten by the first
    pass): if the last cycle breaks down the factor is wrong (C88).
56. With a rank fixed by the user LMEKRYLOV multiplies by the leading block of `V^*` (lmekrylov.c:101), which is not orthogonal: the result is not the best
    approximation of that rank (C88).
57. `LMESolve_Krylov_Lyapunov` adds the computed factor to the contents of the matrix given by the user or left by a previous call
    (lmekrylov.c:104, 173-176): a second `LMESolve` leaves four times the solution; with several columns in the right-hand side the second
    call also truncates the rank (lmekrylov.c:178) (C90).
58. If the first column does not converge, `BVCreateMat` is called with a null BV (lmekrylov.c:190); the iteration number of a failed
    solve is too large by one (lmekrylov.c:152) (C91).
59. Not modelled: `LMEComputeResidualNorm_Lyapunov` (lmesolve.c:183-295) writes the columns of the solution in a BV with as many columns as the right-hand
    side; `LMEDenseRankSVD` scales `U` ignoring its leading dimension.
60. Krylov-Schur (complex scalars): when all values of the active part but one have converged the restart keeps one vector, i.e. the whole
    basis (krylovschur.c:298), and `DSTruncate` then clears the extra row instead of moving it (dsnhep.c:408-412): the Krylov-Schur relation is lost,
    and in the next iteration the remaining value can be accepted with estimate zero without being an eigenvalue (C92, C93).
61. Krylov-Schur: when the factorization breaks down and some values are not accepted (region, relative test at a zero eigenvalue), the new start vector
    overwrites a column that is needed for the rotation (krylovschur.c:309, 333), so that locked vectors are destroyed, and the vector copied
    afterwards (337) is the zero column left by the factorization (C92).
62. Krylov-Schur (real scalars): if all values have converged and a new factorization is started, the entry that couples the locked part with
    the residual stays in the matrix, and `DSSolve` takes the locked value for one of a complex pair (dsutil.c:63-76) (C95).
63. Krylov-Schur with `mpd=1` and complex scalars: the second factorization is called with an empty range of columns, an argument error (C94). With real scalars
    `DSGetTruncateSize` makes the number of vectors kept zero.
64. `DSSolve_NHEP_Private` does not restore the arrays if the size is one (dsutil.c:42-46) (not modelled).
65. NLEIGS: the number of terms is fixed by the first divided difference whose norm is small relative to the first one (nleigs.c:698, 779), so
    a function with one vanishing difference is truncated (C101).
66. NLEIGS: with more terms than discretization points the selection of nodes leaves entries without a value (C102).
67. NLEIGS: the operator assumes that the last pole is at infinity: the last block row uses `beta[d]` without its pole (nleigs-fullb.c:60-95), so with
    a finite last pole its eigenvalues are not those of the rational interpolant (C103). Interpolants of degree 1 or less (accepted by
    `NEPNLEIGSSetInterpolation`) make the operator read outside its arrays.
68. NLEIGS two-sided, split form: the transposed operator multiplies by the matrices, not by their transposes (nleigs-fullb.c:143,157,174) (C104).
69. NLEIGS: `NEPNLEIGSFNSingularities` does not assign its results for functions that are neither rational nor combined, for compositions and quotients, and
    for combinations of polynomials; the caller reads them (nleigs.c:155, 183). The scaling of the argument of the functions (`FNSetScale`) is ignored (C105).
70. NLEIGS, not modelled: the convergence test gets the untransformed eigenvalue (nleigs.c:836); the preconditioner in callback form is built with an
    unscaled first matrix and leaked for every shift (790-803).
71. NEPINTERPOL: the degree is fixed by the first coefficient whose weight is small relative to the first one (interpol.c:162-163), so an even function
    such as `x^4` on a symmetric interval gets degree 3 at most (C96). `NEPInterpolSetInterpolation` with `PETSC_DETERMINE` sets the degree to 0
    (interpol.c:265), not to the default 5; the tolerance stored in the first set-up is kept.
72. NEPINTERPOL with real scalars: the eigenvalue of the second member of a complex pair is not stored (interpol.c:185-194) (C97). The scale
    and the complement flag of the user's region are not passed to the polynomial solver (not modelled).
73. `NEPApplyAdjoint` conjugates twice around `MatMultHermitianTranspose`: it applies the transpose in callback form, and the transposes with
    conjugated function values in split form (nepsolve.c:291-307) (C98); the left residual of `NEPComputeError` inherits it (C100).
74. `NEPComputeError` divides the left residual by the norm of the right vector (nepsolve.c:702-716), and gives no number for eigenvalue zero (C100).
75. `NEPApplyResolvent` with real scalars uses the real part of the eigenvalue only (nepresolv.c:52-62) (C99).
76. Spectrum slicing: a shift that is an eigenvalue and has no right neighbour makes `EPSExtractShift` dereference a null pointer (ks-slice.c:822) (C109).
77. Spectrum slicing: misplaced parenthesis in line 825: the first condition is never true for `dir=1` and always true for `dir=-1`. The moved value is
    still between its neighbours because narrow intervals are not divided (`bisected_wide`), but as a function it may pass its neighbour (C109).
78. Spectrum slicing: when both intervals around a shift are too narrow, or the first push has used the slot, the second push of line 728 counts an entry
    that was overwritten (C110).
79. Spectrum slicing, several partitions: a bound that is an eigenvalue is multiplied by `1+ptol` without looking at the ends of the interval
    (ks-slice.c:417), so it may leave the interval (C111).
80. Spectrum slicing, several partitions: the buffers of `MPI_Isend` (lines 429-430) are exchanged in lines 460-463 before the send has completed (C111).
81. Spectrum slicing, without consequence for the values returned: `nsch[1]` without neighbour does not subtract known values (1198); the heuristic of
    lines 1043-1052 reads unsorted values; `nconv` is set to the expected number whatever was found (1243).
82. `BVDot` with zero rows on the only process writes nothing, so old entries of M stay (bvblas.c, early return); `BVDot` by columns ignores the leading
    dimension of M (C119).
83. `BVMatProject` by blocks with X different from Y: in bvglobal.c:994 the row of the second product is stored with the wrong offset, so entries are wrong,
    written out of bounds, or the call fails, depending on the numbers of leading columns; by vectors it may overflow `Y->h` when Y has fewer columns (C120).
84. `BVMultInPlace` of `BVVECS` in the memory-efficient version uses columns beyond the active ones for `e>k`; `BVMultInPlaceHermitianTranspose_Vecs` does not conjugate
    (vecs.c:149) and writes all active columns (vecs.c:150) (C115).
85. `BVOrthogonalize` with SVQB in complex arithmetic uses the transpose where the conjugate transpose is needed (bvlapack.c:312); CHOL and TSQRCHOL use the
    number of rows of R as leading dimension (bvlapack.c:157); TSQR does not clear R below the diagonal (C112).
86. `BVBiorthonormalizeColumn` divides by zero for a vanishing product (bvbiorthog.c:224-225), no error (C116).
87. The option for reproducible random vectors has no effect on the seed if the generator exists already (bvbasic.c:860-868), so processes keep different streams (C118).
88. `BVNormalize` with a pair cut by the end of the active columns scales the next column (C121).
89. `BVSetRandomCond`: MatProductCreate(Xt,M) with PtAP computes M'X'M, not XMX' (bvops.c:647), and the diagonal of M is written with the leading dimension of the BV
    (bvops.c:642), out of bounds when not all columns are active (C122).
90. SVDTRLANCZOS, breakdown on the left side (gklanczos.c:94-96, matrix without full column rank): column `nv` of V, a unit vector, is divided by beta again (trlanczos.c:487), the new
    random vector is written to column `k`, which is part of the basis still to be rotated, and column `nv` is copied over the result (line 536), so the next start vector does not have norm 1
    (`C124_rank_deficient`, `trCycle_left_breakdown`).
91. SVDTRLANCZOS and SVDLANCZOS fail with an error if the first start vector is in the null space of A: the size given to DSSVDSetDimensions is zero (C124_null, C128_null); before that
    `beta[-1]` is read (trlanczos.c:487).
92. The one-sided variant with modified Gram-Schmidt never checks for a breakdown (trlanczos.c:281, 302); the other one-sided variants do not in the last step (trlanczos.c:440, gklanczos.c:161):
    division by zero without an error (C127_mgs_silent, C127_last_silent).
93. Not proved, only read: SVDTRLANCZOS with `mpd=1`, or with `nsv=ncv` and one value missing, keeps the whole basis and repeats the same iteration until max_it (trlanczos.c:508);
    `Valid` excludes these cases. The check of the intermediate size in DSSetDimensions is `k>=0 || k<=n` (dsops.c:162), always true. SVDConvergedRelative
    gives an infinite estimate for singular value zero.
94. Chebyshev filter: the threshold is computed with a formula that is not the value of the filter for odd degrees; with degree one it is far off (C136_odd_false, C136_degree_one).
95. Chebyshev filter for an interval that starts at the left end of the range: the filter is scaled with the value at the lower end, the threshold 1/2 exceeds the value at the other end, so
    that wanted eigenvalues near it are discarded (C137_left_false; the comment at chebyshev.c:235-236 claims the contrary).
96. An interval bounded on one side only passes the test of filter.c:50 and krylovschur.c:71 but is always rejected by filter.c:52 (C133_onesided_false).
97. A range set by the user after a first solve with an estimated range is overwritten: `ctx->estimatedrange` is never cleared (krylovschur.c:74-84; C133_range_false).
98. The number of grid points is only increased (filtlan.c:231), so that the filter depends on intervals used before (C133_grid).
99. STFilterSetType forgets the range (filter.c:118 calls the reset; C133_type_forgets_range) and leaks the data of the old type.
100. STGetOperator between STFilterSetType and STSetUp keeps the shell matrix of the old type, whose multiplication then works on the data of the new type (C133_stale).
101. An interval equal to the range is an error for FILTLAN (C133_all_filtlan) and accepted without message by the Chebyshev filter (C133_all_cheb_false).
102. The ripple check of FILTLAN_GetIntervals skips grid points (the first point after the local minimum and the points not above it), so that a filter whose value outside the interval exceeds
    the allowed fraction is accepted (C134_ripple_false).
103. Not proved, only read: STFilterGetThreshold before the set-up gives 0.5 without type, 0 for FILTLAN and an error for the Chebyshev filter.
104. Deflation in NEPRII/NEPSLP/NEPNARNOLDI has minimality index one (MAX_MINIDX); then no pair whose eigenvector depends linearly on those found can be accepted, so that for instance -1 is never
     found for lambda^2 - 1 after 1, and at most n eigenvalues can be found (C139_false, C139_count).
105. In refinement mode the operator is the original one and locked eigenvalues are eigenvalues of it again: a solver in this mode can accept a pair twice (C140_refine_false).
106. Without effect for MAX_MINIDX 1: on several processes the product with the extended operator adds the coupling terms of an index above one with the wrong scaling (C141_false).
107. When the linear solver shares the matrix of the function (`sincf`), evaluating the function at another value changes the operator of the solver (C142_shared_false); after leaving refinement mode the solver works with the data of
     the last set-up (C142_refine_false).
108. The projected problem of NEPNARNOLDI lacks the scaling by the number of processes in the coupling block (C143_false), and with two or more initial vectors the columns beyond the first are used without having been copied to the extended
     basis (C143_initial_false).
109. The vector extracted for refinement is not normalized before its residual is compared with the tolerance (C145_norm).
110. Two-sided NEPSLP: the product with the Jacobian divides by alpha, which vanishes at an eigenvalue found plus one (C146_jacobian_false); MatMultTranspose is not the transpose of MatMult (it applies the factors in the other order), and the
     inner left and right eigenvalues differ, which the solver reports as failed linear solve (C146_transpose, C146_sides_false).
111. NEPRII, NEPSLP and NEPNARNOLDI end with an error (incompatible sizes in MatCopy, or DSGetMat with dimension zero) in all executions in which fewer than nev eigenpairs converge, instead of returning the reason (C147_false).
112. NEPRII adds the iterations of an accepted pair to nep->its before it calls the stopping test with nep->its+its, so these are counted twice and the solver can give up after half of the iterations allowed (C148_rii_false).
113. Not proved, only read: with an exact start vector NEPSLP asks for the converged pairs of an EPS that has not been solved (slp.c:219).
114. The power method multiplies each new vector by the phase of theta (SlepcSignum) but not the entries of the column of T that couple it with accepted vectors, so eigenvectors computed from T are wrong for non-Hermitian operators (C149_vectors_false).
     The error estimate belongs to the vector before the last application of the operator (C149_estimate_false).
115. With Rayleigh quotient shifts the matrix T mixes columns of operators with different shifts; eigenvectors computed from it are wrong (C150_vectors_false). The Wilkinson shift divides 0/0 for a multiple of the identity (C150_wilkinson_false).
116. Two-sided power method: the start vectors of the second and later pairs are computed and stored but never used, since the loop continues with the work vectors of the accepted pair; after exact convergence the next iteration ends with
     "Breakdown" (C151_start_false). The two-sided Rayleigh quotient conjugates theta and takes the modulus of alpha, so the shift can have the wrong sign even with real matrices (C151_quotient_false).
117. Subspace iteration with mpd<ncv: when the projected dimension grows after acceptance, columns are included which were orthonormalized only against the initial basis (C152_orthonormal_false).
118. Subspace iteration accepts a group by the root mean square of its residuals (C153_false); if all projected columns are accepted, line 287 reads an entry of itrsdold that has not been set (C153_uninitialised_false).
119. SVDRANDOMIZED ends with an error in the first iteration for every matrix of rank smaller than ncv (C154_rank_false).
120. EPSLANCZOS (local): a converged Ritz value is discarded as repeated if it is close to the value before it, converged or not; equal values that are not adjacent are accepted twice (C157_false).
121. EPSLANCZOS (partial, periodic): the loop "Swap omega and omega_old" copies instead of swapping, so that the recurrence uses the new row in place of the old one (C158_old_lost, C158_false).
122. EPSLANCZOS (partial, periodic): with locked columns update_omega is called with absolute indices although the estimates are stored relative to the first active column (C158_locked_false).
123. EPSLANCZOS (partial): the search for the left interval in compute_int starts at a selected entry and stops at once (C158_left_false).
124. Delayed Arnoldi with a single new column normalizes a work vector that has never been assigned and stores it as last basis vector; with m=1 it also writes before the start of H (C159_single_false). There is no test for breakdown.
125. EPSDelayedArnoldi1 returns the subdiagonal entry of the column before the last as residual norm, and does not normalize the last column (C159_beta_false).
126. EPSLANCZOS: after a breakdown in full reorthogonalization mode (partial, periodic) the error estimates use an old entry of beta (C160_fro_false); selective reorthogonalization uses the norm before the orthogonalization against Ritz vectors (C160_selective_false).
127. EPSRQCG: in the reset the loop `for (j=nconv;j<i-1;j++)` leaves out the entry next to the diagonal, which the dense solver reads (lower triangle) and which is always zero; the reset is not a Rayleigh-Ritz projection unless consecutive active vectors are uncoupled (C162_false).
128. EPSRQCG: vectors accepted as converged are still moved along the search direction and orthonormalized in the same iteration, after the test and without updating value and error estimate; the returned pair can have relative residual 1 for any tolerance (C163_false).
129. EPSRQCG: gamma and P are indexed relative to nconv and are not shifted when vectors converge, so that the remaining vectors continue with directions of other vectors (C164_shift, C164_false); division by gamma is not protected (0/0 for an active vector with zero gradient).
130. EPSLOBPCG: ncv is not limited by the problem dimension; near the dimension, new initial vectors are taken from columns that cannot be orthonormal (C166_false).
131. EPSLOBPCG: each locked block takes one from the iteration count, which can become -1; the number of expansions can exceed max_it (C167_false).
132. EPSKRYLOVSCHUR two-sided: after `nv = PetscMin(nv,nvt)` the norm `beta` still belongs to the longer right factorization; it enters the corrected projected matrix and the error estimates, so that a pair with residual norm 1 can be accepted with estimate 0 (C170_false).
133. EPSKRYLOVSCHUR two-sided (as the one-sided variant with small mpd, cf. 15): in complex arithmetic, when one active column is left, k+l equals the current size and DSTruncate clears the extra row; the decomposition used in the next cycle is wrong (C168_full_false).
134. DSSort_NHEPTS: only positions with a mismatch take part in the matching, in greedy order; with values closer than the tolerance a mismatch can remain although an exchange would remove it (C171_false).
135. EPSKRYLOVSCHUR for EPS_BSE (SHAO): the residual estimate is `beta |q_last|`, without the norm of the next vector and of the assembled eigenvector, which are normalized in the form `Re u^*(R u + C conj u)`; the estimate does not scale like the residual. For R = e diag(3,8) with small e the relative estimate is below any tolerance while the relative residual of the assembled vector is above 2/5 (C174_false).
136. EPS_BSE with STSINVERT and a nonzero target is accepted, but the inverse of H - sigma I does not have the structure that STApply_Sinvert_BSE and the solvers assume: with R = 2, C = 1, sigma = 1 the value returned is 1+1/sqrt(2) instead of sqrt(3) (C176_false).
137. EPS_BSE: a breakdown with fewer exact pairs than requested raises PETSC_ERR_CONV_FAILED instead of continuing with a new vector; with R = I, C = 0 this happens for every start vector and nev at least 3 (C177_false).
138. EPSKRYLOVSCHUR for EPS_LREP (TENG): as 135, the residual estimate is `beta |q_last|` without the norm of the next vector and of the assembled eigenvector; for K = M = e diag(3,8) with small e the relative estimate is below any tolerance while the relative residual is above 2/5 (C181_false).
139. EPS_LREP accepts STSHIFT with a nonzero shift, but the solver works with the blocks of the unshifted matrix; EPSComputeValues then adds the shift, so that the values returned are not eigenvalues (C182_false). EPSComputeVectors_LREP_Teng adds the shift once more before scaling the upper half of the vectors (read only).
140. EPS_LREP: a breakdown with fewer exact pairs than requested raises PETSC_ERR_CONV_FAILED; with K = M = I this happens for every start vector and nev at least 3 (C183_false).
141. EPS_REFINED_HARMONIC (EPSARNOLDI): the error estimate is the smallest singular value of the translated matrix with the extra row and is not multiplied by gamma (epskrylov.c:223); the residual can be larger by any factor (C186_false).
142. EPS_HARMONIC with STSHIFT and a nonzero shift: EPSSetUp accepts the combination (epssetup.c:105), but the target is applied to the shifted operator without subtracting the shift (krylovschur.c:277, arnoldi.c:97): the extraction uses target+shift (C187_false).
143. EPS_REFINED (EPSARNOLDI): if all values of the search space converge, BVMultInPlace is called for nv+1 columns with a matrix of nv columns (arnoldi.c:109) and raises an error (C188_all_false); the other branch uses PetscMin(k+1,nv).
144. EPS_REFINED (EPSARNOLDI), non-Hermitian: EPSComputeVectors_Schur computes refined vectors of the trimmed matrix, which DSVectors_NHEP_Refined_Some multiplies by the Q of the last cycle although the state is DS_STATE_RAW (dsnhep.c:84); with two or more pairs the vectors returned
     are mixtures (C188_false). The columns locked by EPSSolve_Arnoldi are refined vectors, which are neither orthogonal nor, with locked columns, normalized (only column k is orthonormalized, arnoldi.c:111).
145. EPS_HARMONIC: if the target is a Ritz value the LU factorization of the projected matrix fails and EPSSolve ends with an error; always for real skew-symmetric matrices, target 0 and odd ncv (C189_false).
146. EPS_HARMONIC (EPSKRYLOVSCHUR): because ds->l is set to the new number of locked columns before DSTruncate (krylovschur.c:325), the entries of the extra row in the columns locked in this cycle stay in row nv; if nv grows (mpd smaller than ncv) they are
     part of the matrix that the next translation factors (entries of the size of the tolerance; C185 holds nevertheless, because any g is undone).
147. PEPSTOAR and PEPLINEAR never use Dr, but PEPComputeVectors_Default multiplies the vectors by Dr if diagonal scaling is selected: wrong eigenvectors (C190_false).
148. PEPTOAR and PEPQARNOLDI use Dr whenever it exists, also if PEPSetScale has switched diagonal scaling off since; then the vectors are not corrected: wrong eigenvectors (C190_false).
149. PEPBuildDiagonalScaling: the weight is (lambda^2*sfactor)^k; with a scaling factor it should be lambda^(2k), or (lambda*sfactor)^(2k) for an estimate in the scaled problem (C192_false).
150. PEPSetUp recomputes Dl and Dr also if they were provided by the user, and overwrites the vectors of the user (C193_false; e.g. src/pep/tests/test3.c).
151. PEPBuildDiagonalScaling: with sequential matrices and SAME_NONZERO_PATTERN the variable A is used in MatCopy without having been created, and it would be destroyed one iteration too early (C194_same_false,
     C194_same_live_false).
152. PEPBuildDiagonalScaling: columns with stored zeros are appended to cols more than once, which can overflow the array (C194_cols_false).
153. PEPComputeScaleFactor gives a zero factor if the constant coefficient is the zero matrix (C195_false); a zero column in all coefficients leads to the conversion of an infinite value to an integer (C191_singular).
154. PEPSetFromOptions: after PEPSetScale with PETSC_DETERMINE the stored factor is 0, so that any scaling option other than the factor raises an error; a factor 1 set by the user is replaced by the computed one; options on parameters
     of a strategy not selected are dropped (C196_false, C196_dropped_false).
155. User balancing (EPS_BALANCE_USER with STSetBalanceMatrix): the operator is balanced but eps->D is never set, so the eigenvectors are not corrected and are wrong; the same if STSetBalanceMatrix is called between EPSSetUp and EPSSolve,
     since the set-up is not repeated (C197_user_false, C197_late_false).
156. EPSGetInvariantSubspace divides by eps->D without testing for Hermitian problems: after a balanced non-Hermitian solve, a Hermitian solve with the same object returns vectors divided by the stale diagonal (C198_false).
157. EPSSetBalance resets the state only if the method changes: a new number of iterations or cutoff is ignored in the next EPSSolve after a solve (which does nothing); if its or cutoff is invalid the method has been changed already
     (C200_false, C200_fail_false).
158. EPSComputeRitzVector in real arithmetic with a positive definite second matrix: the imaginary part is purified under a different condition than the real part, and both are normalized separately, so that the Ritz vector of a complex
     pair is wrong (true residual, arbitrary selection) (C201_pair_false).
159. EPSSolve in real arithmetic, two-sided: the sign of the left vectors of conjugate pairs is set in EPSComputeVectors from the current sign of the imaginary part, but only the first exchanged pair has its sign changed by then; from the
     second exchanged pair on (shift-and-invert with two or more complex pairs) the left vector belongs to the conjugate value (C68_left_false).
160. PEPExtractVectors_TOAR: idxcpy is set to 0 only once, so with extraction by norm a value at which no polynomial of the basis has modulus larger than one uses the block selected for an earlier value; for the value 0 in the monomial
     basis the extracted vector is zero (C203_norm_false).
161. PEPExtractVectors_TOAR applies STBackTransform to the eigenvalues, which have been transformed back already, so with a nonzero shift the basis is evaluated at a value which is not that of the linearization (C203_value_false); with
     structured extraction the result can be the zero vector (C203_structured_false).
162. PEPSolve in real arithmetic: the sign of the imaginary part of the first pair to be exchanged is changed before PEPComputeVectors, so that structured extraction in TOAR uses the conjugate value for this pair; the result can be zero,
     e.g. for the eigenvalues i, -i with shift-and-invert and shift 0 (C203_pair_false).
