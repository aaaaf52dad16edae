{"id": "C01", "title": "Eigenvalue sort never loses or duplicates an eigenvalue", "statement": "SlepcSortEigenvalues / SlepcSortEigenvaluesSpecial, called on a permutation vector in which complex conjugate eigenvalues occupy adjacent positions, only ever accesses perm[0..n-1] and returns a perm that is a rearrangement of the one passed in.", "quantifier": "for every n, every list of eigenvalues (real arithmetic with adjacent conjugate pairs, or complex arithmetic with any values) and every sorting criterion, even an inconsistent one", "why_tests_cant": "The set of interleavings of real and paired eigenvalues and comparator answers grows exponentially with n; tests only sample a few spectra and a few criteria.", "anchors": ["src/sys/slepcsc.c:SlepcSortEigenvalues", "src/sys/slepcsc.c:SlepcSortEigenvaluesSpecial", "src/sys/slepcsc.c:SlepcSortEigenvalues_Private"]}
{"id": "C02", "title": "Eigenvalue sort delivers the requested order", "statement": "After SlepcSortEigenvalues the eigenvalues listed through perm are ordered by the sorting criterion (no eigenvalue is preceded by one the criterion ranks strictly worse), and eigenvalues ranked equal keep their original relative order.", "quantifier": "for every n, every input spectrum with adjacent conjugate pairs, and every criterion that is a total preorder not distinguishing a value from its conjugate", "why_tests_cant": "Needs all spectra and all criteria; ordering bugs typically show up only for particular mixes of pairs and ties.", "anchors": ["src/sys/slepcsc.c:SlepcSortEigenvalues", "src/sys/slepcsc.c:SlepcSCCompare"]}
{"id": "C03", "title": "Complex conjugate pairs stay together through sorting", "statement": "With real scalars, after SlepcSortEigenvalues the two members of each complex conjugate pair are still in consecutive positions and in their original relative order, whatever the criterion answers.", "quantifier": "for every n, every real-arithmetic spectrum with adjacent conjugate pairs and every (even inconsistent) criterion", "why_tests_cant": "Eigenvector extraction reads column j and j+1 of a pair; a single separated pair yields garbage vectors and only appears for specific comparator/pair patterns.", "anchors": ["src/sys/slepcsc.c:SlepcSortEigenvalues_Private", "include/slepcsc.h"]}
{"id": "C04", "title": "Predefined eigenvalue criteria are consistent rankings", "statement": "Each predefined criterion (largest/smallest magnitude, real, imaginary; target magnitude, real, imaginary; smallest positive real) answers -1/0/1 consistently with one total preorder: antisymmetric, transitive, total, and the preorder is the documented one.", "quantifier": "for all pairs and triples of eigenvalues and all targets, in exact arithmetic, real and complex scalars", "why_tests_cant": "Transitivity is a statement on all triples of numbers.", "anchors": ["src/sys/slepcsc.c:SlepcCompareLargestMagnitude", "src/sys/slepcsc.c:SlepcCompareSmallestImaginary", "src/sys/slepcsc.c:SlepcCompareTargetMagnitude", "src/sys/slepcsc.c:SlepcCompareSmallestPosReal"]}
{"id": "C05", "title": "Eigenvalues inside the region of interest are returned first", "statement": "When a region (RG) is attached to the sorting criterion, after sorting every eigenvalue whose back-transformed value is inside the region precedes every one that is outside, and each of the two groups is ordered by the criterion.", "quantifier": "for every spectrum, every region, every spectral-transformation map and every total-preorder criterion", "why_tests_cant": "Needs all spectra and regions.", "anchors": ["src/sys/slepcsc.c:SlepcSCCompare", "src/sys/slepcsc.c:SlepcSortEigenvalues"]}
{"id": "C06", "title": "Vector pool never hands out the same work vector twice", "statement": "For any well-nested (last-in first-out) history of SlepcVecPoolGetVecs and SlepcVecPoolRestoreVecs no call fails, every array handed out and not yet restored refers to vectors that are still allocated, and arrays simultaneously handed out never share a vector.", "quantifier": "for every initial size and every well-nested history of get/restore calls with arbitrary counts", "why_tests_cant": "Aliasing or use-after-free depends on the complete history of request sizes.", "anchors": ["src/sys/vec/pool.c:SlepcVecPoolGetVecs", "src/sys/vec/pool.c:SlepcVecPoolRestoreVecs", "src/sys/vec/pool.c:SlepcVecPoolCreate"]}
{"id": "C07", "title": "Spectral transformation back-transform recovers original eigenvalues", "statement": "If (theta,x) is an eigenpair of the operator applied by STApply for shift, shift-and-invert or Cayley then (STBackTransform(theta),x) is an eigenpair of the original problem A x = lambda B x; conversely every eigenvalue of the problem (other than the pole) is obtained from exactly one theta.", "quantifier": "for all square matrices A, B of any size, all shifts for which the transformed operator exists, and all eigenpairs", "why_tests_cant": "A statement over all matrices; numerical tests check a handful with a tolerance.", "anchors": ["src/sys/classes/st/impls/shift/shift.c:STBackTransform_Shift", "src/sys/classes/st/impls/sinvert/sinvert.c:STBackTransform_Sinvert", "src/sys/classes/st/impls/cayley/cayley.c:STBackTransform_Cayley"]}
{"id": "C08", "title": "Real-arithmetic back-transform of complex pairs agrees with complex arithmetic", "statement": "With real scalars, where a complex eigenvalue is held as separate real and imaginary parts, STBackTransform gives the real and imaginary part of the value obtained by the complex formula of the transformation (shift, shift-and-invert, Cayley).", "quantifier": "for every complex value, every shift and antishift for which the transformation is defined", "why_tests_cant": "Quantifies over all real and imaginary parts.", "anchors": ["src/sys/classes/st/impls/shift/shift.c:STBackTransform_Shift", "src/sys/classes/st/impls/sinvert/sinvert.c:STBackTransform_Sinvert", "src/sys/classes/st/impls/cayley/cayley.c:STBackTransform_Cayley"]}
{"id": "C09", "title": "ST operator always reflects the current matrices and shift", "statement": "Whatever the history of STSetMatrices, STSetShift, STSetType-independent setters, STSetUp, STApply and STGetOperator/STRestoreOperator calls, a (successful) STApply applies the operator for the most recently set matrices and shift.", "quantifier": "for every finite history of calls", "why_tests_cant": "Stale-cache bugs depend on the order of calls.", "anchors": ["src/sys/classes/st/interface/stfunc.c:STSetShift", "src/sys/classes/st/interface/stfunc.c:STSetMatrices", "src/sys/classes/st/interface/stsolve.c:STSetUp", "src/sys/classes/st/interface/stsolve.c:STGetOperator_Private"]}
{"id": "C10", "title": "Polynomial shift coefficients", "statement": "For a polynomial eigenproblem with d+1 coefficient matrices, the matrices assembled by a shift or shift-and-invert ST with transformation enabled are the coefficients of the shifted polynomial P(theta+sigma) (resp. the reversed shifted polynomial), so mapped eigenvalues are exactly the shifted (resp. shift-inverted) ones.", "quantifier": "for every degree, every list of coefficient matrices, every shift", "why_tests_cant": "All degrees and matrices.", "anchors": ["src/sys/classes/st/interface/stsolve.c:STMatMAXPY_Private", "src/sys/classes/st/interface/stsolve.c:STCoeffs_Monomial"]}
{"id": "C11", "title": "In-place spectral transformation leaves the user's matrix unchanged", "statement": "With ST_MATMODE_INPLACE, after any sequence of set-ups and shift changes followed by STPostSolve, the user's matrix A has exactly the value it had before the first set-up.", "quantifier": "for every matrix, every sequence of shifts (exact arithmetic)", "why_tests_cant": "History dependent; every sequence of shifts.", "anchors": ["src/sys/classes/st/interface/stsolve.c:STMatMAXPY_Private", "src/sys/classes/st/impls/shift/shift.c:STPostSolve_Shift", "src/sys/classes/st/impls/sinvert/sinvert.c:STPostSolve_Sinvert", "src/sys/classes/st/impls/cayley/cayley.c:STPostSolve_Cayley"]}
{"id": "C12", "title": "Shell and explicit matrix modes describe the same operator", "statement": "The implicit matrix used in ST_MATMODE_SHELL gives, for multiplication, transpose multiplication, Hermitian-transpose multiplication and diagonal extraction, the same result as the explicitly assembled matrix of ST_MATMODE_COPY.", "quantifier": "for all matrices, coefficients, shifts and vectors", "why_tests_cant": "All matrices and vectors.", "anchors": ["src/sys/classes/st/interface/stshellmat.c:MatMult_Shell", "src/sys/classes/st/interface/stshellmat.c:MatMultTranspose_Shell", "src/sys/classes/st/interface/stshellmat.c:MatGetDiagonal_Shell"]}
{"id": "C13", "title": "Region membership test is the mathematical membership", "statement": "RGCheckInside returns a positive value for interior points, zero for boundary points and a negative value for exterior points of the interval, ellipse, ring and polygon regions as documented, and RGSetComplement negates the answer.", "quantifier": "for every point of the complex plane and every valid set of region parameters", "why_tests_cant": "Uncountably many points and parameters.", "anchors": ["src/sys/classes/rg/impls/interval/rginterval.c:RGCheckInside_Interval", "src/sys/classes/rg/impls/ellipse/rgellipse.c:RGCheckInside_Ellipse", "src/sys/classes/rg/impls/ring/rgring.c:RGCheckInside_Ring", "src/sys/classes/rg/impls/polygon/rgpolygon.c:RGCheckInside_Polygon", "src/sys/classes/rg/interface/rgbasic.c:RGCheckInside"]}
{"id": "C14", "title": "Region scaling is consistent and reversible", "statement": "With scale factor s, RGCheckInside on z equals the unscaled answer on z/s, RGComputeContour and RGComputeBoundingBox are multiplied by s, and RGPushScale followed by RGPopScale restores the previous behaviour in any sequence of membership queries.", "quantifier": "for every region, every scale factor, every history of push/pop/query calls", "why_tests_cant": "History and parameter quantification.", "anchors": ["src/sys/classes/rg/interface/rgbasic.c:RGSetScale", "src/sys/classes/rg/interface/rgbasic.c:RGPushScale", "src/sys/classes/rg/interface/rgbasic.c:RGPopScale", "src/sys/classes/rg/interface/rgbasic.c:RGCheckInside"]}
{"id": "C15", "title": "Contour points lie on the region boundary", "statement": "Every point returned by RGComputeContour for an interval, ellipse or ring lies on the boundary of the region.", "quantifier": "for every valid parameter set and every number of points", "why_tests_cant": "All parameter values and point counts.", "anchors": ["src/sys/classes/rg/impls/interval/rginterval.c:RGComputeContour_Interval", "src/sys/classes/rg/impls/ellipse/rgellipse.c:RGComputeContour_Ellipse", "src/sys/classes/rg/impls/ring/rgring.c:RGComputeContour_Ring"]}
{"id": "C16", "title": "Bounding box contains the region", "statement": "The box returned by RGComputeBoundingBox contains every point that RGCheckInside reports as inside (non-complemented regions).", "quantifier": "for every point, every interval/ellipse/polygon/ring and scale factor", "why_tests_cant": "All points and parameters.", "anchors": ["src/sys/classes/rg/interface/rgbasic.c:RGComputeBoundingBox", "src/sys/classes/rg/impls/ellipse/rgellipse.c:RGComputeBoundingBox_Ellipse", "src/sys/classes/rg/impls/interval/rginterval.c:RGComputeBoundingBox_Interval"]}
{"id": "C17", "title": "Axisymmetry answers are sound", "statement": "If RGIsAxisymmetric answers true for an axis then membership is invariant under reflection in this axis.", "quantifier": "for every point and every parameter set of interval, ellipse, ring and polygon", "why_tests_cant": "All points and parameters.", "anchors": ["src/sys/classes/rg/interface/rgbasic.c:RGIsAxisymmetric", "src/sys/classes/rg/impls/interval/rginterval.c:RGIsAxisymmetric_Interval", "src/sys/classes/rg/impls/ellipse/rgellipse.c:RGIsAxisymmetric_Ellipse"]}
{"id": "C18", "title": "FN derivative is the derivative of the FN value", "statement": "For every FN object, whatever its nesting of combined functions, scale factors and basic types, FNEvaluateDerivative(x) is the derivative at x of the function y -> FNEvaluateFunction(y), whenever both calls succeed in the interior of the domain.", "quantifier": "for every expression tree of FN objects (rational, exp, phi, log, sqrt, invsqrt, combine add/multiply/divide/compose) and every real argument", "why_tests_cant": "Infinite family of expression trees and arguments.", "anchors": ["src/sys/classes/fn/interface/fnbasic.c:FNEvaluateDerivative", "src/sys/classes/fn/impls/combine/fncombine.c:FNEvaluateDerivative_Combine", "src/sys/classes/fn/impls/rational/fnrational.c:FNEvaluateDerivative_Rational", "src/sys/classes/fn/impls/phi/fnphi.c:FNEvaluateDerivative_Phi"]}
{"id": "C19", "title": "Rational functions evaluate the documented quotient", "statement": "FNEvaluateFunction for FNRATIONAL returns p(x)/q(x) with coefficients given in descending powers, with a missing numerator or denominator meaning 1, and fails exactly when q(x)=0.", "quantifier": "for all coefficient lists of any length and all arguments", "why_tests_cant": "All lengths and arguments.", "anchors": ["src/sys/classes/fn/impls/rational/fnrational.c:FNEvaluateFunction_Rational"]}
{"id": "C20", "title": "Phi functions satisfy their defining recurrence and are continuous at zero", "statement": "FNEvaluateFunction for FNPHI of index k returns phi_k(x) where phi_0=exp and phi_k(x)=(phi_{k-1}(x)-1/(k-1)!)/x; the special value used at x=0 is the limit of phi_k(x) as x tends to 0.", "quantifier": "for every index k and every argument", "why_tests_cant": "All indices and a limit statement.", "anchors": ["src/sys/classes/fn/impls/phi/fnphi.c:FNEvaluateFunction_Phi"]}
{"id": "C21", "title": "Duplicated function objects are equal and independent", "statement": "FNDuplicate gives an object that evaluates like the original, and later changes of parameters or scale of either object do not change the other.", "quantifier": "for every expression tree and every later history of parameter changes", "why_tests_cant": "History and tree quantification.", "anchors": ["src/sys/classes/fn/interface/fnbasic.c:FNDuplicate", "src/sys/classes/fn/impls/combine/fncombine.c:FNDuplicate_Combine", "src/sys/classes/fn/impls/rational/fnrational.c:FNDuplicate_Rational"]}
{"id": "C22", "title": "Integration points are distributed exactly once", "statement": "In the contour-integral solvers each of the n integration points is assigned to exactly one of the process partitions, and partition sizes differ by at most one.", "quantifier": "for every number of points and every number of partitions", "why_tests_cant": "All n and partition counts.", "anchors": ["src/sys/slepccontour.c:SlepcContourDataCreate"]}
{"id": "C23", "title": "Tiled matrix equals the block matrix", "statement": "MatCreateTile(a,A,b,B,c,C,d,D) gives the matrix [aA bB; cC dD]; in parallel it is this matrix with rows and columns renumbered by a bijection that keeps each process's rows contiguous.", "quantifier": "for all matrices of compatible sizes, all coefficients, every number of processes and every row distribution", "why_tests_cant": "All sizes and distributions.", "anchors": ["src/sys/mat/matutil.c:MatCreateTile", "src/sys/mat/matutil.c:MatCreateTile_Seq", "src/sys/mat/matutil.c:MatCreateTile_MPI"]}
{"id": "C24", "title": "Composite vector dot products and norms", "statement": "VecDot, VecMDot, VecTDot and VecNorm on a composite vector equal those of the concatenation of its component vectors (1-, 2-, Frobenius and infinity norm), independent of how the entries are split.", "quantifier": "for every number of components (at least one) and all vectors", "why_tests_cant": "All splittings and values.", "anchors": ["src/sys/vec/veccomp0.h:VecNorm_Comp", "src/sys/vec/veccomp0.h:VecDot_Comp", "src/sys/vec/veccomp0.h:VecMDot_Comp", "src/sys/vec/veccomp.c"]}
{"id": "C25", "title": "Column permutation of dense work matrices", "statement": "DSPermuteColumns/DSPermuteRows with a permutation array place old column perm[i] in position i for all i in the range and leave other columns untouched.", "quantifier": "for every size, every offset and every permutation", "why_tests_cant": "Factorially many permutations.", "anchors": ["src/sys/classes/ds/interface/dspriv.c:DSPermuteColumns_Private", "src/sys/classes/ds/interface/dspriv.c:DSPermuteRows_Private"]}
{"id": "C26", "title": "Projected eigenvalue sort keeps pairs and locked values", "statement": "The sort used by DSSort returns a permutation that leaves positions below l fixed, keeps conjugate pairs adjacent and orders the values of positions l..t-1 by the criterion.", "quantifier": "for every n, l, t and every spectrum with adjacent pairs", "why_tests_cant": "All spectra.", "anchors": ["src/sys/classes/ds/interface/dspriv.c:DSSortEigenvalues_Private", "src/sys/classes/ds/interface/dspriv.c:DSSortEigenvaluesReal_Private"]}
{"id": "C27", "title": "DS dimensions are always valid", "statement": "After any sequence of DSAllocate, DSSetDimensions, DSTruncate and DSReallocate calls the dimensions of a DS satisfy 0<=l<=n<=ld and 0<=k<=n, or the offending call reported an error.", "quantifier": "for every history of calls with arbitrary integer arguments", "why_tests_cant": "History quantification with arbitrary arguments.", "anchors": ["src/sys/classes/ds/interface/dsops.c:DSSetDimensions", "src/sys/classes/ds/interface/dsops.c:DSTruncate", "src/sys/classes/ds/interface/dsbasic.c:DSAllocate", "src/sys/classes/ds/interface/dsbasic.c:DSReallocate"]}
{"id": "C28", "title": "DS life-cycle state", "statement": "DSSolve is a no-op on an already condensed DS, DSVectors/DSSort/DSSynchronize are accepted only in the appropriate states, and modifying the matrices makes the next DSSolve recompute.", "quantifier": "for every history of DS calls", "why_tests_cant": "History quantification.", "anchors": ["src/sys/classes/ds/interface/dsops.c:DSSolve", "src/sys/classes/ds/interface/dsops.c:DSSort", "src/sys/classes/ds/interface/dsops.c:DSSetState", "src/sys/classes/ds/interface/dsops.c:DSRestoreMat"]}
{"id": "C29", "title": "BV column access protocol", "statement": "BVGetColumn hands out at most two columns at a time, never the same column twice, and BVRestoreColumn succeeds exactly for an outstanding column with the Vec that was handed out; after every outstanding column is restored the BV accepts new requests.", "quantifier": "for every history of get/restore calls and every number of constraints", "why_tests_cant": "History quantification.", "anchors": ["src/sys/classes/bv/interface/bvbasic.c:BVGetColumn", "src/sys/classes/bv/interface/bvbasic.c:BVRestoreColumn", "include/slepc/private/bvimpl.h"]}
{"id": "C30", "title": "Active column range is always valid", "statement": "After any sequence of BVSetSizes, BVSetActiveColumns, BVSetNumConstraints, BVResize calls the active range satisfies 0<=l<=k<=m (or the offending call reported an error).", "quantifier": "for every history of calls with arbitrary integer arguments", "why_tests_cant": "History quantification with arbitrary arguments.", "anchors": ["src/sys/classes/bv/interface/bvbasic.c:BVSetActiveColumns", "src/sys/classes/bv/interface/bvbasic.c:BVResize", "src/sys/classes/bv/interface/bvbasic.c:BVSetNumConstraints"]}
{"id": "C31", "title": "Gram-Schmidt gives orthonormal columns and an exact factorization", "statement": "In exact arithmetic BVOrthogonalizeColumn / BVOrthogonalize with classical or modified Gram-Schmidt makes the new vector orthogonal to all previous columns, reports its norm and coefficients so that old = Q*h + norm*new, for every refinement policy.", "quantifier": "for every inner-product space, number of columns, vectors, refinement policy and eta", "why_tests_cant": "All vectors and dimensions; tests see rounding only.", "anchors": ["src/sys/classes/bv/interface/bvorthog.c:BVOrthogonalizeGS", "src/sys/classes/bv/interface/bvorthog.c:BVOrthogonalizeColumn", "src/sys/classes/bv/interface/bvorthog.c:BVOrthogonalize"]}
{"id": "C32", "title": "Signature stays attached to its column", "statement": "For an indefinite inner product the sign stored for each column follows the column through BVCopyColumn, BVSetNumConstraints, BVResize, BVSetSignature and BVGetSignature.", "quantifier": "for every history of calls, every number of columns and constraints", "why_tests_cant": "History quantification.", "anchors": ["src/sys/classes/bv/interface/bvbasic.c:BVSetSignature", "src/sys/classes/bv/interface/bvbasic.c:BVCopyColumn", "src/sys/classes/bv/interface/bvbasic.c:BVSetNumConstraints"]}
{"id": "C33", "title": "Default eigensolver dimensions are consistent", "statement": "Whenever EPSSetUp / SVDSetUp accept the requested (nev,ncv,mpd) (nsv,ncv,mpd), with any of them left to default, the resulting values satisfy 1<=nev<=ncv<=n (with the number of pairs in place of nev, and half the size in place of n, for problems whose eigenvalues come in pairs; nev may stay 0 with the threshold stopping test) and mpd>=1, and a user-given value is never changed except for the caps at the problem size; set-up is repeatable: changing only nev or the matrices afterwards gives the same as with a new solver.", "quantifier": "for every problem size and every combination of given and defaulted values", "why_tests_cant": "All integer combinations.", "anchors": ["src/eps/interface/epssetup.c:EPSSetDimensions_Default", "src/eps/interface/epssetup.c:EPSSetUp", "src/svd/interface/svdsetup.c:SVDSetDimensions_Default"]}
{"id": "C34", "title": "Structured spectra are returned in complete symmetric groups", "statement": "For structured problems (Bethe-Salpeter, LREP: +-lambda; Hamiltonian: quadruples) EPSGetEigenvalue over all indices returns for each computed value all its symmetric counterparts, each exactly once.", "quantifier": "for every list of computed eigenvalues and every index", "why_tests_cant": "All spectra, including repeated values.", "anchors": ["src/eps/interface/epssolve.c:EPSGetEigenvalue"]}
{"id": "C35", "title": "Stopping tests report the right reason", "statement": "EPSStoppingBasic (and PEP, NEP, SVD analogues) return converged exactly when the wanted number has converged, diverged exactly when the iteration limit is reached before, and keep iterating otherwise; the threshold variant stops successfully only after a value beyond the threshold has been seen in two consecutive iterations, or the optional wanted number has converged, or everything is computed, and never runs past the iteration limit.", "quantifier": "for every sequence of iteration counts, converged counts and residuals", "why_tests_cant": "Sequence quantification.", "anchors": ["src/eps/interface/epsdefault.c:EPSStoppingBasic", "src/eps/interface/epsdefault.c:EPSStoppingThreshold", "src/pep/interface/pepdefault.c:PEPStoppingBasic", "src/svd/interface/svddefault.c:SVDStoppingBasic"]}
{"id": "C36", "title": "Discarding eigenvalues outside the interval keeps exactly the wanted ones", "statement": "When a filter is used, after the final discard step the kept eigenvalues are exactly the computed ones inside the interval, each with its own eigenvector and error estimate.", "quantifier": "for every list of eigenvalues and every interval", "why_tests_cant": "All lists; swap-based removal is order sensitive.", "anchors": ["src/eps/interface/epssolve.c:EPSComputeValues"]}
{"id": "C37", "title": "Real-arithmetic residuals equal complex residuals", "statement": "For a complex conjugate eigenpair held as two real vectors, EPSComputeError (right and left) uses the norm of the complex residual A x - lambda B x (A^* y - conj(lambda) B^* y for left eigenvectors).", "quantifier": "for all matrices, vectors and complex eigenvalues", "why_tests_cant": "All matrices and vectors.", "anchors": ["src/eps/interface/epssolve.c:EPSComputeResidualNorm_Private"]}
{"id": "C38", "title": "Polynomial bases are the documented ones", "statement": "The polynomial basis selected by PEPSetBasis (monomial, Chebyshev first and second kind, Legendre, Laguerre, Hermite) is evaluated as the classical polynomials of that name.", "quantifier": "for every degree and every argument", "why_tests_cant": "All degrees and arguments.", "anchors": ["src/pep/interface/pepdefault.c:PEPBasisCoefficients", "include/slepc/private/pepimpl.h", "include/slepcpep.h:PEPBasis"]}
{"id": "C39", "title": "Explicit linearizations preserve the quadratic eigenproblem", "statement": "For each explicit linearization (non-Hermitian, symmetric, Hamiltonian) with any valid (alpha,beta) and scaling, every eigenpair of the quadratic problem gives an eigenpair of the linearized pencil and, conversely (given the documented coefficients), every eigenpair of the pencil yields an eigenpair of the quadratic problem.", "quantifier": "for all matrices K, C, M of any size and all alpha, beta", "why_tests_cant": "All matrices.", "anchors": ["src/pep/impls/linear/qeplin.c:MatCreateExplicit_Linear_NA", "src/pep/impls/linear/qeplin.c:MatCreateExplicit_Linear_SA", "src/pep/impls/linear/qeplin.c:MatCreateExplicit_Linear_HA"]}
{"id": "C40", "title": "SVD triplets are returned in the requested order with matching sides", "statement": "SVDGetSingularTriplet(i) returns singular values in non-increasing order (largest) or non-decreasing order (smallest), and u is always the left and v the right vector of the user's matrix, whether or not the solver worked on the transpose.", "quantifier": "for every list of computed values and every matrix shape", "why_tests_cant": "All lists and shapes.", "anchors": ["src/svd/interface/svdsolve.c:SVDSolve", "src/svd/interface/svdsolve.c:SVDGetSingularTriplet", "src/svd/interface/svdsetup.c:SVDSetUp"]}
{"id": "C41", "title": "Object lists keep reference counts balanced", "statement": "EPSSetInitialSpace/EPSSetDeflationSpace (and the analogues) called any number of times with any (overlapping) vectors never free a vector the caller or the solver still holds and free every reference exactly once.", "quantifier": "for every history of calls with overlapping vector lists", "why_tests_cant": "History and aliasing quantification.", "anchors": ["src/sys/slepcutil.c:SlepcBasisReference_Private", "src/sys/slepcutil.c:SlepcBasisDestroy_Private", "src/eps/interface/epssetup.c:EPSSetInitialSpace"]}
{"id": "C42", "title": "Transposed applications are the transposes of the applied operator, also with balancing", "statement": "STApplyTranspose and STApplyHermitianTranspose compute the product by the transpose and the conjugate transpose of exactly the operator applied by STApply, with or without a balancing matrix and for every matrix mode; balancing does not change the eigenvalues.", "quantifier": "for all matrices, shifts, nonzero diagonal balancing matrices and vectors", "why_tests_cant": "All matrices and vectors; unit tests only check a few real cases.", "anchors": ["src/sys/classes/st/interface/stsolve.c:MatMult_STOperator", "src/sys/classes/st/interface/stsolve.c:MatMultTranspose_STOperator", "src/sys/classes/st/interface/stsolve.c:MatMultHermitianTranspose_STOperator", "src/sys/classes/st/impls/cayley/cayley.c:MatMultTranspose_Cayley"]}
{"id": "C43", "title": "Matrix functions agree with the scalar function", "statement": "If v is an eigenvector of A for lambda and FNEvaluateFunction gives y at lambda, then v is an eigenvector of the matrix computed by FNEvaluateFunctionMat for the value y; for FNRATIONAL the result F satisfies q(alpha A)F = beta p(alpha A) for every matrix, diagonalizable or not.", "quantifier": "for every expression tree of FN objects, scale factors, every dense matrix whether or not marked Hermitian, every eigenpair", "why_tests_cant": "Quantifies over all function trees and matrices.", "anchors": ["src/sys/classes/fn/interface/fnbasic.c:FNEvaluateFunctionMat_Private", "src/sys/classes/fn/interface/fnbasic.c:FNEvaluateFunctionMat_Sym_Private", "src/sys/classes/fn/impls/combine/fncombine.c:FNEvaluateFunctionMat_Combine", "src/sys/classes/fn/impls/rational/fnrational.c:FNEvaluateFunctionMat_Rational"]}
{"id": "C44", "title": "Matrix function times first unit vector", "statement": "FNEvaluateFunctionMatVec returns the first column of the matrix that FNEvaluateFunctionMat returns for the same function and matrix.", "quantifier": "for every expression tree and every matrix on which FNEvaluateFunctionMat succeeds", "why_tests_cant": "All trees and matrices; the two routines have separate code paths for every type.", "anchors": ["src/sys/classes/fn/interface/fnbasic.c:FNEvaluateFunctionMatVec_Private", "src/sys/classes/fn/impls/combine/fncombine.c:FNEvaluateFunctionMatVec_Combine", "src/sys/classes/fn/impls/rational/fnrational.c:FNEvaluateFunctionMatVec_Rational"]}
{"id": "C45", "title": "Phi function of a matrix through an augmented exponential", "statement": "FNEvaluateFunctionMatVec for FNPHI of index k returns beta*phi_k(alpha*A)*e_1 with phi_k(M) the sum of M^i/(i+k)!.", "quantifier": "for every index, matrix order, matrix and nonzero scale factors", "why_tests_cant": "All orders and indices; infinite series.", "anchors": ["src/sys/classes/fn/impls/phi/fnphi.c:FNEvaluateFunctionMatVec_Phi"]}
{"id": "C46", "title": "Matrix functions are the same on all processes", "statement": "FNEvaluateFunctionMat leaves the same result on every process of the communicator, equal to the one computed by the first process, for every choice of redundant/synchronized mode in the function and in the functions nested in it.", "quantifier": "for every expression tree with any parallel modes, every matrix and every process", "why_tests_cant": "Needs all mode combinations and process counts.", "anchors": ["src/sys/classes/fn/interface/fnbasic.c:FNEvaluateFunctionMat_Private", "src/sys/classes/fn/interface/fnbasic.c:FNSetParallel", "src/sys/classes/fn/impls/combine/fncombine.c:FNEvaluateFunctionMat_Combine"]}
{"id": "C47", "title": "Accepted method numbers are valid", "statement": "A method number accepted by FNSetMethod or DSSetMethod is an index of the table of methods, so that evaluating a matrix function or solving never reads outside the table.", "quantifier": "for every integer passed as method", "why_tests_cant": "All integers, memory safety.", "anchors": ["src/sys/classes/fn/interface/fnbasic.c:FNSetMethod", "src/sys/classes/ds/interface/dsbasic.c:DSSetMethod", "include/slepc/private/fnimpl.h", "include/slepc/private/dsimpl.h"]}
{"id": "C48", "title": "Quadrature sums do not depend on the partitioning", "statement": "BVSumQuadrature, BVDotQuadrature and BVTraceQuadrature return the weighted sums over all integration points (with the conjugate contributions when only half of the points are used), whatever the number of partitions, the way points and rows are distributed, and the previous content of the output.", "quantifier": "for every number of points and partitions, row distributions, vectors, weights and previous outputs", "why_tests_cant": "Needs every process count and distribution.", "anchors": ["src/sys/classes/bv/interface/bvcontour.c:BVSumQuadrature", "src/sys/classes/bv/interface/bvcontour.c:BVDotQuadrature", "src/sys/classes/bv/interface/bvcontour.c:BVTraceQuadrature", "src/sys/classes/bv/interface/bvcontour.c:BVScatter", "src/sys/classes/bv/interface/bvcontour.c:BVCISSResizeBases"]}
{"id": "C49", "title": "Contour solvers follow changes of the region", "statement": "After the region of a CISS solver has been changed and the solver set up again, the number of integration points and the use of conjugate symmetry are those of the new region, as for a newly created solver.", "quantifier": "for every sequence of regions and set-ups", "why_tests_cant": "All call sequences.", "anchors": ["src/eps/impls/ciss/ciss.c:EPSSetUp_CISS", "src/pep/impls/ciss/pciss.c:PEPSetUp_CISS", "src/nep/impls/ciss/nciss.c:NEPSetUp_CISS"]}
{"id": "C50", "title": "CISS size parameters are always valid", "statement": "After any sequence of accepted EPSCISSSetSizes calls the parameters satisfy their documented constraints: even positive number of integration points, positive block and moment sizes, block size times moments positive.", "quantifier": "for every sequence of calls and all integer arguments", "why_tests_cant": "All integer arguments and call sequences.", "anchors": ["src/eps/impls/ciss/ciss.c:EPSCISSSetSizes_CISS"]}
{"id": "C51", "title": "Block Hankel matrix and growing the bases", "statement": "The Hankel matrix built from the moments has block (a,b) equal to moment a+b (+1 for the shifted one), and enlarging the block size keeps the already computed solutions with the point and column they belong to.", "quantifier": "for every number of moments, block size, enlargement and number of points", "why_tests_cant": "All sizes; index arithmetic.", "anchors": ["include/slepc/private/slepccontour.h:CISS_BlockHankel", "src/sys/classes/bv/interface/bvcontour.c:BVCISSResizeBases"]}
{"id": "C52", "title": "Quadrature rules are exact for low moments", "statement": "The points and weights of RGComputeQuadrature annihilate every polynomial of degree at most n-2 (trapezoidal, Chebyshev and barycentric rules), and on a circle they realise the filter 1/(1+u^n) of the normalised eigenvalue.", "quantifier": "for every number of points, degree and region parameters", "why_tests_cant": "Statement about all n, all polynomials and real parameters.", "anchors": ["src/sys/classes/rg/impls/ellipse/rgellipse.c:RGComputeQuadrature_Ellipse", "src/sys/classes/rg/impls/interval/rginterval.c:RGComputeQuadrature_Interval", "src/sys/classes/rg/impls/ring/rgring.c:RGComputeQuadrature_Ring"]}
{"id": "C53", "title": "Eigenvalues are rescaled by the inverse of the normalisation", "statement": "The transformation that the contour solver applies to the eigenvalues of the projected problem inverts the one used to normalise the integration points.", "quantifier": "for every region, its parameters and every normalised value", "why_tests_cant": "All real parameters.", "anchors": ["src/eps/impls/ciss/ciss.c:rescale_eig"]}
{"id": "C54", "title": "Composite vectors behave as the concatenation", "statement": "Elementwise operations on composite vectors equal those on the concatenation of the components, and VecMax/VecMin return the extremum and its position in the concatenation.", "quantifier": "for all vectors with the same layout", "why_tests_cant": "All layouts and values.", "anchors": ["src/sys/vec/veccomp.c:VecMax_Comp", "src/sys/vec/veccomp.c:VecMin_Comp", "src/sys/vec/veccomp.c:VecAXPY_Comp"]}
{"id": "C55", "title": "Projected Hermitian problem: sorting keeps values and vectors matched", "statement": "After DSSort of a Hermitian projected problem, every column of the vector matrix is still the one computed for the eigenvalue stored in the same position, the values come in the order of the comparison criterion, and the locked part is untouched.", "quantifier": "for every size, number of locked values, values, vectors and consistent criterion", "why_tests_cant": "All sizes, values and tie patterns.", "anchors": ["src/sys/classes/ds/impls/hep/dshep.c:DSSort_HEP", "src/sys/classes/ds/interface/dspriv.c:DSSortEigenvalues_Private", "src/sys/classes/ds/interface/dspriv.c:DSPermuteColumns_Private"]}
{"id": "C56", "title": "Truncation never cuts a 2x2 block", "statement": "The size returned by DSGetTruncateSize never separates the two rows of a 2x2 diagonal block and differs from the requested one by at most one; DSTruncate refuses to cut a block.", "quantifier": "for every Schur form and requested size", "why_tests_cant": "All sizes and block structures.", "anchors": ["src/sys/classes/ds/interface/dsops.c:DSGetTruncateSize", "src/sys/classes/ds/impls/nhep/dsnhep.c:DSTruncate_NHEP", "src/sys/classes/ds/impls/nhepts/dsnhepts.c:DSTruncate_NHEPTS"]}
{"id": "C57", "title": "The extra row survives truncation and is updated with the vectors", "statement": "DSUpdateExtraRow replaces the extra row (last row of the rectangular matrix) by its product with the orthogonal transformation, and DSTruncate moves its leading part to the new last row and clears what is cut off.", "quantifier": "for every size, matrix and transformation", "why_tests_cant": "All sizes and values.", "anchors": ["src/sys/classes/ds/impls/nhep/dsnhep.c:DSTruncate_NHEP", "src/sys/classes/ds/impls/nhep/dsnhep.c:DSUpdateExtraRow_NHEP", "src/sys/classes/ds/impls/hep/dshep.c:DSUpdateExtraRow_HEP"]}
{"id": "C58", "title": "Sorting a Schur form", "statement": "DSSort of a non-Hermitian projected problem arranges the eigenvalues of the (quasi-)triangular form in the order of the comparison criterion, stably, without separating complex conjugate pairs and without touching the locked leading part.", "quantifier": "for every Schur form, block structure, number of locked rows and consistent criterion", "why_tests_cant": "All sizes and block structures.", "anchors": ["src/sys/classes/ds/impls/dsutil.c:DSSort_NHEP_Total"]}
{"id": "C59", "title": "Sorting a Schur form with a given permutation", "statement": "DSSortWithPermutation brings the eigenvalues to the order given by the caller's permutation, or reports an error if the permutation would break a complex conjugate pair.", "quantifier": "for every Schur form, block structure and permutation", "why_tests_cant": "All permutations.", "anchors": ["src/sys/classes/ds/impls/dsutil.c:DSSortWithPermutation_NHEP_Private"]}
{"id": "C60", "title": "Split BVs are views of the parent's columns", "statement": "After BVGetSplit the left part consists of the constraints and leading columns of the parent and the right part of the remaining ones, column by column in the same memory, with matching dimensions; both accept requests for columns, and BVRestoreSplit refuses a part of which a column has not been restored.", "quantifier": "for every history of dimension changes, splits, column requests, constraint changes and resizes", "why_tests_cant": "All call histories; memory views.", "anchors": ["src/sys/classes/bv/interface/bvbasic.c:BVGetSplit", "src/sys/classes/bv/interface/bvbasic.c:BVRestoreSplit", "src/sys/classes/bv/interface/bvbasic.c:BVGetSplit_Private", "src/sys/classes/bv/interface/bvbasic.c:BVResize", "src/sys/classes/bv/impls/svec/svec.c:BVCreate_Svec"]}
{"id": "C61", "title": "Inner products use the current matrix", "statement": "BVApplyMatrix returns the product of the vector's current content with the inner-product matrix set last, whatever was multiplied before.", "quantifier": "for every sequence of BVSetMatrix and BVApplyMatrix calls on changing vectors", "why_tests_cant": "All call sequences; caching.", "anchors": ["src/sys/classes/bv/interface/bvbasic.c:BVSetMatrix", "src/sys/classes/bv/interface/bvbasic.c:BVApplyMatrix", "include/slepc/private/bvimpl.h:BV_IPMatMult"]}
{"id": "C62", "title": "Default dimensions of polynomial and nonlinear eigensolvers", "statement": "Whenever PEPSetUp and NEPSetUp accept the requested nev, ncv, mpd, with any of ncv and mpd left to default, the resulting subspace is large enough for the requested number of eigenvalues, does not exceed the problem size, and user-given values are not changed except for caps at the problem size.", "quantifier": "for every problem size, degree and every combination of given and defaulted values", "why_tests_cant": "All sizes and combinations.", "anchors": ["src/pep/interface/pepsetup.c:PEPSetDimensions_Default", "src/pep/interface/pepsetup.c:PEPSetUp", "src/nep/interface/nepsetup.c:NEPSetDimensions_Default"]}
{"id": "C63", "title": "Symmetric counterparts come with their own eigenvectors", "statement": "For structured problems (Bethe-Salpeter, Hamiltonian, linear response) the vector returned by EPSGetEigenvector for index i is an eigenvector of the user's matrix for the eigenvalue that EPSGetEigenvalue returns for the same i, also for the counterparts that were not computed explicitly.", "quantifier": "for all matrices with the declared structure, all computed pairs and all indices", "why_tests_cant": "All matrices, sizes and eigenpairs.", "anchors": ["include/slepc/private/epsimpl.h:EPS_GetEigenvector_BSE", "include/slepc/private/epsimpl.h:EPS_GetEigenvector_HAMILT", "include/slepc/private/epsimpl.h:EPS_GetEigenvector_LREP", "src/eps/interface/epssolve.c:EPSGetEigenvalue", "src/sys/mat/matstruct.c"]}
{"id": "C64", "title": "Left eigenvectors derived from right ones", "statement": "The vector returned by EPSGetLeftEigenvector, when it is derived from the right eigenvector (Hermitian and structured problems), is a left eigenvector of the user's matrix for the same eigenvalue.", "quantifier": "for all matrices of the declared problem type and all eigenpairs", "why_tests_cant": "All matrices and eigenpairs.", "anchors": ["src/eps/interface/epssolve.c:EPSGetLeftEigenvector"]}
{"id": "C65", "title": "Converged eigenvalues are a prefix", "statement": "The number of converged eigenvalues determined by the Krylov eigensolvers is the position of the first approximation whose error estimate is not below the tolerance or that lies outside the region; all earlier ones satisfy the criterion, complex conjugate pairs are counted as a whole, and asking for all residuals does not change the count.", "quantifier": "for all eigenvalue approximations, residuals, pair structures, regions and tolerances", "why_tests_cant": "All sequences of values.", "anchors": ["src/eps/impls/krylov/epskrylov.c:EPSKrylovConvergence"]}
{"id": "C66", "title": "Convergence criteria are the documented ones", "statement": "The error estimate used with EPS_CONV_ABS, EPS_CONV_REL, EPS_CONV_NORM is the residual norm, its quotient by the modulus of the eigenvalue, and its quotient by norm(A)+|lambda| norm(B) (B the identity for standard problems), whatever was computed earlier with the solver.", "quantifier": "for every eigenvalue, residual and history of set-ups and error computations", "why_tests_cant": "All values and histories.", "anchors": ["src/eps/interface/epsdefault.c:EPSConvergedNorm", "src/eps/interface/epsdefault.c:EPSConvergedRelative", "src/eps/interface/epssetup.c:EPSSetUp", "src/eps/interface/epssolve.c:EPSComputeError"]}
{"id": "C67", "title": "Real and imaginary parts may be requested separately", "statement": "EPSGetEigenvector called with NULL for one of the two vectors stores in the other one the same vector as a call that requests both.", "quantifier": "for every problem type, stored basis, eigenvalue and index", "why_tests_cant": "All bases, values and indices.", "anchors": ["include/slepc/private/bvimpl.h:BV_GetEigenvector", "include/slepc/private/epsimpl.h:EPS_GetEigenvector_BSE", "include/slepc/private/epsimpl.h:EPS_GetEigenvector_HAMILT", "include/slepc/private/epsimpl.h:EPS_GetEigenvector_LREP", "src/eps/interface/epssolve.c:EPSGetEigenvector"]}
{"id": "C68", "title": "Conjugate pairs are stored with the positive imaginary part first", "statement": "After EPSSolve in real arithmetic every complex conjugate pair is stored with the positive imaginary part first, and the pair of vectors (right and left) still belongs to the eigenvalue stored in the same position; the set of eigenvalues is unchanged.", "quantifier": "for every list of computed eigenvalues with any pair structure and all vectors", "why_tests_cant": "All lists and vectors.", "anchors": ["src/eps/interface/epssolve.c:EPSSolve"]}
{"id": "C69", "title": "Eigenvectors extracted from the linearization", "statement": "The vector that PEPLINEAR takes from a computed eigenvector of its linearized problem, with any of the extraction rules, is an eigenvector of the polynomial problem for the eigenvalue returned (no zero vector), and with the residual rule it has the smallest residual among the candidates.", "quantifier": "for all coefficient matrices, linearization types, scaling factors and eigenpairs", "why_tests_cant": "All matrices and eigenpairs.", "anchors": ["src/pep/impls/linear/linear.c:PEPLinearExtract_None", "src/pep/impls/linear/linear.c:PEPLinearExtract_Norm", "src/pep/impls/linear/linear.c:PEPLinearExtract_Residual"]}
{"id": "C70", "title": "The implicit operators represent the polynomial problem", "statement": "The operator that PEPLINEAR applies without forming matrices has exactly the eigenvalues and eigenvectors that belong to the matrix polynomial: shifted (plain mode) or inverted around the target (shift-and-invert mode), for every degree, basis and scaling factor.", "quantifier": "for all degrees, coefficient operators, bases, scaling factors, shifts and vectors", "why_tests_cant": "All degrees, operators and vectors.", "anchors": ["src/pep/impls/linear/linear.c:MatMult_Linear_Shift", "src/pep/impls/linear/linear.c:MatMult_Linear_Sinvert"]}
{"id": "C71", "title": "The compact Krylov basis represents the Krylov space", "statement": "Each vector that TOAR adds in compact form (coefficients with respect to a common basis) is the linearized operator applied to the previous vector, with and without shift-and-invert, for every degree and basis.", "quantifier": "for all degrees, coefficient operators, bases, scaling factors, shifts and previous vectors", "why_tests_cant": "All degrees, operators and vectors.", "anchors": ["src/pep/impls/krylov/toar/ptoar.c:PEPTOARExtendBasis", "src/pep/impls/krylov/toar/ptoar.c:PEPTOARCoefficients", "src/pep/impls/krylov/toar/ptoar.c:PEPTOARrun"]}
{"id": "C72", "title": "Errors of polynomial eigenpairs are the documented ones", "statement": "PEPComputeError returns the 2-norm of P(lambda)x, also for complex pairs in real arithmetic and any basis, its quotient by |lambda|, or its quotient by the sum of |lambda|^j ||A_j|| of the current matrices; the convergence tests use the same formulas.", "quantifier": "for all matrices, bases, eigenpairs and histories of calls", "why_tests_cant": "All values and call histories.", "anchors": ["src/pep/interface/pepsolve.c:PEPComputeResidualNorm_Private", "src/pep/interface/pepsolve.c:PEPComputeError", "src/pep/interface/pepdefault.c:PEPConvergedNorm"]}
{"id": "C73", "title": "Errors of singular triplets bound the distance to singular values", "statement": "SVDComputeError returns the documented combination of residual norms for each problem type and error type; for the standard SVD the absolute error of a computed triplet with unit vectors is at least the distance from the computed value to an exact singular value of the user's matrix; exact triplets (standard, generalized, hyperbolic) have error zero.", "quantifier": "for all matrices of any shape, all triplets and error types", "why_tests_cant": "All matrices and triplets.", "anchors": ["src/svd/interface/svdsolve.c:SVDComputeError", "src/svd/interface/svdsolve.c:SVDComputeResidualNorms_Standard", "src/svd/interface/svdsolve.c:SVDComputeResidualNorms_Generalized", "src/svd/interface/svdsolve.c:SVDComputeResidualNorms_Hyperbolic"]}
{"id": "C74", "title": "Initial and deflation vectors apply to exactly one solve", "statement": "Vectors passed to EPSSetInitialSpace, EPSSetLeftInitialSpace and EPSSetDeflationSpace are used by the next EPSSolve, whatever is called in between (set-up, other setters), are withdrawn by an empty list, and do not persist to later solves.", "quantifier": "for every history of setter, set-up and solve calls", "why_tests_cant": "History quantification.", "anchors": ["src/eps/interface/epssetup.c:EPSSetDeflationSpace", "src/eps/interface/epssetup.c:EPSSetInitialSpace", "src/eps/interface/epssetup.c:EPSSetLeftInitialSpace", "src/eps/interface/epssetup.c:EPSSetUp", "src/eps/interface/epssolve.c:EPSSolve"]}
{"id": "C75", "title": "Scaling and swapping in the generalized SVD is undone", "statement": "With a scaling factor set (or chosen automatically) and for either orientation of the pair, the thick-restart Lanczos solver for the generalized SVD works on a scaled stack of the two matrices, and the values, left vectors and right vectors it finally delivers are those of the user's unscaled, unswapped pair; the values shown by the monitor are the same ones.", "quantifier": "for all matrix pairs, nonzero scaling factors and orientations", "why_tests_cant": "All matrices and factors.", "anchors": ["src/svd/impls/trlanczos/trlanczos.c:MatZUpdateScale", "src/svd/impls/trlanczos/trlanczos.c:MatMult_Z", "src/svd/impls/trlanczos/trlanczos.c:MatMultTranspose_Z", "src/svd/impls/trlanczos/trlanczos.c:SVDLanczosBackTransform", "src/svd/impls/trlanczos/trlanczos.c:SVDLeftSingularVectors"]}
{"id": "C76", "title": "Eigenproblems behind the cross and cyclic solvers give exactly the singular triplets", "statement": "The operators (and their diagonals) that SVDCROSS and SVDCYCLIC hand to the eigensolver are the documented products of the user's matrices, whether formed explicitly or not; what is computed from each eigenpair is a singular triplet (standard, generalized or hyperbolic) of the user's problem, and every singular triplet comes from an eigenpair.", "quantifier": "for all matrices, signatures and exact eigenpairs, real and complex", "why_tests_cant": "All matrices and eigenpairs.", "anchors": ["src/svd/impls/cross/cross.c:MatMult_Cross", "src/svd/impls/cross/cross.c:MatGetDiagonal_Cross", "src/svd/impls/cross/cross.c:SVDCrossGetProductMat", "src/svd/impls/cross/cross.c:SVDSolve_Cross", "src/svd/impls/cross/cross.c:SVDComputeVectors_Cross", "src/svd/interface/svdsolve.c:SVDComputeVectors_Left", "src/svd/impls/cyclic/cyclic.c:MatMult_Cyclic", "src/svd/impls/cyclic/cyclic.c:MatMult_ECross", "src/svd/impls/cyclic/cyclic.c:MatGetDiagonal_ECross", "src/svd/impls/cyclic/cyclic.c:SVDCyclicCheckEigenvalue", "src/svd/impls/cyclic/cyclic.c:SVDComputeVectors_Cyclic"]}
{"id": "C77", "title": "Values and vectors of the cyclic solver belong together", "statement": "The i-th singular value stored by SVDCYCLIC and the i-th pair of singular vectors come from the same eigenpair of the cyclic matrix, every positive eigenvalue gives one triplet and no negative one does.", "quantifier": "for all lists of converged eigenvalues", "why_tests_cant": "All lists of eigenvalues, including zeros in any position.", "anchors": ["src/svd/impls/cyclic/cyclic.c:SVDSolve_Cyclic", "src/svd/impls/cyclic/cyclic.c:SVDComputeVectors_Cyclic_Standard", "src/svd/impls/cyclic/cyclic.c:SVDComputeVectors_Cyclic_Generalized", "src/svd/impls/cyclic/cyclic.c:SVDComputeVectors_Cyclic_Hyperbolic"]}
{"id": "C78", "title": "Initial vectors reach the cyclic eigenproblem", "statement": "SVDCYCLIC starts its eigensolver from the vectors given with SVDSetInitialSpaces: the i-th one stacks the i-th left and the i-th right vector, a missing one being replaced by zeros, without reading or writing outside the lists.", "quantifier": "for all numbers of left and right initial vectors", "why_tests_cant": "All pairs of counts.", "anchors": ["src/svd/impls/cyclic/cyclic.c:SVDSetUp_Cyclic", "src/svd/interface/svdsetup.c:SVDSetInitialSpaces"]}
{"id": "C79", "title": "A reused cross or cyclic solver computes what is requested", "statement": "After any sequence of earlier solves with other settings, SVDCROSS and SVDCYCLIC ask their eigensolver for the end of the spectrum and the number of values that the current settings request.", "quantifier": "for all sequences of settings and solves", "why_tests_cant": "History quantification.", "anchors": ["src/svd/impls/cross/cross.c:SVDSetUp_Cross", "src/svd/impls/cyclic/cyclic.c:SVDSetUp_Cyclic", "src/eps/interface/epsopts.c:EPSSetDimensions", "src/eps/interface/epsopts.c:EPSGetDimensions"]}
{"id": "C80", "title": "Arnoldi factorizations satisfy the Krylov relation", "statement": "BVMatArnoldi returns an orthonormal basis and an upper Hessenberg matrix with A V = V H + beta v e_m^*, leaving locked columns alone; if it stops early then the columns computed span an invariant subspace, and otherwise beta is positive and v extends the orthonormal basis.", "quantifier": "for all operators, orthonormal initial columns and constraints, numbers of locked columns and steps, Gram-Schmidt variants and refinement policies, whatever is left in the work arrays from earlier calls", "why_tests_cant": "All operators and vectors; tests check a few matrices up to a tolerance.", "anchors": ["src/sys/classes/bv/interface/bvkrylov.c:BVMatArnoldi", "src/sys/classes/bv/interface/bvorthog.c:BVOrthonormalizeColumn", "include/slepc/private/bvimpl.h:BV_OrthogonalizeColumn_Safe"]}
{"id": "C81", "title": "Lanczos factorizations satisfy the Krylov relation", "statement": "For a Hermitian operator BVMatLanczos returns an orthonormal basis and a real symmetric tridiagonal matrix T with A V = V T + beta v e_m^*: the coefficients it discards are zero, and those it keeps are real.", "quantifier": "for all Hermitian operators and starting vectors, Gram-Schmidt variants and refinement policies", "why_tests_cant": "All Hermitian operators.", "anchors": ["src/sys/classes/bv/interface/bvkrylov.c:BVMatLanczos"]}
{"id": "C82", "title": "The restarted Krylov solver for matrix functions is exact on its Krylov space", "statement": "MFNSolve with MFNKRYLOV terminates, and the vector it returns equals p(A)b for every polynomial p of degree less than the total number of Krylov steps taken over all restarts, and for every polynomial if the last factorization found an invariant subspace, although each restart only adds the contribution of its own basis.", "quantifier": "for all operators, right-hand sides, basis sizes and numbers of restarts", "why_tests_cant": "All operators and polynomials.", "anchors": ["src/mfn/impls/krylov/mfnkrylov.c:MFNSolve_Krylov", "src/mfn/interface/mfnsolve.c:MFNSolve_Private"]}
{"id": "C83", "title": "The Krylov matrix function solver reports convergence correctly", "statement": "MFNSolve with MFNKRYLOV reports convergence if the result is exact because an invariant subspace was found, evaluates the function only at matrices whose eigenvalues belong to the operator, and reports convergence otherwise only if the update of the last restart is below the tolerance.", "quantifier": "for all operators, functions, limits and tolerances", "why_tests_cant": "All operators and functions.", "anchors": ["src/mfn/impls/krylov/mfnkrylov.c:MFNSolve_Krylov"]}
{"id": "C84", "title": "The Expokit solver integrates over exactly the requested time", "statement": "MFNSolve with MFNEXPOKIT reports convergence exactly when the steps it has applied to the vector add up to the requested time, a rejected step is always retried with a smaller one, and the final vector is the composition of the step operators for those steps.", "quantifier": "for all operators, vectors, scale factors, tolerances and error estimates", "why_tests_cant": "All sequences of error estimates.", "anchors": ["src/mfn/impls/expokit/mfnexpokit.c:MFNSolve_Expokit"]}
{"id": "C85", "title": "A matrix function solver works with its current operator and function", "statement": "MFNSolve and MFNSolveTranspose compute with the matrix (or the transpose of the matrix) last given with MFNSetOperator and the function last given with MFNSetFN, and a solver restricted to the exponential never runs with another function.", "quantifier": "for all sequences of calls to the MFN interface", "why_tests_cant": "History quantification.", "anchors": ["src/mfn/interface/mfnsetup.c:MFNSetOperator", "src/mfn/interface/mfnsetup.c:MFNSetUp", "src/mfn/interface/mfnsolve.c:MFNSolveTranspose", "src/mfn/interface/mfnbasic.c:MFNSetFN", "src/mfn/interface/mfnbasic.c:MFNReset", "src/mfn/impls/expokit/mfnexpokit.c:MFNSetUp_Expokit"]}
{"id": "C86", "title": "The residual estimate of the Lyapunov solver is the residual norm", "statement": "The error estimate computed by LMEKRYLOV from the last row of the projected solution is the norm of the residual A X + X A^* + C C^* of the solution that it lifts to the full space.", "quantifier": "for all operators, right-hand side vectors and basis sizes", "why_tests_cant": "All operators.", "anchors": ["src/lme/impls/krylov/lmekrylov.c:LMESolve_Krylov_Lyapunov_Vec", "src/lme/interface/lmedense.c:LMEDenseHessLyapunovChol", "src/lme/interface/lmedense.c:HessLyapunovChol_LAPACK"]}
{"id": "C87", "title": "Dense Lyapunov equations are solved", "statement": "LMEDenseLyapunov returns X with A X + X A^* = -B and LMEDenseHessLyapunovChol a factor U with H X + X H^* = -B B^*, X = U^* U, for any leading dimensions of the arrays.", "quantifier": "for all matrices for which the equation is solvable, all sizes and leading dimensions", "why_tests_cant": "All matrices and leading dimensions.", "anchors": ["src/lme/interface/lmedense.c:Lyapunov_LAPACK", "src/lme/interface/lmedense.c:HessLyapunovChol_LAPACK", "src/lme/interface/lmedense.c:CholeskyFactor"]}
{"id": "C88", "title": "The low-rank Lyapunov solution is the projected solution", "statement": "The factor computed by LMESolve represents the solution of the projected equation lifted to the full space; with a rank fixed by the user it is its best approximation of that rank.", "quantifier": "for all operators, right-hand sides, ranks and numbers of restarts", "why_tests_cant": "All operators and ranks.", "anchors": ["src/lme/impls/krylov/lmekrylov.c:LMESolve_Krylov_Lyapunov_Vec", "src/lme/impls/krylov/lmekrylov.c:LMESolve_Krylov_Lyapunov", "src/lme/interface/lmedense.c:LMEDenseRankSVD"]}
{"id": "C89", "title": "The convergence and stopping tests applied are the ones selected", "statement": "After any sequence of calls selecting convergence or stopping tests (predefined or user-provided, by name or by function), the test that the solver applies is the one selected last, the getter returns it, and the context of a replaced user test is destroyed exactly once.", "quantifier": "for all sequences of calls, in EPS, PEP, NEP and SVD", "why_tests_cant": "History quantification.", "anchors": ["src/eps/interface/epsopts.c:EPSSetConvergenceTestFunction", "src/eps/interface/epsopts.c:EPSSetConvergenceTest", "src/eps/interface/epsopts.c:EPSSetStoppingTestFunction", "src/pep/interface/pepopts.c:PEPSetConvergenceTestFunction", "src/pep/interface/pepopts.c:PEPSetStoppingTestFunction", "src/nep/interface/nepopts.c:NEPSetConvergenceTestFunction", "src/nep/interface/nepopts.c:NEPSetStoppingTestFunction", "src/svd/interface/svdopts.c:SVDSetConvergenceTestFunction", "src/svd/interface/svdopts.c:SVDSetStoppingTestFunction"]}
{"id": "C90", "title": "LMESolve computes the solution of the current equation", "statement": "After LMESolve reports convergence the solution matrix represents the solution of the equation with all the columns of the right-hand side, its rank is at most the number of columns given, the iteration number and the error estimate are those of all columns, and calling LMESolve again with the same data gives the same solution.", "quantifier": "for all operators, right-hand sides with any number of columns, with or without a solution matrix given by the user, and repeated calls", "why_tests_cant": "History and all operators.", "anchors": ["src/lme/impls/krylov/lmekrylov.c:LMESolve_Krylov_Lyapunov", "src/lme/interface/lmesolve.c:LMESolve", "src/lme/interface/lmesetup.c:LMESetSolution"]}
{"id": "C91", "title": "LMESolve reports divergence by its converged reason", "statement": "If some column of the right-hand side does not converge within the maximum number of iterations, LMESolve returns with reason LME_DIVERGED_ITS and an iteration number that does not exceed the maximum.", "quantifier": "for all operators, right-hand sides and maximum numbers of iterations", "why_tests_cant": "All inputs.", "anchors": ["src/lme/impls/krylov/lmekrylov.c:LMESolve_Krylov_Lyapunov", "src/lme/impls/krylov/lmekrylov.c:LMESolve_Krylov_Lyapunov_Vec", "src/lme/interface/lmesolve.c:LMEGetIterationNumber"]}
{"id": "C92", "title": "Krylov-Schur restarts preserve the decomposition", "statement": "At every restart of EPSKRYLOVSCHUR the basis vectors are orthonormal and orthogonal to the deflation space, the operator applied to each active vector is the combination of basis vectors given by the projected matrix and its extra row, and for the locked vectors the same holds up to the residual that was accepted when they were locked.", "quantifier": "for all operators, start vectors, sizes, convergence tests and numbers of restarts", "why_tests_cant": "All operators and restart histories.", "anchors": ["src/eps/impls/krylov/krylovschur/krylovschur.c:EPSSolve_KrylovSchur_Default", "src/sys/classes/ds/impls/nhep/dsnhep.c:DSTruncate_NHEP", "src/sys/classes/ds/impls/nhep/dsnhep.c:DSUpdateExtraRow_NHEP", "src/sys/classes/bv/interface/bvkrylov.c:BVMatArnoldi", "src/sys/classes/ds/impls/dsutil.c:DSSolve_NHEP_Private"]}
{"id": "C93", "title": "Krylov-Schur error estimates are residual norms", "statement": "The residual norm on which EPSKRYLOVSCHUR bases its convergence test is the norm of (Op x - lambda x) of the corresponding Ritz pair (Op the operator of the spectral transformation), up to the residuals of the vectors locked before; so a pair reported as converged is an approximate eigenpair to the tolerance.", "quantifier": "for all operators, start vectors and numbers of restarts", "why_tests_cant": "All operators and restart histories.", "anchors": ["src/eps/impls/krylov/krylovschur/krylovschur.c:EPSSolve_KrylovSchur_Default", "src/eps/impls/krylov/epskrylov.c:EPSKrylovConvergence", "src/sys/classes/ds/impls/nhep/dsnhep.c:DSVectors_NHEP_Eigen_Some"]}
{"id": "C94", "title": "Every Krylov-Schur restart leaves room for new vectors", "statement": "After each restart the number of vectors kept is smaller than the number of columns available, so that the next factorization adds at least one vector: EPSSolve does not fail with an argument error for any accepted values of nev, ncv, mpd and the restart parameter.", "quantifier": "for all operators, dimensions accepted at set-up and restart parameters between 0.1 and 0.9", "why_tests_cant": "All dimensions and histories.", "anchors": ["src/eps/impls/krylov/krylovschur/krylovschur.c:EPSSolve_KrylovSchur_Default", "src/sys/classes/ds/interface/dsops.c:DSGetTruncateSize", "src/sys/classes/bv/interface/bvkrylov.c:BVMatArnoldi"]}
{"id": "C95", "title": "Locked eigenpairs do not change", "statement": "Once EPSKRYLOVSCHUR has locked a converged eigenvalue, its value, its Schur vector and its error estimate stay the same in all later iterations of the solve.", "quantifier": "for all operators and numbers of restarts", "why_tests_cant": "All histories.", "anchors": ["src/eps/impls/krylov/krylovschur/krylovschur.c:EPSSolve_KrylovSchur_Default", "src/sys/classes/ds/impls/dsutil.c:DSSolve_NHEP_Private", "src/eps/impls/krylov/epskrylov.c:EPSKrylovConvergence"]}
{"id": "C96", "title": "The Chebyshev interpolant agrees with the problem at the nodes", "statement": "The matrix polynomial (in the Chebyshev basis) that NEPINTERPOL builds for a problem in split form takes the same value as T at the Chebyshev nodes of the interval; if all functions of the split form are polynomials of degree not larger than the maximum degree then it equals T everywhere.", "quantifier": "for all intervals, degrees, functions and matrices", "why_tests_cant": "All functions and matrices; tests use one problem and a tolerance.", "anchors": ["src/nep/impls/interpol/interpol.c:ChebyshevNodes", "src/nep/impls/interpol/interpol.c:NEPSolve_Interpol", "src/nep/impls/interpol/interpol.c:NEPInterpolSetInterpolation_Interpol"]}
{"id": "C97", "title": "Eigenvalues of the interpolation problem are mapped back", "statement": "Each eigenvalue returned by NEPINTERPOL is the image under the map from [-1,1] to the user's interval of the eigenvalue of the polynomial problem whose vector is stored at the same index (both members of a complex pair included), and target and region are mapped with the inverse of the same map.", "quantifier": "for all intervals and lists of eigenvalues with any pair structure", "why_tests_cant": "All intervals and lists.", "anchors": ["src/nep/impls/interpol/interpol.c:NEPSetUp_Interpol", "src/nep/impls/interpol/interpol.c:NEPSolve_Interpol", "src/nep/impls/interpol/interpol.c:PEPMonitor_Interpol"]}
{"id": "C98", "title": "The adjoint operator is the adjoint", "statement": "NEPApplyAdjoint computes T(lambda)^* x: the inner product of the result with any y equals that of x with T(lambda) y, in split form and in callback form; NEPApplyFunction computes T(lambda) x and the left residual of NEPComputeError is the norm of T(lambda)^* y.", "quantifier": "for all matrices, functions, scalars and vectors", "why_tests_cant": "All complex matrices and vectors; tests use real ones.", "anchors": ["src/nep/interface/nepsolve.c:NEPApplyFunction", "src/nep/interface/nepsolve.c:NEPApplyAdjoint", "src/nep/interface/nepsolve.c:NEPComputeResidualNorm_Private"]}
{"id": "C99", "title": "The resolvent is the documented sum", "statement": "NEPApplyResolvent returns the sum over the computed eigenvalues inside the region of x_i (y_i^* v) / ((omega-lambda_i) y_i^* T'(lambda_i) x_i), whatever was computed with earlier calls; for a linear problem with a complete set of eigenpairs it is the inverse of T(omega) applied to v.", "quantifier": "for all sequences of calls with any vectors (modified in between), scalars and regions, all eigenpairs", "why_tests_cant": "History quantification and all eigenpairs.", "anchors": ["src/nep/interface/nepresolv.c:MatMult_Resolvent", "src/nep/interface/nepresolv.c:NEPApplyResolvent"]}
{"id": "C100", "title": "Errors of nonlinear eigenpairs are the documented ones", "statement": "NEPComputeError returns the 2-norm of T(lambda)x, its quotient by |lambda| norm(x), or its quotient by norm(x) times the sum of |f_j(lambda)| ||A_j||, also after earlier error computations, and an exact eigenpair has error zero; with two-sided solvers it is the larger of the right and the left error.", "quantifier": "for all matrices, functions, eigenpairs, error types and histories of calls", "why_tests_cant": "All values and call histories.", "anchors": ["src/nep/interface/nepsolve.c:NEPComputeError", "src/nep/interface/nepdefault.c:NEPConvergedNorm", "src/nep/interface/nepdefault.c:NEPConvergedRelative"]}
{"id": "C101", "title": "The rational interpolant of NLEIGS agrees with the problem at the nodes", "statement": "The rational matrix function that NEPNLEIGS builds from divided differences (split form by matrix functions or by scalar evaluations, or callbacks) takes the same value as T at all the interpolation nodes used; if T is a combination of the rational basis functions used then it equals T.", "quantifier": "for all nodes, poles, scaling factors, functions and matrices", "why_tests_cant": "All functions and nodes.", "anchors": ["src/nep/impls/nleigs/nleigs.c:NEPNLEIGSEvalNRTFunct", "src/nep/impls/nleigs/nleigs.c:NEPNLEIGSDividedDifferences_split", "src/nep/impls/nleigs/nleigs.c:NEPNLEIGSDividedDifferences_callback"]}
{"id": "C102", "title": "The rational basis functions of NLEIGS are bounded on the target set", "statement": "The interpolation nodes selected by NEPNLEIGS are distinct points of the discretized target set, and each rational basis function has modulus at most one on that set, with modulus one at its own node; so the divided differences are well defined for any number of terms requested.", "quantifier": "for all discretizations, singularity sets and numbers of terms", "why_tests_cant": "All point sets.", "anchors": ["src/nep/impls/nleigs/nleigs.c:NEPNLEIGSLejaBagbyPoints", "src/nep/impls/nleigs/nleigs.c:NEPNLEIGSEvalNRTFunct", "src/nep/impls/nleigs/nleigs.c:NEPNLEIGSSetInterpolation"]}
{"id": "C103", "title": "Eigenpairs of the NLEIGS operator are those of the rational problem", "statement": "The operator that NEPNLEIGS applies (full basis, or compact form with coefficients on a common basis) has an eigenpair with eigenvalue theta exactly when 1/theta plus the target is an eigenvalue of the rational interpolant, and the first block of its eigenvector is an eigenvector of the interpolant.", "quantifier": "for all numbers of terms, divided differences, nodes, poles, targets and vectors", "why_tests_cant": "All operators and vectors.", "anchors": ["src/nep/impls/nleigs/nleigs-fullb.c:MatMult_FullBasis_Sinvert", "src/nep/impls/nleigs/nleigs-fullb.c:NEPNLEIGSExtract_None", "src/nep/impls/nleigs/nleigs.c:NEPTOARExtendBasis", "src/nep/impls/nleigs/nleigs.c:NEPTOARCoefficients", "src/nep/impls/nleigs/nleigs.c:NEPNLEIGSBackTransform"]}
{"id": "C104", "title": "Left eigenvectors of NLEIGS are those of the rational problem", "statement": "The transposed operator used by the two-sided variant of NEPNLEIGS is the transpose of the operator, and the left vector extracted from each of its eigenvectors is a left eigenvector of the rational interpolant for the eigenvalue returned, in split and in callback form.", "quantifier": "for all numbers of terms, divided differences, nodes, poles, targets and vectors", "why_tests_cant": "All operators and vectors.", "anchors": ["src/nep/impls/nleigs/nleigs-fullb.c:MatMultTranspose_FullBasis_Sinvert", "src/nep/impls/nleigs/nleigs-fullb.c:NEPNLEIGSExtract_None"]}
{"id": "C105", "title": "Singularities of rational problems are found automatically", "statement": "For a problem of type rational whose functions are rational or sums and products of rational ones, NEPNLEIGS determines exactly the poles of the functions (the real ones with real scalars), without repetition; for other functions it reports an error; it reads no uninitialized data and writes inside the array of its discretization.", "quantifier": "for all lists of functions and all denominators", "why_tests_cant": "All expression trees and denominators.", "anchors": ["src/nep/impls/nleigs/nleigs.c:NEPNLEIGSRationalSingularities", "src/nep/impls/nleigs/nleigs.c:NEPNLEIGSFNSingularities", "src/nep/impls/nleigs/nleigs.c:NEPNLEIGSAuxiliarPRootFinder", "src/nep/impls/nleigs/nleigs.c:NEPNLEIGSAuxiliarRmDuplicates"]}
{"id": "C106", "title": "Spectrum slicing returns exactly the eigenvalues of the interval", "statement": "When EPSSolve with EPS_ALL and an interval (spectrum slicing, one partition) finishes, the list of computed eigenvalues is the list of the eigenvalues of the problem that lie in the interval, each as many times as its multiplicity, and EPSGetConverged returns their number.", "quantifier": "for all Hermitian problems (all finite multisets of eigenvalues), bounded and half-open intervals, and all sets of eigenvalues that the Lanczos process may deliver at each shift", "why_tests_cant": "All spectra and all behaviours of the inner Lanczos process.", "anchors": ["src/eps/impls/krylov/krylovschur/ks-slice.c:EPSSolve_KrylovSchur_Slice", "src/eps/impls/krylov/krylovschur/ks-slice.c:EPSLookForDeflation", "src/eps/impls/krylov/krylovschur/ks-slice.c:EPSStoreEigenpairs", "src/eps/impls/krylov/krylovschur/ks-slice.c:EPSGetNewShiftValue", "src/eps/impls/krylov/krylovschur/ks-slice.c:EPSCreateShift", "src/eps/impls/krylov/krylovschur/ks-slice.c:EPSExtractShift", "src/eps/impls/krylov/krylovschur/ks-slice.c:EPSSetUp_KrylovSchur_Slice"]}
{"id": "C107", "title": "Spectrum slicing returns ordered values", "statement": "After a spectrum slicing run EPSGetEigenpair delivers the eigenvalues in increasing order, whatever the direction in which the interval was traversed.", "quantifier": "for all runs of the spectrum slicing solver", "why_tests_cant": "All runs.", "anchors": ["src/eps/impls/krylov/krylovschur/ks-slice.c:sortRealEigenvalues", "src/eps/impls/krylov/krylovschur/ks-slice.c:EPSStoreEigenpairs", "src/eps/impls/krylov/krylovschur/ks-slice.c:EPSSolve_KrylovSchur_Slice"]}
{"id": "C108", "title": "The inertias reported by spectrum slicing are those of the shifts", "statement": "EPSKrylovSchurGetInertias returns the shifts used, in strictly increasing order and including both endpoints, and with each shift the number of eigenvalues that are smaller than it.", "quantifier": "for all runs of the spectrum slicing solver", "why_tests_cant": "All runs.", "anchors": ["src/eps/impls/krylov/krylovschur/ks-slice.c:EPSSliceGetInertias"]}
{"id": "C109", "title": "A shift that hits an eigenvalue is moved to a valid place", "statement": "With zero detection enabled, a shift which turns out to be an eigenvalue is replaced by another value that lies strictly between the neighbouring shifts, or an error is reported.", "quantifier": "for all shifts, neighbours (present or not) and directions", "why_tests_cant": "All values.", "anchors": ["src/eps/impls/krylov/krylovschur/ks-slice.c:EPSExtractShift"]}
{"id": "C110", "title": "Pending shifts are processed exactly as scheduled", "statement": "Each time spectrum slicing selects its next shift it is one that was scheduled and has not been completed; an interval that is too narrow to be divided is searched again from the same shift.", "quantifier": "for all runs of the spectrum slicing solver", "why_tests_cant": "All runs.", "anchors": ["src/eps/impls/krylov/krylovschur/ks-slice.c:EPSCreateShift", "src/eps/impls/krylov/krylovschur/ks-slice.c:EPSExtractShift", "src/eps/impls/krylov/krylovschur/ks-slice.c:EPSGetNewShiftValue"]}
{"id": "C111", "title": "Partitioned spectrum slicing gives the union of the partitions", "statement": "With several partitions the subintervals cover the interval without overlap, the number of converged eigenvalues is the number of eigenvalues in the whole interval, and the gathered eigenvalues are returned in increasing order, each from exactly one partition.", "quantifier": "for all numbers of partitions, bounded intervals or user-provided subintervals and all spectra", "why_tests_cant": "All spectra and numbers of partitions.", "anchors": ["src/eps/impls/krylov/krylovschur/ks-slice.c:EPSSliceGetEPS", "src/eps/impls/krylov/krylovschur/ks-slice.c:EPSSetUp_KrylovSchur_Slice", "src/eps/impls/krylov/krylovschur/ks-slice.c:EPSSliceGatherSolution"]}
{"id": "C112", "title": "Block orthogonalization gives orthonormal columns and the stated factor", "statement": "BVOrthogonalize with the block methods CHOL, TSQR, TSQRCHOL and SVQB leaves the leading columns unchanged and replaces the active columns so that all columns are orthonormal in the inner product of the BV; if a matrix R is given, the old active columns are the new columns times the corresponding columns of R, and R is upper triangular except for SVQB.", "quantifier": "for all numbers of leading and active columns, all linearly independent columns, all (definite) inner products, real and complex scalars, and all previous contents of R", "why_tests_cant": "All sizes, column contents and scalar types.", "anchors": ["src/sys/classes/bv/interface/bvorthog.c:BVOrthogonalize", "src/sys/classes/bv/interface/bvlapack.c:BVMatCholInv_LAPACK_Private", "src/sys/classes/bv/interface/bvlapack.c:BVMatTriInv_LAPACK_Private", "src/sys/classes/bv/interface/bvlapack.c:BVMatSVQB_LAPACK_Private"]}
{"id": "C113", "title": "The distributed QR factorization is right for any number of processes", "statement": "BVOrthogonalize with BV_ORTHOG_BLOCK_TSQR terminates with the same triangular factor on every process, and the blocks of rows of the processes together form a matrix with orthonormal columns whose product with the factor is the original matrix.", "quantifier": "for all numbers of processes (powers of two or not), all distributions of rows (also fewer local rows than columns) and all matrices of full column rank", "why_tests_cant": "All numbers of processes.", "anchors": ["src/sys/classes/bv/interface/bvlapack.c:BVOrthogonalize_LAPACK_TSQR"]}
{"id": "C114", "title": "Combining triangular factors by a reduction gives the factor of the whole matrix", "statement": "The triangular factor computed by BV_ORTHOG_BLOCK_TSQRCHOL by a reduction over the processes is a triangular factor of the whole matrix, in whatever order the reduction combines the contributions.", "quantifier": "for all numbers of processes and columns, all local matrices and all orders of combination allowed to MPI", "why_tests_cant": "All reduction orders.", "anchors": ["src/sys/classes/bv/interface/bvlapack.c:SlepcGivensPacked", "src/sys/classes/bv/interface/bvlapack.c:BVOrthogonalize_LAPACK_TSQR_OnlyR"]}
{"id": "C115", "title": "In-place products of a basis are right for every storage type", "statement": "BVMultInPlace(V,Q,s,e) replaces columns s to e-1 by the same columns of V*Q, where V has the active columns, and changes no other column; BVMultInPlaceHermitianTranspose does the same with the conjugate transpose of Q; the result does not depend on the type of the BV.", "quantifier": "for all sizes (also not multiples of the block size), all active ranges, all admitted s and e, all Q, real and complex scalars", "why_tests_cant": "All sizes and values.", "anchors": ["src/sys/classes/bv/interface/bvops.c:BVMultInPlace", "src/sys/classes/bv/interface/bvblas.c:BVMultInPlace_BLAS_Private", "src/sys/classes/bv/interface/bvblas.c:BVMultInPlace_Vecs_Private", "src/sys/classes/bv/impls/vecs/vecs.c:BVMultInPlaceHermitianTranspose_Vecs", "src/sys/classes/bv/impls/vecs/vecs.c:BVMultInPlace_Vecs_ME"]}
{"id": "C116", "title": "Biorthogonalization gives biorthonormal bases", "statement": "BVBiorthogonalizeColumn makes the given columns of two bases orthogonal to the previous columns of the other basis, changing them only by combinations of the previous columns of their own basis; BVBiorthonormalizeColumn called for all columns in order gives biorthonormal bases unless a product vanishes.", "quantifier": "for all bases, all Gram-Schmidt variants and refinement settings", "why_tests_cant": "All inputs.", "anchors": ["src/sys/classes/bv/interface/bvbiorthog.c:BVBiorthogonalizeColumn", "src/sys/classes/bv/interface/bvbiorthog.c:BVBiorthonormalizeColumn"]}
{"id": "C117", "title": "Inserted vectors give an orthonormal basis of their span", "statement": "BVInsertVecs with orthogonalization stores an orthonormal basis of the span of the previous columns and the given vectors, and returns in m the number of new dimensions; BVInsertConstraints does the same for the constraints, and later orthogonalizations are orthogonal to all given constraint vectors.", "quantifier": "for all sets of vectors, also linearly dependent ones", "why_tests_cant": "All inputs.", "anchors": ["src/sys/classes/bv/interface/bvfunc.c:BVInsertVecs", "src/sys/classes/bv/interface/bvfunc.c:BVInsertConstraints"]}
{"id": "C118", "title": "Reproducible random vectors do not depend on the number of processes", "statement": "With the option for reproducible random vectors, BVSetRandom, BVSetRandomColumn, BVSetRandomNormal and BVSetRandomSign fill the columns with the same global entries for every number of processes and every distribution of rows.", "quantifier": "for all streams of random numbers, numbers of columns, and distributions", "why_tests_cant": "All distributions.", "anchors": ["src/sys/classes/bv/interface/bvops.c:BVSetRandom", "src/sys/classes/bv/interface/bvops.c:BVSetRandomNormal", "src/sys/classes/bv/interface/bvops.c:BVSetRandomSign"]}
{"id": "C119", "title": "Block inner products are the matrices of inner products", "statement": "BVDot(X,Y,M) sets the entries of M with rows in the active range of Y and columns in the active range of X to the inner products y_i^*Bx_j, changes no other entry, and leaves the active ranges of X and Y as they were.", "quantifier": "for all active ranges, with and without inner product matrix, for both ways of multiplying (by vectors or by blocks), for all numbers of processes and local sizes including zero, and all leading dimensions of M", "why_tests_cant": "All sizes.", "anchors": ["src/sys/classes/bv/interface/bvglobal.c:BVDot", "src/sys/classes/bv/interface/bvglobal.c:BVDot_Private", "src/sys/classes/bv/interface/bvblas.c:BVDot_BLAS_Private"]}
{"id": "C120", "title": "The projection of a matrix is computed completely", "statement": "BVMatProject(X,A,Y,M) sets every entry of M outside the leading ly x lx block to y_i^*Ax_j and leaves the leading block unchanged.", "quantifier": "for all matrices, all numbers of leading and active columns of X and Y, X equal to Y or not, both ways of multiplying, with known symmetry or not, and A given or already applied", "why_tests_cant": "All sizes and matrices.", "anchors": ["src/sys/classes/bv/interface/bvglobal.c:BVMatProject", "src/sys/classes/bv/interface/bvglobal.c:BVMatProject_Vec", "src/sys/classes/bv/interface/bvglobal.c:BVMatProject_MatMult", "src/sys/classes/bv/interface/bvglobal.c:BVMatProject_MatMult_2", "src/sys/classes/bv/interface/bvglobal.c:BVMatProject_Dot"]}
{"id": "C121", "title": "Norms of a basis do not depend on its distribution", "statement": "BVNorm returns the Frobenius, 1- or infinity-norm of the matrix of active columns, and BVNormalize gives columns of unit norm (for a complex pair in real arithmetic, the pair has unit norm together), for any distribution of the rows.", "quantifier": "for all distributions, orders of reduction, and columns", "why_tests_cant": "All distributions.", "anchors": ["src/sys/classes/bv/interface/bvlapack.c:BVNorm_LAPACK_Private", "src/sys/classes/bv/interface/bvlapack.c:BVNormalize_LAPACK_Private", "src/sys/classes/bv/interface/bvlapack.c:SlepcPythag", "src/sys/classes/bv/interface/bvglobal.c:BVNormalize"]}
{"id": "C122", "title": "Random bases with given condition number", "statement": "BVSetRandomCond(bv,condn) gives a basis whose matrix of active columns has condition number condn.", "quantifier": "for all condition numbers, all random columns of full rank, all numbers of active columns", "why_tests_cant": "All values of the random columns.", "anchors": ["src/sys/classes/bv/interface/bvops.c:BVSetRandomCond"]}
{"id": "C123", "title": "Golub-Kahan bidiagonalization of the SVD Lanczos solvers", "statement": "The bidiagonalization used by SVDLANCZOS and SVDTRLANCZOS extends orthonormal bases U, V to orthonormal bases of the size returned such that A V = U B and A* U = V B* plus a residual in the last column only, where B is the matrix made of the stored alpha and beta (an arrowhead in the kept part, bidiagonal in the rest), up to combinations of the locked vectors; the size is smaller than requested, with breakdown reported, only if the new vector was linearly dependent on the previous ones.", "quantifier": "for all matrices, all start vectors, all numbers of locked and kept vectors, all sizes, all Gram-Schmidt variants; exact arithmetic, real and complex scalars", "why_tests_cant": "All matrices and sizes.", "anchors": ["src/svd/impls/lanczos/gklanczos.c:SVDTwoSideLanczos", "src/svd/impls/trlanczos/trlanczos.c:SVDSolve_TRLanczos"]}
{"id": "C124", "title": "Thick restart of the SVD Lanczos solver preserves the decomposition", "statement": "At every restart of SVDTRLANCZOS the kept right vectors together with the next start vector are orthonormal, the kept left vectors are orthonormal, and they satisfy A v = sigma u, A* u = sigma v + beta w with w the next start vector; so the solver works with exact projections of A in every iteration.", "quantifier": "for all matrices, start vectors, parameters nsv, ncv, mpd, keep, tolerances, convergence tests, and numbers of iterations", "why_tests_cant": "All runs, any length.", "anchors": ["src/svd/impls/trlanczos/trlanczos.c:SVDSolve_TRLanczos", "src/svd/impls/lanczos/gklanczos.c:SVDTwoSideLanczos", "src/svd/impls/lanczos/gklanczos.c:SVDKrylovConvergence", "src/sys/classes/ds/impls/svd/dssvd.c:DSUpdateExtraRow_SVD"]}
{"id": "C125", "title": "Converged triplets of SVDTRLANCZOS and SVDLANCZOS have the residual they were accepted with", "statement": "For each converged triplet u and v are unit vectors, orthogonal to those of the other triplets, the error estimate is the convergence test applied to the exact value of ||A* u - sigma v||, and ||A v - sigma u|| is at most the root of the sum of squares of the residual norms of the triplets locked before.", "quantifier": "for all matrices, start vectors, parameters, and numbers of iterations", "why_tests_cant": "All runs, any length.", "anchors": ["src/svd/impls/trlanczos/trlanczos.c:SVDSolve_TRLanczos", "src/svd/impls/lanczos/gklanczos.c:SVDSolve_Lanczos", "src/svd/impls/lanczos/gklanczos.c:SVDKrylovConvergence"]}
{"id": "C126", "title": "Locked triplets of the SVD Lanczos solvers are not changed", "statement": "Once a triplet is counted as converged by SVDTRLANCZOS (locking variant) or SVDLANCZOS, its singular value, singular vectors and error estimate are the same in all later iterations, and the number of converged triplets never decreases.", "quantifier": "for all matrices, start vectors, parameters, and numbers of iterations", "why_tests_cant": "All runs, any length.", "anchors": ["src/svd/impls/trlanczos/trlanczos.c:SVDSolve_TRLanczos", "src/svd/impls/lanczos/gklanczos.c:SVDSolve_Lanczos"]}
{"id": "C127", "title": "One-sided variants of the SVD Lanczos solvers compute the same bidiagonalization", "statement": "The one-sided variants of SVDTRLANCZOS (both orthogonalization types and all refinement settings) and SVDLANCZOS produce, in exact arithmetic and without breakdown, the same right basis, the same alpha and beta and (for SVDTRLANCZOS) the same left basis as the two-sided variant, and a breakdown is reported as an error.", "quantifier": "for all matrices, start vectors, numbers of locked and kept vectors, sizes", "why_tests_cant": "All matrices and sizes.", "anchors": ["src/svd/impls/trlanczos/trlanczos.c:SVDOneSideTRLanczosMGS", "src/svd/impls/trlanczos/trlanczos.c:SVDOneSideTRLanczosCGS", "src/svd/impls/trlanczos/trlanczos.c:SVDOrthogonalizeCGS", "src/svd/impls/lanczos/gklanczos.c:SVDOneSideLanczos", "src/svd/impls/lanczos/gklanczos.c:SVDTwoSideLanczos"]}
{"id": "C128", "title": "Explicit restart of SVDLANCZOS continues with a valid start vector", "statement": "At every restart of SVDLANCZOS the start vector is a unit vector orthogonal to the converged right vectors: the first right Ritz vector not converged, or a new random direction if all have converged; this holds for matrices of any rank.", "quantifier": "for all matrices, start vectors, parameters, and numbers of iterations", "why_tests_cant": "All runs, any length.", "anchors": ["src/svd/impls/lanczos/gklanczos.c:SVDSolve_Lanczos", "src/svd/impls/lanczos/gklanczos.c:SVDTwoSideLanczos"]}
{"id": "C129", "title": "The base function of the FILTLAN filter is a smooth step function", "statement": "The function approximated by the FILTLAN filter of STFILTER is exactly 1 or 0 on the flat intervals, is continuous with as many continuous derivatives as the base degree at every break point (all of them zero there), and stays between 0 and 1 in the transition intervals.", "quantifier": "for all base degrees, all break points with transition intervals of positive length, and all patterns of flat and transition intervals; exact arithmetic", "why_tests_cant": "All degrees and break points.", "anchors": ["src/sys/classes/st/impls/filter/filtlan.c:FILTLAN_NewtonPolynomial", "src/sys/classes/st/impls/filter/filtlan.c:FILTLAN_ExpandNewtonPolynomialInChebyshevBasis", "src/sys/classes/st/impls/filter/filtlan.c:FILTLAN_HermiteBaseFilterInChebyshevBasis"]}
{"id": "C130", "title": "Polynomial arithmetic in translated Chebyshev bases is exact", "statement": "The kernels used to build the FILTLAN filter do what their names say: evaluation gives the value of the polynomial of the interval that contains the point (of the first or last interval outside), multiplication by z multiplies every piece by z, and the inner product is the weighted sum over the intervals of the integral of the product with the Chebyshev weight.", "quantifier": "for all numbers of intervals, degrees, leading dimensions, coefficients, and points; exact arithmetic", "why_tests_cant": "All degrees and coefficients.", "anchors": ["src/sys/classes/st/impls/filter/filtlan.c:FILTLAN_PolynomialEvaluationInChebyshevBasis", "src/sys/classes/st/impls/filter/filtlan.c:FILTLAN_PiecewisePolynomialEvaluationInChebyshevBasis", "src/sys/classes/st/impls/filter/filtlan.c:FILTLAN_PiecewisePolynomialInnerProductInChebyshevBasis", "src/sys/classes/st/impls/filter/filtlan.c:FILTLAN_PiecewisePolynomialInChebyshevBasisMultiplyX"]}
{"id": "C131", "title": "The FILTLAN filter polynomial is the best approximation of its degree", "statement": "The polynomial computed by the conjugate residual iteration takes the value 1 at zero, has degree at most the degree set with STFilterSetDegree, and no other polynomial with these two properties is closer to the base function in the weighted norm; no division by zero happens.", "quantifier": "for all degrees, base functions, weights, and partitions of a range that starts at or after zero; exact arithmetic", "why_tests_cant": "All polynomials of the degree compete.", "anchors": ["src/sys/classes/st/impls/filter/filtlan.c:FILTLAN_FilteredConjugateResidualPolynomial", "src/sys/classes/st/impls/filter/filtlan.c:Mat_AXPY_BLAS"]}
{"id": "C132", "title": "Applying the FILTLAN filter applies one fixed polynomial of the matrix", "statement": "The operator of STFILTER (FILTLAN), applied to a vector or to a block of vectors, gives p(T) x where p = 1 - Q with Q the best approximation, and T is A shifted or reflected; so each eigenvector of A is an eigenvector of the operator, with the eigenvalue transformed by p, and vector and block application agree.", "quantifier": "for all matrices, vectors, blocks, degrees, and partitions; exact arithmetic", "why_tests_cant": "All matrices and degrees.", "anchors": ["src/sys/classes/st/impls/filter/filtlan.c:FILTLAN_FilteredConjugateResidualMatrixPolynomialVectorProduct", "src/sys/classes/st/impls/filter/filtlan.c:FILTLAN_FilteredConjugateResidualMatrixPolynomialVectorProductBlock", "src/sys/classes/st/impls/filter/filtlan.c:MatMult_FILTLAN", "src/sys/classes/st/impls/filter/filtlan.c:MatMatMult_FILTLAN", "src/sys/classes/st/impls/filter/filtlan.c:STComputeOperator_Filter_FILTLAN"]}
{"id": "C133", "title": "The set-up of a filter uses the current parameters and rejects invalid intervals", "statement": "After any sequence of calls that change the parameters of STFILTER, the set-up either fails with an error (no interval, no range, interval not inside the range, interval equal to the range) or the operator used is the one that a new STFILTER with the same parameters would use; an interval bounded on one side only is accepted; a range given by the user is not changed by the eigensolver.", "quantifier": "for all sequences of calls and all values of the parameters", "why_tests_cant": "All histories of calls.", "anchors": ["src/sys/classes/st/impls/filter/filter.c:STComputeOperator_Filter", "src/sys/classes/st/impls/filter/filter.c:STFilterSetInterval", "src/sys/classes/st/impls/filter/filter.c:STFilterSetRange", "src/sys/classes/st/impls/filter/filter.c:STFilterSetDegree", "src/sys/classes/st/impls/filter/filter.c:STFilterSetType", "src/sys/classes/st/impls/filter/filtlan.c:STComputeOperator_Filter_FILTLAN", "src/sys/classes/st/impls/filter/filtlan.c:FILTLAN_GetIntervals", "src/eps/impls/krylov/krylovschur/krylovschur.c:EPSSetUp_KrylovSchur_Filter"]}
{"id": "C134", "title": "The intervals chosen for a FILTLAN filter are a partition of the range with the wanted interval inside", "statement": "The break points found for the filter are ordered, start and end at the ends of the range, and the wanted interval lies strictly within the part where the filter is not required to be zero; the threshold returned by STFilterGetThreshold is the smallest value of the filter at the ends and the grid points of the wanted interval, it is at least the required minimum, and beyond the first local minimum no grid point outside the wanted interval exceeds the allowed fraction of it; otherwise an error is reported.", "quantifier": "for all frames, options, degrees, and any outcome of the evaluations of the polynomials", "why_tests_cant": "All shapes of the filter, any number of iterations.", "anchors": ["src/sys/classes/st/impls/filter/filtlan.c:FILTLAN_GetIntervals", "src/sys/classes/st/impls/filter/filtlan.c:STFilterGetThreshold_Filter_FILTLAN"]}
{"id": "C135", "title": "Applying the Chebyshev filter gives the damped Chebyshev series of the matrix", "statement": "The operator of STFILTER (CHEBYSHEV), applied to a vector or a block, gives the sum over k up to the degree of the product of damping and series coefficient with T_k of the matrix mapped linearly so that the range goes to [-1,1].", "quantifier": "for all matrices, vectors, ranges, degrees, and coefficients; exact arithmetic", "why_tests_cant": "All matrices and degrees.", "anchors": ["src/sys/classes/st/impls/filter/chebyshev.c:MatMult_Chebyshev", "src/sys/classes/st/impls/filter/chebyshev.c:MatMatMult_Chebyshev"]}
{"id": "C136", "title": "The threshold of the Chebyshev filter is the value of the filter at the ends of the wanted interval", "statement": "STFilterGetThreshold for a Chebyshev filter returns the value of the filter polynomial at the lower end of the wanted interval, which is also the value at the upper end.", "quantifier": "for all degrees, ranges, intervals, and dampings", "why_tests_cant": "All degrees.", "anchors": ["src/sys/classes/st/impls/filter/chebyshev.c:Chebyshev_Clenshaw_Damping_Real", "src/sys/classes/st/impls/filter/chebyshev.c:STFilterGetThreshold_Filter_Chebyshev", "src/sys/classes/st/impls/filter/chebyshev.c:Chebyshev_Compute_Coefficients"]}
{"id": "C137", "title": "The Chebyshev filter is the scaled Chebyshev series of the indicator function of the wanted interval", "statement": "The coefficients are those of the Chebyshev series of the indicator function of the wanted interval up to one positive factor, chosen such that the smaller of the values of the filter at the two ends of the interval has modulus 1/2; the threshold is not larger than the values at both ends, so that no eigenvalue at an end of the interval is missed.", "quantifier": "for all intervals inside the range, degrees and dampings", "why_tests_cant": "All intervals and degrees.", "anchors": ["src/sys/classes/st/impls/filter/chebyshev.c:Chebyshev_Compute_Coefficients", "src/sys/classes/st/impls/filter/chebyshev.c:STFilterGetThreshold_Filter_Chebyshev"]}
{"id": "C138", "title": "Damped Chebyshev filters do not overshoot", "statement": "With Fejer or Jackson damping the Chebyshev filter, before scaling, has values between 0 and 1 on the whole range, for every degree; with any damping the damping coefficients lie between 0 and 1 and the first one is 1.", "quantifier": "for all degrees, intervals and points of the range", "why_tests_cant": "All degrees and points.", "anchors": ["src/sys/classes/st/impls/filter/chebyshev.c:Chebyshev_Compute_Damping_Coefficients", "src/sys/classes/st/impls/filter/chebyshev.c:Chebyshev_Compute_Coefficients"]}
{"id": "C139", "title": "Solutions of a nonlinear eigenproblem found one by one form an invariant pair with one independent unit vector per eigenvalue", "statement": "NEPRII, NEPSLP and NEPNARNOLDI keep a basis X and a triangular matrix H. After every accepted solution of the deflated problem the pair satisfies the nonlinear equation sum_j A_j X f_j(H)=0, the eigenvalues are on the diagonal of H in the order they were found, and the columns of X are linearly independent unit vectors, so that any number of eigenvalues can be requested.", "quantifier": "for all problems in split form, all functions, any number of accepted solutions and processes; exact arithmetic", "why_tests_cant": "All problems and all sequences of accepted solutions.", "anchors": ["src/nep/impls/nepdefl.c:NEPDeflationExtendInvariantPair", "src/nep/impls/nepdefl.c:NEPDeflationLocking", "src/nep/impls/nepdefl.c:NEPDeflationEvaluateHatFunction", "src/nep/impls/nepdefl.h:MAX_MINIDX"]}
{"id": "C140", "title": "The deflated problem has exactly the eigenvalues not found yet", "statement": "The determinant of the deflated operator times the characteristic polynomial of the locked eigenvalues is, up to a fixed non-zero factor, the determinant of the original operator: locked eigenvalues are removed according to multiplicity, all other eigenpairs are kept and no new ones appear; the same eigenpair is never returned twice.", "quantifier": "for all problems in split form, all locked pairs and all values of the parameter", "why_tests_cant": "All problems and pairs.", "anchors": ["src/nep/impls/nepdefl.c:NEPDeflationComputeShellMat", "src/nep/impls/nepdefl.c:MatMult_NEPDeflation", "src/nep/impls/nepdefl.c:NEPDeflationEvaluateBasisMat", "src/nep/impls/rii/rii.c:NEPSolve_RII", "src/nep/impls/slp/slp.c:NEPSolve_SLP"]}
{"id": "C141", "title": "Linear solves with the deflated operator invert its product, on any number of processes", "statement": "Multiplying the result of a solve with the deflated operator by the deflated operator gives back the right hand side, whichever of the two formulas for the coupling block is used; vectors of the extended problem have the same 2-norm and the same values whatever the number of processes, and all processes hold the same copy of the additional entries.", "quantifier": "for all operators, locked pairs, vectors and numbers of processes; exact linear solves", "why_tests_cant": "All operators, vectors and numbers of processes.", "anchors": ["src/nep/impls/nepdefl.c:NEPDeflationSolveSetUp", "src/nep/impls/nepdefl.c:NEPDeflationFunctionSolve", "src/nep/impls/nepdefl.c:MatMult_NEPDeflation", "src/nep/impls/nepdefl.c:NEPDeflationCopyToExtendedVec", "src/nep/impls/nepdefl.c:NEPDeflationSetRandomVec"]}
{"id": "C142", "title": "The operators of the deflated problem are always those of the current parameter and the current locked pairs", "statement": "Whatever the order in which the function, its derivative and the linear solver are prepared for values of the parameter, eigenpairs are locked and refinement is switched on or off, the operator used is that of the last parameter given and of all pairs locked so far.", "quantifier": "for all sequences of operations", "why_tests_cant": "All histories.", "anchors": ["src/nep/impls/nepdefl.c:NEPDeflationComputeShellMat", "src/nep/impls/nepdefl.c:NEPDeflationSolveSetUp", "src/nep/impls/nepdefl.c:NEPDeflationSetRefine", "src/nep/impls/nepdefl.c:NEPDeflationLocking"]}
{"id": "C143", "title": "The projected problem of NEPNARNOLDI is the deflated problem restricted to the search space", "statement": "The matrix function given to the projected eigensolver is V* T(lambda) V for the deflated operator and the basis V of extended vectors, and its derivative is the derivative of that, on any number of processes and for any number of initial vectors.", "quantifier": "for all problems, bases, locked pairs, parameters and numbers of processes", "why_tests_cant": "All bases and numbers of processes.", "anchors": ["src/nep/impls/nepdefl.c:NEPDeflationDSNEPComputeMatrix", "src/nep/impls/nepdefl.c:NEPDeflationProjectOperator", "src/nep/impls/narnoldi/narnoldi.c:NEPSolve_NArnoldi"]}
{"id": "C144", "title": "The Jacobian of the deflated problem is the derivative of the deflated operator", "statement": "The operator returned as Jacobian of the deflated problem is the derivative of the deflated operator with respect to the parameter, for both formulas for the coupling block; where both are defined the two formulas agree.", "quantifier": "for all differentiable matrix functions, locked pairs and parameters", "why_tests_cant": "All functions, pairs and parameters.", "anchors": ["src/nep/impls/nepdefl.c:NEPDeflationComputeShellMat", "src/nep/impls/nepdefl.c:NEPDeflationEvaluateHatFunction", "src/nep/impls/nepdefl.c:NEPDeflationEvaluateBasis"]}
{"id": "C145", "title": "The eigenpairs returned after deflation satisfy the original problem", "statement": "Every eigenvalue on the diagonal of H with the vector X z, z an eigenvector of H, normalized, is an eigenpair of the original problem with a unit vector; the pair extracted for refinement is an eigenpair of the original problem and its error estimate is the residual of a unit vector.", "quantifier": "for all problems and all accepted sequences", "why_tests_cant": "All problems and sequences.", "anchors": ["src/nep/impls/nepdefl.c:NEPDeflationExtractEigenpair", "src/nep/interface/nepdefault.c:NEPComputeVectors_Schur", "src/nep/impls/rii/rii.c:NEPSolve_RII", "src/nep/impls/slp/slp.c:NEPSolve_SLP"]}
{"id": "C146", "title": "Two-sided deflation moves the computed eigenvalues away and keeps the others", "statement": "In two-sided NEPSLP the determinant of the deflated operator is the determinant of the original one divided by the product of (lambda - e_i) over the eigenvalues found, the solve inverts the product, the Jacobian is the derivative, transposed products are those of the transposed operator, and eigenvectors of the deflated problem are mapped to eigenvectors of the original one.", "quantifier": "for all problems, biorthogonal bases, eigenvalues and parameters", "why_tests_cant": "All problems and bases.", "anchors": ["src/nep/impls/slp/slp-twosided.c:MatMult_NEPDeflationNE", "src/nep/impls/slp/slp-twosided.c:MatMultTranspose_NEPDeflationNE", "src/nep/impls/slp/slp-twosided.c:MatSolve_NEPDeflationNE", "src/nep/impls/slp/slp-twosided.c:MatSolveTranspose_NEPDeflationNE", "src/nep/impls/slp/slp-twosided.c:NEPDeflationNERecoverEigenvectors", "src/nep/impls/slp/slp-twosided.c:NEPDeflationNELocking", "src/nep/impls/slp/slp-twosided.c:NEPSolve_SLP_Twosided"]}
{"id": "C147", "title": "A solver that stops early returns what it has found", "statement": "When NEPRII, NEPSLP or NEPNARNOLDI stop before all requested eigenvalues are found (iterations exhausted, linear solver failure, breakdown), NEPSolve returns normally with the reason of divergence and the eigenpairs that have converged.", "quantifier": "for all numbers of requested and converged eigenvalues and all reasons", "why_tests_cant": "All counts and reasons.", "anchors": ["src/nep/impls/nepdefl.c:NEPDeflationGetInvariantPair", "src/nep/impls/rii/rii.c:NEPSolve_RII", "src/nep/impls/slp/slp.c:NEPSolve_SLP", "src/nep/impls/narnoldi/narnoldi.c:NEPSolve_NArnoldi", "src/sys/classes/ds/interface/dsops.c:DSGetMat"]}
{"id": "C148", "title": "NEPRII, NEPSLP and NEPNARNOLDI end and respect the maximum number of iterations", "statement": "The solvers end after at most the maximum number of iterations plus one restart for each requested eigenvalue, whatever happens in the iterations; the reason \"too many iterations\" is given only after the maximum number of iterations has been done, and the number of iterations reported is the number done.", "quantifier": "for all parameters and all outcomes of convergence tests, linear solves and orthogonalizations", "why_tests_cant": "All executions.", "anchors": ["src/nep/impls/rii/rii.c:NEPSolve_RII", "src/nep/impls/slp/slp.c:NEPSolve_SLP", "src/nep/impls/narnoldi/narnoldi.c:NEPSolve_NArnoldi", "src/nep/interface/nepdefault.c:NEPStoppingBasic"]}
{"id": "C149", "title": "Power iteration with constant shift returns a partial Schur decomposition and eigenvectors", "statement": "With exact arithmetic, the vectors returned by EPSPOWER with a constant shift are orthonormal, those already converged are never changed, and each of them satisfies the Schur relation of the operator up to the tolerance times the norm of the operator; for Hermitian problems they are eigenvectors up to a multiple of that. The eigenvectors computed from them for non-Hermitian problems are eigenvectors, and the error estimate of a pair is its relative residual.", "quantifier": "for all operators, tolerances, numbers of iterations and start vectors", "why_tests_cant": "All operators and executions.", "anchors": ["src/eps/impls/power/power.c:EPSSolve_Power", "src/eps/impls/power/power.c:Normalize", "src/eps/interface/epsdefault.c:EPSComputeVectors_Schur"]}
{"id": "C150", "title": "Rayleigh quotient iteration uses the Rayleigh quotient and reports the true residual", "statement": "With variable shifts, the error estimate of EPSPOWER is the relative residual of the returned pair, the new shift is the Rayleigh quotient of the new vector, and with Wilkinson shifts it is the eigenvalue nearest to that quotient of the projection of the matrix on the vector and its residual; the eigenvectors returned for several eigenvalues are eigenvectors.", "quantifier": "for all matrices, shifts that are not eigenvalues, vectors and numbers of locked pairs", "why_tests_cant": "All matrices and vectors.", "anchors": ["src/eps/impls/power/power.c:EPSSolve_Power", "src/eps/interface/epsdefault.c:EPSComputeVectors_Schur"]}
{"id": "C151", "title": "Two-sided power iteration keeps biorthonormal vectors and converges for each requested eigenvalue", "statement": "In the two-sided power method right and left vectors of the locked and current pairs are biorthonormal, accepted pairs have left and right residuals below the tolerance, the shift of the two-sided Rayleigh quotient iteration is the two-sided Rayleigh quotient, and after a pair has been accepted the iteration for the next one begins with a new start vector.", "quantifier": "for all operators, tolerances and executions", "why_tests_cant": "All operators and executions.", "anchors": ["src/eps/impls/power/power.c:EPSSolve_TS_Power"]}
{"id": "C152", "title": "Subspace iteration keeps an orthonormal basis with a true Schur residual", "statement": "At each projection step of EPSSUBSPACE the basis is orthonormal, locked vectors are not changed, and the residual norms are those of the partial Schur decomposition of the operator; at the end the locked vectors are an orthonormal basis of a partial Schur decomposition with these residuals.", "quantifier": "for all operators, dimensions, projected dimensions and sequences of iterations", "why_tests_cant": "All operators and executions.", "anchors": ["src/eps/impls/subspace/subspace.c:EPSSolve_Subspace", "src/eps/impls/subspace/subspace.c:EPSSubspaceResidualNorms"]}
{"id": "C153", "title": "Subspace iteration accepts groups of eigenvalues only if converged", "statement": "EPSSUBSPACE accepts an eigenvalue only as part of a group of consecutive values of nearly equal modulus, in order, and only if the residual of each member is at most the tolerance relative to its modulus.", "quantifier": "for all eigenvalues, residual norms and tolerances", "why_tests_cant": "All inputs.", "anchors": ["src/eps/impls/subspace/subspace.c:EPSSubspaceFindGroup", "src/eps/impls/subspace/subspace.c:EPSSolve_Subspace"]}
{"id": "C154", "title": "Randomized SVD returns orthonormal triplets with true residuals", "statement": "Each iteration of SVDRANDOMIZED gives orthonormal left and right vectors, leaves the locked ones unchanged, satisfies one of the two equations of the singular triplets exactly (up to components in the locked vectors), and a triplet is accepted only after all previous ones and if its full residual passes the test; matrices of low rank are treated as well.", "quantifier": "for all matrices, numbers of columns and iterations, and all random start vectors", "why_tests_cant": "All matrices.", "anchors": ["src/svd/impls/randomized/rsvd.c:SVDSolve_Randomized", "src/svd/impls/randomized/rsvd.c:SVDRandomizedResidualNorm", "src/sys/classes/bv/interface/bvorthog.c:BVOrthogonalize"]}
{"id": "C155", "title": "Converged Ritz pairs of EPSLANCZOS are put first without being mixed up", "statement": "After each restart of EPSLANCZOS the accepted values, error estimates and vectors are exactly those that passed the test, stored in front in the order of the sorting criterion, each value with its own estimate and vector, and the others follow; with local reorthogonalization the same holds after spurious ones have been discarded.", "quantifier": "for all numbers of values and all patterns of converged, repeated and spurious ones", "why_tests_cant": "All patterns.", "anchors": ["src/eps/impls/krylov/lanczos/lanczos.c:EPSSolve_Lanczos"]}
{"id": "C156", "title": "Local Lanczos recurrences give an orthonormal basis and exact residual estimates", "statement": "In exact arithmetic EPSLANCZOS with local reorthogonalization, which orthogonalizes each new vector only against locked vectors and the two previous ones, produces an orthonormal basis and a real tridiagonal matrix satisfying the Krylov relation; the residual of each Ritz pair, up to components in the locked vectors, is beta times the last entry of the eigenvector of the projected matrix.", "quantifier": "for all Hermitian operators, locked vectors, start vectors and numbers of steps", "why_tests_cant": "All operators and numbers of steps.", "anchors": ["src/eps/impls/krylov/lanczos/lanczos.c:EPSLocalLanczos", "src/sys/classes/bv/interface/bvorthog.c:BVOrthogonalizeSomeColumn"]}
{"id": "C157", "title": "Repeated Ritz values are discarded only if they repeat an accepted value", "statement": "EPSLANCZOS with local reorthogonalization accepts no value twice and discards a converged Ritz value as repeated only if an equal converged value is kept.", "quantifier": "for all sequences of Ritz values and error estimates", "why_tests_cant": "All sequences.", "anchors": ["src/eps/impls/krylov/lanczos/lanczos.c:EPSSolve_Lanczos"]}
{"id": "C158", "title": "Partial reorthogonalization follows the recurrence for the loss of orthogonality", "statement": "With partial and periodic reorthogonalization EPSLANCZOS estimates the inner products of Lanczos vectors by the three-term recurrence of Simon in terms of the two previous rows, and orthogonalizes against every vector connected to one whose estimate exceeds delta by a run of estimates above eta, on both sides.", "quantifier": "for all coefficients, estimates and thresholds", "why_tests_cant": "Loss of orthogonality depends on rounding; all coefficients.", "anchors": ["src/eps/impls/krylov/lanczos/lanczos.c:update_omega", "src/eps/impls/krylov/lanczos/lanczos.c:compute_int", "src/eps/impls/krylov/lanczos/lanczos.c:EPSPartialLanczos"]}
{"id": "C159", "title": "Delayed reorthogonalization computes the same Arnoldi factorization", "statement": "The variants of Arnoldi with delayed normalization and reorthogonalization return, in exact arithmetic and without breakdown, an orthonormal basis, a Hessenberg matrix and a residual norm satisfying the Arnoldi relation, for any number of new columns.", "quantifier": "for all operators, locked columns and numbers of columns", "why_tests_cant": "All operators and sizes.", "anchors": ["src/eps/impls/krylov/epskrylov.c:EPSDelayedArnoldi", "src/eps/impls/krylov/epskrylov.c:EPSDelayedArnoldi1"]}
{"id": "C160", "title": "Error estimates of EPSLANCZOS use the norm of the actual residual vector", "statement": "In every variant of reorthogonalization, also after a breakdown, the factor beta in the error estimates beta*|y_last| of EPSLANCZOS is the norm of the residual vector that is left after the last orthogonalization.", "quantifier": "for all sequences of norms, breakdowns and reorthogonalizations", "why_tests_cant": "All sequences; breakdowns are rare.", "anchors": ["src/eps/impls/krylov/lanczos/lanczos.c:EPSPartialLanczos", "src/eps/impls/krylov/lanczos/lanczos.c:EPSSelectiveLanczos", "src/eps/impls/krylov/lanczos/lanczos.c:EPSBasicLanczos"]}
{"id": "C161", "title": "The line search of RQCG minimizes the Rayleigh quotient", "statement": "In each step of EPSRQCG the step length along the search direction is the one for which the Rayleigh quotient of the new iterate is smallest among all real step lengths, whenever there is a smallest one; the Rayleigh quotient of an iterate never increases in the step.", "quantifier": "for all Hermitian A, positive definite B, iterates and directions, real or complex", "why_tests_cant": "All vectors and directions.", "anchors": ["src/eps/impls/cg/rqcg/rqcg.c:EPSSolve_RQCG"]}
{"id": "C162", "title": "The reset of RQCG performs a Rayleigh-Ritz projection", "statement": "Every nrest iterations (EPSRQCGSetReset) EPSRQCG replaces the active vectors by the Ritz vectors of the subspace they span and their values by the Ritz values, that is, the eigenvalues of the projected matrix.", "quantifier": "for all Hermitian operators, active vectors and numbers of columns", "why_tests_cant": "All operators and sizes.", "anchors": ["src/eps/impls/cg/rqcg/rqcg.c:EPSSolve_RQCG", "src/sys/classes/ds/impls/hep/dshep.c:DSIntermediate_HEP"]}
{"id": "C163", "title": "Eigenpairs returned by RQCG satisfy the convergence test", "statement": "Every eigenpair counted as converged by EPSRQCG has, as returned to the user, a residual that satisfies the convergence criterion.", "quantifier": "for all Hermitian operators, initial vectors, tolerances and numbers of iterations", "why_tests_cant": "All operators and start vectors.", "anchors": ["src/eps/impls/cg/rqcg/rqcg.c:EPSSolve_RQCG"]}
{"id": "C164", "title": "Conjugate directions of RQCG belong to their vector", "statement": "The search direction of each active vector in EPSRQCG is its preconditioned gradient plus a multiple of the previous search direction of the same vector, the multiple being the quotient of the gradient norms of that vector, also after other vectors have converged.", "quantifier": "for all histories of convergence", "why_tests_cant": "All histories.", "anchors": ["src/eps/impls/cg/rqcg/rqcg.c:EPSSolve_RQCG"]}
{"id": "C165", "title": "Ritz values of LOBPCG improve monotonically", "statement": "Between two iterations of EPSLOBPCG on the same block the j-th Ritz value does not increase when computing smallest eigenvalues and does not decrease when computing largest ones, for each j, for any preconditioner, with or without locking.", "quantifier": "for all Hermitian operators, B positive definite, block sizes, preconditioned residuals and directions", "why_tests_cant": "All operators and preconditioners.", "anchors": ["src/eps/impls/cg/lobpcg/lobpcg.c:EPSSolve_LOBPCG"]}
{"id": "C166", "title": "Dimensions chosen by LOBPCG suffice for every run", "statement": "With the number of columns and the restart parameter accepted in EPSSetUp, all accesses of EPSLOBPCG to columns of its bases and to the arrays of eigenvalues are within bounds, and the columns taken as new initial vectors after locking have been generated, for every history of convergence, with the default stopping test.", "quantifier": "for all numbers of eigenvalues, block sizes, restart parameters, deflation vectors and histories", "why_tests_cant": "All histories.", "anchors": ["src/eps/impls/cg/lobpcg/lobpcg.c:EPSSetDimensions_LOBPCG", "src/eps/impls/cg/lobpcg/lobpcg.c:EPSSolve_LOBPCG"]}
{"id": "C167", "title": "LOBPCG terminates and counts its iterations", "statement": "EPSLOBPCG with the default stopping test terminates for every history of convergence, and EPSGetIterationNumber returns the number of expansions of the search space performed, which does not exceed the maximum set by the user.", "quantifier": "for all histories of convergence, block sizes and limits", "why_tests_cant": "All histories.", "anchors": ["src/eps/impls/cg/lobpcg/lobpcg.c:EPSSolve_LOBPCG", "src/eps/interface/epsdefault.c:EPSStoppingBasic"]}
{"id": "C168", "title": "Two-sided Krylov-Schur keeps both Krylov decompositions", "statement": "In the two-sided Krylov-Schur solver (EPSSetTwoSided) the right and left bases stay orthonormal, the operator applied to the right basis and its conjugate transpose applied to the left basis are represented by the projected matrices plus one further vector, and the matrix of inner products between both bases is up to date, after any number of restarts without breakdown.", "quantifier": "for all operators, start vectors, dimensions and restart sizes", "why_tests_cant": "All operators, sizes and numbers of restarts.", "anchors": ["src/eps/impls/krylov/krylovschur/ks-twosided.c:EPSSolve_KrylovSchur_TwoSided", "src/eps/impls/krylov/krylovschur/ks-twosided.c:EPSTwoSidedRQUpdate1", "src/eps/impls/krylov/krylovschur/ks-twosided.c:EPSTwoSidedRQUpdate2", "src/sys/classes/ds/impls/nhepts/dsnhepts.c:DSTruncate_NHEPTS"]}
{"id": "C169", "title": "Right and left Ritz values of two-sided Krylov-Schur agree", "statement": "The two matrices whose eigenvalues the two-sided Krylov-Schur solver takes as approximations are the oblique projections of the operator and of its conjugate transpose: the right residuals are orthogonal to the left basis and conversely, and a number is an eigenvalue of the first exactly when its conjugate is an eigenvalue of the second.", "quantifier": "for all operators and bases of equal length with nonsingular matrix of inner products", "why_tests_cant": "All operators and bases.", "anchors": ["src/eps/impls/krylov/krylovschur/ks-twosided.c:EPSTwoSidedRQUpdate1"]}
{"id": "C170", "title": "Error estimates of two-sided Krylov-Schur are residual norms", "statement": "The error estimate with which the two-sided Krylov-Schur solver accepts an eigenpair is the larger of the norms of the residuals of the right and of the left Ritz vector, also when one of the two factorizations finishes early.", "quantifier": "for all operators, start vectors and lengths of both factorizations", "why_tests_cant": "All operators and start vectors; early termination of only one factorization is rare.", "anchors": ["src/eps/impls/krylov/krylovschur/ks-twosided.c:EPSSolve_KrylovSchur_TwoSided", "src/eps/impls/krylov/epskrylov.c:EPSKrylovConvergence", "src/sys/classes/ds/impls/nhepts/dsnhepts.c:DSVectors_NHEPTS_Eigen_Some"]}
{"id": "C171", "title": "Left and right eigenvalues are matched by the two-sided dense solver", "statement": "DSSort of the two-sided dense problem reorders the left Schur form without losing or repeating an eigenvalue, and afterwards the left and right eigenvalue in each position agree up to the tolerance used to detect mismatches, whenever some reordering achieves this.", "quantifier": "for all numbers of eigenvalues and all values", "why_tests_cant": "All orders and coincidences of eigenvalues.", "anchors": ["src/sys/classes/ds/impls/nhepts/dsnhepts.c:DSSort_NHEPTS"]}
{"id": "C172", "title": "Structured Lanczos of Shao for Bethe-Salpeter problems keeps its decomposition", "statement": "In the Krylov-Schur solver for EPS_BSE (variant SHAO), for blocks R Hermitian and C complex symmetric, the computed pairs of vectors satisfy v = R u + C conj(u), are biorthonormal (real part of v_i^* u_j is 1 for i = j and 0 otherwise, imaginary parts of u_i^* u_j and v_i^* v_j vanish), and R v_j - C conj(v_j) is represented by the stored real symmetric matrix plus one further vector, after any number of Lanczos steps and restarts without breakdown.", "quantifier": "for all sizes, blocks, start vectors, numbers of steps and restarts", "why_tests_cant": "All matrices, start vectors and numbers of steps.", "anchors": ["src/eps/impls/krylov/krylovschur/ks-bse.c:EPSBSELanczos_Shao", "src/eps/impls/krylov/krylovschur/ks-bse.c:OrthogonalizeVector_Shao", "src/eps/impls/krylov/krylovschur/ks-bse.c:Orthog_Shao", "src/sys/classes/st/impls/shift/shift.c:STApply_Shift_BSE"]}
{"id": "C173", "title": "Bidiagonalization of Gruning for Bethe-Salpeter problems keeps its decomposition", "statement": "In the Krylov-Schur solver for EPS_BSE (variant GRUNING) the two bases are orthonormal with respect to the two real forms 2 Re(u^* (R u + C conj u)) and 2 Re(v^* (R v - C conj v)), and both products are represented by the stored bidiagonal matrix and its transpose plus one further vector, for any number of steps without breakdown.", "quantifier": "for all sizes, blocks, start vectors and numbers of steps", "why_tests_cant": "All matrices, start vectors and numbers of steps.", "anchors": ["src/eps/impls/krylov/krylovschur/ks-bse.c:EPSBSELanczos_Gruning", "src/eps/impls/krylov/krylovschur/ks-bse.c:OrthogonalizeVector_Gruning", "src/eps/impls/krylov/krylovschur/ks-bse.c:Orthog_Gruning"]}
{"id": "C174", "title": "Error estimates of the Bethe-Salpeter solver measure the residual", "statement": "The error estimate with which the Krylov-Schur solver for EPS_BSE accepts an eigenpair is the norm of the residual H x - lambda x of the normalized vector that EPSGetEigenvector returns, at least up to a fixed factor independent of the problem.", "quantifier": "for all definite Bethe-Salpeter matrices, start vectors and Ritz pairs", "why_tests_cant": "All matrices; the scale of the matrix matters.", "anchors": ["src/eps/impls/krylov/krylovschur/ks-bse.c:EPSSolve_KrylovSchur_BSE_Shao", "src/eps/impls/krylov/epskrylov.c:EPSKrylovConvergence", "src/eps/impls/krylov/krylovschur/ks-bse.c:EPSComputeVectors_BSE_Shao"]}
{"id": "C175", "title": "Vectors assembled by the Bethe-Salpeter solver are eigenvectors", "statement": "If the Ritz pair computed by the structured factorization is exact, then the vector with blocks of length n assembled by each of the three variants (SHAO, GRUNING, PROJECTEDBSE) is a nonzero eigenvector of H = [R C; -C^H -R^T] for the returned eigenvalue; the variants SHAO and PROJECTEDBSE assemble the same vector up to a factor.", "quantifier": "for all blocks R Hermitian, C symmetric, and all exact Ritz pairs", "why_tests_cant": "All matrices and vectors.", "anchors": ["src/eps/impls/krylov/krylovschur/ks-bse.c:EPSComputeVectors_BSE_Shao", "src/eps/impls/krylov/krylovschur/ks-bse.c:EPSComputeVectors_BSE_Gruning", "src/eps/impls/krylov/krylovschur/ks-bse.c:EPSComputeVectors_BSE_ProjectedBSE", "src/sys/mat/matstruct.c:MatCreateBSE"]}
{"id": "C176", "title": "Shift-and-invert with the structured Bethe-Salpeter solver", "statement": "With the shift-and-invert transformation and a target sigma (accepted by EPSSetUp) the eigenvalues returned by the Krylov-Schur solver for EPS_BSE are, when the factorization ends with a zero residual, eigenvalues of H, and the vectors are eigenvectors.", "quantifier": "for all definite Bethe-Salpeter matrices and all real targets that are not eigenvalues", "why_tests_cant": "All targets.", "anchors": ["src/sys/classes/st/impls/sinvert/sinvert.c:STApply_Sinvert_BSE", "src/eps/impls/krylov/krylovschur/ks-bse.c:EPSBSELanczos_Shao", "src/eps/impls/krylov/krylovschur/ks-bse.c:EPSComputeVectors_BSE_Shao", "src/eps/impls/krylov/krylovschur/ks-bse.c:EPSSetUp_KrylovSchur_BSE"]}
{"id": "C177", "title": "The Bethe-Salpeter solver delivers the requested number of eigenvalues", "statement": "For a definite Bethe-Salpeter matrix of which at least nev eigenvalues exist, a Lanczos factorization that ends early because an invariant subspace has been found does not make EPSSolve fail: all pairs of the subspace are exact and the solver continues until nev pairs have been computed or the iteration limit is reached.", "quantifier": "for all definite Bethe-Salpeter matrices, start vectors and numbers of eigenvalues", "why_tests_cant": "Early termination depends on multiplicities and start vectors.", "anchors": ["src/eps/impls/krylov/krylovschur/ks-bse.c:EPSBSELanczos_Shao", "src/eps/impls/krylov/krylovschur/ks-bse.c:EPSSolve_KrylovSchur_BSE_Shao", "src/eps/interface/epsdefault.c:EPSStoppingBasic"]}
{"id": "C178", "title": "Lanczos of Teng for linear response problems keeps its decomposition", "statement": "In the Krylov-Schur solver for EPS_LREP (variant TENG) with symmetric positive definite M and symmetric K, after any number of restarts the vectors v_i are orthonormal with respect to M, the vectors u_i are M v_i, and K u_i is represented by the stored matrix plus one further vector; no square root of a negative number is taken and after a breakdown there is no residual.", "quantifier": "for all sizes, matrices, start vectors, numbers of steps and restarts", "why_tests_cant": "All matrices, start vectors and histories of restarts.", "anchors": ["src/eps/impls/krylov/krylovschur/ks-lrep.c:EPSLREPLanczos_Teng", "src/eps/impls/krylov/krylovschur/ks-lrep.c:OrthogonalizeVector_Teng", "src/eps/impls/krylov/krylovschur/ks-lrep.c:EPSSolve_KrylovSchur_LREP_Teng"]}
{"id": "C179", "title": "Weighted bidiagonalization of Zhong for linear response problems keeps its decomposition", "statement": "In the Krylov-Schur solver for EPS_LREP (variant ZHONG) with symmetric positive definite K and M, after any number of restarts one basis is orthonormal with respect to M, the other with respect to K, and both products are represented by the stored bidiagonal matrix and its transpose plus one further vector; alpha never vanishes and a vanishing beta leaves no residual.", "quantifier": "for all sizes, matrices, start vectors, numbers of steps and restarts", "why_tests_cant": "All matrices, start vectors and histories of restarts.", "anchors": ["src/eps/impls/krylov/krylovschur/ks-lrep.c:EPSLREPLanczos_Zhong", "src/eps/impls/krylov/krylovschur/ks-lrep.c:OrthogonalizeVector_Zhong_v", "src/eps/impls/krylov/krylovschur/ks-lrep.c:OrthogonalizeVector_Zhong_u", "src/eps/impls/krylov/krylovschur/ks-lrep.c:EPSSolve_KrylovSchur_LREP_Zhong"]}
{"id": "C180", "title": "Eigenvectors assembled for linear response problems", "statement": "For EPS_LREP, in both variants and in both forms of the matrix given by the user (A,B or reduced K,M), the residual of the eigenvector assembled from the Ritz vectors is exactly the residual of the projected decomposition; if that vanishes the vector is an eigenvector of the user's matrix for the eigenvalue computed.", "quantifier": "for all matrices, Ritz vectors and eigenvalues", "why_tests_cant": "All matrices and vectors.", "anchors": ["src/eps/impls/krylov/krylovschur/ks-lrep.c:EPSComputeVectors_LREP_Teng", "src/eps/impls/krylov/krylovschur/ks-lrep.c:EPSComputeVectors_LREP_Zhong", "src/eps/impls/krylov/krylovschur/ks-lrep.c:EPSUnreduceVectors", "src/sys/mat/matstruct.c:MatCreateLREP"]}
{"id": "C181", "title": "Pairs accepted for linear response problems have small residual", "statement": "A pair accepted by the Krylov-Schur solver for EPS_LREP (variant TENG, relative convergence test) with tolerance tol has relative residual at most tol in exact arithmetic.", "quantifier": "for all symmetric positive definite matrices and tolerances", "why_tests_cant": "All matrices and all tolerances.", "anchors": ["src/eps/impls/krylov/krylovschur/ks-lrep.c:EPSSolve_KrylovSchur_LREP_Teng", "src/eps/impls/krylov/epskrylov.c:EPSKrylovConvergence"]}
{"id": "C182", "title": "Spectral transformation with linear response problems", "statement": "For every spectral transformation accepted by the Krylov-Schur solver for EPS_LREP, the values returned by EPSGetEigenvalue for converged pairs are eigenvalues of the user's matrix.", "quantifier": "for all matrices and shifts", "why_tests_cant": "All matrices and all values of the shift.", "anchors": ["src/eps/impls/krylov/krylovschur/ks-lrep.c:EPSSetUp_KrylovSchur_LREP", "src/eps/interface/epssolve.c:EPSComputeValues", "src/eps/interface/epssolve.c:EPSGetEigenvalue", "src/sys/classes/st/impls/shift/shift.c:STBackTransform_Shift"]}
{"id": "C183", "title": "Breakdown in linear response problems", "statement": "When the Lanczos process for EPS_LREP (variant TENG) ends early all pairs of the invariant subspace found are exact and accepted, and the solver goes on with a new start vector if more pairs were requested.", "quantifier": "for all symmetric positive definite matrices, start vectors and numbers of pairs", "why_tests_cant": "All matrices and start vectors.", "anchors": ["src/eps/impls/krylov/krylovschur/ks-lrep.c:EPSSolve_KrylovSchur_LREP_Teng"]}
{"id": "C184", "title": "Harmonic extraction computes harmonic Ritz pairs with respect to the target", "statement": "With EPS_HARMONIC the approximate eigenpairs computed from the search space K satisfy the defining condition of harmonic Ritz pairs: the residual is orthogonal to (Op - target I) K. For a Hermitian operator and a real target the values are real.", "quantifier": "for all operators, targets, start vectors and sizes of the search space", "why_tests_cant": "The condition quantifies over all vectors of the search space and all operators.", "anchors": ["src/sys/classes/ds/impls/nhep/dsnhep.c:DSTranslateHarmonic_NHEP", "src/eps/impls/krylov/krylovschur/krylovschur.c:EPSSolve_KrylovSchur_Default", "src/eps/impls/krylov/arnoldi/arnoldi.c:EPSSolve_Arnoldi"]}
{"id": "C185", "title": "Restarts with harmonic extraction preserve the Krylov decomposition", "statement": "In the Krylov-Schur solver with EPS_HARMONIC, after any number of restarts the basis is orthonormal and the operator applied to each active basis vector is represented exactly by the stored matrix plus one further vector; the translation of the projected matrix is undone completely, and the residual of a locked vector does not change after it has been locked.", "quantifier": "for all operators, targets, start vectors, numbers of restarts and locked vectors", "why_tests_cant": "All operators and all histories of restarts.", "anchors": ["src/sys/classes/ds/impls/nhep/dsnhep.c:DSTranslateHarmonic_NHEP", "src/eps/impls/krylov/krylovschur/krylovschur.c:EPSSolve_KrylovSchur_Default"]}
{"id": "C186", "title": "Error estimates with harmonic and refined extraction are residual norms", "statement": "With every type of extraction that EPSARNOLDI and EPSKRYLOVSCHUR accept (Ritz, harmonic, refined, refined harmonic) the error estimate used to accept a pair is the norm of its residual (absolute convergence test).", "quantifier": "for all operators, targets and search spaces", "why_tests_cant": "All operators; an estimate that is too small goes unnoticed in a test that checks only convergence.", "anchors": ["src/eps/impls/krylov/epskrylov.c:EPSKrylovConvergence", "src/sys/classes/ds/impls/nhep/dsnhep.c:DSTranslateHarmonic_NHEP", "src/sys/classes/ds/impls/nhep/dsnhep.c:DSVectors_NHEP_Refined_Some", "src/eps/impls/krylov/arnoldi/arnoldi.c:EPSSolve_Arnoldi"]}
{"id": "C187", "title": "The target of harmonic extraction refers to eigenvalues of the problem", "statement": "The value given with EPSSetTarget is the target of harmonic extraction in terms of the eigenvalues of the user's problem, also when the spectral transformation is a shift of origin (which EPSSetUp accepts together with harmonic extraction).", "quantifier": "for all operators, targets and shifts", "why_tests_cant": "All combinations of shift and target.", "anchors": ["src/eps/interface/epssetup.c:EPSCheckCompatibleST", "src/eps/impls/krylov/krylovschur/krylovschur.c:EPSSolve_KrylovSchur_Default", "src/sys/classes/st/impls/shift/shift.c:STBackTransform_Shift", "src/eps/interface/epsbasic.c:EPSSetTarget"]}
{"id": "C188", "title": "Refined extraction returns the vectors of smallest residual", "statement": "With EPS_REFINED the vector that EPSARNOLDI computes for a Ritz value minimizes the norm of the residual over all unit vectors of the search space, the vectors returned by EPSGetEigenvector for converged pairs are the computed ones, and the solver also works when all values of the search space have converged.", "quantifier": "for all operators, search spaces and numbers of converged pairs", "why_tests_cant": "All operators and all vectors of the search space.", "anchors": ["src/sys/classes/ds/impls/nhep/dsnhep.c:DSVectors_NHEP_Refined_Some", "src/eps/impls/krylov/arnoldi/arnoldi.c:EPSSolve_Arnoldi", "src/eps/interface/epsdefault.c:EPSComputeVectors_Schur", "src/sys/classes/bv/interface/bvops.c:BVMultInPlace"]}
{"id": "C189", "title": "Harmonic extraction works for every target", "statement": "A solver with EPS_HARMONIC does not fail because of the position of the target relative to the approximate eigenvalues.", "quantifier": "for all operators, targets and search spaces", "why_tests_cant": "Failure depends on an exact coincidence or on a symmetry of the problem.", "anchors": ["src/sys/classes/ds/impls/nhep/dsnhep.c:DSTranslateHarmonic_NHEP"]}
{"id": "C190", "title": "Diagonal balancing does not change the solution of polynomial eigenproblems", "statement": "If PEPSetScale selects diagonal scaling, or selected it in an earlier solve with the same PEP object, the eigenpairs returned by PEPSolve and PEPGetEigenpair satisfy the user's polynomial eigenproblem, whatever solver type is used.", "quantifier": "for all polynomials of any degree, solver types, scaling factors, diagonals and sequences of scaling settings", "why_tests_cant": "All polynomials and settings; a test uses few solvers with few settings and errors of vectors are often not printed.", "anchors": ["src/pep/interface/pepdefault.c:PEPComputeVectors_Default", "src/pep/impls/krylov/toar/ptoar.c:PEPTOARExtendBasis", "src/pep/impls/krylov/qarnoldi/qarnoldi.c:PEPQArnoldi", "src/pep/impls/krylov/stoar/stoar.c:PEPSTOARrun", "src/pep/impls/linear/linear.c:MatMult_Linear_Shift"]}
{"id": "C191", "title": "The computed diagonals balance the polynomial", "statement": "The diagonals computed when diagonal scaling is selected consist of powers of two, the rows of the matrix of weighted squared moduli have sums between 1/2 and 2 after scaling, and so within a factor 32 do the columns if the iteration stops before the maximum number of iterations. The computation is well defined for every regular matrix polynomial.", "quantifier": "for all regular matrix polynomials, values of lambda and numbers of iterations", "why_tests_cant": "All matrices and any number of iterations.", "anchors": ["src/pep/interface/pepdefault.c:PEPBuildDiagonalScaling"]}
{"id": "C192", "title": "Diagonal balancing weighs the coefficients with the estimate of the eigenvalues", "statement": "The matrix to be balanced is the sum of the squared moduli of the coefficients of the problem that is solved (scaled with alpha if scalar scaling is also selected) weighted with powers of the squared modulus of the eigenvalue estimate given in PEPSetScale, expressed in the same scaling.", "quantifier": "for all polynomials, estimates and scaling factors", "why_tests_cant": "All polynomials and values of the parameters; the weights are not observable except through accuracy.", "anchors": ["src/pep/interface/pepdefault.c:PEPBuildDiagonalScaling", "src/pep/interface/pepopts.c:PEPSetScale"]}
{"id": "C193", "title": "Diagonals provided by the user are used and left unchanged", "statement": "If the user provides Dl and Dr in PEPSetScale, the solver works with these diagonals, and the vectors of the user are not modified.", "quantifier": "for all polynomials and all diagonals", "why_tests_cant": "All diagonals; the results of a solve do not show which diagonals were used.", "anchors": ["src/pep/interface/pepopts.c:PEPSetScale", "src/pep/interface/pepsetup.c:PEPSetUp", "src/pep/interface/pepdefault.c:PEPBuildDiagonalScaling"]}
{"id": "C194", "title": "Set-up of diagonal balancing does not access invalid memory", "statement": "PEPSetUp with diagonal scaling uses only matrices that have been created and does not write beyond its work arrays, for sequential and parallel AIJ matrices with any declared nonzero structure and any stored entries, including explicitly stored zeros.", "quantifier": "for all numbers of matrices, declared structures, distributions of rows and stored entries", "why_tests_cant": "Depends on the declared structure, the distribution and stored zeros; invalid accesses may go unnoticed.", "anchors": ["src/pep/interface/pepdefault.c:PEPBuildDiagonalScaling"]}
{"id": "C195", "title": "The computed scaling factor equilibrates the norms of the coefficients", "statement": "If the scaling factor is left to the solver (monomial basis), it is positive, the scaled first and last coefficients have equal norms, and the overall factor makes the average norm of the scaled coefficients equal to one. A factor given by the user is used as it is.", "quantifier": "for all polynomials of any degree with any norms of the coefficients", "why_tests_cant": "All norms; zero coefficients are special.", "anchors": ["src/pep/interface/pepdefault.c:PEPComputeScaleFactor"]}
{"id": "C196", "title": "Scaling options change only what they name", "statement": "In PEPSetFromOptions an option on one of the scaling parameters changes this parameter only: the other settings made before with PEPSetScale, including the request to compute the factor, remain in force, and the call does not fail.", "quantifier": "for all earlier settings and all combinations of options", "why_tests_cant": "Combinations of calls and options.", "anchors": ["src/pep/interface/pepopts.c:PEPSetFromOptions", "src/pep/interface/pepopts.c:PEPSetScale"]}
{"id": "C197", "title": "Balancing does not change the solution of non-symmetric eigenproblems", "statement": "Whatever balancing is selected with EPSSetBalance (none, one-sided, two-sided, or a matrix given by the user with STSetBalanceMatrix) and whatever was selected in earlier solves with the same EPS object, the right and left eigenvectors returned after EPSSolve are eigenvectors of the user's problem for the returned eigenvalue.", "quantifier": "for all operators, all sequences of calls and all eigenpairs found by the solver", "why_tests_cant": "All sequences of calls; a wrong correction shows only for eigenvectors and not for eigenvalues.", "anchors": ["src/eps/interface/epsdefault.c:EPSComputeVectors_Schur", "src/eps/interface/epssetup.c:EPSSetUp", "src/sys/classes/st/interface/stsolve.c:MatMult_STOperator"]}
{"id": "C198", "title": "EPSGetInvariantSubspace returns an invariant subspace also with balancing", "statement": "The vectors returned by EPSGetInvariantSubspace span an invariant subspace of the user's operator of the full dimension, for Hermitian and non-Hermitian problems, whatever balancing is selected or was selected in earlier solves with the same EPS object.", "quantifier": "for all operators, all sequences of calls and all computed bases", "why_tests_cant": "All sequences of calls.", "anchors": ["src/eps/interface/epssolve.c:EPSGetInvariantSubspace", "src/eps/interface/epssetup.c:EPSSetUp"]}
{"id": "C199", "title": "The computed balancing matrix is a positive diagonal", "statement": "The diagonal matrix computed with one-sided or two-sided balancing has positive entries for every operator, every random vectors, every number of iterations and every cutoff, so that the balanced operator is similar to the original one; rows giving a zero product are left unscaled, and a two-sided step changes only entries above the cutoff and makes the scaled row and column quantities equal.", "quantifier": "for all operators, random vectors, iteration counts and cutoffs", "why_tests_cant": "All operators, including singular ones, and all random vectors.", "anchors": ["src/eps/interface/epsdefault.c:EPSBuildBalance_Krylov"]}
{"id": "C200", "title": "Settings of balancing take effect in the next solve", "statement": "After a successful EPSSetBalance the next EPSSolve works with the balancing matrix computed with the given method, number of iterations and cutoff; a failing call leaves the settings as they were.", "quantifier": "for all earlier states of the object and all arguments", "why_tests_cant": "Depends on the history of calls; results differ only in accuracy.", "anchors": ["src/eps/interface/epsopts.c:EPSSetBalance", "src/eps/interface/epssetup.c:EPSSetUp", "src/eps/interface/epssolve.c:EPSSolve"]}
{"id": "C201", "title": "Ritz vectors used for the true residual and for arbitrary selection are eigenvectors of the user's problem", "statement": "The vector (or the pair of vectors with real and imaginary part, in real arithmetic) that EPS builds from an eigenvector of the projected problem, to compute the true residual or to be passed to the function given in EPSSetArbitrarySelection, is an eigenvector of the user's problem whenever the projected eigenvector gives an eigenvector of the operator, with or without purification and balancing.", "quantifier": "for all operators, vectors, problem types and settings of purification and balancing", "why_tests_cant": "All problem types and settings; a wrong Ritz vector only prevents convergence.", "anchors": ["src/eps/interface/epsdefault.c:EPSComputeRitzVector", "src/eps/impls/krylov/epskrylov.c:EPSKrylovConvergence"]}
{"id": "C202", "title": "Left eigenvectors of generalized problems satisfy the user's pencil", "statement": "With EPSSetTwoSided in a generalized problem, for each of the shift, shift-and-invert and Cayley transformations, with or without balancing, the left eigenvector returned by EPSGetLeftEigenvector satisfies y*A = lambda y*B for the returned eigenvalue.", "quantifier": "for all pencils, shifts and antishifts for which the transformation is defined, all balancing diagonals and all left eigenvectors of the operator", "why_tests_cant": "All pencils and shifts; each transformation solves with a different matrix.", "anchors": ["src/eps/interface/epsdefault.c:EPSComputeVectors_Twosided", "src/eps/interface/epsdefault.c:EPSComputeVectors_Schur", "src/sys/classes/st/interface/stsles.c:STMatSolveHermitianTranspose"]}
{"id": "C203", "title": "Eigenvectors extracted by TOAR are nonzero eigenvectors", "statement": "Whatever extraction method is selected with PEPSetExtract, the vector that PEPTOAR returns for a converged eigenvalue is a nonzero multiple of the eigenvector of the polynomial contained in the eigenvector of the linearization.", "quantifier": "for every degree, every basis of polynomials, every list of converged eigenvalues and every extraction method", "why_tests_cant": "All degrees, bases and lists of values; the outcome for one value may depend on the values before it.", "anchors": ["src/pep/impls/krylov/pepkrylov.c:PEPExtractVectors_TOAR"]}
