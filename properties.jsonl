{"id": "C01", "title": "Node numbers and grid positions are in bijection", "statement": "For a 2D or 3D domain, converting a node number to a grid position and back returns the node number, converting an in-range position to a node number and back returns the position, every node number in [0, number of nodes) gives an in-range position and every in-range position gives a node number in that interval. For all other integers converting to a position and back returns the number too, but the position is outside of the domain; negative numbers have the mirrored positions. Any other number of dimensions panics.", "quantifier": "every domain size (all positive side lengths, 2 or 3 dimensions), every node number and every position", "why_tests_cant": "tests check a handful of sizes; the claim is a bijection for unboundedly many sizes", "anchors": ["pfutil/indexPositionConversion.go: NodeIdx, Pos", "pfutil/sliceOperations.go: ProdInt"]}
{"id": "C02", "title": "Periodic wrap is the canonical representative", "statement": "Wrapping a position into a periodic domain gives, in every direction, the unique coordinate inside [0, side length) that differs from the original by an integer number of side lengths; positions already inside are unchanged.", "quantifier": "every integer position (also far outside and negative) and every positive domain size of any dimension", "why_tests_cant": "infinitely many positions; the arithmetic relies on Go's truncated division, whose behaviour changes at sign boundaries", "anchors": ["pfutil/sliceOperations.go: Wrap"]}
{"id": "C03", "title": "Product iterator enumerates the index box exactly once", "statement": "Calling Next repeatedly on a product iterator with at least one bound, all positive, yields every multi-index below the bounds exactly once, in lexicographic order with the last index fastest, and then nil. Further calls run through the same multi-indices again, but without the first one.", "quantifier": "every number of dimensions >= 1 and all positive bounds", "why_tests_cant": "the claim is about complete traces of unbounded length and dimension", "anchors": ["pfutil/iterators.go: Product, NewProduct, Next"]}
{"id": "C04", "title": "Grid reads see exactly the last write", "statement": "After a Set on a grid, Get at the same position returns the value written and Get at any other in-range position is unchanged; after any sequence of Sets each node holds the last value written to it, or zero on a fresh grid if it was never written.", "quantifier": "every 2D/3D grid, every sequence of writes, every pair of in-range positions", "why_tests_cant": "needs injectivity of the addressing for all sizes and all write histories", "anchors": ["pfutil/grid.go: Grid, Set, Get, NewGrid"]}
{"id": "C05", "title": "Blurring on a periodic grid is an average", "statement": "Blurring leaves a constant grid unchanged, preserves the sum over all nodes, and never produces a value outside [min, max] of the input when the kernel is non-negative with non-zero total weight.", "quantifier": "every grid size and content, every kernel (non-negative for the bounds)", "why_tests_cant": "holds for all kernels, all cut-offs (also larger than the domain) and all data", "anchors": ["pfutil/blur.go: Blur, BlurKernel", "pfutil/sliceOperations.go: Wrap", "pfutil/iterators.go: Product"]}
{"id": "C06", "title": "Support of the box blur kernel", "statement": "The documented contract of a blur kernel is that it vanishes beyond its cut-off. The box kernel meets that contract exactly when its width is at most 2; the blur with a box of width W >= 1 is the plain average over the (2*(W/2+1)+1)^d window and with W = 0 the identity.", "quantifier": "every non-negative width, every grid", "why_tests_cant": "needs all widths; a test at one small width cannot see the mismatch", "anchors": ["pfutil/blur.go: BoxKernel, Value, Cutoff, Blur"]}
{"id": "C07", "title": "Voronoi labels are nearest periodic generators", "statement": "Every node is labelled with the lowest index among the generator points at minimal periodic (minimum over all integer lattice translations) squared distance from it, as long as that distance is below 2^31-1; otherwise label 0 is produced whatever the generators are.", "quantifier": "every domain size, every list of in-range generators, every node", "why_tests_cant": "minimum over infinitely many periodic images and arbitrary generator lists with ties", "anchors": ["pfutil/voronoi.go: Voronoi, closest, pointDistSq"]}
{"id": "C08", "title": "Frequencies and conjugate nodes", "statement": "Every component of the frequency of a node lies in (-1/2, 1/2] and equals the position component divided by the side length up to an integer; the conjugate node map is an involution on the node set and the frequency of the conjugate node is the negated frequency modulo one.", "quantifier": "every positive 2D/3D domain and every node", "why_tests_cant": "parity of each side length matters; all sizes needed", "anchors": ["pfutil/fftWrap.go: Freq, ConjugateNode", "pfutil/indexPositionConversion.go"]}
{"id": "C09", "title": "Reported frequency is the frequency of the transform bin", "statement": "The frequency reported for flat index i is the wave vector of bin i of the row-major discrete Fourier transform of the grid, in terms of the grid's own node positions: transforming a plane wave sampled at the node positions gives a spectrum supported exactly on the bin that reports that frequency. This holds for all 2D domains and all cubic 3D domains, and fails for some non-cubic 3D domains.", "quantifier": "every 2D domain, every cubic 3D domain, every bin", "why_tests_cant": "orthogonality of exponentials for all sizes; the repository's tests use cubic boxes so the layout mismatch is invisible to them", "anchors": ["pfutil/fftWrap.go: FFTWWrapper, NewFFTW, FFT, Freq", "pfutil/indexPositionConversion.go: Pos"]}
{"id": "C10", "title": "Transform round trip and conjugate symmetry", "statement": "Inverse transform after forward transform multiplies by the number of nodes, so the division made by the steppers restores the field. The spectrum of every real field at the conjugate node is the complex conjugate of the spectrum at the node exactly on all 2D domains and on those 3D domains that, without sides of length one, agree with their cyclic shift (as all cubic ones).", "quantifier": "every 2D and 3D domain, every field", "why_tests_cant": "identity over all complex data and all sizes", "anchors": ["pfutil/fftWrap.go: FFT, IFFT, ConjugateNode", "pf/euler.go: Step"]}
{"id": "C11", "title": "Affine maps compose in call order", "statement": "Appending a transformation B to A and applying the result to a point equals applying A and then B; (for planar points provided A keeps the plane z = 0); appending is associative, the identity is neutral, translation and scaling with inverse parameters undo each other and axis rotations preserve distances. A scaling with fewer than three entries sets the remaining coordinates to zero. Points with more than four coordinates are refused; a fourth coordinate is not read.", "quantifier": "all affine maps, all points, all angles", "why_tests_cant": "universally quantified algebra over reals", "anchors": ["pfutil/affine.go: Append, Apply, Identity, Translation, Scaling, RotX, RotY, RotZ"]}
{"id": "C12", "title": "Drawing a shape writes exactly its pixels", "statement": "Draw overwrites exactly the nodes whose position, moved by the transformation, lies inside the shape and leaves every other node unchanged. On 2D grids this is only guaranteed when the transformation maps the plane z = 0 to itself. A shape whose bounding box does not have three lower bounds, each at most the corresponding of its three upper bounds, is refused.", "quantifier": "every grid, shape, transformation and value", "why_tests_cant": "quantifies over all shapes and transformations; the failure depends on state carried from pixel to pixel", "anchors": ["pfutil/shapes.go: Draw, Shape, Box, Ball"]}
{"id": "C13", "title": "Right-hand sides are split into their signed terms", "statement": "Splitting a right-hand side of the form [sign] t1 sign t2 sign ... tn (terms non-empty and free of + and -) returns each term exactly once together with the sign written in front of it (empty for an unsigned first term).", "quantifier": "every number of terms, every term text, every sign pattern", "why_tests_cant": "unbounded strings; the queue based splitter reorders its output", "anchors": ["pf/util.go: SplitOnMany, getFirstDelimiter, removeEmpty"]}
{"id": "C14", "title": "Signs following an operator", "statement": "A right-hand side in which a minus follows a plus (a+-b) should contribute b with coefficient -1. The splitter drops such a sign: for all terms a, b it returns b with sign +. A right-hand side without terms (empty, or made of signs only) makes the splitter panic with an index error.", "quantifier": "all sign-free non-empty terms", "why_tests_cant": "refutation for every pair of terms, not only one literal", "anchors": ["pf/util.go: SplitOnMany"]}
{"id": "C15", "title": "Operator prefixes are peeled completely and losslessly", "statement": "The recognised operator prefixes of a term concatenated with the remaining name give back the term text, the remaining name starts with no recognised prefix, and wrapping a user defined term with those prefixes multiplies it by (-1)^(number of minus signs) times the product of the Laplacian eigenvalues of the prefixes.", "quantifier": "every string; every frequency and term", "why_tests_cant": "unbounded strings and nested prefixes", "anchors": ["pf/rhsBuilder.go: knownPrefixes, removeKnownPrefixes, getKnownPrefixes, recursiveRemove, constructFunc", "pf/diffOp.go: LaplacianN"]}
{"id": "C16", "title": "Factor order does not matter", "statement": "Canonicalising a product gives the same string for every reordering of its factors, is idempotent, contains exactly the original factors and is sorted.", "quantifier": "every list of factors and every permutation of it", "why_tests_cant": "all permutations of unbounded lists", "anchors": ["pf/util.go: SortFactors"]}
{"id": "C17", "title": "Which terms are treated implicitly", "statement": "A product of scalars and powers of fields is treated as linear in the field of its equation exactly if that field occurs once, with power 1 (within 1e-10), and no other field, registered function or derived product occurs, provided that no field name with its last letter dropped occurs in another name or in the Laplacian prefix. Without that proviso the classification is wrong: whenever the name of a scalar s contains the name of the field f without its last letter (for a one letter field: always), every term s*f^p is classified as linear, whatever p is.", "quantifier": "all names satisfying the proviso, all powers, all products", "why_tests_cant": "regular expression matching over arbitrary names", "anchors": ["pf/rhsBuilder.go: isBilinear, Build"]}
{"id": "C18", "title": "Parsed terms evaluate to the product they spell", "statement": "The function built from a term evaluates, at every node and for all contents of the bricks, to sign times the product of its scalar factors raised to their powers, times the (transformed) field product of the term, times the Laplacian symbol to the requested power; for a term linear in the equation's field the part without the field is the factor in front of it. This holds if, in the alphabetical order of the factors, the fields stand next to each other and only the first of them carries a directly attached Laplacian. Otherwise the reading can be silently different; there are examples with a scalar that sorts between two fields, a Laplacian attached to a later field, a repeated field, and a Laplacian in front of a scalar.", "quantifier": "every well-named model, every product of scalars, fields, functions and at most one Laplacian, every node and frequency", "why_tests_cant": "parsing and evaluation of unbounded expressions", "anchors": ["pf/rhsBuilder.go: ConcreteTerm, ValidName", "pf/util.go: GetFieldName, GetPower, DerivedFieldCalcFromDesc"]}
{"id": "C19", "title": "Equation text means the differential equation it spells", "statement": "For right-hand sides that are sums of monomials (scalars, at most one Laplacian, and either fields with powers or one function), adding the equations and initialising the model succeeds, and the explicit part plus the implicit part times the field equals, in every Fourier bin, the transform of the mathematical right-hand side. The implicit part is the sum of the coefficients of the terms linear in the field. Outside of this class the text can be silently misread: a constant term is added to every bin, and in every product that contains a function together with a field or with another function, all fields and functions are dropped: the term is evaluated as its scalars times the symbol of the Laplacian, in every bin, and is taken as explicit. For example, in a model whose only field is f every Euler step of df/dt = g*f, g being any function, adds the time step to the value at the first node and leaves all other nodes alone.", "quantifier": "every well-named model, every list of polynomial equations, every linear invertible transform, all field values, bins and times", "why_tests_cant": "end-to-end statement about parser and evaluator for unbounded input", "anchors": ["pf/model.go: AddEquation, Init, GetRHS, GetDenum, UpdateDerivedFields", "pf/rhsBuilder.go: Build"]}
{"id": "C20", "title": "Registered derived fields are reachable under their own names", "statement": "After registering a term together with its derived fields, looking up each derived field's name yields that derived field. This holds when at most one derived field is registered at a time and fails whenever two or more with different data are registered together: every name then yields the last one.", "quantifier": "every list of derived fields", "why_tests_cant": "depends on loop variable sharing for arbitrary lists", "anchors": ["pf/model.go: registerDerivedFields, RegisterExplicitTerm, RegisterImplicitTerm, RegisterMixedTerm", "pf/noise.go: ConservativeNoise.RequiredDerivedFields"]}
{"id": "C21", "title": "Right-hand side assembly", "statement": "The explicit right-hand side of an equation is the pointwise sum of its terms and of the sources attached to it, followed by its modifiers applied in registration order; other equations' sources and modifiers do not influence it, and each denominator is the sum of its implicit terms.", "quantifier": "any number of equations, terms, sources and modifiers in any registration order", "why_tests_cant": "interleavings of registrations are unbounded", "anchors": ["pf/model.go: GetRHS, GetDenum, AddSource, RegisterRHSModifier"]}
{"id": "C22", "title": "Semi-implicit Euler step", "statement": "With exact transforms, one Euler step replaces each bin y of an equation by (y + dt*N)/(1 - dt*A), N and A being evaluated at the state before the step. This holds for one equation and for systems in which no equation's right-hand side reads the field of an earlier equation directly; it fails otherwise because fields are overwritten one after the other.", "quantifier": "every model in the modelled class, every state, every dt", "why_tests_cant": "depends on in-place update order for arbitrary coupled systems", "anchors": ["pf/euler.go: Step, Propagate"]}
{"id": "C23", "title": "Conserved mean", "statement": "If every explicit term and every implicit coefficient of an equation vanishes at the zero frequency, then the sum of that field over all nodes is unchanged by any number of Euler steps with any time step.", "quantifier": "every number of steps, dt, initial state and right-hand side vanishing at zero frequency", "why_tests_cant": "holds along entire trajectories", "anchors": ["pf/euler.go: Step", "pf/diffOp.go: LaplacianN"]}
{"id": "C24", "title": "Real fields stay real", "statement": "On all 2D and all cubic 3D domains: if the explicit right-hand side has conjugate symmetric spectra and the implicit coefficients are conjugate symmetric, a real field stays real after any number of Euler steps. On every 3D domain that, without sides of length one, differs from its cyclic shift there is such an equation, and a real field that one step makes complex.", "quantifier": "every 2D and 3D domain, number of steps, dt and real initial field", "why_tests_cant": "trajectory property over all states", "anchors": ["pf/euler.go: Step", "pfutil/fftWrap.go: ConjugateNode"]}
{"id": "C25", "title": "Implicit diffusion is unconditionally stable", "statement": "For an equation with only implicit terms whose coefficient is a non-negative multiple of an odd power of the Laplacian eigenvalue, every Fourier amplitude is non-increasing under Euler steps for every non-negative dt.", "quantifier": "every dt >= 0, every number of steps, every initial field", "why_tests_cant": "stability is a statement about all step sizes and all steps", "anchors": ["pf/euler.go: Step", "pf/diffOp.go: LaplacianN"]}
{"id": "C26", "title": "Simulated time", "statement": "After the solver has propagated n steps the reported time is n*dt and the k-th step evaluates its terms at time k*dt. True for the Euler, implicit Euler and SDD steppers; false for RK4 driven by the solver, whose reported time stays at its initial value for ever.", "quantifier": "every n and dt", "why_tests_cant": "quantified over the number of steps", "anchors": ["pf/euler.go: Step, GetTime", "pf/rk4.go: Step, Propagate, GetTime", "pf/implicitEuler.go: Step", "pf/sdd.go: Step", "pf/solver.go: Propagate"]}
{"id": "C27", "title": "RK4 step on explicit equations", "statement": "For equations without implicit terms the RK4 stepper advances the spectrum exactly as the classical fourth order Runge-Kutta method with the time argument frozen at the beginning of the step; for linear right-hand sides every bin is multiplied by 1+z+z^2/2+z^3/6+z^4/24. A right-hand side that depends on time only is integrated like in the explicit Euler method.", "quantifier": "every right-hand side, state and dt", "why_tests_cant": "in-place stage arithmetic for arbitrary right-hand sides", "anchors": ["pf/rk4.go: Step, correction"]}
{"id": "C28", "title": "Solver schedule", "statement": "Solve(nepochs, nsteps) performs exactly nepochs*nsteps steps; after every nsteps steps each callback is invoked once, in registration order, with epoch numbers StartEpoch, StartEpoch+1, ..., and each monitor is evaluated once; nothing else is invoked.", "quantifier": "every nepochs, nsteps, StartEpoch, list of callbacks and monitors", "why_tests_cant": "complete event traces of unbounded length", "anchors": ["pf/solver.go: Solve, Propagate, AddCallback, AddMonitor"]}
{"id": "C29", "title": "Step-finished notifications", "statement": "After every single step each registered user term is notified exactly once with the time at the end of that step.", "quantifier": "every number of steps and registered terms", "why_tests_cant": "trace property", "anchors": ["pf/solver.go: Propagate", "pf/model.go: Model.RegisterImplicitTerm, Model.RegisterExplicitTerm, Model.RegisterMixedTerm"]}
{"id": "C30", "title": "Householder projection of the dimer torque", "statement": "With a unit orientation vector the projection (factor 1) produces a vector orthogonal to the orientation, and the reflection (factor 2) is an involution that preserves the norm and reverses the orientation.", "quantifier": "all vectors of all lengths", "why_tests_cant": "linear algebra identity in arbitrary dimension", "anchors": ["pf/sdd.go: householder"]}
{"id": "C31", "title": "Rank-one corrected inverse", "statement": "The Sherman-Morrison product returns the solution x of (D + u v^T) x = b whenever D is invertible and the correction's denominator is non-zero; with the SDD set-up this is the solution of (I - dt (I - sigma o o^T/N) A) x = b.", "quantifier": "all lengths, vectors and diagonals", "why_tests_cant": "identity in arbitrary dimension", "anchors": ["pf/sdd.go: diagonalShermannMorrison.dot, householderDenum"]}
{"id": "C32", "title": "Dimer length schedule", "statement": "The dimer length never increases with time, never falls below the minimum, starts at the initial length, and the time at which a given length is reached is the one reported.", "quantifier": "all positive parameters and times", "why_tests_cant": "analysis over the reals", "anchors": ["pf/sdd.go: DimerLength, RequiredDimerLengthTime"]}
{"id": "C33", "title": "Dimer shifts cancel", "statement": "Shifting the fields by -l/2, +l and -l/2 along the orientation restores them. After Init with two real configurations the dimer of initial length around their middle starts at the first and ends at the second one.", "quantifier": "all fields, orientations and lengths", "why_tests_cant": "universally quantified", "anchors": ["pf/sdd.go: ShiftFieldsAlongDimer, Step"]}
{"id": "C34", "title": "Weighted dimer force for several fields", "statement": "For a single field the step moves the field by the weighted sum of the forces at the two dimer ends, reflected along the dimer. For a model with several fields every field is moved by the weighted force of the first field, so a force on a later field is ignored.", "quantifier": "every number of fields and nodes", "why_tests_cant": "index arithmetic for all sizes", "anchors": ["pf/sdd.go: Step"]}
{"id": "C35", "title": "Database load returns the last saved values", "statement": "After any history of saves by any number of simulations, loading (simulation, time step) returns for every field name saved there the real parts written by the most recent save of that name, in node order, with names sorted; saves of other simulations or other time steps do not matter.", "quantifier": "every interleaving of saves, simulations, time steps and field sets, on domains with at least two nodes", "why_tests_cant": "unbounded histories", "anchors": ["pf/database.go: SaveFields, insertRealPart, Load, LoadLast"]}
{"id": "C36", "title": "Crash during a save", "statement": "If the process dies at any point of a save, each field of that time step is either completely stored or not stored at all and all earlier data are unchanged; the set of stored fields is a prefix of the fields being saved.", "quantifier": "every crash point and every history, on domains with at least two nodes", "why_tests_cant": "all crash points", "anchors": ["pf/database.go: SaveFields, insertRealPart"]}
{"id": "C37", "title": "Position ids of stored nodes", "statement": "Joining stored field values with the position table on position id should give each node its own position. The ids written are shifted by one: node i is joined with the position of node i-1 and node 0 with none; enumerating the position table in id order gives the right positions.", "quantifier": "every domain with at least two nodes and every node", "why_tests_cant": "all domain sizes", "anchors": ["pf/database.go: populatePositionsTable, insertRealPart", "cmd/export.go: exportFieldData"]}
{"id": "C38", "title": "Position table is filled once", "statement": "For a domain with at least two nodes, after any number of saves the position table holds each node exactly once; for a one node domain it holds two entries after two saves.", "quantifier": "every number of saves and every domain", "why_tests_cant": "histories", "anchors": ["pf/database.go: populatePositionsTable, positionTableIsPopulated, domainSizeOk"]}
{"id": "C39", "title": "Raw binary files round trip", "statement": "Reading a raw file written from a list of 64-bit floats returns the identical bit patterns in the same order, for any length; the file size is eight bytes per value.", "quantifier": "every list of 64-bit words", "why_tests_cant": "unbounded data", "anchors": ["pf/fileIO.go: SaveFloat64, LoadFloat64, Float64IO"]}
{"id": "C40", "title": "CSV files round trip to six decimals", "statement": "Saving fields to CSV and loading them returns the same names in order, the same number of nodes and values within 5e-7 of the real parts; node positions listed in the file are the positions of the nodes.", "quantifier": "all names, data and domains", "why_tests_cant": "all data and sizes", "anchors": ["pf/fileIO.go: SaveCsv, LoadCSV"]}
{"id": "C41", "title": "Grey-scale export", "statement": "With min and max of the data, every exported byte lies in 0..255 and the map is monotone. If min and max differ by at least 1e-10, the minimum maps to 0, the maximum to 255 and every byte is within one grey level of the linear map; otherwise all bytes are 0.", "quantifier": "all non-empty real data", "why_tests_cant": "all data", "anchors": ["pf/util.go: RealPartAsUint8", "pf/fileIO.go: Uint8IO", "pfutil/sliceOperations.go: MinReal, MaxReal"]}
{"id": "C42", "title": "Output files are distinct and referenced", "statement": "With one prefix different (field, epoch) pairs are written to different files, and the meta file created for n epochs references exactly the files written by a fresh run of n epochs, with each attribute pointing to its own field and epoch and carrying the sides of the domain in order. It can be created for two and three dimensions only. (Different prefixes do not keep files apart.)", "quantifier": "all prefixes, field names (including ones with underscores and digits) and epoch counts", "why_tests_cant": "injectivity over all strings and numbers", "anchors": ["pf/fileIO.go: Float64IO", "pf/xdmf.go: WriteXDMF"]}
{"id": "C43", "title": "One representative per conjugate frequency pair", "statement": "Iterating over unique frequencies visits, in increasing order, at least one of each node and its conjugate, and both only if they are the same node; then it returns -1 for ever.", "quantifier": "every 2D/3D domain with sides below 10^9", "why_tests_cant": "all sizes and parities", "anchors": ["pf/util.go: UniqueFreqIterator, includeFreq", "pfutil/fftWrap.go: Freq, ConjugateNode"]}
{"id": "C44", "title": "Real amplitude nodes", "statement": "Iterating over real-amplitude frequencies visits exactly the nodes that are their own conjugate, in increasing order; there are 2^(number of even sides) of them.", "quantifier": "every 2D/3D domain with sides below 10^9", "why_tests_cant": "all sizes and parities", "anchors": ["pf/util.go: RealAmplitudeIterator"]}
{"id": "C45", "title": "Bound transform", "statement": "The transformed value always lies strictly between the bounds, is strictly increasing, and the two directions are inverse to each other.", "quantifier": "all bounds min < max, all reals", "why_tests_cant": "real analysis", "anchors": ["pf/boundTransform.go: BoundTransform.Forward, BoundTransform.Backward"]}
{"id": "C46", "title": "Negative value penalty is a derivative", "statement": "The penalty function is the derivative of prefactor*(|x|^n - x^n) for every odd exponent n >= 3 at every x; for even exponents it is not for any negative x with non-zero prefactor.", "quantifier": "all x, all exponents", "why_tests_cant": "real analysis over all arguments", "anchors": ["pf/negative_value_penalty.go: Penalty"]}
{"id": "C47", "title": "Anisotropic Hessian term", "statement": "The coefficient of the tensorial Hessian term is -4*pi^2 k^T K k for every symmetric tensor, equals the scaled Laplacian eigenvalue for a multiple of the identity, and in general only depends on the diagonal and upper triangle.", "quantifier": "all tensors and wave vectors in 2 and 3 dimensions", "why_tests_cant": "polynomial identity", "anchors": ["pf/tensorialHessian.go: GetCoeff, Construct"]}
{"id": "C48", "title": "Flux terms conserve", "statement": "Conservative noise, charge transport, divergence-gradient and pair correlation terms with a Laplacian contribute zero to the zero-frequency bin whatever the fields are, so they cannot change the mean of a field. The weighted Laplacian is not of this kind: it leaves the mean unchanged for all weights only if the field has no non-zero frequency.", "quantifier": "all field contents, parameters and domain sizes", "why_tests_cant": "all data", "anchors": ["pf/noise.go", "pf/chargeTransport.go", "pf/gradientCalculator.go: DivGrad.Construct, WeightedLaplacian.Construct", "pf/diffOp.go"]}
{"id": "C49", "title": "Conductivity component order", "statement": "The documented order of the 3D conductivity components is xx, yy, zz, xz, yz, xy. The code reads position 3 as yz and position 4 as xz, so it agrees with the documentation exactly if those two components are equal.", "quantifier": "all tensors", "why_tests_cant": "all tensors", "anchors": ["pf/chargeTransport.go: voigtIndex, ChargeTransport.current"]}
{"id": "C50", "title": "Spectral viscosity interpolation", "statement": "The spectral viscosity should grow monotonically from 0 at the dissipation threshold to its full value at the peak. The interpolation polynomial has value -1 at the peak and is negative on the last third of the interval.", "quantifier": "all wave numbers and thresholds", "why_tests_cant": "real analysis", "anchors": ["pf/spectralViscosity.go: interpolant"]}
{"id": "C51", "title": "Rank-4 tensor storage", "statement": "The flat index of (i,j,k,l) is a bijection between 4-tuples of indices below 3 and 0..80, so At returns exactly what the last Set wrote.", "quantifier": "all index tuples and write histories", "why_tests_cant": "all histories", "anchors": ["elasticity/rank4.go: index, At, Set"]}
{"id": "C52", "title": "Tensor rotation is a group action", "statement": "Rotating by the identity does nothing, rotating by R1 and then R2 equals rotating by R2*R1, minor and major symmetries survive rotation, and the energy density is invariant when tensor and strain are rotated by the same orthogonal matrix.", "quantifier": "all tensors, strains and matrices", "why_tests_cant": "polynomial identities in 81+ variables", "anchors": ["elasticity/linearElasticity.go: EnergyDensity"]}
{"id": "C53", "title": "Isotropic tensors are isotropic", "statement": "The isotropic tensor is unchanged by every orthogonal matrix, has all minor and major symmetries, and its energy density is lambda/2 tr(e)^2 + mu e:e.", "quantifier": "all moduli, all orthogonal matrices, all symmetric strains", "why_tests_cant": "all rotations", "anchors": ["elasticity/rank4.go: Isotropic, Shear"]}
{"id": "C54", "title": "Voigt conversion", "statement": "The tensor built from a 6x6 Voigt matrix always has the minor symmetries, has the major symmetry exactly if the matrix is symmetric, and its contraction with a symmetric strain equals the matrix times the engineering strain.", "quantifier": "all 36 entries, all strains", "why_tests_cant": "all data", "anchors": ["elasticity/rank4.go: FromFlatVoigt, ContractLast"]}
{"id": "C55", "title": "Cubic material", "statement": "A cubic elastic tensor should have the minor symmetries and agree with the Voigt matrix of C11, C12, C44. The tensor built by the code does so exactly if C44 = 0.", "quantifier": "all moduli", "why_tests_cant": "all moduli", "anchors": ["elasticity/rank4.go: CubicMaterial"]}
{"id": "C56", "title": "Rotation matrices", "statement": "The rotation matrix of each axis is orthogonal with determinant one, leaves its axis in place, angles add under multiplication and angle zero is the identity; any other axis number gives the zero matrix. The sense of rotation differs between the axes: the rotation about y is opposite to those about x and z.", "quantifier": "all angles", "why_tests_cant": "real analysis", "anchors": ["elasticity/rank4.go: RotationMatrix"]}
{"id": "C57", "title": "Mechanical equilibrium is solvable", "statement": "For an isotropic material with positive shear modulus and positive P-wave modulus the linear system for the displacements is symmetric positive definite for every non-zero wave vector, so the displacement is unique.", "quantifier": "all moduli and wave vectors", "why_tests_cant": "positive definiteness for all vectors", "anchors": ["elasticity/linearElasticity.go: Displacements, DisplacementMatrixElement"]}
{"id": "C58", "title": "Miller families", "statement": "The list of equivalent Miller indices has no duplicates and contains exactly the triples obtained by permuting and changing signs.", "quantifier": "all integer triples", "why_tests_cant": "all triples; in-place removal algorithm", "anchors": ["pfc/miller.go: EquivalentMiller"]}
{"id": "C59", "title": "Multiplicity formulas", "statement": "The 3D multiplicity equals the number of equivalent Miller indices exactly unless |H| = |L| differs from |K|, in which case it is twice that number; the 2D multiplicity is the number of signed permutations of (H,K).", "quantifier": "all integer indices", "why_tests_cant": "all indices", "anchors": ["pfc/miller.go: NumEquivalent3D, NumEquivalent2D"]}
{"id": "C60", "title": "Reciprocal lattice", "statement": "Real and reciprocal cell vectors satisfy a_i . b_j = 2 pi delta_ij, and reciprocal of reciprocal is the original cell.", "quantifier": "every invertible cell", "why_tests_cant": "matrix algebra", "anchors": ["pfc/lattice.go: Reciprocal"]}
{"id": "C61", "title": "Strain response of the reciprocal cell", "statement": "The reported change of the reciprocal cell is its first order change exactly if the change of the real cell is a symmetric matrix; for any other change the right answer is obtained by passing the transpose.", "quantifier": "all cells and changes", "why_tests_cant": "matrix algebra", "anchors": ["pfc/lattice.go: ReciprocalCell.CellChange, ChangeHKLVector"]}
{"id": "C62", "title": "Ideal mixing energy", "statement": "The derivative method is the derivative of the energy method for all coefficients. The term built from it equals prefactor times that derivative exactly if the prefactor is one or the non-linear part vanishes.", "quantifier": "all coefficients and densities", "why_tests_cant": "real analysis", "anchors": ["pfc/ideal.go: IdealMix.Eval, Deriv", "pf/pairCorrelationTerm.go: IdealMixtureTerm"]}
{"id": "C63", "title": "Octant exploration", "statement": "For a non-empty start vector the hyper octant explorer yields exactly the vectors obtained from it by sign changes, 2^n of them, without repetition if no component is zero, then nil. An empty start vector panics.", "quantifier": "every dimension", "why_tests_cant": "complete traces in unbounded dimension", "anchors": ["pfc/initialGuessExplorer.go: HyperOctantExplorer, SinglePointExplorer"]}
{"id": "C64", "title": "Mode expansion keys", "statement": "Exponent vectors of equal length have equal keys only if they are equal, so amplitudes of different monomials are never merged. Trailing zero exponents do not show in the key.", "quantifier": "all exponent vectors", "why_tests_cant": "all strings", "anchors": ["pfc/mode_solver.go: power2key, build"]}
{"id": "C65", "title": "Heat map orientation", "statement": "The contour plot should show in column c and row r the value stored for position (c, r). For a file exported from a two-dimensional simulation it does so for all data exactly if the domain is one node thick; for square domains the picture is transposed. The look-up table built on construction is right but not used.", "quantifier": "all grid sizes, data and positions", "why_tests_cant": "all sizes; the test files list the rows in the other order", "anchors": ["cmd/contour.go: NewHeatMapData, HeatMapData.Z, index"]}
{"id": "C66", "title": "Wrapped comments", "statement": "Listing all comments should print each completely in lines of at most 96 characters. Comments shorter than a line are printed unchanged. Longer ones below 192 characters are complete if the last blank in reach leaves less than a line; if it leaves exactly a line the command panics, and if it leaves more the end is lost or the command panics. The command panics for every comment of exactly 96 characters and for every one starting with a word of more than 97 characters; a comment of 192 characters with a blank after the first 96 has its second half printed twice.", "quantifier": "all comment texts", "why_tests_cant": "all texts of all lengths", "anchors": ["cmd/comment.go: printAllComments", "cmd/util.go: closestWhiteSpace, CommentWidth"]}
{"id": "C67", "title": "Wrapped lists are lossless", "statement": "The pieces printed for a list of names concatenate to the comma separated list; no piece is longer than the column and all but the last are full. The tables of attributes together contain every attribute name in order with at most ten columns each; a multiple of ten names gives an additional empty table.", "quantifier": "all lists of names", "why_tests_cant": "all lengths", "anchors": ["cmd/info.go: printList, ValueWidth", "cmd/attr.go: listAttributes", "cmd/util.go: MaxCols"]}
{"id": "C68", "title": "Bounding boxes contain their shapes", "statement": "Every interior point of a ball (radius >= 0) or box (sides >= 0) lies strictly inside the reported bounding box, and that bounding box passes the validity check made before drawing.", "quantifier": "all radii, all side lengths, all points in one to three dimensions", "why_tests_cant": "truncation towards zero of arbitrary reals", "anchors": ["pfutil/shapes.go: Box, Ball, BBox, InteriorPoint, BoundingBox"]}
{"id": "C79", "title": "Stress balance of the elastic solution", "statement": "If the stiffness is symmetric in its last pair of indices, the displacements computed from the effective force of a misfit strain make the divergence of the stress C:(strain - misfit) vanish in every Fourier bin with a regular system and no component at the highest frequency. The cubic tensors built by the library lack this symmetry: for non-zero c11 the stress is balanced for all misfit strains and bins exactly if c44 = 0.", "quantifier": "all stiffness tensors, misfits, indicator values and wave vectors", "why_tests_cant": "a statement for all tensors and wave vectors; tests compare single numbers", "anchors": ["elasticity/linearElasticity.go: Displacements, Strain, DisplacementMatrixElement", "elasticity/effectiveForce.go: EffectiveForce.Get, NewEffectiveForceFromMisfit"]}
{"id": "C80", "title": "First order perturbation force", "statement": "The force of the first order perturbation should be -dC_ijkl i k_j FT(...)_kl. The computed force uses the wave vector component of the force direction instead of k_j, so it is the documented one for all strains and wave vectors exactly if all elements dC_ijkl with i != j vanish; it is wrong for every isotropic difference with non-zero shear modulus.", "quantifier": "all stiffness differences, wave vectors and strains", "why_tests_cant": "a statement for all tensors and wave vectors", "anchors": ["elasticity/perturbation.go: PerturbedForce"]}
{"id": "C81", "title": "Mode energies are cell averages", "statement": "The polynomial in the mode amplitudes that is minimised represents, for all amplitudes, the average over the unit cell (by the quadrature rule) of the cubic and quartic part of the ideal mixing energy of the density the amplitudes describe. Dropping coefficients below 1e-4 of the largest changes it by at most that fraction of the largest coefficient times the sum of the monomials. Every term built for a power of the density is a product of that many amplitudes, and no product occurs twice.", "quantifier": "all mode lists, coefficients, amplitudes and quadrature rules", "why_tests_cant": "a polynomial identity with unboundedly many modes and monomials", "anchors": ["pfc/mode_solver.go: ModeSolver.build, UnitcellIntegral, mergeTerms, Solve"]}
{"id": "C82", "title": "Derivatives handed to the minimiser", "statement": "Gradient and Hessian given to the minimiser are the first and second partial derivatives of the mode energy.", "quantifier": "all polynomials in any number of amplitudes, all amplitudes", "why_tests_cant": "real analysis for arbitrary polynomials", "anchors": ["pfc/mode_solver.go: ModeSolver.Solve"]}
{"id": "C83", "title": "Derivative of the elastic fit", "statement": "The gradient used when amplitudes are fitted to elastic properties is the gradient of the cost function. The fit panics if there are fewer than two modes. The width reported for a peak is not negative, and half the number of equivalent indices times the square of mode amplitude over width is the square of the fitted amplitude; other numbers of dimensions than two and three panic.", "quantifier": "all targets, weights, penalties and amplitudes", "why_tests_cant": "real analysis", "anchors": ["pfc/mode_solver.go: ModeSolver.MatchElasticProp"]}
{"id": "C84", "title": "Elastic weights of a mode", "statement": "Bulk and shear weight are the Voigt averages of the stiffness m_t Q_su m_v of the mode, the bulk (area) weight is a ninth (quarter) of the squared length of its reciprocal lattice vector, and both are non-negative. On a cubic cell the bulk weight does not depend on which equivalent Miller index is given; the shear weight does.", "quantifier": "all Miller indices and cells", "why_tests_cant": "algebraic identities for all cells", "anchors": ["pfc/mode_solver.go: BulkModWeight, ShearModWeight, AreaModulusWeight, XYPlaneShearWeight"]}
{"id": "C88", "title": "Predefined cells span the lattices they are named after", "statement": "The columns of the FCC and BCC cells span exactly the points of these lattices with cube side a, and the reported volumes are a^3/4, a^3/2, a^3, a^2. The cell called triangular spans a square lattice.", "quantifier": "all lattice parameters, all points", "why_tests_cant": "infinite point sets", "anchors": ["pfc/lattice.go: FCC, BCC, SC3D, SC2D, Triangular2D, Cell.Volume"]}
{"id": "C89", "title": "Plane density", "statement": "The density of lattice points in the planes of the simple cubic lattice should be 1/|hkl|. It is, for non-negative coprime indices with smallest index 0 or 1, exactly if no index exceeds one; for other smallest indices the function panics.", "quantifier": "all Miller indices", "why_tests_cant": "all indices", "anchors": ["pfc/lattice.go: CubicUnitCellDensity"]}
{"id": "C90", "title": "Mode densities have the symmetry of the lattice", "statement": "The density of a mode does not depend on the chosen equivalent Miller index, is periodic with the cell, has the full cubic symmetry and is largest at the atom. In two dimensions modes without a zero index have no density.", "quantifier": "all Miller indices and positions", "why_tests_cant": "real functions on all positions", "anchors": ["pfc/mode_solver.go: ModeSolver.ModeDensity", "pfc/miller.go: EquivalentMiller"]}
{"id": "C91", "title": "Best local minimum is reported", "statement": "The amplitudes reported after exploring all start vectors have an energy no larger than any local minimum found and no larger than that of zero amplitudes, and they are one of these.", "quantifier": "all start vectors and minimisers", "why_tests_cant": "every run of the minimiser", "anchors": ["pfc/mode_solver.go: ModeSolver.Solve"]}
{"id": "C72", "title": "Pair correlation term is the functional derivative of its energy", "statement": "For every real field and every direction, the derivative of the reported pair correlation energy equals the sum over the nodes of the direction times the term transformed back to real space. The explicit variant is the implicit coefficient times the field, and the Laplacian flag multiplies by -(2 pi |f|)^2.", "quantifier": "all correlation functions, prefactors, domain sizes, fields and directions", "why_tests_cant": "a derivative in unboundedly many variables", "anchors": ["pf/pairCorrelationTerm.go: PairCorrlationTerm.Construct, GetEnergy, ExplicitPairCorrelationTerm.Construct"]}
{"id": "C85", "title": "Reciprocal space pair correlation", "statement": "The correlation function is the maximum of its damped Gaussian peaks, lies in [0,1], is one at each peak at zero temperature, does not increase with temperature, and does not depend on the order of the peaks. The peaks of the square lattice lie at the lengths of the reciprocal vectors (1 0) and (1 1).", "quantifier": "all peak lists, temperatures and wave numbers", "why_tests_cant": "real functions", "anchors": ["pfc/pairCorrelation.go: ReciprocalSpacePairCorrelation.Eval, SquareLattice2D"]}
{"id": "C86", "title": "Two phase correlation function", "statement": "The result interpolates at every node between the two correlation functions in real space with the weight given by the indicator of the local concentration; in a pure phase the transformed result is that phase's correlation function. The caller's array is overwritten by the concentration in real space. Anything but two correlation functions is rejected.", "quantifier": "all domains, concentrations and correlation functions", "why_tests_cant": "all fields and sizes; in-place effects", "anchors": ["pfc/twoPhaseCorrFunc.go: TwoPhaseCorrFunc.Evaluate, EvaluateFT", "pfutil/fftWrap.go: FFTWWrapper.IFFT"]}
{"id": "C87", "title": "Indicator function", "statement": "The indicator is continuously differentiable with the reported derivative everywhere, takes values in [0,1], does not decrease, is 0 below 0 and 1 above 1, and treats both phases alike.", "quantifier": "all real arguments", "why_tests_cant": "real analysis", "anchors": ["pfc/twoPhaseCorrFunc.go: Indicator, IndicatorDeriv"]}
{"id": "C92", "title": "Peak of the triangular lattice", "statement": "The peak for the triangular lattice should lie at the length of a reciprocal lattice vector. It is no such length, neither for the triangular lattice with that lattice parameter nor for the cell the library calls triangular. Its height is exp(-(T k)^2/12) at its location k.", "quantifier": "all lattice parameters and Miller indices", "why_tests_cant": "all indices", "anchors": ["pfc/pairCorrelation.go: TriangularLattice2D", "pfc/lattice.go: Triangular2D"]}
{"id": "C93", "title": "Line plots", "statement": "A line plot shows exactly one point per node of the selected line, the coordinate along the line and the value there, in whatever order the file lists the nodes. The tool accepts exactly the selections that fix two of the three coordinates.", "quantifier": "all domain sizes, data, orders of the file and lines parallel to an axis", "why_tests_cant": "all sizes and permutations", "anchors": ["cmd/lineplot.go: numSet, includeRow, absissaIndex, lineData"]}
{"id": "C94", "title": "Export of time series", "statement": "The exported file has one column per recorded key and one line per time step up to the last recorded one. The entry is the value recorded last for that key and step; a value recorded by a single call is exported whatever else is recorded. Values not recorded appear as zero, so the file does not tell them from recorded zeros, and there is no column with the time step.", "quantifier": "all sequences of recorded data, simulations and time steps", "why_tests_cant": "all histories of calls", "anchors": ["cmd/export.go: exportTimeseries", "pf/database.go: FieldDB.TimeSeries"]}
{"id": "C95", "title": "Export of all time steps", "statement": "Exporting all steps of a simulation writes exactly one file per saved time step, all with different names, and the file of a step holds the export of that step.", "quantifier": "all databases, simulations and file names", "why_tests_cant": "all contents of the database", "anchors": ["cmd/export.go: allTimeSteps, exportFieldData, exportCmd"]}
{"id": "C96", "title": "List of comments", "statement": "Each listed simulation should be shown with its own comment. This holds if every listed simulation has one; in general the comment shown is that of the last simulation up to it which has one, so a simulation without a comment is shown with the comment of another simulation.", "quantifier": "all databases and listed simulations", "why_tests_cant": "all sequences of simulations", "anchors": ["cmd/list.go: showComments"]}
{"id": "C69", "title": "Point sources act at their node", "statement": "On 2D domains and cubic 3D domains the spectrum of a source placed at the position of a node is, at every time, the Fourier transform of the field that has the source strength at that node and is zero at all others.", "quantifier": "every domain size, node, strength function and time", "why_tests_cant": "all nodes of all domains", "anchors": ["pf/sourceTerm.go: Source.Eval, NewSource"]}
{"id": "C70", "title": "The gradient calculator differentiates plane waves exactly", "statement": "The gradient calculator is linear, and on the plane wave of any bin it returns 2*pi*i times the frequency component times the wave at every node; a component at the Nyquist frequency gives zero unless KeepNyquist is set.", "quantifier": "every 2D or cubic 3D domain with sides up to 10^9, every component and bin, all data", "why_tests_cant": "all domain sizes and all fields", "anchors": ["pf/gradientCalculator.go: GradientCalculator.Calculate", "pfutil/fftWrap.go: Freq"]}
{"id": "C71", "title": "Gradients of real fields", "statement": "With the Nyquist frequency dropped the gradient of a real field is real; with it kept the gradient of a Nyquist wave is imaginary (i*pi times the wave). In both cases every component of the gradient sums to zero over the nodes.", "quantifier": "all real fields on 2D and cubic 3D domains with sides up to 10^9", "why_tests_cant": "all real fields", "anchors": ["pf/gradientCalculator.go: GradientCalculator.Calculate"]}
{"id": "C73", "title": "Div F Grad u", "statement": "The divergence-gradient term is the transform of sum_d d_d(F d_d u), with the inner derivative dropping the Nyquist frequency and the outer one keeping it. For constant F it is F times the Laplacian in every bin without Nyquist component. For real F and u it changes half the sum of u^2 at the rate -sum F |grad u|^2, so a non-negative F dissipates. It does not keep real fields real: on every 2D or cubic 3D domain with an even side longer than two there are real u and real non-negative F for which the result is not the transform of a real field.", "quantifier": "all fields and weights on all domains with sides up to 10^9 (dissipation and real fields: 2D and cubic 3D domains)", "why_tests_cant": "all fields", "anchors": ["pf/gradientCalculator.go: DivGrad.PrepareModel, DivGrad.Construct"]}
{"id": "C74", "title": "Advection", "statement": "The advection term is the transform of -v.grad u. For a constant velocity it multiplies every bin by -2*pi*i v.f (Nyquist components dropped). Real velocities and fields give the transform of a real field. The total of u changes at the rate sum u div v, so divergence free velocities conserve it.", "quantifier": "all fields and velocities on all domains with sides up to 10^9 (total and real fields: 2D and cubic 3D domains)", "why_tests_cant": "all fields and velocities", "anchors": ["pf/advection.go: Advection.PrepareModel, Advection.Construct"]}
{"id": "C78", "title": "Charge relaxation and Ohm's law", "statement": "In a homogeneous isotropic conductor with conductivity s the charge transport term multiplies every bin of the charge density by -s*theta with 0 <= theta < 1, theta = 2 pi k'^2/(2 pi k^2 + 1e-16) where k' is k without Nyquist components, whatever the external field is. For a uniform charge density the reported current is the conductivity tensor applied to the external field at every node, for arbitrary heterogeneous conductivity.", "quantifier": "all densities, conductivities, external fields and domains", "why_tests_cant": "all densities", "anchors": ["pf/chargeTransport.go: ChargeTransport.Construct, ChargeTransport.Current"]}
{"id": "C97", "title": "A time step advances the equations as written", "statement": "After the equations are given as text, one Euler step changes the spectrum of each field so that the change times (1 - dt A) is dt times the transform of the right-hand side its equation spells, at the values before the step (A the sum of the linear coefficients). This needs the equations to be added in the order of the fields: equation number i always advances field number i, whatever field is named on its left-hand side.", "quantifier": "every polynomial model, all grid sizes, field values, time steps and bins", "why_tests_cant": "end-to-end statement over all equations and states; tests add equations in field order", "anchors": ["pf/model.go: AddEquation, Init, GetRHS, GetDenum, SyncDerivedFields", "pf/rhsBuilder.go: Build", "pf/euler.go: Step"]}
{"id": "C75", "title": "The Vandeven filter", "statement": "The filter is 1 at zero frequency, never increases with the frequency, is symmetric about the middle of its range and constant beyond its cutoff; order one is the linear ramp. Its table differs from Vandeven's integral by at most (2p-1)!/((p-1)!)^2 p(p-1)/(12*999^2) at the nodes. Applied to a field it leaves the mean alone. It should remove the highest frequencies of the grid, but in two dimensions every amplitude keeps at least the fraction (1+c)/2, where c is the value of the filter at its cutoff, because the highest frequency is mapped below the middle of the filter.", "quantifier": "every order, every argument; every 2D domain, field and bin", "why_tests_cant": "all real arguments, all orders and domains", "anchors": ["pf/vandeven.go: NewVandeven, Vandeven.Eval", "pf/util.go: ApplyModalFilter"]}
{"id": "C76", "title": "The implicit stepper is an exact integrator with interpolated right-hand side", "statement": "If the non-linear solver finds a zero of the function it is given, then after the step every Fourier amplitude is the exact solution over one time step of y' = A y + N, where A is the linear coefficient after the step and N goes linearly from the explicit right-hand side before to that after the step, up to a defect |A| dt^2 (|N0|+|N1|) for linear coefficients with 0 < |A| < 1e-5. Fields remain real; linear models are solved exactly for any time step. Conversely such a state is a zero of the function. The scheme is not the backward Euler scheme described in the documentation.", "quantifier": "every real model, 2D and cubic 3D domains, all states, time steps up to 1e5, any solver that returns a zero", "why_tests_cant": "all models and states", "anchors": ["pf/implicitEuler.go: ImplicitEuler.Step, updateEquation, nonlinearIntegral, fields2vec, vec2fields"]}
{"id": "C77", "title": "Check of implicit terms", "statement": "Initialising a model should reject every registered implicit term whose value depends on a field, and accept all others. Terms independent of the bricks are accepted. A term affine in the bricks is accepted exactly if its coefficients at the frequency (0.4,0.4) add up to at most 5e-10. So the difference of two fields, or a term that vanishes at that frequency, is accepted although it depends on fields, and a coefficient read from a scalar of the model is rejected although it never changes.", "quantifier": "all affine terms, all values of the bricks", "why_tests_cant": "all terms and all states; the check samples one perturbation", "anchors": ["pf/userDefinedTerm.go: isImplicit, perturbedBrick", "pf/model.go: Init", "pfutil/sliceOperations.go: CmplxEqualApprox"]}
{"id": "C98", "title": "Reserved names", "statement": "Names of fields, scalars, functions and terms are rejected exactly if they begin with '-', '*' or 'LAP', although the message reserves these words anywhere. A name with LAP inside is accepted, and every parsed term containing it is evaluated with a Laplacian.", "quantifier": "all names and all terms", "why_tests_cant": "all names", "anchors": ["pf/model.go: panicOnPrefixInName, NewScalar, NewField, RegisterFunction", "pf/rhsBuilder.go: getKnownPrefixes, ConcreteTerm"]}
{"id": "C99", "title": "Equation numbers", "statement": "The number returned for a field name is that of the first equation in which d<name>/dt is found, wherever in the text it stands; it panics if there is none. It is a position in the list of equations; sources and modifiers registered under it act on the field at that position, which is another field if the equations were added in another order than the fields.", "quantifier": "all lists of equations and names", "why_tests_cant": "all lists of equations", "anchors": ["pf/model.go: EqNumber, AddSource, RegisterRHSModifier"]}
{"id": "C100", "title": "Volume conserving multiplier", "statement": "With the volume conserving term in an equation whose implicit terms leave the mean alone, the total of the field changes freely during the first two steps, afterwards by dt (c_k - c_(k-1) I_k/I_(k-1)) per step, where c_k is the rate due to all other terms and I_k the total of the indicator. With constant indicator total the deviation from the start is dt (c_0 + c_(n-1)) after n steps: it does not accumulate. With constant drift the total is constant from the second step on; what was lost before is not recovered. Entered with a minus sign the change doubles every step.", "quantifier": "all models, states, time steps and numbers of steps", "why_tests_cant": "all drifts and numbers of steps", "anchors": ["pf/volumeConserving.go: VolumeConservingLP.Construct, VolumeConservingLP.OnStepFinished, NewVolumeConservingLP", "pf/solver.go: Propagate"]}
{"id": "C101", "title": "Registered terms in equations", "statement": "A registered term written in an equation with any sequence of signs and LAP, LAP^2, LAP^4 in front is added to the explicit part, the implicit part or (mixed terms) both, multiplied by the meaning of the operators. A name registered twice in different ways is taken as implicit first, then explicit, then mixed. Other powers of LAP are not understood in front of registered terms.", "quantifier": "all models, accepted names, sequences of operators, terms and states", "why_tests_cant": "all sequences of operators", "anchors": ["pf/model.go: RegisterImplicitTerm, RegisterExplicitTerm, RegisterMixedTerm", "pf/rhsBuilder.go: Build, getKnownPrefixes, removeKnownPrefixes, constructFunc"]}
{"id": "C102", "title": "Squared gradient term", "statement": "The squared gradient term is the transform of factor*|grad u|^2 formed node by node, real for real fields, with non-negative factor non-negative at every node; its zero bin is factor times the sum of |2 pi f|^2 |u(f)|^2 / N without Nyquist components, so it vanishes only for fields without gradient.", "quantifier": "all fields, factors and 2D or cubic 3D domains with sides up to 10^9", "why_tests_cant": "all fields and domains; products in real space are transformed back", "anchors": ["pf/squareGradientTerm.go: SquaredGradient.Construct"]}
{"id": "C103", "title": "The elastic term is the driving force of the elastic energy", "statement": "For every stable material (symmetric stiffness, positive energy of every strain; every isotropic material with positive bulk modulus and Poisson ratio between -1 and 1/2 is one), the term of the homogeneous modulus elasticity model is minus the derivative, with respect to the field, of the elastic energy: the least value over all periodic displacement fields of the energy of the strain minus misfit strain times H(field). On domains with odd sides this holds at every field; with even sides it holds at every field for which H(field) has no content at the highest frequency of an axis. The term uses the real part of the field after the last time step; during the first step it is zero whatever the field is. In two dimensions the misfit must cause no out-of-plane shear stress.", "quantifier": "all fields (with even sides: whose indicator has no content at the highest frequencies), directions, misfit strains, stable materials and 2D or cubic 3D domains with sides up to 10^9", "why_tests_cant": "a statement about a minimum over all displacement fields and a derivative in every direction", "anchors": ["pf/homoLinElast.go: HomogeneousModulusLinElast.Construct, Force, Freq, OnStepFinished, NewHomogeneousModolus, Indicator, IndicatorDeriv", "elasticity/linearElasticity.go: Displacements, Strain, EnergyDensity", "elasticity/effectiveForce.go: EffectiveForce.Get"]}
{"id": "C104", "title": "Elastic energy of a region", "statement": "For every region (0/1 indicator, not empty), symmetric misfit strain and stable material the elastic energy, the minimum over all displacement fields, exists and lies between zero and the energy of the misfit strain itself, and the returned energy times the volume of the region is never below it. It is equal to it if the sides are odd, or if the region has no content at the highest frequency of an even axis. That is the case exactly if along every line parallel to an axis with an even number of nodes as many nodes with even as with odd coordinate belong to the region, as for every region made of blocks of two nodes. Otherwise it can be larger: for stripes of four nodes on a 4 times 2 grid with a shear misfit it is 1.92 times the elastic energy.", "quantifier": "all regions, symmetric misfit strains, stable materials and 2D or cubic 3D domains with sides up to 10^9 (equality: odd sides, or no content at the highest frequencies)", "why_tests_cant": "a minimum over all displacement fields", "anchors": ["elasticity/linearElasticity.go: HomogeneousModulusEnergy, Displacements, Strain, EnergyDensity"]}
{"id": "C105", "title": "Rotation of grids and tilt grain boundaries", "statement": "A rotated two dimensional grid holds at each node the value of the node found by turning the offset from the centre by the angle, cutting decimals off and wrapping; no new values appear, angle zero changes nothing, quarter turns of square grids are exact and four of them restore the grid; other dimensions are refused. A tilt grain boundary is the grid rotated by half the angle in the rows before the middle and rotated by minus half the angle in the others.", "quantifier": "all plane grids, values and angles", "why_tests_cant": "all angles and grid sizes; only a few angles can be tried", "anchors": ["pfutil/grid.go: Grid.Rotate2D, Grid.Copy", "pfc/periodicFieldInit.go: TiltGB"]}
{"id": "C106", "title": "Building a crystal", "statement": "The unit cells drawn are exactly the cells of the lattice (shifted to the least scaled coordinate of the corners of the domain) whose origin lies in the domain with the distance V^(1/3)/2 to the far sides, each once; a domain of N0 x N1 square cells is filled completely. Every node reached by an atom holds the kernel of the distance to the atom drawn last among those that reach it (contributions are not added); all other nodes keep their value. With a kernel cutoff below one half the function never returns. The Gaussian kernel falls with the distance and is below 0.0112 beyond its cutoff; the circle kernel is one up to a distance of one beyond its cutoff and zero after that. For a left-handed cell (negative volume) the margin is not a number and the far sides are not checked: all cells in the range of scaled coordinates of the corners are drawn whose origin has no negative coordinate; with the two vectors of the square cell swapped these are the (max(N0,N1)+1)^2 cells from 0 to max(N0,N1) in both directions, also those that begin at or beyond the far sides.", "quantifier": "all regular cells (positive and negative volume), bases, kernels and grids", "why_tests_cant": "all lattices, kernels and domain sizes", "anchors": ["pfc/periodicFieldInit.go: BuildCrystal, CornersScaledCrd, isInsideBox, GaussianKernel, CircleKernel", "pfutil/iterators.go: Product.Next"]}
{"id": "C107", "title": "The default stepper converges to the solution of the equations", "statement": "If the fields u solve the equations on [0,T], the fields computed by the Euler stepper without filter, started from u(0), differ from u at every node and every step with n*dt <= T by at most C*dt, for all time steps below some bound. This holds for every model whose explicit right-hand sides and derived fields are Lipschitz on bounded sets and whose implicit part is constant, although later equations use new values of earlier fields, and in particular for every model made from texts of polynomial equations (one for each field, in the order of the fields) with natural powers: the solution is then that of the equations as they are written, with the Laplacian of the grid.", "quantifier": "all grids, models, polynomial equations (names that can be told apart, C17; registered functions Lipschitz on bounded sets), solutions, end times and small time steps", "why_tests_cant": "a limit in the time step, for all equations and all solutions", "anchors": ["pf/euler.go: Euler.Step, Euler.Propagate", "pf/model.go: Model.AddEquation, Model.Init, Model.GetRHS, Model.GetDenum, Model.SyncDerivedFields", "pf/rhsBuilder.go: Build"]}
{"id": "C108", "title": "Listing of simulation attributes", "statement": "After any sequence of calls that store numbers and texts for any simulations, the attribute listing for one positive simulation id, or for all simulations (negative id), has one line per simulation with attributes in each table, every attribute name in exactly one table with at most ten names each, and in each cell the text stored last under that name, otherwise the number stored last, otherwise nothing; the order in which maps are traversed does not matter. For id zero the numbers of all simulations but no texts of other simulations are shown. The list of unique names has every stored name once, sorted.", "quantifier": "all sequences of calls, names, values, simulation ids and map orders", "why_tests_cant": "sequences of any length and all traversal orders of maps", "anchors": ["pf/database.go: FieldDB.SetAttr, FieldDB.SetTextAttr", "cmd/attr.go: listAttributes, listUniqueAttributes, set2slice"]}
{"id": "C109", "title": "Listing of one attribute", "statement": "The listing of one attribute prints the stored numbers with their simulation ids in the order in which they were stored, and then one line for each stored text; the text itself is never printed, and the id in such a line is that of the most recent line whose value could be read as a number (0 if there is none), which need not be the simulation the text belongs to.", "quantifier": "all sequences of calls, names, values and simulation ids", "why_tests_cant": "sequences of any length; the wrong id depends on the lines before", "anchors": ["cmd/attr.go: listSingleAttribute", "pf/database.go: FieldDB.SetAttr, FieldDB.SetTextAttr"]}
{"id": "C110", "title": "Comments of a simulation", "statement": "After any sequence of comments made by simulations and calls of the comment tool, the tool shows for a simulation the text of its last comment with line breaks replaced by blanks, or the new text it was replaced with. A new text replaces all comments of that simulation and no others, if it has one; otherwise it is lost although success is reported.", "quantifier": "all sequences of comments and tool calls", "why_tests_cant": "sequences of any length", "anchors": ["pf/database.go: FieldDB.Comment", "cmd/comment.go: commentCmd"]}
{"id": "C111", "title": "The RK4 stepper converges, with the order its equations allow", "statement": "With a constant implicit part and without filter an RK4 step is the documented scheme (slopes from states divided by 1-c*A, result divided by 1-dt*A). If the fields u solve the equations on [0,T], the fields computed by the RK4 stepper from u(0) differ from u at every node and every step with n*dt <= T by at most C*dt for all small time steps, for every model that is Lipschitz on bounded sets. If nothing is treated implicitly and the right-hand sides are smooth and do not depend on time, the difference is at most C*dt^4. Both hold for models made from texts of polynomial equations (the second if no term is linear in the field of its own equation). The order is not better in the other cases: with implicit terms only, a step is a step of the Euler stepper, and with a source 2t the computed field is smaller than t^2 by exactly t*dt. Run by the solver, the stepper converges if the right-hand sides do not depend on time; with a source 2t the field then never changes at all.", "quantifier": "all grids, models, polynomial equations with natural powers (names that can be told apart, C17; registered functions Lipschitz on bounded sets, smooth for the fourth order), solutions, end times and small time steps", "why_tests_cant": "a limit in the time step, for all equations and all solutions; a test can only watch the error of one equation", "anchors": ["pf/rk4.go: RK4.Step, RK4.Propagate, RK4.correction", "pf/model.go: Model.GetRHS, Model.GetDenum, Model.SyncDerivedFields"]}
{"id": "C112", "title": "The solution the steppers converge to exists and is unique", "statement": "For every model that is Lipschitz on bounded sets with a constant implicit part: two solutions with the same initial fields are equal; from any initial fields there is a solution for some time; a solution exists up to time T if and only if the fields computed by the Euler stepper (or by the RK4 stepper) with all small time steps stay below one bound up to time T; and the two steppers agree up to C*dt. For texts of polynomial equations this gives, for any initial fields, an end time, a unique solution of the equations as they are written, and convergence of both steppers to it. The boundedness is needed: for dc/dt=c^2 from c=1 the computed field exceeds every bound before time 1, for arbitrarily small time steps.", "quantifier": "all grids, models, polynomial equations with natural powers (names that can be told apart, C17; registered functions Lipschitz on bounded sets), initial fields and end times", "why_tests_cant": "a limit in the time step; existence of a function of continuous time", "anchors": ["pf/euler.go: Euler.Step, Euler.Propagate", "pf/rk4.go: RK4.Step, RK4.Propagate", "pf/model.go: Model.AddEquation, Model.Init, Model.GetRHS, Model.GetDenum"]}
{"id": "C113", "title": "Sessions with one solver: monitors, time and steppers", "statement": "In any sequence of calls on one solver (propagate, solve, add a monitor, choose a stepper, set a filter): the data of a point monitor of a field are the real parts of the field at its site at the ends of the epochs solved since it was added, one per epoch; solving panics exactly if there is at least one epoch and a monitor with an unknown name or a site outside the grid. The monitor of a derived field records instead Fourier coefficients of the derived field from before the last step. Solve(e,n) leaves fields and stepper as Propagate(e*n), and propagation can be split anywhere. Choosing a stepper resets its time to zero and drops the filter; the reported time is dt times the steps since then (zero for RK4). Choosing the Euler stepper again does not change the fields if the equations do not depend on time; with a source 2t it does (12 dt^2 becomes 4 dt^2).", "quantifier": "all models, sequences of calls, sites, names and step counts", "why_tests_cant": "sequences of calls of any length in any order", "anchors": ["pf/solver.go: NewSolver, Solver.Step, Solver.Propagate, Solver.Solve, Solver.SetStepper, Solver.AddMonitor", "pf/monitor.go: NewPointMonitor, PointMonitor.Add", "pf/euler.go: Euler.SetFilter, Euler.GetTime", "pf/rk4.go: RK4.SetFilter, RK4.GetTime"]}
{"id": "C114", "title": "The steppers respect the symmetries of the grid", "statement": "For equations whose terms use fields and derived fields at the same node, products, powers and Laplacians (in particular all texts of polynomial equations, with registered functions that work node by node): if the initial fields are translated (periodically), reflected along axes, or axes of equal length are exchanged, then after any sequence of calls on the solver - with either stepper, any filters and step counts - all fields are the translated, reflected or exchanged ones. With a source this is false on every grid with more than one node.", "quantifier": "all 2D and cubic 3D grids, symmetries, models, initial fields and sequences of calls (texts: names that can be told apart, C17)", "why_tests_cant": "all symmetries, fields and sequences of calls", "anchors": ["pf/euler.go: Euler.Step", "pf/rk4.go: RK4.Step", "pf/util.go: ApplyModalFilter", "pf/solver.go: Solver.Propagate, Solver.Solve, Solver.SetStepper", "pf/model.go: Model.AddEquation, Model.Init, Model.GetRHS, Model.GetDenum", "pf/sourceTerm.go: Source.Eval"]}
{"id": "C115", "title": "Symmetric fields stay symmetric; uniform fields follow the equations without Laplacians", "statement": "For the equations of C114, initial fields that are unchanged by a translation, reflection or exchange of axes stay so through any sequence of calls: uniform fields stay uniform and fields that do not depend on a coordinate never depend on it. An Euler step takes uniform fields v to v + dt*r/(1 - dt*a), where r is the right-hand side with the terms that have a Laplacian left out and a the coefficient of the terms without Laplacian that are linear in the field of the equation.", "quantifier": "all 2D and cubic 3D grids, symmetries, polynomial equations with names that can be told apart (C17), uniform fields and time steps", "why_tests_cant": "all symmetries, fields and sequences of calls", "anchors": ["pf/euler.go: Euler.Step", "pf/rk4.go: RK4.Step", "pf/model.go: Model.AddEquation, Model.Init, Model.GetRHS, Model.GetDenum"]}
{"id": "C116", "title": "Equations in divergence form conserve the sum of the field", "statement": "If every term of an equation, as it is written, has a Laplacian, then the sum of its field over the nodes is the same after any sequence of calls on the solver - with either stepper, any step counts and time steps, and any filters that are one at frequency zero - whatever the other equations are. One step of either stepper multiplies the sum by the value of the filter at frequency zero.", "quantifier": "all grids, texts of polynomial equations with names that can be told apart (C17), initial fields and sequences of calls", "why_tests_cant": "all fields and sequences of calls; exact conservation cannot be seen in floating point", "anchors": ["pf/euler.go: Euler.Step", "pf/rk4.go: RK4.Step", "pf/util.go: ApplyModalFilter", "pf/solver.go: Solver.Propagate, Solver.Solve, Solver.SetStepper", "pf/model.go: Model.AddEquation, Model.Init, Model.GetRHS, Model.GetDenum"]}
{"id": "C117", "title": "Real fields stay real through any session", "statement": "For texts of polynomial equations with real scalars (not negative where they have a fractional power), whole powers of the fields and registered functions that are real where the fields are: real initial fields are real after any sequence of calls on the solver, with either stepper and any filters. Whole powers are needed: with dconc/dt = conc^0.5 the field that is -1 everywhere becomes -1 + i*dt.", "quantifier": "all 2D and cubic 3D grids, texts of polynomial equations with names that can be told apart (C17), real initial fields and sequences of calls", "why_tests_cant": "all fields and sequences of calls; monitors, files and databases keep the real part only, so a loss would not be seen", "anchors": ["pf/euler.go: Euler.Step", "pf/rk4.go: RK4.Step", "pf/util.go: ApplyModalFilter", "pf/solver.go: Solver.Propagate, Solver.Solve, Solver.SetStepper", "pf/model.go: Model.AddEquation, Model.Init, Model.GetRHS, Model.GetDenum"]}
{"id": "C118", "title": "From saved fields to pictures", "statement": "Of a file written by SaveCsv the plotting commands read, for every node in order, its three coordinates and its value of the selected field with six decimals. The selected field is the first one if none is asked for or the name is unknown, else the first one of that name; a name X, Y or Z gives the coordinates instead of the field. The contour picture of a 2D file with N x M nodes has N x M pixels, each set once; the pixel in column c and row r has the colour of node r*N+c, and all values lie inside the colour bar, which reaches beyond the smallest and largest value by one twentieth of their distance. The line plot shows, whatever fields are asked for with -d, all fields in order, each with exactly one point per node of the line (its coordinate and the value there).", "quantifier": "all domains, fields, names and lines", "why_tests_cant": "all files; the pictures are not looked at by tests", "anchors": ["cmd/contour.go: readData, getColIndex, dataRange, readHeader, fillImage, NewHeatMapData", "cmd/lineplot.go: lineData, includeRow, numSet", "pf/fileIO.go: SaveCsv"]}
{"id": "C119", "title": "Strain energy of an ellipsoidal inclusion", "statement": "Without moduli of the inclusion, CalculateStrainEnergy returns the elastic energy of the ellipsoid with the misfit strain (six engineering strains xx, yy, zz, yz, xz, xy) - the least energy over all displacement fields of the periodic cube - divided by 4/3 pi a b c. With moduli of the inclusion and no correction the displacement is still the one of the matrix and the energy of the whole cube, also outside of the inclusion, is taken with the moduli of the inclusion: moduli f times those of the matrix give f times the energy, an empty list of moduli gives zero. Moduli equal to those of the matrix change nothing, with and without correction. Always the energy is proportional to the square of the misfit strain and to the moduli, and there is a result exactly when the misfit strain has at least six entries and there are at most 36 moduli. The ellipsoid contains the middle voxel, is symmetric about it, ends at its half axes and grows with them.", "quantifier": "all domain sizes up to 10^9 (even ones: if the voxels of the ellipsoid have no content at the highest frequencies, otherwise the result is at least the elastic energy), half axes, misfit strains and stable moduli (scaling, equal moduli and definedness: all inputs and all linear transforms)", "why_tests_cant": "all materials and strains; that the energy is the least one over all displacement fields is not an assertion about one run", "anchors": ["elasticity/strainEnergyCLI.go: CalculateStrainEnergy, StrainEnergyInput", "elasticity/shapes.go: Ellipsoid", "elasticity/perturbation.go: PerturbedForce, FourierTransform", "elasticity/linearElasticity.go: Displacements, Strain, EnergyDensity", "elasticity/rank4.go: FromFlatVoigt"]}
{"id": "C120", "title": "Overview of a database: newest simulations first", "statement": "The texts stored as creation times are ordered as the times they show. If the clock showed a different second for every simulation and was never set back, gopf db list shows the simulations newest first, as many as asked for (all for a negative number), each with its creation time, and the commands that need a simulation and get none take the one created last (zero if there is none). Whatever the clock did, no simulation left out has a later creation time than one listed, and the remark on the number of rows appears exactly if some are left out or the limit is negative. Of two simulations of the same second either can be taken for the newest; after the clock is set back an older one is. gopf db time shows the creation time of the simulation. gopf db info shows the sides of the domain (1 for a missing one), every field name once, and every attribute name once for each of the two kinds of values it has and every name of a time series once; its table is rectangular (83 characters per line) whatever the names are, and the names joined by commas are the value columns of their lines one after the other; each line has its name at the left of the first column, in the order number of simulations, sides (those of the three axes in their order), fields, attributes, time series.", "quantifier": "all histories of simulations and all results the database can return for its queries", "why_tests_cant": "the order depends on wall clock times and on ties, which tests do not control", "anchors": ["cmd/list.go: showSimulationIds, showComments", "cmd/util.go: newestSimulationID", "cmd/time.go: timeCmd", "cmd/info.go: infoCmd, dimString, printList", "pf/database.go: FieldDB.initialize"]}
{"id": "C121", "title": "Diffusion, advection and noise terms: from preparation to the step", "statement": "PrepareModel of DivGrad succeeds for every field of the model, and of Advection exactly if there are as many velocities as dimensions and all names are known. In every later step the DivGrad term is div(F grad field) of the present field, with F of the present real space bricks, and the Advection term is -v . grad field, whatever is added to the model afterwards under other names (F and the velocities may be fields, scalars and derived fields registered before). An equation that is a sum of registered explicit terms, each perhaps with operators in front, is built into exactly that sum with the signs as written; an Euler step adds dt times it, and with DivGrad and conservative noise terms only, the sum of the field is kept through any session. A name stands for what was entered last under it, a number after AddScalar and the field after AddField. Names are shared: two DivGrad terms for one field both use the F prepared last; a velocity called <field>_0 is replaced by the derivative of the field; of two Advection terms for one field the first one multiplies with transforms of the derivatives of the previous step; if moreover the names of their velocities read the same in a row (v, xx and vx, x), both use the velocities of the one prepared last; the currents of conservative noise passed along at registration are all the last one, registered one at a time each is its own.", "quantifier": "all grids, models, fields, functions F, velocities, further registrations, sums and sessions", "why_tests_cant": "the terms depend on the order of registrations and on what names stand for at the time of a step", "anchors": ["pf/gradientCalculator.go: DivGrad.PrepareModel, DivGrad.Construct, GradientCalculator.ToDerivedField", "pf/advection.go: Advection.PrepareModel, Advection.Construct, Advection.GetName", "pf/noise.go: ConservativeNoise.RequiredDerivedFields, ConservativeNoise.Construct", "pf/model.go: Model.RegisterDerivedField, Model.RegisterExplicitTerm, Model.SyncDerivedFields", "pf/rhsBuilder.go: Build"]}
{"id": "C122", "title": "Continuing a run from saved fields", "statement": "Saving the fields, making a new solver from the saved real parts, and telling it the stepper, the filter and the monitors of the old one continues the run as if it had not been interrupted: every further sequence of calls ends with the same fields, has the same fields at the end of each epoch, and monitors of fields record the same numbers. It holds for real fields when the equations do not contain the time explicitly (or RK4 is used), in particular for equations given as text with real scalars and whole powers; with an explicit time dependence and the Euler stepper it fails, as the new clock starts at zero. The data may be read from the raw files of an epoch (if the numbers are representable) or from the database by LoadLast, under the names of the fields. Raw files written by the second run with the epochs counted from the first run's number are exactly those of one long run.", "quantifier": "all models, grids (texts: 2D and cubic 3D grids, names that can be told apart, C17; database: at least two nodes), initial data, sessions before and after the interruption, and previous contents of files and databases", "why_tests_cant": "no finite set of runs shows that two different histories agree from some point on", "anchors": ["pf/solver.go: NewSolver, Solver.Propagate, Solver.Solve, Solver.SetStepper, Solver.AddMonitor", "pf/fileIO.go: SaveFloat64, LoadFloat64, Float64IO.SaveFields", "pf/database.go: FieldDB.SaveFields, FieldDB.LoadLast", "pf/euler.go: Euler.Step", "pf/rk4.go: RK4.Step"]}
{"id": "C123", "title": "Shrinking dimer: finding the saddle point", "statement": "A step of the shrinking dimer stepper leaves a single field unchanged exactly if the total force vanishes (the weighted force of the two ends plus the linear part), so it settles at stationary points only. For a linear equation with real growth rates: a dimer made of waves of one growth rate lam keeps its orientation, and after N steps the part of the field along it is divided by (1 + dt lam)^N while every other wave is divided by (1 - dt a)^N; so near a saddle point with exactly one growing wave, and the dimer along it, the fields converge to the saddle point for every initial field (and every time step with dt lam different from 1). From every other orientation the dimer turns to the fastest growing waves: all slower waves disappear from it, by at least a fixed factor per step relative to the fastest, if the orientation contains a fastest growing wave and dt/tau times the spread of the rates is at most one.", "quantifier": "all 2D and cubic 3D grids, linear equations, initial fields, unit orientations, time steps, dimer length schedules and numbers of steps", "why_tests_cant": "convergence is about infinitely many steps and all initial fields", "anchors": ["pf/sdd.go: SDD.Step, SDD.householder, SDD.householderDenum, SDD.DimerLength"]}
{"id": "C124", "title": "Shrinking dimer: what is reported", "statement": "After a step the monitor holds: the largest modulus among the Fourier coefficients of the rates of change of the fields; as ForcePowerSpectrum the root mean square of the rates of change over all fields and nodes in real space, which is zero exactly if nothing changed; the largest modulus of the torque, zero exactly if the dimer did not turn; the sum of squares of the fields before the step; and the fall of that number since the step before (minus the number after the first step). Near a saddle point with one growing wave, and the dimer along it, the reported force tends to zero. The log starts with the header if the file is empty and gets one record per call. SaveOrientation writes one column per field (orientation0, ...); read back, the columns are the orientation to six decimals; setting a saved orientation gives it back with dimer length one. A step panics without an orientation or with a time step below 1e-16; setting a filter always panics, setting an orientation of the wrong length too.", "quantifier": "all models, fields, orientations, numbers of steps and log files", "why_tests_cant": "the reported numbers are compared with mathematical quantities for all fields and runs", "anchors": ["pf/sdd.go: SDDMonitor, SDDMonitor.Log, SDD.Step, SDD.FieldNorm, NewSDD, SDD.Init, SDD.SetInitialOrientation, SDD.SetFilter, SDD.SaveOrientation", "pf/fileIO.go: SaveCsv, LoadCSV"]}
{"id": "C125", "title": "Waves of linear equations grow and decay at the rate the text spells", "statement": "For an equation written as text whose terms are all linear in its own field (scalars, signs and Laplacians, no other field or function), every step of a simulation multiplies each Fourier coefficient of the field by g/(1 - dt r), where r is the growth rate the text gives this wave (sum of sign times scalars times (-4 pi^2 |f|^2)^(number of Laplacians)) and g what the filter gives it; after N steps by the N-th power. The Euler and the RK4 stepper give the same result, so RK4 is not more accurate for such equations, and the other equations do not matter. With real scalars the rates are real; then without filter a wave shrinks in a step exactly if r < 0 or dt r > 2, dies out in these cases, is never smaller than the exact solution exp(r t) if dt r < 1, and if no rate is positive the sum of squares over the nodes never increases, for any time step. For example all simulations of dconc/dt = conc with dt > 2 die out although the solutions grow.", "quantifier": "all grids, linear equations given as text with names that can be told apart (C17), scalars, filters, time steps with dt r different from 1, initial fields and numbers of steps", "why_tests_cant": "limits and comparisons with the exact solution for all waves, time steps and numbers of steps", "anchors": ["pf/euler.go: Euler.Step, Euler.Propagate", "pf/rk4.go: RK4.Step, RK4.Propagate", "pf/model.go: Model.AddEquation, Model.Init", "pf/util.go: ApplyModalFilter"]}
{"id": "C126", "title": "Small perturbations of a uniform state", "statement": "For an equation for one field given as text with whole powers, scalars and Laplacians, a uniform state whose rate of change is zero rests in a simulation, and a small perturbation of it is taken by the Euler stepper wave by wave to first order: each step multiplies the wave k by 1 + dt r/(1 - dt a), where r is the growth rate of the equation linearised around the state and a the part of it the library treats implicitly (the terms linear in the field). If all factors are less than one in modulus, all fields close enough to the state converge to it exponentially; if every term has a Laplacian it is enough that this holds for the waves that are not uniform, for fields with the mean of the state. If some factor is larger than one in modulus the state is not stable: there is a distance such that every perturbation made of the waves with the largest factor, however small, grows to this distance at some node, and there are real perturbations of any size of this kind. For real rates with dt a < 1 the factor is less than one exactly if r < 0 and dt |r| < 2(1 - dt a), so the implicit treatment does not remove the limit on the time step, and waves that grow by the linearised equation grow in the simulation. For the Cahn-Hilliard equation dconc/dt = LAPconc^3 - LAPconc - LAP^2conc on every grid: the uniform state z with 3z^2 > 1 attracts fields of mean z for all time steps below 8/(3z^2+1)^2, and for 3z^2 < 1 the waves with 4 pi^2|f|^2 < 1 - 3z^2 grow for all time steps below 4, and if the grid has such a wave there are real fields of mean z arbitrarily close to z that go a fixed distance away from it.", "quantifier": "all grids, equations for one field given as text with names that can be told apart (C17), scalars, uniform states, time steps, families of perturbations and numbers of steps", "why_tests_cant": "derivatives with respect to the initial fields and limits of infinitely many steps, for all grids and time steps", "anchors": ["pf/euler.go: Euler.Step, Euler.Propagate", "pf/model.go: Model.AddEquation, Model.Init, Model.AddField"]}
{"id": "C127", "title": "White noise: fluctuations of a driven field", "statement": "For an equation for one field given as text that is linear in the field and contains a registered white noise function (independent standard normal numbers for every node and step), the Euler stepper gives every wave of the field the mean of the simulation without noise and exactly computable fluctuations; for dconc/dt = noise different nodes are uncorrelated. The documented correlation function <Y(x,t)Y(x',t')> = 2 Strength delta(x-x') delta(t-t') would give fluctuations that do not depend on the time step: a mean square displacement of 2 Strength t without other terms, and n Strength |b|^2/|a| for a wave that decays at the rate |a|. The simulation gives 2 Strength dt t and dt/(1 + dt |a|/2) n Strength |b|^2/|a|: it is proportional to the time step, and at any fixed time the noise disappears as the time step is refined. If the strength is divided by the time step, the fluctuations converge to the documented ones.", "quantifier": "all grids, linear equations with noise given as text with names that can be told apart (C17), scalars, strengths, time steps, initial fields, numbers of steps, and sequences of independent standard normal numbers", "why_tests_cant": "a statement about expected values over all random numbers and limits of time steps", "anchors": ["pf/noise.go: WhiteNoise.Generate", "pf/model.go: Model.RegisterFunction, Model.SyncDerivedFields, Model.AddEquation", "pf/euler.go: Euler.Step, Euler.Propagate"]}
{"id": "C128", "title": "Equations may mix products and registered terms", "statement": "An equation of which each term is either a product of numbers, fields, scalars and functions (as in C19) or the name of a term registered with RegisterImplicitTerm, RegisterExplicitTerm or RegisterMixedTerm, perhaps with operators (-, *, LAP, LAP^2, LAP^4) in front, in any order and with any signs, is the sum of what its terms stand for: a product stands for the transform of its value with the Laplacian applied, an explicit term for its value, an implicit term for its value times the transform of the equation's field, a mixed term for both, each with the sign and the operators in front. An Euler step solves (1 - dt A) new = old + dt (sum - A old), A being the sum of the factors of the linear products and of the implicit terms. If every product has a Laplacian and every registered term has a Laplacian in front or vanishes at frequency zero, the sum of the field over the nodes is kept through any session. A registered term with an operator in front must not contain the name of a field: with fields conc and eta and the term conc_chem, adding deta/dt = LAP conc_chem asks for a product of a field conc_chem that does not exist, while deta/dt = conc_chem does not.", "quantifier": "all grids, equations of the given form, registered functions, scalars, fields, time steps and sessions", "why_tests_cant": "quantifies over all equations, all user functions and all sessions", "anchors": ["pf/model.go: Model.AddEquation, Model.UpdateDerivedFields, Model.IsUserDefinedTerm, Model.RegisterImplicitTerm, Model.RegisterExplicitTerm, Model.RegisterMixedTerm", "pf/rhsBuilder.go: Build, ConcreteTerm", "pf/euler.go: Euler.Step"]}
{"id": "C129", "title": "Fluctuations caused by conservative noise", "statement": "In an equation whose own terms are linear, with the rate a at a wave, conservative noise times lam changes the wave in one Euler step to (u + dt lam sum_d 2 i sin(pi f_d) xi_d) / (1 - dt a), without the components of the frequency that are Nyquist frequencies. After any number of steps the mean of the wave is that of the equation without noise, and its mean square deviation from it is 2 n S |dt lam/(1 - dt a)|^2 p sum_j |1 - dt a|^(-2j), where p is the sum of 4 sin^2(pi f_d) if every component of the current has its own random numbers. For a decaying wave it settles at dt/(1 - dt a/2) n S |lam|^2 p/(-a). With diffusion (LAP of the constant D) this is between 4/pi^2 and 1 times dt/(1 + 2 pi^2 D |f|^2 dt) n S/D, so it is proportional to the time step. Waves with only zero and Nyquist components get no noise. If the currents are passed together when the term is registered, as documented, they share their random numbers and p = |sum_d 2 i sin(pi f_d)|^2: in 2D waves (f,-f) get no noise and waves (f,f) twice as much. The noise is written to the currents and to nothing else: if derived fields use only fields and derived fields registered before them, every other derived field is what its function gives for the values in that step.", "quantifier": "all grids, models, linear equations with one conservative noise term, both ways to register its currents, strengths, time steps, initial fields, numbers of steps and sequences of independent standard normal numbers", "why_tests_cant": "Tests of the noise check one evaluation of the term; strength and direction of the fluctuations of a simulation are expected values over all random sequences and long runs.", "anchors": ["pf/noise.go: ConservativeNoise.Construct, ConservativeNoise.RequiredDerivedFields, ConservativeNoise.GetCurrentName", "pf/model.go: Model.RegisterExplicitTerm, Model.RegisterDerivedField", "pf/euler.go: Euler.Step"]}
{"id": "C130", "title": "Meta files and monitor texts mean the same to other programs", "statement": "The XML of a meta file is read back by any XML reader as the document that was written, whatever field names and prefixes contain, up to characters XML cannot represent. In it a viewer finds the steps T1, T2, ... with every field under its name, on the nodes, as eight byte floats with the most significant byte first, with the sides of the domain, and the name of the file into which the writer of raw files with the same prefix put that field at that epoch; the file holds exactly these words. The mesh is a regular one with the number of dimensions and the sides of the domain, and every step refers to it. In two dimensions a viewer shows every node at its position. In three dimensions the files are layered along the third axis, so a viewer shows node (i,j,k) at (k,i,j) if all sides agree; for different sides the declared order is wrong and nodes far apart appear side by side. The time item lists 0/n, ..., (n-1)/n, n, which is a HyperSlab (three numbers) only for two epochs. The text of the monitors is read by any JSON reader as a list with, per monitor, the node, the field name as it was given and the values at the ends of the epochs in order.", "quantifier": "all field names, prefixes, numbers of epochs, 2D and 3D domains, snapshots, monitors and sessions", "why_tests_cant": "Tests compare one small file with one reference file; they do not read it as another program would, and they use names without special characters.", "anchors": ["pf/xdmf.go: CreateXDMF, WriteXDMF, XDMFGrid, XDMFDataItem", "pf/solver.go: Solver.JSONifyMonitors", "pf/monitor.go: PointMonitor", "pf/fileIO.go: SaveFloat64, Float64IO.SaveFields"]}
{"id": "C131", "title": "Simulations of gradient flows lose energy and come to rest", "statement": "Let an equation for one real field be given as text and have the form du/dt = -(-LAP)^q mu: its non-linear terms are a LAP^q u^d and its linear ones a LAP^l u with l at least q, all coefficients real. It is the gradient flow of the energy that sums -(-1)^q a u^(d+1)/(d+1) over the nodes and adds g/2 times the squared amplitude of each wave, g the sum of -(-1)^l a (4 pi^2 |f|^2)^(l-q). One Euler step keeps the field real. If the values before and after it lie in an interval on which the second derivative of the density is at most K, and dt x^q (2 e + K - g(x)) is at most 2 for all wave numbers x of the grid, the step lowers the energy by at least e times the sum of the squared changes. If fields of bounded energy are bounded, there is for every energy a time step below which all runs that start with at most this energy stay bounded, never gain energy, and come to rest: the right-hand side that the equation spells tends to zero at every node. For the Cahn-Hilliard equation dconc/dt = LAPconc^3 - LAPconc - LAP^2conc the limit for values between -b and b is dt (3 b^2 + 1)^2 at most 8, on every grid.", "quantifier": "all 2D and cubic 3D grids, equations of this form given as text with names that can be told apart (C17), real scalars, real initial fields, time steps (below the limits given) and numbers of steps", "why_tests_cant": "Tests run a few steps and compare with stored numbers; that no start, grid or number of steps ever gains energy and that runs of any length settle is a statement about all of them.", "anchors": ["pf/euler.go: Euler.Step, Euler.Propagate", "pf/model.go: Model.AddEquation", "pf/rhsBuilder.go: Build"]}
{"id": "C132", "title": "What coupled equations see of each other during a step", "statement": "Let the equations of several fields be given as text, in the order of the fields. In an Euler step the equation of field i is advanced with the values before the step, except in its terms that contain exactly one field, without exponent (alone, with scalars or under Laplacians): these are taken at the new values if the field belongs to an earlier equation. Products, powers and registered functions are always taken at the old values. Nevertheless, without filter, a step leaves a state as it is exactly if the right-hand sides of all equations vanish there. For the wave equation, written as dconc/dt = eta and deta/dt = LAPconc, each wave follows u+ = u + dt v, v+ = v - dt x u+ with x = 4 pi^2 |f|^2. It keeps |v|^2 + x |u|^2 + dt x Re(u conj v) for ever and so stays bounded for dt sqrt(x) < 2, in particular for dt < 2/(pi sqrt(D)) on every grid with D dimensions; for dt^2 x > 4 there are real starts from which it grows without bound. Advanced as the documentation of the step says, with the old values in both equations, its energy would grow by the factor 1 + dt^2 x in every step.", "quantifier": "all grids, numbers of fields, systems of polynomial equations given as text with names that can be told apart (C17), scalars, registered functions of the fields, filters, time steps with 1 - dt A different from 0, states and numbers of steps", "why_tests_cant": "Tests have one equation, or compare with stored numbers; the effect of the order of the updates depends on which terms the equations have and shows over many steps.", "anchors": ["pf/euler.go: Euler.Step, Euler.Propagate", "pf/model.go: Model.AddEquation, Model.SyncDerivedFields, Model.GetRHS, Model.GetDenum", "pf/rhsBuilder.go: Build"]}
{"id": "C133", "title": "Order of convergence of the implicit stepper", "statement": "Let the equations be smooth, without explicit dependence on time and with a real right-hand side for real fields, and let u solve them on [0,T], starting from real fields. If the non-linear solver leaves at most eps in every entry of the function it is given and its results stay below some bound, the fields after n steps of the implicit stepper differ from u(n dt) by at most C (dt^2 + eps/dt), for all small time steps dt and n dt up to T. If the solver finds a zero of bounded size whenever there is one, nothing need be assumed about the run: for small time steps there is one in every step, the fields stay bounded, and the difference is at most C dt^2. This holds for equations given as text. For right-hand sides that depend on time the order is one and not better: for a source of strength t the difference of every wave is exactly t dt/2.", "quantifier": "all 2D and cubic 3D grids, models, polynomial equations given as text with natural powers (names that can be told apart, C17; registered functions real, Lipschitz on bounded sets and smooth), real scalars, solutions, end times, solvers and small time steps", "why_tests_cant": "Tests run the stepper with one or two time steps on linear equations; the order is a statement about the limit of small time steps and all solvers.", "anchors": ["pf/implicitEuler.go: ImplicitEuler.Step, ImplicitEuler.GetTime", "pf/model.go: Model.AddEquation, Model.GetRHS, Model.GetDenum"]}
{"id": "C134", "title": "The implicit stepper is not stable for all time steps", "statement": "The documentation of the implicit stepper says that it is stable for all time steps if the solver finds the solutions. For dconc/dt = conc - conc^3, whose solutions never exceed both one and their starting value and tend to one, zero or minus one, this is false for every time step, with any solver that finds a solution whenever there is one. There always is exactly one; with e = exp(dt) and c = (e - dt - 1)/dt every node follows v + c v^3 = e u - (e - 1 - c) u^3. Values with u^2 above dt (e + 1)/(e (dt - 2) + dt + 2) change their sign in every step and grow without bound, those at this limit change their sign for ever, and for dt up to one those below it stay below it. For dt of three or more no value approaches the state of rest one without being equal to it, and for dt of six or more even the value 1/2 leads to values without bound.", "quantifier": "all 2D and cubic 3D grids, real initial fields, time steps (in the ranges given), solvers that find solutions, and numbers of steps", "why_tests_cant": "Tests run a few steps from one start; stability is about all starts and all numbers of steps, and the solver used in a test cannot be told from other solvers.", "anchors": ["pf/implicitEuler.go: ImplicitEuler, ImplicitEuler.Step", "pf/model.go: Model.AddEquation"]}
{"id": "C135", "title": "Rounding errors in simulations", "statement": "The other statements about simulations are about exact arithmetic. Let the equations be Lipschitz on bounded sets, with a constant implicit part, and let u solve them on [0,T]. There are constants such that every run that starts within eta of u(0), and in which each step gives every field at every node up to an error delta (whatever its cause: rounding, transforms, files with few digits), stays within C (eta + dt + delta/dt) of u, for all small dt as long as eta + delta/dt is below a constant. This holds for the Euler and the RK4 stepper; for smooth equations without implicit part the RK4 stepper stays within C (eta + dt^4 + delta/dt). With dt = sqrt(delta) the Euler stepper stays within C sqrt(delta). The term delta/dt cannot be improved: if nothing changes, a run that errs by delta in the same direction in every step is off by (n dt) delta/dt after n steps.", "quantifier": "all grids, models, solutions, end times, small time steps, errors and runs", "why_tests_cant": "A test sees the rounding errors of one run on one machine; it cannot bound those of all runs, and it does not separate them from the errors of the method.", "anchors": ["pf/euler.go: Euler.Step", "pf/rk4.go: RK4.Step"]}
{"id": "C136", "title": "The Kim-Kim-Suzuki example keeps the concentration and loses energy", "statement": "The example program with the fields conc and phi, the registered functions INTERPOLANT and PHI_RHS and the equations dconc/dt = twof0M*LAP conc + LAP*twof0M*c0minusc1*INTERPOLANT and dphi/dt = PHI_RHS + gamma*LAP*phi simulates a gradient flow of the energy that sums w g(phi) + f0/2 e^2 over the nodes and adds w/l times the squared gradient of phi, where g is the barrier phi^2 (1-phi)^2 between 0 and 1, and the excess e is the concentration minus (1-h) c0 + h c1, h the interpolation between the phases. Every step keeps real fields real and the sum of conc. If the excess is at most b at all nodes before a step and dt (2 w + 6 f0 |c0-c1| b + 9/2 f0 (c0-c1)^2) is at most 2, the step does not raise the energy. If the energy of the start is at most f0 b^2/2, this holds in all steps of a run of any length, and the excess stays below b; if the limit is not reached exactly, the fields come to rest. For every start there is such a time step. The constants of the program allow an excess of 35, and its start has at most 1. With dt of 10 or more there are starts from which a step raises the energy.", "quantifier": "all 2D and cubic 3D grids, non-negative constants (f0 and l positive), real initial fields, time steps (below the limit given) and numbers of steps", "why_tests_cant": "The example is not tested at all; that no start and no number of steps ever gains energy or concentration is a statement about all runs.", "anchors": ["examples/kks/main.go: H, Hderiv, Gderiv, PhiRHS, main", "pf/euler.go: Euler.Step, Euler.Propagate", "pf/model.go: Model.AddEquation, Model.RegisterFunction"]}
{"id": "C137", "title": "What limits the time step in the example that compares the steppers", "statement": "The example program solves dconc/dt = CHEMPOT + gamma*LAP conc with the registered function conc - conc^3, gamma not negative, and prints which steppers survive which time steps. Explicit stepper: a uniform start z gives uniform fields that follow z + dt (z - z^3). For dt up to 2 starts with z^2 at most 1 + 2/dt stay below this, for every dt those above it grow without bound, and for dt above 2 so does the start sqrt(1/2), which lies between -1 and 1. A step of real values between -b and b to such values does not raise the energy sum (conc^2-1)^2/4 + gamma/2 |grad conc|^2 if dt (3 b^2 - 1) is at most 2, and for every energy there is a time step below which no run from a real start with at most this energy gains energy. Implicit stepper: for every time step the equation given to the solver has a solution in every step, and with a solver that finds one the runs from all real starts up to any size stay below a common bound for ever. The solution is unique for dt up to 2; for dt above 2 there are several, already from a field of zeros, and the solver decides which is taken.", "quantifier": "all 2D and cubic 3D grids, constants in front of the Laplacian, real initial fields (uniform where stated), time steps (in the ranges given), solvers that find solutions, and numbers of steps", "why_tests_cant": "The program prints what happens in 100 steps from one random start with three time steps; boundedness for all starts and all numbers of steps, and the exact limit, are beyond it.", "anchors": ["examples/solverStability/main.go: DerivChemPot, solve, main", "pf/euler.go: Euler.Step, Euler.Propagate", "pf/implicitEuler.go: ImplicitEuler, ImplicitEuler.Step", "pf/model.go: Model.AddEquation, Model.RegisterFunction"]}
{"id": "C138", "title": "Where runs of the shrinking dimer stepper end", "statement": "Take an equation for one field whose explicit part is a continuous function of the field and whose implicit part is a constant factor for every wave, and a dimer direction of length one. How far a step moves the field, as a root of the sum of squares, is exactly dt times the size of the dimer's force (the weighted force at the two ends plus the implicit part), whatever the direction of the dimer is: a field that no longer changes is one without force. The length of the dimer converges to the minimal length. If the fields of the run converge and the minimal length is zero, the limit is a state of rest of the equation, whether the direction converges or not. With a positive minimal length and a converging direction the weighted forces at the two ends of the final dimer cancel the implicit part.", "quantifier": "all grids, equations with continuous explicit part, initial fields, unit directions, weights alpha, positive time steps for which no divisor of the step is zero, initial lengths and positive time constants", "why_tests_cant": "A test can only run finitely many steps; that nothing but a state of rest can be the limit is about all infinite runs.", "anchors": ["pf/sdd.go: SDD.Step, SDD.DimerLength, SDD.householder, SDD.householderDenum"]}
{"id": "C139", "title": "The heterogeneous nucleation example: the weight does not matter, and the default start is not a droplet", "statement": "The program solves dphi/dt = MINUS_CHEM_POT + SPATIAL_LAP with a weight theta(x,y) between 1/100 and 1 that is to describe an inhomogeneity, in order to find the critical droplet with the shrinking dimer stepper; its documentation says that the critical droplet is affected by the inhomogeneity. The force the program builds is, at every node, theta times (1 - phi^2)(phi + 3 rho/4) + gamma LAP phi. So for every weight without zeros the fields that a step leaves unchanged are those of the homogeneous system, and if a run of the shrinking dimer stepper converges, its limit is a state of rest of the homogeneous system (minimal length zero), or a field at which the weighted forces of the homogeneous system at the two ends of the dimer cancel (positive minimal length, converging direction); the weight does not occur in these conditions. The nodes lie in a square of side one, but the default radii are 4 and 8. With an inner radius of 7/8 or more no node is in the ring, so the direction given to SetInitialOrientation is zero and is divided by its length zero; with a mean radius of 7/8 or more the initial droplet is the half plane x >= -0.2. With the constants rho = 0.05 and gamma = 0.5 of the program the squares of every real state of rest sum to at most 11/10 times the number of nodes, on every grid, and on grids of at most four by four nodes the real states of rest are exactly the uniform fields 1, -1 and -3/80, so that there is no droplet to be found.", "quantifier": "all grids N x N, weights, constants rho and gamma, radii (in the ranges given), initial fields and runs", "why_tests_cant": "The example is not tested; which states a run can end in, and that this does not depend on the weight, is about all states and all infinite runs.", "anchors": ["examples/heterogeneousNucleation/main.go: theta, position, Construct, insertSemiCircle, insertTorus, main", "pf/sdd.go: SDD.Step, SDD.SetInitialOrientation", "pf/model.go: Model.AddEquation, Model.RegisterFunction, Model.RegisterExplicitTerm"]}
{"id": "C140", "title": "The phase field crystal example: what a step does, when the energy falls, and which files are overwritten", "statement": "The program solves ddensity/dt = IDEAL + EXCESS, where IDEAL is the Laplacian of the derivative of n^2/2 - C3 n^3/6 + C4 n^4/12 and EXCESS minus the Laplacian of the density convolved with a correlation function made of peaks, and prints an energy after every epoch. The printed number is the energy per node (polynomial minus half the density times the convolved density), and the potential n - C3 n^2/2 + C4 n^3/3 - C*n is its derivative in every direction. For all peaks with positive plane densities and counts, a step of any size keeps a real density real, keeps its sum, and gives the only density v with v = u + dt LAP(v - C3 u^2/2 + C4 u^3/3 - C*v); uniform densities rest. The printed energy does not rise in a step if the curvature C4 n^2 - C3 n is at most K where the density is and dt k^2 (K - 1 + C(k)) is at most 2 for all waves; with the time step, peaks and constants of the program, for every temperature and 2D grid, this is so as long as the density stays between -1 and 2. If C4 is positive, for every energy there is a time step below which all runs that start with at most this energy stay real and bounded, never gain energy and come to rest. The data files of two runs with the same mean density have the same names exactly if the temperatures agree before the decimal point, while the meta files differ as soon as thousandths do; a run can be continued from its data exactly if it was written to the folder data/.", "quantifier": "all 2D and cubic 3D grids, constants, temperatures, peaks, real initial densities, time steps (below the limits given), numbers of steps, folders and epochs", "why_tests_cant": "The example is not tested; that no start loses mass or gains energy in any number of steps is about all runs, and which temperatures collide about all pairs.", "anchors": ["examples/pfcPhases/main.go: EnergyObserver, Calculate, main", "pf/pairCorrelationTerm.go: PairCorrlationTerm.Construct, PairCorrlationTerm.GetEnergy, IdealMixtureTerm.ConstructLinear, IdealMixtureTerm.ConstructNonLinear, IdealMixtureTerm.DerivedField, IdealMixtureTerm.GetEnergy", "pfc/pairCorrelation.go: ReciprocalSpacePairCorrelation.Eval, SquareLattice2D", "pf/euler.go: Euler.Step, Euler.Propagate"]}
{"id": "C141", "title": "In a heterogeneous anisotropic conductor the charges settle, and the current at rest obeys the laws of circuits", "statement": "The program of examples/electricConductivity (field `density`, ChargeTransport registered as MINUS_DIV_CURRENT, equation ddensity/dt = MINUS_DIV_CURRENT, Euler stepper) assembles. Let the conductivity tensor at every node lie between lo > 0 and hi in every direction; it may differ from node to node and be anisotropic. If 0 < dt and dt*hi < 2, every run from every initial density converges geometrically: to a density with the same total charge, whose current has no divergence, and the current that Current reports converges to the current of that density. For dt*hi <= 2 the energy of the field of the difference to any density at rest never grows. For densities at rest: the power drawn from the external field, the sum over nodes of ExternalField times the reported current, is the heat produced; no density produces less heat; the reported current is the same for all densities at rest; the power is at least lo times the square of the external field per node and at most that of the conductivities in the bare external field; and the effective conductivity is symmetric (exchanging the direction of the field and the direction in which the current is measured gives the same number). The bound on the step is sharp: in a uniform isotropic conductor a wave of which the field sees the part theta grows without bound if dt*s*theta > 2.", "quantifier": "all two- and three-dimensional grids, all conductivities with the bounds, all external fields, all initial densities, all time steps in the stated range, all numbers of steps", "why_tests_cant": "Convergence from every start, the limit and its variational and reciprocity laws involve all densities and infinitely many steps; a test sees one conductor for a few steps.", "anchors": ["pf/chargeTransport.go: ChargeTransport, Construct, Current", "examples/electricConductivity/main.go: main", "pf/solver.go: Solver", "pf/euler.go: Euler"]}
{"id": "C142", "title": "The conductivity example: which grains get a field, and that its conductivity is always admissible", "statement": "GetFields of examples/electricConductivity is to return one field per grain of a Voronoi diagram. For all labels on a square grid it returns as many fields as the largest label, so the grain with the largest label gets none: with the labels 0 and 1 only the orientation of grain 1 has no effect (where the conductivity is defined it is that of grain 0), and with a single grain there is no field and the conductivity is 0/0 at every node. The field of grain g is the mean over 11 x 11 nodes of one at the nodes of the grain and, elsewhere, of the field of grain g-1 instead of zero, because the work array is not cleared; a label that no node has gets a field with the same sum as the field before. All fields have values between zero and one. Conductivity returns the mean of the rotated tensors weighted with the fields, and no value exactly if the weights add up to zero; a rotation keeps the bounds of the tensor, and so does the mean, for all angles. On grids of up to 21 x 21 nodes on which label 0 and a label above 1 occur, the weights are positive at every node and the conductivity lies between 1 and 3 in every direction. Of the seven points of the program, six of which lie outside the 16 x 16 domain, only those with the labels 0, 1 and 4 own nodes; the program makes four fields, two of them for labels without nodes and none for grain 4; its conductivity is defined everywhere with these bounds, so its run with dt = 0.1 converges to charges at rest (C141).", "quantifier": "all square grids, label lists, reference tensors, rotation angles; the run of the program: all initial densities and numbers of steps", "why_tests_cant": "The example has no tests; that the weights never vanish and the tensor is bounded is about all label lists and angles, and convergence about infinitely many steps.", "anchors": ["examples/electricConductivity/main.go: GetFields, Conductivity, RotateConductivity, rotMatrix, main", "pfutil/blur.go: Blur, BoxKernel", "pfutil/voronoi.go: Voronoi"]}
{"id": "C143", "title": "Diffusion from a single node: the total stays, the field evens out, and the first step makes concentrations negative", "statement": "The diffusion example (field `conc`, equation dconc/dt = LAP conc, Euler stepper, start zero except for a one in the middle) assembles. For every start the sum of the field is the same after every step; the root of the summed squared distances from the mean falls in every step at least by the factor 1/(1 + dt (2 pi/L)^2), L the longest side, and the field converges to its mean at every node. From a single node: the starting node stays real and largest, its value lies between the mean and one and, on grids of more than one node, falls strictly with every step. The point monitor of the program has one number per epoch and the numbers fall. Yet concentrations do not stay positive: on every grid with a side that is a multiple of four and for every dt below 2/pi^2 (the program: 128 and 0.1) the first step leaves a node below zero.", "quantifier": "all 2D and cubic 3D grids, initial fields, positive time steps (below the limit given for the last statement), numbers of epochs and steps", "why_tests_cant": "The example is not tested; that no start, grid or number of steps loses mass or fails to even out is about all runs, and a negative value at one of the nodes of the first step is easily overlooked.", "anchors": ["examples/diffusion/main.go: main", "pf/euler.go: Euler.Step, Euler.Propagate", "pf/solver.go: Solver, NewSolver", "pf/monitor.go: PointMonitor"]}
{"id": "C144", "title": "What the circle monitors of the database example report", "statement": "A monitor of examples/database has a radius and a centre and is to report mean and standard deviation of the field in its disc. If the disc lies on the grid, it reports exactly the mean and the standard deviation of the real parts over the nodes closer to the centre than the radius; a uniform field gives its value and zero; in a diffusion run the mean converges to the mean of the whole field and the deviation to zero. Although the grid is periodic the disc is not: if it reaches over the first or the last row, the program panics; if it reaches over the last column, it silently uses nodes of the next row instead (a single one at a distance of the radius gives a positive mean); with a radius of zero or less it reports 0/0. The writer stores name_mean and name_std for every monitor, no other keys, a later monitor with the same name replacing an earlier one, and saves the fields exactly at the multiples of ten. The two monitors of the program lie on its grid and have 69 nodes each.", "quantifier": "all grids, radii, centres, names, lists of monitors, fields and time steps; the limit: all initial fields and numbers of steps", "why_tests_cant": "The example is not tested; which nodes the loops visit depends on radius, centre and grid in unboundedly many combinations.", "anchors": ["examples/database/main.go: CircleMonitor, Eval, DBWriter, main", "pfutil/indexPositionConversion.go: NodeIdx"]}
{"id": "C145", "title": "What the Kardar-Parisi-Zhang example computes", "statement": "examples/kardar_parisi_zhang grows a surface: its height changes by its curvature, by lamb times its squared slope and by white noise. The model assembles; in a step the new surface is the only one whose height minus dt times its curvature is the old height plus dt times the squared slope and the noise. Real surfaces stay real; the mean height changes only by squared slope and noise; lifting the start lifts the run. Without noise and with lamb > 0 the mean never falls and stands still only for surfaces made of waves with frequency 0 or the largest one along each axis; a surface that is flat enough (|lamb| * dimensions * longest side squared * sum of deviations at most 2) converges to a flat one, not below its mean. Steeper surfaces need not flatten, although the continuous equation flattens all: when a side is a multiple of three, grooves at every third node of depth below 3/lamb flatten, of depth 3/lamb stay, and deeper ones deepen without bound, for every time step; when a side is a multiple of eight, as in the program, there are also surfaces that move away from their mean without bound, for every time step up to 1/20 (with lamb = 10 one of amplitude 2). What the noise adds to the mean height has mean zero and, with the strength 0.01/sqrt(dt) of the program, a mean square sqrt(dt) * time / (50 * nodes): less and less noise with smaller time steps.", "quantifier": "all domains, factors, starts, noise, time steps and numbers of steps; the steepening for all sides divisible by three or eight", "why_tests_cant": "The example is not tested, and a run of any length neither shows what happens as time goes to infinity nor what happens for other starts; the noise is random.", "anchors": ["examples/kardar_parisi_zhang/main.go: main", "pf/squareGradientTerm.go: SquaredGradient, Construct", "pf/noise.go: WhiteNoise, Generate"]}
{"id": "C146", "title": "What the strained precipitate example computes: relaxation, elastic force and an almost conserved volume", "statement": "examples/strain_single_precipitate couples a concentration and an order parameter, the elastic term of a cubic material with a misfit strain and a volume constraint. The registered functions are minus the mobility times the derivative of A/2 c^2 (1-H) + B/2 (1-c)^2 H + W phi^2 (1-phi)^2 in c, minus its derivative in phi, and the derivative of H(phi) = phi^2 (3 - 2 phi). The model assembles, all rounds succeed, and after each round the two fields are the only ones whose value minus dt*kappa times the Laplacian is the old value plus dt times these rates, for the order parameter with the elastic force of the current order parameter (none in the first step) and the multiplier times H'. Real fields stay real on every grid, also with even sides, for every cubic material and every misfit without shear; for materials with c12 not negative, c44 positive and c11 at least c12 + c44 (as in the program) the linear system for the displacements has one solution at every frequency but zero. The concentration is not conserved: with A = B its total moves by dt*M*A times the volume sum H(phi) minus the total. From a start of zeros and ones with equal fields the first step is diffusion alone, keeps both totals and leaves the fields equal. The volume sum phi follows the free rate in the first two steps; later it changes by dt times (free rate now minus free rate per interface weight one step ago times interface weight now). If one phase fills the domain nothing moves and the multiplier is 0/0 from the second step on; otherwise the divisor after a start of zeros and ones is positive. The square at the start has (5M/8 - 3M/8 - 1)^2 nodes (225 in the program), none exactly for M < 5 and M = 6.", "quantifier": "all grids, starts, constants with kappa >= 0, time steps, materials and misfits (where stated cubic and without shear), numbers of rounds", "why_tests_cant": "The example is not tested; that fields stay real, what happens to volume and concentration and that every round succeeds is about all runs.", "anchors": ["examples/strain_single_precipitate/main.go: H, dHdx, dLandaudx, ChemicalPotential, DerivPhase, SmearingDeriv, main", "pf/volumeConserving.go: VolumeConservingLP, Construct, OnStepFinished", "pf/homoLinElast.go: HomogeneousModulusLinElast, Construct, OnStepFinished, Force", "elasticity/rank4.go: CubicMaterial", "elasticity/linearElasticity.go: Displacements, Strain", "pf/solver.go: Solver, Propagate"]}
{"id": "C147", "title": "What the Cahn-Hilliard example computes: material kept, energy lowered, and stripes that grow without bound", "statement": "examples/cahnHilliard solves dconc/dt = LAP conc^3 + m1*LAP conc + m1*gamma*LAP^2 conc with m1 = -1, gamma = 2, dt = 0.1. The model assembles for all constants. For dt < 4 gamma, with x = 4 pi^2 |f|^2, each wave after a step times 1 - dt x + gamma dt x^2 (never zero) is the wave before minus dt x times the wave of the cubed field; real fields stay real and the sum of the field is kept in all steps. The energy sum(u^4/4 - u^2/2) plus gamma/2 times the squared gradient does not rise in steps in which the values stay within [-b,b] and dt (3 b^2+1)^2 <= 8 gamma (the program: b = 1.97, all starting values included); for every energy there is a time step below which every run from at most this energy stays bounded, never gains energy and comes to rest. Uniform mixtures rest; to first order a wave of a perturbation of the mixture z grows exactly if gamma x < 1 - 3 z^2, whatever the time step, and if 3 z^2 > 1 and dt (3 z^2+1)^2 < 8 gamma small perturbations with the same mean die out. Not every run comes to rest: a field of stripes a and -a with a single wave number q stays one; if dt q a^2 exceeds 2 - dt q + gamma dt q^2 all values grow without bound, if it equals it all values change sign in every step for ever, and if it is less (and gamma q > 1) the stripes disappear. In the program stripes one node wide grow if they are 4.6 high and disappear if 4.5 high, stripes two nodes wide grow if 3.5 high and disappear if 3.4 high.", "quantifier": "all 2D and 3D grids, starts, time steps below 4 gamma (smaller where stated), values of gamma, numbers of steps; stripes across every side divisible by two or four", "why_tests_cant": "The example is not tested; that a step size is safe for every field of some energy, and that another field runs away, is about all starts and infinitely many steps.", "anchors": ["examples/cahnHilliard/main.go: main", "pf/model.go: Model, AddEquation, AddScalar, AddField", "pf/euler.go: Euler.Step, Euler.Propagate", "pf/solver.go: NewSolver"]}
{"id": "C148", "title": "Where drawn figures end up, and what the drawing example writes", "statement": "A transformation built by Translation(-c), then Append(RotZ(a)) and/or Append(Scaling(s)) and passed to Draw puts a Box of sides d as a box centred at c, turned by -a, with the sides d_i/s_i (a scaling by two halves the figure, because the transformation moves pixels), and a Ball as the ellipse with half axes r/s_i. Drawing several figures with one value sets exactly the nodes in their union and leaves the others. The program examples/drawing does not panic; its six figures cover exactly a square of 31 x 31 nodes, the turned square |dx-dy|<=21, |dx+dy|<=21, a rectangle of 31 x 15 nodes, the turned rectangle |dx-dy|<=21, |dx+dy|<=10, a circle and an ellipse with half axes 7.5 and 15; no two of them overlap and none reaches the border; at every node the file holds the share of covered nodes in the 5 x 5 window around the node (the kernel has Width 3), all values lie in [0,1] and sum up to the 3850 covered nodes.", "quantifier": "all centres, angles, positive scaling factors, sides and radii; all lists of figures, 2D and 3D grids and values; the program: all nodes", "why_tests_cant": "Which nodes a chain of transformations selects depends on real parameters and on every node; the example has no test.", "anchors": ["examples/drawing/main.go: main", "pfutil/shapes.go: Draw, Box, Ball, InteriorPoint, BBox", "pfutil/affine.go: Translation, RotZ, Scaling, Append, Apply", "pfutil/blur.go: Blur, BoxKernel"]}
{"id": "C149", "title": "What the crystal example writes: atoms that cut pieces out of each other", "statement": "For every number of cells, SC2D(32) with an atom at the corner and one in the middle of each cell and a kernel with cutoff 12: cells are drawn row by row, the corner before the middle, and every node holds the kernel of the distance to the atom drawn last among those that reach it (the reach and the distance along each axis are given explicitly), other nodes keep their value. Atoms inside the domain are centred half a node before their position, those of the first row and column on their node. examples/buildCrystals does not panic: its first file holds exp(-r^2/32) of that distance, or zero where no atom reaches; near every corner but those of the last row and column of cells there are nodes where the value is exp(7) > 1000 times smaller than the kernel of the atom there, both for atoms at corners and in the middle, since later atoms overwrite earlier ones. The second file holds the crystal turned by 7.5 degrees in the rows before the middle and by -7.5 degrees in the others.", "quantifier": "all numbers of cells, kernels with cutoff 12, initial grids and nodes; the program: all nodes and cells", "why_tests_cant": "Which atom is drawn last at a node depends on the order of all loops and on wrapping; the existing tests look at a few values.", "anchors": ["examples/buildCrystals/main.go: SingleCrystal, main", "pfc/periodicFieldInit.go: BuildCrystal, TiltGB, GaussianKernel, CornersScaledCrd", "pfutil/grid.go: NewGrid, Rotate2D", "pfc/lattice.go: SC2D"]}
{"id": "C150", "title": "What the penalty for negative values does in a simulation", "statement": "A field whose equation is df/dt = g or df/dt = -g, with a function g of it registered with RegisterFunction, is advanced by the Euler stepper node by node: each step adds dt times the value of the function, with its sign. For NegativeValuePenalty with prefactor P > 0 and exponent q >= 2, entered with a minus sign for odd q (plus for even q), and a = 2 P q dt: imaginary parts and values that are not negative never change; a negative value x with a |x|^(q-2) <= 1 rises in every step, never becomes positive and tends to zero; with a |x|^(q-2) > 1 it becomes x + a |x|^(q-1) > 0 in the first step and stays there. Entered with the other sign, every negative value tends to minus infinity. With the default penalty a value x with 9000 dt |x| <= 1 is after k steps at most 1/(1/|x| + 9000 k dt) below zero, and with larger time steps it jumps to 9000 dt x^2 - |x|.", "quantifier": "all grids, initial fields, prefactors, exponents from 2, time steps, numbers of steps and pairs of names the parser can tell apart", "why_tests_cant": "The existing tests evaluate the function at three points and one step; which sign restores and which time step overshoots is about all values and infinitely many steps.", "anchors": ["pf/negative_value_penalty.go: NegativeValuePenalty, Penalty, Evaluate, NewDefaultNegativeValuePenalty", "pf/model.go: RegisterFunction, AddEquation, AddField", "pf/euler.go: Euler.Step, Euler.Propagate"]}
{"id": "C151", "title": "Grids as complex arrays and as files", "statement": "Grid.ToComplex followed by FromComplex returns the grid; FromComplex panics exactly if it is given more numbers than the grid has nodes, and otherwise replaces the values of the first nodes by the real parts and keeps the others. Writing through a RealPartSlice changes one real part and no imaginary part. Grid.SaveCsv writes for grids with two or three dimensions one line per node, with as many coordinates as there are dimensions and the value. LoadCSV reads the file of a grid with three dimensions as one field with the name value, up to 5e-7; of the file of a grid with two dimensions it returns no field at all, without an error, and the contour command stops for every column. Grids with other numbers of dimensions, and some node, make SaveCsv panic.", "quantifier": "all grids, arrays, indices, values, columns and colour maps", "why_tests_cant": "all sizes and data; that one of the two writers of the library makes files its readers lose is not seen by tests of either.", "anchors": ["pfutil/grid.go: ToComplex, FromComplex, SaveCsv", "pfutil/sliceWrappers.go: RealPartSlice, Get, Set, Len", "pf/fileIO.go: LoadCSV", "cmd/contour.go: readData, getColIndex"]}
{"id": "C152", "title": "The interface between the phases in the Kim-Kim-Suzuki and Cahn-Hilliard examples", "statement": "On a line, the phase field 1/(1 + exp(-sqrt(l)(x - x0))) together with the concentration c0 + H(phi)(c1 - c0) is at rest under both equations of the Kim-Kim-Suzuki example: inside each phase the concentration does not change across the interface. Every phase field between 0 and 1 that leads from 0 to 1 and is at rest with this concentration has this form. Its thickness (the distance over which the line with the slope of its middle rises from 0 to 1) is 4/sqrt(l), it takes 2 log(9)/sqrt(l) from 0.1 to 0.9, and its energy is w/(3 sqrt(l)). So the constant l that the program describes as the interface thickness makes interfaces thinner when it is raised, and is the thickness only if l^3 = 16. In the Cahn-Hilliard example the step from -1 to 1 with exponent sqrt(2/gamma) is at rest.", "quantifier": "all constants with l > 0 and w > 0, all positions, all profiles", "why_tests_cant": "profiles on an unbounded line and all solutions of a differential equation; the documentation derives the thickness but no test compares it with the constants.", "anchors": ["examples/kks/main.go: PhiRHS, Gderiv, Hderiv, H, l, w", "examples/cahnHilliard/main.go: main"]}
{"id": "C153", "title": "What the implicit stepper does to the sum of a field", "statement": "Whatever the non-linear solver returns, the fields are real after a step of ImplicitEuler. If every term of an equation, as it is written, has a Laplacian, a step adds to the sum of its field over the nodes exactly the sum of what the solver left of this equation at the point it returned: the average of the field drifts by at most e per step if the solver leaves at most e at every node, and the sum never changes if the solver solves its equation. If only the terms treated implicitly vanish at frequency zero, half the time step times the sums of the explicit right-hand side before and after the step is added as well. A filter does not change the equation given to the solver, only the point it starts from, where the sum of the field is multiplied by the value of the filter at frequency zero.", "quantifier": "all grids, texts of polynomial equations, initial fields, time steps, filters, numbers of steps and solvers", "why_tests_cant": "all fields, step counts and solvers; the drift of the sum over many steps is below what a test with a few steps can see.", "anchors": ["pf/implicitEuler.go: ImplicitEuler.Step, updateEquation, nonlinearIntegral, SetFilter, vec2fields"]}
{"id": "C154", "title": "When the elastic term keeps a real field real", "statement": "The term of the homogeneous modulus elasticity model is the spectrum of a real field, whatever the fields of the past were, (a) on domains with odd sides for every stiffness and every misfit strain, and (b) on every domain for a stiffness that does not change when axes are reversed (every isotropic and every cubic material of the library) and a misfit strain without shear. With an even side and a misfit strain that has both dilatation and shear it need not be: on a 4 times 2 grid, for an isotropic material with Poisson ratio zero, there is a field with values between 0 and 1 for which the term adds an imaginary part to the sum of the field.", "quantifier": "all domains, stiffness tensors, misfit strains and histories of fields", "why_tests_cant": "the failure needs an even side, a field with content at the highest frequency and a mixed misfit strain together; the example of the library uses a misfit strain without shear.", "anchors": ["pf/homoLinElast.go: HomogeneousModulusLinElast.Construct, Force, Freq, OnStepFinished", "elasticity/linearElasticity.go: Displacements, Strain", "elasticity/rank4.go: Isotropic, CubicMaterial"]}
{"id": "C155", "title": "Division by zero in the time steppers", "statement": "The steppers divide every number of a spectrum by 1 - dt times its implicit rate. A run of Euler or RK4 in which some numbers are not finite behaves as follows. If no such denominator is zero, runs that start with finite numbers stay finite and are the runs of exact arithmetic (RK4: also with half the time step). Once a field has one number that is not finite, all of its numbers are not finite after the next step and ever after. For equations given as text: if dt times the rate of a wave in the terms linear in the own field is one for a single wave, no number of that field is finite after the first step and ever after, with either stepper and whatever the start; if it is never one, Euler runs are exact, and if it is never one or two, RK4 runs are. On a given grid there are only finitely many such time steps, and no positive one if no rate has a positive real part. For dconc/dt = conc they are one and, for RK4, two.", "quantifier": "all models, grids, filters, initial fields (finite or not), time steps, numbers of steps and texts of polynomial equations", "why_tests_cant": "the failing time steps are isolated numbers that depend on the grid and the scalars; a test would have to hit one exactly.", "anchors": ["pf/euler.go: Euler.Step, Euler.Propagate", "pf/rk4.go: RK4.Step, Propagate, correction", "pf/model.go: GetRHS, GetDenum"]}
{"id": "C156", "title": "Whose memory the fields live in", "statement": "NewField keeps the slice it is given and panics if its length is not the number of nodes; without data, and for a copy of a field, memory is used that nobody else has. If the slices given for the fields have no number in common, then at any time during a run with Euler or RK4 the slice given to NewField holds the values of that field, as computed from the data it held at first, and no memory other than that of the fields and derived fields is changed. If one slice is given for two fields nothing panics, but the numbers are transformed twice in each direction: with a diffusion equation for both fields the value at a node is divided by (1 + dt D (2 pi |f|)^2)^2 in an Euler step, where f is the frequency with the number of that node, so that a uniform field does not stay uniform.", "quantifier": "all models, grids, time steps, numbers of steps, contents of the memory and positions of the slices in it", "why_tests_cant": "the effect of shared memory shows only for particular combinations of slices; that nothing else is overwritten is a statement about all of the memory.", "anchors": ["pf/model.go: NewField, Field.Copy, SyncDerivedFields", "pf/euler.go: Euler.Step", "pf/rk4.go: RK4.Step, PrepareNextCorrection, correction"]}
{"id": "C157", "title": "Functions that use other functions", "statement": "Registered functions and derived fields are recomputed before every step in the order in which they were registered. If each of them uses only fields and functions registered before it, then in every step each has the value its definition gives for the present values of all fields and functions, and what the fields become does not depend on what was in the memory of the functions before. Otherwise a function sees, of itself and of functions registered after it, in the first step what Init computed and in every later step the Fourier transform of their values in the step before. For the equation dconc/dt = GFUN, where GFUN returns HFUN and HFUN is one everywhere: with HFUN registered first the field grows by dt in every step at every node; with GFUN registered first it does so in the first step, and in all later steps it grows by dt times the number of nodes in the first node and not at all elsewhere.", "quantifier": "all models, grids, time steps, initial fields and numbers of steps", "why_tests_cant": "the order matters from the second step on and only for functions that use functions; no test of the library has two of them.", "anchors": ["pf/model.go: SyncDerivedFields, RegisterFunction, RegisterDerivedField, Init", "pf/euler.go: Euler.Step", "pf/rk4.go: RK4.Step", "pf/solver.go: NewSolver"]}
{"id": "C158", "title": "The equation the implicit stepper solves does not change while it is being solved", "statement": "The implicit stepper hands a function to a non-linear solver; each evaluation overwrites the fields and derived fields of the model. If every derived field uses only fields and derived fields registered before it, the function gives for the same point always the same, whatever points were tried before and whatever the result array held, and steps with any solver that works by evaluating the function are those with a function without memory, for any number of steps. If a function GFUN returns a function HFUN that is registered later and is the field itself, then for dconc/dt = GFUN the first number of the result for the same point differs by dt/2 times the difference of the sums of the points tried before. After a step the fields are the point the solver returned, but the derived fields hold the transforms of the derived fields of the last point it tried.", "quantifier": "all models, grids, time steps, initial fields, numbers of steps and solvers that choose points depending on earlier results", "why_tests_cant": "the dependence on earlier evaluations shows only with derived fields in a particular order, and then looks like a solver that does not converge.", "anchors": ["pf/implicitEuler.go: updateEquation, Step, fft, vec2fields, fieldData2vec", "pf/model.go: SyncDerivedFields, RegisterFunction"]}
{"id": "C159", "title": "How stable the Runge-Kutta stepper is compared with the Euler stepper", "statement": "The documentation of the RK4 stepper says that it has much better stability properties than the Euler scheme. For one polynomial equation given as text, a uniform state of which the equation says that it rests does rest with the RK4 stepper (without filter; 1 - dt a and 1 - dt a/2 not zero), and a small perturbation of it is, to first order, multiplied in every step wave by wave by the factor of the Runge-Kutta method for alpha = dt a (the implicit rate of the wave) and beta = dt b (the explicit rate of the linearised equation). If all factors are less than one in modulus, every field close enough converges to the uniform state exponentially (for equations in divergence form: every field with the same mean); if one is larger, there are real fields as close as one likes that go a fixed distance away. As long as alpha <= 2/3 the claim holds: waves that grow by the linearised equation grow, and the RK4 stepper damps every wave the Euler stepper damps. For alpha <= 0 the gain is less than a factor of two with four times the work: Euler damps a decaying wave if |beta| < 2 + |alpha|, RK4 if |beta| <= 2 + 2|alpha|, and no wave with |beta| >= 3 + 2|alpha|. For the Cahn-Hilliard equation outside the spinodal the time step 16/(3z^2+2)^2 is stable on every grid. For alpha > 2/3 the claim is false: for the Cahn-Hilliard equation on a grid of 9 by 9 nodes with mean 5/12 and time step 17/5 the Euler stepper converges to the uniform state from every field near it with this mean, while the RK4 stepper drives real fields away from it.", "quantifier": "all polynomial equations in one field, grids of two or three dimensions, uniform states, time steps, perturbations and numbers of steps", "why_tests_cant": "Stability is about all small perturbations and infinitely many steps; a run that stays bounded does not show that it does for all others, and which of two methods is more stable depends on the equation and the time step.", "anchors": ["pf/rk4.go: RK4.Step, RK4.Propagate, RK4.correction", "pf/euler.go: Euler.Step, Euler.Propagate", "pf/model.go: Model.AddEquation, Model.GetRHS, Model.GetDenum"]}
{"id": "C160", "title": "For which time steps the implicit stepper is stable", "statement": "The documentation of the implicit stepper says that it is stable for all time steps, provided that the solver finds the solution. For one polynomial equation given as text, near a uniform state of which the equation says that it rests, the equation that a step gives to the nonlinear solver has exactly the solution that multiplies, to first order, each wave of the perturbation by the factor phi = (e^(a dt) + w0 b)/(1 - w1 b), where a is the implicit and b the explicit rate of the wave and w0, w1 are the weights of the code; phi is the exact step of y' = a y + b(1 + (phi - 1) t/dt). With any solver that returns a solution near the uniform state whenever there is one: if all factors are less than one in modulus, all real fields close enough converge to the state exponentially, and every step is solved exactly (for equations in divergence form: fields with the same mean); if one factor is larger, there are real fields as close as one likes that go a fixed distance away. A wave that decays by the linearised equation (a + b < 0) is damped for every time step exactly if the implicit part alone does not make it grow (a <= 0; a zero or at least 1e-5 in modulus). If a > 0 it is damped exactly if -b(e^x (x - 2) + x + 2) < a x (1 + e^x) with x = a dt, and for all large time steps it changes its sign in each step and grows. With the code's short formula for |a| < 1e-5, a wave with a < 0 < b and a + b < 0 more than doubles in each step for some time step. For the Cahn-Hilliard equation all uniform states are stable for all time steps on square grids of up to six nodes, but on every grid with a wave 0 < q < 1 the states with 3z^2 + q > 1 are left for all large time steps. The states 1 and -1 of conc - conc^3 attract if e^dt (dt - 3) + dt + 3 < 0 (time steps up to about 2.58) and repel if it is positive.", "quantifier": "all polynomial equations in one field, grids of two or three dimensions, uniform states, time steps, perturbations, numbers of steps and solvers that find a solution near the uniform state if there is one", "why_tests_cant": "Stability for all time steps is about all small perturbations and infinitely many steps; the unit test runs one decay with one time step.", "anchors": ["pf/implicitEuler.go: ImplicitEuler.Step, ImplicitEuler.updateEquation, ImplicitEuler.nonlinearIntegral", "pf/model.go: Model.AddEquation, Model.GetRHS, Model.GetDenum"]}
{"id": "C161", "title": "Small perturbations of uniform states of coupled equations", "statement": "For any number of coupled polynomial equations given as text (fields only, whole powers, one equation for each field in the order of the fields) and the Euler stepper without filter: a uniform state at which the terms without Laplacian of every equation cancel rests. Whether small perturbations of it die out is decided wave by wave by multipliers: numbers mu for which there are amplitudes of that wave in the fields, not all zero, that a step of the linearised equations multiplies by mu, where terms with one bare field see the new amplitudes of the fields of earlier equations and all other terms the old ones. If all multipliers of all waves are less than one in modulus, all fields close enough converge to the state exponentially. If one is larger than one, there are real perturbations as small as one likes that go a fixed distance away. For the predator-prey equations dconc/dt = conc - conc*eta, deta/dt = conc*eta - eta the state one is left in this way on every grid with every time step other than one, although the equations themselves have a conserved quantity that keeps solutions near it; for dconc/dt = conc^2 - conc, deta/dt = conc - eta fields near zero converge to zero with every time step. For two equations the multipliers are the roots of a quadratic polynomial in the rates that the text spells, and stability is decided by the signs of three expressions in them. For all time steps below some positive bound the simulation agrees with the linearised differential equations: if for every wave the product of the two growth rates is positive and their sum negative, fields close enough converge; if for some wave the product is negative or the sum positive, some real perturbations as small as one likes leave.", "quantifier": "all systems of polynomial equations, grids of two or three dimensions, uniform states, time steps, perturbations and numbers of steps", "why_tests_cant": "Stability is about all small perturbations and infinitely many steps; a slow growth of a perturbation is not visible in a short run, and depends on the order of the equations.", "anchors": ["pf/euler.go: Euler.Step, Euler.Propagate", "pf/model.go: Model.AddEquation, Model.GetRHS, Model.GetDenum, Model.SyncDerivedFields"]}
{"id": "C162", "title": "Whether a filter has an effect with the implicit stepper", "statement": "The documentation of SetFilter of the implicit stepper says that a filter has no effect. The equation given to the nonlinear solver is indeed the same with every filter, if every derived field uses only fields and derived fields registered before it. If in every step this equation has at most one solution and the solver finds it, the fields after any number of steps are the same with every filter and without; this is so for dconc/dt = conc - conc^3 on every grid, with every time step. But the point at which the solver starts is filtered. With dconc/dt = conc^2, time step two and the field minus one everywhere, every solver that keeps a starting point that is a solution makes the field one without filter, and zero with any filter that removes the mean.", "quantifier": "all models with derived fields in order, filters, solvers, time steps, numbers of steps; for the effect: all grids of two or three dimensions, all filters that are zero at frequency zero", "why_tests_cant": "That something has no effect is a claim about all fields, filters and solvers; an example where the effect shows needs an equation with several solutions.", "anchors": ["pf/implicitEuler.go: ImplicitEuler.SetFilter, ImplicitEuler.Step, updateEquation", "pf/euler.go: Euler.Step", "pf/util.go: ApplyModalFilter"]}
{"id": "C163", "title": "What diffusion does to the stability of two coupled equations", "statement": "For two coupled polynomial equations given as text, in which every term with a Laplacian is a multiple of the Laplacian of the equation's own field, let the reaction be the terms without Laplacian, J the matrix of its derivatives at a real uniform state at which it cancels, and d1, d2 the sums of the coefficients of the Laplacians. For all time steps that are small enough, with the Euler stepper without filter: if the trace of J is positive or its determinant negative, real perturbations as small as one likes leave the state, whatever the diffusion. If the trace is negative, the determinant positive and d1, d2 not negative, the state attracts all fields close to it when d1 = d2, when no field promotes itself (J11, J22 at most 0), and when (d2 J11 + d1 J22)^2 < 4 d1 d2 det J. In general it attracts if d1 d2 q^2 - (d2 J11 + d1 J22) q + det J is positive for the squared wave numbers q of all waves of the grid, and is left if it is negative for one. Diffusion alone can make a state unstable: dconc/dt = conc^2 - conc*eta, deta/dt = conc^3 - eta^2 + LAP eta at one, on every grid of more than one node; with LAP conc added to the first equation the state attracts on every grid.", "quantifier": "all pairs of polynomial equations of this form, grids of two or three dimensions, real uniform states, small time steps, small perturbations and numbers of steps", "why_tests_cant": "Whether a pattern grows depends on the waves that fit on the grid and on arbitrarily small perturbations followed for arbitrarily many steps.", "anchors": ["pf/euler.go: Euler.Step, Euler.Propagate", "pf/model.go: Model.AddEquation, Model.GetRHS, Model.GetDenum"]}
{"id": "C164", "title": "For short time steps the growth rates of the linearised equations decide", "statement": "For any number of coupled polynomial equations given as text (fields only, whole powers, one equation for each field in the order of the fields), a uniform state at which the terms without Laplacian of every equation cancel, and the Euler stepper without filter: call l a growth rate of a wave if there are amplitudes of that wave in the fields, not all zero, that the equations linearised at the state change at the rate l times themselves. How the stepper divides the terms into implicit and explicit ones, and in which order it updates the fields, plays no role for this. If all growth rates of all waves on the grid have negative real parts, there is a time step below which all fields close enough converge to the state exponentially. If one has a positive real part and state and scalars are real, there is a time step below which real perturbations as small as one likes go a fixed distance away. So if uniform perturbations grow by the terms without Laplacian alone, the state is left on every grid, whatever the terms with Laplacian are; and if they die out and every field has the same diffusivity, not negative, and no other term with Laplacian, the state attracts on every grid. Example: three fields with dx/dt = LAP x - x - gain*y, where y is the field before x in the ring conc, eta, phi. Zero attracts for -1 < gain < 2 and is left for gain < -1 and for gain > 2.", "quantifier": "all numbers of fields, polynomial equations of this form, grids of two or three dimensions, uniform states, short time steps, small perturbations and numbers of steps", "why_tests_cant": "The claim is about arbitrarily small perturbations and time steps, arbitrarily many steps, and matrices of any size.", "anchors": ["pf/euler.go: Euler.Step, Euler.Propagate", "pf/model.go: Model.AddEquation, Model.GetRHS, Model.GetDenum"]}
{"id": "C165", "title": "For short time steps the RK4 stepper keeps and leaves the same uniform states as the equations", "statement": "For any number of coupled polynomial equations given as text (fields only, whole powers, one equation for each field in the order of the fields), a uniform state at which the terms without Laplacian of every equation cancel, and the RK4 stepper without filter, which combines four explicit slopes and treats the implicit part by divisions: if all growth rates (C164) of all waves on the grid have negative real parts, there is a time step below which all fields close enough converge to the state exponentially. If one has a positive real part and state and scalars are real, there is a time step below which real perturbations as small as one likes go a fixed distance away. So for short time steps the division into implicit and explicit terms does not change the verdict, and it is the same as that of the Euler stepper. If uniform perturbations grow by the terms without Laplacian alone, the state is left on every grid; if they die out and every field has the same diffusivity, not negative, and no other term with Laplacian, it attracts on every grid. Example: the ring of three fields of C164 has the same bounds, -1 and 2, with the RK4 stepper.", "quantifier": "all numbers of fields, polynomial equations of this form, grids of two or three dimensions, uniform states, short time steps, small perturbations and numbers of steps", "why_tests_cant": "The claim is about arbitrarily small perturbations and time steps, arbitrarily many steps, and matrices of any size.", "anchors": ["pf/rk4.go: RK4.Step, RK4.Propagate", "pf/model.go: Model.AddEquation, Model.GetRHS, Model.GetDenum"]}
{"id": "C166", "title": "Three signs decide whether three coupled equations stay at a uniform state", "statement": "For three coupled polynomial equations given as text (fields only, whole powers, one equation for each field in the order of the fields), a uniform state at which the terms without Laplacian of every equation cancel, and the Euler and the RK4 stepper without filter: let J be the matrix of the rates of a wave in the equations linearised at the state, and suppose it is real. If for every wave on the grid trace(J) < 0, det(J) < 0 and trace(J) * (sum of the principal minors of order two) < det(J), there is a time step below which, with either stepper, all fields close enough converge to the state exponentially. If for some wave one of the three inequalities holds in the opposite direction, and state and scalars are real, there is a time step below which, with either stepper, real perturbations as small as one likes go a fixed distance away. If every field has the same diffusivity, not negative, and no other term with Laplacian, the signs for uniform perturbations suffice for stability; if one of them is the opposite, the state is left on every grid. Example: the Lorenz equations dconc/dt = LAP conc + prandtl*eta - prandtl*conc, deta/dt = LAP eta + rayleigh*conc - eta - conc*phi, dphi/dt = LAP phi + conc*eta - shape*phi, with s, r, b for the scalars. The zero state attracts if r < 1 and is left if r > 1 (s, b positive). For r > 1 the two states conc = eta, conc^2 = b (r - 1), phi = r - 1 attract if 2 s (r - 1) < (s + b + 1)(s + r), and are left if it is greater, as it is for s = 10, r = 28, b = 8/3.", "quantifier": "all three equations of this form, grids of two or three dimensions, uniform states, short time steps, small perturbations and numbers of steps; all real values of the scalars in the example", "why_tests_cant": "The claim is about arbitrarily small perturbations and time steps, arbitrarily many steps, and a boundary between two behaviours in a space of real parameters.", "anchors": ["pf/euler.go: Euler.Step, Euler.Propagate", "pf/rk4.go: RK4.Step, RK4.Propagate", "pf/model.go: Model.AddEquation, Model.GetRHS, Model.GetDenum"]}
{"id": "C167", "title": "The RK4 stepper shows the same diffusion driven instabilities of two coupled equations", "statement": "For two coupled polynomial equations given as text (fields only, whole powers, one equation for each field in the order of the fields), a real uniform state at which the terms without Laplacian cancel, and the RK4 stepper without filter, there is a time step below which: if for every wave on the grid the growth rates of the linearised equations have a positive product and a negative sum, fields close enough converge to the state exponentially; if for some wave the product is negative or the sum positive, real perturbations as small as one likes go a fixed distance away. If every term with a Laplacian is a multiple of the Laplacian of the equation's own field, J the matrix of the derivatives of the other terms, and d1, d2 the diffusivities: a state with trace J < 0 < det J and d1, d2 not negative attracts if d1 d2 q^2 - (d2 J11 + d1 J22) q + det J is positive for the squared wave numbers q of all waves of the grid, and is left if it is negative for one. So diffusion alone can make a state unstable with this stepper too: dconc/dt = conc^2 - conc*eta, deta/dt = conc^3 - eta^2 + LAP eta at one, on every grid of more than one node; with LAP conc added to the first equation the state attracts on every grid.", "quantifier": "all pairs of polynomial equations of this form, grids of two or three dimensions, real uniform states, short time steps, small perturbations and numbers of steps", "why_tests_cant": "Whether a pattern grows depends on the waves that fit on the grid and on arbitrarily small perturbations followed for arbitrarily many steps.", "anchors": ["pf/rk4.go: RK4.Step, RK4.Propagate", "pf/model.go: Model.AddEquation, Model.GetRHS, Model.GetDenum"]}
{"id": "C168", "title": "Fields that restrain themselves more than the others move them settle", "statement": "For any number of coupled polynomial equations given as text (fields only, whole powers, one equation for each field in the order of the fields), a uniform state at which the terms without Laplacian of every equation cancel, and the Euler and the RK4 stepper without filter: in the equations linearised at the state, call the balance of a field the real part of the rate at which a wave in it acts on itself plus the moduli of the rates at which the same wave in the other fields acts on it. If for every wave on the grid all balances are negative, there is a time step below which, with either stepper, all fields close enough converge to the state exponentially. If every term with a Laplacian is a multiple of the Laplacian of the equation's own field with a coefficient whose real part is not negative, it suffices that the balances of the other terms are negative: the state then attracts on every grid, and no choice of unequal diffusivities makes it unstable. If for some wave the rates at which the fields act on themselves have real parts with a positive sum, and state and scalars are real, there is a time step below which, with either stepper, real perturbations as small as one likes go a fixed distance away, however the fields act on each other; for uniform perturbations this involves the terms without Laplacian only. Examples: the ring of C164 settles for |gain| < 1 with either stepper; the zero state of the Lorenz equations of C166 is left if prandtl + 1 + shape < 0, whatever the Rayleigh number.", "quantifier": "all numbers of fields, polynomial equations of this form, grids of two or three dimensions, uniform states, diffusivities, short time steps, small perturbations and numbers of steps", "why_tests_cant": "The claim is about arbitrarily many fields, arbitrarily small perturbations and time steps, and arbitrarily many steps.", "anchors": ["pf/euler.go: Euler.Step, Euler.Propagate", "pf/rk4.go: RK4.Step, RK4.Propagate", "pf/model.go: Model.AddEquation, Model.GetRHS, Model.GetDenum"]}
