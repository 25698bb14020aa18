{"id": "C01", "title": "A parameter is the sum of its three physical parts", "statement": "For every 3x3 parameter the full matrix equals isotropic matrix + symmetric anisotropy + DMI matrix; the anisotropy is symmetric and traceless, the DMI matrix is antisymmetric and is the matrix of the reported DMI vector, and no other triple (number, symmetric traceless matrix, vector) reproduces the matrix.", "quantifier": "every real 3x3 matrix stored in a MatrixParameter", "why_tests_cant": "uncountably many matrices; uniqueness is a statement about all decompositions", "anchors": ["src/magnopy/spinham/parameter.py: MatrixParameter.iso, iso_matrix, aniso, dmi, dmi_matrix, matrix"]}
{"id": "C02", "title": "Setting one part of a parameter changes that part only", "statement": "Assigning iso (resp. dmi, resp. a symmetric traceless aniso) makes that part read back as the assigned value and leaves the two other parts as they were; assigning a single component xx..zz changes that matrix element only. The constructor keywords override the matrix part by part.", "quantifier": "every parameter, every new value, every order of assignments", "why_tests_cant": "needs all pairs (old matrix, new value); a test fixes a few numbers", "anchors": ["src/magnopy/spinham/parameter.py: iso.setter, dmi.setter, aniso.setter, xx..zz setters, __init__"]}
{"id": "C03", "title": "Transposing a parameter reverses the DMI and nothing else", "statement": "p.T has the same isotropic part and the same symmetric anisotropy, the opposite DMI vector, p.T.T equals p, and S_a.(p S_b) = S_b.(p.T S_a) for all vectors.", "quantifier": "every parameter and every pair of spin vectors", "why_tests_cant": "universal over matrices and vectors", "anchors": ["src/magnopy/spinham/parameter.py: MatrixParameter.T"]}
{"id": "C04", "title": "Arithmetic on parameters is matrix arithmetic and never touches its operands", "statement": "Sums, differences, negation, multiplication and division by numbers act part by part (iso, aniso, dmi are linear); p == (p // n) * n + p % n with every element of p % n in [0, n) for n > 0.", "quantifier": "all parameters and all numbers (n > 0 for // and %)", "why_tests_cant": "universal over real matrices and numbers", "anchors": ["src/magnopy/spinham/parameter.py: __add__, __sub__, __mul__, __rmul__, __truediv__, __floordiv__, __mod__, __neg__, __pos__"]}
{"id": "C05", "title": "Changing the notation never changes the physics", "statement": "When all four notation attributes are defined, assigning any other notation (any order of double counting, spin normalisation, exchange factor, on-site factor) keeps the classical energy of every spin configuration on every periodic supercell.", "quantifier": "every Hamiltonian, every pair of notations, every supercell size and every spin configuration", "why_tests_cant": "the set of configurations and supercells is infinite; tests look at one iso value", "anchors": ["src/magnopy/spinham/hamiltonian.py: notation.setter, double_counting.setter, spin_normalized.setter, exchange_factor.setter, on_site_factor.setter"]}
{"id": "C06", "title": "Notation round trip restores every parameter", "statement": "Switching to another notation and back returns exactly the same set of bonds and on-site terms with the same matrices (exact arithmetic, non-zero spins and factors).", "quantifier": "every well-formed Hamiltonian and every pair of notations", "why_tests_cant": "universal over Hamiltonians and notations", "anchors": ["src/magnopy/spinham/hamiltonian.py: notation.setter"]}
{"id": "C07", "title": "The first assignment of the notation only interprets the numbers", "statement": "If a notation attribute has never been set, assigning it does not rescale any parameter: the values present before are still present afterwards.", "quantifier": "every Hamiltonian with undefined notation, every assigned value", "why_tests_cant": "all Hamiltonians", "anchors": ["src/magnopy/spinham/hamiltonian.py: double_counting.setter, spin_normalized.setter, exchange_factor.setter, on_site_factor.setter"]}
{"id": "C08", "title": "notation reads back what was assigned, and is an error until complete", "statement": "Reading notation raises NotationError exactly while one of the four attributes is unset; after a successful assignment of a 4-tuple (or 3-tuple, or predefined name in any letter case) it returns that notation; anything else raises ValueError and leaves the Hamiltonian as it was.", "quantifier": "every state and every argument (string, iterable of any length, other object)", "why_tests_cant": "all strings, all lengths, all states", "anchors": ["src/magnopy/spinham/hamiltonian.py: notation, notation.setter, PREDEFINED_NOTATIONS"]}
{"id": "C09", "title": "With double counting every bond has its mirror", "statement": "In every state reachable through the public API in which double_counting is True, (a,b,R) is present iff (b,a,-R) is present.", "quantifier": "every finite history of public mutating calls, including calls that raise", "why_tests_cant": "invariant over unbounded histories", "anchors": ["src/magnopy/spinham/hamiltonian.py: add_exchange, remove_exchange, double_counting.setter, filter, remove_atom"]}
{"id": "C10", "title": "With double counting the mirror carries the transposed matrix", "statement": "In every state reachable through the public API in which double_counting is True, the matrix of (b,a,-R) is the transpose of the matrix of (a,b,R), which is what makes the Hamiltonian Hermitian.", "quantifier": "every finite history of public mutating calls", "why_tests_cant": "invariant over unbounded histories", "anchors": ["src/magnopy/spinham/hamiltonian.py: add_exchange, _ensure_double_counting"]}
{"id": "C11", "title": "Without double counting each pair is stored once, in canonical orientation", "statement": "After assigning double_counting = False no stored bond has its mirror stored, and every stored bond has R > 0 lexicographically or R = 0 and index(a) <= index(b).", "quantifier": "every Hamiltonian, whatever bonds it holds", "why_tests_cant": "all sets of bonds", "anchors": ["src/magnopy/spinham/hamiltonian.py: _ensure_no_double_counting, double_counting.setter"]}
{"id": "C12", "title": "Setting double_counting to its current value is a no-op", "statement": "Assigning double_counting the value it already has leaves the set of bonds and all matrices unchanged.", "quantifier": "every reachable Hamiltonian", "why_tests_cant": "all Hamiltonians", "anchors": ["src/magnopy/spinham/hamiltonian.py: double_counting.setter, _ensure_double_counting, _ensure_no_double_counting"]}
{"id": "C13", "title": "Each parameter is rescaled exactly once by a notation change", "statement": "Changing exchange_factor from c to c' multiplies the matrix of every bond by exactly c/c' (similarly for the other attributes), also if the caller passed the same MatrixParameter object for several bonds.", "quantifier": "every Hamiltonian and every sharing pattern of parameter objects between bonds", "why_tests_cant": "all aliasing patterns", "anchors": ["src/magnopy/spinham/hamiltonian.py: exchange_factor.setter, on_site_factor.setter, spin_normalized.setter, double_counting.setter, add_exchange"]}
{"id": "C14", "title": "Bonds behave like a dictionary", "statement": "After ham[a,b,R] = p, ham[a,b,R] is p; apart from the mirror (only with double counting, only if it was missing, with p transposed) no other bond or on-site term changes; atoms that were not in the crystal are added and no atom is lost.", "quantifier": "every state, bond and parameter", "why_tests_cant": "all states", "anchors": ["src/magnopy/spinham/hamiltonian.py: add_exchange, add_on_site, __setitem__, __getitem__, __contains__"]}
{"id": "C15", "title": "Removing a bond removes that bond (and its mirror) only", "statement": "remove_exchange deletes (a,b,R) and, with double counting, (b,a,-R); everything else is untouched; if the bond is absent it raises KeyError and changes nothing (unless raise_if_no_bond=False).", "quantifier": "every state and bond", "why_tests_cant": "all states", "anchors": ["src/magnopy/spinham/hamiltonian.py: remove_exchange, __delitem__"]}
{"id": "C16", "title": "An on-site term can be removed by atom or by atom name", "statement": "remove_on_site(x) and del ham[x] remove exactly the on-site parameter of the atom, whether x is the Atom or its (unique) name.", "quantifier": "every state and every atom with an on-site term", "why_tests_cant": "all states", "anchors": ["src/magnopy/spinham/hamiltonian.py: remove_on_site, __delitem__"]}
{"id": "C17", "title": "Removing an atom removes it and all its parameters, and nothing else", "statement": "remove_atom(a) succeeds for every atom of the Hamiltonian and leaves exactly the bonds and on-site terms that do not involve a.", "quantifier": "every Hamiltonian, every notation, every atom of it", "why_tests_cant": "all states", "anchors": ["src/magnopy/spinham/hamiltonian.py: remove_atom"]}
{"id": "C18", "title": "Filtering keeps exactly the parameters that satisfy all conditions", "statement": "filter keeps a bond iff it (and, with double counting, its mirror) satisfies max_distance, min_distance and custom_filter; on-site terms are kept iff min_distance is not positive and custom_filter accepts; the result does not depend on the iteration order of the internal set; filtered() leaves the original untouched.", "quantifier": "every Hamiltonian, every combination of conditions, every iteration order of the removal set", "why_tests_cant": "hash-order nondeterminism and all conditions", "anchors": ["src/magnopy/spinham/hamiltonian.py: filter, filtered"]}
{"id": "C19", "title": "Parameters only refer to atoms of the crystal", "statement": "In every state reachable through the public API every atom of every bond and on-site term is an atom of the Hamiltonian.", "quantifier": "every finite history of public mutating calls, including calls that raise", "why_tests_cant": "invariant over unbounded histories", "anchors": ["src/magnopy/spinham/hamiltonian.py: add_exchange, add_on_site, remove_atom, filter, double_counting.setter"]}
{"id": "C20", "title": "magnetic_atoms lists each atom with a parameter exactly once, sorted by index", "statement": "magnetic_atoms contains exactly the atoms with at least one bond or on-site term, without repetition, sorted by index; with distinct indices the result does not depend on set iteration order; I is its length.", "quantifier": "every Hamiltonian and every iteration order of the internal set", "why_tests_cant": "set order is not observable by a test run", "anchors": ["src/magnopy/spinham/hamiltonian.py: magnetic_atoms, I"]}
{"id": "C21", "title": "Iterating exchange, on_site and exchange_like visits every parameter exactly once", "statement": "Each of the three iterators yields exactly the stored parameters, each once, in insertion order (exchange_like: on-site terms first), and their number is the reported length.", "quantifier": "every Hamiltonian of every size", "why_tests_cant": "all sizes", "anchors": ["src/magnopy/spinham/hamiltonian.py: _SpinHamiltonianExchangeIterator, _SpinHamiltonianOnSiteIterator, _SpinHamiltonianExchangeLikeIterator"]}
{"id": "C22", "title": "exchange_like is the same Hamiltonian written with the exchange factor only", "statement": "exchange_factor times the sum over exchange_like equals exchange_factor times the exchange sum plus on_site_factor times the on-site sum, for every spin configuration.", "quantifier": "every Hamiltonian, all non-zero factors, every configuration", "why_tests_cant": "all factors and configurations", "anchors": ["src/magnopy/spinham/hamiltonian.py: _SpinHamiltonianExchangeLikeIterator"]}
{"id": "C23", "title": "Energy.ferro is the classical energy of the Hamiltonian", "statement": "Energy(ham).ferro(e) equals the energy per cell defined by the Hamiltonian in its notation for the cell-periodic configuration with spin directions e (without field), for every notation.", "quantifier": "every Hamiltonian, every notation, every set of directions", "why_tests_cant": "all Hamiltonians and directions", "anchors": ["src/magnopy/spinham/energy.py: Energy.__init__, Energy.ferro"]}
{"id": "C24", "title": "Creating an Energy object does not change the Hamiltonian", "statement": "After Energy(ham) the Hamiltonian has the same bonds, on-site terms, matrices and notation as before.", "quantifier": "every Hamiltonian with a defined notation", "why_tests_cant": "all Hamiltonians", "anchors": ["src/magnopy/spinham/energy.py: Energy.__init__"]}
{"id": "C25", "title": "An Energy object is independent of later changes of the Hamiltonian", "statement": "After energy = Energy(ham), no later assignment to ham's notation or parameters changes the values returned by energy.", "quantifier": "every Hamiltonian, every later history", "why_tests_cant": "all later histories; aliasing", "anchors": ["src/magnopy/spinham/energy.py: Energy.__init__ (class docstring)"]}
{"id": "C26", "title": "Energies depend only on the directions of the input vectors", "statement": "ferro, antiferro and spiral are unchanged when spin vectors or the cone axis are multiplied by positive numbers.", "quantifier": "all inputs with non-zero vectors, all positive multipliers", "why_tests_cant": "all real inputs", "anchors": ["src/magnopy/spinham/energy.py: Energy.ferro, Energy.antiferro, Energy.spiral"]}
{"id": "C27", "title": "Spiral energy is the average over the spiral", "statement": "Without field, spiral(e, n, q) is the average over the phase phi of the bond energies with spin i rotated about n by phi and spin j by phi + q.d.", "quantifier": "all bonds, spin directions, axes and wave vectors", "why_tests_cant": "all real inputs; integral", "anchors": ["src/magnopy/spinham/energy.py: Energy.spiral"]}
{"id": "C28", "title": "Antiferro energy is the average over the two sublattices of cells", "statement": "Without field, if q.d is a multiple of pi for every bond, antiferro(e, n, q) is the average over phi in {0, pi} of the bond energies with spin i rotated about n by phi and spin j by phi + q.d.", "quantifier": "all bonds, spin directions, axes and q with 2q reciprocal", "why_tests_cant": "all real inputs", "anchors": ["src/magnopy/spinham/energy.py: Energy.antiferro"]}
{"id": "C29", "title": "Spiral energy has the symmetries of the spiral", "statement": "spiral is unchanged when all spins are rotated by a common angle about the cone axis, and when q changes by a vector whose product with every bond vector is a multiple of 2 pi; reversing both n and q changes nothing; for isotropic exchange and q = 0 it equals ferro.", "quantifier": "all inputs", "why_tests_cant": "all real inputs", "anchors": ["src/magnopy/spinham/energy.py: Energy.spiral, Energy.ferro"]}
{"id": "C30", "title": "The field energy uses the magnetic moment of the averaged spin", "statement": "With magnetic field h the field contribution is mu_B sum_i g_i S_i h.<e_i>, where <e_i> is the cell average of the spin direction: e_i itself (ferro) or its projection on the cone axis (antiferro, spiral).", "quantifier": "all fields, g factors, spins and directions", "why_tests_cant": "all real inputs", "anchors": ["src/magnopy/spinham/energy.py: Energy.ferro, Energy.antiferro, Energy.spiral (Zeeman part)"]}
{"id": "C31", "title": "The q-gradient of the spiral energy is its derivative", "statement": "The last three components of the spiral gradient are the partial derivatives of the spiral energy with respect to q, for unit spins and a unit cone axis.", "quantifier": "all bonds, spins, axes, wave vectors", "why_tests_cant": "all real inputs; derivative", "anchors": ["src/magnopy/spinham/energy.py: Energy._spiral_grad, Energy.spiral"]}
{"id": "C32", "title": "Optimisation steps keep spins on the unit sphere", "statement": "Every configuration visited and returned by optimize has spin vectors (and cone axis) of length one, for every number of iterations.", "quantifier": "every starting guess with non-zero vectors, every search direction and step, every number of iterations", "why_tests_cant": "unbounded iterations", "anchors": ["src/magnopy/spinham/energy.py: _starting_ferro, _update_x_ferro, _update_x_antiferro, _update_x_spiral, Energy.optimize"]}
{"id": "C33", "title": "Optimisation moves every variable it reports", "statement": "In the antiferro and spiral cases both the spins and the cone axis follow their own torque: the update of each variable depends on its own gradient entries.", "quantifier": "every gradient", "why_tests_cant": "all gradients and sizes", "anchors": ["src/magnopy/spinham/energy.py: _antiferro_grad, _update_x_antiferro, Energy.optimize"]}
{"id": "C34", "title": "optimize stops correctly", "statement": "optimize performs at most max_iterations updates; if it returns before that, the last energy change and the torque targets are within tolerance.", "quantifier": "every energy landscape, tolerance and iteration limit", "why_tests_cant": "unbounded loop", "anchors": ["src/magnopy/spinham/energy.py: Energy.optimize"]}
{"id": "C35", "title": "The line search terminates and its result satisfies the acceptance test", "statement": "_lambda evaluates at most a fixed number of trial steps; it either raises or returns step = 0.99^n in (0,1] for which both coded conditions hold and for which they failed for every larger trial step.", "quantifier": "every energy function, gradient and search direction", "why_tests_cant": "all functions", "anchors": ["src/magnopy/spinham/energy.py: Energy._lambda"]}
{"id": "C36", "title": "An accepted step does not increase the energy", "statement": "Along the search direction of the first step of optimize (steepest descent) the accepted step never increases the energy.", "quantifier": "every Hamiltonian and configuration", "why_tests_cant": "all real inputs", "anchors": ["src/magnopy/spinham/energy.py: Energy._lambda, Energy._compute_search_direction"]}
{"id": "C37", "title": "History output contains every visited configuration once, in order", "statement": "With save_history the concatenation of the written blocks is the sequence of visited configurations, starting with the initial guess, with nothing missing or repeated.", "quantifier": "every run length, history_step and iteration limit", "why_tests_cant": "unbounded runs", "anchors": ["src/magnopy/spinham/energy.py: Energy.optimize"]}
{"id": "C38", "title": "Settings of Energy read back what was assigned", "statement": "m, wolfe_c1, wolfe_c2, magnetic_field, g_factors and spins return the assigned value, and assigning one does not change another.", "quantifier": "all values and all orders of assignment", "why_tests_cant": "all values", "anchors": ["src/magnopy/spinham/energy.py: Energy.m, wolfe_c1, wolfe_c2, magnetic_field, g_factors, spins"]}
{"id": "C39", "title": "The magnon matrix is Hermitian", "statement": "For every k the matrix h(k) of MagnonDispersion is Hermitian (mirror bonds are transposes, on-site matrices symmetric).", "quantifier": "every Hamiltonian, every spin directions, every k", "why_tests_cant": "all k and Hamiltonians", "anchors": ["src/magnopy/magnons/dispersion.py: MagnonDispersion.h, A, B, C, J"]}
{"id": "C40", "title": "Particle-hole symmetry of the magnon matrix", "statement": "h(-k) equals the complex conjugate of h(k) with particle and hole blocks exchanged, so h(k) and h(-k) describe the same bosons.", "quantifier": "every Hamiltonian and every k", "why_tests_cant": "all k and Hamiltonians", "anchors": ["src/magnopy/magnons/dispersion.py: MagnonDispersion.h"]}
{"id": "C41", "title": "Colpa's algorithm returns a bosonic diagonalisation", "statement": "If the matrix is positive definite, the returned G satisfies G g G^dagger = g, and (G^dagger)^-1 D G^-1 is diagonal with the returned E on the diagonal; all E are positive and the first N are in descending, the last N in ascending order.", "quantifier": "every positive-definite Hermitian matrix of every even size, every eigenbasis the eigensolver may return", "why_tests_cant": "all matrices", "anchors": ["src/magnopy/magnons/diagonalization.py: solve_via_colpa"]}
{"id": "C42", "title": "Local spin frames are right-handed orthonormal with e3 along the spin", "statement": "For every non-zero vector the returned triple is orthonormal and right-handed and e3 is the direction of the vector (exactly outside the tolerance band around +-z, up to the tolerance inside it).", "quantifier": "every non-zero vector", "why_tests_cant": "all real vectors", "anchors": ["src/magnopy/magnons/dispersion.py: span_orthonormal_set"]}
{"id": "C43", "title": "omega tries h, h+eps, -h, -h-eps and reports the first success", "statement": "Every returned energy has modulus 0 or above 1e-8; a positive-definite h gives Colpa's energies of h, a negative-definite one minus those of -h, a positive-semidefinite one those of h shifted by 1e-8; N energies are returned (2N with return_G); if nothing works zeros or NaNs are returned.", "quantifier": "every matrix h and every behaviour of the solver", "why_tests_cant": "all inputs", "anchors": ["src/magnopy/magnons/dispersion.py: MagnonDispersion.omega"]}
{"id": "C44", "title": "Filtering a model file removes comments and blank lines only", "statement": "_filter_txt_file keeps, in order, exactly the lines with something before '#', cut at '#'; the reported line numbers are the original positions; filtering twice gives the same lines.", "quantifier": "every text", "why_tests_cant": "all texts", "anchors": ["src/magnopy/io/txt/internal.py: _filter_txt_file"]}
{"id": "C45", "title": "A model file is split into sections faithfully", "statement": "Every section handed to a reader is a contiguous block of lines between two separator lines that starts with its keyword and contains no separator.", "quantifier": "every list of lines", "why_tests_cant": "all files", "anchors": ["src/magnopy/io/txt/verify.py: _verify_model_file"]}
{"id": "C46", "title": "A file that passes verification can be loaded", "statement": "If _verify_model_file accepts a file then load_spinham_txt does not raise.", "quantifier": "every text file", "why_tests_cant": "all files", "anchors": ["src/magnopy/io/txt/verify.py: _verify_*", "src/magnopy/io/txt/internal.py: _read_*, load_spinham_txt"]}
{"id": "C47", "title": "Units declared in a file are applied", "statement": "Loading a text file with exchange (on-site) values in eV, J, K or Ry gives the same Hamiltonian as the file with the values converted to meV; same for lengths in Bohr.", "quantifier": "all values and units", "why_tests_cant": "all values", "anchors": ["src/magnopy/io/txt/internal.py: _read_exchange, _read_bond, _read_on_site, _read_cell, _read_atoms"]}
{"id": "C48", "title": "A negative cell scale fixes the volume", "statement": "With a single negative scale -V in the Cell section the loaded unit cell has volume V.", "quantifier": "every non-degenerate cell and every V > 0", "why_tests_cant": "all real cells", "anchors": ["src/magnopy/io/txt/internal.py: _read_cell"]}
{"id": "C49", "title": "A bond given by several keyword lines is read as one parameter", "statement": "A bond with isotropic, DMI, matrix and anisotropy lines is stored with all of them combined (with the documented priority), and with double counting the automatically created mirror is its transpose.", "quantifier": "every bond block", "why_tests_cant": "all combinations and values", "anchors": ["src/magnopy/io/txt/internal.py: _read_bond, _read_exchange"]}
{"id": "C50", "title": "Text round trip", "statement": "load(dump(ham)) has the same cell, atoms, notation, bonds, on-site terms, cone axis and spiral vector as ham up to the printed precision.", "quantifier": "every Hamiltonian", "why_tests_cant": "all Hamiltonians", "anchors": ["src/magnopy/io/txt/internal.py: dump_spinham_txt, load_spinham_txt"]}
{"id": "C51", "title": "HDF5 round trip", "statement": "load(dump(ham)) has the same atoms in the same order, notation, bonds, on-site terms, cone axis and spiral vector as ham.", "quantifier": "every Hamiltonian with uniquely named atoms", "why_tests_cant": "all Hamiltonians", "anchors": ["src/magnopy/io/hdf5/internal.py: dump_spinham_hdf5, load_spinham_hdf5"]}
{"id": "C52", "title": "load_spinham picks the reader from format or file name", "statement": "An explicit format (any letter case) selects that reader; otherwise '.hdf5' selects HDF5, 'exchange.out' TB2J, anything else the text reader; unknown formats raise ValueError.", "quantifier": "all file names and formats", "why_tests_cant": "all strings", "anchors": ["src/magnopy/io/__init__.py: load_spinham"]}
{"id": "C53", "title": "Exporting to Vampire does not change the Hamiltonian and lists every interaction once", "statement": "dump_ucf leaves bonds, on-site terms, matrices and notation unchanged; the interaction list has one line per exchange-like term, numbered 0..n-1.", "quantifier": "every Hamiltonian with defined notation", "why_tests_cant": "all Hamiltonians", "anchors": ["src/magnopy/io/txt/vampire.py: dump_ucf"]}
{"id": "C54", "title": "A copy is independent of the original", "statement": "Right after copy() both Hamiltonians have the same parameters, notation, atoms and spins. Later calls on one of them never change the other, as long as the program itself does not hand a parameter object of one to the other.", "quantifier": "every Hamiltonian, every interleaved program of calls on the original and the copy", "why_tests_cant": "all interleaved programs; aliasing", "anchors": ["src/magnopy/spinham/hamiltonian.py: copy"]}
{"id": "C55", "title": "optimize uses the quasi-Newton direction of the stored steps", "statement": "From the second iteration on, the search direction of optimize is the L-BFGS two-loop direction built from the stored pairs of displacements and gradient changes.", "quantifier": "every energy landscape, memory size and number of iterations", "why_tests_cant": "unbounded runs; a run also converges along the plain gradient, so the result does not reveal the direction", "anchors": ["src/magnopy/spinham/energy.py: Energy._compute_search_direction, Energy.optimize"]}
{"id": "C56", "title": "The spiral vector moves down the energy", "statement": "In the spiral case a step along the direction of the gradient moves the spiral vector so that, with the other coordinates fixed, the energy does not grow to first order.", "quantifier": "every Hamiltonian, configuration and step", "why_tests_cant": "all real inputs", "anchors": ["src/magnopy/spinham/energy.py: Energy._spiral_grad, _update_x_spiral"]}
{"id": "C57", "title": "omega treats a negative-semidefinite h as the mirror image of a positive-semidefinite one", "statement": "For a negative-semidefinite h that is not definite, omega returns minus Colpa's energies of -h shifted by 1e-8 (the branch commented 'Try to solve for negative semidefinite matrix').", "quantifier": "every Hermitian matrix h, every Cholesky routine and eigensolver", "why_tests_cant": "all matrices and all eigensolvers", "anchors": ["src/magnopy/magnons/dispersion.py: MagnonDispersion.omega"]}
{"id": "C58", "title": "A magnon object is independent of the Hamiltonian it was made from", "statement": "Constructing MagnonDispersion leaves the caller's Hamiltonian unchanged, whatever the outcome; later changes of that Hamiltonian and earlier calls of h or omega do not change the matrices h(k).", "quantifier": "every Hamiltonian history, notation, later program of calls and list of points k", "why_tests_cant": "unbounded programs; aliasing between deep copies, in-place scaling and the cache of C", "anchors": ["src/magnopy/magnons/dispersion.py: MagnonDispersion.__init__, C, h"]}
{"id": "C59", "title": "h(k) is the second-order part of the classical energy", "statement": "For spins tilted from their directions by a wave with vector k and small amplitude, the second-order part of the classical energy is the quadratic form of h(k), for Hamiltonians in any notation.", "quantifier": "every Hamiltonian with complete notation and symmetric on-site matrices, all wave vectors, amplitudes and spin directions", "why_tests_cant": "all real inputs; depends on signs and factors of A, B, C, J and of the change of notation together", "anchors": ["src/magnopy/magnons/dispersion.py: J, A, B, C, h, __init__"]}
{"id": "C60", "title": "The dispersion is periodic in reciprocal space", "statement": "For every reciprocal lattice vector G the energies at k + G are those at k: h(k + G) and h(k) differ by phase factors of the atoms which are the same for particles and holes.", "quantifier": "every magnon object, every k and reciprocal lattice vector G", "why_tests_cant": "all real k and all integer G", "anchors": ["src/magnopy/magnons/dispersion.py: J, h, omega", "src/magnopy/magnons/diagonalization.py: solve_via_colpa"]}
{"id": "C61", "title": "The exported Vampire file has the energy of the Hamiltonian", "statement": "The energy -1/2 sum e_i J_ij e_j that Vampire computes from the interaction list of dump_ucf is the classical energy of the Hamiltonian in units of ENERGY.", "quantifier": "every Hamiltonian with complete notation, every supercell and spin configuration", "why_tests_cant": "all configurations and supercells; depends on the change of notation, exchange_like and the export together", "anchors": ["src/magnopy/io/txt/vampire.py: dump_ucf", "src/magnopy/spinham/hamiltonian.py: _SpinHamiltonianExchangeLikeIterator"]}
{"id": "C62", "title": "The .mat file describes every material of the .UCF file once", "statement": "dump_mat writes exactly one block for every material used by a magnetic atom, numbered one higher than in the .UCF file and with the data of the first such atom; both files name the same number of materials.", "quantifier": "every Hamiltonian and every list of materials", "why_tests_cant": "all lists of materials", "anchors": ["src/magnopy/io/txt/vampire.py: dump_mat, dump_ucf"]}
{"id": "C63", "title": "Masks of the Vampire export remove exactly one part of the tensor", "statement": "dmi=False removes exactly the antisymmetric part and anisotropic=False exactly the symmetric traceless part of every exported matrix, in any combination; nothing else changes.", "quantifier": "every exchange tensor and combination of flags", "why_tests_cant": "all real matrices", "anchors": ["src/magnopy/io/txt/vampire.py: dump_ucf"]}
{"id": "C64", "title": "Writing to an HDF5 file touches only its own group", "statement": "dump_spinham_hdf5 never changes other objects of the file, refuses to touch an existing group unless overwriting is asked for, and if it raises the file is as before.", "quantifier": "all Hamiltonians, files, group names and both values of overwrite", "why_tests_cant": "all files and Hamiltonians", "anchors": ["src/magnopy/io/hdf5/internal.py: dump_spinham_hdf5"]}
{"id": "C65", "title": "Loading from HDF5 without a group name finds the only spin Hamiltonian", "statement": "Without groupname, load_spinham_hdf5 loads the only group of type SpinHamiltonian, in particular one that was written to a file without others, and raises RuntimeError if there is none or more than one.", "quantifier": "all files", "why_tests_cant": "all files", "anchors": ["src/magnopy/io/hdf5/internal.py: load_spinham_hdf5, dump_spinham_hdf5"]}
{"id": "C66", "title": "A TB2J file is read as the Hamiltonian it describes", "statement": "load_tb2j returns the cell, the atoms with their (relative) positions and charges, the notation of TB2J, no on-site parameters, and for every bond of the file the matrix iso·1 + anisotropic part + DMI part given by its block (the last one if there are several); the opposite bond gets the transposed matrix unless the file gives it itself.", "quantifier": "all files of the form written by TB2J: any cell with nonzero determinant, any number of atoms with unique names, any number of blocks with any selection and order of the three parts, any other lines in between", "why_tests_cant": "all files: tests cover a few files; limits (separator at the end, no blocks, an empty line after the atoms) are errors or silently dropped bonds", "anchors": ["src/magnopy/io/txt/tb2j.py: load_tb2j"]}
{"id": "C67", "title": "Converting a TB2J file gives a file that can be loaded", "statement": "manager of convert_tb2j writes exactly one file, whose name and format follow from output_file and output_format, and load_spinham reads it back as the Hamiltonian of the TB2J file.", "quantifier": "all TB2J files that load_tb2j accepts, all output names and formats, all states of the disk", "why_tests_cant": "all files and names; the failure (no spins, dashes) is independent of the numbers in the file", "anchors": ["src/magnopy/score/convert_tb2j.py: manager", "src/magnopy/io/txt/tb2j.py: load_tb2j", "src/magnopy/io/txt/internal.py: dump_spinham_txt", "src/magnopy/io/hdf5/internal.py: dump_spinham_hdf5"]}
{"id": "C68", "title": "The report of magnopy-minimize-energy", "statement": "manager of minimize_energy makes every minimisation of the requested types once, lists for each all magnetic atoms with name, position and the unit direction found (and cone axis and spiral vector), keeps the history of each minimisation in its own file, and ends with a summary of the energies of the states found, in the order of the requested types, each under the name of its type.", "quantifier": "all Hamiltonians, all lists of types (and the default \"all\"), all random numbers, all results of the minimisations", "why_tests_cant": "results are random and there is no reference; the script has no tests; the claim is about every combination of types and outcomes of the minimisations", "anchors": ["src/magnopy/score/minimize_energy.py: manager, _minimize_ferro, _minimize_antiferro, _minimize_spiral", "src/magnopy/spinham/energy.py: Energy.optimize"]}
{"id": "C69", "title": "Magnets with rotation symmetry have a zero mode at k = 0", "statement": "If every term of the Hamiltonian is invariant under rotations about an axis and the spins are along a stationary point of the energy, the amplitudes that turn all spins about the axis are annihilated by h(0), so h(0) is singular and Colpa's method fails for it; for collinear spins whose relative signs are favoured by every bond (scalar products only) the lowest energy that omega reports for k = 0 is zero.", "quantifier": "all well-formed Hamiltonians in every notation that are invariant under rotations about an axis, all spin vectors, all positions, all Cholesky, eigenvalue and sorting routines of the contract", "why_tests_cant": "a statement about all Hamiltonians with a continuous symmetry, every notation and any number of atoms; at the singular point the floating-point results of a test depend on rounding", "anchors": ["src/magnopy/magnons/dispersion.py: MagnonDispersion.A, B, C, h, omega", "src/magnopy/magnons/diagonalization.py: solve_via_colpa"]}
{"id": "C70", "title": "Collinear states that all bonds favour are stable", "statement": "For a Hamiltonian of scalar products and collinear spins whose relative signs every bond favours, h(k) is positive semidefinite for every k, and omega reports N non-negative real energies in descending order, never the substitute values and never the energies of -h.", "quantifier": "all well-formed Hamiltonians of scalar products in every notation, all lengths of spins, all common directions, all signs favoured by the bonds, all k, all routines of the contract", "why_tests_cant": "all k points, all lattices and numbers of atoms; a sign error in one bond or one block shows only for particular k", "anchors": ["src/magnopy/magnons/dispersion.py: MagnonDispersion.J, A, B, C, h, omega", "src/magnopy/magnons/dispersion.py: span_orthonormal_set"]}
{"id": "C71", "title": "Magnons depend on the Hamiltonian only through its classical energy", "statement": "Two well-formed Hamiltonians on the same magnetic atoms whose classical energies agree for every configuration of every supercell give the same matrix h(k) for every k and the same arrays of omega. In particular changes of the notation, the order of insertion, double counting and the iteration order of sets do not change magnons.", "quantifier": "all pairs of well-formed Hamiltonians in any notations with symmetric on-site matrices and equal energies; all sequences of changes of the notation (on-site matrices need not be symmetric there); all k, all flags, all routines of linear algebra", "why_tests_cant": "equality of two functions of k for all Hamiltonians with the same energy, whatever their notation or history", "anchors": ["src/magnopy/magnons/dispersion.py: MagnonDispersion.__init__, J, A, B, C, h, omega", "src/magnopy/spinham/hamiltonian.py: exchange_like, notation, magnetic_atoms"]}
{"id": "C72", "title": "Magnon energies do not depend on names, lattice vectors, cells, origin and axes", "statement": "If the atoms are renamed or reordered, other vectors of the same lattice, other cells for the atoms and another origin are chosen, all spins are turned by one rotation, and space is turned or reflected together with k, omega returns the same array of energies.", "quantifier": "all well-formed Hamiltonians with symmetric on-site matrices and the same energy in both descriptions, all k, all flags, stable or not, all correct routines (also different ones)", "why_tests_cant": "all rotations, all renamings, all bases of the lattice, all choices of cells at once; the exception is an interval of width 1e-8 around the z axis", "anchors": ["src/magnopy/magnons/dispersion.py: span_orthonormal_set, MagnonDispersion.__init__, J, A, B, C, h, omega", "src/magnopy/magnons/diagonalization.py: solve_via_colpa"]}
{"id": "C73", "title": "The textbook dispersions of ferromagnets", "statement": "J(k) is the Fourier transform of the parameters of the user in any notation. For a Hamiltonian of scalar products and parallel spins h(k) consists of two equal blocks, the textbook matrix of a ferromagnet, and the energies of omega are its eigenvalues; with one atom the energy is the sum of 2 E (cos(k d) - 1)/S over the stored bonds, for every sign. The exceptions at 1e-8 are exactly described.", "quantifier": "all well-formed Hamiltonians in any notation (J(k)); all Hamiltonians of scalar products, any number of atoms, any lengths of the spins, all k, all correct routines of linear algebra", "why_tests_cant": "a formula for all parameters, notations and wave vectors; tests compare a few points of a few models", "anchors": ["src/magnopy/magnons/dispersion.py: MagnonDispersion.__init__, J, A, B, C, h, omega", "src/magnopy/magnons/diagonalization.py: solve_via_colpa"]}
{"id": "C74", "title": "The textbook dispersions of antiferromagnets and ferrimagnets", "statement": "For a Hamiltonian of scalar products with two atoms and antiparallel spins of any lengths omega reports sqrt(((A + B)/2)^2 - |T|^2) + |A - B|/2 and the same with minus, where A, B and T are computed from the parameters of the user, exactly if A > 0 and |T|^2 < A B; in all other cases the energies for A + 1e-8 and B + 1e-8, minus the energies, zeros or NaN, under exactly stated conditions.", "quantifier": "all Hamiltonians of scalar products in any notation with two magnetic atoms, all k, all flags, all correct routines of linear algebra", "why_tests_cant": "a formula for all parameters, notations and wave vectors, and the exact set of wave vectors for which h(k) is positive definite", "anchors": ["src/magnopy/magnons/dispersion.py: MagnonDispersion.__init__, J, A, B, C, h, omega", "src/magnopy/magnons/diagonalization.py: solve_via_colpa"]}
{"id": "C75", "title": "omegas and the script magnopy-magnon-dispersion report omega of every point", "statement": "MagnonDispersion.omegas returns one row for each of the N branches and one column for each k point, and a column is what omega of a new object returns for this point, whatever was called before. magnopy-magnon-dispersion ends without exception for every readable Hamiltonian on a non-empty path; the table has one row per point with the coordinate along the path, the N energies, relative and absolute coordinates and as many names as columns; the figure has the same curves. Additional points are read in groups of five words and incomplete groups are ignored. Files go to the directory of the seed name, or of the input if the seed name has none; only the files that the options ask for are written, and a failing run writes neither table nor figure. Unstable points get zeros.", "quantifier": "all Hamiltonians for which magnons are defined, all lists of points, all routines of diagonalisation, all options, all environments and earlier contents of the disk", "why_tests_cant": "all lists of points and options, and the cache shared by all points", "anchors": ["src/magnopy/magnons/dispersion.py: MagnonDispersion.omegas, __call__", "src/magnopy/score/magnon_dispersion.py: manager"]}
{"id": "C76", "title": "The energies of magnons are the frequencies of the linearised equations of motion", "statement": "A travelling wave with wave vector k around the directions of the spins, whose amplitudes oscillate with frequency w, obeys the classical equations of motion S dn/dt = dE/dn x n of every magnetic atom in every cell up to first order in the amplitudes exactly if the directions are a stationary point of the energy and h(k) x = w g x, where E is the energy of the Hamiltonian of the user. If h(k) is positive definite, a number above 1e-8 is among the energies that omega reports exactly if it is the frequency of such a wave that does not vanish. For Hamiltonians of scalar products every collinear state is stationary.", "quantifier": "all well-formed Hamiltonians in any notation with spins of the lengths of the spin vectors, all periodic supercells, all plane waves of them, all amplitudes and frequencies, all correct routines of linear algebra", "why_tests_cant": "a statement about derivatives of the energy for all waves and supercells; tests compare energies of a few points with stored numbers", "anchors": ["src/magnopy/magnons/dispersion.py: MagnonDispersion.__init__, J, A, B, C, h, omega", "src/magnopy/magnons/diagonalization.py: solve_via_colpa"]}
{"id": "C77", "title": "The layout of the logo", "statement": "logo() never raises. Its lines are the title and, if there is information, at least seven lines with the complete picture and the information beside it. The information lines stand in the given order, all lines have the same length (the requested one, at least that of the title) if no information line is longer than 58 characters, and every line starts with the requested comment mark, so a logo with comment=True is ignored by the reader of model files.", "quantifier": "all information lists, line lengths, versions and dates, flat or not, with or without date, all comment marks", "why_tests_cant": "all lists of texts of any number and length", "anchors": ["src/magnopy/_pinfo.py: logo", "src/magnopy/io/txt/internal.py: dump_spinham_txt, _filter_txt_file"]}
{"id": "C78", "title": "Spiral vector and cone axis are the last accepted values", "statement": "After any history of assignments, also failing ones, spiral_vector is the last assigned vector of three numbers, and cone_axis is the unit vector along the last assigned axis; both are None before the first accepted assignment and never again. An assignment raises ValueError exactly for values that are no three numbers, and for axes without a component above 1e-8, and then changes nothing. The arrays that the getters return are the stored ones: only writing into the current array changes a value.", "quantifier": "all histories of assignments of any values and of writes into returned arrays", "why_tests_cant": "all histories, with exceptions and aliased arrays", "anchors": ["src/magnopy/spinham/hamiltonian.py: SpinHamiltonian.spiral_vector, SpinHamiltonian.cone_axis"]}
{"id": "C79", "title": "The torques of optimize are the torques of the energy", "statement": "For unit spins (and a unit cone axis) the torques that optimize computes by finite differences and reports agree with the torques of the public energy functions: if the vectors start to turn with angular velocities w_i, the energy changes at the rate sum w_i.T_i, and every component of the computed torques differs from T_i by at most 7.2e-7 (ferro), 2.2e-6 (spins of cone states) or 5.8e-5 (cone axis) times the sum of the absolute values of all parameters and Zeeman terms. In the ferro case the slope of the energy along any search direction p is -g.p for the gradient vector g, up to that error, and when optimize stops by itself the torques before the last update are within the tolerance, up to that error.", "quantifier": "all Energy objects, fields, spin directions, cone axes, spiral vectors, motions, search directions and runs", "why_tests_cant": "all real configurations; derivatives and error bounds", "anchors": ["src/magnopy/spinham/energy.py: Energy._ferro_grad, Energy._antiferro_grad, Energy._spiral_grad, Energy.ferro, Energy.antiferro, Energy.spiral, Energy.optimize"]}
{"id": "C80", "title": "The history of optimize is a table of the run", "statement": "The text that optimize writes to the history file, or prints, is a table: the first line has the titles (Energy, Torque, S1_x, ..., for cone states also Torque_n, n_x..n_z, q_x..q_z), every further non-blank line has one number for each title, and row k gives the energy (nine significant digits), the spin directions, cone axis, spiral vector (eight decimal digits) and largest torque of the k-th configuration the minimisation visited, starting with the starting point; without max_iterations there is one row for every configuration. Histories of several runs written to the same file stand below each other.", "quantifier": "all Energy objects, starting points, settings, history steps and runs, all three cases, all formatters of numbers that round to the printed digits", "why_tests_cant": "any number of spins and iterations; real-valued energies; separators and blank lines at block borders depend on the number of iterations", "anchors": ["src/magnopy/spinham/energy.py: _default_history_processor_ferro, _default_history_processor_antiferro, _default_history_processor_spiral, Energy.optimize"]}
{"id": "C81", "title": "The .UCF file can be read back", "statement": "The text that dump_ucf returns or writes is an .UCF file: after comments and blank lines are skipped it has the cell sizes and vectors (to eight digits), the number of magnetic atoms and of materials, one line per magnetic atom with its number, position and material, the announced number of tensorial interactions, and for every ordered pair with a stored bond and every on-site term one line with its number, the indices of the two atoms, the cell and the nine entries of the masked matrix times ENERGY, to decimals + 1 significant digits; the energy computed from the text differs from the energy of the parameters by at most half of 10^-decimals of the sum of the absolute values of its terms. The logo does not change what is read.", "quantifier": "all well-formed Hamiltonians, masks, materials, numbers of decimals, iteration orders, supercells and spin configurations, all formatters of numbers that round to the printed digits", "why_tests_cant": "unbounded numbers of atoms, bonds and digits; real-valued parameters; large numbers may run together with their neighbours if a separator is missing", "anchors": ["src/magnopy/io/txt/vampire.py: dump_ucf"]}
{"id": "C82", "title": "dump_vampire writes three files that fit together", "statement": "dump_vampire writes seedname.UCF, seedname.mat and input, changes no other file and leaves the Hamiltonian as it was; if it raises, no file is written. The input file names the two other files. The .mat file is a list of keys with values (comments after # and ! skipped, no key twice): the number of materials and, for every material of a magnetic atom of the .UCF file, under its number plus one, the name, element, spin and spin direction (eight digits, random if there is none), damping and anisotropy of the first atom with this material.", "quantifier": "all well-formed Hamiltonians, lists of materials, atom names and types, seed names, file systems and formatters of numbers", "why_tests_cant": "unbounded numbers of atoms and materials, arbitrary names; comments and separators interact with names", "anchors": ["src/magnopy/io/txt/vampire.py: dump_vampire, dump_mat"]}
{"id": "C83", "title": "Time reversal and reciprocity of the magnon energies", "statement": "omega for the reversed spins at -k returns the array of omega for the given spins at k. Hence omega(-k) = omega(k) if the magnet and its state are symmetric under inversion of space, or if all spins are perpendicular to an axis n and half a turn of all spins about n changes no term of the Hamiltonian; more generally the array at the transformed wave vector is the same for each symmetry of the magnet that keeps its state, and at minus the transformed wave vector for each that reverses it. Without a symmetry it is false: a chain with a Dzyaloshinskii-Moriya vector along the spins has the energies 3 and 1 at opposite wave vectors.", "quantifier": "all well-formed Hamiltonians with symmetric on-site matrices, all spin vectors that are not zero, all k, all flags, stable or not, all correct routines (also different ones)", "why_tests_cant": "a test compares a few wave vectors of a few magnets within a tolerance; most examples have inversion symmetry, so a wrong sign of k in one of the blocks A(k), A(-k), B(k) stays unseen", "anchors": ["src/magnopy/magnons/dispersion.py: span_orthonormal_set, MagnonDispersion.__init__, J, A, B, C, h, omega", "src/magnopy/magnons/diagonalization.py: solve_via_colpa"]}
{"id": "C84", "title": "What the readers return is sound", "statement": "A Hamiltonian returned by load_spinham (text), load_spinham (HDF5) or load_tb2j_model, whatever the file contains, has unique keys, refers to atoms of its crystal only, keeps every parameter in an object of its own, holds the mirror of every bond if it counts bonds twice, and numbers its atoms from one. The spin of an atom is the length of the vector in the file; TB2J files give none. The distance of a bond, which filtering uses, is that of its atoms in the crystal of the file. Hence another exchange or on-site factor rescales every parameter exactly once, and double counting can be switched off and on again: bonds of an atom with itself in the same cell are lost, all others stay, and of each pair of bonds one keeps its value and the other holds its transpose.", "quantifier": "all files for which the readers return, all text and number libraries", "why_tests_cant": "files are unbounded texts; a shared parameter object or a wrong index shows up only in a later change of the notation", "anchors": ["src/magnopy/io/txt/internal.py: load_spinham", "src/magnopy/io/hdf5/internal.py: load_spinham", "src/magnopy/io/txt/tb2j.py: load_tb2j_model"]}
{"id": "C85", "title": "Files keep the physics", "statement": "If a Hamiltonian is written to an HDF5 file and read back, the classical energy of every configuration of every supercell and the magnon energies at every wave vector are the same; with a text file the energy is the same up to half of the fourth digit of every entry, times the spins. False for Hamiltonians without on-site parameters: neither file keeps the on-site factor, and Energy of what is read raises NotationError. Proved: the energies of the parameters for each notation, and according to the own notation if there are exchange and on-site parameters; the magnon energies (HDF5) for all Hamiltonians, with bonds counted once or twice, in either orientation, with any number of atoms, also without exchange or on-site parameters.", "quantifier": "all storable Hamiltonians, all supercells and configurations, all wave vectors, all correct routines of linear algebra", "why_tests_cant": "the order and the indices of the atoms change in the file for ten or more atoms; energies depend on infinitely many configurations", "anchors": ["src/magnopy/io/hdf5/internal.py: dump_spinham, load_spinham", "src/magnopy/io/txt/internal.py: dump_spinham, load_spinham", "src/magnopy/spinham/energy.py: Energy.__init__", "src/magnopy/magnons/dispersion.py: MagnonDispersion"]}
{"id": "C86", "title": "The results file of magnopy-minimize-energy can be read", "statement": "Whatever happens in the script, the text of the results file, read line by line and word by word, gives the tables of spins, cone axes, spiral vectors and energies which were written, in order, with numbers right to eight digits after the point; for the ferro and spiral cases these are name, position and direction of every magnetic atom and the energy of the state found. Every history file is announced by its name. The last claim is false for the antiferro case: the line break after the name is missing, so that the next text is joined to it.", "quantifier": "all runs of the script (also those which raise), all outcomes of the minimisations, all seeds and names without spaces, all correct formatting and parsing of numbers", "why_tests_cant": "the layout depends on names, numbers and outcomes of minimisations without bound", "anchors": ["src/magnopy/score/minimize_energy.py: _minimize_ferro, _minimize_antiferro, _minimize_spiral, manager"]}
{"id": "C87", "title": "The text files of magnopy-magnon-dispersion can be read", "statement": "The data file of the script, read as a table of numbers, has one row for each point of the path in the order of the path; a row gives the coordinate along the path, the energies of omega of a new object, relative and absolute coordinates of the point, right to eight digits after the point (coordinates) and nine significant digits (energies). The info file ends with the absolute name of the data file. With join_output the description stands in front of the same table. The joined file can be read as a table of numbers as well, and the headings of the description are lines. The last two claims are false: the description is not commented, and the headings after the lists of points and ticks are joined to these lists.", "quantifier": "all Hamiltonians for which the magnons are defined, all paths with at least one point, all options, all routines of diagonalisation, all correct formatting and parsing of numbers", "why_tests_cant": "the number of atoms, points and digits is unbounded", "anchors": ["src/magnopy/score/magnon_dispersion.py: manager (lines 117-199)"]}
{"id": "C88", "title": "A supercell describes the same magnet", "statement": "If the same crystal is described with a larger cell of n cells (any lattice vectors of a sublattice, any numbering of the atoms, any notations), then the classical energies of the two Hamiltonians agree for all configurations, the number of magnons is multiplied by n, there are n wave vectors G that are equivalent to zero for the larger cell, and the energies which omega reports for the larger cell at k are, with multiplicities, those which it reports for the crystal at all k + G. The last claim holds if all matrices h(k + G) are positive definite or all are negative definite; otherwise it is false of the code, which shifts the whole matrix by 1e-8, or gives up for the whole matrix.", "quantifier": "all well-formed Hamiltonians in all notations with any number of atoms, all sublattices of finite index and representatives, all spin directions, all wave vectors, all flags of omega, all correct routines of linear algebra", "why_tests_cant": "relates two runs on different descriptions for all crystals, all supercells and all wave vectors; a test checks finitely many of them", "anchors": ["src/magnopy/magnons/dispersion.py: MagnonDispersion.__init__, J, A, B, C, h, omega", "src/magnopy/magnons/diagonalization.py: solve_via_colpa", "src/magnopy/spinham/hamiltonian.py: the setters of the notation"]}
{"id": "C89", "title": "The magnons of a minimum of the energy are stable", "statement": "If the directions of the spins are a local minimum of the classical energy of a supercell (every spin of the supercell may deviate on its own), then h(k) is positive semidefinite for every wave vector of the supercell. If this holds for all n x n x n supercells and the cell has a volume, then h(k) is positive semidefinite for every k, and omega reports N non-negative energies in descending order for every k, never the substitute and never energies of the opposite matrix. A minimum among the states that repeat the cell, as found by Energy.optimize, guarantees this for k = 0 only.", "quantifier": "all well-formed Hamiltonians in all notations with any number of atoms, all spin lengths and directions, all local minima, all supercells, all wave vectors, all flags of omega, all correct routines of linear algebra", "why_tests_cant": "the claim is about all wave vectors and all minima, including those of frustrated and non-collinear magnets that no test lists; the proof compares every neighbouring configuration of every supercell with the matrix that the code builds", "anchors": ["src/magnopy/magnons/dispersion.py: MagnonDispersion.__init__, J, A, B, C, h, omega", "src/magnopy/magnons/diagonalization.py: solve_via_colpa", "src/magnopy/energy.py: Energy.E_0, Energy.optimize"]}
{"id": "C90", "title": "The magnon matrices have the whole second-order energy; positive definite matrices are the firm minima", "statement": "The second-order energy of any small deviations of the spins of a supercell is |supercell|/2 times the sum, over all wave vectors k of the supercell, of the forms x(k)* h(k) x(k), where x(k) holds the Fourier components of the deviations. If the lattice vectors span the space, then for every supercell: the state with the spins along the third vectors of the local frames is a firm minimum of the classical energy (close to the state the energy grows at least with the squares of the deviations of all spins) if and only if it is stationary and h(k) is positive definite for every wave vector k of the supercell. In particular, positive definite h(k) for all k and a stationary state leave no other state with the same or a lower energy close to it, in any supercell. A minimum that is not firm (the isotropic ferromagnet) shows that positive definite matrices need the stronger premise.", "quantifier": "all well-formed Hamiltonians in all notations with any number of atoms, all spin lengths and directions, all supercells, all deviations, all wave vectors", "why_tests_cant": "an equivalence between a statement about all neighbouring states of all supercells and a statement about the matrices of all wave vectors; no finite set of states or wave vectors decides either side", "anchors": ["src/magnopy/magnons/dispersion.py: MagnonDispersion.__init__, J, A, B, C, h", "src/magnopy/energy.py: Energy.E_0"]}
{"id": "C91", "title": "Bounds, sum rules, comparison and continuity of the magnon energies", "statement": "If h(k) is positive definite, the 2N energies e found by omega (rounded to zero up to 1e-8) are positive and ordered, and with the metric g of bosons: the product of all e is det h(k), the sum of e^2 is the trace of (g h)^2, the sum of the first N minus the sum of the last N is the trace of g h, the sum of all e is at most the trace of h, and every e is between any lower and any upper bound of h(k). The last of the N energies is the least value of x* h(k) x among the vectors x with x* g x = 1. If the matrix of another magnon object with as many atoms is larger (the difference is positive semidefinite), then every energy that omega reports is at least as large, place by place. The reported energies are continuous functions of the wave vector, place by place, wherever h(k) is positive definite (up to the rounding of energies below 1e-8).", "quantifier": "all magnon objects with any number of atoms, all wave vectors with a positive definite matrix, all pairs of objects, all flags of omega, all correct routines of linear algebra; continuity: all well-formed Hamiltonians in all notations with symmetric on-site terms", "why_tests_cant": "inequalities between the spectra of all pairs of matrices, a minimum over all vectors and a limit over all neighbouring wave vectors; tests sample finitely many of them and cannot see a limit", "anchors": ["src/magnopy/magnons/dispersion.py: MagnonDispersion.h, MagnonDispersion.omega", "src/magnopy/magnons/diagonalization.py: solve_via_colpa"]}
{"id": "C92", "title": "Interactions that favour the state raise the magnon energies", "statement": "Let two Hamiltonians have the same magnetic atoms and spins. If every small change of the directions of the spins of a supercell costs at least as much classical energy with the second Hamiltonian as with the first one, then h'(k) - h(k) is positive semidefinite for every wave vector k of the supercell; if this holds for all n x n x n supercells and the cell has a volume, for every k. Where h(k) is positive definite, every energy that omega reports for the second Hamiltonian is then at least the energy at the same place for the first one. In particular an additional easy axis along each spin, of any strengths, does not lower any magnon energy.", "quantifier": "all pairs of well-formed Hamiltonians in all notations with any number of atoms, all spin lengths and directions, all supercells, all wave vectors, all flags of omega, all correct routines of linear algebra", "why_tests_cant": "compares the spectra of all pairs of Hamiltonians whose energies are ordered close to a state; a test fixes two Hamiltonians and a few wave vectors", "anchors": ["src/magnopy/magnons/dispersion.py: MagnonDispersion.__init__, J, A, B, C, h, omega", "src/magnopy/magnons/diagonalization.py: solve_via_colpa", "src/magnopy/energy.py: Energy.E_0"]}
{"id": "C93", "title": "Parameters do not share their matrices", "statement": "In any program that makes parameters, reads and writes their attributes, computes with them, makes arrays and writes into arrays (also if statements raise): p.matrix is q.matrix only if p is q. A statement changes the matrix of q only if it assigns to an attribute of q or writes into the array q.matrix. An array taken as a = p.matrix stays the matrix of p until p.matrix, p.iso, p.aniso or p.dmi is assigned; then it belongs to no parameter any more, so that writing into it is lost. A program that neither writes into arrays nor passes them sees the parameters as plain matrices without identity: same matrices at the end, same exceptions on the way.", "quantifier": "all programs (finite sequences of statements) over any number of parameters and arrays, all values", "why_tests_cant": "absence of sharing after every sequence of statements, by induction over programs; a test tries a few sequences", "anchors": ["src/magnopy/spinham/parameter.py: MatrixParameter.__init__, T, matrix, iso, aniso, dmi and their setters, xx ... zz, arithmetic operators"]}
{"id": "C94", "title": "The parts of a parameter in other axes", "statement": "For an orthogonal matrix R and any matrix m, the isotropic value of R m R^T is that of m, its anisotropy is R aniso R^T and its Dzyaloshinskii-Moriya vector is det(R) R dmi; dmi_module and rel_dmi are unchanged. The energy u m v of two spins is iso u.v + u aniso v + dmi.(u x v). The squares of the entries add up to 3 iso^2, the squares of the anisotropy and 2 dmi_module^2. dmi_module is zero exactly for symmetric matrices, the same for the transposed matrix, and |c| times as large for c times the matrix. rel_dmi is a number exactly if iso is not zero, otherwise infinite, or not a number if the matrix is symmetric; it does not change if the parameter is multiplied by a number other than zero.", "quantifier": "all 3x3 matrices, all orthogonal matrices (proper and improper), all spins, all factors", "why_tests_cant": "identities between real functions of nine entries and of all orthogonal matrices; tests sample points up to rounding", "anchors": ["src/magnopy/spinham/parameter.py: MatrixParameter.iso, aniso, dmi, dmi_module, rel_dmi, T, __mul__"]}
{"id": "C95", "title": "Comparing parameters and the short names of their parts", "statement": "Two parameters are equal (==) exactly if all entries are, and different (!=) otherwise. Compared with rows of a 3x3 matrix the entries are compared; with anything else ValueError is raised by both == and !=. The names I, S, A can be used for iso, aniso, asymm_matrix: reading gives the same values, and assigning has the same effect: the new value is read from both names and the other parts stay.", "quantifier": "all matrices, all array-like values and things that are not arrays, all names", "why_tests_cant": "an equivalence over all pairs of matrices and over all shapes of arguments", "anchors": ["src/magnopy/spinham/parameter.py: MatrixParameter.__eq__, __neq__, I, S, A, iso, aniso, asymm_matrix"]}
{"id": "C96", "title": "The angles of a vector", "statement": "vector_to_angles returns, for each vector other than zero, its length and the polar and azimuthal angles (in degrees or radians) that give the vector back.", "quantifier": "all vectors of three real numbers other than zero, degrees and radians", "why_tests_cant": "a statement about all real vectors, with trigonometric functions and a region near the z axis that is given by tolerances", "anchors": ["src/magnopy/geometry.py: vector_to_angles"]}
{"id": "C97", "title": "Magnons of sums and multiples of Hamiltonians", "statement": "The magnon matrix is linear in the Hamiltonian: if the classical energy of one Hamiltonian is x times the energy of a second plus y times the energy of a third, for all configurations, then h(k) is x times the matrix of the second plus y times the matrix of the third, for every k and any notations. Multiplying a Hamiltonian by x > 0 multiplies all magnon energies by x. The lowest magnon energy of a sum with positive weights is at least the weighted sum of the lowest magnon energies, and the sum is stable if both parts are.", "quantifier": "all triples of well-formed Hamiltonians with the same magnetic atoms, in all notations, all real x and y, all wave vectors; energies wherever h(k) is positive definite", "why_tests_cant": "relates the results for infinitely many Hamiltonians and wave vectors, with the notation changes inside the constructor", "anchors": ["src/magnopy/magnons/dispersion.py: MagnonDispersion.__init__, J, A, B, C, h, omega", "src/magnopy/spinham/hamiltonian.py: notation"]}
{"id": "C98", "title": "Round-off of changes of the notation", "statement": "With rounded floats any sequence of assignments to the notation gives the same bonds, atoms, notation and exceptions as exact arithmetic, and every stored number is exact up to one rounding per change of double_counting and two per change of every other attribute; a round trip restores all numbers up to the relative error nu/(1-nu) of these n roundings, zeros exactly, and the classical energy of every configuration changes at most by this error times the sum of the absolute values of its terms. Nothing is rounded if factors are powers of two (as in all predefined notations) and spin_normalized is not changed or spins are powers of two. Round trips with other factors need not restore the numbers bit by bit.", "quantifier": "all sequences of assignments, all Hamiltonians whose parameters are objects of their own, all roundings with relative error at most u < 1 (rounding to p binary digits is one), all configurations on all supercells", "why_tests_cant": "bounds for all sequences of operations and all numbers; a test sees the errors of a few numbers", "anchors": ["src/magnopy/spinham/hamiltonian.py: notation, double_counting, spin_normalized, exchange_factor, on_site_factor (setters)"]}
{"id": "C99", "title": "Command lines of the scripts", "statement": "A command line of magnopy-convert-tb2j, magnopy-minimize-energy or magnopy-magnon-dispersion made of options (by full name or unambiguous abbreviation) with values, in any order, calls manager with exactly these values (the last one if repeated) and the declared defaults for all others; required options must be given. Every other command line either stops with a message before manager or calls it with values of the types, choices and counts manager expects, so that no exception about formats, types of ground states or the size of the field can arise. magnopy never raises and prints what its command says. Surplus or missing words, ambiguous and unknown options are refused. Values that start with a dash, such as -1e-3, are not accepted without '='.", "quantifier": "all lists of arguments, all texts of values, all functions that read numbers", "why_tests_cant": "arguments are arbitrary lists of arbitrary texts; abbreviations, clusters and orders combine without bound", "anchors": ["src/magnopy/score/convert_tb2j.py: create_parser", "src/magnopy/score/minimize_energy.py: create_parser", "src/magnopy/score/magnon_dispersion.py: create_parser", "src/magnopy/__main__.py: main"]}
{"id": "C100", "title": "Round-off of the energy of a state", "statement": "In floating-point arithmetic, whatever order numpy adds in, Energy.ferro raises the same exceptions as in exact arithmetic, and its value differs from the exact energy at most by Nu/(1-Nu) times the sum of the absolute values of all terms, where N is the number of bonds plus three times the depth of the sums inside einsum and norm plus twelve. So states whose exact energies differ by more than these bounds are ordered correctly, and the relative error is at most Nu/(1-Nu) if no terms cancel.", "quantifier": "all Energy objects, all matrices, spins, fields and orientations, all orders of additions in every call of einsum and norm, all roundings with relative error at most u < 1", "why_tests_cant": "bounds for all numbers and all orders of additions; a test sees the errors of a few numbers on one machine", "anchors": ["src/magnopy/spinham/energy.py: Energy.ferro"]}
{"id": "C101", "title": "Round-off of the energies of cone states", "statement": "In floating-point arithmetic, whatever order numpy adds in, Energy.antiferro and Energy.spiral raise the same exceptions as in exact arithmetic, and their values differ from the exact energies at most by Nu/(1-Nu) times the size of all terms (the expression of the code without signs, with one for the cosine and the sine) plus (d+1)u/(1-(d+1)u) times the size of the terms that turn with the spiral vector, each multiplied by the size of its phase |q||d|; N is the number of bonds plus eleven times the depth d of the sums plus the roundings of the cosine plus 33. So spirals whose exact energies differ by more than these bounds are ordered correctly, and without a spiral vector the phases add nothing.", "quantifier": "all Energy objects, matrices, bond vectors, spins, fields, orientations, cone axes and spiral vectors, all orders of additions in every sum, all roundings with relative error at most u < 1, all cosines and sines with relative error of k roundings", "why_tests_cant": "bounds for all numbers and all orders of additions; a test sees the errors of a few numbers on one machine", "anchors": ["src/magnopy/spinham/energy.py: Energy.antiferro, Energy.spiral"]}
{"id": "C102", "title": "The log of the verifier explains every refusal", "statement": "Verification of a model file refuses it exactly if at least one error is logged; everything the log says about the file is true (line numbers point at lines with content, words and counts are those of the line or section, atoms called unknown are not in the table of atoms, values called wrong are wrong); the numbers of blocks are those of the words in the line.", "quantifier": "all files, accepted or refused, also if verification ends with an exception; all functions float, int and isalnum", "why_tests_cant": "about forty kinds of messages, sent from nested checks that depend on the errors found before; files are unbounded", "anchors": ["src/magnopy/io/txt/verify.py: all _verify_* functions"]}
{"id": "C103", "title": "What the log of the verifier leaves out", "statement": "Every fault of a model file is in the log of its verification. If this fails: all faults of the table of atoms and all unknown sections are logged whatever else is wrong, and an error about a line of any other section means that all errors in the log are about that section.", "quantifier": "all files, all functions float, int and isalnum", "why_tests_cant": "combinations of faults in several sections; the order of sections in the file is arbitrary", "anchors": ["src/magnopy/io/txt/verify.py: _verify_model_file, _verify_atoms"]}
{"id": "C104", "title": "The filtered copy of a model file", "statement": "Loading a model file with save_filtered=True returns the same Hamiltonian or raises the same exception as without, leaves the model file and all other files as they are except for one file \"filtered_<name>\", which has the lines of the model file without comments and blank lines, and loading that copy gives the same Hamiltonian.", "quantifier": "all file names and texts (with any line ends), all disks, all functions float, int and isalnum", "why_tests_cant": "unbounded texts and line ends; the repository has no test with a name in another directory", "anchors": ["src/magnopy/io/txt/internal.py: _filter_txt_file, load_spinham_txt"]}
{"id": "C105", "title": "Round-off of the magnon matrix and of magnon energies", "statement": "In floating-point arithmetic, whatever order numpy adds in, every entry of h(k) differs from the exact one by at most Nu/(1-Nu) times the sum of the absolute values of all its terms, plus (d+3)u/(1-(d+3)u) times the sum over the terms of A(k) and B(k) of their absolute values times |k||d|; N is the number of bonds plus the number of atoms plus four times the depth d of the sums plus the roundings of the exponential function plus 17. The matrix C that an earlier call has kept obeys the same bound and later calls never change it. If the exact h(k) is Hermitian and at least a > 0, and the entries of its lower triangle are computed to within eta with 2N eta < a (N atoms), then omega succeeds on the computed matrix as on the exact one and every energy differs from the exact one by at most the fraction 2N eta / a before it is rounded to eight digits.", "quantifier": "all magnon objects, parameters, spins, frames, bond vectors and wave vectors, all orders of additions in every sum, all roundings with relative error at most u < 1, all complex exponential functions with relative error of m roundings, all Cholesky decompositions that read the lower triangle, eigenvalue solvers and sorts", "why_tests_cant": "bounds for all numbers, lattices and orders of additions; a test sees the errors of a few wave vectors on one machine", "anchors": ["src/magnopy/magnons/dispersion.py: MagnonDispersion.J, MagnonDispersion.A, MagnonDispersion.B, MagnonDispersion.C, MagnonDispersion.h, MagnonDispersion.omega"]}
{"id": "C106", "title": "Round-off of the parts of a parameter", "statement": "In binary floating-point arithmetic iso, aniso, dmi_matrix and symm_matrix differ from the exact parts of the stored matrix by at most nu/(1-nu) times the size of the elements that enter (n = 2 for the symmetric and antisymmetric part, d+3 for iso, d+5 for aniso, d the depth of the sum in np.trace), and the three parts add up to the matrix within such a bound. Symmetries are exact: aniso and symm_matrix are symmetric, dmi_matrix is antisymmetric and the matrix of dmi. Assigning iso, dmi or a symmetric traceless aniso makes that part the new value and keeps the others up to such bounds; assigning iso leaves all elements off the diagonal and dmi exactly as they were, assigning dmi leaves the diagonal, iso and the diagonal of aniso exactly as they were. The constructors with iso or dmi alone store exactly these numbers, and dmi is read back exactly.", "quantifier": "all matrices and new values, all orders of additions in np.trace, all roundings with relative error at most u < 1; for exact statements all roundings that are odd, idempotent and exact for doubling, as IEEE arithmetic without overflow and underflow", "why_tests_cant": "bounds and exact identities for all floating-point matrices; a test compares a few with a tolerance", "anchors": ["src/magnopy/spinham/parameter.py: MatrixParameter.iso, aniso, dmi, symm_matrix, asymm_matrix, iso_matrix, dmi_matrix, iso.setter, aniso.setter, dmi.setter, __init__"]}
{"id": "C107", "title": "Magnon energies depend continuously on the directions of spins, in every description", "statement": "If one magnet is described twice (other names or order of the atoms, other lattice vectors, cells, origin, other axes for spins and space) and the spins of the second description have the same lengths as the exactly turned ones and differ from them by at most the fraction delta of their length, then, up to the order of the atoms and one phase factor for every row, every entry of h(k) of the two agrees up to (delta + 4e-8) times a size made of the spins and the absolute values of the parameters; in particular for one Hamiltonian with two sets of spins. If moreover h(k) of the first description is at least a > 0 and these bounds are at most eta with 2N eta < a (N atoms), then omega succeeds for both and every energy differs by at most the fraction 2N eta / a before it is rounded to eight digits. There is no condition on the directions of the spins: the shortcut of span_orthonormal_set near z and -z costs at most the 4e-8, so C72, which is false of the code near z, holds everywhere up to this error.", "quantifier": "all pairs of descriptions of a magnet with a complete notation, all nonzero spins (also near z), all wave vectors, all correct linear algebra, all flags of omega", "why_tests_cant": "uniform bound over all directions, lattices and Hamiltonians; energies jump where the code switches between two choices of axes, which a test of a few directions does not meet", "anchors": ["src/magnopy/magnons/dispersion.py: span_orthonormal_set, MagnonDispersion.__init__, MagnonDispersion.h, MagnonDispersion.omega"]}
{"id": "C108", "title": "Round-off of the gradients and torques that the minimisation uses", "statement": "With floats (every operation is rounded by at most the fraction u, sums are added in any order, a different one in every call of ferro), for spins whose components are those of unit vectors up to delta, the torques that _ferro_grad computes by central differences with the step 1e-4 are the torques of Energy.ferro at the unit vectors up to (7.2e-7 + 22000 gamma + 10^6 (delta + 2u)) times the strength of the interactions (the sum of the absolute values of parameters and field, times spins), where gamma = N u / (1 - N u) is the bound of C100 for one energy. The gradient that the minimiser uses consists of the components z, -y, x of these torques. The array of spins, which is changed in place, is afterwards the one before up to 6u in every component; it is not always exactly the one before. In the antiferro and spiral cases the computed torques on the spins are right up to 2.16e-6 and the one on the cone axis up to 5.774e-5 times the strength, plus 30 (22000 (9 gamma + 4 Phi gamma') + 10^6 (delta + 2u)) times the strength, where gamma and gamma' are the bounds of C101 for one energy and for one phase and Phi bounds the sizes of the phases q.d of the bonds.", "quantifier": "all roundings with u <= 1e-4, all orders of additions in all calls, all energies with any bonds, spins, fields and g factors, all nearly unit spins and cone axes, all spiral vectors", "why_tests_cant": "a bound over all Hamiltonians, spins and roundings; round-off is amplified by 1/h, which a comparison with a tolerance for a few Hamiltonians does not bound", "anchors": ["src/magnopy/spinham/energy.py: Energy._ferro_grad, Energy._antiferro_grad, Energy._spiral_grad, Energy.ferro, Energy.antiferro, Energy.spiral"]}
{"id": "C109", "title": "Round-off of the derivative with respect to the spiral vector", "statement": "With floats (every operation is rounded by at most the fraction u, sums in any order, cosine and sine right up to k roundings), for spins and a cone axis that are unit vectors up to delta, the last three entries of the gradient of _spiral_grad are the partial derivatives of Energy.spiral with respect to the components of the spiral vector up to (80 (gamma_N + Phi gamma_(d+1)) + 500 (delta + 6u)) times the strength of the interactions, each weighted with the same component of the vector of its bond. N is the number of bonds plus 5d + k + 14, d the depth of the sums, Phi a bound of the sizes of the phases q.d; 6u is the drift of the spins and the axis in the differences for the torques, which are taken before.", "quantifier": "all roundings with u <= 1e-4, all orders of additions in all calls, all energies with any bonds, spins, fields and g factors, all nearly unit spins and cone axes, all spiral vectors", "why_tests_cant": "a bound over all Hamiltonians, states and roundings; the derivative is compared with the energy itself, not with another difference quotient", "anchors": ["src/magnopy/spinham/energy.py: Energy._spiral_grad, Energy.spiral"]}
{"id": "C110", "title": "The test of convergence with floats", "statement": "With floats, for spins (and a cone axis) that are unit vectors up to delta, the numbers that _compute_torque_target_ferro, _antiferro and _spiral return are the largest norm of the torques of the energy on the spins and the norm of the torque on the cone axis, from both sides up to a factor 1 + gamma_(d+2) and twice the error of the torques of C108. Hence when the condition of the loop of optimize is false, every torque at the spins before the last update is within its tolerance up to this factor and error, and the last two energies differ by at most (1 + gamma_1) times the first tolerance; the energies without round-off of the last two states differ by at most this and the errors of the two energies of C100 and C101.", "quantifier": "all roundings with u <= 1e-4, all orders of additions, all energies with at least one spin, any bonds, fields and g factors, all nearly unit spins and cone axes, all spiral vectors, all tolerances", "why_tests_cant": "a guarantee over all Hamiltonians, states, roundings and tolerances; the torques are compared with derivatives of the energy", "anchors": ["src/magnopy/spinham/energy.py: _compute_torque_target_ferro, _compute_torque_target_antiferro, _compute_torque_target_spiral, Energy.optimize"]}
{"id": "C111", "title": "Round-off of the updates and of a whole run of the optimization", "statement": "With floats, _update_x_ferro, _update_x_antiferro and _update_x_spiral turn every row that they change about exactly the axis that the search direction gives, by its angle up to five roundings, with an error of each component of at most 9 gamma_N times the length of the row (N = k + d + 19); an angle below twice np.finfo(float).eps may count as zero. Other rows are kept; the spiral vector grows by the last three entries times the step up to two roundings. The normalization of the starting point gives unit vectors up to e = gamma_(d+3). Hence in a run of the ferro case with n calls of the gradient (which change the array in place) and updates, unit vectors up to e stay unit vectors up to (1 + e)(1 + 18 gamma_N)^n - 1, the torques computed at any time are those of the energy at near unit vectors up to the error of C108, and they are within the tolerance up to this error when the loop ends by its condition.", "quantifier": "all roundings with u <= 1e-4, all orders of additions, all search directions and steps, all lengths n with (1 + e)(1 + 18 gamma_N)^n <= 1 + 1/2000, all energies", "why_tests_cant": "errors add up over a run of any length; a test sees one run with one rounding", "anchors": ["src/magnopy/spinham/energy.py: _update_x_ferro, _update_x_antiferro, _update_x_spiral, Energy._ferro_grad, Energy.optimize"]}
{"id": "C112", "title": "Round-off of a whole run of the optimization in the cone cases", "statement": "With floats, in a run of the antiferro or the spiral case with n calls of the gradient (which change spins and cone axis in place) and updates, in any order, spins and cone axis that are unit vectors up to e stay so up to (1 + e)(1 + 18 gamma_N)^n - 1 with N = k + d + 19, and in the antiferro case the spiral vector is kept. When the loop ends by its condition, the torques of the energy on the spins and on the cone axis, at unit vectors near to the rows for which they were computed, are within their tolerances up to round-off and the error of the differences.", "quantifier": "all roundings with u <= 1e-4, all orders of additions, all search directions and steps, all lengths n with (1 + e)(1 + 18 gamma_N)^n <= 1 + 1/2000, all energies with at least one spin, all tolerances", "why_tests_cant": "errors add up over a run of any length; a test sees one run with one rounding", "anchors": ["src/magnopy/spinham/energy.py: _update_x_antiferro, _update_x_spiral, Energy._antiferro_grad, Energy._spiral_grad, Energy.optimize"]}
