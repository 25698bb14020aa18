# Formal model of magnopy in Lean 4: design

## Layout

* `lean/Verif/Model/*.lean`  – shallow model of the Python code, function by function. Every
  definition cites file and lines in `/repo/src/magnopy`.
* `lean/Verif/Spec/*.lean`   – small specifications, independent of the model's helpers.
* `lean/Verif/Lemmas/*.lean` – helper lemmas.
* `lean/Verif/Props/*.lean`  – the property theorems (`C01_...`, `C02_...`), each followed by a
  concrete non-trivial `example` meeting its hypotheses, and negations with explicit witnesses
  (`Cxx_..._false`) wherever the property is false of the code.
* `lean/Verif/Axioms.lean`   – `#print axioms` of every property theorem.

## How Python is modelled

* **Numbers.** Floats are elements of a field: an arbitrary field `K` (characteristic 0 where
  needed) for the Hamiltonian, `ℝ` for energies and optimisation, `ℂ` for magnons. Floating-point
  rounding, overflow, `nan`/`inf` are *not* modelled. Division by zero is guarded in the model
  (Python scalar division raises `ZeroDivisionError`; numpy division by a zero spin gives
  `inf`/`nan`, so theorems about it assume non-zero spins).
* **Objects and aliasing.** `MatrixParameter` objects live in a heap `Nat → Matrix`; dictionaries
  store references. In-place scaling `ham[k].matrix *= c` writes to the heap, hence sharing of one
  object between bonds, or between a Hamiltonian and an `Energy`, is visible in the model.
* **Dictionaries** are association lists in insertion order with unique keys; assignment to an
  existing key keeps its position; deletion keeps the order of the rest.
* **Sets** have no order: functions that iterate over a set take the iteration order as an argument
  and theorems quantify over all orders (permutations).
* **Exceptions** are values. A mutating method returns the new state *and* an optional error, so
  a half-finished mutation before an exception is part of the result.
* **Atoms** are pairs (name, index) with decidable equality (wulfric compares and hashes `Atom`s by
  name and index); attributes (spin, g-factor, position) are functions of the atom.

## Objects and arrays of parameters

* `Model/ParamFloat` rounds after every operation of the parts and setters of a parameter; the order of additions in `np.trace` is an
  argument; overflow, underflow, `nan` and signs of zeros are left out.
* `Model/Param` takes a parameter for its matrix. `Model/ParamHeap` models `MatrixParameter` objects as references to numpy arrays,
  with programs that make, alias, read and write parameters and arrays; C93 proves that the simpler model is right for programs
  which do not write into arrays (the code of magnopy does not, except for `p.matrix *= c`, see the trusted base).
* `Model/ParamMore`: `dmi_module`, `rel_dmi`, comparison with array-like values, short names of attributes.
* `Model/Angles`: `vector_to_angles`, with its two undefined names as an argument.

## Model of Energy and its simplifications

* `Model/Energy`: `Energy.__init__` on the heap model (it mutates the parameters of its argument), `ferro`,
  `antiferro`, `spiral` with their input checks, the q part of `_spiral_grad`. `muB` (Bohr magneton in the unit
  of the energy) is a parameter, theorems hold for every value.
* `Model/Optimize`: starting points, updates of the three cases, finite differences (over ℝ, exact up to the
  step 1e-4), torques, search direction, line search, main loop with history, settings. The loop takes
  fuel: `run … fuel x = none` means that `fuel` iterations were not enough; theorems about returned values hold for
  every fuel, C34 bounds the number of iterations.
* `Model/HistoryText`: the three default history processors as functions from records to text, for the screen and for a file;
  formatting of numbers (without the width) is an argument. Specification (`Spec/HistoryText`): a text is read as a table with
  titles in the first line; `Reads` is what is needed of formatting and `float()` and is met by ordinary decimal notation
  (`Lemmas/HistorySample`).
* Simplified: random numbers (arguments of the model), dispatch on the case
  name (three functions), scipy rotation (the Rodrigues formula), division by zero in numpy gives zero in Lean
  (theorems which depend on it assume non-zero divisors).

## Model of the magnons and its simplifications

* Theorems about magnons hold for Hamiltonians that are `St.Paired` (`Spec/WellFormed`): with double counting both orientations of a bond
  with transposed matrices, without it one of the two, whichever. (`St.WellFormed`, which assignments of the notation need, asks for
  the orientation that `double_counting = False` keeps.)

* `Model/Magnon`: `span_orthonormal_set`, `MagnonDispersion.__init__` on the heap model, `J`, `A`, `B`, `C` (with its
  cache), `h`, `solve_via_colpa`, `omega`. Matrices of size 2N are indexed by `Fin N ⊕ Fin N`.
* `Model/MagnonFloat`: `J`, `A`, `B`, `C` and `h` in floating-point arithmetic. The real and the imaginary part are rounded after every
  operation, orders of additions are arguments. The attributes set by the constructor are the stored ones, their own errors are left
  out, as are overflow, underflow, `nan` and fused products with sums. `h` is not exactly Hermitian then: the contract `ReadsLower`
  (`Spec/MagnonRounding`) says that `np.linalg.cholesky` uses the lower triangle only, as its documentation does. The rest of `omega`
  (decomposition, eigenvalues) is exact.
* numpy's `cholesky`, `eig` and `argsort` are arguments with contracts (`Spec/Colpa`: `IsCholesky`, `IsEig`,
  `IsOrthoEig`, `IsSort`); functions with these contracts exist (`Lemmas/ColpaOracle`). `IsEig` is what numpy documents: a
  basis of normalised eigenvectors. Only the transformation matrix of C41 needs `IsOrthoEig`.
* Simplified: `nan` is `none`, the content of `np.empty` is an argument, spin vectors are one argument per atom.

## Model of the text reader and its simplifications

* Text is a list of characters (`Model/Text`); a file is a list of lines. `lower` is the ASCII lower case, white space is
  the ASCII white space of `str.split`.
* `Model/TxtFilter`: `_filter_txt_file`; `Model/TxtSections`: the splitter of `_verify_model_file`; `Model/TxtVerify`: the
  `_verify_*` functions; `Model/TxtRead`: the `_read_*` functions and `load_spinham_txt`.
* `float(word)`, `int(word)`, `str.isalnum`, `np.linalg.norm`, `sin`, `cos` and the reciprocal cell are fields of a
  structure `Lib`; theorems hold for every such structure or name the contract they need.
* Numbers are exact. The Bohr radius and the SI values of scipy are written as rational numbers.
* `Model/TxtLog`: the messages of the verifier with the values printed in them (kind of message, line numbers, words, counts); the
  fixed words of the texts and messages of level "info" are not modelled. `Model/TxtVerify` is the same verifier with one boolean
  per check; C102_refused proves that both agree.
* Simplified: `np.linalg.inv` for
  absolute positions is Cramer's rule with `LinAlgError` (a `ValueError`) for determinant zero, `nan` and `inf` are not
  numbers of the model.
* `Model/TxtFile`: `_filter_txt_file` with all arguments and `load_spinham_txt` on a disk of texts (universal newlines, `readlines`); a
  file can be written if its directory exists; permissions and encodings are left out.

## Model of writing a model file

* `Model/TxtDump`: `dump_spinham_txt` as a list of lines, with all sections, paddings, comments and options. The text of
  numbers (`f"{x:.4f}"`, `f"{x}"`) and the logo (modelled in `Model/Logo`, C77) are fields of a structure `Fmt`; `Prints F L` (`Spec/TxtDump`) is what is
  needed of it: a printed number is a word of digits which is read as the rounded value. `Lemmas/TxtDumpSample` shows that
  ordinary decimal notation meets `Prints` over every ordered field with floor.
* Simplified: a scientific notation of factors (`repr` of a float) is covered only by the assumption that it is a word which is
  read back exactly (Python's `repr` of a float has this property).

## Model of the Vampire export

* `Model/Vampire`: `dump_ucf` and `dump_mat`; the content of the files as data (numbers of lines, atoms, cells, matrices,
  materials).
* `Model/VampireText`: the text of `dump_ucf` with logo, comments, cell, positions and printed digits. Cell lengths, cell
  vectors and `atom.position` are given (`Geometry`); the `f`/`e` formats are a `NumFmt` that meets `History.Reads`
  (what is printed is read back up to half a unit of the last printed digit); the width only pads. `Spec/VampireText` reads
  such files word by word and skips comments and blank lines, independent of the writer.
* `Model/VampireFiles`: the text of `dump_mat` and of the input file, and `dump_vampire` on a map from file names to contents.
  `atom.type`, `atom.spin_direction` and `repr` of floats are given (`AtomInfo`, `ReadsMat`: `repr` is read back exactly).
  `Spec/VampireFiles` reads lines `key = value` with comments after `#` and `!`. Errors of the file system are not modelled.

## Model of HDF5 files and of the choice of the reader

* `Model/Hdf5`: `dump_spinham_hdf5` and `load_spinham_hdf5` on records (a dataset that may be missing is an `Option`, a
  subgroup is a pair of label and content, labels `"1"`, `"2"`, … are visited in lexicographic order), detection of the
  group, `load_spinham` as a choice between three readers.
* Writing stops at the statement that raises; the incomplete group is part of the result.
* Simplified: group names are plain names of top level objects (no paths), files are values (no opening, closing,
  locking), floats are stored exactly, datasets have the shape which dump gives them.

## Model of the TB2J reader and of the conversion

* `Model/Tb2j`: `load_tb2j` on the list of lines of the file: `file.readline()` takes a line or is empty at the end, `line` is
  a text or a list of words (Python rebinds it), flags are searched for as substrings of a text and as members of a list.
  `Spec/Tb2j` describes the files (`Top`, `Middle`, `Blocks`) and what they say (`final`), independently of the reader.
* `Model/Convert`: `manager` of convert_tb2j on a disk of text and HDF5 files.
* Simplified: `float`, `int` as for the text reader; a last line without newline is a line. Assumed of wulfric: `spin` of an
  atom is not derived from its `magmom`, the default cell is the unit cube.

## Model of the script magnopy-minimize-energy

* `Model/Minimize`: `_minimize_ferro`, `_minimize_antiferro`, `_minimize_spiral` and `manager` of score/minimize_energy.py on a
  `World` of the records written to the results file and of the history files. `Env` holds what the loops use (magnetic
  atoms, reciprocal cell, the `n`-th call of `optimize`, the energies); `script` makes it from a Hamiltonian with the models
  of `Energy` and of `optimize`. Loop counters that Python reuses (`i` in lines 70/95 and 207/212) are kept.
* `Model/MinimizeText`: the text of every record and the results file as a whole. Formatting of numbers is a function of the library
  (as in `Model/HistoryText`), the logo is an argument; printing to the terminal, buffering and the missing `close` are left out.
  `Spec/MinimizeText` is a reader of the file.
* `Spec/Minimize`: the minimisations that should be made (`jobs`), whether they succeed (`AllOk`), and the lines the report
  should have (`block`, `lines`, `expected`).
* Simplified: logo, time, printing, options read by argparse.
  Iterating over a string gives its letters, none of which is a type.

## Model of the script magnopy-magnon-dispersion

* `Model/DispersionScript`: `MagnonDispersion.omegas` and `__call__` (a two-dimensional array is the list of its rows, the
  cache of `C` goes through the loop), `os.path.split` and `os.path.join` of POSIX, `manager` of
  score/magnon_dispersion.py on a `World` of directories and files. `Env` holds what the script uses of wulfric, of the
  reader and of matplotlib; `compute` makes the energies from a Hamiltonian with the model of the magnons.
* Assumed where a theorem says so: `points`, `points(relative=True)` and `flatten_points` of wulfric have the same length.
* `Model/DispersionText`: the text of the info and data files. Formatting of numbers is an argument (`NumFmt`), as are the texts
  made by wulfric, numpy and `logo` (`Parts`).
* Simplified: labels and ticks of the plot, printing; `verbose` has no effect on files. Matplotlib raises if a curve and its coordinates have
  different lengths.

## Trusted base

* Lean 4.33.0 kernel; Mathlib definitions used in statements.
* Axioms: every property theorem depends at most on `propext`, `Classical.choice`, `Quot.sound`
  (checked by `Verif/Axioms.lean`). No `sorry`, no own axioms, no `native_decide`, no `bv_decide`.
* The correspondence model ↔ Python text, by reading (nothing is executed).
* Python semantics as described above, in particular: `x in iterator` compares `x` with each yielded
  item (a 3-tuple never equals a 4-tuple); `list.append(a, b, c, parameter=…)` raises `TypeError`;
  assignment `p.matrix *= c` multiplies the array in place and then stores a copy in the same object.
* Assumed behaviour of libraries (not in `/repo`): wulfric `Crystal.add_atom` appends an atom,
  `get_atom(name)` returns the unique atom of that name or raises `ValueError`,
  `get_vector(a, b, R)` = (R + r_b − r_a) @ cell, `get_distance` its norm; numpy `linalg.cholesky`
  returns L with L Lᴴ = D if D is positive definite and raises for other Hermitian matrices; `linalg.eig` of a
  Hermitian matrix returns a normalised eigenbasis (orthonormal where a theorem says `IsOrthoEig`); scipy
  `Rotation.from_rotvec` is the Rodrigues matrix; h5py iterates groups in lexicographic order of names.
* `argparse` of Python 3.11 (options with the number of values 0, 1, 3 or any, one positional argument with choices,
  abbreviations, `name=value`, clusters of one-letter options; checked on 6000 random command lines against the real one while the
  model was written); the text of numbers on the command line is an arbitrary partial function.
* Not modelled: plotting, logging (except by the verifier of model files, C102 and C103), figure output, file-system errors,
  concurrency, floating-point effects (except in C98, the setters of the notation, C100, `Energy.ferro`, and C101, `Energy.antiferro` and `Energy.spiral`,
  C105, `MagnonDispersion.h`, and C106, the parts of `MatrixParameter`).

## Plan per property

Status words: *proved* (as stated), *false* (the code violates it: the negation is proved with a
witness, and a `_partial` theorem gives the exact domain on which it holds).

| id | what is modelled | how it is proved |
|----|------------------|------------------|
| C01 | `Model/Param`: part getters over a field | linear algebra on 3×3 matrices, uniqueness by projecting |
| C02 | setters and constructor | same; for `aniso` only symmetric traceless arguments read back, `_false` for others |
| C03 | `T` | same |
| C04 | arithmetic over an ordered field with floor | same, `Int.floor` |
| C05 | `Model/Ham` setters with heap; `Spec/Energy`: energy on a finite translation group | scaling lemmas (no aliasing) + reindexing the sum over cells for mirrored bonds. False in general (aliasing, stale mirror, self bonds, both orientations stored without double counting, non-canonical bond → `TypeError`); partial on well-formed states |
| C06 | same | normal form of a well-formed state under each setter |
| C07 | same | direct; for `double_counting` values present before are present after (possibly at the mirrored key, transposed) |
| C08 | `notation` getter/setter on Python values | case analysis |
| C09 | `Op` = all public mutators; `run` | induction over histories |
| C10 | same | false: re-adding a bond leaves the mirror stale; partial: histories that never re-add a bond whose mirror exists |
| C11 | `_ensure_no_double_counting` | false: `TypeError` if a non-canonical bond has no mirror, self-bonds are dropped; partial for mirror-closed states |
| C12 | `_ensure_*` | false for non-transposed mirrors (values swap); proved when mirrors are transposes |
| C13 | scaling loops on the heap | false under sharing (scaled once per key); proved without sharing; exact exponent law in general |
| C14 | `add_exchange`, `add_on_site`, item access | dictionary lemmas |
| C15 | `remove_exchange` | dictionary lemmas |
| C16 | `remove_on_site` | false for names; proved for atoms |
| C17 | `remove_atom` | false with double counting; proved otherwise; exact result with double counting |
| C18 | `filter` with arbitrary removal order | permutation-invariant fold |
| C19 | `Op`, `run` | induction over histories |
| C20 | `magnetic_atoms` with arbitrary set order | sortedness + permutation uniqueness |
| C21 | iterator state machines | induction on remaining items |
| C22 | `exchange_like` | false unless factors have equal squares; exact characterisation |
| C23 | `Energy.__init__`, `ferro` on the heap model over ℝ | refinement to `Spec/Energy`; false for spin-normalised notation, for double_counting=False (doubled through aliasing), for factors with different squares; partial |
| C24 | `Energy.__init__` | false for non-canonical bonds without double counting; exact effect proved; partial |
| C25 | `Energy.__init__` + later operations | proved for double_counting=True; false for False (shared objects) |
| C26 | `ferro`, `antiferro`, `spiral` | normalisation lemma |
| C27 | `spiral` | interval integral of trigonometric polynomials |
| C28 | `antiferro` | algebra with sin = 0, cos = ±1 |
| C29 | `spiral` | algebra of the projector/rotation matrices |
| C30 | Zeeman part | false: missing S_i, and (I + P) instead of P; exact value proved |
| C31 | `_spiral_grad` q part | `HasDerivAt` |
| C32 | `_starting_*`, `_update_*`, loop | Rodrigues rotation preserves norms; induction on iterations |
| C33 | index arithmetic of `_antiferro_grad`/`_update_x_antiferro` | false: cone axis never moves, last spin uses the cone torque; spiral: proved |
| C34 | `optimize` loop, parametric in energy/gradient/direction/line search | induction on fuel/iterations |
| C35 | `_lambda` | induction; geometric steps |
| C36 | `_lambda` acceptance test | false: the coded test allows an increase; exact bound proved |
| C37 | history bookkeeping | false when `max_iterations` stops the run; proved otherwise |
| C38 | settings record | false for wolfe_c2, g_factors, spins; proved for others |
| C39, C40 | `J`, `A`, `B`, `C`, `h` over ℂ | matrix algebra; reindexing by the mirror permutation |
| C41 | `solve_via_colpa` with Cholesky and eigensolver as oracles with contracts | matrix algebra; Sylvester inertia for the signs. False for eigenvectors that are not orthogonal (repeated eigenvalues); energies are unique |
| C42 | `span_orthonormal_set` over ℝ | Rodrigues with arccos |
| C43 | `omega` with `solve_via_colpa` | case analysis; the energies of D ≤ c are at most c. False: N zeros with `return_G` |
| C44 | `_filter_txt_file` on character lists | list induction |
| C45 | section splitter of `_verify_model_file` | loop invariant |
| C46 | all `_verify_*` against all `_read_*` | false with five witness files (`C46_false`); `C46_partial`: under `Readable` (notation section present, exchange not in Joule, no hyphen in a read column, no `__` in names, cell of non-zero volume, non-zero cone axis) every accepted file is loaded. For a zero cone axis numpy stores `nan` without raising, so that condition only keeps the model's division away from zero |
| C47 | `_read_exchange`/`_read_bond`/`_read_on_site` | false for exchange; proved for on-site, cell |
| C48 | `_read_cell` | false: volume is V³/V₀²; exact value proved |
| C49 | `_read_bond` driving `add_exchange` | parameter proved; mirror false; partial |
| C50 | `dumpText` then `load` on lines of characters | the table of sections of a written file, then each reader on each written section; false for spiral vector, missing spins, self bonds; partial |
| C51 | `Model/Hdf5`: records, labels in lexicographic order | false for ≥ 10 atoms (order) and for notation without parameters; proved up to that, with an invariant of the loop over bonds in any order |
| C52 | `chooseReader`: dispatch on strings | case analysis |
| C53 | `Model/Vampire`: `dump_ucf` on the heap model | uses the C05/C06 lemmas; false for short lists of materials, missing spins and self bonds; partial on well-formed states |
| C54 | `Model/Copy`: `copy` with a common heap, interleaved programs | simulation: the heap cells of the two objects stay apart |
| C55 | `_compute_search_direction` | false: the loop over the memory is empty, and with 0 ≤ wolfe_c2 < 1 every direction is the plain gradient (invariant of the loop) |
| C56 | `_spiral_grad`, `_update_x_spiral` | false: the spiral vector moves along +∂E/∂q; exact first-order change; a family of chains on which `optimize` raises |
| C57 | `omega` | false: the fourth attempt never helps, zeros are returned; exact outcome |
| C58 | `MagnonDispersion.__init__` on the heap, cache of `C` | constructor only writes to new addresses; simulation as for C54 |
| C59 | `J`, `A`, `B`, `C`, `h` against `Spec/Energy` on a finite translation group | expansion of the energy, orthogonality of characters, frames |
| C60 | `J`, `h`, `solve_via_colpa` | phase factors of a reciprocal lattice vector; congruence that commutes with `g` |
| C61 | `dump_ucf` against `Spec/Energy` | on-site terms enter with a quarter of their energy; exact law and condition |
| C62 | `dump_mat`, number of materials of both files | induction over the atoms; the two numbers agree iff the list has no gaps |
| C63 | masks of `dump_ucf` | decomposition of the tensor |
| C64 | `dump` on files | case analysis; false if writing raises (`C64_incomplete`, `C64_statement_false`) |
| C65 | `chooseName` | the filtered list has one member |
| C66 | `load_tb2j` against a grammar of TB2J files | induction over the blocks with an invariant: what is stored agrees with the entries read so far |
| C67 | `manager` of convert_tb2j = C66, then C50 or C64 | false: atoms have no spins, so HDF5 raises and the text cannot be read back; proved for every file, and that only the spins are missing |
| C68 | induction over the requested types; minimisations as an oracle, then `optimize` (C32) and `Energy` (C23) for it; vectors `q` by parity | false with the antiferro case (also for the default `all`), by the two reused counters; exact report proved without it, exact failure with it |
| C69 | stationarity as the absence of a linear term of the energy, transferred to the private Hamiltonian; the rotation mode is annihilated by every row of h(0); zero modes without creation operators by the shifted pseudo-Hermitian problem; collinear states by the form as a sum over bonds | mode and singularity proved for all axial Hamiltonians; "lowest energy is zero" is false (antiferromagnet), exact criterion proved |
| C70 | the form h(k) as a sum over bonds, each part not negative by `2 Re x̄y ≤ x² + y²` | proved |
| C71 | the energy of configurations with two spins in a large supercell determines every coupling, so `J(k)` and `h(k)` | proved |
| C72 | as C71 with `Description` (names, lattice vectors, cells, origin, axes); local axes differ by a phase, the matrices are unitarily similar by a matrix that commutes with `g` | false for spins within 1e-8 of z, proved otherwise (and without any guard if spins are not turned) |
| C73 | Fourier sums over stored bonds (`Spec/Fourier.lean`), invariant under the change to the private notation; `h(k)` for collinear spins; energies as positive eigenvalues of `g h` | proved |
| C74 | `h(k)` splits into two matrices of one mode each; characteristic polynomials | proved |
| C75 | `omegas` column by column through the cache; the script by cases on every step; the table as transposed columns | proved |
| C76 | the equations of motion S dn/dt = ∂E/∂n × n (`Spec/Motion.lean`) with `E` the classical energy of the user's Hamiltonian; the gradient is a sum over the stored matrices, plane waves turn it into rows of `h(k)`, in local axes the cross product becomes `g` | proved |
| C77 | `Model/Logo`: `logo` on lists of characters, with Python's negative indices; `Spec/Logo`: lines, rows and order | case analysis on the number of texts; false for nine or more texts, for `comment=False` and for 58 characters in the flat logo; exact layout in all other cases |
| C78 | `Model/Ground`: `_spiral_vector`, `_cone_axis` as references to arrays on a heap | induction over histories; false if a user writes into the returned array, and for short axes |
| C79 | `_ferro_grad`, `_antiferro_grad`, `_spiral_grad` (`Model/Optimize`) against the derivative of the public energies along arbitrary motions of the vectors (`Spec/Torque`) | second-order expansions with explicit remainders (`Lemmas/Jet`), whose sizes are submultiplicative; the slope along a search direction is `-g·p`, false for the sign of the acceptance test |
| C80 | the text of the history (`Model/HistoryText`) of every run of `optimize` | induction over blocks and words; the table is read back to the printed digits; false for the torques of a row and for files that exist already, exact condition for the latter |
| C81 | the text of `dump_ucf` (`Model/VampireText`) | the reader of `Spec/VampireText` gets cell, atoms, materials and every interaction of C53 back to the printed digits; error bound for the energy of the file |
| C82 | `dump_mat`, `dump_vampire` (`Model/VampireFiles`) | pieces of text and the keys they yield; false for seed names with leading spaces and for atoms without spins (half of the files is written) |
| C83 | reversed spins: the matrix at `-k` is the transpose of the one at `k` up to phases of the local axes, and the transpose has the same energies; with C72 this gives the rules for symmetries of the magnet, with and without time reversal; a chain with a Dzyaloshinskii-Moriya vector along the spins shows that a symmetry is needed | reversal and inversion without guards; the rules that turn spins need the guard of C72 |
| C84 | the readers build the Hamiltonian by the public methods, from an empty one; invariants of these methods (C18, C19) hold for whatever is in the file; the rules for changes of the notation apply to what is read | switching double counting off and on loses bonds of an atom with itself, and nothing else |
| C85 | names tell which atom of the crystal that is read is which atom of the one that was written; a sum over the parameters is reindexed; the magnon energies follow from C72 (another description of the same magnet); for text files the rounding of the entries gives a bound for the energies | false in full (disagreement 35); energies in the own notation need exchange and on-site parameters; the magnons are kept without such guards |
| C86 | every record is a line or several; the words of a line tell what it is; the order of the records (an announcement of a history is followed by the report) is an invariant of the script | the claim about the names of the history files is refuted (disagreement 36); the logo is an argument without lines which look like results |
| C87 | the words of a formatted row are the formatted numbers; the rows are those of C75; the energies are real because `omega` is called without `return_imaginary` | readability with `join_output` and the headings of the description are refuted (disagreements 37, 38); texts of wulfric, numpy and the logo are arguments |
| C88 | the couplings of the supercell are those of the crystal (comparison of both with the energies, `couple_energy`); the matrix of the supercell is unitarily equivalent to the block-diagonal matrix of `h(k + G)` (`Folds`), with a unitary that commutes with the metric `g`; characters of the finite group of cells modulo supercells are orthogonal; the characteristic polynomial of `g h` is the product, so that energies with multiplicities follow | the energies agree if all `h(k + G)` are positive or all negative definite; else refuted (disagreement 39) |
| C89 | along a wave of unit vectors the energy is a polynomial in the amplitude up to the fourth order, with `card Γ · x† h(k) x` as second-order part (C59), so that a minimum makes the form non-negative; for `k` equivalent to `-k` the parts of the amplitudes are exchanged (`form_exchange`) and the parallelogram law gives all amplitudes; wave vectors that fit into cubes are dense and the form is continuous | for all wave vectors; a minimum within one cell gives `k = 0` only, and `C89_unit_cell_not_enough` shows that it does not give more |
| C90 | the characters of the finite group of cells are orthogonal, so that deviations are sums of waves and the energies of the waves add up (Parseval); every character belongs to a wave vector because the lattice vectors span the space; positive definite forms of finitely many wave vectors bound the second-order energy from below, and the rest of the energy of unit vectors is bounded by the third power of the deviations; conversely the energy along one wave gives the form of its wave vector (C89) with a positive bound, and a minimum is stationary because the energy of normalised deviations has the same linear term | an equivalence for each supercell; `C90_not_every_minimum` shows that a minimum alone does not make the matrices positive definite |
| C91 | a positive definite matrix has a basis in which both `h` and the metric are diagonal (`exists_modes`, from Colpa's construction); two nested subspaces of such bases have a common vector for reasons of dimension, so a larger matrix has larger energies place by place (Courant); determinants and traces of the diagonal forms give the sum rules; the elements of `h` are sums of phases, hence continuous, so a neighbouring matrix lies between `(1 - r) h` and `(1 + r) h` and comparison gives continuity | about positive definite `h(k)` only; at other wave vectors the code shifts, negates or gives up (C43) |
| C92 | the second-order energies of every wave are ordered (as in C89, for the difference of the two energies), so the forms of the two matrices are; wave vectors of cubes are dense and the forms are continuous; then the comparison of C91 | the first matrix must be positive definite for the claim on the energies |
| C93 | induction over programs with the invariant that arrays of parameters are allocated and different; for the refinement a simulation of the heap by the list of matrices | `C93_lost` shows that a write through an array that was taken before an assignment is lost |
| C94 | a matrix acts on antisymmetric matrices through its cofactors, which are `det R • R` for orthogonal `R`; the decomposition is unique (C01), so the parts of the turned matrix are the turned parts | proved as stated |
| C95 | all entries are equal; the only value accepted by the shape test is a list of three rows of three; the setters through the uniqueness of the decomposition (C01) | assigning to `I` and `S` is refused (disagreement 40): `C95_names_false`, `C95_names_partial` |
| C96 | `sin (arccos x)`, `cos (arccos x)`; regions near the z axis from the tolerances of `np.allclose` | the code raises for every vector and, with its two names corrected, loses the sign of y (disagreement 41): `C96_returns_false`, `C96_angles_false`, `C96_angles_partial` |
| C97 | terms without energy in any configuration add up to zero for each pair of atoms (two-point configurations in a large supercell, `couple_zero`); applied to the terms of the first Hamiltonian minus the weighted terms of the others; `J`, `A`, `B`, `C` and `h` are sums over pairs of atoms; the scaled modes are the modes of the scaled matrix; the lowest mode minimises a quotient of forms (variational principle of C91) | the three Hamiltonians have the same magnetic atoms; on-site matrices are symmetric as in C71 |
| C98 | `Model/HamFloat`: the setters of the notation with a rounding `fl` after every product and quotient; the exact program and the program with rounding run side by side (`Near`: same references, stored numbers related by factors between (1-u)^n and (1-u)^-n); double counting moves and transposes matrices and rounds once; the exact case by homogeneity of binary rounding (`Exact`); `binary p` (rounding to p binary digits) meets the assumptions | no overflow, underflow, `inf`, `nan`; `C98_bits_false` shows that round trips are not exact for other factors |
| C99 | `Model/Cli`: `argparse` as far as the scripts use it, the four parsers, the call of `manager(**vars(args))`, `main` of `__main__.py` | invariants of the loop of `parse_known_args` over the classified arguments: for command lines made of settings each turn consumes one setting (`parse_settings`), for arbitrary ones every stored value is allowed (`parse_sound`), and a command is never swallowed by an option (`Flags.parse`); `_false` for values that look like options |
| C100 | `Model/EnergyFloat`: `ferro` with a rounding after every operation and with any order of additions (`Tree`) | every computed sum is a sum of the exact terms, each with a factor between (1-u)^n and (1-u)^-n (`SumNear`, closed under sums, products, rounding and loops); square roots keep such factors, so normalised spins are exact up to d+3 roundings |
| C101 | `Model/EnergyConeFloat`: `antiferro` and `spiral` with a rounding after every operation, any order of additions in every product of matrices, and any cosine and sine that are correct up to `k` roundings | sums of exact terms up to roundings are closed under products (`Approx.mul`); the sizes follow the expression of the code without signs; the error of the phase enters through the Lipschitz bound of cosine and sine |
| C102 | `Model/TxtLog`: all `_verify_*` with their messages | every check sends a message exactly if it sets `errors` and the message is true (`Log.Fits`, closed under `and`, `or` and loops); false for the numbers of blocks after a keyword and for "duplicates" without names |
| C103 | the same | false: `errors = errors or f()` does not call `f` after an error; what is reported nevertheless: all faults of the table of atoms, all unknown sections, and the errors about one other section |
| C104 | `Model/TxtFile`: `save_filtered` on a disk | reading back the joined lines gives the filtered lines (`copy_lines`); false for names with a directory |
| C105 | `Model/MagnonFloat`: `J`, `A`, `B`, `C` and `h` with a rounding of both parts after every operation, any order of additions in every product, any complex exponential function that is correct up to `m` roundings | complex numbers near exact ones are closed under products and sums (`ApproxC`), with |re| + |im| as size; the phase enters through its Lipschitz bound; energies by the comparison of C91, applied to the Hermitian matrix of the lower triangle |
| C106 | `Model/ParamFloat`: the parts and setters of `MatrixParameter` with a rounding after every operation | sums of exact terms up to roundings (`Approx`) through every operation, exact values after assignments from C02; exact identities from oddness, idempotence and exact doubling (`IsFloat`); rounding towards zero to `p + 1` binary digits is an instance (`chop_isFloat`) |
| C107 | the objects of C71/C72 with spins that need not be exactly the turned ones | two right-handed frames whose third axes are within δ have the same e1 + i e2 up to a phase and 3δ/2 (`cu_close`); the second object with the turned frames of the first has exactly its matrix (C72's `h_describe`), and turning its frames to the code's own changes each entry by at most δ·`tiltSize` (`tilt`); energies by the comparison of C105 |
| C108 | `Model/OptimizeFloat`: `_ferro_grad` and the torques of `_antiferro_grad`, `_spiral_grad` with a rounding after every operation, the array changed in place and not restored exactly, any order of additions in each of the calls of `ferro` | invariant `Kept`: components visited are within δ + 6u of the unit vectors, the others within δ; `ferro` is Lipschitz (10 times the strength, `ferro_lipschitz`), so with C100 each computed energy is near the exact one at the exact place; three roundings of the quotient and three of the cross product; truncation error from C79. Cone cases: `antiferroTorquesFl`, `spiralTorquesFl` (the cone axis is the last row); the exact energies are Lipschitz with 280 times the strength (`cone_lipschitz`), the bound of C101 is at most 30 times the strength times `9 gamma + 4 Phi gamma'` (`coneBound_le`). The packing of the cone gradient is not done with floats |
| C109 | `Model/OptimizeFloat`: `spiralGradCFl`, `spiralGradQFl`, and `spiralGradLastFl` on the array that the differences leave behind | `Approx` of C101 for the matrices of the bonds (4d + k + 8 roundings, `gradC_near`) and for the loop (`gradQ_near`), Lipschitz bounds in the spins, the axis and the phases entry by entry (`gradTerm_close`), the drift of the array does not depend on the energies (`array_eq`, `array_near`), derivative from C31 |
| C110 | `Model/OptimizeFloat`: `maxNormFl`, `targetFerroFl`, `targetConeFl`, `goOnFl`; the loop of `optimize` with floats is not modelled, only one evaluation of its condition; the energies there are arguments, or in `C110_energies` those of C100 and C101 at any two states | C108 for the torques, `norm3_rounded` in both directions (`rounded_symm`), the maximum is an upper bound and is reached (`foldl_max_spec`) |
| C111 | `Model/UpdateFloat`: the three updates with a rounding after every operation; a run (`Run`) is any sequence of calls of `_ferro_grad` and of updates on the array of spins, with search directions and steps as arguments, so it contains the runs of `optimize`, whose search direction and step are not modelled with floats | `Approx` of C101 for the formula of a rotation (`turn_near`), rotations keep lengths (`norm3_rotate`), so the errors of the lengths add up instead of those of the components; what a call of the gradient leaves behind, row by row (`rowTorques_array`, `back_near`); C108, C110 |
| C112 | the models of C108, C110 and C111; runs (`RunAntiferro`, `RunSpiral`) are any sequences of calls of the gradient and of updates on the rows and the spiral vector | the steps of C111 for any number of rows (`nearUnit_grad`, `nearUnit_update`), C110 at the end |

## Disagreements between code and property found by reading

1. `_ensure_double_counting` (hamiltonian.py:317) tests a 3-tuple against an iterator of 4-tuples,
   so *every* mirror is re-added: values of inconsistent pairs are swapped at each call.
2. `_ensure_no_double_counting` (354) calls `append` with several arguments → `TypeError`, after
   `_double_counting` was already changed (and parameters rescaled).
3. Self bonds (a, a, (0,0,0)) are removed by `double_counting = False` and halved by `True`.
4. `add_exchange` (717) does not refresh an existing mirror → stale mirror.
5. `remove_on_site` (819) resolves the name into an unused variable.
6. `remove_atom` (957) raises `KeyError` under double counting.
7. Parameters are stored by reference and scaled in place → shared objects are scaled repeatedly.
8. `exchange_like` (1053) scales on-site terms by exchange_factor/on_site_factor (inverse needed).
9. `Energy.__init__` keeps references to the Hamiltonian's parameters; with
   `double_counting == False` they are doubled right after.
10. `Energy` ignores `spin_normalized`; the Zeeman term lacks S_i and uses I + P instead of P.
11. `_antiferro_grad`/`optimize`: gradient size 3I+3 with indices −6..−4: the last spin is driven by
    the cone-axis torque, the cone axis never moves.
12. `_compute_search_direction`: `range(m-1, -1)` is empty; the Armijo test has the wrong sign for
    the direction convention; q moves uphill.
13. `wolfe_c2` returns `wolfe_c1`; setters of `g_factors`, `spins` always raise.
14. `_lambda` history lost when `max_iterations` stops `optimize`.
15. Text reader: exchange units ignored ("J" raises `NameError`), spiral vector converted to absolute
    units, `-` accepted by verification but not by the reader, negative scale does not give the
    requested volume, one `add_exchange` per keyword line leaves a stale mirror, missing notation
    section accepted by verification.
16. `vector_to_angles` always raises.
17. HDF5 groups are visited in lexicographic order, so ten or more atoms are reordered.
18. `omega`: the fourth attempt uses −h − ε and can never succeed after −h failed; the zero fallback
    returns N values also when 2N are promised.
19. `dump_ucf`: a short list of materials raises after the notation was changed (no restoration); on-site terms are
    exported through `exchange_like`, i.e. with a quarter of their energy; `num-materials` of the .mat file is the largest
    entry plus one, the .UCF file counts different entries.
20. HDF5: atoms are numbered `"1"`, `"2"`, …, `"10"` and read in lexicographic order, so ten or more atoms change their order;
    notation is written only as far as there are parameters; an atom without spin raises `ValueError` after the group was
    created (or the old one deleted with `overwrite=True`), so an incomplete group of type "SpinHamiltonian" stays in the
    file; the message for an unknown atom name adds 1 to a string (`TypeError` instead of `ValueError`).
21. `dump_spinham_txt`: bonds of a site with itself are skipped, and if there is no other bond the file is rejected by the
    reader; an on-site matrix loses its antisymmetric part; g-factors and charges are not written; an atom without spin is
    written as `-`, which the reader cannot read; `write_spin_angles=True` raises `AttributeError`; without any of the four
    options for bonds the file is rejected by the reader.
22. `load_tb2j`: a separator after the last block, or no block at all, raises `IndexError`; an empty line after the atoms ends
    reading silently, all bonds are lost; contradicting blocks for both directions of a bond are both kept although the
    notation has double counting.
23. `convert_tb2j`: atoms read from TB2J files have magnetic moments but no spins; conversion to HDF5 always raises `ValueError`
    (and leaves an incomplete group), conversion to text gives a file that `load_spinham` cannot read, and neither
    `Energy` nor `MagnonDispersion` accepts the Hamiltonian; a text file with a name ending in `exchange.out` is later taken
    for output of TB2J.
24. `magnopy-minimize-energy`: the summary indexes the list of energies with the counter of an inner loop (lines 207-215), so
    every request of the antiferro case (the default `all` included) ends with `TypeError`; before that, energies of the ferro
    and spiral cases are written as antiferromagnetic energies. The loop over the spins reuses the counter of the history
    files (line 95), so the 26 histories are appended to at most three files. `manager` without `ground_state_type` raises `TypeError`.
25. `magnopy-minimize-energy`: the 26 vectors of the antiferro case give only seven different functions to minimise (the
    coefficients matter up to parity).
26. `omega` at `k = 0` of a magnet with rotation symmetry: Colpa's method always fails there, the energies are those of
    `h + 1e-8`. The lowest one is rounded to zero only if there is a zero mode without creation operators. An
    antiferromagnet therefore has a small non-zero energy at `k = 0` instead of zero (of the order of the root of
    1e-8 times the exchange, so far above the threshold 1e-8 of the rounding).
27. `span_orthonormal_set` takes exactly ±z for directions within 1e-8 of ±z (see C42), so magnon energies change if the
    whole magnet is turned by such an angle: one atom with an easy axis, turned by 2e-9, has another energy (C72).
28. `magnopy-magnon-dispersion`: points where the state is unstable get energies 0 in the table and in the figure, like true
    zeros; words of `--k-points` that do not fill a group of five are ignored silently; the output directory is made even if
    the input cannot be read.
29. `logo` (_pinfo.py 127, 129): with more than eight texts `info[i - before]` has negative indices, so the last `(m - 7) // 2` texts
    are printed above the first one.
30. `logo(comment=False)` prints the word `False` in front of every line (_pinfo.py 105-110).
31. `logo(flat=True)`: the flat title has 69 characters, so a text of 58 characters, which the documentation allows, gives a line
    of 70 characters between lines of 69.
32. `cone_axis` and `spiral_vector` return the stored arrays, so `ham.cone_axis[2] = 5` leaves an axis that is no unit vector; axes
    without a component above 1e-8 are refused as zero although only their direction matters; neither can be reset to `None`.
33. History of `optimize` (energy.py 415-529): the header is written without a line break at its end and a block starts with a line
    break, so the titles of a second history in the same file stand in the last line of the first one, unless the first run did a
    (positive) multiple of `history_step` iterations. The torque in a row is that of the configuration of the row before; the first
    row shows twice the tolerance. A processor called without `nspins` raises `NameError` (`RunTimeError` is not defined).
34. `dump_vampire` (vampire.py:69-102) writes the .UCF file before it looks for the spins that the .mat file needs: for atoms
    without spins in the notation "vampire" it raises `ValueError` and leaves a .UCF file without .mat and input files
    (C82_together_false). A seed name with a leading space is written to the input file as it is and cannot be read back
    (C82_seed_false).
35. The files keep the on-site factor only if there are on-site parameters (hdf5/internal.py:378, txt/internal.py:245). A Hamiltonian
    without on-site parameters comes back with `on_site_factor` unset, and `Energy` of it raises `NotationError`, after it has
    switched double counting on (C85_energy_false, C85_hdf5_no_onsite, C85_text_no_onsite). The magnon energies do not suffer, because
    `MagnonDispersion` assigns the notation of SpinW to a copy.
36. `magnopy-minimize-energy`: the line which announces the history file of an antiferro state has no line break
    (minimize_energy.py:77-80). The text which follows ("Minimization for the antiferro case is done ...") is joined to the name of
    the file, so that no name of the 26 files can be read from the results file (C86_announced, C86_announced_false).
37. `magnopy-magnon-dispersion --join-output`: the description is written with `comments = ""` (magnon_dispersion.py:178), so that
    its lines are not marked as comments; the joined file is never a table of numbers (C87_join_false). The titles of the
    coordinates have spaces inside, so that the title line has six words more than there are columns (C87_titles).
38. The printed lists of points and ticks have no line break behind them (magnon_dispersion.py:139-141, 149): "klabels" is joined to the
    list of points and the separator to the list of ticks (C87_klabels_false). The names and labels which are collected in
    `header_column` are never written.
39. `omega` treats the matrix of all atoms at once: if one magnon has the energy zero, all energies are shifted by about 1e-8, and if
    one is unstable, all are reported as zeros or NaN. So the energies of a crystal described with a larger cell differ: the
    ferromagnetic chain has the energy 8 at the zone boundary, and 8 + 1e-8 if the cell is doubled (C88_false).
40. `I = iso` and `S = aniso` (parameter.py:230, 301) come before the setters are added, so the short names are read-only properties:
    `p.I = 1` raises `AttributeError` although `p.iso = 1` works (C95_names_false). `__neq__` (865) is no name that Python knows; `!=`
    negates `__eq__`, which happens to be the same. `p == None` raises `ValueError` (C95_array).
41. `vector_to_angles` (geometry.py:43, 57) uses `np.linalg.notm` and `in_degreees`, which do not exist, so it raises for every vector;
    with these names corrected it takes the azimuthal angle from `arccos`, so that vectors with opposite y components have the same
    angles (C96_returns_false, C96_angles_false).
42. `magnopy-minimize-energy --magnetic_field 0 0 -1e-3` is a usage error although `-1e-3` is a number: `argparse` takes only negative
    numbers without an exponent for values; file names that start with a dash need `--option=name` (C99_values_false). The default of
    `ground_state_type` is "all" in the parser but `None` in `manager`, with which `manager` raises (compare C99_minimize).
43. verify.py:277, 305-315: on a line with a keyword ("DMI x 0 0") the blocks are counted after the keyword is removed, so the
    message says "block 1" for the second block; in section headers and atom lines the first block is block 1 (C102_block_false).
44. verify.py:788-797: if the table of atoms has no column "name" then the log says that names are repeated, "0 unique names found"
    (C102_duplicates_false). The size of the atoms section is verified, and reported, twice (732-736).
45. `errors = errors or _verify_...()` skips the remaining checks after the first error, also those of all other sections, so a
    file with faults in two sections has to be repaired section by section (C103_all_false, C103_one_section).
46. `load_spinham_txt("models/a.txt", save_filtered=True)` raises `FileNotFoundError`: the copy would be `filtered_models/a.txt`
    (internal.py:1088; C104_path_false). `_filter_txt_file(lines=..., save_filtered=True)` writes a file `filtered_None`
    (C104_lines_false). `load_spinham_txt` reads the file twice (1119-1123).
47. `_ferro_grad` (energy.py 826-831) changes the array of the caller in place and takes the change back by `-h`, `+2h`, `-h`: for
    floats this is not exact (`C108_restored_false`; `x = 0.01` in Python), so the spins drift by up to `6u` per call (`C108_array`).
