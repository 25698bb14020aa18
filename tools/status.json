{
"C01": {
"note": "existence and uniqueness of the decomposition over any field of characteristic 0",
"status": "proved"
},
"C02": {
"note": "iso, dmi, single components, constructor, and aniso for symmetric traceless arguments as the statement asks; for other aniso arguments C02_set_aniso_general gives the exact effect and C02_set_aniso_false a counterexample",
"status": "proved"
},
"C03": {
"note": "",
"status": "proved"
},
"C04": {
"note": "",
"status": "proved"
},
"C05": {
"note": "any sequence of assignments, every supercell and configuration, for Hamiltonians whose bonds are stored in both orientations (counted twice) or in one of the two (counted once), which good histories produce; the exact exceptions (C05_exceptions_partial); false for self bonds, shared objects, stale mirrors",
"status": "partial"
},
"C06": {
"note": "any sequence of assignments that returns to the first notation: same matrices (C06), or the bonds turned to the other orientation if they were counted once (C06_turned); counterexamples outside",
"status": "proved"
},
"C07": {
"note": "three attributes: full; double_counting: values stay (maybe at the mirrored key) unless a bond joins an atom with itself or a pair is contradictory",
"status": "partial"
},
"C08": {
"note": "",
"status": "proved"
},
"C09": {
"note": "induction over all histories of public calls, raising calls included",
"status": "proved"
},
"C10": {
"note": "false in general (C10_mirror_transposed_false: re-adding a bond leaves the old mirror); proved for histories in which no call shares parameter objects or contradicts a stored mirror, all spins defined",
"status": "partial"
},
"C100": {
"note": "for the standard model of rounding (no overflow or underflow), any order of additions in numpy",
"status": "proved"
},
"C101": {
"note": "for the standard model of rounding (no overflow or underflow), any order of additions in numpy; the stored bond vectors and matrices are the given numbers",
"status": "proved"
},
"C102": {
"note": "refusal and truth of all messages proved for all files; the code contradicts the statement about numbers of blocks after a keyword (C102_block_false), and the message about repeated names is also sent without names (C102_duplicates_false)",
"status": "partial"
},
"C103": {
"note": "the first sentence is false (C103_all_false); the second is proved (C103_atoms, C103_unknown_sections, C103_one_section)",
"status": "partial"
},
"C104": {
"note": "proved if the copy can be written where the code puts it (C104_copy_partial, C104_plain_name, C104_copy_lines); false for names with a directory (C104_path_false) and for lines without a name (C104_lines_false)",
"status": "partial"
},
"C105": {
"note": "for the stored attributes of the object; decomposition and eigenvalues exact",
"status": "proved"
},
"C106": {
"note": "iso is not always read back exactly (C106_iso_exact_false), the property does not say so",
"status": "proved"
},
"C107": {
"note": "for all descriptions and all nonzero spins, with no condition on directions near z; exact arithmetic; the bound is for entries of the matrix, and for energies where the matrix is at least a > 0",
"status": "proved"
},
"C108": {
"note": "all three cases; the packing of the cone gradient is without round-off only",
"status": "proved"
},
"C109": {
"note": "all bonds, states and orders of additions",
"status": "proved"
},
"C11": {
"note": "every successful assignment; exact condition for TypeError, which is where the property fails",
"status": "partial"
},
"C110": {
"note": "one evaluation of the condition of the loop; the loop itself with floats is not modelled",
"status": "proved"
},
"C111": {
"note": "runs of the ferro case as any sequence of gradients and updates; the search direction and the step are arguments",
"status": "proved"
},
"C112": {
"note": "runs as any sequence of gradients and updates; the search direction and the step are arguments",
"status": "proved"
},
"C12": {
"note": "for consistent pairs / canonical bonds; false for contradictory pairs and non-canonical bonds",
"status": "partial"
},
"C13": {
"note": "without sharing; exact exponent law for shared objects shows the property false",
"status": "partial"
},
"C14": {
"note": "every state in which stored objects are allocated; bonds, on-site terms, and access by name",
"status": "proved"
},
"C15": {
"note": "present bond: exact result; absent bond: KeyError and unchanged state",
"status": "proved"
},
"C16": {
"note": "proved for Atom arguments; false for names (C16_remove_by_name_false, for every name of an atom)",
"status": "partial"
},
"C17": {
"note": "exact success condition and exact result; false with double counting as soon as the atom has a bond with another site (C17_double_counting_false)",
"status": "partial"
},
"C18": {
"note": "for all conditions and all iteration orders of the set; filtered() through a model of deepcopy",
"status": "proved"
},
"C19": {
"note": "induction over all histories of public calls, raising calls included",
"status": "proved"
},
"C20": {
"note": "for all iteration orders of the set",
"status": "proved"
},
"C21": {
"note": "loops over the iterator state machines, every size; exchange_like for defined non-zero on_site_factor, and the exact exceptions otherwise",
"status": "proved"
},
"C22": {
"note": "exact value for every configuration and the exact condition under which the property holds; false otherwise (C22_exchange_like_false)",
"status": "partial"
},
"C23": {
"note": "Exact value for every Hamiltonian (bonds counted twice, or once in either orientation) and notation; it is the classical energy if bonds are counted twice, the notation is not spin-normalised and the squares of the factors are equal. Otherwise false of the code (C23_double_counting_false, C23_factors_false, C23_spin_normalized_false).",
"status": "partial"
},
"C24": {
"note": "C24_exact: what happens for every Hamiltonian (bonds counted once end in canonical orientation, with transposed matrices if they were turned; everything else and the energy stay). Unchanged for well-formed Hamiltonians (C24_unchanged_partial). Bonds that are not in canonical orientation are turned around, and an exception leaves double counting on (C24_orientation_false, C24_exception_false).",
"status": "partial"
},
"C25": {
"note": "Proved for Hamiltonians that count bonds twice; false of the code otherwise (C25_shared_false).",
"status": "partial"
},
"C26": {
"note": "",
"status": "proved"
},
"C27": {
"note": "",
"status": "proved"
},
"C28": {
"note": "",
"status": "proved"
},
"C29": {
"note": "periodicity, reversal and the isotropic case hold in general; invariance under rotation about the cone axis holds without field and is refuted with field",
"status": "partial"
},
"C30": {
"note": "exact field contribution proved; the claim is refuted (spin lengths are missing, cone states count I+P instead of P); proved for ferro with all spins of length one",
"status": "partial"
},
"C31": {
"note": "",
"status": "proved"
},
"C32": {
"note": "all three cases, every configuration visited, through starting point, updates and loop",
"status": "proved"
},
"C33": {
"note": "ferro and spiral proved; antiferro is false (C33_antiferro_false): the cone axis is never changed and the last spin follows the torque of the cone axis (exact theorems)",
"status": "partial"
},
"C34": {
"note": "number of iterations, energy change and torque targets proved as coded; the targets are those before the last update, C34_torque_false shows that torques of the returned state can exceed the tolerance; zero tolerances return the start (C34_zero_tolerance)",
"status": "partial"
},
"C35": {
"note": "exact: first accepted member of the geometric sequence, or ValueError when all are rejected",
"status": "proved"
},
"C36": {
"note": "false for the default settings (C36_false); proved: the exact bound on the increase, and no increase for wolfe_c1 <= 0",
"status": "partial"
},
"C37": {
"note": "proved for runs that end by convergence; false when max_iterations stops the run (C37_limit gives the exact content, C37_limit_false the negation)",
"status": "partial"
},
"C38": {
"note": "m, wolfe_c1, magnetic_field proved; wolfe_c2 reads back wolfe_c1, setters of g_factors and spins always raise, m is truncated (negations proved)",
"status": "partial"
},
"C39": {
"note": "Proved for every object that the constructor returns with mirrored matrices and symmetric on-site matrices (C39_private) and for every Hamiltonian with bonds counted once, in either orientation, or twice (C39_hermitian).",
"status": "proved"
},
"C40": {
"note": "Matrix identity h(-k) = exchanged conjugate of h(k), and the resulting identity of the energies of solve_via_colpa.",
"status": "proved"
},
"C41": {
"note": "Orthonormal eigenvectors: full statement (C41_colpa_partial). Any eigenbasis: real positive ordered energies (C41_energies), unique (C41_unique), failure exactly for matrices that are not positive definite (C41_failure); G is no boson transformation in general (C41_eigenbasis_false).",
"status": "partial"
},
"C42": {
"note": "For every direction other than zero, including the opposite of the z axis.",
"status": "proved"
},
"C43": {
"note": "Proved: moduli, positive-definite, positive-semidefinite, negative-definite matrices, fallback. Number of energies: false with return_G and the zero fallback (C43_length_false), otherwise proved (C43_length_partial).",
"status": "partial"
},
"C44": {
"note": "for every text",
"status": "proved"
},
"C45": {
"note": "for every list of lines, with the exact set of accepted files; a repeated section overwrites the earlier one (visible in C45_sections)",
"status": "proved"
},
"C46": {
"note": "False as stated: five accepted files that raise (C46_false). C46_partial: every accepted file is loaded under the conditions Readable; contracts on float (case-insensitive), norm, sin and cos.",
"status": "partial"
},
"C47": {
"note": "proved for cell, atoms and on-site terms; false for exchange: the units are ignored (C47_exchange_ignored, C47_exchange_false) and Joule raises NameError (C47_exchange_joule)",
"status": "partial"
},
"C48": {
"note": "false: the volume is V^3/V0^2 where V0 is the volume of the rows; equal to V only if V0 = V",
"status": "partial"
},
"C49": {
"note": "value of the bond proved (C49_combined); the mirror created under double counting is the transpose of what the first keyword line gives: false for several lines, proved for one",
"status": "partial"
},
"C50": {
"note": "dumpText followed by load gives the same Hamiltonian up to printed digits for every writable Hamiltonian and complete options (C50_roundtrip_partial); false in full: spiral vector (C50_spiral_false, C50_statement_false), self bonds, missing spins, no atoms, no options; g-factors, charges and antisymmetric on-site parts are not written; C50_no_spin: with an atom without spin reading back always raises",
"status": "partial"
},
"C51": {
"note": "every storable Hamiltonian, every file: restored up to the order of atoms; order kept iff at most nine atoms; notation kept exactly as far as parameters exist; the full statement is false (C51_statement_false, C51_notation_false)",
"status": "partial"
},
"C52": {
"note": "all file names and formats",
"status": "proved"
},
"C53": {
"note": "dump_ucf leaves well-formed Hamiltonians unchanged (C53_unchanged_partial) and lists every ordered pair and on-site term once with an explicit matrix; with bonds counted once in either orientation everything stays except that those bonds end in the orientation of the library (C53_turned); false for short material lists, missing spins and self bonds (C53_unchanged_false).",
"status": "partial"
},
"C54": {
"note": "",
"status": "proved"
},
"C55": {
"note": "false (C55_lbfgs_false); proved instead: with 0 <= wolfe_c2 < 1 every step follows the plain gradient; with the memory in use the direction is orthogonal to the last gradient change",
"status": "partial"
},
"C56": {
"note": "false (C56_descends_false); proved instead: the spiral vector moves along +dE/dq, the energy grows to first order by lambda |dE/dq|^2; C56_raises: optimize raises for a family of chains",
"status": "partial"
},
"C57": {
"note": "False (C57_semidefinite_false): zeros are returned; the exact outcome is proved.",
"status": "partial"
},
"C58": {
"note": "Constructor, later programs on the Hamiltonian, earlier calls.",
"status": "proved"
},
"C59": {
"note": "Second-order part of the energy in Spec/Energy of waves on any finite translation group: travelling waves (C59_expansion) and standing waves (C59_standing, twice the form).",
"status": "proved"
},
"C60": {
"note": "Matrix identity with phases common to particles and holes, and equality of the energies.",
"status": "proved"
},
"C61": {
"note": "Exact law: exchange energy plus a quarter of the on-site energy; equals the energy iff the on-site energy vanishes; C61_energy_false. Also for bonds counted once in either orientation.",
"status": "partial"
},
"C62": {
"note": "Blocks proved for every list that is not too short; numbers of materials agree iff the list has no gaps; C62_counts_false. Also for bonds counted once in either orientation.",
"status": "partial"
},
"C63": {
"note": "All combinations of the flags, for every tensor.",
"status": "proved"
},
"C64": {
"note": "other objects untouched and existing groups refused: proved for all inputs; the file after an exception: false (C64_statement_false), C64_incomplete says what is left",
"status": "partial"
},
"C65": {
"note": "all files",
"status": "proved"
},
"C66": {
"note": "C66_load for all files of the form of Spec/Tb2j, C66_form: the matrix of the parts as a bilinear form, C66_both for the opposite bonds; limits: C66_trailing, C66_no_bonds, C66_empty_line (errors, dropped bonds), C66_contradiction_false (contradicting blocks)",
"status": "proved"
},
"C67": {
"note": "false of the code: C67_hdf5_fails and C67_text_fails for every file with an atom; C67_energy, C67_magnons: the loaded Hamiltonian is not usable without setting spins; proved: names and formats (C67_guess, C67_text_name, C67_hdf5_name, C67_unknown), only the target file changes (C67_others), choice of the reader (C67_reader_partial, C67_reader_false), with spins in place of the dashes the text is read back (C67_text_filled)",
"status": "partial"
},
"C68": {
"note": "False of the code with the antiferro case (C68_false, C68_antiferro, C68_antiferro_never, C68_all: TypeError in the summary, ferro and spiral energies labelled as antiferromagnetic; C68_history: histories of 26 minimisations in three files; C68_none; C68_mislabelled). Proved without it: summary (C68_summary_partial), tables (C68_tables), success only if all minimisations succeeded (C68_only_if), the reported ferro energy is that of the listed unit directions (C68_ferro_report). C68_parity, C68_seven: the 26 vectors are seven different problems.",
"status": "partial"
},
"C69": {
"note": "C69_mode: the rotation mode is annihilated by h(0), h(0) is not positive definite and Colpa's method fails (all axial Hamiltonians, stationary spins). C69_zero_iff, C69_collinear: exact criterion for a reported lowest energy of zero; C69_ferro: it holds for ferromagnets. False in general (C69_false: antiferromagnet of two atoms).",
"status": "partial"
},
"C70": {
"note": "C70_stable, for all k, all notations, all lengths and directions.",
"status": "proved"
},
"C71": {
"note": "C71_energy; C71_notation for every sequence of changes of the notation, also if bonds are counted once in either orientation",
"status": "proved"
},
"C72": {
"note": "C72_energies_partial needs spins that are not within 1e-8 of the z axis without being on it, before and after the turn (no condition if the spins are not turned); C72_false shows that the full statement C72_statement fails without it.",
"status": "partial"
},
"C73": {
"note": "Fourier transform of the parameters for every Hamiltonian; ferromagnets with any number of atoms and all signs of the energies",
"status": "proved"
},
"C74": {
"note": "two atoms with antiparallel spins of any lengths, all cases of the four attempts",
"status": "proved"
},
"C75": {
"note": "omegas column by column, table, figure, names, files, additional points, failure and unstable points",
"status": "proved"
},
"C76": {
"note": "C76_motion: equations of motion iff stationary and h(k) x = w g x; C76_reported: reported energies are exactly the frequencies; C76_collinear: scalar products, any collinear state",
"status": "proved"
},
"C77": {
"note": "C77_layout_partial: exact layout for all arguments except comment=False; order for at most eight texts, equal lengths if texts fit. C77_order_false, C77_comment_false, C77_width_false show that the full statement fails without these conditions. C77_ignored: comment lines are dropped by the reader.",
"status": "partial"
},
"C78": {
"note": "C78_axis_partial and C78_spiral_partial need that nobody writes into the array that is the current value (C78_write_false); C78_errors gives the exact exceptions, C78_small_false a short axis that is refused.",
"status": "partial"
},
"C79": {
"note": "Ferro, antiferro and spiral torques with explicit error bounds; slope along search directions and end of runs for ferro. C79_test_false: the acceptance test of the line search uses the opposite sign.",
"status": "proved"
},
"C80": {
"note": "C80_ferro_partial, C80_antiferro_partial, C80_spiral_partial: the table of every run, with the torques of the configuration before (C80_torque_false: not of the row itself). C80_append_ferro/antiferro/spiral: two histories in one file are apart exactly if the first run did a positive multiple of history_step iterations (C80_append_false); C80_append_screen: always on the screen.",
"status": "partial"
},
"C81": {
"note": "The text is read back and the energy bound is proved for well-formed states (bonds counted once in either orientation) with complete notation, spins and enough materials (other calls: C53_unchanged_false); the lines are those of C53. Geometry and float formatting are parameters with the contract History.Reads; the energy claim is for the default mask.",
"status": "partial"
},
"C82": {
"note": "False for atoms without spins (C82_together_false) and for seed names with a leading space (C82_seed_false); proved for well-formed Hamiltonians (bonds counted once in either orientation) with spins, names that can be values, and seed names without line breaks, comment signs and leading white space. C82_spin gives the exception of dump_mat.",
"status": "partial"
},
"C83": {
"note": "C83_reversal and C83_inversion hold without guards; the rules for symmetries that turn spins (C83_symmetry_partial, C83_antisymmetry_partial, C83_coplanar_partial) need spins that are not within 1e-8 of the z axis without being on it (the guard of C72, necessary by C72_false); C83_nonreciprocal shows that a symmetry is needed",
"status": "partial"
},
"C84": {
"note": "Soundness and spins for all files of the three readers. Switching double counting off and on loses exactly the bonds of an atom with itself in the same cell; of every other pair one keeps its value and the other becomes its transpose.",
"status": "proved"
},
"C85": {
"note": "Full statement refuted (Hamiltonian without on-site parameters, both formats). Energies of the parameters always, of the own notation with exchange and on-site parameters; text files within an explicit rounding bound; magnon energies of HDF5 files for all Hamiltonians.",
"status": "partial"
},
"C86": {
"note": "Reading the results file proved for all runs; the claim that history files are announced by their names is refuted for the antiferro case (missing line break).",
"status": "partial"
},
"C87": {
"note": "Reading the data file and the table of the joined file proved for all inputs; readability of the whole joined file and the headings of the description are refuted (missing comment signs and line breaks).",
"status": "partial"
},
"C88": {
"note": "Energy, number of magnons and wave vectors proved for all inputs; the energies of omega agree if all matrices h(k + G) are positive definite or all are negative definite, and C88_energies_partial says what is reported in all other cases; C88_false shows that agreement fails there.",
"status": "partial"
},
"C89": {
"note": "For all local minima of supercells and all wave vectors; C89_unit_cell_not_enough shows that a minimum within one cell does not suffice.",
"status": "proved"
},
"C90": {
"note": "An equivalence for every supercell, and the second-order energy of all deviations; C90_not_every_minimum shows that the firm minimum cannot be weakened to a local minimum.",
"status": "proved"
},
"C91": {
"note": "For all positive definite h(k); the energies are the ones omega reports, whatever correct routines of linear algebra are used.",
"status": "proved"
},
"C92": {
"note": "Both the order of the matrices and, for positive definite h(k), the order of the reported energies.",
"status": "proved"
},
"C93": {
"note": "For all programs of the statements of Model/ParamHeap.",
"status": "proved"
},
"C94": {
"note": "Over every field of characteristic zero, lengths over the reals.",
"status": "proved"
},
"C95": {
"note": "Comparisons are proved as stated; short names read the same values, but assigning to I and S is refused by the code (C95_names_false).",
"status": "partial"
},
"C96": {
"note": "False of the code: it raises for every vector, and with its names corrected loses the sign of y; the partial theorem says what the corrected code returns.",
"status": "partial"
},
"C97": {
"note": "h(k) is linear in the classical energy (C97_linear), energies of multiples (C97_scaling), lowest energy of sums (C97_gap); on-site matrices symmetric as in C71, energies where h(k) is positive definite.",
"status": "proved"
},
"C98": {
"note": "C98_values, C98_exceptions, C98_round_trip, C98_energy, C98_exact, C98_predefined, C98_binary; C98_bits_false shows that the bound cannot be replaced by equality",
"status": "proved"
},
"C99": {
"note": "false for values that look like options (C99_values_false, e.g. -1e-3); proved for all other values and all command lines",
"status": "partial"
}
}