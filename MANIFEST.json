{
 "claims": [
  {
   "property": "C01",
   "status": "proved",
   "theorems": [
    "Magnopy.C01_decomposition",
    "Magnopy.C01_unique",
    "Magnopy.C01_matrices"
   ],
   "note": "existence and uniqueness of the decomposition over any field of characteristic 0"
  },
  {
   "property": "C02",
   "status": "proved",
   "theorems": [
    "Magnopy.C02_set_iso",
    "Magnopy.C02_set_dmi",
    "Magnopy.C02_set_aniso",
    "Magnopy.C02_set_aniso_general",
    "Magnopy.C02_set_aniso_false",
    "Magnopy.C02_set_entry",
    "Magnopy.C02_constructor",
    "Magnopy.C02_errors_keep_state"
   ],
   "note": "iso, dmi, single components, constructor, and aniso for symmetric traceless arguments as the statement asks; for other aniso arguments C02_set_aniso_general gives the exact effect and C02_set_aniso_false a counterexample"
  },
  {
   "property": "C03",
   "status": "proved",
   "theorems": [
    "Magnopy.C03_transpose"
   ],
   "note": ""
  },
  {
   "property": "C04",
   "status": "proved",
   "theorems": [
    "Magnopy.C04_linear",
    "Magnopy.C04_inverse",
    "Magnopy.C04_floordiv_mod",
    "Magnopy.C04_eq"
   ],
   "note": ""
  },
  {
   "property": "C05",
   "status": "partial",
   "theorems": [
    "Magnopy.C05_energy_partial",
    "Magnopy.C05_no_exception_partial",
    "Magnopy.C05_exceptions_partial",
    "Magnopy.C05_reachable",
    "Magnopy.C05_reachable_once",
    "Magnopy.C05_self_bond_false",
    "Magnopy.C05_shared_false",
    "Magnopy.C05_stale_mirror_false"
   ],
   "note": "any sequence of assignments, every supercell and configuration, for Hamiltonians whose bonds are stored in both orientations (counted twice) or in one of the two (counted once), which good histories produce; the exact exceptions (C05_exceptions_partial); false for self bonds, shared objects, stale mirrors"
  },
  {
   "property": "C06",
   "status": "proved",
   "theorems": [
    "Magnopy.C06_round_trip",
    "Magnopy.C06_turned",
    "Magnopy.C06_not_well_formed_false"
   ],
   "note": "any sequence of assignments that returns to the first notation: same matrices (C06), or the bonds turned to the other orientation if they were counted once (C06_turned); counterexamples outside"
  },
  {
   "property": "C07",
   "status": "partial",
   "theorems": [
    "Magnopy.C07_first_assignment",
    "Magnopy.C07_double_counting_partial",
    "Magnopy.C07_self_bond_false"
   ],
   "note": "three attributes: full; double_counting: values stay (maybe at the mirrored key) unless a bond joins an atom with itself or a pair is contradictory"
  },
  {
   "property": "C08",
   "status": "proved",
   "theorems": [
    "Magnopy.C08_read",
    "Magnopy.C08_assign"
   ],
   "note": ""
  },
  {
   "property": "C09",
   "status": "proved",
   "theorems": [
    "Magnopy.C09_mirror_present"
   ],
   "note": "induction over all histories of public calls, raising calls included"
  },
  {
   "property": "C10",
   "status": "partial",
   "theorems": [
    "Magnopy.C10_mirror_transposed_partial",
    "Magnopy.C10_pairs_consistent_partial",
    "Magnopy.C10_mirror_transposed_false"
   ],
   "note": "false in general (C10_mirror_transposed_false: re-adding a bond leaves the old mirror); proved for histories in which no call shares parameter objects or contradicts a stored mirror, all spins defined"
  },
  {
   "property": "C11",
   "status": "partial",
   "theorems": [
    "Magnopy.C11_canonical",
    "Magnopy.C11_exception",
    "Magnopy.C11_pairs_kept",
    "Magnopy.C11_canonical_false"
   ],
   "note": "every successful assignment; exact condition for TypeError, which is where the property fails"
  },
  {
   "property": "C12",
   "status": "partial",
   "theorems": [
    "Magnopy.C12_true_partial",
    "Magnopy.C12_false_partial",
    "Magnopy.C12_no_op_false"
   ],
   "note": "for consistent pairs / canonical bonds; false for contradictory pairs and non-canonical bonds"
  },
  {
   "property": "C13",
   "status": "partial",
   "theorems": [
    "Magnopy.C13_exact_law",
    "Magnopy.C13_once_partial",
    "Magnopy.C13_shared_false"
   ],
   "note": "without sharing; exact exponent law for shared objects shows the property false"
  },
  {
   "property": "C14",
   "status": "proved",
   "theorems": [
    "Magnopy.C14_set_bond",
    "Magnopy.C14_set_on_site",
    "Magnopy.C14_contains",
    "Magnopy.C14_by_name"
   ],
   "note": "every state in which stored objects are allocated; bonds, on-site terms, and access by name"
  },
  {
   "property": "C15",
   "status": "proved",
   "theorems": [
    "Magnopy.C15_remove_present",
    "Magnopy.C15_remove_absent"
   ],
   "note": "present bond: exact result; absent bond: KeyError and unchanged state"
  },
  {
   "property": "C16",
   "status": "partial",
   "theorems": [
    "Magnopy.C16_remove_on_site_partial",
    "Magnopy.C16_remove_by_name_false"
   ],
   "note": "proved for Atom arguments; false for names (C16_remove_by_name_false, for every name of an atom)"
  },
  {
   "property": "C17",
   "status": "partial",
   "theorems": [
    "Magnopy.C17_remove_atom_partial",
    "Magnopy.C17_double_counting_false"
   ],
   "note": "exact success condition and exact result; false with double counting as soon as the atom has a bond with another site (C17_double_counting_false)"
  },
  {
   "property": "C18",
   "status": "proved",
   "theorems": [
    "Magnopy.C18_order_independent",
    "Magnopy.C18_filter",
    "Magnopy.C18_filtered"
   ],
   "note": "for all conditions and all iteration orders of the set; filtered() through a model of deepcopy"
  },
  {
   "property": "C19",
   "status": "proved",
   "theorems": [
    "Magnopy.C19_atoms_of_parameters"
   ],
   "note": "induction over all histories of public calls, raising calls included"
  },
  {
   "property": "C20",
   "status": "proved",
   "theorems": [
    "Magnopy.C20_magnetic_atoms",
    "Magnopy.C20_order_independent"
   ],
   "note": "for all iteration orders of the set"
  },
  {
   "property": "C21",
   "status": "proved",
   "theorems": [
    "Magnopy.C21_exchange",
    "Magnopy.C21_on_site",
    "Magnopy.C21_exchange_like",
    "Magnopy.C21_exchange_like_errors"
   ],
   "note": "loops over the iterator state machines, every size; exchange_like for defined non-zero on_site_factor, and the exact exceptions otherwise"
  },
  {
   "property": "C22",
   "status": "partial",
   "theorems": [
    "Magnopy.C22_exchange_like_sum_partial",
    "Magnopy.C22_exchange_like_false"
   ],
   "note": "exact value for every configuration and the exact condition under which the property holds; false otherwise (C22_exchange_like_false)"
  },
  {
   "property": "C23",
   "status": "partial",
   "theorems": [
    "Magnopy.C23_ferro_exact",
    "Magnopy.C23_ferro_partial",
    "Magnopy.C23_double_counting_false",
    "Magnopy.C23_factors_false",
    "Magnopy.C23_spin_normalized_false",
    "Magnopy.C23_errors",
    "Magnopy.C23_indices"
   ],
   "note": "Exact value for every Hamiltonian (bonds counted twice, or once in either orientation) and notation; it is the classical energy if bonds are counted twice, the notation is not spin-normalised and the squares of the factors are equal. Otherwise false of the code (C23_double_counting_false, C23_factors_false, C23_spin_normalized_false)."
  },
  {
   "property": "C24",
   "status": "partial",
   "theorems": [
    "Magnopy.C24_exact",
    "Magnopy.C24_unchanged_partial",
    "Magnopy.C24_orientation_false",
    "Magnopy.C24_exception_false"
   ],
   "note": "C24_exact: what happens for every Hamiltonian (bonds counted once end in canonical orientation, with transposed matrices if they were turned; everything else and the energy stay). Unchanged for well-formed Hamiltonians (C24_unchanged_partial). Bonds that are not in canonical orientation are turned around, and an exception leaves double counting on (C24_orientation_false, C24_exception_false)."
  },
  {
   "property": "C25",
   "status": "partial",
   "theorems": [
    "Magnopy.C25_independent_partial",
    "Magnopy.C25_shared_false"
   ],
   "note": "Proved for Hamiltonians that count bonds twice; false of the code otherwise (C25_shared_false)."
  },
  {
   "property": "C26",
   "status": "proved",
   "theorems": [
    "Magnopy.C26_direction_only",
    "Magnopy.C26_single"
   ],
   "note": ""
  },
  {
   "property": "C27",
   "status": "proved",
   "theorems": [
    "Magnopy.C27_spiral_average"
   ],
   "note": ""
  },
  {
   "property": "C28",
   "status": "proved",
   "theorems": [
    "Magnopy.C28_antiferro_average"
   ],
   "note": ""
  },
  {
   "property": "C29",
   "status": "partial",
   "theorems": [
    "Magnopy.C29_rotation_partial",
    "Magnopy.C29_periodic",
    "Magnopy.C29_reversal",
    "Magnopy.C29_isotropic",
    "Magnopy.C29_rotation_field_false"
   ],
   "note": "periodicity, reversal and the isotropic case hold in general; invariance under rotation about the cone axis holds without field and is refuted with field"
  },
  {
   "property": "C30",
   "status": "partial",
   "theorems": [
    "Magnopy.C30_ferro_exact",
    "Magnopy.C30_cone_exact",
    "Magnopy.C30_ferro_partial",
    "Magnopy.C30_ferro_false",
    "Magnopy.C30_spiral_false"
   ],
   "note": "exact field contribution proved; the claim is refuted (spin lengths are missing, cone states count I+P instead of P); proved for ferro with all spins of length one"
  },
  {
   "property": "C31",
   "status": "proved",
   "theorems": [
    "Magnopy.C31_q_gradient"
   ],
   "note": ""
  },
  {
   "property": "C32",
   "status": "proved",
   "theorems": [
    "Magnopy.C32_ferro",
    "Magnopy.C32_antiferro",
    "Magnopy.C32_spiral"
   ],
   "note": "all three cases, every configuration visited, through starting point, updates and loop"
  },
  {
   "property": "C33",
   "status": "partial",
   "theorems": [
    "Magnopy.C33_antiferro_false",
    "Magnopy.C33_ferro",
    "Magnopy.C33_spiral",
    "Magnopy.C33_antiferro_cone_fixed",
    "Magnopy.C33_antiferro_last_spin"
   ],
   "note": "ferro and spiral proved; antiferro is false (C33_antiferro_false): the cone axis is never changed and the last spin follows the torque of the cone axis (exact theorems)"
  },
  {
   "property": "C34",
   "status": "partial",
   "theorems": [
    "Magnopy.C34_torque_false",
    "Magnopy.C34_stops_partial",
    "Magnopy.C34_terminates",
    "Magnopy.C34_zero_tolerance",
    "Magnopy.C34_ferro_partial",
    "Magnopy.C34_antiferro_partial",
    "Magnopy.C34_spiral_partial"
   ],
   "note": "number of iterations, energy change and torque targets proved as coded; the targets are those before the last update, C34_torque_false shows that torques of the returned state can exceed the tolerance; zero tolerances return the start (C34_zero_tolerance)"
  },
  {
   "property": "C35",
   "status": "proved",
   "theorems": [
    "Magnopy.C35_line_search"
   ],
   "note": "exact: first accepted member of the geometric sequence, or ValueError when all are rejected"
  },
  {
   "property": "C36",
   "status": "partial",
   "theorems": [
    "Magnopy.C36_bound",
    "Magnopy.C36_energy_partial",
    "Magnopy.C36_false"
   ],
   "note": "false for the default settings (C36_false); proved: the exact bound on the increase, and no increase for wolfe_c1 <= 0"
  },
  {
   "property": "C37",
   "status": "partial",
   "theorems": [
    "Magnopy.C37_history_partial",
    "Magnopy.C37_limit",
    "Magnopy.C37_limit_false"
   ],
   "note": "proved for runs that end by convergence; false when max_iterations stops the run (C37_limit gives the exact content, C37_limit_false the negation)"
  },
  {
   "property": "C38",
   "status": "partial",
   "theorems": [
    "Magnopy.C38_settings_partial",
    "Magnopy.C38_wolfe_c1_partial",
    "Magnopy.C38_wolfe_c2_partial",
    "Magnopy.C38_lists",
    "Magnopy.C38_rejected",
    "Magnopy.C38_wolfe_false",
    "Magnopy.C38_m_false"
   ],
   "note": "m, wolfe_c1, magnetic_field proved; wolfe_c2 reads back wolfe_c1, setters of g_factors and spins always raise, m is truncated (negations proved)"
  },
  {
   "property": "C39",
   "status": "proved",
   "theorems": [
    "Magnopy.C39_private",
    "Magnopy.C39_hermitian"
   ],
   "note": "Proved for every object that the constructor returns with mirrored matrices and symmetric on-site matrices (C39_private) and for every Hamiltonian with bonds counted once, in either orientation, or twice (C39_hermitian)."
  },
  {
   "property": "C40",
   "status": "proved",
   "theorems": [
    "Magnopy.C40_private",
    "Magnopy.C40_exchange",
    "Magnopy.C40_energies"
   ],
   "note": "Matrix identity h(-k) = exchanged conjugate of h(k), and the resulting identity of the energies of solve_via_colpa."
  },
  {
   "property": "C41",
   "status": "partial",
   "theorems": [
    "Magnopy.C41_energies",
    "Magnopy.C41_failure",
    "Magnopy.C41_colpa_partial",
    "Magnopy.C41_unique",
    "Magnopy.C41_eigenbasis_false"
   ],
   "note": "Orthonormal eigenvectors: full statement (C41_colpa_partial). Any eigenbasis: real positive ordered energies (C41_energies), unique (C41_unique), failure exactly for matrices that are not positive definite (C41_failure); G is no boson transformation in general (C41_eigenbasis_false)."
  },
  {
   "property": "C42",
   "status": "proved",
   "theorems": [
    "Magnopy.C42_frame"
   ],
   "note": "For every direction other than zero, including the opposite of the z axis."
  },
  {
   "property": "C43",
   "status": "partial",
   "theorems": [
    "Magnopy.C43_moduli",
    "Magnopy.C43_positive",
    "Magnopy.C43_semidefinite",
    "Magnopy.C43_negative",
    "Magnopy.C43_fallback",
    "Magnopy.C43_length_partial",
    "Magnopy.C43_length_false"
   ],
   "note": "Proved: moduli, positive-definite, positive-semidefinite, negative-definite matrices, fallback. Number of energies: false with return_G and the zero fallback (C43_length_false), otherwise proved (C43_length_partial)."
  },
  {
   "property": "C44",
   "status": "proved",
   "theorems": [
    "Magnopy.C44_kept",
    "Magnopy.C44_content",
    "Magnopy.C44_idempotent"
   ],
   "note": "for every text"
  },
  {
   "property": "C45",
   "status": "proved",
   "theorems": [
    "Magnopy.C45_sections",
    "Magnopy.C45_accepted",
    "Magnopy.C45_slice"
   ],
   "note": "for every list of lines, with the exact set of accepted files; a repeated section overwrites the earlier one (visible in C45_sections)"
  },
  {
   "property": "C46",
   "status": "partial",
   "theorems": [
    "Magnopy.C46_partial",
    "Magnopy.C46_false"
   ],
   "note": "False as stated: five accepted files that raise (C46_false). C46_partial: every accepted file is loaded under the conditions Readable; contracts on float (case-insensitive), norm, sin and cos."
  },
  {
   "property": "C47",
   "status": "partial",
   "theorems": [
    "Magnopy.C47_on_site_partial",
    "Magnopy.C47_exchange_ignored",
    "Magnopy.C47_exchange_joule",
    "Magnopy.C47_atoms_partial",
    "Magnopy.C47_cell_partial",
    "Magnopy.C47_exchange_false"
   ],
   "note": "proved for cell, atoms and on-site terms; false for exchange: the units are ignored (C47_exchange_ignored, C47_exchange_false) and Joule raises NameError (C47_exchange_joule)"
  },
  {
   "property": "C48",
   "status": "partial",
   "theorems": [
    "Magnopy.C48_volume_partial",
    "Magnopy.C48_volume_false",
    "Magnopy.C48_no_scale",
    "Magnopy.C48_positive"
   ],
   "note": "false: the volume is V^3/V0^2 where V0 is the volume of the rows; equal to V only if V0 = V"
  },
  {
   "property": "C49",
   "status": "partial",
   "theorems": [
    "Magnopy.C49_combined",
    "Magnopy.C49_mirror_partial",
    "Magnopy.C49_mirror_false"
   ],
   "note": "value of the bond proved (C49_combined); the mirror created under double counting is the transpose of what the first keyword line gives: false for several lines, proved for one"
  },
  {
   "property": "C50",
   "status": "partial",
   "theorems": [
    "Magnopy.Txt.C50_roundtrip_partial",
    "Magnopy.Txt.C50_no_spin",
    "Magnopy.Txt.C50_forgets",
    "Magnopy.Txt.C50_self",
    "Magnopy.Txt.C50_self_lost",
    "Magnopy.Txt.C50_antisymmetric",
    "Magnopy.Txt.C50_angles",
    "Magnopy.Txt.C50_notation",
    "Magnopy.Txt.C50_spiral_false",
    "Magnopy.Txt.C50_spin_false",
    "Magnopy.Txt.C50_alone_false",
    "Magnopy.Txt.C50_empty_false",
    "Magnopy.Txt.C50_options_false",
    "Magnopy.Txt.C50_statement_false"
   ],
   "note": "dumpText followed by load gives the same Hamiltonian up to printed digits for every writable Hamiltonian and complete options (C50_roundtrip_partial); false in full: spiral vector (C50_spiral_false, C50_statement_false), self bonds, missing spins, no atoms, no options; g-factors, charges and antisymmetric on-site parts are not written; C50_no_spin: with an atom without spin reading back always raises"
  },
  {
   "property": "C51",
   "status": "partial",
   "theorems": [
    "Magnopy.H5.C51_roundtrip_partial",
    "Magnopy.H5.C51_needs_spin",
    "Magnopy.H5.C51_statement_false",
    "Magnopy.H5.C51_notation_false"
   ],
   "note": "every storable Hamiltonian, every file: restored up to the order of atoms; order kept iff at most nine atoms; notation kept exactly as far as parameters exist; the full statement is false (C51_statement_false, C51_notation_false)"
  },
  {
   "property": "C52",
   "status": "proved",
   "theorems": [
    "Magnopy.C52_explicit",
    "Magnopy.C52_guess"
   ],
   "note": "all file names and formats"
  },
  {
   "property": "C53",
   "status": "partial",
   "theorems": [
    "Magnopy.C53_turned",
    "Magnopy.C53_unchanged_partial",
    "Magnopy.C53_lines_partial",
    "Magnopy.C53_short_materials",
    "Magnopy.C53_unchanged_false"
   ],
   "note": "dump_ucf leaves well-formed Hamiltonians unchanged (C53_unchanged_partial) and lists every ordered pair and on-site term once with an explicit matrix; with bonds counted once in either orientation everything stays except that those bonds end in the orientation of the library (C53_turned); false for short material lists, missing spins and self bonds (C53_unchanged_false)."
  },
  {
   "property": "C54",
   "status": "proved",
   "theorems": [
    "Magnopy.C54_equal",
    "Magnopy.C54_independent"
   ],
   "note": ""
  },
  {
   "property": "C55",
   "status": "partial",
   "theorems": [
    "Magnopy.C55_always_gradient",
    "Magnopy.C55_ferro_steepest_descent",
    "Magnopy.C55_orthogonal",
    "Magnopy.C55_lbfgs_false"
   ],
   "note": "false (C55_lbfgs_false); proved instead: with 0 <= wolfe_c2 < 1 every step follows the plain gradient; with the memory in use the direction is orthogonal to the last gradient change"
  },
  {
   "property": "C56",
   "status": "partial",
   "theorems": [
    "Magnopy.C56_uphill",
    "Magnopy.C56_descends_false",
    "Magnopy.C56_raises"
   ],
   "note": "false (C56_descends_false); proved instead: the spiral vector moves along +dE/dq, the energy grows to first order by lambda |dE/dq|^2; C56_raises: optimize raises for a family of chains"
  },
  {
   "property": "C57",
   "status": "partial",
   "theorems": [
    "Magnopy.C57_semidefinite_partial",
    "Magnopy.C57_semidefinite_false"
   ],
   "note": "False (C57_semidefinite_false): zeros are returned; the exact outcome is proved."
  },
  {
   "property": "C58",
   "status": "proved",
   "theorems": [
    "Magnopy.C58_unchanged",
    "Magnopy.C58_independent",
    "Magnopy.C58_calls"
   ],
   "note": "Constructor, later programs on the Hamiltonian, earlier calls."
  },
  {
   "property": "C59",
   "status": "proved",
   "theorems": [
    "Magnopy.C59_expansion",
    "Magnopy.C59_standing"
   ],
   "note": "Second-order part of the energy in Spec/Energy of waves on any finite translation group: travelling waves (C59_expansion) and standing waves (C59_standing, twice the form)."
  },
  {
   "property": "C60",
   "status": "proved",
   "theorems": [
    "Magnopy.C60_periodic",
    "Magnopy.C60_energies"
   ],
   "note": "Matrix identity with phases common to particles and holes, and equality of the energies."
  },
  {
   "property": "C61",
   "status": "partial",
   "theorems": [
    "Magnopy.C61_energy_partial",
    "Magnopy.C61_energy_false"
   ],
   "note": "Exact law: exchange energy plus a quarter of the on-site energy; equals the energy iff the on-site energy vanishes; C61_energy_false. Also for bonds counted once in either orientation."
  },
  {
   "property": "C62",
   "status": "partial",
   "theorems": [
    "Magnopy.C62_blocks",
    "Magnopy.C62_default",
    "Magnopy.C62_counts_partial",
    "Magnopy.C62_counts_false"
   ],
   "note": "Blocks proved for every list that is not too short; numbers of materials agree iff the list has no gaps; C62_counts_false. Also for bonds counted once in either orientation."
  },
  {
   "property": "C63",
   "status": "proved",
   "theorems": [
    "Magnopy.C63_masks"
   ],
   "note": "All combinations of the flags, for every tensor."
  },
  {
   "property": "C64",
   "status": "partial",
   "theorems": [
    "Magnopy.H5.C64_others",
    "Magnopy.H5.C64_refuses",
    "Magnopy.H5.C64_incomplete",
    "Magnopy.H5.C64_statement_false"
   ],
   "note": "other objects untouched and existing groups refused: proved for all inputs; the file after an exception: false (C64_statement_false), C64_incomplete says what is left"
  },
  {
   "property": "C65",
   "status": "proved",
   "theorems": [
    "Magnopy.H5.C65_only",
    "Magnopy.H5.C65_ambiguous",
    "Magnopy.H5.C65_found"
   ],
   "note": "all files"
  },
  {
   "property": "C66",
   "status": "proved",
   "theorems": [
    "Magnopy.Tb2j.C66_form",
    "Magnopy.Tb2j.C66_load",
    "Magnopy.Tb2j.C66_both",
    "Magnopy.Tb2j.C66_trailing",
    "Magnopy.Tb2j.C66_no_bonds",
    "Magnopy.Tb2j.C66_empty_line",
    "Magnopy.Tb2j.C66_contradiction_false"
   ],
   "note": "C66_load for all files of the form of Spec/Tb2j, C66_form: the matrix of the parts as a bilinear form, C66_both for the opposite bonds; limits: C66_trailing, C66_no_bonds, C66_empty_line (errors, dropped bonds), C66_contradiction_false (contradicting blocks)"
  },
  {
   "property": "C67",
   "status": "partial",
   "theorems": [
    "Magnopy.Convert.C67_text_name",
    "Magnopy.Convert.C67_hdf5_name",
    "Magnopy.Convert.C67_unknown",
    "Magnopy.Convert.C67_guess",
    "Magnopy.Convert.C67_reader_partial",
    "Magnopy.Convert.C67_reader_false",
    "Magnopy.Convert.C67_others",
    "Magnopy.Convert.C67_hdf5_fails",
    "Magnopy.Convert.C67_text_fails",
    "Magnopy.Convert.C67_text_filled",
    "Magnopy.Convert.C67_energy",
    "Magnopy.Convert.C67_magnons"
   ],
   "note": "false of the code: C67_hdf5_fails and C67_text_fails for every file with an atom; C67_energy, C67_magnons: the loaded Hamiltonian is not usable without setting spins; proved: names and formats (C67_guess, C67_text_name, C67_hdf5_name, C67_unknown), only the target file changes (C67_others), choice of the reader (C67_reader_partial, C67_reader_false), with spins in place of the dashes the text is read back (C67_text_filled)"
  },
  {
   "property": "C68",
   "status": "partial",
   "theorems": [
    "Magnopy.Minimize.C68_only_if",
    "Magnopy.Minimize.C68_summary_partial",
    "Magnopy.Minimize.C68_tables",
    "Magnopy.Minimize.C68_antiferro",
    "Magnopy.Minimize.C68_antiferro_never",
    "Magnopy.Minimize.C68_all",
    "Magnopy.Minimize.C68_none",
    "Magnopy.Minimize.C68_mislabelled",
    "Magnopy.Minimize.C68_history",
    "Magnopy.Minimize.C68_parity",
    "Magnopy.Minimize.C68_seven",
    "Magnopy.Minimize.C68_ferro_report",
    "Magnopy.Minimize.C68_false"
   ],
   "note": "False of the code with the antiferro case (C68_false, C68_antiferro, C68_antiferro_never, C68_all: TypeError in the summary, ferro and spiral energies labelled as antiferromagnetic; C68_history: histories of 26 minimisations in three files; C68_none; C68_mislabelled). Proved without it: summary (C68_summary_partial), tables (C68_tables), success only if all minimisations succeeded (C68_only_if), the reported ferro energy is that of the listed unit directions (C68_ferro_report). C68_parity, C68_seven: the 26 vectors are seven different problems."
  },
  {
   "property": "C69",
   "status": "partial",
   "theorems": [
    "Magnopy.C69_mode",
    "Magnopy.C69_zero_iff",
    "Magnopy.C69_collinear",
    "Magnopy.C69_ferro",
    "Magnopy.C69_false"
   ],
   "note": "C69_mode: the rotation mode is annihilated by h(0), h(0) is not positive definite and Colpa's method fails (all axial Hamiltonians, stationary spins). C69_zero_iff, C69_collinear: exact criterion for a reported lowest energy of zero; C69_ferro: it holds for ferromagnets. False in general (C69_false: antiferromagnet of two atoms)."
  },
  {
   "property": "C70",
   "status": "proved",
   "theorems": [
    "Magnopy.C70_stable"
   ],
   "note": "C70_stable, for all k, all notations, all lengths and directions."
  },
  {
   "property": "C71",
   "status": "proved",
   "theorems": [
    "Magnopy.C71_energy",
    "Magnopy.C71_notation"
   ],
   "note": "C71_energy; C71_notation for every sequence of changes of the notation, also if bonds are counted once in either orientation"
  },
  {
   "property": "C72",
   "status": "partial",
   "theorems": [
    "Magnopy.C72_energies_partial",
    "Magnopy.C72_false"
   ],
   "note": "C72_energies_partial needs spins that are not within 1e-8 of the z axis without being on it, before and after the turn (no condition if the spins are not turned); C72_false shows that the full statement C72_statement fails without it."
  },
  {
   "property": "C73",
   "status": "proved",
   "theorems": [
    "Magnopy.C73_fourier",
    "Magnopy.C73_parallel",
    "Magnopy.C73_single"
   ],
   "note": "Fourier transform of the parameters for every Hamiltonian; ferromagnets with any number of atoms and all signs of the energies"
  },
  {
   "property": "C74",
   "status": "proved",
   "theorems": [
    "Magnopy.C74_antiparallel"
   ],
   "note": "two atoms with antiparallel spins of any lengths, all cases of the four attempts"
  },
  {
   "property": "C75",
   "status": "proved",
   "theorems": [
    "Magnopy.C75_omegas",
    "Magnopy.DispScript.C75_points",
    "Magnopy.DispScript.C75_names",
    "Magnopy.DispScript.C75_files",
    "Magnopy.DispScript.C75_failure",
    "Magnopy.DispScript.C75_nopoints",
    "Magnopy.DispScript.C75_table",
    "Magnopy.DispScript.C75_figure",
    "Magnopy.DispScript.C75_unstable"
   ],
   "note": "omegas column by column, table, figure, names, files, additional points, failure and unstable points"
  },
  {
   "property": "C76",
   "status": "proved",
   "theorems": [
    "Magnopy.C76_motion",
    "Magnopy.C76_reported",
    "Magnopy.C76_collinear"
   ],
   "note": "C76_motion: equations of motion iff stationary and h(k) x = w g x; C76_reported: reported energies are exactly the frequencies; C76_collinear: scalar products, any collinear state"
  },
  {
   "property": "C77",
   "status": "partial",
   "theorems": [
    "Magnopy.Logo.C77_layout_partial",
    "Magnopy.Logo.C77_ignored",
    "Magnopy.Logo.C77_order_false",
    "Magnopy.Logo.C77_comment_false",
    "Magnopy.Logo.C77_width_false"
   ],
   "note": "C77_layout_partial: exact layout for all arguments except comment=False; order for at most eight texts, equal lengths if texts fit. C77_order_false, C77_comment_false, C77_width_false show that the full statement fails without these conditions. C77_ignored: comment lines are dropped by the reader."
  },
  {
   "property": "C78",
   "status": "partial",
   "theorems": [
    "Magnopy.Ground.C78_errors",
    "Magnopy.Ground.C78_axis_partial",
    "Magnopy.Ground.C78_spiral_partial",
    "Magnopy.Ground.C78_write_false",
    "Magnopy.Ground.C78_small_false"
   ],
   "note": "C78_axis_partial and C78_spiral_partial need that nobody writes into the array that is the current value (C78_write_false); C78_errors gives the exact exceptions, C78_small_false a short axis that is refused."
  },
  {
   "property": "C79",
   "status": "proved",
   "theorems": [
    "Magnopy.C79_ferro",
    "Magnopy.C79_antiferro",
    "Magnopy.C79_spiral",
    "Magnopy.C79_slope",
    "Magnopy.C79_converged",
    "Magnopy.C79_test_false"
   ],
   "note": "Ferro, antiferro and spiral torques with explicit error bounds; slope along search directions and end of runs for ferro. C79_test_false: the acceptance test of the line search uses the opposite sign."
  },
  {
   "property": "C80",
   "status": "partial",
   "theorems": [
    "Magnopy.History.C80_append_ferro",
    "Magnopy.History.C80_append_antiferro",
    "Magnopy.History.C80_append_spiral",
    "Magnopy.History.C80_append_screen",
    "Magnopy.History.C80_append_false",
    "Magnopy.History.C80_torque_false",
    "Magnopy.History.C80_ferro_partial",
    "Magnopy.History.C80_antiferro_partial",
    "Magnopy.History.C80_spiral_partial"
   ],
   "note": "C80_ferro_partial, C80_antiferro_partial, C80_spiral_partial: the table of every run, with the torques of the configuration before (C80_torque_false: not of the row itself). C80_append_ferro/antiferro/spiral: two histories in one file are apart exactly if the first run did a positive multiple of history_step iterations (C80_append_false); C80_append_screen: always on the screen."
  },
  {
   "property": "C81",
   "status": "partial",
   "theorems": [
    "Magnopy.C81_text_partial",
    "Magnopy.C81_energy_partial"
   ],
   "note": "The text is read back and the energy bound is proved for well-formed states (bonds counted once in either orientation) with complete notation, spins and enough materials (other calls: C53_unchanged_false); the lines are those of C53. Geometry and float formatting are parameters with the contract History.Reads; the energy claim is for the default mask."
  },
  {
   "property": "C82",
   "status": "partial",
   "theorems": [
    "Magnopy.C82_mat_partial",
    "Magnopy.C82_spin",
    "Magnopy.C82_vampire_partial",
    "Magnopy.C82_together_false",
    "Magnopy.C82_seed_false"
   ],
   "note": "False for atoms without spins (C82_together_false) and for seed names with a leading space (C82_seed_false); proved for well-formed Hamiltonians (bonds counted once in either orientation) with spins, names that can be values, and seed names without line breaks, comment signs and leading white space. C82_spin gives the exception of dump_mat."
  },
  {
   "property": "C83",
   "status": "partial",
   "theorems": [
    "Magnopy.C83_reversal",
    "Magnopy.C83_symmetry_partial",
    "Magnopy.C83_inversion",
    "Magnopy.C83_antisymmetry_partial",
    "Magnopy.C83_coplanar_partial",
    "Magnopy.C83_nonreciprocal"
   ],
   "note": "C83_reversal and C83_inversion hold without guards; the rules for symmetries that turn spins (C83_symmetry_partial, C83_antisymmetry_partial, C83_coplanar_partial) need spins that are not within 1e-8 of the z axis without being on it (the guard of C72, necessary by C72_false); C83_nonreciprocal shows that a symmetry is needed"
  },
  {
   "property": "C84",
   "status": "proved",
   "theorems": [
    "Magnopy.C84_own",
    "Magnopy.C84_spins",
    "Magnopy.C84_distances",
    "Magnopy.C84_rescaled",
    "Magnopy.C84_double_counting"
   ],
   "note": "Soundness and spins for all files of the three readers. Switching double counting off and on loses exactly the bonds of an atom with itself in the same cell; of every other pair one keeps its value and the other becomes its transpose."
  },
  {
   "property": "C85",
   "status": "partial",
   "theorems": [
    "Magnopy.C85_hdf5_energy_partial",
    "Magnopy.C85_hdf5_no_onsite",
    "Magnopy.C85_energy_false",
    "Magnopy.C85_hdf5_magnons",
    "Magnopy.Txt.C85_text_energy_partial",
    "Magnopy.Txt.C85_text_no_onsite"
   ],
   "note": "Full statement refuted (Hamiltonian without on-site parameters, both formats). Energies of the parameters always, of the own notation with exchange and on-site parameters; text files within an explicit rounding bound; magnon energies of HDF5 files for all Hamiltonians."
  },
  {
   "property": "C86",
   "status": "partial",
   "theorems": [
    "Magnopy.Minimize.C86_read",
    "Magnopy.Minimize.C86_tables",
    "Magnopy.Minimize.C86_ferro_report",
    "Magnopy.Minimize.C86_announced",
    "Magnopy.Minimize.C86_announced_false"
   ],
   "note": "Reading the results file proved for all runs; the claim that history files are announced by their names is refuted for the antiferro case (missing line break)."
  },
  {
   "property": "C87",
   "status": "partial",
   "theorems": [
    "Magnopy.DispScript.C87_info",
    "Magnopy.DispScript.C87_data",
    "Magnopy.DispScript.C87_join",
    "Magnopy.DispScript.C87_join_false",
    "Magnopy.DispScript.C87_readable_false",
    "Magnopy.DispScript.C87_titles",
    "Magnopy.DispScript.C87_klabels_false",
    "Magnopy.DispScript.C87_klabels_statement_false"
   ],
   "note": "Reading the data file and the table of the joined file proved for all inputs; readability of the whole joined file and the headings of the description are refuted (missing comment signs and line breaks)."
  },
  {
   "property": "C88",
   "status": "partial",
   "theorems": [
    "Magnopy.C88_energy",
    "Magnopy.C88_waves",
    "Magnopy.C88_energies_partial",
    "Magnopy.C88_false"
   ],
   "note": "Energy, number of magnons and wave vectors proved for all inputs; the energies of omega agree if all matrices h(k + G) are positive definite or all are negative definite, and C88_energies_partial says what is reported in all other cases; C88_false shows that agreement fails there."
  },
  {
   "property": "C89",
   "status": "proved",
   "theorems": [
    "Magnopy.C89_minimum",
    "Magnopy.C89_unit_cell",
    "Magnopy.C89_unit_cell_not_enough"
   ],
   "note": "For all local minima of supercells and all wave vectors; C89_unit_cell_not_enough shows that a minimum within one cell does not suffice."
  },
  {
   "property": "C90",
   "status": "proved",
   "theorems": [
    "Magnopy.C90_deviations",
    "Magnopy.C90_firm",
    "Magnopy.C90_isolated",
    "Magnopy.C90_not_every_minimum"
   ],
   "note": "An equivalence for every supercell, and the second-order energy of all deviations; C90_not_every_minimum shows that the firm minimum cannot be weakened to a local minimum."
  },
  {
   "property": "C91",
   "status": "proved",
   "theorems": [
    "Magnopy.C91_sums",
    "Magnopy.C91_variational",
    "Magnopy.C91_compare",
    "Magnopy.C91_continuous"
   ],
   "note": "For all positive definite h(k); the energies are the ones omega reports, whatever correct routines of linear algebra are used."
  },
  {
   "property": "C92",
   "status": "proved",
   "theorems": [
    "Magnopy.C92_stiffer",
    "Magnopy.C92_easy_axis"
   ],
   "note": "Both the order of the matrices and, for positive definite h(k), the order of the reported energies."
  },
  {
   "property": "C93",
   "status": "proved",
   "theorems": [
    "Magnopy.ParamHeap.C93_separate",
    "Magnopy.ParamHeap.C93_frame",
    "Magnopy.ParamHeap.C93_live",
    "Magnopy.ParamHeap.C93_detached",
    "Magnopy.ParamHeap.C93_plain",
    "Magnopy.ParamHeap.C93_lost"
   ],
   "note": "For all programs of the statements of Model/ParamHeap."
  },
  {
   "property": "C94",
   "status": "proved",
   "theorems": [
    "Magnopy.C94_rotation",
    "Magnopy.C94_energy",
    "Magnopy.C94_invariants",
    "Magnopy.C94_norm",
    "Magnopy.C94_module",
    "Magnopy.C94_ratio"
   ],
   "note": "Over every field of characteristic zero, lengths over the reals."
  },
  {
   "property": "C95",
   "status": "partial",
   "theorems": [
    "Magnopy.C95_equal",
    "Magnopy.C95_array",
    "Magnopy.C95_names_false",
    "Magnopy.C95_names_partial",
    "Magnopy.C95_long"
   ],
   "note": "Comparisons are proved as stated; short names read the same values, but assigning to I and S is refused by the code (C95_names_false)."
  },
  {
   "property": "C96",
   "status": "partial",
   "theorems": [
    "Magnopy.C96_returns_false",
    "Magnopy.C96_angles_false",
    "Magnopy.C96_angles_partial"
   ],
   "note": "False of the code: it raises for every vector, and with its names corrected loses the sign of y; the partial theorem says what the corrected code returns."
  },
  {
   "property": "C97",
   "status": "proved",
   "theorems": [
    "Magnopy.C97_linear",
    "Magnopy.C97_scaling",
    "Magnopy.C97_gap"
   ],
   "note": "h(k) is linear in the classical energy (C97_linear), energies of multiples (C97_scaling), lowest energy of sums (C97_gap); on-site matrices symmetric as in C71, energies where h(k) is positive definite."
  },
  {
   "property": "C98",
   "status": "proved",
   "theorems": [
    "Magnopy.C98_values",
    "Magnopy.C98_exceptions",
    "Magnopy.C98_round_trip",
    "Magnopy.C98_energy",
    "Magnopy.C98_exact",
    "Magnopy.C98_predefined",
    "Magnopy.C98_binary",
    "Magnopy.C98_bits_false"
   ],
   "note": "C98_values, C98_exceptions, C98_round_trip, C98_energy, C98_exact, C98_predefined, C98_binary; C98_bits_false shows that the bound cannot be replaced by equality"
  },
  {
   "property": "C99",
   "status": "partial",
   "theorems": [
    "Magnopy.Cli.C99_values_partial",
    "Magnopy.Cli.C99_values_false",
    "Magnopy.Cli.C99_order",
    "Magnopy.Cli.C99_accepted",
    "Magnopy.Cli.C99_refused",
    "Magnopy.Cli.C99_convert",
    "Magnopy.Cli.C99_minimize",
    "Magnopy.Cli.C99_dispersion",
    "Magnopy.Cli.C99_main",
    "Magnopy.Cli.C99_main_options"
   ],
   "note": "false for values that look like options (C99_values_false, e.g. -1e-3); proved for all other values and all command lines"
  },
  {
   "property": "C100",
   "status": "proved",
   "theorems": [
    "Magnopy.EnergyObj.C100_exceptions",
    "Magnopy.EnergyObj.C100_ferro",
    "Magnopy.EnergyObj.C100_compare",
    "Magnopy.EnergyObj.C100_one_sign"
   ],
   "note": "for the standard model of rounding (no overflow or underflow), any order of additions in numpy"
  },
  {
   "property": "C101",
   "status": "proved",
   "theorems": [
    "Magnopy.EnergyObj.C101_exceptions",
    "Magnopy.EnergyObj.C101_antiferro",
    "Magnopy.EnergyObj.C101_spiral",
    "Magnopy.EnergyObj.C101_compare",
    "Magnopy.EnergyObj.C101_still"
   ],
   "note": "for the standard model of rounding (no overflow or underflow), any order of additions in numpy; the stored bond vectors and matrices are the given numbers"
  },
  {
   "property": "C102",
   "status": "partial",
   "theorems": [
    "Magnopy.Txt.C102_refused",
    "Magnopy.Txt.C102_holds",
    "Magnopy.Txt.C102_line",
    "Magnopy.Txt.C102_block_false",
    "Magnopy.Txt.C102_duplicates_false"
   ],
   "note": "refusal and truth of all messages proved for all files; the code contradicts the statement about numbers of blocks after a keyword (C102_block_false), and the message about repeated names is also sent without names (C102_duplicates_false)"
  },
  {
   "property": "C103",
   "status": "partial",
   "theorems": [
    "Magnopy.Txt.C103_one_section",
    "Magnopy.Txt.C103_atoms",
    "Magnopy.Txt.C103_unknown_sections",
    "Magnopy.Txt.C103_all_false"
   ],
   "note": "the first sentence is false (C103_all_false); the second is proved (C103_atoms, C103_unknown_sections, C103_one_section)"
  },
  {
   "property": "C104",
   "status": "partial",
   "theorems": [
    "Magnopy.Txt.C104_copy_partial",
    "Magnopy.Txt.C104_plain_name",
    "Magnopy.Txt.C104_copy_lines",
    "Magnopy.Txt.C104_path_false",
    "Magnopy.Txt.C104_lines_false"
   ],
   "note": "proved if the copy can be written where the code puts it (C104_copy_partial, C104_plain_name, C104_copy_lines); false for names with a directory (C104_path_false) and for lines without a name (C104_lines_false)"
  },
  {
   "property": "C105",
   "status": "proved",
   "theorems": [
    "Magnopy.MagnonObj.C105_matrix",
    "Magnopy.MagnonObj.C105_kept",
    "Magnopy.MagnonObj.C105_energies"
   ],
   "note": "for the stored attributes of the object; decomposition and eigenvalues exact"
  },
  {
   "property": "C106",
   "status": "proved",
   "theorems": [
    "Magnopy.Param.C106_parts",
    "Magnopy.Param.C106_sum",
    "Magnopy.Param.C106_symmetry",
    "Magnopy.Param.C106_set_iso",
    "Magnopy.Param.C106_set_dmi",
    "Magnopy.Param.C106_set_aniso",
    "Magnopy.Param.C106_constructor",
    "Magnopy.Param.C106_iso_exact_false"
   ],
   "note": "iso is not always read back exactly (C106_iso_exact_false), the property does not say so"
  },
  {
   "property": "C107",
   "status": "proved",
   "theorems": [
    "Magnopy.MagnonObj.C107_matrix",
    "Magnopy.MagnonObj.C107_energies",
    "Magnopy.MagnonObj.C107_spins"
   ],
   "note": "for all descriptions and all nonzero spins, with no condition on directions near z; exact arithmetic; the bound is for entries of the matrix, and for energies where the matrix is at least a > 0"
  },
  {
   "property": "C108",
   "status": "proved",
   "theorems": [
    "Magnopy.Optimize.C108_antiferro",
    "Magnopy.Optimize.C108_spiral",
    "Magnopy.Optimize.C108_torques",
    "Magnopy.Optimize.C108_array",
    "Magnopy.Optimize.C108_gradient",
    "Magnopy.Optimize.C108_restored_false"
   ],
   "note": "all three cases; the packing of the cone gradient is without round-off only"
  },
  {
   "property": "C109",
   "status": "proved",
   "theorems": [
    "Magnopy.Optimize.C109_derivative"
   ],
   "note": "all bonds, states and orders of additions"
  },
  {
   "property": "C110",
   "status": "proved",
   "theorems": [
    "Magnopy.Optimize.C110_energies",
    "Magnopy.Optimize.C110_energies_antiferro",
    "Magnopy.Optimize.C110_energies_spiral",
    "Magnopy.Optimize.C110_ferro",
    "Magnopy.Optimize.C110_antiferro",
    "Magnopy.Optimize.C110_spiral",
    "Magnopy.Optimize.C110_converged",
    "Magnopy.Optimize.C110_converged_antiferro",
    "Magnopy.Optimize.C110_converged_spiral"
   ],
   "note": "one evaluation of the condition of the loop; the loop itself with floats is not modelled"
  },
  {
   "property": "C111",
   "status": "proved",
   "theorems": [
    "Magnopy.Optimize.C111_row",
    "Magnopy.Optimize.C111_length",
    "Magnopy.Optimize.C111_ferro",
    "Magnopy.Optimize.C111_antiferro",
    "Magnopy.Optimize.C111_spiral",
    "Magnopy.Optimize.C111_start",
    "Magnopy.Optimize.C111_run",
    "Magnopy.Optimize.C111_torques",
    "Magnopy.Optimize.C111_stop"
   ],
   "note": "runs of the ferro case as any sequence of gradients and updates; the search direction and the step are arguments"
  },
  {
   "property": "C112",
   "status": "proved",
   "theorems": [
    "Magnopy.Optimize.C112_antiferro",
    "Magnopy.Optimize.C112_spiral",
    "Magnopy.Optimize.C112_antiferro_stop",
    "Magnopy.Optimize.C112_spiral_stop"
   ],
   "note": "runs as any sequence of gradients and updates; the search direction and the step are arguments"
  }
 ]
}