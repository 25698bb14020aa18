import Verif.Props.Angles
import Verif.Props.Cli
import Verif.Props.Colpa
import Verif.Props.ConeRun
import Verif.Props.Convert
import Verif.Props.Describe
import Verif.Props.Dispersion
import Verif.Props.DispersionScript
import Verif.Props.DispersionText
import Verif.Props.EnergyCone
import Verif.Props.EnergyConeRounding
import Verif.Props.EnergyFerro
import Verif.Props.EnergyRounding
import Verif.Props.FileEnergy
import Verif.Props.FileText
import Verif.Props.Firm
import Verif.Props.Frame
import Verif.Props.Goldstone
import Verif.Props.GradQRounding
import Verif.Props.Ground
import Verif.Props.HamCopy
import Verif.Props.HamDict
import Verif.Props.HamHistory
import Verif.Props.HamIter
import Verif.Props.HamNotation
import Verif.Props.Hdf5
import Verif.Props.HistoryAppend
import Verif.Props.HistoryText
import Verif.Props.Linear
import Verif.Props.Logo
import Verif.Props.Magnon
import Verif.Props.MagnonRounding
import Verif.Props.MagnonTilt
import Verif.Props.Minimize
import Verif.Props.MinimizeText
import Verif.Props.Minimum
import Verif.Props.Motion
import Verif.Props.Omega
import Verif.Props.OptCone
import Verif.Props.OptDirection
import Verif.Props.OptExample
import Verif.Props.Optimize
import Verif.Props.Param
import Verif.Props.ParamHeap
import Verif.Props.ParamParts
import Verif.Props.ParamRounding
import Verif.Props.Reader
import Verif.Props.Reversal
import Verif.Props.Rounding
import Verif.Props.Spectrum
import Verif.Props.Stiffer
import Verif.Props.StopEnergy
import Verif.Props.StopRounding
import Verif.Props.Supercell
import Verif.Props.Tb2j
import Verif.Props.Torque
import Verif.Props.TorqueConeRounding
import Verif.Props.TorqueRounding
import Verif.Props.TxtBond
import Verif.Props.TxtCell
import Verif.Props.TxtDump
import Verif.Props.TxtFile
import Verif.Props.TxtFilter
import Verif.Props.TxtLoad
import Verif.Props.TxtLog
import Verif.Props.TxtSections
import Verif.Props.TxtUnits
import Verif.Props.UpdateRounding
import Verif.Props.Vampire
import Verif.Props.VampireFiles
import Verif.Props.VampireText
import Verif.Props.Wave

/-!
# Axioms used by every property theorem

The only ones allowed are `propext`, `Classical.choice`, `Quot.sound`.
-/

#print axioms Magnopy.C96_returns_false
#print axioms Magnopy.C96_angles_false
#print axioms Magnopy.C96_angles_partial
#print axioms Magnopy.Cli.C99_values_partial
#print axioms Magnopy.Cli.C99_values_false
#print axioms Magnopy.Cli.C99_order
#print axioms Magnopy.Cli.C99_accepted
#print axioms Magnopy.Cli.C99_refused
#print axioms Magnopy.Cli.C99_convert
#print axioms Magnopy.Cli.C99_minimize
#print axioms Magnopy.Cli.C99_dispersion
#print axioms Magnopy.Cli.C99_main
#print axioms Magnopy.Cli.C99_main_options
#print axioms Magnopy.C41_energies
#print axioms Magnopy.C41_failure
#print axioms Magnopy.C41_colpa_partial
#print axioms Magnopy.C41_unique
#print axioms Magnopy.C41_eigenbasis_false
#print axioms Magnopy.Optimize.C112_antiferro
#print axioms Magnopy.Optimize.C112_spiral
#print axioms Magnopy.Optimize.C112_antiferro_stop
#print axioms Magnopy.Optimize.C112_spiral_stop
#print axioms Magnopy.Convert.C67_text_name
#print axioms Magnopy.Convert.C67_hdf5_name
#print axioms Magnopy.Convert.C67_unknown
#print axioms Magnopy.Convert.C67_guess
#print axioms Magnopy.Convert.C67_reader_partial
#print axioms Magnopy.Convert.C67_reader_false
#print axioms Magnopy.Convert.C67_others
#print axioms Magnopy.Convert.C67_hdf5_fails
#print axioms Magnopy.Convert.C67_text_fails
#print axioms Magnopy.Convert.C67_text_filled
#print axioms Magnopy.Convert.C67_energy
#print axioms Magnopy.Convert.C67_magnons
#print axioms Magnopy.C71_energy
#print axioms Magnopy.C71_notation
#print axioms Magnopy.C72_energies_partial
#print axioms Magnopy.C72_false
#print axioms Magnopy.C73_fourier
#print axioms Magnopy.C73_parallel
#print axioms Magnopy.C73_single
#print axioms Magnopy.C74_antiparallel
#print axioms Magnopy.C75_omegas
#print axioms Magnopy.DispScript.C75_points
#print axioms Magnopy.DispScript.C75_names
#print axioms Magnopy.DispScript.C75_files
#print axioms Magnopy.DispScript.C75_failure
#print axioms Magnopy.DispScript.C75_nopoints
#print axioms Magnopy.DispScript.C75_table
#print axioms Magnopy.DispScript.C75_figure
#print axioms Magnopy.DispScript.C75_unstable
#print axioms Magnopy.DispScript.C87_info
#print axioms Magnopy.DispScript.C87_data
#print axioms Magnopy.DispScript.C87_join
#print axioms Magnopy.DispScript.C87_join_false
#print axioms Magnopy.DispScript.C87_readable_false
#print axioms Magnopy.DispScript.C87_titles
#print axioms Magnopy.DispScript.C87_klabels_false
#print axioms Magnopy.DispScript.C87_klabels_statement_false
#print axioms Magnopy.C26_direction_only
#print axioms Magnopy.C26_single
#print axioms Magnopy.C27_spiral_average
#print axioms Magnopy.C28_antiferro_average
#print axioms Magnopy.C29_rotation_partial
#print axioms Magnopy.C29_periodic
#print axioms Magnopy.C29_reversal
#print axioms Magnopy.C29_isotropic
#print axioms Magnopy.C30_ferro_exact
#print axioms Magnopy.C30_cone_exact
#print axioms Magnopy.C30_ferro_partial
#print axioms Magnopy.C30_ferro_false
#print axioms Magnopy.C30_spiral_false
#print axioms Magnopy.C29_rotation_field_false
#print axioms Magnopy.C31_q_gradient
#print axioms Magnopy.EnergyObj.C101_exceptions
#print axioms Magnopy.EnergyObj.C101_antiferro
#print axioms Magnopy.EnergyObj.C101_spiral
#print axioms Magnopy.EnergyObj.C101_compare
#print axioms Magnopy.EnergyObj.C101_still
#print axioms Magnopy.C23_ferro_exact
#print axioms Magnopy.C23_ferro_partial
#print axioms Magnopy.C23_double_counting_false
#print axioms Magnopy.C23_factors_false
#print axioms Magnopy.C23_spin_normalized_false
#print axioms Magnopy.C23_errors
#print axioms Magnopy.C23_indices
#print axioms Magnopy.C24_exact
#print axioms Magnopy.C24_unchanged_partial
#print axioms Magnopy.C24_orientation_false
#print axioms Magnopy.C24_exception_false
#print axioms Magnopy.C25_independent_partial
#print axioms Magnopy.C25_shared_false
#print axioms Magnopy.EnergyObj.C100_exceptions
#print axioms Magnopy.EnergyObj.C100_ferro
#print axioms Magnopy.EnergyObj.C100_compare
#print axioms Magnopy.EnergyObj.C100_one_sign
#print axioms Magnopy.C85_hdf5_energy_partial
#print axioms Magnopy.C85_hdf5_no_onsite
#print axioms Magnopy.C85_energy_false
#print axioms Magnopy.C85_hdf5_magnons
#print axioms Magnopy.Txt.C85_text_energy_partial
#print axioms Magnopy.Txt.C85_text_no_onsite
#print axioms Magnopy.C90_deviations
#print axioms Magnopy.C90_firm
#print axioms Magnopy.C90_isolated
#print axioms Magnopy.C90_not_every_minimum
#print axioms Magnopy.C42_frame
#print axioms Magnopy.C69_mode
#print axioms Magnopy.C69_zero_iff
#print axioms Magnopy.C70_stable
#print axioms Magnopy.C69_collinear
#print axioms Magnopy.C69_ferro
#print axioms Magnopy.C69_false
#print axioms Magnopy.Optimize.C109_derivative
#print axioms Magnopy.Ground.C78_errors
#print axioms Magnopy.Ground.C78_axis_partial
#print axioms Magnopy.Ground.C78_spiral_partial
#print axioms Magnopy.Ground.C78_write_false
#print axioms Magnopy.Ground.C78_small_false
#print axioms Magnopy.C54_equal
#print axioms Magnopy.C54_independent
#print axioms Magnopy.C14_set_bond
#print axioms Magnopy.C14_set_on_site
#print axioms Magnopy.C14_contains
#print axioms Magnopy.C14_by_name
#print axioms Magnopy.C15_remove_present
#print axioms Magnopy.C15_remove_absent
#print axioms Magnopy.C16_remove_on_site_partial
#print axioms Magnopy.C16_remove_by_name_false
#print axioms Magnopy.C17_remove_atom_partial
#print axioms Magnopy.C17_double_counting_false
#print axioms Magnopy.C18_order_independent
#print axioms Magnopy.C18_filter
#print axioms Magnopy.C18_filtered
#print axioms Magnopy.C20_magnetic_atoms
#print axioms Magnopy.C20_order_independent
#print axioms Magnopy.C09_mirror_present
#print axioms Magnopy.C19_atoms_of_parameters
#print axioms Magnopy.C10_mirror_transposed_partial
#print axioms Magnopy.C10_pairs_consistent_partial
#print axioms Magnopy.C10_mirror_transposed_false
#print axioms Magnopy.C21_exchange
#print axioms Magnopy.C21_on_site
#print axioms Magnopy.C21_exchange_like
#print axioms Magnopy.C21_exchange_like_errors
#print axioms Magnopy.C22_exchange_like_sum_partial
#print axioms Magnopy.C22_exchange_like_false
#print axioms Magnopy.C05_energy_partial
#print axioms Magnopy.C05_no_exception_partial
#print axioms Magnopy.C05_exceptions_partial
#print axioms Magnopy.C06_round_trip
#print axioms Magnopy.C06_turned
#print axioms Magnopy.C05_reachable
#print axioms Magnopy.C05_reachable_once
#print axioms Magnopy.C05_self_bond_false
#print axioms Magnopy.C05_shared_false
#print axioms Magnopy.C05_stale_mirror_false
#print axioms Magnopy.C06_not_well_formed_false
#print axioms Magnopy.C07_first_assignment
#print axioms Magnopy.C07_double_counting_partial
#print axioms Magnopy.C07_self_bond_false
#print axioms Magnopy.C08_read
#print axioms Magnopy.C08_assign
#print axioms Magnopy.C11_canonical
#print axioms Magnopy.C11_exception
#print axioms Magnopy.C11_pairs_kept
#print axioms Magnopy.C11_canonical_false
#print axioms Magnopy.C12_true_partial
#print axioms Magnopy.C12_false_partial
#print axioms Magnopy.C12_no_op_false
#print axioms Magnopy.C13_exact_law
#print axioms Magnopy.C13_once_partial
#print axioms Magnopy.C13_shared_false
#print axioms Magnopy.H5.C51_roundtrip_partial
#print axioms Magnopy.H5.C51_needs_spin
#print axioms Magnopy.H5.C64_others
#print axioms Magnopy.H5.C64_refuses
#print axioms Magnopy.H5.C64_incomplete
#print axioms Magnopy.H5.C65_only
#print axioms Magnopy.H5.C65_ambiguous
#print axioms Magnopy.H5.C65_found
#print axioms Magnopy.H5.C51_statement_false
#print axioms Magnopy.H5.C51_notation_false
#print axioms Magnopy.H5.C64_statement_false
#print axioms Magnopy.C52_explicit
#print axioms Magnopy.C52_guess
#print axioms Magnopy.History.C80_append_ferro
#print axioms Magnopy.History.C80_append_antiferro
#print axioms Magnopy.History.C80_append_spiral
#print axioms Magnopy.History.C80_append_screen
#print axioms Magnopy.History.C80_append_false
#print axioms Magnopy.History.C80_torque_false
#print axioms Magnopy.History.C80_ferro_partial
#print axioms Magnopy.History.C80_antiferro_partial
#print axioms Magnopy.History.C80_spiral_partial
#print axioms Magnopy.C97_linear
#print axioms Magnopy.C97_scaling
#print axioms Magnopy.C97_gap
#print axioms Magnopy.Logo.C77_layout_partial
#print axioms Magnopy.Logo.C77_ignored
#print axioms Magnopy.Logo.C77_order_false
#print axioms Magnopy.Logo.C77_comment_false
#print axioms Magnopy.Logo.C77_width_false
#print axioms Magnopy.C39_private
#print axioms Magnopy.C39_hermitian
#print axioms Magnopy.C40_private
#print axioms Magnopy.C40_exchange
#print axioms Magnopy.C40_energies
#print axioms Magnopy.C60_periodic
#print axioms Magnopy.C60_energies
#print axioms Magnopy.C58_unchanged
#print axioms Magnopy.C58_independent
#print axioms Magnopy.C58_calls
#print axioms Magnopy.MagnonObj.C105_matrix
#print axioms Magnopy.MagnonObj.C105_kept
#print axioms Magnopy.MagnonObj.C105_energies
#print axioms Magnopy.MagnonObj.C107_matrix
#print axioms Magnopy.MagnonObj.C107_energies
#print axioms Magnopy.MagnonObj.C107_spins
#print axioms Magnopy.Minimize.C68_only_if
#print axioms Magnopy.Minimize.C68_summary_partial
#print axioms Magnopy.Minimize.C68_tables
#print axioms Magnopy.Minimize.C68_antiferro
#print axioms Magnopy.Minimize.C68_antiferro_never
#print axioms Magnopy.Minimize.C68_all
#print axioms Magnopy.Minimize.C68_none
#print axioms Magnopy.Minimize.C68_mislabelled
#print axioms Magnopy.Minimize.C68_history
#print axioms Magnopy.Minimize.C68_parity
#print axioms Magnopy.Minimize.C68_seven
#print axioms Magnopy.Minimize.C68_ferro_report
#print axioms Magnopy.Minimize.C68_false
#print axioms Magnopy.Minimize.C86_read
#print axioms Magnopy.Minimize.C86_tables
#print axioms Magnopy.Minimize.C86_ferro_report
#print axioms Magnopy.Minimize.C86_announced
#print axioms Magnopy.Minimize.C86_announced_false
#print axioms Magnopy.C89_minimum
#print axioms Magnopy.C89_unit_cell
#print axioms Magnopy.C89_unit_cell_not_enough
#print axioms Magnopy.C76_motion
#print axioms Magnopy.C76_reported
#print axioms Magnopy.C76_collinear
#print axioms Magnopy.C43_moduli
#print axioms Magnopy.C43_positive
#print axioms Magnopy.C43_semidefinite
#print axioms Magnopy.C43_negative
#print axioms Magnopy.C43_fallback
#print axioms Magnopy.C43_length_partial
#print axioms Magnopy.C43_length_false
#print axioms Magnopy.C57_semidefinite_partial
#print axioms Magnopy.C57_semidefinite_false
#print axioms Magnopy.C33_antiferro_false
#print axioms Magnopy.C56_uphill
#print axioms Magnopy.C56_descends_false
#print axioms Magnopy.C56_raises
#print axioms Magnopy.C33_ferro
#print axioms Magnopy.C33_spiral
#print axioms Magnopy.C33_antiferro_cone_fixed
#print axioms Magnopy.C33_antiferro_last_spin
#print axioms Magnopy.C55_always_gradient
#print axioms Magnopy.C55_ferro_steepest_descent
#print axioms Magnopy.C55_orthogonal
#print axioms Magnopy.C55_lbfgs_false
#print axioms Magnopy.C36_bound
#print axioms Magnopy.C36_energy_partial
#print axioms Magnopy.C36_false
#print axioms Magnopy.C34_torque_false
#print axioms Magnopy.C32_ferro
#print axioms Magnopy.C32_antiferro
#print axioms Magnopy.C32_spiral
#print axioms Magnopy.C34_stops_partial
#print axioms Magnopy.C34_terminates
#print axioms Magnopy.C34_zero_tolerance
#print axioms Magnopy.C34_ferro_partial
#print axioms Magnopy.C34_antiferro_partial
#print axioms Magnopy.C34_spiral_partial
#print axioms Magnopy.C35_line_search
#print axioms Magnopy.C37_history_partial
#print axioms Magnopy.C37_limit
#print axioms Magnopy.C37_limit_false
#print axioms Magnopy.C38_settings_partial
#print axioms Magnopy.C38_wolfe_c1_partial
#print axioms Magnopy.C38_wolfe_c2_partial
#print axioms Magnopy.C38_lists
#print axioms Magnopy.C38_rejected
#print axioms Magnopy.C38_wolfe_false
#print axioms Magnopy.C38_m_false
#print axioms Magnopy.C01_decomposition
#print axioms Magnopy.C01_unique
#print axioms Magnopy.C01_matrices
#print axioms Magnopy.C02_set_iso
#print axioms Magnopy.C02_set_dmi
#print axioms Magnopy.C02_set_aniso
#print axioms Magnopy.C02_set_aniso_general
#print axioms Magnopy.C02_set_aniso_false
#print axioms Magnopy.C02_set_entry
#print axioms Magnopy.C02_constructor
#print axioms Magnopy.C02_errors_keep_state
#print axioms Magnopy.C03_transpose
#print axioms Magnopy.C04_linear
#print axioms Magnopy.C04_inverse
#print axioms Magnopy.C04_floordiv_mod
#print axioms Magnopy.C04_eq
#print axioms Magnopy.ParamHeap.C93_separate
#print axioms Magnopy.ParamHeap.C93_frame
#print axioms Magnopy.ParamHeap.C93_live
#print axioms Magnopy.ParamHeap.C93_detached
#print axioms Magnopy.ParamHeap.C93_plain
#print axioms Magnopy.ParamHeap.C93_lost
#print axioms Magnopy.C94_rotation
#print axioms Magnopy.C94_energy
#print axioms Magnopy.C94_invariants
#print axioms Magnopy.C94_norm
#print axioms Magnopy.C94_module
#print axioms Magnopy.C94_ratio
#print axioms Magnopy.C95_equal
#print axioms Magnopy.C95_array
#print axioms Magnopy.C95_names_false
#print axioms Magnopy.C95_names_partial
#print axioms Magnopy.C95_long
#print axioms Magnopy.Param.C106_parts
#print axioms Magnopy.Param.C106_sum
#print axioms Magnopy.Param.C106_symmetry
#print axioms Magnopy.Param.C106_set_iso
#print axioms Magnopy.Param.C106_set_dmi
#print axioms Magnopy.Param.C106_set_aniso
#print axioms Magnopy.Param.C106_constructor
#print axioms Magnopy.Param.C106_iso_exact_false
#print axioms Magnopy.C84_own
#print axioms Magnopy.C84_spins
#print axioms Magnopy.C84_distances
#print axioms Magnopy.C84_rescaled
#print axioms Magnopy.C84_double_counting
#print axioms Magnopy.C83_reversal
#print axioms Magnopy.C83_symmetry_partial
#print axioms Magnopy.C83_inversion
#print axioms Magnopy.C83_antisymmetry_partial
#print axioms Magnopy.C83_coplanar_partial
#print axioms Magnopy.C83_nonreciprocal
#print axioms Magnopy.C98_values
#print axioms Magnopy.C98_exceptions
#print axioms Magnopy.C98_round_trip
#print axioms Magnopy.C98_energy
#print axioms Magnopy.C98_exact
#print axioms Magnopy.C98_predefined
#print axioms Magnopy.C98_binary
#print axioms Magnopy.C98_bits_false
#print axioms Magnopy.C91_sums
#print axioms Magnopy.C91_variational
#print axioms Magnopy.C91_compare
#print axioms Magnopy.C91_continuous
#print axioms Magnopy.C92_stiffer
#print axioms Magnopy.C92_easy_axis
#print axioms Magnopy.Optimize.C110_energies
#print axioms Magnopy.Optimize.C110_energies_antiferro
#print axioms Magnopy.Optimize.C110_energies_spiral
#print axioms Magnopy.Optimize.C110_ferro
#print axioms Magnopy.Optimize.C110_antiferro
#print axioms Magnopy.Optimize.C110_spiral
#print axioms Magnopy.Optimize.C110_converged
#print axioms Magnopy.Optimize.C110_converged_antiferro
#print axioms Magnopy.Optimize.C110_converged_spiral
#print axioms Magnopy.C88_energy
#print axioms Magnopy.C88_waves
#print axioms Magnopy.C88_energies_partial
#print axioms Magnopy.C88_false
#print axioms Magnopy.Tb2j.C66_form
#print axioms Magnopy.Tb2j.C66_load
#print axioms Magnopy.Tb2j.C66_both
#print axioms Magnopy.Tb2j.C66_trailing
#print axioms Magnopy.Tb2j.C66_no_bonds
#print axioms Magnopy.Tb2j.C66_empty_line
#print axioms Magnopy.Tb2j.C66_contradiction_false
#print axioms Magnopy.C79_ferro
#print axioms Magnopy.C79_antiferro
#print axioms Magnopy.C79_spiral
#print axioms Magnopy.C79_slope
#print axioms Magnopy.C79_converged
#print axioms Magnopy.C79_test_false
#print axioms Magnopy.Optimize.C108_antiferro
#print axioms Magnopy.Optimize.C108_spiral
#print axioms Magnopy.Optimize.C108_torques
#print axioms Magnopy.Optimize.C108_array
#print axioms Magnopy.Optimize.C108_gradient
#print axioms Magnopy.Optimize.C108_restored_false
#print axioms Magnopy.C49_combined
#print axioms Magnopy.C49_mirror_partial
#print axioms Magnopy.C49_mirror_false
#print axioms Magnopy.C48_volume_partial
#print axioms Magnopy.C48_volume_false
#print axioms Magnopy.C48_no_scale
#print axioms Magnopy.C48_positive
#print axioms Magnopy.Txt.C50_roundtrip_partial
#print axioms Magnopy.Txt.C50_no_spin
#print axioms Magnopy.Txt.C50_forgets
#print axioms Magnopy.Txt.C50_self
#print axioms Magnopy.Txt.C50_self_lost
#print axioms Magnopy.Txt.C50_antisymmetric
#print axioms Magnopy.Txt.C50_angles
#print axioms Magnopy.Txt.C50_notation
#print axioms Magnopy.Txt.C50_spiral_false
#print axioms Magnopy.Txt.C50_spin_false
#print axioms Magnopy.Txt.C50_alone_false
#print axioms Magnopy.Txt.C50_empty_false
#print axioms Magnopy.Txt.C50_options_false
#print axioms Magnopy.Txt.C50_statement_false
#print axioms Magnopy.Txt.C104_copy_partial
#print axioms Magnopy.Txt.C104_plain_name
#print axioms Magnopy.Txt.C104_copy_lines
#print axioms Magnopy.Txt.C104_path_false
#print axioms Magnopy.Txt.C104_lines_false
#print axioms Magnopy.C44_kept
#print axioms Magnopy.C44_content
#print axioms Magnopy.C44_idempotent
#print axioms Magnopy.C46_partial
#print axioms Magnopy.C46_false
#print axioms Magnopy.Txt.C102_refused
#print axioms Magnopy.Txt.C102_holds
#print axioms Magnopy.Txt.C102_line
#print axioms Magnopy.Txt.C103_one_section
#print axioms Magnopy.Txt.C103_atoms
#print axioms Magnopy.Txt.C103_unknown_sections
#print axioms Magnopy.Txt.C102_block_false
#print axioms Magnopy.Txt.C102_duplicates_false
#print axioms Magnopy.Txt.C103_all_false
#print axioms Magnopy.C45_sections
#print axioms Magnopy.C45_accepted
#print axioms Magnopy.C45_slice
#print axioms Magnopy.C47_on_site_partial
#print axioms Magnopy.C47_exchange_ignored
#print axioms Magnopy.C47_exchange_joule
#print axioms Magnopy.C47_atoms_partial
#print axioms Magnopy.C47_cell_partial
#print axioms Magnopy.C47_exchange_false
#print axioms Magnopy.Optimize.C111_row
#print axioms Magnopy.Optimize.C111_length
#print axioms Magnopy.Optimize.C111_ferro
#print axioms Magnopy.Optimize.C111_antiferro
#print axioms Magnopy.Optimize.C111_spiral
#print axioms Magnopy.Optimize.C111_start
#print axioms Magnopy.Optimize.C111_run
#print axioms Magnopy.Optimize.C111_torques
#print axioms Magnopy.Optimize.C111_stop
#print axioms Magnopy.C53_turned
#print axioms Magnopy.C53_unchanged_partial
#print axioms Magnopy.C53_lines_partial
#print axioms Magnopy.C53_short_materials
#print axioms Magnopy.C61_energy_partial
#print axioms Magnopy.C63_masks
#print axioms Magnopy.C62_blocks
#print axioms Magnopy.C62_default
#print axioms Magnopy.C62_counts_partial
#print axioms Magnopy.C53_unchanged_false
#print axioms Magnopy.C61_energy_false
#print axioms Magnopy.C62_counts_false
#print axioms Magnopy.C82_mat_partial
#print axioms Magnopy.C82_spin
#print axioms Magnopy.C82_vampire_partial
#print axioms Magnopy.C82_together_false
#print axioms Magnopy.C82_seed_false
#print axioms Magnopy.C81_text_partial
#print axioms Magnopy.C81_energy_partial
#print axioms Magnopy.C59_expansion
#print axioms Magnopy.C59_standing
