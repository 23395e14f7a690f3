{
 "claims": [
  {
   "property": "C01",
   "status": "proved",
   "theorems": [
    "Neml.Hist.C01_layout",
    "Neml.Hist.C01_tiling"
   ],
   "note": "Layout after any sequence of additions."
  },
  {
   "property": "C02",
   "status": "proved",
   "theorems": [
    "Neml.Hist.C02_last_write",
    "Neml.Hist.C02_write_frame",
    "Neml.Hist.C02_write_ok"
   ],
   "note": "Any run of additions and writes on an owning history."
  },
  {
   "property": "C03",
   "status": "proved",
   "theorems": [
    "Neml.Hist.C03_add_iff",
    "Neml.Hist.C03_add_refused",
    "Neml.Hist.C03_get_iff"
   ],
   "note": "Exact error conditions; a failed operation returns no new state."
  },
  {
   "property": "C04",
   "status": "partial",
   "theorems": [
    "Neml.Hist.C04_reorder_loses_names",
    "Neml.Hist.C04_reorder_raw_partial"
   ],
   "note": "Named reads after reorder are wrong in the code (counterexample proved); the raw storage is permuted as requested."
  },
  {
   "property": "C05",
   "status": "partial",
   "theorems": [
    "Neml.Hist.C05_assign_wrong",
    "Neml.Hist.C05_assign_iff",
    "Neml.Hist.C05_assign_same_layout_partial",
    "Neml.Hist.C05_assign_any_partial",
    "Neml.Hist.C05_assign_to_empty"
   ],
   "note": "Fails when the two histories store a shared name at different places (counterexample proved); holds when the layouts are compatible."
  },
  {
   "property": "C06",
   "status": "proved",
   "theorems": [
    "Neml.Hist.C06_subset",
    "Neml.Hist.C06_subset_missing",
    "Neml.Hist.C06_split",
    "Neml.Hist.C06_split_refused",
    "Neml.Hist.C06_union_any",
    "Neml.Hist.C06_union_overlap"
   ],
   "note": "Subset, split and union for any reachable history; behaviour outside the disjoint-name hypothesis shown in C06_union_overlap."
  },
  {
   "property": "C07",
   "status": "proved",
   "theorems": [
    "Neml.Hist.C07_owner_isolated",
    "Neml.Hist.C07_user_storage",
    "Neml.Hist.C07_view_writes_through",
    "Neml.Hist.C07_deepcopy_equal",
    "Neml.Hist.C07_copy_equal"
   ],
   "note": "Any interleaving of operations on any number of owning histories and views."
  },
  {
   "property": "C08",
   "status": "proved",
   "theorems": [
    "Neml.Hist.C08_derivative_iff",
    "Neml.Hist.C08_derivative_layout",
    "Neml.Hist.C08_unravel",
    "Neml.Hist.C08_postmultiply",
    "Neml.Hist.C08_name_collision"
   ],
   "note": "Layout, unroll and postmultiply; combined names may collide (C08_name_collision)."
  },
  {
   "property": "C09",
   "status": "partial",
   "theorems": [
    "Neml.Objects.C09_last_value",
    "Neml.Objects.C09_unknown_refused",
    "Neml.Objects.C09_get",
    "Neml.Objects.C09_create_iff",
    "Neml.Objects.C09_error_names",
    "Neml.Objects.C09_constructor_sees",
    "Neml.Objects.C09_unregistered_error",
    "Neml.Objects.C09_unknown_deferred_accepted",
    "Neml.Objects.C09_later_value_lost",
    "Neml.Objects.C09_reading_completes"
   ],
   "note": "Proved: which value a parameter has after any history of declarations and assignments, refusal of unknown names, success exactly when every parameter is given and every type registered, and what the constructor sees. Missing, with proved disagreements: an unregistered type throws bad_function_call and does not name itself; assign_defered_parameter accepts unknown names; a deferred object overrides a value assigned after it; reading a missing parameter creates a blank entry that makes the set complete."
  },
  {
   "property": "C10",
   "status": "partial",
   "theorems": [
    "Neml.Xml.C10_round_trip",
    "Neml.Xml.C10_stable",
    "Neml.Xml.C10_exact",
    "Neml.Xml.C10_blank_string",
    "Neml.Xml.C10_text_dropped",
    "Neml.Xml.C10_precision_lost"
   ],
   "note": "Proved through the text: every object tree of registered types comes back from the text with each double replaced by the number its text stands for; a second round changes nothing. Excluded, with proved disagreements: blank or empty strings (the reader follows a null pointer), parameters called text (skipped), doubles with the same six digits (not told apart). Twin systems of the cubic and general lattices are declared as slip lists (crystallography.cxx:640, 683), a mismatch of value and declared kind that the model excludes."
  },
  {
   "property": "C100",
   "status": "proved",
   "theorems": [
    "Neml.Slip.C100_power",
    "Neml.Slip.C100_kinematic",
    "Neml.Slip.C100_reversed"
   ],
   "note": ""
  },
  {
   "property": "C101",
   "status": "partial",
   "theorems": [
    "Neml.Slip.C101_voce",
    "Neml.Slip.C101_linear",
    "Neml.Slip.C101_fa",
    "Neml.Slip.C101_lanl",
    "Neml.Slip.C101_general",
    "Neml.Slip.C101_simple",
    "Neml.Slip.C101_per_system_softens"
   ],
   "note": "Every model except Voce per system, which uses signed slip and is proved to soften below its initial value."
  },
  {
   "property": "C102",
   "status": "partial",
   "theorems": [
    "Neml.Kinematics.C102_jacobian",
    "Neml.Kinematics.C102_tangent",
    "Neml.Kinematics.C102_substep",
    "Neml.Kinematics.C102_divided",
    "Neml.Kinematics.C102_case",
    "Neml.Kinematics.C102_asaro",
    "Neml.Kinematics.C102_power_voce",
    "Neml.Kinematics.C102_power",
    "Neml.Kinematics.C102_power_below"
   ],
   "note": "Jacobian right everywhere the inelastic derivatives are; tangent right for undivided steps (returned values assumed differentiable). After a division the reported tangent lacks the fraction of the step, proved wrong whenever the stress changes. The power law inelasticity reports a wrong derivative below the machine epsilon."
  },
  {
   "property": "C103",
   "status": "proved",
   "theorems": [
    "Neml.Kinematics.C103_work",
    "Neml.Kinematics.C103_slip",
    "Neml.Kinematics.C103_slip_back",
    "Neml.Kinematics.C103_power",
    "Neml.Kinematics.C103_combined",
    "Neml.Kinematics.C103_volume",
    "Neml.Kinematics.C103_volume_cubic"
   ],
   "note": "Slip, slip with back stress (bounded below by the work of the back stresses), power law inelasticity, combinations; volume for lattices with orthogonal systems, with the cubic case."
  },
  {
   "property": "C104",
   "status": "partial",
   "theorems": [
    "Neml.Kinematics.C104_rates",
    "Neml.Kinematics.C104_step",
    "Neml.Kinematics.C104_orientation_partial",
    "Neml.Kinematics.C104_slip",
    "Neml.Kinematics.C104_crystal"
   ],
   "note": "Rates, steps and crystals of all lattices; the new orientation only for a spin that is not zero, because the update of C53 is wrong for zero spin."
  },
  {
   "property": "C105",
   "status": "partial",
   "theorems": [
    "Neml.Polycrystal.C105_right",
    "Neml.Polycrystal.C105_partial",
    "Neml.Polycrystal.C105_step_partial",
    "Neml.Polycrystal.C105_counterexample"
   ],
   "note": "False in the code: the half turn about the lattice-frame normal is applied after the orientation, so the result is the twin exactly when the orientation keeps that normal up to sign. The other order of composition is proved right."
  },
  {
   "property": "C106",
   "status": "proved",
   "theorems": [
    "Neml.CrystalDamage.C106_plane",
    "Neml.CrystalDamage.C106_factor",
    "Neml.CrystalDamage.C106_size",
    "Neml.CrystalDamage.C106_invertible"
   ],
   "note": "Any number of planes with unit normals"
  },
  {
   "property": "C107",
   "status": "partial",
   "theorems": [
    "Neml.CrystalDamage.C107_range",
    "Neml.CrystalDamage.C107_monotone",
    "Neml.CrystalDamage.C107_switch",
    "Neml.CrystalDamage.C107_work",
    "Neml.CrystalDamage.C107_growth",
    "Neml.CrystalDamage.C107_power",
    "Neml.CrystalDamage.C107_disagreement"
   ],
   "note": "Range, monotonicity, switch and growth for slip that does no negative work; fails with a back strength (C107_disagreement)"
  },
  {
   "property": "C108",
   "status": "partial",
   "theorems": [
    "Neml.CrystalDamage.C108_sigmoid",
    "Neml.CrystalDamage.C108_sigmoid_zero",
    "Neml.CrystalDamage.C108_switch",
    "Neml.CrystalDamage.C108_projection",
    "Neml.CrystalDamage.C108_work",
    "Neml.CrystalDamage.C108_rates",
    "Neml.CrystalDamage.C108_history",
    "Neml.CrystalDamage.C108_jacobian",
    "Neml.CrystalDamage.C108_whole"
   ],
   "note": "Away from the corners of the sigmoid and switch; transformations whose derivative by normal stress is zero (all given ones), because the code for that derivative has wrong indices"
  },
  {
   "property": "C109",
   "status": "partial",
   "theorems": [
    "Neml.CrystalDamage.C109_isotropic",
    "Neml.CrystalDamage.C109_fresh",
    "Neml.CrystalDamage.C109_cubic",
    "Neml.CrystalDamage.C109_damaged"
   ],
   "note": "Holds for isotropic crystals and for damaged kinematics without damage; fails for cubic and for damaged crystals"
  },
  {
   "property": "C11",
   "status": "proved",
   "theorems": [
    "Neml.Text.C11_int",
    "Neml.Text.C11_size",
    "Neml.Text.C11_ints",
    "Neml.Text.C11_sizes",
    "Neml.Text.C11_doubles",
    "Neml.Text.C11_slip",
    "Neml.Text.C11_twin"
   ],
   "note": "Lists of integers in the 32 bit range, lists of sizes below 2^64, lists of doubles up to the rounding of the number format, slip and twin lists, all lengths including empty. strip keeps interior text; a missing semicolon reads the whole text twice (example)."
  },
  {
   "property": "C110",
   "status": "partial",
   "theorems": [
    "Neml.CrystalDamage.C110_spin",
    "Neml.CrystalDamage.C110_isotropic",
    "Neml.CrystalDamage.C110_iff",
    "Neml.CrystalDamage.C110_cubic",
    "Neml.CrystalDamage.C110_nil"
   ],
   "note": "Holds for isotropic crystals; exact condition otherwise, fails for cubic crystals"
  },
  {
   "property": "C111",
   "status": "partial",
   "theorems": [
    "Neml.CrystalDamage.C111_sign",
    "Neml.CrystalDamage.C111_perpendicular",
    "Neml.CrystalDamage.C111_orientation",
    "Neml.CrystalDamage.C111_rates",
    "Neml.CrystalDamage.C111_step",
    "Neml.CrystalDamage.C111_disagreement"
   ],
   "note": "Sign, orientation and step for every crystal; order only for perpendicular planes, fails otherwise"
  },
  {
   "property": "C112",
   "status": "proved",
   "theorems": [
    "Neml.PySolve.C112_answer",
    "Neml.PySolve.C112_quasi",
    "Neml.PySolve.C112_root",
    "Neml.PySolve.C112_calls",
    "Neml.PySolve.C112_linear",
    "Neml.PySolve.C112_scalar_linear",
    "Neml.PySolve.C112_precalc_linear",
    "Neml.PySolve.C112_none_allowed",
    "Neml.PySolve.C112_descent",
    "Neml.PySolve.C112_no_growth",
    "Neml.PySolve.C112_search_ends",
    "Neml.PySolve.C112_try",
    "Neml.PySolve.C112_first",
    "Neml.PySolve.C112_quasi_first",
    "Neml.PySolve.C112_scalar_factor"
   ],
   "note": "All solvers, any residual function, also one that keeps state."
  },
  {
   "property": "C113",
   "status": "partial",
   "theorems": [
    "Neml.BarNetwork.C113_jacobian",
    "Neml.BarNetwork.C113_symmetric",
    "Neml.BarNetwork.C113_definite",
    "Neml.BarNetwork.C113_regular",
    "Neml.BarNetwork.C113_floating",
    "Neml.BarNetwork.C113_solves",
    "Neml.BarNetwork.C69_solve",
    "Neml.BarNetwork.C69_solve_raised",
    "Neml.BarNetwork.C69_time",
    "Neml.BarNetwork.C69_ends",
    "Neml.BarNetwork.C69_ends_disagreement"
   ],
   "note": "All of it for at least one division allowed. With ndiv = 0 a step that cannot be solved never ends: proved as a disagreement."
  },
  {
   "property": "C114",
   "status": "proved",
   "theorems": [
    "Neml.Walker.C114_switch_rates"
   ],
   "note": "Fr\u00e9chet derivatives; the flow rule is a parameter."
  },
  {
   "property": "C115",
   "status": "proved",
   "theorems": [
    "Neml.Walker.C115_kappa",
    "Neml.Walker.C115_off",
    "Neml.Walker.C115_rates_homogeneous",
    "Neml.Walker.C115_rate_independent"
   ],
   "note": "Over the implicit equations of the general integrator."
  },
  {
   "property": "C116",
   "status": "partial",
   "theorems": [
    "Neml.Walker.C116_work",
    "Neml.Walker.C116_time_part"
   ],
   "note": "Holds for flow rules without time and temperature parts; proved wrong with a time part."
  },
  {
   "property": "C117",
   "status": "partial",
   "theorems": [
    "Neml.Walker.C117_softening",
    "Neml.Walker.C117_softening_continuous",
    "Neml.Walker.C117_softening_derivative",
    "Neml.Walker.C117_scaling",
    "Neml.Walker.C117_softening_derivative_nonpositive"
   ],
   "note": "All but the derivative at plastic strains up to zero, which is proved wrong."
  },
  {
   "property": "C118",
   "status": "partial",
   "theorems": [
    "Neml.Walker.C118_zero",
    "Neml.Walker.C118_iso_p",
    "Neml.Walker.C118_iso_t",
    "Neml.Walker.C118_drag_p",
    "Neml.Walker.C118_drag_t",
    "Neml.Walker.C118_fa",
    "Neml.Walker.C118_kin_p",
    "Neml.Walker.C118_kin_t",
    "Neml.Walker.C118_drag_t_initial",
    "Neml.Walker.C118_saturation_jump"
   ],
   "note": "Right at smooth states; proved wrong for the drag stress at its initial value; the saturation value jumps at zero plastic strain."
  },
  {
   "property": "C119",
   "status": "partial",
   "theorems": [
    "Neml.Walker.C119_walker_partial",
    "Neml.Walker.C119_switched_partial",
    "Neml.Walker.C119_test",
    "Neml.Walker.C119_initial_derivative",
    "Neml.Walker.C119_constant_drag"
   ],
   "note": "At flowing smooth states above the initial drag stress; proved wrong at the initial drag stress; with constant drag stress and a positive exponent the threshold has no effect."
  },
  {
   "property": "C12",
   "status": "proved",
   "theorems": [
    "Neml.Interp.C12_clamp_low",
    "Neml.Interp.C12_clamp_high",
    "Neml.Interp.C12_segment",
    "Neml.Interp.C12_between",
    "Neml.Interp.C12_knots",
    "Neml.Interp.C12_total",
    "Neml.Interp.C12_continuous",
    "Neml.Interp.C12_empty_table"
   ],
   "note": "continuity and knot values for strictly increasing knots, the rest for every valid table; an empty table passes valid() but reads out of range (C12_empty_table)"
  },
  {
   "property": "C120",
   "status": "proved",
   "theorems": [
    "Neml.Walker.C120_alpha",
    "Neml.Walker.C120_equivalent_strain",
    "Neml.Walker.C120_iso",
    "Neml.Walker.C120_drag",
    "Neml.Walker.C120_fa",
    "Neml.Walker.C120_kin",
    "Neml.Walker.C120_deviatoric"
   ],
   "note": "Over the implicit equations of the general integrator with the switched rule; induction over the steps. The Walker backstress bound is for a directional share below one."
  },
  {
   "property": "C121",
   "status": "partial",
   "theorems": [
    "Neml.DriverTests.C121_program",
    "Neml.DriverTests.C121_rows",
    "Neml.DriverTests.C121_above",
    "Neml.DriverTests.C121_direction",
    "Neml.DriverTests.Cyclic.C121_elastic"
   ],
   "note": "Proved for a smallest strain not above the largest and unit directions; outside these the code runs other programs (proved)."
  },
  {
   "property": "C122",
   "status": "partial",
   "theorems": [
    "Neml.DriverTests.C122_strains",
    "Neml.DriverTests.C122_energy_partial",
    "Neml.DriverTests.C122_energy_disagreement",
    "Neml.DriverTests.C122_elastic"
   ],
   "note": "The lists match unless damage stops the test, when there is one more energy than strains (proved)."
  },
  {
   "property": "C123",
   "status": "partial",
   "theorems": [
    "Neml.DriverTests.C123_program",
    "Neml.DriverTests.C123_rows",
    "Neml.DriverTests.StressCyclic.C123_elastic",
    "Neml.DriverTests.StressCyclic.C123_stopped"
   ],
   "note": "Proved, except that a test stopped by the limit on the strain increment returns one time more than strains (proved)."
  },
  {
   "property": "C124",
   "status": "partial",
   "theorems": [
    "Neml.DriverTests.C124_program",
    "Neml.DriverTests.C124_held",
    "Neml.DriverTests.C124_reported",
    "Neml.DriverTests.C124_elastic",
    "Neml.DriverTests.C124_origin",
    "Neml.DriverTests.C124_log",
    "Neml.DriverTests.C124_direction"
   ],
   "note": "The hold itself is proved; reported times are not counted from the start of the hold, logarithmic holds end early, and holds along other axes than x use a wrong Jacobian (all proved)."
  },
  {
   "property": "C125",
   "status": "partial",
   "theorems": [
    "Neml.DriverTests.C125_program",
    "Neml.DriverTests.C125_reported",
    "Neml.DriverTests.Creep.C125_elastic",
    "Neml.DriverTests.C125_origin",
    "Neml.DriverTests.C125_log"
   ],
   "note": "The program is proved; reported times and strains are not counted from the start of the hold, and a logarithmic hold shorter than one goes back in time (both proved)."
  },
  {
   "property": "C126",
   "status": "partial",
   "theorems": [
    "Neml.DriverTests.C126_curve",
    "Neml.DriverTests.C126_last",
    "Neml.DriverTests.C126_ends",
    "Neml.DriverTests.C126_time",
    "Neml.DriverTests.C126_endless"
   ],
   "note": "The form of the curve is proved; the strains are those of an earlier time, and the search need not end (both proved)."
  },
  {
   "property": "C127",
   "status": "partial",
   "theorems": [
    "Neml.DriverTests.C127_followed_partial",
    "Neml.DriverTests.C127_elastic",
    "Neml.DriverTests.C127_offset",
    "Neml.DriverTests.C127_last",
    "Neml.DriverTests.C127_mechanical"
   ],
   "note": "Proved for data from time and strain zero; other data are offset, the last point is never returned, and the mechanical strain returned is the thermal strain (all proved)."
  },
  {
   "property": "C128",
   "status": "partial",
   "theorems": [
    "Neml.DriverTests.C128_rates",
    "Neml.DriverTests.C128_strains_partial",
    "Neml.DriverTests.C128_elastic",
    "Neml.DriverTests.C128_compression"
   ],
   "note": "Proved; given strains have to increase from zero, in compression nothing is run (proved)."
  },
  {
   "property": "C129",
   "status": "partial",
   "theorems": [
    "Neml.DriverTests.C129_tolerance",
    "Neml.DriverTests.C129_units",
    "Neml.DriverTests.C129_classes_partial",
    "Neml.DriverTests.C129_zero_strain"
   ],
   "note": "Proved, except that a repeating response with a strain of zero is called ratcheting (proved)."
  },
  {
   "property": "C13",
   "status": "proved",
   "theorems": [
    "Neml.Interp.C13_monotone"
   ],
   "note": ""
  },
  {
   "property": "C130",
   "status": "partial",
   "theorems": [
    "Neml.LargeDriver.C130_lists",
    "Neml.LargeDriver.C130_reference",
    "Neml.LargeDriver.C130_stretch",
    "Neml.LargeDriver.C130_rigid",
    "Neml.LargeDriver.C130_increments"
   ],
   "note": "Lists, reference and stretches are proved; a rigid rotation gives a volume strain (proved)."
  },
  {
   "property": "C131",
   "status": "partial",
   "theorems": [
    "Neml.Vessel.C131_cycle",
    "Neml.Vessel.C131_delay",
    "Neml.Vessel.C131_range",
    "Neml.Vessel.C131_holds",
    "Neml.Vessel.C131_rate",
    "Neml.Vessel.C131_range_disagreement"
   ],
   "note": "Proved for positive rates; a negative heating rate leaves the range (proved)."
  },
  {
   "property": "C132",
   "status": "partial",
   "theorems": [
    "Neml.Vessel.C132_program",
    "Neml.Vessel.C132_increasing",
    "Neml.Vessel.C132_corners",
    "Neml.Vessel.C132_matches",
    "Neml.Vessel.C132_increasing_disagreement"
   ],
   "note": "Proved for positive rates; a negative rate makes the times go back (proved)."
  },
  {
   "property": "C133",
   "status": "proved",
   "theorems": [
    "Neml.Vessel.C133_profile",
    "Neml.Vessel.C133_sides",
    "Neml.Vessel.C133_flux",
    "Neml.Vessel.C133_single",
    "Neml.Vessel.C133_delay"
   ],
   "note": ""
  },
  {
   "property": "C134",
   "status": "partial",
   "theorems": [
    "Neml.Vessel.C134_mesh",
    "Neml.Vessel.C134_uniform",
    "Neml.Vessel.C134_mirror",
    "Neml.Vessel.C134_graded",
    "Neml.Vessel.C134_odd_disagreement",
    "Neml.Vessel.C134_rectangle"
   ],
   "note": "Proved; with bias and an odd number of elements the middle element is out of line (proved)."
  },
  {
   "property": "C135",
   "status": "partial",
   "theorems": [
    "Neml.Bree.C135_weights",
    "Neml.Bree.C135_points",
    "Neml.Bree.C135_setup_step",
    "Neml.Bree.C135_setup_new",
    "Neml.Bree.C135_setup_update",
    "Neml.Bree.C135_records",
    "Neml.Bree.C135_force",
    "Neml.Bree.C135_equilibrium",
    "Neml.Bree.C135_compatible",
    "Neml.Bree.C135_clock",
    "Neml.Bree.C135_energy_disagreement",
    "Neml.Bree.C135_pressures_disagreement",
    "Neml.Bree.C135_raised_disagreement",
    "Neml.Bree.C135_tolerance_disagreement",
    "Neml.Bree.C135_membrane",
    "Neml.Bree.C135_elastic",
    "Neml.Bree.C135_solves"
   ],
   "note": "Proved for an exact solver; energies are weighted twice, pressures are stale after a change of the loading, the clock runs ahead after an exception, tolerances have no effect (all proved)."
  },
  {
   "property": "C136",
   "status": "partial",
   "theorems": [
    "Neml.Axisym.C136_virtual_work",
    "Neml.Axisym.C136_hoop",
    "Neml.Axisym.C136_patch",
    "Neml.Axisym.C136_axial",
    "Neml.Axisym.C136_axial_partial",
    "Neml.Axisym.C136_axial_disagreement",
    "Neml.Axisym.C136_jacobian",
    "Neml.Axisym.C136_free"
   ],
   "note": "Proved, except that the axial balance weights all radii alike: the axial force of the wall need not balance the pressures (proved)."
  },
  {
   "property": "C137",
   "status": "partial",
   "theorems": [
    "Neml.Axisym.C137_solves",
    "Neml.Axisym.C137_defined",
    "Neml.Axisym.C137_unique",
    "Neml.Axisym.C137_constrained",
    "Neml.Axisym.C137_regular_disagreement"
   ],
   "note": "Proved, except that regular equations are not solved if the diagonals alone are singular or the axial stiffness is zero (proved)."
  },
  {
   "property": "C138",
   "status": "partial",
   "theorems": [
    "Neml.Axisym.C138_belongs",
    "Neml.Axisym.C138_accepted",
    "Neml.Axisym.C138_limit_disagreement",
    "Neml.Axisym.C138_restores",
    "Neml.Axisym.C138_row",
    "Neml.Axisym.C138_direct_partial",
    "Neml.Axisym.C138_time_disagreement",
    "Neml.Axisym.C138_substeps_disagreement",
    "Neml.Axisym.C138_other_disagreement",
    "Neml.Axisym.C138_ends",
    "Neml.Axisym.C138_rows",
    "Neml.Axisym.C138_thermal",
    "Neml.Axisym.C138_hoop",
    "Neml.Axisym.C138_foretold"
   ],
   "note": "Proved for steps without substeps; after substeps the state recorded is that of a later time; the last iteration allowed is never accepted; other exceptions leave entries in the records (all proved)."
  },
  {
   "property": "C139",
   "status": "proved",
   "theorems": [
    "Neml.Axisym.C139_regular",
    "Neml.Axisym.C139_takes",
    "Neml.Axisym.C139_steps",
    "Neml.Axisym.C139_only",
    "Neml.Axisym.C139_uniform",
    "Neml.Axisym.C139_substeps_disagreement"
   ],
   "note": "The wrong time of substeps (C138) is shown on a concrete wall."
  },
  {
   "property": "C14",
   "status": "proved",
   "theorems": [
    "Neml.Interp.C14_polynomial",
    "Neml.Interp.C14_linear",
    "Neml.Interp.C14_logLinear",
    "Neml.Interp.C14_semiLogX",
    "Neml.Interp.C14_const",
    "Neml.Interp.C14_expo",
    "Neml.Interp.C14_power",
    "Neml.Interp.C14_mtsShear",
    "Neml.Interp.C14_mts"
   ],
   "note": "MTS under positivity of the two power bases"
  },
  {
   "property": "C140",
   "status": "partial",
   "theorems": [
    "Neml.Yaguchi.C140_yaguchi_partial",
    "Neml.Yaguchi.C140_integrator_partial",
    "Neml.Yaguchi.C140_negative_disagreement",
    "Neml.Yaguchi.C140_deviatoric_disagreement",
    "Neml.Yaguchi.C140_undefined",
    "Neml.Yaguchi.C140_guess_disagreement",
    "Neml.Yaguchi.C141_derivatives_partial"
   ],
   "note": "Proved where the rule is smooth: not at the kinks of flow and threshold, with deviatoric backstresses. With a trace in a backstress, with a negative threshold above its target, or with a hydrostatic effective stress the code departs from the property, shown by the disagreement theorems; the first two are never reached from the initial history (C142), the last one is."
  },
  {
   "property": "C141",
   "status": "proved",
   "theorems": [
    "Neml.Yaguchi.C141_sound",
    "Neml.Yaguchi.C141_limits",
    "Neml.Yaguchi.C141_threshold",
    "Neml.Yaguchi.C141_outside"
   ],
   "note": "Over exact reals; also the limits used in C142 and where the drag stress stops being a number."
  },
  {
   "property": "C142",
   "status": "proved",
   "theorems": [
    "Neml.Yaguchi.C142_plastic_strain",
    "Neml.Yaguchi.C142_flow_iff",
    "Neml.Yaguchi.C142_deviatoric",
    "Neml.Yaguchi.C142_Q",
    "Neml.Yaguchi.C142_backstress",
    "Neml.Yaguchi.C142_threshold",
    "Neml.Yaguchi.C142_gr91",
    "Neml.Yaguchi.C142_exists"
   ],
   "note": "For exactly solved steps of the general integrator at states where the rule gives numbers; C142_gr91 for the parameters of the code."
  },
  {
   "property": "C143",
   "status": "proved",
   "theorems": [
    "Neml.HuCocks.C143_mass",
    "Neml.HuCocks.C143_switch",
    "Neml.HuCocks.C143_regimes",
    "Neml.HuCocks.C143_force"
   ],
   "note": "Any number of species."
  },
  {
   "property": "C144",
   "status": "partial",
   "theorems": [
    "Neml.HuCocks.C144_jacobian_partial",
    "Neml.HuCocks.C144_junk_disagreement"
   ],
   "note": "Proved where the leading species is unique and some precipitate exists. Without precipitate the code uses an uninitialised number (C144_junk_disagreement)."
  },
  {
   "property": "C145",
   "status": "proved",
   "theorems": [
    "Neml.HuCocks.C145_volume",
    "Neml.HuCocks.C145_initial",
    "Neml.HuCocks.C145_ripening",
    "Neml.HuCocks.C145_nucleation"
   ],
   "note": "Solutions of the differential equation; time integration is not modelled."
  },
  {
   "property": "C146",
   "status": "proved",
   "theorems": [
    "Neml.HuCocks.C146_strength",
    "Neml.HuCocks.C146_rate",
    "Neml.HuCocks.spacing_covers",
    "Neml.HuCocks.C146_step",
    "Neml.HuCocks.C146_taylor"
   ],
   "note": "Slip rates that vanish must have vanishing derivatives, as for all rules of the library but the Arrhenius one."
  },
  {
   "property": "C147",
   "status": "proved",
   "theorems": [
    "Neml.HuCocks.C147_strength",
    "Neml.HuCocks.C147_rate",
    "Neml.HuCocks.C147_rule",
    "Neml.HuCocks.C147_bounds"
   ],
   "note": "The dislocation model must report derivatives by all variables, as the spacing model does."
  },
  {
   "property": "C148",
   "status": "proved",
   "theorems": [
    "Neml.HuCocks.C148_right",
    "Neml.HuCocks.C148_range",
    "Neml.HuCocks.C148_heat",
    "Neml.HuCocks.C148_jump_disagreement"
   ],
   "note": "Derivatives away from zero stress and below the strength. At zero stress no derivative is right (C148_jump_disagreement)."
  },
  {
   "property": "C149",
   "status": "partial",
   "theorems": [
    "Neml.GenHuCocks.C149_build",
    "Neml.GenHuCocks.C149_proper",
    "Neml.GenHuCocks.C149_shared_disagreement"
   ],
   "note": "Building and naming proved; handing precipitates to a second model doubles their species (disagreement)."
  },
  {
   "property": "C15",
   "status": "proved",
   "theorems": [
    "Neml.Interp.C15_log_linear",
    "Neml.Interp.C15_positive",
    "Neml.Interp.C15_knots",
    "Neml.Interp.C15_geometric",
    "Neml.Interp.C15_monotone",
    "Neml.Interp.C15_continuous"
   ],
   "note": ""
  },
  {
   "property": "C150",
   "status": "partial",
   "theorems": [
    "Neml.GenHuCocks.C150_mass_partial",
    "Neml.GenHuCocks.C150_mass_disagreement",
    "Neml.GenHuCocks.C150_switch",
    "Neml.GenHuCocks.C150_regimes",
    "Neml.GenHuCocks.C150_force"
   ],
   "note": "Balance proved for the volume the code subtracts; the full matrix volume gives a balance only when precipitates without the species are empty (disagreement). Switch and driving force proved."
  },
  {
   "property": "C151",
   "status": "partial",
   "theorems": [
    "Neml.GenHuCocks.C151_fraction",
    "Neml.GenHuCocks.C151_concentration",
    "Neml.GenHuCocks.C151_jacobian_partial",
    "Neml.GenHuCocks.C151_radius",
    "Neml.GenHuCocks.C151_growth",
    "Neml.GenHuCocks.C151_ripening_disagreement"
   ],
   "note": "All entries right except number density rates by radii during ripening, where one term is counted twice (disagreement)."
  },
  {
   "property": "C152",
   "status": "proved",
   "theorems": [
    "Neml.GenHuCocks.C152_initial",
    "Neml.GenHuCocks.C152_nucleation",
    "Neml.GenHuCocks.C152_volume",
    "Neml.GenHuCocks.C152_coarsening"
   ],
   "note": "Differential equations solved by conserved quantities."
  },
  {
   "property": "C153",
   "status": "proved",
   "theorems": [
    "Neml.GenHuCocks.C153_molecular",
    "Neml.GenHuCocks.C153_mean",
    "Neml.GenHuCocks.C153_strength",
    "Neml.GenHuCocks.C153_rate",
    "Neml.GenHuCocks.C153_bounds"
   ],
   "note": "Rates given right derivatives of the precipitation rates (C151) and of the dislocation model."
  },
  {
   "property": "C154",
   "status": "partial",
   "theorems": [
    "Neml.PoleFigures.C154_disc",
    "Neml.PoleFigures.C154_angles",
    "Neml.PoleFigures.C154_areas",
    "Neml.PoleFigures.C154_polar",
    "Neml.PoleFigures.C154_chart",
    "Neml.PoleFigures.C154_inverse_partial",
    "Neml.PoleFigures.C154_inverse_disagreement"
   ],
   "note": "The projections are proved. The two inverse functions return the mirror image; proved as a disagreement, with what holds of them."
  },
  {
   "property": "C155",
   "status": "partial",
   "theorems": [
    "Neml.PoleFigures.C155_inside",
    "Neml.PoleFigures.C155_crystal_partial",
    "Neml.PoleFigures.C155_sample_idle",
    "Neml.PoleFigures.C155_sample_disagreement",
    "Neml.PoleFigures.C155_axes_partial",
    "Neml.PoleFigures.C155_axes_disagreement"
   ],
   "note": "Crystal symmetry is proved if the sample symmetry is part of it. Sample symmetry and axes other than the default are disproved."
  },
  {
   "property": "C156",
   "status": "partial",
   "theorems": [
    "Neml.PoleFigures.C156_frame",
    "Neml.PoleFigures.C156_inside",
    "Neml.PoleFigures.C156_invariant",
    "Neml.PoleFigures.C156_octahedral",
    "Neml.PoleFigures.C156_triangle",
    "Neml.PoleFigures.C156_color",
    "Neml.PoleFigures.C156_missing_disagreement"
   ],
   "note": "Proved for directions that the sample symmetry carries to their opposite; other directions can be missing from the triangle, with a witness."
  },
  {
   "property": "C157",
   "status": "partial",
   "theorems": [
    "Neml.Interface.C157_status_partial",
    "Neml.Interface.C157_sticky_disagreement",
    "Neml.Interface.C157_value_disagreement"
   ],
   "note": "Failures are never missed; success is only reported if no call since loading failed."
  },
  {
   "property": "C158",
   "status": "partial",
   "theorems": [
    "Neml.Interface.C158_conversion",
    "Neml.Interface.C158_chain",
    "Neml.Interface.C158_tangent_disagreement",
    "Neml.Interface.C158_shear_disagreement",
    "Neml.Interface.C158_leak_disagreement"
   ],
   "note": "The stiffness is twice the derivative in the shear columns and failed updates leak a model; the rest is proved."
  },
  {
   "property": "C159",
   "status": "partial",
   "theorems": [
    "Neml.Lattice.C159_count",
    "Neml.Lattice.C159_each",
    "Neml.Lattice.C159_known",
    "Neml.Lattice.C159_scale_disagreement"
   ],
   "note": "Proved for lattice parameters between 1e-6 and 1e6 and indices up to 5000. Outside the tolerance of the comparison merges vectors: with the lattice parameter in metres a face centred crystal gets two systems instead of twelve."
  },
  {
   "property": "C16",
   "status": "partial",
   "theorems": [
    "Neml.Interp.C16_reads_past_end",
    "Neml.Interp.C16_own_function_partial",
    "Neml.Interp.C16_one_more_function"
   ],
   "note": "false as stated: the negation is proved for every valid table; the partial theorem covers all other arguments"
  },
  {
   "property": "C160",
   "status": "partial",
   "theorems": [
    "Neml.SquareMatrix.C160_simple",
    "Neml.SquareMatrix.C160_diagonal",
    "Neml.SquareMatrix.C160_diagonal_blocks",
    "Neml.SquareMatrix.C160_block",
    "Neml.SquareMatrix.C160_types",
    "Neml.SquareMatrix.C160_product",
    "Neml.SquareMatrix.C160_read_partial",
    "Neml.SquareMatrix.C160_read_disagreement"
   ],
   "note": "Everything proved for square matrices. For other shapes reading by indices uses the number of rows as row length: proved to give other entries and to read past the end."
  },
  {
   "property": "C161",
   "status": "proved",
   "theorems": [
    "Neml.DriverTests.C161_yield",
    "Neml.DriverTests.C161_unique",
    "Neml.DriverTests.C161_elastic",
    "Neml.DriverTests.C161_plastic",
    "Neml.DriverTests.C161_offset",
    "Neml.DriverTests.C161_test"
   ],
   "note": "root finder is any function that returns a root in the bracket; its tolerance is not modelled"
  },
  {
   "property": "C162",
   "status": "partial",
   "theorems": [
    "Neml.DriverTests.C162_program",
    "Neml.DriverTests.C162_rows",
    "Neml.DriverTests.C162_cycle_partial",
    "Neml.DriverTests.C162_log_disagreement",
    "Neml.DriverTests.C162_held",
    "Neml.DriverTests.C162_elastic"
   ],
   "note": "logarithmic holds are one unit of time short (disagreement); solves are exact (zero tolerance)"
  },
  {
   "property": "C163",
   "status": "partial",
   "theorems": [
    "Neml.DriverTests.C163_table",
    "Neml.DriverTests.C163_numbers",
    "Neml.DriverTests.C163_history",
    "Neml.DriverTests.C163_plain",
    "Neml.DriverTests.C163_elastic",
    "Neml.DriverTests.C163_stress_disagreement",
    "Neml.DriverTests.C163_drift_disagreement",
    "Neml.DriverTests.C163_shift_disagreement",
    "Neml.DriverTests.C163_still_disagreement",
    "Neml.DriverTests.C163_min_disagreement"
   ],
   "note": "The table, its numbers, termination, the continuation of the history, agreement with the plain test and the linear elastic case are proved. What fails: the stress the test goes on from is continued by the change over two cycles for each cycle jumped (C163_stress_disagreement, C163_drift_disagreement), after an earlier extrapolation it starts from a point inside a cycle (C163_shift_disagreement, C163_still_disagreement), and fewer than two cycles before the first extrapolation raise (C163_min_disagreement)."
  },
  {
   "property": "C164",
   "status": "partial",
   "theorems": [
    "Neml.Tensors.C164_mul",
    "Neml.Tensors.C164_defined",
    "Neml.Tensors.C164_sym_disagreement",
    "Neml.Tensors.C164_skew_disagreement",
    "Neml.Tensors.C164_smul",
    "Neml.Tensors.C164_sdiv",
    "Neml.Tensors.C164_add",
    "Neml.Tensors.C164_sub",
    "Neml.Tensors.C164_contract",
    "Neml.Tensors.C164_transpose",
    "Neml.Tensors.C164_inverse",
    "Neml.Tensors.C164_invertible",
    "Neml.Tensors.C164_dev",
    "Neml.Tensors.C164_norm",
    "Neml.Tensors.C164_norm_sym",
    "Neml.Tensors.C164_normalize",
    "Neml.Tensors.C164_cross",
    "Neml.Tensors.C164_outer",
    "Neml.Tensors.C164_douter",
    "Neml.Tensors.C164_reduce",
    "Neml.Tensors.C164_toSym",
    "Neml.Tensors.C164_six",
    "Neml.Tensors.C164_eqv",
    "Neml.Tensors.C164_eqv_disagreement"
   ],
   "note": "All operations of all classes stand for the operations on components, except that the product of two symmetric or two skew tensors keeps only its symmetric or skew part, and == is neither symmetric nor transitive. Storage ownership is not part of this property."
  },
  {
   "property": "C165",
   "status": "partial",
   "theorems": [
    "Neml.TensorStore.C165_step",
    "Neml.TensorStore.C165_run",
    "Neml.TensorStore.C165_end",
    "Neml.TensorStore.C165_copy",
    "Neml.TensorStore.C165_assign",
    "Neml.TensorStore.C165_write",
    "Neml.TensorStore.C165_add",
    "Neml.TensorStore.C165_values",
    "Neml.TensorStore.C165_program",
    "Neml.TensorStore.C165_shared",
    "Neml.TensorStore.C165_makeStore",
    "Neml.TensorStore.C165_move_disagreement",
    "Neml.TensorStore.C165_entry_disagreement",
    "Neml.TensorStore.C165_reserve_disagreement"
   ],
   "note": "Proved for all programs, except that assigning a temporary tensor that refers to other memory rebinds instead of writing: it leaks and frees twice if the left side owns memory, and writes nothing if it refers to a history."
  },
  {
   "property": "C166",
   "status": "partial",
   "theorems": [
    "Neml.Blas.C166_mat_mat",
    "Neml.Blas.C166_mat_mat_abt",
    "Neml.Blas.C166_rotate",
    "Neml.Blas.C166_mat_vec",
    "Neml.Blas.C166_mat_vec_trans",
    "Neml.Blas.C166_outer",
    "Neml.Blas.C166_outer_update",
    "Neml.Blas.C166_outer_update_minus",
    "Neml.Blas.C166_qmult",
    "Neml.Blas.C166_solve",
    "Neml.Blas.C166_invert",
    "Neml.Blas.C166_invariants",
    "Neml.Blas.C166_condition",
    "Neml.Blas.C166_condition_partial",
    "Neml.Blas.C166_condition_disagreement",
    "Neml.Blas.C166_empty_disagreement",
    "Neml.Blas.C166_usym"
   ],
   "note": "Proved for all positive sizes. The condition number mixes the norm of the rows with the norm of the columns and is right only for symmetric matrices; products with an empty range are refused by the library routines instead of being zero."
  },
  {
   "property": "C167",
   "status": "partial",
   "theorems": [
    "Neml.PyCreate.C167_made",
    "Neml.PyCreate.C167_refused",
    "Neml.PyCreate.C167_arity",
    "Neml.PyCreate.C167_order",
    "Neml.PyCreate.C167_reads",
    "Neml.PyCreate.C167_classes",
    "Neml.PyCreate.C167_twins_disagreement",
    "Neml.PyCreate.C167_pickle_disagreement",
    "Neml.PyCreate.C167_repeated_disagreement",
    "Neml.PyCreate.C167_unknown_disagreement",
    "Neml.PyCreate.C167_numbers"
   ],
   "note": "Proved of every call and of the table of all 121 classes extracted from the sources (tools/classes.py). The general and the cubic lattice declare their twin systems as slip systems: twin systems cannot be passed, what is passed is lost, and twin systems added later are lost on saving (C167_twins_disagreement, C167_pickle_disagreement). A repeated keyword is accepted and the error for an unknown keyword depends on the value."
  },
  {
   "property": "C168",
   "status": "proved",
   "theorems": [
    "Neml.Damage.C168_value",
    "Neml.Damage.C168_convex",
    "Neml.Damage.C168_rotate",
    "Neml.Damage.C168_subgradient",
    "Neml.Damage.C168_derivative",
    "Neml.Damage.C168_kink",
    "Neml.Damage.exists_right",
    "Neml.Damage.C168_lengths"
   ],
   "note": "dsyev is a parameter with its documentation as hypothesis; routines as documented exist by the spectral theorem (exists_right). Where the largest principal stresses are equal the measure has no derivative (C168_kink)."
  },
  {
   "property": "C169",
   "status": "partial",
   "theorems": [
    "Neml.Names.C169_names_partial",
    "Neml.Names.C169_offsets_partial",
    "Neml.Names.C169_initial_partial",
    "Neml.Names.C169_size",
    "Neml.Names.C169_renamed",
    "Neml.Names.C169_renamed_model",
    "Neml.Names.C169_reads",
    "Neml.Names.C169_combined_disagreement",
    "Neml.Names.C169_twice_disagreement",
    "Neml.Names.C169_nested_disagreement",
    "Neml.Names.C169_regime_disagreement",
    "Neml.Names.C169_walker_disagreement"
   ],
   "note": "Proved for members that carry their prefix down: every rule except combined hardening and superpositions. False for combined hardening twice, a rule twice, nested superpositions, Walker rules as members and a regime model with a prefix."
  },
  {
   "property": "C17",
   "status": "proved",
   "theorems": [
    "Neml.Newton.C17_converged",
    "Neml.Newton.C17_zero_limit"
   ],
   "note": "for positive iteration limits, as quantified; C17_zero_limit shows what happens with a zero limit"
  },
  {
   "property": "C170",
   "status": "proved",
   "theorems": [
    "Neml.NumJac.C170_affine",
    "Neml.NumJac.C170_limit",
    "Neml.NumJac.C170_check",
    "Neml.NumJac.C170_check_affine"
   ],
   "note": "exact arithmetic; the residual is assumed defined everywhere in the two limit statements"
  },
  {
   "property": "C171",
   "status": "partial",
   "theorems": [
    "Neml.NumJac.C171_sound",
    "Neml.NumJac.C171_verbose_partial",
    "Neml.NumJac.C171_verbose_disagreement"
   ],
   "note": "the code violates the claim for systems that can throw: the Jacobian check evaluates the system beside the iterates (C171_verbose_disagreement). Proved: a verbose success is the silent success; equal outcomes for systems that never throw"
  },
  {
   "property": "C172",
   "status": "partial",
   "theorems": [
    "Neml.Wrapped.C172_rates_by_stress",
    "Neml.Wrapped.C172_direction_partial",
    "Neml.Wrapped.C172_direction_disagreement",
    "Neml.Wrapped.C172_walker"
   ],
   "note": "a derivative of the direction by a tensor variable arrives transposed (C172_direction_disagreement); proved for symmetric derivatives, and so for the Walker rule with any number of backstresses"
  },
  {
   "property": "C173",
   "status": "partial",
   "theorems": [
    "Neml.ShearModulus.C173_energy",
    "Neml.ShearModulus.C173_direction",
    "Neml.ShearModulus.C173_frame",
    "Neml.ShearModulus.C173_isotropic",
    "Neml.ShearModulus.C173_default",
    "Neml.ShearModulus.C173_solids_partial",
    "Neml.ShearModulus.C173_positive",
    "Neml.ShearModulus.C173_compliance",
    "Neml.ShearModulus.C173_transverse_disagreement"
   ],
   "note": "Proved except for the basal-plane modulus of transversely isotropic solids, which the code reports as (C11-C12)/4, half the modulus it gives along the diagonals of the same plane (consequence of C37)."
  },
  {
   "property": "C174",
   "status": "partial",
   "theorems": [
    "Neml.CombinedInel.C174_rates",
    "Neml.CombinedInel.C174_rates_models",
    "Neml.CombinedInel.C174_plain",
    "Neml.CombinedInel.C174_single_partial",
    "Neml.CombinedInel.C174_square_disagreement",
    "Neml.CombinedInel.C174_second_disagreement",
    "Neml.CombinedInel.C174_third_disagreement",
    "Neml.CombinedInel.C174_strength",
    "Neml.CombinedInel.C174_power_strength",
    "Neml.CombinedInel.C174_slip_strength"
   ],
   "note": "Proved: rates and their stress derivatives for every nesting, everything for one slip model among models without variables, the strengths. The code violates the claim with a second slip model: rate derivatives are too few (out of range reads), the derivative of the plastic strain rate is the last part's, or read out of range with three."
  },
  {
   "property": "C175",
   "status": "partial",
   "theorems": [
    "Neml.ElasticSwitch.C175_frame",
    "Neml.ElasticSwitch.C175_own",
    "Neml.ElasticSwitch.C175_all_partial",
    "Neml.ElasticSwitch.C175_last",
    "Neml.ElasticSwitch.C175_damage_disagreement",
    "Neml.ElasticSwitch.C175_elastic_step_damages",
    "Neml.ElasticSwitch.C175_saved_disagreement",
    "Neml.ElasticSwitch.C175_shared_disagreement"
   ],
   "note": "Proved for all compositions without damage; frame and last-change laws for all. The code violates the claim: the damage rule keeps the old elastic model (an elastic step then damages), saving writes the old one, and a model sharing a part is left half changed."
  },
  {
   "property": "C176",
   "status": "partial",
   "theorems": [
    "Neml.Creep.C176_j2_time",
    "Neml.Creep.C176_j2_temperature",
    "Neml.Creep.C176_j2_temperature_wrong",
    "Neml.Creep.C176_time",
    "Neml.Creep.C176_constant_partial",
    "Neml.Creep.C176_powerLaw_disagreement",
    "Neml.Creep.C176_blackburn_disagreement",
    "Neml.Creep.C176_mukherjee_disagreement",
    "Neml.Creep.C42_blackburn_temperature",
    "Neml.Creep.C42_swindeman_temperature",
    "Neml.Creep.C176_default_partial"
   ],
   "note": "Proved: time derivatives of all rules, J2 models inherit right and wrong derivatives of their rule, temperature derivatives with constant coefficients. The code violates the claim for coefficients that vary with temperature and for Mukherjee's rule."
  },
  {
   "property": "C177",
   "status": "partial",
   "theorems": [
    "Neml.PyArrays.C177_argument",
    "Neml.PyArrays.C177_fill_partial",
    "Neml.PyArrays.C177_fill_disagreement",
    "Neml.PyArrays.C177_short_disagreement",
    "Neml.PyArrays.C177_copy_partial",
    "Neml.PyArrays.C177_copy_disagreement",
    "Neml.PyArrays.C177_alloc",
    "Neml.PyArrays.C177_alloc_small",
    "Neml.PyArrays.C177_block_check",
    "Neml.PyArrays.C177_scalar_disagreement"
   ],
   "note": "Proved: arguments of every layout are read right, arrays without gaps are filled, new arrays are laid out right, a block evaluation goes on exactly with the right shapes. The code violates the rest: arrays with gaps are not filled, short arrays are read beyond the end, copy_data reads freed memory for arrays with gaps, and arrays without dimensions are looked at beyond their shape."
  },
  {
   "property": "C178",
   "status": "proved",
   "theorems": [
    "Neml.SolveStep.C178_elastic",
    "Neml.SolveStep.C178_return",
    "Neml.SolveStep.C178_update",
    "Neml.SolveStep.C178_every_step",
    "Neml.SolveStep.C178_unique",
    "Neml.SolveStep.C178_second_root",
    "Neml.SolveStep.C178_band_disagreement"
   ],
   "note": "The linear solver and the inverse are taken as exact. Within the tolerance of the solver the tangent is not the derivative of the returned stress (C178_band_disagreement)."
  },
  {
   "property": "C179",
   "status": "partial",
   "theorems": [
    "Neml.SolveStep.C179_balance_perfect",
    "Neml.SolveStep.C179_balance_hardening",
    "Neml.SolveStep.C179_history_perfect",
    "Neml.SolveStep.C179_history_hardening",
    "Neml.SolveStep.C179_update_perfect",
    "Neml.SolveStep.C179_update_hardening",
    "Neml.SolveStep.C179_work_grows_partial",
    "Neml.SolveStep.C179_work_bound_partial",
    "Neml.SolveStep.C179_heating_disagreement",
    "Neml.SolveStep.C179_reversal_disagreement"
   ],
   "note": "The balance is proved for every surface, flow rule and solver at constant elastic constants. Plastic work is shown not to fall for perfect J2 plasticity from a start on or within the end surface; it can fall on heating and on reversal with a falling yield stress."
  },
  {
   "property": "C18",
   "status": "proved",
   "theorems": [
    "Neml.Newton.C18_stops",
    "Neml.Newton.C18_calls",
    "Neml.Newton.C18_fuel_irrelevant"
   ],
   "note": ""
  },
  {
   "property": "C180",
   "status": "proved",
   "theorems": [
    "Neml.SolveStep.C180_return",
    "Neml.SolveStep.C180_band",
    "Neml.SolveStep.C180_every_step"
   ],
   "note": "The linear solver and the inverse are taken as exact."
  },
  {
   "property": "C181",
   "status": "partial",
   "theorems": [
    "Neml.Yaguchi.C181_smooth_partial",
    "Neml.Yaguchi.C181_continuous",
    "Neml.Yaguchi.C181_jump_disagreement",
    "Neml.Yaguchi.C181_threshold_disagreement"
   ],
   "note": "Proved for all parameters but one: jumps of at most 0.4 percent in C1, none in C2, 0.3 in a2, 6 in g1, 19 in g2, 3 in m, 0.5 in A and 0.03 in q, and continuity everywhere else. The rate sensitivity B of the threshold jumps by more than 60 percent at 773 K, where the code changes its formula; its two formulas meet at 673 K. At rates up to 1e-5 the target of the threshold stress jumps up by more than 34."
  },
  {
   "property": "C182",
   "status": "proved",
   "theorems": [
    "Neml.SolveStep.C182_unique",
    "Neml.SolveStep.C182_radial",
    "Neml.SolveStep.C182_softening"
   ],
   "note": "Solutions with the regularisation length below the radius of the surface. The softening limit of three shear moduli is a hypothesis."
  },
  {
   "property": "C183",
   "status": "proved",
   "theorems": [
    "Neml.SolveStep.C183_converges",
    "Neml.SolveStep.C183_linear",
    "Neml.SolveStep.C183_voce",
    "Neml.SolveStep.C183_power",
    "Neml.SolveStep.C183_sum"
   ],
   "note": "LAPACK solves and inverts exactly; the power law starts from a positive strain because the derivative reported at zero is a stand-in."
  },
  {
   "property": "C184",
   "status": "proved",
   "theorems": [
    "Neml.SolveStep.C184_unique",
    "Neml.SolveStep.C184_flow",
    "Neml.SolveStep.C184_power"
   ],
   "note": "existence, uniqueness and shape of the solution; exact arithmetic"
  },
  {
   "property": "C185",
   "status": "proved",
   "theorems": [
    "Neml.SolveStep.C185_converges",
    "Neml.SolveStep.C185_elastic",
    "Neml.SolveStep.C185_power",
    "Neml.SolveStep.C185_linear",
    "Neml.SolveStep.C185_concave",
    "Neml.SolveStep.C185_defaults"
   ],
   "note": "the linear solve and the inversion are exact (hypotheses); exact arithmetic"
  },
  {
   "property": "C186",
   "status": "partial",
   "theorems": [
    "Neml.SolveStep.C186_within_partial",
    "Neml.SolveStep.C186_bounded",
    "Neml.SolveStep.C186_refused",
    "Neml.SolveStep.C186_refused_disagreement"
   ],
   "note": "the limit is applied to every iterate, the first being the trial stress; holds where the trial stress is within the limit; witness where the only solution flows slowly and the step is refused"
  },
  {
   "property": "C187",
   "status": "proved",
   "theorems": [
    "Neml.SolveStep.C187_plastic",
    "Neml.SolveStep.C187_visco",
    "Neml.SolveStep.C187_plastic_history",
    "Neml.SolveStep.C187_visco_history",
    "Neml.SolveStep.C187_plastic_path"
   ],
   "note": "Energy contraction of a step and of whole histories for linear isotropic hardening with isotropic elasticity at constant temperature, rate independent and viscoplastic; the exact path exists and is unique."
  },
  {
   "property": "C188",
   "status": "proved",
   "theorems": [
    "Neml.SolveStep.C188_plastic",
    "Neml.SolveStep.C188_visco",
    "Neml.SolveStep.C188_runs"
   ],
   "note": "Computed path against exact path for linear isotropic hardening; success of every history for concave hardening rules, with temperatures that change. Exact arithmetic, exact linear solver."
  },
  {
   "property": "C189",
   "status": "proved",
   "theorems": [
    "Neml.SolveStep.C189_contract",
    "Neml.SolveStep.C189_unique",
    "Neml.SolveStep.C189_closed",
    "Neml.SolveStep.C189_step",
    "Neml.SolveStep.C189_history",
    "Neml.SolveStep.C189_contract_history",
    "Neml.SolveStep.C189_cycles"
   ],
   "note": "Isotropic elasticity at constant temperature, exact arithmetic; the exact step is stated by its Kuhn-Tucker conditions. Distances are of stored energy."
  },
  {
   "property": "C19",
   "status": "proved",
   "theorems": [
    "Neml.Substep.C19_covers_step"
   ],
   "note": ""
  },
  {
   "property": "C190",
   "status": "partial",
   "theorems": [
    "Neml.Xml.C190_layout",
    "Neml.Xml.C190_printed",
    "Neml.Xml.C190_same",
    "Neml.Xml.C190_found",
    "Neml.Xml.C190_missing",
    "Neml.Xml.C190_order",
    "Neml.Xml.C190_attrs",
    "Neml.Xml.C190_saved",
    "Neml.Xml.C190_saved_one",
    "Neml.Xml.C190_closing_disagreement",
    "Neml.Xml.C190_twice_disagreement",
    "Neml.Xml.C190_comment_disagreement"
   ],
   "note": "Layout, comments, lookup, order and attributes proved for every document and every way to write it. Not true in three points: closing tags are not compared, a parameter given twice is accepted and the last value counts, and a comment inside a list of numbers silently ends the list. CDATA sections and numeric references are not modelled."
  },
  {
   "property": "C191",
   "status": "partial",
   "theorems": [
    "Neml.Xml.C191_int",
    "Neml.Xml.C191_size",
    "Neml.Xml.C191_refused",
    "Neml.Xml.C191_int_disagreement",
    "Neml.Xml.C191_commas_disagreement",
    "Neml.Xml.C191_slip_disagreement"
   ],
   "note": "The accepted texts are described exactly. The claim is false: whatever follows the leading digits is ignored, negative sizes wrap, lists with commas are read as their first number, and a slip system without a plane takes its direction for the plane."
  },
  {
   "property": "C192",
   "status": "partial",
   "theorems": [
    "Neml.Creep.C192_law",
    "Neml.Creep.C192_unique",
    "Neml.Creep.C192_converges",
    "Neml.Creep.C192_succeeds",
    "Neml.Creep.C192_first_step",
    "Neml.Creep.C192_virgin_disagreement",
    "Neml.Creep.C192_virgin_condition",
    "Neml.Creep.C192_reversal_disagreement"
   ],
   "note": "The rate is that of the law above the guards. Forward creep (strain of at least eps along the stress): the step has exactly one solution among all strains and the solver finds it from below, to its tolerances, given enough iterations. Not so in general: from zero creep strain with m < 1/2 and no line search (the default) Newton's method goes back and forth for ever and the step fails; a reversed step can have three solutions; the first step's solution is off the law by the factor m^m however short the step."
  },
  {
   "property": "C193",
   "status": "partial",
   "theorems": [
    "Neml.CreepSeries.C193_relaxes",
    "Neml.CreepSeries.C193_history",
    "Neml.CreepSeries.C193_never_faster",
    "Neml.CreepSeries.C193_curve",
    "Neml.CreepSeries.C193_unique",
    "Neml.CreepSeries.C193_powerLaw",
    "Neml.CreepSeries.C193_stuck_disagreement",
    "Neml.CreepSeries.C193_gap_disagreement"
   ],
   "note": "Holds with both Newton iterations of the code: each update succeeds given enough iterations, shortens the deviator and keeps the mean stress, ends at or above the exact implicit step and within the tolerances of it; histories by induction; the exact curve is never above. Uniqueness for every step. Not so in general: steps that creep less than the inner absolute tolerance do not relax at all, however many there are; a trial stress just at the guard has no solution. Convergence is shown for holds, not for steps that turn the stress."
  },
  {
   "property": "C194",
   "status": "partial",
   "theorems": [
    "Neml.DamageStep.C194_solves",
    "Neml.DamageStep.C194_modular",
    "Neml.DamageStep.C194_combined",
    "Neml.DamageStep.C194_law",
    "Neml.DamageStep.C194_window",
    "Neml.DamageStep.C194_never_late",
    "Neml.DamageStep.C194_update",
    "Neml.DamageStep.C194_history",
    "Neml.DamageStep.C194_past_failure_disagreement"
   ],
   "note": "Proved: the solver's equations reduce to one for the damage; each iteration at least halves its residual and stays below the smallest solution, so 27 iterations do with the default tolerance (C194_solves), for every rule whose damage accelerates, including the modular rule with phi not below xi and combinations (C194_modular, C194_combined); the solvable steps (C194_window); the law (C194_law); one update and whole histories (C194_update, C194_never_late, C194_history). Missing: a step beyond the life is refused; with phi = 2 such a step is accepted with damage 3/2 and a reversed stress (C194_past_failure_disagreement). The base keeps its stress during the hold; updates are for steps below the fraction (phi+1)/(xi+phi) of the remaining life, where the code's tangent formula does not divide by zero."
  },
  {
   "property": "C195",
   "status": "partial",
   "theorems": [
    "Neml.Newton.C195_answers",
    "Neml.Newton.C195_gives_up",
    "Neml.Newton.C195_mono",
    "Neml.PySolve.C195_python",
    "Neml.PySolve.C195_python_mono",
    "Neml.Newton.C195_last_iteration_disagreement"
   ],
   "note": "Proved as an equivalence for the Python solvers, with monotonicity in the limit for both. The compiled solver stops one iteration early: it answers exactly if an iterate is within tolerance after fewer than m iterations, and for every m there is a problem whose m-th iterate is within tolerance yet is thrown away."
  },
  {
   "property": "C196",
   "status": "partial",
   "theorems": [
    "Neml.Flow.C196_step",
    "Neml.Flow.C196_history",
    "Neml.Flow.C196_plastic",
    "Neml.Flow.C196_saturates",
    "Neml.Flow.C196_stress",
    "Neml.Flow.C196_overstress",
    "Neml.Flow.C196_rest",
    "Neml.Flow.C196_heating_disagreement"
   ],
   "note": "C196_step and C196_history: every step the viscoplastic model takes at constant temperature, or with C independent of temperature, and every history of such steps, at the level of the code's Newton solver and tolerances, for Chaboche and ChabocheVoceRecovery. C196_plastic: the rate independent model at any temperature, for steps whose multiplier is not negative, which the solver does not check. C196_saturates: straining in one direction brings the backstress to C/gamma at least as fast as 1/(1+gamma q) and no faster than exp(-gamma q). C196_stress, C196_overstress: the bound on the equivalent stress. C196_rest: what a step at rest does to the backstresses when the temperature changes. C196_heating_disagreement: heating a material whose C falls makes a backstress grow past its saturation value without any straining, because the temperature term of the code has the opposite sign and a factor sqrt(2/3)."
  },
  {
   "property": "C197",
   "status": "proved",
   "theorems": [
    "Neml.SolveStep.C197_overstress",
    "Neml.SolveStep.C197_slow",
    "Neml.SolveStep.C197_limit",
    "Neml.SolveStep.C197_fast",
    "Neml.SolveStep.C197_computed",
    "Neml.SolveStep.C197_power"
   ],
   "note": "C197_overstress: strained no faster than it flows under the overstress phi the material stays below phi. C197_slow: the bound along every history of exact steps. C197_limit: for every distance and plastic strain a strain rate. C197_fast: fast loading. C197_computed: the path the code computes with its Newton solver and tolerances beside the rate independent path. Isothermal; the rate independent path is the exact one, whose distance from the computed one is C188."
  },
  {
   "property": "C198",
   "status": "proved",
   "theorems": [
    "Neml.BarNetwork.C198_step",
    "Neml.BarNetwork.C198_exact",
    "Neml.BarNetwork.C198_history",
    "Neml.BarNetwork.C198_stress",
    "Neml.BarNetwork.C198_plastic_bar",
    "Neml.BarNetwork.C198_visco_bar",
    "Neml.BarNetwork.C198_young",
    "Neml.SolveStep.C198_plastic",
    "Neml.SolveStep.C198_visco"
   ],
   "note": "One step of any two networks with the out of balance forces kept (C198_step), with zero tolerances (C198_exact), whole histories (C198_history), stress of each bar (C198_stress); that bars of the J2 models are of this kind (C198_plastic_bar, C198_visco_bar, with C198_plastic and C198_visco for the three-dimensional step and C198_young for the measure). The three-dimensional update and the lateral strains are exact solutions of their equations; elastic and hardening moduli do not vary with temperature. Both networks take the same time steps."
  },
  {
   "property": "C199",
   "status": "proved",
   "theorems": [
    "Neml.BarNetwork.C199_booked",
    "Neml.BarNetwork.C199_energy",
    "Neml.BarNetwork.C199_loads",
    "Neml.BarNetwork.C199_wrapped"
   ],
   "note": "Recorded forces and energy at all times (C199_booked), one step (C199_energy), fixed supports (C199_loads), the uniaxial wrapper over a material that reports its work (C199_wrapped, lateral stresses solved for exactly). That the recorded dissipation is wrong is C69."
  },
  {
   "property": "C20",
   "status": "partial",
   "theorems": [
    "Neml.Substep.C20_stops",
    "Neml.Substep.C20_calls",
    "Neml.Substep.C20_throws_only_at_finest_partial",
    "Neml.Substep.C20_one_increment",
    "Neml.Substep.C20_finest_size_not_tried",
    "Neml.Substep.C19_covers_step"
   ],
   "note": "termination, number of increments, single increment proved; the error comes one level above the finest size (negation proved)"
  },
  {
   "property": "C200",
   "status": "proved",
   "theorems": [
    "Neml.BarNetwork.C200_forces",
    "Neml.BarNetwork.C200_limit",
    "Neml.BarNetwork.C200_raises",
    "Neml.BarNetwork.C200_bar"
   ],
   "note": "Recorded forces (C200_forces, any tolerances), applied forces (C200_limit, zero tolerances), the call of solve (C200_raises), bars of perfect J2 plasticity (C200_bar, exact steps). That a load below the limit load can be solved for is not claimed."
  },
  {
   "property": "C201",
   "status": "proved",
   "theorems": [
    "Neml.BarNetwork.C201_step",
    "Neml.BarNetwork.C201_shakedown",
    "Neml.BarNetwork.C201_fresh",
    "Neml.BarNetwork.C201_plastic_bar",
    "Neml.BarNetwork.C201_visco_bar"
   ],
   "note": "One step (C201_step), any number of steps (C201_shakedown), networks without stress at first (C201_fresh); bars of J2 plasticity and of viscoplasticity meet the conditions on the material (C201_plastic_bar, C201_visco_bar; exact steps of the material, constant moduli, lateral stresses solved for exactly). Zero tolerances of the solver of the network. Plastic strain is the recorded mechanical strain less stress over modulus."
  },
  {
   "property": "C202",
   "status": "proved",
   "theorems": [
    "Neml.SolveStep.C202_proportional",
    "Neml.SolveStep.C202_curve"
   ],
   "note": "Any two subdivisions (C202_proportional), hardening curve (C202_curve), for exact solutions of the equations of each step (C182: there is just one; C183: the solver finds it for concave curves)."
  },
  {
   "property": "C203",
   "status": "proved",
   "theorems": [
    "Neml.BarNetwork.C203_near",
    "Neml.BarNetwork.C203_unique",
    "Neml.BarNetwork.C203_tolerance",
    "Neml.BarNetwork.C203_options",
    "Neml.BarNetwork.C203_history",
    "Neml.BarNetwork.C203_plastic_bar",
    "Neml.BarNetwork.C203_visco_bar",
    "Neml.BarNetwork.C203_perfect_bar"
   ],
   "note": "Exactly one balanced answer for networks without mechanisms whose bars answer at every strain; distance bound and independence of the options for all accepted steps and histories; J2 bars with linear hardening, rate independent or viscoplastic. C203_perfect_bar shows that the rising stress is needed."
  },
  {
   "property": "C204",
   "status": "proved",
   "theorems": [
    "Neml.Bree.C204_step",
    "Neml.Bree.C204_melan",
    "Neml.Bree.C204_residual",
    "Neml.Bree.C204_shakedown",
    "Neml.Bree.C204_between",
    "Neml.Bree.C204_passage",
    "Neml.Bree.C204_never",
    "Neml.Bree.C204_limit",
    "Neml.Bree.C204_new",
    "Neml.Bree.C204_bree",
    "Neml.Bree.C204_bree_outside",
    "Neml.Bree.C204_material"
   ],
   "note": "For exact arithmetic and zero tolerances. Material: plastic strain only at the yield stress along the stress (Flows), stresses inside the yield stress (Yields); both proved for the wrapped perfect J2 model whose updates return. Constant expansion coefficient and yield stress, temperatures T0 + phi(t) dT with phi in [0, 1]. Concrete walls inside and outside are shown to take steps."
  },
  {
   "property": "C205",
   "status": "partial",
   "theorems": [
    "Neml.FrontEnds.C205_same",
    "Neml.FrontEnds.C205_exit",
    "Neml.FrontEnds.C205_exit_disagreement",
    "Neml.FrontEnds.C205_report_disagreement",
    "Neml.FrontEnds.C205_python",
    "Neml.FrontEnds.C205_python_same",
    "Neml.FrontEnds.C205_steps_disagreement",
    "Neml.FrontEnds.C205_rate",
    "Neml.FrontEnds.C205_abaqus",
    "Neml.FrontEnds.C205_gradient"
   ],
   "note": "All programs end in the state of the straight path, with the rates asked for. Four things differ: failed programs keep the model, the Fortran program exits with zero always, a failed report of the elastic strain is lost or blamed on the next update in C, and the Python program takes one step less than asked for."
  },
  {
   "property": "C206",
   "status": "proved",
   "theorems": [
    "Neml.SolveStep.C206_strain",
    "Neml.SolveStep.C206_stress",
    "Neml.SolveStep.C206_stress_isotropic",
    "Neml.SolveStep.C206_ratchet_disagreement",
    "Neml.SolveStep.C206_strain_path",
    "Neml.SolveStep.C206_stress_path",
    "Neml.SolveStep.C206_isotropic_path",
    "Neml.SolveStep.C206_taken"
   ],
   "note": "Exact steps as in C189. C206_strain and C206_stress: a path of exact steps approaches one that repeats itself; C206_stress_isotropic is the case without kinematic hardening, C206_ratchet_disagreement shows that without any hardening the claim fails. C206_strain_path, C206_stress_path and C206_isotropic_path: such paths exist for every history. C206_taken: computed steps are exact when no trial stress lies in the tolerance band."
  },
  {
   "property": "C207",
   "status": "proved",
   "theorems": [
    "Neml.SolveStep.C207_strain",
    "Neml.SolveStep.C207_path",
    "Neml.SolveStep.C207_power",
    "Neml.SolveStep.C207_hold"
   ],
   "note": "C207_strain: a path of solutions of the step equations of TVPFlowRule with Perzyna J2 flow approaches one whose stresses repeat themselves. C207_path: there is a path for every history. C207_power: the power law meets the growth condition. How far the computed path is from the exact one is C188_visco."
  },
  {
   "property": "C208",
   "status": "proved",
   "theorems": [
    "Neml.SolveStep.C208_refine",
    "Neml.SolveStep.C208_converges",
    "Neml.SolveStep.C208_taken",
    "Neml.SolveStep.C208_path"
   ],
   "note": "Both the exact steps and the steps the code computes, for which the tolerance of the solver adds up over the steps. Exact arithmetic; linear solves are exact."
  },
  {
   "property": "C209",
   "status": "proved",
   "theorems": [
    "Neml.SolveStep.C209_rate",
    "Neml.SolveStep.C209_refine",
    "Neml.SolveStep.C209_converges",
    "Neml.SolveStep.C209_path",
    "Neml.SolveStep.C209_computed"
   ],
   "note": "For the exact solution of the implicit equations of each step, which exists and is unique (C184), and for the steps the code computes under the conditions of C188, for which the tolerance of the solver adds up over the steps."
  },
  {
   "property": "C21",
   "status": "partial",
   "theorems": [
    "Neml.SmallStrain.C21_chain_rule_partial",
    "Neml.SmallStrain.C21_general_integrator",
    "Neml.SmallStrain.C21_perfect_plasticity_fails"
   ],
   "note": "Chain rule for the accumulated tangent given exact per-substep sensitivities, and those sensitivities hold for the general integrator. Fails for perfect plasticity (and any model whose consistency row is not of rate form): counterexample theorem."
  },
  {
   "property": "C210",
   "status": "partial",
   "theorems": [
    "Neml.SmallStrain.C210_elastic",
    "Neml.SmallStrain.C210_plastic",
    "Neml.SmallStrain.C210_perfect",
    "Neml.SmallStrain.C210_instant",
    "Neml.SmallStrain.C210_rest",
    "Neml.CrystalDamage.C210_crystal",
    "Neml.Damage.C210_damage_left",
    "Neml.Damage.C210_damage_effective",
    "Neml.Damage.C210_damage_report",
    "Neml.Damage.C210_damage_disagreement"
   ],
   "note": "Holds for rate independent, perfectly plastic and rate dependent models without damage and for damaged crystals. Fails for small strain models with scalar damage, which report the strain of an undamaged material under the damaged stress: the fraction w of the stress stays (C210_damage_left, C210_damage_disagreement)."
  },
  {
   "property": "C211",
   "status": "partial",
   "theorems": [
    "Neml.PoleFigures.C211_follows",
    "Neml.PoleFigures.C211_one",
    "Neml.PoleFigures.C211_all_partial",
    "Neml.PoleFigures.C211_ragged_disagreement",
    "Neml.PoleFigures.C211_colors_disagreement"
   ],
   "note": "Lines follow crystals whenever each crystal has the same number of points in every step. Otherwise the call fails (C211_ragged_disagreement). Trajectories beyond the number of colours are left out (C211_colors_disagreement). Only the cubic triangle is modelled."
  },
  {
   "property": "C212",
   "status": "partial",
   "theorems": [
    "Neml.Polycrystal.C212_crystal",
    "Neml.Polycrystal.C212_path",
    "Neml.Polycrystal.C212_turned_disagreement"
   ],
   "note": "Proved for crystals whose step depends on the change of the spin and for polycrystals used through the small strain interface from their initial state. A polycrystal that has had a step with spin turns back in its first small strain step (C212_turned_disagreement)."
  },
  {
   "property": "C22",
   "status": "proved",
   "theorems": [
    "Neml.Substep.C22_no_partial_state",
    "Neml.Substep.C22_negative_max_divide"
   ],
   "note": "for max_divide >= 0; C22_negative_max_divide shows the silent return for negative values"
  },
  {
   "property": "C23",
   "status": "proved",
   "theorems": [
    "Neml.SmallStrain.C23_energy",
    "Neml.SmallStrain.C23_closed_path"
   ],
   "note": "Symmetric stiffness at constant temperature, any strain path (list)."
  },
  {
   "property": "C24",
   "status": "partial",
   "theorems": [
    "Neml.SmallStrain.C24_elastic_step_partial",
    "Neml.SmallStrain.C24_nonisothermal_fails"
   ],
   "note": "Holds when the stiffness is the same at both temperatures; counterexample for a temperature change, where the elastic step returns a stress other than the trial stress."
  },
  {
   "property": "C25",
   "status": "proved",
   "theorems": [
    "Neml.SmallStrain.C25_on_surface",
    "Neml.SmallStrain.C25_return_direction"
   ],
   "note": "Given that the nonlinear solver returns an exact zero of the residual."
  },
  {
   "property": "C26",
   "status": "proved",
   "theorems": [
    "Neml.SmallStrain.C26_first_bound",
    "Neml.SmallStrain.C26_last",
    "Neml.SmallStrain.C26_always_one",
    "Neml.SmallStrain.C26_monotone",
    "Neml.SmallStrain.C26_bad_lengths",
    "Neml.SmallStrain.C26_rate"
   ],
   "note": "Needs one more model than bounds or equal lengths, which the code does not check: C26_bad_lengths."
  },
  {
   "property": "C27",
   "status": "proved",
   "theorems": [
    "Neml.SmallStrain.C27_series",
    "Neml.SmallStrain.C27_inverse_of_sum",
    "Neml.SmallStrain.C27_returns"
   ],
   "note": "Invertible plastic tangent; invert_mat is a parameter with its contract as hypothesis."
  },
  {
   "property": "C28",
   "status": "partial",
   "theorems": [
    "Neml.Layout.C28_layout_partial",
    "Neml.Layout.C28_initial_partial",
    "Neml.Layout.C28_regime_initial",
    "Neml.Layout.C28_layout_perm",
    "Neml.Layout.C28_store_size",
    "Neml.Layout.C28_creep_plastic_mismatch",
    "Neml.Layout.C28_creep_plastic_initial",
    "Neml.Layout.C28_km_nstate",
    "Neml.Layout.C28_creep_km_overrun",
    "Neml.Layout.C28_creep_fits"
   ],
   "note": "Names, order and sizes hold for every tree of leaf, damage and regime models; initial values unless a damage model with nonzero initial damage stands around a regime model, where they are false. False for creep-plasticity: own strain is reported last but used first. Size always agrees, except that a regime model inside creep-plasticity is read past the end."
  },
  {
   "property": "C29",
   "status": "partial",
   "theorems": [
    "Neml.Block.C29_block_partial",
    "Neml.Block.C29_schedule",
    "Neml.Block.C29_failure_hidden",
    "Neml.Block.C29_t2m",
    "Neml.Block.C29_m2t",
    "Neml.Block.C29_m42t4"
   ],
   "note": "Proved for every block and schedule without failing points. With a failing point the call returns normally and leaves stress and tangent of all points unwritten, which is proved as a disagreement. The decimal constant s22 is taken as exactly sqrt(2)/2."
  },
  {
   "property": "C30",
   "status": "proved",
   "theorems": [
    "Neml.LargeDef.C30_objective_rate",
    "Neml.LargeDef.C30_zero_spin_step",
    "Neml.LargeDef.C30_zero_spin_path",
    "Neml.LargeDef.C30_truesdell_differs"
   ],
   "note": "Jaumann without spin over whole paths, and the discretized rate equation for both rates. Also shown: the Truesdell rate differs from the small strain model even without spin."
  },
  {
   "property": "C31",
   "status": "partial",
   "theorems": [
    "Neml.Damage.C31_step",
    "Neml.Damage.C31_path",
    "Neml.Damage.C31_energy_disagrees"
   ],
   "note": "Stress, history and damage equation along whole paths are proved. The energy part is false as stated: the reported energy is that of the undamaged stress; C31_energy_disagrees is a witness."
  },
  {
   "property": "C32",
   "status": "proved",
   "theorems": [
    "Neml.Damage.C32_kill",
    "Neml.Damage.C32_stays_killed",
    "Neml.Damage.C32_deletable",
    "Neml.Damage.C32_not_deletable_at_one",
    "Neml.Damage.C32_threshold_above_one"
   ],
   "note": "For thresholds up to one; deletable exactly for thresholds below one. The boundary cases where the code disagrees are proved as separate theorems."
  },
  {
   "property": "C33",
   "status": "proved",
   "theorems": [
    "Neml.Damage.C33_combined",
    "Neml.Damage.C33_rate",
    "Neml.Damage.C33_combined_never_heals",
    "Neml.Damage.C33_standard",
    "Neml.Damage.C33_work",
    "Neml.Damage.C33_classical",
    "Neml.Damage.C33_modular",
    "Neml.Damage.C33_larsonMiller",
    "Neml.Damage.C33_powerLaw",
    "Neml.Damage.C33_expWork",
    "Neml.Damage.C33_path",
    "Neml.Damage.C33_combined_work_never_starts"
   ],
   "note": "All rules of damage.cxx. Also: work damage inside a combination never starts."
  },
  {
   "property": "C34",
   "status": "proved",
   "theorems": [
    "Neml.Damage.C34_vonMises_nonneg",
    "Neml.Damage.C34_vonMises_pressure",
    "Neml.Damage.C34_vonMises_homogeneous",
    "Neml.Damage.C34_vonMises_deviator",
    "Neml.Damage.C34_vonMises_zero",
    "Neml.Damage.C34_mean",
    "Neml.Damage.C34_huddleston",
    "Neml.Damage.C34_huddleston_tension",
    "Neml.Damage.C34_max",
    "Neml.Damage.C34_sum"
   ],
   "note": "The maximum principal measure is not modelled (eigenvalues)."
  },
  {
   "property": "C35",
   "status": "proved",
   "theorems": [
    "Neml.Elastic.C35_recovers",
    "Neml.Elastic.C35_refuses",
    "Neml.Elastic.C35_total",
    "Neml.Elastic.C35_reported"
   ],
   "note": "All twelve ordered pairs, refusals, totality of accepted pairs, reported E and nu."
  },
  {
   "property": "C36",
   "status": "proved",
   "theorems": [
    "Neml.Elastic.C36_iso_inverse",
    "Neml.Elastic.C36_iso_roundtrip",
    "Neml.Elastic.C36_iso_positive",
    "Neml.Elastic.C36_cubic_positive",
    "Neml.Elastic.C36_inverse",
    "Neml.Elastic.C36_cubic_roundtrip",
    "Neml.Elastic.C36_cubic_moduli"
   ],
   "note": "Isotropic inverse in closed form; cubic through invert_mat assumed to invert regular matrices; positivity is an equivalence with the stability conditions."
  },
  {
   "property": "C37",
   "status": "partial",
   "theorems": [
    "Neml.Elastic.C37_isotropic",
    "Neml.Elastic.C37_hexagonal",
    "Neml.Elastic.C37_transverse_disagrees",
    "Neml.Elastic.C37_transverse_partial"
   ],
   "note": "Isotropic part proved. The transversely isotropic stiffness violates it unless C11 = C12 (its last entry is half the required C11 - C12); proved as an equivalence. What holds: quarter turns about the axis."
  },
  {
   "property": "C38",
   "status": "proved",
   "theorems": [
    "Neml.Flow.C38_pressure",
    "Neml.Flow.C38_value",
    "Neml.Flow.C38_gradient",
    "Neml.Flow.C38_tracefree",
    "Neml.Flow.C38_unit",
    "Neml.Flow.C38_convex",
    "Neml.Flow.C38_isotropic",
    "Neml.Flow.C38_gradient_with_trace"
   ],
   "note": "Trace-free backstress; C38_gradient_with_trace shows the gradient is wrong otherwise."
  },
  {
   "property": "C39",
   "status": "proved",
   "theorems": [
    "Neml.Flow.C39_flows_iff",
    "Neml.Flow.C39_powerLaw_positive",
    "Neml.Flow.C39_direction",
    "Neml.Flow.C39_plastic_work"
   ],
   "note": ""
  },
  {
   "property": "C40",
   "status": "partial",
   "theorems": [
    "Neml.Flow.C40_strain_rates_add",
    "Neml.Flow.C40_history_partial",
    "Neml.Flow.C40_history_alone",
    "Neml.Flow.C40_history_not_own",
    "Neml.Flow.C40_time_part_lost"
   ],
   "note": "Strain rates add for every number of members. Member histories do not evolve as on their own: the hardening is driven by the total rate; C40_history_not_own is a counterexample."
  },
  {
   "property": "C41",
   "status": "partial",
   "theorems": [
    "Neml.Creep.C41_two_regions",
    "Neml.Creep.C41_right_iff",
    "Neml.Creep.C41_region_partial"
   ],
   "note": "False as stated: for more than one cut the code picks a wrong region (C41_right_iff says exactly when it is right). Proved right for one cut, and for stresses off the first cut and up to the second."
  },
  {
   "property": "C42",
   "status": "partial",
   "theorems": [
    "Neml.Creep.C42_powerLaw",
    "Neml.Creep.C42_normalizedPowerLaw",
    "Neml.Creep.C42_blackburn",
    "Neml.Creep.C42_blackburn_temperature",
    "Neml.Creep.C42_swindeman",
    "Neml.Creep.C42_swindeman_temperature",
    "Neml.Creep.C42_regionKM",
    "Neml.Creep.C42_nortonBailey",
    "Neml.Creep.C42_mukherjee",
    "Neml.Creep.C42_generic_right_iff",
    "Neml.Creep.C42_minCreep_partial"
   ],
   "note": "Proved for power law, normalized power law, Blackburn, Swindeman, regional KM, Norton-Bailey and Mukherjee. GenericCreep is wrong except where the rate is exp(1) or flat (C42_generic_right_iff). MinCreep holds up to its six-digit constants."
  },
  {
   "property": "C43",
   "status": "proved",
   "theorems": [
    "Neml.Creep.C43_backward_euler",
    "Neml.Creep.C43_tangent_equation",
    "Neml.Creep.C43_tangent",
    "Neml.Creep.C43_explicit",
    "Neml.Creep.C43_small_step_dropped",
    "Neml.Creep.C43_small_steps_lost"
   ],
   "note": "A converged update is backward Euler to the tolerance with its exact tangent. Also shown: increments below atol are dropped, for any number of steps."
  },
  {
   "property": "C44",
   "status": "partial",
   "theorems": [
    "Neml.Flow.C44_linear",
    "Neml.Flow.C44_interpolated",
    "Neml.Flow.C44_voce",
    "Neml.Flow.C44_powerLaw",
    "Neml.Flow.C44_powerLaw_at_zero",
    "Neml.Flow.C44_combined_iso",
    "Neml.Flow.C44_linearKin",
    "Neml.Flow.C44_combined",
    "Neml.Flow.C44_gamma",
    "Neml.Flow.C44_chaboche",
    "Neml.Flow.C44_chabocheVoce",
    "Neml.Flow.C44_chabocheVoce_below"
   ],
   "note": "Proved for every rule; two stated exceptions are counterexamples: power law at zero strain, Voce recovery below Rmin."
  },
  {
   "property": "C45",
   "status": "proved",
   "theorems": [
    "Neml.Flow.C45_initial",
    "Neml.Flow.C45_monotone",
    "Neml.Flow.C45_voce_saturates",
    "Neml.Flow.C45_combined_adds"
   ],
   "note": ""
  },
  {
   "property": "C46",
   "status": "proved",
   "theorems": [
    "Neml.Flow.C46_total",
    "Neml.Flow.C46_rates_tracefree",
    "Neml.Flow.C46_step",
    "Neml.Flow.C46_histories",
    "Neml.Flow.C46_chaboche_histories"
   ],
   "note": ""
  },
  {
   "property": "C47",
   "status": "proved",
   "theorems": [
    "Neml.Mandel.C47_sym_usym",
    "Neml.Mandel.C47_usym_sym",
    "Neml.Mandel.C47_usym_symmetric",
    "Neml.Mandel.C47_isometry",
    "Neml.Mandel.C47_contraction",
    "Neml.Mandel.C47_full2mandel_mandel2full",
    "Neml.Mandel.C47_mandel2full_full2mandel",
    "Neml.Mandel.C47_dev"
   ],
   "note": "Exact reals with an exact square root of two."
  },
  {
   "property": "C48",
   "status": "proved",
   "theorems": [
    "Neml.Mandel.C48_skew_uskew",
    "Neml.Mandel.C48_uskew_skew",
    "Neml.Mandel.C48_uskew_skewsymmetric",
    "Neml.Mandel.C48_axial",
    "Neml.Mandel.C48_orthogonal",
    "Neml.Mandel.C48_split",
    "Neml.Mandel.C48_full2skew_skew2full",
    "Neml.Mandel.C48_full2wws_wws2full",
    "Neml.Mandel.C48_wws_contraction",
    "Neml.Mandel.C48_skew_contraction"
   ],
   "note": "The symmetric-by-skew form contracts to twice the compact product; callers compensate."
  },
  {
   "property": "C49",
   "status": "proved",
   "theorems": [
    "Neml.Math.C49_reduce_gcd"
   ],
   "note": ""
  },
  {
   "property": "C50",
   "status": "proved",
   "theorems": [
    "Neml.Math.C50_polyval",
    "Neml.Math.C50_poly_from_roots",
    "Neml.Math.C50_roots_exactly",
    "Neml.Math.C50_differentiate",
    "Neml.Math.C50_differentiate_nonempty"
   ],
   "note": ""
  },
  {
   "property": "C51",
   "status": "proved",
   "theorems": [
    "Neml.Rotation.C51_hamilton",
    "Neml.Rotation.C51_product_matrix",
    "Neml.Rotation.C51_faithful",
    "Neml.Rotation.C51_inverse",
    "Neml.Rotation.normalize_unit",
    "Neml.Rotation.toMatrix_inj"
   ],
   "note": "all unit quaternions and vectors, exact arithmetic"
  },
  {
   "property": "C52",
   "status": "proved",
   "theorems": [
    "Neml.Rotation.C52_matrix",
    "Neml.Rotation.C52_matrix_back",
    "Neml.Rotation.C52_rodrigues",
    "Neml.Rotation.C52_rodrigues_back",
    "Neml.Rotation.C52_axis_angle",
    "Neml.Rotation.C52_axis_angle_back",
    "Neml.Rotation.C52_axis_angle_identity",
    "Neml.Rotation.C52_vectors",
    "Neml.Rotation.C52_rodrigues_half_turn",
    "Neml.Rotation.C52_vectors_unchecked"
   ],
   "note": "Matrix (all four branches), Rodrigues vector, axis-angle and pairs of vectors. Rodrigues vectors do not exist for half turns and the code returns a wrong one there; turns below 1e-16 lose their axis; setVectors does not check lengths. Both are proved."
  },
  {
   "property": "C53",
   "status": "partial",
   "theorems": [
    "Neml.Rotation.C53_partial",
    "Neml.Rotation.C53_zero_spin_half_turn",
    "Neml.Rotation.C53_steps_add",
    "Neml.Rotation.turn_spec"
   ],
   "note": "Proved for every spin that is not zero. For zero spin the claim is false: every orientation is turned by half a turn about z (C53_zero_spin_half_turn)."
  },
  {
   "property": "C54",
   "status": "partial",
   "theorems": [
    "Neml.Rotation.C54_partial",
    "Neml.Rotation.C54_upside_down",
    "Neml.Rotation.C54_crystal_orientation"
   ],
   "note": "All conventions and units; orientations whose third diagonal entry is 1 or at most 1-1e-15 in size. Missing: the upside-down gimbal case, where the code gives a different rotation (C54_upside_down)."
  },
  {
   "property": "C55",
   "status": "proved",
   "theorems": [
    "Neml.Rotation.C55_compact",
    "Neml.Rotation.C55_invariants",
    "Neml.Rotation.C55_rank_four",
    "Neml.Rotation.C55_compose"
   ],
   "note": "vectors, symmetric, skew, general, fourth order and Mandel 6x6 tensors"
  },
  {
   "property": "C56",
   "status": "partial",
   "theorems": [
    "Neml.Crystal.C56_stops",
    "Neml.Crystal.C56_partial",
    "Neml.Crystal.C56_one_piece",
    "Neml.Crystal.C56_elastic",
    "Neml.Crystal.C56_forced",
    "Neml.Crystal.C56_force_above_max",
    "Neml.Crystal.C56_negative_max",
    "Neml.Crystal.C56_gives_up",
    "Neml.Crystal.C56_predictor",
    "Neml.Crystal.C56_smallest",
    "Neml.Crystal.C56_temperature"
   ],
   "note": "The loop stops, covers the step and chains the history for every failure pattern. The claim about the stress is false for subdivided steps (C56_elastic); it holds for steps taken in one piece (C56_one_piece)."
  },
  {
   "property": "C57",
   "status": "partial",
   "theorems": [
    "Neml.Crystal.C57_static_lost",
    "Neml.Crystal.C57_history",
    "Neml.Crystal.C57_iff",
    "Neml.Crystal.C57_Fe_ignores_reference",
    "Neml.Crystal.C57_Fe_wrong",
    "Neml.Crystal.C57_Fe_initial_partial",
    "Neml.Crystal.C57_set_get",
    "Neml.Crystal.C57_fresh"
   ],
   "note": "The claim is false: every update zeroes both (C57_static_lost, C57_history). C57_iff says exactly when it holds; setting and reading orientations round trips."
  },
  {
   "property": "C58",
   "status": "partial",
   "theorems": [
    "Neml.Crystal.C58_energy",
    "Neml.Crystal.C58_partial",
    "Neml.Crystal.C58_constant_stress"
   ],
   "note": "The claim is false unless the old stress does no work on the increment (C58_energy gives the exact difference); proved for steps starting without stress."
  },
  {
   "property": "C59",
   "status": "proved",
   "theorems": [
    "Neml.Lattice.C59_dual",
    "Neml.Lattice.C59_zone",
    "Neml.Lattice.C59_zone_hexagonal",
    "Neml.Lattice.C59_systems",
    "Neml.Lattice.C59_schmid",
    "Neml.Lattice.C59_exact",
    "Neml.Lattice.C59_exact_twin",
    "Neml.Lattice.C59_cubic",
    "Neml.Lattice.C59_hexagonal"
   ],
   "note": "Duality and the zone law for every basis, unit vectors and orthogonality for every history of additions up to the comparison tolerance of the code; exact orthogonality for the cubic and hexagonal classes when the index vectors have bounded length. Resolved shear ignores pressure exactly when direction and normal are orthogonal."
  },
  {
   "property": "C60",
   "status": "partial",
   "theorems": [
    "Neml.Lattice.C60_partial",
    "Neml.Lattice.C60_right_or_out_of_range",
    "Neml.Lattice.C60_stale",
    "Neml.Lattice.C60_collision",
    "Neml.Lattice.C60_shear"
   ],
   "note": "Holds if all systems are added before the first question and the hash tells the orientations apart. A group added after a question is read out of range (C60_stale), and any finite hash gives a wrong tensor for some pair of orientations (C60_collision)."
  },
  {
   "property": "C61",
   "status": "partial",
   "theorems": [
    "Neml.Slip.C61_ignores_own",
    "Neml.Slip.C61_right_iff",
    "Neml.Slip.C61_same_partial",
    "Neml.Slip.C61_single",
    "Neml.Slip.C61_next_group"
   ],
   "note": "The strength is read with the number of the strength in place of the number of the system (shadowed loop variable). Proved: what is used, exactly when it is right, and that one-strength-for-all models are right."
  },
  {
   "property": "C62",
   "status": "partial",
   "theorems": [
    "Neml.Lattice.C62_flat",
    "Neml.Slip.C62_numbering",
    "Neml.Slip.C62_general",
    "Neml.Slip.C62_simple_partial",
    "Neml.Slip.C62_simple_row",
    "Neml.Slip.C62_simple_wrong"
   ],
   "note": "The numbering is exact and general linear hardening right for every lattice. Simple linear hardening uses the row of the number inside the group: right for one group, proved wrong otherwise."
  },
  {
   "property": "C63",
   "status": "partial",
   "theorems": [
    "Neml.Slip.C63_initial",
    "Neml.Slip.C63_lanl",
    "Neml.Slip.C63_general_doubled",
    "Neml.Slip.C63_nye_dropped"
   ],
   "note": "Right for all models but general linear hardening, which counts the initial strength twice; the Nye part is dropped when its coefficient vanishes at temperature zero."
  },
  {
   "property": "C64",
   "status": "partial",
   "theorems": [
    "Neml.Polycrystal.C64_weights_fail",
    "Neml.Polycrystal.C64_weights",
    "Neml.Polycrystal.C64_weights_scale",
    "Neml.Polycrystal.C64_layout",
    "Neml.Polycrystal.C64_average",
    "Neml.Polycrystal.C64_fail",
    "Neml.Polycrystal.C64_bounds",
    "Neml.Polycrystal.C64_permute",
    "Neml.Polycrystal.C64_tangent",
    "Neml.Polycrystal.C64_identical",
    "Neml.Polycrystal.C64_increments",
    "Neml.Polycrystal.C64_first_step",
    "Neml.Polycrystal.C64_turn",
    "Neml.Polycrystal.C64_elastic_partial",
    "Neml.Polycrystal.C64_elastic_iff"
   ],
   "note": "Weights, averages, tangents, bounds, grain order, turning, equal grains along every path and the layout of the store are proved. Elastic strains are the average only for six grains: the loop over components runs over the number of grains."
  },
  {
   "property": "C65",
   "status": "proved",
   "theorems": [
    "Neml.Polycrystal.C65_own_result",
    "Neml.Polycrystal.C65_schedule",
    "Neml.Polycrystal.C65_batch",
    "Neml.Polycrystal.C65_slots",
    "Neml.Polycrystal.C65_orientations"
   ],
   "note": "Any interleaving of the memory operations of the crystals, each working on its own slices."
  },
  {
   "property": "C66",
   "status": "proved",
   "theorems": [
    "Neml.Polycrystal.C66_quiet",
    "Neml.Polycrystal.C66_reorient",
    "Neml.Polycrystal.C66_fractions",
    "Neml.Polycrystal.C66_flag",
    "Neml.Polycrystal.C66_switched_off",
    "Neml.Polycrystal.C66_again"
   ],
   "note": "For twin groups with positive characteristic shear."
  },
  {
   "property": "C67",
   "status": "proved",
   "theorems": [
    "Neml.CrystalDamage.C67_meaning",
    "Neml.CrystalDamage.C67_tractions",
    "Neml.CrystalDamage.C67_projections",
    "Neml.CrystalDamage.C67_full",
    "Neml.CrystalDamage.C67_zero",
    "Neml.CrystalDamage.C67_transforms",
    "Neml.CrystalDamage.C67_critical"
   ],
   "note": "Compact forms as written entry by entry; unit normals; a critical value that is not positive is a disagreement (C67_critical)"
  },
  {
   "property": "C68",
   "status": "proved",
   "theorems": [
    "Neml.Symmetry.C68_group",
    "Neml.Symmetry.C68_classes"
   ],
   "note": "Every class: exact check of the tables over numbers (p+q sqrt d)/2, carried over to the reals; unknown names are refused."
  },
  {
   "property": "C69",
   "status": "partial",
   "theorems": [
    "Neml.BarNetwork.C69_leftover",
    "Neml.BarNetwork.C69_step",
    "Neml.BarNetwork.C69_forces",
    "Neml.BarNetwork.C69_virtual_work",
    "Neml.BarNetwork.C69_balance",
    "Neml.BarNetwork.C69_equilibrium",
    "Neml.BarNetwork.C69_equilibrium_exact",
    "Neml.BarNetwork.C69_reactions",
    "Neml.BarNetwork.C69_prescribed",
    "Neml.BarNetwork.C69_energy",
    "Neml.BarNetwork.C69_dissipation_disagreement",
    "Neml.BarNetwork.C69_dissipation_partial",
    "Neml.BarNetwork.C69_compatible",
    "Neml.BarNetwork.C69_exclusive",
    "Neml.BarNetwork.C69_bc_last",
    "Neml.BarNetwork.C69_aligned",
    "Neml.BarNetwork.C69_compatible_always",
    "Neml.BarNetwork.C69_thermal",
    "Neml.BarNetwork.C69_material",
    "Neml.BarNetwork.C69_prefix",
    "Neml.BarNetwork.C69_begins",
    "Neml.BarNetwork.C69_guess"
   ],
   "note": "Forces, balance, equilibrium, virtual work, reactions, energy, compatibility, alignment and material histories hold for every network and every history of calls. The recorded dissipation is the energy (arbbar.py:147): proved as a disagreement."
  },
  {
   "property": "C70",
   "status": "partial",
   "theorems": [
    "Neml.Uniaxial.C70_update",
    "Neml.Uniaxial.C70_exact",
    "Neml.Uniaxial.C70_condensed",
    "Neml.Uniaxial.C70_tangent",
    "Neml.Uniaxial.C70_path",
    "Neml.Uniaxial.C70_positive",
    "Neml.Uniaxial.C70_young",
    "Neml.Uniaxial.C70_history",
    "Neml.Uniaxial.C70_elastic_partial",
    "Neml.Uniaxial.C70_elastic_disagreement",
    "Neml.Uniaxial.C70_initial"
   ],
   "note": "Uniaxial stress, condensed tangent and histories hold for every material. elastic_strains hands the material a store shifted by the five lateral strains: disagreement for materials that read it."
  },
  {
   "property": "C71",
   "status": "partial",
   "theorems": [
    "Neml.Driver.C71_record",
    "Neml.Driver.C71_aligned",
    "Neml.Driver.C71_strain",
    "Neml.Driver.C71_thermal",
    "Neml.Driver.C71_no_thermal",
    "Neml.Driver.C71_stress",
    "Neml.Driver.C71_stress_exact",
    "Neml.Driver.C71_erate",
    "Neml.Driver.C71_erate_scale",
    "Neml.Driver.C71_einc",
    "Neml.Driver.C71_srate_partial",
    "Neml.Driver.C71_srate_disagreement",
    "Neml.Driver.C71_hold",
    "Neml.Driver.C71_stress_jacobian",
    "Neml.Driver.C71_erate_jacobian",
    "Neml.Driver.C71_hold_jacobian_partial",
    "Neml.Driver.C71_hold_disagreement",
    "Neml.Driver.C71_hold_fails",
    "Neml.Driver.C71_hold_first",
    "Neml.Driver.C71_elastic_stress",
    "Neml.Driver.C71_elastic_erate",
    "Neml.Driver.C71_elastic_einc"
   ],
   "note": "Alignment, times, strain split and the Jacobians of stress and rate control hold for every sequence of steps. The Jacobian of a strain hold is wrong for every component but the first (drivers.py:348), with the effect that such a hold fails on an elastic bar; the time of a stress-rate step scales with the length of the direction vector (drivers.py:314)."
  },
  {
   "property": "C72",
   "status": "proved",
   "theorems": [
    "Neml.Interp.C72_time_then_stress",
    "Neml.Interp.C72_stress_then_time",
    "Neml.Interp.C72_jacobian",
    "Neml.Interp.C72_time_derivative"
   ],
   "note": "the solver is modelled by its residual being zero"
  },
  {
   "property": "C73",
   "status": "proved",
   "theorems": [
    "Neml.Interp.C73_semilog",
    "Neml.Interp.C73_knots",
    "Neml.Interp.C73_monotone",
    "Neml.Interp.C73_zero_point_valid"
   ],
   "note": ""
  },
  {
   "property": "C74",
   "status": "proved",
   "theorems": [
    "Neml.SmallStrain.C74_general_integrator",
    "Neml.SmallStrain.C74_perfect_plasticity",
    "Neml.SmallStrain.C74_rate_independent"
   ],
   "note": "Coordinate derivatives of the residual, for flow rules whose own derivatives are correct."
  },
  {
   "property": "C75",
   "status": "proved",
   "theorems": [
    "Neml.SmallStrain.C75_step",
    "Neml.SmallStrain.C75_path",
    "Neml.SmallStrain.C75_jacobian",
    "Neml.SmallStrain.C75_tangent"
   ],
   "note": "The nonlinear solve is assumed exact and the stress of the plastic model independent of the energies handed in. The tangent theorem assumes the stored strain is differentiable along the path."
  },
  {
   "property": "C76",
   "status": "partial",
   "theorems": [
    "Neml.LargeDef.C76_truesdell_tangent_partial",
    "Neml.LargeDef.C76_jaumann_spin_tangent_partial",
    "Neml.LargeDef.C76_jaumann_strain_tangent_excess",
    "Neml.LargeDef.C76_jaumann_strain_tangent_wrong"
   ],
   "note": "Proved for the Truesdell rate and for the spin tangent of the Jaumann rate. The strain tangent of the Jaumann rate is wrong, shown with a concrete case and the exact excess term."
  },
  {
   "property": "C77",
   "status": "proved",
   "theorems": [
    "Neml.Mandel.C77_idsym",
    "Neml.Mandel.C77_idskew",
    "Neml.Mandel.C77_transform_fourth",
    "Neml.Mandel.C77_symSymSkew",
    "Neml.Mandel.C77_symSkewSym",
    "Neml.Mandel.C77_specialSymSym"
   ],
   "note": "All nine components by exact algebra."
  },
  {
   "property": "C78",
   "status": "proved",
   "theorems": [
    "Neml.Damage.C78_jacobian",
    "Neml.Damage.C78_tangent"
   ],
   "note": "Exact solver and inverse; the solved damage is assumed differentiable along the path."
  },
  {
   "property": "C79",
   "status": "partial",
   "theorems": [
    "Neml.Damage.C79_rate",
    "Neml.Damage.C79_combined",
    "Neml.Damage.C79_standard",
    "Neml.Damage.C79_work_partial",
    "Neml.Damage.C79_work_disagrees",
    "Neml.Damage.C79_vonMises",
    "Neml.Damage.C79_mean",
    "Neml.Damage.C79_huddleston",
    "Neml.Damage.C79_sum",
    "Neml.Damage.C79_modular",
    "Neml.Damage.C79_classical",
    "Neml.Damage.C79_larsonMiller",
    "Neml.Damage.C79_powerLaw",
    "Neml.Damage.C79_expWork",
    "Neml.Damage.C79_max",
    "Neml.Damage.C168_derivative"
   ],
   "note": "Proved away from the points where the code switches formula. Work damage: only for positive plastic work; where the work rate vanishes its damage derivative is wrong (C79_work_disagrees). The maximum of several measures is right where one member is largest (C79_max), the maximum principal stress where it is single and not zero (C168_derivative)."
  },
  {
   "property": "C80",
   "status": "proved",
   "theorems": [
    "Neml.Elastic.C80_cubic"
   ],
   "note": "Rotations generated by the quarter turns about two axes."
  },
  {
   "property": "C81",
   "status": "proved",
   "theorems": [
    "Neml.Flow.C81_associative",
    "Neml.Flow.C81_nonAssociative",
    "Neml.Flow.C81_gPowerLaw",
    "Neml.Flow.C81_perzyna",
    "Neml.Flow.C81_linearViscous",
    "Neml.Flow.C81_fluidity",
    "Neml.Flow.C81_chabocheFlow",
    "Neml.Flow.C81_superimposed",
    "Neml.Flow.C81_tvp",
    "Neml.Flow.C81_integrator_jacobian",
    "Neml.Flow.C81_tvp_rates"
   ],
   "note": "Perzyna, linear viscous, Chaboche, superimposed, associative, non-associative, general (TVP) rule; Yaguchi rule not modelled."
  },
  {
   "property": "C82",
   "status": "proved",
   "theorems": [
    "Neml.Flow.C82_maximum_dissipation"
   ],
   "note": ""
  },
  {
   "property": "C83",
   "status": "partial",
   "theorems": [
    "Neml.Flow.C83_pressure_dependent",
    "Neml.Flow.C83_small_exponent"
   ],
   "note": "Exponents at least one with positive pressure argument; C83_small_exponent shows the reported second derivative has the wrong sign below one."
  },
  {
   "property": "C84",
   "status": "partial",
   "theorems": [
    "Neml.Flow.C84_temperature_rates_partial",
    "Neml.Flow.C84_noniso_ignored"
   ],
   "note": "The switch is stored but never consulted (C84_noniso_ignored); the on case is proved."
  },
  {
   "property": "C85",
   "status": "proved",
   "theorems": [
    "Neml.Flow.C85_chaboche_material",
    "Neml.Flow.C85_perzyna_material",
    "Neml.Flow.C85_rate_independent_material"
   ],
   "note": ""
  },
  {
   "property": "C86",
   "status": "proved",
   "theorems": [
    "Neml.Creep.C86_incompressible",
    "Neml.Creep.C86_power",
    "Neml.Creep.C86_equivalent_rate",
    "Neml.Creep.C86_uniaxial",
    "Neml.Creep.C86_derivatives",
    "Neml.Creep.C86_derivatives_strain_free"
   ],
   "note": "For any scalar law; derivatives where the equivalent stress is off the cutoff."
  },
  {
   "property": "C87",
   "status": "proved",
   "theorems": [
    "Neml.Flow.C87_surface",
    "Neml.Flow.C87_pressure_surface",
    "Neml.Flow.C87_creep",
    "Neml.Flow.C87_hardening",
    "Neml.Flow.C87_flow",
    "Neml.Flow.C87_material",
    "Neml.Flow.C87_histories"
   ],
   "note": "Surfaces, Chaboche hardening, flow rule, complete material with isotropic elasticity, creep; whole implicit histories by induction."
  },
  {
   "property": "C88",
   "status": "proved",
   "theorems": [
    "Neml.Xml.C88_text",
    "Neml.Xml.C88_enough_rounds"
   ],
   "note": "Elements contain either one text or only elements, which is what the serializer writes. Comments, CDATA, processing instructions and numeric character references are outside the model and are refused by its reader."
  },
  {
   "property": "C89",
   "status": "proved",
   "theorems": [
    "Neml.Rotation.C89_pow",
    "Neml.Rotation.C89_exp_log",
    "Neml.Rotation.C89_length_lost",
    "Neml.Rotation.C89_undefined"
   ],
   "note": "Zeroth powers and powers of the identity are not numbers (C89_undefined); the exponential drops the length (C89_length_lost)."
  },
  {
   "property": "C90",
   "status": "proved",
   "theorems": [
    "Neml.Rotation.C90_hopf",
    "Neml.Rotation.C90_unit",
    "Neml.Rotation.C90_hyperspherical",
    "Neml.Rotation.C90_hyperspherical_undefined"
   ],
   "note": ""
  },
  {
   "property": "C91",
   "status": "proved",
   "theorems": [
    "Neml.Rotation.C91_conventions",
    "Neml.Rotation.C91_refused",
    "Neml.Rotation.C91_bunge_pi"
   ],
   "note": "Bunge angles with second angle pi are read as zero (C91_bunge_pi)."
  },
  {
   "property": "C92",
   "status": "proved",
   "theorems": [
    "Neml.Rotation.C92_log_exp",
    "Neml.Rotation.C92_exp_log",
    "Neml.Rotation.C92_identity_undefined"
   ],
   "note": "The identity has no logarithm (C92_identity_undefined)."
  },
  {
   "property": "C93",
   "status": "proved",
   "theorems": [
    "Neml.Rotation.C93_rotate_to",
    "Neml.Rotation.C93_family",
    "Neml.Rotation.C93_parallel_undefined",
    "Neml.Rotation.C93_family_unscaled"
   ],
   "note": "Parallel directions give not-a-number (C93_parallel_undefined); the family needs a second direction of length one (C93_family_unscaled)."
  },
  {
   "property": "C94",
   "status": "proved",
   "theorems": [
    "Neml.Rotation.C94_metric",
    "Neml.Rotation.distance_triangle"
   ],
   "note": ""
  },
  {
   "property": "C95",
   "status": "partial",
   "theorems": [
    "Neml.Symmetry.C95_misorientation_partial",
    "Neml.Symmetry.C95_invariant_partial",
    "Neml.Symmetry.C95_zero_partial",
    "Neml.Symmetry.C95_block_partial",
    "Neml.Symmetry.C95_cyclic",
    "Neml.Symmetry.C95_no_symmetry"
   ],
   "note": "Proved for the classes whose operator products hold both signs (432, 23, 622, 32, 42, 222). For the cyclic classes the search is shown to miss equivalents, and class 1 returns the default half turn."
  },
  {
   "property": "C96",
   "status": "proved",
   "theorems": [
    "Neml.Lattice.C96_reduce",
    "Neml.Lattice.C96_multiple",
    "Neml.Lattice.C96_equivalent",
    "Neml.Lattice.C96_bidirectional"
   ],
   "note": "Reduction proved from Euclid's algorithm as written; families for arbitrary operator lists."
  },
  {
   "property": "C97",
   "status": "proved",
   "theorems": [
    "Neml.Lattice.C97_planes",
    "Neml.Lattice.C97_plane_systems"
   ],
   "note": "Invariant over every sequence of additions and questions; parallel means the code's comparison tolerance."
  },
  {
   "property": "C98",
   "status": "proved",
   "theorems": [
    "Neml.Lattice.C98_twin_shear",
    "Neml.Lattice.C98_group_shear"
   ],
   "note": "The shear is exact for exact twin geometry; the direction agrees with the listed one to the tolerance of the acceptance test."
  },
  {
   "property": "C99",
   "status": "partial",
   "theorems": [
    "Neml.Slip.C99_power",
    "Neml.Slip.C99_kinematic",
    "Neml.Slip.C99_slip",
    "Neml.Slip.C99_strengths",
    "Neml.Slip.C99_lanl_strength",
    "Neml.Slip.C99_fixed",
    "Neml.Slip.C99_general",
    "Neml.Slip.C99_simple",
    "Neml.Slip.C99_plastic",
    "Neml.Slip.C99_sum",
    "Neml.Slip.C99_voce_per_partial",
    "Neml.Slip.C99_fa_partial",
    "Neml.Slip.C99_lanl_partial",
    "Neml.Slip.C99_rates",
    "Neml.Slip.C99_power_voce",
    "Neml.Slip.C99_voce_per_missing",
    "Neml.Slip.C99_fa_missing",
    "Neml.Slip.C99_lanl_unsigned"
   ],
   "note": "Right for power law and kinematic slip and every hardening model; Voce per system, the saturating and the dislocation density models only when they are the only strength, and proved wrong otherwise."
  }
 ]
}