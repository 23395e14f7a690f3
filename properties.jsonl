{"id": "C01", "title": "History variables tile the storage vector", "statement": "After any sequence of variable additions to a History, every variable owns its own contiguous block of the flat storage vector, blocks of different variables never overlap, the blocks follow one another in the order the variables were added, and together they fill exactly size() entries.", "quantifier": "every finite sequence of add calls with arbitrary names, types and sizes", "why_tests_cant": "the layout depends on the whole sequence of additions; tests fix a handful of sequences", "anchors": ["include/history.h: History::add", "src/history.cxx: History::add, History::size, History::resize_"]}
{"id": "C02", "title": "A variable reads back the last value written to it", "statement": "For a History that owns its storage, get(name) after any sequence of writes to its variables returns the value of the most recent write to that name; a write to one variable never changes the value of another.", "quantifier": "every history layout and every finite sequence of writes", "why_tests_cant": "aliasing between variables can depend on any pair of names, sizes and orders", "anchors": ["include/history.h: History::get", "src/history.cxx: History::get_data"]}
{"id": "C03", "title": "Bad history accesses are refused and change nothing", "statement": "Adding a name that is already present, reading a name that is absent, or reading a variable as the wrong type raises an error and leaves the history unchanged; every other such access succeeds.", "quantifier": "every history state, name and requested type", "why_tests_cant": "absence of silent corruption must hold for all names and states", "anchors": ["src/history.cxx: History::add, error_if_exists_, error_if_not_exists_, error_if_wrong_type_"]}
{"id": "C04", "title": "Reordering a history keeps each variable's value", "statement": "reorder(names) permutes the storage to the given order and afterwards reading any variable by name gives the value it had before.", "quantifier": "every history and every permutation of its variables", "why_tests_cant": "any of the factorially many permutations may be requested, and only reads after the reorder show the fault", "anchors": ["src/history.cxx: History::reorder, copy_maps_"]}
{"id": "C05", "title": "Assigning one history to another makes them agree", "statement": "After a = b every variable of b reads the same through a as through b, whatever a held before, and a has no other variables.", "quantifier": "every pair of histories a and b", "why_tests_cant": "depends on the names both sides shared beforehand", "anchors": ["src/history.cxx: History::operator=, copy_maps_"]}
{"id": "C06", "title": "Subset, split and union preserve values by name", "statement": "subset(names) returns exactly the named variables with their values in the requested order; split(names) followed by the rest keeps every value; add_union of histories with disjoint names keeps the values of both.", "quantifier": "every history, every list of names, every pair of disjoint histories", "why_tests_cant": "the bookkeeping of offsets has to be right for every layout", "anchors": ["src/history.cxx: History::subset, split, add_union"]}
{"id": "C07", "title": "Copies are independent, views alias", "statement": "Writing to a deep copy never changes the original and vice versa, while a history placed over user storage with set_data writes through to that storage and touches only its own size() entries.", "quantifier": "every history, every offset into user storage, every sequence of writes to either object", "why_tests_cant": "aliasing bugs appear only under particular interleavings of writes", "anchors": ["src/history.cxx: History::deepcopy, History(const History &), set_data, make_store"]}
{"id": "C08", "title": "Derivative histories are the row-major Jacobian", "statement": "The history produced by history_derivative holds one entry per ordered pair of variables, in row-major order of the blocks; unrolling it gives the Jacobian matrix, and postmultiplying by a matrix multiplies each 6-wide row block by that matrix.", "quantifier": "every pair of histories of scalar and symmetric variables", "why_tests_cant": "index arithmetic must be right for every number and mix of variables", "anchors": ["src/history.cxx: History::history_derivative, postmultiply, unravel_hh"]}
{"id": "C09", "title": "Objects are built exactly when their parameters are complete", "statement": "Creating an object from a ParameterSet succeeds exactly when its type is registered and every declared parameter has a value; otherwise the error names the problem. A parameter reads back the last value assigned to it, defaults apply only until assigned, and unknown names are refused.", "quantifier": "every set of declarations and every sequence of assignments", "why_tests_cant": "it quantifies over all subsets of assigned parameters", "anchors": ["src/objects.cxx: ParameterSet, Factory::create, Factory::provide_parameters", "include/objects.h: ParameterSet::assign_parameter, get_parameter"]}
{"id": "C10", "title": "Saving a model to XML and reading it back gives the same parameters", "statement": "For every parameter tree, parsing the XML written by the model serializer gives back the same tree of names, types and values, up to the printing precision of real numbers.", "quantifier": "every finite tree of objects, vectors of objects, strings, booleans, integers, reals, vectors, slip and twin lists", "why_tests_cant": "trees are unbounded in depth and width", "anchors": ["src/deparse.cxx", "src/parse.cxx"]}
{"id": "C11", "title": "Integer and list text fields survive printing and parsing", "statement": "The text written for a list of integers (and for slip-system lists) parses back to the same list, for every list including the empty one.", "quantifier": "every list of integers, every list of slip systems", "why_tests_cant": "the tokenizer has to be right for all lengths and values", "anchors": ["src/deparse.cxx: make_slip_node, make_vector_size_type", "src/parse.cxx: get_slip, split_string, strip"]}
{"id": "C12", "title": "Piecewise linear interpolation clamps, hits its knots and stays between neighbours", "statement": "A piecewise linear interpolate returns the first/last value outside the knot range, the tabulated value at every knot, and inside an interval a value between the two neighbouring tabulated values; it is continuous at the knots.", "quantifier": "every sorted knot list, every value list, every real argument", "why_tests_cant": "tests sample finitely many abscissae and tables", "anchors": ["src/interpolate.cxx: PiecewiseLinearInterpolate"]}
{"id": "C13", "title": "Monotone tables give monotone interpolation", "statement": "If the tabulated values are non-decreasing then the interpolated function is non-decreasing.", "quantifier": "every sorted table with non-decreasing values and every pair of arguments", "why_tests_cant": "pairs of arguments across any number of intervals", "anchors": ["src/interpolate.cxx: PiecewiseLinearInterpolate::value"]}
{"id": "C14", "title": "Interpolate derivatives are the derivatives of the values", "statement": "For polynomial, piecewise linear (off the knots), exponential, power law and MTS interpolates, derivative(x) is the derivative of value at x wherever the latter exists.", "quantifier": "every coefficient list and every real argument", "why_tests_cant": "finite differences at sample points cannot establish a derivative identity", "anchors": ["src/interpolate.cxx"]}
{"id": "C15", "title": "Log-linear interpolation is geometric interpolation", "statement": "A piecewise log-linear interpolate of positive data is positive, hits the tabulated values at the knots and is piecewise linear in the logarithm; it is monotone when the data are.", "quantifier": "every positive table and every real argument", "why_tests_cant": "infinite domain", "anchors": ["src/interpolate.cxx: PiecewiseLogLinearInterpolate"]}
{"id": "C16", "title": "Generic piecewise interpolation never reads past its function list", "statement": "A generic piecewise interpolate that reports itself valid evaluates one of its own functions for every argument.", "quantifier": "every valid table and every real argument", "why_tests_cant": "an out of range read shows only for arguments beyond the last point", "anchors": ["src/interpolate.cxx: GenericPiecewiseInterpolate"]}
{"id": "C17", "title": "The Newton solver returns only converged answers", "statement": "When the nonlinear solver returns without error the residual at the returned point meets the absolute or the relative tolerance; otherwise it raises an error.", "quantifier": "every residual/Jacobian function, start point, tolerance and positive iteration limit", "why_tests_cant": "the residual function is arbitrary", "anchors": ["src/solvers.cxx: newton, solve"]}
{"id": "C18", "title": "The Newton solver stops", "statement": "The solver evaluates the residual a bounded number of times that depends only on its iteration limits, whatever the residual function does.", "quantifier": "every residual function and iteration limits", "why_tests_cant": "termination for all inputs", "anchors": ["src/solvers.cxx: newton"]}
{"id": "C19", "title": "Adaptive substepping covers the step exactly", "statement": "A successful substepped small-strain update is a chain of accepted substeps: the first starts at the beginning-of-step state, each next one starts where the last ended in strain, temperature, time, stress and history, and the last one ends exactly at the requested strain, temperature and time.", "quantifier": "every base model, every pattern of success and failure of its increments, every maximum division count", "why_tests_cant": "the pattern of failures is arbitrary", "anchors": ["src/models.cxx: SubstepModel_sd::update_sd_actual"]}
{"id": "C20", "title": "Adaptive substepping stops and fails only at the finest level", "statement": "The substepping loop terminates for every failure pattern with at most 2^max_divide accepted increments, raises an error only after a failed increment of the finest allowed size, and a step that never fails is taken in one increment.", "quantifier": "every failure pattern and max_divide", "why_tests_cant": "unbounded executions", "anchors": ["src/models.cxx: SubstepModel_sd::update_sd_actual"]}
{"id": "C21", "title": "The substepped tangent is the chain-rule tangent", "statement": "The tangent accumulated over substeps equals the derivative of the end-of-step stress with respect to the end-of-step strain obtained by chaining the per-substep sensitivities.", "quantifier": "every number of substeps and all per-substep sensitivities", "why_tests_cant": "matrix products over arbitrary chains", "anchors": ["src/models.cxx: SubstepModel_sd::update_sd_actual"]}
{"id": "C22", "title": "A failed update raises an error instead of returning a stress", "statement": "If the substep integration cannot reach the requested state, the update raises an error; it never returns normally with a partially integrated state.", "quantifier": "every failure pattern", "why_tests_cant": "failure patterns are arbitrary", "anchors": ["src/models.cxx: SubstepModel_sd"]}
{"id": "C23", "title": "Elastic work is recoverable", "statement": "For the linear elastic model at constant temperature the accumulated strain energy after any strain path equals half the stress-strain product of the last state, so closed paths return exactly zero net energy and dissipation stays unchanged.", "quantifier": "every symmetric stiffness and every finite strain path", "why_tests_cant": "path independence over all paths", "anchors": ["src/models.cxx: SmallStrainElasticity::update_sd"]}
{"id": "C24", "title": "Elastic steps of plasticity models give the elastic stress", "statement": "When the trial state of the rate-independent model is inside the yield surface the returned stress is the trial stress and the history is unchanged.", "quantifier": "every state, strain increment and temperature pair", "why_tests_cant": "includes all non-isothermal steps", "anchors": ["src/models.cxx: SmallStrainRateIndependentPlasticity"]}
{"id": "C25", "title": "A converged perfectly plastic step is on the yield surface", "statement": "When the perfect plasticity integration takes a plastic step and its equations are solved exactly, the stress is on the yield surface, the stress defect is along the flow direction, and total strain increments split into elastic and plastic parts.", "quantifier": "every yield surface, state and strain increment", "why_tests_cant": "the surface is arbitrary", "anchors": ["src/models.cxx: SmallStrainPerfectPlasticity"]}
{"id": "C26", "title": "The regime model uses exactly one member model", "statement": "The Kocks-Mecking regime model delegates every update to the first model whose activation bound exceeds the current activation energy and to the last one if none does; all member models share the same state so switching regimes keeps it.", "quantifier": "every list of bounds, every temperature and strain rate", "why_tests_cant": "all positions of the activation energy relative to all bounds", "anchors": ["src/models.cxx: KMRegimeModel"]}
{"id": "C27", "title": "The creep-plasticity tangent is the series tangent", "statement": "With plastic tangent A and creep compliance B the tangent returned by the creep-plasticity model is the inverse of A^-1 + B, i.e. strains of the two models add at equal stress.", "quantifier": "every invertible A and every B for which the sum is invertible", "why_tests_cant": "matrix identity for all matrices", "anchors": ["src/models.cxx: SmallStrainCreepPlasticity::form_tangent_"]}
{"id": "C28", "title": "State layout reported by a model matches the layout its update uses", "statement": "The list of stored variables a model reports (names, order, size, initial values) is the list that its update reads and writes.", "quantifier": "every composition of member models", "why_tests_cant": "composition of models is arbitrary", "anchors": ["src/models.cxx: SmallStrainCreepPlasticity, KMRegimeModel, NEMLModel_sd"]}
{"id": "C29", "title": "Block evaluation equals point-by-point evaluation", "statement": "Evaluating a block of n points gives at each point what evaluating that point alone would give, and an error at any point is visible to the caller.", "quantifier": "every number of points and every pattern of failing points", "why_tests_cant": "failure patterns and block sizes are unbounded", "anchors": ["src/block.cxx: block_evaluate"]}
{"id": "C30", "title": "Without spin the large deformation update is the small strain update", "statement": "If the vorticity is zero and stress rates use the Jaumann form, the incremental large deformation update returns the small strain stress, and in general the returned stress solves the discretized objective-rate equation.", "quantifier": "every small strain model, state and deformation rate", "why_tests_cant": "all base models", "anchors": ["src/models.cxx: NEMLModel_sd::update_ld_inc", "src/math/nemlmath.cxx: truesdell_update_sym"]}
{"id": "C31", "title": "Damaged stress is the undamaged stress scaled by 1 - w", "statement": "At a converged damage step the returned stress is (1-w) times the base model stress, with the strain energy and work bookkeeping split consistently.", "quantifier": "every base model, damage value and strain", "why_tests_cant": "arbitrary base models", "anchors": ["src/damage.cxx: NEMLScalarDamagedModel_sd"]}
{"id": "C32", "title": "A killed point stays killed", "statement": "With element killing on, once the damage of a point reaches the threshold every later update reports damage 1 and the reduced elastic stress, and the point is reported as deletable.", "quantifier": "every later sequence of updates", "why_tests_cant": "histories of arbitrary length", "anchors": ["src/damage.cxx: NEMLScalarDamagedModel_sd::ekill_update_, should_del_element"]}
{"id": "C33", "title": "Damage accumulates additively and never heals", "statement": "Combined damage adds the increments of its members; with non-negative rates the damage reported after each step is at least the previous one.", "quantifier": "every number of member models, every state", "why_tests_cant": "member lists and histories are unbounded", "anchors": ["src/damage.cxx: CombinedDamageModel_sd, ScalarDamageRate"]}
{"id": "C34", "title": "Effective stress measures are consistent", "statement": "The von Mises effective stress is non-negative, unchanged by added pressure and positively homogeneous; the maximum-of-several measure returns the largest member, and the weighted sum returns the weighted sum.", "quantifier": "every stress and every list of members", "why_tests_cant": "all stresses", "anchors": ["src/damage.cxx: VonMisesEffectiveStress, MeanEffectiveStress, MaxSeveralEffectiveStress, SumSeveralEffectiveStress"]}
{"id": "C35", "title": "Any two moduli define the same isotropic solid", "statement": "Given the values of a pair of moduli computed from shear modulus G and bulk modulus K, the elastic model recovers exactly G and K, for every supported pair in either order; equal or unknown names are refused.", "quantifier": "every G,K>0 and every pair of names", "why_tests_cant": "all modulus values", "anchors": ["src/elasticity.cxx: IsotropicLinearElasticModel::get_GK_"]}
{"id": "C36", "title": "Compliance inverts stiffness and stored energy is positive", "statement": "For isotropic (G,K>0) and cubic (stable constants) elasticity, S(C e) = e for all strains and e.C e > 0 for non-zero e.", "quantifier": "every stable set of moduli and every strain", "why_tests_cant": "all strains and moduli", "anchors": ["src/elasticity.cxx"]}
{"id": "C37", "title": "Elastic symmetry is respected", "statement": "The isotropic stiffness commutes with every rotation; the transversely isotropic stiffness commutes with every rotation about its axis.", "quantifier": "every rotation and strain", "why_tests_cant": "all rotations", "anchors": ["src/elasticity.cxx: IsotropicLinearElasticModel, TransverseIsotropicLinearElasticModel"]}
{"id": "C38", "title": "J2 yield surfaces are pressure-insensitive with unit deviatoric normals", "statement": "The isotropic/kinematic J2 surface is unchanged by added pressure, its stress gradient is the true gradient wherever the effective deviator is non-zero, and that gradient is trace-free and of unit length; the surface is convex in stress.", "quantifier": "every stress, isotropic hardening value and trace-free backstress (C46: the only ones the supplied hardening rules reach)", "why_tests_cant": "all stresses", "anchors": ["src/surfaces.cxx: IsoKinJ2"]}
{"id": "C39", "title": "Viscoplastic flow happens only outside the surface and dissipates", "statement": "The Perzyna rule flows exactly when the overstress is positive, in the direction of the surface normal, at a non-negative rate; J2 plastic work is non-negative without backstress.", "quantifier": "every stress and history", "why_tests_cant": "all stresses", "anchors": ["src/visco_flow.cxx: PerzynaFlowRule", "src/surfaces.cxx"]}
{"id": "C40", "title": "Superimposed flow rules add their strain rates", "statement": "The inelastic strain rate of superimposed rules is the sum of the members' rates, and each member's history evolves as it would on its own at the same stress.", "quantifier": "every number of members and every state", "why_tests_cant": "arbitrary members", "anchors": ["src/visco_flow.cxx: SuperimposedViscoPlasticFlowRule", "src/general_flow.cxx: TVPFlowRule"]}
{"id": "C41", "title": "Regional creep uses the region containing the stress", "statement": "The regional Kocks-Mecking creep rule uses the constants of the region that contains the normalized stress.", "quantifier": "every sorted list of cuts and every stress", "why_tests_cant": "all positions relative to all cuts", "anchors": ["src/creep.cxx: RegionKMCreep::select_region_"]}
{"id": "C42", "title": "Scalar creep derivatives are the derivatives of the rates", "statement": "For each scalar creep rule the reported stress and strain derivatives are the derivatives of the reported creep rate.", "quantifier": "every stress, strain, time and temperature in the domain", "why_tests_cant": "derivative identities", "anchors": ["src/creep.cxx"]}
{"id": "C43", "title": "The creep update is backward Euler with its exact tangent", "statement": "A converged creep update satisfies e = e_n + rate*dt and its reported stress sensitivity solves the linearized equation.", "quantifier": "every creep rule and step", "why_tests_cant": "arbitrary rules", "anchors": ["src/creep.cxx: CreepModel::update"]}
{"id": "C44", "title": "Hardening derivatives are the derivatives of the hardening rates", "statement": "For each hardening rule the reported derivatives are those of the reported values.", "quantifier": "every stress, history value and temperature in the domain", "why_tests_cant": "derivative identities", "anchors": ["src/hardening.cxx"]}
{"id": "C45", "title": "Isotropic hardening starts at the initial yield stress, grows and saturates", "statement": "Linear and Voce isotropic hardening return minus the initial yield stress at zero plastic strain, the yield stress is non-decreasing for non-negative moduli, and Voce stays within its saturation value; combined rules add.", "quantifier": "every parameter set and strain", "why_tests_cant": "all strains", "anchors": ["src/hardening.cxx: LinearIsotropicHardeningRule, VoceIsotropicHardeningRule, CombinedIsotropicHardeningRule"]}
{"id": "C46", "title": "Backstresses stay deviatoric", "statement": "Chaboche backstress rates are trace-free whenever the backstresses are, so a backstress that starts at zero never acquires pressure; the total backstress is the sum of the components.", "quantifier": "every number of backstresses and every history", "why_tests_cant": "histories of any length", "anchors": ["src/hardening.cxx: Chaboche"]}
{"id": "C47", "title": "Mandel conversion is an isometric bijection", "statement": "Converting a symmetric tensor to Mandel form and back is the identity in both directions, inner products are preserved, and contraction of a fourth-order tensor in Mandel form equals the index contraction.", "quantifier": "all tensors", "why_tests_cant": "all real components", "anchors": ["src/math/nemlmath.cxx: sym, usym, full2mandel, mandel2full", "src/math/tensors.cxx"]}
{"id": "C48", "title": "Skew conversion is a bijection with the axial vector", "statement": "Skew tensors and 3-vectors convert back and forth without loss, and the product of a symmetric and a skew tensor has zero contraction.", "quantifier": "all tensors", "why_tests_cant": "all real components", "anchors": ["src/math/nemlmath.cxx: skew, uskew", "src/math/tensors.cxx: Skew"]}
{"id": "C49", "title": "Integer index reduction divides by the greatest common divisor", "statement": "Reducing an integer direction divides every entry by a common divisor, leaves a primitive vector and keeps the direction; for all-zero input the behaviour is an error.", "quantifier": "every integer vector", "why_tests_cant": "all integers and lengths", "anchors": ["src/math/nemlmath.cxx: gcd, common_gcd, reduce_gcd"]}
{"id": "C50", "title": "Polynomial helpers agree with polynomial algebra", "statement": "polyval evaluates the polynomial with the given coefficients (highest power first), poly_from_roots is the monic polynomial vanishing exactly at the roots, and differentiate_poly gives the coefficients of the derivative.", "quantifier": "every coefficient list, root list and argument", "why_tests_cant": "lists are unbounded", "anchors": ["src/math/nemlmath.cxx: polyval, poly_from_roots, differentiate_poly"]}
{"id": "C51", "title": "Quaternions represent rotations faithfully", "statement": "Products of unit quaternions are unit, to_matrix is orthogonal with determinant one and multiplicative, the inverse corresponds to the transpose, and applying a quaternion to a vector equals applying its matrix.", "quantifier": "all unit quaternions and vectors", "why_tests_cant": "all reals", "anchors": ["src/math/rotations.cxx: Quaternion, Orientation"]}
{"id": "C52", "title": "Orientation parametrizations round-trip", "statement": "Creating an orientation from Rodrigues vector, axis-angle or matrix gives a unit quaternion and converting back gives an equivalent parameter; matrix to quaternion to matrix is the identity on rotations.", "quantifier": "all rotations", "why_tests_cant": "four branches over a continuum", "anchors": ["src/math/rotations.cxx: setRodrigues_, setAxisAngle_, setMatrix_, to_*"]}
{"id": "C53", "title": "Zero spin leaves orientations unchanged", "statement": "The exponential update of an orientation with zero spin is the identity.", "quantifier": "every orientation", "why_tests_cant": "it is a statement about every orientation at the branch point", "anchors": ["src/math/rotations.cxx: wexp", "src/cp/singlecrystal.cxx: update_rot_"]}
{"id": "C54", "title": "Euler angle round trip includes the gimbal-lock cases", "statement": "Reading Euler angles off an orientation and building an orientation from them gives the same rotation, including when the second angle is 0 or pi.", "quantifier": "all rotations", "why_tests_cant": "measure-zero branch missed by random testing", "anchors": ["src/math/rotations.cxx: to_euler, to_kocks_, createEulerAngles"]}
{"id": "C55", "title": "Rotating tensors commutes with tensor algebra", "statement": "Rotating symmetric, skew and general tensors preserves inner products and traces and agrees between the compact and full forms; rotating twice equals rotating by the product.", "quantifier": "all rotations and tensors", "why_tests_cant": "all reals", "anchors": ["src/math/rotations.cxx: Orientation::apply"]}
{"id": "C56", "title": "Substepping a crystal update integrates the whole step", "statement": "The stress returned by a subdivided crystal update is the result of integrating over the whole time step: with a linear elastic crystal it is the same however many subdivisions were used.", "quantifier": "every subdivision pattern", "why_tests_cant": "subdivision patterns are arbitrary", "anchors": ["src/cp/singlecrystal.cxx: attempt_update_ld_inc_"]}
{"id": "C57", "title": "Crystal updates carry over the static variables", "statement": "The reference orientation and the Nye tensor stored with a crystal are unchanged by an update.", "quantifier": "every state and sequence of updates", "why_tests_cant": "histories of any length", "anchors": ["src/cp/singlecrystal.cxx: attempt_update_ld_inc_, Fe"]}
{"id": "C58", "title": "Crystal energy is the trapezoidal work", "statement": "The energy increment of a crystal update is the trapezoidal rule for stress power over the step.", "quantifier": "every pair of states", "why_tests_cant": "all reals", "anchors": ["src/cp/singlecrystal.cxx: calc_energy_inc_, calc_work_inc_"]}
{"id": "C59", "title": "Crystallographic geometry", "statement": "Reciprocal lattice vectors are dual to the lattice vectors; slip directions and normals are unit and orthogonal so Schmid tensors are trace-free and resolved shear ignores pressure.", "quantifier": "all lattices, slip systems and stresses", "why_tests_cant": "all reals", "anchors": ["src/cp/crystallography.cxx: Lattice"]}
{"id": "C60", "title": "Cached Schmid tensors are never stale", "statement": "The Schmid tensor of a system at an orientation is the same whatever was asked of or added to the lattice before.", "quantifier": "every sequence of queries and additions", "why_tests_cant": "history dependence", "anchors": ["src/cp/crystallography.cxx: Lattice::M, N, cache_rot_, add_slip_system"]}
{"id": "C61", "title": "Each slip system uses its own resistance", "statement": "The slip rate of system i of group g uses the slip resistance of that system.", "quantifier": "every lattice, hardening model and system", "why_tests_cant": "depends on which systems differ in strength", "anchors": ["src/cp/sliprules.cxx: SlipMultiStrengthSlipRule::slip"]}
{"id": "C62", "title": "Hardening matrices act on the flat system numbering", "statement": "For every lattice (any number of groups) the resistance of a system is its initial value plus the matrix row of that system times the slip variables, and flat(g,i) numbers systems without gaps or repeats.", "quantifier": "every group structure", "why_tests_cant": "arbitrary group sizes", "anchors": ["src/cp/slipharden.cxx: SimpleLinearHardening", "src/cp/crystallography.cxx: Lattice::flat"]}
{"id": "C63", "title": "Initial slip strength is the initial strength given", "statement": "The slip resistance in the initial state equals the initial strength parameter.", "quantifier": "every parameter set", "why_tests_cant": "all parameter values", "anchors": ["src/cp/slipharden.cxx: GeneralLinearHardening::init_hist, hist_to_tau"]}
{"id": "C64", "title": "The Taylor polycrystal is the weighted average of its grains", "statement": "Stress, tangents and energies of a Taylor polycrystal are the weight-normalized averages of the grains; identical grains give the grain response; elastic strains are the average of the grain elastic strains.", "quantifier": "every number of grains and weights", "why_tests_cant": "any number of grains", "anchors": ["src/cp/polycrystal.cxx: PolycrystalModel, TaylorModel"]}
{"id": "C65", "title": "Batch crystal evaluation is independent of the schedule", "statement": "Evaluating a batch gives each crystal's own result in its own storage slot whatever order the crystals are processed in, and an error in any crystal raises an error.", "quantifier": "every batch size, order of processing and failure pattern", "why_tests_cant": "thread schedules", "anchors": ["src/cp/batch.cxx"]}
{"id": "C66", "title": "Twin reorientation resets accumulated twinning", "statement": "The twin reorientation step reorients at most once per step, exactly when some twin fraction exceeds the threshold, and clears the accumulated twin slip when it does; otherwise orientation and slip stay the same.", "quantifier": "every lattice and every state", "why_tests_cant": "all system patterns", "anchors": ["src/cp/postprocessors.cxx: PTRTwinReorientation::act"]}
{"id": "C67", "title": "Damage projections are complementary projections", "statement": "For a unit normal the normal and shear projections are idempotent, annihilate each other and act as the identity on the tractions of the plane; zero damage leaves the stress unchanged.", "quantifier": "every unit normal and stress", "why_tests_cant": "all normals", "anchors": ["src/math/projections.cxx", "src/cp/crystaldamage.cxx: PlanarDamageModel::projection, SigmoidTransformation"]}
{"id": "C68", "title": "Symmetry operators form groups", "statement": "The rotations listed for every supported crystal class are unit quaternions closed under multiplication and inversion up to sign; unsupported names are refused.", "quantifier": "every class and pair of operators", "why_tests_cant": "closure over all pairs", "anchors": ["src/cp/crystallography.cxx: symmetry_rotations"]}
{"id": "C69", "title": "Bar networks balance forces and record energy and dissipation", "statement": "After each accepted bar-network step nodal forces of all bars sum to the recorded nodal forces (internal forces sum to zero over the network), and the recorded total energy and dissipation are the volume-weighted sums over bars.", "quantifier": "every network and history", "why_tests_cant": "arbitrary graphs", "anchors": ["neml/arbbar.py: BarModel.apply_update, RJ"]}
{"id": "C70", "title": "The uniaxial wrapper enforces uniaxial stress", "statement": "On return of the uniaxial update with an exactly solved system all stress components but the axial one vanish, and the reported tangent is the condensed tangent.", "quantifier": "every model and state", "why_tests_cant": "arbitrary models", "anchors": ["neml/uniaxial.py: UniaxialModel.update"]}
{"id": "C71", "title": "Drivers keep aligned histories and consistent mixed-control Jacobians", "statement": "After any sequence of driver steps all recorded series have equal length, times are those requested, and mechanical plus thermal strain equals total strain; the Jacobian used in mixed stress/strain steps is the derivative of the residual.", "quantifier": "every sequence of steps", "why_tests_cant": "sequences are unbounded", "anchors": ["neml/drivers.py: Driver_sd"]}
{"id": "C72", "title": "Larson-Miller relation and its inverse agree", "statement": "If the solved Larson-Miller parameter makes the residual zero, the rupture stress of the computed rupture time is the given stress, and conversely; the reported derivative of the rupture time is its derivative in the stress.", "quantifier": "every interpolate, constant, temperature, stress and time", "why_tests_cant": "an identity over all reals", "anchors": ["src/larsonmiller.cxx: LarsonMillerRelation::sR, tR, dtR_ds, RJ"]}
{"id": "C73", "title": "Semi-log interpolation is linear in the logarithm of the argument", "statement": "For positive points and arguments, the piecewise semi-log interpolate is the piecewise linear interpolate over log10 of the points evaluated at log10 of the argument; it hits its knots and is monotone when the data are.", "quantifier": "every positive sorted table and every positive argument", "why_tests_cant": "infinite domain", "anchors": ["src/interpolate.cxx: PiecewiseSemiLogXLinearInterpolate"]}
{"id": "C74", "title": "Jacobians handed to the nonlinear solver are the derivatives of the residuals", "statement": "For the implicit updates of perfect plasticity, rate independent plasticity and the general integrator, the Jacobian matrix returned with the residual is the derivative of that residual, provided the surface or flow rule reports its own derivatives correctly.", "quantifier": "every surface or flow rule with correct derivatives, every trial state and every unknown vector", "why_tests_cant": "an identity over all reals and all flow rules; finite-difference tests sample a few states", "anchors": ["src/models.cxx: SmallStrainPerfectPlasticity::RJ, SmallStrainRateIndependentPlasticity::RJ, GeneralIntegrator::RJ"]}
{"id": "C75", "title": "Creep and plasticity act in series over whole histories", "statement": "When the creep-plasticity equations are solved exactly, along every strain path the total strain is the stored elastic-plastic strain plus a creep strain which evolves by the creep model's own update at the returned stress; the plastic model is driven by the stored strain alone, the extra dissipation is the trapezoid creep work, the Jacobian is the derivative of the residual and the returned tangent maps strain rates to stress rates.", "quantifier": "every plastic model, creep model and strain path", "why_tests_cant": "the claim relates two sub-models over paths of any length and needs calculus", "anchors": ["src/models.cxx: SmallStrainCreepPlasticity::update_sd_actual, RJ, form_tangent_"]}
{"id": "C76", "title": "Large deformation tangents are the derivatives of the stress", "statement": "The strain and spin tangents returned by the incremental large deformation update are the derivatives of the returned stress with respect to the strain and spin increments, for every small strain model whose own tangent is right.", "quantifier": "every small strain model, state, strain and spin path", "why_tests_cant": "derivatives at every state cannot be settled by finite differences at sample points", "anchors": ["src/models.cxx: NEMLModel_sd::update_ld_inc, calc_tangent_", "src/math/nemlmath.cxx: truesdell_tangent_outer"]}
{"id": "C77", "title": "Fourth-order helper products mean what their names say", "statement": "Products with the symmetric and skew identities take symmetric and skew parts, combining a strain and a spin tangent gives the velocity gradient tangent, and the special products equal the matrix commutators of the tensors involved (the stiffness-stress-spin product: half of it).", "quantifier": "every tensor", "why_tests_cant": "identities over all reals with irrational factors", "anchors": ["src/math/nemlmath.cxx: SymSymR4SkewmSkewSymR4SymR4, SymSkewR4SymmSkewSymR4SymR4, SpecialSymSymR4Sym, transform_fourth", "include/math/nemlmath.h: idsym, idskew"]}
{"id": "C78", "title": "Damaged models have a consistent Jacobian and tangent", "statement": "For every damage rule with right derivatives, the matrix handed to the solver is the derivative of the damaged model's residual, and the returned tangent maps the strain rate to the rate of the returned stress.", "quantifier": "every base model, damage rule, iterate and strain path", "why_tests_cant": "derivative identities over arbitrary base models and rules", "anchors": ["src/damage.cxx: NEMLScalarDamagedModel_sd::RJ, tangent_"]}
{"id": "C79", "title": "Damage rules report the derivatives of their damage", "statement": "For each damage rule and stress measure, the reported derivatives with respect to damage, strain and stress are those of the reported value.", "quantifier": "every state in the domain of the rule", "why_tests_cant": "derivative identities", "anchors": ["src/damage.cxx: ClassicalCreepDamage, ModularCreepDamage, LarsonMillerCreepDamage, StandardScalarDamage, WorkDamage, PowerLawDamage, ExponentialWorkDamage, CombinedDamage, EffectiveStress"]}
{"id": "C80", "title": "Cubic elasticity has the symmetry of the cube", "statement": "The cubic stiffness commutes with every rotation of the cube, so rotating strain by a lattice symmetry rotates the stress the same way.", "quantifier": "every cubic constants, cube rotation and strain", "why_tests_cant": "all strains and moduli", "anchors": ["src/elasticity.cxx: CubicLinearElasticModel::C"]}
{"id": "C81", "title": "Flow rules report the derivatives of their rates", "statement": "For each flow rule, built from any surface, hardening rule and viscosity whose own derivatives are right, every derivative it reports with respect to stress and history is the derivative of the value it reports.", "quantifier": "every stress, history, temperature and component choice where the rule is differentiable", "why_tests_cant": "derivative identities for all compositions", "anchors": ["src/ri_flow.cxx", "src/visco_flow.cxx", "src/general_flow.cxx"]}
{"id": "C82", "title": "The J2 normal gives maximum plastic dissipation", "statement": "Among all stresses on or inside the J2 surface, the stress on the surface maximises the plastic work of the flow direction reported there.", "quantifier": "every pair of stresses and every hardening value", "why_tests_cant": "all pairs of stresses", "anchors": ["src/surfaces.cxx: IsoKinJ2"]}
{"id": "C83", "title": "The pressure dependent surface reports right derivatives", "statement": "The pressure dependent J2-I1 surface reports the true first and second derivatives of its value.", "quantifier": "every stress, exponent and coefficient in the domain", "why_tests_cant": "derivative identities", "anchors": ["src/surfaces.cxx: IsoKinJ2I1"]}
{"id": "C84", "title": "The non-isothermal switch controls temperature rates", "statement": "With the non-isothermal switch off a Chaboche rule has zero temperature rates, and with it on the rates scale the backstress with the modulus.", "quantifier": "every number of backstresses and both switch values", "why_tests_cant": "all states and both settings", "anchors": ["include/hardening.h:425", "src/hardening.cxx: Chaboche::h_temp"]}
{"id": "C85", "title": "Complete materials hand the solver a right Jacobian", "statement": "For complete materials (Chaboche viscoplasticity, Perzyna with combined hardening, rate independent Voce plasticity) the Jacobian built by the integrator is the derivative of its residual.", "quantifier": "every parameter value, state and step at which the surface is smooth", "why_tests_cant": "all states, with all components composed", "anchors": ["src/models.cxx: GeneralIntegrator, SmallStrainRateIndependentPlasticity", "src/visco_flow.cxx", "src/hardening.cxx", "src/surfaces.cxx"]}
{"id": "C86", "title": "Multiaxial creep is incompressible, dissipative and calibrated", "statement": "The multiaxial creep rate built from a scalar creep law has no volume change, its power is the equivalent stress times the scalar rate, in uniaxial tension it gives the scalar rate along the load, and its reported derivatives are its derivatives.", "quantifier": "every scalar creep law, stress and strain", "why_tests_cant": "all stress states and an arbitrary scalar law", "anchors": ["src/creep.cxx: J2CreepModel"]}
{"id": "C87", "title": "Isotropic materials have no preferred direction", "statement": "Turning the stress, strain and backstress given to an isotropic surface, hardening rule, creep rule or complete Chaboche material turns its response and changes no scalar, so a turned strain history gives the turned stress history.", "quantifier": "every orthogonal matrix, parameter value, state and strain history", "why_tests_cant": "all rotations and all histories", "anchors": ["src/surfaces.cxx", "src/hardening.cxx: Chaboche", "src/visco_flow.cxx: ChabocheFlowRule", "src/general_flow.cxx: TVPFlowRule", "src/creep.cxx: J2CreepModel"]}
{"id": "C88", "title": "XML text round trip", "statement": "Printing an XML document and parsing the text gives back the same document, whatever characters its texts and attribute values contain; only texts that consist of blanks are lost. The parser comes to an end on every text.", "quantifier": "every tree of elements with attributes and texts, every text given to the parser", "why_tests_cant": "escaping, quoting and indentation have to be right for all characters, depths and widths", "anchors": ["rapidxml/rapidxml_print.hpp: print_node", "rapidxml/rapidxml.hpp: parse", "src/deparse.cxx: deparse_to_string", "src/parse.cxx: get_object_string"]}
{"id": "C89", "title": "Powers of rotations turn about the same axis", "statement": "The w-th power of an orientation turns about the same axis by w times the angle; the exponential of the logarithm of a unit quaternion is that quaternion.", "quantifier": "all unit quaternions other than plus and minus one, all non-zero real powers", "why_tests_cant": "all reals", "anchors": ["src/math/rotations.cxx: Quaternion::pow, exp_, log_", "src/math/rotations.cxx: Orientation::pow"]}
{"id": "C90", "title": "Hopf and hyperspherical coordinates round-trip", "statement": "Building an orientation from Hopf or hyperspherical coordinates gives a unit quaternion, and reading the coordinates of any orientation and building again gives the same orientation.", "quantifier": "all orientations; hyperspherical ones where the last two components are not both zero", "why_tests_cant": "inverse trigonometric branches over a continuum", "anchors": ["src/math/rotations.cxx: setHopf, to_hopf, setHyperspherical, to_hyperspherical"]}
{"id": "C91", "title": "Euler conventions mean what their names say", "statement": "Kocks, Bunge and Roe angles in radians or degrees give the textbook product of elementary rotations; any other convention or unit name is refused.", "quantifier": "all angles and unit names, second Bunge angle not a multiple of pi other than zero", "why_tests_cant": "all reals and strings", "anchors": ["src/math/rotations.cxx: setEulerAngles, kocks_to_matrix_", "src/math/nemlmath.cxx: convert_angle"]}
{"id": "C92", "title": "Spin exponential and logarithm are inverse", "statement": "The logarithm of the exponential of a spin short of a full turn is the spin, and the exponential of the logarithm of any orientation other than the identity is that orientation.", "quantifier": "all non-zero spins shorter than two pi; all orientations other than plus and minus one", "why_tests_cant": "all reals", "anchors": ["src/math/rotations.cxx: wexp, wlog"]}
{"id": "C93", "title": "rotate_to maps the first direction onto the second", "statement": "For two directions that are not parallel the result is a rotation that takes the first onto the second and leaves the perpendicular direction alone; every member of the family does the same.", "quantifier": "all pairs of vectors that are not parallel; all free angles", "why_tests_cant": "all reals", "anchors": ["src/math/rotations.cxx: rotate_to, rotate_to_family"]}
{"id": "C94", "title": "Distance between orientations is an invariant metric", "statement": "Distance is symmetric, zero exactly for equal rotations, satisfies the triangle inequality, does not change when both orientations are turned, and is half the angle of the relative rotation.", "quantifier": "all triples of orientations", "why_tests_cant": "triangle inequality over a continuum", "anchors": ["src/math/rotations.cxx: Orientation::distance"]}
{"id": "C95", "title": "Misorientation is the smallest angle over symmetric equivalents", "statement": "For every crystal class the misorientation of two orientations is a rotation whose angle is the smallest among all symmetrically equivalent ones. The angle is symmetric, does not change when an equivalent orientation is used, and is zero exactly for equivalent orientations. The block version gives the same angles.", "quantifier": "all classes, all pairs of orientations", "why_tests_cant": "a test checks a few pairs and classes", "anchors": ["src/cp/crystallography.cxx:misorientation", "src/cp/crystallography.cxx:misorientation_block"]}
{"id": "C96", "title": "Miller indices and families of equivalent vectors", "statement": "Reduced indices are the unique coprime indices along the same direction, so multiples of a triple name the same direction; three zeros are refused. The family of a vector holds exactly the images under the symmetry operators, each once up to the comparison tolerance; the bidirectional family also holds every opposite.", "quantifier": "all integer triples, all operator lists, all vectors", "why_tests_cant": "integers are unbounded and the family depends on every operator", "anchors": ["src/math/nemlmath.cxx:gcd, reduce_gcd", "src/cp/crystallography.cxx: miller2cart, equivalent_vectors, equivalent_vectors_bidirectional"]}
{"id": "C97", "title": "Slip planes are numbered once", "statement": "Every slip or twin system has a plane number, the numbered plane is parallel to the plane of the system to tolerance, no two numbered planes are parallel to tolerance, every number belongs to some system, and the systems listed for a plane are exactly those with that number.", "quantifier": "every sequence of additions", "why_tests_cant": "depends on the whole history of additions", "anchors": ["src/cp/crystallography.cxx: update_normals_, plane_index, plane_systems"]}
{"id": "C98", "title": "Twin geometry", "statement": "Every twin system found has its habit plane and direction orthogonal and unit to tolerance, and the characteristic shear of the group is the size of a simple shear on the habit plane that carries the conjugate direction where the reorientation of the twin carries it, keeping the habit plane fixed.", "quantifier": "all twin indices and lattices", "why_tests_cant": "a continuum of lattices", "anchors": ["src/cp/crystallography.cxx: add_twin_system, make_twin_reorientation, characteristic_shear"]}
{"id": "C99", "title": "Derivatives of slip and hardening rates", "statement": "The derivatives of slip rates, strengths and hardening rates by stress and by every history variable that the slip rules and the hardening models report are the derivatives of the values they report.", "quantifier": "every stress, every history with positive strength, any number of strengths and systems", "why_tests_cant": "derivatives at a continuum of states, including states without slip", "anchors": ["src/cp/sliprules.cxx: d_slip_d_s, d_slip_d_h, d_hist_rate_d_stress, d_hist_rate_d_hist", "src/cp/slipharden.cxx: d_hist_to_tau, d_hist_d_s, d_hist_d_h, d_hist_d_h_ext"]}
{"id": "C100", "title": "Slip follows the resolved shear", "statement": "A power law system slips in the direction of its resolved shear and a kinematic one in the direction of the overstress, so slip never takes energy out; twins slip one way only; reversed shear reverses slip.", "quantifier": "every stress, history, lattice", "why_tests_cant": "all stresses", "anchors": ["src/cp/sliprules.cxx: slip, scalar_sslip"]}
{"id": "C101", "title": "Strengths stay between their bounds", "statement": "Whatever the slip rates and step sizes, implicit steps keep every strength between its initial value and its saturation value and accumulated slip never decreases.", "quantifier": "every sequence of implicit steps, any slip rates", "why_tests_cant": "unbounded histories", "anchors": ["src/cp/slipharden.cxx: hist, hist_factor"]}
{"id": "C102", "title": "Crystal Jacobian and tangent", "statement": "The matrix a crystal hands to its solver is the derivative of its residual, and the tangent it reports is the derivative of the returned stress by the strain and spin increments, whether or not the step was divided.", "quantifier": "every stiffness, inelastic model with right derivatives, step and path of increments", "why_tests_cant": "a derivative is a statement about all nearby inputs", "anchors": ["src/cp/kinematics.cxx: StandardKinematicModel", "src/cp/singlecrystal.cxx: RJ, calc_tangents_", "src/cp/inelasticity.cxx"]}
{"id": "C103", "title": "Crystal flow dissipates and keeps volume", "statement": "The plastic work of a crystal is the sum over systems of resolved shear times slip rate, is never negative for the power laws and their combinations, and plastic flow keeps the volume.", "quantifier": "every lattice, orientation, stress and history", "why_tests_cant": "holds for all stresses and orientations", "anchors": ["src/cp/inelasticity.cxx: d_p", "src/cp/crystallography.cxx: M"]}
{"id": "C104", "title": "A crystal and its load turned together", "statement": "Turning the orientation, the strain and spin increments and the stress of a step by one rotation turns the new stress and the new orientation by it and leaves the history the same.", "quantifier": "every rotation, lattice, stiffness, slip rule, step", "why_tests_cant": "uncountably many rotations and states", "anchors": ["src/cp/kinematics.cxx: stress_rate, spin", "src/cp/singlecrystal.cxx: RJ, update_rot_", "src/elasticity.cxx: C, S"]}
{"id": "C105", "title": "A twinned crystal is the twin of its parent", "statement": "When a crystal is reoriented for twinning its new lattice is the mirror image of the parent lattice, up to inversion, in the habit plane the twin system has in the parent in the sample frame.", "quantifier": "every orientation, lattice and twin system", "why_tests_cant": "uncountably many orientations; for the unrotated crystal right and wrong composition agree", "anchors": ["src/cp/postprocessors.cxx: PTRTwinReorientation::act", "src/cp/crystallography.cxx: add_twin_system, reorientation"]}
{"id": "C106", "title": "Damaged planes carry their share of the load", "statement": "A damaged plane carries the traction of the sound material, its normal part scaled by one minus the normal damage fraction and its shear part by one minus the shear fraction; the stress of a crystal with damage fractions between zero and one is never larger than that of its sound material, and the sound stress can be recovered just if no fraction is one.", "quantifier": "every set of planes, damage and stress", "why_tests_cant": "all stresses and damages, any number of planes", "anchors": ["src/cp/crystaldamage.cxx: PlanarDamageModel::projection", "src/math/projections.cxx"]}
{"id": "C107", "title": "Crystal damage stays in range and does not heal", "statement": "The damage fraction of a plane lies between zero and its cut, grows with the damage variable and is zero on closed planes if switched; the damage variable grows by the work of slip on its plane and never decreases.", "quantifier": "every damage, stress, slip rule, substep", "why_tests_cant": "all histories of slip", "anchors": ["src/cp/crystaldamage.cxx: SigmoidTransformation, SwitchTransformation, WorkPlaneDamage, PlanarDamageModel::damage_rate"]}
{"id": "C108", "title": "The solver of a damaged crystal gets the right derivatives", "statement": "The derivatives of the projection, of the damage rates and of the stress rate of a damaged crystal are the true ones, so the Jacobian of a substep is the derivative of its residual.", "quantifier": "every stress, history, set of planes, slip rule with right derivatives", "why_tests_cant": "derivatives are limits; tests compare finite differences at sample points", "anchors": ["src/cp/crystaldamage.cxx: d_projection_d_history, d_damage_d_stress, d_damage_d_history", "src/cp/kinematics.cxx: DamagedStandardKinematicModel"]}
{"id": "C109", "title": "Spinning a crystal only turns its stress", "statement": "A crystal that is spun without being deformed and without inelastic flow changes its stress only by turning it with the spin.", "quantifier": "every stiffness, stress, spin, damage", "why_tests_cant": "all spins and stiffnesses; tests use finite differences of the same formula", "anchors": ["src/cp/kinematics.cxx: StandardKinematicModel::stress_rate, DamagedStandardKinematicModel::stress_rate"]}
{"id": "C110", "title": "A damage model without damage changes nothing", "statement": "While no plane is damaged, a crystal with a damage model has the same stress rate, lattice spin, elastic strain and history rates as the crystal without one.", "quantifier": "every stiffness, stress, history, strain rate and spin", "why_tests_cant": "all stiffnesses and stresses", "anchors": ["src/cp/kinematics.cxx: DamagedStandardKinematicModel", "src/cp/crystaldamage.cxx: NilDamageModel, PlanarDamageModel"]}
{"id": "C111", "title": "Damage depends on the planes, not on names or frame", "statement": "The projection does not depend on the sign of a plane's normal or on the order in which the planes are listed, and turning a damaged crystal with its load turns its stress and leaves its damage the same.", "quantifier": "every set of planes, rotation, step", "why_tests_cant": "uncountably many orientations", "anchors": ["src/cp/crystaldamage.cxx: PlanarDamageModel", "src/cp/kinematics.cxx: DamagedStandardKinematicModel"]}
{"id": "C112", "title": "The Python solvers answer only with converged points", "statement": "If one of the Python Newton solvers returns, the last evaluation of the caller's residual was at the returned point and its residual there meets the relative or the absolute tolerance; the residual is evaluated at most miter+1 times; a linear system with a regular matrix is solved with one iteration; the backtracking line search, once started from a descent direction, ends.", "quantifier": "every residual function, guess, tolerance and iteration limit", "why_tests_cant": "arbitrary residual functions that may raise and may keep state", "anchors": ["neml/nlsolvers.py: newton, newton_precalc, quasi_newton, scalar_newton, backtrack", "neml/drivers.py: Driver.solve_try"]}
{"id": "C113", "title": "Bar networks are solved through a correct Jacobian, in steps that add up", "statement": "The Jacobian of a bar network is the derivative of its residual, symmetric, and positive definite when the bar tangents are positive and each node is connected to a prescribed one, singular when some node is not; elastic networks are solved in one step; a call of solve ends, and if it returns the accepted substeps add up to the time increment, if it raises they add up to less.", "quantifier": "every graph, material and boundary conditions; every pattern of failed attempts", "why_tests_cant": "arbitrary graphs and failure patterns", "anchors": ["neml/arbbar.py: BarModel.RJ, solve"]}
{"id": "C114", "title": "The rate switch rule reports right derivatives", "statement": "Every derivative of the stress rate and the history rate that the Walker-Krempl rule reports, by stress, history and strain rate, is the derivative of the rate it reports, wherever those of its flow rule are right and the strain rate is not purely volumetric.", "quantifier": "every elasticity model, flow rule, switch value, state and strain rate", "why_tests_cant": "a finite difference test sees one state and one flow rule", "anchors": ["src/walker.cxx: WalkerKremplSwitchRule"]}
{"id": "C115", "title": "The rate switch makes the material rate independent", "statement": "With the switch off the rule is the plain viscoplastic rule; with the switch fully on, the stresses and histories that solve a load path solve it at every speed, even or uneven; at the reference strain rate the switch has no effect.", "quantifier": "every flow rule, load path and pair of increasing time sequences", "why_tests_cant": "all time sequences", "anchors": ["src/walker.cxx: WalkerKremplSwitchRule::kappa, s, a"]}
{"id": "C116", "title": "The rate switch rule reports the work of its inelastic strain", "statement": "The work rate of the rule is the stress times the inelastic strain rate its stress rate is computed with.", "quantifier": "every state", "why_tests_cant": "a flow rule with a time part is needed", "anchors": ["src/walker.cxx: WalkerKremplSwitchRule::work_rate"]}
{"id": "C117", "title": "Softening and thermal scaling factors", "statement": "The softening factor is one at zero plastic strain, continuous, nondecreasing and at least one; its reported derivative is right; the thermal scaling is one at its reference temperature and positive.", "quantifier": "every parameter, plastic strain and temperature", "why_tests_cant": "continuity and monotonicity are claims about all strains", "anchors": ["src/walker.cxx: WalkerSofteningModel, ArrheniusThermalScaling"]}
{"id": "C118", "title": "The Walker internal variables report right derivatives", "statement": "Every derivative that the isotropic hardening, drag stress and backstress models report, by their own value, plastic strain, plastic strain rate, drag stress, stress and flow direction, is the derivative of the rate they report.", "quantifier": "every parameter and state", "why_tests_cant": "a test sees one state; the exceptional states have to be found", "anchors": ["src/walker.cxx: WalkerIsotropicHardening, WalkerDragStress, FAKinematicHardening, WalkerKinematicHardening"]}
{"id": "C119", "title": "The Walker flow rule reports right derivatives", "statement": "Every derivative of the flow rate, the flow direction and the hardening rates that the assembled Walker rule reports is right, with any number of backstresses, and so are those of the complete switched material.", "quantifier": "every parameter set, number of backstresses and state", "why_tests_cant": "products of chain rules over all variables at all states", "anchors": ["src/walker.cxx: WalkerFlowRule, TestFlowRule"]}
{"id": "C120", "title": "The Walker internal variables stay in their ranges", "statement": "Along every loading history that is solved from the initial state, the plastic strain never decreases and is the accumulated equivalent plastic strain, the isotropic hardening stays between the bounds on its targets, the drag stress between its initial value and its range, and each backstress below its saturation value.", "quantifier": "every loading and temperature history, step size and number of steps", "why_tests_cant": "histories of any length with any step sizes", "anchors": ["src/walker.cxx: WalkerFlowRule, internal variables"]}
{"id": "C121", "title": "A strain controlled cyclic test goes along its program", "statement": "A strain controlled cyclic test ramps to its largest strain and then runs cycles of hold, ramp down to R times the strain, hold and ramp up, at the given rate with the given number of steps; what is returned if it is stopped is a first part of this; each completed cycle gives one row with its largest, smallest and mean stress, energy and dissipation.", "quantifier": "every material, strain, ratio, rate, number of steps and cycles, hold times and point where the test is stopped", "why_tests_cant": "runs of any length with any material, stopped at any step", "anchors": ["neml/drivers.py: strain_cyclic"]}
{"id": "C122", "title": "The tension test returns matching lists and the elastic constants", "statement": "A tension test returns as many stresses, energies and values of plastic work as strains, at evenly spaced strains; for a linear elastic material the modulus and Poisson's ratio returned are those of the material along the direction.", "quantifier": "every material, direction, number of steps and point where the test is stopped", "why_tests_cant": "all materials and stops; all stiffnesses and directions", "anchors": ["neml/drivers.py: uniaxial_test"]}
{"id": "C123", "title": "A stress controlled cyclic test goes along its program", "statement": "A stress controlled cyclic test ramps to its largest stress and then runs cycles of hold, ramp down to R times the stress, hold and ramp up, at the given rate; there is no stress besides that along the direction; what is returned if it is stopped is a first part of this, with as many times as strains; each completed cycle gives one row with its largest, smallest and mean strain, energy and dissipation.", "quantifier": "every material, stress, ratio, rate, number of steps and cycles, hold times and point where the test is stopped", "why_tests_cant": "runs of any length with any material, stopped at any step", "anchors": ["neml/drivers.py: stress_cyclic"]}
{"id": "C124", "title": "A relaxation test holds its strain", "statement": "A relaxation test goes up to its strain at the given rate and then holds it, or the sum of strain and elastic follow-up, along any axis and for the given time; the reported times, stresses and rates are those of the hold counted from its start.", "quantifier": "every material, axis, strain, rate, hold time, number of steps and follow-up factor", "why_tests_cant": "holds of any length with any material and follow-up", "anchors": ["neml/drivers.py: stress_relaxation, strain_hold_step"]}
{"id": "C125", "title": "A creep test holds its stress", "statement": "A creep test goes up to its stress at the given rate and holds it over the given times until it fails; the strains in the hold do not decrease and stay within the limit; the reported times, strains and rates are those of the hold counted from its start.", "quantifier": "every material, stress, rate, hold time, number of steps and point of failure", "why_tests_cant": "holds of any length with any material", "anchors": ["neml/drivers.py: creep"]}
{"id": "C126", "title": "An isochronous curve consists of points of creep tests", "statement": "An isochronous curve starts in the origin, ends at the largest strain, and every point between has a strain reached in a creep test at its stress at the given time; the last stress is interpolated between creep tests on both sides; the search ends.", "quantifier": "every material, time, largest strain and step", "why_tests_cant": "searches of any length with any response", "anchors": ["neml/drivers.py: isochronous_curve"]}
{"id": "C127", "title": "Thermomechanical data are followed", "statement": "For every point returned the material has been brought to the time, temperature and strain of the data point with a uniaxial stress, which is the stress returned; all points that were solved are returned, with their mechanical strain.", "quantifier": "every material, data, direction and number of substeps", "why_tests_cant": "data of any length with any material", "anchors": ["neml/drivers.py: thermomechanical_strain_raw"]}
{"id": "C128", "title": "Rate jump tests follow their strains and rates", "statement": "A rate jump test makes the strain asked for at each of its rates in the given number of equal steps; given strains are each reached at their rate.", "quantifier": "every material, list of rates and strains, number of steps", "why_tests_cant": "lists of any length with any material", "anchors": ["neml/drivers.py: rate_jump_test"]}
{"id": "C129", "title": "Cyclic responses are classified consistently", "statement": "Looser tolerances never give a more severe class; the class does not depend on units; a response without dissipation is elastic, one that repeats is never ratcheting, and one with a growing strain that dissipates and needs work is.", "quantifier": "all energies, strains and tolerances", "why_tests_cant": "all real inputs", "anchors": ["neml/drivers.py: classify"]}
{"id": "C130", "title": "The large deformation driver integrates the deformation", "statement": "All lists have an entry for each step; results do not depend on the reference configuration; the strain of a stretch is the logarithmic strain up to an error that goes to zero with the number of steps; a rigid rotation does not strain the material.", "quantifier": "every deformation history, material and number of steps", "why_tests_cant": "functions of time and any number of steps", "anchors": ["neml/drivers.py: def_grad_driver, sym, skew"]}
{"id": "C131", "title": "Thermal cycles of vessel walls are trapezoids in time and linear through the wall", "statement": "The temperature function made for a thermal cycle has the initial temperature before the delay; in every cycle the outer side rises with the heating rate, holds, falls with the cooling rate and holds; through the wall it is linear, it never leaves the two temperatures and never changes faster than the larger rate.", "quantifier": "every cycle, wall, radius and time", "why_tests_cant": "real times in any cycle", "anchors": ["neml/axisym.py: generate_thickness_gradient"]}
{"id": "C132", "title": "Time steps follow the thermal cycle", "statement": "The list of times made for a thermal cycle starts at zero, increases to the end of the last cycle, has the number of steps asked for in each part, and contains every kink of the temperature cycle.", "quantifier": "every cycle and all numbers of steps and cycles", "why_tests_cant": "any number of cycles and steps", "anchors": ["neml/axisym.py: generate_standard_timesteps"]}
{"id": "C133", "title": "Layered walls conduct a steady heat flux", "statement": "In a wall of layers the temperature is divided between the sides in the ratio of the thermal resistances; the heat flux is the same in all layers; equal conductivities give the temperature of a single wall.", "quantifier": "every wall of layers, cycle, radius and time", "why_tests_cant": "any number of layers and real radii", "anchors": ["neml/axisym.py: generate_multimaterial_thickness_gradient"]}
{"id": "C134", "title": "Meshes of vessel walls are complete and graded", "statement": "A mesh has the number of elements asked for in each region, increasing nodes, and the interfaces among its nodes; without bias elements of a region are equal; with bias they are symmetric and get larger to the middle.", "quantifier": "every list of regions, number of elements and exponent", "why_tests_cant": "any number of regions and elements", "anchors": ["neml/axisym.py: mesh, rect"]}
{"id": "C135", "title": "The thin wall problem is a membrane under the hoop stress", "statement": "All points of the wall have one strain; the stresses integrated through the wall balance the inner radius times the pressure at every time recorded; an elastic wall has the hoop stress and the thermal stress; records have one entry for each step.", "quantifier": "every wall, material, loading and history of steps", "why_tests_cant": "histories and walls of any size", "anchors": ["neml/axisym.py: BreeProblem"]}
{"id": "C136", "title": "The axisymmetric residual is equilibrium", "statement": "The residual of the axisymmetric problem is the principle of virtual work for every displacement that is linear in the elements; without residual the hoop stress balances the pressures exactly on every mesh; equal pressures are balanced by a hydrostatic stress; the axial force balances that of the pressures on closed ends; uniform heating of a free wall gives no residual; the Jacobian is the derivative of the residual.", "quantifier": "every wall, mesh, integration rule, stress field and pressures", "why_tests_cant": "functions of any number of nodes and points", "anchors": ["neml/axisym.py: AxisymmetricProblem.RJ, strain"]}
{"id": "C137", "title": "Corrections of the axisymmetric solver solve all equations", "statement": "A correction of displacements and axial strain that is computed solves the equations of all nodes and the axial one, and is the only solution; one is computed whenever the equations are regular.", "quantifier": "every Jacobian and residual", "why_tests_cant": "matrices of any size", "anchors": ["neml/axisym.py: tri_solve, cute_solve, take_step"]}
{"id": "C138", "title": "Steps of the axisymmetric problem are accepted within tolerances and recorded once", "statement": "An accepted step has a residual within the tolerances and a state of the material that belongs to its displacements and to the time; a step that returns adds one entry for the time asked for to all records; one that fails leaves them as they were; every step ends; hoop equilibrium holds in all records of all histories.", "quantifier": "every problem, history of steps and options", "why_tests_cant": "any sequence of failures, substeps and steps", "anchors": ["neml/axisym.py: AxisymmetricProblem.take_step, step"]}
{"id": "C139", "title": "Elastic walls are solved", "statement": "A wall of one isotropic elastic material has regular equations, takes every step in one correction, and the displacements found are the only ones in equilibrium; under equal pressures and uniform temperatures the stress is minus the pressure in all directions in all histories.", "quantifier": "every mesh with elements that are not too thick, elastic constants, pressures and temperatures", "why_tests_cant": "meshes of any size and real constants", "anchors": ["neml/axisym.py: AxisymmetricProblem"]}
{"id": "C140", "title": "The Yaguchi flow rule reports its own derivatives", "statement": "The derivatives that the Yaguchi flow rule reports for its rate, flow direction, hardening and static recovery are those of the values it reports, so that the integrator solves with a true Jacobian.", "quantifier": "every stress, history, temperature and set of parameters at which the rule is smooth", "why_tests_cant": "real stresses, histories and parameters", "anchors": ["src/visco_flow.cxx: YaguchiGr91FlowRule"]}
{"id": "C141", "title": "The parameters of the grade 91 steel make sense over the stated range", "statement": "Between 473 K and 873 K the drag stress is a positive number, exponents, moduli and rates are positive, the threshold falls with the rate and the limit of the first backstress stays positive after it has fallen all the way.", "quantifier": "every temperature of the range", "why_tests_cant": "a continuum of temperatures, piecewise formulas", "anchors": ["src/visco_flow.cxx: YaguchiGr91FlowRule::D, n, a10, C2, C1, a2, g1, g2, m, br, bh, A, B, d, q"]}
{"id": "C142", "title": "The history of the Yaguchi rule stays within physical bounds", "statement": "Over any loading the backstresses stay deviatoric and within their limits, the fall of the limit of the first backstress stays between zero and its own limit, the threshold stress stays between zero and its target at the slowest rate at which it moves, the plastic strain keeps the volume and its equivalent rate is the reported one; any positive rates can be met by a loading.", "quantifier": "every load path, temperature history and sequence of time steps solved by the integrator", "why_tests_cant": "induction over histories of any length", "anchors": ["src/visco_flow.cxx: YaguchiGr91FlowRule::y, g, h, h_time"]}
{"id": "C143", "title": "Precipitation conserves every chemical species", "statement": "The reported matrix concentration is the one for which matrix and precipitate together hold the initial amount of each species; the switch between growth and ripening lies between zero and one, is zero exactly without precipitate and one exactly when some species has reached equilibrium; precipitation is driven exactly while the product of the concentrations exceeds that at equilibrium, and then the critical radius is positive.", "quantifier": "every composition, temperature and volume fraction", "why_tests_cant": "continuum of compositions and any number of species", "anchors": ["src/cp/hucocks.cxx: HuCocksPrecipitationModel::c, Gv, sfn_, r_rate_nucleation_"]}
{"id": "C144", "title": "The precipitation jacobian is the derivative of the precipitation rates", "statement": "For any differentiable path of volume fraction, radius and number density the three scaled rates change as the reported jacobian says.", "quantifier": "every state and path", "why_tests_cant": "chain rule over a continuum of states", "anchors": ["src/cp/hucocks.cxx: HuCocksPrecipitationModel::jac, df_df, df_dr, df_dN, dr_df, dr_dr, dr_dN, dN_df, dN_dr, dN_dN"]}
{"id": "C145", "title": "The precipitate variables keep describing the same spheres", "statement": "Along any solution the volume fraction stays that of spheres of the reported radius and number density if it was so at the start; in pure ripening the volume fraction is constant and the cube of the radius grows linearly in time; nuclei appear at a nonnegative rate.", "quantifier": "every solution over any length of time", "why_tests_cant": "invariant of a differential equation", "anchors": ["src/cp/hucocks.cxx: HuCocksPrecipitationModel::f_rate, r_rate, N_rate, init_hist"]}
{"id": "C146", "title": "Dislocation spacings evolve to balance and report their derivatives", "statement": "Strengths and rates of the dislocation spacings have the reported derivatives by stress and by all history; strength rises exactly as the spacing falls; an implicit time step moves a spacing towards the value that balances storage and recovery and never past it.", "quantifier": "every crystal, slip rate, history and time step", "why_tests_cant": "any number of systems and steps", "anchors": ["src/cp/hucocks.cxx: DislocationSpacingHardening::hist_to_tau, d_hist_to_tau, hist, d_hist_d_s, d_hist_d_h, d_hist_d_h_ext"]}
{"id": "C147", "title": "The combined dislocation and precipitate hardening reports its derivatives", "statement": "The strength is at least each contribution and at most their sum; strengths, slip rates and history rates of the whole crystal rule with any number of precipitate phases have the reported derivatives by stress and by all history.", "quantifier": "every crystal, number of phases, state and path below the strength", "why_tests_cant": "any number of phases and systems", "anchors": ["src/cp/hucocks.cxx: HuCocksHardening::hist_to_tau, d_hist_to_tau, hist, d_hist_d_s, d_hist_d_h, d_hist_d_h_ext, c_eff_, NA_eff_"]}
{"id": "C148", "title": "The Arrhenius slip rule is odd, bounded and reports its derivatives", "statement": "The slip rate is odd, has the sign of the stress, grows with the stress and with the temperature, does not exceed the reference rate up to the strength, and its derivatives by stress and strength are the reported ones.", "quantifier": "every stress up to the strength, temperature and parameters", "why_tests_cant": "continuum of stresses and exponents", "anchors": ["src/cp/hucocks.cxx: ArrheniusSlipRule::scalar_sslip, scalar_d_sslip_dtau, scalar_d_sslip_dstrength"]}
{"id": "C149", "title": "Precipitates find their species, and a model can be built twice from the same precipitates", "statement": "Building succeeds exactly when every named species exists; each precipitate then refers to the species it names, in order, each once. Using the same precipitate objects in a second model must not change any concentration.", "quantifier": "every composition, list of precipitates and sequence of constructions", "why_tests_cant": "names, numbers of species and object sharing are unbounded", "anchors": ["src/cp/generalizedhucocks.cxx: HuCocksPrecipitationModel::initialize, GeneralizedHuCocksPrecipitate::species_cp_map, set_species"]}
{"id": "C150", "title": "Competing precipitates conserve every species and switch from growth to ripening by their leading species", "statement": "Matrix and precipitates together hold the initial amount of every species; concentrations never fall below the floor; the weight between growth and ripening lies in [0,1], is that of the species nearest its equilibrium, is 0 exactly while no species has fallen and 1 exactly when one has reached equilibrium; the driving force is negative exactly when the product of concentrations exceeds that at equilibrium.", "quantifier": "every number of species and precipitates and every state", "why_tests_cant": "all numbers of species and precipitates and a continuum of states", "anchors": ["src/cp/generalizedhucocks.cxx: concentration, gibbs_free_energy, switching_function, growth_rate"]}
{"id": "C151", "title": "The generalized precipitation model reports the derivatives of its rates", "statement": "Volume fractions, concentrations, driving forces and the rates of radii and number densities have the reported derivatives by the radii and number densities of all precipitates.", "quantifier": "every smooth state and every path through it", "why_tests_cant": "continuum of states and directions", "anchors": ["src/cp/generalizedhucocks.cxx: d_concentration_d_f, d_gibbs_free_energy_d_f, d_growth_rate, d_ripening_rate, d_mixed_rate, d_rate"]}
{"id": "C152", "title": "Ripening coarsens at constant volume with the cube of the radius linear in time", "statement": "Along every solution of the rate equations on which all precipitates ripen, volume fractions and concentrations are constant, the cube of each radius grows linearly at the mobility, and number densities keep the volume; otherwise the volume changes by growth only. Precipitates form while they grow.", "quantifier": "every solution of the rate equations over every time interval", "why_tests_cant": "histories are functions of time, not samples", "anchors": ["src/cp/generalizedhucocks.cxx: rate, mixed_rate, ripening_rate, growth_rate, init_hist"]}
{"id": "C153", "title": "The generalized precipitate hardening reports the derivatives of strength and rates", "statement": "The strength is at least each contribution and at most their sum; its derivatives by all history variables and those of the history rates are the reported ones; the molecular volume of a species lies between those of the precipitates that hold it.", "quantifier": "every dislocation model, number of precipitates, state and path", "why_tests_cant": "any number of precipitates and a continuum of states", "anchors": ["src/cp/generalizedhucocks.cxx: GeneralizedHuCocksHardening::hist_to_tau, d_hist_to_tau, hist, d_hist_d_s, d_hist_d_h, d_hist_d_h_ext, solution_volumetric_density, effective_molecular_volume"]}
{"id": "C154", "title": "Projections of pole figures", "statement": "The stereographic and the equal area projection are one to one away from the south pole, a point is inside the circle of the figure exactly if its direction is in the upper half, the stereographic projection keeps angles and the equal area projection keeps areas. The inverse functions undo them. Polar coordinates and back is the identity.", "quantifier": "all directions, points and differentiable curves on the sphere", "why_tests_cant": "a continuum of directions; derivatives", "anchors": ["neml/cp/polefigures.py: project_stereographic", "neml/cp/polefigures.py: inverse_project_lambert_equal_area", "neml/cp/polefigures.py: cart2pol"]}
{"id": "C155", "title": "Pole figures", "statement": "Every point of a pole figure is inside its circle. Grains with crystallographically equivalent orientations give the same figure. The figure has the symmetry given for the sample, and a pole along the direction asked for as an axis is drawn on that axis.", "quantifier": "all lattices with a symmetry group, orientations, poles, sample symmetries and axes", "why_tests_cant": "all orientations and symmetry operators", "anchors": ["neml/cp/polefigures.py: pole_figure_discrete"]}
{"id": "C156", "title": "Inverse pole figures", "statement": "The points are directions in the upper half. Equivalent orientations and equivalent sample directions give the same points. In the standard triangle of a cubic crystal every orientation shows the direction with its components sorted by size, and nothing else. Colours are between zero and one, and a corner is full in its own colour only.", "quantifier": "all orientations, directions, symmetry groups and triangles", "why_tests_cant": "all orientations; the triangle needs every operator", "anchors": ["neml/cp/polefigures.py: project_ipf", "neml/cp/polefigures.py: reduce_points_triangle", "neml/cp/polefigures.py: ipf_color"]}
{"id": "C157", "title": "Status of the C interface", "statement": "After each call the status variable is zero exactly if that call succeeded, and a failed evaluation is told apart from a value.", "quantifier": "all sequences of calls", "why_tests_cant": "depends on the history of calls sharing the variable", "anchors": ["src/cinterface.cxx"]}
{"id": "C158", "title": "Abaqus user material", "statement": "Stresses and strains are the same tensors on both sides and the work is the same. An update starts from what the last one returned, and a failed update changes nothing but the step request. The stiffness is the derivative of the stress in the notation of Abaqus. Models do not accumulate.", "quantifier": "all tensors, models, stress maps and sequences of calls", "why_tests_cant": "a continuum of tensors; the derivative; all sequences of outcomes", "anchors": ["util/abaqus/nemlumat.f"]}
{"id": "C159", "title": "Slip systems of a cubic lattice", "statement": "Adding a slip family to a cubic lattice adds exactly the systems of the family: for each direction and plane obtained from the given indices by permutation and change of signs, with the direction in the plane, there is one and only one system along them, and there are no others. The number of systems does not depend on the lattice parameter.", "quantifier": "all lattice parameters, all Miller indices of direction and plane, all lattices already holding systems", "why_tests_cant": "the tests look at a few families with lattice parameter 1 or 2", "anchors": ["src/cp/crystallography.cxx: Lattice::add_slip_system", "src/cp/crystallography.cxx: SymmetryGroup equivalent_vectors", "src/math/nemlmath.cxx: isclose"]}
{"id": "C160", "title": "Matrices of interaction coefficients", "statement": "A square matrix built from its parameters has the documented entries: zero, identity, diagonal, one number per block of the diagonal, one number per pair of blocks, or entry by entry; every entry is set whatever was in the memory before. Wrong sizes and unknown types are refused. The product with a vector is refused unless the sizes fit and is otherwise the product with the array Python shows. Reading an entry by its indices gives that entry.", "quantifier": "all sizes, types, data, lists of block sizes (also empty blocks), memory contents and vectors", "why_tests_cant": "loops over arbitrary sizes and memory contents", "anchors": ["src/math/matrix.cxx: SquareMatrix::SquareMatrix", "src/math/matrix.cxx: setup_block_", "src/math/matrix.cxx: Matrix::matvec", "src/math/matrix_wrap.cxx: Matrix __call__"]}
{"id": "C161", "title": "Yield stress of a tension curve", "statement": "The yield stress of a tension curve is the stress of a point that lies both on the recorded curve (between the recorded points straight) and on the line of the initial slope through the offset strain; it is infinite exactly if the curve ends above that line. On a curve that softens it is the only such point. An elastic curve has none. For elastic-perfectly plastic behaviour recorded in steps not larger than the offset it is the plateau. The helper that works on given curves agrees.", "quantifier": "all curves with increasing strains, all positive moduli and offsets, all bracketing root finders", "why_tests_cant": "an intersection of a line with arbitrary recorded curves", "anchors": ["neml/drivers.py: uniaxial_test", "neml/drivers.py: offset_stress"]}
{"id": "C162", "title": "Strain controlled cycles with follow-up", "statement": "A cyclic test with follow-up records the points of its program: a ramp to the largest strain, then for every cycle a hold, a ramp down by the strain range at the strain rate, a hold and a ramp up. In a hold the strain changes by the fall of the stress over the modulus times the follow-up factor less one. Holds last as long as asked for. A test that is stopped has recorded a first part of this, and the row of each finished cycle has the extremes of its stresses. Without follow-up every cycle starts at the largest strain and turns at the smallest. A linear elastic material runs all cycles.", "quantifier": "all arguments, models, histories, stopping conditions and numbers of cycles", "why_tests_cant": "histories of arbitrarily many cycles on arbitrary materials", "anchors": ["neml/drivers.py: strain_cyclic_followup"]}
{"id": "C163", "title": "Strain controlled cycles with extrapolation", "statement": "The results of the strain controlled cyclic test with extrapolation form a table each row of which is either a cycle that was run, with the largest and smallest recorded stress on it, or the linear continuation of the two rows before it, by one cycle up to the given limit and by the given jump after it. Cycle numbers increase from one to at most the number asked for. With at least two cycles before the first extrapolation the test ends, after at most two rounds per cycle, without an exception. The history is continued linearly by its change over the last cycle. With all cycles before the first extrapolation the results are those of the plain cyclic test. A linear elastic material gets all the cycles.", "quantifier": "for all materials, strain ranges, rates, holds, step counts, cycle counts, minimum cycles, limits and jumps", "why_tests_cant": "Which rows are run and which are extrapolated depends on the stresses met on the way; tests only run one material with one set of limits.", "anchors": ["neml/drivers.py: strain_cyclic_extrapolated"]}
{"id": "C164", "title": "Tensor objects compute with the tensors they stand for", "statement": "A vector, a full, symmetric or skew tensor of order two, a full, symmetric, symmetric-skew or skew-symmetric tensor of order four, and a symmetric tensor of order six each stand for a table of components. Every product, sum, difference, multiple, contraction, transpose, inverse, trace, deviator, norm, cross product and outer product of the objects stands for the same operation on the components, whatever the classes of the operands. Conversion to the full class and back loses nothing. A tensor that has an inverse gets one. Comparison with == is an equivalence.", "quantifier": "for all pairs of classes and all components", "why_tests_cant": "Each class pair has its own overload on reduced storage with factors of the square root of two; tests try each on one pair of numbers.", "anchors": ["src/math/tensors.cxx: Tensor, Vector, RankTwo, Symmetric, Skew, RankFour, SymSymR4, SymSkewR4, SkewSymR4, SymSymSymR6", "include/math/tensors.h"]}
{"id": "C165", "title": "Tensors, rotations and histories own their memory or refer to somebody else's, and nothing leaks", "statement": "Objects that own their memory behave as values: copies are independent, assignment copies the value, operations change only the object written, and programs on them never touch memory that is not theirs; every array allocated has exactly one owner at all times and is given back with it. Objects that refer to other memory read and write that memory. Assignments, also from temporaries, write the value on the left. No sequence of operations in which memory referred to outlives its users leaks, frees memory twice or touches freed memory.", "quantifier": "for all programs of constructions, copies, moves, assignments, destructions, sums, multiples and resizings on any number of objects", "why_tests_cant": "Aliasing and double deletion depend on the history of copies, moves and temporaries; tests try single assignments and do not look at the heap.", "anchors": ["src/math/tensors.cxx: Tensor", "src/math/rotations.cxx: Quaternion", "src/history.cxx: History"]}
{"id": "C166", "title": "Matrices held by rows go through column routines and come back right, for all sizes", "statement": "The products of matrices, of matrices with vectors and of transposes, the dyadic products and their updates, the change of frame of a matrix, the product of a list of quaternions with one, the solution of a linear system, the inverse and the invariants are those of the matrices the arrays hold by rows, whatever the work arrays contain; the array behind the result is left alone. A linear system or an inverse raises the exception exactly if the matrix is singular, and a failed solve leaves the right hand side as it was. The condition number is that of the matrix.", "quantifier": "for all sizes and all matrices", "why_tests_cant": "Tests use one size and square or symmetric matrices, where a transposition or a wrong leading dimension can go unnoticed.", "anchors": ["src/math/nemlmath.cxx: mat_vec, mat_mat, rotate_matrix, solve_mat, invert_mat, condition"]}
{"id": "C167", "title": "Objects made from Python get what the call says", "statement": "Calling a class from Python with the right number of positional arguments, known keywords and values of the right kinds calls the C++ constructor with exactly those values and the declared defaults for the rest; a number given for a material property becomes a constant. Any other call raises. The order of the keywords does not matter. For every class, what the constructor reads is declared with the kind it is read as.", "quantifier": "every class with a constructor in Python, every list of arguments and keywords, every conversion of the values, every default", "why_tests_cant": "There are 121 classes with up to dozens of optional parameters; tests call each with a few combinations and never compare the declared kinds with those the constructors read.", "anchors": ["include/pyhelp.h:111-206", "include/objects.h:178-208", "src/cp/crystallography.cxx:630-694", "src/deparse.cxx:39-102"]}
{"id": "C168", "title": "The maximum principal stress measure", "statement": "The maximum principal effective stress is the largest pull across any plane, or zero when no plane is in tension. It scales with the stress, is convex, never below the mean stress, and does not change when the stress is turned. The derivative reported is the derivative wherever the largest principal stress is single and not zero, and everywhere else a subgradient.", "quantifier": "every stress, every turn of the frame, every eigenvalue routine that does what LAPACK documents (any sign and choice of eigenvectors)", "why_tests_cant": "Tests compare a handful of stresses with finite differences; the derivative depends on eigenvectors that LAPACK may return with any sign and, for equal eigenvalues, in any position.", "anchors": ["src/damage.cxx:764-828", "src/math/nemlmath.cxx:1137-1163"]}
{"id": "C169", "title": "The names of internal variables keep the parts of a composed model apart", "statement": "Superimposed flow rules each keep their own internal variables: all names are different, the variables of member k are stored from the offset handed to member k in the order in which the member lists them, and they start from the values the member asks for. Giving a rule or model a prefix changes names only.", "quantifier": "every number of members, every tree of rules, every prefix, everything made before", "why_tests_cant": "the composition is arbitrary and names such as model1_ and model10_ must never meet", "anchors": ["src/history.cxx: HistoryNEMLObject", "src/visco_flow.cxx: SuperimposedViscoPlasticFlowRule", "src/hardening.cxx: CombinedHardeningRule", "src/models.cxx: NEMLModel_sd::populate_static, KMRegimeModel", "src/walker.cxx: WrappedViscoPlasticFlowRule"]}
{"id": "C170", "title": "The numerical Jacobian is the Jacobian", "statement": "The numerically differentiated Jacobian of a system is exact if the residual is an affine function, and for any differentiable residual comes arbitrarily close to the matrix of partial derivatives as the step shrinks, with rows belonging to equations and columns to unknowns. The check value reported for a nonzero Jacobian is not negative and is zero only for the numerical Jacobian itself.", "quantifier": "every system, point, number of unknowns, step and former contents of the output array", "why_tests_cant": "a test compares one system at one point up to a tolerance; exchanged rows and columns go unnoticed in symmetric systems", "anchors": ["src/solvers.cxx: diff_jac, diff_jac_check"]}
{"id": "C171", "title": "Asking a solve to report its progress does not change its outcome", "statement": "With verbose output a solve gives the same point, residual and Jacobian, or the same exception, as without.", "quantifier": "every system, linear solver, tolerance, iteration limit and start", "why_tests_cant": "the verbose branch evaluates the system at other points on the side, and whether that matters depends on the system and the history of iterates", "anchors": ["src/solvers.cxx: newton, diff_jac_check"]}
{"id": "C172", "title": "Rules with named internal variables fill the flat derivative arrays others read", "statement": "A flow rule that works with named scalar and tensor variables delivers its derivatives in the flat arrays of the flow rule interface: rates by stress with one row for each history entry, flow direction by history with one row for each direction component and one column for each history entry, in the order of the layout.", "quantifier": "every list of variables, every block, every former contents of the arrays, any number of backstresses", "why_tests_cant": "blocks of 6x6 that happen to be symmetric hide an exchanged row and column", "anchors": ["src/walker.cxx: WrappedViscoPlasticFlowRule, WalkerFlowRule::dg_da"]}
{"id": "C173", "title": "The shear modulus of an elastic model", "statement": "The shear modulus an elastic model reports along a direction b in a plane with normal n, for a given orientation of the solid, is the energy of a unit shear in that plane: it does not depend on the lengths or signs of b and n, they may be exchanged, and turning solid and directions together changes nothing. An isotropic solid gives its shear modulus along every direction of every plane; a solid with positive stored energy gives positive moduli; the modulus asked for without a direction is the one in the basal plane (mu for a cubic solid given by moduli, (C11-C12)/2 for a transversely isotropic one). The rotated compliance undoes the rotated stiffness.", "quantifier": "for every stiffness, orientation and pair of directions", "why_tests_cant": "Tests compare a few moduli at one orientation; the statement ranges over all stiffness matrices, all orientations and all pairs of vectors.", "anchors": ["src/elasticity.cxx:31-52", "src/math/rotations.cxx:949-964", "src/math/tensors.cxx:1386-1389"]}
{"id": "C174", "title": "Inelastic crystal models in combination", "statement": "A combination of inelastic crystal models (slip rules, power-law flow, no flow, and combinations again) behaves as the sum of its parts: the rates of the variables of the parts and their derivatives by the stress stand in the order of the variables; the derivative of each rate by each variable is the one of the part that has the rate; the derivative of the plastic strain rate by each variable is the sum over the parts. The strength of a combination is the largest strength of its parts and never negative; the strength of a power law is the stress at which it flows at the rate one; the strength of a slip rule lies between the weakest and the strongest of its systems.", "quantifier": "for every number and nesting of parts, every list of variables and all values", "why_tests_cant": "Tests combine one slip model with one model without variables, where joining the parts' histories and adding them is the same; the difference shows only with a second slip model.", "anchors": ["src/cp/inelasticity.cxx: CombinedInelasticity, AsaroInelasticity::d_d_p_d_history", "src/history.cxx: History::add_union", "src/cp/sliprules.cxx: SlipMultiStrengthSlipRule::strength"]}
{"id": "C175", "title": "Changing the elastic model of a material model", "statement": "After set_elastic_model on a model, the model and everything its update uses work with the new elastic model, so it behaves like a model made with it: what it reports, its stress updates, its damage and what is written out when it is saved. Models that are not part of it are left as they are. Changing twice is changing once to the last.", "quantifier": "for every composition of models, including models that share parts, and every elastic model", "why_tests_cant": "Tests compare one small elastic step for a few compositions; they cannot see parts whose elastic model only matters later, nor other models that share a part.", "anchors": ["src/models.cxx: NEMLModel_sd::set_elastic_model, SmallStrainCreepPlasticity::set_elastic_model, GeneralIntegrator::set_elastic_model, KMRegimeModel::set_elastic_model", "src/damage.cxx: NEMLDamagedModel_sd::set_elastic_model", "src/general_flow.cxx: TVPFlowRule::set_elastic_model", "src/objects.cxx: NEMLObject::current_parameters"]}
{"id": "C176", "title": "Derivatives of creep rates by time and temperature", "statement": "The derivatives of the rate of a creep model by time and by temperature, as the model returns them, are the derivatives of the rate it returns.", "quantifier": "for every scalar creep rule, every coefficient as a function of temperature, every stress, strain, time and temperature", "why_tests_cant": "Tests difference the rate at one temperature for the two rules that implement the derivative; the default of the other rules is not tried with coefficients that vary.", "anchors": ["src/creep.cxx: ScalarCreepRule::dg_dt, ScalarCreepRule::dg_dT, J2CreepModel::df_dt, J2CreepModel::df_dT"]}
{"id": "C177", "title": "Arrays handed over from Python", "statement": "The numbers a function called from Python works with are the entries of the arrays it is given, row by row, whatever views into larger arrays they are (slices, transposes, reversed arrays) and whatever kind of number they hold; arrays it is asked to fill have the new entries afterwards; arrays it returns show their entries at their indices; arrays of a wrong shape are refused.", "quantifier": "for every shape, step, offset, number of dimensions and contents of memory", "why_tests_cant": "Tests pass freshly made arrays, which are without gaps; views with gaps take another path with copies.", "anchors": ["include/pyhelp.h: arr2ptr, alloc_vec, alloc_mat, alloc_3d, alloc_tensor", "src/block_wrap.cxx: block_evaluate", "src/models_wrap.cxx: update_sd", "src/history_wrap.cxx: copy_data", "src/cp/batch_wrap.cxx: set_orientation_passive_batch"]}
{"id": "C178", "title": "Perfect J2 plasticity is radial return", "statement": "With isotropic elasticity that is constant over the step, the update of a perfectly plastic J2 material returns the elastic trial stress if it lies within the surface or outside it by less than the solver tolerance, and otherwise the stress on the surface with the mean stress and deviatoric direction of the trial stress, found in one iteration, with the derivative of that stress as tangent; it is the only solution with a multiplier that is not negative.", "quantifier": "every state, strain, temperature, elastic constants, yield stress, solver settings and step", "why_tests_cant": "a law over all tensors and settings of the solver", "anchors": ["src/models.cxx: SmallStrainPerfectPlasticity", "src/solvers.cxx: newton", "src/surfaces.cxx: IsoKinJ2"]}
{"id": "C179", "title": "Energy less plastic work is the stored elastic energy, and plastic work does not fall", "statement": "At constant elastic constants the energy of perfect and hardening plasticity less the plastic work changes by the change of the stored elastic energy, in every step, substep and history; the plastic work never falls.", "quantifier": "every surface, flow rule, solver, history and division of steps", "why_tests_cant": "histories are unbounded", "anchors": ["src/models.cxx: work_and_energy"]}
{"id": "C180", "title": "Linear hardening J2 plasticity returns to the surface in one iteration", "statement": "With linear isotropic and kinematic hardening a trial stress outside the surface by the tolerance or more is returned along the effective deviator by the closed form of the linear problem, with the closed form history, onto the new surface, with the derivative of the closed form as tangent; every step returns, the isotropic variable never falls and the backstrain stays trace free.", "quantifier": "every state, strain, moduli and solver settings", "why_tests_cant": "a law over all tensors and settings of the solver", "anchors": ["src/models.cxx: SmallStrainRateIndependentPlasticity", "src/ri_flow.cxx: RateIndependentAssociativeFlow", "src/hardening.cxx: CombinedHardeningRule"]}
{"id": "C181", "title": "The grade 91 parameters vary smoothly with temperature", "statement": "The temperature dependent parameters of the Yaguchi rule for grade 91 steel are continuous in temperature except where their formula changes, and there the value changes by a small part of itself.", "quantifier": "for every parameter and every temperature of the range", "why_tests_cant": "Tests evaluate the rule at a few fixed temperatures. A formula that ends at the wrong temperature gives finite, plausible numbers on both sides.", "anchors": ["src/visco_flow.cxx:1854-1984"]}
{"id": "C182", "title": "J2 plasticity with isotropic hardening has exactly one return", "statement": "If the yield stress stays positive, is continuous and falls with plastic strain slower than three shear moduli, the equations of a rate independent step whose trial stress is outside the surface have exactly one solution with a multiplier that is not negative; it keeps the mean stress and the deviatoric direction of the trial stress and lies on the surface as hardened by the step.", "quantifier": "every state, strain, elastic moduli and hardening rule", "why_tests_cant": "a law over all tensors and all hardening functions", "anchors": ["src/models.cxx: SmallStrainRateIndependentPlasticity", "src/ri_flow.cxx: RateIndependentAssociativeFlow", "src/hardening.cxx: isotropic rules"]}
{"id": "C183", "title": "The update of J2 plasticity converges for rising, flattening hardening", "statement": "If the yield stress rises and flattens with plastic strain (linear, Voce, power law from a positive strain on, and their sums) the residual shrinks in every iteration at least by the initial hardening slope over itself plus three shear moduli; the update returns as soon as the limit of iterations allows that to reach a tolerance, with or without line search, on the surface or outside it by less than the tolerance, and no further from the exact solution than that.", "quantifier": "every state, strain, elastic moduli, rule of the kind and solver settings", "why_tests_cant": "convergence of an iteration over all inputs cannot be sampled", "anchors": ["src/models.cxx: SmallStrainRateIndependentPlasticity", "src/solvers.cxx: newton", "src/hardening.cxx: isotropic rules"]}
{"id": "C184", "title": "A viscoplastic J2 step has exactly one solution", "statement": "For Perzyna flow on the von Mises surface with isotropic hardening, isotropic elasticity and a flow function that grows with the overstress, the equations of a time step have exactly one solution. It is the trial state if that is not outside the surface; otherwise its deviator points along the trial deviator, its overstress lies between zero and that of the trial stress, and the plastic strain is what the flow at the final overstress produces in the time.", "quantifier": "every state, strain, time step, elastic moduli, hardening rule that softens slower than three shear moduli, and flow function of the kind", "why_tests_cant": "uniqueness over all stresses and steps cannot be sampled", "anchors": ["src/models.cxx: GeneralIntegrator", "src/general_flow.cxx: TVPFlowRule", "src/visco_flow.cxx: PerzynaFlowRule"]}
{"id": "C185", "title": "The viscoplastic update converges at a rate independent of step size, viscosity and exponent", "statement": "With power law flow of exponent at least one and hardening that rises and flattens, Newton's method from the elastic guess reduces the residual in every iteration by a factor that depends only on hardening slope and shear modulus. With the tolerances and iteration limit the code supplies and linear hardening the update therefore succeeds for every step whose trial stress is within the strain rate limit, and its stress is within the tolerance of the exact solution.", "quantifier": "every state, strain, time step, exponent at least one, viscosity, hardening slope and solver settings", "why_tests_cant": "stiff exponents, huge and tiny steps cannot all be tried", "anchors": ["src/models.cxx: GeneralIntegrator", "src/solvers.cxx: newton", "src/visco_flow.cxx: GPowerLaw"]}
{"id": "C186", "title": "A viscoplastic step is refused for its strain rate only if it flows faster than the limit", "statement": "The guard against excessive strain rates refuses a step only if the rate of its solution is above the limit.", "quantifier": "every state, strain, time step and flow function", "why_tests_cant": "a refusal looks like any other failure to converge", "anchors": ["src/general_flow.cxx: TVPFlowRule::s", "CMakeLists.txt: NEML_STRAIN_RATE_LIMIT"]}
{"id": "C187", "title": "Differences between two states never grow", "statement": "Two material points with linear isotropic hardening that are taken through the same strains at the same times come no further apart: the elastic energy of the difference in stress plus the hardening energy of the difference in hardening does not increase, with or without a rate dependence. Each strain history has one exact path.", "quantifier": "every pair of starting states, every strain history and every choice of time steps", "why_tests_cant": "two runs bound the growth for two starting states and one history", "anchors": ["src/models.cxx: SmallStrainRateIndependentPlasticity, GeneralIntegrator", "src/ri_flow.cxx: RateIndependentAssociativeFlow", "src/visco_flow.cxx: PerzynaFlowRule", "src/hardening.cxx: LinearIsotropicHardeningRule"]}
{"id": "C188", "title": "Errors of the solver add up but are not amplified, and the solver does not fail", "statement": "The path the code computes stays within the sum of the tolerances of its steps, each as elastic strain energy, of the exact path. With the default settings, a history of a material whose hardening never gets steeper and starts no steeper than three shear moduli is integrated to its end without a failure.", "quantifier": "every history of strain, temperature and time, every tolerance", "why_tests_cant": "a history is finitely many steps and the error of a step depends on all before it", "anchors": ["src/models.cxx: SmallStrainRateIndependentPlasticity::update_sd_actual, GeneralIntegrator::update_sd_actual", "src/nemlmath.cxx: solve", "src/solvers.cxx: newton"]}
{"id": "C189", "title": "Combined linear hardening is integrated exactly, and cycles do not drift apart", "statement": "With linear isotropic and kinematic hardening every strain history is computed to its end, each step has one exact result, the computed path stays within the number of steps times the tolerance of the exact one, and in a test that repeats the same strains no cycle changes the state more than the one before it, but for the tolerance.", "quantifier": "every strain history, every cycle, every starting state with a deviatoric backstrain", "why_tests_cant": "tests compare a few cycles with a stored answer", "anchors": ["src/models.cxx: SmallStrainRateIndependentPlasticity", "src/ri_flow.cxx: RateIndependentAssociativeFlow", "src/hardening.cxx: CombinedHardeningRule, LinearIsotropicHardeningRule, LinearKinematicHardeningRule"]}
{"id": "C190", "title": "Layout, comments and parameter order of a model file do not matter", "statement": "However a model file is laid out, the same models are read from it: blanks, line breaks, comments, declarations and processing instructions between tags, single or double quotes, escaped or plain characters, extra attributes and the order of the parameters of an object change nothing. The first entry with the name asked for is returned, and a name that is not there is reported by name. Malformed files and parameters given twice are refused.", "quantifier": "every document, every way to write it, every permutation of parameters, every name asked for", "why_tests_cant": "tests read a handful of files laid out in one style", "anchors": ["src/parse.cxx:39-90", "src/parse.cxx:149-213", "rapidxml/rapidxml.hpp:1381-1411", "rapidxml/rapidxml.hpp:1738-1934", "rapidxml/rapidxml.hpp:2081-2233"]}
{"id": "C191", "title": "Text that is not a value of the declared type is refused", "statement": "A parameter whose text is not a number of the declared type, a list of such numbers separated by blanks, or a slip or twin system with all its parts is refused with an error that names the parameter and the type.", "quantifier": "every text of every parameter of type int, size, list or slip system", "why_tests_cant": "tests try one bad value per type, none with a valid beginning", "anchors": ["src/parse.cxx:246-279", "src/parse.cxx:306-415", "src/parse.cxx:429-468"]}
{"id": "C192", "title": "Norton\u2013Bailey creep: the rate is the law's, and every implicit step can be solved", "statement": "The Norton\u2013Bailey creep rule gives the rate of the law A \u03c3\u207f t\u1d50 as a function of stress and strain. A creep update under a stress returns the one creep strain that satisfies the implicit step, from any creep strain including none, for every time exponent m between 0 and 1.", "quantifier": "all parameters A, m, n with 0 < m \u2264 1, all stresses, starting strains, time steps, tolerances and iteration limits", "why_tests_cant": "The existing test looks at one state far from zero strain with m > 1; that steps from zero strain never converge for m < 1/2, and that a reversed step has several solutions, only follows from the shape of the equation for all m and all steps", "anchors": ["src/creep.cxx:401-453", "src/creep.cxx:645-725", "src/creep.cxx:851-948", "src/solvers.cxx:29-136"]}
{"id": "C193", "title": "Stress relaxes as the creep law says during a hold", "statement": "A material that is elastic and creeps, held at a fixed strain over any number of steps of any lengths, gets an answer at every step. Its stress keeps its direction and mean, never grows, never falls below the exact relaxation curve \u03c3' = \u22123Gg(\u03c3), and solves the implicit step up to the solver's tolerances. Every step, held or not, has exactly one solution.", "quantifier": "all isotropic moduli, creep rules whose rate grows convexly with stress (power laws with n \u2265 1), initial stresses, hold histories and solver settings", "why_tests_cant": "Tests compare single updates with finite differences; that two nested Newton iterations come down to the root from above for every stress and step, and that short steps lose all creep however many there are, is about all histories", "anchors": ["src/models.cxx:1133-1302", "src/creep.cxx:645-725", "src/creep.cxx:851-948", "src/solvers.cxx:29-136"]}
{"id": "C194", "title": "Damage under a held load follows the creep damage law up to failure", "statement": "A damaged material with Kachanov creep damage that is held at a strain at which its undamaged stress stays the same: every update gets an answer as long as the implicit equation for the damage has one, which is so exactly for steps up to the fraction (phi/(phi+1))^phi of the remaining life. The damage lies between the old damage and one, does not fall, and the stress is the undamaged stress times one minus the damage. Over any history of holds the damage uses up the life that has passed, so nothing survives the life of the law by more than the tolerances. A step beyond the end of the life is refused.", "quantifier": "all base models, stresses, parameters with nonnegative exponents, starting damages, tolerances, lists of hold times", "why_tests_cant": "convergence from every state within a fixed number of iterations, and the bound on the life over histories of any length, are statements about all inputs", "anchors": ["src/damage.cxx:86-137", "src/damage.cxx:159-230", "src/damage.cxx:254-293", "src/damage.cxx:340-350", "src/damage.cxx:422-437", "src/damage.cxx:522-581", "src/damage.cxx:973-1035", "src/solvers.cxx:29-136"]}
{"id": "C195", "title": "The iteration limit is the number of iterations the solver may use", "statement": "A nonlinear solver given a limit of m iterations returns the first iterate within tolerance if there is one after at most m iterations, and otherwise reports that it failed. Raising the limit never loses an answer and never changes one. This holds for the Python solvers and the solver inside the material models alike.", "quantifier": "all systems, linear solvers, tolerances and limits", "why_tests_cant": "it is an equivalence over every path of iterates and every limit; tests run with a default limit far above what is needed", "anchors": ["src/solvers.cxx:69-136", "neml/nlsolvers.py:18-64", "neml/nlsolvers.py:66-120", "neml/nlsolvers.py:146-190", "neml/nlsolvers.py:192-239"]}
{"id": "C196", "title": "Chaboche backstresses stay within their saturation value, and the stress within the limits they give", "statement": "With non-negative constants a backstress of a Chaboche hardening rule has a largest equivalent stress C/gamma. However the material is strained, in whatever steps, a backstress that starts within this value is never reported above it by more than the solver tolerance of each step; straining in one direction brings it there. The equivalent stress a model reports is therefore at most the yield stress plus the sum of these values plus the viscous overstress.", "quantifier": "all numbers of backstresses, all constants, elastic models, yield surfaces, fluidities and recovery laws, all strains, times and step sizes, all histories of steps, all solver settings", "why_tests_cant": "a limit over all strain histories and step sizes; tests strain along a few curves and compare with an independent integration, which has the same temperature term", "anchors": ["src/hardening.cxx:657-710", "src/hardening.cxx:829-848", "src/hardening.cxx:898-912", "src/hardening.cxx:948-957", "src/hardening.cxx:1029-1340", "src/visco_flow.cxx:1136-1311", "src/ri_flow.cxx:226-327", "src/models.cxx:756-1068", "src/models.cxx:1304-1600"]}
{"id": "C197", "title": "Slow loading approaches the rate independent material, fast loading the elastic one", "statement": "A viscoplastic J2 material and the rate independent one with the same elastic constants, yield stress and linear hardening are taken through the same history of strains. If the strains change slowly enough the two report nearly the same stresses and plastic strains: the difference, measured as elastic and hardening energy, is at most twice the equivalent overstress that belongs to the strain rate times the plastic strain, whatever the number and size of the steps, and goes to zero with the rate. Strained fast the material responds elastically but for what can flow in the time.", "quantifier": "all isotropic elastic constants, yield stresses, linear hardening slopes from zero up, all growing flow functions (power laws among them), all histories of strains and times, all step sizes", "why_tests_cant": "a limit over all histories; tests compare single curves at single rates", "anchors": ["src/visco_flow.cxx:678-860", "src/visco_flow.cxx:629-680", "src/models.cxx:756-1068", "src/models.cxx:1304-1600", "src/ri_flow.cxx:14-110"]}
{"id": "C198", "title": "Networks of bars forget where they started", "statement": "Two networks of the same bars, of J2 plastic or viscoplastic materials with linear hardening or none, that differ only in the stresses and internal variables they start with (from assembly, welding or an earlier overload) are taken through the same history of loads, displacements and temperatures. The elastic and hardening energy of their difference, summed over the bars, never grows: stresses locked in never make the responses diverge, the stress in each bar never differs by more than the initial difference allows, and networks that start alike keep the same stresses whatever guesses the solver starts from. What the solver leaves out of balance adds at most its work on the difference of the displacements.", "quantifier": "for all graphs of bars, areas, lengths, moduli, temperature dependent yield stresses, hardening moduli, flow functions, boundary conditions, temperature histories, step sizes and pairs of states", "why_tests_cant": "needs virtual work for every network and the inequality of maximum dissipation for every pair of states and steps; tests run a few networks from zero", "anchors": ["neml/arbbar.py:66-350", "neml/uniaxial.py:71-141", "src/models.cxx:756-1068", "src/models.cxx:1304-1600"]}
{"id": "C199", "title": "Energy balance of networks of bars", "statement": "Over every step a network takes, the energy it records grows by the work of the recorded nodal forces on the displacements of the nodes (mean of the forces at both ends of the step), less the work of the stresses on the thermal strains of the bars; with fixed supports that is the work of the applied forces. At all times, also after a call that raised, the recorded forces do on every displacement of the nodes the work the stresses in the bars do.", "quantifier": "for all graphs, bars, materials that report their work, temperature histories, boundary conditions and sequences of calls", "why_tests_cant": "depends on every network and history; tests compare one or two runs", "anchors": ["neml/arbbar.py:66-147", "neml/arbbar.py:305-350", "neml/uniaxial.py:71-117"]}
{"id": "C200", "title": "No answer beyond the limit load", "statement": "Bars whose stress cannot exceed a yield stress (perfect plasticity, the yield stress may depend on temperature) carry at most their limit load: if for some motion of the free nodes the applied forces would do more work than the bars can dissipate, a solve to that load never returns an answer but raises. Whatever the tolerances, the recorded forces never do more work on a motion than the bars can dissipate.", "quantifier": "for all graphs, areas, yield stresses, temperature histories, boundary conditions, options of the solver and starting states", "why_tests_cant": "a collapse load is a bound over all mechanisms and all stress states; tests try single loads", "anchors": ["neml/arbbar.py:66-147", "neml/arbbar.py:163-214", "neml/arbbar.py:305-350", "neml/uniaxial.py:71-117", "src/models.cxx:756-1068"]}
{"id": "C201", "title": "Networks of bars shake down", "statement": "If the stresses of the same network of elastic bars under the same loads, displacements and temperatures, together with some residual stresses that balance each other, stay inside the yield stress of every bar by some margin, then the plastic strains the bars undergo over any number of steps or cycles have a sum that is bounded by the elastic energy of the residual stresses over the margin: the network adapts, it does not ratchet or fatigue.", "quantifier": "for all graphs, bars of J2 plasticity (perfect or with linear isotropic hardening) or viscoplasticity, load, displacement and temperature histories, residual stresses, and numbers of steps", "why_tests_cant": "the bound holds for endless histories; a test runs a given number of cycles", "anchors": ["neml/arbbar.py:66-147", "neml/arbbar.py:305-350", "neml/uniaxial.py:71-141", "src/models.cxx:756-1068", "src/visco_flow.cxx:629-770"]}
{"id": "C202", "title": "Proportional straining does not depend on the steps", "statement": "For rate independent J2 plasticity with isotropic hardening at constant temperature, strains whose deviators grow in one direction lead to the same stress and the same hardening variable in one step or in any number of steps of any sizes, whatever happens to the volume on the way. If the material flowed, the equivalent stress is the given hardening curve at the equivalent plastic strain, which is what the elastic strain leaves of the total strain.", "quantifier": "for all directions of straining, isotropic hardening rules (also softening ones that soften slower than three times the shear modulus), numbers and sizes of steps, and starting states without deviatoric stress or with one along the straining", "why_tests_cant": "holds for every subdivision of every path; a test compares a few", "anchors": ["src/models.cxx: SmallStrainRateIndependentPlasticity", "src/ri_flow.cxx: RateIndependentAssociativeFlow", "src/hardening.cxx:35-330"]}
{"id": "C203", "title": "Each load step of a network of hardening bars has one answer", "statement": "Whatever loads, prescribed displacements, temperatures and recorded states, if every node of a network is linked by bars to a node that is held and each bar answers at every strain, with a stress that rises with it (as in J2 plasticity or viscoplasticity with linear hardening), there is exactly one set of displacements for which the bars balance the loads. Displacements accepted by solve are as near to it as the tolerances, with a factor that does not depend on the options. With zero tolerances, two runs with the same time steps and different options (extrapolation, iteration limits, subdivisions tried) record the same network.", "quantifier": "All networks, bars with rising stress, loads, histories, options and time steps", "why_tests_cant": "A test compares a few solver settings on a few networks; that the equations have one answer, and that any accepted one is near it, has to hold for every network and every history.", "anchors": ["neml/arbbar.py: RJ", "neml/arbbar.py: solve", "neml/arbbar.py: newton", "neml/uniaxial.py: update"]}
{"id": "C204", "title": "The Bree diagram", "statement": "A Bree problem of one elastic, perfectly plastic material with constant expansion, under a constant hoop stress, whose temperatures go between a cold and a hot state. If the hoop stress plus the mean of the positive parts of the elastic thermal stresses, and half of each thermal stress, stay inside the yield stress by a margin, then after whatever number of steps and cycles the plastic strains, without sign and integrated through the wall, have added up to no more than a bound that only depends on thickness, modulus, yield stress and margin. If one of the two exceeds the yield stress, each passage from the cold to the hot state or back leaves a plastic strain of at least a fixed size somewhere, so that they grow without end. A hoop stress beyond the yield stress makes the step raise.", "quantifier": "every wall, integration rule with positive weights, temperature course, number, size and subdivision of steps; exact tolerances", "why_tests_cant": "a test runs some cycles of some walls; that the strains stay bounded, or grow, for ever on the right side of a boundary is a statement about all histories", "anchors": ["neml/axisym.py:276-429", "neml/arbbar.py:100-160", "neml/arbbar.py:305-336"]}
{"id": "C205", "title": "The example programs and Abaqus take one path", "statement": "The C, Fortran, C++ and Python example programs and a sequence of calls of the Abaqus user material take a material along the strain path they were asked for, in the steps asked for, and end in the same state. They say whether that succeeded and give back what they allocated.", "quantifier": "every material, path and number of steps", "why_tests_cant": "Tests run one material in one program and compare nothing between programs; failures in the middle of a path are not produced.", "anchors": ["util/c_interface/csimple.c:65-104", "util/f_interface/fsimple.f:74-115", "util/cxx_interface/cxxsimple.cxx:51-78", "util/neml2_verification/run_neml2_test.py:12-31", "util/neml2_verification/run_neml2_test_large_deformation_incremental.py:13-67", "util/abaqus/nemlumat.f:57-199"]}
{"id": "C206", "title": "Cyclic tests with linear hardening settle", "statement": "With linear isotropic and kinematic hardening, exactly integrated: if the strains of a test repeat themselves, the stresses approach stresses that repeat themselves, from every starting state. If the stresses repeat themselves and there is some hardening, the strains approach strains that repeat themselves, so ratchetting stops. With isotropic hardening all flow dies out in both. Without hardening strains need not come to rest. The steps the code computes are the exact ones unless a trial stress is outside the surface by less than the tolerance.", "quantifier": "every cycle of strains or stresses, every starting state with a deviatoric backstrain, every positive modulus, every nonnegative strength and hardening slope", "why_tests_cant": "tests follow a few cycles; that a cycle is approached is a statement about infinitely many", "anchors": ["src/models.cxx: SmallStrainRateIndependentPlasticity", "src/ri_flow.cxx: RateIndependentAssociativeFlow", "src/hardening.cxx: CombinedHardeningRule, LinearIsotropicHardeningRule, LinearKinematicHardeningRule"]}
{"id": "C207", "title": "Cyclic straining of a viscoplastic material settles", "statement": "With linear isotropic hardening or none, and a flow that grows with the overstress without jumps: if the strains and time steps of a test repeat themselves, the stresses of the exact update approach stresses that repeat themselves, from every starting state. With hardening all flow dies out and the hardening variable converges. Without hardening this needs a flow that grows beyond all bounds, as the power law does. Under a held strain the stress relaxes to a stress that is not outside the yield surface.", "quantifier": "every cycle of strains and time steps, every starting state, every flow function that grows without jumps", "why_tests_cant": "tests follow a few cycles; that a cycle is approached is a statement about infinitely many", "anchors": ["src/general_flow.cxx: TVPFlowRule", "src/visco_flow.cxx: PerzynaFlowRule, GPowerLaw", "src/models.cxx: GeneralIntegrator"]}
{"id": "C208", "title": "Refining the steps converges", "statement": "With linear isotropic and kinematic hardening: two runs along the same strain path from the same state within the yield surface, of which one leaves out some strains the other takes, end with stresses that differ by no more than 4 G times the root of the sum of squares of the strain lengths between the strains both take. So with more and more equal steps along a strain path of bounded rate the stresses converge, with an error of at most 4 G times the rate divided by the root of the number of steps. The update of the code never fails on such a path and its deviatoric stress is within that error, plus the solver tolerance times the number of steps, of that limit.", "quantifier": "every strain path of bounded rate, every choice of steps left out, every number of steps, every starting state within the surface with a deviatoric backstrain, every positive modulus, every nonnegative strength and slope", "why_tests_cant": "tests compare a few step sizes on proportional paths; convergence is a statement about infinitely many step sizes and all paths", "anchors": ["src/models.cxx: SmallStrainRateIndependentPlasticity::update_sd", "src/ri_flow.cxx: RateIndependentAssociativeFlow", "src/hardening.cxx: CombinedHardeningRule", "src/surfaces.cxx: IsoKinJ2"]}
{"id": "C209", "title": "Refining the steps of a viscoplastic material converges", "statement": "With linear isotropic hardening or none, and a flow that grows with the overstress without jumps, exactly solved: the rate of flow never exceeds the larger of its value at the start and the applied strain rate, whatever the steps. Two runs along the same strain history from the same state, of which one leaves out some strains the other takes, end with stresses that differ by no more than a constant times the root of the sum of squares of the times between the strains both take. So with more and more equal steps along a strain history of bounded rate the stresses converge, with an error that falls at least with the root of the number of steps. The steps the code computes are within that error, plus the tolerance of the solver times the number of steps, of the same limit.", "quantifier": "every strain history of bounded rate, every choice of steps left out, every number of steps, every starting state with a positive yield radius, inside or outside the yield surface, every flow function that grows without jumps", "why_tests_cant": "tests compare a few step sizes on proportional paths; convergence is a statement about infinitely many step sizes and all paths", "anchors": ["src/general_flow.cxx: TVPFlowRule", "src/visco_flow.cxx: PerzynaFlowRule, GPowerLaw", "src/models.cxx: GeneralIntegrator"]}
{"id": "C210", "title": "Taking the reported elastic strain off removes the stress", "statement": "If the strain a model reports through elastic_strains is taken off its total strain at the same temperature, the stress becomes zero, the history and the inelastic work stay as they are, and no other elastic change of strain does this. The rest of the strain changes along the plastic flow only.", "quantifier": "for every stress, history, elastic model with a compliance inverse to its stiffness, flow rule whose surface contains zero stress, solver, and every damage state", "why_tests_cant": "Tests compare the report with the compliance times the stress in a few states, not with what the model does when the strain is removed, and not with damage.", "anchors": ["src/models.cxx:179-187", "src/models.cxx:381-454", "src/general_flow.cxx:329-336", "src/walker.cxx:320-326", "src/damage.cxx:86-137", "include/damage.h:30-130", "src/cp/kinematics.cxx:581-600"]}
{"id": "C211", "title": "Trajectories in inverse pole figures follow their crystals", "statement": "Each line that inverse_pole_figure_trajectory draws stays with one crystal and goes through the points this crystal has in the figure of each step, and every trajectory given is shown.", "quantifier": "for every number of steps, crystals, trajectories and colours, all orientations, directions, sample and crystal symmetries", "why_tests_cant": "The number of points of a crystal depends on its orientation, so a plotted example says nothing about other histories of orientations, and plots are not compared by tests.", "anchors": ["neml/cp/polefigures.py:222-287", "neml/cp/polefigures.py:289-380"]}
{"id": "C212", "title": "Crystals and polycrystals through the small strain interface", "statement": "A crystal model used through update_sd does what it does through update_ld_inc when the body does not turn in the step. A polycrystal used through update_sd gives the average of its crystals, each used through update_sd by itself.", "quantifier": "for every crystal model, number of crystals, weights, orientations and sequence of strains, temperatures and times, including updates that fail", "why_tests_cant": "Tests compare a few steps of one polycrystal. They do not mix the two interfaces, and the result must hold along every history of strains.", "anchors": ["src/models.cxx:239-254", "src/cp/polycrystal.cxx:153-217"]}
