# Formal model of neml: design

## 1. What is here

* `properties.jsonl`: the properties, in English.
* `lean/Verif/Model/*.lean`: the model. Each definition cites the file and
  lines of `/repo` it follows and says where it simplifies.
* `lean/Verif/Props/*.lean`: the property theorems. Each file starts with a
  small specification where one is needed, then the theorems, each followed by
  a concrete case that meets its hypotheses.
* `MANIFEST.json`: property -> theorem names and status.
* `seeded/LOG.jsonl`: wrong programs tried against the theorems.

## 2. Conventions

* Numbers. Algebraic code is modelled over an arbitrary (ordered) field; code
  using sqrt, exp, log, pow over the reals. Floating point rounding, overflow,
  NaN and infinities are **not** modelled.
* Errors. A C++ exception is a value (`Except`), never a default result.
* Partial operations. Division by zero, reads past the end of an array and
  lookups of absent keys are either excluded by a stated hypothesis or shown as
  an error value; no theorem relies on Lean's totalised `x/0 = 0`.
* Loops are structural recursion, folds, or recursion with fuel plus a theorem
  that the fuel suffices.
* External code (LAPACK, user models called through virtual functions,
  `std::stod`, number printing) appears as a parameter, with its assumption in
  the theorem's hypotheses.
* If the code does not satisfy a property, the file contains (a) a theorem
  showing the failure on a concrete witness, and (b) a `_partial` theorem with
  the part that does hold. These are listed in section 5.

## 3. Trusted base

* Lean 4.33.0 kernel, and the Mathlib definitions used in statements.
* Axioms: only `propext`, `Classical.choice`, `Quot.sound` (checked with
  `#print axioms`).
* The model faithfully follows the cited lines. This is by reading, not proof.
* The conventions of section 2.

## 4. Plan per property

| id | modelled | proof |
|----|----------|-------|
| C01-C03 | History as order list + location map + flat data; `add`, `get`, writes | invariant by induction over operation sequences |
| C04, C05 | `reorder`, `operator=` with the map `insert` semantics of `copy_maps_` | counterexample + partial (raw layout; fresh target) |
| C06, C07 | `subset`, `split`, `add_union`, copies over a shared heap | refinement to name -> value maps |
| C08 | `history_derivative`, `unravel_hh`, `postmultiply` | index arithmetic |
| C09 | ParameterSet and Factory as association lists | decision logic, both directions |
| C10, C11 | parameter trees to XML trees and back; tokenizers on character lists | structural induction on trees and lists |
| C12-C16 | the interpolation classes | induction over knot lists; `HasDerivAt` |
| C17, C18 | `newton` with residual and linear solve as parameters | loop invariant |
| C19-C22 | the `while` loop of `update_sd_actual` over an arbitrary increment function | loop invariant in the integer counters, refinement to a chain of substeps |
| C23-C30 | the small strain models over an arbitrary elastic matrix / surface | algebra, induction over strain paths |
| C31-C34 | scalar damage models | algebra, induction over updates |
| C35-C37 | modulus conversion and stiffness matrices | field algebra |
| C38-C40 | J2 surfaces and flow rules | `HasDerivAt`, norm inequalities |
| C41-C43 | creep rules | decision logic, `HasDerivAt` |
| C44-C46 | hardening rules | `HasDerivAt`, algebra |
| C47-C50 | nemlmath helpers | algebra, induction over lists |
| C51-C55 | `Model/Rotation`: math/rotations.cxx except the memory handling and the python string conversions | polynomial identities, trigonometry at branch points |
| C89-C94 | the same model | trigonometry; spherical triangle inequality from Mathlib |
| C56-C58 | `Model/Crystal`: the substep loop, static variables and energies of singlecrystal.cxx; kinematics, solve, tangent and rotation as parameters | loop invariant and termination measure, any failure pattern; counterexamples + partials |
| C68, C95 | `Model/Symmetry`: operator tables and misorientation search, crystallography.cxx 13-249 | exact check of the tables over numbers (p+q√d)/2, carried to the reals by irrationality of √d; fold invariant for the search; counterexamples + partials |
| C59, C60 | lattice geometry and the rotation cache as a state machine | algebra; invariant over query sequences, counterexample |
| C61-C63, C99-C101 | `Model/Slip`: sliprules.cxx and slipharden.cxx at one temperature, histories as functions of the names | counterexample + partial; `HasDerivAt` along arbitrary paths; induction over implicit steps |
| C102-C104 | `Model/Kinematics`: inelasticity.cxx, the standard kinematics, residual, Jacobian and tangents of singlecrystal.cxx, at one temperature and orientation | `HasDerivAt` along arbitrary paths, implicit differentiation; sums over systems; equivariance under rotations |
| C64-C66, C105 | `Model/Polycrystal`: polycrystal.cxx, batch.cxx, postprocessors.cxx; the update of one crystal as a parameter | sums, induction over paths; commuting memory operations under any interleaving; loop invariants; geometry of half turns with a counterexample |
| C67, C106-C111 | `Model/CrystalDamage`: math/projections.cxx, crystaldamage.cxx and the damaged kinematics of kinematics.cxx | polynomial identities, norms, determinants; `HasDerivAt` along arbitrary paths; equivariance under rotations; counterexamples |
| C112 | `Model/PySolve`: nlsolvers.py and its copy in arbbar.py, `solve_try` of drivers.py; the residual function is a parameter that may raise and keep state | loop invariant; induction over iterations; monotone descent for the line search |
| C70 | `Model/Uniaxial`: uniaxial.py; the three-dimensional material is a parameter | the solver theorem; block elimination; inverse function theorem; induction over histories |
| C71 | `Model/Driver`: drivers.py 12-358; the material is a parameter | induction over sequences of steps; derivatives along arbitrary curves; counterexamples and a proof that the solver diverges |
| C69, C113 | `Model/BarNetwork`: arbbar.py 15-350; the graph is a list of edges, the uniaxial material a parameter | sums over edges; invariant over all histories of calls; arithmetic of substeps; quadratic forms on graphs |
| C72, C73 | Larson-Miller relation, interpolation construction checks | algebra, decision logic |
| C74, C75, C78 | Jacobians of the integrators; creep-plasticity and damage updates | coordinate derivatives of the residual; implicit differentiation along a path |
| C76, C77, C80 | large deformation tangents; tensor conversions; cubic symmetry | exact algebra on components |
| C79 | damage rate derivatives | `HasDerivAt` along arbitrary directions |
| C81-C85 | flow rules, surfaces, hardening and the complete materials | Frechet derivatives composed rule by rule |
| C86 | multiaxial creep | norm identities, Frechet derivative |
| C87 | rotation of surfaces, hardening, flow, creep, whole histories | equivariance of each part, induction over the path |
| C88 | `Model/Xml`: rapidxml printer and parser (flags 0) on character lists | structural induction on documents; enough rounds by length |
| C95 | misorientation searches | minimum over the finite operator products; inner products of quaternions |
| C114-C120 | `Model/Walker`: walker.cxx without the history wrapper and names with a prefix | chain rule on Fréchet derivatives; scaling of the implicit equations; induction over the steps of a history; counterexamples |
| C131-C134 | `Model/Vessel`: temperature cycles, time steps, layers, meshes and the rectangle rule of axisym.py | closed form of the phases in every cycle, induction over layers, legs and regions; convexity for graded meshes |
| C136-C139 | `Model/Axisym`: residual, Jacobian, condensed solver, iteration, substeps and records of the axisymmetric problem; LAPACK is taken as exact | summation over elements; Schur complement; invariants of the records over substeps and histories; regularity of elastic walls by a transfer argument from element to element; counterexamples |
| C140-C142 | `Model/Yaguchi`: the Yaguchi flow rule for grade 91 steel, all of it | Fréchet derivatives; polynomial inequalities over the range; induction over the steps of a history; existence of histories by the intermediate value theorem |
| C143-C148 | `Model/HuCocks`: precipitation, dislocation spacing, combined hardening and Arrhenius slip, all of hucocks.cxx but the object system and renaming | algebra over any number of species; derivatives along curves; an invariant of the differential equation (a constant difference); implicit step |
| C149-C153 | `Model/GenHuCocks`: all of generalizedhucocks.cxx but the object system; building precipitates with shared objects as values | names by induction over lists; sums over any number of species and precipitates; derivatives along curves; conserved quantities of the differential equation |
| C154-C156 | `Model/PoleFigures`: the points of polefigures.py, without drawing and without the normalisation of arguments in place | derivatives along curves on the sphere; groups of operators; the cubic operators as all signed permutations, then sorting |
| C157, C158 | `Model/Interface`: cinterface.cxx and util/abaqus/nemlumat.f, library calls as parameters; single precision of `sqrt(2.0)` ignored | induction over call sequences; chain rule |
| C159 | `Model/Lattice` and the point group table; specification `family`, `incident` of integer triples | the 24 operators are up to sign the 48 signed permutations (`decide +kernel`, finite and complete); exactness of the tolerance for bounded indices; counting by halves |
| C160 | `Model/SquareMatrix`: matrix.cxx, matrix_wrap.cxx with memory as a function on addresses; `dgemv` as the sum it computes | loops as sequences of writes; a write list without conflicts stores what it lists |
| C161 | `Model/DriverCycles` `yieldStress`, `offsetStress`: interpolation and the call of the root finder, which is a parameter | piecewise linear curves by induction over the points; intermediate value theorem for the existence of such a root finder |
| C162 | `Model/DriverCycles` `Follow`: the whole test on the driver of C71 | list of moves as specification; phases of the test make them one by one (induction over steps and cycles) |
| C163 | `Model/DriverCycles` `Extra`: the whole loop on the driver of C71 | inductive table of rows as specification; invariant over the rounds of the loop; elastic case by induction |
| C164 | `Model/Tensors`: all classes and operators of tensors.cxx on exact storage | components (`mean`) as specification; each operator compared with the operation on components |
| C165 | `Model/TensorStore`: constructors, assignments, destructors and resizing of `Tensor`, `Quaternion`, `History` as a machine on a heap | invariant of the heap under all operations; refinement to a store of values for objects that own their memory |
| C166 | `Model/Blas`: the wrappers of nemlmath.cxx on flat arrays; BLAS by its reference documentation with leading dimensions, LAPACK by what it computes in exact arithmetic | arithmetic of positions, algebra of matrices, for all sizes |
| C167 | `Model/PyCreate`, `Model/Classes` (pyhelp.h; `parameters()`, bindings and constructors of all classes, extracted by tools/classes.py) | Invariant of the assignment loops; refinement of the call to a specification; check of the complete table of classes. The conversions of pybind11 are parameters. |
| C168 | `Model/MaxPrincipal`: the measure and its derivative; LAPACK `dsyev` as a parameter with its documentation as hypothesis | Rayleigh quotients; second order perturbation bound for a single largest eigenvalue; the spectral theorem shows that the hypothesis can be met |
| C169 | `Model/Names`: prefixes and stored layouts in a heap of numbered objects, `populate`, `init`, constructors | induction over trees and member lists; injectivity of the numbered prefixes by the position of the first underscore; layouts through the tiling of C01 |
| C170 | `Model/NumJac`: `diff_jac`, `diff_jac_check` over an arbitrary system | induction over the columns; limit of difference quotients |
| C171 | `Model/NumJac`: `newton` with its verbose branch, silent solves from `Model/Newton` | induction over the iterations; counterexample |
| C172 | `Model/Wrapped`: named blocks over flat memory, the transposing copy | induction over the variables and the copy loops |
| C173 | `Model/ShearModulus`: rotated elastic tensors and the shear modulus, on top of the models of tensors and rotations | reduction of the full contraction to the six-vector energy, then C37 and C55 |
| C174 | `Model/CombinedInel`: joined histories as names, places and numbers, and what the crystal model reads from them by place or by name | places after repeated joins by induction on the parts; counting of entries |
| C175 | `Model/ElasticSwitch`: objects in memory with shared parts, and which parts are handed the new elastic model | the effect on memory as a closed form (induction on depth), compared with the objects an update uses |
| C176 | `Model/CreepTime`: time and temperature derivatives on top of `Model/Creep` | differentiation |
| C177 | `Model/PyArrays`: views into buffers, the conversion of arguments by pybind11 (as documented), pointers, new arrays, and the shape checks of a block evaluation | induction on the number of dimensions; case analysis of the checks |
| C178-C180 | `Model/SolveStep`: the Newton iteration of `Model/Newton` wired to perfect plasticity and to rate independent plasticity, started where models.cxx starts it; LAPACK is taken as exact | the first Newton step lands on an exact root; regularity of the Jacobian on its kernel; derivative of the closed form; balance per step lifted to substeps and histories |
| C181 | `Model/Yaguchi.lean` | limits from below and values at the temperatures where the formulas change; rational bounds of the exponentials |
| C182 | `Model/SolveStep.lean` | every solution lies on the ray along the trial deviator; intermediate value theorem and strict monotonicity of the gap |
| C183 | `Model/SolveStep.lean`, `Model/Newton.lean` | the iterates stay on the ray, so the iteration is scalar Newton on a convex decreasing gap; induction over the iterates |
| C184 | `Model/SolveStep.lean`, `Model/FlowRule.lean`, `Model/SmallStrain.lean` | every solution lies on the ray of the trial deviator; there the equations are one increasing function, intermediate value theorem |
| C185 | `Model/SolveStep.lean`, `Model/Newton.lean` | on the ray the iteration is scalar Newton on a concave increasing function; tangents and the bound e⁻¹ on the decay of the slope of a power; induction over the iterates |
| C186 | `Model/SolveStep.lean` | bound of the rate of the solution by the elastic rate; witness |
| C187 | `Model/SolveStep.lean` | monotone flow rules in the energy of differences; induction over histories |
| C188 | `Model/SolveStep.lean` | triangle inequality in the energy norm along the history; C183 and C185 for each step |
| C189 | `Model/SolveStep.lean` | maximum dissipation in the energy of differences; C180 for each step; induction over histories |
| C190 | `Model/XmlFile`, `Model/Xml`: the reader with comments, instructions, doctypes; `parse_xml` | induction over the relation "these nodes may be written as this text"; permutations of parameters by commuting assignments |
| C191 | `Model/Text`, `Model/Xml` | exact description of the accepted texts; for every number and every tail |
| C192 | `Model/Creep.lean` (`nortonBailey`, `j2`, `creepRJ`, `update`), `Model/Newton.lean` | On the line of the stress direction the step is `x − x_n − k x^(−p) = 0`, concave and increasing; Newton from the left rises to the root with residual ratio at most `1 − 1/L` (`newton_chain`). Below the guard the Jacobian is the identity: the iteration jumps to `k eps^(−p)` and back (`loop_cycles`). Floating point overflow of `eps^(−p)` not modelled. |
| C193 | `Model/CreepSeries.lean` (`elasticModel`, `cpSystem`, `cpSolve`, `creepOf`, `seriesUpdate`), `Model/SmallStrain.lean`, `Model/Creep.lean` | In a hold all iterates lie on the line of the old deviator, where the step is `σ + 3GΔt g(σ) = σ₀`, convex and increasing: Newton comes down to the root with residual ratio at most `1 − 1/L`. The Jacobian is regular as the stress derivative of the rate is positive semidefinite. Uniqueness from monotonicity of the rate. Exact curve by the mean value theorem. |
| C194 | `Model/DamageStep.lean`: the damaged model with its Newton solver | reduction of the seven equations to one; Newton on an accelerating function climbs to the smallest solution and halves the residual; weighted mean inequality for the solvable steps; induction over holds |
| C195 | `Model/Newton.lean`, `Model/PySolve.lean` | the path of iterates as an inductive relation; both loops shown equivalent to "some iterate on the path is within tolerance in time" by induction |
| C196 | `Props/ChabocheBound.lean` over `Model/Hardening.lean`, `Model/FlowRule.lean`, `Model/SolveStep.lean` | One implicit step of a backstress is solved for its norm: (1 + aγ√(2/3) + w)‖X1‖ ≤ ‖X0‖ + (2/3)aC + tol. The residual of an accepted point is bounded by the tolerance test of the Newton loop. Histories by induction. Partial: the temperature term lets a backstress grow at rest; a negative multiplier of the rate independent solver is not excluded. |
| C197 | `Props/SlowLimit.lean` over `Props/Contract.lean` | The contraction argument of C187 between a viscoplastic and a rate independent step leaves the slack overstress × plastic multiplier, which telescopes to the plastic strain. The overstress is an invariant of the strain rate. |
| C198 | `Model/BarNetwork.lean`, `Model/Uniaxial.lean`, exact steps of `Props/Contract.lean` | Per bar the energy of the difference grows at most by twice the work of the difference of the new stresses on the difference of the strain increments (convexity of the yield function); summed over the bars that work is the work of nodal forces by C69_virtual_work, zero at prescribed nodes and in equilibrium; induction over the steps. |
| C199 | `Model/BarNetwork.lean`, `Model/Uniaxial.lean` | Invariant over all calls for the recorded forces; per bar the trapezoidal work splits into that of the ends and that of the thermal strain; sum over the bars and virtual work. |
| C200 | `Model/BarNetwork.lean`, exact steps of `Props/Contract.lean` | Virtual work with the stresses bounded by the yield stress; the last accepted step of a call that returns would be in equilibrium with the final load. |
| C201 | `Model/BarNetwork.lean`, `Model/Uniaxial.lean`, exact steps of `Props/Contract.lean` | Melan: the elastic energy of the difference to the safe stresses falls over each step by the work of the margin on the plastic strain; virtual work for the network; induction over the steps. |
| C202 | exact steps of `Props/Contract.lean` (equations of `Model/SmallStrain.lean`, `Model/Hardening.lean`) | Induction over the steps: the plastic strains of the steps add up to that of one step, as the direction stays the same; uniqueness of the root of the consistency condition. |
| C203 | `Props/NetworkSolution.lean` on `Model/BarNetwork.lean`, `Model/Uniaxial.lean` | The residual is strongly monotone and Lipschitz: each bar contributes its slope, and a network whose nodes are all linked to held nodes has no mechanism, so that the strains bound the displacements. Existence by a contraction, uniqueness and the distance bound by monotonicity; histories by induction. J2 bars by their axial reduction. |
| C204 | `Model/Bree.lean`, `Model/BarNetwork.lean` | energy of the distance to the elastic stresses with residual stresses falls by the plastic work (Melan), residual stresses built from the two conditions of the diagram; outside, balance of a cold and a hot record bounds the thermal stresses by the plastic strain between them; induction over steps and calls |
| C205 | `Model/FrontEnds.lean`: the loops and exits of csimple.c, fsimple.f, cxxsimple.cxx (cxxstring.cxx has the same loop), `drive_all_strain`, `drive_all_L`, and a sequence of calls of the user material. The material is a parameter that may throw. | A `Trace` says what it means to take a material along points. Each loop is shown to compute it by induction over the steps; rates and times by algebra. |
| C206 | `Model/SolveStep.lean` | an exact step is a projection onto a closed convex set that moves with the strain or stress (proved from the step); projections are firm, so a path approaches a limit cycle once one path repeats itself, and that one comes from a fixed point or from enough hardening |
| C207 | `Model/SolveStep.lean`, `Model/FlowRule.lean` | the implicit step is shown to be the resolvent of a monotone map, so it is firm and its limits are steps; the abstract part of C206 applies; the path that repeats itself is elastic if there is hardening, or else a fixed point of one cycle on a ball that the flow keeps |
| C208 | `Model/SolveStep.lean`, `Model/FlowRule.lean` | the exact step is a projection onto the region of C206, which moves with the strain; many projections are compared with a single one by the variational inequality; summed over the steps both runs take, then the sequence of results is Cauchy; `C208_taken` adds the tolerance of each step by C189 |
| C209 | `Model/SolveStep.lean`, `Model/FlowRule.lean` | the implicit step is a step against a monotone map in the frame of C207; a step with more flow than strain rate lowers the overstress, which bounds the rates; many implicit steps are compared with a single one by monotonicity; then as in C208 |
| C210 | `Model/ReportedStrains` (`report`) with the updates of `Model/SmallStrain`, `Model/Damage` and `Model/CrystalDamage` | The specification is a second update with the reported strain taken off. For rate independent plasticity the trial stress of that update is zero, so it is elastic whatever the solver does. With damage the stress left over is computed exactly. |
| C211 | `Model/Trajectory` (`trajectory`, `line`, `trajectoryFigure`) over `Model/PoleFigures` | The figure of a step is the figures of its crystals one after the other, so with equal numbers of points the place in a row gives the crystal. For one crystal C156 gives the sorted direction. |
| C212 | `Model/SmallFace` (`updateSd`, `taylorLd`, `sdStep`, `sdRun`) over `Model/Polycrystal` | Induction over the steps of the caller: the store of the polycrystal agrees with the callers of the single crystals, and the stored spin stays zero. |
| C135 | `Model/Bree` on `Model/BarNetwork`: the thin wall problem as a network of parallel bars | the shape of the network is an invariant of all steps; equilibrium from the network laws; existence of steps for elastic walls; counterexamples |
| C130 | `Model/LargeDriver` | induction over the steps; logarithm bounds |
| C121-C129 | `Model/DriverTests`: the test functions of drivers.py on the modelled driver; steps solved exactly (tolerances zero) | invariant on the recorded points over every prefix of the run; existence of the runs for elastic materials; counterexamples |
| C96-C98 | `Model/Lattice`: Miller indices, families, plane numbering, twins | Euclid's algorithm by induction; invariant over every sequence of additions |

## 5. Disagreements between code and property

Each line names the theorem that proves the disagreement, where there is one.

| id | code | what happens | theorem |
|----|------|--------------|---------|
| C04 | history.cxx `reorder` | names read stale locations after a reorder; a missing name reads out of range | `C04_reorder_loses_names` |
| C05 | history.cxx `operator=` | `copy_maps_` inserts and so keeps stale locations of names already present | `C05_assign_wrong`, `C05_assign_iff` |
| C06 | history.cxx `add_union` | with overlapping names a name can read the value of another variable | `C06_union_overlap` |
| C08 | history.cxx `history_derivative` | joined names can collide | `C08_name_collision` |
| C09 | objects.cxx | an unregistered type throws `bad_function_call` and not the documented error | `C09_unregistered_error` |
| C09 | objects.cxx `assign_defered_parameter` | unknown names are accepted; a deferred object overrides a value assigned later | `C09_unknown_deferred_accepted`, `C09_later_value_lost` |
| C09 | objects.h `get_parameter` | reading a missing parameter makes the set count as complete | `C09_reading_completes` |
| C10 | parse.cxx `get_string` | a blank or empty string parameter is written, and reading it follows a null pointer | `C10_blank_string` |
| C10 | parse.cxx:168 | a parameter called `text` is dropped on reading | `C10_text_dropped` |
| C10 | deparse.cxx `make_double_node` | six digits only, also for pickling: different models give the same text | `C10_precision_lost` |
| C12 | interpolate.cxx | an empty table is valid and then reads out of range | `C12_empty_table` |
| C16 | interpolate.cxx generic piecewise | the last interval reads one past the end, for every valid table | `C16_reads_past_end` |
| C17 | solvers.cxx `newton` | a zero iteration limit returns the initial guess as a success | `C17_zero_limit` |
| C20 | models.cxx `SubstepModel_sd` | the finest announced step size is never tried | `C20_finest_size_not_tried` |
| C21 | models.cxx `SubstepModel_sd` | accumulated tangent wrong for models whose residual is not of rate form | `C21_perfect_plasticity_fails` |
| C22 | models.cxx `SubstepModel_sd` | a negative `max_divide` returns without computing | `C22_negative_max_divide` |
| C24 | models.cxx perfect plasticity | a purely elastic step under temperature change returns a stress different from the trial stress | `C24_nonisothermal_fails` |
| C26 | models.cxx regime models | list lengths unchecked | `C26_bad_lengths` |
| C28 | models.cxx creep-plasticity | history reported own-strain-last, used own-strain-first; regime model inside is read past its end | `C28_creep_plastic_mismatch`, `C28_creep_km_overrun` |
| C28 | models.cxx:1685-1688 with 34-39 | a regime model sets the whole history to zero when it is initialised, so a damage model around it loses its initial damage | `C28_regime_initial` |
| C29 | block.cxx | a failing point is not reported and every stress of the block is left unwritten | `C29_failure_hidden` |
| C30 | models.cxx / lapack Truesdell rate | differs from the small strain model even without spin | in `Props/LargeDef` |
| C31 | damage.cxx | energies and work are those of the undamaged stress | `C31_energy_disagrees` |
| C32 | damage.cxx | a kill threshold of one is never reported as deletable; above one is not kept | see manifest C32 |
| C33 | damage.cxx combined | members' initial damage is dropped, so work damage never starts | see manifest C33 |
| C37 | elasticity.cxx:389 | last entry of the transversely isotropic stiffness is half of what symmetry needs | `C37_transverse_disagrees` |
| C38 | surfaces.cxx | gradient wrong if the backstress has a trace | `C38_gradient_with_trace` |
| C40 | visco_flow.cxx superimposed | member histories are driven by the total rate; time parts weighted | `C40_history_not_own`, `C40_time_part_lost` |
| C41 | creep.cxx:340-368 | regional creep picks a wrong region | `C41_right_iff` |
| C42 | creep.cxx:605 | generic creep derivative has an extra factor | `C42_generic_right_iff` |
| C43 | creep.cxx `update` | creep increments below the absolute tolerance are dropped, for any number of steps | `C43_small_steps_lost` |
| C44 | hardening.cxx | Voce recovery derivative sign below `Rmin`; power law slope at zero is a constant | `C44_chabocheVoce_below`, `C44_powerLaw_at_zero` |
| C52 | rotations.cxx `to_rodrigues` | half turns give a finite vector that is another rotation | `C52_rodrigues_half_turn` |
| C52 | rotations.cxx `setVectors` | lengths are not checked | `C52_vectors_unchecked` |
| C53 | rotations.cxx `wexp` | zero spin turns every crystal by half a turn about z, because the default quaternion is not the identity | `C53_zero_spin_half_turn` |
| C54 | rotations.cxx `to_kocks_` | upside-down gimbal case gives another rotation | `C54_upside_down` |
| C56 | singlecrystal.cxx substep loop | every substep restarts from the stress at the start of the step, so a step in pieces returns only the last piece of the stress and of the rotation | `C56_elastic`, `C56_forced` |
| C56 | singlecrystal.cxx substep loop | every substep uses the temperature its own size into the step, so a step in pieces never uses the temperature at its end | `C56_temperature` |
| C56 | singlecrystal.cxx substep loop | more forced than allowed divisions never return; a negative limit returns without computing; the finest announced size is not reached by dividing | `C56_force_above_max`, `C56_negative_max`, `C56_gives_up`, `C56_smallest` |
| C57 | singlecrystal.cxx:189, 311 | an update zeroes the reference orientation and the Nye tensor; `Fe` then measures the rotation from a half turn about z | `C57_static_lost`, `C57_history`, `C57_Fe_ignores_reference`, `C57_Fe_wrong` |
| C58 | singlecrystal.cxx:693-716 | energy and work use the stress difference where the sum is meant | `C58_energy`, `C58_constant_stress` |
| C60 | crystallography.cxx `cache_rot_` | Schmid tensors are stored for one orientation and not dropped by an addition, so a system added after a question is read out of range | `C60_stale` |
| C60 | crystallography.cxx `cache_rot_` | the store is keyed by the hash only, so every finite hash confuses some pair of orientations | `C60_collision` |
| C61 | sliprules.cxx:129-131, 146-149, 164-167 | the loop over strengths reuses the name of the system index, so strength k is read for system k of the group, even past the end of the group | `C61_ignores_own`, `C61_right_iff`, `C61_next_group` |
| C62 | slipharden.cxx:814, 829 | simple linear hardening uses the matrix row of the number inside the group | `C62_simple_row`, `C62_simple_wrong` |
| C63 | slipharden.cxx general linear | the initial strength is in the variable and added again | `C63_general_doubled` |
| C63 | slipharden.cxx:1685-1699 | a Nye coefficient that vanishes at temperature zero is ignored at every temperature | `C63_nye_dropped` |
| C99 | slipharden.cxx `d_hist_d_h_ext` | missing for Voce per system and the saturating model; without the sign of slip in the dislocation density model | `C99_voce_per_missing`, `C99_fa_missing`, `C99_lanl_unsigned` |
| C101 | slipharden.cxx Voce per system | reversed slip softens below the initial strength | `C101_per_system_softens` |
| C102 | singlecrystal.cxx:596-613, 644 | tangents of a divided step lack the fraction of the step the last substep covers | `C102_divided` |
| C102 | inelasticity.cxx:379-416 | below the machine epsilon the power law gives no flow but a nonzero derivative | `C102_power_below` |
| C104 | rotations.cxx `wexp` | zero spin: see C53 | `C53_zero_spin_half_turn` |
| C64 | polycrystal.cxx:234 | elastic strains: the loop over components runs over the number of grains, so components are missing below six grains and memory is overwritten above | `C64_elastic_partial`, `C64_elastic_iff` |
| C64 | polycrystal.cxx:187-192 | old rates and stress of the caller are ignored; a first step is taken from zero | `C64_first_step` |
| C66 | postprocessors.cxx:83 | the fraction of the system that caused a reorientation stays recorded above the threshold | `C66_fractions` |
| C105 | postprocessors.cxx:88-89 | reorientation and orientation are composed in the wrong order | `C105_partial`, `C105_counterexample` |
| C67 | crystaldamage.cxx sigmoid | a critical value that is not positive makes a fresh crystal count as damaged | `C67_critical` |
| C107 | crystaldamage.cxx work rule | slip against the shear, as with a back strength, heals the plane | `C107_disagreement` |
| C109 | kinematics.cxx:112-127 | the change of an anisotropic stiffness with the spin is left out, so the stress of a spinning cubic crystal does not only turn | `C109_cubic` |
| C109 | kinematics.cxx:326-346 | the damaged kinematics turn the stress of the material and not that of the crystal, so a damaged crystal turns its stress too fast | `C109_damaged` |
| C110 | kinematics.cxx:326-346 | for anisotropic crystals the damaged kinematics without damage give another stress rate than the standard ones | `C110_cubic`, `C110_iff` |
| C111 | crystaldamage.cxx projection | the projection depends on the order of planes that are not perpendicular | `C111_disagreement` |
| C69 | arbbar.py:147 | the recorded dissipation of a network is its energy | `C69_dissipation_disagreement` |
| C113 | arbbar.py:99-105 | with `ndiv = 0` a step that cannot be solved is retried forever | `C69_ends_disagreement` |
| C70 | uniaxial.py:64-69 | the store handed to the material for elastic strains begins with the five lateral strains | `C70_elastic_disagreement` |
| C71 | drivers.py:348 | the Jacobian of a strain hold has its derivative of the held strain in column 0 whatever component is held; holding another component of an elastic bar raises | `C71_hold_disagreement`, `C71_hold_fails` |
| C71 | drivers.py:314 | the time of a stress rate step is proportional to the length of the direction vector | `C71_srate_disagreement` |
| C76 | models.cxx Jaumann | strain tangent wrong when stress and strain do not commute | `C76_jaumann_strain_tangent_wrong` |
| C79 | damage.cxx work damage | derivative wrong where the work rate vanishes | `C79_work_disagrees` |
| C83 | surfaces.cxx pressure surface | second derivative has the wrong sign for exponents below one | `C83_small_exponent` |
| C84 | hardening.h:425 | the non-isothermal switch is ignored | `C84_noniso_ignored` |
| C89 | rotations.cxx `exp_`, `pow` | the exponential drops the real part; zeroth powers are not numbers | `C89_length_lost`, `C89_undefined` |
| C91 | rotations.cxx `setEulerAngles` | Bunge second angle pi is read as zero | `C91_bunge_pi` |
| C92 | rotations.cxx `wlog` | not a number at the identity | `C92_identity_undefined` |
| C93 | rotations.cxx `rotate_to`, `rotate_to_family` | parallel directions give not-a-number; unscaled second direction gives a quaternion that is not a rotation | `C93_parallel_undefined`, `C93_family_unscaled` |
| C95 | crystallography.cxx `misorientation` | for the cyclic classes equivalent orientations get a nonzero misorientation, because the search never meets the opposite quaternion | `C95_cyclic` |
| C95 | crystallography.cxx `misorientation` | class 1: for opposite quaternions (the same rotation) the pairwise function gives the default half turn about z; the block version is right | `C95_no_symmetry` |
| C116 | walker.cxx `work_rate` | the work counts the time and temperature parts of the flow, which the stress rate leaves out | `C116_time_part` |
| C117 | walker.cxx:440-449 | the derivative of the softening is not zero at plastic strains up to zero, where the softening is one | `C117_softening_derivative_nonpositive` |
| C118 | walker.cxx `WalkerDragStress` | at the initial drag stress the static recovery reports derivatives of one | `C118_drag_t_initial` |
| C118 | walker.cxx:1433-1438 | the saturation value of a backstress is `l1 + 1` at zero plastic strain and `l` just above it | `C118_saturation_jump` |
| C119 | walker.cxx:1900 | at the initial drag stress, where every history starts, the reported derivative by the isotropic hardening is not zero although the rate does not depend on it | `C119_initial_derivative` |
| C119 | walker.cxx:2334-2340 | with the constant drag stress and a positive exponent the threshold is zero: yield strength and isotropic hardening have no effect | `C119_constant_drag` |
| C121 | drivers.py `strain_cyclic` | a smallest strain above the largest one is mirrored below it | `C121_above` |
| C121 | drivers.py `strain_cyclic` | strains are multiplied by the length of the direction vector | `C121_direction` |
| C122 | drivers.py `uniaxial_test` | stopped by damage, the test returns one energy more than strains | `C122_energy_disagreement` |
| C123 | drivers.py `stress_cyclic` | stopped by the limit on the strain increment, the test returns one time more than strains | `C123_stopped` |
| C124 | drivers.py:1246-1254 | times of the relaxation are counted from its first point, not from its start | `C124_origin` |
| C124 | drivers.py:1233-1238 | a logarithmic hold ends one unit of time early | `C124_log` |
| C124 | drivers.py `strain_hold_step` | the Jacobian is that of a hold along x whatever the axis | `C124_direction` |
| C125 | drivers.py:1340-1361 | times and strains of the creep are counted from the first point of the hold | `C125_origin` |
| C125 | drivers.py `creep` | the first point of a logarithmic hold is one unit of time after its start, however short the hold | `C125_log` |
| C126 | drivers.py `isochronous_curve` | the strain used is that at an earlier time | `C126_time` |
| C126 | drivers.py `isochronous_curve` | the search does not end if the creep strains stay below the largest strain | `C126_endless` |
| C127 | drivers.py:1395-1404 | data that do not start at time and strain zero are followed with an offset | `C127_offset` |
| C127 | drivers.py:1417 | the last data point is never returned | `C127_last` |
| C127 | drivers.py:1415 | the mechanical strain returned is the thermal strain | `C127_mechanical` |
| C128 | drivers.py:1462 | given strains in compression: nothing is run | `C128_compression` |
| C129 | drivers.py:1573 | a repeating response with a strain of zero is called ratcheting | `C129_zero_strain` |
| C131 | axisym.py:13-56 | a negative heating rate leaves the range of the two temperatures | `C131_range_disagreement` |
| C132 | axisym.py:58-108 | a negative rate makes the times go back | `C132_increasing_disagreement` |
| C134 | axisym.py:168-213 | the element in the middle of a biased region with an odd number of elements is out of line | `C134_odd_disagreement` |
| C135 | axisym.py:426-429 | the energies are weighted twice | `C135_energy_disagreement` |
| C135 | axisym.py, update_loading | the pressures recorded are still those of the old loading | `C135_pressures_disagreement` |
| C135 | axisym.py, step | a step that raises leaves the network at a later time than the one recorded | `C135_raised_disagreement` |
| C135 | axisym.py, step | the tolerances of a step have no effect | `C135_tolerance_disagreement` |
| C136 | axisym.py:755 | the axial stress is averaged over the thickness, not over the area: a net axial force without load | `C136_axial_disagreement` |
| C137 | axisym.py:560-566, 792-805 | regular equations with a singular block are not solved; with zero axial stiffness the code divides by zero | `C137_regular_disagreement` |
| C138 | axisym.py:583 | the last iteration allowed is never accepted | `C138_limit_disagreement` |
| C138 | axisym.py:620-622 | substeps after the first start from the final time: the state recorded for `t` is that of `t + dt` | `C138_time_disagreement`, `C138_substeps_disagreement`, `C139_substeps_disagreement` |
| C138 | axisym.py:634 | exceptions other than `RuntimeError` leave entries of substeps in the records | `C138_other_disagreement` |
| C140 | visco_flow.cxx:1740-1747 | `dh_da` takes the rate of the threshold from its target before the cut at zero: wrong for a threshold below zero and above its target (never reached, C142) | `C140_negative_disagreement` |
| C140 | visco_flow.cxx:1800-1846 | `dh_da_time` takes the deviator of a backstress where `h_time` takes the backstress: wrong for one with a trace (never reached, C142) | `C140_deviatoric_disagreement` |
| C140 | visco_flow.cxx:1563-1570 | `h` and the derivatives divide by the equivalent effective stress without the guard that `g` has: the first guess for material as new held at rest divides by zero | `C140_undefined`, `C140_guess_disagreement` |
| C144 | hucocks.cxx:499-526 | without precipitate `sfn_` leaves the derivative of the switch unassigned: the jacobian holds whatever the memory held | `C144_junk_disagreement` |
| C147 | hucocks.cxx:1026-1027, 1057 | with a dislocation model that reports derivatives by its own variables only, the reordering throws (not modelled; `Hard.Covers` is the hypothesis) | |
| C148 | hucocks.cxx:1124-1187 | the rate jumps by `g0 exp(-F)` at zero stress; beyond the strength it is not a number | `C148_jump_disagreement` |
| C149 | generalizedhucocks.cxx:130 | species are pushed into the precipitate object at every construction; a second model from the same precipitates subtracts every precipitate twice in both models | `C149_shared_disagreement` |
| C150 | generalizedhucocks.cxx:207-215 | only precipitates that hold the species are subtracted from the matrix volume; the species is then not conserved when others have volume | `C150_mass_disagreement` |
| C151 | generalizedhucocks.cxx:508-515 | the derivative of the ripening rate of the number density by a radius counts the change of volume fraction twice | `C151_ripening_disagreement` |
| C154 | polefigures.py:35-57 | the inverse projections return the mirror image, right only on the rim | `C154_inverse_disagreement` |
| C155 | polefigures.py:98 | sample operators are applied to crystal directions, so figures do not have the sample symmetry | `C155_sample_disagreement` |
| C155 | polefigures.py:89 | for other axes the rotation is the inverse of the right one | `C155_axes_disagreement` |
| C156 | polefigures.py:340-368 | the cubic triangle needs inversion; directions like (1,2,3) can have no point in it | `C156_missing_disagreement` |
| C157 | cinterface.cxx:40-88 | calls on a model never reset the status, so after one failure every later call is reported as failed | `C157_sticky_disagreement` |
| C157 | cinterface.cxx:30-38 | a failed thermal expansion is returned as -1 | `C157_value_disagreement` |
| C158 | nemlumat.f:37-55, 183 | the stiffness is divided by the strain factors instead of multiplied: shear columns are doubled | `C158_tangent_disagreement`, `C158_shear_disagreement` |
| C158 | nemlumat.f:175-179 | a failed update returns without destroying the model | `C158_leak_disagreement` |
| C159 | tensors.cxx:126-133, nemlmath.cxx:1106 | vectors are compared with the absolute tolerance 1e-8 whatever their length; with the lattice parameter in metres an FCC lattice has 2 slip systems instead of 12 | `C159_scale_disagreement` |
| C160 | matrix.cxx:79, 84 | `M(i, j)` of a matrix with m rows and n columns reads address j + i m instead of j + i n | `C160_read_disagreement` |
| C162 | drivers.py:930-933, 964-967 | a logarithmic hold ends one unit of time early, and one shorter than that goes back in time | `C162_log_disagreement` |
| C163 | drivers.py:735-737 | the stress an extrapolation goes on from is continued by the change over two cycles for every cycle jumped, and the check of the jump looks at the first component whatever the direction | `C163_stress_disagreement`, `C163_drift_disagreement` |
| C163 | drivers.py:716, 735 | after an earlier extrapolation the points counted back start inside a cycle; an elastic test jumps to three times its stress | `C163_shift_disagreement`, `C163_still_disagreement` |
| C163 | drivers.py:718 | fewer than two cycles before the first extrapolation raise as there is no row to continue from | `C163_min_disagreement` |
| C164 | tensors.cxx:734-738, 921-925 | the product of two symmetric tensors is its symmetric part, of two skew tensors its skew part; it is the product only if the tensors commute or one vanishes | `C164_sym_disagreement`, `C164_skew_disagreement` |
| C164 | tensors.cxx:126-133 | `==` measures the tolerance by its right operand, so it is not symmetric, and not transitive | `C164_eqv_disagreement` |
| C165 | tensors.cxx:82-96 | move assignment from a tensor without own memory makes the left tensor point there: the memory of an owner leaks and foreign memory is deleted; an entry of a history assigned to another is not written | `C165_move_disagreement`, `C165_entry_disagreement` |
| C165 | history.cxx:176-183 | `increase_store` deletes the array also when it belongs to the caller | `C165_reserve_disagreement` |
| C166 | nemlmath.cxx:946-955, 966 | `condition` takes the norm of the rows of the matrix and lets LAPACK take the norm of the columns of the inverse | `C166_condition_disagreement` |
| C166 | nemlmath.cxx:860-905 | with an empty inner range the leading dimension is zero, which BLAS refuses; the result is not set to zero | `C166_empty_disagreement` |
| C167 | cp/crystallography.cxx:640-641, 683-684 | the general and the cubic lattice declare `twin_systems` as slip systems but read and store twin systems: they cannot be passed from Python, what is passed is lost, and they are lost on saving and pickling | `C167_twins_disagreement`, `C167_pickle_disagreement` |
| C167 | pyhelp.h:114, 198-202 | a keyword repeating a positional argument is accepted and wins; an unknown keyword whose value is not a number raises a conversion error that does not name it | `C167_repeated_disagreement`, `C167_unknown_disagreement` |
| C169 | hardening.cxx:394-404 | combined hardening ignores its prefix: two rules with it cannot be superimposed | `C169_combined_disagreement` |
| C169 | visco_flow.cxx:119-120, 150-160 | a superposition ignores its own prefix: nested superpositions clash; so does one rule used twice | `C169_nested_disagreement`, `C169_twice_disagreement` |
| C169 | walker.cxx:1500-1505 | Walker rules look up prefixed names in a layout stored without prefix: every evaluation fails once they are superimposed | `C169_walker_disagreement` |
| C169 | models.cxx:161-167 | the stress is looked for without prefix: a regime model with a prefix cannot be initialised | `C169_regime_disagreement` |
| C171 | solvers.cxx:54-67, 110-116 | a verbose solve throws where the silent one succeeds, if the system throws beside an iterate | `C171_verbose_disagreement` |
| C172 | walker.cxx:1543-1555 | the derivative of a flow direction by a tensor variable arrives transposed (the shipped rules have symmetric ones) | `C172_direction_disagreement` |
| C173 | elasticity.cxx:41-45, 389 | the shear modulus of a transversely isotropic solid is reported as half of its basal modulus (from C37) | `C173_transverse_disagreement` |
| C174 | inelasticity.cxx:565-575, 640-653; history.cxx:86-101 | with two slip models in a combination the derivatives of the rates are too few and read beyond the end, and the derivative of the plastic strain rate is that of the second model alone; with three it is read beyond the end | `C174_square_disagreement`, `C174_second_disagreement`, `C174_third_disagreement` |
| C175 | damage.cxx:30-35, 327-332 | `set_elastic_model` of a model with damage does not reach the damage rule, which goes on computing inelastic strains with the old compliance; an elastic step then damages | `C175_damage_disagreement`, `C175_elastic_step_damages` |
| C175 | objects.cxx:15-23 | after `set_elastic_model` a saved model has the old elastic model | `C175_saved_disagreement` |
| C175 | models.cxx:1304-1308, damage.cxx:30-35 | with a shared part, changing one model leaves the other with two different elastic models | `C175_shared_disagreement` |
| C176 | creep.cxx:26-31, 200-208 | the derivative by temperature of a creep rate is zero for rules that do not override it, also for coefficients that vary with temperature and for the Arrhenius term of Mukherjee; Blackburn leaves out its prefactor | `C176_powerLaw_disagreement`, `C176_blackburn_disagreement`, `C176_mukherjee_disagreement` |
| C177 | block_wrap.cxx:50-65, batch_wrap.cxx | results are written into a copy, and lost, if an array to be filled has gaps or holds other numbers than doubles | `C177_fill_disagreement` |
| C177 | pyhelp.h:35-38, history_wrap.cxx:37-41 | `copy_data` of an array with gaps reads memory that was given back | `C177_copy_disagreement` |
| C177 | models_wrap.cxx:24-35 | the lengths of strain, stress and history are not checked | `C177_short_disagreement` |
| C177 | block_wrap.cxx:68-88 | the first length of an array without dimensions is read | `C177_scalar_disagreement` |
| C178 | models.cxx:427-438, solvers.cxx:71 | a trial stress outside the surface by less than the tolerance is kept as it is, but the tangent is that of plastic flow | `C178_band_disagreement` |
| C179 | models.cxx:628-659, 867-898 | with elastic constants that depend on temperature an elastic step changes the plastic work: heating a stressed material at constant strain lowers it | `C179_heating_disagreement` |
| C179 | models.cxx:628-659, 867-898 | the trapezoidal rule averages a start stress outside the end surface into the work, which falls on a reversal with falling yield stress | `C179_reversal_disagreement` |
| C181 | The rate sensitivity `B` of the threshold stress changes its formula at 773 K, where the two formulas differ by 65 percent; they meet at 673 K. | src/visco_flow.cxx:1945-1953 | `C181_jump_disagreement`, `C181_threshold_disagreement` |
| C186 | general_flow.cxx:88-89 | the limit of the strain rate is checked at every iterate, the first being the elastic trial stress: a step whose solution flows at 4 per second is refused because the trial stress would flow at 3e10 | `C186_refused_disagreement` |
| C190 | src/parse.cxx:165-213, rapidxml.hpp:2201-2205, 2167-2233 | closing tags are not compared; a parameter given twice keeps the last value; a comment inside a list of numbers ends the list silently | `C190_closing_disagreement`, `C190_twice_disagreement`, `C190_comment_disagreement` |
| C191 | src/parse.cxx:246-279, 306-340, 429-468 | `stoi`, `stoul`, `stod` ignore what follows the number: `2.7` is the integer 2, `1,2,3` the list of 1, `-1` the size 2^64-1, a slip system without a plane has its direction as plane | `C191_int_disagreement`, `C191_size`, `C191_commas_disagreement`, `C191_slip_disagreement` |
| C192 | creep.cxx:401-453, 694-707 | From zero creep strain the rate is that at strain `eps` and the Jacobian has no strain term. With m < 1/2 and no line search Newton overshoots to `k eps^(−p)`, falls back below `eps`, and repeats until the limit: every first step fails (example: m = 1/3, default tolerances). A reversed step can have three solutions. The documentation table swaps the meanings of m and n, and examples/creep.py and examples/energy.py pass them in the other order, so that they run with m = 2.5. | `C192_virgin_disagreement`, `C192_virgin_condition`, `C192_reversal_disagreement` |
| C193 | creep.cxx:645-665, models.cxx:1203-1245 | A step that creeps less than the inner absolute tolerance (1e-10) counts as converged at once, so a hold made of such steps never relaxes. The guard at `eps` makes the rate jump, so trial stresses just above it have no solution (negligible in size). | `C193_stuck_disagreement`, `C193_gap_disagreement` |
| C194 | damage.cxx creep damage | a step longer than the remaining life can be accepted with a damage above one and a reversed stress | `C194_past_failure_disagreement` |
| C195 | solvers.cxx:119-136 | the compiled solver throws away its last permitted iterate without testing it, so a limit of m allows m-1 iterations | `C195_last_iteration_disagreement` |
| C196 | `src/hardening.cxx:898-912` | The temperature term of a backstress is -√(2/3)·(dC/dT)/C·X. Heating a material whose C falls makes the backstress grow, by the factor 1/(1-√(2/3)) for C = 2-T heated from 0 to 1, past its saturation value and without any plastic strain. | `C196_heating_disagreement` |
| C205 | csimple.c, fsimple.f | A program that fails in a step keeps the model (and in C an array). The Fortran program exits with zero whatever happens. | `C205_exit_disagreement` |
| C205 | csimple.c:86 | The status of the report of the elastic strain is not looked at: the last one is lost, an earlier one is taken for a failure of the next stress update. | `C205_report_disagreement` |
| C205 | run_neml2_test.py:20-21 | `nsteps` is the number of points, so one step less is taken than by all other programs. | `C205_steps_disagreement` |
| C210 | include/damage.h (no `elastic_strains`), models.cxx:179-187 | A small strain model with scalar damage reports the compliance times its damaged stress. Taking this strain off leaves the fraction w of the stress. The damaged crystal divides by its projection first and is right. | `C210_damage_left`, `C210_damage_disagreement` |
| C211 | polefigures.py:259-270 | The points of all steps are made into one array. A crystal whose number of points changes, such as one turned from the reference orientation with direction (1, 2, 3), makes the call fail. | `C211_ragged_disagreement` |
| C211 | polefigures.py:258 | Trajectories are zipped with colours, so those beyond the last colour are left out without a warning. | `C211_colors_disagreement` |
| C212 | models.cxx:239-254, polycrystal.cxx:184-196 | The small strain interface passes zero for both spins, but a polycrystal takes the old spin from its store. After a step with spin a small strain step turns the crystals back. | `C212_turned_disagreement` |
| C130 | drivers.py:1607 | a rigid rotation gives a volume strain | `C130_rigid` |
| C118 | docs, walker | the documented recovery of the backstress lacks the factor of the square root of 2/3 the code has | (remark) |

## 6. Not modelled

* Floating point, LAPACK, number printing and reading (parameters with hypotheses).
* Python bindings other than the creation of objects (C167), plotting.
* The renaming of the Hu-Cocks models and the sharing of `HuCocksPrecipitationModel` objects.
* Threads: OpenMP regions appear as arbitrary orders of the per-point work (block update) or arbitrary interleavings of memory operations (crystal batches). Exceptions other than `NEMLError` in a thread are not modelled.
* MTS and temperature dependence of coefficients enter as arbitrary functions of temperature.
