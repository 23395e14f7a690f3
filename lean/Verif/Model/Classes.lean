import Verif.Model.Objects

/-!
# The classes that Python can make

For every class with a constructor in Python: the parameters it declares, with the C++ type of the default, the names of the
positional arguments in the binding, and the parameters its constructor and those of its bases read, with the type they are
read as. Extracted from the sources; each entry cites `parameters()`, the binding and the constructor. `CrystalOrientation`
has no such binding.
-/

namespace Neml.PyCreate

open Objects

/-- A declared parameter: `add_parameter` (no default) or `add_optional_parameter` with the slot its default is stored in
(`some none` for `{}`, which writes none) (objects.h:178-200). -/
structure Param where
  name : String
  kind : Kind
  dflt : Option (Option Kind)
  deriving DecidableEq

/-- A class. -/
structure Cls where
  name : String
  params : List Param
  pos : List String
  reads : List (String × Kind)

/-- cp/crystaldamage.cxx:52, cp/crystaldamage_wrap.cxx:31, 36. -/
def cNilDamageModel : Cls where
  name := "NilDamageModel"
  params := []
  pos := []
  reads := []

/-- cp/crystaldamage.cxx:161, cp/crystaldamage_wrap.cxx:40, 138. -/
def cPlanarDamageModel : Cls where
  name := "PlanarDamageModel"
  params := [⟨"damage", .object, none⟩, ⟨"shear_transform", .object, none⟩, ⟨"normal_transform", .object, none⟩, ⟨"lattice",
    .object, none⟩]
  pos := ["damage", "shear_transform", "normal_transform", "lattice"]
  reads := [("damage", .object), ("shear_transform", .object), ("normal_transform", .object), ("lattice", .object)]

/-- cp/crystaldamage.cxx:460, cp/crystaldamage_wrap.cxx:60, 444. -/
def cWorkPlaneDamage : Cls where
  name := "WorkPlaneDamage"
  params := []
  pos := []
  reads := []

/-- cp/crystaldamage.cxx:545, cp/crystaldamage_wrap.cxx:76, 525. -/
def cSigmoidTransformation : Cls where
  name := "SigmoidTransformation"
  params := [⟨"c", .double, none⟩, ⟨"beta", .double, none⟩, ⟨"cut", .double, some (some .double)⟩]
  pos := ["c", "beta"]
  reads := [("c", .double), ("beta", .double), ("cut", .double)]

/-- cp/crystaldamage.cxx:609, cp/crystaldamage_wrap.cxx:85, 591. -/
def cSwitchTransformation : Cls where
  name := "SwitchTransformation"
  params := [⟨"base", .object, none⟩]
  pos := ["base"]
  reads := [("base", .object)]

/-- cp/crystallography.cxx:151, cp/crystallography_wrap.cxx:21, 134. -/
def cSymmetryGroup : Cls where
  name := "SymmetryGroup"
  params := [⟨"sclass", .string, none⟩]
  pos := ["sclass"]
  reads := [("sclass", .string)]

/-- cp/crystallography.cxx:630, cp/crystallography_wrap.cxx:86, 612. -/
def cGeneralLattice : Cls where
  name := "GeneralLattice"
  params := [⟨"a1", .vecDouble, none⟩, ⟨"a2", .vecDouble, none⟩, ⟨"a3", .vecDouble, none⟩, ⟨"symmetry_group", .object, none⟩,
    ⟨"slip_systems", .slip, some (some .slip)⟩, ⟨"twin_systems", .slip, some (some .twin)⟩]
  pos := ["a1", "a2", "a3", "symmetry_group"]
  reads := [("a1", .vecDouble), ("a2", .vecDouble), ("a3", .vecDouble), ("symmetry_group", .object), ("slip_systems", .slip),
    ("twin_systems", .twin)]

/-- cp/crystallography.cxx:676, cp/crystallography_wrap.cxx:94, 658. -/
def cCubicLattice : Cls where
  name := "CubicLattice"
  params := [⟨"a", .double, none⟩, ⟨"slip_systems", .slip, some (some .slip)⟩, ⟨"twin_systems", .slip, some (some .twin)⟩]
  pos := ["a"]
  reads := [("a", .double), ("slip_systems", .slip), ("twin_systems", .twin)]

/-- cp/crystallography.cxx:727, cp/crystallography_wrap.cxx:102, 701. -/
def cHCPLattice : Cls where
  name := "HCPLattice"
  params := [⟨"a", .double, none⟩, ⟨"c", .double, none⟩, ⟨"slip_systems", .slip, some (some .slip)⟩, ⟨"twin_systems", .twin, some
    (some .twin)⟩]
  pos := ["a", "c"]
  reads := [("a", .double), ("c", .double), ("slip_systems", .slip), ("twin_systems", .twin)]

/-- cp/generalizedhucocks.cxx:15, cp/generalizedhucocks_wrap.cxx:24, 7. -/
def cGeneralizedHuCocksSpecies : Cls where
  name := "GeneralizedHuCocksSpecies"
  params := [⟨"composition", .string, none⟩, ⟨"c0", .double, none⟩, ⟨"ceq", .object, none⟩]
  pos := ["composition", "c0", "ceq"]
  reads := [("composition", .string), ("c0", .double), ("ceq", .object)]

/-- cp/generalizedhucocks.cxx:50, cp/generalizedhucocks_wrap.cxx:37, 27. -/
def cGeneralizedHuCocksPrecipitate : Cls where
  name := "GeneralizedHuCocksPrecipitate"
  params := [⟨"composition", .string, none⟩, ⟨"cp", .vecObject, none⟩, ⟨"am", .double, none⟩, ⟨"Vm", .double, none⟩, ⟨"D0",
    .double, none⟩, ⟨"Q0", .double, none⟩, ⟨"N0", .double, none⟩, ⟨"chi", .double, none⟩, ⟨"Cf", .object, none⟩,
    ⟨"species", .string, none⟩, ⟨"rate", .string, none⟩, ⟨"r_init", .double, some (some .double)⟩, ⟨"N_init", .double,
    some (some .double)⟩, ⟨"rs", .double, some (some .double)⟩, ⟨"Ns", .double, some (some .double)⟩]
  pos := ["composition", "species", "rate", "cp", "am", "Vm", "D0", "Q0", "N0", "chi", "Cf"]
  reads := [("composition", .string), ("species", .string), ("rate", .string), ("cp", .vecObject), ("am", .double), ("Vm",
    .double), ("D0", .double), ("Q0", .double), ("N0", .double), ("chi", .double), ("Cf", .object), ("r_init", .double),
    ("N_init", .double), ("rs", .double), ("Ns", .double)]

/-- cp/generalizedhucocks.cxx:156, cp/generalizedhucocks_wrap.cxx:77, 104. -/
def cGeneralizedHuCocksPrecipitationModel : Cls where
  name := "GeneralizedHuCocksPrecipitationModel"
  params := [⟨"species", .vecObject, none⟩, ⟨"precipitates", .vecObject, none⟩, ⟨"kboltz", .double, some (some .double)⟩, ⟨"Na",
    .double, some (some .double)⟩, ⟨"R", .double, some (some .double)⟩]
  pos := ["species", "precipitates"]
  reads := [("species", .vecObject), ("precipitates", .vecObject), ("kboltz", .double), ("Na", .double), ("R", .double)]

/-- cp/generalizedhucocks.cxx:642, cp/generalizedhucocks_wrap.cxx:107, 630. -/
def cGeneralizedHuCocksHardening : Cls where
  name := "GeneralizedHuCocksHardening"
  params := [⟨"dmodel", .object, none⟩, ⟨"pmodel", .object, none⟩, ⟨"ap", .double, none⟩, ⟨"ac", .double, none⟩, ⟨"b", .double,
    none⟩, ⟨"G", .object, none⟩]
  pos := ["dmodel", "pmodel", "ap", "ac", "b", "G"]
  reads := [("ap", .double), ("ac", .double), ("b", .double), ("G", .object), ("dmodel", .object), ("pmodel", .object)]

/-- cp/hucocks.cxx:46, cp/hucocks_wrap.cxx:23, 6. -/
def cHuCocksPrecipitationModel : Cls where
  name := "HuCocksPrecipitationModel"
  params := [⟨"c0", .vecObject, none⟩, ⟨"cp", .vecObject, none⟩, ⟨"ceq", .vecObject, none⟩, ⟨"am", .double, none⟩, ⟨"N0", .double,
    none⟩, ⟨"Vm", .double, none⟩, ⟨"chi", .double, none⟩, ⟨"D0", .double, none⟩, ⟨"Q0", .double, none⟩, ⟨"Cf", .object,
    none⟩, ⟨"kboltz", .double, some (some .double)⟩, ⟨"R", .double, some (some .double)⟩, ⟨"Na", .double, some (some
    .double)⟩, ⟨"rate", .sizeType, some (some .sizeType)⟩, ⟨"f_init", .double, some (some .double)⟩, ⟨"r_init", .double,
    some (some .double)⟩, ⟨"N_init", .double, some (some .double)⟩, ⟨"fs", .double, some (some .double)⟩, ⟨"rs", .double,
    some (some .double)⟩, ⟨"Ns", .double, some (some .double)⟩, ⟨"w", .double, some (some .double)⟩]
  pos := ["c0", "cp", "ceq", "am", "N0", "Vm", "chi", "D0", "Q0", "Cf"]
  reads := [("c0", .vecObject), ("cp", .vecObject), ("ceq", .vecObject), ("am", .double), ("N0", .double), ("Vm", .double),
    ("chi", .double), ("D0", .double), ("Q0", .double), ("Cf", .object), ("kboltz", .double), ("R", .double), ("Na",
    .double), ("rate", .sizeType), ("f_init", .double), ("r_init", .double), ("N_init", .double), ("fs", .double), ("rs",
    .double), ("Ns", .double), ("w", .double)]

/-- cp/hucocks.cxx:570, cp/hucocks_wrap.cxx:60, 539. -/
def cDislocationSpacingHardening : Cls where
  name := "DislocationSpacingHardening"
  params := [⟨"J1", .object, none⟩, ⟨"J2", .object, none⟩, ⟨"K", .object, none⟩, ⟨"L0", .double, none⟩, ⟨"a", .double, none⟩, ⟨"b",
    .double, none⟩, ⟨"G", .object, none⟩, ⟨"L", .object, none⟩, ⟨"varprefix", .string, some (some .string)⟩]
  pos := ["J1", "J2", "K", "L0", "a", "b", "G", "L"]
  reads := [("J1", .object), ("J2", .object), ("K", .object), ("L0", .double), ("a", .double), ("b", .double), ("G", .object),
    ("L", .object), ("varprefix", .string)]

/-- cp/hucocks.cxx:844, cp/hucocks_wrap.cxx:69, 807. -/
def cHuCocksHardening : Cls where
  name := "HuCocksHardening"
  params := [⟨"dmodel", .object, none⟩, ⟨"pmodels", .vecObject, none⟩, ⟨"ap", .double, none⟩, ⟨"ac", .double, none⟩, ⟨"b", .double,
    none⟩, ⟨"G", .object, none⟩]
  pos := ["dmodel", "pmodels", "ap", "ac", "b", "G"]
  reads := [("dmodel", .object), ("pmodels", .vecObject), ("ap", .double), ("ac", .double), ("b", .double), ("G", .object)]

/-- cp/hucocks.cxx:1129, cp/hucocks_wrap.cxx:78, 1105. -/
def cArrheniusSlipRule : Cls where
  name := "ArrheniusSlipRule"
  params := [⟨"resistance", .object, none⟩, ⟨"g0", .double, none⟩, ⟨"A", .double, none⟩, ⟨"B", .double, none⟩, ⟨"b", .double,
    none⟩, ⟨"a0", .double, none⟩, ⟨"G0", .double, none⟩, ⟨"k", .double, some (some .double)⟩]
  pos := ["resistance", "g0", "A", "B", "b", "a0", "G0"]
  reads := [("g0", .double), ("A", .double), ("B", .double), ("b", .double), ("a0", .double), ("G0", .double), ("k", .double),
    ("resistance", .object)]

/-- cp/inelasticity.cxx:34, cp/inelasticity_wrap.cxx:34, 18. -/
def cNoInelasticity : Cls where
  name := "NoInelasticity"
  params := []
  pos := []
  reads := []

/-- cp/inelasticity.cxx:158, cp/inelasticity_wrap.cxx:43, 141. -/
def cAsaroInelasticity : Cls where
  name := "AsaroInelasticity"
  params := [⟨"rule", .object, none⟩]
  pos := ["rule"]
  reads := [("rule", .object)]

/-- cp/inelasticity.cxx:348, cp/inelasticity_wrap.cxx:52, 335. -/
def cPowerLawInelasticity : Cls where
  name := "PowerLawInelasticity"
  params := [⟨"A", .object, none⟩, ⟨"n", .object, none⟩]
  pos := ["A", "n"]
  reads := [("A", .object), ("n", .object)]

/-- cp/inelasticity.cxx:497, cp/inelasticity_wrap.cxx:60, 485. -/
def cCombinedInelasticity : Cls where
  name := "CombinedInelasticity"
  params := [⟨"models", .vecObject, none⟩]
  pos := ["models"]
  reads := [("models", .vecObject)]

/-- cp/kinematics.cxx:69, cp/kinematics_wrap.cxx:49, 51. -/
def cStandardKinematicModel : Cls where
  name := "StandardKinematicModel"
  params := [⟨"emodel", .object, none⟩, ⟨"imodel", .object, none⟩]
  pos := ["emodel", "imodel"]
  reads := [("emodel", .object), ("imodel", .object)]

/-- cp/kinematics.cxx:303, cp/kinematics_wrap.cxx:59, 285. -/
def cDamagedStandardKinematicModel : Cls where
  name := "DamagedStandardKinematicModel"
  params := [⟨"emodel", .object, none⟩, ⟨"imodel", .object, none⟩, ⟨"dmodel", .object, none⟩]
  pos := ["emodel", "imodel", "dmodel"]
  reads := [("dmodel", .object), ("imodel", .object), ("emodel", .object)]

/-- cp/polycrystal.cxx:134, cp/polycrystal_wrap.cxx:36, 123. -/
def cTaylorModel : Cls where
  name := "TaylorModel"
  params := [⟨"model", .object, none⟩, ⟨"qs", .vecObject, none⟩, ⟨"nthreads", .int, some (some .int)⟩, ⟨"weights", .vecDouble, some
    none⟩]
  pos := ["model", "qs"]
  reads := [("model", .object), ("qs", .vecObject), ("nthreads", .int), ("weights", .vecDouble)]

/-- cp/postprocessors.cxx:24, cp/postprocessors_wrap.cxx:23, 11. -/
def cPTRTwinReorientation : Cls where
  name := "PTRTwinReorientation"
  params := [⟨"threshold", .object, none⟩, ⟨"prefix", .string, some (some .string)⟩]
  pos := ["threshold"]
  reads := [("threshold", .object), ("prefix", .string)]

/-- cp/singlecrystal.cxx:33, cp/singlecrystal_wrap.cxx:26, 5. -/
def cSingleCrystalModel : Cls where
  name := "SingleCrystalModel"
  params := [⟨"kinematics", .object, none⟩, ⟨"lattice", .object, none⟩, ⟨"initial_rotation", .object, some (some .object)⟩,
    ⟨"alpha", .object, some (some .object)⟩, ⟨"update_rotation", .bool, some (some .bool)⟩, ⟨"rtol", .double, some (some
    .double)⟩, ⟨"atol", .double, some (some .double)⟩, ⟨"miter", .int, some (some .int)⟩, ⟨"verbose", .bool, some (some
    .bool)⟩, ⟨"linesearch", .bool, some (some .bool)⟩, ⟨"max_divide", .int, some (some .int)⟩, ⟨"postprocessors",
    .vecObject, some none⟩, ⟨"elastic_predictor", .bool, some (some .bool)⟩, ⟨"fallback_elastic_predictor", .bool, some
    (some .bool)⟩, ⟨"force_divide", .int, some (some .int)⟩, ⟨"elastic_predictor_first_step", .bool, some (some .bool)⟩]
  pos := ["kinematics", "lattice"]
  reads := [("kinematics", .object), ("lattice", .object), ("initial_rotation", .object), ("alpha", .object), ("update_rotation",
    .bool), ("rtol", .double), ("atol", .double), ("miter", .int), ("verbose", .bool), ("linesearch", .bool),
    ("max_divide", .int), ("postprocessors", .vecObject), ("elastic_predictor", .bool), ("fallback_elastic_predictor",
    .bool), ("force_divide", .int), ("elastic_predictor_first_step", .bool)]

/-- cp/slipharden.cxx:75, cp/slipharden_wrap.cxx:29, 58. -/
def cFixedStrengthHardening : Cls where
  name := "FixedStrengthHardening"
  params := [⟨"strengths", .vecObject, none⟩]
  pos := ["strengths"]
  reads := [("strengths", .vecObject)]

/-- cp/slipharden.cxx:174, cp/slipharden_wrap.cxx:38, 148. -/
def cVocePerSystemHardening : Cls where
  name := "VocePerSystemHardening"
  params := [⟨"initial", .vecDouble, none⟩, ⟨"k", .vecObject, none⟩, ⟨"saturation", .vecObject, none⟩, ⟨"m", .vecObject, none⟩,
    ⟨"varprefix", .string, some (some .string)⟩]
  pos := ["initial", "k", "saturation", "m"]
  reads := [("initial", .vecDouble), ("k", .vecObject), ("saturation", .vecObject), ("m", .vecObject), ("varprefix", .string)]

/-- cp/slipharden.cxx:360, cp/slipharden_wrap.cxx:48, 336. -/
def cFASlipHardening : Cls where
  name := "FASlipHardening"
  params := [⟨"k", .vecObject, none⟩, ⟨"saturation", .vecObject, none⟩, ⟨"varprefix", .string, some (some .string)⟩]
  pos := ["k", "saturation"]
  reads := [("k", .vecObject), ("saturation", .vecObject), ("varprefix", .string)]

/-- cp/slipharden.cxx:539, cp/slipharden_wrap.cxx:56, 511. -/
def cGeneralLinearHardening : Cls where
  name := "GeneralLinearHardening"
  params := [⟨"M", .object, none⟩, ⟨"tau_0", .vecDouble, none⟩, ⟨"absval", .bool, some (some .bool)⟩, ⟨"varprefix", .string, some
    (some .string)⟩]
  pos := ["M", "tau_0"]
  reads := [("M", .object), ("tau_0", .vecDouble), ("absval", .bool), ("varprefix", .string)]

/-- cp/slipharden.cxx:767, cp/slipharden_wrap.cxx:65, 740. -/
def cSimpleLinearHardening : Cls where
  name := "SimpleLinearHardening"
  params := [⟨"G", .object, none⟩, ⟨"tau_0", .vecDouble, none⟩, ⟨"varprefix", .string, some (some .string)⟩]
  pos := ["G", "tau_0"]
  reads := [("G", .object), ("tau_0", .vecDouble), ("varprefix", .string)]

/-- cp/slipharden.cxx:975, cp/slipharden_wrap.cxx:74, 936. -/
def cLANLTiModel : Cls where
  name := "LANLTiModel"
  params := [⟨"tau_0", .vecObject, none⟩, ⟨"C_st", .object, none⟩, ⟨"mu", .vecObject, none⟩, ⟨"k1", .vecObject, none⟩, ⟨"k2",
    .vecObject, none⟩, ⟨"X_s", .double, some (some .double)⟩, ⟨"inivalue", .double, some (some .double)⟩, ⟨"varprefix",
    .string, some (some .string)⟩, ⟨"twinprefix", .string, some (some .string)⟩]
  pos := ["tau_0", "C_st", "mu", "k1", "k2"]
  reads := [("tau_0", .vecObject), ("C_st", .object), ("mu", .vecObject), ("k1", .vecObject), ("k2", .vecObject), ("X_s",
    .double), ("inivalue", .double), ("varprefix", .string), ("twinprefix", .string)]

/-- cp/slipharden.cxx:1419, cp/slipharden_wrap.cxx:92, 1378. -/
def cSumSlipSingleStrengthHardening : Cls where
  name := "SumSlipSingleStrengthHardening"
  params := [⟨"models", .vecObject, none⟩]
  pos := ["models"]
  reads := [("models", .vecObject)]

/-- cp/slipharden.cxx:1644, cp/slipharden_wrap.cxx:123, 1623. -/
def cVoceSlipHardening : Cls where
  name := "VoceSlipHardening"
  params := [⟨"tau_sat", .object, none⟩, ⟨"b", .object, none⟩, ⟨"tau_0", .object, none⟩, ⟨"k", .object, some (some .object)⟩,
    ⟨"var_name", .string, some (some .string)⟩]
  pos := ["tau_sat", "b", "tau_0"]
  reads := [("tau_sat", .object), ("b", .object), ("tau_0", .object), ("k", .object), ("var_name", .string)]

/-- cp/slipharden.cxx:1726, cp/slipharden_wrap.cxx:132, 1706. -/
def cLinearSlipHardening : Cls where
  name := "LinearSlipHardening"
  params := [⟨"tau0", .object, none⟩, ⟨"k1", .object, none⟩, ⟨"k2", .object, none⟩, ⟨"var_name", .string, some (some .string)⟩]
  pos := ["tau0", "k1", "k2"]
  reads := [("tau0", .object), ("k1", .object), ("k2", .object), ("var_name", .string)]

/-- cp/sliprules.cxx:277, cp/sliprules_wrap.cxx:39, 255. -/
def cKinematicPowerLawSlipRule : Cls where
  name := "KinematicPowerLawSlipRule"
  params := [⟨"backstrength", .object, none⟩, ⟨"isostrength", .object, none⟩, ⟨"flowresistance", .object, none⟩, ⟨"gamma0",
    .object, none⟩, ⟨"n", .object, none⟩]
  pos := ["backstrength", "isostrength", "flowresistance", "gamma0", "n"]
  reads := [("backstrength", .object), ("isostrength", .object), ("flowresistance", .object), ("gamma0", .object), ("n", .object)]

/-- cp/sliprules.cxx:398, cp/sliprules_wrap.cxx:57, 379. -/
def cPowerLawSlipRule : Cls where
  name := "PowerLawSlipRule"
  params := [⟨"resistance", .object, none⟩, ⟨"gamma0", .object, none⟩, ⟨"n", .object, none⟩]
  pos := ["resistance", "gamma0", "n"]
  reads := [("gamma0", .object), ("n", .object), ("resistance", .object)]

/-- creep.cxx:47, creep_wrap.cxx:141, 34. -/
def cPowerLawCreep : Cls where
  name := "PowerLawCreep"
  params := [⟨"A", .object, none⟩, ⟨"n", .object, none⟩]
  pos := ["A", "n"]
  reads := [("A", .object), ("n", .object)]

/-- creep.cxx:104, creep_wrap.cxx:151, 91. -/
def cNormalizedPowerLawCreep : Cls where
  name := "NormalizedPowerLawCreep"
  params := [⟨"s0", .object, none⟩, ⟨"n", .object, none⟩]
  pos := ["s0", "n"]
  reads := [("s0", .object), ("n", .object)]

/-- creep.cxx:155, creep_wrap.cxx:158, 139. -/
def cBlackburnMinimumCreep : Cls where
  name := "BlackburnMinimumCreep"
  params := [⟨"A", .object, none⟩, ⟨"n", .object, none⟩, ⟨"beta", .object, none⟩, ⟨"R", .double, none⟩, ⟨"Q", .double, none⟩]
  pos := ["A", "n", "beta", "R", "Q"]
  reads := [("A", .object), ("n", .object), ("beta", .object), ("R", .double), ("Q", .double)]

/-- creep.cxx:226, creep_wrap.cxx:165, 210. -/
def cSwindemanMinimumCreep : Cls where
  name := "SwindemanMinimumCreep"
  params := [⟨"C", .double, none⟩, ⟨"n", .double, none⟩, ⟨"V", .double, none⟩, ⟨"Q", .double, none⟩, ⟨"celsius", .bool, some (some
    .bool)⟩]
  pos := ["C", "n", "V", "Q"]
  reads := [("C", .double), ("n", .double), ("V", .double), ("Q", .double), ("celsius", .bool)]

/-- creep.cxx:291, creep_wrap.cxx:172, 271. -/
def cRegionKMCreep : Cls where
  name := "RegionKMCreep"
  params := [⟨"cuts", .vecDouble, none⟩, ⟨"A", .vecObject, none⟩, ⟨"B", .vecObject, none⟩, ⟨"kboltz", .double, none⟩, ⟨"b",
    .double, none⟩, ⟨"eps0", .double, none⟩, ⟨"emodel", .object, none⟩, ⟨"celsius", .bool, some (some .bool)⟩]
  pos := ["cuts", "A", "B", "kboltz", "b", "eps0", "emodel"]
  reads := [("cuts", .vecDouble), ("A", .vecObject), ("B", .vecObject), ("kboltz", .double), ("b", .double), ("eps0", .double),
    ("emodel", .object), ("celsius", .bool)]

/-- creep.cxx:385, creep_wrap.cxx:180, 371. -/
def cNortonBaileyCreep : Cls where
  name := "NortonBaileyCreep"
  params := [⟨"A", .object, none⟩, ⟨"m", .object, none⟩, ⟨"n", .object, none⟩]
  pos := ["A", "m", "n"]
  reads := [("A", .object), ("m", .object), ("n", .object)]

/-- creep.cxx:490, creep_wrap.cxx:191, 471. -/
def cMukherjeeCreep : Cls where
  name := "MukherjeeCreep"
  params := [⟨"emodel", .object, none⟩, ⟨"A", .double, none⟩, ⟨"n", .double, none⟩, ⟨"D0", .double, none⟩, ⟨"Q", .double, none⟩,
    ⟨"b", .double, none⟩, ⟨"k", .double, none⟩, ⟨"R", .double, none⟩]
  pos := ["emodel", "A", "n", "D0", "Q", "b", "k", "R"]
  reads := [("emodel", .object), ("A", .double), ("n", .double), ("D0", .double), ("Q", .double), ("b", .double), ("k", .double),
    ("R", .double)]

/-- creep.cxx:585, creep_wrap.cxx:206, 568. -/
def cGenericCreep : Cls where
  name := "GenericCreep"
  params := [⟨"cfn", .object, none⟩]
  pos := ["cfn"]
  reads := [("cfn", .object)]

/-- creep.cxx:739, creep_wrap.cxx:213, 728. -/
def cMinCreep225Cr1MoCreep : Cls where
  name := "MinCreep225Cr1MoCreep"
  params := []
  pos := []
  reads := []

/-- creep.cxx:831, creep_wrap.cxx:92, 820. -/
def cJ2CreepModel : Cls where
  name := "J2CreepModel"
  params := [⟨"rule", .object, none⟩, ⟨"rtol", .double, some (some .double)⟩, ⟨"atol", .double, some (some .double)⟩, ⟨"miter",
    .int, some (some .int)⟩, ⟨"verbose", .bool, some (some .bool)⟩, ⟨"linesearch", .bool, some (some .bool)⟩]
  pos := ["rule"]
  reads := [("rule", .object), ("rtol", .double), ("atol", .double), ("miter", .int), ("verbose", .bool), ("linesearch", .bool)]

/-- damage.cxx:57, damage_wrap.cxx:35, 37. -/
def cNEMLScalarDamagedModel_sd : Cls where
  name := "NEMLScalarDamagedModel_sd"
  params := [⟨"elastic", .object, none⟩, ⟨"base", .object, none⟩, ⟨"damage", .object, none⟩, ⟨"alpha", .object, some (some
    .object)⟩, ⟨"rtol", .double, some (some .double)⟩, ⟨"atol", .double, some (some .double)⟩, ⟨"miter", .int, some (some
    .int)⟩, ⟨"verbose", .bool, some (some .bool)⟩, ⟨"linesearch", .bool, some (some .bool)⟩, ⟨"truesdell", .bool, some
    (some .bool)⟩, ⟨"ekill", .bool, some (some .bool)⟩, ⟨"dkill", .double, some (some .double)⟩, ⟨"sfact", .double, some
    (some .double)⟩]
  pos := ["elastic", "base", "damage"]
  reads := [("damage", .object), ("rtol", .double), ("atol", .double), ("miter", .int), ("verbose", .bool), ("linesearch", .bool),
    ("ekill", .bool), ("dkill", .double), ("sfact", .double), ("base", .object), ("elastic", .object), ("alpha", .object),
    ("truesdell", .bool)]

/-- damage.cxx:407, damage_wrap.cxx:134, 396. -/
def cCombinedDamage : Cls where
  name := "CombinedDamage"
  params := [⟨"elastic", .object, none⟩, ⟨"models", .vecObject, none⟩]
  pos := ["elastic", "models"]
  reads := [("models", .vecObject), ("elastic", .object)]

/-- damage.cxx:505, damage_wrap.cxx:144, 490. -/
def cClassicalCreepDamage : Cls where
  name := "ClassicalCreepDamage"
  params := [⟨"elastic", .object, none⟩, ⟨"A", .object, none⟩, ⟨"xi", .object, none⟩, ⟨"phi", .object, none⟩]
  pos := ["elastic", "A", "xi", "phi"]
  reads := [("A", .object), ("xi", .object), ("phi", .object), ("elastic", .object)]

/-- damage.cxx:607, damage_wrap.cxx:182, 596. -/
def cVonMisesEffectiveStress : Cls where
  name := "VonMisesEffectiveStress"
  params := []
  pos := []
  reads := []

/-- damage.cxx:646, damage_wrap.cxx:189, 639. -/
def cMeanEffectiveStress : Cls where
  name := "MeanEffectiveStress"
  params := []
  pos := []
  reads := []

/-- damage.cxx:685, damage_wrap.cxx:196, 673. -/
def cHuddlestonEffectiveStress : Cls where
  name := "HuddlestonEffectiveStress"
  params := [⟨"b", .double, none⟩]
  pos := ["b"]
  reads := [("b", .double)]

/-- damage.cxx:776, damage_wrap.cxx:203, 764. -/
def cMaxPrincipalEffectiveStress : Cls where
  name := "MaxPrincipalEffectiveStress"
  params := []
  pos := []
  reads := []

/-- damage.cxx:843, damage_wrap.cxx:210, 831. -/
def cMaxSeveralEffectiveStress : Cls where
  name := "MaxSeveralEffectiveStress"
  params := [⟨"measures", .vecObject, none⟩]
  pos := ["measures"]
  reads := [("measures", .vecObject)]

/-- damage.cxx:903, damage_wrap.cxx:217, 888. -/
def cSumSeveralEffectiveStress : Cls where
  name := "SumSeveralEffectiveStress"
  params := [⟨"measures", .vecObject, none⟩, ⟨"weights", .vecDouble, none⟩]
  pos := ["measures", "weights"]
  reads := [("measures", .vecObject), ("weights", .vecDouble)]

/-- damage.cxx:955, damage_wrap.cxx:225, 940. -/
def cModularCreepDamage : Cls where
  name := "ModularCreepDamage"
  params := [⟨"elastic", .object, none⟩, ⟨"A", .object, none⟩, ⟨"xi", .object, none⟩, ⟨"phi", .object, none⟩, ⟨"estress", .object,
    none⟩]
  pos := ["elastic", "A", "xi", "phi", "estress"]
  reads := [("A", .object), ("xi", .object), ("phi", .object), ("estress", .object), ("elastic", .object)]

/-- damage.cxx:1050, damage_wrap.cxx:236, 1038. -/
def cLarsonMillerCreepDamage : Cls where
  name := "LarsonMillerCreepDamage"
  params := [⟨"elastic", .object, none⟩, ⟨"lmr", .object, none⟩, ⟨"estress", .object, none⟩]
  pos := ["elastic", "lmr", "estress"]
  reads := [("lmr", .object), ("estress", .object), ("elastic", .object)]

/-- damage.cxx:1306, damage_wrap.cxx:156, 1291. -/
def cWorkDamage : Cls where
  name := "WorkDamage"
  params := [⟨"elastic", .object, none⟩, ⟨"Wcrit", .object, none⟩, ⟨"n", .double, none⟩, ⟨"eps", .double, some (some .double)⟩,
    ⟨"work_scale", .double, some (some .double)⟩, ⟨"log", .bool, some (some .bool)⟩]
  pos := ["elastic", "Wcrit", "n"]
  reads := [("Wcrit", .object), ("n", .double), ("eps", .double), ("work_scale", .double), ("log", .bool), ("elastic", .object)]

/-- damage.cxx:1521, damage_wrap.cxx:275, 1508. -/
def cPowerLawDamage : Cls where
  name := "PowerLawDamage"
  params := [⟨"elastic", .object, none⟩, ⟨"A", .object, none⟩, ⟨"a", .object, none⟩]
  pos := ["elastic", "A", "a"]
  reads := [("A", .object), ("a", .object), ("elastic", .object)]

/-- damage.cxx:1593, damage_wrap.cxx:285, 1578. -/
def cExponentialWorkDamage : Cls where
  name := "ExponentialWorkDamage"
  params := [⟨"elastic", .object, none⟩, ⟨"W0", .object, none⟩, ⟨"k0", .object, none⟩, ⟨"af", .object, none⟩]
  pos := ["elastic", "W0", "k0", "af"]
  reads := [("W0", .object), ("k0", .object), ("af", .object), ("elastic", .object)]

/-- elasticity.cxx:78, elasticity_wrap.cxx:66, 54. -/
def cIsotropicLinearElasticModel : Cls where
  name := "IsotropicLinearElasticModel"
  params := [⟨"m1", .object, none⟩, ⟨"m1_type", .string, none⟩, ⟨"m2", .object, none⟩, ⟨"m2_type", .string, none⟩]
  pos := ["m1", "m1_type", "m2", "m2_type"]
  reads := [("m1", .object), ("m2", .object), ("m1_type", .string), ("m2_type", .string)]

/-- elasticity.cxx:260, elasticity_wrap.cxx:76, 243. -/
def cCubicLinearElasticModel : Cls where
  name := "CubicLinearElasticModel"
  params := [⟨"m1", .object, none⟩, ⟨"m2", .object, none⟩, ⟨"m3", .object, none⟩, ⟨"method", .string, none⟩]
  pos := ["m1", "m2", "m3", "method"]
  reads := [("m1", .object), ("m2", .object), ("m3", .object), ("method", .string)]

/-- elasticity.cxx:350, elasticity_wrap.cxx:86, 330. -/
def cTransverseIsotropicLinearElasticModel : Cls where
  name := "TransverseIsotropicLinearElasticModel"
  params := [⟨"m1", .object, none⟩, ⟨"m2", .object, none⟩, ⟨"m3", .object, none⟩, ⟨"m4", .object, none⟩, ⟨"m5", .object, none⟩,
    ⟨"method", .string, none⟩]
  pos := ["m1", "m2", "m3", "m4", "m5", "method"]
  reads := [("m1", .object), ("m2", .object), ("m3", .object), ("m4", .object), ("m5", .object), ("method", .string)]

/-- general_flow.cxx:49, general_flow_wrap.cxx:110, 36. -/
def cTVPFlowRule : Cls where
  name := "TVPFlowRule"
  params := [⟨"elastic", .object, none⟩, ⟨"flow", .object, none⟩]
  pos := ["elastic", "flow"]
  reads := [("elastic", .object), ("flow", .object)]

/-- hardening.cxx:48, hardening_wrap.cxx:43, 35. -/
def cLinearIsotropicHardeningRule : Cls where
  name := "LinearIsotropicHardeningRule"
  params := [⟨"s0", .object, none⟩, ⟨"K", .object, none⟩]
  pos := ["s0", "K"]
  reads := [("s0", .object), ("K", .object)]

/-- hardening.cxx:100, hardening_wrap.cxx:56, 88. -/
def cInterpolatedIsotropicHardeningRule : Cls where
  name := "InterpolatedIsotropicHardeningRule"
  params := [⟨"flow", .object, none⟩]
  pos := ["flow"]
  reads := [("flow", .object)]

/-- hardening.cxx:145, hardening_wrap.cxx:66, 130. -/
def cVoceIsotropicHardeningRule : Cls where
  name := "VoceIsotropicHardeningRule"
  params := [⟨"s0", .object, none⟩, ⟨"R", .object, none⟩, ⟨"d", .object, none⟩]
  pos := ["s0", "R", "d"]
  reads := [("s0", .object), ("R", .object), ("d", .object)]

/-- hardening.cxx:206, hardening_wrap.cxx:81, 191. -/
def cPowerLawIsotropicHardeningRule : Cls where
  name := "PowerLawIsotropicHardeningRule"
  params := [⟨"s0", .object, none⟩, ⟨"A", .object, none⟩, ⟨"n", .object, none⟩]
  pos := ["s0", "A", "n"]
  reads := [("s0", .object), ("A", .object), ("n", .object)]

/-- hardening.cxx:255, hardening_wrap.cxx:92, 242. -/
def cCombinedIsotropicHardeningRule : Cls where
  name := "CombinedIsotropicHardeningRule"
  params := [⟨"rules", .vecObject, none⟩]
  pos := ["rules"]
  reads := [("rules", .vecObject)]

/-- hardening.cxx:328, hardening_wrap.cxx:105, 316. -/
def cLinearKinematicHardeningRule : Cls where
  name := "LinearKinematicHardeningRule"
  params := [⟨"H", .object, none⟩]
  pos := ["H"]
  reads := [("H", .object)]

/-- hardening.cxx:379, hardening_wrap.cxx:114, 366. -/
def cCombinedHardeningRule : Cls where
  name := "CombinedHardeningRule"
  params := [⟨"iso", .object, none⟩, ⟨"kin", .object, none⟩]
  pos := ["iso", "kin"]
  reads := [("iso", .object), ("kin", .object)]

/-- hardening.cxx:515, hardening_wrap.cxx:214, 503. -/
def cConstantGamma : Cls where
  name := "ConstantGamma"
  params := [⟨"g", .object, none⟩]
  pos := ["g"]
  reads := [("g", .object)]

/-- hardening.cxx:560, hardening_wrap.cxx:222, 546. -/
def cSatGamma : Cls where
  name := "SatGamma"
  params := [⟨"gs", .object, none⟩, ⟨"g0", .object, none⟩, ⟨"beta", .object, none⟩]
  pos := ["gs", "g0", "beta"]
  reads := [("gs", .object), ("g0", .object), ("beta", .object)]

/-- hardening.cxx:618, hardening_wrap.cxx:233, 599. -/
def cChaboche : Cls where
  name := "Chaboche"
  params := [⟨"iso", .object, none⟩, ⟨"C", .vecObject, none⟩, ⟨"gmodels", .vecObject, none⟩, ⟨"A", .vecObject, none⟩, ⟨"a",
    .vecObject, none⟩, ⟨"noniso", .bool, some (some .bool)⟩]
  pos := ["iso", "C", "gmodels", "A", "a"]
  reads := [("iso", .object), ("C", .vecObject), ("gmodels", .vecObject), ("A", .vecObject), ("a", .vecObject), ("noniso", .bool)]

/-- hardening.cxx:984, hardening_wrap.cxx:251, 961. -/
def cChabocheVoceRecovery : Cls where
  name := "ChabocheVoceRecovery"
  params := [⟨"s0", .object, none⟩, ⟨"theta0", .object, none⟩, ⟨"Rmax", .object, none⟩, ⟨"Rmin", .object, none⟩, ⟨"r1", .object,
    none⟩, ⟨"r2", .object, none⟩, ⟨"C", .vecObject, none⟩, ⟨"gmodels", .vecObject, none⟩, ⟨"A", .vecObject, none⟩, ⟨"a",
    .vecObject, none⟩, ⟨"noniso", .bool, some (some .bool)⟩]
  pos := ["s0", "theta0", "Rmax", "Rmin", "r1", "r2", "C", "gmodels", "A", "a"]
  reads := [("s0", .object), ("theta0", .object), ("Rmax", .object), ("Rmin", .object), ("r1", .object), ("r2", .object), ("C",
    .vecObject), ("gmodels", .vecObject), ("A", .vecObject), ("a", .vecObject), ("noniso", .bool)]

/-- interpolate.cxx:40, interpolate_wrap.cxx:32, 28. -/
def cPolynomialInterpolate : Cls where
  name := "PolynomialInterpolate"
  params := [⟨"coefs", .vecDouble, none⟩]
  pos := ["coefs"]
  reads := [("coefs", .vecDouble)]

/-- interpolate.cxx:85, interpolate_wrap.cxx:40, 65. -/
def cPiecewiseLinearInterpolate : Cls where
  name := "PiecewiseLinearInterpolate"
  params := [⟨"points", .vecDouble, none⟩, ⟨"values", .vecDouble, none⟩]
  pos := ["points", "values"]
  reads := [("points", .vecDouble), ("values", .vecDouble)]

/-- interpolate.cxx:166, interpolate_wrap.cxx:48, 146. -/
def cGenericPiecewiseInterpolate : Cls where
  name := "GenericPiecewiseInterpolate"
  params := [⟨"points", .vecDouble, none⟩, ⟨"functions", .vecObject, none⟩]
  pos := ["points", "functions"]
  reads := [("points", .vecDouble), ("functions", .vecObject)]

/-- interpolate.cxx:245, interpolate_wrap.cxx:56, 219. -/
def cPiecewiseLogLinearInterpolate : Cls where
  name := "PiecewiseLogLinearInterpolate"
  params := [⟨"points", .vecDouble, none⟩, ⟨"values", .vecDouble, none⟩]
  pos := ["points", "values"]
  reads := [("points", .vecDouble), ("values", .vecDouble)]

/-- interpolate.cxx:333, interpolate_wrap.cxx:65, 306. -/
def cPiecewiseSemiLogXLinearInterpolate : Cls where
  name := "PiecewiseSemiLogXLinearInterpolate"
  params := [⟨"points", .vecDouble, none⟩, ⟨"values", .vecDouble, none⟩]
  pos := ["points", "values"]
  reads := [("points", .vecDouble), ("values", .vecDouble)]

/-- interpolate.cxx:406, interpolate_wrap.cxx:73, 394. -/
def cConstantInterpolate : Cls where
  name := "ConstantInterpolate"
  params := [⟨"v", .double, none⟩]
  pos := ["v"]
  reads := [("v", .double)]

/-- interpolate.cxx:443, interpolate_wrap.cxx:80, 430. -/
def cExpInterpolate : Cls where
  name := "ExpInterpolate"
  params := [⟨"A", .double, none⟩, ⟨"B", .double, none⟩]
  pos := ["A", "B"]
  reads := [("A", .double), ("B", .double)]

/-- interpolate.cxx:481, interpolate_wrap.cxx:88, 468. -/
def cPowerLawInterpolate : Cls where
  name := "PowerLawInterpolate"
  params := [⟨"A", .double, none⟩, ⟨"B", .double, none⟩]
  pos := ["A", "B"]
  reads := [("A", .double), ("B", .double)]

/-- interpolate.cxx:520, interpolate_wrap.cxx:95, 506. -/
def cMTSShearInterpolate : Cls where
  name := "MTSShearInterpolate"
  params := [⟨"V0", .double, none⟩, ⟨"D", .double, none⟩, ⟨"T0", .double, none⟩]
  pos := ["V0", "D", "T0"]
  reads := [("V0", .double), ("D", .double), ("T0", .double)]

/-- interpolate.cxx:565, interpolate_wrap.cxx:103, 547. -/
def cMTSInterpolate : Cls where
  name := "MTSInterpolate"
  params := [⟨"tau0", .double, none⟩, ⟨"g0", .double, none⟩, ⟨"q", .double, none⟩, ⟨"p", .double, none⟩, ⟨"k", .double, none⟩,
    ⟨"b", .double, none⟩, ⟨"mu", .object, none⟩]
  pos := ["tau0", "g0", "q", "p", "k", "b", "mu"]
  reads := [("tau0", .double), ("g0", .double), ("q", .double), ("p", .double), ("k", .double), ("b", .double), ("mu", .object)]

/-- larsonmiller.cxx:25, larsonmiller_wrap.cxx:25, 7. -/
def cLarsonMillerRelation : Cls where
  name := "LarsonMillerRelation"
  params := [⟨"function", .object, none⟩, ⟨"C", .double, none⟩, ⟨"rtol", .double, some (some .double)⟩, ⟨"atol", .double, some
    (some .double)⟩, ⟨"miter", .int, some (some .int)⟩, ⟨"verbose", .bool, some (some .bool)⟩, ⟨"linesearch", .bool, some
    (some .bool)⟩]
  pos := ["function", "C"]
  reads := [("function", .object), ("C", .double), ("rtol", .double), ("atol", .double), ("miter", .int), ("verbose", .bool),
    ("linesearch", .bool)]

/-- math/matrix.cxx:126, math/matrix_wrap.cxx:63, 85. -/
def cSquareMatrix : Cls where
  name := "SquareMatrix"
  params := [⟨"m", .sizeType, none⟩, ⟨"type", .string, some (some .string)⟩, ⟨"data", .vecDouble, some (some .vecDouble)⟩,
    ⟨"blocks", .vecSizeType, some (some .vecSizeType)⟩]
  pos := ["m"]
  reads := [("m", .sizeType), ("type", .string), ("data", .vecDouble), ("blocks", .vecSizeType)]

/-- models.cxx:468, models_wrap.cxx:93, 457. -/
def cSmallStrainElasticity : Cls where
  name := "SmallStrainElasticity"
  params := [⟨"elastic", .object, none⟩, ⟨"alpha", .object, some (some .object)⟩, ⟨"truesdell", .bool, some (some .bool)⟩]
  pos := ["elastic"]
  reads := [("elastic", .object), ("alpha", .object), ("truesdell", .bool)]

/-- models.cxx:532, models_wrap.cxx:114, 519. -/
def cSmallStrainPerfectPlasticity : Cls where
  name := "SmallStrainPerfectPlasticity"
  params := [⟨"elastic", .object, none⟩, ⟨"surface", .object, none⟩, ⟨"ys", .object, none⟩, ⟨"alpha", .object, some (some
    .object)⟩, ⟨"atol", .double, some (some .double)⟩, ⟨"rtol", .double, some (some .double)⟩, ⟨"miter", .int, some (some
    .int)⟩, ⟨"verbose", .bool, some (some .bool)⟩, ⟨"linesearch", .bool, some (some .bool)⟩, ⟨"max_divide", .int, some
    (some .int)⟩, ⟨"force_divide", .bool, some (some .bool)⟩, ⟨"truesdell", .bool, some (some .bool)⟩]
  pos := ["elastic", "surface", "ys"]
  reads := [("surface", .object), ("ys", .object), ("rtol", .double), ("atol", .double), ("miter", .int), ("verbose", .bool),
    ("linesearch", .bool), ("max_divide", .int), ("force_divide", .bool), ("elastic", .object), ("alpha", .object),
    ("truesdell", .bool)]

/-- models.cxx:768, models_wrap.cxx:140, 755. -/
def cSmallStrainRateIndependentPlasticity : Cls where
  name := "SmallStrainRateIndependentPlasticity"
  params := [⟨"elastic", .object, none⟩, ⟨"flow", .object, none⟩, ⟨"alpha", .object, some (some .object)⟩, ⟨"truesdell", .bool,
    some (some .bool)⟩, ⟨"rtol", .double, some (some .double)⟩, ⟨"atol", .double, some (some .double)⟩, ⟨"miter", .int,
    some (some .int)⟩, ⟨"verbose", .bool, some (some .bool)⟩, ⟨"linesearch", .bool, some (some .bool)⟩, ⟨"max_divide",
    .int, some (some .int)⟩, ⟨"force_divide", .bool, some (some .bool)⟩]
  pos := ["elastic", "flow"]
  reads := [("flow", .object), ("rtol", .double), ("atol", .double), ("miter", .int), ("verbose", .bool), ("linesearch", .bool),
    ("max_divide", .int), ("force_divide", .bool), ("elastic", .object), ("alpha", .object), ("truesdell", .bool)]

/-- models.cxx:1093, models_wrap.cxx:163, 1073. -/
def cSmallStrainCreepPlasticity : Cls where
  name := "SmallStrainCreepPlasticity"
  params := [⟨"elastic", .object, none⟩, ⟨"plastic", .object, none⟩, ⟨"creep", .object, none⟩, ⟨"alpha", .object, some (some
    .object)⟩, ⟨"atol", .double, some (some .double)⟩, ⟨"miter", .int, some (some .int)⟩, ⟨"verbose", .bool, some (some
    .bool)⟩, ⟨"sf", .double, some (some .double)⟩, ⟨"rtol", .double, some (some .double)⟩, ⟨"linesearch", .bool, some
    (some .bool)⟩, ⟨"truesdell", .bool, some (some .bool)⟩]
  pos := ["elastic", "plastic", "creep"]
  reads := [("plastic", .object), ("creep", .object), ("rtol", .double), ("atol", .double), ("sf", .double), ("miter", .int),
    ("verbose", .bool), ("linesearch", .bool), ("elastic", .object), ("alpha", .object), ("truesdell", .bool)]

/-- models.cxx:1324, models_wrap.cxx:189, 1311. -/
def cGeneralIntegrator : Cls where
  name := "GeneralIntegrator"
  params := [⟨"elastic", .object, none⟩, ⟨"rule", .object, none⟩, ⟨"alpha", .object, some (some .object)⟩, ⟨"truesdell", .bool,
    some (some .bool)⟩, ⟨"rtol", .double, some (some .double)⟩, ⟨"atol", .double, some (some .double)⟩, ⟨"miter", .int,
    some (some .int)⟩, ⟨"verbose", .bool, some (some .bool)⟩, ⟨"linesearch", .bool, some (some .bool)⟩, ⟨"max_divide",
    .int, some (some .int)⟩, ⟨"force_divide", .bool, some (some .bool)⟩, ⟨"skip_first_step", .bool, some (some .bool)⟩]
  pos := ["elastic", "rule"]
  reads := [("rule", .object), ("skip_first_step", .bool), ("rtol", .double), ("atol", .double), ("miter", .int), ("verbose",
    .bool), ("linesearch", .bool), ("max_divide", .int), ("force_divide", .bool), ("elastic", .object), ("alpha",
    .object), ("truesdell", .bool)]

/-- models.cxx:1626, models_wrap.cxx:212, 1610. -/
def cKMRegimeModel : Cls where
  name := "KMRegimeModel"
  params := [⟨"elastic", .object, none⟩, ⟨"models", .vecObject, none⟩, ⟨"gs", .vecDouble, none⟩, ⟨"kboltz", .double, none⟩, ⟨"b",
    .double, none⟩, ⟨"eps0", .double, none⟩, ⟨"alpha", .object, some (some .object)⟩, ⟨"truesdell", .bool, some (some
    .bool)⟩]
  pos := ["elastic", "models", "gs", "kboltz", "b", "eps0"]
  reads := [("models", .vecObject), ("gs", .vecDouble), ("kboltz", .double), ("b", .double), ("eps0", .double), ("elastic",
    .object), ("alpha", .object), ("truesdell", .bool)]

/-- ri_flow.cxx:27, ri_flow_wrap.cxx:89, 13. -/
def cRateIndependentAssociativeFlow : Cls where
  name := "RateIndependentAssociativeFlow"
  params := [⟨"surface", .object, none⟩, ⟨"hardening", .object, none⟩]
  pos := ["surface", "hardening"]
  reads := [("surface", .object), ("hardening", .object)]

/-- ri_flow.cxx:197, ri_flow_wrap.cxx:96, 183. -/
def cRateIndependentNonAssociativeHardening : Cls where
  name := "RateIndependentNonAssociativeHardening"
  params := [⟨"surface", .object, none⟩, ⟨"hardening", .object, none⟩]
  pos := ["surface", "hardening"]
  reads := [("surface", .object), ("hardening", .object)]

/-- surfaces.cxx:29, surfaces_wrap.cxx:92. -/
def cIsoJ2 : Cls where
  name := "IsoJ2"
  params := []
  pos := []
  reads := []

/-- surfaces.cxx:53, surfaces_wrap.cxx:99, 37. -/
def cIsoKinJ2 : Cls where
  name := "IsoKinJ2"
  params := []
  pos := []
  reads := []

/-- surfaces.cxx:234, surfaces_wrap.cxx:106, 216. -/
def cIsoKinJ2I1 : Cls where
  name := "IsoKinJ2I1"
  params := [⟨"h", .object, none⟩, ⟨"l", .object, none⟩]
  pos := ["h", "l"]
  reads := [("h", .object), ("l", .object)]

/-- surfaces.cxx:455, surfaces_wrap.cxx:114. -/
def cIsoJ2I1 : Cls where
  name := "IsoJ2I1"
  params := [⟨"h", .object, none⟩, ⟨"l", .object, none⟩]
  pos := ["h", "l"]
  reads := [("h", .object), ("l", .object)]

/-- visco_flow.cxx:130, visco_flow_wrap.cxx:177, 109. -/
def cSuperimposedViscoPlasticFlowRule : Cls where
  name := "SuperimposedViscoPlasticFlowRule"
  params := [⟨"flow_rules", .vecObject, none⟩]
  pos := ["flow_rules"]
  reads := [("flow_rules", .vecObject)]

/-- visco_flow.cxx:642, visco_flow_wrap.cxx:197, 629. -/
def cGPowerLaw : Cls where
  name := "GPowerLaw"
  params := [⟨"n", .object, none⟩, ⟨"eta", .object, none⟩]
  pos := ["n", "eta"]
  reads := [("n", .object), ("eta", .object)]

/-- visco_flow.cxx:692, visco_flow_wrap.cxx:207, 678. -/
def cPerzynaFlowRule : Cls where
  name := "PerzynaFlowRule"
  params := [⟨"surface", .object, none⟩, ⟨"hardening", .object, none⟩, ⟨"g", .object, none⟩]
  pos := ["surface", "hardening", "g"]
  reads := [("surface", .object), ("hardening", .object), ("g", .object)]

/-- visco_flow.cxx:891, visco_flow_wrap.cxx:184, 878. -/
def cLinearViscousFlow : Cls where
  name := "LinearViscousFlow"
  params := [⟨"surface", .object, none⟩, ⟨"eta", .object, none⟩]
  pos := ["surface", "eta"]
  reads := [("surface", .object), ("eta", .object)]

/-- visco_flow.cxx:1011, visco_flow_wrap.cxx:221, 999. -/
def cConstantFluidity : Cls where
  name := "ConstantFluidity"
  params := [⟨"eta", .object, none⟩]
  pos := ["eta"]
  reads := [("eta", .object)]

/-- visco_flow.cxx:1050, visco_flow_wrap.cxx:228, 1036. -/
def cSaturatingFluidity : Cls where
  name := "SaturatingFluidity"
  params := [⟨"K0", .object, none⟩, ⟨"A", .object, none⟩, ⟨"b", .object, none⟩]
  pos := ["K0", "A", "b"]
  reads := [("K0", .object), ("A", .object), ("b", .object)]

/-- visco_flow.cxx:1101, visco_flow_wrap.cxx:235, 1084. -/
def cChabocheFlowRule : Cls where
  name := "ChabocheFlowRule"
  params := [⟨"surface", .object, none⟩, ⟨"hardening", .object, none⟩, ⟨"fluidity", .object, none⟩, ⟨"n", .object, none⟩,
    ⟨"prefactor", .object, some (some .object)⟩]
  pos := ["surface", "hardening", "fluidity", "n"]
  reads := [("surface", .object), ("hardening", .object), ("fluidity", .object), ("n", .object), ("prefactor", .object)]

/-- visco_flow.cxx:1324, visco_flow_wrap.cxx:243, 1313. -/
def cYaguchiGr91FlowRule : Cls where
  name := "YaguchiGr91FlowRule"
  params := []
  pos := []
  reads := []

/-- walker.cxx:20, walker_wrap.cxx:24, 5. -/
def cWalkerKremplSwitchRule : Cls where
  name := "WalkerKremplSwitchRule"
  params := [⟨"elastic", .object, none⟩, ⟨"flow", .object, none⟩, ⟨"lambda", .object, none⟩, ⟨"eps_ref", .double, none⟩]
  pos := ["elastic", "flow", "lambda", "eps_ref"]
  reads := [("elastic", .object), ("flow", .object), ("lambda", .object), ("eps_ref", .double)]

/-- walker.cxx:384, walker_wrap.cxx:51, 368. -/
def cSofteningModel : Cls where
  name := "SofteningModel"
  params := []
  pos := []
  reads := []

/-- walker.cxx:419, walker_wrap.cxx:61, 401. -/
def cWalkerSofteningModel : Cls where
  name := "WalkerSofteningModel"
  params := [⟨"phi_0", .object, none⟩, ⟨"phi_1", .object, none⟩]
  pos := ["phi_0", "phi_1"]
  reads := [("phi_0", .object), ("phi_1", .object)]

/-- walker.cxx:467, walker_wrap.cxx:70, 451. -/
def cThermalScaling : Cls where
  name := "ThermalScaling"
  params := []
  pos := []
  reads := []

/-- walker.cxx:499, walker_wrap.cxx:79, 479. -/
def cArrheniusThermalScaling : Cls where
  name := "ArrheniusThermalScaling"
  params := [⟨"Q", .object, none⟩, ⟨"R", .double, none⟩, ⟨"T_ref", .double, none⟩]
  pos := ["Q", "R", "T_ref"]
  reads := [("Q", .object), ("R", .double), ("T_ref", .double)]

/-- walker.cxx:623, walker_wrap.cxx:149, 612 and internalvariable.h:94. -/
def cConstantIsotropicHardening : Cls where
  name := "ConstantIsotropicHardening"
  params := [⟨"name", .string, some (some .string)⟩, ⟨"scaling", .object, some (some .object)⟩]
  pos := []
  reads := [("scaling", .object), ("name", .string)]

/-- walker.cxx:697, walker_wrap.cxx:159, 681 and internalvariable.h:94. -/
def cWalkerIsotropicHardening : Cls where
  name := "WalkerIsotropicHardening"
  params := [⟨"r0", .object, none⟩, ⟨"Rinf", .object, none⟩, ⟨"R0", .object, none⟩, ⟨"r1", .object, none⟩, ⟨"r2", .object, none⟩,
    ⟨"name", .string, some (some .string)⟩, ⟨"scaling", .object, some (some .object)⟩]
  pos := ["r0", "Rinf", "R0", "r1", "r2"]
  reads := [("r0", .object), ("Rinf", .object), ("R0", .object), ("r1", .object), ("r2", .object), ("scaling", .object), ("name",
    .string)]

/-- walker.cxx:904, walker_wrap.cxx:175, 892 and internalvariable.h:94. -/
def cConstantDragStress : Cls where
  name := "ConstantDragStress"
  params := [⟨"value", .double, none⟩, ⟨"name", .string, some (some .string)⟩, ⟨"scaling", .object, some (some .object)⟩]
  pos := ["value"]
  reads := [("value", .double), ("scaling", .object), ("name", .string)]

/-- walker.cxx:984, walker_wrap.cxx:184, 967 and internalvariable.h:94. -/
def cWalkerDragStress : Cls where
  name := "WalkerDragStress"
  params := [⟨"d0", .object, none⟩, ⟨"d1", .object, none⟩, ⟨"d2", .object, none⟩, ⟨"D_xi", .object, none⟩, ⟨"D_0", .double, none⟩,
    ⟨"softening", .object, none⟩, ⟨"name", .string, some (some .string)⟩, ⟨"scaling", .object, some (some .object)⟩]
  pos := ["d0", "d1", "d2", "D_xi", "D_0", "softening"]
  reads := [("d0", .object), ("d1", .object), ("d2", .object), ("D_xi", .object), ("D_0", .double), ("softening", .object),
    ("scaling", .object), ("name", .string)]

/-- walker.cxx:1198, walker_wrap.cxx:254, 1185 and internalvariable.h:94. -/
def cFAKinematicHardening : Cls where
  name := "FAKinematicHardening"
  params := [⟨"c", .object, none⟩, ⟨"g", .object, none⟩, ⟨"name", .string, some (some .string)⟩, ⟨"scaling", .object, some (some
    .object)⟩]
  pos := ["c", "g"]
  reads := [("c", .object), ("g", .object), ("scaling", .object), ("name", .string)]

/-- walker.cxx:1279, walker_wrap.cxx:263, 1258 and internalvariable.h:94. -/
def cWalkerKinematicHardening : Cls where
  name := "WalkerKinematicHardening"
  params := [⟨"c0", .object, none⟩, ⟨"c1", .object, none⟩, ⟨"c2", .object, none⟩, ⟨"l0", .object, none⟩, ⟨"l1", .object, none⟩,
    ⟨"l", .object, none⟩, ⟨"b0", .object, none⟩, ⟨"x0", .object, none⟩, ⟨"x1", .object, none⟩, ⟨"softening", .object,
    none⟩, ⟨"scaling", .object, some (some .object)⟩, ⟨"name", .string, some (some .string)⟩]
  pos := ["c0", "c1", "c2", "l0", "l1", "l", "b0", "x0", "x1", "softening"]
  reads := [("c0", .object), ("c1", .object), ("c2", .object), ("l0", .object), ("l1", .object), ("l", .object), ("b0", .object),
    ("x0", .object), ("x1", .object), ("softening", .object), ("scaling", .object), ("name", .string)]

/-- walker.cxx:1688, walker_wrap.cxx:394, 1667. -/
def cTestFlowRule : Cls where
  name := "TestFlowRule"
  params := [⟨"eps0", .double, none⟩, ⟨"D", .double, none⟩, ⟨"n", .double, none⟩, ⟨"s0", .double, none⟩, ⟨"K", .double, none⟩]
  pos := ["eps0", "D", "n", "s0", "K"]
  reads := [("eps0", .double), ("D", .double), ("n", .double), ("s0", .double), ("K", .double)]

/-- walker.cxx:1832, walker_wrap.cxx:404, 1791. -/
def cWalkerFlowRule : Cls where
  name := "WalkerFlowRule"
  params := [⟨"eps0", .object, none⟩, ⟨"softening", .object, none⟩, ⟨"scaling", .object, none⟩, ⟨"n", .object, none⟩, ⟨"k",
    .object, none⟩, ⟨"m", .object, none⟩, ⟨"R", .object, none⟩, ⟨"D", .object, none⟩, ⟨"X", .vecObject, none⟩]
  pos := ["eps0", "softening", "scaling", "n", "k", "m", "R", "D", "X"]
  reads := [("eps0", .object), ("softening", .object), ("scaling", .object), ("n", .object), ("k", .object), ("m", .object), ("R",
    .object), ("D", .object), ("X", .vecObject)]

/-- All of them. -/
def classes : List Cls :=
  [cNilDamageModel, cPlanarDamageModel, cWorkPlaneDamage, cSigmoidTransformation, cSwitchTransformation, cSymmetryGroup,
   cGeneralLattice, cCubicLattice, cHCPLattice, cGeneralizedHuCocksSpecies, cGeneralizedHuCocksPrecipitate,
   cGeneralizedHuCocksPrecipitationModel, cGeneralizedHuCocksHardening, cHuCocksPrecipitationModel,
   cDislocationSpacingHardening, cHuCocksHardening, cArrheniusSlipRule, cNoInelasticity, cAsaroInelasticity,
   cPowerLawInelasticity, cCombinedInelasticity, cStandardKinematicModel, cDamagedStandardKinematicModel, cTaylorModel,
   cPTRTwinReorientation, cSingleCrystalModel, cFixedStrengthHardening, cVocePerSystemHardening, cFASlipHardening,
   cGeneralLinearHardening, cSimpleLinearHardening, cLANLTiModel, cSumSlipSingleStrengthHardening, cVoceSlipHardening,
   cLinearSlipHardening, cKinematicPowerLawSlipRule, cPowerLawSlipRule, cPowerLawCreep, cNormalizedPowerLawCreep,
   cBlackburnMinimumCreep, cSwindemanMinimumCreep, cRegionKMCreep, cNortonBaileyCreep, cMukherjeeCreep, cGenericCreep,
   cMinCreep225Cr1MoCreep, cJ2CreepModel, cNEMLScalarDamagedModel_sd, cCombinedDamage, cClassicalCreepDamage,
   cVonMisesEffectiveStress, cMeanEffectiveStress, cHuddlestonEffectiveStress, cMaxPrincipalEffectiveStress,
   cMaxSeveralEffectiveStress, cSumSeveralEffectiveStress, cModularCreepDamage, cLarsonMillerCreepDamage, cWorkDamage,
   cPowerLawDamage, cExponentialWorkDamage, cIsotropicLinearElasticModel, cCubicLinearElasticModel,
   cTransverseIsotropicLinearElasticModel, cTVPFlowRule, cLinearIsotropicHardeningRule,
   cInterpolatedIsotropicHardeningRule, cVoceIsotropicHardeningRule, cPowerLawIsotropicHardeningRule,
   cCombinedIsotropicHardeningRule, cLinearKinematicHardeningRule, cCombinedHardeningRule, cConstantGamma, cSatGamma,
   cChaboche, cChabocheVoceRecovery, cPolynomialInterpolate, cPiecewiseLinearInterpolate, cGenericPiecewiseInterpolate,
   cPiecewiseLogLinearInterpolate, cPiecewiseSemiLogXLinearInterpolate, cConstantInterpolate, cExpInterpolate,
   cPowerLawInterpolate, cMTSShearInterpolate, cMTSInterpolate, cLarsonMillerRelation, cSquareMatrix,
   cSmallStrainElasticity, cSmallStrainPerfectPlasticity, cSmallStrainRateIndependentPlasticity,
   cSmallStrainCreepPlasticity, cGeneralIntegrator, cKMRegimeModel, cRateIndependentAssociativeFlow,
   cRateIndependentNonAssociativeHardening, cIsoJ2, cIsoKinJ2, cIsoKinJ2I1, cIsoJ2I1, cSuperimposedViscoPlasticFlowRule,
   cGPowerLaw, cPerzynaFlowRule, cLinearViscousFlow, cConstantFluidity, cSaturatingFluidity, cChabocheFlowRule,
   cYaguchiGr91FlowRule, cWalkerKremplSwitchRule, cSofteningModel, cWalkerSofteningModel, cThermalScaling,
   cArrheniusThermalScaling, cConstantIsotropicHardening, cWalkerIsotropicHardening, cConstantDragStress,
   cWalkerDragStress, cFAKinematicHardening, cWalkerKinematicHardening, cTestFlowRule, cWalkerFlowRule]

end Neml.PyCreate
