import Verif.Model.SmallStrain

/-!
# The elastic strain a material model reports (`elastic_strains`)

The history argument of the function is not used by any of the three versions modelled here. The versions
of crystals and polycrystals are in Model/CrystalDamage and Model/Polycrystal.
-/

namespace Neml.SmallStrain

open Matrix

variable {K : Type} [Field K] {ι : Type} [Fintype ι]

/-- models.cxx:179-187 `NEMLModel_sd::elastic_strains`, the same in general_flow.cxx:329-336 and
walker.cxx:320-326. include/damage.h has no version of its own for models with damage, so it is also what
they report. -/
def report (el : Elastic K ι) (T : K) (s : ι → K) : ι → K := el.S T *ᵥ s

end Neml.SmallStrain
