import Verif.Model.Materials

/-! # The refractive index tensor: `/repo/src/elli/materials.py` -/

namespace PyElli

/-- `Material.get_refractive_index`, `materials.py:53-62`: `numpy.lib.scimath.sqrt` takes the principal root of every entry. -/
noncomputable def refractiveIndex (eps : Tensor) : Tensor := Matrix.of fun i j => Complex.sqrt (eps i j)

end PyElli
