import Verif.Model.WhiteNoise
import Verif.Model.LinElast
import Verif.Model.Register

/-!
# Model of the example program `examples/kardar_parisi_zhang/main.go`

The domain, the factor of the squared gradient and the time step are parameters; the program has a domain of 128 by
128 nodes, the factor 10 and the time step 0.0001. The files it writes are not part of this file.
-/

namespace Gopf.Pf
open Pfutil

/-- The model before the equation is added, examples/kardar_parisi_zhang/main.go:25-36. The squared gradient reads the
transformed field from its brick, pf/squareGradientTerm.go:51. -/
noncomputable def kpzModel (dims : List ℕ) (lamb : ℝ) : Option (EqModel dims.prod) :=
  ((EqModel.empty.addField "height".toList).registerNoise "WHITE_NOISE".toList).registerExplicit "GRAD_SQ".toList
    fun b freq t => squaredGradient dims lamb (b "height".toList) freq t

/-- The equation, examples/kardar_parisi_zhang/main.go:38. -/
def kpzEquation : Str := "dheight/dt = LAP height + GRAD_SQ + WHITE_NOISE".toList

/-- `lamb`, examples/kardar_parisi_zhang/main.go:19. -/
noncomputable def kpzFactor : ℝ := 10

/-- `dt`, examples/kardar_parisi_zhang/main.go:20. -/
noncomputable def kpzTimeStep : ℝ := 0.0001

/-- `strength`, examples/kardar_parisi_zhang/main.go:21. -/
noncomputable def kpzStrength (dt : ℝ) : ℝ := 0.01 / Real.sqrt dt

end Gopf.Pf
