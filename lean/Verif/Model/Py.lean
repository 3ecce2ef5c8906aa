/-!
# Python exceptions as values

The model functions that can raise return `Except Err α`; one constructor per Python
exception class met in the modelled code.
-/

namespace Verif

/-- Exceptions raised by the modelled code. -/
inductive Err where
  | keyError
  | indexError
  | valueError
  | typeError
  | attributeError
  | nameError
  | zeroDivision
  | notImplemented
  | runtimeError
  | typeMismatch      -- `beer.dists.basedist.DistributionTypeMismatch`
  | dimMismatch       -- `beer.dists.basedist.SupportDimensionMismatch`
  | noGPU             -- `beer.utils.NoGPUAvailable`
  | unknownCov        -- `beer.models.normal.UnknownCovarianceType`
deriving DecidableEq, Repr

end Verif
