import Verif.Model.Spectrum

/-!
# Specification of the filters
-/

namespace Verif.SpectrumSpec

/-- The triangle with height 1 at `b` and zero at `a` and `c`. -/
noncomputable def tent (a b c f : ℝ) : ℝ := max 0 (min ((f - a) / (b - a)) ((c - f) / (c - b)))

end Verif.SpectrumSpec
