import Verif.Py.Basic
import Mathlib.MeasureTheory.Constructions.Pi
import Mathlib.MeasureTheory.Measure.Prod
import Mathlib.MeasureTheory.Measure.Dirac
import Mathlib.Probability.Distributions.Gaussian.Real

/-!
# The laws that the Monte-Carlo simulations of the POD sample from

The input distribution of a POD object (`_distribution`) is a probability law on ℝ^(k+1), first component the defect.  For a defect
size `a` the classes simulate from different laws; the model keeps the law itself (the limit of many draws), not a sample.
-/

namespace Verif.Model
open Verif.Py MeasureTheory ProbabilityTheory

/-- `self._distribution.getSample(n)[:, 1:]`, then `_mergeDefectInX(defect, …)`: polynomial chaos
(_polynomial_chaos_pod.py 744-757, 722-732), hit-miss (_adaptive_hitmiss_pod.py 830-846) and the reference POD of the adaptive
kriging (_adaptive_signal_pod.py 247-262): the first component of a draw is replaced. -/
noncomputable def mergedLaw {k : ℕ} (μ : Measure (Fin (k + 1) → ℝ)) (a : ℝ) : Measure (Fin (k + 1) → ℝ) :=
  μ.map fun x => Fin.cons a (Fin.tail x)

/-- `_computePODSamplePerDefect` (_kriging_tools.py 422-468): `JointDistribution([Dirac(defect)] + marginals)`, which has the
independent copula. -/
noncomputable def rebuiltLaw {k : ℕ} (μ : Measure (Fin (k + 1) → ℝ)) (a : ℝ) : Measure (Fin (k + 1) → ℝ) :=
  ((Measure.dirac a).prod (Measure.pi fun j : Fin k => μ.map fun x => x j.succ)).map
    fun p => Fin.cons p.1 p.2

/-- The law of the parameters in the sensitivity analyses (_pli_pod.py 53-57, _sobol_indices.py 92-96): a `JointDistribution` of the
marginals of the POD object, without the defect. -/
noncomputable def sensitivityLaw {k : ℕ} (μ : Measure (Fin (k + 1) → ℝ)) : Measure (Fin k → ℝ) :=
  Measure.pi fun j : Fin k => μ.map fun x => x j.succ

/-- Probability that a response exceeds the detection threshold under a law of the inputs, without noise: the reference POD of the
adaptive kriging (`np.mean(meanPredictionSample > detectionBoxCox)`, _adaptive_signal_pod.py 264). -/
noncomputable def exceedance {X : Type} [MeasurableSpace X] (law : Measure X) (m : X → ℝ) (det : ℝ) : ℝ :=
  law.real {x | det < m x}

/-- The same with the uncertainty of the metamodel: response `m x + s x * z`, `z` standard normal.  Chaos: `s` is the standard error
of the residuals (_polynomial_chaos_pod.py 764-774).  Kriging: `s x` is the conditional standard deviation
(_kriging_tools.py 468-490). -/
noncomputable def exceedanceNoise {X : Type} [MeasurableSpace X] (law : Measure X) (m s : X → ℝ) (det : ℝ) : ℝ :=
  (law.prod (gaussianReal 0 1)).real {p | det < m p.1 + s p.1 * p.2}

/-- The probability of the Monte-Carlo simulation of a PLI analysis at a defect size (`_runMonteCarlo`, _pli_pod.py 80-96): the
metamodel alone, with the defect fixed, exceeds the threshold. -/
noncomputable def pliProbability {k : ℕ} (law : Measure (Fin k → ℝ)) (m : (Fin (k + 1) → ℝ) → ℝ) (a det : ℝ) : ℝ :=
  exceedance law (fun x => m (Fin.cons a x)) det

/-- `PLIBase.run` keeps a defect size when the estimate is in (1e-3, 0.999) (_pli_pod.py 118); here with the exact probability. -/
noncomputable def pliKept (p : ℝ) : Bool := decide (1 / 1000 < p) && decide (p < 999 / 1000)

end Verif.Model
