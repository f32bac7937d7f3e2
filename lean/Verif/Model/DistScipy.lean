import Verif.Model.Dist

/-!
# Model of the `scipy_stats` and `draw` methods of `pyfeng/disthelper.py`

The frozen `scipy.stats` objects are represented by their arguments; the densities they stand for are part of the specification (`Props/DistScipy`).
-/

namespace PyFENG

open Real

/-- `DistGamma.scipy_stats`, `pyfeng/disthelper.py` lines 262-269: the arguments `(a, scale)` of `scipy.stats.gamma`. -/
noncomputable def DistGamma.scipyStats (d : DistGamma) : ℝ × ℝ := (d.shape, 1 / d.rate)

/-- `DistGamma.draw`, `pyfeng/disthelper.py` lines 297-313: one entry, from the value `g` of `rng.standard_gamma(shape)`. -/
noncomputable def DistGamma.draw (d : DistGamma) (g : ℝ) : ℝ := g / d.rate

/-- `DistInvGauss.scipy_stats`, `pyfeng/disthelper.py` lines 420-431: the arguments `(mu, scale)` of `scipy.stats.invgauss`. -/
noncomputable def DistInvGauss.scipyStats (d : DistInvGauss) : ℝ × ℝ := (d.mu / d.lam, d.lam)

/-- `DistInvGauss.draw`, `pyfeng/disthelper.py` lines 467-483: the arguments `(mean, scale)` of `rng.wald`. -/
def DistInvGauss.drawArgs (d : DistInvGauss) : ℝ × ℝ := (d.mu, d.lam)

/-- `DistGig.scipy_stats`, `pyfeng/disthelper.py` lines 604-615: the arguments `(p, b, scale)` of `scipy.stats.geninvgauss`. -/
noncomputable def DistGig.scipyStats (d : DistGig) : ℝ × ℝ × ℝ := (d.p, d.gamma * d.delta, d.delta / d.gamma)

namespace DistGh

/-- Property `DistGh.alpha`, `pyfeng/disthelper.py` lines 709-712. -/
noncomputable def alpha (d : DistGh) : ℝ := √(d.gamma ^ 2 + d.beta ^ 2)

/-- Property `DistGh.sigma`, `pyfeng/disthelper.py` lines 714-717. -/
noncomputable def sigma (d : DistGh) : ℝ := √(d.gamma * d.delta)

/-- Property `DistGh.beta_tilde`, `pyfeng/disthelper.py` lines 719-722. -/
noncomputable def betaTilde (d : DistGh) : ℝ := d.beta * √(d.delta / d.gamma)

/-- `DistGh.mixer`, `pyfeng/disthelper.py` lines 724-726. -/
def mixer (d : DistGh) : DistGig := ⟨d.gamma, d.delta, d.p⟩

/-- `DistGh.mvsk`, `pyfeng/disthelper.py` lines 747-779, with the moments taken from the mixer (line 766). -/
noncomputable def mvsk (kve : ℝ → ℝ → ℝ) (d : DistGh) : Mvsk :=
  d.mvskOfMixer (d.mixer.mnc kve 1) (d.mixer.mnc kve 2) (d.mixer.mnc kve 3) (d.mixer.mnc kve 4)

/-- `DistGh.scipy_stats`, `pyfeng/disthelper.py` lines 728-745: the arguments `(p, a, b, loc, scale)` of `scipy.stats.genhyperbolic`. -/
noncomputable def scipyStats (d : DistGh) : ℝ × ℝ × ℝ × ℝ × ℝ := (d.p, d.alpha * d.delta, d.beta * d.delta, d.mu, d.delta)

end DistGh

end PyFENG
