import Verif.Model.MultiAsset
import Verif.Model.Nsvh

/-!
# `BsmBasketNsvh1`, `pyfeng/multiasset.py` lines 576-605
-/

namespace PyFENG

namespace BasketNsvh

variable {n : ℕ} (o : Ma n)

/-- The object `Nsvh1(sigma=1.0)` created by `Nsvh1.from_vsk`, `pyfeng/nsvh.py` line 180 (default `vov`, `rho`, no carry, `is_atmvol=False`). -/
noncomputable def fresh : Nsvh := ⟨1, 0.1, 0, 1, 0, 0, false, false⟩

/-- `Nsvh1.from_vsk((var_scaled * m1**2, skew, exkurt), texp)` inside `BsmBasketNsvh1.price`, `pyfeng/multiasset.py` lines 601-603; `w` is the root returned by the solver
in `Nsvh1.fit`. -/
noncomputable def fitted (fwd : Fin n → ℝ) (texp w : ℝ) : Nsvh :=
  let q := BasketABC.priceMvsk o fwd texp
  fresh.fitWith (q.2.1 * q.1 ^ 2) q.2.2.1 q.2.2.2 texp w

/-- `BsmBasketNsvh1.price`, `pyfeng/multiasset.py` lines 595-605. -/
noncomputable def price (w strike : ℝ) (spot : Fin n → ℝ) (texp cp : ℝ) : ℝ :=
  let fwd := o.fwd spot texp
  let df := o.mp.df texp
  let fwdBasket := ∑ i, fwd i * o.weight i
  df * (fitted o fwd texp w).price1 strike fwdBasket texp cp

end BasketNsvh

end PyFENG
