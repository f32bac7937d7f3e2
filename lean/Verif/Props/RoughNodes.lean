import Verif.Props.RoughMc

/-!
# C129: kernel approximations of the rough Heston Monte Carlo
-/

namespace PyFENG

open Real MeasureTheory intervalIntegral Set Finset Filter Topology

namespace RoughHeston

variable (m : RoughHeston)

/-- The value of a quadrature rule. -/
noncomputable def Spec.ruleSum (r : List (ℝ × ℝ)) (φ : ℝ → ℝ) : ℝ := (r.map fun p => p.2 * φ p.1).sum

lemma ruleSum_append (r s : List (ℝ × ℝ)) (φ : ℝ → ℝ) : Spec.ruleSum (r ++ s) φ = Spec.ruleSum r φ + Spec.ruleSum s φ := by
  simp [Spec.ruleSum]

lemma ruleSum_flatMap (n : ℕ) (r : ℕ → List (ℝ × ℝ)) (φ : ℝ → ℝ) : Spec.ruleSum ((List.range n).flatMap r) φ = ∑ i ∈ Finset.range n, Spec.ruleSum (r i) φ := by
  induction n with
  | zero => simp [Spec.ruleSum]
  | succ n ih => rw [List.range_succ, List.flatMap_append, ruleSum_append, ih, Finset.sum_range_succ]; simp

/-- C129. The node-count assertion of `get_nodes_weights` passes exactly when `N ≥ -1` (rules of scipy having as many nodes as asked, at least one of them): on coarser grids
(`dt > e² log(1/ξ)`, roughly) the call raises. -/
theorem nodes_assertion (jac leg : ℕ → List (ℝ × ℝ)) (hj : ∀ n, (jac n).length = n) (hl : ∀ n, (leg n).length = n) (texp dt errTol : ℝ) (scale : ℕ)
    (hnl : 0 < scale * ⌈log (1 / errTol / dt)⌉₊) :
    (m.getNodesWeights jac leg texp dt errTol scale ≠ .error .assertionError) ↔ -1 ≤ (scale : ℤ) * ⌈log (log (1 / errTol) / dt)⌉ := by
  have hM : (0:ℤ) < scale * max ⌈log texp⌉ 0 + 1 := by
    have : (0:ℤ) ≤ scale * max ⌈log texp⌉ 0 := by positivity
    omega
  have hlen : ∀ (k n : ℕ) (j : ℕ → ℤ), ((List.range k).flatMap fun i => m.gaussLegendre (leg n) (j i)).length = k * n := fun k n j => by
    rw [List.length_flatMap]
    simp [gaussLegendre, hl]
  have hall : ∀ (M N : ℤ) (ns nl : ℕ), 0 < M → ((m.gaussJacobi (jac ns) M ++ ((List.range M.toNat).flatMap fun (i : ℕ) => m.gaussLegendre (leg ns) (-M + i))
      ++ (List.range (N + 1).toNat).flatMap fun (j : ℕ) => m.gaussLegendre (leg nl) j).length : ℤ) = ns + M * ns + (N + 1).toNat * nl := fun M N ns nl hM => by
    rw [List.length_append, List.length_append, hlen, hlen, gaussJacobi, List.length_map, hj]
    push_cast
    rw [Int.toNat_of_nonneg hM.le]
  simp only [getNodesWeights, getNumNodes, hall _ _ _ _ hM]
  by_cases h : -1 ≤ (scale : ℤ) * ⌈log (log (1 / errTol) / dt)⌉
  · rw [if_pos (by rw [Int.toNat_of_nonneg (by omega)])]
    exact iff_of_true (by simp) h
  · have h2 : ((scale : ℤ) * ⌈log (log (1 / errTol) / dt)⌉ + 1).toNat = 0 := Int.toNat_eq_zero.2 (by omega)
    have h3 : ((scale : ℤ) * ⌈log (log (1 / errTol) / dt)⌉ + 1) * ((scale * ⌈log (1 / errTol / dt)⌉₊ : ℕ) : ℤ) < 0 := mul_neg_of_neg_of_pos (by omega) (by exact_mod_cast hnl)
    rw [if_neg (by rw [h2]; simp only [Nat.cast_zero, zero_mul]; omega)]
    exact iff_of_false (by simp) h

/-- C129. The Gauss–Jacobi rule, mapped to `[0, 2^(-M)]`: its error for `(1/Γ(α)) ∫ s^(α-1) φ(s) ds` is the error of scipy's rule for the weight `(1+x)^(α-1)` on `[-1, 1]`, scaled. -/
theorem gaussJacobi_error (roots : List (ℝ × ℝ)) (M : ℤ) (φ : ℝ → ℝ) :
    Spec.ruleSum (m.gaussJacobi roots M) φ - 1 / Gamma m.alpha * ∫ s in (0:ℝ)..(2:ℝ) ^ (-M), s ^ (m.alpha - 1) * φ s
      = ((2:ℝ) ^ (-M - 1)) ^ m.alpha / Gamma m.alpha * (Spec.ruleSum roots (fun x => φ ((2:ℝ) ^ (-M - 1) * (x + 1)))
        - ∫ x in (-1:ℝ)..1, (1 + x) ^ (m.alpha - 1) * φ ((2:ℝ) ^ (-M - 1) * (x + 1))) := by
  set c : ℝ := (2:ℝ) ^ (-M - 1) with hc
  have hc0 : 0 < c := by positivity
  have hM : (2:ℝ) ^ (-M) = c * 2 := by rw [hc, zpow_sub_one₀ (by norm_num)]; ring
  have hpow : (2:ℝ) ^ (((-M - 1 : ℤ) : ℝ) * m.alpha) = c ^ m.alpha := by rw [rpow_mul (by norm_num), rpow_intCast]
  have hint : ∫ s in (0:ℝ)..(2:ℝ) ^ (-M), s ^ (m.alpha - 1) * φ s = c ^ m.alpha * ∫ x in (-1:ℝ)..1, (1 + x) ^ (m.alpha - 1) * φ (c * (x + 1)) := by
    have h := intervalIntegral.integral_comp_mul_add (fun s => s ^ (m.alpha - 1) * φ s) hc0.ne' c (a := -1) (b := 1)
    rw [show c * -1 + c = 0 by ring, show c * 1 + c = c * 2 by ring, smul_eq_mul] at h
    rw [hM, ← mul_inv_cancel_left₀ hc0.ne' (∫ s in (0:ℝ)..c * 2, _), ← h, ← intervalIntegral.integral_const_mul, ← intervalIntegral.integral_const_mul]
    refine integral_congr fun x hx => ?_
    rw [Set.uIcc_of_le (by norm_num : (-1:ℝ) ≤ 1)] at hx
    rw [show c * x + c = c * (1 + x) by ring, mul_rpow hc0.le (by linarith [hx.1]), rpow_sub_one hc0.ne', show c * (1 + x) = c * (x + 1) by ring]
    field_simp
  rw [hint]
  have hsum : Spec.ruleSum (m.gaussJacobi roots M) φ = c ^ m.alpha / Gamma m.alpha * Spec.ruleSum roots (fun x => φ (c * (x + 1))) := by
    simp only [Spec.ruleSum, gaussJacobi, List.map_map, ← List.sum_map_mul_left]
    congr 1
    refine List.map_congr_left fun p _ => ?_
    simp only [Function.comp, hpow, ← hc]
    ring
  rw [hsum]
  ring

/-- C129. The Gauss–Legendre rule, mapped to `[2^j, 2^(j+1)]`. -/
theorem gaussLegendre_error (roots : List (ℝ × ℝ)) (j : ℤ) (φ : ℝ → ℝ) :
    Spec.ruleSum (m.gaussLegendre roots j) φ - 1 / Gamma m.alpha * ∫ s in (2:ℝ) ^ j..(2:ℝ) ^ (j + 1), s ^ (m.alpha - 1) * φ s
      = (2:ℝ) ^ (j - 1) / Gamma m.alpha * (Spec.ruleSum roots (fun x => ((2:ℝ) ^ (j - 1) * (x + 3)) ^ (m.alpha - 1) * φ ((2:ℝ) ^ (j - 1) * (x + 3)))
        - ∫ x in (-1:ℝ)..1, ((2:ℝ) ^ (j - 1) * (x + 3)) ^ (m.alpha - 1) * φ ((2:ℝ) ^ (j - 1) * (x + 3))) := by
  set c : ℝ := (2:ℝ) ^ (j - 1) with hc
  have hc0 : 0 < c := by positivity
  have h1 : (2:ℝ) ^ j = c * 2 := by rw [hc, zpow_sub_one₀ (by norm_num)]; ring
  have h2 : (2:ℝ) ^ (j + 1) = c * 4 := by rw [zpow_add_one₀ (by norm_num), h1]; ring
  have h := intervalIntegral.integral_comp_mul_add (fun s => s ^ (m.alpha - 1) * φ s) hc0.ne' (c * 3) (a := -1) (b := 1)
  rw [show c * -1 + c * 3 = c * 2 by ring, show c * 1 + c * 3 = c * 4 by ring, smul_eq_mul] at h
  simp only [show ∀ x, c * x + c * 3 = c * (x + 3) from fun x => by ring] at h
  rw [h1, h2, h]
  have hsum : Spec.ruleSum (m.gaussLegendre roots j) φ = c / Gamma m.alpha * Spec.ruleSum roots (fun x => (c * (x + 3)) ^ (m.alpha - 1) * φ (c * (x + 3))) := by
    simp only [Spec.ruleSum, gaussLegendre, List.map_map, ← List.sum_map_mul_left]
    congr 1
    refine List.map_congr_left fun p _ => ?_
    simp only [Function.comp, ← hc]
    ring
  rw [hsum]
  generalize ∫ s in c * 2..c * 4, (s ^ (m.alpha - 1) * φ s : ℝ) = I
  field_simp

/-- The fractional kernel as a mixture of exponentials. -/
lemma kernel_laplace {α t : ℝ} (hα : 0 < α) (ht : 0 < t) : t ^ (-α) = 1 / Gamma α * ∫ s in Ioi (0:ℝ), s ^ (α - 1) * exp (-s * t) := by
  have h := integral_rpow_mul_exp_neg_mul_Ioi hα ht
  have e : ∀ s : ℝ, s ^ (α - 1) * exp (-s * t) = s ^ (α - 1) * exp (-(t * s)) := fun s => by congr 2; ring
  simp only [e]
  rw [h, one_div, one_div, inv_rpow ht.le, rpow_neg ht.le]
  have := (Gamma_pos_of_pos hα).ne'
  field_simp

lemma mix_integrable {α t : ℝ} (hα : 0 < α) (ht : 0 < t) : IntegrableOn (fun s => s ^ (α - 1) * exp (-s * t)) (Ioi 0) := by
  have h := integrableOn_rpow_mul_exp_neg_mul_rpow (p := 1) (s := α - 1) (b := t) (by linarith) one_pos ht
  refine h.congr_fun (fun s _ => ?_) measurableSet_Ioi
  simp only [rpow_one]
  congr 2
  ring

/-- Error of a rule for `∫ (1+x)^(α-1) φ` on `[-1, 1]`. -/
noncomputable def Spec.jacErr (α : ℝ) (r : List (ℝ × ℝ)) (φ : ℝ → ℝ) : ℝ := |Spec.ruleSum r φ - ∫ x in (-1:ℝ)..1, (1 + x) ^ (α - 1) * φ x|

/-- Error of a rule for `∫ φ` on `[-1, 1]`. -/
noncomputable def Spec.legErr (r : List (ℝ × ℝ)) (φ : ℝ → ℝ) : ℝ := |Spec.ruleSum r φ - ∫ x in (-1:ℝ)..1, φ x|

/-- C129. The error of the sum of exponentials for `t ^ (-α)` is the part of the Laplace integral beyond `2^(N+1)`, up to the errors of scipy's rules on their intervals: the dyadic
pieces fit together without gap or overlap, for every `texp`, `dt`, tolerance and scale. -/
theorem kernel_error (hα : 0 < m.alpha) (jac leg : ℕ → List (ℝ × ℝ)) (texp dt errTol : ℝ) (scale : ℕ) (all : List (ℝ × ℝ)) {t : ℝ} (ht : 0 < t)
    (M N : ℤ) (no ns nl : ℕ) (hnum : getNumNodes texp dt errTol scale = (M, N, no, ns, nl)) (hN : -1 ≤ N) (hall : m.getNodesWeights jac leg texp dt errTol scale = .ok all) :
    |t ^ (-m.alpha) - Spec.ruleSum all (fun x => exp (-x * t)) - 1 / Gamma m.alpha * ∫ s in Ioi ((2:ℝ) ^ (N + 1)), s ^ (m.alpha - 1) * exp (-s * t)|
      ≤ ((2:ℝ) ^ (-M - 1)) ^ m.alpha / Gamma m.alpha * Spec.jacErr m.alpha (jac no) (fun x => exp (-((2:ℝ) ^ (-M - 1) * (x + 1)) * t))
        + (∑ i ∈ Finset.range M.toNat, (2:ℝ) ^ (-M + i - 1) / Gamma m.alpha * Spec.legErr (leg ns) (fun x => ((2:ℝ) ^ (-M + i - 1) * (x + 3)) ^ (m.alpha - 1) * exp (-((2:ℝ) ^ (-M + i - 1) * (x + 3)) * t))
        + ∑ j ∈ Finset.range (N + 1).toNat, (2:ℝ) ^ ((j:ℤ) - 1) / Gamma m.alpha * Spec.legErr (leg nl) (fun x => ((2:ℝ) ^ ((j:ℤ) - 1) * (x + 3)) ^ (m.alpha - 1) * exp (-((2:ℝ) ^ ((j:ℤ) - 1) * (x + 3)) * t))) := by
  have hM : 0 < M := by
    simp only [getNumNodes, Prod.mk.injEq] at hnum
    rw [← hnum.1]
    have : (0:ℤ) ≤ scale * max ⌈log texp⌉ 0 := by positivity
    omega
  have hg := Gamma_pos_of_pos hα
  simp only [getNodesWeights, hnum] at hall
  split at hall
  swap
  · simp at hall
  simp only [Except.ok.injEq] at hall
  set F : ℝ → ℝ := fun s => s ^ (m.alpha - 1) * exp (-s * t) with hF
  have hFi := mix_integrable hα ht
  have hFii : ∀ a b : ℝ, 0 ≤ a → a ≤ b → IntervalIntegrable F volume a b := fun a b ha hab => by
    rw [intervalIntegrable_iff_integrableOn_Ioc_of_le hab]
    exact hFi.mono_set fun x hx => ha.trans_lt hx.1
  have eMN : (-M + ((M.toNat + (N + 1).toNat : ℕ) : ℤ)) = N + 1 := by
    push_cast
    rw [Int.toNat_of_nonneg hM.le, Int.toNat_of_nonneg (by omega)]
    ring
  have mono2 : ∀ a : ℤ, (2:ℝ) ^ a ≤ 2 ^ (a + 1) := fun a => zpow_le_zpow_right₀ (by norm_num) (by omega)
  -- telescoping
  have htel : (∫ s in (0:ℝ)..(2:ℝ) ^ (-M), F s) + ((∑ i ∈ Finset.range M.toNat, ∫ s in (2:ℝ) ^ (-M + (i:ℤ))..(2:ℝ) ^ (-M + (i:ℤ) + 1), F s)
      + ∑ j ∈ Finset.range (N + 1).toNat, ∫ s in (2:ℝ) ^ ((j:ℤ))..(2:ℝ) ^ ((j:ℤ) + 1), F s) = ∫ s in (0:ℝ)..(2:ℝ) ^ (N + 1), F s := by
    have h := sum_integral_adjacent_intervals (f := F) (μ := volume) (a := fun i : ℕ => (2:ℝ) ^ (-M + (i:ℤ))) (n := M.toNat + (N + 1).toNat) fun i _ => by
      have := hFii ((2:ℝ) ^ (-M + (i:ℤ))) ((2:ℝ) ^ (-M + ((i + 1 : ℕ):ℤ))) (by positivity) (by push_cast; rw [← add_assoc]; exact mono2 _)
      exact this
    rw [Finset.sum_range_add, eMN] at h
    have e2 : ∀ j : ℕ, -M + ((M.toNat + j : ℕ) : ℤ) = j := fun j => by push_cast; rw [Int.toNat_of_nonneg hM.le]; ring
    simp only [add_assoc M.toNat, e2] at h
    push_cast at h
    simp only [← add_assoc, add_zero] at h ⊢
    rw [add_assoc, h]
    exact intervalIntegral.integral_add_adjacent_intervals (hFii _ _ le_rfl (by positivity)) (hFii _ _ (by positivity) (zpow_le_zpow_right₀ (by norm_num) (by omega)))
  have hsplit : ∫ s in Ioi (0:ℝ), F s = (∫ s in (0:ℝ)..(2:ℝ) ^ (N + 1), F s) + ∫ s in Ioi ((2:ℝ) ^ (N + 1)), F s := by
    rw [intervalIntegral.integral_of_le (by positivity : (0:ℝ) ≤ (2:ℝ) ^ (N + 1)), ← setIntegral_union (Ioc_disjoint_Ioi le_rfl) measurableSet_Ioi (hFi.mono_set fun x hx => hx.1)
      (hFi.mono_set fun x hx => lt_trans (by positivity : (0:ℝ) < (2:ℝ) ^ (N + 1)) hx), Set.Ioc_union_Ioi_eq_Ioi (by positivity : (0:ℝ) ≤ (2:ℝ) ^ (N + 1))]
  have hexp : ∀ s : ℝ, s ^ (m.alpha - 1) * exp (-s * t) = F s := fun s => rfl
  have hJ := m.gaussJacobi_error (jac no) M (fun s => exp (-s * t))
  have hL := fun (r : List (ℝ × ℝ)) (j : ℤ) => m.gaussLegendre_error r j (fun s => exp (-s * t))
  rw [kernel_laplace hα ht, ← hall, ruleSum_append, ruleSum_append, ruleSum_flatMap, ruleSum_flatMap]
  simp only [hexp] at hJ hL ⊢
  rw [hsplit, ← htel]
  have e : 1 / Gamma m.alpha * ((∫ s in (0:ℝ)..(2:ℝ) ^ (-M), F s) + ((∑ i ∈ Finset.range M.toNat, ∫ s in (2:ℝ) ^ (-M + (i:ℤ))..(2:ℝ) ^ (-M + (i:ℤ) + 1), F s)
      + ∑ j ∈ Finset.range (N + 1).toNat, ∫ s in (2:ℝ) ^ ((j:ℤ))..(2:ℝ) ^ ((j:ℤ) + 1), F s) + ∫ s in Ioi ((2:ℝ) ^ (N + 1)), F s)
      - (Spec.ruleSum (m.gaussJacobi (jac no) M) (fun x => exp (-x * t)) + (∑ i ∈ Finset.range M.toNat, Spec.ruleSum (m.gaussLegendre (leg ns) (-M + (i:ℤ))) fun x => exp (-x * t))
        + ∑ j ∈ Finset.range (N + 1).toNat, Spec.ruleSum (m.gaussLegendre (leg nl) (j:ℤ)) fun x => exp (-x * t)) - 1 / Gamma m.alpha * ∫ s in Ioi ((2:ℝ) ^ (N + 1)), F s
      = -((Spec.ruleSum (m.gaussJacobi (jac no) M) (fun x => exp (-x * t)) - 1 / Gamma m.alpha * ∫ s in (0:ℝ)..(2:ℝ) ^ (-M), F s)
        + ((∑ i ∈ Finset.range M.toNat, (Spec.ruleSum (m.gaussLegendre (leg ns) (-M + (i:ℤ))) (fun x => exp (-x * t)) - 1 / Gamma m.alpha * ∫ s in (2:ℝ) ^ (-M + (i:ℤ))..(2:ℝ) ^ (-M + (i:ℤ) + 1), F s))
        + ∑ j ∈ Finset.range (N + 1).toNat, (Spec.ruleSum (m.gaussLegendre (leg nl) (j:ℤ)) (fun x => exp (-x * t)) - 1 / Gamma m.alpha * ∫ s in (2:ℝ) ^ ((j:ℤ))..(2:ℝ) ^ ((j:ℤ) + 1), F s))) := by
    rw [Finset.sum_sub_distrib, Finset.sum_sub_distrib, ← Finset.mul_sum, ← Finset.mul_sum]
    ring
  rw [e, abs_neg, hJ]
  refine (abs_add_le _ _).trans (add_le_add ?_ ((abs_add_le _ _).trans (add_le_add ((Finset.abs_sum_le_sum_abs _ _).trans (Finset.sum_le_sum fun i _ => ?_)) ((Finset.abs_sum_le_sum_abs _ _).trans (Finset.sum_le_sum fun j _ => ?_)))))
  · rw [abs_mul, abs_of_pos (by positivity), Spec.jacErr]
  · rw [hL, abs_mul, abs_of_pos (by positivity), Spec.legErr]
  · rw [hL, abs_mul, abs_of_pos (by positivity), Spec.legErr]

/-- C129 (finding). The number of dyadic intervals is computed with the natural logarithm. At the default `scale_coef = 1`, for every `texp` and every tolerance, the truncated part of the
kernel at `t = dt` grows without bound as the grid is refined: the documented bound `|t^(-α) - Σ ω e^(-x t)| ≤ err_tol` is lost, however accurate scipy's rules are. -/
theorem kernel_tolerance_lost {α : ℝ} (hα : 0 < α) (texp : ℝ) {errTol : ℝ} (h0 : 0 < errTol) (h1 : errTol < 1) :
    Tendsto (fun dt => 1 / Gamma α * ∫ s in Ioi ((2:ℝ) ^ ((getNumNodes texp dt errTol 1).2.1 + 1)), s ^ (α - 1) * exp (-s * dt)) (𝓝[>] 0) atTop := by
  have hL : 0 < log (1 / errTol) := log_pos (by rw [lt_div_iff₀ h0]; linarith)
  set L := log (1 / errTol)
  have hg := Gamma_pos_of_pos hα
  -- upper bound for the cut-off
  have hcut : ∀ dt : ℝ, 0 < dt → (2:ℝ) ^ ((getNumNodes texp dt errTol 1).2.1 + 1) ≤ 4 * (L / dt) ^ log 2 := fun dt hdt => by
    simp only [getNumNodes, Nat.cast_one, one_mul]
    rw [← rpow_intCast]
    have : (((⌈log (L / dt)⌉ + 1 : ℤ)) : ℝ) ≤ log (L / dt) + 2 := by
      push_cast
      linarith [Int.ceil_lt_add_one (log (L / dt))]
    refine (rpow_le_rpow_of_exponent_le (by norm_num) this).trans ?_
    rw [rpow_add (by norm_num), rpow_def_of_pos (by norm_num : (0:ℝ) < 2) (log (L / dt)), rpow_def_of_pos (by positivity : 0 < L / dt) (log 2), mul_comm (log 2)]
    norm_num
    linarith
  have hln : log 2 < 1 := by linarith [log_lt_sub_one_of_pos (show (0:ℝ) < 2 by norm_num) (by norm_num)]
  -- the scaled cut-off vanishes
  have hlim : Tendsto (fun dt : ℝ => (4 * L ^ log 2) * dt ^ (1 - log 2)) (𝓝[>] 0) (𝓝 0) := by
    have h := ((continuousAt_rpow_const (0:ℝ) (1 - log 2) (Or.inr (by linarith))).tendsto.mono_left nhdsWithin_le_nhds : Tendsto (fun dt : ℝ => dt ^ (1 - log 2)) (𝓝[>] 0) _)
    rw [zero_rpow (by linarith)] at h
    simpa using h.const_mul (4 * L ^ log 2)
  have hev : ∀ᶠ dt : ℝ in 𝓝[>] 0, (4 * L ^ log 2) * dt ^ (1 - log 2) ≤ (1 / 2) ^ (1 / α) :=
    hlim.eventually_le_const (by positivity)
  have hbig : Tendsto (fun dt : ℝ => 1 / Gamma α * (exp (-1) * (dt ^ (-α) / (2 * α)))) (𝓝[>] 0) atTop := by
    have h := (tendsto_rpow_neg_nhdsGT_zero (neg_lt_zero.2 hα))
    refine Tendsto.const_mul_atTop (by positivity) (Tendsto.const_mul_atTop (exp_pos _) (Tendsto.atTop_div_const (by positivity) h))
  refine tendsto_atTop_mono' _ ?_ hbig
  filter_upwards [hev, self_mem_nhdsWithin] with dt hd hdt
  rw [Set.mem_Ioi] at hdt
  set A := (2:ℝ) ^ ((getNumNodes texp dt errTol 1).2.1 + 1) with hA
  have hA0 : 0 < A := by positivity
  have hAdt : A * dt ≤ (1 / 2) ^ (1 / α) := by
    refine le_trans ?_ hd
    refine (mul_le_mul_of_nonneg_right (hcut dt hdt) hdt.le).trans_eq ?_
    rw [div_rpow hL.le hdt.le, rpow_sub hdt, rpow_one]
    field_simp
  have hA1 : A ≤ 1 / dt := by
    rw [le_div_iff₀ hdt]
    exact hAdt.trans (rpow_le_one (by norm_num) (by norm_num) (by positivity))
  have hApow : A ^ α ≤ dt ^ (-α) / 2 := by
    have := rpow_le_rpow (by positivity) hAdt hα.le
    rw [mul_rpow hA0.le hdt.le, ← rpow_mul (by norm_num), one_div_mul_cancel hα.ne', rpow_one] at this
    rw [rpow_neg hdt.le, show (dt ^ α)⁻¹ / 2 = (1 / 2) / dt ^ α by ring, le_div_iff₀ (by positivity)]
    linarith
  have hInt := mix_integrable hα hdt
  have hlow : exp (-1) * (dt ^ (-α) / (2 * α)) ≤ ∫ s in Ioi A, s ^ (α - 1) * exp (-s * dt) := by
    have hsub : ∫ s in Set.Ioc A (1 / dt), s ^ (α - 1) * exp (-s * dt) ≤ ∫ s in Ioi A, s ^ (α - 1) * exp (-s * dt) :=
      setIntegral_mono_set (hInt.mono_set fun x hx => lt_trans hA0 hx) ((ae_restrict_iff' measurableSet_Ioi).2 (ae_of_all _ fun s hs => by
        have : 0 < s := lt_trans hA0 hs
        simp only [Pi.zero_apply]
        positivity)) (ae_of_all _ fun s hs => hs.1)
    refine le_trans ?_ hsub
    rw [← intervalIntegral.integral_of_le hA1]
    have hc : exp (-1) * ∫ s in A..1 / dt, s ^ (α - 1) ≤ ∫ s in A..1 / dt, s ^ (α - 1) * exp (-s * dt) := by
      rw [← intervalIntegral.integral_const_mul]
      refine intervalIntegral.integral_mono_on hA1 ((intervalIntegrable_rpow' (by linarith)).const_mul _) ?_ fun s hs => ?_
      · exact (intervalIntegrable_rpow' (by linarith)).mul_continuousOn (by fun_prop)
      · rw [mul_comm]
        refine mul_le_mul_of_nonneg_left (exp_le_exp.2 ?_) (rpow_nonneg (hA0.le.trans hs.1) _)
        have := (le_div_iff₀ hdt).1 hs.2
        linarith
    refine le_trans ?_ hc
    rw [integral_rpow (Or.inl (by linarith)), sub_add_cancel]
    refine mul_le_mul_of_nonneg_left ?_ (exp_pos _).le
    rw [show dt ^ (-α) / (2 * α) = dt ^ (-α) / 2 / α by rw [div_div]]
    refine div_le_div_of_nonneg_right ?_ hα.le
    rw [one_div, inv_rpow hdt.le, ← rpow_neg hdt.le]
    linarith
  exact mul_le_mul_of_nonneg_left hlow (by positivity)

/-- The hypotheses are met: with `texp = 1`, `dt = log 10`, tolerance `1/10` the counts are `M = 1`, `N = 0`. -/
example : getNumNodes 1 (log 10) (1 / 10) 1 = (1, 0, ⌈log 10⌉₊ , ⌈log 10⌉₊, ⌈log (10 / log 10)⌉₊) ∧ (-1:ℤ) ≤ 0 := by
  have h : log 10 ≠ 0 := (log_pos (by norm_num)).ne'
  refine ⟨?_, by norm_num⟩
  simp [getNumNodes, h]

end RoughHeston

end PyFENG
