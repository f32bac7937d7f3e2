import Verif.Props.Fft

/-!
# C30: the FFT interpolant cache;  C72: instances for the Black-Scholes, variance-gamma and NIG models
-/

namespace PyFENG

open Real MeasureTheory ProbabilityTheory Set Filter Topology

namespace Fft

/-! ### C30 -/

/-- Invariant: each cache entry was built from attributes that satisfied `A` and had the hash in the key. -/
def CacheInv (E : Env) (A : Attrs → Prop) (c : Key → Option (ℝ → ℝ)) : Prop :=
  ∀ k f, c k = some f → ∃ a, A a ∧ k.2.1 = E.hashOf a ∧ f = buildInterp E.interp (E.mgf a k.1) k.2.2.1 k.2.2.2

lemma step_inv {E : Env} {A : Attrs → Prop} {s : State} (h : CacheInv E A s.cache) (ha : A s.attrs) (o : Op) :
    CacheInv E A (step E s o).cache := by
  cases o with
  | set n v => exact h
  | setN n => exact h
  | setX x => exact h
  | price t =>
    unfold step fftInterp
    simp only
    split
    · exact h
    · intro k f hk
      simp only at hk
      split at hk
      · rename_i hkey
        subst hkey
        exact ⟨s.attrs, ha, rfl, (Option.some.inj hk).symm⟩
      · exact h k f hk

lemma run_snoc (E : Env) (s : State) (l : List Op) (o : Op) : run E s (l ++ [o]) = step E (run E s l) o := by
  simp [run]

lemma run_inv {E : Env} {A : Attrs → Prop} {a0 : Attrs} {n : ℕ} {x : ℝ} (ops : List Op)
    (hA : ∀ pre, pre <+: ops → A (run E (fresh a0 n x) pre).attrs) :
    CacheInv E A (run E (fresh a0 n x) ops).cache := by
  induction ops using List.reverseRecOn with
  | nil => intro k f hk; simp [run, fresh] at hk
  | append_singleton l o ih =>
    rw [run_snoc]
    exact step_inv (ih fun pre hp => hA pre (hp.trans (List.prefix_append _ _)))
      (hA l (List.prefix_append _ _)) o

/-- **C30.**  For any history of attribute assignments, grid changes and pricing calls: if parameter states visited during
the history (described by `A`) with equal `params_hash` have the same MGF, then every price equals the price from a newly
constructed object with the same parameters. -/
theorem cache_sound_partial {E : Env} {a0 : Attrs} {n : ℕ} {x : ℝ} (ops : List Op) {A : Attrs → Prop}
    (hA : ∀ pre, pre <+: ops → A (run E (fresh a0 n x) pre).attrs)
    (hinj : ∀ a b, A a → A b → E.hashOf a = E.hashOf b → E.mgf a = E.mgf b) (K S T cp : ℝ) :
    price E (run E (fresh a0 n x) ops) K S T cp = priceFresh E (run E (fresh a0 n x) ops) K S T cp := by
  have hinv := run_inv (E := E) ops hA
  have hcur := hA ops (List.prefix_refl _)
  set s := run E (fresh a0 n x) ops
  unfold price priceFresh
  congr 1
  unfold fftInterp
  simp only
  split
  · rename_i f hf
    obtain ⟨a, ha, hk, rfl⟩ := hinv _ _ hf
    rw [hinj a s.attrs ha hcur hk.symm]
  · rfl

/-- The BSM environment: class `BsmFft`, its MGF, any hash function and any spline routine. -/
noncomputable def bsmEnv (hash : Finset String × Finset (Option ℝ) → ℤ) (I : Interp) : Env :=
  ⟨bsmParams, hash, fun a T u => Bsm.logpMgf (mparams a) u T, I⟩

/-- Attributes of `BsmFft(sigma, intr=r, divr=q, is_fwd=b)`. -/
def bsmAttrs (σ r q : ℝ) (b : Bool) : Attrs := fun n =>
  if n = "sigma" then some (.num σ) else if n = "intr" then some (.num r) else if n = "divr" then some (.num q)
  else if n = "is_fwd" then some (.bool b) else none

/-- `bsmAttrs` are indeed what the constructor produces. -/
lemma bsmAttrs_constructed (σ r q : ℝ) (b : Bool) :
    construct bsmParams [("sigma", .num σ), ("intr", .num r), ("divr", .num q), ("is_fwd", .bool b)]
      = .ok ⟨bsmParams, bsmAttrs σ r q b⟩ := by
  unfold construct
  rw [if_neg (by simp [bsmParams, baseFields]), if_neg (by simp [bsmParams, baseFields])]
  simp only [bsmParams, basePost]
  congr 2
  funext n
  unfold bindArgs bsmAttrs baseFields
  by_cases h1 : n = "sigma"
  · subst h1; simp [List.lookup]
  by_cases h2 : n = "intr"
  · subst h2; simp [List.lookup]
  by_cases h3 : n = "divr"
  · subst h3; simp [List.lookup]
  by_cases h4 : n = "is_fwd"
  · subst h4; simp [List.lookup]
  simp [h1, h2, h3, h4, List.find?, show ("sigma" == n) = false by simpa using Ne.symm h1,
    show ("intr" == n) = false by simpa using Ne.symm h2, show ("divr" == n) = false by simpa using Ne.symm h3,
    show ("is_fwd" == n) = false by simpa using Ne.symm h4]

lemma bsmAttrs_set (σ σ' r q : ℝ) (b : Bool) : (bsmAttrs σ r q b).set "sigma" (.num σ') = bsmAttrs σ' r q b := by
  funext n
  unfold Attrs.set bsmAttrs
  split <;> simp_all

lemma bsm_hashArg (σ r q : ℝ) (b : Bool) :
    paramsHashArg ⟨bsmParams, bsmAttrs σ r q b⟩
      = ({"sigma", "intr", "divr", "is_fwd"}, {some σ, some r, some q, some (if b then 1 else 0)}) := by
  unfold paramsHashArg paramsKw
  simp [bsmParams, baseFields, PyField.isModel, bsmAttrs, Val.key]

lemma mparams_bsm (σ r q : ℝ) (b : Bool) : mparams (bsmAttrs σ r q b) = ⟨σ, r, q, b⟩ := by
  simp [mparams, bsmAttrs]

/-- **C30**, positive instance: repeatedly re-assigning only `sigma` on a `BsmFft` object, to values never equal to another
parameter value of the object (`intr`, `divr`, `0`/`1` for `is_fwd`), always gives fresh prices, for any collision-free
hash. -/
theorem bsmFft_sigma_updates_fresh {hash : Finset String × Finset (Option ℝ) → ℤ} (hh : Function.Injective hash)
    (I : Interp) (r q : ℝ) (b : Bool) (ok : Set ℝ)
    (hok : ∀ s ∈ ok, s ≠ r ∧ s ≠ q ∧ s ≠ (if b then 1 else 0)) {σ0 : ℝ} (h0 : σ0 ∈ ok) (n : ℕ) (x : ℝ) (ops : List Op)
    (hops : ∀ o ∈ ops, match o with | .set nm v => nm = "sigma" ∧ ∃ s ∈ ok, v = .num s | _ => True) (K S T cp : ℝ) :
    let s := run (bsmEnv hash I) (fresh (bsmAttrs σ0 r q b) n x) ops
    price (bsmEnv hash I) s K S T cp = priceFresh (bsmEnv hash I) s K S T cp := by
  refine cache_sound_partial ops (A := fun a => ∃ s ∈ ok, a = bsmAttrs s r q b) ?_ ?_ K S T cp
  · intro pre hpre
    have hpo : ∀ o ∈ pre, match o with | .set nm v => nm = "sigma" ∧ ∃ s ∈ ok, v = .num s | _ => True :=
      fun o ho => hops o (hpre.subset ho)
    clear hpre hops
    induction pre using List.reverseRecOn with
    | nil => exact ⟨σ0, h0, rfl⟩
    | append_singleton l o ih =>
      rw [run_snoc]
      obtain ⟨s, hs, hsa⟩ := ih fun o ho => hpo o (by simp [ho])
      have ho := hpo o (by simp)
      cases o with
      | set nm v =>
        obtain ⟨rfl, s', hs', rfl⟩ := ho
        refine ⟨s', hs', ?_⟩
        simp only [step]
        rw [hsa, bsmAttrs_set]
      | setN n => exact ⟨s, hs, hsa⟩
      | setX x => exact ⟨s, hs, hsa⟩
      | price t =>
        refine ⟨s, hs, ?_⟩
        rw [← hsa]
        unfold step fftInterp
        simp only
        split <;> rfl
  · rintro _ _ ⟨s, hs, rfl⟩ ⟨s', hs', rfl⟩ he
    have he' := hh he
    simp only [bsmEnv] at he'
    rw [bsm_hashArg, bsm_hashArg] at he'
    have h2 := congrArg Prod.snd he'
    simp only at h2
    have : some s ∈ ({some s', some r, some q, some (if b then 1 else 0)} : Finset (Option ℝ)) := by
      rw [← h2]; simp
    obtain ⟨k1, k2, k3⟩ := hok s hs
    simp only [Finset.mem_insert, Finset.mem_singleton, Option.some.injEq, k1, k2, k3, or_false] at this
    rw [this]

/-- The quadrature sum at the money is strictly decreasing in the volatility. -/
lemma atm_grid_anti {σ1 σ2 r q T X : ℝ} {b : Bool} (h1 : 0 ≤ σ1) (h12 : σ1 < σ2) (hT : 0 < T) (hX : 0 < X) {n : ℕ}
    (hn : 0 < n) :
    ∑ j ∈ Finset.range n, weight n (X / n) j * lewisIntegrand (fun u => Bsm.logpMgf ⟨σ2, r, q, b⟩ u T) 0 (j * (X / n))
      < ∑ j ∈ Finset.range n,
        weight n (X / n) j * lewisIntegrand (fun u => Bsm.logpMgf ⟨σ1, r, q, b⟩ u T) 0 (j * (X / n)) := by
  have hval : ∀ σ y : ℝ, lewisIntegrand (fun u => Bsm.logpMgf ⟨σ, r, q, b⟩ u T) 0 y
      = rexp (-0.5 * σ ^ 2 * T * (y ^ 2 + 0.25)) / (y ^ 2 + 0.25) := by
    intro σ y
    unfold lewisIntegrand Bsm.logpMgf
    congr 1
    simp only
    rw [show -((0 : ℝ) : ℂ) * (y : ℂ) * Complex.I = 0 by push_cast; ring, Complex.exp_zero, one_mul]
    rw [show (-0.5 : ℂ) * (σ : ℂ) ^ 2 * T * (y * Complex.I + 0.5) * (1 - (y * Complex.I + 0.5))
        = ((-0.5 * σ ^ 2 * T * (y ^ 2 + 0.25) : ℝ) : ℂ) by
      push_cast
      have hI := Complex.I_sq
      have h : ((y : ℂ) * Complex.I + 0.5) * (1 - (y * Complex.I + 0.5)) = y ^ 2 + 0.25 := by
        linear_combination (-(y : ℂ) ^ 2) * hI
      rw [mul_assoc, h]]
    exact_mod_cast rfl
  have hw : ∀ j, 0 < weight n (X / n) j := by
    intro j
    unfold weight
    have : 0 < X / n / 3 := by positivity
    split
    · split <;> linarith
    · linarith
  refine Finset.sum_lt_sum_of_nonempty ⟨0, by simpa using hn⟩ fun j _ => ?_
  rw [hval, hval]
  refine mul_lt_mul_of_pos_left ?_ (hw j)
  refine div_lt_div_of_pos_right ?_ (by positivity)
  rw [Real.exp_lt_exp]
  have : σ1 ^ 2 < σ2 ^ 2 := by nlinarith
  have hy : 0 < ((j : ℝ) * (X / n)) ^ 2 + 0.25 := by positivity
  nlinarith [mul_pos (mul_pos (sub_pos.2 this) hT) hy]

/-- **C30 fails in general**: `params_hash` hashes the *set* of parameter values, so two different parameter states can have
the same hash.  Take `BsmFft(sigma=r, intr=r, divr=q)`, price, assign `m.sigma = q`, price again: whatever the hash function
and the (interpolating) spline, the second at-the-money price is computed from the first volatility and differs from the
price of a newly constructed object. -/
theorem bsmFft_stale_price (hash : Finset String × Finset (Option ℝ) → ℤ) {I : Interp} (hI : I.Exact) {r q S T X cp : ℝ}
    {b : Bool} (hr : 0 < r) (hq : 0 < q) (hrq : r ≠ q) (hS : 0 < S) (hT : 0 < T) (hX : 0 < X) {h : ℕ} (hh : 0 < h)
    (K0 : ℝ) (hK : K0 = Spec.forward b r q S T) :
    let E := bsmEnv hash I
    let s := run E (fresh (bsmAttrs r r q b) (2 * h) X) [.price T, .set "sigma" (.num q)]
    s.attrs = bsmAttrs q r q b ∧ price E s K0 S T cp ≠ priceFresh E s K0 S T cp := by
  have hhash : ∀ E : Env, E = bsmEnv hash I → E.hashOf (bsmAttrs r r q b) = E.hashOf (bsmAttrs q r q b) := by
    rintro E rfl
    unfold Env.hashOf
    congr 1
    simp only [bsmEnv]
    rw [bsm_hashArg, bsm_hashArg]
    congr 1
    ext v
    simp only [Finset.mem_insert, Finset.mem_singleton]
    tauto
  intro E s
  have hE := hhash E rfl
  -- the state after the two operations
  set f0 := buildInterp I (fun u => Bsm.logpMgf ⟨r, r, q, b⟩ u T) (2 * h) X with hf0
  have hs : s = ⟨bsmAttrs q r q b, 2 * h, X,
      fun k => if k = (T, E.hashOf (bsmAttrs r r q b), 2 * h, X) then some f0 else none⟩ := by
    show (run E _ _) = _
    simp only [run, List.foldl, step, fftInterp, fresh]
    rw [bsmAttrs_set]
    simp only [hf0, E, bsmEnv, mparams_bsm]
  have hF : (⟨q, r, q, b⟩ : MParams).fwd S T = K0 := by
    rw [MParams.fwd_eq_forward, MParams.forward_eq_spec, hK]
  have hF0 : 0 < K0 := hF ▸ MParams.fwd_pos _ hS T
  have hknot : knot (2 * h) X h = 0 := by
    unfold knot
    push_cast
    ring
  have hkk : K0 / (⟨q, r, q, b⟩ : MParams).fwd S T = 1 := by rw [hF]; exact div_self hF0.ne'
  have hat : ∀ σ, priceWith (buildInterp I (fun u => Bsm.logpMgf ⟨σ, r, q, b⟩ u T) (2 * h) X) ⟨q, r, q, b⟩ K0 S T cp
      = assemble ((⟨q, r, q, b⟩ : MParams).df T) K0 1 cp (1 / π * ∑ j ∈ Finset.range (2 * h),
        weight (2 * h) (X / (2 * h : ℕ)) j *
          lewisIntegrand (fun u => Bsm.logpMgf ⟨σ, r, q, b⟩ u T) 0 (j * (X / (2 * h : ℕ)))) := by
    intro σ
    rw [fft_price_at_knot hI _ hX.ne' (k := h) (by omega) _ (by rw [hkk, hknot]; simp), hkk, hF, Real.log_one,
      Real.sqrt_one]
  refine ⟨by rw [hs], ?_⟩
  have hp : price E s K0 S T cp = priceWith f0 ⟨q, r, q, b⟩ K0 S T cp := by
    unfold price fftInterp
    rw [hs]
    simp only [← hE, if_true, mparams_bsm]
  have hpf : priceFresh E s K0 S T cp
      = priceWith (buildInterp I (fun u => Bsm.logpMgf ⟨q, r, q, b⟩ u T) (2 * h) X) ⟨q, r, q, b⟩ K0 S T cp := by
    unfold priceFresh
    rw [hs]
    simp only [mparams_bsm, E, bsmEnv]
  rw [hp, hpf, hf0, hat, hat]
  unfold assemble
  have hdf := (⟨q, r, q, b⟩ : MParams).df_pos T
  have hpi : 0 < 1 / π := by positivity
  intro heq
  have heq2 := mul_left_cancel₀ (mul_pos hdf hF0).ne' heq
  have heq3 := mul_left_cancel₀ hpi.ne' (sub_right_injective heq2)
  rcases lt_or_gt_of_ne hrq with hlt | hlt
  · exact absurd heq3 (atm_grid_anti hr.le hlt hT hX (by omega)).ne'
  · exact absurd heq3 (atm_grid_anti hq.le hlt hT hX (by omega)).ne

/-- Hypotheses are met: 5% rate, 10% dividend yield and spot 100, one year, with the class's own grid. -/
example : (0 : ℝ) < 0.05 ∧ (0 : ℝ) < 0.1 ∧ (0.05 : ℝ) ≠ 0.1 ∧ (0 : ℝ) < 200 ∧ 0 < 2 ^ 11 := by norm_num

/-! ### C72 instances -/

/-- A law with the right MGF in the strip is a martingale law. -/
lemma isMartingaleLaw_of {μ : Measure ℝ} (h1 : complexMGF id μ 0 = 1) (hm : ∫ x, rexp x ∂μ = 1) : Spec.IsMartingaleLaw μ := by
  refine ⟨?_, ?_, hm⟩
  · have : μ.real univ = 1 := by
      have h2 : ∫ _x : ℝ, (1 : ℂ) ∂μ = 1 := by simpa [complexMGF] using h1
      rw [integral_const, Complex.real_smul, mul_one] at h2
      exact_mod_cast h2
    constructor
    rw [Measure.real, ENNReal.toReal_eq_one_iff] at this
    exact this
  · by_contra h
    rw [integral_undef h] at hm
    exact zero_ne_one hm

/-- **C72 (Black-Scholes).**  `BsmFft.price_simpson` converges to `Bsm.price` (`BsmFft.price_analytic`) as the grid is
refined and the cut-off removed. -/
theorem bsm_simpson_converges (m : MParams) {K S T cp : ℝ} (hS : 0 < S) (hK : 0 < K) (hcp : Spec.IsCp cp) (hT : 0 ≤ T)
    (hv : eps ≤ m.sigma * √T) :
    ∃ P : ℝ → ℝ,
      (∀ X, 0 < X → Tendsto (fun k => priceSimpson (fun u => Bsm.logpMgf m u T) k X m K S T cp) atTop (𝓝 (P X))) ∧
      Tendsto P atTop (𝓝 (Bsm.price m K S T cp)) := by
  set g : ℝ → ℝ := fun z => m.sigma * √T * z - m.sigma ^ 2 * T / 2 with hg
  have hgm : Measurable g := by fun_prop
  set μ := (gaussianReal 0 1).map g with hμ
  have hmgf : ∀ u, Bsm.logpMgf m u T = complexMGF id μ u := by
    intro u
    rw [bsm_logp_mgf_correct m u hT, complexMGF, hμ, integral_map hgm.aemeasurable (by fun_prop)]
    rfl
  have hone : ∫ x, rexp x ∂μ = 1 := by
    have := complexMGF_ofReal (X := id) (μ := μ) 1
    rw [Complex.ofReal_one, ← hmgf, (bsm_logp_mgf_norm m T).2] at this
    have h2 : mgf id μ 1 = 1 := by exact_mod_cast this.symm
    simpa [mgf] using h2
  have hM := isMartingaleLaw_of (by rw [← hmgf, (bsm_logp_mgf_norm m T).1]) hone
  obtain ⟨P, h1, h2⟩ := simpson_converges hM (mgf := fun u => Bsm.logpMgf m u T) (fun x => hmgf _) m hS hK hcp (T := T)
  refine ⟨P, h1, ?_⟩
  rw [bsm_price_eq_expectation m hcp hK hS hv]
  convert h2 using 2
  unfold Spec.lawPrice Spec.gaussE
  congr 1
  rw [hμ, integral_map hgm.aemeasurable (by unfold Spec.payoff; fun_prop)]
  refine integral_congr_ae (Eventually.of_forall fun z => ?_)
  simp only [Spec.gbm, hg]
  rw [mul_pow, Real.sq_sqrt hT]

/-- **C72 (variance gamma).**  `VarGammaFft.price_simpson` converges to the discounted expected payoff under the
variance-gamma law with the martingale drift. -/
theorem vg_simpson_converges {a : SubArgs} {m : SubParams} (h : VarGamma.init a = .ok m) (hn : 0 < a.nu) (mp : MParams)
    {K S T cp : ℝ} (hS : 0 < S) (hK : 0 < K) (hcp : Spec.IsCp cp) (hT : 0 < T) :
    ∃ omega : ℝ, (∫ x, rexp x ∂(VarGamma.law omega a.theta a.sigma a.nu T) = 1) ∧ ∃ P : ℝ → ℝ,
      (∀ X, 0 < X → Tendsto (fun k => priceSimpson (fun u => VarGamma.logpMgf m u T) k X mp K S T cp) atTop (𝓝 (P X))) ∧
      Tendsto P atTop (𝓝 (Spec.lawPrice (VarGamma.law omega a.theta a.sigma a.nu T) (Spec.discount mp.intr T)
        (Spec.forward mp.isFwd mp.intr mp.divr S T) K cp)) := by
  have hmart := VarGamma.martingale_drift h hn hT
  refine ⟨_, hmart, ?_⟩
  have hM := isMartingaleLaw_of (by
    rw [← VarGamma.logpMgf_correct h hn hT hmart (by simp) (by simp), (VarGamma.logpMgf_normalised h T 0 0 0).1]) hmart
  exact simpson_converges hM (mgf := fun u => VarGamma.logpMgf m u T)
    (fun x => VarGamma.logpMgf_correct h hn hT hmart (by simp; norm_num) (by simp; norm_num)) mp hS hK hcp

/-- **C72 (NIG).**  `ExpNigFft.price_simpson` converges to the discounted expected payoff under the NIG law with the
martingale drift. -/
theorem nig_simpson_converges {a : SubArgs} {m : SubParams} (h : Nig.init a = .ok m) (hn : 0 < a.nu) (mp : MParams)
    {K S T cp : ℝ} (hS : 0 < S) (hK : 0 < K) (hcp : Spec.IsCp cp) (hT : 0 < T) :
    ∃ omega : ℝ, (∫ x, rexp x ∂(Nig.law omega a.theta a.sigma a.nu T) = 1) ∧ ∃ P : ℝ → ℝ,
      (∀ X, 0 < X → Tendsto (fun k => priceSimpson (fun u => Nig.logpMgf m u T) k X mp K S T cp) atTop (𝓝 (P X))) ∧
      Tendsto P atTop (𝓝 (Spec.lawPrice (Nig.law omega a.theta a.sigma a.nu T) (Spec.discount mp.intr T)
        (Spec.forward mp.isFwd mp.intr mp.divr S T) K cp)) := by
  have hmart := Nig.martingale_drift h hn hT
  refine ⟨_, hmart, ?_⟩
  have hM := isMartingaleLaw_of (by
    rw [← Nig.logpMgf_correct h hn hT hmart (by simp) (by simp), (Nig.logpMgf_normalised h T 0 0 0).1]) hmart
  exact simpson_converges hM (mgf := fun u => Nig.logpMgf m u T)
    (fun x => Nig.logpMgf_correct h hn hT hmart (by simp; norm_num) (by simp; norm_num)) mp hS hK hcp

end Fft
end PyFENG
