import Verif.Props.SvFinDiff
import Mathlib.Tactic.Linarith
import Mathlib.Tactic.Positivity

/-!
# C88, C89: the finite-difference engine - put-call parity, scaling, consistency of the discretised operator
-/

namespace PyFENG

open Real

namespace Thomas

variable {sub mid sup : ℕ → ℝ}

/-- The Thomas solver is affine in the right-hand side: two right-hand sides that differ by the image of `d` have solutions that differ by `d`. -/
lemma solve_shift {n : ℕ} (hd : ∀ i < n, denom sub mid sup i ≠ 0) {rc rp d : ℕ → ℝ}
    (h : Spec.Tridiag n sub mid sup (fun i => rc i - rp i) d) :
    ∀ i < n, solve n sub mid sup rc i - solve n sub mid sup rp i = d i := by
  intro i hi
  have hp := thomas_solves (rhs := rp) hd
  have : Spec.Tridiag n sub mid sup rc (fun i => solve n sub mid sup rp i + d i) := by
    intro k hk
    have h1 := hp k hk
    have h2 := h k hk
    beta_reduce at h2 ⊢
    split_ifs at * <;> linarith
  have := thomas_unique (rhs := rc) hd this i hi
  beta_reduce at this
  linarith

end Thomas

namespace Fd

/-- Parity on the whole grid. -/
def Par (M L : ℕ) (X : ℕ → ℝ) (kk : ℝ) (Vc Vp : ℕ → ℕ → ℝ) : Prop := ∀ i ≤ M, ∀ j ≤ L, Vc i j - Vp i j = X i - kk

variable {M L : ℕ} {X : ℕ → ℝ} {kk : ℝ} {Vc Vp : ℕ → ℕ → ℝ}

lemma max_par (a : ℝ) : max a 0 - max (-a) 0 = a := by
  rcases le_total 0 a with h | h
  · rw [max_eq_left h, max_eq_right (by linarith)]; ring
  · rw [max_eq_right h, max_eq_left (by linarith)]; ring

lemma par_standardBc (hL : 1 ≤ L) (h0 : X 0 = 0) (hM : kk ≤ X M) (h : Par M L X kk Vc Vp) :
    Par M L X kk (standardBc M L Vc kk X 1) (standardBc M L Vp kk X (-1)) := by
  intro i hi j hj
  have e : ∀ x : ℝ, max (x - kk) 0 - max (kk - x) 0 = x - kk := fun x => by
    have := max_par (x - kk); rwa [neg_sub] at this
  have key : ∀ j ≤ L, i ≤ M → (if j = 0 then max (X i - kk) 0 else if i = M then max (X M - kk) 0 else if i = 0 then 0 else Vc i j)
      - (if j = 0 then max (kk - X i) 0 else if i = M then 0 else if i = 0 then kk else Vp i j) = X i - kk := by
    intro j hj hi
    split_ifs with a b c
    · exact e _
    · rw [b, max_eq_left (by linarith)]; ring
    · rw [c, h0]
    · exact h i hi j hj
  unfold standardBc
  norm_num
  by_cases hjL : j = L
  · rw [if_pos hjL, if_pos hjL]
    exact key (L - 1) (by omega) hi
  · rw [if_neg hjL, if_neg hjL]
    exact key j hj hi

lemma par_hestonBc (hL : 1 ≤ L) (h0 : X 0 = 0) (hM : kk ≤ X M) (h : Par M L X kk Vc Vp) :
    Par M L X kk (hestonBc M L Vc kk X 1) (hestonBc M L Vp kk X (-1)) := by
  intro i hi j hj
  have key : ∀ j ≤ L, i ≤ M → (if i = M then max (X M - kk) 0 else if i = 0 then 0 else Vc i j)
      - (if i = M then 0 else if i = 0 then kk else Vp i j) = X i - kk := by
    intro j hj hi
    split_ifs with b c
    · rw [b, max_eq_left (by linarith)]; ring
    · rw [c, h0]
    · exact h i hi j hj
  unfold hestonBc
  norm_num
  by_cases hjL : j = L
  · rw [if_pos hjL, if_pos hjL]
    exact key (L - 1) (by omega) hi
  · rw [if_neg hjL, if_neg hjL]
    exact key j hj hi

lemma par_F0 (h : Par M L X kk Vc Vp) (g : ℕ → ℕ → ℝ) (dX dv : ℝ) : F0 M L Vc g dX dv = F0 M L Vp g dX dv := by
  funext i j
  unfold F0
  split_ifs with c
  · have h1 := h (i + 1) (by omega) (j + 1) (by omega)
    have h2 := h (i + 1) (by omega) (j - 1) (by omega)
    have h3 := h (i - 1) (by omega) (j + 1) (by omega)
    have h4 := h (i - 1) (by omega) (j - 1) (by omega)
    congr 2
    linarith
  · rfl

lemma par_F1 (hX : ∀ i, 1 ≤ i → X (i + 1) + X (i - 1) = 2 * X i) (h : Par M L X kk Vc Vp) (aS bS : ℕ → ℕ → ℝ) (hb : ∀ i j, bS i j = 0) (dX : ℝ) :
    ∀ i j, j ≤ L → F1 M Vc aS bS dX i j = F1 M Vp aS bS dX i j := by
  intro i j hj
  unfold F1
  split_ifs with c
  · have h1 := h (i + 1) (by omega) j hj
    have h2 := h i (by omega) j hj
    have h3 := h (i - 1) (by omega) j hj
    have h4 := hX i c.1
    simp only [hb, zero_div, zero_mul, add_zero]
    congr 1
    linarith
  · rfl

lemma par_F2 (h : Par M L X kk Vc Vp) (aV bV : ℕ → ℝ) (dv : ℝ) : ∀ i ≤ M, ∀ j, F2 L Vc aV bV dv i j = F2 L Vp aV bV dv i j := by
  intro i hi j
  unfold F2
  split_ifs with c
  · have h1 := h i hi (j + 1) (by omega)
    have h2 := h i hi j (by omega)
    have h3 := h i hi (j - 1) (by omega)
    simp only
    congr 2 <;> linarith
  · rfl

/-- Boundary conditions preserve parity. -/
def BddPar (m : FdModel) (M L : ℕ) (X : ℕ → ℝ) (kk : ℝ) : Prop :=
  ∀ Vc Vp, Par M L X kk Vc Vp → Par M L X kk (m.bdd M L Vc kk X 1) (m.bdd M L Vp kk X (-1))

variable {m : FdModel} {G : FdGrid}

/-- Pivots of the price-direction sweep. -/
noncomputable def pivS (adt : ℝ) (aS : ℕ → ℕ → ℝ) (dX : ℝ) (r j : ℕ) : ℝ :=
  Thomas.denom (fun r => -adt * (aS (r + 1) j / dX ^ 2)) (fun r => 1 + adt * 2 * (aS (r + 1) j / dX ^ 2)) (fun r => -adt * (aS (r + 1) j / dX ^ 2)) r

lemma par_solveS (hM2 : 2 ≤ G.M) (hb : BddPar m G.M G.L X kk) (hX : ∀ i, 1 ≤ i → X (i + 1) + X (i - 1) = 2 * X i)
    {rc rp : ℕ → ℕ → ℝ} (h : Par G.M G.L X kk rc rp) {adt dX : ℝ} {aS bS : ℕ → ℕ → ℝ} (hb0 : ∀ i j, bS i j = 0)
    (hd : ∀ j, 1 ≤ j → j < G.L → ∀ r < G.M - 1, pivS adt aS dX r j ≠ 0) :
    Par G.M G.L X kk (solveS m G rc adt aS bS dX X kk 1) (solveS m G rp adt aS bS dX X kk (-1)) := by
  have hY := hb _ _ h
  unfold solveS
  simp only [hb0, zero_div, sub_zero, add_zero]
  apply hb
  intro i hi j hj
  beta_reduce
  by_cases c : 1 ≤ i ∧ i < G.M ∧ 1 ≤ j ∧ j < G.L
  · rw [if_pos c, if_pos c]
    have := Thomas.solve_shift (sub := fun r => -adt * (aS (r + 1) j / dX ^ 2)) (mid := fun r => 1 + adt * 2 * (aS (r + 1) j / dX ^ 2))
      (sup := fun r => -adt * (aS (r + 1) j / dX ^ 2)) (n := G.M - 1) (hd j c.2.2.1 c.2.2.2) (d := fun r => X (r + 1) - kk)
      (rc := fun r => if r = G.M - 2 then (if r = 0 then rc (r + 1) j - -adt * (aS (0 + 1) j / dX ^ 2) * m.bdd G.M G.L rc kk X 1 0 j else rc (r + 1) j) -
        -adt * (aS (G.M - 2 + 1) j / dX ^ 2) * m.bdd G.M G.L rc kk X 1 G.M j else (if r = 0 then rc (r + 1) j - -adt * (aS (0 + 1) j / dX ^ 2) * m.bdd G.M G.L rc kk X 1 0 j else rc (r + 1) j))
      (rp := fun r => if r = G.M - 2 then (if r = 0 then rp (r + 1) j - -adt * (aS (0 + 1) j / dX ^ 2) * m.bdd G.M G.L rp kk X (-1) 0 j else rp (r + 1) j) -
        -adt * (aS (G.M - 2 + 1) j / dX ^ 2) * m.bdd G.M G.L rp kk X (-1) G.M j else (if r = 0 then rp (r + 1) j - -adt * (aS (0 + 1) j / dX ^ 2) * m.bdd G.M G.L rp kk X (-1) 0 j else rp (r + 1) j))
      ?_ (i - 1) (by omega)
    · rw [this, Nat.sub_add_cancel c.1]
    · intro r hr
      have hr1 := h (r + 1) (by omega) j hj
      have h00 := hY 0 (by omega) j hj
      have hMM := hY G.M le_rfl j hj
      have hx := hX (r + 1) (by omega)
      rw [Nat.add_sub_cancel] at hx
      beta_reduce
      generalize hA : adt * (aS (r + 1) j / dX ^ 2) = A
      have eM : r + 1 = G.M - 1 ↔ r = G.M - 2 := by omega
      have em : adt * 2 * (aS (r + 1) j / dX ^ 2) = 2 * A := by rw [← hA]; ring
      simp only [em, neg_mul, hA]
      by_cases a : r = G.M - 2
      · have e1 : r + 1 + 1 = G.M := by omega
        rw [e1] at hx
        by_cases b : r = 0
        · subst b
          simp only [← a, if_true, e1, hA, if_pos (show 0 + 1 = G.M - 1 by omega)]
          linear_combination -hr1 - A * h00 - A * hMM - A * hx
        · simp only [if_pos a, ← a, if_neg b, if_true, hA, if_pos (show r + 1 = G.M - 1 by omega)]
          rw [show r - 1 + 1 = r by omega]
          linear_combination -hr1 - A * hMM - A * hx
      · by_cases b : r = 0
        · subst b
          simp only [if_neg a, if_true, hA, if_neg (show ¬ (0 + 1 = G.M - 1) by omega)]
          linear_combination -hr1 - A * h00 - A * hx
        · simp only [if_neg a, if_neg b, if_neg (show ¬ (r + 1 = G.M - 1) by omega)]
          rw [show r - 1 + 1 = r by omega]
          linear_combination -hr1 - A * hx
  · rw [if_neg c, if_neg c]
    exact hY i hi j hj

/-- Pivots of the volatility-direction sweep. -/
noncomputable def pivV (L : ℕ) (adt : ℝ) (aV bV : ℕ → ℝ) (dv : ℝ) (r : ℕ) : ℝ :=
  Thomas.denom (fun r => -adt * (aV (r + 1) / dv ^ 2 - bV (r + 1) / (2 * dv)))
    (fun r => if r = L - 2 then 1 + adt * 2 * (aV (r + 1) / dv ^ 2) + -adt * (aV (r + 1) / dv ^ 2 + bV (r + 1) / (2 * dv))
      else 1 + adt * 2 * (aV (r + 1) / dv ^ 2))
    (fun r => -adt * (aV (r + 1) / dv ^ 2 + bV (r + 1) / (2 * dv))) r

lemma par_solveV (hL2 : 2 ≤ G.L) (hb : BddPar m G.M G.L X kk)
    {rc rp : ℕ → ℕ → ℝ} (h : Par G.M G.L X kk rc rp) {adt dv : ℝ} {aV bV : ℕ → ℝ}
    (hd : ∀ r < G.L - 1, pivV G.L adt aV bV dv r ≠ 0) :
    Par G.M G.L X kk (solveV m G rc adt aV bV dv X kk 1) (solveV m G rp adt aV bV dv X kk (-1)) := by
  have hY := hb _ _ h
  unfold solveV
  apply hb
  have key : ∀ i ≤ G.M, ∀ r < G.L - 1, _ := fun i hi r hr =>
    Thomas.solve_shift (n := G.L - 1) hd (d := fun _ => X i - kk)
      (rc := fun r => if r = 0 then rc i (r + 1) - -adt * (aV (0 + 1) / dv ^ 2 - bV (0 + 1) / (2 * dv)) * m.bdd G.M G.L rc kk X 1 i 0 else rc i (r + 1))
      (rp := fun r => if r = 0 then rp i (r + 1) - -adt * (aV (0 + 1) / dv ^ 2 - bV (0 + 1) / (2 * dv)) * m.bdd G.M G.L rp kk X (-1) i 0 else rp i (r + 1))
      (by
        intro r hr
        have hr1 := h i hi (r + 1) (by omega)
        have h0 := hY i hi 0 (by omega)
        beta_reduce
        by_cases a : r = 0
        · subst a
          by_cases b : (0 : ℕ) = G.L - 2
          · simp only [if_true, if_pos b, if_pos (show 0 + 1 = G.L - 1 by omega)]
            linear_combination -hr1 + (-adt * (aV (0 + 1) / dv ^ 2 - bV (0 + 1) / (2 * dv))) * h0
          · simp only [if_true, if_neg b, if_neg (show ¬ (0 + 1 = G.L - 1) by omega)]
            linear_combination -hr1 + (-adt * (aV (0 + 1) / dv ^ 2 - bV (0 + 1) / (2 * dv))) * h0
        · by_cases b : r = G.L - 2
          · simp only [if_neg a, if_pos b, if_pos (show r + 1 = G.L - 1 by omega)]
            linear_combination -hr1
          · simp only [if_neg a, if_neg b, if_neg (show ¬ (r + 1 = G.L - 1) by omega)]
            linear_combination -hr1) r hr
  intro i hi j hj
  beta_reduce
  by_cases c : j = G.L
  · rw [if_pos c, if_pos c, if_pos (by omega), if_pos (by omega)]
    exact key i hi (G.L - 1 - 1) (by omega)
  · rw [if_neg c, if_neg c]
    by_cases e : 1 ≤ j ∧ j < G.L
    · rw [if_pos e, if_pos e]
      exact key i hi (j - 1) (by omega)
    · rw [if_neg e, if_neg e]
      exact hY i hi j hj

lemma par_step (hM2 : 2 ≤ G.M) (hL2 : 2 ≤ G.L) (hb : BddPar m G.M G.L X kk) (hX : ∀ i, 1 ≤ i → X (i + 1) + X (i - 1) = 2 * X i)
    (hb0 : ∀ x y, m.bS x y = 0) {v : ℕ → ℝ} {dX dv dt : ℝ}
    (hS : ∀ j, 1 ≤ j → j < G.L → ∀ r < G.M - 1, pivS (G.adiTheta * dt) (fun i j => m.aS (X i) (v j)) dX r j ≠ 0)
    (hV : ∀ r < G.L - 1, pivV G.L (G.adiTheta * dt) (fun j => m.aV (v j)) (fun j => m.bV (v j)) dv r ≠ 0)
    (h : Par G.M G.L X kk Vc Vp) :
    Par G.M G.L X kk (step m G Vc X v dX dv dt kk 1) (step m G Vp X v dX dv dt kk (-1)) := by
  have h0 := par_F0 h (fun i j => m.gamma (X i) (v j)) dX dv
  have h1 := par_F1 hX h (fun i j => m.aS (X i) (v j)) (fun i j => m.bS (X i) (v j)) (fun i j => hb0 _ _) dX
  have h2 := par_F2 h (fun j => m.aV (v j)) (fun j => m.bV (v j)) dv
  unfold step
  apply par_solveV hL2 hb _ hV
  intro i hi j hj
  have hs := par_solveS hM2 hb hX (rc := fun i j => m.bdd G.M G.L (fun i j => Vc i j + dt * (F0 G.M G.L Vc (fun i j => m.gamma (X i) (v j)) dX dv i j
      + F1 G.M Vc (fun i j => m.aS (X i) (v j)) (fun i j => m.bS (X i) (v j)) dX i j + F2 G.L Vc (fun j => m.aV (v j)) (fun j => m.bV (v j)) dv i j)) kk X 1 i j
      - G.adiTheta * dt * F1 G.M Vc (fun i j => m.aS (X i) (v j)) (fun i j => m.bS (X i) (v j)) dX i j)
    (rp := fun i j => m.bdd G.M G.L (fun i j => Vp i j + dt * (F0 G.M G.L Vp (fun i j => m.gamma (X i) (v j)) dX dv i j
      + F1 G.M Vp (fun i j => m.aS (X i) (v j)) (fun i j => m.bS (X i) (v j)) dX i j + F2 G.L Vp (fun j => m.aV (v j)) (fun j => m.bV (v j)) dv i j)) kk X (-1) i j
      - G.adiTheta * dt * F1 G.M Vp (fun i j => m.aS (X i) (v j)) (fun i j => m.bS (X i) (v j)) dX i j)
    ?_ (bS := fun i j => m.bS (X i) (v j)) (fun i j => hb0 _ _) hS i hi j hj
  · beta_reduce
    rw [h2 i hi j]
    linarith
  · intro i hi j hj
    have := hb (fun i j => Vc i j + dt * (F0 G.M G.L Vc (fun i j => m.gamma (X i) (v j)) dX dv i j
      + F1 G.M Vc (fun i j => m.aS (X i) (v j)) (fun i j => m.bS (X i) (v j)) dX i j + F2 G.L Vc (fun j => m.aV (v j)) (fun j => m.bV (v j)) dv i j))
      (fun i j => Vp i j + dt * (F0 G.M G.L Vp (fun i j => m.gamma (X i) (v j)) dX dv i j
      + F1 G.M Vp (fun i j => m.aS (X i) (v j)) (fun i j => m.bS (X i) (v j)) dX i j + F2 G.L Vp (fun j => m.aV (v j)) (fun j => m.bV (v j)) dv i j))
      (by
        intro i hi j hj
        have := h i hi j hj
        beta_reduce
        rw [h2 i hi j, h1 i j hj, h0]
        linarith) i hi j hj
    beta_reduce
    rw [h1 i j hj]
    linarith

lemma par_loop (hpre : ∀ Vc Vp dv dt, Par G.M G.L X kk Vc Vp →
      Par G.M G.L X kk (m.preStep G.M G.L Vc X dv dt kk 1) (m.preStep G.M G.L Vp X dv dt kk (-1)))
    {v : ℕ → ℝ} {dX dv dt : ℝ}
    (hstep : ∀ Vc Vp, Par G.M G.L X kk Vc Vp → Par G.M G.L X kk (step m G Vc X v dX dv dt kk 1) (step m G Vp X v dX dv dt kk (-1)))
    (n : ℕ) : ∀ Vc Vp, Par G.M G.L X kk Vc Vp →
    Par G.M G.L X kk (loop m G X v dX dv dt kk 1 n Vc) (loop m G X v dX dv dt kk (-1) n Vp) := by
  induction n with
  | zero => intro Vc Vp h; exact h
  | succ n ih => intro Vc Vp h; exact ih _ _ (hstep _ _ (hpre _ _ _ _ h))

lemma bilinear_sub (V W : ℕ → ℕ → ℝ) (S v : ℕ → ℝ) (nS nv : ℕ) (S0 v0 : ℝ) :
    bilinear V S v nS nv S0 v0 - bilinear W S v nS nv S0 v0 = bilinear (fun i j => V i j - W i j) S v nS nv S0 v0 := by
  unfold bilinear
  ring

lemma bilinear_congr {V W : ℕ → ℕ → ℝ} {S v : ℕ → ℝ} {nS nv : ℕ} {S0 v0 : ℝ} (hS : 2 ≤ nS) (hv : 2 ≤ nv)
    (h : ∀ i < nS, ∀ j < nv, V i j = W i j) : bilinear V S v nS nv S0 v0 = bilinear W S v nS nv S0 v0 := by
  unfold bilinear
  simp only
  rw [h _ (by omega) _ (by omega), h _ (by omega) _ (by omega), h _ (by omega) _ (by omega), h _ (by omega) _ (by omega)]

lemma linspace_second (lo hi : ℝ) (n i : ℕ) (h : 1 ≤ i) : linspace lo hi n (i + 1) + linspace lo hi n (i - 1) = 2 * linspace lo hi n i := by
  unfold linspace
  push_cast [Nat.cast_sub h]
  ring

lemma linspace_zero (lo hi : ℝ) (n : ℕ) : linspace lo hi n 0 = lo := by simp [linspace]

lemma linspace_last (lo hi : ℝ) {n : ℕ} (h : n ≠ 0) : linspace lo hi n n = hi := by
  unfold linspace
  have : (n : ℝ) ≠ 0 := by exact_mod_cast h
  field_simp
  ring

lemma linspace_lt {lo hi : ℝ} {n : ℕ} (hn : n ≠ 0) (h : lo < hi) (i : ℕ) : linspace lo hi n i < linspace lo hi n (i + 1) := by
  unfold linspace
  have : (0 : ℝ) < n := by exact_mod_cast Nat.pos_of_ne_zero hn
  have : 0 < (hi - lo) / n := div_pos (by linarith) this
  push_cast
  linarith

/-- One solve: call minus put is the forward intrinsic value, exactly. -/
lemma par_solveOne {v0 texp : ℝ} (hM2 : 2 ≤ G.M) (hL2 : 2 ≤ G.L)
    (hb : BddPar m G.M G.L (linspace (m.gridBounds v0 kk texp).1 (m.gridBounds v0 kk texp).2.1 G.M) kk)
    (hpre : ∀ Vc Vp dv dt, Par G.M G.L (linspace (m.gridBounds v0 kk texp).1 (m.gridBounds v0 kk texp).2.1 G.M) kk Vc Vp →
      Par G.M G.L (linspace (m.gridBounds v0 kk texp).1 (m.gridBounds v0 kk texp).2.1 G.M) kk
        (m.preStep G.M G.L Vc (linspace (m.gridBounds v0 kk texp).1 (m.gridBounds v0 kk texp).2.1 G.M) dv dt kk 1)
        (m.preStep G.M G.L Vp (linspace (m.gridBounds v0 kk texp).1 (m.gridBounds v0 kk texp).2.1 G.M) dv dt kk (-1)))
    (hb0 : ∀ x y, m.bS x y = 0)
    (hS : ∀ j, 1 ≤ j → j < G.L → ∀ r < G.M - 1, pivS (G.adiTheta * (texp / G.N))
      (fun i j => m.aS (linspace (m.gridBounds v0 kk texp).1 (m.gridBounds v0 kk texp).2.1 G.M i) (linspace 0 (m.gridBounds v0 kk texp).2.2 G.L j))
      (((m.gridBounds v0 kk texp).2.1 - (m.gridBounds v0 kk texp).1) / G.M) r j ≠ 0)
    (hV : ∀ r < G.L - 1, pivV G.L (G.adiTheta * (texp / G.N)) (fun j => m.aV (linspace 0 (m.gridBounds v0 kk texp).2.2 G.L j))
      (fun j => m.bV (linspace 0 (m.gridBounds v0 kk texp).2.2 G.L j)) ((m.gridBounds v0 kk texp).2.2 / G.L) r ≠ 0)
    (hlo : (m.gridBounds v0 kk texp).1 ≤ 1) (hhi : 1 < (m.gridBounds v0 kk texp).2.1) (hv0 : 0 ≤ v0) (hvm : v0 ≤ (m.gridBounds v0 kk texp).2.2)
    (hvp : 0 < (m.gridBounds v0 kk texp).2.2) :
    solveOne m G kk v0 texp 1 - solveOne m G kk v0 texp (-1) = 1 - kk := by
  unfold solveOne
  simp only
  rw [bilinear_sub]
  have hloop := par_loop (v := linspace 0 (m.gridBounds v0 kk texp).2.2 G.L) (dX := ((m.gridBounds v0 kk texp).2.1 - (m.gridBounds v0 kk texp).1) / G.M)
    (dv := (m.gridBounds v0 kk texp).2.2 / G.L) (dt := texp / G.N) hpre
    (fun Vc Vp h => par_step hM2 hL2 hb (linspace_second _ _ _) hb0 hS hV h) G.N _ _
    (hb (fun i _ => max (1 * (linspace (m.gridBounds v0 kk texp).1 (m.gridBounds v0 kk texp).2.1 G.M i - kk)) 0)
      (fun i _ => max (-1 * (linspace (m.gridBounds v0 kk texp).1 (m.gridBounds v0 kk texp).2.1 G.M i - kk)) 0)
      (fun i _ j _ => by beta_reduce; rw [one_mul, neg_one_mul]; exact max_par _))
  generalize m.gridBounds v0 kk texp = b at *
  obtain ⟨lo, hi, vm⟩ := b
  simp only at *
  rw [bilinear_congr (W := fun i j => -kk + 1 * linspace lo hi G.M i + 0 * linspace 0 vm G.L j + 0 * linspace lo hi G.M i * linspace 0 vm G.L j)
    (by omega) (by omega) (fun i hi' j hj => by rw [hloop i (by omega) j (by omega)]; ring)]
  rw [bilinear_exact (by omega) (by omega) (fun i _ => linspace_lt (by omega) (by linarith) i) (fun j _ => linspace_lt (by omega) hvp j)]
  · ring
  · rw [linspace_zero]; exact hlo
  · rw [Nat.add_sub_cancel, linspace_last _ _ (by omega)]; exact hhi.le
  · rw [linspace_zero]; exact hv0
  · rw [Nat.add_sub_cancel, linspace_last _ _ (by omega)]; exact hvm

lemma pivS_ne {adt dX : ℝ} (h : 0 ≤ adt) {aS : ℕ → ℕ → ℝ} {n j : ℕ} (ha : ∀ r < n, 0 ≤ aS (r + 1) j) : ∀ r < n, pivS adt aS dX r j ≠ 0 := by
  apply Thomas.thomas_pivots
  intro i hi
  have h1 : 0 ≤ adt * (aS (i + 1) j / dX ^ 2) := mul_nonneg h (div_nonneg (ha i hi) (sq_nonneg _))
  rw [neg_mul, abs_neg, abs_of_nonneg h1, abs_of_pos (by linarith)]
  split_ifs <;> linarith

lemma pivV_ne {adt dv : ℝ} {L : ℕ} (hL : 2 ≤ L) (h : 0 ≤ adt) {aV bV : ℕ → ℝ} (ha : ∀ r < L - 1, 0 ≤ aV (r + 1))
    (hp : ∀ r < L - 1, 2 * adt * (|bV (r + 1) / (2 * dv)| - aV (r + 1) / dv ^ 2) < 1) : ∀ r < L - 1, pivV L adt aV bV dv r ≠ 0 := by
  apply Thomas.thomas_pivots
  intro i hi
  have hc : 0 ≤ aV (i + 1) / dv ^ 2 := div_nonneg (ha i hi) (sq_nonneg _)
  have hp := hp i hi
  generalize aV (i + 1) / dv ^ 2 = c at *
  generalize bV (i + 1) / (2 * dv) = d at *
  have hac : 0 ≤ adt * c := mul_nonneg h hc
  have e1 : |-adt * (c - d)| = adt * |c - d| := by rw [abs_mul, abs_neg, abs_of_nonneg h]
  have e2 : |-adt * (c + d)| = adt * |c + d| := by rw [abs_mul, abs_neg, abs_of_nonneg h]
  rw [e1, e2]
  have key : adt * (|c - d| + |c + d|) < 1 + adt * 2 * c := by
    have : |c - d| + |c + d| ≤ 2 * max c |d| := by
      rcases abs_cases (c - d) with ⟨a, _⟩ | ⟨a, _⟩ <;> rcases abs_cases (c + d) with ⟨b, _⟩ | ⟨b, _⟩ <;> rw [a, b] <;>
      · have := le_max_left c |d|
        have := le_max_right c |d|
        have := le_abs_self d
        have := neg_abs_le d
        linarith
    have h3 := mul_le_mul_of_nonneg_left this h
    rcases max_cases c |d| with ⟨e, _⟩ | ⟨e, _⟩ <;> rw [e] at h3 <;> nlinarith
  by_cases a : i + 1 = L - 1
  · rw [if_pos a, if_pos (show i = L - 2 by omega), add_zero]
    have hd := mul_le_mul_of_nonneg_left (neg_abs_le (c + d)) h
    have hd2 := mul_le_mul_of_nonneg_left (le_abs_self (c + d)) h
    have h4 := mul_nonneg h (abs_nonneg (c - d))
    rw [abs_of_pos (show 0 < 1 + adt * 2 * c + -adt * (c + d) by linarith)]
    split_ifs <;> linarith
  · rw [if_neg a, if_neg (show ¬ i = L - 2 by omega), abs_of_pos (show 0 < 1 + adt * 2 * c by linarith)]
    have h4 := mul_nonneg h (abs_nonneg (c - d))
    have h5 := mul_nonneg h (abs_nonneg (c + d))
    split_ifs <;> linarith

end Fd

open Fd

/-- **C88**: SABR finite-difference prices (positive `beta`) satisfy put-call parity exactly, for every grid, time step, weight and parameter. -/
theorem sabr_fd_parity {sigma vov rho beta : ℝ} (hb : 0 < beta) (hs : 0 ≤ sigma) {G : FdGrid} (hM : 2 ≤ G.M) (hL : 2 ≤ G.L) (hth : 0 ≤ G.adiTheta)
    (mp : MParams) {strike spot texp : ℝ} (hspot : 0 < spot) (ht : 0 ≤ texp) :
    Spec.Parity (Fd.price (Fd.sabr sigma vov rho beta) G mp strike spot texp 1) (Fd.price (Fd.sabr sigma vov rho beta) G mp strike spot texp (-1))
      (Spec.discount mp.intr texp) (Spec.forward mp.isFwd mp.intr mp.divr spot texp) strike := by
  have hF := mp.fwd_pos hspot texp
  have hv0 : 0 ≤ sigma / mp.fwd spot texp ^ (1 - beta) := div_nonneg hs (rpow_nonneg hF.le _)
  have key : ∀ kk v0 : ℝ, 0 ≤ v0 → solveOne (Fd.sabr sigma vov rho beta) G kk v0 texp 1 - solveOne (Fd.sabr sigma vov rho beta) G kk v0 texp (-1) = 1 - kk := by
    intro kk v0 hv0
    have hxr : 1 ≤ max 1 kk := le_max_left _ _
    have hxk : kk ≤ max 1 kk := le_max_right _ _
    have hx4 : 4 * max 1 kk ≤ max (4 * max 1 kk) (max 1 kk + 5 * v0 * (max 1 kk ^ beta) * √(max texp 0)) := le_max_left _ _
    have hvm : max 1 (5 * v0) ≤ max (max 1 (5 * v0)) (v0 * (1 + 4 * vov * √(max texp 0))) := le_max_left _ _
    have hv1 : 1 ≤ max 1 (5 * v0) := le_max_left _ _
    have hv5 : 5 * v0 ≤ max 1 (5 * v0) := le_max_right _ _
    have hadt : 0 ≤ G.adiTheta * (texp / G.N) := by positivity
    have hg : (Fd.sabr sigma vov rho beta).gridBounds v0 kk texp = (0, max (4 * max 1 kk) (max 1 kk + 5 * v0 * (max 1 kk ^ beta) * √(max texp 0)),
        max (max 1 (5 * v0)) (v0 * (1 + 4 * vov * √(max texp 0)))) := by
      simp only [Fd.sabr, if_pos hb]
    have hbdd : BddPar (Fd.sabr sigma vov rho beta) G.M G.L (linspace ((Fd.sabr sigma vov rho beta).gridBounds v0 kk texp).1
        ((Fd.sabr sigma vov rho beta).gridBounds v0 kk texp).2.1 G.M) kk := by
      rw [hg]
      intro Vc Vp h
      exact par_standardBc (by omega) (linspace_zero _ _ _) (by rw [linspace_last _ _ (by omega)]; simp only; linarith) h
    have hX0 : ∀ i, 0 ≤ linspace 0 (max (4 * max 1 kk) (max 1 kk + 5 * v0 * (max 1 kk ^ beta) * √(max texp 0))) G.M i := by
      intro i
      unfold linspace
      have : 0 ≤ (max (4 * max 1 kk) (max 1 kk + 5 * v0 * (max 1 kk ^ beta) * √(max texp 0)) - 0) / G.M :=
        div_nonneg (by linarith) (Nat.cast_nonneg _)
      positivity
    apply par_solveOne hM hL hbdd
    · intro Vc Vp _ _ h; exact h
    · intro x y; rfl
    · intro j _ _
      apply pivS_ne hadt
      intro r _
      rw [hg]
      simp only [Fd.sabr]
      have := rpow_nonneg (hX0 (r + 1)) (2 * beta)
      have := sq_nonneg (linspace 0 (max (max 1 (5 * v0)) (v0 * (1 + 4 * vov * √(max texp 0)))) G.L j)
      exact mul_nonneg (mul_nonneg (by norm_num) this) (by assumption)
    · apply pivV_ne hL hadt
      · intro r _
        simp only [Fd.sabr]
        exact mul_nonneg (mul_nonneg (by norm_num) (sq_nonneg _)) (sq_nonneg _)
      · intro r _
        simp only [Fd.sabr, zero_div, abs_zero, zero_sub]
        refine lt_of_le_of_lt (mul_nonpos_of_nonneg_of_nonpos (by linarith) ?_) one_pos
        rw [neg_nonpos]
        exact div_nonneg (mul_nonneg (mul_nonneg (by norm_num) (sq_nonneg _)) (sq_nonneg _)) (sq_nonneg _)
    · rw [hg]; exact zero_le_one
    · rw [hg]; simp only; linarith
    · exact hv0
    · rw [hg]; simp only; linarith
    · rw [hg]; simp only; linarith
  unfold Spec.Parity Fd.price
  have h := key (strike / mp.fwd spot texp) (sigma / mp.fwd spot texp ^ (1 - beta)) hv0
  rw [← mp.df_eq_spec, ← mp.forward_eq_spec, ← mp.fwd_eq_forward]
  simp only [show ∀ f t, (Fd.sabr sigma vov rho beta).getV0 f t = sigma / f ^ (1 - beta) from fun _ _ => rfl]
  rw [← mul_sub, h]
  field_simp

/-- **C88**: CEV-Heston finite-difference prices satisfy put-call parity exactly, for every `beta`, on every grid whose implicit volatility
sweep is not singular: `adi_theta * mr * texp * L < N` is enough. -/
theorem heston_cev_fd_parity {h : Heston} (beta : ℝ) (hs : 0 < h.sigma) (hmr : 0 ≤ h.mr) (hth0 : 0 ≤ h.theta) (hvov : 0 ≤ h.vov) {G : FdGrid}
    (hM : 2 ≤ G.M) (hL : 2 ≤ G.L) (hth : 0 ≤ G.adiTheta) (mp : MParams) {strike spot texp : ℝ} (hspot : 0 < spot) (ht : 0 ≤ texp)
    (hmesh : G.adiTheta * h.mr * texp * G.L < G.N) :
    Spec.Parity (Fd.price (Fd.hestonCev h beta) G mp strike spot texp 1) (Fd.price (Fd.hestonCev h beta) G mp strike spot texp (-1))
      (Spec.discount mp.intr texp) (Spec.forward mp.isFwd mp.intr mp.divr spot texp) strike := by
  have hF := mp.fwd_pos hspot texp
  have key : ∀ kk : ℝ, solveOne (Fd.hestonCev h beta) G kk h.sigma texp 1 - solveOne (Fd.hestonCev h beta) G kk h.sigma texp (-1) = 1 - kk := by
    intro kk
    have hxr : 1 ≤ max 1 kk := le_max_left _ _
    have hxk : kk ≤ max 1 kk := le_max_right _ _
    obtain ⟨xm, hxm⟩ : ∃ xm, xm = max (4 * max 1 kk) (1 + 5 * √(h.sigma * max texp 0)) := ⟨_, rfl⟩
    obtain ⟨vm, hvm⟩ : ∃ vm, vm = max (5 * h.sigma) (h.theta + 5 * (h.vov * √(max h.theta 1e-8 / (2 * max h.mr 1e-8)))) := ⟨_, rfl⟩
    have hx4 : 4 * max 1 kk ≤ xm := by rw [hxm]; exact le_max_left _ _
    have hv5 : 5 * h.sigma ≤ vm := by rw [hvm]; exact le_max_left _ _
    have hvth : h.theta ≤ vm := by
      rw [hvm]
      refine le_trans ?_ (le_max_right _ _)
      have : 0 ≤ h.vov * √(max h.theta 1e-8 / (2 * max h.mr 1e-8)) := mul_nonneg hvov (sqrt_nonneg _)
      linarith
    have hadt : 0 ≤ G.adiTheta * (texp / G.N) := by positivity
    have hN : (0 : ℝ) < G.N := lt_of_le_of_lt (by positivity) hmesh
    have hLp : (0 : ℝ) < G.L := by exact_mod_cast (by omega : 0 < G.L)
    have hvp : 0 < vm := by linarith
    have hg : (Fd.hestonCev h beta).gridBounds h.sigma kk texp = (0, xm, vm) := by rw [hxm, hvm]; rfl
    have hbdd : ∀ Vc Vp, Par G.M G.L (linspace 0 xm G.M) kk Vc Vp →
        Par G.M G.L (linspace 0 xm G.M) kk (hestonBc G.M G.L Vc kk (linspace 0 xm G.M) 1) (hestonBc G.M G.L Vp kk (linspace 0 xm G.M) (-1)) := by
      intro Vc Vp h
      exact par_hestonBc (by omega) (linspace_zero _ _ _) (by rw [linspace_last _ _ (by omega)]; linarith) h
    have hX0 : ∀ i, 0 ≤ linspace 0 xm G.M i := by
      intro i
      unfold linspace
      have : 0 ≤ (xm - 0) / G.M := div_nonneg (by linarith) (Nat.cast_nonneg _)
      positivity
    have hv0 : ∀ j, 0 ≤ linspace 0 vm G.L j := by
      intro i
      unfold linspace
      have : 0 ≤ (vm - 0) / G.L := div_nonneg (by linarith) (Nat.cast_nonneg _)
      positivity
    have hv1 : ∀ j ≤ G.L, linspace 0 vm G.L j ≤ vm := by
      intro j hj
      have hj' : (j : ℝ) ≤ G.L := by exact_mod_cast hj
      unfold linspace
      rw [zero_add, sub_zero, ← mul_div_assoc, div_le_iff₀ hLp, mul_comm]
      exact mul_le_mul_of_nonneg_left hj' hvp.le
    apply par_solveOne hM hL
    · rw [hg]; exact hbdd
    · rw [hg]
      intro Vc Vp dv dt hp
      apply hbdd
      intro i hi j hj
      have h0 := hp i hi 0 (by omega)
      have h1 := hp i hi 1 (by omega)
      beta_reduce
      split_ifs with a b
      · have : Vc i 1 - Vc i 0 = Vp i 1 - Vp i 0 := by linarith
        rw [this]
        linarith
      · rw [one_mul, neg_one_mul]; exact max_par _
      · exact hp i hi j hj
    · intro x y; rfl
    · intro j _ _
      apply pivS_ne hadt
      intro r _
      rw [hg]
      exact mul_nonneg (mul_nonneg (by norm_num) (hv0 _)) (rpow_nonneg (hX0 _) _)
    · rw [hg]
      apply pivV_ne hL hadt
      · intro r _
        exact mul_nonneg (mul_nonneg (by norm_num) (sq_nonneg _)) (hv0 _)
      · intro r hr
        simp only [Fd.hestonCev]
        have h1 := hv0 (r + 1)
        have h2 := hv1 (r + 1) (by omega)
        have hc : 0 ≤ 0.5 * h.vov ^ 2 * linspace 0 vm G.L (r + 1) / (vm / G.L) ^ 2 :=
          div_nonneg (mul_nonneg (mul_nonneg (by norm_num) (sq_nonneg _)) h1) (sq_nonneg _)
        have hd : |h.mr * (h.theta - linspace 0 vm G.L (r + 1)) / (2 * (vm / G.L))| ≤ h.mr * G.L / 2 := by
          rw [abs_div, abs_mul, abs_of_nonneg hmr, abs_of_pos (show 0 < 2 * (vm / G.L) by positivity), div_le_iff₀ (by positivity)]
          have : |h.theta - linspace 0 vm G.L (r + 1)| ≤ vm := by rw [abs_le]; constructor <;> linarith
          calc h.mr * |h.theta - linspace 0 vm G.L (r + 1)| ≤ h.mr * vm := mul_le_mul_of_nonneg_left this hmr
            _ = h.mr * G.L / 2 * (2 * (vm / G.L)) := by field_simp
        have e : 2 * (G.adiTheta * (texp / G.N)) * (h.mr * G.L / 2) < 1 := by
          have : 2 * (G.adiTheta * (texp / G.N)) * (h.mr * G.L / 2) = G.adiTheta * h.mr * texp * G.L / G.N := by field_simp
          rw [this, div_lt_one hN]
          exact hmesh
        refine lt_of_le_of_lt (mul_le_mul_of_nonneg_left ?_ (by linarith)) e
        linarith
    · rw [hg]; exact zero_le_one
    · rw [hg]; simp only; linarith
    · exact hs.le
    · rw [hg]; simp only; linarith
    · rw [hg]; exact hvp
  unfold Spec.Parity Fd.price
  have h' := key (strike / mp.fwd spot texp)
  rw [← mp.df_eq_spec, ← mp.forward_eq_spec, ← mp.fwd_eq_forward]
  simp only [show ∀ f t, (Fd.hestonCev h beta).getV0 f t = h.sigma from fun _ _ => rfl]
  rw [← mul_sub, h']
  field_simp

/-- The plain Heston pricer is the CEV pricer at `beta = 1`. -/
lemma heston_eq_cev (h : Heston) : Fd.heston h = Fd.hestonCev h 1 := by
  have e1 : (Fd.heston h).aS = (Fd.hestonCev h 1).aS := by
    funext X v
    simp only [Fd.heston, Fd.hestonCev]
    rw [mul_one, show (2 : ℝ) = ((2 : ℕ) : ℝ) by norm_num, rpow_natCast]
  have e2 : (Fd.heston h).gamma = (Fd.hestonCev h 1).gamma := by
    funext X v
    simp only [Fd.heston, Fd.hestonCev]
    rw [rpow_one]
  calc Fd.heston h = { Fd.hestonCev h 1 with aS := (Fd.heston h).aS, gamma := (Fd.heston h).gamma } := rfl
    _ = Fd.hestonCev h 1 := by rw [e1, e2]

/-- **C88**: Heston finite-difference prices satisfy put-call parity exactly. -/
theorem heston_fd_parity {h : Heston} (hs : 0 < h.sigma) (hmr : 0 ≤ h.mr) (hth0 : 0 ≤ h.theta) (hvov : 0 ≤ h.vov) {G : FdGrid}
    (hM : 2 ≤ G.M) (hL : 2 ≤ G.L) (hth : 0 ≤ G.adiTheta) (mp : MParams) {strike spot texp : ℝ} (hspot : 0 < spot) (ht : 0 ≤ texp)
    (hmesh : G.adiTheta * h.mr * texp * G.L < G.N) :
    Spec.Parity (Fd.price (Fd.heston h) G mp strike spot texp 1) (Fd.price (Fd.heston h) G mp strike spot texp (-1))
      (Spec.discount mp.intr texp) (Spec.forward mp.isFwd mp.intr mp.divr spot texp) strike := by
  rw [heston_eq_cev]
  exact heston_cev_fd_parity 1 hs hmr hth0 hvov hM hL hth mp hspot ht hmesh

lemma fwd_smul (mp : MParams) (l spot texp : ℝ) : mp.fwd (l * spot) texp = l * mp.fwd spot texp := by
  unfold MParams.fwd
  split_ifs
  · rfl
  · ring

lemma Fd.solveOne_getV0 (m : FdModel) (g : ℝ → ℝ → ℝ) (G : FdGrid) (kk v0 t c : ℝ) :
    solveOne { m with getV0 := g } G kk v0 t c = solveOne m G kk v0 t c := by
  have hl : ∀ (X v : ℕ → ℝ) (dX dv dt : ℝ) n V, loop { m with getV0 := g } G X v dX dv dt kk c n V = loop m G X v dX dv dt kk c n V := by
    intro X v dX dv dt n
    induction n with
    | zero => intro V; rfl
    | succ n ih => intro V; exact ih _
  unfold solveOne
  simp only [hl]

/-- **C88**, scaling: Heston finite-difference prices are homogeneous of degree one in strike and spot. -/
theorem heston_fd_homogeneous (h : Heston) (G : FdGrid) (mp : MParams) {l : ℝ} (hl : 0 < l) (strike spot texp cp : ℝ) :
    Fd.price (Fd.heston h) G mp (l * strike) (l * spot) texp cp = l * Fd.price (Fd.heston h) G mp strike spot texp cp := by
  have e : mp.fwd (l * spot) texp = l * mp.fwd spot texp := fwd_smul mp l spot texp
  unfold Fd.price
  simp only [e, mul_div_mul_left _ _ hl.ne', show ∀ f t, (Fd.heston h).getV0 f t = h.sigma from fun _ _ => rfl]
  ring

/-- **C88**, scaling: SABR finite-difference prices scale with strike, spot and `sigma * l ** (1 - beta)`. -/
theorem sabr_fd_homogeneous (sigma vov rho beta : ℝ) (G : FdGrid) (mp : MParams) {l : ℝ} (hl : 0 < l) {spot : ℝ} (hS : 0 < spot) (strike texp cp : ℝ) :
    Fd.price (Fd.sabr (sigma * l ^ (1 - beta)) vov rho beta) G mp (l * strike) (l * spot) texp cp
      = l * Fd.price (Fd.sabr sigma vov rho beta) G mp strike spot texp cp := by
  have e : mp.fwd (l * spot) texp = l * mp.fwd spot texp := fwd_smul mp l spot texp
  have hF := mp.fwd_pos hS texp
  have hp : 0 < l ^ (1 - beta) := rpow_pos_of_pos hl _
  have ev : sigma * l ^ (1 - beta) / (l * mp.fwd spot texp) ^ (1 - beta) = sigma / mp.fwd spot texp ^ (1 - beta) := by
    rw [mul_rpow hl.le hF.le]
    field_simp
  unfold Fd.price
  simp only [e, mul_div_mul_left _ _ hl.ne', show ∀ s f t, (Fd.sabr s vov rho beta).getV0 f t = s / f ^ (1 - beta) from fun _ _ _ => rfl, ev]
  have es : ∀ kk v0 t c s s', solveOne (Fd.sabr s vov rho beta) G kk v0 t c = solveOne (Fd.sabr s' vov rho beta) G kk v0 t c := fun kk v0 t c s s' =>
    Fd.solveOne_getV0 (Fd.sabr s' vov rho beta) (fun f _ => s / f ^ (1 - beta)) G kk v0 t c
  rw [es _ _ _ _ (sigma * l ^ (1 - beta)) sigma]
  ring

/-! ### C89: the discrete operator is the generator on quadratics -/

/-- Specification: the generator `Spec.Fd.gen` of a price/volatility diffusion with instantaneous covariance matrix `((xx, xv), (xv, vv))` and
volatility drift `bv`, applied to `a0 + a1 X + a2 v + a3 X² + a4 X v + a5 v²`. -/
noncomputable def Spec.genQuad (xx xv vv bv a2 a3 a4 a5 X v : ℝ) : ℝ :=
  1 / 2 * xx * (2 * a3) + xv * a4 + 1 / 2 * vv * (2 * a5) + bv * (a2 + a4 * X + 2 * a5 * v)

/-- The engine's explicit operator at interior nodes, on quadratics. -/
lemma fd_operator {M L : ℕ} {x0 dX dv : ℝ} (hdX : dX ≠ 0) (hdv : dv ≠ 0) (aS bS g : ℕ → ℕ → ℝ) (aV bV : ℕ → ℝ) (hb : ∀ i j, bS i j = 0)
    (a0 a1 a2 a3 a4 a5 : ℝ) {i j : ℕ} (hi : 1 ≤ i) (hiM : i < M) (hj : 1 ≤ j) (hjL : j < L)
    {X v : ℕ → ℝ} (hX : ∀ i, X i = x0 + i * dX) (hv : ∀ j, v j = j * dv)
    {V : ℕ → ℕ → ℝ} (hV : ∀ i j, V i j = a0 + a1 * X i + a2 * v j + a3 * X i ^ 2 + a4 * X i * v j + a5 * v j ^ 2) :
    Fd.F0 M L V g dX dv i j + Fd.F1 M V aS bS dX i j + Fd.F2 L V aV bV dv i j
      = Spec.genQuad (2 * aS i j) (g i j) (2 * aV j) (bV j) a2 a3 a4 a5 (X i) (v j) := by
  unfold Fd.F0 Fd.F1 Fd.F2 Spec.genQuad
  rw [if_pos ⟨hi, hiM, hj, hjL⟩, if_pos ⟨hi, hiM⟩, if_pos ⟨hj, hjL⟩]
  simp only [hb, hV, hX, hv]
  push_cast [Nat.cast_sub hi, Nat.cast_sub hj]
  field_simp
  ring

/-- **C89**: SABR, `dF = σ F^β dW`, `dσ = ν σ dZ`, correlation `ρ`, in the normalised coordinate `X = F/F₀`. -/
theorem sabr_fd_operator (sigma vov rho beta : ℝ) {M L : ℕ} {x0 dX dv : ℝ} (hdX : dX ≠ 0) (hdv : dv ≠ 0)
    (a0 a1 a2 a3 a4 a5 : ℝ) {i j : ℕ} (hi : 1 ≤ i) (hiM : i < M) (hj : 1 ≤ j) (hjL : j < L) {X v : ℕ → ℝ} (hX : ∀ i, X i = x0 + i * dX) (hv : ∀ j, v j = j * dv)
    (hXi : 0 ≤ X i) {V : ℕ → ℕ → ℝ} (hV : ∀ i j, V i j = a0 + a1 * X i + a2 * v j + a3 * X i ^ 2 + a4 * X i * v j + a5 * v j ^ 2) :
    let m := Fd.sabr sigma vov rho beta
    Fd.F0 M L V (fun i j => m.gamma (X i) (v j)) dX dv i j + Fd.F1 M V (fun i j => m.aS (X i) (v j)) (fun i j => m.bS (X i) (v j)) dX i j
        + Fd.F2 L V (fun j => m.aV (v j)) (fun j => m.bV (v j)) dv i j
      = Spec.genQuad ((v j * X i ^ beta) ^ 2) (rho * (v j * X i ^ beta) * (vov * v j)) ((vov * v j) ^ 2) 0 a2 a3 a4 a5 (X i) (v j) := by
  intro m
  have h2 : X i ^ (2 * beta) = (X i ^ beta) ^ 2 := by
    rw [mul_comm, rpow_mul hXi, show (2 : ℝ) = ((2 : ℕ) : ℝ) by norm_num, rpow_natCast]
  rw [fd_operator hdX hdv _ (fun i j => m.bS (X i) (v j)) _ _ _ (fun _ _ => rfl) a0 a1 a2 a3 a4 a5 hi hiM hj hjL hX hv hV]
  simp only [m, Fd.sabr, h2, Spec.genQuad]
  ring

/-- **C89**: CEV-Heston, `dX = √v X^β dW`, `dv = κ(θ - v) dt + ξ √v dZ`, in the normalised coordinate (see `heston_cev_fd_scale_wrong` for what
that means in price units when `β ≠ 1`). -/
theorem heston_cev_fd_operator (h : Heston) (beta : ℝ) {M L : ℕ} {x0 dX dv : ℝ} (hdX : dX ≠ 0) (hdv : 0 < dv)
    (a0 a1 a2 a3 a4 a5 : ℝ) {i j : ℕ} (hi : 1 ≤ i) (hiM : i < M) (hj : 1 ≤ j) (hjL : j < L) {X v : ℕ → ℝ} (hX : ∀ i, X i = x0 + i * dX) (hv : ∀ j, v j = j * dv)
    (hXi : 0 ≤ X i) {V : ℕ → ℕ → ℝ} (hV : ∀ i j, V i j = a0 + a1 * X i + a2 * v j + a3 * X i ^ 2 + a4 * X i * v j + a5 * v j ^ 2) :
    let m := Fd.hestonCev h beta
    Fd.F0 M L V (fun i j => m.gamma (X i) (v j)) dX dv i j + Fd.F1 M V (fun i j => m.aS (X i) (v j)) (fun i j => m.bS (X i) (v j)) dX i j
        + Fd.F2 L V (fun j => m.aV (v j)) (fun j => m.bV (v j)) dv i j
      = Spec.genQuad ((√(v j) * X i ^ beta) ^ 2) (h.rho * (√(v j) * X i ^ beta) * (h.vov * √(v j))) ((h.vov * √(v j)) ^ 2) (h.mr * (h.theta - v j))
          a2 a3 a4 a5 (X i) (v j) := by
  intro m
  have h2 : X i ^ (2 * beta) = (X i ^ beta) ^ 2 := by
    rw [mul_comm, rpow_mul hXi, show (2 : ℝ) = ((2 : ℕ) : ℝ) by norm_num, rpow_natCast]
  have hvj : 0 ≤ v j := by rw [hv]; positivity
  have hs : √(v j) ^ 2 = v j := sq_sqrt hvj
  rw [fd_operator hdX hdv.ne' _ (fun i j => m.bS (X i) (v j)) _ _ _ (fun _ _ => rfl) a0 a1 a2 a3 a4 a5 hi hiM hj hjL hX hv hV]
  simp only [m, Fd.hestonCev, h2, Spec.genQuad, mul_pow, hs]
  linear_combination (-(h.rho * X i ^ beta * h.vov * a4)) * hs

/-- **C89**: Heston, `dX = √v X dW`. -/
theorem heston_fd_operator (h : Heston) {M L : ℕ} {x0 dX dv : ℝ} (hdX : dX ≠ 0) (hdv : 0 < dv)
    (a0 a1 a2 a3 a4 a5 : ℝ) {i j : ℕ} (hi : 1 ≤ i) (hiM : i < M) (hj : 1 ≤ j) (hjL : j < L) {X v : ℕ → ℝ} (hX : ∀ i, X i = x0 + i * dX) (hv : ∀ j, v j = j * dv)
    (hXi : 0 ≤ X i) {V : ℕ → ℕ → ℝ} (hV : ∀ i j, V i j = a0 + a1 * X i + a2 * v j + a3 * X i ^ 2 + a4 * X i * v j + a5 * v j ^ 2) :
    let m := Fd.heston h
    Fd.F0 M L V (fun i j => m.gamma (X i) (v j)) dX dv i j + Fd.F1 M V (fun i j => m.aS (X i) (v j)) (fun i j => m.bS (X i) (v j)) dX i j
        + Fd.F2 L V (fun j => m.aV (v j)) (fun j => m.bV (v j)) dv i j
      = Spec.genQuad ((√(v j) * X i) ^ 2) (h.rho * (√(v j) * X i) * (h.vov * √(v j))) ((h.vov * √(v j)) ^ 2) (h.mr * (h.theta - v j))
          a2 a3 a4 a5 (X i) (v j) := by
  have := heston_cev_fd_operator h 1 hdX hdv a0 a1 a2 a3 a4 a5 hi hiM hj hjL hX hv hXi hV
  rw [rpow_one] at this
  rw [heston_eq_cev]
  exact this

/-- **C89**, disagreement with the documented dynamics `dS = √v S^β dW` (`pyfeng/sv_fin_diff.py` line 536): under them, quoting spot and strike in
another unit multiplies the diffusion coefficient of `S/F₀` by `F₀^(β-1)`, yet the CEV-Heston finite-difference price ignores the level of the
forward: prices are homogeneous of degree one in strike and spot for *every* `β`. -/
theorem heston_cev_fd_scale_wrong (h : Heston) (beta : ℝ) (G : FdGrid) (mp : MParams) {l : ℝ} (hl : 0 < l) (strike spot texp cp : ℝ) :
    Fd.price (Fd.hestonCev h beta) G mp (l * strike) (l * spot) texp cp = l * Fd.price (Fd.hestonCev h beta) G mp strike spot texp cp := by
  have e : mp.fwd (l * spot) texp = l * mp.fwd spot texp := fwd_smul mp l spot texp
  unfold Fd.price
  simp only [e, mul_div_mul_left _ _ hl.ne', show ∀ f t, (Fd.hestonCev h beta).getV0 f t = h.sigma from fun _ _ => rfl]
  ring

/-- **C88**, failure for `beta ≤ 0`: when the grid reaches below zero (high `sigma * sqrt(texp)`), the boundary row of the call and put grids differ
by `-kk` instead of `X_min - kk`, at every volatility node, so parity is lost at the boundary after every application of the boundary condition. -/
theorem sabr_fd_boundary_wrong {sigma vov rho beta : ℝ} (hb : beta ≤ 0) {G : FdGrid} (hM : 2 ≤ G.M) (hL : 2 ≤ G.L) {kk v0 texp : ℝ}
    (hlow : 1 < 5 * v0 * √(max texp 0)) (Vc Vp : ℕ → ℕ → ℝ) {j : ℕ} (hj : 1 ≤ j) (hjL : j < G.L) :
    let m := Fd.sabr sigma vov rho beta
    let X := Fd.linspace (m.gridBounds v0 kk texp).1 (m.gridBounds v0 kk texp).2.1 G.M
    m.bdd G.M G.L Vc kk X 1 0 j - m.bdd G.M G.L Vp kk X (-1) 0 j = -kk ∧ X 0 < 0 := by
  intro m X
  constructor
  · have e1 : m.bdd G.M G.L Vc kk X 1 0 j = 0 := by
      simp only [m, Fd.sabr, standardBc, if_neg (show ¬ j = G.L by omega), if_neg (show ¬ j = 0 by omega), if_neg (show ¬ 0 = G.M by omega)]
      norm_num
    have e2 : m.bdd G.M G.L Vp kk X (-1) 0 j = kk := by
      simp only [m, Fd.sabr, standardBc, if_neg (show ¬ j = G.L by omega), if_neg (show ¬ j = 0 by omega), if_neg (show ¬ 0 = G.M by omega)]
      norm_num
    rw [e1, e2, zero_sub]
  · simp only [X, Fd.linspace_zero, m, Fd.sabr, if_neg (not_lt.2 hb)]
    exact lt_of_le_of_lt (min_le_right _ _) (by linarith)

/-- The default engine settings (`adi_theta = 1/2`, `n_grid = (80, 80, 40)`) meet the mesh condition for `mr = 1.5`, one year. -/
example : (1 / 2 : ℝ) * 1.5 * 1 * (40 : ℕ) < (80 : ℕ) := by norm_num

end PyFENG
