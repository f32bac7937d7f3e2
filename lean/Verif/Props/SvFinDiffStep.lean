import Verif.Props.SvFinDiffParity

/-!
# C141: every time step of the finite-difference engine is a Douglas ADI step of the model's pricing equation
-/

namespace PyFENG

open Real

/-- Mixed, price and volatility parts of a generator `a_x ∂²/∂x² + γ ∂²/∂x∂v + a_v ∂²/∂v² + b_v ∂/∂v` with central differences on a uniform grid. -/
noncomputable def Spec.fdMixed (g : ℕ → ℕ → ℝ) (dX dv : ℝ) (U : ℕ → ℕ → ℝ) (i j : ℕ) : ℝ :=
  g i j * ((U (i + 1) (j + 1) - U (i + 1) (j - 1)) / (2 * dv) - (U (i - 1) (j + 1) - U (i - 1) (j - 1)) / (2 * dv)) / (2 * dX)

noncomputable def Spec.fdPrice (a : ℕ → ℕ → ℝ) (dX : ℝ) (U : ℕ → ℕ → ℝ) (i j : ℕ) : ℝ := a i j * (U (i + 1) j - 2 * U i j + U (i - 1) j) / dX ^ 2

noncomputable def Spec.fdVol (a b : ℕ → ℝ) (dv : ℝ) (U : ℕ → ℕ → ℝ) (i j : ℕ) : ℝ :=
  a j * (U i (j + 1) - 2 * U i j + U i (j - 1)) / dv ^ 2 + b j * ((U i (j + 1) - U i (j - 1)) / (2 * dv))

/-- Douglas splitting with weight `th` and step `dt` from `V` to `W` through the intermediate value `Y`: an explicit predictor with all three parts, then an
implicit correction in the price direction and one in the volatility direction, at every interior node. -/
def Spec.Douglas (M L : ℕ) (th dt : ℝ) (A0 A1 A2 : (ℕ → ℕ → ℝ) → ℕ → ℕ → ℝ) (V Y W : ℕ → ℕ → ℝ) : Prop :=
  ∀ i j, 1 ≤ i → i < M → 1 ≤ j → j < L →
    Y i j - th * dt * A1 Y i j = V i j + dt * (A0 V i j + A1 V i j + A2 V i j) - th * dt * A1 V i j ∧
    W i j - th * dt * A2 W i j = Y i j - th * dt * A2 V i j

/-- Boundary values of a call (`cp = 1`) or put (`cp = -1`) with strike `kk`: the payoff at the two price ends, no slope at the upper volatility end. -/
def Spec.FdBoundary (M L : ℕ) (X : ℕ → ℝ) (kk cp : ℝ) (U : ℕ → ℕ → ℝ) : Prop :=
  (∀ j, 1 ≤ j → j ≤ L → U 0 j = max (cp * (0 - kk)) 0 ∧ U M j = max (cp * (X M - kk)) 0) ∧ ∀ i, 1 ≤ i → i < M → U i L = U i (L - 1)

namespace Fd

variable {m : FdModel} {G : FdGrid} {X : ℕ → ℝ} {kk cp : ℝ}

/-- What the sweeps need from a boundary routine. -/
structure BddOk (m : FdModel) (M L : ℕ) (X : ℕ → ℝ) (kk cp : ℝ) : Prop where
  inner : ∀ V i j, 1 ≤ i → i < M → 1 ≤ j → j < L → m.bdd M L V kk X cp i j = V i j
  ends : ∀ V W j, 1 ≤ j → j < L → m.bdd M L V kk X cp 0 j = m.bdd M L W kk X cp 0 j ∧ m.bdd M L V kk X cp M j = m.bdd M L W kk X cp M j
  low : ∀ V W i, 1 ≤ i → i < M → W i 0 = m.bdd M L V kk X cp i 0 → m.bdd M L W kk X cp i 0 = W i 0
  top : ∀ V i, 1 ≤ i → i < M → m.bdd M L V kk X cp i L = V i (L - 1)

lemma solveS_eq (hM2 : 2 ≤ G.M) (hb : BddOk m G.M G.L X kk cp) {rhs : ℕ → ℕ → ℝ} {adt dX : ℝ} {aS bS : ℕ → ℕ → ℝ} (hb0 : ∀ i j, bS i j = 0)
    (hd : ∀ j, 1 ≤ j → j < G.L → ∀ r < G.M - 1, pivS adt aS dX r j ≠ 0) {i j : ℕ} (h1 : 1 ≤ i) (h2 : i < G.M) (h3 : 1 ≤ j) (h4 : j < G.L) :
    solveS m G rhs adt aS bS dX X kk cp i j - adt * Spec.fdPrice aS dX (solveS m G rhs adt aS bS dX X kk cp) i j = rhs i j := by
  set Y := m.bdd G.M G.L rhs kk X cp with hY
  set R : ℕ → ℝ := fun r => if r = G.M - 2 then (if r = 0 then rhs (r + 1) j - -adt * (aS (0 + 1) j / dX ^ 2) * Y 0 j else rhs (r + 1) j) -
        -adt * (aS (G.M - 2 + 1) j / dX ^ 2) * Y G.M j else (if r = 0 then rhs (r + 1) j - -adt * (aS (0 + 1) j / dX ^ 2) * Y 0 j else rhs (r + 1) j) with hR
  have hT := Thomas.thomas_solves (n := G.M - 1) (rhs := R) (hd j h3 h4) (i - 1) (by omega)
  set s := Thomas.solve (G.M - 1) (fun r => -adt * (aS (r + 1) j / dX ^ 2)) (fun r => 1 + adt * 2 * (aS (r + 1) j / dX ^ 2)) (fun r => -adt * (aS (r + 1) j / dX ^ 2)) R with hs
  have hin : ∀ i, 1 ≤ i → i < G.M → solveS m G rhs adt aS bS dX X kk cp i j = s (i - 1) := fun i a b => by
    unfold solveS
    simp only [hb0, zero_div, sub_zero, add_zero]
    rw [hb.inner _ _ _ a b h3 h4, if_pos ⟨a, b, h3, h4⟩]
  have hlo : solveS m G rhs adt aS bS dX X kk cp 0 j = Y 0 j := (hb.ends _ _ j h3 h4).1
  have hhi : solveS m G rhs adt aS bS dX X kk cp G.M j = Y G.M j := (hb.ends _ _ j h3 h4).2
  unfold Spec.fdPrice
  rw [hin i h1 h2]
  obtain ⟨r, rfl⟩ : ∃ r, i = r + 1 := ⟨i - 1, by omega⟩
  simp only [Nat.add_sub_cancel] at hT ⊢
  have e1 : (if r = 0 then 0 else -adt * (aS (r + 1) j / dX ^ 2) * s (r - 1)) = -adt * (aS (r + 1) j / dX ^ 2) * solveS m G rhs adt aS bS dX X kk cp r j + (if r = 0 then adt * (aS (r + 1) j / dX ^ 2) * Y 0 j else 0) := by
    split_ifs with h
    · subst h; rw [hlo]; ring
    · rw [hin r (by omega) (by omega)]; ring
  have e2 : (if r + 1 = G.M - 1 then 0 else -adt * (aS (r + 1) j / dX ^ 2) * s (r + 1)) = -adt * (aS (r + 1) j / dX ^ 2) * solveS m G rhs adt aS bS dX X kk cp (r + 1 + 1) j + (if r + 1 = G.M - 1 then adt * (aS (r + 1) j / dX ^ 2) * Y G.M j else 0) := by
    split_ifs with h
    · rw [show r + 1 + 1 = G.M by omega, hhi]; ring
    · rw [hin (r + 1 + 1) (by omega) (by omega)]; simp
  have e3 : R r = rhs (r + 1) j + (if r = 0 then adt * (aS (r + 1) j / dX ^ 2) * Y 0 j else 0) + (if r + 1 = G.M - 1 then adt * (aS (r + 1) j / dX ^ 2) * Y G.M j else 0) := by
    rw [hR]
    by_cases a : r = G.M - 2 <;> by_cases b : r = 0
    · simp only [if_pos a, if_pos b, if_pos (show r + 1 = G.M - 1 by omega), ← a, if_true]; rw [b]; ring
    · simp only [if_pos a, if_neg b, if_pos (show r + 1 = G.M - 1 by omega), ← a, if_true]; ring
    · simp only [if_neg a, if_pos b, if_neg (show ¬ r + 1 = G.M - 1 by omega)]; rw [b]; ring
    · simp only [if_neg a, if_neg b, if_neg (show ¬ r + 1 = G.M - 1 by omega)]; ring
  rw [e1, e2, e3] at hT
  linear_combination hT

lemma solveV_eq (hL2 : 2 ≤ G.L) (hb : BddOk m G.M G.L X kk cp) {rhs : ℕ → ℕ → ℝ} {adt dv : ℝ} {aV bV : ℕ → ℝ}
    (hd : ∀ r < G.L - 1, pivV G.L adt aV bV dv r ≠ 0) {i j : ℕ} (h1 : 1 ≤ i) (h2 : i < G.M) (h3 : 1 ≤ j) (h4 : j < G.L) :
    solveV m G rhs adt aV bV dv X kk cp i j - adt * Spec.fdVol aV bV dv (solveV m G rhs adt aV bV dv X kk cp) i j = rhs i j := by
  set Y := m.bdd G.M G.L rhs kk X cp with hY
  set R : ℕ → ℝ := fun r => if r = 0 then rhs i (r + 1) - -adt * (aV (0 + 1) / dv ^ 2 - bV (0 + 1) / (2 * dv)) * Y i 0 else rhs i (r + 1) with hR
  have hT := Thomas.thomas_solves (n := G.L - 1) (rhs := R) hd (j - 1) (by omega)
  set s := Thomas.solve (G.L - 1) _ _ _ R with hs
  have hin : ∀ j, 1 ≤ j → j < G.L → solveV m G rhs adt aV bV dv X kk cp i j = s (j - 1) := fun j a b => by
    unfold solveV
    simp only
    rw [hb.inner _ _ _ h1 h2 a b, if_neg (by omega), if_pos ⟨a, b⟩]
  have hlo : solveV m G rhs adt aV bV dv X kk cp i 0 = Y i 0 := by
    unfold solveV
    simp only
    rw [hb.low rhs _ i h1 h2]
    · rw [if_neg (by omega), if_neg (by omega)]
    · rw [if_neg (by omega), if_neg (by omega)]
  have hhi : solveV m G rhs adt aV bV dv X kk cp i G.L = solveV m G rhs adt aV bV dv X kk cp i (G.L - 1) := by
    rw [hin (G.L - 1) (by omega) (by omega)]
    unfold solveV
    simp only
    rw [hb.top _ i h1 h2, if_neg (by omega), if_pos ⟨by omega, by omega⟩]
  unfold Spec.fdVol
  rw [hin j h3 h4]
  obtain ⟨r, rfl⟩ : ∃ r, j = r + 1 := ⟨j - 1, by omega⟩
  simp only [Nat.add_sub_cancel] at hT ⊢
  generalize hc : aV (r + 1) / dv ^ 2 = c at *
  generalize hdd : bV (r + 1) / (2 * dv) = d at *
  have e1 : (if r = 0 then 0 else -adt * (c - d) * s (r - 1)) = -adt * (c - d) * solveV m G rhs adt aV bV dv X kk cp i r + (if r = 0 then adt * (c - d) * Y i 0 else 0) := by
    split_ifs with h
    · subst h; rw [hlo]; ring
    · rw [hin r (by omega) (by omega)]; ring
  have e2 : (if r + 1 = G.L - 1 then 0 else -adt * (c + d) * s (r + 1)) = -adt * (c + d) * solveV m G rhs adt aV bV dv X kk cp i (r + 1 + 1) + (if r + 1 = G.L - 1 then adt * (c + d) * s r else 0) := by
    split_ifs with h
    · rw [show r + 1 + 1 = G.L by omega, hhi, hin (G.L - 1) (by omega) (by omega), show G.L - 1 - 1 = r by omega]; ring
    · rw [hin (r + 1 + 1) (by omega) (by omega)]; simp
  have e3 : R r = rhs i (r + 1) + (if r = 0 then adt * (c - d) * Y i 0 else 0) := by
    rw [hR]
    by_cases b : r = 0
    · subst b; simp only [if_true, hc, hdd]; ring
    · simp only [if_neg b]; ring
  have e4 : (if r = G.L - 2 then 1 + adt * 2 * c + -adt * (c + d) else 1 + adt * 2 * c) = 1 + adt * 2 * c + (if r + 1 = G.L - 1 then -adt * (c + d) else 0) := by
    by_cases a : r = G.L - 2
    · rw [if_pos a, if_pos (by omega)]
    · rw [if_neg a, if_neg (by omega), add_zero]
  rw [e1, e2, e3, e4] at hT
  have e5 : aV (r + 1) * (solveV m G rhs adt aV bV dv X kk cp i (r + 1 + 1) - 2 * s r + solveV m G rhs adt aV bV dv X kk cp i r) / dv ^ 2 = c * (solveV m G rhs adt aV bV dv X kk cp i (r + 1 + 1) - 2 * s r + solveV m G rhs adt aV bV dv X kk cp i r) := by
    rw [← hc]; ring
  have e6 : bV (r + 1) * ((solveV m G rhs adt aV bV dv X kk cp i (r + 1 + 1) - solveV m G rhs adt aV bV dv X kk cp i r) / (2 * dv)) = d * (solveV m G rhs adt aV bV dv X kk cp i (r + 1 + 1) - solveV m G rhs adt aV bV dv X kk cp i r) := by
    rw [← hdd]; ring
  rw [e5, e6]
  split_ifs at hT <;> linear_combination hT

lemma step_douglas (hM2 : 2 ≤ G.M) (hL2 : 2 ≤ G.L) (hb : BddOk m G.M G.L X kk cp) (hb0 : ∀ x y, m.bS x y = 0) {v : ℕ → ℝ} {dX dv dt : ℝ}
    (hS : ∀ j, 1 ≤ j → j < G.L → ∀ r < G.M - 1, pivS (G.adiTheta * dt) (fun i j => m.aS (X i) (v j)) dX r j ≠ 0)
    (hV : ∀ r < G.L - 1, pivV G.L (G.adiTheta * dt) (fun j => m.aV (v j)) (fun j => m.bV (v j)) dv r ≠ 0) (V : ℕ → ℕ → ℝ) :
    ∃ Y0 Y1, Spec.Douglas G.M G.L G.adiTheta dt (Spec.fdMixed (fun i j => m.gamma (X i) (v j)) dX dv) (Spec.fdPrice (fun i j => m.aS (X i) (v j)) dX)
      (Spec.fdVol (fun j => m.aV (v j)) (fun j => m.bV (v j)) dv) V (m.bdd G.M G.L Y0 kk X cp) (m.bdd G.M G.L Y1 kk X cp) ∧
      step m G V X v dX dv dt kk cp = m.bdd G.M G.L Y1 kk X cp := by
  unfold step
  set F0V := F0 G.M G.L V (fun i j => m.gamma (X i) (v j)) dX dv with hF0
  set F1V := F1 G.M V (fun i j => m.aS (X i) (v j)) (fun i j => m.bS (X i) (v j)) dX with hF1
  set F2V := F2 G.L V (fun j => m.aV (v j)) (fun j => m.bV (v j)) dv with hF2
  set P := m.bdd G.M G.L (fun i j => V i j + dt * (F0V i j + F1V i j + F2V i j)) kk X cp with hP
  set Y := solveS m G (fun i j => P i j - G.adiTheta * dt * F1V i j) (G.adiTheta * dt) (fun i j => m.aS (X i) (v j)) (fun i j => m.bS (X i) (v j)) dX X kk cp with hY
  set W := solveV m G (fun i j => Y i j - G.adiTheta * dt * F2V i j) (G.adiTheta * dt) (fun j => m.aV (v j)) (fun j => m.bV (v j)) dv X kk cp with hW
  obtain ⟨Y0, hY0⟩ : ∃ Y0, Y = m.bdd G.M G.L Y0 kk X cp := ⟨_, rfl⟩
  obtain ⟨W0, hW0⟩ : ∃ W0, W = m.bdd G.M G.L W0 kk X cp := ⟨_, rfl⟩
  refine ⟨Y0, W0, ?_, hW0⟩
  rw [← hY0, ← hW0]
  intro i j h1 h2 h3 h4
  have a0 : F0V i j = Spec.fdMixed (fun i j => m.gamma (X i) (v j)) dX dv V i j := by
    rw [hF0]; unfold F0 Spec.fdMixed; rw [if_pos ⟨h1, h2, h3, h4⟩]
    rw [← sub_div, mul_div_assoc', div_div, show 2 * dv * (2 * dX) = 4 * dX * dv by ring]
    congr 2; ring
  have a1 : F1V i j = Spec.fdPrice (fun i j => m.aS (X i) (v j)) dX V i j := by
    rw [hF1]; unfold F1 Spec.fdPrice; rw [if_pos ⟨h1, h2⟩]; simp only [hb0]; ring
  have a2 : F2V i j = Spec.fdVol (fun j => m.aV (v j)) (fun j => m.bV (v j)) dv V i j := by
    rw [hF2]; unfold F2 Spec.fdVol; rw [if_pos ⟨h3, h4⟩]; ring
  have e1 := solveS_eq hM2 hb (rhs := fun i j => P i j - G.adiTheta * dt * F1V i j) (fun i j => hb0 (X i) (v j)) hS h1 h2 h3 h4
  have e2 := solveV_eq hL2 hb (rhs := fun i j => Y i j - G.adiTheta * dt * F2V i j) hV h1 h2 h3 h4
  refine ⟨?_, ?_⟩
  · rw [e1]
    rw [hP, hb.inner _ _ _ h1 h2 h3 h4, a0, a1, a2]
  · rw [e2]
    rw [a2]

lemma standardBc_ok {M L : ℕ} (hL : 2 ≤ L) (m : FdModel) (hm : m.bdd = fun M L V kk X cp => standardBc M L V kk X cp) : BddOk m M L X kk cp := by
  constructor
  · intro V i j a b c d
    rw [hm]; simp only [standardBc]
    rw [if_neg (by omega), if_neg (by omega), if_neg (by omega), if_neg (by omega)]
  · intro V W j c d
    rw [hm]; simp only [standardBc]
    constructor
    · simp only [if_neg (show ¬ j = L by omega), if_neg (show ¬ j = 0 by omega), if_true]
    · simp only [if_neg (show ¬ j = L by omega), if_neg (show ¬ j = 0 by omega), if_true]
  · intro V W i a b h
    rw [hm] at h ⊢; simp only [standardBc] at h ⊢
    rw [if_neg (by omega), if_true] at h ⊢
    exact h.symm
  · intro V i a b
    rw [hm]; simp only [standardBc]
    rw [if_true, if_neg (by omega), if_neg (by omega), if_neg (by omega)]

lemma hestonBc_ok {M L : ℕ} (hL : 2 ≤ L) (m : FdModel) (hm : m.bdd = fun M L V kk X cp => hestonBc M L V kk X cp) : BddOk m M L X kk cp := by
  constructor
  · intro V i j a b c d
    rw [hm]; simp only [hestonBc]
    rw [if_neg (by omega), if_neg (by omega), if_neg (by omega)]
  · intro V W j c d
    rw [hm]; simp only [hestonBc]
    constructor
    · simp only [if_neg (show ¬ j = L by omega), if_true]
    · simp only [if_neg (show ¬ j = L by omega), if_true]
  · intro V W i a b h
    rw [hm] at h ⊢; simp only [hestonBc] at h ⊢
    rw [if_neg (by omega), if_neg (by omega), if_neg (by omega)]
  · intro V i a b
    rw [hm]; simp only [hestonBc]
    rw [if_true, if_neg (by omega), if_neg (by omega)]

lemma solveV_zero (hL2 : 2 ≤ G.L) (hb : BddOk m G.M G.L X kk cp) (rhs : ℕ → ℕ → ℝ) (adt dv : ℝ) (aV bV : ℕ → ℝ) {i : ℕ} (h1 : 1 ≤ i) (h2 : i < G.M) :
    solveV m G rhs adt aV bV dv X kk cp i 0 = m.bdd G.M G.L rhs kk X cp i 0 := by
  unfold solveV
  simp only
  rw [hb.low rhs _ i h1 h2]
  · rw [if_neg (by omega), if_neg (by omega)]
  · rw [if_neg (by omega), if_neg (by omega)]

lemma standardBc_boundary {M L : ℕ} (hM : 2 ≤ M) (hL : 2 ≤ L) (hk : 0 ≤ kk) (hX : kk ≤ X M) (hcp : cp = 1 ∨ cp = -1) (V : ℕ → ℕ → ℝ) :
    Spec.FdBoundary M L X kk cp (standardBc M L V kk X cp) ∧ ∀ i, 1 ≤ i → i < M → standardBc M L V kk X cp i 0 = max (cp * (X i - kk)) 0 := by
  have n1 : ¬ (0 : ℕ) = M := by omega
  have n2 : ¬ M = 0 := by omega
  have n3 : ¬ L - 1 = 0 := by omega
  refine ⟨⟨fun j h1 h2 => ?_, fun i h1 h2 => ?_⟩, fun i h1 h2 => ?_⟩
  · have n4 : ¬ j = 0 := by omega
    simp only [standardBc]
    rcases hcp with rfl | rfl
    · norm_num [n1, n2, n3, n4, hk]
    · norm_num [n1, n2, n3, n4, hk, hX]
  · simp only [standardBc]
    rw [if_true, if_neg (show ¬ L - 1 = L by omega)]
  · simp only [standardBc]
    rw [if_neg (by omega), if_true]
    rcases hcp with rfl | rfl
    · norm_num
    · norm_num

lemma hestonBc_boundary {M L : ℕ} (hM : 2 ≤ M) (hL : 2 ≤ L) (hk : 0 ≤ kk) (hX : kk ≤ X M) (hcp : cp = 1 ∨ cp = -1) (V : ℕ → ℕ → ℝ) :
    Spec.FdBoundary M L X kk cp (hestonBc M L V kk X cp) := by
  have n1 : ¬ (0 : ℕ) = M := by omega
  have n2 : ¬ M = 0 := by omega
  refine ⟨fun j h1 h2 => ?_, fun i h1 h2 => ?_⟩
  · simp only [hestonBc]
    rcases hcp with rfl | rfl
    · norm_num [n1, n2, hk]
    · norm_num [n1, n2, hk, hX]
  · simp only [hestonBc]
    rw [if_true, if_neg (show ¬ L - 1 = L by omega)]

/-- A time step of the Heston type keeps the values on the edge `v = 0` that the pre-step put there. -/
lemma heston_step_zero (h : Heston) (beta : ℝ) (hL2 : 2 ≤ G.L) (V : ℕ → ℕ → ℝ) {v : ℕ → ℝ} (hv : v 0 = 0) (dX dv dt : ℝ) {i : ℕ} (h1 : 1 ≤ i) (h2 : i < G.M) :
    step (hestonCev h beta) G V X v dX dv dt kk cp i 0 = V i 0 := by
  have hb : BddOk (hestonCev h beta) G.M G.L X kk cp := hestonBc_ok hL2 _ rfl
  have e : ∀ U : ℕ → ℕ → ℝ, (hestonCev h beta).bdd G.M G.L U kk X cp i 0 = U i 0 := fun U => by
    change hestonBc _ _ _ _ _ _ _ _ = _
    simp only [hestonBc]
    rw [if_neg (by omega), if_neg (by omega), if_neg (by omega)]
  have f1 : F1 G.M V (fun i j => (hestonCev h beta).aS (X i) (v j)) (fun i j => (hestonCev h beta).bS (X i) (v j)) dX i 0 = 0 := by
    unfold F1
    simp only [hestonCev, hv]
    split_ifs <;> ring
  unfold step
  rw [solveV_zero hL2 hb _ _ _ _ _ h1 h2, e]
  unfold F2
  rw [if_neg (by omega), mul_zero, sub_zero]
  unfold solveS
  simp only
  rw [e, if_neg (by omega), e, e, f1]
  unfold F0
  simp

lemma loop_succ (m : FdModel) (G : FdGrid) (X v : ℕ → ℝ) (dX dv dt kk cp : ℝ) (n : ℕ) (V : ℕ → ℕ → ℝ) :
    loop m G X v dX dv dt kk cp (n + 1) V = step m G (m.preStep G.M G.L (loop m G X v dX dv dt kk cp n V) X dv dt kk cp) X v dX dv dt kk cp := by
  induction n generalizing V with
  | zero => rfl
  | succ n ih => exact ih _

end Fd

open Fd

/-- **C141 (SABR).** `SabrFinDiff.price` is the discounted forward times the bilinear interpolation, at `(1, v0)`, of the last of `N` Douglas steps of the
SABR pricing equation `U_t = ½ v² x^{2β} U_xx + ρ ν v² x^β U_xv + ½ ν² v² U_vv` in units of the forward, started at the payoff, with payoff boundary values at the two price ends and on `v = 0`. -/
theorem sabr_fd_scheme {sigma vov rho beta : ℝ} (hb : 0 < beta) (hs : 0 ≤ sigma) {G : FdGrid} (hM : 2 ≤ G.M) (hL : 2 ≤ G.L) (hth : 0 ≤ G.adiTheta)
    (mp : MParams) {strike spot texp cp : ℝ} (hK : 0 ≤ strike) (hspot : 0 < spot) (ht : 0 ≤ texp) (hcp : Spec.IsCp cp) :
    let F := Spec.forward mp.isFwd mp.intr mp.divr spot texp
    let kk := strike / F
    ∃ (xMax vMax : ℝ) (U : ℕ → ℕ → ℕ → ℝ), 4 * max 1 kk ≤ xMax ∧ 1 ≤ vMax ∧ 5 * (sigma / F ^ (1 - beta)) ≤ vMax ∧
      let X : ℕ → ℝ := fun i => i * (xMax / G.M)
      let v : ℕ → ℝ := fun j => j * (vMax / G.L)
      (∀ i j, 1 ≤ i → i < G.M → 1 ≤ j → j < G.L → U 0 i j = max (cp * (X i - kk)) 0) ∧
      (∀ n < G.N, ∃ Y, Spec.FdBoundary G.M G.L X kk cp Y ∧
        Spec.Douglas G.M G.L G.adiTheta (texp / G.N) (Spec.fdMixed (fun i j => rho * vov * v j ^ 2 * X i ^ beta) (xMax / G.M) (vMax / G.L))
          (Spec.fdPrice (fun i j => v j ^ 2 * X i ^ (2 * beta) / 2) (xMax / G.M)) (Spec.fdVol (fun j => vov ^ 2 * v j ^ 2 / 2) (fun _ => 0) (vMax / G.L))
          (U n) Y (U (n + 1))) ∧
      (∀ n ≤ G.N, Spec.FdBoundary G.M G.L X kk cp (U n) ∧ ∀ i, 1 ≤ i → i < G.M → U n i 0 = max (cp * (X i - kk)) 0) ∧
      Fd.price (Fd.sabr sigma vov rho beta) G mp strike spot texp cp
        = Spec.discount mp.intr texp * F * bilinear (U G.N) X v (G.M + 1) (G.L + 1) 1 (sigma / F ^ (1 - beta)) := by
  intro F kk
  have hF : 0 < F := by
    have := mp.fwd_pos hspot texp
    rwa [mp.fwd_eq_forward, mp.forward_eq_spec] at this
  have hkk : 0 ≤ kk := div_nonneg hK hF.le
  set v0 := sigma / F ^ (1 - beta) with hv0d
  have hv0 : 0 ≤ v0 := div_nonneg hs (rpow_nonneg hF.le _)
  set xm := max (4 * max 1 kk) (max 1 kk + 5 * v0 * (max 1 kk ^ beta) * √(max texp 0)) with hxm
  set vm := max (max 1 (5 * v0)) (v0 * (1 + 4 * vov * √(max texp 0))) with hvm
  have hx4 : 4 * max 1 kk ≤ xm := le_max_left _ _
  have hxr : 1 ≤ max 1 kk := le_max_left _ _
  have hxk : kk ≤ max 1 kk := le_max_right _ _
  have hv1 : max 1 (5 * v0) ≤ vm := le_max_left _ _
  have hadt : 0 ≤ G.adiTheta * (texp / G.N) := by positivity
  have hM0 : (0 : ℝ) < G.M := by exact_mod_cast (by omega : 0 < G.M)
  set X : ℕ → ℝ := fun i => i * (xm / G.M) with hX
  set v : ℕ → ℝ := fun j => j * (vm / G.L) with hv
  have eX : linspace 0 xm G.M = X := by funext i; simp only [linspace, hX]; ring
  have ev : linspace 0 vm G.L = v := by funext i; simp only [linspace, hv]; ring
  have hX0 : ∀ i, 0 ≤ X i := fun i => mul_nonneg (Nat.cast_nonneg _) (div_nonneg (by linarith) hM0.le)
  have hXM : X G.M = xm := by simp only [hX]; field_simp
  have hg : (Fd.sabr sigma vov rho beta).gridBounds v0 kk texp = (0, xm, vm) := by
    simp only [Fd.sabr, if_pos hb, hxm, hvm]
  set V0 : ℕ → ℕ → ℝ := standardBc G.M G.L (fun i _ => max (cp * (X i - kk)) 0) kk X cp with hV0
  have hbok : BddOk (Fd.sabr sigma vov rho beta) G.M G.L X kk cp := standardBc_ok hL _ rfl
  have hbnd := fun V => standardBc_boundary (X := X) hM hL hkk (by rw [hXM]; linarith) hcp V
  set U : ℕ → ℕ → ℕ → ℝ := fun n => loop (Fd.sabr sigma vov rho beta) G X v (xm / G.M) (vm / G.L) (texp / G.N) kk cp n V0 with hU
  have hUs : ∀ n, U (n + 1) = step (Fd.sabr sigma vov rho beta) G (U n) X v (xm / G.M) (vm / G.L) (texp / G.N) kk cp :=
    fun n => by rw [hU]; exact loop_succ _ _ _ _ _ _ _ _ _ _ _
  have hloop : ∀ n, ∃ W, U n = standardBc G.M G.L W kk X cp := fun n => by
    cases n with
    | zero => exact ⟨_, rfl⟩
    | succ n => rw [hUs]; exact ⟨_, rfl⟩
  refine ⟨xm, vm, U, hx4, (le_max_left _ _).trans hv1, (le_max_right _ _).trans hv1, ?_, ?_, ?_, ?_⟩
  · intro i j a b c d
    exact hbok.inner (fun i _ => max (cp * (X i - kk)) 0) i j a b c d
  · intro n _
    obtain ⟨Y0, Y1, hD, hW⟩ := step_douglas hM hL hbok (fun _ _ => rfl) (v := v) (dX := xm / G.M) (dv := vm / G.L) (dt := texp / G.N)
      (fun j _ _ => pivS_ne hadt fun r _ => by
        simp only [Fd.sabr]
        have := rpow_nonneg (hX0 (r + 1)) (2 * beta)
        positivity)
      (pivV_ne hL hadt (fun r _ => by simp only [Fd.sabr]; positivity) (fun r _ => by
        simp only [Fd.sabr, zero_div, abs_zero, zero_sub]
        refine lt_of_le_of_lt (mul_nonpos_of_nonneg_of_nonpos (by linarith) ?_) one_pos
        rw [neg_nonpos]
        positivity))
      (U n)
    refine ⟨_, (hbnd Y0).1, ?_⟩
    rw [hUs, hW]
    have ea : (fun i j => v j ^ 2 * X i ^ (2 * beta) / 2) = fun i j => (Fd.sabr sigma vov rho beta).aS (X i) (v j) := by
      funext i j; simp only [Fd.sabr]; norm_num; ring
    have eb : (fun j => vov ^ 2 * v j ^ 2 / 2) = fun j => (Fd.sabr sigma vov rho beta).aV (v j) := by
      funext j; simp only [Fd.sabr]; norm_num; ring
    rw [ea, eb]
    exact hD
  · intro n _
    obtain ⟨W, hW⟩ := hloop n
    rw [hW]
    exact hbnd W
  · unfold Fd.price solveOne
    have e1 : mp.fwd spot texp = F := by rw [mp.fwd_eq_forward, mp.forward_eq_spec]
    simp only [e1, show ∀ f t, (Fd.sabr sigma vov rho beta).getV0 f t = sigma / f ^ (1 - beta) from fun _ _ => rfl]
    rw [← hv0d, hg, mp.df_eq_spec]
    simp only [eX, ev, sub_zero]
    rfl

/-- **C141 (CEV-Heston).** The same for `HestonCevFinDiff`: the equation is `U_t = ½ v x^{2β} U_xx + ρ ν v x^β U_xv + ½ ν² v U_vv + κ(θ - v) U_v`; before each step the edge `v = 0` is advanced by the
degenerate equation `U_t = κ θ U_v` (one-sided difference) if the Feller condition fails and reset to the payoff otherwise, and the step leaves that edge unchanged. -/
theorem heston_cev_fd_scheme {h : Heston} (beta : ℝ) (hs : 0 < h.sigma) (hmr : 0 ≤ h.mr) (hth0 : 0 ≤ h.theta) (hvov : 0 ≤ h.vov) {G : FdGrid}
    (hM : 2 ≤ G.M) (hL : 2 ≤ G.L) (hth : 0 ≤ G.adiTheta) (mp : MParams) {strike spot texp cp : ℝ} (hK : 0 ≤ strike) (hspot : 0 < spot) (ht : 0 ≤ texp) (hcp : Spec.IsCp cp)
    (hmesh : G.adiTheta * h.mr * texp * G.L < G.N) :
    let F := Spec.forward mp.isFwd mp.intr mp.divr spot texp
    let kk := strike / F
    ∃ (xMax vMax : ℝ) (U Z : ℕ → ℕ → ℕ → ℝ), 4 * max 1 kk ≤ xMax ∧ 5 * h.sigma ≤ vMax ∧ h.theta ≤ vMax ∧
      let X : ℕ → ℝ := fun i => i * (xMax / G.M)
      let v : ℕ → ℝ := fun j => j * (vMax / G.L)
      (∀ i j, 1 ≤ i → i < G.M → j < G.L → U 0 i j = max (cp * (X i - kk)) 0) ∧
      (∀ n < G.N, (∀ i j, 1 ≤ i → i < G.M → 1 ≤ j → j < G.L → Z n i j = U n i j) ∧
        (∀ i, 1 ≤ i → i < G.M → Z n i 0 = if 2 * h.mr * h.theta < h.vov ^ 2 then U n i 0 + texp / G.N * (h.mr * h.theta * ((U n i 1 - U n i 0) / (vMax / G.L))) else max (cp * (X i - kk)) 0) ∧
        (∀ i, 1 ≤ i → i < G.M → U (n + 1) i 0 = Z n i 0) ∧ Spec.FdBoundary G.M G.L X kk cp (Z n) ∧
        ∃ Y, Spec.FdBoundary G.M G.L X kk cp Y ∧
        Spec.Douglas G.M G.L G.adiTheta (texp / G.N) (Spec.fdMixed (fun i j => h.rho * h.vov * v j * X i ^ beta) (xMax / G.M) (vMax / G.L))
          (Spec.fdPrice (fun i j => v j * X i ^ (2 * beta) / 2) (xMax / G.M)) (Spec.fdVol (fun j => h.vov ^ 2 * v j / 2) (fun j => h.mr * (h.theta - v j)) (vMax / G.L))
          (Z n) Y (U (n + 1))) ∧
      (∀ n ≤ G.N, Spec.FdBoundary G.M G.L X kk cp (U n)) ∧
      Fd.price (Fd.hestonCev h beta) G mp strike spot texp cp
        = Spec.discount mp.intr texp * F * bilinear (U G.N) X v (G.M + 1) (G.L + 1) 1 h.sigma := by
  intro F kk
  have hF : 0 < F := by
    have := mp.fwd_pos hspot texp
    rwa [mp.fwd_eq_forward, mp.forward_eq_spec] at this
  have hkk : 0 ≤ kk := div_nonneg hK hF.le
  obtain ⟨xm, hxm⟩ : ∃ xm, xm = max (4 * max 1 kk) (1 + 5 * √(h.sigma * max texp 0)) := ⟨_, rfl⟩
  obtain ⟨vm, hvm⟩ : ∃ vm, vm = max (5 * h.sigma) (h.theta + 5 * (h.vov * √(max h.theta 1e-8 / (2 * max h.mr 1e-8)))) := ⟨_, rfl⟩
  have hx4 : 4 * max 1 kk ≤ xm := by rw [hxm]; exact le_max_left _ _
  have hxr : 1 ≤ max 1 kk := le_max_left _ _
  have hxk : kk ≤ max 1 kk := le_max_right _ _
  have hv5 : 5 * h.sigma ≤ vm := by rw [hvm]; exact le_max_left _ _
  have hvth : h.theta ≤ vm := by
    rw [hvm]
    refine le_trans ?_ (le_max_right _ _)
    have : 0 ≤ h.vov * √(max h.theta 1e-8 / (2 * max h.mr 1e-8)) := mul_nonneg hvov (sqrt_nonneg _)
    linarith
  have hvp : 0 < vm := by linarith
  have hadt : 0 ≤ G.adiTheta * (texp / G.N) := by positivity
  have hN : (0 : ℝ) < G.N := lt_of_le_of_lt (by positivity) hmesh
  have hM0 : (0 : ℝ) < G.M := by exact_mod_cast (by omega : 0 < G.M)
  have hLp : (0 : ℝ) < G.L := by exact_mod_cast (by omega : 0 < G.L)
  set X : ℕ → ℝ := fun i => i * (xm / G.M) with hX
  set v : ℕ → ℝ := fun j => j * (vm / G.L) with hv
  have eX : linspace 0 xm G.M = X := by funext i; simp only [linspace, hX]; ring
  have ev : linspace 0 vm G.L = v := by funext i; simp only [linspace, hv]; ring
  have hX0 : ∀ i, 0 ≤ X i := fun i => mul_nonneg (Nat.cast_nonneg _) (div_nonneg (by linarith) hM0.le)
  have hv0 : ∀ i, 0 ≤ v i := fun i => mul_nonneg (Nat.cast_nonneg _) (div_nonneg hvp.le hLp.le)
  have hv1 : ∀ j ≤ G.L, v j ≤ vm := fun j hj => by
    have hj' : (j : ℝ) ≤ G.L := by exact_mod_cast hj
    simp only [hv]
    rw [← mul_div_assoc, div_le_iff₀ hLp, mul_comm]
    exact mul_le_mul_of_nonneg_left hj' hvp.le
  have hXM : X G.M = xm := by simp only [hX]; field_simp
  have hg : (Fd.hestonCev h beta).gridBounds h.sigma kk texp = (0, xm, vm) := by rw [hxm, hvm]; rfl
  set V0 : ℕ → ℕ → ℝ := hestonBc G.M G.L (fun i _ => max (cp * (X i - kk)) 0) kk X cp with hV0
  have hbok : BddOk (Fd.hestonCev h beta) G.M G.L X kk cp := hestonBc_ok hL _ rfl
  have hbnd := fun V => hestonBc_boundary (X := X) hM hL hkk (by rw [hXM]; linarith) hcp V
  have hedge : ∀ (V : ℕ → ℕ → ℝ) i, 1 ≤ i → i < G.M → hestonBc G.M G.L V kk X cp i 0 = V i 0 := fun V i a b => by
    simp only [hestonBc]
    rw [if_neg (by omega), if_neg (by omega), if_neg (by omega)]
  set U : ℕ → ℕ → ℕ → ℝ := fun n => loop (Fd.hestonCev h beta) G X v (xm / G.M) (vm / G.L) (texp / G.N) kk cp n V0 with hU
  have hUs : ∀ n, U (n + 1) = step (Fd.hestonCev h beta) G ((Fd.hestonCev h beta).preStep G.M G.L (U n) X (vm / G.L) (texp / G.N) kk cp) X v (xm / G.M) (vm / G.L) (texp / G.N) kk cp :=
    fun n => by rw [hU]; exact loop_succ _ _ _ _ _ _ _ _ _ _ _
  have hloop : ∀ n, ∃ W, U n = hestonBc G.M G.L W kk X cp := fun n => by
    cases n with
    | zero => exact ⟨_, rfl⟩
    | succ n => rw [hUs]; exact ⟨_, rfl⟩
  refine ⟨xm, vm, U, fun n => (Fd.hestonCev h beta).preStep G.M G.L (U n) X (vm / G.L) (texp / G.N) kk cp, hx4, hv5, hvth, ?_, ?_, ?_, ?_⟩
  · intro i j a b d
    rcases Nat.eq_zero_or_pos j with rfl | c
    · exact hedge (fun i _ => max (cp * (X i - kk)) 0) i a b
    · exact hbok.inner (fun i _ => max (cp * (X i - kk)) 0) i j a b c d
  · intro n _
    refine ⟨fun i j a b c d => ?_, fun i a b => ?_, fun i a b => ?_, hbnd _, ?_⟩
    · refine (hbok.inner _ _ _ a b c d).trans ?_
      rw [if_neg (by omega)]
    · have e : ∀ V : ℕ → ℕ → ℝ, (Fd.hestonCev h beta).preStep G.M G.L V X (vm / G.L) (texp / G.N) kk cp i 0 =
          if 2 * h.mr * h.theta < h.vov ^ 2 then V i 0 + texp / G.N * h.mr * h.theta * (V i 1 - V i 0) / (vm / G.L) else max (cp * (X i - kk)) 0 := fun V => by
        simp only [Fd.hestonCev]
        rw [hedge _ i a b, if_pos rfl]
      beta_reduce
      rw [e]
      split_ifs
      · ring
      · rfl
    · rw [hUs]
      exact heston_step_zero h beta hL _ (by simp [hv]) _ _ _ a b
    · obtain ⟨Y0, Y1, hD, hW⟩ := step_douglas hM hL hbok (fun _ _ => rfl) (v := v) (dX := xm / G.M) (dv := vm / G.L) (dt := texp / G.N)
        (fun j _ _ => pivS_ne hadt fun r _ => by
          simp only [Fd.hestonCev]
          have := rpow_nonneg (hX0 (r + 1)) (2 * beta)
          have := hv0 j
          positivity)
        (pivV_ne hL hadt (fun r _ => mul_nonneg (mul_nonneg (by norm_num) (sq_nonneg _)) (hv0 _)) (fun r hr => by
          simp only [Fd.hestonCev]
          have h1 := hv0 (r + 1)
          have h2 := hv1 (r + 1) (by omega)
          have hc : 0 ≤ 0.5 * h.vov ^ 2 * v (r + 1) / (vm / G.L) ^ 2 :=
            div_nonneg (mul_nonneg (mul_nonneg (by norm_num) (sq_nonneg _)) h1) (sq_nonneg _)
          have hd : |h.mr * (h.theta - v (r + 1)) / (2 * (vm / G.L))| ≤ h.mr * G.L / 2 := by
            rw [abs_div, abs_mul, abs_of_nonneg hmr, abs_of_pos (show 0 < 2 * (vm / G.L) by positivity), div_le_iff₀ (by positivity)]
            have : |h.theta - v (r + 1)| ≤ vm := by rw [abs_le]; constructor <;> linarith
            calc h.mr * |h.theta - v (r + 1)| ≤ h.mr * vm := mul_le_mul_of_nonneg_left this hmr
              _ = h.mr * G.L / 2 * (2 * (vm / G.L)) := by field_simp
          have e : 2 * (G.adiTheta * (texp / G.N)) * (h.mr * G.L / 2) < 1 := by
            have : 2 * (G.adiTheta * (texp / G.N)) * (h.mr * G.L / 2) = G.adiTheta * h.mr * texp * G.L / G.N := by field_simp
            rw [this, div_lt_one hN]
            exact hmesh
          refine lt_of_le_of_lt (mul_le_mul_of_nonneg_left ?_ (by linarith)) e
          linarith))
        ((Fd.hestonCev h beta).preStep G.M G.L (U n) X (vm / G.L) (texp / G.N) kk cp)
      refine ⟨_, hbnd Y0, ?_⟩
      rw [hUs, hW]
      have ea : (fun i j => v j * X i ^ (2 * beta) / 2) = fun i j => (Fd.hestonCev h beta).aS (X i) (v j) := by
        funext i j; simp only [Fd.hestonCev]; norm_num; ring
      have eb : (fun j => h.vov ^ 2 * v j / 2) = fun j => (Fd.hestonCev h beta).aV (v j) := by
        funext j; simp only [Fd.hestonCev]; norm_num; ring
      rw [ea, eb]
      exact hD
  · intro n _
    obtain ⟨W, hW⟩ := hloop n
    rw [hW]
    exact hbnd W
  · unfold Fd.price solveOne
    have e1 : mp.fwd spot texp = F := by rw [mp.fwd_eq_forward, mp.forward_eq_spec]
    simp only [e1, show ∀ f t, (Fd.hestonCev h beta).getV0 f t = h.sigma from fun _ _ => rfl]
    rw [hg, mp.df_eq_spec]
    simp only [eX, ev, sub_zero]
    rfl

/-- **C141 (Heston).** The case `β = 1`: `HestonFinDiff.price` runs the Douglas scheme of `U_t = ½ v x² U_xx + ρ ν v x U_xv + ½ ν² v U_vv + κ(θ - v) U_v`. -/
theorem heston_fd_scheme {h : Heston} (hs : 0 < h.sigma) (hmr : 0 ≤ h.mr) (hth0 : 0 ≤ h.theta) (hvov : 0 ≤ h.vov) {G : FdGrid}
    (hM : 2 ≤ G.M) (hL : 2 ≤ G.L) (hth : 0 ≤ G.adiTheta) (mp : MParams) {strike spot texp cp : ℝ} (hK : 0 ≤ strike) (hspot : 0 < spot) (ht : 0 ≤ texp) (hcp : Spec.IsCp cp)
    (hmesh : G.adiTheta * h.mr * texp * G.L < G.N) :
    let F := Spec.forward mp.isFwd mp.intr mp.divr spot texp
    let kk := strike / F
    ∃ (xMax vMax : ℝ) (U Z : ℕ → ℕ → ℕ → ℝ), 4 * max 1 kk ≤ xMax ∧ 5 * h.sigma ≤ vMax ∧ h.theta ≤ vMax ∧
      let X : ℕ → ℝ := fun i => i * (xMax / G.M)
      let v : ℕ → ℝ := fun j => j * (vMax / G.L)
      (∀ i j, 1 ≤ i → i < G.M → j < G.L → U 0 i j = max (cp * (X i - kk)) 0) ∧
      (∀ n < G.N, (∀ i j, 1 ≤ i → i < G.M → 1 ≤ j → j < G.L → Z n i j = U n i j) ∧
        (∀ i, 1 ≤ i → i < G.M → Z n i 0 = if 2 * h.mr * h.theta < h.vov ^ 2 then U n i 0 + texp / G.N * (h.mr * h.theta * ((U n i 1 - U n i 0) / (vMax / G.L))) else max (cp * (X i - kk)) 0) ∧
        (∀ i, 1 ≤ i → i < G.M → U (n + 1) i 0 = Z n i 0) ∧ Spec.FdBoundary G.M G.L X kk cp (Z n) ∧
        ∃ Y, Spec.FdBoundary G.M G.L X kk cp Y ∧
        Spec.Douglas G.M G.L G.adiTheta (texp / G.N) (Spec.fdMixed (fun i j => h.rho * h.vov * v j * X i) (xMax / G.M) (vMax / G.L))
          (Spec.fdPrice (fun i j => v j * X i ^ 2 / 2) (xMax / G.M)) (Spec.fdVol (fun j => h.vov ^ 2 * v j / 2) (fun j => h.mr * (h.theta - v j)) (vMax / G.L))
          (Z n) Y (U (n + 1))) ∧
      (∀ n ≤ G.N, Spec.FdBoundary G.M G.L X kk cp (U n)) ∧
      Fd.price (Fd.heston h) G mp strike spot texp cp
        = Spec.discount mp.intr texp * F * bilinear (U G.N) X v (G.M + 1) (G.L + 1) 1 h.sigma := by
  have e := heston_cev_fd_scheme (cp := cp) 1 hs hmr hth0 hvov hM hL hth mp hK hspot ht hcp hmesh
  rw [← heston_eq_cev] at e
  simp only [rpow_one, mul_one, show ∀ x : ℝ, x ^ (2 : ℝ) = x ^ 2 from fun x => rpow_two x] at e
  exact e

/-- The hypotheses are met, e.g. by the default weight on a coarse grid with a non-trivial Heston model violating the Feller condition. -/
example (mp : MParams) := heston_fd_scheme (h := ⟨0.04, 0.5, -0.7, 1, 0.04, 0, 0, false⟩) (by norm_num) (by norm_num) (by norm_num) (by norm_num)
  (G := ⟨100, 50, 25, 0.8⟩) (by norm_num) (by norm_num) (by norm_num) mp (strike := 100) (spot := 95) (texp := 1) (cp := -1) (by norm_num) (by norm_num) (by norm_num) (Or.inr rfl) (by norm_num)

end PyFENG
