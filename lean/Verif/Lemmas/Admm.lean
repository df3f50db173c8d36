import Verif.Lemmas.Temporal

/-! Convergence of two-block ADMM for the log-det problems with several copies of every time point: the
copies are indexed by `I`, the copy `i` is a copy of the time point `ep i`. -/

namespace Verif.Lemmas

open Verif.Model Verif.Spec Matrix Filter Topology

set_option autoImplicit false
set_option linter.unusedSectionVars false

variable {n : Type*} [Fintype n] [DecidableEq n] {k : ℕ} {I : Type*} [Fintype I]

/-- A run of the iteration (`K j` is computed from `Z j`, `U j`) together with a saddle point `(X, V)`. -/
structure AdmmRun (ep : I → Fin k) (S : Batch k n) (nS : Fin k → ℝ) (rho : ℝ) (K : ℕ → Batch k n)
    (Z U : ℕ → I → Matrix n n ℝ) (X : Batch k n) (V : I → Matrix n n ℝ) : Prop where
  surj : ∀ t, ∃ i, ep i = t
  nPos : ∀ t, 0 < nS t
  rhoPos : 0 < rho
  Kpd : ∀ j t, (K j t).PosDef
  Kst : ∀ j t, nS t • (S t - (K j t)⁻¹)
    + rho • symmetrize (∑ i, if ep i = t then K j (ep i) - Z j i + U j i else 0) = 0
  Unext : ∀ j i, U (j + 1) i = U j i + (K j (ep i) - Z (j + 1) i)
  mono : ∀ j, 0 ≤ ∑ i, frobInner (U (j + 2) i - U (j + 1) i) (Z (j + 2) i - Z (j + 1) i)
  Xpd : ∀ t, (X t).PosDef
  Xst : ∀ t, nS t • (S t - (X t)⁻¹) + rho • symmetrize (∑ i, if ep i = t then V i else 0) = 0
  monoX : ∀ j, 0 ≤ ∑ i, frobInner (U (j + 1) i - V i) (Z (j + 1) i - X (ep i))

/-- Squared distance of `(Z, U)` to `(X, V)`. -/
noncomputable def admmLyap (ep : I → Fin k) (X : Batch k n) (V : I → Matrix n n ℝ)
    (Z U : I → Matrix n n ℝ) : ℝ :=
  ∑ i, frobSq (Z i - X (ep i)) + ∑ i, frobSq (U i - V i)

theorem admmLyap_nonneg (ep : I → Fin k) (X : Batch k n) (V Z U : I → Matrix n n ℝ) :
    0 ≤ admmLyap ep X V Z U :=
  add_nonneg (Finset.sum_nonneg fun _ _ => frobSq_nonneg _) (Finset.sum_nonneg fun _ _ => frobSq_nonneg _)

/-- Monotonicity of the log-det part. -/
noncomputable def logdetGap (nS : Fin k → ℝ) (X K : Batch k n) : ℝ :=
  ∑ t, nS t * frobInner ((X t)⁻¹ - (K t)⁻¹) (K t - X t)

variable {ep : I → Fin k} {S : Batch k n} {nS : Fin k → ℝ} {rho : ℝ} {K : ℕ → Batch k n}
  {Z U : ℕ → I → Matrix n n ℝ} {X : Batch k n} {V : I → Matrix n n ℝ}

namespace AdmmRun

theorem gap_nonneg (h : AdmmRun ep S nS rho K Z U X V) (j : ℕ) : 0 ≤ logdetGap nS X (K j) :=
  Finset.sum_nonneg fun t _ => mul_nonneg (h.nPos t).le (inv_mono (h.Kpd j t) (h.Xpd t))

theorem gap_eq (h : AdmmRun ep S nS rho K Z U X V) (j : ℕ) :
    rho * ∑ i, frobInner (Z j i - Z (j + 1) i - (U (j + 1) i - V i)) (K j (ep i) - X (ep i))
      = logdetGap nS X (K j) := by
  have hsym : ∀ t, (K j t - X t).IsSymm := fun t => by
    rw [IsSymm, transpose_sub, (h.Kpd j t).isSymm'.eq, (h.Xpd t).isSymm'.eq]
  have hpair : ∀ (t : Fin k) (A G : Matrix n n ℝ), nS t • A + rho • symmetrize G = 0 →
      nS t * frobInner A (K j t - X t) + rho * frobInner G (K j t - X t) = 0 := by
    intro t A G hA
    have h1 := congrArg (fun M => frobInner M (K j t - X t)) hA
    simp only [frobInner_add_left, frobInner_smul_left] at h1
    rwa [frobInner_symmetrize (hsym t), frobInner_zero_left'] at h1
  have h1 := Finset.sum_congr rfl fun t (_ : t ∈ Finset.univ) => hpair t _ _ (h.Kst j t)
  have h2 := Finset.sum_congr rfl fun t (_ : t ∈ Finset.univ) => hpair t _ _ (h.Xst t)
  rw [Finset.sum_add_distrib, ← Finset.mul_sum] at h1 h2
  have s1 := sum_scatter ep (fun i => K j (ep i) - Z j i + U j i) (fun t => K j t - X t)
  have s2 := sum_scatter ep V (fun t => K j t - X t)
  unfold scatter at s1 s2
  rw [s1] at h1
  rw [s2] at h2
  have e : ∑ i, frobInner (Z j i - Z (j + 1) i - (U (j + 1) i - V i)) (K j (ep i) - X (ep i)) =
      ∑ i, frobInner (V i) (K j (ep i) - X (ep i))
        - ∑ i, frobInner (K j (ep i) - Z j i + U j i) (K j (ep i) - X (ep i)) := by
    rw [← Finset.sum_sub_distrib]
    refine Finset.sum_congr rfl fun i _ => ?_
    rw [← frobInner_sub_left]
    congr 1
    rw [h.Unext]
    abel
  have e2 : logdetGap nS X (K j) = ∑ t, nS t * frobInner (S t - (K j t)⁻¹) (K j t - X t)
      - ∑ t, nS t * frobInner (S t - (X t)⁻¹) (K j t - X t) := by
    unfold logdetGap
    rw [← Finset.sum_sub_distrib]
    refine Finset.sum_congr rfl fun t _ => ?_
    rw [← mul_sub, ← frobInner_sub_left]
    congr 2
    abel
  rw [e, e2, mul_sub]
  simp only [Finset.sum_const_zero] at h1 h2
  linarith

theorem step (h : AdmmRun ep S nS rho K Z U X V) (j : ℕ) :
    admmLyap ep X V (Z (j + 1)) (U (j + 1)) + ∑ i, frobSq (Z j i - K j (ep i))
      + 2 * rho⁻¹ * logdetGap nS X (K j) ≤ admmLyap ep X V (Z j) (U j) := by
  have hid := Finset.sum_congr rfl fun i (_ : i ∈ (Finset.univ : Finset I)) =>
    admm_identity (Z := Z j i) (U := U j i) (Zp := Z (j + 1) i) (Up := U (j + 1) i)
      (K := K j (ep i)) (Zs := X (ep i)) (Us := V i) (h.Unext j i)
  simp only [Finset.sum_add_distrib, ← Finset.mul_sum] at hid
  have hg := h.gap_eq j
  have hm := h.monoX j
  have hr := h.rhoPos
  have e : 2 * rho⁻¹ * logdetGap nS X (K j) =
      2 * ∑ i, frobInner (Z j i - Z (j + 1) i - (U (j + 1) i - V i)) (K j (ep i) - X (ep i)) := by
    rw [← hg]; field_simp
  rw [e]
  unfold admmLyap
  linarith

/-- Primal and dual residual of iteration `j + 1`. -/
theorem strong (h : AdmmRun ep S nS rho K Z U X V) (j : ℕ) :
    admmLyap ep X V (Z (j + 2)) (U (j + 2)) + ∑ i, frobSq (Z (j + 2) i - Z (j + 1) i)
      + ∑ i, frobSq (K (j + 1) (ep i) - Z (j + 2) i) + 2 * rho⁻¹ * logdetGap nS X (K (j + 1))
      ≤ admmLyap ep X V (Z (j + 1)) (U (j + 1)) := by
  have hstep := h.step (j + 1)
  have hm := h.mono j
  have e : ∑ i, frobSq (Z (j + 1) i - K (j + 1) (ep i)) = ∑ i, frobSq (Z (j + 2) i - Z (j + 1) i)
      + ∑ i, frobSq (K (j + 1) (ep i) - Z (j + 2) i)
      + 2 * ∑ i, frobInner (U (j + 2) i - U (j + 1) i) (Z (j + 2) i - Z (j + 1) i) := by
    rw [Finset.mul_sum, ← Finset.sum_add_distrib, ← Finset.sum_add_distrib]
    refine Finset.sum_congr rfl fun i _ => ?_
    have hU : U (j + 2) i - U (j + 1) i = K (j + 1) (ep i) - Z (j + 2) i := by
      rw [h.Unext (j + 1) i]; abel
    have e : Z (j + 1) i - K (j + 1) (ep i) =
        -((Z (j + 2) i - Z (j + 1) i) + (K (j + 1) (ep i) - Z (j + 2) i)) := by abel
    rw [hU, e, frobSq_neg, frobSq_add, frobInner_comm (Z (j + 2) i - Z (j + 1) i)]
    ring
  rw [e] at hstep
  linarith

theorem anti (h : AdmmRun ep S nS rho K Z U X V) :
    Antitone fun j => admmLyap ep X V (Z j) (U j) :=
  antitone_nat_of_succ_le fun j => by
    have h1 := h.step j
    have h2 : 0 ≤ ∑ i, frobSq (Z j i - K j (ep i)) := Finset.sum_nonneg fun _ _ => frobSq_nonneg _
    have h3 : 0 ≤ 2 * rho⁻¹ * logdetGap nS X (K j) := by
      have := inv_pos.mpr h.rhoPos
      have := h.gap_nonneg j
      positivity
    linarith

/-- If the residuals of all the iterations `1 .. m` cost at least `d`, then `m * d` is at most the initial
distance. -/
theorem budget (h : AdmmRun ep S nS rho K Z U X V) {d : ℝ} (m : ℕ)
    (hd : ∀ j < m, d ≤ ∑ i, frobSq (Z (j + 2) i - Z (j + 1) i)
      + ∑ i, frobSq (K (j + 1) (ep i) - Z (j + 2) i)) :
    m * d ≤ admmLyap ep X V (Z 0) (U 0) := by
  have hsum : ∀ j, j ≤ m → admmLyap ep X V (Z (j + 1)) (U (j + 1)) + j * d
      ≤ admmLyap ep X V (Z 0) (U 0) := by
    intro j
    induction j with
    | zero =>
      intro _
      simpa using h.anti (Nat.zero_le 1)
    | succ j ih =>
      intro hj
      have h1 := ih (by omega)
      have h2 := h.strong j
      have h3 := hd j (by omega)
      have h4 : 0 ≤ 2 * rho⁻¹ * logdetGap nS X (K (j + 1)) := by
        have := inv_pos.mpr h.rhoPos
        have := h.gap_nonneg (j + 1)
        positivity
      push_cast
      linarith
  have h1 := hsum m le_rfl
  have h2 := admmLyap_nonneg ep X V (Z (m + 1)) (U (m + 1))
  linarith

end AdmmRun

theorem tendsto_of_frobSq {f : ℕ → Matrix n n ℝ} {X : Matrix n n ℝ}
    (hf : Tendsto (fun j => frobSq (f j - X)) atTop (𝓝 0)) : Tendsto f atTop (𝓝 X) := by
  refine tendsto_pi_nhds.mpr fun i => tendsto_pi_nhds.mpr fun j => ?_
  rw [tendsto_iff_norm_sub_tendsto_zero]
  refine tendsto_of_tendsto_of_tendsto_of_le_of_le tendsto_const_nhds
    (by simpa using hf.sqrt) (fun k => norm_nonneg _) fun k => ?_
  have h1 : (f k i j - X i j) ^ 2 ≤ frobSq (f k - X) := by
    have h2 : (f k i j - X i j) ^ 2 ≤ ∑ j, ((f k - X) i j) ^ 2 :=
      Finset.single_le_sum (f := fun j => ((f k - X) i j) ^ 2) (fun j _ => sq_nonneg _)
        (Finset.mem_univ j)
    exact le_trans h2 (Finset.single_le_sum (f := fun i => ∑ j, ((f k - X) i j) ^ 2)
      (fun i _ => Finset.sum_nonneg fun j _ => sq_nonneg _) (Finset.mem_univ i))
  rw [Real.norm_eq_abs, ← Real.sqrt_sq_eq_abs]
  exact Real.sqrt_le_sqrt h1

theorem frobSq_add_le2 (A B : Matrix n n ℝ) : frobSq (A + B) ≤ 2 * frobSq A + 2 * frobSq B := by
  have h := frobSq_nonneg (A - B)
  rw [frobSq_sub] at h
  rw [frobSq_add]
  linarith

namespace AdmmRun

/-- Both residuals vanish and the iterates converge to the primal part of the saddle point. -/
theorem converges (h : AdmmRun ep S nS rho K Z U X V) :
    Tendsto (fun j => ∑ i, frobSq (K j (ep i) - Z (j + 1) i)) atTop (𝓝 0) ∧
    Tendsto (fun j => ∑ i, frobSq (Z (j + 1) i - Z j i)) atTop (𝓝 0) ∧
    (∀ t, Tendsto (fun j => K j t) atTop (𝓝 (X t))) ∧
    (∀ i, Tendsto (fun j => Z j i) atTop (𝓝 (X (ep i)))) := by
  set W : ℕ → ℝ := fun j => admmLyap ep X V (Z j) (U j) with hW
  have hanti : Antitone W := h.anti
  have hlim := tendsto_atTop_ciInf hanti
    ⟨0, by rintro _ ⟨k, rfl⟩; exact admmLyap_nonneg ep X V _ _⟩
  have hdiff : Tendsto (fun j => W (j + 1) - W (j + 2)) atTop (𝓝 0) := by
    have h1 := hlim.comp (tendsto_add_atTop_nat 1)
    have h2 := hlim.comp (tendsto_add_atTop_nat 2)
    simpa using h1.sub h2
  have hri : 0 < rho⁻¹ := inv_pos.mpr h.rhoPos
  have nn1 : ∀ j, 0 ≤ ∑ i, frobSq (Z (j + 2) i - Z (j + 1) i) :=
    fun j => Finset.sum_nonneg fun _ _ => frobSq_nonneg _
  have nn2 : ∀ j, 0 ≤ ∑ i, frobSq (K (j + 1) (ep i) - Z (j + 2) i) :=
    fun j => Finset.sum_nonneg fun _ _ => frobSq_nonneg _
  have nn3 : ∀ j, 0 ≤ 2 * rho⁻¹ * logdetGap nS X (K (j + 1)) := fun j => by
    have := h.gap_nonneg (j + 1)
    positivity
  have hsq : ∀ f : ℕ → ℝ, (∀ k, 0 ≤ f k) → (∀ k, f k ≤ W (k + 1) - W (k + 2)) →
      Tendsto f atTop (𝓝 0) := fun f h0 h1 =>
    tendsto_of_tendsto_of_tendsto_of_le_of_le tendsto_const_nhds hdiff h0 h1
  have hdz := hsq _ nn1 fun j => by
    have := h.strong j; have := nn2 j; have := nn3 j; simp only [hW]; linarith
  have hdr := hsq _ nn2 fun j => by
    have := h.strong j; have := nn1 j; have := nn3 j; simp only [hW]; linarith
  have hdm := hsq _ nn3 fun j => by
    have := h.strong j; have := nn1 j; have := nn2 j; simp only [hW]; linarith
  -- bound on the traces
  obtain ⟨C, hC⟩ : ∃ C : ℝ, ∀ j t, trace (K j t) ≤ C := by
    refine ⟨Fintype.card n + (2 * (2 * W 0 + 2 * W 0) + 2 * ∑ t, frobSq (X t)), fun j t => ?_⟩
    obtain ⟨i, hi⟩ := h.surj t
    have h1 := trace_le_frob (K j t)
    have e : K j t = ((K j t - Z j i) + (Z j i - X t)) + X t := by abel
    have h2 := frobSq_add_le2 ((K j t - Z j i) + (Z j i - X t)) (X t)
    have h3 := frobSq_add_le2 (K j t - Z j i) (Z j i - X t)
    rw [← e] at h2
    have h4 : W j ≤ W 0 := hanti (Nat.zero_le j)
    have h5 : frobSq (Z j i - X t) ≤ W j := by
      have : frobSq (Z j i - X (ep i)) ≤ ∑ i, frobSq (Z j i - X (ep i)) :=
        Finset.single_le_sum (f := fun i => frobSq (Z j i - X (ep i)))
          (fun _ _ => frobSq_nonneg _) (Finset.mem_univ i)
      rw [hi] at this
      exact this.trans (le_add_of_nonneg_right (Finset.sum_nonneg fun _ _ => frobSq_nonneg _))
    have h6 : frobSq (K j t - Z j i) ≤ W j := by
      have h7 := h.step j
      have h8 := admmLyap_nonneg ep X V (Z (j + 1)) (U (j + 1))
      have h9 : 0 ≤ 2 * rho⁻¹ * logdetGap nS X (K j) := by
        have := h.gap_nonneg j
        positivity
      have : frobSq (Z j i - K j (ep i)) ≤ ∑ i, frobSq (Z j i - K j (ep i)) :=
        Finset.single_le_sum (f := fun i => frobSq (Z j i - K j (ep i)))
          (fun _ _ => frobSq_nonneg _) (Finset.mem_univ i)
      rw [hi] at this
      rw [← neg_sub, frobSq_neg]
      simp only [hW]
      linarith
    have h7 : frobSq (X t) ≤ ∑ t, frobSq (X t) :=
      Finset.single_le_sum (f := fun t => frobSq (X t)) (fun _ _ => frobSq_nonneg _) (Finset.mem_univ t)
    linarith
  have hK2 : ∀ t, Tendsto (fun j => frobSq (K (j + 1) t - X t)) atTop (𝓝 0) := by
    intro t
    have hXtr : 0 ≤ trace (X t) := (h.Xpd t).posSemidef.trace_nonneg
    have hup : Tendsto (fun j => C * trace (X t) * ((nS t)⁻¹ * (rho / 2)) *
        (2 * rho⁻¹ * logdetGap nS X (K (j + 1)))) atTop (𝓝 0) := by
      simpa using hdm.const_mul (C * trace (X t) * ((nS t)⁻¹ * (rho / 2)))
    refine tendsto_of_tendsto_of_tendsto_of_le_of_le tendsto_const_nhds hup
      (fun k => frobSq_nonneg _) fun j => ?_
    have h1 := inv_strict_mono (h.Kpd (j + 1) t) (h.Xpd t)
    have h2 := inv_mono (h.Kpd (j + 1) t) (h.Xpd t)
    have h3 : nS t * frobInner ((X t)⁻¹ - (K (j + 1) t)⁻¹) (K (j + 1) t - X t)
        ≤ logdetGap nS X (K (j + 1)) :=
      Finset.single_le_sum
        (f := fun t => nS t * frobInner ((X t)⁻¹ - (K (j + 1) t)⁻¹) (K (j + 1) t - X t))
        (fun t _ => mul_nonneg (h.nPos t).le (inv_mono (h.Kpd (j + 1) t) (h.Xpd t))) (Finset.mem_univ t)
    have hn := h.nPos t
    have hr := h.rhoPos
    have e : C * trace (X t) * ((nS t)⁻¹ * (rho / 2)) * (2 * rho⁻¹ * logdetGap nS X (K (j + 1))) =
        C * trace (X t) * ((nS t)⁻¹ * logdetGap nS X (K (j + 1))) := by
      field_simp
    have h4 : frobInner ((X t)⁻¹ - (K (j + 1) t)⁻¹) (K (j + 1) t - X t)
        ≤ (nS t)⁻¹ * logdetGap nS X (K (j + 1)) := by
      rw [inv_mul_eq_div, le_div_iff₀ hn]; linarith
    have hC0 : 0 ≤ C := ((h.Kpd 0 t).posSemidef.trace_nonneg).trans (hC 0 t)
    simp only [e]
    refine le_trans h1 ?_
    refine le_trans (mul_le_mul_of_nonneg_right
      (mul_le_mul_of_nonneg_right (hC (j + 1) t) hXtr) h2) ?_
    exact mul_le_mul_of_nonneg_left h4 (mul_nonneg hC0 hXtr)
  have hZ2 : ∀ i, Tendsto (fun j => frobSq (Z (j + 2) i - X (ep i))) atTop (𝓝 0) := by
    intro i
    have hup := ((hK2 (ep i)).const_mul 2).add (hdr.const_mul 2)
    simp only [mul_zero, add_zero] at hup
    refine tendsto_of_tendsto_of_tendsto_of_le_of_le tendsto_const_nhds hup
      (fun k => frobSq_nonneg _) fun j => ?_
    have e : Z (j + 2) i - X (ep i) = (K (j + 1) (ep i) - X (ep i))
        + -(K (j + 1) (ep i) - Z (j + 2) i) := by abel
    have h1 := frobSq_add_le2 (K (j + 1) (ep i) - X (ep i)) (-(K (j + 1) (ep i) - Z (j + 2) i))
    rw [← e, frobSq_neg] at h1
    have h2 : frobSq (K (j + 1) (ep i) - Z (j + 2) i) ≤ ∑ i, frobSq (K (j + 1) (ep i) - Z (j + 2) i) :=
      Finset.single_le_sum (f := fun i => frobSq (K (j + 1) (ep i) - Z (j + 2) i))
        (fun _ _ => frobSq_nonneg _) (Finset.mem_univ i)
    change frobSq (Z (j + 2) i - X (ep i)) ≤ _
    linarith
  refine ⟨?_, ?_, fun t => ?_, fun i => ?_⟩
  · rw [← tendsto_add_atTop_iff_nat 1]; exact hdr
  · rw [← tendsto_add_atTop_iff_nat 1]; exact hdz
  · rw [← tendsto_add_atTop_iff_nat 1]
    exact tendsto_of_frobSq (hK2 t)
  · rw [← tendsto_add_atTop_iff_nat 2]
    exact tendsto_of_frobSq (hZ2 i)

end AdmmRun

end Verif.Lemmas
