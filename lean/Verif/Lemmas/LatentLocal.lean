import Verif.Lemmas.LatentLogdet
import Verif.Lemmas.Certificate
import Verif.Lemmas.LatentSquare
import Verif.Lemmas.LatentRun

/-! Boundedness of the passes of the latent variable solvers from the energy of one pass: a bound on the first block
follows from the energy, the energy decreases while the bound holds, and so the bound holds for ever. -/

namespace Verif.Lemmas

open Verif.Model Verif.Spec Matrix Filter Topology

set_option autoImplicit false
set_option linter.unusedSectionVars false

variable {n : Type*} [Fintype n] [DecidableEq n] {k : ℕ} {I : Type*} [Fintype I]

/-- A symmetric matrix is at most its Frobenius norm. -/
theorem froNorm_smul_sub_posSemidef {A : Matrix n n ℝ} (hA : A.IsSymm) {D : ℝ} (hD : froNorm A ≤ D) :
    (D • (1 : Matrix n n ℝ) - A).PosSemidef := by
  refine PosSemidef.of_dotProduct_mulVec_nonneg ?_ fun x => ?_
  · rw [IsHermitian, conjTranspose_eq_transpose_of_trivial, transpose_sub, transpose_smul, transpose_one, hA.eq]
  · have hx : star x = x := funext fun i => by simp
    rw [hx, sub_mulVec, smul_mulVec, one_mulVec, dotProduct_sub, dotProduct_smul, smul_eq_mul, sub_nonneg]
    have e1 : x ⬝ᵥ (A *ᵥ x) = frobInner A (vecMulVec x x) := by
      unfold frobInner dotProduct mulVec dotProduct vecMulVec
      refine Finset.sum_congr rfl fun i _ => ?_
      rw [Finset.mul_sum]
      refine Finset.sum_congr rfl fun j _ => ?_
      simp only [of_apply]
      ring
    have hxx : 0 ≤ x ⬝ᵥ x := Finset.sum_nonneg fun i _ => mul_self_nonneg _
    have e2 : froNorm (vecMulVec x x) = x ⬝ᵥ x := by
      have e3 : frobSq (vecMulVec x x) = (x ⬝ᵥ x) ^ 2 := by
        unfold frobSq dotProduct vecMulVec
        rw [sq, Finset.sum_mul_sum]
        refine Finset.sum_congr rfl fun i _ => Finset.sum_congr rfl fun j _ => ?_
        simp only [of_apply]
        ring
      rw [froNorm_eq_sqrt, e3, Real.sqrt_sq hxx]
    rw [e1]
    have h := (abs_le.mp (abs_frobInner_le A (vecMulVec x x))).2
    rw [e2] at h
    exact h.trans (mul_le_mul_of_nonneg_right hD hxx)

/-- The inverse is strictly monotone below `c` and `b`, for families. -/
theorem ld_strong {S : Batch k n} {nS : Fin k → ℝ} {m : ℝ} (hm : 0 < m) (hn : ∀ t, m ≤ nS t) {c b : ℝ} (hc : 0 < c)
    (hb : 0 < b) {R X : Batch k n} (hR : ∀ t, (R t).PosDef) (hX : ∀ t, (X t).PosDef)
    (hRc : ∀ t, (c • 1 - R t).PosSemidef) (hXb : ∀ t, (b • 1 - X t).PosSemidef) :
    m / (c * b) * famSq (R - X) ≤ famIn (ldGrad S nS R - ldGrad S nS X) (R - X) := by
  have hcb : 0 < c * b := mul_pos hc hb
  unfold famSq famIn
  rw [Finset.mul_sum]
  refine Finset.sum_le_sum fun t _ => ?_
  have h4 := inv_strict_mono_le (hR t) (hX t) hc.le (hRc t) (hXb t)
  change m / (c * b) * frobSq (R t - X t) ≤
    frobInner (nS t • (S t - (R t)⁻¹) - nS t • (S t - (X t)⁻¹)) (R t - X t)
  rw [← smul_sub, sub_sub_sub_cancel_left, frobInner_smul_left]
  have h5 : frobSq (R t - X t) / (c * b) ≤ frobInner ((X t)⁻¹ - (R t)⁻¹) (R t - X t) := by
    rw [div_le_iff₀ hcb, mul_comm]; exact h4
  have h6 := mul_le_mul (hn t) h5 (div_nonneg (frobSq_nonneg _) hcb.le) (hm.le.trans (hn t))
  rw [div_mul_eq_mul_div]
  rw [← mul_div_assoc] at h6
  exact h6

theorem psd_le_trace_one {X : Matrix n n ℝ} (hX : X.PosDef) [Nonempty n] :
    0 < trace X ∧ (trace X • (1 : Matrix n n ℝ) - X).PosSemidef :=
  ⟨hX.trace_pos, le_trace_of_posSemidef hX.posSemidef⟩

/-- The gradient of the log-likelihood is monotone on positive definite families. -/
theorem ld_mono [Nonempty n] {S : Batch k n} {nS : Fin k → ℝ} (hn : ∀ t, 0 < nS t) {R X : Batch k n}
    (hR : ∀ t, (R t).PosDef) (hX : ∀ t, (X t).PosDef) :
    0 ≤ famIn (ldGrad S nS R - ldGrad S nS X) (R - X) := by
  unfold famIn
  refine Finset.sum_nonneg fun t _ => ?_
  change 0 ≤ frobInner (nS t • (S t - (R t)⁻¹) - nS t • (S t - (X t)⁻¹)) (R t - X t)
  rw [← smul_sub, sub_sub_sub_cancel_left, frobInner_smul_left]
  refine mul_nonneg (hn t).le ?_
  obtain ⟨h1, h2⟩ := psd_le_trace_one (hR t)
  obtain ⟨h3, h4⟩ := psd_le_trace_one (hX t)
  have h := inv_strict_mono_le (hR t) (hX t) h1.le h2 h4
  have h5 := frobSq_nonneg (R t - X t)
  exact nonneg_of_mul_nonneg_right (h5.trans h) (mul_pos h1 h3)

/-- The bound on the first block given by the energy. -/
theorem ld_bound_of_energy [Nonempty n] {ep : I → Fin k} {S : Batch k n} {nS : Fin k → ℝ} (hn : ∀ t, 0 < nS t)
    {alpha tau : ℝ} {psi phi : (I → Matrix n n ℝ) → ℝ} {rho : ℝ} (hr : 0 < rho) {b : ℝ} {st s0 s1 s2 : LSt (Fin k) I n}
    (hst : LPass (ldProb ep S nS alpha tau psi phi) rho st st) (hstpd : ∀ t, (st.R t).PosDef)
    (hstb : ∀ t, (b • 1 - st.R t).PosSemidef)
    (h2 : LPass (ldProb ep S nS alpha tau psi phi) rho s1 s2) (hpd : ∀ t, (s2.R t).PosDef) {e : ℝ}
    (he : lEnergy st s0 s1 ≤ e) (t : Fin k) : ((b + Real.sqrt (2 * e)) • 1 - s2.R t).PosSemidef := by
  have h1 := LPass.bound_r (s0 := s0) hr h2 hst (ld_mono hn hpd hstpd)
  have h3 : frobSq (s2.R t - st.R t) ≤ famSq (s2.R - st.R) :=
    Finset.single_le_sum (f := fun t => frobSq ((s2.R - st.R) t)) (fun t _ => frobSq_nonneg _) (Finset.mem_univ t)
  have h4 : froNorm (s2.R t - st.R t) ≤ Real.sqrt (2 * e) := by
    rw [froNorm_eq_sqrt]
    exact Real.sqrt_le_sqrt (by linarith)
  have hsy : (s2.R t - st.R t).IsSymm := by
    rw [IsSymm, transpose_sub, (hpd t).isSymm'.eq, (hstpd t).isSymm'.eq]
  have h5 := (hstb t).add (froNorm_smul_sub_posSemidef hsy h4)
  have e5 : b • 1 - st.R t + (Real.sqrt (2 * e) • (1 : Matrix n n ℝ) - (s2.R t - st.R t)) =
      (b + Real.sqrt (2 * e)) • 1 - s2.R t := by
    rw [add_smul]; abel
  rwa [e5] at h5

/-- If the energy of one pass is small compared with `1 / rho`, it never increases again and all later first blocks
stay bounded. -/
theorem ld_bounded_of_energy [Nonempty n] {ep : I → Fin k} {S : Batch k n} {nS : Fin k → ℝ}
    {m : ℝ} (hm : 0 < m) (hn : ∀ t, m ≤ nS t)
    {alpha tau : ℝ} {psi phi : (I → Matrix n n ℝ) → ℝ} {rho : ℝ} (hr : 0 < rho) {b : ℝ} (hb : 0 < b)
    {st : LSt (Fin k) I n} (hst : LPass (ldProb ep S nS alpha tau psi phi) rho st st) (hstpd : ∀ t, (st.R t).PosDef)
    (hstb : ∀ t, (b • 1 - st.R t).PosSemidef) {s : ℕ → LSt (Fin k) I n}
    (hs : ∀ j, LPass (ldProb ep S nS alpha tau psi phi) rho (s j) (s (j + 1)))
    (hpd : ∀ j t, ((s (j + 1)).R t).PosDef) {N : ℕ} {e : ℝ} (he : lEnergy st (s N) (s (N + 1)) ≤ e)
    (hsmall : rho * ((b + Real.sqrt (2 * e)) * b) < 2 * m) (j : ℕ) :
    lEnergy st (s (N + j)) (s (N + j + 1)) ≤ e ∧ ∀ t, ((b + Real.sqrt (2 * e)) • 1 - (s (N + j + 2)).R t).PosSemidef := by
  have hn0 : ∀ t, 0 < nS t := fun t => hm.trans_le (hn t)
  have hc : 0 < b + Real.sqrt (2 * e) := by
    have := Real.sqrt_nonneg (2 * e)
    linarith
  induction j with
  | zero => exact ⟨he, fun t => ld_bound_of_energy hn0 hr hst hstpd hstb (hs (N + 1)) (hpd (N + 1)) he t⟩
  | succ j ih =>
    obtain ⟨ih1, ih2⟩ := ih
    have hE : lEnergy st (s (N + j + 1)) (s (N + j + 2)) ≤ lEnergy st (s (N + j)) (s (N + j + 1)) := by
      have hstr := ld_strong (S := S) hm hn hc hb (hpd (N + j + 1)) hstpd ih2 hstb
      have h1 := LPass.decrease hr (hs (N + j)) (hs (N + j + 1)) hst hstr
      have hk : 1 < 2 * (m / ((b + Real.sqrt (2 * e)) * b)) / rho := by
        rw [lt_div_iff₀ hr, one_mul, ← mul_div_assoc, lt_div_iff₀ (mul_pos hc hb)]
        exact hsmall
      have h2 := mixed_bound hk ((s (N + j + 2)).R - st.R) ((s (N + j + 2)).W - (s (N + j + 1)).W)
      have h3 := mul_nonneg (div_nonneg (sub_pos.mpr hk).le (by linarith : (0:ℝ) ≤ 2 * (m / ((b + Real.sqrt (2 * e)) * b)) / rho + 1))
        (add_nonneg (famSq_nonneg ((s (N + j + 2)).R - st.R)) (famSq_nonneg ((s (N + j + 2)).W - (s (N + j + 1)).W)))
      have h4 : 0 ≤ lDrop (s (N + j)) (s (N + j + 1)) (s (N + j + 2)) := by
        unfold lDrop
        have a1 := famSq_nonneg ((s (N + j + 2)).X - (s (N + j + 1)).X)
        have a2 := famSq_nonneg ((s (N + j + 2)).XP - (s (N + j + 1)).XP)
        have a3 := famSq_nonneg ((s (N + j + 2)).UP - (s (N + j + 1)).UP)
        have a4 := famSq_nonneg ((s (N + j + 2)).ZP - (s (N + j + 1)).ZP)
        have a5 := famSq_nonneg ((s (N + j + 2)).WP - (s (N + j + 1)).WP)
        have a6 := famSq_nonneg (((s (N + j + 2)).Z - (s (N + j + 1)).Z) - ((s (N + j + 2)).W - (s (N + j + 1)).W)
          + (((s (N + j + 2)).W - (s (N + j + 1)).W) - ((s (N + j + 1)).W - (s (N + j)).W)))
        linarith
      linarith
    have hE' : lEnergy st (s (N + (j + 1))) (s (N + (j + 1) + 1)) ≤ e := hE.trans ih1
    exact ⟨hE', fun t => ld_bound_of_energy hn0 hr hst hstpd hstb (hs (N + (j + 1) + 1)) (hpd (N + (j + 1) + 1)) hE' t⟩

/-- The bound on the first block from some pass on, in the form used by `ld_main`. -/
theorem ld_eventually_bounded [Nonempty n] {ep : I → Fin k} {S : Batch k n} {nS : Fin k → ℝ}
    {m : ℝ} (hm : 0 < m) (hn : ∀ t, m ≤ nS t)
    {alpha tau : ℝ} {psi phi : (I → Matrix n n ℝ) → ℝ} {rho : ℝ} (hr : 0 < rho) {b : ℝ} (hb : 0 < b)
    {st : LSt (Fin k) I n} (hst : LPass (ldProb ep S nS alpha tau psi phi) rho st st) (hstpd : ∀ t, (st.R t).PosDef)
    (hstb : ∀ t, (b • 1 - st.R t).PosSemidef) {s : ℕ → LSt (Fin k) I n}
    (hs : ∀ j, LPass (ldProb ep S nS alpha tau psi phi) rho (s j) (s (j + 1)))
    (hpd : ∀ j t, ((s (j + 1)).R t).PosDef) {N : ℕ} {e : ℝ} (he : lEnergy st (s N) (s (N + 1)) ≤ e)
    (hsmall : rho * ((b + Real.sqrt (2 * e)) * b) < 2 * m) :
    ∀ᶠ j in atTop, ∀ t, ((b + Real.sqrt (2 * e)) • 1 - (s j).R t).PosSemidef := by
  refine eventually_atTop.mpr ⟨N + 2, fun j hj t => ?_⟩
  obtain ⟨i, rfl⟩ := Nat.exists_eq_add_of_le hj
  have h := (ld_bounded_of_energy hm hn hr hb hst hstpd hstb hs hpd he hsmall i).2 t
  have e : N + 2 + i = N + i + 2 := by omega
  rw [e]
  exact h

/-! ### Stationary states for other penalty parameters, and bounds on the multipliers -/

variable {J : Type*} [Fintype J]

/-- The duals divided by `rho`. -/
noncomputable def scaleSt (rho : ℝ) (st : LSt J I n) : LSt J I n where
  R := st.R
  Z := st.Z
  W := st.W
  X := rho⁻¹ • st.X
  ZP := st.ZP
  WP := st.WP
  XP := rho⁻¹ • st.XP
  UP := rho⁻¹ • st.UP

theorem famIn_inv_smul {rho : ℝ} (hne : rho ≠ 0) (A B : J → Matrix n n ℝ) :
    rho * famIn (rho⁻¹ • A) B = famIn A B := by
  rw [famIn_smul_left, ← mul_assoc, mul_inv_cancel₀ hne, one_mul]

/-- A stationary state for the parameter `1` gives one for every parameter. -/
theorem LPass.rescale {p : LProb J I n} {st : LSt J I n} (h : LPass p 1 st st) {rho : ℝ} (hr : 0 < rho) :
    LPass p rho (scaleSt rho st) (scaleSt rho st) := by
  have hne := hr.ne'
  have hx := h.x
  have hxp := h.xp
  have hup := h.up
  rw [left_eq_add] at hx hxp hup
  have hr' := fun A B : J → Matrix n n ℝ => famIn_inv_smul hne A B
  have hr'' := fun A B : I → Matrix n n ℝ => famIn_inv_smul hne A B
  refine ⟨h.memR, fun Y hY => ?_, fun Y => ?_, fun Y => ?_, h.memW, fun Y hY => ?_, fun Y => ?_, ?_, ?_, ?_⟩
  · have h1 := h.r Y hY
    simp only [sub_self, add_zero, sub_zero, one_smul] at h1
    change famIn (p.grad st.R + rho • (rho⁻¹ • st.X + (st.Z - st.Z) - (st.W - st.W))) (Y - st.R) = 0
    simp only [sub_self, add_zero, sub_zero]
    rw [smul_smul, mul_inv_cancel₀ hne, one_smul]
    exact h1
  · have h1 := h.z Y
    simp only [sub_self, add_zero, sub_zero, one_mul] at h1
    change p.g st.Z + rho * (famIn (rho⁻¹ • st.X - (st.W - st.W)) (Y - st.Z)
      - famIn (rho⁻¹ • st.XP + (st.ZP - st.ZP)) (pull p.ep (Y - st.Z))) ≤ p.g Y
    simp only [sub_self, add_zero, sub_zero]
    rw [mul_sub, hr', hr'']
    exact h1
  · have h1 := h.zp Y
    rw [one_mul] at h1
    change p.psi st.ZP + rho * famIn (rho⁻¹ • st.XP) (Y - st.ZP) ≤ p.psi Y
    rw [hr'']
    exact h1
  · have h1 := h.w Y hY
    simp only [sub_self, add_zero, one_mul] at h1
    change p.h st.W - rho * (famIn (rho⁻¹ • st.X) (Y - st.W)
      + famIn (rho⁻¹ • st.UP + (st.WP - st.WP)) (pull p.ep (Y - st.W))) ≤ p.h Y
    simp only [sub_self, add_zero]
    rw [mul_add, hr', hr'']
    exact h1
  · have h1 := h.wp Y
    rw [one_mul] at h1
    change p.phi st.WP + rho * famIn (rho⁻¹ • st.UP) (Y - st.WP) ≤ p.phi Y
    rw [hr'']
    exact h1
  · change rho⁻¹ • st.X = rho⁻¹ • st.X + (st.R - st.Z + st.W)
    rw [hx, add_zero]
  · change rho⁻¹ • st.XP = rho⁻¹ • st.XP + (pull p.ep st.Z - st.ZP)
    rw [hxp, add_zero]
  · change rho⁻¹ • st.UP = rho⁻¹ • st.UP + (pull p.ep st.W - st.WP)
    rw [hup, add_zero]

/-- Lipschitz in the Frobenius norm. -/
def FroLip (psi : Matrix n n ℝ → ℝ) (kap : ℝ) : Prop := ∀ A B, psi (A + B) ≤ psi A + kap * froNorm B

theorem absSumMat_froLip : FroLip (absSumMat (m := n) (n := n)) (Fintype.card n) := fun A B => by
  have h := absSumMat_lipschitz (A + B) A
  rwa [add_sub_cancel_left] at h

theorem froNorm_le_of_inner {A : Matrix n n ℝ} {c : ℝ} (hc : 0 ≤ c) (h : frobInner A A ≤ c * froNorm A) :
    froNorm A ≤ c := by
  rw [frobInner_self, ← froNorm_sq, sq] at h
  rcases (froNorm_nonneg A).eq_or_lt with h0 | h0
  · rw [← h0]; exact hc
  · exact le_of_mul_le_mul_right h h0

theorem famIn_single [DecidableEq J] (A : J → Matrix n n ℝ) (t : J) (D : Matrix n n ℝ) :
    famIn A (Pi.single t D) = frobInner (A t) D := by
  unfold famIn
  rw [Finset.sum_eq_single t]
  · rw [Pi.single_eq_same]
  · intro j _ hj
    rw [Pi.single_eq_of_ne hj, frobInner_comm, frobInner_zero_left']
  · intro h; exact absurd (Finset.mem_univ t) h

theorem froNorm_neg' (A : Matrix n n ℝ) : froNorm (-A) = froNorm A := by
  rw [froNorm_eq_sqrt, froNorm_eq_sqrt]
  congr 1
  unfold frobSq
  simp

variable {E : Type*} [Fintype E]

open Classical in
/-- A subgradient of a sum of Lipschitz penalties of differences is bounded. -/
theorem pairPen_sub_bound {w : E → ℝ} (hw : ∀ e, 0 ≤ w e) {psi : Matrix n n ℝ → ℝ} {kap : ℝ} (hk : 0 ≤ kap)
    (hl : FroLip psi kap) {Z V : E ⊕ E → Matrix n n ℝ} (h : ∀ Y, pairPen w psi Z + famIn V (Y - Z) ≤ pairPen w psi Y)
    (i : E ⊕ E) : froNorm (V i) ≤ kap * w (Sum.elim id id i) := by
  have hsum : ∀ (Y : E ⊕ E → Matrix n n ℝ) (e : E) (D : Matrix n n ℝ), (∀ e', e' ≠ e → Y (Sum.inr e') - Y (Sum.inl e') =
      Z (Sum.inr e') - Z (Sum.inl e')) → Y (Sum.inr e) - Y (Sum.inl e) = Z (Sum.inr e) - Z (Sum.inl e) + D →
      pairPen w psi Y ≤ pairPen w psi Z + w e * (kap * froNorm D) := by
    intro Y e D h1 h2
    unfold pairPen
    rw [← Finset.add_sum_erase _ _ (Finset.mem_univ e), ← Finset.add_sum_erase (a := e) _
      (fun e => w e * psi (Z (Sum.inr e) - Z (Sum.inl e))) (Finset.mem_univ e), h2]
    have e1 : ∑ x ∈ Finset.univ.erase e, w x * psi (Y (Sum.inr x) - Y (Sum.inl x)) =
        ∑ x ∈ Finset.univ.erase e, w x * psi (Z (Sum.inr x) - Z (Sum.inl x)) :=
      Finset.sum_congr rfl fun x hx => by rw [h1 x (Finset.ne_of_mem_erase hx)]
    rw [e1]
    have h3 := mul_le_mul_of_nonneg_left (hl (Z (Sum.inr e) - Z (Sum.inl e)) D) (hw e)
    rw [mul_add] at h3
    linarith
  cases i with
  | inl e =>
    refine froNorm_le_of_inner (mul_nonneg hk (hw e)) ?_
    have h1 := h (Z + Pi.single (Sum.inl e) (V (Sum.inl e)))
    rw [add_sub_cancel_left, famIn_single] at h1
    have h2 := hsum (Z + Pi.single (Sum.inl e) (V (Sum.inl e))) e (-V (Sum.inl e)) (fun e' he => by
      simp [he]) (by simp; abel)
    rw [froNorm_neg'] at h2
    change _ ≤ kap * w e * _
    linarith
  | inr e =>
    refine froNorm_le_of_inner (mul_nonneg hk (hw e)) ?_
    have h1 := h (Z + Pi.single (Sum.inr e) (V (Sum.inr e)))
    rw [add_sub_cancel_left, famIn_single] at h1
    have h2 := hsum (Z + Pi.single (Sum.inr e) (V (Sum.inr e))) e (V (Sum.inr e)) (fun e' he => by
      simp [he]) (by simp; abel)
    change _ ≤ kap * w e * _
    linarith

theorem famSq_copies_le {w : E → ℝ} (hw : ∀ e, 0 ≤ w e) {kap : ℝ} {V : E ⊕ E → Matrix n n ℝ}
    (h : ∀ i, froNorm (V i) ≤ kap * w (Sum.elim id id i)) :
    famSq V ≤ 2 * (kap * ∑ e, w e) ^ 2 ∧ ∑ i, froNorm (V i) ≤ 2 * (kap * ∑ e, w e) := by
  have h1 : ∀ i, frobSq (V i) ≤ (kap * w (Sum.elim id id i)) ^ 2 := fun i => by
    rw [← froNorm_sq]
    exact pow_le_pow_left₀ (froNorm_nonneg _) (h i) 2
  have hsq : ∑ e, w e ^ 2 ≤ (∑ e, w e) ^ 2 := Finset.sum_sq_le_sq_sum_of_nonneg fun e _ => hw e
  constructor
  · refine (Finset.sum_le_sum fun i _ => h1 i).trans ?_
    rw [Fintype.sum_sum_type]
    simp only [Sum.elim_inl, Sum.elim_inr, id, mul_pow, ← Finset.mul_sum]
    have := mul_le_mul_of_nonneg_left hsq (sq_nonneg kap)
    linarith
  · refine (Finset.sum_le_sum fun i _ => h i).trans ?_
    rw [Fintype.sum_sum_type]
    simp only [Sum.elim_inl, Sum.elim_inr, id, ← Finset.mul_sum]
    linarith

/-- The multiplier of `R = Z - W` at a stationary state. -/
theorem saddle_X_bound {ep : I → Fin k} {S : Batch k n} {nS : Fin k → ℝ} {alpha tau : ℝ} (hal : 0 ≤ alpha)
    {psi phi : (I → Matrix n n ℝ) → ℝ} {st : LSt (Fin k) I n}
    (hst : LPass (ldProb ep S nS alpha tau psi phi) 1 st st) {B : ℝ} (hB : ∑ i, froNorm (st.XP i) ≤ B) (t : Fin k) :
    froNorm (st.X t) ≤ Fintype.card n * alpha + B := by
  have hB0 : 0 ≤ B := (Finset.sum_nonneg fun i _ => froNorm_nonneg _).trans hB
  refine froNorm_le_of_inner (by positivity) ?_
  have hz : ∀ Y : Batch k n, alpha * ∑ t', absSumMat (st.Z t') + (famIn st.X (Y - st.Z)
      - famIn st.XP (pull ep (Y - st.Z))) ≤ alpha * ∑ t', absSumMat (Y t') := by
    intro Y
    have h := hst.z Y
    simp only [sub_self, add_zero, sub_zero, one_mul] at h
    exact h
  have h1 := hz (st.Z + Pi.single t (st.X t))
  rw [add_sub_cancel_left, famIn_single] at h1
  have h2 : famIn st.XP (pull ep (Pi.single t (st.X t))) ≤ B * froNorm (st.X t) := by
    refine le_trans ?_ (mul_le_mul_of_nonneg_right hB (froNorm_nonneg _))
    rw [Finset.sum_mul]
    refine Finset.sum_le_sum fun i _ => ?_
    change frobInner (st.XP i) ((Pi.single t (st.X t) : Fin k → Matrix n n ℝ) (ep i)) ≤ _
    by_cases hi : ep i = t
    · rw [hi, Pi.single_eq_same]
      exact (abs_le.mp (abs_frobInner_le _ _)).2
    · rw [Pi.single_eq_of_ne hi, frobInner_comm, frobInner_zero_left']
      exact mul_nonneg (froNorm_nonneg _) (froNorm_nonneg _)
  have h3 : ∑ t', absSumMat ((st.Z + (Pi.single t (st.X t) : Batch k n) : Batch k n) t') ≤
      ∑ t', absSumMat (st.Z t') + Fintype.card n * froNorm (st.X t) := by
    rw [← Finset.add_sum_erase _ _ (Finset.mem_univ t), ← Finset.add_sum_erase (a := t) _
      (fun t' => absSumMat (st.Z t')) (Finset.mem_univ t)]
    have e1 : ∑ x ∈ Finset.univ.erase t, absSumMat ((st.Z + (Pi.single t (st.X t) : Batch k n) : Batch k n) x) =
        ∑ x ∈ Finset.univ.erase t, absSumMat (st.Z x) := Finset.sum_congr rfl fun x hx => by
      rw [Pi.add_apply, Pi.single_eq_of_ne (Finset.ne_of_mem_erase hx), add_zero]
    rw [e1, Pi.add_apply, Pi.single_eq_same]
    have := absSumMat_froLip (st.Z t) (st.X t)
    linarith
  have h4 := mul_le_mul_of_nonneg_left h3 hal
  rw [mul_add] at h4
  have e5 : (Fintype.card n * alpha + B) * froNorm (st.X t) = alpha * (Fintype.card n * froNorm (st.X t))
    + B * froNorm (st.X t) := by ring
  rw [e5]
  linarith

end Verif.Lemmas
