import Verif.Lemmas.Glopridu
import Verif.Lemmas.Loop

/-! Properties of `glo_prox` and `glopridu_algorithm` (regain/wrapper/paspal/glopridu.py). -/

namespace Verif.Props

open Verif.Model Verif.Spec Verif.Lemmas Matrix

set_option autoImplicit false
set_option linter.unusedSectionVars false

/-! ### From multipliers to the proximal point -/

section Kkt

variable {ι κ : Type*} [Fintype ι] [Fintype κ] [DecidableEq κ]

theorem blockSum_nonneg (blocks : ι → Finset κ) {x : ι → ℝ} (h : ∀ g, 0 ≤ x g) (i : κ) :
    0 ≤ blockSum blocks x i :=
  Finset.sum_nonneg fun g _ => by split_ifs; exacts [h g, le_rfl]

theorem sum_blockSum (blocks : ι → Finset κ) (q : κ → ℝ) (x : ι → ℝ) :
    ∑ g, x g * ∑ i ∈ blocks g, q i = ∑ i, q i * blockSum blocks x i := by
  unfold blockSum
  simp only [Finset.mul_sum]
  rw [Finset.sum_comm]
  refine Finset.sum_congr rfl fun g _ => ?_
  have : ∀ i, q i * (if i ∈ blocks g then x g else 0) = if i ∈ blocks g then x g * q i else 0 := by
    intro i; split_ifs <;> ring
  simp only [this]
  rw [Finset.sum_ite_mem, Finset.univ_inter]

/-- What any nonnegative multipliers with a feasible `w0 - w` say about `w`: no splitting of any other
point costs less, up to the complementarity gap. -/
theorem latent_gap (blocks : ι → Finset κ) (r : ι → ℝ) (w0 v : κ → ℝ) {x : ι → ℝ} (hx : ∀ g, 0 ≤ x g)
    (hr : ∀ g, 0 ≤ r g) (hv : ∀ i, w0 i = (1 + blockSum blocks x i) * v i)
    (hfeas : ∀ g, ∑ i ∈ blocks g, v i ^ 2 ≤ r g ^ 2) :
    ∃ z, IsLatentSplit blocks (fun i => w0 i - v i) z ∧ ∀ w' z', IsLatentSplit blocks w' z' →
      latentCost r w0 (fun i => w0 i - v i) z + 1 / 2 * ∑ i, (w' i - (w0 i - v i)) ^ 2 ≤
        latentCost r w0 w' z' + ∑ g, x g * (r g * Real.sqrt (∑ i ∈ blocks g, v i ^ 2)
          - ∑ i ∈ blocks g, v i ^ 2) := by
  refine ⟨fun g i => if i ∈ blocks g then x g * v i else 0, ⟨fun i => ?_, fun g i hi => if_neg hi⟩, ?_⟩
  · have : ∀ g, (if i ∈ blocks g then x g * v i else 0) = v i * (if i ∈ blocks g then x g else 0) := by
      intro g; split_ifs <;> ring
    simp only [this]
    rw [← Finset.mul_sum]
    have := hv i
    unfold blockSum at this
    linarith
  intro w' z' hz'
  unfold latentCost
  -- the cost of the splitting built from the multipliers
  have hz : ∀ g, Real.sqrt (∑ i, (if i ∈ blocks g then x g * v i else 0) ^ 2) =
      x g * Real.sqrt (∑ i ∈ blocks g, v i ^ 2) := by
    intro g
    have e : ∀ i, (if i ∈ blocks g then x g * v i else 0) ^ 2 =
        if i ∈ blocks g then x g ^ 2 * v i ^ 2 else 0 := by
      intro i; split_ifs <;> ring
    simp only [e]
    rw [Finset.sum_ite_mem, Finset.univ_inter, ← Finset.mul_sum, Real.sqrt_mul (sq_nonneg _),
      Real.sqrt_sq (hx g)]
  simp only [hz]
  -- the other splitting costs at least its inner product with `v`
  have hcs : ∀ g, ∑ i, v i * z' g i ≤ r g * Real.sqrt (∑ i, z' g i ^ 2) := by
    intro g
    have e1 : ∑ i, v i * z' g i = ∑ i ∈ blocks g, v i * z' g i := by
      rw [← Finset.sum_subset (Finset.subset_univ (blocks g))]
      intro i _ hi
      rw [hz'.2 g i hi, mul_zero]
    have e2 : ∑ i, z' g i ^ 2 = ∑ i ∈ blocks g, z' g i ^ 2 := by
      rw [← Finset.sum_subset (Finset.subset_univ (blocks g))]
      intro i _ hi
      rw [hz'.2 g i hi]; ring
    rw [e1, e2]
    have h1 := Finset.sum_mul_sq_le_sq_mul_sq (blocks g) v (z' g)
    have h2 : (∑ i ∈ blocks g, v i * z' g i) ^ 2 ≤ r g ^ 2 * ∑ i ∈ blocks g, z' g i ^ 2 :=
      h1.trans (mul_le_mul_of_nonneg_right (hfeas g) (Finset.sum_nonneg fun i _ => sq_nonneg _))
    have h3 := Real.abs_le_sqrt h2
    rw [Real.sqrt_mul (sq_nonneg _), Real.sqrt_sq (hr g)] at h3
    exact (le_abs_self _).trans h3
  have hcs' : ∑ i, v i * w' i ≤ ∑ g, r g * Real.sqrt (∑ i, z' g i ^ 2) := by
    calc ∑ i, v i * w' i = ∑ g, ∑ i, v i * z' g i := by
          rw [Finset.sum_comm]
          exact Finset.sum_congr rfl fun i _ => by rw [hz'.1 i, Finset.mul_sum]
      _ ≤ _ := Finset.sum_le_sum fun g _ => hcs g
  have hvw : ∑ i, v i * (w0 i - v i) = ∑ g, x g * ∑ i ∈ blocks g, v i ^ 2 := by
    rw [sum_blockSum]
    exact Finset.sum_congr rfl fun i _ => by rw [hv i]; ring
  have hquad : ∑ i, (w0 i - v i - w0 i) ^ 2 + ∑ i, (w' i - (w0 i - v i)) ^ 2 =
      ∑ i, (w' i - w0 i) ^ 2 + 2 * (∑ i, v i * w' i) - 2 * ∑ i, v i * (w0 i - v i) := by
    simp only [Finset.mul_sum, ← Finset.sum_add_distrib, ← Finset.sum_sub_distrib]
    exact Finset.sum_congr rfl fun i _ => by ring
  have hgap : ∑ g, x g * (r g * Real.sqrt (∑ i ∈ blocks g, v i ^ 2) - ∑ i ∈ blocks g, v i ^ 2) =
      (∑ g, r g * (x g * Real.sqrt (∑ i ∈ blocks g, v i ^ 2))) - ∑ g, x g * ∑ i ∈ blocks g, v i ^ 2 := by
    rw [← Finset.sum_sub_distrib]
    exact Finset.sum_congr rfl fun g _ => by ring
  rw [hgap]
  linarith

/-- Complementary multipliers give the proximal point, and only that point. -/
theorem latent_kkt (blocks : ι → Finset κ) (r : ι → ℝ) (w0 v : κ → ℝ) {x : ι → ℝ} (hx : ∀ g, 0 ≤ x g)
    (hr : ∀ g, 0 ≤ r g) (hv : ∀ i, w0 i = (1 + blockSum blocks x i) * v i)
    (hfeas : ∀ g, ∑ i ∈ blocks g, v i ^ 2 ≤ r g ^ 2)
    (hcomp : ∀ g, 0 < x g → ∑ i ∈ blocks g, v i ^ 2 = r g ^ 2) :
    IsLatentProx blocks r w0 (fun i => w0 i - v i) ∧
      ∀ w, IsLatentProx blocks r w0 w → w = fun i => w0 i - v i := by
  obtain ⟨z, hz, h⟩ := latent_gap blocks r w0 v hx hr hv hfeas
  have hgap : ∑ g, x g * (r g * Real.sqrt (∑ i ∈ blocks g, v i ^ 2) - ∑ i ∈ blocks g, v i ^ 2) = 0 := by
    refine Finset.sum_eq_zero fun g _ => ?_
    rcases (hx g).lt_or_eq with h0 | h0
    · rw [hcomp g h0, Real.sqrt_sq (hr g)]; ring
    · rw [← h0, zero_mul]
  rw [hgap] at h
  simp only [add_zero] at h
  refine ⟨⟨z, hz, fun w' z' hz' => ?_⟩, fun w hw => ?_⟩
  · have := h w' z' hz'
    have h2 : 0 ≤ ∑ i, (w' i - (w0 i - v i)) ^ 2 := Finset.sum_nonneg fun i _ => sq_nonneg _
    linarith
  · obtain ⟨z', hz', hmin⟩ := hw
    have h1 := h w z' hz'
    have h2 := hmin _ z hz
    have h3 : ∑ i, (w i - (w0 i - v i)) ^ 2 ≤ 0 := by linarith
    have h4 := (Finset.sum_eq_zero_iff_of_nonneg fun i _ => sq_nonneg (w i - (w0 i - v i))).mp
      (le_antisymm h3 (Finset.sum_nonneg fun i _ => sq_nonneg _))
    funext i
    have := h4 i (Finset.mem_univ i)
    rw [pow_eq_zero_iff two_ne_zero] at this
    linarith

end Kkt

/-! ### Shape of the result -/

/-- The contract of `linalg.pinv` on symmetric matrices. -/
def KwPinv (kw : GloKw) : Prop :=
  ∀ (J : Type) [Fintype J] [DecidableEq J] (M : Matrix J J ℝ), Mᵀ = M → IsPinv M (kw.pinv J M)

/-- Search parameters for which the line search is an Armijo rule; the defaults qualify. -/
structure KwParams (kw : GloKw) : Prop where
  beta_pos : 0 < kw.beta
  beta_lt : kw.beta < 1
  sBeta_pos : 0 < kw.sBeta
  sigma_nonneg : 0 ≤ kw.sigma
  sigma_lt : kw.sigma < 1
  epsilon_nonneg : 0 ≤ kw.epsilon

/-- The defaults of the signature with some pseudo-inverse. -/
theorem exists_kw : ∃ kw : GloKw, KwPinv kw ∧ KwParams kw ∧ kw.beta = 1 / 2 ∧ kw.sigma = 1 / 10 ∧
    kw.sBeta = 1 ∧ kw.epsilon = 1 / 1000 := by
  classical
  let pv : (J : Type) → [Fintype J] → [DecidableEq J] → Matrix J J ℝ → Matrix J J ℝ :=
    fun J _ _ M => if h : Mᵀ = M then Classical.choose (exists_pinv (M := M) h) else 0
  refine ⟨{ pinv := pv }, ?_, ?_, rfl, rfl, rfl, rfl⟩
  · intro J _ _ M hM
    show IsPinv M (pv J M)
    simp only [pv]
    rw [dif_pos hM]
    exact Classical.choose_spec (exists_pinv (M := M) hM)
  · constructor <;> norm_num

section Shape

variable {κ : Type*} [Fintype κ] [DecidableEq κ] {B : ℕ}

theorem gloArgs_pinv {kw : GloKw} (h : KwPinv kw) (w0 : κ → ℝ) (tau : ℝ) (blocks : Fin B → Finset κ)
    (weights : Fin B → ℝ) (tol : ℝ) : PinvOk (gloArgs kw w0 tau blocks weights tol) :=
  fun _ M hM => h _ M hM

theorem gloArgs_params {kw : GloKw} (h : KwParams kw) (w0 : κ → ℝ) (tau : ℝ) (blocks : Fin B → Finset κ)
    (weights : Fin B → ℝ) (tol : ℝ) : GloParams (gloArgs kw w0 tau blocks weights tol) :=
  ⟨h.beta_pos, h.beta_lt, h.sBeta_pos, h.sigma_nonneg, h.sigma_lt, h.epsilon_nonneg⟩

theorem gloArgs_block (kw : GloKw) (w0 : κ → ℝ) {tau : ℝ} (blocks : Fin B → Finset κ)
    {weights : Fin B → ℝ} (tol : ℝ) (hr : ∀ g, weights g * tau ≠ 0)
    (g : {g : Fin B // gloKeep w0 tau blocks weights g}) :
    ∃ i ∈ (gloArgs kw w0 tau blocks weights tol).blocks g,
      (gloArgs kw w0 tau blocks weights tol).w0 i ≠ 0 := by
  by_contra hc
  push Not at hc
  have h1 : ∑ i ∈ blocks g, w0 i ^ 2 = 0 := Finset.sum_eq_zero fun i hi => by
    have : w0 i = 0 := hc i hi
    rw [this]; ring
  have h2 := g.2
  unfold gloKeep at h2
  rw [h1, Real.sqrt_zero] at h2
  have h3 : 0 < (weights g * tau) ^ 2 := by have := hr g; positivity
  linarith

/-- Multipliers of the kept blocks, extended by zero. -/
noncomputable def extend (w0 : κ → ℝ) (tau : ℝ) (blocks : Fin B → Finset κ) (weights : Fin B → ℝ)
    (lam : {g : Fin B // gloKeep w0 tau blocks weights g} → ℝ) (g : Fin B) : ℝ :=
  open Classical in if h : gloKeep w0 tau blocks weights g then lam ⟨g, h⟩ else 0

open Classical in
theorem sum_extend (w0 : κ → ℝ) (tau : ℝ) (blocks : Fin B → Finset κ) (weights : Fin B → ℝ)
    (lam : {g : Fin B // gloKeep w0 tau blocks weights g} → ℝ) (f : Fin B → ℝ → ℝ) (hf : ∀ g, f g 0 = 0) :
    ∑ g : {g : Fin B // gloKeep w0 tau blocks weights g}, f g (lam g) =
      ∑ g, f g (extend w0 tau blocks weights lam g) := by
  have h1 : ∑ g, f g (extend w0 tau blocks weights lam g) =
      ∑ g ∈ Finset.univ.filter (gloKeep w0 tau blocks weights), f g (extend w0 tau blocks weights lam g) := by
    symm
    refine Finset.sum_subset (Finset.filter_subset _ _) fun g _ hg => ?_
    have : ¬gloKeep w0 tau blocks weights g := fun h => hg (by simp [h])
    unfold extend
    rw [dif_neg this, hf]
  rw [h1, Finset.sum_subtype (p := gloKeep w0 tau blocks weights) _ (fun g => by simp)]
  refine Finset.sum_congr rfl fun g _ => ?_
  unfold extend
  rw [dif_pos g.2]

open Classical in
theorem gloS_extend (kw : GloKw) (w0 : κ → ℝ) (tau : ℝ) (blocks : Fin B → Finset κ) (weights : Fin B → ℝ)
    (tol : ℝ) (lam : {g : Fin B // gloKeep w0 tau blocks weights g} → ℝ) (i : κ) :
    gloS (gloArgs kw w0 tau blocks weights tol) lam i =
      blockSum blocks (extend w0 tau blocks weights lam) i :=
  sum_extend w0 tau blocks weights lam (fun g x => if i ∈ blocks g then x else 0) (by simp)

open Classical in
theorem gloDual_extend (kw : GloKw) (w0 : κ → ℝ) (tau : ℝ) (blocks : Fin B → Finset κ)
    (weights : Fin B → ℝ) (tol : ℝ) (lam : {g : Fin B // gloKeep w0 tau blocks weights g} → ℝ) :
    gloDual (gloArgs kw w0 tau blocks weights tol) lam =
      latentDual blocks (fun g => weights g * tau) w0 (extend w0 tau blocks weights lam) := by
  unfold gloDual latentDual
  simp only [gloS_extend]
  congr 1
  exact sum_extend w0 tau blocks weights lam (fun g x => (weights g * tau) ^ 2 * x) (by simp)

end Shape

/-! ### One pass -/

section Pass

variable {ι κ : Type*} [Fintype ι] [DecidableEq ι] [Fintype κ] [DecidableEq κ]

/-- A successful test means descent of the dual objective. -/
theorem glo_descent (a : GloArgs ι κ) (hq : GloParams a) {lam : ι → ℝ}
    (h : ∀ g, 0 ≤ lam g) {m : ℕ} (hm : ¬gloTest a lam m) :
    gloDual a (gloTrial a lam m) + a.sigma * (gloStep a m * gloXin a lam
      + gloXact a lam (gloTrial a lam m)) ≤ gloDual a lam ∧
    0 ≤ gloXact a lam (gloTrial a lam m) := by
  have hx : 0 ≤ gloXact a lam (gloTrial a lam m) := by
    refine Finset.sum_nonneg fun g hg => ?_
    have hg' : g ∉ gloInactive a lam := by simpa using hg
    obtain ⟨hgr, -⟩ := mem_active.mp hg'
    have hd : 0 ≤ gloDir a lam g := by
      unfold gloDir; rw [dif_neg hg']
      exact div_nonneg hgr.le (Finset.sum_nonneg fun i _ => gloTmp_nonneg a h i)
    refine mul_nonneg hgr.le (sub_nonneg.mpr (max_le (h g) ?_))
    nlinarith [gloStep_pos hq m]
  refine ⟨?_, hx⟩
  unfold gloTest at hm
  rw [not_lt, gloFdiff_eq a h (gloTrial_nonneg a lam m)] at hm
  linarith

/-- The state after a pass from nonnegative multipliers. -/
theorem gloBody_spec (a : GloArgs ι κ) (hq : GloParams a) (hp : PinvOk a)
    (hb : ∀ g, ∃ i ∈ a.blocks g, a.w0 i ≠ 0) (it : ℕ) {s : GloState ι} (h : ∀ g, 0 ≤ s.lamda g)
    (hh : s.hung = false) :
    (∀ g, 0 ≤ (gloBody a it s).1.lamda g) ∧ (gloBody a it s).1.hung = false ∧
      gloDual a (gloBody a it s).1.lamda ≤ gloDual a s.lamda := by
  obtain ⟨m, hm, -, ht, -⟩ := gloSearch_some a hq hp h hb
  unfold gloBody
  simp only [hm]
  split_ifs
  · exact ⟨h, hh, le_rfl⟩
  · refine ⟨gloTrial_nonneg a _ m, hh, ?_⟩
    obtain ⟨h1, h2⟩ := glo_descent a hq h ht
    have h3 := mul_nonneg hq.sigma_nonneg (add_nonneg (mul_nonneg (gloStep_pos hq m).le
      (gloXin_nonneg a hp h)) h2)
    linarith
  · exact ⟨h, hh, le_rfl⟩
  · refine ⟨gloTrial_nonneg a _ m, hh, ?_⟩
    obtain ⟨h1, h2⟩ := glo_descent a hq h ht
    have h3 := mul_nonneg hq.sigma_nonneg (add_nonneg (mul_nonneg (gloStep_pos hq m).le
      (gloXin_nonneg a hp h)) h2)
    linarith

theorem gloLoop_spec (a : GloArgs ι κ) (hq : GloParams a) (hp : PinvOk a)
    (hb : ∀ g, ∃ i ∈ a.blocks g, a.w0 i ≠ 0) (maxIter : ℕ) {lam : ι → ℝ} (h : ∀ g, 0 ≤ lam g) :
    (∀ g, 0 ≤ (gloLoop a maxIter lam).state.lamda g) ∧ (gloLoop a maxIter lam).state.hung = false ∧
      gloDual a (gloLoop a maxIter lam).state.lamda ≤ gloDual a lam :=
  runLoop_invariant (gloBody a) (fun s => (∀ g, 0 ≤ s.lamda g) ∧ s.hung = false ∧
      gloDual a s.lamda ≤ gloDual a lam)
    (fun it s hs => by
      obtain ⟨h1, h2, h3⟩ := gloBody_spec a hq hp hb it hs.1 hs.2.1
      exact ⟨h1, h2, h3.trans hs.2.2⟩) maxIter ⟨h, rfl, le_rfl⟩

end Pass

/-! ### The whole call -/

section Call

variable {κ : Type*} [Fintype κ] [DecidableEq κ] {B : ℕ}

/-- `glo_prox` returns, and its result is determined by nonnegative multipliers that vanish on the blocks
taken out beforehand. -/
theorem gloProx_ok {kw : GloKw} (hq : KwParams kw) (hp : KwPinv kw) (w0 : κ → ℝ) {tau : ℝ}
    (blocks : Fin B → Finset κ) {weights : Fin B → ℝ} (hr : ∀ g, weights g * tau ≠ 0)
    {lamda0 : Option (Fin B → ℝ)} {lam0 : Fin B → ℝ} (hs : gloStart lamda0 = .ok lam0)
    (h0 : ∀ g, 0 ≤ lam0 g) (tol : ℝ) (maxIter : ℕ) :
    ∃ r, gloProx kw w0 tau blocks weights lamda0 tol maxIter = .ok r ∧ (∀ g, 0 ≤ r.lamda g) ∧
      (∀ g, ¬gloKeep w0 tau blocks weights g → r.lamda g = 0) ∧
      (∀ i, r.w i = w0 i * (1 - 1 / (1 + blockSum blocks r.lamda i))) ∧
      latentDual blocks (fun g => weights g * tau) w0 r.lamda ≤
        latentDual blocks (fun g => weights g * tau) w0
          (extend w0 tau blocks weights fun g => lam0 g) ∧
      r.lamda = extend w0 tau blocks weights
        (open Classical in gloLoop (gloArgs kw w0 tau blocks weights tol) maxIter fun g => lam0 g).state.lamda := by
  classical
  by_cases hc : Fintype.card {g : Fin B // gloKeep w0 tau blocks weights g} = 0
  · refine ⟨⟨fun _ => 0, 0, fun _ => 0⟩, ?_, fun _ => le_rfl, fun _ _ => rfl, fun i => ?_, ?_, ?_⟩
    · unfold gloProx
      simp only [hs]
      exact if_pos (by convert hc)
    · have : blockSum blocks (fun _ : Fin B => (0 : ℝ)) i = 0 :=
        Finset.sum_eq_zero fun g _ => by simp
      rw [this]; simp
    · have he : (extend w0 tau blocks weights fun g => lam0 g) = fun _ => 0 := by
        funext g
        unfold extend
        rw [dif_neg]
        intro hk
        exact (Fintype.card_eq_zero_iff.mp hc).elim ⟨g, hk⟩
      rw [he]
    · funext g
      unfold extend
      rw [dif_neg]
      intro hk
      exact (Fintype.card_eq_zero_iff.mp hc).elim ⟨g, hk⟩
  · obtain ⟨h1, h2, h3⟩ := gloLoop_spec (gloArgs kw w0 tau blocks weights tol)
      (gloArgs_params hq w0 tau blocks weights tol) (gloArgs_pinv hp w0 tau blocks weights tol)
      (gloArgs_block kw w0 blocks tol hr) maxIter (lam := fun g => lam0 g) fun g => h0 g
    refine ⟨⟨gloPrimal (gloArgs kw w0 tau blocks weights tol)
        (gloLoop (gloArgs kw w0 tau blocks weights tol) maxIter fun g => lam0 g).state.lamda,
        (gloLoop (gloArgs kw w0 tau blocks weights tol) maxIter fun g => lam0 g).lastIter.getD 0,
        extend w0 tau blocks weights
          (gloLoop (gloArgs kw w0 tau blocks weights tol) maxIter fun g => lam0 g).state.lamda⟩,
      ?_, fun g => ?_, fun g hg => dif_neg hg, fun i => ?_, ?_, rfl⟩
    · unfold gloProx
      simp only [hs]
      rw [if_neg (by convert hc)]
      have : ¬(gloLoop (gloArgs kw w0 tau blocks weights tol) maxIter fun g => lam0 g).state.hung = true := by
        rw [h2]; simp
      convert if_neg this using 1
      congr 2
    · show 0 ≤ extend w0 tau blocks weights _ g
      unfold extend
      split_ifs with h
      · exact h1 ⟨g, h⟩
      · exact le_rfl
    · show w0 i * _ = _
      rw [gloS_extend]
    · rw [gloDual_extend, gloDual_extend] at h3
      exact h3

/-- Starting multipliers that a call can have: none given, or one nonnegative number. -/
theorem gloStart_none (B : ℕ) : gloStart (none : Option (Fin B → ℝ)) = .ok fun _ => 0 := rfl

/-- **C162** every call of `glo_prox` returns: no line search runs forever. -/
theorem C162_search_ends {kw : GloKw} (hq : KwParams kw) (hp : KwPinv kw) (w0 : κ → ℝ) {tau : ℝ}
    (blocks : Fin B → Finset κ) {weights : Fin B → ℝ} (hr : ∀ g, weights g * tau ≠ 0)
    {lamda0 : Option (Fin B → ℝ)} {lam0 : Fin B → ℝ} (hs : gloStart lamda0 = .ok lam0)
    (h0 : ∀ g, 0 ≤ lam0 g) (tol : ℝ) (maxIter : ℕ) :
    ∃ r, gloProx kw w0 tau blocks weights lamda0 tol maxIter = .ok r := by
  obtain ⟨r, hr, -⟩ := gloProx_ok hq hp w0 blocks hr hs h0 tol maxIter
  exact ⟨r, hr⟩

/-- **C163** the returned multipliers are nonnegative and have a dual objective no larger than at the
start; the returned point shrinks `w0` towards zero coordinate by coordinate, without changing signs, and
is zero outside the blocks. -/
theorem C163_shrinks {kw : GloKw} (hq : KwParams kw) (hp : KwPinv kw) (w0 : κ → ℝ) {tau : ℝ}
    (blocks : Fin B → Finset κ) {weights : Fin B → ℝ} (hr : ∀ g, weights g * tau ≠ 0)
    (tol : ℝ) (maxIter : ℕ) :
    ∃ r, gloProx kw w0 tau blocks weights none tol maxIter = .ok r ∧ (∀ g, 0 ≤ r.lamda g) ∧
      latentDual blocks (fun g => weights g * tau) w0 r.lamda ≤ ∑ i, w0 i ^ 2 ∧
      (∀ i, 0 ≤ r.w i * w0 i ∧ |r.w i| ≤ |w0 i|) ∧ ∀ i, (∀ g, i ∉ blocks g) → r.w i = 0 := by
  obtain ⟨r, h1, h2, -, h4, h5, -⟩ := gloProx_ok hq hp w0 blocks hr (gloStart_none B) (fun _ => le_rfl) tol
    maxIter
  refine ⟨r, h1, h2, h5.trans (le_of_eq ?_), fun i => ?_, fun i hi => ?_⟩
  · have he : (extend w0 tau blocks weights fun _ => (0 : ℝ)) = fun _ => 0 := by
      funext g; unfold extend; split_ifs <;> rfl
    rw [he]
    unfold latentDual blockSum
    simp
  · have hs := blockSum_nonneg blocks h2 i
    rw [h4 i]
    have e : 1 - 1 / (1 + blockSum blocks r.lamda i) =
        blockSum blocks r.lamda i / (1 + blockSum blocks r.lamda i) := by
      field_simp; ring
    rw [e]
    have hq0 : 0 ≤ blockSum blocks r.lamda i / (1 + blockSum blocks r.lamda i) := by positivity
    have hq1 : blockSum blocks r.lamda i / (1 + blockSum blocks r.lamda i) ≤ 1 :=
      (div_le_one (by linarith)).mpr (by linarith)
    constructor
    · nlinarith [mul_nonneg hq0 (sq_nonneg (w0 i))]
    · rw [abs_mul, abs_of_nonneg hq0]
      nlinarith [abs_nonneg (w0 i)]
  · have : blockSum blocks r.lamda i = 0 := Finset.sum_eq_zero fun g _ => if_neg (hi g)
    rw [h4 i, this]; simp

end Call

section Pass2

variable {ι κ : Type*} [Fintype ι] [DecidableEq ι] [Fintype κ] [DecidableEq κ]

/-- **C163** (per pass) a pass that changes the multipliers strictly lowers the dual objective. -/
theorem C163_strict (a : GloArgs ι κ) (hq : GloParams a) (hσ : 0 < a.sigma) (hp : PinvOk a)
    {lam : ι → ℝ} (h : ∀ g, 0 ≤ lam g) (hb : ∀ g, ∃ i ∈ a.blocks g, a.w0 i ≠ 0) {m : ℕ}
    (hm : gloSearch a lam = some m) (hne : gloTrial a lam m ≠ lam) :
    gloDual a (gloTrial a lam m) < gloDual a lam := by
  obtain ⟨m', hm', -, ht, -⟩ := gloSearch_some a hq hp h hb
  rw [hm] at hm'
  obtain rfl := Option.some.inj hm'
  obtain ⟨h1, h2⟩ := glo_descent a hq h ht
  have hst := gloStep_pos hq m
  have hx := gloXin_nonneg a hp h
  by_contra hc
  rw [not_lt] at hc
  have hz : gloStep a m * gloXin a lam + gloXact a lam (gloTrial a lam m) ≤ 0 := by
    by_contra h3
    rw [not_le] at h3
    have := mul_pos hσ h3
    linarith
  have hx0 : gloXin a lam ≤ 0 := by
    by_contra h3
    rw [not_le] at h3
    have := mul_pos hst h3
    linarith
  have hp0 := gloP_of_xin a hp h hx0
  have hxa : gloXact a lam (gloTrial a lam m) = 0 := by
    have := mul_nonneg hst.le hx
    linarith
  have hnn : ∀ g ∈ (gloInactive a lam)ᶜ, 0 ≤ gloGrad a lam g * (lam g - gloTrial a lam m g) := by
    intro g hg
    have hg' : g ∉ gloInactive a lam := by simpa using hg
    obtain ⟨hgr, -⟩ := mem_active.mp hg'
    have hd : 0 ≤ gloDir a lam g := by
      unfold gloDir; rw [dif_neg hg']
      exact div_nonneg hgr.le (Finset.sum_nonneg fun i _ => gloTmp_nonneg a h i)
    refine mul_nonneg hgr.le (sub_nonneg.mpr (max_le (h g) ?_))
    nlinarith
  have hz' := (Finset.sum_eq_zero_iff_of_nonneg hnn).mp hxa
  refine hne (funext fun g => ?_)
  by_cases hg : g ∈ gloInactive a lam
  · unfold gloTrial
    rw [gloDir_in a lam ⟨g, hg⟩, hp0]
    simp [h g]
  · have h3 := hz' g (by simpa using hg)
    obtain ⟨hgr, -⟩ := mem_active.mp hg
    rcases mul_eq_zero.mp h3 with h4 | h4
    · exact absurd h4 hgr.ne'
    · linarith

/-- The optimality conditions of the dual problem. -/
def GloKkt (a : GloArgs ι κ) (lam : ι → ℝ) : Prop :=
  ∀ g, (0 < lam g → gloGrad a lam g = 0) ∧ (lam g = 0 → 0 ≤ gloGrad a lam g)

/-- Optimal multipliers are left unchanged by every trial. -/
theorem glo_fixed_of_kkt (a : GloArgs ι κ) (hq : GloParams a) {lam : ι → ℝ}
    (h : ∀ g, 0 ≤ lam g) (hk : GloKkt a lam) (m : ℕ) : gloTrial a lam m = lam := by
  funext g
  have hJ : (fun j : gloInactive a lam => gloGrad a lam j) = 0 := by
    funext j
    rcases (h j).lt_or_eq with hl | hl
    · exact (hk j).1 hl
    · rcases mem_inactive.mp j.2 with h1 | h1
      · exact le_antisymm h1 ((hk j).2 hl.symm)
      · exact absurd h1 (by rw [← hl]; exact not_lt.mpr (gloEpsk_nonneg hq.epsilon_nonneg lam))
  unfold gloTrial
  by_cases hg : g ∈ gloInactive a lam
  · have : gloDir a lam g = 0 := by
      rw [gloDir_in a lam ⟨g, hg⟩]
      unfold gloP
      rw [hJ, Matrix.mulVec_zero]
      rfl
    rw [this]
    simp [h g]
  · obtain ⟨hgr, -⟩ := mem_active.mp hg
    have hl : lam g = 0 := by
      rcases (h g).lt_or_eq with hl | hl
      · exact absurd ((hk g).1 hl) hgr.ne'
      · exact hl.symm
    have hd : 0 ≤ gloDir a lam g := by
      unfold gloDir; rw [dif_neg hg]
      exact div_nonneg hgr.le (Finset.sum_nonneg fun i _ => gloTmp_nonneg a h i)
    rw [hl]
    exact max_eq_left (by nlinarith [gloStep_pos hq m])

theorem gloS_zeroExt (a : GloArgs ι κ) (J : Finset ι) (x : J → ℝ) (i : κ) :
    gloS a (fun g => if hg : g ∈ J then x ⟨g, hg⟩ else 0) i = gloSJ a J x i := by
  unfold gloS gloSJ
  rw [← Finset.sum_subset (Finset.subset_univ J), ← Finset.sum_coe_sort J]
  · exact Finset.sum_congr rfl fun g _ => by simp
  · intro g _ hg
    simp [hg]

/-- The columns of the kept blocks are independent on the features where `w0` is not zero. -/
def GloIndep (a : GloArgs ι κ) : Prop :=
  ∀ x : ι → ℝ, (∀ i, a.w0 i ≠ 0 → gloS a x i = 0) → x = 0

theorem gloHess_inj (a : GloArgs ι κ) {lam : ι → ℝ} (h : ∀ g, 0 ≤ lam g) (hind : GloIndep a)
    (J : Finset ι) {x : J → ℝ} (h0 : gloHess a lam J *ᵥ x = 0) : x = 0 := by
  have h1 := gloHess_quad a lam J x
  rw [h0, dotProduct_zero] at h1
  have hz := (Finset.sum_eq_zero_iff_of_nonneg fun i _ =>
    mul_nonneg (gloTmp_nonneg a h i) (sq_nonneg (gloSJ a J x i))).mp h1.symm
  have h2 := hind (fun g => if hg : g ∈ J then x ⟨g, hg⟩ else 0) fun i hi => by
    rw [gloS_zeroExt]
    rcases mul_eq_zero.mp (hz i (Finset.mem_univ i)) with h5 | h5
    · exact absurd h5 (gloTmp_pos a h hi).ne'
    · exact (pow_eq_zero_iff two_ne_zero).mp h5
  funext g
  have := congrFun h2 g
  rwa [dif_pos g.2] at this

/-- With independent blocks the direction solves the Newton system. -/
theorem gloP_solves (a : GloArgs ι κ) (hp : PinvOk a) {lam : ι → ℝ} (h : ∀ g, 0 ≤ lam g)
    (hind : GloIndep a) :
    gloHess a lam (gloInactive a lam) *ᵥ gloP a lam =
      fun j : gloInactive a lam => gloGrad a lam j := by
  have hM := gloHess_symm a lam (gloInactive a lam)
  have hx := hp _ _ hM
  have hc := hx.xm
  rw [Matrix.transpose_mul, hM, pinv_symm hM hx] at hc
  unfold gloP
  refine sub_eq_zero.mp (gloHess_inj a h hind _ ?_)
  rw [Matrix.mulVec_sub, sub_eq_zero, Matrix.mulVec_mulVec, Matrix.mulVec_mulVec, Matrix.mul_assoc, hc,
    ← Matrix.mul_assoc, hx.mxm]

/-- Conversely, when the blocks are independent. -/
theorem glo_kkt_of_fixed (a : GloArgs ι κ) (hq : GloParams a) (hp : PinvOk a) {lam : ι → ℝ}
    (h : ∀ g, 0 ≤ lam g) (hb : ∀ g, ∃ i ∈ a.blocks g, a.w0 i ≠ 0) (hind : GloIndep a) {m : ℕ}
    (hfix : gloTrial a lam m = lam) : GloKkt a lam := by
  have hst := gloStep_pos hq m
  have hpt : ∀ g, max 0 (lam g - gloStep a m * gloDir a lam g) = lam g := fun g => congrFun hfix g
  -- on the chosen blocks the gradient vanishes
  have hx0 : gloXin a lam ≤ 0 := by
    refine Finset.sum_nonpos fun g hg => ?_
    rcases le_total 0 (lam g - gloStep a m * gloDir a lam g) with h1 | h1
    · have h2 := hpt g
      rw [max_eq_right h1] at h2
      have h3 : gloDir a lam g = 0 := by
        have : gloStep a m * gloDir a lam g = 0 := by linarith
        exact (mul_eq_zero.mp this).resolve_left hst.ne'
      rw [h3, mul_zero]
    · have h2 := hpt g
      rw [max_eq_left h1] at h2
      rw [← h2, zero_sub, neg_nonpos] at h1
      have h3 : 0 ≤ gloDir a lam g := nonneg_of_mul_nonneg_right h1 hst
      have h4 : gloGrad a lam g ≤ 0 := by
        rcases mem_inactive.mp hg with h5 | h5
        · exact h5
        · exact absurd h5 (by rw [← h2]; exact not_lt.mpr (gloEpsk_nonneg hq.epsilon_nonneg lam))
      exact mul_nonpos_of_nonpos_of_nonneg h4 h3
  have hz := gloHess_of_xin a hp h hx0
  rw [gloP_solves a hp h hind] at hz
  intro g
  by_cases hg : g ∈ gloInactive a lam
  · have h0 : gloGrad a lam g = 0 := congrFun hz ⟨g, hg⟩
    exact ⟨fun _ => h0, fun _ => h0.ge⟩
  · obtain ⟨hgr, -⟩ := mem_active.mp hg
    refine ⟨fun hl => ?_, fun _ => hgr.le⟩
    exfalso
    obtain ⟨i, hi, hne⟩ := hb g
    have hD : 0 < ∑ i ∈ a.blocks g, gloTmp a lam i :=
      Finset.sum_pos' (fun i _ => gloTmp_nonneg a h i) ⟨i, hi, gloTmp_pos a h hne⟩
    have hd : 0 < gloDir a lam g := by
      unfold gloDir; rw [dif_neg hg]; exact div_pos hgr hD
    have h2 := hpt g
    have h3 : lam g - gloStep a m * gloDir a lam g < lam g := by nlinarith
    rcases le_total 0 (lam g - gloStep a m * gloDir a lam g) with h1 | h1
    · rw [max_eq_right h1] at h2; linarith
    · rw [max_eq_left h1] at h2; linarith

end Pass2

section Settled

variable {κ : Type*} [Fintype κ] [DecidableEq κ] {B : ℕ}

open Classical in
theorem gloGrad_extend (kw : GloKw) (w0 : κ → ℝ) (tau : ℝ) (blocks : Fin B → Finset κ) (weights : Fin B → ℝ)
    (tol : ℝ) (lam : {g : Fin B // gloKeep w0 tau blocks weights g} → ℝ)
    (g : {g : Fin B // gloKeep w0 tau blocks weights g}) :
    gloGrad (gloArgs kw w0 tau blocks weights tol) lam g = (weights g * tau) ^ 2 - ∑ i ∈ blocks g,
      (w0 i * (1 / (1 + blockSum blocks (extend w0 tau blocks weights lam) i))) ^ 2 := by
  unfold gloGrad
  simp only [gloS_extend]
  rfl

open Classical in
/-- Multipliers of the kept blocks that satisfy the optimality conditions give the proximal point for all
blocks, when the radii are at most one. -/
theorem glo_prox_of_kkt (kw : GloKw) (w0 : κ → ℝ) {tau : ℝ} (blocks : Fin B → Finset κ)
    {weights : Fin B → ℝ} (hr0 : ∀ g, 0 < weights g * tau) (hr1 : ∀ g, weights g * tau ≤ 1) (tol : ℝ)
    {lam : {g : Fin B // gloKeep w0 tau blocks weights g} → ℝ} (h : ∀ g, 0 ≤ lam g)
    (hk : GloKkt (gloArgs kw w0 tau blocks weights tol) lam) :
    IsLatentProx blocks (fun g => weights g * tau) w0
      (fun i => w0 i * (1 - 1 / (1 + blockSum blocks (extend w0 tau blocks weights lam) i))) ∧
    ∀ w, IsLatentProx blocks (fun g => weights g * tau) w0 w →
      w = fun i => w0 i * (1 - 1 / (1 + blockSum blocks (extend w0 tau blocks weights lam) i)) := by
  set x := extend w0 tau blocks weights lam with hxdef
  have hx : ∀ g, 0 ≤ x g := by
    intro g
    rw [hxdef]; unfold extend
    split_ifs with h1
    · exact h ⟨g, h1⟩
    · exact le_rfl
  have hs := blockSum_nonneg blocks hx
  have e : (fun i => w0 i * (1 - 1 / (1 + blockSum blocks x i))) =
      fun i => w0 i - w0 i * (1 / (1 + blockSum blocks x i)) := by funext i; ring
  rw [e]
  refine latent_kkt blocks (fun g => weights g * tau) w0 (fun i => w0 i * (1 / (1 + blockSum blocks x i)))
    hx (fun g => (hr0 g).le) (fun i => ?_) (fun g => ?_) fun g hg => ?_
  · have := hs i
    field_simp
  · by_cases hg : gloKeep w0 tau blocks weights g
    · have h1 := gloGrad_extend kw w0 tau blocks weights tol lam ⟨g, hg⟩
      rw [← hxdef] at h1
      have h2 : 0 ≤ gloGrad (gloArgs kw w0 tau blocks weights tol) lam ⟨g, hg⟩ := by
        rcases (h ⟨g, hg⟩).lt_or_eq with h3 | h3
        · exact ((hk _).1 h3).ge
        · exact (hk _).2 h3.symm
      rw [h1] at h2
      simpa using h2
    · unfold gloKeep at hg
      rw [not_le] at hg
      have hpos := hr0 g
      have h1 : (weights g * tau) ^ 2 ≤ weights g * tau := by nlinarith [hr1 g]
      have h2 : Real.sqrt (∑ i ∈ blocks g, w0 i ^ 2) < weights g * tau := lt_of_lt_of_le hg h1
      have h3 := (Real.sqrt_lt' hpos).mp h2
      refine le_trans (Finset.sum_le_sum fun i _ => ?_) h3.le
      have h4 := hs i
      rw [mul_pow]
      have h5 : (1 / (1 + blockSum blocks x i)) ^ 2 ≤ 1 := by
        rw [div_pow, one_pow, div_le_one (by positivity)]
        nlinarith
      nlinarith [sq_nonneg (w0 i)]
  · have hkeep : gloKeep w0 tau blocks weights g := by
      by_contra hc
      have : x g = 0 := by rw [hxdef]; unfold extend; rw [dif_neg hc]
      linarith
    have h1 := gloGrad_extend kw w0 tau blocks weights tol lam ⟨g, hkeep⟩
    rw [← hxdef] at h1
    have h2 : 0 < lam ⟨g, hkeep⟩ := by
      rw [hxdef] at hg; unfold extend at hg; rwa [dif_pos hkeep] at hg
    rw [(hk _).1 h2] at h1
    have h3 : (weights g * tau) ^ 2 = ∑ i ∈ blocks g, (w0 i * (1 / (1 + blockSum blocks x i))) ^ 2 := by
      linarith
    exact h3.symm

open Classical in
/-- **C164** (partial) for radii at most one and blocks that are independent on the nonzero features: if
one more pass of the Newton loop would leave the returned multipliers unchanged, the returned point is the
proximal point, and there is no other. Missing: radii above one and dependent blocks
(`C164_radius_false`, `C164_nested_false`). -/
theorem C164_settled_partial {kw : GloKw} (hq : KwParams kw) (hp : KwPinv kw) (w0 : κ → ℝ) {tau : ℝ}
    (blocks : Fin B → Finset κ) {weights : Fin B → ℝ} (hr0 : ∀ g, 0 < weights g * tau)
    (hr1 : ∀ g, weights g * tau ≤ 1)
    (hind : ∀ x : Fin B → ℝ, (∀ i, w0 i ≠ 0 → blockSum blocks x i = 0) → x = 0)
    {lamda0 : Option (Fin B → ℝ)} {lam0 : Fin B → ℝ} (hs : gloStart lamda0 = .ok lam0)
    (h0 : ∀ g, 0 ≤ lam0 g) {tol : ℝ} {maxIter : ℕ} {r : GloOut B κ}
    (hret : gloProx kw w0 tau blocks weights lamda0 tol maxIter = .ok r)
    (hset : ∃ m, gloTrial (gloArgs kw w0 tau blocks weights tol) (fun g => r.lamda g.1) m =
      fun g : {g : Fin B // gloKeep w0 tau blocks weights g} => r.lamda g.1) :
    IsLatentProx blocks (fun g => weights g * tau) w0 r.w ∧
      ∀ w, IsLatentProx blocks (fun g => weights g * tau) w0 w → w = r.w := by
  obtain ⟨r', h1, h2, h3, h4, -, -⟩ := gloProx_ok hq hp w0 blocks (fun g => (hr0 g).ne') hs h0 tol maxIter
  rw [hret] at h1
  obtain rfl := Except.ok.inj h1
  obtain ⟨m, hm⟩ := hset
  have hx : extend w0 tau blocks weights (fun g => r.lamda g) = r.lamda := by
    funext g
    unfold extend
    split_ifs with h5
    · rfl
    · exact (h3 g h5).symm
  have hi : GloIndep (gloArgs kw w0 tau blocks weights tol) := by
    intro x hx0
    have h5 := hind (extend w0 tau blocks weights x) fun i hi => by
      rw [← gloS_extend kw w0 tau blocks weights tol]
      exact hx0 i hi
    funext g
    have h6 := congrFun h5 g
    unfold extend at h6
    rwa [dif_pos g.2] at h6
  have hk := glo_kkt_of_fixed _ (gloArgs_params hq w0 tau blocks weights tol)
    (gloArgs_pinv hp w0 tau blocks weights tol) (fun g => h2 g)
    (gloArgs_block kw w0 blocks tol fun g => (hr0 g).ne') hi hm
  have h6 := glo_prox_of_kkt kw w0 blocks hr0 hr1 tol (fun g => h2 g) hk
  rw [hx] at h6
  have h7 : r.w = fun i => w0 i * (1 - 1 / (1 + blockSum blocks r.lamda i)) := funext h4
  rw [h7]
  exact h6

end Settled

/-! ### Wrong results -/

/-- **C164** (finding) the filter compares the norm of a block with the square of its radius: for radius 2
and `w0 = 3` the block is taken out and 0 is returned, whatever the tolerance and the budget; the proximal
point is 1. -/
theorem C164_radius_false : ∃ (w0 : Fin 1 → ℝ) (tau : ℝ) (blocks : Fin 1 → Finset (Fin 1)),
    ∀ (kw : GloKw) (tol : ℝ) (maxIter : ℕ), ∃ r,
      gloProx kw w0 tau blocks (fun _ => 1) none tol maxIter = .ok r ∧ r.w = (fun _ => 0) ∧
      IsLatentProx blocks (fun _ => 1 * tau) w0 (fun _ => 1) ∧
      ¬IsLatentProx blocks (fun _ => 1 * tau) w0 r.w := by
  classical
  refine ⟨fun _ => 3, 2, fun _ => Finset.univ, fun kw tol maxIter => ⟨⟨fun _ => 0, 0, fun _ => 0⟩, ?_, rfl, ?_⟩⟩
  · unfold gloProx
    simp only [gloStart_none]
    refine if_pos ?_
    rw [Fintype.card_eq_zero_iff]
    constructor
    rintro ⟨g, hg⟩
    unfold gloKeep at hg
    have h9 : Real.sqrt (∑ i ∈ (Finset.univ : Finset (Fin 1)), (3 : ℝ) ^ 2) = 3 := by
      rw [show (∑ i ∈ (Finset.univ : Finset (Fin 1)), (3 : ℝ) ^ 2) = 3 ^ 2 by simp]
      exact Real.sqrt_sq (by norm_num)
    rw [h9] at hg
    norm_num at hg
  · have h := latent_kkt (fun _ : Fin 1 => (Finset.univ : Finset (Fin 1))) (fun _ => 1 * (2 : ℝ))
      (fun _ => 3) (fun _ => 2) (x := fun _ => 1 / 2) (fun _ => by norm_num) (fun _ => by norm_num)
      (fun i => by
        have : blockSum (fun _ : Fin 1 => (Finset.univ : Finset (Fin 1))) (fun _ => (1 / 2 : ℝ)) i = 1 / 2 := by
          fin_cases i; simp [blockSum]
        rw [this]; norm_num) (fun g => by simp) (fun g _ => by simp)
    have e : (fun i : Fin 1 => (3 : ℝ) - 2) = fun _ => 1 := by funext i; norm_num
    rw [e] at h
    refine ⟨h.1, fun hc => ?_⟩
    have := congrFun (h.2 _ hc) 0
    norm_num at this

/-! The nested blocks `{0}`, `{1}`, `{0, 1}`. -/

/-- Blocks of the example. -/
def nestBlocks : Fin 3 → Finset (Fin 2) := ![{0}, {1}, {0, 1}]

/-- Sizes of the blocks, and the direction along which the multipliers of the example move. -/
def nestVec : Fin 3 → ℝ := ![1, 1, 2]

theorem nestVec_pos (g : Fin 3) : 0 < nestVec g := by fin_cases g <;> norm_num [nestVec]

theorem nest_sum (g : Fin 3) (c : ℝ) : ∑ _i ∈ nestBlocks g, c = nestVec g * c := by
  fin_cases g <;> simp [nestBlocks, nestVec]

theorem nest_blockSum (x : Fin 3 → ℝ) (i : Fin 2) :
    blockSum nestBlocks x i = x (if i = 0 then 0 else 1) + x 2 := by
  unfold blockSum
  rw [Fin.sum_univ_three]
  fin_cases i <;> simp [nestBlocks]

theorem nest_keep (g : Fin 3) : gloKeep (fun _ : Fin 2 => (2 : ℝ)) 1 nestBlocks (fun _ => 1) g := by
  unfold gloKeep
  rw [nest_sum g]
  refine Real.le_sqrt_of_sq_le ?_
  have : 1 ≤ nestVec g := by fin_cases g <;> norm_num [nestVec]
  nlinarith

/-- The kept blocks of the example: all of them. -/
abbrev NestIdx := {g : Fin 3 // gloKeep (fun _ : Fin 2 => (2 : ℝ)) 1 nestBlocks (fun _ => 1) g}

/-- The Newton method of the example. -/
noncomputable abbrev nestArgs (kw : GloKw) (tol : ℝ) : GloArgs NestIdx (Fin 2) :=
  gloArgs kw (fun _ : Fin 2 => (2 : ℝ)) 1 nestBlocks (fun _ => 1) tol

open Classical in
theorem nest_gloS (kw : GloKw) (tol : ℝ) (f : Fin 3 → ℝ) (i : Fin 2) :
    gloS (nestArgs kw tol) (fun g => f g.1) i = f (if i = 0 then 0 else 1) + f 2 := by
  rw [gloS_extend, ← nest_blockSum]
  congr 1
  funext g
  unfold extend
  rw [dif_pos (nest_keep g)]

open Classical in
theorem nest_S (kw : GloKw) (tol t : ℝ) (i : Fin 2) :
    gloS (nestArgs kw tol) (fun g => t * nestVec g.1) i = 3 * t := by
  rw [nest_gloS kw tol fun g => t * nestVec g]
  fin_cases i <;> simp [nestVec] <;> ring

open Classical in
theorem nest_grad (kw : GloKw) (tol t : ℝ) (g : NestIdx) :
    gloGrad (nestArgs kw tol) (fun g => t * nestVec g.1) g = 1 - nestVec g.1 * (4 / (1 + 3 * t) ^ 2) := by
  unfold gloGrad
  simp only [nest_S]
  show (1 * (1 : ℝ)) ^ 2 - ∑ _i ∈ nestBlocks g.1, (2 * (1 / (1 + 3 * t))) ^ 2 = _
  rw [nest_sum]
  generalize 1 + 3 * t = u
  ring

open Classical in
theorem nest_tmp (kw : GloKw) (tol t : ℝ) (i : Fin 2) :
    gloTmp (nestArgs kw tol) (fun g => t * nestVec g.1) i = 8 / (1 + 3 * t) ^ 3 := by
  unfold gloTmp
  rw [nest_S]
  show 2 * (2 : ℝ) ^ 2 * _ = _
  generalize 1 + 3 * t = u
  ring

open Classical in
theorem nest_inactive {kw : GloKw} (he : kw.epsilon ≤ 1 / 1000) (tol : ℝ) {t : ℝ} (ht : 0 ≤ t)
    (hu : (1 + 3 * t) ^ 2 ≤ 6) (g : NestIdx) :
    g ∈ gloInactive (nestArgs kw tol) fun g => t * nestVec g.1 := by
  rw [mem_inactive, nest_grad]
  by_cases h : 1 + 3 * t ≤ 2
  · left
    have h1 : 1 ≤ nestVec g.1 := by
      obtain ⟨g, hg⟩ := g
      fin_cases g <;> norm_num [nestVec]
    have h2 : 1 ≤ 4 / (1 + 3 * t) ^ 2 := by
      rw [le_div_iff₀ (by positivity)]; nlinarith
    nlinarith
  · right
    have h1 : 1 ≤ nestVec g.1 := by
      obtain ⟨g, hg⟩ := g
      fin_cases g <;> norm_num [nestVec]
    have h2 : gloEpsk (nestArgs kw tol) (fun g => t * nestVec g.1) ≤ kw.epsilon := min_le_left _ _
    have h3 : 1 / 3 < t := by linarith
    nlinarith

open Classical in
theorem nest_hess {kw : GloKw} (tol t : ℝ) {J : Finset NestIdx} (hJ : ∀ g, g ∈ J) (f : Fin 3 → ℝ) (c : ℝ)
    (hf : ∀ i : Fin 2, f (if i = 0 then 0 else 1) + f 2 = c) :
    gloHess (nestArgs kw tol) (fun g => t * nestVec g.1) J *ᵥ (fun g => f g.1.1) =
      fun g => 8 / (1 + 3 * t) ^ 3 * c * nestVec g.1.1 := by
  funext g
  rw [gloHess_mulVec]
  have h1 : ∀ i, gloSJ (nestArgs kw tol) J (fun g => f g.1.1) i = c := by
    intro i
    rw [← gloS_zeroExt, ← hf i, ← nest_gloS kw tol f]
    congr 1
    funext g
    rw [dif_pos (hJ g)]
  simp only [h1, nest_tmp]
  show ∑ _i ∈ nestBlocks g.1.1, 8 / (1 + 3 * t) ^ 3 * c = _
  rw [nest_sum]
  ring

open Classical in
theorem nest_dir {kw : GloKw} (hp : KwPinv kw) (he : kw.epsilon ≤ 1 / 1000) (tol : ℝ) {t : ℝ} (ht : 0 ≤ t)
    (hu : (1 + 3 * t) ^ 2 ≤ 6) (g : NestIdx) :
    gloDir (nestArgs kw tol) (fun g => t * nestVec g.1) g =
      ((1 + 3 * t) ^ 3 - 6 * (1 + 3 * t)) / 36 * nestVec g.1 := by
  have hJ := nest_inactive he tol ht hu
  have hM := gloHess_symm (nestArgs kw tol) (fun g => t * nestVec g.1)
    (gloInactive (nestArgs kw tol) fun g => t * nestVec g.1)
  have hx := gloArgs_pinv hp (fun _ : Fin 2 => (2 : ℝ)) 1 nestBlocks (fun _ => 1) tol _ _ hM
  have hu0 : 0 < 1 + 3 * t := by linarith
  set u := 1 + 3 * t with hudef
  set x := (u ^ 3 - 6 * u) / 36 with hxdef
  have hv : ∀ (c : ℝ) (i : Fin 2), c * nestVec (if i = 0 then 0 else 1) + c * nestVec 2 = 3 * c := by
    intro c i
    fin_cases i <;> simp [nestVec] <;> ring
  rw [gloDir_in _ _ ⟨g, hJ g⟩]
  have key := pinv_apply_eq hM hx (g := fun j => gloGrad (nestArgs kw tol) (fun g => t * nestVec g.1) j)
    (p := fun j => x * nestVec j.1.1) (y := fun j => x * u ^ 3 / 24 * nestVec j.1.1) ?_ ?_
  · exact congrFun key ⟨g, hJ g⟩
  · rw [nest_hess tol t hJ (fun g => x * u ^ 3 / 24 * nestVec g) (3 * (x * u ^ 3 / 24)) (hv _)]
    funext j
    rw [← hudef]
    field_simp
    ring
  · rw [nest_hess tol t hJ (fun g => x * nestVec g) (3 * x) (hv _)]
    rw [nest_hess tol t hJ (fun g => 8 / (1 + 3 * t) ^ 3 * (3 * x) * nestVec g)
      (3 * (8 / (1 + 3 * t) ^ 3 * (3 * x))) (hv _)]
    have hg : (fun j : (gloInactive (nestArgs kw tol) fun g => t * nestVec g.1) =>
        gloGrad (nestArgs kw tol) (fun g => t * nestVec g.1) j) =
        fun j => (fun g : Fin 3 => 1 - nestVec g * (4 / (1 + 3 * t) ^ 2)) j.1.1 := by
      funext j
      rw [nest_grad]
    rw [hg, nest_hess tol t hJ (fun g : Fin 3 => 1 - nestVec g * (4 / (1 + 3 * t) ^ 2)) (2 - 12 / u ^ 2)
      (by intro i; rw [← hudef]; fin_cases i <;> simp [nestVec] <;> ring)]
    funext j
    rw [← hudef, hxdef]
    field_simp
    ring

open Classical in
/-- One pass of the example moves along the same line and stops short of the point where the singular
system has nothing left to say. -/
theorem nest_pass {kw : GloKw} (hq : KwParams kw) (hp : KwPinv kw) (hb : kw.beta = 1 / 2) (hs : kw.sBeta = 1)
    (he : kw.epsilon ≤ 1 / 1000) (tol : ℝ) (it : ℕ) {s : GloState NestIdx} {t : ℝ} (ht : 0 ≤ t)
    (hu : (1 + 3 * t) ^ 2 ≤ 6) (hl : s.lamda = fun g => t * nestVec g.1) :
    ∃ t', 0 ≤ t' ∧ (1 + 3 * t') ^ 2 ≤ 6 ∧
      (gloBody (nestArgs kw tol) it s).1.lamda = fun g => t' * nestVec g.1 := by
  have hn : ∀ g : NestIdx, 0 ≤ t * nestVec g.1 := fun g => mul_nonneg ht (nestVec_pos g.1).le
  obtain ⟨m, hm, hm1, -, -⟩ := gloSearch_some (nestArgs kw tol) (gloArgs_params hq _ _ _ _ _)
    (gloArgs_pinv hp _ _ _ _ _) (lam := fun g => t * nestVec g.1) hn
    (gloArgs_block kw _ _ tol fun g => by norm_num)
  have hstep : 0 < gloStep (nestArgs kw tol) m ∧ gloStep (nestArgs kw tol) m ≤ 1 / 2 := by
    have : gloStep (nestArgs kw tol) m = (1 / 2 : ℝ) ^ m := by
      show kw.beta ^ m * kw.sBeta = _
      rw [hb, hs, mul_one]
    rw [this]
    refine ⟨by positivity, ?_⟩
    calc (1 / 2 : ℝ) ^ m ≤ (1 / 2 : ℝ) ^ 1 := pow_le_pow_of_le_one (by norm_num) (by norm_num) hm1
      _ = 1 / 2 := pow_one _
  have htrial : gloTrial (nestArgs kw tol) (fun g => t * nestVec g.1) m = fun g =>
      (t - gloStep (nestArgs kw tol) m * (((1 + 3 * t) ^ 3 - 6 * (1 + 3 * t)) / 36)) * nestVec g.1 := by
    funext g
    unfold gloTrial
    rw [nest_dir hp he tol ht hu]
    have h1 : (1 + 3 * t) ^ 3 - 6 * (1 + 3 * t) ≤ 0 := by nlinarith
    have h2 := nestVec_pos g.1
    have h3 : 0 ≤ t - gloStep (nestArgs kw tol) m * (((1 + 3 * t) ^ 3 - 6 * (1 + 3 * t)) / 36) := by
      nlinarith [mul_nonneg hstep.1.le (neg_nonneg.mpr h1)]
    have h4 : t * nestVec g.1 - gloStep (nestArgs kw tol) m
        * (((1 + 3 * t) ^ 3 - 6 * (1 + 3 * t)) / 36 * nestVec g.1) =
        (t - gloStep (nestArgs kw tol) m * (((1 + 3 * t) ^ 3 - 6 * (1 + 3 * t)) / 36)) * nestVec g.1 := by
      ring
    rw [h4]
    exact max_eq_right (mul_nonneg h3 h2.le)
  have hcard : ¬(gloInactive (nestArgs kw tol) s.lamda).card = 0 := by
    rw [hl]
    exact Finset.card_ne_zero_of_mem (nest_inactive he tol ht hu ⟨0, nest_keep 0⟩)
  refine ⟨t - gloStep (nestArgs kw tol) m * (((1 + 3 * t) ^ 3 - 6 * (1 + 3 * t)) / 36), ?_, ?_, ?_⟩
  · have h1 : (1 + 3 * t) ^ 3 - 6 * (1 + 3 * t) ≤ 0 := by nlinarith
    nlinarith [mul_nonneg hstep.1.le (neg_nonneg.mpr h1)]
  · set u := 1 + 3 * t with hudef
    have hu1 : 1 ≤ u := by rw [hudef]; linarith
    set k := gloStep (nestArgs kw tol) m
    have e : 1 + 3 * (t - k * ((u ^ 3 - 6 * u) / 36)) = u * (1 + k * (6 - u ^ 2) / 12) := by
      rw [hudef]; ring
    rw [e]
    have h1 : 0 ≤ 6 - u ^ 2 := by linarith
    have h2 : u * (1 + k * (6 - u ^ 2) / 12) ≤ u * (30 - u ^ 2) / 24 := by
      have : k * (6 - u ^ 2) ≤ 1 / 2 * (6 - u ^ 2) := mul_le_mul_of_nonneg_right hstep.2 h1
      nlinarith
    have h3 : 0 ≤ u * (1 + k * (6 - u ^ 2) / 12) := by
      have := mul_nonneg hstep.1.le h1
      positivity
    have h4 : (u * (30 - u ^ 2) / 24) ^ 2 ≤ 6 := by
      have h5 : 0 ≤ (6 - u ^ 2) * ((u ^ 2) ^ 2 - 54 * u ^ 2 + 576) := by
        refine mul_nonneg h1 ?_
        nlinarith
      nlinarith
    calc (u * (1 + k * (6 - u ^ 2) / 12)) ^ 2 ≤ (u * (30 - u ^ 2) / 24) ^ 2 :=
          pow_le_pow_left₀ h3 h2 2
      _ ≤ 6 := h4
  · unfold gloBody
    simp only [if_neg hcard]
    rw [if_neg (by norm_num), hl]
    simp only [hm]
    exact htrial

/-- **C164** (finding) with the blocks `{0}`, `{1}` and `{0, 1}`, radii 1 and `w0 = (2, 2)` the Newton
systems are singular and the pseudo-inverse hides part of the gradient: for every budget and every
tolerance both returned coordinates stay at least 1/10 below those of the proximal point. -/
theorem C164_nested_false {kw : GloKw} (hq : KwParams kw) (hp : KwPinv kw) (hb : kw.beta = 1 / 2)
    (hs : kw.sBeta = 1) (he : kw.epsilon ≤ 1 / 1000) :
    ∃ w, IsLatentProx nestBlocks (fun _ => 1 * (1 : ℝ)) (fun _ => 2) w ∧
      ∀ (tol : ℝ) (maxIter : ℕ), ∃ r,
        gloProx kw (fun _ : Fin 2 => (2 : ℝ)) 1 nestBlocks (fun _ => 1) none tol maxIter = .ok r ∧
        ∀ i, r.w i + 1 / 10 ≤ w i := by
  classical
  have hsq : Real.sqrt 2 * Real.sqrt 2 = 2 := Real.mul_self_sqrt (by norm_num)
  have hlo : 7 / 5 < Real.sqrt 2 := by
    rw [Real.lt_sqrt (by norm_num)]; norm_num
  have hhi : Real.sqrt 2 < 3 / 2 := by
    rw [Real.sqrt_lt' (by norm_num)]; norm_num
  have hv : ∀ g, ∑ i ∈ nestBlocks g, (fun _ : Fin 2 => Real.sqrt 2 / 2) i ^ 2 = nestVec g / 2 := by
    intro g
    rw [nest_sum g ((Real.sqrt 2 / 2) ^ 2)]
    have : (Real.sqrt 2 / 2) ^ 2 = 1 / 2 := by nlinarith
    rw [this]; ring
  have hprox := latent_kkt nestBlocks (fun _ => 1 * (1 : ℝ)) (fun _ => 2) (fun _ => Real.sqrt 2 / 2)
    (x := ![0, 0, 2 * Real.sqrt 2 - 1])
    (by intro g; fin_cases g <;> simp; linarith) (fun _ => by norm_num)
    (by
      intro i
      rw [nest_blockSum]
      fin_cases i <;> simp <;> nlinarith)
    (by intro g; rw [hv g]; fin_cases g <;> norm_num [nestVec])
    (by
      intro g hg
      rw [hv g]
      fin_cases g
      · simp at hg
      · simp at hg
      · norm_num [nestVec])
  refine ⟨_, hprox.1, fun tol maxIter => ?_⟩
  obtain ⟨r, h1, h2, -, h4, -, h6⟩ := gloProx_ok hq hp (fun _ : Fin 2 => (2 : ℝ)) nestBlocks
    (weights := fun _ => 1) (tau := 1) (fun g => by norm_num) (gloStart_none 3) (fun _ => le_rfl) tol maxIter
  refine ⟨r, h1, fun i => ?_⟩
  have hinv := runLoop_invariant (gloBody (nestArgs kw tol))
    (fun s => ∃ t, 0 ≤ t ∧ (1 + 3 * t) ^ 2 ≤ 6 ∧ s.lamda = fun g => t * nestVec g.1)
    (fun it s ⟨t, ht, hu, hl⟩ => by
      have := nest_pass hq hp hb hs he tol it ht hu hl
      convert this) maxIter (s := ⟨fun _ => 0, 0, false⟩)
    ⟨0, le_rfl, by norm_num, by funext g; simp⟩
  obtain ⟨t, ht, hu, hl⟩ := hinv
  have hlam : r.lamda = fun g => t * nestVec g := by
    rw [h6]
    funext g
    unfold extend
    rw [dif_pos (nest_keep g)]
    have := congrFun hl ⟨g, nest_keep g⟩
    unfold gloLoop
    convert this
  have hs3 : blockSum nestBlocks r.lamda i = 3 * t := by
    rw [hlam, nest_blockSum]
    fin_cases i <;> simp [nestVec] <;> ring
  rw [h4 i, hs3]
  have hu0 : 0 < 1 + 3 * t := by linarith
  have hu5 : 1 + 3 * t ≤ 49 / 20 := by nlinarith
  have h7 : 163 / 200 ≤ 2 * (1 / (1 + 3 * t)) := by
    rw [mul_one_div, le_div_iff₀ hu0]; linarith
  show 2 * (1 - 1 / (1 + 3 * t)) + 1 / 10 ≤ 2 - Real.sqrt 2 / 2
  have h8 : Real.sqrt 2 / 2 ≤ 71 / 100 := by
    have : Real.sqrt 2 ≤ 71 / 50 := by
      rw [Real.sqrt_le_left (by norm_num)]; norm_num
    linarith
  nlinarith

end Verif.Props
